# writes DESIGN.md from the text below, properties.jsonl and MANIFEST.json
import json,re,glob,os
P=[json.loads(l) for l in open('/verif/properties.jsonl')]
M={c['property']:c for c in json.load(open('/verif/MANIFEST.json'))['claims']}
HOW={}
def h(ids,model,how):
    for i in ids.split(): HOW[i]=(model,how)
h("C01","Model/Mem, Model/Vec (VView: ptr,size,step,conj)","induction over chains of view operations; addresses by integer arithmetic")
h("C02 C03","Model/Vec range checks, with C++ integer division and remainder (`tdiv`,`tmod`, `none` for a zero divisor)","equivalence of the code's test with a quantified range condition; witnesses by evaluation")
h("C04 C05 C06 C07 C14 C15","Model/Vec element loops on partial memory","induction on the trip count, with a frame condition for all other memory")
h("C08","Model/Vec, Model/Perm","induction on the interchange list; `Equiv.Perm` as specification")
h("C09 C10","Model/Sort (the library's `sort`, `std::sort` a parameter with its standard contract)","loop invariant of ConvertIndexToPermute; `List.Perm`, sortedness")
h("C11 C12 C13","Model/Vec search loops, sums, rescaled norm","loop invariants over ordered fields / the reals")
h("C16 C17 C18","Model/Mat (MView: ptr,cs,rs,si,sj,conj)","integer arithmetic on addresses; composition of views; induction")
h("C19","Model/Mat permuteRows with its blocking","induction over blocks; macro expansion modelled literally")
h("C20 C21 C22 C23 C24","Model/Perm","induction on the interchange list, group laws of `Equiv.Perm`")
h("C25","Model/PermHeap (heap of index arrays, owners, borrowers)","invariant over operation histories; witnesses outside the borrowing discipline")
h("C26","Model/Bareiss","minor (Sylvester) invariant by induction over the step, Mathlib `det`")
h("C27 C28","Model/LU (non-block, block, recursive)","loop invariants and well-founded induction over a field")
h("C29","Model/LUDiv","refinement of every operation to IsLU plus solver theorems")
h("C30 C51 C52","Model/Tri, Model/TriMul, Model/TriProd","strong induction over the recursion, every block size")
h("C31","Model/CH","loop invariants over an ordered star field; equivalence with positive definiteness")
h("C32","Model/LDL, Spec/LDL","invariant: permuted matrix = L D L† of the finished columns plus the Schur complement, kept by pivot exchanges, 1x1 and 2x2 steps and panels")
h("C33","Model/QR (HouseholderReflect)","case analysis over every branch, over ℝ and ℂ")
h("C34 C60","Model/QR, Model/QRDiv","strong induction over the recursion; unitary factors as products of reflections")
h("C59","Model/QRDiv (PackedQ)","refinement to products of reflections")
h("C35","Model/Givens","case analysis over every branch; vector and matrix forms by induction")
h("C36","Model/Band storage arithmetic","injectivity and bounds of the address map by integer arithmetic")
h("C37 C61 C62","Model/Band","views by integer arithmetic; loops over rows/columns/diagonals by induction")
h("C39 C63 C64 C65","Model/TriMat","region of stored elements (Lemmas/Region); induction over rows/columns")
h("C38 C66 C67 C68","Model/SymMat","region of stored elements; invariant over operation histories")
h("C40","Model/MatMatKern (RCC/CRC/CCC recursions), Model/MatMatBlock (packing, k-chunks, block loops), Model/MatMat (real/complex splitting, algorithm choice, wrapper)","induction over the recursion of every kernel; invariant of the packed blocks (each stale buffer entry is finite or zeroed); loop nest invariants over covered blocks; sums")
h("C47","Model/Conc (threads as programs of single memory accesses, any interleaving, shared allocator), Model/Omp (division of the work, the calls each thread makes), Lemmas/Impl* (every sequential function of the blocked product as such a program)","ownership invariant over all reachable states (each thread owns its block of C and its temporaries, A and B are shared read-only), partition lemma, well-founded termination of every schedule")
h("C70","Model/MatArith","row and column loop invariants over the vector theorems; temporaries as fresh memory")
h("C71","Model/MatVec","loop invariants for the row and column algorithms; case split of the wrapper")
h("C72","Model/Rank1","column loop invariant")
h("C73","Model/SymMM, Model/SymMMAlias","induction over the recursion; in place by the blocks each step leaves alone")
h("C74 C75","Model/LDLDiv","block-diagonal solve by induction over the blocks, regular because of the determinant; triangular solves of C30; decomposition of C32")
h("C76","Model/LDLDiv","closed form of the inverted blocks, X^dagger D X by induction over the recursive splitting, triangular inverse of C51, interchanges as a permutation of both indices")
h("C77","Model/CHDiv","U U^dagger and L L^dagger in place by induction over the recursive splitting (rank-k of C58, triangle products of C52), decomposition of C31, triangular solves of C30, inverse of C51")
h("C78","Model/InPlace","case distinction on the flags; the violation by two matrices with the same decomposition")
h("C79","Model/TriMM","loop invariants for the kernels, induction over the recursive splitting; the in-place products of C52 for the temporaries")
h("C80","Model/TriRK","induction over the recursive splitting with C58, C77 and C79")
h("C81","Model/SymMul","Vector product = lower triangle product (C79) + strict upper one; trimming of zeros as in C79; row loops by loop invariants; recursion on the split; block temporaries by induction on the block loop")
h("C41 C69","Model/VecArith","loop invariants with an ordering hypothesis; temporaries as fresh memory that is freed")
h("C42 C43","Model/IO (reader/writer state machines on character lists, styles as data)","round trip by induction over the written text; acceptance equivalences")
h("C44","Model/Div (divider flags and cache as a state machine)","invariant over operation histories")
h("C45","Model/ListInit","induction over the list; reference-count of consumed elements")
h("C46","Model/Arr","invariant over allocation histories, all malloc addresses")
h("C48","Model/Fun","algebra")
h("C49 C57","Model/Refs","algebra; laws of iterators by integer arithmetic")
h("C50","Model/Vec copy/assignment","induction on the trip count, alias conditions explicit")
h("C53 C54 C55 C56","Model/Mat","induction over rows/columns, majorness dispatch modelled")
h("C58","Model/SymRK","strong induction over the recursion and blocks")
h("C82","Model/Fallback","Partial run of the calls (C47) and the loop over slices by induction, then the simple products (C40); exact contents in all cases, counterexample on Gaussian integers")
h("C83","Model/Diag","Row and column loops by up_inv to a pointwise form; singular exits by induction; log-determinant loop of C29")
h("C84","Model/QRUpd","The update is the blocked QR decomposition of the stacked matrix, so the invariant QRSpec of C55 applies (reflect_pad: zeros do not influence the reflector)")
h("C85","Model/QRUpd","Invariant: the reflectors take the new R on the old A to the old R on the new A; unitarity gives the Gram identity and carries positive definiteness to the trailing block")
h("C86","Model/QRP","Invariant: the columns done so far are a QR decomposition of the interchanged matrix, norms of the rest are exact; the strict block algorithm is simulated by the unblocked one with ZYtA as pending update; the loose one needs a calculus of postponed interchanges (tail permutations)")
h("C87","Model/QRPDiv","The triangle is graded (nonzero diagonal, then zero rows) because each pivot column's norm exceeds the threshold; with it the truncated triangular solve gives least squares / minimal norm through the unitary Q; permutation sums are reindexed")
h("C88","Model/BandTri","The loop counters are shown to enclose the band; then each sum over the band equals the sum over the row or column of the triangle, and the dense solve invariants apply")
h("C89","Model/BandLU","Loop invariant: the matrix is a product of interchange/elimination factors and the working matrix, whose rows vanish beyond nlo+nhi superdiagonals; both algorithms are shown to perform the same abstract elimination step; the packed P*L is inverted factor by factor")
h("C90","Model/LUATA","matrix algebra on the specifications of the triangle inverse, the triangular solves and the packed P*L divisions; conjugation is an arbitrary star ring")
h("C91","Model/Rank2","loop invariants for the two triangles; a layout-independent update predicate carried through transposes, adjoints, conjugates, the temporary and the block recursion")
h("C92","Model/BandMV","loop invariants for the three traversals, for the in-place triangular products and for the trimming of zeros")
h("C93","Model/BandMM","loop invariants for the row, outer-product, column and tridiagonal algorithms; an invariant over the blocks of columns for the aliased case")
h("C94","Model/BandBB","loop invariants giving every loop variable in closed form (also the nine of DoDiagMultMM), then induction over the self-calls of MultMM")
h("C95","Model/BandQR","invariant of the column loop: the block of rows and columns a reflector touches is exactly what the band structure leaves nonzero; reflectors act as unitary maps")
h("C96","Model/BandQR","the decomposition of C95 turned into statements about normal equations; band triangular solves from BandTri; Q applied by loops whose row ranges are shown to cover the reflectors")
h("C97","Model/BandCH","the column and row loops restricted to the band are shown to simulate the dense Cholesky steps; the LDL loop by an invariant on the leading minors")
h("C98","Model/BandCH","C97 plus band triangular solves (C88) and symmetric rank-k products")
h("C99","Model/SymSq","induction over the halving recursion; the inverses of C76, C77, C98")
h("C100","Model/SVD","the quotients by the diagonal matrix (C83) are products with the reciprocals kept; Penrose conditions for U S^+ V; the loop of thresh by induction")
h("C101","Model/SVD","as C100; SymMultMM by C73; a unitary matrix that commutes with the squares of the singular values commutes with the cut")
h("C102","Model/Bidiag","invariant: A + F = Q C P^T with the reflectors so far and the elements C left; for the blocked version C is A - Y Z - W X of the stored panels")
h("C103","Model/SVQR","invariant BInv: A + F = U B V with fro F bounded by the number of dropped elements; every rotation and every dropped element keeps it; the loops by induction on the number of passes")
h("C104","Model/SVQR","frame part of the same invariants; a concrete run for the violation")
h("C105","Model/SVDec","composition of C102, C103 and the QR decomposition (C32 ff.); norms are kept by the orthonormal factors")
h("C106","Model/EigQR","invariant TInv: A + F = U T U^H with fro F bounded by the number of dropped elements; every rotation and every dropped element keeps it; the loops by induction on the number of passes")
h("C107","Model/Tridiag","one step: the reflector applied from both sides (HouseholderLRMult) keeps A + F = Q A' Q^H; the blocked loop is related to the unblocked one by the invariant A' = A - Y Z^H - Z Y^H of the pending rank 2 updates; induction on columns and blocks")
h("C108","Model/SymSV","C107 and C106 put together; sorting is a permutation of the columns; the conjugated view through the conjugate decomposition")
h("C109","Model/SymSV","from the eigenvalue decomposition with |S| descending; the signs are a diagonal unitary matrix that goes to Vt or to U")
h("C110","Model/SymSV","C108; R = U sqrt(S) U^H; |x^H F x| <= |F| |x|^2 for the error F")
h("C111","Model/SymSV","C105; U = W V, P = V^H S V; the dropped singular values are below eps N S(0) and S(0) is below |A| plus the error")
h("C112","Model/SmallDiv","the loops of DoLUD are related to the partial decomposition invariant of C27 by induction on the columns; the sign is that of the product of the transpositions")
h("C113","Model/SmallDiv","kernels proved on element functions, then carried to arrays of either storage order by a simulation relation; the square case from P L U = A, the others from A = Q R; a row-major copy is the transposed matrix")
h("C114","Model/SmallDiv","as C113")
h("C115","Model/SmallDiv","R^-1 R^-H from the QR decomposition; for the violation the frame of the writes, and a concrete row")
h("C116","Model/SmallProd, Model/SmallSum","the flat loops by one lemma for loops that change each element once; the views by the address of each element, and C70 for the branch that calls the library's AddMM")
h("C117","Model/SmallProd","the three loop orders (columns, rows, inner products) each refine the sum over k; induction on the outer loop")
h("C118","Model/SmallProd","as C117; v*m is m^T*v with the other storage order")
h("C119","Model/SmallProd","as C117")
h("C120","Model/TriSum","the triangle is partitioned into its rows or columns (Region.Parts); one lemma turns the per-vector results into the triangle's; temporaries by C70's allocator lemmas")
h("C121","Model/TriSum","C70 for the full matrices, C120 for the triangle, and a lemma that a triangle of C that changes leaves the rest")
h("C122","Model/TriSum","as C121; the product x*L is first evaluated into the composite's own array")
h("C123","Model/BandSum","the band is partitioned into its diagonals; a sum into a wider band is a sum into the narrowed view plus a frame lemma; the linear branch by a lemma that the packed length depends only on the shape; temporaries by C70's allocator lemmas and C36")
h("C124","Model/BandSum","C70 for the full matrices, C123 for the band, and a lemma that a band of C that changes leaves the rest")
h("C125","Model/SymSum","the upper triangle of the result by C120; a lemma that the upper triangle determines a symmetric matrix; a lemma that operands in the same square array satisfy C120's alias condition")
h("C126","Model/SymSum","two triangle assignments with a lemma for what the second one reads after the first; sums by C120 on the two triangles; temporaries by C70's allocator lemmas")
h("C127","Model/DiagTri.lean: both recursions, MultEqMM, AddMultMM, MultMM for both shapes and the transposing overloads, with Diag.mulM for the blocks","strong induction on the size; the block products from mulM_partial")
h("C128","Model/TriUU.lean: the three in-place kernels and the blocked recursion for upper and for lower matrices, the three accumulating kernels with their copies and recursion, TempMultMM, MultMM and the transposing overload; operands apart from, in the same triangle as, or in the opposite triangle to C","loop invariants per kernel (which rows or columns are done, the others unchanged), then strong induction over the blocks")
h("C129","Model/TriUL.lean: both column kernels with their diagonal cases and copies, the blocked recursions with the order of the off-diagonal blocks, MultMM","loop invariant (columns done, others unchanged), then strong induction over the blocks")
h("C130","Model/TriDivT.lean: the row and column kernels with implicit diagonals, the loop over columns, the block recursion, both shapes, the conj flag of B","the kernels are shown to run in step with the solve of a full matrix (C30) on the matrix the triangle stands for; loop invariant over columns; induction over the blocks")
h("C131","Model/SymBandSum.lean: ProdXsB::assignToB and the five AddMM of TMV_AddsBsB.cpp, with the array of C and the ways to share it","each function is shown equal to the elementwise formula, by cases on the sharing; concrete counterexamples for the rest")
h("C132","Model/MixSym.lean: assignToM/assignToS of SumDS, SumUS, SumLS, SumBS, SumsBS, ProdDS, ProdSD, ProdUS, ProdSU, ProdLS, ProdSL, QuotSD, RQuotSD, and += of a symmetric band matrix to a band matrix","the array of C after `C = S` is shown to hold S whatever triangle S was kept in; the rest by cases on SameStorage; concrete counterexamples for the wrong cases")
h("C133","Model/SymBandMul.lean: UnitAMultMV, NonBlasMultMV, MultMV, DoMultMM, FullTempMultMM, BlockTempMultMM, MultMM","a row times a vector is split into the lower band and the shifted upper band; the block loop by induction on the columns left; views by cases")
h("C134","Model/SymBandBB.lean: okij, hasSubBandMatrix, subBandMatrix, the width assertions of ProdBB, DoMultMM, TempMultMM, both MultMM","each view is shown to satisfy its assertions by arithmetic on the widths, and its elements to be those of the shifted band; rows split as in C133; transposition reduces the last case to the first")
h("C135","Model/TriDivAlias.lean: both doLDiv for vectors, TriLDivEq as substitution in memory, SameStorage","induction on the rows for substitution in any memory in which vector and matrix are apart; the temporary is a disjoint summand of the address space; upper from lower by reversing the indices")
exec(open('/verif/tools/design_more.py').read()) if os.path.exists('/verif/tools/design_more.py') else None
o=[]
w=o.append
w(open('/verif/tools/design_head.md').read().rstrip()+'\n')
w('## Properties: what is modelled, how it is proved, status\n')
for p in P:
    i=p['id']; c=M.get(i); mod,how=HOW.get(i,("",""))
    w(f"**{i} — {p['title']}.**  " )
    if c is None:
        w(f"Planned: {mod}; {how}.  Status: open (not yet modelled).\n")
    else:
        th=c['theorems']
        main=[t.replace('TMV.','') for t in th]
        vio=[t for t in main if t.endswith('_violated')]
        rest=[t for t in main if not t.endswith('_violated')]
        w(f"Modelled in {mod}; proved by {how}.  Status: {c['status']}."+(f"  {c['note'].rstrip('.')}." if c['note'] else ''))
        w(f"Theorems: {', '.join('`'+t+'`' for t in rest)}."+(f"  Witnesses against the code: {', '.join('`'+t+'`' for t in vio)}." if vio else '')+"\n")
w(open('/verif/tools/design_tail.md').read())
open('/verif/DESIGN.md','w').write('\n'.join(o))
miss=[p['id'] for p in P if p['id'] not in HOW]
print('DESIGN written; missing how:',miss)

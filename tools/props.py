import json
P=[]
def p(i,title,st,q,why,anc):
    P.append(dict(id=i,title=title,statement=st,quantifier=q,why_tests_cant=why,anchors=anc))
SZ="holds for every size / stride / content; tests sample a handful of shapes"
p("C01","Vector views stay inside their parent","Every element addressed by a vector view obtained by any chain of subVector/reverse/conjugate calls whose arguments pass the library's own range check is an element of the vector the chain started from, and distinct view indices address distinct elements.","all sizes, strides (positive or negative), offsets and chains of view operations","the chain length, strides and sizes are unbounded",["src/TMV_Vector.cpp:GenVector::hasSubVector","include/tmv/TMV_Vector.h:cSubVector,reverse"])
p("C02","subVector argument check is exact","hasSubVector(i1,i2,istep) accepts exactly the ranges all of whose elements exist (istep nonzero) and the check itself never has undefined behaviour.","all i1,i2,istep and sizes",SZ,["src/TMV_Vector.cpp:GenVector::hasSubVector"])
p("C03","Fortran-style ranges denote the same elements as the shifted C-style ranges","v.subVector(i1,i2,istep) with 1-based inclusive bounds selects exactly the same elements as the C-style call (i1-1,i2-1+istep,istep), and is accepted iff the latter is.","all i1,i2,istep and sizes",SZ,["src/TMV_Vector.cpp:ConstVectorView<T,FortranStyle>::hasSubVector","include/tmv/TMV_Vector.h"])
p("C04","Writes through a vector view change exactly the viewed element","Assigning x to element i of a (possibly strided, reversed, conjugated) view makes the view read back x at i, and leaves every other element of the underlying storage unchanged.","all views, memories, indices, values","unbounded sizes/strides; frame condition over all of memory",["include/tmv/TMV_Vector.h","src/TMV_Vector.cpp:VectorView::ref,cref"])
p("C05","setAllTo sets every viewed element to the given value and touches nothing else","After v.setAllTo(x), v(i)==x for every i and memory outside v is unchanged, for every view including conjugated ones.","all vector views and values",SZ,["src/TMV_Vector.cpp:VectorView::setAllTo"])
p("C06","addToAll, conjugateSelf, clip and setZero act element-wise and in place","Each of these operations replaces every viewed element by the documented function of its old value and touches nothing else.","all views, sizes, strides, conj flags",SZ,["src/TMV_Vector.cpp:addToAll,conjugateSelf,clip,setZero"])
p("C07","reverseSelf reverses the vector","After v.reverseSelf(), v(i) equals the old v(n-1-i); memory outside is untouched; applying it twice restores v.","all views",SZ,["src/TMV_Vector.cpp:reverseSelf"])
p("C08","permute and reversePermute are inverse rearrangements","v.permute(p) followed by v.reversePermute(p) restores v (and vice versa) for every valid interchange list; each only rearranges the elements.","all vectors, interchange lists and subranges",SZ,["src/TMV_Vector.cpp:DoPermute,DoReversePermute,DoSwap"])
p("C09","sort without a permutation sorts exactly the viewed elements","After v.sort(ad,comp) the elements of v are an ordered rearrangement of the old elements of v and nothing outside v changes.","all views (any stride), contents, orderings",SZ,["src/TMV_Vector.cpp:VectorView::sort"])
p("C10","sort with a Permutation returns the permutation that was applied","After v.sort(p,...), v is ordered, equals p applied to the old v, and p is a valid normalised interchange list (p[k]>=k).","all vectors; any correct sorting of the keys",SZ,["src/TMV_Vector.cpp:VectorView::sort","src/TMV_ConvertIndex.h:ConvertIndexToPermute"])
p("C11","min/max element functions return an extreme element and its index","min/max(Abs)Element(&i) returns the value at index i and no element is smaller/larger, for either stride sign; the empty vector gives index -1.","all vectors and strides",SZ,["src/TMV_Vector.cpp:doMinElement,doMaxElement,FindMinElement,FindMaxElement"])
p("C12","sums and norms do not depend on storage direction or conjugation","sumElements, normSq, sumAbsElements of a view equal the mathematical sums over its elements.","all views",SZ,["src/TMV_Vector.cpp:sumElements,normSq,sumAbsElements"])
p("C13","norm2 is invariant under the overflow/underflow rescaling","In exact arithmetic norm2() equals the Euclidean norm whichever rescaling branch is taken, and the rescaling loops terminate.","all vectors, all branch outcomes",SZ,["src/TMV_Vector.cpp:DoNorm2"])
p("C14","Swap exchanges two vectors","Swap(v1,v2) on disjoint views exchanges their elements (as seen through the conj flags) and touches nothing else.","all pairs of non-overlapping views",SZ,["src/TMV_Vector.cpp:Swap,DoSwap"])
p("C15","Vector equality is element-wise equality","v1==v2 returns true iff the sizes agree and all elements agree, for all strides and conj flags.","all pairs of views, possibly overlapping",SZ,["src/TMV_Vector.cpp:operator=="])
p("C16","Matrix views stay inside their parent and address the documented elements","Element (i,j) of any chain of subMatrix/rowRange/colRange/transpose/conjugate/row/col/diag views accepted by the library's checks is the documented element of the original matrix.","all matrices, chains of views",SZ,["src/TMV_Matrix.cpp:hasSubMatrix,hasSubVector","include/tmv/TMV_Matrix.h"])
p("C17","Linear views enumerate every matrix element exactly once","When canLinearize() holds, the linear view visits every element of the matrix exactly once and nothing else, so whole-matrix operations that use it agree with the row/column versions.","all shapes and strides",SZ,["include/tmv/TMV_Matrix.h:canLinearize,linearView","src/TMV_Matrix.cpp"])
p("C18","transposeSelf transposes in place","After m.transposeSelf(), m(i,j)==old m(j,i) for every square view; twice is the identity.","all square matrix views",SZ,["src/TMV_Matrix.cpp:transposeSelf"])
p("C19","permuteRows equals multiplication by the permutation, for every block size","m.permuteRows(p) gives P*m independent of the cache-blocking and reversePermuteRows undoes it.","all matrices, interchange lists, block sizes",SZ,["src/TMV_Matrix.cpp:permuteRows,reversePermuteRows"])
p("C20","Permutation element access agrees with applying the permutation","p(i,j) is 1 exactly when applying p to the j-th basis vector gives the i-th basis vector; every row and column has exactly one 1.","all normalised interchange lists and sizes",SZ,["include/tmv/TMV_Permutation.h:cref,apply,makeIndex"])
p("C21","Permutation inverse/transpose really invert","p.inverse() * (p * v) == v and p.inverse() is the transpose matrix of p.","all permutations and vectors",SZ,["include/tmv/TMV_Permutation.h:inverse,transpose,apply"])
p("C22","Permutation determinant is the sign of the permutation","p.det() equals the sign of the permutation that p applies (hence the determinant of its matrix).","all permutations",SZ,["include/tmv/TMV_Permutation.h:det"])
p("C23","Permutation trace counts fixed points","p.trace() is the trace of the permutation matrix.","all permutations",SZ,["include/tmv/TMV_Permutation.h:trace"])
p("C24","Permutation equality is equality of the permutations","p1==p2 iff they permute every vector identically, irrespective of which storage direction each uses.","all pairs of permutations of equal size",SZ,["include/tmv/TMV_Permutation.h:operator=="])
p("C25","Permutations own or share their memory safely","Documented: a mutable action on a Permutation never modifies another Permutation, and no operation reads freed or null memory.","all histories of construction, copy, assignment, inverse, resize, setToIdentity, read","histories are unbounded",["include/tmv/TMV_Permutation.h:operator=,setToIdentity,allocateMem,read,resize"])
p("C26","Integer determinants are exact","det() of an integer (or Gaussian-integer) matrix equals the mathematical determinant, and every division performed is exact, when intermediates do not overflow.","all square integer matrices of any size","no test can cover all integer matrices or sizes",["src/TMV_IntegerDet.cpp:Bareiss_1x1_IntegerDet,IntegerDet"])
p("C27","LU decomposition reproduces the matrix","For every matrix (square, tall or wide, singular or not) the computed P, L, U satisfy P*L*U = A in exact arithmetic, with L unit lower triangular and U upper triangular; recursive, blocked and unblocked versions all satisfy it.","all M x N matrices over a field, all block sizes",SZ,["src/TMV_LUDecompose.cpp"])
p("C28","LU pivoting bounds the multipliers","Every element of L computed by LU decomposition has absolute value at most 1.","all real matrices",SZ,["src/TMV_LUDecompose.cpp"])
p("C29","LU-based solve, inverse and determinant are correct","For every square A and right-hand side b, b/A and b%A either raise Singular or return the exact solution, and never raise if det A is nonzero; inverse() raises exactly for singular A and otherwise is the inverse; det() and logDet() give the determinant. Independent of storage order of A, of b and of the block sizes.","all square matrices and right-hand sides",SZ,["src/TMV_LUDiv.cpp","src/TMV_LUD.cpp","src/TMV_LUInverse.cpp","src/TMV_TriInverse.cpp","src/TMV_MultUL.cpp","src/TMV_DiagMatrix.cpp:logDet"])
p("C30","Triangular solves solve","v/=L, m/=U (unit or non-unit diagonal) return the exact solution of the triangular system whenever they return, do not raise when no diagonal element is zero, and raise SingularTriMatrix when one is.","all triangular systems",SZ,["src/TMV_TriDiv_V.cpp","src/TMV_TriDiv_M.cpp"])
p("C31","Cholesky decomposition is correct and detects non-positive-definite matrices","CH_Decompose gives L with L*L^dagger = A, and throws NonPosDef exactly when A is not positive definite (exact arithmetic).","all Hermitian matrices",SZ,["src/TMV_SymCHDecompose.cpp"])
p("C32","LDL decomposition reproduces the matrix","After LDL_Decompose of a symmetric or Hermitian matrix A (regular or singular, of any size, in panels or not): A = P L D L^T P^T (L^dagger for Hermitian A), where L is unit lower triangular, D is block diagonal with 1x1 and 2x2 blocks that do not overlap (and has real diagonal for Hermitian A), P is a list of interchanges in range; exp(logdet)*signdet is the determinant of A, and signdet is 0 exactly if A is singular; nothing outside the lower triangle is changed.","all symmetric/Hermitian matrices, real or complex, of all sizes, storage orders and block sizes",SZ,["src/TMV_SymLDLDecompose.cpp: LDL_Decompose, BlockLDL_Decompose, NonBlockLDL_Decompose","src/TMV_SymLDLPseudo.cpp: SymInvert_2x2"])
p("C33","Householder reflections are orthogonal and zero the vector","The reflector computed for x maps x to (beta0,0,...,0), and is unitary (an involution for real vectors), with the tracked determinant correct.","all vectors",SZ,["src/TMV_Householder.cpp"])
p("C34","QR decomposition reproduces the matrix with orthonormal Q","Q*R=A, Q^dagger Q = I, R upper triangular (a column whose remaining part is below the underflow threshold may be treated as zero).  Nothing outside the matrix changes.","all M>=N matrices",SZ,["src/TMV_QRDecompose.cpp"])
p("C35","Givens rotations zero the requested element and preserve norms","GivensRotate(x,y) yields a unitary 2x2 with (x',0), preserving |x|^2+|y|^2, for all branches.","all real pairs",SZ,["src/TMV_Givens.cpp"])
p("C36","Band storage never overlaps and fits the allocation","For each storage order every in-band (i,j) has its own memory location inside the allocated block.","all colsize,rowsize,nlo,nhi and storage orders",SZ,["include/tmv/TMV_BandMatrix.h","src/TMV_BandMatrix.cpp:BandStorageLength"])
p("C37","Band matrix element access outside the band is zero and views agree with the parent","m(i,j)==0 outside the band; sub-band/transpose/diag views address the same elements as the parent.","all band matrices and views",SZ,["include/tmv/TMV_BandMatrix.h"])
p("C38","Symmetric and Hermitian matrices stay symmetric","After any sequence of element writes and in-place operations m(i,j)==m(j,i) (resp. conj), for either stored triangle and storage order.","all histories of writes",SZ,["include/tmv/TMV_SymMatrix.h"])
p("C39","Triangular matrices read 0 outside and 1 on a unit diagonal","Element access and conversion to a full matrix give the structural zeros/ones irrespective of the memory content there.","all triangular views",SZ,["include/tmv/TMV_TriMatrix.h"])
p("C40","Matrix multiplication is correct for every algorithm and aliasing pattern the library checks","C (+)= x*A*B gives the mathematical product whichever kernel (RCC/CRC/CCC/blocked/recursive) is chosen, for real and complex (also mixed) operands, also when C shares its first element address with A or B.","all shapes, storages, conjugation states, element types, block sizes, memories",SZ,["src/TMV_MultMM.cpp","src/TMV_MultMM_Block.cpp","src/TMV_MultMM_OpenMP.cpp"])
p("C41","Vector and matrix arithmetic is alias-safe for detected aliases","v1 += x*v2 and v1 = x*v2 + y*v3 give the mathematical result when operands share the first element address.","all strides, sizes, conj flags",SZ,["src/TMV_AddVV.cpp","src/TMV_MultXV.cpp","include/tmv/TMV_Base.h:SameStorage"])
p("C42","Reading back what was written restores the object","Writing a vector/matrix/permutation and reading it back with the same IOStyle yields the same object, for each of the predefined styles.","all sizes and contents",SZ,["include/tmv/TMV_IOStyle.h","src/TMV_Vector.cpp:write,read","src/TMV_Matrix.cpp:write,read"])
p("C43","Reading malformed input ends with an error","Reading from a stream that ends early or has the wrong format terminates with a ReadError; it never loops forever.","all input streams",SZ,["include/tmv/TMV_IOStyle.h:skipWhiteSpace,readStr"])
p("C44","Division control: cached decompositions are used only as documented","Without saveDiv every division reflects the current matrix; after saveDiv/setDiv the cached decomposition is reused until unsetDiv/resetDiv/divideUsing a different algorithm.","all histories of modify/divide/control calls","histories are unbounded",["src/TMV_BaseMatrix.cpp","src/TMV_Matrix.cpp:setDiv"])
p("C45","List initialisation fills elements in order and reports count mismatches","v << a1,a2,... assigns the elements in order; too many elements raises an error without writing outside; too few raises an error.","all sizes and lists",SZ,["include/tmv/TMV_ListInit.h"])
p("C46","Allocated memory is aligned and large enough","The pointer handed out for n floats/doubles is 16-byte aligned and [p,p+n) lies inside the allocated block.","all n and all addresses returned by the allocator",SZ,["include/tmv/TMV_Array.h:AlignedMemory"])
p("C47","Parallel matrix multiplication is race free and gives the product","With OpenMP, for any number of threads and any interleaving of their memory accesses: the work split covers every output column (or row) exactly once, no two threads access one element with one of them writing it, no thread reads or writes memory that is not allocated, every run ends, and at the end C is the product (plus C), nothing else has changed and all temporaries are freed.","all sizes, element types, thread counts and schedules","schedules cannot be enumerated",["src/TMV_MultMM_OpenMP.cpp","src/TMV_MultMM_Block.cpp"])
p("C48","Complex reciprocal and division are exact inverses","TMV_InverseOf(z)*z==1 for z != 0 through each scaling branch.","all nonzero complex numbers",SZ,["include/tmv/TMV_Base.h:TMV_InverseOf,TMV_Divide,TMV_ABS"])
p("C49","Element references through conjugated views act on the viewed value","Reading, assigning and updating (+= -= *= /=, swap) through the reference object returned by a conjugated view has the same effect as the operation on the viewed value, so v(i) op= x makes v(i) equal old v(i) op x.","all views, values and operators",SZ,["include/tmv/TMV_VIt.h:ConjRef,VarConjRef"])
p("C50","Vector assignment copies every element","After w = v every w(i) equals the old v(i) (through both conj flags and both strides), and nothing outside w changes.","all pairs of non-overlapping views or identical views",SZ,["src/TMV_CopyV.cpp","include/tmv/TMV_CopyV.h","src/TMV_Vector.cpp:DoCopy"])
p("C51","Triangle products and inverses work in the matrix that holds the triangles","m = m.lowerTri()*m.upperTri(), m = m.upperTri()*m.lowerTri() (unit or not, with a scalar) store the exact product although both factors are stored in m, and U.invertSelf() leaves the inverse in the triangle, raising exactly when a diagonal element is zero and changing nothing outside the triangle.","all square matrices, sizes, storage orders and block sizes",SZ,["src/TMV_MultUL.cpp","src/TMV_TriInverse.cpp","src/TMV_MultUM.cpp","doc/Overview.tex"])
p("C52","Triangle times vector or matrix in place","v = U*v, v = L*v, m = x*U*m, m = x*L*m give the mathematical product, for every storage order, zero pattern of v, block size and unit/non-unit diagonal, and change nothing else.","all triangles, vectors, matrices",SZ,["src/TMV_MultUV.cpp","src/TMV_MultUM.cpp"])
p("C53","Whole-matrix element-wise operations act on every element exactly once","setZero, setAllTo, addToAll, clip, conjugateSelf and setToIdentity on a matrix or matrix view change every element of the view as documented and nothing else, whether the library treats the matrix as one long vector or row by row or column by column.","all matrices and views, shapes, steps, conj flags",SZ,["src/TMV_Matrix.cpp:setZero,setAllTo,addToAll,clip,conjugateSelf,setToIdentity","include/tmv/TMV_Matrix.h:canLinearize,linearView"])
p("C54","Matrix assignment copies every element, also from views of itself","After m2 = m1 every m2(i,j) equals the old m1(i,j) and nothing else changes, when the views share no element or begin at the same element (m = m.transpose(), m = m.conjugate(), self-assignment).","all shapes, storage orders, steps, conj flags, detected aliases",SZ,["include/tmv/TMV_Matrix.h:Copy,nonLapCopy","src/TMV_CopyM.cpp"])
p("C55","Matrix Swap exchanges and == compares all elements","Swap(m1,m2) exchanges all elements of two disjoint matrices, and m1==m2 is true exactly when shapes and all elements agree, for every pair of storage orders and conj flags.","all pairs of matrices",SZ,["src/TMV_Matrix.cpp:Swap,operator=="])
p("C56","Matrix sums and norms are those of the elements","sumElements, sumAbsElements, normSq, norm1, normInf, maxAbsElement depend only on the viewed elements: they equal the mathematical sum / norm for every shape, step, storage order and conj flag.","all matrices and views",SZ,["src/TMV_Matrix.cpp:sumElements,sumAbsElements,normSq,NonLapMaxAbsElement,NonLapNorm1"])
p("C57","Iterators of vectors and views obey the random-access laws","it+n, it-n, it+=n, it-=n move by n elements, differences and comparisons count elements, *(v.begin()+i) is v(i), end()-begin() is the size, for real and complex, plain and conjugated vectors of every step.","all views, iterators and distances","A test tries a few steps; the laws must hold for every step, distance and conjugation.",["include/tmv/TMV_VIt.h:VIt,CVIt,VarConjIter,CVarConjIter"])
p("C58","Symmetric rank-1 and rank-k updates change exactly the stored triangle by exactly the product","S += a*(x^x), S += a*m*m.transpose() and their Hermitian and assigning forms give the mathematical result in the stored triangle and touch no other memory, for every storage order, block size and shape, also when S is a view of m.","all sizes, storages, conjugations, block sizes, alpha","Recursive blocked kernels: tests see a few sizes and one block size; alias patterns and alpha=0 are not enumerated.",["src/TMV_Rank1_VVS.cpp","src/TMV_RankK_MMS.cpp"])
p("C59","The packed Q acts exactly as the explicit Q","With PackedQ Q, the products Q*m, m*Q and quotients m/Q, m%Q equal those computed with the explicit unitary matrix that GetQFromQR would unpack from the same storage, also multiplied by a scalar, for every shape and block size.","all packed decompositions, matrices, shapes, block sizes",SZ,["src/TMV_PackedQ.cpp","include/tmv/TMV_PackedQ.h"])
p("C60","Division by a QR decomposition is least squares / minimal norm","With divideUsing(QR), b/A is the least-squares solution for M>=N (the exact solution for M=N), the minimal-norm solution for M<N; b%A likewise; inverse() is the pseudo-inverse; det() is the determinant; Singular is never raised unless R has a zero diagonal element.","all shapes, right-hand sides, block sizes, storage orders",SZ,["src/TMV_QRD.cpp","src/TMV_QRDiv.cpp","src/TMV_QRInverse.cpp"])
p("C61","Whole-matrix operations on band matrices","setZero, setAllTo, addToAll, clip, conjugateSelf and transposeSelf on a BandMatrix or band view change exactly the stored elements, each as the scalar operation says, whether or not the matrix is contiguous in memory; memory outside the matrix and its padding, and rows outside a rowRange, are unchanged.","all sizes, bandwidths, storage orders, views and contents",SZ,["src/TMV_BandMatrix.cpp:setZero,setAllTo,addToAll,clip,conjugateSelf,DoTransposeSelf","include/tmv/TMV_BandMatrix.h:linearView"])
p("C62","Reductions of band matrices","sumElements, sumAbsElements, normSq and maxAbsElement of a band matrix equal the value over all elements of the full matrix (zeros outside the band), whatever the storage order.","all sizes, bandwidths, storage orders, views and contents",SZ,["src/TMV_BandMatrix.cpp:sumElements,DoSumAbsElements,normSq,maxAbsElement"])
p("C63","Views of triangular matrices agree with the parent element by element","row, col, diag, subVector, subMatrix, subTriMatrix, offDiag, viewAsUnitDiag, transpose, conjugate, adjoint of a triangular matrix or view, and the triangular views of a general matrix, show exactly the documented elements of the parent, at the same storage, whenever the documented range check accepts the arguments.","all sizes, storage orders, unit/non-unit, conj flags, nestings of views and accepted arguments",SZ,["include/tmv/TMV_TriMatrix.h:GenUpperTriMatrix,GenLowerTriMatrix","src/TMV_TriMatrix.cpp:hasSubMatrix,hasSubVector,hasSubTriMatrix"])
p("C64","Whole-matrix operations on triangular matrices touch exactly the triangle","setZero, setAllTo, addToAll, clip, conjugateSelf, setToIdentity, assignment between triangular matrices, assignment of a triangular to a full matrix, Swap and == act on exactly the stored elements of the triangle (not on an implicit unit diagonal, nor on the other half of the storage).","all sizes, storage orders, diagonal types, conj flags and contents",SZ,["src/TMV_TriMatrix.cpp","include/tmv/TMV_TriMatrix.h:UpperTriMatrixView"])
p("C65","Sums and norms of triangular matrices are those of the full matrix they denote","sumElements, sumAbsElements, normSq, norm1, normInf, maxAbsElement of a triangular matrix equal the value over all elements of the matrix, implicit ones and zeros included.","all sizes, storage orders, diagonal types, conj flags and contents",SZ,["src/TMV_TriMatrix.cpp:sumElements,normSq,norm1,maxAbsElement"])
p("C66","Views of a symmetric or Hermitian matrix show its elements","row, col, diag, subVector, subMatrix, subSymMatrix, upperTri, lowerTri, transpose, conjugate, adjoint and SymMatrixViewOf/HermMatrixViewOf return views whose every element, read or written, is the corresponding element of the matrix: the stored one or the (conjugated) mirror image, never the memory of the unstored triangle.","all sizes, steps, both storages, both triangles, symmetric and Hermitian, conjugated or not, all accepted index arguments",SZ,["include/tmv/TMV_SymMatrix.h: row, col, diag, subVector, subMatrix, subSymMatrix, upperTri, lowerTri, transpose","src/TMV_SymMatrix.cpp: hasSubMatrix, hasSubVector, hasSubSymMatrix"])
p("C67","Whole-matrix operations on symmetric and Hermitian matrices","setZero, setAllTo, addToAll, clip, conjugateSelf, transposeSelf, setToIdentity, element assignment, swapRowsCols, permuteRowsCols, reversePermuteRowsCols, assignment between symmetric matrices and to a full matrix, Swap and == do to the full n by n matrix what their names say, keep it symmetric/Hermitian, and touch no other memory.","all matrices of any size, storage, triangle, kind and conjugation flag; all permutations",SZ,["include/tmv/TMV_SymMatrix.h: setZero, setAllTo, addToAll, clip, assignToM, assignToS, Swap, operator==","src/TMV_SymMatrix.cpp: swapRowsCols, permuteRowsCols, reversePermuteRowsCols"])
p("C68","Reductions of symmetric and Hermitian matrices count every element once","sumElements, sumAbsElements, normSq, norm1, normInf and maxAbsElement of a symmetric/Hermitian matrix equal the same reduction of the full n by n matrix it represents, although only one triangle is stored.","all matrices of any size, storage, triangle, kind and conjugation flag",SZ,["src/TMV_SymMatrix.cpp: sumElements, DoSumAbsElements, normSq, NonLapNorm1, NonLapMaxAbsElement"])
p("C69","Vector arithmetic computes what is written","v *= x, w = x*v, w += x*v, w = x*u + y*v, v*w, w = x*ElemProd(u,v) and w += x*ElemProd(u,v) give the mathematical result, element by element, whatever the steps, directions and conjugations of the views, change nothing outside the destination and leave no temporary behind.","all sizes, steps (positive, negative, zero for constant operands), conj flags, scalars (including 0, 1, -1) and contents; operands disjoint from the destination or equal to it up to conjugation",SZ,["src/TMV_MultXV.cpp:MultXV","src/TMV_MultXV.cpp:ElemMultVV","src/TMV_AddVV.cpp:AddVV","src/TMV_MultVV.cpp:MultVV"])
p("C70","Matrix scaling and addition compute what is written","m *= x, B = x*A, B += x*A, C = x*A + y*B and C (+)= x*ElemProd(A,B) give the mathematical result element by element whatever the storage orders, steps and conjugations, also when operands are the destination itself, its transpose or conjugate; nothing outside the destination changes and no temporary is left.","all sizes, storage orders, strides, conj flags, scalars and contents; operands disjoint from the destination or starting at its first element",SZ,["src/TMV_MultXM.cpp:MultXM,ElemMultMM","src/TMV_AddMM.cpp:AddMM"])
p("C71","Matrix-vector products compute what is written","y = alpha*A*x and y += alpha*A*x give the mathematical result, for every layout and also when x and y are the same vector or y is the first row or column of A; leading and trailing zeros of x, alpha=0, 1, -1 and empty shapes included; nothing else changes.","all sizes, storage orders, strides, steps, conj flags, scalars and contents",SZ,["src/TMV_MultMV.cpp:MultMV,UnitAMultMV,RowMultMV,ColMultMV"])
p("C72","Outer products compute what is written","A = alpha*x^y and A += alpha*x^y set A(i,j) to alpha*x(i)*y(j) (plus the old value), for every layout, also when x or y starts at the first element of A; nothing else changes.","all sizes, storage orders, strides, steps, conj flags, scalars and contents",SZ,["src/TMV_Rank1_VVM.cpp:Rank1Update,ColRank1Update","include/tmv/TMV_MatrixArith.h:OProdVV"])
p("C73","Products into symmetric matrices compute what is written","SymMultMM<add>(alpha,x,y,A) gives A = alpha*x*y or A += alpha*x*y in the stored triangle of the symmetric or Hermitian A, for every size, scalar (zero included) and storage order, also if x or y is stored in the memory of A; nothing else changes.","all sizes, inner dimensions, aliases of x and y, scalars, storage orders and contents for which the product is symmetric (Hermitian)",SZ,["src/TMV_SymMultMMS.cpp:SymMultMM,RecursiveSymMultMM,RecursiveInPlaceSymMultMM,DoSymMultMM","doc/SymMatrix.tex:SymMultMM"])
p("C74","Division by a symmetric or Hermitian matrix","For a nonsingular symmetric or Hermitian matrix A (LDL decomposition, the default), m /= A leaves the X with A X = m and m %= A the X with X A = m, for every m (also a conjugated view), and nothing outside m is changed; det() is the determinant of every (also a singular) A, and logDet(&sign) is log|det A| with sign = det A/|det A|.","all symmetric/Hermitian matrices, real or complex, of all sizes and storage orders, all right-hand sides",SZ,["src/TMV_SymLDLD.cpp: SymLDLDiv","src/TMV_SymLDLDiv.cpp: LDL_LDivEq, LDL_RDivEq","src/TMV_SymLDLPseudo.cpp: PseudoDiag_LDivEq"])
p("C75","isSingular() of a symmetric matrix","SymLDLDiv::isSingular() is true for every singular symmetric or Hermitian matrix and false for every well-conditioned one.","all symmetric/Hermitian matrices",SZ,["src/TMV_SymLDLD.cpp: SymLDLDiv::isSingular"])
p("C76","Inverse of a symmetric or Hermitian matrix","For a regular symmetric or Hermitian A, makeInverse(V) (and V = A.inverse()) makes A*V the identity matrix, for V a full matrix, or a symmetric/Hermitian one of the same kind, of which only the stored triangle is written; for Hermitian A the diagonal of V is real; nothing outside V is written.","all sizes, values, storage orders, block sizes, real and complex, symmetric and Hermitian",SZ,["src/TMV_SymLDLInverse.cpp: LDL_Inverse, LDLt_InvertDiag, LDLt_AddXtDX, LDLt_CombineInverse","src/TMV_SymLDLD.cpp: SymLDLDiv::doMakeInverse","src/TMV_SymMatrix.cpp: reversePermuteRowsCols"])
p("C77","Division by a positive definite matrix (Cholesky)","With divideUsing(CH) and a positive definite Hermitian A, m /= A leaves the X with A X = m, m %= A the X with X A = m, det() is det A, logDet(&sign) is log(det A) with sign 1, and makeInverse(V) makes A*V the identity, V full or Hermitian (then only its stored triangle is written, with real diagonal); constructing the divider throws NonPosDef exactly when A is not positive definite; nothing else is written.","all Hermitian (real symmetric) matrices of all sizes and storage orders, right-hand sides and block sizes",SZ,["src/TMV_SymCHD.cpp: HermCHDiv","src/TMV_SymCHDiv.cpp: CH_LDivEq, CH_RDivEq","src/TMV_SymCHInverse.cpp: CH_Inverse","src/TMV_RankK_ULS.cpp: RecursiveSetUUt","src/TMV_RankK_LUS.cpp: RecursiveSetLLt"])
p("C78","divideInPlace() changes the storage, not the result","After m.divideInPlace() the decomposition (LU, QR, Cholesky, LDL) is that of m's elements, so division gives the same result as without it.","all matrices and views, whatever their steps",SZ,["src/TMV_LUD.cpp: LUDiv","src/TMV_QRD.cpp: QRDiv","src/TMV_SymCHD.cpp: HermCHDiv","src/TMV_SymLDLD.cpp: SymLDLDiv","doc/Matrix.tex: divideInPlace"])
p("C79","Triangle times vector or matrix into a destination","y = alpha*T*x, y += alpha*T*x, C = alpha*T*B and C += alpha*T*B for an upper or lower triangle T (unit or not) leave the mathematical result in the destination and change nothing else, also when alpha is 0, and when the destination shares storage with T or with the other operand in a way the library detects (begins at the same element).","all sizes, scalars, storage orders, block sizes, contents, alias patterns",SZ,["src/TMV_MultUV.cpp: MultMV","src/TMV_MultUM.cpp: MultMM, AddMultMM, BlockTempMultMM, FullTempMultMM"])
p("C80","Rank-k updates of symmetric matrices by triangles","A = alpha*L*L.adjoint(), A += alpha*L*L.adjoint() (transpose() for symmetric A), and the same with U*U.adjoint(), give the mathematical result in the stored triangle of A and change nothing else, for unit and non-unit triangles and every scalar.","all sizes, scalars, storage orders, block sizes, contents, conjugated or not",SZ,["src/TMV_RankK_LUS.cpp: RankKUpdate, RecursiveRankKUpdate","src/TMV_RankK_ULS.cpp: RankKUpdate, RecursiveRankKUpdate"])
p("C81","Products of symmetric and Hermitian matrices with vectors and matrices","For a symmetric or Hermitian matrix S stored in one triangle, y = alpha*S*x and y += alpha*S*x put alpha times the product with the full matrix S (the other triangle reflected, conjugated for Hermitian S) in y, respectively add it, and write nothing else; C = alpha*S*B and C += alpha*S*B likewise for matrices, also when C begins at the first element of the matrix holding S and when B is C itself or its conjugate, and C = alpha*S*S', C += alpha*S*S' for two such matrices; whatever the order of storage, the zeros at the ends of x, and the block sizes of the recursion.","all sizes, matrices, vectors, factors, storage orders, steps, positive block sizes; exact real and complex elements",SZ,["src/TMV_MultSV.cpp:DoUnitAMultMV","src/TMV_MultSV.cpp:UnitAMultMV","src/TMV_MultSV.cpp:NonBlasMultMV","src/TMV_MultSV.cpp:MultMV","src/TMV_MultSM.cpp:RRowMultMM","src/TMV_MultSM.cpp:CRowMultMM","src/TMV_MultSM.cpp:ColMultMM","src/TMV_MultSM.cpp:RecursiveMultMM","src/TMV_MultSM.cpp:FullTempMultMM","src/TMV_MultSM.cpp:BlockTempMultMM","src/TMV_MultSM.cpp:MultMM"])
p("C82","The matrix product when memory for the blocked algorithm runs out","If an allocation of temporary memory fails inside C = alpha*A*B or C += alpha*A*B, the library warns and computes the same product with another algorithm: C holds alpha times the product, respectively its old contents plus that, whichever of the allocations failed, and nothing else has changed.","all shapes, layouts, element types (real, mixed, complex), factors, and every point at which the allocation can fail","The failing allocation can be any of several in a run, and which partial results are in C at that point depends on it; tests do not make allocations fail.",["src/TMV_MultMM_Block.cpp:BlockMultMM", "src/TMV_MultMM_Block.cpp:DoBlockMultMM"])
p("C83","Arithmetic with diagonal matrices","C = alpha*D*B and C += alpha*D*B with a diagonal matrix D (conjugated or not, its diagonal with any step, C and B of any layout, possibly the same matrix) leave the product, respectively the old C plus the product, in C. v /= D and m /= D give the solution of D*x = m, D.invertSelf, D.makeInverse give the inverse and D.makeInverseATA the inverse of D-adjoint times D; all throw exactly when an element of the diagonal is zero. det and logDet give the product of the elements.","all sizes, elements, layouts, conjugations and the aliasings the code handles",SZ,["src/TMV_MultDM.cpp:MultMM", "src/TMV_MultDM.cpp:ColAddMultMM", "src/TMV_MultDM.cpp:RowMultEqMM", "src/TMV_DiagMatrix.cpp:doLDivEq", "src/TMV_DiagMatrix.cpp:invertSelf", "src/TMV_DiagMatrix.cpp:doMakeInverse", "src/TMV_DiagMatrix.cpp:doMakeInverseATA", "src/TMV_DiagMatrix.cpp:logDet"])
p("C84","QR_Update","QR_Update(R,A) leaves in R the triangle of a QR decomposition of the old R stacked on A: there is Q with orthonormal columns such that Q*R' equals the stacked matrix (up to an error in columns whose new diagonal element is zero, of norm at most sqrt(N+M)*tiny); so R'^H R' = R^H R + A^H A when the new diagonal has no zeros. Only the upper triangle of R and the elements of A are written.","all upper triangular R, all A, real and complex, all sizes and block sizes",SZ,["src/TMV_QRUpdate.cpp:QR_Update", "src/TMV_QRUpdate.cpp:RecursiveQRUpdate", "src/TMV_QRUpdate.cpp:BlockQRUpdate"])
p("C85","QR_Downdate","If QR_Downdate(R,A) returns, the new R satisfies R'^H R' = R^H R - A^H A. It returns (with no zero on the new diagonal) whenever R^H R - A^H A is positive definite, never returns a result when that matrix has a negative direction, and writes only the upper triangle of R and the elements of A.","all upper triangular R with real diagonal, all A, real and complex, all sizes and block sizes",SZ,["src/TMV_QRDowndate.cpp:QR_Downdate", "src/TMV_QRDowndate.cpp:RecursiveQRDowndate", "src/TMV_QRDowndate.cpp:BlockQRDowndate", "src/TMV_Householder.cpp:HouseholderUnReflect"])
p("C86","QR decomposition with column pivoting","If QRP_Decompose(Q,R,P,strict) returns, Q has orthonormal columns, R is upper triangular, P is a valid list of column interchanges and Q*R is A with its columns so interchanged; only columns whose diagonal element of R is zero may differ, by at most max(sqrt(M)*tiny, sqrt(N)*eps*|A|). With strict the diagonal of R decreases in absolute value. The determinant factor is right. The decomposition ends.","all M x N matrices with M >= N, real and complex, strict or not, all block sizes, any previous contents of the work arrays",SZ,["src/TMV_QRPDecompose.cpp:QRP_Decompose", "src/TMV_QRPDecompose.cpp:NonBlockQRPDecompose", "src/TMV_QRPDecompose.cpp:StrictBlockQRPDecompose", "src/TMV_QRPDecompose.cpp:LooseBlockQRPDecompose", "src/TMV_QRPDecompose.cpp:moveLowColsToEnd", "src/TMV_Householder.cpp:BlockHouseholderAugment"])
p("C87","Division by a QR decomposition with pivoting (QRP)","With divideUsing(QRP), m /= A never throws for a nonzero matrix of any rank: it returns a least squares solution (the solution, for a nonsingular square matrix); m %= A never throws, solves the equations of the pivot columns with the least norm and all the equations if they are consistent; the inverse X satisfies AXA=A, XAX=X and AX is Hermitian; the determinant is right; nothing outside the result is written. A is to be understood up to a perturbation of relative size sqrt(N)*eps in columns judged dependent. For wide matrices the same holds for the transpose.","all M x N matrices, real and complex, all right hand sides, all ranks, all block sizes and storage orders, any previous contents of the work arrays",SZ,["src/TMV_QRPD.cpp:QRPDiv", "src/TMV_QRPD.cpp:doLDiv", "src/TMV_QRPD.cpp:doRDiv", "src/TMV_QRPD.cpp:doMakeInverse", "src/TMV_QRDiv.cpp:QR_LDiv", "src/TMV_QRDiv.cpp:QR_RDiv", "src/TMV_QRInverse.cpp:QR_Inverse"])
p("C88","Solving with triangular band matrices","For a band matrix with only sub- or only superdiagonals, m /= A and v /= A (any storage order, unit or non-unit diagonal, any number of right hand sides, zeros at the ends of the right hand side included) leave the exact solution in m and write nothing else; no exception is thrown if the diagonal has no zero; if there is no solution an exception is thrown. Memory outside the band is never used.","all sizes, bandwidths, element values, storage orders, right hand sides",SZ,["src/TMV_BandTriDiv_V.cpp:TriLDivEq", "src/TMV_BandTriDiv_V.cpp:NonBlasTriLDivEq", "src/TMV_BandTriDiv_V.cpp:DoColUpperTriLDivEq", "src/TMV_BandTriDiv_M.cpp:TriLDivEq", "src/TMV_BandTriDiv_M.cpp:RowUpperTriLDivEq"])
p("C89","LU decomposition of band matrices","For a square band matrix, LU decomposition (both the general and the tridiagonal algorithm, with the transposition chosen by the bandwidths and storage) gives P*L*U equal to the matrix (or its transpose if isTrans()), multipliers at most 1 in absolute value, U with nlo+nhi superdiagonals; m /= A and m %= A leave the solution in m and write nothing else, never raise for a nonsingular matrix; makeInverse raises exactly for singular matrices and otherwise gives the inverse; det and logDet are right. Neither memory outside the band nor the previous contents of the work array have any influence.","all sizes, bandwidths, elements, storage orders, right hand sides, block sizes, previous memory contents",SZ,["src/TMV_BandLUDecompose.cpp:NonLapBandLU_Decompose", "src/TMV_BandLUDecompose.cpp:NonLapTriDiagLU_Decompose", "src/TMV_BandLUDiv.cpp:LU_PackedPL_LDivEq", "src/TMV_BandLUDiv.cpp:LU_PackedPL_RDivEq", "src/TMV_BandLUDiv.cpp:LU_PackedPL_Unpack", "src/TMV_BandLUInverse.cpp:LU_Inverse", "src/TMV_BandLUInverse.cpp:RecursiveInverse", "src/TMV_BandLUD.cpp:BandLUDiv"])
p("C90","makeInverseATA through LU decompositions","For a square matrix A decomposed with LU, A.makeInverseATA(ata) leaves in ata exactly the inverse of A.adjoint()*A, writes nothing else, and raises exactly when det A = 0; likewise for band matrices.","all sizes, elements (real and complex), storage orders, bandwidths, block sizes, previous contents of ata",SZ,["src/TMV_LUD.cpp:LUDiv::doMakeInverseATA", "src/TMV_BandLUD.cpp:BandLUDiv::doMakeInverseATA"])
p("C91","Rank-2 and rank-2k updates of symmetric and Hermitian matrices","Rank2Update<add>(alpha,x,y,A) makes every element of A (+)= alpha*(x^y + y^x), for Hermitian A (+)= alpha*x^y* + conj(alpha)*y^x*, and Rank2KUpdate<add>(alpha,x,y,A) the same with x*y.transpose() (adjoint()); nothing outside the stored triangle is written. The result does not depend on storage orders, the stored triangle, conjugation flags or strides.","all sizes, numbers of columns, elements (real and complex), alpha, storages of A, layouts of x and y, block sizes",SZ,["src/TMV_Rank2_VVS.cpp:UpperRank2Update", "src/TMV_Rank2_VVS.cpp:LowerRank2Update", "src/TMV_Rank2_VVS.cpp:NonBlasRank2Update", "src/TMV_Rank2_VVS.cpp:Rank2Update", "src/TMV_Rank2K_MMS.cpp:RecursiveRank2KUpdate", "src/TMV_Rank2K_MMS.cpp:NonBlasRank2KUpdate", "src/TMV_Rank2K_MMS.cpp:Rank2KUpdate"])
p("C92","Band matrix times vector","For a band matrix A of any shape, bandwidths, storage order (row, column or diagonal major) and conjugation, y = alpha*A*x and y += alpha*A*x give exactly the matrix product of the band part of A; elements outside the band and beyond the vectors are neither used nor written; leading and trailing zeros of x may be skipped without changing the result; x may be y itself.","all sizes, bandwidths, elements, alpha, storage orders, conjugations, vector steps, contents of uninitialised temporaries",SZ,["src/TMV_MultBV.cpp:RowMajorMultMV", "src/TMV_MultBV.cpp:ColMajorMultMV", "src/TMV_MultBV.cpp:DiagMajorMultMV", "src/TMV_MultBV.cpp:UnitAMultMV", "src/TMV_MultBV.cpp:MultMV"])
p("C93","Band matrix times dense matrix","For a band matrix A and a dense matrix B, C = alpha*A*B and C += alpha*A*B give exactly the matrix product of the band part of A with B, whatever the storage orders, conjugations and shapes, including empty ones and shapes with empty rows or columns; C may share memory with A, and with B.","all sizes, bandwidths, elements, alpha, storage orders, conjugations, block sizes, contents of uninitialised temporaries",SZ,["src/TMV_MultBM.cpp:RowMultMM", "src/TMV_MultBM.cpp:OPMultMM", "src/TMV_MultBM.cpp:ColMultMM", "src/TMV_MultBM.cpp:NonLapTriDiagMultMM", "src/TMV_MultBM.cpp:DoMultMM", "src/TMV_MultBM.cpp:BlockTempMultMM", "src/TMV_MultBM.cpp:MultMM"])
p("C94","Product of two band matrices","For band matrices A and B and a band matrix C wide enough for the product, C = alpha*A*B and C += alpha*A*B give exactly the matrix product of the band parts, whatever the shapes, bandwidths, storage orders (row, column, diagonal major) and conjugations; C may be wider than necessary (the extra diagonals are zeroed, or left alone with +=), and may share memory with A or B.","all sizes, bandwidths, elements, alpha, storage orders, conjugations, contents of uninitialised temporaries",SZ,["src/TMV_MultBB.cpp:RowMultMM", "src/TMV_MultBB.cpp:OPMultMM", "src/TMV_MultBB.cpp:DoDiagMultMM", "src/TMV_MultBB.cpp:DiagMultMM", "src/TMV_MultBB.cpp:DoMultMM", "src/TMV_MultBB.cpp:TempMultMM", "src/TMV_MultBB.cpp:MultMM"])
p("C95","Band QR decomposition","QR_Decompose of a band matrix with nlo subdiagonals, held in a band matrix with room for min(nlo+nhi,N-1) superdiagonals, leaves in place Householder vectors confined to the nlo subdiagonals and an upper band R such that Q R equals the original band matrix (up to the explicitly bounded perturbation that the underflow treatment of Householder columns makes), Q has orthonormal columns, elements outside the band are neither read nor written, and the sign of the determinant of Q is tracked.","all sizes M>=N, bandwidths, real or complex elements, contents of memory outside the band",SZ,["src/TMV_BandQRDecompose.cpp:QR_Decompose", "src/TMV_Householder.cpp:HouseholderReflect"])
p("C96","BandQRDiv: least squares, minimum norm, inverse, determinant","A band matrix with divide type QR: A x = b gives the least squares solution for a tall matrix, the minimum-norm solution for a wide one and the exact solution for a square one; x A = b correspondingly; inverse() is the (pseudo-)inverse; det/logDet are the determinant; getQ()*getR() is the matrix (or its transpose); makeInverseATA is the inverse of A^H A; division is refused exactly if R is singular; all for the matrix up to the bounded underflow perturbation. The matrix may be decomposed in place.","all sizes, bandwidths, storage orders, real or complex elements, contents of newly allocated memory",SZ,["src/TMV_BandQRD.cpp:BandQRDiv", "src/TMV_BandQRD.cpp:doMakeInverseATA", "src/TMV_BandQRDiv.cpp:QR_LDiv", "src/TMV_BandQRDiv.cpp:QR_RDiv", "src/TMV_BandQRDiv.cpp:Q_LDivEq", "src/TMV_BandQRDiv.cpp:Q_RDivEq", "src/TMV_BandQRInverse.cpp:QR_Inverse"])
p("C97","Cholesky and LDL decomposition of symmetric and Hermitian band matrices","CH_Decompose of a Hermitian band matrix replaces the stored half by L with L L^H equal to the matrix, and throws NonPosDef exactly if the matrix is not positive definite; LDL_Decompose of a tridiagonal Hermitian or symmetric matrix replaces the stored elements by a unit bidiagonal L and a diagonal D with L D L^H (L D L^T) equal to the matrix, and throws exactly if a leading principal minor of order < N (or the last one) vanishes. Elements outside the stored band are neither read nor written.","all sizes, bandwidths below the size, storage orders, real or complex elements, contents of memory outside the band",SZ,["src/TMV_SymBandCHDecompose.cpp:NonLapCH_Decompose", "src/TMV_SymBandCHDecompose.cpp:NonLapLDL_Decompose", "src/TMV_SymBandCHDecompose.cpp:SymLDL_Decompose", "src/TMV_SymBandCHDecompose.cpp:CH_Decompose", "src/TMV_SymBandCHDecompose.cpp:LDL_Decompose"])
p("C98","HermBandCHDiv: construction, solves, inverse, determinant, in place","A Hermitian band matrix with divide type CH: construction throws NonPosDef exactly if the matrix is not positive definite (for tridiagonal matrices, exactly if a leading minor vanishes); A x = b and x A = b are solved exactly; inverse() into a Hermitian or a full matrix is the inverse; getL()*getD()*getL().adjoint() is the matrix; det, logDet and its sign are the determinant of the matrix; decomposing in place gives the same answers.","all sizes, bandwidths, storage orders, real or complex elements, numbers of right-hand sides, contents of newly allocated memory",SZ,["src/TMV_SymBandCHD.cpp:HermBandCHDiv", "src/TMV_SymBandCHD.cpp:det", "src/TMV_SymBandCHD.cpp:logDet", "src/TMV_SymBandCHD.cpp:getL", "src/TMV_SymBandCHDiv.cpp:CH_LDivEq", "src/TMV_SymBandCHDiv.cpp:CH_RDivEq", "src/TMV_SymBandCHInverse.cpp:CH_Inverse"])
p("C99","makeInverseATA of symmetric and Hermitian matrices","A.makeInverseATA(ata) of a Hermitian or symmetric (band) matrix that uses a Cholesky or Bunch-Kaufman decomposition puts (A^H A)^-1 into ata, whatever ata held before, and writes nothing else.","all sizes, storage orders, real or complex elements, earlier contents of ata",SZ,["src/TMV_SymSquare.cpp:SymSquare", "src/TMV_SymCHD.cpp:doMakeInverseATA", "src/TMV_SymLDLD.cpp:doMakeInverseATA", "src/TMV_SymBandCHD.cpp:doMakeInverseATA"])
p("C100","Division by a matrix with a singular value decomposition","With A.divideUsing(SV), m/A and m%A give P*m and m*P where P is the pseudo-inverse of A with the singular values not kept set to zero (of A itself if it is not singular), A.inverse() gives P, makeInverseATA gives P*P^H (P^H*P if A has more columns than rows), which is (A^H A)^-1 if A has full rank; norm2() is the operator norm, condition() the product of the norms of A and P; svd().thresh(t) keeps exactly the singular values greater than t times the largest, after which no division can fail, and svd().top(n) keeps min(n,size). Nothing outside of the destination is written.","all shapes (tall, square, wide, empty), real or complex elements, right-hand sides, thresholds, numbers of singular values kept",SZ,["src/TMV_SVDiv.cpp:SV_LDiv,SV_RDiv", "src/TMV_SVD.cpp:SVDiv", "src/TMV_BandSVD.cpp:BandSVDiv"])
p("C101","Division by a Hermitian or symmetric matrix with a singular value decomposition","For Hermitian (band) matrices with divideUsing(SV): m/A, m%A, inverse into a Hermitian matrix or a matrix, makeInverseATA, det, logDet, norm2, condition, thresh, top are those of the matrix kept, and getU, getS, getVt are a singular value decomposition with nonnegative singular values in descending order, also when A has negative eigenvalues. For symmetric matrices the inverse is the (symmetric) pseudo-inverse, and top(n) keeps at most as many singular values as there are.","all sizes, real or complex elements, block sizes of the product, right-hand sides, thresholds",SZ,["src/TMV_SymSVD.cpp:HermSVDiv,SymSVDiv", "src/TMV_SymSVInverse.cpp:HermSV_Inverse,SymSV_Inverse", "src/TMV_SymBandSVD.cpp:HermBandSVDiv,SymBandSVDiv"])
p("C102","Reduction to bidiagonal form","Bidiagonalize (the first part of the singular value decomposition) of an M x N matrix, M >= N, leaves a packed form from which U with orthonormal columns and a unitary Vt are made such that A = U B Vt, with B upper bidiagonal, its elements D and E real; up to elements below the underflow threshold (each dropped column or row), and exactly if no element of D or E is zero. For a square matrix signdet is multiplied by det(U) det(Vt). The blocked and the unblocked version satisfy the same.","all M >= N > 0, real or complex matrices, block sizes, contents of the work space, underflow thresholds",SZ,["src/TMV_SVDecompose_Bidiag.cpp:Bidiagonalize,BlockBidiagonalize,NonBlockBidiagonalize", "src/TMV_SVDecompose.cpp:SV_Decompose"])
p("C103","Singular value decomposition of a bidiagonal matrix","SV_DecomposeFromBidiagonal(U,D,E,Vt,setUV): if it returns, D is nonnegative and in descending order, and (with the same D, E, U, Vt) U keeps orthonormal columns, Vt orthonormal rows, and U_new D_new Vt_new = U B Vt, where B is the bidiagonal matrix of the old D and E, up to max(max(2 eps, sqrt(min)) |B|, min) for each nonzero element that was dropped as negligible (exactly, if none was). With setUV the decomposition is that of B itself; U and Vt may each be absent.","all M >= N, real or complex U and Vt, all D and E, epsilon and underflow threshold, any number of iterations","the path through the iterations (which elements are chopped, where the problem splits, how many sweeps are needed) depends on the data in an unbounded way",["src/TMV_SVDecompose.cpp:SV_DecomposeFromBidiagonal,NonLapSVDecomposeFromBidiagonal,DoSVDecomposeFromBidiagonal,DoSVDecomposeFromBidiagonal_NZ", "src/TMV_SVDecompose_QR.cpp:BidiagonalChopSmallElements,BidiagonalZeroFirstRow,BidiagonalZeroLastCol,BidiagonalTrailingEigenValue,ReduceBidiagonal22,ReduceBidiagonal,SV_DecomposeFromBidiagonal_QR"])
p("C104","The bidiagonal SVD stays inside its vectors","SV_DecomposeFromBidiagonal changes no number outside of the N elements of D and the N-1 elements of E.","all N, D, E, contents of the memory behind the vectors","whether the element behind E is touched depends on where zeros appear on the diagonal during the iterations",["src/TMV_SVDecompose_QR.cpp:BidiagonalZeroFirstRow", "src/TMV_SVDecompose.cpp:SV_DecomposeFromBidiagonal"])
p("C105","SV_Decompose","SV_Decompose(U,S,Vt,StoreU), SV_Decompose(U,S,StoreU) and the version with determinant: for an M x N matrix with M >= N, if the function returns, S is nonnegative and in descending order, U has orthonormal columns, Vt orthonormal rows (those that were asked for) and A = U S Vt up to the elements dropped as negligible and the vectors taken as zero because they underflow, for both ways through the function (QR decomposition first for M > 5N/3, or not) and whether U and Vt are conjugated views or not; exactly if nothing was dropped. For a square matrix signdet exp(logdet) is the determinant.","all M >= N (0 included), real or complex matrices, block sizes, contents of the work space, thresholds, conjugation of U and Vt",SZ,["src/TMV_SVDecompose.cpp:SV_Decompose"])
p("C106","Eigenvalues of a Hermitian tridiagonal matrix","EigenFromTridiagonal(U,D,E): if it returns, D is sorted by descending absolute value, and (with the same D, E, U) U stays unitary and U_new D_new U_new^H = U T U^H, where T is the real symmetric tridiagonal matrix of the old D and E, up to a multiple of eps |T| (or of the underflow threshold) for each nonzero element that was dropped as negligible (exactly, if none was).  U may be absent.","all N, real or complex U, all D and E, epsilon and underflow threshold, any number of iterations","the path through the iterations (which elements are chopped, where the problem splits, how many sweeps are needed) depends on the data in an unbounded way",["src/TMV_SymSVDecompose.cpp:EigenFromTridiagonal,NonLapEigenFromTridiagonal,DoEigenFromTridiagonal,DoEigenFromTridiagonal_NZ", "src/TMV_SymSVDecompose_QR.cpp:HermTridiagonalChopSmallElements,TridiagonalTrailingEigenValue,ReduceHermTridiagonal,EigenFromTridiagonal_QR"])
p("C107","Reduction of a Hermitian or symmetric matrix to tridiagonal form","Tridiagonalize(A,beta,D,E,signdet) and the unitary matrix U made from the packed result: U is unitary, D is real for a Hermitian A, and A = U T U^H (Hermitian) or U T U^T (symmetric), T being tridiagonal with diagonal D and real off-diagonal E; exactly if no element of E is zero, and otherwise up to vectors whose elements are below the underflow threshold.  signdet becomes signdet times det(U)^2 for a symmetric A and is unchanged for a Hermitian one.  This holds for the blocked and the unblocked algorithm.","all N, real or complex A, Hermitian or symmetric, every block size, all contents of the work space","the sizes, the block boundaries and the Householder vectors are unbounded",["src/TMV_SymSVDecompose_Tridiag.cpp:Tridiagonalize,NonLapTridiagonalize,BlockTridiagonalize,NonBlockTridiagonalize", "src/TMV_SymHouseholder.cpp:HouseholderLRMult", "src/TMV_SymSVDecompose.cpp:UnsortedHermEigen"])
p("C108","Eigenvalues and eigenvectors of a Hermitian matrix","Eigen(A,U,S) of a Hermitian matrix, if it returns: the columns of U are orthonormal, S is real and in ascending order, and U S U^H = A up to a multiple of eps |A| for each nonzero element dropped as negligible (exactly, if none was).  Eigen(A,S) gives the S of such a decomposition.  U may be a conjugated view.","all N, all real symmetric or complex Hermitian A, every storage of A, every previous content of U and S, all parameters","the path through the iterations depends on the data in an unbounded way",["src/TMV_SymSVDecompose.cpp:Eigen,UnsortedHermEigen,UnsortedEigen"])
p("C109","Singular value decomposition of a Hermitian matrix","SV_Decompose(A,U,S,Vt) of a Hermitian matrix, if it returns: the columns of U and the rows of Vt are orthonormal, S is nonnegative and in descending order, and U S Vt = A up to a multiple of eps |A| for each element dropped as negligible, whichever of U and Vt are conjugated views.  SV_Decompose(A,U,S), SV_Decompose(A,S,Vt) and SV_Decompose(A,S) give parts of such a decomposition; the last for A stored in either triangle, conjugated or not.","all N, all real symmetric or complex Hermitian A, all storages and conjugations, all previous contents","the path through the iterations depends on the data in an unbounded way; the combinations of conjugated views are rarely tested",["src/TMV_SymSVDecompose.cpp:SV_Decompose,HermSV_Decompose,UnsortedEigen"])
p("C110","Square root of a Hermitian matrix","SquareRoot(A), if the iterations stop: when it returns, the new A is Hermitian and positive semidefinite, its square is the old A up to the error of the eigenvalue decomposition, and the old A was positive semidefinite up to this error; when it throws NonPosDef, there is a unit vector x with x^H A x below this error.","all N, all Hermitian A, all parameters","definiteness quantifies over all vectors, and the path through the iterations depends on the data",["src/TMV_SymSVDecompose.cpp:SquareRoot"])
p("C111","Polar decomposition","PolarDecompose(U,P) of an M x N matrix A (given in U), M >= N > 0, if the iterations stop: the new U has orthonormal columns, P is Hermitian and positive semidefinite, and U P = A up to the error of the singular value decomposition plus sqrt(N) N eps |A| for the singular values set to zero.","all M >= N > 0, all real or complex A, U conjugated or not, all parameters","definiteness quantifies over all vectors, and the path through the iterations depends on the data",["src/TMV_SymSVDecompose.cpp:PolarDecompose", "src/TMV_SVDecompose.cpp:SV_Decompose"])
p("C112","Determinant of a SmallMatrix","m.det() of a SmallMatrix<T,N,N> is the determinant of m: by the closed formulas for N = 1,2,3 and by an LU decomposition with partial pivoting for larger N.","all N, row-major and column-major storage, all real or complex elements","the dimension is a template argument: a test instantiates a handful of sizes, and pivoting depends on the data",["include/tmv/TMV_SmallMatrixDiv.h:DoDet,SMDet,DoLUD"])
p("C113","Inverse of a SmallMatrix","m.inverse() of a square SmallMatrix throws Singular exactly if det m = 0 and otherwise is the inverse.  For an M x N matrix, M > N or M < N, a result is the Moore-Penrose pseudo-inverse (and a left or right inverse), a matrix without full rank throws, and only a matrix within a change below the underflow threshold of losing full rank throws.  Nothing outside the M*N elements of the result is written.  The storage orders of the matrix and of the result may differ.","all M, N, all storage orders, all real or complex elements, any previous content of the result","the dimensions are template arguments; the four storage combinations times the pivoting cannot be enumerated",["include/tmv/TMV_SmallMatrixDiv.h:DoInverse,SMInv,SMQRInv,InvertU,InvertL,Q_RDivEq,DoQRD"])
p("C114","Division by a SmallMatrix","m1/m, m1 % m, m2 /= m, m2 %= m (m1, m2 matrices or vectors): for a square m they throw Singular exactly if det m = 0 and otherwise solve m X = m1 or X m = m1 exactly; for a rectangular m they give P m1 or m1 P with the pseudo-inverse P of m, i.e. the least squares or least norm solution.  Nothing outside the elements of the result is written.","all M, N, K, all storage orders of the three matrices, all real or complex elements","the dimensions are template arguments; the eight storage combinations times the pivoting cannot be enumerated",["include/tmv/TMV_SmallMatrixDiv.h:DoLDiv,DoLDivEq,DoRDiv,DoRDivEq,SMQRLDiv,SMQRRDiv,SMLULDivEq"])
p("C115","makeInverseATA of a SmallMatrix","m.makeInverseATA(ata) sets all elements of ata; for an M x N matrix with M >= N of full rank ata = (m^H m)^-1.","all M, N, all storage orders, all real or complex elements","the dimensions are template arguments",["include/tmv/TMV_SmallMatrixDiv.h:DoInverseATA,SMATA,SMQRATA"])
p("C116","Sums, differences and element-wise products of small vectors and matrices","v1 +- v2, x1*v1 + x2*v2, m1 +- m2, x1*m1 + x2*m2, v += w, m += x*n, v *= x, ElemProd(..): the result has the elements of the mathematical expression and nothing else is written. A sum of two SmallMatrixes, or of a SmallMatrix and any matrix, can be assigned to any MatrixView: strided, conjugated, or starting at the address of an operand.","all sizes, all storage orders of operands and result, all target views, all real or complex elements and factors","the dimensions are template arguments and each storage combination is a separate instantiation: a test covers a handful of them",["include/tmv/TMV_SmallVectorArithFunc.h:AddVV,MultXV,ElemMultVV", "include/tmv/TMV_SmallMatrixArithFunc.h:AddMM,ElemMultMM", "include/tmv/TMV_SmallMatrixArith.h:Summm_1_1,Summm_1_m1,Summm_1_x,Summm_x_1,Summm_x_m1,Summm,SummM,SumMm"])
p("C117","Products of small matrices","m1*m2, x*m1*m2, m += x*m1*m2, m -= m1*m2, m1 *= m2, m1 *= x*m2 and a product assigned to a contiguous view (conjugated or not) have the elements of the mathematical expression; nothing else is written.","all sizes, the eight combinations of storage orders, all real or complex elements and factors, any previous content of the result","the dimensions are template arguments and each storage combination is a separate instantiation: a test covers a handful of them",["include/tmv/TMV_SmallMatrixArithFunc.h:MultMM_1,MultMM,AddMultMM_1,AddMultMM_m1,AddMultMM", "include/tmv/TMV_SmallMatrixArith.h:Prodmm_1,operator*="])
p("C118","Products of small matrices and vectors","m*v, v*m, x*m*v, v += x*m*w, v *= m, v *= x*m, v*w (dot product), also with a unit-step view as target: the result has the elements of the mathematical expression and nothing else is written.","all sizes, both storage orders, conjugated and plain views, all real or complex elements and factors","the dimensions are template arguments and each storage combination is a separate instantiation: a test covers a handful of them",["include/tmv/TMV_SmallMatrixArithFunc.h:MultMV_1,MultMV,AddMultMV,MultVM_1,MultVM,AddMultVM", "include/tmv/TMV_SmallVectorArithFunc.h:MultVV", "include/tmv/TMV_SmallMatrixArith.h:Prodmv_1,operator*="])
p("C119","Outer products of small vectors","v1 ^ v2, x*(v1 ^ v2), m += x*(v1 ^ v2), m -= v1 ^ v2, and v1 ^ v2 assigned to a contiguous view, have the elements v1(i)*v2(j) of the mathematical expression and nothing else is written.","all sizes, both storage orders, all real or complex elements and factors","the dimensions are template arguments and each storage combination is a separate instantiation: a test covers a handful of them",["include/tmv/TMV_SmallMatrixArithFunc.h:Rank1Update_1,Rank1Update,AddRank1Update_1,AddRank1Update_m1,AddRank1Update", "include/tmv/TMV_SmallMatrixArith.h:OProdvv_1,OProdvv"])
p("C120","Scaling and sums of triangular matrices","A *= x, B = x*A, B += x*A and C = x*A + y*B for triangular matrices of the same shape give the mathematical result, with the zeros of the other triangle and the implicit ones of a unit diagonal taken into account; nothing outside the stored triangle of the result is written. The operands may share the storage of the result.","all sizes, steps, storage orders, conjugations, diagonal types (of the operands), factors, and the ways an operand may share memory with the result: not at all, the same triangle, or only the diagonal","the code has separate branches for row-major, column-major and strided storage, conjugation, implicit diagonals and shared storage: their combinations, at every size, are too many to test",["src/TMV_MultXU.cpp:MultXM", "src/TMV_AddUU.cpp:AddMM,DoAddMM", "include/tmv/TMV_TriMatrixArith.h:ProdXU,SumUU"])
p("C121","Sum of a triangular and a full matrix","C = x*A + y*B for an upper triangular A and full B, C gives the mathematical result in all of C and writes nothing else, also when A or B is in the storage of C.","all sizes, steps, storage orders, conjugations, diagonal types, factors, and both ways to share storage","the code has separate branches for row-major, column-major and strided storage, conjugation, implicit diagonals and shared storage: their combinations, at every size, are too many to test",["src/TMV_AddUU.cpp:AddMM", "include/tmv/TMV_TriMatrixArith.h:SumUM"])
p("C122","Sum of an upper and a lower triangular matrix","C = x*U + y*L into a full matrix gives the mathematical result in all of C and writes nothing else, also when U, L or both are triangles of C itself.","all sizes, steps, storage orders, conjugations, diagonal types, factors, and all ways to share storage","the code has separate branches for row-major, column-major and strided storage, conjugation, implicit diagonals and shared storage: their combinations, at every size, are too many to test",["src/TMV_AddUU.cpp:AddMM", "include/tmv/TMV_TriMatrixArith.h:SumUL", "include/tmv/TMV_TriMatrix.h:assignToM"])
p("C123","Assignment, scaling and sums of band matrices","A *= x, B = A, B = x*A, B += x*A and C = x*A + y*B for band matrices give the mathematical result in every element of the result, inside and outside the bands of the operands, when the result's band contains theirs; nothing but the result (and the padding of a packed result) is written, no element outside an array is touched. The operands may be views of the result that start at its first element, such as its transpose or its conjugate.","all sizes, bandwidths, steps, storage orders, conjugations, factors, values, and both ways an operand may share memory with the result (not at all, or the same first element)","the code has separate branches for packed (linear), row-major, column-major and strided storage, conjugation, bands of different width and shared storage: their combinations, at every size and bandwidth, are too many to test",["include/tmv/TMV_BandMatrix.h:Copy,DoCopy1,DoCopy,assignToB", "src/TMV_MultXB.cpp:MultXM", "src/TMV_AddBB.cpp:AddMM,DoAddMM"])
p("C124","Sum of a band matrix and a full matrix","C = x*A and C = x*A + y*B for a band matrix A and full B, C give the mathematical result in all of C (zeros outside the band for C = x*A) and write nothing else, also when A, B or both are in the storage of C.","all sizes, bandwidths, steps, storage orders, conjugations, factors, values, and all combinations of sharing storage with C","the code has separate branches for packed (linear), row-major, column-major and strided storage, conjugation, bands of different width and shared storage: their combinations, at every size and bandwidth, are too many to test",["src/TMV_AddBB.cpp:AddMM", "include/tmv/TMV_BandMatrix.h:assignToM", "include/tmv/TMV_BandMatrixArith.h:SumBM"])
p("C125","Scaling and sums of symmetric and Hermitian matrices","A *= x, A += x, B = x*A, B = x*A + y (scalar y), B += x*A and C = x*A + y*B for symmetric (or for Hermitian) matrices give the mathematical result in every element, keep the diagonal of a Hermitian matrix real, and write nothing but the stored triangle of the result. The operands may be kept in the array of the result: its transpose, conjugate or adjoint, or the other triangle.","all sizes, steps, storage orders, stored triangles, conjugations, factors (real ones for Hermitian matrices, as the library asserts), values, and ways to share the result's array","the code has separate branches for each stored triangle, storage order, conjugation and shared storage, symmetric and Hermitian: their combinations, at every size, are too many to test",["include/tmv/TMV_SymMatrixArithFunc.h:MultXM,AddMM", "include/tmv/TMV_SymMatrixArith.h:ProdXS,SumSX,SumSS", "src/TMV_AddUU.cpp:AddMM", "src/TMV_MultXU.cpp:MultXM"])
p("C126","Multiples and sums of symmetric and Hermitian matrices put into a full matrix","C = x*A, C = x*A + y (scalar y), C += x*A, C = x*A + y*B for symmetric or Hermitian A (and a symmetric, Hermitian or full B) and a full C give the mathematical result in all of C and write nothing else, also when A, B or both are kept in the storage of C.","all sizes, steps, storage orders, stored triangles, conjugations, factors, values, and ways to share storage with C","the code has separate branches for each stored triangle, storage order, conjugation and shared storage, symmetric and Hermitian: their combinations, at every size, are too many to test",["src/TMV_AddSS.cpp:AddMM", "include/tmv/TMV_SymMatrixArith.h:ProdXS::assignToM,SumSX::assignToM,SumSS::assignToM"])
p("C127","Product of a diagonal and a triangular matrix","For a diagonal matrix D and triangular matrices B and C of the same size and shape, C without an implicit diagonal, `C = alpha*D*B`, `C += alpha*D*B`, `C = alpha*B*D` and `C += alpha*B*D` give every element of C's triangle the value of the matrix product (or add it), for every storage order, conjugation, implicit diagonal of B and every alpha, also when D or B begin at the same address as C; nothing outside the triangle of C changes.","all sizes, all elements, all alpha, upper and lower C, all storage orders, conjugations and diagonal steps","The product is computed by recursion on halves, with a choice of kernel for each off-diagonal block that depends on layout, step, conjugation and alpha.",["src/TMV_MultDU.cpp:DoMultEqMM", "src/TMV_MultDU.cpp:DoAddMultMM", "src/TMV_MultDU.cpp:MultMM", "include/tmv/TMV_DiagTriArithFunc.h:MultMM"])
p("C128","Product of two triangular matrices of the same shape","For upper triangular matrices A, B, C of the same size (or all lower), `C = alpha*A*B` and `C += alpha*A*B` give every element of C's triangle the value of the matrix product of A and B as they were before the call (or add it), for every storage order, every combination of implicit diagonals that is allowed, every conjugation and every alpha, also when A, B or both are kept in the array of C, in the same triangle or in the opposite one, conjugated or not (C *= C, C = C^T-part*C, ...); no other element of the array changes.","all sizes, block sizes, elements and alpha; upper and lower; all layouts, conjugations, implicit diagonals and ways for A and B to share C's array","The product is done in place, in an order of rows, columns and blocks chosen so that no operand is overwritten before it is read; the order depends on the layouts, the size, the implicit diagonals and the sharing.",["src/TMV_MultUU.cpp:RRMultEqMM", "src/TMV_MultUU.cpp:CRMultEqMM", "src/TMV_MultUU.cpp:CMultEqMM", "src/TMV_MultUU.cpp:MultEqMM", "src/TMV_MultUU.cpp:AddMultMM", "src/TMV_MultUU.cpp:TempMultMM", "src/TMV_MultUU.cpp:MultMM", "include/tmv/TMV_TriMatrixArithFunc.h:MultMM"])
p("C129","Product of an upper and a lower triangular matrix","For an upper triangular A, a lower triangular B and a full square C of the same size, `C = alpha*A*B`, `C += alpha*A*B`, `C = alpha*B*A` and `C += alpha*B*A` give every element of C the value of the matrix product of the factors as they were before the call (or add it), for every storage order, implicit diagonals, conjugation and alpha, also when one factor or both are kept in the array of C, each in its own or in the opposite triangle of C, conjugated or not; nothing outside C changes.","all sizes, block sizes, elements and alpha; both orders of the factors; all layouts, conjugations, implicit diagonals and ways for the factors to share C's array","The factors may lie in the memory that receives the product; the order of the columns and blocks, and the copies made, have to be right in each of the nine ways of sharing, for every size.",["src/TMV_MultUL.cpp:ColMultMM", "src/TMV_MultUL.cpp:DoMultMM", "src/TMV_MultUL.cpp:MultMM"])
p("C130","Dividing a triangular matrix by a triangular matrix","For triangular A and B of the same shape (both upper or both lower; B may have an implicit unit diagonal only if A has one), `B %= A` (B = A^-1 B in place) leaves a B such that A times it is the matrix B was before, and changes nothing outside the stored triangle of B. It raises no exception if A has an implicit diagonal or no zero on its diagonal, and raises one whenever A X = B has no solution, in particular if A(i,i) is zero where B(i,i) is not.","all sizes, block sizes, elements, storage orders, conj flags and implicit diagonals; both shapes","The solve runs over rows, columns or recursive blocks in place, with two sorts of implicit diagonals that have to be put in by hand; that each order only uses elements already solved has to hold for every size.",["src/TMV_TriDiv_L.cpp:RowTriLDivEq", "src/TMV_TriDiv_L.cpp:ColTriLDivEq", "src/TMV_TriDiv_L.cpp:DoTriLDivEq", "src/TMV_TriDiv_L.cpp:TriLDivEq"])
p("C131","Multiples and sums of symmetric and Hermitian band matrices","For symmetric or Hermitian band matrices A (and B), `C = alpha*A`, `C += alpha*A` and `C = alpha*A + beta*B` into a band matrix C wide enough, and `C = alpha*A + beta*B` into a full C (B symmetric band, band or full), give every element of C the mathematical value computed from the operands as they were before, zeros where C's band is wider than the operands', and change nothing else; operands may be kept in the array of C.","all sizes, widths, elements, factors; symmetric and Hermitian; operands apart from C or in its upper or lower triangle, conjugated or not; general B also as C or its transpose","The code treats the upper and lower part of the result one after the other, with branches for each combination of shared storage; that no branch reads what an earlier step has overwritten has to hold for every size, width and combination.",["src/TMV_AddsBsB.cpp:AddMM", "include/tmv/TMV_SymBandMatrixArith.h:ProdXsB::assignToB"])
p("C132","Symmetric matrices combined with diagonal, triangular, band and symmetric band matrices","For a symmetric or Hermitian S and a diagonal, triangular, band or symmetric band A of the same size, `C = x1*A + x2*S`, `C = x*A*S`, `C = x*S*A` (A diagonal or triangular) and `C = x*S/D`, `C = x*S%D` (D diagonal) give every element of C the mathematical value computed from the operands as they were before and change nothing else, also when S is kept in a triangle of C's array and A is a view of C (its diagonal, first row or column, a triangle or band of it); the quotients throw exactly when D has a zero on its diagonal. The sum with a diagonal matrix may also be put into a symmetric C, and a symmetric band matrix may be added to a band matrix of at least its width.","all sizes, elements, factors and widths; symmetric and Hermitian S, apart from C or kept in its upper or lower triangle, conjugated or not; A apart from C or a view that begins at C's first element","S is written over C before A is used, so whether A survives depends on how the two share memory; this has to hold for every size, every way of sharing and every pair of storage forms, and tests use separate operands.",["include/tmv/TMV_DiagSymArith.h:SumDS", "include/tmv/TMV_DiagSymArith.h:ProdDS", "include/tmv/TMV_DiagSymArith.h:QuotSD", "include/tmv/TMV_TriSymArith.h:SumUS", "include/tmv/TMV_TriSymArith.h:ProdUS", "include/tmv/TMV_BandSymArith.h:SumBS", "include/tmv/TMV_SymSymBandArith.h:SumsBS", "include/tmv/TMV_BandSymBandArith.h:operator+="])
p("C133","Symmetric and Hermitian band matrix times vector or matrix","For a symmetric or Hermitian band matrix A, `y = alpha*A*x`, `y += alpha*A*x`, `C = alpha*A*B` and `C += alpha*A*B` give every element the mathematical value computed from the operands as they were before, whichever side of A is stored, whatever the steps and conjugations of the views and the block size, also when x begins where y does, when B is C, its conjugate, transpose or adjoint, and when A is stored in the array of C; nothing else changes.","all sizes, widths, elements and factors; upper and lower storage, symmetric and Hermitian, conjugated or not; unit and other steps; all block sizes; the sharings named","The product is put together from the two sides of the band, with temporaries chosen by step, factor and shared storage and with the columns taken in blocks; that all paths agree has to hold for every size, width and path.",["src/TMV_MultsBV.cpp:MultMV", "src/TMV_MultsBV.cpp:NonBlasMultMV", "src/TMV_MultsBV.cpp:UnitAMultMV", "src/TMV_MultsBM.cpp:MultMM", "src/TMV_MultsBM.cpp:BlockTempMultMM"])
p("C134","Symmetric band matrix times band matrix or symmetric band matrix","For a symmetric or Hermitian band matrix A and a band matrix or symmetric band matrix B, `C = alpha*A*B` and `C += alpha*A*B` into a band matrix C with room for the diagonals of the product give every element of C's band the mathematical value computed from the operands as they were before, whichever side is stored, conjugated or not, also when A or B is stored in the array of C; nothing else changes, and no call with such operands fails.","all sizes (B and C need not be square), all widths of A, B and C that leave room for the product, all elements and factors; upper and lower storage, symmetric and Hermitian, conjugated or not; the sharings named","The product is made from the lower band and the shifted upper band of A, each into a view of C whose widths depend on those of B and C in a dozen cases; the widths that go wrong are corner cases (a triangular B) that a test of some widths misses.",["src/TMV_MultsBB.cpp:DoMultMM", "src/TMV_MultsBB.cpp:TempMultMM", "src/TMV_MultsBB.cpp:MultMM", "src/TMV_BandMatrix.cpp:hasSubBandMatrix"])
p("C135","Dividing a vector by a triangular matrix that shares its storage","`v2 = v1/U` and `v2 = v1/L` for a triangular matrix with no zero on its diagonal leave in v2 the vector with U*v2 = v1 (L*v2 = v1) for the matrix and v1 as they were before, wherever v1 is stored, and for a v2 apart from the matrix or beginning where it does (its diagonal, first row, first column); nothing but v2 changes.","all sizes, elements and memory layouts of matrix and vectors (any strides); unit and non-unit diagonals; v1 anywhere, v2 apart from the matrix or beginning with its first element","Which of the operands share storage decides whether a temporary is used; the solve then reads the matrix while the vector is written, so a wrong choice shows only for the layouts that overlap.",["src/TMV_TriDiv.cpp:GenUpperTriMatrix::doLDiv", "src/TMV_TriDiv.cpp:GenLowerTriMatrix::doLDiv", "include/tmv/TMV_Base.h:SameStorage", "src/TMV_TriDiv_V.cpp:TriLDivEq"])
open('/verif/properties.jsonl','w').write(''.join(json.dumps(x)+'\n' for x in P))
print(len(P))

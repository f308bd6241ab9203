# Formal model of rmjarvis/tmv in Lean 4 — design

## Approach

TMV is a C++ linear-algebra library.  Element storage is raw memory addressed by `ptr + i*stepi + j*stepj`;
views share it; algorithms update it in place.  The model has two layers.

* **Memory layer** (`Model/Mem, Vec, VecArith, Mat, Band, TriMat, SymMat, Arr, Perm*, ListInit, ...`).  Memory is a
  partial map from integer addresses to elements; an access outside the allocation is the distinct outcome
  `none` (undefined behaviour), as is an integer division by zero.  C++ loops become structural recursions on
  the trip count, recursive C++ functions become well-founded recursions with the same case distinctions (including
  the dispatch on majorness, steps, conjugation, unrolled loops and block sizes).  A theorem of the form
  `∃ m', op .. m = some m' ∧ ...` therefore also states that no access is out of bounds.  Frame conditions say that no other memory
  changed.
* **Exact-arithmetic layer** (`Model/LU, Tri*, CH, QR*, Givens, Bareiss, SymRK, ...`).  Numerical algorithms are
  transcribed as functions on matrices over a commutative ring, a field, an ordered (star) field, or ℝ/ℂ, again with the
  branch structure and the block/recursion sizes of the code (block sizes are parameters).

Specification side (`Spec/`): small files of vocabulary (`Holds`, `Frame`, `Covers`, `Live`, `IsLU`, ...), Mathlib's
`Matrix`, `det`, `Equiv.Perm`, `List.Perm`, `Finset.sum`.

Layout: `Verif/Model` (definitions, each citing file and lines), `Verif/Spec` (vocabulary of the statements),
`Verif/Lemmas` (helpers), `Verif/Props` (property theorems, non-vacuity examples, witnesses).

When the code violates a property as stated, the negation is proved on a concrete witness (`..._violated`), and
the strongest true part is kept under the suffix `_partial` (or with the excluded case as an explicit hypothesis).

## Trusted base

* Lean 4.33.0's kernel.  Every theorem depends on a subset of the axioms `propext`, `Classical.choice`,
  `Quot.sound`; none other, no `native_decide`, no `bv_decide`, no own axioms.  (`decide +kernel` is used on concrete
  examples only: it is evaluated by the kernel.)
* The faithfulness of the hand transcription; each definition cites the file and lines it models and says
  where it simplifies.
* The reading of the English properties by the statements in `Props/` and `Spec/`.

## What is not modelled

* BLAS and LAPACK code paths (`#ifdef BLAS`, `#ifdef LAP`), the small fixed-size classes, the divide-and-conquer
  and iterative SVD / eigenvalue code, QRP, band/tridiagonal decompositions, matrix functions (sqrt, pow), the
  statistics of rounding: floating point rounding, overflow and NaN are outside the model, theorems are about the
  algorithm in exact arithmetic.
* Mixed real/complex operands: one element type per theorem, complex numbers being the star ring case.
* Debug-only code (`TMVAssert`, XDEBUG); the preconditions asserted there appear as hypotheses.
* Template instantiation, expression-template plumbing beyond the calls cited, compiler behaviour, exceptions thrown by
  `std::vector`, `new` (except where cited), stream state beyond the IO model.
* Aligned small-buffer `StackArray`; signals, multi-threading except the OpenMP split named in C47.

## Properties: what is modelled, how it is proved, status

**C01 — Vector views stay inside their parent.**  
Modelled in Model/Mem, Model/Vec (VView: ptr,size,step,conj); proved by induction over chains of view operations; addresses by integer arithmetic.  Status: proved.
Theorems: `view_chain_inside`, `VOp.run_spec`, `view_op_reads`.

**C02 — subVector argument check is exact.**  
Modelled in Model/Vec range checks, with C++ integer division and remainder (`tdiv`,`tmod`, `none` for a zero divisor); proved by equivalence of the code's test with a quantified range condition; witnesses by evaluation.  Status: partial.  exact for istep != 0; for istep == 0 the check itself divides by zero (undefined behaviour) - witness proved.
Theorems: `hasSubVector_iff`.  Witnesses against the code: `hasSubVector_zero_step_violated`, `subVector_empty_zero_step_violated`.

**C03 — Fortran-style ranges denote the same elements as the shifted C-style ranges.**  
Modelled in Model/Vec range checks, with C++ integer division and remainder (`tdiv`,`tmod`, `none` for a zero divisor); proved by equivalence of the code's test with a quantified range condition; witnesses by evaluation.  Status: partial.  Fortran check accepts i1==i2 without range check when istep==0 path is taken - witness proved.
Theorems: `hasSubVectorF_iff_partial`, `hasSubVectorF_shift_partial`, `subVectorF_elements`, `subVector2F_elements`.  Witnesses against the code: `hasSubVectorF_single_violated`.

**C04 — Writes through a vector view change exactly the viewed element.**  
Modelled in Model/Vec element loops on partial memory; proved by induction on the trip count, with a frame condition for all other memory.  Status: proved.
Theorems: `setRef_spec`, `setRef_other`, `setRef_ub`.

**C05 — setAllTo sets every viewed element to the given value and touches nothing else.**  
Modelled in Model/Vec element loops on partial memory; proved by induction on the trip count, with a frame condition for all other memory.  Status: partial.  conjugated views with |step|<=1 get the conjugated value - witness proved.
Theorems: `setAllTo_spec_partial`.  Witnesses against the code: `setAllTo_conj_violated`, `setAllTo_empty_step0_violated`.

**C06 — addToAll, conjugateSelf, clip and setZero act element-wise and in place.**  
Modelled in Model/Vec element loops on partial memory; proved by induction on the trip count, with a frame condition for all other memory.  Status: partial.  step-0 conjugated single-element views: addToAll ignores conj - witness proved; everything else proved.
Theorems: `setZero_spec`, `addToAll_spec_partial`, `conjugateSelf_spec`, `clip_spec`, `makeBasis_spec`.  Witnesses against the code: `addToAll_step0_violated`.

**C07 — reverseSelf reverses the vector.**  
Modelled in Model/Vec element loops on partial memory; proved by induction on the trip count, with a frame condition for all other memory.  Status: proved.
Theorems: `reverseSelf_spec`, `reverseSelf_twice`.

**C08 — permute and reversePermute are inverse rearrangements.**  
Modelled in Model/Vec, Model/Perm; proved by induction on the interchange list; `Equiv.Perm` as specification.  Status: proved.
Theorems: `permute_reversePermute`, `permute_spec`, `reversePermute_spec`, `swap_spec`.

**C09 — sort without a permutation sorts exactly the viewed elements.**  
Modelled in Model/Sort (the library's `sort`, `std::sort` a parameter with its standard contract); proved by loop invariant of ConvertIndexToPermute; `List.Perm`, sortedness.  Status: partial.  contiguous views proved; strided/reversed views sort the wrong memory - witnesses proved.
Theorems: `sortNoP_spec_partial`.  Witnesses against the code: `sortNoP_strided_violated`, `sortNoP_reversed_violated`.

**C10 — sort with a Permutation returns the permutation that was applied.**  
Modelled in Model/Sort (the library's `sort`, `std::sort` a parameter with its standard contract); proved by loop invariant of ConvertIndexToPermute; `List.Perm`, sortedness.  Status: proved.  std::sort is a parameter with its standard contract.
Theorems: `sortP_spec`, `convertIndexToPermute_spec`.

**C11 — min/max element functions return an extreme element and its index.**  
Modelled in Model/Vec search loops, sums, rescaled norm; proved by loop invariants over ordered fields / the reals.  Status: partial.  step-0 conjugated single element: value read without conj - witness.
Theorems: `minAbs_spec`, `maxAbs_spec`, `minElement_spec_partial`, `maxElement_spec_partial`, `minmax_empty`.  Witnesses against the code: `minElement_step0_violated`.

**C12 — sums and norms do not depend on storage direction or conjugation.**  
Modelled in Model/Vec search loops, sums, rescaled norm; proved by loop invariants over ordered fields / the reals.  Status: partial.  step-0 conjugated single element - witness.
Theorems: `sumElements_spec_partial`, `normSq_spec`, `sumAbs_spec`.  Witnesses against the code: `sumElements_step0_violated`.

**C13 — norm2 is invariant under the overflow/underflow rescaling.**  
Modelled in Model/Vec search loops, sums, rescaled norm; proved by loop invariants over ordered fields / the reals.  Status: proved.  exact arithmetic.
Theorems: `norm2_spec`.

**C14 — Swap exchanges two vectors.**  
Modelled in Model/Vec element loops on partial memory; proved by induction on the trip count, with a frame condition for all other memory.  Status: proved.
Theorems: `swapV_spec`.

**C15 — Vector equality is element-wise equality.**  
Modelled in Model/Vec element loops on partial memory; proved by induction on the trip count, with a frame condition for all other memory.  Status: proved.
Theorems: `eqV_iff`.

**C16 — Matrix views stay inside their parent and address the documented elements.**  
Modelled in Model/Mat (MView: ptr,cs,rs,si,sj,conj); proved by integer arithmetic on addresses; composition of views; induction.  Status: partial.  every view obtained through accepted arguments stays inside and reads the documented elements; the checks are exact for nonzero steps and sizes > 0; four witnesses where the argument check itself is wrong or undefined.
Theorems: `MOp.run_spec`, `mat_view_chain`, `mat_vec_view`, `hasSubMatrix_iff`, `matHasSubVector_iff`.  Witnesses against the code: `hasSubMatrix_zero_step_violated`, `subMatrix_empty_zero_step_violated`, `hasSubMatrixF_single_violated`, `matHasSubVector_negative_violated`.

**C17 — Linear views enumerate every matrix element exactly once.**  
Modelled in Model/Mat (MView: ptr,cs,rs,si,sj,conj); proved by integer arithmetic on addresses; composition of views; induction.  Status: proved.
Theorems: `linearView_spec`, `canLinearize_geom`, `lsok_runAll`, `lsok_ofStor`, `lsok_ofSteps`, `lsok_ofRowVector`, `lsok_ofColVector`, `each_spec`, `eachOwned_spec`.

**C18 — transposeSelf transposes in place.**  
Modelled in Model/Mat (MView: ptr,cs,rs,si,sj,conj); proved by integer arithmetic on addresses; composition of views; induction.  Status: proved.
Theorems: `transposeSelf_spec`, `transposeSelf_twice`.

**C19 — permuteRows equals multiplication by the permutation, for every block size.**  
Modelled in Model/Mat permuteRows with its blocking; proved by induction over blocks; macro expansion modelled literally.  Status: partial.  every block size when the macro is read as intended, and every even TMV_BLOCKSIZE as written; odd -DTMV_BLOCKSIZE gives a wrong result (unparenthesised macro) - witness proved.
Theorems: `permuteRows_spec`, `reversePermuteRows_spec`, `permuteRows_reverse`, `permuteRowsMacro_even_spec`.  Witnesses against the code: `permuteRowsMacro_odd_violated`.

**C20 — Permutation element access agrees with applying the permutation.**  
Modelled in Model/Perm; proved by induction on the interchange list, group laws of `Equiv.Perm`.  Status: partial.  normalised lists (all lists the library makes); unnormalised lists, allowed by the documented constructor, are a witness.
Theorems: `perm_cref_spec_partial`, `perm_cref_unique_partial`.  Witnesses against the code: `perm_cref_violated`.

**C21 — Permutation inverse/transpose really invert.**  
Modelled in Model/Perm; proved by induction on the interchange list, group laws of `Equiv.Perm`.  Status: proved.
Theorems: `perm_inverse_apply`, `perm_inverse_cref`.

**C22 — Permutation determinant is the sign of the permutation.**  
Modelled in Model/Perm; proved by induction on the interchange list, group laws of `Equiv.Perm`.  Status: proved.
Theorems: `perm_det_sign`, `perm_det_matrix`.

**C23 — Permutation trace counts fixed points.**  
Modelled in Model/Perm; proved by induction on the interchange list, group laws of `Equiv.Perm`.  Status: proved.
Theorems: `perm_trace_spec`, `perm_trace_matrix`.

**C24 — Permutation equality is equality of the permutations.**  
Modelled in Model/Perm; proved by induction on the interchange list, group laws of `Equiv.Perm`.  Status: partial.  normalised lists; witness for unnormalised ones.
Theorems: `perm_eq_iff_partial`.  Witnesses against the code: `perm_eq_violated`.

**C25 — Permutations own or share their memory safely.**  
Modelled in Model/PermHeap (heap of index arrays, owners, borrowers); proved by invariant over operation histories; witnesses outside the borrowing discipline.  Status: partial.  proved under a borrowing discipline; five witnesses that the documented promise fails without it.
Theorems: `PermHeap.history_safe_partial`, `PermHeap.step_safe`, `PermHeap.init_inv`.  Witnesses against the code: `PermHeap.alias_modified_violated`, `PermHeap.self_assign_violated`, `PermHeap.assign_inverse_violated`, `PermHeap.read_copy_violated`, `PermHeap.copy_outlives_violated`.

**C26 — Integer determinants are exact.**  
Modelled in Model/Bareiss; proved by minor (Sylvester) invariant by induction over the step, Mathlib `det`.  Status: proved.  intermediates assumed exactly representable (no long double overflow).
Theorems: `Bareiss.integerDet_spec`, `Bareiss.integerDet_int`, `Bareiss.integerDet_gaussian`, `Bareiss.bareiss_eq_det`.

**C27 — LU decomposition reproduces the matrix.**  
Modelled in Model/LU (non-block, block, recursive); proved by loop invariants and well-founded induction over a field.  Status: partial.  square and tall matrices proved; wide matrices with two rows are decomposed wrongly - witness proved.
Theorems: `LU.decompose_spec`, `LU.recursive_spec`, `LU.plu_eq`, `LU.decompose_example`.  Witnesses against the code: `LU.lu_wide_violated`.

**C28 — LU pivoting bounds the multipliers.**  
Modelled in Model/LU (non-block, block, recursive); proved by loop invariants and well-founded induction over a field.  Status: proved.  field bound of IsLU; for every absolute value on the field.
Theorems: `LU.decompose_spec`.

**C29 — LU-based solve, inverse and determinant are correct.**  
Modelled in Model/LUDiv; proved by refinement of every operation to IsLU plus solver theorems.  Status: proved.  exact arithmetic; not-in-place LUDiv.
Theorems: `LU.lDiv_spec`, `LU.rDiv_spec`, `LU.inverse_spec`, `LU.det_spec`.

**C30 — Triangular solves solve.**  
Modelled in Model/Tri, Model/TriMul, Model/TriProd; proved by strong induction over the recursion, every block size.  Status: partial.  solution and no spurious exception proved; zero diagonal is not always raised (column-major solve skips zero components) - witness.
Theorems: `Tri.upperM_sound`, `Tri.lowerM_sound`, `Tri.upperM_isSome`, `Tri.lowerM_isSome`.  Witnesses against the code: `Tri.zero_diag_not_raised_violated`.

**C31 — Cholesky decomposition is correct and detects non-positive-definite matrices.**  
Modelled in Model/CH; proved by loop invariants over an ordered star field; equivalence with positive definiteness.  Status: proved.  Recursive/non-block algorithms in both storage orders, real and complex elements, every size and block size (ch_correct: A = L L^H with positive diagonal, memory outside the triangle untouched; ch_raises_iff: NonPosDef iff not positive definite). Exact arithmetic; the Lapack path and the unused BlockCH_Decompose are not modelled.
Theorems: `CH.ch_correct`, `CH.ch_raises_iff`, `CH.ch_deterministic`, `CH.cholesky_unique`.

**C32 — LDL decomposition reproduces the matrix.**  
Modelled in Model/LDL, Spec/LDL; proved by invariant: permuted matrix = L D L† of the finished columns plus the Schur complement, kept by pivot exchanges, 1x1 and 2x2 steps and panels.  Status: proved.  Exact arithmetic (TMV_Underflow is = 0), no LAPACK, matrix stored in its lower triangle and not conjugated (the other cases are brought to this one by transposing the view at the start of LDL_Decompose).
Theorems: `LDL.decompose_spec`, `LDL.decompose_det`, `LDL.nonBlock_spec`, `LDL.block_spec`, `LDL.panel_spec`, `LDL.choose_spec`, `LDL.invert2_spec`.

**C33 — Householder reflections are orthogonal and zero the vector.**  
Modelled in Model/QR (HouseholderReflect); proved by case analysis over every branch, over ℝ and ℂ.  Status: proved.  Real and complex vectors of every length; every branch incl. rescaling and underflow (a vector below the threshold tiny is treated as zero, as in the code). Exact arithmetic.
Theorems: `QR.householder_reflect`, `QR.householder_reflect_involution`, `QR.householder_unreflect`.

**C34 — QR decomposition reproduces the matrix with orthonormal Q.**  
Modelled in Model/QR, Model/QRDiv; proved by strong induction over the recursion; unitary factors as products of reflections.  Status: proved.  Blocked, recursive and non-blocked algorithms, every shape M>=N and block size: Q has orthonormal columns, R upper triangular, QR = A+E where column c of E is nonzero only if R(c,c)=0 and is below the underflow threshold. Exact arithmetic, no Lapack.
Theorems: `QR.qr_decompose`, `QR.nonBlock_spec`.

**C35 — Givens rotations zero the requested element and preserve norms.**  
Modelled in Model/Givens; proved by case analysis over every branch; vector and matrix forms by induction.  Status: partial.  GivensRotate (real and complex, every branch): second element exactly 0, unitary up to the factor 1+n with n<=2*eps which the code's shortcuts allow (n=0 otherwise). Vector form proved when both views have the same conjugation; a mixed pair is computed wrongly (witness), s=0 with c!=1 is a no-op (witness), symMult is wrong for complex s (witnesses).
Theorems: `givensRotate_spec`, `givensRotate_norm`, `givensMult_norm`, `givens_adjoint`, `givensMultV_partial`, `givensHermMult_spec`, `givensSymMult_partial`, `givensSymMult_complex_violated'`, `signR_ok`, `signC_ok`.  Witnesses against the code: `givensMultV_conj_violated`, `givensMultV_zero_violated`, `givensSymMult_complex_violated`.

**C36 — Band storage never overlaps and fits the allocation.**  
Modelled in Model/Band storage arithmetic; proved by injectivity and bounds of the address map by integer arithmetic.  Status: partial.  Every size, bandwidth and storage order except DiagMajor with colsize>rowsize, nlo==0, nhi>0, where the claim is false (elements beyond the allocated array; proved for all such sizes).
Theorems: `band_storage_partial`, `band_storage_violated_all`, `band_new_live_partial`, `bandNumElements_spec`.  Witnesses against the code: `band_storage_violated`.

**C37 — Band matrix element access outside the band is zero and views agree with the parent.**  
Modelled in Model/Band; proved by views by integer arithmetic; loops over rows/columns/diagonals by induction.  Status: partial.  False for rowRange/colRange ending above the last subdiagonal (exposes other elements of the parent outside the band), for rows below the band (negative size) and for subBandMatrix with steps (accepted although outside the band); proved for all other views.
Theorems: `band_cref_zero`, `band_cref_in`, `band_cref_total`, `band_write`, `band_row3`, `band_col3`, `band_diag3`, `band_diagOff`, `BView.Shows.inj`, `BView.Shows.live`, `BView.Shows.cref`, `band_subBand6`, `band_subBand4`, `band_rowRange_partial`, `band_colRange_partial`, `band_rowRange_wf_partial`, `band_colRange_wf_partial`, `band_rowRange_size`, `band_diagRange`, `band_upperBand`, `band_lowerBand`, `band_upperBandOff`, `band_lowerBandOff`, `band_view_shows`, `band_transpose`, `band_conjugate`, `band_adjoint`, `band_ofMat`, `band_narrow`, `band_subVector`, `band_subMatrix6`, `band_subBand8_one`.  Witnesses against the code: `band_rowRange_violated`, `band_colRange_violated`, `band_rowRange_size_violated`, `band_subBand8_violated`.

**C38 — Symmetric and Hermitian matrices stay symmetric.**  
Modelled in Model/SymMat; proved by region of stored elements; invariant over operation histories.  Status: proved.  Model of SymMatrix/HermMatrix storage and element access on memory. sym_history: any list of modifying operations within the documented preconditions (real values on a Hermitian diagonal; setAllTo/setToIdentity of a non-real value on a conjugated symmetric view excluded, a separate finding) runs, gives exactly the mathematical result, leaves the matrix symmetric/Hermitian with real diagonal, and changes no memory outside the stored triangle. Arithmetic (rank updates, products) is C30/C31.
Theorems: `sym_history`, `symOp_spec`, `sym_symmetric`, `sym_symmetric_diag`, `sym_write`, `sym_storage`, `sym_holds_symOf`, `sym_cref_total`.

**C39 — Triangular matrices read 0 outside and 1 on a unit diagonal.**  
Modelled in Model/TriMat; proved by region of stored elements (Lemmas/Region); induction over rows/columns.  Status: proved.  Model of element access through UpperTriMatrix / LowerTriMatrix and their views; distinctness and bounds of the stored elements from the owner's constructor.
Theorems: `tri_cref_zero`, `tri_cref_one`, `tri_cref_in`, `tri_cref_total`, `tri_write`, `tri_write_unit`, `tri_storage`, `tri_assignToM_spec`, `lower_cref_zero`, `lower_cref_one`, `lower_write`.

**C40 — Matrix multiplication is correct for every algorithm and aliasing pattern the library checks.**  
Modelled in Model/MatMatKern (RCC/CRC/CCC recursions), Model/MatMatBlock (packing, k-chunks, block loops), Model/MatMat (real/complex splitting, algorithm choice, wrapper); proved by induction over the recursion of every kernel; invariant of the packed blocks (each stale buffer entry is finite or zeroed); loop nest invariants over covered blocks; sums.  Status: proved.  Exact arithmetic, no BLAS, generic (non-SSE) kernels as loops over k. Real, complex and mixed element types; A and B may each share the first element with C. Allocation failure inside the blocked algorithm and OpenMP are separate properties.
Theorems: `mulMM_spec`, `nonBlasMulMM_spec`, `blockMM_spec`, `run_spec`, `blockPart_spec`, `kernMNK_acc`, `cccMulMM_spec`, `crcMulMM_spec`, `rccMulMM_spec`.

**C41 — Vector and matrix arithmetic is alias-safe for detected aliases.**  
Modelled in Model/VecArith; proved by loop invariants with an ordering hypothesis; temporaries as fresh memory that is freed.  Status: partial.  Exact arithmetic, one element type, no BLAS. True for operands that are disjoint from the destination, equal to it up to conjugation, or start at its first element with a larger step. False for a source with the same first element and a smaller step (proved: vec_alias_step_violated, elemProd_alias_violated), although the library's SameStorage test holds; ElemProd also misses the alias when it reverses the vectors first (elemProd_reverse_violated).
Theorems: `mat_addMM_spec`, `mat_addMM3_spec`, `mulMV_spec`, `mulXV_spec`, `addVV_spec`, `addVV3_spec_partial`, `elemMulVV_spec_partial`, `copy_safe_spec`, `SafeOrder.of_noClash`, `SafeOrder.of_step`.  Witnesses against the code: `rank1_alias_violated`, `vec_alias_step_violated`, `elemProd_alias_violated`, `elemProd_reverse_violated`.

**C42 — Reading back what was written restores the object.**  
Modelled in Model/IO (reader/writer state machines on character lists, styles as data); proved by round trip by induction over the written text; acceptance equivalences.  Status: proved.  Round trip for every style whose separators keep numbers apart, for any number format obeying Codec.Law (proved for integers); the three predefined styles are instances. Tri/Band/Sym formats not modelled. read_perm_isinv_violated: compact style with simple size reads an uninitialised inverse flag.
Theorems: `IO.vector_roundtrip`, `IO.vectorView_roundtrip`, `IO.matrix_roundtrip`, `IO.diag_roundtrip`, `IO.perm_roundtrip`, `IO.predefined_roundtrip`, `IO.intCodec_law`.

**C43 — Reading malformed input ends with an error.**  
Modelled in Model/IO (reader/writer state machines on character lists, styles as data); proved by round trip by induction over the written text; acceptance equivalences.  Status: partial.  Reading ends whenever the last character of the stream is not white space, and succeeds exactly on the right format. The full claim is false: truncated input ending in white space makes skipWhiteSpace loop forever, and at the exact end of file an uninitialised char is tested (witnesses).
Theorems: `IO.read_terminates_partial`, `IO.skip_refines`, `IO.skip_hang_iff`, `IO.readVector_ok_iff`, `IO.readVectorView_ok_iff`, `IO.readMatrix_ok_iff`, `IO.readDiag_ok_iff`.  Witnesses against the code: `IO.read_hangs_violated`, `IO.read_uninitialised_violated`, `IO.read_negative_size_violated`, `IO.read_perm_range_violated`.

**C44 — Division control: cached decompositions are used only as documented.**  
Modelled in Model/Div (divider flags and cache as a state machine); proved by invariant over operation histories.  Status: partial.  Every history of calls on one matrix object. 'Never stale by default' is proved for histories without explicit setDiv/lud()/... and without an earlier throwing division; both exclusions are necessary (witnessed). The decompositions are parameters.
Theorems: `Div.div_no_ub`, `Div.div_default_fresh_partial`, `Div.div_unset_fresh`, `Div.div_using_spec`, `Div.div_saved_stable`, `Div.div_not_in_place_unchanged`.  Witnesses against the code: `Div.div_stale_after_exception_violated`, `Div.div_stale_after_access_violated`, `Div.norm2_saved_assert_violated`.

**C45 — List initialisation fills elements in order and reports count mismatches.**  
Modelled in Model/ListInit; proved by induction over the list; reference-count of consumed elements.  Status: partial.  Vectors, full and triangular matrices and any row profile. The too-few error needs at least two values and a C++98/03 build (both witnessed).
Theorems: `ListInit.vec_list_init_partial`, `ListInit.rm_list_init`, `ListInit.mat_list_init`, `ListInit.tri_list_init`, `ListInit.listInit_spec`.  Witnesses against the code: `ListInit.list_init_single_violated`, `ListInit.list_init_terminate_violated`.

**C46 — Allocated memory is aligned and large enough.**  
Modelled in Model/Arr; proved by invariant over allocation histories, all malloc addresses.  Status: partial.  Default build proved for all histories and addresses; with TMV_END_PADDING only for 16-byte aligned blocks (overflow witnessed otherwise). StackArray not modelled.
Theorems: `Arr.alloc_aligned_fits`, `Arr.array_histories`, `Arr.array_size`, `Arr.end_padding_fits_partial`.  Witnesses against the code: `Arr.end_padding_overflow_violated`.

**C47 — Parallel matrix multiplication is race free and gives the product.**  
Modelled in Model/Conc (threads as programs of single memory accesses, any interleaving, shared allocator), Model/Omp (division of the work, the calls each thread makes), Lemmas/Impl* (every sequential function of the blocked product as such a program); proved by ownership invariant over all reachable states (each thread owns its block of C and its temporaries, A and B are shared read-only), partition lemma, well-founded termination of every schedule.  Status: proved.  Exact arithmetic, sequentially consistent memory (justified by the proved absence of races), allocations succeed, generic (non-SSE) kernels. A and B share no element with C, as MultMM ensures before the call.
Theorems: `omp_spec`, `omp_ends`, `step_terminates`, `ompRange_partition`.

**C48 — Complex reciprocal and division are exact inverses.**  
Modelled in Model/Fun; proved by algebra.  Status: proved.  Exact arithmetic.
Theorems: `inverseOfC_spec`, `divide_spec`.

**C49 — Element references through conjugated views act on the viewed value.**  
Modelled in Model/Refs; proved by algebra; laws of iterators by integer arithmetic.  Status: partial.  Exact complex arithmetic. TMV_SQR and TMV_SQRT of a ConjRef are wrong in the code (witnessed); stream operators not modelled.
Theorems: `ref_assign_complex`, `ref_assign_real`, `ref_assign_ref`, `ref_read`, `cref_read_partial`, `ref_eq_ref`, `ref_swap`, `ref_swap_plain`.  Witnesses against the code: `conjref_sqr_violated`, `conjref_sqrt_violated`.

**C50 — Vector assignment copies every element.**  
Modelled in Model/Vec copy/assignment; proved by induction on the trip count, alias conditions explicit.  Status: proved.
Theorems: `copy_spec`.

**C51 — Triangle products and inverses work in the matrix that holds the triangles.**  
Modelled in Model/Tri, Model/TriMul, Model/TriProd; proved by strong induction over the recursion, every block size.  Status: proved.
Theorems: `TriProd.multUL_spec`, `TriProd.multLU_spec`, `TriProd.triInverse_spec`.

**C52 — Triangle times vector or matrix in place.**  
Modelled in Model/Tri, Model/TriMul, Model/TriProd; proved by strong induction over the recursion, every block size.  Status: proved.
Theorems: `TriMul.upperV_spec`, `TriMul.lowerV_spec`, `TriMul.upperRec_spec`, `TriMul.lowerRec_spec`.

**C53 — Whole-matrix element-wise operations act on every element exactly once.**  
Modelled in Model/Mat; proved by induction over rows/columns, majorness dispatch modelled.  Status: partial.  setAllTo/addToAll/setToIdentity exclude conjugated views whose rows or columns the vector routine handles as contiguous or step 0; the setAllTo case is a proved witness.
Theorems: `mat_setZero_spec`, `mat_setAllTo_spec_partial`, `mat_addToAll_spec_partial`, `mat_conjugateSelf_spec`, `mat_clip_spec`, `mat_setToIdentity_spec_partial`.  Witnesses against the code: `mat_setAllTo_conj_violated`.

**C54 — Matrix assignment copies every element, also from views of itself.**  
Modelled in Model/Mat; proved by induction over rows/columns, majorness dispatch modelled.  Status: proved.
Theorems: `mat_copy_spec`, `copyDiff_spec`.

**C55 — Matrix Swap exchanges and == compares all elements.**  
Modelled in Model/Mat; proved by induction over rows/columns, majorness dispatch modelled.  Status: proved.
Theorems: `swapM_spec`, `eqM_iff`.

**C56 — Matrix sums and norms are those of the elements.**  
Modelled in Model/Mat; proved by induction over rows/columns, majorness dispatch modelled.  Status: partial.  sumElements excludes conjugated views with a zero step (see sumElements_step0_violated); the rest proved.
Theorems: `mat_sumElements_spec_partial`, `mat_sumAbs_spec`, `mat_normSq_spec`, `mat_norm1_spec`, `mat_normInf_spec`, `mat_maxAbs_spec`.

**C57 — Iterators of vectors and views obey the random-access laws.**  
Modelled in Model/Refs; proved by algebra; laws of iterators by integer arithmetic.  Status: partial.  All laws except += and -= of the complex iterators with step 1, which the code gets wrong (witnessed).
Theorems: `iter_arith_partial`, `iter_elements`.  Witnesses against the code: `iter_plus_assign_violated`.

**C58 — Symmetric rank-1 and rank-k updates change exactly the stored triangle by exactly the product.**  
Modelled in Model/SymRK; proved by strong induction over the recursion and blocks.  Status: partial.  Every += form proved for all sizes, storages and block sizes, incl. aliased. The assigning forms are false of the code for alpha==0, no columns, TMV_BLOCKSIZE>=4 with column-major x, and aliased wide x (witnesses).
Theorems: `SymRK.rank1_spec`, `SymRK.rankK_add_spec`, `SymRK.rankK_assign_partial`, `SymRK.inPlace_spec`, `SymRK.aliasWide_add_spec`.  Witnesses against the code: `SymRK.rank1_zero_violated`, `SymRK.rankK_zero_violated`, `SymRK.rankK_assign_violated`, `SymRK.aliasWide_assign_violated`.

**C59 — The packed Q acts exactly as the explicit Q.**  
Modelled in Model/QRDiv (PackedQ); proved by refinement to products of reflections.  Status: partial.  Unscaled products and quotients proved for all shapes and block sizes. With a scalar the claim is false: the composite x*Q*m drops x (witness).
Theorems: `QR.packedQ_lDiv`, `QR.packedQ_rDiv`, `QR.packedQ_lMult`, `QR.packedQ_rMult`.  Witnesses against the code: `QR.packedQ_scaled_product_violated`.

**C60 — Division by a QR decomposition is least squares / minimal norm.**  
Modelled in Model/QR, Model/QRDiv; proved by strong induction over the recursion; unitary factors as products of reflections.  Status: proved.  Exact arithmetic, non-Lapack, not in place, without column pivoting; a column below the underflow threshold is treated as zero (the explicit E).
Theorems: `QR.qrDiv_tall`, `QR.qrDiv_wide`.

**C61 — Whole-matrix operations on band matrices.**  
Modelled in Model/Band; proved by views by integer arithmetic; loops over rows/columns/diagonals by induction.  Status: partial.  setAllTo(x) on a conjugated view with non-real x excluded (false, see C07-C08), addToAll on conjugated view with diagonal step 0, the layout excluded by C36.
Theorems: `band_setZero_spec`, `band_setAllTo_spec_partial`, `band_addToAll_spec_partial`, `band_conjugateSelf_spec`, `band_clip_spec`, `band_transposeSelf_spec`, `band_each_spec`, `band_owner_each_spec_partial`, `band_rowRange_footprint`, `lsok_bandStor`, `lsok_band_views`.

**C62 — Reductions of band matrices.**  
Modelled in Model/Band; proved by views by integer arithmetic; loops over rows/columns/diagonals by induction.  Status: partial.  Exact arithmetic; sumElements on a conjugated view with diagonal step 0 excluded.
Theorems: `band_sumElements_spec_partial`, `band_sumAbs_spec`, `band_normSq_spec`, `band_maxAbs_spec`.

**C63 — Views of triangular matrices agree with the parent element by element.**  
Modelled in Model/TriMat; proved by region of stored elements (Lemmas/Region); induction over rows/columns.  Status: partial.  False as stated in two places, both proved: subTriMatrix with a negative step is accepted and shows the unstored half; the const diag(i) of a LowerTriMatrix is too long. Proved everywhere else.
Theorems: `tri_row3`, `tri_col3`, `tri_diag3`, `tri_diagOff`, `tri_subVector`, `tri_subMatrix6`, `tri_subTri2`, `tri_subTri3_partial`, `tri_offDiag`, `tri_viewAsUnitDiag`, `tri_transpose`, `lower_transpose`, `tri_conjugate`, `tri_adjoint`, `tri_ofMat`, `tri_ofMat_lower`, `lower_row3`, `lower_col3`, `lower_diag3`, `lower_subVector`, `lower_subMatrix6`, `lower_subTri2`, `lower_subTri3_partial`, `lower_offDiag`, `lower_viewAsUnitDiag`, `lower_conjugate`, `lower_diagOff`.  Witnesses against the code: `tri_subTri_negative_violated`, `lower_diagOff_const_violated`.

**C64 — Whole-matrix operations on triangular matrices touch exactly the triangle.**  
Modelled in Model/TriMat; proved by region of stored elements (Lemmas/Region); induction over rows/columns.  Status: partial.  setAllTo(x) on a conjugated view with non-real x is the vector defect of C53; the two _partial theorems exclude it.
Theorems: `tri_each_spec`, `tri_setZero_spec`, `tri_setAllTo_spec_partial`, `tri_addToAll_spec`, `tri_conjugateSelf_spec`, `tri_clip_spec`, `tri_setToIdentity_spec_partial`, `tri_owner_each_spec`, `tri_assign_spec`, `tri_assignToM_spec`, `lower_assignToM_spec`, `tri_swap_spec`, `tri_eq_spec`.

**C65 — Sums and norms of triangular matrices are those of the full matrix they denote.**  
Modelled in Model/TriMat; proved by region of stored elements (Lemmas/Region); induction over rows/columns.  Status: partial.  Exact arithmetic. maxAbsElement of an empty unit-diagonal matrix is 1 (proved violation); proved for every other matrix.
Theorems: `tri_sumElements_spec`, `tri_sumAbs_spec`, `tri_normSq_spec`, `tri_maxAbs_spec_partial`, `tri_norm1_spec`, `tri_normInf_spec`.  Witnesses against the code: `tri_maxAbs_empty_violated`.

**C66 — Views of a symmetric or Hermitian matrix show its elements.**  
Modelled in Model/SymMat; proved by region of stored elements; invariant over operation histories.  Status: partial.  False of the code as stated: subVector starting on the diagonal and leaving the stored triangle, subMatrix with steps (wrong step compared; negative steps), subSymMatrix with negative step, and the Fortran-style subVector check are accepted and show unstored memory (the _violated theorems). The rest is proved in full.
Theorems: `sym_row3`, `sym_col3`, `sym_diag`, `sym_diagOff`, `sym_diag3`, `sym_subVector_partial`, `sym_subMatrix4`, `sym_subMatrix6_partial`, `sym_hasSubMatrix_iff`, `sym_subSym2`, `sym_subSym3_partial`, `sym_upperTri`, `sym_lowerTri`, `sym_transpose`, `sym_conjugate`, `sym_adjoint`, `sym_ofMat`, `SView.Shows.cref`, `SView.Shows.write`, `SView.VecOf.cref`, `SView.MatOf.cref`.  Witnesses against the code: `sym_subVector_violated`, `sym_subVectorF_violated`, `sym_subMatrix_violated`, `sym_subSym_negative_violated`.

**C67 — Whole-matrix operations on symmetric and Hermitian matrices.**  
Modelled in Model/SymMat; proved by region of stored elements; invariant over operation histories.  Status: partial.  setAllTo/setToIdentity with a non-real value on a conjugated symmetric view, and == between a symmetric and a Hermitian matrix, are wrong in the code (violated theorems); everything else proved.
Theorems: `sym_setZero_spec`, `sym_setAllTo_spec_partial`, `sym_addToAll_spec`, `sym_clip_spec`, `sym_conjugateSelf_spec`, `sym_transposeSelf_spec`, `sym_setToIdentity_spec_partial`, `sym_set_spec`, `sym_swapRowsCols_spec`, `sym_permuteRowsCols_spec`, `sym_reversePermuteRowsCols_spec`, `sym_assign_spec`, `sym_assignToM_spec`, `sym_swap_spec`, `sym_eq_spec`.  Witnesses against the code: `sym_eq_mixed_violated`.

**C68 — Reductions of symmetric and Hermitian matrices count every element once.**  
Modelled in Model/SymMat; proved by region of stored elements; invariant over operation histories.  Status: proved.  Exact arithmetic; abs/norm functions are parameters invariant under conjugation. maxAbsElement for a nonempty matrix.
Theorems: `sym_sumElements_spec`, `sym_sumAbs_spec`, `sym_normSq_spec`, `sym_norm1_spec`, `sym_maxAbs_spec`.

**C69 — Vector arithmetic computes what is written.**  
Modelled in Model/VecArith; proved by loop invariants with an ordering hypothesis; temporaries as fresh memory that is freed.  Status: partial.  Exact arithmetic, one element type, no BLAS; unrolled and strided loops and the recursion of v*w modelled. Partial because z = 0*ElemProd(x,y) leaves z unchanged (proved: elemProd_zero_violated).
Theorems: `mulX_spec`, `mulXV_spec`, `addVV_spec`, `addVV3_spec_partial`, `mulVV_spec`, `elemMulVV_spec_partial`.  Witnesses against the code: `elemProd_zero_violated`.

**C70 — Matrix scaling and addition compute what is written.**  
Modelled in Model/MatArith; proved by row and column loop invariants over the vector theorems; temporaries as fresh memory.  Status: partial.  Exact arithmetic, one element type, no BLAS. Scaling and addition are complete, aliased operands included; ElemProd inherits the defects of the vector form (x = 0, reversed aliases), which its theorem excludes.
Theorems: `mat_mulX_spec`, `mat_assignMulX_spec`, `mat_addMM_spec`, `mat_addMM3_spec`, `mat_elemMul_spec_partial`.

**C71 — Matrix-vector products compute what is written.**  
Modelled in Model/MatVec; proved by loop invariants for the row and column algorithms; case split of the wrapper.  Status: proved.  Exact arithmetic, one element type, no BLAS. Includes x and y the same vector and y the first row or column of A.
Theorems: `mulMV_spec`, `rowMulMV_spec`, `colMulMV_spec`, `unitMulMV_spec`.

**C72 — Outer products compute what is written.**  
Modelled in Model/Rank1; proved by column loop invariant.  Status: partial.  Exact arithmetic, one element type, no BLAS. Holds for vectors that share no element with A; vectors that start at the first element of A give a wrong result (rank1_alias_violated): Rank1Update makes no SameStorage test.
Theorems: `rank1_spec_partial`, `colRank1_spec`, `unitRank1_spec`.  Witnesses against the code: `rank1_alias_violated`.

**C73 — Products into symmetric matrices compute what is written.**  
Modelled in Model/SymMM, Model/SymMMAlias; proved by induction over the recursion; in place by the blocks each step leaves alone.  Status: partial.  Exact arithmetic; element type of all operands the same. Proved for operands in other memory and for operands stored in the memory of A (the whole, transposed, conjugated). The code is wrong in three places (violated theorems): assigning with alpha = 0 does nothing; in place with more columns of x than rows of A only the last columns count; in place with fewer columns, x and y stored in the other order than A, reads beyond x and y. No columns with shared storage: the recursion does not end (excluded).
Theorems: `SymRK.symMul_spec_partial`, `SymRK.symMulRec_spec`, `SymRK.symMulAlias_partial`.  Witnesses against the code: `SymRK.symMul_zero_violated`, `SymRK.symMulAlias_wide_violated`, `SymRK.symMulAlias_tall_violated`.

**C74 — Division by a symmetric or Hermitian matrix.**  
Modelled in Model/LDLDiv; proved by block-diagonal solve by induction over the blocks, regular because of the determinant; triangular solves of C30; decomposition of C32.  Status: proved.  Exact arithmetic, one element type, no LAPACK in the decomposition. Dividing by a singular matrix divides by zero without an exception; nothing is claimed there.
Theorems: `LDL.lDiv_spec`, `LDL.rDiv_spec`, `LDL.det_spec`, `LDL.lDivEq_spec`, `LDL.rDivEq_spec`, `LDL.pseudoLDiv_spec`.

**C75 — isSingular() of a symmetric matrix.**  
Modelled in Model/LDLDiv; proved by block-diagonal solve by induction over the blocks, regular because of the determinant; triangular solves of C30; decomposition of C32.  Status: partial.  True for singular matrices; but the test looks at the diagonal of D only, so it is also true for regular matrices with a 2x2 block with a zero on its diagonal, e.g. [[0,1],[1,0]] (isSingular_violated).
Theorems: `LDL.isSingular_spec_partial`.  Witnesses against the code: `LDL.isSingular_violated`.

**C76 — Inverse of a symmetric or Hermitian matrix.**  
Modelled in Model/LDLDiv; proved by closed form of the inverted blocks, X^dagger D X by induction over the recursive splitting, triangular inverse of C51, interchanges as a permutation of both indices.  Status: proved.  Exact arithmetic, one element type, decomposition without LAPACK, V stored in its lower triangle and not conjugated (the code brings the other cases to this one). For singular A the code divides by zero without an exception; nothing is claimed there.
Theorems: `LDL.inverse_spec`, `LDL.makeInverse_spec`, `LDL.combine_spec`, `LDL.addXtDX_spec`, `LDL.invertDiag_aux`, `LDL.pseudo_inv`, `LDL.pseudoLMult_spec`.

**C77 — Division by a positive definite matrix (Cholesky).**  
Modelled in Model/CHDiv; proved by U U^dagger and L L^dagger in place by induction over the recursive splitting (rank-k of C58, triangle products of C52), decomposition of C31, triangular solves of C30, inverse of C51.  Status: proved.  Exact arithmetic, one element type, no LAPACK; V stored in its lower triangle, row or column major and not conjugated (the code brings other cases to this one).
Theorems: `CH.lDiv_spec`, `CH.rDiv_spec`, `CH.det_spec`, `CH.inverse_spec`, `CH.makeInverse_spec`, `CH.make_spec`, `CH.setUUt_spec`, `CH.setLLt_spec`.

**C78 — divideInPlace() changes the storage, not the result.**  
Modelled in Model/InPlace; proved by case distinction on the flags; the violation by two matrices with the same decomposition.  Status: partial.  True for row- and column-major matrices and views. For a view that is neither, the constructors do not copy the matrix into the new storage, so uninitialised memory is decomposed (inPlace_ignores, luInPlace_violated).
Theorems: `InPlace.luMake_partial`, `InPlace.qrMake_partial`, `InPlace.chMake_partial`, `InPlace.ldlMake_partial`, `InPlace.inPlace_ignores`.  Witnesses against the code: `InPlace.luInPlace_violated`.

**C79 — Triangle times vector or matrix into a destination.**  
Modelled in Model/TriMM; proved by loop invariants for the kernels, induction over the recursive splitting; the in-place products of C52 for the temporaries.  Status: partial.  Proved for matrices with all detected aliases and for vectors that are not stored in the triangle. m.col(0) = m.upperTri()*x is wrong: MultMV has no check for y sharing storage with the triangle (mulV_alias_violated). Exact arithmetic, one element type, no BLAS.
Theorems: `TriMul.mulV_upper`, `TriMul.mulV_lower`, `TriMul.mulM_upper`, `TriMul.mulM_lower`.  Witnesses against the code: `TriMul.mulV_alias_violated`.

**C80 — Rank-k updates of symmetric matrices by triangles.**  
Modelled in Model/TriRK; proved by induction over the recursive splitting with C58, C77 and C79.  Status: partial.  Proved except for A = 0*L*L^dagger, which leaves A unchanged, and for adding a conjugated triangle view to a symmetric complex A, where the code squares the unconjugated diagonal element. Triangle not stored in A.
Theorems: `CH.rankKLower_partial`, `CH.rankKUpper_partial`, `CH.rkLower_spec`, `CH.rkUpper_spec`.  Witnesses against the code: `CH.rankKLower_zero_violated`, `CH.rankKLower_conj_violated`.

**C81 — Products of symmetric and Hermitian matrices with vectors and matrices.**  
Modelled in Model/SymMul; proved by Vector product = lower triangle product (C79) + strict upper one; trimming of zeros as in C79; row loops by loop invariants; recursion on the split; block temporaries by induction on the block loop.  Status: proved.  unit0_spec, unitMul_spec, rrow_spec, crow_spec, colM_spec, recM_spec for the parts. Rounding and BLAS are outside the model. Not covered: y a vector in the storage of S (MultMV does not test that).
Theorems: `SymMul.mulV_spec`, `SymMul.mulM_spec`, `SymMul.mulSS_spec`.

**C82 — The matrix product when memory for the blocked algorithm runs out.**  
Modelled in Model/Fallback; proved by Partial run of the calls (C47) and the loop over slices by induction, then the simple products (C40); exact contents in all cases, counterexample on Gaussian integers.  Status: partial.  Proved for C = alpha*A*B, for real matrices, and for a failure of the first allocation. False for complex C += alpha*A*B when a later allocation fails (blockMMFail_violated: the handler adds the whole product to partial results). blockMMFail_spec says what is in C in every case. One temporary per slice instead of a shared one; the handler's own allocations succeed.
Theorems: `blockMMFail_partial`, `fallback_spec`, `blockMMFail_spec`.  Witnesses against the code: `blockMMFail_violated`.

**C83 — Arithmetic with diagonal matrices.**  
Modelled in Model/Diag; proved by Row and column loops by up_inv to a pointwise form; singular exits by induction; log-determinant loop of C29.  Status: partial.  All of it except two cases where the code is wrong: C += D.conjugate()*B with a stepped diagonal and column-major matrices adds D*B (mulM_violated), and makeInverseATA into the matrix whose diagonal is inverted always throws (makeInverseATA_violated). Exact arithmetic.
Theorems: `Diag.mulM_partial`, `Diag.mulM_violated_ex`, `Diag.divM_spec`, `Diag.divV_solves`, `Diag.invertSelf_inv`, `Diag.makeInverse_inv`, `Diag.makeInverseATA_inv`, `Diag.det_spec`.  Witnesses against the code: `Diag.mulM_violated`, `Diag.makeInverseATA_violated`.

**C84 — QR_Update.**  
Modelled in Model/QRUpd; proved by The update is the blocked QR decomposition of the stacked matrix, so the invariant QRSpec of C55 applies (reflect_pad: zeros do not influence the reflector).  Status: proved.  Exact arithmetic; NonBlockQRUpdate is only compiled in the debugging build and is not modelled.
Theorems: `QR.qrUpdate_spec`, `QR.qrUpdate_gram`, `QR.qrUpdate_frame`.

**C85 — QR_Downdate.**  
Modelled in Model/QRUpd; proved by Invariant: the reflectors take the new R on the old A to the old R on the new A; unitarity gives the Gram identity and carries positive definiteness to the trailing block.  Status: proved.  Exact arithmetic. In the boundary case, positive semidefinite and singular, the code may throw or divide by zero although a downdated triangle exists (qrDowndate_violated).
Theorems: `QR.qrDowndate_gram`, `QR.qrDowndate_ok`, `QR.qrDowndate_fails`, `QR.qrDowndate_frame`.  Witnesses against the code: `QR.qrDowndate_violated`.

**C86 — QR decomposition with column pivoting.**  
Modelled in Model/QRP; proved by Invariant: the columns done so far are a QR decomposition of the interchanged matrix, norms of the rest are exact; the strict block algorithm is simulated by the unblocked one with ZYtA as pending update; the loose one needs a calculus of postponed interchanges (tail permutations).  Status: proved.  Exact arithmetic (the running column norms are then exact). Ends when 4*sqrt(eps)<=1 and, for the loose block algorithm, N*sqrt(eps)<=1; beyond that the loose algorithm never ends (qrp_loose_hangs).
Theorems: `QR.qrp_packed`, `QR.qrp_unpacked`, `QR.qrp_ends`, `QR.qrp_loose_hangs`.

**C87 — Division by a QR decomposition with pivoting (QRP).**  
Modelled in Model/QRPDiv; proved by The triangle is graded (nonzero diagonal, then zero rows) because each pivot column's norm exceeds the threshold; with it the truncated triangular solve gives least squares / minimal norm through the unitary Q; permutation sums are reindexed.  Status: proved.  Exact arithmetic. Proved for strict pivoting, and for loose pivoting without blocks (min(M,N) <= QRP_BLOCKSIZE); false for the loose block algorithm (qrpDiv_loose_defect, a counterexample for every block size from 3) and for divideInPlace on a view that is neither row- nor column-major (qrpDiv_inplace_defect). The zero matrix (NaN norms in the code) is excluded.
Theorems: `QR.qrpDiv_tall`, `QR.qrpDiv_wide`, `QR.qrpDiv_graded`, `QR.qrp_graded`, `QR.lastNZ_graded`, `QR.qrpDiv_loose_defect`, `QR.qrpDiv_inplace_defect`.

**C88 — Solving with triangular band matrices.**  
Modelled in Model/BandTri; proved by The loop counters are shown to enclose the band; then each sum over the band equals the sum over the row or column of the triangle, and the dense solve invariants apply.  Status: proved.  Exact arithmetic, code without BLAS/LAPACK. The statement is about the matrix that is zero outside the band, so it also says that memory outside the band has no influence.
Theorems: `BandTri.triM_spec`, `BandTri.upperV_sound`, `BandTri.lowerV_sound`.

**C89 — LU decomposition of band matrices.**  
Modelled in Model/BandLU; proved by Loop invariant: the matrix is a product of interchange/elimination factors and the working matrix, whose rows vanish beyond nlo+nhi superdiagonals; both algorithms are shown to perform the same abstract elimination step; the packed P*L is inverted factor by factor.  Status: proved.  Exact arithmetic, code without LAPACK. divideInPlace as documented (column-major with room for nlo+nhi superdiagonals) is the case of arbitrary memory outside the band.
Theorems: `BandLU.plu_spec`, `BandLU.lDiv_spec`, `BandLU.rDiv_spec`, `BandLU.inverse_spec`, `BandLU.det_spec`, `BandLU.decompose_plu`, `BandLU.dec_example`.

**C90 — makeInverseATA through LU decompositions.**  
Modelled in Model/LUATA; proved by matrix algebra on the specifications of the triangle inverse, the triangular solves and the packed P*L divisions; conjugation is an arbitrary star ring.  Status: partial.  Proved for dense matrices without restriction. For band matrices it is true when the decomposition is of the transpose or no rows were interchanged (band_partial) and false otherwise: band_violated.
Theorems: `LUATA.lu_spec`, `LUATA.band_partial`, `LUATA.lu_example`.  Witnesses against the code: `LUATA.band_violated`.

**C91 — Rank-2 and rank-2k updates of symmetric and Hermitian matrices.**  
Modelled in Model/Rank2; proved by loop invariants for the two triangles; a layout-independent update predicate carried through transposes, adjoints, conjugates, the temporary and the block recursion.  Status: partial.  True for every symmetric matrix and every real alpha; for Hermitian matrices with complex alpha only if the layouts of x and y make the code scale x (rank2_violated otherwise); alpha = 0 without add does nothing; Rank2KUpdate is right for row-major operands and wrong for others (rank2K_violated, rank2K_assign_violated). Operands sharing storage with A are not modelled.
Theorems: `Rank2.rank2_partial`, `Rank2.rank2K_partial`.  Witnesses against the code: `Rank2.rank2_violated`, `Rank2.rank2_zero_violated`, `Rank2.rank2K_violated`, `Rank2.rank2K_assign_violated`.

**C92 — Band matrix times vector.**  
Modelled in Model/BandMV; proved by loop invariants for the three traversals, for the in-place triangular products and for the trimming of zeros.  Status: partial.  Proved for every layout; if A itself shares memory with y it is proved except where A is square, triangular and the product is assigned to a contiguous y, where the code is wrong (multMV_alias_violated).
Theorems: `BandMV.multMV_partial`, `BandMV.multMV_example`.  Witnesses against the code: `BandMV.multMV_alias_violated`.

**C93 — Band matrix times dense matrix.**  
Modelled in Model/BandMM; proved by loop invariants for the row, outer-product, column and tridiagonal algorithms; an invariant over the blocks of columns for the aliased case.  Status: partial.  Proved in full unless B and C share memory with the same steps but different positions, where the blocked code overwrites columns of B it still has to read (multMM_shift_violated).
Theorems: `BandMM.multMM_partial`, `BandMM.multMM_example`.  Witnesses against the code: `BandMM.multMM_shift_violated`.

**C94 — Product of two band matrices.**  
Modelled in Model/BandBB; proved by loop invariants giving every loop variable in closed form (also the nine of DoDiagMultMM), then induction over the self-calls of MultMM.  Status: partial.  Proved for all shapes except B with subdiagonals and more than B.rowsize()+B.nlo() rows, where the code is wrong (multBB_violated). The row range with no columns that MultMM may create (C.rowRange) is the subject of the band view properties.
Theorems: `BandBB.multBB_partial`, `BandBB.multBB_outside`, `BandBB.multBB_example`.  Witnesses against the code: `BandBB.multBB_violated`.

**C95 — Band QR decomposition.**  
Modelled in Model/BandQR; proved by invariant of the column loop: the block of rows and columns a reflector touches is exactly what the band structure leaves nonzero; reflectors act as unitary maps.  Status: proved.
Theorems: `BandQR.band_qr_decompose`, `BandQR.band_qr_decompose_R`.

**C96 — BandQRDiv: least squares, minimum norm, inverse, determinant.**  
Modelled in Model/BandQR; proved by the decomposition of C95 turned into statements about normal equations; band triangular solves from BandTri; Q applied by loops whose row ranges are shown to cover the reflectors.  Status: partial.  Everything is proved except two parts where the code is wrong: makeInverseATA for complex matrices and for square matrices decomposed through their transpose (violated theorems), and in-place decomposition of a matrix whose top nlo superdiagonals are not zero (inPlace_violated).
Theorems: `BandQR.bandQRDiv_tall`, `BandQR.bandQRDiv_wide`, `BandQR.bandQRDiv_square`, `BandQR.bandQRDiv_getQR`, `BandQR.bandQRDiv_inverseATA_partial`, `BandQR.inPlace_partial`.  Witnesses against the code: `BandQR.inverseATA_complex_violated`, `BandQR.inverseATA_trans_violated`, `BandQR.inPlace_violated`.

**C97 — Cholesky and LDL decomposition of symmetric and Hermitian band matrices.**  
Modelled in Model/BandCH; proved by the column and row loops restricted to the band are shown to simulate the dense Cholesky steps; the LDL loop by an invariant on the leading minors.  Status: partial.  Proved in full for CH_Decompose and for LDL_Decompose of Hermitian matrices; for symmetric matrices except diagonal-major storage, where the code has no loop and treats one element only (sym_band_ldl_dm_violated).
Theorems: `BandCH.band_ch_correct`, `BandCH.band_ch_raises_iff`, `BandCH.band_ldl_correct`, `BandCH.band_ldl_raises_iff`, `BandCH.sym_band_ldl_correct_partial`, `BandCH.sym_band_ldl_raises_iff_partial`.  Witnesses against the code: `BandCH.sym_band_ldl_dm_violated`.

**C98 — HermBandCHDiv: construction, solves, inverse, determinant, in place.**  
Modelled in Model/BandCH; proved by C97 plus band triangular solves (C88) and symmetric rank-k products.  Status: partial.  Everything is proved except two parts where the code is wrong: det of an indefinite tridiagonal matrix loses its sign (det_violated), and decomposing in place a column- or row-major tridiagonal matrix or a diagonal-major wider one leaves the divider with an unassigned matrix (inplace_violated). isSingular and makeInverseATA are not covered.
Theorems: `BandCH.make_raises_iff`, `BandCH.make_raises_iff_tri`, `BandCH.make_posDef`, `BandCH.lDiv_spec`, `BandCH.rDiv_spec`, `BandCH.herm_inverse_spec`, `BandCH.full_inverse_spec`, `BandCH.getLD_spec`, `BandCH.det_spec_partial`, `BandCH.inplace_partial`, `BandCH.inplace_ignores`.  Witnesses against the code: `BandCH.det_violated`, `BandCH.inplace_violated`.

**C99 — makeInverseATA of symmetric and Hermitian matrices.**  
Modelled in Model/SymSq; proved by induction over the halving recursion; the inverses of C76, C77, C98.  Status: partial.  SymSquare is right on a fully stored matrix of at least one row. The dividers fill the lower triangle only, so that from three rows on the result depends on what ata held above its diagonal (..._violated): proved for at most two rows or if those elements are right by accident. For complex symmetric matrices the code computes A^-1 A^-1 (ldl_ata_complex_violated). A 0x0 matrix recurses for ever (symSquare_zero_violated).
Theorems: `SymSq.symSquare_correct`, `SymSq.ch_ata_partial`, `SymSq.band_ata_partial`, `SymSq.ldl_ata_partial`.  Witnesses against the code: `SymSq.symSquare_zero_violated`, `SymSq.ch_ata_violated`, `SymSq.band_ata_violated`, `SymSq.ldl_ata_violated`, `SymSq.ldl_ata_complex_violated`.

**C100 — Division by a matrix with a singular value decomposition.**  
Modelled in Model/SVD; proved by the quotients by the diagonal matrix (C83) are products with the reciprocals kept; Penrose conditions for U S^+ V; the loop of thresh by induction.  Status: proved.  The decomposition the divider holds is assumed to be one (SV_Decompose is an iteration that stops at a rounding threshold and is not modelled); everything the divider does with it is proved, in exact arithmetic. That P is unique, gives the least-squares solution of least norm and is the inverse of an invertible matrix are lemmas about the specification (IsPinv.unique, IsPinv.least, IsPinv.of_inv).
Theorems: `SVD.lDiv_spec`, `SVD.rDiv_spec`, `SVD.makeInverse_spec`, `SVD.makeInverseATA_spec`, `SVD.inverseATA_full`, `SVD.lDiv_raises_iff`, `SVD.rDiv_raises_iff`, `SVD.kept_full`, `SVD.thresh_spec`, `SVD.top_spec`, `SVD.norm2_spec`, `SVD.condition_spec`.

**C101 — Division by a Hermitian or symmetric matrix with a singular value decomposition.**  
Modelled in Model/SVD; proved by as C100; SymMultMM by C73; a unitary matrix that commutes with the squares of the singular values commutes with the cut.  Status: partial.  As in C100 the decomposition held is assumed. Hermitian: everything is proved. Symmetric: the inverse is proved if the matrix kept is symmetric, which holds when nothing is discarded and after any thresh (kept_symm, thresh_gap); after top(n) it can fail (sym_top_inverse_violated: makeInverse is not the pseudo-inverse that division uses), and top(n) does not limit n (sym_top_violated).
Theorems: `SVD.hlDiv_spec`, `SVD.hrDiv_spec`, `SVD.hlDiv_raises_iff`, `SVD.hermInverse_spec`, `SVD.hmakeInverse_spec`, `SVD.hmakeInverseATA_spec`, `SVD.hthresh_spec`, `SVD.htop_spec`, `SVD.hsvd`, `SVD.hnorm2_spec`, `SVD.hcondition_spec`, `SVD.hdet_spec`, `SVD.kept_symm`, `SVD.thresh_gap`, `SVD.symInverse_spec_partial`, `SVD.symMakeInverse_spec_partial`.  Witnesses against the code: `SVD.sym_top_violated`, `SVD.sym_top_inverse_violated`.

**C102 — Reduction to bidiagonal form.**  
Modelled in Model/Bidiag; proved by invariant: A + F = Q C P^T with the reflectors so far and the elements C left; for the blocked version C is A - Y Z - W X of the stored panels.  Status: proved.  Exact arithmetic; fro F <= 2 N sqrt(M) tiny bounds the dropped elements.
Theorems: `Bidiag.bidiagonalize_spec`.

**C103 — Singular value decomposition of a bidiagonal matrix.**  
Modelled in Model/SVQR; proved by invariant BInv: A + F = U B V with fro F bounded by the number of dropped elements; every rotation and every dropped element keeps it; the loops by induction on the number of passes.  Status: partial.  Exact arithmetic. Complete for the singular values alone (any N) and for N up to DC_LIMIT; above it the divide and conquer part (TMV_SVDecompose_DC.cpp) is assumed to keep the contract DCOk. That the iterations end is not proved (partial correctness); the small angle approximation inside GivensRotate is left out.
Theorems: `SVQR.fromBidiag_spec_partial`, `SVQR.fromBidiag_setUV_partial`, `SVQR.fromBidiag_values`, `SVQR.fromBidiag_small`, `SVQR.DCOk.small`, `SVQR.run_lastCol`.

**C104 — The bidiagonal SVD stays inside its vectors.**  
Modelled in Model/SVQR; proved by frame part of the same invariants; a concrete run for the violation.  Status: partial.  False of the code: BidiagonalZeroFirstRow multiplies the number behind the last element of E by the cosine of its last rotation (the test `if (i<N)` always holds). Proved: nothing else behind D and E changes.
Theorems: `SVQR.fromBidiag_behind_partial`.  Witnesses against the code: `SVQR.behind_E_violated`.

**C105 — SV_Decompose.**  
Modelled in Model/SVDec; proved by composition of C102, C103 and the QR decomposition (C32 ff.); norms are kept by the orthonormal factors.  Status: partial.  Complete for up to DC_LIMIT columns and for singular values alone; else the divide and conquer part is assumed (as in C103). Exact arithmetic; that the iterations end is not proved.
Theorems: `SVDec.svDecompose_all_partial`, `SVDec.svUser_spec_partial`, `SVDec.svUserS_spec_partial`, `SVDec.svUserS_values`, `SVDec.svUser_exact`, `SVDec.svDecompose_det`, `SVDec.EnvOk.small`, `SVDec.svUser_runs`.

**C106 — Eigenvalues of a Hermitian tridiagonal matrix.**  
Modelled in Model/EigQR; proved by invariant TInv: A + F = U T U^H with fro F bounded by the number of dropped elements; every rotation and every dropped element keeps it; the loops by induction on the number of passes.  Status: partial.  Exact arithmetic. Complete for N up to DC_LIMIT with eps replaced by its square root for the elements dropped by the third test of HermTridiagonalChopSmallElements (the claim with eps is false of the code, eps_accuracy_violated); above DC_LIMIT the divide and conquer part (TMV_SymSVDecompose_DC.cpp) is assumed to keep the contract DCOk. That the iterations end is not proved (partial correctness).
Theorems: `EigQR.fromTridiag_spec_partial`, `EigQR.fromTridiag_small_partial`, `EigQR.DCOk.none`, `EigQR.run_flip`, `EigQR.run_flip_exact`, `EigQR.third_test_case`.  Witnesses against the code: `EigQR.third_test_violated`, `EigQR.eps_accuracy_violated`.

**C107 — Reduction of a Hermitian or symmetric matrix to tridiagonal form.**  
Modelled in Model/Tridiag; proved by one step: the reflector applied from both sides (HouseholderLRMult) keeps A + F = Q A' Q^H; the blocked loop is related to the unblocked one by the invariant A' = A - Y Z^H - Z Y^H of the pending rank 2 updates; induction on columns and blocks.  Status: proved.  Exact arithmetic, without LAPACK; the only error term is that of vectors taken as zero because they underflow (at most 2 N sqrt(N) tiny).
Theorems: `Tridiag.tridiagonalize_spec`, `Tridiag.nonLap_done`, `Tridiag.makeU_eq`.

**C108 — Eigenvalues and eigenvectors of a Hermitian matrix.**  
Modelled in Model/SymSV; proved by C107 and C106 put together; sorting is a permutation of the columns; the conjugated view through the conjugate decomposition.  Status: partial.  Exact arithmetic. The divide and conquer part used above DC_LIMIT rows is assumed to keep the contract DCOk (nothing is assumed up to DC_LIMIT, SymSV.EnvOk.small); elements dropped by the third test of HermTridiagonalChopSmallElements count with sqrt(eps) instead of eps (the code's own defect, C106); that the iterations end is not proved (partial correctness). Eigen(A,S) is modelled for a contiguous S (sorting a strided one is wrong, C09).
Theorems: `SymSV.eigen_spec_partial`, `SymSV.eigenS_spec_partial`, `SymSV.eigen_exact`, `SymSV.EnvOk.small`, `SymSV.eigen_flip`.

**C109 — Singular value decomposition of a Hermitian matrix.**  
Modelled in Model/SymSV; proved by from the eigenvalue decomposition with |S| descending; the signs are a diagonal unitary matrix that goes to Vt or to U.  Status: partial.  Exact arithmetic. The divide and conquer part used above DC_LIMIT rows is assumed to keep the contract DCOk (nothing is assumed up to DC_LIMIT, SymSV.EnvOk.small); elements dropped by the third test of HermTridiagonalChopSmallElements count with sqrt(eps) instead of eps (the code's own defect, C106); that the iterations end is not proved (partial correctness). Complex symmetric matrices (SymSV_Decompose) are not modelled.
Theorems: `SymSV.svHerm_spec_partial`, `SymSV.svHermU_spec_partial`, `SymSV.svHermV_spec_partial`, `SymSV.svHermS_spec_partial`.

**C110 — Square root of a Hermitian matrix.**  
Modelled in Model/SymSV; proved by C108; R = U sqrt(S) U^H; |x^H F x| <= |F| |x|^2 for the error F.  Status: partial.  Exact arithmetic. The divide and conquer part used above DC_LIMIT rows is assumed to keep the contract DCOk (nothing is assumed up to DC_LIMIT, SymSV.EnvOk.small); elements dropped by the third test of HermTridiagonalChopSmallElements count with sqrt(eps) instead of eps (the code's own defect, C106); that the iterations end is not proved (partial correctness). The product is the exact one (SymMultMM is C73's).
Theorems: `SymSV.squareRoot_spec_partial`, `SymSV.squareRoot_flip`.

**C111 — Polar decomposition.**  
Modelled in Model/SymSV; proved by C105; U = W V, P = V^H S V; the dropped singular values are below eps N S(0) and S(0) is below |A| plus the error.  Status: partial.  Exact arithmetic; as in C105 the divide and conquer part is assumed to keep its contract above DC_LIMIT columns and termination is not proved. The products are the exact ones.
Theorems: `SymSV.polar_spec_partial`, `SymSV.polar_runs`.

**C112 — Determinant of a SmallMatrix.**  
Modelled in Model/SmallDiv; proved by the loops of DoLUD are related to the partial decomposition invariant of C27 by induction on the columns; the sign is that of the product of the transpositions.  Status: proved.  Exact arithmetic. Integer element types go through SMDet<20>, the same fraction-free algorithm as C26. The result array must not be the array of the matrix (documented).
Theorems: `SmallDiv.det_spec`, `SmallDiv.doLUD_spec`.

**C113 — Inverse of a SmallMatrix.**  
Modelled in Model/SmallDiv; proved by kernels proved on element functions, then carried to arrays of either storage order by a simulation relation; the square case from P L U = A, the others from A = Q R; a row-major copy is the transposed matrix.  Status: proved.  Exact arithmetic. Integer element types go through SMDet<20>, the same fraction-free algorithm as C26. The result array must not be the array of the matrix (documented). What a half finished result array holds after Singular is thrown is not modelled.
Theorems: `SmallDiv.inverse_square`, `SmallDiv.inverse_tall`, `SmallDiv.inverse_wide`.

**C114 — Division by a SmallMatrix.**  
Modelled in Model/SmallDiv; proved by as C113.  Status: proved.  Exact arithmetic. Integer element types go through SMDet<20>, the same fraction-free algorithm as C26. The result array must not be the array of the matrix (documented).
Theorems: `SmallDiv.lDivEq_spec`, `SmallDiv.rDivEq_spec`, `SmallDiv.lDiv_square`, `SmallDiv.rDiv_square`, `SmallDiv.lDiv_tall`, `SmallDiv.rDiv_tall`, `SmallDiv.lDiv_wide`, `SmallDiv.rDiv_wide`, `SmallDiv.divV_square`, `SmallDiv.divEqV_spec`, `SmallDiv.divV_rect`.

**C115 — makeInverseATA of a SmallMatrix.**  
Modelled in Model/SmallDiv; proved by R^-1 R^-H from the QR decomposition; for the violation the frame of the writes, and a concrete row.  Status: partial.  Proved for M >= N.  For M < N the code is wrong: it computes an M x M matrix and stores it, with the leading dimension M, into the N x N result; the elements from M*M on are never written.
Theorems: `SmallDiv.inverseATA_tall_partial`.  Witnesses against the code: `SmallDiv.inverseATA_wide_violated`, `SmallDiv.inverseATA_row_violated`.

**C116 — Sums, differences and element-wise products of small vectors and matrices.**  
Modelled in Model/SmallProd, Model/SmallSum; proved by the flat loops by one lemma for loops that change each element once; the views by the address of each element, and C70 for the branch that calls the library's AddMM.  Status: partial.  Exact arithmetic. The arrays of the operands are not those of the result, except where stated (documented). Proved for every form but two, where the code is wrong: view = x*m1 - m2 with a strided view or one that starts at an operand gives x*m1 + m2; a strided matrix plus a row-major SmallMatrix reads the wrong elements.
Theorems: `SmallProd.multXV_spec`, `SmallProd.addVV1_spec`, `SmallProd.addVVm1_spec`, `SmallProd.addVV_spec`, `SmallProd.addVV_1_1_spec`, `SmallProd.addVV_1_m1_spec`, `SmallProd.addVV_1_x_spec`, `SmallProd.addVV_x_1_spec`, `SmallProd.addVV_x_m1_spec`, `SmallProd.addVV_x_x_spec`, `SmallProd.addMM1_spec`, `SmallProd.addMMm1_spec`, `SmallProd.addMM_spec`, `SmallProd.elemMultVV_spec`, `SmallProd.addElemMultVV_spec`, `SmallProd.elemMultMM_spec`, `SmallProd.addElemMultMM_spec`, `SmallSum.assign_1_1_spec`, `SmallSum.assign_1_m1_spec`, `SmallSum.assign_1_x_spec`, `SmallSum.assign_x_1_spec`, `SmallSum.assign_x_x_spec`, `SmallSum.assign_x_m1_partial`, `SmallSum.assign_mM_spec`, `SmallSum.assign_mM_real_spec`, `SmallSum.assign_Mm_partial`.  Witnesses against the code: `SmallSum.assign_x_m1_violated`, `SmallSum.assign_Mm_violated`.

**C117 — Products of small matrices.**  
Modelled in Model/SmallProd; proved by the three loop orders (columns, rows, inner products) each refine the sum over k; induction on the outer loop.  Status: proved.  Exact arithmetic. The arrays of the operands are not those of the result, except where stated (documented).
Theorems: `SmallProd.multMM1_spec`, `SmallProd.multMM_spec`, `SmallProd.addMultMM1_spec`, `SmallProd.addMultMMm1_spec`, `SmallProd.addMultMM_spec`, `SmallProd.subXMM_spec`, `SmallProd.mulEqMM_spec`, `SmallProd.mulEqXMM_spec`, `SmallProd.assignMMview_spec`.

**C118 — Products of small matrices and vectors.**  
Modelled in Model/SmallProd; proved by as C117; v*m is m^T*v with the other storage order.  Status: partial.  Exact arithmetic. The arrays of the operands are not those of the result, except where stated (documented). Proved except v *= m for a conjugated unit-step complex view and a real SmallMatrix, where the code is wrong.
Theorems: `SmallProd.multMV1_spec`, `SmallProd.multMV_spec`, `SmallProd.addMultMV1_spec`, `SmallProd.addMultMVm1_spec`, `SmallProd.addMultMV_spec`, `SmallProd.multVM1_spec`, `SmallProd.multVM_spec`, `SmallProd.addMultVM1_spec`, `SmallProd.addMultVMm1_spec`, `SmallProd.addMultVM_spec`, `SmallProd.mulEqVM_spec`, `SmallProd.mulEqXVM_spec`, `SmallProd.multVV_spec`, `SmallProd.assignMVview_spec`, `SmallProd.addMVview_spec`, `SmallProd.mulEqViewVM_partial`, `SmallProd.mulEqViewVM_conj`.  Witnesses against the code: `SmallProd.mulEqViewVM_violated`.

**C119 — Outer products of small vectors.**  
Modelled in Model/SmallProd; proved by as C117.  Status: partial.  Exact arithmetic. The arrays of the operands are not those of the result, except where stated (documented). Proved except for a contiguous row-major view as target, where the code is wrong: a square view receives the transposed matrix.
Theorems: `SmallProd.rank1_1_spec`, `SmallProd.rank1_spec`, `SmallProd.addRank1_1_spec`, `SmallProd.addRank1_m1_spec`, `SmallProd.addRank1_spec`, `SmallProd.assignVVview_partial`, `SmallProd.assignVVview_rowmajor`.  Witnesses against the code: `SmallProd.assignVVview_violated`.

**C120 — Scaling and sums of triangular matrices.**  
Modelled in Model/TriSum; proved by the triangle is partitioned into its rows or columns (Region.Parts); one lemma turns the per-vector results into the triangle's; temporaries by C70's allocator lemmas.  Status: partial.  Exact arithmetic; the floating-point results are not modelled. Missing: C = x*A + y*B with both diagonals implicit into a conjugated C whose diagonal is contiguous and x+y not real, where setAllTo stores the wrong value (the defect of C69's setAllTo).
Theorems: `tri_mulX_spec`, `tri_assignMulX_spec`, `tri_addMM_spec`, `tri_addUU_partial`.

**C121 — Sum of a triangular and a full matrix.**  
Modelled in Model/TriSum; proved by C70 for the full matrices, C120 for the triangle, and a lemma that a triangle of C that changes leaves the rest.  Status: partial.  Exact arithmetic; the floating-point results are not modelled. Proved except when A is in the storage of C and B is not, where the code is wrong: tri_addUM_alias_violated gives the exact result.
Theorems: `tri_addUM_partial`.  Witnesses against the code: `tri_addUM_alias_violated`, `tri_addUM_example_violated`.

**C122 — Sum of an upper and a lower triangular matrix.**  
Modelled in Model/TriSum; proved by as C121; the product x*L is first evaluated into the composite's own array.  Status: proved.  Exact arithmetic; the floating-point results are not modelled.
Theorems: `tri_assignMulXToM_spec`, `tri_assignMulXLToM_spec`, `tri_addUL_spec`.

**C123 — Assignment, scaling and sums of band matrices.**  
Modelled in Model/BandSum; proved by the band is partitioned into its diagonals; a sum into a wider band is a sum into the narrowed view plus a frame lemma; the linear branch by a lemma that the packed length depends only on the shape; temporaries by C70's allocator lemmas and C36.  Status: partial.  Exact arithmetic; the floating-point results are not modelled. Missing: an operand in the storage of the result whose temporary copy would be a diagonal-major matrix with more rows than columns, no subdiagonal and a superdiagonal: its array is too short (C36, band_storage_violated). Overlaps with different first elements are not detected by the code and excluded.
Theorems: `band_mulX_spec`, `band_assign_spec_partial`, `band_assignMulX_spec_partial`, `band_addMM_spec_partial`, `band_addMM3_spec_partial`.

**C124 — Sum of a band matrix and a full matrix.**  
Modelled in Model/BandSum; proved by C70 for the full matrices, C123 for the band, and a lemma that a band of C that changes leaves the rest.  Status: partial.  Exact arithmetic; the floating-point results are not modelled. Proved except for a conjugated C and a factor y that is not real, where the code is wrong (band_addBM_conj_violated, for all such inputs), and for the temporary of C36.
Theorems: `band_assignToM_spec_partial`, `band_addBM_spec_partial`.  Witnesses against the code: `band_addBM_conj_violated`, `band_addBM_example_violated`.

**C125 — Scaling and sums of symmetric and Hermitian matrices.**  
Modelled in Model/SymSum; proved by the upper triangle of the result by C120; a lemma that the upper triangle determines a symmetric matrix; a lemma that operands in the same square array satisfy C120's alias condition.  Status: proved.  Exact arithmetic; the floating-point results are not modelled. Overlaps with different first elements are not detected by the code and excluded.
Theorems: `sym_mulX_spec`, `sym_addX_spec`, `sym_assignMulX_spec`, `sym_assignSumX_spec`, `sym_addMM_spec`, `sym_addSS_spec`.

**C126 — Multiples and sums of symmetric and Hermitian matrices put into a full matrix.**  
Modelled in Model/SymSum; proved by two triangle assignments with a lemma for what the second one reads after the first; sums by C120 on the two triangles; temporaries by C70's allocator lemmas.  Status: partial.  Exact arithmetic; the floating-point results are not modelled. Proved except when an operand is kept in the upper triangle of C and read with conjugation, where the code is wrong (sym_assignMulXToM_violated, for all such inputs; two concrete instances).
Theorems: `sym_assignMulXToM_partial`, `sym_assignSumXToM_spec`, `sym_addToM_spec`, `sym_addSSM_partial`, `sym_addSM_partial`.  Witnesses against the code: `sym_assignMulXToM_violated`, `sym_assign_herm_violated`, `sym_assign_conj_violated`.

**C127 — Product of a diagonal and a triangular matrix.**  
Modelled in Model/DiagTri.lean: both recursions, MultEqMM, AddMultMM, MultMM for both shapes and the transposing overloads, with Diag.mulM for the blocks; proved by strong induction on the size; the block products from mulM_partial.  Status: partial.  Partial because the code is wrong in one case: `C += D.conjugate()*B` with a stepped diagonal and column-major matrices conjugates D on the diagonal of C only (mulDT_violated, inherited from ColAddMultMM). Memory shared in any other way than by equal start addresses is not modelled.
Theorems: `Diag.mulDT_partial`, `Diag.mulTD_partial`, `Diag.mulDT_violated_ex`.  Witnesses against the code: `Diag.mulDT_violated`.

**C128 — Product of two triangular matrices of the same shape.**  
Modelled in Model/TriUU.lean: the three in-place kernels and the blocked recursion for upper and for lower matrices, the three accumulating kernels with their copies and recursion, TempMultMM, MultMM and the transposing overload; operands apart from, in the same triangle as, or in the opposite triangle to C; proved by loop invariants per kernel (which rows or columns are done, the others unchanged), then strong induction over the blocks.  Status: proved.  Exact arithmetic, one element type. The row, column and block products the code delegates (row*triangle, triangle*column, Rank1Update, triangle*block) are taken as the mathematical ones; they are the subject of other properties. Operands that overlap C's array at an offset are not modelled.
Theorems: `TriUU.mulUU_spec`, `TriUU.mulUU_frame`, `TriUU.mulLL_spec`, `TriUU.mulLL_frame`.

**C129 — Product of an upper and a lower triangular matrix.**  
Modelled in Model/TriUL.lean: both column kernels with their diagonal cases and copies, the blocked recursions with the order of the off-diagonal blocks, MultMM; proved by loop invariant (columns done, others unchanged), then strong induction over the blocks.  Status: proved.  Exact arithmetic, one element type. The row, column and block products that the code delegates are taken as the mathematical ones (the case of both factors in place is also proved down to these functions, C51). Operands that overlap C's array at an offset are not modelled.
Theorems: `TriUL.mulT_spec`.

**C130 — Dividing a triangular matrix by a triangular matrix.**  
Modelled in Model/TriDivT.lean: the row and column kernels with implicit diagonals, the loop over columns, the block recursion, both shapes, the conj flag of B; proved by the kernels are shown to run in step with the solve of a full matrix (C30) on the matrix the triangle stands for; loop invariant over columns; induction over the blocks.  Status: proved.  Exact arithmetic, one element type, A apart from B. The solves with vectors and full matrices that the code delegates are the modelled ones of C30; products of rows and blocks are the mathematical ones. What B holds after an exception is not modelled. Finding: a zero on A's diagonal is not always reported: for A = B = 0 of size 1 a row-major B raises and a column-major one does not (zero_diag_depends_on_layout_violated).
Theorems: `TriDivT.ldivEq_spec`, `TriDivT.ldivEq_isSome`, `TriDivT.ldivEq_raises`, `TriDivT.ldivEq_singular`.  Witnesses against the code: `TriDivT.zero_diag_depends_on_layout_violated`.

**C131 — Multiples and sums of symmetric and Hermitian band matrices.**  
Modelled in Model/SymBandSum.lean: ProdXsB::assignToB and the five AddMM of TMV_AddsBsB.cpp, with the array of C and the ways to share it; proved by each function is shown equal to the elementwise formula, by cases on the sharing; concrete counterexamples for the rest.  Status: partial.  Proved for every case but three in which the code is wrong, each with a theorem: (1) C = alpha*A where A is kept in the upper triangle of C's array and is conjugated with respect to C: the part below the diagonal is not conjugated (assign_conj_violated); (2) C = alpha*A + beta*B with A and B both in C's array and A wider than B: the temporary has only the width of B (add2_width_violated: it fails for all values); (3) C = alpha*A + beta*B with a full B that is the transpose of C: the corner below the band is computed from the corner above after that was overwritten (addM_transpose_violated). Exact arithmetic, one element type; copies, multiples and sums of general band matrices are taken as the mathematical ones (C123, C124). Operands that overlap C's array at an offset are not modelled.
Theorems: `SymBandSum.assignX_spec`, `SymBandSum.addTo_spec`, `SymBandSum.add2_spec`, `SymBandSum.add2M_spec`, `SymBandSum.addB_spec`, `SymBandSum.addM_spec`.  Witnesses against the code: `SymBandSum.assign_conj_violated`, `SymBandSum.add2_width_violated`, `SymBandSum.addM_transpose_violated`.

**C132 — Symmetric matrices combined with diagonal, triangular, band and symmetric band matrices.**  
Modelled in Model/MixSym.lean: assignToM/assignToS of SumDS, SumUS, SumLS, SumBS, SumsBS, ProdDS, ProdSD, ProdUS, ProdSU, ProdLS, ProdSL, QuotSD, RQuotSD, and += of a symmetric band matrix to a band matrix; proved by the array of C after `C = S` is shown to hold S whatever triangle S was kept in; the rest by cases on SameStorage; concrete counterexamples for the wrong cases.  Status: partial.  Proved for every case but those in which the code is wrong, each with a theorem: (1) D + S into a complex full C when D is a view of C's diagonal: a copy of D is made but the overwritten D is added (sum_diag_complex_violated); (2) the same when D is kept in C away from its first element, which SameStorage does not notice (sum_unseen_violated); (3) S/D with D a view of C's diagonal: there is no check at all (quot_violated); (4) B += S with S kept above the diagonal of B's own array: the part below is added from changed elements (band_add_sym_violated). Exact arithmetic, one element type; the sums and products called once the operands are known are taken as the mathematical ones.
Theorems: `MixSym.sum_into_matrix`, `MixSym.sum_diag_complex_partial`, `MixSym.sum_diag_sym`, `MixSym.prod_left`, `MixSym.prod_right`, `MixSym.quot_left_partial`, `MixSym.quot_right_partial`, `MixSym.band_add_sym_partial`, `MixSym.band_add_sym_refused`.  Witnesses against the code: `MixSym.sum_diag_complex_violated`, `MixSym.sum_unseen_violated`, `MixSym.quot_violated`, `MixSym.band_add_sym_violated`.

**C133 — Symmetric and Hermitian band matrix times vector or matrix.**  
Modelled in Model/SymBandMul.lean: UnitAMultMV, NonBlasMultMV, MultMV, DoMultMM, FullTempMultMM, BlockTempMultMM, MultMM; proved by a row times a vector is split into the lower band and the shifted upper band; the block loop by induction on the columns left; views by cases.  Status: proved.  The code without BLAS, exact arithmetic, one element type; a Hermitian A has a real diagonal. The products of the general band matrices lowerBand() and upperBandOff() are taken as the mathematical ones (C92, C93). A vector y kept inside A, and operands that overlap at an offset, are not modelled. DoMultMM forgets its factor for the upper part (TMV_MultsBM.cpp:66), which is harmless because it is only called with the factor 1: the model keeps it.
Theorems: `SymBandMul.multMV_spec`, `SymBandMul.multMM_spec`.

**C134 — Symmetric band matrix times band matrix or symmetric band matrix.**  
Modelled in Model/SymBandBB.lean: okij, hasSubBandMatrix, subBandMatrix, the width assertions of ProdBB, DoMultMM, TempMultMM, both MultMM; proved by each view is shown to satisfy its assertions by arithmetic on the widths, and its elements to be those of the shifted band; rows split as in C133; transposition reduces the last case to the first.  Status: partial.  Proved for all widths except an A that is not diagonal times a band B without lower diagonals whose upper diagonals reach the last corner, where the code is wrong: multMM_triangular_fails shows that an assertion fails for every such call (without assertions a view with more diagonals than columns is made). For two symmetric band matrices there is no exception. Exact arithmetic, one element type, the assertions on; products of general band matrices (C94) are taken as the mathematical ones with their width assertions.
Theorems: `SymBandBB.multMM_spec_partial`, `SymBandBB.multMM_triangular_fails`, `SymBandBB.multSS_spec`.

**C135 — Dividing a vector by a triangular matrix that shares its storage.**  
Modelled in Model/TriDivAlias.lean: both doLDiv for vectors, TriLDivEq as substitution in memory, SameStorage; proved by induction on the rows for substitution in any memory in which vector and matrix are apart; the temporary is a disjoint summand of the address space; upper from lower by reversing the indices.  Status: partial.  Lower triangular: proved. Upper triangular: proved except for a v2 that begins where U does while v1 does not, where the code is wrong (it tests v1 instead of v2); lDivU_diag_wrong shows the wrong value for `U.diag() = v1/U` for every size and all numbers. Row-by-row substitution without the shortcut for zeros and without BLAS; v1 and v2 that overlap at an offset, and a v2 inside the matrix that begins elsewhere (which SameStorage does not notice), are not covered. v1/0 = 0 in the model.
Theorems: `TriDivAlias.lDivL_spec`, `TriDivAlias.lDivU_spec_partial`, `TriDivAlias.lDivU_diag_wrong`.

## Findings (all proved as `_violated` theorems on the model)

* Vector: `setAllTo` on a conjugated view with |step| ≤ 1 stores the unconjugated value; `sort` without a permutation ignores the
  step; `hasSubVector` with istep 0 divides by zero; the Fortran check accepts i1==i2 out of range; `subVector(3,3,0)`
  divides by zero; step-0 conjugated `addToAll`/`minElement`/`sumElements` ignore the conjugation; `setAllTo` on an
  empty step-0 view writes.
* Vector arithmetic: source and destination with the same first element but a smaller source step are combined
  wrongly although `SameStorage` holds; `z = 0*ElemProd(x,y)` leaves z unchanged; `ElemProd` copies in the wrong
  direction and misses the alias after reversing.
* Outer product: `m = m.col(0) ^ m.row(0)` gives a wrong result: `Rank1Update` makes no alias test.
* Matrix: `hasSubMatrix` istep 0; `hasSubVector` accepts a negative size; `permuteRows` is wrong for odd
  `-DTMV_BLOCKSIZE` (unparenthesised macro); `setAllTo` as above.
* Permutation: unnormalised lists give wrong `cref`/`==`; aliasing of the index array between copies (modification through
  an alias, self-assignment, `p = p.inverse()`, reading into a copy, copy outliving the owner).
* Triangular solve: zero diagonal not raised for column-major storage when the right-hand side component is zero.
* LU of a wide matrix with two rows is wrong.
* Dividers: stale decomposition after an exception and after `lud()`/`setDiv` without `saveDiv`; `norm2` debug assertion with a saved SV.
* ConjRef: `TMV_SQR`/`TMV_SQRT` conjugated wrongly; complex iterator `+=`/`-=` with step 1 moves by one only.
* List initialisation: a single value raises no error; too few values call `std::terminate` in C++11 and later.
* `TMV_END_PADDING` writes past the block when malloc returns an address 8 mod 16.
* Input: truncated input ending in white space hangs, uninitialised character at exact end of file, negative size accepted,
  `Permutation::read` leaves `isinv` uninitialised, permutation values unchecked.
* Rank-k updates of symmetric matrices: `S = 0*(x^x)` and no columns leave S unchanged; `TMV_BLOCKSIZE ≥ 4` with
  column-major x keeps only the last column; aliased wide x.
* Givens: the vector form ignores the conjugation of the first vector when the two differ; s = 0 with c ≠ 1 does nothing; the symmetric form is wrong for complex s.
* PackedQ: `x*Q*m` drops x.
* Band: DiagMajor with more rows than columns and nlo = 0 writes past the array; `rowRange`/`colRange` expose elements outside the band;
  `subBandMatrix` with steps accepted outside the band.
* Tri: `subTriMatrix` with negative step shows the unstored half; const lower `diag(i)` too long; empty unit
  `maxAbsElement` is 1.
* Sym: `subVector` from the diagonal, Fortran `subVector`, `subMatrix` with steps, `subSymMatrix` with negative step show
  unstored memory; `==` between Sym and Herm compares only one triangle.
* LDL: `isSingular()` is true for regular matrices such as [[0,1],[1,0]] (`isSingular_violated`); read from the source but not modelled:
  `SymLDLDiv` of a 0x0 matrix makes a vector of size -1 (TMV_SymLDLD.cpp:73), `LDL_Decompose` of a conjugated symmetric view in place
  leaves the sign of the conjugated determinant (TMV_SymLDLDecompose.cpp:1311).
* `divideInPlace()` of a view that is neither row nor column major: LU, QR, Cholesky and LDL dividers decompose uninitialised memory
  (`luInPlace_violated`); read from the source but not modelled: the same in QRPDiv and SVDiv.
* `m.col(0) = m.upperTri()*x` overwrites the triangle before using it (`mulV_alias_violated`).
* `S += L.conjugate()*L.adjoint()` for complex symmetric `S` squares the unconjugated diagonal (`rankKLower_conj_violated`);
  `S = 0*L*L.transpose()` leaves `S` (`rankKLower_zero_violated`); read from the source but not modelled: `S -= L*L.adjoint()` for Hermitian
  `S` asserts `getM1().isSameAs(getM1().adjoint())` (TMV_SymMatrixArith.h:938-941), so it fails in a debug build.
- `C += A*B` for complex matrices after `std::bad_alloc` in the second to fourth real product adds the whole product to the partial sums (TMV_MultMM_Block.cpp:397-435): `blockMMFail_violated`, C82.
- `C += D.conjugate()*B` with a non-unit-step diagonal and column-major matrices adds `D*B` (TMV_MultDM.cpp:308-325 passes `ca` with an already conjugated copy): `mulM_violated`, C83; `makeInverseATA` of the diagonal of the destination itself zeroes it first and always throws (TMV_DiagMatrix.cpp:273-279): `makeInverseATA_violated`, C83.
- `QR_Downdate` of the 2x2 identity by the row (1 0) divides zero by zero (TMV_QRDowndate.cpp:189) and continues with NaN, although the downdated triangle diag(0,1) exists: `qrDowndate_violated`, C85.
- `QRP_Decompose` (not strict, more than QRP_BLOCKSIZE columns) never returns for any nonzero matrix with N*sqrt(eps)>1, i.e. float matrices with more than 2896 columns: recalcthresh (TMV_QRPDecompose.cpp:542) exceeds the pivot's own norm: `qrp_loose_hangs`, C86.
- `QRPDiv` with loose pivoting of more than QRP_BLOCKSIZE columns: a column swapped into the block is decomposed without checking its norm (TMV_QRPDecompose.cpp:571-623), so R can get a zero diagonal element in the middle; e.g. columns 2e0,e0,...,e0,e1 (33x33) count as rank 1 and A x = e1 gives x = 0: `qrpDiv_loose_defect`, C87. `QRPDiv`/`QRDiv` constructors test the parameter `inplace`, not pimpl->inplace (TMV_QRPD.cpp:82-88, TMV_QRD.cpp:82-93): divideInPlace on a view that is neither row- nor column-major decomposes uninitialised memory: `qrpDiv_inplace_defect`, C87.
- BandLUDiv::doMakeInverseATA, not istrans (TMV_BandLUD.cpp:301-305): LU_PackedPL_LDivEq applied to the identity gives L^-1*P^T, but only its lower triangle, with unit diagonal, is used; with any row interchange the result is wrong. A = ((0,1),(1,0)), column major: result ((1,1),(1,2)) instead of the identity.
- Rank2Update of a Hermitian matrix with complex alpha, contiguous x and strided (or conjugated) y scales y instead of x, so alpha and conj(alpha) are exchanged (TMV_Rank2_VVS.cpp:339-346). RecursiveRank2KUpdate with operands that are not both row major loops over N columns instead of x.rowsize() (TMV_Rank2K_MMS.cpp:126), and with add=false every column overwrites the others. The overloads of both functions for SymMatrix&/HermMatrix& drop the template argument add and cannot compile (TMV_SymMatrixArithFunc.h:117-142).
- MultMV for band matrices checks SameStorage only between x and y (TMV_MultBV.cpp:1674-1676): A.diag() = A*x for a DiagMajor lower band matrix overwrites the diagonal while it is read.
- BlockTempMultMM (TMV_MultBM.cpp:425-452, 496-498) is chosen by equality of the steps, not of the positions: with overlapping shifted column ranges of more than 64 columns the product is wrong.
- MultMM for band matrices with B.colsize() > B.rowsize()+B.nlo() cuts A to BB.rowsize() instead of BB.colsize() columns (TMV_MultBB.cpp:525-530): for B.nlo() > 0 terms of the product are lost.
- BandQRDiv: makeInverseATA computes Rinv*Rinv.transpose() and ignores istrans (TMV_BandQRD.cpp:200-213): wrong for complex matrices and for square matrices decomposed through their transpose; in-place decomposition first zeroes the matrix's own top nlo superdiagonals (TMV_BandQRD.cpp:104-106).
- SymLDL_Decompose of a diagonal-major symmetric tridiagonal matrix lacks the loop over the diagonal (TMV_SymBandCHDecompose.cpp:323-336): only the first step is done.
- HermBandCHDiv: logDet sums log|d_i| with the sign taken as +1, so a tridiagonal matrix with negative determinant gets a positive one ([[1,2],[2,1]] gives +3); in-place decomposition with cm/rm and nlo=1 or dm and nlo>1 leaves LLx a newly allocated, never assigned matrix (TMV_SymBandCHD.cpp:66-69, 84-85).
- makeInverseATA for HermCHDiv, SymLDLDiv and HermBandCHDiv fills only the lower triangle of ata before SymSquare, which reads the whole of its diagonal blocks (TMV_SymSquare.cpp:58-59): wrong from N=3 on; for complex symmetric matrices A^-1 A^-1 instead of A^-1 (A^-1)^H (TMV_SymLDLD.cpp:160-161); infinite recursion for N=0.
- SymSVDiv::top(n) sets kmax=n without limiting it to the size (TMV_SymSVD.cpp:433-437; only an assertion), unlike the other three dividers; after top(n) between equal singular values SymSVDiv's inverse is not the pseudo-inverse used by division; SymSVDiv::thresh of an empty matrix reads S(0).
- `BidiagonalZeroFirstRow` (TMV_SVDecompose_QR.cpp:150-163) reads and writes `E[N-1]`, one behind the end of `E`: the guard `if (i<N)` holds in every pass (`SVQR.behind_E_violated`).
- `HermTridiagonalChopSmallElements` (TMV_SymSVDecompose_QR.cpp:89-92) drops `E(i)` if it is below `sqrt(eps) (|D(i)|+|D(i+1)|)` and `E(i) (D(i+1)-D(i))/(D(i+1)+D(i))` underflows, which it does when the two diagonal elements are equal: the eigenvalues 1 +- sqrt(eps) of [[1, sqrt(eps)], [sqrt(eps), 1]] are given as 1 and 1 (`EigQR.third_test_violated`, `EigQR.eps_accuracy_violated`).
- `PolarDecompose(U,P)` (TMV_SymSVDecompose.cpp:1603) reads `S(0)` of an empty `DiagMatrix` when `U` has no columns; C111 is stated for N > 0.
- makeInverseATA of a SmallMatrix with fewer rows than columns writes an M x M matrix (stride M) into the N x N result and leaves the other elements uninitialised (TMV_SmallMatrixDiv.h:1246-1257)
- view = x*m1 - m2 (SmallMatrixes m1, m2; a view that is not contiguous or starts at the address of an operand) gives x*m1 + m2: AddMM is called with T(1) instead of T(-1) (TMV_SmallMatrixArith.h:1479, 1499). A + m with a strided matrix A and a row-major SmallMatrix m, assigned to a contiguous matrix, reads A as contiguous: the second test of SumMm::assignToM looks at the steps of m (TMV_SmallMatrixArith.h:1793, 1842)
- v *= m for a conjugated complex VectorView of step 1 and a real SmallMatrix leaves the conjugate of v*m: the result is stored without conjugation although the copy of v was taken with it (TMV_SmallMatrixArith.h:3669-3683, 3740-3754)
- m0 = v1 ^ v2 (SmallVectors) into a contiguous row-major view calls the column-major routine, so a square m0 receives v2 ^ v1 (TMV_SmallMatrixArith.h:482-502, 558-578)
- SymMultMM with an operand stored in the memory of A: with more columns than rows the second call assigns instead of adding (TMV_SymMultMMS.cpp:224-226); with fewer columns and both operands stored in the other order than A it uses x.subMatrix(K,N,K,N), outside of x (lines 246-251); with no columns the recursion does not end
- C = C.upperTri() + B (and C = x*C.upperTri() + y*B) adds B to the old elements of C below the diagonal instead of to 0: that branch assigns only C.upperTri() before adding B (TMV_AddUU.cpp:328-329)
- C.conjugate() = A + y*B for a band matrix A computes A + conj(y)*B: AddMM conjugates alpha but not beta (TMV_AddBB.cpp:208)
- C = x*A.transpose() for the Hermitian view A of the upper triangle of C, and C = x*A.conjugate() for the symmetric one, conjugate the elements below the diagonal: ProdXS::assignToM overwrites the upper triangle before it reads the lower one from it (TMV_SymMatrixArith.h:117-119)
- C += D.conjugate()*B (triangular B, C, column major, stepped diagonal, alpha = 1) uses conj(D) on the diagonal of C and D elsewhere (TMV_MultDM.cpp:308-325 via TMV_MultDU.cpp:182).
- C = alpha*A of a conjugated A kept in C's upper triangle, the sum of two operands in C's array of which the first is wider, and C = A + C^T for a full C are wrong (TMV_SymBandMatrixArith.h:109-110, TMV_AddsBsB.cpp:122-131, 286-289).
- C = D + S for complex C with D a view of C's diagonal adds the overwritten D (TMV_DiagSymArith.h:70-73: `m1.diag()` instead of `m1x.diag()`); C = S/D with such a D divides by the overwritten D; B += S with S kept in B's upper band is wrong below the diagonal (TMV_BandSymBandArith.h:103-105).
- none that can be observed (the factor missing in DoMultMM, TMV_MultsBM.cpp:66, is never different from 1).
- `C = A*B` with a symmetric band A (at least one diagonal on each side) and an upper triangular band B with nhi = rowsize-1 fails an assertion: the last branch of DoMultMM (src/TMV_MultsBB.cpp:84-91) passes B.nhi() unreduced to a view with one column less.
- `GenUpperTriMatrix::doLDiv(v1,v2)` (src/TMV_TriDiv.cpp:57) tests SameStorage(*this,v1) where SameStorage(*this,v2) is meant: `U.diag() = v/U` overwrites U before dividing; its last element is always 1 (or 0).

## Seeded bugs

`seeded/LOG.jsonl` lists every edit made to a scratch copy of the model (wrong boundary, missed case, swapped argument, dropped update,
...), the claim it breaks, the theorems that failed and those that were tightened because an edit had survived.
The scripts are `tools/mut.py` and `tools/mutlog.py`.

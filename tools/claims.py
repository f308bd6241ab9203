c("C01","proved","view_chain_inside VOp.run_spec view_op_reads")
c("C02","partial","hasSubVector_iff hasSubVector_zero_step_violated subVector_empty_zero_step_violated","exact for istep != 0; for istep == 0 the check itself divides by zero (undefined behaviour) - witness proved")
c("C03","partial","hasSubVectorF_iff_partial hasSubVectorF_shift_partial hasSubVectorF_single_violated subVectorF_elements subVector2F_elements","Fortran check accepts i1==i2 without range check when istep==0 path is taken - witness proved")
c("C04","proved","setRef_spec setRef_other setRef_ub")
c("C05","partial","setAllTo_spec_partial setAllTo_conj_violated setAllTo_empty_step0_violated","conjugated views with |step|<=1 get the conjugated value - witness proved")
c("C06","partial","setZero_spec addToAll_spec_partial addToAll_step0_violated conjugateSelf_spec clip_spec makeBasis_spec","step-0 conjugated single-element views: addToAll ignores conj - witness proved; everything else proved")
c("C07","proved","reverseSelf_spec reverseSelf_twice")
c("C08","proved","permute_reversePermute permute_spec reversePermute_spec swap_spec")
c("C09","partial","sortNoP_spec_partial sortNoP_strided_violated sortNoP_reversed_violated","contiguous views proved; strided/reversed views sort the wrong memory - witnesses proved")
c("C10","proved","sortP_spec convertIndexToPermute_spec","std::sort is a parameter with its standard contract")
c("C11","partial","minAbs_spec maxAbs_spec minElement_spec_partial maxElement_spec_partial minmax_empty minElement_step0_violated","step-0 conjugated single element: value read without conj - witness")
c("C12","partial","sumElements_spec_partial sumElements_step0_violated normSq_spec sumAbs_spec","step-0 conjugated single element - witness")
c("C13","proved","norm2_spec","exact arithmetic")
c("C14","proved","swapV_spec")
c("C15","proved","eqV_iff")
c("C50","proved","copy_spec")
c("C20","partial","perm_cref_spec_partial perm_cref_unique_partial perm_cref_violated","normalised lists (all lists the library makes); unnormalised lists, allowed by the documented constructor, are a witness")
c("C21","proved","perm_inverse_apply perm_inverse_cref")
c("C22","proved","perm_det_sign perm_det_matrix")
c("C23","proved","perm_trace_spec perm_trace_matrix")
c("C24","partial","perm_eq_iff_partial perm_eq_violated","normalised lists; witness for unnormalised ones")
c("C25","partial","PermHeap.history_safe_partial PermHeap.step_safe PermHeap.init_inv PermHeap.alias_modified_violated PermHeap.self_assign_violated PermHeap.assign_inverse_violated PermHeap.read_copy_violated PermHeap.copy_outlives_violated","proved under a borrowing discipline; five witnesses that the documented promise fails without it")
c("C26","proved","Bareiss.integerDet_spec Bareiss.integerDet_int Bareiss.integerDet_gaussian Bareiss.bareiss_eq_det","intermediates assumed exactly representable (no long double overflow)")
c("C27","partial","LU.decompose_spec LU.recursive_spec LU.plu_eq LU.decompose_example LU.lu_wide_violated","square and tall matrices proved; wide matrices with two rows are decomposed wrongly - witness proved")
c("C28","proved","LU.decompose_spec","field bound of IsLU; for every absolute value on the field")
c("C29","proved","LU.lDiv_spec LU.rDiv_spec LU.inverse_spec LU.det_spec","exact arithmetic; not-in-place LUDiv")
c("C30","partial","Tri.upperM_sound Tri.lowerM_sound Tri.upperM_isSome Tri.lowerM_isSome Tri.zero_diag_not_raised_violated","solution and no spurious exception proved; zero diagonal is not always raised (column-major solve skips zero components) - witness")
c("C51","proved","TriProd.multUL_spec TriProd.multLU_spec TriProd.triInverse_spec")
c("C52","proved","TriMul.upperV_spec TriMul.lowerV_spec TriMul.upperRec_spec TriMul.lowerRec_spec")
c("C16","partial","MOp.run_spec mat_view_chain mat_vec_view hasSubMatrix_iff matHasSubVector_iff hasSubMatrix_zero_step_violated subMatrix_empty_zero_step_violated hasSubMatrixF_single_violated matHasSubVector_negative_violated","every view obtained through accepted arguments stays inside and reads the documented elements; the checks are exact for nonzero steps and sizes > 0; four witnesses where the argument check itself is wrong or undefined")
c("C17","proved","linearView_spec canLinearize_geom lsok_runAll lsok_ofStor lsok_ofSteps lsok_ofRowVector lsok_ofColVector each_spec eachOwned_spec")
c("C18","proved","transposeSelf_spec transposeSelf_twice")
c("C19","partial","permuteRows_spec reversePermuteRows_spec permuteRows_reverse permuteRowsMacro_even_spec permuteRowsMacro_odd_violated","every block size when the macro is read as intended, and every even TMV_BLOCKSIZE as written; odd -DTMV_BLOCKSIZE gives a wrong result (unparenthesised macro) - witness proved")
c("C53","partial","mat_setZero_spec mat_setAllTo_spec_partial mat_setAllTo_conj_violated mat_addToAll_spec_partial mat_conjugateSelf_spec mat_clip_spec mat_setToIdentity_spec_partial","setAllTo/addToAll/setToIdentity exclude conjugated views whose rows or columns the vector routine handles as contiguous or step 0; the setAllTo case is a proved witness")
c("C54","proved","mat_copy_spec copyDiff_spec")
c("C55","proved","swapM_spec eqM_iff")
c("C56","partial","mat_sumElements_spec_partial mat_sumAbs_spec mat_normSq_spec mat_norm1_spec mat_normInf_spec mat_maxAbs_spec","sumElements excludes conjugated views with a zero step (see sumElements_step0_violated); the rest proved")
c("C44","partial","Div.div_no_ub Div.div_default_fresh_partial Div.div_unset_fresh Div.div_using_spec Div.div_saved_stable Div.div_not_in_place_unchanged Div.div_stale_after_exception_violated Div.div_stale_after_access_violated Div.norm2_saved_assert_violated","Every history of calls on one matrix object. 'Never stale by default' is proved for histories without explicit setDiv/lud()/... and without an earlier throwing division; both exclusions are necessary (witnessed). The decompositions are parameters.")
c("C49","partial","ref_assign_complex ref_assign_real ref_assign_ref ref_read cref_read_partial ref_eq_ref ref_swap ref_swap_plain conjref_sqr_violated conjref_sqrt_violated","Exact complex arithmetic. TMV_SQR and TMV_SQRT of a ConjRef are wrong in the code (witnessed); stream operators not modelled.")
c("C57","partial","iter_arith_partial iter_elements iter_plus_assign_violated","All laws except += and -= of the complex iterators with step 1, which the code gets wrong (witnessed).")
c("C45","partial","ListInit.vec_list_init_partial ListInit.rm_list_init ListInit.mat_list_init ListInit.tri_list_init ListInit.listInit_spec ListInit.list_init_single_violated ListInit.list_init_terminate_violated","Vectors, full and triangular matrices and any row profile. The too-few error needs at least two values and a C++98/03 build (both witnessed).")
c("C46","partial","Arr.alloc_aligned_fits Arr.array_histories Arr.array_size Arr.end_padding_fits_partial Arr.end_padding_overflow_violated","Default build proved for all histories and addresses; with TMV_END_PADDING only for 16-byte aligned blocks (overflow witnessed otherwise). StackArray not modelled.")
c("C42","proved","IO.vector_roundtrip IO.vectorView_roundtrip IO.matrix_roundtrip IO.diag_roundtrip IO.perm_roundtrip IO.predefined_roundtrip IO.intCodec_law","Round trip for every style whose separators keep numbers apart, for any number format obeying Codec.Law (proved for integers); the three predefined styles are instances. Tri/Band/Sym formats not modelled. read_perm_isinv_violated: compact style with simple size reads an uninitialised inverse flag.")
c("C43","partial","IO.read_terminates_partial IO.skip_refines IO.skip_hang_iff IO.readVector_ok_iff IO.readVectorView_ok_iff IO.readMatrix_ok_iff IO.readDiag_ok_iff IO.read_hangs_violated IO.read_uninitialised_violated IO.read_negative_size_violated IO.read_perm_range_violated","Reading ends whenever the last character of the stream is not white space, and succeeds exactly on the right format. The full claim is false: truncated input ending in white space makes skipWhiteSpace loop forever, and at the exact end of file an uninitialised char is tested (witnesses).")
c("C58","partial","SymRK.rank1_spec SymRK.rankK_add_spec SymRK.rankK_assign_partial SymRK.inPlace_spec SymRK.aliasWide_add_spec SymRK.rank1_zero_violated SymRK.rankK_zero_violated SymRK.rankK_assign_violated SymRK.aliasWide_assign_violated","Every += form proved for all sizes, storages and block sizes, incl. aliased. The assigning forms are false of the code for alpha==0, no columns, TMV_BLOCKSIZE>=4 with column-major x, and aliased wide x (witnesses).")
c("C31","proved","CH.ch_correct CH.ch_raises_iff CH.ch_deterministic CH.cholesky_unique","Recursive/non-block algorithms in both storage orders, real and complex elements, every size and block size (ch_correct: A = L L^H with positive diagonal, memory outside the triangle untouched; ch_raises_iff: NonPosDef iff not positive definite). Exact arithmetic; the Lapack path and the unused BlockCH_Decompose are not modelled.")
c("C35","partial","givensRotate_spec givensRotate_norm givensMult_norm givens_adjoint givensMultV_partial givensMultV_conj_violated givensMultV_zero_violated givensHermMult_spec givensSymMult_partial givensSymMult_complex_violated givensSymMult_complex_violated' signR_ok signC_ok","GivensRotate (real and complex, every branch): second element exactly 0, unitary up to the factor 1+n with n<=2*eps which the code's shortcuts allow (n=0 otherwise). Vector form proved when both views have the same conjugation; a mixed pair is computed wrongly (witness), s=0 with c!=1 is a no-op (witness), symMult is wrong for complex s (witnesses).")
c("C48","proved","inverseOfC_spec divide_spec","Exact arithmetic.")
c("C33","proved","QR.householder_reflect QR.householder_reflect_involution QR.householder_unreflect","Real and complex vectors of every length; every branch incl. rescaling and underflow (a vector below the threshold tiny is treated as zero, as in the code). Exact arithmetic.")
c("C34","proved","QR.qr_decompose QR.nonBlock_spec","Blocked, recursive and non-blocked algorithms, every shape M>=N and block size: Q has orthonormal columns, R upper triangular, QR = A+E where column c of E is nonzero only if R(c,c)=0 and is below the underflow threshold. Exact arithmetic, no Lapack.")
c("C59","partial","QR.packedQ_lDiv QR.packedQ_rDiv QR.packedQ_lMult QR.packedQ_rMult QR.packedQ_scaled_product_violated","Unscaled products and quotients proved for all shapes and block sizes. With a scalar the claim is false: the composite x*Q*m drops x (witness).")
c("C60","proved","QR.qrDiv_tall QR.qrDiv_wide","Exact arithmetic, non-Lapack, not in place, without column pivoting; a column below the underflow threshold is treated as zero (the explicit E).")
c("C36","partial","band_storage_partial band_storage_violated band_storage_violated_all band_new_live_partial bandNumElements_spec","Every size, bandwidth and storage order except DiagMajor with colsize>rowsize, nlo==0, nhi>0, where the claim is false (elements beyond the allocated array; proved for all such sizes).")
c("C37","partial","band_cref_zero band_cref_in band_cref_total band_write band_row3 band_col3 band_diag3 band_diagOff BView.Shows.inj BView.Shows.live BView.Shows.cref band_subBand6 band_subBand4 band_rowRange_partial band_colRange_partial band_rowRange_wf_partial band_colRange_wf_partial band_rowRange_violated band_colRange_violated band_rowRange_size band_rowRange_size_violated band_diagRange band_upperBand band_lowerBand band_upperBandOff band_lowerBandOff band_view_shows band_transpose band_conjugate band_adjoint band_ofMat band_narrow band_subVector band_subMatrix6 band_subBand8_violated band_subBand8_one","False for rowRange/colRange ending above the last subdiagonal (exposes other elements of the parent outside the band), for rows below the band (negative size) and for subBandMatrix with steps (accepted although outside the band); proved for all other views.")
c("C61","partial","band_setZero_spec band_setAllTo_spec_partial band_addToAll_spec_partial band_conjugateSelf_spec band_clip_spec band_transposeSelf_spec band_each_spec band_owner_each_spec_partial band_rowRange_footprint lsok_bandStor lsok_band_views","setAllTo(x) on a conjugated view with non-real x excluded (false, see C07-C08), addToAll on conjugated view with diagonal step 0, the layout excluded by C36.")
c("C62","partial","band_sumElements_spec_partial band_sumAbs_spec band_normSq_spec band_maxAbs_spec","Exact arithmetic; sumElements on a conjugated view with diagonal step 0 excluded.")
c("C39","proved","tri_cref_zero tri_cref_one tri_cref_in tri_cref_total tri_write tri_write_unit tri_storage tri_assignToM_spec lower_cref_zero lower_cref_one lower_write","Model of element access through UpperTriMatrix / LowerTriMatrix and their views; distinctness and bounds of the stored elements from the owner's constructor.")
c("C63","partial","tri_row3 tri_col3 tri_diag3 tri_diagOff tri_subVector tri_subMatrix6 tri_subTri2 tri_subTri3_partial tri_subTri_negative_violated tri_offDiag tri_viewAsUnitDiag tri_transpose lower_transpose tri_conjugate tri_adjoint tri_ofMat tri_ofMat_lower lower_row3 lower_col3 lower_diag3 lower_subVector lower_subMatrix6 lower_subTri2 lower_subTri3_partial lower_offDiag lower_viewAsUnitDiag lower_conjugate lower_diagOff lower_diagOff_const_violated","False as stated in two places, both proved: subTriMatrix with a negative step is accepted and shows the unstored half; the const diag(i) of a LowerTriMatrix is too long. Proved everywhere else.")
c("C64","partial","tri_each_spec tri_setZero_spec tri_setAllTo_spec_partial tri_addToAll_spec tri_conjugateSelf_spec tri_clip_spec tri_setToIdentity_spec_partial tri_owner_each_spec tri_assign_spec tri_assignToM_spec lower_assignToM_spec tri_swap_spec tri_eq_spec","setAllTo(x) on a conjugated view with non-real x is the vector defect of C53; the two _partial theorems exclude it.")
c("C65","partial","tri_sumElements_spec tri_sumAbs_spec tri_normSq_spec tri_maxAbs_spec_partial tri_maxAbs_empty_violated tri_norm1_spec tri_normInf_spec","Exact arithmetic. maxAbsElement of an empty unit-diagonal matrix is 1 (proved violation); proved for every other matrix.")

c("C38","proved","sym_history symOp_spec sym_symmetric sym_symmetric_diag sym_write sym_storage sym_holds_symOf sym_cref_total","Model of SymMatrix/HermMatrix storage and element access on memory. sym_history: any list of modifying operations within the documented preconditions (real values on a Hermitian diagonal; setAllTo/setToIdentity of a non-real value on a conjugated symmetric view excluded, a separate finding) runs, gives exactly the mathematical result, leaves the matrix symmetric/Hermitian with real diagonal, and changes no memory outside the stored triangle. Arithmetic (rank updates, products) is C30/C31.")
c("C66","partial","sym_row3 sym_col3 sym_diag sym_diagOff sym_diag3 sym_subVector_partial sym_subMatrix4 sym_subMatrix6_partial sym_hasSubMatrix_iff sym_subSym2 sym_subSym3_partial sym_upperTri sym_lowerTri sym_transpose sym_conjugate sym_adjoint sym_ofMat SView.Shows.cref SView.Shows.write SView.VecOf.cref SView.MatOf.cref sym_subVector_violated sym_subVectorF_violated sym_subMatrix_violated sym_subSym_negative_violated","False of the code as stated: subVector starting on the diagonal and leaving the stored triangle, subMatrix with steps (wrong step compared; negative steps), subSymMatrix with negative step, and the Fortran-style subVector check are accepted and show unstored memory (the _violated theorems). The rest is proved in full.")
c("C67","partial","sym_setZero_spec sym_setAllTo_spec_partial sym_addToAll_spec sym_clip_spec sym_conjugateSelf_spec sym_transposeSelf_spec sym_setToIdentity_spec_partial sym_set_spec sym_swapRowsCols_spec sym_permuteRowsCols_spec sym_reversePermuteRowsCols_spec sym_assign_spec sym_assignToM_spec sym_swap_spec sym_eq_spec sym_eq_mixed_violated","setAllTo/setToIdentity with a non-real value on a conjugated symmetric view, and == between a symmetric and a Hermitian matrix, are wrong in the code (violated theorems); everything else proved.")
c("C68","proved","sym_sumElements_spec sym_sumAbs_spec sym_normSq_spec sym_norm1_spec sym_maxAbs_spec","Exact arithmetic; abs/norm functions are parameters invariant under conjugation. maxAbsElement for a nonempty matrix.")
c("C41","partial","mat_addMM_spec mat_addMM3_spec mulMV_spec rank1_alias_violated mulXV_spec addVV_spec addVV3_spec_partial elemMulVV_spec_partial copy_safe_spec SafeOrder.of_noClash SafeOrder.of_step vec_alias_step_violated elemProd_alias_violated elemProd_reverse_violated","Exact arithmetic, one element type, no BLAS. True for operands that are disjoint from the destination, equal to it up to conjugation, or start at its first element with a larger step. False for a source with the same first element and a smaller step (proved: vec_alias_step_violated, elemProd_alias_violated), although the library's SameStorage test holds; ElemProd also misses the alias when it reverses the vectors first (elemProd_reverse_violated).")
c("C69","partial","mulX_spec mulXV_spec addVV_spec addVV3_spec_partial mulVV_spec elemMulVV_spec_partial elemProd_zero_violated","Exact arithmetic, one element type, no BLAS; unrolled and strided loops and the recursion of v*w modelled. Partial because z = 0*ElemProd(x,y) leaves z unchanged (proved: elemProd_zero_violated).")
c("C70","partial","mat_mulX_spec mat_assignMulX_spec mat_addMM_spec mat_addMM3_spec mat_elemMul_spec_partial","Exact arithmetic, one element type, no BLAS. Scaling and addition are complete, aliased operands included; ElemProd inherits the defects of the vector form (x = 0, reversed aliases), which its theorem excludes.")
c("C71","proved","mulMV_spec rowMulMV_spec colMulMV_spec unitMulMV_spec","Exact arithmetic, one element type, no BLAS. Includes x and y the same vector and y the first row or column of A.")
c("C72","partial","rank1_spec_partial colRank1_spec unitRank1_spec rank1_alias_violated","Exact arithmetic, one element type, no BLAS. Holds for vectors that share no element with A; vectors that start at the first element of A give a wrong result (rank1_alias_violated): Rank1Update makes no SameStorage test.")
c("C40","proved","mulMM_spec nonBlasMulMM_spec blockMM_spec run_spec blockPart_spec kernMNK_acc cccMulMM_spec crcMulMM_spec rccMulMM_spec","Exact arithmetic, no BLAS, generic (non-SSE) kernels as loops over k. Real, complex and mixed element types; A and B may each share the first element with C. Allocation failure inside the blocked algorithm and OpenMP are separate properties.")
c("C47","proved","omp_spec omp_ends step_terminates ompRange_partition","Exact arithmetic, sequentially consistent memory (justified by the proved absence of races), allocations succeed, generic (non-SSE) kernels. A and B share no element with C, as MultMM ensures before the call.")
c("C73","partial","SymRK.symMul_spec_partial SymRK.symMulRec_spec SymRK.symMul_zero_violated SymRK.symMulAlias_partial SymRK.symMulAlias_wide_violated SymRK.symMulAlias_tall_violated","Exact arithmetic; element type of all operands the same. Proved for operands in other memory and for operands stored in the memory of A (the whole, transposed, conjugated). The code is wrong in three places (violated theorems): assigning with alpha = 0 does nothing; in place with more columns of x than rows of A only the last columns count; in place with fewer columns, x and y stored in the other order than A, reads beyond x and y. No columns with shared storage: the recursion does not end (excluded).")
c("C32","proved","LDL.decompose_spec LDL.decompose_det LDL.nonBlock_spec LDL.block_spec LDL.panel_spec LDL.choose_spec LDL.invert2_spec","Exact arithmetic (TMV_Underflow is = 0), no LAPACK, matrix stored in its lower triangle and not conjugated (the other cases are brought to this one by transposing the view at the start of LDL_Decompose).")
c("C74","proved","LDL.lDiv_spec LDL.rDiv_spec LDL.det_spec LDL.lDivEq_spec LDL.rDivEq_spec LDL.pseudoLDiv_spec","Exact arithmetic, one element type, no LAPACK in the decomposition. Dividing by a singular matrix divides by zero without an exception; nothing is claimed there.")
c("C75","partial","LDL.isSingular_spec_partial LDL.isSingular_violated","True for singular matrices; but the test looks at the diagonal of D only, so it is also true for regular matrices with a 2x2 block with a zero on its diagonal, e.g. [[0,1],[1,0]] (isSingular_violated).")
c("C76","proved","LDL.inverse_spec LDL.makeInverse_spec LDL.combine_spec LDL.addXtDX_spec LDL.invertDiag_aux LDL.pseudo_inv LDL.pseudoLMult_spec","Exact arithmetic, one element type, decomposition without LAPACK, V stored in its lower triangle and not conjugated (the code brings the other cases to this one). For singular A the code divides by zero without an exception; nothing is claimed there.")
c("C77","proved","CH.lDiv_spec CH.rDiv_spec CH.det_spec CH.inverse_spec CH.makeInverse_spec CH.make_spec CH.setUUt_spec CH.setLLt_spec","Exact arithmetic, one element type, no LAPACK; V stored in its lower triangle, row or column major and not conjugated (the code brings other cases to this one).")
c("C78","partial","InPlace.luMake_partial InPlace.qrMake_partial InPlace.chMake_partial InPlace.ldlMake_partial InPlace.inPlace_ignores InPlace.luInPlace_violated","True for row- and column-major matrices and views. For a view that is neither, the constructors do not copy the matrix into the new storage, so uninitialised memory is decomposed (inPlace_ignores, luInPlace_violated).")
c("C79","partial","TriMul.mulV_upper TriMul.mulV_lower TriMul.mulM_upper TriMul.mulM_lower TriMul.mulV_alias_violated","Proved for matrices with all detected aliases and for vectors that are not stored in the triangle. m.col(0) = m.upperTri()*x is wrong: MultMV has no check for y sharing storage with the triangle (mulV_alias_violated). Exact arithmetic, one element type, no BLAS.")
c("C80","partial","CH.rankKLower_partial CH.rankKUpper_partial CH.rankKLower_zero_violated CH.rankKLower_conj_violated CH.rkLower_spec CH.rkUpper_spec","Proved except for A = 0*L*L^dagger, which leaves A unchanged, and for adding a conjugated triangle view to a symmetric complex A, where the code squares the unconjugated diagonal element. Triangle not stored in A.")
c("C81","proved","SymMul.mulV_spec SymMul.mulM_spec SymMul.mulSS_spec","unit0_spec, unitMul_spec, rrow_spec, crow_spec, colM_spec, recM_spec for the parts. Rounding and BLAS are outside the model. Not covered: y a vector in the storage of S (MultMV does not test that).")
c("C82","partial","blockMMFail_partial fallback_spec blockMMFail_spec blockMMFail_violated","Proved for C = alpha*A*B, for real matrices, and for a failure of the first allocation. False for complex C += alpha*A*B when a later allocation fails (blockMMFail_violated: the handler adds the whole product to partial results). blockMMFail_spec says what is in C in every case. One temporary per slice instead of a shared one; the handler's own allocations succeed.")
c("C83","partial","Diag.mulM_partial Diag.mulM_violated Diag.mulM_violated_ex Diag.divM_spec Diag.divV_solves Diag.invertSelf_inv Diag.makeInverse_inv Diag.makeInverseATA_inv Diag.makeInverseATA_violated Diag.det_spec","All of it except two cases where the code is wrong: C += D.conjugate()*B with a stepped diagonal and column-major matrices adds D*B (mulM_violated), and makeInverseATA into the matrix whose diagonal is inverted always throws (makeInverseATA_violated). Exact arithmetic.")
c("C84","proved","QR.qrUpdate_spec QR.qrUpdate_gram QR.qrUpdate_frame","Exact arithmetic; NonBlockQRUpdate is only compiled in the debugging build and is not modelled.")
c("C85","proved","QR.qrDowndate_gram QR.qrDowndate_ok QR.qrDowndate_fails QR.qrDowndate_frame QR.qrDowndate_violated","Exact arithmetic. In the boundary case, positive semidefinite and singular, the code may throw or divide by zero although a downdated triangle exists (qrDowndate_violated).")
c("C86","proved","QR.qrp_packed QR.qrp_unpacked QR.qrp_ends QR.qrp_loose_hangs","Exact arithmetic (the running column norms are then exact). Ends when 4*sqrt(eps)<=1 and, for the loose block algorithm, N*sqrt(eps)<=1; beyond that the loose algorithm never ends (qrp_loose_hangs).")
c("C87","proved","QR.qrpDiv_tall QR.qrpDiv_wide QR.qrpDiv_graded QR.qrp_graded QR.lastNZ_graded QR.qrpDiv_loose_defect QR.qrpDiv_inplace_defect","Exact arithmetic. Proved for strict pivoting, and for loose pivoting without blocks (min(M,N) <= QRP_BLOCKSIZE); false for the loose block algorithm (qrpDiv_loose_defect, a counterexample for every block size from 3) and for divideInPlace on a view that is neither row- nor column-major (qrpDiv_inplace_defect). The zero matrix (NaN norms in the code) is excluded.")
c("C88","proved","BandTri.triM_spec BandTri.upperV_sound BandTri.lowerV_sound","Exact arithmetic, code without BLAS/LAPACK. The statement is about the matrix that is zero outside the band, so it also says that memory outside the band has no influence.")
c("C89","proved","BandLU.plu_spec BandLU.lDiv_spec BandLU.rDiv_spec BandLU.inverse_spec BandLU.det_spec BandLU.decompose_plu BandLU.dec_example","Exact arithmetic, code without LAPACK. divideInPlace as documented (column-major with room for nlo+nhi superdiagonals) is the case of arbitrary memory outside the band.")
c("C90","partial","LUATA.lu_spec LUATA.band_partial LUATA.band_violated LUATA.lu_example","Proved for dense matrices without restriction. For band matrices it is true when the decomposition is of the transpose or no rows were interchanged (band_partial) and false otherwise: band_violated.")
c("C91","partial","Rank2.rank2_partial Rank2.rank2K_partial Rank2.rank2_violated Rank2.rank2_zero_violated Rank2.rank2K_violated Rank2.rank2K_assign_violated","True for every symmetric matrix and every real alpha; for Hermitian matrices with complex alpha only if the layouts of x and y make the code scale x (rank2_violated otherwise); alpha = 0 without add does nothing; Rank2KUpdate is right for row-major operands and wrong for others (rank2K_violated, rank2K_assign_violated). Operands sharing storage with A are not modelled.")
c("C92","partial","BandMV.multMV_partial BandMV.multMV_example BandMV.multMV_alias_violated","Proved for every layout; if A itself shares memory with y it is proved except where A is square, triangular and the product is assigned to a contiguous y, where the code is wrong (multMV_alias_violated).")
c("C93","partial","BandMM.multMM_partial BandMM.multMM_example BandMM.multMM_shift_violated","Proved in full unless B and C share memory with the same steps but different positions, where the blocked code overwrites columns of B it still has to read (multMM_shift_violated).")
c("C94","partial","BandBB.multBB_partial BandBB.multBB_outside BandBB.multBB_example BandBB.multBB_violated","Proved for all shapes except B with subdiagonals and more than B.rowsize()+B.nlo() rows, where the code is wrong (multBB_violated). The row range with no columns that MultMM may create (C.rowRange) is the subject of the band view properties.")
c("C95","proved","BandQR.band_qr_decompose BandQR.band_qr_decompose_R","")
c("C96","partial","BandQR.bandQRDiv_tall BandQR.bandQRDiv_wide BandQR.bandQRDiv_square BandQR.bandQRDiv_getQR BandQR.bandQRDiv_inverseATA_partial BandQR.inverseATA_complex_violated BandQR.inverseATA_trans_violated BandQR.inPlace_violated BandQR.inPlace_partial","Everything is proved except two parts where the code is wrong: makeInverseATA for complex matrices and for square matrices decomposed through their transpose (violated theorems), and in-place decomposition of a matrix whose top nlo superdiagonals are not zero (inPlace_violated).")
c("C97","partial","BandCH.band_ch_correct BandCH.band_ch_raises_iff BandCH.band_ldl_correct BandCH.band_ldl_raises_iff BandCH.sym_band_ldl_correct_partial BandCH.sym_band_ldl_raises_iff_partial BandCH.sym_band_ldl_dm_violated","Proved in full for CH_Decompose and for LDL_Decompose of Hermitian matrices; for symmetric matrices except diagonal-major storage, where the code has no loop and treats one element only (sym_band_ldl_dm_violated).")
c("C98","partial","BandCH.make_raises_iff BandCH.make_raises_iff_tri BandCH.make_posDef BandCH.lDiv_spec BandCH.rDiv_spec BandCH.herm_inverse_spec BandCH.full_inverse_spec BandCH.getLD_spec BandCH.det_spec_partial BandCH.det_violated BandCH.inplace_partial BandCH.inplace_ignores BandCH.inplace_violated","Everything is proved except two parts where the code is wrong: det of an indefinite tridiagonal matrix loses its sign (det_violated), and decomposing in place a column- or row-major tridiagonal matrix or a diagonal-major wider one leaves the divider with an unassigned matrix (inplace_violated). isSingular and makeInverseATA are not covered.")
c("C99","partial","SymSq.symSquare_correct SymSq.symSquare_zero_violated SymSq.ch_ata_partial SymSq.band_ata_partial SymSq.ldl_ata_partial SymSq.ch_ata_violated SymSq.band_ata_violated SymSq.ldl_ata_violated SymSq.ldl_ata_complex_violated","SymSquare is right on a fully stored matrix of at least one row. The dividers fill the lower triangle only, so that from three rows on the result depends on what ata held above its diagonal (..._violated): proved for at most two rows or if those elements are right by accident. For complex symmetric matrices the code computes A^-1 A^-1 (ldl_ata_complex_violated). A 0x0 matrix recurses for ever (symSquare_zero_violated).")
c("C100","proved","SVD.lDiv_spec SVD.rDiv_spec SVD.makeInverse_spec SVD.makeInverseATA_spec SVD.inverseATA_full SVD.lDiv_raises_iff SVD.rDiv_raises_iff SVD.kept_full SVD.thresh_spec SVD.top_spec SVD.norm2_spec SVD.condition_spec","The decomposition the divider holds is assumed to be one (SV_Decompose is an iteration that stops at a rounding threshold and is not modelled); everything the divider does with it is proved, in exact arithmetic. That P is unique, gives the least-squares solution of least norm and is the inverse of an invertible matrix are lemmas about the specification (IsPinv.unique, IsPinv.least, IsPinv.of_inv).")
c("C101","partial","SVD.hlDiv_spec SVD.hrDiv_spec SVD.hlDiv_raises_iff SVD.hermInverse_spec SVD.hmakeInverse_spec SVD.hmakeInverseATA_spec SVD.hthresh_spec SVD.htop_spec SVD.hsvd SVD.hnorm2_spec SVD.hcondition_spec SVD.hdet_spec SVD.kept_symm SVD.thresh_gap SVD.symInverse_spec_partial SVD.symMakeInverse_spec_partial SVD.sym_top_violated SVD.sym_top_inverse_violated","As in C100 the decomposition held is assumed. Hermitian: everything is proved. Symmetric: the inverse is proved if the matrix kept is symmetric, which holds when nothing is discarded and after any thresh (kept_symm, thresh_gap); after top(n) it can fail (sym_top_inverse_violated: makeInverse is not the pseudo-inverse that division uses), and top(n) does not limit n (sym_top_violated).")
c("C102","proved","Bidiag.bidiagonalize_spec","Exact arithmetic; fro F <= 2 N sqrt(M) tiny bounds the dropped elements.")
c("C103","partial","SVQR.fromBidiag_spec_partial SVQR.fromBidiag_setUV_partial SVQR.fromBidiag_values SVQR.fromBidiag_small SVQR.DCOk.small SVQR.run_lastCol","Exact arithmetic. Complete for the singular values alone (any N) and for N up to DC_LIMIT; above it the divide and conquer part (TMV_SVDecompose_DC.cpp) is assumed to keep the contract DCOk. That the iterations end is not proved (partial correctness); the small angle approximation inside GivensRotate is left out.")
c("C104","partial","SVQR.fromBidiag_behind_partial SVQR.behind_E_violated","False of the code: BidiagonalZeroFirstRow multiplies the number behind the last element of E by the cosine of its last rotation (the test `if (i<N)` always holds). Proved: nothing else behind D and E changes.")
c("C105","partial","SVDec.svDecompose_all_partial SVDec.svUser_spec_partial SVDec.svUserS_spec_partial SVDec.svUserS_values SVDec.svUser_exact SVDec.svDecompose_det SVDec.EnvOk.small SVDec.svUser_runs","Complete for up to DC_LIMIT columns and for singular values alone; else the divide and conquer part is assumed (as in C103). Exact arithmetic; that the iterations end is not proved.")
c("C106","partial","EigQR.fromTridiag_spec_partial EigQR.fromTridiag_small_partial EigQR.DCOk.none EigQR.run_flip EigQR.run_flip_exact EigQR.third_test_violated EigQR.third_test_case EigQR.eps_accuracy_violated","Exact arithmetic. Complete for N up to DC_LIMIT with eps replaced by its square root for the elements dropped by the third test of HermTridiagonalChopSmallElements (the claim with eps is false of the code, eps_accuracy_violated); above DC_LIMIT the divide and conquer part (TMV_SymSVDecompose_DC.cpp) is assumed to keep the contract DCOk. That the iterations end is not proved (partial correctness).")
c("C107","proved","Tridiag.tridiagonalize_spec Tridiag.nonLap_done Tridiag.makeU_eq","Exact arithmetic, without LAPACK; the only error term is that of vectors taken as zero because they underflow (at most 2 N sqrt(N) tiny).")
c("C108","partial","SymSV.eigen_spec_partial SymSV.eigenS_spec_partial SymSV.eigen_exact SymSV.EnvOk.small SymSV.eigen_flip","Exact arithmetic. The divide and conquer part used above DC_LIMIT rows is assumed to keep the contract DCOk (nothing is assumed up to DC_LIMIT, SymSV.EnvOk.small); elements dropped by the third test of HermTridiagonalChopSmallElements count with sqrt(eps) instead of eps (the code's own defect, C106); that the iterations end is not proved (partial correctness). Eigen(A,S) is modelled for a contiguous S (sorting a strided one is wrong, C09).")
c("C109","partial","SymSV.svHerm_spec_partial SymSV.svHermU_spec_partial SymSV.svHermV_spec_partial SymSV.svHermS_spec_partial","Exact arithmetic. The divide and conquer part used above DC_LIMIT rows is assumed to keep the contract DCOk (nothing is assumed up to DC_LIMIT, SymSV.EnvOk.small); elements dropped by the third test of HermTridiagonalChopSmallElements count with sqrt(eps) instead of eps (the code's own defect, C106); that the iterations end is not proved (partial correctness). Complex symmetric matrices (SymSV_Decompose) are not modelled.")
c("C110","partial","SymSV.squareRoot_spec_partial SymSV.squareRoot_flip","Exact arithmetic. The divide and conquer part used above DC_LIMIT rows is assumed to keep the contract DCOk (nothing is assumed up to DC_LIMIT, SymSV.EnvOk.small); elements dropped by the third test of HermTridiagonalChopSmallElements count with sqrt(eps) instead of eps (the code's own defect, C106); that the iterations end is not proved (partial correctness). The product is the exact one (SymMultMM is C73's).")
c("C111","partial","SymSV.polar_spec_partial SymSV.polar_runs","Exact arithmetic; as in C105 the divide and conquer part is assumed to keep its contract above DC_LIMIT columns and termination is not proved. The products are the exact ones.")
c("C112","proved","SmallDiv.det_spec SmallDiv.doLUD_spec","Exact arithmetic. Integer element types go through SMDet<20>, the same fraction-free algorithm as C26. The result array must not be the array of the matrix (documented).")
c("C113","proved","SmallDiv.inverse_square SmallDiv.inverse_tall SmallDiv.inverse_wide","Exact arithmetic. Integer element types go through SMDet<20>, the same fraction-free algorithm as C26. The result array must not be the array of the matrix (documented). What a half finished result array holds after Singular is thrown is not modelled.")
c("C114","proved","SmallDiv.lDivEq_spec SmallDiv.rDivEq_spec SmallDiv.lDiv_square SmallDiv.rDiv_square SmallDiv.lDiv_tall SmallDiv.rDiv_tall SmallDiv.lDiv_wide SmallDiv.rDiv_wide SmallDiv.divV_square SmallDiv.divEqV_spec SmallDiv.divV_rect","Exact arithmetic. Integer element types go through SMDet<20>, the same fraction-free algorithm as C26. The result array must not be the array of the matrix (documented).")
c("C115","partial","SmallDiv.inverseATA_tall_partial SmallDiv.inverseATA_wide_violated SmallDiv.inverseATA_row_violated","Proved for M >= N.  For M < N the code is wrong: it computes an M x M matrix and stores it, with the leading dimension M, into the N x N result; the elements from M*M on are never written.")
c("C116","partial","SmallProd.multXV_spec SmallProd.addVV1_spec SmallProd.addVVm1_spec SmallProd.addVV_spec SmallProd.addVV_1_1_spec SmallProd.addVV_1_m1_spec SmallProd.addVV_1_x_spec SmallProd.addVV_x_1_spec SmallProd.addVV_x_m1_spec SmallProd.addVV_x_x_spec SmallProd.addMM1_spec SmallProd.addMMm1_spec SmallProd.addMM_spec SmallProd.elemMultVV_spec SmallProd.addElemMultVV_spec SmallProd.elemMultMM_spec SmallProd.addElemMultMM_spec SmallSum.assign_1_1_spec SmallSum.assign_1_m1_spec SmallSum.assign_1_x_spec SmallSum.assign_x_1_spec SmallSum.assign_x_x_spec SmallSum.assign_x_m1_partial SmallSum.assign_x_m1_violated SmallSum.assign_mM_spec SmallSum.assign_mM_real_spec SmallSum.assign_Mm_partial SmallSum.assign_Mm_violated","Exact arithmetic. The arrays of the operands are not those of the result, except where stated (documented). Proved for every form but two, where the code is wrong: view = x*m1 - m2 with a strided view or one that starts at an operand gives x*m1 + m2; a strided matrix plus a row-major SmallMatrix reads the wrong elements.")
c("C117","proved","SmallProd.multMM1_spec SmallProd.multMM_spec SmallProd.addMultMM1_spec SmallProd.addMultMMm1_spec SmallProd.addMultMM_spec SmallProd.subXMM_spec SmallProd.mulEqMM_spec SmallProd.mulEqXMM_spec SmallProd.assignMMview_spec","Exact arithmetic. The arrays of the operands are not those of the result, except where stated (documented).")
c("C118","partial","SmallProd.multMV1_spec SmallProd.multMV_spec SmallProd.addMultMV1_spec SmallProd.addMultMVm1_spec SmallProd.addMultMV_spec SmallProd.multVM1_spec SmallProd.multVM_spec SmallProd.addMultVM1_spec SmallProd.addMultVMm1_spec SmallProd.addMultVM_spec SmallProd.mulEqVM_spec SmallProd.mulEqXVM_spec SmallProd.multVV_spec SmallProd.assignMVview_spec SmallProd.addMVview_spec SmallProd.mulEqViewVM_partial SmallProd.mulEqViewVM_conj SmallProd.mulEqViewVM_violated","Exact arithmetic. The arrays of the operands are not those of the result, except where stated (documented). Proved except v *= m for a conjugated unit-step complex view and a real SmallMatrix, where the code is wrong.")
c("C119","partial","SmallProd.rank1_1_spec SmallProd.rank1_spec SmallProd.addRank1_1_spec SmallProd.addRank1_m1_spec SmallProd.addRank1_spec SmallProd.assignVVview_partial SmallProd.assignVVview_rowmajor SmallProd.assignVVview_violated","Exact arithmetic. The arrays of the operands are not those of the result, except where stated (documented). Proved except for a contiguous row-major view as target, where the code is wrong: a square view receives the transposed matrix.")
c("C120","partial","tri_mulX_spec tri_assignMulX_spec tri_addMM_spec tri_addUU_partial","Exact arithmetic; the floating-point results are not modelled. Missing: C = x*A + y*B with both diagonals implicit into a conjugated C whose diagonal is contiguous and x+y not real, where setAllTo stores the wrong value (the defect of C69's setAllTo).")
c("C121","partial","tri_addUM_partial tri_addUM_alias_violated tri_addUM_example_violated","Exact arithmetic; the floating-point results are not modelled. Proved except when A is in the storage of C and B is not, where the code is wrong: tri_addUM_alias_violated gives the exact result.")
c("C122","proved","tri_assignMulXToM_spec tri_assignMulXLToM_spec tri_addUL_spec","Exact arithmetic; the floating-point results are not modelled.")
c("C123","partial","band_mulX_spec band_assign_spec_partial band_assignMulX_spec_partial band_addMM_spec_partial band_addMM3_spec_partial","Exact arithmetic; the floating-point results are not modelled. Missing: an operand in the storage of the result whose temporary copy would be a diagonal-major matrix with more rows than columns, no subdiagonal and a superdiagonal: its array is too short (C36, band_storage_violated). Overlaps with different first elements are not detected by the code and excluded.")
c("C124","partial","band_assignToM_spec_partial band_addBM_spec_partial band_addBM_conj_violated band_addBM_example_violated","Exact arithmetic; the floating-point results are not modelled. Proved except for a conjugated C and a factor y that is not real, where the code is wrong (band_addBM_conj_violated, for all such inputs), and for the temporary of C36.")
c("C125","proved","sym_mulX_spec sym_addX_spec sym_assignMulX_spec sym_assignSumX_spec sym_addMM_spec sym_addSS_spec","Exact arithmetic; the floating-point results are not modelled. Overlaps with different first elements are not detected by the code and excluded.")
c("C126","partial","sym_assignMulXToM_partial sym_assignMulXToM_violated sym_assignSumXToM_spec sym_addToM_spec sym_addSSM_partial sym_addSM_partial sym_assign_herm_violated sym_assign_conj_violated","Exact arithmetic; the floating-point results are not modelled. Proved except when an operand is kept in the upper triangle of C and read with conjugation, where the code is wrong (sym_assignMulXToM_violated, for all such inputs; two concrete instances).")
c("C127","partial","Diag.mulDT_partial Diag.mulTD_partial Diag.mulDT_violated Diag.mulDT_violated_ex","Partial because the code is wrong in one case: `C += D.conjugate()*B` with a stepped diagonal and column-major matrices conjugates D on the diagonal of C only (mulDT_violated, inherited from ColAddMultMM). Memory shared in any other way than by equal start addresses is not modelled.")
c("C128","proved","TriUU.mulUU_spec TriUU.mulUU_frame TriUU.mulLL_spec TriUU.mulLL_frame","Exact arithmetic, one element type. The row, column and block products the code delegates (row*triangle, triangle*column, Rank1Update, triangle*block) are taken as the mathematical ones; they are the subject of other properties. Operands that overlap C's array at an offset are not modelled.")
c("C129","proved","TriUL.mulT_spec","Exact arithmetic, one element type. The row, column and block products that the code delegates are taken as the mathematical ones (the case of both factors in place is also proved down to these functions, C51). Operands that overlap C's array at an offset are not modelled.")
c("C130","proved","TriDivT.ldivEq_spec TriDivT.ldivEq_isSome TriDivT.ldivEq_raises TriDivT.ldivEq_singular TriDivT.zero_diag_depends_on_layout_violated","Exact arithmetic, one element type, A apart from B. The solves with vectors and full matrices that the code delegates are the modelled ones of C30; products of rows and blocks are the mathematical ones. What B holds after an exception is not modelled. Finding: a zero on A's diagonal is not always reported: for A = B = 0 of size 1 a row-major B raises and a column-major one does not (zero_diag_depends_on_layout_violated).")
c("C131","partial","SymBandSum.assignX_spec SymBandSum.addTo_spec SymBandSum.add2_spec SymBandSum.add2M_spec SymBandSum.addB_spec SymBandSum.addM_spec SymBandSum.assign_conj_violated SymBandSum.add2_width_violated SymBandSum.addM_transpose_violated","Proved for every case but three in which the code is wrong, each with a theorem: (1) C = alpha*A where A is kept in the upper triangle of C's array and is conjugated with respect to C: the part below the diagonal is not conjugated (assign_conj_violated); (2) C = alpha*A + beta*B with A and B both in C's array and A wider than B: the temporary has only the width of B (add2_width_violated: it fails for all values); (3) C = alpha*A + beta*B with a full B that is the transpose of C: the corner below the band is computed from the corner above after that was overwritten (addM_transpose_violated). Exact arithmetic, one element type; copies, multiples and sums of general band matrices are taken as the mathematical ones (C123, C124). Operands that overlap C's array at an offset are not modelled.")
c("C132","partial","MixSym.sum_into_matrix MixSym.sum_diag_complex_partial MixSym.sum_diag_complex_violated MixSym.sum_unseen_violated MixSym.sum_diag_sym MixSym.prod_left MixSym.prod_right MixSym.quot_left_partial MixSym.quot_right_partial MixSym.quot_violated MixSym.band_add_sym_partial MixSym.band_add_sym_refused MixSym.band_add_sym_violated","Proved for every case but those in which the code is wrong, each with a theorem: (1) D + S into a complex full C when D is a view of C's diagonal: a copy of D is made but the overwritten D is added (sum_diag_complex_violated); (2) the same when D is kept in C away from its first element, which SameStorage does not notice (sum_unseen_violated); (3) S/D with D a view of C's diagonal: there is no check at all (quot_violated); (4) B += S with S kept above the diagonal of B's own array: the part below is added from changed elements (band_add_sym_violated). Exact arithmetic, one element type; the sums and products called once the operands are known are taken as the mathematical ones.")
c("C133","proved","SymBandMul.multMV_spec SymBandMul.multMM_spec","The code without BLAS, exact arithmetic, one element type; a Hermitian A has a real diagonal. The products of the general band matrices lowerBand() and upperBandOff() are taken as the mathematical ones (C92, C93). A vector y kept inside A, and operands that overlap at an offset, are not modelled. DoMultMM forgets its factor for the upper part (TMV_MultsBM.cpp:66), which is harmless because it is only called with the factor 1: the model keeps it.")
c("C134","partial","SymBandBB.multMM_spec_partial SymBandBB.multMM_triangular_fails SymBandBB.multSS_spec","Proved for all widths except an A that is not diagonal times a band B without lower diagonals whose upper diagonals reach the last corner, where the code is wrong: multMM_triangular_fails shows that an assertion fails for every such call (without assertions a view with more diagonals than columns is made). For two symmetric band matrices there is no exception. Exact arithmetic, one element type, the assertions on; products of general band matrices (C94) are taken as the mathematical ones with their width assertions.")
c("C135","partial","TriDivAlias.lDivL_spec TriDivAlias.lDivU_spec_partial TriDivAlias.lDivU_diag_wrong","Lower triangular: proved. Upper triangular: proved except for a v2 that begins where U does while v1 does not, where the code is wrong (it tests v1 instead of v2); lDivU_diag_wrong shows the wrong value for `U.diag() = v1/U` for every size and all numbers. Row-by-row substitution without the shortcut for zeros and without BLAS; v1 and v2 that overlap at an offset, and a v2 inside the matrix that begins elsewhere (which SameStorage does not notice), are not covered. v1/0 = 0 in the model.")

{
 "claims": [
  {
   "property": "C01",
   "status": "proved",
   "theorems": [
    "TMV.view_chain_inside",
    "TMV.VOp.run_spec",
    "TMV.view_op_reads"
   ],
   "note": ""
  },
  {
   "property": "C02",
   "status": "partial",
   "theorems": [
    "TMV.hasSubVector_iff",
    "TMV.hasSubVector_zero_step_violated",
    "TMV.subVector_empty_zero_step_violated"
   ],
   "note": "exact for istep != 0; for istep == 0 the check itself divides by zero (undefined behaviour) - witness proved"
  },
  {
   "property": "C03",
   "status": "partial",
   "theorems": [
    "TMV.hasSubVectorF_iff_partial",
    "TMV.hasSubVectorF_shift_partial",
    "TMV.hasSubVectorF_single_violated",
    "TMV.subVectorF_elements",
    "TMV.subVector2F_elements"
   ],
   "note": "Fortran check accepts i1==i2 without range check when istep==0 path is taken - witness proved"
  },
  {
   "property": "C04",
   "status": "proved",
   "theorems": [
    "TMV.setRef_spec",
    "TMV.setRef_other",
    "TMV.setRef_ub"
   ],
   "note": ""
  },
  {
   "property": "C05",
   "status": "partial",
   "theorems": [
    "TMV.setAllTo_spec_partial",
    "TMV.setAllTo_conj_violated",
    "TMV.setAllTo_empty_step0_violated"
   ],
   "note": "conjugated views with |step|<=1 get the conjugated value - witness proved"
  },
  {
   "property": "C06",
   "status": "partial",
   "theorems": [
    "TMV.setZero_spec",
    "TMV.addToAll_spec_partial",
    "TMV.addToAll_step0_violated",
    "TMV.conjugateSelf_spec",
    "TMV.clip_spec",
    "TMV.makeBasis_spec"
   ],
   "note": "step-0 conjugated single-element views: addToAll ignores conj - witness proved; everything else proved"
  },
  {
   "property": "C07",
   "status": "proved",
   "theorems": [
    "TMV.reverseSelf_spec",
    "TMV.reverseSelf_twice"
   ],
   "note": ""
  },
  {
   "property": "C08",
   "status": "proved",
   "theorems": [
    "TMV.permute_reversePermute",
    "TMV.permute_spec",
    "TMV.reversePermute_spec",
    "TMV.swap_spec"
   ],
   "note": ""
  },
  {
   "property": "C09",
   "status": "partial",
   "theorems": [
    "TMV.sortNoP_spec_partial",
    "TMV.sortNoP_strided_violated",
    "TMV.sortNoP_reversed_violated"
   ],
   "note": "contiguous views proved; strided/reversed views sort the wrong memory - witnesses proved"
  },
  {
   "property": "C10",
   "status": "proved",
   "theorems": [
    "TMV.sortP_spec",
    "TMV.convertIndexToPermute_spec"
   ],
   "note": "std::sort is a parameter with its standard contract"
  },
  {
   "property": "C11",
   "status": "partial",
   "theorems": [
    "TMV.minAbs_spec",
    "TMV.maxAbs_spec",
    "TMV.minElement_spec_partial",
    "TMV.maxElement_spec_partial",
    "TMV.minmax_empty",
    "TMV.minElement_step0_violated"
   ],
   "note": "step-0 conjugated single element: value read without conj - witness"
  },
  {
   "property": "C12",
   "status": "partial",
   "theorems": [
    "TMV.sumElements_spec_partial",
    "TMV.sumElements_step0_violated",
    "TMV.normSq_spec",
    "TMV.sumAbs_spec"
   ],
   "note": "step-0 conjugated single element - witness"
  },
  {
   "property": "C13",
   "status": "proved",
   "theorems": [
    "TMV.norm2_spec"
   ],
   "note": "exact arithmetic"
  },
  {
   "property": "C14",
   "status": "proved",
   "theorems": [
    "TMV.swapV_spec"
   ],
   "note": ""
  },
  {
   "property": "C15",
   "status": "proved",
   "theorems": [
    "TMV.eqV_iff"
   ],
   "note": ""
  },
  {
   "property": "C50",
   "status": "proved",
   "theorems": [
    "TMV.copy_spec"
   ],
   "note": ""
  },
  {
   "property": "C20",
   "status": "partial",
   "theorems": [
    "TMV.perm_cref_spec_partial",
    "TMV.perm_cref_unique_partial",
    "TMV.perm_cref_violated"
   ],
   "note": "normalised lists (all lists the library makes); unnormalised lists, allowed by the documented constructor, are a witness"
  },
  {
   "property": "C21",
   "status": "proved",
   "theorems": [
    "TMV.perm_inverse_apply",
    "TMV.perm_inverse_cref"
   ],
   "note": ""
  },
  {
   "property": "C22",
   "status": "proved",
   "theorems": [
    "TMV.perm_det_sign",
    "TMV.perm_det_matrix"
   ],
   "note": ""
  },
  {
   "property": "C23",
   "status": "proved",
   "theorems": [
    "TMV.perm_trace_spec",
    "TMV.perm_trace_matrix"
   ],
   "note": ""
  },
  {
   "property": "C24",
   "status": "partial",
   "theorems": [
    "TMV.perm_eq_iff_partial",
    "TMV.perm_eq_violated"
   ],
   "note": "normalised lists; witness for unnormalised ones"
  },
  {
   "property": "C25",
   "status": "partial",
   "theorems": [
    "TMV.PermHeap.history_safe_partial",
    "TMV.PermHeap.step_safe",
    "TMV.PermHeap.init_inv",
    "TMV.PermHeap.alias_modified_violated",
    "TMV.PermHeap.self_assign_violated",
    "TMV.PermHeap.assign_inverse_violated",
    "TMV.PermHeap.read_copy_violated",
    "TMV.PermHeap.copy_outlives_violated"
   ],
   "note": "proved under a borrowing discipline; five witnesses that the documented promise fails without it"
  },
  {
   "property": "C26",
   "status": "proved",
   "theorems": [
    "TMV.Bareiss.integerDet_spec",
    "TMV.Bareiss.integerDet_int",
    "TMV.Bareiss.integerDet_gaussian",
    "TMV.Bareiss.bareiss_eq_det"
   ],
   "note": "intermediates assumed exactly representable (no long double overflow)"
  },
  {
   "property": "C27",
   "status": "partial",
   "theorems": [
    "TMV.LU.decompose_spec",
    "TMV.LU.recursive_spec",
    "TMV.LU.plu_eq",
    "TMV.LU.decompose_example",
    "TMV.LU.lu_wide_violated"
   ],
   "note": "square and tall matrices proved; wide matrices with two rows are decomposed wrongly - witness proved"
  },
  {
   "property": "C28",
   "status": "proved",
   "theorems": [
    "TMV.LU.decompose_spec"
   ],
   "note": "field bound of IsLU; for every absolute value on the field"
  },
  {
   "property": "C29",
   "status": "proved",
   "theorems": [
    "TMV.LU.lDiv_spec",
    "TMV.LU.rDiv_spec",
    "TMV.LU.inverse_spec",
    "TMV.LU.det_spec"
   ],
   "note": "exact arithmetic; not-in-place LUDiv"
  },
  {
   "property": "C30",
   "status": "partial",
   "theorems": [
    "TMV.Tri.upperM_sound",
    "TMV.Tri.lowerM_sound",
    "TMV.Tri.upperM_isSome",
    "TMV.Tri.lowerM_isSome",
    "TMV.Tri.zero_diag_not_raised_violated"
   ],
   "note": "solution and no spurious exception proved; zero diagonal is not always raised (column-major solve skips zero components) - witness"
  },
  {
   "property": "C51",
   "status": "proved",
   "theorems": [
    "TMV.TriProd.multUL_spec",
    "TMV.TriProd.multLU_spec",
    "TMV.TriProd.triInverse_spec"
   ],
   "note": ""
  },
  {
   "property": "C52",
   "status": "proved",
   "theorems": [
    "TMV.TriMul.upperV_spec",
    "TMV.TriMul.lowerV_spec",
    "TMV.TriMul.upperRec_spec",
    "TMV.TriMul.lowerRec_spec"
   ],
   "note": ""
  },
  {
   "property": "C16",
   "status": "partial",
   "theorems": [
    "TMV.MOp.run_spec",
    "TMV.mat_view_chain",
    "TMV.mat_vec_view",
    "TMV.hasSubMatrix_iff",
    "TMV.matHasSubVector_iff",
    "TMV.hasSubMatrix_zero_step_violated",
    "TMV.subMatrix_empty_zero_step_violated",
    "TMV.hasSubMatrixF_single_violated",
    "TMV.matHasSubVector_negative_violated"
   ],
   "note": "every view obtained through accepted arguments stays inside and reads the documented elements; the checks are exact for nonzero steps and sizes > 0; four witnesses where the argument check itself is wrong or undefined"
  },
  {
   "property": "C17",
   "status": "proved",
   "theorems": [
    "TMV.linearView_spec",
    "TMV.canLinearize_geom",
    "TMV.lsok_runAll",
    "TMV.lsok_ofStor",
    "TMV.lsok_ofSteps",
    "TMV.lsok_ofRowVector",
    "TMV.lsok_ofColVector",
    "TMV.each_spec",
    "TMV.eachOwned_spec"
   ],
   "note": ""
  },
  {
   "property": "C18",
   "status": "proved",
   "theorems": [
    "TMV.transposeSelf_spec",
    "TMV.transposeSelf_twice"
   ],
   "note": ""
  },
  {
   "property": "C19",
   "status": "partial",
   "theorems": [
    "TMV.permuteRows_spec",
    "TMV.reversePermuteRows_spec",
    "TMV.permuteRows_reverse",
    "TMV.permuteRowsMacro_even_spec",
    "TMV.permuteRowsMacro_odd_violated"
   ],
   "note": "every block size when the macro is read as intended, and every even TMV_BLOCKSIZE as written; odd -DTMV_BLOCKSIZE gives a wrong result (unparenthesised macro) - witness proved"
  },
  {
   "property": "C53",
   "status": "partial",
   "theorems": [
    "TMV.mat_setZero_spec",
    "TMV.mat_setAllTo_spec_partial",
    "TMV.mat_setAllTo_conj_violated",
    "TMV.mat_addToAll_spec_partial",
    "TMV.mat_conjugateSelf_spec",
    "TMV.mat_clip_spec",
    "TMV.mat_setToIdentity_spec_partial"
   ],
   "note": "setAllTo/addToAll/setToIdentity exclude conjugated views whose rows or columns the vector routine handles as contiguous or step 0; the setAllTo case is a proved witness"
  },
  {
   "property": "C54",
   "status": "proved",
   "theorems": [
    "TMV.mat_copy_spec",
    "TMV.copyDiff_spec"
   ],
   "note": ""
  },
  {
   "property": "C55",
   "status": "proved",
   "theorems": [
    "TMV.swapM_spec",
    "TMV.eqM_iff"
   ],
   "note": ""
  },
  {
   "property": "C56",
   "status": "partial",
   "theorems": [
    "TMV.mat_sumElements_spec_partial",
    "TMV.mat_sumAbs_spec",
    "TMV.mat_normSq_spec",
    "TMV.mat_norm1_spec",
    "TMV.mat_normInf_spec",
    "TMV.mat_maxAbs_spec"
   ],
   "note": "sumElements excludes conjugated views with a zero step (see sumElements_step0_violated); the rest proved"
  },
  {
   "property": "C44",
   "status": "partial",
   "theorems": [
    "TMV.Div.div_no_ub",
    "TMV.Div.div_default_fresh_partial",
    "TMV.Div.div_unset_fresh",
    "TMV.Div.div_using_spec",
    "TMV.Div.div_saved_stable",
    "TMV.Div.div_not_in_place_unchanged",
    "TMV.Div.div_stale_after_exception_violated",
    "TMV.Div.div_stale_after_access_violated",
    "TMV.Div.norm2_saved_assert_violated"
   ],
   "note": "Every history of calls on one matrix object. 'Never stale by default' is proved for histories without explicit setDiv/lud()/... and without an earlier throwing division; both exclusions are necessary (witnessed). The decompositions are parameters."
  },
  {
   "property": "C49",
   "status": "partial",
   "theorems": [
    "TMV.ref_assign_complex",
    "TMV.ref_assign_real",
    "TMV.ref_assign_ref",
    "TMV.ref_read",
    "TMV.cref_read_partial",
    "TMV.ref_eq_ref",
    "TMV.ref_swap",
    "TMV.ref_swap_plain",
    "TMV.conjref_sqr_violated",
    "TMV.conjref_sqrt_violated"
   ],
   "note": "Exact complex arithmetic. TMV_SQR and TMV_SQRT of a ConjRef are wrong in the code (witnessed); stream operators not modelled."
  },
  {
   "property": "C57",
   "status": "partial",
   "theorems": [
    "TMV.iter_arith_partial",
    "TMV.iter_elements",
    "TMV.iter_plus_assign_violated"
   ],
   "note": "All laws except += and -= of the complex iterators with step 1, which the code gets wrong (witnessed)."
  },
  {
   "property": "C45",
   "status": "partial",
   "theorems": [
    "TMV.ListInit.vec_list_init_partial",
    "TMV.ListInit.rm_list_init",
    "TMV.ListInit.mat_list_init",
    "TMV.ListInit.tri_list_init",
    "TMV.ListInit.listInit_spec",
    "TMV.ListInit.list_init_single_violated",
    "TMV.ListInit.list_init_terminate_violated"
   ],
   "note": "Vectors, full and triangular matrices and any row profile. The too-few error needs at least two values and a C++98/03 build (both witnessed)."
  },
  {
   "property": "C46",
   "status": "partial",
   "theorems": [
    "TMV.Arr.alloc_aligned_fits",
    "TMV.Arr.array_histories",
    "TMV.Arr.array_size",
    "TMV.Arr.end_padding_fits_partial",
    "TMV.Arr.end_padding_overflow_violated"
   ],
   "note": "Default build proved for all histories and addresses; with TMV_END_PADDING only for 16-byte aligned blocks (overflow witnessed otherwise). StackArray not modelled."
  },
  {
   "property": "C42",
   "status": "proved",
   "theorems": [
    "TMV.IO.vector_roundtrip",
    "TMV.IO.vectorView_roundtrip",
    "TMV.IO.matrix_roundtrip",
    "TMV.IO.diag_roundtrip",
    "TMV.IO.perm_roundtrip",
    "TMV.IO.predefined_roundtrip",
    "TMV.IO.intCodec_law"
   ],
   "note": "Round trip for every style whose separators keep numbers apart, for any number format obeying Codec.Law (proved for integers); the three predefined styles are instances. Tri/Band/Sym formats not modelled. read_perm_isinv_violated: compact style with simple size reads an uninitialised inverse flag."
  },
  {
   "property": "C43",
   "status": "partial",
   "theorems": [
    "TMV.IO.read_terminates_partial",
    "TMV.IO.skip_refines",
    "TMV.IO.skip_hang_iff",
    "TMV.IO.readVector_ok_iff",
    "TMV.IO.readVectorView_ok_iff",
    "TMV.IO.readMatrix_ok_iff",
    "TMV.IO.readDiag_ok_iff",
    "TMV.IO.read_hangs_violated",
    "TMV.IO.read_uninitialised_violated",
    "TMV.IO.read_negative_size_violated",
    "TMV.IO.read_perm_range_violated"
   ],
   "note": "Reading ends whenever the last character of the stream is not white space, and succeeds exactly on the right format. The full claim is false: truncated input ending in white space makes skipWhiteSpace loop forever, and at the exact end of file an uninitialised char is tested (witnesses)."
  },
  {
   "property": "C58",
   "status": "partial",
   "theorems": [
    "TMV.SymRK.rank1_spec",
    "TMV.SymRK.rankK_add_spec",
    "TMV.SymRK.rankK_assign_partial",
    "TMV.SymRK.inPlace_spec",
    "TMV.SymRK.aliasWide_add_spec",
    "TMV.SymRK.rank1_zero_violated",
    "TMV.SymRK.rankK_zero_violated",
    "TMV.SymRK.rankK_assign_violated",
    "TMV.SymRK.aliasWide_assign_violated"
   ],
   "note": "Every += form proved for all sizes, storages and block sizes, incl. aliased. The assigning forms are false of the code for alpha==0, no columns, TMV_BLOCKSIZE>=4 with column-major x, and aliased wide x (witnesses)."
  },
  {
   "property": "C31",
   "status": "proved",
   "theorems": [
    "TMV.CH.ch_correct",
    "TMV.CH.ch_raises_iff",
    "TMV.CH.ch_deterministic",
    "TMV.CH.cholesky_unique"
   ],
   "note": "Recursive/non-block algorithms in both storage orders, real and complex elements, every size and block size (ch_correct: A = L L^H with positive diagonal, memory outside the triangle untouched; ch_raises_iff: NonPosDef iff not positive definite). Exact arithmetic; the Lapack path and the unused BlockCH_Decompose are not modelled."
  },
  {
   "property": "C35",
   "status": "partial",
   "theorems": [
    "TMV.givensRotate_spec",
    "TMV.givensRotate_norm",
    "TMV.givensMult_norm",
    "TMV.givens_adjoint",
    "TMV.givensMultV_partial",
    "TMV.givensMultV_conj_violated",
    "TMV.givensMultV_zero_violated",
    "TMV.givensHermMult_spec",
    "TMV.givensSymMult_partial",
    "TMV.givensSymMult_complex_violated",
    "TMV.givensSymMult_complex_violated'",
    "TMV.signR_ok",
    "TMV.signC_ok"
   ],
   "note": "GivensRotate (real and complex, every branch): second element exactly 0, unitary up to the factor 1+n with n<=2*eps which the code's shortcuts allow (n=0 otherwise). Vector form proved when both views have the same conjugation; a mixed pair is computed wrongly (witness), s=0 with c!=1 is a no-op (witness), symMult is wrong for complex s (witnesses)."
  },
  {
   "property": "C48",
   "status": "proved",
   "theorems": [
    "TMV.inverseOfC_spec",
    "TMV.divide_spec"
   ],
   "note": "Exact arithmetic."
  },
  {
   "property": "C33",
   "status": "proved",
   "theorems": [
    "TMV.QR.householder_reflect",
    "TMV.QR.householder_reflect_involution",
    "TMV.QR.householder_unreflect"
   ],
   "note": "Real and complex vectors of every length; every branch incl. rescaling and underflow (a vector below the threshold tiny is treated as zero, as in the code). Exact arithmetic."
  },
  {
   "property": "C34",
   "status": "proved",
   "theorems": [
    "TMV.QR.qr_decompose",
    "TMV.QR.nonBlock_spec"
   ],
   "note": "Blocked, recursive and non-blocked algorithms, every shape M>=N and block size: Q has orthonormal columns, R upper triangular, QR = A+E where column c of E is nonzero only if R(c,c)=0 and is below the underflow threshold. Exact arithmetic, no Lapack."
  },
  {
   "property": "C59",
   "status": "partial",
   "theorems": [
    "TMV.QR.packedQ_lDiv",
    "TMV.QR.packedQ_rDiv",
    "TMV.QR.packedQ_lMult",
    "TMV.QR.packedQ_rMult",
    "TMV.QR.packedQ_scaled_product_violated"
   ],
   "note": "Unscaled products and quotients proved for all shapes and block sizes. With a scalar the claim is false: the composite x*Q*m drops x (witness)."
  },
  {
   "property": "C60",
   "status": "proved",
   "theorems": [
    "TMV.QR.qrDiv_tall",
    "TMV.QR.qrDiv_wide"
   ],
   "note": "Exact arithmetic, non-Lapack, not in place, without column pivoting; a column below the underflow threshold is treated as zero (the explicit E)."
  },
  {
   "property": "C36",
   "status": "partial",
   "theorems": [
    "TMV.band_storage_partial",
    "TMV.band_storage_violated",
    "TMV.band_storage_violated_all",
    "TMV.band_new_live_partial",
    "TMV.bandNumElements_spec"
   ],
   "note": "Every size, bandwidth and storage order except DiagMajor with colsize>rowsize, nlo==0, nhi>0, where the claim is false (elements beyond the allocated array; proved for all such sizes)."
  },
  {
   "property": "C37",
   "status": "partial",
   "theorems": [
    "TMV.band_cref_zero",
    "TMV.band_cref_in",
    "TMV.band_cref_total",
    "TMV.band_write",
    "TMV.band_row3",
    "TMV.band_col3",
    "TMV.band_diag3",
    "TMV.band_diagOff",
    "TMV.BView.Shows.inj",
    "TMV.BView.Shows.live",
    "TMV.BView.Shows.cref",
    "TMV.band_subBand6",
    "TMV.band_subBand4",
    "TMV.band_rowRange_partial",
    "TMV.band_colRange_partial",
    "TMV.band_rowRange_wf_partial",
    "TMV.band_colRange_wf_partial",
    "TMV.band_rowRange_violated",
    "TMV.band_colRange_violated",
    "TMV.band_rowRange_size",
    "TMV.band_rowRange_size_violated",
    "TMV.band_diagRange",
    "TMV.band_upperBand",
    "TMV.band_lowerBand",
    "TMV.band_upperBandOff",
    "TMV.band_lowerBandOff",
    "TMV.band_view_shows",
    "TMV.band_transpose",
    "TMV.band_conjugate",
    "TMV.band_adjoint",
    "TMV.band_ofMat",
    "TMV.band_narrow",
    "TMV.band_subVector",
    "TMV.band_subMatrix6",
    "TMV.band_subBand8_violated",
    "TMV.band_subBand8_one"
   ],
   "note": "False for rowRange/colRange ending above the last subdiagonal (exposes other elements of the parent outside the band), for rows below the band (negative size) and for subBandMatrix with steps (accepted although outside the band); proved for all other views."
  },
  {
   "property": "C61",
   "status": "partial",
   "theorems": [
    "TMV.band_setZero_spec",
    "TMV.band_setAllTo_spec_partial",
    "TMV.band_addToAll_spec_partial",
    "TMV.band_conjugateSelf_spec",
    "TMV.band_clip_spec",
    "TMV.band_transposeSelf_spec",
    "TMV.band_each_spec",
    "TMV.band_owner_each_spec_partial",
    "TMV.band_rowRange_footprint",
    "TMV.lsok_bandStor",
    "TMV.lsok_band_views"
   ],
   "note": "setAllTo(x) on a conjugated view with non-real x excluded (false, see C07-C08), addToAll on conjugated view with diagonal step 0, the layout excluded by C36."
  },
  {
   "property": "C62",
   "status": "partial",
   "theorems": [
    "TMV.band_sumElements_spec_partial",
    "TMV.band_sumAbs_spec",
    "TMV.band_normSq_spec",
    "TMV.band_maxAbs_spec"
   ],
   "note": "Exact arithmetic; sumElements on a conjugated view with diagonal step 0 excluded."
  },
  {
   "property": "C39",
   "status": "proved",
   "theorems": [
    "TMV.tri_cref_zero",
    "TMV.tri_cref_one",
    "TMV.tri_cref_in",
    "TMV.tri_cref_total",
    "TMV.tri_write",
    "TMV.tri_write_unit",
    "TMV.tri_storage",
    "TMV.tri_assignToM_spec",
    "TMV.lower_cref_zero",
    "TMV.lower_cref_one",
    "TMV.lower_write"
   ],
   "note": "Model of element access through UpperTriMatrix / LowerTriMatrix and their views; distinctness and bounds of the stored elements from the owner's constructor."
  },
  {
   "property": "C63",
   "status": "partial",
   "theorems": [
    "TMV.tri_row3",
    "TMV.tri_col3",
    "TMV.tri_diag3",
    "TMV.tri_diagOff",
    "TMV.tri_subVector",
    "TMV.tri_subMatrix6",
    "TMV.tri_subTri2",
    "TMV.tri_subTri3_partial",
    "TMV.tri_subTri_negative_violated",
    "TMV.tri_offDiag",
    "TMV.tri_viewAsUnitDiag",
    "TMV.tri_transpose",
    "TMV.lower_transpose",
    "TMV.tri_conjugate",
    "TMV.tri_adjoint",
    "TMV.tri_ofMat",
    "TMV.tri_ofMat_lower",
    "TMV.lower_row3",
    "TMV.lower_col3",
    "TMV.lower_diag3",
    "TMV.lower_subVector",
    "TMV.lower_subMatrix6",
    "TMV.lower_subTri2",
    "TMV.lower_subTri3_partial",
    "TMV.lower_offDiag",
    "TMV.lower_viewAsUnitDiag",
    "TMV.lower_conjugate",
    "TMV.lower_diagOff",
    "TMV.lower_diagOff_const_violated"
   ],
   "note": "False as stated in two places, both proved: subTriMatrix with a negative step is accepted and shows the unstored half; the const diag(i) of a LowerTriMatrix is too long. Proved everywhere else."
  },
  {
   "property": "C64",
   "status": "partial",
   "theorems": [
    "TMV.tri_each_spec",
    "TMV.tri_setZero_spec",
    "TMV.tri_setAllTo_spec_partial",
    "TMV.tri_addToAll_spec",
    "TMV.tri_conjugateSelf_spec",
    "TMV.tri_clip_spec",
    "TMV.tri_setToIdentity_spec_partial",
    "TMV.tri_owner_each_spec",
    "TMV.tri_assign_spec",
    "TMV.tri_assignToM_spec",
    "TMV.lower_assignToM_spec",
    "TMV.tri_swap_spec",
    "TMV.tri_eq_spec"
   ],
   "note": "setAllTo(x) on a conjugated view with non-real x is the vector defect of C53; the two _partial theorems exclude it."
  },
  {
   "property": "C65",
   "status": "partial",
   "theorems": [
    "TMV.tri_sumElements_spec",
    "TMV.tri_sumAbs_spec",
    "TMV.tri_normSq_spec",
    "TMV.tri_maxAbs_spec_partial",
    "TMV.tri_maxAbs_empty_violated",
    "TMV.tri_norm1_spec",
    "TMV.tri_normInf_spec"
   ],
   "note": "Exact arithmetic. maxAbsElement of an empty unit-diagonal matrix is 1 (proved violation); proved for every other matrix."
  },
  {
   "property": "C38",
   "status": "proved",
   "theorems": [
    "TMV.sym_history",
    "TMV.symOp_spec",
    "TMV.sym_symmetric",
    "TMV.sym_symmetric_diag",
    "TMV.sym_write",
    "TMV.sym_storage",
    "TMV.sym_holds_symOf",
    "TMV.sym_cref_total"
   ],
   "note": "Model of SymMatrix/HermMatrix storage and element access on memory. sym_history: any list of modifying operations within the documented preconditions (real values on a Hermitian diagonal; setAllTo/setToIdentity of a non-real value on a conjugated symmetric view excluded, a separate finding) runs, gives exactly the mathematical result, leaves the matrix symmetric/Hermitian with real diagonal, and changes no memory outside the stored triangle. Arithmetic (rank updates, products) is C30/C31."
  },
  {
   "property": "C66",
   "status": "partial",
   "theorems": [
    "TMV.sym_row3",
    "TMV.sym_col3",
    "TMV.sym_diag",
    "TMV.sym_diagOff",
    "TMV.sym_diag3",
    "TMV.sym_subVector_partial",
    "TMV.sym_subMatrix4",
    "TMV.sym_subMatrix6_partial",
    "TMV.sym_hasSubMatrix_iff",
    "TMV.sym_subSym2",
    "TMV.sym_subSym3_partial",
    "TMV.sym_upperTri",
    "TMV.sym_lowerTri",
    "TMV.sym_transpose",
    "TMV.sym_conjugate",
    "TMV.sym_adjoint",
    "TMV.sym_ofMat",
    "TMV.SView.Shows.cref",
    "TMV.SView.Shows.write",
    "TMV.SView.VecOf.cref",
    "TMV.SView.MatOf.cref",
    "TMV.sym_subVector_violated",
    "TMV.sym_subVectorF_violated",
    "TMV.sym_subMatrix_violated",
    "TMV.sym_subSym_negative_violated"
   ],
   "note": "False of the code as stated: subVector starting on the diagonal and leaving the stored triangle, subMatrix with steps (wrong step compared; negative steps), subSymMatrix with negative step, and the Fortran-style subVector check are accepted and show unstored memory (the _violated theorems). The rest is proved in full."
  },
  {
   "property": "C67",
   "status": "partial",
   "theorems": [
    "TMV.sym_setZero_spec",
    "TMV.sym_setAllTo_spec_partial",
    "TMV.sym_addToAll_spec",
    "TMV.sym_clip_spec",
    "TMV.sym_conjugateSelf_spec",
    "TMV.sym_transposeSelf_spec",
    "TMV.sym_setToIdentity_spec_partial",
    "TMV.sym_set_spec",
    "TMV.sym_swapRowsCols_spec",
    "TMV.sym_permuteRowsCols_spec",
    "TMV.sym_reversePermuteRowsCols_spec",
    "TMV.sym_assign_spec",
    "TMV.sym_assignToM_spec",
    "TMV.sym_swap_spec",
    "TMV.sym_eq_spec",
    "TMV.sym_eq_mixed_violated"
   ],
   "note": "setAllTo/setToIdentity with a non-real value on a conjugated symmetric view, and == between a symmetric and a Hermitian matrix, are wrong in the code (violated theorems); everything else proved."
  },
  {
   "property": "C68",
   "status": "proved",
   "theorems": [
    "TMV.sym_sumElements_spec",
    "TMV.sym_sumAbs_spec",
    "TMV.sym_normSq_spec",
    "TMV.sym_norm1_spec",
    "TMV.sym_maxAbs_spec"
   ],
   "note": "Exact arithmetic; abs/norm functions are parameters invariant under conjugation. maxAbsElement for a nonempty matrix."
  },
  {
   "property": "C41",
   "status": "partial",
   "theorems": [
    "TMV.mat_addMM_spec",
    "TMV.mat_addMM3_spec",
    "TMV.mulMV_spec",
    "TMV.rank1_alias_violated",
    "TMV.mulXV_spec",
    "TMV.addVV_spec",
    "TMV.addVV3_spec_partial",
    "TMV.elemMulVV_spec_partial",
    "TMV.copy_safe_spec",
    "TMV.SafeOrder.of_noClash",
    "TMV.SafeOrder.of_step",
    "TMV.vec_alias_step_violated",
    "TMV.elemProd_alias_violated",
    "TMV.elemProd_reverse_violated"
   ],
   "note": "Exact arithmetic, one element type, no BLAS. True for operands that are disjoint from the destination, equal to it up to conjugation, or start at its first element with a larger step. False for a source with the same first element and a smaller step (proved: vec_alias_step_violated, elemProd_alias_violated), although the library's SameStorage test holds; ElemProd also misses the alias when it reverses the vectors first (elemProd_reverse_violated)."
  },
  {
   "property": "C69",
   "status": "partial",
   "theorems": [
    "TMV.mulX_spec",
    "TMV.mulXV_spec",
    "TMV.addVV_spec",
    "TMV.addVV3_spec_partial",
    "TMV.mulVV_spec",
    "TMV.elemMulVV_spec_partial",
    "TMV.elemProd_zero_violated"
   ],
   "note": "Exact arithmetic, one element type, no BLAS; unrolled and strided loops and the recursion of v*w modelled. Partial because z = 0*ElemProd(x,y) leaves z unchanged (proved: elemProd_zero_violated)."
  },
  {
   "property": "C70",
   "status": "partial",
   "theorems": [
    "TMV.mat_mulX_spec",
    "TMV.mat_assignMulX_spec",
    "TMV.mat_addMM_spec",
    "TMV.mat_addMM3_spec",
    "TMV.mat_elemMul_spec_partial"
   ],
   "note": "Exact arithmetic, one element type, no BLAS. Scaling and addition are complete, aliased operands included; ElemProd inherits the defects of the vector form (x = 0, reversed aliases), which its theorem excludes."
  },
  {
   "property": "C71",
   "status": "proved",
   "theorems": [
    "TMV.mulMV_spec",
    "TMV.rowMulMV_spec",
    "TMV.colMulMV_spec",
    "TMV.unitMulMV_spec"
   ],
   "note": "Exact arithmetic, one element type, no BLAS. Includes x and y the same vector and y the first row or column of A."
  },
  {
   "property": "C72",
   "status": "partial",
   "theorems": [
    "TMV.rank1_spec_partial",
    "TMV.colRank1_spec",
    "TMV.unitRank1_spec",
    "TMV.rank1_alias_violated"
   ],
   "note": "Exact arithmetic, one element type, no BLAS. Holds for vectors that share no element with A; vectors that start at the first element of A give a wrong result (rank1_alias_violated): Rank1Update makes no SameStorage test."
  },
  {
   "property": "C40",
   "status": "proved",
   "theorems": [
    "TMV.mulMM_spec",
    "TMV.nonBlasMulMM_spec",
    "TMV.blockMM_spec",
    "TMV.run_spec",
    "TMV.blockPart_spec",
    "TMV.kernMNK_acc",
    "TMV.cccMulMM_spec",
    "TMV.crcMulMM_spec",
    "TMV.rccMulMM_spec"
   ],
   "note": "Exact arithmetic, no BLAS, generic (non-SSE) kernels as loops over k. Real, complex and mixed element types; A and B may each share the first element with C. Allocation failure inside the blocked algorithm and OpenMP are separate properties."
  },
  {
   "property": "C47",
   "status": "proved",
   "theorems": [
    "TMV.omp_spec",
    "TMV.omp_ends",
    "TMV.step_terminates",
    "TMV.ompRange_partition"
   ],
   "note": "Exact arithmetic, sequentially consistent memory (justified by the proved absence of races), allocations succeed, generic (non-SSE) kernels. A and B share no element with C, as MultMM ensures before the call."
  },
  {
   "property": "C73",
   "status": "partial",
   "theorems": [
    "TMV.SymRK.symMul_spec_partial",
    "TMV.SymRK.symMulRec_spec",
    "TMV.SymRK.symMul_zero_violated",
    "TMV.SymRK.symMulAlias_partial",
    "TMV.SymRK.symMulAlias_wide_violated",
    "TMV.SymRK.symMulAlias_tall_violated"
   ],
   "note": "Exact arithmetic; element type of all operands the same. Proved for operands in other memory and for operands stored in the memory of A (the whole, transposed, conjugated). The code is wrong in three places (violated theorems): assigning with alpha = 0 does nothing; in place with more columns of x than rows of A only the last columns count; in place with fewer columns, x and y stored in the other order than A, reads beyond x and y. No columns with shared storage: the recursion does not end (excluded)."
  },
  {
   "property": "C32",
   "status": "proved",
   "theorems": [
    "TMV.LDL.decompose_spec",
    "TMV.LDL.decompose_det",
    "TMV.LDL.nonBlock_spec",
    "TMV.LDL.block_spec",
    "TMV.LDL.panel_spec",
    "TMV.LDL.choose_spec",
    "TMV.LDL.invert2_spec"
   ],
   "note": "Exact arithmetic (TMV_Underflow is = 0), no LAPACK, matrix stored in its lower triangle and not conjugated (the other cases are brought to this one by transposing the view at the start of LDL_Decompose)."
  },
  {
   "property": "C74",
   "status": "proved",
   "theorems": [
    "TMV.LDL.lDiv_spec",
    "TMV.LDL.rDiv_spec",
    "TMV.LDL.det_spec",
    "TMV.LDL.lDivEq_spec",
    "TMV.LDL.rDivEq_spec",
    "TMV.LDL.pseudoLDiv_spec"
   ],
   "note": "Exact arithmetic, one element type, no LAPACK in the decomposition. Dividing by a singular matrix divides by zero without an exception; nothing is claimed there."
  },
  {
   "property": "C75",
   "status": "partial",
   "theorems": [
    "TMV.LDL.isSingular_spec_partial",
    "TMV.LDL.isSingular_violated"
   ],
   "note": "True for singular matrices; but the test looks at the diagonal of D only, so it is also true for regular matrices with a 2x2 block with a zero on its diagonal, e.g. [[0,1],[1,0]] (isSingular_violated)."
  },
  {
   "property": "C76",
   "status": "proved",
   "theorems": [
    "TMV.LDL.inverse_spec",
    "TMV.LDL.makeInverse_spec",
    "TMV.LDL.combine_spec",
    "TMV.LDL.addXtDX_spec",
    "TMV.LDL.invertDiag_aux",
    "TMV.LDL.pseudo_inv",
    "TMV.LDL.pseudoLMult_spec"
   ],
   "note": "Exact arithmetic, one element type, decomposition without LAPACK, V stored in its lower triangle and not conjugated (the code brings the other cases to this one). For singular A the code divides by zero without an exception; nothing is claimed there."
  },
  {
   "property": "C77",
   "status": "proved",
   "theorems": [
    "TMV.CH.lDiv_spec",
    "TMV.CH.rDiv_spec",
    "TMV.CH.det_spec",
    "TMV.CH.inverse_spec",
    "TMV.CH.makeInverse_spec",
    "TMV.CH.make_spec",
    "TMV.CH.setUUt_spec",
    "TMV.CH.setLLt_spec"
   ],
   "note": "Exact arithmetic, one element type, no LAPACK; V stored in its lower triangle, row or column major and not conjugated (the code brings other cases to this one)."
  },
  {
   "property": "C78",
   "status": "partial",
   "theorems": [
    "TMV.InPlace.luMake_partial",
    "TMV.InPlace.qrMake_partial",
    "TMV.InPlace.chMake_partial",
    "TMV.InPlace.ldlMake_partial",
    "TMV.InPlace.inPlace_ignores",
    "TMV.InPlace.luInPlace_violated"
   ],
   "note": "True for row- and column-major matrices and views. For a view that is neither, the constructors do not copy the matrix into the new storage, so uninitialised memory is decomposed (inPlace_ignores, luInPlace_violated)."
  },
  {
   "property": "C79",
   "status": "partial",
   "theorems": [
    "TMV.TriMul.mulV_upper",
    "TMV.TriMul.mulV_lower",
    "TMV.TriMul.mulM_upper",
    "TMV.TriMul.mulM_lower",
    "TMV.TriMul.mulV_alias_violated"
   ],
   "note": "Proved for matrices with all detected aliases and for vectors that are not stored in the triangle. m.col(0) = m.upperTri()*x is wrong: MultMV has no check for y sharing storage with the triangle (mulV_alias_violated). Exact arithmetic, one element type, no BLAS."
  },
  {
   "property": "C80",
   "status": "partial",
   "theorems": [
    "TMV.CH.rankKLower_partial",
    "TMV.CH.rankKUpper_partial",
    "TMV.CH.rankKLower_zero_violated",
    "TMV.CH.rankKLower_conj_violated",
    "TMV.CH.rkLower_spec",
    "TMV.CH.rkUpper_spec"
   ],
   "note": "Proved except for A = 0*L*L^dagger, which leaves A unchanged, and for adding a conjugated triangle view to a symmetric complex A, where the code squares the unconjugated diagonal element. Triangle not stored in A."
  },
  {
   "property": "C81",
   "status": "proved",
   "theorems": [
    "TMV.SymMul.mulV_spec",
    "TMV.SymMul.mulM_spec",
    "TMV.SymMul.mulSS_spec"
   ],
   "note": "unit0_spec, unitMul_spec, rrow_spec, crow_spec, colM_spec, recM_spec for the parts. Rounding and BLAS are outside the model. Not covered: y a vector in the storage of S (MultMV does not test that)."
  },
  {
   "property": "C82",
   "status": "partial",
   "theorems": [
    "TMV.blockMMFail_partial",
    "TMV.fallback_spec",
    "TMV.blockMMFail_spec",
    "TMV.blockMMFail_violated"
   ],
   "note": "Proved for C = alpha*A*B, for real matrices, and for a failure of the first allocation. False for complex C += alpha*A*B when a later allocation fails (blockMMFail_violated: the handler adds the whole product to partial results). blockMMFail_spec says what is in C in every case. One temporary per slice instead of a shared one; the handler's own allocations succeed."
  },
  {
   "property": "C83",
   "status": "partial",
   "theorems": [
    "TMV.Diag.mulM_partial",
    "TMV.Diag.mulM_violated",
    "TMV.Diag.mulM_violated_ex",
    "TMV.Diag.divM_spec",
    "TMV.Diag.divV_solves",
    "TMV.Diag.invertSelf_inv",
    "TMV.Diag.makeInverse_inv",
    "TMV.Diag.makeInverseATA_inv",
    "TMV.Diag.makeInverseATA_violated",
    "TMV.Diag.det_spec"
   ],
   "note": "All of it except two cases where the code is wrong: C += D.conjugate()*B with a stepped diagonal and column-major matrices adds D*B (mulM_violated), and makeInverseATA into the matrix whose diagonal is inverted always throws (makeInverseATA_violated). Exact arithmetic."
  },
  {
   "property": "C84",
   "status": "proved",
   "theorems": [
    "TMV.QR.qrUpdate_spec",
    "TMV.QR.qrUpdate_gram",
    "TMV.QR.qrUpdate_frame"
   ],
   "note": "Exact arithmetic; NonBlockQRUpdate is only compiled in the debugging build and is not modelled."
  },
  {
   "property": "C85",
   "status": "proved",
   "theorems": [
    "TMV.QR.qrDowndate_gram",
    "TMV.QR.qrDowndate_ok",
    "TMV.QR.qrDowndate_fails",
    "TMV.QR.qrDowndate_frame",
    "TMV.QR.qrDowndate_violated"
   ],
   "note": "Exact arithmetic. In the boundary case, positive semidefinite and singular, the code may throw or divide by zero although a downdated triangle exists (qrDowndate_violated)."
  },
  {
   "property": "C86",
   "status": "proved",
   "theorems": [
    "TMV.QR.qrp_packed",
    "TMV.QR.qrp_unpacked",
    "TMV.QR.qrp_ends",
    "TMV.QR.qrp_loose_hangs"
   ],
   "note": "Exact arithmetic (the running column norms are then exact). Ends when 4*sqrt(eps)<=1 and, for the loose block algorithm, N*sqrt(eps)<=1; beyond that the loose algorithm never ends (qrp_loose_hangs)."
  },
  {
   "property": "C87",
   "status": "proved",
   "theorems": [
    "TMV.QR.qrpDiv_tall",
    "TMV.QR.qrpDiv_wide",
    "TMV.QR.qrpDiv_graded",
    "TMV.QR.qrp_graded",
    "TMV.QR.lastNZ_graded",
    "TMV.QR.qrpDiv_loose_defect",
    "TMV.QR.qrpDiv_inplace_defect"
   ],
   "note": "Exact arithmetic. Proved for strict pivoting, and for loose pivoting without blocks (min(M,N) <= QRP_BLOCKSIZE); false for the loose block algorithm (qrpDiv_loose_defect, a counterexample for every block size from 3) and for divideInPlace on a view that is neither row- nor column-major (qrpDiv_inplace_defect). The zero matrix (NaN norms in the code) is excluded."
  },
  {
   "property": "C88",
   "status": "proved",
   "theorems": [
    "TMV.BandTri.triM_spec",
    "TMV.BandTri.upperV_sound",
    "TMV.BandTri.lowerV_sound"
   ],
   "note": "Exact arithmetic, code without BLAS/LAPACK. The statement is about the matrix that is zero outside the band, so it also says that memory outside the band has no influence."
  },
  {
   "property": "C89",
   "status": "proved",
   "theorems": [
    "TMV.BandLU.plu_spec",
    "TMV.BandLU.lDiv_spec",
    "TMV.BandLU.rDiv_spec",
    "TMV.BandLU.inverse_spec",
    "TMV.BandLU.det_spec",
    "TMV.BandLU.decompose_plu",
    "TMV.BandLU.dec_example"
   ],
   "note": "Exact arithmetic, code without LAPACK. divideInPlace as documented (column-major with room for nlo+nhi superdiagonals) is the case of arbitrary memory outside the band."
  },
  {
   "property": "C90",
   "status": "partial",
   "theorems": [
    "TMV.LUATA.lu_spec",
    "TMV.LUATA.band_partial",
    "TMV.LUATA.band_violated",
    "TMV.LUATA.lu_example"
   ],
   "note": "Proved for dense matrices without restriction. For band matrices it is true when the decomposition is of the transpose or no rows were interchanged (band_partial) and false otherwise: band_violated."
  },
  {
   "property": "C91",
   "status": "partial",
   "theorems": [
    "TMV.Rank2.rank2_partial",
    "TMV.Rank2.rank2K_partial",
    "TMV.Rank2.rank2_violated",
    "TMV.Rank2.rank2_zero_violated",
    "TMV.Rank2.rank2K_violated",
    "TMV.Rank2.rank2K_assign_violated"
   ],
   "note": "True for every symmetric matrix and every real alpha; for Hermitian matrices with complex alpha only if the layouts of x and y make the code scale x (rank2_violated otherwise); alpha = 0 without add does nothing; Rank2KUpdate is right for row-major operands and wrong for others (rank2K_violated, rank2K_assign_violated). Operands sharing storage with A are not modelled."
  },
  {
   "property": "C92",
   "status": "partial",
   "theorems": [
    "TMV.BandMV.multMV_partial",
    "TMV.BandMV.multMV_example",
    "TMV.BandMV.multMV_alias_violated"
   ],
   "note": "Proved for every layout; if A itself shares memory with y it is proved except where A is square, triangular and the product is assigned to a contiguous y, where the code is wrong (multMV_alias_violated)."
  },
  {
   "property": "C93",
   "status": "partial",
   "theorems": [
    "TMV.BandMM.multMM_partial",
    "TMV.BandMM.multMM_example",
    "TMV.BandMM.multMM_shift_violated"
   ],
   "note": "Proved in full unless B and C share memory with the same steps but different positions, where the blocked code overwrites columns of B it still has to read (multMM_shift_violated)."
  },
  {
   "property": "C94",
   "status": "partial",
   "theorems": [
    "TMV.BandBB.multBB_partial",
    "TMV.BandBB.multBB_outside",
    "TMV.BandBB.multBB_example",
    "TMV.BandBB.multBB_violated"
   ],
   "note": "Proved for all shapes except B with subdiagonals and more than B.rowsize()+B.nlo() rows, where the code is wrong (multBB_violated). The row range with no columns that MultMM may create (C.rowRange) is the subject of the band view properties."
  },
  {
   "property": "C95",
   "status": "proved",
   "theorems": [
    "TMV.BandQR.band_qr_decompose",
    "TMV.BandQR.band_qr_decompose_R"
   ],
   "note": ""
  },
  {
   "property": "C96",
   "status": "partial",
   "theorems": [
    "TMV.BandQR.bandQRDiv_tall",
    "TMV.BandQR.bandQRDiv_wide",
    "TMV.BandQR.bandQRDiv_square",
    "TMV.BandQR.bandQRDiv_getQR",
    "TMV.BandQR.bandQRDiv_inverseATA_partial",
    "TMV.BandQR.inverseATA_complex_violated",
    "TMV.BandQR.inverseATA_trans_violated",
    "TMV.BandQR.inPlace_violated",
    "TMV.BandQR.inPlace_partial"
   ],
   "note": "Everything is proved except two parts where the code is wrong: makeInverseATA for complex matrices and for square matrices decomposed through their transpose (violated theorems), and in-place decomposition of a matrix whose top nlo superdiagonals are not zero (inPlace_violated)."
  },
  {
   "property": "C97",
   "status": "partial",
   "theorems": [
    "TMV.BandCH.band_ch_correct",
    "TMV.BandCH.band_ch_raises_iff",
    "TMV.BandCH.band_ldl_correct",
    "TMV.BandCH.band_ldl_raises_iff",
    "TMV.BandCH.sym_band_ldl_correct_partial",
    "TMV.BandCH.sym_band_ldl_raises_iff_partial",
    "TMV.BandCH.sym_band_ldl_dm_violated"
   ],
   "note": "Proved in full for CH_Decompose and for LDL_Decompose of Hermitian matrices; for symmetric matrices except diagonal-major storage, where the code has no loop and treats one element only (sym_band_ldl_dm_violated)."
  },
  {
   "property": "C98",
   "status": "partial",
   "theorems": [
    "TMV.BandCH.make_raises_iff",
    "TMV.BandCH.make_raises_iff_tri",
    "TMV.BandCH.make_posDef",
    "TMV.BandCH.lDiv_spec",
    "TMV.BandCH.rDiv_spec",
    "TMV.BandCH.herm_inverse_spec",
    "TMV.BandCH.full_inverse_spec",
    "TMV.BandCH.getLD_spec",
    "TMV.BandCH.det_spec_partial",
    "TMV.BandCH.det_violated",
    "TMV.BandCH.inplace_partial",
    "TMV.BandCH.inplace_ignores",
    "TMV.BandCH.inplace_violated"
   ],
   "note": "Everything is proved except two parts where the code is wrong: det of an indefinite tridiagonal matrix loses its sign (det_violated), and decomposing in place a column- or row-major tridiagonal matrix or a diagonal-major wider one leaves the divider with an unassigned matrix (inplace_violated). isSingular and makeInverseATA are not covered."
  },
  {
   "property": "C99",
   "status": "partial",
   "theorems": [
    "TMV.SymSq.symSquare_correct",
    "TMV.SymSq.symSquare_zero_violated",
    "TMV.SymSq.ch_ata_partial",
    "TMV.SymSq.band_ata_partial",
    "TMV.SymSq.ldl_ata_partial",
    "TMV.SymSq.ch_ata_violated",
    "TMV.SymSq.band_ata_violated",
    "TMV.SymSq.ldl_ata_violated",
    "TMV.SymSq.ldl_ata_complex_violated"
   ],
   "note": "SymSquare is right on a fully stored matrix of at least one row. The dividers fill the lower triangle only, so that from three rows on the result depends on what ata held above its diagonal (..._violated): proved for at most two rows or if those elements are right by accident. For complex symmetric matrices the code computes A^-1 A^-1 (ldl_ata_complex_violated). A 0x0 matrix recurses for ever (symSquare_zero_violated)."
  },
  {
   "property": "C100",
   "status": "proved",
   "theorems": [
    "TMV.SVD.lDiv_spec",
    "TMV.SVD.rDiv_spec",
    "TMV.SVD.makeInverse_spec",
    "TMV.SVD.makeInverseATA_spec",
    "TMV.SVD.inverseATA_full",
    "TMV.SVD.lDiv_raises_iff",
    "TMV.SVD.rDiv_raises_iff",
    "TMV.SVD.kept_full",
    "TMV.SVD.thresh_spec",
    "TMV.SVD.top_spec",
    "TMV.SVD.norm2_spec",
    "TMV.SVD.condition_spec"
   ],
   "note": "The decomposition the divider holds is assumed to be one (SV_Decompose is an iteration that stops at a rounding threshold and is not modelled); everything the divider does with it is proved, in exact arithmetic. That P is unique, gives the least-squares solution of least norm and is the inverse of an invertible matrix are lemmas about the specification (IsPinv.unique, IsPinv.least, IsPinv.of_inv)."
  },
  {
   "property": "C101",
   "status": "partial",
   "theorems": [
    "TMV.SVD.hlDiv_spec",
    "TMV.SVD.hrDiv_spec",
    "TMV.SVD.hlDiv_raises_iff",
    "TMV.SVD.hermInverse_spec",
    "TMV.SVD.hmakeInverse_spec",
    "TMV.SVD.hmakeInverseATA_spec",
    "TMV.SVD.hthresh_spec",
    "TMV.SVD.htop_spec",
    "TMV.SVD.hsvd",
    "TMV.SVD.hnorm2_spec",
    "TMV.SVD.hcondition_spec",
    "TMV.SVD.hdet_spec",
    "TMV.SVD.kept_symm",
    "TMV.SVD.thresh_gap",
    "TMV.SVD.symInverse_spec_partial",
    "TMV.SVD.symMakeInverse_spec_partial",
    "TMV.SVD.sym_top_violated",
    "TMV.SVD.sym_top_inverse_violated"
   ],
   "note": "As in C100 the decomposition held is assumed. Hermitian: everything is proved. Symmetric: the inverse is proved if the matrix kept is symmetric, which holds when nothing is discarded and after any thresh (kept_symm, thresh_gap); after top(n) it can fail (sym_top_inverse_violated: makeInverse is not the pseudo-inverse that division uses), and top(n) does not limit n (sym_top_violated)."
  },
  {
   "property": "C102",
   "status": "proved",
   "theorems": [
    "TMV.Bidiag.bidiagonalize_spec"
   ],
   "note": "Exact arithmetic; fro F <= 2 N sqrt(M) tiny bounds the dropped elements."
  },
  {
   "property": "C103",
   "status": "partial",
   "theorems": [
    "TMV.SVQR.fromBidiag_spec_partial",
    "TMV.SVQR.fromBidiag_setUV_partial",
    "TMV.SVQR.fromBidiag_values",
    "TMV.SVQR.fromBidiag_small",
    "TMV.SVQR.DCOk.small",
    "TMV.SVQR.run_lastCol"
   ],
   "note": "Exact arithmetic. Complete for the singular values alone (any N) and for N up to DC_LIMIT; above it the divide and conquer part (TMV_SVDecompose_DC.cpp) is assumed to keep the contract DCOk. That the iterations end is not proved (partial correctness); the small angle approximation inside GivensRotate is left out."
  },
  {
   "property": "C104",
   "status": "partial",
   "theorems": [
    "TMV.SVQR.fromBidiag_behind_partial",
    "TMV.SVQR.behind_E_violated"
   ],
   "note": "False of the code: BidiagonalZeroFirstRow multiplies the number behind the last element of E by the cosine of its last rotation (the test `if (i<N)` always holds). Proved: nothing else behind D and E changes."
  },
  {
   "property": "C105",
   "status": "partial",
   "theorems": [
    "TMV.SVDec.svDecompose_all_partial",
    "TMV.SVDec.svUser_spec_partial",
    "TMV.SVDec.svUserS_spec_partial",
    "TMV.SVDec.svUserS_values",
    "TMV.SVDec.svUser_exact",
    "TMV.SVDec.svDecompose_det",
    "TMV.SVDec.EnvOk.small",
    "TMV.SVDec.svUser_runs"
   ],
   "note": "Complete for up to DC_LIMIT columns and for singular values alone; else the divide and conquer part is assumed (as in C103). Exact arithmetic; that the iterations end is not proved."
  },
  {
   "property": "C106",
   "status": "partial",
   "theorems": [
    "TMV.EigQR.fromTridiag_spec_partial",
    "TMV.EigQR.fromTridiag_small_partial",
    "TMV.EigQR.DCOk.none",
    "TMV.EigQR.run_flip",
    "TMV.EigQR.run_flip_exact",
    "TMV.EigQR.third_test_violated",
    "TMV.EigQR.third_test_case",
    "TMV.EigQR.eps_accuracy_violated"
   ],
   "note": "Exact arithmetic. Complete for N up to DC_LIMIT with eps replaced by its square root for the elements dropped by the third test of HermTridiagonalChopSmallElements (the claim with eps is false of the code, eps_accuracy_violated); above DC_LIMIT the divide and conquer part (TMV_SymSVDecompose_DC.cpp) is assumed to keep the contract DCOk. That the iterations end is not proved (partial correctness)."
  },
  {
   "property": "C107",
   "status": "proved",
   "theorems": [
    "TMV.Tridiag.tridiagonalize_spec",
    "TMV.Tridiag.nonLap_done",
    "TMV.Tridiag.makeU_eq"
   ],
   "note": "Exact arithmetic, without LAPACK; the only error term is that of vectors taken as zero because they underflow (at most 2 N sqrt(N) tiny)."
  },
  {
   "property": "C108",
   "status": "partial",
   "theorems": [
    "TMV.SymSV.eigen_spec_partial",
    "TMV.SymSV.eigenS_spec_partial",
    "TMV.SymSV.eigen_exact",
    "TMV.SymSV.EnvOk.small",
    "TMV.SymSV.eigen_flip"
   ],
   "note": "Exact arithmetic. The divide and conquer part used above DC_LIMIT rows is assumed to keep the contract DCOk (nothing is assumed up to DC_LIMIT, SymSV.EnvOk.small); elements dropped by the third test of HermTridiagonalChopSmallElements count with sqrt(eps) instead of eps (the code's own defect, C106); that the iterations end is not proved (partial correctness). Eigen(A,S) is modelled for a contiguous S (sorting a strided one is wrong, C09)."
  },
  {
   "property": "C109",
   "status": "partial",
   "theorems": [
    "TMV.SymSV.svHerm_spec_partial",
    "TMV.SymSV.svHermU_spec_partial",
    "TMV.SymSV.svHermV_spec_partial",
    "TMV.SymSV.svHermS_spec_partial"
   ],
   "note": "Exact arithmetic. The divide and conquer part used above DC_LIMIT rows is assumed to keep the contract DCOk (nothing is assumed up to DC_LIMIT, SymSV.EnvOk.small); elements dropped by the third test of HermTridiagonalChopSmallElements count with sqrt(eps) instead of eps (the code's own defect, C106); that the iterations end is not proved (partial correctness). Complex symmetric matrices (SymSV_Decompose) are not modelled."
  },
  {
   "property": "C110",
   "status": "partial",
   "theorems": [
    "TMV.SymSV.squareRoot_spec_partial",
    "TMV.SymSV.squareRoot_flip"
   ],
   "note": "Exact arithmetic. The divide and conquer part used above DC_LIMIT rows is assumed to keep the contract DCOk (nothing is assumed up to DC_LIMIT, SymSV.EnvOk.small); elements dropped by the third test of HermTridiagonalChopSmallElements count with sqrt(eps) instead of eps (the code's own defect, C106); that the iterations end is not proved (partial correctness). The product is the exact one (SymMultMM is C73's)."
  },
  {
   "property": "C111",
   "status": "partial",
   "theorems": [
    "TMV.SymSV.polar_spec_partial",
    "TMV.SymSV.polar_runs"
   ],
   "note": "Exact arithmetic; as in C105 the divide and conquer part is assumed to keep its contract above DC_LIMIT columns and termination is not proved. The products are the exact ones."
  },
  {
   "property": "C112",
   "status": "proved",
   "theorems": [
    "TMV.SmallDiv.det_spec",
    "TMV.SmallDiv.doLUD_spec"
   ],
   "note": "Exact arithmetic. Integer element types go through SMDet<20>, the same fraction-free algorithm as C26. The result array must not be the array of the matrix (documented)."
  },
  {
   "property": "C113",
   "status": "proved",
   "theorems": [
    "TMV.SmallDiv.inverse_square",
    "TMV.SmallDiv.inverse_tall",
    "TMV.SmallDiv.inverse_wide"
   ],
   "note": "Exact arithmetic. Integer element types go through SMDet<20>, the same fraction-free algorithm as C26. The result array must not be the array of the matrix (documented). What a half finished result array holds after Singular is thrown is not modelled."
  },
  {
   "property": "C114",
   "status": "proved",
   "theorems": [
    "TMV.SmallDiv.lDivEq_spec",
    "TMV.SmallDiv.rDivEq_spec",
    "TMV.SmallDiv.lDiv_square",
    "TMV.SmallDiv.rDiv_square",
    "TMV.SmallDiv.lDiv_tall",
    "TMV.SmallDiv.rDiv_tall",
    "TMV.SmallDiv.lDiv_wide",
    "TMV.SmallDiv.rDiv_wide",
    "TMV.SmallDiv.divV_square",
    "TMV.SmallDiv.divEqV_spec",
    "TMV.SmallDiv.divV_rect"
   ],
   "note": "Exact arithmetic. Integer element types go through SMDet<20>, the same fraction-free algorithm as C26. The result array must not be the array of the matrix (documented)."
  },
  {
   "property": "C115",
   "status": "partial",
   "theorems": [
    "TMV.SmallDiv.inverseATA_tall_partial",
    "TMV.SmallDiv.inverseATA_wide_violated",
    "TMV.SmallDiv.inverseATA_row_violated"
   ],
   "note": "Proved for M >= N.  For M < N the code is wrong: it computes an M x M matrix and stores it, with the leading dimension M, into the N x N result; the elements from M*M on are never written."
  },
  {
   "property": "C116",
   "status": "partial",
   "theorems": [
    "TMV.SmallProd.multXV_spec",
    "TMV.SmallProd.addVV1_spec",
    "TMV.SmallProd.addVVm1_spec",
    "TMV.SmallProd.addVV_spec",
    "TMV.SmallProd.addVV_1_1_spec",
    "TMV.SmallProd.addVV_1_m1_spec",
    "TMV.SmallProd.addVV_1_x_spec",
    "TMV.SmallProd.addVV_x_1_spec",
    "TMV.SmallProd.addVV_x_m1_spec",
    "TMV.SmallProd.addVV_x_x_spec",
    "TMV.SmallProd.addMM1_spec",
    "TMV.SmallProd.addMMm1_spec",
    "TMV.SmallProd.addMM_spec",
    "TMV.SmallProd.elemMultVV_spec",
    "TMV.SmallProd.addElemMultVV_spec",
    "TMV.SmallProd.elemMultMM_spec",
    "TMV.SmallProd.addElemMultMM_spec",
    "TMV.SmallSum.assign_1_1_spec",
    "TMV.SmallSum.assign_1_m1_spec",
    "TMV.SmallSum.assign_1_x_spec",
    "TMV.SmallSum.assign_x_1_spec",
    "TMV.SmallSum.assign_x_x_spec",
    "TMV.SmallSum.assign_x_m1_partial",
    "TMV.SmallSum.assign_x_m1_violated",
    "TMV.SmallSum.assign_mM_spec",
    "TMV.SmallSum.assign_mM_real_spec",
    "TMV.SmallSum.assign_Mm_partial",
    "TMV.SmallSum.assign_Mm_violated"
   ],
   "note": "Exact arithmetic. The arrays of the operands are not those of the result, except where stated (documented). Proved for every form but two, where the code is wrong: view = x*m1 - m2 with a strided view or one that starts at an operand gives x*m1 + m2; a strided matrix plus a row-major SmallMatrix reads the wrong elements."
  },
  {
   "property": "C117",
   "status": "proved",
   "theorems": [
    "TMV.SmallProd.multMM1_spec",
    "TMV.SmallProd.multMM_spec",
    "TMV.SmallProd.addMultMM1_spec",
    "TMV.SmallProd.addMultMMm1_spec",
    "TMV.SmallProd.addMultMM_spec",
    "TMV.SmallProd.subXMM_spec",
    "TMV.SmallProd.mulEqMM_spec",
    "TMV.SmallProd.mulEqXMM_spec",
    "TMV.SmallProd.assignMMview_spec"
   ],
   "note": "Exact arithmetic. The arrays of the operands are not those of the result, except where stated (documented)."
  },
  {
   "property": "C118",
   "status": "partial",
   "theorems": [
    "TMV.SmallProd.multMV1_spec",
    "TMV.SmallProd.multMV_spec",
    "TMV.SmallProd.addMultMV1_spec",
    "TMV.SmallProd.addMultMVm1_spec",
    "TMV.SmallProd.addMultMV_spec",
    "TMV.SmallProd.multVM1_spec",
    "TMV.SmallProd.multVM_spec",
    "TMV.SmallProd.addMultVM1_spec",
    "TMV.SmallProd.addMultVMm1_spec",
    "TMV.SmallProd.addMultVM_spec",
    "TMV.SmallProd.mulEqVM_spec",
    "TMV.SmallProd.mulEqXVM_spec",
    "TMV.SmallProd.multVV_spec",
    "TMV.SmallProd.assignMVview_spec",
    "TMV.SmallProd.addMVview_spec",
    "TMV.SmallProd.mulEqViewVM_partial",
    "TMV.SmallProd.mulEqViewVM_conj",
    "TMV.SmallProd.mulEqViewVM_violated"
   ],
   "note": "Exact arithmetic. The arrays of the operands are not those of the result, except where stated (documented). Proved except v *= m for a conjugated unit-step complex view and a real SmallMatrix, where the code is wrong."
  },
  {
   "property": "C119",
   "status": "partial",
   "theorems": [
    "TMV.SmallProd.rank1_1_spec",
    "TMV.SmallProd.rank1_spec",
    "TMV.SmallProd.addRank1_1_spec",
    "TMV.SmallProd.addRank1_m1_spec",
    "TMV.SmallProd.addRank1_spec",
    "TMV.SmallProd.assignVVview_partial",
    "TMV.SmallProd.assignVVview_rowmajor",
    "TMV.SmallProd.assignVVview_violated"
   ],
   "note": "Exact arithmetic. The arrays of the operands are not those of the result, except where stated (documented). Proved except for a contiguous row-major view as target, where the code is wrong: a square view receives the transposed matrix."
  },
  {
   "property": "C120",
   "status": "partial",
   "theorems": [
    "TMV.tri_mulX_spec",
    "TMV.tri_assignMulX_spec",
    "TMV.tri_addMM_spec",
    "TMV.tri_addUU_partial"
   ],
   "note": "Exact arithmetic; the floating-point results are not modelled. Missing: C = x*A + y*B with both diagonals implicit into a conjugated C whose diagonal is contiguous and x+y not real, where setAllTo stores the wrong value (the defect of C69's setAllTo)."
  },
  {
   "property": "C121",
   "status": "partial",
   "theorems": [
    "TMV.tri_addUM_partial",
    "TMV.tri_addUM_alias_violated",
    "TMV.tri_addUM_example_violated"
   ],
   "note": "Exact arithmetic; the floating-point results are not modelled. Proved except when A is in the storage of C and B is not, where the code is wrong: tri_addUM_alias_violated gives the exact result."
  },
  {
   "property": "C122",
   "status": "proved",
   "theorems": [
    "TMV.tri_assignMulXToM_spec",
    "TMV.tri_assignMulXLToM_spec",
    "TMV.tri_addUL_spec"
   ],
   "note": "Exact arithmetic; the floating-point results are not modelled."
  },
  {
   "property": "C123",
   "status": "partial",
   "theorems": [
    "TMV.band_mulX_spec",
    "TMV.band_assign_spec_partial",
    "TMV.band_assignMulX_spec_partial",
    "TMV.band_addMM_spec_partial",
    "TMV.band_addMM3_spec_partial"
   ],
   "note": "Exact arithmetic; the floating-point results are not modelled. Missing: an operand in the storage of the result whose temporary copy would be a diagonal-major matrix with more rows than columns, no subdiagonal and a superdiagonal: its array is too short (C36, band_storage_violated). Overlaps with different first elements are not detected by the code and excluded."
  },
  {
   "property": "C124",
   "status": "partial",
   "theorems": [
    "TMV.band_assignToM_spec_partial",
    "TMV.band_addBM_spec_partial",
    "TMV.band_addBM_conj_violated",
    "TMV.band_addBM_example_violated"
   ],
   "note": "Exact arithmetic; the floating-point results are not modelled. Proved except for a conjugated C and a factor y that is not real, where the code is wrong (band_addBM_conj_violated, for all such inputs), and for the temporary of C36."
  },
  {
   "property": "C125",
   "status": "proved",
   "theorems": [
    "TMV.sym_mulX_spec",
    "TMV.sym_addX_spec",
    "TMV.sym_assignMulX_spec",
    "TMV.sym_assignSumX_spec",
    "TMV.sym_addMM_spec",
    "TMV.sym_addSS_spec"
   ],
   "note": "Exact arithmetic; the floating-point results are not modelled. Overlaps with different first elements are not detected by the code and excluded."
  },
  {
   "property": "C126",
   "status": "partial",
   "theorems": [
    "TMV.sym_assignMulXToM_partial",
    "TMV.sym_assignMulXToM_violated",
    "TMV.sym_assignSumXToM_spec",
    "TMV.sym_addToM_spec",
    "TMV.sym_addSSM_partial",
    "TMV.sym_addSM_partial",
    "TMV.sym_assign_herm_violated",
    "TMV.sym_assign_conj_violated"
   ],
   "note": "Exact arithmetic; the floating-point results are not modelled. Proved except when an operand is kept in the upper triangle of C and read with conjugation, where the code is wrong (sym_assignMulXToM_violated, for all such inputs; two concrete instances)."
  },
  {
   "property": "C127",
   "status": "partial",
   "theorems": [
    "TMV.Diag.mulDT_partial",
    "TMV.Diag.mulTD_partial",
    "TMV.Diag.mulDT_violated",
    "TMV.Diag.mulDT_violated_ex"
   ],
   "note": "Partial because the code is wrong in one case: `C += D.conjugate()*B` with a stepped diagonal and column-major matrices conjugates D on the diagonal of C only (mulDT_violated, inherited from ColAddMultMM). Memory shared in any other way than by equal start addresses is not modelled."
  },
  {
   "property": "C128",
   "status": "proved",
   "theorems": [
    "TMV.TriUU.mulUU_spec",
    "TMV.TriUU.mulUU_frame",
    "TMV.TriUU.mulLL_spec",
    "TMV.TriUU.mulLL_frame"
   ],
   "note": "Exact arithmetic, one element type. The row, column and block products the code delegates (row*triangle, triangle*column, Rank1Update, triangle*block) are taken as the mathematical ones; they are the subject of other properties. Operands that overlap C's array at an offset are not modelled."
  },
  {
   "property": "C129",
   "status": "proved",
   "theorems": [
    "TMV.TriUL.mulT_spec"
   ],
   "note": "Exact arithmetic, one element type. The row, column and block products that the code delegates are taken as the mathematical ones (the case of both factors in place is also proved down to these functions, C51). Operands that overlap C's array at an offset are not modelled."
  },
  {
   "property": "C130",
   "status": "proved",
   "theorems": [
    "TMV.TriDivT.ldivEq_spec",
    "TMV.TriDivT.ldivEq_isSome",
    "TMV.TriDivT.ldivEq_raises",
    "TMV.TriDivT.ldivEq_singular",
    "TMV.TriDivT.zero_diag_depends_on_layout_violated"
   ],
   "note": "Exact arithmetic, one element type, A apart from B. The solves with vectors and full matrices that the code delegates are the modelled ones of C30; products of rows and blocks are the mathematical ones. What B holds after an exception is not modelled. Finding: a zero on A's diagonal is not always reported: for A = B = 0 of size 1 a row-major B raises and a column-major one does not (zero_diag_depends_on_layout_violated)."
  },
  {
   "property": "C131",
   "status": "partial",
   "theorems": [
    "TMV.SymBandSum.assignX_spec",
    "TMV.SymBandSum.addTo_spec",
    "TMV.SymBandSum.add2_spec",
    "TMV.SymBandSum.add2M_spec",
    "TMV.SymBandSum.addB_spec",
    "TMV.SymBandSum.addM_spec",
    "TMV.SymBandSum.assign_conj_violated",
    "TMV.SymBandSum.add2_width_violated",
    "TMV.SymBandSum.addM_transpose_violated"
   ],
   "note": "Proved for every case but three in which the code is wrong, each with a theorem: (1) C = alpha*A where A is kept in the upper triangle of C's array and is conjugated with respect to C: the part below the diagonal is not conjugated (assign_conj_violated); (2) C = alpha*A + beta*B with A and B both in C's array and A wider than B: the temporary has only the width of B (add2_width_violated: it fails for all values); (3) C = alpha*A + beta*B with a full B that is the transpose of C: the corner below the band is computed from the corner above after that was overwritten (addM_transpose_violated). Exact arithmetic, one element type; copies, multiples and sums of general band matrices are taken as the mathematical ones (C123, C124). Operands that overlap C's array at an offset are not modelled."
  },
  {
   "property": "C132",
   "status": "partial",
   "theorems": [
    "TMV.MixSym.sum_into_matrix",
    "TMV.MixSym.sum_diag_complex_partial",
    "TMV.MixSym.sum_diag_complex_violated",
    "TMV.MixSym.sum_unseen_violated",
    "TMV.MixSym.sum_diag_sym",
    "TMV.MixSym.prod_left",
    "TMV.MixSym.prod_right",
    "TMV.MixSym.quot_left_partial",
    "TMV.MixSym.quot_right_partial",
    "TMV.MixSym.quot_violated",
    "TMV.MixSym.band_add_sym_partial",
    "TMV.MixSym.band_add_sym_refused",
    "TMV.MixSym.band_add_sym_violated"
   ],
   "note": "Proved for every case but those in which the code is wrong, each with a theorem: (1) D + S into a complex full C when D is a view of C's diagonal: a copy of D is made but the overwritten D is added (sum_diag_complex_violated); (2) the same when D is kept in C away from its first element, which SameStorage does not notice (sum_unseen_violated); (3) S/D with D a view of C's diagonal: there is no check at all (quot_violated); (4) B += S with S kept above the diagonal of B's own array: the part below is added from changed elements (band_add_sym_violated). Exact arithmetic, one element type; the sums and products called once the operands are known are taken as the mathematical ones."
  },
  {
   "property": "C133",
   "status": "proved",
   "theorems": [
    "TMV.SymBandMul.multMV_spec",
    "TMV.SymBandMul.multMM_spec"
   ],
   "note": "The code without BLAS, exact arithmetic, one element type; a Hermitian A has a real diagonal. The products of the general band matrices lowerBand() and upperBandOff() are taken as the mathematical ones (C92, C93). A vector y kept inside A, and operands that overlap at an offset, are not modelled. DoMultMM forgets its factor for the upper part (TMV_MultsBM.cpp:66), which is harmless because it is only called with the factor 1: the model keeps it."
  },
  {
   "property": "C134",
   "status": "partial",
   "theorems": [
    "TMV.SymBandBB.multMM_spec_partial",
    "TMV.SymBandBB.multMM_triangular_fails",
    "TMV.SymBandBB.multSS_spec"
   ],
   "note": "Proved for all widths except an A that is not diagonal times a band B without lower diagonals whose upper diagonals reach the last corner, where the code is wrong: multMM_triangular_fails shows that an assertion fails for every such call (without assertions a view with more diagonals than columns is made). For two symmetric band matrices there is no exception. Exact arithmetic, one element type, the assertions on; products of general band matrices (C94) are taken as the mathematical ones with their width assertions."
  },
  {
   "property": "C135",
   "status": "partial",
   "theorems": [
    "TMV.TriDivAlias.lDivL_spec",
    "TMV.TriDivAlias.lDivU_spec_partial",
    "TMV.TriDivAlias.lDivU_diag_wrong"
   ],
   "note": "Lower triangular: proved. Upper triangular: proved except for a v2 that begins where U does while v1 does not, where the code is wrong (it tests v1 instead of v2); lDivU_diag_wrong shows the wrong value for `U.diag() = v1/U` for every size and all numbers. Row-by-row substitution without the shortcut for zeros and without BLAS; v1 and v2 that overlap at an offset, and a v2 inside the matrix that begins elsewhere (which SameStorage does not notice), are not covered. v1/0 = 0 in the model."
  }
 ]
}
## Findings (all proved as `_violated` theorems on the model)

* Vector: `setAllTo` on a conjugated view with |step| ≤ 1 stores the unconjugated value; `sort` without a permutation ignores the
  step; `hasSubVector` with istep 0 divides by zero; the Fortran check accepts i1==i2 out of range; `subVector(3,3,0)`
  divides by zero; step-0 conjugated `addToAll`/`minElement`/`sumElements` ignore the conjugation; `setAllTo` on an
  empty step-0 view writes.
* Vector arithmetic: source and destination with the same first element but a smaller source step are combined
  wrongly although `SameStorage` holds; `z = 0*ElemProd(x,y)` leaves z unchanged; `ElemProd` copies in the wrong
  direction and misses the alias after reversing.
* Outer product: `m = m.col(0) ^ m.row(0)` gives a wrong result: `Rank1Update` makes no alias test.
* Matrix: `hasSubMatrix` istep 0; `hasSubVector` accepts a negative size; `permuteRows` is wrong for odd
  `-DTMV_BLOCKSIZE` (unparenthesised macro); `setAllTo` as above.
* Permutation: unnormalised lists give wrong `cref`/`==`; aliasing of the index array between copies (modification through
  an alias, self-assignment, `p = p.inverse()`, reading into a copy, copy outliving the owner).
* Triangular solve: zero diagonal not raised for column-major storage when the right-hand side component is zero.
* LU of a wide matrix with two rows is wrong.
* Dividers: stale decomposition after an exception and after `lud()`/`setDiv` without `saveDiv`; `norm2` debug assertion with a saved SV.
* ConjRef: `TMV_SQR`/`TMV_SQRT` conjugated wrongly; complex iterator `+=`/`-=` with step 1 moves by one only.
* List initialisation: a single value raises no error; too few values call `std::terminate` in C++11 and later.
* `TMV_END_PADDING` writes past the block when malloc returns an address 8 mod 16.
* Input: truncated input ending in white space hangs, uninitialised character at exact end of file, negative size accepted,
  `Permutation::read` leaves `isinv` uninitialised, permutation values unchecked.
* Rank-k updates of symmetric matrices: `S = 0*(x^x)` and no columns leave S unchanged; `TMV_BLOCKSIZE ≥ 4` with
  column-major x keeps only the last column; aliased wide x.
* Givens: the vector form ignores the conjugation of the first vector when the two differ; s = 0 with c ≠ 1 does nothing; the symmetric form is wrong for complex s.
* PackedQ: `x*Q*m` drops x.
* Band: DiagMajor with more rows than columns and nlo = 0 writes past the array; `rowRange`/`colRange` expose elements outside the band;
  `subBandMatrix` with steps accepted outside the band.
* Tri: `subTriMatrix` with negative step shows the unstored half; const lower `diag(i)` too long; empty unit
  `maxAbsElement` is 1.
* Sym: `subVector` from the diagonal, Fortran `subVector`, `subMatrix` with steps, `subSymMatrix` with negative step show
  unstored memory; `==` between Sym and Herm compares only one triangle.
* LDL: `isSingular()` is true for regular matrices such as [[0,1],[1,0]] (`isSingular_violated`); read from the source but not modelled:
  `SymLDLDiv` of a 0x0 matrix makes a vector of size -1 (TMV_SymLDLD.cpp:73), `LDL_Decompose` of a conjugated symmetric view in place
  leaves the sign of the conjugated determinant (TMV_SymLDLDecompose.cpp:1311).
* `divideInPlace()` of a view that is neither row nor column major: LU, QR, Cholesky and LDL dividers decompose uninitialised memory
  (`luInPlace_violated`); read from the source but not modelled: the same in QRPDiv and SVDiv.
* `m.col(0) = m.upperTri()*x` overwrites the triangle before using it (`mulV_alias_violated`).
* `S += L.conjugate()*L.adjoint()` for complex symmetric `S` squares the unconjugated diagonal (`rankKLower_conj_violated`);
  `S = 0*L*L.transpose()` leaves `S` (`rankKLower_zero_violated`); read from the source but not modelled: `S -= L*L.adjoint()` for Hermitian
  `S` asserts `getM1().isSameAs(getM1().adjoint())` (TMV_SymMatrixArith.h:938-941), so it fails in a debug build.
- `C += A*B` for complex matrices after `std::bad_alloc` in the second to fourth real product adds the whole product to the partial sums (TMV_MultMM_Block.cpp:397-435): `blockMMFail_violated`, C82.
- `C += D.conjugate()*B` with a non-unit-step diagonal and column-major matrices adds `D*B` (TMV_MultDM.cpp:308-325 passes `ca` with an already conjugated copy): `mulM_violated`, C83; `makeInverseATA` of the diagonal of the destination itself zeroes it first and always throws (TMV_DiagMatrix.cpp:273-279): `makeInverseATA_violated`, C83.
- `QR_Downdate` of the 2x2 identity by the row (1 0) divides zero by zero (TMV_QRDowndate.cpp:189) and continues with NaN, although the downdated triangle diag(0,1) exists: `qrDowndate_violated`, C85.
- `QRP_Decompose` (not strict, more than QRP_BLOCKSIZE columns) never returns for any nonzero matrix with N*sqrt(eps)>1, i.e. float matrices with more than 2896 columns: recalcthresh (TMV_QRPDecompose.cpp:542) exceeds the pivot's own norm: `qrp_loose_hangs`, C86.
- `QRPDiv` with loose pivoting of more than QRP_BLOCKSIZE columns: a column swapped into the block is decomposed without checking its norm (TMV_QRPDecompose.cpp:571-623), so R can get a zero diagonal element in the middle; e.g. columns 2e0,e0,...,e0,e1 (33x33) count as rank 1 and A x = e1 gives x = 0: `qrpDiv_loose_defect`, C87. `QRPDiv`/`QRDiv` constructors test the parameter `inplace`, not pimpl->inplace (TMV_QRPD.cpp:82-88, TMV_QRD.cpp:82-93): divideInPlace on a view that is neither row- nor column-major decomposes uninitialised memory: `qrpDiv_inplace_defect`, C87.
- BandLUDiv::doMakeInverseATA, not istrans (TMV_BandLUD.cpp:301-305): LU_PackedPL_LDivEq applied to the identity gives L^-1*P^T, but only its lower triangle, with unit diagonal, is used; with any row interchange the result is wrong. A = ((0,1),(1,0)), column major: result ((1,1),(1,2)) instead of the identity.
- Rank2Update of a Hermitian matrix with complex alpha, contiguous x and strided (or conjugated) y scales y instead of x, so alpha and conj(alpha) are exchanged (TMV_Rank2_VVS.cpp:339-346). RecursiveRank2KUpdate with operands that are not both row major loops over N columns instead of x.rowsize() (TMV_Rank2K_MMS.cpp:126), and with add=false every column overwrites the others. The overloads of both functions for SymMatrix&/HermMatrix& drop the template argument add and cannot compile (TMV_SymMatrixArithFunc.h:117-142).
- MultMV for band matrices checks SameStorage only between x and y (TMV_MultBV.cpp:1674-1676): A.diag() = A*x for a DiagMajor lower band matrix overwrites the diagonal while it is read.
- BlockTempMultMM (TMV_MultBM.cpp:425-452, 496-498) is chosen by equality of the steps, not of the positions: with overlapping shifted column ranges of more than 64 columns the product is wrong.
- MultMM for band matrices with B.colsize() > B.rowsize()+B.nlo() cuts A to BB.rowsize() instead of BB.colsize() columns (TMV_MultBB.cpp:525-530): for B.nlo() > 0 terms of the product are lost.
- BandQRDiv: makeInverseATA computes Rinv*Rinv.transpose() and ignores istrans (TMV_BandQRD.cpp:200-213): wrong for complex matrices and for square matrices decomposed through their transpose; in-place decomposition first zeroes the matrix's own top nlo superdiagonals (TMV_BandQRD.cpp:104-106).
- SymLDL_Decompose of a diagonal-major symmetric tridiagonal matrix lacks the loop over the diagonal (TMV_SymBandCHDecompose.cpp:323-336): only the first step is done.
- HermBandCHDiv: logDet sums log|d_i| with the sign taken as +1, so a tridiagonal matrix with negative determinant gets a positive one ([[1,2],[2,1]] gives +3); in-place decomposition with cm/rm and nlo=1 or dm and nlo>1 leaves LLx a newly allocated, never assigned matrix (TMV_SymBandCHD.cpp:66-69, 84-85).
- makeInverseATA for HermCHDiv, SymLDLDiv and HermBandCHDiv fills only the lower triangle of ata before SymSquare, which reads the whole of its diagonal blocks (TMV_SymSquare.cpp:58-59): wrong from N=3 on; for complex symmetric matrices A^-1 A^-1 instead of A^-1 (A^-1)^H (TMV_SymLDLD.cpp:160-161); infinite recursion for N=0.
- SymSVDiv::top(n) sets kmax=n without limiting it to the size (TMV_SymSVD.cpp:433-437; only an assertion), unlike the other three dividers; after top(n) between equal singular values SymSVDiv's inverse is not the pseudo-inverse used by division; SymSVDiv::thresh of an empty matrix reads S(0).
- `BidiagonalZeroFirstRow` (TMV_SVDecompose_QR.cpp:150-163) reads and writes `E[N-1]`, one behind the end of `E`: the guard `if (i<N)` holds in every pass (`SVQR.behind_E_violated`).
- `HermTridiagonalChopSmallElements` (TMV_SymSVDecompose_QR.cpp:89-92) drops `E(i)` if it is below `sqrt(eps) (|D(i)|+|D(i+1)|)` and `E(i) (D(i+1)-D(i))/(D(i+1)+D(i))` underflows, which it does when the two diagonal elements are equal: the eigenvalues 1 +- sqrt(eps) of [[1, sqrt(eps)], [sqrt(eps), 1]] are given as 1 and 1 (`EigQR.third_test_violated`, `EigQR.eps_accuracy_violated`).
- `PolarDecompose(U,P)` (TMV_SymSVDecompose.cpp:1603) reads `S(0)` of an empty `DiagMatrix` when `U` has no columns; C111 is stated for N > 0.
- makeInverseATA of a SmallMatrix with fewer rows than columns writes an M x M matrix (stride M) into the N x N result and leaves the other elements uninitialised (TMV_SmallMatrixDiv.h:1246-1257)
- view = x*m1 - m2 (SmallMatrixes m1, m2; a view that is not contiguous or starts at the address of an operand) gives x*m1 + m2: AddMM is called with T(1) instead of T(-1) (TMV_SmallMatrixArith.h:1479, 1499). A + m with a strided matrix A and a row-major SmallMatrix m, assigned to a contiguous matrix, reads A as contiguous: the second test of SumMm::assignToM looks at the steps of m (TMV_SmallMatrixArith.h:1793, 1842)
- v *= m for a conjugated complex VectorView of step 1 and a real SmallMatrix leaves the conjugate of v*m: the result is stored without conjugation although the copy of v was taken with it (TMV_SmallMatrixArith.h:3669-3683, 3740-3754)
- m0 = v1 ^ v2 (SmallVectors) into a contiguous row-major view calls the column-major routine, so a square m0 receives v2 ^ v1 (TMV_SmallMatrixArith.h:482-502, 558-578)
- SymMultMM with an operand stored in the memory of A: with more columns than rows the second call assigns instead of adding (TMV_SymMultMMS.cpp:224-226); with fewer columns and both operands stored in the other order than A it uses x.subMatrix(K,N,K,N), outside of x (lines 246-251); with no columns the recursion does not end
- C = C.upperTri() + B (and C = x*C.upperTri() + y*B) adds B to the old elements of C below the diagonal instead of to 0: that branch assigns only C.upperTri() before adding B (TMV_AddUU.cpp:328-329)
- C.conjugate() = A + y*B for a band matrix A computes A + conj(y)*B: AddMM conjugates alpha but not beta (TMV_AddBB.cpp:208)
- C = x*A.transpose() for the Hermitian view A of the upper triangle of C, and C = x*A.conjugate() for the symmetric one, conjugate the elements below the diagonal: ProdXS::assignToM overwrites the upper triangle before it reads the lower one from it (TMV_SymMatrixArith.h:117-119)
- C += D.conjugate()*B (triangular B, C, column major, stepped diagonal, alpha = 1) uses conj(D) on the diagonal of C and D elsewhere (TMV_MultDM.cpp:308-325 via TMV_MultDU.cpp:182).
- C = alpha*A of a conjugated A kept in C's upper triangle, the sum of two operands in C's array of which the first is wider, and C = A + C^T for a full C are wrong (TMV_SymBandMatrixArith.h:109-110, TMV_AddsBsB.cpp:122-131, 286-289).
- C = D + S for complex C with D a view of C's diagonal adds the overwritten D (TMV_DiagSymArith.h:70-73: `m1.diag()` instead of `m1x.diag()`); C = S/D with such a D divides by the overwritten D; B += S with S kept in B's upper band is wrong below the diagonal (TMV_BandSymBandArith.h:103-105).
- none that can be observed (the factor missing in DoMultMM, TMV_MultsBM.cpp:66, is never different from 1).
- `C = A*B` with a symmetric band A (at least one diagonal on each side) and an upper triangular band B with nhi = rowsize-1 fails an assertion: the last branch of DoMultMM (src/TMV_MultsBB.cpp:84-91) passes B.nhi() unreduced to a view with one column less.
- `GenUpperTriMatrix::doLDiv(v1,v2)` (src/TMV_TriDiv.cpp:57) tests SameStorage(*this,v1) where SameStorage(*this,v2) is meant: `U.diag() = v/U` overwrites U before dividing; its last element is always 1 (or 0).

## Seeded bugs

`seeded/LOG.jsonl` lists every edit made to a scratch copy of the model (wrong boundary, missed case, swapped argument, dropped update,
...), the claim it breaks, the theorems that failed and those that were tightened because an edit had survived.
The scripts are `tools/mut.py` and `tools/mutlog.py`.

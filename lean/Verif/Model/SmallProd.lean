import Verif.Model.SmallDiv

/-! Products of `SmallVector`s and `SmallMatrix`es (include/tmv/TMV_SmallVectorArithFunc.h, TMV_SmallMatrixArithFunc.h and the operators
of TMV_SmallMatrixArith.h that call them).

A `SmallMatrix<T,M,N,S>` is a flat array `Nat → K` of `M*N` elements, `S==RowMajor` is the Boolean `true`; a pointer `A+o` is the array
with an offset.  The arrays of the operands are not those of the result: TMV documents that small objects are not checked for aliasing
(doc/Matrix.tex:1992-2010).  Numbers are exact; a real operand of a complex product is embedded.  The helpers with `ok==false` (a
complex value for a real target) do nothing and are excluded by assertions in the callers. -/
namespace TMV.SmallProd
noncomputable section
open TMV.SmallDiv

variable {K : Type} [RCLike K]

/-! ### Vectors (TMV_SmallVectorArithFunc.h) -/

/-- `for(i=0;i<n;++i) y[i] = T(0)`. -/
def zero (n : Nat) (y : Nat → K) : Nat → K := up (fun i y => Function.update y i 0) n 0 y

/-- `SmallVectorCopy<N>(v1,v2)` (TMV_SmallVector.h:705-721). -/
def copyV (n : Nat) (v1 v2 : Nat → K) : Nat → K := up (fun i v2 => Function.update v2 i (v1 i)) n 0 v2

/-- `MultXVHelper`: `v *= x` (TMV_SmallVectorArithFunc.h:50-61). -/
def multXV (n : Nat) (x : K) (v : Nat → K) : Nat → K := up (fun i v => Function.update v i (v i * x)) n 0 v

/-- `MultXVHelper2` (lines 63-74) on `v2+o`: `v2 = x*v1`. -/
def multXV2 (n : Nat) (x : K) (v1 : Nat → K) (o : Nat) (v2 : Nat → K) : Nat → K :=
  up (fun i v2 => Function.update v2 (o+i) (x * v1 i)) n 0 v2

/-- `AddVV_1Helper` (lines 76-88): `v2 += v1`. -/
def addVV1 (n : Nat) (v1 v2 : Nat → K) : Nat → K := up (fun i v2 => Function.update v2 i (v2 i + v1 i)) n 0 v2

/-- `AddVV_m1Helper` (lines 90-101): `v2 -= v1`. -/
def addVVm1 (n : Nat) (v1 v2 : Nat → K) : Nat → K := up (fun i v2 => Function.update v2 i (v2 i - v1 i)) n 0 v2

/-- `AddVVHelper` (lines 103-114) on `v1+o1` and `v2+o2`: `v2 += x*v1`. -/
def addVV (n : Nat) (x : K) (v1 : Nat → K) (o1 : Nat) (v2 : Nat → K) (o2 : Nat) : Nat → K :=
  up (fun i v2 => Function.update v2 (o2+i) (v2 (o2+i) + x * v1 (o1+i))) n 0 v2

/-- `AddVV_1_1` (lines 117-119): `v3 = v1 + v2`. -/
def addVV_1_1 (n : Nat) (v1 v2 v3 : Nat → K) : Nat → K := addVV1 n v2 (copyV n v1 v3)
/-- `AddVV_1_m1` (lines 120-122): `v3 = v1 - v2`. -/
def addVV_1_m1 (n : Nat) (v1 v2 v3 : Nat → K) : Nat → K := addVVm1 n v2 (copyV n v1 v3)
/-- `AddVV_1_x` (lines 123-125): `v3 = v1 + x2*v2`. -/
def addVV_1_x (n : Nat) (v1 : Nat → K) (x2 : K) (v2 v3 : Nat → K) : Nat → K := addVV1 n v1 (multXV2 n x2 v2 0 v3)
/-- `AddVV_x_1` (lines 126-128): `v3 = x1*v1 + v2`. -/
def addVV_x_1 (n : Nat) (x1 : K) (v1 v2 v3 : Nat → K) : Nat → K := addVV1 n v2 (multXV2 n x1 v1 0 v3)
/-- `AddVV_x_m1` (lines 129-131): `v3 = x1*v1 - v2`. -/
def addVV_x_m1 (n : Nat) (x1 : K) (v1 v2 v3 : Nat → K) : Nat → K := addVVm1 n v2 (multXV2 n x1 v1 0 v3)
/-- `AddVV` (lines 132-134): `v3 = x1*v1 + x2*v2`. -/
def addVV_x_x (n : Nat) (x1 : K) (v1 : Nat → K) (x2 : K) (v2 v3 : Nat → K) : Nat → K := addVV n x2 v2 0 (multXV2 n x1 v1 0 v3) 0

/-- `MultVVHelper` (lines 143-148) on `v1+o`: `res += v1*v2`. -/
def multVVacc (n : Nat) (res : K) (v1 : Nat → K) (o : Nat) (v2 : Nat → K) : K := up (fun i r => r + v1 (o+i) * v2 i) n 0 res

/-- `MultVV` (lines 149-155): the dot product. -/
def multVV (n : Nat) (v1 v2 : Nat → K) : K := multVVacc n 0 v1 0 v2

open Classical in
/-- `ElemMultVV` (lines 158-168). -/
def elemMultVV (n : Nat) (α : K) (v1 v2 v3 : Nat → K) : Nat → K :=
  if α = 1 then up (fun i v3 => Function.update v3 i (v1 i * v2 i)) n 0 v3
  else up (fun i v3 => Function.update v3 i (α * v1 i * v2 i)) n 0 v3

open Classical in
/-- `AddElemMultVV` (lines 175-188). -/
def addElemMultVV (n : Nat) (α : K) (v1 v2 v3 : Nat → K) : Nat → K :=
  if α = 1 then up (fun i v3 => Function.update v3 i (v3 i + v1 i * v2 i)) n 0 v3
  else if α = -1 then up (fun i v3 => Function.update v3 i (v3 i - v1 i * v2 i)) n 0 v3
  else up (fun i v3 => Function.update v3 i (v3 i + α * v1 i * v2 i)) n 0 v3

/-! ### Matrix times vector (TMV_SmallMatrixArithFunc.h) -/

/-- `MultMV_1` (TMV_SmallMatrixArithFunc.h:56-83): `y = A*x`. -/
def multMV1 (M N : Nat) (s : Bool) (A x y : Nat → K) : Nat → K :=
  if s then up (fun i y =>
      let y := Function.update y i 0
      Function.update y i (multVVacc N (y i) A (i*N) x)) M 0 y
  else up (fun j y => addVV M (x j) A (j*M) y 0) N 0 (zero M y)

/-- `MultMV` (lines 85-116): `y = alpha*A*x`. -/
def multMV (M N : Nat) (s : Bool) (α : K) (A x y : Nat → K) : Nat → K :=
  if s then up (fun i y =>
      let y := Function.update y i 0
      let y := Function.update y i (multVVacc N (y i) A (i*N) x)
      Function.update y i (y i * α)) M 0 y
  else up (fun j y => addVV M (α * x j) A (j*M) y 0) N 0 (zero M y)

/-- `AddMultMV_1` (lines 118-144): `y += A*x`. -/
def addMultMV1 (M N : Nat) (s : Bool) (A x y : Nat → K) : Nat → K :=
  if s then up (fun i y => Function.update y i (multVVacc N (y i) A (i*N) x)) M 0 y
  else up (fun j y => addVV M (x j) A (j*M) y 0) N 0 y

/-- `AddMultMV_m1` (lines 144-169): `y -= A*x`. -/
def addMultMVm1 (M N : Nat) (s : Bool) (A x y : Nat → K) : Nat → K :=
  if s then up (fun i y => up (fun j y => Function.update y i (y i - A (i*N+j) * x j)) N 0 y) M 0 y
  else up (fun j y => addVV M (-x j) A (j*M) y 0) N 0 y

/-- `AddMultMV` (lines 171-200): `y += alpha*A*x`. -/
def addMultMV (M N : Nat) (s : Bool) (α : K) (A x y : Nat → K) : Nat → K :=
  if s then up (fun i y => Function.update y i (y i + multVVacc N 0 A (i*N) x * α)) M 0 y
  else up (fun j y => addVV M (α * x j) A (j*M) y 0) N 0 y

/-- `MultVM_1` (lines 204-231): `y = x*A`. -/
def multVM1 (M N : Nat) (s : Bool) (x A y : Nat → K) : Nat → K :=
  if s then up (fun i y => addVV N (x i) A (i*N) y 0) M 0 (zero N y)
  else up (fun j y =>
      let y := Function.update y j 0
      Function.update y j (multVVacc M (y j) A (j*M) x)) N 0 y

/-- `MultVM` (lines 233-264): `y = alpha*x*A`. -/
def multVM (M N : Nat) (s : Bool) (α : K) (x A y : Nat → K) : Nat → K :=
  if s then up (fun i y => addVV N (α * x i) A (i*N) y 0) M 0 (zero N y)
  else up (fun j y =>
      let y := Function.update y j 0
      let y := Function.update y j (multVVacc M (y j) A (j*M) x)
      Function.update y j (y j * α)) N 0 y

/-- `AddMultVM_1` (lines 266-291): `y += x*A`. -/
def addMultVM1 (M N : Nat) (s : Bool) (x A y : Nat → K) : Nat → K :=
  if s then up (fun i y => addVV N (x i) A (i*N) y 0) M 0 y
  else up (fun j y => Function.update y j (multVVacc M (y j) A (j*M) x)) N 0 y

/-- `AddMultVM_m1` (lines 293-318): `y -= x*A`. -/
def addMultVMm1 (M N : Nat) (s : Bool) (x A y : Nat → K) : Nat → K :=
  if s then up (fun i y => addVV N (-x i) A (i*N) y 0) M 0 y
  else up (fun j y => up (fun i y => Function.update y j (y j - A (j*M+i) * x i)) M 0 y) N 0 y

/-- `AddMultVM` (lines 320-349): `y += alpha*x*A`. -/
def addMultVM (M N : Nat) (s : Bool) (α : K) (x A y : Nat → K) : Nat → K :=
  if s then up (fun i y => addVV N (α * x i) A (i*N) y 0) M 0 y
  else up (fun j y => Function.update y j (y j + multVVacc M 0 A (j*M) x * α)) N 0 y

/-! ### Matrix + matrix -/

/-- `AddMM_1` (lines 351-380): `B += A`. -/
def addMM1 (M N : Nat) (sa sb : Bool) (A B : Nat → K) : Nat → K :=
  if sa = sb then addVV1 (M*N) A B
  else up (fun i B => up (fun j B => Function.update B (idx sb M N i j) (B (idx sb M N i j) + A (idx sa M N i j))) N 0 B) M 0 B

/-- `AddMM_m1` (lines 382-411): `B -= A`. -/
def addMMm1 (M N : Nat) (sa sb : Bool) (A B : Nat → K) : Nat → K :=
  if sa = sb then addVVm1 (M*N) A B
  else up (fun i B => up (fun j B => Function.update B (idx sb M N i j) (B (idx sb M N i j) - A (idx sa M N i j))) N 0 B) M 0 B

/-- `AddMM` (lines 413-442): `B += alpha*A`. -/
def addMM (M N : Nat) (sa sb : Bool) (α : K) (A B : Nat → K) : Nat → K :=
  if sa = sb then addVV (M*N) α A 0 B 0
  else up (fun i B => up (fun j B => Function.update B (idx sb M N i j) (B (idx sb M N i j) + α * A (idx sa M N i j))) N 0 B) M 0 B

/-! ### Matrix times matrix.  `L` is the template parameter `K`. -/

/-- `for(k=0;k<K;++k) cij += Aik*Bkj` of the inner product method (macros `Aik`, `Bkj`: lines 445-446). -/
def inner (M N L : Nat) (sa sb : Bool) (A B : Nat → K) (i j : Nat) : K :=
  up (fun k c => c + A (idx sa M L i k) * B (idx sb L N k j)) L 0 0

/-- The loops of the variant for `Sa==Sc==ColMajor`: each `C.col(j) += f(B(k,j)) * A.col(k)`. -/
def colLoops (M N L : Nat) (sb : Bool) (f : K → K) (A B C : Nat → K) : Nat → K :=
  up (fun j C => up (fun k C => addVV M (f (B (idx sb L N k j))) A (k*M) C (j*M)) L 0 C) N 0 C

/-- The loops of the variant for `Sb==Sc==RowMajor`: each `C.row(i) += f(A(i,k)) * B.row(k)`. -/
def rowLoops (M N L : Nat) (sa : Bool) (f : K → K) (A B C : Nat → K) : Nat → K :=
  up (fun i C => up (fun k C => addVV N (f (A (idx sa M L i k))) B (k*N) C (i*N)) L 0 C) M 0 C

/-- The default variant: `Cij = g(Cij, cij)`. -/
def innerLoops (M N L : Nat) (sa sb sc : Bool) (g : K → K → K) (A B C : Nat → K) : Nat → K :=
  up (fun i C => up (fun j C =>
    Function.update C (idx sc M N i j) (g (C (idx sc M N i j)) (inner M N L sa sb A B i j))) N 0 C) M 0 C

/-- `MultMM_1` (lines 449-488): `C = A*B`. -/
def multMM1 (M N L : Nat) (sa sb sc : Bool) (A B C : Nat → K) : Nat → K :=
  if !sa ∧ !sc then colLoops M N L sb (fun b => b) A B (zero (M*N) C)
  else if sb ∧ sc then rowLoops M N L sa (fun a => a) A B (zero (M*N) C)
  else innerLoops M N L sa sb sc (fun _ c => c) A B C

/-- `MultMM` (lines 490-533): `C = alpha*A*B`. -/
def multMM (M N L : Nat) (sa sb sc : Bool) (α : K) (A B C : Nat → K) : Nat → K :=
  if !sa ∧ !sc then colLoops M N L sb (fun b => α * b) A B (zero (M*N) C)
  else if sb ∧ sc then rowLoops M N L sa (fun a => α * a) A B (zero (M*N) C)
  else innerLoops M N L sa sb sc (fun _ c => α * c) A B C

/-- `AddMultMM_1` (lines 536-575): `C += A*B`. -/
def addMultMM1 (M N L : Nat) (sa sb sc : Bool) (A B C : Nat → K) : Nat → K :=
  if !sa ∧ !sc then colLoops M N L sb (fun b => b) A B C
  else if sb ∧ sc then rowLoops M N L sa (fun a => a) A B C
  else innerLoops M N L sa sb sc (fun o c => o + c) A B C

/-- `AddMultMM_m1` (lines 577-616): `C -= A*B`. -/
def addMultMMm1 (M N L : Nat) (sa sb sc : Bool) (A B C : Nat → K) : Nat → K :=
  if !sa ∧ !sc then colLoops M N L sb (fun b => -b) A B C
  else if sb ∧ sc then rowLoops M N L sa (fun a => -a) A B C
  else innerLoops M N L sa sb sc (fun o c => o - c) A B C

/-- `AddMultMM` (lines 618-660): `C += alpha*A*B`. -/
def addMultMM (M N L : Nat) (sa sb sc : Bool) (α : K) (A B C : Nat → K) : Nat → K :=
  if !sa ∧ !sc then colLoops M N L sb (fun b => α * b) A B C
  else if sb ∧ sc then rowLoops M N L sa (fun a => α * a) A B C
  else innerLoops M N L sa sb sc (fun o c => o + α * c) A B C

/-! ### Outer product and element-wise product -/

/-- `Rank1Update_1` (lines 666-689): `A = x ^ y`. -/
def rank1_1 (M N : Nat) (s : Bool) (x y A : Nat → K) : Nat → K :=
  if s then up (fun i A => multXV2 N (x i) y (i*N) A) M 0 A else up (fun j A => multXV2 M (y j) x (j*M) A) N 0 A

/-- `Rank1Update` (lines 691-716): `A = alpha * x ^ y`. -/
def rank1 (M N : Nat) (s : Bool) (α : K) (x y A : Nat → K) : Nat → K :=
  if s then up (fun i A => multXV2 N (α * x i) y (i*N) A) M 0 A else up (fun j A => multXV2 M (α * y j) x (j*M) A) N 0 A

/-- `AddRank1Update_1` (lines 719-742): `A += x ^ y`. -/
def addRank1_1 (M N : Nat) (s : Bool) (x y A : Nat → K) : Nat → K :=
  if s then up (fun i A => addVV N (x i) y 0 A (i*N)) M 0 A else up (fun j A => addVV M (y j) x 0 A (j*M)) N 0 A

/-- `AddRank1Update_m1` (lines 744-767): `A -= x ^ y`. -/
def addRank1_m1 (M N : Nat) (s : Bool) (x y A : Nat → K) : Nat → K :=
  if s then up (fun i A => addVV N (-x i) y 0 A (i*N)) M 0 A else up (fun j A => addVV M (-y j) x 0 A (j*M)) N 0 A

/-- `AddRank1Update` (lines 769-794): `A += alpha * x ^ y`. -/
def addRank1 (M N : Nat) (s : Bool) (α : K) (x y A : Nat → K) : Nat → K :=
  if s then up (fun i A => addVV N (α * x i) y 0 A (i*N)) M 0 A else up (fun j A => addVV M (α * y j) x 0 A (j*M)) N 0 A

/-- `ElemMultMM` (lines 795-809). -/
def elemMultMM (M N : Nat) (sa sb sc : Bool) (α : K) (A B C : Nat → K) : Nat → K :=
  if sa = sb ∧ sa = sc then up (fun i C => Function.update C i (α * A i * B i)) (M*N) 0 C
  else up (fun i C => up (fun j C =>
    Function.update C (idx sc M N i j) (α * A (idx sa M N i j) * B (idx sb M N i j))) N 0 C) M 0 C

/-- `AddElemMultMM` (lines 816-830). -/
def addElemMultMM (M N : Nat) (sa sb sc : Bool) (α : K) (A B C : Nat → K) : Nat → K :=
  if sa = sb ∧ sa = sc then up (fun i C => Function.update C i (C i + α * A i * B i)) (M*N) 0 C
  else up (fun i C => up (fun j C =>
    Function.update C (idx sc M N i j) (C (idx sc M N i j) + α * A (idx sa M N i j) * B (idx sb M N i j))) N 0 C) M 0 C

/-! ### Operators (TMV_SmallMatrixArith.h) -/

/-- `m1 *= m2` (lines 2451-2472). -/
def mulEqMM (M N : Nat) (s1 s2 : Bool) (m1 m2 junk : Nat → K) : Nat → K :=
  multMM1 M N N s1 s2 s1 (copy M N s1 s1 m1 junk) m2 m1

/-- `m1 *= x*m2` (lines 2510-2533). -/
def mulEqXMM (M N : Nat) (s1 s2 : Bool) (x : K) (m1 m2 junk : Nat → K) : Nat → K :=
  multMM M N N s1 s2 s1 x (copy M N s1 s1 m1 junk) m2 m1

/-- `m -= x*(m1*m2)` (lines 2711-2733). -/
def subXMM (M N L : Nat) (sa sb sc : Bool) (x : K) (A B C : Nat → K) : Nat → K := addMultMM M N L sa sb sc (-x) A B C

/-- `v *= m` for a `SmallVector` (lines 3634-3653). -/
def mulEqVM (N : Nat) (s : Bool) (v m junk : Nat → K) : Nat → K := multVM1 N N s (copyV N v junk) m v

/-- `v *= x*m` for a `SmallVector` (lines 3705-3724). -/
def mulEqXVM (N : Nat) (s : Bool) (x : K) (v m junk : Nat → K) : Nat → K := multVM N N s x (copyV N v junk) m v

/-- The elements of a unit-step `VectorView` over the array `v` (`cj`: it is a conjugated view). -/
def viewV (cj : Bool) (v : Nat → K) : Nat → K := fun i => if cj then star (v i) else v i

/-- `m0.conjugateSelf()` on `n` contiguous elements. -/
def conjSelf (n : Nat) (v : Nat → K) : Nat → K := up (fun i v => Function.update v i (star (v i))) n 0 v

/-- `v *= m` for a unit-step complex `VectorView` and a real `SmallMatrix` (lines 3669-3683, comment "conj is ok"; lines 3740-3754 are
the same with a factor): `v_copy` is constructed from the view, i.e. from its elements, and the result is stored without conjugation. -/
def mulEqViewVM (N : Nat) (s cj : Bool) (v m junk : Nat → K) : Nat → K := multVM1 N N s (copyV N (viewV cj v) junk) m v

/-- `v = m*w` (`Prodmv_1::assignToV`, lines 3282-3291), unit-step `VectorView`. -/
def assignMVview (M N : Nat) (s cj : Bool) (m w v : Nat → K) : Nat → K :=
  let v := multMV1 M N s m w v
  if cj then conjSelf M v else v

/-- `v += m*w` with a unit-step complex `VectorView` and real operands (lines 3807-3819, "conj is ok"). -/
def addMVview (M N : Nat) (s : Bool) (m w v : Nat → K) : Nat → K := addMultMV1 M N s m w v

/-- `m0 = m1*m2` (`Prodmm_1::assignToM`, lines 2264-2281) for a view with contiguous elements: `rm` if `stepj()==1 && stepi()==N`,
otherwise `stepi()==1 && stepj()==M`; the third branch is the library's `MultMM` (C26). -/
def assignMMview (M N L : Nat) (s1 s2 rm cj : Bool) (m1 m2 m0 : Nat → K) : Nat → K :=
  let m0 := multMM1 M N L s1 s2 rm m1 m2 m0
  if cj then conjSelf (M*N) m0 else m0

/-- `m0 = v1 ^ v2` (`OProdvv_1::assignToM`, lines 482-502) for a view with contiguous elements that is not conjugated; the first test is
`stepi()==1 && stepj()==M`, the second `stepj()==1 && stepi()==N`: both call the `ColMajor` routine.  (If both hold the two layouts agree.) -/
def assignVVview (M N : Nat) (rm : Bool) (v1 v2 m0 : Nat → K) : Nat → K :=
  if !rm then rank1_1 M N false v1 v2 m0
  else rank1_1 M N false v1 v2 m0

end
end TMV.SmallProd

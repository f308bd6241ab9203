import Mathlib.Data.BitVec
import Mathlib.Data.List.Basic

/-! Division control: `DivHelper` (include/tmv/TMV_BaseMatrix.h:135-366, src/TMV_BaseMatrix.cpp), as a
state machine over one matrix object.  The decompositions themselves are parameters here (LU is modelled in
`Model/LUDiv.lean`). -/
namespace TMV.Div

/-- The bit field `DivType` (include/tmv/TMV_Base.h:209-221).  Simplification: 8 bits of the `int`, all values
used are below 128. -/
abbrev DT := BitVec 8
/-- `XX` (TMV_Base.h:210). -/
def XX : DT := 0
/-- `LU` (TMV_Base.h:210). -/
def LU : DT := 1
/-- `CH` (TMV_Base.h:210). -/
def CH : DT := 2
/-- `QR` (TMV_Base.h:210). -/
def QR : DT := 4
/-- `QRP` (TMV_Base.h:210). -/
def QRP : DT := 8
/-- `SV` (TMV_Base.h:210). -/
def SV : DT := 16
/-- `DivInPlaceFlag` (TMV_Base.h:217). -/
def InPlace : DT := 32
/-- `SaveDivFlag` (TMV_Base.h:218). -/
def Save : DT := 64
/-- `DivTypeFlags` (TMV_Base.h:220). -/
def Flags : DT := 31

/-- What the decompositions do.  `V`: contents of the matrix, `F`: decompositions, `Q`: questions asked of a
decomposition (solve with a right-hand side, inverse, det, logDet, isSingular, …), `A`: answers.
* `kinds dt`: the class has a `case dt` in `setDiv()` (Matrix: LU,QR,QRP,SV src/TMV_Matrix.cpp:73-94; SymMatrix:
  LU,CH,SV src/TMV_SymMatrix.cpp:85-107);
* `decomp dt v`: the `Divider` built for contents `v`; `none` = the constructor throws (`NonPosDef` for CH);
* `after dt v`: contents of the matrix if the decomposition was done in place;
* `ask f q`: `none` = exception (`Singular`);
* `square`: `isSquare()`. -/
structure Env (V F Q A : Type) where
  kinds : DT → Bool
  decomp : DT → V → Option F
  after : DT → V → V
  ask : F → Q → Option A
  square : Bool

/-- The matrix contents and the `mutable` members `divider` (with the class of the object it points to) and
`divtype` (TMV_BaseMatrix.h:329-330). -/
structure St (V F : Type) where
  m : V
  divider : Option (DT × F)
  divtype : DT

/-- What the caller sees of one call. -/
inductive Obs (A : Type)
  | ok                 -- returned
  | ans (a : A)        -- returned this answer
  | raised             -- threw
  | ub                 -- null dereference or cast to the wrong class
deriving DecidableEq

variable {V F Q A : Type}

/-- `DivHelper()` (src/TMV_BaseMatrix.cpp:33). -/
def init (v : V) : St V F := ⟨v, none, XX⟩

/-- `unsetDiv` (TMV_BaseMatrix.cpp:269-270). -/
def unsetDiv (s : St V F) : St V F := { s with divider := none }

/-- `divideUsing` (TMV_BaseMatrix.cpp:221-228). -/
def divideUsing (dt : DT) (s : St V F) : St V F :=
  if s.divtype &&& dt = 0 then
    let s := unsetDiv s
    { s with divtype := (s.divtype &&& ~~~Flags) ||| dt }
  else s

/-- `getDivType` with `resetDivType` (TMV_BaseMatrix.cpp:231-240). -/
def getDivType (e : Env V F Q A) (s : St V F) : St V F × DT :=
  let s := if s.divtype &&& Flags = XX then divideUsing (if e.square then LU else QR) s else s
  (s, s.divtype &&& Flags)

/-- `divIsInPlace` (TMV_BaseMatrix.cpp:251-252). -/
def divIsInPlace (s : St V F) : Bool := s.divtype &&& InPlace ≠ 0
/-- `divIsSaved` (TMV_BaseMatrix.cpp:263-264). -/
def divIsSaved (s : St V F) : Bool := s.divtype &&& Save ≠ 0

/-- `setDiv` (src/TMV_Matrix.cpp:67-96, src/TMV_SymMatrix.cpp:79-109): `false` = threw.  An unsupported type
leaves the pointer null. -/
def setDiv (e : Env V F Q A) (s : St V F) : St V F × Bool :=
  if s.divider.isSome then (s, true)
  else
    let r := getDivType e s
    let s := r.1
    let dt := r.2
    if e.kinds dt then
      match e.decomp dt s.m with
      | none => (s, false)
      | some f =>
        ({ s with divider := some (dt, f), m := if divIsInPlace s then e.after dt s.m else s.m }, true)
    else (s, true)

/-- `doneDiv` (TMV_BaseMatrix.cpp:281-282). -/
def doneDiv (s : St V F) : St V F := if divIsSaved s then s else unsetDiv s

/-- `doDet`, `doLogDet`, `doMakeInverse`, `doMakeInverseATA`, `doIsSingular`, `doLDivEq`, `doRDivEq`, `doLDiv`,
`doRDiv` (TMV_BaseMatrix.cpp:38-217): `setDiv(); divider->q(); doneDiv();`.  If `q` throws, `doneDiv()` is
skipped. -/
def query (e : Env V F Q A) (q : Q) (s : St V F) : St V F × Obs A :=
  let r := setDiv e s
  let s := r.1
  if r.2 = false then (s, .raised)
  else match s.divider with
    | none => (s, .ub)
    | some (_, f) => match e.ask f q with
        | none => (s, .raised)
        | some a => (doneDiv s, .ans a)

/-- `lud()`, `qrd()`, `qrpd()`, `svd()`, `chd()` followed by a use of the returned object
(include/tmv/TMV_Matrix.h:941-975, TMV_SymMatrix.h:760-797): `divideUsing(dt); setDiv(); static_cast`. -/
def access (e : Env V F Q A) (dt : DT) (q : Q) (s : St V F) : St V F × Obs A :=
  let r := setDiv e (divideUsing dt s)
  let s := r.1
  if r.2 = false then (s, .raised)
  else match s.divider with
    | none => (s, .ub)
    | some (dt', f) =>
      if dt' = dt then (match e.ask f q with | none => (s, .raised) | some a => (s, .ans a))
      else (s, .ub)

/-- Calls on one matrix object; `modify` is any change of its elements. -/
inductive Op (V Q : Type)
  | modify (v : V)
  | divideUsing (dt : DT)
  | divideInPlace
  | dontDivideInPlace
  | saveDiv
  | dontSaveDiv
  | setDiv
  | unsetDiv
  | resetDiv
  | getDivType
  | query (q : Q)
  | access (dt : DT) (q : Q)

/-- One call. `divideInPlace` … `dontSaveDiv`: TMV_BaseMatrix.cpp:243-260; `resetDiv`: 273-274. -/
def step (e : Env V F Q A) (s : St V F) : Op V Q → St V F × Obs A
  | .modify v => ({ s with m := v }, .ok)
  | .divideUsing dt => (divideUsing dt s, .ok)
  | .divideInPlace => ({ s with divtype := (s.divtype ||| InPlace) ||| Save }, .ok)
  | .dontDivideInPlace => ({ s with divtype := s.divtype &&& ~~~InPlace }, .ok)
  | .saveDiv => ({ s with divtype := s.divtype ||| Save }, .ok)
  | .dontSaveDiv => ({ s with divtype := s.divtype &&& ~~~Save }, .ok)
  | .setDiv => let r := setDiv e s; (r.1, if r.2 then .ok else .raised)
  | .unsetDiv => (unsetDiv s, .ok)
  | .resetDiv => let r := setDiv e (unsetDiv s); (r.1, if r.2 then .ok else .raised)
  | .getDivType => ((getDivType e s).1, .ok)
  | .query q => query e q s
  | .access dt q => access e dt q s

/-- A history: final state and what each call returned. -/
def run (e : Env V F Q A) : St V F → List (Op V Q) → St V F × List (Obs A)
  | s, [] => (s, [])
  | s, o :: os =>
      let r := step e s o
      let t := run e r.1 os
      (t.1, r.2 :: t.2)

/-- `GenMatrix::norm2()` (include/tmv/TMV_Matrix.h:906-911, src/TMV_BaseMatrix.cpp:87-92): does the debug check
`TMVAssert(divtype == SV)` of the branch that is taken hold? -/
def norm2Assert (e : Env V F Q A) (s : St V F) : Bool :=
  if s.divider.isSome ∧ (getDivType e s).2 = SV then decide ((getDivType e s).1.divtype = SV) else true

end TMV.Div

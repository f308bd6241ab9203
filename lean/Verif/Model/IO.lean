import Mathlib.Data.List.Basic
import Mathlib.Data.Int.Basic

/-! Text input and output: `IOStyle`, `TMV_Writer`, `TMV_Reader` (include/tmv/TMV_IOStyle.h) and the `write`/`read`
functions of `Vector`, `Matrix`, `DiagMatrix` and `Permutation`.  A stream is the list of characters still to be
read (or written so far); how a number is printed and parsed by the standard library is a parameter (`Codec`). -/
namespace TMV.IO

/-- Characters of a stream. -/
abbrev Text := List Char

/-- Member of `whitespace = " \n\t\v\r\f"` (TMV_IOStyle.h:386, 394). -/
def ws (c : Char) : Bool :=
  c == ' ' || c == '\n' || c == '\t' || c == '\x0b' || c == '\r' || c == '\x0c'

/-- `class IOStyle` (TMV_IOStyle.h:96-108).  `thresh` and `prec` only affect how values are printed and are part of
the `Codec`. -/
structure Style where
  usecode : Bool
  writesize : Bool
  simplesize : Bool
  usecompact : Bool
  start : Text
  lparen : Text
  space : Text
  rparen : Text
  rowend : Text
  final : Text

/-- `NormalIO()` (TMV_IOStyle.h:149-153). -/
def normalIO : Style := ⟨false, true, true, false, ['\n'], ['(', ' '], [' ', ' '], [' ', ')'], ['\n'], ['\n']⟩
/-- `CompactIO()` (TMV_IOStyle.h:155-159). -/
def compactIO : Style := ⟨true, true, false, true, [], [], [' '], [], [' '], []⟩
/-- `EigenIO()` (TMV_IOStyle.h:167-168). -/
def eigenIO : Style := ⟨false, false, true, false, [], [], [' '], [], ['\n'], []⟩

/-- `operator<<` and `operator>>` of the standard library for values of type `T` (after skipping white space):
`parse` gives the value and the rest of the stream, or `none` if it sets `failbit`. -/
structure Codec (T : Type) where
  show_ : T → Text
  parse : Text → Option (T × Text)

/-- Decimal digits of a natural number (`os << n`). -/
def showNat (n : Nat) : Text :=
  if h : n < 10 then [Char.ofNat (48 + n)] else showNat (n / 10) ++ [Char.ofNat (48 + n % 10)]
termination_by n
decreasing_by omega

/-- `is >> n` after white space: digits. -/
def parseDigits : Nat → Text → Nat × Text
  | a, [] => (a, [])
  | a, c :: t => if c.isDigit then parseDigits (10 * a + (c.toNat - 48)) t else (a, c :: t)

/-- `os << n` and `is >> n` for `ptrdiff_t` (and `int`).  Simplification: no overflow, and no `+` sign. -/
def intCodec : Codec Int where
  show_ := fun n => if n < 0 then '-' :: showNat n.natAbs else showNat n.natAbs
  parse := fun t => match t with
    | [] => none
    | c :: t' =>
      if c = '-' then
        match t' with
        | [] => none
        | d :: _ => if d.isDigit then (let r := parseDigits 0 t'; some (-(r.1 : Int), r.2)) else none
      else if c.isDigit then (let r := parseDigits 0 t; some ((r.1 : Int), r.2))
      else none

/-! ### Writer -/

/-- `writeCode` (TMV_IOStyle.h:191-192). -/
def wCode (s : Style) (code : Text) : Text := if s.usecode then code ++ s.space else []
/-- `writeSize` (194-195). -/
def wSize (s : Style) (n : Int) : Text := if s.writesize then intCodec.show_ n ++ s.space else []
/-- `writeSimpleSize` (196-197). -/
def wSimpleSize (s : Style) (n : Int) : Text := if s.simplesize then wSize s n else []
/-- `writeFullSize` (198-199). -/
def wFullSize (s : Style) (n : Int) : Text := if !s.simplesize then wSize s n else []

variable {T : Type}

/-- The loop `if (i > 0) writeSpace(); writeValue(x_i)`. -/
def wVals (s : Style) (C : Codec T) : Bool → List T → Text
  | _, [] => []
  | first, x :: xs => (if first then [] else s.space) ++ C.show_ x ++ wVals s C false xs

/-- `GenVector::write` (src/TMV_Vector.cpp:1540-1554). -/
def writeVector (s : Style) (C : Codec T) (xs : List T) : Text :=
  wCode s ['V'] ++ wSize s xs.length ++ s.lparen ++ wVals s C true xs ++ s.rparen

/-- The row loop of `GenMatrix::write` (src/TMV_Matrix.cpp:1131-1139). -/
def wRows (s : Style) (C : Codec T) : List (List T) → Text
  | [] => []
  | [r] => s.lparen ++ wVals s C true r ++ s.rparen
  | r :: r' :: rs => s.lparen ++ wVals s C true r ++ s.rparen ++ s.rowend ++ wRows s C (r' :: rs)

/-- `GenMatrix::write` (src/TMV_Matrix.cpp:1120-1142); the matrix is given by its rows, all of length `N`. -/
def writeMatrix (s : Style) (C : Codec T) (N : Nat) (rows : List (List T)) : Text :=
  wCode s ['M'] ++ wSize s rows.length ++ wSize s N ++ s.start ++ wRows s C rows ++ s.final

/-- The rows written by `GenDiagMatrix::write` (src/TMV_DiagMatrix.cpp:599-618): just the element in compact style,
the element between zeros otherwise. -/
def diagRows [Zero T] (compact : Bool) (xs : List T) : List (List T) :=
  if compact then xs.map fun x => [x]
  else (List.range xs.length).map fun i => (List.range xs.length).map fun j =>
    if i = j then xs.getD i 0 else 0

/-- `GenDiagMatrix::write` (src/TMV_DiagMatrix.cpp:590-621). -/
def writeDiag [Zero T] (s : Style) (C : Codec T) (xs : List T) : Text :=
  wCode s ['D'] ++ wSize s xs.length ++ wSimpleSize s xs.length ++ s.start ++
    wRows s C (diagRows s.usecompact xs) ++ s.final

/-- `Permutation::write` in a compact style (include/tmv/TMV_Permutation.h:391-424), `vals` = the stored
interchanges. -/
def writePerm (s : Style) (isinv : Bool) (vals : List Int) : Text :=
  wCode s ['P'] ++ wSize s vals.length ++ wSimpleSize s vals.length ++ wFullSize s (if isinv then 1 else 0) ++
    s.start ++ s.lparen ++ wVals s intCodec true vals ++ s.rparen ++ s.final

/-! ### Reader -/

/-- How a read ends: with a result (and the rest of the stream), with a `ReadError`, never (`hang`), or with the use
of an indeterminate value (`ub`). -/
inductive Out (α : Type)
  | ok (a : α) (rest : Text)
  | err
  | hang
  | ub
deriving DecidableEq

/-- A reading function. -/
abbrev Rd (α : Type) := Text → Out α

/-- Sequencing of two reading steps: stop at the first that does not succeed. -/
def Rd.bind {α β : Type} (r : Rd α) (f : α → Rd β) : Rd β := fun t =>
  match r t with
  | .ok a t' => f a t'
  | .err => .err
  | .hang => .hang
  | .ub => .ub

/-- A step that reads nothing. -/
def Rd.pure {α : Type} (a : α) : Rd α := fun t => .ok a t

/-- Raise a `ReadError`. -/
def Rd.fail {α : Type} : Rd α := fun _ => .err


/-- `is.get(c)`: at the end of the stream `c` keeps its value. -/
def getC : Text → Option Char → Text × Option Char
  | [], c => ([], c)
  | x :: t, _ => (t, some x)

/-- `skipWhiteSpace` (TMV_IOStyle.h:384-390) executed for at most `fuel` rounds of its loop: `none` = still
looping, `some none` = the indeterminate initial value of `c` was used, `some (some t)` = done (after `unget`). -/
def skipFuel : Nat → Text → Option Char → Option (Option Text)
  | 0, _, _ => none
  | n + 1, t, c => match getC t c with
      | (_, none) => some none
      | (t', some x) => if ws x then skipFuel n t' (some x) else some (some (x :: t'))

/-- The outcome of the loop of `skipWhiteSpace`; `seen` = some character was read.  `skip_refines` proves that it is
the limit of `skipFuel`. -/
def skipAux : Bool → Text → Out Unit
  | false, [] => .ub
  | true, [] => .hang
  | _, x :: t => if ws x then skipAux true t else .ok () (x :: t)

/-- `skipWhiteSpace` (TMV_IOStyle.h:384-390). -/
def skip : Rd Unit := skipAux false

/-- `trim` (TMV_IOStyle.h:392-401). -/
def trim (t : Text) : Text := ((t.dropWhile ws).reverse.dropWhile ws).reverse

/-- `readStr` (TMV_IOStyle.h:256-272): `getstr` is filled with blanks first, characters beyond the end of the stream
stay blank. -/
def readStr (str : Text) : Rd Unit :=
  if str = [] then Rd.pure ()
  else Rd.bind skip fun _ t =>
    let got := t.take str.length ++ List.replicate (str.length - t.length) ' '
    if got ≠ str then .err
    else if t.length < str.length then .err
    else .ok () (t.drop str.length)

/-- `readStart`, `readLParen`, `readSpace`, `readRParen`, `readRowEnd`, `readFinal` (TMV_IOStyle.h:306-322) for the
marker `m`. -/
def readMark (m : Text) : Rd Unit := readStr (trim m)

/-- `readCode` (TMV_IOStyle.h:274-287). -/
def readCode (s : Style) (code : Text) : Rd Unit :=
  if s.usecode then Rd.bind (readStr (trim code)) fun _ => readMark s.space else Rd.pure ()

/-- `readValue` (TMV_IOStyle.h:342-349): `false` becomes an error in every caller. -/
def readValue (C : Codec T) : Rd T :=
  Rd.bind skip fun _ t => match C.parse t with
    | none => .err
    | some (x, t') => .ok x t'

/-- `readSize(n)` (TMV_IOStyle.h:324-334): `n` keeps its value if the style has no size. -/
def readSize (s : Style) (n : Int) : Rd Int :=
  if s.writesize then Rd.bind (readValue intCodec) fun n => Rd.bind (readMark s.space) fun _ => Rd.pure n
  else Rd.pure n
/-- `readSimpleSize` (336-337). -/
def readSimpleSize (s : Style) (n : Int) : Rd Int := if s.simplesize then readSize s n else Rd.pure n
/-- `readFullSize` (339-340). -/
def readFullSize (s : Style) (n : Int) : Rd Int := if !s.simplesize then readSize s n else Rd.pure n

/-- The loop `if (i>0) readSpace; readValue(temp); v.ref(i) = temp` for `n` values. -/
def rVals (s : Style) (C : Codec T) : Bool → Nat → Rd (List T)
  | _, 0 => Rd.pure []
  | first, n + 1 =>
    Rd.bind (if first then Rd.pure () else readMark s.space) fun _ =>
    Rd.bind (readValue C) fun x => Rd.bind (rVals s C false n) fun xs => Rd.pure (x :: xs)

/-- `Vector::read` (src/TMV_Vector.cpp:1673-1697, FinishRead 1628-1671) on a vector of size `n0`, which is resized.
Returns the new size and the elements. -/
def readVector (s : Style) (C : Codec T) (n0 : Int) : Rd (Int × List T) :=
  Rd.bind (readCode s ['V']) fun _ =>
  Rd.bind (readSize s n0) fun n =>
  Rd.bind (readMark s.lparen) fun _ =>
  Rd.bind (rVals s C true n.toNat) fun xs =>
  Rd.bind (readMark s.rparen) fun _ => Rd.pure (n, xs)

/-- `VectorView::read` (src/TMV_Vector.cpp:1699-1729): a different size is an error. -/
def readVectorView (s : Style) (C : Codec T) (n0 : Int) : Rd (Int × List T) :=
  Rd.bind (readCode s ['V']) fun _ =>
  Rd.bind (readSize s n0) fun n =>
  if n ≠ n0 then Rd.fail else
  Rd.bind (readMark s.lparen) fun _ =>
  Rd.bind (rVals s C true n.toNat) fun xs =>
  Rd.bind (readMark s.rparen) fun _ => Rd.pure (n, xs)

/-- The row loop of `FinishRead` (src/TMV_Matrix.cpp:1246-1293). -/
def rRows (s : Style) (C : Codec T) (N : Nat) : Nat → Rd (List (List T))
  | 0 => Rd.pure []
  | M + 1 =>
    Rd.bind (readMark s.lparen) fun _ =>
    Rd.bind (rVals s C true N) fun r =>
    Rd.bind (readMark s.rparen) fun _ =>
    Rd.bind (if M = 0 then Rd.pure () else readMark s.rowend) fun _ =>
    Rd.bind (rRows s C N M) fun rs => Rd.pure (r :: rs)

/-- `Matrix::read` (src/TMV_Matrix.cpp:1303-1328, FinishRead 1231-1301) on an `M0 × N0` matrix. -/
def readMatrix (s : Style) (C : Codec T) (M0 N0 : Int) : Rd (Int × Int × List (List T)) :=
  Rd.bind (readCode s ['M']) fun _ =>
  Rd.bind (readSize s M0) fun M =>
  Rd.bind (readSize s N0) fun N =>
  Rd.bind (readMark s.start) fun _ =>
  Rd.bind (rRows s C N.toNat M.toNat) fun rows =>
  Rd.bind (readMark s.final) fun _ => Rd.pure (M, N, rows)

/-- The row loop of the `DiagMatrix` `FinishRead` (src/TMV_DiagMatrix.cpp:721-810) from row `i`, `k` rows to go, in
an `N × N` matrix: in a full style the off-diagonal values are read and must be 0.  Simplification: they are checked
after the row's values were read, not one by one. -/
def rDiag [Zero T] [DecidableEq T] (s : Style) (C : Codec T) (N : Nat) : Nat → Nat → Rd (List T)
  | _, 0 => Rd.pure []
  | i, k + 1 =>
    Rd.bind (readMark s.lparen) fun _ =>
    Rd.bind (rVals s C true (if s.usecompact then 1 else N)) fun r =>
    let c := if s.usecompact then 0 else i
    if (List.range r.length).any (fun j => j != c && decide (r.getD j 0 ≠ 0)) then Rd.fail else
    Rd.bind (readMark s.rparen) fun _ =>
    Rd.bind (if k = 0 then Rd.pure () else readMark s.rowend) fun _ =>
    Rd.bind (rDiag s C N (i + 1) k) fun rs => Rd.pure (r.getD c 0 :: rs)

/-- `DiagMatrix::read` (src/TMV_DiagMatrix.cpp:830-871) on a matrix of size `n0`. -/
def readDiag [Zero T] [DecidableEq T] (s : Style) (C : Codec T) (n0 : Int) : Rd (Int × List T) :=
  Rd.bind (readCode s ['D']) fun _ =>
  Rd.bind (readSize s n0) fun n =>
  Rd.bind (readSimpleSize s n) fun n' =>
  if n' ≠ n then Rd.fail else
  Rd.bind (readMark s.start) fun _ =>
  Rd.bind (rDiag s C n.toNat 0 n.toNat) fun xs =>
  Rd.bind (readMark s.final) fun _ => Rd.pure (n, xs)

/-- `Permutation::read` (include/tmv/TMV_Permutation.h:688-801) on an owning permutation of size `n0`: returns size,
inverse flag and interchanges.  `temp` is uninitialised when the style does not contain the inverse flag
(`isinv = temp`, 737). -/
def readPerm (s : Style) (n0 : Int) : Rd (Int × Bool × List Int) :=
  Rd.bind (readCode s ['P']) fun _ =>
  Rd.bind (readSize s n0) fun n =>
  Rd.bind (readSimpleSize s n) fun n' =>
  if n' ≠ n then Rd.fail else
  if s.simplesize || !s.writesize then (fun _ => .ub) else
  Rd.bind (readFullSize s 0) fun inv =>
  if !s.usecompact then Rd.fail else
  Rd.bind (readMark s.start) fun _ =>
  Rd.bind (readMark s.lparen) fun _ =>
  Rd.bind (rVals s intCodec true n.toNat) fun xs =>
  Rd.bind (readMark s.rparen) fun _ =>
  Rd.bind (readMark s.final) fun _ => Rd.pure (n, decide (inv ≠ 0), xs)

end TMV.IO

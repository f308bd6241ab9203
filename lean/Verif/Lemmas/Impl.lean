import Verif.Lemmas.Conc
import Verif.Props.MatTwo

/-!
The sequential model's functions as programs of single accesses.  `Impl W f` is a program that computes `f` and writes only elements
of `W`; the combinators follow the syntax of the definitions of the model, and each program below performs the accesses of the
function it belongs to in the order of its definition.
-/
namespace TMV
variable {K : Type _} {W : Int → Prop}

structure Impl (W : Int → Prop) (f : Mem K → Option (Mem K)) where
  prog : Prog K
  run_eq : ∀ m, prog.run m = f m
  writes : prog.Writes W

/-- A part of a program that only reads and passes a value on. -/
structure Reader {α : Type _} (g : Mem K → Option α) where
  prog : (α → Prog K) → Prog K
  run_eq : ∀ k m, (prog k).run m = (g m).bind fun v => (k v).run m
  writes : ∀ (W : Int → Prop) k, (∀ v, (k v).Writes W) → (prog k).Writes W

namespace Impl

def skip : Impl W (some : Mem K → Option (Mem K)) := ⟨.done, fun _ => rfl, trivial⟩

def undef : Impl W (fun _ : Mem K => none) := ⟨.fail, fun _ => rfl, trivial⟩

def congr {f g : Mem K → Option (Mem K)} (I : Impl W f) (h : ∀ m, f m = g m) : Impl W g :=
  ⟨I.prog, fun m => (I.run_eq m).trans (h m), I.writes⟩

def andThen {f g : Mem K → Option (Mem K)} (I : Impl W f) (J : Impl W g) : Impl W (fun m => (f m).bind g) :=
  ⟨I.prog.seq J.prog, fun m => by
    rw [Prog.run_seq, I.run_eq m, show J.prog.run = g from funext J.run_eq], Prog.writes_seq I.writes J.writes⟩

def read (a : Int) {g : K → Mem K → Option (Mem K)} (J : ∀ v, Impl W (g v)) : Impl W (fun m => (m.read a).bind fun v => g v m) :=
  ⟨.rd a fun v => (J v).prog, fun m => by simp only [Prog.run, (J _).run_eq], fun v => (J v).writes⟩

def write (a : Int) (v : K) (h : W a) : Impl W (fun m : Mem K => m.write a v) :=
  ⟨.wr a v .done, fun m => by
    simp only [Prog.run]
    cases m.write a v <;> rfl, h, trivial⟩

def cond {c : Prop} [Decidable c] {f g : Mem K → Option (Mem K)} (I : c → Impl W f) (J : ¬ c → Impl W g) :
    Impl W (fun m => if c then f m else g m) :=
  if h : c then (I h).congr fun _ => (if_pos h).symm else (J h).congr fun _ => (if_neg h).symm

def readWith {α : Type _} {g : Mem K → Option α} (R : Reader g) {k : α → Mem K → Option (Mem K)} (J : ∀ v, Impl W (k v)) :
    Impl W (fun m => (g m).bind fun v => k v m) :=
  ⟨R.prog fun v => (J v).prog, fun m => by
    rw [R.run_eq]; simp only [(J _).run_eq], R.writes W _ fun v => (J v).writes⟩

def modify (a : Int) (f : K → K) (h : W a) : Impl W (fun m : Mem K => m.modify a f) :=
  (read a fun x => write a (f x) h).congr fun _ => rfl

def loopN {op : Nat → Mem K → Option (Mem K)} : (n i : Nat) → (∀ k, i ≤ k → k < i + n → Impl W (op k)) → Impl W (TMV.loopN op n i)
  | 0, _, _ => skip
  | n+1, i, I => (andThen (I i (le_refl i) (by omega)) (loopN n (i+1) fun k h1 h2 => I k (by omega) (by omega))).congr fun _ => rfl

end Impl

namespace Reader

def pure {α : Type _} (v : α) : Reader (fun _ : Mem K => some v) := ⟨fun k => k v, fun _ _ => rfl, fun _ _ h => h v⟩

def congr {α : Type _} {g g' : Mem K → Option α} (R : Reader g) (h : ∀ m, g m = g' m) : Reader g' :=
  ⟨R.prog, fun k m => by rw [R.run_eq, h], R.writes⟩

def read (a : Int) : Reader (fun m : Mem K => m.read a) := ⟨fun k => .rd a k, fun _ _ => rfl, fun _ _ h => h⟩

def bind {α β : Type _} {g : Mem K → Option α} {h : α → Mem K → Option β} (R : Reader g) (S : ∀ v, Reader (h v)) :
    Reader (fun m => (g m).bind fun v => h v m) :=
  ⟨fun k => R.prog fun v => (S v).prog k, fun k m => by
    rw [R.run_eq]
    simp only [(S _).run_eq]
    cases g m <;> rfl, fun W k hk => R.writes W _ fun v => (S v).writes W k hk⟩

end Reader

namespace Impl

/-! ### Loops -/

/-- The elements `p`, `p+s`, ..., `p+(n-1)*s` are in `W`. -/
def Run (W : Int → Prop) (p s : Int) (n : Nat) : Prop := ∀ i : Nat, i < n → W (p + i * s)

theorem Run.head {p s : Int} {n : Nat} (h : Run W p s (n+1)) : W p := by simpa using h 0 (by omega)
theorem Run.tail {p s : Int} {n : Nat} (h : Run W p s (n+1)) : Run W (p + s) s n := fun i hi => by
  have := h (i+1) (by omega)
  rw [show p + s + i * s = p + ((i+1 : Nat) : Int) * s by push_cast; ring]
  exact this
theorem Run.part {p : Int} {n : Nat} (h : Run W p 1 n) (k l : Nat) (hk : k + l ≤ n) : Run W (p + k) 1 l := fun i hi => by
  have := h (k + i) (by omega)
  rw [show p + k + i * 1 = p + ((k+i : Nat) : Int) * 1 by push_cast; ring]
  exact this

def loopFill (x : K) (s : Int) : (n : Nat) → (p : Int) → Run W p s n → Impl W (TMV.loopFill x s n p)
  | 0, _, _ => skip
  | n+1, p, h => (andThen (write p x h.head) (loopFill x s n (p + s) h.tail)).congr fun _ => rfl

def loopMod (f : K → K) (s : Int) : (n : Nat) → (p : Int) → Run W p s n → Impl W (TMV.loopMod f s n p)
  | 0, _, _ => skip
  | n+1, p, h => (andThen (modify p f h.head) (loopMod f s n (p + s) h.tail)).congr fun _ => rfl

def loopCopy (s1 s2 : Int) : (n : Nat) → (p1 p2 : Int) → Run W p2 s2 n → Impl W (TMV.loopCopy (K := K) s1 s2 n p1 p2)
  | 0, _, _, _ => skip
  | n+1, p1, p2, h => (read p1 fun x => andThen (write p2 x h.head) (loopCopy s1 s2 n (p1 + s1) (p2 + s2) h.tail)).congr fun _ => rfl

def step2 (f : K → K → K) (p1 p2 : Int) (h : W p2) : Impl W (TMV.step2 f p1 p2) :=
  (read p1 fun x => read p2 fun y => write p2 (f x y) h).congr fun _ => rfl

def loop2 (f : K → K → K) (s1 s2 : Int) : (n : Nat) → (p1 p2 : Int) → Run W p2 s2 n → Impl W (TMV.loop2 f s1 s2 n p1 p2)
  | 0, _, _, _ => skip
  | n+1, p1, p2, h => (andThen (step2 f p1 p2 h.head) (loop2 f s1 s2 n (p1 + s1) (p2 + s2) h.tail)).congr fun _ => rfl

theorem Run.four {p : Int} {n : Nat} (h : Run W p 1 (4 * (n+1))) : W p ∧ W (p+1) ∧ W (p+2) ∧ W (p+3) ∧ Run W (p+4) 1 (4 * n) := by
  refine ⟨?_, ?_, ?_, ?_, h.part 4 (4 * n) (by omega)⟩
  · simpa using h 0 (by omega)
  · simpa using h 1 (by omega)
  · simpa using h 2 (by omega)
  · simpa using h 3 (by omega)

def loop2x4 (f : K → K → K) : (n : Nat) → (p1 p2 : Int) → Run W p2 1 (4 * n) → Impl W (TMV.loop2x4 f n p1 p2)
  | 0, _, _, _ => skip
  | n+1, p1, p2, h => (andThen (step2 f p1 p2 h.four.1) (andThen (step2 f (p1+1) (p2+1) h.four.2.1)
      (andThen (step2 f (p1+2) (p2+2) h.four.2.2.1) (andThen (step2 f (p1+3) (p2+3) h.four.2.2.2.1)
        (loop2x4 f n (p1 + 4) (p2 + 4) h.four.2.2.2.2))))).congr fun _ => rfl

def unit2 (f : K → K → K) (N : Nat) (p1 p2 : Int) (h : Run W p2 1 N) : Impl W (TMV.unit2 f N p1 p2) :=
  (andThen (cond (c := N / 4 ≠ 0) (fun _ => loop2x4 f (N / 4) p1 p2 fun i hi => h i (by omega)) (fun _ => skip))
    (cond (c := N - 4 * (N / 4) ≠ 0) (fun _ => loop2 f 1 1 (N - 4 * (N / 4)) (p1 + 4 * (N / 4 : Nat)) (p2 + 4 * (N / 4 : Nat)) (by
      have := h.part (4 * (N / 4)) (N - 4 * (N / 4)) (by omega)
      push_cast at this ⊢
      exact this)) (fun _ => skip))).congr fun _ => rfl

def loopMod4 (f : K → K) : (n : Nat) → (p : Int) → Run W p 1 (4 * n) → Impl W (TMV.loopMod4 f n p)
  | 0, _, _ => skip
  | n+1, p, h => (andThen (modify p f h.four.1) (andThen (modify (p+1) f h.four.2.1)
      (andThen (modify (p+2) f h.four.2.2.1) (andThen (modify (p+3) f h.four.2.2.2.1)
        (loopMod4 f n (p + 4) h.four.2.2.2.2))))).congr fun _ => rfl

/-! ### Vectors -/

/-- A nonempty vector with all its elements in `W`. -/
def VOK (W : Int → Prop) (v : VView) : Prop := 0 < v.size ∧ Run W v.ptr v.step v.size

theorem VOK.ptr {v : VView} (h : VOK W v) : W v.ptr := by simpa using h.2 0 h.1
theorem VOK.reverse {v : VView} (h : VOK W v) : VOK W v.reverse := by
  refine ⟨h.1, fun i hi => ?_⟩
  have hi' : i < v.size := hi
  have h1 := h.2 (v.size - 1 - i) (by omega)
  have : v.reverse.ptr + i * v.reverse.step = v.ptr + ((v.size - 1 - i : Nat) : Int) * v.step := by
    show v.ptr + ((v.size : Int) - 1) * v.step + i * (-v.step) = _
    rw [show ((v.size - 1 - i : Nat) : Int) = (v.size : Int) - 1 - i by omega]
    ring
  rw [this]; exact h1
theorem VOK.conjugate {v : VView} (h : VOK W v) : VOK W v.conjugate := h
theorem VOK.unit {v : VView} (h : VOK W v) (h1 : v.step = 1) : Run W v.ptr 1 v.size := h1 ▸ h.2

variable [Star K]

def setAllToNonneg (v : VView) (x : K) (h : VOK W v) : Impl W (v.setAllToNonneg x) :=
  (cond (fun _ => write v.ptr x h.ptr) fun _ => cond (c := v.step = 1) (fun h1 => loopFill x 1 v.size v.ptr (h.unit h1)) fun _ =>
    cond (c := v.conj = true) (fun _ => loopFill (star x) v.step v.size v.ptr h.2) fun _ => loopFill x v.step v.size v.ptr h.2).congr
  fun _ => rfl

def setAllTo (v : VView) (x : K) (h : VOK W v) : Impl W (v.setAllTo x) :=
  (cond (fun _ => setAllToNonneg v.reverse x h.reverse) fun _ => setAllToNonneg v x h).congr fun _ => rfl

def setZero [Zero K] (v : VView) (h : VOK W v) : Impl W (v.setZero (K := K)) :=
  (cond (c := v.step = 1) (fun h1 => loopFill 0 1 v.size v.ptr (h.unit h1)) fun _ => setAllTo v 0 h).congr fun _ => rfl

def nonLapConjugate (v : VView) (h : VOK W v) : Impl W (v.nonLapConjugate (K := K)) :=
  (cond (c := v.step = 1) (fun h1 => loopMod star 1 v.size v.ptr (h.unit h1)) fun _ =>
    cond (fun _ => modify v.ptr star h.ptr) fun _ => loopMod star v.step v.size v.ptr h.2).congr fun _ => rfl

def conjugateSelf (v : VView) (h : VOK W v) : Impl W (v.conjugateSelf (K := K)) :=
  (cond (fun _ => nonLapConjugate v.reverse h.reverse) fun _ => nonLapConjugate v h).congr fun _ => rfl

omit [Star K] in
def doCopy (v1 v2 : VView) (h : VOK W v2) : Impl W (VView.doCopy (K := K) v1 v2) :=
  (cond (fun _ => skip) fun _ => cond (c := v1.step = 1 ∧ v2.step = 1) (fun h1 => loopCopy 1 1 v2.size v1.ptr v2.ptr (h.unit h1.2))
    fun _ => loopCopy v1.step v2.step v2.size v1.ptr v2.ptr h.2).congr fun _ => rfl

/-- `Copy(v1,v2)` if the vectors are not to be reversed. -/
def copyFwd (v1 v2 : VView) (h : VOK W v2) (hr : VView.shouldReverse v1.step v2.step = false) : Impl W (VView.copy (K := K) v1 v2) :=
  (cond (c := v1.size > 0) (fun _ => cond (c := v1.conj = true)
    (fun _ => cond (c := v2.conj = true) (fun _ => doCopy v1.conjugate v2.conjugate h.conjugate)
      fun _ => andThen (doCopy v1.conjugate v2 h) (conjugateSelf v2 h))
    (fun _ => cond (c := v2.conj = true) (fun _ => andThen (doCopy v1 v2.conjugate h.conjugate) (conjugateSelf v2 h))
      fun _ => doCopy v1 v2 h)) fun _ => skip).congr fun m => by
    rw [VView.copy, dif_neg (by rw [hr]; simp)]
    rfl

def copy (v1 v2 : VView) (h : VOK W v2) : Impl W (VView.copy (K := K) v1 v2) :=
  if hr : VView.shouldReverse v1.step v2.step = true then
    (cond (c := v1.size > 0) (fun _ => copyFwd v1.reverse v2.reverse h.reverse (VView.shouldReverse_neg _ _ hr)) fun _ => skip).congr fun m => by
      conv_rhs => rw [VView.copy]
      rw [dif_pos hr]
  else copyFwd v1 v2 h (by simpa using hr)

def doMulX [Mul K] (x : K) (v : VView) (h : VOK W v) : Impl W (VView.doMulX x v) :=
  (cond (c := v.step = 1) (fun h1 => andThen
      (cond (c := v.size / 4 ≠ 0) (fun _ => loopMod4 (· * x) (v.size / 4) v.ptr fun i hi => h.unit h1 i (by omega)) fun _ => skip)
      (cond (c := v.size - 4 * (v.size / 4) ≠ 0)
        (fun _ => loopMod (· * x) 1 (v.size - 4 * (v.size / 4)) (v.ptr + 4 * (v.size / 4 : Nat)) (by
          have := (h.unit h1).part (4 * (v.size / 4)) (v.size - 4 * (v.size / 4)) (by omega)
          push_cast at this ⊢
          exact this)) fun _ => skip))
    fun _ => loopMod (· * x) v.step v.size v.ptr h.2).congr fun _ => rfl

variable [Ring K] [DecidableEq K]

def mulX0 (x : K) (v : VView) (h : VOK W v) (h1 : ¬ v.step < 0) (h2 : v.conj = false) : Impl W (VView.mulX x v) :=
  (cond (c := v.size > 0 ∧ x ≠ 1) (fun _ => cond (c := x = 0) (fun _ => setZero v h) fun _ => doMulX x v h) fun _ => skip).congr fun m => by
    rw [VView.mulX, dif_neg h1, dif_neg (by rw [h2]; simp)]

def mulX1 (x : K) (v : VView) (h : VOK W v) (h1 : ¬ v.step < 0) : Impl W (VView.mulX x v) :=
  if h2 : v.conj = true then
    (cond (c := v.size > 0 ∧ x ≠ 1) (fun _ => mulX0 (star x) v.conjugate h.conjugate h1 (by simp [VView.conjugate, h2])) fun _ => skip).congr fun m => by
      conv_rhs => rw [VView.mulX]
      rw [dif_neg h1, dif_pos h2]
  else mulX0 x v h h1 (by simpa using h2)

def mulX (x : K) (v : VView) (h : VOK W v) : Impl W (VView.mulX x v) :=
  if h1 : v.step < 0 then
    (cond (c := v.size > 0 ∧ x ≠ 1) (fun _ => mulX1 x v.reverse h.reverse (by show ¬ -v.step < 0; omega)) fun _ => skip).congr fun m => by
      conv_rhs => rw [VView.mulX]
      rw [dif_pos h1]
  else mulX1 x v h h1

def doAddVV (x : K) (v1 v2 : VView) (h : VOK W v2) : Impl W (VView.doAddVV x v1 v2) :=
  (cond (c := v1.step = 1 ∧ v2.step = 1)
    (fun h1 => cond (fun _ => unit2 _ v2.size v1.ptr v2.ptr (h.unit h1.2)) fun _ => cond (fun _ => unit2 _ v2.size v1.ptr v2.ptr (h.unit h1.2))
      fun _ => unit2 _ v2.size v1.ptr v2.ptr (h.unit h1.2))
    (fun _ => cond (fun _ => loop2 _ v1.step v2.step v2.size v1.ptr v2.ptr h.2) fun _ =>
      cond (fun _ => loop2 _ v1.step v2.step v2.size v1.ptr v2.ptr h.2) fun _ => loop2 _ v1.step v2.step v2.size v1.ptr v2.ptr h.2)).congr
  fun _ => rfl

def addVV0 (x : K) (v1 v2 : VView) (h : VOK W v2) (h1 : v2.conj = false) (h2 : VView.shouldReverse v1.step v2.step = false) :
    Impl W (VView.addVV x v1 v2) :=
  (cond (c := v2.size > 0 ∧ x ≠ 0) (fun _ => cond (c := v2.isSameAs v1 = true)
      (fun _ => cond (c := x = -1) (fun _ => setZero v2 h) fun _ => mulX (x + 1) v2 h) fun _ => doAddVV x v1 v2 h) fun _ => skip).congr fun m => by
    rw [VView.addVV, dif_neg (by rw [h1]; simp), dif_neg (by rw [h2]; simp)]

def addVV1 (x : K) (v1 v2 : VView) (h : VOK W v2) (h1 : v2.conj = false) : Impl W (VView.addVV x v1 v2) :=
  if h2 : VView.shouldReverse v1.step v2.step = true then
    (cond (c := v2.size > 0 ∧ x ≠ 0) (fun _ => cond (c := v2.isSameAs v1 = true)
      (fun _ => cond (c := x = -1) (fun _ => setZero v2 h) fun _ => mulX (x + 1) v2 h)
        fun _ => addVV0 x v1.reverse v2.reverse h.reverse h1 (VView.shouldReverse_neg _ _ h2)) fun _ => skip).congr fun m => by
      conv_rhs => rw [VView.addVV]
      rw [dif_neg (by rw [h1]; simp), dif_pos h2]
  else addVV0 x v1 v2 h h1 (by simpa using h2)

def addVV (x : K) (v1 v2 : VView) (h : VOK W v2) : Impl W (VView.addVV x v1 v2) :=
  if h1 : v2.conj = true then
    (cond (c := v2.size > 0 ∧ x ≠ 0) (fun _ => cond (c := v2.isSameAs v1 = true)
      (fun _ => cond (c := x = -1) (fun _ => setZero v2 h) fun _ => mulX (x + 1) v2 h)
        fun _ => addVV1 (star x) v1.conjugate v2.conjugate h.conjugate (by simp [VView.conjugate, h1])) fun _ => skip).congr fun m => by
      conv_rhs => rw [VView.addVV]
      rw [dif_pos h1]
  else addVV1 x v1 v2 h (by simpa using h1)

end Impl
end TMV

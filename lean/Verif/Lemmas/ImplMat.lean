import Verif.Lemmas.Impl
import Verif.Model.Omp

/-! Programs of single accesses for the operations on matrices (see `Lemmas/Impl`). -/
namespace TMV
variable {K : Type _} {W : Int → Prop}
namespace Impl

/-- A nonempty matrix with all its elements in `W`. -/
structure MOK (W : Int → Prop) (M : MView) : Prop where
  cs : 0 < M.cs
  rs : 0 < M.rs
  cell : ∀ i j : Nat, i < M.cs → j < M.rs → W (M.addr i j)

theorem MOK.row {M : MView} (h : MOK W M) (i : Nat) (hi : i < M.cs) : VOK W (M.row i) := ⟨h.rs, fun j hj => h.cell i j hi hj⟩
theorem MOK.col {M : MView} (h : MOK W M) (j : Nat) (hj : j < M.rs) : VOK W (M.col j) := ⟨h.cs, fun i hi => by
  have := h.cell i j hi hj
  rw [show (M.col j).ptr + i * (M.col j).step = M.addr i j by simp only [MView.col, MView.addr]; ring]
  exact this⟩
theorem MOK.transpose {M : MView} (h : MOK W M) : MOK W M.transpose := ⟨h.rs, h.cs, fun i j hi hj => by
  have := h.cell j i hj hi
  rw [show M.transpose.addr i j = M.addr j i by simp only [MView.transpose, MView.addr]; ring]
  exact this⟩
theorem MOK.conjugate {M : MView} (h : MOK W M) : MOK W M.conjugate := ⟨h.cs, h.rs, h.cell⟩
theorem MOK.linear {M : MView} (h : MOK W M) (hL : M.LSOK) (hc : M.canLinearize = true) : VOK W M.linearView := by
  refine ⟨?_, fun i hi => ?_⟩
  · have : M.linearView.Covers (M.addr 0 0) := (linearView_covers hL hc _).mpr ⟨0, 0, h.cs, h.rs, rfl⟩
    obtain ⟨i, hi, _⟩ := this
    omega
  · obtain ⟨r, s, hr, hs, e⟩ := (linearView_covers hL hc _).mp ⟨i, hi, rfl⟩
    have : M.linearView.ptr + i * M.linearView.step = M.linearView.addr i := rfl
    rw [this, e]
    exact h.cell r s hr hs

def loopV {f : Nat → VView} {op : VView → Mem K → Option (Mem K)} : (n i : Nat) → (∀ k, i ≤ k → k < i + n → Impl W (op (f k))) →
    Impl W (TMV.loopV f op n i)
  | 0, _, _ => skip
  | n+1, i, I => (andThen (I i (le_refl i) (by omega)) (loopV n (i+1) fun k h1 h2 => I k (by omega) (by omega))).congr fun _ => rfl

def loopV2 {f g : Nat → VView} {op : VView → VView → Mem K → Option (Mem K)} : (n i : Nat) →
    (∀ k, i ≤ k → k < i + n → Impl W (op (f k) (g k))) → Impl W (TMV.loopV2 f g op n i)
  | 0, _, _ => skip
  | n+1, i, I => (andThen (I i (le_refl i) (by omega)) (loopV2 n (i+1) fun k h1 h2 => I k (by omega) (by omega))).congr fun _ => rfl

def each {op : VView → Mem K → Option (Mem K)} (I : ∀ v, VOK W v → Impl W (op v)) (M : MView) (h : MOK W M) (hL : M.LSOK) :
    Impl W (M.each op) :=
  (cond (c := M.canLinearize = true) (fun hc => I _ (h.linear hL hc)) fun _ => cond (c := M.isrm = true)
    (fun _ => loopV M.cs 0 fun k _ hk => I _ (h.row k (by omega))) fun _ => loopV M.rs 0 fun k _ hk => I _ (h.col k (by omega))).congr
  fun _ => rfl

def copyColsCM : (n cs : Nat) → (p1 p2 s1 s2 : Int) → (∀ i j : Nat, i < cs → j < n → W (p2 + i + j * s2)) →
    Impl W (MView.copyColsCM (K := K) n cs p1 p2 s1 s2)
  | 0, _, _, _, _, _, _ => skip
  | n+1, cs, p1, p2, s1, s2, h => (andThen (loopCopy 1 1 cs p1 p2 fun i hi => by simpa using h i 0 hi (by omega))
      (copyColsCM n cs (p1 + s1) (p2 + s2) s1 s2 fun i j hi hj => by
        have := h i (j+1) hi (by omega)
        rw [show p2 + s2 + i + j * s2 = p2 + i + ((j+1 : Nat) : Int) * s2 by push_cast; ring]
        exact this)).congr fun _ => rfl

def nonLapCopy (A B : MView) (h : MOK W B) : Impl W (MView.nonLapCopy (K := K) A B) :=
  (cond (c := A.iscm = true ∧ B.iscm = true) (fun hc => copyColsCM B.rs B.cs A.ptr B.ptr A.sj B.sj fun i j hi hj => by
      have := h.cell i j hi hj
      have h1 : B.si = 1 := by simpa [MView.iscm] using hc.2
      simpa [MView.addr, h1] using this)
    fun _ => cond (c := B.cs > B.rs)
      (fun _ => cond (fun _ => loopV2 B.rs 0 fun k _ hk => doCopy _ _ (h.col k (by omega)).reverse)
        fun _ => loopV2 B.rs 0 fun k _ hk => doCopy _ _ (h.col k (by omega)))
      (fun _ => cond (fun _ => loopV2 B.cs 0 fun k _ hk => doCopy _ _ (h.row k (by omega)).reverse)
        fun _ => loopV2 B.cs 0 fun k _ hk => doCopy _ _ (h.row k (by omega)))).congr fun _ => rfl

def nonconjCopy (A B : MView) (h : MOK W B) : Impl W (MView.nonconjCopy (K := K) A B) :=
  (cond (fun _ => nonLapCopy A.transpose B.transpose h.transpose) fun _ => nonLapCopy A B h).congr fun _ => rfl

variable [Star K]

/-- `B` may have a wrong linear size if `A` cannot be treated as a vector. -/
def copyDiff (A B : MView) (h : MOK W B) (hL : B.LSOK ∨ (A.canLinearize = false ∧ B.conj = false ∧ A.conj = false)) :
    Impl W (MView.copyDiff (K := K) A B) :=
  (cond (c := A.canLinearize = true ∧ B.canLinearize = true ∧ A.si = B.si ∧ A.sj = B.sj)
    (fun hc => copy _ _ (h.linear (hL.resolve_right fun h' => by rw [h'.1] at hc; exact absurd hc.1 (by simp)) hc.2.1))
    fun _ => cond (c := A.conj = true)
      (fun hc => cond (c := B.conj = true) (fun _ => nonconjCopy A.conjugate B.conjugate h.conjugate)
        fun _ => andThen (nonconjCopy A.conjugate B h) (each (fun v hv => conjugateSelf v hv) B h
          (hL.resolve_right fun h' => by rw [h'.2.2] at hc; exact absurd hc (by simp))))
      fun _ => cond (c := B.conj = true)
        (fun hc => andThen (nonconjCopy A B.conjugate h.conjugate) (each (fun v hv => conjugateSelf v hv) B h
          (hL.resolve_right fun h' => by rw [h'.2.1] at hc; exact absurd hc (by simp))))
        fun _ => nonconjCopy A B h).congr fun _ => rfl

def copyNA (A B : MView) (h : MOK W B) (hL : B.LSOK ∨ (A.canLinearize = false ∧ B.conj = false ∧ A.conj = false)) :
    Impl W (MView.copyNA (K := K) A B) :=
  (cond (fun _ => cond (fun _ => undef) fun _ => copyDiff A B h hL) fun _ => skip).congr fun _ => rfl

variable [Ring K] [DecidableEq K]

def rowMajorMulX (x : K) (A : MView) (h : MOK W A) (hr : A.sj = 1) : Impl W (MView.rowMajorMulX x A) :=
  (loopN A.cs 0 fun k _ hk => loopMod _ 1 A.rs _ fun i hi => by
    have := h.cell k i (by omega) hi
    simpa [MView.addr, hr] using this).congr fun _ => rfl

def matDoMulX (x : K) (A : MView) (h : MOK W A) (hL : A.LSOK) : Impl W (MView.doMulX x A) :=
  (cond (c := x = 0) (fun _ => each (fun v hv => setZero v hv) A h hL) fun _ =>
    cond (c := A.canLinearize = true) (fun hc => mulX x _ (h.linear hL hc)) fun _ =>
    cond (c := A.isrm = true) (fun hr => rowMajorMulX x A h (by simpa [MView.isrm] using hr)) fun _ =>
    cond (c := A.iscm = true) (fun hr => rowMajorMulX x A.transpose h.transpose (by
      have : A.si = 1 := by simpa [MView.iscm] using hr
      exact this)) fun _ =>
    cond (c := A.cs < A.rs) (fun _ => loopN A.cs 0 fun k _ hk => mulX x _ (h.row k (by omega)))
      fun _ => loopN A.rs 0 fun k _ hk => mulX x _ (h.col k (by omega))).congr fun _ => rfl

def matMulX (x : K) (A : MView) (h : MOK W A) (hL : A.LSOK) : Impl W (MView.mulX x A) :=
  (cond (c := A.cs > 0 ∧ A.rs > 0 ∧ x ≠ 1) (fun _ => cond (c := A.conj = true) (fun _ => matDoMulX (star x) A.conjugate h.conjugate hL)
    fun _ => matDoMulX x A h hL) fun _ => skip).congr fun _ => rfl

def rowAdd (rm : Bool) (x : K) (A B : MView) (h : MOK W B) (hcs : A.cs = B.cs) (hrs : A.rs = B.rs) (hr : rm = true → B.sj = 1) :
    Impl W (MView.rowAdd rm x A B) :=
  (loopN A.cs 0 fun k _ hk => loop2 _ _ (if rm then 1 else B.sj) A.rs _ _ fun i hi => by
    have := h.cell k i (by omega) (by omega)
    have e : (if rm = true then (1 : Int) else B.sj) = B.sj := by
      cases rm with
      | false => rfl
      | true => exact (hr rfl).symm
    rw [e]
    exact this).congr fun _ => rfl

def doAdd (x : K) (A B : MView) (h : MOK W B) (hL : B.LSOK) (hcs : A.cs = B.cs) (hrs : A.rs = B.rs) : Impl W (MView.doAdd x A B) :=
  (cond (c := A.canLinearize = true ∧ B.canLinearize = true ∧ A.si = B.si ∧ A.sj = B.sj) (fun hc => addVV x _ _ (h.linear hL hc.2.1)) fun _ =>
    cond (c := A.isrm = true ∧ B.isrm = true) (fun hr => rowAdd true x A B h hcs hrs fun _ => by simpa [MView.isrm] using hr.2) fun _ =>
    cond (c := A.iscm = true ∧ B.iscm = true) (fun hr => rowAdd true x A.transpose B.transpose h.transpose hrs hcs fun _ => by
      have : B.si = 1 := by simpa [MView.iscm] using hr.2
      exact this) fun _ =>
    cond (c := A.rs > A.cs) (fun _ => rowAdd false x A B h hcs hrs fun h => by simp at h)
      fun _ => rowAdd false x A.transpose B.transpose h.transpose hrs hcs fun h => by simp at h).congr fun _ => rfl

def addNA (x : K) (A B : MView) (h : MOK W B) (hL : B.LSOK) (hcs : A.cs = B.cs) (hrs : A.rs = B.rs) : Impl W (MView.addNA x A B) :=
  (cond (c := x ≠ 0 ∧ B.cs > 0 ∧ B.rs > 0) (fun _ => cond (c := A.sameStorage B = true) (fun _ => undef) fun _ =>
    cond (c := B.conj = true) (fun _ => doAdd (star x) A.conjugate B.conjugate h.conjugate hL hcs hrs) fun _ => doAdd x A B h hL hcs hrs)
    fun _ => skip).congr fun _ => rfl

def storeNA (add : Bool) (x : K) (P C : MView) (h : MOK W C) (hL : C.LSOK) (hcs : P.cs = C.cs) (hrs : P.rs = C.rs) :
    Impl W (MView.storeNA add x P C) :=
  (cond (c := add = true) (fun _ => addNA x P C h hL hcs hrs) fun _ => cond (c := x ≠ 1)
    (fun _ => andThen (copyNA P C h (Or.inl hL)) (matMulX x C h hL)) fun _ => copyNA P C h (Or.inl hL)).congr fun _ => rfl

omit [Star K] [Ring K] [DecidableEq K] in
def partCopy (f : K → K) (S D : MView) (h : MOK W D) : Impl W (MView.partCopy f S D) :=
  (loopN D.cs 0 fun i _ hi => (loopN D.rs 0 fun j _ hj => read (S.addr i j) fun a =>
    write (D.addr i j) (f a) (h.cell i j (by omega) (by omega)))).congr fun _ => rfl

omit [Star K] [Ring K] [DecidableEq K] in
def partStore (g : K → K → K) (P D : MView) (h : MOK W D) : Impl W (MView.partStore g P D) :=
  (loopN D.cs 0 fun i _ hi => (loopN D.rs 0 fun j _ hj => read (P.addr i j) fun p =>
    modify (D.addr i j) _ (h.cell i j (by omega) (by omega)))).congr fun _ => rfl

/-! ### The kernel -/

omit [Star K] [DecidableEq K] in
def dotUp : (n : Nat) → (a b : Int) → (c : K) → Reader (fun m => TMV.dotUp m n a b c)
  | 0, _, _, c => Reader.pure c
  | n+1, a, b, c => ((Reader.read a).bind fun x => (Reader.read b).bind fun y => dotUp n (a + 1) (b + 1) (c + x * y)).congr fun _ => rfl

omit [Star K] [Ring K] [DecidableEq K] in
def tileDots {dot : Mem K → Int → Int → Option K} (D : ∀ a b, Reader (fun m => dot m a b)) (A B Asi Bsj : Int) :
    (l : List (Nat × Nat)) → Reader (fun m => TMV.tileDots dot A B Asi Bsj m l)
  | [] => Reader.pure []
  | (i, j) :: l => ((D (A + i * Asi) (B + j * Bsj)).bind fun c => (tileDots D A B Asi Bsj l).bind fun cs => Reader.pure (c :: cs)).congr fun _ => rfl

omit [Star K] [DecidableEq K] in
def tileAdd (C Csj : Int) : (l : List (Nat × Nat)) → (cs : List K) → (∀ t ∈ l, W (C + t.1 + t.2 * Csj)) → Impl W (TMV.tileAdd C Csj l cs)
  | (i, j) :: l, c :: cs, h => (andThen (modify (C + i + j * Csj) (· + c) (h (i, j) (by simp)))
      (tileAdd C Csj l cs fun t ht => h t (by simp [ht]))).congr fun _ => rfl
  | [], _, _ => skip.congr fun _ => by rw [TMV.tileAdd]; simp
  | _ :: _, [], _ => skip.congr fun _ => by rw [TMV.tileAdd]; simp

omit [Star K] [DecidableEq K] in
def runTiles {dot : Mem K → Int → Int → Option K} (D : ∀ a b, Reader (fun m => dot m a b)) (A B C Asi Bsj Csj : Int) :
    (l : List (List Nat × List Nat)) → (∀ t ∈ l, ∀ p ∈ tilePairs t.1 t.2, W (C + p.1 + p.2 * Csj)) →
    Impl W (TMV.runTiles dot A B C Asi Bsj Csj l)
  | [], _ => skip
  | (rows, cols) :: l, h => (readWith (tileDots D A B Asi Bsj (tilePairs rows cols)) fun cs =>
      andThen (tileAdd C Csj (tilePairs rows cols) cs fun p hp => h (rows, cols) (by simp) p hp)
        (runTiles D A B C Asi Bsj Csj l fun t ht => h t (by simp [ht]))).congr fun _ => rfl

end Impl
end TMV

import Verif.Props.Band

/-! Band matrices: element-wise operations, transposeSelf, reductions, number of elements
(properties C61, C62). -/
namespace TMV
variable {K : Type _}

/-! ### The row/column loop with early exit -/

/-- First column of the band in row `i`. -/
def bandJ1 (lo : Int) (i : Int) : Int := max (i - lo) 0
/-- One past the last column of the band in row `i`. -/
def bandJ2 (N : Nat) (hi : Int) (i : Int) : Int := min (i + hi + 1) N

theorem bandLoop_eq (row : Int → Int → Int → VView) (op : VView → Mem K → Option (Mem K)) (N : Nat)
    (lo hi : Int) (hlo : 0 ≤ lo) (hhi : 0 ≤ hi) (hN : 0 < N) :
    ∀ (n : Nat) (i : Nat) (m : Mem K), (i : Int) < N + lo →
      BView.bandLoop row op N n i (bandJ1 lo i) (bandJ2 N hi i) (max (lo - i) 0) m =
      loopV (fun i => row i (bandJ1 lo i) (bandJ2 N hi i)) op
        (min (n : Int) (N + lo - i)).toNat i m := by
  intro n
  induction n with
  | zero =>
    intro i m hi'
    have : (min ((0 : Nat) : Int) (N + lo - i)).toNat = 0 := by omega
    rw [this]; rfl
  | succ n ih =>
    intro i m hi'
    obtain ⟨k, hk⟩ : ∃ k : Nat, (min ((n + 1 : Nat) : Int) (N + lo - i)).toNat = k + 1 :=
      ⟨(min ((n + 1 : Nat) : Int) (N + lo - i)).toNat - 1, by omega⟩
    rw [hk]
    simp only [BView.bandLoop, loopV]
    congr 1
    funext m1
    have hJ1 : (if max (lo - (i : Int)) 0 > 0 then bandJ1 lo i else bandJ1 lo i + 1) =
        bandJ1 lo ((i : Int) + 1) := by
      unfold bandJ1; split <;> omega
    have hK : (if max (lo - (i : Int)) 0 > 0 then max (lo - (i : Int)) 0 - 1 else max (lo - (i : Int)) 0) =
        max (lo - ((i + 1 : Nat) : Int)) 0 := by
      split <;> omega
    rw [hJ1, hK]
    by_cases h2 : bandJ2 N hi i < N
    · rw [if_pos h2]
      have e2 : bandJ2 N hi i + 1 = bandJ2 N hi ((i : Int) + 1) := by
        unfold bandJ2 at h2 ⊢; omega
      rw [e2]
      have hlt : ((i + 1 : Nat) : Int) < N + lo := by unfold bandJ2 at h2; omega
      have := ih (i + 1) m1 hlt
      push_cast at this ⊢
      rw [this]
      congr 1; omega
    · rw [if_neg h2]
      by_cases h3 : bandJ1 lo ((i : Int) + 1) = N
      · rw [if_pos h3]
        have : k = 0 := by unfold bandJ1 at h3; omega
        subst this; rfl
      · rw [if_neg h3]
        have e2 : bandJ2 N hi i = bandJ2 N hi ((i : Int) + 1) := by
          unfold bandJ2 at h2 ⊢; omega
        rw [e2]
        have hlt : ((i + 1 : Nat) : Int) < N + lo := by
          unfold bandJ1 at h3; omega
        have := ih (i + 1) m1 hlt
        push_cast at this ⊢
        rw [this]
        congr 1; omega

theorem bandLoopFold_eq {β γ : Type _} (row : Int → Int → Int → VView)
    (red : VView → Mem K → Option β) (g : γ → β → γ) (N : Nat)
    (lo hi : Int) (hlo : 0 ≤ lo) (hhi : 0 ≤ hi) (hN : 0 < N) (m : Mem K) :
    ∀ (n : Nat) (i : Nat) (b : γ), (i : Int) < N + lo →
      BView.bandLoopFold row red g N m n i (bandJ1 lo i) (bandJ2 N hi i) (max (lo - i) 0) b =
      loopVFold (fun i => row i (bandJ1 lo i) (bandJ2 N hi i)) red g m
        (min (n : Int) (N + lo - i)).toNat i b := by
  intro n
  induction n with
  | zero =>
    intro i m hi'
    have : (min ((0 : Nat) : Int) (N + lo - i)).toNat = 0 := by omega
    rw [this]; rfl
  | succ n ih =>
    intro i b hi'
    obtain ⟨k, hk⟩ : ∃ k : Nat, (min ((n + 1 : Nat) : Int) (N + lo - i)).toNat = k + 1 :=
      ⟨(min ((n + 1 : Nat) : Int) (N + lo - i)).toNat - 1, by omega⟩
    rw [hk]
    simp only [BView.bandLoopFold, loopVFold]
    congr 1
    funext x
    have hJ1 : (if max (lo - (i : Int)) 0 > 0 then bandJ1 lo i else bandJ1 lo i + 1) =
        bandJ1 lo ((i : Int) + 1) := by
      unfold bandJ1; split <;> omega
    have hK : (if max (lo - (i : Int)) 0 > 0 then max (lo - (i : Int)) 0 - 1 else max (lo - (i : Int)) 0) =
        max (lo - ((i + 1 : Nat) : Int)) 0 := by
      split <;> omega
    rw [hJ1, hK]
    by_cases h2 : bandJ2 N hi i < N
    · rw [if_pos h2]
      have e2 : bandJ2 N hi i + 1 = bandJ2 N hi ((i : Int) + 1) := by
        unfold bandJ2 at h2 ⊢; omega
      rw [e2]
      have hlt : ((i + 1 : Nat) : Int) < N + lo := by unfold bandJ2 at h2; omega
      have := ih (i + 1) (g b x) hlt
      push_cast at this ⊢
      rw [this]
      congr 1; omega
    · rw [if_neg h2]
      by_cases h3 : bandJ1 lo ((i : Int) + 1) = N
      · rw [if_pos h3]
        have : k = 0 := by unfold bandJ1 at h3; omega
        subst this; rfl
      · rw [if_neg h3]
        have e2 : bandJ2 N hi i = bandJ2 N hi ((i : Int) + 1) := by
          unfold bandJ2 at h2 ⊢; omega
        rw [e2]
        have hlt : ((i + 1 : Nat) : Int) < N + lo := by
          unfold bandJ1 at h3; omega
        have := ih (i + 1) (g b x) hlt
        push_cast at this ⊢
        rw [this]
        congr 1; omega

/-! ### Pieces -/

/-- Row `i` of the band. -/
def BView.rowB (M : BView) (i : Nat) : VView := M.row3 i (bandJ1 M.lo i) (bandJ2 M.rs M.hi i)
/-- Column `j` of the band. -/
def BView.colB (M : BView) (j : Nat) : VView := M.col3 j (bandJ1 M.hi j) (bandJ2 M.cs M.lo j)
/-- The `t`-th diagonal from below. -/
def BView.diagB (M : BView) (t : Nat) : VView := M.diagOff (t - M.lo)
/-- Number of nonempty rows, columns. -/
def BView.nrow (M : BView) : Nat := (min (M.cs : Int) (M.rs + M.lo)).toNat
def BView.ncol (M : BView) : Nat := (min (M.rs : Int) (M.cs + M.hi)).toNat

/-- The three-way loop is a loop over the rows, the columns or the diagonals of the band. -/
theorem eachLoop_eq (op : VView → Mem K → Option (Mem K)) (M : BView) (hW : M.WF) (m : Mem K)
    (h0 : 0 < M.cs ∧ 0 < M.rs) :
    M.eachLoop op m = if M.isrm then loopV M.rowB op M.nrow 0 m
      else if M.iscm then loopV M.colB op M.ncol 0 m
      else loopV M.diagB op (M.lo + M.hi + 1).toNat 0 m := by
  obtain ⟨w1, w2, w3, w4, w5, w6⟩ := hW
  unfold BView.eachLoop
  rw [if_pos (by omega)]
  have e1 := bandLoop_eq M.row3 op M.rs M.lo M.hi w1 w2 h0.2 M.cs 0 m (by simp; omega)
  have e2 := bandLoop_eq M.col3 op M.cs M.hi M.lo w2 w1 h0.1 M.rs 0 m (by simp; omega)
  have a1 : bandJ1 M.lo ((0 : Nat) : Int) = 0 := by unfold bandJ1; simp; omega
  have a2 : bandJ1 M.hi ((0 : Nat) : Int) = 0 := by unfold bandJ1; simp; omega
  have a3 : bandJ2 M.rs M.hi ((0 : Nat) : Int) = M.hi + 1 := by unfold bandJ2; simp; omega
  have a4 : bandJ2 M.cs M.lo ((0 : Nat) : Int) = M.lo + 1 := by unfold bandJ2; simp; omega
  have a5 : max (M.lo - ((0 : Nat) : Int)) 0 = M.lo := by simp; omega
  have a6 : max (M.hi - ((0 : Nat) : Int)) 0 = M.hi := by simp; omega
  rw [a1, a3, a5] at e1
  rw [a2, a4, a6] at e2
  simp only [Nat.cast_zero, sub_zero] at e1 e2
  rw [e1, e2]
  rfl

theorem reduce_eq {β γ : Type _} (red : VView → Mem K → Option β) (g : γ → β → γ) (b0 : γ)
    (M : BView) (hW : M.WF) (m : Mem K) (h0 : 0 < M.cs ∧ 0 < M.rs) :
    M.reduce red g b0 m = if M.isrm then loopVFold M.rowB red g m M.nrow 0 b0
      else if M.iscm then loopVFold M.colB red g m M.ncol 0 b0
      else loopVFold M.diagB red g m (M.lo + M.hi + 1).toNat 0 b0 := by
  obtain ⟨w1, w2, w3, w4, w5, w6⟩ := hW
  unfold BView.reduce
  rw [if_pos (by omega)]
  have e1 := bandLoopFold_eq M.row3 red g M.rs M.lo M.hi w1 w2 h0.2 m M.cs 0 b0 (by simp; omega)
  have e2 := bandLoopFold_eq M.col3 red g M.cs M.hi M.lo w2 w1 h0.1 m M.rs 0 b0 (by simp; omega)
  have a1 : bandJ1 M.lo ((0 : Nat) : Int) = 0 := by unfold bandJ1; simp; omega
  have a2 : bandJ1 M.hi ((0 : Nat) : Int) = 0 := by unfold bandJ1; simp; omega
  have a3 : bandJ2 M.rs M.hi ((0 : Nat) : Int) = M.hi + 1 := by unfold bandJ2; simp; omega
  have a4 : bandJ2 M.cs M.lo ((0 : Nat) : Int) = M.lo + 1 := by unfold bandJ2; simp; omega
  have a5 : max (M.lo - ((0 : Nat) : Int)) 0 = M.lo := by simp; omega
  have a6 : max (M.hi - ((0 : Nat) : Int)) 0 = M.hi := by simp; omega
  rw [a1, a3, a5] at e1
  rw [a2, a4, a6] at e2
  simp only [Nat.cast_zero, sub_zero] at e1 e2
  rw [e1, e2]
  rfl

/-- A family of vectors that together contain every stored element of `M` exactly once. -/
structure BView.Parts (M : BView) (f : Nat → VView) (n : Nat) (at_ : Nat → Nat → Int × Int) :
    Prop where
  conj : ∀ k, k < n → (f k).conj = M.conj
  pos : ∀ k, k < n → 0 < (f k).size
  mem : ∀ k, k < n → ∀ j, j < (f k).size → M.In (at_ k j).1 (at_ k j).2 ∧
    (f k).addr j = M.addr (at_ k j).1 (at_ k j).2
  cover : ∀ i j, M.In i j → ∃ k l, k < n ∧ l < (f k).size ∧ at_ k l = (i, j)
  inj : ∀ k l k' l', k < n → l < (f k).size → k' < n → l' < (f k').size → at_ k l = at_ k' l' →
    k = k' ∧ l = l'

theorem rows_parts (M : BView) (hW : M.WF) (h0 : 0 < M.cs ∧ 0 < M.rs) :
    M.Parts M.rowB M.nrow (fun k l => ((k : Int), bandJ1 M.lo k + l)) := by
  obtain ⟨w1, w2, w3, w4, w5, w6⟩ := hW
  constructor
  · intro k _; rfl
  · intro k hk
    simp only [BView.nrow] at hk
    simp only [BView.rowB, BView.row3, bandJ1, bandJ2]; omega
  · intro k hk l hl
    simp only [BView.nrow] at hk
    simp only [BView.rowB, BView.row3, bandJ1, bandJ2] at hl
    refine ⟨by simp only [BView.In, InBand, bandJ1]; omega, ?_⟩
    simp only [BView.rowB, BView.row3, VView.addr, BView.addr]; ring
  · intro i j h
    simp only [BView.In, InBand] at h
    refine ⟨i.toNat, (j - bandJ1 M.lo i).toNat, ?_, ?_, ?_⟩
    · simp only [BView.nrow]; omega
    · simp only [BView.rowB, BView.row3, bandJ1, bandJ2]; omega
    · have : ((i.toNat : Nat) : Int) = i := by omega
      simp only [Prod.mk.injEq, this, true_and, bandJ1]; omega
  · intro k l k' l' _ _ _ _ e
    simp only [Prod.mk.injEq] at e
    obtain ⟨e1, e2⟩ := e
    have : k = k' := by omega
    subst this; exact ⟨rfl, by omega⟩

theorem cols_parts (M : BView) (hW : M.WF) (h0 : 0 < M.cs ∧ 0 < M.rs) :
    M.Parts M.colB M.ncol (fun k l => (bandJ1 M.hi k + l, (k : Int))) := by
  obtain ⟨w1, w2, w3, w4, w5, w6⟩ := hW
  constructor
  · intro k _; rfl
  · intro k hk
    simp only [BView.ncol] at hk
    simp only [BView.colB, BView.col3, bandJ1, bandJ2]; omega
  · intro k hk l hl
    simp only [BView.ncol] at hk
    simp only [BView.colB, BView.col3, bandJ1, bandJ2] at hl
    refine ⟨by simp only [BView.In, InBand, bandJ1]; omega, ?_⟩
    simp only [BView.colB, BView.col3, VView.addr, BView.addr]; ring
  · intro i j h
    simp only [BView.In, InBand] at h
    refine ⟨j.toNat, (i - bandJ1 M.hi j).toNat, ?_, ?_, ?_⟩
    · simp only [BView.ncol]; omega
    · simp only [BView.colB, BView.col3, bandJ1, bandJ2]; omega
    · have : ((j.toNat : Nat) : Int) = j := by omega
      simp only [Prod.mk.injEq, this, and_true, bandJ1]; omega
  · intro k l k' l' _ _ _ _ e
    simp only [Prod.mk.injEq] at e
    obtain ⟨e1, e2⟩ := e
    have : k = k' := by omega
    subst this; exact ⟨rfl, by omega⟩

theorem diags_parts (M : BView) (hW : M.WF) (h0 : 0 < M.cs ∧ 0 < M.rs) :
    M.Parts M.diagB (M.lo + M.hi + 1).toNat
      (fun k l => (max (-((k : Int) - M.lo)) 0 + l, max ((k : Int) - M.lo) 0 + l)) := by
  have hW' := hW
  obtain ⟨w1, w2, w3, w4, w5, w6⟩ := hW
  constructor
  · intro k _; simp only [BView.diagB, BView.diagOff]; split <;> rfl
  · intro k hk
    simp only [BView.diagB, BView.diagOff]; split <;> (dsimp only; omega)
  · intro k hk l hl
    obtain ⟨a, b, _⟩ := (band_diagOff (K := Int) M hW' (fun _ => none) ((k : Int) - M.lo) (by omega) h0).1 l hl
    exact ⟨a, b⟩
  · intro i j h
    obtain ⟨l, hl, e1, e2⟩ := (band_diagOff (K := Int) M hW' (fun _ => none) (j - i)
      (by simp only [BView.In, InBand] at h; omega) h0).2 i j h rfl
    simp only [BView.In, InBand] at h
    have e : (((j - i + M.lo).toNat : Nat) : Int) - M.lo = j - i := by omega
    refine ⟨(j - i + M.lo).toNat, l, by omega, ?_, ?_⟩
    · simp only [BView.diagB, e]; exact hl
    · simp only [e, Prod.mk.injEq]; exact ⟨e1.symm, e2.symm⟩
  · intro k l k' l' _ _ _ _ e
    simp only [Prod.mk.injEq] at e
    omega

theorem BView.Parts.wf {M : BView} {f : Nat → VView} {n : Nat} {at_ : Nat → Nat → Int × Int}
    (h : M.Parts f n at_) (hI : M.Inj) {k : Nat} (hk : k < n) : (f k).WF := by
  by_cases h1 : (f k).size = 1
  · exact Or.inr h1
  left
  intro hs
  have p := h.pos k hk
  obtain ⟨a0, b0⟩ := h.mem k hk 0 (by omega)
  obtain ⟨a1, b1⟩ := h.mem k hk 1 (by omega)
  have e : (f k).addr (0 : Nat) = (f k).addr (1 : Nat) := by simp [VView.addr, hs]
  rw [b0, b1] at e
  have := hI _ _ _ _ a0 a1 e
  have := h.inj k 0 k 1 hk (by omega) hk (by omega) (Prod.ext this.1 this.2)
  omega

theorem BView.Parts.disj {M : BView} {f : Nat → VView} {n : Nat} {at_ : Nat → Nat → Int × Int}
    (h : M.Parts f n at_) (hI : M.Inj) {k k' : Nat} (hk : k < n) (hk' : k' < n) (hne : k ≠ k') :
    (f k).Disjoint (f k') := by
  rintro a ⟨l, hl, e⟩ ⟨l', hl', e'⟩
  obtain ⟨a0, b0⟩ := h.mem k hk l hl
  obtain ⟨a1, b1⟩ := h.mem k' hk' l' hl'
  rw [b0] at e; rw [b1] at e'
  have := hI _ _ _ _ a0 a1 (e.symm.trans e')
  exact hne (h.inj k l k' l' hk hl hk' hl' (Prod.ext this.1 this.2)).1

theorem BView.Parts.live {M : BView} {f : Nat → VView} {n : Nat} {at_ : Nat → Nat → Int × Int}
    (h : M.Parts f n at_) {m : Mem K} (hl : M.Live m) {k : Nat} (hk : k < n) : (f k).Live m := by
  intro l hl'
  obtain ⟨a0, b0⟩ := h.mem k hk l hl'
  rw [b0]; exact hl _ _ a0

theorem BView.Parts.cref [Star K] [Zero K] {M : BView} {f : Nat → VView} {n : Nat}
    {at_ : Nat → Nat → Int × Int} (h : M.Parts f n at_) (m : Mem K) {k l : Nat} (hk : k < n)
    (hl : l < (f k).size) : (f k).cref m l = M.cref m (at_ k l).1 (at_ k l).2 := by
  obtain ⟨a0, b0⟩ := h.mem k hk l hl
  rw [band_cref_in M m _ _ a0, ← b0, VView.cref, h.conj k hk]; rfl

/-! ### C61: element-wise operations -/

/-- Every stored element, as seen through `M`, was replaced by its image under `g`. -/
def BView.Changed [Star K] [Zero K] (M : BView) (g : K → K) (m m' : Mem K) : Prop :=
  ∀ i j, M.In i j → M.cref m' i j = (M.cref m i j).map g

theorem parts_each [Star K] [Zero K] (op : VView → Mem K → Option (Mem K)) (g : K → K) (M : BView)
    (hI : M.Inj) (m : Mem K) (hl : M.Live m) (f : Nat → VView) (n : Nat)
    (at_ : Nat → Nat → Int × Int) (hP : M.Parts f n at_)
    (hop : ∀ k, k < n → ∀ m, (f k).Live m → ∃ m', op (f k) m = some m' ∧ (f k).Changed g m m') :
    ∃ m', loopV f op n 0 m = some m' ∧ M.Changed g m m' ∧ (∀ a, ¬ M.Covers a → m' a = m a) := by
  obtain ⟨m', e, c, fr⟩ := loopV_spec f op g n 0 m
    (fun k _ h => hop k (by omega))
    (fun k k' _ h _ h' hne => hP.disj hI (by omega) (by omega) hne)
    (fun k _ h => hP.live hl (by omega))
  refine ⟨m', e, ?_, ?_⟩
  · intro i j hij
    obtain ⟨k, l, hk, hl', e'⟩ := hP.cover i j hij
    have := c k (by omega) (by omega) l hl'
    rw [hP.cref m' hk hl', hP.cref m hk hl', e'] at this
    exact this
  · intro a ha
    apply fr
    rintro k _ hk ⟨l, hl', e'⟩
    obtain ⟨a0, b0⟩ := hP.mem k (by omega) l hl'
    exact ha ⟨_, _, a0, by rw [e', b0]⟩

/-- The cached linear size is not set to a wrong value: "unknown", "not linear", or the length of the
packed row-major or column-major array. -/
def BView.LSOK (M : BView) : Prop :=
  M.ls = -1 ∨ M.ls = 0 ∨
    (M.sj = 1 ∧ M.si = M.lo + M.hi ∧ M.ls = bandStorageLength Stor.rm M.cs M.rs M.lo M.hi) ∨
    (M.si = 1 ∧ M.sj = M.lo + M.hi ∧ M.ls = bandStorageLength Stor.cm M.cs M.rs M.lo M.hi)

/-- When the code uses the linear view, the matrix is packed by rows or columns and the linear view
contains every stored element. -/
theorem band_linear_covers (M : BView) (hW : M.WF) (hM : M.LSOK) (hc : M.canLinearize = true) (i j : Int)
    (h : M.In i j) : ∃ k : Nat, k < M.linearView.size ∧ M.linearView.addr k = M.addr i j := by
  obtain ⟨w1, w2, w3, w4, w5, w6⟩ := hW
  simp only [BView.canLinearize, decide_eq_true_eq] at hc
  have hIn := h
  simp only [BView.In, InBand] at h
  obtain ⟨h1, h2, h3, h4, h5, h6⟩ := h
  have key : 0 ≤ i * M.si + j * M.sj ∧ i * M.si + j * M.sj < M.resolveLs := by
    have rm : M.sj = 1 → M.si = M.lo + M.hi → ∀ c r : Int, i ≤ c - 1 → j ≤ r - 1 →
        0 ≤ i * M.si + j * M.sj ∧ i * M.si + j * M.sj < (c - 1) * (M.lo + M.hi) + r := by
      intro e1 e2 c r hc hr
      rw [e1, e2]
      have t0 : 0 ≤ i * (M.lo + M.hi) := mul_nonneg h1 (by omega)
      have : i * (M.lo + M.hi) ≤ (c - 1) * (M.lo + M.hi) := mul_le_mul_of_nonneg_right hc (by omega)
      omega
    have cm : M.si = 1 → M.sj = M.lo + M.hi → ∀ c r : Int, i ≤ c - 1 → j ≤ r - 1 →
        0 ≤ i * M.si + j * M.sj ∧ i * M.si + j * M.sj < (r - 1) * (M.lo + M.hi) + c := by
      intro e1 e2 c r hc hr
      rw [e1, e2]
      have t0 : 0 ≤ j * (M.lo + M.hi) := mul_nonneg h3 (by omega)
      have : j * (M.lo + M.hi) ≤ (r - 1) * (M.lo + M.hi) := mul_le_mul_of_nonneg_right hr (by omega)
      omega
    unfold BView.resolveLs at hc ⊢
    by_cases hl : M.ls = -1
    · rw [if_pos hl] at hc ⊢
      dsimp only at hc ⊢
      obtain ⟨r, hr⟩ : ∃ r : Int, r = if (M.rs : Int) > M.cs + M.hi then M.cs + M.hi else M.rs := ⟨_, rfl⟩
      rw [← hr] at hc ⊢
      obtain ⟨c, hcc⟩ : ∃ c : Int, c = if (M.cs : Int) > r + M.lo then r + M.lo else M.cs := ⟨_, rfl⟩
      rw [← hcc] at hc ⊢
      have br : j ≤ r - 1 := by rw [hr]; split <;> omega
      have bc : i ≤ c - 1 := by rw [hcc]; split <;> omega
      rw [if_neg (by omega)] at hc ⊢
      by_cases g1 : M.si = 1 ∧ M.sj = M.lo + M.hi
      · rw [if_pos g1] at hc ⊢
        have := cm g1.1 g1.2 c r bc br
        omega
      · rw [if_neg g1] at hc ⊢
        by_cases g2 : M.sj = 1 ∧ M.si = M.lo + M.hi
        · rw [if_pos g2] at hc ⊢
          have := rm g2.1 g2.2 c r bc br
          omega
        · rw [if_neg g2] at hc
          omega
    · rw [if_neg hl] at hc ⊢
      rcases hM with hM | hM | ⟨g1, g2, hM⟩ | ⟨g1, g2, hM⟩
      · exact absurd hM hl
      · omega
      · rw [hM]
        unfold bandStorageLength
        rw [if_neg (by omega)]
        split
        · exact rm g1 g2 _ _ (by omega) (by omega)
        · simp only [if_true]
          apply rm g1 g2 <;> (split_ifs <;> omega)
      · rw [hM]
        unfold bandStorageLength
        rw [if_neg (by omega)]
        split
        · rename_i e
          have := cm g1 g2 M.cs M.rs (by omega) (by omega)
          rw [← e] at this; exact this
        · simp only [reduceCtorEq, if_false, if_true]
          apply cm g1 g2 <;> (split_ifs <;> omega)
  refine ⟨(i * M.si + j * M.sj).toNat, ?_, ?_⟩
  · simp only [BView.linearView]; omega
  · simp only [BView.linearView, VView.addr, BView.addr]; omega

/-- The memory a whole-matrix operation on `M` may touch: the stored elements and, if the linear view
is used, the padding inside it. -/
def BView.Footprint (M : BView) (a : Int) : Prop :=
  M.Covers a ∨ (M.canLinearize = true ∧ M.linearView.Covers a)

/-- The vectors a whole-matrix operation on `M` works on. -/
def BView.Piece (M : BView) (v : VView) : Prop :=
  v.conj = M.conj ∧ v.WF ∧ (v.step = 1 ∨ v.step = M.sd)

/-- **C61** (generic).  A whole-matrix operation changes every stored element exactly as the vector
operation does, and no other memory except padding. -/
theorem band_each_spec [Star K] [Zero K] (op : VView → Mem K → Option (Mem K)) (g : K → K) (M : BView)
    (hW : M.WF) (hM : M.LSOK) (m : Mem K) (hl : M.Live m)
    (hlin : M.canLinearize = true → M.linearView.Live m)
    (hop : ∀ v, M.Piece v → ∀ m, v.Live m → ∃ m', op v m = some m' ∧ v.Changed g m m') :
    ∃ m', M.each op m = some m' ∧ M.Changed g m m' ∧ (∀ a, ¬ M.Footprint a → m' a = m a) := by
  unfold BView.each
  by_cases hc : M.canLinearize = true
  · rw [if_pos hc]
    obtain ⟨m', e, c, fr⟩ := hop M.linearView
      ⟨rfl, Or.inl (by simp [BView.linearView]), Or.inl rfl⟩ m (hlin hc)
    refine ⟨m', e, ?_, ?_⟩
    · intro i j hij
      obtain ⟨k, hk, ea⟩ := band_linear_covers M hW hM hc i j hij
      have := c k hk
      rw [band_cref_in M m' _ _ hij, band_cref_in M m _ _ hij, ← ea]
      exact this
    · intro a ha
      exact fr a (fun h => ha (Or.inr ⟨hc, h⟩))
  rw [if_neg hc]
  by_cases h0 : 0 < M.cs ∧ 0 < M.rs
  · have hI := hW.2.2.2.2.2
    have fin : ∀ (f : Nat → VView) n at_, M.Parts f n at_ →
        (∀ k, k < n → (f k).step = 1 ∨ (f k).step = M.sd) →
        ∃ m', loopV f op n 0 m = some m' ∧ M.Changed g m m' ∧ (∀ a, ¬ M.Footprint a → m' a = m a) := by
      intro f n at_ hP hs
      obtain ⟨m', e, c, fr⟩ := parts_each op g M hI m hl f n at_ hP
        (fun k hk => hop (f k) ⟨hP.conj k hk, hP.wf hI hk, hs k hk⟩)
      exact ⟨m', e, c, fun a ha => fr a (fun h => ha (Or.inl h))⟩
    rw [eachLoop_eq op M hW m h0]
    by_cases hr : M.isrm = true
    · rw [if_pos hr]
      exact fin _ _ _ (rows_parts M hW h0) (fun k _ => Or.inl (by simpa [BView.isrm, BView.rowB, BView.row3] using hr))
    rw [if_neg hr]
    by_cases hcm : M.iscm = true
    · rw [if_pos hcm]
      exact fin _ _ _ (cols_parts M hW h0) (fun k _ => Or.inl (by simpa [BView.iscm, BView.colB, BView.col3] using hcm))
    rw [if_neg hcm]
    refine fin _ _ _ (diags_parts M hW h0) (fun k _ => Or.inr ?_)
    simp only [BView.diagB, BView.diagOff]; split <;> rfl
  · unfold BView.eachLoop
    rw [if_neg h0]
    refine ⟨m, rfl, ?_, fun _ _ => rfl⟩
    intro i j hij
    simp only [BView.In, InBand] at hij
    omega

theorem band_changed_const [Star K] [Zero K] {M : BView} {m m' : Mem K} {x : K} (hl : M.Live m)
    (h : M.Changed (fun _ => x) m m') (i j : Int) (hij : M.In i j) : M.cref m' i j = some x := by
  rw [h i j hij, band_cref_in M m _ _ hij]
  obtain ⟨y, hy⟩ := Option.isSome_iff_exists.mp (hl i j hij)
  simp [hy]

/-- **C61** `m.setZero()`: afterwards every element reads 0. -/
theorem band_setZero_spec [CommRing K] [StarRing K] (M : BView) (hW : M.WF) (hM : M.LSOK) (m : Mem K)
    (hl : M.Live m) (hlin : M.canLinearize = true → M.linearView.Live m) :
    ∃ m', M.setZero m = some m' ∧ (∀ i j, InRect M.cs M.rs i j → M.cref m' i j = some 0) ∧
      (∀ a, ¬ M.Footprint a → m' a = m a) := by
  obtain ⟨m', e, c, fr⟩ := band_each_spec VView.setZero (fun _ => (0 : K)) M hW hM m hl hlin (by
    intro v hp m hl
    obtain ⟨m', a, b, c⟩ := setZero_spec v m hp.2.1 hl
    refine ⟨m', a, fun i hi => ?_, c⟩
    obtain ⟨y, hy⟩ := Option.isSome_iff_exists.mp (hl i hi)
    rw [b i hi]; simp [VView.cref, Mem.read, hy])
  refine ⟨m', e, fun i j hr => ?_, fr⟩
  by_cases hb : i - j ≤ M.lo ∧ j - i ≤ M.hi
  · exact band_changed_const hl c i j ⟨hr.1, hr.2.1, hr.2.2.1, hr.2.2.2, hb.1, hb.2⟩
  · exact band_cref_zero M m' i j hb

/-- **C61** `m.setAllTo(x)` (partial: conjugated view with non-real `x`, as for vectors). -/
theorem band_setAllTo_spec_partial [CommRing K] [StarRing K] (M : BView) (x : K) (hW : M.WF)
    (hM : M.LSOK) (m : Mem K) (hl : M.Live m) (hlin : M.canLinearize = true → M.linearView.Live m)
    (hc : M.conj = false ∨ star x = x) :
    ∃ m', M.setAllTo x m = some m' ∧
      (∀ i j, InRect M.cs M.rs i j →
        M.cref m' i j = some (if i - j ≤ M.lo ∧ j - i ≤ M.hi then x else 0)) ∧
      (∀ a, ¬ M.Footprint a → m' a = m a) := by
  obtain ⟨m', e, c, fr⟩ := band_each_spec (fun v => v.setAllTo x) (fun _ => x) M hW hM m hl hlin (by
    intro v hp m hl
    obtain ⟨m', a, b, c⟩ := setAllTo_spec_partial v x m hp.2.1 hl (by rw [hp.1]; tauto)
    refine ⟨m', a, fun i hi => ?_, c⟩
    obtain ⟨y, hy⟩ := Option.isSome_iff_exists.mp (hl i hi)
    rw [b i hi]; simp [VView.cref, Mem.read, hy])
  refine ⟨m', e, fun i j hr => ?_, fr⟩
  by_cases hb : i - j ≤ M.lo ∧ j - i ≤ M.hi
  · rw [if_pos hb]
    exact band_changed_const hl c i j ⟨hr.1, hr.2.1, hr.2.2.1, hr.2.2.2, hb.1, hb.2⟩
  · rw [if_neg hb]; exact band_cref_zero M m' i j hb

/-- **C61** `m.addToAll(x)` adds `x` to the stored elements only (partial: a conjugated view whose
diagonal step is 0). -/
theorem band_addToAll_spec_partial [CommRing K] [StarRing K] (M : BView) (x : K) (hW : M.WF)
    (hM : M.LSOK) (m : Mem K) (hl : M.Live m) (hlin : M.canLinearize = true → M.linearView.Live m)
    (hc : M.conj = false ∨ M.sd ≠ 0) :
    ∃ m', M.addToAll x m = some m' ∧
      (∀ i j, M.In i j → M.cref m' i j = (M.cref m i j).map (· + x)) ∧
      (∀ a, ¬ M.Footprint a → m' a = m a) :=
  band_each_spec (fun v => v.addToAll x) (· + x) M hW hM m hl hlin (by
    intro v hp m hl
    refine addToAll_spec_partial v x m hp.2.1 hl ?_
    rcases hc with hc | hc
    · right; rw [hp.1, hc]
    · left; rcases hp.2.2 with h | h <;> rw [h]
      · exact one_ne_zero
      · exact hc)

/-- **C61** `m.conjugateSelf()`. -/
theorem band_conjugateSelf_spec [CommRing K] [StarRing K] (M : BView) (hW : M.WF) (hM : M.LSOK)
    (m : Mem K) (hl : M.Live m) (hlin : M.canLinearize = true → M.linearView.Live m) :
    ∃ m', M.conjugateSelf m = some m' ∧
      (∀ i j, M.In i j → M.cref m' i j = (M.cref m i j).map star) ∧
      (∀ a, ¬ M.Footprint a → m' a = m a) :=
  band_each_spec VView.conjugateSelf star M hW hM m hl hlin
    (fun v hp m hl => conjugateSelf_spec v m hp.2.1 hl)

/-- **C61** `m.clip(thresh)`. -/
theorem band_clip_spec {R : Type _} [LinearOrder R] [CommRing K] [StarRing K] (abs : K → R)
    (habs : ∀ x, abs (star x) = abs x) (M : BView) (t : R) (hW : M.WF) (hM : M.LSOK) (m : Mem K)
    (hl : M.Live m) (hlin : M.canLinearize = true → M.linearView.Live m) :
    ∃ m', M.clip abs t m = some m' ∧
      (∀ i j, M.In i j → M.cref m' i j = (M.cref m i j).map (fun x => if abs x < t then 0 else x)) ∧
      (∀ a, ¬ M.Footprint a → m' a = m a) :=
  band_each_spec (fun v => v.clip abs t) _ M hW hM m hl hlin
    (fun v hp m hl => clip_spec abs habs v t m hp.2.1 hl)

/-! ### C61: the linear view of owners and of row/column ranges -/

/-- The linear size of a new matrix seen through a view is right. -/
theorem lsok_bandStor (p : Int) (s : Stor) (cs rs : Nat) (lo hi : Int) :
    (BView.ofStor p s cs rs lo hi).LSOK := by
  unfold BView.LSOK
  cases s <;> simp [BView.ofStor]

theorem bandLength_swap (cs rs : Int) (lo hi : Int) (h1 : 0 ≤ cs) (h2 : 0 ≤ rs) (hlo : 0 ≤ lo)
    (hhi : 0 ≤ hi) :
    bandStorageLength Stor.cm rs cs hi lo = bandStorageLength Stor.rm cs rs lo hi := by
  unfold bandStorageLength
  by_cases h0 : cs = 0 ∨ rs = 0
  · rw [if_pos h0, if_pos h0.symm]
  rw [if_neg h0, if_neg (by tauto)]
  by_cases h : cs = rs
  · rw [if_pos h, if_pos h.symm, h, add_comm hi lo]
  rw [if_neg h, if_neg (fun e => h e.symm)]
  simp only [reduceCtorEq, if_true, if_false]
  have e1 : (if cs > (if rs > cs + hi then cs + hi else rs) + lo then (if rs > cs + hi then cs + hi else rs) + lo else cs) =
      if cs > rs + lo then rs + lo else cs := by split_ifs <;> omega
  have e2 : (if rs > (if cs > rs + lo then rs + lo else cs) + hi then (if cs > rs + lo then rs + lo else cs) + hi else rs) =
      if rs > cs + hi then cs + hi else rs := by split_ifs <;> omega
  rw [e1, e2, add_comm hi lo]

/-- `transpose`, `conjugate`, `adjoint`, `view`, `rowRange`, `colRange`, and all other sub-views keep
it right. -/
theorem lsok_band_views (M : BView) (hM : M.LSOK) (hlo : 0 ≤ M.lo) (hhi : 0 ≤ M.hi) :
    M.view.LSOK ∧ M.transpose.LSOK ∧ M.conjugate.LSOK ∧ M.adjoint.LSOK ∧
    (∀ i1 i2, (M.rowRange i1 i2).LSOK) ∧ (∀ j1 j2, (M.colRange j1 j2).LSOK) := by
  have hsw := bandLength_swap M.cs M.rs M.lo M.hi (by omega) (by omega) hlo hhi
  have hsw' := bandLength_swap M.rs M.cs M.hi M.lo (by omega) (by omega) hhi hlo
  refine ⟨?_, ?_, ?_, ?_, ?_, ?_⟩
  · unfold BView.LSOK BView.view at *
    by_cases hd : M.isdm = true
    · simp [hd]
    · simpa [hd] using hM
  · unfold BView.LSOK BView.transpose at *
    by_cases hd : M.isdm = true
    · simp [hd]
    · have hd' : M.isdm = false := by simpa using hd
      simp only [hd', Bool.false_eq_true, if_false]
      rcases hM with h | h | ⟨a, b, c⟩ | ⟨a, b, c⟩
      · exact Or.inl h
      · exact Or.inr (Or.inl h)
      · exact Or.inr (Or.inr (Or.inr ⟨a, by rw [b, add_comm], by rw [c, hsw]⟩))
      · exact Or.inr (Or.inr (Or.inl ⟨a, by rw [b, add_comm], by rw [c, hsw']⟩))
  · unfold BView.LSOK BView.conjugate at *
    by_cases hd : M.isdm = true
    · simp [hd]
    · simpa [hd] using hM
  · unfold BView.LSOK BView.adjoint at *
    by_cases hd : M.isdm = true
    · simp [hd]
    · have hd' : M.isdm = false := by simpa using hd
      simp only [hd', Bool.false_eq_true, if_false]
      rcases hM with h | h | ⟨a, b, c⟩ | ⟨a, b, c⟩
      · exact Or.inl h
      · exact Or.inr (Or.inl h)
      · exact Or.inr (Or.inr (Or.inr ⟨a, by rw [b, add_comm], by rw [c, hsw]⟩))
      · exact Or.inr (Or.inr (Or.inl ⟨a, by rw [b, add_comm], by rw [c, hsw']⟩))
  · intro i1 i2
    unfold BView.LSOK BView.rowRange
    by_cases h : M.ls ≠ 0 ∧ M.isrm = true <;> simp [h]
  · intro i1 i2
    unfold BView.LSOK BView.colRange
    by_cases h : M.ls ≠ 0 ∧ M.iscm = true <;> simp [h]

/-- **C61** The operations of a `BandMatrix` itself (which run over the whole allocated array) change
every stored element as the vector operation does, and touch only the matrix's own array (partial:
the layout of C36's defect excluded). -/
theorem band_owner_each_spec_partial [Star K] [Zero K] (op : VView → Mem K → Option (Mem K)) (g : K → K)
    (p : Int) (s : Stor) (cs rs : Nat) (lo hi : Int)
    (hlo : 0 ≤ lo) (hhi : 0 ≤ hi) (hl : lo < cs) (hh : hi < rs)
    (hx : ¬ (s = Stor.dm ∧ rs < cs ∧ lo = 0 ∧ 0 < hi)) (m : Mem K)
    (hm : ∀ a, p ≤ a → a < p + bandStorageLength s cs rs lo hi → (m a).isSome)
    (hop : ∀ v : VView, v.WF → v.step = 1 → v.conj = false → ∀ m, v.Live m →
      ∃ m', op v m = some m' ∧ v.Changed g m m') :
    ∃ m', BView.ownerEach op p s cs rs lo hi m = some m' ∧
      (BView.ofStor p s cs rs lo hi).Changed g m m' ∧
      (∀ a, ¬ (p ≤ a ∧ a < p + bandStorageLength s cs rs lo hi) → m' a = m a) := by
  obtain ⟨hb, _⟩ := band_storage_partial p s cs rs lo hi hlo hhi hl hh hx
  obtain ⟨m', e, c, fr⟩ := hop (BView.ownerLinear p s cs rs lo hi)
    (Or.inl (by simp [BView.ownerLinear])) rfl rfl m (by
      intro k hk
      simp only [BView.ownerLinear, VView.addr] at hk ⊢
      exact hm _ (by omega) (by omega))
  refine ⟨m', e, ?_, ?_⟩
  · intro i j hij
    obtain ⟨b1, b2⟩ := hb i j hij
    have := c ((BView.ofStor p s cs rs lo hi).addr i j - p).toNat (by
      simp only [BView.ownerLinear]; omega)
    rw [band_cref_in _ m' _ _ hij, band_cref_in _ m _ _ hij]
    have ea : (BView.ownerLinear p s cs rs lo hi).addr
        ((BView.ofStor p s cs rs lo hi).addr i j - p).toNat = (BView.ofStor p s cs rs lo hi).addr i j := by
      simp only [BView.ownerLinear, VView.addr]; omega
    simp only [VView.cref] at this
    rw [ea] at this
    exact this
  · intro a ha
    apply fr
    rintro ⟨k, hk, e⟩
    simp only [BView.ownerLinear, VView.addr] at hk e
    omega

/-- **C61** An operation on rows `i1..i2-1` of a packed row-major matrix never changes stored elements
of other rows, although it may run over the padding between the rows. -/
theorem band_rowRange_footprint (M : BView) (hW : M.WF) (i1 i2 : Int) (h1 : 0 ≤ i1) (h12 : i1 < i2)
    (h2 : i2 ≤ M.cs) (hr0 : 0 < (M.rowRange i1 i2).rs) (hs : M.lo + M.hi ≤ M.si) (a : Int) (ha : (M.rowRange i1 i2).canLinearize = true)
    (hv : (M.rowRange i1 i2).linearView.Covers a) (hc : M.Covers a) :
    ∃ i j, i1 ≤ i ∧ i < i2 ∧ M.In i j ∧ a = M.addr i j := by
  obtain ⟨w1, w2, w3, w4, w5, w6⟩ := hW
  obtain ⟨i, j, hij, e⟩ := hc
  refine ⟨i, j, ?_⟩
  have hij' := hij
  simp only [BView.In, InBand] at hij'
  obtain ⟨k, hk, ek⟩ := hv
  have hk' : (k : Int) < (M.rowRange i1 i2).resolveLs := by
    simp only [BView.linearView] at hk; omega
  simp only [BView.linearView, VView.addr] at ek
  obtain ⟨V, hV⟩ : ∃ V, V = M.rowRange i1 i2 := ⟨_, rfl⟩
  have hls : V.ls = -1 ∧ M.sj = 1 := by
    simp only [BView.canLinearize, decide_eq_true_eq] at ha
    rw [← hV] at ha
    have : V.ls = if M.ls ≠ 0 ∧ M.isrm = true then -1 else 0 := by rw [hV]; rfl
    by_cases g : M.ls ≠ 0 ∧ M.isrm = true
    · rw [if_pos g] at this
      exact ⟨this, by simpa [BView.isrm] using g.2⟩
    · rw [if_neg g] at this
      rw [BView.resolveLs, if_neg (by rw [this]; decide), this] at ha
      omega
  have hsi : V.si = M.si := by rw [hV]; rfl
  have hsj : V.sj = M.sj := by rw [hV]; rfl
  have hcs : (V.cs : Int) = i2 - i1 := by rw [hV]; simp only [BView.rowRange]; omega
  have hlh : V.lo + V.hi ≤ M.lo + M.hi := by
    rw [hV]; simp only [BView.rowRange]; split_ifs <;> omega
  obtain ⟨j1, hj1⟩ : ∃ j1 : Int, j1 = if i1 > M.lo then i1 - M.lo else 0 := ⟨_, rfl⟩
  have hj1' : (M.lo ≤ i1 ∧ j1 = i1 - M.lo) ∨ (i1 < M.lo ∧ j1 = 0) := by
    rw [hj1]; split <;> omega
  have hp : V.ptr = M.ptr + i1 * M.si + j1 * M.sj := by rw [hV, hj1]; rfl
  have hrs : (V.rs : Int) ≤ i2 + M.hi - j1 ∨ V.rs = 0 := by
    rw [hV, hj1]; simp only [BView.rowRange]; split_ifs <;> omega
  rw [← hV] at hk' ek ha hr0
  -- the length of the linear view
  obtain ⟨s, hs'⟩ : ∃ s, s = M.si := ⟨_, rfl⟩
  have hlen : s = M.lo + M.hi ∧ (k : Int) < (i2 - i1 - 1) * s + (i2 + M.hi - j1) := by
    simp only [BView.canLinearize, decide_eq_true_eq] at ha
    have hk2 := hk'
    rw [BView.resolveLs, if_pos hls.1] at hk2 ha
    dsimp only at hk2 ha
    obtain ⟨r, hr⟩ : ∃ r : Int, r = if (V.rs : Int) > V.cs + V.hi then V.cs + V.hi else V.rs := ⟨_, rfl⟩
    rw [← hr] at hk2 ha
    obtain ⟨c, hcc⟩ : ∃ c : Int, c = if (V.cs : Int) > r + V.lo then r + V.lo else V.cs := ⟨_, rfl⟩
    rw [← hcc] at hk2 ha
    by_cases z : r = 0 ∨ c = 0
    · rw [if_pos z] at ha; omega
    rw [if_neg z] at hk2 ha
    have r0 : (V.rs : Int) ≠ 0 ∨ r ≠ 0 := by omega
    have hrr : r ≤ V.rs := by rw [hr]; split <;> omega
    have hc1 : c ≤ i2 - i1 := by rw [hcc, ← hcs]; split <;> omega
    by_cases g1 : V.si = 1 ∧ V.sj = V.lo + V.hi
    · rw [if_pos g1] at hk2
      rw [hsi, ← hs'] at g1
      rw [hsj, hls.2] at g1
      have e1 : s = M.lo + M.hi := by omega
      have e2 : s = 1 := g1.1
      refine ⟨e1, ?_⟩
      rw [← g1.2] at hk2
      rw [e2]
      omega
    · rw [if_neg g1] at hk2 ha
      by_cases g2 : V.sj = 1 ∧ V.si = V.lo + V.hi
      · rw [if_pos g2] at hk2
        rw [hsi, ← hs'] at g2
        have e1 : s = M.lo + M.hi := by omega
        refine ⟨e1, ?_⟩
        rw [← g2.2] at hk2
        have : (c - 1) * s ≤ (i2 - i1 - 1) * s := mul_le_mul_of_nonneg_right (by omega) (by omega)
        omega
      · rw [if_neg g2] at ha
        omega
  obtain ⟨e1, hlen⟩ := hlen
  rw [hp, e, BView.addr, hls.2, ← hs'] at ek
  have ek' : (i - i1) * s + (j - j1) = k := by
    have : (i - i1) * s = i * s - i1 * s := by ring
    omega
  refine ⟨?_, ?_, hij, e⟩
  · by_contra hlt
    have : (i - i1) * s ≤ (-1) * s := mul_le_mul_of_nonneg_right (by omega) (by omega)
    omega
  · by_contra hge
    have : (i2 - i1) * s ≤ (i - i1) * s := mul_le_mul_of_nonneg_right (by omega) (by omega)
    have : (i2 - i1 - 1) * s = (i2 - i1) * s - s := by ring
    omega

/-- A concrete instance for C61 and C62: a 5x7 column-major matrix with 2 sub- and 1 superdiagonals,
in an array of 33 elements. -/
example : let M := BView.ofStor 0 Stor.cm 5 7 2 1
    let m := bandAlloc 0 (bandStorageLength Stor.cm 5 7 2 1) (fun a => (a : Int))
    M.WF ∧ M.LSOK ∧ M.Live m ∧ (M.canLinearize = true → M.linearView.Live m) ∧ M.In 3 2 := by
  have h := band_new_live_partial 0 Stor.cm 5 7 2 1 (fun a => (a : Int)) (by decide) (by decide)
    (by decide) (by decide) (by decide)
  refine ⟨h.1, lsok_bandStor _ _ _ _ _ _, h.2, ?_, by decide⟩
  intro _ k hk
  simp only [BView.linearView, VView.addr, bandAlloc] at hk ⊢
  have e : (BView.ofStor 0 Stor.cm 5 7 2 1).resolveLs = bandStorageLength Stor.cm 5 7 2 1 := by
    decide +kernel
  rw [e] at hk
  have e2 : (BView.ofStor 0 Stor.cm 5 7 2 1).ptr = 0 := rfl
  simp only [e2]
  rw [if_pos (by omega)]; rfl

/-- **C37 is violated** by `rowRange` for rows below the band of a tall matrix: rows 5..7 of a 10x1
matrix with one subdiagonal get `rowsize() == -3`. -/
theorem band_rowRange_size_violated :
    (BView.ofStor 0 Stor.rm 10 1 1 0).rowRangeRs 5 8 = -3 := by decide +kernel

/-- For rows that reach the band the number of columns is not negative and is the one of the model. -/
theorem band_rowRange_size (M : BView) (i1 i2 : Int) (h1 : 0 ≤ i1) (h12 : i1 ≤ i2)
    (hlo : 0 ≤ M.lo) (hhi : 0 ≤ M.hi) (h : i1 - M.lo ≤ M.rs) :
    0 ≤ M.rowRangeRs i1 i2 ∧ ((M.rowRange i1 i2).rs : Int) = M.rowRangeRs i1 i2 := by
  simp only [BView.rowRangeRs, BView.rowRange]; split_ifs <;> omega

/-! ### C61: transposeSelf -/

/-- **C61** `m.transposeSelf()` on a square band matrix with equally many sub- and superdiagonals. -/
theorem band_transposeSelf_spec [CommRing K] [StarRing K] (M : BView) (hW : M.WF)
    (hsq : M.cs = M.rs) (hlh : M.lo = M.hi) (hp : 0 < M.cs) (m : Mem K)
    (hl : M.Live m) :
    ∃ m', M.transposeSelf m = some m' ∧
      (∀ i j, InRect M.cs M.rs i j → M.cref m' i j = M.cref m j i) ∧
      (∀ a, ¬ M.Covers a → m' a = m a) := by
  obtain ⟨w1, w2, w3, w4, w5, hI⟩ := hW
  have hW : M.WF := ⟨w1, w2, w3, w4, w5, hI⟩
  unfold BView.transposeSelf
  have hr : 0 < M.rs := by omega
  have D := fun (d : Int) (hd : -M.lo ≤ d ∧ d ≤ M.hi) => band_diagOff (K := K) M hW m d hd ⟨hp, hr⟩
  have D' := fun (m : Mem K) (d : Int) (hd : -M.lo ≤ d ∧ d ≤ M.hi) =>
    (band_diagOff (K := K) M hW m d hd ⟨hp, hr⟩).1
  have size : ∀ k : Int, 1 ≤ k → k ≤ M.hi → ((M.diagOff (-k)).size : Int) = M.cs - k ∧
      ((M.diagOff k).size : Int) = M.cs - k := by
    intro k h1 h2
    unfold BView.diagOff
    rw [if_neg (by omega), if_pos (by omega)]
    dsimp only; omega
  have disj : ∀ d d' : Int, (-M.lo ≤ d ∧ d ≤ M.hi) → (-M.lo ≤ d' ∧ d' ≤ M.hi) → d ≠ d' →
      (M.diagOff d).Disjoint (M.diagOff d') := by
    rintro d d' hd hd' hne a ⟨k, hk, e⟩ ⟨k', hk', e'⟩
    obtain ⟨i1, e1, _⟩ := (D d hd).1 k hk
    obtain ⟨i2, e2, _⟩ := (D d' hd').1 k' hk'
    rw [e1] at e; rw [e2] at e'
    have := hI _ _ _ _ i1 i2 (e.symm.trans e')
    omega
  have wf : ∀ d : Int, (-M.lo ≤ d ∧ d ≤ M.hi) → (M.diagOff d).WF := by
    intro d hd
    have := (diags_parts M hW ⟨hp, hr⟩).wf hI (k := (d + M.lo).toNat) (by omega)
    have e : (((d + M.lo).toNat : Nat) : Int) - M.lo = d := by omega
    simpa only [BView.diagB, e] using this
  have live : ∀ d : Int, (-M.lo ≤ d ∧ d ≤ M.hi) → (M.diagOff d).Live m := by
    intro d hd k hk
    obtain ⟨i1, e1, _⟩ := (D d hd).1 k hk
    rw [e1]; exact hl _ _ i1
  obtain ⟨m', e, c, fr⟩ := loopV2_swap (fun i => M.diagOff (-(i : Int))) (fun i => M.diagOff i)
    M.hi.toNat 1 m
    (fun k h1 h2 => by have := size k (by omega) (by omega); omega)
    (fun k h1 h2 => ⟨wf _ (by omega), wf _ (by omega)⟩)
    (fun k k' h1 h2 h3 h4 hne => ⟨disj _ _ (by omega) (by omega) (by omega),
      disj _ _ (by omega) (by omega) (by omega)⟩)
    (fun k k' h1 h2 h3 h4 => ⟨disj _ _ (by omega) (by omega) (by omega),
      disj _ _ (by omega) (by omega) (by omega)⟩)
    (fun k h1 h2 => ⟨live _ (by omega), live _ (by omega)⟩)
  refine ⟨m', e, ?_, ?_⟩
  · -- both triangles at once
    have both : ∀ i j : Int, M.In i j → j < i →
        M.cref m' i j = M.cref m j i ∧ M.cref m' j i = M.cref m i j := by
      intro i j hij hlt
      have hij' := hij
      simp only [BView.In, InBand] at hij'
      have s := size (i - j) (by omega) (by omega)
      obtain ⟨c1, c2⟩ := c (i - j).toNat (by omega) (by omega) j.toNat (by
        have : (((i - j).toNat : Nat) : Int) = i - j := by omega
        rw [this]; omega)
      have ek : (((i - j).toNat : Nat) : Int) = i - j := by omega
      have ej : ((j.toNat : Nat) : Int) = j := by omega
      have r1 := fun m => (D' m (-(i - j)) (by omega) j.toNat (by omega)).2.2
      have r2 := fun m => (D' m (i - j) (by omega) j.toNat (by omega)).2.2
      rw [max_eq_left (by omega), max_eq_right (by omega), ej,
        show - -(i - j) + j = i by ring, zero_add] at r1
      rw [max_eq_right (by omega), max_eq_left (by omega), ej,
        show (i - j) + j = i by ring, zero_add] at r2
      rw [ek, ej] at c1 c2
      rw [r1, r2] at c1 c2
      exact ⟨c1, c2⟩
    intro i j hr'
    by_cases hb : i - j ≤ M.lo ∧ j - i ≤ M.hi
    · have hin : M.In i j := ⟨hr'.1, hr'.2.1, hr'.2.2.1, hr'.2.2.2, hb.1, hb.2⟩
      rcases lt_trichotomy i j with h | h | h
      · have hin' : M.In j i := by
          simp only [BView.In, InBand] at hin ⊢; omega
        exact (both j i hin' h).2
      · subst h
        rw [band_cref_in M m' _ _ hin, band_cref_in M m _ _ hin, fr]
        intro k h1 h2
        have key : ∀ d : Int, (-M.lo ≤ d ∧ d ≤ M.hi) → d ≠ 0 → ¬ (M.diagOff d).Covers (M.addr i i) := by
          rintro d hd hne ⟨l, hl', e'⟩
          obtain ⟨i1, e1, _⟩ := (D d hd).1 l hl'
          rw [e1] at e'
          have := hI _ _ _ _ hin i1 e'
          omega
        exact ⟨key _ (by omega) (by omega), key _ (by omega) (by omega)⟩
      · exact (both i j hin h).1
    · rw [band_cref_zero M m' _ _ hb, band_cref_zero M m _ _ (by omega)]
  · intro a ha
    apply fr
    intro k h1 h2
    have key : ∀ d : Int, (-M.lo ≤ d ∧ d ≤ M.hi) → ¬ (M.diagOff d).Covers a := by
      rintro d hd ⟨l, hl', e'⟩
      obtain ⟨i1, e1, _⟩ := (D d hd).1 l hl'
      exact ha ⟨_, _, i1, by rw [e', e1]⟩
    exact ⟨key _ (by omega), key _ (by omega)⟩

/-! ### C62: reductions -/

/-- `M` reads the values `x i j` on its band in memory `m`. -/
def BView.Holds [Star K] [Zero K] (M : BView) (m : Mem K) (x : Nat → Nat → K) : Prop :=
  ∀ i j : Nat, i < M.cs → j < M.rs → M.cref m i j = some (x i j)

theorem BView.Holds.live [Star K] [Zero K] {M : BView} {m : Mem K} {x : Nat → Nat → K}
    (h : M.Holds m x) : M.Live m := by
  intro i j hij
  have hij' := hij
  simp only [BView.In, InBand] at hij'
  have := h i.toNat j.toNat (by omega) (by omega)
  have e1 : ((i.toNat : Nat) : Int) = i := by omega
  have e2 : ((j.toNat : Nat) : Int) = j := by omega
  rw [e1, e2, band_cref_in M m _ _ hij] at this
  revert this; cases m (M.addr i j) <;> simp

theorem BView.Holds.zero [Star K] [Zero K] {M : BView} {m : Mem K} {x : Nat → Nat → K}
    (h : M.Holds m x) (i j : Nat) (hi : i < M.cs) (hj : j < M.rs) (hb : ¬ M.In i j) : x i j = 0 := by
  have := h i j hi hj
  rw [band_cref_zero M m i j (fun hb' => hb ⟨by omega, by omega, by omega, by omega, hb'.1, hb'.2⟩)] at this
  exact (Option.some.inj this).symm

/-- Values seen through a part. -/
theorem BView.Parts.holds [Star K] [Zero K] {M : BView} {f : Nat → VView} {n : Nat}
    {at_ : Nat → Nat → Int × Int} (h : M.Parts f n at_) {m : Mem K} {x : Nat → Nat → K}
    (hx : M.Holds m x) {k : Nat} (hk : k < n) :
    (f k).Holds m (fun l => x (at_ k l).1.toNat (at_ k l).2.toNat) := by
  intro l hl
  rw [h.cref m hk hl]
  obtain ⟨a0, _⟩ := h.mem k hk l hl
  simp only [BView.In, InBand] at a0
  have := hx (at_ k l).1.toNat (at_ k l).2.toNat (by omega) (by omega)
  have e1 : (((at_ k l).1.toNat : Nat) : Int) = (at_ k l).1 := by omega
  have e2 : (((at_ k l).2.toNat : Nat) : Int) = (at_ k l).2 := by omega
  rw [e1, e2] at this
  exact this

/-- Summing over the parts is summing over the stored elements. -/
theorem BView.Parts.sum {β : Type _} [AddCommMonoid β] {M : BView} {f : Nat → VView} {n : Nat}
    {at_ : Nat → Nat → Int × Int} (h : M.Parts f n at_) (F : Nat → Nat → β) :
    ∑ k ∈ Finset.range n, ∑ l ∈ Finset.range (f k).size, F (at_ k l).1.toNat (at_ k l).2.toNat =
    ∑ i ∈ Finset.range M.cs, ∑ j ∈ Finset.range M.rs, if M.In i j then F i j else 0 := by
  rw [← Finset.sum_product', ← Finset.sum_filter, Finset.sum_sigma']
  apply Finset.sum_bij (fun (p : (_ : Nat) × Nat) _ => ((at_ p.1 p.2).1.toNat, (at_ p.1 p.2).2.toNat))
  · rintro ⟨k, l⟩ hp
    simp only [Finset.mem_sigma, Finset.mem_range] at hp
    obtain ⟨a0, _⟩ := h.mem k hp.1 l hp.2
    have a0' := a0
    simp only [BView.In, InBand] at a0'
    have e1 : (((at_ k l).1.toNat : Nat) : Int) = (at_ k l).1 := by omega
    have e2 : (((at_ k l).2.toNat : Nat) : Int) = (at_ k l).2 := by omega
    simp only [Finset.mem_filter, Finset.mem_product, Finset.mem_range, e1, e2]
    exact ⟨⟨by omega, by omega⟩, a0⟩
  · rintro ⟨k, l⟩ hp ⟨k', l'⟩ hp' e
    simp only [Finset.mem_sigma, Finset.mem_range] at hp hp'
    obtain ⟨a0, _⟩ := h.mem k hp.1 l hp.2
    obtain ⟨a1, _⟩ := h.mem k' hp'.1 l' hp'.2
    simp only [BView.In, InBand] at a0 a1
    simp only [Prod.mk.injEq] at e
    obtain ⟨rfl, rfl⟩ := h.inj k l k' l' hp.1 hp.2 hp'.1 hp'.2 (Prod.ext (by omega) (by omega))
    rfl
  · rintro ⟨i, j⟩ hp
    simp only [Finset.mem_filter, Finset.mem_product, Finset.mem_range] at hp
    obtain ⟨k, l, hk, hl, e⟩ := h.cover i j hp.2
    exact ⟨⟨k, l⟩, by simp [hk, hl], by simp [e]⟩
  · rintro ⟨k, l⟩ _; rfl

/-- **C62** (generic sum).  A sum over the rows, columns or diagonals of the band - whichever the code
selects - is the sum over all elements of the matrix. -/
theorem band_sum_spec [Star K] [Zero K] {β : Type _} [AddCommMonoid β] (red : VView → Mem K → Option β)
    (F : K → β) (hF : F 0 = 0) (M : BView) (hW : M.WF) (m : Mem K) (x : Nat → Nat → K)
    (hx : M.Holds m x)
    (hred : ∀ v, M.Piece v → ∀ z, v.Holds m z → red v m = some (∑ k ∈ Finset.range v.size, F (z k))) :
    M.reduce red (· + ·) 0 m =
      some (∑ i ∈ Finset.range M.cs, ∑ j ∈ Finset.range M.rs, F (x i j)) := by
  have tot : (∑ i ∈ Finset.range M.cs, ∑ j ∈ Finset.range M.rs, if M.In i j then F (x i j) else 0) =
      ∑ i ∈ Finset.range M.cs, ∑ j ∈ Finset.range M.rs, F (x i j) := by
    apply Finset.sum_congr rfl; intro i hi
    apply Finset.sum_congr rfl; intro j hj
    simp only [Finset.mem_range] at hi hj
    split
    · rfl
    · rename_i h; rw [hx.zero i j hi hj h, hF]
  by_cases h0 : 0 < M.cs ∧ 0 < M.rs
  · have hI := hW.2.2.2.2.2
    have fin : ∀ (f : Nat → VView) n at_, M.Parts f n at_ →
        (∀ k, k < n → (f k).step = 1 ∨ (f k).step = M.sd) →
        loopVFold f red (· + ·) m n 0 0 =
          some (∑ i ∈ Finset.range M.cs, ∑ j ∈ Finset.range M.rs, F (x i j)) := by
      intro f n at_ hP hs
      rw [loopVFold_spec f red (· + ·) m
        (fun k => ∑ l ∈ Finset.range (f k).size, F (x (at_ k l).1.toNat (at_ k l).2.toNat)),
        foldl_add_range, hP.sum (fun i j => F (x i j)), tot]
      intro k _ hk
      exact hred _ ⟨hP.conj k (by omega), hP.wf hI (by omega), hs k (by omega)⟩ _ (hP.holds hx (by omega))
    rw [reduce_eq red _ 0 M hW m h0]
    by_cases hr : M.isrm = true
    · rw [if_pos hr]
      exact fin _ _ _ (rows_parts M hW h0)
        (fun k _ => Or.inl (by simpa [BView.isrm, BView.rowB, BView.row3] using hr))
    rw [if_neg hr]
    by_cases hcm : M.iscm = true
    · rw [if_pos hcm]
      exact fin _ _ _ (cols_parts M hW h0)
        (fun k _ => Or.inl (by simpa [BView.iscm, BView.colB, BView.col3] using hcm))
    rw [if_neg hcm]
    refine fin _ _ _ (diags_parts M hW h0) (fun k _ => Or.inr ?_)
    simp only [BView.diagB, BView.diagOff]; split <;> rfl
  · unfold BView.reduce
    rw [if_neg h0]
    congr 1
    symm
    apply Finset.sum_eq_zero; intro i hi
    apply Finset.sum_eq_zero; intro j hj
    simp only [Finset.mem_range] at hi hj
    omega

/-- **C62** `m.sumElements()` (partial: conjugated view with zero diagonal step). -/
theorem band_sumElements_spec_partial [CommRing K] [StarRing K] (M : BView) (hW : M.WF) (m : Mem K)
    (x : Nat → Nat → K) (hx : M.Holds m x) (hs : M.sd ≠ 0 ∨ M.conj = false) :
    M.reduce VView.sumElements (· + ·) 0 m =
      some (∑ i ∈ Finset.range M.cs, ∑ j ∈ Finset.range M.rs, x i j) :=
  band_sum_spec VView.sumElements id rfl M hW m x hx (by
    intro v hp z hz
    refine sumElements_spec_partial v m z hz hp.2.1 ?_
    rcases hs with h | h
    · left; rcases hp.2.2 with h' | h' <;> rw [h']
      · exact one_ne_zero
      · exact h
    · right; rw [hp.1, h])

/-- **C62** `m.sumAbsElements()`, `m.sumAbs2Elements()`. -/
theorem band_sumAbs_spec {R : Type _} [CommRing R] [CommRing K] [StarRing K] (ab : K → R)
    (hab : ∀ y, ab (star y) = ab y) (h0 : ab 0 = 0) (M : BView) (hW : M.WF) (m : Mem K)
    (x : Nat → Nat → K) (hx : M.Holds m x) :
    M.reduce (fun v => v.sumAbs ab) (· + ·) 0 m =
      some (∑ i ∈ Finset.range M.cs, ∑ j ∈ Finset.range M.rs, ab (x i j)) :=
  band_sum_spec (fun v => v.sumAbs ab) ab h0 M hW m x hx
    (fun v hp z hz => sumAbs_spec ab hab v m z hz hp.2.1)

/-- **C62** `m.normSq(scale)`. -/
theorem band_normSq_spec {R : Type _} [CommRing R] [DecidableEq R] [CommRing K] [StarRing K]
    (nrm : K → R) (scal : R → K → K) (hn : ∀ y, nrm (star y) = nrm y) (h0 : nrm 0 = 0)
    (hsc : ∀ c y, nrm (scal c y) = c ^ 2 * nrm y) (scale : R) (M : BView) (hW : M.WF) (m : Mem K)
    (x : Nat → Nat → K) (hx : M.Holds m x) :
    M.reduce (fun v => v.normSq nrm scal scale) (· + ·) 0 m =
      some (∑ i ∈ Finset.range M.cs, ∑ j ∈ Finset.range M.rs, scale ^ 2 * nrm (x i j)) :=
  band_sum_spec (fun v => v.normSq nrm scal scale) (fun y => scale ^ 2 * nrm y) (by simp [h0]) M hW m x hx
    (fun v hp z hz => normSq_spec nrm scal hn hsc scale v m z hz hp.2.1)

/-- **C62** `m.maxAbsElement()`: an upper bound of all elements that is one of them (or 0). -/
theorem band_maxAbs_spec {R : Type _} [LinearOrder R] [Zero R] [CommRing K] [StarRing K] (ab : K → R)
    (hab : ∀ y, ab (star y) = ab y) (hpos : ∀ y, 0 ≤ ab y) (h0 : ab 0 = 0) (M : BView) (hW : M.WF)
    (m : Mem K) (x : Nat → Nat → K) (hx : M.Holds m x) :
    ∃ r, M.reduce (fun v m => (v.maxAbs ab m).map (·.1)) (fun mx t => if t > mx then t else mx) 0 m
        = some r ∧
      (∀ i j : Nat, i < M.cs → j < M.rs → ab (x i j) ≤ r) ∧
      (r = 0 ∨ ∃ i j : Nat, i < M.cs ∧ j < M.rs ∧ r = ab (x i j)) := by
  by_cases hne : 0 < M.cs ∧ 0 < M.rs
  · have hI := hW.2.2.2.2.2
    have fin : ∀ (f : Nat → VView) n at_, M.Parts f n at_ →
        ∃ r, loopVFold f (fun v m => (v.maxAbs ab m).map (·.1)) (fun mx t => if t > mx then t else mx)
          m n 0 0 = some r ∧
        (∀ i j : Nat, i < M.cs → j < M.rs → ab (x i j) ≤ r) ∧
        (r = 0 ∨ ∃ i j : Nat, i < M.cs ∧ j < M.rs ∧ r = ab (x i j)) := by
      intro f n at_ hP
      have one : ∀ k, ∃ q, k < n → q < (f k).size ∧
          (f k).maxAbs ab m = some (ab (x (at_ k q).1.toNat (at_ k q).2.toNat), (q : Int)) ∧
          ∀ l, l < (f k).size →
            ab (x (at_ k l).1.toNat (at_ k l).2.toNat) ≤ ab (x (at_ k q).1.toNat (at_ k q).2.toNat) := by
        intro k
        by_cases hk : k < n
        · obtain ⟨j, hj, e, hb⟩ := maxAbs_spec ab hab (f k) m _ (hP.holds hx hk) (hP.pos k hk) (hP.wf hI hk)
          exact ⟨j, fun _ => ⟨hj, e, hb⟩⟩
        · exact ⟨0, fun h => absurd h hk⟩
      choose q hq using one
      rw [loopVFold_spec f _ _ m (fun k => ab (x (at_ k (q k)).1.toNat (at_ k (q k)).2.toNat))]
      · obtain ⟨g1, g2, g3⟩ := foldl_max_spec
          (fun k => ab (x (at_ k (q k)).1.toNat (at_ k (q k)).2.toNat)) n 0 (0 : R)
        refine ⟨_, rfl, ?_, ?_⟩
        · intro i j hi hj
          by_cases hin : M.In i j
          · obtain ⟨k, l, hk, hl, e⟩ := hP.cover i j hin
            have b := (hq k hk).2.2 l hl
            simp only [e, Int.toNat_natCast] at b
            exact le_trans b (g2 k (by omega) (by omega))
          · rw [hx.zero i j hi hj hin, h0]; exact g1
        · rcases g3 with g3 | ⟨k, _, hk, e⟩
          · exact Or.inl g3
          · right
            obtain ⟨a0, _⟩ := hP.mem k (by omega) (q k) (hq k (by omega)).1
            simp only [BView.In, InBand] at a0
            exact ⟨_, _, by omega, by omega, e⟩
      · intro k _ hk
        rw [(hq k (by omega)).2.1]; rfl
    rw [reduce_eq _ _ 0 M hW m hne]
    split
    · exact fin _ _ _ (rows_parts M hW hne)
    split
    · exact fin _ _ _ (cols_parts M hW hne)
    · exact fin _ _ _ (diags_parts M hW hne)
  · unfold BView.reduce
    rw [if_neg hne]
    exact ⟨0, rfl, fun i j hi hj => by omega, Or.inl rfl⟩

/-! ### C36: number of elements -/

private theorem tri_succ (x : Int) (h : 0 ≤ x) :
    ((x + 1) * (x + 1 + 1)).tdiv 2 = (x * (x + 1)).tdiv 2 + (x + 1) := by
  have e : (x + 1) * (x + 1 + 1) = x * (x + 1) + (x + 1) * 2 := by ring
  have n : 0 ≤ x * (x + 1) := by positivity
  rw [e, Int.tdiv_eq_ediv_of_nonneg n, Int.tdiv_eq_ediv_of_nonneg (by positivity),
    Int.add_mul_ediv_right _ _ (by norm_num)]

private theorem sum_cut (c e : Int) (he : 0 ≤ e) (n : Nat) :
    ∑ k ∈ Finset.range n, (c - max ((k : Int) + 1 - e) 0) =
      n * c - (max ((n : Int) - e) 0 * (max ((n : Int) - e) 0 + 1)).tdiv 2 := by
  induction n with
  | zero => simp; rw [max_eq_right (by omega)]; rfl
  | succ n ih =>
    rw [Finset.sum_range_succ, ih]
    by_cases h : (n : Int) - e < 0
    · rw [max_eq_right (show (n : Int) - e ≤ 0 by omega),
        max_eq_right (show (n : Int) + 1 - e ≤ 0 by omega),
        max_eq_right (show ((n + 1 : Nat) : Int) - e ≤ 0 by push_cast; omega)]
      push_cast; ring
    · rw [max_eq_left (show 0 ≤ (n : Int) - e by omega),
        max_eq_left (show 0 ≤ (n : Int) + 1 - e by omega),
        max_eq_left (show 0 ≤ ((n + 1 : Nat) : Int) - e by push_cast; omega)]
      have := tri_succ ((n : Int) - e) (by omega)
      have e2 : ((n + 1 : Nat) : Int) - e = (n : Int) - e + 1 := by push_cast; ring
      rw [e2, this]; push_cast; ring

/-- **C36** `BandNumElements` is the number of stored elements (used to check initialiser lists). -/
theorem bandNumElements_spec (cs rs : Nat) (lo hi : Int) (hlo : 0 ≤ lo) (hhi : 0 ≤ hi) (hl : lo < cs)
    (hh : hi < rs) : bandNumElements cs rs lo hi = bandCount cs rs lo hi := by
  obtain ⟨hW, _⟩ := band_new_live_partial 0 Stor.rm cs rs lo hi (fun _ => (0 : Int)) hlo hhi hl hh
    (by simp)
  have hP := diags_parts _ hW (by simp only [BView.ofStor]; omega)
  have hs := hP.sum (fun _ _ => (1 : Int))
  have hcount : (bandCount cs rs lo hi : Int) =
      ∑ t ∈ Finset.range (lo + hi + 1).toNat, (((BView.ofStor 0 Stor.rm cs rs lo hi).diagB t).size : Int) := by
    simp only [Finset.sum_const, Finset.card_range, nsmul_eq_mul, mul_one] at hs
    have e0 : (BView.ofStor 0 Stor.rm cs rs lo hi).lo = lo := rfl
    have e1 : (BView.ofStor 0 Stor.rm cs rs lo hi).hi = hi := rfl
    rw [e0, e1] at hs
    rw [hs, ← Finset.sum_product', ← Finset.sum_filter, bandCount, Finset.card_eq_sum_ones]
    push_cast
    apply Finset.sum_congr
    · ext ⟨i, j⟩
      simp only [Finset.mem_filter, Finset.mem_product, Finset.mem_range, BView.In, InBand, BView.ofStor]
      omega
    · intros; rfl
  rw [hcount]
  have hn : (lo + hi + 1).toNat = lo.toNat + (hi.toNat + 1) := by omega
  rw [hn, Finset.sum_range_add, Finset.sum_range_succ' _ hi.toNat]
  have sz : ∀ t : Nat, (t : Int) ≤ lo + hi →
      (((BView.ofStor 0 Stor.rm cs rs lo hi).diagB t).size : Int) =
        if (t : Int) - lo ≥ 0 then min (cs : Int) (rs - (t - lo)) else min ((cs : Int) + (t - lo)) rs := by
    intro t ht
    simp only [BView.diagB, BView.diagOff, BView.ofStor]
    split <;> (dsimp only; omega)
  -- lower part, reversed
  have low : ∑ t ∈ Finset.range lo.toNat, (((BView.ofStor 0 Stor.rm cs rs lo hi).diagB t).size : Int) =
      ∑ k ∈ Finset.range lo.toNat, ((min cs rs : Int) - max ((k : Int) + 1 - max ((cs : Int) - rs) 0) 0) := by
    rw [← Finset.sum_range_reflect]
    apply Finset.sum_congr rfl
    intro k hk
    simp only [Finset.mem_range] at hk
    rw [sz _ (by omega), if_neg (by omega)]
    omega
  have up : ∑ k ∈ Finset.range hi.toNat,
      (((BView.ofStor 0 Stor.rm cs rs lo hi).diagB (lo.toNat + (k + 1))).size : Int) =
      ∑ k ∈ Finset.range hi.toNat, ((min cs rs : Int) - max ((k : Int) + 1 - max ((rs : Int) - cs) 0) 0) := by
    apply Finset.sum_congr rfl
    intro k hk
    simp only [Finset.mem_range] at hk
    rw [sz _ (by push_cast; omega), if_pos (by push_cast; omega)]
    push_cast; omega
  have mid : (((BView.ofStor 0 Stor.rm cs rs lo hi).diagB (lo.toNat + 0)).size : Int) = min (cs : Int) rs := by
    rw [sz _ (by push_cast; omega), if_pos (by push_cast; omega)]
    push_cast; omega
  rw [low, up, mid, sum_cut _ _ (by omega), sum_cut _ _ (by omega)]
  have c1 : ((lo.toNat : Nat) : Int) = lo := by omega
  have c2 : ((hi.toNat : Nat) : Int) = hi := by omega
  rw [c1, c2]
  unfold bandNumElements
  rw [if_neg (by omega)]
  rcases lt_trichotomy (cs : Int) rs with h | h | h
  · rw [if_neg (by omega), if_neg (by omega)]
    dsimp only
    rw [max_eq_right (show (cs : Int) - rs ≤ 0 by omega), max_eq_left (show 0 ≤ (rs : Int) - cs by omega),
      min_eq_left (by omega), sub_zero, max_eq_left hlo,
      show hi - ((rs : Int) - cs) = cs + hi - rs by ring]
    ring
  · rw [if_pos h, h]
    simp only [sub_self, max_self, sub_zero, min_self]
    rw [max_eq_left hlo, max_eq_left hhi]; ring
  · rw [if_neg (by omega), if_pos (by omega)]
    dsimp only
    rw [max_eq_left (show 0 ≤ (cs : Int) - rs by omega), max_eq_right (show (rs : Int) - cs ≤ 0 by omega),
      min_eq_right (by omega), sub_zero, max_eq_left hhi,
      show lo - ((cs : Int) - rs) = rs + lo - cs by ring]
    ring

end TMV

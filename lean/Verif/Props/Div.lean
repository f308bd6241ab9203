import Verif.Model.Div
import Mathlib.Tactic.FinCases
import Mathlib.Tactic.NormNum
import Mathlib.Data.Rat.Defs

/-! Division control (property C44). -/
namespace TMV.Div
variable {V F Q A : Type}

/-! ### Specification: what a caller may rely on, read off the call history -/

/-- The algorithms a caller may choose. -/
def Valid (dt : DT) : Prop := dt = LU ∨ dt = CH ∨ dt = QR ∨ dt = QRP ∨ dt = SV

/-- A call that only uses algorithms the class supports. -/
def Op.Valid (e : Env V F Q A) : Op V Q → Prop
  | .divideUsing dt => Div.Valid dt ∧ e.kinds dt = true
  | .access dt _ => Div.Valid dt ∧ e.kinds dt = true
  | _ => True

/-- The contents of the matrix after the calls, when nothing is decomposed in place: the last assignment. -/
def lastVal : V → List (Op V Q) → V
  | v, [] => v
  | _, .modify v :: os => lastVal v os
  | v, _ :: os => lastVal v os

/-- The algorithm chosen by the calls: the last choice, or the default. -/
def lastAlg (dflt : DT) : Option DT → List (Op V Q) → DT
  | a, [] => a.getD dflt
  | _, .divideUsing dt :: os => lastAlg dflt (some dt) os
  | _, .access dt _ :: os => lastAlg dflt (some dt) os
  | a, _ :: os => lastAlg dflt a os

/-- The default: LU for square matrices, QR otherwise. -/
def dflt (e : Env V F Q A) : DT := if e.square then LU else QR

/-- The answer from a fresh decomposition of contents `v` with algorithm `dt`. -/
def freshAns (e : Env V F Q A) (dt : DT) (v : V) (q : Q) : Obs A :=
  match e.decomp dt v with
  | none => .raised
  | some f => match e.ask f q with
      | none => .raised
      | some a => .ans a

/-! ### Bit-field lemmas -/

theorem forall_dt {p : DT → Prop} (h : ∀ x : Fin 256, p (BitVec.ofFin x)) : ∀ d, p d :=
  fun d => h d.toFin

/-- A bit field whose algorithm part is empty or one of the five. -/
def OK (d : DT) : Prop := d &&& Flags = 0 ∨ Valid (d &&& Flags)

instance (d : DT) : Decidable (Valid d) := by unfold Valid; infer_instance
instance (d : DT) : Decidable (OK d) := by unfold OK; infer_instance

theorem using_bits (dt : DT) (hv : Valid dt) : ∀ d : DT,
    ((d &&& ~~~Flags) ||| dt) &&& Flags = dt ∧
    ((d &&& ~~~Flags) ||| dt) &&& InPlace = d &&& InPlace ∧
    ((d &&& ~~~Flags) ||| dt) &&& Save = d &&& Save := by
  rcases hv with rfl | rfl | rfl | rfl | rfl <;> exact forall_dt (by decide +kernel)

theorem using_eq (dt : DT) (hv : Valid dt) : ∀ d : DT, OK d → (d &&& dt ≠ 0 ↔ d &&& Flags = dt) := by
  rcases hv with rfl | rfl | rfl | rfl | rfl <;> exact forall_dt (by decide +kernel)

theorem flag_bits : ∀ d : DT,
    ((d ||| InPlace) ||| Save) &&& Flags = d &&& Flags ∧ (d &&& ~~~InPlace) &&& Flags = d &&& Flags ∧
    (d ||| Save) &&& Flags = d &&& Flags ∧ (d &&& ~~~Save) &&& Flags = d &&& Flags ∧
    ((d ||| InPlace) ||| Save) &&& Save ≠ 0 ∧ (d ||| Save) &&& Save ≠ 0 ∧
    (d &&& ~~~InPlace) &&& Save = d &&& Save ∧ (d ||| Save) &&& InPlace = d &&& InPlace ∧
    (d &&& ~~~InPlace) &&& InPlace = 0 ∧ (d &&& ~~~Save) &&& InPlace = d &&& InPlace ∧
    (d &&& ~~~Save) &&& Save = 0 :=
  forall_dt (by decide +kernel)

theorem valid_ne_zero {dt : DT} (h : Valid dt) : dt ≠ 0 := by
  rcases h with rfl | rfl | rfl | rfl | rfl <;> decide

theorem valid_dflt (e : Env V F Q A) : Valid (dflt e) := by
  unfold dflt; split
  · exact Or.inl rfl
  · exact Or.inr (Or.inr (Or.inl rfl))

/-! ### Effect of the internal steps -/

theorem divideUsing_spec (dt : DT) (hv : Valid dt) (s : St V F) (hs : OK s.divtype) :
    (divideUsing dt s).divtype &&& Flags = dt ∧
    (divideUsing dt s).divtype &&& InPlace = s.divtype &&& InPlace ∧
    (divideUsing dt s).divtype &&& Save = s.divtype &&& Save ∧ (divideUsing dt s).m = s.m ∧
    (s.divtype &&& Flags = dt → divideUsing dt s = s) ∧
    (s.divtype &&& Flags ≠ dt → (divideUsing dt s).divider = none) := by
  unfold divideUsing
  by_cases h : s.divtype &&& dt = 0
  · rw [if_pos h]
    obtain ⟨a, b, c⟩ := using_bits dt hv s.divtype
    refine ⟨a, b, c, rfl, ?_, fun _ => rfl⟩
    intro h'
    exact absurd h ((using_eq dt hv _ hs).mpr h')
  · rw [if_neg h]
    have := (using_eq dt hv _ hs).mp h
    exact ⟨this, rfl, rfl, rfl, fun _ => rfl, fun h' => absurd this h'⟩

/-- The algorithm in force. -/
def algOf (e : Env V F Q A) (s : St V F) : DT :=
  if s.divtype &&& Flags = 0 then dflt e else s.divtype &&& Flags

/-- The invariant of all reachable states: a sensible algorithm field, and the cached decomposition is of the
class that `getDivType()` names. -/
def Inv (e : Env V F Q A) (s : St V F) : Prop :=
  OK s.divtype ∧ (s.divtype &&& Flags = 0 ∨ e.kinds (s.divtype &&& Flags) = true) ∧
    ∀ dt f, s.divider = some (dt, f) → dt = s.divtype &&& Flags ∧ dt ≠ 0

theorem getDivType_spec (e : Env V F Q A) (s : St V F) (hs : OK s.divtype) :
    (getDivType e s).2 = algOf e s ∧ (getDivType e s).1.divtype &&& Flags = algOf e s ∧
    (getDivType e s).1.m = s.m ∧
    (getDivType e s).1.divtype &&& InPlace = s.divtype &&& InPlace ∧
    (getDivType e s).1.divtype &&& Save = s.divtype &&& Save ∧
    (s.divtype &&& Flags ≠ 0 → (getDivType e s).1 = s) ∧
    ((s.divtype &&& Flags ≠ 0 ∨ s.divider = none) → (getDivType e s).1.divider = s.divider) := by
  unfold getDivType algOf XX
  by_cases h : s.divtype &&& Flags = 0
  · simp only [h]
    have := divideUsing_spec (dflt e) (valid_dflt e) s hs
    simp only [dflt] at this ⊢
    refine ⟨this.1, this.1, this.2.2.2.1, this.2.1, this.2.2.1, fun h => absurd rfl h, ?_⟩
    rintro (h' | h')
    · exact absurd rfl h'
    · rw [h']; apply this.2.2.2.2.2; rw [h]; exact (valid_ne_zero (valid_dflt e)).symm
  · rw [if_neg h, if_neg h]
    exact ⟨rfl, rfl, rfl, rfl, rfl, fun _ => rfl, fun _ => rfl⟩

/-- `setDiv()` in a reachable state: keeps an existing decomposition, else decomposes the current contents with
the algorithm in force; throws exactly if that decomposition throws. -/
theorem setDiv_spec (e : Env V F Q A) (hk : e.kinds (dflt e) = true) (s : St V F) (hs : Inv e s) :
    (∀ d, s.divider = some d → setDiv e s = (s, true)) ∧
    (s.divider = none →
      (e.decomp (algOf e s) s.m = none → (setDiv e s).2 = false ∧ (setDiv e s).1.divider = none ∧
        (setDiv e s).1.m = s.m) ∧
      (∀ f, e.decomp (algOf e s) s.m = some f → (setDiv e s).2 = true ∧
        (setDiv e s).1.divider = some (algOf e s, f) ∧
        (setDiv e s).1.m = if divIsInPlace s then e.after (algOf e s) s.m else s.m)) ∧
    (setDiv e s).1.divtype &&& Save = s.divtype &&& Save ∧
    (setDiv e s).1.divtype &&& InPlace = s.divtype &&& InPlace ∧
    Inv e (setDiv e s).1 ∧ algOf e (setDiv e s).1 = algOf e s := by
  obtain ⟨g1, g2, g3, g4, g5, g6, g7⟩ := getDivType_spec e s hs.1
  have hva : Valid (algOf e s) := by
    unfold algOf; split
    · exact valid_dflt e
    · rename_i h; exact hs.1.resolve_left h
  have hka : e.kinds (algOf e s) = true := by
    unfold algOf; split
    · exact hk
    · rename_i h; exact hs.2.1.resolve_left h
  have hia : ∀ t : St V F, t.divtype &&& Flags = algOf e s → (∀ dt f, t.divider = some (dt, f) →
      dt = algOf e s) → Inv e t ∧ algOf e t = algOf e s := by
    intro t ht hd
    refine ⟨⟨Or.inr (by rw [ht]; exact hva), Or.inr (by rw [ht]; exact hka), ?_⟩, ?_⟩
    · intro dt f h
      rw [ht]
      have := hd dt f h
      exact ⟨this, by rw [this]; exact valid_ne_zero hva⟩
    · have h0 := valid_ne_zero hva
      rw [← ht] at h0 ⊢
      unfold algOf
      rw [if_neg h0]
  cases hd : s.divider with
  | some d =>
    have : setDiv e s = (s, true) := by simp [setDiv, hd]
    rw [this]
    exact ⟨fun _ _ => rfl, fun h => by simp at h, rfl, rfl, hs, rfl⟩
  | none =>
    have gd : (getDivType e s).1.divider = none := by rw [g7 (Or.inr hd), hd]
    cases hf : e.decomp (algOf e s) s.m with
    | none =>
      have : setDiv e s = ((getDivType e s).1, false) := by
        simp only [setDiv, hd, g1, g3, hka, hf]; simp
      rw [this]
      have hi := hia (getDivType e s).1 g2 (by intro dt f h; rw [gd] at h; simp at h)
      exact ⟨fun d h => by simp at h, fun _ => ⟨fun _ => ⟨rfl, gd, g3⟩, fun f h => by simp at h⟩, g5, g4,
        hi.1, hi.2⟩
    | some f =>
      have hip : divIsInPlace (getDivType e s).1 = divIsInPlace s := by
        unfold divIsInPlace; rw [g4]
      have : setDiv e s = (⟨if divIsInPlace s then e.after (algOf e s) s.m else s.m, some (algOf e s, f),
          (getDivType e s).1.divtype⟩, true) := by
        simp only [setDiv, hd, g1, g3, hka, hf, hip]; simp
      rw [this]
      have hi := hia ⟨if divIsInPlace s then e.after (algOf e s) s.m else s.m, some (algOf e s, f),
          (getDivType e s).1.divtype⟩ g2
        (by intro dt f' h; simp only [Option.some.injEq, Prod.mk.injEq] at h; exact h.1.symm)
      refine ⟨fun d h => by simp at h, fun _ => ⟨fun h => by simp at h, fun f' h => ?_⟩, g5, g4, hi.1, hi.2⟩
      obtain rfl := Option.some.inj h
      exact ⟨rfl, rfl, rfl⟩

theorem inv_unset {e : Env V F Q A} {s : St V F} (h : Inv e s) : Inv e (unsetDiv s) :=
  ⟨h.1, h.2.1, fun dt f h' => by simp [unsetDiv] at h'⟩

theorem inv_done {e : Env V F Q A} {s : St V F} (h : Inv e s) : Inv e (doneDiv s) := by
  unfold doneDiv; split
  · exact h
  · exact inv_unset h

theorem inv_using {e : Env V F Q A} {s : St V F} (h : Inv e s) {dt : DT} (hv : Valid dt)
    (hk : e.kinds dt = true) : Inv e (divideUsing dt s) := by
  obtain ⟨a, b, c, d, e1, f1⟩ := divideUsing_spec dt hv s h.1
  by_cases hd : s.divtype &&& Flags = dt
  · rw [e1 hd]; exact h
  · refine ⟨Or.inr (by rw [a]; exact hv), Or.inr (by rw [a]; exact hk), ?_⟩
    intro dt' f h'
    rw [f1 hd] at h'; simp at h'

/-- One call preserves the invariant. -/
theorem inv_step (e : Env V F Q A) (hk : e.kinds (dflt e) = true) (s : St V F) (hs : Inv e s) (o : Op V Q)
    (ho : o.Valid e) : Inv e (step e s o).1 := by
  obtain ⟨b1, b2, b3, b4, _⟩ := flag_bits s.divtype
  have flag : ∀ d : DT, d &&& Flags = s.divtype &&& Flags → Inv e { s with divtype := d } := by
    intro d hd
    refine ⟨?_, ?_, ?_⟩
    · unfold OK; rw [hd]; exact hs.1
    · simp only [hd]; exact hs.2.1
    · simp only [hd]; exact hs.2.2
  cases o with
  | modify v => exact ⟨hs.1, hs.2.1, hs.2.2⟩
  | divideUsing dt => exact inv_using hs ho.1 ho.2
  | divideInPlace => exact flag _ b1
  | dontDivideInPlace => exact flag _ b2
  | saveDiv => exact flag _ b3
  | dontSaveDiv => exact flag _ b4
  | setDiv => exact (setDiv_spec e hk s hs).2.2.2.2.1
  | unsetDiv => exact inv_unset hs
  | resetDiv => exact (setDiv_spec e hk _ (inv_unset hs)).2.2.2.2.1
  | getDivType =>
    show Inv e (getDivType e s).1
    unfold getDivType
    by_cases h : s.divtype &&& Flags = XX
    · simp only [h, if_true]
      exact inv_using hs (valid_dflt e) hk
    · simp only [h, if_false]; exact hs
  | query q =>
    have hi := (setDiv_spec e hk s hs).2.2.2.2.1
    show Inv e (query e q s).1
    dsimp only [query]
    split
    · exact hi
    · split
      · exact hi
      · split
        · exact hi
        · exact inv_done hi
  | access dt q =>
    have hi := (setDiv_spec e hk _ (inv_using hs ho.1 ho.2)).2.2.2.2.1
    show Inv e (access e dt q s).1
    dsimp only [access]
    split
    · exact hi
    · split
      · exact hi
      · split
        · split <;> exact hi
        · exact hi

theorem inv_init (e : Env V F Q A) (v : V) : Inv e (init v : St V F) :=
  ⟨Or.inl (by simp [init, XX]), Or.inl (by simp [init, XX]), fun dt f h => by simp [init] at h⟩

theorem inv_run (e : Env V F Q A) (hk : e.kinds (dflt e) = true) :
    ∀ (os : List (Op V Q)) (s : St V F), Inv e s → (∀ o ∈ os, o.Valid e) → Inv e (run e s os).1 := by
  intro os
  induction os with
  | nil => intro s hs _; exact hs
  | cons o os ih =>
    intro s hs ho
    exact ih _ (inv_step e hk s hs o (ho o (by simp))) (fun o' h => ho o' (by simp [h]))

/-- The answer of a query in terms of the state before it. -/
theorem query_obs (e : Env V F Q A) (hk : e.kinds (dflt e) = true) (s : St V F) (hs : Inv e s) (q : Q) :
    (s.divider = none → (query e q s).2 = freshAns e (algOf e s) s.m q) ∧
    (∀ dt f, s.divider = some (dt, f) →
      (query e q s).2 = match e.ask f q with | none => Obs.raised | some a => Obs.ans a) := by
  obtain ⟨h1, h2, _⟩ := setDiv_spec e hk s hs
  constructor
  · intro hd
    obtain ⟨a, b⟩ := h2 hd
    cases hf : e.decomp (algOf e s) s.m with
    | none =>
      have := a hf
      simp only [query, freshAns, hf, this.1, if_true]
    | some f =>
      obtain ⟨c1, c2, _⟩ := b f hf
      simp only [query, freshAns, hf, c1, c2]
      cases e.ask f q <;> simp
  · intro dt f hd
    have := h1 _ hd
    simp only [query, this, hd]
    cases e.ask f q <;> simp

/-! ### C44 theorems -/

/-- **C44** (type safety).  For every history of calls that only name supported algorithms, no call dereferences
a null divider and `lud()`, `qrd()`, `qrpd()`, `svd()`, `chd()` return an object of the right class. -/
theorem div_no_ub (e : Env V F Q A) (hk : e.kinds (dflt e) = true) (v : V) (os : List (Op V Q))
    (ho : ∀ o ∈ os, o.Valid e) : Obs.ub ∉ (run e (init v) os).2 := by
  have one : ∀ (s : St V F) (o : Op V Q), Inv e s → o.Valid e → (step e s o).2 ≠ Obs.ub := by
    intro s o hs ho
    cases o with
    | modify | divideUsing | divideInPlace | dontDivideInPlace | saveDiv | dontSaveDiv | unsetDiv
    | getDivType => simp [step]
    | setDiv => simp only [step]; split <;> simp
    | resetDiv => simp only [step]; split <;> simp
    | query q =>
      obtain ⟨a, b⟩ := query_obs e hk s hs q
      show (query e q s).2 ≠ _
      cases hd : s.divider with
      | none =>
        rw [a hd]; unfold freshAns
        split
        · simp
        · split <;> simp
      | some d =>
        rw [b d.1 d.2 hd]
        split <;> simp
    | access dt q =>
      have hi := inv_using hs ho.1 ho.2
      obtain ⟨h1, h2, _, _, _, h6⟩ := setDiv_spec e hk _ hi
      have du := divideUsing_spec dt ho.1 s hs.1
      have ha : algOf e (divideUsing dt s) = dt := by
        unfold algOf
        rw [du.1, if_neg (valid_ne_zero ho.1)]
      show (access e dt q s).2 ≠ _
      cases hd : (divideUsing dt s).divider with
      | none =>
        obtain ⟨a, b⟩ := h2 hd
        cases hf : e.decomp (algOf e (divideUsing dt s)) (divideUsing dt s).m with
        | none => have := a hf; simp [access, this.1]
        | some f =>
          obtain ⟨c1, c2, _⟩ := b f hf
          simp only [access, c1, c2, ha]
          cases e.ask f q <;> simp
      | some d =>
        have hh := h1 d hd
        have hdt := (hi.2.2 d.1 d.2 hd).1
        rw [du.1] at hdt
        simp only [access, hh, hd, hdt]
        cases e.ask d.2 q <;> simp
  have : ∀ (os : List (Op V Q)) (s : St V F), Inv e s → (∀ o ∈ os, o.Valid e) → Obs.ub ∉ (run e s os).2 := by
    intro os
    induction os with
    | nil => intro s _ _; simp [run]
    | cons o os ih =>
      intro s hs ho
      simp only [run, List.mem_cons, not_or]
      exact ⟨(one s o hs (ho o (by simp))).symm,
        ih _ (inv_step e hk s hs o (ho o (by simp))) (fun o' h => ho o' (by simp [h]))⟩
  exact this os _ (inv_init e v) ho

/-- Calls that leave the default behaviour ("always recalculate") in force. -/
def Op.Plain : Op V Q → Prop
  | .divideInPlace | .saveDiv | .setDiv | .resetDiv | .access _ _ => False
  | _ => True

theorem algOf_step_plain (e : Env V F Q A) (hk : e.kinds (dflt e) = true) :
    ∀ (os : List (Op V Q)) (s : St V F) (a : Option DT) (v : V), Inv e s → (∀ o ∈ os, o.Valid e ∧ o.Plain) →
      s.divider = none → s.divtype &&& Save = 0 → s.divtype &&& InPlace = 0 → s.m = v →
      a.getD (dflt e) = algOf e s → Obs.raised ∉ (run e s os).2 →
      let t := (run e s os).1
      t.divider = none ∧ t.m = lastVal v os ∧ algOf e t = lastAlg (dflt e) a os := by
  intro os
  induction os with
  | nil => intro s a v hs _ hd _ _ hm ha _; exact ⟨hd, hm, ha.symm⟩
  | cons o os ih =>
    intro s a v hs ho hd hsv hip hm ha hr
    simp only [run, List.mem_cons, not_or] at hr
    have hi := inv_step e hk s hs o (ho o (by simp)).1
    have ho' : ∀ o' ∈ os, o'.Valid e ∧ o'.Plain := fun o' h => ho o' (by simp [h])
    obtain ⟨b1, b2, b3, b4, b5, b6, b7, b8, b9, b10, b11⟩ := flag_bits s.divtype
    have alg : ∀ d : DT, d &&& Flags = s.divtype &&& Flags →
        algOf e { s with divtype := d } = algOf e s := by
      intro d h; simp only [algOf, h]
    cases o with
    | modify v' =>
      exact ih _ a v' hi ho' hd hsv hip rfl (by rw [ha]; rfl) hr.2
    | divideUsing dt =>
      obtain ⟨u1, u2, u3, u4, u5, u6⟩ := divideUsing_spec dt (ho _ List.mem_cons_self).1.1 s hs.1
      refine ih _ (some dt) v hi ho' ?_ ?_ ?_ (u4.trans hm) ?_ hr.2
      · by_cases h : s.divtype &&& Flags = dt
        · exact (congrArg St.divider (u5 h)).trans hd
        · exact u6 h
      · exact u3.trans hsv
      · exact u2.trans hip
      · have : (divideUsing dt s).divtype &&& Flags ≠ 0 := by
          rw [u1]; exact valid_ne_zero (ho _ List.mem_cons_self).1.1
        show dt = algOf e (divideUsing dt s)
        unfold algOf
        rw [if_neg this, u1]
    | divideInPlace => exact absurd (ho _ List.mem_cons_self).2 (by simp [Op.Plain])
    | saveDiv => exact absurd (ho _ List.mem_cons_self).2 (by simp [Op.Plain])
    | setDiv => exact absurd (ho _ List.mem_cons_self).2 (by simp [Op.Plain])
    | resetDiv => exact absurd (ho _ List.mem_cons_self).2 (by simp [Op.Plain])
    | access => exact absurd (ho _ List.mem_cons_self).2 (by simp [Op.Plain])
    | dontDivideInPlace => exact ih _ a v hi ho' hd (b7.trans hsv) b9 hm (ha.trans (alg _ b2).symm) hr.2
    | dontSaveDiv => exact ih _ a v hi ho' hd b11 (b10.trans hip) hm (ha.trans (alg _ b4).symm) hr.2
    | unsetDiv => exact ih _ a v hi ho' rfl hsv hip hm ha hr.2
    | getDivType =>
      obtain ⟨g1, g2, g3, g4, g5, g6, g7⟩ := getDivType_spec e s hs.1
      refine ih _ a v hi ho' ((g7 (Or.inr hd)).trans hd) (g5.trans hsv) (g4.trans hip) (g3.trans hm) ?_ hr.2
      rw [ha]
      show _ = algOf e (getDivType e s).1
      have h0 : algOf e s ≠ 0 := by
        unfold algOf; split
        · exact valid_ne_zero (valid_dflt e)
        · rename_i h; exact h
      conv_rhs => unfold algOf
      rw [g2, if_neg h0]
    | query q =>
      obtain ⟨_, h2, h3, h4, h5, h6⟩ := setDiv_spec e hk s hs
      obtain ⟨c1, c2⟩ := h2 hd
      have hne : ¬ divIsInPlace s = true := by simp [divIsInPlace, hip]
      cases hf : e.decomp (algOf e s) s.m with
      | none =>
        exfalso; apply hr.1
        show Obs.raised = (query e q s).2
        rw [(query_obs e hk s hs q).1 hd]; simp [freshAns, hf]
      | some f =>
        obtain ⟨d1, d2, d3⟩ := c2 f hf
        rw [if_neg hne] at d3
        cases hq : e.ask f q with
        | none =>
          exfalso; apply hr.1
          show Obs.raised = (query e q s).2
          rw [(query_obs e hk s hs q).1 hd]; simp [freshAns, hf, hq]
        | some x =>
          have hst : (query e q s).1 = unsetDiv (setDiv e s).1 := by
            simp only [query, d1, d2, hq]
            simp [doneDiv, divIsSaved, h3, hsv]
          have hst' : (step e s (.query q)).1 = unsetDiv (setDiv e s).1 := hst
          simp only [run]
          rw [hst'] at hi hr ⊢
          exact ih _ a v hi ho' rfl (h3.trans hsv) (h4.trans hip) (d3.trans hm) (ha.trans h6.symm) hr.2

/-- **C44** (default: never stale; partial — excludes histories in which an earlier division threw, see
`div_stale_after_exception_violated`, and explicit `setDiv()`/`lud()`-style calls, see
`div_stale_after_access_violated`).  Without `saveDiv`, `divideInPlace` and explicit decomposition requests, a
division (or det, inverse, …) after any history reflects the current elements and the algorithm chosen last
(LU for square, QR for other matrices if none was chosen). -/
theorem div_default_fresh_partial (e : Env V F Q A) (hk : e.kinds (dflt e) = true) (v : V) (os : List (Op V Q))
    (ho : ∀ o ∈ os, o.Valid e ∧ o.Plain) (hr : Obs.raised ∉ (run e (init v) os).2) (q : Q) :
    (step e (run e (init v) os).1 (.query q)).2 =
      freshAns e (lastAlg (dflt e) none os) (lastVal v os) q := by
  obtain ⟨h1, h2, h3⟩ := algOf_step_plain e hk os (init v) none v (inv_init e v) ho rfl (by simp [init, XX])
    (by simp [init, XX]) rfl (by simp [init, XX, algOf]) hr
  have hi := inv_run e hk os _ (inv_init e v) (fun o h => (ho o h).1)
  show (query e q _).2 = _
  rw [(query_obs e hk _ hi q).1 h1, h2, h3]

/-- **C44** (`unsetDiv`).  After any history whatever (saved, thrown, in place, …), `unsetDiv()` makes the next
division use the contents the matrix has then, with the algorithm then in force. -/
theorem div_unset_fresh (e : Env V F Q A) (hk : e.kinds (dflt e) = true) (v : V) (os : List (Op V Q))
    (ho : ∀ o ∈ os, o.Valid e) (w : V) (q : Q) :
    let s := (run e (init v) os).1
    (step e (step e s .unsetDiv).1 (.query q)).2 = freshAns e (getDivType e s).2 s.m q ∧
    (step e (step e (step e s .unsetDiv).1 (.modify w)).1 (.query q)).2 =
      freshAns e (getDivType e s).2 w q := by
  intro s
  have hi : Inv e s := inv_run e hk os _ (inv_init e v) ho
  have hu := inv_unset hi
  rw [(getDivType_spec e s hi.1).1]
  exact ⟨(query_obs e hk _ hu q).1 rfl,
    (query_obs e hk { unsetDiv s with m := w } ⟨hu.1, hu.2.1, hu.2.2⟩ q).1 rfl⟩

/-- **C44** (changing the algorithm).  After any history, `divideUsing(dt)` with an algorithm other than the one
in force discards the old decomposition: the next division decomposes the current contents with `dt`.  Choosing
the algorithm in force again changes nothing. -/
theorem div_using_spec (e : Env V F Q A) (hk : e.kinds (dflt e) = true) (v : V) (os : List (Op V Q))
    (ho : ∀ o ∈ os, o.Valid e) (dt : DT) (hv : Valid dt) (hd : e.kinds dt = true) (q : Q) :
    let s := (run e (init v) os).1
    ((getDivType e s).2 ≠ dt →
      (step e (step e s (.divideUsing dt)).1 (.query q)).2 = freshAns e dt s.m q) ∧
    (s.divtype &&& Flags = dt → (step e s (.divideUsing dt)).1 = s) := by
  intro s
  have hi : Inv e s := inv_run e hk os _ (inv_init e v) ho
  obtain ⟨u1, u2, u3, u4, u5, u6⟩ := divideUsing_spec dt hv s hi.1
  refine ⟨?_, u5⟩
  rw [(getDivType_spec e s hi.1).1]
  intro hne
  have hu := inv_using hi hv hd
  have hdn : (divideUsing dt s).divider = none := by
    by_cases h : s.divtype &&& Flags = dt
    · exfalso; apply hne
      unfold algOf
      rw [if_neg (by rw [h]; exact valid_ne_zero hv), h]
    · exact u6 h
  have ha : algOf e (divideUsing dt s) = dt := by
    unfold algOf; rw [u1, if_neg (valid_ne_zero hv)]
  show (query e q (divideUsing dt s)).2 = _
  rw [(query_obs e hk _ hu q).1 hdn, ha, u4]

/-- Calls that do not discard a saved decomposition made with algorithm `dt`. -/
def Op.Keeps (dt : DT) : Op V Q → Prop
  | .divideUsing dt' | .access dt' _ => dt' = dt
  | .dontSaveDiv | .unsetDiv | .resetDiv => False
  | _ => True

theorem keeps_run (e : Env V F Q A) (hk : e.kinds (dflt e) = true) (dt : DT) (hv : Valid dt) (f : F) :
    ∀ (os : List (Op V Q)) (s : St V F), Inv e s → (∀ o ∈ os, o.Valid e ∧ o.Keeps dt) →
      s.divider = some (dt, f) → s.divtype &&& Save ≠ 0 →
      Inv e (run e s os).1 ∧ (run e s os).1.divider = some (dt, f) := by
  intro os
  induction os with
  | nil => intro s hs _ hd _; exact ⟨hs, hd⟩
  | cons o os ih =>
    intro s hs ho hd hsv
    have hi := inv_step e hk s hs o (ho o (by simp)).1
    have ho' : ∀ o' ∈ os, o'.Valid e ∧ o'.Keeps dt := fun o' h => ho o' (by simp [h])
    obtain ⟨b1, b2, b3, b4, b5, b6, b7, b8, b9, b10, b11⟩ := flag_bits s.divtype
    have hfl : s.divtype &&& Flags = dt := ((hs.2.2 dt f hd).1).symm
    have hset := (setDiv_spec e hk s hs).1 _ hd
    have hsame : divideUsing dt s = s := (divideUsing_spec dt hv s hs.1).2.2.2.2.1 hfl
    simp only [run]
    cases o with
    | modify v' => exact ih _ hi ho' hd hsv
    | divideUsing dt' =>
      have e1 : dt' = dt := (ho _ List.mem_cons_self).2
      subst e1
      have : (step e s (.divideUsing dt')).1 = s := hsame
      rw [this]; exact ih _ hs ho' hd hsv
    | divideInPlace => exact ih _ hi ho' hd b5
    | saveDiv => exact ih _ hi ho' hd b6
    | dontDivideInPlace => exact ih _ hi ho' hd (by rw [show (step e s .dontDivideInPlace).1.divtype &&& Save = _ from b7]; exact hsv)
    | dontSaveDiv => exact absurd (ho _ List.mem_cons_self).2 (by simp [Op.Keeps])
    | unsetDiv => exact absurd (ho _ List.mem_cons_self).2 (by simp [Op.Keeps])
    | resetDiv => exact absurd (ho _ List.mem_cons_self).2 (by simp [Op.Keeps])
    | setDiv =>
      have : (step e s .setDiv).1 = s := congrArg Prod.fst hset
      rw [this]; exact ih _ hs ho' hd hsv
    | getDivType =>
      have : (step e s .getDivType).1 = s :=
        (getDivType_spec e s hs.1).2.2.2.2.2.1 (by rw [hfl]; exact valid_ne_zero hv)
      rw [this]; exact ih _ hs ho' hd hsv
    | query q =>
      have : (step e s (.query q)).1 = s := by
        show (query e q s).1 = s
        simp only [query, hset, hd]
        cases e.ask f q with
        | none => simp
        | some a =>
          have hb : divIsSaved s = true := by unfold divIsSaved; exact decide_eq_true hsv
          simp [doneDiv, hb]
      rw [this]; exact ih _ hs ho' hd hsv
    | access dt' q =>
      have e1 : dt' = dt := (ho _ List.mem_cons_self).2
      subst e1
      have : (step e s (.access dt' q)).1 = s := by
        show (access e dt' q s).1 = s
        simp only [access, hsame, hset, hd]
        cases e.ask f q <;> simp
      rw [this]; exact ih _ hs ho' hd hsv

/-- **C44** (`saveDiv`).  After any history, `saveDiv(); resetDiv();` decomposes the contents the matrix has at
that moment; every later division uses that decomposition, whatever happens to the elements (and even if some
divisions throw), until `unsetDiv`, `resetDiv`, `dontSaveDiv` or a change of algorithm. -/
theorem div_saved_stable (e : Env V F Q A) (hk : e.kinds (dflt e) = true) (v : V) (pre post : List (Op V Q))
    (hp : ∀ o ∈ pre, o.Valid e) (f : F) (q : Q)
    (hf : e.decomp (getDivType e (run e (init v) pre).1).2 (run e (init v) pre).1.m = some f)
    (hq : ∀ o ∈ post, o.Valid e ∧ o.Keeps (getDivType e (run e (init v) pre).1).2) :
    let s := (run e (run e (init v) pre).1 [.saveDiv, .resetDiv]).1
    (step e (run e s post).1 (.query q)).2 = match e.ask f q with | none => .raised | some a => .ans a := by
  have hi : Inv e (run e (init v) pre).1 := inv_run e hk pre _ (inv_init e v) hp
  generalize (run e (init v) pre).1 = s0 at *
  intro s
  rw [(getDivType_spec e s0 hi.1).1] at hf hq
  have hva : Valid (algOf e s0) := by
    unfold algOf; split
    · exact valid_dflt e
    · rename_i h; exact hi.1.resolve_left h
  have hi1 : Inv e (step e s0 .saveDiv).1 := inv_step e hk s0 hi .saveDiv trivial
  obtain ⟨b1, b2, b3, b4, b5, b6, _⟩ := flag_bits s0.divtype
  set s1 : St V F := unsetDiv (step e s0 .saveDiv).1 with hs1
  have hi2 : Inv e s1 := inv_unset hi1
  have ha : algOf e s1 = algOf e s0 := by
    show (if (s0.divtype ||| Save) &&& Flags = 0 then _ else (s0.divtype ||| Save) &&& Flags) = _
    rw [b3]; rfl
  obtain ⟨_, h2, h3, _, h5, _⟩ := setDiv_spec e hk s1 hi2
  obtain ⟨_, c2⟩ := h2 rfl
  obtain ⟨_, d2, _⟩ := c2 f (by rw [ha]; exact hf)
  have hs : s = (setDiv e s1).1 := by
    simp only [s, run, step, s1]
  rw [ha] at d2
  obtain ⟨k1, k2⟩ := keeps_run e hk _ hva f post s (by rw [hs]; exact h5) hq (by rw [hs]; exact d2)
    (by rw [hs, h3]; exact b6)
  exact (query_obs e hk _ k1 q).2 _ f k2

/-- **C44** (the matrix is left alone).  In a history without `divideInPlace()` no call other than a
modification changes the elements. -/
theorem div_not_in_place_unchanged (e : Env V F Q A) (hk : e.kinds (dflt e) = true) (v : V) (os : List (Op V Q))
    (ho : ∀ o ∈ os, o.Valid e ∧ (∀ _h : o = .divideInPlace, False)) :
    (run e (init v) os).1.m = lastVal v os := by
  have : ∀ (os : List (Op V Q)) (s : St V F) (v : V), Inv e s →
      (∀ o ∈ os, o.Valid e ∧ (∀ _h : o = .divideInPlace, False)) → s.divtype &&& InPlace = 0 → s.m = v →
      (run e s os).1.m = lastVal v os := by
    intro os
    induction os with
    | nil => intro s v _ _ _ hm; exact hm
    | cons o os ih =>
      intro s v hs ho hip hm
      have hi := inv_step e hk s hs o (ho o (by simp)).1
      have ho' : ∀ o' ∈ os, o'.Valid e ∧ (∀ _h : o' = .divideInPlace, False) := fun o' h => ho o' (by simp [h])
      obtain ⟨b1, b2, b3, b4, b5, b6, b7, b8, b9, b10, b11⟩ := flag_bits s.divtype
      -- setDiv leaves contents and flag alone
      have sd : ∀ t : St V F, Inv e t → t.divtype &&& InPlace = 0 →
          (setDiv e t).1.m = t.m ∧ (setDiv e t).1.divtype &&& InPlace = 0 := by
        intro t ht hip
        obtain ⟨h1, h2, h3, h4, _⟩ := setDiv_spec e hk t ht
        refine ⟨?_, by rw [h4]; exact hip⟩
        cases hd : t.divider with
        | some d => rw [h1 d hd]
        | none =>
          obtain ⟨c1, c2⟩ := h2 hd
          cases hf : e.decomp (algOf e t) t.m with
          | none => exact (c1 hf).2.2
          | some f =>
            rw [(c2 f hf).2.2, if_neg (by simp [divIsInPlace, hip])]
      simp only [run]
      cases o with
      | modify v' => exact ih _ v' hi ho' hip rfl
      | divideUsing dt =>
        obtain ⟨_, u2, _, u4, _⟩ := divideUsing_spec dt (ho _ List.mem_cons_self).1.1 s hs.1
        exact ih _ v hi ho' (u2.trans hip) (u4.trans hm)
      | divideInPlace => exact absurd rfl (fun h => (ho _ List.mem_cons_self).2 h)
      | dontDivideInPlace => exact ih _ v hi ho' b9 hm
      | saveDiv => exact ih _ v hi ho' (b8.trans hip) hm
      | dontSaveDiv => exact ih _ v hi ho' (b10.trans hip) hm
      | unsetDiv => exact ih _ v hi ho' hip hm
      | setDiv =>
        obtain ⟨a, b⟩ := sd s hs hip
        exact ih _ v hi ho' b (a.trans hm)
      | resetDiv =>
        obtain ⟨a, b⟩ := sd (unsetDiv s) (inv_unset hs) hip
        exact ih _ v hi ho' b (a.trans hm)
      | getDivType =>
        obtain ⟨g1, g2, g3, g4, _⟩ := getDivType_spec e s hs.1
        exact ih _ v hi ho' (g4.trans hip) (g3.trans hm)
      | query q =>
        obtain ⟨a, b⟩ := sd s hs hip
        have hst : (step e s (.query q)).1.m = s.m ∧ (step e s (.query q)).1.divtype &&& InPlace = 0 := by
          show (query e q s).1.m = s.m ∧ (query e q s).1.divtype &&& InPlace = 0
          dsimp only [query]
          split
          · exact ⟨a, b⟩
          · split
            · exact ⟨a, b⟩
            · split
              · exact ⟨a, b⟩
              · unfold doneDiv; split
                · exact ⟨a, b⟩
                · exact ⟨a, b⟩
        exact ih _ v hi ho' hst.2 (hst.1.trans hm)
      | access dt q =>
        obtain ⟨_, u2, _, u4, _⟩ := divideUsing_spec dt (ho _ List.mem_cons_self).1.1 s hs.1
        obtain ⟨a, b⟩ := sd _ (inv_using hs (ho _ List.mem_cons_self).1.1 (ho _ List.mem_cons_self).1.2) (u2.trans hip)
        have hst : (step e s (.access dt q)).1.m = s.m ∧ (step e s (.access dt q)).1.divtype &&& InPlace = 0 := by
          show (access e dt q s).1.m = s.m ∧ (access e dt q s).1.divtype &&& InPlace = 0
          dsimp only [access]
          split
          · exact ⟨a.trans u4, b⟩
          · split
            · exact ⟨a.trans u4, b⟩
            · split
              · split <;> exact ⟨a.trans u4, b⟩
              · exact ⟨a.trans u4, b⟩
        exact ih _ v hi ho' hst.2 (hst.1.trans hm)
  exact this os _ v (inv_init e v) ho (by simp [init, XX]) rfl

/-! ### Witnesses -/

/-- 1×1 rational matrices with LU division: the decomposition is the element; dividing by 0 throws. -/
def env1 : Env Rat Rat Rat Rat where
  kinds := fun dt => dt = LU ∨ dt = QR ∨ dt = QRP ∨ dt = SV
  decomp := fun _ v => some v
  after := fun _ v => v
  ask := fun f b => if f = 0 then none else some (b / f)
  square := true

/-- The unchanged code violates "always recalculate by default": if a division throws (singular matrix), the
decomposition stays cached although nothing was saved, and the next division uses it although the matrix has
been repaired: it throws again, and `divIsSet()` stays true. -/
theorem div_stale_after_exception_violated :
    (run env1 (init 0) [.query 1, .modify 2, .query 1]).2 = [.raised, .ok, .raised] ∧
    freshAns env1 LU 2 1 = .ans (1/2) := by
  decide +kernel

/-- The same after looking at the decomposition with `lud()` (or `setDiv()`): the next division uses the old
elements (2) although the matrix was changed to 4 and `saveDiv()` was never called.  The comment in
include/tmv/TMV_Divider.h:39-42 promises that a divider counts as set only if the matrix "hasn't been modified
since then". -/
theorem div_stale_after_access_violated :
    (run env1 (init 2) [.access LU 1, .modify 4, .query 1, .query 1]).2 =
      [.ans (1/2), .ok, .ans (1/2), .ans (1/4)] ∧
    freshAns env1 LU 4 1 = .ans (1/4) := by
  decide +kernel

/-- With the documented usage `m.divideUsing(SV); m.saveDiv(); m.setDiv(); m.norm2()` (doc/Matrix.tex:1790) the
debug assertion `divtype == SV` fails, because the flag bits are compared too. -/
theorem norm2_saved_assert_violated :
    norm2Assert env1 (run env1 (init 2) [.divideUsing SV, .saveDiv, .setDiv]).1 = false := by
  decide +kernel

/-- Non-vacuity: a history with several algorithms meets the hypotheses of `div_default_fresh_partial`. -/
example : (run env1 (init 3) [.query 6, .modify 2, .divideUsing QR, .query 6, .getDivType, .query 8]).2 =
    [.ans 2, .ok, .ok, .ans 3, .ok, .ans 4] := by decide +kernel

/-- Non-vacuity of `div_saved_stable`: saved at 2, modified to 4, still answers for 2. -/
example : (run env1 (init 2) [.saveDiv, .resetDiv, .modify 4, .query 1, .query 3, .resetDiv, .query 1]).2 =
    [.ok, .ok, .ok, .ans (1/2), .ans (3/2), .ok, .ans (1/4)] := by decide +kernel

end TMV.Div

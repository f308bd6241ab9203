import Verif.Model.Conc
import Verif.Lemmas.MatArith

/-!
Threads that own what they write and share only what nobody writes do not interfere: whatever the schedule, each thread behaves as if
it ran alone on the memory it owns or shares.
-/
namespace TMV
open Function
variable {K : Type _}

/-- The part of the memory for which `S` holds; the rest is not accessible. -/
noncomputable def Mem.restrict (m : Mem K) (S : Int → Prop) : Mem K := open Classical in fun a => if S a then m a else none

theorem Mem.restrict_of {m : Mem K} {S : Int → Prop} {a : Int} (h : S a) : m.restrict S a = m a := if_pos h
theorem Mem.restrict_none {m : Mem K} {S : Int → Prop} {a : Int} (h : ¬ S a) : m.restrict S a = none := if_neg h

namespace Prog

/-- `p`, run alone on the memory `m`, reads only elements that it owns (`W`) or shares (`R`), writes only elements it owns, and ends
with ownership and memory for which `Q` holds. -/
def Safe (R : Int → Prop) (Q : (Int → Prop) → Mem K → Prop) : Prog K → (Int → Prop) → Mem K → Prop
  | done, W, m => Q W m
  | fail, _, _ => False
  | rd a k, W, m => (R a ∨ W a) ∧ ∃ v, m a = some v ∧ Safe R Q (k v) W m
  | wr a v k, W, m => W a ∧ ∃ m', m.write a v = some m' ∧ Safe R Q k W m'
  | alloc n k, W, m => ∀ (t : Int) (junk : Int → K), (∀ a, t ≤ a → a < t + n → ¬ R a ∧ ¬ W a ∧ m a = none) →
      Safe R Q (k t) (fun a => W a ∨ (t ≤ a ∧ a < t + n)) (m.alloc t n junk)
  | free t n k, W, m => (∀ a, t ≤ a → a < t + n → W a) ∧ Safe R Q k (fun a => W a ∧ ¬ (t ≤ a ∧ a < t + n)) (m.free t n)

/-- `p` writes only where `W` holds, and neither allocates nor frees. -/
def Writes (W : Int → Prop) : Prog K → Prop
  | done => True
  | fail => True
  | rd _ k => ∀ v, Writes W (k v)
  | wr a _ k => W a ∧ Writes W k
  | alloc _ _ => False
  | free _ _ _ => False

theorem run_seq (p q : Prog K) (m : Mem K) : (p.seq q).run m = (p.run m).bind q.run := by
  induction p generalizing m with
  | done => rfl
  | fail => rfl
  | rd a k ih =>
    simp only [seq, run]
    cases m.read a with
    | none => rfl
    | some v => exact ih v m
  | wr a v k ih =>
    simp only [seq, run]
    cases m.write a v with
    | none => rfl
    | some m' => exact ih m'
  | alloc n k _ => rfl
  | free t n k _ => rfl

theorem writes_seq {W : Int → Prop} {p q : Prog K} (hp : p.Writes W) (hq : q.Writes W) : (p.seq q).Writes W := by
  induction p with
  | done => exact hq
  | fail => trivial
  | rd a k ih => exact fun v => ih v (hp v)
  | wr a v k ih => exact ⟨hp.1, ih hp.2⟩
  | alloc n k _ => exact hp.elim
  | free t n k _ => exact hp.elim

theorem Writes.mono {W W' : Int → Prop} (h : ∀ a, W a → W' a) {p : Prog K} (hp : p.Writes W) : p.Writes W' := by
  induction p with
  | done => trivial
  | fail => trivial
  | rd a k ih => exact fun v => ih v (hp v)
  | wr a v k ih => exact ⟨h _ hp.1, ih hp.2⟩
  | alloc n k _ => exact hp.elim
  | free t n k _ => exact hp.elim

theorem Safe.imp {R : Int → Prop} {Q Q' : (Int → Prop) → Mem K → Prop} (h : ∀ W m, Q W m → Q' W m) {p : Prog K} {W : Int → Prop} {m : Mem K}
    (hp : p.Safe R Q W m) : p.Safe R Q' W m := by
  induction p generalizing W m with
  | done => exact h _ _ hp
  | fail => exact hp
  | rd a k ih => exact ⟨hp.1, hp.2.imp fun v hv => ⟨hv.1, ih v hv.2⟩⟩
  | wr a v k ih => exact ⟨hp.1, hp.2.imp fun m' hm => ⟨hm.1, ih hm.2⟩⟩
  | alloc n k ih => exact fun t j hf => ih t (hp t j hf)
  | free t n k ih => exact ⟨hp.1, ih hp.2⟩

theorem write_live {m m' : Mem K} {a : Int} {v : K} (h : m.write a v = some m') (b : Int) : m' b = none ↔ m b = none := by
  unfold Mem.write at h
  cases e : m a with
  | none => rw [e] at h; cases h
  | some w =>
    rw [e] at h
    cases h
    by_cases hb : b = a
    · subst hb; simp [e]
    · simp [hb]

/-- A program without allocations that ends well and writes only what it owns is safe, if nothing but what it owns or shares is there. -/
theorem safe_seq {R W : Int → Prop} {Q : (Int → Prop) → Mem K → Prop} {p q : Prog K} {m m' : Mem K}
    (hr : p.run m = some m') (hw : p.Writes W) (hl : ∀ a, m a ≠ none → R a ∨ W a)
    (hq : Safe R Q q W m') : Safe R Q (p.seq q) W m := by
  induction p generalizing m with
  | done => cases hr; exact hq
  | fail => cases hr
  | rd a k ih =>
    simp only [run] at hr
    cases e : m.read a with
    | none => rw [e] at hr; cases hr
    | some v =>
      rw [e] at hr
      have e' : m a = some v := e
      exact ⟨hl a (by rw [e']; simp), v, e', ih v hr (hw v) hl⟩
  | wr a v k ih =>
    simp only [run] at hr
    cases e : m.write a v with
    | none => rw [e] at hr; cases hr
    | some m1 =>
      rw [e] at hr
      exact ⟨hw.1, m1, e, ih hr hw.2 fun b hb => hl b fun hn => hb ((write_live e b).mpr hn)⟩
  | alloc n k _ => cases hr
  | free t n k _ => cases hr

end Prog

/-- The threads `ps` with memory `m`, of which each owns `W t`, and which share `R`; started from the memory `m0`, when they owned
`W0 t`. -/
structure ConcInv {T : Nat} (R : Int → Prop) (Q : Fin T → (Int → Prop) → Mem K → Prop) (m0 : Mem K) (W0 : Fin T → Int → Prop)
    (W : Fin T → Int → Prop) (m : Mem K) (ps : Fin T → Prog K) : Prop where
  safe : ∀ t, (ps t).Safe R (Q t) (W t) (m.restrict fun a => R a ∨ W t a)
  ro : ∀ t a, R a → ¬ W t a
  own : ∀ t u, t ≠ u → ∀ a, W t a → ¬ W u a
  live : ∀ t a, R a ∨ W t a → m a ≠ none
  frame : ∀ a, m0 a ≠ none → (∀ t, ¬ W0 t a) → m a = m0 a ∧ ∀ t, ¬ W t a
  noleak : ∀ a, m0 a = none → (∀ t, ¬ W t a) → m a = none
  bdd : m.Bdd

theorem Mem.write_eq {m m' : Mem K} {a : Int} {v : K} (h : m.write a v = some m') :
    m a ≠ none ∧ m' = fun b => if b = a then some v else m b := by
  unfold Mem.write at h
  cases e : m a with
  | none => rw [e] at h; cases h
  | some w => rw [e] at h; cases h; exact ⟨by simp, rfl⟩

theorem Mem.write_of {m : Mem K} {a : Int} (v : K) (h : m a ≠ none) :
    m.write a v = some fun b => if b = a then some v else m b := by
  unfold Mem.write
  cases e : m a with
  | none => exact absurd e h
  | some w => rfl

theorem ConcInv.step {T : Nat} {R : Int → Prop} {Q : Fin T → (Int → Prop) → Mem K → Prop} {m0 : Mem K} {W0 W : Fin T → Int → Prop}
    {m m' : Mem K} {ps ps' : Fin T → Prog K} (I : ConcInv R Q m0 W0 W m ps) (h : Step (m, ps) (m', ps')) :
    ∃ W', ConcInv R Q m0 W0 W' m' ps' := by
  cases h with
  | @rd _ _ t a k v hp hv =>
    refine ⟨W, { I with safe := fun u => ?_ }⟩
    by_cases hu : u = t
    · subst hu
      rw [update_self]
      have := I.safe u
      rw [hp] at this
      obtain ⟨h1, w, h2, h3⟩ := this
      rw [Mem.restrict_of (S := fun a => R a ∨ W u a) h1] at h2
      have : v = w := by
        have hv' : m a = some v := hv
        rw [h2] at hv'; exact (Option.some.inj hv').symm
      rw [this]; exact h3
    · rw [update_of_ne hu]; exact I.safe u
  | @wr _ _ _ t a v k hp hv =>
    obtain ⟨hl, rfl⟩ := Mem.write_eq hv
    have hs := I.safe t
    rw [hp] at hs
    obtain ⟨hW, m2, h2, h3⟩ := hs
    obtain ⟨_, rfl⟩ := Mem.write_eq h2
    refine ⟨W, { I with safe := fun u => ?_, live := fun u b hb => ?_, frame := fun b hb hn => ?_, noleak := fun b hb hn => ?_, bdd := ?_ }⟩
    · by_cases hu : u = t
      · subst hu
        rw [update_self]
        convert h3 using 1
        funext b
        by_cases hb : R b ∨ W u b
        · rw [Mem.restrict_of (S := fun a => R a ∨ W u a) hb]
          by_cases hba : b = a
          · simp [hba]
          · simp only [hba, if_false]
            rw [Mem.restrict_of (S := fun a => R a ∨ W u a) hb]
        · have hba : b ≠ a := fun h => hb (Or.inr (h ▸ hW))
          rw [Mem.restrict_none (S := fun a => R a ∨ W u a) hb, if_neg hba, Mem.restrict_none (S := fun a => R a ∨ W u a) hb]
      · rw [update_of_ne hu]
        convert I.safe u using 1
        funext b
        by_cases hb : R b ∨ W u b
        · have hba : b ≠ a := by
            rintro rfl
            rcases hb with hb | hb
            · exact I.ro t b hb hW
            · exact I.own u t hu b hb hW
          rw [Mem.restrict_of (S := fun a => R a ∨ W u a) hb, Mem.restrict_of (S := fun a => R a ∨ W u a) hb, if_neg hba]
        · rw [Mem.restrict_none (S := fun a => R a ∨ W u a) hb, Mem.restrict_none (S := fun a => R a ∨ W u a) hb]
    · by_cases hba : b = a
      · simp [hba]
      · simp only [hba, if_false]; exact I.live u b hb
    · have hf := I.frame b hb hn
      have hba : b ≠ a := by rintro rfl; exact hf.2 t hW
      exact ⟨by simp only [hba, if_false]; exact hf.1, hf.2⟩
    · have hba : b ≠ a := by rintro rfl; exact hn t hW
      simp only [hba, if_false]; exact I.noleak b hb hn
    · obtain ⟨c, hc⟩ := I.bdd
      refine ⟨c, fun b hb => ?_⟩
      have hba : b ≠ a := by rintro rfl; exact hl (hc b hb)
      simp only [hba, if_false]; exact hc b hb
  | @alloc _ _ t n k p junk hp hf =>
    have hs := I.safe t
    rw [hp] at hs
    have hno : ∀ u a, p ≤ a ∧ a < p + n → ¬ (R a ∨ W u a) := fun u a ha h => I.live u a h (hf a ha.1 ha.2)
    have h3 := hs p junk fun a h1 h2 => ⟨fun h => hno t a ⟨h1, h2⟩ (Or.inl h), fun h => hno t a ⟨h1, h2⟩ (Or.inr h),
      Mem.restrict_none (S := fun a => R a ∨ W t a) (hno t a ⟨h1, h2⟩)⟩
    have hW : ∀ u, update W t (fun a => W t a ∨ (p ≤ a ∧ a < p + n)) u = fun a => W u a ∨ (u = t ∧ p ≤ a ∧ a < p + n) := by
      intro u
      by_cases hu : u = t
      · subst hu; rw [update_self]; simp
      · rw [update_of_ne hu]; simp [hu]
    refine ⟨update W t fun a => W t a ∨ (p ≤ a ∧ a < p + n), ⟨fun u => ?_, fun u a ha => ?_, fun u v huv a ha => ?_, fun u a ha => ?_,
      fun a ha hn => ?_, fun a ha hn => ?_, I.bdd.alloc p n junk⟩⟩
    · by_cases hu : u = t
      · subst hu
        rw [update_self, update_self]
        convert h3 using 1
        funext b
        unfold Mem.alloc
        by_cases hb : p ≤ b ∧ b < p + n
        · rw [Mem.restrict_of (S := fun a => R a ∨ W u a ∨ (p ≤ a ∧ a < p + n)) (Or.inr (Or.inr hb)), if_pos hb]
          simp only [if_pos hb]
        · by_cases hb' : R b ∨ W u b
          · rw [Mem.restrict_of (S := fun a => R a ∨ W u a ∨ (p ≤ a ∧ a < p + n)) (by tauto)]
            simp only [if_neg hb]
            rw [Mem.restrict_of (S := fun a => R a ∨ W u a) hb']
          · rw [Mem.restrict_none (S := fun a => R a ∨ W u a ∨ (p ≤ a ∧ a < p + n)) (by tauto)]
            simp only [if_neg hb]
            rw [Mem.restrict_none (S := fun a => R a ∨ W u a) hb']
      · rw [update_of_ne hu, update_of_ne hu]
        convert I.safe u using 1
        funext b
        by_cases hb : R b ∨ W u b
        · have : ¬ (p ≤ b ∧ b < p + n) := fun h => hno u b h hb
          rw [Mem.restrict_of (S := fun a => R a ∨ W u a) hb, Mem.restrict_of (S := fun a => R a ∨ W u a) hb]
          simp only [Mem.alloc, if_neg this]
        · rw [Mem.restrict_none (S := fun a => R a ∨ W u a) hb, Mem.restrict_none (S := fun a => R a ∨ W u a) hb]
    · rw [hW u]
      rintro (h | ⟨-, h⟩)
      · exact I.ro u a ha h
      · exact hno u a h (Or.inl ha)
    · rw [hW u] at ha
      rw [hW v]
      rintro (h' | ⟨rfl, h'⟩)
      · rcases ha with h | ⟨-, h⟩
        · exact I.own u v huv a h h'
        · exact hno v a h (Or.inr h')
      · rcases ha with h | ⟨rfl, h⟩
        · exact hno u a h' (Or.inr h)
        · exact huv rfl
    · rw [hW u] at ha
      unfold Mem.alloc
      by_cases hb : p ≤ a ∧ a < p + n
      · simp [hb]
      · rw [if_neg hb]
        exact I.live u a (by tauto)
    · obtain ⟨f1, f2⟩ := I.frame a ha hn
      have hb : ¬ (p ≤ a ∧ a < p + n) := fun h => ha (f1 ▸ hf a h.1 h.2)
      refine ⟨by simp only [Mem.alloc, if_neg hb]; exact f1, fun u => ?_⟩
      rw [hW u]
      have := f2 u
      tauto
    · have hb : ¬ (p ≤ a ∧ a < p + n) := fun h => hn t (by rw [hW t]; exact Or.inr ⟨rfl, h⟩)
      simp only [Mem.alloc, if_neg hb]
      exact I.noleak a ha fun u hu => hn u (by rw [hW u]; exact Or.inl hu)
  | @free _ _ t p n k hp hf =>
    have hs := I.safe t
    rw [hp] at hs
    obtain ⟨hown, h3⟩ := hs
    have hW : ∀ u, update W t (fun a => W t a ∧ ¬ (p ≤ a ∧ a < p + n)) u = fun a => W u a ∧ ¬ (u = t ∧ p ≤ a ∧ a < p + n) := by
      intro u
      by_cases hu : u = t
      · subst hu; rw [update_self]; simp
      · rw [update_of_ne hu]; simp [hu]
    have hle : ∀ u a, update W t (fun a => W t a ∧ ¬ (p ≤ a ∧ a < p + n)) u a → W u a := fun u a h => by rw [hW u] at h; exact h.1
    refine ⟨update W t fun a => W t a ∧ ¬ (p ≤ a ∧ a < p + n), ⟨fun u => ?_, fun u a ha h => I.ro u a ha (hle u a h),
      fun u v huv a ha h => I.own u v huv a (hle u a ha) (hle v a h), fun u a ha => ?_, fun a ha hn => ?_, fun a ha hn => ?_, ?_⟩⟩
    · by_cases hu : u = t
      · subst hu
        rw [update_self, update_self]
        convert h3 using 1
        funext b
        unfold Mem.free
        by_cases hb : p ≤ b ∧ b < p + n
        · rw [Mem.restrict_none (S := fun a => R a ∨ W u a ∧ ¬(p ≤ a ∧ a < p + n)) (by
            have := I.ro u b; have := hown b hb.1 hb.2; tauto), if_pos hb]
        · simp only [if_neg hb]
          by_cases hb' : R b ∨ W u b
          · rw [Mem.restrict_of (S := fun a => R a ∨ W u a ∧ ¬(p ≤ a ∧ a < p + n)) (by tauto), Mem.restrict_of (S := fun a => R a ∨ W u a) hb',
              if_neg hb]
          · rw [Mem.restrict_none (S := fun a => R a ∨ W u a ∧ ¬(p ≤ a ∧ a < p + n)) (by tauto),
              Mem.restrict_none (S := fun a => R a ∨ W u a) hb']
      · rw [update_of_ne hu, update_of_ne hu]
        convert I.safe u using 1
        funext b
        by_cases hb : R b ∨ W u b
        · have : ¬ (p ≤ b ∧ b < p + n) := by
            intro h
            have h1 := hown b h.1 h.2
            rcases hb with hb | hb
            · exact I.ro t b hb h1
            · exact I.own u t hu b hb h1
          rw [Mem.restrict_of (S := fun a => R a ∨ W u a) hb, Mem.restrict_of (S := fun a => R a ∨ W u a) hb]
          simp only [Mem.free, if_neg this]
        · rw [Mem.restrict_none (S := fun a => R a ∨ W u a) hb, Mem.restrict_none (S := fun a => R a ∨ W u a) hb]
    · have hb : ¬ (p ≤ a ∧ a < p + n) := by
        intro h
        have h1 := hown a h.1 h.2
        rw [hW u] at ha
        rcases ha with ha | ⟨ha, hn⟩
        · exact I.ro t a ha h1
        · by_cases hu : u = t
          · exact hn ⟨hu, h⟩
          · exact I.own u t hu a ha h1
      simp only [Mem.free, if_neg hb]
      exact I.live u a (ha.imp id (hle u a))
    · obtain ⟨f1, f2⟩ := I.frame a ha hn
      have hb : ¬ (p ≤ a ∧ a < p + n) := fun h => f2 t (hown a h.1 h.2)
      refine ⟨by simp only [Mem.free, if_neg hb]; exact f1, fun u h => f2 u (hle u a h)⟩
    · by_cases hb : p ≤ a ∧ a < p + n
      · simp only [Mem.free, if_pos hb]
      · simp only [Mem.free, if_neg hb]
        refine I.noleak a ha fun u hu => hn u ?_
        rw [hW u]
        exact ⟨hu, fun h => hb h.2⟩
    · obtain ⟨c, hc⟩ := I.bdd
      refine ⟨c, fun b hb => ?_⟩
      unfold Mem.free
      split
      · rfl
      · exact hc b hb

theorem Reach.head {T : Nat} {s s' s'' : Mem K × (Fin T → Prog K)} (hs : Step s s') (h : Reach s' s'') : Reach s s'' := by
  induction h with
  | refl => exact .step .refl hs
  | step _ h ih => exact ih.step h

theorem ConcInv.reach {T : Nat} {R : Int → Prop} {Q : Fin T → (Int → Prop) → Mem K → Prop} {m0 : Mem K} {W0 : Fin T → Int → Prop}
    {ps0 : Fin T → Prog K} (I : ConcInv R Q m0 W0 W0 m0 ps0) {s : Mem K × (Fin T → Prog K)} (h : Reach (m0, ps0) s) :
    ∃ W, ConcInv R Q m0 W0 W s.1 s.2 := by
  induction h with
  | refl => exact ⟨W0, I⟩
  | @step s1 s2 _ hs ih =>
    obtain ⟨W, J⟩ := ih
    exact J.step hs

/-- No thread is ever stuck (in particular none does anything undefined). -/
theorem ConcInv.progress {T : Nat} {R : Int → Prop} {Q : Fin T → (Int → Prop) → Mem K → Prop} {m0 : Mem K} {W0 W : Fin T → Int → Prop}
    {m : Mem K} {ps : Fin T → Prog K} [Nonempty K] (I : ConcInv R Q m0 W0 W m ps) (t : Fin T) (h : ps t ≠ .done) :
    ∃ m' p', Step (m, ps) (m', update ps t p') := by
  have hs := I.safe t
  cases e : ps t with
  | done => exact absurd e h
  | fail => rw [e] at hs; exact hs.elim
  | rd a k =>
    rw [e] at hs
    obtain ⟨h1, v, h2, _⟩ := hs
    rw [Mem.restrict_of (S := fun a => R a ∨ W t a) h1] at h2
    exact ⟨m, k v, Step.rd t e h2⟩
  | wr a v k =>
    rw [e] at hs
    exact ⟨_, k, Step.wr t e (Mem.write_of v (I.live t a (Or.inr hs.1)))⟩
  | alloc n k =>
    obtain ⟨c, hc⟩ := I.bdd
    exact ⟨_, k c, Step.alloc t c (fun _ => Classical.arbitrary K) e fun a h1 _ => hc a h1⟩
  | free p n k =>
    rw [e] at hs
    exact ⟨_, k, Step.free t e fun a h1 h2 => I.live t a (Or.inr (hs.1 a h1 h2))⟩

/-- There is no data race. -/
theorem ConcInv.noRace {T : Nat} {R : Int → Prop} {Q : Fin T → (Int → Prop) → Mem K → Prop} {m0 : Mem K} {W0 W : Fin T → Int → Prop}
    {m : Mem K} {ps : Fin T → Prog K} (I : ConcInv R Q m0 W0 W m ps) (t u : Fin T) (h : t ≠ u) : ¬ (ps t).Races (ps u) := by
  have h1 := I.safe t
  have h2 := I.safe u
  have key : ∀ a, W t a → ¬ (R a ∨ W u a) := fun a ha hb => hb.elim (fun hr => I.ro t a hr ha) (I.own t u h a ha)
  intro hr
  cases e1 : ps t <;> cases e2 : ps u <;> rw [e1, e2] at hr <;> simp only [Prog.Races] at hr <;> rw [e1] at h1 <;> rw [e2] at h2
  · exact key _ h1.1 (hr ▸ h2.1)
  · exact key _ h1.1 (Or.inr (hr ▸ h2.1))
  · exact key _ (h1.1 _ hr.1 hr.2) h2.1
  · exact key _ (h1.1 _ hr.1 hr.2) (Or.inr h2.1)
  · obtain ⟨b, hb1, hb2, hb3, hb4⟩ := hr
    exact key b (h1.1 _ hb1 hb2) (Or.inr (h2.1 b hb3 hb4))

end TMV

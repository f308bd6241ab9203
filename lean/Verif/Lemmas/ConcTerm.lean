import Verif.Model.Conc
import Mathlib.Data.Finset.Insert
import Mathlib.Data.Fintype.Basic

/-! Every schedule ends: there is no infinite run of the threads. -/
namespace TMV
open Function
variable {K : Type _}

/-- `q` is what remains of `p` after one access. -/
inductive Prog.Sub : Prog K → Prog K → Prop
  | rd {a k} (v) : Sub (k v) (.rd a k)
  | wr {a v k} : Sub k (.wr a v k)
  | alloc {n k} (t) : Sub (k t) (.alloc n k)
  | free {t n k} : Sub k (.free t n k)

theorem Prog.sub_wf : WellFounded (Prog.Sub (K := K)) := by
  refine ⟨fun p => ?_⟩
  induction p with
  | done => exact ⟨_, fun q h => by cases h⟩
  | fail => exact ⟨_, fun q h => by cases h⟩
  | rd a k ih => exact ⟨_, fun q h => by cases h; exact ih _⟩
  | wr a v k ih => exact ⟨_, fun q h => by cases h; exact ih⟩
  | alloc n k ih => exact ⟨_, fun q h => by cases h; exact ih _⟩
  | free t n k ih => exact ⟨_, fun q h => by cases h; exact ih⟩

theorem Step.sub {T : Nat} {s s' : Mem K × (Fin T → Prog K)} (h : Step s s') :
    ∃ t p, Prog.Sub p (s.2 t) ∧ s'.2 = update s.2 t p := by
  cases h with
  | @rd m ps t a k v hp _ => exact ⟨t, _, by dsimp only; rw [hp]; exact .rd v, rfl⟩
  | @wr m m' ps t a v k hp _ => exact ⟨t, _, by dsimp only; rw [hp]; exact .wr, rfl⟩
  | @alloc m ps t n k p junk hp _ => exact ⟨t, _, by dsimp only; rw [hp]; exact .alloc p, rfl⟩
  | @free m ps t p n k hp _ => exact ⟨t, _, by dsimp only; rw [hp]; exact .free, rfl⟩

/-- If each component decreases along a well-founded relation, finitely many components can be decreased one at a time only finitely
often. -/
theorem one_wf {ι α : Type _} [DecidableEq ι] {r : α → α → Prop} (hr : WellFounded r) (S : Finset ι) :
    WellFounded (fun g f : ι → α => ∃ t ∈ S, ∃ x, r x (f t) ∧ g = update f t x) := by
  induction S using Finset.induction_on with
  | empty => exact ⟨fun f => ⟨_, fun g h => by obtain ⟨t, ht, _⟩ := h; simp at ht⟩⟩
  | @insert a S ha ih =>
    have key : ∀ y, ∀ f : ι → α, f a = y → Acc (fun g f : ι → α => ∃ t ∈ insert a S, ∃ x, r x (f t) ∧ g = update f t x) f := by
      intro y
      induction y using hr.induction with
      | _ y ihy =>
        intro f
        induction f using ih.induction with
        | _ f ihf =>
          intro hf
          refine ⟨_, fun g hg => ?_⟩
          obtain ⟨t, ht, x, hx, rfl⟩ := hg
          by_cases hta : t = a
          · subst hta
            exact ihy x (hf ▸ hx) _ (update_self ..)
          · have ht' : t ∈ S := (Finset.mem_insert.mp ht).resolve_left hta
            refine ihf _ ⟨t, ht', x, hx, rfl⟩ ?_
            rw [update_of_ne (Ne.symm hta)]; exact hf
    exact ⟨fun f => key _ f rfl⟩

/-- Every schedule of the threads ends. -/
theorem step_terminates {T : Nat} : WellFounded (fun s' s : Mem K × (Fin T → Prog K) => Step s s') := by
  refine Subrelation.wf (fun {s' s} h => ?_) (InvImage.wf (fun s : Mem K × (Fin T → Prog K) => s.2) (one_wf Prog.sub_wf Finset.univ))
  obtain ⟨t, p, hs, e⟩ := h.sub
  exact ⟨t, Finset.mem_univ t, p, hs, e⟩

end TMV

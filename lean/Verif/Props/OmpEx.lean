import Verif.Props.Omp
import Verif.Props.MatMatEx

/-! **C47**: examples. -/
namespace TMV
open Function

/-- `C += (1+2i)*A*B.conjugate()` with 20×30 times 30×25 on three threads: the first two threads have 16 and 9 columns, the third has
nothing to do. -/
example : ompRange 25 3 0 = (0, 16) ∧ ompRange 25 3 1 = (16, 25) ∧ ompRange 25 3 2 = (32, 25) := by decide

/-- More threads than columns: the last thread does all the work. -/
example : ompRange 25 40 7 = (0, 0) ∧ ompRange 25 40 39 = (0, 25) := by decide

/-- 200 rows on four threads. -/
example : ompRange 200 4 0 = (0, 64) ∧ ompRange 200 4 2 = (128, 192) ∧ ompRange 200 4 3 = (192, 200) := by decide

/-- The hypotheses of `omp_spec` hold: some run ends, and every run that ends gives the product. -/
example : (∃ s, Reach (bigMem, ompProg giTy giTy_ok true true true ⟨1, 2⟩ (MView.ofStor 0 20 30 true) (MView.ofStor 1000 30 25 false).conjugate
      (MView.ofStor 3000 20 25 true) 3) s ∧ ∀ t, s.2 t = .done) ∧
    ∀ s, Reach (bigMem, ompProg giTy giTy_ok true true true ⟨1, 2⟩ (MView.ofStor 0 20 30 true) (MView.ofStor 1000 30 25 false).conjugate
      (MView.ofStor 3000 20 25 true) 3) s → (∀ t, s.2 t = .done) →
    (MView.ofStor 3000 20 25 true).cref s.1 19 24 = some (⟨3499, 1⟩ + ⟨1, 2⟩ *
      ∑ l ∈ Finset.range 30, ⟨570 + l, 1⟩ * star (⟨1720 + l, 1⟩ : GaussianInt)) ∧ s.1 2999 = some ⟨2999, 1⟩ := by
  have hA := bigMem_holds 0 20 30 true (by decide)
  have hB := MView.Holds.conjugate.mp (bigMem_holds 1000 30 25 false (by decide))
  have hC := bigMem_holds 3000 20 25 true (by decide)
  have dA : (MView.ofStor 0 20 30 true).Disjoint (MView.ofStor 3000 20 25 true) := fun x h h' => by
    have := ofStor_in h; have := ofStor_in h'; omega
  have dB : (MView.ofStor 1000 30 25 false).conjugate.Disjoint (MView.ofStor 3000 20 25 true) := fun x h h' => by
    have := ofStor_in (rm := false) (cs := 30) (rs := 25) (t := 1000) h; have := ofStor_in h'; omega
  have hI := (ofStor_wf 3000 20 25 true (by decide) (by decide)).1
  refine ⟨omp_ends giTy_ok true true (fun _ => giTy_parts) true ⟨1, 2⟩ (MView.ofStor 0 20 30 true) (MView.ofStor 1000 30 25 false).conjugate
    (MView.ofStor 3000 20 25 true) bigMem bigMem_bdd _ _ _ rfl rfl rfl rfl
    (fun h => by cases h) (fun h => by cases h) hI hA hB hC dA dB (by decide) _ .refl, fun s hs hd => ?_⟩
  obtain ⟨h, f⟩ := (omp_spec giTy_ok true true (fun _ => giTy_parts) true ⟨1, 2⟩ (MView.ofStor 0 20 30 true) (MView.ofStor 1000 30 25 false).conjugate
    (MView.ofStor 3000 20 25 true) bigMem bigMem_bdd _ _ _ rfl rfl rfl rfl
    (fun h => by cases h) (fun h => by cases h) hI hA hB hC dA dB (by decide) s hs).2.2 hd
  refine ⟨(h 19 24 (by decide) (by decide)).trans ?_, ?_⟩
  · decide +kernel
  · rw [f 2999 fun h => by have := ofStor_in h; omega]
    decide +kernel

end TMV

import Verif.Spec.Sequence
import Verif.Proofs.Training

/-! # Distance to a reference weight vector under training steps, exact arithmetic -/

set_option linter.unusedSectionVars false

namespace Lfa

open Spec Features

/-- Moving the weights along `φ` changes the distance to `v` by a quadratic in the step. -/
theorem distSq_moved {n : Nat} {φ : Features ℝ} (hd : dim φ = n) {w w' v : List ℝ} {α : ℝ}
    (h : ∀ i < n, entry w' i = entry w i + α * value φ i) :
    distSq n w' v = distSq n w v - 2 * α * (inner φ v - inner φ w) + α ^ 2 * normSq φ := by
  rw [inner_eq, inner_eq, normSq, hd, distSq, distSq, ← Finset.sum_sub_distrib, Finset.mul_sum,
    Finset.mul_sum, ← Finset.sum_sub_distrib, ← Finset.sum_add_distrib]
  apply Finset.sum_congr rfl
  intro i hi
  rw [h i (Finset.mem_range.1 hi)]
  ring

theorem distSq_nonneg (n : Nat) (w v : List ℝ) : 0 ≤ distSq n w v :=
  Finset.sum_nonneg fun _ _ => sq_nonneg _

theorem normSq_nonneg (φ : Features ℝ) : 0 ≤ normSq φ :=
  Finset.sum_nonneg fun _ _ => mul_self_nonneg _

section
variable {B I : Type} [Space B] [Basis B I ℝ]

/-- One SGD training step. -/
theorem sgd_update {fa : ScalarLFA B (SGD ℝ) ℝ} {x : I} {φ : Features ℝ}
    (hp : Basis.project fa.basis x = .ok (.ok φ)) (hf : Fits fa.weights.length φ) (y : ℝ) :
    ∃ w', fa.evaluate x = .ok (.ok (inner φ fa.weights)) ∧
      fa.updateWith x (fun _ v => y -. v) = .ok (.ok (), { fa with weights := w' }) ∧
      ScalarLFA.evaluate (LFA.mk fa.basis w' fa.optimiser) x = .ok (.ok (inner φ w')) ∧
      w'.length = fa.weights.length ∧ ∀ i < fa.weights.length,
        entry w' i = entry fa.weights i
          + fa.optimiser.lr * (y - inner φ fa.weights) * value φ i := by
  obtain ⟨w', s1, s2, s3⟩ := sgd_real hf fa.optimiser (y - inner φ fa.weights) rfl
  have hd := dot_real hf.1 hf.2
  exact ⟨w', evaluate_eq hp hd, updateWith_eq hp hd _ s1,
    evaluate_eq (fa := { fa with weights := w' }) hp (dot_real hf.1 (hf.2.trans s2.symm)), s2, s3⟩

/-- One ISGD training step. -/
theorem isgd_update {fa : ScalarLFA B (ISGD ℝ) ℝ} {x : I} {φ : Features ℝ}
    (hp : Basis.project fa.basis x = .ok (.ok φ)) (hf : Fits fa.weights.length φ) (y : ℝ) :
    ∃ w', fa.evaluate x = .ok (.ok (inner φ fa.weights)) ∧
      fa.updateWith x (fun _ v => y -. v) = .ok (.ok (), { fa with weights := w' }) ∧
      ScalarLFA.evaluate (LFA.mk fa.basis w' fa.optimiser) x = .ok (.ok (inner φ w')) ∧
      w'.length = fa.weights.length ∧ ∀ i < fa.weights.length,
        entry w' i = entry fa.weights i + fa.optimiser.lr / (1 + fa.optimiser.lr * normSq φ)
          * (y - inner φ fa.weights) * value φ i := by
  obtain ⟨w', s1, s2, s3⟩ := isgd_real hf fa.optimiser (y - inner φ fa.weights) rfl
  have hd := dot_real hf.1 hf.2
  exact ⟨w', evaluate_eq hp hd, updateWith_eq hp hd _ s1,
    evaluate_eq (fa := { fa with weights := w' }) hp (dot_real hf.1 (hf.2.trans s2.symm)), s2, s3⟩

end

end Lfa

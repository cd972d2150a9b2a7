import Verif.Spec.Training
import Verif.Proofs.OptimReal
import Mathlib.Tactic.FieldSimp

/-! # Training steps on one input, exact arithmetic -/

set_option linter.unusedSectionVars false

namespace Lfa

open Spec Features

theorem entry_real (w : List ℝ) (i : Nat) : entry w i = w.getD i 0 := by
  unfold entry; rw [real_zero]

theorem inner_eq (φ : Features ℝ) (w : List ℝ) :
    inner φ w = ∑ i ∈ Finset.range (dim φ), value φ i * entry w i := by
  unfold inner; simp only [entry_real]

/-- Moving the weights along `φ` moves the prediction by `‖φ‖²`. -/
theorem inner_moved {n : Nat} {φ : Features ℝ} (hd : dim φ = n) {w w' : List ℝ} {α : ℝ}
    (h : ∀ i < n, entry w' i = entry w i + α * value φ i) :
    inner φ w' = inner φ w + α * normSq φ := by
  rw [inner_eq, inner_eq, normSq, Finset.mul_sum, ← Finset.sum_add_distrib]
  apply Finset.sum_congr rfl
  intro i hi
  rw [h i (hd ▸ Finset.mem_range.1 hi)]
  ring

section
variable {B O I K : Type} [Scalar K] [Space B] [Basis B I K]

theorem updateWith_eq [Optimiser O K] {fa : ScalarLFA B O K} {x : I} {φ : Features K}
    (hp : Basis.project fa.basis x = .ok (.ok φ)) {v : K} (hv : φ.dot fa.weights = .ok v)
    (f : Features K → K → K) {o : O} {w : List K}
    (hs : Optimiser.stepScaled fa.optimiser fa.weights φ (f φ v) = .ok (.ok (), o, w)) :
    fa.updateWith x f = .ok (.ok (), { fa with weights := w, optimiser := o }) := by
  show (Basis.project fa.basis x >>= _) = _
  rw [hp, P.ok_bind]
  show (φ.dot fa.weights >>= _) = _
  rw [hv, P.ok_bind]
  show (Optimiser.stepScaled fa.optimiser fa.weights φ (f φ v) >>= _) = _
  rw [hs]
  rfl

theorem evaluate_eq {fa : ScalarLFA B O K} {x : I} {φ : Features K}
    (hp : Basis.project fa.basis x = .ok (.ok φ)) {v : K} (hv : φ.dot fa.weights = .ok v) :
    fa.evaluate x = .ok (.ok v) := by
  show (Basis.project fa.basis x >>= _) = _
  rw [hp, P.ok_bind]
  show Except.map Except.ok (φ.dot fa.weights) = _
  rw [hv]; rfl

theorem trained_unique [Optimiser O K] {fa : ScalarLFA B O K} {x : I} {f : Features K → K → K} :
    ∀ {k : Nat} {fa₁ fa₂ : ScalarLFA B O K}, Trained fa x f k fa₁ → Trained fa x f k fa₂ →
    fa₁ = fa₂
  | 0, _, _, .zero, .zero => rfl
  | k + 1, _, _, .succ t h, .succ t' h' => by
    have := trained_unique t t'
    subst this
    rw [h] at h'; cases h'; rfl

end

end Lfa

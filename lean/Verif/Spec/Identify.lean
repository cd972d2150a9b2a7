import Verif.Spec.Poly
import Verif.Spec.Lfa

/-! # Specification: weights determined by predictions -/

namespace Lfa.Spec

open Lfa

variable {B I : Type} [Space B] [Basis B I ℝ]

/-- The prediction at `x` of a scalar approximator with basis `b` and weights `w` (the optimiser plays
no part in it). -/
noncomputable def predict (b : B) (w : List ℝ) (x : I) : P (Result ℝ) :=
  ScalarLFA.evaluate (⟨b, w, ()⟩ : ScalarLFA B Unit ℝ) x

/-- No two weight vectors of length `n` make the same predictions on the inputs in `X`. -/
def Identifies (b : B) (n : Nat) (X : I → Prop) : Prop :=
  ∀ w v : List ℝ, w.length = n → v.length = n → (∀ x, X x → predict b w x = predict b v x) → w = v

/-- Exactly one weight vector of length `n` fits any given targets on the inputs in `X`. -/
def Interpolates (b : B) (n : Nat) (X : I → Prop) : Prop :=
  ∀ y : I → ℝ, ∃! w : List ℝ, w.length = n ∧ ∀ x, X x → predict b w x = .ok (.ok (y x))

/-- The points of the grid `S₀ × … × S_{d-1}`. -/
def OnGrid {d : Nat} (S : Fin d → Finset ℝ) (x : List ℝ) : Prop :=
  ∃ u : Fin d → ℝ, x = List.ofFn u ∧ ∀ j, u j ∈ S j

/-- The points of the box `[a₀, b₀] × … × [a_{d-1}, b_{d-1}]`. -/
def OnBox {d : Nat} (a b : Fin d → ℝ) (x : List ℝ) : Prop :=
  ∃ u : Fin d → ℝ, x = List.ofFn u ∧ ∀ j, a j ≤ u j ∧ u j ≤ b j

end Lfa.Spec

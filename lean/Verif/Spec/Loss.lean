import Verif.Spec.Sequence

/-!
# The error of an approximator on a data set
-/

namespace Lfa.Spec

variable {B I O : Type} [Space B] [Basis B I ℝ]

/-- `SquaredError fa xs ys c N ℓ`: `fa` evaluates at the first `N` inputs and its squared errors there, weighted by `c`, add
up to `ℓ`. -/
def SquaredError (fa : ScalarLFA B O ℝ) (xs : Nat → I) (ys c : Nat → ℝ) (N : Nat) (ℓ : ℝ) : Prop :=
  ∃ ps : Nat → ℝ, (∀ k < N, fa.evaluate (xs k) = .ok (.ok (ps k))) ∧
    ℓ = ∑ k ∈ Finset.range N, c k * (ys k - ps k) ^ 2

end Lfa.Spec

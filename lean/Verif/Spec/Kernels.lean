import Verif.Model.Kernels
import Mathlib.Analysis.SpecialFunctions.Pow.Real

/-!
# Specification of the kernels

The radial profile of each kernel as written in the code's documentation of its value (exact
reals), the scaled distance, and the two families of kernels handled uniformly.
-/

namespace Lfa.Spec

open Lfa

/-- The scaled Euclidean distance in `d` dimensions. -/
noncomputable def scaledDist {d : Nat} (l x y : Fin d → ℝ) : ℝ :=
  Real.sqrt (∑ i, ((x i - y i) / l i) ^ 2)

/-- The profile of a stationary kernel with unit variance, in terms of the scaled distance. For
`matern52` this is what the code computes (`√3` in place of the textbook `√5`). -/
noncomputable def profile : StationaryKind → ℝ → ℝ
  | .exponential, r => Real.exp (-r)
  | .matern32, r => (1 + Real.sqrt 3 * r) * Real.exp (-(Real.sqrt 3 * r))
  | .matern52, r => (1 + Real.sqrt 3 * r + 5 / 3 * r ^ 2) * Real.exp (-(Real.sqrt 3 * r))
  | .expQuad, r => Real.exp (-(r ^ 2 / 2))
  | .cosine, r => Real.cos r

/-- The textbook profile of the Matérn-5/2 kernel. -/
noncomputable def matern52Textbook (r : ℝ) : ℝ :=
  (1 + Real.sqrt 5 * r + 5 / 3 * r ^ 2) * Real.exp (-(Real.sqrt 5 * r))

/-- The profile of the rational quadratic kernel with the given power. -/
noncomputable def rationalProfile (power r : ℝ) : ℝ := (1 + r ^ 2 / 2) ^ (-power)

/-- `k` is positive semidefinite on the points satisfying `S`: every finite quadratic form built from
it is non-negative. -/
def PositiveOn {X : Type} (S : X → Prop) (k : X → X → ℝ) : Prop :=
  ∀ (m : ℕ) (x : Fin m → X) (c : Fin m → ℝ), (∀ i, S (x i)) →
    0 ≤ ∑ i, ∑ j, c i * c j * k (x i) (x j)

/-- `k` is positive definite on the points satisfying `S`: every quadratic form built from it on
finitely many distinct points vanishes only at 0 and is positive elsewhere. -/
def StrictlyPositiveOn {X : Type} (S : X → Prop) (k : X → X → ℝ) : Prop :=
  ∀ (m : ℕ) (x : Fin m → X) (c : Fin m → ℝ), (∀ i, S (x i)) → Function.Injective x → c ≠ 0 →
    0 < ∑ i, ∑ j, c i * c j * k (x i) (x j)

end Lfa.Spec

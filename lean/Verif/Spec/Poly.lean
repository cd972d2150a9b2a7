import Mathlib.Data.List.Lex
import Mathlib.Analysis.SpecialFunctions.Trigonometric.Basic
import Mathlib.Algebra.BigOperators.Fin
import Mathlib.RingTheory.Polynomial.Chebyshev

/-!
# Specification of the polynomial, Chebyshev and Fourier bases

Multi-indices, monomials, rescaled coordinates: plain mathematics, no reference to the model.
-/

namespace Lfa.Spec

/-- `es` lists the non-zero multi-indices of length `d` with entries `≤ p`, each once, in
lexicographic order. -/
structure MultiIndices (p d : Nat) (es : List (List Nat)) : Prop where
  sorted : es.Pairwise (· < ·)
  mem : ∀ e, e ∈ es ↔ e.length = d ∧ (∀ c ∈ e, c ≤ p) ∧ ∃ c ∈ e, c ≠ 0

/-- The monomial `∏ x_j ^ e_j`. -/
noncomputable def monomial {d : Nat} (x : Fin d → ℝ) (e : List Nat) : ℝ :=
  ∏ j : Fin d, x j ^ e.getD j 0

/-- Coordinate `j` of `x` rescaled so that the limits go to 0 and 1. -/
noncomputable def unit {d : Nat} (lo hi x : Fin d → ℝ) (j : Fin d) : ℝ :=
  (x j - lo j) / (hi j - lo j)

/-- The product of Chebyshev polynomials `∏ T_{e_j}(2 u_j - 1)`. -/
noncomputable def chebProduct {d : Nat} (u : Fin d → ℝ) (e : List Nat) : ℝ :=
  ∏ j : Fin d, (_root_.Polynomial.Chebyshev.T ℝ (e.getD j 0 : ℤ)).eval (2 * u j - 1)

/-- The Fourier feature `cos (π ∑ e_j u_j)`. -/
noncomputable def fourierFeature {d : Nat} (u : Fin d → ℝ) (e : List Nat) : ℝ :=
  Real.cos (Real.pi * ∑ j : Fin d, (e.getD j 0 : ℝ) * u j)

end Lfa.Spec

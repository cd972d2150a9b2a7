import Verif.Spec.Features
import Verif.Model.Basis

/-!
# Specification of the normalisers
-/

namespace Lfa.Spec

open Lfa

/-- The same features (representation, dimension, stored indices) with every stored activation
replaced by its image. -/
def mapValues {K L : Type} (g : K → L) : Features K → Features L
  | .dense da => .dense (da.map g)
  | .sparse sa => .sparse ⟨sa.dim, sa.activations.map fun e => (e.1, g e.2)⟩

/-- Finite features as features with IEEE special values. -/
def toX (φ : Features ℝ) : Features XReal := mapValues XReal.fin φ

/-- Some stored activation is not zero. -/
def NonZero (φ : Features ℝ) : Prop := ∃ i a, Stored φ i a ∧ a ≠ 0

/-- The L1 norm of the dense view. -/
noncomputable def l1 (φ : Features ℝ) : ℝ := ∑ i ∈ Finset.range (dim φ), |value φ i|

/-- The L2 norm of the dense view. -/
noncomputable def l2 (φ : Features ℝ) : ℝ := Real.sqrt (normSq φ)

/-- `m` is the L∞ norm of the dense view. -/
def IsLinf (φ : Features ℝ) (m : ℝ) : Prop :=
  (∀ i, |value φ i| ≤ m) ∧ ∃ i < dim φ, |value φ i| = m

end Lfa.Spec

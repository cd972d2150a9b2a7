import Verif.Spec.Optim
import Mathlib.Analysis.SpecialFunctions.Sqrt

/-! # The steps of Adam and AdaMax in exact arithmetic -/

namespace Lfa.Spec

open Lfa

/-- What Adam adds to a weight at call `t` (counted from 0) after the gradients `g 0, …, g t`: the rate times the bias-corrected average
of the gradients, over the root of the bias-corrected average of their squares plus `1e-7`. The corrections are `1 - β^(t+2)` because the
code starts its products at `β`. -/
noncomputable def adamStep (l β₁ β₂ : ℝ) (g : Nat → ℝ) (t : Nat) : ℝ :=
  l * (discounted β₁ (fun s => (1 - β₁) * g s) (t + 1) / (1 - β₁ ^ (t + 2))) /
    (√(discounted β₂ (fun s => (1 - β₂) * g s ^ 2) (t + 1) / (1 - β₂ ^ (t + 2))) + 1e-7)

/-- The largest discounted magnitude: `max_{j<k} β^(k-1-j) |g_j|`, 0 for no gradients. -/
noncomputable def crest (β : ℝ) (g : Nat → ℝ) : Nat → ℝ
  | 0 => 0
  | k + 1 => max (β * crest β g k) |g k|

/-- What AdaMax adds to a weight at call `t` after the gradients `g 0, …, g t`. -/
noncomputable def adamaxStep (l β₁ β₂ : ℝ) (g : Nat → ℝ) (t : Nat) : ℝ :=
  l * (discounted β₁ (fun s => (1 - β₁) * g s) (t + 1) / (1 - β₁ ^ (t + 2))) / (crest β₂ g (t + 1) + 1e-7)

end Lfa.Spec

import Verif.Spec.Machine

/-! # The exact gradients of calls made in rounded arithmetic -/

namespace Lfa.Spec

open Lfa

variable {M : Machine}

/-- The gradient that a call presents to parameter `i`, computed without rounding: the activation times the scale. -/
noncomputable def gradient (i : Nat) : Event (FP M) → ℝ
  | .step φ => real (value φ i)
  | .stepScaled φ s => real (value φ i) * real s
  | .reset => 0

end Lfa.Spec

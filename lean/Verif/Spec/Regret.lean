import Verif.Spec.Sequence

/-! # Specification of endless runs of an optimiser -/

namespace Lfa.Spec

open Lfa

variable {K O : Type} [Scalar K] [Optimiser O K]

/-- `OptRun os ws es`: an endless run. Call `es t` succeeds on the optimiser `os t` and the weights
`ws t`, and leaves `os (t+1)` and `ws (t+1)`. -/
def OptRun (os : Nat → O) (ws : Nat → List K) (es : Nat → Event K) : Prop :=
  ∀ t, History (os t) (ws t) [es t] (os (t + 1)) (ws (t + 1))

/-- What the reference weights `u` would have gained over the weights in use, to first order, on
coordinate `i` in the first `T` calls: `∑ₜ gₜᵢ (uᵢ - wₜᵢ)`. -/
noncomputable def advantage (i : Nat) (u : List ℝ) (ws : Nat → List ℝ) (es : Nat → Event ℝ)
    (T : Nat) : ℝ :=
  ∑ t ∈ Finset.range T, (es t).grad i * (entry u i - entry (ws t) i)

/-- `g` is a supergradient of `f` at `w`: `f(u) ≤ f(w) + g·(u - w)` for all `u` of length `n`. Concave
functions have one at every point; where they are differentiable it is the gradient. -/
def Supergradient (n : Nat) (f : List ℝ → ℝ) (w : List ℝ) (g : Nat → ℝ) : Prop :=
  ∀ u : List ℝ, u.length = n → f u ≤ f w + ∑ i ∈ Finset.range n, g i * (entry u i - entry w i)

end Lfa.Spec

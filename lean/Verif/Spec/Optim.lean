import Verif.Spec.Features
import Verif.Model.Optim

/-!
# Specification of optimisers: weights, gradients, histories
-/

namespace Lfa.Spec

open Lfa

variable {K : Type} [Scalar K]

/-- Entry `i` of a vector; 0 outside. -/
def entry (w : List K) (i : Nat) : K := w.getD i Scalar.zero

/-- Well-formed features for `n` parameters. -/
def Fits (n : Nat) (φ : Features K) : Prop := WF φ ∧ dim φ = n

/-- An activation is stored for feature `i`. -/
def Active (φ : Features K) (i : Nat) : Prop := ∃ a, Stored φ i a

/-- One call on an optimiser. -/
inductive Event (K : Type)
  | step (φ : Features K)
  | stepScaled (φ : Features K) (s : K)
  | reset

/-- The features of a call suit `n` parameters. -/
def Event.Fits (n : Nat) : Event K → Prop
  | .step φ => Spec.Fits n φ
  | .stepScaled φ _ => Spec.Fits n φ
  | .reset => True

/-- `History o w es o' w'`: starting from optimiser `o` and weights `w`, the calls `es` all return
`Ok`, one after the other, and leave the optimiser `o'` and the weights `w'`. -/
inductive History {O : Type} [Optimiser O K] : O → List K → List (Event K) → O → List K → Prop
  | nil (o : O) (w : List K) : History o w [] o w
  | step {o o₁ o₂ : O} {w w₁ w₂ : List K} {φ : Features K} {es : List (Event K)}
      (h : Optimiser.step o w φ = .ok (.ok (), o₁, w₁)) (t : History o₁ w₁ es o₂ w₂) :
      History o w (.step φ :: es) o₂ w₂
  | stepScaled {o o₁ o₂ : O} {w w₁ w₂ : List K} {φ : Features K} {s : K} {es : List (Event K)}
      (h : Optimiser.stepScaled o w φ s = .ok (.ok (), o₁, w₁)) (t : History o₁ w₁ es o₂ w₂) :
      History o w (.stepScaled φ s :: es) o₂ w₂
  | reset {o o₂ : O} {w w₂ : List K} {es : List (Event K)}
      (t : History (Optimiser.reset o) w es o₂ w₂) : History o w (.reset :: es) o₂ w₂

/-- The optimiser's own state has `n` entries. -/
class HasSize (O : Type) where
  sized : Nat → O → Prop

instance : HasSize (SGD K) := ⟨fun _ _ => True⟩
instance : HasSize (ISGD K) := ⟨fun _ _ => True⟩
instance : HasSize (SGDMomentum K) := ⟨fun n o => o.velocity.length = n⟩
instance : HasSize (NAG K) := ⟨fun n o => o.velocity.length = n⟩
instance : HasSize (Adagrad K) := ⟨fun n o => o.accumulator.length = n⟩
instance : HasSize (Adam K) := ⟨fun n o => o.expAvg.length = n ∧ o.expAvgSq.length = n⟩
instance : HasSize (AdaMax K) := ⟨fun n o => o.expAvg.length = n ∧ o.expInf.length = n⟩

/-- The gradient a call presents to parameter `i` (exact arithmetic). -/
noncomputable def Event.grad : Event ℝ → Nat → ℝ
  | .step φ, i => value φ i
  | .stepScaled φ s, i => value φ i * s
  | .reset, _ => 0

/-- The unscaled activation a call presents to parameter `i`. -/
noncomputable def Event.raw : Event ℝ → Nat → ℝ
  | .step φ, i => value φ i
  | .stepScaled φ _, i => value φ i
  | .reset, _ => 0

/-- A call of `step` or `step_scaled`. -/
def Event.isStep : Event K → Bool
  | .reset => false
  | _ => true

/-- The gradients a list of calls presents to parameter `i`, by position. -/
noncomputable def gradAt (es : List (Event ℝ)) (i j : Nat) : ℝ :=
  (es.map fun e => e.grad i).getD j 0

/-- The discounted sum `∑_{j<k} m^(k-1-j) g_j`. -/
noncomputable def discounted (m : ℝ) (g : Nat → ℝ) (k : Nat) : ℝ :=
  ∑ j ∈ Finset.range k, m ^ (k - 1 - j) * g j

/-- The features of a call (none for a reset). -/
def Event.ActiveAt (i : Nat) : Event K → Prop
  | .step φ => Active φ i
  | .stepScaled φ _ => Active φ i
  | .reset => False

end Lfa.Spec

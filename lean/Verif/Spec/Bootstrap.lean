import Verif.Spec.Sampling
import Verif.Spec.Sequence

/-!
# Specification of training towards the approximator's own predictions

A transition goes from an input `x` with reward `r` to an input `x'`; the target for `x` is
`r + γ · prediction(x')`, computed with the approximator that is being trained.
-/

namespace Lfa.Spec

open Lfa

variable {B O I : Type} [Space B] [Basis B I ℝ]

/-- One call: `let p' = fa.evaluate(x')?; fa.update_with(x, |_, p| r + γ p' - p)?` turns `fa` into `fa'`. -/
def Bootstraps [Optimiser O ℝ] (γ : ℝ) (fa : ScalarLFA B O ℝ) (x : I) (r : ℝ) (x' : I)
    (fa' : ScalarLFA B O ℝ) : Prop :=
  ∃ p', fa.evaluate x' = .ok (.ok p') ∧
    ScalarLFA.updateWith fa x (fun _ p => r + γ * p' - p) = .ok (.ok (), fa')

/-- The error of the predictions on a transition is `δ`. -/
def Surprise (γ : ℝ) (fa : ScalarLFA B O ℝ) (x : I) (r : ℝ) (x' : I) (δ : ℝ) : Prop :=
  ∃ p p', fa.evaluate x = .ok (.ok p) ∧ fa.evaluate x' = .ok (.ok p') ∧ δ = r + γ * p' - p

/-- `fa l` is the approximator after bootstrapped calls on the transitions `l`, in order. -/
def BootSampling [Optimiser O ℝ] {N : Nat} (γ : ℝ) (x : Fin N → I) (r : Fin N → ℝ) (x' : Fin N → I)
    (fa : List (Fin N) → ScalarLFA B O ℝ) : Prop :=
  ∀ l j, Bootstraps γ (fa l) (x j) (r j) (x' j) (fa (l ++ [j]))

end Lfa.Spec

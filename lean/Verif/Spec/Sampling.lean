import Verif.Spec.Training
import Mathlib.Data.Fintype.BigOperators

/-!
# Training on examples drawn at random from a finite set

`N` examples; each call draws one of them, all equally likely and independently of earlier draws. A run of
`k` calls is a list of `k` indices, all `N ^ k` lists being equally likely, so expectations are averages
over lists.
-/

namespace Lfa.Spec

variable {N : Nat}

/-- The expectation of `g` over runs of `k` draws. -/
noncomputable def average (k : Nat) (g : List (Fin N) → ℝ) : ℝ :=
  (∑ s : Fin k → Fin N, g (List.ofFn s)) / (N : ℝ) ^ k

/-- `fa l` is the approximator after the draws `l`, in order. -/
def Sampling {B I O : Type} [Space B] [Basis B I ℝ] [Optimiser O ℝ] (x : Fin N → I) (y : Fin N → ℝ)
    (fa : List (Fin N) → ScalarLFA B O ℝ) : Prop :=
  ∀ l j, ScalarLFA.updateWith (fa l) (x j) (fun _ p => y j - p) = .ok (.ok (), fa (l ++ [j]))

/-- The squared error of weights `v` on all examples, example `j` counted `c j` times. -/
noncomputable def sqError (c : Fin N → ℝ) (φ : Fin N → Features ℝ) (y : Fin N → ℝ) (v : List ℝ) : ℝ :=
  ∑ j, c j * (y j - inner (φ j) v) ^ 2

end Lfa.Spec

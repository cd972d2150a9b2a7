import Verif.Spec.Sequence

/-! # Specification of training with an optimiser that is set anew before every call -/

namespace Lfa.Spec

open Lfa

variable {B O I K : Type} [Scalar K] [Space B] [Basis B I K] [Optimiser O K]

/-- `Schedule os fas xs ys ps`: an endless run. `fas k` predicts `ps k` at `xs k`; then the field
`optimiser` (which is public) is set to `os k`, and `update_with(xs k, |_, p| ys k - p)` leaves
`fas (k+1)`. -/
structure Schedule (os : Nat → O) (fas : Nat → ScalarLFA B O K) (xs : Nat → I) (ys ps : Nat → K) : Prop where
  predicts : ∀ k, (fas k).evaluate (xs k) = .ok (.ok (ps k))
  updates : ∀ k, ScalarLFA.updateWith (LFA.mk (fas k).basis (fas k).weights (os k)) (xs k)
    (fun _ v => ys k -. v) = .ok (.ok (), fas (k + 1))

end Lfa.Spec

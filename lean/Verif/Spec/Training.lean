import Verif.Spec.Optim
import Verif.Model.Lfa

/-! # Specification of repeated training -/

namespace Lfa.Spec

open Lfa

variable {B O I K : Type} [Scalar K] [Space B] [Basis B I K] [Optimiser O K]

/-- `Trained fa x f k fa'`: `k` successful calls `update_with(x, f)` turn `fa` into `fa'`. -/
inductive Trained (fa : ScalarLFA B O K) (x : I) (f : Features K → K → K) :
    Nat → ScalarLFA B O K → Prop
  | zero : Trained fa x f 0 fa
  | succ {k : Nat} {fa₁ fa₂ : ScalarLFA B O K} (t : Trained fa x f k fa₁)
      (h : fa₁.updateWith x f = .ok (.ok (), fa₂)) : Trained fa x f (k + 1) fa₂

end Lfa.Spec

import Verif.Model.Lfa
import Verif.Spec.Optim
import Mathlib.Data.Finset.Card
import Mathlib.Data.Finset.Range

/-!
# Telling classes apart

With one output the sign of the prediction is the class, with several the output that is largest. The approximator is trained on its mistakes
only.
-/

namespace Lfa.Spec

variable {B O I K : Type} [Scalar K] [Space B] [Basis B I K] [Optimiser O K]

/-- The prediction `p` has the sign of the label `y`. -/
def Correct (y p : K) : Prop := Scalar.lt Scalar.zero (y *. p) = true

instance (y p : K) : Decidable (Correct y p) := inferInstanceAs (Decidable (_ = true))

/-- Before each call the approximator is asked for the sign of `x_t`; if that is not the sign of the label `y_t`, it is updated at `x_t` with
the label as error, otherwise left alone. -/
structure LearnsFromMistakes (fas : Nat → ScalarLFA B O K) (xs : Nat → I) (ys ps : Nat → K) : Prop where
  predicts : ∀ t, (fas t).evaluate (xs t) = .ok (.ok (ps t))
  wrong : ∀ t, ¬ Correct (ys t) (ps t) → (fas t).update (xs t) (ys t) = .ok (.ok (), fas (t + 1))
  right : ∀ t, Correct (ys t) (ps t) → fas (t + 1) = fas t

/-- The mistakes before call `T`. -/
def mistakes (ys ps : Nat → K) (T : Nat) : Finset Nat := (Finset.range T).filter fun t => ¬ Correct (ys t) (ps t)

/-- Output `y` is larger than all the others. -/
def Recognised (y : Nat) (v : List K) : Prop := ∀ j < v.length, j ≠ y → Scalar.lt (entry v j) (entry v y) = true

instance (y : Nat) (v : List K) : Decidable (Recognised y v) :=
  inferInstanceAs (Decidable (∀ j < v.length, j ≠ y → Scalar.lt (entry v j) (entry v y) = true))

/-- Before each call the approximator is asked for its outputs at `x_t`; if output `y_t` is not the largest, it is raised at `x_t` with error
1, and some other output `r_t` that it does not exceed is lowered with error -1. Otherwise the approximator is left alone. -/
structure LearnsClasses (fas : Nat → VectorLFA B O K) (xs : Nat → I) (ys : Nat → Nat) (vs : Nat → List K) (rs : Nat → Nat) : Prop where
  predicts : ∀ t, (fas t).evaluate (xs t) = .ok (.ok (vs t))
  rival : ∀ t, ¬ Recognised (ys t) (vs t) →
    rs t < (vs t).length ∧ rs t ≠ ys t ∧ Scalar.lt (entry (vs t) (rs t)) (entry (vs t) (ys t)) = false
  wrong : ∀ t, ¬ Recognised (ys t) (vs t) → ∃ raised,
    (fas t).updateIndex (xs t) (ys t) Scalar.one = .ok (.ok (), raised) ∧
    raised.updateIndex (xs t) (rs t) (Scalar.neg Scalar.one) = .ok (.ok (), fas (t + 1))
  right : ∀ t, Recognised (ys t) (vs t) → fas (t + 1) = fas t

/-- The calls before `T` at which output `y_t` was not the largest. -/
def confusions (ys : Nat → Nat) (vs : Nat → List K) (T : Nat) : Finset Nat :=
  (Finset.range T).filter fun t => ¬ Recognised (ys t) (vs t)

end Lfa.Spec

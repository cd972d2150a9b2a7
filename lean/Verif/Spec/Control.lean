import Verif.Spec.Sequence
import Mathlib.Topology.Algebra.InfiniteSum.Defs

/-!
# Specification of learning the values of actions

An environment tells, for an input and an action, the reward, the next input and how much later rewards count. An
approximator with one output for each action is trained towards the reward plus the discounted greatest prediction
at the next input, as in Q-learning.
-/

namespace Lfa.Spec

open Lfa

/-- A deterministic environment. A discount of 0 ends an episode. -/
structure Environment (X K : Type) where
  reward : X → Nat → K
  discount : X → Nat → K
  next : X → Nat → X

namespace Environment
variable {X : Type}

/-- The inputs met from `x` with the actions `acts`. -/
def visits {K : Type} (E : Environment X K) (x : X) (acts : Nat → Nat) : Nat → X
  | 0 => x
  | k + 1 => E.next (visits E x acts k) (acts k)

/-- The discounted sum of the rewards met from `x` with the actions `acts` is `G`. -/
def Collects (E : Environment X ℝ) (x : X) (acts : Nat → Nat) (G : ℝ) : Prop :=
  HasSum (fun k => (∏ j ∈ Finset.range k, E.discount (E.visits x acts j) (acts j)) *
    E.reward (E.visits x acts k) (acts k)) G

/-- `q` is the greatest discounted sum that sequences of actions below `A` collect from `x`, starting with `a`. -/
def Best (E : Environment X ℝ) (A : Nat) (x : X) (a : Nat) (q : ℝ) : Prop :=
  IsGreatest {G | ∃ acts : Nat → Nat, acts 0 = a ∧ (∀ k, acts k < A) ∧ E.Collects x acts G} q

/-- The environment with its numbers replaced. -/
def mapEnv {K : Type} (f : K → ℝ) (E : Environment X K) : Environment X ℝ :=
  ⟨fun x a => f (E.reward x a), fun x a => f (E.discount x a), E.next⟩

end Environment

section
variable {B O I K : Type} [Scalar K] [Space B] [Basis B I K]

/-- Two inputs have the same projection. -/
def SameProjection (b : B) (x y : I) : Prop := Basis.project (K := K) b x = Basis.project b y

/-- On the inputs `X` the basis is a table of `n` cells: one activation, of value 1. -/
def IsTable (b : B) (n : Nat) (X : I → Prop) : Prop :=
  ∀ x, X x → ∃ k < n, Basis.project b x = .ok (.ok (.sparse ⟨n, [(k, (Scalar.one : K))]⟩))

/-- The environment stays among the inputs `X` and treats inputs of the same cell alike. -/
structure Respects (E : Environment I K) (b : B) (A : Nat) (X : I → Prop) : Prop where
  closed : ∀ x a, X x → a < A → X (E.next x a)
  reward : ∀ x y a, X x → X y → SameProjection b x y → a < A → E.reward x a = E.reward y a
  discount : ∀ x y a, X x → X y → SameProjection b x y → a < A → E.discount x a = E.discount y a
  next : ∀ x y a, X x → X y → SameProjection b x y → a < A → SameProjection b (E.next x a) (E.next y a)

/-- Output `a` is the greatest at `x`, or one of the greatest. -/
def Greedy (fv : VectorLFA B O K) (x : I) (a : Nat) : Prop :=
  ∃ qs q, fv.evaluate x = .ok (.ok qs) ∧ qs[a]? = some q ∧ ∀ p ∈ qs, Scalar.lt q p = false

/-- One call: with `m` the greatest of `fv.evaluate(next)?` and `q = fv.evaluate_index(x, a)?`,
`fv.update_index(x, a, reward + discount * m - q)?` turns `fv` into `fv'`. -/
def Learns [Optimiser O K] (E : Environment I K) (fv : VectorLFA B O K) (x : I) (a : Nat)
    (fv' : VectorLFA B O K) : Prop :=
  ∃ qs m q, fv.evaluate (E.next x a) = .ok (.ok qs) ∧ m ∈ qs ∧ (∀ p ∈ qs, Scalar.lt m p = false) ∧
    fv.evaluateIndex x a = .ok (.ok q) ∧
    fv.updateIndex x a (E.reward x a +. E.discount x a *. m -. q) = .ok (.ok (), fv')

end

end Lfa.Spec

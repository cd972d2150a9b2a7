import Verif.Model.Ifdd
import Verif.Spec.Features
import Verif.Spec.Basis

/-!
# Specification of incremental feature discovery

Sequences of `discover` calls, the errors credited to a pair of features, and how often an account
filled by them reaches the threshold.
-/

namespace Lfa.Spec

open Lfa

variable {B K I : Type} [Scalar K] [Space B] [Basis B I K]

/-- Feature `i` is one of those whose pairs `discover` inspects: an active one of a sparse projection,
one below `1e-7` of a dense one. -/
def Inspects : Features K → Nat → Prop
  | .dense da, i => ∃ a, da[i]? = some a ∧ Scalar.lt (Scalar.abs a) (Scalar.sci 1 7) = true
  | .sparse sa, i => ∃ a, Stored (.sparse sa) i a

/-- Feature `i` is active: stored in a sparse projection, not below `1e-7` in a dense one. -/
def Live : Features K → Nat → Prop
  | .dense da, i => ∃ a, da[i]? = some a ∧ ¬ Scalar.lt (Scalar.abs a) (Scalar.sci 1 7) = true
  | .sparse sa, i => ∃ a, Stored (.sparse sa) i a

/-- A sequence of successful `discover` calls, recorded as the projections of the inputs with the
errors. -/
inductive Discoveries (I : Type) [Basis B I K] :
    IFDD B K → List (Features K × K) → IFDD B K → Prop
  | nil (s : IFDD B K) : Discoveries I s [] s
  | cons {s s₁ s' : IFDD B K} {calls : List (Features K × K)} {φ : Features K} {e : K}
      {ms : List (Nat × Finset Nat)} (x : I) (hp : Basis.project s.basis x = .ok (.ok φ))
      (h : s.discover x e = .ok (.ok (ms, s₁))) (t : Discoveries I s₁ calls s') :
      Discoveries I s ((φ, e) :: calls) s'

open Classical in
/-- The absolute errors of the calls that inspect both features. -/
noncomputable def credited (g h : Nat) (calls : List (Features K × K)) : List K :=
  (calls.filter fun c => Inspects c.1 g ∧ Inspects c.1 h).map fun c => Scalar.abs c.2

/-- One payment into an account (if there is one) that is closed when it reaches the threshold; the
number counts the closures. -/
def pay (threshold : K) (a : Option K × Nat) (x : K) : Option K × Nat :=
  let v := a.1.getD Scalar.zero +. x
  if Scalar.lt threshold v = true ∨ Scalar.beq v threshold = true then (none, a.2 + 1) else (some v, a.2)

/-- The account after some payments, starting with none. -/
def tally (threshold : K) (xs : List K) : Option K × Nat := xs.foldl (pay threshold) (none, 0)

/-- The number of features that are the conjunction of the given ones. -/
def copies (s : IFDD B K) (S : Finset Nat) : Nat := s.features.countP fun f => f.parents = S

open Classical in
/-- The projection of `x`, where the inner basis of dimension `n` gives `φ`, is the claimed one: well-formed, of the dimension of
the state, a discovered feature is 1 if all its parents are active in `φ` and 0 otherwise, the parents of those that are 1 are
not active, and all other features of the inner basis are as in `φ`. -/
def ProjectsConjunctions (n : Nat) (s : IFDD B K) (x : I) (φ : Features K) : Prop :=
  ∃ r, Basis.project s x = .ok (.ok r) ∧ WF r ∧ dim r = s.features.length ∧
    (∀ (i : Nat) (f : IfddFeature), n ≤ i → s.features[i]? = some f →
      value r i = if ∀ j ∈ f.parents, Live φ j then Scalar.one else Scalar.zero) ∧
    ∀ j < n, if ∃ (i : Nat) (f : IfddFeature), n ≤ i ∧ s.features[i]? = some f ∧ j ∈ f.parents ∧ ∀ j ∈ f.parents, Live φ j
      then ¬ Live r j else value r j = value φ j

end Lfa.Spec

import Verif.Model.Features
import Mathlib.Algebra.BigOperators.Group.Finset.Basic

/-!
# Specification of feature vectors

What a feature vector *means*, independently of the functions of the model: which activation is
stored at which index, the dense view, well-formedness, and equality up to hash order.
-/

namespace Lfa.Spec

open Lfa

variable {K : Type}

/-- The activation `a` is stored for feature `i`. -/
def Stored : Features K → Nat → K → Prop
  | .dense da, i, a => da[i]? = some a
  | .sparse sa, i, a => (i, a) ∈ sa.activations

/-- Keys of a hash map are unique; every stored index is below the dimension. -/
def WF : Features K → Prop
  | .dense _ => True
  | .sparse sa => (sa.activations.map Prod.fst).Nodup ∧ ∀ e ∈ sa.activations, e.1 < sa.dim

/-- Keys of a hash map are unique (always true of a Rust value). -/
def KeysUnique : Features K → Prop
  | .dense _ => True
  | .sparse sa => (sa.activations.map Prod.fst).Nodup

/-- The number of features. -/
def dim : Features K → Nat
  | .dense da => da.length
  | .sparse sa => sa.dim

/-- The activation of feature `i`; 0 when none is stored. -/
def value [Scalar K] (φ : Features K) (i : Nat) : K :=
  match φ with
  | .dense da => da.getD i Scalar.zero
  | .sparse sa => match sa.activations.find? (fun e => e.1 == i) with
    | some e => e.2
    | none => Scalar.zero

/-- The dense view: activations of features `0, …, dim - 1`. -/
def view [Scalar K] (φ : Features K) : List K := (List.range (dim φ)).map (value φ)

/-- Equality up to the order in which a hash map is iterated. -/
inductive Same : Features K → Features K → Prop
  | dense (da : List K) : Same (.dense da) (.dense da)
  | sparse (n : Nat) {m₁ m₂ : HMap K} (h : m₁.Perm m₂) :
      Same (.sparse ⟨n, m₁⟩) (.sparse ⟨n, m₂⟩)

/-- The same outcome: the same panic, or related values. -/
inductive SameP {α : Type} (R : α → α → Prop) : P α → P α → Prop
  | ok {a b : α} (h : R a b) : SameP R (.ok a) (.ok b)
  | panic (p : Panic) : SameP R (.error p) (.error p)

/-- A computation that panics. -/
def Panics {α : Type} (x : P α) : Prop := ∃ p, x = .error p

/-- Products added from left to right, starting from 0. -/
def inTurn [Scalar K] (xs ys : List K) : K :=
  (List.zipWith (fun x y => x *. y) xs ys).foldl (fun acc p => acc +. p) Scalar.zero

/-- An arithmetic in which the order of summation of an inner product does not matter. -/
def OneOrder (K : Type) [Scalar K] : Prop :=
  ∀ xs ys : List K, xs.length = ys.length → inTurn xs ys = Scalar.dot xs ys

/-- The inner product of the dense view with a weight vector (over the features' dimension). -/
noncomputable def inner (φ : Features ℝ) (w : List ℝ) : ℝ :=
  ∑ i ∈ Finset.range (dim φ), value φ i * w.getD i 0

/-- The squared Euclidean norm of the dense view. -/
noncomputable def normSq (φ : Features ℝ) : ℝ :=
  ∑ i ∈ Finset.range (dim φ), value φ i * value φ i

/-- The inner product of two dense views. -/
noncomputable def innerFeatures (φ ψ : Features ℝ) : ℝ :=
  ∑ i ∈ Finset.range (dim φ), value φ i * value ψ i

/-- The entries of the dense view with magnitude above 1e-7. -/
def bigEntries [Scalar K] (φ : Features K) : List K :=
  (view φ).filter fun v => Scalar.lt (Scalar.sci 1 7) (Scalar.abs v)

end Lfa.Spec

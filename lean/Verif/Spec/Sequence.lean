import Verif.Spec.Training

/-! # Specification of training on a sequence of examples -/

namespace Lfa.Spec

open Lfa

variable {B O I K : Type} [Scalar K] [Space B] [Basis B I K] [Optimiser O K]

/-- One example seen in training: the input, its target, and the predictions the approximator makes
for the input just before and just after the update. -/
structure Example (I K : Type) where
  input : I
  target : K
  before : K
  after : K

/-- `Session fa es fa'`: calling `update_with(x, |_, p| y - p)` on each example in order succeeds
and turns `fa` into `fa'`; `evaluate(x)` returns the recorded predictions around each call. -/
inductive Session : ScalarLFA B O K → List (Example I K) → ScalarLFA B O K → Prop
  | nil (fa : ScalarLFA B O K) : Session fa [] fa
  | cons {fa fa₁ fa' : ScalarLFA B O K} {x : I} {y p q : K} {es : List (Example I K)}
      (hp : fa.evaluate x = .ok (.ok p))
      (hu : fa.updateWith x (fun _ v => y -. v) = .ok (.ok (), fa₁))
      (hq : fa₁.evaluate x = .ok (.ok q)) (t : Session fa₁ es fa') :
      Session fa (⟨x, y, p, q⟩ :: es) fa'

/-- `Stream fas xs ys ps`: an endless run. `fas k` predicts `ps k` at `xs k` and is turned into
`fas (k+1)` by `update_with(xs k, |_, p| ys k - p)`. -/
structure Stream (fas : Nat → ScalarLFA B O K) (xs : Nat → I) (ys ps : Nat → K) : Prop where
  predicts : ∀ k, (fas k).evaluate (xs k) = .ok (.ok (ps k))
  updates : ∀ k, (fas k).updateWith (xs k) (fun _ v => ys k -. v) = .ok (.ok (), fas (k + 1))

/-- The squared distance between two weight vectors of length `n`. -/
noncomputable def distSq (n : Nat) (w v : List ℝ) : ℝ :=
  ∑ i ∈ Finset.range n, (entry v i - entry w i) ^ 2

/-- `Predicts b w x p`: the linear function with weights `w` over the basis `b` predicts `p` at `x`,
`p = ∑ᵢ φᵢ(x) wᵢ`. -/
def Predicts (b : B) [Basis B I ℝ] (w : List ℝ) (x : I) (p : ℝ) : Prop :=
  ∃ φ : Features ℝ, Basis.project b x = .ok (.ok φ) ∧
    p = ∑ i ∈ Finset.range (dim φ), value φ i * entry w i

end Lfa.Spec

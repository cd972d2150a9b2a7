import Verif.Model.Signed
import Verif.Model.Lfa

/-!
# Equal up to the sign of zero
-/

namespace Lfa.Spec

variable {M : Machine} {Z : ZeroChoice}

/-- `a == b`, or both are NaN (the only number that does not equal itself). -/
def Alike (a b : SFP M Z) : Prop :=
  Scalar.beq a b = true ∨ Scalar.beq a a = false ∧ Scalar.beq b b = false

/-- Lists of the same length with alike numbers. -/
abbrev Alikes (xs ys : List (SFP M Z)) : Prop := List.Forall₂ Alike xs ys

/-- The same indices with alike activations. -/
def AlikeF : Features (SFP M Z) → Features (SFP M Z) → Prop
  | .dense xs, .dense ys => Alikes xs ys
  | .sparse sa, .sparse sb =>
    sa.dim = sb.dim ∧ List.Forall₂ (fun e e' => e.1 = e'.1 ∧ Alike e.2 e'.2) sa.activations sb.activations
  | _, _ => False

/-- Both panic alike, or return related values. -/
def AlikeP {α : Type} (R : α → α → Prop) : P α → P α → Prop
  | .ok a, .ok b => R a b
  | .error e, .error e' => e = e'
  | _, _ => False

/-- Both fail alike, or return related values. -/
def AlikeR {α : Type} (R : α → α → Prop) : Result α → Result α → Prop
  | .ok a, .ok b => R a b
  | .error e, .error e' => e = e'
  | _, _ => False

/-- Bases that give alike features for alike inputs. -/
def AlikeB (M : Machine) (Z : ZeroChoice) {B C : Type} [Space B] [Space C]
    [Basis B (List (SFP M Z)) (SFP M Z)] [Basis C (List (SFP M Z)) (SFP M Z)] (b : B) (c : C) : Prop :=
  ∀ x y : List (SFP M Z), Alikes x y → AlikeP (AlikeR AlikeF) (Basis.project b x) (Basis.project c y)

/-- `-0.0`. -/
def NegZero (a : SFP M Z) : Prop := a.neg0 = true

/-- `0.0`. -/
def PosZero (a : SFP M Z) : Prop := a.val.1 = .fin 0 ∧ a.neg0 = false

/-- The limits `(0.0, -0.0)`, whose width is `-0.0`. -/
def Crossed (l : SFP M Z × SFP M Z) : Prop := PosZero l.1 ∧ NegZero l.2

/-- Alike limits. -/
abbrev AlikeL (ls ls' : List (SFP M Z × SFP M Z)) : Prop :=
  List.Forall₂ (fun l l' => Alike l.1 l'.1 ∧ Alike l.2 l'.2) ls ls'

/-- Alike optimisers. -/
class Optim (O : Type) where
  alike : O → O → Prop

instance : Optim (SGD (SFP M Z)) := ⟨fun a b => Alike a.lr b.lr⟩
instance : Optim (ISGD (SFP M Z)) := ⟨fun a b => Alike a.lr b.lr⟩
instance : Optim (SGDMomentum (SFP M Z)) := ⟨fun a b =>
  Alike a.momentum b.momentum ∧ Alike a.learningRate b.learningRate ∧ Alikes a.velocity b.velocity⟩
instance : Optim (NAG (SFP M Z)) := ⟨fun a b =>
  Alike a.momentum b.momentum ∧ Alike a.learningRate b.learningRate ∧ Alikes a.velocity b.velocity⟩
instance : Optim (Adagrad (SFP M Z)) := ⟨fun a b =>
  Alike a.learningRate b.learningRate ∧ Alikes a.accumulator b.accumulator⟩
instance : Optim (Adam (SFP M Z)) := ⟨fun a b =>
  Alike a.beta1 b.beta1 ∧ Alike a.beta1Prod b.beta1Prod ∧ Alike a.beta2 b.beta2 ∧
    Alike a.beta2Prod b.beta2Prod ∧ Alike a.learningRate b.learningRate ∧
    Alikes a.expAvg b.expAvg ∧ Alikes a.expAvgSq b.expAvgSq⟩
instance : Optim (AdaMax (SFP M Z)) := ⟨fun a b =>
  Alike a.beta1 b.beta1 ∧ Alike a.beta1Prod b.beta1Prod ∧ Alike a.beta2 b.beta2 ∧
    Alike a.learningRate b.learningRate ∧ Alikes a.expAvg b.expAvg ∧ Alikes a.expInf b.expInf⟩

/-- An optimiser for which the signs of zeros do not matter. -/
def BlindSteps (M : Machine) (Z : ZeroChoice) (O : Type) [Optim O] [Optimiser O (SFP M Z)] : Prop :=
  ∀ (o o' : O) (w w' : List (SFP M Z)) (φ φ' : Features (SFP M Z)) (s s' : SFP M Z),
    Optim.alike o o' → Alikes w w' → AlikeF φ φ' → Alike s s' →
    AlikeP (fun r r' => r.1 = r'.1 ∧ Optim.alike r.2.1 r'.2.1 ∧ Alikes r.2.2 r'.2.2)
      (Optimiser.stepScaled o w φ s) (Optimiser.stepScaled o' w' φ' s')

/-- Approximators with alike bases, weights and optimisers. -/
structure AlikeFa {B O : Type} [Optim O] [Space B] [Basis B (List (SFP M Z)) (SFP M Z)]
    (fa fa' : ScalarLFA B O (SFP M Z)) : Prop where
  basis : AlikeB M Z fa.basis fa'.basis
  weights : Alikes fa.weights fa'.weights
  optimiser : Optim.alike fa.optimiser fa'.optimiser

/-- The same for several outputs. -/
structure AlikeVec {B O : Type} [Optim O] [Space B] [Basis B (List (SFP M Z)) (SFP M Z)]
    (fa fa' : VectorLFA B O (SFP M Z)) : Prop where
  basis : AlikeB M Z fa.basis fa'.basis
  weights : List.Forall₂ Alikes fa.weights fa'.weights
  optimiser : Optim.alike fa.optimiser fa'.optimiser

/-- A sequence of calls `update(x, e)`, errors ignored. -/
noncomputable def updates {B O : Type} [Space B] [Basis B (List (SFP M Z)) (SFP M Z)] [Optimiser O (SFP M Z)]
    (fa : ScalarLFA B O (SFP M Z)) : List (List (SFP M Z) × SFP M Z) → P (ScalarLFA B O (SFP M Z))
  | [] => .ok fa
  | (x, e) :: es => do
    let r ← fa.update x e
    updates r.2 es

end Lfa.Spec

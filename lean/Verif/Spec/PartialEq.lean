import Verif.Model.PartialEq
import Verif.Spec.Signed

/-!
# Partial equivalences and the numbers in a value
-/

namespace Lfa.Spec

variable {M : Machine} {Z : ZeroChoice}

/-- Not NaN. -/
def NotNaN (a : SFP M Z) : Prop := a.val.1 ≠ .nan

/-- `everyNumber t`: no number in `t` is NaN. -/
class NoNaN (T : Type) where
  everyNumber : T → Prop

open NoNaN (everyNumber)

instance : NoNaN Nat := ⟨fun _ => True⟩
instance : NoNaN (SFP M Z) := ⟨NotNaN⟩
instance {T : Type} [NoNaN T] : NoNaN (List T) := ⟨fun l => ∀ t ∈ l, everyNumber t⟩
instance {S T : Type} [NoNaN S] [NoNaN T] : NoNaN (S × T) := ⟨fun p => everyNumber p.1 ∧ everyNumber p.2⟩
instance : NoNaN (SGD (SFP M Z)) := ⟨fun o => NotNaN o.lr⟩
instance : NoNaN (ISGD (SFP M Z)) := ⟨fun o => NotNaN o.lr⟩
instance : NoNaN (SGDMomentum (SFP M Z)) := ⟨fun o =>
  NotNaN o.momentum ∧ NotNaN o.learningRate ∧ ∀ v ∈ o.velocity, NotNaN v⟩
instance : NoNaN (NAG (SFP M Z)) := ⟨fun o =>
  NotNaN o.momentum ∧ NotNaN o.learningRate ∧ ∀ v ∈ o.velocity, NotNaN v⟩
instance : NoNaN (Adagrad (SFP M Z)) := ⟨fun o => NotNaN o.learningRate ∧ ∀ v ∈ o.accumulator, NotNaN v⟩
instance : NoNaN (Adam (SFP M Z)) := ⟨fun o =>
  NotNaN o.beta1 ∧ NotNaN o.beta1Prod ∧ NotNaN o.beta2 ∧ NotNaN o.beta2Prod ∧ NotNaN o.learningRate ∧
    (∀ v ∈ o.expAvg, NotNaN v) ∧ ∀ v ∈ o.expAvgSq, NotNaN v⟩
instance : NoNaN (AdaMax (SFP M Z)) := ⟨fun o =>
  NotNaN o.beta1 ∧ NotNaN o.beta1Prod ∧ NotNaN o.beta2 ∧ NotNaN o.learningRate ∧
    (∀ v ∈ o.expAvg, NotNaN v) ∧ ∀ v ∈ o.expInf, NotNaN v⟩
instance : NoNaN (Bias (SFP M Z)) := ⟨fun b => NotNaN b.value⟩
instance : NoNaN (FixedDense (SFP M Z)) := ⟨fun b => ∀ v ∈ b.constants, NotNaN v⟩
instance : NoNaN Polynomial := ⟨fun _ => True⟩
instance : NoNaN (Fourier (SFP M Z)) := ⟨fun b =>
  (∀ l ∈ b.limits, NotNaN l.1 ∧ NotNaN l.2) ∧ ∀ cs ∈ b.coefficients, ∀ c ∈ cs, NotNaN c⟩
instance {kind : StationaryKind} : NoNaN (Stationary kind (SFP M Z)) := ⟨fun k =>
  NotNaN k.variance ∧ ∀ l ∈ k.lengthscales, NotNaN l⟩
instance : NoNaN (RationalQuadratic (SFP M Z)) := ⟨fun k =>
  NotNaN k.variance ∧ (∀ l ∈ k.lengthscales, NotNaN l) ∧ NotNaN k.power⟩
instance {κ : Type} [NoNaN κ] : NoNaN (Prototype κ (SFP M Z)) := ⟨fun p =>
  (∀ v ∈ p.centroid, NotNaN v) ∧ everyNumber p.kernel⟩
instance {κ : Type} [NoNaN κ] : NoNaN (KernelBasis κ (SFP M Z)) := ⟨fun b =>
  ∀ p ∈ b.prototypes, everyNumber p⟩
instance {B C : Type} [NoNaN B] [NoNaN C] : NoNaN (Stack B C) := ⟨fun b => everyNumber b.b₁ ∧ everyNumber b.b₂⟩
instance {B : Type} [NoNaN B] : NoNaN (L0Normaliser B) := ⟨fun b => everyNumber b.inner⟩
instance {B : Type} [NoNaN B] : NoNaN (L1Normaliser B) := ⟨fun b => everyNumber b.inner⟩
instance {B : Type} [NoNaN B] : NoNaN (L2Normaliser B) := ⟨fun b => everyNumber b.inner⟩
instance {B : Type} [NoNaN B] : NoNaN (LinfNormaliser B) := ⟨fun b => everyNumber b.inner⟩

/-- `==` is symmetric and transitive, and a value equals itself unless it contains a NaN. -/
structure PartialEquivalence (T : Type) [PartialEq T] [NoNaN T] : Prop where
  symm : ∀ a b : T, PartialEq.eq a b = PartialEq.eq b a
  trans : ∀ a b c : T, PartialEq.eq a b = true → PartialEq.eq b c = true → PartialEq.eq a c = true
  refl_iff : ∀ a : T, PartialEq.eq a a = true ↔ everyNumber a

end Lfa.Spec

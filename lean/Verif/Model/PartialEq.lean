import Verif.Model.Lfa

/-!
# `==` on optimisers and bases

The `PartialEq` that `#[derive(PartialEq)]` generates: `==` on the fields, in order. `Vec` and
`ndarray::Array1` compare lengths and then elements; a function pointer is compared by address.
`LFA` and the feature containers do not derive it (`Features` has its own, see C13).
-/

namespace Lfa

/-- `PartialEq::eq`. -/
class PartialEq (T : Type) where
  eq : T → T → Bool

instance : PartialEq Nat := ⟨fun a b => a == b⟩

instance {K : Type} [Scalar K] : PartialEq K := ⟨Scalar.beq⟩

/-- Slices, `Vec` and `Array1`. -/
def listEq {T : Type} (eq : T → T → Bool) : List T → List T → Bool
  | [], [] => true
  | a :: as, b :: bs => eq a b && listEq eq as bs
  | _, _ => false

instance {T : Type} [PartialEq T] : PartialEq (List T) := ⟨listEq PartialEq.eq⟩

/-- Tuples. -/
instance {S T : Type} [PartialEq S] [PartialEq T] : PartialEq (S × T) :=
  ⟨fun a b => PartialEq.eq a.1 b.1 && PartialEq.eq a.2 b.2⟩

section Optimisers
variable {K : Type} [Scalar K]

/-- optim/sgd.rs:3. -/
instance : PartialEq (SGD K) := ⟨fun a b => PartialEq.eq a.lr b.lr⟩

/-- optim/isgd.rs:3. -/
instance : PartialEq (ISGD K) := ⟨fun a b => PartialEq.eq a.lr b.lr⟩

/-- optim/momentum.rs:5. -/
instance : PartialEq (SGDMomentum K) := ⟨fun a b =>
  PartialEq.eq a.momentum b.momentum && PartialEq.eq a.learningRate b.learningRate &&
    PartialEq.eq a.velocity b.velocity⟩

/-- optim/nesterov.rs:6. -/
instance : PartialEq (NAG K) := ⟨fun a b =>
  PartialEq.eq a.momentum b.momentum && PartialEq.eq a.learningRate b.learningRate &&
    PartialEq.eq a.velocity b.velocity⟩

/-- optim/adagrad.rs:6. -/
instance : PartialEq (Adagrad K) := ⟨fun a b =>
  PartialEq.eq a.learningRate b.learningRate && PartialEq.eq a.accumulator b.accumulator⟩

/-- optim/adam.rs:10. -/
instance : PartialEq (Adam K) := ⟨fun a b =>
  PartialEq.eq a.beta1 b.beta1 && PartialEq.eq a.beta1Prod b.beta1Prod &&
    PartialEq.eq a.beta2 b.beta2 && PartialEq.eq a.beta2Prod b.beta2Prod &&
    PartialEq.eq a.learningRate b.learningRate && PartialEq.eq a.expAvg b.expAvg &&
    PartialEq.eq a.expAvgSq b.expAvgSq⟩

/-- optim/adamax.rs:10. -/
instance : PartialEq (AdaMax K) := ⟨fun a b =>
  PartialEq.eq a.beta1 b.beta1 && PartialEq.eq a.beta1Prod b.beta1Prod &&
    PartialEq.eq a.beta2 b.beta2 && PartialEq.eq a.learningRate b.learningRate &&
    PartialEq.eq a.expAvg b.expAvg && PartialEq.eq a.expInf b.expInf⟩

end Optimisers

section Bases
variable {K : Type} [Scalar K]

/-- basis/constant.rs:6. -/
instance : PartialEq (Bias K) := ⟨fun a b => PartialEq.eq a.value b.value⟩

/-- basis/constant.rs:38, dense. -/
instance : PartialEq (FixedDense K) := ⟨fun a b => PartialEq.eq a.constants b.constants⟩

/-- `HashSet == HashSet` (std): as many elements, and every element of the first is in the second. -/
def setEq (s t : List Nat) : Bool := s.length == t.length && s.all fun i => decide (i ∈ t)

/-- basis/constant.rs:38, sparse. -/
instance : PartialEq (FixedSparse K) := ⟨fun a b =>
  PartialEq.eq a.nFeatures b.nFeatures && setEq a.active b.active⟩

/-- polynomial/mod.rs:38. -/
instance : PartialEq Polynomial := ⟨fun a b =>
  PartialEq.eq a.order b.order && PartialEq.eq a.exponents b.exponents⟩

/-- fourier.rs:12. -/
instance : PartialEq (Fourier K) := ⟨fun a b =>
  PartialEq.eq a.order b.order && PartialEq.eq a.limits b.limits &&
    PartialEq.eq a.coefficients b.coefficients⟩

/-- polynomial/mod.rs:121. `same` compares two function pointers. -/
def Chebyshev.eqBy (same : (K → K) → (K → K) → Bool) (a b : Chebyshev K) : Bool :=
  PartialEq.eq a.order b.order && PartialEq.eq a.limits b.limits &&
    listEq (listEq same) a.polynomials b.polynomials

/-- tile_coding.rs:39. -/
instance {H : Type} [PartialEq H] : PartialEq (TileCoding H) := ⟨fun a b =>
  PartialEq.eq a.hasherBuilder b.hasherBuilder && PartialEq.eq a.nTilings b.nTilings &&
    PartialEq.eq a.memorySize b.memorySize⟩

/-- kernels/stationary.rs:4. -/
instance {kind : StationaryKind} : PartialEq (Stationary kind K) := ⟨fun a b =>
  PartialEq.eq a.variance b.variance && PartialEq.eq a.lengthscales b.lengthscales⟩

/-- kernels/rational_quadratic.rs:1. -/
instance : PartialEq (RationalQuadratic K) := ⟨fun a b =>
  PartialEq.eq a.variance b.variance && PartialEq.eq a.lengthscales b.lengthscales &&
    PartialEq.eq a.power b.power⟩

/-- kernelised.rs:7. -/
instance {κ : Type} [PartialEq κ] : PartialEq (Prototype κ K) := ⟨fun a b =>
  PartialEq.eq a.centroid b.centroid && PartialEq.eq a.kernel b.kernel⟩

/-- kernelised.rs:29. -/
instance {κ : Type} [PartialEq κ] : PartialEq (KernelBasis κ K) :=
  ⟨fun a b => PartialEq.eq a.prototypes b.prototypes⟩

/-- stack.rs:6. -/
instance {B C : Type} [PartialEq B] [PartialEq C] : PartialEq (Stack B C) := ⟨fun a b =>
  PartialEq.eq a.b₁ b.b₁ && PartialEq.eq a.b₂ b.b₂⟩

/-- normalisation.rs:7. -/
instance {B : Type} [PartialEq B] : PartialEq (L0Normaliser B) :=
  ⟨fun a b => PartialEq.eq a.inner b.inner⟩

/-- normalisation.rs:60. -/
instance {B : Type} [PartialEq B] : PartialEq (L1Normaliser B) :=
  ⟨fun a b => PartialEq.eq a.inner b.inner⟩

/-- normalisation.rs:129. -/
instance {B : Type} [PartialEq B] : PartialEq (L2Normaliser B) :=
  ⟨fun a b => PartialEq.eq a.inner b.inner⟩

/-- normalisation.rs:198. -/
instance {B : Type} [PartialEq B] : PartialEq (LinfNormaliser B) :=
  ⟨fun a b => PartialEq.eq a.inner b.inner⟩

end Bases

end Lfa

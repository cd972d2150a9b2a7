import Verif.Model.Kernels
import Verif.Spec.Features

/-!
# Specification of bases

The class of bases the crate can build, and what it means for a projection to be faithful to the
advertised dimension and for `ith` to agree with `project`.
-/

namespace Lfa.Spec

open Lfa

/-- Which leaves and combinators a family of bases may use. -/
structure Allow (K : Type) where
  fixedDense : FixedDense K → Prop
  fixedSparse : FixedSparse K → Prop
  normalisers : Prop

/-- Bases that can be built from the crate's public constructors over vectors of scalars, by any
nesting of `Stack` and (if allowed) the four normalisers. `UniformGrid` and the hash function range
over every partition satisfying the contract of `spaces`, and every hasher. -/
inductive Built {K : Type} [ScalarInf K] (A : Allow K) :
    ∀ {B : Type} [Space B] [Basis B (List K) K] [EnumerableBasis B (List K) K], B → Prop
  | bias (b : Bias K) : Built A b
  | fixedDense (b : FixedDense K) (h : A.fixedDense b) : Built A b
  | fixedSparse (b : FixedSparse K) (h : A.fixedSparse b) : Built A b
  | polynomial (b : Polynomial) : Built A b
  | chebyshev (b : Chebyshev K) : Built A b
  | fourier (b : Fourier K) : Built A b
  | kernel {κ : Type} [SliceKernel κ K] (b : KernelBasis κ K) : Built A b
  | tileCoding {H : Type} [BuildHasher H] (b : TileCoding H) : Built A b
  | uniformGrid (ds : List (Equipartition K)) (h : ∀ d ∈ ds, d.Lawful) : Built A (UniformGrid.new ds)
  | stack {B₁ B₂ : Type} [Space B₁] [Space B₂] [Basis B₁ (List K) K] [Basis B₂ (List K) K]
      [EnumerableBasis B₁ (List K) K] [EnumerableBasis B₂ (List K) K] (b₁ : B₁) (b₂ : B₂) :
      Built A b₁ → Built A b₂ → Built A (Stack.mk b₁ b₂)
  | l0 {B : Type} [Space B] [Basis B (List K) K] [EnumerableBasis B (List K) K] (b : B) :
      A.normalisers → Built A b → Built A (L0Normaliser.mk b)
  | l1 {B : Type} [Space B] [Basis B (List K) K] [EnumerableBasis B (List K) K] (b : B) :
      A.normalisers → Built A b → Built A (L1Normaliser.mk b)
  | l2 {B : Type} [Space B] [Basis B (List K) K] [EnumerableBasis B (List K) K] (b : B) :
      A.normalisers → Built A b → Built A (L2Normaliser.mk b)
  | linf {B : Type} [Space B] [Basis B (List K) K] [EnumerableBasis B (List K) K] (b : B) :
      A.normalisers → Built A b → Built A (LinfNormaliser.mk b)

section
variable {B K : Type} [Space B]

/-- Every projection has the advertised number of features. -/
def DimOK (I : Type) [Basis B I K] (b : B) : Prop :=
  ∀ (input : I) φ, Basis.project b input = .ok (.ok φ) → Space.dim b = .finite (dim φ)

/-- No projection stores an index out of range (or twice). -/
def InRange (I : Type) [Basis B I K] (b : B) : Prop :=
  ∀ (input : I) φ, Basis.project b input = .ok (.ok φ) → WF φ

/-- The projection never returns an error value. -/
def NoErr (I : Type) [Basis B I K] (b : B) : Prop :=
  ∀ (input : I) e, Basis.project b input ≠ .ok (.error e)

/-- `ith` returns the entry of the dense view of the projection. -/
def IthAgrees (I : Type) [Scalar K] [Basis B I K] [EnumerableBasis B I K] (b : B) : Prop :=
  ∀ (input : I) φ n i, Basis.project b input = .ok (.ok φ) → Space.dim b = .finite n → i < n →
    EnumerableBasis.ith b input i = .ok (.ok (value φ i))

/-- `ith` rejects exactly the out-of-range indices, with the index error. -/
def IthRejects (I : Type) [EnumerableBasis B I K] (b : B) : Prop :=
  ∀ (input : I) n i, Space.dim b = .finite n →
    (n ≤ i → EnumerableBasis.ith b input i = .ok (.error (Error.indexError i n))) ∧
    (i < n → ∀ e, EnumerableBasis.ith b input i ≠ .ok (.error e))

end

end Lfa.Spec

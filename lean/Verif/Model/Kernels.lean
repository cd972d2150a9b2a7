import Verif.Model.Grid

/-!
# Kernels and the kernel basis

`src/basis/kernels/{mod,stationary,rational_quadratic}.rs`, `src/basis/kernelised.rs`.
-/

namespace Lfa

/-- `Kernel<&[f64]>` — kernels/mod.rs:3-5. -/
class SliceKernel (κ : Type) (K : outParam Type) where
  kernel : κ → List K → List K → K

/-- `Kernel<f64>` — kernels/mod.rs:3-5; the implementations index `lengthscales[0]`. -/
class ScalarKernel (κ : Type) (K : outParam Type) where
  kernel : κ → K → K → P K

section Distance
variable {K : Type} [Scalar K]

/-- The scaled distance of the slice kernels — stationary.rs:41-48, rational_quadratic.rs:46-53:
`zip` stops at the shortest of the two points and the lengthscales. -/
def sliceDistance (lengthscales x y : List K) : K :=
  Scalar.sqrt
    ((List.zipWith (fun d l => d /. l) (List.zipWith (fun a b => a -. b) x y) lengthscales).foldl
      (fun acc z => acc +. z *. z) Scalar.zero)

/-- The scaled distance of the scalar kernels — stationary.rs:35, rational_quadratic.rs:40. -/
def scalarDistance (lengthscales : List K) (x y : K) : P K := do
  let l ← idx lengthscales 0
  .ok (Scalar.abs (x -. y) /. l)

end Distance

/-- The five invocations of `stationary_kernel!` — stationary.rs:60-106. -/
inductive StationaryKind where
  | exponential
  | matern32
  | matern52
  | expQuad
  | cosine
  deriving DecidableEq, Repr

/-- The struct generated by `stationary_kernel!` — stationary.rs:10-13; the kernel's name is the
type-level index `kind`. -/
structure Stationary (kind : StationaryKind) (K : Type) where
  variance : K
  lengthscales : List K

namespace Stationary
variable {K : Type} [Scalar K] {kind : StationaryKind}
open Scalar

/-- `non_ard` — stationary.rs:20-22. -/
def nonArd (variance lengthscale : K) : Stationary kind K := ⟨variance, [lengthscale]⟩

/-- `Default` — stationary.rs:27-31. -/
def default : Stationary kind K := nonArd one one

/-- The `$code` blocks — stationary.rs:65 (Exponential), 73-77 (Matern32), 85-89 (Matern52, whose
`sqrt_5` is `3.0.sqrt()`), 97 (ExpQuad), 105 (Cosine). -/
def kernelStationary (k : Stationary kind K) (r : K) : K :=
  match kind with
  | .exponential => k.variance *. exp (neg r)
  | .matern32 =>
    let sqrt_3 : K := sqrt (ofNat 3)
    k.variance *. (ofNat 1 +. sqrt_3 *. r) *. exp (neg sqrt_3 *. r)
  | .matern52 =>
    let sqrt_5 : K := sqrt (ofNat 3)
    k.variance *. (ofNat 1 +. sqrt_5 *. r +. ofNat 5 /. ofNat 3 *. r *. r) *. exp (neg sqrt_5 *. r)
  | .expQuad => k.variance *. exp (neg (sci 5 1) *. r *. r)
  | .cosine => k.variance *. cos r

/-- `Kernel<f64>` — stationary.rs:33-37. -/
instance : ScalarKernel (Stationary kind K) K :=
  ⟨fun k x y => do
    let r ← scalarDistance k.lengthscales x y
    .ok (k.kernelStationary r)⟩

/-- `Kernel<&[f64]>` — stationary.rs:39-50 (and `Kernel<&Vec<f64>>`, 52-56). -/
instance : SliceKernel (Stationary kind K) K :=
  ⟨fun k x y => k.kernelStationary (sliceDistance k.lengthscales x y)⟩

end Stationary

/-- `RationalQuadratic` — rational_quadratic.rs:7-12. -/
structure RationalQuadratic (K : Type) where
  variance : K
  lengthscales : List K
  power : K

namespace RationalQuadratic
variable {K : Type} [Scalar K]
open Scalar

/-- `RationalQuadratic::non_ard(power, variance, lengthscale)` — rational_quadratic.rs:23-25. -/
def nonArd (power variance lengthscale : K) : RationalQuadratic K :=
  ⟨variance, [lengthscale], power⟩

/-- `Default` — rational_quadratic.rs:32-36. -/
def default : RationalQuadratic K := nonArd one one (ofNat 2)

/-- `kernel_stationary` — rational_quadratic.rs:27-29. -/
def kernelStationary (k : RationalQuadratic K) (r : K) : K :=
  k.variance *. exp (neg k.power *. ln1p (r *. r /. ofNat 2))

/-- rational_quadratic.rs:38-42. -/
instance : ScalarKernel (RationalQuadratic K) K :=
  ⟨fun k x y => do
    let r ← scalarDistance k.lengthscales x y
    .ok (k.kernelStationary r)⟩

/-- rational_quadratic.rs:44-63. -/
instance : SliceKernel (RationalQuadratic K) K :=
  ⟨fun k x y => k.kernelStationary (sliceDistance k.lengthscales x y)⟩

end RationalQuadratic

/-! ## `kernelised.rs` -/

/-- `Prototype<Vec<f64>, κ>` — kernelised.rs:13-16. -/
structure Prototype (κ K : Type) where
  centroid : List K
  kernel : κ

/-- `Prototype::distance_from` — kernelised.rs:18-26. -/
def Prototype.distanceFrom {κ K : Type} [SliceKernel κ K] (p : Prototype κ K) (x : List K) : K :=
  SliceKernel.kernel p.kernel x p.centroid

/-- `KernelBasis<Vec<f64>, κ>` — kernelised.rs:35-40. -/
structure KernelBasis (κ K : Type) where
  prototypes : List (Prototype κ K)

namespace KernelBasis
variable {κ K : Type}

/-- `KernelBasis::homogeneous` — kernelised.rs:42-56. -/
def homogeneous (centroids : List (List K)) (kernel : κ) : KernelBasis κ K :=
  ⟨centroids.map fun centroid => { centroid, kernel }⟩

/-- The centroids of the grid constructors — kernelised.rs:63-67, 77-81, 91-95. -/
def gridCentroids (partitioning : List (Equipartition K)) : List (List K) :=
  multiCartesianProduct (partitioning.map Equipartition.centres)

/-- `exp_quad`, `matern_32`, `matern_52` — kernelised.rs:59-99 (`kind` selects the kernel). -/
def grid [Scalar K] (kind : StationaryKind) (partitioning : List (Equipartition K)) :
    KernelBasis (Stationary kind K) K :=
  homogeneous (gridCentroids partitioning)
    { variance := Scalar.one
      lengthscales := partitioning.map Equipartition.partitionWidth }

/-- `KernelBasis::exp_quad` — kernelised.rs:60-70. -/
def expQuad [Scalar K] (p : List (Equipartition K)) : KernelBasis (Stationary .expQuad K) K :=
  grid .expQuad p
/-- `KernelBasis::matern_32` — kernelised.rs:74-84. -/
def matern32 [Scalar K] (p : List (Equipartition K)) : KernelBasis (Stationary .matern32 K) K :=
  grid .matern32 p
/-- `KernelBasis::matern_52` — kernelised.rs:88-98. -/
def matern52 [Scalar K] (p : List (Equipartition K)) : KernelBasis (Stationary .matern52 K) K :=
  grid .matern52 p

/-- kernelised.rs:101-107. -/
instance : Space (KernelBasis κ K) := ⟨fun b => .finite b.prototypes.length⟩

/-- kernelised.rs:109-121. -/
instance [SliceKernel κ K] : Basis (KernelBasis κ K) (List K) K :=
  ⟨fun b input => .ok (.ok (.dense (b.prototypes.map fun p => p.distanceFrom input)))⟩

/-- kernelised.rs:123-134. -/
instance [SliceKernel κ K] : EnumerableBasis (KernelBasis κ K) (List K) K :=
  ⟨fun b input index =>
    match b.prototypes[index]? with
    | some p => .ok (.ok (p.distanceFrom input))
    | none => .ok (.error (Error.indexError index b.prototypes.length))⟩

end KernelBasis

end Lfa

import Verif.Model.Grid

/-!
# Integer overflow

The places where the crate computes with `usize` and `isize`, for both build profiles: with overflow checks an
overflowing operation panics (debug), without them it wraps around modulo `2^64` (release). Elsewhere in the model
`usize` is `Nat`, and `isize` arithmetic is that of the debug profile. Targets are 64-bit.
-/

namespace Lfa

/-- The `overflow-checks` setting of the build: on in `dev`, off in `release`. -/
inductive Profile where
  | debug
  | release

/-- A `usize` result: `+`, `*` on `usize`. -/
def usizeIn (p : Profile) (n : Nat) : P Nat :=
  if n < 2 ^ 64 then .ok n
  else match p with
    | .debug => .error .overflow
    | .release => .ok (n % 2 ^ 64)

/-- An `isize` result: `+`, `*` on `isize`. -/
def isizeIn (p : Profile) (x : Int) : P Int :=
  if isizeMin ≤ x ∧ x ≤ isizeMax then .ok x
  else match p with
    | .debug => .error .overflow
    | .release => .ok (Int.bmod x (2 ^ 64))

namespace Features
variable {K : Type} [Scalar K]

/-- The `for_each` of `stack` — features.rs:296-298. -/
def stackEntriesIn (p : Profile) (d : Nat) : HMap K → HMap K → P (HMap K)
  | m, [] => .ok m
  | m, e :: es => do
    let i ← usizeIn p (e.1 + d)
    stackEntriesIn p d (HMap.insert m i e.2) es

/-- `Features::stack` — features.rs:291-312. -/
def stackIn (p : Profile) (f₁ f₂ : Features K) : P (Features K) :=
  match f₁, f₂ with
  | .sparse sa₁, .sparse sa₂ => do
    let activations ← stackEntriesIn p sa₁.dim sa₁.activations sa₂.activations
    let dim ← usizeIn p (sa₁.dim + sa₂.dim)
    .ok (.sparse { dim, activations })
  | f₁, f₂ => f₁.stack f₂

/-- `From<SparseActivations> for Features` — features.rs:764-773. -/
def ofSparseActivationsIn (p : Profile) (sa : SparseActivations K) : P (Features K) := do
  let m ← unwrap (maxIndex (sa.activations.map Prod.fst))
  let n ← usizeIn p (m + 1)
  .ok (.sparse { dim := n, activations := sa.activations })

/-- `From<Vec<IndexT>> for Features` — features.rs:775-784. -/
def ofIndicesIn (p : Profile) (indices : List Nat) : P (Features K) := do
  let m ← unwrap (maxIndex indices)
  let n ← usizeIn p (m + 1)
  .ok (.sparse { dim := n, activations := HMap.collect (indices.map fun i => (i, Scalar.one)) })

end Features

namespace Stack
variable {B₁ B₂ I K : Type} [Scalar K] [Space B₁] [Space B₂]

/-- `dim` of a stack — stack.rs:24; `Dim + Dim` (spaces) adds `usize`. -/
def dimIn (p : Profile) (s : Stack B₁ B₂) : P Dim :=
  match Space.dim s.b₁, Space.dim s.b₂ with
  | .finite a, .finite b => do
    let n ← usizeIn p (a + b)
    .ok (.finite n)
  | _, _ => .ok .infinite

/-- `project` of a stack — stack.rs:35-40. The parts are projected as in the model; they may themselves be
`projectIn` of another stack. -/
def projectIn (p : Profile) (project₁ project₂ : I → P (Result (Features K))) (input : I) :
    P (Result (Features K)) := do
  let r₁ ← project₁ input
  r₁.andThenP fun f₁ => do
    let r₂ ← project₂ input
    r₂.mapP fun f₂ => f₁.stackIn p f₂

/-- `ith` of a stack — stack.rs:50-63. -/
def ithIn [EnumerableBasis B₁ I K] [EnumerableBasis B₂ I K] (p : Profile) (s : Stack B₁ B₂) (input : I)
    (index : Nat) : P (Result K) := do
  let n₁ ← (Space.dim s.b₁).toUsize
  let n₂ ← (Space.dim s.b₂).toUsize
  let n₁₂ ← usizeIn p (n₁ + n₂)
  if index < n₁ then EnumerableBasis.ith s.b₁ input index
  else if index < n₁₂ then EnumerableBasis.ith s.b₂ input (index - n₁)
  else .ok (.error (Error.indexError index n₁₂))

end Stack

namespace UniformGrid
variable {K : Type}

/-- `card` of a product space (spaces): the product of the partition counts, starting from 1. -/
def cardIn (p : Profile) : List (Equipartition K) → Nat → P Nat
  | [], acc => .ok acc
  | d :: ds, acc => do
    let acc ← usizeIn p (acc * d.nPartitions)
    cardIn p ds acc

/-- `UniformGrid::new` — uniform_grid.rs:18-25. -/
def newIn (p : Profile) (featureSpace : List (Equipartition K)) : P (UniformGrid K) := do
  let nFeatures ← cardIn p featureSpace 1
  .ok { nFeatures, featureSpace }

/-- The fold of `hash` — uniform_grid.rs:34-35: the product, then the sum. -/
def hashFoldIn (p : Profile) : List (Equipartition K) → List K → Nat → P Nat
  | d :: ds, v :: vs, acc => do
    let m ← usizeIn p (d.nPartitions * acc)
    let acc ← usizeIn p (d.mapOnto v + m)
    hashFoldIn p ds vs acc
  | _, _, acc => .ok acc

/-- `UniformGrid::hash` — uniform_grid.rs:27-36. -/
def hashIn (p : Profile) (g : UniformGrid K) (input : List K) : P Nat :=
  match g.featureSpace with
  | [] => .error .unwrapFailed
  | d :: ds =>
    match input with
    | [] => .error .unwrapFailed
    | v :: vs => hashFoldIn p ds vs (d.mapOnto v)

/-- `project` — uniform_grid.rs:47-58. -/
def projectIn [Scalar K] (p : Profile) (g : UniformGrid K) (input : List K) : P (Result (Features K)) := do
  let activeBin ← g.hashIn p input
  .ok (.ok (.sparse { dim := g.nFeatures, activations := HMap.collect [(activeBin, Scalar.one)] }))

end UniformGrid

namespace TileCoding
variable {K H : Type} [Scalar K] [BuildHasher H]

/-- The loop over the coordinates — tile_coding.rs:28-32. Division checks for zero and for `MIN / -1` in every
profile. -/
def writeCoordsIn (p : Profile) (nTilings : Nat) (t tx2 : Int) :
    Nat → List Int → BuildHasher.σ H → P (BuildHasher.σ H)
  | _, [], h => .ok h
  | i, s :: ss, h => do
    let m ← isizeIn p (asIsize i * tx2)
    let offset ← isizeIn p (t + m)
    let so ← isizeIn p (s + offset)
    let q ← isizeDiv so (asIsize nTilings)
    writeCoordsIn p nTilings t tx2 (i + 1) ss (BuildHasher.writeIsize (H := H) h q)

/-- The closure body for tiling `t` — tile_coding.rs:22-35. -/
def tilingIn (p : Profile) (state : List Int) (nTilings memorySize : Nat) (h : BuildHasher.σ H) (t : Nat) :
    P (BuildHasher.σ H × Nat) := do
  let t' := asIsize t
  let tx2 ← isizeIn p (t' * 2)
  let h := BuildHasher.writeIsize (H := H) h t'
  let h ← writeCoordsIn (H := H) p nTilings t' tx2 0 state h
  if memorySize = 0 then .error .remByZero
  else .ok (h, BuildHasher.finish (H := H) h % memorySize)

/-- Exhaust the iterator — tile_coding.rs:15-36. -/
def hashStateIn (p : Profile) (state : List Int) (nTilings memorySize : Nat) :
    List Nat → BuildHasher.σ H → P (List Nat)
  | [], _ => .ok []
  | t :: ts, h => do
    let (h, i) ← tilingIn (H := H) p state nTilings memorySize h t
    let is ← hashStateIn p state nTilings memorySize ts h
    .ok (i :: is)

/-- `project` — tile_coding.rs:70-89. -/
def projectIn (p : Profile) (b : TileCoding H) (input : List K) : P (Result (Features K)) := do
  let state := binState input b.nTilings
  let hash ← hashStateIn (H := H) p state b.nTilings b.memorySize (List.range b.nTilings)
    (BuildHasher.build b.hasherBuilder)
  .ok (.ok (.sparse
    { dim := b.memorySize
      activations := HMap.collect (hash.map fun i => (i, Scalar.one)) }))

end TileCoding

end Lfa

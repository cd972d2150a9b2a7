import Verif.Model.Poly

/-!
# Tile coding and uniform grids

`src/basis/tile_coding.rs`, `src/basis/uniform_grid.rs`.
-/

namespace Lfa

/-! ## 64-bit signed arithmetic (`isize`), debug profile: overflow panics -/

/-- A value produced by `isize` arithmetic: panics outside the range (debug profile). -/
def checkIsize (x : Int) : P Int :=
  if isizeMin ≤ x ∧ x ≤ isizeMax then .ok x else .error .overflow

/-- `n as isize` for a `usize` (wraps modulo 2^64). -/
def asIsize (n : Nat) : Int := Int.bmod n (2 ^ 64)

/-- `a + b` on `isize`. -/
def isizeAdd (a b : Int) : P Int := checkIsize (a + b)
/-- `a * b` on `isize`. -/
def isizeMul (a b : Int) : P Int := checkIsize (a * b)
/-- `a / b` on `isize`: truncates towards zero. -/
def isizeDiv (a b : Int) : P Int :=
  if b = 0 then .error .remByZero else checkIsize (Int.tdiv a b)

/-! ## `TileCoding` — tile_coding.rs -/

/-- `BuildHasher` + `Hasher` (std), restricted to what the crate calls: `build_hasher`,
`write_isize`, `finish`. Every call of `build_hasher` yields the same initial state. -/
class BuildHasher (H : Type) where
  σ : Type
  build : H → σ
  writeIsize : σ → Int → σ
  /-- the `u64` returned by `finish` -/
  finish : σ → Nat

/-- `TileCoding<H>` — tile_coding.rs:45-60. -/
structure TileCoding (H : Type) where
  hasherBuilder : H
  nTilings : Nat
  memorySize : Nat

namespace TileCoding
variable {K H : Type} [Scalar K] [BuildHasher H]

/-- `bin_state` — tile_coding.rs:7-13. -/
def binState (input : List K) (nTilings : Nat) : List Int :=
  input.map fun f => Scalar.floorIsize (f *. Scalar.ofNat nTilings)

/-- The inner `for (i, s) in state.iter().enumerate()` loop — tile_coding.rs:28-32, started at
coordinate `i`. -/
def writeCoords (nTilings : Nat) (t tx2 : Int) :
    Nat → List Int → BuildHasher.σ H → P (BuildHasher.σ H)
  | _, [], h => .ok h
  | i, s :: ss, h => do
    let m ← isizeMul (asIsize i) tx2
    let offset ← isizeAdd t m
    let so ← isizeAdd s offset
    let q ← isizeDiv so (asIsize nTilings)
    writeCoords nTilings t tx2 (i + 1) ss (BuildHasher.writeIsize (H := H) h q)

/-- The closure body for tiling `t` — tile_coding.rs:22-35: feed the hasher (which is *not* reset
between tilings) and reduce its value modulo the memory size. -/
def tiling (state : List Int) (nTilings memorySize : Nat) (h : BuildHasher.σ H) (t : Nat) :
    P (BuildHasher.σ H × Nat) := do
  let t' := asIsize t
  let tx2 ← isizeMul t' 2
  let h := BuildHasher.writeIsize (H := H) h t'
  let h ← writeCoords (H := H) nTilings t' tx2 0 state h
  if memorySize = 0 then .error .remByZero
  else .ok (h, BuildHasher.finish (H := H) h % memorySize)

/-- Exhaust the iterator `hash_state` over the tilings `ts` — tile_coding.rs:15-36. -/
def hashState (state : List Int) (nTilings memorySize : Nat) :
    List Nat → BuildHasher.σ H → P (List Nat)
  | [], _ => .ok []
  | t :: ts, h => do
    let (h, i) ← tiling (H := H) state nTilings memorySize h t
    let is ← hashState state nTilings memorySize ts h
    .ok (i :: is)

/-- `hash.any(|f| index == f)` — tile_coding.rs:106: stops at the first hit. -/
def hashAny (index : Nat) (state : List Int) (nTilings memorySize : Nat) :
    List Nat → BuildHasher.σ H → P Bool
  | [], _ => .ok false
  | t :: ts, h => do
    let (h, i) ← tiling (H := H) state nTilings memorySize h t
    if index = i then .ok true else hashAny index state nTilings memorySize ts h

end TileCoding

section
variable {K H : Type} [Scalar K] [BuildHasher H]

/-- tile_coding.rs:62-68. -/
instance : Space (TileCoding H) := ⟨fun b => .finite b.memorySize⟩

/-- tile_coding.rs:70-89. -/
instance : Basis (TileCoding H) (List K) K :=
  ⟨fun b input => do
    let state := TileCoding.binState input b.nTilings
    let hash ← TileCoding.hashState (H := H) state b.nTilings b.memorySize (List.range b.nTilings)
      (BuildHasher.build b.hasherBuilder)
    .ok (.ok (.sparse
      { dim := b.memorySize
        activations := HMap.collect (hash.map fun i => (i, Scalar.one)) }))⟩

/-- tile_coding.rs:91-109. -/
instance : EnumerableBasis (TileCoding H) (List K) K :=
  ⟨fun b input index => checkIndex index b.memorySize do
    let state := TileCoding.binState input b.nTilings
    let hit ← TileCoding.hashAny (H := H) index state b.nTilings b.memorySize
      (List.range b.nTilings) (BuildHasher.build b.hasherBuilder)
    .ok (.ok (if hit then Scalar.one else Scalar.zero))⟩

end

/-! ## `UniformGrid` — uniform_grid.rs -/

/-- `spaces::Equipartition`, as the interface the crate uses (`n_partitions`, `partition_width`,
`centres`, `map_onto`). Its contract is `Equipartition.Lawful`. -/
structure Equipartition (K : Type) where
  nPartitions : Nat
  partitionWidth : K
  centres : List K
  mapOnto : K → Nat

/-- The contract of `spaces::Equipartition`: every value is assigned one of the `n_partitions ≥ 1`
partitions, there is one centre per partition and the `i`-th centre lies in partition `i`. -/
structure Equipartition.Lawful {K : Type} (d : Equipartition K) : Prop where
  pos : 0 < d.nPartitions
  mapOnto_lt : ∀ v, d.mapOnto v < d.nPartitions
  centres_length : d.centres.length = d.nPartitions
  mapOnto_centre : ∀ i c, d.centres[i]? = some c → d.mapOnto c = i

/-- `UniformGrid` — uniform_grid.rs:12-15. -/
structure UniformGrid (K : Type) where
  nFeatures : Nat
  featureSpace : List (Equipartition K)

namespace UniformGrid
variable {K : Type}

/-- `UniformGrid::new` — uniform_grid.rs:18-25: `card()` of a product of equipartitions is the
product of the partition counts. -/
def new (featureSpace : List (Equipartition K)) : UniformGrid K :=
  { nFeatures := (featureSpace.map Equipartition.nPartitions).foldl (· * ·) 1
    featureSpace }

/-- The fold of `UniformGrid::hash` — uniform_grid.rs:34-35. -/
def hashFold : List (Equipartition K) → List K → Nat → Nat
  | d :: ds, v :: vs, acc => hashFold ds vs (d.mapOnto v + d.nPartitions * acc)
  | _, _, acc => acc

/-- `UniformGrid::hash` — uniform_grid.rs:27-36. -/
def hash (g : UniformGrid K) (input : List K) : P Nat :=
  match g.featureSpace with
  | [] => .error .unwrapFailed
  | d :: ds =>
    match input with
    | [] => .error .unwrapFailed
    | v :: vs => .ok (hashFold ds vs (d.mapOnto v))

end UniformGrid

section
variable {K : Type} [Scalar K]

/-- uniform_grid.rs:39-45. -/
instance : Space (UniformGrid K) := ⟨fun g => .finite g.nFeatures⟩

/-- uniform_grid.rs:47-58. -/
instance : Basis (UniformGrid K) (List K) K :=
  ⟨fun g input => do
    let activeBin ← g.hash input
    .ok (.ok (.sparse
      { dim := g.nFeatures
        activations := HMap.collect [(activeBin, Scalar.one)] }))⟩

/-- uniform_grid.rs:60-68. -/
instance : EnumerableBasis (UniformGrid K) (List K) K :=
  ⟨fun g input index => checkIndex index g.nFeatures do
    let h ← g.hash input
    .ok (.ok (if h = index then Scalar.one else Scalar.zero))⟩

end

end Lfa

import Verif.Model.Grid
import Mathlib.Algebra.Order.Floor.Semiring

/-!
# Specification of tile coding and uniform grids
-/

namespace Lfa.Spec

open Lfa

/-- The cell of width `1/n` a coordinate falls in, as a (saturated) 64-bit integer. -/
def cell {K : Type} [Scalar K] (n : Nat) (x : K) : Int := Scalar.floorIsize (x *. Scalar.ofNat n)

/-- The tile of tiling `t` (out of `n`) that contains cell `s` of coordinate `i`: the cells are
shifted by `t + 2 t i` and grouped by `n`, rounding towards zero. -/
def tile (n t i : Nat) (s : Int) : Int := Int.tdiv (s + (t + 2 * t * i)) n

/-- The last tiling's shift, or a shifted cell, leaves the 64-bit range. -/
def TileOverflow (n : Nat) (cells : List Int) : Prop :=
  ∃ (i : Nat) (s : Int), cells[i]? = some s ∧
    (isizeMax < (2 * i + 1) * ((n : Int) - 1) ∨ isizeMax < s + (2 * i + 1) * ((n : Int) - 1))

/-- What a scalar's saturating cast guarantees. -/
def FloorInRange (K : Type) [Scalar K] : Prop :=
  ∀ x : K, isizeMin ≤ Scalar.floorIsize x ∧ Scalar.floorIsize x ≤ isizeMax

/-- What tiling `t` feeds the hasher: its number, then the tile of every coordinate. -/
def tilingKey (n t : Nat) (cells : List Int) : List Int :=
  (t : Int) :: cells.mapIdx fun i s => tile n t i s

/-- The feature index of tiling `t`: the hasher has been fed the keys of tilings `0, …, t`. -/
def tileIndex {H : Type} [BuildHasher H] (b : H) (n m : Nat) (cells : List Int) (t : Nat) : Nat :=
  BuildHasher.finish (H := H)
    (((List.range (t + 1)).flatMap fun t => tilingKey n t cells).foldl
      (BuildHasher.writeIsize (H := H)) (BuildHasher.build b)) % m

/-- One step of the mixed-radix index computation. -/
def radixStep {K : Type} (acc : Nat) (dv : Equipartition K × K) : Nat :=
  dv.1.mapOnto dv.2 + dv.1.nPartitions * acc

/-- The partition `[lb, ub]` into `n` equal parts over exact reals, as documented by `spaces`:
values are clipped, the upper bound belongs to the last part, centres are midpoints. -/
noncomputable def ofBounds (lb ub : ℝ) (n : Nat) : Equipartition ℝ where
  nPartitions := n
  partitionWidth := (ub - lb) / n
  centres := (List.range n).map fun i : Nat => lb + (ub - lb) / n * ((i : ℝ) + 1 / 2)
  mapOnto v := min (n - 1) ⌊n * ((max lb (min ub v) - lb) / (ub - lb))⌋₊

end Lfa.Spec

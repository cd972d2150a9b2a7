import Verif.Spec.Grid
import Verif.Model.Overflow

/-!
# Specification of tile coding with wrapping arithmetic
-/

namespace Lfa.Spec

open Lfa

/-- The tile of tiling `t` (out of `n`) for cell `s` of coordinate `i` if the shifted cell wraps around. -/
def wrappedTile (n t i : Nat) (s : Int) : Int := Int.tdiv (Int.bmod (s + (t + 2 * t * i)) (2 ^ 64)) n

/-- What tiling `t` feeds the hasher: its number, then the tile of every coordinate. -/
def wrappedKey (n t : Nat) (cells : List Int) : List Int :=
  (t : Int) :: cells.mapIdx fun i s => wrappedTile n t i s

/-- The feature index of tiling `t`: the hasher has been fed the keys of tilings `0, …, t`. -/
def wrappedIndex {H : Type} [BuildHasher H] (b : H) (n m : Nat) (cells : List Int) (t : Nat) : Nat :=
  BuildHasher.finish (H := H)
    (((List.range (t + 1)).flatMap fun t => wrappedKey n t cells).foldl
      (BuildHasher.writeIsize (H := H)) (BuildHasher.build b)) % m

end Lfa.Spec

import Verif.Model.Kernels
import Verif.Model.Ifdd
import Verif.Model.Lfa
import Verif.Model.Utils

/-!
# The crate's own tests, replayed on the model

Every `#[test]` and every doctest of `/repo/src` with literal inputs, run on the model over Lean's `Float`
while this file is compiled. These are tests of the *model*, not proofs of properties: they check that the
definitions compute what the crate's authors saw the code compute. No theorem depends on them.

`Float` is IEEE binary64; `dot` and `sum` add from the left, as `ndarray` does for fewer than eight elements.
-/

namespace Lfa.Tests

open Features

/-- `assert_eq!` on features. -/
def sameFeatures (a b : P (Features Float)) : Bool :=
  match a, b with
  | .ok a, .ok b => match Features.eq a b with
    | .ok r => r
    | _ => false
  | _, _ => false

/-- `assert_eq!` on numbers. -/
def sameNumber (a : P Float) (b : Float) : Bool :=
  match a with
  | .ok a => a == b
  | _ => false

def sameNumbers (a : P (List Float)) (b : List Float) : Bool :=
  match a with
  | .ok a => a.length == b.length && (a.zip b).all fun p => p.1 == p.2
  | _ => false

/-- `project(..).unwrap()`. -/
def projected {B I : Type} [Space B] [Basis B I Float] (b : B) (x : I) : P (Features Float) :=
  match Basis.project b x with
  | .ok (.ok φ) => .ok φ
  | .ok (.error _) => .error .unwrapFailed
  | .error p => .error p

/-- `project(..).unwrap().into_dense()`. -/
def dense {B I : Type} [Space B] [Basis B I Float] (b : B) (x : I) : List Float :=
  match projected b x with
  | .ok φ => match φ.intoDense with
    | .ok l => l
    | _ => []
  | _ => []

def size {B : Type} [Space B] (b : B) : Nat :=
  match Space.dim b with
  | .finite n => n
  | _ => 0

/-- `assert_features!` — macros.rs:3-10, with `utils::compare_floats`; also compares the lengths. -/
def features {B I : Type} [Space B] [Basis B I Float] (b : B) (tol : Float) (cases : List (I × List Float)) : Bool :=
  cases.all fun c => compareFloats (dense b c.1) c.2 tol && (dense b c.1).length == c.2.length

/-! ## features.rs:785-880 -/

section
def s0 : Features Float := unitary 11 [0, 5, 10]
def s1 := s0.remove 1
def s2 := s1.remove 5
def ones (n : Nat) : List Float := List.replicate n 1.0
def zeros (n : Nat) : List Float := List.replicate n 0.0

/-! `test_sparse` -/
#guard s0.isSparse && !s0.isDense && s0.nActive == 3
#guard sameFeatures (.ok s1) (.ok (unitary 11 [0, 5, 10]))
#guard sameNumber (s1.dot (ones 11)) 3.0 && sameNumber (s1.dot (zeros 11)) 0.0
#guard sameFeatures (.ok s2) (.ok (unitary 11 [0, 10]))
#guard sameNumber (s2.dot (ones 11)) 2.0 && sameNumber (s2.dot (zeros 11)) 0.0
#guard sameNumber (s2.index 0) 1.0 && sameNumber (s2.index 1) 0.0
#guard sameNumber (s2.index 5) 0.0 && sameNumber (s2.index 10) 1.0

def d0 : Features Float := mkDense [0.0, 0.1, 0.2, 0.1, 0.0, 0.6]
def d1 := d0.remove 10
def d2 := d1.remove 1

/-! `test_dense` -/
#guard d0.isDense && !d0.isSparse && d0.nActive == 4
#guard sameFeatures (.ok d1) (.ok (mkDense [0.0, 0.1, 0.2, 0.1, 0.0, 0.6]))
#guard sameNumber (d1.dot (ones 6)) 1.0 && sameNumber (d1.dot (zeros 6)) 0.0
#guard sameFeatures (.ok d2) (.ok (mkDense [0.0, 0.0, 0.2, 0.1, 0.0, 0.6]))
#guard sameNumber (d2.dot (zeros 6)) 0.0
#guard sameNumber (d2.dot (ones 6)) 0.9
#guard (List.range 6).all fun i => sameNumber (d2.index i) ([0.0, 0.0, 0.2, 0.1, 0.0, 0.6].getD i 7.0)

/-! `test_map_inplace` -/
def m1 : P (Features Float) := s0.mapInplace fun a => a
def m2 : P (Features Float) := do (← m1).mapInplace fun a => a * 2.0
def m3 : P (Features Float) := do (← m2).mapInplace fun _ => 1.0
def m4 : P (Features Float) := do (← m3).mapInplace fun a => a

def holds (φ : P (Features Float)) (p : Features Float → Bool) : Bool :=
  match φ with
  | .ok φ => p φ
  | _ => false

#guard holds m1 fun f => f.isSparse && f.sum == 3.0
#guard holds m2 fun f => f.isSparse && f.sum == 6.0
#guard holds m3 fun f => f.isDense && f.sum == 11.0
#guard holds m4 fun f => f.isDense && f.sum == 11.0

/-! `test_merge_inplace` -/
def merged : P (Features Float) := s0.mergeInplace d0 (· + ·)

#guard holds merged fun f => f.isDense
#guard holds merged fun f => (List.range 11).all fun i =>
  sameNumber (f.index i) ([1.0, 0.1, 0.2, 0.1, 0.0, 1.6, 0.0, 0.0, 0.0, 0.0, 1.0].getD i 7.0)

/-! Doctests of `remove`, `into_dense`, `stack`, `dot` and `matmul`. -/
#guard sameFeatures (.ok ((mkDense [0.0, 0.2, 0.4, 0.4]).remove 1)) (.ok (mkDense [0.0, 0.0, 0.4, 0.4]))
#guard sameFeatures (.ok ((unitary 16 [0, 10, 15]).remove 10)) (ofIndices [0, 15])
#guard sameNumbers ((unitary 5 [0, 2, 1, 4]).intoDense) [1.0, 1.0, 1.0, 0.0, 1.0]
#guard sameFeatures (stack (mkDense [0.0, 1.0]) (mkDense [1.0, 0.0, 1.0])) (.ok (mkDense [0.0, 1.0, 1.0, 0.0, 1.0]))
#guard sameNumber ((mkDense [0.0, 0.2, 0.8]).dot [2.0, 5.0, 1.0]) 1.8
#guard sameNumber (do (← ofIndices [0, 1]).dot [2.0, 5.0, 1.0]) 7.0

def columns : List (List Float) := [[2.0, 1.0, 1.0], [5.0, 3.0, 3.0]]

#guard match (mkDense [0.1, 0.2, 0.7]).matmul columns with
  | .ok l => compareFloats l [1.1, 3.2] 1e-7
  | _ => false
#guard sameNumbers (do (← ofIndices [0, 1]).matmul columns) [3.0, 8.0]
end

/-! ## basis/mod.rs:30-39 and polynomial/mod.rs:14-37 -/

#guard sameFeatures (projected (Bias.unit : Bias Float) [0.0]) (.ok (mkDense [1.0]))

#guard [-1.0, -0.5, 0.0, 0.5, 1.0].all fun x =>
  sameFeatures (projected (Polynomial.new 1 1) [x]) (.ok (mkDense [x]))
#guard [(-1.0, 1.0), (-0.5, 0.25), (0.0, 0.0), (0.5, 0.25), (1.0, 1.0)].all fun (x, y) =>
  sameFeatures (projected (Polynomial.new 1 2) [x]) (.ok (mkDense [x, y]))

/-! ## basis/stack.rs:57-120 -/

section
def inputs : List (List Float) := [[0.0], [0.0, 1.0], [-1.0, 1.0]]
def stack1 : Stack (FixedDense Float) (FixedDense Float) := ⟨⟨zeros 10⟩, ⟨ones 10⟩⟩
def stack2 : Stack (FixedSparse Float) (FixedSparse Float) := ⟨.mk' 10 [5], .mk' 10 [0]⟩
def stack3 : Stack (FixedDense Float) (FixedSparse Float) := ⟨⟨ones 10⟩, .mk' 10 [0]⟩

#guard size stack1 == 20 && size stack2 == 20 && size stack3 == 20
#guard inputs.all fun x => sameFeatures (projected stack1 x) (.ok (mkDense (zeros 10 ++ ones 10)))
#guard inputs.all fun x => sameFeatures (projected stack2 x) (.ok (unitary 20 [5, 10]))
#guard inputs.all fun x => sameFeatures (projected stack3 x) (.ok (mkDense (ones 11 ++ zeros 9)))
end

/-! ## basis/fourier.rs:97-190 -/

section
def fourier1 : Fourier Float := Fourier.new 1 [(0.0, 1.0)]
def fourier2 : Fourier Float := Fourier.new 2 [(0.0, 1.0)]
def fourier12 : Fourier Float := Fourier.new 1 [(0.0, 1.0), (5.0, 6.0)]
def fourier22 : Fourier Float := Fourier.new 2 [(0.0, 1.0), (5.0, 6.0)]

#guard [1, 2, 3, 4, 5].all fun n => size (Fourier.new n [((0.0 : Float), (1.0 : Float))]) == n
#guard features fourier1 1e-6 [([-2.0], [1.0]), ([2.0], [1.0]), ([-1.0], [-1.0]), ([3.0], [-1.0])]
#guard features fourier1 1e-6 [([0.0], [1.0]), ([1.0 / 3.0], [0.5]), ([0.5], [0.0]), ([2.0 / 3.0], [-0.5]),
  ([1.0], [-1.0])]
#guard features fourier2 1e-6 [([0.0], [1.0, 1.0]), ([1.0 / 3.0], [0.5, -0.5]), ([0.5], [0.0, -1.0]),
  ([2.0 / 3.0], [-0.5, -0.5]), ([1.0], [-1.0, 1.0])]
#guard features fourier12 1e-6 [([0.0, 5.0], [1.0, 1.0, 1.0]), ([0.5, 5.0], [1.0, 0.0, 0.0]),
  ([0.0, 5.5], [0.0, 1.0, 0.0]), ([0.5, 5.5], [0.0, 0.0, -1.0]), ([1.0, 5.5], [0.0, -1.0, 0.0]),
  ([0.5, 6.0], [-1.0, 0.0, 0.0]), ([1.0, 6.0], [-1.0, -1.0, 1.0])]
#guard features fourier22 1e-6 [([0.0, 5.0], ones 8), ([0.5, 5.0], [1.0, 1.0, 0.0, 0.0, 0.0, -1.0, -1.0, -1.0]),
  ([0.0, 5.5], [0.0, -1.0, 1.0, 0.0, -1.0, 1.0, 0.0, -1.0]),
  ([0.5, 5.5], [0.0, -1.0, 0.0, -1.0, 0.0, -1.0, 0.0, 1.0]),
  ([0.5, 6.0], [-1.0, 1.0, 0.0, 0.0, 0.0, -1.0, 1.0, -1.0]),
  ([1.0, 6.0], [-1.0, 1.0, -1.0, 1.0, -1.0, 1.0, -1.0, 1.0])]
end

/-! ## basis/kernelised.rs:120-175 -/

section
def net (centroids : List (List Float)) (ls : List Float) : KernelBasis (Stationary .expQuad Float) Float :=
  KernelBasis.homogeneous centroids ⟨1.0, ls⟩
def net1 (cs : List Float) (l : Float) := net (cs.map fun c => [c]) [l]

#guard size (net1 [0.0] 0.25) == 1 && size (net1 [0.0, 0.5, 1.0] 0.25) == 3
#guard size (net1 (zeros 10) 0.25) == 10 && size (net1 (zeros 100) 0.25) == 100
#guard features (net1 [0.0, 0.5, 1.0] 0.25) 1e-6 [([0.25], [0.6065307, 0.6065307, 0.0111090])]
#guard features (net [[0.0, -10.0], [0.5, -8.0], [1.0, -6.0]] [0.25, 2.0]) 1e-6
  [([0.67, -7.0], [0.0089491, 0.7003325, 0.369280])]
end

/-! ## basis/tile_coding.rs:109-130 -/

#guard [([0.0, 0.0], [0, 0]), ([0.99, 0.99], [15, 15]), ([1.0, 1.0], [16, 16]), ([0.0, 1.0], [0, 16]),
  ([-1.0, -1.0], [-16, -16]), ([0.0, 0.5], [0, 8]), ([0.5, 0.0], [8, 0]), ([0.5, 0.5], [8, 8])].all
  fun (x, z) => TileCoding.binState (x : List Float) 16 == z

/-! ## basis/uniform_grid.rs:60-150 -/

section
/-- `Equipartition::new(0.0, 10.0, 10)`. -/
def tenths : Equipartition Float :=
  ⟨10, 1.0, (List.range 10).map fun i => Float.ofNat i + 0.5, fun x => min 9 (floatFloorIsize x).toNat⟩

def cell (g : UniformGrid Float) (n : Nat) (x : List Float) (active : Nat) : Bool :=
  holds (projected g x) fun f => f.nFeatures == n && f.nActive == 1 &&
    (match f.uget active with | .ok (some a) => a > 0.0 | _ => false) &&
    sameNumbers f.intoDense ((zeros n).set active 1.0)

def digits : List Nat := List.range 10

#guard size (UniformGrid.new [tenths]) == 10 && digits.all fun i => cell (.new [tenths]) 10 [Float.ofNat i] i
#guard size (UniformGrid.new [tenths, tenths]) == 100 && digits.all fun i => digits.all fun j =>
  cell (.new [tenths, tenths]) 100 [Float.ofNat i, Float.ofNat j] (i * 10 + j)
#guard size (UniformGrid.new [tenths, tenths, tenths]) == 1000 && digits.all fun i => digits.all fun j =>
  digits.all fun k => cell (.new [tenths, tenths, tenths]) 1000 [Float.ofNat i, Float.ofNat j, Float.ofNat k]
    (i * 100 + j * 10 + k)
end

/-! ## basis/ifdd.rs:205-275 (not compiled in the crate) -/

section
/-- `SimpleBasis`: inputs are rounded to indices below 5. -/
def simple : Closure (List Nat) Float := ⟨5, fun is => .ok (.ok (unitary 5 (is.map (min 4))))⟩

abbrev Discovery := P (Result (List (Nat × Finset Nat) × IFDD (Closure (List Nat) Float) Float))

def discover0 : Discovery := do .ok (.ok ([], ← IFDD.new simple 10.0))

def andDiscover (d : Discovery) (x : List Nat) (e : Float) : Discovery :=
  match d with
  | .ok (.ok (_, s)) => s.discover x e
  | d => d

/-- The features found by the last call, and all features. -/
def found (d : Discovery) : List (Nat × Finset Nat) × List (Nat × Finset Nat) :=
  match d with
  | .ok (.ok (m, s)) => (m, s.features.map fun f => (f.index, f.parents))
  | _ => ([], [])

def discover1 := andDiscover discover0 [0, 4] 10.0
def discover2 := andDiscover discover1 [0, 3] 5.0
def discover3 := andDiscover discover2 [0, 3] 5.0

#guard (found discover1).1 == [(5, {0, 4})] && (found discover1).2[5]? == some (5, {0, 4})
#guard (found discover2).1 == [] && (found discover2).2.length == 6
#guard (found discover3).1 == [(6, {0, 3})] && (found discover3).2[6]? == some (6, {0, 3})
end

end Lfa.Tests

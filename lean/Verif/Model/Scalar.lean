import Mathlib.Analysis.Real.Sqrt
import Mathlib.Analysis.SpecialFunctions.Trigonometric.Basic
import Mathlib.Analysis.SpecialFunctions.Log.Basic
import Mathlib.Algebra.Order.Floor.Ring
import Mathlib.Algebra.Order.Archimedean.Real.Basic

/-!
# Scalars

The crate computes with `f64`.  `Scalar K` collects the operations it uses, **without any law**:
a theorem proved for every `[Scalar K]` therefore holds for IEEE doubles, with rounding, NaN and
infinities.  Three instances:

* `ℝ`      – exact arithmetic, used for the arithmetic properties;
* `XReal`  – exact arithmetic plus `NaN`, `+∞`, `-∞` with IEEE's special-value rules;
* `Float`  – Lean's IEEE doubles, which makes the model executable (used for sanity tests only).
-/

namespace Lfa

/-- The `f64` operations used by `/repo/src` (`ActivationT = f64`, features.rs:80), plus the two
`ndarray` reductions (`dot`, `sum`) whose summation order the crate does not control. -/
class Scalar (K : Type) where
  /-- `a + b` -/
  add : K → K → K
  /-- `a - b` -/
  sub : K → K → K
  /-- `a * b` -/
  mul : K → K → K
  /-- `a / b` -/
  div : K → K → K
  /-- `-a` -/
  neg : K → K
  /-- `f64::abs` -/
  abs : K → K
  /-- `f64::sqrt` -/
  sqrt : K → K
  /-- `f64::exp` -/
  exp : K → K
  /-- `f64::cos` -/
  cos : K → K
  /-- `f64::ln_1p` -/
  ln1p : K → K
  /-- `a < b` (false when either is NaN) -/
  lt : K → K → Bool
  /-- `a == b` (false when either is NaN) -/
  beq : K → K → Bool
  /-- `f64::max` -/
  max : K → K → K
  /-- `f64::powi` with a non-negative exponent -/
  powi : K → Nat → K
  /-- `n as f64` -/
  ofNat : Nat → K
  /-- the literal `m * 10^(-e)`, e.g. `1e-7 = sci 1 7` -/
  sci : Nat → Nat → K
  /-- `std::f64::consts::PI` -/
  pi : K
  /-- `x.floor() as isize` : saturating cast, NaN to 0 -/
  floorIsize : K → Int
  /-- `ndarray` inner product of two equally long 1-d arrays (after its length check) -/
  dot : List K → List K → K
  /-- `ndarray`'s `ArrayBase::sum` -/
  sum : List K → K

@[inherit_doc] infixl:65 " +. " => Scalar.add
@[inherit_doc] infixl:65 " -. " => Scalar.sub
@[inherit_doc] infixl:70 " *. " => Scalar.mul
@[inherit_doc] infixl:70 " /. " => Scalar.div

variable {K : Type} [Scalar K]

/-- The literal `0.0`. -/
def Scalar.zero : K := Scalar.ofNat 0
/-- The literal `1.0`. -/
def Scalar.one : K := Scalar.ofNat 1

/-- `isize::MIN` and `isize::MAX` on a 64-bit target. -/
def isizeMin : Int := -2 ^ 63
@[inherit_doc isizeMin] def isizeMax : Int := 2 ^ 63 - 1

/-- A floating-point constant `-∞` (`f64::NEG_INFINITY`), for the scalars that have one. -/
class ScalarInf (K : Type) extends Scalar K where
  /-- `f64::NEG_INFINITY` -/
  negInf : K

/-! ## Exact reals -/

noncomputable instance instScalarReal : Scalar ℝ where
  add a b := a + b
  sub a b := a - b
  mul a b := a * b
  div a b := a / b
  neg a := -a
  abs a := |a|
  sqrt a := Real.sqrt a
  exp a := Real.exp a
  cos a := Real.cos a
  ln1p a := Real.log (1 + a)
  lt a b := decide (a < b)
  beq a b := decide (a = b)
  max a b := Max.max a b
  powi a n := a ^ n
  ofNat n := (n : ℝ)
  sci m e := (m : ℝ) / 10 ^ e
  pi := Real.pi
  floorIsize a := Max.max isizeMin (Min.min isizeMax ⌊a⌋)
  dot xs ys := (List.zipWith (· * ·) xs ys).sum
  sum xs := xs.sum

/-! ## Reals with IEEE special values -/

/-- Reals extended by the IEEE special values. Zero is unsigned; results are not rounded. -/
inductive XReal where
  | nan
  | ninf
  | pinf
  | fin (r : ℝ)

namespace XReal

noncomputable section

/-- The infinity with the sign of `r` (`+∞` for `r ≥ 0`). -/
def infSign (r : ℝ) : XReal := if 0 ≤ r then pinf else ninf

/-- IEEE negation. -/
def neg : XReal → XReal
  | nan => nan
  | ninf => pinf
  | pinf => ninf
  | fin r => fin (-r)

/-- IEEE addition: NaN absorbs, `∞ - ∞` is NaN. -/
def add : XReal → XReal → XReal
  | nan, _ => nan
  | _, nan => nan
  | fin a, fin b => fin (a + b)
  | fin _, y => y
  | x, fin _ => x
  | pinf, pinf => pinf
  | ninf, ninf => ninf
  | pinf, ninf => nan
  | ninf, pinf => nan

/-- IEEE multiplication: `0 * ∞` is NaN. -/
def mul : XReal → XReal → XReal
  | nan, _ => nan
  | _, nan => nan
  | fin a, fin b => fin (a * b)
  | fin a, pinf => if a = 0 then nan else infSign a
  | fin a, ninf => if a = 0 then nan else infSign (-a)
  | pinf, fin a => if a = 0 then nan else infSign a
  | ninf, fin a => if a = 0 then nan else infSign (-a)
  | pinf, pinf => pinf
  | ninf, ninf => pinf
  | pinf, ninf => ninf
  | ninf, pinf => ninf

/-- IEEE division; a zero denominator counts as `+0`, so `0/0` is NaN and `a/0` is an infinity
with the sign of `a`. -/
def div : XReal → XReal → XReal
  | nan, _ => nan
  | _, nan => nan
  | fin a, fin b => if b = 0 then (if a = 0 then nan else infSign a) else fin (a / b)
  | fin _, _ => fin 0
  | pinf, fin b => infSign b
  | ninf, fin b => neg (infSign b)
  | _, _ => nan

/-- IEEE `<`: false as soon as one side is NaN. -/
def lt : XReal → XReal → Bool
  | nan, _ => false
  | _, nan => false
  | fin a, fin b => decide (a < b)
  | ninf, ninf => false
  | ninf, _ => true
  | _, ninf => false
  | pinf, _ => false
  | fin _, pinf => true

/-- IEEE `==`. -/
def beq : XReal → XReal → Bool
  | fin a, fin b => decide (a = b)
  | pinf, pinf => true
  | ninf, ninf => true
  | _, _ => false

/-- `f64::abs`. -/
def abs : XReal → XReal
  | nan => nan
  | ninf => pinf
  | pinf => pinf
  | fin r => fin |r|

/-- `f64::max`: a NaN argument is ignored. -/
def max : XReal → XReal → XReal
  | nan, y => y
  | x, nan => x
  | x, y => if lt x y then y else x

/-- `f64::sqrt`: NaN for negative numbers. -/
def sqrt : XReal → XReal
  | nan => nan
  | ninf => nan
  | pinf => pinf
  | fin r => if r < 0 then nan else fin (Real.sqrt r)

/-- `f64::exp`. -/
def exp : XReal → XReal
  | nan => nan
  | ninf => fin 0
  | pinf => pinf
  | fin r => fin (Real.exp r)

/-- `f64::cos`. -/
def cos : XReal → XReal
  | fin r => fin (Real.cos r)
  | _ => nan

/-- `f64::ln_1p`. -/
def ln1p : XReal → XReal
  | nan => nan
  | ninf => nan
  | pinf => pinf
  | fin r => if r = -1 then ninf else if r < -1 then nan else fin (Real.log (1 + r))

/-- `f64::powi` for non-negative exponents. -/
def powi (x : XReal) : Nat → XReal
  | 0 => fin 1
  | n + 1 => mul x (powi x n)

/-- `x.floor() as isize`. -/
def floorIsize : XReal → Int
  | nan => 0
  | ninf => isizeMin
  | pinf => isizeMax
  | fin r => Max.max isizeMin (Min.min isizeMax ⌊r⌋)

instance : ScalarInf XReal where
  add := add
  sub a b := add a (neg b)
  mul := mul
  div := div
  neg := neg
  abs := abs
  sqrt := sqrt
  exp := exp
  cos := cos
  ln1p := ln1p
  lt := lt
  beq := beq
  max := max
  powi := powi
  ofNat n := fin (n : ℝ)
  sci m e := fin ((m : ℝ) / 10 ^ e)
  pi := fin Real.pi
  floorIsize := floorIsize
  dot xs ys := (List.zipWith mul xs ys).foldl add (fin 0)
  sum xs := xs.foldl add (fin 0)
  negInf := ninf

end

end XReal

/-! ## Lean's `Float`, for executing the model -/

/-- `x.floor() as isize` on `Float`. -/
def floatFloorIsize (x : Float) : Int :=
  if x.isNaN then 0 else
    let y := x.floor
    if y < 0 then Max.max isizeMin (-(Int.ofNat (-y).toUInt64.toNat))
    else Min.min isizeMax (Int.ofNat y.toUInt64.toNat)

instance : ScalarInf Float where
  add a b := a + b
  sub a b := a - b
  mul a b := a * b
  div a b := a / b
  neg a := -a
  abs := Float.abs
  sqrt := Float.sqrt
  exp := Float.exp
  cos := Float.cos
  ln1p a := Float.log (1.0 + a)
  lt a b := decide (a < b)
  beq a b := a == b
  max a b := if a.isNaN then b else if b.isNaN then a else if a < b then b else a
  powi a n := (List.replicate n a).foldl (· * ·) 1.0
  ofNat n := Float.ofNat n
  sci m e := Float.ofScientific m true e
  pi := 3.141592653589793
  floorIsize := floatFloorIsize
  dot xs ys := (List.zipWith (· * ·) xs ys).foldl (· + ·) 0.0
  sum xs := xs.foldl (· + ·) 0.0
  negInf := -(1.0 / 0.0)

end Lfa

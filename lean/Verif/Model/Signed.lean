import Verif.Model.Machine

/-!
# Signed zeros

`FP M` has one zero. Rust's `f64` has two: `0.0` and `-0.0` compare equal, but `1.0 / 0.0` and
`1.0 / -0.0` do not. `SFP` adds the sign of zero (IEEE 754-2008 §6.3).
-/

namespace Lfa

/-- `f64::max` of two zeros of opposite sign may be either; this says which. -/
structure ZeroChoice where
  pick : Bool → Bool → Bool
  pick_or : ∀ s t, pick s t = s ∨ pick s t = t

/-- The numbers of a machine with both zeros; `neg0` marks `-0.0`. -/
@[ext] structure SFP (M : Machine) (Z : ZeroChoice) where
  val : FP M
  neg0 : Bool
  zero_of : neg0 = true → val.1 = .fin 0

namespace SFP

noncomputable section

open Classical

variable {M : Machine} {Z : ZeroChoice}

/-- A number; `s` is the sign it gets if it is zero. -/
def signed (v : FP M) (s : Bool) : SFP M Z :=
  ⟨v, s && decide (v.1 = .fin 0), fun h => by simp only [Bool.and_eq_true, decide_eq_true_eq] at h; exact h.2⟩

/-- The sign bit of a number (of NaN: irrelevant). -/
def sign (a : SFP M Z) : Bool :=
  a.neg0 || match a.val.1 with
    | .ninf => true
    | .fin r => decide (r < 0)
    | _ => false

/-- `-0.0` for negation: the zeros are exchanged. -/
def neg (a : SFP M Z) : SFP M Z := signed (Scalar.neg a.val) (!a.neg0)

/-- Addition. A zero sum is `-0.0` only when both terms are. (A sum of two `f64` is never rounded to
zero, see `Format.nearest_sum_ne_zero`.) -/
def add (a b : SFP M Z) : SFP M Z := signed (a.val +. b.val) (a.neg0 && b.neg0)

/-- Multiplication: the sign of a zero product is the product of the signs. -/
def mul (a b : SFP M Z) : SFP M Z := signed (a.val *. b.val) (a.sign ^^ b.sign)

/-- Division: likewise, and dividing by `-0.0` gives the negative of dividing by `0.0`. -/
def div (a b : SFP M Z) : SFP M Z :=
  if b.neg0 then signed (Scalar.neg (a.val /. b.val)) false
  else signed (a.val /. b.val) (a.sign ^^ b.sign)

/-- IEEE arithmetic with signed zeros. `sqrt` and `ln_1p` keep the sign of zero. -/
instance : ScalarInf (SFP M Z) where
  add := add
  sub a b := signed (a.val -. b.val) (a.neg0 && (neg b).neg0)
  mul := mul
  div := div
  neg := neg
  abs a := signed (Scalar.abs a.val) false
  sqrt a := signed (Scalar.sqrt a.val) a.neg0
  exp a := signed (Scalar.exp a.val) false
  cos a := signed (Scalar.cos a.val) false
  ln1p a := signed (Scalar.ln1p a.val) a.sign
  lt a b := Scalar.lt a.val b.val
  beq a b := Scalar.beq a.val b.val
  max a b := signed (Scalar.max a.val b.val)
    (if a.val.1 = .fin 0 ∧ b.val.1 = .fin 0 then Z.pick a.neg0 b.neg0 else a.neg0 || b.neg0)
  powi a n := (M.powTree n).eval mul (signed (M.lit 1) false) a
  ofNat n := signed (Scalar.ofNat n) false
  sci m e := signed (Scalar.sci m e) false
  pi := signed Scalar.pi false
  floorIsize a := Scalar.floorIsize a.val
  dot xs ys := (M.dotTree (min xs.length ys.length)).eval add (signed (M.lit 0) false)
    fun i => (List.zipWith mul xs ys).getD i (signed (M.lit 0) false)
  sum xs := (M.sumTree xs.length).eval add (signed (M.lit 0) false)
    fun i => xs.getD i (signed (M.lit 0) false)
  negInf := signed ScalarInf.negInf false

end

end SFP

end Lfa

import Verif.Model.Scalar

/-!
# Rounded arithmetic

Between exact reals and lawless scalars: the arithmetic of `f64` with rounding, overflow, underflow,
infinities and NaN. A `Machine` says how results are rounded and fixes what IEEE 754 and the crate's
libraries leave open (the accuracy of `exp`, `cos` and `ln_1p`, and the order in which `ndarray` adds
and `powi` multiplies). Theorems quantify over every `Machine`, hence over binary64 with rounding to
nearest. Zero is unsigned.
-/

namespace Lfa

/-- IEEE `<=`: false as soon as one side is NaN, so `x ≤ x` says that `x` is not NaN. -/
def XReal.le : XReal → XReal → Prop
  | .nan, _ => False
  | _, .nan => False
  | .ninf, _ => True
  | _, .pinf => True
  | .fin a, .fin b => a ≤ b
  | _, _ => False

instance : LE XReal := ⟨XReal.le⟩

/-- An order in which to add numbered terms; `zero` is an accumulator's initial value. -/
inductive SumTree where
  | zero
  | term (i : Nat)
  | add (l r : SumTree)

namespace SumTree

/-- The terms added, from left to right. -/
def terms : SumTree → List Nat
  | zero => []
  | term i => [i]
  | add l r => l.terms ++ r.terms

/-- The sum in this order. -/
def eval {K : Type} (plus : K → K → K) (z : K) (x : Nat → K) : SumTree → K
  | zero => z
  | term i => x i
  | add l r => plus (l.eval plus z x) (r.eval plus z x)

end SumTree

/-- An order in which to multiply copies of one number. -/
inductive PowTree where
  | one
  | base
  | mul (l r : PowTree)

namespace PowTree

/-- The number of copies multiplied. -/
def degree : PowTree → Nat
  | one => 0
  | base => 1
  | mul l r => l.degree + r.degree

/-- The product in this order. -/
def eval {K : Type} (times : K → K → K) (u x : K) : PowTree → K
  | one => u
  | base => x
  | mul l r => times (l.eval times u x) (r.eval times u x)

end PowTree

/-- A floating-point system. -/
structure Machine where
  /-- rounding of an exact result; overflow gives an infinity -/
  rnd : ℝ → XReal
  rnd_mono : ∀ {a b : ℝ}, a ≤ b → rnd a ≤ rnd b
  rnd_neg : ∀ a : ℝ, rnd (-a) = XReal.neg (rnd a)
  rnd_one : rnd 1 = .fin 1
  rnd_idem : ∀ {a b : ℝ}, rnd a = .fin b → rnd b = .fin b
  /-- `exp` before rounding: any approximation with these properties -/
  exp : ℝ → ℝ
  exp_zero : exp 0 = 1
  exp_nonneg : ∀ x, 0 ≤ exp x
  exp_le_one : ∀ {x}, x ≤ 0 → exp x ≤ 1
  /-- `cos` before rounding -/
  cos : ℝ → ℝ
  cos_zero : cos 0 = 1
  cos_bounded : ∀ x, |cos x| ≤ 1
  /-- `ln_1p` before rounding -/
  ln1p : ℝ → ℝ
  ln1p_zero : ln1p 0 = 0
  ln1p_nonneg : ∀ {x}, 0 ≤ x → 0 ≤ ln1p x
  /-- the order in which `ArrayBase::sum` adds `n` elements -/
  sumTree : Nat → SumTree
  sumTree_terms : ∀ n, (sumTree n).terms.Perm (List.range n)
  /-- the order in which `ArrayBase::dot` adds `n` products -/
  dotTree : Nat → SumTree
  dotTree_terms : ∀ n, (dotTree n).terms.Perm (List.range n)
  /-- the order in which `powi` multiplies -/
  powTree : Nat → PowTree
  powTree_degree : ∀ n, (powTree n).degree = n

/-- The numbers of a machine: NaN, the infinities and the reals that rounding leaves alone. -/
@[ext] structure FP (M : Machine) where
  val : XReal
  rep : ∀ r, val = .fin r → M.rnd r = .fin r

namespace Machine

noncomputable section

variable (M : Machine)

theorem rnd_ne_nan (r : ℝ) : M.rnd r ≠ .nan := by
  have h := M.rnd_mono (le_refl r)
  intro hc
  rw [hc] at h
  exact h

/-- Rounding of a result that may already be special. -/
def round : XReal → FP M
  | .nan => ⟨.nan, fun _ h => by cases h⟩
  | .ninf => ⟨.ninf, fun _ h => by cases h⟩
  | .pinf => ⟨.pinf, fun _ h => by cases h⟩
  | .fin r => ⟨M.rnd r, fun _ h => M.rnd_idem h⟩

/-- A real as the nearest number of the machine. -/
def lit (r : ℝ) : FP M := M.round (.fin r)

/-- Rounded addition. -/
def add (a b : FP M) : FP M := M.round (XReal.add a.1 b.1)

/-- Rounded multiplication. -/
def mul (a b : FP M) : FP M := M.round (XReal.mul a.1 b.1)

/-- `f64::exp`. -/
def fexp : XReal → XReal
  | .nan => .nan
  | .ninf => .fin 0
  | .pinf => .pinf
  | .fin r => .fin (M.exp r)

/-- `f64::cos`. -/
def fcos : XReal → XReal
  | .fin r => .fin (M.cos r)
  | _ => .nan

/-- `f64::ln_1p`. -/
def fln1p : XReal → XReal
  | .nan => .nan
  | .ninf => .nan
  | .pinf => .pinf
  | .fin r => if r = -1 then .ninf else if r < -1 then .nan else .fin (M.ln1p r)

/-- Every operation is the exact one followed by rounding (IEEE 754-2008 §4.3); `-`, `abs` and `max`
need none. -/
instance : ScalarInf (FP M) where
  add := M.add
  sub a b := M.round (XReal.add a.1 (XReal.neg b.1))
  mul := M.mul
  div a b := M.round (XReal.div a.1 b.1)
  neg a := M.round (XReal.neg a.1)
  abs a := M.round (XReal.abs a.1)
  sqrt a := M.round (XReal.sqrt a.1)
  exp a := M.round (M.fexp a.1)
  cos a := M.round (M.fcos a.1)
  ln1p a := M.round (M.fln1p a.1)
  lt a b := XReal.lt a.1 b.1
  beq a b := XReal.beq a.1 b.1
  max a b := M.round (XReal.max a.1 b.1)
  powi a n := (M.powTree n).eval M.mul (M.lit 1) a
  ofNat n := M.lit n
  sci m e := M.lit ((m : ℝ) / 10 ^ e)
  pi := M.lit Real.pi
  floorIsize a := XReal.floorIsize a.1
  dot xs ys := (M.dotTree (min xs.length ys.length)).eval M.add (M.lit 0)
    fun i => (List.zipWith M.mul xs ys).getD i (M.lit 0)
  sum xs := (M.sumTree xs.length).eval M.add (M.lit 0) fun i => xs.getD i (M.lit 0)
  negInf := ⟨.ninf, fun _ h => by cases h⟩

end

end Machine

end Lfa

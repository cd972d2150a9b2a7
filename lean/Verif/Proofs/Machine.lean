import Verif.Model.Machine
import Mathlib.Tactic.Linarith
import Mathlib.Tactic.SplitIfs
import Mathlib.Tactic.FieldSimp
import Mathlib.Analysis.Real.Sqrt

/-! # Lemmas about rounded arithmetic -/

set_option linter.unusedSectionVars false

namespace Lfa

namespace XReal

@[simp] theorem fin_le_fin {a b : ℝ} : (fin a ≤ fin b) ↔ a ≤ b := Iff.rfl
@[simp] theorem nan_le (x : XReal) : ¬ nan ≤ x := fun h => h
@[simp] theorem le_nan (x : XReal) : ¬ x ≤ nan := by cases x <;> exact fun h => h
@[simp] theorem fin_le_ninf (a : ℝ) : ¬ fin a ≤ ninf := fun h => h
@[simp] theorem pinf_le_fin (a : ℝ) : ¬ pinf ≤ fin a := fun h => h
@[simp] theorem pinf_le_ninf : ¬ pinf ≤ ninf := fun h => h
@[simp] theorem ninf_le_fin (a : ℝ) : ninf ≤ fin a := trivial
@[simp] theorem ninf_le_pinf : ninf ≤ pinf := trivial
@[simp] theorem ninf_le_ninf : ninf ≤ ninf := trivial
@[simp] theorem fin_le_pinf (a : ℝ) : fin a ≤ pinf := trivial
@[simp] theorem pinf_le_pinf : pinf ≤ pinf := trivial

theorem le_self {x : XReal} : x ≤ x ↔ x ≠ nan := by cases x <;> simp

theorem le_trans' {x y z : XReal} (h : x ≤ y) (h' : y ≤ z) : x ≤ z := by
  cases x <;> cases y <;> cases z <;> simp_all
  exact le_trans h h'

theorem le_total' {x y : XReal} (h : x ≠ nan) (h' : y ≠ nan) : x ≤ y ∨ y ≤ x := by
  cases x <;> cases y <;> simp_all
  exact le_total _ _

theorem le_antisymm' {x y : XReal} (h : x ≤ y) (h' : y ≤ x) : x = y := by
  cases x <;> cases y <;> simp_all
  exact le_antisymm h h'

theorem ne_nan_left {x y : XReal} (h : x ≤ y) : x ≠ nan := by rintro rfl; simp at h
theorem ne_nan_right {x y : XReal} (h : x ≤ y) : y ≠ nan := by rintro rfl; simp at h

theorem neg_le_neg {x y : XReal} (h : x ≤ y) : neg y ≤ neg x := by
  cases x <;> cases y <;> simp_all [neg]

theorem neg_neg (x : XReal) : neg (neg x) = x := by cases x <;> simp [neg]

theorem add_comm' (x y : XReal) : add x y = add y x := by
  cases x <;> cases y <;> simp [add, add_comm]

theorem mul_comm' (x y : XReal) : mul x y = mul y x := by
  cases x <;> cases y <;> simp [mul, mul_comm]

theorem add_le_add' {a a' b b' : XReal} (h : a ≤ a') (h' : b ≤ b') (n : add a b ≠ nan)
    (n' : add a' b' ≠ nan) : add a b ≤ add a' b' := by
  cases a <;> cases a' <;> cases b <;> cases b' <;> simp_all [add]
  linarith

theorem add_nonneg' {a b : XReal} (h : fin 0 ≤ a) (h' : fin 0 ≤ b) : fin 0 ≤ add a b := by
  cases a <;> cases b <;> simp_all [add]
  linarith

theorem le_add_left' {a b : XReal} (h : fin 0 ≤ a) (h' : fin 0 ≤ b) : a ≤ add a b := by
  cases a <;> cases b <;> simp_all [add]

theorem sqrt_le_sqrt' {x y : XReal} (h0 : fin 0 ≤ x) (h : x ≤ y) : sqrt x ≤ sqrt y := by
  rcases x with _ | _ | _ | a <;> rcases y with _ | _ | _ | b <;>
    first | exact absurd h id | exact absurd h0 id | skip
  · trivial
  · have h0 : 0 ≤ a := h0
    simp only [sqrt, if_neg (not_lt.2 h0)]
    trivial
  · have h0 : 0 ≤ a := h0
    have h : a ≤ b := h
    simp only [sqrt, if_neg (not_lt.2 h0), if_neg (not_lt.2 (h0.trans h))]
    exact Real.sqrt_le_sqrt h

/-- A number in `[-1, 1]`. -/
theorem bounded_of_le {x : XReal} {c : ℝ} (h : fin (-c) ≤ x) (h' : x ≤ fin c) :
    ∃ r, x = fin r ∧ |r| ≤ c := by
  cases x <;> simp_all
  exact abs_le.2 ⟨by linarith, h'⟩

theorem fin_of_between {x : XReal} {a b : ℝ} (h : fin a ≤ x) (h' : x ≤ fin b) :
    ∃ r, x = fin r ∧ a ≤ r ∧ r ≤ b := by
  cases x <;> simp_all

end XReal

open XReal

namespace Machine

variable {M : Machine}

theorem fp_ext {a b : FP M} (h : a.1 = b.1) : a = b := FP.ext h

theorem rnd_zero : M.rnd 0 = .fin 0 := by
  have h := M.rnd_neg 0
  rw [_root_.neg_zero] at h
  cases hr : M.rnd 0 with
  | nan => exact absurd hr (M.rnd_ne_nan 0)
  | ninf => rw [hr] at h; cases h
  | pinf => rw [hr] at h; cases h
  | fin r =>
    rw [hr] at h
    have h : XReal.fin r = .fin (-r) := h
    injection h with h
    congr 1; linarith

theorem rnd_neg_one : M.rnd (-1) = .fin (-1) := by rw [M.rnd_neg, M.rnd_one]; rfl

theorem rnd_nonneg {r : ℝ} (h : 0 ≤ r) : XReal.fin 0 ≤ M.rnd r := by
  have := M.rnd_mono h; rwa [rnd_zero] at this

theorem rnd_nonpos {r : ℝ} (h : r ≤ 0) : M.rnd r ≤ XReal.fin 0 := by
  have := M.rnd_mono h; rwa [rnd_zero] at this

theorem rnd_le_one {r : ℝ} (h : r ≤ 1) : M.rnd r ≤ XReal.fin 1 := by
  have := M.rnd_mono h; rwa [M.rnd_one] at this

theorem neg_one_le_rnd {r : ℝ} (h : -1 ≤ r) : XReal.fin (-1) ≤ M.rnd r := by
  have := M.rnd_mono h; rwa [rnd_neg_one] at this

/-! ## Rounding -/

@[simp] theorem round_fin (r : ℝ) : (M.round (.fin r)).1 = M.rnd r := rfl
@[simp] theorem round_nan : (M.round .nan).1 = .nan := rfl
@[simp] theorem round_pinf : (M.round .pinf).1 = .pinf := rfl
@[simp] theorem round_ninf : (M.round .ninf).1 = .ninf := rfl

theorem round_self (a : FP M) : M.round a.1 = a := by
  apply fp_ext
  rcases h : a.1 with _ | _ | _ | r
  · rfl
  · rfl
  · rfl
  · exact a.2 r h

theorem round_val {x : XReal} (h : ∀ r, x = .fin r → M.rnd r = .fin r) : (M.round x).1 = x :=
  congrArg FP.val (round_self ⟨x, h⟩)

theorem round_ne_nan {x : XReal} (h : x ≠ .nan) : (M.round x).1 ≠ .nan := by
  cases x with
  | nan => exact absurd rfl h
  | fin r => exact M.rnd_ne_nan r
  | _ => intro hc; cases hc

theorem round_mono {x y : XReal} (h : x ≤ y) : (M.round x).1 ≤ (M.round y).1 := by
  cases x with
  | nan => exact absurd h (nan_le _)
  | ninf =>
    have := round_ne_nan (M := M) (ne_nan_right h)
    revert this
    cases (M.round y).1 <;> simp
  | pinf => cases y <;> simp_all
  | fin a =>
    cases y with
    | nan => exact absurd h (le_nan _)
    | ninf => exact absurd h (fin_le_ninf _)
    | pinf =>
      have := M.rnd_ne_nan a
      revert this
      rw [round_fin]
      cases M.rnd a <;> simp
    | fin b => exact M.rnd_mono h

theorem round_neg (x : XReal) : (M.round (XReal.neg x)).1 = XReal.neg (M.round x).1 := by
  cases x with
  | fin r => exact M.rnd_neg r
  | _ => rfl

theorem round_fin_zero : (M.round (.fin 0)).1 = .fin 0 := rnd_zero
theorem round_fin_one : (M.round (.fin 1)).1 = .fin 1 := M.rnd_one

theorem round_nonneg {x : XReal} (h : .fin 0 ≤ x) : .fin 0 ≤ (M.round x).1 := by
  have := round_mono (M := M) h; rwa [round_fin_zero] at this

theorem round_nonpos {x : XReal} (h : x ≤ .fin 0) : (M.round x).1 ≤ .fin 0 := by
  have := round_mono (M := M) h; rwa [round_fin_zero] at this

theorem round_le_one {x : XReal} (h : x ≤ .fin 1) : (M.round x).1 ≤ .fin 1 := by
  have := round_mono (M := M) h; rwa [round_fin_one] at this

theorem le_round {a : FP M} {x : XReal} (h : a.1 ≤ x) : a.1 ≤ (M.round x).1 := by
  have := round_mono (M := M) h; rwa [round_self] at this

theorem round_le {a : FP M} {x : XReal} (h : x ≤ a.1) : (M.round x).1 ≤ a.1 := by
  have := round_mono (M := M) h; rwa [round_self] at this

theorem round_abs (a : FP M) : (M.round (XReal.abs a.1)).1 = XReal.abs a.1 := by
  rcases h : a.1 with _ | _ | _ | r
  · rfl
  · rfl
  · rfl
  · have hr := a.2 r h
    show M.rnd |r| = .fin |r|
    rcases abs_choice r with e | e <;> rw [e]
    · exact hr
    · rw [M.rnd_neg, hr]; rfl

/-! ## The operations -/

theorem val_add (a b : FP M) : (a +. b).1 = (M.round (XReal.add a.1 b.1)).1 := rfl
theorem val_sub (a b : FP M) : (a -. b).1 = (M.round (XReal.add a.1 (XReal.neg b.1))).1 := rfl
theorem val_mul (a b : FP M) : (a *. b).1 = (M.round (XReal.mul a.1 b.1)).1 := rfl
theorem val_div (a b : FP M) : (a /. b).1 = (M.round (XReal.div a.1 b.1)).1 := rfl
theorem val_sqrt (a : FP M) : (Scalar.sqrt a).1 = (M.round (XReal.sqrt a.1)).1 := rfl
theorem val_abs (a : FP M) : (Scalar.abs a).1 = XReal.abs a.1 := round_abs a
theorem val_neg (a : FP M) : (Scalar.neg a).1 = XReal.neg a.1 := by
  show (M.round (XReal.neg a.1)).1 = _
  rw [round_neg, round_self]
theorem val_max (a b : FP M) : (Scalar.max a b).1 = XReal.max a.1 b.1 := by
  have : XReal.max a.1 b.1 = a.1 ∨ XReal.max a.1 b.1 = b.1 := by
    rcases a.1 with _ | _ | _ | r <;> rcases b.1 with _ | _ | _ | s <;>
      simp only [XReal.max] <;> (try split_ifs) <;> simp
  show (M.round (XReal.max a.1 b.1)).1 = _
  rcases this with h | h <;> rw [h, round_self]
theorem val_zero : (Scalar.zero : FP M).1 = .fin 0 := by
  show M.rnd ((0 : ℕ) : ℝ) = _
  rw [Nat.cast_zero, rnd_zero]
theorem val_one : (Scalar.one : FP M).1 = .fin 1 := by
  show M.rnd ((1 : ℕ) : ℝ) = _
  rw [Nat.cast_one, M.rnd_one]
theorem val_ofNat_one : (Scalar.ofNat 1 : FP M).1 = .fin 1 := val_one
theorem val_ofNat (n : Nat) : (Scalar.ofNat n : FP M).1 = M.rnd n := rfl
theorem val_sci (m e : Nat) : (Scalar.sci m e : FP M).1 = M.rnd ((m : ℝ) / 10 ^ e) := rfl
theorem val_lit_zero : (M.lit 0).1 = .fin 0 := rnd_zero
theorem val_negInf : (ScalarInf.negInf : FP M).1 = .ninf := rfl

theorem val_add_nonneg {a b : FP M} (h : .fin 0 ≤ a.1) (h' : .fin 0 ≤ b.1) :
    .fin 0 ≤ (a +. b).1 := round_nonneg (add_nonneg' h h')

theorem val_le_add_left {a b : FP M} (h : .fin 0 ≤ a.1) (h' : .fin 0 ≤ b.1) : a.1 ≤ (a +. b).1 :=
  le_round (le_add_left' h h')

theorem val_le_add_right {a b : FP M} (h : .fin 0 ≤ a.1) (h' : .fin 0 ≤ b.1) :
    b.1 ≤ (a +. b).1 := by
  rw [val_add, add_comm']
  exact le_round (le_add_left' h' h)

theorem val_add_mono {a a' b b' : FP M} (h : a.1 ≤ a'.1) (h' : b.1 ≤ b'.1)
    (n : (a +. b).1 ≠ .nan) (n' : (a' +. b').1 ≠ .nan) : (a +. b).1 ≤ (a' +. b').1 := by
  refine round_mono (add_le_add' h h' ?_ ?_)
  · intro hc; rw [val_add, hc] at n; exact n rfl
  · intro hc; rw [val_add, hc] at n'; exact n' rfl

theorem add_comm_fp (a b : FP M) : a +. b = b +. a := by
  apply fp_ext; rw [val_add, val_add, add_comm']

theorem mul_comm_fp (a b : FP M) : a *. b = b *. a := by
  apply fp_ext; rw [val_mul, val_mul, mul_comm']

theorem abs_nonneg_fin {a : FP M} {r : ℝ} (h : a.1 = .fin r) : .fin 0 ≤ (Scalar.abs a).1 := by
  rw [val_abs, h]; exact abs_nonneg r

/-- Dividing a finite number by something at least as large keeps it in `[-1, 1]`. -/
theorem div_bounded {a z : FP M} {r : ℝ} (h : a.1 = .fin r) (hz : XReal.fin |r| ≤ z.1)
    (hpos : z.1 ≠ .fin 0) : ∃ q, (a /. z).1 = .fin q ∧ |q| ≤ 1 := by
  rw [val_div, h]
  rcases hv : z.1 with _ | _ | _ | c
  · rw [hv] at hz; exact absurd hz (le_nan _)
  · rw [hv] at hz; exact absurd hz (fin_le_ninf _)
  · exact ⟨0, rnd_zero, by simp⟩
  · rw [hv] at hz hpos
    have hc : c ≠ 0 := fun e => hpos (by rw [e])
    have hr : |r| ≤ c := hz
    have hcp : 0 < c := lt_of_le_of_ne (le_trans (abs_nonneg r) hr) (Ne.symm hc)
    show ∃ q, (M.round (if c = 0 then _ else _)).1 = .fin q ∧ |q| ≤ 1
    rw [if_neg hc]
    have hb : |r / c| ≤ 1 := by
      rw [abs_div, abs_of_pos hcp]
      exact (div_le_one hcp).2 hr
    exact bounded_of_le (neg_one_le_rnd (abs_le.1 hb).1) (rnd_le_one (abs_le.1 hb).2)

end Machine

end Lfa

import Verif.Spec.Kernels
import Verif.Proofs.Real
import Mathlib.Analysis.SpecialFunctions.Pow.Real
import Mathlib.Analysis.SpecialFunctions.Exp
import Mathlib.Analysis.Complex.Exponential
import Mathlib.Analysis.Complex.ExponentialBounds
import Mathlib.Algebra.BigOperators.Fin
import Mathlib.Tactic.Positivity
import Mathlib.Tactic.Linarith
import Mathlib.Tactic.FieldSimp

/-! # Lemmas about kernels -/

set_option linter.unusedSectionVars false

namespace Lfa

open Spec

theorem sliceDistance_real (l x y : List ℝ) :
    sliceDistance l x y = Real.sqrt
      ((List.zipWith (fun d l => (d / l) ^ 2) (List.zipWith (fun a b => a - b) x y) l).sum) := by
  unfold sliceDistance
  simp only [real_sqrt, real_zero, real_add, real_mul, real_div, real_sub]
  rw [foldl_add_eq (fun z => z * z), zero_add, List.map_zipWith]
  congr 2
  simp only [pow_two]

theorem sliceDistance_nonneg (l x y : List ℝ) : 0 ≤ sliceDistance l x y := by
  rw [sliceDistance_real]; exact Real.sqrt_nonneg _

theorem sliceDistance_comm (l x y : List ℝ) : sliceDistance l x y = sliceDistance l y x := by
  rw [sliceDistance_real, sliceDistance_real]
  congr 2
  induction l generalizing x y with
  | nil => simp
  | cons a l ih =>
    cases x with
    | nil => simp
    | cons u x =>
      cases y with
      | nil => simp
      | cons v y =>
        simp only [List.zipWith_cons_cons]
        rw [ih x y]
        congr 1
        rw [show (u - v) = -(v - u) by ring, neg_div, neg_sq]

theorem sliceDistance_self (l x : List ℝ) : sliceDistance l x x = 0 := by
  rw [sliceDistance_real]
  have : (List.zipWith (fun d l => (d / l) ^ 2) (List.zipWith (fun a b => a - b) x x) l).sum
      = (0 : ℝ) := by
    induction l generalizing x with
    | nil => simp
    | cons a l ih =>
      cases x with
      | nil => simp
      | cons u x => simp only [List.zipWith_cons_cons, List.sum_cons, ih x]; simp
  rw [this, Real.sqrt_zero]

theorem sliceDistance_ofFn {d : Nat} (l x y : Fin d → ℝ) :
    sliceDistance (List.ofFn l) (List.ofFn x) (List.ofFn y) = scaledDist l x y := by
  rw [sliceDistance_real, scaledDist]
  congr 1
  induction d with
  | zero => simp
  | succ d ih =>
    rw [List.ofFn_succ, List.ofFn_succ, List.ofFn_succ, List.zipWith_cons_cons,
      List.zipWith_cons_cons, List.sum_cons, ih, Fin.sum_univ_succ]

theorem kernelStationary_real {kind : StationaryKind} (k : Stationary kind ℝ) (r : ℝ) :
    k.kernelStationary r = k.variance * profile kind r := by
  cases kind with
  | exponential => rfl
  | matern32 =>
    show k.variance * (((1 : ℕ) : ℝ) + Real.sqrt ((3 : ℕ) : ℝ) * r) * Real.exp (-Real.sqrt ((3 : ℕ) : ℝ) * r) = _
    simp only [profile, Nat.cast_one, Nat.cast_ofNat, neg_mul]
    ring
  | matern52 =>
    show k.variance * (((1 : ℕ) : ℝ) + Real.sqrt ((3 : ℕ) : ℝ) * r + ((5 : ℕ) : ℝ) / ((3 : ℕ) : ℝ) * r * r) *
      Real.exp (-Real.sqrt ((3 : ℕ) : ℝ) * r) = _
    simp only [profile, Nat.cast_one, Nat.cast_ofNat, neg_mul]
    ring
  | expQuad =>
    show k.variance * Real.exp (-(((5 : ℕ) : ℝ) / 10 ^ 1) * r * r) = _
    simp only [profile]
    congr 2
    push_cast; ring
  | cosine => rfl

theorem kernelRational_real (k : RationalQuadratic ℝ) (r : ℝ) :
    k.kernelStationary r = k.variance * rationalProfile k.power r := by
  show k.variance * Real.exp (-k.power * Real.log (1 + r * r / ((2 : ℕ) : ℝ))) = _
  have h : 0 < 1 + r ^ 2 / 2 := by positivity
  rw [rationalProfile, Real.rpow_def_of_pos h]
  congr 2
  push_cast
  rw [mul_comm]
  congr 2
  ring_nf

theorem profile_zero (kind : StationaryKind) : profile kind 0 = 1 := by
  cases kind <;> simp [profile]

theorem rationalProfile_zero (p : ℝ) : rationalProfile p 0 = 1 := by simp [rationalProfile]

theorem profile_pos {kind : StationaryKind} (hk : kind ≠ .cosine) {r : ℝ} (hr : 0 ≤ r) :
    0 < profile kind r := by
  cases kind with
  | cosine => exact absurd rfl hk
  | _ => simp only [profile]; positivity

theorem rationalProfile_pos (p r : ℝ) : 0 < rationalProfile p r := by
  rw [rationalProfile]; positivity

/-- `1 ≤ u`, `u ≤ e^(b-a) v` style comparison. -/
theorem exp_decay {u v a b : ℝ} (h : u ≤ v * Real.exp (b - a)) :
    u * Real.exp (-b) ≤ v * Real.exp (-a) := by
  have := mul_le_mul_of_nonneg_right h (Real.exp_pos (-b)).le
  rw [mul_assoc, ← Real.exp_add] at this
  rwa [show b - a + -b = -a by ring] at this

theorem matern32_antitone {a b : ℝ} (ha : 0 ≤ a) (hab : a ≤ b) :
    (1 + b) * Real.exp (-b) ≤ (1 + a) * Real.exp (-a) := by
  apply exp_decay
  have h := Real.add_one_le_exp (b - a)
  nlinarith

theorem matern52_antitone {a b : ℝ} (ha : 1 / 5 ≤ a) (hab : a ≤ b) :
    (1 + b + 5 / 9 * b ^ 2) * Real.exp (-b) ≤ (1 + a + 5 / 9 * a ^ 2) * Real.exp (-a) := by
  apply exp_decay
  obtain ⟨h, rfl⟩ : ∃ h, b = a + h := ⟨b - a, by ring⟩
  have hh : 0 ≤ h := by linarith
  have he := Real.quadratic_le_exp_of_nonneg hh
  rw [add_sub_cancel_left]
  have h1 : 0 ≤ h * (5 / 9 * a ^ 2 - a / 9) := mul_nonneg hh (by nlinarith)
  have h2 : 0 ≤ h ^ 2 * ((1 + a + 5 / 9 * a ^ 2) / 2 - 5 / 9) :=
    mul_nonneg (sq_nonneg h) (by nlinarith)
  have h3 : (1 + a + 5 / 9 * a ^ 2) * (1 + h + h ^ 2 / 2) ≤ (1 + a + 5 / 9 * a ^ 2) * Real.exp h :=
    mul_le_mul_of_nonneg_left he (by positivity)
  nlinarith

theorem sqrt3_sq : Real.sqrt 3 ^ 2 = 3 := Real.sq_sqrt (by norm_num)

theorem profile_matern52 (r : ℝ) : profile .matern52 r =
    (1 + Real.sqrt 3 * r + 5 / 9 * (Real.sqrt 3 * r) ^ 2) * Real.exp (-(Real.sqrt 3 * r)) := by
  simp only [profile]
  rw [mul_pow, sqrt3_sq]
  ring_nf

theorem profile_antitone {kind : StationaryKind} (h1 : kind ≠ .cosine) (h2 : kind ≠ .matern52)
    {r s : ℝ} (hr : 0 ≤ r) (hrs : r ≤ s) : profile kind s ≤ profile kind r := by
  cases kind with
  | cosine => exact absurd rfl h1
  | matern52 => exact absurd rfl h2
  | exponential => exact Real.exp_le_exp.2 (by linarith)
  | matern32 =>
    exact matern32_antitone (by positivity) (mul_le_mul_of_nonneg_left hrs (Real.sqrt_nonneg 3))
  | expQuad => exact Real.exp_le_exp.2 (by nlinarith)

theorem profile_matern52_antitone {r s : ℝ} (hr : 1 / 5 ≤ Real.sqrt 3 * r) (hrs : r ≤ s) :
    profile .matern52 s ≤ profile .matern52 r := by
  rw [profile_matern52, profile_matern52]
  exact matern52_antitone hr (mul_le_mul_of_nonneg_left hrs (Real.sqrt_nonneg 3))

theorem profile_matern52_le {r : ℝ} (hr : 0 ≤ r) : profile .matern52 r ≤ 10 / 9 := by
  rw [profile_matern52]
  have ha : 0 ≤ Real.sqrt 3 * r := by positivity
  have he := Real.quadratic_le_exp_of_nonneg ha
  rw [Real.exp_neg, ← div_eq_mul_inv, div_le_iff₀ (Real.exp_pos _)]
  nlinarith

theorem rationalProfile_antitone {p : ℝ} (hp : 0 ≤ p) {r s : ℝ} (hr : 0 ≤ r) (hrs : r ≤ s) :
    rationalProfile p s ≤ rationalProfile p r := by
  rw [rationalProfile, rationalProfile]
  apply Real.rpow_le_rpow_of_nonpos (by positivity) _ (by linarith)
  nlinarith

/-- At `√3 r = 1/10` the code's Matérn-5/2 profile exceeds 1. -/
theorem profile_matern52_exceeds : 1 < profile .matern52 (1 / 10 / Real.sqrt 3) := by
  rw [profile_matern52]
  have h3 : Real.sqrt 3 ≠ 0 := by positivity
  rw [mul_div_cancel₀ _ h3]
  rw [Real.exp_neg, ← div_eq_mul_inv, lt_div_iff₀ (Real.exp_pos _)]
  have := Real.exp_bound' (x := 1 / 10) (by norm_num) (by norm_num) (n := 3) (by norm_num)
  rw [one_mul]
  refine lt_of_le_of_lt this ?_
  norm_num [Finset.sum_range_succ, Nat.factorial]

end Lfa

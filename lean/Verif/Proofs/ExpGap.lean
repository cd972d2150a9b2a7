import Mathlib.Analysis.Complex.ExponentialBounds
import Mathlib.Analysis.SpecialFunctions.Log.Basic
import Mathlib.Tactic.Linarith
import Mathlib.Tactic.Positivity
import Mathlib.Tactic.NormNum
import Mathlib.Tactic.Ring
import Mathlib.Tactic.FieldSimp

/-!
# How much `exp(-a)`, `(1 + a) exp(-a)` and `a² exp(-a)` change when `a` changes by a small relative error
-/

namespace Lfa

theorem exp_neg_one_le : Real.exp (-1) ≤ 37 / 100 := by
  have h := Real.exp_one_gt_d9
  rw [Real.exp_neg, inv_le_comm₀ (Real.exp_pos 1) (by norm_num)]
  exact le_trans (by norm_num) h.le

theorem mul_exp_neg_le (t : ℝ) : t * Real.exp (-t) ≤ 37 / 100 := by
  have h := Real.add_one_le_exp (t - 1)
  have h2 : t * Real.exp (-t) ≤ Real.exp (t - 1) * Real.exp (-t) :=
    mul_le_mul_of_nonneg_right (by linarith) (Real.exp_pos _).le
  rw [← Real.exp_add, show t - 1 + -t = -1 by ring] at h2
  exact h2.trans exp_neg_one_le

theorem sq_mul_exp_neg_le {t : ℝ} (ht : 0 ≤ t) : t ^ 2 * Real.exp (-t) ≤ 55 / 100 := by
  have h := mul_exp_neg_le (t / 2)
  have h0 : 0 ≤ t / 2 * Real.exp (-(t / 2)) := by positivity
  have e : t ^ 2 * Real.exp (-t) = 4 * (t / 2 * Real.exp (-(t / 2))) ^ 2 := by
    rw [mul_pow, ← Real.exp_nat_mul, show ((2 : ℕ) : ℝ) * -(t / 2) = -t by push_cast; ring]
    ring
  rw [e]
  have := pow_le_pow_left₀ h0 h 2
  linarith

theorem cube_mul_exp_neg_le {t : ℝ} (ht : 0 ≤ t) : t ^ 3 * Real.exp (-t) ≤ 137 / 100 := by
  have h := mul_exp_neg_le (t / 3)
  have h0 : 0 ≤ t / 3 * Real.exp (-(t / 3)) := by positivity
  have e : t ^ 3 * Real.exp (-t) = 27 * (t / 3 * Real.exp (-(t / 3))) ^ 3 := by
    rw [mul_pow, ← Real.exp_nat_mul, show ((3 : ℕ) : ℝ) * -(t / 3) = -t by push_cast; ring]
    ring
  rw [e]
  have := pow_le_pow_left₀ h0 h 3
  linarith

/-- For `a' ≥ (1 - δ) a - η`, powers of `a` are beaten by `exp(-a')` nearly as by `exp(-a)`. -/
theorem exp_shift {a m δ η : ℝ} (h0 : 0 ≤ a) (_hδ0 : 0 ≤ δ) (hδ : δ ≤ 1 / 100) (hη : η ≤ 1 / 100)
    (hm : (1 - δ) * a - η ≤ m) : a * Real.exp (-m) ≤ 2 / 5 ∧ a ^ 2 * Real.exp (-m) ≤ 3 / 5 ∧ a ^ 3 * Real.exp (-m) ≤ 3 / 2 := by
  have hx : Real.exp (-m) ≤ 102 / 100 * Real.exp (-((1 - δ) * a)) := by
    have h1 : Real.exp (-m) ≤ Real.exp (η + -((1 - δ) * a)) := Real.exp_le_exp.2 (by linarith)
    rw [Real.exp_add] at h1
    refine h1.trans (mul_le_mul_of_nonneg_right ?_ (Real.exp_pos _).le)
    have h2 := Real.one_sub_le_exp_neg η
    rw [Real.exp_neg] at h2
    have h3 : (99 / 100 : ℝ) ≤ (Real.exp η)⁻¹ := by linarith
    have h4 := (le_inv_comm₀ (by norm_num) (Real.exp_pos η)).1 h3
    exact h4.trans (by norm_num)
  set t := (1 - δ) * a with ht
  have t0 : 0 ≤ t := mul_nonneg (by linarith) h0
  have hat : a ≤ 102 / 100 * t := by rw [ht]; nlinarith
  have e0 := (Real.exp_pos (-t)).le
  have b1 := mul_exp_neg_le t
  have b2 := sq_mul_exp_neg_le t0
  have b3 := cube_mul_exp_neg_le t0
  have c2 : a ^ 2 ≤ (102 / 100 * t) ^ 2 := pow_le_pow_left₀ h0 hat 2
  have c3 : a ^ 3 ≤ (102 / 100 * t) ^ 3 := pow_le_pow_left₀ h0 hat 3
  have d1 : a * Real.exp (-m) ≤ (102 / 100 * t) * (102 / 100 * Real.exp (-t)) :=
    mul_le_mul hat hx (Real.exp_pos _).le (by positivity)
  have d2 : a ^ 2 * Real.exp (-m) ≤ (102 / 100 * t) ^ 2 * (102 / 100 * Real.exp (-t)) :=
    mul_le_mul c2 hx (Real.exp_pos _).le (by positivity)
  have d3 : a ^ 3 * Real.exp (-m) ≤ (102 / 100 * t) ^ 3 * (102 / 100 * Real.exp (-t)) :=
    mul_le_mul c3 hx (Real.exp_pos _).le (by positivity)
  refine ⟨by linarith, ?_, ?_⟩
  · have : (102 / 100 * t) ^ 2 * (102 / 100 * Real.exp (-t)) = (102 / 100) ^ 3 * (t ^ 2 * Real.exp (-t)) := by ring
    linarith
  · have : (102 / 100 * t) ^ 3 * (102 / 100 * Real.exp (-t)) = (102 / 100) ^ 4 * (t ^ 3 * Real.exp (-t)) := by ring
    linarith

/-- The gap of three functions between `a ≤ b`. -/
theorem gap_le {a b : ℝ} (h0 : 0 ≤ a) (h : a ≤ b) :
    |Real.exp (-b) - Real.exp (-a)| ≤ (b - a) * Real.exp (-a) ∧
    |(1 + b) * Real.exp (-b) - (1 + a) * Real.exp (-a)| ≤ (b - a) * (b * Real.exp (-a)) ∧
    |b ^ 2 * Real.exp (-b) - a ^ 2 * Real.exp (-a)| ≤ (b - a) * ((2 * b + b ^ 2) * Real.exp (-a)) := by
  obtain ⟨x, rfl⟩ : ∃ x, b = a + x := ⟨b - a, by ring⟩
  have x0 : 0 ≤ x := by linarith
  have e0 := Real.exp_pos (-a)
  have f0 := Real.exp_pos (-x)
  have f1 : 1 - x ≤ Real.exp (-x) := Real.one_sub_le_exp_neg x
  have f2 : Real.exp (-x) ≤ 1 := Real.exp_le_one_iff.2 (by linarith)
  have f3 : (1 + x) * Real.exp (-x) ≤ 1 := by
    have := Real.add_one_le_exp x
    have h2 := mul_le_mul_of_nonneg_right this f0.le
    rw [← Real.exp_add, add_neg_cancel, Real.exp_zero] at h2
    linarith
  have e : Real.exp (-(a + x)) = Real.exp (-x) * Real.exp (-a) := by rw [← Real.exp_add]; ring_nf
  rw [e, show a + x - a = x by ring]
  generalize Real.exp (-x) = f at *
  generalize Real.exp (-a) = g at *
  refine ⟨?_, ?_, ?_⟩ <;> rw [abs_le]
  · constructor <;> nlinarith
  · have e1 : (1 + (a + x)) * (f * g) - (1 + a) * g = ((1 + a + x) * f - (1 + a)) * g := by ring
    have e2 : x * ((a + x) * g) = x * (a + x) * g := by ring
    rw [e1, e2, ← neg_mul]
    constructor <;> refine mul_le_mul_of_nonneg_right ?_ e0.le
    · nlinarith
    · nlinarith [mul_nonneg h0 x0, mul_nonneg x0 x0]
  · have e1 : (a + x) ^ 2 * (f * g) - a ^ 2 * g = ((a + x) ^ 2 * f - a ^ 2) * g := by ring
    have e2 : x * ((2 * (a + x) + (a + x) ^ 2) * g) = x * (2 * (a + x) + (a + x) ^ 2) * g := by ring
    rw [e1, e2, ← neg_mul]
    have s0 : 0 ≤ (a + x) ^ 2 := sq_nonneg _
    constructor <;> refine mul_le_mul_of_nonneg_right ?_ e0.le
    · nlinarith [mul_nonneg h0 x0, mul_nonneg x0 x0, mul_nonneg x0 s0, mul_le_mul_of_nonneg_left f1 s0]
    · nlinarith [mul_nonneg h0 x0, mul_nonneg x0 x0, mul_nonneg x0 s0, mul_le_mul_of_nonneg_left f2 s0]

/-- `exp(-a)` with a relative error `δ` and an absolute error `η` of `a`. -/
theorem exp_gap {a b δ η : ℝ} (h0 : 0 ≤ a) (h1 : 0 ≤ b) (hδ0 : 0 ≤ δ) (hδ : δ ≤ 1 / 100) (hη0 : 0 ≤ η) (hη : η ≤ 1 / 100)
    (h : |b - a| ≤ δ * a + η) : |Real.exp (-b) - Real.exp (-a)| ≤ 1 / 2 * δ + η := by
  obtain ⟨l, u⟩ := abs_le.1 h
  have key : ∀ m, 0 ≤ m → (1 - δ) * a - η ≤ m → |b - a| * Real.exp (-m) ≤ 1 / 2 * δ + η := fun m m0 hm => by
    have s := (exp_shift h0 hδ0 hδ hη hm).1
    have e1 : Real.exp (-m) ≤ 1 := Real.exp_le_one_iff.2 (by linarith)
    have e0 := (Real.exp_pos (-m)).le
    have h2 := mul_le_mul_of_nonneg_right h e0
    have h3 := mul_le_mul_of_nonneg_left s hδ0
    have h4 := mul_le_mul_of_nonneg_left e1 hη0
    have e : (δ * a + η) * Real.exp (-m) = δ * (a * Real.exp (-m)) + η * Real.exp (-m) := by ring
    rw [e] at h2
    linarith
  rcases le_total a b with hab | hab
  · refine ((gap_le h0 hab).1).trans ?_
    have := key a h0 (by nlinarith)
    rwa [abs_of_nonneg (sub_nonneg.2 hab)] at this
  · rw [abs_sub_comm]
    refine ((gap_le h1 hab).1).trans ?_
    have := key b h1 (by linarith)
    rwa [abs_sub_comm, abs_of_nonneg (sub_nonneg.2 hab)] at this

/-- `(1 + a) exp(-a)` and `a² exp(-a)`. -/
theorem matern_gap {a b δ η : ℝ} (h0 : 0 ≤ a) (h1 : 0 ≤ b) (hδ0 : 0 ≤ δ) (hδ : δ ≤ 1 / 100) (hη0 : 0 ≤ η) (hη : η ≤ 1 / 100)
    (h : |b - a| ≤ δ * a + η) :
    |(1 + b) * Real.exp (-b) - (1 + a) * Real.exp (-a)| ≤ 7 / 10 * δ + η ∧
    |b ^ 2 * Real.exp (-b) - a ^ 2 * Real.exp (-a)| ≤ 3 * δ + 3 * η := by
  obtain ⟨l, u⟩ := abs_le.1 h
  have hda : 0 ≤ δ * a := mul_nonneg hδ0 h0
  have key : ∀ m c, 0 ≤ m → (1 - δ) * a - η ≤ m → 0 ≤ c → c ≤ (1 + δ) * a + η →
      |b - a| * (c * Real.exp (-m)) ≤ 7 / 10 * δ + η ∧
      |b - a| * ((2 * c + c ^ 2) * Real.exp (-m)) ≤ 3 * δ + 3 * η := fun m c m0 hm c0 hc => by
    obtain ⟨s1, s2, s3⟩ := exp_shift h0 hδ0 hδ hη hm
    have e1 : Real.exp (-m) ≤ 1 := Real.exp_le_one_iff.2 (by linarith)
    have e0 := (Real.exp_pos (-m)).le
    have c1 : c ≤ 102 / 100 * a + η := by nlinarith
    generalize Real.exp (-m) = g at *
    have hcg : c * g ≤ (102 / 100 * a + η) * g := mul_le_mul_of_nonneg_right c1 e0
    have hg2 : (2 * c + c ^ 2) * g ≤ (2 * (102 / 100 * a + η) + (102 / 100 * a + η) ^ 2) * g := by
      refine mul_le_mul_of_nonneg_right ?_ e0
      have := pow_le_pow_left₀ c0 c1 2
      linarith
    have t0 : 0 ≤ δ * a + η := by linarith
    have hηg : η * g ≤ 1 / 100 := by nlinarith
    have hηg0 : 0 ≤ η * g := mul_nonneg hη0 e0
    constructor
    · refine (mul_le_mul h hcg (mul_nonneg c0 e0) t0).trans ?_
      have e : (δ * a + η) * ((102 / 100 * a + η) * g) = 102 / 100 * (δ * (a ^ 2 * g)) + δ * (η * (a * g)) +
        η * (102 / 100 * (a * g)) + η * (η * g) := by ring
      rw [e]
      have k1 := mul_le_mul_of_nonneg_left s2 hδ0
      have k2 := mul_le_mul_of_nonneg_left (mul_le_mul hη s1 (mul_nonneg h0 e0) (by norm_num)) hδ0
      have k3 := mul_le_mul_of_nonneg_left s1 hη0
      have k4 := mul_le_mul_of_nonneg_left hηg hη0
      linarith
    · refine (mul_le_mul h hg2 (mul_nonneg (by positivity) e0) t0).trans ?_
      have e : (δ * a + η) * ((2 * (102 / 100 * a + η) + (102 / 100 * a + η) ^ 2) * g) =
        δ * (204 / 100 * (a ^ 2 * g) + 2 * (η * (a * g)) + (102 / 100) ^ 2 * (a ^ 3 * g) + 204 / 100 * (η * (a ^ 2 * g)) +
          η * (η * (a * g))) +
        η * (204 / 100 * (a * g) + 2 * (η * g) + (102 / 100) ^ 2 * (a ^ 2 * g) + 204 / 100 * (η * (a * g)) +
          η * (η * g)) := by ring
      rw [e]
      have a1 : 0 ≤ a * g := mul_nonneg h0 e0
      have a2 : 0 ≤ a ^ 2 * g := mul_nonneg (sq_nonneg a) e0
      have k1 : η * (a * g) ≤ 1 / 100 * (2 / 5) := mul_le_mul hη s1 a1 (by norm_num)
      have k2 : η * (a ^ 2 * g) ≤ 1 / 100 * (3 / 5) := mul_le_mul hη s2 a2 (by norm_num)
      have k3 : η * (η * (a * g)) ≤ 1 / 100 * (1 / 100 * (2 / 5)) := mul_le_mul hη k1 (mul_nonneg hη0 a1) (by norm_num)
      have k4 : η * (η * g) ≤ 1 / 100 * (1 / 100) := mul_le_mul hη hηg hηg0 (by norm_num)
      have m1 := mul_le_mul_of_nonneg_left (show 204 / 100 * (a ^ 2 * g) + 2 * (η * (a * g)) + (102 / 100) ^ 2 * (a ^ 3 * g) +
        204 / 100 * (η * (a ^ 2 * g)) + η * (η * (a * g)) ≤ 3 by linarith) hδ0
      have m2 := mul_le_mul_of_nonneg_left (show 204 / 100 * (a * g) + 2 * (η * g) + (102 / 100) ^ 2 * (a ^ 2 * g) +
        204 / 100 * (η * (a * g)) + η * (η * g) ≤ 3 by linarith) hη0
      linarith
  rcases le_total a b with hab | hab
  · have := key a b h0 (by nlinarith) h1 (by linarith)
    rw [abs_of_nonneg (sub_nonneg.2 hab)] at this
    exact ⟨(gap_le h0 hab).2.1.trans this.1, (gap_le h0 hab).2.2.trans this.2⟩
  · have := key b a h1 (by linarith) h0 (by nlinarith)
    rw [abs_sub_comm, abs_of_nonneg (sub_nonneg.2 hab)] at this
    rw [abs_sub_comm, abs_sub_comm (b ^ 2 * _)]
    exact ⟨(gap_le h1 hab).2.1.trans this.1, (gap_le h1 hab).2.2.trans this.2⟩

/-- `ln(1 + a)`. -/
theorem log_gap {a b δ η : ℝ} (h0 : 0 ≤ a) (h1 : 0 ≤ b) (hη0 : 0 ≤ η) (hη : η ≤ δ) (hδ : δ ≤ 1 / 100)
    (h : |b - a| ≤ δ * a + η) : |Real.log (1 + b) - Real.log (1 + a)| ≤ 102 / 100 * δ * Real.log (1 + a) + 2 * η := by
  have hδ0 : 0 ≤ δ := hη0.trans hη
  obtain ⟨l, u⟩ := abs_le.1 h
  have pa : 0 < 1 + a := by linarith
  have pb : 0 < 1 + b := by linarith
  have hda : 0 ≤ δ * a := mul_nonneg hδ0 h0
  -- ln x - ln y ≤ (x - y) / y
  have lg : ∀ x y : ℝ, 0 < x → 0 < y → Real.log x - Real.log y ≤ (x - y) / y := fun x y hx hy => by
    rw [← Real.log_div hx.ne' hy.ne']
    have := Real.log_le_sub_one_of_pos (div_pos hx hy)
    have e : x / y - 1 = (x - y) / y := by field_simp
    linarith
  have hlow : a / (1 + a) ≤ Real.log (1 + a) := by
    have := lg 1 (1 + a) one_pos pa
    rw [Real.log_one] at this
    have e : (1 - (1 + a)) / (1 + a) = -(a / (1 + a)) := by rw [← neg_div]; ring_nf
    rw [e] at this
    linarith
  have main : ∀ c, (1 - δ) * (1 + a) ≤ c → |b - a| / c ≤ 102 / 100 * δ * Real.log (1 + a) + 2 * η := fun c hc => by
    have c0 : 0 < (1 - δ) * (1 + a) := mul_pos (by linarith) pa
    have h2 : |b - a| / c ≤ (δ * a + η) / ((1 - δ) * (1 + a)) :=
      div_le_div₀ (by linarith) h c0 hc
    refine h2.trans ?_
    have h3 : (δ * a + η) / ((1 - δ) * (1 + a)) ≤ 102 / 100 * (δ * (a / (1 + a)) + η) := by
      rw [div_le_iff₀ c0]
      have e : 102 / 100 * (δ * (a / (1 + a)) + η) * ((1 - δ) * (1 + a)) =
          102 / 100 * (1 - δ) * (δ * a + η * (1 + a)) := by field_simp
      rw [e]
      have h4 : η ≤ η * (1 + a) := le_mul_of_one_le_right hη0 (by linarith)
      have h5 : (1 : ℝ) ≤ 102 / 100 * (1 - δ) := by linarith
      have h6 : 0 ≤ δ * a + η * (1 + a) := by positivity
      nlinarith
    refine h3.trans ?_
    have := mul_le_mul_of_nonneg_left hlow hδ0
    linarith
  rcases le_total a b with hab | hab
  · rw [abs_of_nonneg (sub_nonneg.2 (Real.log_le_log pa (by linarith)))]
    refine (lg _ _ pb pa).trans (le_trans (le_of_eq ?_) (main (1 + a) (by nlinarith)))
    rw [abs_of_nonneg (sub_nonneg.2 hab)]
    ring_nf
  · rw [abs_sub_comm, abs_of_nonneg (sub_nonneg.2 (Real.log_le_log pb (by linarith)))]
    refine (lg _ _ pa pb).trans (le_trans (le_of_eq ?_) (main (1 + b) (by nlinarith)))
    rw [abs_sub_comm, abs_of_nonneg (sub_nonneg.2 hab)]
    ring_nf

end Lfa

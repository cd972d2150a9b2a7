import Verif.Proofs.AdagradErr
import Verif.Proofs.VelocityErr
import Verif.Proofs.Rounded
import Verif.Props.C95_C96
import Verif.Props.C157

/-! # Rounding errors of moving averages, of bias corrections and of the steps of Adam and AdaMax -/

set_option linter.unusedSectionVars false

namespace Lfa

open Spec Machine XReal

variable {M : Machine}

/-! ## In real arithmetic -/

theorem exp_le_small {x : ℝ} (h0 : 0 ≤ x) (h1 : x ≤ 1 / 2) : Real.exp x ≤ 1 + 2 * x := by
  have h2 := Real.one_sub_le_exp_neg x
  have h3 : Real.exp x * Real.exp (-x) = 1 := by rw [← Real.exp_add, add_neg_cancel, Real.exp_zero]
  have h4 := Real.exp_pos x
  have h5 : Real.exp x * (1 - x) ≤ 1 := by
    have := mul_le_mul_of_nonneg_left h2 h4.le
    linarith
  nlinarith

/-- One update of a moving average: `β v + y`, each operation rounded, where `y` is near `G`. -/
theorem average_near {u τ η c p σ β v V A x y G z : ℝ} (u0 : 0 ≤ u) (β0 : 0 ≤ β) (β1 : β ≤ 1) (c0 : 0 ≤ c) (hp : 1 + c ≤ p)
    (σ0 : 0 ≤ σ) (hV : |V| ≤ A) (hv : |v - V| ≤ (p - 1) * A + σ) (hx : |x - β * v| ≤ u * |β * v| + τ)
    (hy : |y - G| ≤ c * |G| + η) (hz : |z - (x + y)| ≤ u * |x + y|) :
    |z - (β * V + G)| ≤ (p * (1 + u) ^ 2 - 1) * (β * A + |G|) + (1 + u) * ((1 + u) * σ + τ + η) := by
  have A0 : 0 ≤ A := (abs_nonneg _).trans hV
  have hv1 : |v| ≤ p * A + σ := by
    have := abs_add_le (v - V) V
    rw [sub_add_cancel] at this
    linarith
  have h1 : |β * v - β * V| ≤ β * ((p - 1) * A) + σ := by
    rw [← mul_sub, abs_mul, abs_of_nonneg β0]
    have := mul_le_mul_of_nonneg_left hv β0
    have := mul_le_mul_of_nonneg_right β1 σ0
    linarith
  have h2 : |β * v| ≤ β * (p * A) + σ := by
    rw [abs_mul, abs_of_nonneg β0]
    have := mul_le_mul_of_nonneg_left hv1 β0
    have := mul_le_mul_of_nonneg_right β1 σ0
    linarith
  have h3 : |x - β * V| ≤ (p * (1 + u) - 1) * (β * A) + (1 + u) * σ + τ := by
    have := abs_sub_le x (β * v) (β * V)
    have := mul_le_mul_of_nonneg_left h2 u0
    nlinarith
  have h4 : c * |G| ≤ (p * (1 + u) - 1) * |G| := mul_le_mul_of_nonneg_right (by nlinarith) (abs_nonneg G)
  have h5 : |x + y - (β * V + G)| ≤ (p * (1 + u) - 1) * (β * A + |G|) + ((1 + u) * σ + τ + η) := by
    have e : x + y - (β * V + G) = (x - β * V) + (y - G) := by ring
    rw [e]
    have := abs_add_le (x - β * V) (y - G)
    linarith
  have h6 : |β * V + G| ≤ β * A + |G| := by
    have := abs_add_le (β * V) G
    rw [abs_mul, abs_of_nonneg β0] at this
    have := mul_le_mul_of_nonneg_left hV β0
    linarith
  have h7 : |x + y| ≤ |x + y - (β * V + G)| + (β * A + |G|) := by
    have := abs_add_le (x + y - (β * V + G)) (β * V + G)
    rw [sub_add_cancel] at this
    linarith
  have h8 := abs_sub_le z (x + y) (β * V + G)
  have h9 := mul_le_mul_of_nonneg_left h7 u0
  have h10 := mul_le_mul_of_nonneg_left h5 u0
  have hG : 0 ≤ β * A + |G| := by positivity
  nlinarith

/-- `k β^k ≤ (1 - β^k) / (1 - β)`. -/
theorem mul_pow_le {β : ℝ} (β0 : 0 ≤ β) (β1 : β ≤ 1) (k : ℕ) : k * β ^ k * (1 - β) ≤ 1 - β ^ k := by
  have h := mul_neg_geom_sum β k
  rw [← h, mul_comm]
  refine mul_le_mul_of_nonneg_left ?_ (by linarith)
  calc (k : ℝ) * β ^ k = ∑ _j ∈ Finset.range k, β ^ k := by simp
    _ ≤ ∑ j ∈ Finset.range k, β ^ j := Finset.sum_le_sum fun j hj =>
      pow_le_pow_of_le_one β0 β1 (Finset.mem_range.1 hj).le

/-- A bias correction `1 - β^k` whose power is slightly wrong. -/
theorem correction_near {u σ β q c : ℝ} {k : ℕ} (u0 : 0 ≤ u) (u1 : u ≤ 1e-12) (β0 : 0 ≤ β) (β1 : β < 1) (hk : 1 ≤ k)
    (hκ : u ≤ 1e-3 * (1 - β)) (hσ : σ ≤ u * (1 - β)) (hq : |q - β ^ k| ≤ 2 * k * u * β ^ k + σ) (hc : |c - (1 - q)| ≤ u * |1 - q|) :
    0 < 1 - β ^ k ∧ 1 - β ≤ 1 - β ^ k ∧ |c - (1 - β ^ k)| ≤ (3 / (1 - β) + 3) * u * (1 - β ^ k) := by
  have hβ : 0 < 1 - β := by linarith
  have hpow : β ^ k ≤ β := pow_le_of_le_one β0 β1.le (by omega)
  have hD : 1 - β ≤ 1 - β ^ k := by linarith
  refine ⟨by linarith, hD, ?_⟩
  have h1 := mul_pow_le β0 β1.le k
  generalize β ^ k = P at *
  -- the error of the power
  have h2 : 2 * k * u * P ≤ 2 * u / (1 - β) * (1 - P) := by
    rw [div_mul_eq_mul_div, le_div_iff₀ hβ]
    have := mul_le_mul_of_nonneg_left h1 (by linarith : 0 ≤ 2 * u)
    linarith
  have h3 : σ ≤ u * (1 - P) := hσ.trans (mul_le_mul_of_nonneg_left hD u0)
  have h4 : |q - P| ≤ (2 * u / (1 - β) + u) * (1 - P) := by linarith
  have h5 : |1 - q| ≤ (1 - P) + |q - P| := by
    have := abs_sub_le (1 - q) (1 - P) 0
    rw [sub_zero, sub_zero, show 1 - q - (1 - P) = -(q - P) by ring, abs_neg, abs_of_nonneg (by linarith : 0 ≤ 1 - P)] at this
    linarith
  have h6 : |c - (1 - P)| ≤ |c - (1 - q)| + |q - P| := by
    have := abs_sub_le c (1 - q) (1 - P)
    rwa [show 1 - q - (1 - P) = -(q - P) by ring, abs_neg] at this
  have h7 : u / (1 - β) ≤ 1e-3 := by
    rw [div_le_iff₀ hβ]; exact hκ
  have h8 : 0 ≤ u / (1 - β) := by positivity
  have e1 : 2 * u / (1 - β) = 2 * (u / (1 - β)) := by ring
  have e2 : (3 / (1 - β) + 3) * u = 3 * (u / (1 - β)) + 3 * u := by ring
  rw [e1] at h4
  rw [e2]
  generalize u / (1 - β) = k at *
  have hP : 0 ≤ 1 - P := by linarith
  generalize 1 - P = D at *
  have h9 := mul_le_mul_of_nonneg_left (h5.trans (add_le_add_right h4 _)) u0
  have h10 : u * ((2 * k + u) * D) ≤ 1e-12 * ((2 * k + u) * D) := mul_le_mul_of_nonneg_right u1 (by positivity)
  have := mul_nonneg h8 hP
  have := mul_nonneg u0 hP
  nlinarith

/-- A rounded quotient of slightly wrong numbers. -/
theorem quot_near {u τ p σ δ x X A d D z : ℝ} (u0 : 0 ≤ u) (p1 : 1 ≤ p) (σ0 : 0 ≤ σ) (δ0 : 0 ≤ δ) (δ1 : δ ≤ 1 / 2) (hD : 0 < D) (hX : |X| ≤ A)
    (hx : |x - X| ≤ (p - 1) * A + σ) (hd : |d - D| ≤ δ * D) (hz : |z - x / d| ≤ u * |x / d| + τ) :
    |z - X / D| ≤ (p * (1 + 2 * δ) * (1 + u) - 1) * (A / D) + ((1 + 2 * δ) * (1 + u) * (σ / D) + τ) := by
  have A0 : 0 ≤ A := (abs_nonneg _).trans hX
  have hdd := abs_le.1 hd
  have hδ : δ * D ≤ 1 / 2 * D := mul_le_mul_of_nonneg_right δ1 hD.le
  have hd0 : 0 < d := by linarith
  have i0 : 1 / d ≤ (1 + 2 * δ) * (1 / D) := by
    rw [mul_one_div, div_le_div_iff₀ hd0 hD]
    nlinarith [mul_nonneg δ0 hD.le]
  have hx1 : |x| ≤ p * A + σ := by
    have := abs_add_le (x - X) X
    rw [sub_add_cancel] at this
    linarith
  have a1 : |x / d| ≤ (p * A + σ) * ((1 + 2 * δ) * (1 / D)) := by
    rw [div_eq_mul_one_div, abs_mul, abs_of_pos (by positivity : 0 < 1 / d)]
    exact mul_le_mul hx1 i0 (by positivity) (by positivity)
  have a2 : |x / d - X / D| ≤ ((p - 1) * A + σ) * ((1 + 2 * δ) * (1 / D)) + A * (2 * δ * (1 / D)) := by
    have e : x / d - X / D = (x - X) * (1 / d) + X * (1 / d - 1 / D) := by ring
    have i1 : |1 / d - 1 / D| ≤ 2 * δ * (1 / D) := by
      rw [abs_le]
      constructor
      · have : 1 / D - 1 / d = (d - D) * (1 / d) * (1 / D) := by field_simp
        have h1 : (d - D) * (1 / d) ≤ 2 * δ := by
          rw [mul_one_div, div_le_iff₀ hd0]
          nlinarith [mul_nonneg δ0 hD.le]
        have := mul_le_mul_of_nonneg_right h1 (by positivity : 0 ≤ 1 / D)
        linarith
      · linarith
    rw [e]
    refine (abs_add_le _ _).trans (add_le_add ?_ ?_)
    · rw [abs_mul, abs_of_pos (by positivity : 0 < 1 / d)]
      exact mul_le_mul hx i0 (by positivity) ((abs_nonneg _).trans hx)
    · rw [abs_mul]
      exact mul_le_mul hX i1 (abs_nonneg _) A0
  have a3 := abs_sub_le z (x / d) (X / D)
  have a4 := mul_le_mul_of_nonneg_left a1 u0
  rw [div_eq_mul_one_div A, div_eq_mul_one_div σ]
  generalize 1 / D = i at *
  refine a3.trans ((add_le_add (hz.trans (add_le_add_left a4 _)) a2).trans (le_of_eq ?_))
  ring

/-- A rounded multiple of a slightly wrong number. -/
theorem multiple_near {u τ p σ l x X A z : ℝ} (u0 : 0 ≤ u) (hX : |X| ≤ A)
    (hx : |x - X| ≤ (p - 1) * A + σ) (hz : |z - l * x| ≤ u * |l * x| + τ) :
    |z - l * X| ≤ (p * (1 + u) - 1) * (|l| * A) + ((1 + u) * (|l| * σ) + τ) := by
  have hx1 : |x| ≤ p * A + σ := by
    have := abs_add_le (x - X) X
    rw [sub_add_cancel] at this
    linarith
  have a1 : |l * x| ≤ |l| * (p * A + σ) := by
    rw [abs_mul]; exact mul_le_mul_of_nonneg_left hx1 (abs_nonneg l)
  have a2 : |l * x - l * X| ≤ |l| * ((p - 1) * A + σ) := by
    rw [← mul_sub, abs_mul]; exact mul_le_mul_of_nonneg_left hx (abs_nonneg l)
  have a3 := abs_sub_le z (l * x) (l * X)
  have a4 := mul_le_mul_of_nonneg_left a1 u0
  refine a3.trans ((add_le_add (hz.trans (add_le_add_left a4 _)) a2).trans (le_of_eq ?_))
  ring

/-- What enters the first average: `(1 - β) g`. -/
theorem first_near {u τ a A f g y : ℝ} (u0 : 0 ≤ u) (u1 : u ≤ 1e-12) (τ0 : 0 ≤ τ) (A0 : 0 ≤ A) (A1 : A ≤ 1) (ha : |a - A| ≤ u * A)
    (hf : |f - g| ≤ u * |g| + τ) (hy : |y - a * f| ≤ u * |a * f| + τ) : |y - A * g| ≤ 4 * u * |A * g| + 3 * τ := by
  have g0 := abs_nonneg g
  have e1 : |A * g| = A * |g| := by rw [abs_mul, abs_of_nonneg A0]
  have f1 : |f| ≤ (1 + u) * |g| + τ := by
    have := abs_add_le (f - g) g
    rw [sub_add_cancel] at this
    linarith
  have a1 : |a| ≤ (1 + u) * A := by
    have := abs_add_le (a - A) A
    rw [sub_add_cancel, abs_of_nonneg A0] at this
    linarith
  have h1 : |a * f| ≤ ((1 + u) * A) * ((1 + u) * |g| + τ) := by
    rw [abs_mul]; exact mul_le_mul a1 f1 (abs_nonneg _) (by positivity)
  have h2 : |a * f - A * g| ≤ u * A * ((1 + u) * |g| + τ) + A * (u * |g| + τ) := by
    have e : a * f - A * g = (a - A) * f + A * (f - g) := by ring
    rw [e]
    refine (abs_add_le _ _).trans (add_le_add ?_ ?_)
    · rw [abs_mul]; exact mul_le_mul ha f1 (abs_nonneg _) (by positivity)
    · rw [abs_mul, abs_of_nonneg A0]; exact mul_le_mul_of_nonneg_left hf A0
  have h3 := abs_sub_le y (a * f) (A * g)
  have h4 := mul_le_mul_of_nonneg_left h1 u0
  rw [e1]
  have B0 : 0 ≤ A * |g| := by positivity
  have h5 : A * τ ≤ τ := mul_le_of_le_one_left τ0 A1
  have h6 : 0 ≤ A * τ := by positivity
  have e3 : u * ((1 + u) * A * ((1 + u) * |g| + τ)) = (u + 2 * (u * u) + u * u * u) * (A * |g|) + (u + u * u) * (A * τ) := by ring
  have e4 : u * A * ((1 + u) * |g| + τ) + A * (u * |g| + τ) = (2 * u + u * u) * (A * |g|) + (1 + u) * (A * τ) := by ring
  generalize A * |g| = B at *
  generalize A * τ = s at *
  have k1 : u * u ≤ 1e-12 * u := mul_le_mul_of_nonneg_right u1 u0
  have k2 : u * u * u ≤ 1e-12 * u := by nlinarith [mul_nonneg u0 u0]
  have k3 : (3 * u + 3 * (u * u) + u * u * u) * B ≤ 4 * u * B := mul_le_mul_of_nonneg_right (by linarith) B0
  have k4 : (1 + 2 * u + u * u) * s ≤ 2 * s := mul_le_mul_of_nonneg_right (by linarith) h6
  linarith

/-- What enters the second average: `(1 - β) g g`. -/
theorem second_near {u τ A f g y z : ℝ} (u0 : 0 < u) (u1 : u ≤ 1e-12) (τ0 : 0 ≤ τ) (A0 : 0 < A) (A1 : A ≤ 1) (hτ : τ ≤ 1e-3 * (u * A))
    (hf : |f - g| ≤ u * |g| + τ) (hy : |y - A * g| ≤ 4 * u * |A * g| + 3 * τ) (hz : |z - y * f| ≤ u * |y * f| + τ) :
    |z - A * g ^ 2| ≤ 8 * u * (A * g ^ 2) + 2 * τ := by
  have g0 := abs_nonneg g
  rw [abs_mul, abs_of_pos A0] at hy
  have hg : g ^ 2 = |g| ^ 2 := (sq_abs g).symm
  have f1 : |f| ≤ (1 + u) * |g| + τ := by
    have := abs_add_le (f - g) g
    rw [sub_add_cancel] at this
    linarith
  have h2 : |y * f - A * g ^ 2| ≤ (4 * u * (A * |g|) + 3 * τ) * ((1 + u) * |g| + τ) + A * |g| * (u * |g| + τ) := by
    have e : y * f - A * g ^ 2 = (y - A * g) * f + A * g * (f - g) := by ring
    rw [e]
    refine (abs_add_le _ _).trans (add_le_add ?_ ?_)
    · rw [abs_mul]; exact mul_le_mul hy f1 (abs_nonneg _) (by positivity)
    · rw [abs_mul, abs_mul, abs_of_pos A0]; exact mul_le_mul_of_nonneg_left hf (by positivity)
  have h3 := abs_sub_le z (y * f) (A * g ^ 2)
  have h4 : |y * f| ≤ |y * f - A * g ^ 2| + A * g ^ 2 := by
    have := abs_add_le (y * f - A * g ^ 2) (A * g ^ 2)
    rwa [sub_add_cancel, abs_of_nonneg (by positivity : 0 ≤ A * g ^ 2)] at this
  rw [hg] at *
  generalize |g| = h at *
  -- the cross terms: `5 τ h ≤ u A h² + τ / 100`
  have cross : 5 * τ * h ≤ u * A * h ^ 2 + τ / 100 := by
    have h1 : 5 * τ * h ≤ u * A * h ^ 2 + (5 / 2) ^ 2 * τ * (τ / (u * A)) := by
      have hua : 0 < u * A := by positivity
      have : 0 ≤ (u * A * h - 5 / 2 * τ) ^ 2 / (u * A) := by positivity
      have e : (u * A * h - 5 / 2 * τ) ^ 2 / (u * A) = u * A * h ^ 2 - 5 * τ * h + (5 / 2) ^ 2 * τ * (τ / (u * A)) := by
        field_simp
        ring
      linarith
    have h2 : τ / (u * A) ≤ 1e-3 := by
      rw [div_le_iff₀ (by positivity)]; exact hτ
    have h3 := mul_le_mul_of_nonneg_left h2 (by positivity : 0 ≤ (5 / 2) ^ 2 * τ)
    linarith
  have hτu : τ ≤ 1e-15 := by
    have : u * A ≤ u := mul_le_of_le_one_right u0.le A1
    linarith
  have k0 : A * h * τ ≤ h * τ := by
    have := mul_le_of_le_one_left (by positivity : 0 ≤ h * τ) A1
    linarith
  have B0 : 0 ≤ A * h ^ 2 := by positivity
  have c0 : 0 ≤ h * τ := by positivity
  have ee : (4 * u * (A * h) + 3 * τ) * ((1 + u) * h + τ) + A * h * (u * h + τ)
      = (5 * u + 4 * (u * u)) * (A * h ^ 2) + (4 * u + 1) * (A * h * τ) + 3 * (1 + u) * (h * τ) + 3 * (τ * τ) := by ring
  rw [ee] at h2
  have k1 : u * u ≤ 1e-12 * u := mul_le_mul_of_nonneg_right u1 u0.le
  have k5 : τ * τ ≤ 1e-15 * τ := mul_le_mul_of_nonneg_right hτu τ0
  have k6 : (4 * u + 1) * (A * h * τ) ≤ (4 * u + 1) * (h * τ) := mul_le_mul_of_nonneg_left k0 (by linarith)
  have k7 : (4 + 7 * u) * (h * τ) ≤ 5 * (h * τ) := mul_le_mul_of_nonneg_right (by linarith) c0
  have k8 : (5 * u + 4 * (u * u)) * (A * h ^ 2) ≤ 5.1 * u * (A * h ^ 2) := mul_le_mul_of_nonneg_right (by linarith) B0
  have h5 : |y * f - A * h ^ 2| ≤ 6.1 * u * (A * h ^ 2) + τ / 10 := by linarith
  have k9 := mul_le_mul_of_nonneg_left (h4.trans (add_le_add_left h5 _)) u0.le
  have k10 : u * u * (A * h ^ 2) ≤ 1e-12 * u * (A * h ^ 2) := mul_le_mul_of_nonneg_right k1 B0
  have k11 : u * τ ≤ 1e-12 * τ := mul_le_mul_of_nonneg_right u1 τ0
  linarith

/-! ## In rounded arithmetic -/

theorem discounted_step (a : ℝ) (f : ℕ → ℝ) (t : ℕ) : discounted a f (t + 1) = a * discounted a f t + f t := by
  unfold discounted
  rw [Finset.sum_range_succ, Finset.mul_sum, show t + 1 - 1 - t = 0 by omega, pow_zero, one_mul]
  congr 1
  refine Finset.sum_congr rfl fun j hj => ?_
  have := Finset.mem_range.1 hj
  rw [show t + 1 - 1 - j = (t - 1 - j) + 1 by omega, pow_succ]
  ring

theorem discounted_abs {a : ℝ} (a0 : 0 ≤ a) (f : ℕ → ℝ) (t : ℕ) : |discounted a f t| ≤ discounted a (fun s => |f s|) t := by
  unfold discounted
  refine (Finset.abs_sum_le_sum_abs _ _).trans (le_of_eq (Finset.sum_congr rfl fun j _ => ?_))
  rw [abs_mul, abs_of_nonneg (pow_nonneg a0 _)]

/-- A moving average over a run. -/
theorem average_run (hM : M.rnd = binary64Format.rnd) {b : FP M} {β : ℝ} (hb : Is b β) (β0 : 0 ≤ β) (β1 : β ≤ 1) {v g : ℕ → FP M}
    {G : ℕ → ℝ} {c η : ℝ} (c0 : 0 ≤ c) (η0 : 0 ≤ η) {T : ℕ} (h0 : v 0 = Scalar.zero)
    (hg : ∀ t < T, ∀ y, Is (g t) y → |y - G t| ≤ c * |G t| + η)
    (hv : ∀ t < T, v (t + 1) = (b *. v t +. g t) ∨ (G t = 0 ∧ v (t + 1) = v t *. b) ∨ v (t + 1) = (v t *. b +. g t))
    (hfin : ∀ t ≤ T, Finite (v t)) :
    ∀ t ≤ T, |real (v t) - discounted β G t| ≤ ((1 + roundoff) ^ (2 * t) * (1 + c) - 1) * discounted β (fun s => |G s|) t +
        t * (1 + roundoff) ^ (2 * t) * (tiny + η) := by
  have u0 := roundoff_pos
  have τ0 := tiny_pos
  -- the parts of one update
  have parts : ∀ t < T, ∀ z, Is (v (t + 1)) z → ∃ a x y, Is (v t) a ∧ |x - β * a| ≤ roundoff * |β * a| + tiny ∧
      |y - G t| ≤ c * |G t| + η ∧ |z - (x + y)| ≤ roundoff * |x + y| := by
    intro t ht z hz
    rcases hv t ht with h | ⟨hG, h⟩ | h <;> rw [h] at hz
    · obtain ⟨x, y, hx, hy, hxy⟩ := add_err hM hz
      obtain ⟨b', a, hb', ha, hba⟩ := mul_err hM hx
      cases is_fun hb' hb
      exact ⟨a, x, y, ha, hba, hg t ht y hy, hxy⟩
    · obtain ⟨a, b', ha, hb', hba⟩ := mul_err hM hz
      cases is_fun hb' hb
      refine ⟨a, z, 0, ha, by rwa [mul_comm a β] at hba, by rw [hG]; simpa using η0, ?_⟩
      rw [add_zero, sub_self, abs_zero]
      positivity
    · obtain ⟨x, y, hx, hy, hxy⟩ := add_err hM hz
      obtain ⟨a, b', ha, hb', hba⟩ := mul_err hM hx
      cases is_fun hb' hb
      exact ⟨a, x, y, ha, by rwa [mul_comm a β] at hba, hg t ht y hy, hxy⟩
  intro t ht
  induction t with
  | zero =>
    rw [h0, real_zero']
    simp [discounted]
  | succ t ih =>
    have i2 := ih (by omega)
    have i1 := discounted_abs β0 G t
    obtain ⟨z, hz⟩ := hfin (t + 1) ht
    obtain ⟨a, x, y, ha, hx, hy, hxy⟩ := parts t (by omega) z hz
    rw [is_real ha] at i2
    rw [is_real hz, discounted_step, discounted_step]
    have p1 : 1 ≤ (1 + roundoff) ^ (2 * t) := one_le_pow₀ (by linarith)
    have := average_near u0.le β0 β1 c0 (le_mul_of_one_le_left (by linarith) p1) (by positivity) i1 i2 hx hy hxy
    refine this.trans ?_
    rw [show 2 * (t + 1) = 2 * t + 2 by ring, pow_add]
    generalize (1 + roundoff) ^ (2 * t) = p at *
    have k1 : (1 + roundoff) * (tiny + η) ≤ p * ((1 + roundoff) ^ 2 * (tiny + η)) := by
      have : (1 + roundoff) * (tiny + η) ≤ (1 + roundoff) ^ 2 * (tiny + η) := mul_le_mul_of_nonneg_right (by nlinarith) (by positivity)
      exact this.trans (le_mul_of_one_le_left (by positivity) p1)
    push_cast
    linarith

/-- The powers of `β`, computed by repeated multiplication. -/
theorem product_run (hM : M.rnd = binary64Format.rnd) {b : FP M} {β : ℝ} (hb : Is b β) (β0 : 0 ≤ β) (β1 : β ≤ 1) {p : ℕ → FP M}
    (h0 : p 0 = b) (hp : ∀ t, p (t + 1) = (p t *. b)) (t : ℕ) :
    ∃ q, Is (p t) q ∧ 0 ≤ q ∧ q ≤ β ∧
      |q - β ^ (t + 1)| ≤ ((1 + roundoff) ^ t - 1) * β ^ (t + 1) + t * (1 + roundoff) ^ t * tiny := by
  have u0 := roundoff_pos
  have τ0 := tiny_pos
  induction t with
  | zero =>
    refine ⟨β, by rw [h0]; exact hb, β0, le_refl _, ?_⟩
    simp
  | succ t ih =>
    obtain ⟨q, hq, q0, q1, hqe⟩ := ih
    have hv : (p (t + 1)).1 = M.rnd (q * β) := by rw [hp, val_mul, hq, hb]; rfl
    have h1 := rnd_nonneg (M := M) (mul_nonneg q0 β0)
    have h2 := M.rnd_mono (show q * β ≤ β from mul_le_of_le_one_left β0 (q1.trans β1))
    rw [b.2 β hb] at h2
    obtain ⟨r, hr, r0, r1⟩ := fin_of_between h1 h2
    have hr' : Is (p (t + 1)) r := hv.trans hr
    refine ⟨r, hr', r0, r1, ?_⟩
    have hr'' := hr'
    rw [hp] at hr''
    obtain ⟨q', β', hq', hβ', he⟩ := mul_err hM hr''
    cases is_fun hq hq'
    cases is_fun hb hβ'
    have P0 : 0 ≤ β ^ (t + 1) := pow_nonneg β0 _
    have := multiple_near (l := β) (p := (1 + roundoff) ^ t) (A := β ^ (t + 1)) (X := β ^ (t + 1)) u0.le
      (abs_of_nonneg P0).le hqe (by rwa [mul_comm q β] at he)
    rw [abs_of_nonneg β0] at this
    rw [pow_succ β (t + 1), mul_comm (β ^ (t + 1)) β, pow_succ (1 + roundoff) t]
    refine this.trans (add_le_add_right ?_ _)
    have s0 : 0 ≤ t * (1 + roundoff) ^ t * tiny := by positivity
    have h3 := mul_le_mul_of_nonneg_left (mul_le_of_le_one_left s0 β1) (by linarith : 0 ≤ 1 + roundoff)
    have p1 : 1 ≤ (1 + roundoff) ^ t * (1 + roundoff) := by
      rw [← pow_succ]; exact one_le_pow₀ (by linarith)
    have h4 : tiny ≤ (1 + roundoff) ^ t * (1 + roundoff) * tiny := le_mul_of_one_le_left τ0.le p1
    push_cast
    linarith

/-- The bias correction of call `t`. -/
theorem correction_run (hM : M.rnd = binary64Format.rnd) {b : FP M} {β : ℝ} (hb : Is b β) (β0 : 0 ≤ β) (β1 : β ≤ 1 - 2 ^ (-40 : ℤ))
    {p : ℕ → FP M} (h0 : p 0 = b) (hp : ∀ t, p (t + 1) = (p t *. b)) {t : ℕ} (ht : t < 2 ^ 40) :
    1 - β ≤ 1 - β ^ (t + 2) ∧ ∃ c, Is (Scalar.ofNat 1 -. p (t + 1)) c ∧
      |c - (1 - β ^ (t + 2))| ≤ (3 / (1 - β) + 3) * roundoff * (1 - β ^ (t + 2)) := by
  have u0 := roundoff_pos
  have τ0 := tiny_pos
  have hpos : (0 : ℝ) < 2 ^ (-40 : ℤ) := by positivity
  have hβ : 2 ^ (-40 : ℤ) ≤ 1 - β := by linarith
  obtain ⟨q, hq, q0, q1, hqe⟩ := product_run hM hb β0 (by linarith) h0 hp (t + 1)
  obtain ⟨c, hc, -⟩ := complement hM hq q0 (by linarith)
  obtain ⟨x, y, hx, hy, hxy⟩ := sub_err hM hc
  cases is_fun hy hq
  cases is_fun hx val_ofNat_one
  have hg := growth (k := t + 1) ht
  have P0 : 0 ≤ β ^ (t + 2) := pow_nonneg β0 _
  have hσ : ((t + 1 : ℕ) : ℝ) * (1 + roundoff) ^ (t + 1) * tiny ≤ roundoff * (1 - β) := by
    have h1 : ((t + 1 : ℕ) : ℝ) ≤ 2 ^ 40 := by exact_mod_cast ht
    have h2 : ((t + 1 : ℕ) : ℝ) * (1 + roundoff) ^ (t + 1) ≤ 2 ^ 40 * 2 := mul_le_mul h1 hg.2 (by positivity) (by positivity)
    refine (mul_le_mul_of_nonneg_right h2 τ0.le).trans ?_
    have h3 : tiny ≤ (2 : ℝ) ^ (-200 : ℤ) := zpow_le_zpow_right₀ (by norm_num) (by norm_num)
    refine (mul_le_mul_of_nonneg_left h3 (by positivity)).trans ?_
    have h4 := mul_le_mul_of_nonneg_left hβ u0.le
    refine le_trans ?_ h4
    norm_num [roundoff]
  have := correction_near (k := t + 2) u0.le (by norm_num [roundoff]) β0 (by linarith) (by omega)
    ((by norm_num [roundoff] : roundoff ≤ 1e-3 * 2 ^ (-40 : ℤ)).trans (mul_le_mul_of_nonneg_left hβ (by norm_num))) hσ
    (hqe.trans (add_le_add_left (mul_le_mul_of_nonneg_right (by
      have := hg.1
      push_cast at this ⊢
      linarith) P0) _)) hxy
  exact ⟨this.2.1, c, hc, this.2.2⟩

/-- A finite quotient by a finite number has a finite dividend. -/
theorem finite_dividend {a b : FP M} {y z : ℝ} (hy : Is b y) (hz : Is (a /. b) z) : Finite a := by
  have hv : (a /. b).1 = (M.round (XReal.div a.1 (.fin y))).1 := by rw [val_div, hy]
  have hz' : (M.round (XReal.div a.1 (.fin y))).1 = .fin z := by rw [← hv]; exact hz
  obtain ⟨r, hr, -⟩ := fin_of_round hz'
  rcases hx : a.1 with _ | _ | _ | x
  all_goals first | exact ⟨x, hx⟩ | skip
  all_goals
    rw [hx] at hr
    simp only [XReal.div, XReal.infSign] at hr
    first | cases hr | (split_ifs at hr <;> cases hr)

/-- The step `lr (m / c) / d`, each operation rounded. -/
theorem bias_step (hM : M.rnd = binary64Format.rnd) {lr m c d : FP M} {l x X A p σ C D₁ δ₁ e D₂ δ₂ z : ℝ} (hl : Is lr l) (hm : Is m x)
    (hc : Is c C) (hd : Is d e) (p1 : 1 ≤ p) (σ0 : 0 ≤ σ) (hX : |X| ≤ A) (hx : |x - X| ≤ (p - 1) * A + σ)
    (h10 : 0 ≤ δ₁) (h11 : δ₁ ≤ 1 / 2) (hD₁ : 0 < D₁) (hC : |C - D₁| ≤ δ₁ * D₁)
    (h20 : 0 ≤ δ₂) (h21 : δ₂ ≤ 1 / 2) (hD₂ : 0 < D₂) (he : |e - D₂| ≤ δ₂ * D₂) (hz : Is (lr *. (m /. c) /. d) z) :
    |z - l * (X / D₁) / D₂| ≤ (p * (1 + 2 * δ₁) * (1 + roundoff) * (1 + roundoff) * (1 + 2 * δ₂) * (1 + roundoff) - 1) *
        (|l| * (A / D₁) / D₂) +
      ((1 + 2 * δ₂) * (1 + roundoff) * (((1 + roundoff) * (|l| * ((1 + 2 * δ₁) * (1 + roundoff) * (σ / D₁) + tiny)) + tiny) / D₂) +
        tiny) := by
  have u0 := roundoff_pos
  have τ0 := tiny_pos
  have A0 : 0 ≤ A := (abs_nonneg _).trans hX
  have pos : ∀ {a D δ : ℝ}, 0 < D → δ ≤ 1 / 2 → |a - D| ≤ δ * D → a ≠ 0 := fun hD h1 h2 => by
    have := (abs_le.1 h2).1
    have := mul_le_mul_of_nonneg_right h1 hD.le
    intro h
    linarith
  obtain ⟨r, hr⟩ := finite_dividend hd hz
  obtain ⟨l', q, hl', hq, hlq⟩ := mul_err hM hr
  cases is_fun hl hl'
  have hqe := div_err hM hm hc (pos hD₁ h11 hC) hq
  have hze := div_err hM hr hd (pos hD₂ h21 he) hz
  have k1 := quot_near u0.le p1 σ0 h10 h11 hD₁ hX hx hC hqe
  have hXD : |X / D₁| ≤ A / D₁ := by
    rw [abs_div, abs_of_pos hD₁]; exact div_le_div_of_nonneg_right hX hD₁.le
  have k2 := multiple_near u0.le hXD k1 hlq
  have hlX : |l * (X / D₁)| ≤ |l| * (A / D₁) := by
    rw [abs_mul]; exact mul_le_mul_of_nonneg_left hXD (abs_nonneg l)
  have one : ∀ {a b : ℝ}, 1 ≤ a → 1 ≤ b → 1 ≤ a * b := fun ha hb => by nlinarith
  exact quot_near u0.le (one (one (one p1 (by linarith)) (by linarith)) (by linarith)) (by positivity) h20 h21 hD₂ hlX k2 he hze

/-- The growth of the relative errors of one step. -/
theorem step_growth {u E₁ δ₁ E₂ p : ℝ} (u0 : 0 ≤ u) (hp : p ≤ Real.exp E₁) (p0 : 0 ≤ p) (δ0 : 0 ≤ δ₁) (E0 : 0 ≤ E₁) (e0 : 0 ≤ E₂)
    (hE : E₁ + 2 * δ₁ + 2 * E₂ + 3 * u ≤ 1 / 2) :
    p * (1 + 2 * δ₁) * (1 + u) * (1 + u) * (1 + 2 * E₂) * (1 + u) - 1 ≤ 2 * (E₁ + 2 * δ₁ + 2 * E₂ + 3 * u) := by
  have f : ∀ x : ℝ, 0 ≤ x → 0 ≤ 1 + x ∧ 1 + x ≤ Real.exp x := fun x hx => ⟨by linarith, by have := Real.add_one_le_exp x; linarith⟩
  have h1 := f (2 * δ₁) (by linarith)
  have h2 := f u u0
  have h3 := f (2 * E₂) (by linarith)
  have mul : ∀ {a b x y : ℝ}, 0 ≤ a → a ≤ Real.exp x → 0 ≤ b ∧ b ≤ Real.exp y → 0 ≤ a * b ∧ a * b ≤ Real.exp (x + y) := by
    intro a b x y ha hx hb
    refine ⟨mul_nonneg ha hb.1, ?_⟩
    rw [Real.exp_add]
    exact mul_le_mul hx hb.2 hb.1 (Real.exp_pos x).le
  have a1 := mul p0 hp h1
  have a2 := mul a1.1 a1.2 h2
  have a3 := mul a2.1 a2.2 h2
  have a4 := mul a3.1 a3.2 h3
  have a5 := mul a4.1 a4.2 h2
  have := exp_le_small (x := E₁ + 2 * δ₁ + u + u + 2 * E₂ + u) (by linarith) (by linarith)
  linarith [a5.2]

/-- The sign of a square times a non-negative number. -/
theorem square_nonneg {c g : FP M} {a γ y : ℝ} (hc : Is c a) (ha : 0 ≤ a) (hg : Is g γ) (hy : Is (c *. g *. g) y) : 0 ≤ y := by
  obtain ⟨r, h1, h2⟩ := fin_of_round ((val_mul _ g).symm.trans hy)
  obtain ⟨f, γ', hf, hγ', rfl⟩ := fin_of_mul h1
  cases is_fun hg hγ'
  have e : (c *. g).1 = M.rnd (a * γ) := by rw [val_mul, hc, hg]; rfl
  rw [hf] at e
  have h3 : 0 ≤ f * γ := by
    rcases le_total 0 γ with h0 | h0
    · have := rnd_nonneg (M := M) (mul_nonneg ha h0)
      rw [← e] at this
      exact mul_nonneg this h0
    · have := rnd_nonpos (M := M) (mul_nonpos_of_nonneg_of_nonpos ha h0)
      rw [← e] at this
      exact mul_nonneg_of_nonpos_of_nonpos this h0
  have := rnd_nonneg (M := M) h3
  rw [h2] at this
  exact this

/-- The divisor `√(v / c) + 1e-7`, each operation rounded. -/
theorem root_divisor (hM : M.rnd = binary64Format.rnd) {v c : FP M} {x X C D δ ρ p σ : ℝ} (hv : Is v x) (hvb : Bounded (2 ^ 980) v)
    (x0 : 0 ≤ x) (X0 : 0 ≤ X) (hc : Is c C) (hC0 : 2 ^ (-41 : ℤ) ≤ C) (hD : 2 ^ (-40 : ℤ) ≤ D) (p1 : 1 ≤ p) (σ0 : 0 ≤ σ)
    (hx : |x - X| ≤ (p - 1) * X + σ) (δ0 : 0 ≤ δ) (δ1 : δ ≤ 1 / 2) (hC : |C - D| ≤ δ * D)
    (hρ : p * (1 + 2 * δ) * (1 + roundoff) - 1 ≤ ρ) (ρ1 : ρ ≤ 1 / 2) (hσ : σ ≤ 2 ^ 45 * tiny) :
    ∃ e, Is (Scalar.sqrt (v /. c) +. EPS) e ∧ |e - (√(X / D) + 1e-7)| ≤ (ρ + 4 * roundoff) * (√(X / D) + 1e-7) := by
  have u0 := roundoff_pos
  have τ0 := tiny_pos
  have hpow : (0 : ℝ) < 2 ^ (-41 : ℤ) := by positivity
  have hpow' : (0 : ℝ) < 2 ^ (-40 : ℤ) := by positivity
  have hD0 : 0 < D := by linarith
  have hC1 : 0 < C := by linarith
  obtain ⟨s, hs, -⟩ := bounded_div hM (k := 980) (j := 41) (by norm_num) hvb (z := c) (by
    have hc' : c.1 = .fin C := hc
    rw [hc']; exact fin_le_fin.2 hC0)
  have hse := div_err hM hv hc hC1.ne' hs
  have hs0 : 0 ≤ s := by
    have e : (v /. c).1 = M.rnd (x / C) := by
      rw [val_div, hv, hc]
      show (M.round (if C = 0 then _ else .fin (x / C))).1 = _
      rw [if_neg hC1.ne']; rfl
    have := rnd_nonneg (M := M) (div_nonneg x0 hC1.le)
    rw [← e, hs] at this
    exact this
  have k1 := quot_near u0.le p1 σ0 δ0 δ1 hD0 (abs_of_nonneg X0).le hx hC hse
  have S0 : 0 ≤ X / D := div_nonneg X0 hD0.le
  have ρ0 : 0 ≤ ρ := le_trans (by
    have : 1 ≤ p * (1 + 2 * δ) := by nlinarith
    nlinarith) hρ
  have hτ : (1 + 2 * δ) * (1 + roundoff) * (σ / D) + tiny ≤ ((2 : ℝ) ^ (-490 : ℤ)) ^ 2 := by
    have h1 : (1 + 2 * δ) * (1 + roundoff) ≤ 4 := by
      have : roundoff ≤ 1 := by norm_num [roundoff]
      nlinarith
    have h2 : σ / D ≤ 2 ^ 85 * tiny := by
      rw [div_le_iff₀ hD0]
      refine hσ.trans ?_
      have h3 := mul_le_mul_of_nonneg_left hD (by positivity : 0 ≤ 2 ^ 85 * tiny)
      refine le_trans (le_of_eq ?_) h3
      rw [mul_right_comm]
      congr 1
      norm_num
    have h3 : (1 + 2 * δ) * (1 + roundoff) * (σ / D) ≤ 4 * (2 ^ 85 * tiny) := mul_le_mul h1 h2 (by positivity) (by norm_num)
    have h4 : 4 * (2 ^ 85 * tiny) + tiny ≤ 2 ^ 88 * tiny := by
      have : 4 * (2 ^ 85 * tiny) + tiny = (4 * 2 ^ 85 + 1) * tiny := by ring
      rw [this]
      exact mul_le_mul_of_nonneg_right (by norm_num) τ0.le
    refine (add_le_add_left h3 _).trans (h4.trans ?_)
    unfold tiny
    rw [← zpow_natCast, ← zpow_add₀ (by norm_num), ← zpow_natCast, ← zpow_mul]
    exact zpow_le_zpow_right₀ (by norm_num) (by norm_num)
  have small : (2 : ℝ) ^ (-83 : ℤ) ≤ roundoff * 1e-9 := by norm_num [roundoff]
  have τ1 : tiny ≤ roundoff * 1e-9 := le_trans (zpow_le_zpow_right₀ (by norm_num) (by norm_num)) small
  have σ1 : (2 : ℝ) ^ (-490 : ℤ) ≤ roundoff * 1e-9 := le_trans (zpow_le_zpow_right₀ (by norm_num) (by norm_num)) small
  have σ0' : 0 ≤ (2 : ℝ) ^ (-490 : ℤ) := by positivity
  generalize (2 : ℝ) ^ (-490 : ℤ) = ς at *
  have hroot := sqrt_near hs0 S0 ρ0 (by linarith) σ0' (k1.trans (add_le_add (mul_le_mul_of_nonneg_right hρ S0) hτ))
  obtain ⟨r, hr⟩ := finite_sqrt hM hs hs0
  have hr1 := sqrt_err hM hs hs0 hr
  obtain ⟨e, he, he1⟩ := eps_err hM
  have u1 : roundoff ≤ 1e-12 := by norm_num [roundoff]
  have he2 : |e| ≤ 1 := by
    have := abs_le.1 he1
    rw [abs_le]
    constructor <;> linarith
  obtain ⟨d, hd⟩ := finite_add hM ⟨r, hr⟩ ⟨e, he, he2.trans (one_le_zpow₀ (by norm_num) (by norm_num))⟩
  obtain ⟨r', e', hr', he', hd1⟩ := add_err hM hd
  cases is_fun hr hr'
  cases is_fun he he'
  exact ⟨d, hd, divisor_near u0 (by norm_num [roundoff]) τ1 σ1 ρ0 ρ1 (Real.sqrt_nonneg _) hroot hr1 he1 hd1⟩

/-- The underflow of one step. -/
theorem step_underflow {u τ l σ D₁ D₂ δ₁ δ₂ T k : ℝ} (u0 : 0 ≤ u) (u1 : u ≤ 1e-3) (τ0 : 0 ≤ τ) (l0 : 0 ≤ l) (σ0 : 0 ≤ σ) (hD₁ : 1 / D₁ ≤ k)
    (D₁0 : 0 < D₁) (hD₂ : 1e-7 ≤ D₂) (h1 : 0 ≤ δ₁) (h1' : δ₁ ≤ 1 / 4) (h2' : δ₂ ≤ 1 / 4) (hT : 1 ≤ T) (hk : 1 ≤ k)
    (hσ : σ ≤ 8 * T * τ) :
    (1 + 2 * δ₂) * (1 + u) * (((1 + u) * (l * ((1 + 2 * δ₁) * (1 + u) * (σ / D₁) + τ)) + τ) / D₂) + τ ≤
      (68 * T * l * k + 3) * 10 ^ 7 * τ := by
  have D₂0 : 0 < D₂ := lt_of_lt_of_le (by norm_num) hD₂
  have k0 : 0 < 1 / D₁ := by positivity
  have a1 : (1 + 2 * δ₁) * (1 + u) ≤ 2 := by nlinarith
  have a2 : (1 + 2 * δ₂) * (1 + u) ≤ 2 := by nlinarith
  have b1 : σ / D₁ ≤ 8 * T * τ * k := by
    rw [div_eq_mul_one_div]
    exact mul_le_mul hσ hD₁ k0.le (by positivity)
  have b0 : 0 ≤ σ / D₁ := by positivity
  have b2 : (1 + 2 * δ₁) * (1 + u) * (σ / D₁) ≤ 2 * (8 * T * τ * k) := mul_le_mul a1 b1 b0 (by norm_num)
  have hTk : 1 ≤ T * k := by nlinarith
  have b3 : τ ≤ T * τ * k := by
    have := mul_le_mul_of_nonneg_right hTk τ0
    linarith
  have b4 : (1 + 2 * δ₁) * (1 + u) * (σ / D₁) + τ ≤ 17 * (T * τ * k) := by linarith
  have b5 : l * ((1 + 2 * δ₁) * (1 + u) * (σ / D₁) + τ) ≤ l * (17 * (T * τ * k)) := mul_le_mul_of_nonneg_left b4 l0
  have c0 : 0 ≤ (1 + 2 * δ₁) * (1 + u) * (σ / D₁) + τ := by positivity
  have b6 : (1 + u) * (l * ((1 + 2 * δ₁) * (1 + u) * (σ / D₁) + τ)) ≤ 2 * (l * (17 * (T * τ * k))) :=
    mul_le_mul (by linarith) b5 (by positivity) (by norm_num)
  have b7 : ((1 + u) * (l * ((1 + 2 * δ₁) * (1 + u) * (σ / D₁) + τ)) + τ) / D₂ ≤ (2 * (l * (17 * (T * τ * k))) + τ) * 10 ^ 7 := by
    rw [div_le_iff₀ D₂0]
    have n0 : 0 ≤ (2 * (l * (17 * (T * τ * k))) + τ) * 10 ^ 7 := by positivity
    have := mul_le_mul_of_nonneg_left hD₂ n0
    linarith
  have c1 : 0 ≤ ((1 + u) * (l * ((1 + 2 * δ₁) * (1 + u) * (σ / D₁) + τ)) + τ) / D₂ := by positivity
  have b8 := mul_le_mul a2 b7 c1 (by norm_num)
  refine (add_le_add_left b8 _).trans ?_
  have e : (68 * T * l * k + 3) * 10 ^ 7 * τ = 2 * ((2 * (l * (17 * (T * τ * k))) + τ) * 10 ^ 7) + 10 ^ 7 * τ := by ring
  rw [e]
  linarith

/-- Powers of `1 + u` over a run. -/
theorem run_growth {T t : ℕ} (hT : T ≤ 2 ^ 40) (ht : t < T) :
    1 ≤ (1 + roundoff) ^ (2 * (t + 1)) ∧ (1 + roundoff) ^ (2 * (t + 1)) ≤ 2 ∧
      (1 + roundoff) ^ (2 * (t + 1)) ≤ Real.exp (2 * T * roundoff) := by
  have u0 := roundoff_pos
  refine ⟨one_le_pow₀ (by linarith), ?_, ?_⟩
  · refine (growth_le (k := 2 * (t + 1)) (by
      have : (2 : ℕ) * 2 ^ 40 ≤ 2 ^ 52 := by norm_num
      omega)).trans ?_
    have h1 : ((2 * (t + 1) : ℕ) : ℝ) ≤ 2 * 2 ^ 40 := by
      have : 2 * (t + 1) ≤ 2 * 2 ^ 40 := by omega
      exact_mod_cast this
    have h2 := mul_le_mul_of_nonneg_right h1 u0.le
    have h3 : 2 * 2 ^ 40 * roundoff ≤ 1 / 2 := by norm_num [roundoff]
    linarith
  · refine (pow_le_pow_left₀ (by linarith) (show 1 + roundoff ≤ Real.exp roundoff by linarith [Real.add_one_le_exp roundoff]) _).trans ?_
    rw [← Real.exp_nat_mul]
    refine Real.exp_le_exp.2 (mul_le_mul_of_nonneg_right ?_ u0.le)
    have : 2 * (t + 1) ≤ 2 * T := by omega
    exact_mod_cast this

theorem run_underflow {T t : ℕ} (hT : T ≤ 2 ^ 40) (ht : t < T) {η : ℝ} (η0 : 0 ≤ η) :
    ((t + 1 : ℕ) : ℝ) * (1 + roundoff) ^ (2 * (t + 1)) * η ≤ 2 * T * η := by
  have h1 : ((t + 1 : ℕ) : ℝ) ≤ T := by exact_mod_cast ht
  have h2 := (run_growth hT ht).2.1
  have u0 := roundoff_pos
  refine mul_le_mul_of_nonneg_right ?_ η0
  rw [mul_comm 2 (T : ℝ)]
  exact mul_le_mul h1 h2 (by positivity) (by positivity)

/-- The reciprocal of `1 - β`. -/
theorem recip_beta {β D : ℝ} (β0 : 0 ≤ β) (β1 : β ≤ 1 - 2 ^ (-40 : ℤ)) (hD : 1 - β ≤ D) :
    0 < 1 - β ∧ 2 ^ (-40 : ℤ) ≤ D ∧ 0 < D ∧ 1 / D ≤ 1 / (1 - β) ∧ 1 ≤ 1 / (1 - β) ∧ 1 / (1 - β) * roundoff ≤ 1 / 8192 := by
  have h0 : (0 : ℝ) < 2 ^ (-40 : ℤ) := by positivity
  have h1 : 0 < 1 - β := by linarith
  refine ⟨h1, by linarith, by linarith, one_div_le_one_div_of_le h1 hD, ?_, ?_⟩
  · rw [le_div_iff₀ h1]; linarith
  · rw [one_div, inv_mul_le_iff₀ h1]
    have : (2 : ℝ) ^ (-40 : ℤ) * (1 / 8192) ≤ (1 - β) * (1 / 8192) := mul_le_mul_of_nonneg_right (by linarith) (by norm_num)
    refine le_trans ?_ this
    norm_num [roundoff]

/-- One step of Adam. -/
theorem adam_increment (hM : M.rnd = binary64Format.rnd) {T t : ℕ} (hT : T ≤ 2 ^ 40) (ht : t < T) {β₁ β₂ : ℝ} (h10 : 0 ≤ β₁)
    (h11 : β₁ ≤ 1 - 2 ^ (-40 : ℤ)) (h20 : 0 ≤ β₂) (h21 : β₂ ≤ 1 - 2 ^ (-40 : ℤ)) {lr m v c₁ c₂ : FP M}
    {l x X A y Y C₁ D₁ C₂ D₂ z : ℝ} (hl : Is lr l) (hm : Is m x) (hX : |X| ≤ A)
    (hx : |x - X| ≤ ((1 + roundoff) ^ (2 * (t + 1)) * (1 + 4 * roundoff) - 1) * A +
      (t + 1 : ℕ) * (1 + roundoff) ^ (2 * (t + 1)) * (tiny + 3 * tiny))
    (hv : Is v y) (hvb : Bounded (2 ^ 980) v) (y0 : 0 ≤ y) (Y0 : 0 ≤ Y)
    (hy : |y - Y| ≤ ((1 + roundoff) ^ (2 * (t + 1)) * (1 + 8 * roundoff) - 1) * Y +
      (t + 1 : ℕ) * (1 + roundoff) ^ (2 * (t + 1)) * (tiny + 2 * tiny))
    (hc₁ : Is c₁ C₁) (hD₁ : 1 - β₁ ≤ D₁) (hC₁ : |C₁ - D₁| ≤ (3 / (1 - β₁) + 3) * roundoff * D₁)
    (hc₂ : Is c₂ C₂) (hD₂ : 1 - β₂ ≤ D₂) (hC₂ : |C₂ - D₂| ≤ (3 / (1 - β₂) + 3) * roundoff * D₂)
    (hz : Is (lr *. (m /. c₁) /. (Scalar.sqrt (v /. c₂) +. EPS)) z) :
    |z - l * (X / D₁) / (√(Y / D₂) + 1e-7)| ≤
      (20 * T + 12 * (1 / (1 - β₁)) + 48 * (1 / (1 - β₂)) + 162) * roundoff * (|l| * (A / D₁) / (√(Y / D₂) + 1e-7)) +
        (68 * T * |l| * (1 / (1 - β₁)) + 3) * 10 ^ 7 * tiny := by
  have u0 := roundoff_pos
  have u1 : roundoff ≤ 1e-12 := by norm_num [roundoff]
  have τ0 := tiny_pos
  have A0 : 0 ≤ A := (abs_nonneg _).trans hX
  have hTu := length_roundoff' hT
  have T1 : (1 : ℝ) ≤ T := by exact_mod_cast (by omega : 1 ≤ T)
  obtain ⟨g1, g2, g3⟩ := run_growth hT ht
  obtain ⟨a1, a2, a3, a4, a5, a6⟩ := recip_beta h10 h11 hD₁
  obtain ⟨b1, b2, b3, b4, b5, b6⟩ := recip_beta h20 h21 hD₂
  rw [show 3 / (1 - β₁) = 3 * (1 / (1 - β₁)) by ring] at hC₁
  rw [show 3 / (1 - β₂) = 3 * (1 / (1 - β₂)) by ring] at hC₂
  generalize 1 / (1 - β₁) = k₁ at *
  generalize 1 / (1 - β₂) = k₂ at *
  have s1 := run_underflow hT ht (η := tiny + 3 * tiny) (by positivity)
  have s2 := run_underflow hT ht (η := tiny + 2 * tiny) (by positivity)
  have s10 : 0 ≤ ((t + 1 : ℕ) : ℝ) * (1 + roundoff) ^ (2 * (t + 1)) * (tiny + 3 * tiny) := by positivity
  have s20 : 0 ≤ ((t + 1 : ℕ) : ℝ) * (1 + roundoff) ^ (2 * (t + 1)) * (tiny + 2 * tiny) := by positivity
  have s3 : 2 * (T : ℝ) * (tiny + 2 * tiny) ≤ 2 ^ 45 * tiny := by
    have h1 : (T : ℝ) ≤ 2 ^ 40 := by exact_mod_cast hT
    have := mul_le_mul_of_nonneg_right h1 τ0.le
    linarith
  generalize ((t + 1 : ℕ) : ℝ) * (1 + roundoff) ^ (2 * (t + 1)) * (tiny + 3 * tiny) = σ₁ at *
  generalize ((t + 1 : ℕ) : ℝ) * (1 + roundoff) ^ (2 * (t + 1)) * (tiny + 2 * tiny) = σ₂ at *
  generalize (1 + roundoff) ^ (2 * (t + 1)) = p at *
  have ku1 : 0 ≤ k₁ * roundoff := by positivity
  have ku2 : 0 ≤ k₂ * roundoff := by positivity
  have e8 : ∀ n : ℝ, 0 ≤ n → p * (1 + n * roundoff) ≤ Real.exp (2 * T * roundoff + n * roundoff) := fun n hn => by
    rw [Real.exp_add]
    exact mul_le_mul g3 (by linarith [Real.add_one_le_exp (n * roundoff)]) (by positivity) (Real.exp_pos _).le
  have δ₁0 : 0 ≤ (3 * k₁ + 3) * roundoff := by positivity
  have δ₁1 : (3 * k₁ + 3) * roundoff ≤ 1 / 4 := by linarith
  have δ₂0 : 0 ≤ (3 * k₂ + 3) * roundoff := by positivity
  have δ₂1 : (3 * k₂ + 3) * roundoff ≤ 1 / 4 := by linarith
  have n4 : 1 ≤ p * (1 + 4 * roundoff) := by nlinarith
  have n8 : 1 ≤ p * (1 + 8 * roundoff) := by nlinarith
  have T0 : 0 ≤ (T : ℝ) * roundoff := by positivity
  -- the divisor
  have hρ : p * (1 + 8 * roundoff) * (1 + 2 * ((3 * k₂ + 3) * roundoff)) * (1 + roundoff) - 1 ≤ (4 * T + 12 * k₂ + 30) * roundoff := by
    have h1 := mul_le_mul (e8 8 (by norm_num)) (show 1 + 2 * ((3 * k₂ + 3) * roundoff) ≤ Real.exp (2 * ((3 * k₂ + 3) * roundoff)) by
      linarith [Real.add_one_le_exp (2 * ((3 * k₂ + 3) * roundoff))]) (by positivity) (Real.exp_pos _).le
    have h2 := mul_le_mul h1 (show 1 + roundoff ≤ Real.exp roundoff by linarith [Real.add_one_le_exp roundoff]) (by positivity)
      (by positivity)
    rw [← Real.exp_add, ← Real.exp_add] at h2
    have h3 := exp_le_small (x := 2 * T * roundoff + 8 * roundoff + 2 * ((3 * k₂ + 3) * roundoff) + roundoff) (by positivity) (by linarith)
    linarith
  have hC20 : 2 ^ (-41 : ℤ) ≤ C₂ := by
    have h1 := (abs_le.1 hC₂).1
    have h2 := mul_le_mul_of_nonneg_right δ₂1 b3.le
    have h3 : (2 : ℝ) ^ (-41 : ℤ) = 2 ^ (-40 : ℤ) * (1 / 2) := by norm_num
    rw [h3]
    generalize (2 : ℝ) ^ (-40 : ℤ) = w at *
    linarith
  obtain ⟨e, he, hee⟩ := root_divisor hM hv hvb y0 Y0 hc₂ hC20 b2 n8 s20 hy δ₂0 (by linarith) hC₂ hρ (by linarith) (s2.trans s3)
  have hD : 1e-7 ≤ √(Y / D₂) + 1e-7 := by linarith [Real.sqrt_nonneg (Y / D₂)]
  have hD0 : 0 < √(Y / D₂) + 1e-7 := lt_of_lt_of_le (by norm_num) hD
  have d0 : 0 ≤ (4 * T + 12 * k₂ + 30) * roundoff + 4 * roundoff := by positivity
  have d1 : (4 * T + 12 * k₂ + 30) * roundoff + 4 * roundoff ≤ 1 / 4 := by linarith
  have hstep := bias_step hM hl hm hc₁ he n4 s10 hX hx δ₁0 (by linarith) a3 hC₁ d0 (by linarith) hD0 hee hz
  refine hstep.trans (add_le_add (mul_le_mul_of_nonneg_right ?_ ?_) ?_)
  · have := step_growth (δ₁ := (3 * k₁ + 3) * roundoff) (E₂ := (4 * T + 12 * k₂ + 30) * roundoff + 4 * roundoff) u0.le
      (e8 4 (by norm_num)) (by linarith) δ₁0 (by positivity) d0 (by linarith)
    linarith
  · have : 0 ≤ A / D₁ := by positivity
    positivity
  · exact step_underflow u0.le (by linarith) τ0.le (abs_nonneg l) s10 a4 a3 hD δ₁0 δ₁1 d1 T1 a5 (s1.trans (by linarith))

end Lfa

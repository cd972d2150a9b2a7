import Verif.Props.C95_C96
import Verif.Props.C157
import Verif.Proofs.NormErr
import Verif.Proofs.OptimReal
import Verif.Spec.Gradient

/-! # Rounding errors of Adagrad, one parameter at a time -/

set_option linter.unusedSectionVars false

namespace Lfa

open Spec Machine XReal

variable {M : Machine}

/-! ## Real inequalities -/

/-- The square of a slightly wrong gradient. -/
theorem square_near {f g q u τ : ℝ} (u0 : 0 < u) (u1 : u ≤ 1 / 100) (t0 : 0 ≤ τ) (t1 : τ ≤ u / 8) (hf : |f - g| ≤ u * |g| + τ)
    (hq : |q - f * f| ≤ u * |f * f| + τ) : |q - g ^ 2| ≤ 5 * u * g ^ 2 + 2 * τ := by
  have hg : g ^ 2 = |g| ^ 2 := (sq_abs g).symm
  have h0 := abs_nonneg g
  obtain ⟨e, he⟩ : ∃ e, f = g + e := ⟨f - g, by ring⟩
  subst he
  rw [add_sub_cancel_left] at hf
  have h1 : |g * e| ≤ |g| * (u * |g| + τ) := by
    rw [abs_mul]
    exact mul_le_mul_of_nonneg_left hf h0
  have h2 : e ^ 2 ≤ (u * |g| + τ) ^ 2 := by
    rw [← sq_abs e]
    exact pow_le_pow_left₀ (abs_nonneg e) hf 2
  -- the cross term
  have h3 : 2 * |g| * τ ≤ u * |g| ^ 2 / 2 + τ / 4 := by
    have h4 : 0 ≤ (u * |g| - 2 * τ) ^ 2 := sq_nonneg _
    have h5 : u * (2 * |g| * τ) ≤ u * (u * |g| ^ 2 / 2) + 2 * τ ^ 2 := by nlinarith
    have h6 : 2 * τ ^ 2 ≤ u * (τ / 4) := by nlinarith
    have h7 : u * (2 * |g| * τ) ≤ u * (u * |g| ^ 2 / 2 + τ / 4) := by nlinarith
    exact le_of_mul_le_mul_left h7 u0
  have hs := sq_nonneg |g|
  have ut : u * τ ≤ τ / 100 := by nlinarith
  have tt : τ ^ 2 ≤ τ / 800 := by nlinarith
  have ug : u ^ 2 * |g| ^ 2 ≤ u * |g| ^ 2 / 100 := by nlinarith [mul_nonneg u0.le hs]
  have h4 : (u * |g| + τ) ^ 2 ≤ u * |g| ^ 2 / 50 + τ / 400 := by
    nlinarith [sq_nonneg (u * |g| - τ)]
  have hsq : |(g + e) * (g + e) - g ^ 2| ≤ 2 * u * |g| ^ 2 + u * |g| ^ 2 / 2 + τ / 4 + u * |g| ^ 2 / 50 + τ / 400 := by
    have e1 : (g + e) * (g + e) - g ^ 2 = 2 * (g * e) + e ^ 2 := by ring
    rw [e1]
    have := abs_add_le (2 * (g * e)) (e ^ 2)
    rw [abs_mul, abs_two, abs_of_nonneg (sq_nonneg e)] at this
    nlinarith
  have h5 : |(g + e) * (g + e)| ≤ |(g + e) * (g + e) - g ^ 2| + g ^ 2 := by
    have := abs_add_le ((g + e) * (g + e) - g ^ 2) (g ^ 2)
    rwa [sub_add_cancel, abs_of_nonneg (sq_nonneg g)] at this
  have h6 := abs_sub_le q ((g + e) * (g + e)) (g ^ 2)
  have h7 := mul_le_mul_of_nonneg_left (h5.trans (add_le_add_left hsq _)) u0.le
  rw [hg] at *
  nlinarith [mul_nonneg u0.le hs, mul_nonneg u0.le t0]

/-- Sums of slightly wrong squares. -/
theorem accumulate_near {u α β : ℝ} (u0 : 0 ≤ u) (α0 : 0 ≤ α) (β0 : 0 ≤ β) {s q S Q : ℕ → ℝ} {T : ℕ}
    (hs0 : s 0 = 0) (hS0 : S 0 = 0) (hS : ∀ t, S (t + 1) = S t + Q t) (hQ : ∀ t, 0 ≤ Q t)
    (hq : ∀ t < T, |q t - Q t| ≤ α * Q t + β) (hs : ∀ t < T, |s (t + 1) - (s t + q t)| ≤ u * |s t + q t|) :
    ∀ t ≤ T, 0 ≤ S t ∧ |s t - S t| ≤ ((1 + u) ^ t * (1 + α) - 1) * S t + t * (1 + u) ^ t * β := by
  intro t
  induction t with
  | zero =>
    intro _
    rw [hs0, hS0]
    simp
  | succ t ih =>
    intro ht
    obtain ⟨hS0', h1⟩ := ih (by omega)
    have h2 := hq t (by omega)
    have h3 := hs t (by omega)
    have p1 : 1 ≤ (1 + u) ^ t := one_le_pow₀ (by linarith)
    have hQt := hQ t
    refine ⟨by rw [hS]; linarith, ?_⟩
    rw [hS]
    generalize hp : (1 + u) ^ t = p at *
    rw [pow_succ, hp]
    have a1 : |s t + q t - (S t + Q t)| ≤ (p * (1 + α) - 1) * (S t + Q t) + (t + 1) * p * β := by
      have e : s t + q t - (S t + Q t) = (s t - S t) + (q t - Q t) := by ring
      rw [e]
      refine (abs_add_le _ _).trans ?_
      have b1 : α * Q t ≤ (p * (1 + α) - 1) * Q t := mul_le_mul_of_nonneg_right (by nlinarith) hQt
      have b2 : β ≤ p * β := by nlinarith
      linarith
    have a2 : |s t + q t| ≤ |s t + q t - (S t + Q t)| + (S t + Q t) := by
      have := abs_add_le (s t + q t - (S t + Q t)) (S t + Q t)
      rwa [sub_add_cancel, abs_of_nonneg (by linarith : 0 ≤ S t + Q t)] at this
    have a3 := abs_sub_le (s (t + 1)) (s t + q t) (S t + Q t)
    have a4 := mul_le_mul_of_nonneg_left a2 u0
    have a5 := mul_le_mul_of_nonneg_left a1 u0
    push_cast
    nlinarith

/-- The root of a slightly wrong number. -/
theorem sqrt_near {s S ρ τ : ℝ} (s0 : 0 ≤ s) (S0 : 0 ≤ S) (r0 : 0 ≤ ρ) (r1 : ρ ≤ 1) (t0 : 0 ≤ τ)
    (h : |s - S| ≤ ρ * S + τ ^ 2) : |√s - √S| ≤ ρ * √S + τ := by
  have h1 := abs_le.1 h
  have e1 := Real.sqrt_nonneg s
  have e2 := Real.sqrt_nonneg S
  have q1 := Real.sq_sqrt s0
  have q2 := Real.sq_sqrt S0
  rw [abs_le]
  constructor
  · -- `(1 - ρ) √S ≤ √s + τ`
    have : (1 - ρ) * √S ≤ √s + τ := by
      refine abs_le_of_sq_le_sq' ?_ (by linarith) |>.2
      have : (1 - ρ) ^ 2 * S ≤ (1 - ρ) * S := by nlinarith [mul_nonneg S0 (mul_nonneg r0 (sub_nonneg.2 r1))]
      nlinarith [mul_nonneg e1 t0]
    linarith
  · have : √s ≤ (1 + ρ) * √S + τ := by
      refine abs_le_of_sq_le_sq' ?_ (by positivity) |>.2
      have : (1 + ρ) * S ≤ (1 + ρ) ^ 2 * S := by nlinarith [mul_nonneg S0 (mul_nonneg r0 (by linarith : 0 ≤ 1 + ρ))]
      nlinarith [mul_nonneg (mul_nonneg (by linarith : 0 ≤ 1 + ρ) e2) t0]
    linarith

/-- Additions of slightly wrong increments of magnitude at most `l`. -/
theorem drift_near {u l η : ℝ} (u0 : 0 ≤ u) (l0 : 0 ≤ l) {w q W Q : ℕ → ℝ} {T : ℕ} (h0 : w 0 = W 0)
    (hW : ∀ t, W (t + 1) = W t + Q t) (hQ : ∀ t, |Q t| ≤ l)
    (hq : ∀ t < T, |q t - Q t| ≤ (4 * (t + 1) + 34) * u * |Q t| + η)
    (hw : ∀ t < T, |w (t + 1) - (w t + q t)| ≤ u * |w t + q t|) :
    ∀ t ≤ T, |W t| ≤ |W 0| + t * l ∧
      |w t - W t| ≤ (1 + u) ^ t * (u * (t * |W 0| + (5 / 2 * t ^ 2 + 37 * t) * l) + t * η) := by
  intro t
  induction t with
  | zero => intro _; rw [h0]; simp
  | succ t ih =>
    intro ht
    obtain ⟨g1, g2⟩ := ih (by omega)
    have h2 := hq t (by omega)
    have h3 := hw t (by omega)
    have h4 := hQ t
    have p1 : 1 ≤ (1 + u) ^ (t + 1) := one_le_pow₀ (by linarith)
    have ht0 : (0 : ℝ) ≤ t := Nat.cast_nonneg t
    have b1 := abs_add_le (W t) (Q t)
    rw [hW]
    refine ⟨by push_cast; linarith, ?_⟩
    have d1 : |q t - Q t| ≤ (4 * (t + 1) + 34) * u * l + η :=
      h2.trans (add_le_add_left (mul_le_mul_of_nonneg_left h4 (by positivity)) _)
    have a1 : |w t + q t - (W t + Q t)| ≤ |w t - W t| + |q t - Q t| := by
      have e : w t + q t - (W t + Q t) = (w t - W t) + (q t - Q t) := by ring
      rw [e]
      exact abs_add_le _ _
    have a2 : |w t + q t| ≤ |w t + q t - (W t + Q t)| + |W t + Q t| := by
      have := abs_add_le (w t + q t - (W t + Q t)) (W t + Q t)
      rwa [sub_add_cancel] at this
    have a3 := abs_sub_le (w (t + 1)) (w t + q t) (W t + Q t)
    have a4 : |w (t + 1) - (W t + Q t)| ≤ (1 + u) * (|w t - W t| + |q t - Q t|) + u * (|W 0| + (t + 1) * l) := by
      have := mul_le_mul_of_nonneg_left a2 u0
      have := mul_le_mul_of_nonneg_left a1 u0
      have := mul_le_mul_of_nonneg_left (b1.trans (add_le_add g1 h4)) u0
      nlinarith
    have hpow : (1 + u) ^ (t + 1) = (1 + u) * (1 + u) ^ t := pow_succ' _ _
    have c1 : (1 + u) * |w t - W t| ≤ (1 + u) ^ (t + 1) * (u * (t * |W 0| + (5 / 2 * t ^ 2 + 37 * t) * l) + t * η) := by
      rw [hpow, mul_assoc]
      exact mul_le_mul_of_nonneg_left g2 (by linarith)
    have pu : 1 + u ≤ (1 + u) ^ (t + 1) := by
      rw [hpow]
      have : 1 ≤ (1 + u) ^ t := one_le_pow₀ (by linarith)
      nlinarith
    have c2 : (1 + u) * |q t - Q t| ≤ (1 + u) ^ (t + 1) * ((4 * (t + 1) + 34) * u * l + η) :=
      mul_le_mul pu d1 (abs_nonneg _) (by linarith)
    have c3 : u * (|W 0| + (t + 1) * l) ≤ (1 + u) ^ (t + 1) * (u * (|W 0| + (t + 1) * l)) :=
      le_mul_of_one_le_left (by positivity) p1
    have c4 : 0 ≤ (1 + u) ^ (t + 1) * (u * l) := by positivity
    push_cast
    generalize (1 + u) ^ (t + 1) = p at *
    nlinarith

/-- The divisor `√S + 1e-7`, computed from slightly wrong parts. -/
theorem divisor_near {u τ σ ρ R R' r e d : ℝ} (u0 : 0 < u) (u1 : u ≤ 1e-12) (τ1 : τ ≤ u * 1e-9)
    (σ1 : σ ≤ u * 1e-9) (ρ0 : 0 ≤ ρ) (ρ1 : ρ ≤ 1 / 2) (R0 : 0 ≤ R) (hR : |R' - R| ≤ ρ * R + σ) (hr : |r - R'| ≤ u * R' + τ)
    (he : |e - 1e-7| ≤ u * 1e-7 + τ) (hd : |d - (r + e)| ≤ u * |r + e|) : |d - (R + 1e-7)| ≤ (ρ + 4 * u) * (R + 1e-7) := by
  have hD : 0 < R + 1e-7 := by positivity
  have a1 : |r - R| ≤ |r - R'| + |R' - R| := abs_sub_le _ _ _
  have a2 : |r + e - (R + 1e-7)| ≤ |r - R| + |e - 1e-7| := by
    have : r + e - (R + 1e-7) = (r - R) + (e - 1e-7) := by ring
    rw [this]
    exact abs_add_le _ _
  have a3 : |r + e| ≤ |r + e - (R + 1e-7)| + (R + 1e-7) := by
    have := abs_add_le (r + e - (R + 1e-7)) (R + 1e-7)
    rwa [sub_add_cancel, abs_of_pos hD] at this
  have a4 := abs_sub_le d (r + e) (R + 1e-7)
  have hR' : R' ≤ (1 + ρ) * R + σ := by
    have := (abs_le.1 hR).2
    linarith
  have b1 : u * R' ≤ u * (3 / 2 * R + σ) := by
    refine mul_le_mul_of_nonneg_left (hR'.trans ?_) u0.le
    nlinarith
  have f1 : u * σ ≤ u * 1e-12 := mul_le_mul_of_nonneg_left (by nlinarith) u0.le
  have c2 : |r + e - (R + 1e-7)| ≤ (ρ + 2 * u) * (R + 1e-7) := by
    nlinarith [mul_nonneg u0.le R0]
  have c3 : (ρ + 2 * u) * (R + 1e-7) ≤ 1 * (R + 1e-7) := mul_le_mul_of_nonneg_right (by linarith) hD.le
  have c4 := mul_le_mul_of_nonneg_left (a3.trans (add_le_add_left (c2.trans c3) _)) u0.le
  nlinarith

/-- A quotient of slightly wrong numbers whose exact divisor is at least `1e-7`. -/
theorem ratio_near {u τ κ l γ G p d D z : ℝ} (u0 : 0 < u) (u1 : u ≤ 1e-12) (τ0 : 0 ≤ τ) (κ0 : 0 ≤ κ) (κ1 : κ ≤ 1 / 8)
    (hD : 1e-7 ≤ D) (hγ : |γ - G| ≤ u * |G| + τ) (hp : |p - l * γ| ≤ u * |l * γ| + τ) (hd : |d - D| ≤ κ * D)
    (hz : |z - p / d| ≤ u * |p / d| + τ) :
    |z - l * G / D| ≤ (2 * κ + 6 * u) * |l * G / D| + (4 * |l| + 3) * 10 ^ 7 * τ := by
  have hD0 : 0 < D := lt_of_lt_of_le (by norm_num) hD
  obtain ⟨-, h1⟩ := quotient_err hD0 hd (by linarith) u0.le hz
  -- the dividend
  have h2 : |l * γ - l * G| ≤ u * |l * G| + |l| * τ := by
    rw [← mul_sub, abs_mul, abs_mul]
    have := mul_le_mul_of_nonneg_left hγ (abs_nonneg l)
    linarith
  have h3 : |l * γ| ≤ |l * γ - l * G| + |l * G| := by
    have := abs_add_le (l * γ - l * G) (l * G)
    rwa [sub_add_cancel] at this
  have h4 := abs_sub_le p (l * γ) (l * G)
  have l0 := abs_nonneg l
  have h5 : |p - l * G| ≤ 3 * u * |l * G| + (2 * |l| + 1) * τ := by
    have h6 := mul_le_mul_of_nonneg_left (h3.trans (add_le_add_left h2 _)) u0.le
    have h7 : u * (u * |l * G|) ≤ 1 * (u * |l * G|) := mul_le_mul_of_nonneg_right (by linarith) (by positivity)
    have h8 : u * (|l| * τ) ≤ 1 * (|l| * τ) := mul_le_mul_of_nonneg_right (by linarith) (by positivity)
    linarith
  have h6 : |p| ≤ |p - l * G| + |l * G| := by
    have := abs_add_le (p - l * G) (l * G)
    rwa [sub_add_cancel] at this
  -- divide by `D`
  have e1 : |l * G / D| = |l * G| / D := by rw [abs_div, abs_of_pos hD0]
  have g1 : |p / D - l * G / D| ≤ 3 * u * |l * G / D| + (2 * |l| + 1) * (10 ^ 7 * τ) := by
    rw [← sub_div, abs_div, abs_of_pos hD0, div_le_iff₀ hD0, e1]
    have : |l * G| / D * D = |l * G| := div_mul_cancel₀ _ hD0.ne'
    have h8 : τ ≤ 10 ^ 7 * τ * D := by nlinarith
    have h9 := mul_le_mul_of_nonneg_left h8 (by positivity : 0 ≤ 2 * |l| + 1)
    nlinarith
  have g2 : |p| / D ≤ |p / D - l * G / D| + |l * G / D| := by
    have := abs_add_le (p / D - l * G / D) (l * G / D)
    rwa [sub_add_cancel, abs_div p, abs_of_pos hD0] at this
  have g3 := abs_sub_le z (p / D) (l * G / D)
  have g4 := mul_le_mul_of_nonneg_left (g2.trans (add_le_add_left g1 _)) (by linarith : 0 ≤ 2 * κ + 2 * u)
  have Q0 : 0 ≤ |l * G / D| := abs_nonneg _
  generalize |l * G / D| = Q at *
  have k1 : (2 * κ + 2 * u) * (3 * u * Q) ≤ 1 / 3 * (3 * u * Q) := mul_le_mul_of_nonneg_right (by linarith) (by positivity)
  have k2 : (2 * κ + 2 * u) * ((2 * |l| + 1) * (10 ^ 7 * τ)) ≤ 1 / 3 * ((2 * |l| + 1) * (10 ^ 7 * τ)) :=
    mul_le_mul_of_nonneg_right (by linarith) (by positivity)
  have k3 : 0 ≤ |l| * τ := by positivity
  linarith

/-! ## One parameter in `f64` -/

theorem finite_sqrt (hM : M.rnd = binary64Format.rnd) {a : FP M} {x : ℝ} (hx : Is a x) (h0 : 0 ≤ x) :
    Finite (Scalar.sqrt a) := by
  have e : (Scalar.sqrt a).1 = M.rnd (√x) := by
    rw [val_sqrt, hx]
    show (M.round (if x < 0 then _ else .fin (√x))).1 = _
    rw [if_neg (not_lt.2 h0)]; rfl
  obtain ⟨-, h2⟩ := binary64Format.rnd_eq_fin (r := x) (q := x) (by rw [← hM]; exact a.2 x hx)
  rw [abs_of_nonneg h0] at h2
  have h3 : √x ≤ 2 ^ 512 := by
    rw [Real.sqrt_le_iff]
    refine ⟨by positivity, h2.le.trans (le_of_eq ?_)⟩
    show (2 : ℝ) ^ (1024 : ℤ) = _
    rw [← pow_mul, ← zpow_natCast]
    norm_num
  obtain ⟨q, hq, -⟩ := bounded_rnd e (by rwa [abs_of_nonneg (Real.sqrt_nonneg x)]) (rnd_two_pow hM (k := 512) (by norm_num))
  exact ⟨q, hq⟩

theorem eps_err (hM : M.rnd = binary64Format.rnd) :
    ∃ e, Is (EPS : FP M) e ∧ |e - 1e-7| ≤ roundoff * 1e-7 + tiny := by
  have hv : (EPS : FP M).1 = M.rnd (((1 : ℕ) : ℝ) / 10 ^ 7) := val_sci 1 7
  have e1 : ((1 : ℕ) : ℝ) / 10 ^ 7 = 1e-7 := by norm_num
  rw [e1] at hv
  obtain ⟨e, he, -⟩ := bounded_rnd hv (c := 2 ^ 0) (by norm_num [abs_of_pos]) (rnd_two_pow hM (by norm_num))
  have he' : (EPS : FP M).1 = .fin e := he
  rw [he', hM] at hv
  have h2 := (binary64Format.rnd_eq_fin hv.symm).1
  have h3 := binary64Format.nearest_rel (1e-7 : ℝ)
  rw [h2] at h3
  refine ⟨e, he, h3.trans (le_of_eq ?_)⟩
  rw [abs_of_pos (by norm_num)]
  rfl

/-- The increment of one parameter, when its accumulator has seen `t` gradients. -/
theorem adagrad_increment (hM : M.rnd = binary64Format.rnd) {t : ℕ} (ht : t ≤ 2 ^ 40) {lr g acc : FP M} {l γ G s S z : ℝ}
    (hl : Is lr l) (hg : Is g γ) (hγ : |γ - G| ≤ roundoff * |G| + tiny) (hs : Is acc s) (s0 : 0 ≤ s) (S0 : 0 ≤ S)
    (hsS : |s - S| ≤ ((1 + roundoff) ^ t * (1 + 5 * roundoff) - 1) * S + t * (1 + roundoff) ^ t * (2 * tiny))
    (hz : Is (lr *. g /. (Scalar.sqrt acc +. EPS)) z) :
    |z - l * G / (√S + 1e-7)| ≤ (4 * t + 34) * roundoff * |l * G / (√S + 1e-7)| + (4 * |l| + 3) * 10 ^ 7 * tiny := by
  have u0 := roundoff_pos
  have τ0 := tiny_pos
  have u1 : roundoff ≤ 1e-12 := by norm_num [roundoff]
  have hku := length_roundoff' ht
  -- the error of the accumulator
  have hρ : (1 + roundoff) ^ t * (1 + 5 * roundoff) - 1 ≤ (2 * t + 10) * roundoff := by
    have h1 : 1 + 5 * roundoff ≤ (1 + roundoff) ^ 5 := by
      have := one_add_mul_le_pow (by linarith : -2 ≤ roundoff) 5
      exact_mod_cast this
    have h2 : (1 + roundoff) ^ t * (1 + 5 * roundoff) ≤ (1 + roundoff) ^ (t + 5) := by
      rw [pow_add]
      exact mul_le_mul_of_nonneg_left h1 (by positivity)
    have h3 := growth_le (k := t + 5) (by
      have : (2 : ℕ) ^ 40 + 5 ≤ 2 ^ 52 := by norm_num
      omega)
    push_cast at h3
    linarith
  have hτ : t * (1 + roundoff) ^ t * (2 * tiny) ≤ ((2 : ℝ) ^ (-516 : ℤ)) ^ 2 := by
    have h1 : (t : ℝ) ≤ 2 ^ 40 := by exact_mod_cast ht
    have h2 := (growth ht).2
    have h3 : t * (1 + roundoff) ^ t ≤ 2 ^ 40 * 2 := mul_le_mul h1 h2 (by positivity) (by positivity)
    refine (mul_le_mul_of_nonneg_right h3 (by positivity)).trans ?_
    have e : (2 : ℝ) ^ 40 * 2 * (2 * tiny) = 2 ^ (-1033 : ℤ) := by
      unfold tiny
      rw [show (2 : ℝ) ^ 40 * 2 * (2 * 2 ^ (-1075 : ℤ)) = 2 ^ 42 * 2 ^ (-1075 : ℤ) by ring, ← zpow_natCast,
        ← zpow_add₀ (by norm_num)]
      norm_num
    rw [e, ← zpow_natCast, ← zpow_mul]
    exact zpow_le_zpow_right₀ (by norm_num) (by norm_num)
  have small : (2 : ℝ) ^ (-83 : ℤ) ≤ roundoff * 1e-9 := by norm_num [roundoff]
  have τ1 : tiny ≤ roundoff * 1e-9 := le_trans (zpow_le_zpow_right₀ (by norm_num) (by norm_num)) small
  have σ1 : (2 : ℝ) ^ (-516 : ℤ) ≤ roundoff * 1e-9 := le_trans (zpow_le_zpow_right₀ (by norm_num) (by norm_num)) small
  have σ0 : 0 ≤ (2 : ℝ) ^ (-516 : ℤ) := by positivity
  generalize (2 : ℝ) ^ (-516 : ℤ) = σ at *
  have ρ0 : 0 ≤ (2 * t + 10) * roundoff := by positivity
  have ρ1 : (2 * t + 10) * roundoff ≤ 1 / 10 := by linarith
  have hroot := sqrt_near s0 S0 ρ0 (by linarith) σ0
    (hsS.trans (add_le_add (mul_le_mul_of_nonneg_right hρ S0) hτ))
  obtain ⟨r, hr⟩ := finite_sqrt hM hs s0
  have hr1 := sqrt_err hM hs s0 hr
  obtain ⟨e, he, he1⟩ := eps_err hM
  have he2 : |e| ≤ 1 := by
    have := abs_le.1 he1
    rw [abs_le]
    constructor <;> linarith
  obtain ⟨d, hd⟩ := finite_add hM ⟨r, hr⟩ ⟨e, he, he2.trans (one_le_zpow₀ (by norm_num) (by norm_num))⟩
  obtain ⟨r', e', hr', he', hd1⟩ := add_err hM hd
  cases is_fun hr hr'
  cases is_fun he he'
  have hdD := divisor_near u0 u1 τ1 σ1 ρ0 (by linarith) (Real.sqrt_nonneg S) hroot hr1 he1 hd1
  have hD : 1e-7 ≤ √S + 1e-7 := by linarith [Real.sqrt_nonneg S]
  have κ1 : (2 * t + 10) * roundoff + 4 * roundoff ≤ 1 / 8 := by linarith
  have hd0 : d ≠ 0 := by
    have := (abs_le.1 hdD).1
    have := mul_le_mul_of_nonneg_right κ1 (by linarith : 0 ≤ √S + 1e-7)
    have : 0 < d := by linarith
    exact this.ne'
  -- the dividend is finite since the quotient is
  obtain ⟨p, hp⟩ : Finite (lr *. g) := by
    have hv : (lr *. g /. (Scalar.sqrt acc +. EPS)).1 = (M.round (XReal.div (lr *. g).1 (.fin d))).1 := by
      rw [val_div, hd]
    have hz' : (M.round (XReal.div (lr *. g).1 (.fin d))).1 = .fin z := by rw [← hv]; exact hz
    obtain ⟨y, hy, -⟩ := fin_of_round hz'
    rcases hx : (lr *. g).1 with _ | _ | _ | x
    all_goals first | exact ⟨x, hx⟩ | skip
    all_goals
      rw [hx] at hy
      simp only [XReal.div, XReal.infSign] at hy
      first | cases hy | (split_ifs at hy <;> cases hy)
  obtain ⟨l', γ', hl', hγ', hp1⟩ := mul_err hM hp
  cases is_fun hl hl'
  cases is_fun hg hγ'
  have hz1 := div_err hM hp hd hd0 hz
  have := ratio_near u0 u1 τ0.le (by positivity) κ1 hD hγ hp1 hdD hz1
  refine this.trans (le_of_eq ?_)
  ring

end Lfa

import Verif.Proofs.KernelRational

/-!
# Rounding errors of the Matern kernels
-/

set_option linter.unusedSectionVars false

namespace Lfa

open Spec Machine XReal

variable {M : Machine}

/-- A sum that does not overflow, without an underflow error. -/
theorem add_of (hM : M.rnd = binary64Format.rnd) {a b : FP M} {x y : ℝ} (h : Is a x) (h' : Is b y) (h0 : 0 ≤ x + y)
    (hb : x + y ≤ 2 ^ 1022) : ∃ z, Is (a +. b) z ∧ |z - (x + y)| ≤ roundoff * (x + y) ∧ 0 ≤ z := by
  obtain ⟨z, hz, -, hn⟩ := of_rnd hM (add_val h h') (by rw [abs_of_nonneg h0]; exact hb)
  obtain ⟨x', y', hx, hy, he⟩ := add_err hM hz
  rw [is_fun hx h, is_fun hy h', abs_of_nonneg h0] at he
  exact ⟨z, hz, he, hn h0⟩

/-- The product of the variance, a polynomial and an exponential. -/
theorem variance_product_err (hM : M.rnd = binary64Format.rnd) {ε : ℝ} (ε0 : 0 ≤ ε) (hε1 : ε ≤ 1 / 100) {v q e : FP M}
    {V qv Q ev E κ : ℝ}
    (hv : Is v V) (hV : |V| ≤ 2 ^ 400) (hq : Is q qv) (Q1 : 1 ≤ Q) (Qb : Q ≤ 2 ^ 420) (κ0 : 0 ≤ κ) (κ1 : κ ≤ 1 / 100)
    (hqe : |qv - Q| ≤ κ * Q) (he : Is e ev) (e0 : 0 ≤ ev) (e1 : ev ≤ 1) (E0 : 0 ≤ E)
    (hee : |ev - E| ≤ (ε + 2 * roundoff) * E + tiny) (hQE : Q * E ≤ 6 / 5) :
    ∃ z, Is (v *. q *. e) z ∧ |z - V * (Q * E)| ≤ |V| * (13 / 10 * κ + 6 / 5 * ε + 6 * roundoff) + 3 * tiny := by
  have hs := speck_small
  have hs0 := speck_pos
  have hu := roundoff_pos
  have hu1 := roundoff_small
  have ht0 := tiny_pos
  have ht := tiny_small
  have ht1 : tiny ≤ 1 := by linarith
  have V0 := abs_nonneg V
  have Q0 : 0 ≤ Q := by linarith
  have hqb : |qv| ≤ (1 + κ) * Q := by
    have := abs_sub_abs_le_abs_sub qv Q
    rw [abs_of_nonneg Q0] at this
    linarith
  have hqb2 : |qv| ≤ 2 * 2 ^ 420 := by
    refine hqb.trans (mul_le_mul (by linarith) Qb Q0 (by norm_num))
  have hVq : |V * qv| ≤ 2 ^ 821 := by
    rw [abs_mul]
    refine (mul_le_mul hV hqb2 (abs_nonneg _) (by positivity)).trans ?_
    rw [← pow_succ', ← pow_add]
  obtain ⟨w, hw, hwe, -⟩ := mul_of hM hv hq (hVq.trans (two_pow_le (by norm_num)))
  -- the first product
  have hVq' : |V * qv| ≤ |V| * ((1 + κ) * Q) := by rw [abs_mul]; exact mul_le_mul_of_nonneg_left hqb V0
  have VQ0 : 0 ≤ |V| * Q := mul_nonneg V0 Q0
  have hw1 : |w - V * Q| ≤ (κ + 101 / 100 * roundoff) * (|V| * Q) + tiny := by
    have h1 := abs_add_le (w - V * qv) (V * qv - V * Q)
    rw [sub_add_sub_cancel] at h1
    have h2 : |V * qv - V * Q| ≤ |V| * (κ * Q) := by
      rw [← mul_sub, abs_mul]; exact mul_le_mul_of_nonneg_left hqe V0
    have h3 := mul_le_mul_of_nonneg_left hVq' hu.le
    have h4 : κ * (roundoff * (|V| * Q)) ≤ 1 / 100 * (roundoff * (|V| * Q)) :=
      mul_le_mul_of_nonneg_right κ1 (by positivity)
    have e : roundoff * (|V| * ((1 + κ) * Q)) = roundoff * (|V| * Q) + κ * (roundoff * (|V| * Q)) := by ring
    rw [e] at h3
    linarith only [h1, h2, h3, h4, hwe]
  have hwb : |w| ≤ 2 ^ 1021 := by
    have h1 := abs_sub_abs_le_abs_sub w (V * qv)
    have h2 : roundoff * |V * qv| ≤ 1 * |V * qv| := mul_le_mul_of_nonneg_right (by linarith) (abs_nonneg _)
    have h3 : (2 : ℝ) ^ 821 * 4 ≤ 2 ^ 1021 := by rw [mul_comm]; exact mul_two_pow_le (j := 2) (by norm_num) (by norm_num)
    have h4 : (1 : ℝ) ≤ 2 ^ 821 := one_le_pow₀ (by norm_num)
    refine le_trans ?_ h3
    generalize (2 : ℝ) ^ 821 = B at *
    linarith only [h1, h2, h4, ht1, hVq, hwe]
  have hwe' : |w * ev| ≤ 2 ^ 1022 := by
    rw [abs_mul, abs_of_nonneg e0]
    exact (mul_le_of_le_one_right (abs_nonneg _) e1).trans (hwb.trans (two_pow_le (by norm_num)))
  obtain ⟨z, hz, hze, -⟩ := mul_of hM hw he hwe'
  refine ⟨z, hz, ?_⟩
  have QE0 : 0 ≤ Q * E := mul_nonneg Q0 E0
  -- `Q` times the underflow error
  have hQt : Q * tiny ≤ 1 / 1000 * roundoff := by
    refine (mul_le_mul_of_nonneg_right Qb ht0.le).trans ?_
    have e : (2 : ℝ) ^ 420 * tiny = 2 ^ (-602 : ℤ) * roundoff := by
      unfold tiny roundoff
      rw [← zpow_natCast, ← zpow_add₀ (by norm_num), ← zpow_add₀ (by norm_num)]
      norm_num
    rw [e]
    refine mul_le_mul_of_nonneg_right ?_ hu.le
    exact (zpow_le_zpow_right₀ (by norm_num) (by norm_num : (-602 : ℤ) ≤ -20)).trans (by norm_num)
  have hev : Q * |ev - E| ≤ 6 / 5 * ε + 241 / 100 * roundoff := by
    have h1 := mul_le_mul_of_nonneg_left hee Q0
    have h2 : (ε + 2 * roundoff) * (Q * E) ≤ (ε + 2 * roundoff) * (6 / 5) := mul_le_mul_of_nonneg_left hQE (by positivity)
    have e : Q * ((ε + 2 * roundoff) * E + tiny) = (ε + 2 * roundoff) * (Q * E) + Q * tiny := by ring
    rw [e] at h1
    linarith only [h1, h2, hQt, hu]
  have hQe : Q * ev ≤ 123 / 100 := by
    have h1 := mul_le_mul_of_nonneg_left (abs_le.1 (le_refl |ev - E|)).2 Q0
    linarith only [h1, hev, hQE, hε1, hu1]
  have hprod : |w * ev - V * (Q * E)| ≤ |V| * (123 / 100 * κ + 6 / 5 * ε + 37 / 10 * roundoff) + tiny := by
    have h1 := abs_add_le (w * ev - V * Q * ev) (V * Q * ev - V * (Q * E))
    rw [sub_add_sub_cancel] at h1
    have h2 : |w * ev - V * Q * ev| ≤ ((κ + 101 / 100 * roundoff) * (|V| * Q) + tiny) * ev := by
      rw [← sub_mul, abs_mul, abs_of_nonneg e0]; exact mul_le_mul_of_nonneg_right hw1 e0
    have h3 : |V * Q * ev - V * (Q * E)| ≤ |V| * (6 / 5 * ε + 241 / 100 * roundoff) := by
      rw [mul_assoc, ← mul_sub, abs_mul, ← mul_sub, abs_mul, abs_of_nonneg Q0]
      exact mul_le_mul_of_nonneg_left hev V0
    have h4 : ((κ + 101 / 100 * roundoff) * (|V| * Q) + tiny) * ev =
      (κ + 101 / 100 * roundoff) * (|V| * (Q * ev)) + tiny * ev := by ring
    have h5 : (κ + 101 / 100 * roundoff) * (|V| * (Q * ev)) ≤ (κ + 101 / 100 * roundoff) * (|V| * (123 / 100)) :=
      mul_le_mul_of_nonneg_left (mul_le_mul_of_nonneg_left hQe V0) (by positivity)
    have h6 : tiny * ev ≤ tiny := mul_le_of_le_one_right ht0.le e1
    rw [h4] at h2
    have h7 : 0 ≤ |V| * roundoff := by positivity
    linarith only [h1, h2, h3, h5, h6, h7]
  have hc0 : 123 / 100 * κ + 6 / 5 * ε + 37 / 10 * roundoff ≤ 1 / 10 := by linarith
  have hsize : |w * ev| ≤ |V| * (13 / 10) + tiny := by
    have h1 := abs_sub_abs_le_abs_sub (w * ev) (V * (Q * E))
    rw [abs_mul V, abs_of_nonneg QE0] at h1
    have h2 := mul_le_mul_of_nonneg_left hQE V0
    have h3 := mul_le_mul_of_nonneg_left hc0 V0
    linarith only [h1, h2, h3, hprod]
  have h1 := abs_add_le (z - w * ev) (w * ev - V * (Q * E))
  rw [sub_add_sub_cancel] at h1
  have h2 := mul_le_mul_of_nonneg_left hsize hu.le
  have h3 : roundoff * tiny ≤ 1 * tiny := mul_le_mul_of_nonneg_right (by linarith) ht0.le
  rw [mul_add] at h2
  have h4 : 0 ≤ |V| * κ := mul_nonneg V0 κ0
  have h5 : 0 ≤ |V| * roundoff := mul_nonneg V0 hu.le
  linarith only [h1, h2, h3, h4, h5, hze, hprod]

/-- `sqrt(3)` times a computed distance. -/
theorem root_three_err (hM : M.rnd = binary64Format.rnd) {R : FP M} {ρ : ℝ} (hρ : Is R ρ) (ρ0 : 0 ≤ ρ) (hρb : ρ ≤ 2 ^ 501) :
    ∃ t, Is (Scalar.sqrt (Scalar.ofNat 3) *. R) t ∧ Is (Scalar.neg (Scalar.sqrt (Scalar.ofNat 3)) *. R) (-t) ∧ 0 ≤ t ∧
      |t - √3 * ρ| ≤ 21 / 10 * roundoff * (√3 * ρ) + tiny := by
  have hs := speck_small
  have hs0 := speck_pos
  have hu := roundoff_pos
  have hu1 := roundoff_small
  have ht0 := tiny_pos
  have ht := tiny_small
  have ht1 : tiny ≤ 1 := by linarith
  have h3 : Is (Scalar.ofNat 3 : FP M) 3 := by
    have := C88_binary64 hM 3 (by norm_num)
    unfold Is; rw [val_ofNat]; simpa using this
  have s0 : 0 ≤ √(3 : ℝ) := Real.sqrt_nonneg 3
  have s2 : √(3 : ℝ) ≤ 2 := by rw [Real.sqrt_le_iff]; norm_num
  have s1 : 1 ≤ √(3 : ℝ) := by rw [Real.one_le_sqrt]; norm_num
  have hval : (Scalar.sqrt (Scalar.ofNat 3) : FP M).1 = M.rnd (√3) := by
    rw [val_sqrt, h3]
    show (M.round (if (3 : ℝ) < 0 then _ else .fin (√3))).1 = _
    rw [if_neg (by norm_num)]; rfl
  obtain ⟨c, hc, hce, hcn⟩ := of_rnd hM hval (by
    rw [abs_of_nonneg s0]
    have : (2 : ℝ) ^ 1 ≤ 2 ^ 1022 := two_pow_le (by norm_num)
    exact le_trans (by linarith only [s2]) this)
  have c0 := hcn s0
  rw [abs_of_nonneg s0] at hce
  have cρ0 : 0 ≤ c * ρ := mul_nonneg c0 ρ0
  have c4 : c ≤ 4 := by
    have := (abs_le.1 hce).2
    nlinarith
  have hb : |c * ρ| ≤ 2 ^ 1022 := by
    rw [abs_of_nonneg cρ0]
    refine (mul_le_mul c4 hρb ρ0 (by norm_num)).trans ?_
    exact mul_two_pow_le (j := 2) (by norm_num) (by norm_num)
  obtain ⟨t, ht', hte, htn⟩ := mul_of hM hc hρ hb
  refine ⟨t, ht', ?_, htn cρ0, ?_⟩
  · have h1 := mul_val (is_neg hc) hρ
    rw [neg_mul, M.rnd_neg, ← mul_val hc hρ, ht'] at h1
    exact h1
  · rw [abs_of_nonneg cρ0] at hte
    have h1 := abs_add_le (t - c * ρ) (c * ρ - √3 * ρ)
    rw [sub_add_sub_cancel] at h1
    have h2 : |c * ρ - √3 * ρ| ≤ (roundoff * √3 + tiny) * ρ := by
      rw [← sub_mul, abs_mul, abs_of_nonneg ρ0]; exact mul_le_mul_of_nonneg_right hce ρ0
    have h3 : c * ρ ≤ √3 * ρ + (roundoff * √3 + tiny) * ρ := by have := (abs_le.1 h2).2; linarith
    have h4 := mul_le_mul_of_nonneg_left h3 hu.le
    have x0 : 0 ≤ √3 * ρ := mul_nonneg s0 ρ0
    have h5 : tiny * ρ ≤ 1 / 1000 * roundoff * (√3 * ρ) := by
      refine mul_le_mul (by linarith) ?_ ρ0 (by positivity)
      exact le_mul_of_one_le_left ρ0 s1
    have h6 : roundoff * (roundoff * (√3 * ρ)) ≤ 1 / 1000 * (roundoff * (√3 * ρ)) :=
      mul_le_mul_of_nonneg_right (by linarith) (by positivity)
    have h7 : roundoff * (tiny * ρ) ≤ 1 * (tiny * ρ) := mul_le_mul_of_nonneg_right (by linarith) (mul_nonneg ht0.le ρ0)
    have e : (roundoff * √3 + tiny) * ρ = roundoff * (√3 * ρ) + tiny * ρ := by ring
    rw [e] at h2 h4
    rw [mul_add, mul_add] at h4
    have h8 : 0 ≤ roundoff * (√3 * ρ) := by positivity
    linarith only [h1, h2, h4, h5, h6, h7, h8, hte]

theorem root_three_near {t ρ r δ : ℝ} (r0 : 0 ≤ r) (δ1 : δ ≤ 1 / 1000) (hc : |ρ - r| ≤ δ * r + speck)
    (h : |t - √3 * ρ| ≤ 21 / 10 * roundoff * (√3 * ρ) + tiny) :
    |t - √3 * r| ≤ (δ + 11 / 5 * roundoff) * (√3 * r) + 3 * speck := by
  have hs := speck_small
  have hs0 := speck_pos
  have hu := roundoff_pos
  have hu1 := roundoff_small
  have ht := tiny_small
  have s0 : 0 ≤ √(3 : ℝ) := Real.sqrt_nonneg 3
  have s2 : √(3 : ℝ) ≤ 9 / 5 := by rw [Real.sqrt_le_iff]; norm_num
  have h1 := abs_add_le (t - √3 * ρ) (√3 * ρ - √3 * r)
  rw [sub_add_sub_cancel] at h1
  have h2 : |√3 * ρ - √3 * r| ≤ δ * (√3 * r) + 9 / 5 * speck := by
    rw [← mul_sub, abs_mul, abs_of_nonneg s0]
    have a1 := mul_le_mul_of_nonneg_left hc s0
    have a2 := mul_le_mul_of_nonneg_right s2 hs0.le
    linarith
  have h3 : √3 * ρ ≤ 1001 / 1000 * (√3 * r) + 9 / 5 * speck := by
    have a1 := (abs_le.1 h2).2
    have a2 : δ * (√3 * r) ≤ 1 / 1000 * (√3 * r) := mul_le_mul_of_nonneg_right δ1 (mul_nonneg s0 r0)
    linarith
  have h4 := mul_le_mul_of_nonneg_left h3 (by positivity : 0 ≤ 21 / 10 * roundoff)
  have h5 : roundoff * speck ≤ 1 / 100 * speck := mul_le_mul_of_nonneg_right (by linarith) hs0.le
  have h6 : 0 ≤ roundoff * (√3 * r) := mul_nonneg hu.le (mul_nonneg s0 r0)
  have h7 : (1 : ℝ) / 2 ^ 100 * speck ≤ 1 / 100 * speck := mul_le_mul_of_nonneg_right (by norm_num) hs0.le
  linarith only [h1, h2, h4, h5, h6, h7, h, ht, hs0]

theorem poly_mul_exp_neg_le {t : ℝ} (ht : 0 ≤ t) : (1 + t + 5 / 9 * t ^ 2) * Real.exp (-t) ≤ 6 / 5 := by
  have h := Real.quadratic_le_exp_of_nonneg ht
  have e : Real.exp t * Real.exp (-t) = 1 := by rw [← Real.exp_add, add_neg_cancel, Real.exp_zero]
  have h1 : (1 + t + 5 / 9 * t ^ 2) * Real.exp (-t) ≤ (6 / 5 * Real.exp t) * Real.exp (-t) := by
    refine mul_le_mul_of_nonneg_right ?_ (Real.exp_pos _).le
    nlinarith [sq_nonneg t]
  rw [mul_assoc, e] at h1
  linarith

theorem matern32_err (hM : M.rnd = binary64Format.rnd) {ε : ℝ} (hε : ExpWithin M ε) (hε1 : ε ≤ 1 / 100) {R : FP M} {r δ : ℝ}
    (h : Computes R r δ) (hr : r ≤ 2 ^ 200) (k : Stationary .matern32 (FP M)) {V : ℝ} (hv : Is k.variance V)
    (hV : |V| ≤ 2 ^ 400) :
    ∃ z, Is (k.kernelStationary R) z ∧
      |z - V * ((1 + √3 * r) * Real.exp (-(√3 * r)))| ≤ |V| * (6 / 5 * ε + 7 / 10 * δ + 9 * roundoff) + 3 * tiny := by
  obtain ⟨r0, ⟨δ0, δ1⟩, -, ρ, hρ, ρ0, hc⟩ := h
  have hs := speck_small
  have hs0 := speck_pos
  have hu := roundoff_pos
  have hu1 := roundoff_small
  have ε0 : 0 ≤ ε := by
    have := (abs_nonneg _).trans (hε 0 (le_refl _))
    rwa [Real.exp_zero, mul_one] at this
  have hρb : ρ ≤ 2 ^ 201 := near_le r0 δ1 hr hc
  obtain ⟨t, ht, ht', t0, hte⟩ := root_three_err hM hρ ρ0 (hρb.trans (two_pow_le (by norm_num)))
  have hnear := root_three_near r0 δ1 hc hte
  set s := √3 * r with hsd
  have s0 : 0 ≤ s := mul_nonneg (Real.sqrt_nonneg 3) r0
  have tb : 1 + t ≤ 2 ^ 420 := by
    have a0 : s ≤ 2 * 2 ^ 200 := mul_le_mul (by rw [Real.sqrt_le_iff]; norm_num) hr r0 (by norm_num)
    have a1 := (abs_le.1 hnear).2
    have a2 : (δ + 11 / 5 * roundoff) * s ≤ 1 * s := mul_le_mul_of_nonneg_right (by linarith) s0
    have a3 : (1 : ℝ) ≤ 2 ^ 200 := one_le_pow₀ (by norm_num)
    have a4 : (8 : ℝ) * 2 ^ 200 ≤ 2 ^ 420 := mul_two_pow_le (j := 3) (by norm_num) (by norm_num)
    refine le_trans ?_ a4
    generalize (2 : ℝ) ^ 200 = B at *
    linarith only [a0, a1, a2, a3, hs, hu1]
  obtain ⟨q, hq, hqe, -⟩ := add_of hM (val_ofNat_one (M := M)) ht (by linarith) (tb.trans (two_pow_le (by norm_num)))
  obtain ⟨e, he, e0, e1, hee⟩ := exp_err hM hε hε1 ht' (by linarith)
  have hQE : (1 + t) * Real.exp (-t) ≤ 6 / 5 := by
    have := poly_mul_exp_neg_le t0
    have h1 : 0 ≤ 5 / 9 * t ^ 2 * Real.exp (-t) := by positivity
    linarith
  obtain ⟨z, hz, hze⟩ := variance_product_err hM ε0 hε1 hv hV hq (by linarith) tb hu.le (by linarith) hqe he e0 e1
    (Real.exp_pos _).le hee hQE
  refine ⟨z, hz, ?_⟩
  have hgap := (matern_gap s0 t0 (by positivity) (by linarith) (by positivity) (by linarith) hnear).1
  have h1 := abs_add_le (z - V * ((1 + t) * Real.exp (-t))) (V * ((1 + t) * Real.exp (-t)) - V * ((1 + s) * Real.exp (-s)))
  rw [sub_add_sub_cancel, ← mul_sub, abs_mul] at h1
  have h2 := mul_le_mul_of_nonneg_left hgap (abs_nonneg V)
  have h3 := mul_le_mul_of_nonneg_left hs (abs_nonneg V)
  have h4 : 0 ≤ |V| * roundoff := mul_nonneg (abs_nonneg V) hu.le
  linarith only [h1, h2, h3, h4, hze]

theorem five_thirds_sum {ρ c m1 m2 : ℝ} (ρ0 : 0 ≤ ρ) (hce : |c - 5 / 3| ≤ roundoff * (5 / 3) + tiny)
    (hme1 : |m1 - c * ρ| ≤ roundoff * (c * ρ) + tiny) (hme2 : |m2 - m1 * ρ| ≤ roundoff * (m1 * ρ) + tiny) :
    |m2 - 5 / 3 * ρ ^ 2| ≤ 305 / 100 * roundoff * (5 / 3 * ρ ^ 2) + 3 * tiny := by
  have hs := speck_small
  have hs0 := speck_pos
  have hu := roundoff_pos
  have hu1 := roundoff_small
  have ht0 := tiny_pos
  have ht := tiny_small
  have hts : tiny ≤ 1 / 1000 * roundoff := by linarith
  have ht1 : tiny ≤ 1 := by linarith
  set y := 5 / 3 * ρ ^ 2 with hy
  have y0 : 0 ≤ y := by positivity
  have tρ : tiny * ρ ≤ tiny + tiny * ρ ^ 2 := by
    have : ρ ≤ 1 + ρ ^ 2 := by nlinarith [sq_nonneg (ρ - 1)]
    have := mul_le_mul_of_nonneg_left this ht0.le
    linarith
  have tρ2 : tiny * ρ ^ 2 ≤ 1 / 1000 * roundoff * ρ ^ 2 := mul_le_mul_of_nonneg_right hts (sq_nonneg ρ)
  have uy : 0 ≤ roundoff * ρ ^ 2 := mul_nonneg hu.le (sq_nonneg ρ)
  -- c ρ² against 5/3 ρ²
  have hA : |c * ρ ^ 2 - y| ≤ roundoff * y + 1 / 1000 * roundoff * ρ ^ 2 := by
    rw [hy, ← sub_mul, abs_mul, abs_of_nonneg (sq_nonneg ρ)]
    have := mul_le_mul_of_nonneg_right hce (sq_nonneg ρ)
    linarith only [this, tρ2]
  have hB : |m1 * ρ - c * ρ ^ 2| ≤ roundoff * (c * ρ ^ 2) + tiny * ρ := by
    rw [show m1 * ρ - c * ρ ^ 2 = (m1 - c * ρ) * ρ by ring, abs_mul, abs_of_nonneg ρ0]
    have := mul_le_mul_of_nonneg_right hme1 ρ0
    linarith only [this]
  have hcy : c * ρ ^ 2 ≤ 101 / 100 * y := by
    have a1 := (abs_le.1 hA).2
    have a2 : roundoff * y ≤ 1 / 1000 * y := mul_le_mul_of_nonneg_right (by linarith) y0
    have a3 : roundoff * ρ ^ 2 ≤ 1 / 1000 * ρ ^ 2 := mul_le_mul_of_nonneg_right (by linarith) (sq_nonneg ρ)
    linarith only [a1, a2, a3, hy, y0]
  have hC : |m1 * ρ - y| ≤ 203 / 100 * roundoff * y + tiny := by
    have a1 := abs_add_le (m1 * ρ - c * ρ ^ 2) (c * ρ ^ 2 - y)
    rw [sub_add_sub_cancel] at a1
    have a2 := mul_le_mul_of_nonneg_left hcy hu.le
    have a3 : roundoff * y = 5 / 3 * (roundoff * ρ ^ 2) := by rw [hy]; ring
    linarith only [a1, a2, a3, hA, hB, tρ, tρ2, uy]
  have hm1y : m1 * ρ ≤ 101 / 100 * y + tiny := by
    have a1 := (abs_le.1 hC).2
    have a2 : 203 / 100 * roundoff * y ≤ 1 / 100 * y := mul_le_mul_of_nonneg_right (by linarith) y0
    linarith only [a1, a2]
  have hD : |m2 - y| ≤ 305 / 100 * roundoff * y + 3 * tiny := by
    have a1 := abs_add_le (m2 - m1 * ρ) (m1 * ρ - y)
    rw [sub_add_sub_cancel] at a1
    have a2 := mul_le_mul_of_nonneg_left hm1y hu.le
    have a3 : roundoff * tiny ≤ 1 * tiny := mul_le_mul_of_nonneg_right (by linarith) ht0.le
    have a4 : 0 ≤ roundoff * y := mul_nonneg hu.le y0
    linarith only [a1, a2, a3, a4, hC, hme2]
  exact hD

/-- `5 / 3 * r * r`. -/
theorem five_thirds_err (hM : M.rnd = binary64Format.rnd) {R : FP M} {ρ : ℝ} (hρ : Is R ρ) (ρ0 : 0 ≤ ρ)
    (hρb : ρ ≤ 2 ^ 201) : ∃ m, Is (Scalar.ofNat 5 /. Scalar.ofNat 3 *. R *. R) m ∧ 0 ≤ m ∧ m ≤ 4 * 2 ^ 405 ∧
      |m - 5 / 3 * ρ ^ 2| ≤ 305 / 100 * roundoff * (5 / 3 * ρ ^ 2) + 3 * tiny := by
  have hs := speck_small
  have hs0 := speck_pos
  have hu := roundoff_pos
  have hu1 := roundoff_small
  have ht0 := tiny_pos
  have ht := tiny_small
  have hts : tiny ≤ 1 / 1000 * roundoff := by linarith
  have ht1 : tiny ≤ 1 := by linarith
  have B1 : (1 : ℝ) ≤ 2 ^ 201 := one_le_pow₀ (by norm_num)
  -- 5 / 3
  have h3 : Is (Scalar.ofNat 3 : FP M) 3 := by
    have := C88_binary64 hM 3 (by norm_num)
    unfold Is; rw [val_ofNat]; simpa using this
  have h5 : Is (Scalar.ofNat 5 : FP M) 5 := by
    have := C88_binary64 hM 5 (by norm_num)
    unfold Is; rw [val_ofNat]; simpa using this
  have hval : (Scalar.ofNat 5 /. Scalar.ofNat 3 : FP M).1 = M.rnd (5 / 3) := by
    rw [val_div, h3, h5]
    show (M.round (if (3 : ℝ) = 0 then _ else .fin (5 / 3))).1 = _
    rw [if_neg (by norm_num)]; rfl
  have p2 : (2 : ℝ) ^ 203 ≤ 2 ^ 1022 := two_pow_le (by norm_num)
  have p2' : (2 : ℝ) ^ 2 ≤ 2 ^ 1022 := two_pow_le (by norm_num)
  obtain ⟨c, hc, hce, hcn⟩ := of_rnd hM hval (by
    rw [abs_of_pos (by norm_num : (0 : ℝ) < 5 / 3)]
    exact le_trans (by norm_num) p2')
  rw [abs_of_pos (by norm_num : (0 : ℝ) < 5 / 3)] at hce
  have c0 := hcn (by norm_num)
  have c2 : c ≤ 2 := by have := (abs_le.1 hce).2; linarith
  have hcρ0 : 0 ≤ c * ρ := mul_nonneg c0 ρ0
  have hcρb : c * ρ ≤ 2 * 2 ^ 201 := mul_le_mul c2 hρb ρ0 (by norm_num)
  obtain ⟨m1, hm1, hme1, hmn1⟩ := mul_of hM hc hρ (by
    rw [abs_of_nonneg hcρ0]
    refine hcρb.trans (le_trans ?_ p2)
    exact mul_two_pow_le (j := 2) (by norm_num) (by norm_num))
  rw [abs_of_nonneg hcρ0] at hme1
  have m10 := hmn1 hcρ0
  have m1b : m1 ≤ 8 * 2 ^ 201 := by
    have a1 := (abs_le.1 hme1).2
    have a2 : roundoff * (c * ρ) ≤ 1 * (c * ρ) := mul_le_mul_of_nonneg_right (by linarith) hcρ0
    generalize (2 : ℝ) ^ 201 = B at *
    linarith only [a1, a2, hcρb, ht1, B1]
  have hm1ρ0 : 0 ≤ m1 * ρ := mul_nonneg m10 ρ0
  have hm1ρb : m1 * ρ ≤ 2 ^ 405 := by
    refine (mul_le_mul m1b hρb ρ0 (by positivity)).trans ?_
    rw [mul_assoc, ← pow_add]
    exact mul_two_pow_le (j := 3) (by norm_num) (by norm_num)
  obtain ⟨m2, hm2, hme2, hmn2⟩ := mul_of hM hm1 hρ (by
    rw [abs_of_nonneg hm1ρ0]; exact hm1ρb.trans (two_pow_le (by norm_num)))
  rw [abs_of_nonneg hm1ρ0] at hme2
  have m20 := hmn2 hm1ρ0
  have hm2b : m2 ≤ 4 * 2 ^ 405 := by
    have a1 := (abs_le.1 hme2).2
    have a2 : roundoff * (m1 * ρ) ≤ 1 * (m1 * ρ) := mul_le_mul_of_nonneg_right (by linarith) hm1ρ0
    have a3 : (1 : ℝ) ≤ 2 ^ 405 := one_le_pow₀ (by norm_num)
    generalize (2 : ℝ) ^ 405 = B at *
    linarith only [a1, a2, a3, hm1ρb, ht1]
  refine ⟨m2, hm2, m20, hm2b, five_thirds_sum ρ0 hce hme1 hme2⟩

theorem root_square_err {x t : ℝ} (x0 : 0 ≤ x) (t0 : 0 ≤ t) (hte : |t - x| ≤ 21 / 10 * roundoff * x + tiny) :
    |x ^ 2 - t ^ 2| ≤ 43 / 10 * roundoff * t ^ 2 + roundoff := by
  have hs := speck_small
  have hs0 := speck_pos
  have hu := roundoff_pos
  have hu1 := roundoff_small
  have ht0 := tiny_pos
  have ht := tiny_small
  have hts : tiny ≤ 1 / 1000 * roundoff := by linarith
  have ht1 : tiny ≤ 1 := by linarith
  have hxt : x ≤ 101 / 100 * t + 2 * tiny := by
    have a1 := (abs_le.1 hte).1
    have a2 : 21 / 10 * roundoff * x ≤ 1 / 1000 * x := mul_le_mul_of_nonneg_right (by linarith) x0
    linarith only [a1, a2, x0, t0, ht0]
  rw [show x ^ 2 - t ^ 2 = -((t - x) * (x + t)) by ring, abs_neg, abs_mul, abs_of_nonneg (add_nonneg x0 t0)]
  have a1 : 21 / 10 * roundoff * x ≤ 21 / 10 * roundoff * (101 / 100 * t + 2 * tiny) :=
    mul_le_mul_of_nonneg_left hxt (by positivity)
  have a3 : roundoff * tiny ≤ 1 / 100 * tiny := mul_le_mul_of_nonneg_right (by linarith) ht0.le
  have a2 : |t - x| ≤ 2122 / 1000 * roundoff * t + 11 / 10 * tiny := by linarith only [hte, a1, a3, ht0, mul_nonneg hu.le t0]
  have a4 : x + t ≤ 201 / 100 * t + 2 * tiny := by linarith only [hxt]
  have a5 := mul_le_mul a2 a4 (add_nonneg x0 t0) (by
    have := mul_nonneg hu.le t0
    linarith only [this, ht0])
  refine a5.trans ?_
  have e : (2122 / 1000 * roundoff * t + 11 / 10 * tiny) * (201 / 100 * t + 2 * tiny) =
    2122 / 1000 * (201 / 100) * (roundoff * t ^ 2) + tiny * (2 * (2122 / 1000) * (roundoff * t)) +
      tiny * (11 / 10 * (201 / 100) * t) + 11 / 10 * 2 * (tiny * tiny) := by ring
  rw [e]
  have b1 : t ≤ 1 + t ^ 2 := by nlinarith [sq_nonneg (t - 1)]
  have b2 : tiny * t ≤ 1 / 1000 * roundoff * (1 + t ^ 2) := mul_le_mul hts b1 t0 (by positivity)
  have b3 : tiny * (roundoff * t) ≤ 1 / 100 * (tiny * t) := by
    have := mul_le_mul_of_nonneg_right (show roundoff ≤ 1 / 100 by linarith) (mul_nonneg ht0.le t0)
    linarith only [this]
  have b4 : tiny * tiny ≤ 1 * tiny := mul_le_mul_of_nonneg_right ht1 ht0.le
  have b5 : 0 ≤ roundoff * t ^ 2 := mul_nonneg hu.le (sq_nonneg t)
  linarith only [b2, b3, b4, b5, hts, hu]

/-- The polynomial of `Matern52`. -/
theorem matern52_poly (hM : M.rnd = binary64Format.rnd) {R T : FP M} {ρ t : ℝ} (hρ : Is R ρ) (ρ0 : 0 ≤ ρ) (hρb : ρ ≤ 2 ^ 201)
    (hT : Is T t) (t0 : 0 ≤ t) (hte : |t - √3 * ρ| ≤ 21 / 10 * roundoff * (√3 * ρ) + tiny) :
    ∃ q, Is (Scalar.ofNat 1 +. T +. Scalar.ofNat 5 /. Scalar.ofNat 3 *. R *. R) q ∧
      |q - (1 + t + 5 / 9 * t ^ 2)| ≤ 10 * roundoff * (1 + t + 5 / 9 * t ^ 2) := by
  have hs := speck_small
  have hs0 := speck_pos
  have hu := roundoff_pos
  have hu1 := roundoff_small
  have ht0 := tiny_pos
  have ht := tiny_small
  have hts : tiny ≤ 1 / 1000 * roundoff := by linarith
  have ht1 : tiny ≤ 1 := by linarith
  have B1 : (1 : ℝ) ≤ 2 ^ 201 := one_le_pow₀ (by norm_num)
  have x0 : 0 ≤ √3 * ρ := mul_nonneg (Real.sqrt_nonneg 3) ρ0
  have x2 : (√3 * ρ) ^ 2 = 3 * ρ ^ 2 := by rw [mul_pow, Real.sq_sqrt (by norm_num)]
  obtain ⟨m2, hm2, m20, hm2b, hD⟩ := five_thirds_err hM hρ ρ0 hρb
  set y := 5 / 3 * ρ ^ 2 with hy
  -- against 5/9 t²
  set x := √3 * ρ with hx
  have hyx : y = 5 / 9 * x ^ 2 := by rw [x2, hy]; ring
  have hE := root_square_err x0 t0 hte
  set P := 5 / 9 * t ^ 2 with hP
  have P0 : 0 ≤ P := by positivity
  have hyP : |y - P| ≤ 43 / 10 * roundoff * P + 5 / 9 * roundoff := by
    rw [hyx, hP, ← mul_sub, abs_mul, abs_of_pos (by norm_num : (0 : ℝ) < 5 / 9)]
    have := mul_le_mul_of_nonneg_left hE (by norm_num : (0 : ℝ) ≤ 5 / 9)
    linarith only [this]
  have hyP' : y ≤ 101 / 100 * P + 1 / 100 := by
    have a1 := (abs_le.1 hyP).2
    have a2 : 43 / 10 * roundoff * P ≤ 1 / 100 * P := mul_le_mul_of_nonneg_right (by linarith) P0
    linarith only [a1, a2, hu1]
  have hF : |m2 - P| ≤ 15 / 2 * roundoff * P + 3 / 4 * roundoff := by
    have a1 := abs_add_le (m2 - y) (y - P)
    rw [sub_add_sub_cancel] at a1
    have a2 := mul_le_mul_of_nonneg_left hyP' (by positivity : 0 ≤ 305 / 100 * roundoff)
    linarith only [a1, a2, hD, hyP, hts, mul_nonneg hu.le P0, hu]
  -- the sums
  have tb : 1 + t ≤ 2 ^ 210 := by
    have a0 : x ≤ 2 * 2 ^ 201 := mul_le_mul (by rw [Real.sqrt_le_iff]; norm_num) hρb ρ0 (by norm_num)
    have a1 := (abs_le.1 hte).2
    have a2 : 21 / 10 * roundoff * x ≤ 1 * x := mul_le_mul_of_nonneg_right (by linarith) x0
    have a4 : (8 : ℝ) * 2 ^ 201 ≤ 2 ^ 210 := mul_two_pow_le (j := 3) (by norm_num) (by norm_num)
    refine le_trans ?_ a4
    generalize (2 : ℝ) ^ 201 = B at *
    linarith only [a0, a1, a2, ht1, B1]
  obtain ⟨q1, hq1, hqe1, q10⟩ := add_of hM (val_ofNat_one (M := M)) hT (by linarith) (tb.trans (two_pow_le (by norm_num)))
  have hq1b : q1 ≤ 2 * 2 ^ 210 := by
    have a1 := (abs_le.1 hqe1).2
    have a2 : roundoff * (1 + t) ≤ 1 * (1 + t) := mul_le_mul_of_nonneg_right (by linarith) (by linarith)
    generalize (2 : ℝ) ^ 210 = B at *
    linarith only [a1, a2, tb]
  obtain ⟨q, hq, hqe, -⟩ := add_of hM hq1 hm2 (add_nonneg q10 m20) (by
    have a1 : (2 : ℝ) ^ 210 ≤ 2 ^ 405 := two_pow_le (by norm_num)
    have a2 : (8 : ℝ) * 2 ^ 405 ≤ 2 ^ 1022 := mul_two_pow_le (j := 3) (by norm_num) (by norm_num)
    refine le_trans ?_ a2
    generalize (2 : ℝ) ^ 210 = A at *
    have a3 : (0 : ℝ) ≤ 2 ^ 405 := by positivity
    generalize (2 : ℝ) ^ 405 = B at *
    linarith only [a1, a3, hm2b, hq1b])
  refine ⟨q, hq, ?_⟩
  have hG : |q1 + m2 - (1 + t + P)| ≤ roundoff * (1 + t) + (15 / 2 * roundoff * P + 3 / 4 * roundoff) := by
    have a1 := abs_add_le (q1 - (1 + t)) (m2 - P)
    rw [show q1 - (1 + t) + (m2 - P) = q1 + m2 - (1 + t + P) by ring] at a1
    linarith only [a1, hqe1, hF]
  have hsum : q1 + m2 ≤ 101 / 100 * (1 + t + P) := by
    have a1 := (abs_le.1 hG).2
    have a2 : roundoff * (1 + t) ≤ 1 / 1000 * (1 + t) := mul_le_mul_of_nonneg_right (by linarith) (by linarith)
    have a3 : roundoff * P ≤ 1 / 1000 * P := mul_le_mul_of_nonneg_right (by linarith) P0
    linarith only [a1, a2, a3, hu1, t0, P0]
  have a1 := abs_add_le (q - (q1 + m2)) (q1 + m2 - (1 + t + P))
  rw [sub_add_sub_cancel] at a1
  have a2 := mul_le_mul_of_nonneg_left hsum hu.le
  have a3 := mul_nonneg hu.le P0
  have a4 := mul_nonneg hu.le t0
  linarith only [a1, a2, a3, a4, hqe, hG, hu]

theorem matern52_err (hM : M.rnd = binary64Format.rnd) {ε : ℝ} (hε : ExpWithin M ε) (hε1 : ε ≤ 1 / 100) {R : FP M} {r δ : ℝ}
    (h : Computes R r δ) (hr : r ≤ 2 ^ 200) (k : Stationary .matern52 (FP M)) {V : ℝ} (hv : Is k.variance V)
    (hV : |V| ≤ 2 ^ 400) :
    ∃ z, Is (k.kernelStationary R) z ∧
      |z - V * ((1 + √3 * r + 5 / 3 * r ^ 2) * Real.exp (-(√3 * r)))| ≤
        |V| * (6 / 5 * ε + 12 / 5 * δ + 25 * roundoff) + 3 * tiny := by
  obtain ⟨r0, ⟨δ0, δ1⟩, -, ρ, hρ, ρ0, hc⟩ := h
  have hs := speck_small
  have hs0 := speck_pos
  have hu := roundoff_pos
  have hu1 := roundoff_small
  have ε0 : 0 ≤ ε := by
    have := (abs_nonneg _).trans (hε 0 (le_refl _))
    rwa [Real.exp_zero, mul_one] at this
  have hρb : ρ ≤ 2 ^ 201 := near_le r0 δ1 hr hc
  obtain ⟨t, ht, ht', t0, hte⟩ := root_three_err hM hρ ρ0 (hρb.trans (two_pow_le (by norm_num)))
  obtain ⟨q, hq, hqe⟩ := matern52_poly hM hρ ρ0 hρb ht t0 hte
  have hnear := root_three_near r0 δ1 hc hte
  have e3 : 5 / 3 * r ^ 2 = 5 / 9 * (√3 * r) ^ 2 := by rw [mul_pow, Real.sq_sqrt (by norm_num)]; ring
  rw [e3]
  set s := √3 * r with hsd
  have s0 : 0 ≤ s := mul_nonneg (Real.sqrt_nonneg 3) r0
  have tb : t ≤ 2 ^ 204 := by
    have a0 : s ≤ 2 * 2 ^ 200 := mul_le_mul (by rw [Real.sqrt_le_iff]; norm_num) hr r0 (by norm_num)
    have a1 := (abs_le.1 hnear).2
    have a2 : (δ + 11 / 5 * roundoff) * s ≤ 1 * s := mul_le_mul_of_nonneg_right (by linarith) s0
    have a3 : (1 : ℝ) ≤ 2 ^ 200 := one_le_pow₀ (by norm_num)
    have a4 : (8 : ℝ) * 2 ^ 200 ≤ 2 ^ 204 := mul_two_pow_le (j := 3) (by norm_num) (by norm_num)
    refine le_trans ?_ a4
    generalize (2 : ℝ) ^ 200 = B at *
    linarith only [a0, a1, a2, a3, hs, hu1]
  have Qb : 1 + t + 5 / 9 * t ^ 2 ≤ 2 ^ 420 := by
    have a1 : t ^ 2 ≤ (2 ^ 204) ^ 2 := pow_le_pow_left₀ t0 tb 2
    rw [← pow_mul] at a1
    have a2 : (2 : ℝ) ^ 204 ≤ 2 ^ (204 * 2) := two_pow_le (by norm_num)
    have a3 : (1 : ℝ) ≤ 2 ^ 204 := one_le_pow₀ (by norm_num)
    have a4 : (8 : ℝ) * 2 ^ (204 * 2) ≤ 2 ^ 420 := mul_two_pow_le (j := 3) (by norm_num) (by norm_num)
    refine le_trans ?_ a4
    generalize (2 : ℝ) ^ (204 * 2) = B at *
    generalize (2 : ℝ) ^ 204 = A at *
    linarith only [a1, a2, a3, tb]
  obtain ⟨e, he, e0, e1, hee⟩ := exp_err hM hε hε1 ht' (by linarith)
  have q1 : 1 ≤ 1 + t + 5 / 9 * t ^ 2 := by nlinarith [sq_nonneg t]
  obtain ⟨z, hz, hze⟩ := variance_product_err hM ε0 hε1 hv hV hq q1 Qb (κ := 10 * roundoff) (by positivity) (by linarith)
    hqe he e0 e1 (Real.exp_pos _).le hee (poly_mul_exp_neg_le t0)
  refine ⟨z, hz, ?_⟩
  obtain ⟨hg1, hg2⟩ := matern_gap s0 t0 (by positivity) (by linarith) (by positivity) (by linarith) hnear
  have hgap : |(1 + t + 5 / 9 * t ^ 2) * Real.exp (-t) - (1 + s + 5 / 9 * s ^ 2) * Real.exp (-s)| ≤
      (7 / 10 * (δ + 11 / 5 * roundoff) + 3 * speck) + 5 / 9 * (3 * (δ + 11 / 5 * roundoff) + 3 * (3 * speck)) := by
    have a1 := abs_add_le ((1 + t) * Real.exp (-t) - (1 + s) * Real.exp (-s))
      (5 / 9 * (t ^ 2 * Real.exp (-t) - s ^ 2 * Real.exp (-s)))
    rw [abs_mul, abs_of_pos (by norm_num : (0 : ℝ) < 5 / 9)] at a1
    have e : (1 + t + 5 / 9 * t ^ 2) * Real.exp (-t) - (1 + s + 5 / 9 * s ^ 2) * Real.exp (-s) =
      (1 + t) * Real.exp (-t) - (1 + s) * Real.exp (-s) + 5 / 9 * (t ^ 2 * Real.exp (-t) - s ^ 2 * Real.exp (-s)) := by ring
    rw [e]
    linarith only [a1, hg1, hg2]
  have h1 := abs_add_le (z - V * ((1 + t + 5 / 9 * t ^ 2) * Real.exp (-t)))
    (V * ((1 + t + 5 / 9 * t ^ 2) * Real.exp (-t)) - V * ((1 + s + 5 / 9 * s ^ 2) * Real.exp (-s)))
  rw [sub_add_sub_cancel, ← mul_sub, abs_mul] at h1
  have h2 := mul_le_mul_of_nonneg_left hgap (abs_nonneg V)
  have h3 := mul_le_mul_of_nonneg_left hs (abs_nonneg V)
  have h4 : 0 ≤ |V| * roundoff := mul_nonneg (abs_nonneg V) hu.le
  have h5 : 0 ≤ |V| * δ := mul_nonneg (abs_nonneg V) δ0
  linarith only [h1, h2, h3, h4, h5, hze]

end Lfa

import Verif.Proofs.KernelErr
import Verif.Proofs.ExpGap

/-!
# Rounding errors of the kernels as functions of the distance
-/

set_option linter.unusedSectionVars false

namespace Lfa

open Spec Machine XReal

variable {M : Machine}

/-- `exp` before the final rounding is accurate to `ε` relatively on the negative half line. -/
def Spec.ExpWithin (M : Machine) (ε : ℝ) : Prop := ∀ r ≤ 0, |M.exp r - Real.exp r| ≤ ε * Real.exp r

/-- The same of `ln_1p` on the positive half line. -/
def Spec.Ln1pWithin (M : Machine) (ε : ℝ) : Prop := ∀ x, 0 ≤ x → |M.ln1p x - Real.log (1 + x)| ≤ ε * Real.log (1 + x)

theorem is_neg {a : FP M} {x : ℝ} (h : Is a x) : Is (Scalar.neg a) (-x) := by
  unfold Is; rw [val_neg, h]; rfl

theorem mul_val {a b : FP M} {x y : ℝ} (h : Is a x) (h' : Is b y) : (a *. b).1 = M.rnd (x * y) := by
  rw [val_mul, h, h']; rfl

theorem add_val {a b : FP M} {x y : ℝ} (h : Is a x) (h' : Is b y) : (a +. b).1 = M.rnd (x + y) := by
  rw [val_add, h, h']; rfl

theorem tiny_small : tiny ≤ 1 / 2 ^ 100 * speck := by
  have h := tiny_le_speck
  have : tiny = 2 ^ (-559 : ℤ) * speck := by
    unfold tiny speck
    rw [← zpow_add₀ (by norm_num)]
    norm_num
  rw [this]
  refine mul_le_mul_of_nonneg_right ?_ speck_pos.le
  rw [one_div, ← zpow_natCast, ← zpow_neg]
  exact zpow_le_zpow_right₀ (by norm_num) (by norm_num)

theorem exp_err (hM : M.rnd = binary64Format.rnd) {ε : ℝ} (hε : ExpWithin M ε) (hε1 : ε ≤ 1 / 100) {t : FP M} {τ : ℝ}
    (h : Is t τ) (h0 : τ ≤ 0) :
    ∃ e, Is (Scalar.exp t) e ∧ 0 ≤ e ∧ e ≤ 1 ∧ |e - Real.exp τ| ≤ (ε + 2 * roundoff) * Real.exp τ + tiny := by
  have he : (Scalar.exp t).1 = M.rnd (M.exp τ) := by
    show (M.round (M.fexp t.1)).1 = _
    rw [h]; rfl
  obtain ⟨e, hi, e0, e1⟩ := between_rnd he (M.exp_nonneg τ) (M.exp_le_one h0) M.rnd_one
  refine ⟨e, hi, e0, e1, ?_⟩
  have h1 := rnd_err hM (he.symm.trans hi)
  rw [abs_of_nonneg (M.exp_nonneg τ)] at h1
  have h2 := hε τ h0
  have h3 := abs_add_le (e - M.exp τ) (M.exp τ - Real.exp τ)
  rw [sub_add_sub_cancel] at h3
  have h4 : M.exp τ ≤ 2 * Real.exp τ := by
    have := (abs_le.1 h2).2
    nlinarith [Real.exp_pos τ]
  have := mul_le_mul_of_nonneg_left h4 roundoff_pos.le
  nlinarith

/-- Multiplying by the variance. -/
theorem scale_err (hM : M.rnd = binary64Format.rnd) {v a : FP M} {V e g c : ℝ} (hv : Is v V) (ha : Is a e) (h1 : |e| ≤ 1)
    (h : |e - g| ≤ c) : ∃ z, Is (v *. a) z ∧ |z - V * g| ≤ |V| * (c + roundoff) + tiny := by
  have hval := mul_val hv ha
  have hV : M.rnd |V| = .fin |V| := by
    have := v.rep V hv
    rcases abs_choice V with h | h <;> rw [h]
    · exact this
    · rw [M.rnd_neg, this]; rfl
  have hb : |V * e| ≤ |V| := by
    rw [abs_mul]; exact mul_le_of_le_one_right (abs_nonneg V) h1
  obtain ⟨z, hz, -⟩ := bounded_rnd hval hb hV
  refine ⟨z, hz, ?_⟩
  have h2 := rnd_err hM (hval.symm.trans hz)
  have h3 : |V * e - V * g| ≤ |V| * c := by
    rw [← mul_sub, abs_mul]; exact mul_le_mul_of_nonneg_left h (abs_nonneg V)
  have h4 := abs_add_le (z - V * e) (V * e - V * g)
  rw [sub_add_sub_cancel] at h4
  have h5 := mul_le_mul_of_nonneg_left hb roundoff_pos.le
  linarith

/-- From the argument of `exp` to the kernel. -/
theorem exp_kernel_err (hM : M.rnd = binary64Format.rnd) {ε : ℝ} (hε : ExpWithin M ε) (hε1 : ε ≤ 1 / 100) {v t : FP M}
    {V b a δ η : ℝ} (hv : Is v V) (ht : Is t (-b)) (hb : 0 ≤ b) (ha : 0 ≤ a) (hδ0 : 0 ≤ δ) (hδ : δ ≤ 1 / 100)
    (hη0 : 0 ≤ η) (hη : η ≤ 1 / 100) (h : |b - a| ≤ δ * a + η) :
    ∃ z, Is (v *. Scalar.exp t) z ∧ |z - V * Real.exp (-a)| ≤ |V| * (ε + 1 / 2 * δ + η + 7 / 2 * roundoff) + tiny := by
  obtain ⟨e, hi, e0, e1, he⟩ := exp_err hM hε hε1 ht (by linarith)
  have hg := exp_gap ha hb hδ0 hδ hη0 hη h
  have hle : Real.exp (-b) ≤ 1 := Real.exp_le_one_iff.2 (by linarith)
  have ε0 : 0 ≤ ε := by
    have := (abs_nonneg _).trans (hε 0 (le_refl _))
    rwa [Real.exp_zero, mul_one] at this
  have hu := roundoff_pos
  have hc : |e - Real.exp (-a)| ≤ ε + 1 / 2 * δ + η + 5 / 2 * roundoff := by
    have h1 := abs_add_le (e - Real.exp (-b)) (Real.exp (-b) - Real.exp (-a))
    rw [sub_add_sub_cancel] at h1
    have h2 : (ε + 2 * roundoff) * Real.exp (-b) ≤ ε + 2 * roundoff := mul_le_of_le_one_right (by positivity) hle
    have h3 := tiny_small
    have h4 := speck_le
    linarith
  obtain ⟨z, hz, h2⟩ := scale_err hM hv hi (by rw [abs_of_nonneg e0]; exact e1) hc
  exact ⟨z, hz, h2.trans (by
    have : |V| * (ε + 1 / 2 * δ + η + 5 / 2 * roundoff + roundoff) = |V| * (ε + 1 / 2 * δ + η + 7 / 2 * roundoff) := by ring
    linarith)⟩

/-- A computed distance. -/
structure Spec.Computes (R : FP M) (r δ : ℝ) : Prop where
  nonneg : 0 ≤ r
  small : 0 ≤ δ ∧ δ ≤ 1 / 1000
  bound : r ≤ 2 ^ 500
  close : ∃ ρ, Is R ρ ∧ 0 ≤ ρ ∧ |ρ - r| ≤ δ * r + speck

theorem speck_small : speck ≤ 1 / 1000 * roundoff := by
  have h := speck_le
  have hu := roundoff_pos
  linarith

theorem roundoff_small : roundoff ≤ 1 / 100000 := by norm_num [roundoff]

theorem exponential_err (hM : M.rnd = binary64Format.rnd) {ε : ℝ} (hε : ExpWithin M ε) (hε1 : ε ≤ 1 / 100) {R : FP M} {r δ : ℝ}
    (h : Computes R r δ) (k : Stationary .exponential (FP M)) (hv : Finite k.variance) :
    ∃ z, Is (k.kernelStationary R) z ∧
      |z - real k.variance * Real.exp (-r)| ≤ |real k.variance| * (ε + 1 / 2 * δ + 4 * roundoff) + tiny := by
  obtain ⟨V, hv⟩ := hv
  obtain ⟨r0, ⟨δ0, δ1⟩, -, ρ, hρ, ρ0, hc⟩ := h
  have hs := speck_small
  have hu := roundoff_pos
  have hu1 := roundoff_small
  rw [is_real hv]
  obtain ⟨z, hz, h1⟩ := exp_kernel_err hM hε hε1 hv (is_neg hρ) ρ0 r0 δ0 (by linarith) speck_pos.le (by linarith) hc
  refine ⟨z, hz, h1.trans (add_le_add (mul_le_mul_of_nonneg_left ?_ (abs_nonneg V)) (le_refl _))⟩
  linarith

/-- Half the square of a computed distance. -/
theorem half_sq_err {b ρ r δ : ℝ} (r0 : 0 ≤ r) (ρ0 : 0 ≤ ρ) (δ0 : 0 ≤ δ) (δ1 : δ ≤ 1 / 1000)
    (hc : |ρ - r| ≤ δ * r + speck) (hb : |b - ρ ^ 2 / 2| ≤ 21 / 10 * roundoff * (ρ ^ 2 / 2) + 4 * tiny) :
    |b - r ^ 2 / 2| ≤ (201 / 100 * δ + 3 * roundoff) * (r ^ 2 / 2) + speck := by
  have hs := speck_small
  have hs0 := speck_pos
  have hu := roundoff_pos
  have hu1 := roundoff_small
  have ht := tiny_small
  have hη1 : speck ≤ 1 / 1000 := by linarith
  generalize speck = η at *
  generalize roundoff = u at *
  have ht' : 4 * tiny ≤ 1 / 100 * η := by
    have : (1 : ℝ) / 2 ^ 100 * η ≤ 1 / 400 * η := mul_le_mul_of_nonneg_right (by norm_num) hs0.le
    linarith
  have hsum : ρ + r ≤ (2 + δ) * r + η := by have := (abs_le.1 hc).2; linarith
  have h1 : |ρ ^ 2 / 2 - r ^ 2 / 2| ≤ (δ * r + η) * ((2 + δ) * r + η) / 2 := by
    rw [show ρ ^ 2 / 2 - r ^ 2 / 2 = (ρ - r) * (ρ + r) / 2 by ring, abs_div, abs_mul, abs_of_nonneg (add_nonneg ρ0 r0),
      abs_of_pos (by norm_num : (0 : ℝ) < 2)]
    have := mul_le_mul hc hsum (add_nonneg ρ0 r0) (by positivity)
    linarith
  have hr : 2 * r ≤ 1 + r ^ 2 := by nlinarith [sq_nonneg (r - 1)]
  have h2 : (δ * r + η) * ((2 + δ) * r + η) / 2 ≤ (201 / 100 * δ + 1 / 100 * u) * (r ^ 2 / 2) + 3 / 5 * η := by
    have e : (δ * r + η) * ((2 + δ) * r + η) / 2 =
      2 * δ * (r ^ 2 / 2) + δ * δ * (r ^ 2 / 2) + η * (1 + δ) * (2 * r) / 2 + η * η / 2 := by ring
    have q0 : 0 ≤ r ^ 2 / 2 := by positivity
    have k1 : δ * δ * (r ^ 2 / 2) ≤ 1 / 1000 * δ * (r ^ 2 / 2) :=
      mul_le_mul_of_nonneg_right (mul_le_mul_of_nonneg_right δ1 δ0) q0
    have k2 : η * (1 + δ) * (2 * r) ≤ η * (1001 / 1000) * (1 + r ^ 2) :=
      mul_le_mul (mul_le_mul_of_nonneg_left (by linarith) hs0.le) hr (by positivity) (by positivity)
    have k3 : η * η ≤ 1 / 1000 * η := mul_le_mul_of_nonneg_right hη1 hs0.le
    have k4 : η * (r ^ 2 / 2) ≤ 1 / 1000 * u * (r ^ 2 / 2) := mul_le_mul_of_nonneg_right hs q0
    have k5 : 0 ≤ δ * (r ^ 2 / 2) := mul_nonneg δ0 q0
    have k6 : 0 ≤ u * (r ^ 2 / 2) := mul_nonneg hu.le q0
    rw [e]
    nlinarith
  have h3 : ρ ^ 2 / 2 ≤ 11 / 10 * (r ^ 2 / 2) + η := by
    have := (abs_le.1 (h1.trans h2)).2
    have q0 : 0 ≤ r ^ 2 / 2 := by positivity
    have : (201 / 100 * δ + 1 / 100 * u) * (r ^ 2 / 2) ≤ 1 / 10 * (r ^ 2 / 2) :=
      mul_le_mul_of_nonneg_right (by linarith) q0
    linarith
  have h4 := abs_add_le (b - ρ ^ 2 / 2) (ρ ^ 2 / 2 - r ^ 2 / 2)
  rw [sub_add_sub_cancel] at h4
  have h5 : 21 / 10 * u * (ρ ^ 2 / 2) ≤ 21 / 10 * u * (11 / 10 * (r ^ 2 / 2) + η) :=
    mul_le_mul_of_nonneg_left h3 (by positivity)
  have h6 : u * η ≤ 1 / 100 * η := mul_le_mul_of_nonneg_right (by linarith) hs0.le
  have k6 : 0 ≤ u * (r ^ 2 / 2) := by positivity
  nlinarith

theorem near_le {ρ r δ : ℝ} (r0 : 0 ≤ r) (δ1 : δ ≤ 1 / 1000) {n : Nat} (hr : r ≤ 2 ^ n)
    (hc : |ρ - r| ≤ δ * r + speck) : ρ ≤ 2 ^ (n + 1) := by
  have h1 := (abs_le.1 hc).2
  have hs := speck_small
  have hu1 := roundoff_small
  have h2 : δ * r ≤ 1 / 1000 * r := mul_le_mul_of_nonneg_right δ1 r0
  have h3 : (1 : ℝ) ≤ 2 ^ n := one_le_pow₀ (by norm_num)
  rw [pow_succ]
  linarith

theorem rnd_half (hM : M.rnd = binary64Format.rnd) : M.rnd (1 / 2) = .fin (1 / 2) := by
  have h := binary64Format.rnd_exact (m := 1) (e := -1) (by decide) (by decide) (by
    rw [Int.cast_one, one_mul, abs_of_pos (Format.two_zpow_pos _)]
    exact zpow_lt_zpow_right₀ (by norm_num) (by decide))
  have e : ((1 : ℤ) : ℝ) * 2 ^ (-1 : ℤ) = 1 / 2 := by norm_num
  rw [e] at h
  rw [hM]
  exact h

theorem is_half (hM : M.rnd = binary64Format.rnd) : Is (Scalar.sci 5 1 : FP M) (1 / 2) := by
  unfold Is
  rw [val_sci, show ((5 : ℕ) : ℝ) / 10 ^ 1 = 1 / 2 by norm_num]
  exact rnd_half hM

/-- A product that does not overflow. -/
theorem mul_of (hM : M.rnd = binary64Format.rnd) {a b : FP M} {x y : ℝ} (h : Is a x) (h' : Is b y) (hb : |x * y| ≤ 2 ^ 1022) :
    ∃ z, Is (a *. b) z ∧ |z - x * y| ≤ roundoff * |x * y| + tiny ∧ (0 ≤ x * y → 0 ≤ z) := of_rnd hM (mul_val h h') hb

theorem expQuad_err (hM : M.rnd = binary64Format.rnd) {ε : ℝ} (hε : ExpWithin M ε) (hε1 : ε ≤ 1 / 100) {R : FP M} {r δ : ℝ}
    (h : Computes R r δ) (k : Stationary .expQuad (FP M)) (hv : Finite k.variance) :
    ∃ z, Is (k.kernelStationary R) z ∧
      |z - real k.variance * Real.exp (-(r ^ 2 / 2))| ≤ |real k.variance| * (ε + 21 / 20 * δ + 6 * roundoff) + tiny := by
  obtain ⟨V, hv⟩ := hv
  obtain ⟨r0, ⟨δ0, δ1⟩, hr, ρ, hρ, ρ0, hc⟩ := h
  have hs := speck_small
  have hu := roundoff_pos
  have hu1 := roundoff_small
  have ht0 := tiny_pos
  have ht := tiny_small
  have hρb : ρ ≤ 2 ^ 501 := near_le r0 δ1 hr hc
  have p1 : (2 : ℝ) ^ 501 ≤ 2 ^ 1022 := two_pow_le (by norm_num)
  have ht1' : tiny ≤ 1 := by have := speck_pos; linarith
  obtain ⟨t1, ht1, he1, -⟩ := mul_of hM (is_neg (is_half hM)) hρ (by
    rw [abs_mul, abs_neg, abs_of_nonneg ρ0, abs_of_pos (by norm_num : (0 : ℝ) < 1 / 2)]
    exact le_trans (by linarith only [ρ0]) (hρb.trans p1))
  have x1 : |-(1 / 2) * ρ| = ρ / 2 := by
    rw [abs_mul, abs_neg, abs_of_nonneg ρ0, abs_of_pos (by norm_num : (0 : ℝ) < 1 / 2)]; ring
  rw [x1] at he1
  have ht1n : t1 ≤ 0 := by
    have h1 := rnd_nonpos (M := M) (r := -(1 / 2) * ρ) (by linarith)
    rw [← mul_val (is_neg (is_half hM)) hρ, ht1] at h1
    exact h1
  have t1b : |t1| ≤ 2 * (2 ^ 501) := by
    have h1 := abs_sub_abs_le_abs_sub t1 (-(1 / 2) * ρ)
    rw [x1] at h1
    have h2 : roundoff * (ρ / 2) ≤ 1 * (ρ / 2) := mul_le_mul_of_nonneg_right (by linarith) (by linarith)
    have h3 : (1 : ℝ) ≤ 2 ^ 501 := one_le_pow₀ (by norm_num)
    generalize (2 : ℝ) ^ 501 = B at *
    linarith only [h1, h2, h3, he1, ht1', hρb]
  have hprod : |t1 * ρ| ≤ 2 ^ 1022 := by
    rw [abs_mul, abs_of_nonneg ρ0]
    refine (mul_le_mul t1b hρb ρ0 (by positivity)).trans ?_
    rw [mul_assoc, ← pow_add, ← pow_succ']
    exact two_pow_le (by norm_num)
  obtain ⟨t, ht', he, -⟩ := mul_of hM ht1 hρ hprod
  have htn : t ≤ 0 := by
    have h1 := rnd_nonpos (M := M) (r := t1 * ρ) (mul_nonpos_of_nonpos_of_nonneg ht1n ρ0)
    rw [← mul_val ht1 hρ, ht'] at h1
    exact h1
  have hb : |-t - ρ ^ 2 / 2| ≤ 21 / 10 * roundoff * (ρ ^ 2 / 2) + 4 * tiny := by
    have a1 : |t1 * ρ - -(1 / 2) * ρ * ρ| ≤ (roundoff * (ρ / 2) + tiny) * ρ := by
      rw [← sub_mul, abs_mul, abs_of_nonneg ρ0]; exact mul_le_mul_of_nonneg_right he1 ρ0
    have a2 : |t1 * ρ| ≤ ρ ^ 2 / 2 + (roundoff * (ρ / 2) + tiny) * ρ := by
      have := abs_sub_abs_le_abs_sub (t1 * ρ) (-(1 / 2) * ρ * ρ)
      rw [abs_mul (-(1 / 2) * ρ), x1, abs_of_nonneg ρ0] at this
      linarith [show ρ / 2 * ρ = ρ ^ 2 / 2 by ring]
    have a3 := abs_add_le (t - t1 * ρ) (t1 * ρ - -(1 / 2) * ρ * ρ)
    rw [sub_add_sub_cancel] at a3
    have a4 := mul_le_mul_of_nonneg_left a2 hu.le
    have e : |-t - ρ ^ 2 / 2| = |t - -(1 / 2) * ρ * ρ| := by rw [← abs_neg]; congr 1; ring
    rw [e]
    have q0 : 0 ≤ ρ ^ 2 / 2 := by positivity
    have a5 : tiny * ρ ≤ tiny * (1 + ρ ^ 2) := mul_le_mul_of_nonneg_left (by nlinarith [sq_nonneg (ρ - 1)]) ht0.le
    have a6 : tiny * (ρ ^ 2 / 2) ≤ 1 / 1000 * roundoff * (ρ ^ 2 / 2) :=
      mul_le_mul_of_nonneg_right (by have := speck_pos; linarith) q0
    have a7 : roundoff * (roundoff * (ρ ^ 2 / 2)) ≤ 1 / 1000 * (roundoff * (ρ ^ 2 / 2)) :=
      mul_le_mul_of_nonneg_right (by linarith) (mul_nonneg hu.le q0)
    have a8 : roundoff * (tiny * ρ) ≤ 1 / 1000 * (tiny * ρ) :=
      mul_le_mul_of_nonneg_right (by linarith) (mul_nonneg ht0.le ρ0)
    have e2 : (roundoff * (ρ / 2) + tiny) * ρ = roundoff * (ρ ^ 2 / 2) + tiny * ρ := by ring
    rw [e2] at a4 a1
    have e3 : roundoff * (ρ ^ 2 / 2 + (roundoff * (ρ ^ 2 / 2) + tiny * ρ)) =
      roundoff * (ρ ^ 2 / 2) + roundoff * (roundoff * (ρ ^ 2 / 2)) + roundoff * (tiny * ρ) := by ring
    rw [e3] at a4
    linarith only [he, a1, a3, a4, a5, a6, a7, a8, ht0, mul_nonneg hu.le q0]
  have hfin := half_sq_err r0 ρ0 δ0 δ1 hc hb
  rw [is_real hv]
  obtain ⟨z, hz, h1⟩ := exp_kernel_err hM hε hε1 hv (t := Scalar.neg (Scalar.sci 5 1) *. R *. R) (b := -t)
    (by rw [_root_.neg_neg]; exact ht') (by linarith) (by positivity)
    (by linarith) (by linarith) speck_pos.le (by linarith) hfin
  refine ⟨z, hz, h1.trans (add_le_add (mul_le_mul_of_nonneg_left ?_ (abs_nonneg V)) (le_refl _))⟩
  linarith

end Lfa

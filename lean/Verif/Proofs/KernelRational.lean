import Verif.Proofs.KernelValue
import Mathlib.Analysis.SpecialFunctions.Trigonometric.Bounds

/-!
# Rounding errors of the rational quadratic and the cosine kernel
-/

set_option linter.unusedSectionVars false

namespace Lfa

open Spec Machine XReal

variable {M : Machine}

theorem ln1p_err (hM : M.rnd = binary64Format.rnd) {ε : ℝ} (hε : Ln1pWithin M ε) (hε1 : ε ≤ 1 / 1000) {s : FP M} {σ : ℝ}
    (h : Is s σ) (h0 : 0 ≤ σ) (hb : Real.log (1 + σ) ≤ 2 ^ 20) :
    ∃ l, Is (Scalar.ln1p s) l ∧ 0 ≤ l ∧ |l - Real.log (1 + σ)| ≤ (ε + 2 * roundoff) * Real.log (1 + σ) + tiny := by
  have l0 : 0 ≤ Real.log (1 + σ) := Real.log_nonneg (by linarith)
  have hv : (Scalar.ln1p s).1 = M.rnd (M.ln1p σ) := by
    show (M.round (M.fln1p s.1)).1 = _
    rw [h]
    show (M.round (if σ = -1 then _ else if σ < -1 then _ else _)).1 = _
    rw [if_neg (by linarith), if_neg (by linarith)]; rfl
  have h1 := hε σ h0
  have n0 := M.ln1p_nonneg h0
  have h2 : M.ln1p σ ≤ 2 * Real.log (1 + σ) := by
    have := (abs_le.1 h1).2
    nlinarith
  obtain ⟨l, hl, he, hn⟩ := of_rnd hM hv (by
    rw [abs_of_nonneg n0]
    have : (2 : ℝ) ^ 21 ≤ 2 ^ 1022 := two_pow_le (by norm_num)
    exact le_trans (by linarith only [h2, hb]) this)
  refine ⟨l, hl, hn n0, ?_⟩
  rw [abs_of_nonneg n0] at he
  have h3 := abs_add_le (l - M.ln1p σ) (M.ln1p σ - Real.log (1 + σ))
  rw [sub_add_sub_cancel] at h3
  have := mul_le_mul_of_nonneg_left h2 roundoff_pos.le
  linarith

theorem div_two (hM : M.rnd = binary64Format.rnd) {a : FP M} {x : ℝ} (h : Is a x) (h0 : 0 ≤ x) (hb : x ≤ 2 ^ 1022) :
    ∃ z, Is (a /. Scalar.ofNat 2) z ∧ |z - x / 2| ≤ roundoff * (x / 2) + tiny ∧ 0 ≤ z := by
  have h2 : (Scalar.ofNat 2 : FP M).1 = .fin ((2 : Nat) : ℝ) := C88_binary64 hM 2 (by norm_num)
  have hv : (a /. Scalar.ofNat 2).1 = M.rnd (x / 2) := by
    rw [val_div, h, h2]
    show (M.round (if ((2 : Nat) : ℝ) = 0 then _ else .fin (x / ((2 : Nat) : ℝ)))).1 = _
    rw [if_neg (by norm_num)]; rfl
  have hx : 0 ≤ x / 2 := by linarith
  obtain ⟨z, hz, he, hn⟩ := of_rnd hM hv (by rw [abs_of_nonneg hx]; exact le_trans (by linarith only [h0]) hb)
  rw [abs_of_nonneg hx] at he
  exact ⟨z, hz, he, hn hx⟩

theorem rational_err (hM : M.rnd = binary64Format.rnd) {ε ε' : ℝ} (hε : ExpWithin M ε) (hε1 : ε ≤ 1 / 100)
    (hε' : Ln1pWithin M ε') (hε1' : ε' ≤ 1 / 1000) {R : FP M} {r δ : ℝ} (h : Computes R r δ) (k : RationalQuadratic (FP M))
    (hv : Finite k.variance) {p : ℝ} (hp : Is k.power p) (p0 : 0 ≤ p) (p1 : p ≤ 2 ^ 400) :
    ∃ z, Is (k.kernelStationary R) z ∧
      |z - real k.variance * Real.exp (-(p * Real.log (1 + r ^ 2 / 2)))| ≤
        |real k.variance| * (ε + ε' + 11 / 10 * δ + 8 * roundoff) + tiny := by
  obtain ⟨V, hv⟩ := hv
  obtain ⟨r0, ⟨δ0, δ1⟩, hr, ρ, hρ, ρ0, hc⟩ := h
  have hs := speck_small
  have hs0 := speck_pos
  have hu := roundoff_pos
  have hu1 := roundoff_small
  have ht0 := tiny_pos
  have ht := tiny_small
  have hρb : ρ ≤ 2 ^ 501 := near_le r0 δ1 hr hc
  have ht1 : tiny ≤ 1 := by linarith
  have ε0 : 0 ≤ ε' := by
    have := (abs_nonneg _).trans (hε' (Real.exp 1 - 1) (by linarith [Real.add_one_le_exp (1 : ℝ)]))
    rwa [add_sub_cancel, Real.log_exp, mul_one] at this
  -- the square
  have hsq : ρ * ρ ≤ 2 ^ 1002 := (mul_le_mul hρb hρb ρ0 (by positivity)).trans (by rw [← pow_add])
  have sq0 : 0 ≤ ρ * ρ := mul_nonneg ρ0 ρ0
  obtain ⟨s1, hs1, he1, hn1⟩ := mul_of hM hρ hρ (by
    rw [abs_of_nonneg sq0]; exact hsq.trans (two_pow_le (by norm_num)))
  have s10 := hn1 sq0
  rw [abs_of_nonneg sq0] at he1
  have s1b : s1 ≤ 2 ^ 1022 := by
    have h1 := (abs_le.1 he1).2
    have h2 : roundoff * (ρ * ρ) ≤ 1 * (ρ * ρ) := mul_le_mul_of_nonneg_right (by linarith) sq0
    have h3 : (2 : ℝ) ^ 1002 * 4 ≤ 2 ^ 1022 := by rw [mul_comm]; exact mul_two_pow_le (j := 2) (by norm_num) (by norm_num)
    have h4 : (1 : ℝ) ≤ 2 ^ 1002 := one_le_pow₀ (by norm_num)
    refine le_trans ?_ h3
    generalize (2 : ℝ) ^ 1002 = B at *
    linarith only [h1, h2, h4, ht1, hsq]
  -- half of it
  obtain ⟨σ, hσ, he2, σ0⟩ := div_two hM hs1 s10 s1b
  have hb : |σ - ρ ^ 2 / 2| ≤ 21 / 10 * roundoff * (ρ ^ 2 / 2) + 4 * tiny := by
    have h1 := abs_add_le (σ - s1 / 2) (s1 / 2 - ρ ^ 2 / 2)
    rw [sub_add_sub_cancel] at h1
    have h2 : |s1 / 2 - ρ ^ 2 / 2| ≤ roundoff * (ρ ^ 2 / 2) + tiny := by
      rw [show s1 / 2 - ρ ^ 2 / 2 = (s1 - ρ * ρ) / 2 by ring, abs_div, abs_of_pos (by norm_num : (0 : ℝ) < 2)]
      rw [show ρ ^ 2 / 2 = ρ * ρ / 2 by ring]
      linarith
    have h3 : s1 / 2 ≤ ρ ^ 2 / 2 + (roundoff * (ρ ^ 2 / 2) + tiny) := by
      have := (abs_le.1 h2).2; linarith
    have h4 := mul_le_mul_of_nonneg_left h3 hu.le
    have q0 : 0 ≤ ρ ^ 2 / 2 := by positivity
    have a7 : roundoff * (roundoff * (ρ ^ 2 / 2)) ≤ 1 / 1000 * (roundoff * (ρ ^ 2 / 2)) :=
      mul_le_mul_of_nonneg_right (by linarith) (mul_nonneg hu.le q0)
    have a8 : roundoff * tiny ≤ 1 * tiny := mul_le_mul_of_nonneg_right (by linarith) ht0.le
    rw [mul_add, mul_add] at h4
    linarith only [h1, h2, h4, a7, a8, he2, ht0, mul_nonneg hu.le q0]
  have hfin := half_sq_err r0 ρ0 δ0 δ1 hc hb
  set a := r ^ 2 / 2 with ha
  have a0 : 0 ≤ a := by positivity
  -- the logarithm
  have hL := log_gap a0 σ0 hs0.le (by linarith) (by linarith) hfin
  set L := Real.log (1 + a) with hLd
  have L0 : 0 ≤ L := Real.log_nonneg (by linarith)
  have L1 : L ≤ 2 ^ 10 := by
    have h1 : 1 + a ≤ 2 ^ 1001 := by
      have h2 : r ^ 2 ≤ (2 ^ 500) ^ 2 := pow_le_pow_left₀ r0 hr 2
      rw [← pow_mul] at h2
      have h3 : (1 : ℝ) ≤ 2 ^ (500 * 2) := one_le_pow₀ (by norm_num)
      rw [show 1001 = 500 * 2 + 1 by norm_num, pow_succ]
      generalize (2 : ℝ) ^ (500 * 2) = B at *
      linarith only [ha, h2, h3]
    have h2 := Real.log_le_log (by linarith) h1
    rw [Real.log_pow] at h2
    have h3 := Real.log_two_lt_d9
    push_cast at h2
    linarith
  set δ' := 201 / 100 * δ + 3 * roundoff with hδ'
  have δ'0 : 0 ≤ δ' := by positivity
  have δ'1 : δ' ≤ 1 / 300 := by linarith
  have hlog : Real.log (1 + σ) ≤ 2 ^ 20 := by
    have h1 := (abs_le.1 hL).2
    have h2 : 102 / 100 * δ' * L ≤ 1 * L := mul_le_mul_of_nonneg_right (by linarith) L0
    linarith
  obtain ⟨l, hl, l0, hle⟩ := ln1p_err hM hε' hε1' hσ σ0 hlog
  have hlL : |l - L| ≤ (103 / 100 * δ' + 105 / 100 * ε' + 21 / 10 * roundoff) * L + 3 * speck := by
    have h1 := abs_add_le (l - Real.log (1 + σ)) (Real.log (1 + σ) - L)
    rw [sub_add_sub_cancel] at h1
    have h2 : Real.log (1 + σ) ≤ L + (102 / 100 * δ' * L + 2 * speck) := by have := (abs_le.1 hL).2; linarith
    have h3 := mul_le_mul_of_nonneg_left h2 (by positivity : 0 ≤ ε' + 2 * roundoff)
    have e : (ε' + 2 * roundoff) * (L + (102 / 100 * δ' * L + 2 * speck)) =
      (ε' + 2 * roundoff) * L + 102 / 100 * δ' * ((ε' + 2 * roundoff) * L) + 2 * (ε' + 2 * roundoff) * speck := by ring
    rw [e] at h3
    have m0 : 0 ≤ (ε' + 2 * roundoff) * L := by positivity
    have h4 : 102 / 100 * δ' * ((ε' + 2 * roundoff) * L) ≤ 1 / 100 * ((ε' + 2 * roundoff) * L) :=
      mul_le_mul_of_nonneg_right (by linarith) m0
    have h5 : 2 * (ε' + 2 * roundoff) * speck ≤ 1 / 100 * speck := mul_le_mul_of_nonneg_right (by linarith) hs0.le
    have h6 : 0 ≤ δ' * L := mul_nonneg δ'0 L0
    have h7 : (1 : ℝ) / 2 ^ 100 * speck ≤ 1 / 100 * speck := mul_le_mul_of_nonneg_right (by norm_num) hs0.le
    have h8 : 0 ≤ ε' * L := mul_nonneg ε0 L0
    have h9 : 0 ≤ roundoff * L := mul_nonneg hu.le L0
    linarith only [h1, h3, h4, h5, h6, h7, h8, h9, hle, hL, ht, hs0]
  -- the product with the power
  set κ := 103 / 100 * δ' + 105 / 100 * ε' + 21 / 10 * roundoff with hκ
  have κ0 : 0 ≤ κ := by positivity
  have κ1 : κ ≤ 1 / 200 := by linarith
  have pl0 : 0 ≤ p * l := mul_nonneg p0 l0
  have l1 : l ≤ 2 ^ 11 := by
    have h1 := (abs_le.1 hlL).2
    have h2 : κ * L ≤ 1 / 200 * L := mul_le_mul_of_nonneg_right κ1 L0
    linarith
  have plb : p * l ≤ 2 ^ 1022 := by
    refine (mul_le_mul p1 l1 l0 (by positivity)).trans ?_
    rw [← pow_add]; exact two_pow_le (by norm_num)
  have enl : |-p * l| = p * l := by rw [neg_mul, abs_neg, abs_of_nonneg pl0]
  obtain ⟨t, ht', he, -⟩ := mul_of hM (is_neg hp) hl (by rw [enl]; exact plb)
  have htn : t ≤ 0 := by
    have h1 := rnd_nonpos (M := M) (r := -p * l) (by rw [neg_mul]; linarith)
    rw [← mul_val (is_neg hp) hl, ht'] at h1
    exact h1
  rw [enl] at he
  have pη : p * speck ≤ 1 / 1000 * roundoff := by
    refine (mul_le_mul_of_nonneg_right p1 hs0.le).trans ?_
    have e : (2 : ℝ) ^ 400 * speck = 2 ^ (-63 : ℤ) * roundoff := by
      unfold speck roundoff
      rw [← zpow_natCast, ← zpow_add₀ (by norm_num), ← zpow_add₀ (by norm_num)]
      norm_num
    rw [e]
    exact mul_le_mul_of_nonneg_right (by norm_num) hu.le
  have hpl : |p * l - p * L| ≤ κ * (p * L) + 3 * (p * speck) := by
    rw [← mul_sub, abs_mul, abs_of_nonneg p0]
    have := mul_le_mul_of_nonneg_left hlL p0
    linarith
  have pL0 : 0 ≤ p * L := mul_nonneg p0 L0
  have hgap : |-t - p * L| ≤ (κ + 2 * roundoff) * (p * L) + 1 / 100 * roundoff := by
    have h1 := abs_add_le (-t - p * l) (p * l - p * L)
    rw [sub_add_sub_cancel] at h1
    have h2 : |-t - p * l| = |t - -p * l| := by rw [← abs_neg]; congr 1; ring
    have h3 : p * l ≤ p * L + (κ * (p * L) + 3 * (p * speck)) := by have := (abs_le.1 hpl).2; linarith
    have h4 := mul_le_mul_of_nonneg_left h3 hu.le
    have h5 : κ * (roundoff * (p * L)) ≤ 1 / 200 * (roundoff * (p * L)) := mul_le_mul_of_nonneg_right κ1 (by positivity)
    have h6 : roundoff * (p * speck) ≤ 1 * (p * speck) := mul_le_mul_of_nonneg_right (by linarith) (by positivity)
    have h7 : 0 ≤ roundoff * (p * L) := by positivity
    have h8 : roundoff * (p * L + (κ * (p * L) + 3 * (p * speck))) =
      roundoff * (p * L) + κ * (roundoff * (p * L)) + 3 * (roundoff * (p * speck)) := by ring
    rw [h8] at h4
    have h9 : (1 : ℝ) / 2 ^ 100 * speck ≤ 1 / 100 * speck := mul_le_mul_of_nonneg_right (by norm_num) hs0.le
    linarith only [h1, h2, he, h4, h5, h6, h7, h9, hpl, pη, ht, hs, hs0, hu]
  rw [is_real hv]
  obtain ⟨z, hz, h1⟩ := exp_kernel_err hM hε hε1 hv
    (t := Scalar.neg k.power *. Scalar.ln1p (R *. R /. Scalar.ofNat 2)) (b := -t)
    (by rw [_root_.neg_neg]; exact ht') (by linarith) pL0 (by linarith) (by linarith) (by linarith) (by linarith) hgap
  refine ⟨z, hz, h1.trans (add_le_add (mul_le_mul_of_nonneg_left ?_ (abs_nonneg V)) (le_refl _))⟩
  rw [hκ, hδ']
  linarith only [δ0, ε0, hu]

theorem cosine_err (hM : M.rnd = binary64Format.rnd) {ε : ℝ} (hε : ∀ r, |M.cos r - Real.cos r| ≤ ε) {R : FP M} {r δ : ℝ}
    (h : Computes R r δ) (k : Stationary .cosine (FP M)) (hv : Finite k.variance) :
    ∃ z, Is (k.kernelStationary R) z ∧
      |z - real k.variance * Real.cos r| ≤ |real k.variance| * (ε + δ * r + 3 * roundoff) + tiny := by
  obtain ⟨V, hv⟩ := hv
  obtain ⟨r0, ⟨δ0, δ1⟩, hr, ρ, hρ, ρ0, hc⟩ := h
  have hs := speck_small
  have hs0 := speck_pos
  have hu := roundoff_pos
  have ht := tiny_small
  have hval : (Scalar.cos R).1 = M.rnd (M.cos ρ) := by
    show (M.round (M.fcos R.1)).1 = _
    rw [hρ]; rfl
  obtain ⟨c, hcs, hc1⟩ := bounded_rnd hval (M.cos_bounded ρ) M.rnd_one
  have h1 := rnd_err hM (hval.symm.trans hcs)
  have h2 := mul_le_mul_of_nonneg_left (M.cos_bounded ρ) hu.le
  have h3 := hε ρ
  have h4 : |Real.cos ρ - Real.cos r| ≤ |ρ - r| := Real.abs_cos_sub_cos_le ρ r
  have h5 : |c - Real.cos r| ≤ ε + δ * r + 2 * roundoff := by
    have a1 := abs_add_le (c - M.cos ρ) (M.cos ρ - Real.cos ρ)
    have a2 := abs_add_le (c - Real.cos ρ) (Real.cos ρ - Real.cos r)
    rw [sub_add_sub_cancel] at a1 a2
    linarith
  rw [is_real hv]
  obtain ⟨z, hz, hb⟩ := scale_err hM hv hcs hc1 h5
  refine ⟨z, hz, hb.trans (le_of_eq ?_)⟩
  ring

end Lfa

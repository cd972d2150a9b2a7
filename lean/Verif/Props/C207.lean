import Verif.Props.C194

/-!
# C207: bootstrapping can ruin a double-precision approximator at every learning rate

Train `x` towards `r + γ * evaluate(x')` again and again. If the features at `x'` are long enough in the direction of those at `x`
(`γ ⟨φ(x), φ(x')⟩ > ‖φ(x)‖²`), the target runs away from the prediction faster than training follows, however small the rate; in
double precision the weights are lost after finitely many calls.
-/

set_option linter.unusedSectionVars false

namespace Lfa

open Spec Machine XReal

variable {M : Machine}

/-- The exact error of the transition with features `φ`, reward `r`, discount `g` and next features `ψ`, at the weights `w`. -/
noncomputable def Spec.transitionError (n : Nat) (g : ℝ) (r : FP M) (φ ψ : Features (FP M)) (w : List (FP M)) : ℝ :=
  real r + g * ∑ i ∈ Finset.range n, real (value ψ i) * real (entry w i) - ∑ i ∈ Finset.range n, real (value φ i) * real (entry w i)

/-- What limits the rounding of a call: `‖φ‖ + g ‖ψ‖`. -/
noncomputable def Spec.reach (n : Nat) (g : ℝ) (φ ψ : Features (FP M)) : ℝ :=
  len n (fun i => real (value φ i)) + g * len n (fun i => real (value ψ i))

/-! ## One call -/

theorem runaway_step {q d k u E G E' G' R τ : ℝ} (d0 : 0 < d) (dq : d ≤ q) (k0 : 0 ≤ k) (u0 : 0 ≤ u)
    (hu : (512 * k + 256) * u * (q + 1) * q ≤ d ^ 2) (E0 : 0 ≤ E) (hG : G ≤ 4 * q / d * E) (hτ : τ ≤ u * E)
    (hR : R ≤ (1 + 6 * q + 16 * k * q) * u * G + 7 * u * q * E + τ) (hE : (1 + d) * E - R ≤ E') (hG' : G' ≤ G + q * E + R) :
    (1 + d / 2) * E ≤ E' ∧ G' ≤ 4 * q / d * E' := by
  have q0 : 0 < q := d0.trans_le dq
  set K := 4 * q / d with hK
  have Kd : K * d = 4 * q := by rw [hK]; field_simp
  have K0 : 0 ≤ K := by rw [hK]; positivity
  have a1 : (1 + 6 * q + 16 * k * q) * u * K ≤ d / 8 := by
    rw [hK, ← mul_div_assoc, div_le_iff₀ d0]
    have h1 : 0 ≤ u * q := by positivity
    have h2 : 0 ≤ k * u * q := by positivity
    have h3 : 0 ≤ u * q * q := by positivity
    nlinarith
  have a2 : 7 * u * q + u ≤ d / 8 := by
    have h1 : 256 * u * (q + 1) * q ≤ d * q := by
      have h2 : 0 ≤ k * u * (q + 1) * q := by positivity
      have h3 : d ^ 2 ≤ d * q := by rw [pow_two]; exact mul_le_mul_of_nonneg_left dq d0.le
      nlinarith
    have h4 := le_of_mul_le_mul_right h1 q0
    nlinarith [mul_nonneg u0 q0.le]
  have a3 : R ≤ d / 4 * E := by
    have h1 := mul_le_mul_of_nonneg_left hG (by positivity : 0 ≤ (1 + 6 * q + 16 * k * q) * u)
    have h2 := mul_le_mul_of_nonneg_right a1 E0
    have h3 := mul_le_mul_of_nonneg_right a2 E0
    nlinarith
  have a4 : (1 + 3 * d / 4) * E ≤ E' := by nlinarith
  have dE : 0 ≤ d * E := by positivity
  constructor
  · nlinarith
  · have h1 := mul_le_mul_of_nonneg_left a4 K0
    have h2 : K * ((1 + 3 * d / 4) * E) = K * E + 3 * q * E := by linear_combination (3 / 4 * E) * Kd
    have h3 : d * E ≤ q * E := mul_le_mul_of_nonneg_right dq E0
    nlinarith

/-- What underflow can add. -/
theorem runaway_underflow {n k : Nat} {l A B : ℝ} (hn : n ≤ 2 ^ 40) (hk : k ≤ 2 ^ 40) (l0 : 0 ≤ l) (l1 : l ≤ 2 ^ 100) (A0 : 0 ≤ A)
    (hA : A ≤ 2 ^ 120) (B0 : 0 ≤ B) (hB : B ≤ 2 ^ 121) :
    ((16 * k + 4) * (l * A * B) + 2 * B * (√n + A)) * tiny ≤ roundoff * 2 ^ (-600 : ℤ) := by
  have h1 : (k : ℝ) ≤ 2 ^ 40 := by exact_mod_cast hk
  have h2 : √(n : ℝ) ≤ 2 ^ 20 := sqrt_count hn
  have q0 : 0 ≤ l * A * B := by positivity
  have h3 : l * A * B ≤ 2 ^ 100 * 2 ^ 120 * 2 ^ 121 :=
    mul_le_mul (mul_le_mul l1 hA A0 (by positivity)) hB B0 (by positivity)
  have h4 : (16 * (k : ℝ) + 4) * (l * A * B) ≤ 2 ^ 45 * (2 ^ 100 * 2 ^ 120 * 2 ^ 121) :=
    mul_le_mul (by linarith) h3 q0 (by positivity)
  have h5 : B * (√n + A) ≤ 2 ^ 121 * (2 ^ 20 + 2 ^ 120) := mul_le_mul hB (add_le_add h2 hA) (by positivity) (by positivity)
  have h6 : (16 * (k : ℝ) + 4) * (l * A * B) + 2 * B * (√n + A) ≤ 2 ^ (400 : ℤ) := by
    have e : (2 : ℝ) ^ (400 : ℤ) = 2 ^ 200 * 2 ^ 200 := by
      rw [← pow_add, ← zpow_natCast]
      rfl
    rw [e, mul_assoc 2 B]
    generalize (16 * (k : ℝ) + 4) * (l * A * B) = a at *
    generalize B * (√n + A) = b at *
    norm_num at h4 h5 ⊢
    linarith
  refine (mul_le_mul_of_nonneg_right h6 tiny_pos.le).trans ?_
  rw [tiny, roundoff, ← zpow_add₀ (by norm_num)]
  rw [← zpow_add₀ (by norm_num)]
  exact zpow_le_zpow_right₀ (by norm_num) (by norm_num)

theorem four_roundings : (1 + roundoff) ^ 4 - 1 ≤ 5 * roundoff := by
  unfold roundoff
  norm_num

theorem two_roundings : (1 + roundoff) ^ 2 ≤ 2 := by
  unfold roundoff
  norm_num

/-- How far the computed target is from the exact one. -/
theorem target_err (hM : M.rnd = binary64Format.rnd) {r γ v' : FP M} {g s s' P N T : ℝ} (hγ : Is γ g) (g0 : 0 ≤ g) (g1 : g ≤ 1)
    (hf : Spec.Finite (r +. γ *. v')) (hv : ∀ z, Is v' z → |z - s'| ≤ P) (hN : g * |s'| ≤ N) (hT : g * P ≤ T) (T0 : 0 ≤ T)
    (hs : |s| + g * |s'| ≤ N) :
    |real (r +. γ *. v') - (real r + g * s')| ≤ roundoff * |real r + g * s' - s| + 3 * roundoff * N + 3 * T + 2 * tiny := by
  have hu0 := roundoff_pos
  have hu1 : roundoff ≤ 1 / 100 := by unfold roundoff; norm_num
  have ht := tiny_pos
  obtain ⟨Y, hY⟩ := hf
  obtain ⟨a, z, ha, hz, e1⟩ := add_err hM hY
  obtain ⟨g', p', hg', hp', e2⟩ := mul_err hM hz
  obtain rfl : g' = g := is_unique hg' hγ
  rw [is_real hY, is_real ha]
  have e3 := mul_le_mul_of_nonneg_left (hv p' hp') g0
  have e4 : |g' * p' - g' * s'| ≤ T := by rw [← mul_sub, abs_mul, abs_of_nonneg g0]; exact e3.trans hT
  have e5 : |g' * p'| ≤ g' * |s'| + T := by
    have := abs_sub_abs_le_abs_sub (g' * p') (g' * s')
    rw [abs_mul g' s', abs_of_nonneg g0] at this
    linarith
  have e6 : |z - g' * s'| ≤ roundoff * (N + T) + tiny + T := by
    have h1 := abs_sub_le z (g' * p') (g' * s')
    have h2 := mul_le_mul_of_nonneg_left (e5.trans (add_le_add_left hN T)) hu0.le
    linarith
  have e7 : |a + z| ≤ |a + g' * s' - s| + |s| + |z - g' * s'| := by
    have h : a + z = (a + g' * s' - s) + s + (z - g' * s') := by ring
    rw [h]
    exact (abs_add_le _ _).trans (add_le_add_left (abs_add_le _ _) _)
  have e8 : |Y - (a + g' * s')| ≤ roundoff * |a + z| + |z - g' * s'| := by
    have h : Y - (a + g' * s') = (Y - (a + z)) + (z - g' * s') := by ring
    rw [h]
    exact (abs_add_le _ _).trans (add_le_add_left e1 _)
  have N0 : 0 ≤ N := le_trans (by positivity) hN
  have e9 : |s| ≤ N := by
    have : 0 ≤ g' * |s'| := by positivity
    linarith
  have e10 := mul_le_mul_of_nonneg_left (e7.trans (add_le_add_left (add_le_add_right e9 _) _)) hu0.le
  have e11 : roundoff * |z - g' * s'| ≤ 1 / 100 * |z - g' * s'| := mul_le_mul_of_nonneg_right hu1 (abs_nonneg _)
  have e12 : roundoff * T ≤ 1 / 100 * T := mul_le_mul_of_nonneg_right hu1 T0
  have e13 : 0 ≤ roundoff * N := by positivity
  nlinarith

set_option maxHeartbeats 1000000 in
/-- One call in double precision, from the error and weights before it. -/
theorem runaway_call (hM : M.rnd = binary64Format.rnd) {n k : Nat} {c γ r : FP M} {w w₁ : List (FP M)} {φ ψ : Features (FP M)}
    (hφ : Fits n φ) (hψ : Fits n ψ) {v v' : FP M} (hmod : Moderate n k φ r) (hmod' : Moderate n k ψ r) (hw : w.length = n)
    (hd : φ.dot w = .ok v) (hd' : ψ.dot w = .ok v') {l g q d : ℝ} (hc : Is c l) (l0 : 0 ≤ l) (l1 : l ≤ 2 ^ 100) (hγ : Is γ g)
    (g0 : 0 ≤ g) (g1 : g ≤ 1) (hq : q = l * len n (fun i => real (value φ i)) * reach n g φ ψ)
    (hdd : d = l * (g * ∑ i ∈ Finset.range n, real (value ψ i) * real (value φ i) - ∑ i ∈ Finset.range n, real (value φ i) ^ 2))
    (d0 : 0 < d) (hu : (512 * k + 256) * roundoff * (q + 1) * q ≤ d ^ 2)
    (h : ∀ i < n, (∀ a, Stored φ i a → entry w₁ i = (entry w i +. c *. ((r +. γ *. v') -. v) *. a)) ∧
      (¬ Active φ i → entry w₁ i = entry w i)) (hz : ∀ i < n, Spec.Finite (entry w₁ i))
    (hE : 2 ^ (-600 : ℤ) ≤ |transitionError n g r φ ψ w|)
    (hG : reach n g φ ψ * len n (fun i => real (entry w i)) ≤ 4 * q / d * |transitionError n g r φ ψ w|) :
    (1 + d / 2) * |transitionError n g r φ ψ w| ≤ |transitionError n g r φ ψ w₁| ∧
    reach n g φ ψ * len n (fun i => real (entry w₁ i)) ≤ 4 * q / d * |transitionError n g r φ ψ w₁| := by
  have hu0 := roundoff_pos
  have hu1 : roundoff ≤ 1 / 100 := by unfold roundoff; norm_num
  have ht := tiny_pos
  have A0 := len_nonneg n fun i => real (value φ i)
  have C0 := len_nonneg n fun i => real (value ψ i)
  have hA := features_len hmod hφ
  have hC := features_len hmod' hψ
  have k0 : (0 : ℝ) ≤ k := k.cast_nonneg
  -- the prediction and the target are finite
  have hfin : Spec.Finite v ∧ Spec.Finite (r +. γ *. v') := by
    obtain ⟨i, hi, hne⟩ : ∃ i < n, real (value φ i) ≠ 0 := by
      by_contra hcon
      push Not at hcon
      have e1 : ∑ i ∈ Finset.range n, real (value φ i) ^ 2 = 0 :=
        Finset.sum_eq_zero fun i hi => by rw [hcon i (Finset.mem_range.1 hi)]; norm_num
      have e2 : ∑ i ∈ Finset.range n, real (value ψ i) * real (value φ i) = 0 :=
        Finset.sum_eq_zero fun i hi => by rw [hcon i (Finset.mem_range.1 hi), mul_zero]
      rw [e1, e2, mul_zero, sub_zero, mul_zero] at hdd
      linarith
    obtain ⟨a, ha⟩ : Active φ i := by
      by_contra hcon
      exact hne (by rw [value_inactive hφ hcon, real_zero'])
    have := hz i hi
    rw [(h i hi).1 a ha] at this
    have := sub_finite (mul_finite (mul_finite (add_finite this).2).1).2
    exact ⟨this.2, this.1⟩
  obtain ⟨⟨p, hp⟩, hY⟩ := hfin
  have e1 : ∀ z, Is v z → |z - exactDot φ w| ≤ predictionError φ w := fun z hr => dot_err hM hφ hw hd hr
  have e1' : ∀ z, Is v' z → |z - exactDot ψ w| ≤ predictionError ψ w := fun z hr => dot_err hM hψ hw hd' hr
  have e2 := predictionError_le hφ w hmod.count.1 hmod.count.2
  have e2' := predictionError_le hψ w hmod'.count.1 hmod'.count.2
  have e3 := predictionError_nonneg φ w
  have e3' := predictionError_nonneg ψ w
  have hcall := call_err hM (c := c) hφ e1 h hz
  have ep := e1 p hp
  have ex : exactDot φ w = ∑ i ∈ Finset.range n, real (value φ i) * real (entry w i) := by rw [exactDot, hφ.2]
  have ex' : exactDot ψ w = ∑ i ∈ Finset.range n, real (value ψ i) * real (entry w i) := by rw [exactDot, hψ.2]
  rw [ex] at hcall ep
  have S1 := abs_sum_mul_le_len n (fun i => real (value φ i)) fun i => real (entry w i)
  have S2 := abs_sum_mul_le_len n (fun i => real (value ψ i)) fun i => real (entry w i)
  have S3 := abs_sum_mul_le_len n (fun i => real (value ψ i)) fun i => real (value φ i)
  unfold transitionError reach at *
  set s := ∑ i ∈ Finset.range n, real (value φ i) * real (entry w i) with hs
  set s' := ∑ i ∈ Finset.range n, real (value ψ i) * real (entry w i) with hs'
  set A := len n fun i => real (value φ i) with hAdef
  set C := len n fun i => real (value ψ i) with hCdef
  set N := len n fun i => real (entry w i) with hN
  set Y := real (r +. γ *. v') with hYdef
  set ρ := fun i => real (entry w₁ i) - (real (entry w i) + real c * (Y - s) * real (value φ i)) with hρ
  have N0 : 0 ≤ N := len_nonneg _ _
  have B0 : 0 ≤ A + g * C := by positivity
  have hB : A + g * C ≤ 2 ^ 121 := by
    have : g * C ≤ 1 * 2 ^ 120 := mul_le_mul g1 hC C0 zero_le_one
    rw [pow_succ (2 : ℝ) 120]
    linarith
  have q0 : 0 ≤ q := by rw [hq]; positivity
  have dq : d ≤ q := by
    have h1 : (0 : ℝ) ≤ ∑ i ∈ Finset.range n, real (value φ i) ^ 2 := Finset.sum_nonneg fun i _ => sq_nonneg _
    have h2 := mul_le_mul_of_nonneg_left ((le_abs_self _).trans S3) g0
    have h3 : l * (g * ∑ i ∈ Finset.range n, real (value ψ i) * real (value φ i) - ∑ i ∈ Finset.range n, real (value φ i) ^ 2) ≤
      l * (g * (C * A)) := mul_le_mul_of_nonneg_left (by linarith) l0
    have h4 : 0 ≤ l * A * A := by positivity
    rw [hdd, hq]
    linarith
  set E := |real r + g * s' - s| with hEdef
  have E0 : 0 ≤ E := abs_nonneg _
  set G := (A + g * C) * N with hGdef
  have G0 : 0 ≤ G := by positivity
  -- the target
  set η := Y - (real r + g * s') with hη
  have AN : A * N ≤ G := by
    have : 0 ≤ g * C * N := by positivity
    rw [hGdef, add_mul]
    linarith
  have hη1 : |η| ≤ roundoff * E + (3 + 6 * k) * roundoff * G + (6 * k + 2) * tiny := by
    have hT : g * predictionError ψ w ≤ 2 * k * roundoff * G + 2 * k * tiny := by
      have h1 := mul_le_mul_of_nonneg_left e2' g0
      have h2 : g * (2 * k * tiny) ≤ 1 * (2 * k * tiny) := mul_le_mul_of_nonneg_right g1 (by positivity)
      have h3 : (0 : ℝ) ≤ 2 * k * roundoff * (A * N) := by positivity
      rw [hGdef]
      linarith
    have h1 : |s| + g * |s'| ≤ G := by
      have := mul_le_mul_of_nonneg_left S2 g0
      rw [hGdef, add_mul, mul_assoc]
      linarith
    have := target_err hM (s := s) (N := G) hγ g0 g1 hY e1' (by rw [ex']; linarith [abs_nonneg s]) hT (by positivity) (by rw [ex']; exact h1)
    rw [ex'] at this
    rw [hη, hEdef]
    linarith
  rw [is_real hc] at hρ
  set R := (A + g * C) * len n ρ + q * |η| with hR
  set τ := ((16 * k + 4) * (l * A * (A + g * C)) + 2 * (A + g * C) * (√n + A)) * tiny with hτ
  have hτ1 : τ ≤ roundoff * E :=
    (runaway_underflow hmod.size hmod.count.2 l0 l1 A0 hA B0 hB).trans (mul_le_mul_of_nonneg_left hE hu0.le)
  have hR1 : R ≤ (1 + 6 * q + 16 * k * q) * roundoff * G + 7 * roundoff * q * E + τ := by
    have hcall' := mul_le_mul_of_nonneg_left hcall B0
    unfold callError at hcall'
    rw [is_real hc, abs_of_nonneg l0, is_real hp, ← hAdef, ← hN, ← hYdef, mul_add, mul_add] at hcall'
    have f1 := four_roundings
    have f2 := two_roundings
    have f3 : |Y - p| ≤ E + |η| + predictionError φ w := by
      have h1 : Y - p = (real r + g * s' - s) + η + (s - p) := by rw [hη]; ring
      rw [h1]
      refine (abs_add_le _ _).trans (add_le_add (abs_add_le _ _) ?_)
      rw [abs_sub_comm]
      exact ep
    have f4 : ((1 + roundoff) ^ 4 - 1) * |Y - p| + predictionError φ w ≤
        5 * roundoff * E + |η| + 4 * k * roundoff * G + 4 * k * tiny := by
      have g1 := mul_le_mul f1 f3 (abs_nonneg _) (by positivity)
      have g2 : 5 * roundoff * predictionError φ w ≤ 1 * predictionError φ w := mul_le_mul_of_nonneg_right (by linarith) e3
      have g3 : 5 * roundoff * |η| ≤ 1 * |η| := mul_le_mul_of_nonneg_right (by linarith) (abs_nonneg _)
      have g4 := mul_le_mul_of_nonneg_left AN (by positivity : 0 ≤ 4 * (k : ℝ) * roundoff)
      linarith
    have f5 := mul_le_mul_of_nonneg_left f4 q0
    have f6 : (A + g * C) * ((1 + roundoff) ^ 2 * (√n + A) * tiny) ≤ 2 * (A + g * C) * (√n + A) * tiny := by
      have := mul_le_mul_of_nonneg_right f2 (by positivity : 0 ≤ (A + g * C) * (√(n : ℝ) + A) * tiny)
      linarith
    have f7 : (A + g * C) * (l * A * (((1 + roundoff) ^ 4 - 1) * |Y - p| + predictionError φ w)) =
        q * (((1 + roundoff) ^ 4 - 1) * |Y - p| + predictionError φ w) := by rw [hq]; ring
    have f8 := mul_le_mul_of_nonneg_left hη1 q0
    rw [f7] at hcall'
    rw [hR, hτ, ← hq]
    have f9 : (A + g * C) * (roundoff * N) = roundoff * G := by rw [hGdef]; ring
    rw [f9] at hcall'
    linarith
  have hρe : ∀ i, real (entry w₁ i) = real (entry w i) + l * (Y - s) * real (value φ i) + ρ i := fun i => by
    rw [hρ]; ring
  have hYe : Y - s = (real r + g * s' - s) + η := by rw [hη]; ring
  set T := ∑ i ∈ Finset.range n, (g * real (value ψ i) - real (value φ i)) * ρ i with hTdef
  have hEs : real r + g * (∑ i ∈ Finset.range n, real (value ψ i) * real (entry w₁ i)) -
      (∑ i ∈ Finset.range n, real (value φ i) * real (entry w₁ i)) = (1 + d) * (real r + g * s' - s) + (d * η + T) := by
    have a1 : ∑ i ∈ Finset.range n, real (value ψ i) * real (entry w₁ i) =
        s' + l * (Y - s) * (∑ i ∈ Finset.range n, real (value ψ i) * real (value φ i)) + ∑ i ∈ Finset.range n, real (value ψ i) * ρ i := by
      rw [hs', Finset.mul_sum, ← Finset.sum_add_distrib, ← Finset.sum_add_distrib]
      exact Finset.sum_congr rfl fun i _ => by rw [hρe i]; ring
    have a2 : ∑ i ∈ Finset.range n, real (value φ i) * real (entry w₁ i) =
        s + l * (Y - s) * (∑ i ∈ Finset.range n, real (value φ i) ^ 2) + ∑ i ∈ Finset.range n, real (value φ i) * ρ i := by
      rw [hs, Finset.mul_sum, ← Finset.sum_add_distrib, ← Finset.sum_add_distrib]
      exact Finset.sum_congr rfl fun i _ => by rw [hρe i]; ring
    have a3 : T = g * ∑ i ∈ Finset.range n, real (value ψ i) * ρ i - ∑ i ∈ Finset.range n, real (value φ i) * ρ i := by
      rw [hTdef, Finset.mul_sum, ← Finset.sum_sub_distrib]
      exact Finset.sum_congr rfl fun i _ => by ring
    rw [a1, a2, a3, hYe, hdd]
    ring
  have hTb : |T| ≤ (A + g * C) * len n ρ := by
    refine (abs_sum_mul_le_len n _ ρ).trans (mul_le_mul_of_nonneg_right ?_ (len_nonneg _ _))
    have a1 : len n (fun i => g * real (value ψ i) - real (value φ i)) =
        len n (fun i => g * real (value ψ i) + (-1) * real (value φ i)) := len_congr fun i _ => by ring
    rw [a1]
    refine (len_add_le n _ _).trans ?_
    rw [len_smul', len_smul', abs_of_nonneg g0, abs_neg, abs_one, one_mul]
    linarith
  refine runaway_step d0 dq k0 hu0.le hu E0 hG hτ1 hR1 ?_ ?_
  · rw [hEs]
    have a1 := abs_sub_abs_le_abs_sub ((1 + d) * (real r + g * s' - s)) (-(d * η + T))
    rw [abs_mul, abs_of_pos (by linarith : 0 < 1 + d), abs_neg, sub_neg_eq_add] at a1
    have a2 := abs_add_le (d * η) T
    rw [abs_mul, abs_of_pos d0] at a2
    have a3 := mul_le_mul_of_nonneg_right dq (abs_nonneg η)
    linarith
  · have e : len n (fun i => real (entry w₁ i)) ≤ N + l * (E + |η|) * A + len n ρ := by
      rw [len_congr fun i _ => hρe i]
      refine (len_add_le n _ _).trans (add_le_add_left ((len_add_le n _ _).trans (add_le_add_right ?_ _)) _)
      rw [len_smul', abs_mul, abs_of_nonneg l0, hYe]
      exact mul_le_mul_of_nonneg_right (mul_le_mul_of_nonneg_left (abs_add_le _ _) l0) A0
    have a2 := mul_le_mul_of_nonneg_left e B0
    have a3 : (A + g * C) * (N + l * (E + |η|) * A + len n ρ) = G + q * E + R := by rw [hR, hq, hGdef]; ring
    linarith

/-- One bootstrapped call, on the weights: the step is by a rate of which `P` holds. -/
def BootStep (n : Nat) (γ r : FP M) (φ ψ : Features (FP M)) (P : FP M → Features (FP M) → Prop) (w w₁ : List (FP M)) : Prop :=
  w.length = n ∧ ∃ (c : FP M) (φ' ψ' : Features (FP M)) (v v' : FP M), P c φ' ∧ Same φ φ' ∧ Same ψ ψ' ∧ φ'.dot w = .ok v ∧
    ψ'.dot w = .ok v' ∧ ∀ i < n,
      (∀ a, Stored φ' i a → entry w₁ i = (entry w i +. c *. ((r +. γ *. v') -. v) *. a)) ∧
      (¬ Active φ' i → entry w₁ i = entry w i)

theorem BootStep.mono' {n : Nat} {γ r : FP M} {φ ψ : Features (FP M)} {P Q : FP M → Features (FP M) → Prop} {w w₁ : List (FP M)}
    (h : BootStep n γ r φ ψ P w w₁) (hPQ : ∀ c φ', Same φ φ' → P c φ' → Q c φ') : BootStep n γ r φ ψ Q w w₁ := by
  obtain ⟨h1, c, φ', ψ', v, v', h2, h3, h4⟩ := h
  exact ⟨h1, c, φ', ψ', v, v', hPQ c φ' h3 h2, h3, h4⟩

theorem BootStep.mono {n : Nat} {γ r : FP M} {φ ψ : Features (FP M)} {P Q : FP M → Features (FP M) → Prop} {w w₁ : List (FP M)}
    (h : BootStep n γ r φ ψ P w w₁) (hPQ : ∀ c φ', P c φ' → Q c φ') : BootStep n γ r φ ψ Q w w₁ :=
  h.mono' fun c φ' _ => hPQ c φ'

/-! ## Runs -/

section
variable {B I O : Type} [Space B] [Basis B I (FP M)] [Optimiser O (FP M)]

/-- One bootstrapped call: `let p' = fa.evaluate(x')?; fa.update_with(x, |_, p| (r + γ * p') - p)?` can turn `fa` into `fa'`, the hash
map iterating in any order in each of the two. -/
def Spec.CanBootstrap (γ : FP M) (fa : ScalarLFA B O (FP M)) (x : I) (r : FP M) (x' : I) (fa' : ScalarLFA B O (FP M)) : Prop :=
  ∃ v', CanEvaluate fa x' v' ∧ CanUpdateWith fa x (fun p => (r +. γ *. v') -. p) fa'

end

section
variable {B I : Type} [Space B] [Basis B I (FP M)]

/-- What a run of bootstrapped calls does to the weights. -/
theorem boot_trace {n : Nat} {γ r : FP M} {x x' : I} {fas : Nat → ScalarLFA B (SGD (FP M)) (FP M)}
    (hr : ∀ t, CanBootstrap γ (fas t) x r x' (fas (t + 1))) {φ ψ : Features (FP M)}
    (hp : Basis.project (fas 0).basis x = .ok (.ok φ)) (hf : Fits n φ) (hp' : Basis.project (fas 0).basis x' = .ok (.ok ψ))
    (hn : (fas 0).weights.length = n) (t : Nat) :
    (fas t).basis = (fas 0).basis ∧ BootStep n γ r φ ψ (fun c _ => c = (fas 0).optimiser.lr) (fas t).weights (fas (t + 1)).weights := by
  choose v' h1 h2 using hr
  obtain ⟨⟨a1, -, a3⟩, φ', v, b1, b2, b3⟩ := sgd_any_trace h2 (φ := fun _ => φ) (fun _ => ⟨hp, hf⟩) hn t
  obtain ⟨ψ₁, ψ', c1, c2, c3⟩ := h1 t
  rw [a1, hp'] at c1
  cases c1
  exact ⟨a1, a3, _, φ', ψ', v, v' t, rfl, b1, c2, b2, c3, b3⟩

/-- The same for ISGD. -/
theorem boot_trace_isgd {n : Nat} {γ r : FP M} {x x' : I} {fas : Nat → ScalarLFA B (ISGD (FP M)) (FP M)}
    (hr : ∀ t, CanBootstrap γ (fas t) x r x' (fas (t + 1))) {φ ψ : Features (FP M)}
    (hp : Basis.project (fas 0).basis x = .ok (.ok φ)) (hf : Fits n φ) (hp' : Basis.project (fas 0).basis x' = .ok (.ok ψ))
    (hn : (fas 0).weights.length = n) (t : Nat) :
    (fas t).basis = (fas 0).basis ∧
      BootStep n γ r φ ψ (fun c φ' => c = (fas 0).optimiser.computeLr φ') (fas t).weights (fas (t + 1)).weights := by
  choose v' h1 h2 using hr
  obtain ⟨⟨a1, -, a3⟩, φ', v, b1, b2, b3⟩ := isgd_any_trace h2 (φ := fun _ => φ) (fun _ => ⟨hp, hf⟩) hn t
  obtain ⟨ψ₁, ψ', c1, c2, c3⟩ := h1 t
  rw [a1, hp'] at c1
  cases c1
  exact ⟨a1, a3, _, φ', ψ', v, v' t, rfl, b1, c2, b2, c3, b3⟩

/-- The margin at one rate is enough for larger ones. -/
theorem margin_mono {C Q D l m : ℝ} (C0 : 0 ≤ C) (Q0 : 0 ≤ Q) (l0 : 0 < l) (hm : l ≤ m) (h : C * (l * Q + 1) * (l * Q) ≤ (l * D) ^ 2) :
    C * (m * Q + 1) * (m * Q) ≤ (m * D) ^ 2 := by
  have h1 : C * Q ≤ l * (D ^ 2 - C * Q ^ 2) := by
    have : l * (C * Q) ≤ l * (l * (D ^ 2 - C * Q ^ 2)) := by nlinarith
    exact le_of_mul_le_mul_left this l0
  have h2 : 0 ≤ D ^ 2 - C * Q ^ 2 := by
    have := (mul_nonneg C0 Q0).trans h1
    exact nonneg_of_mul_nonneg_right this l0
  have h3 := h1.trans (mul_le_mul_of_nonneg_right hm h2)
  have h4 := mul_le_mul_of_nonneg_left h3 (l0.le.trans hm)
  nlinarith

/-- Growth, with rates of at least `l`. -/
theorem runaway_growth (hM : M.rnd = binary64Format.rnd) (n k : Nat) (ws : Nat → List (FP M)) (γ r : FP M) (φ ψ : Features (FP M))
    (l g q d : ℝ) (l0 : 0 < l)
    (run : ∀ t, BootStep n γ r φ ψ (fun c _ => ∃ m, Is c m ∧ l ≤ m ∧ m ≤ 2 ^ 100) (ws t) (ws (t + 1)))
    (hf : Fits n φ) (hf' : Fits n ψ) (hmod : Moderate n k φ r) (hmod' : Moderate n k ψ r)
    (hγ : Is γ g) (g0 : 0 ≤ g) (g1 : g ≤ 1)
    (hq : q = l * len n (fun i => real (value φ i)) * reach n g φ ψ)
    (hdd : d = l * (g * ∑ i ∈ Finset.range n, real (value ψ i) * real (value φ i) - ∑ i ∈ Finset.range n, real (value φ i) ^ 2))
    (d0 : 0 < d) (hu : (512 * k + 256) * roundoff * (q + 1) * q ≤ d ^ 2)
    (hE : 2 ^ (-600 : ℤ) ≤ |transitionError n g r φ ψ (ws 0)|)
    (hG : reach n g φ ψ * len n (fun i => real (entry (ws 0) i)) ≤ 4 * q / d * |transitionError n g r φ ψ (ws 0)|)
    (t : Nat) (hz : ∀ i < n, Spec.Finite (entry (ws t) i)) :
    (1 + d / 2) ^ t * |transitionError n g r φ ψ (ws 0)| ≤ |transitionError n g r φ ψ (ws t)| ∧
    reach n g φ ψ * len n (fun i => real (entry (ws t) i)) ≤ 4 * q / d * |transitionError n g r φ ψ (ws t)| := by
  have B0 : 0 ≤ reach n g φ ψ := add_nonneg (len_nonneg _ _) (mul_nonneg g0 (len_nonneg _ _))
  set A := len n (fun i => real (value φ i)) with hA
  have A0 : 0 ≤ A := len_nonneg _ _
  set D := g * ∑ i ∈ Finset.range n, real (value ψ i) * real (value φ i) - ∑ i ∈ Finset.range n, real (value φ i) ^ 2 with hD
  have D0 : 0 < D := pos_of_mul_pos_right (by rw [← hdd]; exact d0) l0.le
  have hK : ∀ m, 0 < m → 4 * (m * A * reach n g φ ψ) / (m * D) = 4 * q / d := fun m m0 => by
    rw [hq, hdd, div_eq_div_iff (by positivity) (by positivity)]
    ring
  induction t with
  | zero => exact ⟨by rw [pow_zero, one_mul], hG⟩
  | succ t ih =>
    obtain ⟨hl, c, φ₁, ψ₁, v, v', ⟨m, hc, hlm, hm⟩, hs, hs', hd, hd', hstep⟩ := run t
    have m0 := l0.trans_le hlm
    have hfin : ∀ i < n, Spec.Finite (entry (ws t) i) := fun i hi => by
      have h1 := hz i hi
      by_cases ha : Active φ₁ i
      · obtain ⟨a, ha⟩ := ha
        rw [(hstep i hi).1 a ha] at h1
        exact (add_finite h1).1
      · rwa [(hstep i hi).2 ha] at h1
    obtain ⟨i1, i2⟩ := ih hfin
    have hv : ∀ i, value φ₁ i = value φ i := value_same hs (keysUnique_of_wf hf.1) (keysUnique_of_wf (fits_same hs hf).1)
    have hv' : ∀ i, value ψ₁ i = value ψ i := value_same hs' (keysUnique_of_wf hf'.1) (keysUnique_of_wf (fits_same hs' hf').1)
    have er : reach n g φ₁ ψ₁ = reach n g φ ψ := by simp only [reach, hv, hv']
    have et : ∀ w, transitionError n g r φ₁ ψ₁ w = transitionError n g r φ ψ w := fun w => by simp only [transitionError, hv, hv']
    have one : 1 ≤ (1 + d / 2) ^ t := one_le_pow₀ (by linarith)
    have hE' := hE.trans ((le_mul_of_one_le_left (abs_nonneg _) one).trans i1)
    have key := runaway_call hM (fits_same hs hf) (fits_same hs' hf') (moderate_same hs hmod) (moderate_same hs' hmod') hl hd hd' hc
      m0.le hm hγ g0 g1 (q := m * A * reach n g φ ψ) (d := m * D) (by simp only [hv, er, hA]) (by simp only [hv, hv', hD])
      (by positivity) (by
        have h1 := margin_mono (C := (512 * k + 256) * roundoff) (Q := A * reach n g φ ψ) (D := D) (by have := roundoff_pos; positivity)
          (by positivity) l0 hlm (by rw [← mul_assoc l A, ← hq, ← hdd]; exact hu)
        rwa [← mul_assoc m A] at h1) hstep hz
      (by rw [et]; exact hE') (by rw [et, er, hK m m0]; exact i2)
    rw [et, et, er, hK m m0] at key
    refine ⟨le_trans ?_ key.1, key.2⟩
    rw [pow_succ', mul_assoc]
    have hdm : d ≤ m * D := by rw [hdd]; exact mul_le_mul_of_nonneg_right hlm D0.le
    exact mul_le_mul (by linarith) i1 (by positivity) (by linarith)

/-- Loss, with rates of at least `l`. -/
theorem runaway_lost (hM : M.rnd = binary64Format.rnd) (n k : Nat) (ws : Nat → List (FP M)) (γ r : FP M) (φ ψ : Features (FP M))
    (l g q d : ℝ) (l0 : 0 < l)
    (run : ∀ t, BootStep n γ r φ ψ (fun c _ => ∃ m, Is c m ∧ l ≤ m ∧ m ≤ 2 ^ 100) (ws t) (ws (t + 1)))
    (hf : Fits n φ) (hf' : Fits n ψ) (hw : ∀ i < n, Spec.Finite (entry (ws 0) i)) (hmod : Moderate n k φ r) (hmod' : Moderate n k ψ r)
    (hγ : Is γ g) (g0 : 0 ≤ g) (g1 : g ≤ 1)
    (hq : q = l * len n (fun i => real (value φ i)) * reach n g φ ψ)
    (hdd : d = l * (g * ∑ i ∈ Finset.range n, real (value ψ i) * real (value φ i) - ∑ i ∈ Finset.range n, real (value φ i) ^ 2))
    (d0 : 0 < d) (hu : (512 * k + 256) * roundoff * (q + 1) * q ≤ d ^ 2)
    (hE : 2 ^ (-600 : ℤ) ≤ |transitionError n g r φ ψ (ws 0)|)
    (hG : reach n g φ ψ * len n (fun i => real (entry (ws 0) i)) ≤ 4 * q / d * |transitionError n g r φ ψ (ws 0)|)
    (T : Nat) (hT : 2 ^ 1166 ≤ (1 + d / 2) ^ T * |transitionError n g r φ ψ (ws 0)|) (t : Nat) (ht : T ≤ t) :
    (∃ i < n, Active φ i ∧ ¬ Spec.Finite (entry (ws t) i)) ∧
    (∀ φ' v, Same φ φ' → φ'.dot (ws t) = .ok v → ¬ Spec.Finite v) ∧
    ∀ i, Active φ i → ¬ Spec.Finite (entry (ws (t + 1)) i) := by
  have act : ∀ {φ' : Features (FP M)}, Same φ φ' → ∀ i, Active φ' i ↔ Active φ i := fun hs i =>
    ⟨fun ⟨a, ha⟩ => ⟨a, (stored_same hs i a).1 ha⟩, fun ⟨a, ha⟩ => ⟨a, (stored_same hs i a).2 ha⟩⟩
  have lost : ¬ ∀ i < n, Spec.Finite (entry (ws T) i) := by
    intro hz
    have h1 := (runaway_growth hM n k ws γ r φ ψ l g q d l0 run hf hf' hmod hmod' hγ g0 g1 hq hdd d0 hu hE hG T hz).1
    have hA := features_len hmod hf
    have hC := features_len hmod' hf'
    have hN : len n (fun i => real (entry (ws T) i)) ≤ 2 ^ 20 * 2 ^ 1024 :=
      len_le_of_bounded hmod.size (by positivity) fun i hi => by
        obtain ⟨r, hr⟩ := hz i hi
        rw [is_real hr]
        exact (finite_lt hM hr).le
    have hy : |real r| ≤ 2 ^ 100 := by
      obtain ⟨r, hr, h⟩ := hmod.target
      rw [is_real hr]; exact h
    have h2 := abs_sum_mul_le_len n (fun i => real (value φ i)) fun i => real (entry (ws T) i)
    have h2' := abs_sum_mul_le_len n (fun i => real (value ψ i)) fun i => real (entry (ws T) i)
    have h3 := h2.trans (mul_le_mul hA hN (len_nonneg _ _) (by positivity))
    have h3' := h2'.trans (mul_le_mul hC hN (len_nonneg _ _) (by positivity))
    have h4 : |transitionError n g r φ ψ (ws T)| ≤ |real r| +
        |∑ i ∈ Finset.range n, real (value ψ i) * real (entry (ws T) i)| +
        |∑ i ∈ Finset.range n, real (value φ i) * real (entry (ws T) i)| := by
      refine (abs_sub _ _).trans (add_le_add_left ((abs_add_le _ _).trans (add_le_add_right ?_ _)) _)
      rw [abs_mul, abs_of_nonneg g0]
      exact mul_le_of_le_one_left (abs_nonneg _) g1
    have h5 : (2 : ℝ) ^ 120 * (2 ^ 20 * 2 ^ 1024) = 2 ^ 1164 := by rw [← pow_add, ← pow_add]
    have h6 : (2 : ℝ) ^ 1166 = 2 ^ 1164 * 2 * 2 := by rw [← pow_succ, ← pow_succ]
    have h7 : (2 : ℝ) ^ 100 < 2 ^ 1164 := pow_lt_pow_right₀ (by norm_num) (by norm_num)
    rw [h5] at h3 h3'
    rw [h6] at hT
    have h8 := hT.trans (h1.trans (h4.trans (add_le_add (add_le_add hy h3') h3)))
    clear h4 h2 h2' h3 h3' hT hN h5 h6 hE hG hA hC h1 run
    generalize (2 : ℝ) ^ 1164 = z at *
    generalize (2 : ℝ) ^ 100 = y at *
    have : 0 ≤ y := (abs_nonneg _).trans hy
    linarith
  have inert : ∀ t, ∀ i < n, ¬ Active φ i → entry (ws t) i = entry (ws 0) i := by
    intro t
    induction t with
    | zero => exact fun _ _ _ => rfl
    | succ t ih =>
      intro i hi ha
      obtain ⟨-, c, φ', ψ', v, v', -, hs, -, -, -, hstep⟩ := run t
      rw [(hstep i hi).2 fun h => ha ((act hs i).1 h), ih i hi ha]
  have lost' : ¬ ∀ i < n, Spec.Finite (entry (ws t) i) := by
    induction t, ht using Nat.le_induction with
    | base => exact lost
    | succ t ht ih =>
      refine fun hz => ih fun i hi => ?_
      obtain ⟨-, c, φ', ψ', v, v', -, hs, -, -, -, hstep⟩ := run t
      have h1 := hz i hi
      by_cases ha : Active φ' i
      · obtain ⟨a, ha⟩ := ha
        rw [(hstep i hi).1 a ha] at h1
        exact (add_finite h1).1
      · rwa [(hstep i hi).2 ha] at h1
  push Not at lost'
  obtain ⟨i, hi, hni⟩ := lost'
  have ha : Active φ i := by
    by_contra ha
    rw [inert t i hi ha] at hni
    exact hni (hw i hi)
  have dot : ∀ (φ' : Features (FP M)) (v : FP M), Same φ φ' → φ'.dot (ws t) = .ok v → ¬ Spec.Finite v := fun _ _ hs hd hv =>
    hni (dot_finite (fits_same hs hf) (run t).1 hd hv ((act hs i).2 ha))
  refine ⟨⟨i, hi, ha, hni⟩, dot, ?_⟩
  intro j hj
  obtain ⟨-, c, φ', ψ', v, v', -, hs, -, hd, -, hstep⟩ := run t
  obtain ⟨a, ha⟩ := (act hs j).2 hj
  have hjn : j < n := active_lt hf hj
  rw [(hstep j hjn).1 a ha]
  exact fun h => dot _ _ hs hd (prediction_finite h)

/-- SGD in `f64` on one transition `x → x'` again and again, the hash maps iterating in any order at each call, with
`d = l (g ⟨φ, ψ⟩ - ‖φ‖²)` positive by a margin, from weights no larger than the error. As long as the weights are finite, the exact
error of the transition grows by the factor `1 + d / 2` at every call. -/
theorem C207_growth (hM : M.rnd = binary64Format.rnd) (n k : Nat) (fas : Nat → ScalarLFA B (SGD (FP M)) (FP M)) (γ r : FP M) (x x' : I)
    (hr : ∀ t, CanBootstrap γ (fas t) x r x' (fas (t + 1))) (φ ψ : Features (FP M))
    (hp : Basis.project (fas 0).basis x = .ok (.ok φ)) (hf : Fits n φ) (hp' : Basis.project (fas 0).basis x' = .ok (.ok ψ))
    (hf' : Fits n ψ) (hn : (fas 0).weights.length = n) (hmod : Moderate n k φ r) (hmod' : Moderate n k ψ r)
    (l g q d : ℝ) (hlr : Is (fas 0).optimiser.lr l) (l0 : 0 < l) (l1 : l ≤ 2 ^ 100) (hγ : Is γ g) (g0 : 0 ≤ g) (g1 : g ≤ 1)
    (hq : q = l * len n (fun i => real (value φ i)) * reach n g φ ψ)
    (hdd : d = l * (g * ∑ i ∈ Finset.range n, real (value ψ i) * real (value φ i) - ∑ i ∈ Finset.range n, real (value φ i) ^ 2))
    (d0 : 0 < d) (hu : (512 * k + 256) * roundoff * (q + 1) * q ≤ d ^ 2)
    (hE : 2 ^ (-600 : ℤ) ≤ |transitionError n g r φ ψ (fas 0).weights|)
    (hG : reach n g φ ψ * len n (fun i => real (entry (fas 0).weights i)) ≤ 4 * q / d * |transitionError n g r φ ψ (fas 0).weights|)
    (t : Nat) (hz : ∀ i < n, Spec.Finite (entry (fas t).weights i)) :
    (1 + d / 2) ^ t * |transitionError n g r φ ψ (fas 0).weights| ≤ |transitionError n g r φ ψ (fas t).weights| ∧
    reach n g φ ψ * len n (fun i => real (entry (fas t).weights i)) ≤ 4 * q / d * |transitionError n g r φ ψ (fas t).weights| :=
  runaway_growth hM n k (fun t => (fas t).weights) γ r φ ψ l g q d l0
    (fun t => (boot_trace hr hp hf hp' hn t).2.mono fun c _ h => ⟨l, by rw [h]; exact hlr, le_rfl, l1⟩)
    hf hf' hmod hmod' hγ g0 g1 hq hdd d0 hu hE hG t hz

/-- So within `T` calls, `T` about `1166 / log₂ (1 + d / 2)`, a weight in use at `x` is lost; from then on, for ever, everything
`evaluate` can return at `x` is infinite or NaN, and one call later every weight in use at `x` is lost for ever. -/
theorem C207_lost (hM : M.rnd = binary64Format.rnd) (n k : Nat) (fas : Nat → ScalarLFA B (SGD (FP M)) (FP M)) (γ r : FP M) (x x' : I)
    (hr : ∀ t, CanBootstrap γ (fas t) x r x' (fas (t + 1))) (φ ψ : Features (FP M))
    (hp : Basis.project (fas 0).basis x = .ok (.ok φ)) (hf : Fits n φ) (hp' : Basis.project (fas 0).basis x' = .ok (.ok ψ))
    (hf' : Fits n ψ) (hn : (fas 0).weights.length = n) (hw : ∀ i < n, Spec.Finite (entry (fas 0).weights i))
    (hmod : Moderate n k φ r) (hmod' : Moderate n k ψ r)
    (l g q d : ℝ) (hlr : Is (fas 0).optimiser.lr l) (l0 : 0 < l) (l1 : l ≤ 2 ^ 100) (hγ : Is γ g) (g0 : 0 ≤ g) (g1 : g ≤ 1)
    (hq : q = l * len n (fun i => real (value φ i)) * reach n g φ ψ)
    (hdd : d = l * (g * ∑ i ∈ Finset.range n, real (value ψ i) * real (value φ i) - ∑ i ∈ Finset.range n, real (value φ i) ^ 2))
    (d0 : 0 < d) (hu : (512 * k + 256) * roundoff * (q + 1) * q ≤ d ^ 2)
    (hE : 2 ^ (-600 : ℤ) ≤ |transitionError n g r φ ψ (fas 0).weights|)
    (hG : reach n g φ ψ * len n (fun i => real (entry (fas 0).weights i)) ≤ 4 * q / d * |transitionError n g r φ ψ (fas 0).weights|)
    (T : Nat) (hT : 2 ^ 1166 ≤ (1 + d / 2) ^ T * |transitionError n g r φ ψ (fas 0).weights|) (t : Nat) (ht : T ≤ t) :
    (∃ i < n, Active φ i ∧ ¬ Spec.Finite (entry (fas t).weights i)) ∧
    (∀ v, CanEvaluate (fas t) x v → ¬ Spec.Finite v) ∧
    ∀ i, Active φ i → ¬ Spec.Finite (entry (fas (t + 1)).weights i) := by
  have run := boot_trace hr hp hf hp' hn
  obtain ⟨h1, h2, h3⟩ := runaway_lost hM n k (fun t => (fas t).weights) γ r φ ψ l g q d l0
    (fun t => (run t).2.mono fun c _ h => ⟨l, by rw [h]; exact hlr, le_rfl, l1⟩)
    hf hf' hw hmod hmod' hγ g0 g1 hq hdd d0 hu hE hG T hT t ht
  refine ⟨h1, ?_, h3⟩
  rintro v ⟨φ₁, φ', hp₁, hs, hd⟩
  rw [(run t).1, hp] at hp₁
  cases hp₁
  exact h2 _ _ hs hd

/-- The rate that ISGD computes is at least a quarter of `l / (1 + l ‖φ‖²)`, unless that underflows. -/
theorem isgd_rate_lower (hM : M.rnd = binary64Format.rnd) {n k : Nat} {φ : Features (FP M)} {y : FP M} (h : Moderate n k φ y)
    (hf : Fits n φ) (o : ISGD (FP M)) {l a : ℝ} (hl : Is o.lr l) (l0 : 0 ≤ l) (l1 : l ≤ 2 ^ 99)
    (ha : a = l / (1 + l * ∑ i ∈ Finset.range n, real (value φ i) ^ 2)) (ht : 4 * tiny ≤ a) :
    ∃ m, Is (o.computeLr φ) m ∧ a / 4 ≤ m ∧ m ≤ 2 ^ 100 := by
  have hu := roundoff_pos
  have t0 := tiny_pos
  have hA := features_len h hf
  have hA0 := len_nonneg n fun i => real (value φ i)
  have s0 : 0 ≤ ∑ i ∈ Finset.range n, real (value φ i) ^ 2 := Finset.sum_nonneg fun _ _ => sq_nonneg _
  have hs1 : ∑ i ∈ Finset.range n, real (value φ i) ^ 2 ≤ 2 ^ 240 := by
    rw [← len_sq, show (2 : ℝ) ^ 240 = (2 ^ 120) ^ 2 by rw [← pow_mul]]
    exact pow_le_pow_left₀ hA0 hA 2
  have hls : l * ∑ i ∈ Finset.range n, real (value φ i) ^ 2 ≤ 2 ^ 339 := by
    refine (mul_le_mul l1 hs1 s0 (by positivity)).trans ?_
    rw [← pow_add]
  have hk : (storedCount φ : ℝ) ≤ k := by exact_mod_cast h.count.1
  have hku := length_roundoff' h.count.2
  obtain ⟨c, hc, he⟩ := C161_rate hM o hl l0 (l1.trans (pow_le_pow_right₀ (by norm_num) (by norm_num))) φ hf.1
    (fun i a ha => finite_of_bounded (h.features i a ha)) (h.count.1.trans h.count.2)
    (∑ i ∈ Finset.range n, real (value φ i) ^ 2) (by rw [hf.2])
    (hs1.trans (pow_le_pow_right₀ (by norm_num) (by norm_num))) (hls.trans (pow_le_pow_right₀ (by norm_num) (by norm_num)))
  rw [← ha] at he
  have a0 : 0 ≤ a := by linarith
  have al : a ≤ l := by
    rw [ha, div_le_iff₀ (by positivity)]
    nlinarith [mul_nonneg l0 (mul_nonneg l0 s0)]
  have small : (4 * (storedCount φ : ℝ) + 14) * roundoff ≤ 1 / 2 := by
    have := mul_le_mul_of_nonneg_right (by linarith : 4 * (storedCount φ : ℝ) + 14 ≤ 4 * k + 14) hu.le
    have hu1 : roundoff ≤ 1 / 8192 := by norm_num [roundoff]
    linarith
  have h2 := mul_le_mul_of_nonneg_right small a0
  have h3 := abs_le.1 (he.trans (add_le_add_left h2 tiny))
  refine ⟨c, hc, by linarith [h3.1], ?_⟩
  rw [show (2 : ℝ) ^ 100 = 2 * 2 ^ 99 by norm_num]
  linarith [h3.2]

/-- ISGD, however small its steps: with `d` and `q` for a quarter of its rate `l / (1 + l ‖φ‖²)`, the weights are lost in the same
way. -/
theorem C207_isgd (hM : M.rnd = binary64Format.rnd) (n k : Nat) (fas : Nat → ScalarLFA B (ISGD (FP M)) (FP M)) (γ r : FP M) (x x' : I)
    (hr : ∀ t, CanBootstrap γ (fas t) x r x' (fas (t + 1))) (φ ψ : Features (FP M))
    (hp : Basis.project (fas 0).basis x = .ok (.ok φ)) (hf : Fits n φ) (hp' : Basis.project (fas 0).basis x' = .ok (.ok ψ))
    (hf' : Fits n ψ) (hn : (fas 0).weights.length = n) (hw : ∀ i < n, Spec.Finite (entry (fas 0).weights i))
    (hmod : Moderate n k φ r) (hmod' : Moderate n k ψ r)
    (l a g q d : ℝ) (hlr : Is (fas 0).optimiser.lr l) (l0 : 0 < l) (l1 : l ≤ 2 ^ 99) (hγ : Is γ g) (g0 : 0 ≤ g) (g1 : g ≤ 1)
    (ha : a = l / (1 + l * ∑ i ∈ Finset.range n, real (value φ i) ^ 2)) (ht : 4 * tiny ≤ a)
    (hq : q = a / 4 * len n (fun i => real (value φ i)) * reach n g φ ψ)
    (hdd : d = a / 4 * (g * ∑ i ∈ Finset.range n, real (value ψ i) * real (value φ i) - ∑ i ∈ Finset.range n, real (value φ i) ^ 2))
    (d0 : 0 < d) (hu : (512 * k + 256) * roundoff * (q + 1) * q ≤ d ^ 2)
    (hE : 2 ^ (-600 : ℤ) ≤ |transitionError n g r φ ψ (fas 0).weights|)
    (hG : reach n g φ ψ * len n (fun i => real (entry (fas 0).weights i)) ≤ 4 * q / d * |transitionError n g r φ ψ (fas 0).weights|)
    (T : Nat) (hT : 2 ^ 1166 ≤ (1 + d / 2) ^ T * |transitionError n g r φ ψ (fas 0).weights|) :
    (∀ t, (∀ i < n, Spec.Finite (entry (fas t).weights i)) →
      (1 + d / 2) ^ t * |transitionError n g r φ ψ (fas 0).weights| ≤ |transitionError n g r φ ψ (fas t).weights|) ∧
    ∀ t, T ≤ t → (∃ i < n, Active φ i ∧ ¬ Spec.Finite (entry (fas t).weights i)) ∧
      (∀ v, CanEvaluate (fas t) x v → ¬ Spec.Finite v) ∧
      ∀ i, Active φ i → ¬ Spec.Finite (entry (fas (t + 1)).weights i) := by
  have run := boot_trace_isgd hr hp hf hp' hn
  have a0 : 0 < a / 4 := by have := tiny_pos; linarith
  have run' : ∀ t, BootStep n γ r φ ψ (fun c _ => ∃ m, Is c m ∧ a / 4 ≤ m ∧ m ≤ 2 ^ 100) (fas t).weights (fas (t + 1)).weights :=
    fun t => by
      refine (run t).2.mono' fun c φ' hs h => ?_
      have hv : ∀ i, value φ' i = value φ i := value_same hs (keysUnique_of_wf hf.1) (keysUnique_of_wf (fits_same hs hf).1)
      rw [h]
      exact isgd_rate_lower hM (moderate_same hs hmod) (fits_same hs hf) _ hlr l0.le l1 (by simp only [hv]; exact ha) ht
  refine ⟨fun t hz => (runaway_growth hM n k (fun t => (fas t).weights) γ r φ ψ (a / 4) g q d a0 run'
    hf hf' hmod hmod' hγ g0 g1 hq hdd d0 hu hE hG t hz).1, fun t ht => ?_⟩
  obtain ⟨h1, h2, h3⟩ := runaway_lost hM n k (fun t => (fas t).weights) γ r φ ψ (a / 4) g q d a0 run'
    hf hf' hw hmod hmod' hγ g0 g1 hq hdd d0 hu hE hG T hT t ht
  refine ⟨h1, ?_, h3⟩
  rintro v ⟨φ₁, φ', hp₁, hs, hd⟩
  rw [(run t).1, hp] at hp₁
  cases hp₁
  exact h2 _ _ hs hd

/-- From the constructor on. -/
theorem C207_scratch (hM : M.rnd = binary64Format.rnd) (b : B) (n k : Nat) (lr : FP M) (hd : Space.dim b = .finite n)
    (fas : Nat → ScalarLFA B (SGD (FP M)) (FP M)) (h0 : ScalarLFA.scalar b ⟨lr⟩ = .ok (fas 0)) (γ r : FP M) (x x' : I)
    (hr : ∀ t, CanBootstrap γ (fas t) x r x' (fas (t + 1))) (φ ψ : Features (FP M))
    (hp : Basis.project b x = .ok (.ok φ)) (hf : Fits n φ) (hp' : Basis.project b x' = .ok (.ok ψ)) (hf' : Fits n ψ)
    (hmod : Moderate n k φ r) (hmod' : Moderate n k ψ r) (l g q d : ℝ) (hlr : Is lr l) (l0 : 0 < l) (l1 : l ≤ 2 ^ 100)
    (hγ : Is γ g) (g0 : 0 ≤ g) (g1 : g ≤ 1) (hq : q = l * len n (fun i => real (value φ i)) * reach n g φ ψ)
    (hdd : d = l * (g * ∑ i ∈ Finset.range n, real (value ψ i) * real (value φ i) - ∑ i ∈ Finset.range n, real (value φ i) ^ 2))
    (d0 : 0 < d) (hu : (512 * k + 256) * roundoff * (q + 1) * q ≤ d ^ 2) (hE : 2 ^ (-600 : ℤ) ≤ |real r|)
    (T : Nat) (hT : 2 ^ 1166 ≤ (1 + d / 2) ^ T * |real r|) (t : Nat) (ht : T ≤ t) :
    (∀ v, CanEvaluate (fas t) x v → ¬ Spec.Finite v) ∧ ∀ i, Active φ i → ¬ Spec.Finite (entry (fas (t + 1)).weights i) := by
  have e0 : fas 0 = ⟨b, List.replicate n Scalar.zero, ⟨lr⟩⟩ := by
    rw [(C59_shape b (⟨lr⟩ : SGD (FP M)) 1 n hd).1] at h0
    exact (Except.ok.inj h0).symm
  have hz : ∀ i, entry (fas 0).weights i = Scalar.zero := fun i => by rw [e0]; exact entry_replicate n i
  have es : ∀ χ : Features (FP M), ∑ i ∈ Finset.range n, real (value χ i) * real (entry (fas 0).weights i) = 0 := fun χ =>
    Finset.sum_eq_zero fun i _ => by rw [hz, real_zero', mul_zero]
  have et : transitionError n g r φ ψ (fas 0).weights = real r := by rw [transitionError, es, es]; ring
  refine (C207_lost hM n k fas γ r x x' hr φ ψ (by rw [e0]; exact hp) hf (by rw [e0]; exact hp') hf'
    (by rw [e0]; exact List.length_replicate ..) (fun i _ => by rw [hz]; exact ⟨0, val_zero⟩) hmod hmod' l g q d (by rw [e0]; exact hlr)
    l0 l1 hγ g0 g1 hq hdd d0 hu (by rwa [et]) ?_ T (by rwa [et]) t ht).2
  have : len n (fun i => real (entry (fas 0).weights i)) = 0 := by
    rw [len_congr (g := fun _ => 0) fun i _ => by rw [hz, real_zero'], len_const n 0 le_rfl, mul_zero]
  rw [this, mul_zero]
  refine mul_nonneg (div_nonneg (mul_nonneg (by norm_num) ?_) d0.le) (abs_nonneg _)
  rw [hq, reach]
  exact mul_nonneg (mul_nonneg l0.le (len_nonneg _ _)) (add_nonneg (len_nonneg _ _) (mul_nonneg g0 (len_nonneg _ _)))

/-- ISGD from the constructor on. -/
theorem C207_isgd_scratch (hM : M.rnd = binary64Format.rnd) (b : B) (n k : Nat) (lr : FP M) (hd : Space.dim b = .finite n)
    (fas : Nat → ScalarLFA B (ISGD (FP M)) (FP M)) (h0 : ScalarLFA.scalar b ⟨lr⟩ = .ok (fas 0)) (γ r : FP M) (x x' : I)
    (hr : ∀ t, CanBootstrap γ (fas t) x r x' (fas (t + 1))) (φ ψ : Features (FP M))
    (hp : Basis.project b x = .ok (.ok φ)) (hf : Fits n φ) (hp' : Basis.project b x' = .ok (.ok ψ)) (hf' : Fits n ψ)
    (hmod : Moderate n k φ r) (hmod' : Moderate n k ψ r) (l a g q d : ℝ) (hlr : Is lr l) (l0 : 0 < l) (l1 : l ≤ 2 ^ 99)
    (hγ : Is γ g) (g0 : 0 ≤ g) (g1 : g ≤ 1) (ha : a = l / (1 + l * ∑ i ∈ Finset.range n, real (value φ i) ^ 2)) (htiny : 4 * tiny ≤ a)
    (hq : q = a / 4 * len n (fun i => real (value φ i)) * reach n g φ ψ)
    (hdd : d = a / 4 * (g * ∑ i ∈ Finset.range n, real (value ψ i) * real (value φ i) - ∑ i ∈ Finset.range n, real (value φ i) ^ 2))
    (d0 : 0 < d) (hu : (512 * k + 256) * roundoff * (q + 1) * q ≤ d ^ 2) (hE : 2 ^ (-600 : ℤ) ≤ |real r|)
    (T : Nat) (hT : 2 ^ 1166 ≤ (1 + d / 2) ^ T * |real r|) (t : Nat) (ht : T ≤ t) :
    (∀ v, CanEvaluate (fas t) x v → ¬ Spec.Finite v) ∧ ∀ i, Active φ i → ¬ Spec.Finite (entry (fas (t + 1)).weights i) := by
  have e0 : fas 0 = ⟨b, List.replicate n Scalar.zero, ⟨lr⟩⟩ := by
    rw [(C59_shape b (⟨lr⟩ : ISGD (FP M)) 1 n hd).1] at h0
    exact (Except.ok.inj h0).symm
  have hz : ∀ i, entry (fas 0).weights i = Scalar.zero := fun i => by rw [e0]; exact entry_replicate n i
  have es : ∀ χ : Features (FP M), ∑ i ∈ Finset.range n, real (value χ i) * real (entry (fas 0).weights i) = 0 := fun χ =>
    Finset.sum_eq_zero fun i _ => by rw [hz, real_zero', mul_zero]
  have et : transitionError n g r φ ψ (fas 0).weights = real r := by rw [transitionError, es, es]; ring
  have a0 : 0 ≤ a / 4 := by have := tiny_pos; linarith
  refine ((C207_isgd hM n k fas γ r x x' hr φ ψ (by rw [e0]; exact hp) hf (by rw [e0]; exact hp') hf'
    (by rw [e0]; exact List.length_replicate ..) (fun i _ => by rw [hz]; exact ⟨0, val_zero⟩) hmod hmod' l a g q d
    (by rw [e0]; exact hlr) l0 l1 hγ g0 g1 ha htiny hq hdd d0 hu (by rwa [et]) ?_ T (by rwa [et])).2 t ht).2
  have : len n (fun i => real (entry (fas 0).weights i)) = 0 := by
    rw [len_congr (g := fun _ => 0) fun i _ => by rw [hz, real_zero'], len_const n 0 le_rfl, mul_zero]
  rw [this, mul_zero]
  refine mul_nonneg (div_nonneg (mul_nonneg (by norm_num) ?_) d0.le) (abs_nonneg _)
  rw [hq, reach]
  exact mul_nonneg (mul_nonneg a0 (len_nonneg _ _)) (add_nonneg (len_nonneg _ _) (mul_nonneg g0 (len_nonneg _ _)))

/-- Such runs exist. -/
theorem C207_runs (b : B) (n : Nat) (lr γ r : FP M) (hd : Space.dim b = .finite n) (x x' : I)
    (hx : ∃ φ, Basis.project b x = .ok (.ok φ) ∧ Fits n φ) (hx' : ∃ ψ, Basis.project b x' = .ok (.ok ψ) ∧ Fits n ψ) :
    ∃ fas : Nat → ScalarLFA B (SGD (FP M)) (FP M), ScalarLFA.scalar b ⟨lr⟩ = .ok (fas 0) ∧
      ∀ t, CanBootstrap γ (fas t) x r x' (fas (t + 1)) := by
  obtain ⟨φ, hp, hf⟩ := hx
  obtain ⟨ψ, hp', hf'⟩ := hx'
  have step : ∀ fa : {fa : ScalarLFA B (SGD (FP M)) (FP M) // fa.basis = b ∧ fa.weights.length = n},
      ∃ fa' : {fa : ScalarLFA B (SGD (FP M)) (FP M) // fa.basis = b ∧ fa.weights.length = n}, CanBootstrap γ fa.1 x r x' fa'.1 := by
    rintro ⟨fa, hb, hl⟩
    obtain ⟨v, hv⟩ := dot_exists hf hl
    obtain ⟨v', hv'⟩ := dot_exists hf' hl
    obtain ⟨w, h1, h2, -⟩ := sgd_scaled hf fa.optimiser ((r +. γ *. v') -. v) hl
    exact ⟨⟨{ fa with weights := w }, hb, h2⟩, v', ⟨ψ, ψ, by rw [hb]; exact hp', same_refl _, hv'⟩,
      φ, φ, by rw [hb]; exact hp, same_refl _, v, fa.optimiser, w, hv, h1, rfl⟩
  choose next hnext using step
  let s : Nat → {fa : ScalarLFA B (SGD (FP M)) (FP M) // fa.basis = b ∧ fa.weights.length = n} := fun t =>
    Nat.rec ⟨⟨b, List.replicate n Scalar.zero, ⟨lr⟩⟩, rfl, List.length_replicate ..⟩ (fun _ fa => next fa) t
  exact ⟨fun t => (s t).1, (C59_shape b (⟨lr⟩ : SGD (FP M)) 1 n hd).1, fun t => hnext (s t)⟩

/-- Such runs of ISGD exist. -/
theorem C207_isgd_runs (b : B) (n : Nat) (lr γ r : FP M) (hd : Space.dim b = .finite n) (x x' : I)
    (hx : ∃ φ, Basis.project b x = .ok (.ok φ) ∧ Fits n φ) (hx' : ∃ ψ, Basis.project b x' = .ok (.ok ψ) ∧ Fits n ψ) :
    ∃ fas : Nat → ScalarLFA B (ISGD (FP M)) (FP M), ScalarLFA.scalar b ⟨lr⟩ = .ok (fas 0) ∧
      ∀ t, CanBootstrap γ (fas t) x r x' (fas (t + 1)) := by
  obtain ⟨φ, hp, hf⟩ := hx
  obtain ⟨ψ, hp', hf'⟩ := hx'
  have step : ∀ fa : {fa : ScalarLFA B (ISGD (FP M)) (FP M) // fa.basis = b ∧ fa.weights.length = n},
      ∃ fa' : {fa : ScalarLFA B (ISGD (FP M)) (FP M) // fa.basis = b ∧ fa.weights.length = n}, CanBootstrap γ fa.1 x r x' fa'.1 := by
    rintro ⟨fa, hb, hl⟩
    obtain ⟨v, hv⟩ := dot_exists hf hl
    obtain ⟨v', hv'⟩ := dot_exists hf' hl
    obtain ⟨w, h1, h2, -⟩ := isgd_scaled hf fa.optimiser ((r +. γ *. v') -. v) hl
    exact ⟨⟨{ fa with weights := w }, hb, h2⟩, v', ⟨ψ, ψ, by rw [hb]; exact hp', same_refl _, hv'⟩,
      φ, φ, by rw [hb]; exact hp, same_refl _, v, fa.optimiser, w, hv, h1, rfl⟩
  choose next hnext using step
  let s : Nat → {fa : ScalarLFA B (ISGD (FP M)) (FP M) // fa.basis = b ∧ fa.weights.length = n} := fun t =>
    Nat.rec ⟨⟨b, List.replicate n Scalar.zero, ⟨lr⟩⟩, rfl, List.length_replicate ..⟩ (fun _ fa => next fa) t
  exact ⟨fun t => (s t).1, (C59_shape b (⟨lr⟩ : ISGD (FP M)) 1 n hd).1, fun t => hnext (s t)⟩

end

/-! ## One feature, twice as long at the next input -/

/-- One feature: one at `false`, two at `true`. -/
noncomputable def Spec.doubling (two : FP M) : Closure Bool (FP M) := ⟨1, fun s => .ok (.ok (.dense [if s then two else Scalar.one]))⟩

theorem doubling_moderate (a : FP M) (z : ℝ) (ha : Is a z) (hz : |z| ≤ 2) : Moderate 1 1 (.dense [a]) (Scalar.one : FP M) := by
  have big : (1 : ℝ) ≤ 2 ^ 100 := one_le_pow₀ (by norm_num)
  refine ⟨by norm_num, ⟨le_rfl, by norm_num⟩, fun i b hb => ?_, ⟨1, val_one, by rw [abs_one]; exact big⟩⟩
  have : b = a := by
    have := List.mem_of_getElem? hb
    simpa using this
  subst this
  exact ⟨z, ha, hz.trans (by norm_num)⟩

theorem doubling_lost (hM : M.rnd = binary64Format.rnd) (lr γ two : FP M) (l : ℝ) (hl : Is lr l) (l0 : 2 ^ (-38 : ℤ) ≤ l)
    (l1 : l ≤ 2 ^ 100) (hγ : Is γ (3 / 4)) (h2 : Is two 2) (T : Nat) (hT : 2 ^ 1166 ≤ (1 + l / 4) ^ T)
    (fas : Nat → ScalarLFA (Closure Bool (FP M)) (SGD (FP M)) (FP M)) (h0 : ScalarLFA.scalar (doubling two) ⟨lr⟩ = .ok (fas 0))
    (hr : ∀ t, CanBootstrap γ (fas t) false Scalar.one true (fas (t + 1))) (t : Nat) (ht : T ≤ t) (v : FP M)
    (hv : CanEvaluate (fas t) false v) : ¬ Spec.Finite v := by
  have hone : Is (Scalar.one : FP M) 1 := val_one
  have v1 : ∀ a : FP M, value (.dense [a]) 0 = a := fun _ => rfl
  have hlen : ∀ (a : FP M) (z : ℝ), Is a z → 0 ≤ z → len 1 (fun i => real (value (.dense [a]) i)) = z := fun a z ha hz => by
    rw [len, Finset.sum_range_one, v1, is_real ha, Real.sqrt_sq hz]
  have lp : 0 < l := lt_of_lt_of_le (by positivity) l0
  refine (C207_scratch hM (doubling two) 1 1 lr rfl fas h0 γ Scalar.one false true hr (.dense [Scalar.one]) (.dense [two]) rfl
    ⟨trivial, rfl⟩ rfl ⟨trivial, rfl⟩ (doubling_moderate _ 1 hone (by norm_num))
    (doubling_moderate _ 2 h2 (by norm_num)) l (3 / 4) (5 / 2 * l) (l / 2) hl lp l1 hγ
    (by norm_num) (by norm_num) ?_ ?_ (by linarith) ?_ ?_ T ?_ t ht).1 v hv
  · rw [reach, hlen _ 1 hone (by norm_num), hlen _ 2 h2 (by norm_num)]
    ring
  · rw [Finset.sum_range_one, Finset.sum_range_one, v1, v1, is_real hone, is_real h2]
    ring
  · have h3 : (2 : ℝ) ^ (-38 : ℤ) = 32768 * roundoff := by unfold roundoff; norm_num
    rw [h3] at l0
    have hu : roundoff ≤ 1 / 1000000 := by unfold roundoff; norm_num
    have hu0 := roundoff_pos
    push_cast
    have h4 : roundoff * l ≤ 1 / 1000000 * l := mul_le_mul_of_nonneg_right hu lp.le
    have h5 : 768 * roundoff * (5 / 2 * l + 1) * (5 / 2) ≤ l / 4 := by linarith
    have h6 := mul_le_mul_of_nonneg_right h5 lp.le
    linarith
  · rw [is_real hone, abs_one]
    exact zpow_le_one_of_nonpos₀ (by norm_num) (by norm_num)
  · rw [is_real hone, abs_one, mul_one]
    have : 1 + l / 2 / 2 = 1 + l / 4 := by ring
    rwa [this]

/-- No rate from `2^-38` to `2^100` saves this one: with discount `3/4` and reward one, every run
loses every prediction for ever. -/
theorem C207_every_rate (hM : M.rnd = binary64Format.rnd) (lr γ two : FP M) (l : ℝ) (hl : Is lr l) (l0 : 2 ^ (-38 : ℤ) ≤ l)
    (l1 : l ≤ 2 ^ 100) (hγ : Is γ (3 / 4)) (h2 : Is two 2) :
    ∃ T, ∀ fas : Nat → ScalarLFA (Closure Bool (FP M)) (SGD (FP M)) (FP M), ScalarLFA.scalar (doubling two) ⟨lr⟩ = .ok (fas 0) →
      (∀ t, CanBootstrap γ (fas t) false Scalar.one true (fas (t + 1))) →
      ∀ t, T ≤ t → ∀ v, CanEvaluate (fas t) false v → ¬ Spec.Finite v := by
  have lp : 0 < l := lt_of_lt_of_le (by positivity) l0
  obtain ⟨T, hT⟩ := pow_unbounded_of_one_lt ((2 : ℝ) ^ 1166) (by linarith : 1 < 1 + l / 4)
  exact ⟨T, fun fas h0 hr t ht v hv => doubling_lost hM lr γ two l hl l0 l1 hγ h2 T hT.le fas h0 hr t ht v hv⟩

/-- The hypotheses are met: with rate `1/8` a run exists, and after 30000 calls every prediction at `x` is lost for ever. -/
theorem C207_example (hM : M.rnd = binary64Format.rnd) (lr γ two : FP M) (hl : Is lr (1 / 8)) (hγ : Is γ (3 / 4)) (h2 : Is two 2) :
    ∃ fas : Nat → ScalarLFA (Closure Bool (FP M)) (SGD (FP M)) (FP M), ScalarLFA.scalar (doubling two) ⟨lr⟩ = .ok (fas 0) ∧
      (∀ t, CanBootstrap γ (fas t) false Scalar.one true (fas (t + 1))) ∧
      ∀ t, 30000 ≤ t → ∀ v, CanEvaluate (fas t) false v → ¬ Spec.Finite v := by
  obtain ⟨fas, h0, hr⟩ := C207_runs (doubling two) 1 lr γ Scalar.one rfl false true ⟨.dense [Scalar.one], rfl, trivial, rfl⟩
    ⟨.dense [two], rfl, trivial, rfl⟩
  refine ⟨fas, h0, hr, doubling_lost hM lr γ two (1 / 8) hl (by norm_num) (by norm_num) hγ h2 30000 ?_ fas h0 hr⟩
  have e : 30000 = 25 * 1200 := by norm_num
  rw [e, pow_mul]
  exact (pow_le_pow_right₀ (by norm_num) (by norm_num : 1166 ≤ 1200)).trans (pow_le_pow_left₀ (by norm_num) (by norm_num) _)

/-- Nor does ISGD, at any rate from `2^-36` to `2^99`. -/
theorem C207_isgd_every_rate (hM : M.rnd = binary64Format.rnd) (lr γ two : FP M) (l : ℝ) (hl : Is lr l) (l0 : 2 ^ (-36 : ℤ) ≤ l)
    (l1 : l ≤ 2 ^ 99) (hγ : Is γ (3 / 4)) (h2 : Is two 2) :
    ∃ T, (∃ fas : Nat → ScalarLFA (Closure Bool (FP M)) (ISGD (FP M)) (FP M), ScalarLFA.scalar (doubling two) ⟨lr⟩ = .ok (fas 0) ∧
      ∀ t, CanBootstrap γ (fas t) false Scalar.one true (fas (t + 1))) ∧
    ∀ fas : Nat → ScalarLFA (Closure Bool (FP M)) (ISGD (FP M)) (FP M), ScalarLFA.scalar (doubling two) ⟨lr⟩ = .ok (fas 0) →
      (∀ t, CanBootstrap γ (fas t) false Scalar.one true (fas (t + 1))) →
      ∀ t, T ≤ t → ∀ v, CanEvaluate (fas t) false v → ¬ Spec.Finite v := by
  have hone : Is (Scalar.one : FP M) 1 := val_one
  have v1 : ∀ a : FP M, value (.dense [a]) 0 = a := fun _ => rfl
  have lp : 0 < l := lt_of_lt_of_le (by positivity) l0
  have hlen : ∀ (a : FP M) (z : ℝ), Is a z → 0 ≤ z → len 1 (fun i => real (value (.dense [a]) i)) = z := fun a z ha hz => by
    rw [len, Finset.sum_range_one, v1, is_real ha, Real.sqrt_sq hz]
  have hu0 := roundoff_pos
  have hu : roundoff ≤ 1 / 1000000 := by unfold roundoff; norm_num
  have hlo : 65536 * roundoff ≤ l / (1 + l) := by
    have h3 : (2 : ℝ) ^ (-36 : ℤ) = 131072 * roundoff := by unfold roundoff; norm_num
    rw [h3] at l0
    rw [le_div_iff₀ (by linarith)]
    have h4 : 65536 * roundoff ≤ 1 / 2 := by unfold roundoff; norm_num
    have h5 := mul_le_mul_of_nonneg_right h4 lp.le
    linarith
  have ap : 0 < l / (1 + l) := by linarith
  have a1 : l / (1 + l) ≤ 1 := by rw [div_le_one (by linarith)]; linarith
  obtain ⟨T, hT⟩ := pow_unbounded_of_one_lt ((2 : ℝ) ^ 1166) (by linarith : 1 < 1 + l / (1 + l) / 8 / 2)
  refine ⟨T, C207_isgd_runs (doubling two) 1 lr γ Scalar.one rfl false true ⟨.dense [Scalar.one], rfl, trivial, rfl⟩
    ⟨.dense [two], rfl, trivial, rfl⟩, fun fas h0 hr t ht v hv => ?_⟩
  refine (C207_isgd_scratch hM (doubling two) 1 1 lr rfl fas h0 γ Scalar.one false true hr (.dense [Scalar.one]) (.dense [two]) rfl
    ⟨trivial, rfl⟩ rfl ⟨trivial, rfl⟩ (doubling_moderate _ 1 hone (by norm_num)) (doubling_moderate _ 2 h2 (by norm_num)) l (l / (1 + l))
    (3 / 4) (5 / 8 * (l / (1 + l))) (l / (1 + l) / 8) hl lp l1 hγ
    (by norm_num) (by norm_num) ?_ ?_ ?_ ?_ (by linarith) ?_ ?_ T ?_ t ht).1 v hv
  · rw [Finset.sum_range_one, v1, is_real hone, one_pow, mul_one]
  · have : tiny ≤ roundoff := zpow_le_zpow_right₀ (by norm_num) (by norm_num)
    linarith
  · rw [reach, hlen _ 1 hone (by norm_num), hlen _ 2 h2 (by norm_num)]
    ring
  · rw [Finset.sum_range_one, Finset.sum_range_one, v1, v1, is_real hone, is_real h2]
    ring
  · generalize l / (1 + l) = a at *
    push_cast
    have h4 : roundoff * a ≤ roundoff := mul_le_of_le_one_right hu0.le a1
    have h5 : 768 * roundoff * (5 / 8 * a + 1) * (5 / 8) ≤ a / 64 := by linarith
    have h6 := mul_le_mul_of_nonneg_right h5 ap.le
    linarith
  · rw [is_real hone, abs_one]
    exact zpow_le_one_of_nonpos₀ (by norm_num) (by norm_num)
  · rw [is_real hone, abs_one, mul_one]
    exact hT.le

end Lfa

import Verif.Props.C193
import Verif.Props.C107_C108

/-!
# C194: too large a learning rate ruins a double-precision approximator in finitely many calls

C193 says that training with `lr ‖φ‖² ≤ 2` does not overflow. Beyond two, training on one input again and again does: the error
grows at every call by the factor `lr ‖φ‖² / 2`, rounding included, until weights are lost, and then the approximator never recovers.
-/

set_option linter.unusedSectionVars false

namespace Lfa

open Spec Machine XReal

variable {M : Machine}

/-! ## One call -/

/-- The error outgrows the rounding of one call, and the weights do not outgrow the error. -/
theorem blowup_step {q k u E G E' G' R τ : ℝ} (hq : 2 < q) (k0 : 0 ≤ k) (u0 : 0 ≤ u)
    (hu : (128 * k + 64) * u * q ^ 2 ≤ (q - 2) ^ 2) (E0 : 0 ≤ E) (hG : G ≤ 4 * q / (q - 2) * E) (hτ : τ ≤ u * E)
    (hR : R ≤ (4 * k * q + 1) * u * G + 5 * u * q * E + τ) (hE : (q - 1) * E - R ≤ E') (hG' : G' ≤ G + q * E + R) :
    q / 2 * E ≤ E' ∧ G' ≤ 4 * q / (q - 2) * E' := by
  have d0 : 0 < q - 2 := by linarith
  have q0 : 0 < q := by linarith
  set d := q - 2 with hd
  set K := 4 * q / d with hK
  have Kd : K * d = 4 * q := by rw [hK]; field_simp
  have K0 : 0 ≤ K := by rw [hK]; positivity
  have a1 : (4 * k * q + 1) * u * K ≤ d / 8 := by
    rw [hK, ← mul_div_assoc, div_le_iff₀ d0]
    have e : (4 * k * q + 1) * u * (4 * q) * 8 = 128 * k * u * q ^ 2 + 32 * u * q := by ring
    have h1 : 32 * u * q ≤ 64 * u * q ^ 2 := by
      have : u * q * 1 ≤ u * q * q := mul_le_mul_of_nonneg_left (by linarith) (by positivity)
      nlinarith
    nlinarith
  have a2 : 5 * u * q + u ≤ d / 8 := by
    have h1 : 64 * u * q * q ≤ d * q := by
      have h2 : 0 ≤ k * u * q ^ 2 := by positivity
      have h3 : d ^ 2 ≤ d * q := by rw [pow_two]; exact mul_le_mul_of_nonneg_left (by linarith) d0.le
      nlinarith
    have h4 := le_of_mul_le_mul_right h1 q0
    nlinarith
  have a3 : R ≤ d / 4 * E := by
    have h1 := mul_le_mul_of_nonneg_left hG (by positivity : 0 ≤ (4 * k * q + 1) * u)
    have h2 := mul_le_mul_of_nonneg_right a1 E0
    have h3 := mul_le_mul_of_nonneg_right a2 E0
    nlinarith
  have a4 : (1 + 3 * d / 4) * E ≤ E' := by
    have : (q - 1) * E = (1 + d) * E := by rw [hd]; ring
    nlinarith
  have dE : 0 ≤ d * E := by positivity
  constructor
  · have : q / 2 * E = (1 + d / 2) * E := by rw [hd]; ring
    nlinarith
  · have h1 := mul_le_mul_of_nonneg_left a4 K0
    have h2 : K * ((1 + 3 * d / 4) * E) = K * E + 3 * q * E := by linear_combination (3 / 4 * E) * Kd
    have h3 : d * E ≤ q * E := mul_le_mul_of_nonneg_right (by linarith) E0
    nlinarith

/-- The least normal errors dwarf what underflow can add. -/
theorem underflow_le {n k : Nat} {q A : ℝ} (hn : n ≤ 2 ^ 40) (hk : k ≤ 2 ^ 40) (q1 : q ≤ 2 ^ 340) (q0 : 0 ≤ q) (A0 : 0 ≤ A)
    (hA : A ≤ 2 ^ 120) : (4 * k * q + 2 * A * (√n + A)) * tiny ≤ roundoff * 2 ^ (-600 : ℤ) := by
  have h1 : (k : ℝ) ≤ 2 ^ 40 := by exact_mod_cast hk
  have h2 : √(n : ℝ) ≤ 2 ^ 20 := sqrt_count hn
  have h3 : (k : ℝ) * q ≤ 2 ^ 40 * 2 ^ 340 := mul_le_mul h1 q1 q0 (by positivity)
  have h4 : A * (√n + A) ≤ 2 ^ 120 * (2 ^ 20 + 2 ^ 120) := mul_le_mul hA (add_le_add h2 hA) (by positivity) (by positivity)
  have h5 : (4 * k * q + 2 * A * (√n + A)) ≤ 2 ^ (400 : ℤ) := by
    have e : (2 : ℝ) ^ (400 : ℤ) = 2 ^ 60 * (2 ^ 170 * 2 ^ 170) := by
      rw [← pow_add, ← pow_add, ← zpow_natCast]
      rfl
    have e2 : (2 : ℝ) ^ 340 = 2 ^ 170 * 2 ^ 170 := by rw [← pow_add]
    rw [e2] at h3
    rw [e]
    have h6 : (2 : ℝ) ^ 120 * (2 ^ 20 + 2 ^ 120) ≤ 2 ^ 170 * 2 ^ 170 := by norm_num
    generalize (2 : ℝ) ^ 170 * 2 ^ 170 = z at *
    have z0 : 0 ≤ z := le_trans (by positivity) h6
    have h7 := h4.trans h6
    clear e e2 q1 h6 h4
    norm_num at h3 ⊢
    have e : 4 * (k : ℝ) * q + 2 * A * (√n + A) = 4 * (k * q) + 2 * (A * (√n + A)) := by ring
    rw [e]
    generalize (k : ℝ) * q = a at *
    generalize A * (√n + A) = b at *
    linarith
  refine (mul_le_mul_of_nonneg_right h5 tiny_pos.le).trans ?_
  rw [tiny, roundoff, ← zpow_add₀ (by norm_num)]
  rw [← zpow_add₀ (by norm_num)]
  exact zpow_le_zpow_right₀ (by norm_num) (by norm_num)

/-- A prediction that led to a finite weight is finite. -/
theorem prediction_finite {c y v w a : FP M} (h : Spec.Finite (w +. c *. (y -. v) *. a)) : Spec.Finite v :=
  (sub_finite (mul_finite (mul_finite (add_finite h).2).1).2).2

/-- One call in double precision, from the error and weights before it. -/
theorem blowup_call (hM : M.rnd = binary64Format.rnd) {n k : Nat} {c : FP M} {w w₁ : List (FP M)} {φ : Features (FP M)}
    (hφ : Fits n φ) {v y : FP M} (hmod : Moderate n k φ y) (hw : w.length = n) (hd : φ.dot w = .ok v) {l q : ℝ} (hc : Is c l)
    (l0 : 0 ≤ l) (l1 : l ≤ 2 ^ 100) (hq : q = l * ∑ i ∈ Finset.range n, real (value φ i) ^ 2) (q2 : 2 < q)
    (hu : (128 * k + 64) * roundoff * q ^ 2 ≤ (q - 2) ^ 2)
    (h : ∀ i < n, (∀ a, Stored φ i a → entry w₁ i = (entry w i +. c *. (y -. v) *. a)) ∧
      (¬ Active φ i → entry w₁ i = entry w i)) (hz : ∀ i < n, Spec.Finite (entry w₁ i))
    (hE : 2 ^ (-600 : ℤ) ≤ |real y - ∑ i ∈ Finset.range n, real (value φ i) * real (entry w i)|)
    (hG : len n (fun i => real (value φ i)) * len n (fun i => real (entry w i)) ≤
      4 * q / (q - 2) * |real y - ∑ i ∈ Finset.range n, real (value φ i) * real (entry w i)|) :
    q / 2 * |real y - ∑ i ∈ Finset.range n, real (value φ i) * real (entry w i)| ≤
      |real y - ∑ i ∈ Finset.range n, real (value φ i) * real (entry w₁ i)| ∧
    len n (fun i => real (value φ i)) * len n (fun i => real (entry w₁ i)) ≤
      4 * q / (q - 2) * |real y - ∑ i ∈ Finset.range n, real (value φ i) * real (entry w₁ i)| := by
  have hu0 := roundoff_pos
  have hu1 : roundoff ≤ 1 / 100 := by unfold roundoff; norm_num
  have ht := tiny_pos
  have A0 := len_nonneg n fun i => real (value φ i)
  have hA := features_len hmod hφ
  have q0 : 0 < q := by linarith
  have k0 : (0 : ℝ) ≤ k := k.cast_nonneg
  have hqA : l * len n (fun i => real (value φ i)) * len n (fun i => real (value φ i)) = q := by
    rw [hq, ← len_sq]; ring
  have q1 : q ≤ 2 ^ 340 := by
    rw [← hqA, mul_assoc]
    have : (2 : ℝ) ^ 340 = 2 ^ 100 * (2 ^ 120 * 2 ^ 120) := by rw [← pow_add, ← pow_add]
    rw [this]
    exact mul_le_mul l1 (mul_le_mul hA hA A0 (by positivity)) (mul_nonneg A0 A0) (by positivity)
  -- the prediction is finite
  obtain ⟨p, hp⟩ : Spec.Finite v := by
    obtain ⟨i, hi, hne⟩ : ∃ i < n, real (value φ i) ≠ 0 := by
      by_contra hcon
      push Not at hcon
      have : ∑ i ∈ Finset.range n, real (value φ i) ^ 2 = 0 :=
        Finset.sum_eq_zero fun i hi => by rw [hcon i (Finset.mem_range.1 hi)]; norm_num
      rw [this, mul_zero] at hq
      linarith
    obtain ⟨a, ha⟩ : Active φ i := by
      by_contra hcon
      exact hne (by rw [value_inactive hφ hcon, real_zero'])
    have := hz i hi
    rw [(h i hi).1 a ha] at this
    exact prediction_finite this
  have e1 : ∀ r, Is v r → |r - exactDot φ w| ≤ predictionError φ w := fun r hr => dot_err hM hφ hw hd hr
  have e2 := predictionError_le hφ w hmod.count.1 hmod.count.2
  have e3 := predictionError_nonneg φ w
  have hcall := call_err hM (c := c) hφ e1 h hz
  have ep := e1 p hp
  have ex : exactDot φ w = ∑ i ∈ Finset.range n, real (value φ i) * real (entry w i) := by rw [exactDot, hφ.2]
  rw [ex] at hcall ep
  set s := ∑ i ∈ Finset.range n, real (value φ i) * real (entry w i) with hs
  set s' := ∑ i ∈ Finset.range n, real (value φ i) * real (entry w₁ i) with hs'
  set A := len n fun i => real (value φ i) with hAdef
  set N := len n fun i => real (entry w i) with hN
  set ρ := fun i => real (entry w₁ i) - (real (entry w i) + real c * (real y - s) * real (value φ i)) with hρ
  have N0 : 0 ≤ N := len_nonneg _ _
  rw [is_real hc] at hρ
  set R := A * len n ρ with hR
  set τ := (4 * k * q + 2 * A * (√n + A)) * tiny with hτ
  have hτ1 : τ ≤ roundoff * |real y - s| :=
    (underflow_le hmod.size hmod.count.2 q1 q0.le A0 hA).trans (mul_le_mul_of_nonneg_left hE hu0.le)
  have hR1 : R ≤ (4 * k * q + 1) * roundoff * (A * N) + 5 * roundoff * q * |real y - s| + τ := by
    refine (mul_le_mul_of_nonneg_left hcall A0).trans ?_
    unfold callError
    rw [is_real hc, abs_of_nonneg l0, is_real hp, ← hAdef, ← hN]
    have f1 : (1 + roundoff) ^ 4 - 1 ≤ 5 * roundoff := by
      have : roundoff ^ 2 ≤ roundoff * (1 / 100) := by rw [pow_two]; exact mul_le_mul_of_nonneg_left hu1 hu0.le
      have h3 : roundoff ^ 3 ≤ roundoff * (1 / 100) := by
        rw [pow_succ, mul_comm]; exact mul_le_mul_of_nonneg_left (by nlinarith) hu0.le
      have h4 : roundoff ^ 4 ≤ roundoff * (1 / 100) := by
        rw [pow_succ, mul_comm]; exact mul_le_mul_of_nonneg_left (by nlinarith) hu0.le
      nlinarith
    have f2 : (1 + roundoff) ^ 2 ≤ 2 := by nlinarith
    have f3 : |real y - p| ≤ |real y - s| + predictionError φ w := by
      have := abs_sub_le (real y) s p
      rw [abs_sub_comm s p] at this
      linarith
    have f4 : ((1 + roundoff) ^ 4 - 1) * |real y - p| + predictionError φ w ≤
        5 * roundoff * |real y - s| + 4 * k * roundoff * (A * N) + 4 * k * tiny := by
      have g1 := mul_le_mul f1 f3 (abs_nonneg _) (by positivity)
      have g2 : 5 * roundoff * predictionError φ w ≤ 1 * predictionError φ w := mul_le_mul_of_nonneg_right (by linarith) e3
      linarith
    have f5 := mul_le_mul_of_nonneg_left f4 q0.le
    have f6 : A * ((1 + roundoff) ^ 2 * (√n + A) * tiny) ≤ 2 * A * (√n + A) * tiny := by
      have := mul_le_mul_of_nonneg_right f2 (by positivity : 0 ≤ A * (√(n : ℝ) + A) * tiny)
      linarith
    have f7 : A * (l * A * (((1 + roundoff) ^ 4 - 1) * |real y - p| + predictionError φ w)) =
        q * (((1 + roundoff) ^ 4 - 1) * |real y - p| + predictionError φ w) := by rw [← hqA]; ring
    rw [mul_add, mul_add, f7, hτ]
    linarith
  have hEs : real y - s' = (1 - q) * (real y - s) - ∑ i ∈ Finset.range n, real (value φ i) * ρ i := by
    have e : s' = ∑ i ∈ Finset.range n, (real (value φ i) * real (entry w i) + l * (real y - s) * real (value φ i) ^ 2 +
        real (value φ i) * ρ i) := Finset.sum_congr rfl fun i _ => by
      show _ = _ + real (value φ i) * (real (entry w₁ i) - (real (entry w i) + real c * (real y - s) * real (value φ i)))
      rw [is_real hc]
      ring
    rw [Finset.sum_add_distrib, Finset.sum_add_distrib, ← Finset.mul_sum, ← hs] at e
    rw [e, hq]
    ring
  have hρs := abs_sum_mul_le_len n (fun i => real (value φ i)) ρ
  refine blowup_step q2 k0 hu0.le hu (abs_nonneg _) hG hτ1 hR1 ?_ ?_
  · rw [hEs]
    have g1 := abs_sub_abs_le_abs_sub ((1 - q) * (real y - s)) (∑ i ∈ Finset.range n, real (value φ i) * ρ i)
    rw [abs_mul, abs_of_neg (by linarith : 1 - q < 0)] at g1
    have e : (q - 1) * |real y - s| = -(1 - q) * |real y - s| := by ring
    rw [e]
    linarith
  · have e : len n (fun i => real (entry w₁ i)) ≤ N + l * |real y - s| * A + len n ρ := by
      have g1 : len n (fun i => real (entry w₁ i)) =
          len n (fun i => (real (entry w i) + l * (real y - s) * real (value φ i)) + ρ i) := len_congr fun i _ => by
        show _ = _ + (real (entry w₁ i) - (real (entry w i) + real c * (real y - s) * real (value φ i)))
        rw [is_real hc]
        ring
      rw [g1]
      refine (len_add_le n _ _).trans (add_le_add_left ((len_add_le n _ _).trans (add_le_add_right ?_ _)) _)
      rw [len_smul', abs_mul, abs_of_nonneg l0]
    have g2 := mul_le_mul_of_nonneg_left e A0
    have g3 : A * (N + l * |real y - s| * A + len n ρ) = A * N + q * |real y - s| + R := by rw [hR, ← hqA]; ring
    linarith

/-! ## Runs -/

/-- Finite doubles are below `2^1024`. -/
theorem finite_lt (hM : M.rnd = binary64Format.rnd) {a : FP M} {r : ℝ} (h : Is a r) : |r| < 2 ^ 1024 := by
  have := a.rep r h
  rw [hM] at this
  exact (binary64Format.rnd_eq_fin this).2

section
variable {B I : Type} [Space B] [Basis B I (FP M)]

/-- SGD in `f64` on one input again and again, its hash map iterating in any order at each call, with `q = l ‖φ‖² > 2` by a margin
of the order of `q √(k 2^-53)`, from weights no larger than the error. As long as the weights are finite, the error of the exact
prediction grows by the factor `q / 2` at every call. -/
theorem C194_growth (hM : M.rnd = binary64Format.rnd) (n k : Nat) (fas : Nat → ScalarLFA B (SGD (FP M)) (FP M)) (x : I) (y : FP M)
    (hr : ∀ t, CanUpdateWith (fas t) x (fun p => y -. p) (fas (t + 1))) (φ : Features (FP M))
    (hp : Basis.project (fas 0).basis x = .ok (.ok φ)) (hf : Fits n φ) (hn : (fas 0).weights.length = n) (hmod : Moderate n k φ y)
    (l q : ℝ) (hlr : Is (fas 0).optimiser.lr l) (l0 : 0 ≤ l) (l1 : l ≤ 2 ^ 100)
    (hq : q = l * ∑ i ∈ Finset.range n, real (value φ i) ^ 2) (q2 : 2 < q)
    (hu : (128 * k + 64) * roundoff * q ^ 2 ≤ (q - 2) ^ 2)
    (hE : 2 ^ (-600 : ℤ) ≤ |real y - ∑ i ∈ Finset.range n, real (value φ i) * real (entry (fas 0).weights i)|)
    (hG : len n (fun i => real (value φ i)) * len n (fun i => real (entry (fas 0).weights i)) ≤
      4 * q / (q - 2) * |real y - ∑ i ∈ Finset.range n, real (value φ i) * real (entry (fas 0).weights i)|)
    (t : Nat) (hz : ∀ i < n, Spec.Finite (entry (fas t).weights i)) :
    (q / 2) ^ t * |real y - ∑ i ∈ Finset.range n, real (value φ i) * real (entry (fas 0).weights i)| ≤
      |real y - ∑ i ∈ Finset.range n, real (value φ i) * real (entry (fas t).weights i)| ∧
    len n (fun i => real (value φ i)) * len n (fun i => real (entry (fas t).weights i)) ≤
      4 * q / (q - 2) * |real y - ∑ i ∈ Finset.range n, real (value φ i) * real (entry (fas t).weights i)| := by
  have run := sgd_any_trace hr (φ := fun _ => φ) (fun _ => ⟨hp, hf⟩) hn
  induction t with
  | zero => exact ⟨by rw [pow_zero, one_mul], hG⟩
  | succ t ih =>
    obtain ⟨⟨-, -, hl⟩, ψ, v, hs, hd, hstep⟩ := run t
    have hfin : ∀ i < n, Spec.Finite (entry (fas t).weights i) := fun i hi => by
      have h1 := hz i hi
      by_cases ha : Active ψ i
      · obtain ⟨a, ha⟩ := ha
        rw [(hstep i hi).1 a ha] at h1
        exact (add_finite h1).1
      · rwa [(hstep i hi).2 ha] at h1
    obtain ⟨i1, i2⟩ := ih hfin
    have hv : ∀ i, value ψ i = value φ i := value_same hs (keysUnique_of_wf hf.1) (keysUnique_of_wf (fits_same hs hf).1)
    have one : 1 ≤ (q / 2) ^ t := one_le_pow₀ (by linarith)
    have hE' := hE.trans ((le_mul_of_one_le_left (abs_nonneg _) one).trans i1)
    have key := blowup_call hM (fits_same hs hf) (moderate_same hs hmod) hl hd hlr l0 l1 (q := q) (by simp only [hv]; exact hq) q2 hu
      hstep hz (by simp only [hv]; exact hE') (by simp only [hv]; exact i2)
    simp only [hv] at key
    refine ⟨le_trans ?_ key.1, key.2⟩
    rw [pow_succ', mul_assoc]
    exact mul_le_mul_of_nonneg_left i1 (by linarith)

/-- So within `T` calls, `T` about `1165 / log₂ (q / 2)`, a weight in use at `x` is lost; from then on, for ever, everything `evaluate`
can return at `x` is infinite or NaN, and one call later every weight in use at `x` is lost for ever. -/
theorem C194_lost (hM : M.rnd = binary64Format.rnd) (n k : Nat) (fas : Nat → ScalarLFA B (SGD (FP M)) (FP M)) (x : I) (y : FP M)
    (hr : ∀ t, CanUpdateWith (fas t) x (fun p => y -. p) (fas (t + 1))) (φ : Features (FP M))
    (hp : Basis.project (fas 0).basis x = .ok (.ok φ)) (hf : Fits n φ) (hn : (fas 0).weights.length = n)
    (hw : ∀ i < n, Spec.Finite (entry (fas 0).weights i)) (hmod : Moderate n k φ y)
    (l q : ℝ) (hlr : Is (fas 0).optimiser.lr l) (l0 : 0 ≤ l) (l1 : l ≤ 2 ^ 100)
    (hq : q = l * ∑ i ∈ Finset.range n, real (value φ i) ^ 2) (q2 : 2 < q)
    (hu : (128 * k + 64) * roundoff * q ^ 2 ≤ (q - 2) ^ 2)
    (hE : 2 ^ (-600 : ℤ) ≤ |real y - ∑ i ∈ Finset.range n, real (value φ i) * real (entry (fas 0).weights i)|)
    (hG : len n (fun i => real (value φ i)) * len n (fun i => real (entry (fas 0).weights i)) ≤
      4 * q / (q - 2) * |real y - ∑ i ∈ Finset.range n, real (value φ i) * real (entry (fas 0).weights i)|)
    (T : Nat) (hT : 2 ^ 1165 ≤ (q / 2) ^ T * |real y - ∑ i ∈ Finset.range n, real (value φ i) * real (entry (fas 0).weights i)|)
    (t : Nat) (ht : T ≤ t) :
    (∃ i < n, Active φ i ∧ ¬ Spec.Finite (entry (fas t).weights i)) ∧
    (∀ v, CanEvaluate (fas t) x v → ¬ Spec.Finite v) ∧
    ∀ i, Active φ i → ¬ Spec.Finite (entry (fas (t + 1)).weights i) := by
  have run := sgd_any_trace hr (φ := fun _ => φ) (fun _ => ⟨hp, hf⟩) hn
  have act : ∀ {ψ : Features (FP M)}, Same φ ψ → ∀ i, Active ψ i ↔ Active φ i := fun hs i =>
    ⟨fun ⟨a, ha⟩ => ⟨a, (stored_same hs i a).1 ha⟩, fun ⟨a, ha⟩ => ⟨a, (stored_same hs i a).2 ha⟩⟩
  have lost : ¬ ∀ i < n, Spec.Finite (entry (fas T).weights i) := by
    intro hz
    have h1 := (C194_growth hM n k fas x y hr φ hp hf hn hmod l q hlr l0 l1 hq q2 hu hE hG T hz).1
    have hA := features_len hmod hf
    have hN : len n (fun i => real (entry (fas T).weights i)) ≤ 2 ^ 20 * 2 ^ 1024 :=
      len_le_of_bounded hmod.size (by positivity) fun i hi => by
        obtain ⟨r, hr⟩ := hz i hi
        rw [is_real hr]
        exact (finite_lt hM hr).le
    have hy : |real y| ≤ 2 ^ 100 := by
      obtain ⟨r, hr, h⟩ := hmod.target
      rw [is_real hr]; exact h
    have h2 := abs_sum_mul_le_len n (fun i => real (value φ i)) fun i => real (entry (fas T).weights i)
    have h3 := mul_le_mul hA hN (len_nonneg _ _) (by positivity)
    have h4 := abs_sub (real y) (∑ i ∈ Finset.range n, real (value φ i) * real (entry (fas T).weights i))
    have h5 : (2 : ℝ) ^ 120 * (2 ^ 20 * 2 ^ 1024) = 2 ^ 1164 := by rw [← pow_add, ← pow_add]
    have h6 : (2 : ℝ) ^ 1165 = 2 ^ 1164 * 2 := by rw [← pow_succ]
    have h7 : (2 : ℝ) ^ 100 < 2 ^ 1164 := pow_lt_pow_right₀ (by norm_num) (by norm_num)
    rw [h5] at h3
    rw [h6] at hT
    generalize (2 : ℝ) ^ 1164 = z at *
    have := hT.trans (h1.trans (h4.trans (add_le_add hy (h2.trans h3))))
    have h8 := this.trans_lt (add_lt_add_left h7 z)
    rw [mul_two] at h8
    exact lt_irrefl _ h8
  have inert : ∀ t, ∀ i < n, ¬ Active φ i → entry (fas t).weights i = entry (fas 0).weights i := by
    intro t
    induction t with
    | zero => exact fun _ _ _ => rfl
    | succ t ih =>
      intro i hi ha
      obtain ⟨-, ψ, v, hs, -, hstep⟩ := run t
      rw [(hstep i hi).2 fun h => ha ((act hs i).1 h), ih i hi ha]
  have lost' : ¬ ∀ i < n, Spec.Finite (entry (fas t).weights i) := by
    induction t, ht using Nat.le_induction with
    | base => exact lost
    | succ t ht ih =>
      refine fun hz => ih fun i hi => ?_
      obtain ⟨-, ψ, v, hs, -, hstep⟩ := run t
      have h1 := hz i hi
      by_cases ha : Active ψ i
      · obtain ⟨a, ha⟩ := ha
        rw [(hstep i hi).1 a ha] at h1
        exact (add_finite h1).1
      · rwa [(hstep i hi).2 ha] at h1
  push Not at lost'
  obtain ⟨i, hi, hni⟩ := lost'
  have ha : Active φ i := by
    by_contra ha
    rw [inert t i hi ha] at hni
    exact hni (hw i hi)
  have dot : ∀ {ψ : Features (FP M)} {v : FP M}, Same φ ψ → ψ.dot (fas t).weights = .ok v → ¬ Spec.Finite v := fun hs hd hv =>
    hni (dot_finite (fits_same hs hf) (run t).1.2.2 hd hv ((act hs i).2 ha))
  refine ⟨⟨i, hi, ha, hni⟩, ?_, ?_⟩
  · rintro v ⟨φ', ψ, hp', hs, hd⟩
    rw [(run t).1.1, hp] at hp'
    cases hp'
    exact dot hs hd
  · intro j hj
    obtain ⟨-, ψ, v, hs, hd, hstep⟩ := run t
    obtain ⟨a, ha⟩ := (act hs j).2 hj
    have hjn : j < n := active_lt hf hj
    rw [(hstep j hjn).1 a ha]
    exact fun h => dot hs hd (prediction_finite h)

/-- From the constructor on. -/
theorem C194_scratch (hM : M.rnd = binary64Format.rnd) (b : B) (n k : Nat) (lr : FP M) (hd : Space.dim b = .finite n)
    (fas : Nat → ScalarLFA B (SGD (FP M)) (FP M)) (h0 : ScalarLFA.scalar b ⟨lr⟩ = .ok (fas 0)) (x : I) (y : FP M)
    (hr : ∀ t, CanUpdateWith (fas t) x (fun p => y -. p) (fas (t + 1))) (φ : Features (FP M))
    (hp : Basis.project b x = .ok (.ok φ)) (hf : Fits n φ) (hmod : Moderate n k φ y) (l q : ℝ) (hlr : Is lr l) (l0 : 0 ≤ l)
    (l1 : l ≤ 2 ^ 100) (hq : q = l * ∑ i ∈ Finset.range n, real (value φ i) ^ 2) (q2 : 2 < q)
    (hu : (128 * k + 64) * roundoff * q ^ 2 ≤ (q - 2) ^ 2) (hE : 2 ^ (-600 : ℤ) ≤ |real y|)
    (T : Nat) (hT : 2 ^ 1165 ≤ (q / 2) ^ T * |real y|) (t : Nat) (ht : T ≤ t) :
    (∀ v, CanEvaluate (fas t) x v → ¬ Spec.Finite v) ∧ ∀ i, Active φ i → ¬ Spec.Finite (entry (fas (t + 1)).weights i) := by
  have e0 : fas 0 = ⟨b, List.replicate n Scalar.zero, ⟨lr⟩⟩ := by
    rw [(C59_shape b (⟨lr⟩ : SGD (FP M)) 1 n hd).1] at h0
    exact (Except.ok.inj h0).symm
  have hz : ∀ i, entry (fas 0).weights i = Scalar.zero := fun i => by rw [e0]; exact entry_replicate n i
  have es : ∑ i ∈ Finset.range n, real (value φ i) * real (entry (fas 0).weights i) = 0 :=
    Finset.sum_eq_zero fun i _ => by rw [hz, real_zero', mul_zero]
  refine (C194_lost hM n k fas x y hr φ (by rw [e0]; exact hp) hf (by rw [e0]; exact List.length_replicate ..)
    (fun i _ => by rw [hz]; exact ⟨0, val_zero⟩) hmod l q (by rw [e0]; exact hlr) l0 l1 hq q2 hu ?_ ?_ T ?_ t ht).2
  · rwa [es, sub_zero]
  · have : len n (fun i => real (entry (fas 0).weights i)) = 0 := by
      rw [len_congr (g := fun _ => 0) fun i _ => by rw [hz, real_zero'], len_const n 0 le_rfl, mul_zero]
    rw [this, mul_zero]
    exact mul_nonneg (div_nonneg (by linarith) (by linarith)) (abs_nonneg _)
  · rwa [es, sub_zero]

end

/-! ## Tile coding -/

theorem squares_ones {n : Nat} {sa : SparseActivations (FP M)} (hf : Fits n (.sparse sa))
    (h : ∀ i a, Stored (.sparse sa) i a → a = Scalar.one) :
    ∑ i ∈ Finset.range n, real (value (.sparse sa) i) ^ 2 = sa.activations.length := by
  classical
  have e : ∀ i ∈ Finset.range n, real (value (.sparse sa) i) ^ 2 = if i ∈ (sa.activations.map Prod.fst).toFinset then 1 else 0 := by
    intro i _
    by_cases ha : Active (.sparse sa) i
    · obtain ⟨a, ha⟩ := ha
      rw [if_pos (List.mem_toFinset.2 (List.mem_map.2 ⟨_, ha, rfl⟩)), value_of_stored (keysUnique_of_wf hf.1) ha, h i a ha, is_real val_one]
      norm_num
    · rw [if_neg fun hm => ?_, value_inactive hf ha, is_real val_zero]
      · norm_num
      · obtain ⟨⟨j, a⟩, hj, rfl⟩ := List.mem_map.1 (List.mem_toFinset.1 hm)
        exact ha ⟨a, hj⟩
  rw [Finset.sum_congr rfl e, Finset.sum_ite_mem, Finset.sum_const, nsmul_eq_mul, mul_one, Finset.inter_eq_right.2, List.toFinset_card_of_nodup,
    List.length_map]
  · exact hf.1.1
  · intro i hi
    obtain ⟨⟨j, a⟩, hm, rfl⟩ := List.mem_map.1 (List.mem_toFinset.1 hi)
    have := hf.1.2 _ hm
    rw [← hf.2]
    exact Finset.mem_range.2 this

/-- Tile coding with `m` distinct cells at `x` (`m` is the number of tilings unless cells collide) and a rate above `2 / m`. -/
theorem C194_tile_coding (hM : M.rnd = binary64Format.rnd) {H : Type} [BuildHasher H] (b : TileCoding H) (lr : FP M)
    (hn : b.memorySize ≤ 2 ^ 40) (fas : Nat → ScalarLFA (TileCoding H) (SGD (FP M)) (FP M))
    (h0 : ScalarLFA.scalar b ⟨lr⟩ = .ok (fas 0)) (x : List (FP M)) (y : FP M)
    (hr : ∀ t, CanUpdateWith (fas t) x (fun p => y -. p) (fas (t + 1))) (φ : Features (FP M))
    (hp : Basis.project b x = .ok (.ok φ)) (m : Nat) (hm : storedCount φ = m) (l : ℝ) (hlr : Is lr l) (l0 : 0 ≤ l)
    (l1 : l ≤ 2 ^ 100) (q2 : 2 < l * m) (hu : (128 * m + 64) * roundoff * (l * m) ^ 2 ≤ (l * m - 2) ^ 2)
    (hy : Bounded (2 ^ 100) y) (hE : 2 ^ (-600 : ℤ) ≤ |real y|) (T : Nat) (hT : 2 ^ 1165 ≤ (l * m / 2) ^ T * |real y|) (t : Nat)
    (ht : T ≤ t) (v : FP M) (hv : CanEvaluate (fas t) x v) : ¬ Spec.Finite v := by
  obtain ⟨h1, h2, h3, h4, h5, -⟩ := C30_activity b x φ hp
  cases φ with
  | dense da => cases h1
  | sparse sa =>
    have hf : Fits b.memorySize (.sparse sa) := ⟨h3, h2⟩
    have hm' : sa.activations.length = m := hm
    have hm40 : m ≤ 2 ^ 40 := by
      rw [← hm']
      refine le_trans ?_ hn
      rw [← List.length_map (f := Prod.fst), ← List.toFinset_card_of_nodup hf.1.1, ← Finset.card_range b.memorySize]
      refine Finset.card_le_card fun i hi => ?_
      obtain ⟨⟨j, a⟩, hm, rfl⟩ := List.mem_map.1 (List.mem_toFinset.1 hi)
      have := hf.1.2 _ hm
      rw [← hf.2]
      exact Finset.mem_range.2 this
    refine (C194_scratch hM b b.memorySize m lr rfl fas h0 x y hr _ hp hf ⟨hn, ⟨hm.le, hm40⟩, fun i a ha => ?_, hy⟩ l (l * m) hlr l0 l1
      ?_ q2 hu hE T hT t ht).1 v hv
    · rw [(h4 i a ha).1]
      exact ⟨1, val_one, by rw [abs_one]; exact one_le_pow₀ (by norm_num)⟩
    · rw [squares_ones hf fun i a ha => (h4 i a ha).1, hm']

/-- The hypotheses are met: 16 tilings whose cells at `x` do not collide, rate `1/4`, target one. A run exists, and after 1165 calls
every prediction at `x` is lost for ever. -/
theorem C194_example (hM : M.rnd = binary64Format.rnd) {H : Type} [BuildHasher H] (b : TileCoding H)
    (h2 : b.memorySize = 1024) (lr : FP M) (hl : Is lr (1 / 4)) (x : List (FP M)) (φ : Features (FP M))
    (hp : Basis.project b x = .ok (.ok φ)) (hm : storedCount φ = 16) :
    ∃ fas : Nat → ScalarLFA (TileCoding H) (SGD (FP M)) (FP M), ScalarLFA.scalar b ⟨lr⟩ = .ok (fas 0) ∧
      (∀ t, CanUpdateWith (fas t) x (fun p => Scalar.one -. p) (fas (t + 1))) ∧
      ∀ t, 1165 ≤ t → ∀ v, CanEvaluate (fas t) x v → ¬ Spec.Finite v := by
  obtain ⟨fas, h3, h4⟩ := (C193_runs b _ _ _ lr (C193_tile_coding b x φ hp).1 (fun _ => x) (fun _ => Scalar.one)
    fun _ => (C193_tile_coding b x φ hp).2).1
  refine ⟨fas, h3, h4, fun t ht v hv => ?_⟩
  have e : (1 / 4 : ℝ) * ((16 : Nat) : ℝ) = 4 := by norm_num
  refine C194_tile_coding hM b lr (by rw [h2]; norm_num) fas h3 x Scalar.one h4 φ hp 16 hm (1 / 4) hl (by norm_num)
    ((by norm_num : (1 / 4 : ℝ) ≤ 1).trans (one_le_pow₀ (by norm_num))) (by rw [e]; norm_num) ?_
    ⟨1, val_one, by rw [abs_one]; exact one_le_pow₀ (by norm_num)⟩ ?_ 1165 ?_ t ht v hv
  · rw [e, roundoff]
    norm_num
  · rw [is_real val_one, abs_one]
    exact zpow_le_one_of_nonpos₀ (by norm_num) (by norm_num)
  · rw [is_real val_one, abs_one, e, mul_one]
    exact pow_le_pow_left₀ (by norm_num) (by norm_num) _

end Lfa

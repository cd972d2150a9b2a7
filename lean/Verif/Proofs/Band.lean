import Mathlib.Analysis.SpecificLimits.Basic
import Mathlib.Topology.Order.Basic
import Mathlib.Analysis.Real.Sqrt
import Mathlib.Order.Filter.AtTopBot.Basic
import Mathlib.Topology.Algebra.Order.Field
import Mathlib.Algebra.BigOperators.Field
import Mathlib.Analysis.Normed.Group.Continuity
import Mathlib.Analysis.Normed.Group.Basic
import Mathlib.Analysis.Normed.Field.Basic

/-!
# Errors that are scaled by a gain depending on recent errors

`e (k + 1) = (1 - gain (S k)) * e k` where `S k` is some measure of recent errors: at least a fixed part of
the present one, and eventually at most about `δ` if all errors are.
-/

namespace Lfa

open Filter Topology

/-- The gain of an optimiser that divides coordinate `i` by `d i * s + ε`, where `c i` is the rate times the
squared feature and `d i` the size of the feature. -/
noncomputable def gain (n : Nat) (c d : Nat → ℝ) (ε s : ℝ) : ℝ := ∑ i ∈ Finset.range n, c i / (d i * s + ε)

section
variable {n : Nat} {c d : Nat → ℝ} {ε : ℝ}

theorem gain_nonneg (hε : 0 < ε) (hc : ∀ i, 0 ≤ c i) (hd : ∀ i, 0 ≤ d i) {s : ℝ} (hs : 0 ≤ s) :
    0 ≤ gain n c d ε s :=
  Finset.sum_nonneg fun i _ => div_nonneg (hc i) (by have := mul_nonneg (hd i) hs; linarith)

theorem gain_anti (hε : 0 < ε) (hc : ∀ i, 0 ≤ c i) (hd : ∀ i, 0 ≤ d i) {s t : ℝ} (hs : 0 ≤ s) (hst : s ≤ t) :
    gain n c d ε t ≤ gain n c d ε s :=
  Finset.sum_le_sum fun i _ => by
    have h1 := mul_nonneg (hd i) hs
    have h2 := mul_le_mul_of_nonneg_left hst (hd i)
    exact div_le_div_of_nonneg_left (hc i) (by linarith) (by linarith)

theorem gain_pos (hε : 0 < ε) (hc : ∀ i, 0 ≤ c i) (hd : ∀ i, 0 ≤ d i) (h : ∃ i < n, 0 < c i) {s : ℝ} (hs : 0 ≤ s) :
    0 < gain n c d ε s := by
  obtain ⟨i, hi, hci⟩ := h
  refine Finset.sum_pos' (fun i _ => div_nonneg (hc i) ?_) ⟨i, Finset.mem_range.2 hi, div_pos hci ?_⟩
  · have := mul_nonneg (hd i) hs; linarith
  · have := mul_nonneg (hd i) hs; linarith

theorem gain_continuousAt (hε : 0 < ε) (hd : ∀ i, 0 ≤ d i) {s : ℝ} (hs : 0 ≤ s) :
    ContinuousAt (gain n c d ε) s := by
  refine tendsto_finsetSum _ fun i _ => ?_
  have : d i * s + ε ≠ 0 := by have := mul_nonneg (hd i) hs; linarith
  exact (tendsto_const_nhds.div (((continuous_const.mul continuous_id).add continuous_const).tendsto s) this)

variable {e S : Nat → ℝ}

/-- The errors end up in a band. -/
theorem band_upper (hε : 0 < ε) (hc : ∀ i, 0 ≤ c i) (hd : ∀ i, 0 ≤ d i) (hpos : ∃ i < n, 0 < c i)
    (hz : ∀ i < n, d i = 0 → c i = 0) {κ : ℝ} (hκ : 0 < κ)
    (he : ∀ k, e (k + 1) = (1 - gain n c d ε (S k)) * e k) (hS : ∀ k, κ * |e k| ≤ S k)
    (hlim : ∀ δ K, (∀ j ≥ K, |e j| ≤ δ) → ∀ η > 0, ∀ᶠ k in atTop, S k ≤ δ + η) :
    ∃ K, ∀ k ≥ K, |e k| ≤ (∑ i ∈ Finset.range n, c i / d i) / κ := by
  set R := (∑ i ∈ Finset.range n, c i / d i) / κ with hR
  have hS0 : ∀ k, 0 ≤ S k := fun k => (mul_nonneg hκ.le (abs_nonneg _)).trans (hS k)
  have hg : ∀ k, 0 ≤ gain n c d ε (S k) := fun k => gain_nonneg hε hc hd (hS0 k)
  have hR0 : 0 ≤ R := div_nonneg (Finset.sum_nonneg fun i _ => div_nonneg (hc i) (hd i)) hκ.le
  have step : ∀ k, gain n c d ε (S k) * |e k| ≤ R := by
    intro k
    unfold gain
    rw [hR, Finset.sum_mul, Finset.sum_div]
    refine Finset.sum_le_sum fun i hi => ?_
    rcases (hd i).eq_or_lt with h0 | h0
    · rw [hz i (Finset.mem_range.1 hi) h0.symm]; simp
    have h1 : 0 < d i * S k + ε := by have := mul_nonneg (hd i) (hS0 k); linarith
    rw [div_mul_eq_mul_div, div_div, div_le_div_iff₀ h1 (mul_pos h0 hκ)]
    have h2 := mul_le_mul_of_nonneg_left (hS k) (hd i)
    have h3 := mul_le_mul_of_nonneg_left h2 (hc i)
    have h4 := mul_nonneg (hc i) hε.le
    nlinarith
  have stay : ∀ k, |e k| ≤ R → |e (k + 1)| ≤ R := by
    intro k hk
    rw [he k, abs_mul]
    rcases le_or_gt (gain n c d ε (S k)) 1 with h1 | h1
    · rw [abs_of_nonneg (by linarith)]
      have := mul_nonneg (hg k) (abs_nonneg (e k))
      nlinarith
    · rw [abs_of_neg (by linarith)]
      have := step k
      have := abs_nonneg (e k)
      nlinarith
  by_contra hcon
  push Not at hcon
  have out : ∀ k, R < |e k| := by
    intro k
    by_contra hk
    push Not at hk
    have : ∀ j ≥ k, |e j| ≤ R := by
      intro j hj
      induction j, hj using Nat.le_induction with
      | base => exact hk
      | succ j _ ih => exact stay j ih
    obtain ⟨j, hj, hj'⟩ := hcon k
    exact absurd (this j hj) (not_le.2 hj')
  have lt1 : ∀ k, gain n c d ε (S k) < 1 := by
    intro k
    by_contra h1
    push Not at h1
    have h2 := step k
    have h3 := out k
    nlinarith [abs_nonneg (e k)]
  have dec : ∀ k, |e (k + 1)| = (1 - gain n c d ε (S k)) * |e k| := by
    intro k
    rw [he k, abs_mul, abs_of_nonneg (by linarith [lt1 k])]
  have mono : ∀ k, |e k| ≤ |e 0| := by
    intro k
    induction k with
    | zero => exact le_rfl
    | succ k ih =>
      rw [dec k]
      have := mul_nonneg (hg k) (abs_nonneg (e k))
      nlinarith
  obtain ⟨K, hK⟩ := eventually_atTop.1 (hlim |e 0| 0 (fun j _ => mono j) 1 one_pos)
  set a := gain n c d ε (|e 0| + 1) with ha
  have ha0 : 0 < a := gain_pos hε hc hd hpos (by positivity)
  have ha1 : a < 1 := (gain_anti hε hc hd (hS0 K) (hK K le_rfl)).trans_lt (lt1 K)
  have geo : ∀ j, |e (K + j)| ≤ (1 - a) ^ j * |e K| := by
    intro j
    induction j with
    | zero => simp
    | succ j ih =>
      have h1 := gain_anti (n := n) (c := c) (d := d) hε hc hd (hS0 (K + j)) (hK (K + j) (by omega))
      have h2 : |e (K + j + 1)| ≤ (1 - a) * |e (K + j)| := by
        rw [dec]
        exact mul_le_mul_of_nonneg_right (by linarith) (abs_nonneg _)
      calc |e (K + (j + 1))| ≤ (1 - a) * |e (K + j)| := h2
        _ ≤ (1 - a) * ((1 - a) ^ j * |e K|) := mul_le_mul_of_nonneg_left ih (by linarith)
        _ = _ := by rw [pow_succ]; ring
  have hR' : 0 < R := by
    obtain ⟨i, hi, hci⟩ := hpos
    have hdi : 0 < d i := (hd i).lt_of_ne fun h => by rw [hz i hi h.symm] at hci; exact lt_irrefl _ hci
    exact div_pos (Finset.sum_pos' (fun i _ => div_nonneg (hc i) (hd i)) ⟨i, Finset.mem_range.2 hi, div_pos hci hdi⟩) hκ
  have lim : Tendsto (fun j => (1 - a) ^ j * |e K|) atTop (𝓝 (0 * |e K|)) :=
    (tendsto_pow_atTop_nhds_zero_of_lt_one (by linarith) (by linarith)).mul_const _
  rw [zero_mul] at lim
  obtain ⟨j, hj⟩ := (lim.eventually (gt_mem_nhds hR')).exists
  exact absurd ((out (K + j)).trans_le (geo j)) (not_lt.2 hj.le)

/-- They leave every small neighbourhood of zero again, unless one of them is exactly zero. -/
theorem band_lower (hε : 0 < ε) (hc : ∀ i, 0 ≤ c i) (hd : ∀ i, 0 ≤ d i)
    (he : ∀ k, e (k + 1) = (1 - gain n c d ε (S k)) * e k) (hS : ∀ k, 0 ≤ S k)
    (hlim : ∀ δ K, (∀ j ≥ K, |e j| ≤ δ) → ∀ η > 0, ∀ᶠ k in atTop, S k ≤ δ + η)
    {δ : ℝ} (hδ : 0 ≤ δ) (hgain : 2 < gain n c d ε δ) :
    (∃ k, e k = 0) ∨ ∃ᶠ k in atTop, δ < |e k| := by
  by_contra hcon
  push Not at hcon
  obtain ⟨hne, hcon⟩ := hcon
  obtain ⟨K₀, hK₀⟩ := eventually_atTop.1 hcon
  obtain ⟨g, hg2, hgδ⟩ := exists_between hgain
  have hev : ∀ᶠ s in 𝓝 δ, g < gain n c d ε s := (gain_continuousAt hε hd hδ).eventually (lt_mem_nhds hgδ)
  obtain ⟨η, hη, hball⟩ := Metric.eventually_nhds_iff.1 hev
  have hnear : g < gain n c d ε (δ + η / 2) := hball (by rw [Real.dist_eq]; rw [add_sub_cancel_left, abs_of_pos] <;> linarith)
  obtain ⟨K₁, hK₁⟩ := eventually_atTop.1
    (hlim δ K₀ (fun j hj => hK₀ j hj) (η / 2) (by linarith))
  set K := max K₀ K₁ with hK
  have grow : ∀ j, (g - 1) ^ j * |e K| ≤ |e (K + j)| := by
    intro j
    induction j with
    | zero => simp
    | succ j ih =>
      have h1 := gain_anti (n := n) (c := c) (d := d) hε hc hd (hS (K + j))
        (hK₁ (K + j) ((le_max_right _ _).trans (Nat.le_add_right _ _)))
      have h2 : (g - 1) * |e (K + j)| ≤ |e (K + j + 1)| := by
        rw [he, abs_mul, abs_of_neg (a := 1 - gain n c d ε (S (K + j))) (by linarith)]
        exact mul_le_mul_of_nonneg_right (by linarith) (abs_nonneg _)
      calc (g - 1) ^ (j + 1) * |e K| = (g - 1) * ((g - 1) ^ j * |e K|) := by rw [pow_succ]; ring
        _ ≤ (g - 1) * |e (K + j)| := mul_le_mul_of_nonneg_left ih (by linarith)
        _ ≤ _ := h2
  have hpos : 0 < |e K| := abs_pos.2 (hne K)
  have lim : Tendsto (fun j => (g - 1) ^ j * |e K|) atTop atTop :=
    (tendsto_pow_atTop_atTop_of_one_lt (by linarith)).atTop_mul_const hpos
  obtain ⟨j, hj⟩ := (lim.eventually (eventually_gt_atTop δ)).exists
  exact absurd (hj.trans_le (grow j)) (not_lt.2 (hK₀ (K + j) ((le_max_left _ _).trans (Nat.le_add_right _ _))))

/-- If even the largest gain is below 2, they converge. -/
theorem band_converges (hε : 0 < ε) (hc : ∀ i, 0 ≤ c i) (hd : ∀ i, 0 ≤ d i) (hpos : ∃ i < n, 0 < c i)
    (he : ∀ k, e (k + 1) = (1 - gain n c d ε (S k)) * e k) (hS : ∀ k, 0 ≤ S k)
    (hlim : ∀ δ K, (∀ j ≥ K, |e j| ≤ δ) → ∀ η > 0, ∀ᶠ k in atTop, S k ≤ δ + η)
    (hgain : gain n c d ε 0 < 2) : Tendsto e atTop (𝓝 0) := by
  have top : ∀ k, gain n c d ε (S k) ≤ gain n c d ε 0 := fun k => gain_anti hε hc hd le_rfl (hS k)
  have bot : ∀ k, 0 ≤ gain n c d ε (S k) := fun k => gain_nonneg hε hc hd (hS k)
  have mono : ∀ k, |e k| ≤ |e 0| := by
    intro k
    induction k with
    | zero => exact le_rfl
    | succ k ih =>
      rw [he k, abs_mul]
      have : |1 - gain n c d ε (S k)| ≤ 1 := abs_le.2 ⟨by linarith [top k], by linarith [bot k]⟩
      exact (mul_le_of_le_one_left (abs_nonneg _) this).trans ih
  obtain ⟨K, hK⟩ := eventually_atTop.1 (hlim |e 0| 0 (fun j _ => mono j) 1 one_pos)
  have ha0 : 0 < gain n c d ε (|e 0| + 1) := gain_pos hε hc hd hpos (by positivity)
  set r := max (1 - gain n c d ε (|e 0| + 1)) (gain n c d ε 0 - 1) with hr
  have hr1 : r < 1 := max_lt (by linarith) (by linarith)
  have fac : ∀ k ≥ K, |1 - gain n c d ε (S k)| ≤ r := by
    intro k hk
    have h1 := gain_anti (n := n) (c := c) (d := d) hε hc hd (hS k) (hK k hk)
    refine abs_le.2 ⟨?_, ?_⟩
    · have := le_max_right (1 - gain n c d ε (|e 0| + 1)) (gain n c d ε 0 - 1)
      rw [← hr] at this
      linarith [top k]
    · have := le_max_left (1 - gain n c d ε (|e 0| + 1)) (gain n c d ε 0 - 1)
      rw [← hr] at this
      linarith
  have hr0 : 0 ≤ r := (abs_nonneg _).trans (fac K le_rfl)
  have geo : ∀ j, |e (j + K)| ≤ r ^ j * |e K| := by
    intro j
    induction j with
    | zero => simp
    | succ j ih =>
      have h2 : |e (j + K + 1)| ≤ r * |e (j + K)| := by
        rw [he, abs_mul]
        exact mul_le_mul_of_nonneg_right (fac _ (Nat.le_add_left _ _)) (abs_nonneg _)
      have e1 : j + 1 + K = j + K + 1 := by omega
      rw [e1]
      calc |e (j + K + 1)| ≤ r * |e (j + K)| := h2
        _ ≤ r * (r ^ j * |e K|) := mul_le_mul_of_nonneg_left ih hr0
        _ = _ := by rw [pow_succ]; ring
  have lim : Tendsto (fun j => r ^ j * |e K|) atTop (𝓝 (0 * |e K|)) :=
    (tendsto_pow_atTop_nhds_zero_of_lt_one hr0 hr1).mul_const _
  rw [zero_mul] at lim
  have h1 : Tendsto (fun j => e (j + K)) atTop (𝓝 0) :=
    squeeze_zero_norm (fun j => by rw [Real.norm_eq_abs]; exact geo j) lim
  exact (tendsto_add_atTop_iff_nat K).1 h1

end

/-- An exponentially weighted mean of squared errors, bias-corrected, is such a measure. -/
theorem rms_limit {β : ℝ} (h0 : 0 ≤ β) (h1 : β < 1) {e V : Nat → ℝ} (hV : ∀ k, V (k + 1) = β * V k + (1 - β) * e (k + 1) ^ 2)
    (δ : ℝ) (K : Nat) (hδ : ∀ j ≥ K, |e j| ≤ δ) (η : ℝ) (hη : 0 < η) :
    ∀ᶠ k in atTop, √(V k / (1 - β ^ (k + 2))) ≤ δ + η := by
  have hδ0 : 0 ≤ δ := (abs_nonneg _).trans (hδ K le_rfl)
  have up : ∀ j, V (K + j) ≤ β ^ j * |V K| + δ ^ 2 := by
    intro j
    induction j with
    | zero => simp; nlinarith [le_abs_self (V K)]
    | succ j ih =>
      have h2 : e (K + j + 1) ^ 2 ≤ δ ^ 2 := by
        rw [← sq_abs]
        exact pow_le_pow_left₀ (abs_nonneg _) (hδ _ (by omega)) 2
      have e1 : K + (j + 1) = K + j + 1 := rfl
      rw [e1, hV, pow_succ β]
      have h3 := mul_le_mul_of_nonneg_left ih h0
      have h4 := mul_le_mul_of_nonneg_left h2 (by linarith : 0 ≤ 1 - β)
      nlinarith
  have hp := tendsto_pow_atTop_nhds_zero_of_lt_one h0 h1
  have l1 : Tendsto (fun j => √((β ^ j * |V K| + δ ^ 2) / (1 - β ^ (j + (K + 2))))) atTop (𝓝 (√((0 * |V K| + δ ^ 2) / (1 - 0)))) :=
    (((hp.mul_const _).add_const _).div (((tendsto_add_atTop_iff_nat (K + 2)).2 hp).const_sub 1) (by norm_num)).sqrt
  have e2 : √((0 * |V K| + δ ^ 2) / (1 - 0)) = δ := by
    rw [zero_mul, zero_add, sub_zero, div_one, Real.sqrt_sq hδ0]
  rw [e2] at l1
  obtain ⟨J, hJ⟩ := eventually_atTop.1 (l1.eventually (gt_mem_nhds (show δ < δ + η by linarith)))
  refine eventually_atTop.2 ⟨K + J, fun k hk => ?_⟩
  obtain ⟨j, rfl⟩ := Nat.exists_eq_add_of_le (show K ≤ k by omega)
  have h5 := hJ j (by omega)
  refine le_trans (Real.sqrt_le_sqrt ?_) h5.le
  have e3 : K + j + 2 = j + (K + 2) := by omega
  rw [e3]
  have : β ^ (j + (K + 2)) < 1 := pow_lt_one₀ h0 h1 (by omega)
  exact div_le_div_of_nonneg_right (up j) (by linarith)

/-- The exponentially weighted maximum is such a measure. -/
theorem max_limit {β : ℝ} (h0 : 0 ≤ β) (h1 : β < 1) {e U : Nat → ℝ} (hU : ∀ k, U (k + 1) = max (β * U k) |e (k + 1)|)
    (δ : ℝ) (K : Nat) (hδ : ∀ j ≥ K, |e j| ≤ δ) (η : ℝ) (hη : 0 < η) : ∀ᶠ k in atTop, U k ≤ δ + η := by
  have hδ0 : 0 ≤ δ := (abs_nonneg _).trans (hδ K le_rfl)
  have up : ∀ j, U (K + j) ≤ β ^ j * |U K| + δ := by
    intro j
    induction j with
    | zero => simp; linarith [le_abs_self (U K)]
    | succ j ih =>
      have e1 : K + (j + 1) = K + j + 1 := rfl
      rw [e1, hU, pow_succ]
      have h3 := mul_le_mul_of_nonneg_left ih h0
      have h5 : 0 ≤ β ^ j * β * |U K| := by positivity
      refine max_le ?_ ?_
      · nlinarith
      · linarith [hδ (K + j + 1) (by omega)]
  have hp := tendsto_pow_atTop_nhds_zero_of_lt_one h0 h1
  have l1 : Tendsto (fun j => β ^ j * |U K| + δ) atTop (𝓝 (0 * |U K| + δ)) := (hp.mul_const _).add_const _
  rw [zero_mul, zero_add] at l1
  obtain ⟨J, hJ⟩ := eventually_atTop.1 (l1.eventually (gt_mem_nhds (show δ < δ + η by linarith)))
  refine eventually_atTop.2 ⟨K + J, fun k hk => ?_⟩
  obtain ⟨j, rfl⟩ := Nat.exists_eq_add_of_le (show K ≤ k by omega)
  exact (up j).trans (hJ j (by omega)).le

end Lfa

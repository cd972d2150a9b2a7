import Mathlib.Topology.Algebra.InfiniteSum.Real
import Mathlib.Topology.Algebra.InfiniteSum.NatInt
import Mathlib.Analysis.SpecialFunctions.Exp
import Mathlib.Analysis.Normed.Group.InfiniteSum
import Mathlib.Tactic.Positivity

/-!
# Products and recurrences with varying rates
-/

namespace Lfa

open Filter Topology

theorem prod_le_exp {a : Nat → ℝ} {N : Nat} (h1 : ∀ k, N ≤ k → a k ≤ 1) (m : Nat) :
    ∏ j ∈ Finset.range m, (1 - a (N + j)) ≤ Real.exp (-∑ j ∈ Finset.range m, a (N + j)) := by
  rw [← Finset.sum_neg_distrib, Real.exp_sum]
  refine Finset.prod_le_prod (fun j _ => sub_nonneg.2 (h1 _ (Nat.le_add_right _ _))) fun j _ => ?_
  have := Real.add_one_le_exp (-a (N + j))
  linarith

/-- Rates with an infinite sum: the product of the factors vanishes. -/
theorem prod_tendsto_zero {a : Nat → ℝ} (h0 : ∀ k, 0 ≤ a k) {N : Nat} (h1 : ∀ k, N ≤ k → a k ≤ 1)
    (hs : ¬ Summable a) : Tendsto (fun m => ∏ j ∈ Finset.range m, (1 - a (N + j))) atTop (𝓝 0) := by
  have hs' : ¬ Summable fun j => a (N + j) := by
    simp only [add_comm N]
    rwa [summable_nat_add_iff N]
  have ht := (not_summable_iff_tendsto_nat_atTop_of_nonneg fun j => h0 _).1 hs'
  refine squeeze_zero (fun m => Finset.prod_nonneg fun j _ => sub_nonneg.2 (h1 _ (Nat.le_add_right _ _)))
    (prod_le_exp h1) (Real.tendsto_exp_neg_atTop_nhds_zero.comp ht)

/-- Weierstrass' product inequality. -/
theorem one_sub_sum_le_prod {a : Nat → ℝ} (h0 : ∀ k, 0 ≤ a k) (m : Nat)
    (h1 : ∑ j ∈ Finset.range m, a j ≤ 1) :
    1 - ∑ j ∈ Finset.range m, a j ≤ ∏ j ∈ Finset.range m, (1 - a j) := by
  induction m with
  | zero => simp
  | succ m ih =>
    rw [Finset.sum_range_succ] at h1 ⊢
    rw [Finset.prod_range_succ]
    have hs : 0 ≤ ∑ j ∈ Finset.range m, a j := Finset.sum_nonneg fun j _ => h0 j
    have ih := ih (by linarith [h0 m])
    have ham : a m ≤ 1 := by linarith
    nlinarith [h0 m, mul_le_mul_of_nonneg_right ih (sub_nonneg.2 ham)]

/-- Rates with a finite sum: from some point on the product of the factors stays away from zero. -/
theorem prod_bounded_below {a : Nat → ℝ} (h0 : ∀ k, 0 ≤ a k) (hs : Summable a) :
    ∃ N, ∀ m, 1 / 2 ≤ ∏ j ∈ Finset.range m, (1 - a (N + j)) := by
  have ht := tendsto_sum_nat_add a
  obtain ⟨N, hN⟩ := (ht.eventually (gt_mem_nhds (show (0 : ℝ) < 1 / 2 by norm_num))).exists
  refine ⟨N, fun m => ?_⟩
  have hs' : Summable fun j => a (j + N) := (summable_nat_add_iff N).2 hs
  have hle := hs'.sum_le_tsum (Finset.range m) fun j _ => h0 _
  have := one_sub_sum_le_prod (a := fun j => a (j + N)) (fun j => h0 _) m (by linarith)
  simp only [add_comm N]
  linarith

/-- An error that is multiplied by `1 - a k` vanishes exactly when the rates have an infinite sum. -/
theorem error_tendsto_iff {a e : Nat → ℝ} (h0 : ∀ k, 0 ≤ a k) (h1 : ∀ k, a k < 1)
    (he : ∀ k, e (k + 1) = (1 - a k) * e k) (hne : e 0 ≠ 0) :
    Tendsto e atTop (𝓝 0) ↔ ¬ Summable a := by
  have hsol : ∀ N m, e (N + m) = (∏ j ∈ Finset.range m, (1 - a (N + j))) * e N := by
    intro N m
    induction m with
    | zero => simp
    | succ m ih => rw [← add_assoc, he, ih, Finset.prod_range_succ]; ring
  constructor
  · intro ht hs
    obtain ⟨N, hN⟩ := prod_bounded_below h0 hs
    have hN0 : e N ≠ 0 := by
      have := hsol 0 N
      rw [zero_add] at this
      rw [this]
      refine mul_ne_zero (Finset.prod_ne_zero_iff.2 fun j _ => ?_) hne
      have := h1 (0 + j)
      linarith
    have ht' := (ht.comp (tendsto_add_atTop_nat N)).abs
    rw [abs_zero] at ht'
    obtain ⟨m, hm⟩ := (ht'.eventually (gt_mem_nhds (show (0 : ℝ) < 1 / 2 * |e N| by
      have := abs_pos.2 hN0
      positivity))).exists
    simp only [Function.comp] at hm
    rw [add_comm m N, hsol N m, abs_mul] at hm
    have h2 := hN m
    have h3 := le_abs_self (∏ j ∈ Finset.range m, (1 - a (N + j)))
    nlinarith [abs_nonneg (e N)]
  · intro hs
    have := (prod_tendsto_zero h0 (N := 0) (fun k _ => (h1 k).le) hs).mul_const (e 0)
    rw [zero_mul] at this
    refine this.congr fun m => ?_
    rw [← hsol 0 m, zero_add]

/-- `u` follows `c` at the rates `a`: if they have an infinite sum and `c` vanishes, so does `u`. -/
theorem follow_tendsto_zero {a c u : Nat → ℝ} (h0 : ∀ k, 0 ≤ a k) (h1 : ∀ᶠ k in atTop, a k ≤ 1)
    (hu0 : ∀ k, 0 ≤ u k) (hu : ∀ᶠ k in atTop, u (k + 1) ≤ (1 - a k) * u k + a k * c k)
    (hc : Tendsto c atTop (𝓝 0)) (hs : ¬ Summable a) : Tendsto u atTop (𝓝 0) := by
  rw [Metric.tendsto_atTop]
  intro ε hε
  obtain ⟨N, hN⟩ := eventually_atTop.1 (h1.and (hu.and (hc.eventually (gt_mem_nhds (half_pos hε)))))
  have hstep : ∀ m, u (N + m) - ε / 2 ≤ (∏ j ∈ Finset.range m, (1 - a (N + j))) * |u N - ε / 2| := by
    intro m
    induction m with
    | zero => simpa using le_abs_self (u N - ε / 2)
    | succ m ih =>
      obtain ⟨g1, g2, g3⟩ := hN (N + m) (Nat.le_add_right _ _)
      rw [Finset.prod_range_succ, ← add_assoc]
      have h4 := mul_le_mul_of_nonneg_left ih (sub_nonneg.2 g1)
      have h5 := mul_le_mul_of_nonneg_left g3.le (h0 (N + m))
      nlinarith
  have ht := (prod_tendsto_zero h0 (fun k hk => (hN k hk).1) hs).mul_const |u N - ε / 2|
  rw [zero_mul] at ht
  obtain ⟨M, hM⟩ := eventually_atTop.1 (ht.eventually (gt_mem_nhds (half_pos hε)))
  refine ⟨N + M, fun k hk => ?_⟩
  obtain ⟨m, rfl⟩ := Nat.exists_eq_add_of_le (le_trans (Nat.le_add_right N M) hk)
  rw [Real.dist_eq, sub_zero, abs_of_nonneg (hu0 _)]
  have := hstep m
  have := hM m (by omega)
  linarith

/-- The mean square error with rates `a` and noise of variance `s`. -/
theorem mean_square_iff {a v : Nat → ℝ} {s : ℝ} (h0 : ∀ k, 0 ≤ a k) (hs : 0 < s) (hv0 : 0 < v 0)
    (hv : ∀ k, v (k + 1) = (1 - a k) ^ 2 * v k + a k ^ 2 * s) :
    Tendsto v atTop (𝓝 0) ↔ Tendsto a atTop (𝓝 0) ∧ ¬ Summable a := by
  have hpos : ∀ k, 0 < v k := by
    intro k
    induction k with
    | zero => exact hv0
    | succ k ih =>
      rw [hv]
      by_cases h : a k = 1
      · rw [h]; nlinarith
      · have : 0 < (1 - a k) ^ 2 := by
          have : (1 - a k) ≠ 0 := fun hh => h (by linarith)
          positivity
        nlinarith [mul_pos this ih, mul_nonneg (sq_nonneg (a k)) hs.le]
  constructor
  · intro ht
    have hsq : Tendsto (fun k => a k ^ 2) atTop (𝓝 0) := by
      have h1 : Tendsto (fun k => v (k + 1) / s) atTop (𝓝 0) := by
        have := ((tendsto_add_atTop_iff_nat 1).2 ht).div_const s
        rwa [zero_div] at this
      refine squeeze_zero (fun k => sq_nonneg _) (fun k => ?_) h1
      rw [le_div_iff₀ hs, hv]
      nlinarith [mul_nonneg (sq_nonneg (1 - a k)) (hpos k).le]
    have ha : Tendsto a atTop (𝓝 0) := by
      have := hsq.sqrt
      rw [Real.sqrt_zero] at this
      exact this.congr fun k => Real.sqrt_sq (h0 k)
    refine ⟨ha, fun hsum => ?_⟩
    obtain ⟨N, hN⟩ := prod_bounded_below h0 hsum
    have hlow : ∀ m, (∏ j ∈ Finset.range m, (1 - a (N + j))) ^ 2 * v N ≤ v (N + m) := by
      intro m
      induction m with
      | zero => simp
      | succ m ih =>
        rw [← add_assoc, hv, Finset.prod_range_succ]
        have := mul_le_mul_of_nonneg_left ih (sq_nonneg (1 - a (N + m)))
        nlinarith [mul_nonneg (sq_nonneg (a (N + m))) hs.le]
    obtain ⟨m, hm⟩ := ((ht.comp (tendsto_add_atTop_nat N)).eventually
      (gt_mem_nhds (show (0 : ℝ) < 1 / 4 * v N by have := hpos N; positivity))).exists
    simp only [Function.comp] at hm
    have h1 := hlow m
    rw [add_comm N m] at h1
    have h2 : (1 / 2 : ℝ) ^ 2 ≤ (∏ j ∈ Finset.range m, (1 - a (N + j))) ^ 2 :=
      pow_le_pow_left₀ (by norm_num) (hN m) 2
    nlinarith [hpos N]
  · rintro ⟨ha, hsum⟩
    have h1 : ∀ᶠ k in atTop, a k ≤ 1 := (ha.eventually (gt_mem_nhds zero_lt_one)).mono fun _ h => le_of_lt h
    refine follow_tendsto_zero (c := fun k => a k * s) h0 h1 (fun k => (hpos k).le) ?_ ?_ hsum
    · refine h1.mono fun k hk => ?_
      rw [hv]
      have : (1 - a k) ^ 2 ≤ 1 - a k := by nlinarith [h0 k]
      nlinarith [mul_le_mul_of_nonneg_right this (hpos k).le]
    · have := ha.mul_const s
      rwa [zero_mul] at this

/-- The rates `b / (1 + b)` of implicit steps have a finite sum exactly when the rates `b` do. -/
theorem implicit_summable_iff {b : Nat → ℝ} (h0 : ∀ k, 0 ≤ b k) :
    Summable (fun k => b k / (1 + b k)) ↔ Summable b := by
  constructor
  · intro h
    have ht := h.tendsto_atTop_zero
    obtain ⟨N, hN⟩ := eventually_atTop.1 (ht.eventually (gt_mem_nhds (show (0 : ℝ) < 1 / 2 by norm_num)))
    rw [← summable_nat_add_iff N] at h ⊢
    refine Summable.of_nonneg_of_le (fun k => h0 _) (fun k => ?_) (h.mul_left 2)
    have h1 := hN (k + N) (Nat.le_add_left _ _)
    have h2 := h0 (k + N)
    rw [div_lt_iff₀ (by linarith)] at h1
    rw [mul_div_assoc', le_div_iff₀ (by linarith)]
    nlinarith
  · intro h
    refine Summable.of_nonneg_of_le (fun k => div_nonneg (h0 k) (by linarith [h0 k])) (fun k => ?_) h
    exact div_le_self (h0 k) (by linarith [h0 k])

theorem implicit_tendsto_iff {b : Nat → ℝ} (h0 : ∀ k, 0 ≤ b k) :
    Tendsto (fun k => b k / (1 + b k)) atTop (𝓝 0) ↔ Tendsto b atTop (𝓝 0) := by
  constructor
  · intro ht
    have h1 : Tendsto (fun k => 2 * (b k / (1 + b k))) atTop (𝓝 0) := by
      have := ht.const_mul 2
      rwa [mul_zero] at this
    refine squeeze_zero' (Eventually.of_forall h0) ?_ h1
    refine (ht.eventually (gt_mem_nhds (show (0 : ℝ) < 1 / 2 by norm_num))).mono fun k h1 => ?_
    have h2 := h0 k
    rw [div_lt_iff₀ (by linarith)] at h1
    rw [mul_div_assoc', le_div_iff₀ (by linarith)]
    nlinarith
  · intro ht
    exact squeeze_zero (fun k => div_nonneg (h0 k) (by linarith [h0 k]))
      (fun k => div_le_self (h0 k) (by linarith [h0 k])) ht

end Lfa

import Mathlib.Analysis.SpecificLimits.Normed
import Mathlib.Analysis.PSeries
import Mathlib.Analysis.Real.Sqrt

/-! # Limits of the error sequences of the stateful optimisers

Facts about real sequences only; nothing here mentions the model.
-/

namespace Lfa

open Filter Topology

/-- `eₜ₊₁ = r eₜ + uₜ` with `|r| < 1` and `u` geometrically small tends to zero. -/
theorem tendsto_of_first_order {r ρ U : ℝ} (hr : |r| ≤ ρ) (h1 : ρ < 1) {e u : ℕ → ℝ}
    (he : ∀ t, e (t + 1) = r * e t + u t) (hu : ∀ t, |u t| ≤ ρ ^ t * U) :
    Tendsto e atTop (𝓝 0) := by
  have h0 : 0 ≤ ρ := (abs_nonneg r).trans hr
  have hb : ∀ t, |e (t + 1)| ≤ ρ ^ t * (ρ * |e 0| + (t + 1) * U) := by
    intro t
    induction t with
    | zero =>
      rw [he 0]
      have := hu 0
      calc |r * e 0 + u 0| ≤ |r * e 0| + |u 0| := abs_add_le _ _
        _ ≤ ρ * |e 0| + U := by
          rw [abs_mul]
          have := mul_le_mul_of_nonneg_right hr (abs_nonneg (e 0))
          simp at *
          linarith
        _ = _ := by simp
    | succ t ih =>
      rw [he (t + 1)]
      calc |r * e (t + 1) + u (t + 1)| ≤ |r * e (t + 1)| + |u (t + 1)| := abs_add_le _ _
        _ ≤ ρ * (ρ ^ t * (ρ * |e 0| + (t + 1) * U)) + ρ ^ (t + 1) * U := by
          rw [abs_mul]
          exact add_le_add (mul_le_mul hr ih (abs_nonneg _) h0) (hu _)
        _ = _ := by push_cast; ring
  have hl : Tendsto (fun t : ℕ => ρ ^ t * (ρ * |e 0| + (t + 1) * U)) atTop (𝓝 0) := by
    have h2 := tendsto_pow_atTop_nhds_zero_of_lt_one h0 h1
    have h3 := tendsto_self_mul_const_pow_of_lt_one h0 h1
    have h4 := (h2.mul_const (ρ * |e 0| + U)).add (h3.mul_const U)
    simp only [zero_mul, add_zero] at h4
    refine h4.congr fun t => ?_
    ring
  exact (tendsto_add_atTop_iff_nat 1).1 (squeeze_zero_norm hb hl)

/-- A second-order linear recurrence inside the stability triangle tends to zero. -/
theorem tendsto_of_second_order {p m : ℝ} (hm : |m| < 1) (hp : |p| < 1 + m) {e : ℕ → ℝ}
    (he : ∀ t, e (t + 2) = p * e (t + 1) - m * e t) : Tendsto e atTop (𝓝 0) := by
  obtain ⟨m1, m2⟩ := abs_lt.1 hm
  obtain ⟨p1, p2⟩ := abs_lt.1 hp
  rcases le_or_gt 0 (p ^ 2 - 4 * m) with hd | hd
  · -- real roots
    set s := √(p ^ 2 - 4 * m) with hs
    have hs2 : s ^ 2 = p ^ 2 - 4 * m := Real.sq_sqrt hd
    have hs0 : 0 ≤ s := Real.sqrt_nonneg _
    have key : ∀ r q : ℝ, r + q = p → r * q = m → |r| < 1 := by
      intro r q h1 h2
      have a1 : 0 < (1 - r) * (1 - q) := by nlinarith
      have a2 : 0 < (1 + r) * (1 + q) := by nlinarith
      rw [abs_lt]
      constructor
      · by_contra hc
        have hc : r ≤ -1 := not_lt.1 hc
        have : 1 + q < 0 ∧ r < -1 := by
          constructor
          · by_contra h; nlinarith
          · rcases hc.lt_or_eq with h | h
            · exact h
            · rw [h] at a2; simp at a2
        nlinarith
      · by_contra hc
        have hc : 1 ≤ r := not_lt.1 hc
        have : 1 < q := by
          by_contra h
          nlinarith
        nlinarith
    have k1 := key ((p + s) / 2) ((p - s) / 2) (by ring) (by nlinarith)
    have k2 := key ((p - s) / 2) ((p + s) / 2) (by ring) (by nlinarith)
    set r := (p + s) / 2
    set q := (p - s) / 2
    have hpq : p = r + q := by simp only [r, q]; ring
    have hmq : m = r * q := by simp only [r, q]; nlinarith
    have hu : ∀ t, e (t + 1) - r * e t = q ^ t * (e 1 - r * e 0) := by
      intro t
      induction t with
      | zero => simp
      | succ t ih =>
        rw [he t, pow_succ, mul_right_comm, ← ih, hpq, hmq]
        ring
    apply tendsto_of_first_order (r := r) (ρ := max |r| |q|) (U := |e 1 - r * e 0|)
      (u := fun t => e (t + 1) - r * e t) (le_max_left _ _) (max_lt k1 k2)
    · intro t; ring
    · intro t
      rw [hu t, abs_mul, abs_pow]
      exact mul_le_mul_of_nonneg_right (pow_le_pow_left₀ (abs_nonneg _) (le_max_right _ _) _)
        (abs_nonneg _)
  · -- complex roots: a conserved quadratic form
    have hm0 : 0 < m := by nlinarith [sq_nonneg p]
    have hV : ∀ t, e (t + 1) ^ 2 - p * e (t + 1) * e t + m * e t ^ 2
        = m ^ t * (e 1 ^ 2 - p * e 1 * e 0 + m * e 0 ^ 2) := by
      intro t
      induction t with
      | zero => simp
      | succ t ih =>
        rw [he t, pow_succ m t, mul_right_comm (m ^ t) m, ← ih]
        ring
    have hc : 0 < m - p ^ 2 / 4 := by linarith
    have hb : ∀ t, e t ^ 2
        ≤ m ^ t * ((e 1 ^ 2 - p * e 1 * e 0 + m * e 0 ^ 2) / (m - p ^ 2 / 4)) := by
      intro t
      rw [← mul_div_assoc, ← hV t, le_div_iff₀ hc]
      nlinarith [sq_nonneg (e (t + 1) - p / 2 * e t)]
    have h2 := (tendsto_pow_atTop_nhds_zero_of_lt_one hm0.le m2).mul_const
      ((e 1 ^ 2 - p * e 1 * e 0 + m * e 0 ^ 2) / (m - p ^ 2 / 4))
    rw [zero_mul] at h2
    have h3 := squeeze_zero (fun t => sq_nonneg (e t)) hb h2
    have h4 := h3.sqrt
    rw [Real.sqrt_zero] at h4
    exact (tendsto_zero_iff_abs_tendsto_zero e).2 (h4.congr fun t => Real.sqrt_sq_eq_abs _)

/-- The heavy-ball recurrence started with zero velocity at a non-zero error tends to zero exactly
inside the stability triangle. -/
theorem heavy_ball_iff {a m : ℝ} {e : ℕ → ℝ} (h0 : e 0 ≠ 0) (h1 : e 1 = (1 - a) * e 0)
    (he : ∀ t, e (t + 2) = (1 + m - a) * e (t + 1) - m * e t) :
    Tendsto e atTop (𝓝 0) ↔ |m| < 1 ∧ 0 < a ∧ a < 2 * (1 + m) := by
  constructor
  swap
  · rintro ⟨hm, ha, hb⟩
    exact tendsto_of_second_order hm (abs_lt.2 ⟨by linarith, by linarith⟩) he
  intro ht
  have ht1 := (tendsto_add_atTop_iff_nat 1).2 ht
  by_cases ha : a = 0
  · exfalso
    have : ∀ t, e t = e 0 ∧ e (t + 1) = e 0 := by
      intro t
      induction t with
      | zero => exact ⟨rfl, by rw [h1, ha]; ring⟩
      | succ t ih => exact ⟨ih.2, by rw [he t, ih.1, ih.2, ha]; ring⟩
    have h2 := tendsto_nhds_unique ht (tendsto_const_nhds.congr fun t => (this t).1.symm)
    exact h0 h2.symm
  have hm : |m| < 1 := by
    by_contra hc
    have hc : 1 ≤ |m| := not_lt.1 hc
    have hV : ∀ t, e (t + 1) ^ 2 - (1 + m - a) * e (t + 1) * e t + m * e t ^ 2
        = m ^ t * (m * a * e 0 ^ 2) := by
      intro t
      induction t with
      | zero => rw [h1]; ring
      | succ t ih =>
        rw [he t, pow_succ m t, mul_right_comm (m ^ t) m, ← ih]
        ring
    have hl := ((ht1.pow 2).sub ((ht1.const_mul (1 + m - a)).mul ht)).add ((ht.pow 2).const_mul m)
    have hl2 := (hl.congr hV).abs
    have hm0 : m ≠ 0 := by rintro rfl; norm_num at hc
    have hpos : 0 < |m * a * e 0 ^ 2| := abs_pos.2 (mul_ne_zero (mul_ne_zero hm0 ha) (pow_ne_zero 2 h0))
    have := ge_of_tendsto' hl2 (b := |m * a * e 0 ^ 2|) fun t => by
      rw [abs_mul (m ^ t), abs_pow m]
      exact le_mul_of_one_le_left hpos.le (one_le_pow₀ hc)
    rw [show |(0 : ℝ) ^ 2 - (1 + m - a) * 0 * 0 + m * 0 ^ 2| = 0 by simp] at this
    linarith
  obtain ⟨m1, m2⟩ := abs_lt.1 hm
  refine ⟨hm, ?_⟩
  by_contra hc
  -- a root outside the unit circle
  have hroot : ∃ r q : ℝ, r + q = 1 + m - a ∧ r * q = m ∧ 1 ≤ |r| := by
    have hd : (1 - m) ^ 2 ≤ (1 + m - a) ^ 2 - 4 * m := by
      by_cases h : 0 < a
      · have : 2 * (1 + m) ≤ a := by
          by_contra h'
          exact hc ⟨h, not_le.1 h'⟩
        nlinarith
      · have : a ≤ 0 := not_lt.1 h
        nlinarith
    set s := √((1 + m - a) ^ 2 - 4 * m) with hs
    have hs2 : s ^ 2 = (1 + m - a) ^ 2 - 4 * m := Real.sq_sqrt ((sq_nonneg _).trans hd)
    have hs1 : 1 - m ≤ s := Real.le_sqrt_of_sq_le hd
    by_cases h : 0 < a
    · have : 2 * (1 + m) ≤ a := by
        by_contra h'
        exact hc ⟨h, not_le.1 h'⟩
      refine ⟨(1 + m - a - s) / 2, (1 + m - a + s) / 2, by ring, by nlinarith, ?_⟩
      rw [abs_of_nonpos (by linarith)]
      linarith
    · have : a ≤ 0 := not_lt.1 h
      refine ⟨(1 + m - a + s) / 2, (1 + m - a - s) / 2, by ring, by nlinarith, ?_⟩
      rw [abs_of_nonneg (by linarith)]
      linarith
  obtain ⟨r, q, h2, h3, h4⟩ := hroot
  have hu : ∀ t, e (t + 1) - q * e t = r ^ t * (r * (1 - q) * e 0) := by
    intro t
    induction t with
    | zero => rw [h1, pow_zero, one_mul, show (1 - a) = r + q - r * q by rw [h2, h3]; ring]; ring
    | succ t ih =>
      rw [he t, pow_succ, mul_right_comm, ← ih, ← h2, ← h3]
      ring
  have hr0 : r ≠ 0 := by rintro rfl; norm_num at h4
  have hq1 : q ≠ 1 := by
    rintro rfl
    rw [mul_one] at h3
    rw [h3] at h4
    linarith
  have hl := ((ht1.sub (ht.const_mul q)).congr hu).abs
  have hpos : 0 < |r * (1 - q) * e 0| :=
    abs_pos.2 (mul_ne_zero (mul_ne_zero hr0 (sub_ne_zero.2 hq1.symm)) h0)
  have := ge_of_tendsto' hl (b := |r * (1 - q) * e 0|) fun t => by
    rw [abs_mul (r ^ t), abs_pow r]
    exact le_mul_of_one_le_left hpos.le (one_le_pow₀ h4)
  rw [show |(0 : ℝ) - q * 0| = 0 by simp] at this
  linarith

/-- A recurrence `eₜ₊₁ = (1 - κₜ) eₜ` whose gains are `∑ᵢ cᵢ / (dᵢ √Tₜ + ε)` of the summed squared
errors `Tₜ = ∑_{s ≤ t} eₛ²` tends to zero. -/
theorem adagrad_tendsto {n : ℕ} {c d : ℕ → ℝ} {ε : ℝ} (hε : 0 < ε) (hc : ∀ i < n, 0 ≤ c i)
    (hd : ∀ i < n, 0 ≤ d i) (hcd : ∀ i < n, d i = 0 → c i = 0) (hn : ∃ i < n, 0 < c i) {e : ℕ → ℝ}
    (he : ∀ t, e (t + 1) = (1 - ∑ i ∈ Finset.range n,
      c i / (d i * √(∑ s ∈ Finset.range (t + 1), e s ^ 2) + ε)) * e t) :
    Tendsto e atTop (𝓝 0) := by
  set T : ℕ → ℝ := fun t => ∑ s ∈ Finset.range t, e s ^ 2 with hT
  set κ : ℕ → ℝ := fun t => ∑ i ∈ Finset.range n, c i / (d i * √(T (t + 1)) + ε) with hκ
  have he : ∀ t, e (t + 1) = (1 - κ t) * e t := he
  have T0 : ∀ t, 0 ≤ T t := fun t => Finset.sum_nonneg fun _ _ => sq_nonneg _
  have Tmono : Monotone T := monotone_nat_of_le_succ fun t => by
    simp only [hT, Finset.sum_range_succ]
    linarith [sq_nonneg (e t)]
  rcases tendsto_atTop_of_monotone Tmono with hinf | ⟨l, hl⟩
  swap
  · -- the squared errors are summable
    have : HasSum (fun s => e s ^ 2) l :=
      (hasSum_iff_tendsto_nat_of_nonneg (fun s => sq_nonneg (e s)) l).2 hl
    have h4 := this.summable.tendsto_atTop_zero.sqrt
    rw [Real.sqrt_zero] at h4
    exact (tendsto_zero_iff_abs_tendsto_zero e).2 (h4.congr fun t => Real.sqrt_sq_eq_abs _)
  · have hsq : Tendsto (fun t => √(T (t + 1))) atTop atTop :=
      Real.tendsto_sqrt_atTop.comp ((tendsto_add_atTop_iff_nat 1).2 hinf)
    have hκ0 : Tendsto κ atTop (𝓝 0) := by
      rw [show (0 : ℝ) = ∑ i ∈ Finset.range n, (0 : ℝ) by simp]
      refine tendsto_finsetSum _ fun i hi => ?_
      have hi := Finset.mem_range.1 hi
      rcases (hd i hi).eq_or_lt with h | h
      · rw [hcd i hi h.symm]
        simp
      · exact tendsto_const_nhds.div_atTop
          (tendsto_atTop_add_const_right _ _ (hsq.const_mul_atTop h))
    have hκp : ∀ t, 0 ≤ κ t := fun t => Finset.sum_nonneg fun i hi =>
      div_nonneg (hc i (Finset.mem_range.1 hi)) (add_nonneg (mul_nonneg (hd i (Finset.mem_range.1 hi))
        (Real.sqrt_nonneg _)) hε.le)
    obtain ⟨t₀, ht₀⟩ := eventually_atTop.1 (hκ0.eventually (gt_mem_nhds one_pos))
    have hstep : ∀ t ≥ t₀, |e (t + 1)| = |e t| - κ t * |e t| := by
      intro t ht
      rw [he t, abs_mul, abs_of_pos (sub_pos.2 (ht₀ t ht))]
      ring
    have hanti : Antitone fun k => |e (k + t₀)| := antitone_nat_of_succ_le fun k => by
      rw [show k + 1 + t₀ = k + t₀ + 1 by ring, hstep (k + t₀) (by omega)]
      linarith [mul_nonneg (hκp (k + t₀)) (abs_nonneg (e (k + t₀)))]
    have hbdd : BddBelow (Set.range fun k => |e (k + t₀)|) :=
      ⟨0, by rintro _ ⟨k, rfl⟩; exact abs_nonneg _⟩
    have hlim := tendsto_atTop_ciInf hanti hbdd
    set L := ⨅ k, |e (k + t₀)| with hL
    have hLle : ∀ k, L ≤ |e (k + t₀)| := fun k => ciInf_le hbdd k
    have hL0 : 0 ≤ L := le_ciInf fun k => abs_nonneg _
    rcases hL0.eq_or_lt with h | h
    · rw [← h] at hlim
      exact (tendsto_zero_iff_abs_tendsto_zero e).2 ((tendsto_add_atTop_iff_nat t₀).1 hlim)
    exfalso
    -- the gains are summable
    have hsum : ∀ K, L * ∑ k ∈ Finset.range K, κ (k + t₀) ≤ |e t₀| := by
      intro K
      have : L * ∑ k ∈ Finset.range K, κ (k + t₀) ≤ |e t₀| - |e (K + t₀)| := by
        induction K with
        | zero => simp
        | succ K ih =>
          rw [Finset.sum_range_succ, mul_add, show K + 1 + t₀ = K + t₀ + 1 by ring,
            hstep (K + t₀) (by omega)]
          have := mul_le_mul_of_nonneg_left (hLle K) (hκp (K + t₀))
          linarith
      linarith [abs_nonneg (e (K + t₀))]
    -- but they dominate a harmonic series
    obtain ⟨i, hi, hci⟩ := hn
    have hdi : 0 < d i := (hd i hi).lt_of_ne fun h => hci.ne' (hcd i hi h.symm)
    have hTb : ∀ k, T (k + t₀) ≤ T t₀ + k * |e t₀| ^ 2 := by
      intro k
      induction k with
      | zero => simp
      | succ k ih =>
        have h1 : T (k + 1 + t₀) = T (k + t₀) + e (k + t₀) ^ 2 := by
          rw [show k + 1 + t₀ = k + t₀ + 1 by ring]
          simp only [hT, Finset.sum_range_succ]
        have h2 : |e (k + t₀)| ≤ |e (0 + t₀)| := hanti (Nat.zero_le k)
        rw [zero_add] at h2
        have h3 := pow_le_pow_left₀ (abs_nonneg _) h2 2
        rw [sq_abs (e (k + t₀))] at h3
        rw [h1]; push_cast
        linarith
    set A := d i * (1 + T t₀ + |e t₀| ^ 2) + ε with hA
    have hA0 : 0 < A := by
      have := T0 t₀
      have : 0 ≤ d i * (1 + T t₀ + |e t₀| ^ 2) := by positivity
      linarith
    have hlow : ∀ k : ℕ, c i / A * (1 / ((k : ℝ) + 1)) ≤ κ (k + t₀) := by
      intro k
      have hk : (0 : ℝ) ≤ k := Nat.cast_nonneg k
      have h1 : √(T (k + t₀ + 1)) ≤ (1 + T t₀ + |e t₀| ^ 2) * (k + 1) := by
        have h2 := hTb (k + 1)
        rw [show k + 1 + t₀ = k + t₀ + 1 by ring] at h2
        push_cast at h2
        have h3 : √(T (k + t₀ + 1)) ≤ 1 + T (k + t₀ + 1) := by
          rw [Real.sqrt_le_left (by linarith [T0 (k + t₀ + 1)])]
          nlinarith [T0 (k + t₀ + 1)]
        have h4 := mul_nonneg (T0 t₀) hk
        nlinarith
      have h2 : d i * √(T (k + t₀ + 1)) + ε ≤ A * (k + 1) := by
        have := mul_le_mul_of_nonneg_left h1 hdi.le
        have := mul_nonneg hε.le hk
        rw [hA]
        linarith
      have h3 : 0 < d i * √(T (k + t₀ + 1)) + ε := by
        have := mul_nonneg hdi.le (Real.sqrt_nonneg (T (k + t₀ + 1)))
        linarith
      calc c i / A * (1 / ((k : ℝ) + 1)) = c i / (A * (k + 1)) := by rw [div_mul_div_comm, mul_one]
        _ ≤ c i / (d i * √(T (k + t₀ + 1)) + ε) := div_le_div_of_nonneg_left hci.le h3 h2
        _ ≤ κ (k + t₀) := Finset.single_le_sum
          (f := fun i => c i / (d i * √(T (k + t₀ + 1)) + ε))
          (fun j hj => div_nonneg (hc j (Finset.mem_range.1 hj)) (add_nonneg
            (mul_nonneg (hd j (Finset.mem_range.1 hj)) (Real.sqrt_nonneg _)) hε.le))
          (Finset.mem_range.2 hi)
    have hharm := Real.tendsto_sum_range_one_div_nat_succ_atTop
    obtain ⟨K, hK⟩ := (hharm.eventually_gt_atTop (|e t₀| / L / (c i / A))).exists
    have h5 : c i / A * ∑ k ∈ Finset.range K, 1 / ((k : ℝ) + 1)
        ≤ ∑ k ∈ Finset.range K, κ (k + t₀) := by
      rw [Finset.mul_sum]
      exact Finset.sum_le_sum fun k _ => hlow k
    have h6 := hsum K
    have hcA : 0 < c i / A := div_pos hci hA0
    rw [div_lt_iff₀ hcA, div_lt_iff₀ h] at hK
    nlinarith

end Lfa

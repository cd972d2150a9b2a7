import Verif.Proofs.Recurrence

/-!
# Several error sequences sharing one adaptive gain

The delayed version of `adagrad_tendsto`: `m` error sequences are listed in turn, and the gain of each step
depends on the squares of all errors so far. Facts about real sequences only.
-/

namespace Lfa

open Filter Topology

/-- A recurrence `e (s + m) = (1 - κ s) e s` whose gains are `∑ᵢ cᵢ / (dᵢ √T + ε)` of the summed squared errors
`T = ∑_{t ≤ s} e t²` of all sequences tends to zero. -/
theorem adagrad_delay_tendsto {m n : ℕ} (hm : 0 < m) {c d : ℕ → ℝ} {ε : ℝ} (hε : 0 < ε) (hc : ∀ i < n, 0 ≤ c i)
    (hd : ∀ i < n, 0 ≤ d i) (hcd : ∀ i < n, d i = 0 → c i = 0) (hn : ∃ i < n, 0 < c i) {e : ℕ → ℝ}
    (he : ∀ s, e (s + m) = (1 - ∑ i ∈ Finset.range n,
      c i / (d i * √(∑ t ∈ Finset.range (s + 1), e t ^ 2) + ε)) * e s) :
    Tendsto e atTop (𝓝 0) := by
  set T : ℕ → ℝ := fun t => ∑ s ∈ Finset.range t, e s ^ 2 with hT
  set κ : ℕ → ℝ := fun t => ∑ i ∈ Finset.range n, c i / (d i * √(T (t + 1)) + ε) with hκ
  have he : ∀ t, e (t + m) = (1 - κ t) * e t := he
  have T0 : ∀ t, 0 ≤ T t := fun t => Finset.sum_nonneg fun _ _ => sq_nonneg _
  have Tmono : Monotone T := monotone_nat_of_le_succ fun t => by
    simp only [hT, Finset.sum_range_succ]
    linarith [sq_nonneg (e t)]
  rcases tendsto_atTop_of_monotone Tmono with hinf | ⟨l, hl⟩
  swap
  · -- the squared errors are summable
    have : HasSum (fun s => e s ^ 2) l :=
      (hasSum_iff_tendsto_nat_of_nonneg (fun s => sq_nonneg (e s)) l).2 hl
    have h4 := this.summable.tendsto_atTop_zero.sqrt
    rw [Real.sqrt_zero] at h4
    exact (tendsto_zero_iff_abs_tendsto_zero e).2 (h4.congr fun t => Real.sqrt_sq_eq_abs _)
  · have hsq : Tendsto (fun t => √(T (t + 1))) atTop atTop :=
      Real.tendsto_sqrt_atTop.comp ((tendsto_add_atTop_iff_nat 1).2 hinf)
    have hκ0 : Tendsto κ atTop (𝓝 0) := by
      rw [show (0 : ℝ) = ∑ i ∈ Finset.range n, (0 : ℝ) by simp]
      refine tendsto_finsetSum _ fun i hi => ?_
      have hi := Finset.mem_range.1 hi
      rcases (hd i hi).eq_or_lt with h | h
      · rw [hcd i hi h.symm]
        simp
      · exact tendsto_const_nhds.div_atTop
          (tendsto_atTop_add_const_right _ _ (hsq.const_mul_atTop h))
    have hκp : ∀ t, 0 ≤ κ t := fun t => Finset.sum_nonneg fun i hi =>
      div_nonneg (hc i (Finset.mem_range.1 hi)) (add_nonneg (mul_nonneg (hd i (Finset.mem_range.1 hi))
        (Real.sqrt_nonneg _)) hε.le)
    obtain ⟨t₀, ht₀⟩ := eventually_atTop.1 (hκ0.eventually (gt_mem_nhds one_pos))
    have hstep : ∀ t ≥ t₀, |e (t + m)| = |e t| - κ t * |e t| := by
      intro t ht
      rw [he t, abs_mul, abs_of_pos (sub_pos.2 (ht₀ t ht))]
      ring
    -- all errors are bounded from there on
    set M := ∑ j ∈ Finset.range m, |e (t₀ + j)| with hM
    have hM0 : 0 ≤ M := Finset.sum_nonneg fun _ _ => abs_nonneg _
    have hbound : ∀ s, |e (t₀ + s)| ≤ M := by
      intro s
      induction s using Nat.strong_induction_on with
      | _ s ih =>
        rcases Nat.lt_or_ge s m with h | h
        · exact Finset.single_le_sum (f := fun j => |e (t₀ + j)|) (fun _ _ => abs_nonneg _) (Finset.mem_range.2 h)
        · have h1 := hstep (t₀ + (s - m)) (by omega)
          rw [show t₀ + (s - m) + m = t₀ + s by omega] at h1
          have h2 := ih (s - m) (by omega)
          linarith [mul_nonneg (hκp (t₀ + (s - m))) (abs_nonneg (e (t₀ + (s - m))))]
    have hTb : ∀ k, T (t₀ + k) ≤ T t₀ + k * M ^ 2 := by
      intro k
      induction k with
      | zero => simp
      | succ k ih =>
        have h1 : T (t₀ + (k + 1)) = T (t₀ + k) + e (t₀ + k) ^ 2 := by
          rw [show t₀ + (k + 1) = t₀ + k + 1 by ring]
          simp only [hT, Finset.sum_range_succ]
        have h3 := pow_le_pow_left₀ (abs_nonneg _) (hbound k) 2
        rw [sq_abs (e (t₀ + k))] at h3
        rw [h1]; push_cast
        linarith
    -- each sequence by itself tends to zero
    have each : ∀ j < m, Tendsto (fun k => e (t₀ + j + m * k)) atTop (𝓝 0) := by
      intro j hj
      have hnext : ∀ k, t₀ + j + m * (k + 1) = t₀ + j + m * k + m := fun k => by ring
      have hanti : Antitone fun k => |e (t₀ + j + m * k)| := antitone_nat_of_succ_le fun k => by
        rw [hnext, hstep (t₀ + j + m * k) (by omega)]
        linarith [mul_nonneg (hκp (t₀ + j + m * k)) (abs_nonneg (e (t₀ + j + m * k)))]
      have hbdd : BddBelow (Set.range fun k => |e (t₀ + j + m * k)|) :=
        ⟨0, by rintro _ ⟨k, rfl⟩; exact abs_nonneg _⟩
      have hlim := tendsto_atTop_ciInf hanti hbdd
      set L := ⨅ k, |e (t₀ + j + m * k)| with hL
      have hLle : ∀ k, L ≤ |e (t₀ + j + m * k)| := fun k => ciInf_le hbdd k
      have hL0 : 0 ≤ L := le_ciInf fun k => abs_nonneg _
      rcases hL0.eq_or_lt with h | h
      · rw [← h] at hlim
        exact (tendsto_zero_iff_abs_tendsto_zero _).2 hlim
      exfalso
      have hsum : ∀ K, L * ∑ k ∈ Finset.range K, κ (t₀ + j + m * k) ≤ M := by
        intro K
        have : L * ∑ k ∈ Finset.range K, κ (t₀ + j + m * k) ≤ |e (t₀ + j)| - |e (t₀ + j + m * K)| := by
          induction K with
          | zero => simp
          | succ K ih =>
            rw [Finset.sum_range_succ, mul_add, hnext, hstep (t₀ + j + m * K) (by omega)]
            have := mul_le_mul_of_nonneg_left (hLle K) (hκp (t₀ + j + m * K))
            linarith
        linarith [abs_nonneg (e (t₀ + j + m * K)), hbound j]
      obtain ⟨i, hi, hci⟩ := hn
      have hdi : 0 < d i := (hd i hi).lt_of_ne fun h => hci.ne' (hcd i hi h.symm)
      have hm1 : (1 : ℝ) ≤ m := by exact_mod_cast hm
      have hjm : (j : ℝ) + 1 ≤ m := by exact_mod_cast hj
      set A := d i * (1 + T t₀ + m * M ^ 2) + ε with hA
      have hA0 : 0 < A := by
        have := T0 t₀
        have : 0 ≤ d i * (1 + T t₀ + m * M ^ 2) := by positivity
        linarith
      have hlow : ∀ k : ℕ, c i / A * (1 / ((k : ℝ) + 1)) ≤ κ (t₀ + j + m * k) := by
        intro k
        have hk : (0 : ℝ) ≤ k := Nat.cast_nonneg k
        have h1 : √(T (t₀ + j + m * k + 1)) ≤ (1 + T t₀ + m * M ^ 2) * (k + 1) := by
          have h2 := hTb (j + m * k + 1)
          rw [show t₀ + (j + m * k + 1) = t₀ + j + m * k + 1 by ring] at h2
          push_cast at h2
          have h3 : √(T (t₀ + j + m * k + 1)) ≤ 1 + T (t₀ + j + m * k + 1) := by
            rw [Real.sqrt_le_left (by linarith [T0 (t₀ + j + m * k + 1)])]
            nlinarith [T0 (t₀ + j + m * k + 1)]
          have h4 := mul_nonneg (T0 t₀) hk
          have h5 : ((j : ℝ) + m * k + 1) * M ^ 2 ≤ (m * (k + 1)) * M ^ 2 :=
            mul_le_mul_of_nonneg_right (by linarith) (sq_nonneg M)
          linarith
        have h2 : d i * √(T (t₀ + j + m * k + 1)) + ε ≤ A * (k + 1) := by
          have := mul_le_mul_of_nonneg_left h1 hdi.le
          have := mul_nonneg hε.le hk
          rw [hA]
          linarith
        have h3 : 0 < d i * √(T (t₀ + j + m * k + 1)) + ε := by
          have := mul_nonneg hdi.le (Real.sqrt_nonneg (T (t₀ + j + m * k + 1)))
          linarith
        calc c i / A * (1 / ((k : ℝ) + 1)) = c i / (A * (k + 1)) := by rw [div_mul_div_comm, mul_one]
          _ ≤ c i / (d i * √(T (t₀ + j + m * k + 1)) + ε) := div_le_div_of_nonneg_left hci.le h3 h2
          _ ≤ κ (t₀ + j + m * k) := Finset.single_le_sum
            (f := fun i => c i / (d i * √(T (t₀ + j + m * k + 1)) + ε))
            (fun j hj => div_nonneg (hc j (Finset.mem_range.1 hj)) (add_nonneg
              (mul_nonneg (hd j (Finset.mem_range.1 hj)) (Real.sqrt_nonneg _)) hε.le))
            (Finset.mem_range.2 hi)
      have hharm := Real.tendsto_sum_range_one_div_nat_succ_atTop
      obtain ⟨K, hK⟩ := (hharm.eventually_gt_atTop (M / L / (c i / A))).exists
      have h5 : c i / A * ∑ k ∈ Finset.range K, 1 / ((k : ℝ) + 1)
          ≤ ∑ k ∈ Finset.range K, κ (t₀ + j + m * k) := by
        rw [Finset.mul_sum]
        exact Finset.sum_le_sum fun k _ => hlow k
      have h6 := hsum K
      have hcA : 0 < c i / A := div_pos hci hA0
      rw [div_lt_iff₀ hcA, div_lt_iff₀ h] at hK
      nlinarith
    rw [Metric.tendsto_atTop]
    intro δ hδ
    have h1 : ∀ j : Fin m, ∃ N, ∀ k ≥ N, |e (t₀ + j + m * k)| < δ := by
      intro j
      obtain ⟨N, hN⟩ := Metric.tendsto_atTop.1 (each j j.2) δ hδ
      exact ⟨N, fun k hk => by simpa [Real.dist_eq] using hN k hk⟩
    choose N hN using h1
    refine ⟨t₀ + m * (∑ j, N j), fun s hs => ?_⟩
    have hlt := Nat.mod_lt (s - t₀) hm
    have h2 : ∑ j, N j ≤ (s - t₀) / m := (Nat.le_div_iff_mul_le hm).2 (by rw [Nat.mul_comm]; omega)
    have h3 : N ⟨(s - t₀) % m, hlt⟩ ≤ ∑ j, N j := Finset.single_le_sum (fun _ _ => Nat.zero_le _) (Finset.mem_univ _)
    have h4 := hN ⟨(s - t₀) % m, hlt⟩ ((s - t₀) / m) (h3.trans h2)
    rw [Real.dist_eq, sub_zero]
    have h5 := Nat.div_add_mod (s - t₀) m
    have h6 : t₀ + (s - t₀) % m + m * ((s - t₀) / m) = s := by omega
    rw [← h6]
    exact h4

end Lfa

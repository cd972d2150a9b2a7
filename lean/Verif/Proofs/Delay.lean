import Mathlib.Analysis.SpecificLimits.Normed
import Mathlib.Analysis.SpecialFunctions.Trigonometric.Basic
import Mathlib.Topology.Order.IntermediateValue
import Mathlib.Topology.Algebra.InfiniteSum.Real

/-!
# One velocity shared by several error sequences

`E` lists the errors of `m` sequences in turn, `U` is the velocity all of them share:
`U (s + 1) = μ U s + c E s` and `E (s + m) = E s - U (s + 1)`. Facts about real sequences only.
-/

namespace Lfa

open Filter Topology

/-- Shared heavy-ball recurrence. -/
structure Shared (m : Nat) (μ c : ℝ) (E U : Nat → ℝ) : Prop where
  velocity : ∀ s, U (s + 1) = μ * U s + c * E s
  error : ∀ s, E (s + m) = E s - U (s + 1)

theorem tendsto_of_decrease {W a : Nat → ℝ} (hW : ∀ s, 0 ≤ W s) (ha : ∀ s, 0 ≤ a s)
    (h : ∀ s, W (s + 1) + a s ≤ W s) : Tendsto a atTop (𝓝 0) := by
  have hs : ∀ n, ∑ i ∈ Finset.range n, a i ≤ W 0 - W n := by
    intro n
    induction n with
    | zero => simp
    | succ n ih => rw [Finset.sum_range_succ]; linarith [h n]
  exact (summable_of_sum_range_le ha fun n => (hs n).trans (by linarith [hW n])).tendsto_atTop_zero

theorem tendsto_zero_of_sq {a : Nat → ℝ} (h : Tendsto (fun s => a s ^ 2) atTop (𝓝 0)) :
    Tendsto a atTop (𝓝 0) := by
  have h1 := h.sqrt
  rw [Real.sqrt_zero] at h1
  simp only [Real.sqrt_sq_eq_abs] at h1
  exact (tendsto_zero_iff_abs_tendsto_zero a).2 h1

section
variable {m : Nat} {μ c : ℝ} {E U : Nat → ℝ}

/-- Whatever the number of sequences, they all converge if `0 < c < 2 (1 - |μ|)`. -/
theorem Shared.converges (h : Shared m μ c E U) (h0 : 0 < c) (h1 : c < 2 * (1 - |μ|)) :
    Tendsto E atTop (𝓝 0) ∧ Tendsto U atTop (𝓝 0) := by
  have hU : Tendsto U atTop (𝓝 0) := by
    let γ : ℝ := (2 - c) / (2 * c)
    let η : ℝ := γ - |μ| / c
    have hη : 0 < η := by
      show 0 < (2 - c) / (2 * c) - |μ| / c
      have : (2 - c) / (2 * c) - |μ| / c = (2 - c - 2 * |μ|) / (2 * c) := by field_simp
      rw [this]
      exact div_pos (by linarith) (by linarith)
    have hγ : 0 ≤ γ := by
      have : 0 ≤ |μ| / c := div_nonneg (abs_nonneg _) h0.le
      have : 0 < γ - |μ| / c := hη
      linarith
    let W : Nat → ℝ := fun s => ∑ i ∈ Finset.range m, E (s + i) ^ 2 + γ * U s ^ 2
    have hW : ∀ s, 0 ≤ W s := fun s =>
      add_nonneg (Finset.sum_nonneg fun i _ => sq_nonneg _) (mul_nonneg hγ (sq_nonneg _))
    have hs : ∀ s, ∑ i ∈ Finset.range m, E (s + 1 + i) ^ 2 + E s ^ 2
        = ∑ i ∈ Finset.range m, E (s + i) ^ 2 + E (s + m) ^ 2 := by
      intro s
      have a1 := Finset.sum_range_succ (fun i => E (s + i) ^ 2) m
      have a2 := Finset.sum_range_succ' (fun i => E (s + i) ^ 2) m
      rw [← a1, a2, Nat.add_zero]
      congr 1
      refine Finset.sum_congr rfl fun i _ => ?_
      rw [show s + 1 + i = s + (i + 1) by omega]
    have dec : ∀ s, W (s + 1) + η * U s ^ 2 ≤ W s := by
      intro s
      have e1 : E s = (U (s + 1) - μ * U s) / c := by
        rw [h.velocity s]; field_simp; ring
      have e2 : E (s + m) ^ 2 - E s ^ 2 = U (s + 1) ^ 2 - 2 / c * (U (s + 1) ^ 2 - μ * U s * U (s + 1)) := by
        rw [h.error s, e1]; field_simp; ring
      have e3 := hs s
      have e4 : 2 / c = 1 + 2 * γ := by
        show 2 / c = 1 + 2 * ((2 - c) / (2 * c))
        field_simp; ring
      have e5 : 2 / c * μ * U s * U (s + 1) ≤ |μ| / c * (U s ^ 2 + U (s + 1) ^ 2) := by
        have hp : 2 * (U s * U (s + 1)) * μ ≤ |μ| * (U s ^ 2 + U (s + 1) ^ 2) := by
          rcases abs_cases μ with ⟨ha, hb⟩ | ⟨ha, hb⟩
          · rw [ha]; nlinarith [mul_nonneg hb (sq_nonneg (U s - U (s + 1)))]
          · rw [ha]; nlinarith [mul_nonneg (neg_nonneg.2 hb.le) (sq_nonneg (U s + U (s + 1)))]
        calc 2 / c * μ * U s * U (s + 1) = (2 * (U s * U (s + 1)) * μ) / c := by ring
          _ ≤ (|μ| * (U s ^ 2 + U (s + 1) ^ 2)) / c := div_le_div_of_nonneg_right hp h0.le
          _ = _ := by ring
      show ∑ i ∈ Finset.range m, E (s + 1 + i) ^ 2 + γ * U (s + 1) ^ 2 + (γ - |μ| / c) * U s ^ 2
        ≤ ∑ i ∈ Finset.range m, E (s + i) ^ 2 + γ * U s ^ 2
      have e6 : 2 / c * (U (s + 1) ^ 2 - μ * U s * U (s + 1)) =
          (1 + 2 * γ) * U (s + 1) ^ 2 - 2 / c * μ * U s * U (s + 1) := by rw [← e4]; ring
      have e7 : 0 ≤ (γ - |μ| / c) * U (s + 1) ^ 2 := mul_nonneg hη.le (sq_nonneg _)
      nlinarith
    have h2 := tendsto_of_decrease hW (fun s => mul_nonneg hη.le (sq_nonneg (U s))) dec
    have h3 := h2.const_mul η⁻¹
    rw [mul_zero] at h3
    refine tendsto_zero_of_sq (h3.congr fun s => ?_)
    rw [← mul_assoc, inv_mul_cancel₀ hη.ne', one_mul]
  refine ⟨?_, hU⟩
  have h2 := ((((tendsto_add_atTop_iff_nat 1).2 hU).sub (hU.const_mul μ)).const_mul c⁻¹)
  rw [mul_zero, sub_zero, mul_zero] at h2
  refine h2.congr fun s => ?_
  rw [h.velocity s]; field_simp; ring

/-- The errors alone. -/
theorem Shared.recurrence (h : Shared m μ c E U) (s : Nat) :
    E (s + m + 1) = μ * E (s + m) + (1 - c) * E (s + 1) - μ * E s := by
  have a1 := h.error s
  have a2 := h.error (s + 1)
  have a3 := h.velocity (s + 1)
  rw [show s + 1 + m = s + m + 1 by omega] at a2
  linear_combination a2 - a3 - μ * a1

/-- The energy of two sequences. -/
noncomputable def energy (μ c : ℝ) (E : Nat → ℝ) (s : Nat) : ℝ :=
  c / 2 * (E s + E (s + 2) - 2 * μ * E (s + 1)) ^ 2 +
    (1 - μ ^ 2 - c / 2) * (2 * c * E (s + 1) ^ 2 + (E s - E (s + 2)) ^ 2)

theorem Shared.energy_step (h : Shared 2 μ c E U) (s : Nat) :
    energy μ c E (s + 1) = energy μ c E s -
      ((1 - μ ^ 2) * (E s - E (s + 2)) + c * (E (s + 2) - μ * E (s + 1))) ^ 2 := by
  have h1 : E (s + 3) = μ * E (s + 2) + (1 - c) * E (s + 1) - μ * E s := h.recurrence s
  unfold energy
  rw [show s + 1 + 2 = s + 3 by omega, show s + 1 + 1 = s + 2 by omega, h1]
  ring

/-- Two sequences converge if `0 < c < 2 (1 - μ²)`. -/
theorem Shared.two_converges (h : Shared 2 μ c E U) (h0 : 0 < c) (h1 : c < 2 * (1 - μ ^ 2)) :
    Tendsto E atTop (𝓝 0) := by
  have hκ : 0 < 1 - μ ^ 2 - c / 2 := by linarith
  have hW : ∀ s, 0 ≤ energy μ c E s := fun s => by unfold energy; positivity
  let y : Nat → ℝ := fun s => (1 - μ ^ 2) * (E s - E (s + 2)) + c * (E (s + 2) - μ * E (s + 1))
  have hy : Tendsto y atTop (𝓝 0) := tendsto_zero_of_sq
    (tendsto_of_decrease hW (fun s => sq_nonneg (y s)) fun s => by
      rw [h.energy_step s]; show _ - y s ^ 2 + y s ^ 2 ≤ _; linarith)
  let r : Nat → ℝ := fun s => E (s + 3) - 2 * μ * E (s + 2) + E (s + 1)
  have hr : Tendsto r atTop (𝓝 0) := by
    have h2 := (((tendsto_add_atTop_iff_nat 1).2 hy).sub (hy.const_mul μ)).const_mul c⁻¹
    rw [mul_zero, sub_zero, mul_zero] at h2
    refine h2.congr fun s => ?_
    have h3 : E (s + 3) = μ * E (s + 2) + (1 - c) * E (s + 1) - μ * E s := h.recurrence s
    have : y (s + 1) - μ * y s = c * r s := by
      show (1 - μ ^ 2) * (E (s + 1) - E (s + 3)) + c * (E (s + 3) - μ * E (s + 2)) -
        μ * ((1 - μ ^ 2) * (E s - E (s + 2)) + c * (E (s + 2) - μ * E (s + 1))) =
        c * (E (s + 3) - 2 * μ * E (s + 2) + E (s + 1))
      rw [h3]; ring
    rw [this, ← mul_assoc, inv_mul_cancel₀ h0.ne', one_mul]
  have h2 := ((((tendsto_add_atTop_iff_nat 1).2 hr).add (hr.const_mul μ)).const_mul (2 * (1 - μ ^ 2 - c / 2))⁻¹)
  rw [mul_zero, add_zero, mul_zero] at h2
  refine (tendsto_add_atTop_iff_nat 2).1 (h2.congr fun s => ?_)
  have h3 : E (s + 4) = μ * E (s + 3) + (1 - c) * E (s + 2) - μ * E (s + 1) := h.recurrence (s + 1)
  have : r (s + 1) + μ * r s = 2 * (1 - μ ^ 2 - c / 2) * E (s + 2) := by
    show E (s + 4) - 2 * μ * E (s + 3) + E (s + 2) + μ * (E (s + 3) - 2 * μ * E (s + 2) + E (s + 1)) = _
    rw [h3]; ring
  rw [this, ← mul_assoc, inv_mul_cancel₀ (by positivity), one_mul]

/-- Not tending to zero: `E s² - 2 a E s E (s + 1) + E (s + 1)²` is a positive constant. -/
theorem not_tendsto_of_conserved {a d : ℝ} (hd : 0 < d)
    (h : ∀ s, E s ^ 2 - 2 * a * E s * E (s + 1) + E (s + 1) ^ 2 = d) : ¬ Tendsto E atTop (𝓝 0) := by
  intro hE
  have h1 := (tendsto_add_atTop_iff_nat 1).2 hE
  have h2 := ((hE.pow 2).sub ((hE.mul h1).const_mul (2 * a))).add (h1.pow 2)
  have h3 : (fun s => E s ^ 2 - 2 * a * (E s * E (s + 1)) + E (s + 1) ^ 2) = fun _ => d := by
    funext s; rw [← h s]; ring
  rw [h3] at h2
  have := tendsto_nhds_unique h2 tendsto_const_nhds
  simp at this
  exact hd.ne this

/-- Two sequences that start with velocity zero need not converge if `c ≥ 2 (1 - μ²)`: start from errors
`2 μ` and `2 - c`, or from `1` and `μ` where the bound is met exactly. -/
theorem Shared.two_diverges (h : Shared 2 μ c E U) (h0 : 0 < c) (hU : U 0 = 0)
    (h1 : 2 * (1 - μ ^ 2) < c ∧ E 0 = 2 * μ ∧ E 1 = 2 - c ∨ 2 * (1 - μ ^ 2) = c ∧ E 0 = 1 ∧ E 1 = μ) :
    ¬ Tendsto E atTop (𝓝 0) := by
  have e2 : E 2 = (1 - c) * E 0 := by
    have a1 : E 2 = E 0 - U 1 := h.error 0
    have a2 := h.velocity 0
    rw [a1, a2, hU]; ring
  have anti : ∀ s, energy μ c E s ≤ energy μ c E 0 := by
    intro s
    induction s with
    | zero => exact le_rfl
    | succ s ih => rw [h.energy_step s]; linarith [sq_nonneg ((1 - μ ^ 2) * (E s - E (s + 2)) + c * (E (s + 2) - μ * E (s + 1)))]
  rcases h1 with ⟨h1, a0, a1⟩ | ⟨h1, a0, a1⟩
  · have neg : energy μ c E 0 < 0 := by
      show c / 2 * (E 0 + E 2 - 2 * μ * E 1) ^ 2 + (1 - μ ^ 2 - c / 2) * (2 * c * E 1 ^ 2 + (E 0 - E 2) ^ 2) < 0
      rw [e2, a0, a1]
      have : 2 * μ + (1 - c) * (2 * μ) - 2 * μ * (2 - c) = 0 := by ring
      rw [this]
      have hp : 0 < 2 * c * (2 - c) ^ 2 + (2 * μ - (1 - c) * (2 * μ)) ^ 2 := by
        have : (2 * μ - (1 - c) * (2 * μ)) ^ 2 = 4 * c ^ 2 * μ ^ 2 := by ring
        rw [this]
        rcases eq_or_ne μ 0 with hm | hm
        · have : 2 - c ≠ 0 := by rw [hm] at h1; intro hc; linarith
          have := pow_pos (abs_pos.2 this) 2
          rw [sq_abs] at this
          nlinarith [mul_pos h0 this, sq_nonneg (c * μ)]
        · have : 0 < μ ^ 2 := by positivity
          have h3 : 0 < 4 * c ^ 2 * μ ^ 2 := by positivity
          nlinarith [mul_nonneg h0.le (sq_nonneg (2 - c))]
      have : 1 - μ ^ 2 - c / 2 < 0 := by linarith
      nlinarith
    intro hE
    have b1 := (tendsto_add_atTop_iff_nat 1).2 hE
    have b2 := (tendsto_add_atTop_iff_nat 2).2 hE
    have lim : Tendsto (energy μ c E) atTop (𝓝 0) := by
      have := ((((hE.add b2).sub (b1.const_mul (2 * μ))).pow 2).const_mul (c / 2)).add
        ((((b1.pow 2).const_mul (2 * c)).add ((hE.sub b2).pow 2)).const_mul (1 - μ ^ 2 - c / 2))
      simp at this
      exact this
    exact absurd (le_of_tendsto lim (Filter.Eventually.of_forall anti)) (by linarith)
  · have zero : energy μ c E 0 = 0 := by
      show c / 2 * (E 0 + E 2 - 2 * μ * E 1) ^ 2 + (1 - μ ^ 2 - c / 2) * (2 * c * E 1 ^ 2 + (E 0 - E 2) ^ 2) = 0
      rw [e2, a0, a1, ← h1]; ring
    have step : ∀ s, E (s + 2) = 2 * μ * E (s + 1) - E s := by
      intro s
      have b1 := anti s
      rw [zero] at b1
      unfold energy at b1
      rw [show 1 - μ ^ 2 - c / 2 = 0 by linarith, zero_mul, add_zero] at b1
      have b2 : (E s + E (s + 2) - 2 * μ * E (s + 1)) ^ 2 ≤ 0 := by nlinarith
      have b3 := pow_eq_zero_iff (two_ne_zero) |>.1 (le_antisymm b2 (sq_nonneg _))
      linarith
    refine not_tendsto_of_conserved (a := μ) (d := 1 - μ ^ 2) (by linarith) fun s => ?_
    induction s with
    | zero => rw [a0, a1]; ring
    | succ s ih => rw [← ih, step s]; ring

/-- Errors determine the run. -/
theorem Shared.unique (h : Shared m μ c E U) {E' U' : Nat → ℝ} (h' : Shared m μ c E' U') (hm : 0 < m)
    (hU : U 0 = U' 0) (hE : ∀ s < m, E s = E' s) : E = E' := by
  have : ∀ s, U s = U' s ∧ ∀ j < m, E (s + j) = E' (s + j) := by
    intro s
    induction s with
    | zero => exact ⟨hU, fun j hj => by simpa using hE j hj⟩
    | succ s ih =>
      have e0 := ih.2 0 hm
      rw [Nat.add_zero] at e0
      have hu : U (s + 1) = U' (s + 1) := by rw [h.velocity, h'.velocity, ih.1, e0]
      refine ⟨hu, fun j hj => ?_⟩
      rcases Nat.lt_or_ge (j + 1) m with hj' | hj'
      · rw [show s + 1 + j = s + (j + 1) by omega]; exact ih.2 _ hj'
      · rw [show s + 1 + j = s + m by omega, h.error, h'.error, e0, hu]
  funext s
  simpa using (this s).2 0 hm

end

/-- For `0 < μ < 1` there are numbers of sequences and gains arbitrarily close to `2 (1 - μ)` for which some
run from velocity zero does not converge. -/
theorem shared_tight {μ δ : ℝ} (h0 : 0 < μ) (h1 : μ < 1) (hδ : 0 < δ) :
    ∃ (m : Nat) (c : ℝ) (E U : Nat → ℝ), 0 < m ∧ 2 * (1 - μ) ≤ c ∧ c < 2 * (1 - μ) + δ ∧ Shared m μ c E U ∧ U 0 = 0 ∧
      ¬ Tendsto E atTop (𝓝 0) := by
  -- a number of sequences for which the angle is small
  obtain ⟨m, hm2, hm⟩ : ∃ m : Nat, 2 ≤ m ∧ 2 * (1 - μ * Real.cos (Real.pi / m)) < 2 * (1 - μ) + δ := by
    have lim : Tendsto (fun m : Nat => 2 * (1 - μ * Real.cos (Real.pi / m))) atTop (𝓝 (2 * (1 - μ * Real.cos 0))) := by
      have h2 : Tendsto (fun m : Nat => Real.pi / (m : ℝ)) atTop (𝓝 0) := tendsto_const_div_atTop_nhds_zero_nat _
      exact (((Real.continuous_cos.tendsto 0).comp h2).const_mul μ).const_sub 1 |>.const_mul 2
    rw [Real.cos_zero, mul_one] at lim
    have h3 := (lim.eventually (gt_mem_nhds (show 2 * (1 - μ) < 2 * (1 - μ) + δ by linarith))).and (eventually_ge_atTop 2)
    obtain ⟨m, h4, h5⟩ := h3.exists
    exact ⟨m, h5, h4⟩
  have hm0 : (0 : ℝ) < m := by exact_mod_cast (by omega : 0 < m)
  have hm2' : (2 : ℝ) ≤ m := by exact_mod_cast hm2
  have hpi := Real.pi_pos
  -- the angle
  let g : ℝ → ℝ := fun θ => Real.cos (m / 2 * θ) - μ * Real.cos ((m / 2 - 1) * θ)
  have hg : Continuous g := by fun_prop
  have g0 : 0 ≤ g 0 := by show 0 ≤ Real.cos _ - _; simp; linarith
  have g1 : g (Real.pi / m) ≤ 0 := by
    show Real.cos (m / 2 * (Real.pi / m)) - μ * Real.cos ((m / 2 - 1) * (Real.pi / m)) ≤ 0
    have e1 : (m : ℝ) / 2 * (Real.pi / m) = Real.pi / 2 := by field_simp
    rw [e1, Real.cos_pi_div_two]
    have e2 : 0 ≤ Real.cos ((m / 2 - 1) * (Real.pi / m)) := by
      refine Real.cos_nonneg_of_mem_Icc ⟨?_, ?_⟩
      · have : 0 ≤ ((m : ℝ) / 2 - 1) * (Real.pi / m) := mul_nonneg (by linarith) (by positivity)
        linarith
      · have : ((m : ℝ) / 2 - 1) * (Real.pi / m) = Real.pi / 2 - Real.pi / m := by field_simp
        rw [this]
        have : 0 < Real.pi / m := by positivity
        linarith
    nlinarith
  obtain ⟨θ, ⟨ht0, ht1⟩, ht⟩ := intermediate_value_Icc' (by positivity : (0 : ℝ) ≤ Real.pi / m) hg.continuousOn
    (⟨g1, g0⟩ : (0 : ℝ) ∈ Set.Icc (g (Real.pi / m)) (g 0))
  have ht : Real.cos (m / 2 * θ) = μ * Real.cos ((m / 2 - 1) * θ) := by
    have : Real.cos (m / 2 * θ) - μ * Real.cos ((m / 2 - 1) * θ) = 0 := ht
    linarith
  have htpos : 0 < θ := by
    rcases ht0.lt_or_eq with h | h
    · exact h
    · rw [← h] at ht; simp at ht; linarith
  have htpi : θ < Real.pi := by
    refine ht1.trans_lt ?_
    rw [div_lt_iff₀ hm0]
    nlinarith
  have hcos : Real.cos (Real.pi / m) ≤ Real.cos θ :=
    Real.cos_le_cos_of_nonneg_of_le_pi ht0 (by rw [div_le_iff₀ hm0]; nlinarith) ht1
  have hsin : 0 < Real.sin θ := Real.sin_pos_of_pos_of_lt_pi htpos htpi
  set c : ℝ := 2 * (1 - μ * Real.cos θ) with hc
  have hc0 : 2 * (1 - μ) ≤ c := by rw [hc]; nlinarith [Real.cos_le_one θ]
  have hc1 : c < 2 * (1 - μ) + δ := by rw [hc]; nlinarith
  -- a wave whose velocity starts at zero
  obtain ⟨a, b, hab, h2⟩ : ∃ a b : ℝ, 0 < a ^ 2 + b ^ 2 ∧
      a * Real.cos (m * θ) + b * Real.sin (m * θ) = (1 - c) * a := by
    by_cases hs : Real.sin (m * θ) = 0
    · exact ⟨0, 1, by norm_num, by rw [hs]; ring⟩
    · refine ⟨Real.sin (m * θ), 1 - c - Real.cos (m * θ), ?_, by ring⟩
      have : 0 < Real.sin (m * θ) ^ 2 := by positivity
      nlinarith [sq_nonneg (1 - c - Real.cos (m * θ))]
  let E : Nat → ℝ := fun s => a * Real.cos (s * θ) + b * Real.sin (s * θ)
  let U : Nat → ℝ := fun s => Nat.rec 0 (fun s u => μ * u + c * E s) s
  have two : ∀ s, E (s + 2) = 2 * Real.cos θ * E (s + 1) - E s := by
    intro s
    show a * Real.cos ((s + 2 : Nat) * θ) + b * Real.sin ((s + 2 : Nat) * θ) = 2 * Real.cos θ *
      (a * Real.cos ((s + 1 : Nat) * θ) + b * Real.sin ((s + 1 : Nat) * θ)) - (a * Real.cos (s * θ) + b * Real.sin (s * θ))
    have c1 : Real.cos ((s + 2 : Nat) * θ) = 2 * Real.cos θ * Real.cos ((s + 1 : Nat) * θ) - Real.cos (s * θ) := by
      have e1 : ((s + 2 : Nat) : ℝ) * θ = (s + 1 : Nat) * θ + θ := by push_cast; ring
      have e2 : (s : ℝ) * θ = (s + 1 : Nat) * θ - θ := by push_cast; ring
      rw [e1, e2, Real.cos_add, Real.cos_sub]; ring
    have c2 : Real.sin ((s + 2 : Nat) * θ) = 2 * Real.cos θ * Real.sin ((s + 1 : Nat) * θ) - Real.sin (s * θ) := by
      have e1 : ((s + 2 : Nat) : ℝ) * θ = (s + 1 : Nat) * θ + θ := by push_cast; ring
      have e2 : (s : ℝ) * θ = (s + 1 : Nat) * θ - θ := by push_cast; ring
      rw [e1, e2, Real.sin_add, Real.sin_sub]; ring
    rw [c1, c2]; ring
  have wave : ∀ s, E (s + m + 1) + E (s + 1) = μ * (E (s + m) + E (s + 2)) := by
    intro s
    have key : ∀ p q : Nat, ∀ x d : ℝ, (p : ℝ) * θ = x + d → (q : ℝ) * θ = x - d →
        E p + E q = 2 * Real.cos d * (a * Real.cos x + b * Real.sin x) := by
      intro p q x d hp hq
      show a * Real.cos (p * θ) + b * Real.sin (p * θ) + (a * Real.cos (q * θ) + b * Real.sin (q * θ)) = _
      rw [hp, hq, Real.cos_add, Real.cos_sub, Real.sin_add, Real.sin_sub]; ring
    rw [key (s + m + 1) (s + 1) ((s + 1 + m / 2) * θ) (m / 2 * θ) (by push_cast; ring) (by push_cast; ring),
      key (s + m) (s + 2) ((s + 1 + m / 2) * θ) ((m / 2 - 1) * θ) (by push_cast; ring) (by push_cast; ring), ht]
    ring
  have sh : Shared m μ c E U := by
    refine ⟨fun s => rfl, fun s => ?_⟩
    induction s with
    | zero =>
      show E (0 + m) = E 0 - (μ * 0 + c * E 0)
      have e0 : E 0 = a := by show a * Real.cos ((0 : Nat) * θ) + b * Real.sin ((0 : Nat) * θ) = a; simp
      have em : E (0 + m) = a * Real.cos (m * θ) + b * Real.sin (m * θ) := by rw [Nat.zero_add]
      rw [e0, em, h2]; ring
    | succ s ih =>
      have hw := wave s
      have ht := two s
      have e1 : U (s + 1 + 1) = μ * U (s + 1) + c * E (s + 1) := rfl
      rw [e1, show s + 1 + m = s + m + 1 by omega]
      have e2 : U (s + 1) = E s - E (s + m) := by linarith
      rw [e2]
      rw [ht] at hw
      rw [hc]
      linear_combination hw
  refine ⟨m, c, E, U, by omega, hc0, hc1, sh, rfl, ?_⟩
  refine not_tendsto_of_conserved (a := Real.cos θ) (d := (a ^ 2 + b ^ 2) * Real.sin θ ^ 2) (by positivity) fun s => ?_
  induction s with
  | zero =>
    show (a * Real.cos ((0 : Nat) * θ) + b * Real.sin ((0 : Nat) * θ)) ^ 2 - 2 * Real.cos θ *
      (a * Real.cos ((0 : Nat) * θ) + b * Real.sin ((0 : Nat) * θ)) *
      (a * Real.cos ((0 + 1 : Nat) * θ) + b * Real.sin ((0 + 1 : Nat) * θ)) +
      (a * Real.cos ((0 + 1 : Nat) * θ) + b * Real.sin ((0 + 1 : Nat) * θ)) ^ 2 = _
    have h4 := Real.sin_sq_add_cos_sq θ
    simp
    have : Real.cos θ ^ 2 = 1 - Real.sin θ ^ 2 := by linarith
    ring_nf
    rw [this]
    ring
  | succ s ih => rw [← ih, two s]; ring

end Lfa

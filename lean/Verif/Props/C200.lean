import Verif.Props.C195

/-!
# C200: Adam and AdaMax with momentum stay around the target

One input and one target for ever, exact arithmetic. The errors stay bounded, and end up within a multiple of the learning rate.
-/

set_option linter.unusedSectionVars false

namespace Lfa

open Spec Features Filter Topology

/-! ### One sequence of errors -/

/-- The running average lags behind a sequence of bounded steps by at most `s β / (1 - β)`. -/
theorem lag_le {e : Nat → ℝ} {β s : ℝ} (b0 : 0 ≤ β) (b1 : β < 1) (hs : ∀ t, |e (t + 1) - e t| ≤ s) (t : Nat) :
    |runAvg β e (t + 1) - (1 - β ^ (t + 1)) * e t| ≤ s * β / (1 - β) := by
  have s0 : 0 ≤ s := (abs_nonneg _).trans (hs 0)
  have p : 0 < 1 - β := by linarith
  induction t with
  | zero =>
    have : runAvg β e 1 - (1 - β ^ 1) * e 0 = 0 := by simp [runAvg]
    rw [this, abs_zero]
    positivity
  | succ t ih =>
    have e1 : runAvg β e (t + 1 + 1) - (1 - β ^ (t + 1 + 1)) * e (t + 1) =
        β * (runAvg β e (t + 1) - (1 - β ^ (t + 1)) * e t) + -(β * (1 - β ^ (t + 1)) * (e (t + 1) - e t)) := by
      simp only [runAvg]
      ring
    have q0 : 0 ≤ β ^ (t + 1) := by positivity
    have q1 : β ^ (t + 1) ≤ 1 := pow_le_one₀ b0 b1.le
    rw [e1]
    refine (abs_add_le _ _).trans ?_
    rw [abs_neg, abs_mul, abs_mul, abs_mul, abs_of_nonneg b0, abs_of_nonneg (by linarith : 0 ≤ 1 - β ^ (t + 1))]
    have h1 := mul_le_mul_of_nonneg_left ih b0
    have h2 : β * (1 - β ^ (t + 1)) * |e (t + 1) - e t| ≤ β * s := by
      refine mul_le_mul ?_ (hs t) (abs_nonneg _) b0
      nlinarith
    have e2 : s * β / (1 - β) = β * (s * β / (1 - β)) + β * s := by field_simp; ring
    linarith

/-- Steps of at most `s` towards zero whenever the running average has the sign of the error. -/
theorem hover_bounded {e R : Nat → ℝ} {β s L : ℝ} (b0 : 0 ≤ β) (b1 : β < 1) (L0 : 0 ≤ L)
    (hs : ∀ t, |e (t + 1) - e t| ≤ s) (hR : ∀ t, |R t - (1 - β ^ (t + 1)) * e t| ≤ L)
    (hsign : ∀ t, (0 ≤ R t → e (t + 1) ≤ e t) ∧ (R t ≤ 0 → e t ≤ e (t + 1))) (t : Nat) :
    |e t| ≤ max |e 0| (s + L / (1 - β)) := by
  have p : 0 < 1 - β := by linarith
  have s0 : 0 ≤ s := (abs_nonneg _).trans (hs 0)
  induction t with
  | zero => exact le_max_left _ _
  | succ t ih =>
    have m2 := le_max_right |e 0| (s + L / (1 - β))
    generalize max |e 0| (s + L / (1 - β)) = m at *
    obtain ⟨s1, s2⟩ := abs_le.1 (hs t)
    obtain ⟨r1, r2⟩ := abs_le.1 (hR t)
    obtain ⟨i1, i2⟩ := abs_le.1 ih
    have c1 : 1 - β ≤ 1 - β ^ (t + 1) := by
      have : β ^ (t + 1) ≤ β := pow_le_of_le_one b0 b1.le (Nat.succ_ne_zero t)
      linarith
    by_cases hsm : |e t| ≤ L / (1 - β)
    · obtain ⟨j1, j2⟩ := abs_le.1 hsm
      rw [abs_le]; constructor <;> linarith
    · have L1 : 0 ≤ L / (1 - β) := by positivity
      have hbig := not_le.1 hsm
      rcases abs_cases (e t) with ⟨h1, h2⟩ | ⟨h1, h2⟩
      · rw [h1, div_lt_iff₀ p] at hbig
        have : 0 ≤ R t := by nlinarith
        have := (hsign t).1 this
        rw [abs_le]; constructor <;> linarith
      · rw [h1, div_lt_iff₀ p] at hbig
        have : R t ≤ 0 := by nlinarith
        have := (hsign t).2 this
        rw [abs_le]; constructor <;> linarith

/-- If the step is at least `κ` times the running average, the errors end up below `2 L + s`. -/
theorem hover_final {e R : Nat → ℝ} {β s L κ : ℝ} (b0 : 0 ≤ β) (b1 : β < 1) (L0 : 0 ≤ L) (s0 : 0 < s) (k0 : 0 < κ)
    (hs : ∀ t, |e (t + 1) - e t| ≤ s) (hR : ∀ t, |R t - (1 - β ^ (t + 1)) * e t| ≤ L)
    (hdrift : ∀ t, (0 ≤ R t → e (t + 1) ≤ e t - κ * R t) ∧ (R t ≤ 0 → e t - κ * R t ≤ e (t + 1))) :
    ∃ K, ∀ t ≥ K, |e t| ≤ 2 * L + s := by
  obtain ⟨T, hT⟩ : ∃ T, ∀ t ≥ T, β ^ (t + 1) ≤ 1 / 4 := by
    have h1 := (tendsto_pow_atTop_nhds_zero_of_lt_one b0 b1).comp (tendsto_add_atTop_nat 1)
    obtain ⟨T, hT⟩ := eventually_atTop.1 (h1.eventually_le_const (by norm_num : (0 : ℝ) < 1 / 4))
    exact ⟨T, hT⟩
  -- one step, late enough
  have step : ∀ t ≥ T, (|e t| ≤ 2 * L → |e (t + 1)| ≤ 2 * L + s) ∧
      (2 * L < |e t| → |e t| ≤ s → |e (t + 1)| ≤ s) ∧ (2 * L < |e t| → s < |e t| → |e (t + 1)| ≤ (1 - κ / 4) * |e t|) := fun t ht => by
    obtain ⟨s1, s2⟩ := abs_le.1 (hs t)
    obtain ⟨r1, r2⟩ := abs_le.1 (hR t)
    have q0 : 0 ≤ β ^ (t + 1) := by positivity
    have q1 := hT t ht
    refine ⟨fun h => ?_, fun h h' => ?_, fun h h' => ?_⟩
    · obtain ⟨j1, j2⟩ := abs_le.1 h
      rw [abs_le]; constructor <;> linarith
    · rcases abs_cases (e t) with ⟨h1, h2⟩ | ⟨h1, h2⟩
      · rw [h1] at h h'
        have hr : e t / 4 ≤ R t := by nlinarith
        have := (hdrift t).1 (by linarith)
        have := mul_nonneg k0.le (by linarith : 0 ≤ R t)
        rw [abs_le]; constructor <;> linarith
      · rw [h1] at h h'
        have hr : R t ≤ e t / 4 := by nlinarith
        have := (hdrift t).2 (by linarith)
        have := mul_nonneg k0.le (by linarith : 0 ≤ -R t)
        rw [abs_le]; constructor <;> linarith
    · rcases abs_cases (e t) with ⟨h1, h2⟩ | ⟨h1, h2⟩
      · rw [h1] at h h' ⊢
        have hr : e t / 4 ≤ R t := by nlinarith
        have d := (hdrift t).1 (by linarith)
        have := mul_le_mul_of_nonneg_left hr k0.le
        rw [abs_of_nonneg (by linarith)]
        linarith
      · rw [h1] at h h' ⊢
        have hr : R t ≤ e t / 4 := by nlinarith
        have d := (hdrift t).2 (by linarith)
        have := mul_le_mul_of_nonneg_left hr k0.le
        rw [abs_of_nonpos (by linarith)]
        linarith
  have inside : ∀ t ≥ T, |e t| ≤ 2 * L + s → |e (t + 1)| ≤ 2 * L + s := fun t ht h => by
    obtain ⟨a1, a2, a3⟩ := step t ht
    by_cases c1 : |e t| ≤ 2 * L
    · exact a1 c1
    · by_cases c2 : |e t| ≤ s
      · linarith [a2 (not_le.1 c1) c2]
      · have := a3 (not_le.1 c1) (not_le.1 c2)
        nlinarith [mul_nonneg k0.le (abs_nonneg (e t))]
  by_cases hin : ∃ K ≥ T, |e K| ≤ 2 * L + s
  · obtain ⟨K, hK, h⟩ := hin
    refine ⟨K, fun t ht => ?_⟩
    induction t, ht using Nat.le_induction with
    | base => exact h
    | succ t ht ih => exact inside t (hK.trans ht) ih
  · exfalso
    have hout : ∀ t ≥ T, 2 * L + s < |e t| := fun t ht => not_le.1 fun h => hin ⟨t, ht, h⟩
    have hstep : ∀ t ≥ T, |e (t + 1)| ≤ (1 - κ / 4) * |e t| := fun t ht =>
      (step t ht).2.2 (by linarith [hout t ht]) (by linarith [hout t ht])
    have q0 : 0 ≤ 1 - κ / 4 := by
      by_contra hc
      have := hstep T le_rfl
      have h2 : (1 - κ / 4) * |e T| < 0 := mul_neg_of_neg_of_pos (not_le.1 hc) (by linarith [hout T le_rfl])
      linarith [abs_nonneg (e (T + 1))]
    have hg : ∀ k, |e (T + k)| ≤ (1 - κ / 4) ^ k * |e T| := fun k => by
      induction k with
      | zero => simp
      | succ k ih =>
        have := hstep (T + k) (Nat.le_add_right _ _)
        rw [← add_assoc, pow_succ]
        calc |e (T + k + 1)| ≤ (1 - κ / 4) * |e (T + k)| := this
          _ ≤ (1 - κ / 4) * ((1 - κ / 4) ^ k * |e T|) := mul_le_mul_of_nonneg_left ih q0
          _ = _ := by ring
    have h1 : Tendsto (fun k => (1 - κ / 4) ^ k * |e T|) atTop (𝓝 0) := by
      have := (tendsto_pow_atTop_nhds_zero_of_lt_one q0 (by linarith)).mul_const |e T|
      rwa [zero_mul] at this
    obtain ⟨k, hk⟩ := (h1.eventually_lt_const s0).exists
    have := hout (T + k) (Nat.le_add_right _ _)
    linarith [hg k]

/-! ### The sizes of the averages -/

theorem avg_le_root {e : Nat → ℝ} {β₁ β₂ : ℝ} (h12 : β₁ ^ 2 < β₂) (h21 : β₂ < 1) (t : Nat) :
    runAvg β₁ e t ^ 2 ≤ (1 - β₁) ^ 2 * (1 / ((1 - β₂) * (1 - β₁ ^ 2 / β₂)) * runAvg β₂ (fun t => e t ^ 2) t) := by
  have g : 0 < β₂ - β₁ ^ 2 := by linarith
  have b20 : 0 < β₂ := lt_of_le_of_lt (sq_nonneg _) h12
  have p2 : 0 < 1 - β₂ := by linarith
  have ec : 1 / ((1 - β₂) * (1 - β₁ ^ 2 / β₂)) = β₂ / ((1 - β₂) * (β₂ - β₁ ^ 2)) := by field_simp
  rw [ec]
  induction t with
  | zero => simp [runAvg]
  | succ t ih =>
    simp only [runAvg]
    generalize runAvg β₁ e t = X at *
    generalize runAvg β₂ (fun t => e t ^ 2) t = Q at *
    generalize e t = z
    have e1 : (1 - β₁) ^ 2 * (β₂ / ((1 - β₂) * (β₂ - β₁ ^ 2)) * (β₂ * Q + (1 - β₂) * z ^ 2)) =
        β₂ * ((1 - β₁) ^ 2 * (β₂ / ((1 - β₂) * (β₂ - β₁ ^ 2)) * Q)) + (1 - β₁) ^ 2 * (β₂ / (β₂ - β₁ ^ 2)) * z ^ 2 := by
      field_simp
    rw [e1]
    have h1 := mul_le_mul_of_nonneg_left ih b20.le
    have h2 : (β₁ * X + (1 - β₁) * z) ^ 2 ≤ β₂ * X ^ 2 + (1 - β₁) ^ 2 * (β₂ / (β₂ - β₁ ^ 2)) * z ^ 2 := by
      have e2 : β₂ * X ^ 2 + (1 - β₁) ^ 2 * (β₂ / (β₂ - β₁ ^ 2)) * z ^ 2 - (β₁ * X + (1 - β₁) * z) ^ 2 =
          ((β₂ - β₁ ^ 2) * X - β₁ * ((1 - β₁) * z)) ^ 2 / (β₂ - β₁ ^ 2) := by
        field_simp
        ring
      have : 0 ≤ ((β₂ - β₁ ^ 2) * X - β₁ * ((1 - β₁) * z)) ^ 2 / (β₂ - β₁ ^ 2) := by positivity
      linarith
    linarith

theorem avg_le_max {e : Nat → ℝ} {β₁ β₂ : ℝ} (h10 : 0 ≤ β₁) (h12 : β₁ < β₂) (h21 : β₂ < 1) (t : Nat) :
    |runAvg β₁ e t| ≤ (1 - β₁) * (1 / (1 - β₁ / β₂) * runMax β₂ e t) := by
  have b20 : 0 < β₂ := by linarith
  have g : 0 < β₂ - β₁ := by linarith
  have p1 : 0 < 1 - β₁ := by linarith
  have ec : 1 / (1 - β₁ / β₂) = β₂ / (β₂ - β₁) := by field_simp
  rw [ec]
  induction t with
  | zero => simp [runAvg, runMax]
  | succ t ih =>
    simp only [runAvg, runMax]
    generalize runAvg β₁ e t = X at *
    generalize runMax β₂ e t = U at *
    generalize e t = z
    have m1 := le_max_left (β₂ * U) |z|
    have m2 := le_max_right (β₂ * U) |z|
    generalize max (β₂ * U) |z| = V at *
    refine (abs_add_le _ _).trans ?_
    rw [abs_mul, abs_mul, abs_of_nonneg h10, abs_of_pos p1]
    have h1 := mul_le_mul_of_nonneg_left ih h10
    have e1 : β₁ * ((1 - β₁) * (β₂ / (β₂ - β₁) * U)) = (1 - β₁) * (β₁ / (β₂ - β₁)) * (β₂ * U) := by field_simp
    have h2 := mul_le_mul_of_nonneg_left m1 (by positivity : 0 ≤ (1 - β₁) * (β₁ / (β₂ - β₁)))
    have h3 := mul_le_mul_of_nonneg_left m2 p1.le
    have e2 : (1 - β₁) * (β₂ / (β₂ - β₁) * V) = (1 - β₁) * (β₁ / (β₂ - β₁)) * V + (1 - β₁) * V := by field_simp; ring
    linarith

theorem runAvg_le {x : Nat → ℝ} {β H : ℝ} (b0 : 0 ≤ β) (b1 : β < 1) (H0 : 0 ≤ H) (h : ∀ t, x t ≤ H) (t : Nat) : runAvg β x t ≤ H := by
  induction t with
  | zero => exact H0
  | succ t ih =>
    simp only [runAvg]
    have h1 := mul_le_mul_of_nonneg_left ih b0
    have h2 := mul_le_mul_of_nonneg_left (h t) (by linarith : 0 ≤ 1 - β)
    linarith

theorem runAvg_nonneg {x : Nat → ℝ} {β : ℝ} (b0 : 0 ≤ β) (b1 : β < 1) (h : ∀ t, 0 ≤ x t) (t : Nat) : 0 ≤ runAvg β x t := by
  induction t with
  | zero => exact le_rfl
  | succ t ih =>
    simp only [runAvg]
    have h1 := mul_nonneg b0 ih
    have h2 := mul_nonneg (by linarith : 0 ≤ 1 - β) (h t)
    linarith

theorem runMax_le {x : Nat → ℝ} {β H : ℝ} (b0 : 0 ≤ β) (b1 : β < 1) (H0 : 0 ≤ H) (h : ∀ t, |x t| ≤ H) (t : Nat) : 0 ≤ runMax β x t ∧ runMax β x t ≤ H := by
  induction t with
  | zero => exact ⟨le_rfl, H0⟩
  | succ t ih =>
    refine ⟨(abs_nonneg _).trans (le_max_right _ _), max_le ?_ (h t)⟩
    nlinarith [ih.1, ih.2]

/-! ### Both optimisers at once -/

/-- Errors that move by a sum of normalised averages. -/
theorem hover {n : Nat} {a ε : Nat → ℝ} (ha : ∀ i < n, 0 ≤ a i) (hε : ∀ i < n, 0 ≤ ε i) (hε' : ∀ i < n, 0 < a i → 0 < ε i) {e c D : Nat → ℝ}
    {β C c₀ : ℝ} (b0 : 0 ≤ β) (b1 : β < 1) (C0 : 0 < C) (hc : ∀ t, 1 - β ≤ c t ∧ c t ≤ 1) (hD0 : ∀ t, 0 ≤ D t)
    (hM : ∀ t, |runAvg β e (t + 1) / c t| ≤ C * D t) (hDle : ∀ H, (∀ t, |e t| ≤ H) → ∀ t, D t ≤ c₀ * H) (hA : 0 < ∑ i ∈ Finset.range n, a i)
    (he : ∀ t, e (t + 1) = e t - ∑ i ∈ Finset.range n, a i * (runAvg β e (t + 1) / c t / (D t + ε i))) :
    (∀ t, |e t| ≤ max |e 0| ((∑ i ∈ Finset.range n, a i) * C * (1 + β / (1 - β) ^ 2))) ∧
    ∃ K, ∀ t ≥ K, |e t| ≤ (∑ i ∈ Finset.range n, a i) * C * (1 + β) / (1 - β) := by
  have p : 0 < 1 - β := by linarith
  set A := ∑ i ∈ Finset.range n, a i with hAdef
  have s0 : 0 < A * C := mul_pos hA C0
  have cpos : ∀ t, 0 < c t := fun t => lt_of_lt_of_le p (hc t).1
  have hs : ∀ t, |e (t + 1) - e t| ≤ A * C := fun t => by
    have e1 : e (t + 1) - e t = -∑ i ∈ Finset.range n, a i * (runAvg β e (t + 1) / c t / (D t + ε i)) := by rw [he t]; ring
    rw [e1, abs_neg, hAdef, Finset.sum_mul]
    refine (Finset.abs_sum_le_sum_abs _ _).trans (Finset.sum_le_sum fun i hi => ?_)
    have hi := Finset.mem_range.1 hi
    rw [abs_mul, abs_of_nonneg (ha i hi)]
    refine mul_le_mul_of_nonneg_left ?_ (ha i hi)
    rw [abs_div, abs_of_nonneg (add_nonneg (hD0 t) (hε i hi))]
    refine div_le_of_le_mul₀ (add_nonneg (hD0 t) (hε i hi)) C0.le ((hM t).trans ?_)
    exact mul_le_mul_of_nonneg_left (by linarith [hε i hi]) C0.le
  have hR := fun t => lag_le b0 b1 hs t
  have L0 : 0 ≤ A * C * β / (1 - β) := by positivity
  -- the direction of the step
  have hsum : ∀ t, (0 ≤ runAvg β e (t + 1) → 0 ≤ ∑ i ∈ Finset.range n, a i * (runAvg β e (t + 1) / c t / (D t + ε i))) ∧
      (runAvg β e (t + 1) ≤ 0 → ∑ i ∈ Finset.range n, a i * (runAvg β e (t + 1) / c t / (D t + ε i)) ≤ 0) := fun t => by
    refine ⟨fun h => Finset.sum_nonneg fun i hi => ?_, fun h => Finset.sum_nonpos fun i hi => ?_⟩
    · have hi := Finset.mem_range.1 hi
      exact mul_nonneg (ha i hi) (div_nonneg (div_nonneg h (cpos t).le) (add_nonneg (hD0 t) (hε i hi)))
    · have hi := Finset.mem_range.1 hi
      exact mul_nonpos_of_nonneg_of_nonpos (ha i hi)
        (div_nonpos_of_nonpos_of_nonneg (div_nonpos_of_nonpos_of_nonneg h (cpos t).le) (add_nonneg (hD0 t) (hε i hi)))
  have hb := hover_bounded b0 b1 L0 hs hR fun t => ⟨fun h => by rw [he t]; linarith [(hsum t).1 h], fun h => by rw [he t]; linarith [(hsum t).2 h]⟩
  have e1 : A * C + A * C * β / (1 - β) / (1 - β) = A * C * (1 + β / (1 - β) ^ 2) := by field_simp
  rw [e1] at hb
  refine ⟨hb, ?_⟩
  -- the steps are not too small
  obtain ⟨H, hH⟩ : ∃ H, ∀ t, |e t| ≤ H := ⟨_, hb⟩
  obtain ⟨i₀, hi₀, ha₀⟩ : ∃ i, i < n ∧ 0 < a i := by
    by_contra hc
    push Not at hc
    have : A ≤ 0 := Finset.sum_nonpos fun i hi => hc i (Finset.mem_range.1 hi)
    linarith
  have hD := hDle H hH
  have q0 : 0 < c₀ * H + ε i₀ := by linarith [hD0 0, hD 0, hε' i₀ hi₀ ha₀]
  have term : ∀ t (r : ℝ), 0 ≤ r → a i₀ / (c₀ * H + ε i₀) * r ≤ ∑ i ∈ Finset.range n, a i * (r / c t / (D t + ε i)) := fun t r r0 => by
    have h1 : a i₀ * (r / c t / (D t + ε i₀)) ≤ ∑ i ∈ Finset.range n, a i * (r / c t / (D t + ε i)) :=
      Finset.single_le_sum (f := fun i => a i * (r / c t / (D t + ε i)))
        (fun i hi => mul_nonneg (ha i (Finset.mem_range.1 hi))
          (div_nonneg (div_nonneg r0 (cpos t).le) (add_nonneg (hD0 t) (hε i (Finset.mem_range.1 hi))))) (Finset.mem_range.2 hi₀)
    refine le_trans ?_ h1
    rw [div_mul_eq_mul_div, mul_div_assoc]
    refine mul_le_mul_of_nonneg_left ?_ ha₀.le
    have h2 : r ≤ r / c t := by
      rw [le_div_iff₀ (cpos t)]
      nlinarith [(hc t).2]
    exact div_le_div₀ (r0.trans h2) h2 (by linarith [hD0 t, hε' i₀ hi₀ ha₀]) (by linarith [hD t])
  have neg : ∀ t (r : ℝ), ∑ i ∈ Finset.range n, a i * (-r / c t / (D t + ε i)) = -∑ i ∈ Finset.range n, a i * (r / c t / (D t + ε i)) := fun t r => by
    rw [← Finset.sum_neg_distrib]
    exact Finset.sum_congr rfl fun i _ => by ring
  obtain ⟨K, hK⟩ := hover_final b0 b1 L0 s0 (div_pos ha₀ q0) hs hR fun t => ⟨fun h => by
      rw [he t]
      linarith [term t _ h], fun h => by
      rw [he t]
      have h1 := term t (-runAvg β e (t + 1)) (by linarith)
      rw [neg] at h1
      linarith⟩
  refine ⟨K, fun t ht => (hK t ht).trans (le_of_eq ?_)⟩
  field_simp
  ring

/-! ### The code -/

theorem norm1_pos {φ : Features ℝ} {n : Nat} (hf : Fits n φ) (hφ : normSq φ ≠ 0) : 0 < ∑ i ∈ Finset.range n, |value φ i| := by
  by_contra hc
  refine hφ (Finset.sum_eq_zero fun i hi => ?_)
  rw [hf.2] at hi
  have h1 := Finset.single_le_sum (f := fun i => |value φ i|) (fun i _ => abs_nonneg _) hi
  have h2 : |value φ i| ≤ 0 := h1.trans (not_lt.1 hc)
  rw [abs_nonpos_iff.1 h2]
  norm_num

section
variable {B I : Type} [Space B] [Basis B I ℝ]

/-- A stream on one example is a run of updates with the errors of the predictions. -/
theorem stream_updates {O : Type} [Optimiser O ℝ] {b : B} {x : I} {φ : Features ℝ} (hp : Basis.project b x = .ok (.ok φ)) {y : ℝ}
    {fas : Nat → ScalarLFA B O ℝ} {ps : Nat → ℝ} (h : Stream fas (fun _ => x) (fun _ => y) ps) (hb : ∀ t, (fas t).basis = b) (t : Nat) :
    (fas t).update x (y - ps t) = .ok (.ok (), fas (t + 1)) := by
  have hp' : Basis.project (fas t).basis x = .ok (.ok φ) := by rw [hb]; exact hp
  have fv : VectorLFA B O ℝ := LFA.mk b [] (fas 0).optimiser
  have := h.updates t
  rwa [(C61_update_with (fas t) fv x).1 φ (ps t) _ hp' (h.predicts t)] at this

/-- Adam, any basis, one input `x` with some feature not zero and one target, `beta1² < beta2`: the errors never exceed the first one or a
fixed multiple of the learning rate, and from some call on they are at most `S (1 + beta1) / (1 - beta1)`, where `S` is
`lr ‖φ‖₁ / √((1 - beta2) (1 - beta1² / beta2))`. -/
theorem C200_adam (b : B) (x : I) (φ : Features ℝ) (n : Nat) (hp : Basis.project b x = .ok (.ok φ)) (hf : Fits n φ)
    (hφ : normSq φ ≠ 0) (y lr β₁ β₂ : ℝ) (hlr : 0 < lr) (h10 : 0 ≤ β₁) (h11 : β₁ < 1) (h12 : β₁ ^ 2 < β₂) (h21 : β₂ < 1) (w : List ℝ)
    (hw : w.length = n) (fas : Nat → ScalarLFA B (Adam ℝ) ℝ) (ps : Nat → ℝ) (h : Stream fas (fun _ => x) (fun _ => y) ps)
    (h0 : fas 0 = LFA.mk b w (Adam.new n lr β₁ β₂)) (S : ℝ)
    (hS : S = lr * (∑ i ∈ Finset.range n, |value φ i|) / √((1 - β₂) * (1 - β₁ ^ 2 / β₂))) :
    (∀ t, |y - ps t| ≤ max |y - ps 0| (S * (1 + β₁ / (1 - β₁) ^ 2))) ∧ ∃ K, ∀ t ≥ K, |y - ps t| ≤ S * (1 + β₁) / (1 - β₁) := by
  have hi := stream_one hp hf _ (adam_keeps hf lr β₁ β₂) h h0 hw ⟨⟨rfl, rfl, rfl⟩, by simp [Adam.new], by simp [Adam.new]⟩
  have hu := stream_updates hp h fun t => (hi t).1
  have mv := fun T => (adam_moves hp hf hw hu h0 T).2
  have b20 : 0 < β₂ := lt_of_le_of_lt (sq_nonneg _) h12
  have p1 : 0 < 1 - β₁ := by linarith
  have p2 : 0 < 1 - β₂ := by linarith
  have g : 0 < 1 - β₁ ^ 2 / β₂ := by rw [sub_pos, div_lt_one b20]; exact h12
  have sq0 : ∀ t, 0 ≤ runAvg β₂ (fun t => (y - ps t) ^ 2) t := runAvg_nonneg b20.le h21 fun t => sq_nonneg _
  have key := hover (n := n) (a := fun i => lr * |value φ i|) (ε := fun i => 1e-7 / |value φ i|) (e := fun t => y - ps t)
    (c := fun t => 1 - β₁ ^ (t + 2)) (D := fun t => √(runAvg β₂ (fun t => (y - ps t) ^ 2) (t + 1) / (1 - β₂ ^ (t + 2)))) (β := β₁)
    (C := 1 / √((1 - β₂) * (1 - β₁ ^ 2 / β₂))) (c₀ := √(1 / (1 - β₂)))
    (fun i _ => by positivity) (fun i _ => by positivity)
    (fun i _ ha => by
      have : 0 < |value φ i| := pos_of_mul_pos_right ha hlr.le
      positivity)
    h10 h11 (by positivity) (correction_bounds h10 h11) (fun t => Real.sqrt_nonneg _)
    (fun t => by
      obtain ⟨c1, c2⟩ := correction_bounds h10 h11 t
      obtain ⟨d1, d2⟩ := correction_bounds b20.le h21 t
      have h1 := avg_le_root (e := fun t => y - ps t) h12 h21 (t + 1)
      have h2 : |runAvg β₁ (fun t => y - ps t) (t + 1)| ≤
          (1 - β₁) * (1 / √((1 - β₂) * (1 - β₁ ^ 2 / β₂)) * √(runAvg β₂ (fun t => (y - ps t) ^ 2) (t + 1))) := by
        refine abs_le_of_sq_le_sq (h1.trans (le_of_eq ?_)) (by positivity)
        rw [mul_pow, mul_pow, div_pow, Real.sq_sqrt (by positivity), Real.sq_sqrt (sq0 _), one_pow]
      rw [abs_div, abs_of_pos (by linarith : 0 < 1 - β₁ ^ (t + 2)), div_le_iff₀ (by linarith)]
      have h3 : √(runAvg β₂ (fun t => (y - ps t) ^ 2) (t + 1)) ≤ √(runAvg β₂ (fun t => (y - ps t) ^ 2) (t + 1) / (1 - β₂ ^ (t + 2))) := by
        refine Real.sqrt_le_sqrt ?_
        rw [le_div_iff₀ (by linarith)]
        nlinarith [sq0 (t + 1)]
      have k0 : 0 ≤ 1 / √((1 - β₂) * (1 - β₁ ^ 2 / β₂)) := by positivity
      have h4 := mul_le_mul_of_nonneg_left h3 k0
      have h5 : 0 ≤ 1 / √((1 - β₂) * (1 - β₁ ^ 2 / β₂)) * √(runAvg β₂ (fun t => (y - ps t) ^ 2) (t + 1)) := by positivity
      rw [mul_comm]
      exact h2.trans (mul_le_mul c1 h4 h5 (by linarith)))
    (fun H hH t => by
      obtain ⟨d1, d2⟩ := correction_bounds b20.le h21 t
      have H0 : 0 ≤ H := (abs_nonneg _).trans (hH 0)
      rw [← Real.sqrt_sq H0, ← Real.sqrt_mul (by positivity)]
      refine Real.sqrt_le_sqrt ?_
      rw [one_div_mul_eq_div]
      have h1 : runAvg β₂ (fun t => (y - ps t) ^ 2) (t + 1) ≤ H ^ 2 := runAvg_le b20.le h21 (sq_nonneg _)
        (fun t => by have := hH t; rw [← sq_abs (y - ps t)]; gcongr) _
      exact div_le_div₀ (sq_nonneg _) h1 p2 d1)
    (by
      rw [← Finset.mul_sum]
      exact mul_pos hlr (norm1_pos hf hφ))
    (fun t => by
      have e1 : ∀ t, ps t = ∑ i ∈ Finset.range n, value φ i * entry (fas t).weights i := fun t => by rw [(hi t).2.2.2.1, inner_eq, hf.2]
      show y - ps (t + 1) = y - ps t - _
      rw [e1 (t + 1), e1 t, sub_sub, ← Finset.sum_add_distrib]
      congr 1
      refine Finset.sum_congr rfl fun i hi => ?_
      rw [mv (t + 1) i (Finset.mem_range.1 hi), mv t i (Finset.mem_range.1 hi), Finset.sum_range_succ]
      ring)
  have eS : (∑ i ∈ Finset.range n, lr * |value φ i|) * (1 / √((1 - β₂) * (1 - β₁ ^ 2 / β₂))) = S := by rw [hS, Finset.mul_sum]; ring
  rw [eS] at key
  exact key

/-- AdaMax, `beta1 < beta2`: the same with `S = lr ‖φ‖₁ / (1 - beta1 / beta2)`. -/
theorem C200_adamax (b : B) (x : I) (φ : Features ℝ) (n : Nat) (hp : Basis.project b x = .ok (.ok φ)) (hf : Fits n φ)
    (hφ : normSq φ ≠ 0) (y lr β₁ β₂ : ℝ) (hlr : 0 < lr) (h10 : 0 ≤ β₁) (h12 : β₁ < β₂) (h21 : β₂ < 1) (w : List ℝ)
    (hw : w.length = n) (fas : Nat → ScalarLFA B (AdaMax ℝ) ℝ) (ps : Nat → ℝ) (h : Stream fas (fun _ => x) (fun _ => y) ps)
    (h0 : fas 0 = LFA.mk b w (AdaMax.new n lr β₁ β₂)) (S : ℝ)
    (hS : S = lr * (∑ i ∈ Finset.range n, |value φ i|) / (1 - β₁ / β₂)) :
    (∀ t, |y - ps t| ≤ max |y - ps 0| (S * (1 + β₁ / (1 - β₁) ^ 2))) ∧ ∃ K, ∀ t ≥ K, |y - ps t| ≤ S * (1 + β₁) / (1 - β₁) := by
  have hi := stream_one hp hf _ (adamax_keeps hf lr β₁ β₂) h h0 hw ⟨⟨rfl, rfl, rfl⟩, by simp [AdaMax.new], by simp [AdaMax.new]⟩
  have hu := stream_updates hp h fun t => (hi t).1
  have mv := fun T => (adamax_moves hp hf hw hu h0 T).2
  have b20 : 0 < β₂ := by linarith
  have h11 : β₁ < 1 := by linarith
  have p1 : 0 < 1 - β₁ := by linarith
  have g : 0 < 1 - β₁ / β₂ := by rw [sub_pos, div_lt_one b20]; exact h12
  have U0 : ∀ t, 0 ≤ runMax β₂ (fun t => y - ps t) (t + 1) := fun t => (abs_nonneg _).trans (le_max_right _ _)
  have key := hover (n := n) (a := fun i => lr * |value φ i|) (ε := fun i => 1e-7 / |value φ i|) (e := fun t => y - ps t)
    (c := fun t => 1 - β₁ ^ (t + 2)) (D := fun t => runMax β₂ (fun t => y - ps t) (t + 1)) (β := β₁)
    (C := 1 / (1 - β₁ / β₂)) (c₀ := 1)
    (fun i _ => by positivity) (fun i _ => by positivity)
    (fun i _ ha => by
      have : 0 < |value φ i| := pos_of_mul_pos_right ha hlr.le
      positivity)
    h10 h11 (by positivity) (correction_bounds h10 h11) U0
    (fun t => by
      obtain ⟨c1, c2⟩ := correction_bounds h10 h11 t
      have h1 := avg_le_max (e := fun t => y - ps t) h10 h12 h21 (t + 1)
      rw [abs_div, abs_of_pos (by linarith : 0 < 1 - β₁ ^ (t + 2)), div_le_iff₀ (by linarith)]
      have k0 : 0 ≤ 1 / (1 - β₁ / β₂) * runMax β₂ (fun t => y - ps t) (t + 1) := mul_nonneg (by positivity) (U0 t)
      rw [mul_comm]
      exact h1.trans (mul_le_mul_of_nonneg_right c1 k0))
    (fun H hH t => by
      rw [one_mul]
      exact (runMax_le b20.le h21 ((abs_nonneg _).trans (hH 0)) hH _).2)
    (by
      rw [← Finset.mul_sum]
      exact mul_pos hlr (norm1_pos hf hφ))
    (fun t => by
      have e1 : ∀ t, ps t = ∑ i ∈ Finset.range n, value φ i * entry (fas t).weights i := fun t => by rw [(hi t).2.2.2.1, inner_eq, hf.2]
      show y - ps (t + 1) = y - ps t - _
      rw [e1 (t + 1), e1 t, sub_sub, ← Finset.sum_add_distrib]
      congr 1
      refine Finset.sum_congr rfl fun i hi => ?_
      rw [mv (t + 1) i (Finset.mem_range.1 hi), mv t i (Finset.mem_range.1 hi), Finset.sum_range_succ]
      ring)
  have eS : (∑ i ∈ Finset.range n, lr * |value φ i|) * (1 / (1 - β₁ / β₂)) = S := by rw [hS, Finset.mul_sum]; ring
  rw [eS] at key
  exact key

end

/-- The hypotheses are met: the constant feature 1, the usual decays `0.9` and `0.999` and rate `0.001`, starting from any weight. There is
a run of Adam and one of AdaMax; the first ends up within `19 / 10` of the target, the second within `1 / 5`. -/
theorem C200_example (w y : ℝ) :
    (∃ (fas : Nat → ScalarLFA (Bias ℝ) (Adam ℝ) ℝ) (ps : Nat → ℝ), Stream fas (fun _ => ()) (fun _ => y) ps ∧
      fas 0 = LFA.mk ⟨1⟩ [w] (Adam.new 1 0.001 0.9 0.999) ∧ ∃ K, ∀ t ≥ K, |y - ps t| ≤ 19 / 10) ∧
    (∃ (fas : Nat → ScalarLFA (Bias ℝ) (AdaMax ℝ) ℝ) (ps : Nat → ℝ), Stream fas (fun _ => ()) (fun _ => y) ps ∧
      fas 0 = LFA.mk ⟨1⟩ [w] (AdaMax.new 1 0.001 0.9 0.999) ∧ ∃ K, ∀ t ≥ K, |y - ps t| ≤ 1 / 5) := by
  have hn : normSq (Features.dense [(1 : ℝ)]) ≠ 0 := by simp [normSq, Spec.dim, value]
  obtain ⟨⟨fas, ps, h, h0⟩, fas', ps', h', h0'⟩ := C151_exists (B := Bias ℝ) ⟨1⟩ () (.dense [1]) 1 rfl ⟨trivial, rfl⟩ y 0.001 0.9 0.999 [w] rfl
  refine ⟨⟨fas, ps, h, h0, ?_⟩, fas', ps', h', h0', ?_⟩
  · obtain ⟨-, K, hK⟩ := C200_adam (B := Bias ℝ) ⟨1⟩ () (.dense [1]) 1 rfl ⟨trivial, rfl⟩ hn y 0.001 0.9 0.999 (by norm_num) (by norm_num)
      (by norm_num) (by norm_num) (by norm_num) [w] rfl fas ps h h0 _ rfl
    refine ⟨K, fun t ht => (hK t ht).trans ?_⟩
    have h1 : (1 / 100 : ℝ) ≤ √((1 - 0.999) * (1 - 0.9 ^ 2 / 0.999)) := Real.le_sqrt_of_sq_le (by norm_num)
    have h2 : (0.001 : ℝ) * (∑ i ∈ Finset.range 1, |value (Features.dense [(1 : ℝ)]) i|) / √((1 - 0.999) * (1 - 0.9 ^ 2 / 0.999)) ≤ 0.1 := by
      rw [div_le_iff₀ (by linarith)]
      simp [value]
      norm_num at h1 ⊢
      linarith
    generalize (0.001 : ℝ) * (∑ i ∈ Finset.range 1, |value (Features.dense [(1 : ℝ)]) i|) / √((1 - 0.999) * (1 - 0.9 ^ 2 / 0.999)) = S at *
    norm_num at h2 ⊢
    linarith
  · obtain ⟨-, K, hK⟩ := C200_adamax (B := Bias ℝ) ⟨1⟩ () (.dense [1]) 1 rfl ⟨trivial, rfl⟩ hn y 0.001 0.9 0.999 (by norm_num) (by norm_num)
      (by norm_num) (by norm_num) [w] rfl fas' ps' h' h0' _ rfl
    refine ⟨K, fun t ht => (hK t ht).trans ?_⟩
    simp [value]
    norm_num

end Lfa

import Verif.Proofs.Sweep
import Mathlib.Order.Filter.AtTopBot.Basic

/-!
# Rank-one updates in any order

Finitely many updates `w ↦ w + c i (y i - ⟨g i, w⟩) g i`, applied in the order `σ`.
-/

namespace Lfa.Sweep

open Filter Topology

noncomputable section

variable {E ι : Type} [NormedAddCommGroup E] [InnerProductSpace ℝ E]

theorem run_congr {a a' : ℕ → ℝ} {f f' : ℕ → E} {m : ℕ} (h : ∀ k < m, a k = a' k ∧ f k = f' k) (u : E) :
    run a f u m = run a' f' u m := by
  induction m with
  | zero => rfl
  | succ m ih =>
    show lin _ _ _ = lin _ _ _
    rw [ih fun k hk => h k (by omega), (h m (by omega)).1, (h m (by omega)).2]

theorem run_after (a : ℕ → ℝ) (f : ℕ → E) (u : E) (j k : ℕ) :
    run a f u (j + k) = run (fun i => a (j + i)) (fun i => f (j + i)) (run a f u j) k := by
  induction k with
  | zero => rfl
  | succ k ih =>
    show lin (a (j + k)) (f (j + k)) (run a f u (j + k)) = _
    rw [ih]
    rfl

/-- A run through updates that leave `u` alone. -/
theorem run_fixed {a : ℕ → ℝ} {f : ℕ → E} {u : E} {m : ℕ} (h : ∀ k < m, inner ℝ (f k) u = 0) : run a f u m = u := by
  induction m with
  | zero => rfl
  | succ m ih =>
    show lin _ _ (run a f u m) = u
    rw [ih fun k hk => h k (by omega)]
    unfold lin
    rw [h m (by omega), mul_zero, zero_smul, sub_zero]

/-- One factor for every order of finitely many updates in which each occurs at least once, however often. -/
theorem order_factor [FiniteDimensional ℝ E] [Finite ι] {c : ι → ℝ} {g : ι → E}
    (h : ∀ i, 0 < c i ∧ c i * ‖g i‖ ^ 2 < 2) :
    ∃ r : ℝ, 0 ≤ r ∧ r < 1 ∧ ∀ (σ : ℕ → ι) (m : ℕ), (∀ i, ∃ k < m, σ k = i) → ∀ u ∈ Submodule.span ℝ (Set.range g),
      ‖run (fun k => c (σ k)) (fun k => g (σ k)) u m‖ ≤ r * ‖u‖ := by
  have := Fintype.ofFinite ι
  have : ProperSpace E := FiniteDimensional.proper ℝ E
  have hst : ∀ σ : ℕ → ι, Stable (fun k => c (σ k)) (fun k => g (σ k)) := fun σ k => h (σ k)
  set V : Submodule ℝ E := Submodule.span ℝ (Set.range g) with hV
  have hc : IsCompact ((Metric.sphere (0 : E) 1) ∩ (V : Set E)) :=
    (isCompact_sphere _ _).inter_right (Submodule.closed_of_finiteDimensional _)
  have key : ∃ r : ℝ, 0 ≤ r ∧ r < 1 ∧ ∀ v ∈ (Metric.sphere (0 : E) 1) ∩ (V : Set E), ∀ (σ : ℕ → ι) (m : ℕ),
      (∀ i, ∃ k < m, σ k = i) → ‖run (fun k => c (σ k)) (fun k => g (σ k)) v m‖ ≤ r := by
    refine hc.induction_on (p := fun S => ∃ r : ℝ, 0 ≤ r ∧ r < 1 ∧ ∀ v ∈ S, ∀ (σ : ℕ → ι) (m : ℕ),
      (∀ i, ∃ k < m, σ k = i) → ‖run (fun k => c (σ k)) (fun k => g (σ k)) v m‖ ≤ r) ?_ ?_ ?_ ?_
    · exact ⟨0, le_rfl, zero_lt_one, fun v hv => absurd hv (Set.notMem_empty v)⟩
    · rintro s t hst ⟨r, h0, h1, hr⟩
      exact ⟨r, h0, h1, fun v hv => hr v (hst hv)⟩
    · rintro s t ⟨r, h0, h1, hr⟩ ⟨r', h0', h1', hr'⟩
      refine ⟨max r r', le_max_of_le_left h0, max_lt h1 h1', fun v hv σ m hm => ?_⟩
      rcases hv with hv | hv
      · exact (hr v hv σ m hm).trans (le_max_left _ _)
      · exact (hr' v hv σ m hm).trans (le_max_right _ _)
    · rintro u ⟨hu1, huV⟩
      have hu1 : ‖u‖ = 1 := by simpa using hu1
      classical
      -- some update moves `u`
      have hne : (Finset.univ.filter fun i => inner ℝ (g i) u ≠ 0).Nonempty := by
        by_contra hc
        rw [Finset.not_nonempty_iff_eq_empty, Finset.filter_eq_empty_iff] at hc
        have h0 : ∀ i, inner ℝ (g i) u = 0 := fun i => not_not.1 (hc (Finset.mem_univ i))
        have : inner ℝ u u = 0 := by
          refine Submodule.span_induction (p := fun v _ => inner ℝ v u = 0) ?_ (inner_zero_left _) ?_ ?_ huV
          · rintro _ ⟨i, rfl⟩
            exact h0 i
          · intro x y _ _ hx hy
            rw [inner_add_left, hx, hy, add_zero]
          · intro d x _ hx
            rw [inner_smul_left, hx, mul_zero]
        rw [inner_self_eq_zero.1 this, norm_zero] at hu1
        exact zero_ne_one hu1
      obtain ⟨i₀, hi₀, hmin⟩ := Finset.exists_max_image _ (fun i => ‖lin (c i) (g i) u‖) hne
      have lt : ∀ i, inner ℝ (g i) u ≠ 0 → ‖lin (c i) (g i) u‖ < 1 := by
        intro i hi
        by_contra hcon
        push Not at hcon
        exact hi (step_eq (hst fun _ => i) 0 u (by rw [hu1]; exact hcon))
      set ρ := ‖lin (c i₀) (g i₀) u‖ with hρ
      have hρ1 : ρ < 1 := lt i₀ (Finset.mem_filter.1 hi₀).2
      have hρ0 : 0 ≤ ρ := norm_nonneg _
      refine ⟨Metric.ball u ((1 - ρ) / 2), mem_nhdsWithin_of_mem_nhds (Metric.ball_mem_nhds u (by linarith)),
        (1 + ρ) / 2, by linarith, by linarith, fun v hv σ m hm => ?_⟩
      have hv : ‖v - u‖ < (1 - ρ) / 2 := by rwa [Metric.mem_ball, dist_eq_norm] at hv
      -- the first update that moves `u`
      have hex : ∃ k, k < m ∧ inner ℝ (g (σ k)) u ≠ 0 := by
        obtain ⟨k, hk, hki⟩ := hm i₀
        exact ⟨k, hk, by rw [hki]; exact (Finset.mem_filter.1 hi₀).2⟩
      obtain ⟨hk1, hk2⟩ := Nat.find_spec hex
      set k := Nat.find hex with hk
      have hfix : run (fun k => c (σ k)) (fun k => g (σ k)) u k = u := run_fixed fun j hj => by
        have := Nat.find_min hex hj
        by_contra hcon
        exact this ⟨by omega, hcon⟩
      have e1 : run (fun k => c (σ k)) (fun k => g (σ k)) v (k + 1) = lin (c (σ k)) (g (σ k)) u +
          run (fun k => c (σ k)) (fun k => g (σ k)) (v - u) (k + 1) := by
        have : v = u + (v - u) := by abel
        conv_lhs => rw [this]
        rw [run_add]
        congr 1
        show lin _ _ (run _ _ u k) = _
        rw [hfix]
      have e2 := run_after (fun k => c (σ k)) (fun k => g (σ k)) v (k + 1) (m - (k + 1))
      rw [show k + 1 + (m - (k + 1)) = m by omega] at e2
      rw [e2]
      refine (run_le (fun i => h (σ (k + 1 + i))) _ _).trans ?_
      rw [e1]
      refine (norm_add_le _ _).trans ?_
      have e3 := run_le (hst σ) (v - u) (k + 1)
      have e4 := hmin (σ k) (Finset.mem_filter.2 ⟨Finset.mem_univ _, hk2⟩)
      linarith
  obtain ⟨r, h0, h1, hr⟩ := key
  refine ⟨r, h0, h1, fun σ m hm u hu => ?_⟩
  by_cases hz : u = 0
  · rw [hz]
    have := run_le (hst σ) (0 : E) m
    rw [norm_zero] at this ⊢
    rwa [mul_zero]
  · have hn : 0 < ‖u‖ := norm_pos_iff.2 hz
    have := hr (‖u‖⁻¹ • u) ⟨by simp [norm_smul, hn.ne'], Submodule.smul_mem _ _ hu⟩ σ m hm
    rw [run_smul, norm_smul, norm_inv, norm_norm, inv_mul_le_iff₀ hn] at this
    linarith

theorem run_span {c : ι → ℝ} {g : ι → E} (σ : ℕ → ι) {u : E} (hu : u ∈ Submodule.span ℝ (Set.range g)) (k : ℕ) :
    run (fun k => c (σ k)) (fun k => g (σ k)) u k ∈ Submodule.span ℝ (Set.range g) := by
  induction k with
  | zero => exact hu
  | succ k ih => exact Submodule.sub_mem _ ih (Submodule.smul_mem _ _ (Submodule.subset_span ⟨_, rfl⟩))

/-- Epochs `[t j, t (j + 1))` that contain every update. -/
theorem epochs_decay {c : ι → ℝ} {g : ι → E} (h : ∀ i, 0 < c i ∧ c i * ‖g i‖ ^ 2 < 2) {r : ℝ} (h0 : 0 ≤ r)
    (hr : ∀ (σ : ℕ → ι) (m : ℕ), (∀ i, ∃ k < m, σ k = i) → ∀ u ∈ Submodule.span ℝ (Set.range g),
      ‖run (fun k => c (σ k)) (fun k => g (σ k)) u m‖ ≤ r * ‖u‖) (σ : ℕ → ι) (t : ℕ → ℕ)
    (ht : ∀ j, ∀ i, ∃ k, t j ≤ k ∧ k < t (j + 1) ∧ σ k = i) (hm : Monotone t) {u : E}
    (hu : u ∈ Submodule.span ℝ (Set.range g)) (j : ℕ) : ∀ k ≥ t j,
      ‖run (fun k => c (σ k)) (fun k => g (σ k)) u k‖ ≤ r ^ j * ‖u‖ := by
  have shrink : ∀ j k, j ≤ k → ‖run (fun k => c (σ k)) (fun k => g (σ k)) u k‖ ≤
      ‖run (fun k => c (σ k)) (fun k => g (σ k)) u j‖ := by
    intro j k hjk
    obtain ⟨d, rfl⟩ := Nat.exists_eq_add_of_le hjk
    rw [run_after]
    exact run_le (fun i => h (σ (j + i))) _ _
  suffices H : ‖run (fun k => c (σ k)) (fun k => g (σ k)) u (t j)‖ ≤ r ^ j * ‖u‖ from fun k hk => (shrink _ _ hk).trans H
  induction j with
  | zero => rw [pow_zero, one_mul]; exact run_le (fun k => h (σ k)) _ _
  | succ j ih =>
    obtain ⟨d, hd⟩ := Nat.exists_eq_add_of_le (hm (Nat.le_succ j))
    have hd : t (j + 1) = t j + d := hd
    rw [hd, run_after]
    refine (hr (fun i => σ (t j + i)) d (fun i => ?_) _ (run_span σ hu _)).trans ?_
    · obtain ⟨k, h1, h2, h3⟩ := ht j i
      refine ⟨k - t j, by omega, ?_⟩
      show σ (t j + (k - t j)) = i
      rw [Nat.add_sub_cancel' h1, h3]
    · rw [pow_succ', mul_assoc]
      exact mul_le_mul_of_nonneg_left ih h0

/-- If every update occurs again and again, the order can be cut into epochs. -/
theorem exists_epochs [Finite ι] (σ : ℕ → ι) (h : ∀ i, ∃ᶠ k in atTop, σ k = i) :
    ∃ t : ℕ → ℕ, t 0 = 0 ∧ Monotone t ∧ ∀ j, ∀ i, ∃ k, t j ≤ k ∧ k < t (j + 1) ∧ σ k = i := by
  have := Fintype.ofFinite ι
  have next : ∀ n, ∃ m, n ≤ m ∧ ∀ i, ∃ k, n ≤ k ∧ k < m ∧ σ k = i := by
    intro n
    choose k hk using fun i => Filter.frequently_atTop.1 (h i) n
    refine ⟨n + ∑ i, (k i + 1), by omega, fun i => ⟨k i, (hk i).1, ?_, (hk i).2⟩⟩
    have := Finset.single_le_sum (f := fun i => k i + 1) (fun _ _ => Nat.zero_le _) (Finset.mem_univ i)
    omega
  choose F hF using next
  refine ⟨fun j => Nat.rec 0 (fun _ n => F n) j, rfl, monotone_nat_of_le_succ fun j => (hF _).1, fun j => (hF _).2⟩

end

end Lfa.Sweep

import Mathlib.Analysis.InnerProductSpace.PiL2
import Mathlib.Analysis.Normed.Module.FiniteDimension
import Mathlib.Topology.MetricSpace.ProperSpace

/-!
# Cycling through finitely many rank-one updates

`w ↦ w + α (y - ⟨φ, w⟩) φ` for periodic `α`, `y`, `φ` with `0 < α`, `α ‖φ‖² < 2`.
-/

namespace Lfa.Sweep

noncomputable section

variable {E : Type} [NormedAddCommGroup E] [InnerProductSpace ℝ E]

/-- The linear part of an update. -/
def lin (a : ℝ) (f u : E) : E := u - (a * inner ℝ f u) • f

theorem lin_add (a : ℝ) (f u v : E) : lin a f (u + v) = lin a f u + lin a f v := by
  unfold lin
  rw [inner_add_right, mul_add, add_smul]
  abel

theorem lin_smul (a c : ℝ) (f u : E) : lin a f (c • u) = c • lin a f u := by
  unfold lin
  rw [inner_smul_right, smul_sub, smul_smul]
  congr 2
  ring

theorem norm_lin (a : ℝ) (f u : E) :
    ‖lin a f u‖ ^ 2 = ‖u‖ ^ 2 - a * (2 - a * ‖f‖ ^ 2) * (inner ℝ f u) ^ 2 := by
  unfold lin
  rw [norm_sub_sq_real, inner_smul_right, norm_smul, mul_pow, Real.norm_eq_abs, sq_abs,
    real_inner_comm]
  ring

variable (a : ℕ → ℝ) (f : ℕ → E)

/-- The linear parts of the first `k` updates. -/
def run (u : E) : ℕ → E
  | 0 => u
  | k + 1 => lin (a k) (f k) (run u k)

theorem run_add (u v : E) (k : ℕ) : run a f (u + v) k = run a f u k + run a f v k := by
  induction k with
  | zero => rfl
  | succ k ih => show lin _ _ _ = _; rw [ih, lin_add]; rfl

theorem run_smul (c : ℝ) (u : E) (k : ℕ) : run a f (c • u) k = c • run a f u k := by
  induction k with
  | zero => rfl
  | succ k ih => show lin _ _ _ = _; rw [ih, lin_smul]; rfl

/-- The updates as a linear map. -/
def runL (k : ℕ) : E →ₗ[ℝ] E where
  toFun u := run a f u k
  map_add' u v := run_add a f u v k
  map_smul' c u := run_smul a f c u k

variable {a f} {N : ℕ}

/-- Every step size is stable. -/
def Stable (a : ℕ → ℝ) (f : ℕ → E) : Prop := ∀ k, 0 < a k ∧ a k * ‖f k‖ ^ 2 < 2

theorem step_le (h : Stable a f) (k : ℕ) (u : E) : ‖lin (a k) (f k) u‖ ≤ ‖u‖ := by
  refine le_of_sq_le_sq ?_ (norm_nonneg _)
  rw [norm_lin]
  have := mul_nonneg (mul_nonneg (h k).1.le (sub_nonneg.2 (h k).2.le)) (sq_nonneg (inner ℝ (f k) u))
  linarith

theorem step_eq (h : Stable a f) (k : ℕ) (u : E) (he : ‖u‖ ≤ ‖lin (a k) (f k) u‖) :
    inner ℝ (f k) u = 0 := by
  have h1 : ‖u‖ ^ 2 ≤ ‖lin (a k) (f k) u‖ ^ 2 := pow_le_pow_left₀ (norm_nonneg _) he 2
  rw [norm_lin] at h1
  have h2 := mul_pos (h k).1 (sub_pos.2 (h k).2)
  have h3 : (inner ℝ (f k) u) ^ 2 ≤ 0 := by
    by_contra hc
    push Not at hc
    have := mul_pos h2 hc
    linarith
  exact pow_eq_zero_iff (two_ne_zero) |>.1 (le_antisymm h3 (sq_nonneg _))

theorem run_le (h : Stable a f) (u : E) (k : ℕ) : ‖run a f u k‖ ≤ ‖u‖ := by
  induction k with
  | zero => exact le_rfl
  | succ k ih => exact (step_le h k _).trans ih

/-- A run that keeps the norm leaves the vector alone. -/
theorem run_eq (h : Stable a f) (u : E) : ∀ k, ‖u‖ ≤ ‖run a f u k‖ →
    run a f u k = u ∧ ∀ j < k, inner ℝ (f j) u = 0
  | 0, _ => ⟨rfl, fun j hj => absurd hj (Nat.not_lt_zero j)⟩
  | k + 1, he => by
    obtain ⟨h1, h2⟩ := run_eq h u k (he.trans (step_le h k _))
    have he : ‖u‖ ≤ ‖lin (a k) (f k) (run a f u k)‖ := he
    rw [h1] at he
    have h3 := step_eq h k u he
    refine ⟨?_, fun j hj => ?_⟩
    · show lin _ _ (run a f u k) = u
      rw [h1]
      unfold lin
      rw [h3, mul_zero, zero_smul, sub_zero]
    · rcases Nat.lt_succ_iff_lt_or_eq.1 hj with hj | rfl
      · exact h2 j hj
      · exact h3

/-- The span of the features of one sweep. -/
def V (f : ℕ → E) (N : ℕ) : Submodule ℝ E := Submodule.span ℝ (f '' {k | k < N})

theorem lin_sub_mem (k : ℕ) (hk : f k ∈ V f N) {u : E} (c : ℝ) (hu : u ∈ V f N) :
    lin c (f k) u ∈ V f N := Submodule.sub_mem _ hu (Submodule.smul_mem _ _ hk)

theorem mem_V (hN : 0 < N) (hf : ∀ k, f (k + N) = f k) (k : ℕ) : f k ∈ V f N := by
  have : f k = f (k % N) := by
    conv_lhs => rw [← Nat.mod_add_div k N]
    generalize k / N = m
    induction m with
    | zero => rfl
    | succ m ih => rw [Nat.mul_succ, ← Nat.add_assoc, hf, ih]
  rw [this]
  exact Submodule.subset_span ⟨k % N, Nat.mod_lt _ hN, rfl⟩

theorem run_mem (hV : ∀ k, f k ∈ V f N) {u : E} (hu : u ∈ V f N) (k : ℕ) : run a f u k ∈ V f N := by
  induction k with
  | zero => exact hu
  | succ k ih => exact lin_sub_mem k (hV k) _ ih

theorem orth (u : E) (h : ∀ j < N, inner ℝ (f j) u = 0) {v : E} (hv : v ∈ V f N) :
    inner ℝ v u = 0 := by
  refine Submodule.span_induction (p := fun v _ => inner ℝ v u = 0) ?_ (inner_zero_left _) ?_ ?_ hv
  · rintro _ ⟨j, hj, rfl⟩
    exact h j hj
  · intro x y _ _ hx hy
    rw [inner_add_left, hx, hy, add_zero]
  · intro c x _ hx
    rw [inner_smul_left, hx, mul_zero]

/-- On the span of the features one sweep is a strict contraction. -/
theorem sweep_lt (h : Stable a f) {u : E} (hu : u ∈ V f N) (h0 : u ≠ 0) : ‖run a f u N‖ < ‖u‖ := by
  by_contra hc
  push Not at hc
  have := (run_eq h u N hc).2
  exact h0 (inner_self_eq_zero.1 (orth u this hu))

/-- With a factor that does not depend on the vector. -/
theorem sweep_factor [FiniteDimensional ℝ E] (h : Stable a f) (N : ℕ) :
    ∃ r : ℝ, 0 ≤ r ∧ r < 1 ∧ ∀ u ∈ V f N, ‖run a f u N‖ ≤ r * ‖u‖ := by
  by_cases hne : ((Metric.sphere (0 : E) 1) ∩ (V f N : Set E)).Nonempty
  · have : ProperSpace E := FiniteDimensional.proper ℝ E
    have hc : IsCompact ((Metric.sphere (0 : E) 1) ∩ (V f N : Set E)) :=
      (isCompact_sphere _ _).inter_right (Submodule.closed_of_finiteDimensional _)
    have hcont : Continuous fun u => ‖run a f u N‖ :=
      (LinearMap.continuous_of_finiteDimensional (runL a f N)).norm
    obtain ⟨m, hm, hmax⟩ := hc.exists_isMaxOn hne hcont.continuousOn
    have hm1 : ‖m‖ = 1 := by simpa using hm.1
    refine ⟨‖run a f m N‖, norm_nonneg _, ?_, fun u hu => ?_⟩
    · rw [← hm1]
      refine sweep_lt h hm.2 fun hz => ?_
      rw [hz, norm_zero] at hm1
      exact zero_ne_one hm1
    · by_cases h0 : u = 0
      · rw [h0]
        have := run_le h (0 : E) N
        rw [norm_zero] at this ⊢
        rwa [mul_zero]
      · have hn : 0 < ‖u‖ := norm_pos_iff.2 h0
        have := hmax (a := ‖u‖⁻¹ • u) ⟨by simp [norm_smul, hn.ne'], Submodule.smul_mem _ _ hu⟩
        have : ‖run a f (‖u‖⁻¹ • u) N‖ ≤ ‖run a f m N‖ := this
        rw [run_smul, norm_smul, norm_inv, norm_norm, inv_mul_le_iff₀ hn] at this
        linarith
  · refine ⟨0, le_rfl, zero_lt_one, fun u hu => ?_⟩
    have h0 : u = 0 := by
      by_contra h0
      have hn : 0 < ‖u‖ := norm_pos_iff.2 h0
      exact hne ⟨‖u‖⁻¹ • u, by simp [norm_smul, hn.ne'], Submodule.smul_mem _ _ hu⟩
    rw [h0]
    simpa using run_le h (0 : E) N

/-! ## Affine runs -/

/-- The weights after `k` updates from `w`. -/
def aff (a : ℕ → ℝ) (f : ℕ → E) (y : ℕ → ℝ) (w : E) : ℕ → E
  | 0 => w
  | k + 1 => aff a f y w k + (a k * (y k - inner ℝ (f k) (aff a f y w k))) • f k

variable {y : ℕ → ℝ}

theorem aff_sub (w v : E) (k : ℕ) : aff a f y w k - aff a f y v k = run a f (w - v) k := by
  induction k with
  | zero => rfl
  | succ k ih =>
    show (aff a f y w k + (a k * (y k - inner ℝ (f k) (aff a f y w k))) • f k) -
      (aff a f y v k + (a k * (y k - inner ℝ (f k) (aff a f y v k))) • f k) = lin _ _ _
    rw [← ih]
    unfold lin
    rw [inner_sub_right, mul_sub, mul_sub, mul_sub, sub_smul, sub_smul, sub_smul]
    abel

theorem aff_mem (hV : ∀ k, f k ∈ V f N) (w : E) (k : ℕ) : aff a f y w k - w ∈ V f N := by
  induction k with
  | zero => show w - w ∈ _; rw [sub_self]; exact Submodule.zero_mem _
  | succ k ih =>
    show (_ + _) - w ∈ _
    rw [add_sub_right_comm]
    exact Submodule.add_mem _ ih (Submodule.smul_mem _ _ (hV k))

theorem aff_shift (ha : ∀ k, a (k + N) = a k) (hf : ∀ k, f (k + N) = f k) (hy : ∀ k, y (k + N) = y k)
    (w : E) (k : ℕ) : aff a f y w (k + N) = aff a f y (aff a f y w N) k := by
  induction k with
  | zero => rw [Nat.zero_add]; rfl
  | succ k ih =>
    rw [Nat.succ_add]
    show _ + _ = _ + _
    rw [ih, ha, hf, hy]

theorem run_shift (ha : ∀ k, a (k + N) = a k) (hf : ∀ k, f (k + N) = f k) (u : E) (k : ℕ) :
    run a f u (k + N) = run a f (run a f u N) k := by
  induction k with
  | zero => rw [Nat.zero_add]; rfl
  | succ k ih =>
    rw [Nat.succ_add]
    show lin _ _ _ = lin _ _ _
    rw [ih, ha, hf]

/-- Geometric decay on the span. -/
theorem run_decay (h : Stable a f) (hN : 0 < N) (ha : ∀ k, a (k + N) = a k)
    (hf : ∀ k, f (k + N) = f k) {r : ℝ} (h0 : 0 ≤ r)
    (hr : ∀ u ∈ V f N, ‖run a f u N‖ ≤ r * ‖u‖) (k : ℕ) :
    ∀ {u : E}, u ∈ V f N → ‖run a f u k‖ ≤ r ^ (k / N) * ‖u‖ := by
  have hV := mem_V hN hf
  induction k using Nat.strong_induction_on with
  | _ k ih =>
    intro u hu
    by_cases hk : k < N
    · rw [Nat.div_eq_of_lt hk, pow_zero, one_mul]
      exact run_le h u k
    · obtain ⟨j, rfl⟩ := Nat.exists_eq_add_of_le' (not_lt.1 hk)
      rw [run_shift ha hf, Nat.add_div_right _ hN, pow_succ, mul_assoc]
      exact (ih j (by omega) (run_mem hV hu N)).trans
        (mul_le_mul_of_nonneg_left (hr u hu) (pow_nonneg h0 _))

/-- A periodic run through the affine span of the features. -/
theorem exists_cycle [FiniteDimensional ℝ E] (h : Stable a f) (hN : 0 < N)
    (hf : ∀ k, f (k + N) = f k) (y : ℕ → ℝ) (w : E) :
    ∃ v : E, v - w ∈ V f N ∧ aff a f y v N = v := by
  have hV := mem_V hN hf
  let T : V f N →ₗ[ℝ] V f N :=
    LinearMap.id - (runL a f N).restrict (fun u hu => run_mem hV hu N)
  have hinj : Function.Injective T := by
    rw [← LinearMap.ker_eq_bot, LinearMap.ker_eq_bot']
    intro u hu
    by_contra h0
    have h1 : (u : E) ≠ 0 := fun hz => h0 (Subtype.ext hz)
    have h2 := sweep_lt h u.2 h1
    have h3 : (u : E) - run a f u N = 0 := congrArg Subtype.val hu
    rw [← sub_eq_zero.1 h3] at h2
    exact lt_irrefl _ h2
  obtain ⟨z, hz⟩ := LinearMap.surjective_of_injective hinj
    ⟨aff a f y w N - w, aff_mem hV w N⟩
  have hz : (z : E) - run a f z N = aff a f y w N - w := congrArg Subtype.val hz
  refine ⟨w + z, by rw [add_sub_cancel_left]; exact z.2, ?_⟩
  have h1 := aff_sub (a := a) (f := f) (y := y) (w + z) w N
  rw [add_sub_cancel_left] at h1
  have h2 : aff a f y (w + z) N = aff a f y w N + run a f z N := by rw [← h1]; abel
  rw [h2]
  have h3 : aff a f y w N = (z : E) - run a f z N + w := by rw [hz]; abel
  rw [h3]
  abel

/-- Everything about cyclic runs. -/
theorem cyclic [FiniteDimensional ℝ E] (h : Stable a f) (hN : 0 < N) (ha : ∀ k, a (k + N) = a k)
    (hf : ∀ k, f (k + N) = f k) :
    ∃ r : ℝ, 0 ≤ r ∧ r < 1 ∧ ∀ (y : ℕ → ℝ), (∀ k, y (k + N) = y k) → ∀ w : E, ∃ v : E,
      (∀ k, aff a f y v (k + N) = aff a f y v k) ∧
      (∀ k, ‖aff a f y w k - aff a f y v k‖ ≤ r ^ (k / N) * ‖w - v‖) ∧
      (∀ s : E, (∀ k, inner ℝ (f k) s = y k) → (∀ k, aff a f y v k = v ∧ inner ℝ (f k) v = y k) ∧
        ‖w - s‖ ^ 2 = ‖w - v‖ ^ 2 + ‖v - s‖ ^ 2) := by
  obtain ⟨r, h0, h1, hr⟩ := sweep_factor h N
  have hV := mem_V hN hf
  refine ⟨r, h0, h1, fun y hy w => ?_⟩
  obtain ⟨v, hv, hfix⟩ := exists_cycle h hN hf y w
  refine ⟨v, fun k => ?_, fun k => ?_, fun s hs => ?_⟩
  · rw [aff_shift ha hf hy, hfix]
  · rw [aff_sub]
    refine run_decay h hN ha hf h0 hr k ?_
    rw [← neg_sub]
    exact Submodule.neg_mem _ hv
  · have hsk : ∀ k, aff a f y s k = s := by
      intro k
      induction k with
      | zero => rfl
      | succ k ih => show _ + _ = _; rw [ih, hs, sub_self, mul_zero, zero_smul, add_zero]
    have hd : run a f (v - s) N = v - s := by
      rw [← aff_sub (y := y), hfix, hsk]
    have ho := (run_eq h (v - s) N (by rw [hd])).2
    have hfk : ∀ k, inner ℝ (f k) (v - s) = 0 := fun k => orth _ ho (hV k)
    have hpred : ∀ k, inner ℝ (f k) v = y k := fun k => by
      have := hfk k
      rw [inner_sub_right, hs] at this
      linarith
    refine ⟨fun k => ⟨?_, hpred k⟩, ?_⟩
    · induction k with
      | zero => rfl
      | succ k ih => show _ + _ = _; rw [ih, hpred, sub_self, mul_zero, zero_smul, add_zero]
    · have hw : w - v ∈ V f N := by rw [← neg_sub]; exact Submodule.neg_mem _ hv
      have := orth _ ho hw
      rw [← sub_add_sub_cancel w v s, norm_add_sq_real, this]
      ring

/-- Over a cycle the corrections cancel. -/
theorem balanced {v : E} (hv : aff a f y v N = v) :
    ∑ k ∈ Finset.range N, (a k * (y k - inner ℝ (f k) (aff a f y v k))) • f k = 0 := by
  have : ∀ k, aff a f y v k = v + ∑ j ∈ Finset.range k,
      (a j * (y j - inner ℝ (f j) (aff a f y v j))) • f j := by
    intro k
    induction k with
    | zero => rw [Finset.sum_range_zero, add_zero]; rfl
    | succ k ih =>
      rw [Finset.sum_range_succ, ← add_assoc, ← ih]
      rfl
  have h := this N
  rw [hv] at h
  exact (left_eq_add.1 h)

end

end Lfa.Sweep

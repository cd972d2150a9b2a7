import Verif.Proofs.Sweep
import Mathlib.Algebra.Order.Chebyshev
import Mathlib.Algebra.BigOperators.Fin
import Mathlib.Data.Fintype.BigOperators
import Mathlib.Analysis.InnerProductSpace.Convex

/-!
# Averages over all orders in which examples can be drawn

`avg k g` is the mean of `g` over all `N ^ k` sequences of `k` draws, with replacement, from `N` examples.
-/

set_option linter.unusedSectionVars false

namespace Lfa.Sweep

noncomputable section

variable {E : Type} [NormedAddCommGroup E] [InnerProductSpace ℝ E]
variable {F : Type} [AddCommGroup F] [Module ℝ F]
variable {N : ℕ}

/-- The mean over all sequences of `k` draws. -/
def avg (k : ℕ) (g : List (Fin N) → F) : F := ((N : ℝ) ^ k)⁻¹ • ∑ s : Fin k → Fin N, g (List.ofFn s)

theorem avg_zero (g : List (Fin N) → F) : avg 0 g = g [] := by
  unfold avg
  simp

theorem avg_succ (k : ℕ) (g : List (Fin N) → F) :
    avg (k + 1) g = (N : ℝ)⁻¹ • ∑ j, avg k fun l => g (l ++ [j]) := by
  unfold avg
  rw [← Finset.smul_sum, smul_smul, pow_succ, mul_inv, mul_comm ((N : ℝ) ^ k)⁻¹]
  congr 1
  rw [← (Fin.snocEquiv fun _ => Fin N).sum_comp, Fintype.sum_prod_type]
  refine Finset.sum_congr rfl fun j _ => Finset.sum_congr rfl fun s _ => ?_
  congr 1
  rw [List.ofFn_succ', List.concat_eq_append]
  congr 1
  · congr 1
    funext i
    simp [Fin.snocEquiv]
  · simp [Fin.snocEquiv]

theorem avg_add (k : ℕ) (g h : List (Fin N) → F) : avg k (fun l => g l + h l) = avg k g + avg k h := by
  unfold avg
  rw [Finset.sum_add_distrib, smul_add]

theorem avg_map {G : Type} [AddCommGroup G] [Module ℝ G] (L : F →ₗ[ℝ] G) (k : ℕ) (g : List (Fin N) → F) :
    avg k (fun l => L (g l)) = L (avg k g) := by
  unfold avg
  rw [map_smul, map_sum]

theorem avg_const (hN : 0 < N) (k : ℕ) (c : F) : avg (N := N) k (fun _ => c) = c := by
  have : (N : ℝ) ≠ 0 := by exact_mod_cast hN.ne'
  unfold avg
  rw [Finset.sum_const, Finset.card_univ, Fintype.card_fun, Fintype.card_fin, Fintype.card_fin,
    ← Nat.cast_smul_eq_nsmul ℝ, smul_smul, Nat.cast_pow, inv_mul_cancel₀ (pow_ne_zero _ this), one_smul]

theorem avg_mono (k : ℕ) {g h : List (Fin N) → ℝ} (H : ∀ l, g l ≤ h l) : avg k g ≤ avg k h := by
  unfold avg
  exact mul_le_mul_of_nonneg_left (Finset.sum_le_sum fun s _ => H _) (by positivity)

/-- The linear part of an update as a linear map. -/
def linL (a : ℝ) (f : E) : E →ₗ[ℝ] E where
  toFun u := lin a f u
  map_add' u v := lin_add a f u v
  map_smul' c u := lin_smul a c f u

variable (a : Fin N → ℝ) (f : Fin N → E)

/-- The mean of the linear parts. -/
def meanL : E →ₗ[ℝ] E := (N : ℝ)⁻¹ • ∑ j, linL (a j) (f j)

theorem meanL_apply (u : E) : meanL a f u = (N : ℝ)⁻¹ • ∑ j, lin (a j) (f j) u := by
  unfold meanL
  rw [LinearMap.smul_apply, LinearMap.sum_apply]
  rfl

/-- The span of all features. -/
def U : Submodule ℝ E := Submodule.span ℝ (Set.range f)

variable {a f}

theorem mem_U (j : Fin N) : f j ∈ U f := Submodule.subset_span ⟨j, rfl⟩

theorem orth_U {u v : E} (h : ∀ j, inner ℝ (f j) u = 0) (hv : v ∈ U f) : inner ℝ v u = 0 := by
  refine Submodule.span_induction (p := fun v _ => inner ℝ v u = 0) ?_ (inner_zero_left _) ?_ ?_ hv
  · rintro _ ⟨j, rfl⟩
    exact h j
  · intro x y _ _ hx hy
    rw [inner_add_left, hx, hy, add_zero]
  · intro c x _ hx
    rw [inner_smul_left, hx, mul_zero]

theorem meanL_mem {u : E} (hu : u ∈ U f) : meanL a f u ∈ U f := by
  rw [meanL_apply]
  exact Submodule.smul_mem _ _ (Submodule.sum_mem _ fun j _ =>
    Submodule.sub_mem _ hu (Submodule.smul_mem _ _ (mem_U j)))

/-- The mean squared norm after one draw. -/
theorem mean_sq (hN : 0 < N) (u : E) : (N : ℝ)⁻¹ * ∑ j, ‖lin (a j) (f j) u‖ ^ 2 =
    ‖u‖ ^ 2 - (N : ℝ)⁻¹ * ∑ j, a j * (2 - a j * ‖f j‖ ^ 2) * inner ℝ (f j) u ^ 2 := by
  have : (N : ℝ) ≠ 0 := by exact_mod_cast hN.ne'
  simp only [norm_lin]
  rw [Finset.sum_sub_distrib, Finset.sum_const, Finset.card_univ, Fintype.card_fin, nsmul_eq_mul, mul_sub,
    ← mul_assoc, inv_mul_cancel₀ this, one_mul]

/-- Jensen. -/
theorem meanL_sq_le (hN : 0 < N) (u : E) :
    ‖meanL a f u‖ ^ 2 ≤ (N : ℝ)⁻¹ * ∑ j, ‖lin (a j) (f j) u‖ ^ 2 := by
  have hn : (0 : ℝ) < N := by exact_mod_cast hN
  rw [meanL_apply, norm_smul, norm_inv, Real.norm_natCast, mul_pow]
  have h1 : ‖∑ j, lin (a j) (f j) u‖ ^ 2 ≤ (∑ j, ‖lin (a j) (f j) u‖) ^ 2 :=
    pow_le_pow_left₀ (norm_nonneg _) (norm_sum_le _ _) 2
  have h2 : (∑ j, ‖lin (a j) (f j) u‖) ^ 2 ≤ N * ∑ j, ‖lin (a j) (f j) u‖ ^ 2 := by
    have := sq_sum_le_card_mul_sum_sq (s := Finset.univ) (f := fun j => ‖lin (a j) (f j) u‖)
    rwa [Finset.card_univ, Fintype.card_fin] at this
  calc (N : ℝ)⁻¹ ^ 2 * ‖∑ j, lin (a j) (f j) u‖ ^ 2
      ≤ (N : ℝ)⁻¹ ^ 2 * (N * ∑ j, ‖lin (a j) (f j) u‖ ^ 2) :=
        mul_le_mul_of_nonneg_left (h1.trans h2) (by positivity)
    _ = (N : ℝ)⁻¹ * ∑ j, ‖lin (a j) (f j) u‖ ^ 2 := by field_simp

/-- On the span of the features one draw shrinks the mean squared norm by a fixed factor. -/
theorem mean_factor [FiniteDimensional ℝ E] (hN : 0 < N) (h : ∀ j, 0 < a j ∧ a j * ‖f j‖ ^ 2 < 2) :
    ∃ r : ℝ, 0 ≤ r ∧ r < 1 ∧ ∀ u ∈ U f, (N : ℝ)⁻¹ * ∑ j, ‖lin (a j) (f j) u‖ ^ 2 ≤ r ^ 2 * ‖u‖ ^ 2 := by
  have hn : (0 : ℝ) < N := by exact_mod_cast hN
  set g : E → ℝ := fun u => √((N : ℝ)⁻¹ * ∑ j, ‖lin (a j) (f j) u‖ ^ 2) with hg
  have hgs : ∀ u, g u ^ 2 = (N : ℝ)⁻¹ * ∑ j, ‖lin (a j) (f j) u‖ ^ 2 := fun u =>
    Real.sq_sqrt (mul_nonneg (inv_nonneg.2 hn.le) (Finset.sum_nonneg fun j _ => sq_nonneg _))
  have hlt : ∀ u ∈ U f, u ≠ 0 → g u < ‖u‖ := by
    intro u hu h0
    refine lt_of_pow_lt_pow_left₀ 2 (norm_nonneg _) ?_
    rw [hgs, mean_sq hN]
    have hp : ∀ j, 0 ≤ a j * (2 - a j * ‖f j‖ ^ 2) * inner ℝ (f j) u ^ 2 := fun j =>
      mul_nonneg (mul_nonneg (h j).1.le (sub_nonneg.2 (h j).2.le)) (sq_nonneg _)
    have hpos : 0 < ∑ j, a j * (2 - a j * ‖f j‖ ^ 2) * inner ℝ (f j) u ^ 2 := by
      refine lt_of_le_of_ne (Finset.sum_nonneg fun j _ => hp j) fun hz => h0 ?_
      have := (Finset.sum_eq_zero_iff_of_nonneg fun j _ => hp j).1 hz.symm
      refine inner_self_eq_zero.1 (orth_U (fun j => ?_) hu)
      have hj := this j (Finset.mem_univ j)
      have hc := (mul_pos (h j).1 (sub_pos.2 (h j).2)).ne'
      exact pow_eq_zero_iff two_ne_zero |>.1 ((mul_eq_zero.1 hj).resolve_left hc)
    have := mul_pos (inv_pos.2 hn) hpos
    linarith
  have hscale : ∀ (c : ℝ) (u : E), g (c • u) ^ 2 = c ^ 2 * g u ^ 2 := by
    intro c u
    rw [hgs, hgs]
    simp only [lin_smul, norm_smul, mul_pow, Real.norm_eq_abs, sq_abs]
    rw [← Finset.mul_sum]
    ring
  have hg0 : ∀ u, 0 ≤ g u := fun u => Real.sqrt_nonneg _
  by_cases hne : ((Metric.sphere (0 : E) 1) ∩ (U f : Set E)).Nonempty
  · have : ProperSpace E := FiniteDimensional.proper ℝ E
    have hc : IsCompact ((Metric.sphere (0 : E) 1) ∩ (U f : Set E)) :=
      (isCompact_sphere _ _).inter_right (Submodule.closed_of_finiteDimensional _)
    have hcont : Continuous g := by
      refine Real.continuous_sqrt.comp (continuous_const.mul (continuous_finsetSum _ fun j _ => ?_))
      exact ((LinearMap.continuous_of_finiteDimensional (linL (a j) (f j))).norm).pow 2
    obtain ⟨m, hm, hmax⟩ := hc.exists_isMaxOn hne hcont.continuousOn
    have hm1 : ‖m‖ = 1 := by simpa using hm.1
    refine ⟨g m, hg0 m, ?_, fun u hu => ?_⟩
    · rw [← hm1]
      refine hlt m hm.2 fun hz => ?_
      rw [hz, norm_zero] at hm1
      exact zero_ne_one hm1
    · rw [← hgs]
      by_cases h0 : u = 0
      · have := hscale 0 0
        rw [h0, norm_zero]
        rw [smul_zero] at this
        rw [this]
        simp
      · have hn : 0 < ‖u‖ := norm_pos_iff.2 h0
        have h1 : g (‖u‖⁻¹ • u) ≤ g m :=
          hmax (a := ‖u‖⁻¹ • u) ⟨by simp [norm_smul, hn.ne'], Submodule.smul_mem _ _ hu⟩
        have h2 := pow_le_pow_left₀ (hg0 _) h1 2
        rw [hscale, inv_pow, inv_mul_le_iff₀ (by positivity)] at h2
        linarith
  · refine ⟨0, le_rfl, zero_lt_one, fun u hu => ?_⟩
    have h0 : u = 0 := by
      by_contra h0
      have hn : 0 < ‖u‖ := norm_pos_iff.2 h0
      exact hne ⟨‖u‖⁻¹ • u, by simp [norm_smul, hn.ne'], Submodule.smul_mem _ _ hu⟩
    have := hscale 0 0
    rw [← hgs, h0]
    rw [smul_zero] at this
    rw [this]
    simp

/-- Weights at which the mean correction is 0, reached from `w` within the span of the features. -/
theorem exists_normal [FiniteDimensional ℝ E] (h : ∀ j, 0 < a j) (y : Fin N → ℝ) (w : E) :
    ∃ v : E, v - w ∈ U f ∧ ∑ j, (a j * (y j - inner ℝ (f j) v)) • f j = 0 := by
  let G : E →ₗ[ℝ] E := ∑ j, (LinearMap.id - linL (a j) (f j))
  have hG : ∀ u, G u = ∑ j, (a j * inner ℝ (f j) u) • f j := by
    intro u
    show (∑ j, (LinearMap.id - linL (a j) (f j)) : E →ₗ[ℝ] E) u = _
    rw [LinearMap.sum_apply]
    refine Finset.sum_congr rfl fun j _ => ?_
    show u - lin (a j) (f j) u = _
    unfold lin
    abel
  have hmem : ∀ u ∈ U f, G u ∈ U f := fun u _ => by
    rw [hG]
    exact Submodule.sum_mem _ fun j _ => Submodule.smul_mem _ _ (mem_U j)
  have hinj : Function.Injective (G.restrict hmem) := by
    rw [← LinearMap.ker_eq_bot, LinearMap.ker_eq_bot']
    intro u hu
    have h1 : G (u : E) = 0 := congrArg Subtype.val hu
    have h2 : inner ℝ (u : E) (G u) = 0 := by rw [h1, inner_zero_right]
    rw [hG, inner_sum] at h2
    have h3 : ∀ j, inner ℝ (u : E) ((a j * inner ℝ (f j) (u : E)) • f j) =
        a j * inner ℝ (f j) (u : E) ^ 2 := fun j => by
      rw [inner_smul_right, real_inner_comm]
      ring
    simp only [h3] at h2
    have h4 := (Finset.sum_eq_zero_iff_of_nonneg fun j _ => mul_nonneg (h j).le (sq_nonneg _)).1 h2
    refine Subtype.ext (inner_self_eq_zero.1 (orth_U (fun j => ?_) u.2))
    exact pow_eq_zero_iff two_ne_zero |>.1
      ((mul_eq_zero.1 (h4 j (Finset.mem_univ j))).resolve_left (h j).ne')
  obtain ⟨z, hz⟩ := LinearMap.surjective_of_injective hinj
    ⟨∑ j, (a j * (y j - inner ℝ (f j) w)) • f j,
      Submodule.sum_mem _ fun j _ => Submodule.smul_mem _ _ (mem_U j)⟩
  have hz : G (z : E) = ∑ j, (a j * (y j - inner ℝ (f j) w)) • f j := congrArg Subtype.val hz
  refine ⟨w + z, by rw [add_sub_cancel_left]; exact z.2, ?_⟩
  rw [hG] at hz
  rw [← sub_eq_zero.2 hz.symm, ← Finset.sum_sub_distrib]
  refine Finset.sum_congr rfl fun j _ => ?_
  rw [← sub_smul, inner_add_right]
  congr 1
  ring

/-- Weighted least squares: the normal equations describe the minimisers, and the error grows with the
distance in prediction. -/
theorem normal_min {y : Fin N → ℝ} {v : E} (hv : ∑ j, (a j * (y j - inner ℝ (f j) v)) • f j = 0) (z : E) :
    ∑ j, a j * (y j - inner ℝ (f j) z) ^ 2 =
      ∑ j, a j * (y j - inner ℝ (f j) v) ^ 2 + ∑ j, a j * inner ℝ (f j) (z - v) ^ 2 := by
  have h1 : ∑ j, a j * (y j - inner ℝ (f j) v) * inner ℝ (f j) (z - v) = 0 := by
    have := congrArg (fun u => inner ℝ u (z - v)) hv
    simp only [sum_inner, inner_zero_left, inner_smul_left] at this
    simpa using this
  rw [← Finset.sum_add_distrib, ← sub_eq_zero, ← Finset.sum_sub_distrib]
  have h2 : ∀ j, a j * (y j - inner ℝ (f j) z) ^ 2 -
      (a j * (y j - inner ℝ (f j) v) ^ 2 + a j * inner ℝ (f j) (z - v) ^ 2) =
      -2 * (a j * (y j - inner ℝ (f j) v) * inner ℝ (f j) (z - v)) := fun j => by
    rw [inner_sub_right]
    ring
  simp only [h2]
  rw [← Finset.mul_sum, h1, mul_zero]

/-! ## Random runs -/

/-- `W l` are the weights after drawing the examples `l` in order. -/
def Draws (a : Fin N → ℝ) (f : Fin N → E) (y : Fin N → ℝ) (W : List (Fin N) → E) : Prop :=
  ∀ l j, W (l ++ [j]) = W l + (a j * (y j - inner ℝ (f j) (W l))) • f j

variable {y : Fin N → ℝ} {W : List (Fin N) → E}

/-- One draw, seen from weights `v`. -/
theorem draw_sub (h : Draws a f y W) (v : E) (l : List (Fin N)) (j : Fin N) :
    W (l ++ [j]) - v = lin (a j) (f j) (W l - v) + (a j * (y j - inner ℝ (f j) v)) • f j := by
  rw [h]
  unfold lin
  rw [inner_sub_right, mul_sub, mul_sub, mul_sub, sub_smul, sub_smul, sub_smul]
  abel

theorem draws_mem (h : Draws a f y W) {v : E} (hv : W [] - v ∈ U f) (l : List (Fin N)) :
    W l - v ∈ U f := by
  induction l using List.reverseRecOn with
  | nil => exact hv
  | append_singleton l j ih =>
    rw [draw_sub h]
    exact Submodule.add_mem _ (Submodule.sub_mem _ ih (Submodule.smul_mem _ _ (mem_U j)))
      (Submodule.smul_mem _ _ (mem_U j))

theorem avg_mem {V : Submodule ℝ E} {g : List (Fin N) → E} (hg : ∀ l, g l ∈ V) (k : ℕ) : avg k g ∈ V :=
  Submodule.smul_mem _ _ (Submodule.sum_mem _ fun _ _ => hg _)

/-- The mean deviation from a solution of the normal equations. -/
theorem mean_step (h : Draws a f y W) {v : E}
    (hv : ∑ j, (a j * (y j - inner ℝ (f j) v)) • f j = 0) (k : ℕ) :
    avg (k + 1) (fun l => W l - v) = meanL a f (avg k fun l => W l - v) := by
  rw [avg_succ, meanL_apply]
  congr 1
  have : ∀ j, (avg k fun l => W (l ++ [j]) - v) =
      lin (a j) (f j) (avg k fun l => W l - v) + (a j * (y j - inner ℝ (f j) v)) • f j := by
    intro j
    have hN : 0 < N := Nat.pos_of_ne_zero fun h0 => by subst h0; exact j.elim0
    simp only [draw_sub h]
    rw [avg_add, avg_const hN]
    congr 1
    exact avg_map (linL (a j) (f j)) k fun l => W l - v
  simp only [this]
  rw [Finset.sum_add_distrib, hv, add_zero]

theorem avg_sub_const (hN : 0 < N) (k : ℕ) (g : List (Fin N) → E) (v : E) :
    avg k (fun l => g l - v) = avg k g - v := by
  simp only [sub_eq_add_neg]
  rw [avg_add, avg_const hN]

/-- The mean weights converge. -/
theorem mean_decay (h : Draws a f y W) {v : E}
    (hv : ∑ j, (a j * (y j - inner ℝ (f j) v)) • f j = 0) (hm : W [] - v ∈ U f) (hN : 0 < N) {r : ℝ}
    (h0 : 0 ≤ r) (hr : ∀ u ∈ U f, (N : ℝ)⁻¹ * ∑ j, ‖lin (a j) (f j) u‖ ^ 2 ≤ r ^ 2 * ‖u‖ ^ 2) (k : ℕ) :
    ‖avg k W - v‖ ≤ r ^ k * ‖W [] - v‖ := by
  rw [← avg_sub_const hN]
  induction k with
  | zero => rw [avg_zero, pow_zero, one_mul]
  | succ k ih =>
    rw [mean_step h hv]
    have h1 := (meanL_sq_le (a := a) (f := f) hN (avg k fun l => W l - v)).trans
      (hr _ (avg_mem (draws_mem h hm) k))
    rw [← mul_pow] at h1
    have h2 := le_of_sq_le_sq h1 (mul_nonneg h0 (norm_nonneg _))
    rw [pow_succ', mul_assoc]
    exact h2.trans (mul_le_mul_of_nonneg_left ih h0)

/-- One draw, on average. -/
theorem avg_succ' (k : ℕ) (g : List (Fin N) → ℝ) :
    avg (k + 1) g = avg k fun l => (N : ℝ)⁻¹ * ∑ j, g (l ++ [j]) := by
  rw [avg_succ]
  unfold avg
  rw [← Finset.smul_sum, smul_comm]
  congr 1
  rw [Finset.sum_comm, Finset.smul_sum]
  rfl

theorem avg_mul (k : ℕ) (c : ℝ) (g : List (Fin N) → ℝ) : avg k (fun l => c * g l) = c * avg k g := by
  unfold avg
  rw [← Finset.mul_sum, smul_eq_mul, smul_eq_mul]
  ring

/-- What the residuals at `v` add at every draw. -/
def floor (a : Fin N → ℝ) (f : Fin N → E) (y : Fin N → ℝ) (v : E) : ℝ :=
  (N : ℝ)⁻¹ * ∑ j, (a j * (y j - inner ℝ (f j) v)) ^ 2 * ‖f j‖ ^ 2

theorem floor_nonneg (v : E) : 0 ≤ floor a f y v :=
  mul_nonneg (inv_nonneg.2 N.cast_nonneg) (Finset.sum_nonneg fun j _ => by positivity)

/-- The direction in which residuals and deviation interact. -/
def cross (a : Fin N → ℝ) (f : Fin N → E) (y : Fin N → ℝ) (v : E) : E :=
  (N : ℝ)⁻¹ • ∑ j, (2 * (a j * (y j - inner ℝ (f j) v)) * (1 - a j * ‖f j‖ ^ 2)) • f j

/-- The mean squared deviation after one more draw. -/
theorem square_step (h : Draws a f y W) (hN : 0 < N) (v : E) (k : ℕ) :
    avg (k + 1) (fun l => ‖W l - v‖ ^ 2) =
      avg k (fun l => (N : ℝ)⁻¹ * ∑ j, ‖lin (a j) (f j) (W l - v)‖ ^ 2)
        + inner ℝ (cross a f y v) (avg k W - v) + floor a f y v := by
  rw [avg_succ', ← avg_sub_const hN, ← avg_const hN k (floor a f y v)]
  have h2 : inner ℝ (cross a f y v) (avg k fun l => W l - v) =
      avg k fun l => inner ℝ (cross a f y v) (W l - v) :=
    (avg_map (innerₛₗ ℝ (cross a f y v)) k fun l => W l - v).symm
  rw [h2, ← avg_add, ← avg_add]
  congr 1
  funext l
  unfold cross floor
  rw [inner_smul_left, sum_inner, RCLike.conj_to_real, ← mul_add, ← mul_add, ← Finset.sum_add_distrib,
    ← Finset.sum_add_distrib]
  congr 1
  refine Finset.sum_congr rfl fun j _ => ?_
  have h3 : inner ℝ (lin (a j) (f j) (W l - v)) (f j) = (1 - a j * ‖f j‖ ^ 2) * inner ℝ (f j) (W l - v) := by
    unfold lin
    rw [inner_sub_left, inner_smul_left, RCLike.conj_to_real, real_inner_self_eq_norm_sq, real_inner_comm]
    ring
  rw [draw_sub h, norm_add_sq_real, inner_smul_right, h3, norm_smul, mul_pow, Real.norm_eq_abs, sq_abs,
    inner_smul_left, RCLike.conj_to_real]
  ring

/-- The mean squared deviation falls to a level set by the residuals, and stays above it when it is not 0. -/
theorem square_decay (h : Draws a f y W) {v : E}
    (hv : ∑ j, (a j * (y j - inner ℝ (f j) v)) • f j = 0) (hm : W [] - v ∈ U f) (hN : 0 < N) {r : ℝ}
    (h0 : 0 < r) (h1 : r < 1)
    (hr : ∀ u ∈ U f, (N : ℝ)⁻¹ * ∑ j, ‖lin (a j) (f j) u‖ ^ 2 ≤ r ^ 2 * ‖u‖ ^ 2) :
    ∃ C, ∀ k, avg k (fun l => ‖W l - v‖ ^ 2) ≤ C * r ^ k + floor a f y v / (1 - r ^ 2) ∧
      floor a f y v - C * r ^ k ≤ avg (k + 1) (fun l => ‖W l - v‖ ^ 2) := by
  set S := floor a f y v with hS
  set D := ‖cross a f y v‖ * ‖W [] - v‖ with hD
  have hD0 : 0 ≤ D := by positivity
  have hr2 : 0 < 1 - r ^ 2 := by nlinarith
  have hr1 : 0 < r * (1 - r) := mul_pos h0 (by linarith)
  have hc : ∀ k, |inner ℝ (cross a f y v) (avg k W - v)| ≤ D * r ^ k := by
    intro k
    refine (abs_real_inner_le_norm _ _).trans ?_
    rw [hD, mul_assoc, mul_comm ‖W [] - v‖]
    exact mul_le_mul_of_nonneg_left (mean_decay h hv hm hN h0.le hr k) (norm_nonneg _)
  set C := ‖W [] - v‖ ^ 2 + D / (r * (1 - r)) with hC
  have hDC : D ≤ C * (r * (1 - r)) := by
    rw [hC, add_mul, div_mul_cancel₀ _ hr1.ne']
    have := mul_nonneg (sq_nonneg ‖W [] - v‖) hr1.le
    linarith
  have hS0 : 0 ≤ S := floor_nonneg v
  have hC0 : 0 ≤ C := add_nonneg (sq_nonneg _) (div_nonneg hD0 hr1.le)
  refine ⟨C, fun k => ⟨?_, ?_⟩⟩
  · induction k with
    | zero =>
      rw [avg_zero, pow_zero, mul_one, hC]
      have h2 := div_nonneg hD0 hr1.le
      have h3 := div_nonneg hS0 hr2.le
      linarith
    | succ k ih =>
      rw [square_step h hN v k]
      have h2 : avg k (fun l => (N : ℝ)⁻¹ * ∑ j, ‖lin (a j) (f j) (W l - v)‖ ^ 2) ≤
          r ^ 2 * avg k fun l => ‖W l - v‖ ^ 2 := by
        rw [← avg_mul]
        exact avg_mono k fun l => hr _ (draws_mem h hm l)
      have h3 := mul_le_mul_of_nonneg_left ih (sq_nonneg r)
      have h4 := (le_abs_self _).trans (hc k)
      have h5 := mul_le_mul_of_nonneg_right hDC (pow_pos h0 k).le
      have h6 : r ^ 2 * (S / (1 - r ^ 2)) + S = S / (1 - r ^ 2) := by field_simp; ring
      rw [pow_succ]
      nlinarith
  · rw [square_step h hN v k]
    have h2 : 0 ≤ avg k (fun l => (N : ℝ)⁻¹ * ∑ j, ‖lin (a j) (f j) (W l - v)‖ ^ 2) := by
      have := avg_mono (N := N) k (g := fun _ => 0)
        (h := fun l => (N : ℝ)⁻¹ * ∑ j, ‖lin (a j) (f j) (W l - v)‖ ^ 2)
        fun l => mul_nonneg (inv_nonneg.2 N.cast_nonneg) (Finset.sum_nonneg fun j _ => sq_nonneg _)
      rwa [avg_const hN] at this
    have h4 := neg_le_of_abs_le (hc k)
    have h5 : D * r ^ k ≤ C * r ^ k := by
      refine mul_le_mul_of_nonneg_right (hDC.trans ?_) (pow_pos h0 k).le
      refine mul_le_of_le_one_right hC0 ?_
      nlinarith
    linarith

end

end Lfa.Sweep

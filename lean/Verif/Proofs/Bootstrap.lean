import Verif.Proofs.Average
import Mathlib.Analysis.SpecificLimits.Basic
import Mathlib.Order.Filter.Finite

/-! # Linear recursions of bootstrapped training -/

set_option linter.unusedSectionVars false

namespace Lfa.Boot

open Filter Topology Sweep

noncomputable section

/-! ## Tables -/

/-- Deviations of a table from consistent values. -/
theorem table {α γ : ℝ} (hα : 0 < α) (hα1 : α ≤ 1) (hγ : 0 ≤ γ) (hγ1 : γ < 1) {n : ℕ} {e : ℕ → ℕ → ℝ}
    {s t : ℕ → ℕ} (hs : ∀ k, s k < n) (ht : ∀ k m, ∃ j, m ≤ j ∧ s j = t k)
    (he : ∀ k i, e (k + 1) i = if i = s k then (1 - α) * e k i + α * γ * e k (t k) else e k i)
    {i : ℕ} (hi : ∀ m, ∃ j, m ≤ j ∧ s j = i) : Tendsto (fun k => e k i) atTop (𝓝 0) := by
  set T : Set ℕ := {i | ∀ m, ∃ j, m ≤ j ∧ s j = i} with hT
  have hTn : T ⊆ Set.Iio n := fun i hi => by
    obtain ⟨j, -, hj⟩ := hi 0
    exact hj ▸ hs j
  have hTf : T.Finite := (Set.finite_Iio n).subset hTn
  have htT : ∀ k, t k ∈ T := fun k => ht k
  have shrink : ∀ M : ℝ, 0 ≤ M → (∀ᶠ k in atTop, ∀ i ∈ T, |e k i| ≤ M) →
      ∀ᶠ k in atTop, ∀ i ∈ T, |e k i| ≤ (1 + γ) / 2 * M := by
    intro M hM hev
    rw [(Set.Finite.eventually_all (l := atTop) hTf)]
    obtain ⟨m, hm⟩ := eventually_atTop.1 hev
    intro i hi
    have key : ∀ c : ℕ, ∃ m', m ≤ m' ∧ ∀ k, m' ≤ k → |e k i| ≤ γ * M + (1 - γ) * M * (1 - α) ^ c := by
      intro c
      have hp : 0 ≤ (1 - γ) * M * (1 - α) ^ c :=
        mul_nonneg (mul_nonneg (by linarith) hM) (pow_nonneg (by linarith) _)
      induction c with
      | zero =>
        refine ⟨m, le_rfl, fun k hk => ?_⟩
        have := hm k hk i hi
        rw [pow_zero]
        linarith
      | succ c ih =>
        obtain ⟨m', h1, h2⟩ := ih (mul_nonneg (mul_nonneg (by linarith) hM) (pow_nonneg (by linarith) _))
        obtain ⟨j, hj1, hj2⟩ := hi m'
        set X := γ * M + (1 - γ) * M * (1 - α) ^ (c + 1) with hX
        have upd : ∀ k Y, m ≤ k → |e k i| ≤ Y →
            |(1 - α) * e k i + α * γ * e k (t k)| ≤ (1 - α) * Y + α * (γ * M) := by
          intro k Y hk hY
          have h3 := hm k hk (t k) (htT k)
          rw [abs_le] at h3 hY ⊢
          have h4 := mul_nonneg hα.le hγ
          have h5 : (0 : ℝ) ≤ 1 - α := by linarith
          constructor
          · nlinarith [mul_le_mul_of_nonneg_left hY.1 h5, mul_le_mul_of_nonneg_left h3.1 h4]
          · nlinarith [mul_le_mul_of_nonneg_left hY.2 h5, mul_le_mul_of_nonneg_left h3.2 h4]
        refine ⟨j + 1, by omega, fun k hk => ?_⟩
        induction k, hk using Nat.le_induction with
        | base =>
          rw [he, if_pos hj2.symm]
          refine (upd j _ (by omega) (h2 j hj1)).trans (le_of_eq ?_)
          rw [hX, pow_succ]
          ring
        | succ k hk ih2 =>
          rw [he]
          split_ifs with hik
          · refine (upd k _ (by omega) ih2).trans ?_
            have : γ * M ≤ X := by rw [hX]; linarith
            nlinarith
          · exact ih2
    obtain ⟨c, hc⟩ := exists_pow_lt_of_lt_one (show (0 : ℝ) < 1 / 2 by norm_num) (show 1 - α < 1 by linarith)
    obtain ⟨m', -, h2⟩ := key c
    refine eventually_atTop.2 ⟨m', fun k hk => (h2 k hk).trans ?_⟩
    have h3 : 0 ≤ (1 - γ) * M := mul_nonneg (by linarith) hM
    nlinarith
  obtain ⟨M, hM, hM0⟩ : ∃ M : ℝ, 0 ≤ M ∧ ∀ i ∈ T, |e 0 i| ≤ M :=
    ⟨∑ i ∈ Finset.range n, |e 0 i|, Finset.sum_nonneg fun _ _ => abs_nonneg _, fun i hi =>
      Finset.single_le_sum (f := fun i => |e 0 i|) (fun _ _ => abs_nonneg _) (Finset.mem_range.2 (hTn hi))⟩
  have hstart : ∀ k, ∀ i ∈ T, |e k i| ≤ M := by
    intro k
    induction k with
    | zero => exact hM0
    | succ k ih =>
      intro i hi
      rw [he]
      split_ifs with hik
      · have h1 := ih i hi
        have h2 := ih (t k) (htT k)
        rw [abs_le] at h1 h2 ⊢
        have h4 := mul_nonneg hα.le hγ
        have h5 : (0 : ℝ) ≤ 1 - α := by linarith
        have h6 : α * γ * M ≤ α * M := by nlinarith [mul_nonneg hα.le hM]
        constructor
        · nlinarith [mul_le_mul_of_nonneg_left h1.1 h5, mul_le_mul_of_nonneg_left h2.1 h4]
        · nlinarith [mul_le_mul_of_nonneg_left h1.2 h5, mul_le_mul_of_nonneg_left h2.2 h4]
      · exact ih i hi
  have hall : ∀ q : ℕ, ∀ᶠ k in atTop, ∀ i ∈ T, |e k i| ≤ ((1 + γ) / 2) ^ q * M := by
    intro q
    induction q with
    | zero => exact Eventually.of_forall fun k i hi => by rw [pow_zero, one_mul]; exact hstart k i hi
    | succ q ih =>
      have := shrink _ (mul_nonneg (pow_nonneg (by linarith) _) hM) ih
      refine this.mono fun k hk i hi => (hk i hi).trans (le_of_eq ?_)
      rw [pow_succ]
      ring
  have hz : Tendsto (fun q : ℕ => ((1 + γ) / 2) ^ q * M) atTop (𝓝 0) := by
    have := (tendsto_pow_atTop_nhds_zero_of_lt_one (r := (1 + γ) / 2) (by linarith) (by linarith)).mul_const M
    rwa [zero_mul] at this
  rw [Metric.tendsto_nhds]
  intro ε hε
  obtain ⟨q, hq⟩ := (hz.eventually (gt_mem_nhds hε)).exists
  refine (hall q).mono fun k hk => ?_
  rw [Real.dist_eq, sub_zero]
  exact (hk i hi).trans_lt hq

/-! ## Draws from a closed set of transitions -/

variable {E : Type} [NormedAddCommGroup E] [InnerProductSpace ℝ E] {N : ℕ}

/-- The linear part of a bootstrapped update. -/
def lin (a γ : ℝ) (f g : E) : E →ₗ[ℝ] E :=
  LinearMap.id - a • ((innerₛₗ ℝ f - γ • innerₛₗ ℝ g).smulRight f)

theorem lin_apply (a γ : ℝ) (f g u : E) :
    lin a γ f g u = u - (a * (inner ℝ f u - γ * inner ℝ g u)) • f := by
  simp [lin, smul_smul]

variable {f : Fin N → E} {σ : Equiv.Perm (Fin N)} {a γ : ℝ}

theorem corr_le (σ : Equiv.Perm (Fin N)) (p : Fin N → ℝ) : ∑ j, p j * p (σ j) ≤ ∑ j, p j ^ 2 := by
  have h1 : ∑ j, p (σ j) ^ 2 = ∑ j, p j ^ 2 := Equiv.sum_comp σ fun j => p j ^ 2
  have h2 : ∑ j, 2 * (p j * p (σ j)) ≤ ∑ j, (p j ^ 2 + p (σ j) ^ 2) :=
    Finset.sum_le_sum fun j _ => by nlinarith [sq_nonneg (p j - p (σ j))]
  rw [Finset.sum_add_distrib, h1, ← Finset.mul_sum] at h2
  linarith

theorem corr_ge (σ : Equiv.Perm (Fin N)) (p : Fin N → ℝ) : -∑ j, p j ^ 2 ≤ ∑ j, p j * p (σ j) := by
  have h1 : ∑ j, p (σ j) ^ 2 = ∑ j, p j ^ 2 := Equiv.sum_comp σ fun j => p j ^ 2
  have h2 : ∑ j, -(p j ^ 2 + p (σ j) ^ 2) ≤ ∑ j, 2 * (p j * p (σ j)) :=
    Finset.sum_le_sum fun j _ => by nlinarith [sq_nonneg (p j + p (σ j))]
  rw [Finset.sum_neg_distrib, Finset.sum_add_distrib, h1, ← Finset.mul_sum] at h2
  linarith

/-- The correction points towards consistent values. -/
theorem drift (σ : Equiv.Perm (Fin N)) (hγ : 0 ≤ γ) (p : Fin N → ℝ) :
    (1 - γ) * ∑ j, p j ^ 2 ≤ ∑ j, p j * (p j - γ * p (σ j)) := by
  have h1 : ∑ j, p j * (p j - γ * p (σ j)) = ∑ j, p j ^ 2 - γ * ∑ j, p j * p (σ j) := by
    rw [Finset.mul_sum, ← Finset.sum_sub_distrib]
    exact Finset.sum_congr rfl fun j _ => by ring
  rw [h1]
  nlinarith [mul_le_mul_of_nonneg_left (corr_le σ p) hγ]

theorem spread (σ : Equiv.Perm (Fin N)) (hγ : 0 ≤ γ) (p : Fin N → ℝ) :
    ∑ j, (p j - γ * p (σ j)) ^ 2 ≤ (1 + γ) ^ 2 * ∑ j, p j ^ 2 := by
  have h0 : ∑ j, p (σ j) ^ 2 = ∑ j, p j ^ 2 := Equiv.sum_comp σ fun j => p j ^ 2
  have h1 : ∑ j, (p j - γ * p (σ j)) ^ 2 =
      ∑ j, p j ^ 2 - 2 * γ * ∑ j, p j * p (σ j) + γ ^ 2 * ∑ j, p (σ j) ^ 2 := by
    rw [Finset.mul_sum, Finset.mul_sum, ← Finset.sum_sub_distrib, ← Finset.sum_add_distrib]
    exact Finset.sum_congr rfl fun j _ => by ring
  rw [h1, h0]
  nlinarith [mul_le_mul_of_nonneg_left (corr_ge σ p) hγ]

/-- One draw shrinks the mean squared deviation by what the predictions show of it. -/
theorem mean_sq_le (hN : 0 < N) (ha : 0 < a) (hγ : 0 ≤ γ) {L : ℝ} (hL : ∀ j, ‖f j‖ ^ 2 ≤ L) (u : E) :
    (N : ℝ)⁻¹ * ∑ j, ‖lin a γ (f j) (f (σ j)) u‖ ^ 2 ≤
      ‖u‖ ^ 2 - a * (2 * (1 - γ) - a * L * (1 + γ) ^ 2) * ((N : ℝ)⁻¹ * ∑ j, inner ℝ (f j) u ^ 2) := by
  have hn : (0 : ℝ) < N := by exact_mod_cast hN
  set p : Fin N → ℝ := fun j => inner ℝ (f j) u with hp
  have h1 : ∀ j, ‖lin a γ (f j) (f (σ j)) u‖ ^ 2 ≤ ‖u‖ ^ 2 - 2 * a * (p j * (p j - γ * p (σ j)))
      + a ^ 2 * L * (p j - γ * p (σ j)) ^ 2 := fun j => by
    rw [lin_apply, norm_sub_sq_real, inner_smul_right, norm_smul, mul_pow, Real.norm_eq_abs, sq_abs,
      real_inner_comm (f j) u]
    have := mul_le_mul_of_nonneg_left (hL j) (sq_nonneg (a * (p j - γ * p (σ j))))
    show ‖u‖ ^ 2 - 2 * (a * (p j - γ * p (σ j)) * p j) + (a * (p j - γ * p (σ j))) ^ 2 * ‖f j‖ ^ 2 ≤ _
    nlinarith
  have h2 := Finset.sum_le_sum fun j (_ : j ∈ Finset.univ) => h1 j
  rw [Finset.sum_add_distrib, Finset.sum_sub_distrib, ← Finset.mul_sum, ← Finset.mul_sum,
    Finset.sum_const, Finset.card_univ, Fintype.card_fin, nsmul_eq_mul] at h2
  have hj : 0 < N := hN
  have hL0 : 0 ≤ L := (sq_nonneg _).trans (hL ⟨0, hj⟩)
  have h3 := mul_le_mul_of_nonneg_left (drift σ hγ p) (show 0 ≤ 2 * a by linarith)
  have h4 := mul_le_mul_of_nonneg_left (spread σ hγ p) (mul_nonneg (sq_nonneg a) hL0)
  have h5 : ∑ j, ‖lin a γ (f j) (f (σ j)) u‖ ^ 2 ≤
      N * ‖u‖ ^ 2 - a * (2 * (1 - γ) - a * L * (1 + γ) ^ 2) * ∑ j, p j ^ 2 := by nlinarith
  have h6 := mul_le_mul_of_nonneg_left h5 (inv_nonneg.2 hn.le)
  refine h6.trans (le_of_eq ?_)
  rw [hp]
  field_simp

/-- On the span of the features the predictions show every deviation. -/
theorem visible [FiniteDimensional ℝ E] (hN : 0 < N) (f : Fin N → E) :
    ∃ s : ℝ, 0 < s ∧ ∀ u ∈ U f, s * ‖u‖ ^ 2 ≤ (N : ℝ)⁻¹ * ∑ j, inner ℝ (f j) u ^ 2 := by
  have hn : (0 : ℝ) < N := by exact_mod_cast hN
  set c : ℝ := (1 + ∑ j, ‖f j‖ ^ 2)⁻¹ with hc
  have hs : 0 ≤ ∑ j, ‖f j‖ ^ 2 := Finset.sum_nonneg fun _ _ => sq_nonneg _
  have hc0 : 0 < c := inv_pos.2 (by linarith)
  have hle : ∀ j, c * ‖f j‖ ^ 2 < 2 := fun j => by
    have := Finset.single_le_sum (f := fun j => ‖f j‖ ^ 2) (fun _ _ => sq_nonneg _) (Finset.mem_univ j)
    rw [hc, inv_mul_lt_iff₀ (by linarith)]
    linarith
  obtain ⟨r, r0, r1, hr⟩ := mean_factor (a := fun _ => c) (f := f) hN fun j => ⟨hc0, hle j⟩
  refine ⟨(1 - r ^ 2) / (2 * c), div_pos (by nlinarith) (by linarith), fun u hu => ?_⟩
  have h1 := hr u hu
  rw [mean_sq hN] at h1
  have h2 : ∑ j, c * (2 - c * ‖f j‖ ^ 2) * inner ℝ (f j) u ^ 2 ≤ 2 * c * ∑ j, inner ℝ (f j) u ^ 2 := by
    rw [Finset.mul_sum]
    refine Finset.sum_le_sum fun j _ => mul_le_mul_of_nonneg_right ?_ (sq_nonneg _)
    nlinarith [mul_nonneg hc0.le (mul_nonneg hc0.le (sq_nonneg ‖f j‖))]
  have h3 := mul_le_mul_of_nonneg_left h2 (inv_nonneg.2 hn.le)
  rw [div_mul_eq_mul_div, div_le_iff₀ (by linarith)]
  nlinarith

/-- A contraction factor. -/
theorem factor [FiniteDimensional ℝ E] (hN : 0 < N) (σ : Equiv.Perm (Fin N)) (ha : 0 < a) (hγ : 0 ≤ γ)
    (hs : ∀ j, a * ‖f j‖ ^ 2 * (1 + γ) ^ 2 < 2 * (1 - γ)) :
    ∃ r : ℝ, 0 < r ∧ r < 1 ∧ ∀ u ∈ U f,
      (N : ℝ)⁻¹ * ∑ j, ‖lin a γ (f j) (f (σ j)) u‖ ^ 2 ≤ r ^ 2 * ‖u‖ ^ 2 := by
  have : Nonempty (Fin N) := ⟨⟨0, hN⟩⟩
  obtain ⟨m, hm⟩ := Finite.exists_max fun j => ‖f j‖ ^ 2
  obtain ⟨s, s0, hsv⟩ := visible hN f
  set c : ℝ := a * (2 * (1 - γ) - a * ‖f m‖ ^ 2 * (1 + γ) ^ 2) with hc
  have hc0 : 0 < c := mul_pos ha (sub_pos.2 (hs m))
  set q : ℝ := max (1 - c * s) (1 / 4) with hq
  have hq0 : 0 < q := lt_of_lt_of_le (by norm_num) (le_max_right _ _)
  have hq1 : q < 1 := max_lt (by have := mul_pos hc0 s0; linarith) (by norm_num)
  refine ⟨√q, Real.sqrt_pos.2 hq0, ?_, fun u hu => ?_⟩
  · rw [Real.sqrt_lt' one_pos]
    simpa using hq1
  · rw [Real.sq_sqrt hq0.le]
    have h1 := mean_sq_le (σ := σ) hN ha hγ hm u
    have h2 := mul_le_mul_of_nonneg_left (hsv u hu) hc0.le
    have h3 := mul_le_mul_of_nonneg_right (le_max_left (1 - c * s) (1 / 4)) (sq_nonneg ‖u‖)
    have h4 : ‖u‖ ^ 2 - c * ((N : ℝ)⁻¹ * ∑ j, inner ℝ (f j) u ^ 2) ≤ (1 - c * s) * ‖u‖ ^ 2 := by linarith
    exact h1.trans (h4.trans h3)

/-- Corrections that vanish leave predictions unchanged. -/
theorem drift_zero (σ : Equiv.Perm (Fin N)) (hγ : 0 ≤ γ) (hγ1 : γ < 1) {u : E}
    (h : ∑ j, (inner ℝ (f j) u - γ * inner ℝ (f (σ j)) u) • f j = 0) (j : Fin N) : inner ℝ (f j) u = 0 := by
  have h2 : inner ℝ u (∑ j, (inner ℝ (f j) u - γ * inner ℝ (f (σ j)) u) • f j) = 0 := by
    rw [h, inner_zero_right]
  rw [inner_sum] at h2
  simp only [inner_smul_right] at h2
  have h3 := drift σ hγ fun j => inner ℝ (f j) u
  have h4 : ∑ j, inner ℝ (f j) u * (inner ℝ (f j) u - γ * inner ℝ (f (σ j)) u) = 0 := by
    rw [← h2]
    exact Finset.sum_congr rfl fun j _ => by rw [real_inner_comm u (f j)]; ring
  rw [h4] at h3
  have h5 : ∑ j, inner ℝ (f j) u ^ 2 = 0 := by
    refine le_antisymm ?_ (Finset.sum_nonneg fun _ _ => sq_nonneg _)
    by_contra hlt
    have := mul_pos (sub_pos.2 hγ1) (not_le.1 hlt)
    linarith
  exact pow_eq_zero_iff two_ne_zero |>.1
    ((Finset.sum_eq_zero_iff_of_nonneg fun j _ => sq_nonneg _).1 h5 j (Finset.mem_univ j))

/-- Weights at which the mean correction is 0. -/
theorem exists_balanced [FiniteDimensional ℝ E] (f : Fin N → E) (σ : Equiv.Perm (Fin N)) (hγ : 0 ≤ γ)
    (hγ1 : γ < 1) (r : Fin N → ℝ) (w : E) :
    ∃ v : E, v - w ∈ U f ∧ ∑ j, (r j + γ * inner ℝ (f (σ j)) v - inner ℝ (f j) v) • f j = 0 := by
  let G : E →ₗ[ℝ] E := ∑ j, (LinearMap.id - lin 1 γ (f j) (f (σ j)))
  have hG : ∀ u, G u = ∑ j, (inner ℝ (f j) u - γ * inner ℝ (f (σ j)) u) • f j := by
    intro u
    show (∑ j, (LinearMap.id - lin 1 γ (f j) (f (σ j))) : E →ₗ[ℝ] E) u = _
    rw [LinearMap.sum_apply]
    refine Finset.sum_congr rfl fun j _ => ?_
    rw [LinearMap.sub_apply, lin_apply, LinearMap.id_apply, one_mul]
    abel
  have hmem : ∀ u ∈ U f, G u ∈ U f := fun u _ => by
    rw [hG]
    exact Submodule.sum_mem _ fun j _ => Submodule.smul_mem _ _ (mem_U j)
  have hinj : Function.Injective (G.restrict hmem) := by
    rw [← LinearMap.ker_eq_bot, LinearMap.ker_eq_bot']
    intro u hu
    have h1 : G (u : E) = 0 := congrArg Subtype.val hu
    rw [hG] at h1
    exact Subtype.ext (inner_self_eq_zero.1 (orth_U (drift_zero σ hγ hγ1 h1) u.2))
  obtain ⟨z, hz⟩ := LinearMap.surjective_of_injective hinj
    ⟨∑ j, (r j + γ * inner ℝ (f (σ j)) w - inner ℝ (f j) w) • f j,
      Submodule.sum_mem _ fun j _ => Submodule.smul_mem _ _ (mem_U j)⟩
  have hz : G (z : E) = ∑ j, (r j + γ * inner ℝ (f (σ j)) w - inner ℝ (f j) w) • f j :=
    congrArg Subtype.val hz
  refine ⟨w + z, by rw [add_sub_cancel_left]; exact z.2, ?_⟩
  rw [hG] at hz
  rw [← sub_eq_zero.2 hz.symm, ← Finset.sum_sub_distrib]
  refine Finset.sum_congr rfl fun j _ => ?_
  rw [← sub_smul, inner_add_right, inner_add_right]
  congr 1
  ring

/-! ## Random runs of affine updates -/

/-- The mean of affine updates whose constant parts cancel. -/
theorem affine_mean (hN : 0 < N) {M : Fin N → E →ₗ[ℝ] E} {c : Fin N → E} {v : E} {W : List (Fin N) → E}
    (h : ∀ l j, W (l ++ [j]) - v = M j (W l - v) + c j) (hc : ∑ j, c j = 0) {V : Submodule ℝ E}
    (hm : ∀ l, W l - v ∈ V) {r : ℝ} (h0 : 0 ≤ r)
    (hr : ∀ u ∈ V, (N : ℝ)⁻¹ * ∑ j, ‖M j u‖ ^ 2 ≤ r ^ 2 * ‖u‖ ^ 2) (k : ℕ) :
    ‖avg k (fun l => W l - v)‖ ≤ r ^ k * ‖W [] - v‖ := by
  have hn : (0 : ℝ) < N := by exact_mod_cast hN
  induction k with
  | zero => rw [avg_zero, pow_zero, one_mul]
  | succ k ih =>
    set d := avg k (fun l => W l - v) with hd
    have hstep : avg (k + 1) (fun l => W l - v) = (N : ℝ)⁻¹ • ∑ j, M j d := by
      rw [avg_succ]
      congr 1
      have : ∀ j, (avg k fun l => W (l ++ [j]) - v) = M j d + c j := fun j => by
        simp only [h]
        rw [avg_add, avg_const hN, avg_map]
      simp only [this]
      rw [Finset.sum_add_distrib, hc, add_zero]
    have hj : ‖(N : ℝ)⁻¹ • ∑ j, M j d‖ ^ 2 ≤ (N : ℝ)⁻¹ * ∑ j, ‖M j d‖ ^ 2 := by
      rw [norm_smul, norm_inv, Real.norm_natCast, mul_pow]
      have h1 : ‖∑ j, M j d‖ ^ 2 ≤ (∑ j, ‖M j d‖) ^ 2 :=
        pow_le_pow_left₀ (norm_nonneg _) (norm_sum_le _ _) 2
      have h2 : (∑ j, ‖M j d‖) ^ 2 ≤ N * ∑ j, ‖M j d‖ ^ 2 := by
        have := sq_sum_le_card_mul_sum_sq (s := Finset.univ) (f := fun j => ‖M j d‖)
        rwa [Finset.card_univ, Fintype.card_fin] at this
      calc (N : ℝ)⁻¹ ^ 2 * ‖∑ j, M j d‖ ^ 2 ≤ (N : ℝ)⁻¹ ^ 2 * (N * ∑ j, ‖M j d‖ ^ 2) :=
            mul_le_mul_of_nonneg_left (h1.trans h2) (by positivity)
        _ = (N : ℝ)⁻¹ * ∑ j, ‖M j d‖ ^ 2 := by field_simp
    rw [hstep]
    have h1 := hj.trans (hr d (avg_mem hm k))
    rw [← mul_pow] at h1
    have h2 := le_of_sq_le_sq h1 (mul_nonneg h0 (norm_nonneg _))
    rw [pow_succ', mul_assoc]
    exact h2.trans (mul_le_mul_of_nonneg_left ih h0)

/-- The mean square of affine updates whose constant parts cancel. -/
theorem affine_square (hN : 0 < N) {M : Fin N → E →ₗ[ℝ] E} {c : Fin N → E} {v : E} {W : List (Fin N) → E}
    (h : ∀ l j, W (l ++ [j]) - v = M j (W l - v) + c j) (hc : ∑ j, c j = 0) {V : Submodule ℝ E}
    (hm : ∀ l, W l - v ∈ V) {r : ℝ} (h0 : 0 < r) (h1 : r < 1)
    (hr : ∀ u ∈ V, (N : ℝ)⁻¹ * ∑ j, ‖M j u‖ ^ 2 ≤ r ^ 2 * ‖u‖ ^ 2) [FiniteDimensional ℝ E] :
    ∃ C, ∀ k, avg k (fun l => ‖W l - v‖ ^ 2) ≤
      C * r ^ k + ((N : ℝ)⁻¹ * ∑ j, ‖c j‖ ^ 2) / (1 - r ^ 2) := by
  have hn : (0 : ℝ) < N := by exact_mod_cast hN
  set S : ℝ := (N : ℝ)⁻¹ * ∑ j, ‖c j‖ ^ 2 with hS
  have hS0 : 0 ≤ S := mul_nonneg (inv_nonneg.2 hn.le) (Finset.sum_nonneg fun _ _ => sq_nonneg _)
  let ℓ : E →ₗ[ℝ] ℝ := (2 * (N : ℝ)⁻¹) • ∑ j, (innerₛₗ ℝ (c j)).comp (M j)
  have hℓ : ∀ u, ℓ u = 2 * (N : ℝ)⁻¹ * ∑ j, inner ℝ (c j) (M j u) := fun u => by
    simp [ℓ, LinearMap.sum_apply]
  set ℓc : E →L[ℝ] ℝ := LinearMap.toContinuousLinearMap ℓ with hℓc
  have hstep : ∀ k, avg (k + 1) (fun l => ‖W l - v‖ ^ 2) ≤
      r ^ 2 * avg k (fun l => ‖W l - v‖ ^ 2) + ℓ (avg k fun l => W l - v) + S := by
    intro k
    rw [avg_succ', ← avg_map ℓ, ← avg_mul, ← avg_const hN k S, ← avg_add, ← avg_add]
    refine avg_mono k fun l => ?_
    have e1 : ∀ j, ‖W (l ++ [j]) - v‖ ^ 2 =
        ‖M j (W l - v)‖ ^ 2 + 2 * inner ℝ (c j) (M j (W l - v)) + ‖c j‖ ^ 2 := fun j => by
      rw [h, norm_add_sq_real, real_inner_comm]
    simp only [e1, hℓ]
    rw [Finset.sum_add_distrib, Finset.sum_add_distrib, mul_add, mul_add, ← Finset.mul_sum]
    have := hr _ (hm l)
    rw [hS]
    nlinarith
  have hb : ∀ k, ℓ (avg k fun l => W l - v) ≤ ‖ℓc‖ * ‖W [] - v‖ * r ^ k := by
    intro k
    refine (le_abs_self _).trans ?_
    have e1 := ℓc.le_opNorm (avg k fun l => W l - v)
    rw [Real.norm_eq_abs] at e1
    refine e1.trans ?_
    have e2 := affine_mean hN h hc hm h0.le hr k
    calc _ ≤ ‖ℓc‖ * (r ^ k * ‖W [] - v‖) := mul_le_mul_of_nonneg_left e2 (norm_nonneg _)
      _ = _ := by ring
  set D : ℝ := ‖ℓc‖ * ‖W [] - v‖ with hD
  have hD0 : 0 ≤ D := by positivity
  have hr2 : 0 < 1 - r ^ 2 := by nlinarith
  have hr1 : 0 < r * (1 - r) := mul_pos h0 (by linarith)
  set C := ‖W [] - v‖ ^ 2 + D / (r * (1 - r)) with hC
  have hDC : D ≤ C * (r * (1 - r)) := by
    rw [hC, add_mul, div_mul_cancel₀ _ hr1.ne']
    have := mul_nonneg (sq_nonneg ‖W [] - v‖) hr1.le
    linarith
  refine ⟨C, fun k => ?_⟩
  induction k with
  | zero =>
    rw [avg_zero, pow_zero, mul_one, hC]
    have e2 := div_nonneg hD0 hr1.le
    have e3 := div_nonneg hS0 hr2.le
    linarith
  | succ k ih =>
    refine (hstep k).trans ?_
    have e1 := mul_le_mul_of_nonneg_left ih (sq_nonneg r)
    have e2 := hb k
    have e3 : D * r ^ k ≤ C * (r * (1 - r)) * r ^ k := mul_le_mul_of_nonneg_right hDC (pow_nonneg h0.le k)
    have e4 : r ^ 2 * (S / (1 - r ^ 2)) + S = S / (1 - r ^ 2) := by
      field_simp
      ring
    rw [mul_add] at e1
    have e5 : C * r ^ (k + 1) = r ^ 2 * (C * r ^ k) + C * (r * (1 - r)) * r ^ k := by
      rw [pow_succ]
      ring
    linarith

end

end Lfa.Boot

import Verif.Props.C36_C39
import Verif.Props.C12_C16
import Mathlib.Analysis.Calculus.Deriv.MeanValue
import Mathlib.Analysis.SpecialFunctions.ExpDeriv

/-!
# Exactly when the refuted claims about kernels and dot products hold
-/

set_option linter.unusedSectionVars false

namespace Lfa

open Spec

/-! ## Where the coded Matérn-5/2 kernel grows and falls -/

/-- The coded profile in terms of `s = √3 r`. -/
theorem matern52_deriv (s : ℝ) : HasDerivAt (fun s : ℝ => (1 + s + 5 / 9 * s ^ 2) * Real.exp (-s))
    (s / 9 * (1 - 5 * s) * Real.exp (-s)) s := by
  have h1 : HasDerivAt (fun s : ℝ => 1 + s + 5 / 9 * s ^ 2) (0 + 1 + 5 / 9 * (2 * s)) s := by
    refine (((hasDerivAt_const s (1 : ℝ)).add (hasDerivAt_id s))).add ?_
    have := (hasDerivAt_pow 2 s).const_mul (5 / 9 : ℝ)
    simpa using this
  have h2 : HasDerivAt (fun s : ℝ => Real.exp (-s)) (Real.exp (-s) * -1) s :=
    (hasDerivAt_neg s).exp
  have h3 := h1.mul h2
  refine h3.congr_deriv ?_
  ring

theorem matern52_strictMono : StrictMonoOn (fun s : ℝ => (1 + s + 5 / 9 * s ^ 2) * Real.exp (-s)) (Set.Icc 0 (1 / 5)) := by
  refine strictMonoOn_of_deriv_pos (convex_Icc _ _) (by fun_prop) fun s hs => ?_
  rw [interior_Icc] at hs
  rw [(matern52_deriv s).deriv]
  have h1 : 0 < s := hs.1
  have h2 : 0 < 1 - 5 * s := by have := hs.2; linarith
  positivity

theorem matern52_strictAnti : StrictAntiOn (fun s : ℝ => (1 + s + 5 / 9 * s ^ 2) * Real.exp (-s)) (Set.Ici (1 / 5)) := by
  refine strictAntiOn_of_deriv_neg (convex_Ici _) (by fun_prop) fun s hs => ?_
  rw [interior_Ici] at hs
  have hs : 1 / 5 < s := hs
  rw [(matern52_deriv s).deriv]
  have h1 : 0 < s := by linarith
  have h2 : 1 - 5 * s < 0 := by linarith
  exact mul_neg_of_neg_of_pos (mul_neg_of_pos_of_neg (by positivity) h2) (Real.exp_pos _)

/-- Matern52 strictly grows with the scaled distance up to `1 / (5 √3)` and strictly falls from there on. -/
theorem C37_matern52_shape {d : Nat} (l x y x' y' : Fin d → ℝ) (v : ℝ) (hv : 0 < v)
    (h : scaledDist l x y < scaledDist l x' y') :
    (Real.sqrt 3 * scaledDist l x' y' ≤ 1 / 5 →
      SliceKernel.kernel (⟨v, List.ofFn l⟩ : Stationary .matern52 ℝ) (List.ofFn x) (List.ofFn y) <
        SliceKernel.kernel (⟨v, List.ofFn l⟩ : Stationary .matern52 ℝ) (List.ofFn x') (List.ofFn y')) ∧
    (1 / 5 ≤ Real.sqrt 3 * scaledDist l x y →
      SliceKernel.kernel (⟨v, List.ofFn l⟩ : Stationary .matern52 ℝ) (List.ofFn x') (List.ofFn y') <
        SliceKernel.kernel (⟨v, List.ofFn l⟩ : Stationary .matern52 ℝ) (List.ofFn x) (List.ofFn y)) := by
  have h3 : (0 : ℝ) < Real.sqrt 3 := by positivity
  have h0 : 0 ≤ scaledDist l x y := Real.sqrt_nonneg _
  have hlt := mul_lt_mul_of_pos_left h h3
  simp only [slice_stationary, sliceDistance_ofFn, profile_matern52]
  constructor
  · intro hs
    exact mul_lt_mul_of_pos_left (matern52_strictMono ⟨by positivity, hlt.le.trans hs⟩
      ⟨mul_nonneg h3.le (Real.sqrt_nonneg _), hs⟩ hlt) hv
  · intro hs
    exact mul_lt_mul_of_pos_left (matern52_strictAnti (show _ ∈ Set.Ici _ from hs)
      (show _ ∈ Set.Ici _ from hs.trans hlt.le) hlt) hv

/-- Two points at scaled distance 1/10 and 1/20 of each other are in the growing range. -/
example : Real.sqrt 3 * (1 / 10) ≤ 1 / 5 := by
  have : Real.sqrt 3 ≤ 2 := by rw [Real.sqrt_le_left (by norm_num)]; norm_num
  linarith

/-- The largest value of the coded Matern52 kernel is `11/9 · e^(-1/5)` times its variance, at every lengthscale. -/
theorem C36_matern52_maximum (v l : ℝ) (hv : 0 < v) (hl : 0 < l) :
    (∀ x y : List ℝ, SliceKernel.kernel (Stationary.nonArd v l : Stationary .matern52 ℝ) x y ≤
      v * (11 / 9 * Real.exp (-(1 / 5)))) ∧
    (∃ x y : List ℝ, SliceKernel.kernel (Stationary.nonArd v l : Stationary .matern52 ℝ) x y =
      v * (11 / 9 * Real.exp (-(1 / 5)))) ∧ 1 < 11 / 9 * Real.exp (-(1 / 5)) := by
  have h3 : (0 : ℝ) < Real.sqrt 3 := by positivity
  have hmax : ∀ s : ℝ, 0 ≤ s → (1 + s + 5 / 9 * s ^ 2) * Real.exp (-s) ≤ 11 / 9 * Real.exp (-(1 / 5)) := by
    intro s hs
    have e : (11 / 9 : ℝ) * Real.exp (-(1 / 5)) = (1 + 1 / 5 + 5 / 9 * (1 / 5) ^ 2) * Real.exp (-(1 / 5)) := by
      norm_num
    rw [e]
    rcases le_total s (1 / 5) with h | h
    · exact matern52_strictMono.monotoneOn ⟨hs, h⟩ ⟨by norm_num, le_refl _⟩ h
    · exact matern52_antitone le_rfl h
  refine ⟨fun x y => ?_, ⟨[l * (1 / 5 / Real.sqrt 3)], [0], ?_⟩, ?_⟩
  · rw [slice_stationary]
    refine mul_le_mul_of_nonneg_left ?_ hv.le
    rw [profile_matern52]
    exact hmax _ (mul_nonneg h3.le (sliceDistance_nonneg _ _ _))
  · rw [slice_stationary]
    show v * profile .matern52 (sliceDistance [l] _ _) = _
    rw [sliceDistance_singleton, sub_zero, mul_div_cancel_left₀ _ hl.ne', abs_of_nonneg (by positivity),
      profile_matern52, mul_div_cancel₀ _ h3.ne']
    norm_num
  · have := hmax (1 / 10) (by norm_num)
    have h2 := profile_matern52_exceeds
    rw [profile_matern52, mul_div_cancel₀ _ h3.ne'] at h2
    linarith

/-! ## When a kernel built with one lengthscale sees all coordinates -/

theorem profile_injOn {kind : StationaryKind} (h1 : kind ≠ .cosine) (h2 : kind ≠ .matern52) {r s : ℝ} (hr : 0 ≤ r)
    (hs : 0 ≤ s) (h : profile kind r = profile kind s) : r = s := by
  cases kind with
  | cosine => exact absurd rfl h1
  | matern52 => exact absurd rfl h2
  | exponential => have := Real.exp_injective h; linarith
  | expQuad =>
    have := Real.exp_injective h
    exact (pow_left_inj₀ hr hs two_ne_zero).1 (by linarith)
  | matern32 =>
    have h3 : (0 : ℝ) < Real.sqrt 3 := by positivity
    have hd : StrictAntiOn (fun s : ℝ => (1 + s) * Real.exp (-s)) (Set.Ici 0) := by
      refine strictAntiOn_of_deriv_neg (convex_Ici _) (by fun_prop) fun s hs => ?_
      rw [interior_Ici] at hs
      have hs : 0 < s := hs
      have hd : HasDerivAt (fun s : ℝ => (1 + s) * Real.exp (-s)) (-s * Real.exp (-s)) s := by
        have := ((hasDerivAt_id s).const_add 1).mul (hasDerivAt_neg s).exp
        refine this.congr_deriv ?_
        simp only [id]
        ring
      rw [hd.deriv]
      exact mul_neg_of_neg_of_pos (by linarith) (Real.exp_pos _)
    have := hd.injOn (show Real.sqrt 3 * r ∈ Set.Ici (0 : ℝ) from mul_nonneg h3.le hr)
      (show Real.sqrt 3 * s ∈ Set.Ici (0 : ℝ) from mul_nonneg h3.le hs) h
    exact mul_left_cancel₀ h3.ne' this

theorem rationalProfile_inj {p : ℝ} (hp : p ≠ 0) {r s : ℝ} (hr : 0 ≤ r) (hs : 0 ≤ s)
    (h : rationalProfile p r = rationalProfile p s) : r = s := by
  unfold rationalProfile at h
  have := (Real.rpow_left_inj (by positivity) (by positivity) (neg_ne_zero.2 hp)).1 h
  exact (pow_left_inj₀ hr hs two_ne_zero).1 (by linarith)

theorem nonArd_distance {d : Nat} (l : ℝ) (hl : l ≠ 0) (x y : Fin (d + 1) → ℝ) :
    sliceDistance [l] (List.ofFn x) (List.ofFn y) = scaledDist (fun _ => l) x y ↔ ∀ i : Fin d, x i.succ = y i.succ := by
  have h1 : sliceDistance [l] (List.ofFn x) (List.ofFn y) = Real.sqrt (((x 0 - y 0) / l) ^ 2) := by
    rw [sliceDistance_real, List.ofFn_succ, List.ofFn_succ]
    simp
  rw [h1, scaledDist, Fin.sum_univ_succ, Real.sqrt_inj (by positivity)
    (add_nonneg (sq_nonneg _) (Finset.sum_nonneg fun i _ => sq_nonneg _)), eq_comm, add_eq_left,
    Finset.sum_eq_zero_iff_of_nonneg (fun i _ => sq_nonneg _)]
  simp only [Finset.mem_univ, forall_true_left, sq_eq_zero_iff, div_eq_zero_iff, hl, or_false, sub_eq_zero]

/-- A kernel built by `non_ard` sees the scaled distance over all coordinates exactly when the points agree on all
coordinates but the first. -/
theorem C38_non_ard_iff {d : Nat} (v l p : ℝ) (hv : v ≠ 0) (hl : l ≠ 0) (hp : p ≠ 0) {kind : StationaryKind}
    (h1 : kind ≠ .cosine) (h2 : kind ≠ .matern52) (x y : Fin (d + 1) → ℝ) :
    (SliceKernel.kernel (Stationary.nonArd v l : Stationary kind ℝ) (List.ofFn x) (List.ofFn y) =
      v * profile kind (scaledDist (fun _ => l) x y) ↔ ∀ i : Fin d, x i.succ = y i.succ) ∧
    (SliceKernel.kernel (RationalQuadratic.nonArd p v l) (List.ofFn x) (List.ofFn y) =
      v * rationalProfile p (scaledDist (fun _ => l) x y) ↔ ∀ i : Fin d, x i.succ = y i.succ) := by
  rw [slice_stationary, slice_rational]
  show (v * profile kind (sliceDistance [l] _ _) = _ ↔ _) ∧ (v * rationalProfile p (sliceDistance [l] _ _) = _ ↔ _)
  rw [← nonArd_distance l hl]
  constructor
  · exact ⟨fun h => profile_injOn h1 h2 (sliceDistance_nonneg _ _ _) (Real.sqrt_nonneg _) (mul_left_cancel₀ hv h),
      fun h => by rw [h]⟩
  · exact ⟨fun h => rationalProfile_inj hp (sliceDistance_nonneg _ _ _) (Real.sqrt_nonneg _) (mul_left_cancel₀ hv h),
      fun h => by rw [h]⟩

/-! ## When the dot product of two sparse features is right -/

/-- The dot product of two sparse features is their inner product exactly when the products of the activations stored
under shared indices add up to the number of those indices. -/
theorem C12_sparse_sparse_iff (sa₁ sa₂ : SparseActivations ℝ) (h₁ : WF (.sparse sa₁)) :
    (Features.sparse sa₁).dotFeatures (.sparse sa₂) = .ok (innerFeatures (.sparse sa₁) (.sparse sa₂)) ↔
      ∑ i ∈ (sa₁.activations.map Prod.fst).toFinset ∩ (sa₂.activations.map Prod.fst).toFinset,
        (value (.sparse sa₁) i * value (.sparse sa₂) i - 1) = 0 := by
  rw [C12_dot_sparse_counts _ _ h₁.1]
  have : innerFeatures (.sparse sa₁) (.sparse sa₂) = ∑ i ∈ (sa₁.activations.map Prod.fst).toFinset ∩
      (sa₂.activations.map Prod.fst).toFinset, value (.sparse sa₁) i * value (.sparse sa₂) i := by
    have hz : ∀ (sa : SparseActivations ℝ) (i : Nat), i ∉ sa.activations.map Prod.fst →
        value (.sparse sa) i = 0 := by
      intro sa i hi
      simp only [value]
      rw [List.find?_eq_none.2 fun e he hk => hi (List.mem_map.2 ⟨e, he, by simpa using hk⟩)]
      exact real_zero
    unfold innerFeatures
    symm
    refine Finset.sum_subset ?_ ?_
    · intro i hi
      obtain ⟨e, he, rfl⟩ := List.mem_map.1 (List.mem_toFinset.1 (Finset.mem_inter.1 hi).1)
      exact Finset.mem_range.2 (h₁.2 e he)
    · intro i _ hi
      rw [Finset.mem_inter, not_and_or, List.mem_toFinset, List.mem_toFinset] at hi
      rcases hi with hi | hi
      · rw [hz _ _ hi, zero_mul]
      · rw [hz _ _ hi, mul_zero]
  rw [Finset.sum_sub_distrib, ← this, Finset.sum_const, nsmul_eq_mul, mul_one, sub_eq_zero, eq_comm]
  exact ⟨fun h => (Except.ok.inj h), fun h => by rw [h]⟩

end Lfa

import Verif.Proofs.Kernels
import Verif.Proofs.Scatter
import Verif.Model.Lfa

/-!
# C36–C39: kernels

Exact arithmetic. (`x / 0 = 0` in Lean's reals, so the statements say nothing about IEEE behaviour
for a zero lengthscale.)
-/

set_option linter.unusedSectionVars false

namespace Lfa

open Spec

/-! ## C36 Kernels are symmetric and peak at zero distance -/

theorem slice_stationary {kind : StationaryKind} (k : Stationary kind ℝ) (x y : List ℝ) :
    SliceKernel.kernel k x y = k.variance * profile kind (sliceDistance k.lengthscales x y) :=
  kernelStationary_real k _

theorem slice_rational (k : RationalQuadratic ℝ) (x y : List ℝ) :
    SliceKernel.kernel k x y =
      k.variance * rationalProfile k.power (sliceDistance k.lengthscales x y) :=
  kernelRational_real k _

/-- Symmetry, for all six kernels, all points and lengthscales. -/
theorem C36_symmetric {kind : StationaryKind} (k : Stationary kind ℝ) (q : RationalQuadratic ℝ)
    (x y : List ℝ) :
    SliceKernel.kernel k x y = SliceKernel.kernel k y x ∧
    SliceKernel.kernel q x y = SliceKernel.kernel q y x := by
  rw [slice_stationary, slice_stationary, slice_rational, slice_rational,
    sliceDistance_comm, sliceDistance_comm q.lengthscales]
  exact ⟨rfl, rfl⟩

/-- The same for the kernels on numbers. -/
theorem C36_symmetric_scalar {kind : StationaryKind} (k : Stationary kind ℝ)
    (q : RationalQuadratic ℝ) (x y : ℝ) :
    ScalarKernel.kernel k x y = ScalarKernel.kernel k y x ∧
    ScalarKernel.kernel q x y = ScalarKernel.kernel q y x := by
  have h : ∀ ls : List ℝ, scalarDistance ls x y = scalarDistance ls y x := by
    intro ls
    unfold scalarDistance
    simp only [real_abs, real_sub, real_div, abs_sub_comm]
  exact ⟨by show (scalarDistance _ x y >>= _) = (scalarDistance _ y x >>= _); rw [h],
    by show (scalarDistance _ x y >>= _) = (scalarDistance _ y x >>= _); rw [h]⟩

/-- The value at `x = y` is the variance. -/
theorem C36_variance_at_zero {kind : StationaryKind} (k : Stationary kind ℝ)
    (q : RationalQuadratic ℝ) (x : List ℝ) :
    SliceKernel.kernel k x x = k.variance ∧ SliceKernel.kernel q x x = q.variance := by
  rw [slice_stationary, slice_rational, sliceDistance_self, sliceDistance_self, profile_zero,
    rationalProfile_zero, mul_one, mul_one]
  exact ⟨rfl, rfl⟩

/-- The magnitude never exceeds the variance: Exponential, Matern32, ExpQuad, Cosine, and
RationalQuadratic with non-negative power. *Missing for the full claim:* Matern52, for which it is
false — see `C36_matern52_exceeds_variance`; its best bound of this form is `C36_matern52_bound`. -/
theorem C36_bounded_partial {kind : StationaryKind} (hk : kind ≠ .matern52)
    (k : Stationary kind ℝ) (hv : 0 < k.variance) (q : RationalQuadratic ℝ) (hq : 0 < q.variance)
    (hp : 0 ≤ q.power) (x y : List ℝ) :
    |SliceKernel.kernel k x y| ≤ k.variance ∧ |SliceKernel.kernel q x y| ≤ q.variance := by
  rw [slice_stationary, slice_rational, abs_mul, abs_mul, abs_of_pos hv, abs_of_pos hq]
  constructor
  · refine mul_le_of_le_one_right hv.le ?_
    by_cases hc : kind = .cosine
    · subst hc; exact Real.abs_cos_le_one _
    · rw [abs_of_pos (profile_pos hc (sliceDistance_nonneg _ _ _)), ← profile_zero kind]
      exact profile_antitone hc hk le_rfl (sliceDistance_nonneg _ _ _)
  · refine mul_le_of_le_one_right hq.le ?_
    rw [abs_of_pos (rationalProfile_pos _ _), ← rationalProfile_zero q.power]
    exact rationalProfile_antitone hp le_rfl (sliceDistance_nonneg _ _ _)

/-- Matern52 is bounded by 10/9 of the variance. -/
theorem C36_matern52_bound (k : Stationary .matern52 ℝ) (hv : 0 < k.variance) (x y : List ℝ) :
    |SliceKernel.kernel k x y| ≤ 10 / 9 * k.variance := by
  rw [slice_stationary, abs_mul, abs_of_pos hv,
    abs_of_pos (profile_pos (by simp) (sliceDistance_nonneg _ _ _)), mul_comm]
  exact mul_le_mul_of_nonneg_right (profile_matern52_le (sliceDistance_nonneg _ _ _)) hv.le

theorem sliceDistance_singleton (l a b : ℝ) : sliceDistance [l] [a] [b] = |(a - b) / l| := by
  rw [sliceDistance_real]
  simp [Real.sqrt_sq_eq_abs]

/-- The full claim is false: for every variance and lengthscale, the Matern52 kernel exceeds its
variance at a positive distance (the code's `sqrt_5` is `√3`). -/
theorem C36_matern52_exceeds_variance (v l : ℝ) (hv : 0 < v) (hl : 0 < l) :
    ∃ x y : List ℝ, v < SliceKernel.kernel (Stationary.nonArd v l : Stationary .matern52 ℝ) x y := by
  refine ⟨[l * (1 / 10 / Real.sqrt 3)], [0], ?_⟩
  rw [slice_stationary]
  show v < v * profile .matern52 (sliceDistance [l] _ _)
  rw [sliceDistance_singleton, sub_zero, mul_div_cancel_left₀ _ hl.ne', abs_of_nonneg (by positivity)]
  exact lt_mul_of_one_lt_right hv profile_matern52_exceeds

/-! ## C37 Kernels decay with distance -/

/-- Positive at every distance. -/
theorem C37_positive {kind : StationaryKind} (hk : kind ≠ .cosine) (k : Stationary kind ℝ)
    (hv : 0 < k.variance) (q : RationalQuadratic ℝ) (hq : 0 < q.variance) (x y : List ℝ) :
    0 < SliceKernel.kernel k x y ∧ 0 < SliceKernel.kernel q x y := by
  rw [slice_stationary, slice_rational]
  exact ⟨mul_pos hv (profile_pos hk (sliceDistance_nonneg _ _ _)),
    mul_pos hq (rationalProfile_pos _ _)⟩

/-- Non-increasing in the scaled distance: Exponential, Matern32, ExpQuad, RationalQuadratic at all
distances, Matern52 from `√3 r ≥ 1/5` on. *Missing for the full claim:* Matern52 at smaller
distances, where it is false — see `C37_matern52_increases`. -/
theorem C37_decay_partial {d : Nat} (l x y x' y' : Fin d → ℝ)
    (h : scaledDist l x y ≤ scaledDist l x' y') {kind : StationaryKind} (hk : kind ≠ .cosine)
    (h52 : kind = .matern52 → 1 / 5 ≤ Real.sqrt 3 * scaledDist l x y)
    (v : ℝ) (hv : 0 < v) (p : ℝ) (hp : 0 < p) :
    SliceKernel.kernel (⟨v, List.ofFn l⟩ : Stationary kind ℝ) (List.ofFn x') (List.ofFn y') ≤
      SliceKernel.kernel (⟨v, List.ofFn l⟩ : Stationary kind ℝ) (List.ofFn x) (List.ofFn y) ∧
    SliceKernel.kernel (⟨v, List.ofFn l, p⟩ : RationalQuadratic ℝ) (List.ofFn x') (List.ofFn y') ≤
      SliceKernel.kernel (⟨v, List.ofFn l, p⟩ : RationalQuadratic ℝ) (List.ofFn x) (List.ofFn y) := by
  simp only [slice_stationary, slice_rational, sliceDistance_ofFn]
  have h0 : 0 ≤ scaledDist l x y := Real.sqrt_nonneg _
  constructor
  · apply mul_le_mul_of_nonneg_left _ hv.le
    by_cases hm : kind = .matern52
    · subst hm; exact profile_matern52_antitone (h52 rfl) h
    · exact profile_antitone hk hm h0 h
  · exact mul_le_mul_of_nonneg_left (rationalProfile_antitone hp.le h0 h) hv.le

/-- The full claim is false: Matern52 is larger at a positive distance than at distance 0. -/
theorem C37_matern52_increases :
    ∃ x x' : Fin 1 → ℝ, scaledDist 1 x x < scaledDist 1 x' x ∧
      SliceKernel.kernel (⟨1, [1]⟩ : Stationary .matern52 ℝ) (List.ofFn x) (List.ofFn x) <
        SliceKernel.kernel (⟨1, [1]⟩ : Stationary .matern52 ℝ) (List.ofFn x') (List.ofFn x) := by
  have h3 : (0 : ℝ) < Real.sqrt 3 := by positivity
  refine ⟨fun _ => 0, fun _ => 1 / 10 / Real.sqrt 3, ?_, ?_⟩
  · simp only [scaledDist]
    apply Real.sqrt_lt_sqrt
    · simp
    · simp
  · rw [slice_stationary, slice_stationary, sliceDistance_self]
    simp only [List.ofFn_succ, List.ofFn_zero]
    rw [sliceDistance_singleton, profile_zero, one_mul, one_mul, sub_zero, div_one,
      abs_of_nonneg (by positivity)]
    exact profile_matern52_exceeds

/-! ## C38 Kernel values use every coordinate -/

/-- With one lengthscale per coordinate the value is the profile of the scaled distance over all
coordinates. *Missing for the full claim:* the non-ARD constructors on slices, for which it is false
— see `C38_non_ard_ignores_coordinates`. -/
theorem C38_all_coordinates_partial {d : Nat} (l x y : Fin d → ℝ) (v p : ℝ) {kind : StationaryKind} :
    SliceKernel.kernel (⟨v, List.ofFn l⟩ : Stationary kind ℝ) (List.ofFn x) (List.ofFn y) =
      v * profile kind (scaledDist l x y) ∧
    SliceKernel.kernel (⟨v, List.ofFn l, p⟩ : RationalQuadratic ℝ) (List.ofFn x) (List.ofFn y) =
      v * rationalProfile p (scaledDist l x y) := by
  rw [slice_stationary, slice_rational, sliceDistance_ofFn]
  exact ⟨rfl, rfl⟩

/-- A distance at which each profile differs from its value at 0. -/
noncomputable def farAway : StationaryKind → ℝ
  | .matern52 => 2 / Real.sqrt 3
  | .cosine => Real.pi
  | _ => 1

theorem profile_farAway (kind : StationaryKind) : profile kind (farAway kind) ≠ 1 := by
  cases kind with
  | exponential =>
    simp only [profile, farAway]
    have := Real.exp_lt_one_iff.2 (show (-1 : ℝ) < 0 by norm_num)
    exact this.ne
  | matern32 =>
    simp only [profile, farAway, mul_one]
    have h3 : (0 : ℝ) < Real.sqrt 3 := by positivity
    have := Real.add_one_lt_exp h3.ne'
    rw [Real.exp_neg, ← div_eq_mul_inv]
    exact ((div_lt_one (Real.exp_pos _)).2 (by linarith)).ne
  | matern52 =>
    rw [profile_matern52]
    simp only [farAway]
    have h3 : Real.sqrt 3 ≠ 0 := by positivity
    rw [mul_div_cancel₀ _ h3, Real.exp_neg, ← div_eq_mul_inv]
    refine ((div_lt_one (Real.exp_pos _)).2 ?_).ne
    have h1 := Real.exp_one_gt_d9
    rw [show (2 : ℝ) = 1 + 1 by norm_num, Real.exp_add]
    nlinarith
  | expQuad =>
    simp only [profile, farAway]
    have := Real.exp_lt_one_iff.2 (show (-((1 : ℝ) ^ 2 / 2)) < 0 by norm_num)
    exact this.ne
  | cosine =>
    simp only [profile, farAway, Real.cos_pi]
    norm_num

theorem farAway_pos (kind : StationaryKind) : 0 < farAway kind := by
  cases kind <;> simp only [farAway] <;> positivity

theorem scaledDist_single {d : Nat} (l : Fin d → ℝ) (i : Fin d) (hl : l i ≠ 0) (r : ℝ) (hr : 0 ≤ r) :
    scaledDist l (fun j => if j = i then l i * r else 0) (fun _ => 0) = r := by
  rw [scaledDist, Finset.sum_eq_single i]
  · rw [if_pos rfl, sub_zero, mul_div_cancel_left₀ _ hl, Real.sqrt_sq hr]
  · intro j _ hj
    rw [if_neg hj]; simp
  · intro h; exact absurd (Finset.mem_univ i) h

/-- Every coordinate matters: for every `i` there are points that differ only in coordinate `i` at
which the kernel takes different values. -/
theorem C38_depends_on_each {d : Nat} (l : Fin d → ℝ) (i : Fin d) (hl : l i ≠ 0) (v p : ℝ)
    (hv : v ≠ 0) (hp : p ≠ 0) {kind : StationaryKind} :
    ∃ x x' x'' y : Fin d → ℝ, (∀ j, j ≠ i → x' j = x j ∧ x'' j = x j) ∧
      SliceKernel.kernel (⟨v, List.ofFn l⟩ : Stationary kind ℝ) (List.ofFn x) (List.ofFn y) ≠
        SliceKernel.kernel (⟨v, List.ofFn l⟩ : Stationary kind ℝ) (List.ofFn x') (List.ofFn y) ∧
      SliceKernel.kernel (⟨v, List.ofFn l, p⟩ : RationalQuadratic ℝ) (List.ofFn x) (List.ofFn y) ≠
        SliceKernel.kernel (⟨v, List.ofFn l, p⟩ : RationalQuadratic ℝ) (List.ofFn x'')
          (List.ofFn y) := by
  refine ⟨fun _ => 0, fun j => if j = i then l i * farAway kind else 0,
    fun j => if j = i then l i * 1 else 0, fun _ => 0, fun j hj => ?_, ?_, ?_⟩
  · simp [hj]
  · rw [(C38_all_coordinates_partial l _ _ v p).1, (C38_all_coordinates_partial l _ _ v p).1,
      scaledDist_single l i hl _ (farAway_pos kind).le]
    have h0 : scaledDist l (fun _ => 0) (fun _ => 0) = 0 := by simp [scaledDist]
    rw [h0, profile_zero]
    intro h
    exact profile_farAway kind (mul_left_cancel₀ hv h).symm
  · rw [(C38_all_coordinates_partial (kind := kind) l _ _ v p).2,
      (C38_all_coordinates_partial (kind := kind) l _ _ v p).2,
      scaledDist_single l i hl _ zero_le_one]
    have h0 : scaledDist l (fun _ => 0) (fun _ => 0) = 0 := by simp [scaledDist]
    rw [h0, rationalProfile_zero]
    intro h
    have h := (mul_left_cancel₀ hv h).symm
    rw [rationalProfile, show (1 : ℝ) + 1 ^ 2 / 2 = 3 / 2 by norm_num] at h
    have h2 := Real.log_rpow (show (0 : ℝ) < 3 / 2 by norm_num) (-p)
    rw [h, Real.log_one] at h2
    have h3 : Real.log (3 / 2) ≠ 0 := (Real.log_pos (by norm_num)).ne'
    rcases mul_eq_zero.1 h2.symm with h4 | h4
    · exact hp (neg_eq_zero.1 h4)
    · exact h3 h4

/-- The full claim is false: a kernel built by `non_ard` and applied to slices only looks at the
first coordinate, in any arithmetic. -/
theorem C38_non_ard_ignores_coordinates {K : Type} [Scalar K] {kind : StationaryKind} (v l p : K)
    (x y : K) (xs ys : List K) :
    SliceKernel.kernel (Stationary.nonArd v l : Stationary kind K) (x :: xs) (y :: ys) =
      SliceKernel.kernel (Stationary.nonArd v l : Stationary kind K) [x] [y] ∧
    SliceKernel.kernel (RationalQuadratic.nonArd p v l) (x :: xs) (y :: ys) =
      SliceKernel.kernel (RationalQuadratic.nonArd p v l) [x] [y] := by
  have h : sliceDistance [l] (x :: xs) (y :: ys) = sliceDistance [l] [x] [y] := by
    unfold sliceDistance
    simp
  exact ⟨congrArg (Stationary.kernelStationary _) h, congrArg (RationalQuadratic.kernelStationary _) h⟩

/-! ## C39 Scalar and slice kernels agree -/

theorem scalarDistance_real (l : ℝ) (ls : List ℝ) (x y : ℝ) :
    scalarDistance (l :: ls) x y = .ok (|x - y| / l) := rfl

/-- For a positive first lengthscale, a kernel on numbers equals the kernel on one-element slices. -/
theorem C39_scalar_eq_slice {kind : StationaryKind} (v l p : ℝ) (hl : 0 < l) (ls : List ℝ) (x y : ℝ) :
    ScalarKernel.kernel (⟨v, l :: ls⟩ : Stationary kind ℝ) x y =
      .ok (SliceKernel.kernel (⟨v, l :: ls⟩ : Stationary kind ℝ) [x] [y]) ∧
    ScalarKernel.kernel (⟨v, l :: ls, p⟩ : RationalQuadratic ℝ) x y =
      .ok (SliceKernel.kernel (⟨v, l :: ls, p⟩ : RationalQuadratic ℝ) [x] [y]) := by
  have h : sliceDistance (l :: ls) [x] [y] = |x - y| / l := by
    rw [sliceDistance_real]
    simp [Real.sqrt_sq_eq_abs, abs_div, abs_of_pos hl]
  constructor
  · show (scalarDistance (l :: ls) x y >>= _) = Except.ok (Stationary.kernelStationary _ (sliceDistance (l :: ls) [x] [y]))
    rw [h]; rfl
  · show (scalarDistance (l :: ls) x y >>= _) = Except.ok (RationalQuadratic.kernelStationary _ (sliceDistance (l :: ls) [x] [y]))
    rw [h]; rfl

/-- The hypothesis is needed: for a negative lengthscale the two kernels differ. -/
theorem C39_negative_lengthscale_differs :
    ScalarKernel.kernel (⟨1, [-1]⟩ : Stationary .exponential ℝ) 1 0 ≠
      .ok (SliceKernel.kernel (⟨1, [-1]⟩ : Stationary .exponential ℝ) [1] [0]) := by
  intro h
  have h1 : ScalarKernel.kernel (⟨1, [-1]⟩ : Stationary .exponential ℝ) 1 0 =
      .ok (1 * Real.exp (-(|1 - 0| / -1))) := rfl
  rw [h1, slice_stationary, sliceDistance_singleton] at h
  injection h with h
  simp only [profile] at h
  norm_num at h

/-- Without lengthscales the kernel on numbers panics, the kernel on slices is constant. -/
theorem C39_no_lengthscale {K : Type} [Scalar K] {kind : StationaryKind} (v x y : K) (xs ys : List K) :
    Spec.Panics (ScalarKernel.kernel (⟨v, []⟩ : Stationary kind K) x y) ∧
      SliceKernel.kernel (⟨v, []⟩ : Stationary kind K) xs ys =
        SliceKernel.kernel (⟨v, []⟩ : Stationary kind K) [] [] := by
  refine ⟨⟨_, rfl⟩, congrArg (Stationary.kernelStationary _) ?_⟩
  unfold sliceDistance
  simp

/-- Hypotheses of C36–C39 are met by the default kernels. -/
example : (0 : ℝ) < (Stationary.default : Stationary .expQuad ℝ).variance ∧
    (0 : ℝ) < (RationalQuadratic.default : RationalQuadratic ℝ).variance ∧
    (0 : ℝ) < (RationalQuadratic.default : RationalQuadratic ℝ).power := by
  refine ⟨?_, ?_, ?_⟩
  · show (0 : ℝ) < Scalar.one
    rw [real_one]; norm_num
  · show (0 : ℝ) < Scalar.one
    rw [real_one]; norm_num
  · show (0 : ℝ) < Scalar.one
    rw [real_one]; norm_num

end Lfa

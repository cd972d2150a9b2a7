import Verif.Proofs.PosDef
import Verif.Props.C36_C39

/-!
# C86: positive semidefiniteness of the kernels
-/

set_option linter.unusedSectionVars false

namespace Lfa

open Spec

/-- The `k`-th scaled coordinate of a point; 0 beyond the lengthscales. -/
noncomputable def scaledCoord (ls x : List ℝ) (k : Nat) : ℝ :=
  if k < ls.length then x.getD k 0 / ls.getD k 0 else 0

theorem scaled_sum : ∀ (d : Nat) (ls x y : List ℝ), x.length = d → y.length = d →
    (List.zipWith (fun d l => (d / l) ^ 2) (List.zipWith (fun a b => a - b) x y) ls).sum =
      ∑ k : Fin d, (scaledCoord ls x k - scaledCoord ls y k) ^ 2
  | 0, ls, [], [], _, _ => by simp
  | d + 1, [], x, y, _, _ => by simp [scaledCoord]
  | d + 1, l :: ls, a :: x, b :: y, hx, hy => by
    rw [Fin.sum_univ_succ]
    simp only [List.zipWith_cons_cons, List.sum_cons]
    rw [scaled_sum d ls x y (by simpa using hx) (by simpa using hy)]
    congr 1
    · simp only [scaledCoord, Fin.val_zero, List.length_cons, Nat.zero_lt_succ, if_true,
        List.getD_cons_zero]
      ring
    · refine Finset.sum_congr rfl fun k _ => ?_
      simp only [scaledCoord, Fin.val_succ, List.length_cons, Nat.add_lt_add_iff_right,
        List.getD_cons_succ]

theorem sliceDistance_scaled {d : Nat} (ls : List ℝ) {x y : List ℝ} (hx : x.length = d)
    (hy : y.length = d) : sliceDistance ls x y =
      Real.sqrt (∑ k : Fin d, (scaledCoord ls x k - scaledCoord ls y k) ^ 2) := by
  rw [sliceDistance_real, scaled_sum d ls x y hx hy]

section
variable {m d : Nat} (ls : List ℝ) (x : Fin m → List ℝ)

/-- Squared scaled distances between the points. -/
noncomputable def gramDist (d : Nat) (i j : Fin m) : ℝ :=
  ∑ k : Fin d, (scaledCoord ls (x i) k - scaledCoord ls (x j) k) ^ 2

theorem gram_cnd : CND (gramDist ls x d) := cnd_dist fun i (k : Fin d) => scaledCoord ls (x i) k

theorem gram_nonneg (i j : Fin m) : 0 ≤ gramDist ls x d i j :=
  Finset.sum_nonneg fun _ _ => sq_nonneg _

theorem gram_distance (hx : ∀ i, (x i).length = d) (i j : Fin m) :
    sliceDistance ls (x i) (x j) = Real.sqrt (gramDist ls x d i j) :=
  sliceDistance_scaled ls (hx i) (hx j)

end

theorem matern32_psd {m : Nat} {D : Fin m → Fin m → ℝ} (hD : CND D) (h0 : ∀ i j, 0 ≤ D i j) :
    PSD fun i j => profile .matern32 (Real.sqrt (D i j)) := by
  have h := (hD.smul (show (0 : ℝ) ≤ 3 by norm_num)).matern32
    (fun i j => mul_nonneg (by norm_num) (h0 i j)) (le_refl 0)
  convert h using 3 with i j
  rw [add_zero, Real.sqrt_mul (by norm_num)]
  rfl

/-- The exponential, Matérn-3/2 and squared exponential kernels are positive semidefinite in any
dimension, with any lengthscales. -/
theorem C86_stationary_partial {kind : StationaryKind}
    (hk : kind = .exponential ∨ kind = .matern32 ∨ kind = .expQuad) (k : Stationary kind ℝ)
    (hv : 0 ≤ k.variance) (d : Nat) :
    PositiveOn (fun x : List ℝ => x.length = d) (SliceKernel.kernel k) := by
  intro m x c hx
  have hD := gram_cnd (d := d) k.lengthscales x
  have h0 := gram_nonneg (d := d) k.lengthscales x
  simp only [slice_stationary, gram_distance k.lengthscales x hx]
  have h : PSD fun i j => profile kind (Real.sqrt (gramDist k.lengthscales x d i j)) := by
    rcases hk with rfl | rfl | rfl
    · simpa [profile] using hD.exp_sqrt h0 (le_refl 0)
    · exact matern32_psd hD h0
    · have := hD.exp_mul (show (0 : ℝ) ≤ 1 / 2 by norm_num)
      convert this using 3 with i j
      simp only [profile, Real.sq_sqrt (h0 i j)]
      congr 1
      ring
  exact (h.smul hv).2 c

/-- The rational quadratic kernel with a non-negative power is positive semidefinite in any
dimension. -/
theorem C86_rational (q : RationalQuadratic ℝ) (hv : 0 ≤ q.variance) (hp : 0 ≤ q.power) (d : Nat) :
    PositiveOn (fun x : List ℝ => x.length = d) (SliceKernel.kernel q) := by
  intro m x c hx
  have hD := gram_cnd (d := d) q.lengthscales x
  have h0 := gram_nonneg (d := d) q.lengthscales x
  simp only [slice_rational, gram_distance q.lengthscales x hx]
  have h : PSD fun i j => rationalProfile q.power (Real.sqrt (gramDist q.lengthscales x d i j)) := by
    rcases hp.eq_or_lt with hp | hp
    · simpa [rationalProfile, ← hp] using PSD.const (ι := Fin m) zero_le_one
    · have := (hD.smul (show (0 : ℝ) ≤ 1 / 2 by norm_num)).rpow_neg
        (fun i j => mul_nonneg (by norm_num) (h0 i j)) one_pos hp
      convert this using 3 with i j
      simp only [rationalProfile, Real.sq_sqrt (h0 i j)]
      congr 1
      ring
  exact (h.smul hv).2 c

/-- The cosine kernel is positive semidefinite when a single coordinate enters the distance. -/
theorem C86_cosine_line (k : Stationary .cosine ℝ) (hv : 0 ≤ k.variance) (d : Nat)
    (h1 : d ≤ 1 ∨ k.lengthscales.length ≤ 1) :
    PositiveOn (fun x : List ℝ => x.length = d) (SliceKernel.kernel k) := by
  intro m x c hx
  have hdist : ∀ i j, sliceDistance k.lengthscales (x i) (x j) =
      |scaledCoord k.lengthscales (x i) 0 - scaledCoord k.lengthscales (x j) 0| := by
    intro i j
    rw [sliceDistance_scaled k.lengthscales (hx i) (hx j), ← Real.sqrt_sq_eq_abs]
    congr 1
    cases d with
    | zero =>
      have : ∀ i, scaledCoord k.lengthscales (x i) 0 = 0 := fun i => by
        have hxi : x i = [] := List.length_eq_zero_iff.1 (hx i)
        simp [scaledCoord, hxi]
      simp [this]
    | succ d =>
      rw [Fin.sum_univ_succ, Finset.sum_eq_zero, add_zero]
      · rfl
      · intro t _
        rcases h1 with h1 | h1
        · have : d = 0 := by omega
          subst this
          exact t.elim0
        · have : ¬ (t : Nat) + 1 < k.lengthscales.length := by omega
          simp [scaledCoord, this]
  simp only [slice_stationary, hdist]
  have h : PSD fun i j : Fin m => profile .cosine
      |scaledCoord k.lengthscales (x i) 0 - scaledCoord k.lengthscales (x j) 0| := by
    have := (PSD.outer fun i => Real.cos (scaledCoord k.lengthscales (x i) 0)).add
      (PSD.outer fun i => Real.sin (scaledCoord k.lengthscales (x i) 0))
    simpa [profile, Real.cos_abs, Real.cos_sub] using this
  exact (h.smul hv).2 c

/-- In the plane the cosine kernel is not positive semidefinite: three points at mutual distance `π`. -/
theorem C86_cosine_plane (v l₁ l₂ : ℝ) (hv : 0 < v) (h₁ : l₁ ≠ 0) (h₂ : l₂ ≠ 0) :
    ¬ PositiveOn (fun x : List ℝ => x.length = 2)
      (SliceKernel.kernel (⟨v, [l₁, l₂]⟩ : Stationary .cosine ℝ)) := by
  intro h
  have hk : ∀ a b a' b' : ℝ, SliceKernel.kernel (⟨v, [l₁, l₂]⟩ : Stationary .cosine ℝ)
      [l₁ * a, l₂ * b] [l₁ * a', l₂ * b'] = v * Real.cos (Real.sqrt ((a - a') ^ 2 + (b - b') ^ 2)) := by
    intro a b a' b'
    rw [slice_stationary, sliceDistance_real]
    simp only [List.zipWith_cons_cons, List.zipWith_nil_right, List.sum_cons, List.sum_nil, add_zero,
      ← mul_sub, mul_div_cancel_left₀ _ h₁, mul_div_cancel_left₀ _ h₂, profile]
  have hπ := Real.pi_pos
  have h3 : Real.sqrt 3 ^ 2 = 3 := Real.sq_sqrt (by norm_num)
  have hx := h 3 ![[l₁ * 0, l₂ * 0], [l₁ * Real.pi, l₂ * 0],
    [l₁ * (Real.pi / 2), l₂ * (Real.pi / 2 * Real.sqrt 3)]] (fun _ => 1)
    (fun i => by fin_cases i <;> rfl)
  simp only [Fin.sum_univ_three, Matrix.cons_val_zero, Matrix.cons_val_one, Matrix.cons_val,
    hk] at hx
  have c0 : Real.cos (Real.sqrt 0) = 1 := by simp
  have cπ : ∀ z, z = Real.pi ^ 2 → Real.cos (Real.sqrt z) = -1 := by
    rintro z rfl
    rw [Real.sqrt_sq hπ.le, Real.cos_pi]
  rw [show ((0 : ℝ) - 0) ^ 2 + (0 - 0) ^ 2 = 0 by ring,
    show (Real.pi - Real.pi) ^ 2 + ((0 : ℝ) - 0) ^ 2 = 0 by ring,
    show (Real.pi / 2 - Real.pi / 2) ^ 2 + (Real.pi / 2 * Real.sqrt 3 - Real.pi / 2 * Real.sqrt 3) ^ 2
      = 0 by ring, c0,
    cπ ((0 - Real.pi) ^ 2 + (0 - 0) ^ 2) (by ring), cπ ((Real.pi - 0) ^ 2 + (0 - 0) ^ 2) (by ring),
    cπ ((0 - Real.pi / 2) ^ 2 + (0 - Real.pi / 2 * Real.sqrt 3) ^ 2) (by ring_nf; rw [h3]; ring),
    cπ ((Real.pi / 2 - 0) ^ 2 + (Real.pi / 2 * Real.sqrt 3 - 0) ^ 2) (by ring_nf; rw [h3]; ring),
    cπ ((Real.pi - Real.pi / 2) ^ 2 + (0 - Real.pi / 2 * Real.sqrt 3) ^ 2)
      (by ring_nf; rw [h3]; ring),
    cπ ((Real.pi / 2 - Real.pi) ^ 2 + (Real.pi / 2 * Real.sqrt 3 - 0) ^ 2)
      (by ring_nf; rw [h3]; ring)] at hx
  linarith

/-- The Matérn-5/2 kernel of the code is not positive semidefinite, already on the line. -/
theorem C86_matern52_not_positive (v l : ℝ) (hv : 0 < v) (hl : l ≠ 0) :
    ¬ PositiveOn (fun x : List ℝ => x.length = 1)
      (SliceKernel.kernel (⟨v, [l]⟩ : Stationary .matern52 ℝ)) := by
  intro h
  set r : ℝ := 1 / 10 / Real.sqrt 3 with hr
  have hr0 : 0 ≤ r := by positivity
  have hx := h 2 ![[l * r], [0]] ![1, -1] (fun i => by fin_cases i <;> rfl)
  have hd : ∀ a b : ℝ, sliceDistance [l] [a] [b] = |(a - b) / l| := sliceDistance_singleton l
  simp only [Fin.sum_univ_two, Matrix.cons_val_zero, Matrix.cons_val_one, slice_stationary, hd,
    sub_self, sub_zero, zero_div, abs_zero, zero_sub, neg_div, abs_neg,
    mul_div_cancel_left₀ r hl, abs_of_nonneg hr0, profile_zero] at hx
  have := profile_matern52_exceeds
  nlinarith

/-- With `√5` in place of `√3` the Matérn-5/2 kernel would be positive semidefinite in any
dimension. -/
theorem C86_matern52_textbook (d : Nat) (l : Fin d → ℝ) (v : ℝ) (hv : 0 ≤ v) :
    PositiveOn (fun _ : Fin d → ℝ => True) fun x y => v * matern52Textbook (scaledDist l x y) := by
  intro m x c _
  set D : Fin m → Fin m → ℝ := fun i j => ∑ k, ((x i k - x j k) / l k) ^ 2 with hDdef
  have hD : CND D := by
    have := cnd_dist fun i k => x i k / l k
    simpa only [hDdef, sub_div] using this
  have h0 : ∀ i j, 0 ≤ D i j := fun i j => Finset.sum_nonneg fun _ _ => sq_nonneg _
  have h5 := ((hD.smul (show (0 : ℝ) ≤ 5 by norm_num)).matern52
    fun i j => mul_nonneg (by norm_num) (h0 i j)).smul (show (0 : ℝ) ≤ v / 3 by positivity)
  have := h5.2 c
  convert this using 6 with i _ j
  have e : Real.sqrt (5 * D i j) = Real.sqrt 5 * Real.sqrt (D i j) := Real.sqrt_mul (by norm_num) _
  have s5 : Real.sqrt 5 ^ 2 = 5 := Real.sq_sqrt (by norm_num)
  have es : scaledDist l (x i) (x j) = Real.sqrt (D i j) := rfl
  beta_reduce
  rw [e, es, matern52Textbook, mul_pow, s5]
  ring

/-- The scalar versions, for positive lengthscales. -/
theorem C86_scalar {kind : StationaryKind} (hk : kind ≠ .matern52) (v l p : ℝ) (hv : 0 ≤ v)
    (hl : 0 < l) (hp : 0 ≤ p) (ls : List ℝ) :
    (∃ f : ℝ → ℝ → ℝ, (∀ x y, ScalarKernel.kernel (⟨v, l :: ls⟩ : Stationary kind ℝ) x y = .ok (f x y)) ∧
      PositiveOn (fun _ => True) f) ∧
    ∃ f : ℝ → ℝ → ℝ, (∀ x y, ScalarKernel.kernel (⟨v, l :: ls, p⟩ : RationalQuadratic ℝ) x y =
      .ok (f x y)) ∧ PositiveOn (fun _ => True) f := by
  have lift : ∀ k : List ℝ → List ℝ → ℝ, PositiveOn (fun x : List ℝ => x.length = 1) k →
      PositiveOn (fun _ : ℝ => True) fun x y => k [x] [y] :=
    fun k h m x c _ => h m (fun i => [x i]) c fun _ => rfl
  refine ⟨⟨_, fun x y => (C39_scalar_eq_slice v l p hl ls x y).1, lift _ ?_⟩,
    ⟨_, fun x y => (C39_scalar_eq_slice (kind := kind) v l p hl ls x y).2,
      lift _ (C86_rational _ hv hp 1)⟩⟩
  cases kind with
  | exponential => exact C86_stationary_partial (.inl rfl) _ hv 1
  | matern32 => exact C86_stationary_partial (.inr (.inl rfl)) _ hv 1
  | matern52 => exact absurd rfl hk
  | expQuad => exact C86_stationary_partial (.inr (.inr rfl)) _ hv 1
  | cosine => exact C86_cosine_line _ hv 1 (.inl le_rfl)

/-- A concrete quadratic form over three points in the plane. -/
example (c : Fin 3 → ℝ) : 0 ≤ ∑ i, ∑ j, c i * c j *
    SliceKernel.kernel (⟨2, [1, 3]⟩ : Stationary .matern32 ℝ)
      (![[0, 0], [1, 2], [-1, 5]] i) (![[0, 0], [1, 2], [-1, 5]] j) :=
  C86_stationary_partial (.inr (.inl rfl)) ⟨2, [1, 3]⟩ (by norm_num) 2 3 _ c
    fun i => by fin_cases i <;> rfl

end Lfa

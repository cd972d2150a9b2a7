import Verif.Props.C86

/-!
# Exactly which built-in kernels are positive semidefinite
-/

set_option linter.unusedSectionVars false

namespace Lfa

open Spec

theorem zipWith_pad (m m' : Nat) (ls : List ℝ) :
    (List.zipWith (fun d l : ℝ => (d / l) ^ 2)
      (List.zipWith (fun a b : ℝ => a - b) (List.replicate m 0) (List.replicate m' 0)) ls).sum = 0 := by
  refine List.sum_eq_zero fun z hz => ?_
  rw [List.mem_iff_getElem] at hz
  obtain ⟨i, hi, rfl⟩ := hz
  simp

/-- Points that differ in the first coordinate only. -/
theorem pad_one (l : ℝ) (ls : List ℝ) (m : Nat) (a a' : ℝ) :
    sliceDistance (l :: ls) (a :: List.replicate m 0) (a' :: List.replicate m 0) = |(a - a') / l| := by
  rw [sliceDistance_real, List.zipWith_cons_cons, List.zipWith_cons_cons, List.sum_cons, zipWith_pad, add_zero,
    Real.sqrt_sq_eq_abs]

/-- Points that differ in the first two coordinates only. -/
theorem pad_two (l₁ l₂ : ℝ) (ls : List ℝ) (m : Nat) (a b a' b' : ℝ) :
    sliceDistance (l₁ :: l₂ :: ls) (a :: b :: List.replicate m 0) (a' :: b' :: List.replicate m 0)
      = Real.sqrt (((a - a') / l₁) ^ 2 + ((b - b') / l₂) ^ 2) := by
  rw [sliceDistance_real, List.zipWith_cons_cons, List.zipWith_cons_cons, List.zipWith_cons_cons,
    List.zipWith_cons_cons, List.sum_cons, List.sum_cons, zipWith_pad, add_zero]

theorem slice_trivial {d : Nat} {ls : List ℝ} (h : d = 0 ∨ ls = []) {x y : List ℝ} (hx : x.length = d) (hy : y.length = d) :
    sliceDistance ls x y = 0 := by
  rw [sliceDistance_real]
  rcases h with rfl | rfl
  · rw [List.length_eq_zero_iff.1 hx]
    simp
  · simp

/-- A kernel that takes one value only. -/
theorem positive_const {S : List ℝ → Prop} {k : List ℝ → List ℝ → ℝ} {v : ℝ} (hv : 0 ≤ v)
    (h : ∀ x y, S x → S y → k x y = v) : PositiveOn S k := by
  intro m x c hx
  have : ∑ i, ∑ j, c i * c j * k (x i) (x j) = v * (∑ i, c i) ^ 2 := by
    rw [sq, Finset.sum_mul_sum, Finset.mul_sum]
    refine Finset.sum_congr rfl fun i _ => ?_
    rw [Finset.mul_sum]
    exact Finset.sum_congr rfl fun j _ => by rw [h _ _ (hx i) (hx j)]; ring
  rw [this]
  positivity

/-- On the diagonal. -/
theorem positive_diag {S : List ℝ → Prop} {k : List ℝ → List ℝ → ℝ} (h : PositiveOn S k) {x : List ℝ} (hx : S x) :
    0 ≤ k x x := by
  have := h 1 (fun _ => x) (fun _ => 1) fun _ => hx
  simpa using this

/-- Off the diagonal. -/
theorem positive_pair {S : List ℝ → Prop} {k : List ℝ → List ℝ → ℝ} (h : PositiveOn S k) {x y : List ℝ} (hx : S x) (hy : S y) :
    k x y + k y x ≤ k x x + k y y := by
  have := h 2 ![x, y] ![1, -1] fun i => by fin_cases i <;> assumption
  simp [Fin.sum_univ_two] at this
  linarith

/-- Exactly when a stationary kernel of the crate is positive semidefinite on `d`-dimensional points, for lengthscales that
are not zero. The exponential, Matérn-3/2 and squared exponential kernels always are. The Matérn-5/2 kernel is only where it
is constant, and the cosine kernel only where at most one coordinate matters. -/
theorem C86_stationary_iff {kind : StationaryKind} (k : Stationary kind ℝ) (hl : ∀ l ∈ k.lengthscales, l ≠ 0) (d : Nat) :
    PositiveOn (fun x : List ℝ => x.length = d) (SliceKernel.kernel k) ↔
      0 ≤ k.variance ∧ (k.variance = 0 ∨
        ((kind = .matern52 → d = 0 ∨ k.lengthscales = []) ∧
          (kind = .cosine → d ≤ 1 ∨ k.lengthscales.length ≤ 1))) := by
  constructor
  · intro h
    have hv : 0 ≤ k.variance := by
      have := positive_diag h (x := List.replicate d 0) (by simp)
      rw [slice_stationary, sliceDistance_real] at this
      rw [zipWith_pad, Real.sqrt_zero, profile_zero, mul_one] at this
      exact this
    refine ⟨hv, ?_⟩
    rcases hv.eq_or_lt with h0 | h0
    · exact .inl h0.symm
    refine .inr ⟨?_, ?_⟩
    · rintro rfl
      obtain ⟨v, ls⟩ := k
      rcases d with _ | m
      · exact .inl rfl
      rcases ls with _ | ⟨l, ls⟩
      · exact .inr rfl
      exfalso
      have hl0 : l ≠ 0 := hl l (by simp)
      have hr0 : (0 : ℝ) ≤ 1 / 10 / Real.sqrt 3 := by positivity
      have := positive_pair h (x := (l * (1 / 10 / Real.sqrt 3)) :: List.replicate m 0) (y := 0 :: List.replicate m 0)
        (by simp) (by simp)
      simp only [slice_stationary, pad_one, sub_self, sub_zero, zero_div, abs_zero, zero_sub, neg_div, abs_neg,
        mul_div_cancel_left₀ _ hl0, abs_of_nonneg hr0, profile_zero] at this
      have := profile_matern52_exceeds
      have h0 : 0 < v := h0
      nlinarith
    · rintro rfl
      obtain ⟨v, ls⟩ := k
      rcases d with _ | _ | m
      · exact .inl (by omega)
      · exact .inl (by omega)
      rcases ls with _ | ⟨l₁, _ | ⟨l₂, ls⟩⟩
      · exact .inr (by simp)
      · exact .inr (by simp)
      exfalso
      have h₁ : l₁ ≠ 0 := hl l₁ (by simp)
      have h₂ : l₂ ≠ 0 := hl l₂ (by simp)
      refine C86_cosine_plane v l₁ l₂ h0 h₁ h₂ fun n x c hx => ?_
      have := h n (fun i => (x i) ++ List.replicate m 0) c fun i => by simp [hx i]; omega
      refine this.trans_eq (Finset.sum_congr rfl fun i _ => Finset.sum_congr rfl fun j _ => ?_)
      congr 1
      have hi := hx i
      have hj := hx j
      match x i, x j, hi, hj with
      | [a, b], [a', b'], _, _ =>
        rw [slice_stationary, slice_stationary]
        have := pad_two l₁ l₂ [] 0 a b a' b'
        simp only [List.replicate_zero] at this
        show v * profile .cosine (sliceDistance (l₁ :: l₂ :: ls) (a :: b :: List.replicate m 0) (a' :: b' :: List.replicate m 0))
          = v * profile .cosine (sliceDistance [l₁, l₂] [a, b] [a', b'])
        rw [pad_two, this]
  · rintro ⟨hv, h0 | ⟨h5, hc⟩⟩
    · exact positive_const le_rfl fun x y _ _ => by rw [slice_stationary, h0, zero_mul]
    · cases kind with
      | exponential => exact C86_stationary_partial (.inl rfl) k hv d
      | matern32 => exact C86_stationary_partial (.inr (.inl rfl)) k hv d
      | expQuad => exact C86_stationary_partial (.inr (.inr rfl)) k hv d
      | cosine => exact C86_cosine_line k hv d (hc rfl)
      | matern52 =>
        refine positive_const hv fun x y hx hy => ?_
        rw [slice_stationary, slice_trivial (h5 rfl) hx hy, profile_zero, mul_one]

/-- Exactly when a rational quadratic kernel is. -/
theorem C86_rational_iff (q : RationalQuadratic ℝ) (hl : ∀ l ∈ q.lengthscales, l ≠ 0) (d : Nat) :
    PositiveOn (fun x : List ℝ => x.length = d) (SliceKernel.kernel q) ↔
      0 ≤ q.variance ∧ (q.variance = 0 ∨ 0 ≤ q.power ∨ d = 0 ∨ q.lengthscales = []) := by
  constructor
  · intro h
    have hv : 0 ≤ q.variance := by
      have := positive_diag h (x := List.replicate d 0) (by simp)
      rw [slice_rational, sliceDistance_real] at this
      rw [zipWith_pad, Real.sqrt_zero, rationalProfile_zero, mul_one] at this
      exact this
    refine ⟨hv, ?_⟩
    rcases hv.eq_or_lt with h0 | h0
    · exact .inl h0.symm
    obtain ⟨v, ls, p⟩ := q
    by_cases hp : 0 ≤ p
    · exact .inr (.inl hp)
    rcases d with _ | m
    · exact .inr (.inr (.inl rfl))
    rcases ls with _ | ⟨l, ls⟩
    · exact .inr (.inr (.inr rfl))
    exfalso
    have hl0 : l ≠ 0 := hl l (by simp)
    have := positive_pair h (x := (l * 1) :: List.replicate m 0) (y := 0 :: List.replicate m 0)
      (by simp) (by simp)
    simp only [slice_rational, pad_one, sub_self, sub_zero, zero_div, abs_zero, zero_sub, neg_div, abs_neg,
      mul_div_cancel_left₀ _ hl0, abs_one, rationalProfile_zero] at this
    have h1 : 1 < rationalProfile p 1 := Real.one_lt_rpow (by norm_num) (by linarith)
    have h0 : 0 < v := h0
    nlinarith
  · rintro ⟨hv, h0 | hp | ht⟩
    · exact positive_const le_rfl fun x y _ _ => by rw [slice_rational, h0, zero_mul]
    · exact C86_rational q hv hp d
    · refine positive_const hv fun x y hx hy => ?_
      rw [slice_rational, slice_trivial ht hx hy, rationalProfile_zero, mul_one]

/-- A Matérn-5/2 kernel over the plane fails, and so does a rational quadratic kernel of power `-1`. -/
example : ¬ PositiveOn (fun x : List ℝ => x.length = 2) (SliceKernel.kernel (⟨1, [1, 2]⟩ : Stationary .matern52 ℝ)) ∧
    ¬ PositiveOn (fun x : List ℝ => x.length = 2) (SliceKernel.kernel (⟨1, [1, 2], -1⟩ : RationalQuadratic ℝ)) := by
  rw [C86_stationary_iff _ (by simp), C86_rational_iff _ (by simp)]
  norm_num
  exact ⟨fun h => absurd h (List.cons_ne_nil _ _), List.cons_ne_nil _ _⟩

end Lfa

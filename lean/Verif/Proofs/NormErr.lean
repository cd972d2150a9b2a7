import Verif.Props.C95_C96

/-! # Rounding errors of the squared norm and of what is computed from it -/

set_option linter.unusedSectionVars false

namespace Lfa

open Spec Machine XReal

variable {M : Machine}

/-- The exact sum of squares. -/
noncomputable def Spec.squares (l : List (FP M)) : ℝ := (l.map fun a => real a ^ 2).sum

theorem squares_nonneg (l : List (FP M)) : 0 ≤ squares l := by
  refine List.sum_nonneg fun x hx => ?_
  obtain ⟨y, -, rfl⟩ := List.mem_map.1 hx
  exact sq_nonneg _

theorem squares_append (l : List (FP M)) (a : FP M) : squares (l ++ [a]) = squares l + real a ^ 2 := by
  unfold squares
  rw [List.map_append, List.sum_append, List.map_singleton, List.sum_singleton]

theorem sq_le_squares {l : List (FP M)} {a : FP M} (h : a ∈ l) : real a ^ 2 ≤ squares l := by
  refine List.single_le_sum (l := l.map fun a => real a ^ 2) (fun y hy => ?_) _ (List.mem_map.2 ⟨a, h, rfl⟩)
  obtain ⟨y', -, rfl⟩ := List.mem_map.1 hy
  exact sq_nonneg _

/-- A finite sum of rounded squares against the exact one. -/
theorem squares_err (hM : M.rnd = binary64Format.rnd) (l : List (FP M)) {z : ℝ}
    (h : Is (l.foldl (fun acc x => acc +. x *. x) Scalar.zero) z) :
    |z - squares l| ≤ ((1 + roundoff) ^ l.length - 1) * squares l + l.length * (1 + roundoff) ^ l.length * tiny := by
  rw [foldl_tree (fun x : FP M => x *. x)] at h
  have h1 := products_err hM (l.map fun a => (a, a)) (t := leftTree l.length)
    (by rw [leftTree_terms, List.length_map]) (z := z) (by rw [List.map_map]; exact h)
  rw [List.map_map, List.map_map, List.length_map] at h1
  have e1 : (l.map ((fun p : FP M × FP M => real p.1 * real p.2) ∘ fun a => (a, a))).sum = squares l := by
    unfold squares
    congr 1
    exact List.map_congr_left fun a _ => (sq (real a)).symm
  have e2 : (l.map ((fun p : FP M × FP M => |real p.1 * real p.2|) ∘ fun a => (a, a))).sum = squares l := by
    unfold squares
    congr 1
    exact List.map_congr_left fun a _ => by
      show |real a * real a| = _
      rw [← sq, abs_of_nonneg (sq_nonneg _)]
  rwa [e1, e2] at h1

theorem growth {k : ℕ} (hk : k ≤ 2 ^ 40) : (1 + roundoff) ^ k ≤ 1 + 2 * (k * roundoff) ∧ (1 + roundoff) ^ k ≤ 2 := by
  have h1 := length_roundoff hk
  have h2 := compound roundoff_pos.le _ h1
  exact ⟨h2, by linarith⟩

/-- With at most `2^40` terms. -/
theorem squares_err' (hM : M.rnd = binary64Format.rnd) (l : List (FP M)) (hk : l.length ≤ 2 ^ 40) {z : ℝ}
    (h : Is (l.foldl (fun acc x => acc +. x *. x) Scalar.zero) z) :
    |z - squares l| ≤ 2 * (l.length * roundoff) * squares l + 2 ^ 41 * tiny := by
  refine (squares_err hM l h).trans ?_
  obtain ⟨h1, h2⟩ := growth hk
  have h3 := mul_le_mul_of_nonneg_right (sub_le_sub_right h1 1) (squares_nonneg l)
  have hk' : (l.length : ℝ) ≤ 2 ^ 40 := by exact_mod_cast hk
  have h4 : (l.length : ℝ) * (1 + roundoff) ^ l.length ≤ 2 ^ 40 * 2 :=
    mul_le_mul hk' h2 (by have := roundoff_pos; positivity) (by positivity)
  have h5 := mul_le_mul_of_nonneg_right h4 tiny_pos.le
  rw [add_sub_cancel_left] at h3
  refine add_le_add h3 (h5.trans (le_of_eq ?_))
  rw [← pow_succ]

/-- The sum of the squares does not overflow when it is below `2^1020`. -/
theorem squares_finite (hM : M.rnd = binary64Format.rnd) (l : List (FP M)) (hl : ∀ a ∈ l, Finite a)
    (hk : l.length ≤ 2 ^ 40) (hs : squares l ≤ 2 ^ 1020) :
    Finite (l.foldl (fun acc x => acc +. x *. x) Scalar.zero) := by
  induction l using List.reverseRecOn with
  | nil => exact ⟨0, val_zero⟩
  | append_singleton l a ih =>
    rw [List.length_append, List.length_singleton] at hk
    rw [squares_append] at hs
    have hs1 : squares l ≤ 2 ^ 1020 := (le_add_of_nonneg_right (sq_nonneg _)).trans hs
    have hs2 : real a ^ 2 ≤ 2 ^ 1020 := (le_add_of_nonneg_left (squares_nonneg l)).trans hs
    obtain ⟨z, hz⟩ := ih (fun b hb => hl b (List.mem_append_left _ hb)) (by omega) hs1
    have he := squares_err' hM l (by omega) hz
    obtain ⟨r, hr⟩ := hl a (List.mem_append_right _ List.mem_cons_self)
    rw [is_real hr] at hs2
    rw [List.foldl_append, List.foldl_cons, List.foldl_nil]
    obtain ⟨q, hq, hq1⟩ := bounded_rnd (a := a *. a) (x := r * r) (c := 2 ^ 1020) (by rw [val_mul, hr]; rfl) (by
      rw [← sq, abs_of_nonneg (sq_nonneg _)]; exact hs2) (rnd_two_pow hM (by norm_num))
    have hz1 : |z| ≤ 2 ^ 1022 := by
      have h1 := abs_add_le (z - squares l) (squares l)
      rw [sub_add_cancel, abs_of_nonneg (squares_nonneg l)] at h1
      have h2 := length_roundoff (k := l.length) (by omega)
      have h3 : 2 * ((l.length : ℝ) * roundoff) * squares l ≤ 1 * 2 ^ 1020 :=
        mul_le_mul (by linarith) hs1 (squares_nonneg l) zero_le_one
      have h4 : (2 : ℝ) ^ 41 * tiny ≤ 2 ^ 1020 := by
        refine le_trans ?_ (pow_le_pow_right₀ (by norm_num : (1 : ℝ) ≤ 2) (by norm_num : 41 ≤ 1020))
        have : tiny ≤ 1 := zpow_le_one_of_nonpos₀ (by norm_num) (by norm_num)
        nlinarith [pow_pos (by norm_num : (0 : ℝ) < 2) 41]
      have h5 : (2 : ℝ) ^ 1022 = 4 * 2 ^ 1020 := by
        rw [show (4 : ℝ) = 2 ^ 2 by norm_num, ← pow_add]
      rw [h5]
      clear h5 hq1 hs2 hs
      have h6 := squares_nonneg l
      generalize (2 : ℝ) ^ 1020 = X at *
      clear ih
      linarith
    obtain ⟨v, hv, -⟩ := bounded_rnd (a := l.foldl (fun acc x => acc +. x *. x) Scalar.zero +. a *. a) (x := z + q)
      (c := 2 ^ 1023) (by rw [val_add, hz, hq]; rfl) (by
      refine (abs_add_le _ _).trans ((add_le_add hz1 (hq1.trans (pow_le_pow_right₀ (by norm_num)
        (by norm_num : 1020 ≤ 1022)))).trans (le_of_eq ?_))
      rw [← two_mul, ← pow_succ']) (rnd_two_pow hM (by norm_num))
    exact ⟨v, hv⟩

/-- A square root is accurate to one unit roundoff. -/
theorem sqrt_err (hM : M.rnd = binary64Format.rnd) {a : FP M} {x : ℝ} (hx : Is a x) (h0 : 0 ≤ x) {z : ℝ}
    (h : Is (Scalar.sqrt a) z) : |z - √x| ≤ roundoff * √x + tiny := by
  have e : (Scalar.sqrt a).1 = M.rnd (√x) := by
    rw [val_sqrt, hx]
    show (M.round (if x < 0 then _ else .fin (√x))).1 = _
    rw [if_neg (not_lt.2 h0)]; rfl
  rw [h, hM] at e
  have e := (binary64Format.rnd_eq_fin e.symm).1
  have := binary64Format.nearest_rel (√x)
  rw [e, abs_of_nonneg (Real.sqrt_nonneg x)] at this
  exact this

theorem storedCount_values (φ : Features (FP M)) : φ.values.length = storedCount φ := by
  cases φ with
  | dense da => rfl
  | sparse sa => exact List.length_map ..

theorem values_finite {φ : Features (FP M)} (hf : AllFinite φ) : ∀ a ∈ φ.values, Finite a := fun a ha => by
  obtain ⟨i, hi⟩ := (mem_values_iff φ a).1 ha
  exact hf i a hi

theorem squares_values {φ : Features (FP M)} (h : WF φ) :
    squares φ.values = ∑ i ∈ Finset.range (dim φ), real (value φ i) ^ 2 :=
  sum_values h (fun r => r ^ 2) (by norm_num)

theorem small_tiny (c : ℝ) (n : ℤ) (hc : (2 : ℝ) ^ n ≤ c) (hn : -960 ≤ n) : 2 ^ 41 * tiny ≤ roundoff * c := by
  refine le_trans ?_ (mul_le_mul_of_nonneg_left hc roundoff_pos.le)
  rw [← zpow_natCast (2 : ℝ) 41, tiny, roundoff, ← zpow_add₀ (by norm_num), ← zpow_add₀ (by norm_num)]
  exact zpow_le_zpow_right₀ (by norm_num) (by push_cast; omega)

theorem length_roundoff' {k : ℕ} (hk : k ≤ 2 ^ 40) : (k : ℝ) * roundoff ≤ 1 / 8192 := by
  have hk1 : (k : ℝ) ≤ 2 ^ 40 := by exact_mod_cast hk
  exact (mul_le_mul_of_nonneg_right hk1 roundoff_pos.le).trans (by norm_num [roundoff])

/-- A quotient whose divisor is known within a factor. -/
theorem quotient_err {x d D c η u τ : ℝ} (hD : 0 < D) (hd : |d - D| ≤ η * D) (hη : η ≤ 1 / 2) (hu : 0 ≤ u)
    (hc : |c - x / d| ≤ u * |x / d| + τ) : 0 < d ∧ |c - x / D| ≤ (2 * η + 2 * u) * (|x| / D) + τ := by
  have h1 := abs_le.1 hd
  have hηD : η * D ≤ 1 / 2 * D := mul_le_mul_of_nonneg_right hη hD.le
  have hd0 : D / 2 ≤ d := by linarith
  have hdp : 0 < d := by linarith
  have e1 : |x / d| ≤ 2 * (|x| / D) := by
    rw [abs_div, abs_of_pos hdp, div_le_iff₀ hdp]
    have : |x| / D * D = |x| := div_mul_cancel₀ _ hD.ne'
    have h2 : 0 ≤ |x| / D := div_nonneg (abs_nonneg _) hD.le
    nlinarith
  have e2 : |x / d - x / D| ≤ 2 * η * (|x| / D) := by
    have e : x / d - x / D = x / D * ((D - d) / d) := by field_simp
    rw [e, abs_mul, abs_div, abs_of_pos hD, abs_div, abs_of_pos hdp, abs_sub_comm, mul_comm]
    refine mul_le_mul_of_nonneg_right ?_ (div_nonneg (abs_nonneg _) hD.le)
    rw [div_le_iff₀ hdp]
    have h0 : 0 ≤ η := by
      by_contra hneg
      push Not at hneg
      have := (abs_nonneg _).trans hd
      nlinarith
    nlinarith
  refine ⟨hdp, ?_⟩
  have := abs_sub_le c (x / d) (x / D)
  have := mul_le_mul_of_nonneg_left e1 hu
  nlinarith

end Lfa

import Verif.Props.C106
import Verif.Props.C99_C100
import Verif.Props.C125_C127
import Verif.Props.C147_C148
import Verif.Props.SharpKernels
import Verif.Proofs.ExpGap
import Mathlib.Analysis.Calculus.MeanValue
import Mathlib.Analysis.Calculus.Deriv.Polynomial
import Mathlib.Analysis.SpecialFunctions.Trigonometric.Deriv

/-!
# C199: How fast a prediction can change with the input

Exact arithmetic. The constants of the Fourier, Chebyshev and exponential kernel bases cannot be lowered.
-/

set_option linter.unusedSectionVars false

namespace Lfa

open Spec Features Filter Topology

/-- The sum of the absolute values of the weights. -/
noncomputable def Spec.mass (w : List ℝ) : ℝ := ∑ i ∈ Finset.range w.length, |entry w i|

/-- A one at place `k`, zeros elsewhere. -/
noncomputable def Spec.pick (n k : Nat) : List ℝ := (List.range n).map fun i => if i = k then 1 else 0

theorem pick_length (n k : Nat) : (pick n k).length = n := by simp [pick]

theorem entry_pick {n k i : Nat} (hi : i < n) : entry (pick n k) i = if i = k then 1 else 0 := by
  simp [entry, pick, hi]

theorem mass_pick {n k : Nat} (hk : k < n) : mass (pick n k) = 1 := by
  unfold mass
  rw [pick_length, Finset.sum_eq_single k]
  · rw [entry_pick hk, if_pos rfl, abs_one]
  · intro i hi hne
    rw [entry_pick (Finset.mem_range.1 hi), if_neg hne, abs_zero]
  · intro h; exact absurd (Finset.mem_range.2 hk) h

section
variable {B I O : Type} [Space B] [Basis B I ℝ]

/-- Predictions over dense features are inner products. -/
theorem evaluate_dense {b : B} {x : I} {f : List ℝ} (h : Basis.project b x = .ok (.ok (.dense f))) {w : List ℝ} (hw : w.length = f.length)
    (o : O) : ScalarLFA.evaluate (LFA.mk b w o) x = .ok (.ok (∑ i ∈ Finset.range f.length, entry f i * entry w i)) := by
  rw [evaluate_eq (fa := LFA.mk b w o) h (dot_real (φ := .dense f) trivial hw.symm), inner_dense]

theorem evaluate_pick {b : B} {x : I} {f : List ℝ} (h : Basis.project b x = .ok (.ok (.dense f))) {k : Nat} (hk : k < f.length) (o : O) :
    ScalarLFA.evaluate (LFA.mk b (pick f.length k) o) x = .ok (.ok (entry f k)) := by
  rw [evaluate_dense h (pick_length _ _), Finset.sum_eq_single k]
  · rw [entry_pick hk, if_pos rfl, mul_one]
  · intro i hi hne
    rw [entry_pick (Finset.mem_range.1 hi), if_neg hne, mul_zero]
  · intro h; exact absurd (Finset.mem_range.2 hk) h

/-- Features that differ little give predictions that differ little. -/
theorem dense_gap {b : B} {x y : I} {f g : List ℝ} (hx : Basis.project b x = .ok (.ok (.dense f)))
    (hy : Basis.project b y = .ok (.ok (.dense g))) (hl : f.length = g.length) {ε : ℝ}
    (h : ∀ i < f.length, |entry f i - entry g i| ≤ ε) {w : List ℝ} (hw : w.length = f.length) (o : O) :
    ∃ p q, ScalarLFA.evaluate (LFA.mk b w o) x = .ok (.ok p) ∧ ScalarLFA.evaluate (LFA.mk b w o) y = .ok (.ok q) ∧
      |p - q| ≤ mass w * ε := by
  refine ⟨_, _, evaluate_dense hx hw o, evaluate_dense hy (hw.trans hl) o, ?_⟩
  rw [← hl, ← Finset.sum_sub_distrib, mass, hw, Finset.sum_mul]
  refine (Finset.abs_sum_le_sum_abs _ _).trans (Finset.sum_le_sum fun i hi => ?_)
  rw [← sub_mul, abs_mul, mul_comm]
  exact mul_le_mul_of_nonneg_left (h i (Finset.mem_range.1 hi)) (abs_nonneg _)

/-- The same for features listed by multi-indices. -/
theorem indexed_gap {b : B} {x y : I} {es : List (List Nat)} {f g : List Nat → ℝ} (hx : Basis.project b x = .ok (.ok (.dense (es.map f))))
    (hy : Basis.project b y = .ok (.ok (.dense (es.map g)))) {ε : ℝ} (h : ∀ e ∈ es, |f e - g e| ≤ ε) {w : List ℝ}
    (hw : w.length = es.length) (o : O) :
    ∃ p q, ScalarLFA.evaluate (LFA.mk b w o) x = .ok (.ok p) ∧ ScalarLFA.evaluate (LFA.mk b w o) y = .ok (.ok q) ∧
      |p - q| ≤ mass w * ε := by
  refine dense_gap hx hy (by simp) (fun i hi => ?_) (by simpa using hw) o
  rw [List.length_map] at hi
  simpa [entry, hi] using h _ (List.getElem_mem hi)

end

/-! ### The features -/

/-- Products of factors of absolute value at most one. -/
theorem prod_gap {ι : Type} (s : Finset ι) (f g : ι → ℝ) (hf : ∀ i ∈ s, |f i| ≤ 1) (hg : ∀ i ∈ s, |g i| ≤ 1) :
    |∏ i ∈ s, f i - ∏ i ∈ s, g i| ≤ ∑ i ∈ s, |f i - g i| := by
  classical
  induction s using Finset.induction_on with
  | empty => simp
  | insert a s ha ih =>
    rw [Finset.prod_insert ha, Finset.prod_insert ha, Finset.sum_insert ha]
    have ih := ih (fun i hi => hf i (Finset.mem_insert_of_mem hi)) fun i hi => hg i (Finset.mem_insert_of_mem hi)
    have h1 : |∏ i ∈ s, f i| ≤ 1 := by
      rw [Finset.abs_prod]
      exact Finset.prod_le_one (fun _ _ => abs_nonneg _) fun i hi => hf i (Finset.mem_insert_of_mem hi)
    have e : f a * ∏ i ∈ s, f i - g a * ∏ i ∈ s, g i = (f a - g a) * ∏ i ∈ s, f i + g a * (∏ i ∈ s, f i - ∏ i ∈ s, g i) := by ring
    rw [e]
    refine (abs_add_le _ _).trans (add_le_add ?_ ?_)
    · rw [abs_mul]
      exact mul_le_of_le_one_right (abs_nonneg _) h1
    · rw [abs_mul]
      exact (mul_le_of_le_one_left (abs_nonneg _) (hg a (Finset.mem_insert_self _ _))).trans ih

theorem abs_sin_nat_mul_le (n : Nat) (t : ℝ) : |Real.sin (n * t)| ≤ n * |Real.sin t| := by
  induction n with
  | zero => simp
  | succ n ih =>
    have e : ((n + 1 : ℕ) : ℝ) * t = n * t + t := by push_cast; ring
    rw [e, Real.sin_add]
    refine (abs_add_le _ _).trans ?_
    rw [abs_mul, abs_mul]
    have h1 := mul_le_of_le_one_right (abs_nonneg (Real.sin (n * t))) (Real.abs_cos_le_one t)
    have h2 := mul_le_of_le_one_left (abs_nonneg (Real.sin t)) (Real.abs_cos_le_one (n * t))
    push_cast
    linarith

/-- Chebyshev polynomials have slope at most `n²` on `[-1, 1]`. -/
theorem T_gap (n : Nat) {a b : ℝ} (ha : |a| ≤ 1) (hb : |b| ≤ 1) :
    |(_root_.Polynomial.Chebyshev.T ℝ (n : ℤ)).eval a - (_root_.Polynomial.Chebyshev.T ℝ (n : ℤ)).eval b| ≤ n ^ 2 * |a - b| := by
  obtain ⟨a1, a2⟩ := abs_le.1 ha
  obtain ⟨b1, b2⟩ := abs_le.1 hb
  rw [← Real.cos_arccos a1 a2, ← Real.cos_arccos b1 b2, _root_.Polynomial.Chebyshev.T_real_cos, _root_.Polynomial.Chebyshev.T_real_cos]
  generalize Real.arccos a = s
  generalize Real.arccos b = t
  rw [Real.cos_sub_cos, Real.cos_sub_cos]
  have h1 := abs_sin_nat_mul_le n ((s + t) / 2)
  have h2 := abs_sin_nat_mul_le n ((s - t) / 2)
  have e1 : ((n : ℤ) * s + (n : ℤ) * t) / 2 = n * ((s + t) / 2) := by push_cast; ring
  have e2 : ((n : ℤ) * s - (n : ℤ) * t) / 2 = n * ((s - t) / 2) := by push_cast; ring
  rw [e1, e2, abs_mul, abs_mul, abs_mul, abs_mul]
  have := mul_le_mul h1 h2 (abs_nonneg _) (by positivity)
  nlinarith [abs_nonneg (-2 : ℝ)]

theorem pow_gap (n : Nat) {a b R : ℝ} (hR : 1 ≤ R) (ha : |a| ≤ R) (hb : |b| ≤ R) : |a ^ n - b ^ n| ≤ n * R ^ n * |a - b| := by
  induction n with
  | zero => simp
  | succ n ih =>
    have e : a ^ (n + 1) - b ^ (n + 1) = a * (a ^ n - b ^ n) + (a - b) * b ^ n := by ring
    rw [e]
    refine (abs_add_le _ _).trans ?_
    rw [abs_mul, abs_mul, abs_pow]
    have h1 := mul_le_mul ha ih (abs_nonneg _) (by linarith)
    have h2 : |b| ^ n ≤ R ^ (n + 1) := (pow_le_pow_left₀ (abs_nonneg _) hb n).trans (pow_le_pow_right₀ hR (Nat.le_succ n))
    have h3 := mul_le_mul_of_nonneg_left h2 (abs_nonneg (a - b))
    push_cast
    calc _ ≤ R * (n * R ^ n * |a - b|) + |a - b| * R ^ (n + 1) := add_le_add h1 h3
      _ = _ := by ring

theorem unit_range {lo hi x : ℝ} (h : lo < hi) (h1 : lo ≤ x) (h2 : x ≤ hi) : |2 * ((x - lo) / (hi - lo)) - 1| ≤ 1 := by
  have hpos : 0 < hi - lo := by linarith
  have hu0 : 0 ≤ (x - lo) / (hi - lo) := div_nonneg (by linarith) hpos.le
  have hu1 : (x - lo) / (hi - lo) ≤ 1 := (div_le_one hpos).2 (by linarith)
  rw [abs_le]
  constructor <;> linarith

theorem unit_gap {lo hi : ℝ} (h : lo < hi) (x y : ℝ) : |(x - lo) / (hi - lo) - (y - lo) / (hi - lo)| = |x - y| / (hi - lo) := by
  rw [← sub_div, abs_div, abs_of_pos (sub_pos.2 h)]
  congr 2
  ring

/-- Fourier: `π p` per unit of rescaled input and unit of weight, everywhere. -/
theorem C199_fourier {O : Type} (p d : Nat) (hd : 0 < d) (lo hi : Fin d → ℝ) (hl : ∀ j, lo j < hi j) (x y : Fin d → ℝ) (w : List ℝ)
    (hw : w.length = (p + 1) ^ d - 1) (o : O) :
    ∃ a b, ScalarLFA.evaluate (LFA.mk (Fourier.new p (List.ofFn fun j => (lo j, hi j))) w o) (List.ofFn x) = .ok (.ok a) ∧
      ScalarLFA.evaluate (LFA.mk (Fourier.new p (List.ofFn fun j => (lo j, hi j))) w o) (List.ofFn y) = .ok (.ok b) ∧
      |a - b| ≤ mass w * (Real.pi * (p * ∑ j, |x j - y j| / (hi j - lo j))) := by
  obtain ⟨es, m1, h1⟩ := C28_features p d hd lo hi x
  obtain ⟨es', m2, h2⟩ := C28_features p d hd lo hi y
  rw [C23_multi_indices_unique m2 m1] at h2
  refine indexed_gap h1 h2 (fun e he => ?_) (by rw [hw, length_mulIndices hd m1]) o
  refine (Real.abs_cos_sub_cos_le _ _).trans ?_
  rw [← mul_sub, abs_mul, abs_of_pos Real.pi_pos, ← Finset.sum_sub_distrib, Finset.mul_sum]
  refine mul_le_mul_of_nonneg_left ((Finset.abs_sum_le_sum_abs _ _).trans (Finset.sum_le_sum fun j _ => ?_)) Real.pi_pos.le
  rw [← mul_sub, abs_mul, unit, unit, unit_gap (hl j), Nat.abs_cast]
  exact mul_le_mul_of_nonneg_right (by exact_mod_cast getD_le_of_mem m1 he j) (div_nonneg (abs_nonneg _) (sub_pos.2 (hl j)).le)

/-- Chebyshev: `2 p²`, inside the limits. -/
theorem C199_chebyshev {O : Type} (p d : Nat) (hp : p ≤ 11) (hd : 0 < d) (lo hi : Fin d → ℝ) (hl : ∀ j, lo j < hi j) (x y : Fin d → ℝ)
    (hx : ∀ j, lo j ≤ x j ∧ x j ≤ hi j) (hy : ∀ j, lo j ≤ y j ∧ y j ≤ hi j) (w : List ℝ) (hw : w.length = (p + 1) ^ d - 1) (o : O) :
    ∃ c, Chebyshev.new p (List.ofFn fun j => (lo j, hi j)) = .ok c ∧ ∃ a b,
      ScalarLFA.evaluate (LFA.mk c w o) (List.ofFn x) = .ok (.ok a) ∧ ScalarLFA.evaluate (LFA.mk c w o) (List.ofFn y) = .ok (.ok b) ∧
      |a - b| ≤ mass w * (2 * p ^ 2 * ∑ j, |x j - y j| / (hi j - lo j)) := by
  obtain ⟨es, c, m1, c1, h1⟩ := C26_features p d hp hd lo hi x
  obtain ⟨es', c', m2, c2, h2⟩ := C26_features p d hp hd lo hi y
  rw [C23_multi_indices_unique m2 m1] at h2
  obtain rfl := Except.ok.inj (c1.symm.trans c2)
  refine ⟨c, c1, indexed_gap h1 h2 (fun e he => ?_) (by rw [hw, length_mulIndices hd m1]) o⟩
  unfold chebProduct
  have rx : ∀ j, |2 * unit lo hi x j - 1| ≤ 1 := fun j => unit_range (hl j) (hx j).1 (hx j).2
  have ry : ∀ j, |2 * unit lo hi y j - 1| ≤ 1 := fun j => unit_range (hl j) (hy j).1 (hy j).2
  refine (prod_gap _ _ _ (fun j _ => abs_T_le_one _ (rx j)) fun j _ => abs_T_le_one _ (ry j)).trans ?_
  rw [Finset.mul_sum]
  refine Finset.sum_le_sum fun j _ => (T_gap _ (rx j) (ry j)).trans ?_
  have e1 : 2 * unit lo hi x j - 1 - (2 * unit lo hi y j - 1) = 2 * (unit lo hi x j - unit lo hi y j) := by ring
  rw [e1, abs_mul, unit, unit, unit_gap (hl j), abs_two, ← mul_assoc, mul_comm _ (2 : ℝ)]
  refine mul_le_mul_of_nonneg_right (mul_le_mul_of_nonneg_left ?_ (by norm_num)) (div_nonneg (abs_nonneg _) (sub_pos.2 (hl j)).le)
  exact pow_le_pow_left₀ (by positivity) (by exact_mod_cast getD_le_of_mem m1 he j) 2

/-- Polynomial: `p` on the unit cube. -/
theorem C199_polynomial {O : Type} (p d : Nat) (hd : 0 < d) (x y : Fin d → ℝ) (hx : ∀ j, |x j| ≤ 1) (hy : ∀ j, |y j| ≤ 1) (w : List ℝ)
    (hw : w.length = (p + 1) ^ d - 1) (o : O) :
    ∃ a b, ScalarLFA.evaluate (LFA.mk (Polynomial.new d p) w o) (List.ofFn x) = .ok (.ok a) ∧
      ScalarLFA.evaluate (LFA.mk (Polynomial.new d p) w o) (List.ofFn y) = .ok (.ok b) ∧
      |a - b| ≤ mass w * (p * ∑ j, |x j - y j|) := by
  obtain ⟨es, m1, h1⟩ := C24_monomials p d hd x
  obtain ⟨es', m2, h2⟩ := C24_monomials p d hd y
  rw [C23_multi_indices_unique m2 m1] at h2
  refine indexed_gap h1 h2 (fun e he => ?_) (by rw [hw, length_mulIndices hd m1]) o
  unfold monomial
  refine (prod_gap _ _ _ (fun j _ => ?_) fun j _ => ?_).trans ?_
  · rw [abs_pow]; exact pow_le_one₀ (abs_nonneg _) (hx j)
  · rw [abs_pow]; exact pow_le_one₀ (abs_nonneg _) (hy j)
  rw [Finset.mul_sum]
  refine Finset.sum_le_sum fun j _ => (pow_gap _ le_rfl (hx j) (hy j)).trans ?_
  rw [one_pow, mul_one]
  exact mul_le_mul_of_nonneg_right (by exact_mod_cast getD_le_of_mem m1 he j) (abs_nonneg _)

/-! ### Kernels -/

/-- A bounded derivative on the half line. -/
theorem gap_of_deriv {f f' : ℝ → ℝ} {C : ℝ} (h : ∀ r, 0 ≤ r → HasDerivAt f (f' r) r) (hC : ∀ r, 0 ≤ r → |f' r| ≤ C) {r s : ℝ} (hr : 0 ≤ r)
    (hs : 0 ≤ s) : |f r - f s| ≤ C * |r - s| :=
  Convex.norm_image_sub_le_of_norm_hasDerivWithin_le (s := Set.Ici 0) (fun x hx => (h x hx).hasDerivWithinAt) hC (convex_Ici 0) hs hr

/-- The profiles of all stationary kernels have slope at most one. -/
theorem profile_gap (kind : StationaryKind) {r s : ℝ} (hr : 0 ≤ r) (hs : 0 ≤ s) : |profile kind r - profile kind s| ≤ |r - s| := by
  have h3 : √3 ≤ 2 := by rw [Real.sqrt_le_left (by norm_num)]; norm_num
  have h30 : 0 ≤ √3 := Real.sqrt_nonneg _
  have scale : ∀ {g : ℝ → ℝ}, (∀ {a b : ℝ}, 0 ≤ a → 0 ≤ b → |g a - g b| ≤ 1 / 2 * |a - b|) → |g (√3 * r) - g (√3 * s)| ≤ |r - s| := by
    intro g hg
    refine (hg (mul_nonneg h30 hr) (mul_nonneg h30 hs)).trans ?_
    rw [← mul_sub, abs_mul, abs_of_nonneg h30]
    nlinarith [abs_nonneg (r - s)]
  cases kind with
  | exponential =>
    have := gap_of_deriv (f := fun r => Real.exp (-r)) (C := 1) (fun r _ => (hasDerivAt_neg r).exp) (fun r h => ?_) hr hs
    · rw [one_mul] at this; exact this
    · rw [abs_mul, abs_neg, abs_one, mul_one, abs_of_pos (Real.exp_pos _), Real.exp_le_one_iff]
      linarith
  | matern32 =>
    refine scale (g := fun t => (1 + t) * Real.exp (-t)) fun {a b} ha hb => ?_
    refine gap_of_deriv (f := fun t : ℝ => (1 + t) * Real.exp (-t)) (f' := fun t => -t * Real.exp (-t)) (fun t _ => ?_) (fun t h => ?_) ha hb
    · have h1 : HasDerivAt (fun s : ℝ => 1 + s) (0 + 1) t := (hasDerivAt_const t (1 : ℝ)).add (hasDerivAt_id t)
      refine (h1.mul (hasDerivAt_neg t).exp).congr_deriv ?_
      ring
    · rw [neg_mul, abs_neg, abs_of_nonneg (mul_nonneg h (Real.exp_pos _).le)]
      linarith [mul_exp_neg_le t]
  | matern52 =>
    rw [profile_matern52, profile_matern52]
    refine scale (g := fun t => (1 + t + 5 / 9 * t ^ 2) * Real.exp (-t)) fun {a b} ha hb => ?_
    refine gap_of_deriv (fun t _ => matern52_deriv t) (fun t h => ?_) ha hb
    have h1 := mul_exp_neg_le t
    have h2 := sq_mul_exp_neg_le h
    have h4 := mul_nonneg h (Real.exp_pos (-t)).le
    have h5 := mul_nonneg (sq_nonneg t) (Real.exp_pos (-t)).le
    have e : t / 9 * (1 - 5 * t) * Real.exp (-t) = (t * Real.exp (-t) - 5 * (t ^ 2 * Real.exp (-t))) / 9 := by ring
    rw [e, abs_le]
    constructor <;> linarith
  | expQuad =>
    have := gap_of_deriv (f := fun r => Real.exp (-(r ^ 2 / 2))) (f' := fun r => Real.exp (-(r ^ 2 / 2)) * -r) (C := 1) (fun r _ => ?_)
      (fun r h => ?_) hr hs
    · rw [one_mul] at this; exact this
    · have h1 : HasDerivAt (fun r : ℝ => -(r ^ 2 / 2)) (-r) r := by
        have := ((hasDerivAt_pow 2 r).div_const 2).neg
        refine this.congr_deriv ?_
        push_cast
        ring
      exact h1.exp
    · rw [abs_mul, abs_neg, abs_of_pos (Real.exp_pos _), abs_of_nonneg h, Real.exp_neg, inv_mul_le_iff₀ (Real.exp_pos _), mul_one]
      have := Real.add_one_le_exp (r ^ 2 / 2)
      nlinarith [sq_nonneg (r - 1)]
  | cosine => exact Real.abs_cos_sub_cos_le r s

theorem rationalProfile_gap {p : ℝ} (hp : 0 ≤ p) {r s : ℝ} (hr : 0 ≤ r) (hs : 0 ≤ s) :
    |rationalProfile p r - rationalProfile p s| ≤ p / √2 * |r - s| := by
  refine gap_of_deriv (f := rationalProfile p) (f' := fun r => r * (-p) * (1 + r ^ 2 / 2) ^ (-p - 1)) (fun r _ => ?_) (fun r h => ?_) hr hs
  · have h1 : HasDerivAt (fun r : ℝ => 1 + r ^ 2 / 2) r r := by
      have := ((hasDerivAt_pow 2 r).div_const 2).const_add 1
      refine this.congr_deriv ?_
      push_cast
      ring
    exact h1.rpow_const (Or.inl (by positivity))
  · have b1 : 1 ≤ 1 + r ^ 2 / 2 := by nlinarith [sq_nonneg r]
    have b0 : 0 < 1 + r ^ 2 / 2 := by linarith
    have h2 : (1 + r ^ 2 / 2) ^ (-p - 1) ≤ (1 + r ^ 2 / 2)⁻¹ := by
      rw [← Real.rpow_neg_one]
      exact Real.rpow_le_rpow_of_exponent_le b1 (by linarith)
    have h3 := Real.rpow_pos_of_pos b0 (-p - 1)
    rw [abs_mul, abs_mul, abs_neg, abs_of_nonneg h, abs_of_nonneg hp, abs_of_pos h3]
    have s2 : 0 < √2 := by positivity
    have s22 : √2 ^ 2 = 2 := Real.sq_sqrt (by norm_num)
    calc r * p * (1 + r ^ 2 / 2) ^ (-p - 1) ≤ r * p * (1 + r ^ 2 / 2)⁻¹ := mul_le_mul_of_nonneg_left h2 (mul_nonneg h hp)
      _ = p * (r / (1 + r ^ 2 / 2)) := by rw [div_eq_mul_inv]; ring
      _ ≤ p * (1 / √2) := by
        refine mul_le_mul_of_nonneg_left ?_ hp
        rw [div_le_div_iff₀ b0 s2]
        nlinarith [sq_nonneg (√2 * r - 2)]
      _ = p / √2 := by ring

theorem scaledDist_gap {d : Nat} (l x y c : Fin d → ℝ) : |scaledDist l x c - scaledDist l y c| ≤ scaledDist l x y := by
  have e : ∀ x y : Fin d → ℝ, scaledDist l x y = ‖(WithLp.toLp 2 fun i => (x i - y i) / l i : EuclideanSpace ℝ (Fin d))‖ := fun x y => by
    rw [EuclideanSpace.norm_eq]
    simp only [scaledDist, Real.norm_eq_abs, sq_abs]
  rw [e, e, e]
  refine (abs_norm_sub_norm_le _ _).trans (le_of_eq (congrArg _ ?_))
  ext i
  simp
  ring

/-- Kernel bases: the variance per unit of scaled distance (`power / √2` times it for rational quadratic kernels), everywhere. -/
theorem C199_kernels {O : Type} {kind : StationaryKind} {d m : Nat} (v : ℝ) (l : Fin d → ℝ) (c : Fin m → Fin d → ℝ) (x y : Fin d → ℝ)
    (w : List ℝ) (hw : w.length = m) (o : O) :
    ∃ a b, ScalarLFA.evaluate (LFA.mk (KernelBasis.homogeneous (List.ofFn fun j => List.ofFn (c j)) (⟨v, List.ofFn l⟩ : Stationary kind ℝ)) w o)
        (List.ofFn x) = .ok (.ok a) ∧
      ScalarLFA.evaluate (LFA.mk (KernelBasis.homogeneous (List.ofFn fun j => List.ofFn (c j)) (⟨v, List.ofFn l⟩ : Stationary kind ℝ)) w o)
        (List.ofFn y) = .ok (.ok b) ∧
      |a - b| ≤ mass w * (|v| * scaledDist l x y) := by
  have h1 := (C106_features (kind := kind) v 1 l x c).1
  have h2 := (C106_features (kind := kind) v 1 l y c).1
  refine dense_gap h1 h2 (by simp) (fun i hi => ?_) (by simpa using hw) o
  rw [List.length_ofFn] at hi
  simp only [entry, List.getD_eq_getElem?_getD, List.getElem?_ofFn, hi, dif_pos, Option.getD_some]
  rw [← mul_sub, abs_mul]
  exact mul_le_mul_of_nonneg_left ((profile_gap kind (Real.sqrt_nonneg _) (Real.sqrt_nonneg _)).trans (scaledDist_gap _ _ _ _)) (abs_nonneg _)

theorem C199_rational {O : Type} {d m : Nat} (v p : ℝ) (hp : 0 ≤ p) (l : Fin d → ℝ) (c : Fin m → Fin d → ℝ) (x y : Fin d → ℝ)
    (w : List ℝ) (hw : w.length = m) (o : O) :
    ∃ a b, ScalarLFA.evaluate (LFA.mk (KernelBasis.homogeneous (List.ofFn fun j => List.ofFn (c j)) (⟨v, List.ofFn l, p⟩ : RationalQuadratic ℝ)) w o)
        (List.ofFn x) = .ok (.ok a) ∧
      ScalarLFA.evaluate (LFA.mk (KernelBasis.homogeneous (List.ofFn fun j => List.ofFn (c j)) (⟨v, List.ofFn l, p⟩ : RationalQuadratic ℝ)) w o)
        (List.ofFn y) = .ok (.ok b) ∧
      |a - b| ≤ mass w * (|v| * (p / √2 * scaledDist l x y)) := by
  have h1 := (C106_features (kind := .cosine) v p l x c).2.1
  have h2 := (C106_features (kind := .cosine) v p l y c).2.1
  refine dense_gap h1 h2 (by simp) (fun i hi => ?_) (by simpa using hw) o
  rw [List.length_ofFn] at hi
  simp only [entry, List.getD_eq_getElem?_getD, List.getElem?_ofFn, hi, dif_pos, Option.getD_some]
  rw [← mul_sub, abs_mul]
  refine mul_le_mul_of_nonneg_left ((rationalProfile_gap hp (Real.sqrt_nonneg _) (Real.sqrt_nonneg _)).trans ?_) (abs_nonneg _)
  exact mul_le_mul_of_nonneg_left (scaledDist_gap _ _ _ _) (by positivity)

/-! ### The constants cannot be lowered -/

theorem slope_le {f : ℝ → ℝ} {f' a C : ℝ} (hd : HasDerivAt f f' a) (h : ∀ x, a - 1 ≤ x → x < a → |f x - f a| ≤ C * |x - a|) : |f'| ≤ C := by
  have h1 : Tendsto (slope f a) (𝓝[<] a) (𝓝 f') := by
    have := (hasDerivWithinAt_iff_tendsto_slope.1 (hd.hasDerivWithinAt (s := Set.Iio a)))
    rwa [Set.sdiff_singleton_eq_self (by simp)] at this
  refine le_of_tendsto h1.abs ?_
  have h2 : ∀ᶠ x in 𝓝[<] a, a - 1 ≤ x := by
    filter_upwards [mem_nhdsWithin_of_mem_nhds (Ioi_mem_nhds (show a - 1 < a by linarith))] with x hx using le_of_lt hx
  filter_upwards [h2, self_mem_nhdsWithin] with x hx hxa
  have hne : 0 < |x - a| := abs_pos.2 (sub_ne_zero.2 (ne_of_lt hxa))
  rw [slope_def_field, abs_div, div_le_iff₀ hne]
  exact h x hx hxa

/-- Weights that pick the feature of one multi-index. -/
theorem pick_index {B I O : Type} [Space B] [Basis B I ℝ] {es : List (List Nat)} {e : List Nat} (he : e ∈ es) (o : O) :
    ∃ w : List ℝ, w.length = es.length ∧ mass w = 1 ∧ ∀ (b : B) (x : I) (f : List Nat → ℝ),
      Basis.project b x = .ok (.ok (.dense (es.map f))) → ScalarLFA.evaluate (LFA.mk b w o) x = .ok (.ok (f e)) := by
  obtain ⟨k, hk, rfl⟩ := List.getElem_of_mem he
  refine ⟨pick es.length k, pick_length _ _, mass_pick hk, fun b x f h => ?_⟩
  have := evaluate_pick h (k := k) (by simpa using hk) o
  rw [List.length_map] at this
  rw [this]
  simp [entry, hk]

theorem top_mem {p : Nat} (hp : 0 < p) {es : List (List Nat)} (h : MultiIndices p 1 es) : [p] ∈ es :=
  (h.mem _).2 ⟨rfl, by simp, p, by simp, hp.ne'⟩

theorem C199_fourier_sharp {O : Type} (p : Nat) (hp : 0 < p) (lo hi : ℝ) (hl : lo < hi) (C : ℝ) (o : O)
    (h : ∀ (w : List ℝ) (x y a b : ℝ), w.length = p → ScalarLFA.evaluate (LFA.mk (Fourier.new p [(lo, hi)]) w o) [x] = .ok (.ok a) →
      ScalarLFA.evaluate (LFA.mk (Fourier.new p [(lo, hi)]) w o) [y] = .ok (.ok b) → |a - b| ≤ mass w * (C * (|x - y| / (hi - lo)))) :
    Real.pi * p ≤ C := by
  have hpos : 0 < hi - lo := sub_pos.2 hl
  have key : ∀ x, ∃ es, MultiIndices p 1 es ∧ Basis.project (Fourier.new p [(lo, hi)]) [x] =
      .ok (.ok (.dense (es.map (fourierFeature (unit (fun _ : Fin 1 => lo) (fun _ => hi) fun _ => x))))) := fun x =>
    C28_features p 1 one_pos (fun _ => lo) (fun _ => hi) fun _ => x
  obtain ⟨es, m1, -⟩ := key 0
  obtain ⟨w, w1, w2, w3⟩ := pick_index (B := Fourier ℝ) (I := List ℝ) (top_mem hp m1) o
  have ev : ∀ u : ℝ, ScalarLFA.evaluate (LFA.mk (Fourier.new p [(lo, hi)]) w o) [lo + u * (hi - lo)] = .ok (.ok (Real.cos (Real.pi * p * u))) :=
    fun u => by
    obtain ⟨es', m2, h2⟩ := key (lo + u * (hi - lo))
    rw [C23_multi_indices_unique m2 m1] at h2
    rw [w3 _ _ _ h2]
    have : u * (hi - lo) / (hi - lo) = u := mul_div_cancel_right₀ _ hpos.ne'
    simp [fourierFeature, unit, this, mul_assoc]
  have hp' : (0 : ℝ) < p := by exact_mod_cast hp
  have hd : HasDerivAt (fun u : ℝ => Real.cos (Real.pi * p * u)) (-Real.sin (Real.pi * p * (1 / (2 * p))) * (Real.pi * p)) (1 / (2 * p)) := by
    have := ((hasDerivAt_id (1 / (2 * (p : ℝ)))).const_mul (Real.pi * p)).cos
    simpa using this
  have := slope_le (C := C) hd fun u _ _ => by
    have := h w _ _ _ _ (by rw [w1, length_mulIndices one_pos m1]; simp) (ev u) (ev (1 / (2 * p)))
    rw [w2, one_mul] at this
    have e : lo + u * (hi - lo) - (lo + 1 / (2 * p) * (hi - lo)) = (u - 1 / (2 * p)) * (hi - lo) := by ring
    rw [e, abs_mul, abs_of_pos hpos, mul_div_cancel_right₀ _ hpos.ne'] at this
    exact this
  have e : Real.pi * p * (1 / (2 * p)) = Real.pi / 2 := by field_simp
  rw [e, Real.sin_pi_div_two, neg_mul, one_mul, abs_neg, abs_of_pos (mul_pos Real.pi_pos hp')] at this
  exact this

theorem C199_chebyshev_sharp {O : Type} (p : Nat) (hp : 0 < p) (hp' : p ≤ 11) (lo hi : ℝ) (hl : lo < hi) (C : ℝ) (o : O)
    (h : ∀ (c : Chebyshev ℝ) (w : List ℝ) (x y a b : ℝ), Chebyshev.new p [(lo, hi)] = .ok c → w.length = p → lo ≤ x → x ≤ hi → lo ≤ y → y ≤ hi →
      ScalarLFA.evaluate (LFA.mk c w o) [x] = .ok (.ok a) → ScalarLFA.evaluate (LFA.mk c w o) [y] = .ok (.ok b) →
      |a - b| ≤ mass w * (C * (|x - y| / (hi - lo)))) :
    2 * (p : ℝ) ^ 2 ≤ C := by
  have hpos : 0 < hi - lo := sub_pos.2 hl
  have key : ∀ x, ∃ es c, MultiIndices p 1 es ∧ Chebyshev.new p [(lo, hi)] = .ok c ∧ Basis.project c [x] =
      .ok (.ok (.dense (es.map (chebProduct (unit (fun _ : Fin 1 => lo) (fun _ => hi) fun _ => x))))) := fun x =>
    C26_features p 1 hp' one_pos (fun _ => lo) (fun _ => hi) fun _ => x
  obtain ⟨es, c, m1, c1, -⟩ := key 0
  obtain ⟨w, w1, w2, w3⟩ := pick_index (B := Chebyshev ℝ) (I := List ℝ) (top_mem hp m1) o
  have ev : ∀ u : ℝ, ScalarLFA.evaluate (LFA.mk c w o) [lo + u * (hi - lo)] =
      .ok (.ok ((_root_.Polynomial.Chebyshev.T ℝ (p : ℤ)).eval (2 * u - 1))) := fun u => by
    obtain ⟨es', c', m2, c2, h2⟩ := key (lo + u * (hi - lo))
    rw [C23_multi_indices_unique m2 m1] at h2
    obtain rfl := Except.ok.inj (c1.symm.trans c2)
    rw [w3 _ _ _ h2]
    have : u * (hi - lo) / (hi - lo) = u := mul_div_cancel_right₀ _ hpos.ne'
    simp [chebProduct, unit, this]
  have hd : HasDerivAt (fun u : ℝ => (_root_.Polynomial.Chebyshev.T ℝ (p : ℤ)).eval (2 * u - 1)) ((p : ℝ) ^ 2 * 2) 1 := by
    have h1 := (_root_.Polynomial.Chebyshev.T ℝ (p : ℤ)).hasDerivAt (2 * 1 - 1)
    have h2 : HasDerivAt (fun u : ℝ => 2 * u - 1) 2 1 := by
      have := ((hasDerivAt_id (1 : ℝ)).const_mul 2).sub_const 1
      simpa using this
    have h3 := HasDerivAt.comp (h := fun u : ℝ => 2 * u - 1) 1 h1 h2
    refine h3.congr_deriv ?_
    rw [_root_.Polynomial.Chebyshev.T_derivative_eq_U]
    norm_num [_root_.Polynomial.Chebyshev.U_eval_one]
    ring
  have := slope_le (C := C) hd fun u u0 u1 => by
    have := h c w _ _ _ _ c1 (by rw [w1, length_mulIndices one_pos m1]; simp) (by nlinarith) (by nlinarith) (by nlinarith) (by linarith)
      (ev u) (ev 1)
    rw [w2, one_mul] at this
    have e : lo + u * (hi - lo) - (lo + 1 * (hi - lo)) = (u - 1) * (hi - lo) := by ring
    rw [e, abs_mul, abs_of_pos hpos, mul_div_cancel_right₀ _ hpos.ne'] at this
    exact this
  rw [abs_of_nonneg (by positivity)] at this
  linarith

/-- One exponential kernel. -/
theorem C199_kernel_sharp {O : Type} (C : ℝ) (o : O)
    (h : ∀ (w x y a b : ℝ), ScalarLFA.evaluate (LFA.mk (KernelBasis.homogeneous [[(0 : ℝ)]] (⟨1, [1]⟩ : Stationary .exponential ℝ)) [w] o) [x] = .ok (.ok a) →
      ScalarLFA.evaluate (LFA.mk (KernelBasis.homogeneous [[(0 : ℝ)]] (⟨1, [1]⟩ : Stationary .exponential ℝ)) [w] o) [y] = .ok (.ok b) →
      |a - b| ≤ |w| * (C * |x - y|)) : 1 ≤ C := by
  have ev : ∀ u : ℝ, u ≤ 0 → ScalarLFA.evaluate (LFA.mk (KernelBasis.homogeneous [[(0 : ℝ)]] (⟨1, [1]⟩ : Stationary .exponential ℝ)) [1] o) [u] =
      .ok (.ok (Real.exp u)) := fun u hu => by
    have h1 := (C106_features (kind := .exponential) 1 1 (fun _ : Fin 1 => (1 : ℝ)) (fun _ => u) (fun _ : Fin 1 => fun _ => (0 : ℝ))).1
    have h2 := evaluate_dense h1 (w := [1]) rfl o
    refine h2.trans ?_
    have e : scaledDist (fun _ : Fin 1 => (1 : ℝ)) (fun _ => u) (fun _ => 0) = -u := by
      simp [scaledDist, Real.sqrt_sq_eq_abs, abs_of_nonpos hu]
    simp [e, entry, profile]
  have := slope_le (C := C) (Real.hasDerivAt_exp 0) fun u _ u0 => by
    have := h 1 _ _ _ _ (ev u u0.le) (ev 0 le_rfl)
    rwa [abs_one, one_mul] at this
  rwa [Real.exp_zero, abs_one] at this

/-- The hypotheses can be met: a Fourier approximator of order 2 over two inputs. -/
theorem C199_example : ∃ a b, ScalarLFA.evaluate (LFA.mk (Fourier.new 2 [((0 : ℝ), 1), (-1, 1)]) (List.replicate 8 (1 : ℝ)) ()) [(0 : ℝ), 0] = .ok (.ok a) ∧
    ScalarLFA.evaluate (LFA.mk (Fourier.new 2 [((0 : ℝ), 1), (-1, 1)]) (List.replicate 8 (1 : ℝ)) ()) [(1 : ℝ) / 100, 0] = .ok (.ok b) ∧
    |a - b| ≤ 8 * (Real.pi * (2 * (1 / 100))) := by
  obtain ⟨a, b, h1, h2, h3⟩ := C199_fourier 2 2 two_pos ![0, -1] ![1, 1] (by intro j; fin_cases j <;> norm_num) ![0, 0] ![1 / 100, 0]
    (List.replicate 8 1) (by norm_num) ()
  refine ⟨a, b, h1, h2, h3.trans (le_of_eq ?_)⟩
  have : mass (List.replicate 8 1) = 8 := by
    norm_num [mass, Finset.sum_range_succ, entry]
  rw [this]
  norm_num [Fin.sum_univ_two]

end Lfa

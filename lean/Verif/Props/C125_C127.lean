import Verif.Proofs.Dense
import Verif.Props.C99_C100
import Verif.Props.C17_C22

/-!
# C125–C127: what polynomial, Fourier and Chebyshev approximators can represent

Exact arithmetic.
-/

set_option linter.unusedSectionVars false

namespace Lfa

open Spec

/-! ## C125 Polynomial approximators are universal up to the constant -/

/-- The largest degree in one variable, and at least 1. -/
noncomputable def orderOf {d : Nat} (P : MvPolynomial (Fin d) ℝ) : Nat :=
  max 1 (Finset.univ.sup fun j => P.degreeOf j)

theorem degreeOf_le_order {d : Nat} (P : MvPolynomial (Fin d) ℝ) (j : Fin d) :
    P.degreeOf j ≤ orderOf P :=
  le_max_of_le_right (Finset.le_sup (f := fun j => P.degreeOf j) (Finset.mem_univ j))

/-- A real polynomial without its constant term. -/
noncomputable def dropConst {d : Nat} (P : MvPolynomial (Fin d) ℝ) : MvPolynomial (Fin d) ℝ :=
  P + MvPolynomial.C (-P.coeff 0)

theorem dropConst_spec {d : Nat} (P : MvPolynomial (Fin d) ℝ) :
    (∀ j, (dropConst P).degreeOf j ≤ orderOf P) ∧ (dropConst P).coeff 0 = 0 ∧
      ∀ u, MvPolynomial.eval u (dropConst P) = MvPolynomial.eval u P - P.coeff 0 := by
  refine ⟨fun j => ?_, ?_, fun u => ?_⟩
  · refine (MvPolynomial.degreeOf_add_le _ _ _).trans ?_
    rw [MvPolynomial.degreeOf_C]
    exact max_le (degreeOf_le_order P j) (Nat.zero_le _)
  · unfold dropConst; simp
  · unfold dropConst; simp [sub_eq_add_neg]

/-- **C125.** With the constant feature, polynomial approximators of sufficient order come within any
`ε > 0` of any continuous function, uniformly over any compact set, in any number of dimensions. -/
theorem C125_with_zeroth (d : Nat) (hd : 0 < d) (S : Set (Fin d → ℝ)) (hS : IsCompact S)
    (f : (Fin d → ℝ) → ℝ) (hf : ContinuousOn f S) (ε : ℝ) (hε : 0 < ε) :
    ∃ p b w, (Polynomial.new d p).withZeroth = .ok b ∧ w.length = (p + 1) ^ d ∧
      ∀ u ∈ S, ∃ v, predict b w (List.ofFn u) = .ok (.ok v) ∧ |v - f u| < ε := by
  obtain ⟨P, hP⟩ := poly_dense hS hf hε
  obtain ⟨h1, h2, h3⟩ := dropConst_spec P
  obtain ⟨w, hw, hev⟩ := C24_expressive () (orderOf P) d hd (dropConst P) h1 h2
  obtain ⟨b, hb, hb', -⟩ := C25_polynomial_partial (Polynomial.new d (orderOf P))
    ((C25_polynomial_nonempty _ d).2 ⟨hd, lt_of_lt_of_le Nat.one_pos (le_max_left _ _)⟩)
  have hpos : 0 < (orderOf P + 1) ^ d := pow_pos (Nat.succ_pos _) d
  refine ⟨orderOf P, b, w ++ [P.coeff 0], hb, by simp only [List.length_append, List.length_singleton]; omega,
    fun u hu => ⟨MvPolynomial.eval u P, ?_, hP u hu⟩⟩
  obtain ⟨es, hes, hpr⟩ := C24_monomials (orderOf P) d hd u
  have hl : (es.map (monomial u)).length = w.length := by
    rw [List.length_map, length_mulIndices hd hes, hw]
  have h4 := hev u
  rw [show ScalarLFA.evaluate _ _ = predict (Polynomial.new d (orderOf P)) w (List.ofFn u) from rfl,
    predict_dense hpr hl, h3] at h4
  rw [predict_dense (hb' _ _ hpr) (by simp [hl] ), List.length_append, List.length_singleton,
    Finset.sum_range_succ]
  congr 2
  have h5 : ∑ i ∈ Finset.range (es.map (monomial u)).length, (es.map (monomial u)).getD i 0 * entry w i
      = MvPolynomial.eval u P - P.coeff 0 := by
    injection h4 with h4; injection h4
  rw [Finset.sum_congr rfl fun i hi => ?_, h5]
  · rw [List.getD_append_right _ _ _ _ le_rfl, Nat.sub_self, hl]
    unfold entry
    rw [List.getD_append_right _ _ _ _ le_rfl, Nat.sub_self]
    simp
  · have hi := Finset.mem_range.1 hi
    rw [List.getD_append _ _ _ _ hi]
    unfold entry
    rw [List.getD_append _ _ _ _ (hl ▸ hi)]

/-- Without the constant feature every prediction at the origin is 0. -/
theorem polynomial_origin (p d : Nat) (hd : 0 < d) (w : List ℝ) (hw : w.length = (p + 1) ^ d - 1) :
    predict (Polynomial.new d p) w (List.ofFn (0 : Fin d → ℝ)) = .ok (.ok 0) := by
  obtain ⟨es, hes, hpr⟩ := C24_monomials p d hd 0
  rw [predict_dense hpr (by rw [List.length_map, length_mulIndices hd hes, hw])]
  congr 2
  refine Finset.sum_eq_zero fun i hi => ?_
  have hi := Finset.mem_range.1 hi
  rw [List.getD_eq_getElem _ _ hi, List.getElem_map]
  obtain ⟨hlen, -, c, hc, hc0⟩ := (hes.mem _).1 (List.getElem_mem (by simpa using hi))
  obtain ⟨j, hj, rfl⟩ := List.getElem_of_mem hc
  rw [monomial, Finset.prod_eq_zero (Finset.mem_univ ⟨j, hlen ▸ hj⟩), zero_mul]
  rw [List.getD_eq_getElem _ _ hj]
  exact zero_pow hc0

/-- Without the constant feature, exactly the continuous functions that vanish at the origin (when the
origin belongs to the set at all) are approximated to any accuracy. -/
theorem C125_plain_iff (d : Nat) (hd : 0 < d) (S : Set (Fin d → ℝ)) (hS : IsCompact S)
    (f : (Fin d → ℝ) → ℝ) (hf : ContinuousOn f S) :
    (∀ ε > 0, ∃ p w, w.length = (p + 1) ^ d - 1 ∧
      ∀ u ∈ S, ∃ v, predict (Polynomial.new d p) w (List.ofFn u) = .ok (.ok v) ∧ |v - f u| < ε) ↔
      (0 ∈ S → f 0 = 0) := by
  constructor
  · intro h h0
    by_contra hc
    obtain ⟨p, w, hw, h⟩ := h |f 0| (abs_pos.2 hc)
    obtain ⟨v, hv, hlt⟩ := h 0 h0
    rw [polynomial_origin p d hd w hw] at hv
    injection hv with hv; injection hv with hv
    rw [← hv, zero_sub, abs_neg] at hlt
    exact lt_irrefl _ hlt
  · intro h ε hε
    have key : ∃ P : MvPolynomial (Fin d) ℝ, |P.coeff 0| < ε / 2 ∧
        ∀ u ∈ S, |MvPolynomial.eval u P - f u| < ε / 2 := by
      classical
      let g : (Fin d → ℝ) → ℝ := fun u => if u = 0 then 0 else f u
      have hgf : ∀ u ∈ S, g u = f u := by
        intro u hu
        by_cases h0 : u = 0
        · subst h0; simp [g, h hu]
        · simp [g, h0]
      have hg : ContinuousOn g (S ∪ {0}) := by
        refine ContinuousOn.union_of_isClosed (hf.congr hgf) (continuousOn_singleton _ _)
          hS.isClosed isClosed_singleton
      obtain ⟨P, hP⟩ := poly_dense (hS.union isCompact_singleton) hg (half_pos hε)
      refine ⟨P, ?_, fun u hu => hgf u hu ▸ hP u (Or.inl hu)⟩
      have := hP 0 (Or.inr rfl)
      rw [show g 0 = 0 by simp [g], sub_zero, MvPolynomial.eval_zero] at this
      exact this
    obtain ⟨P, hc, hP⟩ := key
    obtain ⟨h1, h2, h3⟩ := dropConst_spec P
    obtain ⟨w, hw, hev⟩ := C24_expressive () (orderOf P) d hd (dropConst P) h1 h2
    refine ⟨orderOf P, w, hw, fun u hu => ⟨_, hev u, ?_⟩⟩
    rw [h3]
    have e1 := abs_lt.1 hc
    have e2 := abs_lt.1 (hP u hu)
    rw [abs_lt]
    constructor <;> linarith [e1.1, e1.2, e2.1, e2.2]

/-- `sin x₀ + exp x₁` on the unit ball, with the constant feature. -/
example : ∃ p b w, (Polynomial.new 2 p).withZeroth = .ok b ∧ w.length = (p + 1) ^ 2 ∧
    ∀ u ∈ Metric.closedBall (0 : Fin 2 → ℝ) 1, ∃ v,
      predict b w (List.ofFn u) = .ok (.ok v) ∧ |v - (Real.sin (u 0) + Real.exp (u 1))| < 1 / 1000 :=
  C125_with_zeroth 2 (by norm_num) _ (isCompact_closedBall _ _) _ (by fun_prop) _ (by norm_num)

/-- `x₀ sin x₁` needs no constant feature; `cos x₀` does. -/
example : (∀ ε > 0, ∃ p w, w.length = (p + 1) ^ 2 - 1 ∧
    ∀ u ∈ Metric.closedBall (0 : Fin 2 → ℝ) 1, ∃ v,
      predict (Polynomial.new 2 p) w (List.ofFn u) = .ok (.ok v) ∧ |v - u 0 * Real.sin (u 1)| < ε) :=
  (C125_plain_iff 2 (by norm_num) _ (isCompact_closedBall _ _) _ (by fun_prop)).2 (by simp)

example : ¬ (∀ ε > 0, ∃ p w, w.length = (p + 1) ^ 2 - 1 ∧
    ∀ u ∈ Metric.closedBall (0 : Fin 2 → ℝ) 1, ∃ v,
      predict (Polynomial.new 2 p) w (List.ofFn u) = .ok (.ok v) ∧ |v - Real.cos (u 0)| < ε) := fun h =>
  absurd ((C125_plain_iff 2 (by norm_num) _ (isCompact_closedBall _ _) (fun u => Real.cos (u 0))
    (by fun_prop)).1 h (by simp)) (by simp)

/-! ## C126 Fourier approximators over one input -/

/-- The Fourier features of one input. -/
theorem fourier_line (p : Nat) (lo hi x : ℝ) :
    Basis.project (Fourier.new p [(lo, hi)]) [x] = .ok (.ok (.dense ((List.range p).map fun m =>
      Real.cos (Real.pi * ((m + 1 : ℕ) * ((x - lo) / (hi - lo))))))) := by
  obtain ⟨es, hes, hpr⟩ := C28_features p 1 one_pos (fun _ => lo) (fun _ => hi) (fun _ => x)
  have hes' : MultiIndices p 1 ((List.range p).map fun m => [m + 1]) := by
    refine ⟨?_, fun e => ?_⟩
    · rw [List.pairwise_map]
      refine List.pairwise_lt_range.imp fun {a b} h => ?_
      exact List.Lex.rel (Nat.succ_lt_succ h)
    · constructor
      · intro h
        obtain ⟨m, hm, rfl⟩ := List.mem_map.1 h
        have := List.mem_range.1 hm
        refine ⟨rfl, by simpa using this, m + 1, by simp, by simp⟩
      · rintro ⟨hl, hle, c, hc, hc0⟩
        obtain ⟨a, rfl⟩ := List.length_eq_one_iff.1 hl
        obtain rfl : c = a := by simpa using hc
        have := hle c (by simp)
        exact List.mem_map.2 ⟨c - 1, List.mem_range.2 (by omega), by
          rw [Nat.sub_add_cancel (Nat.one_le_iff_ne_zero.2 hc0)]⟩
  rw [C23_multi_indices_unique hes hes'] at hpr
  rw [show [(lo, hi)] = List.ofFn fun _ : Fin 1 => (lo, hi) by simp,
    show [x] = List.ofFn fun _ : Fin 1 => x by simp, hpr, List.map_map]
  congr 4
  funext m
  simp [fourierFeature, unit]

theorem sum_range_map (p : Nat) (g a : Nat → ℝ) :
    ∑ i ∈ Finset.range ((List.range p).map g).length,
      ((List.range p).map g).getD i 0 * entry ((List.range p).map a) i
        = ∑ m ∈ Finset.range p, g m * a m := by
  rw [List.length_map, List.length_range]
  refine Finset.sum_congr rfl fun i hi => ?_
  have hi := Finset.mem_range.1 hi
  unfold entry
  rw [List.getD_eq_getElem _ _ (by simpa using hi), List.getD_eq_getElem _ _ (by simpa using hi)]
  simp

theorem exists_map_range (w : List ℝ) : w = (List.range w.length).map (entry w) := by
  apply List.ext_getElem (by simp)
  intro i h1 h2
  simp [entry, List.getElem?_eq_getElem h1]

/-- The predictions of a Fourier approximator over one input. -/
theorem predict_fourier (p : Nat) (lo hi x : ℝ) (a : Nat → ℝ) :
    predict (Fourier.new p [(lo, hi)]) ((List.range p).map a) [x] = .ok (.ok (∑ m ∈ Finset.range p,
      Real.cos (Real.pi * ((m + 1 : ℕ) * ((x - lo) / (hi - lo)))) * a m)) := by
  rw [predict_dense (fourier_line p lo hi x) (by simp), sum_range_map]

theorem predict_fourier_bias (p : Nat) (lo hi x c : ℝ) (a : Nat → ℝ) :
    predict (withBias (Fourier.new p [(lo, hi)]) : Stack (Fourier ℝ) (Bias ℝ))
      ((List.range p).map a ++ [c]) [x] = .ok (.ok (∑ m ∈ Finset.range p,
      Real.cos (Real.pi * ((m + 1 : ℕ) * ((x - lo) / (hi - lo)))) * a m + c)) := by
  obtain ⟨v, h1, h2⟩ := C22_with_bias (Fourier.new p [(lo, hi)]) () ((List.range p).map a) c [x] _
    (fourier_line p lo hi x) trivial (by simp [dim])
  have h1 : predict (Fourier.new p [(lo, hi)]) ((List.range p).map a) [x] = .ok (.ok v) := h1
  rw [predict_fourier] at h1
  injection h1 with h1; injection h1 with h1
  rw [h1]
  exact h2

/-- Continuous functions on an interval, rescaled to `[0, 1]`. -/
theorem rescaled_continuous {lo hi : ℝ} (hlt : lo < hi) {f : ℝ → ℝ}
    (hf : ContinuousOn f (Set.Icc lo hi)) :
    ContinuousOn (fun t => f (lo + t * (hi - lo))) (Set.Icc 0 1) := by
  refine hf.comp (by fun_prop) fun t ht => ⟨?_, ?_⟩
  · nlinarith [ht.1]
  · nlinarith [ht.2]

theorem unit_mem {lo hi x : ℝ} (hlt : lo < hi) (hx : x ∈ Set.Icc lo hi) :
    (x - lo) / (hi - lo) ∈ Set.Icc (0 : ℝ) 1 ∧ lo + (x - lo) / (hi - lo) * (hi - lo) = x := by
  have h : 0 < hi - lo := sub_pos.2 hlt
  refine ⟨⟨div_nonneg (sub_nonneg.2 hx.1) h.le, (div_le_one h).2 (by linarith [hx.2])⟩, ?_⟩
  rw [div_mul_cancel₀ _ h.ne']
  ring

/-- **C126.** With a bias, Fourier approximators over one input of sufficient order come within any
`ε > 0` of any continuous function, uniformly over the limits. -/
theorem C126_with_bias (lo hi : ℝ) (hlt : lo < hi) (f : ℝ → ℝ) (hf : ContinuousOn f (Set.Icc lo hi))
    (ε : ℝ) (hε : 0 < ε) :
    ∃ p w, w.length = p + 1 ∧ ∀ x ∈ Set.Icc lo hi, ∃ v,
      predict (withBias (Fourier.new p [(lo, hi)]) : Stack (Fourier ℝ) (Bias ℝ)) w [x] = .ok (.ok v) ∧
      |v - f x| < ε := by
  obtain ⟨p, c, a, h⟩ := cos_dense (rescaled_continuous hlt hf) hε
  refine ⟨p, (List.range p).map a ++ [c], by simp, fun x hx => ⟨_, predict_fourier_bias .., ?_⟩⟩
  obtain ⟨h1, h2⟩ := unit_mem hlt hx
  have := h _ h1
  rwa [h2] at this

/-- Without a bias, exactly the continuous functions whose mean over the limits is 0 are approximated
to any accuracy. -/
theorem C126_plain_iff (lo hi : ℝ) (hlt : lo < hi) (f : ℝ → ℝ) (hf : ContinuousOn f (Set.Icc lo hi)) :
    (∀ ε > 0, ∃ p w, w.length = p ∧ ∀ x ∈ Set.Icc lo hi, ∃ v,
      predict (Fourier.new p [(lo, hi)]) w [x] = .ok (.ok v) ∧ |v - f x| < ε) ↔
      ∫ x in lo..hi, f x = 0 := by
  have hd : 0 < hi - lo := sub_pos.2 hlt
  set g : ℝ → ℝ := fun t => f (lo + t * (hi - lo)) with hg
  have hgc := rescaled_continuous hlt hf
  have hgi : IntervalIntegrable g MeasureTheory.volume 0 1 := by
    apply ContinuousOn.intervalIntegrable
    rwa [Set.uIcc_of_le zero_le_one]
  have hint : ∫ x in lo..hi, f x = (hi - lo) * ∫ t in (0 : ℝ)..1, g t := by
    have := intervalIntegral.mul_integral_comp_mul_add (f := f) (a := 0) (b := 1) (hi - lo) lo
    rw [mul_zero, zero_add, mul_one, sub_add_cancel] at this
    rw [← this, hg]
    congr 2
    funext t
    congr 1
    ring
  have hz : (∫ x in lo..hi, f x = 0) ↔ ∫ t in (0 : ℝ)..1, g t = 0 := by
    rw [hint, mul_eq_zero, or_iff_right hd.ne']
  rw [hz]
  have hcos : ∀ (p : Nat) (a : Nat → ℝ), IntervalIntegrable (fun t : ℝ => ∑ m ∈ Finset.range p,
      Real.cos (Real.pi * ((m + 1 : ℕ) * t)) * a m) MeasureTheory.volume 0 1 := fun p a => by
    apply Continuous.intervalIntegrable
    fun_prop
  constructor
  · intro h
    by_contra hc
    obtain ⟨p, w, hw, h⟩ := h (|∫ t in (0 : ℝ)..1, g t| / 2) (half_pos (abs_pos.2 hc))
    obtain rfl : w.length = p := hw
    have hb : ∀ t ∈ Set.uIoc (0 : ℝ) 1, ‖(∑ m ∈ Finset.range w.length,
        Real.cos (Real.pi * ((m + 1 : ℕ) * t)) * entry w m) - g t‖ ≤ |∫ t in (0 : ℝ)..1, g t| / 2 := by
      intro t ht
      rw [Set.uIoc_of_le zero_le_one] at ht
      have hx : lo + t * (hi - lo) ∈ Set.Icc lo hi := ⟨by nlinarith [ht.1], by nlinarith [ht.2]⟩
      obtain ⟨v, hv, hlt⟩ := h _ hx
      rw [exists_map_range w, List.length_map, List.length_range] at hv
      rw [predict_fourier] at hv
      injection hv with hv; injection hv with hv
      rw [add_sub_cancel_left, mul_div_cancel_right₀ _ hd.ne'] at hv
      rw [Real.norm_eq_abs, hv]
      exact hlt.le
    have := intervalIntegral.norm_integral_le_of_norm_le_const hb
    rw [intervalIntegral.integral_sub (hcos _ _) hgi, integral_cos_sum, zero_sub, norm_neg,
      Real.norm_eq_abs, sub_zero, abs_one, mul_one] at this
    have := abs_pos.2 hc
    linarith
  · intro h0 ε hε
    obtain ⟨p, c, a, h⟩ := cos_dense hgc (half_pos hε)
    have hb : ∀ t ∈ Set.uIoc (0 : ℝ) 1, ‖(∑ m ∈ Finset.range p,
        Real.cos (Real.pi * ((m + 1 : ℕ) * t)) * a m) + c - g t‖ ≤ ε / 2 := by
      intro t ht
      rw [Set.uIoc_of_le zero_le_one] at ht
      exact (h t ⟨ht.1.le, ht.2⟩).le
    have hc := intervalIntegral.norm_integral_le_of_norm_le_const hb
    rw [intervalIntegral.integral_sub ((hcos p a).add intervalIntegrable_const) hgi,
      intervalIntegral.integral_add (hcos p a) intervalIntegrable_const, integral_cos_sum, h0,
      intervalIntegral.integral_const, zero_add, sub_zero, sub_zero, one_smul, abs_one, mul_one,
      Real.norm_eq_abs] at hc
    refine ⟨p, (List.range p).map a, by simp, fun x hx => ⟨_, predict_fourier .., ?_⟩⟩
    obtain ⟨h1, h2⟩ := unit_mem hlt hx
    have := h _ h1
    rw [h2] at this
    have e1 := abs_lt.1 this
    have e2 := abs_le.1 hc
    rw [abs_lt]
    constructor <;> linarith [e1.1, e1.2, e2.1, e2.2]

/-- `|x|` over `[-1, 1]` with a bias. -/
example : ∃ p w, w.length = p + 1 ∧ ∀ x ∈ Set.Icc (-1 : ℝ) 1, ∃ v,
    predict (withBias (Fourier.new p [((-1 : ℝ), 1)]) : Stack (Fourier ℝ) (Bias ℝ)) w [x] = .ok (.ok v) ∧
      |v - (|x| : ℝ)| < 1 / 1000 :=
  C126_with_bias (-1) 1 (by norm_num) _ continuous_abs.continuousOn _ (by norm_num)

/-- `x` over `[-1, 1]` needs no bias; 1 does. -/
example : (∀ ε > 0, ∃ p w, w.length = p ∧ ∀ x ∈ Set.Icc (-1 : ℝ) 1, ∃ v,
    predict (Fourier.new p [((-1 : ℝ), 1)]) w [x] = .ok (.ok v) ∧ |v - x| < ε) :=
  (C126_plain_iff (-1) 1 (by norm_num) (fun x => x) (by fun_prop)).2 (by simp)

example : ¬ (∀ ε > 0, ∃ p w, w.length = p ∧ ∀ x ∈ Set.Icc (-1 : ℝ) 1, ∃ v,
    predict (Fourier.new p [((-1 : ℝ), 1)]) w [x] = .ok (.ok v) ∧ |v - 1| < ε) := fun h =>
  absurd ((C126_plain_iff (-1) 1 (by norm_num) (fun _ => 1) (by fun_prop)).1 h) (by norm_num)

/-! ## C127 How often a prediction can change sign along a coordinate -/

/-- Features that are polynomials of degree at most `p` along a line give a prediction that is one. -/
theorem predict_along {B I : Type} [Space B] [Basis B I ℝ] {b : B} {pt : ℝ → I} {p : Nat}
    {Fs : List (_root_.Polynomial ℝ)} (hF : ∀ F ∈ Fs, F.natDegree ≤ p)
    (hp : ∀ x, Basis.project b (pt x) = .ok (.ok (.dense (Fs.map fun F => F.eval x))))
    {w : List ℝ} (hw : w.length = Fs.length) :
    ∃ Q : _root_.Polynomial ℝ, Q.natDegree ≤ p ∧
      ∀ x, predict b w (pt x) = .ok (.ok (Q.eval x)) := by
  refine ⟨∑ i ∈ Finset.range Fs.length, Fs.getD i 0 * _root_.Polynomial.C (entry w i), ?_, fun x => ?_⟩
  · refine _root_.Polynomial.natDegree_sum_le_of_forall_le _ _ fun i hi => ?_
    refine (_root_.Polynomial.natDegree_mul_C_le _ _).trans (hF _ ?_)
    rw [List.getD_eq_getElem _ _ (Finset.mem_range.1 hi)]
    exact List.getElem_mem _
  · rw [predict_dense (hp x) (by simp [hw]), List.length_map, _root_.Polynomial.eval_finsetSum]
    congr 2
    refine Finset.sum_congr rfl fun i hi => ?_
    have hi := Finset.mem_range.1 hi
    rw [_root_.Polynomial.eval_mul, _root_.Polynomial.eval_C, List.getD_eq_getElem _ _ (by simpa using hi),
      List.getD_eq_getElem _ _ hi, List.getElem_map]

/-- A product over the coordinates, along one of them. -/
theorem prod_update {d : Nat} (u : Fin d → ℝ) (j : Fin d) (x : ℝ) (g : Fin d → ℝ → ℝ) :
    ∏ l, g l (Function.update u j x l) = g j x * ∏ l ∈ Finset.univ.erase j, g l (u l) := by
  rw [← Finset.mul_prod_erase _ _ (Finset.mem_univ j), Function.update_self]
  congr 1
  refine Finset.prod_congr rfl fun l hl => ?_
  rw [Function.update_of_ne (Finset.ne_of_mem_erase hl)]

theorem getD_le_of_mem {p d : Nat} {es : List (List Nat)} (h : MultiIndices p d es) {e : List Nat}
    (he : e ∈ es) (j : Nat) : e.getD j 0 ≤ p := by
  by_cases hj : j < e.length
  · rw [List.getD_eq_getElem _ _ hj]
    exact ((h.mem e).1 he).2.1 _ (List.getElem_mem _)
  · rw [List.getD_eq_default _ _ (not_lt.1 hj)]
    exact Nat.zero_le _

/-- The monomials along coordinate `j`. -/
theorem polynomial_along (p d : Nat) (hd : 0 < d) (u : Fin d → ℝ) (j : Fin d) :
    ∃ Fs : List (_root_.Polynomial ℝ), Fs.length = (p + 1) ^ d - 1 ∧ (∀ F ∈ Fs, F.natDegree ≤ p) ∧
      ∀ x, Basis.project (Polynomial.new d p) (List.ofFn (Function.update u j x)) =
        .ok (.ok (.dense (Fs.map fun F => F.eval x))) := by
  obtain ⟨es, hes, fs, h2, h3⟩ := polynomial_project p d hd
  refine ⟨es.map fun e => _root_.Polynomial.X ^ (e.getD j 0) *
    _root_.Polynomial.C (∏ l ∈ Finset.univ.erase j, u l ^ e.getD l 0), ?_, ?_, fun x => ?_⟩
  · rw [List.length_map, length_mulIndices hd hes]
  · intro F hF
    obtain ⟨e, he, rfl⟩ := List.mem_map.1 hF
    refine (_root_.Polynomial.natDegree_mul_C_le _ _).trans ?_
    rw [_root_.Polynomial.natDegree_X_pow]
    exact getD_le_of_mem hes he j
  · rw [h3, h2, List.map_map]
    congr 4
    funext e
    simp only [Function.comp, _root_.Polynomial.eval_mul, _root_.Polynomial.eval_pow, _root_.Polynomial.eval_X,
      _root_.Polynomial.eval_C]
    exact prod_update u j x fun l y => y ^ e.getD l 0

/-- The Chebyshev features along coordinate `j`. -/
theorem chebyshev_along (p d : Nat) (hp : p ≤ 11) (hd : 0 < d) (lo hi u : Fin d → ℝ) (j : Fin d) :
    ∃ c, Chebyshev.new p (List.ofFn fun j => (lo j, hi j)) = .ok c ∧
    ∃ Fs : List (_root_.Polynomial ℝ), Fs.length = (p + 1) ^ d - 1 ∧ (∀ F ∈ Fs, F.natDegree ≤ p) ∧
      ∀ x, Basis.project c (List.ofFn (Function.update u j x)) =
        .ok (.ok (.dense (Fs.map fun F => F.eval x))) := by
  obtain ⟨es, c, hes, hc, fs, h2, h3⟩ := chebyshev_project p d hp hd lo hi
  refine ⟨c, hc, es.map fun e => (_root_.Polynomial.Chebyshev.T ℝ (e.getD j 0 : ℤ)).comp
      (_root_.Polynomial.C (2 / (hi j - lo j)) * _root_.Polynomial.X +
        _root_.Polynomial.C (-(2 * lo j) / (hi j - lo j) - 1)) *
    _root_.Polynomial.C (∏ l ∈ Finset.univ.erase j,
      (_root_.Polynomial.Chebyshev.T ℝ (e.getD l 0 : ℤ)).eval (2 * unit lo hi u l - 1)), ?_, ?_, fun x => ?_⟩
  · rw [List.length_map, length_mulIndices hd hes]
  · intro F hF
    obtain ⟨e, he, rfl⟩ := List.mem_map.1 hF
    refine (_root_.Polynomial.natDegree_mul_C_le _ _).trans (_root_.Polynomial.natDegree_comp_le.trans ?_)
    have h1 : (_root_.Polynomial.Chebyshev.T ℝ (e.getD j 0 : ℤ)).natDegree ≤ p := by
      rw [_root_.Polynomial.Chebyshev.natDegree_T]
      simpa using getD_le_of_mem hes he j
    exact (Nat.mul_le_mul h1 _root_.Polynomial.natDegree_linear_le).trans (by omega)
  · rw [h3, h2, List.map_map]
    congr 4
    funext e
    simp only [Function.comp, _root_.Polynomial.eval_mul, _root_.Polynomial.eval_C, _root_.Polynomial.eval_comp,
      _root_.Polynomial.eval_add, _root_.Polynomial.eval_X]
    unfold chebProduct unit
    refine (prod_update u j x fun l y => (_root_.Polynomial.Chebyshev.T ℝ (e.getD l 0 : ℤ)).eval
      (2 * ((y - lo l) / (hi l - lo l)) - 1)).trans ?_
    congr 2
    ring

/-- Points in increasing order. -/
def Ascending (n : Nat) (x : Nat → ℝ) : Prop := ∀ k < n, x k < x (k + 1)

/-- **C127.** Along a coordinate, the predictions of a polynomial approximator of order `p` are not
alternately positive and negative at more than `p + 1` increasing points, whatever its weights. -/
theorem C127_polynomial (p d n : Nat) (hd : 0 < d) (hn : p < n) (u : Fin d → ℝ) (j : Fin d)
    (x : Nat → ℝ) (hx : Ascending n x) (w : List ℝ) (hw : w.length = (p + 1) ^ d - 1) :
    ∃ k ≤ n, ∃ v, predict (Polynomial.new d p) w (List.ofFn (Function.update u j (x k))) = .ok (.ok v) ∧
      (-1) ^ k * v ≤ 0 := by
  obtain ⟨Fs, hl, hF, hp⟩ := polynomial_along p d hd u j
  obtain ⟨Q, hQ, h⟩ := predict_along hF hp (hw.trans hl.symm)
  obtain ⟨k, hk, hv⟩ := sign_changes Q (lt_of_le_of_lt hQ hn) hx
  exact ⟨k, hk, _, h _, hv⟩

/-- The same with the constant feature. -/
theorem C127_polynomial_zeroth (p d n : Nat) (hd : 0 < d) (hn : p < n) (u : Fin d → ℝ) (j : Fin d)
    (x : Nat → ℝ) (hx : Ascending n x) (b : Polynomial) (hb : (Polynomial.new d p).withZeroth = .ok b)
    (w : List ℝ) (hw : w.length = (p + 1) ^ d) :
    ∃ k ≤ n, ∃ v, predict b w (List.ofFn (Function.update u j (x k))) = .ok (.ok v) ∧
      (-1) ^ k * v ≤ 0 := by
  obtain ⟨Fs, hl, hF, hp⟩ := polynomial_along p d hd u j
  have hp0 : 0 < d ∧ 0 < p := by
    by_contra hc
    obtain ⟨q, hq⟩ := C25_polynomial_panics p d hc
    rw [hq] at hb
    cases hb
  obtain ⟨b', hb', hz, -⟩ := C25_polynomial_partial (Polynomial.new d p)
    ((C25_polynomial_nonempty p d).2 hp0)
  rw [hb] at hb'
  cases hb'
  have hpos : 0 < (p + 1) ^ d := pow_pos (Nat.succ_pos _) d
  obtain ⟨Q, hQ, h⟩ := predict_along (b := b) (Fs := Fs ++ [1]) (p := p)
    (fun F hF' => by
      rcases List.mem_append.1 hF' with h | h
      · exact hF F h
      · rw [List.mem_singleton.1 h, _root_.Polynomial.natDegree_one]; exact Nat.zero_le _)
    (fun x => by rw [hz _ _ (hp x)]; simp) (w := w) (by simp; omega)
  obtain ⟨k, hk, hv⟩ := sign_changes Q (lt_of_le_of_lt hQ hn) hx
  exact ⟨k, hk, _, h _, hv⟩

/-- The same for Chebyshev approximators, without and with the constant feature. -/
theorem C127_chebyshev (p d n : Nat) (hd : 0 < d) (hn : p < n) (lo hi u : Fin d → ℝ) (j : Fin d)
    (x : Nat → ℝ) (hx : Ascending n x) (c : Chebyshev ℝ)
    (hc : Chebyshev.new p (List.ofFn fun j => (lo j, hi j)) = .ok c) (w : List ℝ) :
    (w.length = (p + 1) ^ d - 1 → ∃ k ≤ n, ∃ v,
      predict c w (List.ofFn (Function.update u j (x k))) = .ok (.ok v) ∧ (-1) ^ k * v ≤ 0) ∧
    (w.length = (p + 1) ^ d → ∃ k ≤ n, ∃ v,
      predict c.withZeroth w (List.ofFn (Function.update u j (x k))) = .ok (.ok v) ∧
        (-1) ^ k * v ≤ 0) := by
  have hp11 : p ≤ 11 := by
    by_contra hlt
    rw [(C26_orders p _).1 (not_le.1 hlt)] at hc
    cases hc
  obtain ⟨c', hc', Fs, hl, hF, hp⟩ := chebyshev_along p d hp11 hd lo hi u j
  rw [hc] at hc'
  cases hc'
  have hpos : 0 < (p + 1) ^ d := pow_pos (Nat.succ_pos _) d
  constructor
  · intro hw
    obtain ⟨Q, hQ, h⟩ := predict_along hF hp (hw.trans hl.symm)
    obtain ⟨k, hk, hv⟩ := sign_changes Q (lt_of_le_of_lt hQ hn) hx
    exact ⟨k, hk, _, h _, hv⟩
  · intro hw
    obtain ⟨Q, hQ, h⟩ := predict_along (b := c.withZeroth) (Fs := Fs ++ [1]) (p := p)
      (fun F hF' => by
        rcases List.mem_append.1 hF' with h | h
        · exact hF F h
        · rw [List.mem_singleton.1 h, _root_.Polynomial.natDegree_one]; exact Nat.zero_le _)
      (fun x => by rw [C25_chebyshev _ _ _ (hp x)]; simp) (w := w) (by simp; omega)
    obtain ⟨k, hk, hv⟩ := sign_changes Q (lt_of_le_of_lt hQ hn) hx
    exact ⟨k, hk, _, h _, hv⟩

/-- The same inside the limits for Fourier approximators over one input, with a bias. -/
theorem C127_fourier (p n : Nat) (hn : p < n) (lo hi : ℝ) (hlt : lo < hi) (x : Nat → ℝ)
    (hx : Ascending n x) (hin : ∀ k ≤ n, x k ∈ Set.Icc lo hi) (w : List ℝ) (hw : w.length = p + 1) :
    ∃ k ≤ n, ∃ v, predict (withBias (Fourier.new p [(lo, hi)]) : Stack (Fourier ℝ) (Bias ℝ)) w [x k] =
      .ok (.ok v) ∧ (-1) ^ k * v ≤ 0 := by
  have hd : 0 < hi - lo := sub_pos.2 hlt
  have hw' : w = (List.range p).map (entry w) ++ [entry w p] := by
    apply List.ext_getElem (by simp [hw])
    intro i h1 h2
    rcases lt_or_eq_of_le (Nat.lt_succ_iff.1 (hw ▸ h1)) with h | h
    · rw [List.getElem_append_left (by simpa using h)]
      simp [entry, List.getElem?_eq_getElem h1]
    · subst h
      rw [List.getElem_append_right (by simp)]
      simp [entry, List.getElem?_eq_getElem h1]
  set Q : _root_.Polynomial ℝ := ∑ m ∈ Finset.range p,
    _root_.Polynomial.Chebyshev.T ℝ ((m + 1 : ℕ) : ℤ) * _root_.Polynomial.C (entry w m) +
      _root_.Polynomial.C (entry w p) with hQ
  have hdeg : Q.natDegree ≤ p := by
    refine (_root_.Polynomial.natDegree_add_C).trans_le
      (_root_.Polynomial.natDegree_sum_le_of_forall_le _ _ fun m hm => ?_)
    refine (_root_.Polynomial.natDegree_mul_C_le _ _).trans ?_
    rw [_root_.Polynomial.Chebyshev.natDegree_T]
    exact Finset.mem_range.1 hm
  have heval : ∀ t : ℝ, predict (withBias (Fourier.new p [(lo, hi)]) : Stack (Fourier ℝ) (Bias ℝ)) w [t] =
      .ok (.ok (Q.eval (Real.cos (Real.pi * ((t - lo) / (hi - lo)))))) := by
    intro t
    conv_lhs => rw [hw']
    rw [predict_fourier_bias, hQ, _root_.Polynomial.eval_add, _root_.Polynomial.eval_C,
      _root_.Polynomial.eval_finsetSum]
    congr 3
    refine Finset.sum_congr rfl fun m _ => ?_
    rw [_root_.Polynomial.eval_mul, _root_.Polynomial.eval_C, _root_.Polynomial.Chebyshev.T_real_cos]
    congr 2
    push_cast
    ring
  have hdesc : Ascending n fun k => -Real.cos (Real.pi * ((x k - lo) / (hi - lo))) := by
    intro k hk
    have h1 := (unit_mem hlt (hin k hk.le)).1
    have h2 := (unit_mem hlt (hin (k + 1) hk)).1
    refine neg_lt_neg (Real.cos_lt_cos_of_nonneg_of_le_pi (mul_nonneg Real.pi_pos.le h1.1)
      (mul_le_of_le_one_right Real.pi_pos.le h2.2) ?_)
    exact mul_lt_mul_of_pos_left (div_lt_div_of_pos_right (by linarith [hx k hk]) hd) Real.pi_pos
  obtain ⟨k, hk, hv⟩ := sign_changes (Q.comp (-_root_.Polynomial.X)) (n := n)
    (lt_of_le_of_lt (_root_.Polynomial.natDegree_comp_le.trans (by
      rw [_root_.Polynomial.natDegree_neg, _root_.Polynomial.natDegree_X, mul_one]; exact hdeg)) hn) hdesc
  refine ⟨k, hk, _, heval _, ?_⟩
  rw [_root_.Polynomial.eval_comp, _root_.Polynomial.eval_neg, _root_.Polynomial.eval_X, neg_neg] at hv
  exact hv

/-- Chebyshev approximators are not universal, since their order is at most 11: on every box there is
a continuous function with values in `[-1, 1]` that none of them, with or without the constant
feature, approximates better than the constant prediction 0 does. -/
theorem C127_chebyshev_not_universal (d : Nat) (hd : 0 < d) (lo hi : Fin d → ℝ) (hlt : ∀ j, lo j < hi j) :
    ∃ f : (Fin d → ℝ) → ℝ, Continuous f ∧ (∀ u, |f u| ≤ 1) ∧
      ∀ p c (w : List ℝ), Chebyshev.new p (List.ofFn fun j => (lo j, hi j)) = .ok c →
        (w.length = (p + 1) ^ d - 1 → ∃ u v, (∀ j, lo j ≤ u j ∧ u j ≤ hi j) ∧
          predict c w (List.ofFn u) = .ok (.ok v) ∧ 1 ≤ |v - f u|) ∧
        (w.length = (p + 1) ^ d → ∃ u v, (∀ j, lo j ≤ u j ∧ u j ≤ hi j) ∧
          predict c.withZeroth w (List.ofFn u) = .ok (.ok v) ∧ 1 ≤ |v - f u|) := by
  set j : Fin d := ⟨0, hd⟩
  have hj : 0 < hi j - lo j := sub_pos.2 (hlt j)
  set x : Nat → ℝ := fun k => lo j + k * ((hi j - lo j) / 12) with hxdef
  have hx : Ascending 12 x := by
    intro k _
    simp only [hxdef]
    push_cast
    linarith [div_pos hj (by norm_num : (0 : ℝ) < 12)]
  set f : (Fin d → ℝ) → ℝ := fun u => Real.cos (12 * Real.pi * ((u j - lo j) / (hi j - lo j))) with hf
  have hfk : ∀ k, f (Function.update lo j (x k)) = (-1) ^ k := by
    intro k
    simp only [hf, hxdef, Function.update_self]
    rw [← Real.cos_nat_mul_pi k]
    congr 1
    field_simp
    ring
  have hbox : ∀ k ≤ 12, ∀ l, lo l ≤ Function.update lo j (x k) l ∧ Function.update lo j (x k) l ≤ hi l := by
    intro k hk l
    by_cases h : l = j
    · rw [h]
      have : (k : ℝ) ≤ 12 := by exact_mod_cast hk
      rw [Function.update_self]
      simp only [hxdef]
      constructor
      · have : (0 : ℝ) ≤ k * ((hi j - lo j) / 12) := by positivity
        linarith
      · have : (k : ℝ) * ((hi j - lo j) / 12) ≤ 12 * ((hi j - lo j) / 12) :=
          mul_le_mul_of_nonneg_right this (by positivity)
        linarith
    · rw [Function.update_of_ne h]
      exact ⟨le_rfl, (hlt l).le⟩
  have hmiss : ∀ (k : Nat) (v : ℝ), (-1) ^ k * v ≤ 0 → 1 ≤ |v - f (Function.update lo j (x k))| := by
    intro k v hv
    rw [hfk]
    rcases Nat.even_or_odd k with h | h
    · rw [h.neg_one_pow] at hv ⊢
      rw [abs_of_nonpos (by linarith)]
      linarith
    · rw [h.neg_one_pow] at hv ⊢
      rw [abs_of_nonneg (by linarith)]
      linarith
  refine ⟨f, by fun_prop, fun u => Real.abs_cos_le_one _, fun p c w hc => ?_⟩
  have hp : p < 12 := by
    by_contra h
    rw [(C26_orders p _).1 (by omega)] at hc
    cases hc
  obtain ⟨h1, h2⟩ := C127_chebyshev p d 12 hd hp lo hi lo j x hx c hc w
  constructor
  · intro hw
    obtain ⟨k, hk, v, hv, hs⟩ := h1 hw
    exact ⟨_, v, hbox k hk, hv, hmiss k v hs⟩
  · intro hw
    obtain ⟨k, hk, v, hv, hs⟩ := h2 hw
    exact ⟨_, v, hbox k hk, hv, hmiss k v hs⟩

/-- Order 2 in two dimensions: eight weights, three steps. -/
example (w : List ℝ) (hw : w.length = 8) (u : Fin 2 → ℝ) :
    ∃ k : ℕ, k ≤ 3 ∧ ∃ v, predict (Polynomial.new 2 2) w (List.ofFn (Function.update u 1 (k : ℝ))) = .ok (.ok v) ∧
      (-1) ^ k * v ≤ 0 :=
  C127_polynomial 2 2 3 (by norm_num) (by norm_num) u 1 (fun k => (k : ℝ))
    (fun k _ => by push_cast; linarith) w hw

theorem ascending_inj {p : Nat} {x : Nat → ℝ} (hx : Ascending p x) :
    ∀ i ≤ p, ∀ j ≤ p, x i = x j → i = j := by
  have hmono : ∀ i j, i < j → j ≤ p → x i < x j := by
    intro i j hij hj
    induction j, hij using Nat.le_induction with
    | base => exact hx i hj
    | succ j hij ih => exact (ih (by omega)).trans (hx j (by omega))
  intro i hi j hj h
  rcases lt_trichotomy i j with hlt | heq | hlt
  · exact absurd h (hmono i j hlt hj).ne
  · exact heq
  · exact absurd h (hmono j i hlt hi).ne'

/-- Interpolation on the points of an ascending sequence gives alternating predictions. -/
theorem alternating_of_interpolates {B : Type} [Space B] [Basis B (List ℝ) ℝ] {b : B} {p : Nat} {x : Nat → ℝ}
    (hx : Ascending p x)
    (h : ∀ T : Finset ℝ, T.card = p + 1 → Interpolates b ((p + 1) ^ 1) (OnGrid fun _ : Fin 1 => T)) :
    ∃ w, w.length = p + 1 ∧ ∀ k ≤ p, predict b w [x k] = .ok (.ok ((-1) ^ k)) := by
  classical
  have hinj := ascending_inj hx
  set T : Finset ℝ := (Finset.range (p + 1)).image x with hT
  have hcard : T.card = p + 1 := by
    rw [hT, Finset.card_image_of_injOn, Finset.card_range]
    intro i hi j hj h
    exact hinj i (by simpa [Nat.lt_succ_iff] using hi) j (by simpa [Nat.lt_succ_iff] using hj) h
  obtain ⟨w, ⟨hw, hv⟩, -⟩ := h T hcard
    (fun l => if h : ∃ k ≤ p, l = [x k] then (-1) ^ h.choose else 0)
  refine ⟨w, by rw [hw, pow_one], fun k hk => ?_⟩
  rw [hv [x k] ⟨fun _ => x k, by simp, fun _ => Finset.mem_image_of_mem _ (by simp; omega)⟩]
  have hex : ∃ m ≤ p, [x k] = [x m] := ⟨k, hk, rfl⟩
  rw [dif_pos hex]
  obtain ⟨h1, h2⟩ := hex.choose_spec
  rw [← hinj k hk _ h1 (by injection h2)]

/-- The bound is sharp: at `p + 1` increasing points any alternation is reached exactly. -/
theorem C127_sharp (p : Nat) (hp : 0 < p) (x : Nat → ℝ) (hx : Ascending p x) :
    ∃ b w, (Polynomial.new 1 p).withZeroth = .ok b ∧ w.length = p + 1 ∧
      ∀ k ≤ p, predict b w [x k] = .ok (.ok ((-1) ^ k)) := by
  obtain ⟨b, hb, -⟩ := C99_polynomial_zeroth p 1 one_pos hp (fun _ => Finset.image (fun n : Nat => (n : ℝ)) (Finset.range (p + 1)))
    (fun _ => by rw [Finset.card_image_of_injective _ Nat.cast_injective]; simp)
  obtain ⟨w, hw, h⟩ := alternating_of_interpolates (b := b) hx fun T hT => by
    obtain ⟨b', hb', -, hint⟩ := C99_polynomial_zeroth p 1 one_pos hp (fun _ => T) (fun _ => by omega)
    rw [hb] at hb'
    injection hb' with hb'
    subst hb'
    exact hint fun _ => hT
  exact ⟨b, w, hb, hw, h⟩

/-- The same for Chebyshev bases. -/
theorem C127_sharp_chebyshev (p : Nat) (hp : p ≤ 11) (lo hi : ℝ) (hl : lo ≠ hi) (x : Nat → ℝ)
    (hx : Ascending p x) :
    ∃ c w, Chebyshev.new p [(lo, hi)] = .ok c ∧ w.length = p + 1 ∧
      ∀ k ≤ p, predict c.withZeroth w [x k] = .ok (.ok ((-1) ^ k)) := by
  have hC := fun T hT => C99_chebyshev p 1 hp one_pos (fun _ => lo) (fun _ => hi) (fun _ => hl)
    (fun _ => T) hT
  obtain ⟨c, hc, -⟩ := hC (Finset.image (fun n : Nat => (n : ℝ)) (Finset.range (p + 1)))
    (fun _ => by rw [Finset.card_image_of_injective _ Nat.cast_injective]; simp)
  obtain ⟨w, hw, h⟩ := alternating_of_interpolates (b := c.withZeroth) hx fun T hT => by
    obtain ⟨c', hc', -, -, hint⟩ := hC T (fun _ => by omega)
    rw [hc] at hc'
    injection hc' with hc'
    subst hc'
    exact hint fun _ => hT
  exact ⟨c, w, by simpa using hc, hw, h⟩

/-- Fourier approximators of order `p` with a bias fit any values at `p + 1` increasing points inside
their limits. -/
theorem fourier_fits (p : Nat) (lo hi : ℝ) (hlt : lo < hi) (x : Nat → ℝ) (hx : Ascending p x)
    (hin : ∀ k ≤ p, x k ∈ Set.Icc lo hi) (y : Nat → ℝ) :
    ∃ w : List ℝ, w.length = p + 1 ∧ ∀ k ≤ p,
      predict (withBias (Fourier.new p [(lo, hi)]) : Stack (Fourier ℝ) (Bias ℝ)) w [x k] = .ok (.ok (y k)) := by
  classical
  have hd : 0 < hi - lo := sub_pos.2 hlt
  set c : Nat → ℝ := fun k => Real.cos (Real.pi * ((x k - lo) / (hi - lo))) with hc
  have hinj : ∀ i ≤ p, ∀ j ≤ p, c i = c j → i = j := by
    intro i hi' j hj h
    have h1 := (unit_mem hlt (hin i hi')).1
    have h2 := (unit_mem hlt (hin j hj)).1
    have := Real.injOn_cos (Set.mem_Icc.2 ⟨mul_nonneg Real.pi_pos.le h1.1,
      mul_le_of_le_one_right Real.pi_pos.le h1.2⟩) (Set.mem_Icc.2 ⟨mul_nonneg Real.pi_pos.le h2.1,
      mul_le_of_le_one_right Real.pi_pos.le h2.2⟩) h
    have := mul_left_cancel₀ Real.pi_ne_zero this
    have := (div_left_inj' hd.ne').1 this
    exact ascending_inj hx i hi' j hj (by linarith)
  set T : Finset ℝ := (Finset.range (p + 1)).image c with hT
  have hcard : T.card = p + 1 := by
    rw [hT, Finset.card_image_of_injOn, Finset.card_range]
    intro i hi j hj h
    exact hinj i (by simpa [Nat.lt_succ_iff] using hi) j (by simpa [Nat.lt_succ_iff] using hj) h
  obtain ⟨a, ha⟩ := interpolation_exists (κ := Fin (p + 1)) (p + 1) (by simp)
    (fun m k => (_root_.Polynomial.Chebyshev.T ℝ ((m : ℕ) : ℤ)).eval (c k)) (fun a h => by
      have := sequence_indep chebyshevSequence p T (by omega) id Function.injective_id (fun i => a i) fun s hs => by
        obtain ⟨k, hk, rfl⟩ := Finset.mem_image.1 hs
        rw [← h ⟨k, Finset.mem_range.1 hk⟩, Finset.sum_range]
        exact Finset.sum_congr rfl fun m _ => mul_comm _ _
      intro i hi
      exact congrFun this ⟨i, hi⟩) (fun k => y k)
  refine ⟨(List.range p).map (fun m => a (m + 1)) ++ [a 0], by simp, fun k hk => ?_⟩
  rw [predict_fourier_bias, ← ha ⟨k, by omega⟩, Finset.sum_range_succ']
  congr 3
  · refine Finset.sum_congr rfl fun m _ => ?_
    rw [hc, _root_.Polynomial.Chebyshev.T_real_cos]
    congr 2
    push_cast
    ring
  · simp

/-- The same for Fourier bases inside their limits. -/
theorem C127_sharp_fourier (p : Nat) (lo hi : ℝ) (hlt : lo < hi) (x : Nat → ℝ) (hx : Ascending p x)
    (hin : ∀ k ≤ p, x k ∈ Set.Icc lo hi) :
    ∃ w : List ℝ, w.length = p + 1 ∧ ∀ k ≤ p,
      predict (withBias (Fourier.new p [(lo, hi)]) : Stack (Fourier ℝ) (Bias ℝ)) w [x k] =
        .ok (.ok ((-1) ^ k)) :=
  fourier_fits p lo hi hlt x hx hin fun k => (-1) ^ k

end Lfa

import Mathlib.Topology.ContinuousMap.StoneWeierstrass
import Mathlib.Topology.ContinuousMap.Weierstrass
import Mathlib.Algebra.MvPolynomial.Eval
import Mathlib.Analysis.SpecialFunctions.Integrals.Basic
import Mathlib.Analysis.SpecialFunctions.Trigonometric.Chebyshev.Basic
import Verif.Proofs.Tensor

/-! # Polynomials and cosines are dense; polynomials of bounded degree are not

Facts about real functions only; nothing here mentions the model.
-/

namespace Lfa

/-- Polynomials in several variables are dense in the continuous functions on a compact set. -/
theorem poly_dense {d : ℕ} {S : Set (Fin d → ℝ)} (hS : IsCompact S) {f : (Fin d → ℝ) → ℝ}
    (hf : ContinuousOn f S) {ε : ℝ} (hε : 0 < ε) :
    ∃ P : MvPolynomial (Fin d) ℝ, ∀ u ∈ S, |MvPolynomial.eval u P - f u| < ε := by
  have : CompactSpace S := isCompact_iff_compactSpace.1 hS
  let x : Fin d → C(S, ℝ) := fun k => ⟨fun u => u.1 k, (continuous_apply k).comp continuous_subtype_val⟩
  let A : Subalgebra ℝ C(S, ℝ) := (MvPolynomial.aeval (R := ℝ) x).range
  have hx : ∀ (P : MvPolynomial (Fin d) ℝ) (u : S),
      MvPolynomial.aeval (R := ℝ) x P u = MvPolynomial.eval u.1 P := by
    intro P u
    induction P using MvPolynomial.induction_on with
    | C a => simp
    | add p q hp hq => simp [hp, hq]
    | mul_X p k hp => simp [hp, x]
  have hsep : A.SeparatesPoints := by
    intro u v huv
    obtain ⟨k, hk⟩ : ∃ k, u.1 k ≠ v.1 k := by
      by_contra hc
      push Not at hc
      exact huv (Subtype.ext (funext hc))
    exact ⟨x k, ⟨_, ⟨MvPolynomial.X k, by simp⟩, rfl⟩, hk⟩
  obtain ⟨⟨g, P, rfl⟩, hg⟩ := ContinuousMap.exists_mem_subalgebra_near_continuous_of_separatesPoints A
    hsep (fun u : S => f u) (continuousOn_iff_continuous_domRestrict.1 hf) ε hε
  refine ⟨P, fun u hu => ?_⟩
  have := hg ⟨u, hu⟩
  rw [Real.norm_eq_abs] at this
  rw [← hx P ⟨u, hu⟩]
  exact this

/-- Cosine sums with integer frequencies are dense in the continuous functions on `[0, 1]`. -/
theorem cos_dense {f : ℝ → ℝ} (hf : ContinuousOn f (Set.Icc 0 1)) {ε : ℝ} (hε : 0 < ε) :
    ∃ (p : ℕ) (c : ℝ) (a : ℕ → ℝ), ∀ t ∈ Set.Icc (0 : ℝ) 1,
      |∑ m ∈ Finset.range p, Real.cos (Real.pi * ((m + 1 : ℕ) * t)) * a m + c - f t| < ε := by
  have hg : ContinuousOn (fun y => f (Real.arccos y / Real.pi)) (Set.Icc (-1) 1) := by
    refine hf.comp (Real.continuous_arccos.div_const _).continuousOn fun y _ => ?_
    exact ⟨div_nonneg (Real.arccos_nonneg _) Real.pi_pos.le,
      (div_le_one Real.pi_pos).2 (Real.arccos_le_pi _)⟩
  obtain ⟨P, hP⟩ := exists_polynomial_near_of_continuousOn (-1) 1 _ hg ε hε
  have hspan : P ∈ Submodule.span ℝ (Set.range chebyshevSequence) := by
    rw [_root_.Polynomial.Sequence.span _ fun i => ?_]
    · trivial
    · refine isUnit_iff_ne_zero.2 ?_
      rw [Ne, _root_.Polynomial.leadingCoeff_eq_zero]
      exact chebyshevSequence.ne_zero i
  obtain ⟨c, hc⟩ := (Finsupp.mem_span_range_iff_exists_finsupp).1 hspan
  have heval : ∀ t : ℝ, P.eval (Real.cos (Real.pi * t)) = ∑ m ∈ c.support, c m * Real.cos (m * (Real.pi * t)) := by
    intro t
    rw [← hc, Finsupp.sum, _root_.Polynomial.eval_finsetSum]
    refine Finset.sum_congr rfl fun m _ => ?_
    rw [_root_.Polynomial.eval_smul, smul_eq_mul]
    congr 1
    show (_root_.Polynomial.Chebyshev.T ℝ ((m : ℕ) : ℤ)).eval _ = _
    rw [_root_.Polynomial.Chebyshev.T_real_cos]
    simp
  set N := c.support.sup id + 1 with hN
  have hsub : c.support ⊆ Finset.range (N + 1) := by
    intro m hm
    have : m ≤ c.support.sup id := Finset.le_sup (f := id) hm
    simp; omega
  refine ⟨N, c 0, fun m => c (m + 1), fun t ht => ?_⟩
  have h1 := hP (Real.cos (Real.pi * t)) ⟨Real.neg_one_le_cos _, Real.cos_le_one _⟩
  have h2 : Real.arccos (Real.cos (Real.pi * t)) / Real.pi = t := by
    rw [Real.arccos_cos (mul_nonneg Real.pi_pos.le ht.1)
      (mul_le_of_le_one_right Real.pi_pos.le ht.2), mul_div_cancel_left₀ _ Real.pi_ne_zero]
  rw [h2, heval, Finset.sum_subset hsub fun m _ hm => by
    rw [Finsupp.notMem_support_iff.1 hm, zero_mul], Finset.sum_range_succ'] at h1
  refine lt_of_eq_of_lt ?_ h1
  congr 3
  · refine Finset.sum_congr rfl fun m _ => ?_
    rw [mul_comm (c (m + 1))]
    congr 2
    ring
  · simp

/-- The mean of a cosine sum without constant term over its half period is zero. -/
theorem integral_cos_sum (p : ℕ) (a : ℕ → ℝ) :
    ∫ t in (0 : ℝ)..1, ∑ m ∈ Finset.range p, Real.cos (Real.pi * ((m + 1 : ℕ) * t)) * a m = 0 := by
  rw [intervalIntegral.integral_finsetSum]
  · refine Finset.sum_eq_zero fun m _ => ?_
    rw [intervalIntegral.integral_mul_const]
    have hm : Real.pi * ((m + 1 : ℕ) : ℝ) ≠ 0 :=
      mul_ne_zero Real.pi_ne_zero (Nat.cast_ne_zero.2 (Nat.succ_ne_zero m))
    have : (fun t : ℝ => Real.cos (Real.pi * ((m + 1 : ℕ) * t)))
        = fun t => Real.cos (Real.pi * ((m + 1 : ℕ) : ℝ) * t) := by
      funext t; rw [mul_assoc]
    rw [this, intervalIntegral.integral_comp_mul_left (fun x => Real.cos x) hm, integral_cos, mul_one,
      mul_zero, Real.sin_zero, mul_comm Real.pi, Real.sin_nat_mul_pi]
    simp
  · intro m _
    apply Continuous.intervalIntegrable
    fun_prop

/-- A polynomial of degree below `n` does not alternate in sign at `n + 1` increasing points. -/
theorem sign_changes {n : ℕ} (Q : _root_.Polynomial ℝ) (hQ : Q.natDegree < n) {x : ℕ → ℝ}
    (hx : ∀ k < n, x k < x (k + 1)) : ∃ k ≤ n, (-1) ^ k * Q.eval (x k) ≤ 0 := by
  by_contra hc
  push Not at hc
  have hroot : ∀ k : Fin n, ∃ r, x k < r ∧ r < x (k + 1) ∧ Q.eval r = 0 := by
    intro k
    have h1 := hc k k.2.le
    have h2 := hc (k + 1) k.2
    rw [pow_succ, mul_neg_one, neg_mul, neg_pos] at h2
    have hcont : ContinuousOn (fun t => (-1) ^ k.1 * Q.eval t) (Set.Icc (x k) (x (k + 1))) :=
      (continuous_const.mul Q.continuous).continuousOn
    obtain ⟨r, ⟨hr1, hr2⟩, hr⟩ := intermediate_value_Ioo' (hx k k.2).le hcont ⟨h2, h1⟩
    refine ⟨r, hr1, hr2, ?_⟩
    rcases mul_eq_zero.1 hr with h | h
    · exact absurd h (pow_ne_zero _ (by norm_num))
    · exact h
  choose r hr1 hr2 hr0 using hroot
  have hmono : ∀ i j, i ≤ j → j ≤ n → x i ≤ x j := by
    intro i j hij hj
    induction j, hij using Nat.le_induction with
    | base => exact le_rfl
    | succ j hij ih => exact (ih (by omega)).trans (hx j (by omega)).le
  have hinj : Function.Injective r := by
    have : StrictMono r := by
      intro i j hij
      exact (hr2 i).trans_le ((hmono (i + 1) j hij j.2.le).trans (hr1 j).le)
    exact this.injective
  have hz := _root_.Polynomial.eq_zero_of_natDegree_lt_card_of_eval_eq_zero Q hinj hr0
    (by rwa [Fintype.card_fin])
  have := hc 0 (Nat.zero_le _)
  rw [hz, _root_.Polynomial.eval_zero, mul_zero] at this
  exact lt_irrefl _ this

end Lfa

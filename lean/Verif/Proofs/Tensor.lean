import Mathlib.Data.Real.Basic
import Mathlib.Data.List.GetD
import Mathlib.Tactic.Ring
import Mathlib.Algebra.Polynomial.Sequence
import Mathlib.LinearAlgebra.Lagrange
import Mathlib.RingTheory.Polynomial.Chebyshev
import Mathlib.Data.Fin.Tuple.Basic
import Mathlib.LinearAlgebra.FiniteDimensional.Lemmas
import Mathlib.LinearAlgebra.Dimension.Constructions

/-! # Linear independence of products of univariate functions on grids -/

set_option linter.unusedSectionVars false

namespace Lfa

open Finset

/-- Polynomials of degrees `0, …, p` are independent on more than `p` points. -/
theorem sequence_indep (Q : _root_.Polynomial.Sequence ℝ) (p : Nat) (S : Finset ℝ) (hS : p < S.card)
    (g : ℝ → ℝ) (hg : Function.Injective g) (c : Fin (p + 1) → ℝ)
    (h : ∀ s ∈ S, ∑ k, c k * (Q k).eval (g s) = 0) : c = 0 := by
  have hz : ∑ k : Fin (p + 1), c k • Q k = 0 := by
    apply _root_.Polynomial.eq_zero_of_degree_lt_of_eval_finset_eq_zero (S.map ⟨g, hg⟩)
    · rw [Finset.card_map]
      refine lt_of_le_of_lt (_root_.Polynomial.degree_sum_le _ _) ?_
      rw [Finset.sup_lt_iff (by exact WithBot.bot_lt_coe _)]
      intro k _
      refine lt_of_le_of_lt (_root_.Polynomial.degree_smul_le _ _) ?_
      rw [Q.degree_eq]
      have := k.2
      exact_mod_cast (by omega : (k : Nat) < S.card)
    · intro x hx
      obtain ⟨s, hs, rfl⟩ := Finset.mem_map.1 hx
      rw [_root_.Polynomial.eval_finsetSum]
      simpa [_root_.Polynomial.eval_smul] using h s hs
  have hi : LinearIndependent ℝ (fun k : Fin (p + 1) => Q k) :=
    Q.linearIndependent.comp (fun k : Fin (p + 1) => (k : Nat)) Fin.val_injective
  funext k
  exact Fintype.linearIndependent_iff.1 hi c hz k

/-- Products of independent functions of separate variables are independent on the grid. -/
theorem tensor_indep (m : Nat) : ∀ (d : Nat) (f : Fin d → Fin m → ℝ → ℝ) (S : Fin d → Finset ℝ),
    (∀ j (c : Fin m → ℝ), (∀ s ∈ S j, ∑ k, c k * f j k s = 0) → c = 0) →
    ∀ c : (Fin d → Fin m) → ℝ,
      (∀ u : Fin d → ℝ, (∀ j, u j ∈ S j) → ∑ e, c e * ∏ j, f j (e j) (u j) = 0) → c = 0
  | 0, f, S, _, c, h => by
    funext e
    have := h Fin.elim0 (fun j => j.elim0)
    rw [Fintype.sum_eq_single e (fun e' he => absurd (Subsingleton.elim e' e) he)] at this
    simpa using this
  | d + 1, f, S, hf, c, h => by
    have key : ∀ (k : Fin m), (fun e : Fin d → Fin m => c (Fin.cons k e)) = 0 := by
      intro k
      apply tensor_indep m d (fun j => f j.succ) (fun j => S j.succ) (fun j => hf j.succ)
      intro u hu
      have := hf 0 (fun k => ∑ e : Fin d → Fin m, c (Fin.cons k e) * ∏ j, f j.succ (e j) (u j))
        fun s hs => by
          have hcs := h (Fin.cons s u) (fun j => by
            refine Fin.cases ?_ (fun j => ?_) j
            · simpa using hs
            · simpa using hu j)
          rw [← (Fin.consEquiv fun _ => Fin m).sum_comp, Fintype.sum_prod_type] at hcs
          rw [← hcs]
          refine Finset.sum_congr rfl fun k _ => ?_
          rw [Finset.sum_mul]
          refine Finset.sum_congr rfl fun e _ => ?_
          rw [Fin.prod_univ_succ]
          simp only [Fin.consEquiv, Equiv.coe_fn_mk, Fin.cons_zero, Fin.cons_succ]
          ring
      exact congrFun this k
    funext e
    have := congrFun (key (e 0)) (Fin.tail e)
    simpa [Fin.cons_self_tail] using this

/-- The same for a list of distinct multi-indices. -/
theorem list_indep (p d : Nat) (f : Fin d → Nat → ℝ → ℝ) (S : Fin d → Finset ℝ)
    (hf : ∀ j (c : Fin (p + 1) → ℝ), (∀ s ∈ S j, ∑ k, c k * f j k s = 0) → c = 0)
    (es : List (List Nat)) (hn : es.Nodup) (hes : ∀ e ∈ es, e.length = d ∧ ∀ c ∈ e, c ≤ p)
    (a : Nat → ℝ)
    (h : ∀ u : Fin d → ℝ, (∀ j, u j ∈ S j) →
      ∑ i ∈ range es.length, (∏ j, f j ((es.getD i []).getD j 0) (u j)) * a i = 0) :
    ∀ i < es.length, a i = 0 := by
  classical
  let ix : List Nat → Fin d → Fin (p + 1) := fun e j => ⟨min (e.getD j 0) p, by omega⟩
  have hix : ∀ e ∈ es, ∀ j, ((ix e j : Fin (p + 1)) : Nat) = e.getD j 0 := fun e he j => by
    have h1 := (hes e he).1
    have hj : (j : Nat) < e.length := h1 ▸ j.2
    have : e.getD j 0 ≤ p := by
      rw [List.getD_eq_getElem _ _ hj]
      exact (hes e he).2 _ (List.getElem_mem hj)
    exact min_eq_left this
  have hinj : ∀ e ∈ es, ∀ e' ∈ es, ix e = ix e' → e = e' := fun e he e' he' hq => by
    have l1 := (hes e he).1
    have l2 := (hes e' he').1
    apply List.ext_getElem (by rw [l1, l2])
    intro i h1 h2
    have := congrArg Fin.val (congrFun hq ⟨i, l1 ▸ h1⟩)
    rw [hix e he, hix e' he'] at this
    simpa [h1, h2] using this
  have hmem : ∀ i < es.length, es.getD i [] ∈ es := fun i hi => by
    rw [List.getD_eq_getElem _ _ hi]
    exact List.getElem_mem hi
  let c : (Fin d → Fin (p + 1)) → ℝ := fun e =>
    ∑ i ∈ range es.length, if ix (es.getD i []) = e then a i else 0
  have hc : c = 0 := tensor_indep (p + 1) d (fun j k => f j k) S hf c fun u hu => by
    rw [← h u hu]
    simp only [c, Finset.sum_mul]
    rw [Finset.sum_comm]
    refine Finset.sum_congr rfl fun i hi => ?_
    rw [Fintype.sum_eq_single (ix (es.getD i [])) fun e he => by rw [if_neg he.symm, zero_mul],
      if_pos rfl, mul_comm]
    congr 1
    refine Finset.prod_congr rfl fun j _ => ?_
    rw [hix _ (hmem i (mem_range.1 hi))]
  intro i hi
  have hci : c (ix (es.getD i [])) = a i := by
    show ∑ k ∈ range es.length, _ = _
    rw [Finset.sum_eq_single_of_mem i (mem_range.2 hi), if_pos rfl]
    intro k hk hne
    rw [if_neg]
    intro hq
    have := hinj _ (hmem k (mem_range.1 hk)) _ (hmem i hi) hq
    rw [List.getD_eq_getElem _ _ (mem_range.1 hk), List.getD_eq_getElem _ _ hi] at this
    exact hne ((List.Nodup.getElem_inj_iff hn).1 this)
  rw [← hci, hc]
  rfl

/-- As many functions as points, independent on the points: every value assignment is attained. -/
theorem interpolation_exists {κ : Type} [Fintype κ] (n : Nat) (hcard : Fintype.card κ = n)
    (F : Nat → κ → ℝ)
    (h : ∀ a : Nat → ℝ, (∀ x, ∑ i ∈ range n, F i x * a i = 0) → ∀ i < n, a i = 0) (y : κ → ℝ) :
    ∃ a : Nat → ℝ, ∀ x, ∑ i ∈ range n, F i x * a i = y x := by
  let L : (Fin n → ℝ) →ₗ[ℝ] (κ → ℝ) :=
    { toFun := fun a x => ∑ i : Fin n, F i x * a i
      map_add' := fun a b => by
        funext x
        simp [mul_add, Finset.sum_add_distrib]
      map_smul' := fun r a => by
        funext x
        simp only [Pi.smul_apply, smul_eq_mul, RingHom.id_apply, Finset.mul_sum]
        exact Finset.sum_congr rfl fun i _ => by ring }
  have hL : Function.Injective L := by
    rw [← LinearMap.ker_eq_bot, LinearMap.ker_eq_bot']
    intro a ha
    let a' : Nat → ℝ := fun i => if hi : i < n then a ⟨i, hi⟩ else 0
    have := h a' fun x => by
      rw [Finset.sum_range]
      have := congrFun ha x
      refine Eq.trans ?_ this
      exact Finset.sum_congr rfl fun i _ => by simp [a']
    funext i
    have := this i i.2
    simpa [a'] using this
  have hs : Function.Surjective L :=
    (LinearMap.injective_iff_surjective_of_finrank_eq_finrank (by simp [hcard])).1 hL
  obtain ⟨a, ha⟩ := hs y
  refine ⟨fun i => if hi : i < n then a ⟨i, hi⟩ else 0, fun x => ?_⟩
  rw [Finset.sum_range, ← congrFun ha x]
  exact Finset.sum_congr rfl fun i _ => by simp

/-- `1, X, X², …` -/
noncomputable def monomialSequence : _root_.Polynomial.Sequence ℝ :=
  ⟨fun k => _root_.Polynomial.X ^ k, fun k => _root_.Polynomial.degree_X_pow k⟩

/-- `T₀, T₁, T₂, …` -/
noncomputable def chebyshevSequence : _root_.Polynomial.Sequence ℝ :=
  ⟨fun k => _root_.Polynomial.Chebyshev.T ℝ k, fun k => by
    rw [_root_.Polynomial.Chebyshev.degree_T]; rfl⟩

end Lfa

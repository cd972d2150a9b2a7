import Mathlib.Topology.ContinuousMap.StoneWeierstrass
import Mathlib.Analysis.SpecialFunctions.Exp
import Mathlib.LinearAlgebra.Finsupp.LinearCombination

/-! # Exponentials of linear forms are dense in the continuous functions on a compact set

Facts about real functions only; nothing here mentions the model.
-/

namespace Lfa

/-- `u ↦ exp(∑ₖ uₖ / lₖ aₖ)` on a set. -/
noncomputable def expForm {d : ℕ} (l : Fin d → ℝ) (S : Set (Fin d → ℝ)) (a : Fin d → ℝ) : C(S, ℝ) :=
  ⟨fun u => Real.exp (∑ k, u.1 k / l k * a k), Real.continuous_exp.comp (continuous_finsetSum _ fun k _ =>
    (((continuous_apply k).comp continuous_subtype_val).div_const _).mul_const _)⟩

theorem exp_dense {d : ℕ} (l : Fin d → ℝ) (hl : ∀ k, l k ≠ 0) {S : Set (Fin d → ℝ)}
    (hS : IsCompact S) {f : (Fin d → ℝ) → ℝ} (hf : ContinuousOn f S) {ε : ℝ} (hε : 0 < ε) :
    ∃ c : (Fin d → ℝ) →₀ ℝ, ∀ u ∈ S,
      |c.sum (fun a t => t * Real.exp (∑ k, u k / l k * a k)) - f u| < ε := by
  have : CompactSpace S := isCompact_iff_compactSpace.1 hS
  let A : Subalgebra ℝ C(S, ℝ) := Algebra.adjoin ℝ (Set.range (expForm l S))
  have hmon : (Submonoid.closure (Set.range (expForm l S)) : Set C(S, ℝ)) = Set.range (expForm l S) := by
    let M : Submonoid C(S, ℝ) :=
      { carrier := Set.range (expForm l S)
        one_mem' := ⟨0, by ext u; simp [expForm]⟩
        mul_mem' := by
          rintro _ _ ⟨a, rfl⟩ ⟨b, rfl⟩
          refine ⟨a + b, ?_⟩
          ext u
          simp [expForm, ← Real.exp_add, mul_add, Finset.sum_add_distrib] }
    exact congrArg (fun N : Submonoid C(S, ℝ) => (N : Set C(S, ℝ)))
      (Submonoid.closure_eq M)
  have hsep : A.SeparatesPoints := by
    intro u v huv
    obtain ⟨k, hk⟩ : ∃ k, u.1 k ≠ v.1 k := by
      by_contra hc
      push Not at hc
      exact huv (Subtype.ext (funext hc))
    refine ⟨expForm l S (Pi.single k 1), ⟨_, Algebra.subset_adjoin ⟨_, rfl⟩, rfl⟩, ?_⟩
    simp only [expForm, ContinuousMap.coe_mk, Pi.single_apply, mul_ite, mul_one, mul_zero,
      Finset.sum_ite_eq', Finset.mem_univ, if_true]
    intro h
    exact hk ((div_left_inj' (hl k)).1 (Real.exp_injective h))
  obtain ⟨⟨g, hg⟩, hg2⟩ := ContinuousMap.exists_mem_subalgebra_near_continuous_of_separatesPoints A hsep
    (fun u : S => f u) (continuousOn_iff_continuous_domRestrict.1 hf) ε hε
  have hg' : g ∈ Submodule.span ℝ (Set.range (expForm l S)) := by
    have : g ∈ Subalgebra.toSubmodule A := hg
    rwa [Algebra.adjoin_eq_span, hmon] at this
  obtain ⟨c, hc⟩ := (Finsupp.mem_span_range_iff_exists_finsupp).1 hg'
  refine ⟨c, fun u hu => ?_⟩
  have := hg2 ⟨u, hu⟩
  rw [Real.norm_eq_abs] at this
  convert this using 3
  show _ = g ⟨u, hu⟩
  rw [← hc, Finsupp.sum, Finsupp.sum, ContinuousMap.sum_apply]
  rfl

end Lfa

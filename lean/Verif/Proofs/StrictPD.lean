import Verif.Proofs.PosDef
import Mathlib.Analysis.InnerProductSpace.Calculus
import Mathlib.Analysis.InnerProductSpace.PiL2
import Mathlib.Analysis.Calculus.FDeriv.Norm
import Mathlib.Analysis.SpecialFunctions.Log.Deriv
import Mathlib.LinearAlgebra.LinearIndependent.Basic

/-!
# Strictly positive definite radial functions
-/

set_option linter.unusedSectionVars false

open scoped BigOperators Topology
open MeasureTheory Set

namespace Lfa

/-- Points of `d`-dimensional Euclidean space. -/
abbrev Pt (d : Nat) := EuclideanSpace ℝ (Fin d)

/-- The quadratic form of the radial function `g` (of the squared distance). -/
noncomputable def radialForm {d m : Nat} (g : ℝ → ℝ) (u : Fin m → Pt d) (c : Fin m → ℝ) : ℝ :=
  ∑ i, ∑ j, c i * c j * g (‖u i - u j‖ ^ 2)

theorem normSq_eq {d : Nat} (x y : Pt d) : ‖x - y‖ ^ 2 = ∑ k, (x k - y k) ^ 2 := by
  rw [EuclideanSpace.norm_sq_eq]
  simp

theorem cnd_norm {d m : Nat} (u : Fin m → Pt d) : CND fun i j => ‖u i - u j‖ ^ 2 := by
  simp only [normSq_eq]
  exact cnd_dist fun i k => u i k

/-- A null vector of a positive semidefinite radial form annihilates the function everywhere. -/
theorem null_everywhere {d m : Nat} {g : ℝ → ℝ}
    (hg : ∀ (m : Nat) (u : Fin m → Pt d) (c : Fin m → ℝ), 0 ≤ radialForm g u c)
    {u : Fin m → Pt d} {c : Fin m → ℝ} (h : radialForm g u c = 0) (x : Pt d) :
    ∑ j, c j * g (‖x - u j‖ ^ 2) = 0 := by
  set f := ∑ j, c j * g (‖x - u j‖ ^ 2) with hf
  have key : ∀ s : ℝ, 0 ≤ s ^ 2 * g 0 + 2 * s * f := by
    intro s
    have h1 := hg (m + 1) (Fin.cons x u) (Fin.cons s c)
    have e : radialForm g (Fin.cons x u) (Fin.cons s c) = s ^ 2 * g 0 + 2 * s * f := by
      unfold radialForm at h ⊢
      rw [Fin.sum_univ_succ]
      simp only [Fin.sum_univ_succ, Fin.cons_zero, Fin.cons_succ, Finset.sum_add_distrib, h,
        sub_self, norm_zero]
      have e1 : ∑ i, s * c i * g (‖x - u i‖ ^ 2) = s * f := by
        rw [hf, Finset.mul_sum]
        exact Finset.sum_congr rfl fun i _ => by ring
      have e2 : ∑ i, c i * s * g (‖u i - x‖ ^ 2) = s * f := by
        rw [hf, Finset.mul_sum]
        exact Finset.sum_congr rfl fun i _ => by rw [norm_sub_rev]; ring
      rw [e1, e2]
      norm_num
      ring
    rwa [e] at h1
  have h0 : 0 ≤ g 0 := by
    have h1 := key 1
    have h2 := key (-1)
    linarith
  have h1 := key (-f / (g 0 + 1))
  have h2 : (-f / (g 0 + 1)) ^ 2 * g 0 + 2 * (-f / (g 0 + 1)) * f
      = -(f ^ 2 * (g 0 + 2)) / (g 0 + 1) ^ 2 := by
    field_simp
    ring
  rw [h2, le_div_iff₀ (by positivity), zero_mul] at h1
  have h3 : f ^ 2 ≤ 0 := by nlinarith [sq_nonneg f]
  exact pow_eq_zero_iff two_ne_zero |>.1 (le_antisymm h3 (sq_nonneg f))

/-- Gaussians with distinct centres are independent. -/
theorem gauss_indep {d m : Nat} {t : ℝ} (ht : 0 < t) (u : Fin m → Pt d) (hu : Function.Injective u)
    (c : Fin m → ℝ) (h : ∀ x, ∑ j, c j * Real.exp (-(t * ‖x - u j‖ ^ 2)) = 0) : c = 0 := by
  let χ : Fin m → (Multiplicative (Pt d) →* ℝ) := fun j =>
    { toFun := fun x => Real.exp (2 * t * inner ℝ (Multiplicative.toAdd x) (u j))
      map_one' := by simp
      map_mul' := fun x y => by
        rw [toAdd_mul, inner_add_left, mul_add, Real.exp_add] }
  have hχ : Function.Injective χ := by
    intro i j hij
    apply hu
    have hx : ∀ x : Pt d, inner ℝ x (u i) = inner ℝ x (u j) := fun x => by
      have h1 := DFunLike.congr_fun hij (Multiplicative.ofAdd x)
      have h2 : Real.exp (2 * t * inner ℝ x (u i)) = Real.exp (2 * t * inner ℝ x (u j)) := h1
      have h3 := Real.exp_injective h2
      exact mul_left_cancel₀ (by positivity : 2 * t ≠ 0) h3
    exact ext_inner_left ℝ hx
  have hi := (linearIndependent_monoidHom (Multiplicative (Pt d)) ℝ).comp χ hχ
  have hz : ∑ j, (c j * Real.exp (-(t * ‖u j‖ ^ 2))) • (χ j : Multiplicative (Pt d) → ℝ) = 0 := by
    funext x
    have hx := h (Multiplicative.toAdd x)
    rw [Finset.sum_apply]
    have e : ∀ j, c j * Real.exp (-(t * ‖Multiplicative.toAdd x - u j‖ ^ 2))
        = Real.exp (-(t * ‖Multiplicative.toAdd x‖ ^ 2)) *
          ((c j * Real.exp (-(t * ‖u j‖ ^ 2))) * Real.exp (2 * t * inner ℝ (Multiplicative.toAdd x) (u j))) := by
      intro j
      rw [norm_sub_sq_real, mul_assoc (c j), mul_left_comm, ← Real.exp_add, ← Real.exp_add]
      congr 2
      ring
    simp only [e] at hx
    rw [← Finset.mul_sum] at hx
    rcases mul_eq_zero.1 hx with h1 | h1
    · exact absurd h1 (Real.exp_pos _).ne'
    · exact h1
  have := Fintype.linearIndependent_iff.1 hi _ hz
  funext j
  rcases mul_eq_zero.1 (this j) with h1 | h1
  · exact h1
  · exact absurd h1 (Real.exp_pos _).ne'

/-- `e^{-|x - u|}` with distinct centres are independent: each has a kink at its own centre only. -/
theorem kink_indep {d m : Nat} (u : Fin m → Pt d) (hu : Function.Injective u) (c : Fin m → ℝ)
    (h : ∀ x, ∑ j, c j * Real.exp (-‖x - u j‖) = 0) : c = 0 := by
  funext j
  show c j = 0
  rcases subsingleton_or_nontrivial (Pt d) with hs | hn
  · have hj : ∀ i, i = j := fun i => hu (Subsingleton.elim _ _)
    have := h (u j)
    rw [Fintype.sum_eq_single j fun i hi => absurd (hj i) hi] at this
    simpa using this
  by_contra hc
  have hd : DifferentiableAt ℝ (fun x => -∑ i ∈ Finset.univ.erase j, c i * Real.exp (-‖x - u i‖))
      (u j) := by
    refine DifferentiableAt.neg (DifferentiableAt.fun_sum fun i hi => ?_)
    refine (DifferentiableAt.exp (DifferentiableAt.neg ?_)).const_mul _
    refine DifferentiableAt.norm ℝ (differentiableAt_id.sub_const _) ?_
    exact sub_ne_zero.2 fun hq => (Finset.ne_of_mem_erase hi) (hu hq).symm
  have he : (fun x => -∑ i ∈ Finset.univ.erase j, c i * Real.exp (-‖x - u i‖))
      = fun x => c j * Real.exp (-‖x - u j‖) := by
    funext x
    have := h x
    rw [← Finset.add_sum_erase _ _ (Finset.mem_univ j)] at this
    linarith
  rw [he] at hd
  have h1 : DifferentiableAt ℝ (fun x => Real.exp (-‖x - u j‖)) (u j) := by
    have := hd.const_mul (c j)⁻¹
    simpa [← mul_assoc, inv_mul_cancel₀ hc] using this
  have h2 := (h1.log (Real.exp_pos _).ne').neg
  simp only [Real.log_exp] at h2
  have h2 : DifferentiableAt ℝ (fun x => ‖x - u j‖) (u j) := by
    have e : (fun x => ‖x - u j‖) = -fun x => -‖x - u j‖ := by funext x; simp
    rw [e]
    exact h2
  have h3 : DifferentiableAt ℝ (fun y : Pt d => ‖y‖) 0 := by
    have h4 : DifferentiableAt ℝ (fun y : Pt d => y + u j) 0 :=
      differentiableAt_id.add_const _
    have h5 : DifferentiableAt ℝ (fun x => ‖x - u j‖) ((0 : Pt d) + u j) := by rwa [zero_add]
    have := DifferentiableAt.comp (0 : Pt d) h5 h4
    simpa [Function.comp_def] using this
  exact not_differentiableAt_norm_zero (E := Pt d) h3

/-- The radial form of `g` is strictly positive on distinct points. -/
def StrictRadial (d : Nat) (g : ℝ → ℝ) : Prop :=
  ∀ (m : Nat) (u : Fin m → Pt d) (c : Fin m → ℝ), Function.Injective u → c ≠ 0 →
    0 < radialForm g u c

theorem StrictRadial.of_indep {d : Nat} {g : ℝ → ℝ}
    (hg : ∀ (m : Nat) (u : Fin m → Pt d) (c : Fin m → ℝ), 0 ≤ radialForm g u c)
    (hi : ∀ (m : Nat) (u : Fin m → Pt d), Function.Injective u → ∀ c : Fin m → ℝ,
      (∀ x, ∑ j, c j * g (‖x - u j‖ ^ 2) = 0) → c = 0) : StrictRadial d g := by
  intro m u c hu hc
  refine lt_of_le_of_ne (hg m u c) fun h => hc ?_
  exact hi m u hu c (null_everywhere hg h.symm)

theorem StrictRadial.scale {d : Nat} {g : ℝ → ℝ} (hg : StrictRadial d g) {s : ℝ} (hs : 0 < s) :
    StrictRadial d fun z => g (s * z) := by
  intro m u c hu hc
  have h := hg m (fun i => Real.sqrt s • u i) c (fun i j hij =>
    hu (smul_right_injective _ (Real.sqrt_pos.2 hs).ne' hij)) hc
  unfold radialForm at h ⊢
  simpa [← smul_sub, norm_smul, mul_pow, Real.sq_sqrt hs.le] using h

theorem gauss_strict (d : Nat) {t : ℝ} (ht : 0 < t) : StrictRadial d fun z => Real.exp (-(t * z)) :=
  .of_indep (fun _ u c => ((cnd_norm u).exp_mul ht.le).2 c) fun _ u hu c h =>
    gauss_indep ht u hu c h

theorem exponential_strict (d : Nat) : StrictRadial d fun z => Real.exp (-Real.sqrt z) := by
  refine .of_indep (fun _ u c => ?_) fun _ u hu c h => kink_indep u hu c fun x => ?_
  · have := ((cnd_norm u).exp_sqrt (fun i j => sq_nonneg _) (le_refl 0)).2 c
    simpa [radialForm] using this
  · simpa [Real.sqrt_sq] using h x

/-- Integrals of non-negative functions that are positive near 0. -/
theorem integral_pos_of_near_zero {f : ℝ → ℝ} (hi : IntegrableOn f (Ioi 0))
    (h0 : ∀ t ∈ Ioi (0 : ℝ), 0 ≤ f t) {ε : ℝ} (hε : 0 < ε) (hp : ∀ t ∈ Ioo (0 : ℝ) ε, 0 < f t) :
    0 < ∫ t in Ioi (0 : ℝ), f t := by
  rw [setIntegral_pos_iff_support_of_nonneg_ae
    ((ae_restrict_iff' measurableSet_Ioi).2 (Filter.Eventually.of_forall h0)) hi]
  refine lt_of_lt_of_le ?_ (measure_mono (s := Ioo 0 ε) fun t ht => ⟨(hp t ht).ne', ht.1⟩)
  rw [Real.volume_Ioo]
  simpa using hε

theorem form_integral {m : Nat} (c : Fin m → ℝ) (A : ℝ → Fin m → Fin m → ℝ)
    (hi : ∀ i j, IntegrableOn (fun t => A t i j) (Ioi 0)) :
    IntegrableOn (fun t => ∑ i, ∑ j, c i * c j * A t i j) (Ioi 0) ∧
    ∑ i, ∑ j, c i * c j * ∫ t in Ioi (0 : ℝ), A t i j =
      ∫ t in Ioi (0 : ℝ), ∑ i, ∑ j, c i * c j * A t i j := by
  have h1 : ∀ i, IntegrableOn (fun t => ∑ j, c i * c j * A t i j) (Ioi 0) := fun i =>
    integrable_finsetSum _ fun j _ => (hi i j).const_mul _
  refine ⟨integrable_finsetSum _ fun i _ => h1 i, ?_⟩
  rw [integral_finsetSum _ fun i _ => h1 i]
  refine Finset.sum_congr rfl fun i _ => ?_
  rw [integral_finsetSum _ fun j _ => (hi i j).const_mul _]
  exact Finset.sum_congr rfl fun j _ => (integral_const_mul _ _).symm

/-- Matérn-3/2, a mixture of `e^{-√(z + s)}` starting at the exponential. -/
theorem matern32_strict (d : Nat) :
    StrictRadial d fun z => (1 + Real.sqrt z) * Real.exp (-Real.sqrt z) := by
  intro m u c hu hc
  set Q : ℝ → ℝ := fun s => ∑ i, ∑ j, c i * c j * Real.exp (-Real.sqrt (‖u i - u j‖ ^ 2 + s)) with hQ
  obtain ⟨h1, h2⟩ := form_integral c
    (fun s i j => Real.exp (-Real.sqrt (‖u i - u j‖ ^ 2 + s)))
    fun i j => (matern_step (sq_nonneg _)).1
  have h0 : 0 < Q 0 := by
    have := exponential_strict d m u c hu hc
    simpa [radialForm, hQ] using this
  have hcont : Continuous Q := by
    refine continuous_finsetSum _ fun i _ => continuous_finsetSum _ fun j _ => ?_
    fun_prop
  obtain ⟨ε, hε, hball⟩ := Metric.eventually_nhds_iff.1
    (hcont.continuousAt.eventually (lt_mem_nhds h0))
  have hpos := integral_pos_of_near_zero h1
    (fun s hs => ((cnd_norm u).exp_sqrt (fun i j => sq_nonneg _) (le_of_lt hs)).2 c) hε
    fun s hs => hball (by rw [Real.dist_eq, sub_zero, abs_of_pos hs.1]; exact hs.2)
  rw [← h2] at hpos
  have e : radialForm (fun z => (1 + Real.sqrt z) * Real.exp (-Real.sqrt z)) u c
      = 1 / 2 * ∑ i, ∑ j, c i * c j *
        ∫ s in Ioi (0 : ℝ), Real.exp (-Real.sqrt (‖u i - u j‖ ^ 2 + s)) := by
    unfold radialForm
    rw [Finset.mul_sum]
    refine Finset.sum_congr rfl fun i _ => ?_
    rw [Finset.mul_sum]
    refine Finset.sum_congr rfl fun j _ => ?_
    rw [(matern_step (sq_nonneg _)).2]
    ring
  rw [e]
  linarith

/-- Rational quadratics, mixtures of Gaussians. -/
theorem rational_strict (d : Nat) {a p : ℝ} (ha : 0 < a) (hp : 0 < p) :
    StrictRadial d fun z => (a + z) ^ (-p) := by
  intro m u c hu hc
  have hr : ∀ i j, 0 < a + ‖u i - u j‖ ^ 2 := fun i j => by positivity
  have hint : ∀ i j, ∫ t in Ioi (0 : ℝ), t ^ (p - 1) * Real.exp (-((a + ‖u i - u j‖ ^ 2) * t)) =
      (1 / (a + ‖u i - u j‖ ^ 2)) ^ p * Real.Gamma p := fun i j =>
    Real.integral_rpow_mul_exp_neg_mul_Ioi hp (hr i j)
  have hG := Real.Gamma_pos_of_pos hp
  have hI : ∀ i j, IntegrableOn (fun t => t ^ (p - 1) * Real.exp (-((a + ‖u i - u j‖ ^ 2) * t)))
      (Ioi (0 : ℝ)) := by
    intro i j
    refine Integrable.of_integral_ne_zero ?_
    rw [hint]
    exact ne_of_gt (mul_pos (Real.rpow_pos_of_pos (one_div_pos.2 (hr i j)) _) hG)
  obtain ⟨h1, h2⟩ := form_integral c _ hI
  have hval : ∀ t, 0 < t →
      0 < ∑ i, ∑ j, c i * c j * (t ^ (p - 1) * Real.exp (-((a + ‖u i - u j‖ ^ 2) * t))) := by
    intro t ht
    have hs := gauss_strict d ht m u c hu hc
    have e : ∑ i, ∑ j, c i * c j * (t ^ (p - 1) * Real.exp (-((a + ‖u i - u j‖ ^ 2) * t)))
        = (t ^ (p - 1) * Real.exp (-(a * t))) *
          radialForm (fun z => Real.exp (-(t * z))) u c := by
      unfold radialForm
      rw [Finset.mul_sum]
      refine Finset.sum_congr rfl fun i _ => ?_
      rw [Finset.mul_sum]
      refine Finset.sum_congr rfl fun j _ => ?_
      rw [show -((a + ‖u i - u j‖ ^ 2) * t) = -(a * t) + -(t * ‖u i - u j‖ ^ 2) by ring,
        Real.exp_add]
      ring
    rw [e]
    exact mul_pos (mul_pos (Real.rpow_pos_of_pos ht _) (Real.exp_pos _)) hs
  have hpos := integral_pos_of_near_zero h1 (fun t ht => (hval t ht).le) one_pos
    fun t ht => hval t ht.1
  rw [← h2] at hpos
  have e : radialForm (fun z => (a + z) ^ (-p)) u c
      = (Real.Gamma p)⁻¹ * ∑ i, ∑ j, c i * c j *
        ∫ t in Ioi (0 : ℝ), t ^ (p - 1) * Real.exp (-((a + ‖u i - u j‖ ^ 2) * t)) := by
    unfold radialForm
    rw [Finset.mul_sum]
    refine Finset.sum_congr rfl fun i _ => ?_
    rw [Finset.mul_sum]
    refine Finset.sum_congr rfl fun j _ => ?_
    beta_reduce
    rw [hint, one_div, Real.inv_rpow (hr i j).le, Real.rpow_neg (hr i j).le]
    field_simp
  rw [e]
  exact mul_pos (inv_pos.2 hG) hpos

end Lfa

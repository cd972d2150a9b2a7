import Mathlib.Analysis.Matrix.Order
import Mathlib.Analysis.SpecialFunctions.ContinuousFunctionalCalculus.Rpow.IntegralRepresentation
import Mathlib.Analysis.SpecialFunctions.Complex.LogBounds
import Mathlib.Analysis.SpecialFunctions.Gamma.Basic
import Mathlib.MeasureTheory.Integral.IntegralEqImproper

/-!
# Positive semidefinite and conditionally negative definite arrays
-/

open scoped BigOperators Topology

namespace Lfa

section
variable {ι : Type} [Fintype ι]

/-- A symmetric array with a non-negative quadratic form. -/
def PSD (A : ι → ι → ℝ) : Prop :=
  (∀ i j, A i j = A j i) ∧ ∀ c : ι → ℝ, 0 ≤ ∑ i, ∑ j, c i * c j * A i j

/-- A symmetric array whose quadratic form is non-positive on vectors summing to 0. -/
def CND (A : ι → ι → ℝ) : Prop :=
  (∀ i j, A i j = A j i) ∧ ∀ c : ι → ℝ, ∑ i, c i = 0 → ∑ i, ∑ j, c i * c j * A i j ≤ 0

theorem psd_iff (A : ι → ι → ℝ) : PSD A ↔ Matrix.PosSemidef (Matrix.of A) := by
  rw [Matrix.posSemidef_iff_dotProduct_mulVec]
  have e : ∀ c : ι → ℝ, dotProduct (star c) (Matrix.mulVec (Matrix.of A) c) =
      ∑ i, ∑ j, c i * c j * A i j := by
    intro c
    simp only [dotProduct, Matrix.mulVec, Finset.mul_sum, Matrix.of_apply]
    refine Finset.sum_congr rfl fun i _ => Finset.sum_congr rfl fun j _ => ?_
    simp only [Pi.star_apply, star_trivial]
    ring
  constructor
  · rintro ⟨hs, hq⟩
    refine ⟨?_, fun c => by rw [e]; exact hq c⟩
    ext i j
    simp [Matrix.conjTranspose, hs j i]
  · rintro ⟨hs, hq⟩
    refine ⟨fun i j => ?_, fun c => by rw [← e]; exact hq c⟩
    have := congrFun (congrFun hs i) j
    simpa [Matrix.conjTranspose] using this.symm

theorem PSD.mul {A B : ι → ι → ℝ} (hA : PSD A) (hB : PSD B) : PSD fun i j => A i j * B i j := by
  rw [psd_iff] at *
  exact hA.hadamard hB

theorem PSD.outer (a : ι → ℝ) : PSD fun i j => a i * a j := by
  refine ⟨fun i j => mul_comm _ _, fun c => ?_⟩
  have : ∑ i, ∑ j, c i * c j * (a i * a j) = (∑ i, c i * a i) ^ 2 := by
    rw [pow_two, Finset.sum_mul_sum]
    exact Finset.sum_congr rfl fun i _ => Finset.sum_congr rfl fun j _ => by ring
  rw [this]
  exact sq_nonneg _

theorem PSD.const {a : ℝ} (ha : 0 ≤ a) : PSD fun _ _ : ι => a := by
  have := PSD.outer fun _ : ι => Real.sqrt a
  simpa [Real.mul_self_sqrt ha] using this

theorem PSD.add {A B : ι → ι → ℝ} (hA : PSD A) (hB : PSD B) : PSD fun i j => A i j + B i j := by
  refine ⟨fun i j => by simp only [hA.1 i j, hB.1 i j], fun c => ?_⟩
  simp only [mul_add, Finset.sum_add_distrib]
  exact add_nonneg (hA.2 c) (hB.2 c)

theorem PSD.smul {A : ι → ι → ℝ} {a : ℝ} (ha : 0 ≤ a) (hA : PSD A) : PSD fun i j => a * A i j :=
  (PSD.const ha).mul hA

theorem PSD.pow {A : ι → ι → ℝ} (hA : PSD A) : ∀ n : ℕ, PSD fun i j => A i j ^ n
  | 0 => by simpa using PSD.const (ι := ι) zero_le_one
  | n + 1 => by simpa [pow_succ] using (hA.pow n).mul hA

theorem PSD.limit {A : ℕ → ι → ι → ℝ} {B : ι → ι → ℝ} (hA : ∀ n, PSD (A n))
    (h : ∀ i j, Filter.Tendsto (fun n => A n i j) Filter.atTop (𝓝 (B i j))) : PSD B := by
  refine ⟨fun i j => ?_, fun c => ?_⟩
  · refine tendsto_nhds_unique (h i j) ?_
    simpa only [(hA _).1 i j] using h j i
  · refine ge_of_tendsto' (f := fun n => ∑ i, ∑ j, c i * c j * A n i j) (x := Filter.atTop) ?_
      fun n => (hA n).2 c
    exact tendsto_finsetSum _ fun i _ => tendsto_finsetSum _ fun j _ => (h i j).const_mul _

/-- The entrywise exponential of a positive semidefinite array. -/
theorem PSD.exp {A : ι → ι → ℝ} (hA : PSD A) : PSD fun i j => Real.exp (A i j) := by
  refine PSD.limit (A := fun n i j => (1 + A i j / n) ^ n) (fun n => ?_)
    fun i j => Real.tendsto_one_add_div_pow_exp _
  refine PSD.pow ?_ n
  refine (PSD.const zero_le_one).add ?_
  have := hA.smul (a := 1 / (n : ℝ)) (by positivity)
  simpa [div_eq_inv_mul] using this

/-- Schoenberg: the entrywise exponential of the negative of a conditionally negative definite
array. -/
theorem CND.exp_neg {A : ι → ι → ℝ} (hA : CND A) : PSD fun i j => Real.exp (-A i j) := by
  classical
  rcases isEmpty_or_nonempty ι with he | ⟨⟨o⟩⟩
  · exact ⟨fun i => (he.false i).elim, fun c => by simp⟩
  have hφ : PSD fun i j => A i o + A j o - A i j - A o o := by
    refine ⟨fun i j => by simp only [hA.1 i j]; ring, fun c => ?_⟩
    set s := ∑ i, c i with hs
    have h0 : ∑ i, (c i - if i = o then s else 0) = 0 := by
      rw [Finset.sum_sub_distrib, Finset.sum_ite_eq' Finset.univ o]
      simp [hs]
    have := hA.2 _ h0
    have e : ∑ i, ∑ j, (c i - if i = o then s else 0) * (c j - if j = o then s else 0) * A i j =
        ∑ i, ∑ j, c i * c j * A i j - 2 * s * ∑ i, c i * A i o + s ^ 2 * A o o := by
      have e1 : ∀ i, ∑ j, (c i - if i = o then s else 0) * (c j - if j = o then s else 0) * A i j =
          (c i - if i = o then s else 0) * (∑ j, c j * A i j - s * A i o) := by
        intro i
        rw [mul_sub, Finset.mul_sum]
        have : ∀ j, (c i - if i = o then s else 0) * (c j - if j = o then s else 0) * A i j =
            (c i - if i = o then s else 0) * (c j * A i j) -
              if j = o then (c i - if i = o then s else 0) * (s * A i j) else 0 := by
          intro j
          split_ifs <;> ring
        simp only [this, Finset.sum_sub_distrib, Finset.sum_ite_eq', Finset.mem_univ, if_true]
      simp only [e1]
      have e2 : ∀ i, (c i - if i = o then s else 0) * (∑ j, c j * A i j - s * A i o) =
          c i * (∑ j, c j * A i j) - s * (c i * A i o) -
            if i = o then s * (∑ j, c j * A i j - s * A i o) else 0 := by
        intro i
        split_ifs <;> ring
      simp only [e2, Finset.sum_sub_distrib, Finset.sum_ite_eq', Finset.mem_univ, if_true,
        ← Finset.mul_sum]
      have e3 : ∑ j, c j * A o j = ∑ i, c i * A i o :=
        Finset.sum_congr rfl fun j _ => by rw [hA.1 o j]
      have e4 : ∑ i, c i * ∑ j, c j * A i j = ∑ i, ∑ j, c i * c j * A i j :=
        Finset.sum_congr rfl fun i _ => by
          rw [Finset.mul_sum]
          exact Finset.sum_congr rfl fun j _ => by ring
      rw [e3, e4]
      ring
    rw [e] at this
    have e5 : ∑ i, ∑ j, c i * c j * (A i o + A j o - A i j - A o o) =
        -(∑ i, ∑ j, c i * c j * A i j - 2 * s * ∑ i, c i * A i o + s ^ 2 * A o o) := by
      have f1 : ∀ i, ∑ j, c i * c j * (A i o + A j o - A i j - A o o) =
          s * (c i * A i o) + c i * (∑ j, c j * A j o) - ∑ j, c i * c j * A i j -
            s * A o o * c i := by
        intro i
        rw [hs, Finset.sum_mul, Finset.sum_mul, Finset.sum_mul, Finset.mul_sum,
          ← Finset.sum_add_distrib, ← Finset.sum_sub_distrib, ← Finset.sum_sub_distrib]
        exact Finset.sum_congr rfl fun j _ => by ring
      simp only [f1, Finset.sum_add_distrib, Finset.sum_sub_distrib, ← Finset.mul_sum,
        ← Finset.sum_mul]
      rw [← hs]
      ring
    rw [e5]
    linarith
  have := (PSD.outer fun i => Real.exp (-A i o + A o o / 2)).mul hφ.exp
  convert this using 3 with i j
  rw [← Real.exp_add, ← Real.exp_add]
  congr 1
  ring

/-- Squared Euclidean distances are conditionally negative definite. -/
theorem cnd_dist {d : ℕ} (u : ι → Fin d → ℝ) : CND fun i j => ∑ k, (u i k - u j k) ^ 2 := by
  refine ⟨fun i j => Finset.sum_congr rfl fun k _ => by ring, fun c hc => ?_⟩
  have e : ∑ i, ∑ j, c i * c j * ∑ k, (u i k - u j k) ^ 2 = ∑ k, -(2 * (∑ i, c i * u i k) ^ 2) := by
    have e1 : ∀ i j, c i * c j * ∑ k, (u i k - u j k) ^ 2 =
        ∑ k, (c i * u i k ^ 2 * c j + c i * (c j * u j k ^ 2) -
          2 * ((c i * u i k) * (c j * u j k))) := by
      intro i j
      rw [Finset.mul_sum]
      exact Finset.sum_congr rfl fun k _ => by ring
    simp only [e1]
    have e2 : ∀ i, ∑ j, ∑ k, (c i * u i k ^ 2 * c j + c i * (c j * u j k ^ 2) -
          2 * ((c i * u i k) * (c j * u j k))) = ∑ k, ∑ j, (c i * u i k ^ 2 * c j +
          c i * (c j * u j k ^ 2) - 2 * ((c i * u i k) * (c j * u j k))) :=
      fun i => Finset.sum_comm
    simp only [e2]
    rw [Finset.sum_comm]
    refine Finset.sum_congr rfl fun k _ => ?_
    simp only [Finset.sum_add_distrib, Finset.sum_sub_distrib, ← Finset.mul_sum, ← Finset.sum_mul,
      hc]
    ring
  rw [e]
  exact Finset.sum_nonpos fun k _ => by nlinarith [sq_nonneg (∑ i, c i * u i k)]

theorem CND.smul {A : ι → ι → ℝ} {a : ℝ} (ha : 0 ≤ a) (hA : CND A) : CND fun i j => a * A i j := by
  refine ⟨fun i j => by simp only [hA.1 i j], fun c hc => ?_⟩
  have : ∑ i, ∑ j, c i * c j * (a * A i j) = a * ∑ i, ∑ j, c i * c j * A i j := by
    rw [Finset.mul_sum]
    refine Finset.sum_congr rfl fun i _ => ?_
    rw [Finset.mul_sum]
    exact Finset.sum_congr rfl fun j _ => by ring
  rw [this]
  exact mul_nonpos_of_nonneg_of_nonpos ha (hA.2 c hc)

open MeasureTheory in
/-- Mixtures of positive semidefinite arrays. -/
theorem PSD.integral {A : ℝ → ι → ι → ℝ} {S : Set ℝ} (hS : MeasurableSet S)
    (hA : ∀ t ∈ S, PSD (A t)) (hi : ∀ i j, IntegrableOn (fun t => A t i j) S) :
    PSD fun i j => ∫ t in S, A t i j := by
  refine ⟨fun i j => setIntegral_congr_fun hS fun t ht => (hA t ht).1 i j, fun c => ?_⟩
  have e : ∑ i, ∑ j, c i * c j * ∫ t in S, A t i j =
      ∫ t in S, ∑ i, ∑ j, c i * c j * A t i j := by
    rw [integral_finsetSum _ fun i _ => ?_]
    · refine Finset.sum_congr rfl fun i _ => ?_
      rw [integral_finsetSum _ fun j _ => (hi i j).const_mul _]
      exact Finset.sum_congr rfl fun j _ => (integral_const_mul _ _).symm
    · exact integrable_finsetSum _ fun j _ => (hi i j).const_mul _
  rw [e]
  exact setIntegral_nonneg hS fun t ht => (hA t ht).2 c

/-! ## Functions of a conditionally negative definite array -/

open MeasureTheory Set

variable {D : ι → ι → ℝ}

theorem CND.exp_mul (hD : CND D) {t : ℝ} (ht : 0 ≤ t) : PSD fun i j => Real.exp (-(t * D i j)) :=
  (hD.smul ht).exp_neg

/-- Negative powers of a shifted array, as mixtures of exponentials. -/
theorem CND.rpow_neg (hD : CND D) (h0 : ∀ i j, 0 ≤ D i j) {a p : ℝ} (ha : 0 < a) (hp : 0 < p) :
    PSD fun i j => (a + D i j) ^ (-p) := by
  have hr : ∀ i j, 0 < a + D i j := fun i j => by linarith [h0 i j]
  have hint : ∀ i j, ∫ t in Ioi (0 : ℝ), t ^ (p - 1) * Real.exp (-((a + D i j) * t)) =
      (1 / (a + D i j)) ^ p * Real.Gamma p := fun i j =>
    Real.integral_rpow_mul_exp_neg_mul_Ioi hp (hr i j)
  have hI : ∀ i j, IntegrableOn (fun t => t ^ (p - 1) * Real.exp (-((a + D i j) * t)))
      (Ioi (0 : ℝ)) := by
    intro i j
    refine Integrable.of_integral_ne_zero ?_
    rw [hint]
    exact ne_of_gt (mul_pos (Real.rpow_pos_of_pos (one_div_pos.2 (hr i j)) _)
      (Real.Gamma_pos_of_pos hp))
  have := (PSD.integral (S := Ioi (0 : ℝ)) measurableSet_Ioi (fun t ht => ?_) hI).smul
    (inv_nonneg.2 (Real.Gamma_pos_of_pos hp).le)
  · convert this using 3 with i j
    rw [hint, mul_comm ((1 / (a + D i j)) ^ p), inv_mul_cancel_left₀
      (Real.Gamma_pos_of_pos hp).ne', one_div, Real.inv_rpow (hr i j).le, Real.rpow_neg (hr i j).le]
  · have h1 := (hD.exp_mul (le_of_lt ht)).smul (a := t ^ (p - 1) * Real.exp (-(a * t)))
      (by have := Real.rpow_nonneg (le_of_lt ht) (p - 1); positivity)
    convert h1 using 3 with i j
    rw [mul_assoc, ← Real.exp_add]
    congr 2
    ring

theorem CND.inv (hD : CND D) (h0 : ∀ i j, 0 ≤ D i j) {a : ℝ} (ha : 0 < a) :
    PSD fun i j => (a + D i j)⁻¹ := by
  simpa [Real.rpow_neg_one] using hD.rpow_neg h0 ha one_pos

/-- Square roots of a shifted array, as mixtures of `t⁻¹ - (t + x)⁻¹`. -/
theorem CND.sqrt (hD : CND D) (h0 : ∀ i j, 0 ≤ D i j) {s : ℝ} (hs : 0 ≤ s) :
    CND fun i j => Real.sqrt (D i j + s) := by
  have hhalf : (1 / 2 : ℝ) ∈ Ioo (0 : ℝ) 1 := by constructor <;> norm_num
  have hpos : ∀ i j, 0 ≤ D i j + s := fun i j => add_nonneg (h0 i j) hs
  refine ⟨fun i j => by simp only [hD.1 i j], fun c hc => ?_⟩
  set C := ∫ t in Ioi (0 : ℝ), Real.rpowIntegrand₀₁ (1 / 2) t 1 with hC
  have hCpos : 0 < C := Real.integral_rpowIntegrand₀₁_one_pos hhalf
  have e : ∑ i, ∑ j, c i * c j * Real.sqrt (D i j + s) =
      C⁻¹ * ∫ t in Ioi (0 : ℝ), ∑ i, ∑ j, c i * c j * Real.rpowIntegrand₀₁ (1 / 2) t (D i j + s) := by
    have hI : ∀ i j, IntegrableOn (fun t => Real.rpowIntegrand₀₁ (1 / 2) t (D i j + s))
        (Ioi (0 : ℝ)) := fun i j => Real.integrableOn_rpowIntegrand₀₁_Ioi hhalf (hpos i j)
    rw [integral_finsetSum _ fun i _ => integrable_finsetSum _ fun j _ => (hI i j).const_mul _,
      Finset.mul_sum]
    refine Finset.sum_congr rfl fun i _ => ?_
    rw [integral_finsetSum _ fun j _ => (hI i j).const_mul _, Finset.mul_sum]
    refine Finset.sum_congr rfl fun j _ => ?_
    rw [integral_const_mul, Real.sqrt_eq_rpow, Real.rpow_eq_const_mul_integral hhalf (hpos i j)]
    ring
  rw [e]
  refine mul_nonpos_of_nonneg_of_nonpos (inv_nonneg.2 hCpos.le) ?_
  refine setIntegral_nonpos measurableSet_Ioi fun t ht => ?_
  have ht : 0 < t := ht
  have hq := (hD.inv h0 (add_pos_of_pos_of_nonneg ht hs)).2 c
  have e2 : ∑ i, ∑ j, c i * c j * Real.rpowIntegrand₀₁ (1 / 2) t (D i j + s) =
      -(t ^ (1 / 2 : ℝ) * ∑ i, ∑ j, c i * c j * (t + s + D i j)⁻¹) := by
    have e3 : ∀ i, ∑ j, c i * c j * Real.rpowIntegrand₀₁ (1 / 2) t (D i j + s) =
        t ^ (1 / 2 : ℝ) * t⁻¹ * (∑ j, c j) * c i -
          t ^ (1 / 2 : ℝ) * ∑ j, c i * c j * (t + s + D i j)⁻¹ := by
      intro i
      rw [Finset.mul_sum, Finset.mul_sum, Finset.sum_mul, ← Finset.sum_sub_distrib]
      refine Finset.sum_congr rfl fun j _ => ?_
      rw [Real.rpowIntegrand₀₁, show t + (D i j + s) = t + s + D i j by ring]
      ring
    simp only [e3, hc, mul_zero, zero_mul, zero_sub, Finset.sum_neg_distrib, ← Finset.mul_sum]
  rw [e2]
  exact neg_nonpos.2 (mul_nonneg (Real.rpow_nonneg ht.le _) hq)

theorem CND.exp_sqrt (hD : CND D) (h0 : ∀ i j, 0 ≤ D i j) {s : ℝ} (hs : 0 ≤ s) :
    PSD fun i j => Real.exp (-Real.sqrt (D i j + s)) := (hD.sqrt h0 hs).exp_neg

/-! ### Matérn profiles as mixtures -/

theorem tendsto_sqrt_add (z : ℝ) :
    Filter.Tendsto (fun s => Real.sqrt (z + s)) Filter.atTop Filter.atTop :=
  Real.tendsto_sqrt_atTop.comp (Filter.tendsto_atTop_add_const_left _ _ Filter.tendsto_id)

theorem hasDerivAt_sqrt_add {z s : ℝ} (h : 0 < z + s) :
    HasDerivAt (fun s => Real.sqrt (z + s)) (1 / (2 * Real.sqrt (z + s))) s :=
  (((hasDerivAt_id s).const_add z).sqrt (ne_of_gt h))

/-- `(1 + √z) e^{-√z}` as a mixture of `e^{-√(z + s)}`. -/
theorem matern_step {z : ℝ} (hz : 0 ≤ z) :
    IntegrableOn (fun s => Real.exp (-Real.sqrt (z + s))) (Ioi 0) ∧
      ∫ s in Ioi (0 : ℝ), Real.exp (-Real.sqrt (z + s)) =
        2 * ((1 + Real.sqrt z) * Real.exp (-Real.sqrt z)) := by
  set g : ℝ → ℝ := fun s => -(2 * ((1 + Real.sqrt (z + s)) * Real.exp (-Real.sqrt (z + s)))) with hg
  have hcont : ContinuousWithinAt g (Ici 0) 0 := by
    apply Continuous.continuousWithinAt
    fun_prop
  have hder : ∀ s ∈ Ioi (0 : ℝ), HasDerivAt g (Real.exp (-Real.sqrt (z + s))) s := by
    intro s hs
    have hp : 0 < z + s := by have : 0 < s := hs; linarith
    have hv := hasDerivAt_sqrt_add hp
    have hsq := Real.sqrt_pos.2 hp
    refine HasDerivAt.congr_deriv (f := g) (((hv.const_add 1).mul hv.neg.exp).const_mul 2).neg ?_
    show -(2 * (1 / (2 * Real.sqrt (z + s)) * Real.exp (-Real.sqrt (z + s)) +
      (1 + Real.sqrt (z + s)) *
        (Real.exp (-Real.sqrt (z + s)) * -(1 / (2 * Real.sqrt (z + s)))))) = _
    field_simp
    ring
  have hlim : Filter.Tendsto g Filter.atTop (𝓝 0) := by
    have h1 : Filter.Tendsto (fun v : ℝ => (1 + v) * Real.exp (-v)) Filter.atTop (𝓝 0) := by
      have a := Real.tendsto_pow_mul_exp_neg_atTop_nhds_zero 0
      have b := Real.tendsto_pow_mul_exp_neg_atTop_nhds_zero 1
      have := a.add b
      simpa [add_mul] using this
    have := ((h1.comp (tendsto_sqrt_add z)).const_mul 2).neg
    simpa [hg, Function.comp] using this
  have hnn : ∀ s ∈ Ioi (0 : ℝ), 0 ≤ Real.exp (-Real.sqrt (z + s)) := fun s _ => (Real.exp_pos _).le
  refine ⟨integrableOn_Ioi_deriv_of_nonneg hcont hder hnn hlim, ?_⟩
  rw [integral_Ioi_of_hasDerivAt_of_nonneg hcont hder hnn hlim]
  simp [hg]

/-- `(3 + 3√z + z) e^{-√z}` as a mixture of `(1 + √(z + s)) e^{-√(z + s)}`. -/
theorem matern_step_two {z : ℝ} (hz : 0 ≤ z) :
    IntegrableOn (fun s => (1 + Real.sqrt (z + s)) * Real.exp (-Real.sqrt (z + s))) (Ioi 0) ∧
      ∫ s in Ioi (0 : ℝ), (1 + Real.sqrt (z + s)) * Real.exp (-Real.sqrt (z + s)) =
        2 * ((3 + 3 * Real.sqrt z + Real.sqrt z ^ 2) * Real.exp (-Real.sqrt z)) := by
  set g : ℝ → ℝ := fun s => -(2 * ((3 + 3 * Real.sqrt (z + s) + Real.sqrt (z + s) ^ 2) *
    Real.exp (-Real.sqrt (z + s)))) with hg
  have hcont : ContinuousWithinAt g (Ici 0) 0 := by
    apply Continuous.continuousWithinAt
    fun_prop
  have hder : ∀ s ∈ Ioi (0 : ℝ),
      HasDerivAt g ((1 + Real.sqrt (z + s)) * Real.exp (-Real.sqrt (z + s))) s := by
    intro s hs
    have hp : 0 < z + s := by have : 0 < s := hs; linarith
    have hv := hasDerivAt_sqrt_add hp
    have hsq := Real.sqrt_pos.2 hp
    refine HasDerivAt.congr_deriv (f := g)
      (((((hv.const_mul 3).const_add 3).add (hv.pow 2)).mul hv.neg.exp).const_mul 2).neg ?_
    show -(2 * ((3 * (1 / (2 * Real.sqrt (z + s))) + ((2 : ℕ) : ℝ) * Real.sqrt (z + s) ^ (2 - 1) *
      (1 / (2 * Real.sqrt (z + s)))) * Real.exp (-Real.sqrt (z + s)) +
      (3 + 3 * Real.sqrt (z + s) + Real.sqrt (z + s) ^ 2) *
        (Real.exp (-Real.sqrt (z + s)) * -(1 / (2 * Real.sqrt (z + s)))))) = _
    rw [pow_one, Nat.cast_ofNat]
    field_simp
    ring
  have hlim : Filter.Tendsto g Filter.atTop (𝓝 0) := by
    have h1 : Filter.Tendsto (fun v : ℝ => (3 + 3 * v + v ^ 2) * Real.exp (-v)) Filter.atTop
        (𝓝 0) := by
      have a := (Real.tendsto_pow_mul_exp_neg_atTop_nhds_zero 0).const_mul 3
      have b := (Real.tendsto_pow_mul_exp_neg_atTop_nhds_zero 1).const_mul 3
      have c := Real.tendsto_pow_mul_exp_neg_atTop_nhds_zero 2
      have := (a.add b).add c
      simp only [mul_zero, add_zero] at this
      refine this.congr fun v => by ring
    have := ((h1.comp (tendsto_sqrt_add z)).const_mul 2).neg
    simpa [hg, Function.comp] using this
  have hnn : ∀ s ∈ Ioi (0 : ℝ), 0 ≤ (1 + Real.sqrt (z + s)) * Real.exp (-Real.sqrt (z + s)) :=
    fun s _ => by positivity
  refine ⟨integrableOn_Ioi_deriv_of_nonneg hcont hder hnn hlim, ?_⟩
  rw [integral_Ioi_of_hasDerivAt_of_nonneg hcont hder hnn hlim]
  simp [hg]

theorem CND.matern32 (hD : CND D) (h0 : ∀ i j, 0 ≤ D i j) {s : ℝ} (hs : 0 ≤ s) :
    PSD fun i j => (1 + Real.sqrt (D i j + s)) * Real.exp (-Real.sqrt (D i j + s)) := by
  have hz : ∀ i j, 0 ≤ D i j + s := fun i j => add_nonneg (h0 i j) hs
  have := (PSD.integral (S := Ioi (0 : ℝ)) (A := fun t i j => Real.exp (-Real.sqrt (D i j + s + t)))
    measurableSet_Ioi (fun t ht => ?_) fun i j => (matern_step (hz i j)).1).smul
    (a := 1 / 2) (by norm_num)
  · convert this using 3 with i j
    rw [(matern_step (hz i j)).2]
    ring
  · have ht : 0 < t := ht
    simpa [add_assoc] using hD.exp_sqrt h0 (add_nonneg hs ht.le)

theorem CND.matern52 (hD : CND D) (h0 : ∀ i j, 0 ≤ D i j) :
    PSD fun i j => (3 + 3 * Real.sqrt (D i j) + Real.sqrt (D i j) ^ 2) *
      Real.exp (-Real.sqrt (D i j)) := by
  have := (PSD.integral (S := Ioi (0 : ℝ)) (A := fun t i j => (1 + Real.sqrt (D i j + t)) *
    Real.exp (-Real.sqrt (D i j + t))) measurableSet_Ioi (fun t ht => hD.matern32 h0 (le_of_lt ht))
    fun i j => (matern_step_two (h0 i j)).1).smul (a := 1 / 2) (by norm_num)
  convert this using 3 with i j
  rw [(matern_step_two (h0 i j)).2]
  ring

end

end Lfa

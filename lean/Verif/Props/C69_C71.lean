import Verif.Proofs.Sequence
import Mathlib.Analysis.SpecificLimits.Basic
import Mathlib.Topology.Algebra.InfiniteSum.Real

/-!
# C69–C71: training on arbitrary sequences of examples

Exact arithmetic. `v` is an arbitrary reference weight vector, `r` its predictions; nothing is
assumed about how the examples arise.
-/

set_option linter.unusedSectionVars false

namespace Lfa

open Spec

section
variable {B I : Type} [Space B] [Basis B I ℝ]

theorem predicts_inner {b : B} {v : List ℝ} {x : I} {p : ℝ} {φ : Features ℝ}
    (h : Predicts b v x p) (hp : Basis.project b x = .ok (.ok φ)) : p = inner φ v := by
  obtain ⟨φ', h1, h2⟩ := h
  rw [hp] at h1
  cases h1
  rw [h2, inner_eq]

/-! ## C69 SGD noise robustness -/

/-- Training never fails: any list of inputs the basis accepts with features of the right size is a
session, whatever the targets. -/
theorem C69_session_exists (xs : List (I × ℝ)) : ∀ (fa : ScalarLFA B (SGD ℝ) ℝ),
    (∀ d ∈ xs, ∃ φ, Basis.project fa.basis d.1 = .ok (.ok φ) ∧ Fits fa.weights.length φ) →
    ∃ es fa', Session fa es fa' ∧ es.map (fun e => (e.input, e.target)) = xs := by
  induction xs with
  | nil => exact fun fa _ => ⟨[], fa, .nil fa, rfl⟩
  | cons d xs ih =>
    obtain ⟨x, y⟩ := d
    intro fa h
    obtain ⟨φ, hp, hf⟩ := h _ List.mem_cons_self
    obtain ⟨w', h1, h2, h3, h4, -⟩ := sgd_update hp hf y
    obtain ⟨es, fa', h5, h6⟩ := ih { fa with weights := w' } (fun d hd => by
      obtain ⟨φ, a, b⟩ := h d (List.mem_cons_of_mem _ hd)
      exact ⟨φ, a, by rw [h4]; exact b⟩)
    exact ⟨_, fa', .cons h1 h2 h3 h5, by rw [List.map_cons, h6]⟩

/-- While `lr ‖φ‖² ≤ 1`, the summed squared deviation of the predictions made *before* each update
from the predictions of any reference weights `v`, plus the final distance to `v`, is at most the
initial distance to `v` plus the summed squared deviation of the targets from `v`. -/
theorem C69_sgd_robust (v : List ℝ) (r : I → ℝ) (es : List (Example I ℝ)) :
    ∀ (fa fa' : ScalarLFA B (SGD ℝ) ℝ), Session fa es fa' → 0 < fa.optimiser.lr →
    (∀ e ∈ es, ∃ φ, Basis.project fa.basis e.input = .ok (.ok φ) ∧ Fits fa.weights.length φ ∧
      fa.optimiser.lr * normSq φ ≤ 1) →
    (∀ e ∈ es, Predicts fa.basis v e.input (r e.input)) →
    distSq fa.weights.length fa'.weights v / fa.optimiser.lr
        + (es.map fun e => (e.before - r e.input) ^ 2).sum
      ≤ distSq fa.weights.length fa.weights v / fa.optimiser.lr
        + (es.map fun e => (e.target - r e.input) ^ 2).sum := by
  induction es with
  | nil => intro fa fa' h _ _ _; cases h; exact le_rfl
  | cons e es ih =>
    intro fa fa' h hlr hx hr
    cases h with
    | @cons _ fa₁ _ x y p q _ hp hu hq t =>
      obtain ⟨φ, hφ, hf, hN⟩ := hx _ List.mem_cons_self
      obtain ⟨w', h1, h2, h3, h4, h5⟩ := sgd_update hφ hf y
      rw [hp] at h1; rw [hu] at h2
      cases h1; cases h2
      have := ih { fa with weights := w' } fa' t hlr
        (fun e he => by
          obtain ⟨φ, a, b, c⟩ := hx e (List.mem_cons_of_mem _ he)
          exact ⟨φ, a, by rw [h4]; exact b, c⟩)
        (fun e he => hr e (List.mem_cons_of_mem _ he))
      change distSq w'.length fa'.weights v / fa.optimiser.lr + _
        ≤ distSq w'.length w' v / fa.optimiser.lr + _ at this
      rw [h4, distSq_moved hf.2 h5] at this
      have hri := predicts_inner (hr _ List.mem_cons_self) hφ
      change r x = _ at hri
      simp only [List.map_cons, List.sum_cons]
      refine le_trans (add_le_add_right (a := (Spec.inner φ fa.weights - r x) ^ 2) this |>.trans' ?_) ?_
      · linarith
      · rw [← hri]
        generalize Spec.inner φ fa.weights = p at *
        have key : (distSq fa.weights.length fa.weights v
              - 2 * (fa.optimiser.lr * (y - p)) * (r x - p)
              + (fa.optimiser.lr * (y - p)) ^ 2 * normSq φ) / fa.optimiser.lr
            = distSq fa.weights.length fa.weights v / fa.optimiser.lr
              - 2 * (y - p) * (r x - p) + (y - p) ^ 2 * (fa.optimiser.lr * normSq φ) := by
          field_simp
        rw [key]
        have := mul_le_mul_of_nonneg_left hN (sq_nonneg (y - p))
        nlinarith

/-! ## C70 ISGD noise robustness for every learning rate -/

theorem C70_session_exists (xs : List (I × ℝ)) : ∀ (fa : ScalarLFA B (ISGD ℝ) ℝ),
    (∀ d ∈ xs, ∃ φ, Basis.project fa.basis d.1 = .ok (.ok φ) ∧ Fits fa.weights.length φ) →
    ∃ es fa', Session fa es fa' ∧ es.map (fun e => (e.input, e.target)) = xs := by
  induction xs with
  | nil => exact fun fa _ => ⟨[], fa, .nil fa, rfl⟩
  | cons d xs ih =>
    obtain ⟨x, y⟩ := d
    intro fa h
    obtain ⟨φ, hp, hf⟩ := h _ List.mem_cons_self
    obtain ⟨w', h1, h2, h3, h4, -⟩ := isgd_update hp hf y
    obtain ⟨es, fa', h5, h6⟩ := ih { fa with weights := w' } (fun d hd => by
      obtain ⟨φ, a, b⟩ := h d (List.mem_cons_of_mem _ hd)
      exact ⟨φ, a, by rw [h4]; exact b⟩)
    exact ⟨_, fa', .cons h1 h2 h3 h5, by rw [List.map_cons, h6]⟩

/-- For every `lr > 0` and features of any size, the same bound holds for the predictions made
*after* each update. -/
theorem C70_isgd_robust (v : List ℝ) (r : I → ℝ) (es : List (Example I ℝ)) :
    ∀ (fa fa' : ScalarLFA B (ISGD ℝ) ℝ), Session fa es fa' → 0 < fa.optimiser.lr →
    (∀ e ∈ es, ∃ φ, Basis.project fa.basis e.input = .ok (.ok φ) ∧ Fits fa.weights.length φ) →
    (∀ e ∈ es, Predicts fa.basis v e.input (r e.input)) →
    distSq fa.weights.length fa'.weights v / fa.optimiser.lr
        + (es.map fun e => (e.after - r e.input) ^ 2).sum
      ≤ distSq fa.weights.length fa.weights v / fa.optimiser.lr
        + (es.map fun e => (e.target - r e.input) ^ 2).sum := by
  induction es with
  | nil => intro fa fa' h _ _ _; cases h; exact le_rfl
  | cons e es ih =>
    intro fa fa' h hlr hx hr
    cases h with
    | @cons _ fa₁ _ x y p q _ hp hu hq t =>
      obtain ⟨φ, hφ, hf⟩ := hx _ List.mem_cons_self
      obtain ⟨w', h1, h2, h3, h4, h5⟩ := isgd_update hφ hf y
      rw [hp] at h1; rw [hu] at h2
      cases h1; cases h2
      change ScalarLFA.evaluate (LFA.mk fa.basis w' fa.optimiser) x = _ at hq
      rw [hq] at h3
      cases h3
      have := ih { fa with weights := w' } fa' t hlr
        (fun e he => by
          obtain ⟨φ, a, b⟩ := hx e (List.mem_cons_of_mem _ he)
          exact ⟨φ, a, by rw [h4]; exact b⟩)
        (fun e he => hr e (List.mem_cons_of_mem _ he))
      change distSq w'.length fa'.weights v / fa.optimiser.lr + _
        ≤ distSq w'.length w' v / fa.optimiser.lr + _ at this
      have hN := normSq_nonneg φ
      have hD : 0 < 1 + fa.optimiser.lr * normSq φ := by positivity
      rw [h4, distSq_moved hf.2 h5] at this
      have hq' := inner_moved hf.2 h5
      have hri := predicts_inner (hr _ List.mem_cons_self) hφ
      change r x = _ at hri
      simp only [List.map_cons, List.sum_cons]
      rw [hq']
      rw [← hri] at this
      generalize Spec.inner φ fa.weights = p at *
      generalize normSq φ = N at *
      generalize fa.optimiser.lr = lr at *
      generalize distSq fa.weights.length fa.weights v = D at *
      set s := (y - p) / (1 + lr * N) with hs
      have e1 : y - p = s * (1 + lr * N) := by rw [hs]; field_simp
      have e2 : lr / (1 + lr * N) * (y - p) = lr * s := by rw [hs]; ring
      rw [e2] at this ⊢
      have key : (D - 2 * (lr * s) * (r x - p) + (lr * s) ^ 2 * N) / lr
          = D / lr - 2 * s * (r x - p) + lr * s ^ 2 * N := by field_simp
      rw [key] at this
      have hy : y = p + s * (1 + lr * N) := by linarith
      have h0 : 0 ≤ lr * N * s ^ 2 := by positivity
      rw [hy]
      nlinarith [sq_nonneg s]

/-! ## C71 Realisable data is learnt from any sequence of inputs -/

theorem summable_of_decrease {D e : Nat → ℝ} {a : ℝ} (ha : 0 < a) (hD : ∀ k, 0 ≤ D k)
    (h : ∀ k, D (k + 1) ≤ D k - a * e k ^ 2) :
    Summable (fun k => e k ^ 2) ∧ ∑' k, e k ^ 2 ≤ D 0 / a ∧
      Filter.Tendsto e Filter.atTop (nhds 0) := by
  have hs : ∀ n, ∑ k ∈ Finset.range n, e k ^ 2 ≤ (D 0 - D n) / a := by
    intro n
    induction n with
    | zero => simp
    | succ n ih =>
      rw [Finset.sum_range_succ]
      have := h n
      have : e n ^ 2 ≤ (D n - D (n + 1)) / a := by
        rw [le_div_iff₀ ha]; linarith
      calc _ ≤ (D 0 - D n) / a + (D n - D (n + 1)) / a := add_le_add ih this
        _ = _ := by ring
  have hb : ∀ n, ∑ k ∈ Finset.range n, e k ^ 2 ≤ D 0 / a := fun n =>
    (hs n).trans (div_le_div_of_nonneg_right (by linarith [hD n]) ha.le)
  have hsum := summable_of_sum_range_le (fun k => sq_nonneg (e k)) hb
  refine ⟨hsum, Real.tsum_le_of_sum_range_le (fun k => sq_nonneg (e k)) hb, ?_⟩
  have := hsum.tendsto_atTop_zero
  have h2 := (Real.continuous_sqrt.tendsto 0).comp this
  rw [Real.sqrt_zero] at h2
  refine (tendsto_zero_iff_abs_tendsto_zero e).2 (h2.congr fun k => ?_)
  exact Real.sqrt_sq_eq_abs (e k)

/-- SGD with a target some weights `v` achieve: the squared distance to `v` falls by exactly
`lr (2 - lr ‖φ‖²)` times the squared residual. -/
theorem C71_sgd_distance (fa fa' : ScalarLFA B (SGD ℝ) ℝ) (x : I) (φ : Features ℝ) (y p : ℝ)
    (v : List ℝ) (hφ : Basis.project fa.basis x = .ok (.ok φ)) (hf : Fits fa.weights.length φ)
    (hv : Predicts fa.basis v x y) (hp : fa.evaluate x = .ok (.ok p))
    (hu : fa.updateWith x (fun _ p => y - p) = .ok (.ok (), fa')) :
    distSq fa.weights.length fa'.weights v = distSq fa.weights.length fa.weights v
      - fa.optimiser.lr * (2 - fa.optimiser.lr * normSq φ) * (y - p) ^ 2 := by
  obtain ⟨w', h1, h2, -, -, h5⟩ := sgd_update hφ hf y
  rw [hp] at h1
  cases h1
  have h2' := hu.symm.trans h2
  cases h2'
  rw [distSq_moved hf.2 h5, ← predicts_inner hv hφ]
  ring

/-- Hence it never increases while `0 ≤ lr ‖φ‖² ≤ 2`. -/
theorem C71_sgd_monotone (fa fa' : ScalarLFA B (SGD ℝ) ℝ) (x : I) (φ : Features ℝ) (y : ℝ)
    (v : List ℝ) (hφ : Basis.project fa.basis x = .ok (.ok φ)) (hf : Fits fa.weights.length φ)
    (hv : Predicts fa.basis v x y) (hlr : 0 ≤ fa.optimiser.lr)
    (hN : fa.optimiser.lr * normSq φ ≤ 2)
    (hu : fa.updateWith x (fun _ p => y - p) = .ok (.ok (), fa')) :
    distSq fa.weights.length fa'.weights v ≤ distSq fa.weights.length fa.weights v := by
  rw [C71_sgd_distance fa fa' x φ y _ v hφ hf hv (evaluate_eq hφ (dot_real hf.1 hf.2)) hu]
  have := mul_nonneg (mul_nonneg hlr (sub_nonneg.2 hN)) (sq_nonneg (y - Spec.inner φ fa.weights))
  linarith

/-- Along any endless sequence of inputs with `lr ‖φ‖² ≤ c < 2` and targets that some weights `v`
achieve, the residuals before each update are square-summable (with an explicit bound) and tend
to zero. -/
theorem C71_sgd_converges (fas : Nat → ScalarLFA B (SGD ℝ) ℝ) (xs : Nat → I) (ys ps : Nat → ℝ)
    (h : Stream fas xs ys ps) (v : List ℝ) (c : ℝ) (hc : c < 2) (hlr : 0 < (fas 0).optimiser.lr)
    (hx : ∀ k, ∃ φ, Basis.project (fas 0).basis (xs k) = .ok (.ok φ) ∧
      Fits (fas 0).weights.length φ ∧ (fas 0).optimiser.lr * normSq φ ≤ c)
    (hv : ∀ k, Predicts (fas 0).basis v (xs k) (ys k)) :
    Summable (fun k => (ys k - ps k) ^ 2) ∧
      ∑' k, (ys k - ps k) ^ 2
        ≤ distSq (fas 0).weights.length (fas 0).weights v / ((fas 0).optimiser.lr * (2 - c)) ∧
      Filter.Tendsto (fun k => ys k - ps k) Filter.atTop (nhds 0) := by
  have inv : ∀ k, (fas k).basis = (fas 0).basis ∧ (fas k).optimiser = (fas 0).optimiser ∧
      (fas k).weights.length = (fas 0).weights.length := by
    intro k
    induction k with
    | zero => exact ⟨rfl, rfl, rfl⟩
    | succ k ih =>
      obtain ⟨h1, h2, h3⟩ := ih
      obtain ⟨φ, hφ, hf, -⟩ := hx k
      obtain ⟨w', -, s2, -, s4, -⟩ := sgd_update (fa := fas k) (by rw [h1]; exact hφ)
        (by rw [h3]; exact hf) (ys k)
      rw [h.updates k] at s2
      injection s2 with s2
      injection s2 with _ s2
      rw [s2]
      exact ⟨h1, h2, s4.trans h3⟩
  refine summable_of_decrease (D := fun k => distSq (fas 0).weights.length (fas k).weights v)
    (mul_pos hlr (sub_pos.2 hc)) (fun k => distSq_nonneg _ _ _) fun k => ?_
  obtain ⟨φ, hφ, hf, hN⟩ := hx k
  obtain ⟨h1, h2, h3⟩ := inv k
  have := C71_sgd_distance (fas k) (fas (k + 1)) (xs k) φ (ys k) (ps k) v (by rw [h1]; exact hφ)
    (by rw [h3]; exact hf) (by rw [h1]; exact hv k) (h.predicts k) (h.updates k)
  rw [h3, h2] at this
  rw [this]
  have h4 : (2 - c) ≤ 2 - (fas 0).optimiser.lr * normSq φ := by linarith
  have := mul_le_mul_of_nonneg_right (mul_le_mul_of_nonneg_left h4 hlr.le)
    (sq_nonneg (ys k - ps k))
  linarith

/-- ISGD: for every `lr > 0` the squared distance to weights `v` achieving the target falls by at
least `lr / (1 + lr ‖φ‖²)` times the squared residual. -/
theorem C71_isgd_distance (fa fa' : ScalarLFA B (ISGD ℝ) ℝ) (x : I) (φ : Features ℝ) (y p : ℝ)
    (v : List ℝ) (hφ : Basis.project fa.basis x = .ok (.ok φ)) (hf : Fits fa.weights.length φ)
    (hv : Predicts fa.basis v x y) (hlr : 0 < fa.optimiser.lr) (hp : fa.evaluate x = .ok (.ok p))
    (hu : fa.updateWith x (fun _ p => y - p) = .ok (.ok (), fa')) :
    distSq fa.weights.length fa'.weights v ≤ distSq fa.weights.length fa.weights v
      - fa.optimiser.lr / (1 + fa.optimiser.lr * normSq φ) * (y - p) ^ 2 := by
  obtain ⟨w', h1, h2, -, -, h5⟩ := isgd_update hφ hf y
  rw [hp] at h1
  cases h1
  have h2' := hu.symm.trans h2
  cases h2'
  rw [distSq_moved hf.2 h5, ← predicts_inner hv hφ]
  have hN := normSq_nonneg φ
  have hD : 0 < 1 + fa.optimiser.lr * normSq φ := by positivity
  set m := fa.optimiser.lr / (1 + fa.optimiser.lr * normSq φ) with hm
  have hm0 : 0 ≤ m := (div_pos hlr hD).le
  have hm1 : m * normSq φ ≤ 1 := by
    rw [hm, div_mul_eq_mul_div, div_le_one hD]; linarith
  have := mul_le_mul_of_nonneg_left hm1 (mul_nonneg hm0 (sq_nonneg (y - Spec.inner φ fa.weights)))
  nlinarith

/-- Along any endless sequence of inputs with bounded features and targets that some weights `v`
achieve, ISGD with any `lr > 0` has square-summable residuals, which tend to zero. -/
theorem C71_isgd_converges (fas : Nat → ScalarLFA B (ISGD ℝ) ℝ) (xs : Nat → I) (ys ps : Nat → ℝ)
    (h : Stream fas xs ys ps) (v : List ℝ) (M : ℝ) (hlr : 0 < (fas 0).optimiser.lr)
    (hx : ∀ k, ∃ φ, Basis.project (fas 0).basis (xs k) = .ok (.ok φ) ∧
      Fits (fas 0).weights.length φ ∧ normSq φ ≤ M)
    (hv : ∀ k, Predicts (fas 0).basis v (xs k) (ys k)) :
    Summable (fun k => (ys k - ps k) ^ 2) ∧
      ∑' k, (ys k - ps k) ^ 2 ≤ distSq (fas 0).weights.length (fas 0).weights v
        / ((fas 0).optimiser.lr / (1 + (fas 0).optimiser.lr * M)) ∧
      Filter.Tendsto (fun k => ys k - ps k) Filter.atTop (nhds 0) := by
  have inv : ∀ k, (fas k).basis = (fas 0).basis ∧ (fas k).optimiser = (fas 0).optimiser ∧
      (fas k).weights.length = (fas 0).weights.length := by
    intro k
    induction k with
    | zero => exact ⟨rfl, rfl, rfl⟩
    | succ k ih =>
      obtain ⟨h1, h2, h3⟩ := ih
      obtain ⟨φ, hφ, hf, -⟩ := hx k
      obtain ⟨w', -, s2, -, s4, -⟩ := isgd_update (fa := fas k) (by rw [h1]; exact hφ)
        (by rw [h3]; exact hf) (ys k)
      rw [h.updates k] at s2
      injection s2 with s2
      injection s2 with _ s2
      rw [s2]
      exact ⟨h1, h2, s4.trans h3⟩
  have hM : 0 ≤ M := by
    obtain ⟨φ, -, -, hN⟩ := hx 0
    exact (normSq_nonneg φ).trans hN
  have hD : 0 < 1 + (fas 0).optimiser.lr * M := by positivity
  refine summable_of_decrease (D := fun k => distSq (fas 0).weights.length (fas k).weights v)
    (div_pos hlr hD) (fun k => distSq_nonneg _ _ _) fun k => ?_
  obtain ⟨φ, hφ, hf, hN⟩ := hx k
  obtain ⟨h1, h2, h3⟩ := inv k
  have := C71_isgd_distance (fas k) (fas (k + 1)) (xs k) φ (ys k) (ps k) v (by rw [h1]; exact hφ)
    (by rw [h3]; exact hf) (by rw [h1]; exact hv k) (by rw [h2]; exact hlr) (h.predicts k)
    (h.updates k)
  rw [h3, h2] at this
  refine this.trans ?_
  have hN0 := normSq_nonneg φ
  have h4 : (fas 0).optimiser.lr / (1 + (fas 0).optimiser.lr * M)
      ≤ (fas 0).optimiser.lr / (1 + (fas 0).optimiser.lr * normSq φ) := by
    apply div_le_div_of_nonneg_left hlr.le (by positivity)
    have := mul_le_mul_of_nonneg_left hN hlr.le
    linarith
  have := mul_le_mul_of_nonneg_right h4 (sq_nonneg (ys k - ps k))
  linarith

end

/-! ### Concrete cases -/

/-- The features `(1, x)`. -/
noncomputable def line : Closure ℝ ℝ := ⟨2, fun x => .ok (.ok (.dense [1, x]))⟩

theorem line_fits (x : ℝ) : Basis.project line x = .ok (.ok (.dense [1, x])) ∧
    Fits 2 (.dense [1, x]) ∧ normSq (.dense [1, x]) = 1 + x ^ 2 := by
  refine ⟨rfl, ⟨trivial, rfl⟩, ?_⟩
  show ∑ i ∈ Finset.range 2, _ = _
  rw [Finset.sum_range_succ, Finset.sum_range_one]
  show (1 : ℝ) * 1 + x * x = _
  ring

/-- The hypotheses of C69 and C71 on the inputs, with `lr = 1/4` and inputs in `[-1, 1]`. -/
example (x : ℝ) (hx : |x| ≤ 1) : ∃ φ, Basis.project line x = .ok (.ok φ) ∧
    Fits ([0, 0] : List ℝ).length φ ∧ (1 / 4 : ℝ) * normSq φ ≤ 1 := by
  refine ⟨_, (line_fits x).1, (line_fits x).2.1, ?_⟩
  rw [(line_fits x).2.2]
  have := (sq_le_one_iff_abs_le_one x).2 hx
  linarith

/-- The line `3 - 2x` is the reference. -/
example (x : ℝ) : Predicts line [3, -2] x (3 - 2 * x) := by
  refine ⟨_, (line_fits x).1, ?_⟩
  show _ = ∑ i ∈ Finset.range 2, _
  rw [Finset.sum_range_succ, Finset.sum_range_one]
  show _ = (1 : ℝ) * 3 + x * -2
  ring

/-- A session on two noisy examples exists. -/
example : ∃ es fa', Session (LFA.mk line [0, 0] (SGD.mk (1 / 4)) : ScalarLFA _ (SGD ℝ) ℝ) es fa' ∧
    es.map (fun e => (e.input, e.target)) = [((1 : ℝ), (1.5 : ℝ)), (-1, 4)] :=
  C69_session_exists _ _ fun d _ => ⟨_, (line_fits d.1).1, (line_fits d.1).2.1⟩

example : ∃ es fa', Session (LFA.mk line [0, 0] (ISGD.mk 100) : ScalarLFA _ (ISGD ℝ) ℝ) es fa' ∧
    es.map (fun e => (e.input, e.target)) = [((1 : ℝ), (1.5 : ℝ)), (-1, 4)] :=
  C70_session_exists _ _ fun d _ => ⟨_, (line_fits d.1).1, (line_fits d.1).2.1⟩

end Lfa

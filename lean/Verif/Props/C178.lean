import Verif.Proofs.Order
import Verif.Props.C103_C104
import Mathlib.Probability.BorelCantelli
import Mathlib.Probability.Distributions.Uniform
import Mathlib.Analysis.InnerProductSpace.Projection.Basic
import Verif.Props.C158_C160

/-!
# C178: examples in any order

Exact arithmetic. The examples are a finite set that some weights fit; `σ k` is the example of call `k`.
-/

set_option linter.unusedSectionVars false

namespace Lfa

open Spec Filter Topology MeasureTheory ProbabilityTheory

/-- The calls fall into epochs `[t j, t (j + 1))`, each of which contains every example at least once. -/
def Spec.Epochs {ι : Type} (σ : ℕ → ι) (t : ℕ → ℕ) : Prop :=
  Monotone t ∧ ∀ j i, ∃ k, t j ≤ k ∧ k < t (j + 1) ∧ σ k = i

section
variable {B I O ι : Type} [Space B] [Basis B I ℝ] [Optimiser O ℝ]

theorem order_training [Finite ι] {b : B} {o : O} {n : Nat} {rate : Features ℝ → ℝ} {xs : ι → I}
    (ht : ∀ X : I → Prop, TrainsBy b o n rate X)
    (hx : ∀ i, ∃ φ, Basis.project b (xs i) = .ok (.ok φ) ∧ Fits n φ ∧ 0 < rate φ ∧ rate φ * normSq φ < 2) :
    ∃ r : ℝ, 0 ≤ r ∧ r < 1 ∧ ∀ ys : ι → ℝ, (∃ s, ∀ i, Predicts b s (xs i) (ys i)) → ∀ w : List ℝ, w.length = n →
      ∃ v : List ℝ, v.length = n ∧ (∀ i, Predicts b v (xs i) (ys i)) ∧
        (∀ s, (∀ i, Predicts b s (xs i) (ys i)) → distSq n w s = distSq n w v + distSq n v s) ∧
        ∀ (σ : ℕ → ι) (fas : ℕ → ScalarLFA B O ℝ) (ps : ℕ → ℝ),
          Stream fas (fun k => xs (σ k)) (fun k => ys (σ k)) ps → fas 0 = LFA.mk b w o →
          (∀ t, Epochs σ t → ∀ j, ∀ k ≥ t j, distSq n (fas k).weights v ≤ r ^ j * distSq n w v) ∧
          ((∀ i, ∃ᶠ k in atTop, σ k = i) → Tendsto (fun k => distSq n (fas k).weights v) atTop (𝓝 0)) := by
  choose φ hφ using hx
  set g : ι → EuclideanSpace ℝ (Fin n) := fun i => featurePoint n (φ i) with hg
  have hst : ∀ i, 0 < rate (φ i) ∧ rate (φ i) * ‖g i‖ ^ 2 < 2 := fun i => by
    rw [hg]
    simp only
    rw [point_normSq (hφ i).2.1.2]
    exact (hφ i).2.2
  obtain ⟨r, r0, r1, hr⟩ := Sweep.order_factor hst
  refine ⟨r ^ 2, sq_nonneg r, pow_lt_one₀ r0 r1 two_ne_zero, fun ys ⟨s, hs⟩ w hw => ?_⟩
  set V : Submodule ℝ (EuclideanSpace ℝ (Fin n)) := Submodule.span ℝ (Set.range g) with hV
  obtain ⟨p, hpV, q, hqV, hpq⟩ := V.exists_add_mem_mem_orthogonal (toPoint n w - toPoint n s)
  -- the limit
  set z : EuclideanSpace ℝ (Fin n) := toPoint n s + q with hz
  have hwz : toPoint n w - z = p := by rw [hz, ← sub_sub, hpq]; abel
  have gq : ∀ i, inner ℝ (g i) q = 0 := fun i =>
    (Submodule.mem_orthogonal _ _).1 hqV _ (Submodule.subset_span ⟨i, rfl⟩)
  have fit : ∀ s', (∀ i, Predicts b s' (xs i) (ys i)) → ∀ i, inner ℝ (g i) (toPoint n s') = ys i := fun s' h i => by
    rw [hg]
    simp only
    rw [point_inner (hφ i).2.1.2]
    exact (predicts_inner (h i) (hφ i).1).symm
  have hzfit : ∀ i, inner ℝ (g i) z = ys i := fun i => by rw [hz, inner_add_right, fit s hs, gq, add_zero]
  have hzp : toPoint n (List.ofFn z.ofLp) = z := toPoint_ofFn z
  refine ⟨List.ofFn z.ofLp, by simp, fun i => ⟨φ i, (hφ i).1, ?_⟩, fun s' hs' => ?_, fun σ fas ps hst' h0 => ?_⟩
  · have := hzfit i
    rw [← hzp] at this
    rw [← this, hg]
    simp only
    rw [point_inner (hφ i).2.1.2, inner_eq]
  · rw [← point_distSq, ← point_distSq, ← point_distSq, hzp]
    have orth : inner ℝ (toPoint n w - z) (z - toPoint n s') = 0 := by
      rw [hwz]
      refine Submodule.span_induction (p := fun u _ => inner ℝ u (z - toPoint n s') = 0) ?_ (inner_zero_left _) ?_ ?_ hpV
      · rintro _ ⟨i, rfl⟩
        rw [inner_sub_right, hzfit, fit s' hs', sub_self]
      · intro x y _ _ hx hy
        rw [inner_add_left, hx, hy, add_zero]
      · intro d x _ hx
        rw [inner_smul_left, hx, mul_zero]
    have e : toPoint n w - toPoint n s' = (toPoint n w - z) + (z - toPoint n s') := by abel
    rw [e, norm_add_sq_real, orth]
    ring
  · have hstay : ∀ k, Sweep.aff (fun k => rate (φ (σ k))) (fun k => g (σ k)) (fun k => ys (σ k)) z k = z := by
      intro k
      induction k with
      | zero => rfl
      | succ k ih =>
        show Sweep.aff _ _ _ z k + (_ * (_ - inner ℝ _ (Sweep.aff _ _ _ z k))) • _ = z
        rw [ih, hzfit, sub_self, mul_zero, zero_smul, add_zero]
    have hrun : ∀ k, toPoint n (fas k).weights - z = Sweep.run (fun k => rate (φ (σ k))) (fun k => g (σ k)) p k := by
      intro k
      obtain ⟨u, e1, -, -, e4⟩ := stream_point (ht _) (fun k => φ (σ k)) (fun k => ⟨(hφ (σ k)).1, (hφ (σ k)).2.1⟩) hst' hw h0 k
      rw [e1]
      show toPoint n u - z = _
      rw [e4, ← hwz, ← Sweep.aff_sub (y := fun k => ys (σ k)), hstay]
    have dec : ∀ t, Epochs σ t → ∀ j, ∀ k ≥ t j, distSq n (fas k).weights (List.ofFn z.ofLp) ≤
        (r ^ 2) ^ j * distSq n w (List.ofFn z.ofLp) := by
      intro t ht j k hk
      rw [← point_distSq, ← point_distSq, hzp, hrun, hwz, ← pow_mul, mul_comm 2, pow_mul, ← mul_pow]
      exact pow_le_pow_left₀ (norm_nonneg _) (Sweep.epochs_decay hst r0 hr σ t ht.2 ht.1 hpV j k hk) 2
    refine ⟨dec, fun hio => ?_⟩
    obtain ⟨t, -, t1, t2⟩ := Sweep.exists_epochs σ hio
    have h2 : Tendsto (fun j => (r ^ 2) ^ j * distSq n w (List.ofFn z.ofLp)) atTop (𝓝 0) := by
      have := (tendsto_pow_atTop_nhds_zero_of_lt_one (sq_nonneg r) (pow_lt_one₀ r0 r1 two_ne_zero)).mul_const
        (distSq n w (List.ofFn z.ofLp))
      rwa [zero_mul] at this
    rw [Metric.tendsto_atTop] at h2 ⊢
    intro ε hε
    obtain ⟨j, hj⟩ := h2 ε hε
    refine ⟨t j, fun k hk => ?_⟩
    have h3 := hj j le_rfl
    have h4 := dec t ⟨t1, t2⟩ j k hk
    have h5 : 0 ≤ distSq n (fas k).weights (List.ofFn z.ofLp) := by rw [← point_distSq]; positivity
    rw [Real.dist_eq, sub_zero] at h3 ⊢
    rw [abs_of_nonneg h5]
    exact h4.trans_lt ((le_abs_self _).trans_lt h3)

/-- Independent draws that pick every example with probabilities that do not add up to a finite sum pick it again and again. -/
theorem draws_often [Finite ι] [MeasurableSpace ι] [MeasurableSingletonClass ι] {Ω : Type} [MeasurableSpace Ω] {μ : Measure Ω}
    {S : ℕ → Ω → ι} (hm : ∀ k, Measurable (S k)) (hi : iIndepFun S μ) (hp : ∀ i, ∑' k, μ {ω | S k ω = i} = ⊤) :
    ∀ᵐ ω ∂μ, ∀ i, ∃ᶠ k in atTop, S k ω = i := by
  have := hi.isProbabilityMeasure
  rw [ae_all_iff]
  intro i
  have hms : ∀ k, MeasurableSet {ω | S k ω = i} := fun k => hm k (measurableSet_singleton i)
  have hs : iIndepSet (fun k => {ω | S k ω = i}) μ := by
    rw [iIndepSet_iff_meas_biInter hms]
    intro F
    exact (iIndepFun_iff_measure_inter_preimage_eq_mul.1 hi) F (sets := fun _ => {i}) fun _ _ => measurableSet_singleton i
  have h1 := measure_limsup_eq_one hms hs (hp i)
  have h2 := (prob_compl_eq_zero_iff (MeasurableSet.measurableSet_limsup hms)).2 h1
  rw [ae_iff]
  convert h2 using 2
  ext ω
  simp only [Set.mem_ofPred_eq, Set.mem_compl_iff, mem_limsup_iff_frequently_mem]

end

section
variable {B I ι : Type} [Space B] [Basis B I ℝ]

/-- SGD with `lr ‖φ‖² < 2` on a finite set of examples that some weights fit, whatever the order: there is one limit for all
orders, the fitting weights nearest to the initial ones. If every example keeps coming back, the weights converge to it. In each
epoch in which every example occurs, the squared distance shrinks by a factor `r < 1` that depends on neither the order, the
length of the epochs, the targets nor the initial weights. -/
theorem C178_sgd [Finite ι] (b : B) (n : Nat) (lr : ℝ) (hlr : 0 < lr) (xs : ι → I)
    (hx : ∀ i, ∃ φ, Basis.project b (xs i) = .ok (.ok φ) ∧ Fits n φ ∧ lr * normSq φ < 2) :
    ∃ r : ℝ, 0 ≤ r ∧ r < 1 ∧ ∀ ys : ι → ℝ, (∃ s, ∀ i, Predicts b s (xs i) (ys i)) → ∀ w : List ℝ, w.length = n →
      ∃ v : List ℝ, v.length = n ∧ (∀ i, Predicts b v (xs i) (ys i)) ∧
        (∀ s, (∀ i, Predicts b s (xs i) (ys i)) → distSq n w s = distSq n w v + distSq n v s) ∧
        ∀ (σ : ℕ → ι) (fas : ℕ → ScalarLFA B (SGD ℝ) ℝ) (ps : ℕ → ℝ),
          Stream fas (fun k => xs (σ k)) (fun k => ys (σ k)) ps → fas 0 = LFA.mk b w (SGD.mk lr) →
          (∀ t, Epochs σ t → ∀ j, ∀ k ≥ t j, distSq n (fas k).weights v ≤ r ^ j * distSq n w v) ∧
          ((∀ i, ∃ᶠ k in atTop, σ k = i) → Tendsto (fun k => distSq n (fas k).weights v) atTop (𝓝 0)) :=
  order_training (sgd_trainsBy b lr n) fun i => by
    obtain ⟨φ, h1, h2, h3⟩ := hx i
    exact ⟨φ, h1, h2, hlr, h3⟩

/-- ISGD does the same for every learning rate and features of any size. -/
theorem C178_isgd [Finite ι] (b : B) (n : Nat) (lr : ℝ) (hlr : 0 < lr) (xs : ι → I)
    (hx : ∀ i, ∃ φ, Basis.project b (xs i) = .ok (.ok φ) ∧ Fits n φ) :
    ∃ r : ℝ, 0 ≤ r ∧ r < 1 ∧ ∀ ys : ι → ℝ, (∃ s, ∀ i, Predicts b s (xs i) (ys i)) → ∀ w : List ℝ, w.length = n →
      ∃ v : List ℝ, v.length = n ∧ (∀ i, Predicts b v (xs i) (ys i)) ∧
        (∀ s, (∀ i, Predicts b s (xs i) (ys i)) → distSq n w s = distSq n w v + distSq n v s) ∧
        ∀ (σ : ℕ → ι) (fas : ℕ → ScalarLFA B (ISGD ℝ) ℝ) (ps : ℕ → ℝ),
          Stream fas (fun k => xs (σ k)) (fun k => ys (σ k)) ps → fas 0 = LFA.mk b w (ISGD.mk lr) →
          (∀ t, Epochs σ t → ∀ j, ∀ k ≥ t j, distSq n (fas k).weights v ≤ r ^ j * distSq n w v) ∧
          ((∀ i, ∃ᶠ k in atTop, σ k = i) → Tendsto (fun k => distSq n (fas k).weights v) atTop (𝓝 0)) :=
  order_training (isgd_trainsBy b lr n) fun i => by
    obtain ⟨φ, h1, h2⟩ := hx i
    have hn := normSq_nonneg φ
    have hd : 0 < 1 + lr * normSq φ := by positivity
    refine ⟨φ, h1, h2, div_pos hlr hd, ?_⟩
    rw [div_mul_eq_mul_div, div_lt_iff₀ hd]
    have := mul_nonneg hlr.le hn
    linarith

/-- Examples drawn at random, independently, each with probabilities whose sum over the calls is infinite (as when its
probability is the same at every call): with probability one the weights converge to the fitting weights nearest to the
initial ones. -/
theorem C178_random [Finite ι] [MeasurableSpace ι] [MeasurableSingletonClass ι] {Ω : Type} [MeasurableSpace Ω] (μ : Measure Ω)
    (S : ℕ → Ω → ι) (hm : ∀ k, Measurable (S k)) (hi : iIndepFun S μ) (hp : ∀ i, ∑' k, μ {ω | S k ω = i} = ⊤)
    (b : B) (n : Nat) (lr : ℝ) (hlr : 0 < lr) (xs : ι → I)
    (hx : ∀ i, ∃ φ, Basis.project b (xs i) = .ok (.ok φ) ∧ Fits n φ)
    (ys : ι → ℝ) (hy : ∃ s, ∀ i, Predicts b s (xs i) (ys i)) (w : List ℝ) (hw : w.length = n) :
    ∃ v : List ℝ, v.length = n ∧ (∀ i, Predicts b v (xs i) (ys i)) ∧
      (∀ s, (∀ i, Predicts b s (xs i) (ys i)) → distSq n w s = distSq n w v + distSq n v s) ∧
      (∀ (fas : Ω → ℕ → ScalarLFA B (SGD ℝ) ℝ) (ps : Ω → ℕ → ℝ),
        (∀ i φ, Basis.project b (xs i) = .ok (.ok φ) → lr * normSq φ < 2) →
        (∀ ω, Stream (fas ω) (fun k => xs (S k ω)) (fun k => ys (S k ω)) (ps ω) ∧ fas ω 0 = LFA.mk b w (SGD.mk lr)) →
        ∀ᵐ ω ∂μ, Tendsto (fun k => distSq n (fas ω k).weights v) atTop (𝓝 0)) ∧
      (∀ (fas : Ω → ℕ → ScalarLFA B (ISGD ℝ) ℝ) (ps : Ω → ℕ → ℝ),
        (∀ ω, Stream (fas ω) (fun k => xs (S k ω)) (fun k => ys (S k ω)) (ps ω) ∧ fas ω 0 = LFA.mk b w (ISGD.mk lr)) →
        ∀ᵐ ω ∂μ, Tendsto (fun k => distSq n (fas ω k).weights v) atTop (𝓝 0)) := by
  obtain ⟨r, -, -, hr⟩ := C178_isgd b n lr hlr xs hx
  obtain ⟨v, v1, v2, v3, v4⟩ := hr ys hy w hw
  refine ⟨v, v1, v2, v3, fun fas ps hl hf => ?_, fun fas ps hf => ?_⟩
  · obtain ⟨r', -, -, hr'⟩ := C178_sgd b n lr hlr xs fun i => by
      obtain ⟨φ, h1, h2⟩ := hx i
      exact ⟨φ, h1, h2, hl i φ h1⟩
    obtain ⟨v', u1, u2, u3, u4⟩ := hr' ys hy w hw
    -- both are nearest to the initial weights
    have e1 := v3 v' u2
    have e2 := u3 v v2
    have s1 : distSq n v' v = distSq n v v' := by
      rw [← point_distSq, ← point_distSq, norm_sub_rev]
    have : v' = v := by
      refine toPoint_injective u1 v1 (sub_eq_zero.1 (norm_eq_zero.1 (pow_eq_zero_iff two_ne_zero |>.1 ?_)))
      rw [point_distSq]
      linarith
    rw [← this]
    filter_upwards [draws_often hm hi hp] with ω hω
    exact (u4 (fun k => S k ω) (fas ω) (ps ω) (hf ω).1 (hf ω).2).2 hω
  · filter_upwards [draws_often hm hi hp] with ω hω
    exact (v4 (fun k => S k ω) (fas ω) (ps ω) (hf ω).1 (hf ω).2).2 hω

end

/-- Fair coin flips choose between the examples `(1, 5)` and `(-1, 1)` of the line `3 + 2x`: the weights converge to `(3, 2)`
with probability one. -/
theorem C178_example : ∃ (Ω : Type) (_ : MeasurableSpace Ω) (μ : Measure Ω) (S : ℕ → Ω → Bool)
    (fas : Ω → ℕ → ScalarLFA (Closure ℝ ℝ) (SGD ℝ) ℝ) (ps : Ω → ℕ → ℝ), iIndepFun S μ ∧
    (∀ k i, μ {ω | S k ω = i} = 2⁻¹) ∧
    (∀ ω, Stream (fas ω) (fun k => if S k ω then (1 : ℝ) else -1) (fun k => if S k ω then 5 else 1) (ps ω) ∧
      fas ω 0 = LFA.mk line [0, 0] (SGD.mk (1 / 4))) ∧
    ∀ᵐ ω ∂μ, Tendsto (fun k => distSq 2 (fas ω k).weights [3, 2]) atTop (𝓝 0) := by
  obtain ⟨Ω, mΩ, μ, S, hm, hl, hi, hμ⟩ := exists_iid Nat (PMF.uniformOfFintype Bool).toMeasure
  have hx : ∀ i : Bool, ∃ φ, Basis.project line (if i then (1 : ℝ) else -1) = .ok (.ok φ) ∧ Fits 2 φ := fun i =>
    ⟨_, (line_fits _).1, (line_fits _).2.1⟩
  choose fas ps hs h0 using fun ω => (C103_stream_exists line 2 (1 / 4) (fun k => if S k ω then (1 : ℝ) else -1)
    (fun k => if S k ω then 5 else 1) [0, 0] rfl (fun k => hx (S k ω))).1
  have hpr : ∀ k i, μ {ω | S k ω = i} = 2⁻¹ := by
    intro k i
    have : μ {ω | S k ω = i} = (μ.map (S k)) {i} := by
      rw [Measure.map_apply (hm k) (measurableSet_singleton i)]
      rfl
    rw [this, (hl k).map_eq, PMF.toMeasure_apply_singleton _ _ (measurableSet_singleton i)]
    simp
  refine ⟨Ω, mΩ, μ, S, fas, ps, hi, hpr, fun ω => ⟨hs ω, h0 ω⟩, ?_⟩
  have fit : ∀ v : List ℝ, v.length = 2 → (∀ i : Bool, Predicts line v (if i then (1 : ℝ) else -1) (if i then 5 else 1)) → v = [3, 2] := by
    intro v hv h
    obtain ⟨a, c, rfl⟩ := List.length_eq_two.1 hv
    have e1 := predicts_inner (h true) (line_fits _).1
    have e2 := predicts_inner (h false) (line_fits _).1
    rw [inner_eq] at e1 e2
    have e1 : (5 : ℝ) = ∑ i ∈ Finset.range 2, value (.dense [1, (1 : ℝ)]) i * entry [a, c] i := e1
    have e2 : (1 : ℝ) = ∑ i ∈ Finset.range 2, value (.dense [1, (-1 : ℝ)]) i * entry [a, c] i := e2
    rw [Finset.sum_range_succ, Finset.sum_range_one] at e1 e2
    have e1 : (5 : ℝ) = 1 * a + 1 * c := e1
    have e2 : (1 : ℝ) = 1 * a + -1 * c := e2
    have ha : a = 3 := by linarith
    have hc : c = 2 := by linarith
    rw [ha, hc]
  obtain ⟨v, v1, v2, -, v4, -⟩ := C178_random μ S hm hi (fun i => by
      simp only [hpr]
      exact ENNReal.tsum_const_eq_top_of_ne_zero (by norm_num)) line 2 (1 / 4) (by norm_num)
    (fun i : Bool => if i then (1 : ℝ) else -1) hx (fun i => if i then 5 else 1)
    ⟨[3, 2], fun i => ⟨_, (line_fits _).1, by
      show _ = ∑ i ∈ Finset.range 2, _
      rw [Finset.sum_range_succ, Finset.sum_range_one]
      cases i
      · show (1 : ℝ) = 1 * 3 + -1 * 2
        norm_num
      · show (5 : ℝ) = 1 * 3 + 1 * 2
        norm_num⟩⟩ [0, 0] rfl
  rw [fit v v1 v2] at v4
  refine v4 fas ps (fun i φ hφ => ?_) fun ω => ⟨hs ω, h0 ω⟩
  rw [(line_fits _).1] at hφ
  injection hφ with hφ
  injection hφ with hφ
  rw [← hφ, (line_fits _).2.2]
  cases i <;> norm_num

end Lfa

import Verif.Props.C103_C104
import Verif.Props.C23_C29
import Mathlib.MeasureTheory.Integral.Bochner.Basic
import Mathlib.MeasureTheory.Integral.Bochner.L1
import Mathlib.MeasureTheory.Function.L2Space
import Mathlib.Probability.Distributions.Gaussian.Real
import Mathlib.Probability.Independence.Basic
import Mathlib.Analysis.SpecificLimits.Basic
import Mathlib.Analysis.SpecialFunctions.Integrals.Basic
import Mathlib.Analysis.Real.Pi.Bounds

/-!
# C128–C131: training on noisy targets

Exact arithmetic. The targets are random variables on an arbitrary probability space; the inputs are
given.
-/

set_option linter.unusedSectionVars false

namespace Lfa

open Spec MeasureTheory ProbabilityTheory Filter Topology

section
variable {B I O : Type} [Space B] [Basis B I ℝ] [Optimiser O ℝ]

/-- The weights along a run of a stateless optimiser. -/
theorem stream_entries {b : B} {o : O} {n : Nat} {rate : Features ℝ → ℝ} {xs : Nat → I}
    (ht : TrainsBy b o n rate (fun x => ∃ k, xs k = x)) {φ : Nat → Features ℝ}
    (hφ : ∀ k, Basis.project b (xs k) = .ok (.ok (φ k)) ∧ Fits n (φ k)) {ys ps : Nat → ℝ}
    {fas : Nat → ScalarLFA B O ℝ} (hs : Stream fas xs ys ps) {w : List ℝ} (hw : w.length = n)
    (h0 : fas 0 = LFA.mk b w o) (k : Nat) :
    ps k = ∑ j ∈ Finset.range n, value (φ k) j * entry (fas k).weights j ∧ ∀ i < n,
      entry (fas (k + 1)).weights i = entry (fas k).weights i + rate (φ k) *
        (ys k - ∑ j ∈ Finset.range n, value (φ k) j * entry (fas k).weights j) * value (φ k) i := by
  obtain ⟨v, h1, h2, h3, -⟩ := stream_point ht φ hφ hs hw h0 k
  obtain ⟨w', -, s2, s3, s4⟩ := ht v (xs k) (φ k) (ys k) ⟨k, rfl⟩ h2 (hφ k).1 (hφ k).2
  have hu := hs.updates k
  rw [h1] at hu
  have hu := hu.symm.trans s2
  simp only [Except.ok.injEq, Prod.mk.injEq, true_and] at hu
  rw [h1, hu]
  rw [inner_eq, (hφ k).2.2] at h3 s4
  exact ⟨h3, s4⟩

end

section
variable {Ω : Type} [MeasurableSpace Ω] {μ : Measure Ω} [IsProbabilityMeasure μ]

/-- Integrable coordinates with means `u`. -/
def HasMeans (μ : Measure Ω) (n : Nat) (W : Ω → Nat → ℝ) (u : Nat → ℝ) : Prop :=
  ∀ i < n, Integrable (fun ω => W ω i) μ ∧ ∫ ω, W ω i ∂μ = u i

theorem mean_inner {n : Nat} {W : Ω → Nat → ℝ} {u : Nat → ℝ} (h : HasMeans μ n W u) (φ : Nat → ℝ) :
    Integrable (fun ω => ∑ j ∈ Finset.range n, φ j * W ω j) μ ∧
      ∫ ω, ∑ j ∈ Finset.range n, φ j * W ω j ∂μ = ∑ j ∈ Finset.range n, φ j * u j := by
  have hi : ∀ j ∈ Finset.range n, Integrable (fun ω => φ j * W ω j) μ := fun j hj =>
    (h j (Finset.mem_range.1 hj)).1.const_mul _
  refine ⟨integrable_finsetSum _ hi, ?_⟩
  rw [integral_finsetSum _ hi]
  refine Finset.sum_congr rfl fun j hj => ?_
  rw [integral_const_mul, (h j (Finset.mem_range.1 hj)).2]

theorem mean_residual {n : Nat} {W : Ω → Nat → ℝ} {u : Nat → ℝ} (h : HasMeans μ n W u) (φ : Nat → ℝ)
    {Y : Ω → ℝ} (hY : Integrable Y μ) :
    Integrable (fun ω => Y ω - ∑ j ∈ Finset.range n, φ j * W ω j) μ ∧
      ∫ ω, (Y ω - ∑ j ∈ Finset.range n, φ j * W ω j) ∂μ
        = ∫ ω, Y ω ∂μ - ∑ j ∈ Finset.range n, φ j * u j := by
  obtain ⟨h1, h2⟩ := mean_inner h φ
  exact ⟨hY.sub h1, by rw [integral_sub hY h1, h2]⟩

end

/-! ## C128 Mean weights -/

section
variable {Ω : Type} [MeasurableSpace Ω] {μ : Measure Ω} [IsProbabilityMeasure μ]
variable {B I O : Type} [Space B] [Basis B I ℝ] [Optimiser O ℝ]

/-- The claim of C128 for one optimiser. `fas ω` is the run on the targets `Y 0 ω, Y 1 ω, …` and `fas'`
the run on their means, from the same approximator: the weights and predictions of `fas'` are the means
of those of `fas ω`. -/
def FollowsMeans (μ : Measure Ω) (n : Nat) (fa : ScalarLFA B O ℝ) (xs : Nat → I) : Prop :=
  ∀ (Y : Nat → Ω → ℝ), (∀ k, Integrable (Y k) μ) →
  ∀ (fas : Ω → Nat → ScalarLFA B O ℝ) (ps : Ω → Nat → ℝ),
    (∀ ω, Stream (fas ω) xs (fun k => Y k ω) (ps ω) ∧ fas ω 0 = fa) →
  ∀ (fas' : Nat → ScalarLFA B O ℝ) (ps' : Nat → ℝ),
    Stream fas' xs (fun k => ∫ ω, Y k ω ∂μ) ps' → fas' 0 = fa →
  ∀ k, (∀ i < n, Integrable (fun ω => entry (fas ω k).weights i) μ ∧
      ∫ ω, entry (fas ω k).weights i ∂μ = entry (fas' k).weights i) ∧
    Integrable (fun ω => ps ω k) μ ∧ ∫ ω, ps ω k ∂μ = ps' k

theorem follows_means_of_rate {b : B} {o : O} {n : Nat} {rate : Features ℝ → ℝ} {xs : Nat → I}
    (ht : TrainsBy b o n rate (fun x => ∃ k, xs k = x))
    (hx : ∀ k, ∃ φ, Basis.project b (xs k) = .ok (.ok φ) ∧ Fits n φ) (w : List ℝ) (hw : w.length = n) :
    FollowsMeans μ n (LFA.mk b w o) xs := by
  intro Y hY fas ps hs fas' ps' hs' h0' k
  choose φ hφ using hx
  have e := fun ω => stream_entries ht hφ (hs ω).1 hw (hs ω).2
  have e' := stream_entries ht hφ hs' hw h0'
  have key : ∀ k, HasMeans μ n (fun ω => entry (fas ω k).weights) (entry (fas' k).weights) := by
    intro k
    induction k with
    | zero =>
      intro i _
      simp only [(hs _).2, h0']
      exact ⟨integrable_const _, by simp⟩
    | succ k ih =>
      intro i hi
      obtain ⟨r1, r2⟩ := mean_residual ih (value (φ k)) (hY k)
      have hf : (fun ω => entry (fas ω (k + 1)).weights i) = fun ω => entry (fas ω k).weights i +
          rate (φ k) * (Y k ω - ∑ j ∈ Finset.range n, value (φ k) j * entry (fas ω k).weights j) *
            value (φ k) i := funext fun ω => (e ω k).2 i hi
      have hint := (r1.const_mul (rate (φ k))).mul_const (value (φ k) i)
      rw [hf, (e' k).2 i hi]
      refine ⟨(ih i hi).1.add hint, ?_⟩
      rw [integral_add (ih i hi).1 hint, (ih i hi).2, integral_mul_const, integral_const_mul, r2]
  refine ⟨key k, ?_⟩
  have hp : (fun ω => ps ω k) = fun ω => ∑ j ∈ Finset.range n, value (φ k) j * entry (fas ω k).weights j :=
    funext fun ω => (e ω k).1
  rw [hp, (e' k).1]
  exact mean_inner (key k) _

end

section
variable {Ω : Type} [MeasurableSpace Ω] {μ : Measure Ω} [IsProbabilityMeasure μ]
variable {B I : Type} [Space B] [Basis B I ℝ]

/-- **C128.** Whatever the joint distribution of the targets (with finite means), the mean of the
weights, and of the predictions, is what training on the mean targets gives. SGD. -/
theorem C128_sgd (b : B) (n : Nat) (lr : ℝ) (xs : Nat → I) (w : List ℝ) (hw : w.length = n)
    (hx : ∀ k, ∃ φ, Basis.project b (xs k) = .ok (.ok φ) ∧ Fits n φ) :
    FollowsMeans μ n (LFA.mk b w (SGD.mk lr)) xs :=
  follows_means_of_rate (sgd_trainsBy b lr n _) hx w hw

/-- ISGD. -/
theorem C128_isgd (b : B) (n : Nat) (lr : ℝ) (xs : Nat → I) (w : List ℝ) (hw : w.length = n)
    (hx : ∀ k, ∃ φ, Basis.project b (xs k) = .ok (.ok φ) ∧ Fits n φ) :
    FollowsMeans μ n (LFA.mk b w (ISGD.mk lr)) xs :=
  follows_means_of_rate (isgd_trainsBy b lr n _) hx w hw

/-- The weights and the velocity along a run with a velocity: `g` is the look-ahead of NAG. -/
theorem velocity_entries {O : Type} [Optimiser O ℝ] {mk : List ℝ → O} {m lr g : ℝ} {b : B} {n : Nat}
    (hmk : Function.Injective mk)
    (hstep : ∀ (φ : Features ℝ) (v w : List ℝ) (s : ℝ), Fits n φ → v.length = n → w.length = n →
      ∃ v' w', Optimiser.stepScaled (mk v) w φ s = .ok (.ok (), mk v', w') ∧ v'.length = n ∧
        w'.length = n ∧ ∀ i < n, entry v' i = m * entry v i + value φ i * s ∧
          entry w' i = entry w i + lr * entry v' i + g * value φ i)
    {xs : Nat → I} {φ : Nat → Features ℝ}
    (hφ : ∀ k, Basis.project b (xs k) = .ok (.ok (φ k)) ∧ Fits n (φ k)) {ys ps : Nat → ℝ}
    {fas : Nat → ScalarLFA B O ℝ} (hs : Stream fas xs ys ps) {w v : List ℝ} (hw : w.length = n)
    (hv : v.length = n) (h0 : fas 0 = LFA.mk b w (mk v)) :
    ∃ V : Nat → List ℝ, V 0 = v ∧ ∀ k,
      ps k = ∑ j ∈ Finset.range n, value (φ k) j * entry (fas k).weights j ∧ ∀ i < n,
      entry (V (k + 1)) i = m * entry (V k) i + value (φ k) i *
        (ys k - ∑ j ∈ Finset.range n, value (φ k) j * entry (fas k).weights j) ∧
      entry (fas (k + 1)).weights i = entry (fas k).weights i + lr * entry (V (k + 1)) i
        + g * value (φ k) i := by
  have key : ∀ k, ∃ u z, fas k = LFA.mk b u (mk z) ∧ u.length = n ∧ z.length = n := by
    intro k
    induction k with
    | zero => exact ⟨w, v, h0, hw, hv⟩
    | succ k ih =>
      obtain ⟨u, z, h1, h2, h3⟩ := ih
      obtain ⟨v', w', s1, s2, s3, -⟩ := hstep (φ k) z u (ys k - inner (φ k) u) (hφ k).2 h3 h2
      have hu := hs.updates k
      rw [h1, updateWith_eq (fa := LFA.mk b u (mk z)) (hφ k).1
        (dot_real (hφ k).2.1 ((hφ k).2.2.trans h2.symm)) _ s1] at hu
      simp only [Except.ok.injEq, Prod.mk.injEq, true_and] at hu
      exact ⟨w', v', hu.symm, s3, s2⟩
  choose U Z hk hU hZ using key
  have step : ∀ k, ∃ V' : List ℝ, mk V' = mk (Z (k + 1)) ∧ ps k = inner (φ k) (U k) ∧ ∀ i < n,
      entry V' i = m * entry (Z k) i + value (φ k) i * (ys k - inner (φ k) (U k)) ∧
      entry (U (k + 1)) i = entry (U k) i + lr * entry V' i + g * value (φ k) i := by
    intro k
    obtain ⟨v', w', s1, s2, s3, s4⟩ := hstep (φ k) (Z k) (U k) (ys k - inner (φ k) (U k)) (hφ k).2
      (hZ k) (hU k)
    have hd := dot_real (hφ k).2.1 ((hφ k).2.2.trans (hU k).symm)
    have hu := hs.updates k
    have hp := hs.predicts k
    rw [hk k, evaluate_eq (fa := LFA.mk b (U k) (mk (Z k))) (hφ k).1 hd] at hp
    rw [hk k, hk (k + 1), updateWith_eq (fa := LFA.mk b (U k) (mk (Z k))) (hφ k).1 hd _ s1] at hu
    simp only [Except.ok.injEq, Prod.mk.injEq, true_and, LFA.mk.injEq] at hu hp
    refine ⟨v', hu.2, hp.symm, ?_⟩
    rw [← hu.1]
    exact s4
  refine ⟨Z, ?_, fun k => ?_⟩
  · have := (hk 0).symm.trans h0
    simp only [LFA.mk.injEq, true_and] at this
    exact hmk this.2
  · obtain ⟨V', e1, e2, e3⟩ := step k
    rw [hmk e1] at e3
    rw [inner_eq, (hφ k).2.2] at e2 e3
    rw [hk k, hk (k + 1)]
    exact ⟨e2, e3⟩

theorem follows_means_of_velocity {O : Type} [Optimiser O ℝ] {mk : List ℝ → O} {m lr g : ℝ} {b : B}
    {n : Nat} (hmk : Function.Injective mk)
    (hstep : ∀ (φ : Features ℝ) (v w : List ℝ) (s : ℝ), Fits n φ → v.length = n → w.length = n →
      ∃ v' w', Optimiser.stepScaled (mk v) w φ s = .ok (.ok (), mk v', w') ∧ v'.length = n ∧
        w'.length = n ∧ ∀ i < n, entry v' i = m * entry v i + value φ i * s ∧
          entry w' i = entry w i + lr * entry v' i + g * value φ i)
    {xs : Nat → I} (hx : ∀ k, ∃ φ, Basis.project b (xs k) = .ok (.ok φ) ∧ Fits n φ) {w v : List ℝ}
    (hw : w.length = n) (hv : v.length = n) : FollowsMeans μ n (LFA.mk b w (mk v)) xs := by
  intro Y hY fas ps hs fas' ps' hs' h0' k
  choose φ hφ using hx
  have e := fun ω => velocity_entries hmk hstep hφ (hs ω).1 hw hv (hs ω).2
  choose V hV0 e using e
  obtain ⟨V', hV0', e'⟩ := velocity_entries hmk hstep hφ hs' hw hv h0'
  have key : ∀ k, HasMeans μ n (fun ω => entry (fas ω k).weights) (entry (fas' k).weights) ∧
      HasMeans μ n (fun ω => entry (V ω k)) (entry (V' k)) := by
    intro k
    induction k with
    | zero =>
      constructor
      · intro i _
        simp only [(hs _).2, h0']
        exact ⟨integrable_const _, by simp⟩
      · intro i _
        simp only [hV0, hV0']
        exact ⟨integrable_const _, by simp⟩
    | succ k ih =>
      obtain ⟨r1, r2⟩ := mean_residual ih.1 (value (φ k)) (hY k)
      have hVk : HasMeans μ n (fun ω => entry (V ω (k + 1))) (entry (V' (k + 1))) := by
        intro i hi
        have hf : (fun ω => entry (V ω (k + 1)) i) = fun ω => m * entry (V ω k) i + value (φ k) i *
            (Y k ω - ∑ j ∈ Finset.range n, value (φ k) j * entry (fas ω k).weights j) :=
          funext fun ω => ((e ω k).2 i hi).1
        have h1 := (ih.2 i hi).1.const_mul m
        have h2 := r1.const_mul (value (φ k) i)
        rw [hf, ((e' k).2 i hi).1]
        refine ⟨h1.add h2, ?_⟩
        rw [integral_add h1 h2, integral_const_mul, integral_const_mul, (ih.2 i hi).2, r2]
      refine ⟨fun i hi => ?_, hVk⟩
      have hf : (fun ω => entry (fas ω (k + 1)).weights i) = fun ω => entry (fas ω k).weights i +
          lr * entry (V ω (k + 1)) i + g * value (φ k) i := funext fun ω => ((e ω k).2 i hi).2
      have h1 := (hVk i hi).1.const_mul lr
      have h2 := (ih.1 i hi).1.add h1
      rw [hf, ((e' k).2 i hi).2]
      refine ⟨h2.add (integrable_const _), ?_⟩
      have h3 : ∫ ω, (entry (fas ω k).weights i + lr * entry (V ω (k + 1)) i + g * value (φ k) i) ∂μ =
          ∫ ω, (entry (fas ω k).weights i + lr * entry (V ω (k + 1)) i) ∂μ
            + ∫ _, g * value (φ k) i ∂μ := integral_add h2 (integrable_const _)
      have h4 : ∫ ω, (entry (fas ω k).weights i + lr * entry (V ω (k + 1)) i) ∂μ =
          ∫ ω, entry (fas ω k).weights i ∂μ + ∫ ω, lr * entry (V ω (k + 1)) i ∂μ :=
        integral_add (ih.1 i hi).1 h1
      rw [h3, h4, integral_const_mul, (ih.1 i hi).2, (hVk i hi).2]
      simp
  refine ⟨(key k).1, ?_⟩
  have hp : (fun ω => ps ω k) = fun ω => ∑ j ∈ Finset.range n, value (φ k) j * entry (fas ω k).weights j :=
    funext fun ω => (e ω k).1
  rw [hp, (e' k).1]
  exact mean_inner (key k).1 _

/-- Momentum, from any velocity. -/
theorem C128_momentum (b : B) (n : Nat) (m lr : ℝ) (xs : Nat → I) (w v : List ℝ) (hw : w.length = n)
    (hv : v.length = n) (hx : ∀ k, ∃ φ, Basis.project b (xs k) = .ok (.ok φ) ∧ Fits n φ) :
    FollowsMeans μ n (LFA.mk b w (SGDMomentum.mk m lr v)) xs := by
  refine follows_means_of_velocity (mk := SGDMomentum.mk m lr) (m := m) (lr := lr) (g := 0)
    (fun u z h => by injection h) (fun φ v w s hφ hv hw => ?_) hx hw hv
  obtain ⟨v', w', s1, s2, s3, s4⟩ := momentum_real hφ (SGDMomentum.mk m lr v) hv s hw
  exact ⟨v', w', s1, s2, s3, fun i hi => ⟨(s4 i hi).1, by rw [zero_mul, add_zero]; exact (s4 i hi).2⟩⟩

/-- NAG, from any velocity. -/
theorem C128_nag (b : B) (n : Nat) (m lr : ℝ) (xs : Nat → I) (w v : List ℝ) (hw : w.length = n)
    (hv : v.length = n) (hx : ∀ k, ∃ φ, Basis.project b (xs k) = .ok (.ok φ) ∧ Fits n φ) :
    FollowsMeans μ n (LFA.mk b w (NAG.mk m lr v)) xs := by
  refine follows_means_of_velocity (mk := NAG.mk m lr) (m := m) (lr := lr) (g := m)
    (fun u z h => by injection h) (fun φ v w s hφ hv hw => ?_) hx hw hv
  obtain ⟨v', w', s1, s2, s3, s4⟩ := nag_real hφ (NAG.mk m lr v) hv s hw
  exact ⟨v', w', s1, s2, s3, s4⟩

/-- Runs on the targets and on their means exist: a line trained on a random sign. -/
example (xs : Nat → ℝ) (Y : Nat → Ω → ℝ) (hY : ∀ k, Integrable (Y k) μ) (w : List ℝ)
    (hw : w.length = 2) (lr : ℝ) : ∃ (fas : Ω → Nat → ScalarLFA (Closure ℝ ℝ) (SGD ℝ) ℝ)
      (fas' : Nat → ScalarLFA (Closure ℝ ℝ) (SGD ℝ) ℝ), ∀ k, ∀ i < 2,
        ∫ ω, entry (fas ω k).weights i ∂μ = entry (fas' k).weights i := by
  have hx : ∀ k, ∃ φ, Basis.project line (xs k) = .ok (.ok φ) ∧ Fits 2 φ := fun k =>
    ⟨_, (line_fits (xs k)).1, (line_fits (xs k)).2.1⟩
  choose fas ps hs using fun ω => (C103_stream_exists line 2 lr xs (fun k => Y k ω) w hw hx).1
  obtain ⟨fas', ps', hs', h0'⟩ := (C103_stream_exists line 2 lr xs (fun k => ∫ ω, Y k ω ∂μ) w hw hx).1
  exact ⟨fas, fas', fun k i hi =>
    ((C128_sgd line 2 lr xs w hw hx Y hY fas ps hs fas' ps' hs' h0' k).1 i hi).2⟩

end

/-! ## C129 Variance on a repeated input -/

section
variable {Ω : Type} [MeasurableSpace Ω] {μ : Measure Ω} [IsProbabilityMeasure μ]

/-- Noise with mean 0 and variance `σ²`, uncorrelated between calls. -/
structure WhiteNoise (μ : Measure Ω) (ε : Nat → Ω → ℝ) (σ : ℝ) : Prop where
  memLp : ∀ k, MemLp (ε k) 2 μ
  mean : ∀ k, ∫ ω, ε k ω ∂μ = 0
  variance : ∀ k, ∫ ω, ε k ω * ε k ω ∂μ = σ ^ 2
  uncorrelated : ∀ j k, j ≠ k → ∫ ω, ε j ω * ε k ω ∂μ = 0

theorem WhiteNoise.integral_sq {ε : Nat → Ω → ℝ} {σ : ℝ} (h : WhiteNoise μ ε σ) (c : ℝ) (a : Nat → ℝ)
    (k : Nat) : ∫ ω, (c + ∑ j ∈ Finset.range k, a j * ε j ω) ^ 2 ∂μ
      = c ^ 2 + σ ^ 2 * ∑ j ∈ Finset.range k, a j ^ 2 := by
  have hint : ∀ j, Integrable (ε j) μ := fun j => (h.memLp j).integrable (by norm_num)
  have hmul : ∀ i j, Integrable (fun ω => ε i ω * ε j ω) μ := fun i j => (h.memLp i).integrable_mul (h.memLp j)
  have hexp : (fun ω => (c + ∑ j ∈ Finset.range k, a j * ε j ω) ^ 2) = fun ω =>
      (c ^ 2 + ∑ j ∈ Finset.range k, 2 * c * a j * ε j ω) +
        ∑ i ∈ Finset.range k, ∑ j ∈ Finset.range k, a i * a j * (ε i ω * ε j ω) := by
    funext ω
    rw [add_sq, sq (∑ j ∈ Finset.range k, a j * ε j ω), Finset.sum_mul_sum, Finset.mul_sum]
    congr 1
    · congr 1
      exact Finset.sum_congr rfl fun j _ => by ring
    · exact Finset.sum_congr rfl fun i _ => Finset.sum_congr rfl fun j _ => by ring
  have i1 : Integrable (fun ω => ∑ j ∈ Finset.range k, 2 * c * a j * ε j ω) μ :=
    integrable_finsetSum _ fun j _ => (hint j).const_mul _
  have i2 : Integrable (fun ω => ∑ i ∈ Finset.range k, ∑ j ∈ Finset.range k,
      a i * a j * (ε i ω * ε j ω)) μ :=
    integrable_finsetSum _ fun i _ => integrable_finsetSum _ fun j _ => (hmul i j).const_mul _
  have i3 : Integrable (fun ω => c ^ 2 + ∑ j ∈ Finset.range k, 2 * c * a j * ε j ω) μ :=
    (integrable_const _).add i1
  rw [hexp, integral_add i3 i2, integral_add (integrable_const _) i1,
    integral_finsetSum _ fun j _ => (hint j).const_mul _,
    integral_finsetSum _ fun i _ => integrable_finsetSum _ fun j _ => (hmul i j).const_mul _]
  have z1 : ∑ j ∈ Finset.range k, ∫ ω, 2 * c * a j * ε j ω ∂μ = 0 :=
    Finset.sum_eq_zero fun j _ => by rw [integral_const_mul, h.mean, mul_zero]
  rw [z1, add_zero, Finset.mul_sum]
  congr 1
  · simp
  · refine Finset.sum_congr rfl fun i hi => ?_
    rw [integral_finsetSum _ fun j _ => (hmul i j).const_mul _, Finset.sum_eq_single i]
    · rw [integral_const_mul, h.variance]; ring
    · intro j _ hj
      rw [integral_const_mul, h.uncorrelated i j hj.symm, mul_zero]
    · intro hn; exact absurd hi hn

/-- The errors of a contraction with noise. -/
theorem noisy_solution {a : ℝ} {e ε : Nat → ℝ} (h : ∀ k, e (k + 1) = (1 - a) * e k + a * ε k) (k : Nat) :
    e k = (1 - a) ^ k * e 0 + ∑ j ∈ Finset.range k, a * (1 - a) ^ (k - 1 - j) * ε j := by
  induction k with
  | zero => simp
  | succ k ih =>
    rw [h, ih, Finset.sum_range_succ, mul_add, Finset.mul_sum, ← mul_assoc, ← pow_succ', add_assoc]
    congr 2
    · refine Finset.sum_congr rfl fun j hj => ?_
      have hj := Finset.mem_range.1 hj
      rw [show k + 1 - 1 - j = (k - 1 - j) + 1 by omega, pow_succ]
      ring
    · simp

end

section
variable {Ω : Type} [MeasurableSpace Ω] {μ : Measure Ω} [IsProbabilityMeasure μ]
variable {B I O : Type} [Space B] [Basis B I ℝ] [Optimiser O ℝ]

/-- Mean squared error of the predictions on a repeated input. -/
theorem mse_of_rate {b : B} {o : O} {n : Nat} {rate : Features ℝ → ℝ} {x : I} {φ : Features ℝ}
    (ht : TrainsBy b o n rate (fun x' => ∃ _ : Nat, x = x'))
    (hφ : Basis.project b x = .ok (.ok φ)) (hf : Fits n φ) {ε : Nat → Ω → ℝ} {σ : ℝ}
    (hε : WhiteNoise μ ε σ) {y p : ℝ} {fas : Ω → Nat → ScalarLFA B O ℝ} {ps : Ω → Nat → ℝ} {w : List ℝ}
    (hw : w.length = n) (hp : ScalarLFA.evaluate (LFA.mk b w o) x = .ok (.ok p))
    (hs : ∀ ω, Stream (fas ω) (fun _ => x) (fun k => y + ε k ω) (ps ω) ∧ fas ω 0 = LFA.mk b w o)
    {a : ℝ} (ha : a = rate φ * normSq φ) (k : Nat) :
    ∫ ω, (ps ω k - y) ^ 2 ∂μ = (1 - a) ^ (2 * k) * (p - y) ^ 2
      + σ ^ 2 * ∑ j ∈ Finset.range k, (a * (1 - a) ^ j) ^ 2 := by
  have e := fun ω => stream_entries (φ := fun _ => φ) ht (fun _ => ⟨hφ, hf⟩) (hs ω).1 hw (hs ω).2
  have hrec : ∀ ω k, ps ω (k + 1) - y = (1 - a) * (ps ω k - y) + a * ε k ω := by
    intro ω k
    rw [(e ω (k + 1)).1, Finset.sum_congr rfl fun j hj => by rw [(e ω k).2 j (Finset.mem_range.1 hj)]]
    rw [← (e ω k).1]
    simp only [mul_add, Finset.sum_add_distrib]
    rw [← (e ω k).1, ha]
    have : ∑ j ∈ Finset.range n, value φ j * (rate φ * (y + ε k ω - ps ω k) * value φ j)
        = rate φ * normSq φ * (y + ε k ω - ps ω k) := by
      rw [normSq, hf.2, Finset.mul_sum, Finset.sum_mul]
      exact Finset.sum_congr rfl fun j _ => by ring
    rw [this]
    ring
  have h0 : ∀ ω, ps ω 0 = p := by
    intro ω
    have := (hs ω).1.predicts 0
    rw [(hs ω).2, hp] at this
    simpa using this.symm
  have hsol : (fun ω => (ps ω k - y) ^ 2) = fun ω => ((1 - a) ^ k * (p - y) +
      ∑ j ∈ Finset.range k, a * (1 - a) ^ (k - 1 - j) * ε j ω) ^ 2 := by
    funext ω
    rw [noisy_solution (e := fun k => ps ω k - y) (ε := fun k => ε k ω) (hrec ω) k]
    simp only [h0]
  rw [hsol, hε.integral_sq, mul_pow, ← pow_mul, mul_comm k 2]
  congr 2
  rw [← Finset.sum_range_reflect]
  refine Finset.sum_congr rfl fun j hj => ?_
  have hj := Finset.mem_range.1 hj
  rw [show k - 1 - (k - 1 - j) = j by omega]

theorem mse_limit {a σ d : ℝ} (h0 : 0 < a) (h2 : a < 2) :
    Tendsto (fun k : Nat => (1 - a) ^ (2 * k) * d ^ 2 + σ ^ 2 * ∑ j ∈ Finset.range k, (a * (1 - a) ^ j) ^ 2)
      atTop (𝓝 (a / (2 - a) * σ ^ 2)) := by
  have hq0 : 0 ≤ (1 - a) ^ 2 := sq_nonneg _
  have hq1 : (1 - a) ^ 2 < 1 := by nlinarith
  have t1 : Tendsto (fun k : Nat => (1 - a) ^ (2 * k) * d ^ 2) atTop (𝓝 (0 * d ^ 2)) := by
    simp only [pow_mul]
    exact (tendsto_pow_atTop_nhds_zero_of_lt_one hq0 hq1).mul_const _
  have t2 : Tendsto (fun k : Nat => ∑ j ∈ Finset.range k, (a * (1 - a) ^ j) ^ 2) atTop
      (𝓝 (a ^ 2 * (1 - (1 - a) ^ 2)⁻¹)) := by
    have := ((hasSum_geometric_of_lt_one hq0 hq1).mul_left (a ^ 2)).tendsto_sum_nat
    refine this.congr fun k => Finset.sum_congr rfl fun j _ => ?_
    rw [mul_pow, ← pow_mul, ← pow_mul, mul_comm 2 j]
  have h3 := t1.add (t2.const_mul (σ ^ 2))
  convert h3 using 2
  have : 2 - a ≠ 0 := by linarith
  have h4 : 1 - (1 - a) ^ 2 = a * (2 - a) := by ring
  rw [h4]
  field_simp
  ring

end

section
variable {Ω : Type} [MeasurableSpace Ω] {μ : Measure Ω} [IsProbabilityMeasure μ]
variable {B I : Type} [Space B] [Basis B I ℝ]

/-- **C129.** SGD on one repeated input whose targets carry uncorrelated noise of variance `σ²`: the mean
squared error of the prediction after `k` calls, and its limit. With `a = lr ‖φ‖²` the limit is
`a / (2 - a) σ²`. -/
theorem C129_sgd (b : B) (n : Nat) (lr : ℝ) (x : I) (φ : Features ℝ)
    (hφ : Basis.project b x = .ok (.ok φ)) (hf : Fits n φ) (ε : Nat → Ω → ℝ) (σ : ℝ)
    (hε : WhiteNoise μ ε σ) (y p : ℝ) (fas : Ω → Nat → ScalarLFA B (SGD ℝ) ℝ) (ps : Ω → Nat → ℝ)
    (w : List ℝ) (hw : w.length = n)
    (hp : ScalarLFA.evaluate (LFA.mk b w (SGD.mk lr)) x = .ok (.ok p))
    (hs : ∀ ω, Stream (fas ω) (fun _ => x) (fun k => y + ε k ω) (ps ω) ∧
      fas ω 0 = LFA.mk b w (SGD.mk lr)) (a : ℝ) (ha : a = lr * normSq φ) :
    (∀ k, ∫ ω, (ps ω k - y) ^ 2 ∂μ = (1 - a) ^ (2 * k) * (p - y) ^ 2
      + σ ^ 2 * ∑ j ∈ Finset.range k, (a * (1 - a) ^ j) ^ 2) ∧
    (0 < a → a < 2 → Tendsto (fun k => ∫ ω, (ps ω k - y) ^ 2 ∂μ) atTop (𝓝 (a / (2 - a) * σ ^ 2))) := by
  have h := mse_of_rate (sgd_trainsBy b lr n _) hφ hf hε hw hp hs ha
  refine ⟨h, fun h0 h2 => ?_⟩
  simp only [h]
  exact mse_limit h0 h2

/-- ISGD: the same with `a = lr ‖φ‖² / (1 + lr ‖φ‖²)`, which is below 1 for every positive learning
rate, so that the limit is below `σ²`. -/
theorem C129_isgd (b : B) (n : Nat) (lr : ℝ) (x : I) (φ : Features ℝ)
    (hφ : Basis.project b x = .ok (.ok φ)) (hf : Fits n φ) (ε : Nat → Ω → ℝ) (σ : ℝ)
    (hε : WhiteNoise μ ε σ) (y p : ℝ) (fas : Ω → Nat → ScalarLFA B (ISGD ℝ) ℝ) (ps : Ω → Nat → ℝ)
    (w : List ℝ) (hw : w.length = n)
    (hp : ScalarLFA.evaluate (LFA.mk b w (ISGD.mk lr)) x = .ok (.ok p))
    (hs : ∀ ω, Stream (fas ω) (fun _ => x) (fun k => y + ε k ω) (ps ω) ∧
      fas ω 0 = LFA.mk b w (ISGD.mk lr)) (a : ℝ) (ha : a = lr / (1 + lr * normSq φ) * normSq φ) :
    (∀ k, ∫ ω, (ps ω k - y) ^ 2 ∂μ = (1 - a) ^ (2 * k) * (p - y) ^ 2
      + σ ^ 2 * ∑ j ∈ Finset.range k, (a * (1 - a) ^ j) ^ 2) ∧
    (0 < lr → 0 < normSq φ →
      Tendsto (fun k => ∫ ω, (ps ω k - y) ^ 2 ∂μ) atTop (𝓝 (a / (2 - a) * σ ^ 2)) ∧ a / (2 - a) < 1) := by
  have h := mse_of_rate (isgd_trainsBy b lr n _) hφ hf hε hw hp hs ha
  refine ⟨h, fun hlr hn => ?_⟩
  have h1 : 0 < 1 + lr * normSq φ := by positivity
  have ha0 : 0 < a := by rw [ha]; positivity
  have ha1 : a < 1 := by
    rw [ha, div_mul_eq_mul_div, div_lt_one h1]
    linarith
  refine ⟨?_, ?_⟩
  · simp only [h]
    exact mse_limit ha0 (by linarith)
  · rw [div_lt_one (by linarith)]
    linarith

end

/-! ### White noise exists: cosines of a uniform random number -/

theorem integral_cos_nat (m : Nat) (hm : m ≠ 0) : ∫ t in (0 : ℝ)..1, Real.cos (Real.pi * (m * t)) = 0 := by
  have h : Real.pi * (m : ℝ) ≠ 0 := mul_ne_zero Real.pi_ne_zero (Nat.cast_ne_zero.2 hm)
  have : (fun t : ℝ => Real.cos (Real.pi * (m * t))) = fun t => Real.cos (Real.pi * (m : ℝ) * t) := by
    funext t; rw [mul_assoc]
  rw [this, intervalIntegral.integral_comp_mul_left (fun x => Real.cos x) h, integral_cos, mul_one,
    mul_zero, Real.sin_zero, mul_comm Real.pi, Real.sin_nat_mul_pi]
  simp

theorem integral_cos_mul_cos (j k : Nat) (hk : k ≠ 0) (hjk : j ≤ k) :
    ∫ t in (0 : ℝ)..1, Real.cos (Real.pi * (j * t)) * Real.cos (Real.pi * (k * t)) =
      if j = k then 1 / 2 else 0 := by
  have hprod : (fun t : ℝ => Real.cos (Real.pi * (j * t)) * Real.cos (Real.pi * (k * t))) = fun t =>
      2⁻¹ * (Real.cos (Real.pi * ((k - j : ℕ) * t)) + Real.cos (Real.pi * ((k + j : ℕ) * t))) := by
    funext t
    rw [Nat.cast_sub hjk, Nat.cast_add, show Real.pi * (((k : ℝ) - j) * t)
      = Real.pi * (k * t) - Real.pi * (j * t) by ring, show Real.pi * (((k : ℝ) + j) * t)
      = Real.pi * (k * t) + Real.pi * (j * t) by ring, Real.cos_sub, Real.cos_add]
    ring
  have hc : ∀ m : Nat, IntervalIntegrable (fun t : ℝ => Real.cos (Real.pi * (m * t))) volume 0 1 := fun m => by
    apply Continuous.intervalIntegrable
    fun_prop
  rw [hprod, intervalIntegral.integral_const_mul, intervalIntegral.integral_add (hc _) (hc _),
    integral_cos_nat (k + j) (by omega)]
  by_cases h : j = k
  · subst h; simp
  · rw [if_neg h, integral_cos_nat (k - j) (by omega)]; simp

/-- Uncorrelated noise of variance 1 on the unit interval. -/
theorem whiteNoise_cos : WhiteNoise (volume.restrict (Set.Ioc (0 : ℝ) 1))
    (fun k t => √2 * Real.cos (Real.pi * ((k + 1 : ℕ) * t))) 1 := by
  have hii : ∀ g : ℝ → ℝ, ∫ t in Set.Ioc (0 : ℝ) 1, g t = ∫ t in (0 : ℝ)..1, g t := fun g =>
    (intervalIntegral.integral_of_le zero_le_one).symm
  have hmul : ∀ j k : Nat, (fun t : ℝ => √2 * Real.cos (Real.pi * ((j + 1 : ℕ) * t)) *
      (√2 * Real.cos (Real.pi * ((k + 1 : ℕ) * t)))) = fun t => 2 *
        (Real.cos (Real.pi * ((j + 1 : ℕ) * t)) * Real.cos (Real.pi * ((k + 1 : ℕ) * t))) := by
    intro j k
    funext t
    have := Real.mul_self_sqrt (show (0 : ℝ) ≤ 2 by norm_num)
    linear_combination (Real.cos (Real.pi * ((j + 1 : ℕ) * t)) *
      Real.cos (Real.pi * ((k + 1 : ℕ) * t))) * this
  refine ⟨fun k => ?_, fun k => ?_, fun k => ?_, fun j k hjk => ?_⟩
  · refine MemLp.of_bound (Continuous.aestronglyMeasurable (by fun_prop)) (√2) (ae_of_all _ fun t => ?_)
    rw [norm_mul, Real.norm_eq_abs, Real.norm_eq_abs, abs_of_nonneg (Real.sqrt_nonneg 2)]
    exact mul_le_of_le_one_right (Real.sqrt_nonneg 2) (Real.abs_cos_le_one _)
  · rw [hii, intervalIntegral.integral_const_mul, integral_cos_nat _ (Nat.succ_ne_zero k), mul_zero]
  · rw [hii, hmul, intervalIntegral.integral_const_mul, integral_cos_mul_cos _ _ (Nat.succ_ne_zero k) le_rfl]
    norm_num
  · rw [hii, hmul, intervalIntegral.integral_const_mul]
    rcases Nat.lt_or_gt_of_ne hjk with h | h
    · rw [integral_cos_mul_cos _ _ (Nat.succ_ne_zero k) (by omega), if_neg (by omega), mul_zero]
    · simp only [mul_comm (Real.cos (Real.pi * ((j + 1 : ℕ) * _)))]
      rw [integral_cos_mul_cos _ _ (Nat.succ_ne_zero j) (by omega), if_neg (by omega), mul_zero]

/-- With this noise and `lr ‖φ‖² = 1/2` on the input `x = 1` of a line, the mean squared error of the
prediction tends to `1/3`. -/
example : ∃ (fas : ℝ → Nat → ScalarLFA (Closure ℝ ℝ) (SGD ℝ) ℝ) (ps : ℝ → Nat → ℝ),
    (∀ ω, Stream (fas ω) (fun _ => (1 : ℝ)) (fun k => 5 + √2 * Real.cos (Real.pi * ((k + 1 : ℕ) * ω))) (ps ω)) ∧
    Tendsto (fun k => ∫ ω in Set.Ioc (0 : ℝ) 1, (ps ω k - 5) ^ 2) atTop (𝓝 (1 / 3)) := by
  have hx : ∀ k : Nat, ∃ φ, Basis.project line ((fun _ => (1 : ℝ)) k) = .ok (.ok φ) ∧ Fits 2 φ := fun k =>
    ⟨_, (line_fits 1).1, (line_fits 1).2.1⟩
  choose fas ps hs using fun ω : ℝ => (C103_stream_exists line 2 (1 / 4) (fun _ => (1 : ℝ))
    (fun k => 5 + √2 * Real.cos (Real.pi * ((k + 1 : ℕ) * ω))) [0, 0] rfl hx).1
  have : IsProbabilityMeasure (volume.restrict (Set.Ioc (0 : ℝ) 1)) := ⟨by simp⟩
  refine ⟨fas, ps, fun ω => (hs ω).1, ?_⟩
  have h := (C129_sgd line 2 (1 / 4) (1 : ℝ) _ (line_fits 1).1 (line_fits 1).2.1 _ 1 whiteNoise_cos 5 _
    fas ps [0, 0] rfl (evaluate_eq (fa := LFA.mk line [0, 0] (SGD.mk (1 / 4))) (line_fits 1).1
      (dot_real (line_fits 1).2.1.1 rfl)) hs (1 / 2) (by rw [(line_fits 1).2.2]; norm_num)).2 (by norm_num) (by norm_num)
  norm_num at h ⊢
  exact h

/-! ## C130 One call with a noisy target -/

section
variable {Ω : Type} [MeasurableSpace Ω] {μ : Measure Ω} [IsProbabilityMeasure μ]
variable {B I O : Type} [Space B] [Basis B I ℝ] [Optimiser O ℝ]

theorem distSq_noise {b : B} {o : O} {n : Nat} {rate : Features ℝ → ℝ} {x : I} {φ : Features ℝ}
    (ht : TrainsBy b o n rate (fun x' => x = x')) (hφ : Basis.project b x = .ok (.ok φ)) (hf : Fits n φ)
    {ε : Ω → ℝ} {σ : ℝ} (hε : MemLp ε 2 μ) (hm : ∫ ω, ε ω ∂μ = 0) (hv : ∫ ω, ε ω * ε ω ∂μ = σ ^ 2)
    {w : List ℝ} (hw : w.length = n) {y : ℝ} {fa : ScalarLFA B O ℝ} {fas : Ω → ScalarLFA B O ℝ}
    (h : ScalarLFA.updateWith (LFA.mk b w o) x (fun _ v => y -. v) = .ok (.ok (), fa))
    (hs : ∀ ω, ScalarLFA.updateWith (LFA.mk b w o) x (fun _ v => (y + ε ω) -. v) = .ok (.ok (), fas ω))
    (v : List ℝ) :
    ∫ ω, distSq n (fas ω).weights v ∂μ = distSq n fa.weights v + rate φ ^ 2 * σ ^ 2 * normSq φ := by
  have hfa : ∀ i < n, entry fa.weights i = entry w i + rate φ * (y - Spec.inner φ w) * value φ i := by
    obtain ⟨w', -, s2, -, s4⟩ := ht w x φ y rfl hw hφ hf
    have := h.symm.trans s2
    simp only [Except.ok.injEq, Prod.mk.injEq, true_and] at this
    rw [this]; exact s4
  have hfas : ∀ ω, ∀ i < n, entry (fas ω).weights i = entry fa.weights i + rate φ * value φ i * ε ω := by
    intro ω i hi
    obtain ⟨w', -, s2, -, s4⟩ := ht w x φ (y + ε ω) rfl hw hφ hf
    have := (hs ω).symm.trans s2
    simp only [Except.ok.injEq, Prod.mk.injEq, true_and] at this
    rw [this, s4 i hi, hfa i hi]; ring
  have hexp : (fun ω => distSq n (fas ω).weights v) = fun ω => (distSq n fa.weights v +
      (∑ i ∈ Finset.range n, -2 * (entry v i - entry fa.weights i) * (rate φ * value φ i)) * ε ω) +
      rate φ ^ 2 * normSq φ * (ε ω * ε ω) := by
    funext ω
    unfold distSq normSq
    rw [hf.2, Finset.mul_sum, Finset.sum_mul, Finset.sum_mul, ← Finset.sum_add_distrib,
      ← Finset.sum_add_distrib]
    refine Finset.sum_congr rfl fun i hi => ?_
    rw [hfas ω i (Finset.mem_range.1 hi)]
    ring
  have hint : Integrable ε μ := hε.integrable (by norm_num)
  have hint2 : Integrable (fun ω => ε ω * ε ω) μ := hε.integrable_mul hε
  have i1 : Integrable (fun ω => distSq n fa.weights v +
      (∑ i ∈ Finset.range n, -2 * (entry v i - entry fa.weights i) * (rate φ * value φ i)) * ε ω) μ :=
    (integrable_const _).add (hint.const_mul _)
  rw [hexp, integral_add i1 (hint2.const_mul _), integral_add (integrable_const _) (hint.const_mul _),
    integral_const_mul, integral_const_mul, hm, hv]
  simp
  ring

end

section
variable {Ω : Type} [MeasurableSpace Ω] {μ : Measure Ω} [IsProbabilityMeasure μ]
variable {B I : Type} [Space B] [Basis B I ℝ]

/-- **C130.** Noise of variance `σ²` in the target of one SGD call adds exactly `lr² σ² ‖φ‖²` to the
mean squared distance of the new weights from any weights `v`. So no weights are approached closer
than that in the mean square, whatever the weights before the call. -/
theorem C130_sgd (b : B) (n : Nat) (lr : ℝ) (x : I) (φ : Features ℝ)
    (hφ : Basis.project b x = .ok (.ok φ)) (hf : Fits n φ) (ε : Ω → ℝ) (σ : ℝ) (hε : MemLp ε 2 μ)
    (hm : ∫ ω, ε ω ∂μ = 0) (hv : ∫ ω, ε ω * ε ω ∂μ = σ ^ 2) (w : List ℝ) (hw : w.length = n) (y : ℝ)
    (fa : ScalarLFA B (SGD ℝ) ℝ) (fas : Ω → ScalarLFA B (SGD ℝ) ℝ)
    (h : ScalarLFA.updateWith (LFA.mk b w (SGD.mk lr)) x (fun _ v => y - v) = .ok (.ok (), fa))
    (hs : ∀ ω, ScalarLFA.updateWith (LFA.mk b w (SGD.mk lr)) x (fun _ v => (y + ε ω) - v) =
      .ok (.ok (), fas ω)) (v : List ℝ) :
    ∫ ω, distSq n (fas ω).weights v ∂μ = distSq n fa.weights v + lr ^ 2 * σ ^ 2 * normSq φ ∧
      lr ^ 2 * σ ^ 2 * normSq φ ≤ ∫ ω, distSq n (fas ω).weights v ∂μ := by
  have := distSq_noise (sgd_trainsBy b lr n _) hφ hf hε hm hv hw h hs v
  exact ⟨this, by rw [this]; linarith [distSq_nonneg n fa.weights v]⟩

/-- ISGD. -/
theorem C130_isgd (b : B) (n : Nat) (lr : ℝ) (x : I) (φ : Features ℝ)
    (hφ : Basis.project b x = .ok (.ok φ)) (hf : Fits n φ) (ε : Ω → ℝ) (σ : ℝ) (hε : MemLp ε 2 μ)
    (hm : ∫ ω, ε ω ∂μ = 0) (hv : ∫ ω, ε ω * ε ω ∂μ = σ ^ 2) (w : List ℝ) (hw : w.length = n) (y : ℝ)
    (fa : ScalarLFA B (ISGD ℝ) ℝ) (fas : Ω → ScalarLFA B (ISGD ℝ) ℝ)
    (h : ScalarLFA.updateWith (LFA.mk b w (ISGD.mk lr)) x (fun _ v => y - v) = .ok (.ok (), fa))
    (hs : ∀ ω, ScalarLFA.updateWith (LFA.mk b w (ISGD.mk lr)) x (fun _ v => (y + ε ω) - v) =
      .ok (.ok (), fas ω)) (v : List ℝ) :
    ∫ ω, distSq n (fas ω).weights v ∂μ =
      distSq n fa.weights v + (lr / (1 + lr * normSq φ)) ^ 2 * σ ^ 2 * normSq φ := by
  exact distSq_noise (isgd_trainsBy b lr n _) hφ hf hε hm hv hw h hs v

end

/-! ## C131 The example of the documentation

The crate's front page fits `M x + C` by `SGD(1.0)` over `Polynomial::new(1, 1).with_zeroth()` on
samples with Gaussian noise of standard deviation 0.01, and asserts that the weights end up within
`1e-3` of `(M, C)`. -/

/-- A Gaussian variable of variance `v` is rarely within `r` of any point. -/
theorem gaussian_small_ball (m c r : ℝ) (v : NNReal) (hv : v ≠ 0) :
    gaussianReal m v {e | |e - c| < r} ≤ ENNReal.ofReal (2 * r / √(2 * Real.pi * v)) := by
  rw [gaussianReal_apply _ hv]
  have hset : {e : ℝ | |e - c| < r} = Metric.ball c r := by
    ext e; simp [Real.dist_eq]
  rw [hset]
  calc ∫⁻ x in Metric.ball c r, gaussianPDF m v x
      ≤ ∫⁻ _ in Metric.ball c r, ENNReal.ofReal (√(2 * Real.pi * v))⁻¹ := by
        refine lintegral_mono fun x => ENNReal.ofReal_le_ofReal ?_
        refine mul_le_of_le_one_right (by positivity) (Real.exp_le_one_iff.2 ?_)
        have : 0 ≤ (x - m) ^ 2 / (2 * (v : ℝ)) := by positivity
        rw [neg_div]
        linarith
    _ = ENNReal.ofReal (2 * r / √(2 * Real.pi * v)) := by
        rw [lintegral_const, Measure.restrict_apply_univ, Real.volume_ball,
          ← ENNReal.ofReal_mul (by positivity)]
        congr 1
        rw [div_eq_mul_inv]; ring

/-- The features of the example are `(x, 1)`. -/
theorem example_features : ∃ b, (Polynomial.new 1 1).withZeroth = .ok b ∧
    ∀ x : ℝ, Basis.project b [x] = .ok (.ok (.dense [x, 1])) := by
  obtain ⟨b, hb, hb', -⟩ := C25_polynomial_partial (Polynomial.new 1 1)
    ((C25_polynomial_nonempty 1 1).2 ⟨by norm_num, by norm_num⟩)
  refine ⟨b, hb, fun x => hb' [x] [x] ?_⟩
  show Except.ok (Except.ok (Features.dense [Polynomial.computeFeature [(x, 1)]])) = _
  simp [Polynomial.computeFeature]

/-- One call of the example, from any weights. -/
theorem C131_step (b : Polynomial) (hb : (Polynomial.new 1 1).withZeroth = .ok b) (w₀ w₁ x y : ℝ) :
    ScalarLFA.updateWith (LFA.mk b [w₀, w₁] (SGD.mk (1 : ℝ))) [x] (fun _ p => y - p) =
      .ok (.ok (), LFA.mk b [w₀ + (y - (w₀ * x + w₁)) * x, w₁ + (y - (w₀ * x + w₁))] (SGD.mk (1 : ℝ))) := by
  obtain ⟨b', hb', hpr⟩ := example_features
  rw [hb] at hb'
  cases hb'
  obtain ⟨w', -, s2, s3, s4⟩ := sgd_trainsBy b 1 2 (fun _ => True) [w₀, w₁] [x] (.dense [x, 1]) y trivial
    rfl (hpr x) ⟨trivial, rfl⟩
  have hin : Spec.inner (.dense [x, 1]) [w₀, w₁] = w₀ * x + w₁ := by
    rw [inner_eq]
    show ∑ i ∈ Finset.range 2, _ = _
    rw [Finset.sum_range_succ, Finset.sum_range_one]
    show x * w₀ + 1 * w₁ = _
    ring
  have : w' = [w₀ + (y - (w₀ * x + w₁)) * x, w₁ + (y - (w₀ * x + w₁))] := by
    refine ext_entry (s3.trans rfl) fun i hi => ?_
    rw [s3] at hi
    rw [s4 i hi, hin]
    interval_cases i
    · show w₀ + 1 * _ * x = w₀ + _
      ring
    · show w₁ + 1 * _ * 1 = w₁ + _
      ring
  rw [← this]
  exact s2

/-- **C131.** After any call of the example the assertion holds with probability at most 8 %: whatever
the weights before the call, the input (both may be random) and the line, if the noise of the last
sample is Gaussian with standard deviation 0.01 and independent of them. -/
theorem C131_example {Ω : Type} [MeasurableSpace Ω] (μ : Measure Ω) [IsProbabilityMeasure μ]
    (b : Polynomial) (hb : (Polynomial.new 1 1).withZeroth = .ok b) (M C : ℝ) (W : Ω → ℝ × ℝ)
    (X ε : Ω → ℝ) (hW : Measurable W) (hX : Measurable X) (hε : Measurable ε)
    (hind : IndepFun (fun ω => (W ω, X ω)) ε μ) (hlaw : μ.map ε = gaussianReal 0 (1 / 10000))
    (fas : Ω → ScalarLFA Polynomial (SGD ℝ) ℝ)
    (hs : ∀ ω, ScalarLFA.updateWith (LFA.mk b [(W ω).1, (W ω).2] (SGD.mk (1 : ℝ))) [X ω]
      (fun _ p => (M * X ω + C + ε ω) - p) = .ok (.ok (), fas ω)) :
    μ {ω | √((entry (fas ω).weights 0 - M) ^ 2 + (entry (fas ω).weights 1 - C) ^ 2) < 1 / 1000} ≤
      ENNReal.ofReal (8 / 100) := by
  -- the deviation of the prediction at the last input
  set c : (ℝ × ℝ) × ℝ → ℝ := fun z => ((z.1.1 - M) * z.2 + (z.1.2 - C)) * z.2 ^ 2 / (z.2 ^ 2 + 1) with hc
  have hcm : Measurable c := by
    apply Measurable.div
    · fun_prop
    · fun_prop
  have hsub : {ω | √((entry (fas ω).weights 0 - M) ^ 2 + (entry (fas ω).weights 1 - C) ^ 2) < 1 / 1000} ⊆
      (fun ω => ((W ω, X ω), ε ω)) ⁻¹' {z | |z.2 - c z.1| < 1 / 1000} := by
    intro ω hω
    have hfa := (hs ω).symm.trans (C131_step b hb (W ω).1 (W ω).2 (X ω) (M * X ω + C + ε ω))
    simp only [Except.ok.injEq, Prod.mk.injEq, true_and] at hfa
    rw [Set.mem_ofPred_eq, hfa] at hω
    rw [Set.mem_preimage, Set.mem_ofPred_eq]
    set x := X ω
    set d := ((W ω).1 - M) * x + ((W ω).2 - C)
    have e0 : entry [(W ω).1 + (M * x + C + ε ω - ((W ω).1 * x + (W ω).2)) * x,
        (W ω).2 + (M * x + C + ε ω - ((W ω).1 * x + (W ω).2))] 0 - M
        = ((W ω).1 - M) + (ε ω - d) * x := by
      show (W ω).1 + _ - M = _
      ring
    have e1 : entry [(W ω).1 + (M * x + C + ε ω - ((W ω).1 * x + (W ω).2)) * x,
        (W ω).2 + (M * x + C + ε ω - ((W ω).1 * x + (W ω).2))] 1 - C
        = ((W ω).2 - C) + (ε ω - d) := by
      show (W ω).2 + _ - C = _
      ring
    rw [show (LFA.mk b [(W ω).1 + (M * x + C + ε ω - ((W ω).1 * x + (W ω).2)) * x,
        (W ω).2 + (M * x + C + ε ω - ((W ω).1 * x + (W ω).2))] (SGD.mk (1 : ℝ))).weights = _ from rfl,
      e0, e1] at hω
    set u := ((W ω).1 - M) + (ε ω - d) * x
    set v := ((W ω).2 - C) + (ε ω - d)
    have hq : 0 < x ^ 2 + 1 := by positivity
    have huv : u * x + v = (ε ω - c (W ω, x)) * (x ^ 2 + 1) := by
      have : c (W ω, x) = d * x ^ 2 / (x ^ 2 + 1) := rfl
      rw [this, sub_mul, div_mul_cancel₀ _ hq.ne']
      show (((W ω).1 - M) + (ε ω - d) * x) * x + (((W ω).2 - C) + (ε ω - d)) = _
      have hd : d = ((W ω).1 - M) * x + ((W ω).2 - C) := rfl
      linear_combination -hd
    have h1 : u ^ 2 + v ^ 2 < (1 / 1000) ^ 2 := (Real.sqrt_lt' (by norm_num)).1 hω
    have h2 : (u * x + v) ^ 2 ≤ (u ^ 2 + v ^ 2) * (x ^ 2 + 1) := by nlinarith [sq_nonneg (u - v * x)]
    have h3 : ((ε ω - c (W ω, x)) * (x ^ 2 + 1)) ^ 2 < (1 / 1000) ^ 2 * (x ^ 2 + 1) := by
      rw [← huv]
      exact lt_of_le_of_lt h2 (mul_lt_mul_of_pos_right h1 hq)
    refine abs_lt_of_sq_lt_sq ?_ (by norm_num)
    have h4 : (ε ω - c (W ω, x)) ^ 2 * (x ^ 2 + 1) < (1 / 1000) ^ 2 := by
      have : (ε ω - c (W ω, x)) ^ 2 * (x ^ 2 + 1) * (x ^ 2 + 1) < (1 / 1000) ^ 2 * (x ^ 2 + 1) := by
        nlinarith [h3]
      exact lt_of_mul_lt_mul_right this hq.le
    nlinarith [sq_nonneg (ε ω - c (W ω, x)), sq_nonneg x, mul_nonneg (sq_nonneg (ε ω - c (W ω, x))) (sq_nonneg x)]
  refine (measure_mono hsub).trans ?_
  have hmeas : MeasurableSet {z : ((ℝ × ℝ) × ℝ) × ℝ | |z.2 - c z.1| < 1 / 1000} := by
    refine measurableSet_lt ?_ measurable_const
    exact (measurable_snd.sub (hcm.comp measurable_fst)).abs
  have hWX : Measurable fun ω => (W ω, X ω) := hW.prodMk hX
  rw [← Measure.map_apply (hWX.prodMk hε) hmeas,
    (indepFun_iff_map_prod_eq_prod_map_map hWX.aemeasurable hε.aemeasurable).1 hind, hlaw,
    Measure.prod_apply hmeas]
  have hball : ∀ z, gaussianReal 0 (1 / 10000) (Prod.mk z ⁻¹' {z | |z.2 - c z.1| < 1 / 1000})
      ≤ ENNReal.ofReal (8 / 100) := by
    intro z
    refine (gaussian_small_ball 0 (c z) (1 / 1000) (1 / 10000) (by norm_num)).trans
      (ENNReal.ofReal_le_ofReal ?_)
    have hs : (1 / 40 : ℝ) ≤ √(2 * Real.pi * ((1 / 10000 : NNReal) : ℝ)) := by
      apply Real.le_sqrt_of_sq_le
      push_cast
      nlinarith [Real.pi_gt_d2]
    rw [div_le_iff₀ (lt_of_lt_of_le (by norm_num) hs)]
    linarith
  have : IsProbabilityMeasure (μ.map fun ω => (W ω, X ω)) := Measure.isProbabilityMeasure_map hWX.aemeasurable
  calc _ ≤ ∫⁻ _, ENNReal.ofReal (8 / 100) ∂(μ.map fun ω => (W ω, X ω)) := lintegral_mono hball
    _ = ENNReal.ofReal (8 / 100) := by simp

end Lfa

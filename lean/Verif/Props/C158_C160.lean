import Verif.Spec.Schedule
import Verif.Proofs.Rates
import Verif.Props.C128_C131
import Verif.Props.C72_C79
import Mathlib.Probability.StrongLaw
import Mathlib.Probability.HasLawExists
import Mathlib.Analysis.PSeries

/-!
# C158–C160: learning rates that change from call to call

The learning rates of `SGD` and `ISGD` and the field `optimiser` of an approximator are public, so that a
caller can set the rate before every call. Exact arithmetic.
-/

set_option linter.unusedSectionVars false

namespace Lfa

open Spec MeasureTheory ProbabilityTheory Filter Topology

section
variable {B I O : Type} [Space B] [Basis B I ℝ] [Optimiser O ℝ]

/-- The weights along a run with varying rates. -/
theorem schedule_entries {b : B} {os : Nat → O} {n : Nat} {rate : Nat → Features ℝ → ℝ}
    (ht : ∀ k, TrainsBy (I := I) b (os k) n (rate k) (fun _ => True)) {xs : Nat → I} {φ : Nat → Features ℝ}
    (hφ : ∀ k, Basis.project b (xs k) = .ok (.ok (φ k)) ∧ Fits n (φ k)) {ys ps : Nat → ℝ}
    {fas : Nat → ScalarLFA B O ℝ} (hs : Schedule os fas xs ys ps) (hb : (fas 0).basis = b)
    (hw : (fas 0).weights.length = n) (k : Nat) :
    (fas k).basis = b ∧ (fas k).weights.length = n ∧ ps k = Spec.inner (φ k) (fas k).weights ∧
      ∀ i < n, entry (fas (k + 1)).weights i = entry (fas k).weights i +
        rate k (φ k) * (ys k - ps k) * value (φ k) i := by
  have step : ∀ k, (fas k).basis = b → (fas k).weights.length = n →
      (fas (k + 1)).basis = b ∧ (fas (k + 1)).weights.length = n ∧
      ps k = Spec.inner (φ k) (fas k).weights ∧ ∀ i < n,
        entry (fas (k + 1)).weights i = entry (fas k).weights i +
          rate k (φ k) * (ys k - ps k) * value (φ k) i := by
    intro k h1 h2
    obtain ⟨w', -, s2, s3, s4⟩ := ht k (fas k).weights (xs k) (φ k) (ys k) trivial h2 (hφ k).1 (hφ k).2
    have hp : ps k = Spec.inner (φ k) (fas k).weights := by
      have h3 := hs.predicts k
      have h4 : (fas k).evaluate (xs k) = .ok (.ok (Spec.inner (φ k) (fas k).weights)) :=
        evaluate_eq (by rw [h1]; exact (hφ k).1) (dot_real (hφ k).2.1 ((hφ k).2.2.trans h2.symm))
      rw [h3] at h4
      simpa using h4
    have hu := hs.updates k
    rw [h1] at hu
    have hu := hu.symm.trans s2
    simp only [Except.ok.injEq, Prod.mk.injEq, true_and] at hu
    rw [hu, hp]
    exact ⟨rfl, s3, rfl, s4⟩
  have key : (fas k).basis = b ∧ (fas k).weights.length = n := by
    induction k with
    | zero => exact ⟨hb, hw⟩
    | succ k ih => exact ⟨(step k ih.1 ih.2).1, (step k ih.1 ih.2).2.1⟩
  exact ⟨key.1, key.2, (step k key.1 key.2).2.2⟩

/-- On a repeated input the prediction moves towards the target by a fraction `rate ‖φ‖²`. -/
theorem schedule_repeat {b : B} {os : Nat → O} {n : Nat} {rate : Nat → Features ℝ → ℝ}
    (ht : ∀ k, TrainsBy (I := I) b (os k) n (rate k) (fun _ => True)) {x : I} {φ : Features ℝ}
    (hφ : Basis.project b x = .ok (.ok φ)) (hf : Fits n φ) {ys ps : Nat → ℝ}
    {fas : Nat → ScalarLFA B O ℝ} (hs : Schedule os fas (fun _ => x) ys ps) (hb : (fas 0).basis = b)
    (hw : (fas 0).weights.length = n) (k : Nat) :
    ps (k + 1) = ps k + rate k φ * normSq φ * (ys k - ps k) := by
  have h := schedule_entries ht (φ := fun _ => φ) (fun _ => ⟨hφ, hf⟩) hs hb hw
  obtain ⟨-, -, h3, h4⟩ := h k
  obtain ⟨-, -, h5, -⟩ := h (k + 1)
  rw [h5, inner_moved hf.2 h4, ← h3]
  ring

/-- Such runs exist. -/
theorem schedule_exists {b : B} {os : Nat → O} {n : Nat} {rate : Nat → Features ℝ → ℝ}
    (ht : ∀ k, TrainsBy (I := I) b (os k) n (rate k) (fun _ => True)) (xs : Nat → I)
    (hx : ∀ k, ∃ φ, Basis.project b (xs k) = .ok (.ok φ) ∧ Fits n φ) (ys : Nat → ℝ) (w : List ℝ)
    (hw : w.length = n) (o : O) :
    ∃ (fas : Nat → ScalarLFA B O ℝ) (ps : Nat → ℝ), Schedule os fas xs ys ps ∧ fas 0 = LFA.mk b w o := by
  let Good : ScalarLFA B O ℝ → Prop := fun fa => fa.basis = b ∧ fa.weights.length = n
  have step : ∀ (k : Nat) (fa : {fa : ScalarLFA B O ℝ // Good fa}), ∃ fa' : {fa : ScalarLFA B O ℝ // Good fa},
      ScalarLFA.updateWith (LFA.mk fa.1.basis fa.1.weights (os k)) (xs k) (fun _ v => ys k -. v) = .ok (.ok (), fa'.1) ∧
      ∃ p, fa.1.evaluate (xs k) = .ok (.ok p) := by
    rintro k ⟨⟨b', v, o'⟩, h1, h2⟩
    obtain ⟨φ, hp, hf⟩ := hx k
    obtain ⟨w', -, s2, s3, -⟩ := ht k v (xs k) φ (ys k) trivial h2 hp hf
    have h1 : b' = b := h1
    subst h1
    exact ⟨⟨LFA.mk b' w' (os k), rfl, s3⟩, s2, _, evaluate_eq hp (dot_real hf.1 (hf.2.trans h2.symm))⟩
  choose next hn hp using step
  let run : Nat → {fa : ScalarLFA B O ℝ // Good fa} := fun k =>
    Nat.rec ⟨LFA.mk b w o, rfl, hw⟩ (fun k fa => next k fa) k
  choose p hpp using fun k => hp k (run k)
  exact ⟨fun k => (run k).1, p, ⟨hpp, fun k => hn k (run k)⟩, rfl⟩

end

/-! ## C158 Which rates reach the target -/

section
variable {B I : Type} [Space B] [Basis B I ℝ]

/-- **C158.** SGD with rate `l k` in the `k`-th call, always on the same input and target: the error of the
prediction is multiplied by `1 - l k ‖φ‖²`. -/
theorem C158_error (b : B) (n : Nat) (l : Nat → ℝ) (x : I) (φ : Features ℝ)
    (hφ : Basis.project b x = .ok (.ok φ)) (hf : Fits n φ) (y : ℝ) (ps : Nat → ℝ)
    (fas : Nat → ScalarLFA B (SGD ℝ) ℝ) (hs : Schedule (fun k => SGD.mk (l k)) fas (fun _ => x) (fun _ => y) ps)
    (hb : (fas 0).basis = b) (hw : (fas 0).weights.length = n) (k : Nat) :
    ps k - y = (∏ j ∈ Finset.range k, (1 - l j * normSq φ)) * (ps 0 - y) := by
  induction k with
  | zero => simp
  | succ k ih =>
    rw [schedule_repeat (fun k => sgd_trainsBy b (l k) n _) hφ hf hs hb hw, Finset.prod_range_succ]
    linear_combination (1 - l k * normSq φ) * ih

/-- ISGD: the error is divided by `1 + l k ‖φ‖²`. -/
theorem C158_error_isgd (b : B) (n : Nat) (l : Nat → ℝ) (hl : ∀ k, 0 ≤ l k) (x : I) (φ : Features ℝ)
    (hφ : Basis.project b x = .ok (.ok φ)) (hf : Fits n φ) (y : ℝ) (ps : Nat → ℝ)
    (fas : Nat → ScalarLFA B (ISGD ℝ) ℝ)
    (hs : Schedule (fun k => ISGD.mk (l k)) fas (fun _ => x) (fun _ => y) ps)
    (hb : (fas 0).basis = b) (hw : (fas 0).weights.length = n) (k : Nat) :
    ps k - y = (ps 0 - y) / ∏ j ∈ Finset.range k, (1 + l j * normSq φ) := by
  have hq : 0 ≤ normSq φ := Finset.sum_nonneg fun i _ => mul_self_nonneg _
  have hpos : ∀ k, 0 < 1 + l k * normSq φ := fun k => by have := mul_nonneg (hl k) hq; linarith
  induction k with
  | zero => simp
  | succ k ih =>
    have h := schedule_repeat (fun k => isgd_trainsBy b (l k) n _) hφ hf hs hb hw k
    have hP : 0 < ∏ j ∈ Finset.range k, (1 + l j * normSq φ) := Finset.prod_pos fun j _ => hpos j
    have h1 := hpos k
    rw [Finset.prod_range_succ, eq_div_iff (by positivity)]
    rw [eq_div_iff hP.ne'] at ih
    rw [← ih, h]
    field_simp
    ring

/-- Rates below `1 / ‖φ‖²`: the prediction reaches the target exactly when the rates have an infinite
sum. -/
theorem C158_sgd_iff (b : B) (n : Nat) (l : Nat → ℝ) (x : I) (φ : Features ℝ)
    (hφ : Basis.project b x = .ok (.ok φ)) (hf : Fits n φ) (hq : 0 < normSq φ) (hl : ∀ k, 0 ≤ l k)
    (hl1 : ∀ k, l k * normSq φ < 1) (y : ℝ) (ps : Nat → ℝ) (fas : Nat → ScalarLFA B (SGD ℝ) ℝ)
    (hs : Schedule (fun k => SGD.mk (l k)) fas (fun _ => x) (fun _ => y) ps)
    (hb : (fas 0).basis = b) (hw : (fas 0).weights.length = n) (hne : ps 0 ≠ y) :
    Tendsto ps atTop (𝓝 y) ↔ ¬ Summable l := by
  have h := error_tendsto_iff (a := fun k => l k * normSq φ) (e := fun k => ps k - y)
    (fun k => mul_nonneg (hl k) hq.le) hl1 (fun k => by
      show ps (k + 1) - y = _
      rw [schedule_repeat (fun k => sgd_trainsBy b (l k) n _) hφ hf hs hb hw]
      ring) (sub_ne_zero.2 hne)
  rw [summable_mul_right_iff hq.ne'] at h
  rw [← h, tendsto_sub_nhds_zero_iff]

/-- ISGD: the same for all rates that are not negative. -/
theorem C158_isgd_iff (b : B) (n : Nat) (l : Nat → ℝ) (x : I) (φ : Features ℝ)
    (hφ : Basis.project b x = .ok (.ok φ)) (hf : Fits n φ) (hq : 0 < normSq φ) (hl : ∀ k, 0 ≤ l k)
    (y : ℝ) (ps : Nat → ℝ) (fas : Nat → ScalarLFA B (ISGD ℝ) ℝ)
    (hs : Schedule (fun k => ISGD.mk (l k)) fas (fun _ => x) (fun _ => y) ps)
    (hb : (fas 0).basis = b) (hw : (fas 0).weights.length = n) (hne : ps 0 ≠ y) :
    Tendsto ps atTop (𝓝 y) ↔ ¬ Summable l := by
  have hn : ∀ k, 0 ≤ l k * normSq φ := fun k => mul_nonneg (hl k) hq.le
  have h := error_tendsto_iff (a := fun k => l k * normSq φ / (1 + l k * normSq φ)) (e := fun k => ps k - y)
    (fun k => div_nonneg (hn k) (by linarith [hn k]))
    (fun k => by rw [div_lt_one (by linarith [hn k])]; linarith) (fun k => by
      show ps (k + 1) - y = _
      rw [schedule_repeat (fun k => isgd_trainsBy b (l k) n _) hφ hf hs hb hw]
      ring) (sub_ne_zero.2 hne)
  rw [implicit_summable_iff hn, summable_mul_right_iff hq.ne'] at h
  rw [← h, tendsto_sub_nhds_zero_iff]

/-- The runs of C158 to C160 exist for all inputs, targets and rates. -/
theorem C158_sgd_exists (b : B) (n : Nat) (l : Nat → ℝ) (xs : Nat → I)
    (hx : ∀ k, ∃ φ, Basis.project b (xs k) = .ok (.ok φ) ∧ Fits n φ) (ys : Nat → ℝ) (w : List ℝ)
    (hw : w.length = n) (lr : ℝ) : ∃ (fas : Nat → ScalarLFA B (SGD ℝ) ℝ) (ps : Nat → ℝ),
      Schedule (fun k => SGD.mk (l k)) fas xs ys ps ∧ fas 0 = LFA.mk b w (SGD.mk lr) :=
  schedule_exists (fun k => sgd_trainsBy b (l k) n _) xs hx ys w hw _

@[inherit_doc C158_sgd_exists]
theorem C158_isgd_exists (b : B) (n : Nat) (l : Nat → ℝ) (xs : Nat → I)
    (hx : ∀ k, ∃ φ, Basis.project b (xs k) = .ok (.ok φ) ∧ Fits n φ) (ys : Nat → ℝ) (w : List ℝ)
    (hw : w.length = n) (lr : ℝ) : ∃ (fas : Nat → ScalarLFA B (ISGD ℝ) ℝ) (ps : Nat → ℝ),
      Schedule (fun k => ISGD.mk (l k)) fas xs ys ps ∧ fas 0 = LFA.mk b w (ISGD.mk lr) :=
  schedule_exists (fun k => isgd_trainsBy b (l k) n _) xs hx ys w hw _

end

/-- C158: on a line, at `x = 1`, ISGD reaches the target 5 with the rates `1 / (k + 1)` and not with the rates
`1 / (k + 1)²`. -/
example : ∃ (fas gas : Nat → ScalarLFA (Closure ℝ ℝ) (ISGD ℝ) ℝ) (ps qs : Nat → ℝ),
    Schedule (fun k => ISGD.mk (1 / ((k + 1 : ℕ) : ℝ))) fas (fun _ => (1 : ℝ)) (fun _ => 5) ps ∧
    Schedule (fun k => ISGD.mk (1 / ((k + 1 : ℕ) : ℝ) ^ 2)) gas (fun _ => (1 : ℝ)) (fun _ => 5) qs ∧
    Tendsto ps atTop (𝓝 5) ∧ ¬ Tendsto qs atTop (𝓝 5) := by
  obtain ⟨h1, h2, h3⟩ := line_fits 1
  have hq : 0 < normSq (.dense [1, (1 : ℝ)]) := by rw [h3]; norm_num
  obtain ⟨fas, ps, hs, h0⟩ := C158_isgd_exists line 2 (fun k => 1 / ((k + 1 : ℕ) : ℝ)) (fun _ => (1 : ℝ))
    (fun _ => ⟨_, h1, h2⟩) (fun _ => 5) [0, 0] rfl 0
  obtain ⟨gas, qs, gs, g0⟩ := C158_isgd_exists line 2 (fun k => 1 / ((k + 1 : ℕ) : ℝ) ^ 2) (fun _ => (1 : ℝ))
    (fun _ => ⟨_, h1, h2⟩) (fun _ => 5) [0, 0] rfl 0
  have zero : ∀ {p : ℝ} {fa : ScalarLFA (Closure ℝ ℝ) (ISGD ℝ) ℝ}, fa = LFA.mk line [0, 0] (ISGD.mk 0) →
      fa.evaluate (1 : ℝ) = .ok (.ok p) → p ≠ 5 := by
    rintro p fa rfl h
    have h4 := evaluate_eq (fa := LFA.mk line [0, 0] (ISGD.mk 0)) h1 (dot_real (w := [0, 0]) h2.1 rfl)
    have : Spec.inner (.dense [1, (1 : ℝ)]) [0, 0] = p := by simpa using h4.symm.trans h
    rw [← this, inner_eq]
    show ∑ i ∈ Finset.range 2, _ ≠ _
    simp [Finset.sum_range_succ, entry]
  refine ⟨fas, gas, ps, qs, hs, gs, ?_, ?_⟩
  · refine (C158_isgd_iff line 2 _ 1 _ h1 h2 hq (fun k => by positivity) 5 ps fas hs (by rw [h0])
      (by rw [h0]; rfl) (zero h0 (hs.predicts 0))).2 ?_
    rw [summable_nat_add_iff 1 (f := fun k => 1 / (k : ℝ))]
    exact Real.not_summable_one_div_natCast
  · rw [C158_isgd_iff line 2 _ 1 _ h1 h2 hq (fun k => by positivity) 5 qs gas gs (by rw [g0])
      (by rw [g0]; rfl) (zero g0 (gs.predicts 0)), not_not]
    rw [summable_nat_add_iff 1 (f := fun k => 1 / (k : ℝ) ^ 2)]
    exact Real.summable_one_div_nat_pow.2 (by norm_num)

/-! ## C159 Rates that average -/

section
variable {B I : Type} [Space B] [Basis B I ℝ]

/-- **C159.** SGD with the rate `1 / (k ‖φ‖²)` in the `k`-th call on a repeated input: the prediction is the mean
of the targets so far, whatever the initial weights. -/
theorem C159_mean (b : B) (n : Nat) (x : I) (φ : Features ℝ) (hφ : Basis.project b x = .ok (.ok φ))
    (hf : Fits n φ) (hq : 0 < normSq φ) (ys ps : Nat → ℝ) (fas : Nat → ScalarLFA B (SGD ℝ) ℝ)
    (hs : Schedule (fun k => SGD.mk (1 / ((k + 1 : ℕ) * normSq φ))) fas (fun _ => x) ys ps)
    (hb : (fas 0).basis = b) (hw : (fas 0).weights.length = n) (k : Nat) (hk : 0 < k) :
    ps k = (∑ j ∈ Finset.range k, ys j) / k := by
  have key : ∀ k : Nat, (k : ℝ) * ps k = ∑ j ∈ Finset.range k, ys j := by
    intro k
    induction k with
    | zero => simp
    | succ k ih =>
      rw [schedule_repeat (fun k => sgd_trainsBy b _ n _) hφ hf hs hb hw, Finset.sum_range_succ, ← ih]
      have : ((k + 1 : ℕ) : ℝ) ≠ 0 := by positivity
      field_simp
      push_cast
      ring
  rw [← key k]
  have : (k : ℝ) ≠ 0 := by positivity
  field_simp

/-- ISGD with the same rates counts the initial prediction as one more target. -/
theorem C159_mean_isgd (b : B) (n : Nat) (x : I) (φ : Features ℝ) (hφ : Basis.project b x = .ok (.ok φ))
    (hf : Fits n φ) (hq : 0 < normSq φ) (ys ps : Nat → ℝ) (fas : Nat → ScalarLFA B (ISGD ℝ) ℝ)
    (hs : Schedule (fun k => ISGD.mk (1 / ((k + 1 : ℕ) * normSq φ))) fas (fun _ => x) ys ps)
    (hb : (fas 0).basis = b) (hw : (fas 0).weights.length = n) (k : Nat) :
    ps k = (ps 0 + ∑ j ∈ Finset.range k, ys j) / (k + 1 : ℕ) := by
  rw [eq_div_iff (by positivity)]
  induction k with
  | zero => simp
  | succ k ih =>
    rw [schedule_repeat (fun k => isgd_trainsBy b _ n _) hφ hf hs hb hw, Finset.sum_range_succ, ← add_assoc,
      ← ih]
    have h1 : ((k + 1 : ℕ) : ℝ) ≠ 0 := by positivity
    have h2 : (1 : ℝ) + 1 / ((k + 1 : ℕ) * normSq φ) * normSq φ = ((k + 1 + 1 : ℕ) : ℝ) / (k + 1 : ℕ) := by
      field_simp
      push_cast
      ring
    have h3 : ((k + 1 + 1 : ℕ) : ℝ) ≠ 0 := by positivity
    rw [h2]
    field_simp
    push_cast
    ring

/-- Independent, identically distributed targets with a mean: the predictions converge to the mean with
probability one. -/
theorem C159_almost_surely {Ω : Type} [MeasurableSpace Ω] (μ : Measure Ω) (Y : Nat → Ω → ℝ)
    (hint : Integrable (Y 0) μ) (hind : Pairwise fun i j => IndepFun (Y i) (Y j) μ)
    (hid : ∀ i, IdentDistrib (Y i) (Y 0) μ μ)
    (b : B) (n : Nat) (x : I) (φ : Features ℝ) (hφ : Basis.project b x = .ok (.ok φ)) (hf : Fits n φ)
    (hq : 0 < normSq φ) (ps : Ω → Nat → ℝ) (fas : Ω → Nat → ScalarLFA B (SGD ℝ) ℝ)
    (hs : ∀ ω, Schedule (fun k => SGD.mk (1 / ((k + 1 : ℕ) * normSq φ))) (fas ω) (fun _ => x)
      (fun k => Y k ω) (ps ω))
    (h0 : ∀ ω, (fas ω 0).basis = b ∧ (fas ω 0).weights.length = n) :
    ∀ᵐ ω ∂μ, Tendsto (ps ω) atTop (𝓝 (∫ ω, Y 0 ω ∂μ)) := by
  filter_upwards [strong_law_ae_real Y hint hind hid] with ω hω
  refine hω.congr' ?_
  filter_upwards [eventually_gt_atTop 0] with k hk
  exact (C159_mean b n x φ hφ hf hq _ _ _ (hs ω) (h0 ω).1 (h0 ω).2 k hk).symm

@[inherit_doc C159_almost_surely]
theorem C159_almost_surely_isgd {Ω : Type} [MeasurableSpace Ω] (μ : Measure Ω) (Y : Nat → Ω → ℝ)
    (hint : Integrable (Y 0) μ) (hind : Pairwise fun i j => IndepFun (Y i) (Y j) μ)
    (hid : ∀ i, IdentDistrib (Y i) (Y 0) μ μ)
    (b : B) (n : Nat) (x : I) (φ : Features ℝ) (hφ : Basis.project b x = .ok (.ok φ)) (hf : Fits n φ)
    (hq : 0 < normSq φ) (ps : Ω → Nat → ℝ) (fas : Ω → Nat → ScalarLFA B (ISGD ℝ) ℝ)
    (hs : ∀ ω, Schedule (fun k => ISGD.mk (1 / ((k + 1 : ℕ) * normSq φ))) (fas ω) (fun _ => x)
      (fun k => Y k ω) (ps ω))
    (h0 : ∀ ω, (fas ω 0).basis = b ∧ (fas ω 0).weights.length = n) :
    ∀ᵐ ω ∂μ, Tendsto (ps ω) atTop (𝓝 (∫ ω, Y 0 ω ∂μ)) := by
  filter_upwards [strong_law_ae_real Y hint hind hid] with ω hω
  have h1 : Tendsto (fun k : ℕ => (k : ℝ) / ((k : ℝ) + 1)) atTop (𝓝 1) := tendsto_natCast_div_add_atTop 1
  have h2 : Tendsto (fun k : ℕ => ps ω 0 / ((k : ℝ) + 1)) atTop (𝓝 0) := by
    have := (tendsto_one_div_add_atTop_nhds_zero_nat (𝕜 := ℝ)).const_mul (ps ω 0)
    rw [mul_zero] at this
    exact this.congr fun k => by rw [mul_one_div]
  have h3 := h2.add (hω.mul h1)
  rw [mul_one, zero_add] at h3
  refine h3.congr' ?_
  filter_upwards [eventually_gt_atTop 0] with k hk
  rw [C159_mean_isgd b n x φ hφ hf hq _ _ _ (hs ω) (h0 ω).1 (h0 ω).2 k]
  have : (k : ℝ) ≠ 0 := by positivity
  push_cast
  field_simp

open Classical in
/-- The calls before the `k`-th whose input has the features of `x`. -/
noncomputable def visits {B I : Type} [Space B] [Basis B I ℝ] (b : B) (xs : Nat → I) (k : Nat) (x : I) : Finset Nat :=
  (Finset.range k).filter fun j => (Basis.project b (xs j) : P (Result (Features ℝ))) = Basis.project b x

/-- A uniform grid with rate one over the number of visits to the cell of the input, this one included: every
cell that was visited holds the mean of its targets. -/
theorem C159_table (ds : List (Equipartition ℝ)) (h : ∀ d ∈ ds, d.Lawful) (hds : ds ≠ [])
    (xs : Nat → List ℝ) (hx : ∀ k, (xs k).length = ds.length) (ys ps : Nat → ℝ)
    (fas : Nat → ScalarLFA (UniformGrid ℝ) (SGD ℝ) ℝ)
    (hs : Schedule (fun k => SGD.mk (1 / ((visits (UniformGrid.new ds) xs (k + 1) (xs k)).card : ℝ))) fas xs
      ys ps)
    (hb : (fas 0).basis = UniformGrid.new ds)
    (hw : (fas 0).weights.length = (ds.map Equipartition.nPartitions).prod) (k : Nat) (x : List ℝ)
    (hxl : x.length = ds.length) (hv : (visits (UniformGrid.new ds) xs k x).Nonempty) :
    (fas k).evaluate x = .ok (.ok ((∑ j ∈ visits (UniformGrid.new ds) xs k x, ys j)
      / (visits (UniformGrid.new ds) xs k x).card)) := by
  classical
  have hcell := fun (z : List ℝ) (hz : z.length = ds.length) => grid_fits ds h hds z (length_ne_nil hds hz)
  choose c hc1 hc2 hc3 using hcell
  have hval : ∀ (m i : Nat), m < (ds.map Equipartition.nPartitions).prod →
      value (.sparse ⟨(ds.map Equipartition.nPartitions).prod, [(m, (Scalar.one : ℝ))]⟩) i
        = if i = m then 1 else 0 := by
    intro m i hm
    have hu : KeysUnique (.sparse ⟨(ds.map Equipartition.nPartitions).prod, [(m, (Scalar.one : ℝ))]⟩) :=
      keysUnique_of_wf ⟨by simp, by simpa using hm⟩
    split
    · next hi =>
      subst hi
      rw [value_of_stored hu (a := (Scalar.one : ℝ)) (by show (i, (Scalar.one : ℝ)) ∈ _; exact List.mem_cons_self), real_one]
    · next hi =>
      rw [value_of_not_stored, real_zero]
      intro a ha
      have : (i, a) ∈ [(m, (Scalar.one : ℝ))] := ha
      rw [List.mem_singleton] at this
      exact hi (Prod.ext_iff.1 this).1
  have hin : ∀ (m : Nat) (w : List ℝ), m < (ds.map Equipartition.nPartitions).prod →
      Spec.inner (.sparse ⟨(ds.map Equipartition.nPartitions).prod, [(m, (Scalar.one : ℝ))]⟩) w = entry w m := by
    intro m w hm
    rw [inner_eq]
    show ∑ i ∈ Finset.range (ds.map Equipartition.nPartitions).prod, _ = _
    rw [Finset.sum_eq_single m]
    · rw [hval m m hm, if_pos rfl, one_mul]
    · intro i _ hi
      rw [hval m i hm, if_neg hi, zero_mul]
    · intro hk'; exact absurd (Finset.mem_range.2 hm) hk'
  have hiff : ∀ (z z' : List ℝ) (hz : z.length = ds.length) (hz' : z'.length = ds.length),
      ((Basis.project (UniformGrid.new ds) z : P (Result (Features ℝ))) = Basis.project (UniformGrid.new ds) z')
        ↔ c z hz = c z' hz' := by
    intro z z' hz hz'
    rw [hc1 z hz, hc1 z' hz']
    constructor
    · intro he
      simpa using he
    · intro he
      rw [he]
  have he := schedule_entries (fun k => sgd_trainsBy (I := List ℝ) (UniformGrid.new ds)
    (1 / ((visits (UniformGrid.new ds) xs (k + 1) (xs k)).card : ℝ)) _ _)
    (φ := fun k => .sparse ⟨(ds.map Equipartition.nPartitions).prod, [(c (xs k) (hx k), (Scalar.one : ℝ))]⟩)
    (fun k => ⟨hc1 _ (hx k), hc3 _ (hx k)⟩) hs hb hw
  have hvis : ∀ k z (hz : z.length = ds.length), visits (UniformGrid.new ds) xs k z
      = (Finset.range k).filter fun j => c (xs j) (hx j) = c z hz := by
    intro k z hz
    unfold visits
    refine Finset.filter_congr fun j _ => hiff _ _ (hx j) hz
  have key : ∀ k, ∀ i < (ds.map Equipartition.nPartitions).prod,
      (((Finset.range k).filter fun j => c (xs j) (hx j) = i).card : ℝ) * entry (fas k).weights i
        = ∑ j ∈ (Finset.range k).filter (fun j => c (xs j) (hx j) = i), ys j := by
    intro k
    induction k with
    | zero => simp
    | succ k ih =>
      intro i hi
      obtain ⟨-, -, e3, e4⟩ := he k
      rw [e4 i hi, hval _ i (hc2 _ _), Finset.range_add_one, Finset.filter_insert]
      by_cases hci : c (xs k) (hx k) = i
      · rw [if_pos hci, if_pos hci.symm, Finset.sum_insert (by simp), Finset.card_insert_of_notMem (by simp),
          ← ih i hi, hvis (k + 1) (xs k) (hx k), Finset.range_add_one, Finset.filter_insert, if_pos rfl,
          Finset.card_insert_of_notMem (by simp), e3, hin _ _ (hc2 _ _), hci]
        have : (((Finset.range k).filter fun j => c (xs j) (hx j) = i).card + 1 : ℝ) ≠ 0 := by positivity
        push_cast
        field_simp
        ring
      · rw [if_neg hci, if_neg (Ne.symm hci), mul_zero, add_zero, ih i hi]
  obtain ⟨e1, e2, -, -⟩ := he k
  have hev : (fas k).evaluate x = .ok (.ok (entry (fas k).weights (c x hxl))) := by
    rw [← hin _ _ (hc2 x hxl)]
    exact evaluate_eq (by rw [e1]; exact hc1 x hxl) (dot_real (hc3 x hxl).1 ((hc3 x hxl).2.trans e2.symm))
  have hk := key k _ (hc2 x hxl)
  rw [← hvis k x hxl] at hk
  have hc : ((visits (UniformGrid.new ds) xs k x).card : ℝ) ≠ 0 := by
    have := hv.card_pos
    positivity
  rw [hev, ← hk, mul_div_cancel_left₀ _ hc]

end

/-- C159: independent normal targets with mean 3 on a line, at `x = 1`. -/
example : ∃ (Ω : Type) (_ : MeasurableSpace Ω) (μ : Measure Ω) (Y : Nat → Ω → ℝ)
    (fas : Ω → Nat → ScalarLFA (Closure ℝ ℝ) (SGD ℝ) ℝ) (ps : Ω → Nat → ℝ),
    (∀ k, HasLaw (Y k) (gaussianReal 3 1) μ) ∧ iIndepFun Y μ ∧
    (∀ ω, Schedule (fun k => SGD.mk (1 / ((k + 1 : ℕ) * (2 : ℝ)))) (fas ω) (fun _ => (1 : ℝ)) (fun k => Y k ω) (ps ω)) ∧
    ∀ᵐ ω ∂μ, Tendsto (ps ω) atTop (𝓝 3) := by
  obtain ⟨h1, h2, h3⟩ := line_fits 1
  have h3 : normSq (.dense [1, (1 : ℝ)]) = 2 := by rw [h3]; norm_num
  obtain ⟨Ω, mΩ, μ, Y, hm, hl, hi, hμ⟩ := exists_iid Nat (gaussianReal 3 1)
  choose fas ps hs h0 using fun ω => C158_sgd_exists line 2 (fun k => 1 / ((k + 1 : ℕ) * (2 : ℝ))) (fun _ => (1 : ℝ))
    (fun _ => ⟨_, h1, h2⟩) (fun k => Y k ω) [0, 0] rfl 0
  have hmean : ∫ ω, Y 0 ω ∂μ = 3 := by rw [(hl 0).integral_eq]; simp
  refine ⟨Ω, mΩ, μ, Y, fas, ps, hl, hi, hs, ?_⟩
  rw [← hmean]
  refine C159_almost_surely μ Y (((hl 0).identDistrib HasLaw.id).integrable_iff.2 ?_) (fun i j hij => hi.indepFun hij) (fun i => (hl i).identDistrib (hl 0)) line 2
    (1 : ℝ) _ h1 h2 (by rw [h3]; norm_num) ps fas (by rw [h3]; exact hs) fun ω => by rw [h0]; exact ⟨rfl, rfl⟩
  exact (memLp_id_gaussianReal 1).integrable le_rfl

/-- C159: a table with ten cells that is visited at random places. -/
example (xs ys : Nat → ℝ) : ∃ (fas : Nat → ScalarLFA (UniformGrid ℝ) (SGD ℝ) ℝ) (ps : Nat → ℝ),
    (fas 0).weights = List.replicate 10 7 ∧
    Schedule (fun k => SGD.mk (1 / ((visits (UniformGrid.new [ofBounds 0 1 10]) (fun k => [xs k]) (k + 1)
      [xs k]).card : ℝ))) fas (fun k => [xs k]) ys ps ∧
    (fas 1).evaluate [xs 0] = .ok (.ok (ys 0)) := by
  have hl : ∀ d ∈ [ofBounds 0 1 10], d.Lawful := by
    intro d hd
    rw [List.mem_singleton.1 hd]
    exact ofBounds_lawful (by norm_num) (by norm_num)
  have hprod : (([ofBounds 0 1 10]).map Equipartition.nPartitions).prod = 10 := rfl
  obtain ⟨fas, ps, hs, h0⟩ := C158_sgd_exists (UniformGrid.new [ofBounds 0 1 10]) 10
    (fun k => 1 / ((visits (UniformGrid.new [ofBounds 0 1 10]) (fun k => [xs k]) (k + 1) [xs k]).card : ℝ))
    (fun k => [xs k]) (fun k => by
      obtain ⟨m, h1, -, h2⟩ := grid_fits _ hl (by simp) [xs k] (by simp)
      exact ⟨_, h1, h2⟩) ys (List.replicate 10 7) rfl 0
  have hv : visits (UniformGrid.new [ofBounds 0 1 10]) (fun k => [xs k]) 1 [xs 0] = {0} := by
    classical
    ext j
    simp only [visits, Finset.mem_filter, Finset.mem_range, Finset.mem_singleton]
    constructor
    · intro h
      omega
    · rintro rfl
      exact ⟨zero_lt_one, rfl⟩
  refine ⟨fas, ps, by rw [h0], hs, ?_⟩
  have := C159_table [ofBounds 0 1 10] hl (by simp) (fun k => [xs k]) (fun _ => rfl) ys ps fas hs (by rw [h0])
    (by rw [h0]; rfl) 1 [xs 0] rfl (by rw [hv]; simp)
  rw [this, hv]
  simp

/-! ## C160 Which rates average the noise away -/

section
variable {Ω : Type} [MeasurableSpace Ω] {μ : Measure Ω} [IsProbabilityMeasure μ]

/-- The mean square of an error that follows white noise at varying rates. -/
theorem mean_square_step {ε : Nat → Ω → ℝ} {σ : ℝ} (hε : WhiteNoise μ ε σ) {a : Nat → ℝ} {d : ℝ}
    {e : Ω → Nat → ℝ} (h0 : ∀ ω, e ω 0 = d) (he : ∀ ω k, e ω (k + 1) = (1 - a k) * e ω k + a k * ε k ω) :
    ∫ ω, e ω 0 ^ 2 ∂μ = d ^ 2 ∧ ∀ k, ∫ ω, e ω (k + 1) ^ 2 ∂μ
      = (1 - a k) ^ 2 * ∫ ω, e ω k ^ 2 ∂μ + a k ^ 2 * σ ^ 2 := by
  let c : Nat → Nat → ℝ := fun k => Nat.rec (fun _ => 0) (fun k c j => if j = k then a k else (1 - a k) * c j) k
  have hc : ∀ k j, c (k + 1) j = if j = k then a k else (1 - a k) * c k j := fun _ _ => rfl
  have hsum : ∀ (k : Nat) (f : ℝ → Nat → ℝ), ∑ j ∈ Finset.range (k + 1), f (c (k + 1) j) j
      = ∑ j ∈ Finset.range k, f ((1 - a k) * c k j) j + f (a k) k := by
    intro k f
    rw [Finset.sum_range_succ, hc k k, if_pos rfl]
    congr 1
    refine Finset.sum_congr rfl fun j hj => ?_
    rw [hc, if_neg (Finset.mem_range.1 hj).ne]
  have hsol : ∀ k ω, e ω k = (∏ j ∈ Finset.range k, (1 - a j)) * d + ∑ j ∈ Finset.range k, c k j * ε j ω := by
    intro k ω
    induction k with
    | zero => simp [h0]
    | succ k ih =>
      rw [he, ih, hsum k fun x j => x * ε j ω, Finset.prod_range_succ, mul_add, Finset.mul_sum]
      simp only [mul_assoc]
      ring
  have hv : ∀ k, ∫ ω, e ω k ^ 2 ∂μ = ((∏ j ∈ Finset.range k, (1 - a j)) * d) ^ 2
      + σ ^ 2 * ∑ j ∈ Finset.range k, c k j ^ 2 := by
    intro k
    simp only [hsol k]
    exact hε.integral_sq _ _ k
  refine ⟨by simp [hv], fun k => ?_⟩
  rw [hv, hv, hsum k fun x _ => x ^ 2, Finset.prod_range_succ]
  simp only [mul_pow, ← Finset.mul_sum]
  ring

variable {B I : Type} [Space B] [Basis B I ℝ]

/-- **C160.** SGD with rate `l k` in the `k`-th call, on a repeated input whose targets carry uncorrelated noise
of variance `σ²`: how the mean square error of the prediction changes from call to call. -/
theorem C160_step (b : B) (n : Nat) (l : Nat → ℝ) (x : I) (φ : Features ℝ)
    (hφ : Basis.project b x = .ok (.ok φ)) (hf : Fits n φ) (ε : Nat → Ω → ℝ) (σ : ℝ)
    (hε : WhiteNoise μ ε σ) (y p : ℝ) (fas : Ω → Nat → ScalarLFA B (SGD ℝ) ℝ) (ps : Ω → Nat → ℝ)
    (hs : ∀ ω, Schedule (fun k => SGD.mk (l k)) (fas ω) (fun _ => x) (fun k => y + ε k ω) (ps ω) ∧
      (fas ω 0).basis = b ∧ (fas ω 0).weights.length = n ∧ ps ω 0 = p) :
    ∫ ω, (ps ω 0 - y) ^ 2 ∂μ = (p - y) ^ 2 ∧ ∀ k, ∫ ω, (ps ω (k + 1) - y) ^ 2 ∂μ
      = (1 - l k * normSq φ) ^ 2 * ∫ ω, (ps ω k - y) ^ 2 ∂μ + (l k * normSq φ) ^ 2 * σ ^ 2 := by
  refine mean_square_step (e := fun ω k => ps ω k - y) (a := fun k => l k * normSq φ) hε
    (fun ω => by rw [(hs ω).2.2.2]) fun ω k => ?_
  rw [schedule_repeat (fun k => sgd_trainsBy b (l k) n _) hφ hf (hs ω).1 (hs ω).2.1 (hs ω).2.2.1]
  ring

/-- The error vanishes in the mean square exactly when the rates vanish but have an infinite sum. -/
theorem C160_iff (b : B) (n : Nat) (l : Nat → ℝ) (hl : ∀ k, 0 ≤ l k) (x : I) (φ : Features ℝ)
    (hφ : Basis.project b x = .ok (.ok φ)) (hf : Fits n φ) (hq : 0 < normSq φ) (ε : Nat → Ω → ℝ) (σ : ℝ)
    (hσ : σ ≠ 0) (hε : WhiteNoise μ ε σ) (y p : ℝ) (hp : p ≠ y) (fas : Ω → Nat → ScalarLFA B (SGD ℝ) ℝ)
    (ps : Ω → Nat → ℝ)
    (hs : ∀ ω, Schedule (fun k => SGD.mk (l k)) (fas ω) (fun _ => x) (fun k => y + ε k ω) (ps ω) ∧
      (fas ω 0).basis = b ∧ (fas ω 0).weights.length = n ∧ ps ω 0 = p) :
    Tendsto (fun k => ∫ ω, (ps ω k - y) ^ 2 ∂μ) atTop (𝓝 0) ↔ Tendsto l atTop (𝓝 0) ∧ ¬ Summable l := by
  obtain ⟨h0, h1⟩ := C160_step b n l x φ hφ hf ε σ hε y p fas ps hs
  rw [mean_square_iff (a := fun k => l k * normSq φ) (s := σ ^ 2) (fun k => mul_nonneg (hl k) hq.le)
    (by positivity) (by rw [h0]; have := sub_ne_zero.2 hp; positivity) h1, summable_mul_right_iff hq.ne']
  refine and_congr_left fun _ => ⟨fun h => ?_, fun h => ?_⟩
  · have := h.div_const (normSq φ)
    rw [zero_div] at this
    exact this.congr fun k => mul_div_cancel_right₀ _ hq.ne'
  · have := h.mul_const (normSq φ)
    rwa [zero_mul] at this

/-- ISGD: the same. -/
theorem C160_isgd_iff (b : B) (n : Nat) (l : Nat → ℝ) (hl : ∀ k, 0 ≤ l k) (x : I) (φ : Features ℝ)
    (hφ : Basis.project b x = .ok (.ok φ)) (hf : Fits n φ) (hq : 0 < normSq φ) (ε : Nat → Ω → ℝ) (σ : ℝ)
    (hσ : σ ≠ 0) (hε : WhiteNoise μ ε σ) (y p : ℝ) (hp : p ≠ y) (fas : Ω → Nat → ScalarLFA B (ISGD ℝ) ℝ)
    (ps : Ω → Nat → ℝ)
    (hs : ∀ ω, Schedule (fun k => ISGD.mk (l k)) (fas ω) (fun _ => x) (fun k => y + ε k ω) (ps ω) ∧
      (fas ω 0).basis = b ∧ (fas ω 0).weights.length = n ∧ ps ω 0 = p) :
    Tendsto (fun k => ∫ ω, (ps ω k - y) ^ 2 ∂μ) atTop (𝓝 0) ↔ Tendsto l atTop (𝓝 0) ∧ ¬ Summable l := by
  have hn : ∀ k, 0 ≤ l k * normSq φ := fun k => mul_nonneg (hl k) hq.le
  obtain ⟨h0, h1⟩ := mean_square_step (e := fun ω k => ps ω k - y)
    (a := fun k => l k * normSq φ / (1 + l k * normSq φ)) hε (fun ω => by rw [(hs ω).2.2.2]) fun ω k => by
      rw [schedule_repeat (fun k => isgd_trainsBy b (l k) n _) hφ hf (hs ω).1 (hs ω).2.1 (hs ω).2.2.1]
      ring
  rw [mean_square_iff (s := σ ^ 2) (fun k => div_nonneg (hn k) (by linarith [hn k])) (by positivity)
    (by rw [h0]; have := sub_ne_zero.2 hp; positivity) h1, implicit_summable_iff hn, implicit_tendsto_iff hn,
    summable_mul_right_iff hq.ne']
  refine and_congr_left fun _ => ⟨fun h => ?_, fun h => ?_⟩
  · have := h.div_const (normSq φ)
    rw [zero_div] at this
    exact this.congr fun k => mul_div_cancel_right₀ _ hq.ne'
  · have := h.mul_const (normSq φ)
    rwa [zero_mul] at this

end

/-- C160: a line at `x = 1`, the noise of `whiteNoise_cos` and the rates `1 / √(k + 1)`, whose squares have an
infinite sum too. -/
example : ∃ (fas : ℝ → Nat → ScalarLFA (Closure ℝ ℝ) (ISGD ℝ) ℝ) (ps : ℝ → Nat → ℝ),
    (∀ t, Schedule (fun k => ISGD.mk (1 / √((k + 1 : ℕ) : ℝ))) (fas t) (fun _ => (1 : ℝ))
      (fun k => 5 + √2 * Real.cos (Real.pi * ((k + 1 : ℕ) * t))) (ps t)) ∧
    Tendsto (fun k => ∫ t in Set.Ioc (0 : ℝ) 1, (ps t k - 5) ^ 2) atTop (𝓝 0) := by
  obtain ⟨h1, h2, h3⟩ := line_fits 1
  choose fas ps hs h0 using fun t : ℝ => C158_isgd_exists line 2 (fun k => 1 / √((k + 1 : ℕ) : ℝ))
    (fun _ => (1 : ℝ)) (fun _ => ⟨_, h1, h2⟩) (fun k => 5 + √2 * Real.cos (Real.pi * ((k + 1 : ℕ) * t)))
    [0, 0] rfl 0
  have hp : ∀ t, ps t 0 = 0 := by
    intro t
    have h := (hs t).predicts 0
    rw [h0] at h
    have h4 := evaluate_eq (fa := LFA.mk line [0, 0] (ISGD.mk 0)) h1 (dot_real (w := [0, 0]) h2.1 rfl)
    have : Spec.inner (.dense [1, (1 : ℝ)]) [0, 0] = ps t 0 := by simpa using h4.symm.trans h
    rw [← this, inner_eq]
    show ∑ i ∈ Finset.range 2, _ = _
    simp [Finset.sum_range_succ, entry]
  have : IsProbabilityMeasure (volume.restrict (Set.Ioc (0 : ℝ) 1)) := ⟨by simp⟩
  refine ⟨fas, ps, hs, (C160_isgd_iff line 2 _ (fun k => by positivity) 1 _ h1 h2 (by rw [h3]; norm_num) _ 1
    one_ne_zero whiteNoise_cos 5 0 (by norm_num) fas ps
    (fun t => ⟨hs t, by rw [h0], by rw [h0]; rfl, hp t⟩)).2 ⟨?_, ?_⟩⟩
  · have h5 : Tendsto (fun k : ℕ => √((k : ℝ) + 1)) atTop atTop :=
      Real.tendsto_sqrt_atTop.comp (tendsto_atTop_add_const_right _ _ tendsto_natCast_atTop_atTop)
    exact h5.inv_tendsto_atTop.congr fun k => by simp
  · rw [summable_nat_add_iff 1 (f := fun k => 1 / √(k : ℝ))]
    simp only [Real.sqrt_eq_rpow]
    rw [Real.summable_one_div_nat_rpow]
    norm_num

end Lfa

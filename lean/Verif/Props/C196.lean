import Verif.Props.C195

/-!
# C196: SGD, ISGD, Momentum and Adagrad follow the average error

The streams on which Adam and AdaMax go the wrong way (C195) do not fool the other optimisers: if over the first `T` calls the errors
sum to at least `μ T`, for every `T`, then the prediction rises without bound. NAG adds `momentum * φ` whatever the error, and so
follows the average error only up to that drift. Exact arithmetic.
-/

set_option linter.unusedSectionVars false

namespace Lfa

open Spec Features Filter Topology

/-- Summation by parts: decreasing weights keep a lower bound on the averages. -/
theorem abel_le {e c : Nat → ℝ} {μ : ℝ} (hc : ∀ t, 0 ≤ c t) (hc' : ∀ t, c (t + 1) ≤ c t)
    (he : ∀ T : Nat, μ * T ≤ ∑ t ∈ Finset.range T, e t) (T : Nat) :
    μ * ∑ t ∈ Finset.range T, c t ≤ ∑ t ∈ Finset.range T, e t * c t := by
  have key : ∀ T, c T * (∑ t ∈ Finset.range (T + 1), e t - μ * (T + 1 : Nat)) + μ * ∑ t ∈ Finset.range (T + 1), c t ≤
      ∑ t ∈ Finset.range (T + 1), e t * c t := by
    intro T
    induction T with
    | zero => simp; linarith
    | succ T ih =>
      rw [Finset.sum_range_succ _ (T + 1), Finset.sum_range_succ c (T + 1), Finset.sum_range_succ (fun t => e t * c t) (T + 1)]
      have h1 := mul_le_mul_of_nonneg_right (hc' T) (sub_nonneg.2 (he (T + 1)))
      push_cast at h1 ih ⊢
      nlinarith
  cases T with
  | zero => simp
  | succ T =>
    have := mul_nonneg (hc T) (sub_nonneg.2 (he (T + 1)))
    linarith [key T]

/-- The sum of the velocities, from the sums of the errors. -/
theorem velocity_sum {γ μ : ℝ} (g0 : 0 ≤ γ) (m0 : 0 ≤ μ) {v e : Nat → ℝ} (h0 : v 0 = 0) (h : ∀ t, v (t + 1) = γ * v t + e t)
    (he : ∀ T : Nat, μ * T ≤ ∑ t ∈ Finset.range T, e t) (T : Nat) : μ * T ≤ ∑ t ∈ Finset.range T, v (t + 1) := by
  have eq : ∀ T, ∑ t ∈ Finset.range (T + 1), v (t + 1) = γ * ∑ t ∈ Finset.range T, v (t + 1) + ∑ t ∈ Finset.range (T + 1), e t := by
    intro T
    have : ∑ t ∈ Finset.range (T + 1), v t = ∑ t ∈ Finset.range T, v (t + 1) := by
      rw [Finset.sum_range_succ', h0, add_zero]
    rw [Finset.sum_congr rfl fun t _ => h t, Finset.sum_add_distrib, ← Finset.mul_sum, this]
  induction T with
  | zero => simp
  | succ T ih =>
    rw [eq]
    have := mul_nonneg g0 ((by positivity : 0 ≤ μ * (T : ℝ)).trans ih)
    linarith [he (T + 1)]

theorem sqrt_sum (T : Nat) : √(T : ℝ) ≤ ∑ t ∈ Finset.range T, 1 / √((t : ℝ) + 1) := by
  cases T with
  | zero => simp
  | succ T =>
    have pos : 0 < √((T + 1 : Nat) : ℝ) := Real.sqrt_pos.2 (by positivity)
    have h : ∀ t ∈ Finset.range (T + 1), 1 / √((T + 1 : Nat) : ℝ) ≤ 1 / √((t : ℝ) + 1) := fun t ht => by
      refine one_div_le_one_div_of_le (Real.sqrt_pos.2 (by positivity)) (Real.sqrt_le_sqrt ?_)
      have := Finset.mem_range.1 ht
      exact_mod_cast this
    refine le_trans (le_of_eq ?_) (Finset.sum_le_sum h)
    rw [Finset.sum_const, Finset.card_range, nsmul_eq_mul, mul_one_div, eq_div_iff pos.ne', ← pow_two, Real.sq_sqrt (by positivity)]

section
variable {B I : Type} [Space B] [Basis B I ℝ]

theorem momentum_holds {n : Nat} {φ : Features ℝ} (hf : Fits n φ) (γ lr : ℝ) (o : SGDMomentum ℝ) (w : List ℝ) (s : ℝ)
    (ho : (o.momentum = γ ∧ o.learningRate = lr) ∧ o.velocity.length = n) (hw : w.length = n) :
    ∃ o' w', Optimiser.stepScaled o w φ s = .ok (.ok (), o', w') ∧
      ((o'.momentum = γ ∧ o'.learningRate = lr) ∧ o'.velocity.length = n) ∧ w'.length = n := by
  obtain ⟨v, w', h1, h2, h3, -⟩ := momentum_real hf o ho.2 s hw
  exact ⟨_, w', h1, ⟨ho.1, h2⟩, h3⟩

theorem nag_holds {n : Nat} {φ : Features ℝ} (hf : Fits n φ) (γ lr : ℝ) (o : NAG ℝ) (w : List ℝ) (s : ℝ)
    (ho : (o.momentum = γ ∧ o.learningRate = lr) ∧ o.velocity.length = n) (hw : w.length = n) :
    ∃ o' w', Optimiser.stepScaled o w φ s = .ok (.ok (), o', w') ∧
      ((o'.momentum = γ ∧ o'.learningRate = lr) ∧ o'.velocity.length = n) ∧ w'.length = n := by
  obtain ⟨v, w', h1, h2, h3, -⟩ := nag_real hf o ho.2 s hw
  exact ⟨_, w', h1, ⟨ho.1, h2⟩, h3⟩

theorem adagrad_holds {n : Nat} {φ : Features ℝ} (hf : Fits n φ) (lr : ℝ) (o : Adagrad ℝ) (w : List ℝ) (s : ℝ)
    (ho : o.learningRate = lr ∧ o.accumulator.length = n) (hw : w.length = n) :
    ∃ o' w', Optimiser.stepScaled o w φ s = .ok (.ok (), o', w') ∧ (o'.learningRate = lr ∧ o'.accumulator.length = n) ∧ w'.length = n := by
  obtain ⟨v, w', h1, h2, h3, -⟩ := adagrad_real hf o ho.2 s hw
  exact ⟨_, w', h1, ⟨ho.1, h2⟩, h3⟩

/-- The running sum with decay `γ`. -/
noncomputable def runSum (γ : ℝ) (x : Nat → ℝ) : Nat → ℝ
  | 0 => 0
  | t + 1 => γ * runSum γ x t + x t

theorem sum_run {γ a : ℝ} {v e : Nat → ℝ} (h0 : v 0 = 0) (h : ∀ t, v (t + 1) = γ * v t + a * e t) (t : Nat) :
    v t = a * runSum γ e t := by
  induction t with
  | zero => rw [h0]; simp [runSum]
  | succ t ih => rw [h, ih]; simp only [runSum]; ring

/-- ISGD, on any errors. -/
theorem C196_isgd (b : B) (x : I) (φ : Features ℝ) (n : Nat) (hp : Basis.project b x = .ok (.ok φ)) (hf : Fits n φ)
    (lr : ℝ) (e : Nat → ℝ) (w : List ℝ) (fas : Nat → ScalarLFA B (ISGD ℝ) ℝ) (ps : Nat → ℝ) (hw : w.length = n)
    (h0 : fas 0 = LFA.mk b w ⟨lr⟩) (hu : ∀ t, (fas t).update x (e t) = .ok (.ok (), fas (t + 1)))
    (he : ∀ t, (fas t).evaluate x = .ok (.ok (ps t))) (T : Nat) :
    ps T = ps 0 + lr / (1 + lr * normSq φ) * (∑ i ∈ Finset.range n, value φ i ^ 2) * ∑ t ∈ Finset.range T, e t := by
  have hi := updates_one hp (fun o => o = (⟨lr⟩ : ISGD ℝ)) (fun o w s ho hw => by
    obtain ⟨w', s1, s2, -⟩ := isgd_real hf o s hw
    exact ⟨_, w', s1, ho, s2⟩) hu h0 hw rfl
  induction T with
  | zero => simp
  | succ T ih =>
    rw [Finset.sum_range_succ, mul_add, ← add_assoc, ← ih]
    rw [prediction_inner hp hf (hi (T + 1)).1 (hi (T + 1)).2.2.1 (he (T + 1)), prediction_inner hp hf (hi T).1 (hi T).2.2.1 (he T)]
    obtain ⟨-, i2, i3, i4⟩ := hi T
    obtain ⟨w', s1, s2, s3⟩ := isgd_real hf (fas T).optimiser (e T) i3
    rw [i4] at s1
    injection s1 with s1
    injection s1 with _ s1
    injection s1 with s1 s6
    rw [s6]
    rw [Finset.mul_sum, Finset.sum_mul, ← Finset.sum_add_distrib]
    refine Finset.sum_congr rfl fun i hi => ?_
    rw [s3 i (Finset.mem_range.1 hi), i2]
    ring

/-- Momentum, on any errors: the prediction moves by the sum of the velocities, and each velocity is the decayed sum of the errors. -/
theorem C196_momentum (b : B) (x : I) (φ : Features ℝ) (n : Nat) (hp : Basis.project b x = .ok (.ok φ)) (hf : Fits n φ)
    (γ lr : ℝ) (e : Nat → ℝ) (w : List ℝ) (fas : Nat → ScalarLFA B (SGDMomentum ℝ) ℝ) (ps : Nat → ℝ) (hw : w.length = n)
    (h0 : fas 0 = LFA.mk b w (SGDMomentum.new n γ lr)) (hu : ∀ t, (fas t).update x (e t) = .ok (.ok (), fas (t + 1)))
    (he : ∀ t, (fas t).evaluate x = .ok (.ok (ps t))) (T : Nat) :
    ps T = ps 0 + lr * (∑ i ∈ Finset.range n, value φ i ^ 2) * ∑ t ∈ Finset.range T, runSum γ e (t + 1) ∧
    ∀ μ : ℝ, 0 ≤ γ → 0 ≤ lr → 0 ≤ μ → (∀ T : Nat, μ * T ≤ ∑ t ∈ Finset.range T, e t) →
      ps 0 + lr * (∑ i ∈ Finset.range n, value φ i ^ 2) * (μ * T) ≤ ps T := by
  have hi := updates_one hp _ (momentum_holds hf γ lr) hu h0 hw ⟨⟨rfl, rfl⟩, by simp [SGDMomentum.new]⟩
  have step : ∀ k, ∀ i < n, entry (fas (k + 1)).optimiser.velocity i = γ * entry (fas k).optimiser.velocity i + value φ i * e k ∧
      entry (fas (k + 1)).weights i = entry (fas k).weights i + lr * entry (fas (k + 1)).optimiser.velocity i := by
    intro k i hin
    obtain ⟨-, ⟨⟨l1, l2⟩, i3⟩, i5, i7⟩ := hi k
    obtain ⟨v, w', s1, s2, s3, s5⟩ := momentum_real hf (fas k).optimiser i3 (e k) i5
    rw [i7] at s1
    injection s1 with s1
    injection s1 with _ s1
    injection s1 with s1 s6
    rw [s1, s6, ← l1, ← l2]
    exact s5 i hin
  have vel : ∀ k, ∀ i < n, entry (fas k).optimiser.velocity i = value φ i * runSum γ e k := fun k i hin => by
    refine sum_run (v := fun k => entry (fas k).optimiser.velocity i) ?_ (fun k => (step k i hin).1) k
    rw [h0]
    show entry (List.replicate n (Scalar.zero : ℝ)) i = 0
    unfold entry
    simp [hin]
  have main : ∀ T, ps T = ps 0 + lr * (∑ i ∈ Finset.range n, value φ i ^ 2) * ∑ t ∈ Finset.range T, runSum γ e (t + 1) := by
    intro T
    induction T with
    | zero => simp
    | succ T ih =>
      rw [Finset.sum_range_succ, mul_add, ← add_assoc, ← ih]
      rw [prediction_inner hp hf (hi (T + 1)).1 (hi (T + 1)).2.2.1 (he (T + 1)), prediction_inner hp hf (hi T).1 (hi T).2.2.1 (he T),
        Finset.mul_sum, Finset.sum_mul, ← Finset.sum_add_distrib]
      refine Finset.sum_congr rfl fun i hi => ?_
      rw [(step T i (Finset.mem_range.1 hi)).2, vel (T + 1) i (Finset.mem_range.1 hi)]
      ring
  refine ⟨main T, fun μ g0 l0 m0 hμ => ?_⟩
  rw [main T]
  have := velocity_sum g0 m0 (v := runSum γ e) rfl (fun _ => rfl) hμ T
  have := mul_le_mul_of_nonneg_left this (mul_nonneg l0 (Finset.sum_nonneg fun i _ => sq_nonneg (value φ i)) :
    0 ≤ lr * ∑ i ∈ Finset.range n, value φ i ^ 2)
  linarith

/-- NAG: the same, and `γ ‖φ‖²` at every call besides. -/
theorem C196_nag (b : B) (x : I) (φ : Features ℝ) (n : Nat) (hp : Basis.project b x = .ok (.ok φ)) (hf : Fits n φ)
    (γ lr : ℝ) (e : Nat → ℝ) (w : List ℝ) (fas : Nat → ScalarLFA B (NAG ℝ) ℝ) (ps : Nat → ℝ) (hw : w.length = n)
    (h0 : fas 0 = LFA.mk b w (NAG.new n γ lr)) (hu : ∀ t, (fas t).update x (e t) = .ok (.ok (), fas (t + 1)))
    (he : ∀ t, (fas t).evaluate x = .ok (.ok (ps t))) (T : Nat) :
    ps T = ps 0 + (∑ i ∈ Finset.range n, value φ i ^ 2) * (lr * ∑ t ∈ Finset.range T, runSum γ e (t + 1) + γ * T) ∧
    (∀ μ : ℝ, 0 ≤ γ → 0 ≤ lr → 0 ≤ μ → (∀ T : Nat, μ * T ≤ ∑ t ∈ Finset.range T, e t) →
      ps 0 + (∑ i ∈ Finset.range n, value φ i ^ 2) * ((lr * μ + γ) * T) ≤ ps T) ∧
    ∀ c : ℝ, 0 ≤ γ → γ < 1 → 0 ≤ lr → (∀ t, -c ≤ e t) → 0 ≤ c →
      ps 0 + (∑ i ∈ Finset.range n, value φ i ^ 2) * ((γ - lr * c / (1 - γ)) * T) ≤ ps T := by
  have hi := updates_one hp _ (nag_holds hf γ lr) hu h0 hw ⟨⟨rfl, rfl⟩, by simp [NAG.new]⟩
  have step : ∀ k, ∀ i < n, entry (fas (k + 1)).optimiser.velocity i = γ * entry (fas k).optimiser.velocity i + value φ i * e k ∧
      entry (fas (k + 1)).weights i =
        entry (fas k).weights i + lr * entry (fas (k + 1)).optimiser.velocity i + γ * value φ i := by
    intro k i hin
    obtain ⟨-, ⟨⟨l1, l2⟩, i3⟩, i5, i7⟩ := hi k
    obtain ⟨v, w', s1, s2, s3, s5⟩ := nag_real hf (fas k).optimiser i3 (e k) i5
    rw [i7] at s1
    injection s1 with s1
    injection s1 with _ s1
    injection s1 with s1 s6
    rw [s1, s6, ← l1, ← l2]
    exact s5 i hin
  have vel : ∀ k, ∀ i < n, entry (fas k).optimiser.velocity i = value φ i * runSum γ e k := fun k i hin => by
    refine sum_run (v := fun k => entry (fas k).optimiser.velocity i) ?_ (fun k => (step k i hin).1) k
    rw [h0]
    show entry (List.replicate n (Scalar.zero : ℝ)) i = 0
    unfold entry
    simp [hin]
  have main : ∀ T : Nat, ps T = ps 0 + (∑ i ∈ Finset.range n, value φ i ^ 2) *
      (lr * ∑ t ∈ Finset.range T, runSum γ e (t + 1) + γ * T) := by
    intro T
    induction T with
    | zero => simp
    | succ T ih =>
      have e1 : (∑ i ∈ Finset.range n, value φ i ^ 2) * (lr * ∑ t ∈ Finset.range (T + 1), runSum γ e (t + 1) + γ * (T + 1 : Nat)) =
          (∑ i ∈ Finset.range n, value φ i ^ 2) * (lr * ∑ t ∈ Finset.range T, runSum γ e (t + 1) + γ * T) +
          (∑ i ∈ Finset.range n, value φ i ^ 2) * (lr * runSum γ e (T + 1) + γ) := by
        rw [Finset.sum_range_succ]; push_cast; ring
      rw [e1, ← add_assoc, ← ih]
      rw [prediction_inner hp hf (hi (T + 1)).1 (hi (T + 1)).2.2.1 (he (T + 1)), prediction_inner hp hf (hi T).1 (hi T).2.2.1 (he T),
        Finset.sum_mul, ← Finset.sum_add_distrib]
      refine Finset.sum_congr rfl fun i hi => ?_
      rw [(step T i (Finset.mem_range.1 hi)).2, vel (T + 1) i (Finset.mem_range.1 hi)]
      ring
  have s0 : 0 ≤ ∑ i ∈ Finset.range n, value φ i ^ 2 := Finset.sum_nonneg fun i _ => sq_nonneg (value φ i)
  refine ⟨main T, fun μ g0 l0 m0 hμ => ?_, fun c g0 g1 l0 hc c0 => ?_⟩
  · rw [main T]
    have h1 := mul_le_mul_of_nonneg_left (velocity_sum g0 m0 (v := runSum γ e) rfl (fun _ => rfl) hμ T) l0
    have := mul_le_mul_of_nonneg_left (by linarith : (lr * μ + γ) * T ≤ lr * ∑ t ∈ Finset.range T, runSum γ e (t + 1) + γ * T) s0
    linarith
  · rw [main T]
    have d : 0 < 1 - γ := by linarith
    have low : ∀ t, -(c / (1 - γ)) ≤ runSum γ e t := by
      intro t
      induction t with
      | zero =>
        have : 0 ≤ c / (1 - γ) := by positivity
        show _ ≤ (0 : ℝ)
        linarith
      | succ t ih =>
        show _ ≤ γ * runSum γ e t + e t
        have h1 := mul_le_mul_of_nonneg_left ih g0
        have h2 : c / (1 - γ) = γ * (c / (1 - γ)) + c := by field_simp; ring
        linarith [hc t]
    have h1 : ∑ t ∈ Finset.range T, -(c / (1 - γ)) ≤ ∑ t ∈ Finset.range T, runSum γ e (t + 1) :=
      Finset.sum_le_sum fun t _ => low (t + 1)
    rw [Finset.sum_const, Finset.card_range, nsmul_eq_mul] at h1
    have h2 := mul_le_mul_of_nonneg_left h1 l0
    have h3 : (γ - lr * c / (1 - γ)) * T = lr * (T * -(c / (1 - γ))) + γ * T := by ring
    have := mul_le_mul_of_nonneg_left (by linarith : (γ - lr * c / (1 - γ)) * T ≤ lr * ∑ t ∈ Finset.range T, runSum γ e (t + 1) + γ * T) s0
    linarith

/-- Adagrad, on errors up to `E`: a square root. -/
theorem C196_adagrad (b : B) (x : I) (φ : Features ℝ) (n : Nat) (hp : Basis.project b x = .ok (.ok φ)) (hf : Fits n φ)
    (lr : ℝ) (l0 : 0 ≤ lr) (e : Nat → ℝ) (w : List ℝ) (fas : Nat → ScalarLFA B (Adagrad ℝ) ℝ) (ps : Nat → ℝ) (hw : w.length = n)
    (h0 : fas 0 = LFA.mk b w (Adagrad.new n lr)) (hu : ∀ t, (fas t).update x (e t) = .ok (.ok (), fas (t + 1)))
    (he : ∀ t, (fas t).evaluate x = .ok (.ok (ps t))) (μ E : ℝ) (m0 : 0 ≤ μ) (hE : ∀ t, |e t| ≤ E)
    (hμ : ∀ T : Nat, μ * T ≤ ∑ t ∈ Finset.range T, e t) (T : Nat) :
    ps 0 + lr * (∑ i ∈ Finset.range n, value φ i ^ 2 / (E * |value φ i| + 1e-7)) * (μ * √T) ≤ ps T := by
  have E0 : 0 ≤ E := (abs_nonneg _).trans (hE 0)
  have hi := updates_one hp _ (adagrad_holds hf lr) hu h0 hw ⟨rfl, by simp [Adagrad.new]⟩
  have step : ∀ k, ∀ i < n, entry (fas (k + 1)).optimiser.accumulator i = entry (fas k).optimiser.accumulator i + (value φ i * e k) ^ 2 ∧
      entry (fas (k + 1)).weights i = entry (fas k).weights i + lr * (value φ i * e k) /
        (√(entry (fas (k + 1)).optimiser.accumulator i) + 1e-7) := by
    intro k i hin
    obtain ⟨-, ⟨l1, i3⟩, i5, i7⟩ := hi k
    obtain ⟨v, w', s1, s2, s3, s5⟩ := adagrad_real hf (fas k).optimiser i3 (e k) i5
    rw [i7] at s1
    injection s1 with s1
    injection s1 with _ s1
    injection s1 with s1 s6
    rw [s1, s6, ← l1]
    exact s5 i hin
  have acc0 : ∀ i < n, entry (fas 0).optimiser.accumulator i = 0 := fun i hin => by
    rw [h0]
    show entry (List.replicate n (Scalar.zero : ℝ)) i = 0
    unfold entry
    simp [hin]
  have acc : ∀ k, ∀ i < n, entry (fas k).optimiser.accumulator i ≤ k * (E * |value φ i|) ^ 2 := by
    intro k i hin
    induction k with
    | zero => rw [acc0 i hin]; simp
    | succ k ih =>
      rw [(step k i hin).1]
      have : (value φ i * e k) ^ 2 ≤ (E * |value φ i|) ^ 2 := by
        rw [sq_le_sq, abs_mul, abs_mul, abs_of_nonneg E0, abs_abs, mul_comm]
        exact mul_le_mul_of_nonneg_right (hE k) (abs_nonneg _)
      push_cast
      linarith
  have main : ∀ i < n, value φ i * entry (fas 0).weights i + lr * (value φ i ^ 2 / (E * |value φ i| + 1e-7)) * (μ * √T) ≤
      value φ i * entry (fas T).weights i := by
    intro i hin
    have eq : ∀ T, value φ i * entry (fas T).weights i = value φ i * entry (fas 0).weights i + lr * value φ i ^ 2 *
        ∑ t ∈ Finset.range T, e t * (1 / (√(entry (fas (t + 1)).optimiser.accumulator i) + 1e-7)) := by
      intro T
      induction T with
      | zero => simp
      | succ T ih =>
        rw [Finset.sum_range_succ, mul_add, ← add_assoc, ← ih, (step T i hin).2]
        ring
    have h1 := abel_le (e := e) (c := fun t => 1 / (√(entry (fas (t + 1)).optimiser.accumulator i) + 1e-7)) (μ := μ)
      (fun t => by positivity) (fun t => by
        refine one_div_le_one_div_of_le (by positivity) ?_
        have : √(entry (fas (t + 1)).optimiser.accumulator i) ≤ √(entry (fas (t + 1 + 1)).optimiser.accumulator i) := by
          rw [(step (t + 1) i hin).1]
          exact Real.sqrt_le_sqrt (by linarith [sq_nonneg (value φ i * e (t + 1))])
        linarith) hμ T
    have d0 : 0 < E * |value φ i| + 1e-7 := by positivity
    have h2 : √T / (E * |value φ i| + 1e-7) ≤ ∑ t ∈ Finset.range T, 1 / (√(entry (fas (t + 1)).optimiser.accumulator i) + 1e-7) := by
      refine (div_le_div_of_nonneg_right (sqrt_sum T) d0.le).trans ?_
      rw [Finset.sum_div]
      refine Finset.sum_le_sum fun t _ => ?_
      rw [div_div]
      refine one_div_le_one_div_of_le (by positivity) ?_
      have h3 : √(entry (fas (t + 1)).optimiser.accumulator i) ≤ √((t : ℝ) + 1) * (E * |value φ i|) := by
        refine (Real.sqrt_le_sqrt (acc (t + 1) i hin)).trans (le_of_eq ?_)
        push_cast
        rw [Real.sqrt_mul (by positivity), Real.sqrt_sq (by positivity)]
      have h4 : (1 : ℝ) ≤ √((t : ℝ) + 1) := by
        rw [Real.one_le_sqrt]
        have : (0 : ℝ) ≤ t := t.cast_nonneg
        linarith
      nlinarith
    rw [eq T]
    have h5 := mul_le_mul_of_nonneg_left ((mul_le_mul_of_nonneg_left h2 m0).trans h1)
      (mul_nonneg l0 (sq_nonneg (value φ i)))
    refine le_trans (le_of_eq ?_) (add_le_add_right h5 _)
    ring
  rw [prediction_inner hp hf (hi T).1 (hi T).2.2.1 (he T), prediction_inner hp hf (hi 0).1 (hi 0).2.2.1 (he 0),
    Finset.mul_sum, Finset.sum_mul, ← Finset.sum_add_distrib]
  exact Finset.sum_le_sum fun i hi => main i (Finset.mem_range.1 hi)

/-- Such runs exist, whatever the errors. -/
theorem runs_one {O : Type} [Optimiser O ℝ] {b : B} {x : I} {φ : Features ℝ} {n : Nat}
    (hp : Basis.project b x = .ok (.ok φ)) (hf : Fits n φ) (e : Nat → ℝ) (Inv : O → Prop)
    (hstep : ∀ (o : O) (w : List ℝ) (s : ℝ), Inv o → w.length = n →
      ∃ o' w', Optimiser.stepScaled o w φ s = .ok (.ok (), o', w') ∧ Inv o' ∧ w'.length = n)
    {w : List ℝ} {o : O} (hw : w.length = n) (ho : Inv o) :
    ∃ (fas : Nat → ScalarLFA B O ℝ) (ps : Nat → ℝ), fas 0 = LFA.mk b w o ∧
      (∀ t, (fas t).update x (e t) = .ok (.ok (), fas (t + 1))) ∧ ∀ t, (fas t).evaluate x = .ok (.ok (ps t)) := by
  obtain ⟨fas, h3, h4⟩ := updates_exist hp e Inv hstep hw ho
  have inv := updates_one hp Inv hstep h3 h4 hw ho
  have he : ∀ t, ∃ p, (fas t).evaluate x = .ok (.ok p) := fun t => by
    obtain ⟨i1, -, i3, -⟩ := inv t
    exact ⟨_, evaluate_eq (by rw [i1]; exact hp) (dot_real hf.1 (hf.2.trans i3.symm))⟩
  choose ps he using he
  exact ⟨fas, ps, h4, h3, he⟩

end

/-- A stream of C195, for Adagrad: the errors average at least one, and the prediction of Adagrad goes to plus infinity. -/
theorem C196_example : (∀ T : Nat, 1 * (T : ℝ) ≤ ∑ t ∈ Finset.range T, spiky 5 10 t) ∧
    ∃ (fas : Nat → ScalarLFA (Bias ℝ) (Adagrad ℝ) ℝ) (ps : Nat → ℝ),
      fas 0 = LFA.mk (Bias.mk (1 : ℝ)) [0] (Adagrad.new 1 0.001) ∧
      (∀ t, (fas t).update () (spiky 5 10 t) = .ok (.ok (), fas (t + 1))) ∧
      (∀ t, (fas t).evaluate () = .ok (.ok (ps t))) ∧ Tendsto ps atTop atTop := by
  have hp : Basis.project (Bias.mk (1 : ℝ)) () = .ok (.ok (.dense [(1 : ℝ)])) := rfl
  have hf : Fits 1 (.dense [(1 : ℝ)]) := ⟨trivial, rfl⟩
  have hs : ∀ T : Nat, 1 * (T : ℝ) ≤ ∑ t ∈ Finset.range T, spiky 5 10 t := spiky_sum (by norm_num) (by norm_num)
  obtain ⟨fas, ps, h1, h2, h3⟩ := runs_one hp hf (spiky 5 10) _ (adagrad_holds hf 0.001) (w := [0]) (o := Adagrad.new 1 0.001) rfl
    ⟨rfl, by simp [Adagrad.new]⟩
  refine ⟨hs, fas, ps, h1, h2, h3, ?_⟩
  have h4 := C196_adagrad (Bias.mk (1 : ℝ)) () _ 1 hp hf 0.001 (by norm_num) (spiky 5 10) [0] fas ps rfl h1 h2 h3 1 10 (by norm_num)
    (fun t => by unfold spiky; split <;> norm_num) hs
  refine tendsto_atTop_mono h4 ?_
  have e : ∑ i ∈ Finset.range 1, value (.dense [(1 : ℝ)]) i ^ 2 / (10 * |value (.dense [(1 : ℝ)]) i| + 1e-7) = 1 / (10 + 1e-7) := by
    rw [Finset.sum_range_one]
    show (1 : ℝ) ^ 2 / (10 * |(1 : ℝ)| + 1e-7) = _
    norm_num
  rw [e]
  refine tendsto_atTop_add_const_left _ _ (Tendsto.const_mul_atTop (by norm_num) ?_)
  simp only [one_mul]
  exact Real.tendsto_sqrt_atTop.comp tendsto_natCast_atTop_atTop

/-- NAG is told at every call to go down, by one, and goes up for ever: momentum `0.9`, rate `0.001`. -/
theorem C196_nag_example : ∃ (fas : Nat → ScalarLFA (Bias ℝ) (NAG ℝ) ℝ) (ps : Nat → ℝ),
      fas 0 = LFA.mk (Bias.mk (1 : ℝ)) [0] (NAG.new 1 0.9 0.001) ∧
      (∀ t, (fas t).update () (-1) = .ok (.ok (), fas (t + 1))) ∧
      (∀ t, (fas t).evaluate () = .ok (.ok (ps t))) ∧ Tendsto ps atTop atTop := by
  have hp : Basis.project (Bias.mk (1 : ℝ)) () = .ok (.ok (.dense [(1 : ℝ)])) := rfl
  have hf : Fits 1 (.dense [(1 : ℝ)]) := ⟨trivial, rfl⟩
  obtain ⟨fas, ps, h1, h2, h3⟩ := runs_one hp hf (fun _ => (-1 : ℝ)) _ (nag_holds hf 0.9 0.001) (w := [0]) (o := NAG.new 1 0.9 0.001)
    rfl ⟨⟨rfl, rfl⟩, by simp [NAG.new]⟩
  refine ⟨fas, ps, h1, h2, h3, ?_⟩
  have h4 := fun T => (C196_nag (Bias.mk (1 : ℝ)) () _ 1 hp hf 0.9 0.001 (fun _ => -1) [0] fas ps rfl h1 h2 h3 T).2.2 1
    (by norm_num) (by norm_num) (by norm_num) (fun _ => le_rfl) (by norm_num)
  refine tendsto_atTop_mono h4 ?_
  have e : ∑ i ∈ Finset.range 1, value (.dense [(1 : ℝ)]) i ^ 2 = 1 := by
    rw [Finset.sum_range_one]
    show (1 : ℝ) ^ 2 = _
    norm_num
  rw [e]
  refine tendsto_atTop_add_const_left _ _ (Tendsto.const_mul_atTop (by norm_num) ?_)
  exact Tendsto.const_mul_atTop (by norm_num) tendsto_natCast_atTop_atTop

end Lfa

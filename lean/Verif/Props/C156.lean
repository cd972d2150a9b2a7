import Verif.Props.C128_C131
import Verif.Props.C115_C117
import Verif.Proofs.LinearStep

/-!
# C156: what noisy targets leave behind with Momentum

One repeated input, targets with uncorrelated noise. With `a = lr ‖φ‖²` the mean squared error of the prediction tends
to `a (1 + m) / ((1 - m) (2 (1 + m) - a)) σ²`: momentum amplifies the noise by nearly `1 / (1 - m)`. Exact arithmetic.
-/

set_option linter.unusedSectionVars false

namespace Lfa

open Spec MeasureTheory ProbabilityTheory Filter Topology

/-- How the prediction responds, `k` calls later, to a unit change of one target (up to the factor `lr ‖φ‖²`). -/
def response (m a : ℝ) : Nat → ℝ
  | 0 => 0
  | 1 => 1
  | k + 2 => (1 + m - a) * response m a (k + 1) - m * response m a k

/-- The error without noise, as a fraction of the initial one. -/
def decay (m a : ℝ) : Nat → ℝ
  | 0 => 1
  | 1 => 1 - a
  | k + 2 => (1 + m - a) * decay m a (k + 1) - m * decay m a k

theorem response_sum {m a : ℝ} (hm : |m| < 1) (ha : 0 < a) (hb : a < 2 * (1 + m)) :
    Tendsto (fun k => ∑ j ∈ Finset.range k, response m a (j + 1) ^ 2) atTop
      (𝓝 ((1 + m) / ((1 - m) * (a * (2 * (1 + m) - a))))) := by
  obtain ⟨m1, m2⟩ := abs_lt.1 hm
  have h1 : 0 < 1 + m := by linarith
  have h2 : 0 < 1 - m := by linarith
  have h3 : 0 < 2 * (1 + m) - a := by linarith
  set δ := (1 - m) * (a * (2 * (1 + m) - a)) / (1 + m) with hδ
  have hδ0 : 0 < δ := by positivity
  let V : Nat → ℝ := fun k => response m a (k + 1) ^ 2 -
    2 * m * (1 + m - a) / (1 + m) * (response m a k * response m a (k + 1)) + m ^ 2 * response m a k ^ 2
  have hV : ∀ k, V k - V (k + 1) = δ * response m a (k + 1) ^ 2 := by
    intro k
    show response m a (k + 1) ^ 2 - 2 * m * (1 + m - a) / (1 + m) * (response m a k * response m a (k + 1)) +
      m ^ 2 * response m a k ^ 2 - (((1 + m - a) * response m a (k + 1) - m * response m a k) ^ 2 -
      2 * m * (1 + m - a) / (1 + m) * (response m a (k + 1) * ((1 + m - a) * response m a (k + 1) - m * response m a k)) +
      m ^ 2 * response m a (k + 1) ^ 2) = _
    rw [hδ]
    field_simp
    ring
  have hsum : ∀ k, ∑ j ∈ Finset.range k, response m a (j + 1) ^ 2 = (1 - V k) / δ := by
    intro k
    induction k with
    | zero => simp [V, response]
    | succ k ih =>
      rw [Finset.sum_range_succ, ih, eq_div_iff hδ0.ne', add_mul, div_mul_cancel₀ _ hδ0.ne']
      linarith [hV k]
  have ht : Tendsto (response m a) atTop (𝓝 0) :=
    tendsto_of_second_order hm (abs_lt.2 ⟨by linarith, by linarith⟩) fun t => rfl
  have ht1 := (tendsto_add_atTop_iff_nat 1).2 ht
  have hVt : Tendsto V atTop (𝓝 0) := by
    have := ((ht1.pow 2).sub ((ht.mul ht1).const_mul (2 * m * (1 + m - a) / (1 + m)))).add ((ht.pow 2).const_mul (m ^ 2))
    simpa using this
  simp only [hsum]
  have := (hVt.const_sub 1).div_const δ
  rw [sub_zero] at this
  rw [show (1 + m) / ((1 - m) * (a * (2 * (1 + m) - a))) = 1 / δ by rw [hδ, one_div_div]]
  exact this

section
variable {B I : Type} [Space B] [Basis B I ℝ]

/-- The prediction error is the noise-free one plus the responses to the noise so far. -/
theorem momentum_noise {b : B} {n : Nat} {m lr : ℝ} {x : I} {φ : Features ℝ} (hφ : Basis.project b x = .ok (.ok φ))
    (hf : Fits n φ) {y : ℝ} {ε : Nat → ℝ} {fas : Nat → ScalarLFA B (SGDMomentum ℝ) ℝ} {ps : Nat → ℝ} {w : List ℝ}
    (hw : w.length = n) (hs : Stream fas (fun _ => x) (fun k => y + ε k) ps)
    (h0 : fas 0 = LFA.mk b w (SGDMomentum.new n m lr)) :
    let a := lr * normSq φ
    ∀ k, ps k - y = decay m a k * (Spec.inner φ w - y) + ∑ j ∈ Finset.range k, a * response m a (k - j) * ε j := by
  intro a
  have run := linear_stream (p := ⟨m, 1, m, fun _ => lr, 0⟩) hs (b := b) (n := n) (by
    rw [h0]; exact ⟨rfl, hw, by simp [HasSize.sized, SGDMomentum.new], rfl⟩) (fun _ => φ) fun k => ⟨hφ, hf⟩
  let Q : Nat → ℝ := fun k => lr * Spec.inner φ (fas k).optimiser.velocity
  have step : ∀ k, Q (k + 1) = m * Q k + a * (y + ε k - ps k) ∧ ps (k + 1) = ps k + Q (k + 1) := by
    intro k
    obtain ⟨-, r2, r3⟩ := run k
    have r2' := (run (k + 1)).2.1
    have hv : Spec.inner φ (fas (k + 1)).optimiser.velocity =
        m * Spec.inner φ (fas k).optimiser.velocity + normSq φ * (y + ε k - ps k) := by
      rw [inner_lin (w := (fas k).optimiser.velocity) (v := []) (α := m) (β := 0) (γ := y + ε k - ps k) hf.2 fun i hi => ?_]
      · ring
      · have a1 := (r3 i hi).1
        rw [← r2] at a1
        simp only [one_mul] at a1
        have a1 : entry (fas (k + 1)).optimiser.velocity i = _ := a1
        rw [a1]
        show m * entry (fas k).optimiser.velocity i + value φ i * (y + ε k - ps k) = _
        ring
    refine ⟨?_, ?_⟩
    · show lr * Spec.inner φ (fas (k + 1)).optimiser.velocity = m * (lr * Spec.inner φ (fas k).optimiser.velocity) + _
      rw [hv]
      ring
    · rw [r2', r2]
      show _ = _ + lr * Spec.inner φ (fas (k + 1)).optimiser.velocity
      rw [inner_lin (w := (fas k).weights) (v := (fas (k + 1)).optimiser.velocity) (α := 1) (β := lr) (γ := 0) hf.2
        fun i hi => ?_]
      · ring
      · have a1 := (r3 i hi).1
        have a2 := (r3 i hi).2
        simp only [one_mul, zero_mul, add_zero] at a1 a2
        have a1 : entry (fas (k + 1)).optimiser.velocity i = _ := a1
        rw [a2, a1]
        show entry (fas k).weights i + lr * (m * entry (fas k).optimiser.velocity i + _) = _
        ring_nf
        rfl
  have hQ0 : Q 0 = 0 := by
    show lr * Spec.inner φ (fas 0).optimiser.velocity = 0
    rw [h0]
    show lr * Spec.inner φ (List.replicate n Scalar.zero) = 0
    rw [inner_zeros, mul_zero]
  have hp0 : ps 0 = Spec.inner φ w := by rw [(run 0).2.1, h0]
  have hd1 : ps 1 - y = (1 - a) * (ps 0 - y) + a * ε 0 := by
    obtain ⟨s1, s2⟩ := step 0
    rw [hQ0] at s1
    have s2 : ps 1 = ps 0 + Q (0 + 1) := s2
    rw [s2, s1]
    ring
  have hd2 : ∀ k, ps (k + 2) - y = (1 + m - a) * (ps (k + 1) - y) - m * (ps k - y) + a * ε (k + 1) := by
    intro k
    obtain ⟨-, s2⟩ := step k
    obtain ⟨s3, s4⟩ := step (k + 1)
    have s4 : ps (k + 2) = ps (k + 1) + Q (k + 1 + 1) := s4
    rw [s4, s3]
    linear_combination -m * s2
  have key : ∀ k, (ps k - y = decay m a k * (Spec.inner φ w - y) + ∑ j ∈ Finset.range k, a * response m a (k - j) * ε j) ∧
      ps (k + 1) - y = decay m a (k + 1) * (Spec.inner φ w - y) +
        ∑ j ∈ Finset.range (k + 1), a * response m a (k + 1 - j) * ε j := by
    intro k
    induction k with
    | zero =>
      refine ⟨by simp [decay, hp0], ?_⟩
      rw [Nat.zero_add, hd1, hp0]
      simp [decay, response]
    | succ k ih =>
      obtain ⟨i1, i2⟩ := ih
      refine ⟨i2, ?_⟩
      show ps (k + 2) - y = decay m a (k + 2) * _ + ∑ j ∈ Finset.range (k + 2), a * response m a (k + 2 - j) * ε j
      rw [hd2, i1, i2, decay, Finset.sum_range_succ _ (k + 1), Finset.sum_range_succ _ k, Finset.sum_range_succ _ k]
      have hj : ∑ j ∈ Finset.range k, a * response m a (k + 2 - j) * ε j =
          (1 + m - a) * ∑ j ∈ Finset.range k, a * response m a (k + 1 - j) * ε j -
          m * ∑ j ∈ Finset.range k, a * response m a (k - j) * ε j := by
        rw [Finset.mul_sum, Finset.mul_sum, ← Finset.sum_sub_distrib]
        refine Finset.sum_congr rfl fun j hj => ?_
        have hj := Finset.mem_range.1 hj
        rw [show k + 2 - j = (k - j) + 2 by omega, show k + 1 - j = (k - j) + 1 by omega, response]
        ring
      rw [hj, show k + 2 - (k + 1) = 1 by omega, show k + 2 - k = 2 by omega, show k + 1 - k = 1 by omega]
      simp only [response]
      ring
  exact fun k => (key k).1

variable {Ω : Type} [MeasurableSpace Ω] {μ : Measure Ω} [IsProbabilityMeasure μ]

/-- **C156.** Momentum on one repeated input whose targets carry uncorrelated noise of variance `σ²`: the mean squared
error of the prediction after `k` calls, and its limit. -/
theorem C156_momentum (b : B) (n : Nat) (m lr : ℝ) (x : I) (φ : Features ℝ)
    (hφ : Basis.project b x = .ok (.ok φ)) (hf : Fits n φ) (ε : Nat → Ω → ℝ) (σ : ℝ)
    (hε : WhiteNoise μ ε σ) (y p : ℝ) (fas : Ω → Nat → ScalarLFA B (SGDMomentum ℝ) ℝ) (ps : Ω → Nat → ℝ)
    (w : List ℝ) (hw : w.length = n)
    (hp : ScalarLFA.evaluate (LFA.mk b w (SGDMomentum.new n m lr)) x = .ok (.ok p))
    (hs : ∀ ω, Stream (fas ω) (fun _ => x) (fun k => y + ε k ω) (ps ω) ∧
      fas ω 0 = LFA.mk b w (SGDMomentum.new n m lr)) (a : ℝ) (ha : a = lr * normSq φ) :
    (∀ k, ∫ ω, (ps ω k - y) ^ 2 ∂μ = decay m a k ^ 2 * (p - y) ^ 2
      + σ ^ 2 * ∑ j ∈ Finset.range k, (a * response m a (j + 1)) ^ 2) ∧
    (|m| < 1 → 0 < a → a < 2 * (1 + m) → Tendsto (fun k => ∫ ω, (ps ω k - y) ^ 2 ∂μ) atTop
      (𝓝 (a * (1 + m) / ((1 - m) * (2 * (1 + m) - a)) * σ ^ 2))) := by
  have hp' : p = Spec.inner φ w := by
    have := evaluate_eq (fa := LFA.mk b w (SGDMomentum.new n m lr)) hφ (dot_real hf.1 (by rw [hw, hf.2]))
    rw [this] at hp
    simpa using hp.symm
  have h1 : ∀ k, ∫ ω, (ps ω k - y) ^ 2 ∂μ = decay m a k ^ 2 * (p - y) ^ 2
      + σ ^ 2 * ∑ j ∈ Finset.range k, (a * response m a (j + 1)) ^ 2 := by
    intro k
    have : (fun ω => (ps ω k - y) ^ 2) = fun ω =>
        (decay m a k * (p - y) + ∑ j ∈ Finset.range k, a * response m a (k - j) * ε j ω) ^ 2 := by
      funext ω
      have := momentum_noise hφ hf hw (ε := fun k => ε k ω) (hs ω).1 (hs ω).2 k
      rw [← ha] at this
      rw [this, hp']
    rw [this, hε.integral_sq, mul_pow]
    congr 2
    rw [← Finset.sum_range_reflect]
    refine Finset.sum_congr rfl fun j hj => ?_
    have hj := Finset.mem_range.1 hj
    rw [show k - (k - 1 - j) = j + 1 by omega]
  refine ⟨h1, fun hm h0 h2 => ?_⟩
  simp only [h1, mul_pow, ← Finset.mul_sum]
  have hd : Tendsto (decay m a) atTop (𝓝 0) :=
    tendsto_of_second_order hm (abs_lt.2 ⟨by linarith, by linarith⟩) fun t => rfl
  have := ((hd.pow 2).mul_const ((p - y) ^ 2)).add (((response_sum hm h0 h2).const_mul (a ^ 2)).const_mul (σ ^ 2))
  refine this.congr' ?_ |>.trans (le_of_eq ?_)
  · exact Filter.Eventually.of_forall fun k => rfl
  · congr 1
    have hx : (1 - m) ≠ 0 := by have := abs_lt.1 hm; linarith
    have hz : 2 * (1 + m) - a ≠ 0 := by linarith
    have ha0 : a ≠ 0 := h0.ne'
    field_simp
    ring

/-- For `0 < momentum < 1` this is less than SGD with learning rate `lr / (1 - momentum)` leaves, if that is stable. It is
more than SGD with the same learning rate leaves exactly if `lr ‖φ‖² < 1 + momentum`. -/
theorem C156_compare (m a : ℝ) (h0 : 0 < m) (h1 : m < 1) (ha : 0 < a) :
    (a < 2 → (a / (2 - a) < a * (1 + m) / ((1 - m) * (2 * (1 + m) - a)) ↔ a < 1 + m)) ∧
    (a / (1 - m) < 2 → a * (1 + m) / ((1 - m) * (2 * (1 + m) - a)) < a / (1 - m) / (2 - a / (1 - m))) := by
  have hm : 0 < 1 - m := by linarith
  constructor
  · intro h2
    rw [div_lt_div_iff₀ (by linarith) (mul_pos hm (by linarith))]
    have e : a * (1 + m) * (2 - a) - a * ((1 - m) * (2 * (1 + m) - a)) = 2 * m * a * (1 + m - a) := by ring
    have hp : 0 < 2 * m * a := by positivity
    constructor
    · intro h
      have : 0 < 2 * m * a * (1 + m - a) := by linarith
      linarith [pos_of_mul_pos_right this hp.le]
    · intro h
      have : 0 < 2 * m * a * (1 + m - a) := mul_pos hp (by linarith)
      linarith
  · intro h2
    have ha2 : a < 2 * (1 - m) := (div_lt_iff₀ hm).1 h2
    have e : a / (1 - m) / (2 - a / (1 - m)) = a / (2 * (1 - m) - a) := by
      have : 2 * (1 - m) - a ≠ 0 := by linarith
      field_simp
    have p2 : 0 < (1 - m) * (2 * (1 + m) - a) := mul_pos hm (by linarith)
    have p3 : 0 < 2 * (1 - m) - a := by linarith
    rw [e, div_lt_div_iff₀ p2 p3]
    nlinarith [mul_pos ha h0, mul_pos (mul_pos ha h0) ha, mul_pos (mul_pos ha h0) h0]

end

/-- Runs with cosine noise around the target 5: momentum 1/2, `lr ‖φ‖² = 1/2`. The mean squared error tends to 3/5 of
the variance of the noise, against 1/3 for SGD with the same learning rate. -/
theorem C156_example : ∃ (fas : ℝ → Nat → ScalarLFA (Closure ℝ ℝ) (SGDMomentum ℝ) ℝ) (ps : ℝ → Nat → ℝ),
    (∀ ω, Stream (fas ω) (fun _ => (1 : ℝ)) (fun k => 5 + √2 * Real.cos (Real.pi * ((k + 1 : ℕ) * ω))) (ps ω)) ∧
    Tendsto (fun k => ∫ ω in Set.Ioc (0 : ℝ) 1, (ps ω k - 5) ^ 2) atTop (𝓝 (3 / 5)) := by
  have hx : ∀ k : Nat, ∃ φ, Basis.project line ((fun _ => (1 : ℝ)) k) = .ok (.ok φ) ∧ Fits 2 φ := fun k =>
    ⟨_, (line_fits 1).1, (line_fits 1).2.1⟩
  choose fas ps hs using fun ω : ℝ => stream_exists (O := SGDMomentum ℝ) line (fun _ => (1 : ℝ))
    (fun k => 5 + √2 * Real.cos (Real.pi * ((k + 1 : ℕ) * ω))) hx [0, 0] rfl (SGDMomentum.new 2 (1 / 2) (1 / 4))
    (by simp [HasSize.sized, SGDMomentum.new])
  have : IsProbabilityMeasure (volume.restrict (Set.Ioc (0 : ℝ) 1)) := ⟨by simp⟩
  refine ⟨fas, ps, fun ω => (hs ω).1, ?_⟩
  have h := (C156_momentum line 2 (1 / 2) (1 / 4) (1 : ℝ) _ (line_fits 1).1 (line_fits 1).2.1 _ 1 whiteNoise_cos 5 _
    fas ps [0, 0] rfl (evaluate_eq (fa := LFA.mk line [0, 0] (SGDMomentum.new 2 (1 / 2) (1 / 4))) (line_fits 1).1
      (dot_real (line_fits 1).2.1.1 rfl)) hs (1 / 2) (by rw [(line_fits 1).2.2]; norm_num)).2 (by norm_num [abs_lt])
      (by norm_num) (by norm_num)
  norm_num at h ⊢
  exact h

end Lfa

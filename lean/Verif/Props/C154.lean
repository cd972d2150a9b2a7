import Verif.Props.C115_C117
import Verif.Props.C69_C71
import Verif.Proofs.LinearStep
import Mathlib.Algebra.Order.Ring.GeomSum

/-!
# C154: Momentum on arbitrary sequences of inputs

C71 says that SGD learns realisable targets from any sequence of inputs if `lr ‖φ‖² < 2`. With Momentum the
condition depends on the sequence: on one repeated input it is `lr ‖φ‖² < 2 (1 + momentum)` (C115), but inputs
with no active features in between lower it, down to `2 (1 - momentum)`, because the velocity keeps moving the
weights. `lr ‖φ‖² (1 + momentum) < 2 (1 - momentum)²` is enough for every sequence. Exact arithmetic.
-/

set_option linter.unusedSectionVars false

namespace Lfa

open Spec Filter Topology

section
variable {B I : Type} [Space B] [Basis B I ℝ]

/-- What one call does to the distance `W = ‖d - b u‖² + a b ‖u‖²`, where `d` is what is missing from the
weights, `u` the velocity, `a = lr / (1 - μ)` and `b = μ a`. -/
theorem momentum_energy {n : Nat} {μ lr e : ℝ} (h0 : 0 ≤ μ) (h1 : μ < 1) (hlr : 0 < lr) {f d u d' u' : Nat → ℝ}
    (he : e = ∑ i ∈ Finset.range n, f i * d i) (hu : ∀ i < n, u' i = μ * u i + f i * e)
    (hd : ∀ i < n, d' i = d i - lr * u' i) :
    ∑ i ∈ Finset.range n, (d' i - μ * (lr / (1 - μ)) * u' i) ^ 2 +
        lr / (1 - μ) * (μ * (lr / (1 - μ))) * ∑ i ∈ Finset.range n, u' i ^ 2 ≤
      ∑ i ∈ Finset.range n, (d i - μ * (lr / (1 - μ)) * u i) ^ 2 +
        lr / (1 - μ) * (μ * (lr / (1 - μ))) * ∑ i ∈ Finset.range n, u i ^ 2 -
      lr / (1 - μ) * (2 - lr * (∑ i ∈ Finset.range n, f i ^ 2) * (1 + μ) / (1 - μ) ^ 2) * e ^ 2 := by
  have hm : 0 < 1 - μ := by linarith
  set a := lr / (1 - μ) with ha
  have hlra : lr = a * (1 - μ) := by rw [ha]; field_simp
  have ha0 : 0 < a := div_pos hlr hm
  set N := ∑ i ∈ Finset.range n, f i ^ 2 with hN
  set S := ∑ i ∈ Finset.range n, u i ^ 2 with hS
  set q := ∑ i ∈ Finset.range n, f i * u i with hq
  have s1 : ∑ i ∈ Finset.range n, (d' i - μ * a * u' i) ^ 2 =
      ∑ i ∈ Finset.range n, (d i - μ * a * u i) ^ 2 - 2 * a * e * (e - μ * a * q) + a ^ 2 * N * e ^ 2 := by
    have : ∀ i ∈ Finset.range n, (d' i - μ * a * u' i) ^ 2 = (d i - μ * a * u i) ^ 2
        - 2 * a * e * (f i * d i - μ * a * (f i * u i)) + a ^ 2 * e ^ 2 * f i ^ 2 := by
      intro i hi
      have hi := Finset.mem_range.1 hi
      rw [hd i hi, hu i hi, hlra]
      ring
    rw [Finset.sum_congr rfl this, Finset.sum_add_distrib, Finset.sum_sub_distrib, ← Finset.mul_sum, ← Finset.mul_sum,
      Finset.sum_sub_distrib, ← Finset.mul_sum, ← he, ← hN, ← hq]
    ring
  have s2 : ∑ i ∈ Finset.range n, u' i ^ 2 = μ ^ 2 * S + 2 * μ * e * q + N * e ^ 2 := by
    have : ∀ i ∈ Finset.range n, u' i ^ 2 = μ ^ 2 * u i ^ 2 + 2 * μ * e * (f i * u i) + e ^ 2 * f i ^ 2 := by
      intro i hi
      rw [hu i (Finset.mem_range.1 hi)]
      ring
    rw [Finset.sum_congr rfl this, Finset.sum_add_distrib, Finset.sum_add_distrib, ← Finset.mul_sum, ← Finset.mul_sum,
      ← Finset.mul_sum]
    ring
  have s3 : 0 ≤ (1 - μ) ^ 2 * S - 2 * (1 - μ) * e * q + N * e ^ 2 := by
    have : (1 - μ) ^ 2 * S - 2 * (1 - μ) * e * q + N * e ^ 2 = ∑ i ∈ Finset.range n, ((1 - μ) * u i - f i * e) ^ 2 := by
      have : ∀ i ∈ Finset.range n, ((1 - μ) * u i - f i * e) ^ 2 =
          (1 - μ) ^ 2 * u i ^ 2 - 2 * (1 - μ) * e * (f i * u i) + e ^ 2 * f i ^ 2 := fun i _ => by ring
      rw [Finset.sum_congr rfl this, Finset.sum_add_distrib, Finset.sum_sub_distrib, ← Finset.mul_sum, ← Finset.mul_sum,
        ← Finset.mul_sum]
      ring
    rw [this]
    exact Finset.sum_nonneg fun _ _ => sq_nonneg _
  have s4 := mul_nonneg (mul_nonneg (mul_nonneg ha0.le (mul_nonneg h0 ha0.le)) (div_nonneg (by linarith : 0 ≤ 1 + μ) hm.le)) s3
  rw [s1, s2]
  have s5 : a * (μ * a) * ((1 + μ) / (1 - μ)) * ((1 - μ) ^ 2 * S - 2 * (1 - μ) * e * q + N * e ^ 2) =
      a * (μ * a) * ((1 - μ ^ 2) * S - 2 * (1 + μ) * e * q + (1 + μ) / (1 - μ) * (N * e ^ 2)) := by
    field_simp; ring
  rw [s5] at s4
  have s6 : lr * N * (1 + μ) / (1 - μ) ^ 2 = a * N * (1 + μ) / (1 - μ) := by rw [hlra]; field_simp
  rw [s6]
  have s7 : a * (2 - a * N * (1 + μ) / (1 - μ)) * e ^ 2 =
      2 * a * e ^ 2 - a ^ 2 * N * e ^ 2 - a * (μ * a) * (N * e ^ 2) - a * (μ * a) * ((1 + μ) / (1 - μ) * (N * e ^ 2)) := by
    field_simp; ring
  rw [s7]
  linarith

/-- **C154.** Momentum learns realisable targets from any sequence of inputs: if some weights `v` predict all
targets, `‖φ‖² ≤ M` for all inputs and `lr M (1 + momentum) < 2 (1 - momentum)²`, the errors before each call
are square-summable, with an explicit bound, and tend to zero. -/
theorem C154_converges (b : B) (n : Nat) (μ lr M : ℝ) (h0 : 0 ≤ μ) (h1 : μ < 1) (hlr : 0 < lr)
    (hM : lr * M * (1 + μ) < 2 * (1 - μ) ^ 2) (w v : List ℝ) (hw : w.length = n) (xs : Nat → I) (ys ps : Nat → ℝ)
    (fas : Nat → ScalarLFA B (SGDMomentum ℝ) ℝ) (h : Stream fas xs ys ps)
    (hf : fas 0 = LFA.mk b w (SGDMomentum.new n μ lr))
    (hx : ∀ k, ∃ φ, Basis.project b (xs k) = .ok (.ok φ) ∧ Fits n φ ∧ normSq φ ≤ M)
    (hv : ∀ k, Predicts b v (xs k) (ys k)) :
    Summable (fun k => (ys k - ps k) ^ 2) ∧
      ∑' k, (ys k - ps k) ^ 2 ≤ distSq n w v / (lr / (1 - μ) * (2 - lr * M * (1 + μ) / (1 - μ) ^ 2)) ∧
      Tendsto (fun k => ys k - ps k) atTop (𝓝 0) := by
  choose φ hφ hfit hN using hx
  have hm : 0 < 1 - μ := by linarith
  have run := linear_stream (p := ⟨μ, 1, μ, fun _ => lr, 0⟩) h (b := b) (n := n) (by
    rw [hf]; exact ⟨rfl, hw, by simp [HasSize.sized, SGDMomentum.new], rfl⟩) φ fun k => ⟨hφ k, hfit k⟩
  have hc : 0 < lr / (1 - μ) * (2 - lr * M * (1 + μ) / (1 - μ) ^ 2) := by
    refine mul_pos (div_pos hlr hm) (sub_pos.2 ?_)
    rw [div_lt_iff₀ (by positivity)]
    exact hM
  have key := summable_of_decrease (e := fun k => ys k - ps k)
    (D := fun k => ∑ i ∈ Finset.range n, (entry v i - entry (fas k).weights i -
        μ * (lr / (1 - μ)) * entry (fas k).optimiser.velocity i) ^ 2 +
      lr / (1 - μ) * (μ * (lr / (1 - μ))) * ∑ i ∈ Finset.range n, entry (fas k).optimiser.velocity i ^ 2) hc
    (fun k => by
      have h1 : 0 ≤ lr / (1 - μ) := (div_pos hlr hm).le
      have h2 : 0 ≤ ∑ i ∈ Finset.range n, entry (fas k).optimiser.velocity i ^ 2 :=
        Finset.sum_nonneg fun _ _ => sq_nonneg _
      exact add_nonneg (Finset.sum_nonneg fun _ _ => sq_nonneg _) (mul_nonneg (mul_nonneg h1 (mul_nonneg h0 h1)) h2))
    fun k => by
      obtain ⟨-, r2, r3⟩ := run k
      have hy : ys k = Spec.inner (φ k) v := predicts_inner (hv k) (hφ k)
      have he : ys k - ps k = ∑ i ∈ Finset.range n, value (φ k) i * (entry v i - entry (fas k).weights i) := by
        rw [hy, r2, inner_eq, inner_eq, (hfit k).2, ← Finset.sum_sub_distrib]
        exact Finset.sum_congr rfl fun i _ => by ring
      have := momentum_energy (n := n) (e := ys k - ps k) h0 h1 hlr (f := fun i => value (φ k) i)
        (d := fun i => entry v i - entry (fas k).weights i) (u := fun i => entry (fas k).optimiser.velocity i)
        (d' := fun i => entry v i - entry (fas (k + 1)).weights i)
        (u' := fun i => entry (fas (k + 1)).optimiser.velocity i) he
        (fun i hi => by
          have := (r3 i hi).1
          rw [← r2] at this
          simp only [one_mul] at this
          exact this)
        (fun i hi => by
          have a1 := (r3 i hi).1
          have a2 := (r3 i hi).2
          rw [← r2] at a1 a2
          simp only [one_mul, zero_mul, add_zero] at a1 a2
          have a1 : entry (fas (k + 1)).optimiser.velocity i = _ := a1
          have a2 : entry (fas (k + 1)).weights i = _ := a2
          show entry v i - entry (fas (k + 1)).weights i = _
          rw [a2, a1]
          show _ = entry v i - entry (fas k).weights i - lr * (μ * entry (fas k).optimiser.velocity i + _)
          ring_nf
          rfl)
      refine this.trans (sub_le_sub_left ?_ _)
      refine mul_le_mul_of_nonneg_right (mul_le_mul_of_nonneg_left ?_ (div_pos hlr hm).le) (sq_nonneg _)
      have hNk : ∑ i ∈ Finset.range n, value (φ k) i ^ 2 ≤ M := by
        refine le_trans (le_of_eq ?_) (hN k)
        rw [normSq, (hfit k).2]
        exact Finset.sum_congr rfl fun i _ => sq _
      have : lr * (∑ i ∈ Finset.range n, value (φ k) i ^ 2) * (1 + μ) / (1 - μ) ^ 2 ≤ lr * M * (1 + μ) / (1 - μ) ^ 2 := by
        gcongr
      linarith
  refine ⟨key.1, le_of_le_of_eq key.2.1 ?_, key.2.2⟩
  have hz : ∀ i, entry (fas 0).optimiser.velocity i = 0 := by
    intro i
    rw [hf]
    show entry (List.replicate n (Scalar.zero : ℝ)) i = 0
    unfold entry
    by_cases hi : i < n <;> simp [hi]
  simp only [hz]
  rw [hf]
  simp [distSq]

/-- Such runs exist for every sequence. -/
theorem C154_exists (b : B) (n : Nat) (μ lr : ℝ) (w : List ℝ) (hw : w.length = n) (xs : Nat → I) (ys : Nat → ℝ)
    (hx : ∀ k, ∃ φ, Basis.project b (xs k) = .ok (.ok φ) ∧ Fits n φ) :
    ∃ (fas : Nat → ScalarLFA B (SGDMomentum ℝ) ℝ) (ps : Nat → ℝ), Stream fas xs ys ps ∧
      fas 0 = LFA.mk b w (SGDMomentum.new n μ lr) :=
  stream_exists b xs ys hx w hw _ (by simp [HasSize.sized, SGDMomentum.new])

/-! ## Idle calls -/

/-- Every `r + 1`-th call is at `x`, the others at `x₀`. -/
def interleaved {α : Type} (r : Nat) (x x₀ : α) (k : Nat) : α := if k % (r + 1) = 0 then x else x₀

/-- `r` calls at an input without active features between any two calls at `x`, whatever their targets: the
errors at `x` go on as if the momentum were `momentum ^ (r + 1)` and the learning rate
`lr (1 + momentum + ... + momentum ^ r)`. -/
theorem idle_errors {b : B} {x x₀ : I} {φ ψ : Features ℝ} {n r : Nat} (hp : Basis.project b x = .ok (.ok φ))
    (hf : Fits n φ) (hp₀ : Basis.project b x₀ = .ok (.ok ψ)) (hf₀ : Fits n ψ) (hψ : ∀ i < n, value ψ i = 0)
    {y y₀ μ lr : ℝ} {w : List ℝ} (hw : w.length = n) {fas : Nat → ScalarLFA B (SGDMomentum ℝ) ℝ} {ps : Nat → ℝ}
    (h : Stream fas (interleaved r x x₀) (interleaved r y y₀) ps)
    (h0 : fas 0 = LFA.mk b w (SGDMomentum.new n μ lr)) :
    let e := fun t => y - ps ((r + 1) * t)
    let a := lr * normSq φ * ∑ j ∈ Finset.range (r + 1), μ ^ j
    e 1 = (1 - a) * e 0 ∧ ∀ t, e (t + 2) = (1 + μ ^ (r + 1) - a) * e (t + 1) - μ ^ (r + 1) * e t := by
  intro e a
  have run := linear_stream (p := ⟨μ, 1, μ, fun _ => lr, 0⟩) h (b := b) (n := n) (by
    rw [h0]; exact ⟨rfl, hw, by simp [HasSize.sized, SGDMomentum.new], rfl⟩)
    (interleaved r φ ψ) (fun k => by
      unfold interleaved
      split
      · exact ⟨hp, hf⟩
      · exact ⟨hp₀, hf₀⟩)
  let P : Nat → ℝ := fun k => Spec.inner φ (fas k).weights
  let Q : Nat → ℝ := fun k => lr * Spec.inner φ (fas k).optimiser.velocity
  have step : ∀ k, Q (k + 1) = μ * Q k + (if k % (r + 1) = 0 then lr * normSq φ * (y - P k) else 0) ∧
      P (k + 1) = P k + Q (k + 1) := by
    intro k
    obtain ⟨-, r2, r3⟩ := run k
    have hP : P (k + 1) = P k + Q (k + 1) := by
      show Spec.inner φ (fas (k + 1)).weights = Spec.inner φ (fas k).weights + lr * Spec.inner φ (fas (k + 1)).optimiser.velocity
      rw [inner_lin (w := (fas k).weights) (v := (fas (k + 1)).optimiser.velocity) (α := 1) (β := lr) (γ := 0) hf.2
        fun i hi => ?_]
      · ring
      · have a1 := (r3 i hi).1
        have a2 := (r3 i hi).2
        simp only [one_mul, zero_mul, add_zero] at a1 a2
        have a1 : entry (fas (k + 1)).optimiser.velocity i = _ := a1
        rw [a2, a1]
        show entry (fas k).weights i + lr * (μ * entry (fas k).optimiser.velocity i + _) = _
        ring_nf
        rfl
    refine ⟨?_, hP⟩
    show lr * Spec.inner φ (fas (k + 1)).optimiser.velocity = μ * (lr * Spec.inner φ (fas k).optimiser.velocity) + _
    by_cases hk : k % (r + 1) = 0
    · rw [if_pos hk]
      have e1 : interleaved r φ ψ k = φ := if_pos hk
      have e2 : interleaved r y y₀ k = y := if_pos hk
      rw [e1, e2] at r3
      rw [inner_lin (w := (fas k).optimiser.velocity) (v := []) (α := μ) (β := 0) (γ := y - P k) hf.2 fun i hi => ?_]
      · ring
      · have a1 := (r3 i hi).1
        simp only [one_mul] at a1
        have a1 : entry (fas (k + 1)).optimiser.velocity i = _ := a1
        rw [a1]
        show μ * entry (fas k).optimiser.velocity i + value φ i * (y - P k) = _
        ring
    · rw [if_neg hk]
      have e1 : interleaved r φ ψ k = ψ := if_neg hk
      rw [e1] at r3
      rw [inner_lin (w := (fas k).optimiser.velocity) (v := []) (α := μ) (β := 0) (γ := 0) hf.2 fun i hi => ?_]
      · ring
      · have a1 := (r3 i hi).1
        rw [hψ i hi] at a1
        simp only [one_mul, zero_mul, add_zero] at a1
        have a1 : entry (fas (k + 1)).optimiser.velocity i = _ := a1
        rw [a1]
        show μ * entry (fas k).optimiser.velocity i = _
        ring
  have hps : ∀ t, ps ((r + 1) * t) = P ((r + 1) * t) := by
    intro t
    have := (run ((r + 1) * t)).2.1
    rw [this]
    unfold interleaved
    rw [if_pos (Nat.mul_mod_right _ _)]
  -- the idle calls
  have idle : ∀ t, ∀ j ≤ r, Q ((r + 1) * t + 1 + j) = μ ^ j * Q ((r + 1) * t + 1) ∧
      P ((r + 1) * t + 1 + j) = P ((r + 1) * t) + (∑ i ∈ Finset.range (j + 1), μ ^ i) * Q ((r + 1) * t + 1) := by
    intro t j
    induction j with
    | zero =>
      intro _
      refine ⟨by simp, ?_⟩
      rw [Nat.add_zero, (step _).2]
      simp
    | succ j ih =>
      intro hj
      obtain ⟨i1, i2⟩ := ih (by omega)
      obtain ⟨s1, s2⟩ := step ((r + 1) * t + 1 + j)
      have hmod : ((r + 1) * t + 1 + j) % (r + 1) ≠ 0 := by
        rw [Nat.add_assoc, Nat.mul_add_mod, Nat.mod_eq_of_lt (by omega)]
        omega
      rw [if_neg hmod, add_zero] at s1
      have q1 : Q ((r + 1) * t + 1 + (j + 1)) = μ ^ (j + 1) * Q ((r + 1) * t + 1) := by
        rw [show (r + 1) * t + 1 + (j + 1) = (r + 1) * t + 1 + j + 1 by ring, s1, i1]
        ring
      refine ⟨q1, ?_⟩
      rw [show (r + 1) * t + 1 + (j + 1) = (r + 1) * t + 1 + j + 1 by ring, s2, i2,
        show (r + 1) * t + 1 + j + 1 = (r + 1) * t + 1 + (j + 1) by ring, q1, Finset.sum_range_succ _ (j + 1)]
      ring
  set σ := ∑ j ∈ Finset.range (r + 1), μ ^ j with hσ
  have period : ∀ t, Q ((r + 1) * (t + 1)) = μ ^ r * (μ * Q ((r + 1) * t) + lr * normSq φ * e t) ∧
      e (t + 1) = e t - σ * (μ * Q ((r + 1) * t) + lr * normSq φ * e t) := by
    intro t
    have hq : Q ((r + 1) * t + 1) = μ * Q ((r + 1) * t) + lr * normSq φ * e t := by
      rw [(step _).1, if_pos (Nat.mul_mod_right _ _)]
      show _ = _ + lr * normSq φ * (y - ps ((r + 1) * t))
      rw [hps]
    obtain ⟨i1, i2⟩ := idle t r le_rfl
    have ht : (r + 1) * t + 1 + r = (r + 1) * (t + 1) := by ring
    rw [ht] at i1 i2
    refine ⟨by rw [i1, hq], ?_⟩
    show y - ps ((r + 1) * (t + 1)) = y - ps ((r + 1) * t) - _
    rw [hps, hps, i2, hq]
    ring
  have hQ0 : Q ((r + 1) * 0) = 0 := by
    show lr * Spec.inner φ (fas ((r + 1) * 0)).optimiser.velocity = 0
    rw [Nat.mul_zero, h0]
    show lr * Spec.inner φ (List.replicate n Scalar.zero) = 0
    rw [inner_zeros, mul_zero]
  constructor
  · rw [show (1 : Nat) = 0 + 1 by rfl, (period 0).2, hQ0]
    ring
  · intro t
    obtain ⟨p1, p2⟩ := period t
    obtain ⟨-, p4⟩ := period (t + 1)
    show e (t + 1 + 1) = _
    rw [p4, p1]
    linear_combination -μ ^ (r + 1) * p2

/-- Exactly when Momentum learns an input that is interleaved with `r` idle calls, for `0 ≤ momentum < 1`: if
`lr ‖φ‖² (1 - momentum ^ (r + 1)) < 2 (1 - momentum) (1 + momentum ^ (r + 1))`. -/
theorem C154_idle_iff (b : B) (x x₀ : I) (φ ψ : Features ℝ) (n r : Nat) (hp : Basis.project b x = .ok (.ok φ))
    (hf : Fits n φ) (hp₀ : Basis.project b x₀ = .ok (.ok ψ)) (hf₀ : Fits n ψ) (hψ : ∀ i < n, value ψ i = 0)
    (y y₀ μ lr : ℝ) (h0 : 0 ≤ μ) (h1 : μ < 1) (hlr : 0 < lr * normSq φ) (w : List ℝ) (hw : w.length = n)
    (fas : Nat → ScalarLFA B (SGDMomentum ℝ) ℝ) (ps : Nat → ℝ)
    (h : Stream fas (interleaved r x x₀) (interleaved r y y₀) ps)
    (hs : fas 0 = LFA.mk b w (SGDMomentum.new n μ lr)) (hy : ps 0 ≠ y) :
    Tendsto (fun t => ps ((r + 1) * t)) atTop (𝓝 y) ↔
      lr * normSq φ * (1 - μ ^ (r + 1)) < 2 * (1 - μ) * (1 + μ ^ (r + 1)) := by
  obtain ⟨e1, e2⟩ := idle_errors hp hf hp₀ hf₀ hψ hw h hs
  have hm : 0 < 1 - μ := by linarith
  have hpow : μ ^ (r + 1) < 1 := pow_lt_one₀ h0 h1 (by omega)
  have hpow0 : 0 ≤ μ ^ (r + 1) := pow_nonneg h0 _
  have hsum : (∑ j ∈ Finset.range (r + 1), μ ^ j) * (1 - μ) = 1 - μ ^ (r + 1) := geom_sum_mul_neg μ (r + 1)
  have hσ : 0 < ∑ j ∈ Finset.range (r + 1), μ ^ j := by
    by_contra hc
    have := mul_nonpos_of_nonpos_of_nonneg (not_lt.1 hc) hm.le
    linarith
  have key := heavy_ball_iff (e := fun t => y - ps ((r + 1) * t)) (sub_ne_zero.2 (by simpa using hy.symm)) e1 e2
  have ht : Tendsto (fun t => ps ((r + 1) * t)) atTop (𝓝 y) ↔ Tendsto (fun t => y - ps ((r + 1) * t)) atTop (𝓝 0) := by
    constructor
    · intro h
      have := h.const_sub y
      rwa [sub_self] at this
    · intro h
      have := h.const_sub y
      simpa using this
  rw [ht, key]
  constructor
  · rintro ⟨-, -, h3⟩
    have := mul_lt_mul_of_pos_right h3 hm
    rw [← hsum]
    linarith
  · intro h3
    refine ⟨by rw [abs_of_nonneg hpow0]; exact hpow, mul_pos hlr hσ, ?_⟩
    rw [← hsum] at h3
    by_contra hc
    have := mul_le_mul_of_nonneg_right (not_lt.1 hc) hm.le
    linarith

end

/-- Momentum 0.9 and learning rate 3, with one feature that equals the input. The input 1 alone is learnt, and is
not learnt if every other call is at the input 0, where the feature vanishes and all weights meet the target 0. -/
theorem C154_example (c y : ℝ) (hc : c ≠ y) :
    let b : Closure ℝ ℝ := ⟨1, fun x => .ok (.ok (.dense [x]))⟩
    (∀ (fas : Nat → ScalarLFA (Closure ℝ ℝ) (SGDMomentum ℝ) ℝ) (ps : Nat → ℝ),
      Stream fas (fun _ => (1 : ℝ)) (fun _ => y) ps → fas 0 = LFA.mk b [c] (SGDMomentum.new 1 0.9 3) →
      Tendsto (fun k => y - ps k) atTop (𝓝 0)) ∧
    (∀ (fas : Nat → ScalarLFA (Closure ℝ ℝ) (SGDMomentum ℝ) ℝ) (ps : Nat → ℝ),
      Stream fas (interleaved 1 (1 : ℝ) 0) (interleaved 1 y 0) ps → fas 0 = LFA.mk b [c] (SGDMomentum.new 1 0.9 3) →
      ¬ Tendsto (fun t => ps (2 * t)) atTop (𝓝 y)) := by
  intro b
  have hN : normSq (Features.dense [(1 : ℝ)]) = 1 := by simp [normSq, value, Spec.dim]
  have h0 : ∀ (fas : Nat → ScalarLFA (Closure ℝ ℝ) (SGDMomentum ℝ) ℝ) (xs ys ps : Nat → ℝ), Stream fas xs ys ps →
      fas 0 = LFA.mk b [c] (SGDMomentum.new 1 0.9 3) → xs 0 = 1 → ps 0 = c := by
    intro fas xs ys ps h hf hx
    have := (linear_stream (p := ⟨0.9, 1, 0.9, fun _ => 3, 0⟩) h (b := b) (n := 1) (by
      rw [hf]; exact ⟨rfl, rfl, by simp [HasSize.sized, SGDMomentum.new], rfl⟩)
      (fun k => .dense [xs k]) (fun k => ⟨rfl, trivial, rfl⟩) 0).2.1
    rw [this, hf, hx, inner_eq]
    simp [value, Spec.dim, entry]
  constructor
  · intro fas ps h hf
    refine (C115_momentum_iff b 1 (.dense [1]) 1 rfl ⟨trivial, rfl⟩ y 0.9 3 [c] rfl fas ps h hf ?_).2 ?_
    · rw [h0 fas _ _ ps h hf rfl]
      exact hc
    · rw [hN]
      norm_num [abs_lt]
  · intro fas ps h hf ht
    have := (C154_idle_iff b 1 0 (.dense [1]) (.dense [0]) 1 1 rfl ⟨trivial, rfl⟩ rfl ⟨trivial, rfl⟩
      (fun i hi => by interval_cases i; simp [value]) y 0 0.9 3 (by norm_num) (by norm_num) (by rw [hN]; norm_num)
      [c] rfl fas ps h hf (by rw [h0 fas _ _ ps h hf (if_pos rfl)]; exact hc)).1 ht
    rw [hN] at this
    norm_num at this

/-- Momentum 0.5 and learning rate 0.3 learn `y = 2 x` from any sequence of inputs in `[-1, 1]`. -/
theorem C154_example_converges (xs : Nat → ℝ) (hx : ∀ k, |xs k| ≤ 1) (c : ℝ) :
    ∃ (fas : Nat → ScalarLFA (Closure ℝ ℝ) (SGDMomentum ℝ) ℝ) (ps : Nat → ℝ), Stream fas xs (fun k => 2 * xs k) ps ∧
      (fas 0).weights = [c] ∧ Tendsto (fun k => 2 * xs k - ps k) atTop (𝓝 0) := by
  let b : Closure ℝ ℝ := ⟨1, fun x => .ok (.ok (.dense [x]))⟩
  obtain ⟨fas, ps, h, hf⟩ := C154_exists b 1 0.5 0.3 [c] rfl xs (fun k => 2 * xs k)
    (fun k => ⟨.dense [xs k], rfl, trivial, rfl⟩)
  refine ⟨fas, ps, h, by rw [hf], ?_⟩
  refine (C154_converges b 1 0.5 0.3 1 (by norm_num) (by norm_num) (by norm_num) (by norm_num) [c] [2] rfl xs
    (fun k => 2 * xs k) ps fas h hf (fun k => ⟨.dense [xs k], rfl, ⟨trivial, rfl⟩, ?_⟩) (fun k => ⟨.dense [xs k], rfl, ?_⟩)).2.2
  · have := hx k
    have h1 := abs_le.1 this
    simp only [normSq, value, Spec.dim]
    simp
    nlinarith [h1.1, h1.2]
  · simp [value, Spec.dim, entry]
    ring

end Lfa

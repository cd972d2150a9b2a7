import Verif.Props.C115_C117
import Verif.Proofs.Band

/-!
# C151: Adam and AdaMax without momentum never settle

C117 shows that Adagrad converges on a repeated input for every learning rate. Adam and AdaMax divide by a
measure of *recent* gradients, which shrinks with the error. With `beta1 = 0` this is made precise: the
error ends up in a band proportional to the learning rate, and leaves every smaller neighbourhood of zero
again and again, unless a prediction happens to be exactly on target. Exact arithmetic.
-/

set_option linter.unusedSectionVars false

namespace Lfa

open Spec Features Filter Topology

section
variable {B I : Type} [Space B] [Basis B I ℝ]

theorem adam_keeps {n : Nat} {φ : Features ℝ} (hf : Fits n φ) (lr β₁ β₂ : ℝ) (o : Adam ℝ) (w : List ℝ) (s : ℝ)
    (ho : (o.learningRate = lr ∧ o.beta1 = β₁ ∧ o.beta2 = β₂) ∧ o.expAvg.length = n ∧ o.expAvgSq.length = n)
    (hw : w.length = n) :
    ∃ o' w', Optimiser.stepScaled o w φ s = .ok (.ok (), o', w') ∧
      ((o'.learningRate = lr ∧ o'.beta1 = β₁ ∧ o'.beta2 = β₂) ∧ o'.expAvg.length = n ∧ o'.expAvgSq.length = n) ∧
      w'.length = n := by
  obtain ⟨m, v, w', h1, h2, h3, h4, -⟩ := adam_real hf o ho.2.1 ho.2.2 s hw
  exact ⟨_, w', h1, ⟨ho.1, h2, h3⟩, h4⟩

theorem adamax_keeps {n : Nat} {φ : Features ℝ} (hf : Fits n φ) (lr β₁ β₂ : ℝ) (o : AdaMax ℝ) (w : List ℝ) (s : ℝ)
    (ho : (o.learningRate = lr ∧ o.beta1 = β₁ ∧ o.beta2 = β₂) ∧ o.expAvg.length = n ∧ o.expInf.length = n)
    (hw : w.length = n) :
    ∃ o' w', Optimiser.stepScaled o w φ s = .ok (.ok (), o', w') ∧
      ((o'.learningRate = lr ∧ o'.beta1 = β₁ ∧ o'.beta2 = β₂) ∧ o'.expAvg.length = n ∧ o'.expInf.length = n) ∧
      w'.length = n := by
  obtain ⟨m, u, w', h1, h2, h3, h4, -⟩ := adamax_real hf o ho.2.1 ho.2.2 s hw
  exact ⟨_, w', h1, ⟨ho.1, h2, h3⟩, h4⟩

/-- The weights move by `lr * g i / (|φ i| * S + ε)`, so the error is scaled by a gain. -/
theorem error_of_steps {φ : Features ℝ} {n : Nat} (hd : dim φ = n) {w w' : List ℝ} {lr e S y : ℝ}
    (h : ∀ i < n, value φ i * entry w' i = value φ i * (entry w i + lr * (value φ i * e) / (|value φ i| * S + 1e-7)))
    (he : e = y - inner φ w) :
    y - inner φ w' = (1 - gain n (fun i => lr * value φ i ^ 2) (fun i => |value φ i|) 1e-7 S) * e := by
  have : inner φ w' = inner φ w + gain n (fun i => lr * value φ i ^ 2) (fun i => |value φ i|) 1e-7 S * e := by
    rw [inner_eq, inner_eq, hd, gain, Finset.sum_mul, ← Finset.sum_add_distrib]
    refine Finset.sum_congr rfl fun i hi => ?_
    rw [h i (Finset.mem_range.1 hi)]
    ring
  rw [this, he]; ring

/-- Errors of Adam without momentum on one input: `V` is the running mean of the squared errors. -/
theorem adam_errors {b : B} {x : I} {φ : Features ℝ} {n : Nat} (hp : Basis.project b x = .ok (.ok φ)) (hf : Fits n φ)
    {y lr β : ℝ} {w : List ℝ} (hw : w.length = n) {fas : Nat → ScalarLFA B (Adam ℝ) ℝ}
    {ps : Nat → ℝ} (h : Stream fas (fun _ => x) (fun _ => y) ps) (h0 : fas 0 = LFA.mk b w (Adam.new n lr 0 β)) :
    ∃ V : Nat → ℝ, V 0 = (1 - β) * (y - ps 0) ^ 2 ∧ (∀ k, V (k + 1) = β * V k + (1 - β) * (y - ps (k + 1)) ^ 2) ∧
      ∀ k, y - ps (k + 1) = (1 - gain n (fun i => lr * value φ i ^ 2) (fun i => |value φ i|) 1e-7
        (√(V k / (1 - β ^ (k + 2))))) * (y - ps k) := by
  have hi := stream_one hp hf _ (adam_keeps hf lr 0 β) h h0 hw
    ⟨⟨rfl, rfl, rfl⟩, by simp [Adam.new], by simp [Adam.new]⟩
  have step : ∀ k, (fas (k + 1)).optimiser.beta1Prod = (fas k).optimiser.beta1Prod * 0 ∧
      (fas (k + 1)).optimiser.beta2Prod = (fas k).optimiser.beta2Prod * β ∧ ∀ i < n,
      entry (fas (k + 1)).optimiser.expAvgSq i
        = β * entry (fas k).optimiser.expAvgSq i + (1 - β) * (value φ i * (y - ps k)) ^ 2 ∧
      (Active φ i → entry (fas (k + 1)).weights i = entry (fas k).weights i + lr * (value φ i * (y - ps k)) /
        (√(entry (fas (k + 1)).optimiser.expAvgSq i / (1 - (fas k).optimiser.beta2Prod * β)) + 1e-7)) ∧
      (¬ Active φ i → entry (fas (k + 1)).weights i = entry (fas k).weights i) := by
    intro k
    obtain ⟨i1, ⟨⟨l1, l2, l3⟩, i3, i4⟩, i5, i6, i7⟩ := hi k
    obtain ⟨m, v, w', s1, s2, s3, s4, s5⟩ := adam_real hf (fas k).optimiser i3 i4 (y - ps k) i5
    rw [i7] at s1
    injection s1 with s1
    injection s1 with _ s1
    injection s1 with s1 s6
    rw [s1, s6]
    refine ⟨by show _ * _ = _; rw [l2], by show _ * _ = _; rw [l3], fun i hin => ?_⟩
    obtain ⟨c1, c2, c3, c4⟩ := s5 i hin
    rw [l2, zero_mul, zero_add, sub_zero, one_mul] at c1
    refine ⟨by rw [c2, l3], fun ha => ?_, c4⟩
    rw [c3 ha, l1, l2, l3, mul_zero, sub_zero, div_one, c1]
  have prod : ∀ k, (fas k).optimiser.beta2Prod = β ^ (k + 1) := by
    intro k
    induction k with
    | zero => rw [h0]; show β = _; simp
    | succ k ih => rw [(step k).2.1, ih, pow_succ β (k + 1)]
  let V : Nat → ℝ := fun k => ∑ s ∈ Finset.range (k + 1), β ^ (k - s) * ((1 - β) * (y - ps s) ^ 2)
  have hV : ∀ k, V (k + 1) = β * V k + (1 - β) * (y - ps (k + 1)) ^ 2 := by
    intro k
    show ∑ s ∈ Finset.range (k + 1 + 1), _ = _
    rw [Finset.sum_range_succ, Nat.sub_self, pow_zero, one_mul]
    congr 1
    show _ = β * ∑ s ∈ Finset.range (k + 1), _
    rw [Finset.mul_sum]
    refine Finset.sum_congr rfl fun s hs => ?_
    have := Finset.mem_range.1 hs
    rw [show k + 1 - s = (k - s) + 1 by omega, pow_succ]
    ring
  have acc : ∀ k, ∀ i < n, entry (fas (k + 1)).optimiser.expAvgSq i = value φ i ^ 2 * V k := by
    intro k
    induction k with
    | zero =>
      intro i hin
      rw [((step 0).2.2 i hin).1, h0]
      have : entry (Adam.new n lr 0 β).expAvgSq i = 0 := by
        show entry (List.replicate n (Scalar.zero : ℝ)) i = 0
        unfold entry
        simp [hin]
      show β * entry (Adam.new n lr 0 β).expAvgSq i + _ = _
      rw [this]
      simp [V]
      ring
    | succ k ih =>
      intro i hin
      rw [((step (k + 1)).2.2 i hin).1, ih i hin, hV]
      ring
  refine ⟨V, by simp [V], hV, fun k => ?_⟩
  have a1 := (hi (k + 1)).2.2.2.1
  have a2 := (hi k).2.2.2.1
  rw [a1]
  refine error_of_steps hf.2 (w := (fas k).weights) (fun i hin => ?_) (by rw [a2])
  have hsq : √(entry (fas (k + 1)).optimiser.expAvgSq i / (1 - (fas k).optimiser.beta2Prod * β))
      = |value φ i| * √(V k / (1 - β ^ (k + 2))) := by
    rw [acc k i hin, prod k, ← pow_succ, mul_div_assoc, Real.sqrt_mul (sq_nonneg _), Real.sqrt_sq_eq_abs]
  by_cases ha : Active φ i
  · rw [((step k).2.2 i hin).2.1 ha, hsq]
  · rw [((step k).2.2 i hin).2.2 ha]
    have hv : value φ i = 0 := value_of_not_active ha
    rw [hv]; simp

/-- Errors of AdaMax without momentum on one input: `U` is the running maximum of the errors. -/
theorem adamax_errors {b : B} {x : I} {φ : Features ℝ} {n : Nat} (hp : Basis.project b x = .ok (.ok φ)) (hf : Fits n φ)
    {y lr β : ℝ} {w : List ℝ} (hw : w.length = n) {fas : Nat → ScalarLFA B (AdaMax ℝ) ℝ}
    {ps : Nat → ℝ} (h : Stream fas (fun _ => x) (fun _ => y) ps) (h0 : fas 0 = LFA.mk b w (AdaMax.new n lr 0 β)) :
    ∃ U : Nat → ℝ, U 0 = |y - ps 0| ∧ (∀ k, U (k + 1) = max (β * U k) |y - ps (k + 1)|) ∧
      ∀ k, y - ps (k + 1) = (1 - gain n (fun i => lr * value φ i ^ 2) (fun i => |value φ i|) 1e-7 (U k)) *
        (y - ps k) := by
  have hi := stream_one hp hf _ (adamax_keeps hf lr 0 β) h h0 hw
    ⟨⟨rfl, rfl, rfl⟩, by simp [AdaMax.new], by simp [AdaMax.new]⟩
  have step : ∀ k, ∀ i < n,
      (Active φ i → entry (fas (k + 1)).optimiser.expInf i
          = max (β * entry (fas k).optimiser.expInf i) |value φ i * (y - ps k)| ∧
        entry (fas (k + 1)).weights i = entry (fas k).weights i + lr * (value φ i * (y - ps k)) /
          (entry (fas (k + 1)).optimiser.expInf i + 1e-7)) ∧
      (¬ Active φ i → entry (fas (k + 1)).weights i = entry (fas k).weights i) := by
    intro k i hin
    obtain ⟨i1, ⟨⟨l1, l2, l3⟩, i3, i4⟩, i5, i6, i7⟩ := hi k
    obtain ⟨m, v, w', s1, s2, s3, s4, s5⟩ := adamax_real hf (fas k).optimiser i3 i4 (y - ps k) i5
    rw [i7] at s1
    injection s1 with s1
    injection s1 with _ s1
    injection s1 with s1 s6
    rw [s1, s6]
    obtain ⟨c1, c2, c3⟩ := s5 i hin
    rw [l2, zero_mul, zero_add, sub_zero, one_mul] at c1
    refine ⟨fun ha => ⟨by rw [(c2 ha).1, l3], ?_⟩, fun ha => (c3 ha).2⟩
    rw [(c2 ha).2, l1, l2, mul_zero, sub_zero, div_one, c1]
  let U : Nat → ℝ := fun k => Nat.rec |y - ps 0| (fun k u => max (β * u) |y - ps (k + 1)|) k
  have hU : ∀ k, U (k + 1) = max (β * U k) |y - ps (k + 1)| := fun _ => rfl
  have acc : ∀ k, ∀ i < n, Active φ i → entry (fas (k + 1)).optimiser.expInf i = |value φ i| * U k := by
    intro k
    induction k with
    | zero =>
      intro i hin ha
      rw [((step 0 i hin).1 ha).1, h0]
      have : entry (AdaMax.new n lr 0 β).expInf i = 0 := by
        show entry (List.replicate n (Scalar.zero : ℝ)) i = 0
        unfold entry
        simp [hin]
      show max (β * entry (AdaMax.new n lr 0 β).expInf i) _ = _
      rw [this, mul_zero, max_eq_right (abs_nonneg _), abs_mul]
      rfl
    | succ k ih =>
      intro i hin ha
      rw [((step (k + 1) i hin).1 ha).1, ih i hin ha, hU, abs_mul, mul_max_of_nonneg _ _ (abs_nonneg _)]
      congr 1
      ring
  refine ⟨U, rfl, hU, fun k => ?_⟩
  have a1 := (hi (k + 1)).2.2.2.1
  have a2 := (hi k).2.2.2.1
  rw [a1]
  refine error_of_steps hf.2 (w := (fas k).weights) (fun i hin => ?_) (by rw [a2])
  by_cases ha : Active φ i
  · rw [((step k i hin).1 ha).2, acc k i hin ha]
  · rw [(step k i hin).2 ha]
    have hv : value φ i = 0 := value_of_not_active ha
    rw [hv]; simp

end

/-- What an error sequence does that has settled into a band of half-width `R`, is driven away from zero with
strength `g`, and is at rest only on target. -/
def Hovers (e : Nat → ℝ) (R : ℝ) (g : ℝ → ℝ) : Prop :=
  (∃ K, ∀ k ≥ K, |e k| ≤ R) ∧
  (∀ δ, 0 ≤ δ → 2 < g δ → (∃ k, e k = 0) ∨ ∃ᶠ k in atTop, δ < |e k|) ∧
  (g 0 < 2 → Tendsto e atTop (𝓝 0))

section
variable {B I : Type} [Space B] [Basis B I ℝ]

theorem coeffs_pos {φ : Features ℝ} {n : Nat} (hf : Fits n φ) (hφ : normSq φ ≠ 0) {lr : ℝ} (hlr : 0 < lr) :
    ∃ i < n, 0 < lr * value φ i ^ 2 := by
  by_contra hc
  push Not at hc
  apply hφ
  rw [normSq, hf.2]
  refine Finset.sum_eq_zero fun i hi => ?_
  have h1 := hc i (Finset.mem_range.1 hi)
  have h2 : 0 ≤ value φ i ^ 2 := sq_nonneg _
  have h3 : value φ i ^ 2 = 0 := by nlinarith
  rw [← pow_two]; exact h3

theorem ratio_sum {φ : Features ℝ} {n : Nat} (lr : ℝ) :
    ∑ i ∈ Finset.range n, lr * value φ i ^ 2 / |value φ i| = lr * ∑ i ∈ Finset.range n, |value φ i| := by
  rw [Finset.mul_sum]
  refine Finset.sum_congr rfl fun i _ => ?_
  rcases eq_or_ne (value φ i) 0 with h | h
  · rw [h]; simp
  · have : |value φ i| ≠ 0 := abs_ne_zero.2 h
    rw [← sq_abs, mul_div_assoc, pow_two, mul_div_cancel_right₀ _ this]

/-- **C151.** Adam with `beta1 = 0` and AdaMax with `beta1 = 0`, trained on one input for ever. The errors
end up within `lr ‖φ‖₁ / √(1 - beta2)` (for AdaMax `lr ‖φ‖₁`) of the target and stay there. They exceed every
`δ` with `∑ lr φᵢ² / (δ |φᵢ| + ε) > 2` infinitely often, unless some prediction is exactly on target. They
converge to the target from everywhere if `lr ‖φ‖² < 2 ε`, where `ε = 1e-7`. -/
theorem C151_hovers (b : B) (x : I) (φ : Features ℝ) (n : Nat) (hp : Basis.project b x = .ok (.ok φ)) (hf : Fits n φ)
    (hφ : normSq φ ≠ 0) (y lr β : ℝ) (hlr : 0 < lr) (h0β : 0 ≤ β) (h1β : β < 1) (w : List ℝ) (hw : w.length = n)
    (ps : Nat → ℝ) :
    (∀ fas : Nat → ScalarLFA B (Adam ℝ) ℝ, Stream fas (fun _ => x) (fun _ => y) ps →
      fas 0 = LFA.mk b w (Adam.new n lr 0 β) →
      Hovers (fun k => y - ps k) (lr * (∑ i ∈ Finset.range n, |value φ i|) / √(1 - β))
        (fun δ => ∑ i ∈ Finset.range n, lr * value φ i ^ 2 / (|value φ i| * δ + 1e-7))) ∧
    (∀ fas : Nat → ScalarLFA B (AdaMax ℝ) ℝ, Stream fas (fun _ => x) (fun _ => y) ps →
      fas 0 = LFA.mk b w (AdaMax.new n lr 0 β) →
      Hovers (fun k => y - ps k) (lr * ∑ i ∈ Finset.range n, |value φ i|)
        (fun δ => ∑ i ∈ Finset.range n, lr * value φ i ^ 2 / (|value φ i| * δ + 1e-7))) := by
  have hε : (0 : ℝ) < 1e-7 := by norm_num
  have hc : ∀ i, 0 ≤ (fun i => lr * value φ i ^ 2) i := fun i => by positivity
  have hd : ∀ i, 0 ≤ (fun i => |value φ i|) i := fun i => abs_nonneg _
  have hz : ∀ i < n, (fun i => |value φ i|) i = 0 → (fun i => lr * value φ i ^ 2) i = 0 := fun i _ h => by
    have : value φ i = 0 := abs_eq_zero.1 h
    show lr * value φ i ^ 2 = 0
    rw [this]; ring
  have hpos := coeffs_pos hf hφ hlr
  constructor
  · intro fas h h0
    obtain ⟨V, hV0, hV, he⟩ := adam_errors hp hf hw h h0
    have hlim := rms_limit h0β h1β (e := fun k => y - ps k) hV
    have hVk : ∀ k, (1 - β) * (y - ps k) ^ 2 ≤ V k := by
      have hV0' : ∀ k, 0 ≤ V k := by
        intro k
        induction k with
        | zero => rw [hV0]; exact mul_nonneg (by linarith) (sq_nonneg _)
        | succ k ih => rw [hV]; exact add_nonneg (mul_nonneg h0β ih) (mul_nonneg (by linarith) (sq_nonneg _))
      intro k
      cases k with
      | zero => rw [hV0]
      | succ k => rw [hV]; linarith [mul_nonneg h0β (hV0' k)]
    have hS : ∀ k, √(1 - β) * |y - ps k| ≤ √(V k / (1 - β ^ (k + 2))) := by
      intro k
      rw [← Real.sqrt_sq_eq_abs, ← Real.sqrt_mul (by linarith)]
      refine Real.sqrt_le_sqrt ((hVk k).trans ?_)
      have h1 : β ^ (k + 2) < 1 := pow_lt_one₀ h0β h1β (by omega)
      have h2 : 0 ≤ β ^ (k + 2) := pow_nonneg h0β _
      have h3 : 0 ≤ V k := (mul_nonneg (by linarith) (sq_nonneg _)).trans (hVk k)
      rw [le_div_iff₀ (by linarith)]
      nlinarith
    refine ⟨?_, fun δ hδ hg => ?_, fun hg => ?_⟩
    · have := band_upper (e := fun k => y - ps k) hε hc hd hpos hz (Real.sqrt_pos.2 (by linarith : 0 < 1 - β)) he hS hlim
      rw [ratio_sum] at this
      exact this
    · exact band_lower (e := fun k => y - ps k) hε hc hd he (fun k => Real.sqrt_nonneg _) hlim hδ hg
    · exact band_converges (e := fun k => y - ps k) hε hc hd hpos he (fun k => Real.sqrt_nonneg _) hlim hg
  · intro fas h h0
    obtain ⟨U, hU0, hU, he⟩ := adamax_errors hp hf hw h h0
    have hlim := max_limit h0β h1β (e := fun k => y - ps k) hU
    have hS : ∀ k, 1 * |y - ps k| ≤ U k := by
      intro k
      rw [one_mul]
      cases k with
      | zero => rw [hU0]
      | succ k => rw [hU]; exact le_max_right _ _
    have hS0 : ∀ k, 0 ≤ U k := fun k => (mul_nonneg one_pos.le (abs_nonneg _)).trans (hS k)
    refine ⟨?_, fun δ hδ hg => ?_, fun hg => ?_⟩
    · have := band_upper (e := fun k => y - ps k) hε hc hd hpos hz one_pos he hS hlim
      rw [ratio_sum, div_one] at this
      exact this
    · exact band_lower (e := fun k => y - ps k) hε hc hd he hS0 hlim hδ hg
    · exact band_converges (e := fun k => y - ps k) hε hc hd hpos he hS0 hlim hg

/-- Such runs exist from every start. -/
theorem C151_exists (b : B) (x : I) (φ : Features ℝ) (n : Nat) (hp : Basis.project b x = .ok (.ok φ)) (hf : Fits n φ)
    (y lr β₁ β₂ : ℝ) (w : List ℝ) (hw : w.length = n) :
    (∃ (fas : Nat → ScalarLFA B (Adam ℝ) ℝ) (ps : Nat → ℝ), Stream fas (fun _ => x) (fun _ => y) ps ∧
      fas 0 = LFA.mk b w (Adam.new n lr β₁ β₂)) ∧
    (∃ (fas : Nat → ScalarLFA B (AdaMax ℝ) ℝ) (ps : Nat → ℝ), Stream fas (fun _ => x) (fun _ => y) ps ∧
      fas 0 = LFA.mk b w (AdaMax.new n lr β₁ β₂)) :=
  ⟨stream_one_exists hp hf y _ (adam_keeps hf lr β₁ β₂) hw ⟨⟨rfl, rfl, rfl⟩, by simp [Adam.new], by simp [Adam.new]⟩,
    stream_one_exists hp hf y _ (adamax_keeps hf lr β₁ β₂) hw
      ⟨⟨rfl, rfl, rfl⟩, by simp [AdaMax.new], by simp [AdaMax.new]⟩⟩

end

/-- The constant feature 1 with learning rate 1/10: the error exceeds 4/100 again and again (or is exactly zero at
some moment), and it would converge only for a learning rate below `2e-7`. -/
theorem C151_bias (w y : ℝ) (ps : Nat → ℝ) (fas : Nat → ScalarLFA (Bias ℝ) (Adam ℝ) ℝ)
    (h : Stream fas (fun _ => ()) (fun _ => y) ps) (h0 : fas 0 = LFA.mk ⟨1⟩ [w] (Adam.new 1 (1 / 10) 0 0)) :
    (∃ K, ∀ k ≥ K, |y - ps k| ≤ 1 / 10) ∧ ((∃ k, y - ps k = 0) ∨ ∃ᶠ k in atTop, 4 / 100 < |y - ps k|) := by
  obtain ⟨h1, h2, -⟩ := (C151_hovers (B := Bias ℝ) ⟨1⟩ () (.dense [1]) 1 rfl ⟨trivial, rfl⟩
    (by simp [normSq, Spec.dim, value]) y (1 / 10) 0 (by norm_num) le_rfl one_pos [w] rfl ps).1 fas h h0
  refine ⟨?_, h2 (4 / 100) (by norm_num) ?_⟩
  · simpa [value] using h1
  · simp [value]
    norm_num

end Lfa

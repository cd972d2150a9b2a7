import Verif.Props.C44_C50

/-!
# C51–C54: momentum, NAG, Adagrad, Adam's bias correction

Exact arithmetic.
-/

set_option linter.unusedSectionVars false

namespace Lfa

open Spec

/-! ### Gradients by position -/

theorem gradAt_append_lt {es : List (Event ℝ)} {e : Event ℝ} {i j : Nat} (h : j < es.length) :
    gradAt (es ++ [e]) i j = gradAt es i j := by
  unfold gradAt
  rw [List.map_append, List.getD_eq_getElem?_getD, List.getD_eq_getElem?_getD,
    List.getElem?_append_left (by simpa using h)]

theorem gradAt_append_length (es : List (Event ℝ)) (e : Event ℝ) (i : Nat) :
    gradAt (es ++ [e]) i es.length = e.grad i := by
  unfold gradAt
  rw [List.map_append, List.getD_eq_getElem?_getD, List.getElem?_append_right (by simp)]
  simp

theorem discounted_congr {m : ℝ} {g g' : Nat → ℝ} {k : Nat} (h : ∀ j < k, g j = g' j) :
    discounted m g k = discounted m g' k :=
  Finset.sum_congr rfl fun j hj => by rw [h j (Finset.mem_range.1 hj)]

theorem discounted_succ (m : ℝ) (g : Nat → ℝ) (k : Nat) :
    discounted m g (k + 1) = m * discounted m g k + g k := by
  unfold discounted
  rw [Finset.sum_range_succ, Finset.mul_sum]
  congr 1
  · apply Finset.sum_congr rfl
    intro j hj
    have := Finset.mem_range.1 hj
    rw [show k + 1 - 1 - j = (k - 1 - j) + 1 by omega, pow_succ]
    ring
  · rw [show k + 1 - 1 - k = 0 by omega, pow_zero, one_mul]

/-! ## C51 Momentum velocity -/

/-- After steps with gradients `g_0, …, g_(k-1)` (no reset in between): the velocity is
`∑_j m^(k-1-j) g_j`, and the weights moved by `lr` times the sum of the velocities so far. -/
theorem C51_velocity (n : Nat) (m lr : ℝ) (w : List ℝ) (hw : w.length = n) (es : List (Event ℝ))
    (he : ∀ e ∈ es, e.Fits n) (hs : ∀ e ∈ es, e.isStep = true) (o' : SGDMomentum ℝ) (w' : List ℝ)
    (h : History (SGDMomentum.new n m lr) w es o' w') :
    ∀ i < n, entry o'.velocity i = discounted m (gradAt es i) es.length ∧
      entry w' i = entry w i +
        lr * ∑ t ∈ Finset.range es.length, discounted m (gradAt es i) (t + 1) := by
  suffices (∀ e ∈ es, e.isStep = true) → (o'.momentum = m ∧ o'.learningRate = lr ∧
      o'.velocity.length = n ∧ w'.length = n) ∧
      ∀ i < n, entry o'.velocity i = discounted m (gradAt es i) es.length ∧
      entry w' i = entry w i +
        lr * ∑ t ∈ Finset.range es.length, discounted m (gradAt es i) (t + 1) from (this hs).2
  refine history_induct (n := n) (I := fun es o' w' => (∀ e ∈ es, e.isStep = true) →
      (o'.momentum = m ∧ o'.learningRate = lr ∧ o'.velocity.length = n ∧ w'.length = n) ∧
      ∀ i < n, entry o'.velocity i = discounted m (gradAt es i) es.length ∧
      entry w' i = entry w i +
        lr * ∑ t ∈ Finset.range es.length, discounted m (gradAt es i) (t + 1))
    ?_ ?_ ?_ es o' w' he h
  · intro _
    refine ⟨⟨rfl, rfl, List.length_replicate, hw⟩, fun i _ => ⟨?_, by simp⟩⟩
    show entry (List.replicate n Scalar.zero) i = _
    rw [entry_replicate, real_zero]
    simp [discounted]
  · intro es o₁ w₁ e φ s o₂ w₂ ih _ hg hf hstep hall
    obtain ⟨⟨h1, h2, h3, h4⟩, h5⟩ := ih fun e' h' => hall e' (List.mem_append_left _ h')
    obtain ⟨v, w₃, a1, a2, a3, a4⟩ := momentum_real hf o₁ h3 s h4
    rw [hstep] at a1
    cases a1
    refine ⟨⟨h1, h2, a2, a3⟩, fun i hi => ?_⟩
    obtain ⟨b1, b2⟩ := a4 i hi
    obtain ⟨c1, c2⟩ := h5 i hi
    rw [List.length_append, List.length_singleton]
    have hv : entry v i = discounted m (gradAt (es ++ [e]) i) (es.length + 1) := by
      rw [b1, c1, h1, discounted_succ, gradAt_append_length, hg,
        discounted_congr (g := gradAt (es ++ [e]) i) fun j hj => gradAt_append_lt hj]
    refine ⟨hv, ?_⟩
    rw [b2, c2, h2, hv, Finset.sum_range_succ, mul_add, ← add_assoc]
    congr 3
    apply Finset.sum_congr rfl
    intro t ht
    exact (discounted_congr fun j hj => gradAt_append_lt
      (lt_of_lt_of_le hj (Finset.mem_range.1 ht))).symm
  · intro es o₁ w₁ _ hall
    have := hall .reset (List.mem_append_right _ List.mem_cons_self)
    cases this

/-- With gradients bounded by `G` and `0 ≤ m < 1`, no velocity entry ever exceeds `G / (1 - m)`:
any history, resets included. -/
theorem C51_bounded (n : Nat) (m lr G : ℝ) (hm : 0 ≤ m) (hm' : m < 1) (w : List ℝ)
    (hw : w.length = n) (es : List (Event ℝ)) (he : ∀ e ∈ es, e.Fits n)
    (hG : ∀ e ∈ es, ∀ i < n, |e.grad i| ≤ G) (hG0 : 0 ≤ G) (o' : SGDMomentum ℝ) (w' : List ℝ)
    (h : History (SGDMomentum.new n m lr) w es o' w') :
    ∀ i < n, |entry o'.velocity i| ≤ G / (1 - m) := by
  have hpos : 0 < 1 - m := by linarith
  have hb : 0 ≤ G / (1 - m) := div_nonneg hG0 hpos.le
  suffices (∀ e ∈ es, ∀ i < n, |e.grad i| ≤ G) → (o'.momentum = m ∧ o'.velocity.length = n ∧
      w'.length = n) ∧ ∀ i < n, |entry o'.velocity i| ≤ G / (1 - m) from (this hG).2
  refine history_induct (n := n) (I := fun es o' w' => (∀ e ∈ es, ∀ i < n, |e.grad i| ≤ G) →
      (o'.momentum = m ∧ o'.velocity.length = n ∧ w'.length = n) ∧
      ∀ i < n, |entry o'.velocity i| ≤ G / (1 - m)) ?_ ?_ ?_ es o' w' he h
  · intro _
    refine ⟨⟨rfl, List.length_replicate, hw⟩, fun i _ => ?_⟩
    show |entry (List.replicate n Scalar.zero) i| ≤ _
    rw [entry_replicate, real_zero, abs_zero]; exact hb
  · intro es o₁ w₁ e φ s o₂ w₂ ih _ hg hf hstep hall
    obtain ⟨⟨h1, h3, h4⟩, h5⟩ := ih fun e' h' => hall e' (List.mem_append_left _ h')
    obtain ⟨v, w₃, a1, a2, a3, a4⟩ := momentum_real hf o₁ h3 s h4
    rw [hstep] at a1
    cases a1
    refine ⟨⟨h1, a2, a3⟩, fun i hi => ?_⟩
    show |entry v i| ≤ _
    rw [(a4 i hi).1, h1, ← hg]
    have e1 : |m * entry o₁.velocity i| ≤ m * (G / (1 - m)) := by
      rw [abs_mul, abs_of_nonneg hm]
      exact mul_le_mul_of_nonneg_left (h5 i hi) hm
    have e2 := hall e (List.mem_append_right _ List.mem_cons_self) i hi
    have e3 : m * (G / (1 - m)) + G = G / (1 - m) := by field_simp; ring
    linarith [abs_add_le (m * entry o₁.velocity i) (e.grad i)]
  · intro es o₁ w₁ ih hall
    obtain ⟨⟨h1, h3, h4⟩, h5⟩ := ih fun e' h' => hall e' (List.mem_append_left _ h')
    refine ⟨⟨h1, length_reset h3, h4⟩, fun i hi => ?_⟩
    show |entry (o₁.velocity.map fun _ => Scalar.zero) i| ≤ _
    rw [map_zero_eq h3, entry_replicate, real_zero, abs_zero]; exact hb

/-- The bound is the best one: constant gradients come arbitrarily close to it. -/
theorem C51_bound_tight (m G : ℝ) (hm : 0 ≤ m) (hm' : m < 1) :
    Filter.Tendsto (fun k => discounted m (fun _ => G) k) Filter.atTop (nhds (G / (1 - m))) := by
  have hne : 1 - m ≠ 0 := by linarith
  have hc : ∀ k, discounted m (fun _ => G) k = G / (1 - m) * (1 - m ^ k) := by
    intro k
    induction k with
    | zero => simp [discounted]
    | succ k ih => rw [discounted_succ, ih, pow_succ]; field_simp; ring
  simp only [hc]
  have := ((tendsto_pow_atTop_nhds_zero_of_lt_one hm hm').const_sub 1).const_mul (G / (1 - m))
  simpa using this

/-! ## C52 NAG applies the look-ahead with the scaled gradient -/

/-- What a NAG step does: `w' = w + lr v' + m φ` with `v' = m v + s φ`. The look-ahead term uses `φ`
where the claim has the scaled gradient `s φ`; the two agree for unit scale (`s = 1`), which is the
part of the claim that holds. -/
theorem C52_step_partial (n : Nat) (φ : Features ℝ) (hf : Fits n φ) (o : NAG ℝ)
    (ho : o.velocity.length = n) (s : ℝ) (w : List ℝ) (hw : w.length = n) :
    ∃ o' w', Optimiser.stepScaled o w φ s = .ok (.ok (), o', w') ∧ ∀ i < n,
      entry o'.velocity i = o.momentum * entry o.velocity i + value φ i * s ∧
      entry w' i = entry w i + o.learningRate * entry o'.velocity i + o.momentum * value φ i ∧
      (s = 1 → entry w' i = entry w i + o.learningRate * entry o'.velocity i +
        o.momentum * (value φ i * s)) := by
  obtain ⟨v, w', a1, a2, a3, a4⟩ := nag_real hf o ho s hw
  refine ⟨_, w', a1, fun i hi => ⟨(a4 i hi).1, (a4 i hi).2, ?_⟩⟩
  rintro rfl
  rw [(a4 i hi).2, mul_one]

/-- Counterexample to the full claim: with zero velocity and zero scale (an error of 0) the weights
move by `m φ`. -/
theorem C52_zero_scale_moves (n : Nat) (φ : Features ℝ) (hf : Fits n φ) (m lr : ℝ) (w : List ℝ)
    (hw : w.length = n) :
    ∃ o' w', Optimiser.stepScaled (NAG.new n m lr) w φ 0 = .ok (.ok (), o', w') ∧
      ∀ i < n, entry w' i = entry w i + m * value φ i := by
  obtain ⟨v, w', a1, a2, a3, a4⟩ := nag_real hf (NAG.new n m lr) List.length_replicate 0 hw
  refine ⟨_, w', a1, fun i hi => ?_⟩
  obtain ⟨b1, b2⟩ := a4 i hi
  have : entry (NAG.new n m lr).velocity i = 0 := by
    show entry (List.replicate n (Scalar.zero : ℝ)) i = 0
    rw [entry_replicate, real_zero]
  rw [b2, b1, this]
  show _ + lr * (m * 0 + _ * 0) + m * _ = _
  ring

/-- … so the claim fails whenever `m ≠ 0` and some feature is active. -/
theorem C52_claim_false : ¬ ∀ (n : Nat) (φ : Features ℝ) (m lr : ℝ) (w : List ℝ), Fits n φ →
    w.length = n → ∃ o', Optimiser.stepScaled (NAG.new n m lr) w φ 0 = .ok (.ok (), o', w) := by
  intro hc
  obtain ⟨o', h1⟩ := hc 1 (.dense [1]) 1 1 [0] ⟨trivial, rfl⟩ rfl
  obtain ⟨o₂, w', h2, h3⟩ := C52_zero_scale_moves 1 (.dense [1]) ⟨trivial, rfl⟩ 1 1 [0] rfl
  rw [h1] at h2
  cases h2
  have : (0 : ℝ) = 0 + 1 * 1 := h3 0 Nat.one_pos
  norm_num at this

/-! ## C53 Adagrad accumulates squares and takes bounded steps -/

/-- The accumulator is the sum of the squared gradients (no reset in between). -/
theorem C53_accumulator (n : Nat) (lr : ℝ) (w : List ℝ) (hw : w.length = n) (es : List (Event ℝ))
    (he : ∀ e ∈ es, e.Fits n) (hs : ∀ e ∈ es, e.isStep = true) (o' : Adagrad ℝ) (w' : List ℝ)
    (h : History (Adagrad.new n lr) w es o' w') :
    ∀ i < n, entry o'.accumulator i = (es.map fun e => e.grad i ^ 2).sum := by
  suffices (∀ e ∈ es, e.isStep = true) → (o'.accumulator.length = n ∧ w'.length = n) ∧
      ∀ i < n, entry o'.accumulator i = (es.map fun e => e.grad i ^ 2).sum from (this hs).2
  refine history_induct (n := n) (I := fun es o' w' => (∀ e ∈ es, e.isStep = true) →
      (o'.accumulator.length = n ∧ w'.length = n) ∧
      ∀ i < n, entry o'.accumulator i = (es.map fun e => e.grad i ^ 2).sum)
    ?_ ?_ ?_ es o' w' he h
  · intro _
    refine ⟨⟨List.length_replicate, hw⟩, fun i _ => ?_⟩
    show entry (List.replicate n Scalar.zero) i = _
    rw [entry_replicate, real_zero]; rfl
  · intro es o₁ w₁ e φ s o₂ w₂ ih _ hg hf hstep hall
    obtain ⟨⟨h3, h4⟩, h5⟩ := ih fun e' h' => hall e' (List.mem_append_left _ h')
    obtain ⟨v, w₃, a1, a2, a3, a4⟩ := adagrad_real hf o₁ h3 s h4
    rw [hstep] at a1
    cases a1
    refine ⟨⟨a2, a3⟩, fun i hi => ?_⟩
    show entry v i = _
    rw [(a4 i hi).1, h5 i hi, List.map_append, List.sum_append, List.map_singleton,
      List.sum_singleton, hg]
  · intro es o₁ w₁ _ hall
    have := hall .reset (List.mem_append_right _ List.mem_cons_self)
    cases this

/-- Every reachable state (resets included) has a non-negative accumulator. -/
theorem C53_nonneg (n : Nat) (lr : ℝ) (w : List ℝ) (hw : w.length = n) (es : List (Event ℝ))
    (he : ∀ e ∈ es, e.Fits n) (o' : Adagrad ℝ) (w' : List ℝ)
    (h : History (Adagrad.new n lr) w es o' w') :
    (o'.learningRate = lr ∧ o'.accumulator.length = n ∧ w'.length = n) ∧
      ∀ i < n, 0 ≤ entry o'.accumulator i := by
  refine history_induct (n := n) (I := fun _ o' w' =>
      (o'.learningRate = lr ∧ o'.accumulator.length = n ∧ w'.length = n) ∧
      ∀ i < n, 0 ≤ entry o'.accumulator i)
    ?_ ?_ ?_ es o' w' he h
  · refine ⟨⟨rfl, List.length_replicate, hw⟩, fun i _ => ?_⟩
    show 0 ≤ entry (List.replicate n Scalar.zero) i
    rw [entry_replicate, real_zero]
  · rintro es o₁ w₁ e φ s o₂ w₂ ⟨⟨h1, h3, h4⟩, h5⟩ _ hg hf hstep
    obtain ⟨v, w₃, a1, a2, a3, a4⟩ := adagrad_real hf o₁ h3 s h4
    rw [hstep] at a1
    cases a1
    refine ⟨⟨h1, a2, a3⟩, fun i hi => ?_⟩
    show 0 ≤ entry v i
    rw [(a4 i hi).1]
    have := h5 i hi
    positivity
  · rintro es o₁ w₁ ⟨⟨h1, h3, h4⟩, h5⟩
    refine ⟨⟨h1, length_reset h3, h4⟩, fun i hi => ?_⟩
    show 0 ≤ entry (o₁.accumulator.map fun _ => Scalar.zero) i
    rw [map_zero_eq h3, entry_replicate, real_zero]

/-- From every state reached by any history, one more step with gradient `g = s φ`: the accumulator
does not decrease, each weight moves by less than `|lr|` (at most, if `lr = 0`), and it moves in the
direction of `lr g`. -/
theorem C53_bounded_step (n : Nat) (lr : ℝ) (w : List ℝ) (hw : w.length = n) (es : List (Event ℝ))
    (he : ∀ e ∈ es, e.Fits n) (o : Adagrad ℝ) (w₁ : List ℝ)
    (h : History (Adagrad.new n lr) w es o w₁) (φ : Features ℝ) (hf : Fits n φ) (s : ℝ) :
    ∃ o' w', Optimiser.stepScaled o w₁ φ s = .ok (.ok (), o', w') ∧ ∀ i < n,
      entry o.accumulator i ≤ entry o'.accumulator i ∧
      |entry w' i - entry w₁ i| ≤ |lr| ∧
      (lr ≠ 0 → |entry w' i - entry w₁ i| < |lr|) ∧
      (0 < entry w' i - entry w₁ i ↔ 0 < lr * (value φ i * s)) ∧
      (entry w' i - entry w₁ i < 0 ↔ lr * (value φ i * s) < 0) := by
  obtain ⟨⟨h1, h2, h3⟩, h4⟩ := C53_nonneg n lr w hw es he o w₁ h
  obtain ⟨v, w', a1, a2, a3, a4⟩ := adagrad_real hf o h2 s h3
  refine ⟨_, w', a1, fun i hi => ?_⟩
  obtain ⟨b1, b2⟩ := a4 i hi
  have hacc := h4 i hi
  have hle : entry o.accumulator i ≤ entry v i := by
    rw [b1]; have := sq_nonneg (value φ i * s); linarith
  have hsq : |value φ i * s| ≤ √(entry v i) := by
    rw [← Real.sqrt_sq_eq_abs]
    exact Real.sqrt_le_sqrt (by rw [b1]; linarith)
  have hden : 0 < √(entry v i) + 1e-7 := by
    have := Real.sqrt_nonneg (entry v i); linarith
  have hd : entry w' i - entry w₁ i = lr * (value φ i * s) / (√(entry v i) + 1e-7) := by
    rw [b2, h1]; ring
  have hfrac : |value φ i * s| / (√(entry v i) + 1e-7) < 1 := by
    rw [div_lt_one hden]; linarith
  have habs : |entry w' i - entry w₁ i| = |lr| * (|value φ i * s| / (√(entry v i) + 1e-7)) := by
    rw [hd, abs_div, abs_of_pos hden, abs_mul, mul_div_assoc]
  refine ⟨hle, ?_, fun hlr => ?_, ?_, ?_⟩
  · rw [habs]
    exact mul_le_of_le_one_right (abs_nonneg _) hfrac.le
  · rw [habs]
    exact mul_lt_of_lt_one_right (abs_pos.2 hlr) hfrac
  · rw [hd]; exact div_pos_iff_of_pos_right hden
  · rw [hd, div_lt_iff₀ hden, zero_mul]

/-! ## C54 Adam bias correction -/

/-- After `t` steps from a new Adam (no reset), with gradient `g` for parameter `i` every time: the
moments are `g (1 - β1^t)` and `g² (1 - β2^t)`, and the products used for the correction are
`β1^(t+1)` and `β2^(t+1)`. -/
theorem C54_moments (n : Nat) (lr b1 b2 g : ℝ) (w : List ℝ) (hw : w.length = n)
    (es : List (Event ℝ)) (he : ∀ e ∈ es, e.Fits n) (hs : ∀ e ∈ es, e.isStep = true) (i : Nat)
    (hi : i < n) (hg : ∀ e ∈ es, e.grad i = g) (o' : Adam ℝ) (w' : List ℝ)
    (h : History (Adam.new n lr b1 b2) w es o' w') :
    (o'.beta1 = b1 ∧ o'.beta2 = b2 ∧ o'.learningRate = lr ∧ o'.expAvg.length = n ∧
      o'.expAvgSq.length = n ∧ w'.length = n) ∧
    entry o'.expAvg i = g * (1 - b1 ^ es.length) ∧
    entry o'.expAvgSq i = g ^ 2 * (1 - b2 ^ es.length) ∧
    o'.beta1Prod = b1 ^ (es.length + 1) ∧ o'.beta2Prod = b2 ^ (es.length + 1) := by
  refine history_induct (n := n) (I := fun es o' w' => (∀ e ∈ es, e.isStep = true) →
    (∀ e ∈ es, e.grad i = g) →
    (o'.beta1 = b1 ∧ o'.beta2 = b2 ∧ o'.learningRate = lr ∧ o'.expAvg.length = n ∧
      o'.expAvgSq.length = n ∧ w'.length = n) ∧
    entry o'.expAvg i = g * (1 - b1 ^ es.length) ∧
    entry o'.expAvgSq i = g ^ 2 * (1 - b2 ^ es.length) ∧
    o'.beta1Prod = b1 ^ (es.length + 1) ∧ o'.beta2Prod = b2 ^ (es.length + 1))
    ?_ ?_ ?_ es o' w' he h hs hg
  · intro _ _
    refine ⟨⟨rfl, rfl, rfl, List.length_replicate, List.length_replicate, hw⟩, ?_, ?_, ?_, ?_⟩
    · show entry (List.replicate n Scalar.zero) i = _
      rw [entry_replicate, real_zero]; simp
    · show entry (List.replicate n Scalar.zero) i = _
      rw [entry_replicate, real_zero]; simp
    · show b1 = _; simp
    · show b2 = _; simp
  · intro es o₁ w₁ e φ s o₂ w₂ ih _ hgr hf hstep hall hallg
    obtain ⟨⟨h1, h2, h3, h4, h5, h6⟩, h7, h8, h9, h10⟩ :=
      ih (fun e' h' => hall e' (List.mem_append_left _ h'))
        (fun e' h' => hallg e' (List.mem_append_left _ h'))
    obtain ⟨m, v, w₃, a1, a2, a3, a4, a5⟩ := adam_real hf o₁ h4 h5 s h6
    rw [hstep] at a1
    cases a1
    have hge : value φ i * s = g := by
      rw [← hgr]; exact hallg e (List.mem_append_right _ List.mem_cons_self)
    obtain ⟨c1, c2, -⟩ := a5 i hi
    rw [List.length_append, List.length_singleton]
    refine ⟨⟨h1, h2, h3, a2, a3, a4⟩, ?_, ?_, ?_, ?_⟩
    · show entry m i = _
      rw [c1, h7, hge, h1, pow_succ]; ring
    · show entry v i = _
      rw [c2, h8, hge, h2, pow_succ]; ring
    · show o₁.beta1Prod * o₁.beta1 = _
      rw [h9, h1, ← pow_succ]
    · show o₁.beta2Prod * o₁.beta2 = _
      rw [h10, h2, ← pow_succ]
  · intro es o₁ w₁ _ hall
    have := hall .reset (List.mem_append_right _ List.mem_cons_self)
    cases this

/-- The weight change at step `t = es.length + 1` with a constant gradient `g`: the moments
`g (1 - β1^t)`, `g² (1 - β2^t)` are divided by `1 - β1^(t+1)`, `1 - β2^(t+1)`. The claim has exponent
`t` in the divisors, with which the corrected moments would be `g` and `g²`; the code's are off by
`(1 - β^t) / (1 - β^(t+1))`, a factor that tends to 1 (`C54_factor_tends_to_one`). -/
theorem C54_correction_partial (n : Nat) (lr b1 b2 g : ℝ) (w : List ℝ) (hw : w.length = n)
    (es : List (Event ℝ)) (he : ∀ e ∈ es, e.Fits n) (hs : ∀ e ∈ es, e.isStep = true) (i : Nat)
    (hi : i < n) (hg : ∀ e ∈ es, e.grad i = g) (o : Adam ℝ) (w₁ : List ℝ)
    (h : History (Adam.new n lr b1 b2) w es o w₁) (φ : Features ℝ) (hf : Fits n φ)
    (ha : Active φ i) (s : ℝ) (hgs : value φ i * s = g) :
    ∃ o' w', Optimiser.stepScaled o w₁ φ s = .ok (.ok (), o', w') ∧
      entry w' i = entry w₁ i +
        lr * (g * ((1 - b1 ^ (es.length + 1)) / (1 - b1 ^ (es.length + 2)))) /
          (√(g ^ 2 * ((1 - b2 ^ (es.length + 1)) / (1 - b2 ^ (es.length + 2)))) + 1e-7) := by
  obtain ⟨⟨h1, h2, h3, h4, h5, h6⟩, h7, h8, h9, h10⟩ :=
    C54_moments n lr b1 b2 g w hw es he hs i hi hg o w₁ h
  obtain ⟨m, v, w', a1, a2, a3, a4, a5⟩ := adam_real hf o h4 h5 s h6
  refine ⟨_, w', a1, ?_⟩
  obtain ⟨c1, c2, c3, -⟩ := a5 i hi
  have e1 : entry m i = g * (1 - b1 ^ (es.length + 1)) := by
    rw [c1, h7, hgs, h1, pow_succ]; ring
  have e2 : entry v i = g ^ 2 * (1 - b2 ^ (es.length + 1)) := by
    rw [c2, h8, hgs, h2, pow_succ]; ring
  rw [c3 ha, e1, e2, h9, h10, h1, h2, h3, ← pow_succ, ← pow_succ,
    mul_div_assoc g, mul_div_assoc (g ^ 2)]

/-- The factor is strictly below 1 at every step (so the corrected moments are not `g` and `g²`):
the full claim fails for every `0 < β < 1`. -/
theorem C54_factor_lt_one (b : ℝ) (h0 : 0 < b) (h1 : b < 1) (t : Nat) :
    (1 - b ^ t) / (1 - b ^ (t + 1)) < 1 := by
  have hp : 0 < b ^ t := pow_pos h0 t
  have hlt : b ^ (t + 1) < b ^ t := by rw [pow_succ]; nlinarith
  have hle : b ^ (t + 1) < 1 := pow_lt_one₀ h0.le h1 (Nat.succ_ne_zero t)
  rw [div_lt_one (by linarith)]
  linarith

theorem C54_factor_tends_to_one (b : ℝ) (h0 : 0 ≤ b) (h1 : b < 1) :
    Filter.Tendsto (fun t : Nat => (1 - b ^ t) / (1 - b ^ (t + 1))) Filter.atTop (nhds 1) := by
  have hp := tendsto_pow_atTop_nhds_zero_of_lt_one h0 h1
  have h2 := hp.const_sub 1
  have h3 := ((Filter.tendsto_add_atTop_iff_nat 1).2 hp).const_sub 1
  have := h2.div h3 (by norm_num)
  rw [sub_zero, div_one] at this
  exact this

/-- Counterexample to the full claim: the very first step (`β1 = 1/2`, `β2 = 0`, gradient 1) moves
the weight by `lr (2/3) / (1 + 1e-7)` instead of `lr / (1 + 1e-7)`. -/
theorem C54_first_step_differs (lr : ℝ) (hlr : lr ≠ 0) :
    ∃ o' w', Optimiser.stepScaled (Adam.new 1 lr (1 / 2) 0) [0] (.dense [1]) 1 = .ok (.ok (), o', w') ∧
      entry w' 0 = lr * (2 / 3) / (1 + 1e-7) ∧ entry w' 0 ≠ lr * 1 / (√(1 ^ 2) + 1e-7) := by
  obtain ⟨o', w', h1, h2⟩ := C54_correction_partial 1 lr (1 / 2) 0 1 [0] rfl [] (by simp) (by simp) 0
    Nat.one_pos (by simp) _ _ (.nil _ _) (.dense [1]) ⟨trivial, rfl⟩ (active_dense Nat.one_pos) 1
    (mul_one _)
  refine ⟨o', w', h1, ?_, ?_⟩
  · rw [h2]
    show (0 : ℝ) + lr * (1 * ((1 - (1 / 2) ^ 1) / (1 - (1 / 2) ^ 2))) /
      (√(1 ^ 2 * ((1 - 0 ^ 1) / (1 - 0 ^ 2))) + 1e-7) = _
    norm_num
  · rw [h2]
    show (0 : ℝ) + lr * (1 * ((1 - (1 / 2) ^ 1) / (1 - (1 / 2) ^ 2))) /
      (√(1 ^ 2 * ((1 - 0 ^ 1) / (1 - 0 ^ 2))) + 1e-7) ≠ _
    norm_num
    intro hc
    apply hlr
    field_simp at hc
    linarith

/-! ### Concrete cases -/

example : ∃ o' w', History (SGDMomentum.new 2 (0.5 : ℝ) 0.1) [7, 8]
    [.step (.dense [1, 2]), .stepScaled (.sparse ⟨2, [(1, 3)]⟩) (-2)] o' w' ∧
    entry o'.velocity 1 = 0.5 * 2 + 3 * -2 := by
  have hf : ∀ e ∈ [Event.step (.dense [(1 : ℝ), 2]), .stepScaled (.sparse ⟨2, [(1, 3)]⟩) (-2)],
      e.Fits 2 := fun e he => exHistory_fits e (by
    simp only [exHistory, List.mem_cons, List.not_mem_nil, or_false] at he ⊢
    rcases he with h | h
    · exact .inl h
    · exact .inr (.inl h))
  obtain ⟨o', w', h, -⟩ := (C44_history 2 [7, 8] rfl _ hf (0.1 : ℝ) 0.5 0 0).2.2.1
  refine ⟨o', w', h, ?_⟩
  rw [(C51_velocity 2 0.5 0.1 [7, 8] rfl _ hf (by simp [Event.isStep]) o' w' h 1 (by norm_num)).1]
  show discounted 0.5 (gradAt _ 1) 2 = _
  rw [discounted_succ, discounted_succ]
  show (0.5 : ℝ) * (0.5 * 0 + 2) + 3 * -2 = _
  norm_num

example : ∃ o w₁, History (Adagrad.new 2 (0.1 : ℝ)) [7, 8] exHistory o w₁ :=
  let ⟨o, w, h, _⟩ := (C44_history 2 [7, 8] rfl exHistory exHistory_fits (0.1 : ℝ) 0 0 0).2.2.2.2.1
  ⟨o, w, h⟩

end Lfa

import Verif.Props.C51_C54

/-!
# C55–C58: Adam and AdaMax bounds, zero errors, inactive weights

C55–C57 are in exact arithmetic; C58 is for any arithmetic, except Adagrad.
-/

set_option linter.unusedSectionVars false

namespace Lfa

open Spec

/-! ## C55 Adam is numerically safe and takes bounded steps -/

/-- Weighted Cauchy–Schwarz for one step of the two moving averages. -/
theorem adam_moment_le {b1 b2 m v g : ℝ} (hb2 : b2 < 1) (hb : b1 ^ 2 < b2)
    (hm : m ^ 2 ≤ (1 - b1) ^ 2 / ((1 - b2) * (1 - b1 ^ 2 / b2)) * v) :
    (b1 * m + (1 - b1) * g) ^ 2 ≤
      (1 - b1) ^ 2 / ((1 - b2) * (1 - b1 ^ 2 / b2)) * (b2 * v + (1 - b2) * g ^ 2) := by
  have hb2p : 0 < b2 := lt_of_le_of_lt (sq_nonneg b1) hb
  have hd : 0 < b2 - b1 ^ 2 := by linarith
  have h1 : 0 < 1 - b2 := by linarith
  have hC : (1 - b1) ^ 2 / ((1 - b2) * (1 - b1 ^ 2 / b2)) * ((1 - b2) * g ^ 2) =
      (1 - b1) ^ 2 * g ^ 2 * b2 / (b2 - b1 ^ 2) := by
    have : 1 - b1 ^ 2 / b2 = (b2 - b1 ^ 2) / b2 := by field_simp
    rw [this]; field_simp
  rw [mul_add, hC]
  have h2 : b2 * m ^ 2 ≤ (1 - b1) ^ 2 / ((1 - b2) * (1 - b1 ^ 2 / b2)) * (b2 * v) := by
    nlinarith [mul_le_mul_of_nonneg_left hm hb2p.le]
  have h3 : (b1 * m + (1 - b1) * g) ^ 2 ≤ b2 * m ^ 2 + (1 - b1) ^ 2 * g ^ 2 * b2 / (b2 - b1 ^ 2) := by
    rw [← sub_le_iff_le_add', le_div_iff₀ hd]
    nlinarith [sq_nonneg ((b2 - b1 ^ 2) * m - b1 * ((1 - b1) * g))]
  linarith

/-- What holds of Adam in every state reached by any history (resets included). -/
def AdamInv (n : Nat) (lr b1 b2 : ℝ) (o : Adam ℝ) (w : List ℝ) : Prop :=
  (o.beta1 = b1 ∧ o.beta2 = b2 ∧ o.learningRate = lr ∧ o.expAvg.length = n ∧
    o.expAvgSq.length = n ∧ w.length = n) ∧
  (0 ≤ o.beta1Prod ∧ o.beta1Prod ≤ b1 ∧ 0 ≤ o.beta2Prod ∧ o.beta2Prod ≤ b2) ∧
  ∀ i < n, 0 ≤ entry o.expAvgSq i ∧ (b1 ^ 2 < b2 → entry o.expAvg i ^ 2 ≤
    (1 - b1) ^ 2 / ((1 - b2) * (1 - b1 ^ 2 / b2)) * entry o.expAvgSq i)

theorem adam_inv {n : Nat} {lr b1 b2 : ℝ} (h1 : 0 ≤ b1) (h1' : b1 < 1) (h2 : 0 ≤ b2) (h2' : b2 < 1)
    {w : List ℝ} (hw : w.length = n) {es : List (Event ℝ)} (he : ∀ e ∈ es, e.Fits n)
    {o' : Adam ℝ} {w' : List ℝ} (h : History (Adam.new n lr b1 b2) w es o' w') :
    AdamInv n lr b1 b2 o' w' := by
  refine history_induct (n := n) (I := fun _ o' w' => AdamInv n lr b1 b2 o' w')
    ?_ ?_ ?_ es o' w' he h
  · refine ⟨⟨rfl, rfl, rfl, List.length_replicate, List.length_replicate, hw⟩,
      ⟨h1, le_refl _, h2, le_refl _⟩, fun i _ => ?_⟩
    have z : entry (List.replicate n (Scalar.zero : ℝ)) i = 0 := by rw [entry_replicate, real_zero]
    refine ⟨?_, fun _ => ?_⟩
    · show 0 ≤ entry (List.replicate n Scalar.zero) i
      rw [z]
    · show entry (List.replicate n Scalar.zero) i ^ 2 ≤ _ * entry (List.replicate n Scalar.zero) i
      rw [z]; simp
  · rintro es o₁ w₁ e φ s o₂ w₂ ⟨⟨e1, e2, e3, e4, e5, e6⟩, ⟨p1, p2, p3, p4⟩, hi⟩ _ hg hf hstep
    obtain ⟨m, v, w₃, a1, a2, a3, a4, a5⟩ := adam_real hf o₁ e4 e5 s e6
    rw [hstep] at a1
    cases a1
    refine ⟨⟨e1, e2, e3, a2, a3, a4⟩, ⟨?_, ?_, ?_, ?_⟩, fun i hin => ?_⟩
    · show 0 ≤ o₁.beta1Prod * o₁.beta1
      rw [e1]; exact mul_nonneg p1 h1
    · show o₁.beta1Prod * o₁.beta1 ≤ b1
      rw [e1]; exact mul_le_of_le_one_left h1 (by linarith)
    · show 0 ≤ o₁.beta2Prod * o₁.beta2
      rw [e2]; exact mul_nonneg p3 h2
    · show o₁.beta2Prod * o₁.beta2 ≤ b2
      rw [e2]; exact mul_le_of_le_one_left h2 (by linarith)
    · obtain ⟨c1, c2, -⟩ := a5 i hin
      obtain ⟨q1, q2⟩ := hi i hin
      refine ⟨?_, fun hb => ?_⟩
      · show 0 ≤ entry v i
        rw [c2, e2]
        exact add_nonneg (mul_nonneg h2 q1) (mul_nonneg (by linarith) (sq_nonneg _))
      · show entry m i ^ 2 ≤ _ * entry v i
        rw [c1, c2, e1, e2]
        exact adam_moment_le h2' hb (q2 hb)
  · rintro es o₁ w₁ ⟨⟨e1, e2, e3, e4, e5, e6⟩, hp, hi⟩
    refine ⟨⟨e1, e2, e3, length_reset e4, length_reset e5, e6⟩, hp, fun i _ => ?_⟩
    have z : entry (List.replicate n (Scalar.zero : ℝ)) i = 0 := by rw [entry_replicate, real_zero]
    refine ⟨?_, fun _ => ?_⟩
    · show 0 ≤ entry (o₁.expAvgSq.map fun _ => Scalar.zero) i
      rw [map_zero_eq e5, z]
    · show entry (o₁.expAvg.map fun _ => Scalar.zero) i ^ 2 ≤
        _ * entry (o₁.expAvgSq.map fun _ => Scalar.zero) i
      rw [map_zero_eq e4, map_zero_eq e5, z]; simp

/-- In every state reached by any history: the second moment is non-negative, and all denominators
of the next step — `1 - β1'`, `1 - β2'`, `sqrt(v̂) + eps` — are positive. The next step computes its
weight with exactly these denominators. -/
theorem C55_safe (n : Nat) (lr b1 b2 : ℝ) (h1 : 0 ≤ b1) (h1' : b1 < 1) (h2 : 0 ≤ b2) (h2' : b2 < 1)
    (w : List ℝ) (hw : w.length = n) (es : List (Event ℝ)) (he : ∀ e ∈ es, e.Fits n) (o : Adam ℝ)
    (w₁ : List ℝ) (h : History (Adam.new n lr b1 b2) w es o w₁) (φ : Features ℝ) (hf : Fits n φ)
    (s : ℝ) :
    ∃ o' w', Optimiser.stepScaled o w₁ φ s = .ok (.ok (), o', w') ∧
      0 < 1 - o'.beta1Prod ∧ 0 < 1 - o'.beta2Prod ∧ ∀ i < n, 0 ≤ entry o'.expAvgSq i ∧
      0 < √(entry o'.expAvgSq i / (1 - o'.beta2Prod)) + 1e-7 ∧
      (Active φ i → entry w' i = entry w₁ i + lr * (entry o'.expAvg i / (1 - o'.beta1Prod)) /
        (√(entry o'.expAvgSq i / (1 - o'.beta2Prod)) + 1e-7)) ∧
      (¬ Active φ i → entry w' i = entry w₁ i) := by
  obtain ⟨⟨e1, e2, e3, e4, e5, e6⟩, ⟨p1, p2, p3, p4⟩, hi⟩ := adam_inv h1 h1' h2 h2' hw he h
  obtain ⟨m, v, w', a1, a2, a3, a4, a5⟩ := adam_real hf o e4 e5 s e6
  refine ⟨_, w', a1, ?_, ?_, fun i hin => ?_⟩
  · show 0 < 1 - o.beta1Prod * o.beta1
    rw [e1]; nlinarith
  · show 0 < 1 - o.beta2Prod * o.beta2
    rw [e2]; nlinarith
  · obtain ⟨c1, c2, c3, c4⟩ := a5 i hin
    refine ⟨?_, ?_, fun ha => ?_, c4⟩
    · show 0 ≤ entry v i
      rw [c2, e2]
      exact add_nonneg (mul_nonneg h2 (hi i hin).1) (mul_nonneg (by linarith) (sq_nonneg _))
    · exact add_pos_of_nonneg_of_pos (Real.sqrt_nonneg _) (by norm_num)
    · rw [c3 ha, e3]

/-- One more step from any reachable state moves each weight by at most
`|lr| / sqrt((1 - β2) (1 - β1²/β2))`, whatever the gradients were and are. -/
theorem C55_bounded (n : Nat) (lr b1 b2 : ℝ) (h1 : 0 ≤ b1) (h1' : b1 < 1) (h2' : b2 < 1)
    (hb : b1 ^ 2 < b2) (w : List ℝ) (hw : w.length = n) (es : List (Event ℝ))
    (he : ∀ e ∈ es, e.Fits n) (o : Adam ℝ) (w₁ : List ℝ)
    (h : History (Adam.new n lr b1 b2) w es o w₁) (φ : Features ℝ) (hf : Fits n φ) (s : ℝ) :
    ∃ o' w', Optimiser.stepScaled o w₁ φ s = .ok (.ok (), o', w') ∧
      ∀ i < n, |entry w' i - entry w₁ i| ≤ |lr| / √((1 - b2) * (1 - b1 ^ 2 / b2)) := by
  have hb2p : 0 < b2 := lt_of_le_of_lt (sq_nonneg b1) hb
  obtain ⟨⟨e1, e2, e3, e4, e5, e6⟩, ⟨p1, p2, p3, p4⟩, hi⟩ := adam_inv h1 h1' hb2p.le h2' hw he h
  obtain ⟨m, v, w', a1, a2, a3, a4, a5⟩ := adam_real hf o e4 e5 s e6
  refine ⟨_, w', a1, fun i hin => ?_⟩
  obtain ⟨c1, c2, c3, c4⟩ := a5 i hin
  obtain ⟨q1, q2⟩ := hi i hin
  have hQ : 0 < (1 - b2) * (1 - b1 ^ 2 / b2) := by
    apply mul_pos (by linarith)
    have : b1 ^ 2 / b2 < 1 := (div_lt_one hb2p).2 hb
    linarith
  by_cases ha : Active φ i
  swap
  · rw [c4 ha, sub_self, abs_zero]; positivity
  have hv : 0 ≤ entry v i := by
    rw [c2, e2]
    exact add_nonneg (mul_nonneg hb2p.le q1) (mul_nonneg (by linarith) (sq_nonneg _))
  have hm : entry m i ^ 2 ≤ (1 - b1) ^ 2 / ((1 - b2) * (1 - b1 ^ 2 / b2)) * entry v i := by
    rw [c1, c2, e1, e2]; exact adam_moment_le h2' hb (q2 hb)
  have hP1 : o.beta1Prod * o.beta1 ≤ b1 := by
    rw [e1]; exact mul_le_of_le_one_left h1 (by linarith)
  have hP2 : 0 ≤ o.beta2Prod * o.beta2 := by rw [e2]; exact mul_nonneg p3 hb2p.le
  have hP2' : o.beta2Prod * o.beta2 < 1 := by
    rw [e2]; exact lt_of_le_of_lt (mul_le_of_le_one_left hb2p.le (by linarith)) h2'
  have hmabs : |entry m i| ≤ (1 - b1) / √((1 - b2) * (1 - b1 ^ 2 / b2)) * √(entry v i) := by
    apply abs_le_of_sq_le_sq
    · rw [mul_pow, div_pow, Real.sq_sqrt hQ.le, Real.sq_sqrt hv]; exact hm
    · exact mul_nonneg (div_nonneg (by linarith) (Real.sqrt_nonneg _)) (Real.sqrt_nonneg _)
  have hsq : √(entry v i) ≤ √(entry v i / (1 - o.beta2Prod * o.beta2)) := by
    apply Real.sqrt_le_sqrt
    rw [le_div_iff₀ (by linarith)]
    nlinarith
  have hden : 0 < √(entry v i / (1 - o.beta2Prod * o.beta2)) + 1e-7 := by
    have := Real.sqrt_nonneg (entry v i / (1 - o.beta2Prod * o.beta2)); linarith
  have hc : 0 < 1 - b1 := by linarith
  have hc' : 0 < 1 - o.beta1Prod * o.beta1 := by linarith
  have hmh : |entry m i| / (1 - o.beta1Prod * o.beta1) ≤
      √(entry v i) / √((1 - b2) * (1 - b1 ^ 2 / b2)) := by
    calc |entry m i| / (1 - o.beta1Prod * o.beta1) ≤ |entry m i| / (1 - b1) := by
          apply div_le_div_of_nonneg_left (abs_nonneg _) hc; linarith
      _ ≤ ((1 - b1) / √((1 - b2) * (1 - b1 ^ 2 / b2)) * √(entry v i)) / (1 - b1) :=
          div_le_div_of_nonneg_right hmabs hc.le
      _ = _ := by field_simp
  have hd : |entry w' i - entry w₁ i| = |lr| * ((|entry m i| / (1 - o.beta1Prod * o.beta1)) /
      (√(entry v i / (1 - o.beta2Prod * o.beta2)) + 1e-7)) := by
    rw [c3 ha, e3, add_sub_cancel_left, abs_div, abs_mul, abs_div, abs_of_pos hc', abs_of_pos hden,
      mul_div_assoc]
  rw [hd, ← mul_one_div |lr|]
  apply mul_le_mul_of_nonneg_left _ (abs_nonneg _)
  rw [div_le_iff₀ hden]
  refine hmh.trans ?_
  rw [div_mul_eq_mul_div, one_mul]
  apply div_le_div_of_nonneg_right _ (Real.sqrt_nonneg _)
  linarith

/-! ## C56 AdaMax infinity norm -/

/-- After steps with gradients `g_0, …, g_(k-1)` (`k ≥ 1`, no reset in between) AdaMax's second state
is the greatest of the values `β2^(k-1-j) |g_j|`. -/
theorem C56_infinity_norm (n : Nat) (lr b1 b2 : ℝ) (h2 : 0 ≤ b2) (w : List ℝ) (hw : w.length = n)
    (es : List (Event ℝ)) (he : ∀ e ∈ es, e.Fits n) (hs : ∀ e ∈ es, e.isStep = true)
    (hne : es ≠ []) (o' : AdaMax ℝ) (w' : List ℝ)
    (h : History (AdaMax.new n lr b1 b2) w es o' w') :
    ∀ i < n, IsGreatest {x | ∃ j < es.length, x = b2 ^ (es.length - 1 - j) * |gradAt es i j|}
      (entry o'.expInf i) := by
  suffices (∀ e ∈ es, e.isStep = true) → (o'.beta2 = b2 ∧ o'.expAvg.length = n ∧
      o'.expInf.length = n ∧ w'.length = n) ∧ ∀ i < n, 0 ≤ entry o'.expInf i ∧
      (es = [] → entry o'.expInf i = 0) ∧
      (es ≠ [] → ∃ j < es.length, entry o'.expInf i = b2 ^ (es.length - 1 - j) * |gradAt es i j|) ∧
      (∀ j < es.length, b2 ^ (es.length - 1 - j) * |gradAt es i j| ≤ entry o'.expInf i) by
    intro i hi
    obtain ⟨-, -, q3, q4⟩ := (this hs).2 i hi
    refine ⟨q3 hne, ?_⟩
    rintro x ⟨j, hj, rfl⟩
    exact q4 j hj
  refine history_induct (n := n) (I := fun es o' w' => (∀ e ∈ es, e.isStep = true) →
      (o'.beta2 = b2 ∧ o'.expAvg.length = n ∧
      o'.expInf.length = n ∧ w'.length = n) ∧ ∀ i < n, 0 ≤ entry o'.expInf i ∧
      (es = [] → entry o'.expInf i = 0) ∧
      (es ≠ [] → ∃ j < es.length, entry o'.expInf i = b2 ^ (es.length - 1 - j) * |gradAt es i j|) ∧
      (∀ j < es.length, b2 ^ (es.length - 1 - j) * |gradAt es i j| ≤ entry o'.expInf i))
    ?_ ?_ ?_ es o' w' he h
  · intro _
    refine ⟨⟨rfl, List.length_replicate, List.length_replicate, hw⟩, fun i _ => ?_⟩
    have z : entry (AdaMax.new n lr b1 b2).expInf i = 0 := by
      show entry (List.replicate n (Scalar.zero : ℝ)) i = 0
      rw [entry_replicate, real_zero]
    exact ⟨z.ge, fun _ => z, fun hc => absurd rfl hc, fun j hj => absurd hj (Nat.not_lt_zero j)⟩
  · intro es o₁ w₁ e φ s o₂ w₂ ih _ hg hf hstep hall
    obtain ⟨⟨h1, h3, h4, h5⟩, h6⟩ := ih fun e' h' => hall e' (List.mem_append_left _ h')
    obtain ⟨m, u, w₃, a1, a2, a3, a4, a5⟩ := adamax_real hf o₁ h3 h4 s h5
    rw [hstep] at a1
    cases a1
    refine ⟨⟨h1, a2, a3, a4⟩, fun i hi => ?_⟩
    obtain ⟨q1, q2, q3, q4⟩ := h6 i hi
    have hu : entry u i = max (b2 * entry o₁.expInf i) |e.grad i| := by
      by_cases ha : Active φ i
      · rw [((a5 i hi).2.1 ha).1, h1, hg]
      · rw [((a5 i hi).2.2 ha).1, h1, hg, value_of_not_active ha, zero_mul, abs_zero,
          max_eq_left (mul_nonneg h2 q1)]
    show 0 ≤ entry u i ∧ (_ → entry u i = 0) ∧ (_ → ∃ j < _, entry u i = _) ∧ ∀ j < _, _ ≤ entry u i
    rw [List.length_append, List.length_singleton, hu]
    refine ⟨le_max_of_le_right (abs_nonneg _), fun hc => absurd hc (by simp), fun _ => ?_,
      fun j hj => ?_⟩
    · rcases max_choice (b2 * entry o₁.expInf i) |e.grad i| with hmx | hmx
      · rcases List.eq_nil_or_concat es with hes | hes
        · refine ⟨es.length, by omega, ?_⟩
          rw [gradAt_append_length, show es.length + 1 - 1 - es.length = 0 by omega, pow_zero, one_mul,
            max_eq_right]
          rw [q2 hes, mul_zero]; exact abs_nonneg _
        · have hes' : es ≠ [] := by
            obtain ⟨l, b, rfl⟩ := hes; simp
          obtain ⟨j, hj, hjv⟩ := q3 hes'
          refine ⟨j, by omega, ?_⟩
          rw [hmx, hjv, gradAt_append_lt hj,
            show es.length + 1 - 1 - j = (es.length - 1 - j) + 1 by omega, pow_succ]
          ring
      · refine ⟨es.length, by omega, ?_⟩
        rw [gradAt_append_length, show es.length + 1 - 1 - es.length = 0 by omega, pow_zero, one_mul,
          hmx]
    · rcases Nat.lt_succ_iff_lt_or_eq.1 hj with hlt | rfl
      · apply le_max_of_le_left
        rw [gradAt_append_lt hlt,
            show es.length + 1 - 1 - j = (es.length - 1 - j) + 1 by omega, pow_succ]
        have := mul_le_mul_of_nonneg_left (q4 j hlt) h2
        linarith
      · rw [gradAt_append_length, show es.length + 1 - 1 - es.length = 0 by omega, pow_zero, one_mul]
        exact le_max_right _ _
  · intro es o₁ w₁ _ hall
    have := hall .reset (List.mem_append_right _ List.mem_cons_self)
    cases this

theorem adamax_moment_le {b1 b2 m u u' g : ℝ} (h1 : 0 ≤ b1) (h1' : b1 < 1) (hb : b1 < b2)
    (hm : |m| ≤ (1 - b1) / (1 - b1 / b2) * u) (hu : b2 * u ≤ u') (hg : |g| ≤ u') :
    |b1 * m + (1 - b1) * g| ≤ (1 - b1) / (1 - b1 / b2) * u' := by
  have hb2 : 0 < b2 := lt_of_le_of_lt h1 hb
  have hq : 0 < 1 - b1 / b2 := by
    have : b1 / b2 < 1 := (div_lt_one hb2).2 hb
    linarith
  have hD : 0 ≤ (1 - b1) / (1 - b1 / b2) := div_nonneg (by linarith) hq.le
  have e1 : |b1 * m| ≤ b1 / b2 * ((1 - b1) / (1 - b1 / b2)) * u' := by
    rw [abs_mul, abs_of_nonneg h1]
    calc b1 * |m| ≤ b1 * ((1 - b1) / (1 - b1 / b2) * u) := mul_le_mul_of_nonneg_left hm h1
      _ = b1 / b2 * ((1 - b1) / (1 - b1 / b2)) * (b2 * u) := by field_simp
      _ ≤ _ := mul_le_mul_of_nonneg_left hu (mul_nonneg (div_nonneg h1 hb2.le) hD)
  have e2 : |(1 - b1) * g| ≤ (1 - b1) * u' := by
    rw [abs_mul, abs_of_pos (by linarith)]
    exact mul_le_mul_of_nonneg_left hg (by linarith)
  have e3 : b1 / b2 * ((1 - b1) / (1 - b1 / b2)) * u' + (1 - b1) * u' =
      (1 - b1) / (1 - b1 / b2) * u' := by
    have : (1 - b1) * u' = (1 - b1 / b2) * ((1 - b1) / (1 - b1 / b2)) * u' := by
      rw [mul_div_cancel₀ _ hq.ne']
    rw [this]; ring
  linarith [abs_add_le (b1 * m) ((1 - b1) * g)]

/-- What holds of AdaMax in every state reached by any history (resets included). -/
def AdaMaxInv (n : Nat) (lr b1 b2 : ℝ) (o : AdaMax ℝ) (w : List ℝ) : Prop :=
  (o.beta1 = b1 ∧ o.beta2 = b2 ∧ o.learningRate = lr ∧ o.expAvg.length = n ∧
    o.expInf.length = n ∧ w.length = n) ∧
  (0 ≤ o.beta1Prod ∧ o.beta1Prod ≤ b1) ∧
  ∀ i < n, 0 ≤ entry o.expInf i ∧
    (b1 < b2 → |entry o.expAvg i| ≤ (1 - b1) / (1 - b1 / b2) * entry o.expInf i)

theorem adamax_norm {φ : Features ℝ} {s b2 : ℝ} {o : AdaMax ℝ} {u : List ℝ} {i : Nat}
    (e2 : o.beta2 = b2) (h2 : 0 ≤ b2) (q1 : 0 ≤ entry o.expInf i)
    (ha : Active φ i → entry u i = max (o.beta2 * entry o.expInf i) |value φ i * s|)
    (hn : ¬ Active φ i → entry u i = o.beta2 * entry o.expInf i) :
    entry u i = max (b2 * entry o.expInf i) |value φ i * s| := by
  by_cases h : Active φ i
  · rw [ha h, e2]
  · rw [hn h, e2, value_of_not_active h, zero_mul, abs_zero, max_eq_left (mul_nonneg h2 q1)]

theorem adamax_inv {n : Nat} {lr b1 b2 : ℝ} (h1 : 0 ≤ b1) (h1' : b1 < 1) (h2 : 0 ≤ b2)
    {w : List ℝ} (hw : w.length = n) {es : List (Event ℝ)} (he : ∀ e ∈ es, e.Fits n)
    {o' : AdaMax ℝ} {w' : List ℝ} (h : History (AdaMax.new n lr b1 b2) w es o' w') :
    AdaMaxInv n lr b1 b2 o' w' := by
  refine history_induct (n := n) (I := fun _ o' w' => AdaMaxInv n lr b1 b2 o' w')
    ?_ ?_ ?_ es o' w' he h
  · refine ⟨⟨rfl, rfl, rfl, List.length_replicate, List.length_replicate, hw⟩,
      ⟨h1, le_refl _⟩, fun i _ => ?_⟩
    have z : entry (List.replicate n (Scalar.zero : ℝ)) i = 0 := by rw [entry_replicate, real_zero]
    refine ⟨?_, fun _ => ?_⟩
    · show 0 ≤ entry (List.replicate n Scalar.zero) i
      rw [z]
    · show |entry (List.replicate n Scalar.zero) i| ≤ _ * entry (List.replicate n Scalar.zero) i
      rw [z]; simp
  · rintro es o₁ w₁ e φ s o₂ w₂ ⟨⟨e1, e2, e3, e4, e5, e6⟩, ⟨p1, p2⟩, hi⟩ _ hg hf hstep
    obtain ⟨m, u, w₃, a1, a2, a3, a4, a5⟩ := adamax_real hf o₁ e4 e5 s e6
    rw [hstep] at a1
    cases a1
    refine ⟨⟨e1, e2, e3, a2, a3, a4⟩, ⟨?_, ?_⟩, fun i hin => ?_⟩
    · show 0 ≤ o₁.beta1Prod * o₁.beta1
      rw [e1]; exact mul_nonneg p1 h1
    · show o₁.beta1Prod * o₁.beta1 ≤ b1
      rw [e1]; exact mul_le_of_le_one_left h1 (by linarith)
    · obtain ⟨c1, c2, c3⟩ := a5 i hin
      obtain ⟨q1, q2⟩ := hi i hin
      have hu := adamax_norm (s := s) e2 h2 q1 (fun ha => (c2 ha).1) (fun hn => (c3 hn).1)
      refine ⟨?_, fun hb => ?_⟩
      · show 0 ≤ entry u i
        rw [hu]; exact le_max_of_le_right (abs_nonneg _)
      · show |entry m i| ≤ _ * entry u i
        rw [c1, e1]
        refine adamax_moment_le h1 h1' hb (q2 hb) ?_ ?_
        · rw [hu]; exact le_max_left _ _
        · rw [hu]; exact le_max_right _ _
  · rintro es o₁ w₁ ⟨⟨e1, e2, e3, e4, e5, e6⟩, hp, hi⟩
    refine ⟨⟨e1, e2, e3, length_reset e4, length_reset e5, e6⟩, hp, fun i _ => ?_⟩
    have z : entry (List.replicate n (Scalar.zero : ℝ)) i = 0 := by rw [entry_replicate, real_zero]
    refine ⟨?_, fun _ => ?_⟩
    · show 0 ≤ entry (o₁.expInf.map fun _ => Scalar.zero) i
      rw [map_zero_eq e5, z]
    · show |entry (o₁.expAvg.map fun _ => Scalar.zero) i| ≤
        _ * entry (o₁.expInf.map fun _ => Scalar.zero) i
      rw [map_zero_eq e4, map_zero_eq e5, z]; simp

/-- From every state reached by any history: the denominators of the next step are positive, and for
`β1 < β2` each weight moves by at most `|lr| / (1 - β1/β2)`. -/
theorem C56_safe_bounded (n : Nat) (lr b1 b2 : ℝ) (h1 : 0 ≤ b1) (h1' : b1 < 1) (h2 : 0 ≤ b2)
    (w : List ℝ) (hw : w.length = n) (es : List (Event ℝ)) (he : ∀ e ∈ es, e.Fits n) (o : AdaMax ℝ)
    (w₁ : List ℝ) (h : History (AdaMax.new n lr b1 b2) w es o w₁) (φ : Features ℝ) (hf : Fits n φ)
    (s : ℝ) :
    ∃ o' w', Optimiser.stepScaled o w₁ φ s = .ok (.ok (), o', w') ∧
      0 < 1 - o'.beta1Prod ∧ ∀ i < n, 0 < entry o'.expInf i + 1e-7 ∧
      (Active φ i → entry w' i = entry w₁ i + lr * (entry o'.expAvg i / (1 - o'.beta1Prod)) /
        (entry o'.expInf i + 1e-7)) ∧
      (¬ Active φ i → entry w' i = entry w₁ i) ∧
      (b1 < b2 → |entry w' i - entry w₁ i| ≤ |lr| / (1 - b1 / b2)) := by
  obtain ⟨⟨e1, e2, e3, e4, e5, e6⟩, ⟨p1, p2⟩, hi⟩ := adamax_inv h1 h1' h2 hw he h
  obtain ⟨m, u, w', a1, a2, a3, a4, a5⟩ := adamax_real hf o e4 e5 s e6
  have hP : o.beta1Prod * o.beta1 ≤ b1 := by
    rw [e1]; exact mul_le_of_le_one_left h1 (by linarith)
  have hc' : 0 < 1 - o.beta1Prod * o.beta1 := by linarith
  refine ⟨_, w', a1, hc', fun i hin => ?_⟩
  obtain ⟨c1, c2, c3⟩ := a5 i hin
  obtain ⟨q1, q2⟩ := hi i hin
  have hu := adamax_norm (s := s) e2 h2 q1 (fun ha => (c2 ha).1) (fun hn => (c3 hn).1)
  have hu0 : 0 ≤ entry u i := by rw [hu]; exact le_max_of_le_right (abs_nonneg _)
  have hden : 0 < entry u i + 1e-7 := by linarith
  refine ⟨hden, fun ha => ?_, fun hn => (c3 hn).2, fun hb => ?_⟩
  · rw [(c2 ha).2, e3]
  have hb2 : 0 < b2 := lt_of_le_of_lt h1 hb
  have hq : 0 < 1 - b1 / b2 := by
    have : b1 / b2 < 1 := (div_lt_one hb2).2 hb
    linarith
  by_cases ha : Active φ i
  swap
  · rw [(c3 ha).2, sub_self, abs_zero]; exact div_nonneg (abs_nonneg _) hq.le
  have hm : |entry m i| ≤ (1 - b1) / (1 - b1 / b2) * entry u i := by
    rw [c1, e1]
    refine adamax_moment_le h1 h1' hb (q2 hb) ?_ ?_
    · rw [hu]; exact le_max_left _ _
    · rw [hu]; exact le_max_right _ _
  have hc : 0 < 1 - b1 := by linarith
  have hmh : |entry m i| / (1 - o.beta1Prod * o.beta1) ≤ entry u i / (1 - b1 / b2) := by
    calc |entry m i| / (1 - o.beta1Prod * o.beta1) ≤ |entry m i| / (1 - b1) := by
          apply div_le_div_of_nonneg_left (abs_nonneg _) hc; linarith
      _ ≤ ((1 - b1) / (1 - b1 / b2) * entry u i) / (1 - b1) :=
          div_le_div_of_nonneg_right hm hc.le
      _ = _ := by field_simp
  have hd : |entry w' i - entry w₁ i| = |lr| * ((|entry m i| / (1 - o.beta1Prod * o.beta1)) /
      (entry u i + 1e-7)) := by
    rw [(c2 ha).2, e3, add_sub_cancel_left, abs_div, abs_mul, abs_div, abs_of_pos hc',
      abs_of_pos hden, mul_div_assoc]
  rw [hd, ← mul_one_div |lr|]
  apply mul_le_mul_of_nonneg_left _ (abs_nonneg _)
  rw [div_le_iff₀ hden]
  refine hmh.trans ?_
  rw [div_mul_eq_mul_div, one_mul]
  apply div_le_div_of_nonneg_right _ hq.le
  linarith

/-! ## C57 A zero error changes nothing -/

/-- True of a freshly constructed optimiser of every kind but NAG (`C57_nag_moves`). -/
theorem C57_zero_scale_partial (n : Nat) (φ : Features ℝ) (hf : Fits n φ) (w : List ℝ)
    (hw : w.length = n) (lr m b1 b2 : ℝ) :
    (∃ o', Optimiser.stepScaled (SGD.mk lr) w φ 0 = .ok (.ok (), o', w)) ∧
    (∃ o', Optimiser.stepScaled (ISGD.mk lr) w φ 0 = .ok (.ok (), o', w)) ∧
    (∃ o', Optimiser.stepScaled (SGDMomentum.new n m lr) w φ 0 = .ok (.ok (), o', w)) ∧
    (∃ o', Optimiser.stepScaled (Adagrad.new n lr) w φ 0 = .ok (.ok (), o', w)) ∧
    (∃ o', Optimiser.stepScaled (Adam.new n lr b1 b2) w φ 0 = .ok (.ok (), o', w)) ∧
    (∃ o', Optimiser.stepScaled (AdaMax.new n lr b1 b2) w φ 0 = .ok (.ok (), o', w)) := by
  have z : ∀ i, entry (List.replicate n (Scalar.zero : ℝ)) i = 0 := fun i => by
    rw [entry_replicate, real_zero]
  have fin : ∀ {w' : List ℝ}, w'.length = n → (∀ i < n, entry w' i = entry w i) → w' = w :=
    fun hl h => ext_entry (hl.trans hw.symm) fun i hi => h i (hl ▸ hi)
  refine ⟨?_, ?_, ?_, ?_, ?_, ?_⟩
  · obtain ⟨w', a1, a2, a3⟩ := sgd_real hf (SGD.mk lr) 0 hw
    exact ⟨_, fin a2 (fun i hi => by rw [a3 i hi]; simp) ▸ a1⟩
  · obtain ⟨w', a1, a2, a3⟩ := isgd_real hf (ISGD.mk lr) 0 hw
    exact ⟨_, fin a2 (fun i hi => by rw [a3 i hi]; simp) ▸ a1⟩
  · obtain ⟨v, w', a1, a2, a3, a4⟩ :=
      momentum_real hf (SGDMomentum.new n m lr) List.length_replicate 0 hw
    refine ⟨_, fin a3 (fun i hi => ?_) ▸ a1⟩
    rw [(a4 i hi).2, (a4 i hi).1]
    show _ + _ * (_ * entry (List.replicate n (Scalar.zero : ℝ)) i + _) = _
    rw [z]; simp
  · obtain ⟨v, w', a1, a2, a3, a4⟩ :=
      adagrad_real hf (Adagrad.new n lr) List.length_replicate 0 hw
    refine ⟨_, fin a3 (fun i hi => ?_) ▸ a1⟩
    rw [(a4 i hi).2]; simp
  · obtain ⟨mm, v, w', a1, a2, a3, a4, a5⟩ :=
      adam_real hf (Adam.new n lr b1 b2) List.length_replicate List.length_replicate 0 hw
    refine ⟨_, fin a4 (fun i hi => ?_) ▸ a1⟩
    obtain ⟨c1, c2, c3, c4⟩ := a5 i hi
    by_cases ha : Active φ i
    · rw [c3 ha, c1]
      show _ + _ * ((_ * entry (List.replicate n (Scalar.zero : ℝ)) i + _) / _) / _ = _
      rw [z]; simp
    · exact c4 ha
  · obtain ⟨mm, v, w', a1, a2, a3, a4, a5⟩ :=
      adamax_real hf (AdaMax.new n lr b1 b2) List.length_replicate List.length_replicate 0 hw
    refine ⟨_, fin a4 (fun i hi => ?_) ▸ a1⟩
    obtain ⟨c1, c2, c3⟩ := a5 i hi
    by_cases ha : Active φ i
    · rw [(c2 ha).2, c1]
      show _ + _ * ((_ * entry (List.replicate n (Scalar.zero : ℝ)) i + _) / _) / _ = _
      rw [z]; simp
    · exact (c3 ha).2

/-- Counterexample for NAG: a fresh NAG given an error of zero still changes every weight with a
non-zero feature, by `m φ`. -/
theorem C57_nag_moves (n : Nat) (φ : Features ℝ) (hf : Fits n φ) (w : List ℝ) (hw : w.length = n)
    (lr m : ℝ) (hm : m ≠ 0) (i : Nat) (hi : i < n) (hv : value φ i ≠ 0) :
    ∃ o' w', Optimiser.stepScaled (NAG.new n m lr) w φ 0 = .ok (.ok (), o', w') ∧
      entry w' i ≠ entry w i := by
  obtain ⟨o', w', h1, h2⟩ := C52_zero_scale_moves n φ hf m lr w hw
  refine ⟨o', w', h1, ?_⟩
  rw [h2 i hi]
  intro hc
  exact mul_ne_zero hm hv (by linarith)

/-! ## C58 Inactive weights are left alone -/

section
variable {K : Type} [Scalar K]

/-- A frame condition for single calls extends to histories. -/
theorem history_frame {O : Type} [Optimiser O K] [HasSize O] [Safe (K := K) O] {n i : Nat}
    (hs : ∀ (o : O) (w : List K) φ s o₁ w₁, HasSize.sized n o → w.length = n → Fits n φ →
      ¬ Active φ i → Optimiser.stepScaled o w φ s = .ok (.ok (), o₁, w₁) → entry w₁ i = entry w i)
    (hs' : ∀ (o : O) (w : List K) φ o₁ w₁, HasSize.sized n o → w.length = n → Fits n φ →
      ¬ Active φ i → Optimiser.step o w φ = .ok (.ok (), o₁, w₁) → entry w₁ i = entry w i)
    {es : List (Event K)} {o o' : O} {w w' : List K} (h : History o w es o' w')
    (hf : ∀ e ∈ es, e.Fits n) (ha : ∀ e ∈ es, ¬ e.ActiveAt i) (ho : HasSize.sized n o)
    (hw : w.length = n) : entry w' i = entry w i := by
  induction h with
  | nil => rfl
  | @step o o₁ o₂ w w₁ w₂ φ es e _ ih =>
    have hf0 : Fits n φ := hf _ List.mem_cons_self
    have ha0 : ¬ Active φ i := ha _ List.mem_cons_self
    obtain ⟨o₃, w₃, q1, q2, q3⟩ := Safe.step (K := K) ho hw hf0
    rw [e] at q1; cases q1
    rw [ih (fun e' h' => hf e' (List.mem_cons_of_mem _ h'))
      (fun e' h' => ha e' (List.mem_cons_of_mem _ h')) q2 q3]
    exact hs' _ _ _ _ _ ho hw hf0 ha0 e
  | @stepScaled o o₁ o₂ w w₁ w₂ φ s es e _ ih =>
    have hf0 : Fits n φ := hf _ List.mem_cons_self
    have ha0 : ¬ Active φ i := ha _ List.mem_cons_self
    obtain ⟨o₃, w₃, q1, q2, q3⟩ := Safe.scaled (K := K) s ho hw hf0
    rw [e] at q1; cases q1
    rw [ih (fun e' h' => hf e' (List.mem_cons_of_mem _ h'))
      (fun e' h' => ha e' (List.mem_cons_of_mem _ h')) q2 q3]
    exact hs _ _ _ _ _ _ ho hw hf0 ha0 e
  | reset _ ih =>
    exact ih (fun e' h' => hf e' (List.mem_cons_of_mem _ h'))
      (fun e' h' => ha e' (List.mem_cons_of_mem _ h')) (Safe.reset (K := K) ho) hw

/-- Over any history in which feature `i` is never active, SGD, ISGD, Adam and AdaMax leave weight
`i` exactly as it was (bit for bit: any arithmetic), from any optimiser state. -/
theorem C58_inactive (n i : Nat) (hi : i < n) (w : List K) (hw : w.length = n)
    (es : List (Event K)) (hf : ∀ e ∈ es, e.Fits n) (ha : ∀ e ∈ es, ¬ e.ActiveAt i) :
    (∀ (o o' : SGD K) w', History o w es o' w' → entry w' i = entry w i) ∧
    (∀ (o o' : ISGD K) w', History o w es o' w' → entry w' i = entry w i) ∧
    (∀ (o o' : Adam K) w', HasSize.sized n o → History o w es o' w' → entry w' i = entry w i) ∧
    (∀ (o o' : AdaMax K) w', HasSize.sized n o → History o w es o' w' → entry w' i = entry w i) := by
  refine ⟨fun o o' w' h => ?_, fun o o' w' h => ?_, fun o o' w' ho h => ?_, fun o o' w' ho h => ?_⟩
  · refine history_frame ?_ ?_ h hf ha trivial hw
    · intro o w φ s o₁ w₁ _ hw hf ha hs
      obtain ⟨w₂, a1, -, a2⟩ := sgd_scaled hf o s hw
      rw [hs] at a1; cases a1; exact (a2 i hi).2 ha
    · intro o w φ o₁ w₁ _ hw hf ha hs
      obtain ⟨w₂, a1, -, a2⟩ := sgd_step hf o hw
      rw [hs] at a1; cases a1; exact (a2 i hi).2 ha
  · refine history_frame ?_ ?_ h hf ha trivial hw
    · intro o w φ s o₁ w₁ _ hw hf ha hs
      obtain ⟨w₂, a1, -, a2⟩ := isgd_scaled hf o s hw
      rw [hs] at a1; cases a1; exact (a2 i hi).2 ha
    · intro o w φ o₁ w₁ _ hw hf ha hs
      obtain ⟨w₂, a1, -, a2⟩ := isgd_step hf o hw
      rw [hs] at a1; cases a1; exact (a2 i hi).2 ha
  · have hs : ∀ (o : Adam K) (w : List K) φ s o₁ w₁, HasSize.sized n o → w.length = n → Fits n φ →
        ¬ Active φ i → Optimiser.stepScaled o w φ s = .ok (.ok (), o₁, w₁) →
        entry w₁ i = entry w i := by
      intro o w φ s o₁ w₁ ho hw hf ha hs
      obtain ⟨m, v, w₂, a1, -, -, -, a2⟩ := adam_scaled hf o ho.1 ho.2 s hw
      rw [hs] at a1; cases a1; exact ((a2 i hi).2 ha).2.2
    exact history_frame hs (fun o w φ => hs o w φ Scalar.one) h hf ha ho hw
  · have hs : ∀ (o : AdaMax K) (w : List K) φ s o₁ w₁, HasSize.sized n o → w.length = n → Fits n φ →
        ¬ Active φ i → Optimiser.stepScaled o w φ s = .ok (.ok (), o₁, w₁) →
        entry w₁ i = entry w i := by
      intro o w φ s o₁ w₁ ho hw hf ha hs
      obtain ⟨m, v, w₂, a1, -, -, -, a2⟩ := adamax_scaled hf o ho.1 ho.2 s hw
      rw [hs] at a1; cases a1; exact ((a2 i hi).2 ha).2.2
    exact history_frame hs (fun o w φ => hs o w φ Scalar.one) h hf ha ho hw

end

/-- The same for Adagrad, in exact arithmetic: its loop visits inactive parameters too and adds
`lr * 0 / …` to them. -/
theorem C58_adagrad (n i : Nat) (hi : i < n) (w : List ℝ) (hw : w.length = n)
    (es : List (Event ℝ)) (hf : ∀ e ∈ es, e.Fits n) (ha : ∀ e ∈ es, ¬ e.ActiveAt i)
    (o o' : Adagrad ℝ) (w' : List ℝ) (ho : HasSize.sized n o) (h : History o w es o' w') :
    entry w' i = entry w i := by
  have hs : ∀ (o : Adagrad ℝ) (w : List ℝ) φ s o₁ w₁, HasSize.sized n o → w.length = n → Fits n φ →
      ¬ Active φ i → Optimiser.stepScaled o w φ s = .ok (.ok (), o₁, w₁) →
      entry w₁ i = entry w i := by
    intro o w φ s o₁ w₁ ho hw hf ha hs
    obtain ⟨v, w₂, a1, -, -, a2⟩ := adagrad_real hf o ho s hw
    rw [hs] at a1; cases a1
    rw [(a2 i hi).2, value_of_not_active ha]; simp
  exact history_frame hs (fun o w φ o₁ w₁ a b c d e =>
    hs o w φ 1 o₁ w₁ a b c d ((UnitStep.unit o w φ).symm.trans e)) h hf ha ho hw

/-- The momentum optimisers do keep moving inactive weights: the claim rightly leaves them out. -/
theorem C58_momentum_moves : ∃ (o' : SGDMomentum ℝ) (w' : List ℝ),
    History (SGDMomentum.mk 1 1 [1, 1]) [0, 0] [.step (.sparse ⟨2, [(0, 1)]⟩)] o' w' ∧
      entry w' 1 = 1 := by
  have hf : Fits 2 (Features.sparse ⟨2, [(0, (1 : ℝ))]⟩) := ⟨⟨by simp, by simp⟩, rfl⟩
  obtain ⟨v, w', a1, a2, a3, a4⟩ := momentum_real hf (SGDMomentum.mk 1 1 [1, 1]) rfl 1
    (w := [0, 0]) rfl
  refine ⟨_, w', .step ((UnitStep.unit _ _ _).trans a1) (.nil _ _), ?_⟩
  obtain ⟨b1, b2⟩ := a4 1 (by norm_num)
  rw [b2, b1, value_of_not_active ((not_active_sparse_iff hf.1.1 1).2 rfl)]
  show (0 : ℝ) + 1 * (1 * 1 + 0 * 1) = 1
  norm_num

/-! ### Concrete cases -/

example : ∃ o w₁, History (Adam.new 2 (0.1 : ℝ) 0.9 0.999) [7, 8] exHistory o w₁ :=
  let ⟨o, w, h, _⟩ :=
    (C44_history 2 [7, 8] rfl exHistory exHistory_fits (0.1 : ℝ) 0 0.9 0.999).2.2.2.2.2.1
  ⟨o, w, h⟩

/-- The default decay rates satisfy the hypotheses of the bounds. -/
example : (0 : ℝ) ≤ 0.9 ∧ (0.9 : ℝ) < 1 ∧ (0.999 : ℝ) < 1 ∧ (0.9 : ℝ) ^ 2 < 0.999 ∧
    (0.9 : ℝ) < 0.999 := by norm_num

example : ∀ e ∈ [Event.stepScaled (.sparse ⟨3, [(0, (2 : ℝ)), (2, 5)]⟩) 4, .reset], ¬ e.ActiveAt 1 := by
  intro e he
  simp only [List.mem_cons, List.not_mem_nil, or_false] at he
  rcases he with rfl | rfl
  · exact (not_active_sparse_iff (by show List.Nodup _; simp) 1).2 rfl
  · exact id

end Lfa

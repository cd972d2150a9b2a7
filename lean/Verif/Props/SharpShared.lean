import Verif.Props.C51_C54
import Verif.Props.C153

/-!
# Exactly when a shared optimiser acts like separate ones, and when NAG looks ahead as claimed

Complements C52 (the states and inputs on which a NAG step is the claimed one) and C64 (the errors for which one
call of a vector approximator with Momentum, NAG or Adagrad treats its outputs as separate approximators would).
-/

set_option linter.unusedSectionVars false

namespace Lfa

open Spec

/-! ## C52 -/

/-- A NAG step is `w' = w + lr v' + m (s φ)`, as claimed, exactly when there is no momentum, the scale is 1 or the
features are zero; a step with zero velocity and zero scale leaves the weights alone exactly when there is no
momentum or the features are zero. -/
theorem C52_iff (n : Nat) (φ : Features ℝ) (hf : Fits n φ) (o : NAG ℝ) (ho : o.velocity.length = n) (s : ℝ)
    (w : List ℝ) (hw : w.length = n) :
    ∃ o' w', Optimiser.stepScaled o w φ s = .ok (.ok (), o', w') ∧
      ((∀ i < n, entry w' i = entry w i + o.learningRate * entry o'.velocity i + o.momentum * (value φ i * s)) ↔
        o.momentum = 0 ∨ s = 1 ∨ ∀ i < n, value φ i = 0) ∧
      ((∀ i < n, entry o.velocity i = 0) → s = 0 →
        ((∀ i < n, entry w' i = entry w i) ↔ o.momentum = 0 ∨ ∀ i < n, value φ i = 0)) := by
  obtain ⟨v, w', a1, a2, a3, a4⟩ := nag_real hf o ho s hw
  refine ⟨_, w', a1, ⟨fun h => ?_, fun h i hi => ?_⟩, fun hv hs => ⟨fun h => ?_, fun h i hi => ?_⟩⟩
  · by_cases hm : o.momentum = 0
    · exact .inl hm
    by_cases h1 : s = 1
    · exact .inr (.inl h1)
    refine .inr (.inr fun i hi => ?_)
    have e := h i hi
    rw [(a4 i hi).2] at e
    have e : o.momentum * ((1 - s) * value φ i) = 0 := by linarith
    rcases mul_eq_zero.1 e with e | e
    · exact absurd e hm
    · rcases mul_eq_zero.1 e with e | e
      · exact absurd (by linarith) h1
      · exact e
  · rw [(a4 i hi).2]
    rcases h with h | h | h
    · rw [h, zero_mul, zero_mul]
    · rw [h, mul_one]
    · rw [h i hi, zero_mul]
  · by_cases hm : o.momentum = 0
    · exact .inl hm
    refine .inr fun i hi => ?_
    have e := h i hi
    rw [(a4 i hi).2, (a4 i hi).1, hv i hi, hs] at e
    have e : o.momentum * value φ i = 0 := by linarith
    exact (mul_eq_zero.1 e).resolve_left hm
  · rw [(a4 i hi).2, (a4 i hi).1, hv i hi, hs]
    rcases h with h | h
    · rw [h]; ring
    · rw [h i hi]; ring

/-! ## C64 -/

section
variable {B I O : Type} [Space B] [Basis B I ℝ] [Optimiser O ℝ]

/-- One call of `update` with one error per output succeeds and gives every output the weights that a scalar
approximator with its own copy of the optimiser gets from its own error. -/
def TreatsSeparately (b : B) (o : O) (ws : List (List ℝ)) (x : I) (es : List ℝ) : Prop :=
  ∃ fv', VectorLFA.update (LFA.mk b ws o : VectorLFA B O ℝ) x es = .ok (.ok (), fv') ∧
    fv'.weights.length = ws.length ∧ ∀ j < ws.length, ∃ fs,
      ScalarLFA.update (LFA.mk b (ws.getD j []) o : ScalarLFA B O ℝ) x (entry es j) = .ok (.ok (), fs) ∧
      fv'.weights.getD j [] = fs.weights

/-- It does when every output would make the same step from the optimiser it finds as from the initial one. -/
theorem treatsSeparately_iff {b : B} {x : I} {φ : Features ℝ} {n : Nat} (hp : Basis.project b x = .ok (.ok φ))
    {Inv : O → Prop} (hk : Keeps O Inv n φ) {o : O} (ho : Inv o) {ws : List (List ℝ)}
    (hc : ∀ c ∈ ws, c.length = n) {es : List ℝ} (he : es.length = ws.length) :
    ∃ (os : Nat → O) (ds : List (List ℝ)), os 0 = o ∧ (∀ j < ws.length, Inv (os j) ∧
        Optimiser.stepScaled (os j) (ws.getD j []) φ (entry es j) = .ok (.ok (), os (j + 1), ds.getD j [])) ∧
      (TreatsSeparately b o ws x es ↔ ∀ j < ws.length, ∃ o' d,
        Optimiser.stepScaled o (ws.getD j []) φ (entry es j) = .ok (.ok (), o', d) ∧ ds.getD j [] = d) := by
  obtain ⟨o', ds, r1, r2, r3, r4, os, u0, u1, u2⟩ := columns_turns hk es ws o he hc ho
  have hu : VectorLFA.update (LFA.mk b ws o : VectorLFA B O ℝ) x es = .ok (.ok (), LFA.mk b ds o') := by
    rw [vector_update_eq (fa := (LFA.mk b ws o : VectorLFA B O ℝ)) hp]
    show Except.map _ (VectorLFA.stepColumns φ es ws o (.ok ())) = _
    rw [r1]; rfl
  refine ⟨os, ds, u0, u2, fun h j hj => ?_, fun h => ⟨_, hu, r3, fun j hj => ?_⟩⟩
  · obtain ⟨fv', h1, -, h2⟩ := h
    obtain ⟨fs, h3, h4⟩ := h2 j hj
    rw [hu] at h1
    cases h1
    rw [scalar_update_eq (fa := (LFA.mk b (ws.getD j []) o : ScalarLFA B O ℝ)) hp] at h3
    obtain ⟨⟨r, o₁, d⟩, h5, h6⟩ := P.map_eq_ok.1 h3
    cases h6
    exact ⟨o₁, d, h5, h4⟩
  · obtain ⟨o₁, d, h1, h2⟩ := h j hj
    refine ⟨LFA.mk b d o₁, ?_, h2⟩
    rw [scalar_update_eq (fa := (LFA.mk b (ws.getD j []) o : ScalarLFA B O ℝ)) hp]
    show Except.map _ (Optimiser.stepScaled o (ws.getD j []) φ (entry es j)) = _
    rw [h1]; rfl

end

/-- A velocity that starts at zero and is fed one error after the other moves every output as its own error
does, exactly in these cases. -/
theorem shared_velocity {m n : Nat} {lr μ : ℝ} {e a : Nat → ℝ} {v : Nat → Nat → ℝ} (h0 : ∀ i < n, v 0 i = 0)
    (hs : ∀ j < m, ∀ i < n, v (j + 1) i = μ * v j i + a i * e j) :
    (∀ j < m, ∀ i < n, lr * v (j + 1) i = lr * (a i * e j)) ↔
      lr = 0 ∨ μ = 0 ∨ (∀ i < n, a i = 0) ∨ ∀ j, j + 1 < m → e j = 0 := by
  constructor
  · intro h
    by_contra hc
    simp only [not_or] at hc
    obtain ⟨h1, h2, h3, h4⟩ := hc
    push Not at h3 h4
    obtain ⟨i, hi, h3⟩ := h3
    obtain ⟨j, hj, h4⟩ := h4
    have e1 := mul_left_cancel₀ h1 (h (j + 1) hj i hi)
    rw [hs (j + 1) hj i hi, mul_left_cancel₀ h1 (h j (by omega) i hi)] at e1
    exact mul_ne_zero h2 (mul_ne_zero h3 h4) (by linarith)
  · rintro (h | h | h | h) j hj i hi
    · rw [h, zero_mul, zero_mul]
    · rw [hs j hj i hi, h, zero_mul, zero_add]
    · have : ∀ k, k ≤ m → v k i = 0 := by
        intro k
        induction k with
        | zero => exact fun _ => h0 i hi
        | succ k ih => intro hk; rw [hs k (by omega) i hi, ih (by omega), h i hi]; ring
      rw [this (j + 1) hj, h i hi, zero_mul]
    · have : ∀ k, k < m → v k i = 0 := by
        intro k
        induction k with
        | zero => exact fun _ => h0 i hi
        | succ k ih => intro hk; rw [hs k (by omega) i hi, ih (by omega), h k hk]; ring
      rw [hs j hj i hi, this j hj, mul_zero, zero_add]

section
variable {B I : Type} [Space B] [Basis B I ℝ]

theorem momentum_keeps' {n : Nat} {φ : Features ℝ} (hf : Fits n φ) (μ lr : ℝ) :
    Keeps (SGDMomentum ℝ) (IsMomentum n μ lr) n φ := by
  intro o w s ho hw
  obtain ⟨v, w', h1, h2, h3, -⟩ := momentum_real hf o ho.2.2 s hw
  exact ⟨_, w', h1, ⟨ho.1, ho.2.1, h2⟩, h3⟩

theorem nag_keeps' {n : Nat} {φ : Features ℝ} (hf : Fits n φ) (μ lr : ℝ) :
    Keeps (NAG ℝ) (fun o => o.momentum = μ ∧ o.learningRate = lr ∧ o.velocity.length = n) n φ := by
  intro o w s ho hw
  obtain ⟨v, w', h1, h2, h3, -⟩ := nag_real hf o ho.2.2 s hw
  exact ⟨_, w', h1, ⟨ho.1, ho.2.1, h2⟩, h3⟩

theorem column_length {n j : Nat} {ws : List (List ℝ)} (hc : ∀ c ∈ ws, c.length = n) (hj : j < ws.length) :
    (ws.getD j []).length = n := by
  rw [List.getD_eq_getElem _ _ hj]
  exact hc _ (List.getElem_mem _)

/-- Momentum: one call on a fresh vector approximator treats the outputs separately exactly when the learning rate,
the momentum or the features vanish, or all errors but the last. -/
theorem C64_momentum_iff (b : B) (x : I) (φ : Features ℝ) (n : Nat) (hp : Basis.project b x = .ok (.ok φ))
    (hf : Fits n φ) (μ lr : ℝ) (ws : List (List ℝ)) (hc : ∀ c ∈ ws, c.length = n) (es : List ℝ)
    (he : es.length = ws.length) :
    TreatsSeparately b (SGDMomentum.new n μ lr) ws x es ↔
      lr = 0 ∨ μ = 0 ∨ (∀ i < n, value φ i = 0) ∨ ∀ j, j + 1 < es.length → entry es j = 0 := by
  have ho : IsMomentum n μ lr (SGDMomentum.new n μ lr) := ⟨rfl, rfl, List.length_replicate ..⟩
  have hz : ∀ i, entry (SGDMomentum.new n μ lr).velocity i = 0 := fun i => by
    show entry (List.replicate n (Scalar.zero : ℝ)) i = 0
    rw [entry_replicate, real_zero]
  obtain ⟨os, ds, u0, u1, u2⟩ := treatsSeparately_iff hp (momentum_keeps' hf μ lr) ho hc he
  have hs : ∀ j < ws.length, (ds.getD j []).length = n ∧ ∀ i < n,
      entry (os (j + 1)).velocity i = μ * entry (os j).velocity i + value φ i * entry es j ∧
      entry (ds.getD j []) i = entry (ws.getD j []) i + lr * entry (os (j + 1)).velocity i := by
    intro j hj
    obtain ⟨⟨i1, i2, i3⟩, h1⟩ := u1 j hj
    obtain ⟨v, w', a1, a2, a3, a4⟩ := momentum_real hf (os j) i3 (entry es j) (column_length hc hj)
    rw [h1] at a1
    injection a1 with a1
    injection a1 with _ a1
    injection a1 with a1 a1'
    rw [a1, a1']
    refine ⟨a3, fun i hi => ?_⟩
    have := a4 i hi
    rw [i1, i2] at this
    exact this
  rw [u2, he, ← shared_velocity (v := fun j i => entry (os j).velocity i) (fun i hi => by rw [u0]; exact hz i)
    (fun j hj i hi => ((hs j hj).2 i hi).1)]
  refine forall₂_congr fun j hj => ?_
  obtain ⟨v, w', a1, a2, a3, a4⟩ := momentum_real hf (SGDMomentum.new n μ lr) ho.2.2 (entry es j) (column_length hc hj)
  constructor
  · rintro ⟨o', d, h1, h2⟩ i hi
    rw [a1] at h1
    cases h1
    have := ((hs j hj).2 i hi).2
    rw [h2, (a4 i hi).2, (a4 i hi).1, hz] at this
    have : entry (ws.getD j []) i + lr * (μ * 0 + value φ i * entry es j) =
      entry (ws.getD j []) i + lr * entry (os (j + 1)).velocity i := this
    linarith
  · intro h
    refine ⟨_, w', a1, ext_entry ((hs j hj).1.trans a3.symm) fun i hi => ?_⟩
    rw [(hs j hj).1] at hi
    rw [((hs j hj).2 i hi).2, h i hi, (a4 i hi).2, (a4 i hi).1, hz]
    show _ = entry (ws.getD j []) i + lr * (μ * 0 + value φ i * entry es j)
    ring

/-- NAG: the same. -/
theorem C64_nag_iff (b : B) (x : I) (φ : Features ℝ) (n : Nat) (hp : Basis.project b x = .ok (.ok φ))
    (hf : Fits n φ) (μ lr : ℝ) (ws : List (List ℝ)) (hc : ∀ c ∈ ws, c.length = n) (es : List ℝ)
    (he : es.length = ws.length) :
    TreatsSeparately b (NAG.new n μ lr) ws x es ↔
      lr = 0 ∨ μ = 0 ∨ (∀ i < n, value φ i = 0) ∨ ∀ j, j + 1 < es.length → entry es j = 0 := by
  have hz : ∀ i, entry (NAG.new n μ lr).velocity i = 0 := fun i => by
    show entry (List.replicate n (Scalar.zero : ℝ)) i = 0
    rw [entry_replicate, real_zero]
  obtain ⟨os, ds, u0, u1, u2⟩ := treatsSeparately_iff hp (nag_keeps' hf μ lr) (o := NAG.new n μ lr)
    ⟨rfl, rfl, List.length_replicate ..⟩ hc he
  have hs : ∀ j < ws.length, (ds.getD j []).length = n ∧ ∀ i < n,
      entry (os (j + 1)).velocity i = μ * entry (os j).velocity i + value φ i * entry es j ∧
      entry (ds.getD j []) i = entry (ws.getD j []) i + lr * entry (os (j + 1)).velocity i + μ * value φ i := by
    intro j hj
    obtain ⟨⟨i1, i2, i3⟩, h1⟩ := u1 j hj
    obtain ⟨v, w', a1, a2, a3, a4⟩ := nag_real hf (os j) i3 (entry es j) (column_length hc hj)
    rw [h1] at a1
    injection a1 with a1
    injection a1 with _ a1
    injection a1 with a1 a1'
    rw [a1, a1']
    refine ⟨a3, fun i hi => ?_⟩
    have := a4 i hi
    rw [i1, i2] at this
    exact this
  rw [u2, he, ← shared_velocity (v := fun j i => entry (os j).velocity i) (fun i hi => by rw [u0]; exact hz i)
    (fun j hj i hi => ((hs j hj).2 i hi).1)]
  refine forall₂_congr fun j hj => ?_
  obtain ⟨v, w', a1, a2, a3, a4⟩ := nag_real hf (NAG.new n μ lr) (List.length_replicate ..) (entry es j)
    (column_length hc hj)
  constructor
  · rintro ⟨o', d, h1, h2⟩ i hi
    rw [a1] at h1
    cases h1
    have := ((hs j hj).2 i hi).2
    rw [h2, (a4 i hi).2, (a4 i hi).1, hz] at this
    have : entry (ws.getD j []) i + lr * (μ * 0 + value φ i * entry es j) + μ * value φ i =
      entry (ws.getD j []) i + lr * entry (os (j + 1)).velocity i + μ * value φ i := this
    linarith
  · intro h
    refine ⟨_, w', a1, ext_entry ((hs j hj).1.trans a3.symm) fun i hi => ?_⟩
    rw [(hs j hj).1] at hi
    rw [((hs j hj).2 i hi).2, h i hi, (a4 i hi).2, (a4 i hi).1, hz]
    show _ = entry (ws.getD j []) i + lr * (μ * 0 + value φ i * entry es j) + μ * value φ i
    ring

/-- Two steps of Adagrad with the same gradient agree exactly when the gradient is zero or the accumulators agree. -/
theorem adagrad_step_eq {lr g A A' : ℝ} (hA : 0 ≤ A) (hA' : 0 ≤ A') :
    lr * g / (√A + 1e-7) = lr * g / (√A' + 1e-7) ↔ lr * g = 0 ∨ A = A' := by
  have h1 : (0 : ℝ) < √A + 1e-7 := by positivity
  have h2 : (0 : ℝ) < √A' + 1e-7 := by positivity
  rw [div_eq_div_iff h1.ne' h2.ne']
  constructor
  · intro h
    by_cases h0 : lr * g = 0
    · exact .inl h0
    · have := mul_left_cancel₀ h0 h
      exact .inr ((Real.sqrt_inj hA hA').1 (by linarith))
  · rintro (h | h)
    · rw [h, zero_mul, zero_mul]
    · rw [h]

/-- Adagrad: exactly when the learning rate or the features vanish or at most one of the errors is not zero. -/
theorem C64_adagrad_iff (b : B) (x : I) (φ : Features ℝ) (n : Nat) (hp : Basis.project b x = .ok (.ok φ))
    (hf : Fits n φ) (lr : ℝ) (ws : List (List ℝ)) (hc : ∀ c ∈ ws, c.length = n) (es : List ℝ)
    (he : es.length = ws.length) :
    TreatsSeparately b (Adagrad.new n lr) ws x es ↔
      lr = 0 ∨ (∀ i < n, value φ i = 0) ∨ ∀ t j, t < j → j < es.length → entry es t = 0 ∨ entry es j = 0 := by
  have hz : ∀ i, entry (Adagrad.new n lr).accumulator i = 0 := fun i => by
    show entry (List.replicate n (Scalar.zero : ℝ)) i = 0
    rw [entry_replicate, real_zero]
  obtain ⟨os, ds, u0, u1, u2⟩ := treatsSeparately_iff hp (adagrad_keeps' hf lr) (o := Adagrad.new n lr)
    ⟨rfl, List.length_replicate ..⟩ hc he
  have hs : ∀ j < ws.length, (ds.getD j []).length = n ∧ ∀ i < n,
      entry (os (j + 1)).accumulator i = entry (os j).accumulator i + (value φ i * entry es j) ^ 2 ∧
      entry (ds.getD j []) i = entry (ws.getD j []) i +
        lr * (value φ i * entry es j) / (√(entry (os (j + 1)).accumulator i) + 1e-7) := by
    intro j hj
    obtain ⟨⟨i1, i3⟩, h1⟩ := u1 j hj
    obtain ⟨v, w', a1, a2, a3, a4⟩ := adagrad_real hf (os j) i3 (entry es j) (column_length hc hj)
    rw [h1] at a1
    injection a1 with a1
    injection a1 with _ a1
    injection a1 with a1 a1'
    rw [a1, a1']
    refine ⟨a3, fun i hi => ?_⟩
    have := a4 i hi
    rw [i1] at this
    exact this
  have hsum : ∀ j ≤ ws.length, ∀ i < n,
      entry (os j).accumulator i = ∑ t ∈ Finset.range j, (value φ i * entry es t) ^ 2 := by
    intro j
    induction j with
    | zero => intro _ i _; rw [u0, hz]; rfl
    | succ j ih =>
      intro hj i hi
      rw [((hs j hj).2 i hi).1, ih (by omega) i hi, Finset.sum_range_succ]
  have key : ∀ j < ws.length, (∃ o' d, Optimiser.stepScaled (Adagrad.new n lr) (ws.getD j []) φ (entry es j) =
      .ok (.ok (), o', d) ∧ ds.getD j [] = d) ↔
      ∀ i < n, lr * (value φ i * entry es j) = 0 ∨ ∑ t ∈ Finset.range j, (value φ i * entry es t) ^ 2 = 0 := by
    intro j hj
    obtain ⟨v, w', a1, a2, a3, a4⟩ := adagrad_real hf (Adagrad.new n lr) (List.length_replicate ..) (entry es j)
      (column_length hc hj)
    have hw : ∀ i < n, entry w' i = entry (ws.getD j []) i +
        lr * (value φ i * entry es j) / (√(0 + (value φ i * entry es j) ^ 2) + 1e-7) := by
      intro i hi
      rw [(a4 i hi).2, (a4 i hi).1, hz]; rfl
    have hd : ∀ i < n, (entry (ds.getD j []) i = entry w' i ↔
        lr * (value φ i * entry es j) = 0 ∨ ∑ t ∈ Finset.range j, (value φ i * entry es t) ^ 2 = 0) := by
      intro i hi
      have hn : 0 ≤ ∑ t ∈ Finset.range j, (value φ i * entry es t) ^ 2 := Finset.sum_nonneg fun t _ => sq_nonneg _
      rw [((hs j hj).2 i hi).2, hw i hi, ((hs j hj).2 i hi).1, hsum j hj.le i hi, add_right_inj,
        adagrad_step_eq (by positivity) (by positivity), add_left_inj]
    constructor
    · rintro ⟨o', d, h1, h2⟩ i hi
      rw [a1] at h1
      cases h1
      exact (hd i hi).1 (by rw [h2])
    · intro h
      refine ⟨_, w', a1, ext_entry ((hs j hj).1.trans a3.symm) fun i hi => ?_⟩
      rw [(hs j hj).1] at hi
      exact (hd i hi).2 (h i hi)
  rw [u2, forall₂_congr key, he]
  constructor
  · intro h
    by_contra hcon
    simp only [not_or] at hcon
    obtain ⟨h1, h2, h3⟩ := hcon
    push Not at h2 h3
    obtain ⟨i, hi, h2⟩ := h2
    obtain ⟨t, j, htj, hj, h3, h4⟩ := h3
    rcases h j hj i hi with h | h
    · exact mul_ne_zero h1 (mul_ne_zero h2 h4) h
    · have := (Finset.sum_eq_zero_iff_of_nonneg fun t _ => sq_nonneg _).1 h t (Finset.mem_range.2 htj)
      exact mul_ne_zero h2 h3 (pow_eq_zero_iff two_ne_zero |>.1 this)
  · rintro (h | h | h) j hj i hi
    · exact .inl (by rw [h, zero_mul])
    · exact .inl (by rw [h i hi, zero_mul, mul_zero])
    · by_cases h0 : entry es j = 0
      · exact .inl (by rw [h0, mul_zero, mul_zero])
      · refine .inr (Finset.sum_eq_zero fun t ht => ?_)
        rw [(h t j (Finset.mem_range.1 ht) hj).resolve_right h0]
        ring

/-- Adam and AdaMax: even an output without any error disturbs the others, because it advances the bias correction.
With the errors `0` and `e` on two outputs over the constant feature 1, an AdaMax call with `0 < beta1 < 1` and a
non-zero learning rate treats them separately only if `e = 0`. -/
theorem C64_adamax_iff (lr β₁ β₂ e : ℝ) (h0 : 0 < β₁) (h1 : β₁ < 1) (hlr : lr ≠ 0) (c d : ℝ) :
    TreatsSeparately (Bias.unit (K := ℝ)) (AdaMax.new 1 lr β₁ β₂) [[c], [d]] () [0, e] ↔ e = 0 := by
  have hf : Fits 1 (Features.dense [(1 : ℝ)]) := ⟨trivial, rfl⟩
  have hp : Basis.project (Bias.unit (K := ℝ)) () = .ok (.ok (Features.dense [(1 : ℝ)])) := by
    show Except.ok (Except.ok (Features.dense [Scalar.one])) = _
    rw [real_one]
  have ha : Active (Features.dense [(1 : ℝ)]) 0 := ⟨1, rfl⟩
  have hv : value (Features.dense [(1 : ℝ)]) 0 = 1 := rfl
  have z0 : entry (AdaMax.new 1 lr β₁ β₂).expAvg 0 = 0 ∧ entry (AdaMax.new 1 lr β₁ β₂).expInf 0 = 0 := by
    constructor
    · show entry (List.replicate 1 (Scalar.zero : ℝ)) 0 = 0
      rw [entry_replicate, real_zero]
    · show entry (List.replicate 1 (Scalar.zero : ℝ)) 0 = 0
      rw [entry_replicate, real_zero]
  obtain ⟨m₁, u₁, w₁, a1, a2, a3, a4, a5⟩ := adamax_real hf (AdaMax.new 1 lr β₁ β₂) (List.length_replicate ..)
    (List.length_replicate ..) 0 (w := [c]) rfl
  obtain ⟨b1, b2, -⟩ := a5 0 Nat.one_pos
  replace b2 := b2 ha
  rw [z0.1] at b1
  rw [z0.2] at b2
  have hm₁ : entry m₁ 0 = 0 := by
    rw [b1, hv]; ring
  have hu₁ : entry u₁ 0 = 0 := by
    rw [b2.1, hv]; simp
  have q1 := fun s => adamax_real hf { AdaMax.new 1 lr β₁ β₂ with
    beta1Prod := (AdaMax.new 1 lr β₁ β₂).beta1Prod * (AdaMax.new 1 lr β₁ β₂).beta1, expAvg := m₁, expInf := u₁ }
    a2 a3 s (w := [d]) rfl
  obtain ⟨m₂, u₂, w₂, c1, c2, c3, c4, c5⟩ := q1 e
  obtain ⟨m₃, u₃, w₃, d1, d2, d3, d4, d5⟩ := adamax_real hf (AdaMax.new 1 lr β₁ β₂) (List.length_replicate ..)
    (List.length_replicate ..) e (w := [d]) rfl
  obtain ⟨e1, e2, -⟩ := c5 0 Nat.one_pos
  obtain ⟨f1, f2, -⟩ := d5 0 Nat.one_pos
  replace e2 := e2 ha
  replace f2 := f2 ha
  have hw₂ : entry w₂ 0 = d + lr * ((1 - β₁) * e / (1 - β₁ * β₁ * β₁)) / (|e| + 1e-7) := by
    rw [e2.2, e2.1, e1, hv]
    show d + lr * ((β₁ * entry m₁ 0 + (1 - β₁) * (1 * e)) / (1 - β₁ * β₁ * β₁)) /
      (max (β₂ * entry u₁ 0) |1 * e| + 1e-7) = _
    rw [hm₁, hu₁]
    simp
  have hw₃ : entry w₃ 0 = d + lr * ((1 - β₁) * e / (1 - β₁ * β₁)) / (|e| + 1e-7) := by
    rw [f2.2, f2.1, f1, hv, z0.1, z0.2]
    show d + lr * ((β₁ * 0 + (1 - β₁) * (1 * e)) / (1 - β₁ * β₁)) / (max (β₂ * 0) |1 * e| + 1e-7) = _
    simp
  have hupd : VectorLFA.update (LFA.mk Bias.unit [[c], [d]] (AdaMax.new 1 lr β₁ β₂) :
      VectorLFA (Bias ℝ) (AdaMax ℝ) ℝ) () [0, e] = .ok (.ok (), LFA.mk Bias.unit [w₁, w₂] { AdaMax.new 1 lr β₁ β₂ with
        beta1Prod := β₁ * β₁ * β₁, expAvg := m₂, expInf := u₂ }) := by
    rw [vector_update_eq hp]
    show Except.map _ (Optimiser.stepScaled (AdaMax.new 1 lr β₁ β₂) [c] _ 0 >>= _) = _
    rw [a1, P.ok_bind]
    show Except.map _ ((Optimiser.stepScaled _ [d] _ e >>= _) >>= _) = _
    rw [c1]; rfl
  have hsc₁ : ScalarLFA.update (LFA.mk Bias.unit [c] (AdaMax.new 1 lr β₁ β₂) : ScalarLFA (Bias ℝ) (AdaMax ℝ) ℝ) () 0 =
      .ok (.ok (), LFA.mk Bias.unit w₁ { AdaMax.new 1 lr β₁ β₂ with
        beta1Prod := β₁ * β₁, expAvg := m₁, expInf := u₁ }) := by
    rw [scalar_update_eq hp]
    show Except.map _ (Optimiser.stepScaled (AdaMax.new 1 lr β₁ β₂) [c] _ 0) = _
    rw [a1]; rfl
  have hsc₂ : ScalarLFA.update (LFA.mk Bias.unit [d] (AdaMax.new 1 lr β₁ β₂) : ScalarLFA (Bias ℝ) (AdaMax ℝ) ℝ) () e =
      .ok (.ok (), LFA.mk Bias.unit w₃ { AdaMax.new 1 lr β₁ β₂ with
        beta1Prod := β₁ * β₁, expAvg := m₃, expInf := u₃ }) := by
    rw [scalar_update_eq hp]
    show Except.map _ (Optimiser.stepScaled (AdaMax.new 1 lr β₁ β₂) [d] _ e) = _
    rw [d1]; rfl
  have p2 : 0 < 1 - β₁ * β₁ := by nlinarith
  have p3 : 0 < 1 - β₁ * β₁ * β₁ := by nlinarith [mul_pos h0 h0]
  have hp0 : (0 : ℝ) < |e| + 1e-7 := by positivity
  constructor
  · rintro ⟨fv', g1, -, g2⟩
    rw [hupd] at g1
    cases g1
    obtain ⟨fs, g3, g4⟩ := g2 1 (by simp)
    have g3 : ScalarLFA.update (LFA.mk Bias.unit [d] (AdaMax.new 1 lr β₁ β₂) : ScalarLFA (Bias ℝ) (AdaMax ℝ) ℝ) () e =
      .ok (.ok (), fs) := g3
    rw [hsc₂] at g3
    cases g3
    have g4 : w₂ = w₃ := g4
    have g5 : entry w₂ 0 = entry w₃ 0 := by rw [g4]
    rw [hw₂, hw₃, add_right_inj, div_left_inj' hp0.ne', mul_right_inj' hlr, div_eq_div_iff p3.ne' p2.ne'] at g5
    have g6 : e * ((1 - β₁) * (β₁ * β₁ * (1 - β₁))) = 0 := by linear_combination -g5
    rcases mul_eq_zero.1 g6 with g6 | g6
    · exact g6
    · exact absurd g6 (mul_pos (by linarith) (mul_pos (mul_pos h0 h0) (by linarith))).ne'
  · intro he
    refine ⟨_, hupd, rfl, fun j hj => ?_⟩
    have hj : j < 2 := hj
    interval_cases j
    · exact ⟨_, hsc₁, rfl⟩
    · refine ⟨_, hsc₂, ?_⟩
      show w₂ = w₃
      refine ext_entry (c4.trans d4.symm) fun i hi => ?_
      rw [c4] at hi
      interval_cases i
      rw [hw₂, hw₃, he]
      simp

end
end Lfa

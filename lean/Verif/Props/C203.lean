import Verif.Props.C187
import Verif.Props.C201

/-!
# C203: learning several classes from mistakes

An approximator with one output per class that is updated on its mistakes only, by raising the output of the label and lowering one that was at
least as large. The number of mistakes over all time is bounded if some weights tell the classes apart; a table in `f64` makes at most one
mistake per cell.
-/

set_option linter.unusedSectionVars false

namespace Lfa

open Spec Features Machine

/-! ### The columns as one vector -/

theorem sum_blocks (m n : Nat) (g : Nat → Nat → ℝ) :
    ∑ q ∈ Finset.range (m * n), g (q / n) (q % n) = ∑ k ∈ Finset.range m, ∑ i ∈ Finset.range n, g k i := by
  induction m with
  | zero => simp
  | succ m ih =>
    rw [Nat.succ_mul, Finset.sum_range_add, ih, Finset.sum_range_succ]
    congr 1
    refine Finset.sum_congr rfl fun i hi => ?_
    have hi := Finset.mem_range.1 hi
    rw [Nat.mul_comm m n, Nat.mul_add_div (by omega), Nat.mul_add_mod, Nat.div_eq_of_lt hi, Nat.mod_eq_of_lt hi, add_zero]

/-- 1 for the label, -1 for the rival. -/
def side (y r k : Nat) : ℝ := if k = y then 1 else if k = r then -1 else 0

theorem side_sum {m y r : Nat} (hy : y < m) (hr : r < m) (hne : r ≠ y) (f : Nat → ℝ) :
    ∑ k ∈ Finset.range m, side y r k * f k = f y - f r := by
  have e : ∀ k, side y r k * f k = (if k = y then f y else 0) - (if k = r then f r else 0) := fun k => by
    unfold side
    by_cases h1 : k = y
    · subst h1
      rw [if_pos rfl, if_pos rfl, if_neg (Ne.symm hne)]; ring
    · rw [if_neg h1, if_neg h1]
      by_cases h2 : k = r
      · subst h2
        rw [if_pos rfl, if_pos rfl]; ring
      · rw [if_neg h2, if_neg h2]; ring
  simp only [e, Finset.sum_sub_distrib, Finset.sum_ite_eq', Finset.mem_range, hy, hr, if_true]

theorem side_sq {m y r : Nat} (hy : y < m) (hr : r < m) (hne : r ≠ y) : ∑ k ∈ Finset.range m, side y r k ^ 2 = 2 := by
  simp only [pow_two]
  rw [side_sum hy hr hne]
  unfold side
  rw [if_pos rfl, if_neg hne, if_pos rfl]
  norm_num

/-- Rates between `a₀` and `lr`. -/
theorem confusions_le {m n : Nat} {W : Nat → Nat → Nat → ℝ} {φ : Nat → Nat → ℝ} {y r : Nat → Nat} {a : Nat → ℝ} {R lr a₀ : ℝ} {u : Nat → Nat → ℝ}
    {bad : Nat → Prop} [DecidablePred bad] (T : Nat) (R0 : 0 < R) (l0 : 0 < lr) (a0 : 0 < a₀) (ha : ∀ t, a₀ ≤ a t ∧ a t ≤ lr)
    (hR : ∀ t, ∑ i ∈ Finset.range n, φ t i ^ 2 ≤ R) (hy : ∀ t, y t < m) (hr : ∀ t, bad t → r t < m ∧ r t ≠ y t)
    (hb : ∀ t < T, bad t → ∑ i ∈ Finset.range n, φ t i * W t (y t) i ≤ ∑ i ∈ Finset.range n, φ t i * W t (r t) i ∧
      ∀ k < m, ∀ i < n, W (t + 1) k i = W t k i + a t * side (y t) (r t) k * φ t i)
    (hg : ∀ t < T, ¬ bad t → ∀ k < m, ∀ i < n, W (t + 1) k i = W t k i) :
    (((Finset.range T).filter bad).card : ℝ) ≤
      lr / a₀ * ((∑ k ∈ Finset.range m, ∑ i ∈ Finset.range n, (2 * lr * R * u k i - W 0 k i) ^ 2) / (2 * lr ^ 2 * R) +
        2 * ∑ t ∈ (Finset.range T).filter bad,
          max 0 (1 - (∑ i ∈ Finset.range n, φ t i * u (y t) i - ∑ i ∈ Finset.range n, φ t i * u (r t) i))) := by
  classical
  have inn : ∀ t, bad t → ∀ V : Nat → Nat → ℝ, ∑ q ∈ Finset.range (m * n), side (y t) (r t) (q / n) * φ t (q % n) * V (q / n) (q % n) =
      ∑ i ∈ Finset.range n, φ t i * V (y t) i - ∑ i ∈ Finset.range n, φ t i * V (r t) i := fun t ht V => by
    rw [sum_blocks m n fun k i => side (y t) (r t) k * φ t i * V k i, ← side_sum (hy t) (hr t ht).1 (hr t ht).2 fun k => ∑ i ∈ Finset.range n, φ t i * V k i]
    exact Finset.sum_congr rfl fun k _ => by rw [Finset.mul_sum]; exact Finset.sum_congr rfl fun i _ => by ring
  have pos : ∀ q < m * n, q / n < m ∧ q % n < n := fun q hq => by
    have hn : 0 < n := Nat.pos_of_ne_zero fun h => by rw [h, Nat.mul_zero] at hq; omega
    exact ⟨Nat.div_lt_of_lt_mul (by rwa [Nat.mul_comm]), Nat.mod_lt _ hn⟩
  have key := mistakes_le (n := m * n) (W := fun t q => W t (q / n) (q % n))
    (φ := fun t q => if bad t then side (y t) (r t) (q / n) * φ t (q % n) else 0)
    (y := fun _ => 1) (a := a) (R := 2 * R) (lr := lr) (a₀ := a₀) (u := fun q => u (q / n) (q % n)) (bad := bad) T (by linarith) l0 a0 ha
    (fun _ => one_pow 2)
    (fun t => by
      by_cases ht : bad t
      · simp only [if_pos ht]
        have e : ∑ q ∈ Finset.range (m * n), (side (y t) (r t) (q / n) * φ t (q % n)) ^ 2 = 2 * ∑ i ∈ Finset.range n, φ t i ^ 2 := by
          rw [sum_blocks m n fun k i => (side (y t) (r t) k * φ t i) ^ 2, ← side_sq (hy t) (hr t ht).1 (hr t ht).2, Finset.sum_mul]
          exact Finset.sum_congr rfl fun k _ => by rw [Finset.mul_sum]; exact Finset.sum_congr rfl fun i _ => by ring
        rw [e]
        linarith [hR t]
      · simp only [if_neg ht]
        simp
        linarith)
    (fun t ht hbt => by
      obtain ⟨h1, h2⟩ := hb t ht hbt
      simp only [if_pos hbt]
      refine ⟨?_, fun q hq => ?_⟩
      · rw [one_mul, inn t hbt (W t)]
        linarith
      · obtain ⟨p1, p2⟩ := pos q hq
        rw [h2 _ p1 _ p2]
        ring)
    (fun t ht hbt q hq => hg t ht hbt _ (pos q hq).1 _ (pos q hq).2)
  rw [sum_blocks m n fun k i => (lr * (2 * R) * u k i - W 0 k i) ^ 2] at key
  have e1 : ∑ t ∈ (Finset.range T).filter bad, missed 1 (∑ q ∈ Finset.range (m * n),
        (if bad t then side (y t) (r t) (q / n) * φ t (q % n) else 0) * u (q / n) (q % n)) =
      ∑ t ∈ (Finset.range T).filter bad,
        max 0 (1 - (∑ i ∈ Finset.range n, φ t i * u (y t) i - ∑ i ∈ Finset.range n, φ t i * u (r t) i)) := by
    refine Finset.sum_congr rfl fun t ht => ?_
    have hbt := (Finset.mem_filter.1 ht).2
    simp only [if_pos hbt]
    rw [inn t hbt u, missed, one_mul]
  rw [e1] at key
  have e2 : lr * (2 * R) = 2 * lr * R := by ring
  have e3 : lr ^ 2 * (2 * R) = 2 * lr ^ 2 * R := by ring
  rw [e2, e3] at key
  exact key

/-- Finitely many exceptions: none from some call on. -/
theorem eventually_not {bad : Nat → Prop} [DecidablePred bad] {H : ℝ} (h : ∀ T, (((Finset.range T).filter bad).card : ℝ) ≤ H) :
    ∃ T, ∀ t ≥ T, ¬ bad t := by
  have := eventually_correct (K := ℝ) (ys := fun _ => 1) (ps := fun t => if bad t then 0 else 1) (H := H) fun T => by
    have e : mistakes (fun _ => (1 : ℝ)) (fun t => if bad t then 0 else 1) T = (Finset.range T).filter bad := by
      rw [mistakes]
      refine Finset.filter_congr fun t _ => ?_
      rw [correct_real]
      by_cases hb : bad t <;> simp [hb]
    rw [e]
    exact h T
  obtain ⟨T, hT⟩ := this
  refine ⟨T, fun t ht hb => ?_⟩
  have := hT t ht
  rw [correct_real, if_pos hb] at this
  norm_num at this

/-! ### Exact arithmetic -/

section
variable {B I : Type} [Space B] [Basis B I ℝ]

theorem cellOf_inner {n k : Nat} {φ : Features ℝ} (hd : dim φ = n) {ws : List (List ℝ)} (hk : k < ws.length) :
    entry (ws.map (inner φ)) k = ∑ i ∈ Finset.range n, value φ i * cellOf ws k i := by
  unfold entry cellOf
  rw [List.getD_eq_getElem _ _ (by simpa using hk), List.getElem_map, inner_eq, hd, List.getD_eq_getElem _ _ hk]

/-- Updating one output. -/
theorem column_step {O : Type} [Optimiser O ℝ] {b : B} {n : Nat} {o : O} {rate : Features ℝ → ℝ}
    (hstep : ∀ (w : List ℝ) (φ : Features ℝ) (s : ℝ), Fits n φ → w.length = n →
      ∃ w', Optimiser.stepScaled o w φ s = .ok (.ok (), o, w') ∧ w'.length = n ∧ ∀ i < n, entry w' i = entry w i + rate φ * s * value φ i)
    {x : I} {φ : Features ℝ} (hp : Basis.project b x = .ok (.ok φ)) (hf : Fits n φ) {fa : VectorLFA B O ℝ} (hb : fa.basis = b)
    (ho : fa.optimiser = o) (hc : ∀ c ∈ fa.weights, c.length = n) {k : Nat} (hk : k < fa.weights.length) (s : ℝ) {fa' : VectorLFA B O ℝ}
    (h : fa.updateIndex x k s = .ok (.ok (), fa')) :
    fa'.basis = b ∧ fa'.optimiser = o ∧ fa'.weights.length = fa.weights.length ∧ (∀ c ∈ fa'.weights, c.length = n) ∧
    (∀ i < n, cellOf fa'.weights k i = cellOf fa.weights k i + rate φ * s * value φ i) ∧
    ∀ j, j ≠ k → ∀ i, cellOf fa'.weights j i = cellOf fa.weights j i := by
  obtain ⟨w', h1, h2, h3⟩ := hstep fa.weights[k] φ s hf (hc _ (List.getElem_mem hk))
  rw [vector_updateIndex_eq (by rw [hb]; exact hp) (List.getElem?_eq_getElem hk), ho, h1] at h
  have e := (Prod.mk.inj (Except.ok.inj h)).2
  rw [← e]
  refine ⟨hb, rfl, List.length_set, fun c hcm => ?_, fun i hi => ?_, fun j hj i => ?_⟩
  · rcases List.mem_or_eq_of_mem_set hcm with h | h
    · exact hc c h
    · rw [h, h2]
  · show entry ((fa.weights.set k w').getD k []) i = entry (fa.weights.getD k []) i + _
    rw [List.getD_eq_getElem _ _ (by rw [List.length_set]; exact hk), List.getElem_set_self, h3 i hi, List.getD_eq_getElem _ _ hk]
  · show entry ((fa.weights.set k w').getD j []) i = entry (fa.weights.getD j []) i
    rw [List.getD_eq_getElem?_getD, List.getD_eq_getElem?_getD, List.getElem?_set_ne (Ne.symm hj)]

/-- The states of a run, for an optimiser that adds `a φ` times the error. -/
theorem confusion_run {O : Type} [Optimiser O ℝ] {b : B} {m n : Nat} {o : O} {rate : Features ℝ → ℝ}
    (hstep : ∀ (w : List ℝ) (φ : Features ℝ) (s : ℝ), Fits n φ → w.length = n →
      ∃ w', Optimiser.stepScaled o w φ s = .ok (.ok (), o, w') ∧ w'.length = n ∧ ∀ i < n, entry w' i = entry w i + rate φ * s * value φ i)
    {xs : Nat → I} {φs : Nat → Features ℝ} (hp : ∀ t, Basis.project b (xs t) = .ok (.ok (φs t))) (hf : ∀ t, Fits n (φs t))
    {ys rs : Nat → Nat} (hy : ∀ t, ys t < m) {vs : Nat → List ℝ} {ws : List (List ℝ)} (hw : ws.length = m) (hc : ∀ c ∈ ws, c.length = n)
    {fas : Nat → VectorLFA B O ℝ} (h : LearnsClasses fas xs ys vs rs) (h0 : fas 0 = LFA.mk b ws o) (t : Nat) :
    (¬ Recognised (ys t) (vs t) → (rs t < m ∧ rs t ≠ ys t) ∧
      ∑ i ∈ Finset.range n, value (φs t) i * cellOf (fas t).weights (ys t) i ≤ ∑ i ∈ Finset.range n, value (φs t) i * cellOf (fas t).weights (rs t) i ∧
      ∀ k < m, ∀ i < n, cellOf (fas (t + 1)).weights k i =
        cellOf (fas t).weights k i + rate (φs t) * side (ys t) (rs t) k * value (φs t) i) ∧
    (Recognised (ys t) (vs t) → ∀ k < m, ∀ i < n, cellOf (fas (t + 1)).weights k i = cellOf (fas t).weights k i) := by
  have ev : ∀ t, ((fas t).basis = b ∧ (fas t).optimiser = o ∧ (fas t).weights.length = m ∧ ∀ c ∈ (fas t).weights, c.length = n) →
      vs t = (fas t).weights.map (inner (φs t)) := by
    rintro t ⟨h1, h2, h3, h4⟩
    have e := h.predicts t
    rw [vector_evaluate_eq (by rw [h1]; exact hp t), C04_matmul_real _ (hf t).1 _ fun c hc => (hf t).2.trans (h4 c hc).symm] at e
    exact (Except.ok.inj (Except.ok.inj e)).symm
  have upd : ∀ t, ((fas t).basis = b ∧ (fas t).optimiser = o ∧ (fas t).weights.length = m ∧ ∀ c ∈ (fas t).weights, c.length = n) →
      ¬ Recognised (ys t) (vs t) →
      ((fas (t + 1)).basis = b ∧ (fas (t + 1)).optimiser = o ∧ (fas (t + 1)).weights.length = m ∧ ∀ c ∈ (fas (t + 1)).weights, c.length = n) ∧
      ∀ k < m, ∀ i < n, cellOf (fas (t + 1)).weights k i =
        cellOf (fas t).weights k i + rate (φs t) * side (ys t) (rs t) k * value (φs t) i := by
    intro t hi hr
    obtain ⟨r1, r2, _⟩ := h.rival t hr
    rw [ev t hi, List.length_map, hi.2.2.1] at r1
    obtain ⟨h1, h2, h3, h4⟩ := hi
    obtain ⟨mid, u1, u2⟩ := h.wrong t hr
    obtain ⟨a1, a2, a3, a4, a5, a6⟩ := column_step hstep (hp t) (hf t) h1 h2 h4 (by rw [h3]; exact hy t) _ u1
    obtain ⟨b1, b2, b3, b4, b5, b6⟩ := column_step hstep (hp t) (hf t) a1 a2 a4 (by rw [a3, h3]; exact r1) _ u2
    refine ⟨⟨b1, b2, by rw [b3, a3, h3], b4⟩, fun k _ i hi => ?_⟩
    unfold side
    by_cases k1 : k = ys t
    · subst k1
      rw [b6 _ (Ne.symm r2), a5 i hi, if_pos rfl, real_one]
    · rw [if_neg k1]
      by_cases k2 : k = rs t
      · subst k2
        rw [b5 i hi, a6 _ k1, if_pos rfl, real_neg, real_one]
      · rw [b6 _ k2, a6 _ k1, if_neg k2]
        ring
  have inv : ∀ t, (fas t).basis = b ∧ (fas t).optimiser = o ∧ (fas t).weights.length = m ∧ ∀ c ∈ (fas t).weights, c.length = n := by
    intro t
    induction t with
    | zero => rw [h0]; exact ⟨rfl, rfl, hw, hc⟩
    | succ t ih =>
      by_cases hr : Recognised (ys t) (vs t)
      · rw [h.right t hr]; exact ih
      · exact (upd t ih hr).1
  refine ⟨fun hr => ?_, fun hr k _ i _ => by rw [h.right t hr]⟩
  obtain ⟨r1, r2, r3⟩ := h.rival t hr
  rw [ev t (inv t), List.length_map, (inv t).2.2.1] at r1
  refine ⟨⟨r1, r2⟩, ?_, (upd t (inv t) hr).2⟩
  rw [ev t (inv t), cellOf_inner (hf t).2 (by rw [(inv t).2.2.1]; exact r1), cellOf_inner (hf t).2 (by rw [(inv t).2.2.1]; exact hy t), real_lt,
    decide_eq_false_iff_not, not_lt] at r3
  exact r3

/-- SGD, any basis, any number of outputs, any starting weights and any learning rate, features of squared norm at most `R`. For all reference
weights `u`, one vector for each class, the number of mistakes is at most `‖w - 2 lr R u‖² / (2 lr² R)` plus twice what the output of the
label, computed with `u`, misses of a lead of 1 over that of the rival, on the mistakes. -/
theorem C203_sgd (b : B) (m n : Nat) (xs : Nat → I) (φs : Nat → Features ℝ) (hp : ∀ t, Basis.project b (xs t) = .ok (.ok (φs t)))
    (hf : ∀ t, Fits n (φs t)) (R : ℝ) (R0 : 0 < R) (hR : ∀ t, normSq (φs t) ≤ R) (ys rs : Nat → Nat) (hy : ∀ t, ys t < m) (vs : Nat → List ℝ)
    (lr : ℝ) (hlr : 0 < lr) (ws : List (List ℝ)) (hw : ws.length = m) (hc : ∀ c ∈ ws, c.length = n) (fas : Nat → VectorLFA B (SGD ℝ) ℝ)
    (h : LearnsClasses fas xs ys vs rs) (h0 : fas 0 = LFA.mk b ws (SGD.mk lr)) (u : Nat → Nat → ℝ) (T : Nat) :
    ((confusions ys vs T).card : ℝ) ≤
      (∑ k ∈ Finset.range m, ∑ i ∈ Finset.range n, (2 * lr * R * u k i - entry (ws.getD k []) i) ^ 2) / (2 * lr ^ 2 * R) +
      2 * ∑ t ∈ confusions ys vs T, max 0 (1 - (∑ i ∈ Finset.range n, value (φs t) i * u (ys t) i -
        ∑ i ∈ Finset.range n, value (φs t) i * u (rs t) i)) := by
  have hr := confusion_run (o := SGD.mk lr) (rate := fun _ => lr) (fun w φ s hf hw => sgd_real hf (SGD.mk lr) s hw) hp hf hy hw hc h h0
  have := confusions_le (m := m) (n := n) (W := fun t k i => cellOf (fas t).weights k i) (φ := fun t i => value (φs t) i) (y := ys) (r := rs)
    (a := fun _ => lr) (u := u) (bad := fun t => ¬ Recognised (ys t) (vs t)) T R0 hlr hlr (fun _ => ⟨le_rfl, le_rfl⟩)
    (fun t => by have := hR t; rw [normSq, (hf t).2] at this; simpa only [pow_two] using this) hy (fun t hb => ((hr t).1 hb).1)
    (fun t _ hb => ((hr t).1 hb).2) (fun t _ hb => (hr t).2 (not_not.1 hb))
  rw [div_self hlr.ne', one_mul, h0] at this
  exact this

/-- ISGD: the same times `1 + lr R`. -/
theorem C203_isgd (b : B) (m n : Nat) (xs : Nat → I) (φs : Nat → Features ℝ) (hp : ∀ t, Basis.project b (xs t) = .ok (.ok (φs t)))
    (hf : ∀ t, Fits n (φs t)) (R : ℝ) (R0 : 0 < R) (hR : ∀ t, normSq (φs t) ≤ R) (ys rs : Nat → Nat) (hy : ∀ t, ys t < m) (vs : Nat → List ℝ)
    (lr : ℝ) (hlr : 0 < lr) (ws : List (List ℝ)) (hw : ws.length = m) (hc : ∀ c ∈ ws, c.length = n) (fas : Nat → VectorLFA B (ISGD ℝ) ℝ)
    (h : LearnsClasses fas xs ys vs rs) (h0 : fas 0 = LFA.mk b ws (ISGD.mk lr)) (u : Nat → Nat → ℝ) (T : Nat) :
    ((confusions ys vs T).card : ℝ) ≤ (1 + lr * R) *
      ((∑ k ∈ Finset.range m, ∑ i ∈ Finset.range n, (2 * lr * R * u k i - entry (ws.getD k []) i) ^ 2) / (2 * lr ^ 2 * R) +
      2 * ∑ t ∈ confusions ys vs T, max 0 (1 - (∑ i ∈ Finset.range n, value (φs t) i * u (ys t) i -
        ∑ i ∈ Finset.range n, value (φs t) i * u (rs t) i))) := by
  have hr := confusion_run (o := ISGD.mk lr) (rate := fun φ => lr / (1 + lr * normSq φ)) (fun w φ s hf hw => isgd_real hf (ISGD.mk lr) s hw)
    hp hf hy hw hc h h0
  have n0 : ∀ t, 0 ≤ normSq (φs t) := fun t => Finset.sum_nonneg fun i _ => mul_self_nonneg _
  have := confusions_le (m := m) (n := n) (W := fun t k i => cellOf (fas t).weights k i) (φ := fun t i => value (φs t) i) (y := ys) (r := rs)
    (a := fun t => lr / (1 + lr * normSq (φs t))) (a₀ := lr / (1 + lr * R)) (u := u) (bad := fun t => ¬ Recognised (ys t) (vs t)) T R0 hlr
    (by positivity)
    (fun t => ⟨by
      have := mul_le_mul_of_nonneg_left (hR t) hlr.le
      have := mul_nonneg hlr.le (n0 t)
      exact div_le_div_of_nonneg_left hlr.le (by linarith) (by linarith), div_le_self hlr.le (by linarith [mul_nonneg hlr.le (n0 t)])⟩)
    (fun t => by have := hR t; rw [normSq, (hf t).2] at this; simpa only [pow_two] using this) hy (fun t hb => ((hr t).1 hb).1)
    (fun t _ hb => ((hr t).1 hb).2) (fun t _ hb => (hr t).2 (not_not.1 hb))
  rw [div_div_cancel₀ hlr.ne', h0] at this
  exact this

/-- When with `u` the output of the label always leads every other output by 1, a fresh approximator makes at most `2 R ‖u‖²` mistakes with
SGD, whatever the learning rate, the number of classes and the choice of rivals, and `1 + lr R` times that with ISGD; from some call on there
are no more mistakes. -/
theorem C203_separable (b : B) (m n : Nat) (xs : Nat → I) (φs : Nat → Features ℝ) (hp : ∀ t, Basis.project b (xs t) = .ok (.ok (φs t)))
    (hf : ∀ t, Fits n (φs t)) (R : ℝ) (R0 : 0 < R) (hR : ∀ t, normSq (φs t) ≤ R) (ys rs : Nat → Nat) (hy : ∀ t, ys t < m) (vs : Nat → List ℝ)
    (lr : ℝ) (hlr : 0 < lr) (u : Nat → Nat → ℝ) (hu : ∀ t, ∀ k < m, k ≠ ys t →
      ∑ i ∈ Finset.range n, value (φs t) i * u k i + 1 ≤ ∑ i ∈ Finset.range n, value (φs t) i * u (ys t) i) :
    (∀ fas : Nat → VectorLFA B (SGD ℝ) ℝ, LearnsClasses fas xs ys vs rs →
      fas 0 = LFA.mk b (List.replicate m (List.replicate n 0)) (SGD.mk lr) →
      (∀ T, ((confusions ys vs T).card : ℝ) ≤ 2 * R * ∑ k ∈ Finset.range m, ∑ i ∈ Finset.range n, u k i ^ 2) ∧
      ∃ T, ∀ t ≥ T, Recognised (ys t) (vs t)) ∧
    (∀ fas : Nat → VectorLFA B (ISGD ℝ) ℝ, LearnsClasses fas xs ys vs rs →
      fas 0 = LFA.mk b (List.replicate m (List.replicate n 0)) (ISGD.mk lr) →
      (∀ T, ((confusions ys vs T).card : ℝ) ≤ (1 + lr * R) * (2 * R * ∑ k ∈ Finset.range m, ∑ i ∈ Finset.range n, u k i ^ 2)) ∧
      ∃ T, ∀ t ≥ T, Recognised (ys t) (vs t)) := by
  have z : ∀ k i, entry ((List.replicate m (List.replicate n (0 : ℝ))).getD k []) i = 0 := fun k i => by
    rw [entry_real, List.getD_eq_getElem?_getD, List.getD_eq_getElem?_getD, List.getElem?_replicate]
    split
    · rw [Option.getD_some, List.getElem?_replicate]
      split <;> rfl
    · rfl
  have e1 : (∑ k ∈ Finset.range m, ∑ i ∈ Finset.range n,
      (2 * lr * R * u k i - entry ((List.replicate m (List.replicate n (0 : ℝ))).getD k []) i) ^ 2) / (2 * lr ^ 2 * R) =
      2 * R * ∑ k ∈ Finset.range m, ∑ i ∈ Finset.range n, u k i ^ 2 := by
    have : ∑ k ∈ Finset.range m, ∑ i ∈ Finset.range n,
        (2 * lr * R * u k i - entry ((List.replicate m (List.replicate n (0 : ℝ))).getD k []) i) ^ 2 =
        (2 * lr * R) ^ 2 * ∑ k ∈ Finset.range m, ∑ i ∈ Finset.range n, u k i ^ 2 := by
      simp only [Finset.mul_sum]
      exact Finset.sum_congr rfl fun k _ => Finset.sum_congr rfl fun i _ => by rw [z]; ring
    rw [this]
    field_simp
  have hm : ∀ c ∈ List.replicate m (List.replicate n (0 : ℝ)), c.length = n := fun c hc => by
    rw [(List.mem_replicate.1 hc).2, List.length_replicate]
  have e2 : ∀ (T : Nat), (∀ t, ¬ Recognised (ys t) (vs t) → rs t < m ∧ rs t ≠ ys t) →
      ∑ t ∈ confusions ys vs T, max 0 (1 - (∑ i ∈ Finset.range n, value (φs t) i * u (ys t) i -
        ∑ i ∈ Finset.range n, value (φs t) i * u (rs t) i)) = 0 := fun T hr =>
    Finset.sum_eq_zero fun t ht => max_eq_left (by
      obtain ⟨r1, r2⟩ := hr t (Finset.mem_filter.1 ht).2
      linarith [hu t _ r1 r2])
  have fin : ∀ H : ℝ, (∀ T, ((confusions ys vs T).card : ℝ) ≤ H) → ∃ T, ∀ t ≥ T, Recognised (ys t) (vs t) := fun H hH => by
    obtain ⟨T, hT⟩ := eventually_not (bad := fun t => ¬ Recognised (ys t) (vs t)) hH
    exact ⟨T, fun t ht => not_not.1 (hT t ht)⟩
  refine ⟨fun fas h h0 => ?_, fun fas h h0 => ?_⟩
  · have hr := confusion_run (o := SGD.mk lr) (rate := fun _ => lr) (fun w φ s hf hw => sgd_real hf (SGD.mk lr) s hw) hp hf hy (by simp) hm h h0
    have k : ∀ T, ((confusions ys vs T).card : ℝ) ≤ 2 * R * ∑ k ∈ Finset.range m, ∑ i ∈ Finset.range n, u k i ^ 2 := fun T => by
      have := C203_sgd b m n xs φs hp hf R R0 hR ys rs hy vs lr hlr _ (by simp) hm fas h h0 u T
      rwa [e1, e2 T fun t hb => ((hr t).1 hb).1, mul_zero, add_zero] at this
    exact ⟨k, fin _ k⟩
  · have hr := confusion_run (o := ISGD.mk lr) (rate := fun φ => lr / (1 + lr * normSq φ)) (fun w φ s hf hw => isgd_real hf (ISGD.mk lr) s hw)
      hp hf hy (by simp) hm h h0
    have k : ∀ T, ((confusions ys vs T).card : ℝ) ≤ (1 + lr * R) * (2 * R * ∑ k ∈ Finset.range m, ∑ i ∈ Finset.range n, u k i ^ 2) := fun T => by
      have := C203_isgd b m n xs φs hp hf R R0 hR ys rs hy vs lr hlr _ (by simp) hm fas h h0 u T
      rwa [e1, e2 T fun t hb => ((hr t).1 hb).1, mul_zero, add_zero] at this
    exact ⟨k, fin _ k⟩

end

/-! ### A table in `f64` -/

section
variable {M : Machine} {B I : Type} [Space B] [Basis B I (FP M)]

theorem zero_lt_pos {a : FP M} (h : Scalar.lt (Scalar.zero : FP M) a = true) :
    Scalar.lt (Scalar.neg a) Scalar.zero = true ∧ Scalar.lt (Scalar.neg a) a = true := by
  change XReal.lt (Scalar.zero : FP M).1 a.1 = true at h
  show XReal.lt (Scalar.neg a).1 (Scalar.zero : FP M).1 = true ∧ XReal.lt (Scalar.neg a).1 a.1 = true
  rw [val_zero] at h ⊢
  rw [val_neg]
  cases e : a.1 with
  | fin r =>
    rw [e] at h
    have h : (0 : ℝ) < r := of_decide_eq_true h
    exact ⟨decide_eq_true (by linarith : -r < 0), decide_eq_true (by linarith : -r < r)⟩
  | nan => rw [e] at h; cases h
  | pinf => exact ⟨rfl, rfl⟩
  | ninf => rw [e] at h; cases h

/-- A table, for an optimiser that adds `rate` times the error. -/
theorem table_confusions {O : Type} [Optimiser O (FP M)] (b : B) (m n : Nat) (X : I → Prop) (hb : IsTable (K := FP M) b n X) (xs : Nat → I)
    (hx : ∀ t, X (xs t)) (ys rs : Nat → Nat) (hy : ∀ t, ys t < m) (hc : ∀ s t, SameProjection (K := FP M) b (xs s) (xs t) → ys s = ys t)
    (vs : Nat → List (FP M)) (o : O) (lr : FP M) (ho : TableRate o n lr)
    (hlr : Scalar.lt Scalar.zero lr = true) (fas : Nat → VectorLFA B O (FP M)) (h : LearnsClasses fas xs ys vs rs)
    (h0 : fas 0 = LFA.mk b (List.replicate m (List.replicate n Scalar.zero)) o) :
    (∀ s t, s < t → SameProjection (K := FP M) b (xs s) (xs t) → ¬ Recognised (ys s) (vs s) → Recognised (ys t) (vs t)) ∧
    (∀ T, (confusions ys vs T).card ≤ n) ∧ ∃ T, ∀ t ≥ T, Recognised (ys t) (vs t) := by
  choose cell hcell hp using fun t => hb (xs t) (hx t)
  change ∀ t, Basis.project b (xs t) = .ok (.ok (oneHot (FP M) n (cell t))) at hp
  have hyc : ∀ s t, cell s = cell t → ys s = ys t := fun s t e => hc s t (by rw [SameProjection, hp, hp, e])
  obtain ⟨l1, l2⟩ := zero_lt_pos hlr
  have main : ∀ T, ∃ ws, fas T = LFA.mk b ws o ∧ ws.length = m ∧ (∀ c ∈ ws, c.length = n) ∧
      (∀ i, (∀ s < T, cell s = i → Recognised (ys s) (vs s)) → ∀ k, cellOf ws k i = Scalar.zero) ∧
      (∀ s < T, ¬ Recognised (ys s) (vs s) → ∀ k < m, k ≠ ys s → Scalar.lt (cellOf ws k (cell s)) (cellOf ws (ys s) (cell s)) = true) ∧
      vs T = ws.map fun c => entry c (cell T) := by
    have ev : ∀ T ws, fas T = LFA.mk b ws o → (∀ c ∈ ws, c.length = n) → vs T = ws.map fun c => entry c (cell T) :=
      fun T ws e hl => by
        have e1 := h.predicts T
        rw [e, table_evaluate exactOne_fp hl (hcell T) (hp T)] at e1
        exact (Except.ok.inj (Except.ok.inj e1)).symm
    intro T
    induction T with
    | zero =>
      have hl : ∀ c ∈ List.replicate m (List.replicate n (Scalar.zero : FP M)), c.length = n := fun c hc => by
        rw [(List.mem_replicate.1 hc).2, List.length_replicate]
      refine ⟨_, h0, List.length_replicate, hl, fun i _ k => ?_, fun s hs => absurd hs (Nat.not_lt_zero s), ev 0 _ h0 hl⟩
      unfold cellOf
      rw [List.getD_eq_getElem?_getD, List.getElem?_replicate]
      split
      · exact entry_replicate ..
      · rfl
    | succ T ih =>
      obtain ⟨ws, e, hm, hl, hz, hd, hv⟩ := ih
      by_cases hr : Recognised (ys T) (vs T)
      · have e' : fas (T + 1) = LFA.mk b ws o := (h.right T hr).trans e
        refine ⟨ws, e', hm, hl, fun i hi => hz i fun s hs => hi s (by omega), fun s hs hns => hd s ?_ hns, ev _ _ e' hl⟩
        rcases Nat.lt_succ_iff_lt_or_eq.1 hs with hs | rfl
        · exact hs
        · exact absurd hr hns
      · -- nothing was learnt in this cell before
        have fresh : ∀ s < T, cell s = cell T → Recognised (ys s) (vs s) := fun s hs hsT => by
          by_contra hns
          refine hr fun k hk hne => ?_
          rw [hv] at hk ⊢
          rw [List.length_map] at hk
          have hyT := hy T
          have := hd s hs hns k (by omega) (by rw [hyc s T hsT]; exact hne)
          rw [hsT, hyc s T hsT] at this
          unfold cellOf at this
          rw [List.getD_eq_getElem _ _ hk, List.getD_eq_getElem _ _ (by omega)] at this
          unfold entry at this ⊢
          rw [List.getD_eq_getElem _ _ (by simpa using hk), List.getD_eq_getElem _ _ (by simpa [hm] using hyT), List.getElem_map, List.getElem_map]
          exact this
        obtain ⟨r1, r2, _⟩ := h.rival T hr
        rw [hv, List.length_map] at r1
        obtain ⟨mid, u1, u2⟩ := h.wrong T hr
        obtain ⟨w1, a1, a2, a3, a4, a5⟩ := table_update ho hl (hcell T) (hp T) (by rw [hm]; exact hy T) Scalar.one
        rw [e, a1] at u1
        have em := (Prod.mk.inj (Except.ok.inj u1)).2
        obtain ⟨w2, b1, b2, b3, b4, b5⟩ := table_update ho a3 (hcell T) (hp T) (by rw [a2]; exact r1) (Scalar.neg Scalar.one)
        rw [← em, b1] at u2
        have e' := ((Prod.mk.inj (Except.ok.inj u2)).2).symm
        have z := hz (cell T) fresh
        have vy : cellOf w2 (ys T) (cell T) = lr := by
          rw [b5 _ _ fun hh => r2 (Prod.mk.inj hh).1.symm, a4, z, exactOne_fp, mul_one_scalar]
        have vr : cellOf w2 (rs T) (cell T) = Scalar.neg lr := by
          rw [b4, a5 _ _ fun hh => r2 (Prod.mk.inj hh).1, z, exactOne_fp]
          apply fp_ext
          rw [val_mul, val_neg, val_neg, val_one]
          have : XReal.mul lr.1 (XReal.neg (.fin 1)) = XReal.neg lr.1 := by
            have hne : lr.1 ≠ .ninf ∧ lr.1 ≠ .nan := by
              change XReal.lt (Scalar.zero : FP M).1 lr.1 = true at hlr
              rw [val_zero] at hlr
              constructor <;> intro hh <;> rw [hh] at hlr <;> cases hlr
            cases hl : lr.1 with
            | fin r => show XReal.fin (r * -1) = .fin (-r); rw [mul_neg_one]
            | nan => rfl
            | pinf => simp [XReal.mul, XReal.neg, XReal.infSign]
            | ninf => exact absurd hl hne.1
          rw [this, ← val_neg, round_self]
        have vo : ∀ k, k ≠ ys T → k ≠ rs T → cellOf w2 k (cell T) = Scalar.zero := fun k k1 k2 => by
          rw [b5 _ _ fun hh => k2 (Prod.mk.inj hh).1, a5 _ _ fun hh => k1 (Prod.mk.inj hh).1, z]
        have other : ∀ k i, i ≠ cell T → cellOf w2 k i = cellOf ws k i := fun k i hi => by
          rw [b5 _ _ fun hh => hi (Prod.mk.inj hh).2, a5 _ _ fun hh => hi (Prod.mk.inj hh).2]
        refine ⟨w2, e', by rw [b2, a2, hm], b3, fun i hi k => ?_, fun s hs hns k hk hne => ?_, ev _ _ e' b3⟩
        · have hiT : i ≠ cell T := fun hh => hr (hi T (by omega) hh.symm)
          rw [other k i hiT]
          exact hz i (fun s hs => hi s (by omega)) k
        · rcases Nat.lt_succ_iff_lt_or_eq.1 hs with hs | rfl
          · have hsT : cell s ≠ cell T := fun hh => hns (fresh s hs hh)
            rw [other _ _ hsT, other _ _ hsT]
            exact hd s hs hns k hk hne
          · rw [vy]
            by_cases k2 : k = rs s
            · rw [k2, vr]; exact l2
            · rw [vo k hne k2]; exact hlr
  have once : ∀ s t, s < t → cell s = cell t → ¬ Recognised (ys s) (vs s) → Recognised (ys t) (vs t) := fun s t hst e hns => by
    obtain ⟨ws, _, hm, _, _, hd, hv⟩ := main t
    intro k hk hne
    rw [hv] at hk ⊢
    rw [List.length_map] at hk
    have hyt := hy t
    have := hd s hst hns k (by omega) (by rw [hyc s t e]; exact hne)
    rw [e, hyc s t e] at this
    unfold cellOf at this
    rw [List.getD_eq_getElem _ _ hk, List.getD_eq_getElem _ _ (by omega)] at this
    unfold entry at this ⊢
    rw [List.getD_eq_getElem _ _ (by simpa using hk), List.getD_eq_getElem _ _ (by simpa [hm] using hyt), List.getElem_map, List.getElem_map]
    exact this
  have card : ∀ T, (confusions ys vs T).card ≤ n := fun T => by
    have := Finset.card_le_card_of_injOn (s := confusions ys vs T) (t := Finset.range n) cell (fun t _ => by simpa using hcell t) (by
      intro s hs t ht e
      have hs := (Finset.mem_filter.1 hs).2
      have ht := (Finset.mem_filter.1 ht).2
      rcases lt_trichotomy s t with hlt | heq | hgt
      · exact absurd (once s t hlt e hs) ht
      · exact heq
      · exact absurd (once t s hgt e.symm ht) hs)
    rwa [Finset.card_range] at this
  refine ⟨fun s t hst e => once s t hst (oneHot_inj (by rw [← hp s, ← hp t]; exact e)), card, ?_⟩
  obtain ⟨T, hT⟩ := eventually_not (bad := fun t => ¬ Recognised (ys t) (vs t)) (H := n) fun T => by exact_mod_cast card T
  exact ⟨T, fun t ht => not_not.1 (hT t ht)⟩

/-- A table of `n` cells, such as a uniform grid, whatever the rounding, with SGD and any positive learning rate; the class depends on the
cell only. A fresh approximator makes at most one mistake in each cell, whatever the choice of rivals: there are at most `n` mistakes over all
time and from some call on there are none. -/
theorem C203_table (b : B) (m n : Nat) (X : I → Prop) (hb : IsTable (K := FP M) b n X) (xs : Nat → I) (hx : ∀ t, X (xs t)) (ys rs : Nat → Nat)
    (hy : ∀ t, ys t < m) (hc : ∀ s t, SameProjection (K := FP M) b (xs s) (xs t) → ys s = ys t) (vs : Nat → List (FP M)) (lr : FP M)
    (hlr : Scalar.lt Scalar.zero lr = true) (fas : Nat → VectorLFA B (SGD (FP M)) (FP M)) (h : LearnsClasses fas xs ys vs rs)
    (h0 : fas 0 = LFA.mk b (List.replicate m (List.replicate n Scalar.zero)) (SGD.mk lr)) :
    (∀ s t, s < t → SameProjection (K := FP M) b (xs s) (xs t) → ¬ Recognised (ys s) (vs s) → Recognised (ys t) (vs t)) ∧
    (∀ T, (confusions ys vs T).card ≤ n) ∧ ∃ T, ∀ t ≥ T, Recognised (ys t) (vs t) :=
  table_confusions b m n X hb xs hx ys rs hy hc vs _ lr (sgd_tableRate n lr) hlr fas h h0

/-- The same with ISGD in `f64`, at any finite rate from `2^-1000` to `2^900`. -/
theorem C203_table_isgd (hM : M.rnd = binary64Format.rnd) (b : B) (m n : Nat) (X : I → Prop) (hb : IsTable (K := FP M) b n X) (xs : Nat → I)
    (hx : ∀ t, X (xs t)) (ys rs : Nat → Nat) (hy : ∀ t, ys t < m) (hc : ∀ s t, SameProjection (K := FP M) b (xs s) (xs t) → ys s = ys t)
    (vs : Nat → List (FP M)) (lr : FP M) (l : ℝ) (hlr : Is lr l) (l0 : 2 ^ (-1000 : ℤ) ≤ l) (l1 : l ≤ 2 ^ 900)
    (fas : Nat → VectorLFA B (ISGD (FP M)) (FP M)) (h : LearnsClasses fas xs ys vs rs)
    (h0 : fas 0 = LFA.mk b (List.replicate m (List.replicate n Scalar.zero)) (ISGD.mk lr)) :
    (∀ s t, s < t → SameProjection (K := FP M) b (xs s) (xs t) → ¬ Recognised (ys s) (vs s) → Recognised (ys t) (vs t)) ∧
    (∀ T, (confusions ys vs T).card ≤ n) ∧ ∃ T, ∀ t ≥ T, Recognised (ys t) (vs t) := by
  refine table_confusions b m n X hb xs hx ys rs hy hc vs _ _ (isgd_tableRate n (ISGD.mk lr)) ?_ fas h h0
  have lp : 0 < l := lt_of_lt_of_le (by positivity) l0
  have v1 : real (value (oneHot (FP M) 1 0) 0) = 1 := is_real val_one
  have es : ∑ i ∈ Finset.range (dim (oneHot (FP M) 1 0)), real (value (oneHot (FP M) 1 0) i) ^ 2 = 1 := by
    show ∑ i ∈ Finset.range 1, _ = _
    rw [Finset.sum_range_one, v1, one_pow]
  have fin : AllFinite (oneHot (FP M) 1 0) := fun i a ha => by
    rw [(Prod.mk.inj (List.mem_singleton.1 ha)).2]
    exact ⟨1, val_one⟩
  obtain ⟨c, hc, he⟩ := C161_rate hM (ISGD.mk lr) hlr lp.le l1 (oneHot (FP M) 1 0) (oneHot_fits one_pos).1
    fin (by norm_num [storedCount, oneHot]) 1 es.symm (one_le_pow₀ (by norm_num)) (by
      rw [mul_one]; exact l1.trans (pow_le_pow_right₀ (by norm_num) (by norm_num)))
  show XReal.lt (Scalar.zero : FP M).1 ((ISGD.mk lr).computeLr (oneHot (FP M) 1 0)).1 = true
  rw [val_zero, hc]
  refine decide_eq_true ?_
  have hk : (storedCount (oneHot (FP M) 1 0) : ℝ) = 1 := by norm_num [storedCount, oneHot]
  rw [hk, mul_one] at he
  have h1 := (abs_le.1 he).1
  have hq : 2 ^ (-1001 : ℤ) ≤ l / (1 + l) := by
    have e : (2 : ℝ) ^ (-1000 : ℤ) = 2 * 2 ^ (-1001 : ℤ) := by rw [← zpow_one_add₀ (by norm_num)]; norm_num
    have h2 : (2 : ℝ) ^ (-1001 : ℤ) ≤ 1 / 2 := by
      rw [show (1 / 2 : ℝ) = 2 ^ (-1 : ℤ) by norm_num]
      exact zpow_le_zpow_right₀ (by norm_num) (by norm_num)
    rw [e] at l0
    rw [le_div_iff₀ (by linarith)]
    nlinarith [mul_le_mul_of_nonneg_right h2 lp.le]
  have hu : (4 * 1 + 14) * roundoff ≤ 1 / 2 := by norm_num [roundoff]
  have h3 := mul_le_mul_of_nonneg_right hu (show 0 ≤ l / (1 + l) by positivity)
  have ht : 4 * tiny ≤ 2 ^ (-1001 : ℤ) := by
    have e : 4 * tiny = 2 ^ (-1073 : ℤ) := by
      rw [tiny, show (4 : ℝ) = 2 ^ (2 : ℤ) by norm_num, ← zpow_add₀ (by norm_num)]
      norm_num
    rw [e]
    exact zpow_le_zpow_right₀ (by norm_num) (by norm_num)
  have := tiny_pos
  linarith

end

/-- Such runs exist, in any arithmetic and for any of the optimisers, from any weights, for all inputs and labels. -/
theorem C203_runs {K B O I : Type} [Scalar K] [Space B] [Basis B I K] [Optimiser O K] [HasSize O] [Safe (K := K) O] (b : B) (m n : Nat)
    (xs : Nat → I) (φs : Nat → Features K) (hp : ∀ t, Basis.project b (xs t) = .ok (.ok (φs t))) (hf : ∀ t, Fits n (φs t)) (ys : Nat → Nat)
    (hy : ∀ t, ys t < m) (ws : List (List K)) (hw : ws.length = m) (hc : ∀ c ∈ ws, c.length = n) (o : O) (ho : HasSize.sized n o) :
    ∃ (fas : Nat → VectorLFA B O K) (vs : Nat → List K) (rs : Nat → Nat), LearnsClasses fas xs ys vs rs ∧ fas 0 = LFA.mk b ws o := by
  classical
  let S := { q : O × List (List K) // HasSize.sized n q.1 ∧ q.2.length = m ∧ ∀ c ∈ q.2, c.length = n }
  have hd : ∀ (t : Nat) (q : S), ∃ v : List K, VectorLFA.evaluate (LFA.mk b q.1.2 q.1.1) (xs t) = .ok (.ok v) ∧ v.length = m := by
    rintro t ⟨⟨o, ws⟩, h1, h2, h3⟩
    obtain ⟨v, hv⟩ := matmul_safe (hf t) h3
    refine ⟨v, ?_, (matmul_columns _ _ _ hv).1.trans h2⟩
    rw [vector_evaluate_eq (fa := LFA.mk b ws o) (hp t)]
    show (Features.matmul (φs t) ws).map Except.ok = _
    rw [hv]
    rfl
  choose pred hpred using hd
  have hs : ∀ (t k : Nat) (s : K) (q : S), k < m → ∃ q' : S,
      VectorLFA.updateIndex (LFA.mk b q.1.2 q.1.1) (xs t) k s = .ok (.ok (), LFA.mk b q'.1.2 q'.1.1) := by
    rintro t k s ⟨⟨o, ws⟩, h1, h2, h3⟩ hk
    have hk' : k < ws.length := by rw [h2]; exact hk
    obtain ⟨o', w', s1, s2, s3⟩ := Safe.scaled (K := K) s h1 (h3 _ (List.getElem_mem hk')) (hf t)
    refine ⟨⟨(o', ws.set k w'), s2, List.length_set.trans h2, fun c hc => ?_⟩, ?_⟩
    · rcases List.mem_or_eq_of_mem_set hc with h | h
      · exact h3 c h
      · rw [h, s3]
    · rw [vector_updateIndex_eq (fa := LFA.mk b ws o) (hp t) (List.getElem?_eq_getElem hk')]
      show (Optimiser.stepScaled o ws[k] (φs t) s).map _ = _
      rw [s1]
      rfl
  choose! next hnext using hs
  have hrv : ∀ (t : Nat) (v : List K), ∃ r, ¬ Recognised (ys t) v → r < v.length ∧ r ≠ ys t ∧ Scalar.lt (entry v r) (entry v (ys t)) = false := by
    intro t v
    by_cases hr : Recognised (ys t) v
    · exact ⟨0, fun hn => absurd hr hn⟩
    · have hr' := hr
      unfold Recognised at hr'
      push Not at hr'
      obtain ⟨r, r1, r2, r3⟩ := hr'
      exact ⟨r, fun _ => ⟨r1, r2, by simpa using r3⟩⟩
  choose rv hrival using hrv
  let st : Nat → S := fun k => Nat.rec ⟨(o, ws), ho, hw, hc⟩ (fun t q => if Recognised (ys t) (pred t q) then q else
    next t (rv t (pred t q)) (Scalar.neg Scalar.one) (next t (ys t) Scalar.one q)) k
  refine ⟨fun k => LFA.mk b (st k).1.2 (st k).1.1, fun k => pred k (st k), fun k => rv k (pred k (st k)),
    ⟨fun t => (hpred t (st t)).1, fun t hr => hrival t _ hr, fun t hr => ?_, fun t hr => ?_⟩, rfl⟩
  · have e : st (t + 1) = next t (rv t (pred t (st t))) (Scalar.neg Scalar.one) (next t (ys t) Scalar.one (st t)) := if_neg hr
    refine ⟨_, hnext t (ys t) Scalar.one (st t) (hy t), ?_⟩
    rw [e]
    exact hnext t _ _ _ (by have := (hrival t _ hr).1; rwa [(hpred t (st t)).2] at this)
  · have e : st (t + 1) = st t := if_pos hr
    simp only [e]

/-- The hypotheses are met: three cells in `f64`, visited in turn, each a class of its own, rate 1. There is such a run, and it makes at most
three mistakes. -/
theorem C203_example :
    let b : Closure Nat (FP binary64) := ⟨3, fun k => .ok (.ok (.sparse ⟨3, [(k % 3, Scalar.one)]⟩))⟩
    let zeros : List (FP binary64) := [Scalar.zero, Scalar.zero, Scalar.zero]
    ∃ (fas : Nat → VectorLFA (Closure Nat (FP binary64)) (SGD (FP binary64)) (FP binary64)) (vs : Nat → List (FP binary64)) (rs : Nat → Nat),
      LearnsClasses fas (fun t => t) (fun t => t % 3) vs rs ∧ fas 0 = LFA.mk b [zeros, zeros, zeros] (SGD.mk Scalar.one) ∧
      (∀ T, (confusions (fun t => t % 3) vs T).card ≤ 3) ∧ ∃ T, ∀ t ≥ T, Recognised (t % 3) (vs t) := by
  intro b zeros
  have hp : ∀ t : Nat, Basis.project b t = .ok (.ok (oneHot (FP binary64) 3 (t % 3))) := fun t => rfl
  have hb : IsTable (K := FP binary64) b 3 (fun _ : Nat => True) := fun t _ => ⟨t % 3, Nat.mod_lt _ (by norm_num), hp t⟩
  have hy : ∀ t : Nat, t % 3 < 3 := fun t => Nat.mod_lt _ (by norm_num)
  obtain ⟨fas, vs, rs, h, h0⟩ := C203_runs (O := SGD (FP binary64)) b 3 3 (fun t => t) _ hp (fun t => oneHot_fits (hy t)) (fun t => t % 3) hy
    [zeros, zeros, zeros] rfl (fun c hc => by simp at hc; rw [hc]; rfl) (SGD.mk Scalar.one) trivial
  refine ⟨fas, vs, rs, h, h0, ?_⟩
  refine (C203_table b 3 3 _ hb (fun t => t) (fun _ => trivial) (fun t => t % 3) rs hy (fun s t hst => ?_) vs Scalar.one ?_ fas h h0).2
  · exact oneHot_inj (by rw [← hp s, ← hp t]; exact hst)
  · show XReal.lt (Scalar.zero : FP binary64).1 (Scalar.one : FP binary64).1 = true
    rw [val_zero, val_one]
    exact decide_eq_true one_pos

end Lfa

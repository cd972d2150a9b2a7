import Verif.Props.C203

/-!
# C203 in `f64`, for integer features

With a power of two as learning rate and integer features of moderate size, learning several classes from mistakes is exact in double
precision: all sums are integers below `2⁵³`, in every order. So the bound on the number of mistakes holds as it is.
-/

set_option linter.unusedSectionVars false

namespace Lfa

open Spec Features Machine

section
variable {M : Machine} {B I : Type} [Space B] [Basis B I (FP M)]

theorem dot_exact (hM : M.rnd = binary64Format.rnd) {φ : Features (FP M)} {w : List (FP M)} (hf : Fits w.length φ) (A W : Nat → ℤ) (p q : ℤ)
    (h1 : -1074 ≤ p + q) (h2 : p + q ≤ 900) (hA : ∀ i < w.length, Is (value φ i) (A i * 2 ^ p))
    (hW : ∀ i < w.length, Is (entry w i) (W i * 2 ^ q)) (hb : ∑ i ∈ Finset.range w.length, |A i * W i| ≤ 2 ^ 53) :
    ∃ v, φ.dot w = .ok v ∧ Is v ((∑ i ∈ Finset.range w.length, A i * W i : ℤ) * 2 ^ (p + q)) := by
  let b : Closure Unit (FP M) := ⟨w.length, fun _ => .ok (.ok φ)⟩
  obtain ⟨v, e, hv⟩ := C109_exact hM (LFA.mk b w (SGD.mk (Scalar.one : FP M))) () φ rfl hf A W p q h1 h2 hA hW hb
  refine ⟨v, ?_, hv⟩
  rw [scalar_evaluate_eq (φ := φ) rfl] at e
  cases hd : φ.dot w with
  | ok v' =>
    change (φ.dot w).map Except.ok = _ at e
    rw [hd] at e
    rw [Except.ok.inj (Except.ok.inj e)]
  | error p =>
    change (φ.dot w).map Except.ok = _ at e
    rw [hd] at e
    cases e

/-- The same for the product with a column of a matrix, which ndarray adds up in another order. -/
theorem dotColumn_exact (hM : M.rnd = binary64Format.rnd) (m : Nat) {φ : Features (FP M)} {w : List (FP M)} (hf : Fits w.length φ)
    (A W : Nat → ℤ) (p q : ℤ) (h1 : -1074 ≤ p + q) (h2 : p + q ≤ 900) (hA : ∀ i < w.length, Is (value φ i) (A i * 2 ^ p))
    (hW : ∀ i < w.length, Is (entry w i) (W i * 2 ^ q)) (hb : ∑ i ∈ Finset.range w.length, |A i * W i| ≤ 2 ^ 53) :
    ∃ v, φ.dotColumn m w = .ok v ∧ Is v ((∑ i ∈ Finset.range w.length, A i * W i : ℤ) * 2 ^ (p + q)) := by
  have key := dot_exact hM hf A W p q h1 h2 hA hW hb
  cases φ with
  | sparse sa => exact key
  | dense da =>
    by_cases hm : m = 1 ∨ w.length ≤ 1
    · show ∃ v, (if m = 1 ∨ w.length ≤ 1 then arrayDot da w else stridedDot da w) = .ok v ∧ _
      rw [if_pos hm]
      exact key
    · show ∃ v, (if m = 1 ∨ w.length ≤ 1 then arrayDot da w else stridedDot da w) = .ok v ∧ _
      rw [if_neg hm]
      have hl : da.length = w.length := hf.2
      refine ⟨_, by unfold stridedDot; rw [if_pos hl], ?_⟩
      rw [foldl_tree (fun e : FP M => e)]
      have e : (List.zipWith (fun x y => x *. y) da w).map (fun e : FP M => e) =
          (List.range w.length).map fun i => value (.dense da) i *. entry w i := by
        rw [List.map_id']
        apply List.ext_getElem
        · simp [hl]
        · intro i hi hi'
          simp at hi
          rw [List.getElem_map, List.getElem_zipWith, List.getElem_range, ← getElem_entry hi.2]
          show _ = entry da i *. _
          rw [← getElem_entry hi.1]
      rw [e]
      have hlen : (List.zipWith (fun x y => x *. y) da w).length = (List.range w.length).length := by simp [hl]
      rw [hlen]
      have := tree_exact_list hM (List.range w.length) (fun i => value (.dense da) i *. entry w i) (fun i => A i * W i) h1 h2
        (fun i hi => by
          have hi := List.mem_range.1 hi
          refine exact_mul hM (hA i hi) (hW i hi) ?_ h1 h2
          exact (Finset.single_le_sum (f := fun i => |A i * W i|) (fun j _ => abs_nonneg _) (Finset.mem_range.2 hi)).trans hb)
        (by rw [← sum_range_list _ fun i => |A i * W i|]; exact hb)
        (t := leftTree (List.range w.length).length) (by rw [leftTree_terms])
      rw [← sum_range_list] at this
      exact this

/-- Updating one output with SGD, in any arithmetic. -/
theorem column_sgd {K B I : Type} [Scalar K] [Space B] [Basis B I K] {b : B} {n : Nat} {lr : K} {x : I} {φ : Features K}
    (hp : Basis.project b x = .ok (.ok φ)) (hf : Fits n φ) {fa : VectorLFA B (SGD K) K} (hb : fa.basis = b)
    (ho : fa.optimiser = SGD.mk lr) (hc : ∀ c ∈ fa.weights, c.length = n) {k : Nat} (hk : k < fa.weights.length) (s : K)
    {fa' : VectorLFA B (SGD K) K} (h : fa.updateIndex x k s = .ok (.ok (), fa')) :
    (fa'.basis = b ∧ fa'.optimiser = SGD.mk lr ∧ fa'.weights.length = fa.weights.length ∧ ∀ c ∈ fa'.weights, c.length = n) ∧
    (∀ i < n, (∀ a, Stored φ i a → cellOf fa'.weights k i = (cellOf fa.weights k i +. lr *. s *. a)) ∧
      (¬ Active φ i → cellOf fa'.weights k i = cellOf fa.weights k i)) ∧
    ∀ j, j ≠ k → ∀ i, cellOf fa'.weights j i = cellOf fa.weights j i := by
  obtain ⟨w', h1, h2, h3⟩ := sgd_scaled hf (SGD.mk lr) s (hc _ (List.getElem_mem hk))
  rw [vector_updateIndex_eq (by rw [hb]; exact hp) (List.getElem?_eq_getElem hk), ho, h1] at h
  have e := (Prod.mk.inj (Except.ok.inj h)).2
  rw [← e]
  have e1 : ∀ i, cellOf (fa.weights.set k w') k i = entry w' i := fun i => by
    rw [cellOf, List.getD_eq_getElem _ _ (by rw [List.length_set]; exact hk), List.getElem_set_self]
  have e2 : ∀ i, cellOf fa.weights k i = entry fa.weights[k] i := fun i => by rw [cellOf, List.getD_eq_getElem _ _ hk]
  refine ⟨⟨hb, rfl, List.length_set, fun c hcm => ?_⟩, fun i hi => ?_, fun j hj i => ?_⟩
  · rcases List.mem_or_eq_of_mem_set hcm with h | h
    · exact hc c h
    · rw [h, h2]
  · show (∀ a, Stored φ i a → cellOf (fa.weights.set k w') k i = _) ∧ (_ → cellOf (fa.weights.set k w') k i = _)
    rw [e1, e2]
    exact h3 i hi
  · show entry ((fa.weights.set k w').getD j []) i = entry (fa.weights.getD j []) i
    rw [List.getD_eq_getElem?_getD, List.getD_eq_getElem?_getD, List.getElem?_set_ne (Ne.symm hj)]

/-- One weight, exactly. -/
theorem tally_step (hM : M.rnd = binary64Format.rnd) {n i : Nat} {φ : Features (FP M)} (hf : Fits n φ) {w w' s lr : FP M}
    {W S A R l : ℤ} (hl1 : -1074 ≤ l) (hl2 : l ≤ 900) (hlr : Is lr (2 ^ l)) (hs : Is s S) (hS : |S| = 1) (hA : Is (value φ i) A)
    (hw : Is w (W * 2 ^ l)) (hAR : |A| ≤ R) (hR : |W| + R ≤ 2 ^ 53)
    (h : (∀ a, Stored φ i a → w' = (w +. lr *. s *. a)) ∧ (¬ Active φ i → w' = w)) : Is w' ((W + S * A : ℤ) * 2 ^ l) := by
  have hSA : |S * A| ≤ R := by rw [abs_mul, hS, one_mul]; exact hAR
  have hW0 := abs_nonneg W
  by_cases ha : Active φ i
  · obtain ⟨a, ha⟩ := ha
    rw [h.1 a ha]
    have hva : Is a A := by rw [← stored_value hf.1 ha]; exact hA
    have h1 : Is (lr *. s) ((1 * S : ℤ) * 2 ^ (l + 0)) := exact_mul hM (m := 1) (by rw [Int.cast_one, one_mul]; exact hlr)
      (int_is.1 hs) (by rw [one_mul, hS]; norm_num) (by omega) (by omega)
    have h2 : Is (lr *. s *. a) ((1 * S * A : ℤ) * 2 ^ (l + 0 + 0)) := exact_mul hM h1 (int_is.1 hva)
      (by rw [one_mul]; linarith) (by omega) (by omega)
    rw [one_mul, add_zero, add_zero] at h2
    exact exact_add hM hw h2 ((abs_add_le _ _).trans (by linarith)) hl1 hl2
  · rw [h.2 ha]
    have : A = 0 := by
      rw [inactive_value hf.1 ha] at hA
      exact_mod_cast is_fun hA (val_zero (M := M))
    rw [this, mul_zero, add_zero]
    exact hw

/-- SGD in `f64` with a power of two as learning rate and features that are integers of squared norm at most `R` in any basis, for any number
of outputs, from zero weights. If with some real weights `u` the output of the label always leads every other by 1 and
`R (2 R ‖u‖² + 1) ≤ 2⁵³`, there are at most `2 R ‖u‖²` mistakes over all time, whatever the choice of rivals and the orders of summation. -/
theorem C203_f64 (hM : M.rnd = binary64Format.rnd) (b : B) (m n : Nat) (xs : Nat → I) (φs : Nat → Features (FP M))
    (hp : ∀ t, Basis.project b (xs t) = .ok (.ok (φs t))) (hf : ∀ t, Fits n (φs t)) (A : Nat → Nat → ℤ) (R : ℤ) (R1 : 1 ≤ R)
    (hA : ∀ t, ∀ i < n, Is (value (φs t) i) (A t i)) (hR : ∀ t, ∑ i ∈ Finset.range n, A t i ^ 2 ≤ R)
    (ys rs : Nat → Nat) (hy : ∀ t, ys t < m) (vs : Nat → List (FP M)) (u : Nat → Nat → ℝ)
    (hu : ∀ t, ∀ k < m, k ≠ ys t → ∑ i ∈ Finset.range n, A t i * u k i + 1 ≤ ∑ i ∈ Finset.range n, A t i * u (ys t) i)
    (hb : R * (2 * R * ∑ k ∈ Finset.range m, ∑ i ∈ Finset.range n, u k i ^ 2 + 1) ≤ 2 ^ 53)
    (lr : FP M) (l : ℤ) (hl1 : -1074 ≤ l) (hl2 : l ≤ 900) (hlr : Is lr (2 ^ l)) (fas : Nat → VectorLFA B (SGD (FP M)) (FP M))
    (h : LearnsClasses fas xs ys vs rs) (h0 : fas 0 = LFA.mk b (List.replicate m (List.replicate n Scalar.zero)) (SGD.mk lr)) :
    (∀ T, ((confusions ys vs T).card : ℝ) ≤ 2 * R * ∑ k ∈ Finset.range m, ∑ i ∈ Finset.range n, u k i ^ 2) ∧
    ∃ T, ∀ t ≥ T, Recognised (ys t) (vs t) := by
  suffices k : ∀ T, ((confusions ys vs T).card : ℝ) ≤ 2 * R * ∑ k ∈ Finset.range m, ∑ i ∈ Finset.range n, u k i ^ 2 from by
    obtain ⟨T, hT⟩ := eventually_not (bad := fun t => ¬ Recognised (ys t) (vs t)) k
    exact ⟨k, T, fun t ht => not_not.1 (hT t ht)⟩
  have R1' : (1 : ℝ) ≤ R := by exact_mod_cast R1
  have o1 : Is (Scalar.one : FP M) ((1 : ℤ) : ℝ) := by rw [Int.cast_one]; exact val_one
  have o2 : Is (Scalar.neg Scalar.one : FP M) ((-1 : ℤ) : ℝ) := by
    rw [Int.cast_neg, Int.cast_one]
    show (Scalar.neg (Scalar.one : FP M)).1 = _
    rw [val_neg, val_one]; rfl
  -- shapes
  have len_vs : ∀ t, ((fas t).basis = b ∧ (fas t).optimiser = SGD.mk lr ∧ (fas t).weights.length = m ∧ ∀ c ∈ (fas t).weights, c.length = n) →
      (φs t).matmul (fas t).weights = .ok (vs t) ∧ (vs t).length = m := by
    rintro t ⟨s1, -, s3, s4⟩
    obtain ⟨v, hv⟩ := matmul_safe (hf t) s4
    have e := h.predicts t
    rw [vector_evaluate_eq (by rw [s1]; exact hp t), hv] at e
    have e : v = vs t := Except.ok.inj (Except.ok.inj e)
    rw [← e]
    exact ⟨hv, (matmul_columns _ _ _ hv).1.trans s3⟩
  have upd : ∀ t, ((fas t).basis = b ∧ (fas t).optimiser = SGD.mk lr ∧ (fas t).weights.length = m ∧ ∀ c ∈ (fas t).weights, c.length = n) →
      ¬ Recognised (ys t) (vs t) → (rs t < m ∧ rs t ≠ ys t) ∧
      ((fas (t + 1)).basis = b ∧ (fas (t + 1)).optimiser = SGD.mk lr ∧ (fas (t + 1)).weights.length = m ∧
        ∀ c ∈ (fas (t + 1)).weights, c.length = n) ∧
      (∀ i < n, (∀ a, Stored (φs t) i a → cellOf (fas (t + 1)).weights (ys t) i =
          (cellOf (fas t).weights (ys t) i +. lr *. Scalar.one *. a)) ∧
        (¬ Active (φs t) i → cellOf (fas (t + 1)).weights (ys t) i = cellOf (fas t).weights (ys t) i)) ∧
      (∀ i < n, (∀ a, Stored (φs t) i a → cellOf (fas (t + 1)).weights (rs t) i =
          (cellOf (fas t).weights (rs t) i +. lr *. Scalar.neg Scalar.one *. a)) ∧
        (¬ Active (φs t) i → cellOf (fas (t + 1)).weights (rs t) i = cellOf (fas t).weights (rs t) i)) ∧
      ∀ k, k ≠ ys t → k ≠ rs t → ∀ i, cellOf (fas (t + 1)).weights k i = cellOf (fas t).weights k i := by
    intro t hi hr
    obtain ⟨r1, r2, _⟩ := h.rival t hr
    rw [(len_vs t hi).2] at r1
    obtain ⟨s1, s2, s3, s4⟩ := hi
    obtain ⟨mid, u1, u2⟩ := h.wrong t hr
    obtain ⟨⟨a1, a2, a3, a4⟩, a5, a6⟩ := column_sgd (hp t) (hf t) s1 s2 s4 (by rw [s3]; exact hy t) _ u1
    obtain ⟨⟨b1, b2, b3, b4⟩, b5, b6⟩ := column_sgd (hp t) (hf t) a1 a2 a4 (by rw [a3, s3]; exact r1) _ u2
    refine ⟨⟨r1, r2⟩, ⟨b1, b2, by rw [b3, a3, s3], b4⟩, fun i hi => ?_, fun i hi => ?_, fun k k1 k2 i => by rw [b6 k k2, a6 k k1]⟩
    · rw [b6 _ (Ne.symm r2)]
      exact a5 i hi
    · rw [← a6 _ r2]
      exact b5 i hi
  have shape : ∀ t, (fas t).basis = b ∧ (fas t).optimiser = SGD.mk lr ∧ (fas t).weights.length = m ∧ ∀ c ∈ (fas t).weights, c.length = n := by
    intro t
    induction t with
    | zero =>
      rw [h0]
      exact ⟨rfl, rfl, List.length_replicate, fun c hc => by rw [(List.mem_replicate.1 hc).2, List.length_replicate]⟩
    | succ t ih =>
      by_cases hr : Recognised (ys t) (vs t)
      · rw [h.right t hr]; exact ih
      · exact (upd t ih hr).2.1
  -- the integers behind the weights
  set W : Nat → Nat → Nat → ℤ := fun t k i => errorTally (fun t => decide (¬ Recognised (ys t) (vs t)) && (decide (k = ys t) || decide (k = rs t)))
    (fun t => if k = ys t then 1 else -1) A t i with hW
  have W_bad : ∀ t, ¬ Recognised (ys t) (vs t) → rs t ≠ ys t → ∀ i, W (t + 1) (ys t) i = W t (ys t) i + 1 * A t i ∧
      W (t + 1) (rs t) i = W t (rs t) i + -1 * A t i ∧ ∀ k, k ≠ ys t → k ≠ rs t → W (t + 1) k i = W t k i := fun t hr hne i => by
    refine ⟨?_, ?_, fun k k1 k2 => ?_⟩
    · simp [hW, errorTally, hr]
    · simp [hW, errorTally, hr, hne]
    · simp [hW, errorTally, hr, k1, k2]
  have W_good : ∀ t, Recognised (ys t) (vs t) → ∀ k i, W (t + 1) k i = W t k i := fun t hr k i => by simp [hW, errorTally, hr]
  have size : ∀ T k, ∀ C : Nat → ℤ, ∑ i ∈ Finset.range n, C i ^ 2 ≤ R →
      ∑ i ∈ Finset.range n, |C i * W T k i| ≤ R * ((confusions ys vs T).card : ℤ) := fun T k C hC => by
    have h1 := errorTally_size (bad := fun t => decide (¬ Recognised (ys t) (vs t)) && (decide (k = ys t) || decide (k = rs t)))
      (Y := fun t => if k = ys t then 1 else -1) (fun t => by split_ifs <;> rfl) hR C hC T
    refine h1.trans (mul_le_mul_of_nonneg_left ?_ (by omega))
    have : ((Finset.range T).filter fun t => (decide (¬ Recognised (ys t) (vs t)) && (decide (k = ys t) || decide (k = rs t))) = true) ⊆
        confusions ys vs T := by
      intro t ht
      rw [Finset.mem_filter] at ht
      refine Finset.mem_filter.2 ⟨ht.1, ?_⟩
      have := (Bool.and_eq_true _ _ ▸ ht.2 : _ ∧ _).1
      exact of_decide_eq_true this
    exact_mod_cast Finset.card_le_card this
  -- the number of mistakes, while the decisions are those of exact arithmetic
  have count : ∀ T, (∀ t < T, ¬ Recognised (ys t) (vs t) →
        ∑ i ∈ Finset.range n, A t i * W t (ys t) i ≤ ∑ i ∈ Finset.range n, A t i * W t (rs t) i) →
      ((confusions ys vs T).card : ℝ) ≤ 2 * R * ∑ k ∈ Finset.range m, ∑ i ∈ Finset.range n, u k i ^ 2 := fun T hT => by
    have := confusions_le (m := m) (n := n) (W := fun t k i => (W t k i : ℝ)) (φ := fun t i => (A t i : ℝ)) (y := ys) (r := rs)
      (a := fun _ => 1) (R := R) (lr := 1) (a₀ := 1) (u := u) (bad := fun t => ¬ Recognised (ys t) (vs t)) T (by linarith) one_pos one_pos
      (fun _ => ⟨le_rfl, le_rfl⟩) (fun t => by exact_mod_cast hR t) hy (fun t hr => (upd t (shape t) hr).1)
      (fun t ht hr => ⟨by exact_mod_cast hT t ht hr, fun k _ i _ => by
        have hne := (upd t (shape t) hr).1.2
        obtain ⟨w1, w2, w3⟩ := W_bad t hr hne i
        unfold side
        by_cases k1 : k = ys t
        · subst k1
          rw [w1, if_pos rfl]; push_cast; ring
        · rw [if_neg k1]
          by_cases k2 : k = rs t
          · subst k2
            rw [w2, if_pos rfl]; push_cast; ring
          · rw [w3 k k1 k2, if_neg k2]; ring⟩)
      (fun t ht hr k _ i _ => by rw [W_good t (not_not.1 hr)])
    have e2 : ∑ t ∈ (Finset.range T).filter (fun t => ¬ Recognised (ys t) (vs t)),
        max 0 (1 - (∑ i ∈ Finset.range n, (A t i : ℝ) * u (ys t) i - ∑ i ∈ Finset.range n, (A t i : ℝ) * u (rs t) i)) = 0 :=
      Finset.sum_eq_zero fun t ht => max_eq_left (by
        obtain ⟨r1, r2⟩ := (upd t (shape t) (Finset.mem_filter.1 ht).2).1
        linarith [hu t _ r1 r2])
    have e3 : ∑ k ∈ Finset.range m, ∑ i ∈ Finset.range n, (2 * 1 * (R : ℝ) * u k i - (W 0 k i : ℝ)) ^ 2 =
        (2 * (R : ℝ)) ^ 2 * ∑ k ∈ Finset.range m, ∑ i ∈ Finset.range n, u k i ^ 2 := by
      simp only [Finset.mul_sum]
      exact Finset.sum_congr rfl fun k _ => Finset.sum_congr rfl fun i _ => by simp [hW, errorTally]; ring
    rw [e2, e3] at this
    refine this.trans (le_of_eq ?_)
    have : (R : ℝ) ≠ 0 := by linarith
    field_simp
    ring
  have main : ∀ T, (∀ k < m, ∀ i < n, Is (cellOf (fas T).weights k i) (W T k i * 2 ^ l)) ∧
      ∀ t < T, ¬ Recognised (ys t) (vs t) →
        ∑ i ∈ Finset.range n, A t i * W t (ys t) i ≤ ∑ i ∈ Finset.range n, A t i * W t (rs t) i := by
    intro T
    induction T with
    | zero =>
      refine ⟨fun k hk i hi => ?_, fun t ht => absurd ht (Nat.not_lt_zero t)⟩
      rw [h0]
      show Is (entry ((List.replicate m (List.replicate n (Scalar.zero : FP M))).getD k []) i) _
      have e : (W 0 k i : ℝ) * 2 ^ l = 0 := by simp [hW, errorTally]
      rw [List.getD_eq_getElem _ _ (by rwa [List.length_replicate]), List.getElem_replicate, entry_replicate, e]
      exact val_zero
    | succ T ih =>
      obtain ⟨i1, i2⟩ := ih
      have hN := count T i2
      have hNR : (R : ℝ) * (confusions ys vs T).card + R ≤ 2 ^ 53 := by
        have := mul_le_mul_of_nonneg_left hN (by linarith : (0 : ℝ) ≤ R)
        linarith
      have hNR' : R * ((confusions ys vs T).card : ℤ) + R ≤ 2 ^ 53 := by exact_mod_cast hNR
      -- the outputs
      have out : ∀ k < m, Is (entry (vs T) k) ((∑ i ∈ Finset.range n, A T i * W T k i : ℤ) * 2 ^ l) := fun k hk => by
        obtain ⟨s1, s2, s3, s4⟩ := shape T
        obtain ⟨hv, -⟩ := len_vs T (shape T)
        have hk' : k < (fas T).weights.length := by rw [s3]; exact hk
        have hcl : ((fas T).weights[k]).length = n := s4 _ (List.getElem_mem hk')
        obtain ⟨y, y1, y2⟩ := (matmul_columns _ _ _ hv).2 k _ (List.getElem?_eq_getElem hk')
        obtain ⟨v, v1, v2⟩ := dotColumn_exact hM (fas T).weights.length (φ := φs T) (w := (fas T).weights[k]) (by rw [hcl]; exact hf T)
          (A T) (W T k) 0 l (by omega) (by omega) (by rw [hcl]; intro i hi; rw [zpow_zero, mul_one]; exact hA T i hi)
          (by
            rw [hcl]
            intro i hi
            have := i1 k hk i hi
            rwa [cellOf, List.getD_eq_getElem _ _ hk'] at this)
          (by rw [hcl]; linarith [size T k (A T) (hR T)])
        rw [y2] at v1
        rw [hcl, zero_add] at v2
        have e : entry (vs T) k = v := by
          unfold entry
          rw [List.getD_eq_getElem?_getD, y1, Option.getD_some]
          exact Except.ok.inj v1
        rw [e]
        exact v2
      refine ⟨fun k hk i hi => ?_, fun t ht hr => ?_⟩
      · by_cases hr : Recognised (ys T) (vs T)
        · rw [h.right T hr, W_good T hr]
          exact i1 k hk i hi
        · obtain ⟨⟨r1, r2⟩, -, c1, c2, c3⟩ := upd T (shape T) hr
          obtain ⟨w1, w2, w3⟩ := W_bad T hr r2 i
          have hAi : |A T i| ≤ R := by
            have h1 : A T i ^ 2 ≤ R := (Finset.single_le_sum (f := fun i => A T i ^ 2) (fun i _ => sq_nonneg _) (Finset.mem_range.2 hi)).trans (hR T)
            rw [← sq_abs] at h1
            nlinarith [abs_nonneg (A T i)]
          have hWi : |W T k i| ≤ R * ((confusions ys vs T).card : ℤ) := by
            have h1 := size T k (fun j => if j = i then 1 else 0) (by
              have : ∑ j ∈ Finset.range n, (if j = i then (1 : ℤ) else 0) ^ 2 = 1 := by
                rw [Finset.sum_eq_single i (fun j _ hj => by rw [if_neg hj]; norm_num) fun hn => absurd (Finset.mem_range.2 hi) hn, if_pos rfl]
                norm_num
              rw [this]; exact R1)
            have h2 := Finset.single_le_sum (f := fun j => |(if j = i then (1 : ℤ) else 0) * W T k j|) (fun j _ => abs_nonneg _) (Finset.mem_range.2 hi)
            simp only [if_true, one_mul] at h2
            exact h2.trans h1
          by_cases k1 : k = ys T
          · subst k1
            rw [w1]
            exact tally_step hM (hf T) hl1 hl2 hlr o1 rfl (hA T i hi) (i1 _ hk i hi) hAi (by linarith) (c1 i hi)
          · by_cases k2 : k = rs T
            · subst k2
              rw [w2]
              exact tally_step hM (hf T) hl1 hl2 hlr o2 rfl (hA T i hi) (i1 _ hk i hi) hAi (by linarith) (c2 i hi)
            · rw [w3 k k1 k2, c3 k k1 k2]
              exact i1 k hk i hi
      · rcases Nat.lt_succ_iff_lt_or_eq.1 ht with ht | rfl
        · exact i2 t ht hr
        · obtain ⟨r1, r2, r3⟩ := h.rival t hr
          rw [(len_vs t (shape t)).2] at r1
          have e1 := out _ r1
          have e2 := out _ (hy t)
          change XReal.lt (entry (vs t) (rs t)).1 (entry (vs t) (ys t)).1 = false at r3
          rw [e1, e2] at r3
          have r3 := of_decide_eq_false r3
          rw [mul_lt_mul_iff_left₀ (Format.two_zpow_pos l), not_lt] at r3
          exact_mod_cast r3
  exact fun T => count T (main T).2

end

/-- The hypotheses are met: two classes told apart by the sign of the second feature, in `f64`, rate 1/4. There is such a run, and it makes at
most two mistakes. -/
theorem C203_f64_example (lr : FP binary64) (hlr : Is lr (2 ^ (-2 : ℤ))) :
    let b : Closure Nat (FP binary64) := ⟨2, fun k => .ok (.ok (.dense [Scalar.one, if k % 2 = 0 then Scalar.one else Scalar.neg Scalar.one]))⟩
    let zeros : List (FP binary64) := [Scalar.zero, Scalar.zero]
    ∃ (fas : Nat → VectorLFA (Closure Nat (FP binary64)) (SGD (FP binary64)) (FP binary64)) (vs : Nat → List (FP binary64)) (rs : Nat → Nat),
      LearnsClasses fas (fun t => t) (fun t => t % 2) vs rs ∧ fas 0 = LFA.mk b [zeros, zeros] (SGD.mk lr) ∧
      (∀ T, ((confusions (fun t => t % 2) vs T).card : ℝ) ≤ 2) ∧ ∃ T, ∀ t ≥ T, Recognised (t % 2) (vs t) := by
  intro b zeros
  have hp : ∀ t : Nat, Basis.project b t =
      .ok (.ok (.dense [Scalar.one, if t % 2 = 0 then Scalar.one else Scalar.neg (Scalar.one : FP binary64)])) := fun t => rfl
  have hy : ∀ t : Nat, t % 2 < 2 := fun t => Nat.mod_lt _ (by norm_num)
  have hf : ∀ t : Nat, Fits 2 (.dense [Scalar.one, if t % 2 = 0 then Scalar.one else Scalar.neg (Scalar.one : FP binary64)]) :=
    fun t => ⟨trivial, rfl⟩
  obtain ⟨fas, vs, rs, h, h0⟩ := C203_runs (O := SGD (FP binary64)) b 2 2 (fun t => t) _ hp hf (fun t => t % 2) hy
    [zeros, zeros] rfl (fun c hc => by simp at hc; rw [hc]; rfl) (SGD.mk lr) trivial
  refine ⟨fas, vs, rs, h, h0, ?_⟩
  have key := C203_f64 rfl b 2 2 (fun t => t) _ hp hf (fun t i => if i = 0 then 1 else if t % 2 = 0 then 1 else -1) 2 (by norm_num)
    (fun t i hi => ?_) (fun t => ?_) (fun t => t % 2) rs hy vs (fun k i => if i = 0 then 0 else if k = 0 then 1 / 2 else -1 / 2)
    (fun t k hk hne => ?_) ?_ lr (-2) (by norm_num) (by norm_num) hlr fas h h0
  · refine ⟨fun T => (key.1 T).trans (le_of_eq ?_), key.2⟩
    simp [Finset.sum_range_succ]
    norm_num
  · interval_cases i
    · show Is (Scalar.one : FP binary64) _
      simp only [if_true, Int.cast_one]
      exact val_one
    · show Is (if t % 2 = 0 then Scalar.one else Scalar.neg (Scalar.one : FP binary64)) _
      rw [if_neg one_ne_zero]
      split_ifs
      · rw [Int.cast_one]; exact val_one
      · rw [Int.cast_neg, Int.cast_one]
        show (Scalar.neg (Scalar.one : FP binary64)).1 = _
        rw [val_neg, val_one]; rfl
  · by_cases e : t % 2 = 0 <;> simp [e]
  · have := hy t
    by_cases e : t % 2 = 0
    · have e' : k = 1 := by omega
      simp [Finset.sum_range_succ, e, e']
      norm_num
    · have e1 : t % 2 = 1 := by omega
      have e' : k = 0 := by omega
      simp [Finset.sum_range_succ, e1, e']
      norm_num
  · simp [Finset.sum_range_succ]
    norm_num

end Lfa

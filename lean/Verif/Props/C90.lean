import Verif.Proofs.Rounded

/-!
# C90: Adagrad under rounding

`M` is any machine that rounds like `f64`; its library functions and orders of summation are free.
-/

set_option linter.unusedSectionVars false

namespace Lfa

open Spec Machine XReal

variable {M : Machine}

/-! ## One parameter -/

/-- The accumulated square never shrinks and never becomes NaN. -/
theorem adagrad_acc {acc g : FP M} (ha : NonNeg acc) (hg : Finite g) :
    NonNeg (acc +. Scalar.powi g 2) ∧ Le acc (acc +. Scalar.powi g 2) ∧
      Le (g *. g) (acc +. Scalar.powi g 2) := by
  obtain ⟨r, hr⟩ := hg
  have hsq : XReal.fin 0 ≤ (g *. g).1 := by
    rw [val_mul, hr]
    exact round_nonneg (mul_self_nonneg r : (0 : ℝ) ≤ r * r)
  rw [powi_two]
  exact ⟨val_add_nonneg ha hsq, val_le_add_left ha hsq, val_le_add_right ha hsq⟩

/-- The denominator dominates the gradient. -/
theorem adagrad_denominator (hM : M.rnd = binary64Format.rnd) {acc g : FP M} {r : ℝ}
    (hr : Is g r) (hsq : Le (g *. g) acc) :
    XReal.fin |r| ≤ (Scalar.sqrt acc +. EPS).1 ∧ (Scalar.sqrt acc +. EPS).1 ≠ .fin 0 := by
  have heps := eps_binary64 hM
  have hpos := Format.two_zpow_pos (-511)
  have heps0 : XReal.fin 0 ≤ (EPS : FP M).1 := le_trans' (fin_le_fin.2 hpos.le) heps
  have hsq0 : XReal.fin 0 ≤ (g *. g).1 := by
    rw [val_mul, hr]
    exact round_nonneg (mul_self_nonneg r : (0 : ℝ) ≤ r * r)
  have hroot : (Scalar.sqrt (g *. g)).1 ≤ (Scalar.sqrt acc).1 := by
    rw [val_sqrt, val_sqrt]
    exact round_mono (sqrt_le_sqrt' hsq0 hsq)
  have hroot0 : XReal.fin 0 ≤ (Scalar.sqrt acc).1 := by
    have h0 : XReal.sqrt (.fin 0) = .fin 0 := by
      show (if (0 : ℝ) < 0 then _ else _) = _
      rw [if_neg (lt_irrefl _), Real.sqrt_zero]
    have := round_mono (M := M) (sqrt_le_sqrt' (le_refl (0 : ℝ)) (le_trans' hsq0 hsq))
    rwa [h0, round_fin_zero] at this
  have hle : (EPS : FP M).1 ≤ (Scalar.sqrt acc +. EPS).1 := val_le_add_right hroot0 heps0
  constructor
  · by_cases hk : r = 0 ∨ (2 : ℝ) ^ (-511 : ℤ) ≤ |r|
    · have := binary_sqrt_sq hM (by decide) hr hk (by decide) (by decide)
      rw [val_abs, hr] at this
      exact le_trans' this (le_trans' hroot (val_le_add_left hroot0 heps0))
    · rw [not_or, not_le] at hk
      exact le_trans' (fin_le_fin.2 hk.2.le) (le_trans' heps hle)
  · intro hc
    have := le_trans' heps hle
    rw [hc, fin_le_fin] at this
    linarith

/-- The new weight is finite and moves in the direction of the gradient. -/
theorem adagrad_weight (hM : M.rnd = binary64Format.rnd) {lr w acc g : FP M} (hlr : InUnit lr)
    (hw : Finite w) (ha : NonNeg acc) (hg : Finite g) :
    Finite (w +. lr *. g /. (Scalar.sqrt (acc +. Scalar.powi g 2) +. EPS)) ∧
      (NonNeg (lr *. g) → Le w (w +. lr *. g /. (Scalar.sqrt (acc +. Scalar.powi g 2) +. EPS))) ∧
      (NonPos (lr *. g) → Le (w +. lr *. g /. (Scalar.sqrt (acc +. Scalar.powi g 2) +. EPS)) w) := by
  obtain ⟨-, -, hsq⟩ := adagrad_acc ha hg
  obtain ⟨r, hr⟩ := hg
  obtain ⟨h1, h2⟩ := adagrad_denominator hM hr hsq
  obtain ⟨q, hq, hqr⟩ := mul_unit hlr hr
  obtain ⟨d, hd, hd1⟩ := div_bounded hq (le_trans' (fin_le_fin.2 hqr) h1) h2
  refine ⟨finite_add_unit hM hw ⟨d, hd, hd1⟩, ?_⟩
  generalize (Scalar.sqrt (acc +. Scalar.powi g 2) +. EPS) = z at h1 h2 hd ⊢
  obtain ⟨x, hx⟩ := hw
  have hsum : (w +. lr *. g /. z).1 = (M.round (.fin (x + d))).1 := by
    rw [val_add, hx, hd]; rfl
  -- the sign of the quotient
  have hsign : (0 ≤ q → 0 ≤ d) ∧ (q ≤ 0 → d ≤ 0) := by
    have e : (lr *. g /. z).1 = (M.round (XReal.div (.fin q) z.1)).1 := by rw [val_div, hq]
    rw [hd] at e
    rcases hz : z.1 with _ | _ | _ | c <;> rw [hz] at h1 h2 e
    · exact absurd h1 (le_nan _)
    · exact absurd h1 (fin_le_ninf _)
    · have e : XReal.fin d = M.rnd 0 := e
      rw [rnd_zero] at e
      injection e with e
      exact ⟨fun _ => e.ge, fun _ => e.le⟩
    · have hc : 0 < c := lt_of_le_of_ne (le_trans (abs_nonneg r) h1) fun h => h2 (by rw [← h])
      have e : XReal.fin d = (M.round (if c = 0 then _ else .fin (q / c))).1 := e
      rw [if_neg hc.ne'] at e
      constructor
      · intro h
        have := round_nonneg (M := M) (x := .fin (q / c)) (div_nonneg h hc.le : (0 : ℝ) ≤ q / c)
        rwa [← e] at this
      · intro h
        have := round_nonpos (M := M) (x := .fin (q / c)) (div_nonpos_of_nonpos_of_nonneg h hc.le : q / c ≤ (0 : ℝ))
        rwa [← e] at this
  unfold NonNeg NonPos Le
  rw [hq, hsum]
  constructor
  · intro h
    refine le_round ?_
    rw [hx]
    have := hsign.1 h
    exact fin_le_fin.2 (by linarith)
  · intro h
    refine round_le ?_
    rw [hx]
    have := hsign.2 h
    exact fin_le_fin.2 (by linarith)

/-! ## Steps and histories -/

/-- The gradient every parameter sees is finite. -/
theorem gradient_finite {φ : Features (FP M)} (hwf : WF φ) {s : FP M} (hs : Finite s)
    (h : ∀ i a, Stored φ i a → Finite (a *. s)) (i : Nat) : Finite (value φ i *. s) := by
  by_cases ha : Active φ i
  · obtain ⟨a, ha⟩ := ha
    rw [value_of_stored (keysUnique_of_wf hwf) ha]
    exact h i a ha
  · have : value φ i = Scalar.zero := by
      cases φ with
      | dense da =>
        show entry da i = _
        refine entry_of_ge ?_
        by_contra hc
        exact ha (active_dense (not_le.1 hc))
      | sparse sa =>
        rw [value_sparse, (not_active_sparse_iff hwf.1 i).1 ha]; rfl
    rw [this]
    exact zero_mul_fin hs

/-- One call: the accumulators grow, the weights stay finite, every weight moves in the direction of
the learning rate times its gradient. -/
theorem C90_step (hM : M.rnd = binary64Format.rnd) {n : Nat} (o : Adagrad (FP M))
    (hlr : InUnit o.learningRate) (ho : o.accumulator.length = n)
    (hacc : ∀ i < n, NonNeg (entry o.accumulator i)) (w : List (FP M)) (hw : w.length = n)
    (hfin : ∀ i < n, Finite (entry w i)) (φ : Features (FP M)) (hφ : Fits n φ) (s : FP M)
    (hs : Finite s) (hg : ∀ i a, Stored φ i a → Finite (a *. s)) :
    ∃ acc w', Optimiser.stepScaled o w φ s = .ok (.ok (), { o with accumulator := acc }, w') ∧
      acc.length = n ∧ w'.length = n ∧ ∀ i < n,
        NonNeg (entry acc i) ∧ Le (entry o.accumulator i) (entry acc i) ∧ Finite (entry w' i) ∧
        (NonNeg (o.learningRate *. (value φ i *. s)) → Le (entry w i) (entry w' i)) ∧
        (NonPos (o.learningRate *. (value φ i *. s)) → Le (entry w' i) (entry w i)) := by
  obtain ⟨acc, w', h1, h2, h3, h4⟩ := adagrad_scaled hφ o ho s hw
  refine ⟨acc, w', h1, h2, h3, fun i hi => ?_⟩
  obtain ⟨e1, e2⟩ := h4 i hi
  have hgi := gradient_finite hφ.1 hs hg i
  obtain ⟨a1, a2, -⟩ := adagrad_acc (hacc i hi) hgi
  rw [e1, e2]
  exact ⟨a1, a2, adagrad_weight hM hlr (hfin i hi) (hacc i hi) hgi⟩

/-- Adagrad with learning rate in `[-1, 1]` never leaves the finite numbers: after any number of
calls with finite gradients, however large, every weight is finite. -/
theorem C90_adagrad (hM : M.rnd = binary64Format.rnd) {n : Nat} (lr : FP M) (hlr : InUnit lr)
    (w : List (FP M)) (hw : w.length = n) (hfin : ∀ a ∈ w, Finite a) (es : List (Event (FP M)))
    (hes : ∀ e ∈ es, e.Fits n ∧ FiniteCall e) :
    ∃ o' w', History (Adagrad.new n lr) w es o' w' ∧ w'.length = n ∧ (∀ a ∈ w', Finite a) ∧
      ∀ a ∈ o'.accumulator, NonNeg a := by
  have key : ∀ (es : List (Event (FP M))) (o : Adagrad (FP M)) (w : List (FP M)),
      (∀ e ∈ es, e.Fits n ∧ FiniteCall e) → InUnit o.learningRate → o.accumulator.length = n →
      (∀ i < n, NonNeg (entry o.accumulator i)) → w.length = n → (∀ i < n, Finite (entry w i)) →
      ∃ o' w', History o w es o' w' ∧ w'.length = n ∧ o'.accumulator.length = n ∧
        (∀ i < n, Finite (entry w' i)) ∧ ∀ i < n, NonNeg (entry o'.accumulator i) := by
    intro es
    induction es with
    | nil => intro o w _ _ ho ha hw hf; exact ⟨o, w, .nil o w, hw, ho, hf, ha⟩
    | cons e es ih =>
      intro o w he hlr ho ha hw hf
      have het := fun e' h' => he e' (List.mem_cons_of_mem _ h')
      obtain ⟨hfit, hcall⟩ := he e List.mem_cons_self
      cases e with
      | step φ =>
        obtain ⟨acc, w₁, h1, h2, h3, h4⟩ := C90_step hM o hlr ho ha w hw hf φ hfit Scalar.one
          ⟨1, val_one⟩ (fun i a h => by rw [mul_one_scalar]; exact hcall i a h)
        obtain ⟨o', w', hh, r1, r2, r3, r4⟩ := ih { o with accumulator := acc } w₁ het hlr h2
          (fun i hi => (h4 i hi).1) h3 (fun i hi => (h4 i hi).2.2.1)
        exact ⟨o', w', .step h1 hh, r1, r2, r3, r4⟩
      | stepScaled φ s =>
        obtain ⟨acc, w₁, h1, h2, h3, h4⟩ := C90_step hM o hlr ho ha w hw hf φ hfit s hcall.1 hcall.2
        obtain ⟨o', w', hh, r1, r2, r3, r4⟩ := ih { o with accumulator := acc } w₁ het hlr h2
          (fun i hi => (h4 i hi).1) h3 (fun i hi => (h4 i hi).2.2.1)
        exact ⟨o', w', .stepScaled h1 hh, r1, r2, r3, r4⟩
      | reset =>
        obtain ⟨o', w', hh, r1, r2, r3, r4⟩ := ih (Optimiser.reset o) w het hlr (length_reset ho)
          (fun i hi => by
            show NonNeg (entry (o.accumulator.map fun _ => Scalar.zero) i)
            rw [entry_map _ (ho ▸ hi)]
            exact nonNeg_zero) hw hf
        exact ⟨o', w', .reset hh, r1, r2, r3, r4⟩
  have mem_entry : ∀ {l : List (FP M)} {P : FP M → Prop}, l.length = n →
      (∀ i < n, P (entry l i)) → ∀ a ∈ l, P a := by
    intro l P hl h a ha
    obtain ⟨i, hi, rfl⟩ := List.mem_iff_getElem.1 ha
    rw [getElem_entry hi]
    exact h i (hl ▸ hi)
  obtain ⟨o', w', h1, h2, h3, h4, h5⟩ := key es (Adagrad.new n lr) w hes hlr
    (List.length_replicate ..)
    (fun i hi => by
      show NonNeg (entry (List.replicate n Scalar.zero) i)
      rw [entry_replicate]; exact nonNeg_zero) hw
    (fun i hi => by
      rw [← getElem_entry (hw ▸ hi)]
      exact hfin _ (List.getElem_mem _))
  exact ⟨o', w', h1, h2, mem_entry h2 h4, mem_entry h3 h5⟩

/-- The hypotheses are met: two calls, the second with a negative scale. -/
example (hM : M.rnd = binary64Format.rnd) :
    ∃ o' w', History (Adagrad.new 1 (Scalar.one : FP M)) [Scalar.zero]
      [.step (.dense [Scalar.one]), .stepScaled (.dense [Scalar.one]) (Scalar.neg Scalar.one)] o' w' ∧
      w'.length = 1 ∧ (∀ a ∈ w', Finite a) ∧ ∀ a ∈ o'.accumulator, NonNeg a := by
  have hst : ∀ i a, Stored (.dense [(Scalar.one : FP M)]) i a → a = Scalar.one := by
    intro i a h
    have h : [(Scalar.one : FP M)][i]? = some a := h
    rcases i with _ | i
    · injection h with h; exact h.symm
    · simp at h
  have hneg : (Scalar.neg (Scalar.one : FP M)).1 = .fin (-1) := by rw [val_neg, val_one]; rfl
  refine C90_adagrad hM Scalar.one ⟨1, val_one, by simp⟩ _ rfl (fun a ha => by rw [List.mem_singleton.1 ha]; exact finite_zero) _ ?_
  intro e he
  simp only [List.mem_cons, List.not_mem_nil, or_false] at he
  rcases he with rfl | rfl
  · exact ⟨⟨trivial, rfl⟩, fun i a h => hst i a h ▸ ⟨1, val_one⟩⟩
  · refine ⟨⟨trivial, rfl⟩, ⟨-1, hneg⟩, fun i a h => ?_⟩
    rw [hst i a h]
    refine ⟨-1, ?_⟩
    show (Scalar.one *. Scalar.neg Scalar.one : FP M).1 = _
    rw [val_mul, val_one, hneg]
    show M.rnd (1 * -1) = _
    rw [one_mul, rnd_neg_one]

end Lfa

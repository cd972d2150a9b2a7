import Verif.Proofs.Rounded
import Verif.Props.C87

/-!
# C91: bounded gradients keep every optimiser finite

`M` is any machine that rounds like `f64`. Activations and gradients are bounded by `2 ^ 500`, the
number of calls is not bounded at all.
-/

set_option linter.unusedSectionVars false

namespace Lfa

open Spec Machine XReal

variable {M : Machine}

/-! ## Histories -/

theorem value_bounded {φ : Features (FP M)} (hwf : WF φ) {s : FP M} (hs : Finite s) {c : ℝ}
    (hc : 0 ≤ c) (h : ∀ i a, Stored φ i a → Bounded c a ∧ Bounded c (a *. s)) (i : Nat) :
    Bounded c (value φ i) ∧ Bounded c (value φ i *. s) := by
  by_cases ha : Active φ i
  · obtain ⟨a, ha⟩ := ha
    rw [value_of_stored (keysUnique_of_wf hwf) ha]
    exact h i a ha
  · have : value φ i = Scalar.zero := by
      cases φ with
      | dense da =>
        show entry da i = _
        refine entry_of_ge ?_
        by_contra hc
        exact ha (active_dense (not_le.1 hc))
      | sparse sa =>
        rw [value_sparse, (not_active_sparse_iff hwf.1 i).1 ha]; rfl
    rw [this]
    refine ⟨bounded_zero hc, 0, ?_, by rwa [abs_zero]⟩
    obtain ⟨r, hr⟩ := hs
    show (Scalar.zero *. s).1 = _
    rw [val_mul, val_zero, hr]
    show M.rnd (0 * r) = _
    rw [zero_mul, rnd_zero]

theorem of_entries {P : FP M → Prop} {n : Nat} {l : List (FP M)} (hl : l.length = n)
    (h : ∀ i < n, P (entry l i)) : ∀ a ∈ l, P a := by
  intro a ha
  obtain ⟨i, hi, rfl⟩ := List.mem_iff_getElem.1 ha
  rw [getElem_entry hi]
  exact h i (hl ▸ hi)

theorem to_entries {P : FP M → Prop} {n : Nat} {l : List (FP M)} (hl : l.length = n)
    (h : ∀ a ∈ l, P a) (i : Nat) (hi : i < n) : P (entry l i) := by
  rw [← getElem_entry (hl ▸ hi)]
  exact h _ (List.getElem_mem _)

/-- Calls that preserve an invariant of the optimiser and the finiteness of weights. -/
theorem history_finite {O : Type} [Optimiser O (FP M)] {n : Nat} (Inv : O → Prop)
    (hunit : ∀ (o : O) w φ, Optimiser.step o w φ = Optimiser.stepScaled o w φ Scalar.one)
    (hstep : ∀ (o : O) (w : List (FP M)) (φ : Features (FP M)) (s : FP M), Inv o → w.length = n →
      (∀ i < n, Finite (entry w i)) → Fits n φ → Finite s →
      (∀ i a, Stored φ i a → Bounded (2 ^ 500) a ∧ Bounded (2 ^ 500) (a *. s)) →
      ∃ o' w', Optimiser.stepScaled o w φ s = .ok (.ok (), o', w') ∧ Inv o' ∧ w'.length = n ∧
        ∀ i < n, Finite (entry w' i))
    (hreset : ∀ o : O, Inv o → Inv (Optimiser.reset o)) :
    ∀ (es : List (Event (FP M))) (o : O) (w : List (FP M)), Inv o → w.length = n →
      (∀ a ∈ w, Finite a) → (∀ e ∈ es, e.Fits n ∧ BoundedCall e) →
      ∃ o' w', History o w es o' w' ∧ Inv o' ∧ w'.length = n ∧ ∀ a ∈ w', Finite a := by
  intro es
  induction es with
  | nil => intro o w ho hw hf _; exact ⟨o, w, .nil o w, ho, hw, hf⟩
  | cons e es ih =>
    intro o w ho hw hf he
    have het := fun e' h' => he e' (List.mem_cons_of_mem _ h')
    obtain ⟨hfit, hcall⟩ := he e List.mem_cons_self
    cases e with
    | step φ =>
      obtain ⟨o₁, w₁, h1, h2, h3, h4⟩ := hstep o w φ Scalar.one ho hw (to_entries hw hf) hfit
        ⟨1, val_one⟩ (fun i a h => by rw [mul_one_scalar]; exact ⟨hcall i a h, hcall i a h⟩)
      obtain ⟨o', w', hh, r⟩ := ih o₁ w₁ h2 h3 (of_entries h3 h4) het
      exact ⟨o', w', .step (by rw [hunit]; exact h1) hh, r⟩
    | stepScaled φ s =>
      obtain ⟨o₁, w₁, h1, h2, h3, h4⟩ := hstep o w φ s ho hw (to_entries hw hf) hfit hcall.1 hcall.2
      obtain ⟨o', w', hh, r⟩ := ih o₁ w₁ h2 h3 (of_entries h3 h4) het
      exact ⟨o', w', .stepScaled h1 hh, r⟩
    | reset =>
      obtain ⟨o', w', hh, r⟩ := ih (Optimiser.reset o) w (hreset o ho) hw hf het
      exact ⟨o', w', .reset hh, r⟩

/-! ## SGD and ISGD -/

/-- A step `(rate * s) * a` with rate in `[-1, 1]` is bounded by the gradient `a * s`. -/
theorem sgd_increment {rate s a : FP M} {c : ℝ} (hr : InUnit rate) (hs : Finite s)
    (hg : Finite a) (h : Bounded c (a *. s)) : Bounded c (rate *. s *. a) := by
  obtain ⟨s', hs⟩ := hs
  obtain ⟨a', ha⟩ := hg
  obtain ⟨q, hq, hqs⟩ := mul_unit hr hs
  obtain ⟨g, hg, hgc⟩ := h
  have hv : (a *. s).1 = M.rnd (a' * s') := by rw [val_mul, ha, hs]; rfl
  have hvabs : M.rnd |a' * s'| = .fin |g| := by
    rw [hg] at hv
    rcases le_total 0 (a' * s') with h0 | h0
    · have := rnd_nonneg (M := M) h0
      rw [← hv] at this
      have this : 0 ≤ g := this
      rw [abs_of_nonneg h0, ← hv, abs_of_nonneg this]
    · have := rnd_nonpos (M := M) h0
      rw [← hv] at this
      have this : g ≤ 0 := this
      rw [abs_of_nonpos h0, M.rnd_neg, ← hv, abs_of_nonpos this]; rfl
  have hle : |q * a'| ≤ |a' * s'| := by
    rw [abs_mul, abs_mul, mul_comm]
    exact mul_le_mul_of_nonneg_left hqs (abs_nonneg _)
  have h1 := M.rnd_mono (abs_le.1 hle).1
  have h2 := M.rnd_mono (abs_le.1 hle).2
  rw [M.rnd_neg, hvabs] at h1
  rw [hvabs] at h2
  obtain ⟨p, hp, hp1⟩ := bounded_of_le h1 h2
  refine ⟨p, ?_, hp1.trans hgc⟩
  show (rate *. s *. a).1 = _
  rw [val_mul, hq, ha]
  exact hp

theorem pow_500_nonneg : (0 : ℝ) ≤ 2 ^ 500 := by positivity

theorem finite_of_bounded {a : FP M} {c : ℝ} (h : Bounded c a) : Finite a := by
  obtain ⟨r, hr, -⟩ := h
  exact ⟨r, hr⟩

theorem C91_sgd (hM : M.rnd = binary64Format.rnd) {n : Nat} (o : SGD (FP M)) (hlr : InUnit o.lr)
    (w : List (FP M)) (hw : w.length = n) (hfin : ∀ a ∈ w, Finite a) (es : List (Event (FP M)))
    (hes : ∀ e ∈ es, e.Fits n ∧ BoundedCall e) :
    ∃ o' w', History o w es o' w' ∧ w'.length = n ∧ ∀ a ∈ w', Finite a := by
  obtain ⟨o', w', h, -, r⟩ := history_finite (n := n) (fun o : SGD (FP M) => InUnit o.lr)
    (fun o w φ => by
      show (φ.scaledAddto o.lr w >>= _) = (φ.scaledAddto (o.lr *. Scalar.one) w >>= _)
      rw [mul_one_scalar])
    (fun o w φ s ho hw hf hφ hs hb => by
      obtain ⟨w', h1, h2, h3⟩ := sgd_scaled hφ o s hw
      refine ⟨o, w', h1, ho, h2, fun i hi => ?_⟩
      by_cases ha : Active φ i
      · obtain ⟨a, ha⟩ := ha
        rw [(h3 i hi).1 a ha]
        exact finite_add_pow hM (hf i hi) (by norm_num)
          (sgd_increment ho hs (finite_of_bounded (hb i a ha).1) (hb i a ha).2)
      · rw [(h3 i hi).2 ha]; exact hf i hi)
    (fun o ho => ho) es o w hlr hw hfin hes
  exact ⟨o', w', h, r⟩

theorem norm_nonneg {φ : Features (FP M)} (h : ∀ i a, Stored φ i a → Finite a) :
    NonNeg (φ.fold Scalar.zero (fun acc x => acc +. x *. x)) := by
  have key : ∀ (l : List (FP M)), (∀ a ∈ l, Finite a) → ∀ z : FP M, NonNeg z →
      NonNeg (l.foldl (fun acc x => acc +. x *. x) z) := by
    intro l
    induction l with
    | nil => exact fun _ z hz => hz
    | cons a l ih =>
      intro hl z hz
      refine ih (fun b hb => hl b (List.mem_cons_of_mem _ hb)) _ (val_add_nonneg hz ?_)
      obtain ⟨r, hr⟩ := hl a (List.mem_cons_self ..)
      rw [val_mul, hr]
      exact round_nonneg (mul_self_nonneg r : (0 : ℝ) ≤ r * r)
  have hv : ∀ a ∈ φ.values, Finite a := fun a ha => by
    obtain ⟨i, hi⟩ := (mem_values_iff φ a).1 ha
    exact h i a hi
  cases φ with
  | dense da => exact key da hv _ nonNeg_zero
  | sparse sa => exact key _ hv _ nonNeg_zero

/-- ISGD's effective learning rate lies between 0 and the nominal one, even when the squared norm of
the features overflows. -/
theorem C91_isgd_rate (o : ISGD (FP M)) {r : ℝ} (hr : Is o.lr r) (h0 : 0 < r)
    (φ : Features (FP M)) (hφ : ∀ i a, Stored φ i a → Finite a) :
    NonNeg (o.computeLr φ) ∧ Le (o.computeLr φ) o.lr := by
  have hn := norm_nonneg hφ
  unfold ISGD.computeLr
  dsimp only
  generalize φ.fold Scalar.zero (fun acc x => acc +. x *. x) = z at hn
  have hp : NonNeg (o.lr *. z) := by
    unfold NonNeg at hn ⊢
    rw [val_mul, hr]
    refine round_nonneg ?_
    rcases hz : z.1 with _ | _ | _ | c <;> rw [hz] at hn
    · exact absurd hn id
    · exact absurd hn id
    · show _ ≤ (if r = 0 then _ else XReal.infSign r)
      rw [if_neg h0.ne', XReal.infSign, if_pos h0.le]; trivial
    · exact mul_nonneg (a := r) (b := c) h0.le hn
  have hone : XReal.fin 0 ≤ (Scalar.ofNat 1 : FP M).1 := by
    rw [val_ofNat_one]; exact zero_le_one' ℝ
  have hd : XReal.fin 1 ≤ (Scalar.ofNat 1 +. o.lr *. z).1 := by
    have := val_le_add_left hone hp
    rwa [val_ofNat_one] at this
  generalize (Scalar.ofNat 1 +. o.lr *. z) = d at hd
  show NonNeg (o.lr /. d) ∧ Le (o.lr /. d) o.lr
  unfold NonNeg Le
  rw [val_div]
  rcases hv : d.1 with _ | _ | _ | c <;> rw [hv] at hd
  · exact absurd hd id
  · exact absurd hd id
  · rw [hr]
    have e : (M.round (XReal.div (.fin r) .pinf)).1 = .fin 0 := rnd_zero
    rw [e]
    exact ⟨le_refl (0 : ℝ), fin_le_fin.2 h0.le⟩
  · have hc : 1 ≤ c := hd
    have e : XReal.div o.lr.1 (.fin c) = .fin (r / c) := by
      rw [hr]
      show (if c = 0 then _ else _) = _
      rw [if_neg (by linarith)]
    rw [e]
    refine ⟨round_nonneg (div_nonneg h0.le (by linarith) : (0 : ℝ) ≤ r / c), round_le ?_⟩
    rw [hr]
    exact fin_le_fin.2 (div_le_self h0.le hc)

theorem C91_isgd (hM : M.rnd = binary64Format.rnd) {n : Nat} (o : ISGD (FP M)) {r : ℝ}
    (hr : Is o.lr r) (h0 : 0 < r) (h1 : r ≤ 1)
    (w : List (FP M)) (hw : w.length = n) (hfin : ∀ a ∈ w, Finite a) (es : List (Event (FP M)))
    (hes : ∀ e ∈ es, e.Fits n ∧ BoundedCall e) :
    ∃ o' w', History o w es o' w' ∧ w'.length = n ∧ ∀ a ∈ w', Finite a := by
  obtain ⟨o', w', h, -, res⟩ := history_finite (n := n) (fun o : ISGD (FP M) => Is o.lr r)
    (fun o w φ => by
      show (φ.scaledAddto (o.computeLr φ) w >>= _) =
        (φ.scaledAddto (o.computeLr φ *. Scalar.one) w >>= _)
      rw [mul_one_scalar])
    (fun o w φ s ho hw hf hφ hs hb => by
      obtain ⟨w', e1, e2, e3⟩ := isgd_scaled hφ o s hw
      refine ⟨o, w', e1, ho, e2, fun i hi => ?_⟩
      obtain ⟨r0, r1⟩ := C91_isgd_rate o ho h0 φ (fun i a ha => finite_of_bounded (hb i a ha).1)
      have hu : InUnit (o.computeLr φ) := by
        unfold Le at r1
        rw [ho] at r1
        obtain ⟨q, hq, q0, q1⟩ := fin_of_between r0 r1
        exact ⟨q, hq, abs_le.2 ⟨by linarith, q1.trans h1⟩⟩
      by_cases ha : Active φ i
      · obtain ⟨a, ha⟩ := ha
        rw [(e3 i hi).1 a ha]
        exact finite_add_pow hM (hf i hi) (by norm_num)
          (sgd_increment hu hs (finite_of_bounded (hb i a ha).1) (hb i a ha).2)
      · rw [(e3 i hi).2 ha]; exact hf i hi)
    (fun o ho => ho) es o w hr hw hfin hes
  exact ⟨o', w', h, res⟩

/-! ## Momentum and NAG -/

/-- The velocity stays below `2 ^ 553`. -/
theorem velocity_bounded (hM : M.rnd = binary64Format.rnd) {n : Nat} {φ : Features (FP M)}
    (hφ : Fits n φ) {m s : FP M} (hm : Decay m) (hs : Finite s)
    (hb : ∀ i a, Stored φ i a → Bounded (2 ^ 500) a ∧ Bounded (2 ^ 500) (a *. s))
    {v v' : List (FP M)} (hv : v.length = n) (hvb : ∀ i < n, Bounded (2 ^ 553) (entry v i))
    (h : velocityUpdate m v φ s = .ok v') (i : Nat) (hi : i < n) :
    Bounded (2 ^ 553) (entry v' i) := by
  obtain ⟨v₁, e1, -, e3⟩ := velocityUpdate_any hφ m s hv
  rw [h] at e1
  cases e1
  obtain ⟨b, hbm, b0, b1⟩ := hm
  have hle := decay_le hM hbm b0 b1
  have hmv := bounded_mul hM hbm b0 b1.le (by norm_num) (hvb i hi)
  have hg := (value_bounded hφ.1 hs pow_500_nonneg hb i).2
  have hsum : ∀ x : FP M, Bounded (b * 2 ^ 553) x →
      Bounded (2 ^ 553) (x +. (value φ i *. s)) := by
    rintro x ⟨p, hp, hp1⟩
    obtain ⟨q, hq, hq1⟩ := hg
    refine bounded_rnd (x := p + q) (by rw [val_add, hp, hq]; rfl) ?_ (rnd_two_pow hM (by norm_num))
    refine (abs_add_le p q).trans ((add_le_add hp1 hq1).trans ?_)
    have h2 : b * 2 ^ 553 ≤ (1 - 2 ^ (-53 : ℤ)) * 2 ^ 553 :=
      mul_le_mul_of_nonneg_right hle (by positivity)
    have h3 : (1 - 2 ^ (-53 : ℤ)) * (2 : ℝ) ^ 553 + 2 ^ 500 = 2 ^ 553 := by
      have : (2 : ℝ) ^ (-53 : ℤ) * 2 ^ 553 = 2 ^ 500 := by
        rw [← zpow_natCast (2 : ℝ) 553, ← zpow_add₀ (by norm_num), ← zpow_natCast (2 : ℝ) 500]
        norm_num
      rw [sub_mul, one_mul, this]
      exact sub_add_cancel _ _
    exact (add_le_add_left h2 _).trans_eq h3
  rcases e3 i hi with e | ⟨-, e⟩ | ⟨-, e⟩ <;> rw [e]
  · exact hsum _ hmv
  · rw [mul_comm_fp]
    exact bounded_mono hmv (mul_le_of_le_one_left (by positivity) b1.le)
  · rw [mul_comm_fp (entry v i) m]
    exact hsum _ hmv

theorem reset_bounded {n : Nat} {l : List (FP M)} (hl : l.length = n) {c : ℝ} (hc : 0 ≤ c) (i : Nat)
    (hi : i < n) : Bounded c (entry (l.map fun _ => (Scalar.zero : FP M)) i) := by
  rw [entry_map _ (hl ▸ hi)]; exact bounded_zero hc

theorem new_bounded {c : ℝ} (hc : 0 ≤ c) (n i : Nat) :
    Bounded c (entry (List.replicate n (Scalar.zero : FP M)) i) := by
  rw [entry_replicate]; exact bounded_zero hc

theorem C91_momentum (hM : M.rnd = binary64Format.rnd) {n : Nat} (m lr : FP M) (hm : Decay m)
    (hlr : InUnit lr) (w : List (FP M)) (hw : w.length = n) (hfin : ∀ a ∈ w, Finite a)
    (es : List (Event (FP M))) (hes : ∀ e ∈ es, e.Fits n ∧ BoundedCall e) :
    ∃ o' w', History (SGDMomentum.new n m lr) w es o' w' ∧
      (∀ a ∈ o'.velocity, Bounded (2 ^ 553) a) ∧ w'.length = n ∧ ∀ a ∈ w', Finite a := by
  obtain ⟨o', w', h, hi, r⟩ := history_finite (n := n)
    (fun o : SGDMomentum (FP M) => Decay o.momentum ∧ InUnit o.learningRate ∧
      o.velocity.length = n ∧ ∀ i < n, Bounded (2 ^ 553) (entry o.velocity i))
    (fun o w φ => rfl)
    (fun o w φ s ho hw hf hφ hs hb => by
      obtain ⟨hm, hl, hv, hvb⟩ := ho
      obtain ⟨v, w', e1, e2, e3, e4, e5⟩ := momentum_scaled hφ o hv s hw
      have hvb' := velocity_bounded hM hφ hm hs hb hv hvb e2
      refine ⟨_, w', e1, ⟨hm, hl, e3, hvb'⟩, e4, fun i hi => ?_⟩
      rw [e5 i hi]
      exact finite_add_pow hM (hf i hi) (by norm_num) (bounded_unit_mul hl (hvb' i hi)))
    (fun o ho => ⟨ho.1, ho.2.1, length_reset ho.2.2.1,
      fun i hi => reset_bounded ho.2.2.1 (by positivity) i hi⟩)
    es (SGDMomentum.new n m lr) w
    ⟨hm, hlr, List.length_replicate .., fun i _ => new_bounded (by positivity) n i⟩ hw hfin hes
  exact ⟨o', w', h, of_entries hi.2.2.1 hi.2.2.2, r⟩

theorem C91_nag (hM : M.rnd = binary64Format.rnd) {n : Nat} (m lr : FP M) (hm : Decay m)
    (hlr : InUnit lr) (w : List (FP M)) (hw : w.length = n) (hfin : ∀ a ∈ w, Finite a)
    (es : List (Event (FP M))) (hes : ∀ e ∈ es, e.Fits n ∧ BoundedCall e) :
    ∃ o' w', History (NAG.new n m lr) w es o' w' ∧
      (∀ a ∈ o'.velocity, Bounded (2 ^ 553) a) ∧ w'.length = n ∧ ∀ a ∈ w', Finite a := by
  obtain ⟨o', w', h, hi, r⟩ := history_finite (n := n)
    (fun o : NAG (FP M) => Decay o.momentum ∧ InUnit o.learningRate ∧
      o.velocity.length = n ∧ ∀ i < n, Bounded (2 ^ 553) (entry o.velocity i))
    (fun o w φ => rfl)
    (fun o w φ s ho hw hf hφ hs hb => by
      obtain ⟨hm, hl, hv, hvb⟩ := ho
      obtain ⟨v, w₁, w', e1, e2, e3, e4, e5, e6, e7⟩ := nag_scaled hφ o hv s hw
      have hvb' := velocity_bounded hM hφ hm hs hb hv hvb e2
      refine ⟨_, w', e1, ⟨hm, hl, e4, hvb'⟩, e6, fun i hi => ?_⟩
      have hw₁ : Finite (entry w₁ i) := by
        rw [e7 i hi]
        exact finite_add_pow hM (hf i hi) (by norm_num) (bounded_unit_mul hl (hvb' i hi))
      obtain ⟨w₂, g1, -, g3⟩ := scaledAddto_any hφ o.momentum e5
      rw [e3] at g1
      cases g1
      by_cases ha : Active φ i
      · obtain ⟨a, ha⟩ := ha
        rw [(g3 i hi).1 a ha]
        refine finite_add_pow hM hw₁ (by norm_num) (bounded_unit_mul ?_ (hb i a ha).1)
        obtain ⟨b, hb, b0, b1⟩ := hm
        exact ⟨b, hb, by rw [abs_of_nonneg b0]; exact b1.le⟩
      · rw [(g3 i hi).2 ha]; exact hw₁)
    (fun o ho => ⟨ho.1, ho.2.1, length_reset ho.2.2.1,
      fun i hi => reset_bounded ho.2.2.1 (by positivity) i hi⟩)
    es (NAG.new n m lr) w
    ⟨hm, hlr, List.length_replicate .., fun i _ => new_bounded (by positivity) n i⟩ hw hfin hes
  exact ⟨o', w', h, of_entries hi.2.2.1 hi.2.2.2, r⟩

/-! ## Adam and AdaMax -/

/-- An exponential moving average stays within the bound of what it averages. -/
theorem average_bounded (hM : M.rnd = binary64Format.rnd) {β m g : FP M} (hβ : Decay β) {k : Nat}
    (hk : k ≤ 1023) (hm : Bounded (2 ^ k) m) (hg : Bounded (2 ^ k) g) :
    Bounded (2 ^ k) (β *. m +. (Scalar.ofNat 1 -. β) *. g) := by
  obtain ⟨b, hb, b0, b1⟩ := hβ
  obtain ⟨c, hc, c0, c1, hbc⟩ := complement hM hb b0 b1.le
  exact bounded_share hM hk (bounded_mul hM hb b0 b1.le hk hm) (bounded_mul hM hc c0 c1 hk hg) hbc

/-- The moving average of squares stays non-negative and bounded. -/
theorem average_square (hM : M.rnd = binary64Format.rnd) {β v g : FP M} (hβ : Decay β)
    (hv : NonNeg v ∧ Bounded (2 ^ 1000) v) (hg : Bounded (2 ^ 500) g) :
    NonNeg (β *. v +. (Scalar.ofNat 1 -. β) *. g *. g) ∧
      Bounded (2 ^ 1000) (β *. v +. (Scalar.ofNat 1 -. β) *. g *. g) := by
  obtain ⟨b, hb, b0, b1⟩ := hβ
  obtain ⟨c, hc, c0, c1, hbc⟩ := complement hM hb b0 b1.le
  obtain ⟨hv0, x, hx, hx1⟩ := hv
  unfold NonNeg at hv0
  rw [hx] at hv0
  have hv0 : 0 ≤ x := hv0
  obtain ⟨y, hy, hy1⟩ := bounded_mul hM hc c0 c1 (by norm_num) hg
  obtain ⟨r, hr, hr1⟩ := hg
  have hys : 0 ≤ y * r := by
    have e : ((Scalar.ofNat 1 -. β) *. g).1 = M.rnd (c * r) := by rw [val_mul, hc, hr]; rfl
    rw [hy] at e
    rcases le_total 0 r with h0 | h0
    · have := rnd_nonneg (M := M) (mul_nonneg c0 h0)
      rw [← e] at this
      exact mul_nonneg this h0
    · have := rnd_nonpos (M := M) (mul_nonpos_of_nonneg_of_nonpos c0 h0)
      rw [← e] at this
      exact mul_nonneg_of_nonpos_of_nonpos this h0
  have hsq : ((Scalar.ofNat 1 -. β) *. g *. g).1 = M.rnd (y * r) := by rw [val_mul, hy, hr]; rfl
  have hsqb : Bounded (c * 2 ^ 1000) ((Scalar.ofNat 1 -. β) *. g *. g) := by
    refine bounded_rnd hsq ?_ (rnd_scale hM hc (by rwa [abs_of_nonneg c0]) (by norm_num))
    rw [abs_mul]
    calc |y| * |r| ≤ (c * 2 ^ 500) * 2 ^ 500 := mul_le_mul hy1 hr1 (abs_nonneg _) (by positivity)
      _ = c * 2 ^ 1000 := by rw [mul_assoc, ← pow_add]
  refine ⟨val_add_nonneg ?_ ?_, bounded_share hM (by norm_num)
    (bounded_mul hM hb b0 b1.le (by norm_num) ⟨x, hx, hx1⟩) hsqb hbc⟩
  · rw [val_mul, hb, hx]
    exact round_nonneg (mul_nonneg b0 hv0 : (0 : ℝ) ≤ b * x)
  · rw [hsq]
    exact rnd_nonneg hys

/-- The final quotient `lr * (m / (1 - p)) / d` is bounded when `d` is at least `1e-7`. -/
theorem quotient_bounded (hM : M.rnd = binary64Format.rnd) {lr m p d : FP M} (hlr : InUnit lr)
    (hm : Bounded (2 ^ 500) m) (hp : Decay p) (hd : (EPS : FP M).1 ≤ d.1) :
    Bounded (2 ^ 577) (lr *. (m /. (Scalar.ofNat 1 -. p)) /. d) := by
  obtain ⟨c, hc, hc1⟩ := correction hM hp
  have h1 := bounded_div hM (k := 500) (j := 53) (by norm_num) hm
    (z := Scalar.ofNat 1 -. p) (by rw [hc]; exact fin_le_fin.2 hc1)
  exact bounded_div hM (k := 553) (j := 24) (by norm_num) (bounded_unit_mul hlr h1)
    (le_trans' (eps_ge hM) hd)

theorem eps_nonneg (hM : M.rnd = binary64Format.rnd) : XReal.fin 0 ≤ (EPS : FP M).1 :=
  le_trans' (fin_le_fin.2 (Format.two_zpow_pos _).le) (eps_ge hM)

/-- Adam: besides the weights and the moments, the divisors that the next step uses to correct the bias of the
moments stay away from zero. -/
theorem C91_adam (hM : M.rnd = binary64Format.rnd) {n : Nat} (lr β₁ β₂ : FP M) (hlr : InUnit lr)
    (h₁ : Decay β₁) (h₂ : Decay β₂) (w : List (FP M)) (hw : w.length = n)
    (hfin : ∀ a ∈ w, Finite a) (es : List (Event (FP M)))
    (hes : ∀ e ∈ es, e.Fits n ∧ BoundedCall e) :
    ∃ o' w', History (Adam.new n lr β₁ β₂) w es o' w' ∧ (∀ a ∈ o'.expAvg, Bounded (2 ^ 500) a) ∧
      (∀ a ∈ o'.expAvgSq, NonNeg a ∧ Bounded (2 ^ 1000) a) ∧ (w'.length = n ∧ ∀ a ∈ w', Finite a) ∧
      (∃ c, Is (Scalar.ofNat 1 -. o'.beta1Prod *. o'.beta1) c ∧ 2 ^ (-53 : ℤ) ≤ c) ∧
      ∃ c, Is (Scalar.ofNat 1 -. o'.beta2Prod *. o'.beta2) c ∧ 2 ^ (-53 : ℤ) ≤ c := by
  obtain ⟨o', w', h, hi, r⟩ := history_finite (n := n)
    (fun o : Adam (FP M) => (InUnit o.learningRate ∧ Decay o.beta1 ∧ Decay o.beta2 ∧
      Decay o.beta1Prod ∧ Decay o.beta2Prod) ∧ o.expAvg.length = n ∧ o.expAvgSq.length = n ∧
      (∀ i < n, Bounded (2 ^ 500) (entry o.expAvg i)) ∧
      ∀ i < n, NonNeg (entry o.expAvgSq i) ∧ Bounded (2 ^ 1000) (entry o.expAvgSq i))
    (fun o w φ => rfl)
    (fun o w φ s ho hw hf hφ hs hb => by
      obtain ⟨⟨hl, d1, d2, p1, p2⟩, l1, l2, b1, b2⟩ := ho
      obtain ⟨m, v, w', e1, e2, e3, e4, e5⟩ := adam_scaled hφ o l1 l2 s hw
      have hq1 := decay_mul p1 d1
      have hq2 := decay_mul p2 d2
      have hg := fun i => (value_bounded hφ.1 hs pow_500_nonneg hb i).2
      have hmv : ∀ i < n, Bounded (2 ^ 500) (entry m i) ∧
          NonNeg (entry v i) ∧ Bounded (2 ^ 1000) (entry v i) := by
        intro i hi
        by_cases ha : Active φ i
        · obtain ⟨g1, g2, -⟩ := (e5 i hi).1 ha
          have k1 := average_bounded hM d1 (by norm_num) (b1 i hi) (hg i)
          have k2 := average_square hM d2 (b2 i hi) (hg i)
          rw [g1, g2]
          unfold adamM adamV
          split_ifs
          · exact ⟨k1, k2⟩
          · rw [mul_comm_fp _ o.beta1, mul_comm_fp _ o.beta2]; exact ⟨k1, k2⟩
        · obtain ⟨g1, g2, -⟩ := (e5 i hi).2 ha
          rw [g1, g2]
          obtain ⟨c1, hc1, c10, c11⟩ := d1
          obtain ⟨c2, hc2, c20, c21⟩ := d2
          rw [mul_comm_fp _ o.beta1, mul_comm_fp _ o.beta2]
          refine ⟨bounded_unit_mul ⟨c1, hc1, by rw [abs_of_nonneg c10]; exact c11.le⟩ (b1 i hi), ?_,
            bounded_unit_mul ⟨c2, hc2, by rw [abs_of_nonneg c20]; exact c21.le⟩ (b2 i hi).2⟩
          obtain ⟨n0, x, hx, -⟩ := b2 i hi
          unfold NonNeg at n0 ⊢
          rw [hx] at n0
          rw [val_mul, hc2, hx]
          exact round_nonneg (mul_nonneg c20 n0 : (0 : ℝ) ≤ c2 * x)
      refine ⟨_, w', e1, ⟨⟨hl, d1, d2, hq1, hq2⟩, e2, e3, fun i hi => (hmv i hi).1,
        fun i hi => (hmv i hi).2⟩, e4, fun i hi => ?_⟩
      by_cases ha : Active φ i
      · obtain ⟨-, -, g3⟩ := (e5 i hi).1 ha
        rw [g3]
        refine finite_add_pow hM (hf i hi) (by norm_num)
          (quotient_bounded hM hl (hmv i hi).1 hq1 (val_le_add_right ?_ (eps_nonneg hM)))
        -- the square root is a number
        obtain ⟨c, hc, hc1⟩ := correction hM hq2
        obtain ⟨n0, x, hx, -⟩ := (hmv i hi).2
        unfold NonNeg at n0
        rw [hx] at n0
        have n0 : 0 ≤ x := n0
        have hc0 : 0 < c := lt_of_lt_of_le (Format.two_zpow_pos _) hc1
        have hdiv : XReal.fin 0 ≤ (entry v i /. (Scalar.ofNat 1 -. (adamTick o).beta2Prod)).1 := by
          rw [val_div, hx]
          rw [show (Scalar.ofNat 1 -. (adamTick o).beta2Prod).1 = .fin c from hc]
          show _ ≤ (M.round (if c = 0 then _ else .fin (x / c))).1
          rw [if_neg hc0.ne']
          exact round_nonneg (div_nonneg n0 hc0.le : (0 : ℝ) ≤ x / c)
        have h0 : XReal.sqrt (.fin 0) = .fin 0 := by
          show (if (0 : ℝ) < 0 then _ else _) = _
          rw [if_neg (lt_irrefl _), Real.sqrt_zero]
        have := round_mono (M := M) (sqrt_le_sqrt' (le_refl (0 : ℝ)) hdiv)
        rwa [h0, round_fin_zero] at this
      · rw [((e5 i hi).2 ha).2.2]; exact hf i hi)
    (fun o ho => ⟨ho.1, length_reset ho.2.1, length_reset ho.2.2.1,
      fun i hi => reset_bounded ho.2.1 (by positivity) i hi,
      fun i hi => ⟨by
        show NonNeg (entry (o.expAvgSq.map fun _ => Scalar.zero) i)
        rw [entry_map _ (ho.2.2.1 ▸ hi)]; exact nonNeg_zero,
        reset_bounded ho.2.2.1 (by positivity) i hi⟩⟩)
    es (Adam.new n lr β₁ β₂) w
    ⟨⟨hlr, h₁, h₂, h₁, h₂⟩, List.length_replicate .., List.length_replicate ..,
      fun i _ => new_bounded (by positivity) n i, fun i _ => ⟨by
        show NonNeg (entry (List.replicate n Scalar.zero) i)
        rw [entry_replicate]; exact nonNeg_zero, new_bounded (by positivity) n i⟩⟩ hw hfin hes
  exact ⟨o', w', h, of_entries hi.2.1 hi.2.2.2.1, of_entries hi.2.2.1 hi.2.2.2.2, r,
    correction hM (decay_mul hi.1.2.2.2.1 hi.1.2.1), correction hM (decay_mul hi.1.2.2.2.2 hi.1.2.2.1)⟩

/-- A number between 0 and `2 ^ 500`. -/
theorem infinity_bounded {β u g : FP M} (hβ : Decay β)
    (hu : NonNeg u ∧ Bounded (2 ^ 500) u) (hg : Bounded (2 ^ 500) g) :
    NonNeg (Scalar.max (β *. u) (Scalar.abs g)) ∧
      Bounded (2 ^ 500) (Scalar.max (β *. u) (Scalar.abs g)) := by
  obtain ⟨b, hb, b0, b1⟩ := hβ
  obtain ⟨p, hp, hp1⟩ : Bounded (2 ^ 500) (β *. u) :=
    bounded_unit_mul ⟨b, hb, by rw [abs_of_nonneg b0]; exact b1.le⟩ hu.2
  obtain ⟨r, hr, hr1⟩ := hg
  have e : (Scalar.max (β *. u) (Scalar.abs g)).1 = .fin (max p |r|) := by
    rw [val_max, hp, val_abs, hr]
    exact xmax_fin ..
  refine ⟨?_, max p |r|, e, ?_⟩
  · unfold NonNeg
    rw [e]
    exact fin_le_fin.2 (le_max_of_le_right (abs_nonneg r))
  · rw [abs_of_nonneg (le_max_of_le_right (abs_nonneg r))]
    exact max_le ((le_abs_self p).trans hp1) hr1

/-- The same for AdaMax, which corrects the first moment only. -/
theorem C91_adamax (hM : M.rnd = binary64Format.rnd) {n : Nat} (lr β₁ β₂ : FP M) (hlr : InUnit lr)
    (h₁ : Decay β₁) (h₂ : Decay β₂) (w : List (FP M)) (hw : w.length = n)
    (hfin : ∀ a ∈ w, Finite a) (es : List (Event (FP M)))
    (hes : ∀ e ∈ es, e.Fits n ∧ BoundedCall e) :
    ∃ o' w', History (AdaMax.new n lr β₁ β₂) w es o' w' ∧ (∀ a ∈ o'.expAvg, Bounded (2 ^ 500) a) ∧
      (∀ a ∈ o'.expInf, NonNeg a ∧ Bounded (2 ^ 500) a) ∧ (w'.length = n ∧ ∀ a ∈ w', Finite a) ∧
      ∃ c, Is (Scalar.ofNat 1 -. o'.beta1Prod *. o'.beta1) c ∧ 2 ^ (-53 : ℤ) ≤ c := by
  obtain ⟨o', w', h, hi, r⟩ := history_finite (n := n)
    (fun o : AdaMax (FP M) => (InUnit o.learningRate ∧ Decay o.beta1 ∧ Decay o.beta2 ∧
      Decay o.beta1Prod) ∧ o.expAvg.length = n ∧ o.expInf.length = n ∧
      (∀ i < n, Bounded (2 ^ 500) (entry o.expAvg i)) ∧
      ∀ i < n, NonNeg (entry o.expInf i) ∧ Bounded (2 ^ 500) (entry o.expInf i))
    (fun o w φ => rfl)
    (fun o w φ s ho hw hf hφ hs hb => by
      obtain ⟨⟨hl, d1, d2, p1⟩, l1, l2, b1, b2⟩ := ho
      obtain ⟨m, u, w', e1, e2, e3, e4, e5⟩ := adamax_scaled hφ o l1 l2 s hw
      have hq1 := decay_mul p1 d1
      have hg := fun i => (value_bounded hφ.1 hs pow_500_nonneg hb i).2
      have hmv : ∀ i < n, Bounded (2 ^ 500) (entry m i) ∧
          NonNeg (entry u i) ∧ Bounded (2 ^ 500) (entry u i) := by
        intro i hi
        by_cases ha : Active φ i
        · obtain ⟨g1, g2, -⟩ := (e5 i hi).1 ha
          have k1 := average_bounded hM d1 (by norm_num) (b1 i hi) (hg i)
          have k2 := infinity_bounded d2 (b2 i hi) (hg i)
          rw [g1, g2]
          unfold adamaxM adamaxU
          split_ifs
          · exact ⟨k1, k2⟩
          · rw [mul_comm_fp _ o.beta1, mul_comm_fp _ o.beta2]; exact ⟨k1, k2⟩
        · obtain ⟨g1, g2, -⟩ := (e5 i hi).2 ha
          rw [g1, g2]
          obtain ⟨c1, hc1, c10, c11⟩ := d1
          obtain ⟨c2, hc2, c20, c21⟩ := d2
          rw [mul_comm_fp _ o.beta1, mul_comm_fp _ o.beta2]
          refine ⟨bounded_unit_mul ⟨c1, hc1, by rw [abs_of_nonneg c10]; exact c11.le⟩ (b1 i hi), ?_,
            bounded_unit_mul ⟨c2, hc2, by rw [abs_of_nonneg c20]; exact c21.le⟩ (b2 i hi).2⟩
          obtain ⟨n0, x, hx, -⟩ := b2 i hi
          unfold NonNeg at n0 ⊢
          rw [hx] at n0
          rw [val_mul, hc2, hx]
          exact round_nonneg (mul_nonneg c20 n0 : (0 : ℝ) ≤ c2 * x)
      refine ⟨_, w', e1, ⟨⟨hl, d1, d2, hq1⟩, e2, e3, fun i hi => (hmv i hi).1,
        fun i hi => (hmv i hi).2⟩, e4, fun i hi => ?_⟩
      by_cases ha : Active φ i
      · obtain ⟨-, -, g3⟩ := (e5 i hi).1 ha
        rw [g3]
        exact finite_add_pow hM (hf i hi) (by norm_num)
          (quotient_bounded hM hl (hmv i hi).1 hq1 (val_le_add_right (hmv i hi).2.1 (eps_nonneg hM)))
      · rw [((e5 i hi).2 ha).2.2]; exact hf i hi)
    (fun o ho => ⟨ho.1, length_reset ho.2.1, length_reset ho.2.2.1,
      fun i hi => reset_bounded ho.2.1 (by positivity) i hi,
      fun i hi => ⟨by
        show NonNeg (entry (o.expInf.map fun _ => Scalar.zero) i)
        rw [entry_map _ (ho.2.2.1 ▸ hi)]; exact nonNeg_zero,
        reset_bounded ho.2.2.1 (by positivity) i hi⟩⟩)
    es (AdaMax.new n lr β₁ β₂) w
    ⟨⟨hlr, h₁, h₂, h₁⟩, List.length_replicate .., List.length_replicate ..,
      fun i _ => new_bounded (by positivity) n i, fun i _ => ⟨by
        show NonNeg (entry (List.replicate n Scalar.zero) i)
        rw [entry_replicate]; exact nonNeg_zero, new_bounded (by positivity) n i⟩⟩ hw hfin hes
  exact ⟨o', w', h, of_entries hi.2.1 hi.2.2.2.1, of_entries hi.2.2.1 hi.2.2.2.2, r,
    correction hM (decay_mul hi.1.2.2.2 hi.1.2.1)⟩

/-- Decay rates: zero is one, and so is every number below 1, such as `f64`'s one half. -/
example : Decay (Scalar.zero : FP M) ∧ Decay (M := binary64) ⟨.fin (1 / 2), by
    intro r h
    injection h with h
    subst h
    have h := binary64Format.rnd_exact (m := 1) (e := -1) (by decide) (by decide) (by
      rw [Int.cast_one, one_mul, abs_of_pos (Format.two_zpow_pos _)]
      exact zpow_lt_zpow_right₀ (by norm_num) (by decide))
    have e : ((1 : ℤ) : ℝ) * 2 ^ (-1 : ℤ) = 1 / 2 := by norm_num
    rw [e] at h
    exact h⟩ := by
  refine ⟨⟨0, val_zero, le_refl _, zero_lt_one⟩, 1 / 2, rfl, ?_, ?_⟩ <;> norm_num

/-- Bounded calls. -/
example : BoundedCall (.step (.dense [(Scalar.one : FP M)])) := by
  intro i a h
  have h : [(Scalar.one : FP M)][i]? = some a := h
  rcases i with _ | i
  · injection h with h
    exact ⟨1, h ▸ val_one, by rw [abs_one]; exact one_le_pow₀ (by norm_num)⟩
  · simp at h

end Lfa

import Verif.Props.C202
import Verif.Spec.Control

/-!
# C204: several outputs, and Q-learning, with the adaptive optimisers do not overflow

C202 for approximators with several outputs, which share the state of one optimiser: whatever errors are fed back, as long as they are moderate
while the predictions are, weights and predictions stay below a fixed bound for ever. This covers Q-learning with any built-in basis, where the
targets depend on the predictions for other inputs and SGD can diverge.
-/

set_option linter.unusedSectionVars false

namespace Lfa

open Spec Machine XReal

variable {M : Machine}

section
variable {B I O : Type} [Space B] [Basis B I (FP M)] [Optimiser O (FP M)]

/-- One call at an input where the basis is tame: `update`, `update_with` or `update_index`, the errors at most `2^400`, for `update_with` while
the predictions are at most `P`. -/
inductive Spec.TrainedOutputs (n k : Nat) (s P : ℝ) (b : B) (fv fv' : VectorLFA B O (FP M)) : Prop
  | all (x : I) (es : List (FP M)) (r : Result Unit) : Tame n k s b x → (∀ e ∈ es, Bounded (2 ^ 400) e) →
      fv.update x es = .ok (r, fv') → TrainedOutputs n k s P b fv fv'
  | index (x : I) (j : Nat) (e : FP M) (r : Result Unit) : Tame n k s b x → Bounded (2 ^ 400) e →
      fv.updateIndex x j e = .ok (r, fv') → TrainedOutputs n k s P b fv fv'
  | computed (x : I) (f : Features (FP M) → List (FP M) → List (FP M)) (r : Result Unit) : Tame n k s b x →
      (∀ φ vs, (∀ v ∈ vs, Bounded P v) → ∀ e ∈ f φ vs, Bounded (2 ^ 400) e) →
      fv.updateWith x f = .ok (r, fv') → TrainedOutputs n k s P b fv fv'

/-- At inputs where the basis is tame, `evaluate` and `evaluate_index` return at most `P`. -/
def Spec.PredictsWithin (I : Type) [Basis B I (FP M)] (n k : Nat) (s P : ℝ) (b : B) (fv : VectorLFA B O (FP M)) : Prop :=
  ∀ x : I, Tame n k s b x → (∀ vs, fv.evaluate x = .ok (.ok vs) → ∀ v ∈ vs, Bounded P v) ∧
    ∀ j v, fv.evaluateIndex x j = .ok (.ok v) → Bounded P v

theorem tame_stored {n : Nat} {s : ℝ} (hs : s ≤ 2 ^ 200) {φ : Features (FP M)} (hφ : Fits n φ) (hfin : ∀ i a, Stored φ i a → Spec.Finite a)
    (hsq : ∑ i ∈ Finset.range n, real (value φ i) ^ 2 ≤ s) (i : Nat) (a : FP M) (ha : Stored φ i a) : Bounded (2 ^ 100) a := by
  obtain ⟨r, hr⟩ := hfin i a ha
  refine ⟨r, hr, ?_⟩
  have hi : i < n := by
    rw [← hφ.2]
    cases φ with
    | dense da => exact (List.getElem?_eq_some_iff.1 ha).1
    | sparse sa => exact hφ.1.2 _ ha
  have h1 := Finset.single_le_sum (f := fun i => real (value φ i) ^ 2) (fun j _ => sq_nonneg _) (Finset.mem_range.2 hi)
  simp only [value_of_stored (keysUnique_of_wf hφ.1) ha, is_real hr] at h1
  refine abs_le_of_sq_le_sq ?_ (by positivity)
  rw [← pow_mul]
  exact h1.trans (hsq.trans hs)

/-- The gradients of bounded errors. -/
theorem tame_gradient (hM : M.rnd = binary64Format.rnd) {φ : Features (FP M)} (hb : ∀ i a, Stored φ i a → Bounded (2 ^ 100) a) {e : FP M}
    (he : Bounded (2 ^ 400) e) (i : Nat) (a : FP M) (ha : Stored φ i a) : Bounded (2 ^ 500) a ∧ Bounded (2 ^ 500) (a *. e) := by
  have ha' := hb i a ha
  refine ⟨bounded_mono ha' (pow_le_pow_right₀ (by norm_num) (by norm_num)), ?_⟩
  obtain ⟨r, hr, h1⟩ := ha'
  obtain ⟨q, hq, h2⟩ := he
  refine bounded_rnd (x := r * q) (by rw [val_mul, hr, hq]; rfl) ?_ (rnd_two_pow hM (by norm_num))
  rw [abs_mul, show (2 : ℝ) ^ 500 = 2 ^ 100 * 2 ^ 400 by rw [← pow_add]]
  exact mul_le_mul h1 h2 (abs_nonneg _) (by positivity)

/-- The outputs, from bounds of the weights. -/
theorem outputs_bounded (hM : M.rnd = binary64Format.rnd) {n k K : Nat} (hk : k ≤ 2 ^ 40) (hK : K ≤ 250) {φ : Features (FP M)} (hφ : Fits n φ)
    (hc : storedCount φ ≤ k) (hb : ∀ i a, Stored φ i a → Bounded (2 ^ 100) a) {ws : List (List (FP M))}
    (hw : ∀ c ∈ ws, c.length = n ∧ ∀ i < n, Bounded (2 ^ K) (entry c i)) {vs : List (FP M)} (h : φ.matmul ws = .ok vs) :
    ∀ v ∈ vs, Bounded (2 ^ (K + 140)) v := by
  obtain ⟨hl, hcol⟩ := matmul_columns _ _ _ h
  intro v hv
  obtain ⟨j, hj, rfl⟩ := List.mem_iff_getElem.1 hv
  obtain ⟨y, hy, hd⟩ := hcol j _ (List.getElem?_eq_getElem (by omega : j < ws.length))
  rw [List.getElem?_eq_getElem hj] at hy
  cases hy
  obtain ⟨w1, w2⟩ := hw _ (List.getElem_mem (by omega : j < ws.length))
  have := dotColumn_bounded hM _ hφ w1 hd (a := 100) (b := K) (by omega) hb w2 (hc.trans (hk.trans (by norm_num)))
  refine bounded_mono this ?_
  calc (storedCount φ : ℝ) * 2 ^ (100 + K) ≤ 2 ^ 40 * 2 ^ (100 + K) :=
        mul_le_mul_of_nonneg_right (by exact_mod_cast hc.trans hk) (by positivity)
    _ = 2 ^ (K + 140) := by rw [← pow_add]; congr 1; omega

/-- All columns in turn, with an optimiser that keeps an invariant. -/
theorem columns_keep {Inv : O → List (FP M) → Prop} (hswap : ∀ o o' w w', Inv o w → Inv o' w' → Inv o' w) {φ : Features (FP M)}
    {G : FP M → Prop} (hstep : ∀ o w e, Inv o w → G e → ∃ o' w', Optimiser.stepScaled o w φ e = .ok (.ok (), o', w') ∧ Inv o' w') :
    ∀ (es : List (FP M)) (cs : List (List (FP M))) (o : O) (acc : Result Unit), (∀ e ∈ es, G e) → (∀ c ∈ cs, Inv o c) →
      ∃ r o' cs', VectorLFA.stepColumns φ es cs o acc = .ok (r, o', cs') ∧ cs'.length = cs.length ∧ (∀ c ∈ cs', Inv o' c) ∧
        ∀ w, Inv o w → Inv o' w
  | [], cs, o, acc, _, hc => ⟨acc, o, cs, rfl, rfl, hc, fun _ h => h⟩
  | e :: es, [], o, acc, _, hc => ⟨acc, o, [], rfl, rfl, hc, fun _ h => h⟩
  | e :: es, c :: cs, o, acc, he, hc => by
    obtain ⟨o₁, c₁, s1, s2⟩ := hstep o c e (hc c List.mem_cons_self) (he e List.mem_cons_self)
    have keep : ∀ w, Inv o w → Inv o₁ w := fun w h => hswap o o₁ w c₁ h s2
    obtain ⟨r, o', cs', r1, r2, r3, r4⟩ := columns_keep hswap hstep es cs o₁ (acc.and (.ok ())) (fun e h => he e (List.mem_cons_of_mem _ h))
      fun d h => keep d (hc d (List.mem_cons_of_mem _ h))
    refine ⟨r, o', c₁ :: cs', ?_, by simp [r2], fun d hd => ?_, fun w h => r4 w (keep w h)⟩
    · show (Optimiser.stepScaled o c φ e >>= _) = _
      rw [s1, P.ok_bind]
      show (VectorLFA.stepColumns φ es cs o₁ (acc.and (.ok ())) >>= _) = _
      rw [r1]; rfl
    · rcases List.mem_cons.1 hd with rfl | hd
      · exact r4 _ s2
      · exact r3 d hd

/-- Training several outputs with an optimiser that keeps an invariant and a bound of the weights under moderate gradients. -/
theorem closed_outputs (hM : M.rnd = binary64Format.rnd) {n k m K : Nat} {s : ℝ} (hk : k ≤ 2 ^ 40) (hs : s ≤ 2 ^ 200) (hK : K ≤ 250)
    (Inv : O → List (FP M) → Prop) (hinv : ∀ o w, Inv o w → w.length = n ∧ ∀ i < n, Bounded (2 ^ K) (entry w i))
    (hswap : ∀ o o' w w', Inv o w → Inv o' w' → Inv o' w)
    (hstep : ∀ (o : O) (w : List (FP M)) (φ : Features (FP M)) (e : FP M), Inv o w → Fits n φ → Spec.Finite e →
      (∀ i a, Stored φ i a → Bounded (2 ^ 500) a ∧ Bounded (2 ^ 500) (a *. e)) →
      ∃ o' w', Optimiser.stepScaled o w φ e = .ok (.ok (), o', w') ∧ Inv o' w')
    {b : B} {fas : Nat → VectorLFA B O (FP M)} (h0 : (fas 0).basis = b) (hm : (fas 0).weights.length = m)
    (hi : ∀ c ∈ (fas 0).weights, Inv (fas 0).optimiser c)
    (hr : ∀ t, PredictsWithin I n k s (2 ^ (K + 140)) b (fas t) →
      TrainedOutputs (I := I) n k s (2 ^ (K + 140)) b (fas t) (fas (t + 1))) (t : Nat) :
    (fas t).basis = b ∧ (fas t).weights.length = m ∧ (∀ c ∈ (fas t).weights, Inv (fas t).optimiser c) ∧
      PredictsWithin I n k s (2 ^ (K + 140)) b (fas t) := by
  have pred : ∀ fv : VectorLFA B O (FP M), fv.basis = b → (∀ c ∈ fv.weights, Inv fv.optimiser c) →
      PredictsWithin I n k s (2 ^ (K + 140)) b fv := by
    intro fv hb hI x hx
    obtain ⟨φ, hp, hφ, hc, hfin, hsq⟩ := hx
    have hp' : Basis.project fv.basis x = .ok (.ok φ) := by rw [hb]; exact hp
    obtain ⟨us, hmat⟩ := matmul_safe hφ (cs := fv.weights) fun c hc => (hinv _ c (hI c hc)).1
    have hus := outputs_bounded hM hk hK hφ hc (tame_stored hs hφ hfin hsq) (fun c hc => hinv _ c (hI c hc)) hmat
    have hev : fv.evaluate x = .ok (.ok us) := by rw [vector_evaluate_eq hp', hmat]; rfl
    refine ⟨fun vs h => ?_, fun j v h => ?_⟩
    · rw [hev] at h
      cases Except.ok.inj (Except.ok.inj h)
      exact hus
    · obtain ⟨hl, hcol, -⟩ := C62_consistent fv x us hev
      by_cases hj : j < us.length
      · rw [hcol j _ (List.getElem?_eq_getElem hj)] at h
        cases Except.ok.inj (Except.ok.inj h)
        exact hus _ (List.getElem_mem hj)
      · exfalso
        obtain ⟨p, hpn⟩ := (C62_index_panics_iff fv x φ hp' hφ.1 (fun c hc => (hinv _ c (hI c hc)).1.trans hφ.2.symm) j).2.2 (by omega)
        rw [h] at hpn
        cases hpn
  have upd : ∀ (fv fv' : VectorLFA B O (FP M)) (x : I) (es : List (FP M)) (r : Result Unit), fv.basis = b → fv.weights.length = m →
      (∀ c ∈ fv.weights, Inv fv.optimiser c) → Tame n k s b x → (∀ e ∈ es, Bounded (2 ^ 400) e) → fv.update x es = .ok (r, fv') →
      fv'.basis = b ∧ fv'.weights.length = m ∧ ∀ c ∈ fv'.weights, Inv fv'.optimiser c := by
    intro fv fv' x es r hb hl hI hx he hu
    obtain ⟨φ, hp, hφ, hc, hfin, hsq⟩ := hx
    obtain ⟨r', o', cs', r1, r2, r3, -⟩ := columns_keep hswap (G := Bounded (2 ^ 400)) (φ := φ)
      (fun o w e h he => hstep o w φ e h hφ (finite_of_bounded he) (tame_gradient hM (tame_stored hs hφ hfin hsq) he)) es fv.weights
      fv.optimiser (.ok ()) he hI
    rw [vector_update_eq (by rw [hb]; exact hp), r1] at hu
    have e := (Prod.mk.inj (Except.ok.inj hu)).2
    rw [← e]
    exact ⟨hb, r2.trans hl, r3⟩
  have inv : ∀ t, (fas t).basis = b ∧ (fas t).weights.length = m ∧ ∀ c ∈ (fas t).weights, Inv (fas t).optimiser c := by
    intro t
    induction t with
    | zero => exact ⟨h0, hm, hi⟩
    | succ t ih =>
      obtain ⟨hb, hl, hI⟩ := ih
      cases hr t (pred _ hb hI) with
      | all x es r hx he hu => exact upd _ _ x es r hb hl hI hx he hu
      | index x j e r hx he hu =>
        obtain ⟨φ, hp, hφ, hc, hfin, hsq⟩ := hx
        by_cases hj : j < (fas t).weights.length
        · rw [vector_updateIndex_eq (by rw [hb]; exact hp) (List.getElem?_eq_getElem hj)] at hu
          obtain ⟨o', w', s1, s2⟩ := hstep _ _ φ e (hI _ (List.getElem_mem hj)) hφ (finite_of_bounded he)
            (tame_gradient hM (tame_stored hs hφ hfin hsq) he)
          rw [s1] at hu
          have e' := (Prod.mk.inj (Except.ok.inj hu)).2
          rw [← e']
          refine ⟨hb, List.length_set.trans hl, fun c hc => ?_⟩
          rcases List.mem_or_eq_of_mem_set hc with h | h
          · exact hswap _ o' c w' (hI c h) s2
          · rw [h]; exact s2
        · exfalso
          have hi' : idx (fas t).weights j = .error .indexOutOfBounds := by
            unfold idx
            rw [List.getElem?_eq_none (by omega)]
          have hp' : Basis.project (fas t).basis x = .ok (.ok φ) := by rw [hb]; exact hp
          unfold VectorLFA.updateIndex at hu
          rw [hp', P.ok_bind] at hu
          simp only [hi'] at hu
          cases hu
      | computed x f r hx hf hu =>
        have hx' := hx
        obtain ⟨φ, hp, hφ, hc, hfin, hsq⟩ := hx'
        have hp' : Basis.project (fas t).basis x = .ok (.ok φ) := by rw [hb]; exact hp
        rw [vector_updateWith_eq hp'] at hu
        cases hmat : φ.matmul (fas t).weights with
        | error p => rw [hmat] at hu; cases hu
        | ok us =>
          rw [hmat, P.ok_bind] at hu
          refine upd _ _ x _ r hb hl hI hx (hf φ us ?_) hu
          exact outputs_bounded hM hk hK hφ hc (tame_stored hs hφ hfin hsq) (fun c hc => hinv _ c (hI c hc)) hmat
  exact ⟨(inv t).1, (inv t).2.1, (inv t).2.2, pred _ (inv t).1 (inv t).2.2⟩

/-- The error of Q-learning. -/
theorem learns_trained (hM : M.rnd = binary64Format.rnd) {n k p : Nat} {s : ℝ} (hp : p ≤ 390) {b : B} {E : Environment I (FP M)}
    {fv fv' : VectorLFA B O (FP M)} {x : I} {j : Nat} (hx : Tame n k s b x) (hn : Tame n k s b (E.next x j))
    (hrew : Bounded (2 ^ 390) (E.reward x j)) (hdis : InUnit (E.discount x j)) (hl : Learns E fv x j fv')
    (hw : PredictsWithin I n k s (2 ^ p) b fv) : TrainedOutputs (I := I) n k s (2 ^ p) b fv fv' := by
  obtain ⟨qs, m, q, h1, h2, -, h4, h5⟩ := hl
  have up : ∀ {a : FP M}, Bounded (2 ^ p) a → Bounded (2 ^ 390) a := fun h => bounded_mono h (pow_le_pow_right₀ (by norm_num) hp)
  have hm := bounded_unit_mul hdis (up ((hw _ hn).1 qs h1 m h2))
  have hq := bounded_mono (up ((hw _ hx).2 j q h4)) (pow_le_pow_right₀ (by norm_num) (by norm_num) : (2 : ℝ) ^ 390 ≤ 2 ^ 391)
  have hs := (bounded_add_pow hM (by norm_num) hrew hm).1
  exact .index x j _ _ hx (bounded_mono (bounded_add_pow hM (by norm_num) hs hq).2 (pow_le_pow_right₀ (by norm_num) (by norm_num))) h5

end

theorem fp_lt_trans {a b c : FP M} (h1 : Scalar.lt a b = true) (h2 : Scalar.lt b c = true) : Scalar.lt a c = true := by
  change XReal.lt a.1 b.1 = true at h1
  change XReal.lt b.1 c.1 = true at h2
  show XReal.lt a.1 c.1 = true
  generalize a.1 = u at *
  generalize b.1 = v at *
  generalize c.1 = w at *
  cases u <;> cases v <;> cases w <;> simp_all [XReal.lt]
  exact h1.trans h2

theorem fp_lt_irrefl (a : FP M) : Scalar.lt a a = false := by
  show XReal.lt a.1 a.1 = false
  generalize a.1 = u
  cases u <;> simp [XReal.lt]

/-- One of the outputs is not below another. -/
theorem greatest_exists : ∀ l : List (FP M), l ≠ [] → ∃ m ∈ l, ∀ p ∈ l, Scalar.lt m p = false
  | [], h => absurd rfl h
  | [a], _ => ⟨a, List.mem_cons_self, fun p hp => by rw [List.mem_singleton.1 hp]; exact fp_lt_irrefl a⟩
  | a :: c :: l, _ => by
    obtain ⟨m, h1, h2⟩ := greatest_exists (c :: l) (by simp)
    cases hc : Scalar.lt m a with
    | false =>
      refine ⟨m, List.mem_cons_of_mem _ h1, fun p hp => ?_⟩
      rcases List.mem_cons.1 hp with rfl | hp
      · exact hc
      · exact h2 p hp
    | true =>
      refine ⟨a, List.mem_cons_self, fun p hp => ?_⟩
      rcases List.mem_cons.1 hp with rfl | hp
      · exact fp_lt_irrefl _
      · by_contra h
        have := fp_lt_trans hc (Bool.eq_true_of_not_eq_false h)
        rw [h2 p hp] at this
        cases this

section
variable {B I : Type} [Space B] [Basis B I (FP M)]

/-- What a run keeps: `m` outputs of `n` weights, each at most `2^K`, and predictions at most `2^(K + 140)`. -/
def Spec.StaysWithin (I : Type) [Basis B I (FP M)] {O : Type} (n k m K : Nat) (s : ℝ) (b : B) (fv : VectorLFA B O (FP M)) : Prop :=
  fv.weights.length = m ∧ (∀ c ∈ fv.weights, c.length = n ∧ ∀ i < n, Bounded (2 ^ K) (entry c i)) ∧ PredictsWithin I n k s (2 ^ (K + 140)) b fv

/-- Adagrad in `f64`, learning rate anywhere in `[-1, 1]`, any number of outputs with weights at most `2^53`. Each call is `update`,
`update_with` or `update_index` with errors up to `2^400` at an input where the basis is tame; this is required only of calls made while
predictions are at most `2^193`. Then weights stay at most `2^53` and predictions at most `2^193`, after any number of calls. -/
theorem C204_adagrad (hM : M.rnd = binary64Format.rnd) (b : B) (n k m : Nat) (s : ℝ) (lr : FP M) (hk : k ≤ 2 ^ 40) (hs : s ≤ 2 ^ 200)
    (hlr : InUnit lr) (ws : List (List (FP M))) (hm : ws.length = m) (hw : ∀ c ∈ ws, c.length = n ∧ ∀ i < n, Bounded (2 ^ 53) (entry c i))
    (fas : Nat → VectorLFA B (Adagrad (FP M)) (FP M)) (h0 : fas 0 = LFA.mk b ws (Adagrad.new n lr))
    (hr : ∀ t, PredictsWithin I n k s (2 ^ 193) b (fas t) → TrainedOutputs (I := I) n k s (2 ^ 193) b (fas t) (fas (t + 1))) (t : Nat) :
    StaysWithin I n k m 53 s b (fas t) := by
  have e : ∀ t, min (2 ^ 53 + t) (2 ^ 53) = 2 ^ 53 := fun t => min_eq_right (by omega)
  have keep : ∀ {o : Adagrad (FP M)} {w : List (FP M)}, adagradKeeps n (2 ^ 53) 1 o w → adagradKeeps n (2 ^ 53) 0 o w := by
    rintro o w ⟨h1, h2, h3, h4, h5⟩
    refine ⟨h1, h2, h3, h4, fun i hi => ?_⟩
    have := h5 i hi
    rw [e] at this ⊢
    exact this
  have out : ∀ (o : Adagrad (FP M)) (w : List (FP M)), adagradKeeps n (2 ^ 53) 0 o w → w.length = n ∧ ∀ i < n, Bounded (2 ^ 53) (entry w i) :=
    fun o w h => ⟨h.2.2.2.1, fun i hi => bounded_mono (h.2.2.2.2 i hi) (by exact_mod_cast min_le_right _ _)⟩
  obtain ⟨-, h1, h2, h3⟩ := closed_outputs (I := I) (m := m) hM (K := 53) hk hs (by norm_num) (adagradKeeps n (2 ^ 53) 0) out
    (fun o o' w w' h h' => ⟨h'.1, h'.2.1, h'.2.2.1, h.2.2.2⟩)
    (fun o w φ e h hφ he hb => by
      obtain ⟨o', w', g1, g2⟩ := adagradKeeps_step hM h hφ he fun i x hx => finite_of_bounded (hb i x hx).2
      exact ⟨o', w', g1, keep g2⟩)
    (by rw [h0]) (by rw [h0]; exact hm) (by
      rw [h0]
      intro c hc
      refine ⟨hlr, List.length_replicate .., fun i hi => ?_, (hw c hc).1, fun i hi => ?_⟩
      · show NonNeg (entry (List.replicate n Scalar.zero) i)
        rw [entry_replicate]; exact nonNeg_zero
      · rw [e]
        exact bounded_mono ((hw c hc).2 i hi) (by norm_num)) hr t
  exact ⟨h1, fun c hc => out _ c (h2 c hc), h3⟩

/-- The same with AdaMax, decay rates `0 ≤ β₁ < β₂ < 1` at least `2^-40` apart: weights at most `2^161`, predictions at most `2^301`. -/
theorem C204_adamax (hM : M.rnd = binary64Format.rnd) (b : B) (n k m : Nat) (s b₁ b₂ : ℝ) (lr β₁ β₂ : FP M) (hk : k ≤ 2 ^ 40)
    (hs : s ≤ 2 ^ 200) (hlr : InUnit lr) (h1 : Is β₁ b₁) (h2 : Is β₂ b₂) (b0 : 0 ≤ b₁) (h12 : b₁ + 2 ^ (-40 : ℤ) ≤ b₂) (hb : b₂ < 1)
    (ws : List (List (FP M))) (hm : ws.length = m) (hw : ∀ c ∈ ws, c.length = n ∧ ∀ i < n, Bounded (2 ^ 161) (entry c i))
    (fas : Nat → VectorLFA B (AdaMax (FP M)) (FP M)) (h0 : fas 0 = LFA.mk b ws (AdaMax.new n lr β₁ β₂))
    (hr : ∀ t, PredictsWithin I n k s (2 ^ 301) b (fas t) → TrainedOutputs (I := I) n k s (2 ^ 301) b (fas t) (fas (t + 1))) (t : Nat) :
    StaysWithin I n k m 161 s b (fas t) := by
  have p40 : (0 : ℝ) < 2 ^ (-40 : ℤ) := by positivity
  have out : ∀ (o : AdaMax (FP M)) (w : List (FP M)), adamaxKeeps n β₁ β₂ 0 o w → w.length = n ∧ ∀ i < n, Bounded (2 ^ 161) (entry w i) :=
    fun o w h => ⟨h.2.2.2.2.1, h.2.2.2.2.2⟩
  obtain ⟨-, g1, g2, g3⟩ := closed_outputs (I := I) (m := m) hM (K := 161) hk hs (by norm_num) (adamaxKeeps n β₁ β₂ 0) out
    (fun o o' w w' h h' => ⟨h'.1, h'.2.1, h'.2.2.1, h'.2.2.2.1, h.2.2.2.2⟩)
    (fun o w φ e h hφ he hg => adamaxKeeps_step hM h1 h2 b0 h12 hb h hφ he hg)
    (by rw [h0]) (by rw [h0]; exact hm) (by
      rw [h0]
      intro c hc
      refine ⟨⟨hlr, rfl, rfl, b₁, h1, b0, by linarith⟩, List.length_replicate .., List.length_replicate .., fun i hi => ?_, hw c hc⟩
      show adamaxPair (entry (List.replicate n Scalar.zero) i) (entry (List.replicate n Scalar.zero) i)
      rw [entry_replicate]; exact adamaxPair_zero) hr t
  exact ⟨g1, fun c hc => out _ c (g2 c hc), g3⟩

/-- The same with Adam, decay rates with `β₁² < β₂` at least `2^-40` apart. -/
theorem C204_adam (hM : M.rnd = binary64Format.rnd) (b : B) (n k m : Nat) (s b₁ b₂ : ℝ) (lr β₁ β₂ : FP M) (hk : k ≤ 2 ^ 40)
    (hs : s ≤ 2 ^ 200) (hlr : InUnit lr) (h1 : Is β₁ b₁) (h2 : Is β₂ b₂) (b0 : 0 ≤ b₁) (b1 : b₁ < 1)
    (h12 : b₁ ^ 2 + 2 ^ (-40 : ℤ) ≤ b₂) (hb : b₂ < 1)
    (ws : List (List (FP M))) (hm : ws.length = m) (hw : ∀ c ∈ ws, c.length = n ∧ ∀ i < n, Bounded (2 ^ 161) (entry c i))
    (fas : Nat → VectorLFA B (Adam (FP M)) (FP M)) (h0 : fas 0 = LFA.mk b ws (Adam.new n lr β₁ β₂))
    (hr : ∀ t, PredictsWithin I n k s (2 ^ 301) b (fas t) → TrainedOutputs (I := I) n k s (2 ^ 301) b (fas t) (fas (t + 1))) (t : Nat) :
    StaysWithin I n k m 161 s b (fas t) := by
  have p40 : (0 : ℝ) < 2 ^ (-40 : ℤ) := by positivity
  have b20 : 0 ≤ b₂ := by have := sq_nonneg b₁; linarith
  have out : ∀ (o : Adam (FP M)) (w : List (FP M)), adamKeeps n β₁ β₂ 0 o w → w.length = n ∧ ∀ i < n, Bounded (2 ^ 161) (entry w i) :=
    fun o w h => ⟨h.2.2.2.2.1, h.2.2.2.2.2⟩
  obtain ⟨-, g1, g2, g3⟩ := closed_outputs (I := I) (m := m) hM (K := 161) hk hs (by norm_num) (adamKeeps n β₁ β₂ 0) out
    (fun o o' w w' h h' => ⟨h'.1, h'.2.1, h'.2.2.1, h'.2.2.2.1, h.2.2.2.2⟩)
    (fun o w φ e h hφ he hg => adamKeeps_step hM h1 h2 b0 b1 h12 hb h hφ he hg)
    (by rw [h0]) (by rw [h0]; exact hm) (by
      rw [h0]
      intro c hc
      refine ⟨⟨hlr, rfl, rfl, ⟨b₁, h1, b0, b1⟩, b₂, h2, b20, hb⟩, List.length_replicate .., List.length_replicate .., fun i hi => ?_, hw c hc⟩
      show adamPair (entry (List.replicate n Scalar.zero) i) (entry (List.replicate n Scalar.zero) i)
      rw [entry_replicate]; exact adamPair_zero) hr t
  exact ⟨g1, fun c hc => out _ c (g2 c hc), g3⟩

/-- A call of Q-learning is such a call, in all three cases: rewards up to `2^390`, discounts in `[-1, 1]`, the basis tame at the input and at
the next one. -/
theorem C204_q_learning {O : Type} [Optimiser O (FP M)] (hM : M.rnd = binary64Format.rnd) (n k : Nat) (s : ℝ) (b : B)
    (E : Environment I (FP M)) (fv fv' : VectorLFA B O (FP M)) (x : I) (j : Nat) (hx : Tame n k s b x) (hn : Tame n k s b (E.next x j))
    (hrew : Bounded (2 ^ 390) (E.reward x j)) (hdis : InUnit (E.discount x j)) (hl : Learns E fv x j fv') :
    (PredictsWithin I n k s (2 ^ 193) b fv → TrainedOutputs (I := I) n k s (2 ^ 193) b fv fv') ∧
    (PredictsWithin I n k s (2 ^ 301) b fv → TrainedOutputs (I := I) n k s (2 ^ 301) b fv fv') :=
  ⟨learns_trained hM (by norm_num) hx hn hrew hdis hl, learns_trained hM (by norm_num) hx hn hrew hdis hl⟩

/-- Q-learning can make every call, whatever the inputs, actions and environment. -/
theorem C204_runs {O : Type} [Optimiser O (FP M)] [HasSize O] [Safe (K := FP M) O] (b : B) (n m : Nat) (E : Environment I (FP M))
    (xs : Nat → I) (as : Nat → Nat) (ha : ∀ t, as t < m)
    (hx : ∀ t, ∃ φ : Features (FP M), Basis.project b (xs t) = .ok (.ok φ) ∧ Fits n φ)
    (hn : ∀ t, ∃ φ : Features (FP M), Basis.project b (E.next (xs t) (as t)) = .ok (.ok φ) ∧ Fits n φ) (o : O) (ho : HasSize.sized n o)
    (ws : List (List (FP M))) (hm : ws.length = m) (hw : ∀ c ∈ ws, c.length = n) :
    ∃ fas : Nat → VectorLFA B O (FP M), fas 0 = LFA.mk b ws o ∧ ∀ t, Learns E (fas t) (xs t) (as t) (fas (t + 1)) := by
  let Good : VectorLFA B O (FP M) → Prop := fun fv => fv.basis = b ∧ fv.weights.length = m ∧ (∀ c ∈ fv.weights, c.length = n) ∧
    HasSize.sized n fv.optimiser
  have step : ∀ (t : Nat) (fv : {fv : VectorLFA B O (FP M) // Good fv}), ∃ fv' : {fv : VectorLFA B O (FP M) // Good fv},
      Learns E fv.1 (xs t) (as t) fv'.1 := by
    rintro t ⟨fv, rfl, h2, h3, h4⟩
    obtain ⟨φ, hp, hφ⟩ := hx t
    obtain ⟨ψ, hq, hψ⟩ := hn t
    obtain ⟨qs, hqs⟩ := matmul_safe hψ h3
    have hl := (matmul_columns _ _ _ hqs).1
    have hat : as t < fv.weights.length := by rw [h2]; exact ha t
    obtain ⟨g, g1, g2⟩ := greatest_exists qs (by rintro rfl; simp at hl; omega)
    have hc := h3 _ (List.getElem_mem hat)
    obtain ⟨v, hv⟩ := dotColumn_safe fv.weights.length hφ hc
    obtain ⟨o', w', e1, e2, e3⟩ := Safe.scaled (o := fv.optimiser) (E.reward (xs t) (as t) +. E.discount (xs t) (as t) *. g -. v) h4 hc hφ
    refine ⟨⟨⟨fv.basis, fv.weights.set (as t) w', o'⟩, rfl, List.length_set.trans h2, fun c hcm => ?_, e2⟩, qs, g, v, ?_, g1, g2, ?_, ?_⟩
    · rcases List.mem_or_eq_of_mem_set hcm with h | h
      · exact h3 c h
      · rw [h]; exact e3
    · rw [vector_evaluate_eq hq, hqs]; rfl
    · rw [vector_evaluateIndex_eq hp (List.getElem?_eq_getElem hat), hv]; rfl
    · rw [vector_updateIndex_eq hp (List.getElem?_eq_getElem hat), e1]; rfl
  choose next hnx using step
  let run : Nat → {fv : VectorLFA B O (FP M) // Good fv} := fun t =>
    Nat.rec ⟨⟨b, ws, o⟩, rfl, hm, hw, ho⟩ (fun t fv => next t fv) t
  exact ⟨fun t => (run t).1, rfl, fun t => hnx t (run t)⟩

end

/-- The hypotheses are met: Q-learning with Adam, rate 1 and the usual decay rates, on a tile coding of 16 tilings from the constructor on, with
any number of actions, rewards up to one and discounts in `[-1, 1]`, in any environment. However long it runs, every weight is finite. -/
theorem C204_example (hM : M.rnd = binary64Format.rnd) {H : Type} [BuildHasher H] (b : TileCoding H) (h1 : b.nTilings = 16) (m : Nat)
    (E : Environment (List (FP M)) (FP M)) (hE : ∀ x j, InUnit (E.reward x j) ∧ InUnit (E.discount x j))
    (xs : Nat → List (FP M)) (as : Nat → Nat) (ha : ∀ t, as t < m)
    (hx : ∀ t, ∃ φ : Features (FP M), Basis.project b (xs t) = .ok (.ok φ))
    (hn : ∀ t, ∃ φ : Features (FP M), Basis.project b (E.next (xs t) (as t)) = .ok (.ok φ)) :
    ∃ fas : Nat → VectorLFA (TileCoding H) (Adam (FP M)) (FP M),
      VectorLFA.vector b (Adam.new b.memorySize Scalar.one (M.round (.fin 0.9)) (M.round (.fin 0.999))) m = .ok (fas 0) ∧
      (∀ t, Learns E (fas t) (xs t) (as t) (fas (t + 1))) ∧
      ∀ t, ∀ c ∈ (fas t).weights, ∀ i < b.memorySize, Bounded (2 ^ 161) (entry c i) := by
  have tame : ∀ x : List (FP M), (∃ φ : Features (FP M), Basis.project b x = .ok (.ok φ)) → Tame b.memorySize 16 16 b x := fun x hx => by
    obtain ⟨φ, hp⟩ := hx
    have := (C193_tile_coding b x φ hp).2
    rw [h1] at this
    exact_mod_cast this
  have fits : ∀ x : List (FP M), (∃ φ : Features (FP M), Basis.project b x = .ok (.ok φ)) →
      ∃ φ : Features (FP M), Basis.project b x = .ok (.ok φ) ∧ Fits b.memorySize φ := fun x hx => by
    obtain ⟨φ, hp, hf, -⟩ := tame x hx
    exact ⟨φ, hp, hf⟩
  have hcol : ∀ c ∈ List.replicate m (List.replicate b.memorySize (Scalar.zero : FP M)), c = List.replicate b.memorySize Scalar.zero :=
    fun c hc => (List.mem_replicate.1 hc).2
  obtain ⟨fas, h2, h3⟩ := C204_runs b b.memorySize m E xs as ha (fun t => fits _ (hx t)) (fun t => fits _ (hn t))
    (Adam.new b.memorySize Scalar.one (M.round (.fin 0.9)) (M.round (.fin 0.999)))
    (show _ ∧ _ from ⟨List.length_replicate .., List.length_replicate ..⟩) (List.replicate m (List.replicate b.memorySize Scalar.zero))
    (List.length_replicate ..) (fun c hc => by rw [hcol c hc]; exact List.length_replicate ..)
  obtain ⟨b₁, b₂, u1, u2, u3, u4, -, u6, u7⟩ := C202_usual hM
  refine ⟨fas, by rw [h2]; exact (C59_shape b _ m _ rfl).2, h3, fun t c hc => ?_⟩
  exact ((C204_adam (I := List (FP M)) hM b b.memorySize 16 m 16 b₁ b₂ Scalar.one _ _ (by norm_num)
    ((by norm_num : (16 : ℝ) ≤ 2 ^ 5).trans (pow_le_pow_right₀ (by norm_num) (by norm_num))) ⟨1, val_one, by norm_num⟩ u1 u2 u3 u4 u6 u7
    _ (List.length_replicate ..) (fun c hc => by
      rw [hcol c hc]
      exact ⟨List.length_replicate .., fun i _ => by rw [entry_replicate]; exact bounded_zero (by positivity)⟩) fas h2
    (fun t => (C204_q_learning hM b.memorySize 16 16 b E _ _ (xs t) (as t) (tame _ (hx t)) (tame _ (hn t))
      (bounded_mono (hE _ _).1 (one_le_pow₀ (by norm_num))) (hE _ _).2 (h3 t)).2) t).2.1 c hc).2

end Lfa

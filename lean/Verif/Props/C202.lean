import Verif.Props.C193
import Verif.Props.C90
import Verif.Props.C91
import Verif.Props.C167

/-!
# C202: the adaptive optimisers cannot be driven to overflow by their own predictions

With SGD a learning rate that is too large makes the predictions, and so the errors fed back, grow without bound (C194). Adagrad, AdaMax
and Adam divide by the size of the gradients they have seen, also in `f64`: every weight stays below a fixed bound, over any number of
calls, whatever the inputs, the targets and the learning rate in `[-1, 1]`.
-/

set_option linter.unusedSectionVars false

namespace Lfa

open Spec Machine XReal

variable {M : Machine}

/-! ## Weights that stay within a bound -/

/-- A weight that moves by at most `2^j` never gets beyond `2^(j + 53)`: there the step is lost in the rounding. -/
theorem stay (hM : M.rnd = binary64Format.rnd) {w d : FP M} {j : Nat} (hj : j + 53 ≤ 1023) (hw : Bounded (2 ^ (j + 53)) w)
    (hd : Bounded (2 ^ j) d) : Bounded (2 ^ (j + 53)) (w +. d) := by
  refine bounded_share hM hj (b := 1) (c := 2 ^ (-53 : ℤ)) (by rwa [one_mul]) ?_ le_rfl
  refine bounded_mono hd (le_of_eq ?_)
  rw [← zpow_natCast, ← zpow_natCast, ← zpow_add₀ (by norm_num)]
  congr 1
  push_cast
  ring

/-- A weight that moves by at most 1 grows by at most 1, without rounding, up to `2^53`. -/
theorem creep (hM : M.rnd = binary64Format.rnd) {w d : FP M} {a : Nat} (ha : a + 1 ≤ 2 ^ 53) (hw : Bounded a w) (hd : InUnit d) :
    Bounded ((a + 1 : Nat) : ℝ) (w +. d) := by
  obtain ⟨r, hr, h1⟩ := hw
  obtain ⟨q, hq, h2⟩ := hd
  refine bounded_rnd (x := r + q) (by rw [val_add, hr, hq]; rfl) ?_ ?_
  · push_cast
    exact (abs_add_le r q).trans (add_le_add h1 h2)
  · have := binary64Format.rnd_exact (m := ((a + 1 : Nat) : ℤ)) (e := 0) (by
      rw [abs_of_nonneg (by positivity)]
      show ((a + 1 : Nat) : ℤ) ≤ 2 ^ 53
      exact_mod_cast ha) (by decide) (by
      rw [zpow_zero, mul_one, Int.cast_natCast, abs_of_nonneg (by positivity)]
      calc ((a + 1 : Nat) : ℝ) ≤ 2 ^ 53 := by exact_mod_cast ha
        _ < _ := two_pow_lt (by norm_num))
    rw [zpow_zero, mul_one, Int.cast_natCast] at this
    rw [hM, this]

section
variable {B I O : Type} [Space B] [Basis B I (FP M)] [Optimiser O (FP M)]

/-- Training with an optimiser that keeps an invariant and a bound of the weights under moderate gradients. -/
theorem closed_loop (hM : M.rnd = binary64Format.rnd) {n k K : Nat} {s : ℝ} (hk : k ≤ 2 ^ 40) (hs : s ≤ 2 ^ 200) (hK : K ≤ 250)
    (Inv : Nat → O → List (FP M) → Prop)
    (hinv : ∀ t o w, Inv t o w → w.length = n ∧ ∀ i < n, Bounded (2 ^ K) (entry w i))
    (hstep : ∀ t (o : O) (w : List (FP M)) (φ : Features (FP M)) (e : FP M), Inv t o w → Fits n φ → Spec.Finite e →
      (∀ i a, Stored φ i a → Bounded (2 ^ 500) a ∧ Bounded (2 ^ 500) (a *. e)) →
      ∃ o' w', Optimiser.stepScaled o w φ e = .ok (.ok (), o', w') ∧ Inv (t + 1) o' w')
    {b : B} {fas : Nat → ScalarLFA B O (FP M)} {xs : Nat → I} {fs : Nat → FP M → FP M} (h0 : (fas 0).basis = b)
    (hi : Inv 0 (fas 0).optimiser (fas 0).weights) (hx : ∀ t, Tame n k s b (xs t))
    (hf : ∀ t p, Bounded (2 ^ (K + 140)) p → Bounded (2 ^ 400) (fs t p))
    (hr : ∀ t, CanUpdateWith (fas t) (xs t) (fs t) (fas (t + 1))) (t : Nat) :
    (fas t).basis = b ∧ Inv t (fas t).optimiser (fas t).weights ∧
      ∀ (x : I) (v : FP M), Tame n k s b x → CanEvaluate (fas t) x v → Bounded (2 ^ (K + 140)) v := by
  have feat : ∀ {φ : Features (FP M)}, Fits n φ → (∀ i a, Stored φ i a → Spec.Finite a) →
      ∑ i ∈ Finset.range n, real (value φ i) ^ 2 ≤ s → ∀ i a, Stored φ i a → Bounded (2 ^ 100) a := by
    intro φ hφ hfin hsq i a ha
    obtain ⟨r, hr⟩ := hfin i a ha
    refine ⟨r, hr, ?_⟩
    have hi : i < n := by
      rw [← hφ.2]
      cases φ with
      | dense da => exact (List.getElem?_eq_some_iff.1 ha).1
      | sparse sa => exact hφ.1.2 _ ha
    have h1 := Finset.single_le_sum (f := fun i => real (value φ i) ^ 2) (fun j _ => sq_nonneg _) (Finset.mem_range.2 hi)
    simp only [value_of_stored (keysUnique_of_wf hφ.1) ha, is_real hr] at h1
    refine abs_le_of_sq_le_sq ?_ (by positivity)
    rw [← pow_mul]
    exact h1.trans (hsq.trans hs)
  have pred : ∀ {φ ψ : Features (FP M)} {w : List (FP M)} {v : FP M}, Fits n φ → storedCount φ ≤ k →
      (∀ i a, Stored φ i a → Bounded (2 ^ 100) a) → Same φ ψ → w.length = n → (∀ i < n, Bounded (2 ^ K) (entry w i)) →
      ψ.dot w = .ok v → Bounded (2 ^ (K + 140)) v := by
    intro φ ψ w v hφ hc hb hsame hw hwb hd
    have hc' : storedCount ψ ≤ 2 ^ 40 := by rw [storedCount_same hsame]; exact hc.trans hk
    have := dotColumn_bounded hM 1 (fits_same hsame hφ) hw (by rw [dotColumn_one]; exact hd) (a := 100) (b := K) (by omega)
      (fun i a ha => hb i a ((stored_same hsame i a).1 ha)) hwb (hc'.trans (by norm_num))
    refine bounded_mono this ?_
    calc (storedCount ψ : ℝ) * 2 ^ (100 + K) ≤ 2 ^ 40 * 2 ^ (100 + K) :=
          mul_le_mul_of_nonneg_right (by exact_mod_cast hc') (by positivity)
      _ = 2 ^ (K + 140) := by rw [← pow_add]; congr 1; omega
  have inv : ∀ t, (fas t).basis = b ∧ Inv t (fas t).optimiser (fas t).weights := by
    intro t
    induction t with
    | zero => exact ⟨h0, hi⟩
    | succ t ih =>
      obtain ⟨hb, hI⟩ := ih
      obtain ⟨hw, hwb⟩ := hinv _ _ _ hI
      obtain ⟨φ, hp, hφ, hc, hfin, hsq⟩ := hx t
      obtain ⟨φ', ψ, hp', hsame, v, o, w, hd, hst, e⟩ := hr t
      rw [hb, hp] at hp'
      cases hp'
      have hbd := feat hφ hfin hsq
      have hv := hf t v (pred hφ hc hbd hsame hw hwb hd)
      obtain ⟨o', w', g1, g2⟩ := hstep t _ _ ψ (fs t v) hI (fits_same hsame hφ) (finite_of_bounded hv) fun i a ha => by
        have ha' := hbd i a ((stored_same hsame i a).1 ha)
        refine ⟨bounded_mono ha' (pow_le_pow_right₀ (by norm_num) (by norm_num)), ?_⟩
        obtain ⟨r, hr, h1⟩ := ha'
        obtain ⟨q, hq, h2⟩ := hv
        refine bounded_rnd (x := r * q) (by rw [val_mul, hr, hq]; rfl) ?_ (rnd_two_pow hM (by norm_num))
        rw [abs_mul, show (2 : ℝ) ^ 500 = 2 ^ 100 * 2 ^ 400 by rw [← pow_add]]
        exact mul_le_mul h1 h2 (abs_nonneg _) (by positivity)
      rw [hst] at g1
      cases g1
      rw [e]
      exact ⟨hb, g2⟩
  refine ⟨(inv t).1, (inv t).2, fun x v htame hev => ?_⟩
  obtain ⟨φ, hp, hφ, hc, hfin, hsq⟩ := htame
  obtain ⟨φ', ψ, hp', hsame, hd⟩ := hev
  rw [(inv t).1, hp] at hp'
  cases hp'
  obtain ⟨hw, hwb⟩ := hinv _ _ _ (inv t).2
  exact pred hφ hc (feat hφ hfin hsq) hsame hw hwb hd

end

/-- The error `y - p` of a bounded target and a bounded prediction. -/
theorem error_bounded (hM : M.rnd = binary64Format.rnd) {y p : FP M} (hy : Bounded (2 ^ 390) y) (hp : Bounded (2 ^ 390) p) :
    Bounded (2 ^ 400) (y -. p) := by
  obtain ⟨r, hr, h1⟩ := hy
  obtain ⟨q, hq, h2⟩ := hp
  refine bounded_rnd (x := r - q) (by rw [val_sub, hr, hq, sub_eq_add_neg]; rfl) ?_ (rnd_two_pow hM (by norm_num))
  have h3 := abs_sub r q
  have h4 : (2 : ℝ) ^ 400 = 2 ^ 10 * 2 ^ 390 := by rw [← pow_add]
  have h5 : (0 : ℝ) < 2 ^ 390 := by positivity
  rw [h4]
  clear h4
  generalize (2 : ℝ) ^ 390 = z at *
  linarith

/-! ## Adagrad -/

/-- The step of a weight is at most 1. -/
theorem adagrad_move (hM : M.rnd = binary64Format.rnd) {lr acc g : FP M} (hlr : InUnit lr) (ha : NonNeg acc) (hg : Spec.Finite g) :
    InUnit (lr *. g /. (Scalar.sqrt (acc +. Scalar.powi g 2) +. EPS)) := by
  obtain ⟨-, -, hsq⟩ := adagrad_acc ha hg
  obtain ⟨r, hr⟩ := hg
  obtain ⟨h1, h2⟩ := adagrad_denominator hM hr hsq
  obtain ⟨q, hq, hqr⟩ := mul_unit hlr hr
  exact div_bounded hq (le_trans' (fin_le_fin.2 hqr) h1) h2

/-- What an Adagrad history keeps: `a` bounds the initial weights. -/
def adagradKeeps (n a : Nat) (t : Nat) (o : Adagrad (FP M)) (w : List (FP M)) : Prop :=
  InUnit o.learningRate ∧ o.accumulator.length = n ∧ (∀ i < n, NonNeg (entry o.accumulator i)) ∧ w.length = n ∧
    ∀ i < n, Bounded ((min (a + t) (2 ^ 53) : Nat) : ℝ) (entry w i)

theorem adagradKeeps_step (hM : M.rnd = binary64Format.rnd) {n a t : Nat} {o : Adagrad (FP M)} {w : List (FP M)}
    (h : adagradKeeps n a t o w) {φ : Features (FP M)} {e : FP M} (hφ : Fits n φ) (he : Spec.Finite e)
    (hb : ∀ i x, Stored φ i x → Spec.Finite (x *. e)) :
    ∃ o' w', Optimiser.stepScaled o w φ e = .ok (.ok (), o', w') ∧ adagradKeeps n a (t + 1) o' w' := by
  obtain ⟨h1, h2, h3, h4, h5⟩ := h
  obtain ⟨acc, w', g1, g2, g3, g4⟩ := adagrad_scaled hφ o h2 e h4
  refine ⟨_, w', g1, h1, g2, fun i hi => ?_, g3, fun i hi => ?_⟩
  · show NonNeg (entry acc i)
    rw [(g4 i hi).1]
    exact (adagrad_acc (h3 i hi) (gradient_finite hφ.1 he hb i)).1
  · rw [(g4 i hi).2]
    have hm := adagrad_move hM h1 (h3 i hi) (gradient_finite hφ.1 he hb i)
    by_cases hat : a + t + 1 ≤ 2 ^ 53
    · have := h5 i hi
      rw [min_eq_left (by omega)] at this
      rw [show a + (t + 1) = a + t + 1 from rfl, min_eq_left hat]
      exact creep hM hat this hm
    · rw [min_eq_right (by omega)]
      have hw : Bounded (2 ^ (0 + 53)) (entry w i) := bounded_mono (h5 i hi) (by
        rw [zero_add]
        exact_mod_cast min_le_right _ _)
      have := stay hM (j := 0) (by norm_num) hw (by rw [pow_zero]; exact hm)
      rw [zero_add] at this
      exact_mod_cast this

section
variable {B I : Type} [Space B] [Basis B I (FP M)]

/-- Adagrad in `f64`, learning rate anywhere in `[-1, 1]`, weights initially at most `a`, at inputs where the basis is tame, each hash
map iterating in any order at each call. The error fed back may be any function of the prediction that stays below `2^400` while the
prediction stays below `2^193`. After any number `t` of calls every weight is at most `min (a + t) 2^53` in size, and whatever `evaluate`
can return at a tame input is at most `2^193`. -/
theorem C202_adagrad (hM : M.rnd = binary64Format.rnd) (b : B) (n k a : Nat) (s : ℝ) (lr : FP M) (hk : k ≤ 2 ^ 40) (hs : s ≤ 2 ^ 200)
    (hlr : InUnit lr) (w : List (FP M)) (hw : w.length = n) (ha : a ≤ 2 ^ 53) (hwa : ∀ x ∈ w, Bounded a x)
    (fas : Nat → ScalarLFA B (Adagrad (FP M)) (FP M)) (h0 : fas 0 = LFA.mk b w (Adagrad.new n lr)) (xs : Nat → I)
    (fs : Nat → FP M → FP M) (hx : ∀ t, Tame n k s b (xs t)) (hf : ∀ t p, Bounded (2 ^ 193) p → Bounded (2 ^ 400) (fs t p))
    (hr : ∀ t, CanUpdateWith (fas t) (xs t) (fs t) (fas (t + 1))) (t : Nat) :
    (fas t).weights.length = n ∧ (∀ i < n, Bounded ((min (a + t) (2 ^ 53) : Nat) : ℝ) (entry (fas t).weights i)) ∧
    ∀ (x : I) (v : FP M), Tame n k s b x → CanEvaluate (fas t) x v → Bounded (2 ^ 193) v := by
  obtain ⟨-, h1, h2⟩ := closed_loop hM (K := 53) hk hs (by norm_num) (adagradKeeps n a)
    (fun t o w h => ⟨h.2.2.2.1, fun i hi => bounded_mono (h.2.2.2.2 i hi) (by exact_mod_cast min_le_right _ _)⟩)
    (fun t o w φ e h hφ he hb => adagradKeeps_step hM h hφ he fun i x hx => finite_of_bounded (hb i x hx).2)
    (by rw [h0]) (by
      rw [h0]
      refine ⟨hlr, List.length_replicate .., fun i hi => ?_, hw, fun i hi => ?_⟩
      · show NonNeg (entry (List.replicate n Scalar.zero) i)
        rw [entry_replicate]; exact nonNeg_zero
      · rw [Nat.add_zero, min_eq_left ha]
        exact to_entries hw hwa i hi) hx hf hr t
  exact ⟨h1.2.2.2.1, h1.2.2.2.2, h2⟩

end

/-! ## Moving averages and their divisors, as real numbers -/

/-- AdaMax: one call keeps the average within a multiple of the divisor, when the average forgets faster than the divisor. -/
theorem adamax_ratio {b₁ b₂ m u x y z p U G η τ : ℝ} (h1 : 0 ≤ b₁) (h12 : b₁ + 2 ^ (-40 : ℤ) ≤ b₂) (h2 : b₂ ≤ 1) (hu : 0 ≤ u) (η0 : 0 ≤ η)
    (hητ : 2 ^ 100 * τ ≤ η) (hG : 0 ≤ G) (hm : |m| ≤ 2 ^ 42 * u + η) (hx : |x - b₁ * m| ≤ roundoff * |b₁ * m| + τ) (hy : |y| ≤ G)
    (hz : |z - (x + y)| ≤ roundoff * |x + y|) (hp : |p - b₂ * u| ≤ roundoff * |b₂ * u| + τ) (hpU : p ≤ U) (hGU : G ≤ U) :
    |z| ≤ 2 ^ 42 * U + η := by
  have e : roundoff = 1 / 9007199254740992 := by unfold roundoff; norm_num
  have ed : (2 : ℝ) ^ (-40 : ℤ) = 1 / 1099511627776 := by norm_num
  have b20 : 0 ≤ b₂ := by rw [ed] at h12; linarith
  rw [e, abs_mul, abs_of_nonneg h1] at hx
  rw [e, abs_of_nonneg (mul_nonneg b20 hu)] at hp
  rw [e] at hz
  rw [ed] at h12
  have a1 := abs_sub_abs_le_abs_sub x (b₁ * m)
  rw [abs_mul, abs_of_nonneg h1] at a1
  have a2 := abs_add_le x y
  have a3 := abs_sub_abs_le_abs_sub z (x + y)
  have a4 := (abs_le.1 hp).1
  have a5 : b₁ * |m| ≤ b₁ * (2 ^ 42 * u + η) := mul_le_mul_of_nonneg_left hm h1
  have a6 : b₁ * u ≤ (1 - 1 / 1099511627776) * (b₂ * u) := by
    have := mul_le_mul_of_nonneg_right h12 hu
    have := mul_le_mul_of_nonneg_right h2 hu
    linarith
  have a7 : b₁ * η ≤ (1 - 1 / 1099511627776) * η := mul_le_mul_of_nonneg_right (by linarith) η0
  have U0 : 0 ≤ U := hG.trans hGU
  have a8 : b₁ * (2 ^ 42 * u + η) = 2 ^ 42 * (b₁ * u) + b₁ * η := by ring
  rw [a8] at a5
  generalize b₁ * u = q1 at *
  generalize b₁ * η = q2 at *
  generalize b₁ * |m| = q3 at *
  generalize b₂ * u = q4 at *
  generalize |x + y| = q5 at *
  generalize |x| = q6 at *
  generalize |y| = q7 at *
  generalize |z| = q8 at *
  norm_num at *
  linarith

/-- Adam: the same with the square of the average and the average of squares. -/
theorem adam_ratio {b₁ b₂ m v x y z p q V G η τ : ℝ} (h1 : 0 ≤ b₁) (h12 : b₁ ^ 2 + 2 ^ (-40 : ℤ) ≤ b₂) (h2 : b₂ ≤ 1) (hv : 0 ≤ v)
    (η0 : 0 ≤ η) (τ0 : 0 ≤ τ) (τ1 : τ ≤ 1) (hητ : 2 ^ 200 * τ ≤ η) (hG : 0 ≤ G) (hm : m ^ 2 ≤ 2 ^ 102 * v + η)
    (hx : |x - b₁ * m| ≤ roundoff * |b₁ * m| + τ) (hy : |y| ≤ G) (hz : |z - (x + y)| ≤ roundoff * |x + y|)
    (hp : |p - b₂ * v| ≤ roundoff * |b₂ * v| + τ) (hq : 2 ^ (-54 : ℤ) * G ^ 2 - 2 * τ ≤ q) (hV : |V - (p + q)| ≤ roundoff * |p + q|)
    (hp0 : 0 ≤ p) (hq0 : 0 ≤ q) : z ^ 2 ≤ 2 ^ 102 * V + η := by
  have e : roundoff = 1 / 9007199254740992 := by unfold roundoff; norm_num
  have ed : (2 : ℝ) ^ (-40 : ℤ) = 1 / 1099511627776 := by norm_num
  have eq : (2 : ℝ) ^ (-54 : ℤ) = 1 / 18014398509481984 := by norm_num
  have b1s := sq_nonneg b₁
  have b20 : 0 ≤ b₂ := by rw [ed] at h12; linarith
  rw [e, abs_mul, abs_of_nonneg h1] at hx
  rw [e, abs_of_nonneg (mul_nonneg b20 hv)] at hp
  rw [e] at hz
  rw [e, abs_of_nonneg (add_nonneg hp0 hq0)] at hV
  rw [ed] at h12
  rw [eq] at hq
  -- the average
  have X0 : 0 ≤ b₁ * |m| := mul_nonneg h1 (abs_nonneg m)
  have a0 : |z| ≤ (1 + 3 / 9007199254740992) * (b₁ * |m|) + (2 * G + 2 * τ) := by
    have a1 := abs_sub_abs_le_abs_sub x (b₁ * m)
    rw [abs_mul, abs_of_nonneg h1] at a1
    have a2 := abs_add_le x y
    have a3 := abs_sub_abs_le_abs_sub z (x + y)
    linarith
  have a1 : z ^ 2 ≤ ((1 + 3 / 9007199254740992) * (b₁ * |m|) + (2 * G + 2 * τ)) ^ 2 := by
    rw [← sq_abs z]
    exact pow_le_pow_left₀ (abs_nonneg z) a0 2
  have a2 : ∀ X Y : ℝ, (X + Y) ^ 2 ≤ (1 + 1 / 4398046511104) * X ^ 2 + (1 + 4398046511104) * Y ^ 2 := fun X Y => by
    nlinarith [sq_nonneg (X - 4398046511104 * Y)]
  have a3 := a1.trans (a2 _ _)
  have a4 : ((1 + 3 / 9007199254740992) * (b₁ * |m|)) ^ 2 = (1 + 3 / 9007199254740992) ^ 2 * (b₁ ^ 2 * m ^ 2) := by
    rw [mul_pow, mul_pow, sq_abs]
  have a5 : (2 * G + 2 * τ) ^ 2 ≤ 8 * G ^ 2 + 8 * τ := by
    nlinarith [sq_nonneg (G - τ), mul_nonneg τ0 (sub_nonneg.2 τ1)]
  have a6 : b₁ ^ 2 * m ^ 2 ≤ b₁ ^ 2 * (2 ^ 102 * v + η) := mul_le_mul_of_nonneg_left hm b1s
  have a7 : b₁ ^ 2 * (2 ^ 102 * v + η) = 2 ^ 102 * (b₁ ^ 2 * v) + b₁ ^ 2 * η := by ring
  have a8 : b₁ ^ 2 * v ≤ b₂ * v - 1 / 1099511627776 * v := by
    have := mul_le_mul_of_nonneg_right h12 hv
    linarith
  have a9 : b₁ ^ 2 * η ≤ η - 1 / 1099511627776 * η := by
    have := mul_le_mul_of_nonneg_right (h12.trans h2) η0
    linarith
  have a10 : b₂ * v ≤ v := mul_le_of_le_one_left hv h2
  rw [a4] at a3
  rw [a7] at a6
  have a11 := (abs_le.1 hp).1
  have a12 := (abs_le.1 hV).1
  have a13 := sq_nonneg G
  generalize b₁ ^ 2 * m ^ 2 = q1 at *
  generalize b₁ ^ 2 * v = q2 at *
  generalize b₁ ^ 2 * η = q3 at *
  generalize b₂ * v = q4 at *
  generalize (2 * G + 2 * τ) ^ 2 = q5 at *
  generalize G ^ 2 = q6 at *
  generalize z ^ 2 = q7 at *
  clear a0 a1 a2 a4 a7 hx hy hz hm X0 hp hV
  norm_num at *
  linarith

/-! ## The step of a weight -/

/-- The step is bounded when the average is within a multiple of the divisor. -/
theorem ratio_move (hM : M.rnd = binary64Format.rnd) {lr m p d : FP M} {r : ℝ} (hlr : InUnit lr) (hm : Is m r) (hr : |r| ≤ 2 ^ 500)
    (hp : Decay p) (hd0 : XReal.fin (2 ^ (-24 : ℤ)) ≤ d.1) (hd : ∀ z, Is d z → |r| ≤ 2 ^ 53 * z) :
    Bounded (2 ^ 108) (lr *. (m /. (Scalar.ofNat 1 -. p)) /. d) := by
  obtain ⟨c, hc, hc1⟩ := correction hM hp
  have hc0 : 0 < c := lt_of_lt_of_le (Format.two_zpow_pos _) hc1
  obtain ⟨q, hq, -⟩ := bounded_div hM (k := 500) (j := 53) (by norm_num) ⟨r, hm, hr⟩
    (z := Scalar.ofNat 1 -. p) (by rw [hc]; exact fin_le_fin.2 hc1)
  have h1 := div_err hM hm hc hc0.ne' hq
  obtain ⟨q', hq', h2⟩ := mul_unit hlr hq
  rcases hv : d.1 with _ | _ | _ | z <;> rw [hv] at hd0
  · exact absurd hd0 (le_nan _)
  · exact absurd hd0 (fin_le_ninf _)
  · refine ⟨0, ?_, by rw [abs_zero]; positivity⟩
    show (_ /. d).1 = _
    rw [val_div, hq', hv]
    exact rnd_zero
  · have hz : (2 : ℝ) ^ (-24 : ℤ) ≤ z := hd0
    have hz0 : 0 < z := (Format.two_zpow_pos _).trans_le hz
    refine bounded_rnd (x := q' / z) ?_ ?_ (rnd_two_pow hM (by norm_num))
    · rw [val_div, hq', hv]
      show (M.round (if z = 0 then _ else .fin (q' / z))).1 = _
      rw [if_neg hz0.ne']; rfl
    · rw [abs_div, abs_of_pos hz0, div_le_iff₀ hz0]
      have e : roundoff ≤ 1 := by unfold roundoff; norm_num
      have h3 : |r / c| ≤ 2 ^ 53 * |r| := by
        rw [abs_div, abs_of_pos hc0, div_le_iff₀ hc0]
        have := mul_le_mul_of_nonneg_left hc1 (abs_nonneg r)
        have e : (2 : ℝ) ^ (-53 : ℤ) = 1 / 2 ^ 53 := by norm_num
        rw [e] at this
        have h4 : |r| = 2 ^ 53 * (|r| * (1 / 2 ^ 53)) := by ring
        calc |r| = 2 ^ 53 * (|r| * (1 / 2 ^ 53)) := h4
          _ ≤ 2 ^ 53 * (|r| * c) := mul_le_mul_of_nonneg_left this (by positivity)
          _ = _ := by ring
      have h4 := mul_le_mul_of_nonneg_right e (abs_nonneg (r / c))
      have h5 := abs_sub_abs_le_abs_sub q (r / c)
      have h6 := hd z hv
      have h7 : tiny ≤ 2 ^ (-24 : ℤ) := zpow_le_zpow_right₀ (by norm_num) (by norm_num)
      generalize |r / c| = a1 at *
      generalize roundoff * a1 = a2 at *
      norm_num at *
      linarith

/-! ## AdaMax -/

/-- The average is within a multiple of the divisor. -/
def adamaxPair (m u : FP M) : Prop :=
  Bounded (2 ^ 500) m ∧ NonNeg u ∧ Bounded (2 ^ 500) u ∧ |real m| ≤ 2 ^ 42 * real u + 2 ^ (-900 : ℤ)

theorem tiny_eta : (2 : ℝ) ^ 100 * tiny ≤ 2 ^ (-900 : ℤ) := by
  unfold tiny
  rw [← zpow_natCast (2 : ℝ), ← zpow_add₀ (by norm_num)]
  exact zpow_le_zpow_right₀ (by norm_num) (by norm_num)

theorem nonNeg_real {a : FP M} {r : ℝ} (h : NonNeg a) (hr : Is a r) : 0 ≤ r := by
  unfold NonNeg at h
  rw [hr] at h
  exact fin_le_fin.1 h

theorem is_inj {a : FP M} {r s : ℝ} (h : Is a r) (h' : Is a s) : r = s := by
  rw [Is, h] at h'
  exact XReal.fin.inj h'

theorem adamaxPair_active (hM : M.rnd = binary64Format.rnd) {β₁ β₂ m u g : FP M} {b₁ b₂ : ℝ} (h1 : Is β₁ b₁) (h2 : Is β₂ b₂)
    (b0 : 0 ≤ b₁) (h12 : b₁ + 2 ^ (-40 : ℤ) ≤ b₂) (hb : b₂ < 1) (h : adamaxPair m u) (hg : Bounded (2 ^ 500) g) :
    adamaxPair (β₁ *. m +. (Scalar.ofNat 1 -. β₁) *. g) (Scalar.max (β₂ *. u) (Scalar.abs g)) := by
  obtain ⟨hm, hu0, hu, hr⟩ := h
  have p40 : (0 : ℝ) < 2 ^ (-40 : ℤ) := by positivity
  have d1 : Decay β₁ := ⟨b₁, h1, b0, by linarith⟩
  have d2 : Decay β₂ := ⟨b₂, h2, by linarith, hb⟩
  have k1 := average_bounded hM d1 (k := 500) (by norm_num) hm hg
  have k2 := infinity_bounded d2 ⟨hu0, hu⟩ hg
  refine ⟨k1, k2.1, k2.2, ?_⟩
  obtain ⟨p, hp, -⟩ : Bounded (2 ^ 500) (β₂ *. u) :=
    bounded_unit_mul ⟨b₂, h2, by rw [abs_of_nonneg (by linarith)]; exact hb.le⟩ hu
  obtain ⟨p1, p2, f1, f2, ep⟩ := mul_err hM hp
  obtain ⟨z, hz, -⟩ := k1
  obtain ⟨x, y, hx, hy, ez⟩ := add_err hM hz
  obtain ⟨x1, x2, e1, e2, ex⟩ := mul_err hM hx
  obtain ⟨G, hG, -⟩ := hg
  obtain ⟨c, hc, c0, c1, -⟩ := complement hM h1 b0 (by linarith)
  obtain ⟨y', hy', hyG⟩ := mul_unit (a := Scalar.ofNat 1 -. β₁) ⟨c, hc, by rwa [abs_of_nonneg c0]⟩ hG
  have e : Is (Scalar.max (β₂ *. u) (Scalar.abs g)) (max p |G|) := by
    rw [Is, val_max, hp, val_abs, hG]
    exact xmax_fin ..
  cases is_inj e1 h1
  cases is_inj f1 h2
  cases is_inj hy hy'
  rw [is_real e2, is_real f2] at hr
  rw [is_real hz, is_real e]
  exact adamax_ratio b0 h12 hb.le (nonNeg_real hu0 f2) (by positivity) tiny_eta (abs_nonneg G) hr ex hyG ez ep (le_max_left ..)
    (le_max_right ..)

theorem adamaxPair_inactive (hM : M.rnd = binary64Format.rnd) {β₁ β₂ m u : FP M} {b₁ b₂ : ℝ} (h1 : Is β₁ b₁) (h2 : Is β₂ b₂)
    (b0 : 0 ≤ b₁) (h12 : b₁ + 2 ^ (-40 : ℤ) ≤ b₂) (hb : b₂ < 1) (h : adamaxPair m u) : adamaxPair (β₁ *. m) (β₂ *. u) := by
  obtain ⟨hm, hu0, hu, hr⟩ := h
  have p40 : (0 : ℝ) < 2 ^ (-40 : ℤ) := by positivity
  have k1 : Bounded (2 ^ 500) (β₁ *. m) :=
    bounded_unit_mul ⟨b₁, h1, by rw [abs_of_nonneg b0]; linarith⟩ hm
  have k2 : Bounded (2 ^ 500) (β₂ *. u) :=
    bounded_unit_mul ⟨b₂, h2, by rw [abs_of_nonneg (by linarith)]; exact hb.le⟩ hu
  have k3 : NonNeg (β₂ *. u) := by
    obtain ⟨x, hx, -⟩ := hu
    have := nonNeg_real hu0 hx
    unfold NonNeg
    rw [val_mul, h2, hx]
    exact round_nonneg (mul_nonneg (by linarith) this : (0 : ℝ) ≤ b₂ * x)
  refine ⟨k1, k3, k2, ?_⟩
  obtain ⟨p, hp, -⟩ := k2
  obtain ⟨p1, p2, f1, f2, ep⟩ := mul_err hM hp
  obtain ⟨x, hx, -⟩ := k1
  obtain ⟨x1, x2, e1, e2, ex⟩ := mul_err hM hx
  cases is_inj e1 h1
  cases is_inj f1 h2
  rw [is_real e2, is_real f2] at hr
  rw [is_real hx, is_real hp]
  refine adamax_ratio (y := 0) (G := 0) b0 h12 hb.le (nonNeg_real hu0 f2) (by positivity) tiny_eta le_rfl hr ex (by rw [abs_zero]) ?_ ep
    le_rfl (nonNeg_real k3 hp)
  rw [add_zero, sub_self, abs_zero]
  exact mul_nonneg roundoff_pos.le (abs_nonneg x)

/-- What an AdaMax history keeps. -/
def adamaxKeeps (n : Nat) (β₁ β₂ : FP M) (_t : Nat) (o : AdaMax (FP M)) (w : List (FP M)) : Prop :=
  (InUnit o.learningRate ∧ o.beta1 = β₁ ∧ o.beta2 = β₂ ∧ Decay o.beta1Prod) ∧ o.expAvg.length = n ∧ o.expInf.length = n ∧
    (∀ i < n, adamaxPair (entry o.expAvg i) (entry o.expInf i)) ∧ w.length = n ∧ ∀ i < n, Bounded (2 ^ 161) (entry w i)

theorem adamax_move (hM : M.rnd = binary64Format.rnd) {lr m u p : FP M} (hlr : InUnit lr) (h : adamaxPair m u) (hp : Decay p) :
    Bounded (2 ^ 108) (lr *. (m /. (Scalar.ofNat 1 -. p)) /. (u +. EPS)) := by
  obtain ⟨⟨r, hm, hr⟩, hu0, ⟨v, hv, -⟩, hmu⟩ := h
  have h0 := val_le_add_right hu0 (eps_nonneg hM)
  have h1 := val_le_add_left hu0 (eps_nonneg hM)
  have h2 : XReal.fin (2 ^ (-24 : ℤ)) ≤ (u +. EPS).1 := le_trans' (eps_ge hM) h0
  refine ratio_move hM hlr hm hr hp h2 fun z hz => ?_
  rw [hz] at h1 h2
  rw [hv] at h1
  have h1 : v ≤ z := fin_le_fin.1 h1
  have h2 : (2 : ℝ) ^ (-24 : ℤ) ≤ z := fin_le_fin.1 h2
  rw [is_real hm, is_real hv] at hmu
  have h3 : (2 : ℝ) ^ (-900 : ℤ) ≤ 2 ^ (-24 : ℤ) := zpow_le_zpow_right₀ (by norm_num) (by norm_num)
  generalize (2 : ℝ) ^ (-900 : ℤ) = η at *
  norm_num at *
  linarith

theorem adamaxKeeps_step (hM : M.rnd = binary64Format.rnd) {n t : Nat} {β₁ β₂ : FP M} {b₁ b₂ : ℝ} (h1 : Is β₁ b₁) (h2 : Is β₂ b₂)
    (b0 : 0 ≤ b₁) (h12 : b₁ + 2 ^ (-40 : ℤ) ≤ b₂) (hb : b₂ < 1) {o : AdaMax (FP M)} {w : List (FP M)} (h : adamaxKeeps n β₁ β₂ t o w)
    {φ : Features (FP M)} {e : FP M} (hφ : Fits n φ) (he : Spec.Finite e)
    (hg : ∀ i a, Stored φ i a → Bounded (2 ^ 500) a ∧ Bounded (2 ^ 500) (a *. e)) :
    ∃ o' w', Optimiser.stepScaled o w φ e = .ok (.ok (), o', w') ∧ adamaxKeeps n β₁ β₂ (t + 1) o' w' := by
  obtain ⟨⟨hl, o1, o2, hp⟩, l1, l2, hpair, hw, hwb⟩ := h
  have p40 : (0 : ℝ) < 2 ^ (-40 : ℤ) := by positivity
  obtain ⟨m, u, w', e1, e2, e3, e4, e5⟩ := adamax_scaled hφ o l1 l2 e hw
  have hq : Decay (o.beta1Prod *. o.beta1) := decay_mul hp ⟨b₁, o1 ▸ h1, b0, by linarith⟩
  have hpair' : ∀ i < n, adamaxPair (entry m i) (entry u i) := by
    intro i hi
    by_cases ha : Active φ i
    · obtain ⟨g1, g2, -⟩ := (e5 i hi).1 ha
      have k := adamaxPair_active hM h1 h2 b0 h12 hb (hpair i hi) (value_bounded hφ.1 he pow_500_nonneg hg i).2
      rw [g1, g2]
      unfold adamaxM adamaxU
      rw [o1, o2]
      split_ifs
      · exact k
      · rw [mul_comm_fp _ β₁, mul_comm_fp _ β₂]; exact k
    · obtain ⟨g1, g2, -⟩ := (e5 i hi).2 ha
      rw [g1, g2, o1, o2, mul_comm_fp _ β₁, mul_comm_fp _ β₂]
      exact adamaxPair_inactive hM h1 h2 b0 h12 hb (hpair i hi)
  refine ⟨_, w', e1, ⟨hl, o1, o2, hq⟩, e2, e3, hpair', e4, fun i hi => ?_⟩
  by_cases ha : Active φ i
  · obtain ⟨-, -, g3⟩ := (e5 i hi).1 ha
    rw [g3]
    exact stay hM (j := 108) (by norm_num) (hwb i hi) (adamax_move hM hl (hpair' i hi) hq)
  · rw [((e5 i hi).2 ha).2.2]; exact hwb i hi

theorem adamaxPair_zero : adamaxPair (Scalar.zero : FP M) Scalar.zero := by
  refine ⟨bounded_zero (by positivity), nonNeg_zero, bounded_zero (by positivity), ?_⟩
  rw [is_real val_zero, abs_zero, mul_zero, zero_add]
  positivity

section
variable {B I : Type} [Space B] [Basis B I (FP M)]

/-- AdaMax: when `beta1` is below `beta2` by at least `2^-40`, the weights stay below `2^161`. -/
theorem C202_adamax (hM : M.rnd = binary64Format.rnd) (b : B) (n k : Nat) (s b₁ b₂ : ℝ) (lr β₁ β₂ : FP M) (hk : k ≤ 2 ^ 40)
    (hs : s ≤ 2 ^ 200) (hlr : InUnit lr) (h1 : Is β₁ b₁) (h2 : Is β₂ b₂) (b0 : 0 ≤ b₁) (h12 : b₁ + 2 ^ (-40 : ℤ) ≤ b₂) (hb : b₂ < 1)
    (w : List (FP M)) (hw : w.length = n) (hwb : ∀ x ∈ w, Bounded (2 ^ 161) x)
    (fas : Nat → ScalarLFA B (AdaMax (FP M)) (FP M)) (h0 : fas 0 = LFA.mk b w (AdaMax.new n lr β₁ β₂)) (xs : Nat → I)
    (fs : Nat → FP M → FP M) (hx : ∀ t, Tame n k s b (xs t)) (hf : ∀ t p, Bounded (2 ^ 301) p → Bounded (2 ^ 400) (fs t p))
    (hr : ∀ t, CanUpdateWith (fas t) (xs t) (fs t) (fas (t + 1))) (t : Nat) :
    (fas t).weights.length = n ∧ (∀ i < n, Bounded (2 ^ 161) (entry (fas t).weights i)) ∧
    ∀ (x : I) (v : FP M), Tame n k s b x → CanEvaluate (fas t) x v → Bounded (2 ^ 301) v := by
  have p40 : (0 : ℝ) < 2 ^ (-40 : ℤ) := by positivity
  obtain ⟨-, g1, g2⟩ := closed_loop hM (K := 161) hk hs (by norm_num) (adamaxKeeps n β₁ β₂)
    (fun t o w h => ⟨h.2.2.2.2.1, h.2.2.2.2.2⟩)
    (fun t o w φ e h hφ he hg => adamaxKeeps_step hM h1 h2 b0 h12 hb h hφ he hg)
    (by rw [h0]) (by
      rw [h0]
      refine ⟨⟨hlr, rfl, rfl, b₁, h1, b0, by linarith⟩, List.length_replicate .., List.length_replicate .., fun i hi => ?_, hw,
        to_entries hw hwb⟩
      show adamaxPair (entry (List.replicate n Scalar.zero) i) (entry (List.replicate n Scalar.zero) i)
      rw [entry_replicate]; exact adamaxPair_zero) hx hf hr t
  exact ⟨g1.2.2.2.2.1, g1.2.2.2.2.2, g2⟩

end

/-! ## Adam -/

/-- The rounded product `(c G) G`. -/
theorem square_low {c G y q τ : ℝ} (c0 : 2 ^ (-53 : ℤ) ≤ c) (τ0 : 0 ≤ τ) (τ1 : τ ≤ 2 ^ (-53 : ℤ)) (hyG : 0 ≤ y * G)
    (hy : |y - c * G| ≤ roundoff * |c * G| + τ) (hq : |q - y * G| ≤ roundoff * |y * G| + τ) :
    2 ^ (-54 : ℤ) * G ^ 2 - 2 * τ ≤ q := by
  have e : roundoff = 1 / 9007199254740992 := by unfold roundoff; norm_num
  have e1 : (2 : ℝ) ^ (-53 : ℤ) = 1 / 9007199254740992 := by norm_num
  have e2 : (2 : ℝ) ^ (-54 : ℤ) = 1 / 18014398509481984 := by norm_num
  rw [e1] at c0 τ1
  have c0' : 0 < c := lt_of_lt_of_le (by norm_num) c0
  rw [e, abs_mul, abs_of_pos c0'] at hy
  rw [e, abs_of_nonneg hyG] at hq
  rw [e2]
  have a1 := (abs_le.1 hq).1
  have a2 : |(y - c * G) * G| ≤ (1 / 9007199254740992 * (c * |G|) + τ) * |G| := by
    rw [abs_mul]
    exact mul_le_mul_of_nonneg_right hy (abs_nonneg G)
  have a3 := (abs_le.1 a2).1
  have a4 : |G| * |G| = G ^ 2 := by rw [← sq, sq_abs]
  have a5 : (1 / 9007199254740992 * (c * |G|) + τ) * |G| = 1 / 9007199254740992 * (c * G ^ 2) + τ * |G| := by
    rw [add_mul, mul_assoc, mul_assoc c, a4]
  have a6 : (y - c * G) * G = y * G - c * G ^ 2 := by ring
  rw [a5, a6] at a3
  have a7 : 0 ≤ c * (|G| - 2 * τ * 9007199254740992) ^ 2 + 0 := by positivity
  have a8 : τ * |G| ≤ 1 / 4 * (c * G ^ 2) + τ := by
    have k1 : 0 ≤ (1 / 2 * |G| - τ * 9007199254740992) ^ 2 := sq_nonneg _
    have k2 : (1 / 2 * |G| - τ * 9007199254740992) ^ 2 = 1 / 4 * G ^ 2 - 9007199254740992 * (τ * |G|) +
        (9007199254740992 * τ) * (9007199254740992 * τ) := by
      have : (1 / 2 * |G| - τ * 9007199254740992) ^ 2 = 1 / 4 * (|G| * |G|) - 9007199254740992 * (τ * |G|) +
        (9007199254740992 * τ) * (9007199254740992 * τ) := by ring
      rw [this, a4]
    have k3 : (9007199254740992 * τ) * (9007199254740992 * τ) ≤ 9007199254740992 * τ :=
      mul_le_of_le_one_left (by positivity) (by linarith)
    have k4 := mul_le_mul_of_nonneg_right c0 (sq_nonneg G)
    linarith
  have a9 := mul_le_mul_of_nonneg_right c0 (sq_nonneg G)
  generalize c * G ^ 2 = q1 at *
  generalize τ * |G| = q2 at *
  generalize G ^ 2 = q3 at *
  generalize y * G = q4 at *
  linarith

/-- The square of the average is within a multiple of the average of squares. -/
def adamPair (m v : FP M) : Prop :=
  Bounded (2 ^ 500) m ∧ NonNeg v ∧ Bounded (2 ^ 1000) v ∧ real m ^ 2 ≤ 2 ^ 102 * real v + 2 ^ (-800 : ℤ)

theorem tiny_eta' : (2 : ℝ) ^ 200 * tiny ≤ 2 ^ (-800 : ℤ) := by
  unfold tiny
  rw [← zpow_natCast (2 : ℝ), ← zpow_add₀ (by norm_num)]
  exact zpow_le_zpow_right₀ (by norm_num) (by norm_num)

theorem tiny_le' (k : ℤ) (h : -1075 ≤ k) : tiny ≤ 2 ^ k := zpow_le_zpow_right₀ (by norm_num) h

theorem is_nonneg_mul {a b : FP M} {x y z : ℝ} (ha : Is a x) (hb : Is b y) (h : 0 ≤ x * y) (hz : Is (a *. b) z) : 0 ≤ z := by
  have e : (a *. b).1 = M.rnd (x * y) := by rw [val_mul, ha, hb]; rfl
  have := rnd_nonneg (M := M) h
  rw [← e, hz] at this
  exact fin_le_fin.1 this

theorem is_sign {a b : FP M} {x y z : ℝ} (ha : Is a x) (hb : Is b y) (h : 0 ≤ x) (hz : Is (a *. b) z) : 0 ≤ z * y := by
  have e : (a *. b).1 = M.rnd (x * y) := by rw [val_mul, ha, hb]; rfl
  rw [hz] at e
  rcases le_total 0 y with h0 | h0
  · have := rnd_nonneg (M := M) (mul_nonneg h h0)
    rw [← e] at this
    exact mul_nonneg this h0
  · have := rnd_nonpos (M := M) (mul_nonpos_of_nonneg_of_nonpos h h0)
    rw [← e] at this
    exact mul_nonneg_of_nonpos_of_nonpos this h0

theorem adamPair_active (hM : M.rnd = binary64Format.rnd) {β₁ β₂ m v g : FP M} {b₁ b₂ : ℝ} (h1 : Is β₁ b₁) (h2 : Is β₂ b₂)
    (b0 : 0 ≤ b₁) (b1 : b₁ < 1) (h12 : b₁ ^ 2 + 2 ^ (-40 : ℤ) ≤ b₂) (hb : b₂ < 1) (h : adamPair m v) (hg : Bounded (2 ^ 500) g) :
    adamPair (β₁ *. m +. (Scalar.ofNat 1 -. β₁) *. g) (β₂ *. v +. (Scalar.ofNat 1 -. β₂) *. g *. g) := by
  obtain ⟨hm, hv0, hv, hr⟩ := h
  have p40 : (0 : ℝ) < 2 ^ (-40 : ℤ) := by positivity
  have b20 : 0 ≤ b₂ := by have := sq_nonneg b₁; linarith
  have d1 : Decay β₁ := ⟨b₁, h1, b0, b1⟩
  have d2 : Decay β₂ := ⟨b₂, h2, b20, hb⟩
  have k1 := average_bounded hM d1 (k := 500) (by norm_num) hm hg
  have k2 := average_square hM d2 ⟨hv0, hv⟩ hg
  refine ⟨k1, k2.1, k2.2, ?_⟩
  obtain ⟨V, hV, -⟩ := k2.2
  obtain ⟨p, q, hp, hq, eV⟩ := add_err hM hV
  obtain ⟨p1, p2, f1, f2, ep⟩ := mul_err hM hp
  obtain ⟨q1, q2, hq1, hq2, eq⟩ := mul_err hM hq
  obtain ⟨q3, q4, hq3, hq4, eq'⟩ := mul_err hM hq1
  obtain ⟨z, hz, -⟩ := k1
  obtain ⟨x, y, hx, hy, ez⟩ := add_err hM hz
  obtain ⟨x1, x2, e1, e2, ex⟩ := mul_err hM hx
  obtain ⟨G, hG, -⟩ := hg
  obtain ⟨c, hc, c0, c1, -⟩ := complement hM h1 b0 b1.le
  obtain ⟨y', hy', hyG⟩ := mul_unit (a := Scalar.ofNat 1 -. β₁) ⟨c, hc, by rwa [abs_of_nonneg c0]⟩ hG
  obtain ⟨c', hc', hc53⟩ := correction hM d2
  have c'0 : 0 ≤ c' := (Format.two_zpow_pos _).le.trans hc53
  cases is_inj e1 h1
  cases is_inj f1 h2
  cases is_inj hy hy'
  cases is_inj hq2 hG
  cases is_inj hq4 hG
  cases is_inj hq3 hc'
  rw [is_real e2, is_real f2] at hr
  rw [is_real hz, is_real hV]
  have v0 := nonNeg_real hv0 f2
  have s1 := is_sign hc' hG c'0 hq1
  refine adam_ratio b0 h12 hb.le v0 (by positivity) tiny_pos.le ((tiny_le' 0 (by norm_num)).trans (by norm_num)) tiny_eta'
    (abs_nonneg _) hr ex hyG ez ep ?_ eV (is_nonneg_mul h2 f2 (mul_nonneg b20 v0) hp) (is_nonneg_mul hq1 hG s1 hq)
  rw [sq_abs]
  exact square_low hc53 tiny_pos.le (tiny_le' _ (by norm_num)) s1 eq' eq

theorem adamPair_inactive (hM : M.rnd = binary64Format.rnd) {β₁ β₂ m v : FP M} {b₁ b₂ : ℝ} (h1 : Is β₁ b₁) (h2 : Is β₂ b₂)
    (b0 : 0 ≤ b₁) (b1 : b₁ < 1) (h12 : b₁ ^ 2 + 2 ^ (-40 : ℤ) ≤ b₂) (hb : b₂ < 1) (h : adamPair m v) :
    adamPair (β₁ *. m) (β₂ *. v) := by
  obtain ⟨hm, hv0, hv, hr⟩ := h
  have p40 : (0 : ℝ) < 2 ^ (-40 : ℤ) := by positivity
  have b20 : 0 ≤ b₂ := by have := sq_nonneg b₁; linarith
  have k1 : Bounded (2 ^ 500) (β₁ *. m) := bounded_unit_mul ⟨b₁, h1, by rw [abs_of_nonneg b0]; exact b1.le⟩ hm
  have k2 : Bounded (2 ^ 1000) (β₂ *. v) := bounded_unit_mul ⟨b₂, h2, by rw [abs_of_nonneg b20]; exact hb.le⟩ hv
  obtain ⟨p, hp, hpb⟩ := k2
  obtain ⟨p1, p2, f1, f2, ep⟩ := mul_err hM hp
  cases is_inj f1 h2
  have v0 := nonNeg_real hv0 f2
  have p0 := is_nonneg_mul h2 f2 (mul_nonneg b20 v0) hp
  refine ⟨k1, by unfold NonNeg; rw [hp]; exact fin_le_fin.2 p0, ⟨p, hp, hpb⟩, ?_⟩
  obtain ⟨x, hx, -⟩ := k1
  obtain ⟨x1, x2, e1, e2, ex⟩ := mul_err hM hx
  cases is_inj e1 h1
  rw [is_real e2, is_real f2] at hr
  rw [is_real hx, is_real hp]
  refine adam_ratio (y := 0) (q := 0) (G := 0) b0 h12 hb.le v0 (by positivity) tiny_pos.le
    ((tiny_le' 0 (by norm_num)).trans (by norm_num)) tiny_eta' le_rfl hr ex (by rw [abs_zero]) ?_ ep ?_ ?_ p0 le_rfl
  · rw [add_zero, sub_self, abs_zero]
    exact mul_nonneg roundoff_pos.le (abs_nonneg x)
  · have := tiny_pos
    norm_num
    linarith
  · rw [add_zero, sub_self, abs_zero]
    exact mul_nonneg roundoff_pos.le (abs_nonneg p)

theorem adam_move (hM : M.rnd = binary64Format.rnd) {lr m v p₁ p₂ : FP M} (hlr : InUnit lr) (h : adamPair m v) (hp : Decay p₁)
    (hp2 : Decay p₂) :
    Bounded (2 ^ 108) (lr *. (m /. (Scalar.ofNat 1 -. p₁)) /. (Scalar.sqrt (v /. (Scalar.ofNat 1 -. p₂)) +. EPS)) := by
  obtain ⟨⟨r, hm, hr⟩, hv0, ⟨x, hx, hxb⟩, hmu⟩ := h
  have x0 := nonNeg_real hv0 hx
  obtain ⟨c, hc, hc1⟩ := correction hM hp2
  have c0 : 0 < c := lt_of_lt_of_le (Format.two_zpow_pos _) hc1
  obtain ⟨q, hq, q0, q1⟩ := hp2
  obtain ⟨c', hc', -, c1, -⟩ := complement hM hq q0 q1.le
  cases is_inj hc hc'
  -- the corrected second moment is not smaller
  have hle : v.1 ≤ (v /. (Scalar.ofNat 1 -. p₂)).1 := by
    rw [val_div, hc]
    refine le_round ?_
    rw [hx]
    show _ ≤ (if c = 0 then _ else XReal.fin (x / c))
    rw [if_neg c0.ne', fin_le_fin, le_div_iff₀ c0]
    exact mul_le_of_le_one_right x0 c1
  have hroot : (Scalar.sqrt v).1 ≤ (Scalar.sqrt (v /. (Scalar.ofNat 1 -. p₂))).1 := by
    rw [val_sqrt, val_sqrt]
    exact round_mono (sqrt_le_sqrt' hv0 hle)
  obtain ⟨y, hy, -⟩ : Bounded (2 ^ 500) (Scalar.sqrt v) := by
    refine bounded_rnd (x := √x) ?_ ?_ (rnd_two_pow hM (by norm_num))
    · rw [val_sqrt, hx]
      show (M.round (if x < 0 then _ else .fin (√x))).1 = _
      rw [if_neg (not_lt.2 x0)]; rfl
    · rw [abs_of_nonneg (Real.sqrt_nonneg x)]
      refine Real.sqrt_le_iff.2 ⟨by positivity, ?_⟩
      rw [← pow_mul]
      exact (le_abs_self x).trans hxb
  have ey := sqrt_err hM hx x0 hy
  have y0 : 0 ≤ y := by
    have e : (Scalar.sqrt v).1 = M.rnd (√x) := by
      rw [val_sqrt, hx]
      show (M.round (if x < 0 then _ else .fin (√x))).1 = _
      rw [if_neg (not_lt.2 x0)]; rfl
    have := rnd_nonneg (M := M) (Real.sqrt_nonneg x)
    rw [← e, hy] at this
    exact fin_le_fin.1 this
  have hroot0 : XReal.fin 0 ≤ (Scalar.sqrt (v /. (Scalar.ofNat 1 -. p₂))).1 := by
    refine le_trans' ?_ hroot
    rw [hy]
    exact fin_le_fin.2 y0
  have h0 := val_le_add_right hroot0 (eps_nonneg hM)
  have h1 := le_trans' hroot (val_le_add_left hroot0 (eps_nonneg hM))
  have h2 : XReal.fin (2 ^ (-24 : ℤ)) ≤ (Scalar.sqrt (v /. (Scalar.ofNat 1 -. p₂)) +. EPS).1 := le_trans' (eps_ge hM) h0
  refine ratio_move hM hlr hm hr hp h2 fun z hz => ?_
  rw [hz] at h1 h2
  rw [hy] at h1
  have h1 : y ≤ z := fin_le_fin.1 h1
  have h2 : (2 : ℝ) ^ (-24 : ℤ) ≤ z := fin_le_fin.1 h2
  rw [is_real hm, is_real hx] at hmu
  have h3 : |r| ≤ 2 ^ 51 * √x + 2 ^ (-400 : ℤ) := by
    have s0 := Real.sqrt_nonneg x
    have p400 : (0 : ℝ) < 2 ^ (-400 : ℤ) := Format.two_zpow_pos _
    refine abs_le_of_sq_le_sq ?_ (add_nonneg (mul_nonneg (by norm_num) s0) p400.le)
    refine hmu.trans ?_
    have e1 : (2 ^ 51 * √x + 2 ^ (-400 : ℤ)) ^ 2 = 2 ^ 102 * x + 2 ^ (-800 : ℤ) + 2 * (2 ^ 51 * √x * 2 ^ (-400 : ℤ)) := by
      have k1 : (2 ^ 51 * √x) ^ 2 = 2 ^ 102 * x := by
        rw [mul_pow, Real.sq_sqrt x0, ← pow_mul]
      have k2 : ((2 : ℝ) ^ (-400 : ℤ)) ^ 2 = 2 ^ (-800 : ℤ) := by
        rw [← zpow_natCast, ← zpow_mul]
        norm_num
      rw [add_sq, k1, k2]
      ring
    rw [e1]
    have : 0 ≤ 2 * (2 ^ 51 * √x * 2 ^ (-400 : ℤ)) := mul_nonneg (by norm_num) (mul_nonneg (mul_nonneg (by norm_num) s0) p400.le)
    generalize 2 * (2 ^ 51 * √x * 2 ^ (-400 : ℤ)) = q at *
    linarith
  have h4 : (2 : ℝ) ^ (-400 : ℤ) ≤ 2 ^ (-24 : ℤ) := zpow_le_zpow_right₀ (by norm_num) (by norm_num)
  have h5 := tiny_le' (-24) (by norm_num)
  have h6 := (abs_le.1 ey).1
  have h7 : roundoff = 1 / 9007199254740992 := by unfold roundoff; norm_num
  have s0 := Real.sqrt_nonneg x
  rw [h7] at h6
  generalize (2 : ℝ) ^ (-400 : ℤ) = η at *
  generalize tiny = τ at *
  have e24 : (2 : ℝ) ^ (-24 : ℤ) = 1 / 16777216 := by norm_num
  rw [e24] at *
  clear ey hmu hxb hr
  norm_num at *
  linarith

/-- What an Adam history keeps. -/
def adamKeeps (n : Nat) (β₁ β₂ : FP M) (_t : Nat) (o : Adam (FP M)) (w : List (FP M)) : Prop :=
  (InUnit o.learningRate ∧ o.beta1 = β₁ ∧ o.beta2 = β₂ ∧ Decay o.beta1Prod ∧ Decay o.beta2Prod) ∧ o.expAvg.length = n ∧
    o.expAvgSq.length = n ∧ (∀ i < n, adamPair (entry o.expAvg i) (entry o.expAvgSq i)) ∧ w.length = n ∧
    ∀ i < n, Bounded (2 ^ 161) (entry w i)

theorem adamKeeps_step (hM : M.rnd = binary64Format.rnd) {n t : Nat} {β₁ β₂ : FP M} {b₁ b₂ : ℝ} (h1 : Is β₁ b₁) (h2 : Is β₂ b₂)
    (b0 : 0 ≤ b₁) (b1 : b₁ < 1) (h12 : b₁ ^ 2 + 2 ^ (-40 : ℤ) ≤ b₂) (hb : b₂ < 1) {o : Adam (FP M)} {w : List (FP M)}
    (h : adamKeeps n β₁ β₂ t o w) {φ : Features (FP M)} {e : FP M} (hφ : Fits n φ) (he : Spec.Finite e)
    (hg : ∀ i a, Stored φ i a → Bounded (2 ^ 500) a ∧ Bounded (2 ^ 500) (a *. e)) :
    ∃ o' w', Optimiser.stepScaled o w φ e = .ok (.ok (), o', w') ∧ adamKeeps n β₁ β₂ (t + 1) o' w' := by
  obtain ⟨⟨hl, o1, o2, hp, hp2⟩, l1, l2, hpair, hw, hwb⟩ := h
  have p40 : (0 : ℝ) < 2 ^ (-40 : ℤ) := by positivity
  have b20 : 0 ≤ b₂ := by have := sq_nonneg b₁; linarith
  obtain ⟨m, v, w', e1, e2, e3, e4, e5⟩ := adam_scaled hφ o l1 l2 e hw
  have hq : Decay (o.beta1Prod *. o.beta1) := decay_mul hp ⟨b₁, o1 ▸ h1, b0, b1⟩
  have hq2 : Decay (o.beta2Prod *. o.beta2) := decay_mul hp2 ⟨b₂, o2 ▸ h2, b20, hb⟩
  have hpair' : ∀ i < n, adamPair (entry m i) (entry v i) := by
    intro i hi
    by_cases ha : Active φ i
    · obtain ⟨g1, g2, -⟩ := (e5 i hi).1 ha
      have k := adamPair_active hM h1 h2 b0 b1 h12 hb (hpair i hi) (value_bounded hφ.1 he pow_500_nonneg hg i).2
      rw [g1, g2]
      unfold adamM adamV
      rw [o1, o2]
      split_ifs
      · exact k
      · rw [mul_comm_fp _ β₁, mul_comm_fp _ β₂]; exact k
    · obtain ⟨g1, g2, -⟩ := (e5 i hi).2 ha
      rw [g1, g2, o1, o2, mul_comm_fp _ β₁, mul_comm_fp _ β₂]
      exact adamPair_inactive hM h1 h2 b0 b1 h12 hb (hpair i hi)
  refine ⟨_, w', e1, ⟨hl, o1, o2, hq, hq2⟩, e2, e3, hpair', e4, fun i hi => ?_⟩
  by_cases ha : Active φ i
  · obtain ⟨-, -, g3⟩ := (e5 i hi).1 ha
    rw [g3]
    exact stay hM (j := 108) (by norm_num) (hwb i hi) (adam_move hM hl (hpair' i hi) hq hq2)
  · rw [((e5 i hi).2 ha).2.2]; exact hwb i hi

theorem adamPair_zero : adamPair (Scalar.zero : FP M) Scalar.zero := by
  refine ⟨bounded_zero (by positivity), nonNeg_zero, bounded_zero (by positivity), ?_⟩
  rw [is_real val_zero, mul_zero, zero_add, zero_pow two_ne_zero]
  positivity

section
variable {B I : Type} [Space B] [Basis B I (FP M)]

/-- Adam: when the square of `beta1` is below `beta2` by at least `2^-40`, the weights stay below `2^161`. -/
theorem C202_adam (hM : M.rnd = binary64Format.rnd) (b : B) (n k : Nat) (s b₁ b₂ : ℝ) (lr β₁ β₂ : FP M) (hk : k ≤ 2 ^ 40)
    (hs : s ≤ 2 ^ 200) (hlr : InUnit lr) (h1 : Is β₁ b₁) (h2 : Is β₂ b₂) (b0 : 0 ≤ b₁) (b1 : b₁ < 1)
    (h12 : b₁ ^ 2 + 2 ^ (-40 : ℤ) ≤ b₂) (hb : b₂ < 1) (w : List (FP M)) (hw : w.length = n) (hwb : ∀ x ∈ w, Bounded (2 ^ 161) x)
    (fas : Nat → ScalarLFA B (Adam (FP M)) (FP M)) (h0 : fas 0 = LFA.mk b w (Adam.new n lr β₁ β₂)) (xs : Nat → I)
    (fs : Nat → FP M → FP M) (hx : ∀ t, Tame n k s b (xs t)) (hf : ∀ t p, Bounded (2 ^ 301) p → Bounded (2 ^ 400) (fs t p))
    (hr : ∀ t, CanUpdateWith (fas t) (xs t) (fs t) (fas (t + 1))) (t : Nat) :
    (fas t).weights.length = n ∧ (∀ i < n, Bounded (2 ^ 161) (entry (fas t).weights i)) ∧
    ∀ (x : I) (v : FP M), Tame n k s b x → CanEvaluate (fas t) x v → Bounded (2 ^ 301) v := by
  have p40 : (0 : ℝ) < 2 ^ (-40 : ℤ) := by positivity
  have b20 : 0 ≤ b₂ := by have := sq_nonneg b₁; linarith
  obtain ⟨-, g1, g2⟩ := closed_loop hM (K := 161) hk hs (by norm_num) (adamKeeps n β₁ β₂)
    (fun t o w h => ⟨h.2.2.2.2.1, h.2.2.2.2.2⟩)
    (fun t o w φ e h hφ he hg => adamKeeps_step hM h1 h2 b0 b1 h12 hb h hφ he hg)
    (by rw [h0]) (by
      rw [h0]
      refine ⟨⟨hlr, rfl, rfl, ⟨b₁, h1, b0, b1⟩, b₂, h2, b20, hb⟩, List.length_replicate .., List.length_replicate .., fun i hi => ?_, hw,
        to_entries hw hwb⟩
      show adamPair (entry (List.replicate n Scalar.zero) i) (entry (List.replicate n Scalar.zero) i)
      rw [entry_replicate]; exact adamPair_zero) hx hf hr t
  exact ⟨g1.2.2.2.2.1, g1.2.2.2.2.2, g2⟩

/-- The errors of targets up to `2^390` may be fed back in all three cases. -/
theorem C202_targets (hM : M.rnd = binary64Format.rnd) (y : FP M) (hy : Bounded (2 ^ 390) y) (p : FP M) :
    (Bounded (2 ^ 193) p → Bounded (2 ^ 400) (y -. p)) ∧ (Bounded (2 ^ 301) p → Bounded (2 ^ 400) (y -. p)) :=
  ⟨fun h => error_bounded hM hy (bounded_mono h (pow_le_pow_right₀ (by norm_num) (by norm_num))),
    fun h => error_bounded hM hy (bounded_mono h (pow_le_pow_right₀ (by norm_num) (by norm_num)))⟩

/-- The usual decay rates `0.9` and `0.999`, rounded to `f64`, meet the conditions of both. -/
theorem C202_usual (hM : M.rnd = binary64Format.rnd) : ∃ b₁ b₂, Is (M.round (.fin 0.9)) b₁ ∧ Is (M.round (.fin 0.999)) b₂ ∧ 0 ≤ b₁ ∧
    b₁ < 1 ∧ b₁ + 2 ^ (-40 : ℤ) ≤ b₂ ∧ b₁ ^ 2 + 2 ^ (-40 : ℤ) ≤ b₂ ∧ b₂ < 1 := by
  obtain ⟨b₁, h1, -⟩ : Bounded 1 (M.round (.fin 0.9)) := bounded_rnd (x := 0.9) rfl (by norm_num [abs_le]) M.rnd_one
  obtain ⟨b₂, h2, -⟩ : Bounded 1 (M.round (.fin 0.999)) := bounded_rnd (x := 0.999) rfl (by norm_num [abs_le]) M.rnd_one
  have e1 := abs_le.1 (rnd_err hM (show M.rnd 0.9 = .fin b₁ from h1))
  have e2 := abs_le.1 (rnd_err hM (show M.rnd 0.999 = .fin b₂ from h2))
  have e3 := tiny_le' (-40) (by norm_num)
  have e4 : roundoff = 1 / 9007199254740992 := by unfold roundoff; norm_num
  have e5 : (2 : ℝ) ^ (-40 : ℤ) = 1 / 1099511627776 := by norm_num
  rw [e4] at e1 e2
  rw [e5] at e3 ⊢
  generalize tiny = τ at *
  norm_num [abs_of_pos] at e1 e2
  obtain ⟨l1, u1⟩ := e1
  obtain ⟨l2, u2⟩ := e2
  refine ⟨b₁, b₂, h1, h2, by linarith, by linarith, by linarith, ?_, by linarith⟩
  nlinarith

/-- Such runs exist for every sequence of inputs and targets. -/
theorem C202_runs (b : B) (n k : Nat) (s : ℝ) (lr β₁ β₂ : FP M) (xs : Nat → I) (ys : Nat → FP M) (hx : ∀ t, Tame n k s b (xs t))
    (w : List (FP M)) (hw : w.length = n) :
    (∃ fas : Nat → ScalarLFA B (Adagrad (FP M)) (FP M), fas 0 = LFA.mk b w (Adagrad.new n lr) ∧
      ∀ t, CanUpdateWith (fas t) (xs t) (fun p => ys t -. p) (fas (t + 1))) ∧
    (∃ fas : Nat → ScalarLFA B (AdaMax (FP M)) (FP M), fas 0 = LFA.mk b w (AdaMax.new n lr β₁ β₂) ∧
      ∀ t, CanUpdateWith (fas t) (xs t) (fun p => ys t -. p) (fas (t + 1))) ∧
    ∃ fas : Nat → ScalarLFA B (Adam (FP M)) (FP M), fas 0 = LFA.mk b w (Adam.new n lr β₁ β₂) ∧
      ∀ t, CanUpdateWith (fas t) (xs t) (fun p => ys t -. p) (fas (t + 1)) := by
  have hx' : ∀ t, ∃ φ, Basis.project b (xs t) = .ok (.ok φ) ∧ Fits n φ := fun t => by
    obtain ⟨φ, h1, h2, -⟩ := hx t
    exact ⟨φ, h1, h2⟩
  refine ⟨?_, ?_, ?_⟩
  · obtain ⟨fas, ps, hs, h0⟩ := stream_any b xs ys hx' w hw (Adagrad.new n lr) (List.length_replicate ..)
    exact ⟨fas, h0, fun t => C188_stream hs t⟩
  · obtain ⟨fas, ps, hs, h0⟩ := stream_any (O := AdaMax (FP M)) b xs ys hx' w hw (AdaMax.new n lr β₁ β₂)
      (show _ ∧ _ from ⟨List.length_replicate .., List.length_replicate ..⟩)
    exact ⟨fas, h0, fun t => C188_stream hs t⟩
  · obtain ⟨fas, ps, hs, h0⟩ := stream_any (O := Adam (FP M)) b xs ys hx' w hw (Adam.new n lr β₁ β₂)
      (show _ ∧ _ from ⟨List.length_replicate .., List.length_replicate ..⟩)
    exact ⟨fas, h0, fun t => C188_stream hs t⟩

end

/-- The hypotheses are met: Adam with rate 1 and the usual decay rates from the constructor on, one tile coding of 16 tilings, targets up
to one. However long it runs, every weight is finite. -/
theorem C202_example (hM : M.rnd = binary64Format.rnd) {H : Type} [BuildHasher H] (b : TileCoding H) (h1 : b.nTilings = 16)
    (xs : Nat → List (FP M)) (hx : ∀ t, ∃ φ : Features (FP M), Basis.project b (xs t) = .ok (.ok φ)) (ys : Nat → FP M)
    (hy : ∀ t, InUnit (ys t)) :
    ∃ fas : Nat → ScalarLFA (TileCoding H) (Adam (FP M)) (FP M),
      ScalarLFA.scalar b (Adam.new b.memorySize Scalar.one (M.round (.fin 0.9)) (M.round (.fin 0.999))) = .ok (fas 0) ∧
      (∀ t, CanUpdateWith (fas t) (xs t) (fun p => ys t -. p) (fas (t + 1))) ∧
      ∀ t, ∀ i < b.memorySize, Bounded (2 ^ 161) (entry (fas t).weights i) := by
  have ht : ∀ t, Tame b.memorySize 16 16 b (xs t) := fun t => by
    obtain ⟨φ, hp⟩ := hx t
    have := (C193_tile_coding b (xs t) φ hp).2
    rw [h1] at this
    exact_mod_cast this
  obtain ⟨fas, h2, h3⟩ := (C202_runs b b.memorySize 16 16 Scalar.one (M.round (.fin 0.9)) (M.round (.fin 0.999)) xs ys ht
    (List.replicate b.memorySize Scalar.zero) (List.length_replicate ..)).2.2
  obtain ⟨b₁, b₂, u1, u2, u3, u4, -, u6, u7⟩ := C202_usual hM
  refine ⟨fas, by rw [h2]; exact (C59_shape b _ 1 _ rfl).1, h3, fun t => ?_⟩
  exact (C202_adam hM b b.memorySize 16 16 b₁ b₂ Scalar.one _ _ (by norm_num)
    ((by norm_num : (16 : ℝ) ≤ 2 ^ 5).trans (pow_le_pow_right₀ (by norm_num) (by norm_num))) ⟨1, val_one, by norm_num⟩ u1 u2 u3 u4 u6 u7
    _ (List.length_replicate ..) (fun x hx => by rw [(List.mem_replicate.1 hx).2]; exact bounded_zero (by positivity)) fas h2 xs
    (fun t p => ys t -. p) ht (fun t p hp => (C202_targets hM (ys t) (bounded_mono (hy t) (one_le_pow₀ (by norm_num))) p).2 hp) h3 t).2.1

end Lfa

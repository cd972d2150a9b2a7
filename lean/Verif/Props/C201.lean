import Verif.Props.C109_C110
import Verif.Props.C186
import Verif.Props.C195
import Verif.Spec.Classifier

/-!
# C201: learning from mistakes

An approximator whose sign is the class and that is updated on its mistakes only. The number of mistakes over all time is bounded if some
weights tell the classes apart; with integer features in `f64` as well.
-/

set_option linter.unusedSectionVars false

namespace Lfa

open Spec Features Machine

/-! ### Weights moved on mistakes -/

/-- The squared distance to any multiple `c u` falls with every mistake. -/
theorem mistake_potential {n : Nat} {W φ : Nat → Nat → ℝ} {y a : Nat → ℝ} {R c : ℝ} {u : Nat → ℝ} {bad : Nat → Prop} [DecidablePred bad]
    (T : Nat) (ha : ∀ t, 0 ≤ a t) (hy : ∀ t, y t ^ 2 = 1) (hR : ∀ t, ∑ i ∈ Finset.range n, φ t i ^ 2 ≤ R)
    (hb : ∀ t < T, bad t → y t * ∑ i ∈ Finset.range n, φ t i * W t i ≤ 0 ∧ ∀ i < n, W (t + 1) i = W t i + a t * y t * φ t i)
    (hg : ∀ t < T, ¬ bad t → ∀ i < n, W (t + 1) i = W t i) :
    ∑ i ∈ Finset.range n, (c * u i - W T i) ^ 2 +
        ∑ t ∈ (Finset.range T).filter bad, (2 * a t * c * (y t * ∑ i ∈ Finset.range n, φ t i * u i) - a t ^ 2 * R) ≤
      ∑ i ∈ Finset.range n, (c * u i - W 0 i) ^ 2 := by
  induction T with
  | zero => simp
  | succ T ih =>
    have ih := ih (fun t ht => hb t (by omega)) (fun t ht => hg t (by omega))
    rw [Finset.range_add_one, Finset.filter_insert]
    by_cases hT : bad T
    · rw [if_pos hT, Finset.sum_insert (by simp)]
      obtain ⟨h1, h2⟩ := hb T (by omega) hT
      have e1 : ∑ i ∈ Finset.range n, (c * u i - W (T + 1) i) ^ 2 = ∑ i ∈ Finset.range n, (c * u i - W T i) ^ 2
          + 2 * a T * (y T * ∑ i ∈ Finset.range n, φ T i * W T i) - 2 * a T * c * (y T * ∑ i ∈ Finset.range n, φ T i * u i)
          + a T ^ 2 * y T ^ 2 * ∑ i ∈ Finset.range n, φ T i ^ 2 := by
        simp only [Finset.mul_sum, ← Finset.sum_add_distrib, ← Finset.sum_sub_distrib]
        refine Finset.sum_congr rfl fun i hi => ?_
        rw [h2 i (Finset.mem_range.1 hi)]
        ring
      rw [e1, hy T]
      have h3 := mul_nonneg (mul_nonneg (by norm_num : (0 : ℝ) ≤ 2) (ha T)) (neg_nonneg.2 h1)
      have h4 := mul_le_mul_of_nonneg_left (hR T) (sq_nonneg (a T))
      linarith
    · rw [if_neg hT]
      have e1 : ∑ i ∈ Finset.range n, (c * u i - W (T + 1) i) ^ 2 = ∑ i ∈ Finset.range n, (c * u i - W T i) ^ 2 :=
        Finset.sum_congr rfl fun i hi => by rw [hg T (by omega) hT i (Finset.mem_range.1 hi)]
      rw [e1]
      exact ih

/-- What a scale vector `u` misses of the margin 1 at one example. -/
noncomputable def missed (y p : ℝ) : ℝ := max 0 (1 - y * p)

/-- Rates between `a₀` and `lr`. -/
theorem mistakes_le {n : Nat} {W φ : Nat → Nat → ℝ} {y a : Nat → ℝ} {R lr a₀ : ℝ} {u : Nat → ℝ} {bad : Nat → Prop} [DecidablePred bad]
    (T : Nat) (R0 : 0 < R) (l0 : 0 < lr) (a0 : 0 < a₀) (ha : ∀ t, a₀ ≤ a t ∧ a t ≤ lr) (hy : ∀ t, y t ^ 2 = 1)
    (hR : ∀ t, ∑ i ∈ Finset.range n, φ t i ^ 2 ≤ R)
    (hb : ∀ t < T, bad t → y t * ∑ i ∈ Finset.range n, φ t i * W t i ≤ 0 ∧ ∀ i < n, W (t + 1) i = W t i + a t * y t * φ t i)
    (hg : ∀ t < T, ¬ bad t → ∀ i < n, W (t + 1) i = W t i) :
    (((Finset.range T).filter bad).card : ℝ) ≤ lr / a₀ * ((∑ i ∈ Finset.range n, (lr * R * u i - W 0 i) ^ 2) / (lr ^ 2 * R) +
      2 * ∑ t ∈ (Finset.range T).filter bad, missed (y t) (∑ i ∈ Finset.range n, φ t i * u i)) := by
  have h := mistake_potential (c := lr * R) (u := u) T (fun t => a0.le.trans (ha t).1) hy hR hb hg
  have h1 : ∑ t ∈ (Finset.range T).filter bad, (a₀ * lr * R - 2 * lr ^ 2 * R * missed (y t) (∑ i ∈ Finset.range n, φ t i * u i)) ≤
      ∑ t ∈ (Finset.range T).filter bad, (2 * a t * (lr * R) * (y t * ∑ i ∈ Finset.range n, φ t i * u i) - a t ^ 2 * R) := by
    refine Finset.sum_le_sum fun t _ => ?_
    obtain ⟨h1, h2⟩ := ha t
    have m1 := le_max_right 0 (1 - y t * ∑ i ∈ Finset.range n, φ t i * u i)
    have m0 := le_max_left 0 (1 - y t * ∑ i ∈ Finset.range n, φ t i * u i)
    change 1 - _ ≤ missed _ _ at m1
    change 0 ≤ missed _ _ at m0
    generalize missed (y t) (∑ i ∈ Finset.range n, φ t i * u i) = m at *
    generalize y t * ∑ i ∈ Finset.range n, φ t i * u i = z at *
    have at0 : 0 < a t := by linarith
    have s1 : 2 * a t * (lr * R) * (1 - m) ≤ 2 * a t * (lr * R) * z := mul_le_mul_of_nonneg_left (by linarith) (by positivity)
    have s2 : a t * R * (lr - a t) ≥ 0 := mul_nonneg (by positivity) (by linarith)
    have s3 : (a t - a₀) * (lr * R) ≥ 0 := mul_nonneg (by linarith) (by positivity)
    have s4 : (lr - a t) * (lr * R * m) ≥ 0 := mul_nonneg (by linarith) (by positivity)
    nlinarith
  rw [Finset.sum_sub_distrib, Finset.sum_const, nsmul_eq_mul, ← Finset.mul_sum] at h1
  have h0 : 0 ≤ ∑ i ∈ Finset.range n, (lr * R * u i - W T i) ^ 2 := Finset.sum_nonneg fun i _ => sq_nonneg _
  generalize ∑ i ∈ Finset.range n, (lr * R * u i - W T i) ^ 2 = D' at *
  generalize ∑ i ∈ Finset.range n, (lr * R * u i - W 0 i) ^ 2 = D at *
  generalize ∑ t ∈ (Finset.range T).filter bad, missed (y t) (∑ i ∈ Finset.range n, φ t i * u i) = L at *
  generalize (((Finset.range T).filter bad).card : ℝ) = N at *
  have h2 : N * (a₀ * lr * R) ≤ D + 2 * lr ^ 2 * R * L := by linarith
  have e1 : lr / a₀ * (D / (lr ^ 2 * R) + 2 * L) = (D + 2 * lr ^ 2 * R * L) / (a₀ * lr * R) := by field_simp
  rw [e1, le_div_iff₀ (by positivity)]
  exact h2

/-- Finitely many mistakes: none from some call on. -/
theorem eventually_correct {K : Type} [Scalar K] {ys ps : Nat → K} {H : ℝ} (h : ∀ T, ((mistakes ys ps T).card : ℝ) ≤ H) :
    ∃ T, ∀ t ≥ T, Correct (ys t) (ps t) := by
  by_contra hc
  push Not at hc
  have grow : ∀ k : Nat, ∃ T, k ≤ (mistakes ys ps T).card := by
    intro k
    induction k with
    | zero => exact ⟨0, Nat.zero_le _⟩
    | succ k ih =>
      obtain ⟨T, hT⟩ := ih
      obtain ⟨t, ht, hb⟩ := hc T
      refine ⟨t + 1, ?_⟩
      have hs : insert t (mistakes ys ps T) ⊆ mistakes ys ps (t + 1) := by
        intro s hs
        rw [mistakes, Finset.mem_filter, Finset.mem_range]
        rcases Finset.mem_insert.1 hs with rfl | hs
        · exact ⟨by omega, hb⟩
        · rw [mistakes, Finset.mem_filter, Finset.mem_range] at hs
          exact ⟨by omega, hs.2⟩
      have hn : t ∉ mistakes ys ps T := by
        rw [mistakes, Finset.mem_filter, Finset.mem_range]
        omega
      have := Finset.card_le_card hs
      rw [Finset.card_insert_of_notMem hn] at this
      omega
  obtain ⟨T, hT⟩ := grow (⌊H⌋₊ + 1)
  have h1 := h T
  have h2 := Nat.lt_floor_add_one H
  have h3 : ((⌊H⌋₊ + 1 : Nat) : ℝ) ≤ ((mistakes ys ps T).card : ℝ) := by exact_mod_cast hT
  push_cast at h3
  linarith

/-! ### Exact arithmetic -/

section
variable {B I : Type} [Space B] [Basis B I ℝ]

theorem correct_real (y p : ℝ) : Correct y p ↔ 0 < y * p := by
  show Scalar.lt Scalar.zero (y *. p) = true ↔ _
  rw [real_lt, decide_eq_true_iff, real_zero, real_mul]

/-- The states of a run of mistakes, for an optimiser that adds `a φ` times the error. -/
theorem mistake_run {O : Type} [Optimiser O ℝ] {b : B} {n : Nat} {o : O} {rate : Features ℝ → ℝ}
    (hstep : ∀ (w : List ℝ) (φ : Features ℝ) (s : ℝ), Fits n φ → w.length = n →
      ∃ w', Optimiser.stepScaled o w φ s = .ok (.ok (), o, w') ∧ w'.length = n ∧ ∀ i < n, entry w' i = entry w i + rate φ * s * value φ i)
    {xs : Nat → I} {φs : Nat → Features ℝ} (hp : ∀ t, Basis.project b (xs t) = .ok (.ok (φs t))) (hf : ∀ t, Fits n (φs t))
    {ys ps : Nat → ℝ} {w : List ℝ} (hw : w.length = n) {fas : Nat → ScalarLFA B O ℝ} (h : LearnsFromMistakes fas xs ys ps)
    (h0 : fas 0 = LFA.mk b w o) (t : Nat) :
    ((fas t).basis = b ∧ (fas t).optimiser = o ∧ (fas t).weights.length = n) ∧
    (¬ Correct (ys t) (ps t) → ys t * ∑ i ∈ Finset.range n, value (φs t) i * entry (fas t).weights i ≤ 0 ∧
      ∀ i < n, entry (fas (t + 1)).weights i = entry (fas t).weights i + rate (φs t) * ys t * value (φs t) i) ∧
    (Correct (ys t) (ps t) → ∀ i < n, entry (fas (t + 1)).weights i = entry (fas t).weights i) := by
  have upd : ∀ t, ((fas t).basis = b ∧ (fas t).optimiser = o ∧ (fas t).weights.length = n) → ¬ Correct (ys t) (ps t) →
      ((fas (t + 1)).basis = b ∧ (fas (t + 1)).optimiser = o ∧ (fas (t + 1)).weights.length = n) ∧
      ∀ i < n, entry (fas (t + 1)).weights i = entry (fas t).weights i + rate (φs t) * ys t * value (φs t) i := by
    rintro t ⟨h1, h2, h3⟩ hc
    have hp' : Basis.project (fas t).basis (xs t) = .ok (.ok (φs t)) := by rw [h1]; exact hp t
    have hu := h.wrong t hc
    obtain ⟨w', s1, s2, s3⟩ := hstep (fas t).weights (φs t) (ys t) (hf t) h3
    rw [scalar_update_eq hp', h2, s1] at hu
    have e := (Prod.mk.inj (Except.ok.inj hu)).2
    rw [← e]
    exact ⟨⟨h1, rfl, s2⟩, s3⟩
  have inv : ∀ t, (fas t).basis = b ∧ (fas t).optimiser = o ∧ (fas t).weights.length = n := by
    intro t
    induction t with
    | zero => rw [h0]; exact ⟨rfl, rfl, hw⟩
    | succ t ih =>
      by_cases hc : Correct (ys t) (ps t)
      · rw [h.right t hc]; exact ih
      · exact (upd t ih hc).1
  refine ⟨inv t, fun hc => ⟨?_, (upd t (inv t) hc).2⟩, fun hc i _ => by rw [h.right t hc]⟩
  rw [← prediction_inner (hp t) (hf t) (inv t).1 (inv t).2.2 (h.predicts t)]
  exact not_lt.1 fun h => hc ((correct_real _ _).2 h)

/-- SGD, any basis, any starting weights and any learning rate, features of squared norm at most `R`, labels 1 and -1. For all reference
weights `u` the number of mistakes is at most `‖w - lr R u‖² / (lr² R)` plus twice what `u` misses of the margin 1, on the mistakes. -/
theorem C201_sgd (b : B) (n : Nat) (xs : Nat → I) (φs : Nat → Features ℝ) (hp : ∀ t, Basis.project b (xs t) = .ok (.ok (φs t)))
    (hf : ∀ t, Fits n (φs t)) (R : ℝ) (R0 : 0 < R) (hR : ∀ t, normSq (φs t) ≤ R) (ys ps : Nat → ℝ) (hy : ∀ t, ys t = 1 ∨ ys t = -1)
    (lr : ℝ) (hlr : 0 < lr) (w : List ℝ) (hw : w.length = n) (fas : Nat → ScalarLFA B (SGD ℝ) ℝ) (h : LearnsFromMistakes fas xs ys ps)
    (h0 : fas 0 = LFA.mk b w (SGD.mk lr)) (u : Nat → ℝ) (T : Nat) :
    ((mistakes ys ps T).card : ℝ) ≤ (∑ i ∈ Finset.range n, (lr * R * u i - entry w i) ^ 2) / (lr ^ 2 * R) +
      2 * ∑ t ∈ mistakes ys ps T, max 0 (1 - ys t * ∑ i ∈ Finset.range n, value (φs t) i * u i) := by
  have hr := mistake_run (o := SGD.mk lr) (rate := fun _ => lr) (fun w φ s hf hw => sgd_real hf (SGD.mk lr) s hw) hp hf hw h h0
  have := mistakes_le (n := n) (W := fun t i => entry (fas t).weights i) (φ := fun t i => value (φs t) i) (y := ys) (a := fun _ => lr) (u := u)
    (bad := fun t => ¬ Correct (ys t) (ps t)) T R0 hlr hlr (fun _ => ⟨le_rfl, le_rfl⟩)
    (fun t => by rcases hy t with e | e <;> rw [e] <;> norm_num)
    (fun t => by have := hR t; rw [normSq, (hf t).2] at this; simpa only [pow_two] using this) (fun t _ hc => (hr t).2.1 hc)
    (fun t _ hc => (hr t).2.2 (not_not.1 hc))
  rw [div_self hlr.ne', one_mul, h0] at this
  exact this

/-- ISGD: the same times `1 + lr R`. -/
theorem C201_isgd (b : B) (n : Nat) (xs : Nat → I) (φs : Nat → Features ℝ) (hp : ∀ t, Basis.project b (xs t) = .ok (.ok (φs t)))
    (hf : ∀ t, Fits n (φs t)) (R : ℝ) (R0 : 0 < R) (hR : ∀ t, normSq (φs t) ≤ R) (ys ps : Nat → ℝ) (hy : ∀ t, ys t = 1 ∨ ys t = -1)
    (lr : ℝ) (hlr : 0 < lr) (w : List ℝ) (hw : w.length = n) (fas : Nat → ScalarLFA B (ISGD ℝ) ℝ) (h : LearnsFromMistakes fas xs ys ps)
    (h0 : fas 0 = LFA.mk b w (ISGD.mk lr)) (u : Nat → ℝ) (T : Nat) :
    ((mistakes ys ps T).card : ℝ) ≤ (1 + lr * R) * ((∑ i ∈ Finset.range n, (lr * R * u i - entry w i) ^ 2) / (lr ^ 2 * R) +
      2 * ∑ t ∈ mistakes ys ps T, max 0 (1 - ys t * ∑ i ∈ Finset.range n, value (φs t) i * u i)) := by
  have hr := mistake_run (o := ISGD.mk lr) (rate := fun φ => lr / (1 + lr * normSq φ)) (fun w φ s hf hw => isgd_real hf (ISGD.mk lr) s hw)
    hp hf hw h h0
  have n0 : ∀ t, 0 ≤ normSq (φs t) := fun t => Finset.sum_nonneg fun i _ => mul_self_nonneg _
  have := mistakes_le (n := n) (W := fun t i => entry (fas t).weights i) (φ := fun t i => value (φs t) i) (y := ys)
    (a := fun t => lr / (1 + lr * normSq (φs t))) (a₀ := lr / (1 + lr * R)) (u := u)
    (bad := fun t => ¬ Correct (ys t) (ps t)) T R0 hlr (by positivity)
    (fun t => ⟨by
      have := mul_le_mul_of_nonneg_left (hR t) hlr.le
      have := mul_nonneg hlr.le (n0 t)
      exact div_le_div_of_nonneg_left hlr.le (by linarith) (by linarith), div_le_self hlr.le (by linarith [mul_nonneg hlr.le (n0 t)])⟩)
    (fun t => by rcases hy t with e | e <;> rw [e] <;> norm_num)
    (fun t => by have := hR t; rw [normSq, (hf t).2] at this; simpa only [pow_two] using this) (fun t _ hc => (hr t).2.1 hc)
    (fun t _ hc => (hr t).2.2 (not_not.1 hc))
  rw [div_div_cancel₀ hlr.ne', h0] at this
  exact this

/-- When `u` separates the classes with margin 1, a fresh approximator makes at most `R ‖u‖²` mistakes with SGD, whatever the learning rate,
and `(1 + lr R) R ‖u‖²` with ISGD; from some call on there are no more mistakes. -/
theorem C201_separable (b : B) (n : Nat) (xs : Nat → I) (φs : Nat → Features ℝ) (hp : ∀ t, Basis.project b (xs t) = .ok (.ok (φs t)))
    (hf : ∀ t, Fits n (φs t)) (R : ℝ) (R0 : 0 < R) (hR : ∀ t, normSq (φs t) ≤ R) (ys ps : Nat → ℝ) (hy : ∀ t, ys t = 1 ∨ ys t = -1)
    (lr : ℝ) (hlr : 0 < lr) (u : Nat → ℝ) (hu : ∀ t, 1 ≤ ys t * ∑ i ∈ Finset.range n, value (φs t) i * u i) :
    (∀ fas : Nat → ScalarLFA B (SGD ℝ) ℝ, LearnsFromMistakes fas xs ys ps → fas 0 = LFA.mk b (List.replicate n 0) (SGD.mk lr) →
      (∀ T, ((mistakes ys ps T).card : ℝ) ≤ R * ∑ i ∈ Finset.range n, u i ^ 2) ∧ ∃ T, ∀ t ≥ T, Correct (ys t) (ps t)) ∧
    (∀ fas : Nat → ScalarLFA B (ISGD ℝ) ℝ, LearnsFromMistakes fas xs ys ps → fas 0 = LFA.mk b (List.replicate n 0) (ISGD.mk lr) →
      (∀ T, ((mistakes ys ps T).card : ℝ) ≤ (1 + lr * R) * (R * ∑ i ∈ Finset.range n, u i ^ 2)) ∧ ∃ T, ∀ t ≥ T, Correct (ys t) (ps t)) := by
  have z : ∀ i, entry (List.replicate n (0 : ℝ)) i = 0 := fun i => by
    rw [entry_real, List.getD_eq_getElem?_getD, List.getElem?_replicate]
    split <;> rfl
  have e1 : (∑ i ∈ Finset.range n, (lr * R * u i - entry (List.replicate n (0 : ℝ)) i) ^ 2) / (lr ^ 2 * R) = R * ∑ i ∈ Finset.range n, u i ^ 2 := by
    have : ∑ i ∈ Finset.range n, (lr * R * u i - entry (List.replicate n (0 : ℝ)) i) ^ 2 = (lr * R) ^ 2 * ∑ i ∈ Finset.range n, u i ^ 2 := by
      rw [Finset.mul_sum]
      exact Finset.sum_congr rfl fun i _ => by rw [z]; ring
    rw [this]
    field_simp
  have e2 : ∀ T, ∑ t ∈ mistakes ys ps T, max 0 (1 - ys t * ∑ i ∈ Finset.range n, value (φs t) i * u i) = 0 := fun T =>
    Finset.sum_eq_zero fun t _ => max_eq_left (by linarith [hu t])
  refine ⟨fun fas h h0 => ?_, fun fas h h0 => ?_⟩
  · have k : ∀ T, ((mistakes ys ps T).card : ℝ) ≤ R * ∑ i ∈ Finset.range n, u i ^ 2 := fun T => by
      have := C201_sgd b n xs φs hp hf R R0 hR ys ps hy lr hlr _ (by simp) fas h h0 u T
      rwa [e1, e2, mul_zero, add_zero] at this
    exact ⟨k, eventually_correct k⟩
  · have k : ∀ T, ((mistakes ys ps T).card : ℝ) ≤ (1 + lr * R) * (R * ∑ i ∈ Finset.range n, u i ^ 2) := fun T => by
      have := C201_isgd b n xs φs hp hf R R0 hR ys ps hy lr hlr _ (by simp) fas h h0 u T
      rwa [e1, e2, mul_zero, add_zero] at this
    exact ⟨k, eventually_correct k⟩

end

/-! ### `f64` with integer features -/

section
variable {M : Machine} {B I : Type} [Space B] [Basis B I (FP M)]

/-- The integers behind the weights. -/
def errorTally (bad : Nat → Bool) (Y : Nat → ℤ) (A : Nat → Nat → ℤ) : Nat → Nat → ℤ
  | 0, _ => 0
  | t + 1, i => errorTally bad Y A t i + if bad t then Y t * A t i else 0

theorem errorTally_size {n : Nat} {bad : Nat → Bool} {Y : Nat → ℤ} {A : Nat → Nat → ℤ} {R : ℤ} (hY : ∀ t, |Y t| = 1)
    (hA : ∀ t, ∑ i ∈ Finset.range n, A t i ^ 2 ≤ R) (C : Nat → ℤ) (hC : ∑ i ∈ Finset.range n, C i ^ 2 ≤ R) (T : Nat) :
    ∑ i ∈ Finset.range n, |C i * errorTally bad Y A T i| ≤ R * ((Finset.range T).filter fun t => bad t = true).card := by
  induction T with
  | zero => simp [errorTally]
  | succ T ih =>
    rw [Finset.range_add_one, Finset.filter_insert]
    by_cases hb : bad T = true
    · rw [if_pos hb, Finset.card_insert_of_notMem (by simp)]
      have h1 : ∑ i ∈ Finset.range n, |C i * errorTally bad Y A (T + 1) i| ≤
          ∑ i ∈ Finset.range n, (|C i * errorTally bad Y A T i| + |C i| * |A T i|) := by
        refine Finset.sum_le_sum fun i _ => ?_
        simp only [errorTally, hb, if_true, mul_add]
        refine (abs_add_le _ _).trans (le_of_eq ?_)
        rw [abs_mul (C i) (Y T * A T i), abs_mul (Y T), hY T, one_mul]
      have h2 : 2 * ∑ i ∈ Finset.range n, |C i| * |A T i| ≤ ∑ i ∈ Finset.range n, C i ^ 2 + ∑ i ∈ Finset.range n, A T i ^ 2 := by
        rw [Finset.mul_sum, ← Finset.sum_add_distrib]
        refine Finset.sum_le_sum fun i _ => ?_
        rw [← sq_abs (C i), ← sq_abs (A T i)]
        nlinarith [sq_nonneg (|C i| - |A T i|)]
      rw [Finset.sum_add_distrib] at h1
      have := hA T
      push_cast
      linarith
    · rw [if_neg hb]
      simpa [errorTally, hb] using ih

/-- SGD in `f64` with a power of two as learning rate, features that are integers of squared norm at most `R` in any basis, labels 1 and -1,
starting from zero. If some real weights `u` separate the classes with margin 1 and `R (R ‖u‖² + 1) ≤ 2⁵³`, there are at most `R ‖u‖²`
mistakes over all time, whatever the orders of summation. -/
theorem C201_f64 (hM : M.rnd = binary64Format.rnd) (b : B) (n : Nat) (xs : Nat → I) (φs : Nat → Features (FP M))
    (hp : ∀ t, Basis.project b (xs t) = .ok (.ok (φs t))) (hf : ∀ t, Fits n (φs t)) (A : Nat → Nat → ℤ) (R : ℤ)
    (hA : ∀ t, ∀ i < n, Is (value (φs t) i) (A t i)) (hR : ∀ t, ∑ i ∈ Finset.range n, A t i ^ 2 ≤ R)
    (ys ps : Nat → FP M) (Y : Nat → ℤ) (hy : ∀ t, Is (ys t) (Y t)) (hY : ∀ t, Y t = 1 ∨ Y t = -1) (u : Nat → ℝ)
    (hu : ∀ t, 1 ≤ Y t * ∑ i ∈ Finset.range n, A t i * u i) (hb : R * (R * ∑ i ∈ Finset.range n, u i ^ 2 + 1) ≤ 2 ^ 53)
    (lr : FP M) (l : ℤ) (hl1 : -1074 ≤ l) (hl2 : l ≤ 900) (hlr : Is lr (2 ^ l)) (fas : Nat → ScalarLFA B (SGD (FP M)) (FP M))
    (h : LearnsFromMistakes fas xs ys ps) (h0 : fas 0 = LFA.mk b (List.replicate n Scalar.zero) (SGD.mk lr)) :
    (∀ T, ((mistakes ys ps T).card : ℝ) ≤ R * ∑ i ∈ Finset.range n, u i ^ 2) ∧ ∃ T, ∀ t ≥ T, Correct (ys t) (ps t) := by
  suffices k : ∀ T, ((mistakes ys ps T).card : ℝ) ≤ R * ∑ i ∈ Finset.range n, u i ^ 2 from ⟨k, eventually_correct k⟩
  have hY1 : ∀ t, |Y t| = 1 := fun t => by rcases hY t with e | e <;> rw [e] <;> rfl
  -- some feature is not zero
  have R1 : 1 ≤ R := by
    by_contra hc
    have hz : ∀ i ∈ Finset.range n, A 0 i = 0 := fun i hi => by
      have h1 := Finset.single_le_sum (f := fun i => A 0 i ^ 2) (fun i _ => sq_nonneg _) hi
      have h2 : A 0 i ^ 2 ≤ 0 := (h1.trans (hR 0)).trans (by omega)
      exact pow_eq_zero_iff (two_ne_zero) |>.1 (le_antisymm h2 (sq_nonneg _))
    have h1 := hu 0
    rw [Finset.sum_eq_zero fun i hi => by rw [hz i hi]; simp] at h1
    norm_num at h1
  have R1' : (1 : ℝ) ≤ R := by exact_mod_cast R1
  set bad : Nat → Bool := fun t => !Scalar.lt Scalar.zero (ys t *. ps t) with hbad
  have hbc : ∀ t, bad t = true ↔ ¬ Correct (ys t) (ps t) := fun t => by
    show (!Scalar.lt Scalar.zero (ys t *. ps t)) = true ↔ ¬ (Scalar.lt Scalar.zero (ys t *. ps t) = true)
    cases Scalar.lt Scalar.zero (ys t *. ps t) <;> simp
  have hcard : ∀ T, (Finset.range T).filter (fun t => bad t = true) = mistakes ys ps T := fun T => by
    rw [mistakes]
    exact Finset.filter_congr fun t _ => hbc t
  set W := errorTally bad Y A with hW
  -- the number of mistakes, while the decisions are those of exact arithmetic
  have count : ∀ T, (∀ t < T, bad t = true → Y t * ∑ i ∈ Finset.range n, A t i * W t i ≤ 0) →
      ((mistakes ys ps T).card : ℝ) ≤ R * ∑ i ∈ Finset.range n, u i ^ 2 := fun T hT => by
    have := mistakes_le (n := n) (W := fun t i => (W t i : ℝ)) (φ := fun t i => (A t i : ℝ)) (y := fun t => (Y t : ℝ)) (a := fun _ => 1)
      (R := R) (lr := 1) (a₀ := 1) (u := u) (bad := fun t => bad t = true) T (by linarith) one_pos one_pos (fun _ => ⟨le_rfl, le_rfl⟩)
      (fun t => by rcases hY t with e | e <;> rw [e] <;> norm_num) (fun t => by exact_mod_cast hR t)
      (fun t ht hc => ⟨by exact_mod_cast hT t ht hc, fun i _ => by simp [hW, errorTally, hc]⟩)
      (fun t ht hc i _ => by simp [hW, errorTally, hc])
    rw [hcard] at this
    have e2 : ∑ t ∈ mistakes ys ps T, missed (Y t) (∑ i ∈ Finset.range n, (A t i : ℝ) * u i) = 0 :=
      Finset.sum_eq_zero fun t _ => max_eq_left (by linarith [hu t])
    have e3 : ∑ i ∈ Finset.range n, (1 * (R : ℝ) * u i - (W 0 i : ℝ)) ^ 2 = (R : ℝ) ^ 2 * ∑ i ∈ Finset.range n, u i ^ 2 := by
      rw [Finset.mul_sum]
      exact Finset.sum_congr rfl fun i _ => by simp [hW, errorTally]; ring
    rw [e2, e3] at this
    refine this.trans (le_of_eq ?_)
    have : (R : ℝ) ≠ 0 := by linarith
    field_simp
    ring
  have main : ∀ T, ((fas T).basis = b ∧ (fas T).optimiser = SGD.mk lr ∧ (fas T).weights.length = n ∧
      ∀ i < n, Is (entry (fas T).weights i) (W T i * 2 ^ l)) ∧
      ∀ t < T, bad t = true → Y t * ∑ i ∈ Finset.range n, A t i * W t i ≤ 0 := by
    intro T
    induction T with
    | zero =>
      refine ⟨?_, fun t ht => absurd ht (Nat.not_lt_zero t)⟩
      rw [h0]
      refine ⟨rfl, rfl, by simp, fun i hi => ?_⟩
      show Is (entry (List.replicate n (Scalar.zero : FP M)) i) _
      rw [entry_replicate]
      have e : (W 0 i : ℝ) * 2 ^ l = 0 := by simp [hW, errorTally]
      rw [e]
      exact val_zero
    | succ T ih =>
      obtain ⟨⟨i1, i2, i3, i4⟩, i5⟩ := ih
      have hN := count T i5
      have hNR : (R : ℝ) * (mistakes ys ps T).card + R ≤ 2 ^ 53 := by
        have := mul_le_mul_of_nonneg_left hN (by linarith : (0 : ℝ) ≤ R)
        linarith
      have hNR' : R * ((mistakes ys ps T).card : ℤ) + R ≤ 2 ^ 53 := by exact_mod_cast hNR
      have hsz : ∀ C : Nat → ℤ, ∑ i ∈ Finset.range n, C i ^ 2 ≤ R →
          ∑ i ∈ Finset.range n, |C i * W T i| ≤ R * ((mistakes ys ps T).card : ℤ) := fun C hC => by
        have := errorTally_size (bad := bad) hY1 hR C hC T
        rwa [hcard] at this
      -- the prediction
      have hp' : Basis.project (fas T).basis (xs T) = .ok (.ok (φs T)) := by rw [i1]; exact hp T
      obtain ⟨v, v1, v2⟩ := C109_exact hM (fas T) (xs T) (φs T) hp' (by rw [i3]; exact hf T) (A T) (W T) 0 l (by omega) (by omega)
        (by rw [i3]; intro i hi; rw [zpow_zero, mul_one]; exact hA T i hi) (by rw [i3]; exact i4)
        (by rw [i3]; linarith [hsz (A T) (hR T)])
      rw [i3, zero_add] at v2
      have ev : ps T = v := Except.ok.inj (Except.ok.inj ((h.predicts T).symm.trans v1))
      have habs : |∑ i ∈ Finset.range n, A T i * W T i| ≤ 2 ^ 53 :=
        (Finset.abs_sum_le_sum_abs _ _).trans (by linarith [hsz (A T) (hR T)])
      have hprod : Is (ys T *. ps T) ((Y T * ∑ i ∈ Finset.range n, A T i * W T i : ℤ) * 2 ^ (0 + l)) := by
        rw [ev]
        exact exact_mul hM (int_is.1 (hy T)) v2 (by rw [abs_mul, hY1, one_mul]; exact habs) (by omega) (by omega)
      have l0 := Format.two_zpow_pos (0 + l)
      have hiff : bad T = true ↔ Y T * ∑ i ∈ Finset.range n, A T i * W T i ≤ 0 := by
        rw [hbc]
        have e1 : Correct (ys T) (ps T) ↔ 0 < Y T * ∑ i ∈ Finset.range n, A T i * W T i := by
          show XReal.lt (Scalar.zero : FP M).1 (ys T *. ps T).1 = true ↔ _
          rw [hprod, val_zero]
          show decide ((0 : ℝ) < _) = true ↔ _
          rw [decide_eq_true_iff, mul_pos_iff_of_pos_right l0]
          exact_mod_cast Iff.rfl
        rw [e1, not_lt]
      refine ⟨?_, fun t ht hc => ?_⟩
      · by_cases hc : bad T = true
        · -- a mistake
          have hu := h.wrong T ((hbc T).1 hc)
          obtain ⟨w', s1, s2, s3⟩ := sgd_scaled (hf T) (SGD.mk lr) (ys T) i3
          rw [scalar_update_eq hp', i2, s1] at hu
          have e := (Prod.mk.inj (Except.ok.inj hu)).2
          rw [← e]
          refine ⟨i1, rfl, s2, fun i hi => ?_⟩
          have hAi : |A T i| ≤ R := by
            have h1 : A T i ^ 2 ≤ R := (Finset.single_le_sum (f := fun i => A T i ^ 2) (fun i _ => sq_nonneg _) (Finset.mem_range.2 hi)).trans (hR T)
            rw [← sq_abs] at h1
            nlinarith [abs_nonneg (A T i)]
          have hWi : |W T i| ≤ R * ((mistakes ys ps T).card : ℤ) := by
            have h1 := hsz (fun j => if j = i then 1 else 0) (by
              have : ∑ j ∈ Finset.range n, (if j = i then (1 : ℤ) else 0) ^ 2 = 1 := by
                rw [Finset.sum_eq_single i (fun j _ hj => by rw [if_neg hj]; norm_num) fun hn => absurd (Finset.mem_range.2 hi) hn, if_pos rfl]
                norm_num
              rw [this]; exact R1)
            have h2 := Finset.single_le_sum (f := fun j => |(if j = i then (1 : ℤ) else 0) * W T j|) (fun j _ => abs_nonneg _) (Finset.mem_range.2 hi)
            simp only [if_true, one_mul] at h2
            exact h2.trans h1
          have eW : W (T + 1) i = W T i + Y T * A T i := by simp [hW, errorTally, hc]
          have hYA : |Y T * A T i| ≤ R := by rw [abs_mul, hY1, one_mul]; exact hAi
          have hN0 : 0 ≤ R * ((mistakes ys ps T).card : ℤ) := (abs_nonneg _).trans hWi
          by_cases ha : Active (φs T) i
          · obtain ⟨a, ha⟩ := ha
            show Is (entry w' i) _
            rw [(s3 i hi).1 a ha, eW]
            have hva : Is a (A T i) := by rw [← stored_value (hf T).1 ha]; exact hA T i hi
            have h1 : Is (lr *. ys T) ((1 * Y T : ℤ) * 2 ^ (l + 0)) := exact_mul hM (m := 1) (by rw [Int.cast_one, one_mul]; exact hlr)
              (int_is.1 (hy T)) (by rw [one_mul, hY1]; norm_num) (by omega) (by omega)
            have h2 : Is (lr *. ys T *. a) ((1 * Y T * A T i : ℤ) * 2 ^ (l + 0 + 0)) := exact_mul hM h1 (int_is.1 hva)
              (by rw [one_mul]; linarith) (by omega) (by omega)
            rw [one_mul, add_zero, add_zero] at h2
            exact exact_add hM (i4 i hi) h2 ((abs_add_le _ _).trans (by linarith)) hl1 hl2
          · show Is (entry w' i) _
            rw [(s3 i hi).2 ha, eW]
            have : A T i = 0 := by
              have h1 := hA T i hi
              rw [inactive_value (hf T).1 ha] at h1
              exact_mod_cast is_fun h1 (val_zero (M := M))
            rw [this, mul_zero, add_zero]
            exact i4 i hi
        · rw [h.right T (not_not.1 fun hn => hc ((hbc T).2 hn))]
          have eW : ∀ i, W (T + 1) i = W T i := fun i => by simp [hW, errorTally, hc]
          exact ⟨i1, i2, i3, fun i hi => by rw [eW]; exact i4 i hi⟩
      · rcases Nat.lt_succ_iff_lt_or_eq.1 ht with ht | rfl
        · exact i5 t ht hc
        · exact hiff.1 hc
  exact fun T => count T (main T).2

/-- A table of `n` cells in `f64`, such as a uniform grid, and classes that depend on the cell only: at most `n` mistakes over all time. -/
theorem C201_table (hM : M.rnd = binary64Format.rnd) (b : B) (n : Nat) (hn : n + 1 ≤ 2 ^ 53) (X : I → Prop) (hb : IsTable (K := FP M) b n X)
    (xs : Nat → I) (hx : ∀ t, X (xs t)) (ys ps : Nat → FP M) (Y : Nat → ℤ) (hy : ∀ t, Is (ys t) (Y t)) (hY : ∀ t, Y t = 1 ∨ Y t = -1)
    (hc : ∀ s t, SameProjection (K := FP M) b (xs s) (xs t) → Y s = Y t) (lr : FP M) (l : ℤ) (hl1 : -1074 ≤ l) (hl2 : l ≤ 900)
    (hlr : Is lr (2 ^ l)) (fas : Nat → ScalarLFA B (SGD (FP M)) (FP M)) (h : LearnsFromMistakes fas xs ys ps)
    (h0 : fas 0 = LFA.mk b (List.replicate n Scalar.zero) (SGD.mk lr)) :
    (∀ T, (mistakes ys ps T).card ≤ n) ∧ ∃ T, ∀ t ≥ T, Correct (ys t) (ps t) := by
  choose cell hcell hp using fun t => hb (xs t) (hx t)
  classical
  -- the class of each cell that is met
  let u : Nat → ℝ := fun k => if hk : ∃ t, cell t = k then (Y hk.choose : ℝ) else 0
  have hu : ∀ t, u (cell t) = Y t := fun t => by
    have hk : ∃ s, cell s = cell t := ⟨t, rfl⟩
    show (if hk : ∃ s, cell s = cell t then (Y hk.choose : ℝ) else 0) = _
    rw [dif_pos hk, hc hk.choose t (by rw [SameProjection, hp, hp, hk.choose_spec])]
  have hsq : ∀ k, u k ^ 2 ≤ 1 := fun k => by
    show (if hk : ∃ s, cell s = k then (Y hk.choose : ℝ) else 0) ^ 2 ≤ 1
    split
    · rename_i hk
      rcases hY hk.choose with e | e <;> rw [e] <;> norm_num
    · norm_num
  have hsum : ∑ i ∈ Finset.range n, u i ^ 2 ≤ n := by
    have := Finset.sum_le_card_nsmul (Finset.range n) (fun i => u i ^ 2) 1 fun i _ => hsq i
    simpa using this
  have hn' : ((n : ℝ) + 1) ≤ 2 ^ 53 := by exact_mod_cast hn
  have key := C201_f64 hM b n xs (fun t => .sparse ⟨n, [(cell t, Scalar.one)]⟩) hp
    (fun t => ⟨⟨by simp, fun e he => by rw [List.mem_singleton.1 he]; exact hcell t⟩, rfl⟩) (fun t i => if i = cell t then 1 else 0) 1
    (fun t i _ => by
      rw [value_sparse]
      by_cases hi : i = cell t
      · rw [if_pos hi, hi, HMap.get?_of_mem (show ([(cell t, (Scalar.one : FP M))].map Prod.fst).Nodup by simp) (List.mem_singleton.2 rfl), Int.cast_one]
        exact val_one
      · rw [if_neg hi, (HMap.get?_eq_none_iff _ _).2 (by simpa using hi), Int.cast_zero]
        exact val_zero)
    (fun t => by
      rw [Finset.sum_eq_single (cell t) (fun j _ hj => by rw [if_neg hj]; norm_num) fun hn => absurd (Finset.mem_range.2 (hcell t)) hn, if_pos rfl]
      norm_num)
    ys ps Y hy hY u
    (fun t => by
      rw [Finset.sum_eq_single (cell t) (fun j _ hj => by rw [if_neg hj]; norm_num) fun hn => absurd (Finset.mem_range.2 (hcell t)) hn, if_pos rfl, hu]
      rcases hY t with e | e <;> rw [e] <;> norm_num)
    (by rw [Int.cast_one]; linarith) lr l hl1 hl2 hlr fas h h0
  refine ⟨fun T => ?_, key.2⟩
  have h1 := key.1 T
  rw [Int.cast_one, one_mul] at h1
  exact_mod_cast h1.trans hsum

end

/-- Such runs exist, in any arithmetic and for any of the optimisers, from any weights, for all inputs and labels. -/
theorem C201_runs {K B O I : Type} [Scalar K] [Space B] [Basis B I K] [Optimiser O K] [HasSize O] [Safe (K := K) O] (b : B) (n : Nat)
    (xs : Nat → I) (φs : Nat → Features K) (hp : ∀ t, Basis.project b (xs t) = .ok (.ok (φs t))) (hf : ∀ t, Fits n (φs t)) (ys : Nat → K)
    (w : List K) (hw : w.length = n) (o : O) (ho : HasSize.sized n o) :
    ∃ (fas : Nat → ScalarLFA B O K) (ps : Nat → K), LearnsFromMistakes fas xs ys ps ∧ fas 0 = LFA.mk b w o := by
  let S := { q : O × List K // HasSize.sized n q.1 ∧ q.2.length = n }
  have hd : ∀ (t : Nat) (q : S), ∃ v, (φs t).dot q.1.2 = .ok v := fun t q => dot_safe (hf t) q.2.2
  choose pred hpred using hd
  have hs : ∀ (t : Nat) (q : S), ∃ q' : S, Optimiser.stepScaled q.1.1 q.1.2 (φs t) (ys t) = .ok (.ok (), q'.1.1, q'.1.2) := by
    rintro t ⟨⟨o, w⟩, h1, h2⟩
    obtain ⟨o', w', s1, s2, s3⟩ := Safe.scaled (K := K) (ys t) h1 h2 (hf t)
    exact ⟨⟨(o', w'), s2, s3⟩, s1⟩
  choose next hnext using hs
  let st : Nat → S := fun k => Nat.rec ⟨(o, w), ho, hw⟩ (fun t q => if Correct (ys t) (pred t q) then q else next t q) k
  refine ⟨fun k => LFA.mk b (st k).1.2 (st k).1.1, fun k => pred k (st k), ⟨fun t => ?_, fun t hc => ?_, fun t hc => ?_⟩, rfl⟩
  · exact evaluate_eq (fa := LFA.mk b (st t).1.2 (st t).1.1) (hp t) (hpred t (st t))
  · have e : st (t + 1) = next t (st t) := if_neg hc
    rw [scalar_update_eq (fa := LFA.mk b (st t).1.2 (st t).1.1) (hp t) (ys t), hnext t (st t), e]
    rfl
  · have e : st (t + 1) = st t := if_pos hc
    simp only [e]

/-- The hypotheses are met: two cells in `f64`, visited in turn, of opposite classes, rate 1. There is such a run, and it makes at most two
mistakes. -/
theorem C201_example :
    let b : Closure Nat (FP binary64) := ⟨2, fun k => .ok (.ok (.sparse ⟨2, [(k % 2, Scalar.one)]⟩))⟩
    let ys : Nat → FP binary64 := fun t => if t % 2 = 0 then Scalar.one else Scalar.neg Scalar.one
    ∃ (fas : Nat → ScalarLFA (Closure Nat (FP binary64)) (SGD (FP binary64)) (FP binary64)) (ps : Nat → FP binary64),
      LearnsFromMistakes fas (fun t => t) ys ps ∧ fas 0 = LFA.mk b [Scalar.zero, Scalar.zero] (SGD.mk Scalar.one) ∧
      (∀ T, (mistakes ys ps T).card ≤ 2) ∧ ∃ T, ∀ t ≥ T, Correct (ys t) (ps t) := by
  intro b ys
  have hp : ∀ t : Nat, Basis.project b t = .ok (.ok (.sparse ⟨2, [(t % 2, (Scalar.one : FP binary64))]⟩)) := fun t => rfl
  have hb : IsTable (K := FP binary64) b 2 (fun _ : Nat => True) := fun t _ => ⟨t % 2, Nat.mod_lt _ (by norm_num), hp t⟩
  obtain ⟨fas, ps, h, h0⟩ := C201_runs (O := SGD (FP binary64)) b 2 (fun t => t) _ hp
    (fun t => ⟨⟨by simp, fun e he => by rw [List.mem_singleton.1 he]; exact Nat.mod_lt _ (by norm_num)⟩, rfl⟩) ys
    [Scalar.zero, Scalar.zero] rfl (SGD.mk Scalar.one) trivial
  refine ⟨fas, ps, h, h0, ?_⟩
  refine C201_table rfl b 2 (by norm_num) _ hb (fun t => t) (fun _ => trivial) ys ps (fun t => if t % 2 = 0 then 1 else -1) (fun t => ?_) (fun t => ?_)
    (fun s t hst => ?_) Scalar.one 0 (by norm_num) (by norm_num) (by rw [zpow_zero]; exact val_one) fas h h0
  · show Is (if t % 2 = 0 then Scalar.one else Scalar.neg Scalar.one : FP binary64) _
    split_ifs
    · rw [Int.cast_one]; exact val_one
    · rw [Int.cast_neg, Int.cast_one]
      show (Scalar.neg (Scalar.one : FP binary64)).1 = _
      rw [val_neg, val_one]; rfl
  · by_cases ht : t % 2 = 0
    · exact .inl (if_pos ht)
    · exact .inr (if_neg ht)
  · have e : s % 2 = t % 2 := by
      have h1 := hst
      rw [SameProjection, hp, hp] at h1
      have h2 := Except.ok.inj (Except.ok.inj h1)
      injection h2 with h2
      injection h2 with _ h2
      exact (Prod.mk.inj (List.cons.inj h2).1).1
    show (if s % 2 = 0 then (1 : ℤ) else -1) = if t % 2 = 0 then 1 else -1
    rw [e]

end Lfa

import Verif.Proofs.RoundErr
import Verif.Props.C107_C108
import Mathlib.Algebra.Order.BigOperators.Group.List
import Mathlib.Algebra.BigOperators.Group.Finset.Basic

/-!
# C109, C110: exact arithmetic on integers in `f64`

Predictions and gradient-ascent steps whose numbers are integer multiples of a power of two, with a total
magnitude of at most `2⁵³` units, are computed without any rounding, whatever the order of the sums.
Beyond that counters stop.
-/

set_option linter.unusedSectionVars false

namespace Lfa

open Spec Machine

variable {M : Machine}

theorem rnd_dyadic (hM : M.rnd = binary64Format.rnd) {m : ℤ} {e : ℤ} (hm : |m| ≤ 2 ^ 53) (h1 : -1074 ≤ e)
    (h2 : e ≤ 900) : M.rnd (m * 2 ^ e) = .fin (m * 2 ^ e) := by
  rw [hM]
  refine binary64Format.rnd_exact (by exact hm) (by exact h1) ?_
  rw [abs_mul, abs_of_pos (Format.two_zpow_pos e)]
  have hm' : |(m : ℝ)| ≤ 2 ^ (53 : ℤ) := by
    have : ((|m| : ℤ) : ℝ) ≤ ((2 ^ 53 : ℤ) : ℝ) := by exact_mod_cast hm
    rw [Int.cast_abs] at this
    refine this.trans (le_of_eq ?_)
    norm_num
  have he : (2 : ℝ) ^ e ≤ 2 ^ (900 : ℤ) := zpow_le_zpow_right₀ (by norm_num) h2
  have := mul_le_mul hm' he (Format.two_zpow_pos e).le (Format.two_zpow_pos 53).le
  refine this.trans_lt ?_
  rw [← zpow_add₀ (by norm_num)]
  exact zpow_lt_zpow_right₀ (by norm_num) (by norm_num [binary64Format])

theorem exact_add (hM : M.rnd = binary64Format.rnd) {a b : FP M} {m k e : ℤ} (ha : Is a (m * 2 ^ e))
    (hb : Is b (k * 2 ^ e)) (h : |m + k| ≤ 2 ^ 53) (h1 : -1074 ≤ e) (h2 : e ≤ 900) :
    Is (a +. b) ((m + k : ℤ) * 2 ^ e) := by
  show (a +. b).1 = _
  rw [val_add, ha, hb]
  show M.rnd (m * 2 ^ e + k * 2 ^ e) = _
  rw [← rnd_dyadic hM h h1 h2]
  push_cast
  rw [add_mul]

theorem exact_mul (hM : M.rnd = binary64Format.rnd) {a b : FP M} {m k p q : ℤ} (ha : Is a (m * 2 ^ p))
    (hb : Is b (k * 2 ^ q)) (h : |m * k| ≤ 2 ^ 53) (h1 : -1074 ≤ p + q) (h2 : p + q ≤ 900) :
    Is (a *. b) ((m * k : ℤ) * 2 ^ (p + q)) := by
  show (a *. b).1 = _
  rw [val_mul, ha, hb]
  show M.rnd (m * 2 ^ p * (k * 2 ^ q)) = _
  rw [← rnd_dyadic hM h h1 h2, zpow_add₀ (by norm_num)]
  push_cast
  congr 1
  ring

/-! ## C109 Predictions -/

theorem tree_exact (hM : M.rnd = binary64Format.rnd) {x : Nat → FP M} {k : Nat → ℤ} {e : ℤ}
    (h1 : -1074 ≤ e) (h2 : e ≤ 900) : ∀ (t : SumTree), (∀ i ∈ t.terms, Is (x i) (k i * 2 ^ e)) →
      (t.terms.map fun i => |k i|).sum ≤ 2 ^ 53 →
      Is (t.eval M.add (M.lit 0) x) ((t.terms.map k).sum * 2 ^ e : ℝ)
  | .zero, _, _ => by
    show (M.lit 0).1 = _
    rw [val_lit_zero]
    simp [SumTree.terms]
  | .term i, h, _ => by
    show Is (x i) _
    have := h i List.mem_cons_self
    simpa [SumTree.terms] using this
  | .add l r, h, hb => by
    have bound : ∀ u : List Nat, |(u.map k).sum| ≤ (u.map fun i => |k i|).sum := by
      intro u
      induction u with
      | nil => simp
      | cons a u ih =>
        rw [List.map_cons, List.map_cons, List.sum_cons, List.sum_cons]
        exact (abs_add_le _ _).trans (by linarith)
    have nonneg : ∀ u : List Nat, 0 ≤ (u.map fun i => |k i|).sum := fun u =>
      (abs_nonneg _).trans (bound u)
    have hs : (l.terms.map fun i => |k i|).sum + (r.terms.map fun i => |k i|).sum ≤ 2 ^ 53 := by
      rw [← List.sum_append, ← List.map_append]
      exact hb
    have il := tree_exact hM h1 h2 l (fun i hi => h i (List.mem_append_left _ hi))
      (by linarith [nonneg r.terms])
    have ir := tree_exact hM h1 h2 r (fun i hi => h i (List.mem_append_right _ hi))
      (by linarith [nonneg l.terms])
    have := exact_add hM il ir (by
      have a := bound l.terms
      have b := bound r.terms
      exact (abs_add_le _ _).trans (by linarith)) h1 h2
    show Is (l.eval M.add (M.lit 0) x +. r.eval M.add (M.lit 0) x) _
    rw [show (SumTree.add l r).terms = l.terms ++ r.terms from rfl, List.map_append, List.sum_append]
    exact this

theorem tree_exact_list (hM : M.rnd = binary64Format.rnd) {α : Type} (L : List α) (g : α → FP M)
    (k : α → ℤ) {e : ℤ} (h1 : -1074 ≤ e) (h2 : e ≤ 900) (hg : ∀ a ∈ L, Is (g a) (k a * 2 ^ e))
    (hb : (L.map fun a => |k a|).sum ≤ 2 ^ 53) {t : SumTree} (ht : t.terms.Perm (List.range L.length)) :
    Is (t.eval M.add (M.lit 0) fun i => (L.map g).getD i (M.lit 0)) ((L.map k).sum * 2 ^ e : ℝ) := by
  have hsum : ∀ f : ℤ → ℤ, (t.terms.map fun i => f ((L.map k).getD i 0)).sum
      = (L.map fun a => f (k a)).sum := by
    intro f
    rw [(ht.map _).sum_eq]
    have : (List.range L.length).map (fun i => f ((L.map k).getD i 0)) = L.map fun a => f (k a) := by
      apply List.ext_getElem
      · simp
      · intro i h _
        simp at h
        simp [h]
    rw [this]
  have := tree_exact hM (x := fun i => (L.map g).getD i (M.lit 0)) (k := fun i => (L.map k).getD i 0) h1 h2
    t (fun i hi => by
      have hi : i < L.length := List.mem_range.1 (ht.mem_iff.1 hi)
      have a := hg L[i] (List.getElem_mem _)
      simpa [hi] using a) (by rw [hsum (|·|)]; exact hb)
  have e := hsum id
  simp only [id] at e
  rw [e] at this
  exact this

theorem sum_range_list (n : Nat) (f : Nat → ℤ) :
    ∑ i ∈ Finset.range n, f i = ((List.range n).map f).sum := rfl

/-- A sum over the entries of a map as a sum over all indices. -/
theorem sum_keys {V : Type} {n : Nat} {m : HMap V} (hm : m.NodupKeys) (hr : ∀ e ∈ m, e.1 < n) (f : Nat → ℤ)
    (h0 : ∀ i < n, i ∉ m.map Prod.fst → f i = 0) :
    (m.map fun e => f e.1).sum = ∑ i ∈ Finset.range n, f i := by
  have e : (m.map fun e => f e.1) = (m.map Prod.fst).map f := by rw [List.map_map]; rfl
  rw [e, ← List.sum_toFinset f hm]
  apply Finset.sum_subset
  · intro i hi
    obtain ⟨e, he, rfl⟩ := List.mem_map.1 (List.mem_toFinset.1 hi)
    exact Finset.mem_range.2 (hr e he)
  · intro i hi hn
    exact h0 i (Finset.mem_range.1 hi) fun h => hn (List.mem_toFinset.2 h)

section
variable {B O I : Type} [Space B] [Basis B I (FP M)]

/-- Activations `Aᵢ 2ᵖ` and weights `Wᵢ 2^q` with integers of total magnitude `∑ |Aᵢ Wᵢ| ≤ 2⁵³`: the
prediction is the exact inner product, on every machine with `f64` rounding, hence in every order of
summation. -/
theorem C109_exact (hM : M.rnd = binary64Format.rnd) (fa : ScalarLFA B O (FP M)) (x : I)
    (φ : Features (FP M)) (hp : Basis.project fa.basis x = .ok (.ok φ)) (hf : Fits fa.weights.length φ)
    (A W : Nat → ℤ) (p q : ℤ) (h1 : -1074 ≤ p + q) (h2 : p + q ≤ 900)
    (hA : ∀ i < fa.weights.length, Is (value φ i) (A i * 2 ^ p))
    (hW : ∀ i < fa.weights.length, Is (entry fa.weights i) (W i * 2 ^ q))
    (hb : ∑ i ∈ Finset.range fa.weights.length, |A i * W i| ≤ 2 ^ 53) :
    ∃ v, fa.evaluate x = .ok (.ok v) ∧
      Is v ((∑ i ∈ Finset.range fa.weights.length, A i * W i : ℤ) * 2 ^ (p + q)) := by
  have term : ∀ i < fa.weights.length,
      Is (value φ i *. entry fa.weights i) ((A i * W i : ℤ) * 2 ^ (p + q)) := by
    intro i hi
    refine exact_mul hM (hA i hi) (hW i hi) ?_ h1 h2
    exact (Finset.single_le_sum (f := fun i => |A i * W i|) (fun j _ => abs_nonneg _)
      (Finset.mem_range.2 hi)).trans hb
  suffices h : ∃ v, φ.dot fa.weights = .ok v ∧
      Is v ((∑ i ∈ Finset.range fa.weights.length, A i * W i : ℤ) * 2 ^ (p + q)) by
    obtain ⟨v, hv, hi⟩ := h
    exact ⟨v, by rw [scalar_evaluate_eq hp, hv]; rfl, hi⟩
  generalize fa.weights = w at *
  cases φ with
  | dense da =>
    have hl : da.length = w.length := hf.2
    refine ⟨Scalar.dot da w, ?_, ?_⟩
    · show arrayDot da w = _
      unfold arrayDot
      rw [if_pos hl]
    · have := tree_exact_list hM (List.range w.length) (fun i => value (.dense da) i *. entry w i)
        (fun i => A i * W i) h1 h2 (fun i hi => term i (List.mem_range.1 hi))
        (by rw [← sum_range_list _ fun i => |A i * W i|]; exact hb)
        (t := M.dotTree (min da.length w.length)) (by
          rw [List.length_range, hl, Nat.min_self]
          exact M.dotTree_terms _)
      rw [← sum_range_list] at this
      have e : (List.range w.length).map (fun i => value (.dense da) i *. entry w i)
          = List.zipWith M.mul da w := by
        apply List.ext_getElem
        · simp [hl]
        · intro i hi hi'
          simp at hi
          rw [List.getElem_map, List.getElem_zipWith, List.getElem_range, ← getElem_entry hi]
          show entry da i *. _ = _
          rw [← getElem_entry (hl ▸ hi)]
          rfl
      rw [e] at this
      exact this
  | sparse sa =>
    obtain ⟨d, m⟩ := sa
    have hd : d = w.length := hf.2
    subst hd
    have hr : ∀ e ∈ m, e.1 < w.length := hf.1.2
    have hz : ∀ i < w.length, i ∉ m.map Prod.fst → A i = 0 := by
      intro i hi hn
      have := hA i hi
      rw [value_sparse, (HMap.get?_eq_none_iff _ _).2 hn] at this
      have := is_fun this (val_zero (M := M))
      have := (mul_eq_zero.1 this).resolve_right (Format.two_zpow_pos p).ne'
      exact_mod_cast this
    refine ⟨_, dotSparse_ok hr, ?_⟩
    rw [foldl_tree (fun e : Nat × FP M => w.getD e.1 Scalar.zero *. e.2) m]
    rw [← sum_keys hf.1.1 hr (fun i => A i * W i) fun i hi hn => by rw [hz i hi hn, zero_mul]]
    refine tree_exact_list hM m _ (fun e => A e.1 * W e.1) h1 h2 (fun e he => ?_) ?_ ?_
    · have := term e.1 (hr e he)
      rw [mul_comm_fp, value_sparse, HMap.get?_of_mem hf.1.1 (show (e.1, e.2) ∈ m from he)] at this
      exact this
    · rw [sum_keys hf.1.1 hr (fun i => |A i * W i|) fun i hi hn => by rw [hz i hi hn, zero_mul, abs_zero]]
      exact hb
    · rw [leftTree_terms]
end

/-! ## C110 Training -/

/-- A call whose scale and activation of feature `i` are integers, the scale at most `2⁵³`. -/
def IntegerCall (i : Nat) : Event (FP M) → Prop
  | .step φ => ∃ A : ℤ, Is (value φ i) A
  | .stepScaled φ s => ∃ S A : ℤ, Is s S ∧ |S| ≤ 2 ^ 53 ∧ Is (value φ i) A
  | .reset => True

theorem stored_value {K : Type} [Scalar K] {φ : Features K} (h : WF φ) {i : Nat} {a : K}
    (ha : Stored φ i a) : value φ i = a := by
  cases φ with
  | dense da => exact entry_of_getElem? ha
  | sparse sa => rw [value_sparse, HMap.get?_of_mem h.1 ha]; rfl

theorem inactive_value {K : Type} [Scalar K] {φ : Features K} (h : WF φ) {i : Nat}
    (ha : ¬ Active φ i) : value φ i = Scalar.zero := by
  cases φ with
  | dense da =>
    rcases Nat.lt_or_ge i da.length with hi | hi
    · exact absurd (active_dense hi) ha
    · exact entry_of_ge hi
  | sparse sa => rw [value_sparse, (not_active_sparse_iff h.1 i).1 ha]; rfl

theorem int_is {a : FP M} {m : ℤ} : Is a m ↔ Is a (m * 2 ^ (0 : ℤ)) := by rw [zpow_zero, mul_one]

theorem real_sum_nonneg (L : List ℝ) : 0 ≤ (L.map (|·|)).sum := by
  apply List.sum_nonneg
  intro a ha
  obtain ⟨b, -, rfl⟩ := List.mem_map.1 ha
  exact abs_nonneg b

/-- Gradient ascent with a learning rate `2ˡ` and integer scales and activations, from a weight that is a
multiple of `2ˡ`: as long as the magnitudes of the weight and of all increments add up to at most `2⁵³`
units, the result is exact. -/
theorem C110_exact (hM : M.rnd = binary64Format.rnd) (l : ℤ) (h1 : -1074 ≤ l) (h2 : l ≤ 900) {n i : Nat}
    (hi : i < n) (es : List (Event (FP M))) : ∀ (o o' : SGD (FP M)) (w w' : List (FP M)) (W : ℤ),
    Is o.lr (2 ^ l) → w.length = n → (∀ e ∈ es, e.Fits n) → (∀ e ∈ es, IntegerCall i e) →
    History o w es o' w' → Is (entry w i) (W * 2 ^ l) →
    |(W : ℝ) * 2 ^ l| + (es.map fun e => |increment (2 ^ l) i e|).sum ≤ 2 ^ (53 : ℤ) * 2 ^ l →
    Is (entry w' i) (W * 2 ^ l + (es.map (increment (2 ^ l) i)).sum) := by
  have h2l := Format.two_zpow_pos l
  -- one increment
  have one : ∀ (w a : FP M) (W d : ℤ), Is w (W * 2 ^ l) → Is a (d * 2 ^ l) →
      |(W : ℝ) * 2 ^ l| + |(d : ℝ) * 2 ^ l| ≤ 2 ^ (53 : ℤ) * 2 ^ l →
      Is (w +. a) ((W + d : ℤ) * 2 ^ l) := by
    intro w a W d hw ha hb
    refine exact_add hM hw ha ?_ h1 h2
    rw [abs_mul, abs_mul, abs_of_pos h2l, ← add_mul] at hb
    have hb := le_of_mul_le_mul_right hb h2l
    have : |((W + d : ℤ) : ℝ)| ≤ ((2 ^ 53 : ℤ) : ℝ) := by
      push_cast
      refine (abs_add_le _ _).trans (hb.trans (le_of_eq ?_))
      norm_num
    exact_mod_cast this
  induction es with
  | nil =>
    intro o o' w w' W _ _ _ _ h hW _
    cases h
    simpa using hW
  | cons e es ih =>
    intro o o' w w' W hlr hw hf hc h hW hb
    rw [List.map_cons, List.sum_cons] at hb
    have hrest : 0 ≤ (es.map fun e => |increment (2 ^ l) i e|).sum := by
      have := real_sum_nonneg (es.map fun e => increment (2 ^ l) i e)
      rw [List.map_map] at this
      exact this
    have hf' := hf e List.mem_cons_self
    have hc' := hc e List.mem_cons_self
    -- what remains once the first call has added `d` units
    have finish : ∀ (o₁ : SGD (FP M)) (w₁ : List (FP M)) (d : ℤ), Is o₁.lr (2 ^ l) → w₁.length = n →
        increment (2 ^ l) i e = d * 2 ^ l → History o₁ w₁ es o' w' →
        Is (entry w₁ i) ((W + d : ℤ) * 2 ^ l) →
        Is (entry w' i) (W * 2 ^ l + ((e :: es).map (increment (2 ^ l) i)).sum) := by
      intro o₁ w₁ d ho₁ hw₁ hd t hW₁
      have := ih o₁ o' w₁ w' (W + d) ho₁ hw₁ (fun e he => hf e (List.mem_cons_of_mem _ he))
        (fun e he => hc e (List.mem_cons_of_mem _ he)) t hW₁ (by
          rw [hd] at hb
          have : |((W + d : ℤ) : ℝ) * 2 ^ l| ≤ |(W : ℝ) * 2 ^ l| + |(d : ℝ) * 2 ^ l| := by
            push_cast
            rw [add_mul]
            exact abs_add_le _ _
          linarith)
      rw [List.map_cons, List.sum_cons, hd, ← add_assoc, ← add_mul]
      push_cast at this
      exact this
    cases h with
    | @step _ o₁ _ _ w₁ _ φ _ hs t =>
      obtain ⟨w₂, g1, g2, g3⟩ := sgd_step hf' o hw
      rw [g1] at hs
      simp only [Except.ok.injEq, Prod.mk.injEq, true_and] at hs
      obtain ⟨rfl, rfl⟩ := hs
      obtain ⟨A, hA⟩ := hc'
      have hinc : increment (2 ^ l) i (.step φ) = A * 2 ^ l := by
        show 2 ^ l * real (value φ i) = _
        rw [is_real hA, mul_comm]
      refine finish _ w₂ A hlr g2 hinc t ?_
      rw [hinc] at hb
      by_cases ha : Active φ i
      · obtain ⟨a, ha⟩ := ha
        rw [(g3 i hi).1 a ha]
        rw [stored_value hf'.1 ha] at hA
        refine one _ _ W A hW ?_ (by linarith)
        have hl : Is o.lr ((1 : ℤ) * 2 ^ l) := by rw [Int.cast_one, one_mul]; exact hlr
        have := exact_mul hM hl (int_is.1 hA) (by
          rw [one_mul]
          have hb : |(A : ℝ) * 2 ^ l| ≤ 2 ^ (53 : ℤ) * 2 ^ l := by
            linarith [abs_nonneg ((W : ℝ) * 2 ^ l)]
          rw [abs_mul, abs_of_pos h2l] at hb
          have hb := le_of_mul_le_mul_right hb h2l
          have : |(A : ℝ)| ≤ ((2 ^ 53 : ℤ) : ℝ) := by
            refine hb.trans (le_of_eq ?_)
            norm_num
          exact_mod_cast this) (by omega) (by omega)
        rw [one_mul, add_zero] at this
        exact this
      · rw [(g3 i hi).2 ha]
        rw [inactive_value hf'.1 ha] at hA
        have : A = 0 := by exact_mod_cast is_fun hA (val_zero (M := M))
        rw [this, add_zero]
        exact hW
    | @stepScaled _ o₁ _ _ w₁ _ φ s _ hs t =>
      obtain ⟨w₂, g1, g2, g3⟩ := sgd_scaled hf' o s hw
      rw [g1] at hs
      simp only [Except.ok.injEq, Prod.mk.injEq, true_and] at hs
      obtain ⟨rfl, rfl⟩ := hs
      obtain ⟨S, A, hS, hS', hA⟩ := hc'
      have hinc : increment (2 ^ l) i (.stepScaled φ s) = (S * A : ℤ) * 2 ^ l := by
        show 2 ^ l * real s * real (value φ i) = _
        rw [is_real hA, is_real hS]
        push_cast
        ring
      refine finish _ w₂ (S * A) hlr g2 hinc t ?_
      rw [hinc] at hb
      by_cases ha : Active φ i
      · obtain ⟨a, ha⟩ := ha
        rw [(g3 i hi).1 a ha]
        rw [stored_value hf'.1 ha] at hA
        refine one _ _ W (S * A) hW ?_ (by linarith)
        have hl : Is o.lr ((1 : ℤ) * 2 ^ l) := by rw [Int.cast_one, one_mul]; exact hlr
        have e1 := exact_mul hM hl (int_is.1 hS) (by rw [one_mul]; exact hS') (by omega) (by omega)
        rw [one_mul, add_zero] at e1
        have := exact_mul hM e1 (int_is.1 hA) (by
          have hb : |((S * A : ℤ) : ℝ) * 2 ^ l| ≤ 2 ^ (53 : ℤ) * 2 ^ l := by
            linarith [abs_nonneg ((W : ℝ) * 2 ^ l)]
          rw [abs_mul, abs_of_pos h2l] at hb
          have hb := le_of_mul_le_mul_right hb h2l
          have : |((S * A : ℤ) : ℝ)| ≤ ((2 ^ 53 : ℤ) : ℝ) := by
            refine hb.trans (le_of_eq ?_)
            norm_num
          exact_mod_cast this) (by omega) (by omega)
        rw [add_zero] at this
        exact this
      · rw [(g3 i hi).2 ha]
        rw [inactive_value hf'.1 ha] at hA
        have : A = 0 := by exact_mod_cast is_fun hA (val_zero (M := M))
        rw [this, mul_zero, add_zero]
        exact hW
    | reset t =>
      refine finish o w 0 hlr hw ?_ t (by rw [add_zero]; exact hW)
      show (0 : ℝ) = _
      simp

/-- Hence the order of the calls does not matter, bit for bit. -/
theorem C110_order (hM : M.rnd = binary64Format.rnd) (l : ℤ) (h1 : -1074 ≤ l) (h2 : l ≤ 900) {n i : Nat}
    (hi : i < n) (es es' : List (Event (FP M))) (hp : es.Perm es') (o o₁ o₂ : SGD (FP M))
    (w w₁ w₂ : List (FP M)) (W : ℤ) (hlr : Is o.lr (2 ^ l)) (hw : w.length = n)
    (hf : ∀ e ∈ es, e.Fits n) (hc : ∀ e ∈ es, IntegerCall i e) (ha : History o w es o₁ w₁)
    (hb : History o w es' o₂ w₂) (hW : Is (entry w i) (W * 2 ^ l))
    (hs : |(W : ℝ) * 2 ^ l| + (es.map fun e => |increment (2 ^ l) i e|).sum ≤ 2 ^ (53 : ℤ) * 2 ^ l) :
    entry w₁ i = entry w₂ i := by
  have a := C110_exact hM l h1 h2 hi es o o₁ w w₁ W hlr hw hf hc ha hW hs
  have b := C110_exact hM l h1 h2 hi es' o o₂ w w₂ W hlr hw (fun e he => hf e (hp.mem_iff.2 he))
    (fun e he => hc e (hp.mem_iff.2 he)) hb hW (by rw [← (hp.map _).sum_eq]; exact hs)
  rw [← (hp.map _).sum_eq] at b
  exact fp_ext (a.trans b.symm)

/-- A counter stops at `2⁵³`: further increments by one change nothing. -/
theorem C110_saturates (hM : M.rnd = binary64Format.rnd) {n i : Nat} (hi : i < n)
    (es : List (Event (FP M))) : ∀ (o o' : SGD (FP M)) (w w' : List (FP M)), Is o.lr 1 → w.length = n →
    (∀ e ∈ es, ∃ φ, e = .step φ ∧ Fits n φ ∧ Is (value φ i) 1) → History o w es o' w' →
    Is (entry w i) (2 ^ 53) → Is (entry w' i) (2 ^ 53) := by
  induction es with
  | nil => intro o o' w w' _ _ _ h hW; cases h; exact hW
  | cons e es ih =>
    intro o o' w w' hlr hw hf h hW
    obtain ⟨φ, rfl, hφ, hv⟩ := hf e List.mem_cons_self
    cases h with
    | @step _ o₁ _ _ w₁ _ φ _ hs t =>
      obtain ⟨w₂, g1, g2, g3⟩ := sgd_step hφ o hw
      rw [g1] at hs
      simp only [Except.ok.injEq, Prod.mk.injEq, true_and] at hs
      obtain ⟨rfl, rfl⟩ := hs
      refine ih o o' w₂ w' hlr g2 (fun e he => hf e (List.mem_cons_of_mem _ he)) t ?_
      by_cases ha : Active φ i
      · obtain ⟨a, ha⟩ := ha
        rw [(g3 i hi).1 a ha]
        rw [stored_value hφ.1 ha] at hv
        have e1 : o.lr *. a = a := by
          apply fp_ext
          rw [val_mul, hlr, hv]
          show M.rnd (1 * 1) = _
          rw [one_mul, M.rnd_one]
        rw [e1]
        show (entry w i +. a).1 = _
        rw [val_add, hW, hv]
        show M.rnd (2 ^ 53 + 1) = _
        rw [hM]
        have hn : binary64Format.nearest (2 ^ 53 + 1) = 2 ^ 53 := by
          have hlog : Int.log 2 |((2 : ℝ) ^ 53 + 1)| = 53 := by
            have hpos : (0 : ℝ) < 2 ^ 53 + 1 := by positivity
            rw [abs_of_pos hpos]
            have l1 := (Int.zpow_le_iff_le_log (R := ℝ) (b := 2) (x := 53) (by norm_num) hpos).1 (by norm_num)
            have l2 := (Int.lt_zpow_iff_log_lt (R := ℝ) (b := 2) (x := 54) (by norm_num) hpos).1 (by norm_num)
            omega
          have hu : binary64Format.ulp ((2 : ℝ) ^ 53 + 1) = 1 := by
            unfold Format.ulp
            rw [hlog]
            rfl
          unfold Format.nearest
          rw [hu]
          have hq : ((2 : ℝ) ^ 53 + 1) / 2 ^ (1 : ℤ) = ((2 ^ 52 : ℤ) : ℝ) + 1 / 2 := by norm_num
          have hr : rne (((2 : ℝ) ^ 53 + 1) / 2 ^ (1 : ℤ)) = 2 ^ 52 := by
            rw [hq]
            unfold rne
            rw [Int.fract_intCast_add, Int.floor_intCast_add]
            have f1 : Int.fract (1 / 2 : ℝ) = 1 / 2 := Int.fract_eq_self.2 (by norm_num)
            have f2 : ⌊(1 / 2 : ℝ)⌋ = 0 := by norm_num
            rw [f1, f2]
            have hev : Even ((2 : ℤ) ^ 52 + 0) := ⟨2 ^ 51, by norm_num⟩
            simp only [lt_irrefl, if_false, if_pos hev]
            norm_num
          rw [hr]
          norm_num
        rw [binary64Format.rnd_of_lt (by
          rw [hn, abs_of_pos (by positivity)]
          show (2 : ℝ) ^ 53 < 2 ^ (1024 : ℤ)
          rw [show ((1024 : ℤ)) = ((1024 : ℕ) : ℤ) from rfl, zpow_natCast]
          exact pow_lt_pow_right₀ (by norm_num) (by norm_num)), hn]
      · rw [inactive_value hφ.1 ha] at hv
        exact absurd (is_fun hv (val_zero (M := M))) one_ne_zero

/-- The hypotheses of `C110_exact` hold for a counter started at 0 and stepped once with learning rate 1. -/
example : ∃ (o : SGD (FP binary64)) (φ : Features (FP binary64)) (w : List (FP binary64)),
    Is o.lr (2 ^ (0 : ℤ)) ∧ Fits w.length φ ∧ IntegerCall 0 (.step φ) ∧
    Is (entry w 0) ((0 : ℤ) * 2 ^ (0 : ℤ)) ∧
    |((0 : ℤ) : ℝ) * 2 ^ (0 : ℤ)| + ([Event.step φ].map fun e => |increment (2 ^ (0 : ℤ)) 0 e|).sum
      ≤ 2 ^ (53 : ℤ) * 2 ^ (0 : ℤ) := by
  have h1 : Is (Scalar.one : FP binary64) 1 := val_one
  refine ⟨⟨Scalar.one⟩, .dense [Scalar.one], [Scalar.zero], ?_, ⟨trivial, rfl⟩, ⟨1, ?_⟩, ?_, ?_⟩
  · rw [zpow_zero]; exact h1
  · rw [Int.cast_one]; exact h1
  · rw [Int.cast_zero, zero_mul]; exact val_zero
  · have : increment (2 ^ (0 : ℤ)) 0 (.step (.dense [(Scalar.one : FP binary64)])) = 1 := by
      show 2 ^ (0 : ℤ) * real (Scalar.one : FP binary64) = 1
      rw [is_real h1]
      norm_num
    simp only [List.map_cons, List.map_nil, this]
    norm_num

end Lfa

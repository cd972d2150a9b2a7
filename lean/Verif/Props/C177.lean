import Verif.Props.C161_C162
import Verif.Props.C168
import Verif.Props.C176

/-!
# C177: training in double precision does not overflow and ends close to exact training

C157, C161 and C168 compare runs in `f64` with exact runs as long as the weights stay finite, and bound their distance by the errors of
the single calls. Here both are estimated in advance, from the sizes of the targets, features, rates and initial weights.
-/

set_option linter.unusedSectionVars false

namespace Lfa

open Spec Machine XReal

variable {M : Machine}

/-! ## Sums of bounded numbers -/

/-- Multiples of a power of two by at most `2^53` are not rounded. -/
theorem rnd_multiple (hM : M.rnd = binary64Format.rnd) {m j : Nat} (hm : m ≤ 2 ^ 53) (hj : j ≤ 970) :
    M.rnd (m * 2 ^ j) = .fin (m * 2 ^ j) := by
  have := binary64Format.rnd_exact (m := m) (e := j) (by
    rw [abs_of_nonneg (Int.natCast_nonneg m)]; exact_mod_cast hm) (by show (-1074 : ℤ) ≤ j; omega) (by
    rw [Int.cast_natCast, zpow_natCast, abs_of_nonneg (by positivity)]
    have h1 : (m : ℝ) ≤ 2 ^ 53 := by exact_mod_cast hm
    calc (m : ℝ) * 2 ^ j ≤ 2 ^ 53 * 2 ^ 970 :=
          mul_le_mul h1 (pow_le_pow_right₀ (by norm_num) hj) (by positivity) (by positivity)
      _ < 2 ^ 1024 := by rw [← pow_add]; exact pow_lt_pow_right₀ (by norm_num) (by norm_num))
  rw [Int.cast_natCast, zpow_natCast] at this
  rw [hM, this]

/-- A sum of at most `2^53` numbers, in any order. -/
theorem tree_bounded (hM : M.rnd = binary64Format.rnd) {j : Nat} (hj : j ≤ 970) {x : Nat → FP M} : ∀ t : SumTree,
    (∀ i ∈ t.terms, Bounded (2 ^ j) (x i)) → t.terms.length ≤ 2 ^ 53 →
    Bounded (t.terms.length * 2 ^ j) (t.eval M.add (M.lit 0) x)
  | .zero, _, _ => ⟨0, val_lit_zero, by simp⟩
  | .term i, h, _ => by
    have := h i List.mem_cons_self
    show Bounded (((1 : ℕ) : ℝ) * 2 ^ j) (x i)
    rwa [Nat.cast_one, one_mul]
  | .add l r, h, hk => by
    have hk : (l.terms ++ r.terms).length ≤ 2 ^ 53 := hk
    rw [List.length_append] at hk
    obtain ⟨a, ha, ha1⟩ := tree_bounded hM hj l (fun i hi => h i (List.mem_append_left _ hi)) (by omega)
    obtain ⟨b, hb, hb1⟩ := tree_bounded hM hj r (fun i hi => h i (List.mem_append_right _ hi)) (by omega)
    show Bounded (((l.terms ++ r.terms).length : ℕ) * 2 ^ j) (l.eval M.add (M.lit 0) x +. r.eval M.add (M.lit 0) x)
    rw [List.length_append]
    refine bounded_rnd (x := a + b) (by rw [val_add, ha, hb]; rfl) ?_ (rnd_multiple hM hk hj)
    rw [Nat.cast_add, add_mul]
    exact (abs_add_le a b).trans (add_le_add ha1 hb1)

theorem bounded_mul_pow (hM : M.rnd = binary64Format.rnd) {a b : FP M} {j k : Nat} (h : j + k ≤ 1023) (ha : Bounded (2 ^ j) a)
    (hb : Bounded (2 ^ k) b) : Bounded (2 ^ (j + k)) (a *. b) := by
  obtain ⟨x, hx, hx1⟩ := ha
  obtain ⟨y, hy, hy1⟩ := hb
  refine bounded_rnd (x := x * y) (by rw [val_mul, hx, hy]; rfl) ?_ (rnd_two_pow hM h)
  rw [abs_mul, pow_add]
  exact mul_le_mul hx1 hy1 (abs_nonneg _) (by positivity)

theorem products_bounded (hM : M.rnd = binary64Format.rnd) {j : Nat} (hj : j ≤ 970) (l : List (FP M))
    (h : ∀ a ∈ l, Bounded (2 ^ j) a) {t : SumTree} (ht : t.terms.Perm (List.range l.length)) (hk : l.length ≤ 2 ^ 53) :
    Bounded (l.length * 2 ^ j) (t.eval M.add (M.lit 0) fun i => l.getD i (M.lit 0)) := by
  have hl : t.terms.length = l.length := by rw [ht.length_eq, List.length_range]
  have := tree_bounded hM hj (x := fun i => l.getD i (M.lit 0)) t (fun i hi => by
    have hi := List.mem_range.1 (ht.mem_iff.1 hi)
    rw [List.getD_eq_getElem?_getD, List.getElem?_eq_getElem hi, Option.getD_some]
    exact h _ (List.getElem_mem hi)) (by rw [hl]; exact hk)
  rwa [hl] at this

/-- A prediction from bounded features and weights. -/
theorem dot_bounded (hM : M.rnd = binary64Format.rnd) {n : Nat} {φ : Features (FP M)} (hφ : Fits n φ) {w : List (FP M)}
    (hw : w.length = n) {v : FP M} (hv : φ.dot w = .ok v) {a b : Nat} (hab : a + b ≤ 970)
    (h1 : ∀ i x, Stored φ i x → Bounded (2 ^ a) x) (h2 : ∀ i < n, Bounded (2 ^ b) (entry w i)) (hk : storedCount φ ≤ 2 ^ 53) :
    Bounded (storedCount φ * 2 ^ (a + b)) v := by
  obtain ⟨hwf, hd⟩ := hφ
  cases φ with
  | dense da =>
    have hd : da.length = n := hd
    have hv : arrayDot da w = .ok v := hv
    unfold arrayDot at hv
    rw [if_pos (hd.trans hw.symm)] at hv
    injection hv with hv
    subst hv
    have hl : (List.zipWith M.mul da w).length = da.length := by rw [List.length_zipWith, hd, hw, min_self]
    have := products_bounded hM hab (List.zipWith M.mul da w) (fun p hp => ?_)
      (t := M.dotTree da.length) (by rw [hl]; exact M.dotTree_terms _) (by rw [hl]; exact hk)
    · rw [hl] at this
      show Bounded _ ((M.dotTree (min da.length w.length)).eval M.add (M.lit 0) fun i =>
        (List.zipWith M.mul da w).getD i (M.lit 0))
      rw [hw, ← hd, min_self]
      exact this
    · obtain ⟨i, hi, rfl⟩ := List.mem_iff_getElem.1 hp
      rw [List.getElem_zipWith]
      rw [hl] at hi
      have e : entry w i = w[i]'(by omega) := by simp [entry, (by omega : i < w.length)]
      exact bounded_mul_pow hM (by omega) (h1 i _ (List.getElem?_eq_getElem hi)) (e ▸ h2 i (by omega))
  | sparse sa =>
    have hd : sa.dim = n := hd
    have hlt : ∀ e ∈ sa.activations, e.1 < n := fun e he => hd ▸ hwf.2 e he
    have hv : Features.dotSparse sa w = .ok v := hv
    rw [dotSparse_ok fun e he => hw ▸ hlt e he] at hv
    injection hv with hv
    subst hv
    show Bounded _ (sa.activations.foldl (fun acc e => acc +. entry w e.1 *. e.2) Scalar.zero)
    rw [foldl_tree]
    have := products_bounded hM hab (sa.activations.map fun e => entry w e.1 *. e.2) (fun p hp => ?_)
      (t := leftTree sa.activations.length) (by rw [leftTree_terms, List.length_map]) (by rw [List.length_map]; exact hk)
    · rw [List.length_map] at this
      exact this
    · obtain ⟨e, he, rfl⟩ := List.mem_map.1 hp
      rw [add_comm a b]
      exact bounded_mul_pow hM (by omega) (h2 e.1 (hlt e he)) (h1 e.1 e.2 he)

/-- The same for a column of a matrix. -/
theorem dotColumn_bounded (hM : M.rnd = binary64Format.rnd) (m : Nat) {n : Nat} {φ : Features (FP M)} (hφ : Fits n φ)
    {w : List (FP M)} (hw : w.length = n) {v : FP M} (hv : φ.dotColumn m w = .ok v) {a b : Nat} (hab : a + b ≤ 970)
    (h1 : ∀ i x, Stored φ i x → Bounded (2 ^ a) x) (h2 : ∀ i < n, Bounded (2 ^ b) (entry w i)) (hk : storedCount φ ≤ 2 ^ 53) :
    Bounded (storedCount φ * 2 ^ (a + b)) v := by
  cases φ with
  | sparse sa => exact dot_bounded hM hφ hw hv hab h1 h2 hk
  | dense da =>
    rw [dotColumn_dense] at hv
    split_ifs at hv
    · exact dot_bounded hM hφ hw hv hab h1 h2 hk
    · have hd : da.length = n := hφ.2
      unfold Features.stridedDot at hv
      rw [if_pos (hd.trans hw.symm)] at hv
      injection hv with hv
      subst hv
      have hl : (List.zipWith M.mul da w).length = da.length := by rw [List.length_zipWith, hd, hw, min_self]
      have e := foldl_tree (M := M) (fun p => p) (List.zipWith M.mul da w)
      have := products_bounded hM hab (List.zipWith M.mul da w) (fun p hp => ?_)
        (t := leftTree da.length) (by rw [hl, leftTree_terms]) (by rw [hl]; exact hk)
      · rw [hl, List.map_id'] at e
        rw [hl, ← e] at this
        exact this
      · obtain ⟨i, hi, rfl⟩ := List.mem_iff_getElem.1 hp
        rw [List.getElem_zipWith]
        rw [hl] at hi
        have e : entry w i = w[i]'(by omega) := by simp [entry, (by omega : i < w.length)]
        exact bounded_mul_pow hM (by omega) (h1 i _ (List.getElem?_eq_getElem hi)) (e ▸ h2 i (by omega))

/-! ## One call -/

theorem sqrt_count {n : Nat} (hn : n ≤ 2 ^ 40) : √(n : ℝ) ≤ 2 ^ 20 := by
  rw [Real.sqrt_le_left (by positivity), ← pow_mul]
  exact_mod_cast hn

theorem len_le_of_bounded {n : Nat} (hn : n ≤ 2 ^ 40) {f : Nat → ℝ} {c : ℝ} (h0 : 0 ≤ c) (h : ∀ i < n, |f i| ≤ c) :
    len n f ≤ 2 ^ 20 * c := by
  refine (len_mono (g := fun _ => c) h).trans ?_
  rw [len_const n c h0]
  exact mul_le_mul_of_nonneg_right (sqrt_count hn) h0

theorem abs_le_len {n : Nat} (f : Nat → ℝ) {i : Nat} (hi : i < n) : |f i| ≤ len n f := by
  refine Real.abs_le_sqrt ?_
  exact Finset.single_le_sum (f := fun j => f j ^ 2) (fun j _ => sq_nonneg _) (Finset.mem_range.2 hi)

theorem value_le {n : Nat} {φ : Features (FP M)} (hφ : Fits n φ) {c : ℝ} (h0 : 0 ≤ c)
    (h : ∀ i x, Stored φ i x → Bounded c x) (i : Nat) : |real (value φ i)| ≤ c := by
  by_cases ha : Active φ i
  · obtain ⟨a, ha⟩ := ha
    obtain ⟨r, hr, h1⟩ := h i a ha
    rw [value_of_stored (keysUnique_of_wf hφ.1) ha, is_real hr]
    exact h1
  · rw [value_inactive hφ ha, real_zero', abs_zero]
    exact h0

/-- The error of a prediction, from the lengths of the features and weights. -/
theorem predictionError_le {n : Nat} {φ : Features (FP M)} (hf : Fits n φ) (w : List (FP M)) {k : Nat} (hk : storedCount φ ≤ k)
    (hk2 : k ≤ 2 ^ 40) :
    predictionError φ w ≤ 2 * k * roundoff * (len n (fun i => real (value φ i)) * len n (fun i => real (entry w i))) +
      2 * k * tiny := by
  have hu := roundoff_pos
  have ht := tiny_pos
  have hg : (1 + roundoff) ^ storedCount φ ≤ 1 + 2 * k * roundoff :=
    (pow_le_pow_right₀ (by linarith) hk).trans (growth_le (hk2.trans (by norm_num)))
  have hg1 : 1 ≤ (1 + roundoff) ^ storedCount φ := one_le_pow₀ (by linarith)
  have hku := length_roundoff' hk2
  have hsk : (storedCount φ : ℝ) ≤ k := by exact_mod_cast hk
  have ha : absDot φ w ≤ len n (fun i => real (value φ i)) * len n (fun i => real (entry w i)) := by
    have := sum_mul_le_len n (fun i => |real (value φ i)|) (fun i => |real (entry w i)|)
    rw [len_abs, len_abs] at this
    have e : absDot φ w = ∑ i ∈ Finset.range n, |real (value φ i)| * |real (entry w i)| := by
      unfold absDot; rw [hf.2]; exact Finset.sum_congr rfl fun i _ => by rw [abs_mul]
    rwa [e]
  unfold predictionError
  have ha0 : 0 ≤ absDot φ w := Finset.sum_nonneg fun _ _ => abs_nonneg _
  have hk0 : (0 : ℝ) ≤ k := k.cast_nonneg
  have b1 : ((1 + roundoff) ^ storedCount φ - 1) * absDot φ w ≤ 2 * k * roundoff *
      (len n (fun i => real (value φ i)) * len n (fun i => real (entry w i))) :=
    mul_le_mul (by linarith) ha ha0 (by positivity)
  have b2 : storedCount φ * (1 + roundoff) ^ storedCount φ * tiny ≤ 2 * k * tiny := by
    refine mul_le_mul_of_nonneg_right ?_ ht.le
    rw [mul_comm (2 : ℝ)]
    exact mul_le_mul hsk (by linarith) (by linarith) hk0
  linarith

/-- Sizes for which nothing here gets near the largest double: at most `2^40` weights, at most `k ≤ 2^40` stored features per
input, features and targets up to `2^100`. -/
structure Spec.Moderate (n k : Nat) (φ : Features (FP M)) (y : FP M) : Prop where
  size : n ≤ 2 ^ 40
  count : storedCount φ ≤ k ∧ k ≤ 2 ^ 40
  features : ∀ i x, Stored φ i x → Bounded (2 ^ 100) x
  target : Bounded (2 ^ 100) y

theorem features_len {n k : Nat} {φ : Features (FP M)} {y : FP M} (h : Moderate n k φ y) (hf : Fits n φ) :
    len n (fun i => real (value φ i)) ≤ 2 ^ 120 := by
  refine (len_le_of_bounded h.size (by positivity) fun i _ => value_le hf (by positivity) h.features i).trans ?_
  rw [← pow_add]

theorem tiny_moderate : tiny * 2 ^ 270 ≤ 2 ^ (-800 : ℤ) := by
  rw [tiny, ← zpow_natCast (2 : ℝ) 270, ← zpow_add₀ (by norm_num)]
  exact zpow_le_zpow_right₀ (by norm_num) (by norm_num)

/-- What rounding adds to the weights in one call, from their length. -/
theorem callError_le {n k : Nat} {φ : Features (FP M)} {y : FP M} (h : Moderate n k φ y) (hf : Fits n φ) (w : List (FP M))
    {c v : FP M} (hv : ∃ r, Is v r ∧ |r - exactDot φ w| ≤ predictionError φ w) {D : ℝ} (hc : |real c| ≤ 2 ^ 101)
    (h2 : |real c| * len n (fun i => real (value φ i)) ^ 2 ≤ 2)
    (hD : |real c| * len n (fun i => real (value φ i)) * |real y| ≤ D) :
    callError n c φ w y v ≤ (8 * k + 11) * roundoff * len n (fun i => real (entry w i)) + 5 * roundoff * D + 2 ^ (-800 : ℤ) := by
  have hu := roundoff_pos
  have hu1 : roundoff ≤ 1 / 100 := by unfold roundoff; norm_num
  have ht := tiny_pos
  have hp := predictionError_le hf w h.count.1 h.count.2
  have hp0 := predictionError_nonneg φ w
  have hA := features_len h hf
  have hA0 := len_nonneg n fun i => real (value φ i)
  have hN0 := len_nonneg n fun i => real (entry w i)
  have hdot : |exactDot φ w| ≤ len n (fun i => real (value φ i)) * len n (fun i => real (entry w i)) := by
    unfold exactDot
    rw [hf.2]
    exact abs_sum_mul_le_len n _ _
  obtain ⟨r, hr, hv⟩ := hv
  have hn : √(n : ℝ) ≤ 2 ^ 20 := sqrt_count h.size
  have hk : (k : ℝ) ≤ 2 ^ 40 := by exact_mod_cast h.count.2
  have hk0 : (0 : ℝ) ≤ k := k.cast_nonneg
  have h4 : (1 + roundoff) ^ 4 - 1 ≤ 5 * roundoff := by nlinarith [mul_pos hu hu, mul_pos hu (mul_pos hu hu)]
  have h40 : 0 ≤ (1 + roundoff) ^ 4 - 1 := by
    have : (1 : ℝ) ≤ (1 + roundoff) ^ 4 := one_le_pow₀ (by linarith)
    linarith
  have h22 : (1 + roundoff) ^ 2 ≤ 2 := by nlinarith
  have hs := tiny_moderate
  have hy0 := abs_nonneg (real y)
  have hc0 := abs_nonneg (real c)
  have hE : |real y - real v| ≤ |real y| + len n (fun i => real (value φ i)) * len n (fun i => real (entry w i)) +
      predictionError φ w := by
    rw [is_real hr]
    have e1 := abs_sub_le (real y) 0 r
    have e2 := abs_add_le (r - exactDot φ w) (exactDot φ w)
    rw [sub_add_cancel] at e2
    rw [sub_zero, zero_sub, abs_neg] at e1
    linarith
  unfold callError
  generalize len n (fun i => real (value φ i)) = A at *
  generalize len n (fun i => real (entry w i)) = N at *
  generalize predictionError φ w = π at *
  generalize |real c| = C at *
  generalize |real y - real v| = E at *
  generalize |real y| = Y at *
  have hCA : 0 ≤ C * A := mul_nonneg hc0 hA0
  have b1 : ((1 + roundoff) ^ 4 - 1) * E ≤ 5 * roundoff * (Y + A * N + π) :=
    (mul_le_mul_of_nonneg_left hE h40).trans (mul_le_mul_of_nonneg_right h4 (by positivity))
  have b2 : C * A * (((1 + roundoff) ^ 4 - 1) * E + π) ≤ 5 * roundoff * (C * A * Y) + 5 * roundoff * (C * A ^ 2 * N) +
      2 * (C * A * π) := by
    have := mul_le_mul_of_nonneg_left (add_le_add_left b1 π) hCA
    have e : 5 * roundoff * (C * A * π) ≤ 1 * (C * A * π) := mul_le_mul_of_nonneg_right (by linarith) (by positivity)
    nlinarith
  have b3 : C * A ^ 2 * N ≤ 2 * N := mul_le_mul_of_nonneg_right h2 hN0
  have b4 : C * A * π ≤ 4 * k * roundoff * N + 2 * k * tiny * (C * A) := by
    have h1 := mul_le_mul_of_nonneg_left hp hCA
    have h2 := mul_le_mul_of_nonneg_left b3 (by positivity : 0 ≤ 2 * k * roundoff)
    nlinarith
  have b5 : C * A ≤ 2 ^ 221 := by
    refine (mul_le_mul hc hA hA0 (by positivity)).trans ?_
    rw [← pow_add]
  have b6 : (1 + roundoff) ^ 2 * (√n + A) * tiny ≤ 2 * (2 ^ 20 + 2 ^ 120) * tiny :=
    mul_le_mul_of_nonneg_right (mul_le_mul h22 (by linarith) (by positivity) (by norm_num)) ht.le
  have b7 : 2 * k * tiny * (C * A) ≤ 2 * 2 ^ 40 * tiny * 2 ^ 221 :=
    mul_le_mul (mul_le_mul_of_nonneg_right (by linarith) ht.le) b5 hCA (by positivity)
  have b8 : 2 * (2 * 2 ^ 40 * tiny * 2 ^ 221) + 2 * (2 ^ 20 + 2 ^ 120) * tiny ≤ tiny * 2 ^ 270 := by
    have e : 2 * (2 * 2 ^ 40 * tiny * 2 ^ 221) + 2 * (2 ^ 20 + 2 ^ 120) * tiny =
      tiny * (2 * (2 * 2 ^ 40 * 2 ^ 221) + 2 * (2 ^ 20 + 2 ^ 120)) := by ring
    rw [e]
    refine mul_le_mul_of_nonneg_left ?_ ht.le
    rw [show (2 : ℝ) ^ 270 = 2 ^ 200 * 2 ^ 70 by rw [← pow_add], show (2 : ℝ) ^ 221 = 2 ^ 200 * 2 ^ 21 by rw [← pow_add]]
    norm_num
  have b11 := b8.trans hs
  clear b8 hs
  have b9 := mul_le_mul_of_nonneg_left hD (by positivity : 0 ≤ 5 * roundoff)
  have b10 := mul_le_mul_of_nonneg_left b3 (by positivity : 0 ≤ 5 * roundoff)
  generalize (2 : ℝ) ^ (-800 : ℤ) = η at *
  generalize 2 * 2 ^ 40 * tiny * 2 ^ 221 = τ₁ at *
  generalize 2 * (2 ^ 20 + 2 ^ 120) * tiny = τ₂ at *
  clear b5 hA hc hk hn
  linarith

/-- The new weights of a moderate call are finite. -/
theorem call_finite (hM : M.rnd = binary64Format.rnd) {n : Nat} {φ : Features (FP M)}
    {c y v : FP M} {w w₁ : List (FP M)} (hc : Bounded (2 ^ 101) c) (hy : Bounded (2 ^ 100) y) (hv : Bounded (2 ^ 400) v)
    (hx : ∀ i x, Stored φ i x → Bounded (2 ^ 100) x)
    (h : ∀ i < n, (∀ a, Stored φ i a → entry w₁ i = (entry w i +. c *. (y -. v) *. a)) ∧
      (¬ Active φ i → entry w₁ i = entry w i)) (hw : ∀ i < n, Spec.Finite (entry w i)) : ∀ i < n, Spec.Finite (entry w₁ i) := by
  intro i hi
  by_cases ha : Active φ i
  · obtain ⟨a, ha⟩ := ha
    rw [(h i hi).1 a ha]
    have h1 := (bounded_add_pow hM (k := 400) (by norm_num)
      (bounded_mono hy (pow_le_pow_right₀ (by norm_num) (by norm_num))) hv).2
    have h2 := bounded_mul_pow hM (by norm_num) hc h1
    have h3 := bounded_mul_pow hM (by norm_num) h2 (hx i a ha)
    refine finite_add hM (hw i hi) (bounded_mono h3 ?_)
    rw [← zpow_natCast (2 : ℝ)]
    exact zpow_le_zpow_right₀ (by norm_num) (by norm_num)
  · rw [(h i hi).2 ha]
    exact hw i hi

/-! ## Many calls -/

/-- Lengths that grow by at most `D + ε (N + D) + η` per call. -/
theorem growth_run {N : Nat → ℝ} {D ε η : ℝ} (hN : ∀ t, 0 ≤ N t) (hD : 0 ≤ D) (hε : 0 ≤ ε) (hη : 0 ≤ η) {T : Nat} (hT : ε * T ≤ 1 / 2)
    (h : ∀ t < T, N (t + 1) ≤ N t + D + (ε * (N t + D) + η)) : ∀ t ≤ T, N t ≤ 2 * (N 0 + t * (D + η)) := by
  have main : ∀ t ≤ T, N t ≤ (1 + ε) ^ t * (N 0 + t * (D + η)) := by
    intro t
    induction t with
    | zero => intro _; simp
    | succ t ih =>
      intro ht
      have h1 := h t (by omega)
      have h2 := mul_le_mul_of_nonneg_left (ih (by omega)) (by linarith : 0 ≤ 1 + ε)
      have p1 : 1 + ε ≤ (1 + ε) ^ (t + 1) := le_self_pow₀ (by linarith) (by omega)
      have h3 := mul_le_mul_of_nonneg_right p1 hD
      have h4 := mul_le_mul_of_nonneg_right ((by linarith : 1 ≤ 1 + ε).trans p1) hη
      rw [Nat.cast_succ]
      rw [← mul_assoc, ← pow_succ'] at h2
      nlinarith
  intro t ht
  have h0 := hN 0
  rcases Nat.eq_zero_or_pos t with rfl | h1
  · simp only [Nat.cast_zero, zero_mul, add_zero]
    linarith
  have hε1 : ε ≤ 1 / 2 := by
    have : (1 : ℝ) ≤ T := by exact_mod_cast (by omega : 1 ≤ T)
    nlinarith
  have e1 : (1 + ε) ^ t * (1 - ε) ^ t ≤ 1 := by
    rw [← mul_pow]
    exact pow_le_one₀ (by nlinarith) (by nlinarith)
  have e2 : 1 / 2 ≤ (1 - ε) ^ t := by
    have h2 := one_add_mul_le_pow (a := -ε) (by linarith) t
    have h3 : (t : ℝ) ≤ T := by exact_mod_cast ht
    have h4 := mul_le_mul_of_nonneg_left h3 hε
    rw [← sub_eq_add_neg] at h2
    linarith
  have e3 : (1 + ε) ^ t ≤ 2 := by
    have : 0 < (1 + ε) ^ t := by positivity
    nlinarith
  exact (main t ht).trans (mul_le_mul_of_nonneg_right e3 (by positivity))

/-- Weights `ws` moved by moderate calls with rates `c` on predictions `ps`, each call within `ε (‖w‖ + D) + η` of the exact step
with rate `q`: they stay finite, their length grows slowly, and they stay close to weights `us` moved by the exact steps. -/
theorem run_bounds (hM : M.rnd = binary64Format.rnd) {m n k T : Nat} {ws : Nat → List (FP M)} {us : Nat → Nat → ℝ}
    {c ys ps : Nat → FP M} {φ : Nat → Features (FP M)} {q : Nat → ℝ} {D ε η : ℝ} (hmod : ∀ t, Moderate n k (φ t) (ys t))
    (hφ : ∀ t, Fits n (φ t)) (hw : ∀ t, (ws t).length = n) (hdot : ∀ t, (φ t).dotColumn m (ws t) = .ok (ps t))
    (hc : ∀ t, Bounded (2 ^ 101) (c t))
    (hstep : ∀ t, ∀ i < n, (∀ a, Stored (φ t) i a → entry (ws (t + 1)) i = (entry (ws t) i +. c t *. (ys t -. ps t) *. a)) ∧
      (¬ Active (φ t) i → entry (ws (t + 1)) i = entry (ws t) i))
    (hus : ∀ t, ∀ i < n, us (t + 1) i = us t i +
      q t * (real (ys t) - ∑ j ∈ Finset.range n, real (value (φ t) j) * us t j) * real (value (φ t) i))
    (h0 : ∀ i < n, us 0 i = real (entry (ws 0) i)) (hb : ∀ i < n, Bounded (2 ^ 100) (entry (ws 0) i))
    (q0 : ∀ t, 0 ≤ q t) (q2 : ∀ t, q t * ∑ i ∈ Finset.range n, real (value (φ t) i) ^ 2 ≤ 2)
    (hD : ∀ t, q t * len n (fun i => real (value (φ t) i)) * |real (ys t)| ≤ D) (hD1 : D ≤ 2 ^ 200)
    (hε : 0 ≤ ε) (hη : 0 ≤ η) (hη1 : η ≤ 1) (hεT : ε * T ≤ 1 / 2) (hT : T ≤ 2 ^ 49)
    (herr : ∀ t < T, (∃ r, Is (ps t) r ∧ |r - exactDot (φ t) (ws t)| ≤ predictionError (φ t) (ws t)) →
      (∀ i < n, Spec.Finite (entry (ws (t + 1)) i)) → len n (fun i => real (entry (ws t) i)) ≤ 2 ^ 252 →
      len n (fun i => real (entry (ws (t + 1)) i) - (real (entry (ws t) i) +
        q t * (real (ys t) - exactDot (φ t) (ws t)) * real (value (φ t) i))) ≤
      ε * (len n (fun i => real (entry (ws t) i)) + D) + η) (t : Nat) (ht : t ≤ T) :
    (∀ i < n, Spec.Finite (entry (ws t) i)) ∧ Bounded (2 ^ 400) (ps t) ∧
    len n (fun i => real (entry (ws t) i)) ≤ 2 * (len n (fun i => real (entry (ws 0) i)) + t * (D + η)) ∧
    len n (fun i => real (entry (ws t) i) - us t i) ≤
      2 * ε * t * (len n (fun i => real (entry (ws 0) i)) + t * D) + 2 * t * η := by
  have D0 : 0 ≤ D := (mul_nonneg (mul_nonneg (q0 0) (len_nonneg _ _)) (abs_nonneg _)).trans (hD 0)
  have hN0 : len n (fun i => real (entry (ws 0) i)) ≤ 2 ^ 120 := by
    refine (len_le_of_bounded (hmod 0).size (c := 2 ^ 100) (by positivity) fun i hi => ?_).trans (le_of_eq (by rw [← pow_add]))
    obtain ⟨r, hr, h1⟩ := hb i hi
    rwa [is_real hr]
  have hex : ∀ t, exactDot (φ t) (ws t) = ∑ j ∈ Finset.range n, real (value (φ t) j) * real (entry (ws t) j) :=
    fun t => by unfold exactDot; rw [(hφ t).2]
  -- the length bound implies that the weights and the prediction are bounded
  have small : ∀ t ≤ T, len n (fun i => real (entry (ws t) i)) ≤ 2 * (len n (fun i => real (entry (ws 0) i)) + t * (D + η)) →
      len n (fun i => real (entry (ws t) i)) ≤ 2 ^ 252 := by
    intro t ht h
    refine h.trans ?_
    have h1 : (t : ℝ) ≤ 2 ^ 49 := by exact_mod_cast ht.trans hT
    have h2 : (t : ℝ) * (D + η) ≤ 2 ^ 49 * (2 ^ 200 + 1) :=
      mul_le_mul h1 (add_le_add hD1 hη1) (by positivity) (by positivity)
    refine (mul_le_mul_of_nonneg_left (add_le_add hN0 h2) (by norm_num)).trans (by norm_num)
  have pred : ∀ t, (∀ i < n, Spec.Finite (entry (ws t) i)) → len n (fun i => real (entry (ws t) i)) ≤ 2 ^ 252 →
      Bounded (2 ^ 400) (ps t) := by
    intro t h1 h2
    have h3 := dotColumn_bounded hM m (hφ t) (hw t) (hdot t) (a := 100) (b := 252) (by norm_num) (hmod t).features (fun i hi => by
      obtain ⟨r, hr⟩ := h1 i hi
      refine ⟨r, hr, le_trans ?_ h2⟩
      have := abs_le_len (fun i => real (entry (ws t) i)) hi
      rwa [is_real hr] at this) ((hmod t).count.1.trans ((hmod t).count.2.trans (by norm_num)))
    refine bounded_mono h3 ?_
    have h4 : (storedCount (φ t) : ℝ) ≤ 2 ^ 40 := by exact_mod_cast (hmod t).count.1.trans (hmod t).count.2
    refine (mul_le_mul_of_nonneg_right h4 (by positivity)).trans ?_
    rw [← pow_add]
    exact pow_le_pow_right₀ (by norm_num) (by norm_num)
  have perr : ∀ t, Bounded (2 ^ 400) (ps t) →
      ∃ r, Is (ps t) r ∧ |r - exactDot (φ t) (ws t)| ≤ predictionError (φ t) (ws t) := by
    intro t h
    obtain ⟨r, hr, -⟩ := h
    exact ⟨r, hr, dotColumn_err hM m (hφ t) (hw t) (hdot t) hr⟩
  have grow : ∀ t, len n (fun i => real (entry (ws (t + 1)) i) - (real (entry (ws t) i) +
        q t * (real (ys t) - exactDot (φ t) (ws t)) * real (value (φ t) i))) ≤
      ε * (len n (fun i => real (entry (ws t) i)) + D) + η →
      len n (fun i => real (entry (ws (t + 1)) i)) ≤ len n (fun i => real (entry (ws t) i)) + D +
        (ε * (len n (fun i => real (entry (ws t) i)) + D) + η) := by
    intro t h
    have h1 := exact_step n (fun i => real (entry (ws t) i)) (fun i => real (value (φ t) i)) (q0 t) (q2 t)
    have h2 : len n (fun i => q t * real (ys t) * real (value (φ t) i)) ≤ D := by
      rw [len_smul', abs_mul, abs_of_nonneg (q0 t)]
      refine le_trans (le_of_eq (by ring)) (hD t)
    have h3 := len_add_le n (fun i => real (entry (ws t) i) -
      q t * (∑ j ∈ Finset.range n, real (value (φ t) j) * real (entry (ws t) j)) * real (value (φ t) i))
      (fun i => q t * real (ys t) * real (value (φ t) i))
    have h4 := len_add_le n (fun i => (real (entry (ws t) i) -
      q t * (∑ j ∈ Finset.range n, real (value (φ t) j) * real (entry (ws t) j)) * real (value (φ t) i)) +
      q t * real (ys t) * real (value (φ t) i)) (fun i => real (entry (ws (t + 1)) i) - (real (entry (ws t) i) +
        q t * (real (ys t) - exactDot (φ t) (ws t)) * real (value (φ t) i)))
    have e : len n (fun i => real (entry (ws (t + 1)) i)) = len n (fun i => (real (entry (ws t) i) -
      q t * (∑ j ∈ Finset.range n, real (value (φ t) j) * real (entry (ws t) j)) * real (value (φ t) i)) +
      q t * real (ys t) * real (value (φ t) i) + (real (entry (ws (t + 1)) i) - (real (entry (ws t) i) +
        q t * (real (ys t) - exactDot (φ t) (ws t)) * real (value (φ t) i)))) := len_congr fun i _ => by rw [hex]; ring
    rw [e]
    linarith
  have main : ∀ t ≤ T, (∀ s ≤ t, ∀ i < n, Spec.Finite (entry (ws s) i)) ∧ ∀ s < t,
      len n (fun i => real (entry (ws (s + 1)) i) - (real (entry (ws s) i) +
        q s * (real (ys s) - exactDot (φ s) (ws s)) * real (value (φ s) i))) ≤
      ε * (len n (fun i => real (entry (ws s) i)) + D) + η := by
    intro t
    induction t with
    | zero => exact fun _ => ⟨fun s hs i hi => by
        obtain rfl : s = 0 := by omega
        exact finite_of_bounded (hb i hi), fun s hs => absurd hs (Nat.not_lt_zero _)⟩
    | succ t ih =>
      intro ht
      obtain ⟨i1, i2⟩ := ih (by omega)
      have hεt : ε * t ≤ 1 / 2 := by
        have : (t : ℝ) ≤ T := by exact_mod_cast (by omega : t ≤ T)
        exact (mul_le_mul_of_nonneg_left this hε).trans hεT
      have g := growth_run (N := fun t => len n (fun i => real (entry (ws t) i))) (fun t => len_nonneg _ _) D0 hε hη hεt
        (fun s hs => grow s (i2 s hs)) t le_rfl
      have g := small t (by omega) g
      have hp := pred t (i1 t le_rfl) g
      have hf := call_finite hM (hc t) (hmod t).target hp (hmod t).features (hstep t) (i1 t le_rfl)
      have he := herr t (by omega) (perr t hp) hf g
      refine ⟨fun s hs => ?_, fun s hs => ?_⟩
      · rcases Nat.lt_or_ge t s with h | h
        · obtain rfl : s = t + 1 := by omega
          exact hf
        · exact i1 s h
      · rcases Nat.lt_or_ge s t with h | h
        · exact i2 s h
        · obtain rfl : s = t := by omega
          exact he
  obtain ⟨m1, m2⟩ := main T le_rfl
  have lens := growth_run (N := fun t => len n (fun i => real (entry (ws t) i))) (fun t => len_nonneg _ _) D0 hε hη hεT
    (fun s hs => grow s (m2 s hs))
  refine ⟨m1 t ht, pred t (m1 t ht) (small t ht (lens t ht)), lens t ht, ?_⟩
  induction t with
  | zero =>
    have : len n (fun i => real (entry (ws 0) i) - us 0 i) = len n (fun _ => 0) :=
      len_congr fun i hi => by rw [h0 i hi, sub_self]
    rw [this, len_const n 0 le_rfl]
    simp
  | succ t ih =>
    have ih := ih (by omega)
    have l1 := lens t (by omega)
    have l2 := m2 t (by omega)
    have hex' := exact_step n (fun i => real (entry (ws t) i) - us t i) (fun i => real (value (φ t) i)) (q0 t) (q2 t)
    have h4 := len_add_le n (fun i => real (entry (ws (t + 1)) i) - (real (entry (ws t) i) +
        q t * (real (ys t) - exactDot (φ t) (ws t)) * real (value (φ t) i)))
      (fun i => (real (entry (ws t) i) - us t i) - q t * (∑ j ∈ Finset.range n, real (value (φ t) j) *
        (real (entry (ws t) j) - us t j)) * real (value (φ t) i))
    have e : len n (fun i => real (entry (ws (t + 1)) i) - us (t + 1) i) =
        len n (fun i => (real (entry (ws (t + 1)) i) - (real (entry (ws t) i) +
        q t * (real (ys t) - exactDot (φ t) (ws t)) * real (value (φ t) i))) +
        ((real (entry (ws t) i) - us t i) - q t * (∑ j ∈ Finset.range n, real (value (φ t) j) *
        (real (entry (ws t) j) - us t j)) * real (value (φ t) i))) := len_congr fun i hi => by
      rw [hus t i hi, hex]
      simp only [mul_sub, Finset.sum_sub_distrib]
      ring
    rw [e]
    refine (h4.trans (add_le_add l2 (hex'.trans ih))).trans ?_
    have hεt : ε * t ≤ 1 / 2 := by
      have : (t : ℝ) ≤ T := by exact_mod_cast (by omega : t ≤ T)
      exact (mul_le_mul_of_nonneg_left this hε).trans hεT
    have l3 := mul_le_mul_of_nonneg_left l1 hε
    have l4 := mul_le_mul_of_nonneg_right hεt hη
    have l5 := mul_nonneg hε D0
    have l6 := mul_nonneg l5 (Nat.cast_nonneg (α := ℝ) t)
    push_cast
    generalize len n (fun i => real (entry (ws 0) i)) = N at *
    nlinarith

/-- The prediction after the run, from the distance of the weights. -/
theorem run_prediction {A N E N₀ D ε η T π : ℝ} {k : Nat} (A0 : 0 ≤ A) (hη : 0 ≤ η) (hk : 4 * k * roundoff ≤ 2 * ε)
    (hT : ε * T ≤ 1 / 2) (T0 : 0 ≤ T) (S0 : 0 ≤ N₀ + T * D) (hN : N ≤ 2 * (N₀ + T * (D + η)))
    (hE : E ≤ 2 * ε * T * (N₀ + T * D) + 2 * T * η) (hπ : π ≤ 2 * k * roundoff * (A * N) + 2 * k * tiny) :
    A * E + π ≤ A * (2 * ε * (T + 1) * (N₀ + T * D) + 2 * (T + 1) * η) + 2 * k * tiny := by
  have hu := roundoff_pos
  have k0 : (0 : ℝ) ≤ k := k.cast_nonneg
  have h1 := mul_le_mul_of_nonneg_left hE A0
  have h2 : 2 * k * roundoff * (A * N) ≤ A * (2 * k * roundoff * (2 * (N₀ + T * (D + η)))) := by
    have := mul_le_mul_of_nonneg_left hN (by positivity : 0 ≤ 2 * k * roundoff * A)
    linarith
  have h3 : 2 * k * roundoff * (2 * (N₀ + T * (D + η))) ≤ 2 * ε * (N₀ + T * D) + 2 * η := by
    have e1 := mul_le_mul_of_nonneg_right hk S0
    have e2 := mul_le_mul_of_nonneg_right hk (mul_nonneg T0 hη)
    have e3 := mul_le_mul_of_nonneg_right hT hη
    nlinarith
  have h4 := mul_le_mul_of_nonneg_left h3 A0
  nlinarith

theorem count_tiny {k : Nat} (hk : k ≤ 2 ^ 40) : 2 * k * tiny ≤ 2 ^ (-1034 : ℤ) := by
  have h1 : (k : ℝ) ≤ 2 ^ 40 := by exact_mod_cast hk
  have h2 : 2 * (k : ℝ) ≤ 2 ^ (41 : ℤ) := by
    have : (2 : ℝ) ^ (41 : ℤ) = 2 * 2 ^ 40 := by norm_num
    linarith
  refine (mul_le_mul_of_nonneg_right h2 tiny_pos.le).trans ?_
  rw [tiny, ← zpow_add₀ (by norm_num)]
  exact zpow_le_zpow_right₀ (by norm_num) (by norm_num)

theorem two_roundoff : 2 * roundoff = 2 ^ (-52 : ℤ) := by
  rw [roundoff]; norm_num

section
variable {B B' I : Type} [Space B] [Basis B I (FP M)] [Space B'] [Basis B' I ℝ]

omit [Space B] [Basis B I (FP M)] [Space B'] [Basis B' I ℝ] in
/-- Weights moved by SGD, of one output or of a column of several, beside exact weights. -/
theorem sgd_column (hM : M.rnd = binary64Format.rnd) (m n k : Nat)
    (ws : Nat → List (FP M)) (us : Nat → List ℝ) (lr : FP M) (l : ℝ) (ys ps : Nat → FP M) (qs : Nat → ℝ)
    (φ : Nat → Features (FP M)) (ψ : Nat → Features ℝ) (hφ : ∀ t, Fits n (φ t)) (hψ : ∀ t, Fits n (ψ t))
    (hv : ∀ k, ∀ i < n, value (ψ k) i = real (value (φ k) i))
    (run : ∀ t, (ws t).length = n ∧ (φ t).dotColumn m (ws t) = .ok (ps t) ∧ ∀ i < n,
      (∀ a, Stored (φ t) i a → entry (ws (t + 1)) i = (entry (ws t) i +. lr *. (ys t -. ps t) *. a)) ∧
      (¬ Active (φ t) i → entry (ws (t + 1)) i = entry (ws t) i))
    (hus : ∀ t, (us t).length = n ∧ (ψ t).dot (us t) = .ok (qs t))
    (hex : ∀ t, ∀ i < n, entry (us (t + 1)) i = entry (us t) i +
      l * (real (ys t) - Spec.inner (ψ t) (us t)) * value (ψ t) i)
    (hw : ∀ i < n, Bounded (2 ^ 100) (entry (ws 0) i) ∧ entry (us 0) i = real (entry (ws 0) i))
    (hlr : Is lr l) (l0 : 0 ≤ l) (l1 : l ≤ 2 ^ 100)
    (h2 : ∀ t, l * normSq (ψ t) ≤ 2) (hmod : ∀ t, Moderate n k (φ t) (ys t))
    (D : ℝ) (hD : ∀ t, l * √(normSq (ψ t)) * |real (ys t)| ≤ D) (hD1 : D ≤ 2 ^ 200)
    (T : Nat) (hT : (8 * k + 11) * T ≤ 2 ^ 52) :
    (∀ i < n, Spec.Finite (entry (ws T) i)) ∧ Spec.Finite (ps T) ∧
    len n (fun i => real (entry (ws T) i) - entry (us T) i) ≤
      (8 * k + 11) * T * 2 ^ (-52 : ℤ) * (len n (fun i => real (entry (ws 0) i)) + T * D) + T * 2 ^ (-799 : ℤ) ∧
    |real (ps T) - qs T| ≤ √(normSq (ψ T)) * ((8 * k + 11) * (T + 1) * 2 ^ (-52 : ℤ) *
      (len n (fun i => real (entry (ws 0) i)) + T * D) + (T + 1) * 2 ^ (-799 : ℤ)) + 2 ^ (-1034 : ℤ) := by
  have hu := roundoff_pos
  have k0 : (0 : ℝ) ≤ k := k.cast_nonneg
  have hA : ∀ t, √(normSq (ψ t)) = len n (fun i => real (value (φ t) i)) := fun t => by
    rw [len_value (hψ t)]
    exact len_congr fun i hi => hv t i hi
  have hS : ∀ t, normSq (ψ t) = ∑ i ∈ Finset.range n, real (value (φ t) i) ^ 2 := fun t => by
    rw [normSq, (hψ t).2]
    exact Finset.sum_congr rfl fun i hi => by rw [hv t i (Finset.mem_range.1 hi), sq]
  have η0 : (0 : ℝ) ≤ 2 ^ (-800 : ℤ) := by positivity
  have e799 : (2 : ℝ) ^ (-799 : ℤ) = 2 * 2 ^ (-800 : ℤ) := by
    rw [show (-799 : ℤ) = 1 + -800 by norm_num, zpow_add₀ (by norm_num), zpow_one]
  have hη1 : (2 : ℝ) ^ (-800 : ℤ) ≤ 1 := zpow_le_one_of_nonpos₀ (by norm_num) (by norm_num)
  have hεT : (8 * k + 11) * roundoff * T ≤ 1 / 2 := by
    have h1 : ((8 * k + 11) * T : ℝ) ≤ 2 ^ 52 := by exact_mod_cast hT
    have h3 := mul_le_mul_of_nonneg_right h1 hu.le
    have h4 : (2 : ℝ) ^ 52 * roundoff = 1 / 2 := by unfold roundoff; norm_num
    linarith
  have hT49 : T ≤ 2 ^ 49 := by
    have : 11 * T ≤ (8 * k + 11) * T := Nat.mul_le_mul_right _ (by omega)
    norm_num at hT ⊢
    omega
  obtain ⟨r1, r2, r3, r4⟩ := run_bounds hM (m := m) (k := k) (T := T) (ws := ws)
    (us := fun t i => entry (us t) i) (c := fun _ => lr) (ys := ys) (ps := ps) (φ := φ)
    (q := fun _ => l) (D := D) (ε := (8 * k + 11) * roundoff) (η := 2 ^ (-800 : ℤ)) hmod
    (fun t => (hφ t)) (fun t => (run t).1) (fun t => (run t).2.1)
    (fun _ => ⟨_, hlr, by
      rw [abs_of_nonneg l0]
      exact l1.trans (pow_le_pow_right₀ (by norm_num) (by norm_num))⟩) (fun t => (run t).2.2) (fun t i hi => by
      rw [hex t i hi, hv t i hi, inner_eq, (hψ t).2]
      congr 4
      exact Finset.sum_congr rfl fun j hj => by rw [hv t j (Finset.mem_range.1 hj)])
    (fun i hi => (hw i hi).2) (fun i hi => (hw i hi).1) (fun _ => l0) (fun t => by rw [← hS]; exact h2 t)
    (fun t => by rw [← hA]; exact hD t) hD1 (by positivity) η0 hη1 hεT hT49 (fun t _ hp hf _ => by
      have he := call_err hM (hφ t) (fun r hr => dotColumn_err hM m (hφ t) (run t).1 (run t).2.1 hr) (run t).2.2 hf
      rw [is_real hlr] at he
      refine he.trans ?_
      have := callError_le (hmod t) (hφ t) (ws t) (c := lr) (v := ps t) hp (D := D)
        (by rw [is_real hlr, abs_of_nonneg l0]; exact l1.trans (pow_le_pow_right₀ (by norm_num) (by norm_num)))
        (by rw [is_real hlr, abs_of_nonneg l0, len_sq, ← hS]; exact h2 t)
        (by rw [is_real hlr, abs_of_nonneg l0, ← hA]; exact hD t)
      refine this.trans ?_
      have D0 : 0 ≤ D := (mul_nonneg (mul_nonneg l0 (Real.sqrt_nonneg _)) (abs_nonneg _)).trans (hD 0)
      have h5 := mul_nonneg (mul_nonneg (by positivity : (0 : ℝ) ≤ 8 * k + 6) hu.le) D0
      linarith) T le_rfl
  refine ⟨r1, finite_of_bounded r2, ?_, ?_⟩
  · rw [e799, ← two_roundoff]
    exact r4.trans (le_of_eq (by ring))
  · refine (prediction_near_of (hφ T) (hψ T) (hv T) (hus T).1 (fun _ hr => dotColumn_err hM m (hφ T) (run T).1 (run T).2.1 hr) (finite_of_bounded r2)
      (hus T).2 r4).trans ?_
    have D0 : 0 ≤ D := (mul_nonneg (mul_nonneg l0 (Real.sqrt_nonneg _)) (abs_nonneg _)).trans (hD 0)
    rw [hA]
    have h6 := run_prediction (len_nonneg n fun i => real (value (φ T) i)) η0 (k := k) (by nlinarith) hεT (Nat.cast_nonneg T)
      (add_nonneg (len_nonneg n fun i => real (entry (ws 0) i)) (mul_nonneg (Nat.cast_nonneg T) D0)) r3 le_rfl
      (predictionError_le (hφ T) (ws T) (hmod T).count.1 (hmod T).count.2)
    refine h6.trans (add_le_add (le_of_eq ?_) (count_tiny (hmod T).count.2))
    rw [e799, ← two_roundoff]
    ring

/-- SGD with a rate `l ≥ 0` and `l ‖φ‖² ≤ 2`, on at most `2^40` weights and `k ≤ 2^40` stored features per input, with targets,
features, rate and initial weights of at most `2^100` and `l ‖φ‖ |y| ≤ D` in every call. For `(8 k + 11) T ≤ 2^52` calls nothing
overflows, the weights stay within `(8 k + 11) T 2^-52 (‖w₀‖ + T D)` of exact training (up to `T 2^-799`), and the next prediction
within `‖φ‖` times the same bound for one more call (up to `2^-1034`). -/
theorem C177_sgd (hM : M.rnd = binary64Format.rnd) (n k : Nat)
    (fas : Nat → ScalarLFA B (SGD (FP M)) (FP M)) (gas : Nat → ScalarLFA B' (SGD ℝ) ℝ) (xs : Nat → I)
    (ys ps : Nat → FP M) (qs : Nat → ℝ) (hs : Stream fas xs ys ps) (hg : Stream gas xs (fun k => real (ys k)) qs)
    (φ : Nat → Features (FP M)) (ψ : Nat → Features ℝ)
    (hφ : ∀ k, Basis.project (fas 0).basis (xs k) = .ok (.ok (φ k)) ∧ Fits n (φ k))
    (hψ : ∀ k, Basis.project (gas 0).basis (xs k) = .ok (.ok (ψ k)) ∧ Fits n (ψ k))
    (hv : ∀ k, ∀ i < n, value (ψ k) i = real (value (φ k) i))
    (hn : (fas 0).weights.length = n) (hm : (gas 0).weights.length = n)
    (hw : ∀ i < n, Bounded (2 ^ 100) (entry (fas 0).weights i) ∧ entry (gas 0).weights i = real (entry (fas 0).weights i))
    (hlr : Is (fas 0).optimiser.lr (gas 0).optimiser.lr) (l0 : 0 ≤ (gas 0).optimiser.lr) (l1 : (gas 0).optimiser.lr ≤ 2 ^ 100)
    (h2 : ∀ t, (gas 0).optimiser.lr * normSq (ψ t) ≤ 2) (hmod : ∀ t, Moderate n k (φ t) (ys t))
    (D : ℝ) (hD : ∀ t, (gas 0).optimiser.lr * √(normSq (ψ t)) * |real (ys t)| ≤ D) (hD1 : D ≤ 2 ^ 200)
    (T : Nat) (hT : (8 * k + 11) * T ≤ 2 ^ 52) :
    (∀ i < n, Spec.Finite (entry (fas T).weights i)) ∧ Spec.Finite (ps T) ∧
    len n (fun i => real (entry (fas T).weights i) - entry (gas T).weights i) ≤
      (8 * k + 11) * T * 2 ^ (-52 : ℤ) * (len n (fun i => real (entry (fas 0).weights i)) + T * D) + T * 2 ^ (-799 : ℤ) ∧
    |real (ps T) - qs T| ≤ √(normSq (ψ T)) * ((8 * k + 11) * (T + 1) * 2 ^ (-52 : ℤ) *
      (len n (fun i => real (entry (fas 0).weights i)) + T * D) + (T + 1) * 2 ^ (-799 : ℤ)) + 2 ^ (-1034 : ℤ) := by
  have run := sgd_trace hs hn hφ
  have run' := sgd_trace hg hm hψ
  exact sgd_column hM 1 n k (fun t => (fas t).weights) (fun t => (gas t).weights) (fas 0).optimiser.lr (gas 0).optimiser.lr ys ps qs φ ψ
    (fun t => (hφ t).2) (fun t => (hψ t).2) hv (fun t => ⟨(run t).1.2.2, by rw [dotColumn_one]; exact (run t).2.1, (run t).2.2⟩)
    (fun t => ⟨(run' t).1.2.2, (run' t).2.1⟩) (exact_trace hg hm hψ) hw hlr l0 l1 h2 hmod D hD hD1 T hT

omit [Space B] [Basis B I (FP M)] [Space B'] [Basis B' I ℝ] in
/-- The rate ISGD computes on moderate features, and what rounding adds to the weights in one call. -/
theorem implicitError_le (hM : M.rnd = binary64Format.rnd) {n k : Nat} {φ : Features (FP M)} {y : FP M} (h : Moderate n k φ y)
    (hf : Fits n φ) (w : List (FP M)) (o : ISGD (FP M)) {l q : ℝ} (hl : Is o.lr l) (l0 : 0 ≤ l) (l1 : l ≤ 2 ^ 100)
    (hq : q = l / (1 + l * ∑ i ∈ Finset.range n, real (value φ i) ^ 2)) {D : ℝ}
    (hD : q * len n (fun i => real (value φ i)) * |real y| ≤ D) :
    Bounded (2 ^ 101) (o.computeLr φ) ∧ ∀ v : FP M, (∃ r, Is v r ∧ |r - exactDot φ w| ≤ predictionError φ w) →
      len n (fun i => real (entry w i)) ≤ 2 ^ 252 → implicitError n l (o.computeLr φ) φ w y v ≤
        (12 * k + 25) * roundoff * (len n (fun i => real (entry w i)) + D) + 2 ^ (-500 : ℤ) := by
  have hu := roundoff_pos
  have hu1 : roundoff ≤ 1 / 8192 := by norm_num [roundoff]
  have ht := tiny_pos
  have hA := features_len h hf
  have hA0 := len_nonneg n fun i => real (value φ i)
  have hN0 := len_nonneg n fun i => real (entry w i)
  have s0 : 0 ≤ ∑ i ∈ Finset.range n, real (value φ i) ^ 2 := Finset.sum_nonneg fun _ _ => sq_nonneg _
  have hs : ∑ i ∈ Finset.range n, real (value φ i) ^ 2 = len n (fun i => real (value φ i)) ^ 2 := (len_sq _ _).symm
  have hs1 : ∑ i ∈ Finset.range n, real (value φ i) ^ 2 ≤ 2 ^ 240 := by
    rw [hs, show (2 : ℝ) ^ 240 = (2 ^ 120) ^ 2 by rw [← pow_mul]]
    exact pow_le_pow_left₀ hA0 hA 2
  have hls : l * ∑ i ∈ Finset.range n, real (value φ i) ^ 2 ≤ 2 ^ 340 := by
    refine (mul_le_mul l1 hs1 s0 (by positivity)).trans ?_
    rw [← pow_add]
  have hp0 := predictionError_nonneg φ w
  have hk0 : (0 : ℝ) ≤ k := k.cast_nonneg
  have hk : (storedCount φ : ℝ) ≤ k := by exact_mod_cast h.count.1
  have hku := length_roundoff' h.count.2
  obtain ⟨c, hc, he⟩ := C161_rate hM o hl l0 (l1.trans (pow_le_pow_right₀ (by norm_num) (by norm_num))) φ hf.1
    (fun i a ha => finite_of_bounded (h.features i a ha)) (h.count.1.trans h.count.2)
    (∑ i ∈ Finset.range n, real (value φ i) ^ 2) (by rw [hf.2])
    (hs1.trans (pow_le_pow_right₀ (by norm_num) (by norm_num))) (hls.trans (pow_le_pow_right₀ (by norm_num) (by norm_num)))
  rw [← hq] at he
  have q0 : 0 ≤ q := by rw [hq]; positivity
  have ql : q ≤ l := by
    rw [hq, div_le_iff₀ (by positivity)]
    nlinarith [mul_nonneg l0 (mul_nonneg l0 s0)]
  have qs : q * len n (fun i => real (value φ i)) ^ 2 ≤ 1 := by
    rw [← hs, hq, div_mul_eq_mul_div, div_le_iff₀ (by positivity)]
    linarith
  have he : |c - q| ≤ (4 * k + 14) * roundoff * q + tiny := by
    refine he.trans (add_le_add (mul_le_mul_of_nonneg_right (mul_le_mul_of_nonneg_right (by linarith) hu.le) q0) le_rfl)
  have small : (4 * (k : ℝ) + 14) * roundoff ≤ 1 / 2 := by linarith
  have hcq : |c| ≤ 3 / 2 * q + tiny := by
    have h1 := abs_add_le (c - q) q
    rw [sub_add_cancel, abs_of_nonneg q0] at h1
    have h2 := mul_le_mul_of_nonneg_right small q0
    linarith
  have ht1 : tiny * 2 ^ 250 ≤ 2 ^ (-800 : ℤ) := by
    refine le_trans (mul_le_mul_of_nonneg_left ?_ ht.le) tiny_moderate
    exact pow_le_pow_right₀ (by norm_num) (by norm_num)
  have e800 : (2 : ℝ) ^ (-800 : ℤ) ≤ 1 / 8 := by
    rw [show (1 / 8 : ℝ) = 2 ^ (-3 : ℤ) by norm_num]
    exact zpow_le_zpow_right₀ (by norm_num) (by norm_num)
  have hc1 : |c| ≤ 2 ^ 101 := by
    have h1 : tiny ≤ 1 := (zpow_le_one_of_nonpos₀ (by norm_num) (by norm_num))
    have h2 : (1 : ℝ) ≤ 2 ^ 99 := one_le_pow₀ (by norm_num)
    rw [show (2 : ℝ) ^ 101 = 4 * 2 ^ 99 by norm_num]
    rw [show (2 : ℝ) ^ 100 = 2 * 2 ^ 99 by norm_num] at l1
    linarith
  refine ⟨⟨c, hc, hc1⟩, fun v hv hN => ?_⟩
  obtain ⟨Y, hY, hY1⟩ := h.target
  rw [is_real hY] at hD
  have hY0 := abs_nonneg Y
  have hc2 : |c| * len n (fun i => real (value φ i)) ^ 2 ≤ 2 := by
    have h1 := mul_le_mul_of_nonneg_right hcq (sq_nonneg (len n fun i => real (value φ i)))
    have h2 : tiny * len n (fun i => real (value φ i)) ^ 2 ≤ 1 / 8 := by
      refine (mul_le_mul_of_nonneg_left (hs ▸ hs1) ht.le).trans (le_trans (mul_le_mul_of_nonneg_left ?_ ht.le) (ht1.trans e800))
      exact pow_le_pow_right₀ (by norm_num) (by norm_num)
    linarith
  have hAY : len n (fun i => real (value φ i)) * |Y| ≤ 2 ^ 220 := by
    refine (mul_le_mul hA hY1 hY0 (by positivity)).trans ?_
    rw [← pow_add]
  have hcD : |c| * len n (fun i => real (value φ i)) * |Y| ≤ 3 / 2 * D + 2 ^ (-800 : ℤ) := by
    have h1 := mul_le_mul_of_nonneg_right hcq (mul_nonneg hA0 hY0)
    have h2 : tiny * (len n (fun i => real (value φ i)) * |Y|) ≤ 2 ^ (-800 : ℤ) := by
      refine (mul_le_mul_of_nonneg_left hAY ht.le).trans (le_trans (mul_le_mul_of_nonneg_left ?_ ht.le) ht1)
      exact pow_le_pow_right₀ (by norm_num) (by norm_num)
    linarith
  have hce := callError_le h hf w (c := o.computeLr φ) (v := v) hv (D := 3 / 2 * D + 2 ^ (-800 : ℤ)) (by rwa [is_real hc])
    (by rwa [is_real hc]) (by rwa [is_real hc, is_real hY])
  have hdot : |exactDot φ w| ≤ len n (fun i => real (value φ i)) * len n (fun i => real (entry w i)) := by
    unfold exactDot
    rw [hf.2]
    exact abs_sum_mul_le_len n _ _
  unfold implicitError
  rw [← hq, is_real hc, is_real hY]
  have hE : |Y - exactDot φ w| ≤ |Y| + len n (fun i => real (value φ i)) * len n (fun i => real (entry w i)) := by
    have e1 := abs_sub_le Y 0 (exactDot φ w)
    rw [sub_zero, zero_sub, abs_neg] at e1
    linarith
  have b1 : |c - q| * |Y - exactDot φ w| * len n (fun i => real (value φ i)) ≤ ((4 * k + 14) * roundoff * q + tiny) *
      ((|Y| + len n (fun i => real (value φ i)) * len n (fun i => real (entry w i))) * len n (fun i => real (value φ i))) := by
    rw [mul_assoc]
    exact mul_le_mul he (mul_le_mul_of_nonneg_right hE hA0) (by positivity) (by positivity)
  have b2 : q * ((|Y| + len n (fun i => real (value φ i)) * len n (fun i => real (entry w i))) *
      len n (fun i => real (value φ i))) ≤ D + len n (fun i => real (entry w i)) := by
    have := mul_le_mul_of_nonneg_right qs hN0
    linarith
  have b3 : tiny * ((|Y| + len n (fun i => real (value φ i)) * len n (fun i => real (entry w i))) *
      len n (fun i => real (value φ i))) ≤ 2 ^ (-501 : ℤ) := by
    have h1 : |Y| + len n (fun i => real (value φ i)) * len n (fun i => real (entry w i)) ≤ 2 ^ 373 := by
      have h2 := mul_le_mul hA hN hN0 (by positivity)
      rw [← pow_add] at h2
      have h3 : |Y| ≤ 2 ^ (120 + 252) := hY1.trans (pow_le_pow_right₀ (by norm_num) (by norm_num))
      refine (add_le_add h3 h2).trans (le_of_eq ?_)
      rw [← two_mul, ← pow_succ']
    have h4 := mul_le_mul h1 hA hA0 (by positivity)
    refine (mul_le_mul_of_nonneg_left h4 ht.le).trans ?_
    rw [← pow_add, tiny, ← zpow_natCast (2 : ℝ), ← zpow_add₀ (by norm_num)]
    exact zpow_le_zpow_right₀ (by norm_num) (by norm_num)
  have b4 := mul_le_mul_of_nonneg_left b2 (by positivity : 0 ≤ (4 * k + 14) * roundoff)
  have e500 : (2 : ℝ) ^ (-500 : ℤ) = 2 * 2 ^ (-501 : ℤ) := by
    rw [show (-500 : ℤ) = 1 + -501 by norm_num, zpow_add₀ (by norm_num), zpow_one]
  have e501 : 2 * (2 : ℝ) ^ (-800 : ℤ) ≤ 2 ^ (-501 : ℤ) := by
    rw [show 2 * (2 : ℝ) ^ (-800 : ℤ) = 2 ^ (-799 : ℤ) by
      rw [show (-799 : ℤ) = 1 + -800 by norm_num, zpow_add₀ (by norm_num), zpow_one]]
    exact zpow_le_zpow_right₀ (by norm_num) (by norm_num)
  have η0 : (0 : ℝ) < 2 ^ (-800 : ℤ) := by positivity
  have D0 : 0 ≤ D := (mul_nonneg (mul_nonneg q0 hA0) hY0).trans hD
  have b5 : 5 * roundoff * 2 ^ (-800 : ℤ) ≤ 2 ^ (-800 : ℤ) := by
    have := mul_le_mul_of_nonneg_right (by linarith : 5 * roundoff ≤ 1) η0.le
    linarith
  rw [e500]
  generalize (2 : ℝ) ^ (-800 : ℤ) = η at *
  generalize (2 : ℝ) ^ (-501 : ℤ) = η' at *
  have b6 := mul_nonneg hu.le D0
  have b7 := mul_nonneg (mul_nonneg hk0 hu.le) D0
  clear hA hs1 hls l1 hc1 hN ht1 hY1 hAY
  generalize len n (fun i => real (value φ i)) = A at *
  generalize len n (fun i => real (entry w i)) = N at *
  generalize (|Y| + A * N) * A = X at *
  nlinarith only [hce, b1, b3, b4, b5, b6, b7, e501]

omit [Space B] [Basis B I (FP M)] [Space B'] [Basis B' I ℝ] in
/-- The same for ISGD. -/
theorem isgd_column (hM : M.rnd = binary64Format.rnd) (m n k : Nat)
    (ws : Nat → List (FP M)) (us : Nat → List ℝ) (o : ISGD (FP M)) (l : ℝ) (ys ps : Nat → FP M) (qs : Nat → ℝ)
    (φ : Nat → Features (FP M)) (ψ : Nat → Features ℝ) (hφ : ∀ t, Fits n (φ t)) (hψ : ∀ t, Fits n (ψ t))
    (hv : ∀ k, ∀ i < n, value (ψ k) i = real (value (φ k) i))
    (run : ∀ t, (ws t).length = n ∧ (φ t).dotColumn m (ws t) = .ok (ps t) ∧ ∀ i < n,
      (∀ a, Stored (φ t) i a → entry (ws (t + 1)) i = (entry (ws t) i +. o.computeLr (φ t) *. (ys t -. ps t) *. a)) ∧
      (¬ Active (φ t) i → entry (ws (t + 1)) i = entry (ws t) i))
    (hus : ∀ t, (us t).length = n ∧ (ψ t).dot (us t) = .ok (qs t))
    (hex : ∀ t, ∀ i < n, entry (us (t + 1)) i = entry (us t) i +
      l / (1 + l * normSq (ψ t)) * (real (ys t) - Spec.inner (ψ t) (us t)) * value (ψ t) i)
    (hw : ∀ i < n, Bounded (2 ^ 100) (entry (ws 0) i) ∧ entry (us 0) i = real (entry (ws 0) i))
    (hlr : Is o.lr l) (l0 : 0 ≤ l) (l1 : l ≤ 2 ^ 100)
    (hmod : ∀ t, Moderate n k (φ t) (ys t)) (D : ℝ)
    (hD : ∀ t, l / (1 + l * normSq (ψ t)) * √(normSq (ψ t)) * |real (ys t)| ≤ D)
    (hD1 : D ≤ 2 ^ 200) (T : Nat) (hT : (12 * k + 25) * T ≤ 2 ^ 52) :
    (∀ i < n, Spec.Finite (entry (ws T) i)) ∧ Spec.Finite (ps T) ∧
    len n (fun i => real (entry (ws T) i) - entry (us T) i) ≤
      (12 * k + 25) * T * 2 ^ (-52 : ℤ) * (len n (fun i => real (entry (ws 0) i)) + T * D) + T * 2 ^ (-499 : ℤ) ∧
    |real (ps T) - qs T| ≤ √(normSq (ψ T)) * ((12 * k + 25) * (T + 1) * 2 ^ (-52 : ℤ) *
      (len n (fun i => real (entry (ws 0) i)) + T * D) + (T + 1) * 2 ^ (-499 : ℤ)) + 2 ^ (-1034 : ℤ) := by
  have hu := roundoff_pos
  have k0 : (0 : ℝ) ≤ k := k.cast_nonneg
  have hA : ∀ t, √(normSq (ψ t)) = len n (fun i => real (value (φ t) i)) := fun t => by
    rw [len_value (hψ t)]
    exact len_congr fun i hi => hv t i hi
  have hS : ∀ t, normSq (ψ t) = ∑ i ∈ Finset.range n, real (value (φ t) i) ^ 2 := fun t => by
    rw [normSq, (hψ t).2]
    exact Finset.sum_congr rfl fun i hi => by rw [hv t i (Finset.mem_range.1 hi), sq]
  have S0 : ∀ t, 0 ≤ normSq (ψ t) := fun t => by rw [hS]; exact Finset.sum_nonneg fun _ _ => sq_nonneg _
  have q0 : ∀ t, 0 ≤ l / (1 + l * normSq (ψ t)) := fun t => by
    have := S0 t
    positivity
  have D0 : 0 ≤ D := (mul_nonneg (mul_nonneg (q0 0) (Real.sqrt_nonneg _)) (abs_nonneg _)).trans (hD 0)
  have η0 : (0 : ℝ) ≤ 2 ^ (-500 : ℤ) := by positivity
  have e499 : (2 : ℝ) ^ (-499 : ℤ) = 2 * 2 ^ (-500 : ℤ) := by
    rw [show (-499 : ℤ) = 1 + -500 by norm_num, zpow_add₀ (by norm_num), zpow_one]
  have hη1 : (2 : ℝ) ^ (-500 : ℤ) ≤ 1 := zpow_le_one_of_nonpos₀ (by norm_num) (by norm_num)
  have hεT : (12 * k + 25) * roundoff * T ≤ 1 / 2 := by
    have h1 : ((12 * k + 25) * T : ℝ) ≤ 2 ^ 52 := by exact_mod_cast hT
    have h3 := mul_le_mul_of_nonneg_right h1 hu.le
    have h4 : (2 : ℝ) ^ 52 * roundoff = 1 / 2 := by unfold roundoff; norm_num
    linarith
  have hT49 : T ≤ 2 ^ 49 := by
    have : 25 * T ≤ (12 * k + 25) * T := Nat.mul_le_mul_right _ (by omega)
    norm_num at hT ⊢
    omega
  have bound := fun t => implicitError_le hM (hmod t) (hφ t) (ws t) o hlr l0 l1
    (q := l / (1 + l * normSq (ψ t))) (by rw [hS]) (D := D) (by rw [← hA]; exact hD t)
  obtain ⟨r1, r2, r3, r4⟩ := run_bounds hM (m := m) (k := k) (T := T) (ws := ws)
    (us := fun t i => entry (us t) i) (c := fun t => o.computeLr (φ t)) (ys := ys) (ps := ps) (φ := φ)
    (q := fun t => l / (1 + l * normSq (ψ t))) (D := D)
    (ε := (12 * k + 25) * roundoff) (η := 2 ^ (-500 : ℤ)) hmod
    (fun t => (hφ t)) (fun t => (run t).1) (fun t => (run t).2.1)
    (fun t => (bound t).1) (fun t => (run t).2.2) (fun t i hi => by
      rw [hex t i hi, hv t i hi, inner_eq, (hψ t).2]
      congr 4
      exact Finset.sum_congr rfl fun j hj => by rw [hv t j (Finset.mem_range.1 hj)])
    (fun i hi => (hw i hi).2) (fun i hi => (hw i hi).1) q0 (fun t => by
      have := S0 t
      rw [← hS, div_mul_eq_mul_div, div_le_iff₀ (by positivity)]
      nlinarith [mul_nonneg l0 this])
    (fun t => by rw [← hA]; exact hD t) hD1 (by positivity) η0 hη1 hεT hT49 (fun t _ hp hf hN => by
      have he := call_err hM (hφ t) (fun r hr => dotColumn_err hM m (hφ t) (run t).1 (run t).2.1 hr) (run t).2.2 hf
      refine le_trans ?_ ((bound t).2 (ps t) hp hN)
      unfold implicitError
      rw [← hS]
      generalize l / (1 + l * normSq (ψ t)) = l at *
      have hrate : len n (fun i => (real (o.computeLr (φ t)) - l) *
          (real (ys t) - exactDot (φ t) (ws t)) * real (value (φ t) i)) =
          |real (o.computeLr (φ t)) - l| * |real (ys t) - exactDot (φ t) (ws t)| *
            len n fun i => real (value (φ t) i) := by
        rw [len_smul', abs_mul]
      refine le_trans (le_of_eq (len_congr fun i _ => ?_)) ((len_add_le n (fun i => real (entry (ws (t + 1)) i) -
        (real (entry (ws t) i) + real (o.computeLr (φ t)) *
          (real (ys t) - exactDot (φ t) (ws t)) * real (value (φ t) i)))
        (fun i => (real (o.computeLr (φ t)) - l) *
          (real (ys t) - exactDot (φ t) (ws t)) * real (value (φ t) i))).trans (add_le_add he hrate.le))
      ring) T le_rfl
  refine ⟨r1, finite_of_bounded r2, ?_, ?_⟩
  · rw [e499, ← two_roundoff]
    exact r4.trans (le_of_eq (by ring))
  · refine (prediction_near_of (hφ T) (hψ T) (hv T) (hus T).1 (fun _ hr => dotColumn_err hM m (hφ T) (run T).1 (run T).2.1 hr) (finite_of_bounded r2)
      (hus T).2 r4).trans ?_
    rw [hA]
    have h6 := run_prediction (len_nonneg n fun i => real (value (φ T) i)) η0 (k := k) (by nlinarith) hεT (Nat.cast_nonneg T)
      (add_nonneg (len_nonneg n fun i => real (entry (ws 0) i)) (mul_nonneg (Nat.cast_nonneg T) D0)) r3 le_rfl
      (predictionError_le (hφ T) (ws T) (hmod T).count.1 (hmod T).count.2)
    refine h6.trans (add_le_add (le_of_eq ?_) (count_tiny (hmod T).count.2))
    rw [e499, ← two_roundoff]
    ring

/-- ISGD with any nominal rate up to `2^100`, under the same limits on the sizes and `l / (1 + l ‖φ‖²) ‖φ‖ |y| ≤ D` in every call,
for `(12 k + 25) T ≤ 2^52` calls. -/
theorem C177_isgd (hM : M.rnd = binary64Format.rnd) (n k : Nat)
    (fas : Nat → ScalarLFA B (ISGD (FP M)) (FP M)) (gas : Nat → ScalarLFA B' (ISGD ℝ) ℝ) (xs : Nat → I)
    (ys ps : Nat → FP M) (qs : Nat → ℝ) (hs : Stream fas xs ys ps) (hg : Stream gas xs (fun k => real (ys k)) qs)
    (φ : Nat → Features (FP M)) (ψ : Nat → Features ℝ)
    (hφ : ∀ k, Basis.project (fas 0).basis (xs k) = .ok (.ok (φ k)) ∧ Fits n (φ k))
    (hψ : ∀ k, Basis.project (gas 0).basis (xs k) = .ok (.ok (ψ k)) ∧ Fits n (ψ k))
    (hv : ∀ k, ∀ i < n, value (ψ k) i = real (value (φ k) i))
    (hn : (fas 0).weights.length = n) (hm : (gas 0).weights.length = n)
    (hw : ∀ i < n, Bounded (2 ^ 100) (entry (fas 0).weights i) ∧ entry (gas 0).weights i = real (entry (fas 0).weights i))
    (hlr : Is (fas 0).optimiser.lr (gas 0).optimiser.lr) (l0 : 0 ≤ (gas 0).optimiser.lr) (l1 : (gas 0).optimiser.lr ≤ 2 ^ 100)
    (hmod : ∀ t, Moderate n k (φ t) (ys t)) (D : ℝ)
    (hD : ∀ t, (gas 0).optimiser.lr / (1 + (gas 0).optimiser.lr * normSq (ψ t)) * √(normSq (ψ t)) * |real (ys t)| ≤ D)
    (hD1 : D ≤ 2 ^ 200) (T : Nat) (hT : (12 * k + 25) * T ≤ 2 ^ 52) :
    (∀ i < n, Spec.Finite (entry (fas T).weights i)) ∧ Spec.Finite (ps T) ∧
    len n (fun i => real (entry (fas T).weights i) - entry (gas T).weights i) ≤
      (12 * k + 25) * T * 2 ^ (-52 : ℤ) * (len n (fun i => real (entry (fas 0).weights i)) + T * D) + T * 2 ^ (-499 : ℤ) ∧
    |real (ps T) - qs T| ≤ √(normSq (ψ T)) * ((12 * k + 25) * (T + 1) * 2 ^ (-52 : ℤ) *
      (len n (fun i => real (entry (fas 0).weights i)) + T * D) + (T + 1) * 2 ^ (-499 : ℤ)) + 2 ^ (-1034 : ℤ) := by
  have run := isgd_trace hs hn hφ
  have run' := isgd_trace hg hm hψ
  exact isgd_column hM 1 n k (fun t => (fas t).weights) (fun t => (gas t).weights) (fas 0).optimiser (gas 0).optimiser.lr ys ps qs φ ψ
    (fun t => (hφ t).2) (fun t => (hψ t).2) hv (fun t => ⟨(run t).1.2.2, by rw [dotColumn_one]; exact (run t).2.1, (run t).2.2⟩)
    (fun t => ⟨(run' t).1.2.2, (run' t).2.1⟩) (exact_isgd_trace hg hm hψ) hw hlr l0 l1 hmod D hD hD1 T hT

end

/-- The hypotheses are met: one constant feature, any rate in `[0, 2]`, any targets of at most `Y ≤ 2^100`. For `T ≤ 2^52 / 19` calls
the predictions stay finite and within `19 (T + 1) T l Y 2^-52` of exact training, up to `(T + 2) 2^-799`. -/
theorem C177_example (hM : M.rnd = binary64Format.rnd) (lr : FP M) (l : ℝ) (hl : Is lr l) (l0 : 0 ≤ l) (l2 : l ≤ 2)
    (ys : Nat → FP M) (Y : ℝ) (hY : Y ≤ 2 ^ 100) (hy : ∀ t, Bounded Y (ys t)) :
    ∃ (fas : Nat → ScalarLFA (FixedSparse (FP M)) (SGD (FP M)) (FP M)) (gas : Nat → ScalarLFA (FixedSparse ℝ) (SGD ℝ) ℝ)
      (ps : Nat → FP M) (qs : Nat → ℝ),
      fas 0 = LFA.mk ⟨1, [0]⟩ [Scalar.zero] ⟨lr⟩ ∧ gas 0 = LFA.mk ⟨1, [0]⟩ [0] ⟨l⟩ ∧
      Stream fas (fun _ => ()) ys ps ∧ Stream gas (fun _ => ()) (fun t => real (ys t)) qs ∧
      ∀ T : Nat, 19 * T ≤ 2 ^ 52 → Spec.Finite (ps T) ∧
        |real (ps T) - qs T| ≤ 19 * (T + 1) * 2 ^ (-52 : ℤ) * (T * (l * Y)) + (T + 2) * 2 ^ (-799 : ℤ) := by
  have hp : Basis.project (⟨1, [0]⟩ : FixedSparse (FP M)) () =
      .ok (.ok (.sparse ⟨1, [(0, (Scalar.one : FP M))]⟩)) := rfl
  have hpr : Basis.project (⟨1, [0]⟩ : FixedSparse ℝ) () =
      .ok (.ok (.sparse ⟨1, [(0, (Scalar.one : ℝ))]⟩)) := rfl
  have hf : ∀ {K : Type} [Scalar K], Fits 1 (.sparse ⟨1, [(0, (Scalar.one : K))]⟩) := fun {K} _ => by
    refine ⟨⟨List.nodup_singleton _, fun e he => ?_⟩, rfl⟩
    rw [List.mem_singleton] at he
    subst he
    exact Nat.zero_lt_one
  obtain ⟨fas, ps, hs, h0⟩ := stream_any (O := SGD (FP M)) (⟨1, [0]⟩ : FixedSparse (FP M)) (n := 1) (fun _ => ()) ys
    (fun _ => ⟨_, hp, hf⟩) [Scalar.zero] rfl ⟨lr⟩ trivial
  obtain ⟨gas, qs, hg, hg0⟩ := stream_any (O := SGD ℝ) (⟨1, [0]⟩ : FixedSparse ℝ) (n := 1) (fun _ => ())
    (fun t => real (ys t)) (fun _ => ⟨_, hpr, hf⟩) [0] rfl ⟨l⟩ trivial
  have hN : normSq (.sparse ⟨1, [(0, (Scalar.one : ℝ))]⟩) = 1 := by
    rw [normSq]
    show ∑ i ∈ Finset.range 1, _ = _
    rw [Finset.sum_range_one]
    show (Scalar.one : ℝ) * Scalar.one = 1
    rw [real_one, mul_one]
  have big : (2 : ℝ) ≤ 2 ^ 100 := le_self_pow₀ (by norm_num) (by norm_num)
  have Y0 : 0 ≤ Y := by
    obtain ⟨r, -, h⟩ := hy 0
    exact (abs_nonneg r).trans h
  refine ⟨fas, gas, ps, qs, h0, hg0, hs, hg, fun T hT => ?_⟩
  obtain ⟨-, h1, -, h2⟩ := C177_sgd hM 1 1 fas gas (fun _ => ()) ys ps qs hs hg
    (fun _ => .sparse ⟨1, [(0, (Scalar.one : FP M))]⟩) (fun _ => .sparse ⟨1, [(0, (Scalar.one : ℝ))]⟩)
    (fun _ => ⟨by rw [h0]; exact hp, hf⟩) (fun _ => ⟨by rw [hg0]; exact hpr, hf⟩)
    (fun _ i hi => by
      obtain rfl : i = 0 := by omega
      show (Scalar.one : ℝ) = real (Scalar.one : FP M)
      rw [is_real val_one, real_one])
    (by rw [h0]; rfl) (by rw [hg0]; rfl) (fun i hi => by
      obtain rfl : i = 0 := by omega
      rw [h0, hg0]
      refine ⟨bounded_zero (by positivity), ?_⟩
      show (0 : ℝ) = real (Scalar.zero : FP M)
      rw [is_real val_zero]) (by rw [h0, hg0]; exact hl) (by rw [hg0]; exact l0) (by rw [hg0]; exact l2.trans big)
    (fun _ => by rw [hg0, hN, mul_one]; exact l2)
    (fun t => ⟨by norm_num, ⟨le_rfl, by norm_num⟩, fun i x hx => by
      obtain ⟨rfl, rfl⟩ := Prod.mk.inj (List.mem_singleton.1 hx)
      exact ⟨1, val_one, by rw [abs_one]; exact one_le_pow₀ (by norm_num)⟩, bounded_mono (hy t) hY⟩)
    (l * Y) (fun t => by
      obtain ⟨r, hr, h⟩ := hy t
      rw [hg0, hN, Real.sqrt_one, mul_one, is_real hr]
      exact mul_le_mul_of_nonneg_left h l0) (by
      refine (mul_le_mul (l2.trans big) hY Y0 (by positivity)).trans ?_
      rw [← pow_add]) T (by omega)
  refine ⟨h1, ?_⟩
  rw [hN, Real.sqrt_one, one_mul] at h2
  have hw : len 1 (fun i => real (entry (fas 0).weights i)) = 0 := by
    rw [h0, len_congr (g := fun _ => 0), len_const 1 0 le_rfl, mul_zero]
    intro i hi
    obtain rfl : i = 0 := by omega
    exact real_zero'
  rw [hw, zero_add, Nat.cast_one, mul_one, show (8 + 11 : ℝ) = 19 by norm_num] at h2
  have h3 : (2 : ℝ) ^ (-1034 : ℤ) ≤ 2 ^ (-799 : ℤ) := zpow_le_zpow_right₀ (by norm_num) (by norm_num)
  linarith

end Lfa

import Verif.Proofs.Rounded
import Verif.Proofs.Features
import Mathlib.Algebra.BigOperators.Group.List.Basic
import Mathlib.Algebra.Order.BigOperators.Group.List

/-! # How far rounded operations are from exact ones -/

set_option linter.unusedSectionVars false

namespace Lfa

namespace Format

variable (F : Format)

/-- Half a unit in the last place is small relative to the number, except near zero. -/
theorem nearest_rel (r : ℝ) :
    |F.nearest r - r| ≤ 2 ^ (-(F.p : ℤ)) * |r| + 2 ^ (F.emin - 1) := by
  by_cases hr0 : r = 0
  · have := two_zpow_pos (F.emin - 1)
    subst hr0
    rw [nearest_zero, sub_zero, abs_zero, mul_zero, zero_add]
    exact this.le
  refine (F.nearest_err r).trans ?_
  have half : ∀ e : ℤ, (2 : ℝ) ^ e / 2 = 2 ^ (e - 1) := fun e => by
    rw [zpow_sub_one₀ (by norm_num)]; rfl
  rw [half]
  have h0 := two_zpow_pos (F.emin - 1)
  rcases le_or_gt (F.ulp r) F.emin with h | h
  · have : (2 : ℝ) ^ (F.ulp r - 1) ≤ 2 ^ (F.emin - 1) :=
      zpow_le_zpow_right₀ (by norm_num) (by omega)
    have : (0 : ℝ) ≤ 2 ^ (-(F.p : ℤ)) * |r| := by positivity
    linarith
  · have hu : F.ulp r = Int.log 2 |r| - (F.p - 1) := by
      have : F.ulp r = max F.emin (Int.log 2 |r| - (F.p - 1)) := rfl
      omega
    have hr : 0 < |r| := abs_pos.2 hr0
    have := Int.zpow_log_le_self (R := ℝ) (b := 2) (by norm_num) hr
    rw [hu, show Int.log 2 |r| - ((F.p : ℤ) - 1) - 1 = -(F.p : ℤ) + Int.log 2 |r| by ring,
      zpow_add₀ (by norm_num)]
    have h2 := two_zpow_pos (-(F.p : ℤ))
    have h3 := mul_le_mul_of_nonneg_left this h2.le
    push_cast at h3
    linarith

/-- A number that rounding leaves alone is a multiple of the least unit. -/
theorem multiple {r : ℝ} (h : F.nearest r = r) : ∃ m : ℤ, r = m * 2 ^ F.emin := by
  obtain ⟨k, hk⟩ := Int.eq_ofNat_of_zero_le (sub_nonneg.2 (le_max_left F.emin (Int.log 2 |r| - (F.p - 1))))
  refine ⟨rne (r / 2 ^ F.ulp r) * 2 ^ k, ?_⟩
  have e : F.ulp r = k + F.emin := by
    have : F.ulp r = max F.emin (Int.log 2 |r| - (F.p - 1)) := rfl
    omega
  conv_lhs => rw [← h]
  unfold nearest
  rw [e, zpow_add₀ (by norm_num), zpow_natCast]
  push_cast
  ring

/-- Sums of representable numbers lose nothing near zero. -/
theorem nearest_add_rel {x y : ℝ} (hx : F.nearest x = x) (hy : F.nearest y = y) :
    |F.nearest (x + y) - (x + y)| ≤ 2 ^ (-(F.p : ℤ)) * |x + y| := by
  rcases le_or_gt (F.ulp (x + y)) F.emin with h | h
  · have hu : F.ulp (x + y) = F.emin := le_antisymm h (le_max_left ..)
    obtain ⟨m, hm⟩ := F.multiple hx
    obtain ⟨k, hk⟩ := F.multiple hy
    have e : F.nearest (x + y) = x + y := by
      unfold nearest
      rw [hu]
      have h2 := (two_zpow_pos F.emin).ne'
      have : (x + y) / 2 ^ F.emin = ((m + k : ℤ) : ℝ) := by
        rw [hm, hk, ← add_mul, mul_div_assoc, div_self h2, mul_one]
        push_cast
        rfl
      rw [this, rne_int, ← this, div_mul_cancel₀ _ h2]
    rw [e, sub_self, abs_zero]
    positivity
  · have hu : F.ulp (x + y) = Int.log 2 |x + y| - (F.p - 1) := by
      have : F.ulp (x + y) = max F.emin (Int.log 2 |x + y| - (F.p - 1)) := rfl
      omega
    by_cases h0 : x + y = 0
    · rw [h0, nearest_zero, sub_zero, abs_zero, mul_zero]
    refine (F.nearest_err _).trans ?_
    have hr : 0 < |x + y| := abs_pos.2 h0
    have := Int.zpow_log_le_self (R := ℝ) (b := 2) (by norm_num) hr
    have half : (2 : ℝ) ^ F.ulp (x + y) / 2 = 2 ^ (F.ulp (x + y) - 1) := by
      rw [zpow_sub_one₀ (by norm_num)]; rfl
    rw [half, hu, show Int.log 2 |x + y| - ((F.p : ℤ) - 1) - 1 = -(F.p : ℤ) + Int.log 2 |x + y| by ring,
      zpow_add₀ (by norm_num)]
    have h3 := mul_le_mul_of_nonneg_left this (two_zpow_pos (-(F.p : ℤ))).le
    push_cast at h3
    exact h3

end Format

open Spec Machine XReal

variable {M : Machine}

theorem roundoff_pos : 0 < roundoff := Format.two_zpow_pos _
theorem tiny_pos : 0 < tiny := Format.two_zpow_pos _

theorem fin_of_round {x : XReal} {z : ℝ} (h : (M.round x).1 = .fin z) :
    ∃ r, x = .fin r ∧ M.rnd r = .fin z := by
  rcases x with _ | _ | _ | r
  · cases h
  · cases h
  · cases h
  · exact ⟨r, rfl, h⟩

theorem fin_of_add {x y : XReal} {z : ℝ} (h : XReal.add x y = .fin z) :
    ∃ a b, x = .fin a ∧ y = .fin b ∧ z = a + b := by
  cases x <;> cases y <;> simp_all [XReal.add]

theorem fin_of_mul {x y : XReal} {z : ℝ} (h : XReal.mul x y = .fin z) :
    ∃ a b, x = .fin a ∧ y = .fin b ∧ z = a * b := by
  rcases x with _ | _ | _ | a <;> rcases y with _ | _ | _ | b <;> simp only [XReal.mul] at h <;>
    first
    | (cases h; done)
    | (exact ⟨a, b, rfl, rfl, by injection h with h; exact h.symm⟩)
    | (unfold XReal.infSign at h; split_ifs at h)

/-- A finite sum comes from finite numbers and is accurate to one unit roundoff. -/
theorem add_err (hM : M.rnd = binary64Format.rnd) {a b : FP M} {z : ℝ} (h : Is (a +. b) z) :
    ∃ x y, Is a x ∧ Is b y ∧ |z - (x + y)| ≤ roundoff * |x + y| := by
  obtain ⟨r, h1, h2⟩ := fin_of_round ((val_add a b).symm.trans h)
  obtain ⟨x, y, hx, hy, rfl⟩ := fin_of_add h1
  refine ⟨x, y, hx, hy, ?_⟩
  rw [hM] at h2
  have e := (binary64Format.rnd_eq_fin h2).1
  have ex := a.rep x hx
  have ey := b.rep y hy
  rw [hM] at ex ey
  have := binary64Format.nearest_add_rel (binary64Format.nearest_eq_of_rnd ex)
    (binary64Format.nearest_eq_of_rnd ey)
  rwa [e] at this

/-- A finite product comes from finite numbers and is accurate to one unit roundoff, unless it
underflows. -/
theorem mul_err (hM : M.rnd = binary64Format.rnd) {a b : FP M} {z : ℝ} (h : Is (a *. b) z) :
    ∃ x y, Is a x ∧ Is b y ∧ |z - x * y| ≤ roundoff * |x * y| + tiny := by
  obtain ⟨r, h1, h2⟩ := fin_of_round ((val_mul a b).symm.trans h)
  obtain ⟨x, y, hx, hy, rfl⟩ := fin_of_mul h1
  refine ⟨x, y, hx, hy, ?_⟩
  rw [hM] at h2
  have e := (binary64Format.rnd_eq_fin h2).1
  have := binary64Format.nearest_rel (x * y)
  rwa [e] at this

theorem is_fun {a : FP M} {x y : ℝ} (h : Is a x) (h' : Is a y) : x = y := by
  have := h.symm.trans h'
  injection this

/-! ## Sums -/

/-- The relative error of a sum of `k` numbers, in whatever order. -/
theorem sum_step {A B rl rr Sl Sr z u : ℝ} {k l : ℕ} (hu : 0 ≤ u)
    (hl : |rl - Sl| ≤ ((1 + u) ^ k - 1) * A) (hr : |rr - Sr| ≤ ((1 + u) ^ l - 1) * B)
    (hA : |Sl| ≤ A) (hB : |Sr| ≤ B) (hz : |z - (rl + rr)| ≤ u * |rl + rr|) :
    |z - (Sl + Sr)| ≤ ((1 + u) ^ (k + l + 1) - 1) * (A + B) := by
  have hA0 : 0 ≤ A := (abs_nonneg _).trans hA
  have hB0 : 0 ≤ B := (abs_nonneg _).trans hB
  have h1 : |rl| ≤ (1 + u) ^ k * A := by
    have : |rl| ≤ |rl - Sl| + |Sl| := by
      have := abs_add_le (rl - Sl) Sl
      rwa [sub_add_cancel] at this
    nlinarith
  have h2 : |rr| ≤ (1 + u) ^ l * B := by
    have : |rr| ≤ |rr - Sr| + |Sr| := by
      have := abs_add_le (rr - Sr) Sr
      rwa [sub_add_cancel] at this
    nlinarith
  have h3 : |rl + rr| ≤ (1 + u) ^ k * A + (1 + u) ^ l * B := (abs_add_le _ _).trans (add_le_add h1 h2)
  have h4 : |z - (Sl + Sr)| ≤ |z - (rl + rr)| + (|rl - Sl| + |rr - Sr|) := by
    have e : z - (Sl + Sr) = (z - (rl + rr)) + ((rl - Sl) + (rr - Sr)) := by ring
    rw [e]
    exact (abs_add_le _ _).trans (add_le_add_right (abs_add_le _ _) _)
  have h5 : |z - (rl + rr)| ≤ u * ((1 + u) ^ k * A + (1 + u) ^ l * B) :=
    hz.trans (mul_le_mul_of_nonneg_left h3 hu)
  have p1 : (1 + u) ^ (k + 1) ≤ (1 + u) ^ (k + l + 1) := pow_le_pow_right₀ (by linarith) (by omega)
  have p2 : (1 + u) ^ (l + 1) ≤ (1 + u) ^ (k + l + 1) := pow_le_pow_right₀ (by linarith) (by omega)
  have q1 := mul_le_mul_of_nonneg_right p1 hA0
  have q2 := mul_le_mul_of_nonneg_right p2 hB0
  rw [pow_succ] at q1 q2
  nlinarith

theorem abs_sum_le : ∀ l : List ℝ, |l.sum| ≤ (l.map (|·|)).sum
  | [] => by simp
  | a :: l => by
    rw [List.sum_cons, List.map_cons, List.sum_cons]
    exact (abs_add_le _ _).trans (add_le_add_right (abs_sum_le l) _)

/-- A finite sum of floating-point numbers, added in any order, against the exact sum. -/
theorem tree_err (hM : M.rnd = binary64Format.rnd) {x : Nat → FP M} {ξ : Nat → ℝ} :
    ∀ (t : SumTree) (z : ℝ), (∀ i ∈ t.terms, ∀ r, Is (x i) r → r = ξ i) →
      Is (t.eval M.add (M.lit 0) x) z →
      (∀ i ∈ t.terms, Is (x i) (ξ i)) ∧
      |z - (t.terms.map ξ).sum| ≤
        ((1 + roundoff) ^ (t.terms.length - 1) - 1) * ((t.terms.map ξ).map (|·|)).sum
  | .zero, z, _, h => by
    have : z = 0 := is_fun h val_lit_zero
    subst this
    exact ⟨fun i hi => absurd hi List.not_mem_nil, by simp [SumTree.terms]⟩
  | .term i, z, hξ, h => by
    have hz : z = ξ i := hξ i List.mem_cons_self z h
    subst hz
    refine ⟨fun j hj => ?_, by simp [SumTree.terms]⟩
    rw [show j = i from List.mem_singleton.1 hj]
    exact h
  | .add l r, z, hξ, h => by
    obtain ⟨a, b, ha, hb, he⟩ := add_err hM (a := l.eval M.add (M.lit 0) x)
      (b := r.eval M.add (M.lit 0) x) h
    obtain ⟨l1, l2⟩ := tree_err hM l a (fun i hi => hξ i (List.mem_append_left _ hi)) ha
    obtain ⟨r1, r2⟩ := tree_err hM r b (fun i hi => hξ i (List.mem_append_right _ hi)) hb
    refine ⟨fun i hi => (List.mem_append.1 hi).elim (l1 i) (r1 i), ?_⟩
    show |z - ((l.terms ++ r.terms).map ξ).sum| ≤
      ((1 + roundoff) ^ ((l.terms ++ r.terms).length - 1) - 1) * (((l.terms ++ r.terms).map ξ).map (|·|)).sum
    rw [List.map_append, List.sum_append, List.map_append, List.sum_append, List.length_append]
    have hA := abs_sum_le (l.terms.map ξ)
    have hB := abs_sum_le (r.terms.map ξ)
    have hz : (a + b = a ∨ a + b = b) → z = a + b := by
      intro hab
      have h : (l.eval M.add (M.lit 0) x +. r.eval M.add (M.lit 0) x).1 = .fin z := h
      rw [val_add, ha, hb] at h
      have h : M.rnd (a + b) = .fin z := h
      rcases hab with hab | hab <;> rw [hab] at h ⊢
      · rw [(l.eval M.add (M.lit 0) x).rep a ha] at h
        injection h with h
        exact h.symm
      · rw [(r.eval M.add (M.lit 0) x).rep b hb] at h
        injection h with h
        exact h.symm
    rcases Nat.eq_zero_or_pos l.terms.length with hl | hl
    · rw [List.length_eq_zero_iff.1 hl] at l2 ⊢
      simp only [List.map_nil, List.sum_nil, mul_zero, List.length_nil, zero_add, sub_zero,
        abs_nonpos_iff] at l2 ⊢
      rw [hz (Or.inr (by rw [l2, zero_add])), l2, zero_add]
      exact r2
    rcases Nat.eq_zero_or_pos r.terms.length with hr | hr
    · rw [List.length_eq_zero_iff.1 hr] at r2 ⊢
      simp only [List.map_nil, List.sum_nil, mul_zero, List.length_nil, add_zero, sub_zero,
        abs_nonpos_iff] at r2 ⊢
      rw [hz (Or.inl (by rw [r2, add_zero])), r2, add_zero]
      exact l2
    have := sum_step roundoff_pos.le l2 r2 hA hB he
    rwa [show l.terms.length - 1 + (r.terms.length - 1) + 1 = l.terms.length + r.terms.length - 1 by
      omega] at this

theorem is_real {a : FP M} {r : ℝ} (h : Is a r) : real a = r := by
  unfold real
  rw [h]

theorem real_zero' : real (Scalar.zero : FP M) = 0 := is_real val_zero

/-! ## Sums of products -/

theorem products_step {A B S S' z u η : ℝ} {k : ℕ} (hu : 0 ≤ u) (hη : 0 ≤ η)
    (h1 : |z - S| ≤ ((1 + u) ^ k - 1) * B) (h2 : |S - S'| ≤ u * A + (k + 1) * η)
    (h3 : B ≤ (1 + u) * A + (k + 1) * η) :
    |z - S'| ≤ ((1 + u) ^ (k + 1) - 1) * A + (k + 1) * (1 + u) ^ (k + 1) * η := by
  have h4 : |z - S'| ≤ |z - S| + |S - S'| := by
    have := abs_add_le (z - S) (S - S')
    rwa [sub_add_sub_cancel] at this
  have p0 : 1 ≤ (1 + u) ^ k := one_le_pow₀ (by linarith)
  have p1 : (1 + u) ^ k ≤ (1 + u) ^ (k + 1) := pow_le_pow_right₀ (by linarith) (by omega)
  have h5 := mul_le_mul_of_nonneg_left h3 (sub_nonneg.2 p0)
  have h6 : (1 + u) ^ k * ((k + 1) * η) ≤ (1 + u) ^ (k + 1) * ((k + 1) * η) :=
    mul_le_mul_of_nonneg_right p1 (by positivity)
  rw [pow_succ] at h6 ⊢
  nlinarith

theorem list_err {α : Type} {f g : α → ℝ} {u η : ℝ} : ∀ l : List α,
    (∀ a ∈ l, |f a - g a| ≤ u * |g a| + η) →
    |(l.map f).sum - (l.map g).sum| ≤ u * (l.map fun a => |g a|).sum + l.length * η ∧
      (l.map fun a => |f a|).sum ≤ (1 + u) * (l.map fun a => |g a|).sum + l.length * η
  | [], _ => by simp
  | a :: l, h => by
    obtain ⟨h1, h2⟩ := list_err l fun b hb => h b (List.mem_cons_of_mem _ hb)
    have h3 := h a List.mem_cons_self
    simp only [List.map_cons, List.sum_cons, List.length_cons]
    push_cast
    constructor
    · rw [add_sub_add_comm]
      exact (abs_add_le _ _).trans (by linarith)
    · have : |f a| ≤ |f a - g a| + |g a| := by
        have := abs_add_le (f a - g a) (g a)
        rwa [sub_add_cancel] at this
      linarith

/-- A finite sum of rounded products, added in any order, against the exact one. -/
theorem products_err (hM : M.rnd = binary64Format.rnd) (L : List (FP M × FP M)) {t : SumTree}
    (ht : t.terms.Perm (List.range L.length)) {z : ℝ}
    (h : Is (t.eval M.add (M.lit 0) fun i => (L.map fun p => p.1 *. p.2).getD i (M.lit 0)) z) :
    |z - (L.map fun p => real p.1 * real p.2).sum| ≤
      ((1 + roundoff) ^ L.length - 1) * (L.map fun p => |real p.1 * real p.2|).sum +
        L.length * (1 + roundoff) ^ L.length * tiny := by
  obtain ⟨h1, h2⟩ := tree_err hM (ξ := fun i => real ((L.map fun p => p.1 *. p.2).getD i (M.lit 0)))
    t z (fun i _ r hr => (is_real hr).symm) h
  have hget : ∀ i (hi : i < L.length), (L.map fun p => p.1 *. p.2).getD i (M.lit 0) =
      L[i].1 *. L[i].2 := by
    intro i hi
    rw [List.getD_eq_getElem?_getD, List.getElem?_eq_getElem (by rwa [List.length_map]),
      Option.getD_some, List.getElem_map]
  have hrange : (List.range L.length).map
      (fun i => real ((L.map fun p => p.1 *. p.2).getD i (M.lit 0))) =
      L.map fun p => real (p.1 *. p.2) := by
    refine List.ext_getElem (by simp) fun i hi _ => ?_
    rw [List.getElem_map, List.getElem_range, List.getElem_map, hget]
  have hlen : t.terms.length = L.length := by rw [ht.length_eq, List.length_range]
  rw [hlen, (ht.map _).sum_eq, ((ht.map _).map _).sum_eq, hrange, List.map_map] at h2
  have hprod : ∀ p ∈ L, |real (p.1 *. p.2) - real p.1 * real p.2| ≤
      roundoff * |real p.1 * real p.2| + tiny := by
    intro p hp
    obtain ⟨i, hi, rfl⟩ := List.mem_iff_getElem.1 hp
    have := h1 i (ht.mem_iff.2 (List.mem_range.2 hi))
    rw [hget i hi] at this
    obtain ⟨x, y, hx, hy, he⟩ := mul_err hM this
    rwa [is_real hx, is_real hy]
  obtain ⟨h3, h4⟩ := list_err L hprod
  rcases Nat.eq_zero_or_pos L.length with h0 | h0
  · rw [List.length_eq_zero_iff.1 h0] at h2 ⊢
    simpa using h2
  · obtain ⟨k, hk⟩ : ∃ k, L.length = k + 1 := ⟨L.length - 1, by omega⟩
    rw [hk] at h2 h3 h4 ⊢
    push_cast at h2 h3 h4 ⊢
    exact products_step roundoff_pos.le tiny_pos.le h2 h3 h4

/-- The order of a left fold. -/
def leftTree : Nat → SumTree
  | 0 => .zero
  | k + 1 => .add (leftTree k) (.term k)

theorem leftTree_terms : ∀ n, (leftTree n).terms = List.range n
  | 0 => rfl
  | k + 1 => by
    rw [List.range_succ, ← leftTree_terms k]; rfl

theorem eval_congr {x y : Nat → FP M} : ∀ t : SumTree, (∀ i ∈ t.terms, x i = y i) →
    t.eval M.add (M.lit 0) x = t.eval M.add (M.lit 0) y
  | .zero, _ => rfl
  | .term i, h => h i List.mem_cons_self
  | .add l r, h => by
    show M.add _ _ = M.add _ _
    rw [eval_congr l fun i hi => h i (List.mem_append_left _ hi),
      eval_congr r fun i hi => h i (List.mem_append_right _ hi)]

theorem foldl_tree {α : Type} (g : α → FP M) (l : List α) :
    l.foldl (fun acc e => acc +. g e) Scalar.zero =
      (leftTree l.length).eval M.add (M.lit 0) fun i => (l.map g).getD i (M.lit 0) := by
  induction l using List.reverseRecOn with
  | nil => exact fp_ext (val_zero.trans val_lit_zero.symm)
  | append_singleton l a ih =>
    rw [List.foldl_append, List.length_append, ih]
    show M.add _ _ = M.add ((leftTree l.length).eval M.add (M.lit 0) _) _
    congr 1
    · refine eval_congr _ fun i hi => ?_
      rw [leftTree_terms, List.mem_range] at hi
      rw [List.map_append, List.getD_eq_getElem?_getD, List.getD_eq_getElem?_getD,
        List.getElem?_append_left (by rwa [List.length_map])]
    · show g a = ((l ++ [a]).map g).getD l.length (M.lit 0)
      rw [List.map_append, List.getD_eq_getElem?_getD,
        List.getElem?_append_right (by rw [List.length_map]), List.length_map, Nat.sub_self]
      rfl

theorem sum_zip (f : FP M → FP M → ℝ) : ∀ (xs ys : List (FP M)), xs.length = ys.length →
    ((xs.zip ys).map fun p => f p.1 p.2).sum =
      ∑ i ∈ Finset.range xs.length, f (entry xs i) (entry ys i)
  | [], [], _ => by simp
  | x :: xs, y :: ys, h => by
    rw [List.length_cons, List.length_cons, Nat.add_right_cancel_iff] at h
    rw [List.zip_cons_cons, List.map_cons, List.sum_cons, sum_zip f xs ys h, List.length_cons,
      Finset.sum_range_succ', add_comm]
    rfl

/-- Products added in any order, against the exact inner product. -/
theorem dense_err (hM : M.rnd = binary64Format.rnd) {n : Nat} {da w : List (FP M)} (hd : da.length = n)
    (hw : w.length = n) {t : SumTree} (ht : t.terms.Perm (List.range n)) {z : ℝ}
    (hz : Is (t.eval M.add (M.lit 0) fun i => (List.zipWith M.mul da w).getD i (M.lit 0)) z) :
    |z - exactDot (.dense da) w| ≤ ((1 + roundoff) ^ n - 1) * absDot (.dense da) w +
      n * (1 + roundoff) ^ n * tiny := by
  have hlen : (da.zip w).length = n := by rw [List.length_zip, hd, hw, min_self]
  have h := products_err hM (da.zip w) (t := t) (by rw [hlen]; exact ht) (z := z) (by
    have e : (da.zip w).map (fun p => p.1 *. p.2) = List.zipWith M.mul da w := by
      rw [List.zip, List.map_zipWith]; rfl
    rw [e]
    exact hz)
  have hsum : ∀ f : ℝ → ℝ, ((da.zip w).map fun p => f (real p.1 * real p.2)).sum =
      ∑ i ∈ Finset.range n, f (real (value (.dense da) i) * real (entry w i)) := by
    intro f
    rw [← hd]
    exact sum_zip (fun a b => f (real a * real b)) da w (hd.trans hw.symm)
  rw [hlen, hsum (fun x => x), hsum (fun x => |x|)] at h
  unfold exactDot absDot
  rw [show dim (.dense da) = n from hd]
  exact h

/-- A finite inner product against the exact one. -/
theorem dot_err (hM : M.rnd = binary64Format.rnd) {n : Nat} {φ : Features (FP M)} (hφ : Fits n φ)
    {w : List (FP M)} (hw : w.length = n) {v : FP M} (hv : φ.dot w = .ok v) {z : ℝ} (hz : Is v z) :
    |z - exactDot φ w| ≤ ((1 + roundoff) ^ storedCount φ - 1) * absDot φ w +
      storedCount φ * (1 + roundoff) ^ storedCount φ * tiny := by
  obtain ⟨hwf, hd⟩ := hφ
  cases φ with
  | dense da =>
    have hd : da.length = n := hd
    have hv : arrayDot da w = .ok v := hv
    unfold arrayDot at hv
    rw [if_pos (hd.trans hw.symm)] at hv
    injection hv with hv
    subst hv
    unfold storedCount
    simp only [hd]
    refine dense_err hM hd hw (M.dotTree_terms n) ?_
    have hz : Is ((M.dotTree (min da.length w.length)).eval M.add (M.lit 0) fun i =>
      (List.zipWith M.mul da w).getD i (M.lit 0)) z := hz
    rwa [hd, hw, min_self] at hz
  | sparse sa =>
    have hd : sa.dim = n := hd
    have hlt : ∀ e ∈ sa.activations, e.1 < n := fun e he => hd ▸ hwf.2 e he
    have hv : Features.dotSparse sa w = .ok v := hv
    rw [dotSparse_ok fun e he => hw ▸ hlt e he] at hv
    injection hv with hv
    subst hv
    have hz : Is (sa.activations.foldl (fun acc e => acc +. entry w e.1 *. e.2) Scalar.zero) z := hz
    rw [foldl_tree] at hz
    have h := products_err hM (sa.activations.map fun e => (entry w e.1, e.2))
      (t := leftTree sa.activations.length) (by rw [leftTree_terms, List.length_map]) (z := z) (by
      rw [List.map_map]; exact hz)
    have hsum : ∀ f : ℝ → ℝ, f 0 = 0 → ((sa.activations.map fun e => (entry w e.1, e.2)).map
        fun p => f (real p.1 * real p.2)).sum =
        ∑ i ∈ Finset.range n, f (real (value (.sparse sa) i) * real (entry w i)) := by
      intro f h0
      rw [List.map_map]
      have := sum_entries_eq (fun i a => f (real (entry w i) * a)) (fun i => by rw [mul_zero, h0]) n
        (sa.activations.map fun e => (e.1, real e.2)) (HMap.nodupKeys_map real hwf.1) (by
          intro e he
          obtain ⟨e', he', rfl⟩ := List.mem_map.1 he
          exact hlt e' he')
      rw [List.map_map] at this
      refine this.trans (Finset.sum_congr rfl fun i _ => ?_)
      rw [value_sparse, HMap.get?_map, mul_comm]
      cases HMap.get? sa.activations i
      · show f (0 * _) = f (real Scalar.zero * _)
        rw [real_zero']
      · rfl
    rw [List.length_map, hsum (fun x => x) rfl, hsum (fun x => |x|) abs_zero] at h
    unfold exactDot absDot storedCount
    rw [show dim (.sparse sa) = n from hd]
    exact h

/-- The same for a column of a matrix. -/
theorem dotColumn_err (hM : M.rnd = binary64Format.rnd) (m : Nat) {n : Nat} {φ : Features (FP M)} (hφ : Fits n φ)
    {w : List (FP M)} (hw : w.length = n) {v : FP M} (hv : φ.dotColumn m w = .ok v) {z : ℝ} (hz : Is v z) :
    |z - exactDot φ w| ≤ ((1 + roundoff) ^ storedCount φ - 1) * absDot φ w +
      storedCount φ * (1 + roundoff) ^ storedCount φ * tiny := by
  cases φ with
  | sparse sa => exact dot_err hM hφ hw hv hz
  | dense da =>
    rw [dotColumn_dense] at hv
    split_ifs at hv
    · exact dot_err hM hφ hw hv hz
    · have hd : da.length = n := hφ.2
      unfold Features.stridedDot at hv
      rw [if_pos (hd.trans hw.symm)] at hv
      injection hv with hv
      subst hv
      unfold storedCount
      simp only [hd]
      refine dense_err hM hd hw (t := leftTree n) (by rw [leftTree_terms]) ?_
      have hl : (List.zipWith M.mul da w).length = n := by rw [List.length_zipWith, hd, hw, min_self]
      have := foldl_tree (M := M) (fun p => p) (List.zipWith M.mul da w)
      rw [hl, List.map_id'] at this
      rw [← this]
      exact hz

end Lfa

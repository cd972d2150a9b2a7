import Verif.Proofs.Scatter
import Mathlib.Algebra.BigOperators.Intervals
import Mathlib.Algebra.Order.BigOperators.Group.Finset
import Mathlib.Tactic.Ring
import Mathlib.Tactic.Linarith
import Mathlib.Tactic.NormNum
import Mathlib.Tactic.Positivity

/-! # The model over the exact reals: unfolding the operations, sums -/

namespace Lfa

open Spec

@[simp] theorem real_add (a b : ℝ) : (a +. b) = a + b := rfl
@[simp] theorem real_sub (a b : ℝ) : (a -. b) = a - b := rfl
@[simp] theorem real_mul (a b : ℝ) : (a *. b) = a * b := rfl
@[simp] theorem real_div (a b : ℝ) : (a /. b) = a / b := rfl
@[simp] theorem real_neg (a : ℝ) : Scalar.neg a = -a := rfl
@[simp] theorem real_abs (a : ℝ) : Scalar.abs a = |a| := rfl
@[simp] theorem real_sqrt (a : ℝ) : Scalar.sqrt a = Real.sqrt a := rfl
@[simp] theorem real_exp (a : ℝ) : Scalar.exp a = Real.exp a := rfl
@[simp] theorem real_cos (a : ℝ) : Scalar.cos a = Real.cos a := rfl
@[simp] theorem real_ln1p (a : ℝ) : Scalar.ln1p a = Real.log (1 + a) := rfl
@[simp] theorem real_lt (a b : ℝ) : Scalar.lt a b = decide (a < b) := rfl
@[simp] theorem real_beq (a b : ℝ) : Scalar.beq a b = decide (a = b) := rfl
@[simp] theorem real_max (a b : ℝ) : Scalar.max a b = max a b := rfl
@[simp] theorem real_powi (a : ℝ) (n : Nat) : Scalar.powi a n = a ^ n := rfl
@[simp] theorem real_ofNat (n : Nat) : (Scalar.ofNat n : ℝ) = (n : ℝ) := rfl
@[simp] theorem real_sci (m e : Nat) : (Scalar.sci m e : ℝ) = (m : ℝ) / 10 ^ e := rfl
@[simp] theorem real_pi : (Scalar.pi : ℝ) = Real.pi := rfl
@[simp] theorem real_dot (xs ys : List ℝ) :
    Scalar.dot xs ys = (List.zipWith (· * ·) xs ys).sum := rfl
@[simp] theorem real_sum (xs : List ℝ) : Scalar.sum xs = xs.sum := rfl
@[simp] theorem real_zero : (Scalar.zero : ℝ) = 0 := Nat.cast_zero
@[simp] theorem real_one : (Scalar.one : ℝ) = 1 := Nat.cast_one

theorem foldl_add_eq (g : ℝ → ℝ) (l : List ℝ) (z : ℝ) :
    l.foldl (fun acc x => acc + g x) z = z + (l.map g).sum := by
  induction l generalizing z with
  | nil => simp
  | cons a l ih => simp only [List.foldl_cons, ih, List.map_cons, List.sum_cons]; ring

theorem sum_zipWith_eq (f : ℝ → ℝ → ℝ) : ∀ (xs ys : List ℝ), xs.length = ys.length →
    (List.zipWith f xs ys).sum =
      ∑ i ∈ Finset.range xs.length, f (xs.getD i 0) (ys.getD i 0)
  | [], [], _ => by simp
  | x :: xs, y :: ys, h => by
    rw [List.length_cons, List.length_cons, Nat.add_right_cancel_iff] at h
    rw [List.zipWith_cons_cons, List.sum_cons, sum_zipWith_eq f xs ys h, List.length_cons,
      Finset.sum_range_succ', add_comm]
    rfl

theorem sum_map_eq (g : ℝ → ℝ) (xs : List ℝ) :
    (xs.map g).sum = ∑ i ∈ Finset.range xs.length, g (xs.getD i 0) := by
  induction xs with
  | nil => simp
  | cons x xs ih =>
    rw [List.map_cons, List.sum_cons, ih, List.length_cons, Finset.sum_range_succ', add_comm]
    rfl

/-- A sum over the stored entries is a sum over all indices. -/
theorem sum_entries_eq (h : Nat → ℝ → ℝ) (h0 : ∀ i, h i 0 = 0) (n : Nat) (m : HMap ℝ)
    (hn : m.NodupKeys) (hr : ∀ e ∈ m, e.1 < n) :
    (m.map fun e => h e.1 e.2).sum =
      ∑ i ∈ Finset.range n, h i ((m.get? i).getD 0) := by
  induction m with
  | nil => simp [h0]
  | cons e m ih =>
    unfold HMap.NodupKeys at hn
    rw [List.map_cons, List.nodup_cons] at hn
    have he : e.1 < n := hr e List.mem_cons_self
    have hg : HMap.get? m e.1 = none := (HMap.get?_eq_none_iff _ _).2 hn.1
    rw [List.map_cons, List.sum_cons, ih hn.2 fun e' h' => hr e' (List.mem_cons_of_mem _ h')]
    have : ∀ i ∈ Finset.range n, h i ((HMap.get? (e :: m) i).getD 0) =
        (if e.1 = i then h e.1 e.2 else 0) + h i ((HMap.get? m i).getD 0) := by
      intro i _
      rw [HMap.get?_cons]
      by_cases hi : i = e.1
      · subst hi; simp [hg, h0]
      · rw [if_neg hi, if_neg (Ne.symm hi)]; simp
    rw [Finset.sum_congr rfl this, Finset.sum_add_distrib, Finset.sum_ite_eq, if_pos
      (Finset.mem_range.2 he)]

end Lfa

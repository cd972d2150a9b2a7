import Verif.Model.Binary64

/-!
# The order in which `ndarray` adds

`ArrayBase::dot` of two contiguous operands and `ArrayBase::sum` of a contiguous array (`ndarray` 0.15, `unrolled_dot` and
`unrolled_fold` in `numeric_util.rs`; not part of /repo) keep eight accumulators. The theorems about rounding hold for any order;
this one shows that they speak about the code as built, and where the order matters.
-/

namespace Lfa

/-- The accumulator of the elements `k`, `k + 8`, `k + 16`, … of the first `q` blocks. -/
def lane (k : Nat) : Nat → SumTree
  | 0 => .zero
  | q + 1 => .add (lane k q) (.term (8 * q + k))

/-- The eight accumulators after `q` blocks, added up. -/
def lanes (q : Nat) : SumTree :=
  .add (.add (.add (.add .zero (.add (lane 0 q) (lane 4 q))) (.add (lane 1 q) (lane 5 q))) (.add (lane 2 q) (lane 6 q)))
    (.add (lane 3 q) (lane 7 q))

/-- The elements left over are added one by one. -/
def leftover (q : Nat) : Nat → SumTree
  | 0 => lanes q
  | r + 1 => .add (leftover q r) (.term (8 * q + r))

/-- The order for `n` elements. -/
def unrolled (n : Nat) : SumTree := leftover (n / 8) (n % 8)

theorem lanes_terms (q : Nat) : (lanes q).terms.Perm (List.range (8 * q)) := by
  induction q with
  | zero => exact List.Perm.refl _
  | succ q ih =>
    rw [List.perm_iff_count] at ih ⊢
    intro a
    have ih := ih a
    rw [show 8 * (q + 1) = 8 * q + 1 + 1 + 1 + 1 + 1 + 1 + 1 + 1 by ring]
    simp only [List.range_succ, List.count_append, lanes, lane, SumTree.terms, List.nil_append] at ih ⊢
    simp only [Nat.add_assoc, Nat.add_zero] at ih ⊢
    omega

theorem leftover_terms (q r : Nat) : (leftover q r).terms.Perm (List.range (8 * q + r)) := by
  induction r with
  | zero => exact lanes_terms q
  | succ r ih =>
    rw [← Nat.add_assoc, List.range_succ]
    exact ih.append_right _

theorem unrolled_terms (n : Nat) : (unrolled n).terms.Perm (List.range n) := by
  have := leftover_terms (n / 8) (n % 8)
  rwa [Nat.div_add_mod] at this

/-- `f64` with these orders. -/
noncomputable def binary64Unrolled : Machine :=
  { binary64 with
    sumTree := unrolled
    sumTree_terms := unrolled_terms
    dotTree := unrolled
    dotTree_terms := unrolled_terms }

end Lfa

import Verif.Model.Unrolled
import Verif.Props.C140
import Verif.Props.C150
import Verif.Props.C93_C94

/-!
# C150 in `f64`: where the order of summation matters

With dense features and several outputs the equivalence is not exact in `f64`. Up to seven features both orders agree.
-/

set_option linter.unusedSectionVars false

namespace Lfa

open Spec Machine XReal

variable {M : Machine}

theorem is_add_of {a b : FP M} {x y z : ℝ} (ha : Is a x) (hb : Is b y) (h : M.rnd (x + y) = .fin z) :
    Is (a +. b) z := by
  show (_ +. _ : FP M).1 = _
  rw [val_add, show a.1 = .fin x from ha, show b.1 = .fin y from hb]
  exact h

theorem lit_zero' : M.lit 0 = (Scalar.zero : FP M) := fp_ext (val_lit_zero.trans val_zero.symm)

theorem fp_add_zero (a : FP M) : a +. Scalar.zero = a := by rw [fp_add_comm, fp_zero_add]

/-- Below eight features the unrolled loop does not run: the products are added from left to right. -/
theorem dot_short (hT : M.dotTree = unrolled) {xs ys : List (FP M)} (h : xs.length = ys.length) (h8 : xs.length < 8) :
    inTurn xs ys = Scalar.dot xs ys := by
  have hl : (List.zipWith M.mul xs ys).length = xs.length := by rw [List.length_zipWith, ← h, min_self]
  have e := foldl_tree (M := M) (fun p => p) (List.zipWith M.mul xs ys)
  rw [hl, List.map_id'] at e
  show List.foldl _ _ (List.zipWith M.mul xs ys) = SumTree.eval M.add (M.lit 0) _ (M.dotTree (min xs.length ys.length))
  rw [← h, min_self, hT]
  refine e.trans ?_
  unfold unrolled
  rw [Nat.div_eq_of_lt h8, Nat.mod_eq_of_lt h8]
  generalize xs.length = n
  induction n with
  | zero =>
    show M.lit 0 = _
    simp only [leftover, lanes, lane, SumTree.eval]
    have : M.add (M.lit 0) (M.lit 0) = M.lit 0 := by
      rw [lit_zero']; exact fp_zero_add _
    simp only [this]
  | succ n ih =>
    show M.add ((leftTree n).eval _ _ _) _ = M.add ((leftover 0 n).eval _ _ _) _
    rw [ih]
    simp [SumTree.eval]

/-- With at most seven features, vector and scalar approximators with the same weights predict the same in `f64`. -/
theorem C150_seven_features {B O I : Type} [Space B] [Basis B I (FP M)] (hT : M.dotTree = unrolled)
    (fv : VectorLFA B O (FP M)) (x : I) (φ : Features (FP M)) (hp : Basis.project fv.basis x = .ok (.ok φ))
    (h7 : dim φ ≤ 7) (j : Nat) (hj : j < fv.nOutputs) :
    fv.evaluateIndex x j = ScalarLFA.evaluate (output fv j) x := by
  have hc := getElem?_getD (l := fv.weights) (j := j) [] hj
  rw [vector_evaluateIndex_eq hp hc, scalar_evaluate_eq (fa := output fv j) hp]
  congr 1
  show _ = φ.dot (fv.weights.getD j [])
  generalize fv.weights.getD j [] = c
  cases φ with
  | sparse sa => rfl
  | dense da =>
    rw [dotColumn_dense]
    split_ifs
    · rfl
    · show Features.stridedDot da c = arrayDot da c
      unfold Features.stridedDot arrayDot
      split_ifs with hl
      · rw [← dot_short hT hl (Nat.lt_succ_of_le h7)]; rfl
      · rfl

/-- Eight features of value 1 and the weights 2⁵⁴, 1, 0, 0, -2⁵⁴, 0, 0, 0. -/
noncomputable def lopsided (M : Machine) : List (FP M) :=
  [M.lit (2 ^ 54), Scalar.one, Scalar.zero, Scalar.zero, M.lit (-2 ^ 54), Scalar.zero, Scalar.zero, Scalar.zero]

theorem ones_mul (w : List (FP M)) : List.zipWith (fun x y => x *. y) (List.replicate w.length Scalar.one) w = w := by
  induction w with
  | nil => rfl
  | cons a w ih =>
    rw [List.length_cons, List.replicate_succ, List.zipWith_cons_cons, ih, fp_one_mul]

theorem lopsided_inTurn (hM : M.rnd = binary64Format.rnd) :
    Is (inTurn (List.replicate 8 Scalar.one) (lopsided M)) 0 := by
  unfold inTurn
  rw [show (8 : Nat) = (lopsided M).length from rfl, ones_mul]
  show Is (Scalar.zero +. M.lit (2 ^ 54) +. Scalar.one +. Scalar.zero +. Scalar.zero +. M.lit (-2 ^ 54) +. Scalar.zero +.
    Scalar.zero +. Scalar.zero) 0
  simp only [fp_add_zero, fp_zero_add]
  refine is_add_of (is_add_of (is_lit54 hM) val_one (rnd54_low hM (by norm_num) (by norm_num))) (is_lit_neg54 hM) ?_
  rw [add_neg_cancel]
  exact rnd_zero

theorem lopsided_dot (hM : M.rnd = binary64Format.rnd) (hT : M.dotTree = unrolled) :
    Is (Scalar.dot (List.replicate 8 Scalar.one) (lopsided M)) 1 := by
  have e : Scalar.dot (List.replicate 8 Scalar.one) (lopsided M) =
      (unrolled 8).eval M.add (M.lit 0) fun i => (lopsided M).getD i (M.lit 0) := by
    show (M.dotTree 8).eval M.add (M.lit 0) (fun i => (List.zipWith M.mul (List.replicate 8 Scalar.one) (lopsided M)).getD i
      (M.lit 0)) = _
    rw [hT]
    congr 1
    funext i
    congr 1
    exact ones_mul (lopsided M)
  rw [e, lit_zero']
  show Is (Scalar.zero +. ((Scalar.zero +. M.lit (2 ^ 54)) +. (Scalar.zero +. M.lit (-2 ^ 54))) +.
    ((Scalar.zero +. Scalar.one) +. (Scalar.zero +. Scalar.zero)) +.
    ((Scalar.zero +. Scalar.zero) +. (Scalar.zero +. Scalar.zero)) +.
    ((Scalar.zero +. Scalar.zero) +. (Scalar.zero +. Scalar.zero))) 1
  simp only [fp_add_zero, fp_zero_add]
  refine is_add_of (is_add_of (is_lit54 hM) (is_lit_neg54 hM) (z := 0) ?_) val_one ?_
  · rw [add_neg_cancel]
    exact rnd_zero
  · rw [zero_add]
    exact M.rnd_one

/-- Eight dense features: the first of two outputs predicts 0 where a scalar approximator with the same weights predicts 1. -/
theorem C150_order_matters (hM : M.rnd = binary64Format.rnd) (hT : M.dotTree = unrolled) {O : Type} (o : O)
    (c : List (FP M)) (hc : c.length = 8) (x : List (FP M)) :
    ∃ (fv : VectorLFA (FixedDense (FP M)) O (FP M)) (vs : List (FP M)) (v : FP M),
      fv.weights = [lopsided M, c] ∧ fv.optimiser = o ∧ fv.evaluate x = .ok (.ok vs) ∧
      (output fv 0).evaluate x = .ok (.ok v) ∧ Is (entry vs 0) 0 ∧ Is v 1 := by
  let b : FixedDense (FP M) := ⟨List.replicate 8 Scalar.one⟩
  have hp : Basis.project b x = .ok (.ok (.dense (List.replicate 8 (Scalar.one : FP M)))) := rfl
  refine ⟨⟨b, [lopsided M, c], o⟩, [inTurn (List.replicate 8 Scalar.one) (lopsided M), inTurn (List.replicate 8 Scalar.one) c],
    Scalar.dot (List.replicate 8 Scalar.one) (lopsided M), rfl, rfl, ?_, ?_, lopsided_inTurn hM, lopsided_dot hM hT⟩
  · rw [vector_evaluate_eq (fa := LFA.mk b [lopsided M, c] o) hp]
    have hd : ∀ w : List (FP M), w.length = 8 → (Features.dense (List.replicate 8 (Scalar.one : FP M))).dotColumn 2 w =
        .ok (inTurn (List.replicate 8 Scalar.one) w) := by
      intro w hw
      rw [dotColumn_dense, if_neg (by rw [hw]; decide)]
      unfold Features.stridedDot
      rw [if_pos (by rw [List.length_replicate, hw])]
      rfl
    show Except.map _ (List.mapM (fun w => (Features.dense (List.replicate 8 (Scalar.one : FP M))).dotColumn 2 w)
      [lopsided M, c]) = _
    rw [List.mapM_cons, List.mapM_cons, List.mapM_nil, hd _ rfl, hd _ hc]
    rfl
  · rw [scalar_evaluate_eq (fa := output (LFA.mk b [lopsided M, c] o) 0) hp]
    rfl

/-- So `f64` with `ndarray`'s orders is not an arithmetic in which the order does not matter. -/
example : ¬ OneOrder (FP binary64Unrolled) := by
  intro h
  have h0 := lopsided_inTurn (M := binary64Unrolled) rfl
  rw [h (List.replicate 8 Scalar.one) (lopsided binary64Unrolled) rfl] at h0
  have h1 := lopsided_dot (M := binary64Unrolled) rfl rfl
  have := h0.symm.trans h1
  injection this with this
  norm_num at this

end Lfa

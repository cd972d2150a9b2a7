import Verif.Props.C166
import Verif.Props.C189
import Verif.Props.C150Order

/-!
# C166, C189 — more on comparing bases
-/

set_option linter.unusedSectionVars false

namespace Lfa

open Spec Machine XReal

section Order
variable {M : Machine}

/-- The weights 2⁵⁴, 1 and -2⁵⁴. -/
noncomputable def seesaw (M : Machine) : List (FP M) := [M.lit (2 ^ 54), Scalar.one, M.lit (-2 ^ 54)]

/-- Two bases that are `==`, with the same weights: one predicts 0, the other 1. -/
theorem C189_order_matters (hM : M.rnd = binary64Format.rnd) {O : Type} (o : O) (x : List (FP M)) :
    ∃ (a b : FixedSparse (FP M)) (v u : FP M), PartialEq.eq a b = true ∧
      ScalarLFA.evaluate (LFA.mk a (seesaw M) o) x = .ok (.ok v) ∧ Is v 0 ∧
      ScalarLFA.evaluate (LFA.mk b (seesaw M) o) x = .ok (.ok u) ∧ Is u 1 := by
  have p : ∀ s : List Nat, Basis.project (⟨3, s⟩ : FixedSparse (FP M)) x =
      .ok (.ok (.sparse ⟨3, HMap.collect (s.map fun i => (i, Scalar.one))⟩ : Features (FP M))) := fun _ => rfl
  refine ⟨⟨3, [0, 1, 2]⟩, ⟨3, [0, 2, 1]⟩, Scalar.zero +. M.lit (2 ^ 54) *. Scalar.one +. Scalar.one *. Scalar.one +.
    M.lit (-2 ^ 54) *. Scalar.one, Scalar.zero +. M.lit (2 ^ 54) *. Scalar.one +. M.lit (-2 ^ 54) *. Scalar.one +.
    Scalar.one *. Scalar.one, rfl, ?_, ?_, ?_, ?_⟩
  · rw [scalar_evaluate_eq (fa := LFA.mk _ (seesaw M) o) (p _)]
    rfl
  · simp only [mul_comm_fp _ (Scalar.one : FP M), fp_one_mul, fp_zero_add]
    refine is_add_of (is_add_of (is_lit54 hM) val_one (rnd54_low hM (by norm_num) (by norm_num))) (is_lit_neg54 hM) ?_
    rw [add_neg_cancel]
    exact rnd_zero
  · rw [scalar_evaluate_eq (fa := LFA.mk _ (seesaw M) o) (p _)]
    rfl
  · simp only [mul_comm_fp _ (Scalar.one : FP M), fp_one_mul, fp_zero_add]
    refine is_add_of (is_add_of (is_lit54 hM) (is_lit_neg54 hM) (z := 0) ?_) val_one ?_
    · rw [add_neg_cancel]
      exact rnd_zero
    · rw [zero_add]
      exact M.rnd_one

end Order

variable {M : Machine} {Z : ZeroChoice}

instance {T : Type} [NoNaN T] : NoNaN (TileCoding T) := ⟨fun b => NoNaN.everyNumber b.hasherBuilder⟩

/-- Tile codings inherit the laws of `==` from their hashers. -/
theorem C166_tile_coding_laws {T : Type} [PartialEq T] [NoNaN T] (h : PartialEquivalence T) : PartialEquivalence (TileCoding T) :=
  (h.prod (PartialEquivalence.nat.prod PartialEquivalence.nat)).of (fun b => (b.hasherBuilder, b.nTilings, b.memorySize))
    (fun _ _ => Bool.and_assoc ..) fun _ => ⟨fun h => ⟨h, trivial, trivial⟩, fun h => h.1⟩

/-- Chebyshev bases inherit symmetry and transitivity from the comparison of function addresses. -/
theorem C166_chebyshev_laws {same : (SFP M Z → SFP M Z) → (SFP M Z → SFP M Z) → Bool} (hs : ∀ f g, same f g = same g f)
    (ht : ∀ f g k, same f g = true → same g k = true → same f k = true) (a b c : Chebyshev (SFP M Z)) :
    a.eqBy same b = b.eqBy same a ∧ (a.eqBy same b = true → b.eqBy same c = true → a.eqBy same c = true) := by
  let i1 : PartialEq (SFP M Z → SFP M Z) := ⟨same⟩
  let i2 : NoNaN (SFP M Z → SFP M Z) := ⟨fun f => same f f = true⟩
  have hf : PartialEquivalence (SFP M Z → SFP M Z) := ⟨hs, ht, fun _ => Iff.rfl⟩
  have n := PartialEquivalence.number (M := M) (Z := Z)
  have key := PartialEquivalence.nat.prod ((n.prod n).list.prod hf.list.list)
  have e : ∀ a b : Chebyshev (SFP M Z), a.eqBy same b =
      PartialEq.eq (a.order, a.limits, a.polynomials) (b.order, b.limits, b.polynomials) := fun a b => Bool.and_assoc ..
  rw [e, e, e, e]
  exact ⟨key.symm _ _, key.trans _ _ _⟩

end Lfa

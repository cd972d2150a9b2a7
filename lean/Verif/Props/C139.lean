import Verif.Model.Layout
import Verif.Proofs.OptimReal

/-!
# C139: what the memory layout of an array does
-/

set_option linter.unusedSectionVars false

namespace Lfa

open Spec

variable {K : Type}

namespace Arr

theorem valid_std (l : List K) : (std l).Valid := by
  intro i hi
  simp only [std, pos] at hi ⊢
  omega

theorem toList_eq {a : Arr K} (h : a.Valid) :
    a.toList = (List.range a.len).pmap (fun i hi => a.buf[(a.pos i).toNat]'(by
      have := h i hi
      omega)) (by simp) := by
  unfold toList
  apply List.ext_getElem?
  intro i
  have key : ∀ l : List Nat, (hl : ∀ i ∈ l, i < a.len) →
      l.filterMap (fun i => a.buf[(a.pos i).toNat]?) =
        l.pmap (fun i hi => a.buf[(a.pos i).toNat]'(by have := h i hi; omega)) hl := by
    intro l hl
    induction l with
    | nil => rfl
    | cons j l ih =>
      have hj := h j (hl j (by simp))
      rw [List.filterMap_cons, List.getElem?_eq_getElem (by omega)]
      simp only [List.pmap_cons]
      rw [ih]
  rw [key _ (by simp)]

theorem length_toList {a : Arr K} (h : a.Valid) : a.toList.length = a.len := by
  rw [toList_eq h]
  simp

theorem getElem?_toList {a : Arr K} (h : a.Valid) {i : Nat} (hi : i < a.len) :
    a.toList[i]? = a.buf[(a.pos i).toNat]? := by
  rw [toList_eq h]
  have := h i hi
  rw [List.getElem?_eq_getElem (by simpa using hi), List.getElem?_eq_getElem (by omega)]
  simp

theorem toList_std (l : List K) : (std l).toList = l := by
  apply List.ext_getElem?
  intro i
  by_cases hi : i < l.length
  · rw [getElem?_toList (valid_std l) (by simpa [std] using hi)]
    simp [std, pos]
  · rw [List.getElem?_eq_none (by rw [length_toList (valid_std l)]; simpa [std] using hi),
      List.getElem?_eq_none (by omega)]

theorem asSlice_eq {a : Arr K} (h : a.Valid) (hs : a.isStandard = true) : a.asSlice = some a.toList := by
  unfold asSlice
  rw [if_pos hs]
  congr 1
  apply List.ext_getElem?
  intro i
  by_cases hi : i < a.len
  · rw [getElem?_toList h hi, List.getElem?_take, if_pos hi, List.getElem?_drop]
    congr 1
    simp only [isStandard, Bool.or_eq_true, beq_iff_eq, decide_eq_true_eq] at hs
    unfold pos
    rcases hs with hs | hs
    · rw [hs]
      omega
    · have : i = 0 := by omega
      subst this
      simp
  · rw [List.getElem?_eq_none (by rw [List.length_take]; omega),
      List.getElem?_eq_none (by rw [length_toList h]; omega)]

/-- The buffer holds the elements in logical order, with nothing before, between or after. -/
def InOrder (a : Arr K) : Prop := a.buf = a.toList

theorem inOrder_std (l : List K) : (std l).InOrder := (toList_std l).symm

end Arr

/-- A buffer of distinct values is in order just when it holds every element at its own index. -/
theorem C139_in_order_iff {a : Arr K} (h : a.Valid) (hd : a.buf.Nodup) :
    a.InOrder ↔ a.len = a.buf.length ∧ ∀ i < a.len, a.pos i = i := by
  constructor
  · intro ho
    have hl : a.buf.length = a.len := by
      have := congrArg List.length ho
      rwa [Arr.length_toList h] at this
    refine ⟨hl.symm, fun i hi => ?_⟩
    have hv := h i hi
    have := Arr.getElem?_toList h hi
    rw [← ho] at this
    have := (List.getElem?_inj (by omega) hd).1 this
    omega
  · rintro ⟨hl, hp⟩
    refine List.ext_getElem? fun i => ?_
    by_cases hi : i < a.len
    · rw [Arr.getElem?_toList h hi, hp i hi]
      rfl
    · rw [List.getElem?_eq_none (by omega), List.getElem?_eq_none (by rw [Arr.length_toList h]; omega)]

/-- `invert_axis` reverses the elements and leaves the buffer alone. -/
theorem C139_inverted {a : Arr K} (h : a.Valid) :
    a.inverted.Valid ∧ a.inverted.toList = a.toList.reverse ∧ a.inverted.intoRawVec = a.intoRawVec := by
  have hpos : ∀ i < a.len, a.inverted.pos i = a.pos (a.len - 1 - i) := by
    intro i hi
    have h0 := (h (a.len - 1) (by omega)).1
    unfold Arr.inverted
    simp only [Arr.pos] at h0 ⊢
    rw [Int.toNat_of_nonneg h0, Nat.cast_sub (by omega : i ≤ a.len - 1)]
    ring
  have hv : a.inverted.Valid := by
    intro i hi
    have hi : i < a.len := hi
    rw [hpos i hi]
    exact h _ (by omega)
  refine ⟨hv, ?_, rfl⟩
  apply List.ext_getElem?
  intro i
  by_cases hi : i < a.len
  · rw [Arr.getElem?_toList hv hi, hpos i hi, List.getElem?_reverse (by rw [Arr.length_toList h]; exact hi),
      Arr.length_toList h, Arr.getElem?_toList h (by omega)]
    rfl
  · rw [List.getElem?_eq_none (by rw [Arr.length_toList hv]; exact not_lt.1 hi),
      List.getElem?_eq_none (by rw [List.length_reverse, Arr.length_toList h]; omega)]

/-- `slice_move` keeps the elements of the range and leaves the buffer alone. -/
theorem C139_sliced {a : Arr K} (h : a.Valid) {k n : Nat} (hk : k + n ≤ a.len) :
    (a.sliced k n).Valid ∧ (a.sliced k n).toList = (a.toList.drop k).take n ∧
      (a.sliced k n).intoRawVec = a.intoRawVec := by
  have hpos : ∀ i < n, (a.sliced k n).pos i = a.pos (k + i) := by
    intro i hi
    have h0 := (h k (by omega)).1
    unfold Arr.sliced
    simp only [Arr.pos] at h0 ⊢
    rw [Int.toNat_of_nonneg h0]
    push_cast
    ring
  have hv : (a.sliced k n).Valid := by
    intro i hi
    have hi : i < n := hi
    rw [hpos i hi]
    exact h _ (by omega)
  refine ⟨hv, ?_, rfl⟩
  apply List.ext_getElem?
  intro i
  by_cases hi : i < n
  · rw [Arr.getElem?_toList hv hi, hpos i hi, List.getElem?_take, if_pos hi, List.getElem?_drop,
      Arr.getElem?_toList h (by omega)]
    rfl
  · rw [List.getElem?_eq_none (by rw [Arr.length_toList hv]; exact not_lt.1 hi),
      List.getElem?_eq_none (by rw [List.length_take]; omega)]

section Features

variable [Scalar K]

/-- Turning features into a vector gives the elements just when a dense array is in order. -/
theorem C139_to_vec_iff (f : LFeatures K) :
    f.toVec = f.erase.intoDense ↔ ∀ a, f = .dense a → a.InOrder := by
  cases f with
  | dense a =>
    simp only [LFeatures.toVec, LFeatures.intoDense, LFeatures.erase, Features.intoDense, Arr.intoRawVec,
      LFeatures.dense.injEq, forall_eq', Arr.InOrder]
    exact ⟨fun h => by injection h, fun h => congrArg Except.ok h⟩
  | sparse sa =>
    simp only [LFeatures.toVec, LFeatures.intoDense, LFeatures.erase, reduceCtorEq, false_imp_iff, implies_true,
      iff_true]
    cases (Features.sparse sa).intoDense <;> rfl

/-- Two dense arrays are concatenated just when the first is in order and the second is in standard layout. -/
theorem C139_stack_iff {a b : Arr K} (hb : b.Valid) :
    (∃ r, LFeatures.stack (.dense a) (.dense b) = .ok r ∧
      Features.stack (.dense a.toList) (.dense b.toList) = .ok r.erase) ↔
      a.InOrder ∧ b.isStandard = true := by
  have hs : LFeatures.stack (.dense a) (.dense b) = (match b.asSlice with
      | some s => .ok (.dense (Arr.std (a.buf ++ s)))
      | none => .error .unwrapFailed : P (LFeatures K)) := rfl
  have hf : Features.stack (.dense a.toList) (.dense b.toList) = .ok (.dense (a.toList ++ b.toList)) := rfl
  rw [hs, hf]
  by_cases hstd : b.isStandard = true
  · rw [Arr.asSlice_eq hb hstd]
    simp only [Except.ok.injEq, exists_eq_left', LFeatures.erase, Features.dense.injEq, Arr.toList_std,
      List.append_cancel_right_eq, hstd, and_true, Arr.InOrder]
    exact eq_comm
  · have : b.asSlice = none := by
      unfold Arr.asSlice
      rw [if_neg hstd]
    simp [this, hstd]

/-- Stacking in front of an array that is not in standard layout panics, unless both are sparse. -/
theorem C139_stack_panics (f : LFeatures K) {b : Arr K} (hb : b.isStandard = false) :
    Panics (LFeatures.stack f (.dense b)) := by
  have hn : b.asSlice = none := by
    unfold Arr.asSlice
    simp [hb]
  cases f with
  | dense a =>
    refine ⟨.unwrapFailed, ?_⟩
    change (match b.asSlice with
      | some s => .ok (.dense (Arr.std (a.buf ++ s)))
      | none => .error .unwrapFailed : P (LFeatures K)) = _
    rw [hn]
  | sparse sa =>
    cases hd : (Features.sparse sa).intoDense with
    | error p =>
      refine ⟨p, ?_⟩
      simp only [LFeatures.stack, LFeatures.intoDense, hd]
      rfl
    | ok l =>
      refine ⟨.unwrapFailed, ?_⟩
      simp only [LFeatures.stack, LFeatures.intoDense, hd]
      change (match b.asSlice with
        | some s => .ok (.dense (Arr.std (l ++ s)))
        | none => .error .unwrapFailed : P (LFeatures K)) = _
      rw [hn]

/-- What the layout must be for stacking to ignore it. -/
def Plain (f₁ f₂ : LFeatures K) : Prop :=
  (∀ a, f₁ = .dense a → a.InOrder) ∧ (∀ b, f₂ = .dense b → b.Valid ∧ b.isStandard = true)

/-- With plain layouts, stacking is the stacking of the elements, panics included. -/
theorem C139_stack_partial {f₁ f₂ : LFeatures K} (h : Plain f₁ f₂) :
    (LFeatures.stack f₁ f₂).map LFeatures.erase = Features.stack f₁.erase f₂.erase := by
  have hsl : ∀ l : List K, (Arr.std l).asSlice = some l := fun l => by
    rw [Arr.asSlice_eq (Arr.valid_std l) (by simp [Arr.std, Arr.isStandard]), Arr.toList_std]
  have fin : ∀ (l : List K) (b : Arr K) (s : List K), b.asSlice = some s →
      Except.map LFeatures.erase (match b.asSlice with
        | some s => .ok (.dense (Arr.std (l ++ s)))
        | none => .error .unwrapFailed : P (LFeatures K)) = .ok (.dense (l ++ s)) := by
    intro l b s hs
    rw [hs]
    simp [Except.map, LFeatures.erase, Arr.toList_std]
  rcases f₁ with a | sa <;> rcases f₂ with b | sb
  · obtain ⟨hv, hs⟩ := h.2 b rfl
    have := fin a.buf b _ (Arr.asSlice_eq hv hs)
    rw [show a.buf = a.toList from h.1 a rfl] at this
    rw [show LFeatures.erase (.dense a) = .dense a.toList from rfl]
    refine Eq.trans ?_ this
    conv_rhs => rw [← show a.buf = a.toList from h.1 a rfl]
    rfl
  · cases hd : (Features.sparse sb).intoDense with
    | error p =>
      simp only [LFeatures.stack, LFeatures.intoDense, LFeatures.erase, Features.stack, hd]
      rfl
    | ok l =>
      have := fin a.buf (Arr.std l) _ (hsl l)
      simp only [LFeatures.stack, LFeatures.intoDense, LFeatures.erase, Features.stack, hd]
      refine Eq.trans this ?_
      rw [show a.buf = a.toList from h.1 a rfl]
      rfl
  · obtain ⟨hv, hs⟩ := h.2 b rfl
    cases hd : (Features.sparse sa).intoDense with
    | error p =>
      simp only [LFeatures.stack, LFeatures.intoDense, LFeatures.erase, Features.stack, hd]
      rfl
    | ok l =>
      simp only [LFeatures.stack, LFeatures.intoDense, LFeatures.erase, Features.stack, hd]
      exact fin l b _ (Arr.asSlice_eq hv hs)
  · rfl

/-- Features made from lists and sparse features have plain layouts. -/
theorem C139_plain_std (l l' : List K) (sa sb : SparseActivations K) :
    Plain (.dense (Arr.std l)) (.dense (Arr.std l')) ∧ Plain (.dense (Arr.std l)) (.sparse sb) ∧
      Plain (.sparse sa) (.dense (Arr.std l')) ∧ Plain (.sparse sa) (.sparse sb) := by
  have h1 : ∀ a : Arr K, LFeatures.dense (Arr.std l) = .dense a → a.InOrder := by
    rintro _ ⟨⟩
    exact Arr.inOrder_std l
  have h2 : ∀ b : Arr K, LFeatures.dense (Arr.std l') = .dense b → b.Valid ∧ b.isStandard = true := by
    rintro _ ⟨⟩
    exact ⟨Arr.valid_std l', by simp [Arr.std, Arr.isStandard]⟩
  exact ⟨⟨h1, h2⟩, ⟨h1, by rintro _ ⟨⟩⟩, ⟨by rintro _ ⟨⟩, h2⟩, ⟨by rintro _ ⟨⟩, by rintro _ ⟨⟩⟩⟩

end Features

section Update

variable [Scalar K] {B O I : Type} [Space B] [Basis B I K] [Optimiser O K]

/-- What the closure returns counts only through its buffer: two closures whose arrays share a buffer train alike. -/
theorem C139_update_with_buffer (fa : VectorLFA B O K) (x : I) {f g : Features K → Arr K → Arr K}
    (h : ∀ φ v, (f φ v).buf = (g φ v).buf) :
    VectorLFA.updateWithArr fa x f = VectorLFA.updateWithArr fa x g := by
  unfold VectorLFA.updateWithArr
  have : ∀ (b : Features K) (v : List K),
      (f b (Arr.std v)).intoRawVec = (g b (Arr.std v)).intoRawVec := fun b v => h b _
  simp only [this]

/-- Reversing the errors with `invert_axis` has no effect at all. -/
theorem C139_update_with_inverted (fa : VectorLFA B O K) (x : I) (f : Features K → Arr K → Arr K) :
    VectorLFA.updateWithArr fa x (fun φ v => (f φ v).inverted) = VectorLFA.updateWithArr fa x f :=
  C139_update_with_buffer fa x fun _ _ => rfl

/-- Nor has keeping some of the errors with `slice_move`. -/
theorem C139_update_with_sliced (fa : VectorLFA B O K) (x : I) (f : Features K → Arr K → Arr K) (k n : Nat) :
    VectorLFA.updateWithArr fa x (fun φ v => (f φ v).sliced k n) = VectorLFA.updateWithArr fa x f :=
  C139_update_with_buffer fa x fun _ _ => rfl

/-- A closure whose arrays are in order trains on the elements it returns. -/
theorem C139_update_with_partial (fa : VectorLFA B O K) (x : I) (f : Features K → Arr K → Arr K)
    (h : ∀ φ v, (f φ (Arr.std v)).InOrder) :
    VectorLFA.updateWithArr fa x f =
      VectorLFA.updateWith fa x (fun φ v => (f φ (Arr.std v)).toList) := by
  unfold VectorLFA.updateWithArr VectorLFA.updateWith
  have : ∀ (b : Features K) (v : List K),
      (f b (Arr.std v)).intoRawVec = (f b (Arr.std v)).toList := h
  simp only [this]
  cases Basis.project (K := K) fa.basis x with
  | error p => rfl
  | ok r => cases r <;> rfl

/-- A closure that computes on lists and collects them is one of those. -/
theorem C139_update_with_list (fa : VectorLFA B O K) (x : I) (f : Features K → List K → List K) :
    VectorLFA.updateWithArr fa x (fun φ v => Arr.std (f φ v.toList)) = VectorLFA.updateWith fa x f := by
  rw [C139_update_with_partial fa x _ fun _ _ => Arr.inOrder_std _]
  simp only [Arr.toList_std]

end Update

/-! ### Wrong results -/

/-- The array `[1, 2]` after `invert_axis`: its elements are 2, 1. -/
noncomputable def reversed12 : Arr ℝ := (Arr.std [1, 2]).inverted

theorem reversed12_valid : reversed12.Valid ∧ reversed12.toList = [2, 1] ∧ reversed12.isStandard = false := by
  obtain ⟨h, h', -⟩ := C139_inverted (Arr.valid_std [(1 : ℝ), 2])
  refine ⟨h, ?_, ?_⟩
  · rw [reversed12, h', Arr.toList_std]
    rfl
  · simp [reversed12, Arr.std, Arr.inverted, Arr.isStandard]

/-- Features 2, 1 become the vector 1, 2. -/
theorem C139_to_vec_counterexample :
    (LFeatures.dense reversed12).erase = .dense [2, 1] ∧ (LFeatures.dense reversed12).toVec = .ok [1, 2] :=
  ⟨by rw [LFeatures.erase, reversed12_valid.2.1], rfl⟩

/-- Features 2, 1 stacked with 3 become 1, 2, 3; 3 stacked with 2, 1 panics. -/
theorem C139_stack_counterexample :
    (LFeatures.stack (.dense reversed12) (.dense (Arr.std [3]))).map LFeatures.erase = .ok (.dense [1, 2, 3]) ∧
      Panics (LFeatures.stack (.dense (Arr.std [(3 : ℝ)])) (.dense reversed12)) := by
  refine ⟨?_, C139_stack_panics _ reversed12_valid.2.2⟩
  change Except.ok (LFeatures.erase (.dense (Arr.std [1, 2, 3]))) = _
  rw [LFeatures.erase, Arr.toList_std]

/-- Keeping one feature out of two and stacking with a third gives three features, not two. -/
theorem C139_stack_sliced_counterexample :
    ((Arr.std [(1 : ℝ), 2]).sliced 0 1).toList = [1] ∧
      (LFeatures.stack (.dense ((Arr.std [(1 : ℝ), 2]).sliced 0 1)) (.dense (Arr.std [3]))).map LFeatures.erase =
        .ok (.dense [1, 2, 3]) := by
  constructor
  · rw [(C139_sliced (Arr.valid_std [(1 : ℝ), 2]) (by simp [Arr.std])).2.1, Arr.toList_std]
    rfl
  · change Except.ok (LFeatures.erase (.dense (Arr.std [1, 2, 3]))) = _
    rw [LFeatures.erase, Arr.toList_std]

/-- Two outputs over a constant feature. -/
noncomputable def twoOutputs : VectorLFA (Bias ℝ) (SGD ℝ) ℝ := ⟨Bias.unit, [[0], [0]], SGD.mk (1 : ℝ)⟩

/-- A closure asks for errors 2 and 1; the outputs are moved by 1 and 2. -/
theorem C139_update_with_counterexample (x : ℝ) :
    VectorLFA.updateWithArr twoOutputs x (fun _ _ => reversed12) =
        .ok (.ok (), { twoOutputs with weights := [[1], [2]] }) ∧
      VectorLFA.updateWith twoOutputs x (fun _ _ => reversed12.toList) =
        .ok (.ok (), { twoOutputs with weights := [[2], [1]] }) := by
  have hf : Fits 1 (.dense [(1 : ℝ)]) := ⟨trivial, rfl⟩
  have step : ∀ e : ℝ, Optimiser.stepScaled (SGD.mk (1 : ℝ)) [(0 : ℝ)] (.dense [(1 : ℝ)]) e =
      .ok (.ok (), SGD.mk (1 : ℝ), [e]) := by
    intro e
    obtain ⟨w, h1, h2, h3⟩ := sgd_real hf (SGD.mk (1 : ℝ)) e (w := [0]) rfl
    obtain ⟨v, rfl⟩ := List.length_eq_one_iff.1 h2
    have := h3 0 one_pos
    simp [entry, value] at this
    rw [h1, this]
  have key : ∀ e e' : ℝ, VectorLFA.stepColumns (.dense [(1 : ℝ)]) [e, e'] [[0], [0]] (SGD.mk (1 : ℝ)) (.ok ()) =
      .ok (.ok (), SGD.mk (1 : ℝ), [[e], [e']]) := by
    intro e e'
    rw [VectorLFA.stepColumns, step]
    change (do
      let __x ← VectorLFA.stepColumns (.dense [(1 : ℝ)]) [e'] [[0]] (SGD.mk (1 : ℝ)) (.ok ())
      .ok (__x.1, __x.2.1, [e] :: __x.2.2)) = _
    rw [VectorLFA.stepColumns, step]
    rfl
  have hm : (Features.dense [(1 : ℝ)]).matmul [[0], [0]] = .ok [0, 0] := by
    have : (Features.dense [(1 : ℝ)]).dot [0] = .ok 0 := by
      rw [dot_real (w := [0]) hf.1 rfl]
      have : dim (Features.dense [(1 : ℝ)]) = 1 := rfl
      simp [inner, value, this]
    rw [Features.matmul, mapM_ok_iff]
    exact .cons this (.cons this .nil)
  have hp : Basis.project (Bias.unit : Bias ℝ) x = .ok (.ok (.dense [(1 : ℝ)])) := by
    change Except.ok (Except.ok (Features.dense [Scalar.one])) = _
    rw [real_one]
  rw [reversed12_valid.2.1]
  constructor
  · unfold VectorLFA.updateWithArr
    rw [show twoOutputs.basis = Bias.unit from rfl, hp]
    change (do
      let v ← (Features.dense [(1 : ℝ)]).matmul [[0], [0]]
      let __x ← VectorLFA.stepColumns (.dense [(1 : ℝ)]) [1, 2] [[0], [0]] (SGD.mk (1 : ℝ)) (.ok ())
      .ok (__x.1, { twoOutputs with weights := __x.2.2, optimiser := __x.2.1 }) : P (Result Unit × _)) = _
    rw [hm, key]
    rfl
  · unfold VectorLFA.updateWith
    rw [show twoOutputs.basis = Bias.unit from rfl, hp]
    change (do
      let v ← (Features.dense [(1 : ℝ)]).matmul [[0], [0]]
      let __x ← VectorLFA.stepColumns (.dense [(1 : ℝ)]) [2, 1] [[0], [0]] (SGD.mk (1 : ℝ)) (.ok ())
      .ok (__x.1, { twoOutputs with weights := __x.2.2, optimiser := __x.2.1 }) : P (Result Unit × _)) = _
    rw [hm, key]
    rfl

end Lfa

import Verif.Proofs.Merge
import Verif.Props.C01_C05

/-!
# C06–C11: stack, map, merge, remove, reads
-/

set_option linter.unusedSectionVars false

namespace Lfa

open Spec Features

/-! ## C06 stack is concatenation -/

/-- Stacking well-formed features concatenates their dense views; dimensions add up; the result is
well-formed, and sparse exactly when both inputs are (any arithmetic). -/
theorem C06_stack {K : Type} [Scalar K] (φ ψ : Features K) (h₁ : WF φ) (h₂ : WF ψ) :
    ∃ r, φ.stack ψ = .ok r ∧ WF r ∧ view r = view φ ++ view ψ ∧
      r.nFeatures = φ.nFeatures + ψ.nFeatures ∧
      (r.isSparse = true ↔ φ.isSparse = true ∧ ψ.isSparse = true) := by
  by_cases hs : φ.isSparse = true ∧ ψ.isSparse = true
  · cases φ with
    | dense da => cases hs.1
    | sparse sa₁ =>
      cases ψ with
      | dense da => cases hs.2
      | sparse sa₂ =>
        exact ⟨_, stack_sparse h₁ h₂, wf_stack_sparse h₁ h₂, view_stack_sparse h₁, rfl,
          by simp [isSparse]⟩
  · refine ⟨_, stack_dense_of_not_sparse h₁ h₂ hs, trivial, view_dense _, ?_, ?_⟩
    · have e : ∀ χ : Features K, χ.nFeatures = dim χ := fun χ => by cases χ <;> rfl
      simp [e]
    · constructor
      · intro h; cases h
      · intro h; exact absurd h hs

/-- Stacking is associative on dense views. -/
theorem C06_stack_assoc {K : Type} [Scalar K] (φ ψ χ : Features K) (h₁ : WF φ) (h₂ : WF ψ)
    (h₃ : WF χ) :
    ∃ l r, (φ.stack ψ >>= fun a => a.stack χ) = .ok l ∧
      (ψ.stack χ >>= fun b => φ.stack b) = .ok r ∧ view l = view r := by
  obtain ⟨a, ha, wa, va, -⟩ := C06_stack φ ψ h₁ h₂
  obtain ⟨l, hl, -, vl, -⟩ := C06_stack a χ wa h₃
  obtain ⟨b, hb, wb, vb, -⟩ := C06_stack ψ χ h₂ h₃
  obtain ⟨r, hr, -, vr, -⟩ := C06_stack φ b h₁ wb
  refine ⟨l, r, by rw [ha, P.ok_bind, hl], by rw [hb, P.ok_bind, hr], ?_⟩
  rw [vl, va, vr, vb, List.append_assoc]

example : ∃ r, exSparse.stack (.dense [7]) = .ok r ∧ view r = [1, 0, 5, 7] := by
  obtain ⟨r, h, -, v, -⟩ := C06_stack exSparse (.dense [7]) exSparse_wf trivial
  refine ⟨r, h, ?_⟩
  rw [v]
  simp [view, exSparse, value, dim, List.range, List.range.loop]

/-! ## C07 map is pointwise

Full claim: `view (φ.map f) = (view φ).map f` for every `f`. False for sparse features when
`0 < |f 0| < 1e-5`: the code then treats `f 0` as 0 (`C07_map_not_pointwise`). -/

/-- `map`, `map_into`, `map_inplace` agree, panics included. -/
theorem C07_variants_agree {K : Type} [Scalar K] (φ : Features K) (f : K → K) :
    φ.mapInto f = φ.map f ∧ φ.mapInplace f = φ.map f := by
  cases φ <;> exact ⟨rfl, rfl⟩

/-- Dense features: exactly pointwise, and they stay dense (any arithmetic). -/
theorem C07_map_dense {K : Type} [Scalar K] (da : List K) (f : K → K) :
    Features.map (.dense da) f = .ok (.dense (da.map f)) := rfl

/-- Pointwise for every `f` with `f 0 = 0` exactly or `¬ |f 0| < 1e-5` (any arithmetic).
Missing: `f` with `f 0 ≠ 0` but `|f 0| < 1e-5` on sparse features, where the claim is false. -/
theorem C07_map_pointwise_partial {K : Type} [Scalar K] (φ : Features K) (h : WF φ) (f : K → K)
    (hf : f Scalar.zero = Scalar.zero ∨
      Scalar.lt (Scalar.abs (f Scalar.zero)) (Scalar.sci 1 5) = false) :
    ∃ r, φ.map f = .ok r ∧ WF r ∧ view r = (view φ).map f := by
  cases φ with
  | dense da => exact ⟨_, rfl, trivial, by rw [view_dense, view_dense]⟩
  | sparse sa =>
    rcases hp : sparsityPreserving f with _ | _
    · exact ⟨_, map_sparse_dense h hp, trivial, view_dense _⟩
    · have hz : f Scalar.zero = Scalar.zero := by
        rcases hf with hf | hf
        · exact hf
        · unfold sparsityPreserving at hp; rw [hp] at hf; cases hf
      refine ⟨_, map_sparse_preserving h.1 hp, wf_map_entries h (fun _ => f), ?_⟩
      unfold view
      rw [List.map_map]
      apply List.map_congr_left
      intro i _
      rw [value_map_entries, Function.comp_apply, value_sparse]
      cases HMap.get? sa.activations i with
      | none => simp [hz]
      | some a => rfl

/-- Every `f`: same dimension, and each entry is off by less than `1e-5` (exact arithmetic);
entries with a stored activation are exact. -/
theorem C07_map_error_bound (φ : Features ℝ) (h : WF φ) (f : ℝ → ℝ) :
    ∃ r, φ.map f = .ok r ∧ WF r ∧ dim r = dim φ ∧
      (∀ i, i < dim φ → |value r i - f (value φ i)| < 1e-5) ∧
      (∀ i a, Stored φ i a → value r i = f a) := by
  cases φ with
  | dense da =>
    refine ⟨_, rfl, trivial, by simp, ?_, ?_⟩
    · intro i hi
      have hi : i < da.length := hi
      simp only [value_dense, List.getD_eq_getElem?_getD, List.getElem?_map,
        List.getElem?_eq_getElem hi]
      norm_num
    · intro i a ha
      have ha : da[i]? = some a := ha
      simp [value_dense, List.getD_eq_getElem?_getD, List.getElem?_map, ha]
  | sparse sa =>
    rcases hp : sparsityPreserving f with _ | _
    · refine ⟨_, map_sparse_dense h hp, trivial, by simp, ?_, ?_⟩
      · intro i hi
        have hv : (view (.sparse sa))[i]? = some (value (.sparse sa) i) := by
          rw [view_getElem?, if_pos hi]
        simp only [value_dense, List.getD_eq_getElem?_getD, List.getElem?_map, hv]
        norm_num
      · intro i a ha
        have hi : i < dim (.sparse sa) := h.2 _ ha
        have hv : (view (.sparse sa))[i]? = some a := by
          rw [view_getElem?, if_pos hi, value_of_stored (φ := .sparse sa) h.1 ha]
        simp only [value_dense, List.getD_eq_getElem?_getD, List.getElem?_map, hv]
        rfl
    · refine ⟨_, map_sparse_preserving h.1 hp, wf_map_entries h (fun _ => f), rfl, ?_, ?_⟩
      · intro i _
        rw [value_map_entries, value_sparse]
        cases HMap.get? sa.activations i with
        | some a => norm_num
        | none =>
          unfold sparsityPreserving at hp
          simp only [real_lt, real_abs, real_sci, real_zero, decide_eq_true_eq] at hp
          simp only [Option.map_none, Option.getD_none, real_zero, zero_sub, abs_neg]
          norm_num at hp ⊢
          exact hp
      · intro i a ha
        rw [value_map_entries, HMap.get?_of_mem h.1 ha]; rfl

/-- The code violates the full claim: `x ↦ x + 1e-6` on a sparse vector with an inactive feature
leaves that feature at 0. -/
theorem C07_map_not_pointwise :
    ∃ (φ : Features ℝ) (f : ℝ → ℝ) (r : Features ℝ), WF φ ∧ φ.map f = .ok r ∧
      view r ≠ (view φ).map f := by
  have hwf : WF (.sparse ⟨1, ([] : HMap ℝ)⟩) := ⟨List.nodup_nil, by simp⟩
  have hp : sparsityPreserving (fun x : ℝ => x + 1e-6) = true := by
    unfold sparsityPreserving
    simp only [real_lt, real_abs, real_sci, real_zero, decide_eq_true_eq, zero_add]
    rw [abs_of_pos (by norm_num)]
    norm_num
  refine ⟨_, fun x => x + 1e-6, _, hwf, map_sparse_preserving hwf.1 hp, ?_⟩
  simp [view, value, dim, List.range, List.range.loop]
  norm_num

example : sparsityPreserving (fun x : ℝ => 2 * x) = true ∧
    sparsityPreserving (fun x : ℝ => x + 1) = false := by
  simp [sparsityPreserving]; norm_num

/-! ## C08 merge is pointwise

Full claim: for equal dimensions `view (φ.merge ψ f) = zipWith f (view φ) (view ψ)`. False for
dense × sparse when `f x 0 ≠ x`, and for sparse × sparse when `f 0 0 ≠ 0`
(`C08_merge_dense_sparse_not_pointwise`, `C08_merge_sparse_sparse_not_pointwise`). -/

/-- Equal dimensions, `f` with `f x 0 = x` (e.g. `+`, `-`, `max` on non-negative activations): all
four representation pairs are pointwise. Missing: other `f` on dense × sparse, and `f 0 0 ≠ 0` on
sparse × sparse, where the claim is false. -/
theorem C08_merge_pointwise_partial {K : Type} [Scalar K] (φ ψ : Features K) (h₁ : WF φ)
    (h₂ : WF ψ) (hd : dim φ = dim ψ) (f : K → K → K) (hf : ∀ x, f x Scalar.zero = x) :
    ∃ r, φ.merge ψ f = .ok r ∧ WF r ∧ dim r = dim φ ∧
      ∀ i, i < dim φ → value r i = f (value φ i) (value ψ i) := by
  cases φ with
  | dense da₁ =>
    cases ψ with
    | dense da₂ =>
      have hd : da₁.length = da₂.length := hd
      refine ⟨.dense (List.zipWith f da₁ da₂), ?_, trivial, by simp [hd], ?_⟩
      · show (zipMutWith da₁ da₂ f >>= _) = _
        rw [zipMutWith_of_eq hd.symm]; rfl
      · intro i hi
        have hi : i < da₁.length := hi
        simp [value_dense, List.getD_eq_getElem?_getD, List.getElem?_zipWith,
          List.getElem?_eq_getElem hi, List.getElem?_eq_getElem (hd ▸ hi)]
    | sparse sa₂ =>
      have hd : da₁.length = sa₂.dim := hd
      refine ⟨.dense (scatterAll f sa₂.activations da₁), ?_, trivial, by simp, ?_⟩
      · show (scatterMod f sa₂.activations da₁ >>= _) = _
        rw [scatterMod_ok f h₂.1 fun e he => hd ▸ h₂.2 e he]; rfl
      · intro i hi
        have hi : i < da₁.length := hi
        rw [value_dense, value_dense, value_sparse, List.getD_eq_getElem?_getD,
          List.getD_eq_getElem?_getD, scatterAll_getElem?, List.getElem?_eq_getElem hi]
        cases HMap.get? sa₂.activations i with
        | none => simp [hf]
        | some a => rfl
  | sparse sa₁ =>
    cases ψ with
    | dense da₂ =>
      have hd : sa₁.dim = da₂.length := hd
      refine ⟨_, merge_sparse_dense f (le_of_eq hd), trivial, by simp [hd], ?_⟩
      intro i hi
      have hi : i < da₂.length := hd ▸ hi
      rw [value_dense, List.getD_eq_getElem?_getD, List.getElem?_map, List.getElem?_range hi]
      rfl
    | sparse sa₂ =>
      have hd : sa₁.dim = sa₂.dim := hd
      refine ⟨_, rfl, wf_mergeSparse h₁ h₂ f, ?_, ?_⟩
      · show max sa₁.dim sa₂.dim = sa₁.dim
        rw [hd, max_self]
      · intro i _
        by_cases hk : i ∈ sa₁.activations.map Prod.fst ∨ i ∈ sa₂.activations.map Prod.fst
        · exact value_mergeSparse _ _ _ _ hk
        · rw [not_or] at hk
          rw [value_mergeSparse_none _ _ _ _ hk.1 hk.2, value_sparse, value_sparse,
            (HMap.get?_eq_none_iff _ _).2 hk.1, (HMap.get?_eq_none_iff _ _).2 hk.2]
          exact (hf Scalar.zero).symm

/-- Sparse × sparse is pointwise for every `f` with `f 0 0 = 0`, also for different dimensions. -/
theorem C08_merge_sparse_sparse {K : Type} [Scalar K] (sa₁ sa₂ : SparseActivations K)
    (h₁ : WF (.sparse sa₁)) (h₂ : WF (.sparse sa₂)) (f : K → K → K)
    (hf : f Scalar.zero Scalar.zero = Scalar.zero) :
    ∃ r, (Features.sparse sa₁).merge (.sparse sa₂) f = .ok r ∧ WF r ∧
      dim r = max sa₁.dim sa₂.dim ∧
      ∀ i, value r i = f (value (.sparse sa₁) i) (value (.sparse sa₂) i) := by
  refine ⟨_, rfl, wf_mergeSparse h₁ h₂ f, rfl, ?_⟩
  intro i
  by_cases hk : i ∈ sa₁.activations.map Prod.fst ∨ i ∈ sa₂.activations.map Prod.fst
  · exact value_mergeSparse _ _ _ _ hk
  · rw [not_or] at hk
    rw [value_mergeSparse_none _ _ _ _ hk.1 hk.2, value_sparse, value_sparse,
      (HMap.get?_eq_none_iff _ _).2 hk.1, (HMap.get?_eq_none_iff _ _).2 hk.2]
    exact hf.symm

/-- Dense × dense and sparse × dense of equal dimension are pointwise for every `f`. -/
theorem C08_merge_dense_right {K : Type} [Scalar K] (φ : Features K) (da : List K) (h₁ : WF φ)
    (hd : dim φ = da.length) (f : K → K → K) :
    φ.merge (.dense da) f = .ok (.dense ((List.range da.length).map fun i =>
      f (value φ i) (value (.dense da) i))) := by
  cases φ with
  | dense da₁ =>
    have hd : da₁.length = da.length := hd
    show (zipMutWith da₁ da f >>= _) = _
    rw [zipMutWith_of_eq hd.symm, P.ok_bind]
    congr 2
    apply List.ext_getElem?
    intro i
    rw [List.getElem?_zipWith, List.getElem?_map]
    by_cases hi : i < da.length
    · rw [List.getElem?_range hi, List.getElem?_eq_getElem hi, List.getElem?_eq_getElem (hd ▸ hi)]
      simp [value_dense, List.getD_eq_getElem?_getD, List.getElem?_eq_getElem hi,
        List.getElem?_eq_getElem (hd.symm ▸ hi : i < da₁.length)]
    · rw [List.getElem?_eq_none (by omega), List.getElem?_eq_none (l := List.range _) (by simpa using hi)]
      rfl
  | sparse sa₁ => exact merge_sparse_dense f (le_of_eq hd)

/-- The code violates the full claim: `2 * 0 = 0`, but merging dense `[2]` with an empty sparse
vector by multiplication leaves `2`. -/
theorem C08_merge_dense_sparse_not_pointwise :
    ∃ (φ ψ r : Features ℝ) (f : ℝ → ℝ → ℝ), WF φ ∧ WF ψ ∧ dim φ = dim ψ ∧
      φ.merge ψ f = .ok r ∧ value r 0 ≠ f (value φ 0) (value ψ 0) := by
  refine ⟨.dense [2], .sparse ⟨1, []⟩, .dense [2], (· * ·), trivial, ⟨List.nodup_nil, by simp⟩,
    rfl, rfl, ?_⟩
  simp [value]

/-- The code violates the full claim: `f 0 0 = 1` is never evaluated on sparse × sparse. -/
theorem C08_merge_sparse_sparse_not_pointwise :
    ∃ (φ ψ r : Features ℝ) (f : ℝ → ℝ → ℝ), WF φ ∧ WF ψ ∧ dim φ = dim ψ ∧
      φ.merge ψ f = .ok r ∧ value r 0 ≠ f (value φ 0) (value ψ 0) := by
  refine ⟨.sparse ⟨1, []⟩, .sparse ⟨1, []⟩, .sparse ⟨1, []⟩, fun x y => x + y + 1,
    ⟨List.nodup_nil, by simp⟩, ⟨List.nodup_nil, by simp⟩, rfl, rfl, ?_⟩
  simp [value]

example : ∀ x : ℝ, x + (Scalar.zero : ℝ) = x := by simp

/-! ## C09 merge, merge_into, merge_inplace agree -/

/-- Whenever `merge` returns, the other two return the same features (any arithmetic). -/
theorem C09_merge_agree {K : Type} [Scalar K] (φ ψ r : Features K) (f : K → K → K)
    (h : φ.merge ψ f = .ok r) : φ.mergeInto ψ f = .ok r ∧ φ.mergeInplace ψ f = .ok r := by
  suffices φ.mergeInto ψ f = .ok r from ⟨this, this⟩
  cases φ with
  | dense da₁ => cases ψ <;> exact h
  | sparse sa₁ =>
    cases ψ with
    | sparse sa₂ => exact h
    | dense da₂ =>
      rcases Nat.lt_or_ge da₂.length sa₁.dim with hl | hl
      · obtain ⟨p, hp⟩ := merge_sparse_dense_panics (K := K) (sa₁ := sa₁) f hl
        rw [hp] at h; cases h
      · rw [merge_sparse_dense f hl] at h
        rw [mergeInto_sparse_dense, max_eq_right hl, h]

/-- They differ exactly for sparse × shorter dense: `merge` panics, `merge_into` pads with 0. -/
theorem C09_merge_panics_where_into_returns {K : Type} [Scalar K] (φ ψ : Features K)
    (f : K → K → K) :
    (Panics (φ.merge ψ f) ∧ ¬ Panics (φ.mergeInto ψ f)) ↔
      (∃ sa da, φ = .sparse sa ∧ ψ = .dense da ∧ da.length < sa.dim) := by
  constructor
  · rintro ⟨h, h'⟩
    cases φ with
    | dense da₁ => cases ψ <;> exact absurd h h'
    | sparse sa₁ =>
      cases ψ with
      | sparse sa₂ => exact absurd h h'
      | dense da₂ =>
        refine ⟨sa₁, da₂, rfl, rfl, ?_⟩
        by_contra hc
        obtain ⟨p, hp⟩ := h
        rw [merge_sparse_dense f (Nat.le_of_not_lt hc)] at hp
        cases hp
  · rintro ⟨sa, da, rfl, rfl, hl⟩
    refine ⟨merge_sparse_dense_panics f hl, ?_⟩
    rintro ⟨p, hp⟩
    rw [mergeInto_sparse_dense] at hp; cases hp

example : Panics (exSparse.merge (.dense [1]) (· + ·)) ∧
    ¬ Panics (exSparse.mergeInto (.dense [1]) (· + ·)) :=
  (C09_merge_panics_where_into_returns _ _ _).2 ⟨_, _, rfl, rfl, by decide⟩

/-! ## C10 remove clears one feature only -/

/-- After `remove i`: value 0 at `i`, the rest unchanged, dimension, representation and
well-formedness kept (any arithmetic, any index). -/
theorem C10_remove {K : Type} [Scalar K] (φ : Features K) (i : Nat) :
    value (φ.remove i) i = Scalar.zero ∧ (∀ j, j ≠ i → value (φ.remove i) j = value φ j) ∧
    (φ.remove i).nFeatures = φ.nFeatures ∧ (φ.remove i).isSparse = φ.isSparse ∧
    (WF φ → WF (φ.remove i)) := by
  cases φ with
  | dense da =>
    refine ⟨?_, ?_, by simp [remove, nFeatures], rfl, fun _ => trivial⟩
    · simp only [remove, value_dense, List.getD_eq_getElem?_getD, List.getElem?_set]
      by_cases h : i < da.length <;> simp [h]
    · intro j hj
      simp only [remove, value_dense, List.getD_eq_getElem?_getD]
      rw [List.getElem?_set_ne (Ne.symm hj)]
  | sparse sa =>
    refine ⟨?_, ?_, rfl, rfl, ?_⟩
    · simp [remove, value_sparse, HMap.get?_remove]
    · intro j hj
      simp [remove, value_sparse, HMap.get?_remove, hj]
    · intro h
      exact ⟨HMap.nodupKeys_remove h.1 i, fun e he => h.2 e (List.mem_of_mem_filter he)⟩

/-- An index that is not stored (in particular one out of range) is a no-op. -/
theorem C10_remove_noop {K : Type} [Scalar K] (φ : Features K) (i : Nat)
    (h : ∀ a, ¬ Stored φ i a) : φ.remove i = φ := by
  cases φ with
  | dense da =>
    have : da[i]? = none := by
      rcases hd : da[i]? with _ | a
      · rfl
      · exact absurd hd (h a)
    rw [List.getElem?_eq_none_iff] at this
    simp [remove, List.set_eq_of_length_le this]
  | sparse sa =>
    show Features.sparse { sa with activations := HMap.remove sa.activations i } = _
    have : HMap.remove sa.activations i = sa.activations := by
      unfold HMap.remove
      rw [List.filter_eq_self]
      intro e he
      rw [decide_eq_true_eq]
      rintro rfl
      exact h e.2 he
    rw [this]

/-- Idempotent. -/
theorem C10_remove_idem {K : Type} [Scalar K] (φ : Features K) (i : Nat) :
    (φ.remove i).remove i = φ.remove i := by
  cases φ with
  | dense da => simp [remove]
  | sparse sa => simp [remove, HMap.remove, List.filter_filter]

/-- Removals commute. -/
theorem C10_remove_comm {K : Type} [Scalar K] (φ : Features K) (i j : Nat) :
    (φ.remove i).remove j = (φ.remove j).remove i := by
  cases φ with
  | dense da =>
    simp only [remove]
    by_cases h : i = j
    · rw [h]
    · rw [List.set_comm _ _ h]
  | sparse sa =>
    simp only [remove, HMap.remove, List.filter_filter]
    congr 3
    funext e
    rw [Bool.and_comm]

example : Stored exSparse 2 5 ∧ value (exSparse.remove 2) 2 = (Scalar.zero : ℝ) :=
  ⟨by simp [Stored, exSparse], (C10_remove _ _).1⟩

/-! ## C11 Reading one activation agrees with the dense view

Full claim: `get`, `uget` and `features[i]` return entry `i` of the dense view. False for
`features[i]` on sparse features, which returns 1 for every stored index
(`C11_index_sparse_wrong`). -/

/-- `get` and `uget` return the stored activation, `None` exactly when nothing is stored; a `None`
means 0 (any arithmetic). `uget` on dense features requires an index in range. -/
theorem C11_get {K : Type} [Scalar K] (φ : Features K) (i : Nat) :
    (φ.get i).getD Scalar.zero = value φ i ∧
    (φ.get i = none ↔ ∀ a, ¬ Stored φ i a) ∧
    (i < φ.nFeatures → φ.uget i = .ok (φ.get i)) := by
  cases φ with
  | dense da =>
    refine ⟨by simp [Features.get, value_dense, List.getD_eq_getElem?_getD], ?_, ?_⟩
    · show da[i]? = none ↔ ∀ a, ¬ da[i]? = some a
      rcases da[i]? with _ | a <;> simp
    · intro hi
      have hi : i < da.length := hi
      simp only [uget, Features.get, idx_of_lt hi, List.getElem?_eq_getElem hi]
      rfl
  | sparse sa =>
    refine ⟨by rw [value_sparse]; rfl, ?_, fun _ => rfl⟩
    show HMap.get? sa.activations i = none ↔ ∀ a, ¬ (i, a) ∈ sa.activations
    rw [HMap.get?_eq_none_iff]
    constructor
    · intro h a ha; exact h (List.mem_map.2 ⟨_, ha, rfl⟩)
    · intro h hm
      obtain ⟨e, he, rfl⟩ := List.mem_map.1 hm
      exact h e.2 he

/-- `features[i]` agrees with the dense view on dense features, and on sparse features all of whose
activations are 1. Missing: sparse features with other activations, where the claim is false. -/
theorem C11_index_partial {K : Type} [Scalar K] (φ : Features K) (i : Nat) (hi : i < φ.nFeatures)
    (h : φ.isDense = true ∨ ∀ j a, Stored φ j a → a = Scalar.one) :
    φ.index i = .ok (value φ i) := by
  cases φ with
  | dense da =>
    have hi : i < da.length := hi
    show idx da i = _
    rw [idx_of_lt hi, value_dense, List.getD_eq_getElem?_getD, List.getElem?_eq_getElem hi]; rfl
  | sparse sa =>
    have h : ∀ j a, Stored (.sparse sa) j a → a = Scalar.one := by
      rcases h with h | h
      · cases h
      · exact h
    rw [value_sparse]
    show Except.ok (if HMap.contains sa.activations i = true then _ else _) = _
    unfold HMap.contains
    rcases hg : HMap.get? sa.activations i with _ | a
    · rfl
    · rw [h i a (HMap.mem_of_get? hg)]; rfl

/-- What `features[i]` returns on sparse features: 1 if the index is stored, else 0; never a panic. -/
theorem C11_index_sparse {K : Type} [Scalar K] (sa : SparseActivations K) (i : Nat) :
    ((∃ a, Stored (.sparse sa) i a) → (Features.sparse sa).index i = .ok Scalar.one) ∧
    ((∀ a, ¬ Stored (.sparse sa) i a) → (Features.sparse sa).index i = .ok Scalar.zero) := by
  constructor
  · rintro ⟨a, ha⟩
    have : HMap.contains sa.activations i = true :=
      (HMap.contains_iff _ _).2 (List.mem_map.2 ⟨_, ha, rfl⟩)
    simp [index, this]
  · intro h
    have : HMap.contains sa.activations i = false := by
      rw [← Bool.not_eq_true, HMap.contains_iff]
      intro hm
      obtain ⟨e, he, rfl⟩ := List.mem_map.1 hm
      exact h e.2 he
    simp [index, this]

/-- The code violates the full claim: `exSparse` stores 5 at index 2, indexing returns 1. -/
theorem C11_index_sparse_wrong :
    ∃ (φ : Features ℝ) (i : Nat), WF φ ∧ i < φ.nFeatures ∧ φ.index i ≠ .ok (value φ i) := by
  refine ⟨exSparse, 2, exSparse_wf, by decide, ?_⟩
  simp [index, exSparse, value, HMap.contains, HMap.get?]

/-- `unitary` vectors satisfy the hypothesis of `C11_index_partial`. -/
example : ∀ j a, Stored (.sparse ⟨3, [(1, (Scalar.one : ℝ))]⟩) j a → a = Scalar.one := by
  intro j a h; simp only [Stored, List.mem_singleton, Prod.mk.injEq] at h; exact h.2

end Lfa

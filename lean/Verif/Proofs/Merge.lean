import Verif.Proofs.Features

/-! # Lemmas: stack, map, merge, remove, constructors -/

set_option linter.unusedSectionVars false

namespace Lfa

open Spec Features

section
variable {K : Type} [Scalar K]

@[simp] theorem dim_dense (da : List K) : dim (.dense da) = da.length := rfl
@[simp] theorem dim_sparse (sa : SparseActivations K) : dim (.sparse sa) = sa.dim := rfl

theorem value_dense_append_left {a b : List K} {i : Nat} (h : i < a.length) :
    value (.dense (a ++ b)) i = value (.dense a) i := by
  simp [value_dense, List.getD_eq_getElem?_getD, List.getElem?_append_left h]

theorem view_append_of {φ : Features K} {a b : List K} (hd : dim φ = a.length + b.length)
    (h1 : ∀ i, i < a.length → some (value φ i) = a[i]?)
    (h2 : ∀ i, i < b.length → some (value φ (i + a.length)) = b[i]?) : view φ = a ++ b := by
  apply List.ext_getElem?
  intro i
  rw [view_getElem?, hd]
  by_cases h : i < a.length
  · rw [if_pos (by omega), List.getElem?_append_left h, h1 i h]
  · rw [List.getElem?_append_right (by omega)]
    by_cases h' : i < a.length + b.length
    · rw [if_pos h', ← h2 (i - a.length) (by omega), Nat.sub_add_cancel (by omega)]
    · rw [if_neg h', List.getElem?_eq_none (by omega)]

/-- Shifted keys. -/
def shift (d : Nat) (m : HMap K) : HMap K := m.map fun e => (e.1 + d, e.2)

theorem foldl_insert_shift (d : Nat) (n m : HMap K) :
    n.foldl (fun m e => HMap.insert m (e.1 + d) e.2) m =
      (shift d n).foldl (fun m e => HMap.insert m e.1 e.2) m := by
  unfold shift; rw [List.foldl_map]

theorem get?_shift_add (d : Nat) (m : HMap K) (k : Nat) :
    HMap.get? (shift d m) (k + d) = HMap.get? m k := by
  induction m with
  | nil => rfl
  | cons e m ih =>
    unfold shift at *
    rw [List.map_cons, HMap.get?_cons, HMap.get?_cons, ih]
    by_cases h : k = e.1 <;> simp [h]

theorem get?_shift_lt (d : Nat) (m : HMap K) {k : Nat} (h : k < d) :
    HMap.get? (shift d m) k = none := by
  rw [HMap.get?_eq_none_iff]
  intro hm
  unfold shift at hm
  rw [List.map_map] at hm
  obtain ⟨e, _, he⟩ := List.mem_map.1 hm
  simp only [Function.comp_apply] at he
  omega

theorem nodupKeys_shift (d : Nat) {m : HMap K} (h : m.NodupKeys) : (shift d m).NodupKeys := by
  unfold HMap.NodupKeys shift at *
  rw [List.map_map]
  have : (Prod.fst ∘ fun e : Nat × K => (e.1 + d, e.2)) = (· + d) ∘ Prod.fst := rfl
  rw [this, ← List.map_map]
  exact h.map (fun a b hab => Nat.add_right_cancel hab)

theorem nodupKeys_append_shift {d : Nat} {m n : HMap K} (hm : m.NodupKeys)
    (hr : ∀ e ∈ m, e.1 < d) (hn : n.NodupKeys) :
    HMap.NodupKeys (m ++ shift d n : List (Nat × K)) := by
  have hs := nodupKeys_shift d hn
  unfold HMap.NodupKeys at *
  rw [List.map_append, List.nodup_append]
  refine ⟨hm, hs, ?_⟩
  intro a ha b hb hab
  subst hab
  obtain ⟨e, he, rfl⟩ := List.mem_map.1 ha
  have : HMap.get? (shift d n) e.1 = none := get?_shift_lt d n (hr e he)
  rw [HMap.get?_eq_none_iff] at this
  exact this hb

theorem stack_sparse {sa₁ sa₂ : SparseActivations K} (h₁ : WF (.sparse sa₁))
    (h₂ : WF (.sparse sa₂)) :
    stack (.sparse sa₁) (.sparse sa₂) = .ok (.sparse
      ⟨sa₁.dim + sa₂.dim, sa₁.activations ++ shift sa₁.dim sa₂.activations⟩) := by
  show Except.ok (Features.sparse ⟨_, _⟩) = _
  rw [foldl_insert_shift, HMap.foldl_insert_of_nodup]
  exact nodupKeys_append_shift h₁.1 h₁.2 h₂.1

theorem stack_dense_of_not_sparse {φ ψ : Features K} (h₁ : WF φ) (h₂ : WF ψ)
    (h : ¬ (φ.isSparse = true ∧ ψ.isSparse = true)) :
    stack φ ψ = .ok (.dense (view φ ++ view ψ)) := by
  have e₁ : φ.intoDense = .ok (view φ) := by rw [intoDense_eq_toDense, toDense_eq_view h₁]
  have e₂ : ψ.intoDense = .ok (view ψ) := by rw [intoDense_eq_toDense, toDense_eq_view h₂]
  have : stack φ ψ = (do
      let a₁ ← φ.intoDense
      let a₂ ← ψ.intoDense
      .ok (.dense (a₁ ++ a₂))) := by
    cases φ <;> cases ψ <;> first | rfl | (exfalso; exact h ⟨rfl, rfl⟩)
  rw [this, e₁, e₂]; rfl

theorem wf_stack_sparse {sa₁ sa₂ : SparseActivations K} (h₁ : WF (.sparse sa₁))
    (h₂ : WF (.sparse sa₂)) :
    WF (.sparse ⟨sa₁.dim + sa₂.dim, sa₁.activations ++ shift sa₁.dim sa₂.activations⟩) := by
  refine ⟨nodupKeys_append_shift h₁.1 h₁.2 h₂.1, ?_⟩
  intro e he
  simp only [List.mem_append] at he
  rcases he with he | he
  · have := h₁.2 e he; simp only; omega
  · obtain ⟨e', he', rfl⟩ := List.mem_map.1 he
    have := h₂.2 e' he'; simp only; omega

theorem view_stack_sparse {sa₁ sa₂ : SparseActivations K} (h₁ : WF (.sparse sa₁)) :
    view (.sparse ⟨sa₁.dim + sa₂.dim, sa₁.activations ++ shift sa₁.dim sa₂.activations⟩) =
      view (.sparse sa₁) ++ view (.sparse sa₂) := by
  apply view_append_of
  · simp
  · intro i hi
    rw [view_length, dim_sparse] at hi
    rw [view_getElem?, dim_sparse, if_pos hi, value_sparse, value_sparse, HMap.get?_append,
      get?_shift_lt _ _ hi]
    simp
  · intro i hi
    rw [view_length, dim_sparse] at hi ⊢
    rw [view_getElem?, dim_sparse, if_pos hi, value_sparse, value_sparse, HMap.get?_append,
      get?_shift_add]
    have : HMap.get? sa₁.activations (i + sa₁.dim) = none := by
      rw [HMap.get?_eq_none_iff]
      intro hm
      obtain ⟨e, he, hk⟩ := List.mem_map.1 hm
      have := h₁.2 e he; omega
    rw [this]; rfl

/-! ## map -/

theorem map_sparse_preserving {sa : SparseActivations K} (h : KeysUnique (.sparse sa))
    {f : K → K} (hf : sparsityPreserving f = true) :
    Features.map (.sparse sa) f =
      .ok (.sparse ⟨sa.dim, sa.activations.map fun e => (e.1, f e.2)⟩) := by
  simp only [Features.map, hf, if_true]
  rw [HMap.collect_of_nodup (HMap.nodupKeys_map f h)]

theorem map_sparse_dense {sa : SparseActivations K} (h : WF (.sparse sa))
    {f : K → K} (hf : sparsityPreserving f = false) :
    Features.map (.sparse sa) f = .ok (.dense ((view (.sparse sa)).map f)) := by
  have : Features.map (.sparse sa) f =
      (scatterSet f sa.activations (List.replicate sa.dim (f Scalar.zero)) >>=
        fun phi => .ok (.dense phi)) := by
    simp only [Features.map, hf]; rfl
  rw [this, scatterSet_eq_scatterMod, scatterMod_ok _ h.1, scatterAll_eq_view]
  · rw [P.ok_bind]
    congr 2
    unfold view
    rw [List.map_map]
    apply List.map_congr_left
    intro i _
    rw [Function.comp_apply, value_sparse]
    cases HMap.get? sa.activations i <;> rfl
  · intro e he; rw [List.length_replicate]; exact h.2 e he

theorem wf_map_entries {sa : SparseActivations K} (h : WF (.sparse sa)) (f : Nat → K → K) :
    WF (.sparse ⟨sa.dim, sa.activations.map fun e => (e.1, f e.1 e.2)⟩) := by
  refine ⟨HMap.nodupKeys_mapKV f h.1, ?_⟩
  intro e he
  obtain ⟨e', he', rfl⟩ := List.mem_map.1 he
  exact h.2 e' he'

theorem value_map_entries (sa : SparseActivations K) (f : K → K) (i : Nat) :
    value (.sparse ⟨sa.dim, sa.activations.map fun e => (e.1, f e.2)⟩) i =
      ((HMap.get? sa.activations i).map f).getD Scalar.zero := by
  rw [value_sparse, HMap.get?_map]

/-! ## merge -/

theorem get?_foldl_orInsert (g : K → K) (n m : HMap K) (k : Nat) :
    HMap.get? (n.foldl (fun m e => HMap.orInsert m e.1 (g e.2)) m) k =
      (HMap.get? m k).or ((HMap.get? n k).map g) := by
  induction n generalizing m with
  | nil => simp
  | cons e n ih =>
    rw [List.foldl_cons, ih, HMap.get?_orInsert, HMap.get?_cons]
    rcases HMap.get? m k with _ | a <;> by_cases hk : k = e.1 <;> simp [hk]

theorem nodupKeys_foldl_orInsert (g : K → K) (n m : HMap K) (hm : m.NodupKeys) :
    (n.foldl (fun m e => HMap.orInsert m e.1 (g e.2)) m).NodupKeys := by
  induction n generalizing m with
  | nil => exact hm
  | cons e n ih => exact ih _ (HMap.nodupKeys_orInsert hm _ _)

theorem get?_mergeSparse (sa₁ sa₂ : SparseActivations K) (f : K → K → K) (k : Nat) :
    HMap.get? (mergeSparse sa₁ sa₂ f).activations k =
      ((HMap.get? sa₁.activations k).map fun a =>
        f a ((HMap.get? sa₂.activations k).getD Scalar.zero)).or
      ((HMap.get? sa₂.activations k).map (f Scalar.zero)) := by
  show HMap.get? (List.foldl _ _ _) k = _
  rw [get?_foldl_orInsert (f Scalar.zero)]
  rw [HMap.get?_mapKV sa₁.activations
    (fun i a => f a ((HMap.get? sa₂.activations i).getD Scalar.zero))]

theorem wf_mergeSparse {sa₁ sa₂ : SparseActivations K} (h₁ : WF (.sparse sa₁))
    (h₂ : WF (.sparse sa₂)) (f : K → K → K) : WF (.sparse (mergeSparse sa₁ sa₂ f)) := by
  constructor
  · exact nodupKeys_foldl_orInsert (f Scalar.zero) _ _
      (HMap.nodupKeys_mapKV (fun i a => f a ((HMap.get? sa₂.activations i).getD Scalar.zero)) h₁.1)
  · intro e he
    show e.1 < max sa₁.dim sa₂.dim
    have hk : HMap.get? (mergeSparse sa₁ sa₂ f).activations e.1 ≠ none := by
      rw [Ne, HMap.get?_eq_none_iff, not_not]
      exact List.mem_map.2 ⟨e, he, rfl⟩
    rw [get?_mergeSparse] at hk
    rcases ha : HMap.get? sa₁.activations e.1 with _ | a
    · rcases hb : HMap.get? sa₂.activations e.1 with _ | b
      · rw [ha, hb] at hk; simp at hk
      · have := h₂.2 _ (HMap.mem_of_get? hb)
        exact lt_of_lt_of_le this (le_max_right _ _)
    · have := h₁.2 _ (HMap.mem_of_get? ha)
      exact lt_of_lt_of_le this (le_max_left _ _)

theorem value_mergeSparse (sa₁ sa₂ : SparseActivations K) (f : K → K → K) (k : Nat)
    (h : k ∈ sa₁.activations.map Prod.fst ∨ k ∈ sa₂.activations.map Prod.fst) :
    value (.sparse (mergeSparse sa₁ sa₂ f)) k =
      f (value (.sparse sa₁) k) (value (.sparse sa₂) k) := by
  rw [value_sparse, value_sparse, value_sparse, get?_mergeSparse]
  rcases ha : HMap.get? sa₁.activations k with _ | a
  · rcases hb : HMap.get? sa₂.activations k with _ | b
    · rw [HMap.get?_eq_none_iff] at ha hb
      exact absurd h (not_or.2 ⟨ha, hb⟩)
    · rfl
  · rcases hb : HMap.get? sa₂.activations k with _ | b <;> rfl

theorem value_mergeSparse_none (sa₁ sa₂ : SparseActivations K) (f : K → K → K) (k : Nat)
    (h₁ : k ∉ sa₁.activations.map Prod.fst) (h₂ : k ∉ sa₂.activations.map Prod.fst) :
    value (.sparse (mergeSparse sa₁ sa₂ f)) k = Scalar.zero := by
  rw [value_sparse, get?_mergeSparse, (HMap.get?_eq_none_iff _ _).2 h₁,
    (HMap.get?_eq_none_iff _ _).2 h₂]
  rfl

theorem mapM_ok_of {α β : Type} (f : α → P β) (g : α → β) (xs : List α)
    (h : ∀ x ∈ xs, f x = .ok (g x)) : xs.mapM f = .ok (xs.map g) := by
  refine (mapM_ok_iff _ _ _).2 ?_
  rw [List.forall₂_map_right_iff, List.forall₂_same]
  exact h

/-- The sparse/dense merge with a long enough dense side. -/
theorem merge_sparse_dense {sa₁ : SparseActivations K} {da₂ : List K} (f : K → K → K)
    (h : sa₁.dim ≤ da₂.length) :
    merge (.sparse sa₁) (.dense da₂) f = .ok (.dense ((List.range da₂.length).map fun i =>
      f (value (.sparse sa₁) i) (value (.dense da₂) i))) := by
  have hm : max sa₁.dim da₂.length = da₂.length := max_eq_right h
  simp only [merge, hm]
  rw [mapM_ok_of _ (fun i => f (value (.sparse sa₁) i) (value (.dense da₂) i))]
  · rfl
  · intro i hi
    rw [List.mem_range] at hi
    rw [idx_of_lt hi, P.ok_bind, value_sparse, value_dense, List.getD_eq_getElem?_getD,
      List.getElem?_eq_getElem hi]
    rfl

theorem mergeInto_sparse_dense (sa₁ : SparseActivations K) (da₂ : List K) (f : K → K → K) :
    mergeInto (.sparse sa₁) (.dense da₂) f =
      .ok (.dense ((List.range (max sa₁.dim da₂.length)).map fun i =>
        f (value (.sparse sa₁) i) (value (.dense da₂) i))) := by
  simp only [mergeInto, value_sparse, value_dense, List.getD_eq_getElem?_getD]

/-- The sparse/dense merge with too short a dense side panics. -/
theorem merge_sparse_dense_panics {sa₁ : SparseActivations K} {da₂ : List K} (f : K → K → K)
    (h : da₂.length < sa₁.dim) : Panics (merge (.sparse sa₁) (.dense da₂) f) := by
  have hm : max sa₁.dim da₂.length = sa₁.dim := max_eq_left (le_of_lt h)
  have : Panics ((List.range sa₁.dim).mapM fun i => do
      let y ← idx da₂ i
      (.ok (f ((sa₁.activations.get? i).getD Scalar.zero) y) : P K)) := by
    rw [mapM_panics_iff]
    exact ⟨da₂.length, List.mem_range.2 h, .indexOutOfBounds, by rw [idx_of_ge (le_refl _)]; rfl⟩
  obtain ⟨p, hp⟩ := this
  refine ⟨p, ?_⟩
  simp only [merge, hm]
  rw [hp]; rfl

end

end Lfa

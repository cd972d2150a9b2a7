import Verif.Proofs.Merge
import Mathlib.Data.List.Perm.Subperm
import Mathlib.Data.List.Dedup
import Mathlib.Data.Finset.Card

/-! # Equality of maps, counting and folding stored entries -/

set_option linter.unusedSectionVars false

namespace Lfa

open Spec Features

namespace HMap
variable {V : Type}

theorem keys_perm_of_subset {m₁ m₂ : HMap V} (h₁ : m₁.NodupKeys) (hl : m₁.length = m₂.length)
    (hs : ∀ k ∈ m₁.map Prod.fst, k ∈ m₂.map Prod.fst) :
    (m₁.map Prod.fst).Perm (m₂.map Prod.fst) :=
  (List.subperm_of_subset h₁ hs).perm_of_length_le (by simp [hl])

/-- Hash-map equality, as a relation between the lookups. -/
theorem beqWith_iff (eq : V → V → Bool) {m₁ m₂ : HMap V} (h₁ : m₁.NodupKeys)
    (h₂ : m₂.NodupKeys) :
    beqWith eq m₁ m₂ = true ↔
      ∀ k, Option.Rel (fun a b => eq a b = true) (get? m₁ k) (get? m₂ k) := by
  unfold beqWith
  rw [Bool.and_eq_true, beq_iff_eq, List.all_eq_true]
  constructor
  · rintro ⟨hl, ha⟩ k
    have hp := keys_perm_of_subset h₁ hl (by
      intro k hk
      obtain ⟨e, he, rfl⟩ := List.mem_map.1 hk
      have := ha e he
      by_contra hn
      rw [(get?_eq_none_iff _ _).2 hn] at this
      cases this)
    rcases hk : get? m₁ k with _ | a
    · have : k ∉ m₂.map Prod.fst := fun hm => (get?_eq_none_iff _ _).1 hk (hp.mem_iff.2 hm)
      rw [(get?_eq_none_iff _ _).2 this]
      exact .none
    · have := ha _ (mem_of_get? hk)
      rcases hk2 : get? m₂ k with _ | b
      · simp only [hk2] at this; cases this
      · simp only [hk2] at this; exact .some this
  · intro h
    have hk : ∀ k, k ∈ m₁.map Prod.fst ↔ k ∈ m₂.map Prod.fst := by
      intro k
      rw [← not_iff_not, ← get?_eq_none_iff, ← get?_eq_none_iff]
      have := h k
      constructor
      · intro he; rw [he] at this; cases hh : get? m₂ k with
        | none => rfl
        | some a => rw [hh] at this; cases this
      · intro he; rw [he] at this; cases hh : get? m₁ k with
        | none => rfl
        | some a => rw [hh] at this; cases this
    have hp : (m₁.map Prod.fst).Perm (m₂.map Prod.fst) :=
      (List.perm_ext_iff_of_nodup h₁ h₂).2 hk
    refine ⟨by simpa using hp.length_eq, ?_⟩
    rintro ⟨k, v⟩ he
    have := h k
    rw [get?_of_mem h₁ he] at this
    rcases hk2 : get? m₂ k with _ | b
    · rw [hk2] at this; cases this
    · rw [hk2] at this
      cases this with
      | some hr => exact hr

/-- The last entry for a key wins. -/
theorem get?_reverse_eq_some_iff (es : List (Nat × V)) (k : Nat) (v : V) :
    get? es.reverse k = some v ↔
      ∃ l₁ l₂, es = l₁ ++ (k, v) :: l₂ ∧ k ∉ l₂.map Prod.fst := by
  induction es with
  | nil => simp
  | cons e es ih =>
    rw [List.reverse_cons, get?_append]
    constructor
    · intro h
      rcases hr : get? es.reverse k with _ | w
      · rw [hr, Option.none_or, get?_cons] at h
        split at h
        · next hk =>
          cases h
          refine ⟨[], es, by rw [hk]; rfl, ?_⟩
          rw [get?_eq_none_iff] at hr
          simpa using hr
        · cases h
      · rw [hr] at h
        cases h
        obtain ⟨l₁, l₂, rfl, hn⟩ := ih.1 hr
        exact ⟨e :: l₁, l₂, rfl, hn⟩
    · rintro ⟨l₁, l₂, he, hn⟩
      cases l₁ with
      | nil =>
        cases he
        have : get? es.reverse k = none := by rw [get?_eq_none_iff]; simpa using hn
        rw [this]; simp [get?_cons]
      | cons a l₁ =>
        cases he
        rw [ih.2 ⟨l₁, l₂, rfl, hn⟩]; rfl

end HMap

section Maps
variable {K : Type} [Scalar K]

theorem mem_foldl_max (is : List Nat) (i : Nat) :
    is.foldl max i ∈ i :: is ∧ ∀ j ∈ i :: is, j ≤ is.foldl max i := by
  induction is generalizing i with
  | nil => simp
  | cons a is ih =>
    rw [List.foldl_cons]
    obtain ⟨h1, h2⟩ := ih (max i a)
    constructor
    · rcases List.mem_cons.1 h1 with h1 | h1
      · rw [h1]; rcases max_choice i a with h | h <;> rw [h] <;> simp
      · exact List.mem_cons_of_mem _ (List.mem_cons_of_mem _ h1)
    · have hm : max i a ≤ is.foldl max (max i a) := h2 _ List.mem_cons_self
      intro j hj
      rcases List.mem_cons.1 hj with rfl | hj
      · exact le_trans (le_max_left _ _) hm
      · rcases List.mem_cons.1 hj with rfl | hj
        · exact le_trans (le_max_right _ _) hm
        · exact h2 j (List.mem_cons_of_mem _ hj)

theorem maxIndex_spec {is : List Nat} {m : Nat} (h : maxIndex is = some m) :
    m ∈ is ∧ ∀ j ∈ is, j ≤ m := by
  cases is with
  | nil => cases h
  | cons i is => cases h; exact mem_foldl_max is i

theorem maxIndex_eq_none {is : List Nat} : maxIndex is = none ↔ is = [] := by
  cases is <;> simp [maxIndex]

theorem value_mkSparse (n : Nat) (es : List (Nat × K)) (i : Nat) :
    value (mkSparse n es) i = (HMap.get? es.reverse i).getD Scalar.zero := by
  show value (.sparse ⟨n, HMap.collect es⟩) i = _
  rw [value_sparse, HMap.get?_collect]

theorem get?_units (is : List Nat) (i : Nat) :
    HMap.get? (is.map fun i => (i, (Scalar.one : K)) : List (Nat × K)).reverse i =
      if i ∈ is then some Scalar.one else none := by
  rw [← List.map_reverse]
  have : ∀ l : List Nat, HMap.get? (l.map fun i => (i, (Scalar.one : K)) : List (Nat × K)) i =
      if i ∈ l then some Scalar.one else none := by
    intro l
    induction l with
    | nil => rfl
    | cons a l ih =>
      rw [List.map_cons, HMap.get?_cons, ih]
      by_cases h : i = a <;> simp [h]
  rw [this]; simp

/-- The stored indices in range, as a sublist of all indices. -/
theorem keys_perm_filter {sa : SparseActivations K} (h : WF (.sparse sa)) :
    ((List.range sa.dim).filter fun i => decide (i ∈ sa.activations.map Prod.fst)).Perm
      (sa.activations.map Prod.fst) := by
  apply (List.perm_ext_iff_of_nodup (List.nodup_range.filter _) h.1).2
  intro k
  rw [List.mem_filter, List.mem_range, decide_eq_true_eq]
  constructor
  · exact fun hk => hk.2
  · intro hk
    refine ⟨?_, hk⟩
    obtain ⟨e, he, rfl⟩ := List.mem_map.1 hk
    exact h.2 e he

theorem map_value_keys {sa : SparseActivations K} (h : KeysUnique (.sparse sa)) :
    (sa.activations.map Prod.fst).map (value (.sparse sa)) = sa.activations.map Prod.snd := by
  rw [List.map_map]
  apply List.map_congr_left
  rintro ⟨k, v⟩ he
  exact value_of_stored (φ := .sparse sa) h he

theorem foldl_filter_skip {α β : Type} (f : β → α → β) (p : α → Bool)
    (hskip : ∀ b a, p a = false → f b a = b) (l : List α) (z : β) :
    l.foldl f z = (l.filter p).foldl f z := by
  induction l generalizing z with
  | nil => rfl
  | cons a l ih =>
    rw [List.foldl_cons, List.filter_cons]
    rcases hp : p a with _ | _
    · rw [hskip _ _ hp, ih]; rfl
    · rw [if_pos rfl, List.foldl_cons, ih]

end Maps

end Lfa

import Verif.Spec.Features
import Mathlib.Data.List.Nodup

/-! # Lemmas about hash maps as entry lists -/

namespace Lfa.HMap

variable {V W : Type}

@[simp] theorem get?_nil (k : Nat) : get? ([] : HMap V) k = none := rfl

theorem get?_cons (e : Nat × V) (m : HMap V) (k : Nat) :
    get? (e :: m) k = if k = e.1 then some e.2 else get? m k := rfl

theorem get?_eq_none_iff (m : HMap V) (k : Nat) : get? m k = none ↔ k ∉ m.map Prod.fst := by
  induction m with
  | nil => simp
  | cons e m ih =>
    rw [get?_cons]
    by_cases h : k = e.1
    · simp [h]
    · rw [if_neg h, ih]
      rw [List.map_cons, List.mem_cons, not_or]
      exact ⟨fun h' => ⟨h, h'⟩, fun h' => h'.2⟩

theorem mem_of_get? {m : HMap V} {k : Nat} {v : V} (h : get? m k = some v) : (k, v) ∈ m := by
  induction m with
  | nil => simp at h
  | cons e m ih =>
    rw [get?_cons] at h
    by_cases hk : k = e.1
    · rw [if_pos hk] at h
      cases h; subst hk; exact List.mem_cons_self
    · rw [if_neg hk] at h
      exact List.mem_cons_of_mem _ (ih h)

theorem get?_of_mem {m : HMap V} (hn : m.NodupKeys) {k : Nat} {v : V} (h : (k, v) ∈ m) :
    get? m k = some v := by
  induction m with
  | nil => simp at h
  | cons e m ih =>
    unfold NodupKeys at hn
    rw [List.map_cons, List.nodup_cons] at hn
    rw [get?_cons]
    rcases List.mem_cons.1 h with h | h
    · rw [← h]; simp
    · have : k ≠ e.1 := by
        rintro rfl
        exact hn.1 (List.mem_map.2 ⟨_, h, rfl⟩)
      rw [if_neg this]
      exact ih hn.2 h

theorem get?_eq_some_iff {m : HMap V} (hn : m.NodupKeys) {k : Nat} {v : V} :
    get? m k = some v ↔ (k, v) ∈ m := ⟨mem_of_get?, get?_of_mem hn⟩

theorem NodupKeys.perm {m m' : HMap V} (hn : m.NodupKeys) (h : m.Perm m') : m'.NodupKeys :=
  (h.map Prod.fst).nodup_iff.1 hn

theorem get?_perm {m m' : HMap V} (hn : m.NodupKeys) (h : m.Perm m') (k : Nat) :
    get? m k = get? m' k := by
  rcases hk : get? m k with _ | v
  · rw [get?_eq_none_iff] at hk
    symm; rw [get?_eq_none_iff]
    rwa [← (h.map Prod.fst).mem_iff]
  · symm
    exact get?_of_mem (hn.perm h) (h.mem_iff.1 (mem_of_get? hk))

theorem contains_iff (m : HMap V) (k : Nat) : contains m k = true ↔ k ∈ m.map Prod.fst := by
  unfold contains
  rcases h : get? m k with _ | v
  · rw [get?_eq_none_iff] at h; simpa using h
  · simpa using ⟨v, mem_of_get? h⟩

theorem contains_perm {m m' : HMap V} (hn : m.NodupKeys) (h : m.Perm m') (k : Nat) :
    contains m k = contains m' k := by
  unfold contains; rw [get?_perm hn h]

/-- Two maps with unique keys and the same lookups are permutations of each other. -/
theorem perm_of_get? {m m' : HMap V} (hn : m.NodupKeys) (hn' : m'.NodupKeys)
    (h : ∀ k, get? m k = get? m' k) : m.Perm m' := by
  rw [List.perm_ext_iff_of_nodup (List.Nodup.of_map _ hn) (List.Nodup.of_map _ hn')]
  rintro ⟨k, v⟩
  rw [← get?_eq_some_iff hn, ← get?_eq_some_iff hn', h]

/-! ## insert -/

theorem get?_insert (m : HMap V) (k : Nat) (v : V) (j : Nat) :
    get? (insert m k v) j = if j = k then some v else get? m j := by
  induction m with
  | nil => simp [insert, get?_cons]
  | cons e m ih =>
    obtain ⟨k', v'⟩ := e
    by_cases h : k = k'
    · subst h
      simp only [insert, if_true, get?_cons]
      by_cases hj : j = k <;> simp [hj]
    · simp only [insert, if_neg h, get?_cons, ih]
      by_cases hj : j = k'
      · subst hj; simp [Ne.symm h]
      · simp [hj]

theorem mem_keys_insert (m : HMap V) (k : Nat) (v : V) (j : Nat) :
    j ∈ (insert m k v).map Prod.fst ↔ j = k ∨ j ∈ m.map Prod.fst := by
  rw [← not_iff_not, ← get?_eq_none_iff, get?_insert, not_or, ← get?_eq_none_iff]
  by_cases h : j = k <;> simp [h]

theorem insert_of_not_mem {m : HMap V} {k : Nat} (h : k ∉ m.map Prod.fst) (v : V) :
    insert m k v = m ++ [(k, v)] := by
  induction m with
  | nil => rfl
  | cons e m ih =>
    rw [List.map_cons, List.mem_cons, not_or] at h
    obtain ⟨k', v'⟩ := e
    simp only [insert, List.cons_append]
    rw [if_neg h.1, ih h.2]

theorem keys_insert_of_mem {m : HMap V} {k : Nat} (h : k ∈ m.map Prod.fst) (v : V) :
    (insert m k v).map Prod.fst = m.map Prod.fst := by
  induction m with
  | nil => simp at h
  | cons e m ih =>
    obtain ⟨k', v'⟩ := e
    by_cases hk : k = k'
    · simp [insert, hk]
    · have : k ∈ m.map Prod.fst := by
        rw [List.map_cons, List.mem_cons] at h
        exact h.resolve_left hk
      simp only [insert, if_neg hk, List.map_cons, ih this]

theorem nodupKeys_insert {m : HMap V} (hn : m.NodupKeys) (k : Nat) (v : V) :
    (insert m k v).NodupKeys := by
  by_cases h : k ∈ m.map Prod.fst
  · unfold NodupKeys; rw [keys_insert_of_mem h]; exact hn
  · unfold NodupKeys
    rw [insert_of_not_mem h, List.map_append, List.nodup_append]
    refine ⟨hn, by simp, ?_⟩
    intro a ha b hb
    simp only [List.map_cons, List.map_nil, List.mem_singleton] at hb
    rintro rfl; subst hb; exact h ha

/-! ## remove -/

theorem get?_remove (m : HMap V) (k j : Nat) :
    get? (remove m k) j = if j = k then none else get? m j := by
  induction m with
  | nil => simp [remove]
  | cons e m ih =>
    unfold remove at ih ⊢
    rw [List.filter_cons]
    by_cases h : e.1 = k
    · simp only [h, ne_eq, not_true_eq_false, decide_false, Bool.false_eq_true, if_false, ih,
        get?_cons]
      by_cases hj : j = k <;> simp [hj]
    · simp only [ne_eq, h, not_false_eq_true, decide_true, if_true, get?_cons, ih]
      by_cases hj : j = e.1
      · subst hj; simp [h]
      · simp [hj]

theorem nodupKeys_remove {m : HMap V} (hn : m.NodupKeys) (k : Nat) : (remove m k).NodupKeys := by
  unfold NodupKeys remove
  exact hn.sublist (List.filter_sublist.map _)

/-! ## collect -/

theorem nodupKeys_foldl_insert (es : List (Nat × V)) (m : HMap V) (hn : m.NodupKeys) :
    (es.foldl (fun m e => insert m e.1 e.2) m).NodupKeys := by
  induction es generalizing m with
  | nil => exact hn
  | cons e es ih => exact ih _ (nodupKeys_insert hn _ _)

theorem nodupKeys_collect (es : List (Nat × V)) : (collect es).NodupKeys :=
  nodupKeys_foldl_insert es [] List.nodup_nil

theorem get?_append (m m' : HMap V) (k : Nat) :
    get? (m ++ m' : List (Nat × V)) k = (get? m k).or (get? m' k) := by
  induction m with
  | nil => simp
  | cons e m ih =>
    rw [List.cons_append, get?_cons, get?_cons, ih]
    split <;> simp

theorem get?_foldl_insert (es : List (Nat × V)) (m : HMap V) (k : Nat) :
    get? (es.foldl (fun m e => insert m e.1 e.2) m) k = (get? es.reverse k).or (get? m k) := by
  induction es generalizing m with
  | nil => simp
  | cons e es ih =>
    rw [List.foldl_cons, ih, get?_insert, List.reverse_cons, get?_append]
    simp only [get?_cons, get?_nil]
    rcases get? es.reverse k with _ | v
    · split <;> simp
    · simp

/-- `collect` keeps the last value of every key. -/
theorem get?_collect (es : List (Nat × V)) (k : Nat) :
    get? (collect es) k = get? es.reverse k := by
  unfold collect; rw [get?_foldl_insert]; simp

theorem mem_keys_collect (es : List (Nat × V)) (k : Nat) :
    k ∈ (collect es).map Prod.fst ↔ k ∈ es.map Prod.fst := by
  rw [← not_iff_not, ← get?_eq_none_iff, get?_collect, get?_eq_none_iff]
  simp

theorem foldl_insert_of_nodup (es : List (Nat × V)) (m : HMap V)
    (h : NodupKeys (m ++ es : List (Nat × V))) :
    es.foldl (fun m e => insert m e.1 e.2) m = m ++ es := by
  induction es generalizing m with
  | nil => simp
  | cons e es ih =>
    have hk : e.1 ∉ m.map Prod.fst := by
      intro hm
      unfold NodupKeys at h
      rw [List.map_append, List.nodup_append] at h
      exact h.2.2 _ hm e.1 (by simp) rfl
    rw [List.foldl_cons, insert_of_not_mem hk, ih]
    · simp
    · simpa using h

/-- Collecting entries with unique keys changes nothing. -/
theorem collect_of_nodup {es : List (Nat × V)} (h : NodupKeys es) : collect es = es := by
  unfold collect; rw [foldl_insert_of_nodup es [] (by simpa using h)]; simp

theorem get?_map (m : HMap V) (f : V → W) (k : Nat) :
    get? (m.map fun e => (e.1, f e.2) : List (Nat × W)) k = (get? m k).map f := by
  induction m with
  | nil => rfl
  | cons e m ih =>
    rw [List.map_cons, get?_cons, get?_cons, ih]
    split <;> simp

theorem get?_mapKV (m : HMap V) (f : Nat → V → W) (k : Nat) :
    get? (m.map fun e => (e.1, f e.1 e.2) : List (Nat × W)) k = (get? m k).map (f k) := by
  induction m with
  | nil => rfl
  | cons e m ih =>
    rw [List.map_cons, get?_cons, get?_cons, ih]
    split
    · next h => simp only at h; subst h; simp
    · rfl

theorem nodupKeys_mapKV {m : HMap V} (f : Nat → V → W) (h : m.NodupKeys) :
    NodupKeys (m.map fun e => (e.1, f e.1 e.2) : List (Nat × W)) := by
  unfold NodupKeys at *
  rw [List.map_map]
  exact h

theorem nodupKeys_map {m : HMap V} (f : V → W) (h : m.NodupKeys) :
    NodupKeys (m.map fun e => (e.1, f e.2) : List (Nat × W)) :=
  nodupKeys_mapKV (fun _ => f) h

/-! ## orInsert -/

theorem get?_orInsert (m : HMap V) (k : Nat) (v : V) (j : Nat) :
    get? (orInsert m k v) j = (get? m j).or (if j = k then some v else none) := by
  unfold orInsert
  split
  · next h =>
    by_cases hj : j = k
    · subst hj
      unfold contains at h
      rcases hg : get? m j with _ | w
      · simp [hg] at h
      · simp
    · simp [hj]
  · next h =>
    rw [get?_insert]
    by_cases hj : j = k
    · subst hj
      have : get? m j = none := by
        unfold contains at h
        rcases hg : get? m j with _ | w
        · rfl
        · simp [hg] at h
      simp [this]
    · simp [hj]

theorem nodupKeys_orInsert {m : HMap V} (hn : m.NodupKeys) (k : Nat) (v : V) :
    (orInsert m k v).NodupKeys := by
  unfold orInsert
  split
  · exact hn
  · exact nodupKeys_insert hn _ _

/-- `value` of the specification is a lookup. -/
theorem find?_eq_get? (m : HMap V) (k : Nat) :
    (m.find? (fun e => e.1 == k)).map Prod.snd = get? m k := by
  induction m with
  | nil => rfl
  | cons e m ih =>
    rw [List.find?_cons, get?_cons]
    by_cases h : e.1 = k
    · subst h; simp
    · have h1 : (e.1 == k) = false := by simpa using h
      rw [h1, ih, if_neg (Ne.symm h)]

end Lfa.HMap

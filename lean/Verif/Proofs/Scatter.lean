import Verif.Proofs.Maps

/-! # Closed forms of the scatter loops -/

namespace Lfa

open Spec

section Idx
variable {α β : Type}

theorem idx_of_lt {xs : List α} {i : Nat} (h : i < xs.length) : idx xs i = .ok xs[i] := by
  unfold idx; rw [List.getElem?_eq_getElem h]

theorem idx_of_ge {xs : List α} {i : Nat} (h : xs.length ≤ i) :
    idx xs i = .error .indexOutOfBounds := by
  unfold idx; rw [List.getElem?_eq_none h]

theorem setIdx_of_lt {xs : List α} {i : Nat} (h : i < xs.length) (v : α) :
    setIdx xs i v = .ok (xs.set i v) := if_pos h

theorem setIdx_of_ge {xs : List α} {i : Nat} (h : xs.length ≤ i) (v : α) :
    setIdx xs i v = .error .indexOutOfBounds := if_neg (Nat.not_lt.2 h)

theorem modIdx_of_lt {xs : List α} {i : Nat} (h : i < xs.length) (f : α → α) :
    modIdx xs i f = .ok (xs.set i (f xs[i])) := by
  unfold modIdx; rw [idx_of_lt h]; exact setIdx_of_lt h _

theorem modIdx_of_ge {xs : List α} {i : Nat} (h : xs.length ≤ i) (f : α → α) :
    modIdx xs i f = .error .indexOutOfBounds := by
  unfold modIdx; rw [idx_of_ge h]; rfl

theorem modIdx_const (xs : List α) (i : Nat) (v : α) :
    modIdx xs i (fun _ => v) = setIdx xs i v := by
  rcases Nat.lt_or_ge i xs.length with h | h
  · rw [modIdx_of_lt h, setIdx_of_lt h]
  · rw [modIdx_of_ge h, setIdx_of_ge h]

theorem P.ok_bind (a : α) (f : α → P β) : (Except.ok a >>= f : P β) = f a := rfl
theorem P.error_bind (p : Panic) (f : α → P β) : (Except.error p >>= f : P β) = .error p := rfl

theorem P.bind_eq_ok {x : P α} {f : α → P β} {b : β} :
    (x >>= f) = .ok b ↔ ∃ a, x = .ok a ∧ f a = .ok b := by
  cases x with
  | error p => constructor
               · intro h; cases h
               · rintro ⟨a, h, _⟩; cases h
  | ok a => constructor
            · intro h; exact ⟨a, rfl, h⟩
            · rintro ⟨a', h, h'⟩; cases h; exact h'

theorem P.map_eq_ok {x : P α} {f : α → β} {b : β} :
    (x.map f : P β) = .ok b ↔ ∃ a, x = .ok a ∧ f a = b := by
  cases x with
  | error p => constructor
               · intro h; cases h
               · rintro ⟨a, h, _⟩; cases h
  | ok a => constructor
            · intro h; cases h; exact ⟨a, rfl, rfl⟩
            · rintro ⟨a', h, h'⟩; cases h; rw [← h']; rfl

theorem broadcast_of_eq {ys : List α} {n : Nat} (h : ys.length = n) : broadcast ys n = .ok ys := by
  unfold broadcast; rw [if_pos h]

theorem zipMutWith_of_eq {xs : List α} {ys : List β} (h : ys.length = xs.length) (f : α → β → α) :
    zipMutWith xs ys f = .ok (List.zipWith f xs ys) := by
  unfold zipMutWith; rw [broadcast_of_eq h]; rfl

end Idx

section Scatter
variable {K : Type}

/-- The effect of `scatterMod` with unique keys, at every position. -/
def scatterAll (g : K → K → K) (m : HMap K) (w : List K) : List K :=
  w.mapIdx fun j x => match m.get? j with
    | some a => g x a
    | none => x

@[simp] theorem scatterAll_length (g : K → K → K) (m : HMap K) (w : List K) :
    (scatterAll g m w).length = w.length := by simp [scatterAll]

theorem scatterAll_getElem? (g : K → K → K) (m : HMap K) (w : List K) (j : Nat) :
    (scatterAll g m w)[j]? = w[j]?.map fun x => match m.get? j with
      | some a => g x a
      | none => x := by
  simp [scatterAll]

theorem Features.scatterSet_eq_scatterMod (g : K → K) (es : List (Nat × K)) (w : List K) :
    scatterSet g es w = scatterMod (fun _ a => g a) es w := by
  unfold scatterSet scatterMod
  simp only [modIdx_const]

theorem Features.scatterMod_cons (g : K → K → K) (e : Nat × K) (es : List (Nat × K))
    (w : List K) :
    scatterMod g (e :: es) w = modIdx w e.1 (fun x => g x e.2) >>= scatterMod g es := by
  unfold scatterMod; rw [List.foldlM_cons]

/-- All indices in range and unique: every position gets exactly its own update. -/
theorem Features.scatterMod_ok (g : K → K → K) {m : HMap K} (hn : m.NodupKeys) {w : List K}
    (hr : ∀ e ∈ m, e.1 < w.length) : scatterMod g m w = .ok (scatterAll g m w) := by
  induction m generalizing w with
  | nil =>
    unfold scatterMod scatterAll
    simp only [List.foldlM_nil, HMap.get?_nil]
    have : w = w.mapIdx fun _ x => x := by
      apply List.ext_getElem?; intro j; simp
    exact congrArg Except.ok this
  | cons e m ih =>
    unfold HMap.NodupKeys at hn
    rw [List.map_cons, List.nodup_cons] at hn
    have he : e.1 < w.length := hr e List.mem_cons_self
    rw [scatterMod_cons, modIdx_of_lt he, P.ok_bind, ih hn.2]
    · congr 1
      apply List.ext_getElem?
      intro j
      rw [scatterAll_getElem?, scatterAll_getElem?, HMap.get?_cons, List.getElem?_set]
      by_cases hj : e.1 = j
      · subst hj
        have : HMap.get? m e.1 = none := (HMap.get?_eq_none_iff _ _).2 hn.1
        simp [this, he]
      · rw [if_neg hj, if_neg (Ne.symm hj)]
    · intro e' h'
      rw [List.length_set]
      exact hr e' (List.mem_cons_of_mem _ h')

/-- Some index out of range: panic, whatever the keys. -/
theorem Features.scatterMod_error (g : K → K → K) {m : List (Nat × K)} {w : List K}
    (h : ∃ e ∈ m, w.length ≤ e.1) : scatterMod g m w = .error .indexOutOfBounds := by
  induction m generalizing w with
  | nil => simp at h
  | cons e m ih =>
    rw [scatterMod_cons]
    rcases Nat.lt_or_ge e.1 w.length with he | he
    · rw [modIdx_of_lt he, P.ok_bind]
      apply ih
      obtain ⟨e', h', hl⟩ := h
      rcases List.mem_cons.1 h' with rfl | h'
      · omega
      · exact ⟨e', h', by rwa [List.length_set]⟩
    · rw [modIdx_of_ge he]; rfl

theorem Features.scatterMod_length (g : K → K → K) {m : List (Nat × K)} {w w' : List K}
    (h : scatterMod g m w = .ok w') : w'.length = w.length := by
  induction m generalizing w with
  | nil => cases h; rfl
  | cons e m ih =>
    rw [scatterMod_cons] at h
    rcases Nat.lt_or_ge e.1 w.length with he | he
    · rw [modIdx_of_lt he, P.ok_bind] at h
      rw [ih h, List.length_set]
    · rw [modIdx_of_ge he] at h; cases h

theorem Features.scatterMod_perm (g : K → K → K) {m m' : HMap K} (hn : m.NodupKeys)
    (hp : m.Perm m') (w : List K) : scatterMod g m w = scatterMod g m' w := by
  by_cases hr : ∀ e ∈ m, e.1 < w.length
  · rw [scatterMod_ok g hn hr, scatterMod_ok g (hn.perm hp) fun e he => hr e (hp.mem_iff.2 he)]
    unfold scatterAll
    simp only [HMap.get?_perm hn hp]
  · have h1 : ∃ e ∈ m, w.length ≤ e.1 := by
      by_contra hc
      exact hr fun e he => Nat.lt_of_not_le fun hl => hc ⟨e, he, hl⟩
    obtain ⟨e, he, hl⟩ := h1
    rw [scatterMod_error g ⟨e, he, hl⟩, scatterMod_error g ⟨e, hp.mem_iff.1 he, hl⟩]

theorem Features.scatterSet_perm (g : K → K) {m m' : HMap K} (hn : m.NodupKeys)
    (hp : m.Perm m') (w : List K) : scatterSet g m w = scatterSet g m' w := by
  rw [scatterSet_eq_scatterMod, scatterSet_eq_scatterMod, scatterMod_perm _ hn hp]

end Scatter

/-! ## The specification's `value` and `view` -/

section View
variable {K : Type} [Scalar K]

theorem value_dense (da : List K) (i : Nat) :
    value (.dense da) i = da.getD i Scalar.zero := rfl

theorem value_sparse (sa : SparseActivations K) (i : Nat) :
    value (.sparse sa) i = (sa.activations.get? i).getD Scalar.zero := by
  rw [← HMap.find?_eq_get?]
  show (match sa.activations.find? (fun e => e.1 == i) with
    | some e => e.2
    | none => Scalar.zero) = _
  cases List.find? (fun e => e.1 == i) sa.activations <;> rfl

@[simp] theorem view_length (φ : Features K) : (view φ).length = dim φ := by simp [view]

theorem view_getElem? (φ : Features K) (i : Nat) :
    (view φ)[i]? = if i < dim φ then some (value φ i) else none := by
  unfold view
  rw [List.getElem?_map]
  split
  · next h => rw [List.getElem?_range h]; rfl
  · next h => rw [List.getElem?_eq_none (by simpa using h)]; rfl

theorem view_dense (da : List K) : view (.dense da) = da := by
  apply List.ext_getElem?
  intro i
  rw [view_getElem?, value_dense]
  split
  · next h =>
    have h : i < da.length := h
    rw [List.getD_eq_getElem?_getD, List.getElem?_eq_getElem h]; rfl
  · next h =>
    have h : ¬ i < da.length := h
    rw [List.getElem?_eq_none (by omega)]

theorem value_of_ge_dim {φ : Features K} (h : WF φ) {i : Nat} (hi : dim φ ≤ i) :
    value φ i = Scalar.zero := by
  cases φ with
  | dense da =>
    rw [value_dense, List.getD_eq_getElem?_getD, List.getElem?_eq_none hi]; rfl
  | sparse sa =>
    rw [value_sparse, (HMap.get?_eq_none_iff _ _).2]
    · rfl
    · intro hm
      obtain ⟨e, he, rfl⟩ := List.mem_map.1 hm
      exact absurd (h.2 e he) (Nat.not_lt.2 hi)

theorem view_ext {φ ψ : Features K} (hd : dim φ = dim ψ)
    (hv : ∀ i, i < dim φ → value φ i = value ψ i) : view φ = view ψ := by
  apply List.ext_getElem?
  intro i
  rw [view_getElem?, view_getElem?, ← hd]
  split
  · next h => rw [hv i h]
  · rfl

omit [Scalar K] in
theorem scatterAll_eq_view (g : K → K) (z : K) (sa : SparseActivations K) :
    scatterAll (fun _ a => g a) sa.activations (List.replicate sa.dim z) =
      (List.range sa.dim).map fun i => match sa.activations.get? i with
        | some a => g a
        | none => z := by
  apply List.ext_getElem?
  intro i
  rw [scatterAll_getElem?, List.getElem?_map, List.getElem?_replicate]
  by_cases h : i < sa.dim
  · rw [if_pos h, List.getElem?_range h]; rfl
  · rw [if_neg h, List.getElem?_eq_none (by simpa using h)]; rfl

theorem toDense_eq_view {φ : Features K} (h : WF φ) : φ.toDense = .ok (view φ) := by
  cases φ with
  | dense da => rw [view_dense]; rfl
  | sparse sa =>
    show Features.scatterSet id sa.activations (List.replicate sa.dim Scalar.zero) = _
    rw [Features.scatterSet_eq_scatterMod, Features.scatterMod_ok _ h.1, scatterAll_eq_view]
    · congr 1
      apply List.map_congr_left
      intro i _
      rw [value_sparse]
      cases HMap.get? sa.activations i <;> rfl
    · intro e he; rw [List.length_replicate]; exact h.2 e he

theorem intoDense_eq_toDense (φ : Features K) : φ.intoDense = φ.toDense := by
  cases φ <;> rfl

end View

end Lfa

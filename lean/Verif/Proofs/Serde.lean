import Verif.Spec.Serde
import Verif.Proofs.Maps

/-! # Lemmas about saving and restoring -/

set_option linter.unusedSectionVars false

namespace Lfa

open Spec Codec

variable {K : Type}

/-- Element by element. -/
def Reforms (ts ts' : List (Tree K)) : Prop := ts'.length = ts.length ∧ ∀ p ∈ ts.zip ts', Reform p.1 p.2

theorem reforms_refl (ts : List (Tree K)) : Reforms ts ts := by
  refine ⟨rfl, fun p hp => ?_⟩
  rw [← List.map_id ts, List.zip_map', List.mem_map] at hp
  obtain ⟨t, -, rfl⟩ := hp
  exact .refl t

theorem reforms_cons {t : Tree K} {ts us : List (Tree K)} (h : Reforms (t :: ts) us) :
    ∃ u us', us = u :: us' ∧ Reform t u ∧ Reforms ts us' := by
  cases us with
  | nil => exact absurd h.1 (by simp)
  | cons u us =>
    refine ⟨u, us, rfl, h.2 (t, u) (by simp), by simpa using h.1, fun p hp => h.2 p ?_⟩
    exact List.mem_cons_of_mem _ hp

theorem reforms_nil {us : List (Tree K)} (h : Reforms [] us) : us = [] := List.eq_nil_of_length_eq_zero h.1

theorem reform_seq {ts : List (Tree K)} {t : Tree K} (h : Reform (.seq ts) t) :
    ∃ us, t = .seq us ∧ Reforms ts us := by
  cases h with
  | refl => exact ⟨ts, rfl, reforms_refl ts⟩
  | seq _ us hl h => exact ⟨us, rfl, hl, h⟩

theorem reform_fields {names : List String} {ts : List (Tree K)} (hl : ts.length = names.length) {t : Tree K}
    (h : Reform (.fields (names.zip ts)) t) :
    ∃ us, Reforms ts us ∧ (t = .seq us ∨ ∃ gs, t = .fields gs ∧ gs.Perm (names.zip us)) := by
  have e1 : (names.zip ts).map Prod.fst = names := List.map_fst_zip hl.ge
  have e2 : (names.zip ts).map Prod.snd = ts := List.map_snd_zip hl.le
  have e3 : (names.zip ts).length = ts.length := by rw [List.length_zip, hl, min_self]
  cases h with
  | refl => exact ⟨ts, reforms_refl ts, .inr ⟨_, rfl, .refl _⟩⟩
  | unnamed _ us hl' h =>
    rw [e2] at h
    exact ⟨us, ⟨hl'.trans e3, h⟩, .inl rfl⟩
  | named _ us hl' h gs hg =>
    rw [e2] at h
    rw [e1] at hg
    exact ⟨us, ⟨hl'.trans e3, h⟩, .inr ⟨gs, rfl, hg⟩⟩

/-! ## Primitive codecs -/

theorem float_restores : Restores (float : Codec K K) fun _ => True := by
  intro x t _ h
  cases h
  rfl

theorem nat_restores : Restores (nat : Codec K Nat) fun _ => True := by
  intro x t _ h
  cases h
  rfl

theorem string_restores : Restores (string : Codec K String) fun _ => True := by
  intro x t _ h
  cases h
  rfl

theorem deList_restores {T : Type} {c : Codec K T} {I : T → Prop} (hc : Restores c I) :
    ∀ (xs : List T) (us : List (Tree K)), (∀ x ∈ xs, I x) → Reforms (xs.map c.ser) us →
      c.deList us = .ok (.ok xs)
  | [], us, _, h => by rw [reforms_nil h]; rfl
  | x :: xs, us, hI, h => by
    obtain ⟨u, us', rfl, h1, h2⟩ := reforms_cons h
    unfold deList
    rw [hc x u (hI x List.mem_cons_self) h1,
      deList_restores hc xs us' (fun y hy => hI y (List.mem_cons_of_mem _ hy)) h2]
    rfl

theorem list_restores {T : Type} {c : Codec K T} {I : T → Prop} (hc : Restores c I) :
    Restores c.list fun xs => ∀ x ∈ xs, I x := by
  intro xs t hI h
  obtain ⟨us, rfl, h'⟩ := reform_seq h
  exact deList_restores hc xs us hI h'

theorem list_restores' {T : Type} {c : Codec K T} (hc : Restores c fun _ => True) :
    Restores c.list fun _ => True := fun xs t _ h => list_restores hc xs t (fun _ _ => trivial) h

theorem pair_restores : Restores (pair : Codec K (K × K)) fun _ => True := by
  intro x t _ h
  obtain ⟨us, rfl, h'⟩ := reform_seq (ts := [.num x.1, .num x.2]) h
  obtain ⟨u, us, rfl, h1, h'⟩ := reforms_cons h'
  obtain ⟨v, us, rfl, h2, h'⟩ := reforms_cons h'
  rw [reforms_nil h']
  cases h1
  cases h2
  rfl

theorem hmap_restores : Restores (hmap : Codec K (HMap K)) HMap.NodupKeys := by
  intro m t hm h
  cases h
  have h1 : (m.map fun e => (e.1, Tree.num e.2)).map Prod.snd = (m.map Prod.snd).map float.ser := by
    rw [List.map_map, List.map_map]; rfl
  have h2 : (m.map fun e => (e.1, Tree.num e.2)).map Prod.fst = m.map Prod.fst := by
    rw [List.map_map]; rfl
  show (do
    match ← deList float ((m.map fun e => (e.1, Tree.num e.2)).map Prod.snd) with
      | .error e => .ok (.error e)
      | .ok xs => .ok (.ok (HMap.collect (((m.map fun e => (e.1, Tree.num e.2)).map Prod.fst).zip xs))) :
        P (Except Chebyshev.DeError (HMap K))) = _
  rw [h1, h2, deList_restores float_restores _ _ (fun _ _ => trivial) (reforms_refl _)]
  show Except.ok (Except.ok (HMap.collect ((m.map Prod.fst).zip (m.map Prod.snd)))) = _
  rw [List.zip_map', List.map_id', HMap.collect_of_nodup hm]

theorem hset_restores : Restores (hset : Codec K (List Nat)) List.Nodup := by
  intro xs t hx h
  unfold hset
  simp only
  rw [list_restores' nat_restores xs t trivial h]
  show Except.ok (Except.ok (hashSet xs)) = _
  rw [hashSet, List.Nodup.dedup hx]

theorem deMap_restores {S T : Type} {c : Codec K S} {I : S → Prop} (hc : Restores c I) (join : S → T) (x : S)
    (t : Tree K) (hI : I x) (h : Reform (c.ser x) t) : c.deMap join t = .ok (.ok (join x)) := by
  unfold deMap
  rw [hc x t hI h]
  rfl

theorem via_restores {S T : Type} {c : Codec K S} {I : S → Prop} (hc : Restores c I) {split : T → S}
    {join : S → T} (hj : ∀ x, join (split x) = x) :
    Restores (via c split join) fun x => I (split x) := by
  intro x t hI h
  show c.deMap join t = _
  rw [deMap_restores hc join (split x) t hI h, hj]

/-! ## Structs -/

/-- The fields are restored. -/
def FieldsRestore {T : Type} (f : Fields K T) (I : T → Prop) : Prop :=
  ∀ x us, I x → Reforms (f.ser x) us → f.de us = .ok (.ok x)

theorem nil_restores : FieldsRestore (Fields.nil : Fields K Unit) fun _ => True := fun _ _ _ _ => rfl

theorem cons_restores {S T : Type} {c : Codec K S} {f : Fields K T} {I : S → Prop} {J : T → Prop}
    (hc : Restores c I) (hf : FieldsRestore f J) :
    FieldsRestore (Fields.cons c f) fun x => I x.1 ∧ J x.2 := by
  intro x us hI h
  obtain ⟨u, us', rfl, h1, h2⟩ := reforms_cons h
  unfold Fields.cons
  simp only
  rw [hc x.1 u hI.1 h1, hf x.2 us' hI.2 h2]
  rfl

theorem getField_of_mem {gs : List (String × Tree K)} (hn : (gs.map Prod.fst).Nodup) {n : String} {t : Tree K}
    (h : (n, t) ∈ gs) : getField gs n = .ok t := by
  have : gs.filter (fun e => e.1 = n) = [(n, t)] := by
    induction gs with
    | nil => cases h
    | cons e gs ih =>
      rw [List.map_cons, List.nodup_cons] at hn
      rcases List.mem_cons.1 h with rfl | h
      · rw [List.filter_cons_of_pos (by simp)]
        congr 1
        rw [List.filter_eq_nil_iff]
        intro e he hd
        exact hn.1 (List.mem_map.2 ⟨e, he, of_decide_eq_true hd⟩)
      · rw [List.filter_cons_of_neg, ih hn.2 h]
        intro hd
        exact hn.1 (List.mem_map.2 ⟨_, h, (of_decide_eq_true hd).symm⟩)
  unfold getField
  rw [this]

theorem getFields_of_mem {gs : List (String × Tree K)} (hn : (gs.map Prod.fst).Nodup) :
    ∀ (names : List String) (us : List (Tree K)), us.length = names.length →
      (∀ p ∈ names.zip us, p ∈ gs) → getFields gs names = .ok us
  | [], us, hl, _ => by rw [List.eq_nil_of_length_eq_zero hl]; rfl
  | n :: ns, [], hl, _ => by simp at hl
  | n :: ns, u :: us, hl, h => by
    unfold getFields
    rw [getField_of_mem hn (h (n, u) List.mem_cons_self),
      getFields_of_mem hn ns us (by simpa using hl) fun p hp => h p (List.mem_cons_of_mem _ hp)]

theorem struct_restores {S T : Type} {names : List String} (hn : names.Nodup) {f : Fields K S} {I : S → Prop}
    (hf : FieldsRestore f I) (hl : ∀ s, (f.ser s).length = names.length) {split : T → S} {join : S → T}
    (hj : ∀ x, join (split x) = x) : Restores (struct names f split join) fun x => I (split x) := by
  intro x t hI h
  obtain ⟨us, h1, h2⟩ := reform_fields (hl _) h
  have h3 : us.length = names.length := h1.1.trans (hl _)
  have h4 := hf (split x) us hI h1
  rcases h2 with rfl | ⟨gs, rfl, hg⟩
  · unfold struct
    simp only
    rw [if_neg (by omega)]
    simp only
    rw [h4]
    show Except.ok (Except.ok (join (split x))) = _
    rw [hj]
  · have h5 : (gs.map Prod.fst).Nodup := by
      rw [(hg.map Prod.fst).nodup_iff, List.map_fst_zip h3.ge]
      exact hn
    have h6 := getFields_of_mem h5 names us h3 fun p hp => hg.mem_iff.2 hp
    unfold struct
    simp only
    rw [h6]
    simp only
    rw [h4]
    show Except.ok (Except.ok (join (split x))) = _
    rw [hj]

end Lfa

import Verif.Spec.Optim
import Verif.Proofs.Features

/-! # Closed forms of the optimiser steps -/

set_option linter.unusedSectionVars false

namespace Lfa

open Spec Features

section Entry
variable {K : Type} [Scalar K]

theorem getElem?_entry {l : List K} {i : Nat} (h : i < l.length) : l[i]? = some (entry l i) := by
  unfold entry; rw [List.getD_eq_getElem?_getD, List.getElem?_eq_getElem h]; rfl

theorem entry_of_getElem? {l : List K} {i : Nat} {a : K} (h : l[i]? = some a) : entry l i = a := by
  unfold entry; rw [List.getD_eq_getElem?_getD, h]; rfl

theorem entry_of_ge {l : List K} {i : Nat} (h : l.length ≤ i) : entry l i = Scalar.zero := by
  unfold entry; rw [List.getD_eq_getElem?_getD, List.getElem?_eq_none h]; rfl

theorem getElem_entry {l : List K} {i : Nat} (h : i < l.length) : l[i] = entry l i := by
  have := getElem?_entry h
  rw [List.getElem?_eq_getElem h] at this
  exact Option.some.inj this

theorem ext_entry {l l' : List K} (hl : l.length = l'.length)
    (h : ∀ i < l.length, entry l i = entry l' i) : l = l' := by
  apply List.ext_getElem?
  intro i
  rcases Nat.lt_or_ge i l.length with hi | hi
  · rw [getElem?_entry hi, getElem?_entry (hl ▸ hi), h i hi]
  · rw [List.getElem?_eq_none hi, List.getElem?_eq_none (hl ▸ hi)]

theorem entry_zipWith (f : K → K → K) {xs ys : List K} {i : Nat} (hx : i < xs.length)
    (hy : i < ys.length) : entry (List.zipWith f xs ys) i = f (entry xs i) (entry ys i) := by
  apply entry_of_getElem?
  rw [List.getElem?_zipWith, getElem?_entry hx, getElem?_entry hy]

theorem entry_map (f : K → K) {xs : List K} {i : Nat} (h : i < xs.length) :
    entry (xs.map f) i = f (entry xs i) := by
  apply entry_of_getElem?
  rw [List.getElem?_map, getElem?_entry h]; rfl

theorem entry_replicate (n i : Nat) : entry (List.replicate n (Scalar.zero : K)) i = Scalar.zero := by
  unfold entry
  rw [List.getD_eq_getElem?_getD, List.getElem?_replicate]
  split <;> rfl

theorem entry_set {xs : List K} {i j : Nat} (v : K) (h : i < xs.length) :
    entry (xs.set j v) i = if j = i then v else entry xs i := by
  apply entry_of_getElem?
  rw [List.getElem?_set]
  by_cases hj : j = i
  · subst hj; simp [h]
  · rw [if_neg hj, if_neg hj, getElem?_entry h]

theorem entry_scatterAll (g : K → K → K) (m : HMap K) {w : List K} {i : Nat} (h : i < w.length) :
    entry (scatterAll g m w) i = match m.get? i with
      | some a => g (entry w i) a
      | none => entry w i := by
  apply entry_of_getElem?
  rw [scatterAll_getElem?, getElem?_entry h]; rfl

theorem stored_sparse_iff {sa : SparseActivations K} (h : KeysUnique (.sparse sa)) (i : Nat) (a : K) :
    Stored (.sparse sa) i a ↔ sa.activations.get? i = some a :=
  ⟨fun hs => HMap.get?_of_mem h hs, fun hs => HMap.mem_of_get? hs⟩

theorem not_active_sparse_iff {sa : SparseActivations K} (h : KeysUnique (.sparse sa)) (i : Nat) :
    ¬ Active (.sparse sa) i ↔ sa.activations.get? i = none := by
  unfold Active
  simp only [stored_sparse_iff h]
  cases sa.activations.get? i <;> simp

theorem active_dense {da : List K} {i : Nat} (h : i < da.length) : Active (.dense da) i :=
  ⟨_, getElem?_entry h⟩

end Entry

/-! ## One step, any arithmetic -/

section Any
variable {K : Type} [Scalar K]

/-- Weights after a `scaled_addto`. -/
theorem scaledAddto_any {n : Nat} {φ : Features K} (h : Fits n φ) (α : K) {w : List K}
    (hw : w.length = n) :
    ∃ w', φ.scaledAddto α w = .ok w' ∧ w'.length = n ∧ ∀ i < n,
      (∀ a, Stored φ i a → entry w' i = (entry w i +. α *. a)) ∧
      (¬ Active φ i → entry w' i = entry w i) := by
  obtain ⟨hwf, hd⟩ := h
  cases φ with
  | dense da =>
    have hd : da.length = n := hd
    refine ⟨_, zipMutWith_of_eq (hd.trans hw.symm) _, by simp [hd, hw], fun i hi => ⟨?_, ?_⟩⟩
    · intro a ha
      have ha : da[i]? = some a := ha
      rw [entry_zipWith _ (hw ▸ hi) (hd ▸ hi), entry_of_getElem? ha]
    · intro ha; exact absurd (active_dense (hd ▸ hi)) ha
  | sparse sa =>
    have hr : ∀ e ∈ sa.activations, e.1 < w.length := fun e he => by
      rw [hw, ← hd]; exact hwf.2 e he
    refine ⟨_, scatterMod_ok (fun w a => w +. α *. a) hwf.1 hr, by simp [hw], fun i hi => ⟨?_, ?_⟩⟩
    · intro a ha
      rw [entry_scatterAll _ _ (hw ▸ hi), (stored_sparse_iff hwf.1 i a).1 ha]
    · intro ha
      rw [entry_scatterAll _ _ (hw ▸ hi), (not_active_sparse_iff hwf.1 i).1 ha]

/-- The velocity after `velocityUpdate`. -/
theorem velocityUpdate_any {n : Nat} {φ : Features K} (h : Fits n φ) (m s : K) {v : List K}
    (hv : v.length = n) :
    ∃ v', velocityUpdate m v φ s = .ok v' ∧ v'.length = n ∧ ∀ i < n,
      entry v' i = (m *. entry v i +. value φ i *. s) ∨
      (¬ Active φ i ∧ entry v' i = entry v i *. m) ∨
      (Active φ i ∧ entry v' i = (entry v i *. m +. value φ i *. s)) := by
  obtain ⟨hwf, hd⟩ := h
  cases φ with
  | dense da =>
    have hd : da.length = n := hd
    refine ⟨_, zipMutWith_of_eq (hd.trans hv.symm) _, by simp [hd, hv], fun i hi => .inl ?_⟩
    rw [entry_zipWith _ (hv ▸ hi) (hd ▸ hi)]; rfl
  | sparse sa =>
    have hr : ∀ e ∈ sa.activations, e.1 < (v.map (· *. m)).length := fun e he => by
      rw [List.length_map, hv, ← hd]; exact hwf.2 e he
    refine ⟨_, scatterMod_ok (fun x a => x +. a *. s) hwf.1 hr, by simp [hv], fun i hi => .inr ?_⟩
    rw [entry_scatterAll _ _ (by rw [List.length_map, hv]; exact hi), entry_map _ (hv ▸ hi),
      value_sparse]
    rcases hg : sa.activations.get? i with _ | a
    · exact .inl ⟨(not_active_sparse_iff hwf.1 i).2 hg, rfl⟩
    · exact .inr ⟨⟨a, (stored_sparse_iff hwf.1 i a).2 hg⟩, rfl⟩

theorem scaledAdd_any {n : Nat} {w v : List K} (hw : w.length = n) (hv : v.length = n) (α : K) :
    ∃ w', scaledAdd w α v = .ok w' ∧ w'.length = n ∧ ∀ i < n,
      entry w' i = (entry w i +. α *. entry v i) := by
  refine ⟨_, zipMutWith_of_eq (hv.trans hw.symm) _, by simp [hv, hw], fun i hi => ?_⟩
  rw [entry_zipWith _ (hw ▸ hi) (hv ▸ hi)]

/-! ### Loops over entries that update two or three arrays -/

/-- The shape of the loop bodies of Adam and AdaMax. -/
def body3 (F G : K → K → K) (H : K → K → K → K) (st : List K × List K × List K) (e : Nat × K) :
    P (List K × List K × List K) := do
  let x ← idx st.1 e.1
  let y ← idx st.2.1 e.1
  let m ← setIdx st.1 e.1 (F x e.2)
  let u ← setIdx st.2.1 e.1 (G y e.2)
  let w ← modIdx st.2.2 e.1 (fun w => H w (F x e.2) (G y e.2))
  .ok (m, u, w)

theorem body3_of_lt {F G : K → K → K} {H : K → K → K → K} {m u w : List K} {e : Nat × K} {n : Nat}
    (hm : m.length = n) (hu : u.length = n) (hw : w.length = n) (he : e.1 < n) :
    body3 F G H (m, u, w) e = .ok (m.set e.1 (F (entry m e.1) e.2), u.set e.1 (G (entry u e.1) e.2),
      w.set e.1 (H (entry w e.1) (F (entry m e.1) e.2) (G (entry u e.1) e.2))) := by
  have hm' : e.1 < m.length := hm ▸ he
  have hu' : e.1 < u.length := hu ▸ he
  have hw' : e.1 < w.length := hw ▸ he
  unfold body3
  simp only [idx_of_lt hm', idx_of_lt hu', P.ok_bind, setIdx_of_lt hm', setIdx_of_lt hu',
    modIdx_of_lt hw', getElem_entry]

theorem body3_loop {F G : K → K → K} {H : K → K → K → K} {n : Nat} : ∀ {es : HMap K}
    {m u w : List K}, es.NodupKeys → (∀ e ∈ es, e.1 < n) → m.length = n → u.length = n →
    w.length = n →
    ∃ m' u' w', es.foldlM (body3 F G H) (m, u, w) = .ok (m', u', w') ∧ m'.length = n ∧
      u'.length = n ∧ w'.length = n ∧ ∀ i < n,
      (es.get? i = none → entry m' i = entry m i ∧ entry u' i = entry u i ∧
        entry w' i = entry w i) ∧
      (∀ a, es.get? i = some a → entry m' i = F (entry m i) a ∧ entry u' i = G (entry u i) a ∧
        entry w' i = H (entry w i) (F (entry m i) a) (G (entry u i) a))
  | [], m, u, w, _, _, hm, hu, hw =>
    ⟨m, u, w, rfl, hm, hu, hw, fun i _ => ⟨fun _ => ⟨rfl, rfl, rfl⟩, fun a ha => by cases ha⟩⟩
  | e :: es, m, u, w, hn, hr, hm, hu, hw => by
    unfold HMap.NodupKeys at hn
    rw [List.map_cons, List.nodup_cons] at hn
    have he : e.1 < n := hr e List.mem_cons_self
    obtain ⟨m', u', w', h1, h2, h3, h4, h5⟩ := body3_loop (F := F) (G := G) (H := H) (n := n)
      (es := es) (m := m.set e.1 (F (entry m e.1) e.2)) (u := u.set e.1 (G (entry u e.1) e.2))
      (w := w.set e.1 (H (entry w e.1) (F (entry m e.1) e.2) (G (entry u e.1) e.2)))
      hn.2 (fun e' h' => hr e' (List.mem_cons_of_mem _ h')) (by simp [hm]) (by simp [hu])
      (by simp [hw])
    refine ⟨m', u', w', ?_, h2, h3, h4, fun i hi => ?_⟩
    · rw [List.foldlM_cons, body3_of_lt hm hu hw he, P.ok_bind]; exact h1
    · obtain ⟨h6, h7⟩ := h5 i hi
      rw [entry_set _ (hm ▸ hi), entry_set _ (hu ▸ hi), entry_set _ (hw ▸ hi)] at h6 h7
      rw [HMap.get?_cons]
      by_cases hie : i = e.1
      · subst hie
        rw [if_pos rfl]
        have hg : HMap.get? es e.1 = none := (HMap.get?_eq_none_iff _ _).2 hn.1
        refine ⟨fun h => (by cases h), fun a ha => ?_⟩
        cases ha
        simpa using h6 hg
      · rw [if_neg hie]
        rw [if_neg (Ne.symm hie), if_neg (Ne.symm hie), if_neg (Ne.symm hie)] at h6 h7
        exact ⟨h6, h7⟩

/-- The shape of Adagrad's loop body. -/
def body2 (F : K → K → K) (H : K → K → K → K) (st : List K × List K) (e : Nat × K) :
    P (List K × List K) := do
  let x ← idx st.1 e.1
  let m ← setIdx st.1 e.1 (F x e.2)
  let w ← modIdx st.2 e.1 (fun w => H w (F x e.2) e.2)
  .ok (m, w)

theorem body2_of_lt {F : K → K → K} {H : K → K → K → K} {m w : List K} {e : Nat × K} {n : Nat}
    (hm : m.length = n) (hw : w.length = n) (he : e.1 < n) :
    body2 F H (m, w) e = .ok (m.set e.1 (F (entry m e.1) e.2),
      w.set e.1 (H (entry w e.1) (F (entry m e.1) e.2) e.2)) := by
  have hm' : e.1 < m.length := hm ▸ he
  have hw' : e.1 < w.length := hw ▸ he
  unfold body2
  simp only [idx_of_lt hm', P.ok_bind, setIdx_of_lt hm', modIdx_of_lt hw', getElem_entry]

theorem body2_loop {F : K → K → K} {H : K → K → K → K} {n : Nat} : ∀ {es : HMap K}
    {m w : List K}, es.NodupKeys → (∀ e ∈ es, e.1 < n) → m.length = n → w.length = n →
    ∃ m' w', es.foldlM (body2 F H) (m, w) = .ok (m', w') ∧ m'.length = n ∧
      w'.length = n ∧ ∀ i < n,
      (es.get? i = none → entry m' i = entry m i ∧ entry w' i = entry w i) ∧
      (∀ a, es.get? i = some a → entry m' i = F (entry m i) a ∧
        entry w' i = H (entry w i) (F (entry m i) a) a)
  | [], m, w, _, _, hm, hw =>
    ⟨m, w, rfl, hm, hw, fun i _ => ⟨fun _ => ⟨rfl, rfl⟩, fun a ha => by cases ha⟩⟩
  | e :: es, m, w, hn, hr, hm, hw => by
    unfold HMap.NodupKeys at hn
    rw [List.map_cons, List.nodup_cons] at hn
    have he : e.1 < n := hr e List.mem_cons_self
    obtain ⟨m', w', h1, h2, h4, h5⟩ := body2_loop (F := F) (H := H) (n := n)
      (es := es) (m := m.set e.1 (F (entry m e.1) e.2))
      (w := w.set e.1 (H (entry w e.1) (F (entry m e.1) e.2) e.2))
      hn.2 (fun e' h' => hr e' (List.mem_cons_of_mem _ h')) (by simp [hm]) (by simp [hw])
    refine ⟨m', w', ?_, h2, h4, fun i hi => ?_⟩
    · rw [List.foldlM_cons, body2_of_lt hm hw he, P.ok_bind]; exact h1
    · obtain ⟨h6, h7⟩ := h5 i hi
      rw [entry_set _ (hm ▸ hi), entry_set _ (hw ▸ hi)] at h6 h7
      rw [HMap.get?_cons]
      by_cases hie : i = e.1
      · subst hie
        rw [if_pos rfl]
        have hg : HMap.get? es e.1 = none := (HMap.get?_eq_none_iff _ _).2 hn.1
        refine ⟨fun h => (by cases h), fun a ha => ?_⟩
        cases ha
        simpa using h6 hg
      · rw [if_neg hie]
        rw [if_neg (Ne.symm hie), if_neg (Ne.symm hie)] at h6 h7
        exact ⟨h6, h7⟩

theorem indexedIter_keys (xs : List K) : (indexedIter xs).map Prod.fst = List.range xs.length := by
  unfold indexedIter
  rw [List.map_map]
  show xs.zipIdx.map Prod.snd = _
  rw [List.zipIdx_map_snd, List.range_eq_range']

theorem mem_indexedIter {xs : List K} {i : Nat} {a : K} :
    (i, a) ∈ indexedIter xs ↔ xs[i]? = some a := by
  unfold indexedIter
  rw [List.mem_map]
  constructor
  · rintro ⟨⟨b, j⟩, hp, h⟩
    cases h
    exact List.mem_zipIdx_iff_getElem?.1 hp
  · intro h
    exact ⟨(a, i), List.mem_zipIdx_iff_getElem?.2 h, rfl⟩

theorem indexedIter_nodup (xs : List K) : HMap.NodupKeys (indexedIter xs) := by
  unfold HMap.NodupKeys; rw [indexedIter_keys]; exact List.nodup_range

theorem get?_indexedIter (xs : List K) (i : Nat) : HMap.get? (indexedIter xs) i = xs[i]? := by
  rcases h : xs[i]? with _ | a
  · rw [HMap.get?_eq_none_iff, indexedIter_keys, List.mem_range]
    rw [List.getElem?_eq_none_iff] at h; omega
  · exact HMap.get?_of_mem (indexedIter_nodup xs) (mem_indexedIter.2 h)

theorem indexedIter_lt {xs : List K} {e : Nat × K} (h : e ∈ indexedIter xs) : e.1 < xs.length := by
  have : e.1 ∈ (indexedIter xs).map Prod.fst := List.mem_map.2 ⟨e, h, rfl⟩
  rwa [indexedIter_keys, List.mem_range] at this

/-! ### Adagrad -/

theorem denseLoop_any (lr s : K) : ∀ {n : Nat} {da w acc : List K}, da.length = n → w.length = n →
    acc.length = n →
    (Adagrad.denseLoop lr s da w acc).1.length = n ∧ (Adagrad.denseLoop lr s da w acc).2.length = n ∧
    ∀ i < n,
      entry (Adagrad.denseLoop lr s da w acc).1 i =
        (entry acc i +. Scalar.powi (entry da i *. s) 2) ∧
      entry (Adagrad.denseLoop lr s da w acc).2 i =
        (entry w i +. lr *. (entry da i *. s) /.
          (Scalar.sqrt (entry acc i +. Scalar.powi (entry da i *. s) 2) +. EPS))
  | 0, [], [], [], _, _, _ => ⟨rfl, rfl, fun i hi => absurd hi (Nat.not_lt_zero i)⟩
  | n + 1, a :: da, x :: w, c :: acc, h1, h2, h3 => by
    obtain ⟨i1, i2, i3⟩ := denseLoop_any lr s (n := n) (da := da) (w := w) (acc := acc)
      (Nat.succ.inj h1) (Nat.succ.inj h2) (Nat.succ.inj h3)
    refine ⟨congrArg Nat.succ i1, congrArg Nat.succ i2, fun i hi => ?_⟩
    cases i with
    | zero => exact ⟨rfl, rfl⟩
    | succ i => exact i3 i (Nat.lt_of_succ_lt_succ hi)

theorem adagrad_any {n : Nat} {φ : Features K} (h : Fits n φ) (o : Adagrad K)
    (ho : o.accumulator.length = n) (s : K) {w : List K} (hw : w.length = n) :
    ∃ acc w', o.loop w φ s = .ok (acc, w') ∧ acc.length = n ∧ w'.length = n ∧ ∀ i < n,
      entry acc i = (entry o.accumulator i +. Scalar.powi (value φ i *. s) 2) ∧
      entry w' i = (entry w i +. o.learningRate *. (value φ i *. s) /.
          (Scalar.sqrt (entry o.accumulator i +. Scalar.powi (value φ i *. s) 2) +. EPS)) := by
  obtain ⟨hwf, hd⟩ := h
  cases φ with
  | dense da =>
    obtain ⟨h1, h2, h3⟩ := denseLoop_any o.learningRate s (n := n) hd hw ho
    exact ⟨_, _, rfl, h1, h2, h3⟩
  | sparse sa =>
    have e : o.loop w (.sparse sa) s =
        ((List.range n).map fun i => (i, (sa.activations.get? i).getD Scalar.zero)).foldlM
          (body2 (fun x a => x +. Scalar.powi (a *. s) 2)
            (fun w ss a => w +. o.learningRate *. (a *. s) /. (Scalar.sqrt ss +. EPS)))
          (o.accumulator, w) := by
      rw [List.foldlM_map]
      show (List.range o.accumulator.length).foldlM _ _ = _
      rw [ho]; rfl
    have hk : ((List.range n).map fun i => (i, (sa.activations.get? i).getD Scalar.zero)).map
        Prod.fst = List.range n := by
      rw [List.map_map]; exact List.map_id _
    have hnd : HMap.NodupKeys ((List.range n).map fun i =>
        (i, (sa.activations.get? i).getD (Scalar.zero : K))) := by
      unfold HMap.NodupKeys; rw [hk]; exact List.nodup_range
    rw [e]
    obtain ⟨acc, w', h1, h2, h3, h4⟩ := body2_loop
      (F := fun x a => x +. Scalar.powi (a *. s) 2)
      (H := fun w ss a => w +. o.learningRate *. (a *. s) /. (Scalar.sqrt ss +. EPS)) (n := n)
      (es := (List.range n).map fun i => (i, (sa.activations.get? i).getD (Scalar.zero : K)))
      (m := o.accumulator) (w := w) hnd
      (fun e he => by
        obtain ⟨i, hi, rfl⟩ := List.mem_map.1 he
        exact List.mem_range.1 hi) ho hw
    refine ⟨acc, w', h1, h2, h3, fun i hi => ?_⟩
    rw [value_sparse]
    exact (h4 i hi).2 _ (HMap.get?_of_mem hnd
      (List.mem_map.2 ⟨i, List.mem_range.2 hi, rfl⟩))

/-! ### Adam and AdaMax -/

/-- Adam's new first moment; `dense` tells which of the two loops computes it. -/
def adamM (o : Adam K) (dense : Bool) (m g : K) : K :=
  (if dense then o.beta1 *. m else m *. o.beta1) +. (Scalar.ofNat 1 -. o.beta1) *. g
/-- Adam's new second moment. -/
def adamV (o : Adam K) (dense : Bool) (v g : K) : K :=
  (if dense then o.beta2 *. v else v *. o.beta2) +. (Scalar.ofNat 1 -. o.beta2) *. g *. g
/-- Adam's new weight. -/
def adamW (o : Adam K) (w m v : K) : K :=
  w +. o.learningRate *. (m /. (Scalar.ofNat 1 -. o.beta1Prod)) /.
    (Scalar.sqrt (v /. (Scalar.ofNat 1 -. o.beta2Prod)) +. EPS)

theorem adam_any {n : Nat} {φ : Features K} (h : Fits n φ) (o : Adam K)
    (h1 : o.expAvg.length = n) (h2 : o.expAvgSq.length = n) (s : K) {w : List K}
    (hw : w.length = n) :
    ∃ m v w', o.loop w φ s = .ok (m, v, w') ∧ m.length = n ∧ v.length = n ∧ w'.length = n ∧
      ∀ i < n,
      (Active φ i → entry m i = adamM o φ.isDense (entry o.expAvg i) (value φ i *. s) ∧
        entry v i = adamV o φ.isDense (entry o.expAvgSq i) (value φ i *. s) ∧
        entry w' i = adamW o (entry w i) (entry m i) (entry v i)) ∧
      (¬ Active φ i → entry m i = (entry o.expAvg i *. o.beta1) ∧
        entry v i = (entry o.expAvgSq i *. o.beta2) ∧ entry w' i = entry w i) := by
  obtain ⟨hwf, hd⟩ := h
  cases φ with
  | dense da =>
    have hd : da.length = n := hd
    obtain ⟨m, v, w', e1, e2, e3, e4, e5⟩ := body3_loop
      (F := fun x a => adamM o true x (a *. s)) (G := fun x a => adamV o true x (a *. s))
      (H := adamW o) (n := n) (es := indexedIter da) (indexedIter_nodup da)
      (fun e he => hd ▸ indexedIter_lt he) h1 h2 hw
    refine ⟨m, v, w', e1, e2, e3, e4, fun i hi => ⟨fun _ => ?_, fun ha =>
      absurd (active_dense (hd ▸ hi)) ha⟩⟩
    have := (e5 i hi).2 (entry da i) (by rw [get?_indexedIter, getElem?_entry (hd ▸ hi)])
    obtain ⟨g1, g2, g3⟩ := this
    exact ⟨g1, g2, by rw [g3, g1, g2]⟩
  | sparse sa =>
    have hs : ∀ e ∈ sa.activations, e.1 < n := fun e he => by
      have := hwf.2 e he
      have hd : sa.dim = n := hd
      omega
    obtain ⟨m, v, w', e1, e2, e3, e4, e5⟩ := body3_loop
      (F := fun x a => x +. (Scalar.ofNat 1 -. o.beta1) *. (a *. s))
      (G := fun x a => x +. (Scalar.ofNat 1 -. o.beta2) *. (a *. s) *. (a *. s))
      (H := adamW o) (n := n) (es := sa.activations) hwf.1 hs
      (m := o.expAvg.map (· *. o.beta1)) (u := o.expAvgSq.map (· *. o.beta2))
      (by simp [h1]) (by simp [h2]) hw
    refine ⟨m, v, w', e1, e2, e3, e4, fun i hi => ?_⟩
    have e5 := e5 i hi
    rw [entry_map _ (h1 ▸ hi), entry_map _ (h2 ▸ hi)] at e5
    constructor
    · rintro ⟨a, ha⟩
      have hg := (stored_sparse_iff hwf.1 i a).1 ha
      obtain ⟨g1, g2, g3⟩ := e5.2 a hg
      rw [value_sparse, hg]
      exact ⟨g1, g2, by rw [g3, g1, g2]⟩
    · intro ha
      exact e5.1 ((not_active_sparse_iff hwf.1 i).1 ha)

/-- AdaMax's new first moment. -/
def adamaxM (o : AdaMax K) (dense : Bool) (m g : K) : K :=
  (if dense then o.beta1 *. m else m *. o.beta1) +. (Scalar.ofNat 1 -. o.beta1) *. g
/-- AdaMax's new infinity norm. -/
def adamaxU (o : AdaMax K) (dense : Bool) (u g : K) : K :=
  Scalar.max (if dense then o.beta2 *. u else u *. o.beta2) (Scalar.abs g)
/-- AdaMax's new weight. -/
def adamaxW (o : AdaMax K) (w m u : K) : K :=
  w +. o.learningRate *. (m /. (Scalar.ofNat 1 -. o.beta1Prod)) /. (u +. EPS)

theorem adamax_any {n : Nat} {φ : Features K} (h : Fits n φ) (o : AdaMax K)
    (h1 : o.expAvg.length = n) (h2 : o.expInf.length = n) (s : K) {w : List K}
    (hw : w.length = n) :
    ∃ m u w', o.loop w φ s = .ok (m, u, w') ∧ m.length = n ∧ u.length = n ∧ w'.length = n ∧
      ∀ i < n,
      (Active φ i → entry m i = adamaxM o φ.isDense (entry o.expAvg i) (value φ i *. s) ∧
        entry u i = adamaxU o φ.isDense (entry o.expInf i) (value φ i *. s) ∧
        entry w' i = adamaxW o (entry w i) (entry m i) (entry u i)) ∧
      (¬ Active φ i → entry m i = (entry o.expAvg i *. o.beta1) ∧
        entry u i = (entry o.expInf i *. o.beta2) ∧ entry w' i = entry w i) := by
  obtain ⟨hwf, hd⟩ := h
  cases φ with
  | dense da =>
    have hd : da.length = n := hd
    obtain ⟨m, v, w', e1, e2, e3, e4, e5⟩ := body3_loop
      (F := fun x a => adamaxM o true x (a *. s)) (G := fun x a => adamaxU o true x (a *. s))
      (H := adamaxW o) (n := n) (es := indexedIter da) (indexedIter_nodup da)
      (fun e he => hd ▸ indexedIter_lt he) h1 h2 hw
    refine ⟨m, v, w', e1, e2, e3, e4, fun i hi => ⟨fun _ => ?_, fun ha =>
      absurd (active_dense (hd ▸ hi)) ha⟩⟩
    have := (e5 i hi).2 (entry da i) (by rw [get?_indexedIter, getElem?_entry (hd ▸ hi)])
    obtain ⟨g1, g2, g3⟩ := this
    exact ⟨g1, g2, by rw [g3, g1, g2]⟩
  | sparse sa =>
    have hs : ∀ e ∈ sa.activations, e.1 < n := fun e he => by
      have := hwf.2 e he
      have hd : sa.dim = n := hd
      omega
    obtain ⟨m, v, w', e1, e2, e3, e4, e5⟩ := body3_loop
      (F := fun x a => x +. (Scalar.ofNat 1 -. o.beta1) *. (a *. s))
      (G := fun x a => Scalar.max x (Scalar.abs (a *. s)))
      (H := adamaxW o) (n := n) (es := sa.activations) hwf.1 hs
      (m := o.expAvg.map (· *. o.beta1)) (u := o.expInf.map (· *. o.beta2))
      (by simp [h1]) (by simp [h2]) hw
    refine ⟨m, v, w', e1, e2, e3, e4, fun i hi => ?_⟩
    have e5 := e5 i hi
    rw [entry_map _ (h1 ▸ hi), entry_map _ (h2 ▸ hi)] at e5
    constructor
    · rintro ⟨a, ha⟩
      have hg := (stored_sparse_iff hwf.1 i a).1 ha
      obtain ⟨g1, g2, g3⟩ := e5.2 a hg
      rw [value_sparse, hg]
      exact ⟨g1, g2, by rw [g3, g1, g2]⟩
    · intro ha
      exact e5.1 ((not_active_sparse_iff hwf.1 i).1 ha)

end Any

end Lfa

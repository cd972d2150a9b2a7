import Verif.Spec.Ifdd
import Verif.Spec.Optim
import Verif.Proofs.Optim
import Verif.Proofs.Basis
import Verif.Props.C06_C11

/-!
# C111–C114: incremental feature discovery

`src/basis/ifdd.rs` (not part of the compiled crate).
-/

set_option linter.unusedSectionVars false

namespace Lfa

open Spec

section
variable {B K I : Type} [Scalar K] [Space B] [Basis B I K]

namespace IFDD

theorem mem_pairs {l : List Nat} (hl : l.Pairwise (· < ·)) (g h : Nat) :
    (g, h) ∈ pairs l ↔ g ∈ l ∧ h ∈ l ∧ g < h := by
  induction l with
  | nil => simp [pairs]
  | cons a l ih =>
    rw [List.pairwise_cons] at hl
    rw [pairs, List.mem_append, List.mem_map, ih hl.2]
    constructor
    · rintro (⟨b, hb, he⟩ | ⟨h1, h2, h3⟩)
      · cases he
        exact ⟨List.mem_cons_self, List.mem_cons_of_mem _ hb, hl.1 _ hb⟩
      · exact ⟨List.mem_cons_of_mem _ h1, List.mem_cons_of_mem _ h2, h3⟩
    · rintro ⟨h1, h2, h3⟩
      rcases List.mem_cons.1 h1 with rfl | h1
      · rcases List.mem_cons.1 h2 with rfl | h2
        · exact absurd h3 (lt_irrefl _)
        · exact .inl ⟨h, h2, rfl⟩
      · rcases List.mem_cons.1 h2 with h2' | h2
        · exact absurd h3 (not_lt.2 (h2' ▸ (hl.1 g (by assumption)).le))
        · exact .inr ⟨h1, h2, h3⟩

theorem nodup_pairs {l : List Nat} (hl : l.Pairwise (· < ·)) : (pairs l).Nodup := by
  induction l with
  | nil => exact List.nodup_nil
  | cons a l ih =>
    rw [List.pairwise_cons] at hl
    rw [pairs]
    refine List.Nodup.append ?_ (ih hl.2) ?_
    · exact List.Nodup.map (fun x y h => (Prod.mk.inj h).2) (hl.2.imp fun h => ne_of_lt h)
    · intro p h1 h2
      obtain ⟨b, hb, rfl⟩ := List.mem_map.1 h1
      exact absurd (hl.1 _ ((mem_pairs hl.2 _ _).1 h2).1) (lt_irrefl _)

theorem pair_inj {a b c d : Nat} (h1 : a < b) (h2 : c < d) (h : ({a, b} : Finset Nat) = {c, d}) :
    a = c ∧ b = d := by
  have e1 : a ∈ ({c, d} : Finset Nat) := h ▸ by simp
  have e2 : b ∈ ({c, d} : Finset Nat) := h ▸ by simp
  have e3 : c ∈ ({a, b} : Finset Nat) := h ▸ by simp
  have e4 : d ∈ ({a, b} : Finset Nat) := h ▸ by simp
  simp only [Finset.mem_insert, Finset.mem_singleton] at e1 e2 e3 e4
  omega

theorem inspected_sorted (φ : Features K) : (inspected φ).Pairwise (· < ·) := by
  cases φ with
  | dense da => exact List.pairwise_lt_range.filter _
  | sparse sa => exact Finset.sortedLT_sort _ |>.pairwise

theorem mem_inspected (φ : Features K) (i : Nat) : i ∈ inspected φ ↔ Inspects φ i := by
  cases φ with
  | dense da =>
    show i ∈ List.filter _ _ ↔ ∃ a, da[i]? = some a ∧ _
    rw [List.mem_filter, List.mem_range]
    constructor
    · rintro ⟨h1, h2⟩
      rw [List.getElem?_eq_getElem h1] at h2 ⊢
      exact ⟨_, rfl, h2⟩
    · rintro ⟨a, h1, h2⟩
      rw [h1]
      exact ⟨(List.getElem?_eq_some_iff.1 h1).1, h2⟩
  | sparse sa =>
    show i ∈ Finset.sort _ _ ↔ ∃ a, (i, a) ∈ sa.activations
    rw [Finset.mem_sort, List.mem_toFinset, List.mem_map]
    exact ⟨by rintro ⟨e, he, rfl⟩; exact ⟨e.2, he⟩, fun ⟨a, ha⟩ => ⟨_, ha, rfl⟩⟩

/-- The first `n` features are those of the inner basis; candidates know their key. -/
structure Sound (n : Nat) (s : IFDD B K) : Prop where
  base : ∀ i < n, s.features[i]? = some ⟨i, {i}⟩
  key : ∀ S c, s.candidates S = some c → c.parents = S

/-- The account of a set of features. -/
def account (s : IFDD B K) (S : Finset Nat) : Option K := (s.candidates S).map Candidate.relevance

theorem inspect_spec {n : Nat} {s : IFDD B K} (hs : Sound n s) {g h : Nat} (hgh : g < h) (hn : h < n)
    (e : K) : ∃ c s', s.inspectCandidate g h e = .ok (c, s') ∧ s'.features = s.features ∧
      s'.basis = s.basis ∧ s'.threshold = s.threshold ∧ Sound n s' ∧
      (∀ S, S ≠ {g, h} → s'.candidates S = s.candidates S) ∧
      (∀ x ∈ c.toList, x.parents = {g, h}) ∧
      ∀ k, pay s.threshold (s.account {g, h}, k) (Scalar.abs e) = (s'.account {g, h}, k + c.toList.length) := by
  have hu : (IfddFeature.union ⟨g, {g}⟩ ⟨h, {h}⟩) = ({g, h} : Finset Nat) := rfl
  unfold inspectCandidate
  rw [show idx s.features g = .ok ⟨g, {g}⟩ by unfold idx; rw [hs.base g (hgh.trans hn)],
    show idx s.features h = .ok ⟨h, {h}⟩ by unfold idx; rw [hs.base h hn], P.ok_bind, P.ok_bind, hu]
  have hv : ((s.candidates {g, h}).getD (Candidate.new {g, h})).relevance
      = (s.account {g, h}).getD Scalar.zero := by
    unfold account
    cases s.candidates {g, h} <;> rfl
  have hp : ((s.candidates {g, h}).getD (Candidate.new {g, h})).parents = {g, h} := by
    cases hc : s.candidates {g, h} with
    | none => rfl
    | some c => exact hs.key _ _ hc
  simp only
  by_cases hr : reaches s.threshold
      (((s.candidates {g, h}).getD (Candidate.new {g, h})).relevance +. Scalar.abs e) = true
  · rw [if_pos hr]
    refine ⟨_, _, rfl, rfl, rfl, rfl, ⟨hs.base, fun S c hc => ?_⟩, fun S hS => Function.update_of_ne hS _ _,
      fun x hx => ?_, fun k => ?_⟩
    · by_cases hS : S = {g, h}
      · subst hS
        simp only [Function.update_self] at hc
        cases hc
      · simp only [Function.update_of_ne hS] at hc
        exact hs.key S c hc
    · rw [Option.mem_toList] at hx
      cases hx
      exact hp
    · unfold reaches at hr
      rw [Bool.or_eq_true, hv] at hr
      unfold pay
      rw [if_pos hr]
      unfold account
      simp only [Function.update_self]
      rfl
  · rw [if_neg hr]
    refine ⟨_, _, rfl, rfl, rfl, rfl, ⟨hs.base, fun S c hc => ?_⟩, fun S hS => Function.update_of_ne hS _ _,
      fun x hx => ?_, fun k => ?_⟩
    · by_cases hS : S = {g, h}
      · subst hS
        simp only [Function.update_self] at hc
        cases hc
        exact hp
      · simp only [Function.update_of_ne hS] at hc
        exact hs.key S c hc
    · cases hx
    · unfold reaches at hr
      rw [Bool.or_eq_true, hv] at hr
      unfold pay
      rw [if_neg hr]
      rw [hv]
      unfold account
      simp only [Function.update_self]
      rfl

theorem inspectAll_spec {n : Nat} (e : K) (ps : List (Nat × Nat)) (hn : ps.Nodup)
    (hps : ∀ p ∈ ps, p.1 < p.2 ∧ p.2 < n) : ∀ s : IFDD B K, Sound n s →
    ∃ cs s', s.inspectAll e ps = .ok (cs, s') ∧ s'.features = s.features ∧ s'.basis = s.basis ∧
      s'.threshold = s.threshold ∧ Sound n s' ∧
      (∀ x ∈ cs, ∃ p ∈ ps, x.parents = {p.1, p.2}) ∧
      (∀ S, (∀ p ∈ ps, S ≠ {p.1, p.2}) → s'.candidates S = s.candidates S) ∧
      ∀ g h, g < h → (g, h) ∈ ps → ∀ k, pay s.threshold (s.account {g, h}, k) (Scalar.abs e) =
        (s'.account {g, h}, k + cs.countP fun x => x.parents = {g, h}) := by
  induction ps with
  | nil =>
    intro s hs
    refine ⟨[], s, rfl, rfl, rfl, rfl, hs, ?_, fun _ _ => rfl, ?_⟩
    · intro x hx
      cases hx
    · intro g h _ hm
      cases hm
  | cons p ps ih =>
    intro s hs
    obtain ⟨h1, h2⟩ := List.nodup_cons.1 hn
    obtain ⟨q1, q2⟩ := hps p List.mem_cons_self
    have hps' : ∀ p ∈ ps, p.1 < p.2 ∧ p.2 < n := fun p hp => hps p (List.mem_cons_of_mem _ hp)
    obtain ⟨c, s₁, a1, a2, a3, a4, a5, a6, a7, a8⟩ := inspect_spec hs q1 q2 e
    obtain ⟨cs, s₂, b1, b2, b3, b4, b5, b6, b7, b8⟩ := ih h2 hps' s₁ a5
    refine ⟨c.toList ++ cs, s₂, ?_, b2.trans a2, b3.trans a3, b4.trans a4, b5, ?_, ?_, ?_⟩
    · show (s.inspectCandidate p.1 p.2 e >>= _) = _
      rw [a1, P.ok_bind]
      show (s₁.inspectAll e ps >>= _) = _
      rw [b1]
      rfl
    · intro x hx
      rcases List.mem_append.1 hx with hx | hx
      · exact ⟨p, List.mem_cons_self, a7 x hx⟩
      · obtain ⟨p', hp', h'⟩ := b6 x hx
        exact ⟨p', List.mem_cons_of_mem _ hp', h'⟩
    · intro S hS
      rw [b7 S fun p hp => hS p (List.mem_cons_of_mem _ hp), a6 S (hS p List.mem_cons_self)]
    · intro g h hgh hm k
      rw [List.countP_append]
      by_cases hp : (g, h) = p
      · subst hp
        have hne : ∀ p ∈ ps, ({g, h} : Finset Nat) ≠ {p.1, p.2} := by
          intro p hp he
          obtain ⟨e1, e2⟩ := pair_inj hgh (hps' p hp).1 he
          exact h1 (by rw [show (g, h) = p from Prod.ext e1 e2]; exact hp)
        have hc : c.toList.countP (fun x => decide (x.parents = {g, h})) = c.toList.length := by
          rw [List.countP_eq_length]
          exact fun x hx => decide_eq_true (a7 x hx)
        have hz : cs.countP (fun x => decide (x.parents = {g, h})) = 0 := by
          rw [List.countP_eq_zero]
          intro x hx hd
          obtain ⟨p, hp, hx'⟩ := b6 x hx
          exact hne p hp ((of_decide_eq_true hd).symm.trans hx')
        rw [a8 k, hc, hz, Nat.add_zero]
        unfold account
        rw [b7 _ hne]
      · have hm := (List.mem_cons.1 hm).resolve_left hp
        have hne : ({g, h} : Finset Nat) ≠ {p.1, p.2} := by
          intro he
          obtain ⟨e1, e2⟩ := pair_inj hgh q1 he
          exact hp (Prod.ext e1 e2)
        have hz : c.toList.countP (fun x => decide (x.parents = {g, h})) = 0 := by
          rw [List.countP_eq_zero]
          intro x hx hd
          exact hne ((of_decide_eq_true hd).symm.trans (a7 x hx))
        have := b8 g h hgh hm k
        rw [a4] at this
        rw [hz, Nat.zero_add, ← this]
        unfold account
        rw [a6 _ hne]

theorem addAll_spec (cs : List (Candidate K)) : ∀ s : IFDD B K,
    ∃ fs : List IfddFeature, (s.addAll cs).2 = { s with features := s.features ++ fs } ∧
      fs.map IfddFeature.parents = cs.map Candidate.parents ∧
      fs.map IfddFeature.index = List.range' s.features.length cs.length ∧
      (s.addAll cs).1 = fs.map fun f => (f.index, f.parents) := by
  induction cs with
  | nil => intro s; exact ⟨[], by simp [addAll], rfl, rfl, rfl⟩
  | cons c cs ih =>
    intro s
    obtain ⟨fs, h1, h2, h3, h4⟩ := ih (s.addFeature c).2
    refine ⟨c.intoFeature s.features.length :: fs, ?_, ?_, ?_, ?_⟩
    · show ((s.addFeature c).2.addAll cs).2 = _
      rw [h1]
      simp [addFeature]
    · rw [List.map_cons, List.map_cons, h2]; rfl
    · rw [List.map_cons, h3, List.length_cons, List.range'_succ]
      congr 1
      show List.range' (s.features ++ [_]).length _ = _
      simp
    · show (s.addFeature c).1 :: ((s.addFeature c).2.addAll cs).1 = _
      rw [h4]
      rfl

/-- The state of a run. -/
structure Ok (n : Nat) (s : IFDD B K) : Prop extends Sound n s where
  ge : n ≤ s.features.length
  index : ∀ (i : Nat) (f : IfddFeature), s.features[i]? = some f → f.index = i
  pair : ∀ (i : Nat) (f : IfddFeature), n ≤ i → s.features[i]? = some f → ∃ g h, g < h ∧ h < n ∧ f.parents = {g, h}

theorem getElem?_range'_map {fs : List IfddFeature} {a m : Nat}
    (h : fs.map IfddFeature.index = List.range' a m) {i : Nat} {f : IfddFeature} (hf : fs[i]? = some f) :
    f.index = a + i := by
  have h1 : (fs.map IfddFeature.index)[i]? = some f.index := by rw [List.getElem?_map, hf]; rfl
  rw [h] at h1
  obtain ⟨hl, h1⟩ := List.getElem?_eq_some_iff.1 h1
  rw [List.getElem_range'] at h1
  omega

/-- One call. -/
theorem discover_spec {n : Nat} {s : IFDD B K} (hs : Ok n s) (x : I) (φ : Features K)
    (hp : Basis.project s.basis x = .ok (.ok φ)) (hf : Fits n φ) (e : K) :
    ∃ ms s', s.discover x e = .ok (.ok (ms, s')) ∧ Ok n s' ∧ s'.basis = s.basis ∧
      s'.threshold = s.threshold ∧
      (∃ fs, s'.features = s.features ++ fs ∧ ms = fs.map fun f => (f.index, f.parents)) ∧
      ∀ g h, g < h → h < n →
        (Inspects φ g ∧ Inspects φ h →
          pay s.threshold (s.account {g, h}, copies s {g, h}) (Scalar.abs e) =
            (s'.account {g, h}, copies s' {g, h})) ∧
        (¬ (Inspects φ g ∧ Inspects φ h) →
          s'.account {g, h} = s.account {g, h} ∧ copies s' {g, h} = copies s {g, h}) := by
  have hsort := inspected_sorted φ
  have hlt : ∀ i ∈ inspected φ, i < n := by
    intro i hi
    have := (mem_inspected φ i).1 hi
    cases φ with
    | dense da =>
      obtain ⟨a, ha, -⟩ := this
      have h2 : da.length = n := hf.2
      exact h2 ▸ (List.getElem?_eq_some_iff.1 ha).1
    | sparse sa =>
      obtain ⟨a, ha⟩ := this
      have h2 : sa.dim = n := hf.2
      exact h2 ▸ hf.1.2 _ ha
  obtain ⟨cs, s₁, a1, a2, a3, a4, a5, a6, a7, a8⟩ := inspectAll_spec (n := n) e (pairs (inspected φ))
    (nodup_pairs hsort) (fun p hp => by
      obtain ⟨h1, h2, h3⟩ := (mem_pairs hsort p.1 p.2).1 hp
      exact ⟨h3, hlt _ h2⟩) s hs.toSound
  obtain ⟨fs, b1, b2, b3, b4⟩ := addAll_spec cs s₁
  have hlen : fs.length = cs.length := by
    have := congrArg List.length b2
    simpa using this
  refine ⟨(s₁.addAll cs).1, (s₁.addAll cs).2, ?_, ?_, ?_, ?_, ?_, ?_⟩
  · show (Basis.project s.basis x >>= _) = _
    rw [hp, P.ok_bind]
    show (s.inspectAll e (pairs (inspected φ)) >>= _) = _
    rw [a1]
    rfl
  · rw [b1]
    have hmem : ∀ f ∈ fs, ∃ g h, g < h ∧ h < n ∧ f.parents = {g, h} := by
      intro f hf
      have : f.parents ∈ cs.map Candidate.parents := b2 ▸ List.mem_map.2 ⟨f, hf, rfl⟩
      obtain ⟨c, hc, hc'⟩ := List.mem_map.1 this
      obtain ⟨p, hp, hx⟩ := a6 c hc
      obtain ⟨h1, h2, h3⟩ := (mem_pairs hsort p.1 p.2).1 hp
      exact ⟨p.1, p.2, h3, hlt _ h2, hc'.symm.trans hx⟩
    refine ⟨⟨fun i hi => ?_, a5.key⟩, ?_, fun i f hif => ?_, fun i f hi hif => ?_⟩
    · show (s₁.features ++ fs)[i]? = _
      rw [a2, List.getElem?_append_left (lt_of_lt_of_le hi hs.ge)]
      exact hs.base i hi
    · show n ≤ (s₁.features ++ fs).length
      rw [a2, List.length_append]
      exact hs.ge.trans (Nat.le_add_right _ _)
    · have hif : (s₁.features ++ fs)[i]? = some f := hif
      rcases Nat.lt_or_ge i s₁.features.length with hi | hi
      · rw [List.getElem?_append_left hi, a2] at hif
        exact hs.index i f hif
      · rw [List.getElem?_append_right hi] at hif
        rw [getElem?_range'_map b3 hif]
        omega
    · have hif : (s₁.features ++ fs)[i]? = some f := hif
      rcases Nat.lt_or_ge i s₁.features.length with hl | hl
      · rw [List.getElem?_append_left hl, a2] at hif
        exact hs.pair i f hi hif
      · rw [List.getElem?_append_right hl] at hif
        exact hmem f (List.mem_of_getElem? hif)
  · rw [b1]; exact a3
  · rw [b1]; exact a4
  · exact ⟨fs, by rw [b1, a2], b4⟩
  · intro g h hgh hn
    have hcop : copies (s₁.addAll cs).2 {g, h} =
        copies s {g, h} + cs.countP fun x => x.parents = {g, h} := by
      unfold copies
      rw [b1]
      show (s₁.features ++ fs).countP _ = _
      rw [List.countP_append, a2]
      congr 1
      have e1 : fs.countP (fun f => decide (f.parents = {g, h})) =
          (fs.map IfddFeature.parents).countP fun S => decide (S = {g, h}) := by
        rw [List.countP_map]; rfl
      have e2 : cs.countP (fun f => decide (f.parents = {g, h})) =
          (cs.map Candidate.parents).countP fun S => decide (S = {g, h}) := by
        rw [List.countP_map]; rfl
      rw [e1, e2, b2]
    have hacc : (s₁.addAll cs).2.account {g, h} = s₁.account {g, h} := by rw [b1]; rfl
    rw [hcop, hacc]
    constructor
    · rintro ⟨i1, i2⟩
      exact a8 g h hgh ((mem_pairs hsort g h).2
        ⟨(mem_inspected φ g).2 i1, (mem_inspected φ h).2 i2, hgh⟩) _
    · intro hni
      have hne : ∀ p ∈ pairs (inspected φ), ({g, h} : Finset Nat) ≠ {p.1, p.2} := by
        intro p hp he
        obtain ⟨h1, h2, h3⟩ := (mem_pairs hsort p.1 p.2).1 hp
        obtain ⟨e1, e2⟩ := pair_inj hgh h3 he
        exact hni ⟨(mem_inspected φ g).1 (e1 ▸ h1), (mem_inspected φ h).1 (e2 ▸ h2)⟩
      refine ⟨by unfold account; rw [a7 _ hne], ?_⟩
      rw [List.countP_eq_zero.2, Nat.add_zero]
      intro c hc hd
      obtain ⟨p, hp, hx⟩ := a6 c hc
      exact hne p hp ((of_decide_eq_true hd).symm.trans hx)

theorem new_spec {b : B} {thr : K} {s : IFDD B K} (h : IFDD.new b thr = .ok s) {n : Nat}
    (hn : Space.dim b = .finite n) : Ok n s ∧ s.basis = b ∧ s.threshold = thr ∧
      (∀ S, s.account S = none) ∧ s.features.length = n ∧
      ∀ g h, g < h → copies s {g, h} = 0 := by
  have h : ((Space.dim b).toUsize >>= _) = _ := h
  rw [hn] at h
  cases h
  have hb : ∀ i f, ((List.range n).map fun i => (⟨i, {i}⟩ : IfddFeature))[i]? = some f →
      i < n ∧ f = ⟨i, {i}⟩ := by
    intro i f hf
    rw [List.getElem?_map] at hf
    rcases Nat.lt_or_ge i n with hi | hi
    · rw [List.getElem?_range hi] at hf
      cases hf
      exact ⟨hi, rfl⟩
    · rw [List.getElem?_eq_none (by simpa using hi)] at hf
      cases hf
  refine ⟨⟨⟨fun i hi => ?_, fun S c hc => by cases hc⟩, ?_, fun i f hf => ?_, fun i f hi hf => ?_⟩, rfl, rfl,
    fun _ => rfl, by simp, ?_⟩
  · show ((List.range n).map _)[i]? = _
    rw [List.getElem?_map, List.getElem?_range hi]
    rfl
  · show n ≤ ((List.range n).map _).length
    simp
  · rw [(hb i f hf).2]
  · exact absurd (hb i f hf).1 (not_lt.2 hi)
  · intro g h hgh
    unfold copies
    rw [List.countP_eq_zero]
    intro f hf hd
    obtain ⟨i, -, rfl⟩ := List.mem_map.1 hf
    have hd : ({i} : Finset Nat) = {g, h} := of_decide_eq_true hd
    have e1 : g ∈ ({i} : Finset Nat) := hd ▸ by simp
    have e2 : h ∈ ({i} : Finset Nat) := hd ▸ by simp
    rw [Finset.mem_singleton] at e1 e2
    omega

end IFDD

open IFDD

/-! ## C111 What is discovered, and when -/

theorem run_spec {n : Nat} {s s' : IFDD B K} {calls : List (Features K × K)}
    (h : Discoveries I s calls s') (hs : IFDD.Ok n s) (hf : ∀ c ∈ calls, Fits n c.1) :
    IFDD.Ok n s' ∧ s'.basis = s.basis ∧ s'.threshold = s.threshold ∧ s.features <+: s'.features ∧
    ∀ g h, g < h → h < n → (s'.account {g, h}, copies s' {g, h}) =
      (credited g h calls).foldl (pay s.threshold) (s.account {g, h}, copies s {g, h}) := by
  induction h with
  | nil s => exact ⟨hs, rfl, rfl, List.prefix_rfl, fun g h _ _ => rfl⟩
  | @cons s s₁ s' calls φ e ms x hp hd t ih =>
    obtain ⟨ms', s₂, a1, a2, a3, a4, ⟨fs, a5, -⟩, a6⟩ :=
      discover_spec hs x φ hp (hf _ List.mem_cons_self) e
    rw [hd] at a1
    simp only [Except.ok.injEq, Prod.mk.injEq] at a1
    obtain ⟨-, rfl⟩ := a1
    obtain ⟨b1, b2, b3, b4, b5⟩ := ih a2 fun c hc => hf c (List.mem_cons_of_mem _ hc)
    refine ⟨b1, b2.trans a3, b3.trans a4, ?_, fun g h hgh hn => ?_⟩
    · exact (a5 ▸ List.prefix_append _ _ : s.features <+: s₁.features).trans b4
    · rw [b5 g h hgh hn, a4]
      obtain ⟨c1, c2⟩ := a6 g h hgh hn
      unfold credited
      by_cases hi : Inspects φ g ∧ Inspects φ h
      · rw [List.filter_cons_of_pos (by simpa using hi), List.map_cons, List.foldl_cons, c1 hi]
      · rw [List.filter_cons_of_neg (by simpa using hi), (c2 hi).1, (c2 hi).2]

/-- Every `discover` call on an accepted input succeeds; features keep their index, the first are those
of the inner basis, existing ones are never changed, and every new one is the conjunction of exactly two
features of the inner basis. -/
theorem C111_features {n : Nat} (b : B) (hn : Space.dim b = .finite n) (thr : K) (s₀ s : IFDD B K)
    (hs : IFDD.new b thr = .ok s₀) (calls : List (Features K × K)) (hf : ∀ c ∈ calls, Fits n c.1)
    (h : Discoveries I s₀ calls s) :
    (∀ i < n, s.features[i]? = some ⟨i, {i}⟩) ∧
    (∀ (i : Nat) (f : IfddFeature), s.features[i]? = some f → f.index = i) ∧
    (∀ (i : Nat) (f : IfddFeature), n ≤ i → s.features[i]? = some f → ∃ g h, g < h ∧ h < n ∧ f.parents = {g, h}) ∧
    ∀ (x : I) (φ : Features K) (e : K), Basis.project b x = .ok (.ok φ) → Fits n φ →
      ∃ ms s' fs, s.discover x e = .ok (.ok (ms, s')) ∧ s'.features = s.features ++ fs ∧
        ms = fs.map fun f => (f.index, f.parents) := by
  obtain ⟨a1, a2, -⟩ := new_spec hs hn
  obtain ⟨b1, b2, -⟩ := run_spec h a1 hf
  refine ⟨b1.base, b1.index, b1.pair, fun x φ e hp hφ => ?_⟩
  obtain ⟨ms, s', c1, -, -, -, ⟨fs, c2, c3⟩, -⟩ :=
    discover_spec b1 x φ (by rw [b2, a2]; exact hp) hφ e
  exact ⟨ms, s', fs, c1, c2, c3⟩

/-- The number of features that are the conjunction of `g` and `h` is the number of times the absolute
errors of the calls that inspect both reach the threshold, counting afresh after each time (any
arithmetic). -/
theorem C111_discovered {n : Nat} (b : B) (hn : Space.dim b = .finite n) (thr : K) (s₀ s : IFDD B K)
    (hs : IFDD.new b thr = .ok s₀) (calls : List (Features K × K)) (hf : ∀ c ∈ calls, Fits n c.1)
    (h : Discoveries I s₀ calls s) (g k : Nat) (hgk : g < k) (hk : k < n) :
    copies s {g, k} = (tally thr (credited g k calls)).2 := by
  obtain ⟨a1, a2, a3, a4, -, a5⟩ := new_spec hs hn
  obtain ⟨-, -, -, -, b5⟩ := run_spec h a1 hf
  have := b5 g k hgk hk
  rw [a3, a4, a5 g k hgk] at this
  exact congrArg Prod.snd this

end

/-! ### In exact arithmetic -/

theorem pay_real (thr : ℝ) (a : Option ℝ × Nat) (x : ℝ) : pay thr a x =
    if thr ≤ a.1.getD 0 + x then (none, a.2 + 1) else (some (a.1.getD 0 + x), a.2) := by
  have h : (thr ≤ a.1.getD 0 + x) ↔ (Scalar.lt thr (a.1.getD Scalar.zero +. x) = true ∨
      Scalar.beq (a.1.getD Scalar.zero +. x) thr = true) := by
    rw [real_lt, real_beq, real_add, real_zero, decide_eq_true_eq, decide_eq_true_eq,
      le_iff_lt_or_eq, eq_comm (a := thr)]
  unfold pay
  simp only
  by_cases hc : thr ≤ a.1.getD 0 + x
  · rw [if_pos hc, if_pos (h.1 hc)]
  · rw [if_neg hc, if_neg fun h' => hc (h.2 h'), real_add, real_zero]

theorem pays_real (thr : ℝ) (ht : 0 < thr) (xs : List ℝ) (hx : ∀ x ∈ xs, 0 ≤ x) :
    ∀ a : Option ℝ × Nat, a.1.getD 0 < thr →
      (xs.foldl (pay thr) a).1.getD 0 < thr ∧ a.2 ≤ (xs.foldl (pay thr) a).2 ∧
      (xs.foldl (pay thr) a).2 * thr + (xs.foldl (pay thr) a).1.getD 0 ≤ a.2 * thr + a.1.getD 0 + xs.sum ∧
      ((xs.foldl (pay thr) a).2 = a.2 → (xs.foldl (pay thr) a).1.getD 0 = a.1.getD 0 + xs.sum) := by
  induction xs with
  | nil => intro a h; exact ⟨h, le_rfl, by simp, fun _ => by simp⟩
  | cons x xs ih =>
    intro a h
    have ih := ih fun y hy => hx y (List.mem_cons_of_mem _ hy)
    have h0 := hx x List.mem_cons_self
    rw [List.foldl_cons, pay_real, List.sum_cons]
    by_cases hc : thr ≤ a.1.getD 0 + x
    · rw [if_pos hc]
      obtain ⟨i1, i2, i3, i4⟩ := ih (none, a.2 + 1) ht
      refine ⟨i1, by simp only at i2; omega, ?_, fun he => by simp only at i2; omega⟩
      simp only [Option.getD_none, Nat.cast_add, Nat.cast_one] at i3
      linarith
    · rw [if_neg hc]
      obtain ⟨i1, i2, i3, i4⟩ := ih (some (a.1.getD 0 + x), a.2) (not_le.1 hc)
      simp only [Option.getD_some] at i3 i4
      exact ⟨i1, i2, by linarith, fun he => by rw [i4 he]; ring⟩

section
variable {B I : Type} [Space B] [Basis B I ℝ]

theorem credited_nonneg (g h : Nat) (calls : List (Features ℝ × ℝ)) :
    ∀ x ∈ credited g h calls, 0 ≤ x := by
  intro x hx
  obtain ⟨c, -, rfl⟩ := List.mem_map.1 hx
  exact abs_nonneg _

/-- In exact arithmetic a pair is discovered exactly when the errors of the calls that inspect both sum
to the threshold or more, and never more often than the sum allows. -/
theorem C111_exact {n : Nat} (b : B) (hn : Space.dim b = .finite n) (thr : ℝ) (ht : 0 < thr)
    (s₀ s : IFDD B ℝ) (hs : IFDD.new b thr = .ok s₀) (calls : List (Features ℝ × ℝ))
    (hf : ∀ c ∈ calls, Fits n c.1) (h : Discoveries I s₀ calls s) (g k : Nat) (hgk : g < k) (hk : k < n) :
    ((∃ f ∈ s.features, f.parents = {g, k}) ↔ thr ≤ (credited g k calls).sum) ∧
    copies s {g, k} * thr ≤ (credited g k calls).sum := by
  have hc := C111_discovered b hn thr s₀ s hs calls hf h g k hgk hk
  obtain ⟨h1, -, h3, h4⟩ := pays_real thr ht _ (credited_nonneg g k calls) (none, 0) ht
  have hm : copies s {g, k} * thr ≤ (credited g k calls).sum := by
    rw [hc]
    have h0 : 0 ≤ ((credited g k calls).foldl (pay thr) (none, 0)).1.getD 0 := by
      by_contra hneg
      have key : ∀ (xs : List ℝ), (∀ x ∈ xs, 0 ≤ x) → ∀ a : Option ℝ × Nat, 0 ≤ a.1.getD 0 →
          0 ≤ (xs.foldl (pay thr) a).1.getD 0 := by
        intro xs
        induction xs with
        | nil => intro _ a h; exact h
        | cons x xs ih =>
          intro hx a h
          rw [List.foldl_cons, pay_real]
          refine ih (fun y hy => hx y (List.mem_cons_of_mem _ hy)) _ ?_
          split_ifs
          · exact le_rfl
          · exact add_nonneg h (hx x List.mem_cons_self)
      exact hneg (key _ (credited_nonneg g k calls) _ le_rfl)
    unfold tally
    simp only [Nat.cast_zero, zero_mul, Option.getD_none, zero_add] at h3
    linarith
  refine ⟨?_, hm⟩
  have hpos : (∃ f ∈ s.features, f.parents = {g, k}) ↔ 0 < copies s {g, k} := by
    unfold copies
    rw [List.countP_pos_iff]
    simp
  rw [hpos]
  constructor
  · intro hp
    have : (1 : ℝ) ≤ copies s {g, k} := by exact_mod_cast hp
    nlinarith
  · intro hsum
    by_contra h0
    have h0 : copies s {g, k} = 0 := by omega
    rw [hc] at h0
    have := h4 h0
    simp only [Option.getD_none, zero_add] at this
    linarith

/-! ## C112 How often a pair is discovered -/

/-- **Partial**: the full claim is that no two features are the conjunction of the same pair. It holds
while the errors credited to the pair sum to less than twice the threshold. Missing: longer runs
(`C112_duplicates`: every further call can add another copy). -/
theorem C112_once_partial {n : Nat} (b : B) (hn : Space.dim b = .finite n) (thr : ℝ) (ht : 0 < thr)
    (s₀ s : IFDD B ℝ) (hs : IFDD.new b thr = .ok s₀) (calls : List (Features ℝ × ℝ))
    (hf : ∀ c ∈ calls, Fits n c.1) (h : Discoveries I s₀ calls s) (g k : Nat) (hgk : g < k) (hk : k < n)
    (hsum : (credited g k calls).sum < 2 * thr) : copies s {g, k} ≤ 1 := by
  have := (C111_exact b hn thr ht s₀ s hs calls hf h g k hgk hk).2
  have h2 : (copies s {g, k} : ℝ) < 2 := by
    by_contra hge
    have := not_lt.1 hge
    nlinarith
  have : copies s {g, k} < 2 := by exact_mod_cast h2
  omega

end

/-- Calling `discover` `m` times on one input with an error of the size of the threshold adds `m` copies
of every pair it inspects. -/
theorem C112_duplicates {B I : Type} [Space B] [Basis B I ℝ] {n : Nat} (b : B)
    (hn : Space.dim b = .finite n) (thr e : ℝ) (he : thr ≤ |e|) (x : I) (φ : Features ℝ)
    (hp : Basis.project b x = .ok (.ok φ)) (hf : Fits n φ) (g k : Nat) (hgk : g < k) (hk : k < n)
    (hg : Inspects φ g) (hk' : Inspects φ k) (m : Nat) :
    ∃ s₀ s, IFDD.new b thr = .ok s₀ ∧ Discoveries I s₀ (List.replicate m (φ, e)) s ∧
      copies s {g, k} = m := by
  have hnew : ∃ s₀, (IFDD.new b thr : P (IFDD B ℝ)) = .ok s₀ := by
    unfold IFDD.new
    rw [hn]
    exact ⟨_, rfl⟩
  obtain ⟨s₀, hs₀⟩ := hnew
  obtain ⟨a1, a2, -⟩ := IFDD.new_spec hs₀ hn
  have run : ∀ m (s : IFDD B ℝ), IFDD.Ok n s → s.basis = b →
      ∃ s', Discoveries I s (List.replicate m (φ, e)) s' := by
    intro m
    induction m with
    | zero => exact fun s _ _ => ⟨s, .nil s⟩
    | succ m ih =>
      intro s hs hb
      obtain ⟨ms, s₁, h1, h2, h3, -⟩ := IFDD.discover_spec hs x φ (hb ▸ hp) hf e
      obtain ⟨s', h'⟩ := ih s₁ h2 (h3.trans hb)
      exact ⟨s', .cons x (hb ▸ hp) h1 h'⟩
  obtain ⟨s, h⟩ := run m s₀ a1 a2
  refine ⟨s₀, s, hs₀, h, ?_⟩
  rw [C111_discovered b hn thr s₀ s hs₀ _
    (fun c hc => by rw [List.eq_of_mem_replicate hc]; exact hf) h g k hgk hk]
  have hcr : credited g k (List.replicate m (φ, e)) = List.replicate m |e| := by
    unfold credited
    rw [List.filter_replicate_of_pos (by simpa using ⟨hg, hk'⟩), List.map_replicate]
    rfl
  rw [hcr]
  have key : ∀ m j, (List.replicate m |e|).foldl (pay thr) (none, j) = (none, j + m) := by
    intro m
    induction m with
    | zero => intro j; rfl
    | succ m ih =>
      intro j
      rw [List.replicate_succ, List.foldl_cons, pay_real,
        if_pos (by simpa using he), ih]
      congr 1
      omega
  unfold tally
  rw [key]
  exact Nat.zero_add m

theorem fits_pair : Fits 2 (.sparse ⟨2, [(0, Scalar.one), (1, Scalar.one)]⟩ : Features ℝ) :=
  ⟨⟨by decide, by simp⟩, rfl⟩

theorem project_pair : Basis.project (⟨2, [0, 1]⟩ : FixedSparse ℝ) (0 : ℝ) =
    .ok (.ok (.sparse ⟨2, [(0, Scalar.one), (1, Scalar.one)]⟩)) := rfl

/-- Three copies of one conjunction (two features that are always active). -/
example : ∃ s₀ s, IFDD.new (⟨2, [0, 1]⟩ : FixedSparse ℝ) 1 = .ok s₀ ∧
    Discoveries ℝ s₀ (List.replicate 3 (.sparse ⟨2, [(0, Scalar.one), (1, Scalar.one)]⟩, 1)) s ∧ copies s {0, 1} = 3 :=
  C112_duplicates (I := ℝ) (n := 2) _ rfl 1 1 (by simp) 0 _ project_pair fits_pair 0 1 (by decide)
    (by decide) ⟨_, .head _⟩ ⟨_, .tail _ (.head _)⟩ 3

/-! ## C113 Which calls count -/

section
variable {B I : Type} [Space B] [Basis B I ℝ]

/-- **Partial**: the full claim is that the errors credited to a pair are those of the calls in whose
projection both features are active. It holds for runs in which the projections are sparse. Missing:
dense projections, for which the calls in which both are *inactive* count (`C113_dense`). -/
theorem C113_credit_partial {K : Type} [Scalar K] (g k : Nat) (calls : List (Features K × K))
    (hs : ∀ c ∈ calls, c.1.isSparse = true) :
    ∃ p : Features K × K → Bool, (∀ c ∈ calls, p c = true ↔ (∃ a, Stored c.1 g a) ∧ ∃ a, Stored c.1 k a) ∧
      credited g k calls = (calls.filter p).map fun c => Scalar.abs c.2 := by
  classical
  refine ⟨fun c => decide (Inspects c.1 g ∧ Inspects c.1 k), fun c hc => ?_, ?_⟩
  · have := hs c hc
    rw [decide_eq_true_iff]
    obtain ⟨φ, e⟩ := c
    cases φ with
    | dense da => cases this
    | sparse sa => exact Iff.rfl
  · unfold credited
    congr

/-- With dense projections, a feature that is active (1e-7 or more in magnitude) at every call never
becomes part of a conjunction, however large the errors. -/
theorem C113_dense {n : Nat} (b : B) (hn : Space.dim b = .finite n) (thr : ℝ) (ht : 0 < thr)
    (s₀ s : IFDD B ℝ) (hs : IFDD.new b thr = .ok s₀) (calls : List (Features ℝ × ℝ))
    (hf : ∀ c ∈ calls, Fits n c.1) (h : Discoveries I s₀ calls s) (g k : Nat) (hgk : g < k) (hk : k < n)
    (hd : ∀ c ∈ calls, ∃ da a, c.1 = .dense da ∧ (da[g]? = some a ∨ da[k]? = some a) ∧ 1e-7 ≤ |a|) :
    ¬ ∃ f ∈ s.features, f.parents = {g, k} := by
  rw [(C111_exact b hn thr ht s₀ s hs calls hf h g k hgk hk).1]
  have : credited g k calls = [] := by
    unfold credited
    rw [List.map_eq_nil_iff, List.filter_eq_nil_iff]
    intro c hc hi
    obtain ⟨da, a, h1, h2, h3⟩ := hd c hc
    classical
    simp only [decide_eq_true_eq] at hi
    obtain ⟨i1, i2⟩ := hi
    rw [h1] at i1 i2
    obtain ⟨a1, q1, r1⟩ := i1
    obtain ⟨a2, q2, r2⟩ := i2
    have hsci : (Scalar.sci 1 7 : ℝ) = 1e-7 := by rw [real_sci]; norm_num
    rw [real_lt, hsci, real_abs, decide_eq_true_eq] at r1 r2
    rcases h2 with h2 | h2
    · rw [h2] at q1; cases q1; linarith
    · rw [h2] at q2; cases q2; linarith
  rw [this]
  simpa using ht

/-- The claim fails: both features of the dense basis `[0, 0]` are inactive, and one call with a large
enough error makes their conjunction a feature. -/
theorem C113_inactive_counterexample : ∃ s₀ s,
    IFDD.new (⟨[0, 0]⟩ : FixedDense ℝ) 1 = .ok s₀ ∧
    Discoveries ℝ s₀ [(.dense [0, 0], 1)] s ∧ copies s {0, 1} = 1 := by
  have hsci : (0 : ℝ) < Scalar.sci 1 7 := by rw [real_sci]; norm_num
  have hin : ∀ i, i < 2 → Inspects (.dense [0, 0] : Features ℝ) i := by
    intro i hi
    refine ⟨0, ?_, ?_⟩
    · match i, hi with
      | 0, _ => rfl
      | 1, _ => rfl
    · rw [real_lt, real_abs, abs_zero]; exact decide_eq_true hsci
  exact C112_duplicates (I := ℝ) (n := 2) (⟨[0, 0]⟩ : FixedDense ℝ) rfl 1 1 (by simp) 0
    (.dense [0, 0]) rfl ⟨trivial, rfl⟩ 0 1 (by decide) (by decide) (hin 0 (by decide)) (hin 1 (by decide)) 1

/-! ## C114 Projection with discovered features -/

theorem allBelow_false {p : Features ℝ} {is : List Nat} {n : Nat} (hf : Fits n p) (his : ∀ i ∈ is, i < n)
    {j : Nat} (hj : j ∈ is) (hl : Live p j) : IFDD.allBelow p is = .ok false := by
  have hsci : (Scalar.sci 1 7 : ℝ) = 1e-7 := by rw [real_sci]; norm_num
  have hidx : ∀ i < n, ∃ a, p.index i = .ok a := by
    intro i hi
    cases p with
    | dense da =>
      have h2 : da.length = n := hf.2
      exact ⟨_, by show idx da i = _; unfold idx; rw [List.getElem?_eq_getElem (h2 ▸ hi)]⟩
    | sparse sa => exact ⟨_, rfl⟩
  have hlive : ∃ a, p.index j = .ok a ∧ ¬ Scalar.lt (Scalar.abs a) (Scalar.sci 1 7 : ℝ) = true := by
    cases p with
    | dense da =>
      obtain ⟨a, ha, hlt⟩ := hl
      exact ⟨a, by show idx da j = _; unfold idx; rw [ha], hlt⟩
    | sparse sa =>
      obtain ⟨a, ha⟩ := hl
      refine ⟨_, rfl, ?_⟩
      have hc : sa.activations.contains j = true := by
        rw [HMap.contains_iff]
        exact List.mem_map.2 ⟨_, ha, rfl⟩
      rw [if_pos hc, hsci, real_lt, real_abs, real_one]
      norm_num
  induction is with
  | nil => cases hj
  | cons i is ih =>
    show (p.index i >>= _) = _
    rcases List.mem_cons.1 hj with rfl | hj
    · obtain ⟨a, ha, hb⟩ := hlive
      rw [ha, P.ok_bind, if_neg hb]
    · obtain ⟨a, ha⟩ := hidx i (his i List.mem_cons_self)
      rw [ha, P.ok_bind]
      split_ifs
      · exact ih (fun i hi => his i (List.mem_cons_of_mem _ hi)) hj
      · rfl

/-- **Partial**: the full claim is that a discovered feature is active exactly when all its parents are,
its parents then being switched off. It holds at an input where every discovered feature has an active
parent and an inactive one: the features of the inner basis are unchanged and the rest are 0. What is
proved needs only the active parent, so that it also shows what goes wrong: where *all* parents are active,
the conjunction is 0 and the parents stay (`C114_both_active_counterexample`); where all are inactive,
see `C114_inactive`. -/
theorem C114_project_partial {n : Nat} (b : B) (hn : Space.dim b = .finite n) (thr : ℝ)
    (s₀ s : IFDD B ℝ) (hs : IFDD.new b thr = .ok s₀) (calls : List (Features ℝ × ℝ))
    (hf : ∀ c ∈ calls, Fits n c.1) (h : Discoveries I s₀ calls s) (x : I) (φ : Features ℝ)
    (hp : Basis.project b x = .ok (.ok φ)) (hφ : Fits n φ)
    (hl : ∀ (i : Nat) (f : IfddFeature), n ≤ i → s.features[i]? = some f → ∃ j ∈ f.parents, Live φ j) :
    ∃ r, Basis.project s x = .ok (.ok r) ∧ WF r ∧ Space.dim s = .finite (dim r) ∧
      view r = view φ ++ List.replicate (dim r - n) 0 := by
  obtain ⟨a1, a2, -⟩ := IFDD.new_spec hs hn
  obtain ⟨b1, b2, -⟩ := run_spec h a1 hf
  have hact : ∀ is : List Nat, (∀ i ∈ is, n ≤ i ∧ i < s.features.length) → s.activated φ is = .ok [] := by
    intro is
    induction is with
    | nil => intro _; rfl
    | cons i is ih =>
      intro his
      obtain ⟨h1, h2⟩ := his i List.mem_cons_self
      obtain ⟨f, hf⟩ : ∃ f, s.features[i]? = some f := ⟨_, List.getElem?_eq_getElem h2⟩
      obtain ⟨j, hj, hlj⟩ := hl i f h1 hf
      obtain ⟨g, k, hgk, hk, hpar⟩ := b1.pair i f h1 hf
      have hab : IFDD.allBelow φ (f.parents.sort (· ≤ ·)) = .ok false := by
        refine allBelow_false hφ (fun i hi => ?_) ((Finset.mem_sort _).2 hj) hlj
        rw [Finset.mem_sort, hpar, Finset.mem_insert, Finset.mem_singleton] at hi
        omega
      show (idx s.features i >>= _) = _
      rw [show idx s.features i = .ok f by unfold idx; rw [hf], P.ok_bind, hab, P.ok_bind,
        ih fun i hi => his i (List.mem_cons_of_mem _ hi)]
      rfl
  obtain ⟨r, hr, hw, hv, hd, -⟩ := C06_stack φ (Features.unitary (s.features.length - n) []) hφ.1
    (wf_units (K := ℝ) (n := s.features.length - n) (is := []) (by simp))
  have hge := b1.ge
  have hdim : dim r = s.features.length := by
    have e1 : r.nFeatures = dim r := by cases r <;> rfl
    have e2 : φ.nFeatures = n := by rw [← hφ.2]; cases φ <;> rfl
    have e3 : (Features.unitary (s.features.length - n) [] : Features ℝ).nFeatures =
      s.features.length - n := rfl
    rw [e1, e2, e3] at hd
    omega
  refine ⟨r, ?_, hw, ?_, ?_⟩
  · show IFDD.project s x = _
    unfold IFDD.project
    rw [b2, a2, hn, show (Dim.finite n).toUsize = .ok n from rfl, P.ok_bind, hp, P.ok_bind]
    show (s.activated φ _ >>= _) = _
    rw [hact _ fun i hi => by
      rw [List.mem_range'_1] at hi
      omega]
    show (Features.stack φ (Features.unitary (s.features.length - n) []) >>= _) = _
    rw [hr]
    rfl
  · show Dim.finite s.features.length = _
    rw [hdim]
  · rw [hv, hdim]
    congr 1
    show (List.range (s.features.length - n)).map _ = _
    rw [List.eq_replicate_iff]
    refine ⟨by simp, fun v hv => ?_⟩
    obtain ⟨i, -, rfl⟩ := List.mem_map.1 hv
    exact real_zero

end

theorem allBelow_ok {p : Features ℝ} {n : Nat} (hf : Fits n p) : ∀ is : List Nat, (∀ i ∈ is, i < n) →
    ∃ b, IFDD.allBelow p is = .ok b ∧ ((∀ i ∈ is, Inspects p i ∧ p.isSparse = false) → b = true) := by
  intro is
  induction is with
  | nil => intro _; exact ⟨true, rfl, fun _ => rfl⟩
  | cons i is ih =>
    intro his
    obtain ⟨b, hb, hb'⟩ := ih fun i hi => his i (List.mem_cons_of_mem _ hi)
    have hi := his i List.mem_cons_self
    cases p with
    | dense da =>
      have h2 : da.length = n := hf.2
      have hx : da[i]? = some da[i] := List.getElem?_eq_getElem (h2 ▸ hi)
      rw [show IFDD.allBelow (.dense da : Features ℝ) (i :: is) = (idx da i >>= fun a =>
        if Scalar.lt (Scalar.abs a) (Scalar.sci 1 7) then IFDD.allBelow (.dense da) is else .ok false) from rfl,
        show idx da i = .ok da[i] by unfold idx; rw [hx], P.ok_bind]
      split_ifs with hc
      · exact ⟨b, hb, fun h => hb' fun j hj => h j (List.mem_cons_of_mem _ hj)⟩
      · refine ⟨false, rfl, fun h => ?_⟩
        obtain ⟨⟨a, ha, hlt⟩, -⟩ := h i List.mem_cons_self
        rw [hx] at ha
        cases ha
        exact absurd hlt hc
    | sparse sa =>
      rw [show IFDD.allBelow (.sparse sa : Features ℝ) (i :: is) =
        (if Scalar.lt (Scalar.abs (if sa.activations.contains i then Scalar.one else Scalar.zero : ℝ))
          (Scalar.sci 1 7) then IFDD.allBelow (.sparse sa) is else .ok false) from rfl]
      split_ifs
      all_goals first
        | exact ⟨b, hb, fun h => hb' fun j hj => h j (List.mem_cons_of_mem _ hj)⟩
        | exact ⟨false, rfl, fun h => by cases (h i List.mem_cons_self).2⟩

theorem wf_unitary_keys (n : Nat) (is : List Nat) (i : Nat) (hi : i ∈ is) :
    ∃ sa : SparseActivations ℝ, Features.unitary n is = .sparse sa ∧ sa.dim = n ∧
      ∃ e ∈ sa.activations, e.1 = i := by
  refine ⟨_, rfl, rfl, ?_⟩
  have : i ∈ (HMap.collect (is.map fun i => (i, (Scalar.one : ℝ)))).map Prod.fst := by
    rw [HMap.mem_keys_collect, List.map_map]
    simpa using hi
  obtain ⟨e, he, rfl⟩ := List.mem_map.1 this
  exact ⟨e, he, rfl⟩

/-- With dense projections (and the present `stack`), an input at which every parent of the newest
discovered feature is below 1e-7 makes the projection panic: the conjunction is taken to be active, and
its index is used as if it counted from the first discovered feature. -/
theorem C114_inactive {B I : Type} [Space B] [Basis B I ℝ] {n : Nat} (b : B)
    (hn : Space.dim b = .finite n) (thr : ℝ) (s₀ s : IFDD B ℝ) (hs : IFDD.new b thr = .ok s₀)
    (calls : List (Features ℝ × ℝ)) (hf : ∀ c ∈ calls, Fits n c.1) (h : Discoveries I s₀ calls s) (x : I)
    (da : List ℝ) (hp : Basis.project b x = .ok (.ok (.dense da))) (hφ : Fits n (.dense da))
    (f : IfddFeature) (hm : n < s.features.length) (hlast : s.features[s.features.length - 1]? = some f)
    (hl : ∀ j ∈ f.parents, Inspects (.dense da) j) : Panics (Basis.project s x) := by
  obtain ⟨a1, a2, -⟩ := IFDD.new_spec hs hn
  obtain ⟨b1, b2, -⟩ := run_spec h a1 hf
  obtain ⟨g, k, hgk, hk, hpar⟩ := b1.pair (s.features.length - 1) f (by omega) hlast
  have hact : ∀ is : List Nat, (∀ i ∈ is, n ≤ i ∧ i < s.features.length) →
      ∃ np, s.activated (.dense da) is = .ok np ∧ (∀ i ∈ np, i < s.features.length) ∧
        (s.features.length - 1 ∈ is → s.features.length - 1 ∈ np) := by
    intro is
    induction is with
    | nil => intro _; exact ⟨[], rfl, by simp, id⟩
    | cons i is ih =>
      intro his
      obtain ⟨np, h1, h2, h3⟩ := ih fun i hi => his i (List.mem_cons_of_mem _ hi)
      obtain ⟨q1, q2⟩ := his i List.mem_cons_self
      obtain ⟨f', hf'⟩ : ∃ f, s.features[i]? = some f := ⟨_, List.getElem?_eq_getElem q2⟩
      obtain ⟨g', k', hgk', hk', hpar'⟩ := b1.pair i f' q1 hf'
      obtain ⟨c, hc, hc'⟩ := allBelow_ok hφ (f'.parents.sort (· ≤ ·)) fun j hj => by
        rw [Finset.mem_sort, hpar', Finset.mem_insert, Finset.mem_singleton] at hj
        omega
      refine ⟨if c then i :: np else np, ?_, ?_, ?_⟩
      · show (idx s.features i >>= _) = _
        rw [show idx s.features i = .ok f' by unfold idx; rw [hf'], P.ok_bind, hc, P.ok_bind, h1]
        rfl
      · split_ifs
        · intro j hj
          rcases List.mem_cons.1 hj with rfl | hj
          · exact q2
          · exact h2 j hj
        · exact h2
      · intro hmem
        rcases List.mem_cons.1 hmem with he | hmem
        · subst he
          rw [hlast] at hf'
          cases hf'
          rw [if_pos (hc' fun j hj => ⟨hl j ((Finset.mem_sort _).1 hj), rfl⟩)]
          exact List.mem_cons_self
        · split_ifs
          · exact List.mem_cons_of_mem _ (h3 hmem)
          · exact h3 hmem
  obtain ⟨np, h1, h2, h3⟩ := hact (List.range' n (s.features.length - n)) fun i hi => by
    rw [List.mem_range'_1] at hi
    omega
  have h3 := h3 (List.mem_range'_1.2 (by omega))
  have hrem : ∀ (is : List Nat), (∀ i ∈ is, i < s.features.length) → ∀ (l : List ℝ),
      ∃ l', s.removeParents (.dense l) is = .ok (.dense l') := by
    intro is
    induction is with
    | nil => exact fun _ l => ⟨l, rfl⟩
    | cons i is ih =>
      intro his l
      have hfold : ∀ (js : List Nat) (l : List ℝ), ∃ l', js.foldl Features.remove (.dense l) =
          (.dense l' : Features ℝ) := by
        intro js
        induction js with
        | nil => exact fun l => ⟨l, rfl⟩
        | cons j js ih => exact fun l => ih (l.set j Scalar.zero)
      obtain ⟨f', hf'⟩ : ∃ f, s.features[i]? = some f :=
        ⟨_, List.getElem?_eq_getElem (his i List.mem_cons_self)⟩
      obtain ⟨l₁, hl₁⟩ := hfold (f'.parents.sort (· ≤ ·)) l
      obtain ⟨l₂, hl₂⟩ := ih (fun i hi => his i (List.mem_cons_of_mem _ hi)) l₁
      refine ⟨l₂, ?_⟩
      show (idx s.features i >>= _) = _
      rw [show idx s.features i = .ok f' by unfold idx; rw [hf'], P.ok_bind, hl₁]
      exact hl₂
  obtain ⟨l, hl'⟩ := hrem np h2 da
  obtain ⟨sa, e1, e2, e, e3, e4⟩ := wf_unitary_keys (s.features.length - n) np _ h3
  have hpan : (Features.sparse sa).intoDense = .error .indexOutOfBounds := by
    show Features.scatterSet id sa.activations _ = _
    rw [Features.scatterSet_eq_scatterMod]
    refine Features.scatterMod_error _ ⟨e, e3, ?_⟩
    rw [List.length_replicate, e4, e2]
    omega
  refine ⟨.indexOutOfBounds, ?_⟩
  show IFDD.project s x = _
  unfold IFDD.project
  rw [b2, a2, hn, show (Dim.finite n).toUsize = .ok n from rfl, P.ok_bind, hp, P.ok_bind]
  show (s.activated (.dense da) _ >>= _) = _
  rw [h1, P.ok_bind, hl', P.ok_bind, e1]
  show (Features.intoDense (.dense l) >>= fun a₁ => (Features.sparse sa).intoDense >>= _) >>= _ = _
  rw [hpan]
  rfl

/-- Both features of the inner basis are active and their conjunction has been discovered, yet the
projection is `[1, 1, 0]` rather than `[0, 0, 1]`. -/
theorem C114_both_active_counterexample : ∃ s₀ s,
    IFDD.new (⟨2, [0, 1]⟩ : FixedSparse ℝ) 1 = .ok s₀ ∧
    Discoveries ℝ s₀ [(.sparse ⟨2, [(0, Scalar.one), (1, Scalar.one)]⟩, 1)] s ∧ copies s {0, 1} = 1 ∧
    ∃ r, Basis.project s (0 : ℝ) = .ok (.ok r) ∧ view r = [1, 1] ++ List.replicate (dim r - 2) 0 := by
  obtain ⟨s₀, s, h1, h2, h3⟩ := C112_duplicates (I := ℝ) (n := 2) (⟨2, [0, 1]⟩ : FixedSparse ℝ)
    rfl 1 1 (by simp) 0 _ project_pair fits_pair 0 1 (by decide) (by decide) ⟨_, .head _⟩
    ⟨_, .tail _ (.head _)⟩ 1
  refine ⟨s₀, s, h1, h2, h3, ?_⟩
  have hf : ∀ c ∈ [((.sparse ⟨2, [(0, Scalar.one), (1, Scalar.one)]⟩ : Features ℝ), (1 : ℝ))], Fits 2 c.1 := by
    intro c hc
    rw [List.mem_singleton.1 hc]
    exact fits_pair
  obtain ⟨-, -, hpair, -⟩ := C111_features _ rfl 1 s₀ s h1 _ hf h2
  obtain ⟨r, hr, -, -, hv⟩ := C114_project_partial _ rfl 1 s₀ s h1 _ hf h2 0 _ project_pair fits_pair
    (fun i f hi hif => by
      obtain ⟨g, k, hgk, hk, hpar⟩ := hpair i f hi hif
      have : g = 0 := by omega
      exact ⟨g, by rw [hpar]; simp, by subst this; exact ⟨_, .head _⟩⟩)
  refine ⟨r, hr, hv.trans ?_⟩
  congr 1
  show [Scalar.one, Scalar.one] = _
  rw [real_one]

/-- A concrete input at which the projection panics. -/
theorem C114_inactive_counterexample : ∃ s₀ s,
    IFDD.new (⟨[0, 0]⟩ : FixedDense ℝ) 1 = .ok s₀ ∧
    Discoveries ℝ s₀ [(.dense [0, 0], 1)] s ∧ Panics (Basis.project s (0 : ℝ)) := by
  obtain ⟨s₀, s, h1, h2, h3⟩ := C113_inactive_counterexample
  have hsci : (0 : ℝ) < Scalar.sci 1 7 := by rw [real_sci]; norm_num
  have hf : ∀ c ∈ [((.dense [0, 0] : Features ℝ), (1 : ℝ))], Fits 2 c.1 := by
    intro c hc
    rw [List.mem_singleton.1 hc]
    exact ⟨trivial, rfl⟩
  obtain ⟨hbase, -, hpair, -⟩ := C111_features _ rfl 1 s₀ s h1 _ hf h2
  have hlen : 2 < s.features.length := by
    by_contra hle
    obtain ⟨f, hfm, hfp⟩ := List.countP_pos_iff.1 (show 0 < s.features.countP fun f => f.parents = {0, 1} by
      rw [show s.features.countP _ = 1 from h3]; decide)
    obtain ⟨i, hi, rfl⟩ := List.mem_iff_getElem.1 hfm
    have := hbase i (by omega)
    rw [List.getElem?_eq_getElem hi] at this
    have hp := of_decide_eq_true hfp
    rw [Option.some.inj this] at hp
    have hc := congrArg Finset.card hp
    simp at hc
  obtain ⟨f, hlast⟩ : ∃ f, s.features[s.features.length - 1]? = some f :=
    ⟨_, List.getElem?_eq_getElem (by omega)⟩
  refine ⟨s₀, s, h1, h2, C114_inactive _ rfl 1 s₀ s h1 _ hf h2 0 [0, 0] rfl ⟨trivial, rfl⟩ f hlen hlast ?_⟩
  intro j hj
  obtain ⟨g, k, hgk, hk, hpar⟩ := hpair _ f (by omega) hlast
  rw [hpar, Finset.mem_insert, Finset.mem_singleton] at hj
  refine ⟨0, ?_, ?_⟩
  · have : j = 0 ∨ j = 1 := by omega
    rcases this with rfl | rfl <;> rfl
  · rw [real_lt, real_abs, abs_zero]; exact decide_eq_true hsci

end Lfa

import Verif.Spec.Control
import Verif.Proofs.Backup
import Verif.Proofs.OptimReal
import Verif.Props.C59_C68
import Verif.Props.C72_C79
import Mathlib.Data.List.GetD

/-!
# C186: learning the values of actions in a table

A vector approximator over a table, one output for each action, trained as in Q-learning: `update_index` towards the
reward plus the discounted greatest output at the next input.
-/

set_option linter.unusedSectionVars false

namespace Lfa

open Spec Spec.Environment Filter Topology

/-! ## One call on a table, in any arithmetic -/

section
variable {B O I K : Type} [Scalar K] [Space B] [Basis B I K]

/-- One activation of 1. -/
def oneHot (K : Type) [Scalar K] (n i : Nat) : Features K := .sparse ⟨n, [(i, (Scalar.one : K))]⟩

theorem oneHot_fits {n i : Nat} (hi : i < n) : Fits n (oneHot K n i) := by
  refine ⟨⟨by simp, fun e he => ?_⟩, rfl⟩
  rw [List.mem_singleton.1 he]
  exact hi

/-- Multiplying by 1 and adding to 0 change nothing. -/
def ExactOne (K : Type) [Scalar K] : Prop := ∀ v : K, Scalar.zero +. v *. Scalar.one = v

theorem oneHot_dot (hone : ExactOne K) {n i : Nat} (hi : i < n) {w : List K} (hw : w.length = n) :
    (oneHot K n i).dot w = .ok (entry w i) := by
  show Features.dotSparse _ w = _
  rw [dotSparse_ok (by simpa [hw] using hi)]
  show Except.ok (Scalar.zero +. entry w i *. Scalar.one) = _
  rw [hone]

/-- The entry of output `a` for cell `i`. -/
def cellOf (ws : List (List K)) (a i : Nat) : K := entry (ws.getD a []) i

/-- `rate` is the rate with which the optimiser steps in a table of `n` cells, and it keeps no state. -/
def TableRate [Optimiser O K] (o : O) (n : Nat) (rate : K) : Prop :=
  ∀ (i : Nat) (w : List K) (e : K), i < n → w.length = n →
    ∃ w', Optimiser.stepScaled o w (oneHot K n i) e = .ok (.ok (), o, w') ∧ w'.length = n ∧
      entry w' i = (entry w i +. rate *. e *. Scalar.one) ∧ ∀ j, j ≠ i → entry w' j = entry w j

theorem oneHot_stored {n i j : Nat} {v : K} (h : Stored (oneHot K n i) j v) : j = i := by
  have := List.mem_singleton.1 h
  injection this

theorem step_other {n i : Nat} {w w' : List K} (hw : w.length = n) (hw' : w'.length = n)
    (h : ∀ j < n, ¬ Active (oneHot K n i) j → entry w' j = entry w j) (j : Nat) (hj : j ≠ i) :
    entry w' j = entry w j := by
  by_cases hjn : j < n
  · refine h j hjn ?_
    rintro ⟨v, hv⟩
    exact hj (oneHot_stored hv)
  · unfold entry
    rw [List.getD_eq_default _ _ (by omega), List.getD_eq_default _ _ (by omega)]

theorem sgd_tableRate (n : Nat) (lr : K) : TableRate (SGD.mk lr) n lr := by
  intro i w e hi hw
  obtain ⟨w', h1, h2, h3⟩ := sgd_scaled (oneHot_fits (K := K) hi) (SGD.mk lr) e hw
  exact ⟨w', h1, h2, (h3 i hi).1 Scalar.one (List.mem_singleton.2 rfl),
    step_other hw h2 fun j hj => (h3 j hj).2⟩

/-- The rate of ISGD does not depend on the cell. -/
theorem isgd_computeLr (n i : Nat) (o : ISGD K) : o.computeLr (oneHot K n i) = o.computeLr (oneHot K 1 0) := rfl

theorem isgd_tableRate (n : Nat) (o : ISGD K) : TableRate o n (o.computeLr (oneHot K 1 0)) := by
  intro i w e hi hw
  obtain ⟨w', h1, h2, h3⟩ := isgd_scaled (oneHot_fits (K := K) hi) o e hw
  rw [isgd_computeLr] at h3
  exact ⟨w', h1, h2, (h3 i hi).1 Scalar.one (List.mem_singleton.2 rfl),
    step_other hw h2 fun j hj => (h3 j hj).2⟩

theorem table_evaluate (hone : ExactOne K) {b : B} {o : O} {n : Nat} {ws : List (List K)}
    (hl : ∀ c ∈ ws, c.length = n) {x : I} {i : Nat} (hi : i < n)
    (hx : Basis.project b x = .ok (.ok (oneHot K n i))) :
    VectorLFA.evaluate (LFA.mk b ws o) x = .ok (.ok (ws.map fun c => entry c i)) := by
  rw [vector_evaluate_eq (fa := LFA.mk b ws o) hx]
  have : (oneHot K n i).matmul ws = .ok (ws.map fun c => entry c i) := by
    unfold Features.matmul
    refine (mapM_ok_iff _ _ _).2 ?_
    rw [List.forall₂_iff_get]
    refine ⟨by simp, fun j h1 h2 => ?_⟩
    have := oneHot_dot hone hi (hl ws[j] (List.getElem_mem h1))
    simp only [List.get_eq_getElem, List.getElem_map]
    rw [← this]
    rfl
  rw [show (LFA.mk b ws o).weights = ws from rfl, this]
  rfl

theorem table_evaluateIndex (hone : ExactOne K) {b : B} {o : O} {n : Nat} {ws : List (List K)}
    (hl : ∀ c ∈ ws, c.length = n) {x : I} {i : Nat} (hi : i < n)
    (hx : Basis.project b x = .ok (.ok (oneHot K n i))) {a : Nat} (ha : a < ws.length) :
    VectorLFA.evaluateIndex (LFA.mk b ws o) x a = .ok (.ok (cellOf ws a i)) := by
  refine (C62_consistent (LFA.mk b ws o) x _ (table_evaluate hone hl hi hx)).2.1 a _ ?_
  rw [List.getElem?_map, List.getElem?_eq_getElem ha, cellOf, List.getD_eq_getElem _ _ ha]
  rfl

theorem table_update [Optimiser O K] {b : B} {o : O} {n : Nat} {rate : K}
    (ho : TableRate o n rate) {ws : List (List K)} (hl : ∀ c ∈ ws, c.length = n) {x : I} {i : Nat} (hi : i < n)
    (hx : Basis.project b x = .ok (.ok (oneHot K n i))) {a : Nat} (ha : a < ws.length) (e : K) :
    ∃ ws', VectorLFA.updateIndex (LFA.mk b ws o) x a e = .ok (.ok (), LFA.mk b ws' o) ∧
      ws'.length = ws.length ∧ (∀ c ∈ ws', c.length = n) ∧
      cellOf ws' a i = (cellOf ws a i +. rate *. e *. Scalar.one) ∧
      ∀ a' j, (a', j) ≠ (a, i) → cellOf ws' a' j = cellOf ws a' j := by
  obtain ⟨w', h1, h2, h3, h4⟩ := ho i ws[a] e hi (hl _ (List.getElem_mem ha))
  refine ⟨ws.set a w', ?_, List.length_set, fun c hc => ?_, ?_, fun a' j hne => ?_⟩
  · show (Basis.project b x >>= _) = _
    rw [hx, P.ok_bind]
    show (idx ws a >>= _) = _
    have hidx : idx ws a = .ok ws[a] := by
      unfold idx
      rw [List.getElem?_eq_getElem ha]
    rw [hidx, P.ok_bind]
    show (Optimiser.stepScaled o ws[a] (oneHot K n i) e >>= _) = _
    rw [h1, P.ok_bind]
    show (setIdx ws a w' >>= _) = _
    unfold setIdx
    rw [if_pos ha]
    rfl
  · rcases List.mem_or_eq_of_mem_set hc with h | h
    · exact hl c h
    · rw [h, h2]
  · unfold cellOf
    rw [List.getD_eq_getElem _ _ (by rw [List.length_set]; exact ha), List.getElem_set_self, h3,
      List.getD_eq_getElem _ _ ha]
  · unfold cellOf
    by_cases haa : a' = a
    · subst haa
      have hj : j ≠ i := fun h => hne (by rw [h])
      rw [List.getD_eq_getElem _ _ (by rw [List.length_set]; exact ha), List.getElem_set_self, h4 j hj,
        List.getD_eq_getElem _ _ ha]
    · rw [List.getD_eq_getElem?_getD, List.getD_eq_getElem?_getD, List.getElem?_set_ne (Ne.symm haa)]

end

/-! ## The environment seen through the table -/

section
variable {B I K : Type} [Scalar K] [Space B] [Basis B I K]

/-- The cells that inputs of `X` fall into. -/
def Cells (b : B) (n : Nat) (X : I → Prop) (i : Nat) : Prop :=
  i < n ∧ ∃ x, X x ∧ Basis.project b x = .ok (.ok (oneHot K n i))

theorem cells_finite (b : B) (n : Nat) (X : I → Prop) : Finite {i // Cells (K := K) b n X i} :=
  Set.Finite.to_subtype ((Set.finite_Iio n).subset fun _ hi => hi.1)

theorem oneHot_inj {n i j : Nat} (h : (.ok (.ok (oneHot K n i)) : P (Result (Features K))) = .ok (.ok (oneHot K n j))) :
    i = j := by
  injection h with h
  injection h with h
  injection h with h
  injection h with _ h
  injection h with h
  injection h

/-- Cell of an input. -/
theorem cell_exists {b : B} {n : Nat} {X : I → Prop} (hb : IsTable (K := K) b n X) :
    ∃ c : {x // X x} → {i // Cells (K := K) b n X i},
      (∀ x, Basis.project b x.1 = .ok (.ok (oneHot K n (c x).1))) ∧ Function.Surjective c ∧
      ∀ x y, c x = c y ↔ SameProjection (K := K) b x.1 y.1 := by
  have := fun x : {x // X x} => hb x.1 x.2
  choose f f1 f2 using this
  have hc : ∀ x, Cells (K := K) b n X (f x) := fun x => ⟨f1 x, x.1, x.2, f2 x⟩
  refine ⟨fun x => ⟨f x, hc x⟩, f2, fun i => ?_, fun x y => ?_⟩
  · obtain ⟨i, hi, x, hx, hp⟩ := i
    refine ⟨⟨x, hx⟩, Subtype.ext ?_⟩
    exact oneHot_inj ((f2 ⟨x, hx⟩).symm.trans hp)
  · constructor
    · intro h
      have h : f x = f y := congrArg Subtype.val h
      show Basis.project b x.1 = Basis.project b y.1
      rw [f2 x, f2 y, h]
    · intro h
      exact Subtype.ext (oneHot_inj ((f2 x).symm.trans (h.trans (f2 y))))

end

section
variable {B I K : Type} [Scalar K] [Space B] [Basis B I K]

/-- The greatest discounted sums, cell by cell. -/
theorem values_exist (f : K → ℝ) {b : B} {n A : Nat} {X : I → Prop} {E : Environment I K} (hA : 0 < A)
    (hE : Respects E b A X) {c : {x // X x} → {i // Cells (K := K) b n X i}} (hsurj : Function.Surjective c)
    (halike : ∀ x y, c x = c y ↔ SameProjection (K := K) b x.1 y.1) {γ : ℝ} (hγ0 : 0 ≤ γ)
    (hγ : ∀ x a, X x → a < A → 0 ≤ f (E.discount x a) ∧ f (E.discount x a) ≤ γ) (hγ1 : γ < 1) :
    ∃ Q : {i // Cells (K := K) b n X i} → Fin A → ℝ,
      (∀ x (a : Fin A), Best (mapEnv f E) A x.1 a (Q (c x) a)) ∧
      (∀ x (a : Fin A), ∃ b', Q (c x) a = f (E.reward x.1 a) + f (E.discount x.1 a) *
          Q (c ⟨E.next x.1 a, hE.closed _ _ x.2 a.2⟩) b' ∧
        ∀ b'', Q (c ⟨E.next x.1 a, hE.closed _ _ x.2 a.2⟩) b'' ≤
          Q (c ⟨E.next x.1 a, hE.closed _ _ x.2 a.2⟩) b') ∧
      (∀ (x : {x // X x}) (acts : Nat → Nat) (hacts : ∀ k, acts k < A) (hin : ∀ k, X (E.visits x.1 acts k)) (δ : ℝ),
        0 ≤ δ →
        (∀ k b', Q (c ⟨_, hin (k + 1)⟩) b' ≤ Q (c ⟨_, hin (k + 1)⟩) ⟨acts (k + 1), hacts (k + 1)⟩ + δ) →
        ∃ G, Collects (mapEnv f E) x.1 acts G ∧ Q (c x) ⟨acts 0, hacts 0⟩ - γ * δ / (1 - γ) ≤ G) ∧
      ∀ V : ℝ, (∀ x a, X x → a < A → |f (E.reward x a)| ≤ (1 - γ) * V) → ∀ i a, |Q i a| ≤ V := by
  have := cells_finite (K := K) b n X
  have : Nonempty (Fin A) := ⟨⟨0, hA⟩⟩
  choose rep hrep using hsurj
  have hal : ∀ x, SameProjection (K := K) b (rep (c x)).1 x.1 := fun x => (halike _ _).1 (hrep (c x))
  set r : {i // Cells (K := K) b n X i} → Fin A → ℝ := fun s a => f (E.reward (rep s).1 a) with hr
  set g : {i // Cells (K := K) b n X i} → Fin A → ℝ := fun s a => f (E.discount (rep s).1 a) with hg
  set nx : {i // Cells (K := K) b n X i} → Fin A → {i // Cells (K := K) b n X i} :=
    fun s a => c ⟨E.next (rep s).1 a, hE.closed _ _ (rep s).2 a.2⟩ with hnx
  have er : ∀ x (a : Fin A), r (c x) a = f (E.reward x.1 a) := fun x a =>
    congrArg f (hE.reward _ _ _ (rep (c x)).2 x.2 (hal x) a.2)
  have eg : ∀ x (a : Fin A), g (c x) a = f (E.discount x.1 a) := fun x a =>
    congrArg f (hE.discount _ _ _ (rep (c x)).2 x.2 (hal x) a.2)
  have en : ∀ x (a : Fin A), nx (c x) a = c ⟨E.next x.1 a, hE.closed _ _ x.2 a.2⟩ := fun x a =>
    (halike _ _).2 (hE.next _ _ _ (rep (c x)).2 x.2 (hal x) a.2)
  have hgb : ∀ s a, 0 ≤ g s a ∧ g s a ≤ γ := fun s a => hγ _ _ (rep s).2 a.2
  obtain ⟨Q, hQ⟩ := Backup.exists_optimal (r := r) (nx := nx) hgb hγ1
  have hin : ∀ (x : {x // X x}) (acts : Nat → Nat) (_ : ∀ k, acts k < A),
      ∀ k, X ((mapEnv f E).visits x.1 acts k) := by
    intro x acts hacts k
    induction k with
    | zero => exact x.2
    | succ k ih => exact hE.closed _ _ ih (hacts k)
  have hst : ∀ (x : {x // X x}) (acts : Nat → Fin A) k, Backup.states nx (c x) acts k =
      c ⟨(mapEnv f E).visits x.1 (fun k => acts k) k, hin x _ (fun k => (acts k).2) k⟩ := by
    intro x acts k
    induction k with
    | zero => rfl
    | succ k ih =>
      show nx (Backup.states nx (c x) acts k) (acts k) = _
      rw [ih, en]
      rfl
  have hterm : ∀ (x : {x // X x}) (acts : Nat → Fin A), Backup.terms r g nx (c x) acts = fun k =>
      (∏ j ∈ Finset.range k, (mapEnv f E).discount ((mapEnv f E).visits x.1 (fun k => acts k) j) (acts j)) *
        (mapEnv f E).reward ((mapEnv f E).visits x.1 (fun k => acts k) k) (acts k) := by
    intro x acts
    funext k
    unfold Backup.terms
    simp only [hst, er, eg]
    rfl
  have hvis : ∀ x acts k, (mapEnv f E).visits x acts k = E.visits x acts k := by
    intro x acts k
    induction k with
    | zero => rfl
    | succ k ih =>
      show E.next _ _ = E.next _ _
      rw [ih]
  refine ⟨Q, fun x a => ?_, fun x a => ?_, fun x acts hacts hin' δ hδ hδ' => ?_, fun V hV i a =>
    Backup.optimal_bound hgb hγ1 hQ (fun s a => hV _ _ (rep s).2 a.2) i a⟩
  · have hbest := Backup.optimal_greatest hgb hγ0 hγ1 hQ (c x) a
    have hset : {G | ∃ acts : Nat → Nat, acts 0 = a ∧ (∀ k, acts k < A) ∧ (mapEnv f E).Collects x.1 acts G} =
        {G | ∃ acts : Nat → Fin A, acts 0 = a ∧ HasSum (Backup.terms r g nx (c x) acts) G} := by
      ext G
      constructor
      · rintro ⟨acts, h1, h2, h3⟩
        refine ⟨fun k => ⟨acts k, h2 k⟩, Fin.ext h1, ?_⟩
        rw [hterm]
        exact h3
      · rintro ⟨acts, h1, h2⟩
        rw [hterm] at h2
        exact ⟨fun k => acts k, congrArg Fin.val h1, fun k => (acts k).2, h2⟩
    show IsGreatest _ _
    rw [hset]
    exact hbest
  · obtain ⟨b', h1, h2⟩ := hQ (c x) a
    rw [er, eg, en] at h1
    rw [en] at h2
    exact ⟨b', h1, h2⟩
  · obtain ⟨G, h1, h2⟩ := Backup.greedy_collects hgb hγ0 hγ1 hQ (c x) (fun k => (⟨acts k, hacts k⟩ : Fin A)) hδ
      fun k b' => by
        have e : Backup.states nx (c x) (fun k => (⟨acts k, hacts k⟩ : Fin A)) (k + 1) = c ⟨_, hin' (k + 1)⟩ := by
          rw [hst]
          congr 1
          exact Subtype.ext (hvis _ _ _)
        rw [e]
        exact hδ' k b'
    rw [hterm] at h1
    exact ⟨G, h1, h2⟩

/-- What one call does. -/
theorem learns_any {O : Type} [Optimiser O K] (hone : ExactOne K) {b : B} {o : O} {n A : Nat} {X : I → Prop}
    {E : Environment I K} {α : K} (ho : TableRate o n α) (hE : Respects E b A X)
    {c : {x // X x} → {i // Cells (K := K) b n X i}}
    (hc : ∀ x, Basis.project b x.1 = .ok (.ok (oneHot K n (c x).1))) {ws : List (List K)} (hA : ws.length = A)
    (hl : ∀ col ∈ ws, col.length = n) {x : I} (hx : X x) {a : Nat} (ha : a < A) {fv' : VectorLFA B O K}
    (h : Learns E (LFA.mk b ws o) x a fv') :
    ∃ ws' m, fv' = LFA.mk b ws' o ∧ ws'.length = A ∧ (∀ col ∈ ws', col.length = n) ∧
      (∃ a' < A, m = cellOf ws a' (c ⟨E.next x a, hE.closed x a hx ha⟩).1) ∧
      (∀ a' < A, Scalar.lt m (cellOf ws a' (c ⟨E.next x a, hE.closed x a hx ha⟩).1) = false) ∧
      cellOf ws' a (c ⟨x, hx⟩).1 = (cellOf ws a (c ⟨x, hx⟩).1 +.
        α *. (E.reward x a +. E.discount x a *. m -. cellOf ws a (c ⟨x, hx⟩).1) *. Scalar.one) ∧
      ∀ a' j, (a', j) ≠ (a, (c ⟨x, hx⟩).1) → cellOf ws' a' j = cellOf ws a' j := by
  obtain ⟨qs, m, q, h1, h2, h3, h4, h5⟩ := h
  subst hA
  rw [table_evaluate hone hl (c ⟨_, hE.closed x a hx ha⟩).2.1 (hc ⟨_, hE.closed x a hx ha⟩)] at h1
  cases h1
  rw [table_evaluateIndex hone hl (c ⟨x, hx⟩).2.1 (hc ⟨x, hx⟩) ha] at h4
  cases h4
  obtain ⟨ws', u1, u2, u3, u4, u5⟩ := table_update ho hl (c ⟨x, hx⟩).2.1 (hc ⟨x, hx⟩) ha
    (E.reward x a +. E.discount x a *. m -. cellOf ws a (c ⟨x, hx⟩).1)
  rw [u1] at h5
  simp only [Except.ok.injEq, Prod.mk.injEq, true_and] at h5
  refine ⟨ws', m, h5.symm, u2, u3, ?_, fun a' ha' => ?_, u4, u5⟩
  · obtain ⟨col, hcol, rfl⟩ := List.mem_map.1 h2
    obtain ⟨a', ha', rfl⟩ := List.mem_iff_getElem.1 hcol
    exact ⟨a', ha', by rw [cellOf, List.getD_eq_getElem _ _ ha']⟩
  · exact h3 (cellOf ws a' (c ⟨E.next x a, hE.closed x a hx ha⟩).1) (List.mem_map.2 ⟨ws[a'], List.getElem_mem ha',
      by rw [cellOf, List.getD_eq_getElem _ _ ha']⟩)

end

/-! ## C186 -/

section
variable {B O I : Type} [Space B] [Basis B I ℝ] [Optimiser O ℝ]

theorem exactOne_real : ExactOne ℝ := fun v => by
  rw [real_one, real_zero]
  show 0 + v * 1 = v
  ring

/-- What one call does. -/
theorem learns_step {b : B} {o : O} {n A : Nat} {X : I → Prop} {E : Environment I ℝ} {α : ℝ}
    (ho : TableRate o n α) (hE : Respects E b A X) {c : {x // X x} → {i // Cells (K := ℝ) b n X i}}
    (hc : ∀ x, Basis.project b x.1 = .ok (.ok (oneHot ℝ n (c x).1))) {ws : List (List ℝ)} (hA : ws.length = A)
    (hl : ∀ col ∈ ws, col.length = n) {x : I} (hx : X x) {a : Nat} (ha : a < A) {fv' : VectorLFA B O ℝ}
    (h : Learns E (LFA.mk b ws o) x a fv') :
    ∃ ws' m, fv' = LFA.mk b ws' o ∧ ws'.length = A ∧ (∀ col ∈ ws', col.length = n) ∧
      (∃ a' < A, m = cellOf ws a' (c ⟨E.next x a, hE.closed x a hx ha⟩).1) ∧
      (∀ a' < A, cellOf ws a' (c ⟨E.next x a, hE.closed x a hx ha⟩).1 ≤ m) ∧
      cellOf ws' a (c ⟨x, hx⟩).1 = cellOf ws a (c ⟨x, hx⟩).1 +
        α * (E.reward x a + E.discount x a * m - cellOf ws a (c ⟨x, hx⟩).1) ∧
      ∀ a' j, (a', j) ≠ (a, (c ⟨x, hx⟩).1) → cellOf ws' a' j = cellOf ws a' j := by
  obtain ⟨ws', m, h1, h2, h3, h4, h5, h6, h7⟩ := learns_any exactOne_real ho hE hc hA hl hx ha h
  refine ⟨ws', m, h1, h2, h3, h4, fun a' ha' => not_lt.1 (of_decide_eq_false (h5 a' ha')), ?_, h7⟩
  rw [h6, real_one]
  show _ + α * _ * 1 = _
  rw [mul_one]
  rfl

/-- The values, the weights, and the convergence of the entries that are trained again and again. -/
theorem learns_core {b : B} {o : O} {n A : Nat} {X : I → Prop} {E : Environment I ℝ} {α γ : ℝ} (hA : 0 < A)
    (hα : 0 < α) (hα1 : α ≤ 1) (ho : TableRate o n α) (hb : IsTable (K := ℝ) b n X) (hE : Respects E b A X)
    (hγ : ∀ x a, X x → a < A → 0 ≤ E.discount x a ∧ E.discount x a ≤ γ) (hγ1 : γ < 1) (xs : Nat → I) (as : Nat → Nat)
    (hxs : ∀ k, X (xs k)) (has : ∀ k, as k < A)
    (hv : ∀ k a, a < A → ∀ m, ∃ j, m ≤ j ∧ SameProjection (K := ℝ) b (xs j) (E.next (xs k) (as k)) ∧ as j = a)
    (ws : List (List ℝ)) (hws : ws.length = A) (hl : ∀ col ∈ ws, col.length = n) (fas : Nat → VectorLFA B O ℝ)
    (h0 : fas 0 = LFA.mk b ws o) (hs : ∀ k, Learns E (fas k) (xs k) (as k) (fas (k + 1))) :
    ∃ (c : {x // X x} → {i // Cells (K := ℝ) b n X i}) (Q : {i // Cells (K := ℝ) b n X i} → Fin A → ℝ)
      (v : Nat → List (List ℝ)), Function.Surjective c ∧
      (∀ x, Basis.project b x.1 = .ok (.ok (oneHot ℝ n (c x).1))) ∧
      (∀ k, fas k = LFA.mk b (v k) o ∧ (v k).length = A ∧ ∀ col ∈ v k, col.length = n) ∧
      (∀ x (a : Fin A), Best E A x.1 a (Q (c x) a)) ∧
      (∀ (x : {x // X x}) (acts : Nat → Nat) (hacts : ∀ k, acts k < A) (hin : ∀ k, X (E.visits x.1 acts k)) (δ : ℝ),
        0 ≤ δ →
        (∀ k b', Q (c ⟨_, hin (k + 1)⟩) b' ≤ Q (c ⟨_, hin (k + 1)⟩) ⟨acts (k + 1), hacts (k + 1)⟩ + δ) →
        ∃ G, Collects E x.1 acts G ∧ Q (c x) ⟨acts 0, hacts 0⟩ - γ * δ / (1 - γ) ≤ G) ∧
      ∀ (x : {x // X x}) (a : Fin A), (∀ m, ∃ j, m ≤ j ∧ SameProjection (K := ℝ) b (xs j) x.1 ∧ as j = a) →
        Tendsto (fun k => cellOf (v k) a (c x).1) atTop (𝓝 (Q (c x) a)) := by
  classical
  obtain ⟨c, hc, hsurj, hal⟩ := cell_exists hb
  have hγ0 : 0 ≤ γ := (hγ _ _ (hxs 0) (has 0)).1.trans (hγ _ _ (hxs 0) (has 0)).2
  obtain ⟨Q, hQ1, hQ2, hQ3, -⟩ := values_exist (fun r : ℝ => r) hA hE hsurj hal hγ0 hγ hγ1
  have := cells_finite (K := ℝ) b n X
  have key : ∀ k, ∃ v, fas k = LFA.mk b v o ∧ v.length = A ∧ ∀ col ∈ v, col.length = n := by
    intro k
    induction k with
    | zero => exact ⟨ws, h0, hws, hl⟩
    | succ k ih =>
      obtain ⟨v, h1, h2, h3⟩ := ih
      have := hs k
      rw [h1] at this
      obtain ⟨v', -, g1, g2, g3, -⟩ := learns_step ho hE hc h2 h3 (hxs k) (has k) this
      exact ⟨v', g1, g2, g3⟩
  choose v hv1 hv2 hv3 using key
  have step := fun k => by
    have := hs k
    rw [hv1 k] at this
    exact learns_step ho hE hc (hv2 k) (hv3 k) (hxs k) (has k) this
  set s : Nat → {i // Cells (K := ℝ) b n X i} × Fin A := fun k => (c ⟨xs k, hxs k⟩, ⟨as k, has k⟩) with hsd
  set nxt : Nat → {i // Cells (K := ℝ) b n X i} := fun k => c ⟨E.next (xs k) (as k), hE.closed _ _ (hxs k) (has k)⟩
    with hnxt
  set e : Nat → {i // Cells (K := ℝ) b n X i} × Fin A → ℝ := fun k p => cellOf (v k) p.2 p.1.1 - Q p.1 p.2 with he
  have hrec : ∀ (x : {x // X x}) (a : Fin A), (∀ m, ∃ j, m ≤ j ∧ SameProjection (K := ℝ) b (xs j) x.1 ∧ as j = a.1) →
      Backup.Recurrent s (c x, a) := by
    intro x a h m
    obtain ⟨j, h1, h2, h3⟩ := h m
    exact ⟨j, h1, Prod.ext ((hal ⟨xs j, hxs j⟩ x).2 h2) (Fin.ext h3)⟩
  have htend : ∀ p, Backup.Recurrent s p → Tendsto (fun k => e k p) atTop (𝓝 0) := by
    intro p hp
    refine Backup.converges (T := fun k => {p | p.1 = nxt k}) hα hα1 hγ0 hγ1 (fun k i hi => ?_) (fun k i hi => ?_)
      (fun k d hd hT => ?_) hp
    · obtain ⟨ws', m, g1, -, -, -, -, -, g7⟩ := step k
      have hw : v (k + 1) = ws' := by
        have := (hv1 (k + 1)).symm.trans g1
        injection this
      show cellOf (v (k + 1)) i.2 i.1.1 - _ = cellOf (v k) i.2 i.1.1 - _
      rw [hw, g7]
      intro hcon
      refine hi (Prod.ext (Subtype.ext ?_) (Fin.ext ?_))
      · exact congrArg Prod.snd hcon
      · exact congrArg Prod.fst hcon
    · have hi : i.1 = nxt k := hi
      have := hrec ⟨E.next (xs k) (as k), hE.closed _ _ (hxs k) (has k)⟩ i.2 (hv k i.2 i.2.2)
      rw [show i = (nxt k, i.2) from Prod.ext hi rfl]
      exact this
    · obtain ⟨ws', m, g1, -, -, ⟨a', ha', g4⟩, g5, g6, -⟩ := step k
      have hw : v (k + 1) = ws' := by
        have := (hv1 (k + 1)).symm.trans g1
        injection this
      obtain ⟨b', q1, q2⟩ := hQ2 ⟨xs k, hxs k⟩ ⟨as k, has k⟩
      have hd := hγ _ _ (hxs k) (has k)
      have e1 : e (k + 1) (s k) = (1 - α) * e k (s k) +
          α * (E.discount (xs k) (as k) * (m - Q (nxt k) b')) := by
        show cellOf (v (k + 1)) (as k) (c ⟨xs k, hxs k⟩).1 - Q (c ⟨xs k, hxs k⟩) ⟨as k, has k⟩ =
          (1 - α) * (cellOf (v k) (as k) (c ⟨xs k, hxs k⟩).1 - Q (c ⟨xs k, hxs k⟩) ⟨as k, has k⟩) + _
        rw [hw, g6, q1]
        ring
      have hm : |m - Q (nxt k) b'| ≤ d := by
        have t1 := (abs_le.1 (hT (nxt k, ⟨a', ha'⟩) rfl)).2
        have t2 := (abs_le.1 (hT (nxt k, b') rfl)).1
        have t3 : m - Q (nxt k) ⟨a', ha'⟩ ≤ d := by
          rw [g4]
          exact t1
        have t4 : -d ≤ cellOf (v k) b' (nxt k).1 - Q (nxt k) b' := t2
        have t5 := q2 ⟨a', ha'⟩
        have t6 := g5 b' b'.2
        rw [abs_le]
        constructor
        · have : cellOf (v k) b' (nxt k).1 ≤ m := t6
          linarith
        · have : Q (nxt k) ⟨a', ha'⟩ ≤ Q (nxt k) b' := t5
          linarith
      rw [e1]
      refine (abs_add_le _ _).trans ?_
      rw [abs_mul, abs_mul, abs_mul, abs_of_nonneg (by linarith : (0 : ℝ) ≤ 1 - α), abs_of_pos hα, abs_of_nonneg hd.1,
        mul_assoc α]
      exact add_le_add le_rfl (mul_le_mul_of_nonneg_left (mul_le_mul hd.2 hm (abs_nonneg _) hγ0) hα.le)
  refine ⟨c, Q, v, hsurj, hc, fun k => ⟨hv1 k, hv2 k, hv3 k⟩, hQ1, hQ3, fun x a hr => ?_⟩
  have := (htend _ (hrec x a hr)).add_const (Q (c x) a)
  rw [zero_add] at this
  exact this.congr fun k => sub_add_cancel _ _

theorem learns_converge {b : B} {o : O} {n A : Nat} {X : I → Prop} {E : Environment I ℝ} {α γ : ℝ} (hA : 0 < A)
    (hα : 0 < α) (hα1 : α ≤ 1) (ho : TableRate o n α) (hb : IsTable (K := ℝ) b n X) (hE : Respects E b A X)
    (hγ : ∀ x a, X x → a < A → 0 ≤ E.discount x a ∧ E.discount x a ≤ γ) (hγ1 : γ < 1) (xs : Nat → I) (as : Nat → Nat)
    (hxs : ∀ k, X (xs k)) (has : ∀ k, as k < A)
    (hv : ∀ k a, a < A → ∀ m, ∃ j, m ≤ j ∧ SameProjection (K := ℝ) b (xs j) (E.next (xs k) (as k)) ∧ as j = a)
    (ws : List (List ℝ)) (hws : ws.length = A) (hl : ∀ col ∈ ws, col.length = n) (fas : Nat → VectorLFA B O ℝ)
    (h0 : fas 0 = LFA.mk b ws o) (hs : ∀ k, Learns E (fas k) (xs k) (as k) (fas (k + 1))) (x : I) (a : Nat)
    (hx : X x) (ha : a < A) (hr : ∀ m, ∃ j, m ≤ j ∧ SameProjection (K := ℝ) b (xs j) x ∧ as j = a) :
    ∃ (p : Nat → ℝ) (q : ℝ), (∀ k, (fas k).evaluateIndex x a = .ok (.ok (p k))) ∧ Best E A x a q ∧
      Tendsto p atTop (𝓝 q) := by
  obtain ⟨c, Q, v, -, hc, hv', hQ, -, ht⟩ := learns_core hA hα hα1 ho hb hE hγ hγ1 xs as hxs has hv ws hws hl fas h0 hs
  refine ⟨_, _, fun k => ?_, hQ ⟨x, hx⟩ ⟨a, ha⟩, ht ⟨x, hx⟩ ⟨a, ha⟩ hr⟩
  rw [(hv' k).1]
  exact table_evaluateIndex exactOne_real (hv' k).2.2 (c ⟨x, hx⟩).2.1 (hc ⟨x, hx⟩) ((hv' k).2.1.symm ▸ ha)

/-- Estimates that converge to finitely many values order them rightly in the end. -/
theorem order_settles {ι κ : Type} [Finite ι] [Finite κ] {Q : ι → κ → ℝ} {p : Nat → ι → κ → ℝ}
    (h : ∀ i a, Tendsto (fun k => p k i a) atTop (𝓝 (Q i a))) :
    ∃ m, ∀ k, m ≤ k → ∀ i a b, p k i b ≤ p k i a → Q i b ≤ Q i a := by
  have each : ∀ i a b, ∀ᶠ k in atTop, p k i b ≤ p k i a → Q i b ≤ Q i a := by
    intro i a b
    rcases le_or_gt (Q i b) (Q i a) with hle | hlt
    · exact Eventually.of_forall fun _ _ => hle
    · filter_upwards [(h i a).eventually_lt (h i b) hlt] with k hk hk'
      exact absurd hk' (not_le.2 hk)
  have all : ∀ᶠ k in atTop, ∀ i a b, p k i b ≤ p k i a → Q i b ≤ Q i a :=
    eventually_all.2 fun i => eventually_all.2 fun a => eventually_all.2 fun b => each i a b
  exact eventually_atTop.1 all

theorem learns_greedy {b : B} {o : O} {n A : Nat} {X : I → Prop} {E : Environment I ℝ} {α γ : ℝ} (hA : 0 < A)
    (hα : 0 < α) (hα1 : α ≤ 1) (ho : TableRate o n α) (hb : IsTable (K := ℝ) b n X) (hE : Respects E b A X)
    (hγ : ∀ x a, X x → a < A → 0 ≤ E.discount x a ∧ E.discount x a ≤ γ) (hγ1 : γ < 1) (xs : Nat → I) (as : Nat → Nat)
    (hxs : ∀ k, X (xs k)) (has : ∀ k, as k < A)
    (hv : ∀ x a, X x → a < A → ∀ m, ∃ j, m ≤ j ∧ SameProjection (K := ℝ) b (xs j) x ∧ as j = a)
    (ws : List (List ℝ)) (hws : ws.length = A) (hl : ∀ col ∈ ws, col.length = n) (fas : Nat → VectorLFA B O ℝ)
    (h0 : fas 0 = LFA.mk b ws o) (hs : ∀ k, Learns E (fas k) (xs k) (as k) (fas (k + 1))) :
    ∃ m, ∀ k, m ≤ k → ∀ (x : I) (acts : Nat → Nat), X x → (∀ j, acts j < A) →
      (∀ j, Greedy (fas k) (E.visits x acts j) (acts j)) →
      ∃ G, E.Collects x acts G ∧
        ∀ (acts' : Nat → Nat) (G' : ℝ), (∀ j, acts' j < A) → E.Collects x acts' G' → G' ≤ G := by
  obtain ⟨c, Q, v, hsurj, hc, hv', hQ, hQ3, ht⟩ := learns_core hA hα hα1 ho hb hE hγ hγ1 xs as hxs has
    (fun k a ha => hv _ a (hE.closed _ _ (hxs k) (has k)) ha) ws hws hl fas h0 hs
  have := cells_finite (K := ℝ) b n X
  obtain ⟨m, hm⟩ := order_settles (Q := Q) (p := fun k i (a : Fin A) => cellOf (v k) a i.1) fun i a => by
    obtain ⟨x, rfl⟩ := hsurj i
    exact ht x a (hv _ _ x.2 a.2)
  refine ⟨m, fun k hk x acts hx hacts hg => ?_⟩
  have hin : ∀ j, X (E.visits x acts j) := by
    intro j
    induction j with
    | zero => exact hx
    | succ j ih => exact hE.closed _ _ ih (hacts j)
  have best : ∀ j b', Q (c ⟨_, hin j⟩) b' ≤ Q (c ⟨_, hin j⟩) ⟨acts j, hacts j⟩ := by
    intro j b'
    refine hm k hk _ _ _ ?_
    obtain ⟨qs, q, g1, g2, g3⟩ := hg j
    rw [(hv' k).1, table_evaluate exactOne_real (hv' k).2.2 (c ⟨_, hin j⟩).2.1 (hc ⟨_, hin j⟩)] at g1
    cases g1
    have hlen : ∀ a : Fin A, a.1 < (v k).length := fun a => (hv' k).2.1.symm ▸ a.2
    have e : ∀ a : Fin A, ((v k).map fun col => entry col (c ⟨_, hin j⟩).1)[a.1]? =
        some (cellOf (v k) a (c ⟨_, hin j⟩).1) := fun a => by
      rw [List.getElem?_map, List.getElem?_eq_getElem (hlen a), cellOf, List.getD_eq_getElem _ _ (hlen a)]
      rfl
    have g4 := (e ⟨acts j, hacts j⟩).symm.trans g2
    injection g4 with g4
    have g5 := of_decide_eq_false (g3 _ (List.mem_of_getElem? (e b')))
    rw [← g4] at g5
    exact not_lt.1 g5
  obtain ⟨G, hG, hle⟩ := hQ3 ⟨x, hx⟩ acts hacts hin 0 le_rfl fun j b' => by
    rw [add_zero]
    exact best (j + 1) b'
  refine ⟨G, hG, fun acts' G' ha' hG' => ?_⟩
  rw [mul_zero, zero_div, sub_zero] at hle
  have h1 := (hQ ⟨x, hx⟩ ⟨acts' 0, ha' 0⟩).2 ⟨acts', rfl, ha', hG'⟩
  exact h1.trans ((best 0 _).trans hle)

/-- Every call succeeds. -/
theorem learns_total {b : B} {o : O} {n A : Nat} {X : I → Prop} {E : Environment I ℝ} {α : ℝ} (hA : 0 < A)
    (ho : TableRate o n α) (hb : IsTable (K := ℝ) b n X) (hE : Respects E b A X) {ws : List (List ℝ)}
    (hws : ws.length = A) (hl : ∀ col ∈ ws, col.length = n) {x : I} (hx : X x) {a : Nat} (ha : a < A) :
    ∃ ws', ws'.length = A ∧ (∀ col ∈ ws', col.length = n) ∧ Learns E (LFA.mk b ws o) x a (LFA.mk b ws' o) := by
  subst hws
  obtain ⟨i, hi, hp⟩ := hb x hx
  obtain ⟨i', hi', hp'⟩ := hb _ (hE.closed x a hx ha)
  obtain ⟨m, h1, h2⟩ : ∃ m, m ∈ ws.map (fun c => entry c i') ∧ ∀ p ∈ ws.map (fun c => entry c i'), p ≤ m := by
    have hne : (ws.map fun c => entry c i').toFinset.Nonempty := by
      rw [List.toFinset_nonempty_iff]
      intro h
      rw [List.map_eq_nil_iff] at h
      rw [h] at hA
      exact absurd hA (by simp)
    refine ⟨(ws.map fun c => entry c i').toFinset.max' hne, ?_, fun p hp => ?_⟩
    · exact List.mem_toFinset.1 (Finset.max'_mem _ hne)
    · exact Finset.le_max' _ _ (List.mem_toFinset.2 hp)
  obtain ⟨ws', u1, u2, u3, -⟩ := table_update ho hl hi hp ha
    (E.reward x a +. E.discount x a *. m -. cellOf ws a i)
  exact ⟨ws', u2, u3, _, m, _, table_evaluate exactOne_real hl hi' hp', h1,
    fun p hp => decide_eq_false (not_lt.2 (h2 p hp)), table_evaluateIndex exactOne_real hl hi hp ha, u1⟩

theorem run_exists {b : B} {o : O} {n A : Nat} {X : I → Prop} {E : Environment I ℝ} {α : ℝ} (hA : 0 < A)
    (ho : TableRate o n α) (hb : IsTable (K := ℝ) b n X) (hE : Respects E b A X) {ws : List (List ℝ)}
    (hws : ws.length = A) (hl : ∀ col ∈ ws, col.length = n) (xs : Nat → I) (as : Nat → Nat) (hxs : ∀ k, X (xs k))
    (has : ∀ k, as k < A) :
    ∃ fas : Nat → VectorLFA B O ℝ, fas 0 = LFA.mk b ws o ∧ ∀ k, Learns E (fas k) (xs k) (as k) (fas (k + 1)) := by
  have := fun (u : {ws : List (List ℝ) // ws.length = A ∧ ∀ col ∈ ws, col.length = n}) (k : Nat) =>
    learns_total hA ho hb hE u.2.1 u.2.2 (hxs k) (has k)
  choose f f1 f2 f3 using this
  let us : Nat → {ws : List (List ℝ) // ws.length = A ∧ ∀ col ∈ ws, col.length = n} := fun k =>
    k.rec ⟨ws, hws, hl⟩ fun k u => ⟨f u k, f1 u k, f2 u k⟩
  exact ⟨fun k => LFA.mk b (us k).1 o, rfl, fun k => f3 (us k) k⟩

end

section
variable {B I : Type} [Space B] [Basis B I ℝ]

theorem isgd_rate_real (lr : ℝ) : (ISGD.mk lr).computeLr (oneHot ℝ 1 0) = lr / (1 + lr) := by
  rw [computeLr_real (oneHot_fits (K := ℝ) (n := 1) (i := 0) Nat.one_pos).1]
  have : normSq (oneHot ℝ 1 0) = 1 := by
    unfold normSq
    show ∑ i ∈ Finset.range 1, value (oneHot ℝ 1 0) i * value (oneHot ℝ 1 0) i = 1
    rw [Finset.sum_range_one]
    have : value (oneHot ℝ 1 0) 0 = 1 := by
      unfold value oneHot
      simp [real_one]
    rw [this]
    norm_num
  rw [this, mul_one]

/-- **C186.** A table with an output for each of `A` actions, discounts in `[0, γ]` with `γ < 1`, and SGD with
`0 < lr ≤ 1`. Whatever the weights and the order of the calls: if every action is trained again and again at the
inputs that calls lead to, then the predictions for every pair of input and action that is trained again and again
converge to the greatest discounted sum of rewards that can be collected from there. -/
theorem C186_sgd (b : B) (n A : Nat) (X : I → Prop) (E : Environment I ℝ) (lr γ : ℝ) (hA : 0 < A)
    (hlr : 0 < lr) (hlr1 : lr ≤ 1) (hb : IsTable (K := ℝ) b n X) (hE : Respects E b A X)
    (hγ : ∀ x a, X x → a < A → 0 ≤ E.discount x a ∧ E.discount x a ≤ γ) (hγ1 : γ < 1) (xs : Nat → I) (as : Nat → Nat)
    (hxs : ∀ k, X (xs k)) (has : ∀ k, as k < A)
    (hv : ∀ k a, a < A → ∀ m, ∃ j, m ≤ j ∧ SameProjection (K := ℝ) b (xs j) (E.next (xs k) (as k)) ∧ as j = a)
    (ws : List (List ℝ)) (hws : ws.length = A) (hl : ∀ col ∈ ws, col.length = n)
    (fas : Nat → VectorLFA B (SGD ℝ) ℝ) (h0 : fas 0 = LFA.mk b ws (SGD.mk lr))
    (hs : ∀ k, Learns E (fas k) (xs k) (as k) (fas (k + 1))) (x : I) (a : Nat)
    (hx : X x) (ha : a < A) (hr : ∀ m, ∃ j, m ≤ j ∧ SameProjection (K := ℝ) b (xs j) x ∧ as j = a) :
    ∃ (p : Nat → ℝ) (q : ℝ), (∀ k, (fas k).evaluateIndex x a = .ok (.ok (p k))) ∧ Best E A x a q ∧
      Tendsto p atTop (𝓝 q) :=
  learns_converge hA hlr hlr1 (sgd_tableRate n lr) hb hE hγ hγ1 xs as hxs has hv ws hws hl fas h0 hs x a hx ha hr

/-- **C186.** The same for ISGD with every positive learning rate. -/
theorem C186_isgd (b : B) (n A : Nat) (X : I → Prop) (E : Environment I ℝ) (lr γ : ℝ) (hA : 0 < A)
    (hlr : 0 < lr) (hb : IsTable (K := ℝ) b n X) (hE : Respects E b A X)
    (hγ : ∀ x a, X x → a < A → 0 ≤ E.discount x a ∧ E.discount x a ≤ γ) (hγ1 : γ < 1) (xs : Nat → I) (as : Nat → Nat)
    (hxs : ∀ k, X (xs k)) (has : ∀ k, as k < A)
    (hv : ∀ k a, a < A → ∀ m, ∃ j, m ≤ j ∧ SameProjection (K := ℝ) b (xs j) (E.next (xs k) (as k)) ∧ as j = a)
    (ws : List (List ℝ)) (hws : ws.length = A) (hl : ∀ col ∈ ws, col.length = n)
    (fas : Nat → VectorLFA B (ISGD ℝ) ℝ) (h0 : fas 0 = LFA.mk b ws (ISGD.mk lr))
    (hs : ∀ k, Learns E (fas k) (xs k) (as k) (fas (k + 1))) (x : I) (a : Nat)
    (hx : X x) (ha : a < A) (hr : ∀ m, ∃ j, m ≤ j ∧ SameProjection (K := ℝ) b (xs j) x ∧ as j = a) :
    ∃ (p : Nat → ℝ) (q : ℝ), (∀ k, (fas k).evaluateIndex x a = .ok (.ok (p k))) ∧ Best E A x a q ∧
      Tendsto p atTop (𝓝 q) := by
  have ho := isgd_tableRate n (ISGD.mk lr)
  rw [isgd_rate_real] at ho
  exact learns_converge hA (div_pos hlr (by linarith)) (by rw [div_le_one (by linarith)]; linarith) ho hb hE hγ hγ1 xs
    as hxs has hv ws hws hl fas h0 hs x a hx ha hr

/-- **C186.** If every action is trained again and again at every input, then from some call on, actions whose
predictions are greatest collect, from every input, the greatest discounted sum of rewards. -/
theorem C186_greedy (b : B) (n A : Nat) (X : I → Prop) (E : Environment I ℝ) (lr γ : ℝ) (hA : 0 < A)
    (hlr : 0 < lr) (hb : IsTable (K := ℝ) b n X) (hE : Respects E b A X)
    (hγ : ∀ x a, X x → a < A → 0 ≤ E.discount x a ∧ E.discount x a ≤ γ) (hγ1 : γ < 1) (xs : Nat → I) (as : Nat → Nat)
    (hxs : ∀ k, X (xs k)) (has : ∀ k, as k < A)
    (hv : ∀ x a, X x → a < A → ∀ m, ∃ j, m ≤ j ∧ SameProjection (K := ℝ) b (xs j) x ∧ as j = a)
    (ws : List (List ℝ)) (hws : ws.length = A) (hl : ∀ col ∈ ws, col.length = n) :
    (lr ≤ 1 → ∀ fas : Nat → VectorLFA B (SGD ℝ) ℝ, fas 0 = LFA.mk b ws (SGD.mk lr) →
      (∀ k, Learns E (fas k) (xs k) (as k) (fas (k + 1))) →
      ∃ m, ∀ k, m ≤ k → ∀ (x : I) (acts : Nat → Nat), X x → (∀ j, acts j < A) →
        (∀ j, Greedy (fas k) (E.visits x acts j) (acts j)) →
        ∃ G, E.Collects x acts G ∧
          ∀ (acts' : Nat → Nat) (G' : ℝ), (∀ j, acts' j < A) → E.Collects x acts' G' → G' ≤ G) ∧
    (∀ fas : Nat → VectorLFA B (ISGD ℝ) ℝ, fas 0 = LFA.mk b ws (ISGD.mk lr) →
      (∀ k, Learns E (fas k) (xs k) (as k) (fas (k + 1))) →
      ∃ m, ∀ k, m ≤ k → ∀ (x : I) (acts : Nat → Nat), X x → (∀ j, acts j < A) →
        (∀ j, Greedy (fas k) (E.visits x acts j) (acts j)) →
        ∃ G, E.Collects x acts G ∧
          ∀ (acts' : Nat → Nat) (G' : ℝ), (∀ j, acts' j < A) → E.Collects x acts' G' → G' ≤ G) := by
  refine ⟨fun hlr1 fas h0 hs => ?_, fun fas h0 hs => ?_⟩
  · exact learns_greedy hA hlr hlr1 (sgd_tableRate n lr) hb hE hγ hγ1 xs as hxs has hv ws hws hl fas h0 hs
  · have ho := isgd_tableRate n (ISGD.mk lr)
    rw [isgd_rate_real] at ho
    exact learns_greedy hA (div_pos hlr (by linarith)) (by rw [div_le_one (by linarith)]; linarith) ho hb hE hγ hγ1 xs
      as hxs has hv ws hws hl fas h0 hs

/-- **C186.** No call fails: the runs exist, from any weights. -/
theorem C186_total (b : B) (n A : Nat) (X : I → Prop) (E : Environment I ℝ) (lr : ℝ) (hA : 0 < A)
    (hb : IsTable (K := ℝ) b n X) (hE : Respects E b A X) (ws : List (List ℝ)) (hws : ws.length = A)
    (hl : ∀ col ∈ ws, col.length = n) (xs : Nat → I) (as : Nat → Nat) (hxs : ∀ k, X (xs k)) (has : ∀ k, as k < A) :
    (∃ fas : Nat → VectorLFA B (SGD ℝ) ℝ, fas 0 = LFA.mk b ws (SGD.mk lr) ∧
      ∀ k, Learns E (fas k) (xs k) (as k) (fas (k + 1))) ∧
    (∃ fas : Nat → VectorLFA B (ISGD ℝ) ℝ, fas 0 = LFA.mk b ws (ISGD.mk lr) ∧
      ∀ k, Learns E (fas k) (xs k) (as k) (fas (k + 1))) :=
  ⟨run_exists hA (sgd_tableRate n lr) hb hE hws hl xs as hxs has,
    run_exists hA (isgd_tableRate n (ISGD.mk lr)) hb hE hws hl xs as hxs has⟩

end

/-- **C186.** Uniform grids are tables, in every arithmetic. -/
theorem C186_grid {K : Type} [Scalar K] (ds : List (Equipartition K)) (h : ∀ d ∈ ds, d.Lawful) (hds : ds ≠ []) :
    IsTable (K := K) (UniformGrid.new ds) (ds.map Equipartition.nPartitions).prod
      (fun x : List K => x.length = ds.length) := fun x hx => by
  obtain ⟨k, h1, h2, -⟩ := grid_fits ds h hds x (length_ne_nil hds hx)
  exact ⟨k, h2, h1⟩

/-- The partition of `[0, 2)` into `[0, 1)` and `[1, 2)`. -/
noncomputable def halves : Equipartition ℝ := ⟨2, 1, [1 / 2, 3 / 2], fun v => if v < 1 then 0 else 1⟩

theorem halves_lawful : halves.Lawful := by
  refine ⟨by norm_num [halves], fun v => ?_, rfl, fun i c h => ?_⟩
  · show (if v < 1 then 0 else 1) < 2
    split_ifs <;> norm_num
  · show (if c < 1 then 0 else 1) = i
    change [(1 / 2 : ℝ), 3 / 2][i]? = some c at h
    match i, h with
    | 0, h =>
      have h : (1 / 2 : ℝ) = c := Option.some.inj h
      rw [if_pos (by rw [← h]; norm_num)]
    | 1, h =>
      have h : (3 / 2 : ℝ) = c := Option.some.inj h
      rw [if_neg (by rw [← h]; norm_num)]

/-- Two cells; action 0 stays, action 1 changes the cell and is rewarded with 1. -/
noncomputable def switching (b : UniformGrid ℝ) : Environment (List ℝ) ℝ := by
  classical
  exact ⟨fun _ a => a, fun _ _ => 1 / 2,
    fun x a => if a = 1 then (if SameProjection (K := ℝ) b x [1 / 2] then [3 / 2] else [1 / 2]) else x⟩

/-- **C186.** A run that meets the hypotheses, with any weights and the rate 1/2; the prediction of action 1
converges to 2. -/
theorem C186_example (ws : List (List ℝ)) (hws : ws.length = 2) (hl : ∀ col ∈ ws, col.length = 2) :
    let b := UniformGrid.new [halves]
    let xs : Nat → List ℝ := fun k => if k % 4 < 2 then [1 / 2] else [3 / 2]
    ∃ fas : Nat → VectorLFA (UniformGrid ℝ) (SGD ℝ) ℝ, fas 0 = LFA.mk b ws (SGD.mk (1 / 2)) ∧
      (∀ k, Learns (switching b) (fas k) (xs k) (k % 2) (fas (k + 1))) ∧
      ∃ p : Nat → ℝ, (∀ k, (fas k).evaluateIndex [(1 / 2 : ℝ)] 1 = .ok (.ok (p k))) ∧ Tendsto p atTop (𝓝 2) := by
  classical
  intro b xs
  have hb : IsTable (K := ℝ) b 2 (fun x : List ℝ => x.length = 1) :=
    C186_grid [halves] (by
      intro d hd
      rw [List.mem_singleton.1 hd]
      exact halves_lawful) (by simp)
  have hnext : ∀ x a, (switching b).next x a =
      if a = 1 then (if SameProjection (K := ℝ) b x [1 / 2] then [3 / 2] else [1 / 2]) else x := fun x a => rfl
  have hE : Respects (switching b) b 2 (fun x : List ℝ => x.length = 1) := by
    refine ⟨fun x a hx _ => ?_, fun _ _ _ _ _ _ _ => rfl, fun _ _ _ _ _ _ _ => rfl, fun x y a _ _ h _ => ?_⟩
    · rw [hnext]
      split_ifs <;> first | rfl | exact hx
    · rw [hnext, hnext]
      have e : SameProjection (K := ℝ) b x [1 / 2] ↔ SameProjection (K := ℝ) b y [1 / 2] :=
        ⟨fun h' => h.symm.trans h', fun h' => h.trans h'⟩
      simp only [e]
      split_ifs
      · rfl
      · rfl
      · exact h
  have hxs : ∀ k, (xs k).length = 1 := by
    intro k
    show (if k % 4 < 2 then [(1 / 2 : ℝ)] else [3 / 2]).length = 1
    split_ifs <;> rfl
  have has : ∀ k, k % 2 < 2 := fun k => Nat.mod_lt _ (by norm_num)
  have hrec : ∀ y a, (y = [(1 / 2 : ℝ)] ∨ y = [(3 / 2 : ℝ)]) → a < 2 →
      ∀ m, ∃ j, m ≤ j ∧ SameProjection (K := ℝ) b (xs j) y ∧ j % 2 = a := by
    rintro y a (rfl | rfl) ha m
    · refine ⟨4 * m + a, by omega, ?_, by omega⟩
      have : xs (4 * m + a) = [1 / 2] := if_pos (by omega)
      rw [this]
      rfl
    · refine ⟨4 * m + 2 + a, by omega, ?_, by omega⟩
      have : xs (4 * m + 2 + a) = [3 / 2] := if_neg (by omega)
      rw [this]
      rfl
  have hx2 : ∀ k, xs k = [(1 / 2 : ℝ)] ∨ xs k = [(3 / 2 : ℝ)] := by
    intro k
    by_cases h : k % 4 < 2
    · exact Or.inl (if_pos h)
    · exact Or.inr (if_neg h)
  obtain ⟨fas, h0, hs⟩ := (C186_total b 2 2 _ (switching b) (1 / 2) (by norm_num) hb hE ws hws hl xs
    (fun k => k % 2) hxs has).1
  refine ⟨fas, h0, hs, ?_⟩
  obtain ⟨p, q, hp, hq, ht⟩ := C186_sgd b 2 2 _ (switching b) (1 / 2) (1 / 2) (by norm_num) (by norm_num) (by norm_num)
    hb hE (fun x a _ _ => ⟨by show (0 : ℝ) ≤ 1 / 2; norm_num, le_refl (1 / 2 : ℝ)⟩) (by norm_num) xs (fun k => k % 2)
    hxs has (fun k a ha => by
      refine hrec _ a ?_ ha
      rw [hnext]
      split_ifs
      · exact Or.inr rfl
      · exact Or.inl rfl
      · exact hx2 k) ws hws hl fas h0 hs [1 / 2] 1 rfl (by norm_num) (hrec _ 1 (Or.inl rfl) (by norm_num))
  have hq2 : q = 2 := by
    have hsum : ∀ acts : Nat → Nat, ∀ G, (switching b).Collects [1 / 2] acts G ↔
        HasSum (fun k => (1 / 2 : ℝ) ^ k * acts k) G := fun acts G => by
      unfold Collects
      have : (fun k => (∏ j ∈ Finset.range k, (switching b).discount ((switching b).visits [1 / 2] acts j) (acts j)) *
          (switching b).reward ((switching b).visits [1 / 2] acts k) (acts k)) =
          fun k => (1 / 2 : ℝ) ^ k * acts k := by
        funext k
        show (∏ _j ∈ Finset.range k, (1 / 2 : ℝ)) * (acts k : ℝ) = _
        rw [Finset.prod_const, Finset.card_range]
      rw [this]
    have htwo : HasSum (fun k : Nat => (1 / 2 : ℝ) ^ k * ((1 : Nat) : ℝ)) 2 := by
      have := hasSum_geometric_two
      simpa using this
    refine le_antisymm ?_ (hq.2 ⟨fun _ => 1, rfl, fun _ => by norm_num, (hsum _ _).2 htwo⟩)
    obtain ⟨acts, -, h2, h3⟩ := hq.1
    refine hasSum_le (fun k => ?_) ((hsum _ _).1 h3) htwo
    have : (acts k : ℝ) ≤ ((1 : Nat) : ℝ) := by
      have := h2 k
      exact_mod_cast (by omega : acts k ≤ 1)
    exact mul_le_mul_of_nonneg_left this (by positivity)
  exact ⟨p, hp, hq2 ▸ ht⟩

end Lfa

import Verif.Props.C205
import Verif.Props.C150Order
import Verif.Props.C182

/-!
# C206: training a stack, to the bit

In every arithmetic, so for doubles with rounding, NaN and infinities.
-/

set_option linter.unusedSectionVars false

namespace Lfa

open Spec

variable {K B₁ B₂ I O : Type} [Scalar K] [Space B₁] [Space B₂] [Basis B₁ I K] [Basis B₂ I K]

/-- The inputs and errors of a training run: both bases project every input to features that fit. -/
def Spec.TrainsBoth (b₁ : B₁) (b₂ : B₂) (n₁ n₂ : Nat) (es : List (I × K)) : Prop :=
  ∀ e ∈ es, ∃ φ ψ, Basis.project b₁ e.1 = .ok (.ok φ) ∧ Fits n₁ φ ∧ Basis.project b₂ e.1 = .ok (.ok ψ) ∧ Fits n₂ ψ

/-- The same, and the features are both sparse or both dense. -/
def Spec.TrainsAlike (b₁ : B₁) (b₂ : B₂) (n₁ n₂ : Nat) (es : List (I × K)) : Prop :=
  ∀ e ∈ es, ∃ φ ψ, Basis.project b₁ e.1 = .ok (.ok φ) ∧ Fits n₁ φ ∧ Basis.project b₂ e.1 = .ok (.ok ψ) ∧ Fits n₂ ψ ∧
    φ.isSparse = ψ.isSparse

/-! ## Lists -/

theorem entry_append_left_any {w₁ w₂ : List K} {i : Nat} (h : i < w₁.length) : entry (w₁ ++ w₂) i = entry w₁ i := by
  unfold entry
  rw [List.getD_eq_getElem?_getD, List.getD_eq_getElem?_getD, List.getElem?_append_left h]

theorem entry_append_right_any (w₁ w₂ : List K) (i : Nat) : entry (w₁ ++ w₂) (w₁.length + i) = entry w₂ i := by
  unfold entry
  rw [List.getD_eq_getElem?_getD, List.getD_eq_getElem?_getD, List.getElem?_append_right (by omega), Nat.add_sub_cancel_left]

/-- `w` is the segment of `W` that starts at `k`. -/
def Segment (k n : Nat) (W w : List K) : Prop := w.length = n ∧ ∀ i < n, entry W (k + i) = entry w i

theorem segments_append (w₁ w₂ : List K) {n₁ n₂ : Nat} (h₁ : w₁.length = n₁) (h₂ : w₂.length = n₂) :
    Segment 0 n₁ (w₁ ++ w₂) w₁ ∧ Segment n₁ n₂ (w₁ ++ w₂) w₂ :=
  ⟨⟨h₁, fun i hi => by rw [Nat.zero_add, entry_append_left_any (h₁ ▸ hi)]⟩,
    h₂, fun i _ => by rw [← h₁, entry_append_right_any]⟩

theorem eq_append_of_segments {W w₁ w₂ : List K} {n₁ n₂ : Nat} (h : W.length = n₁ + n₂) (h₁ : Segment 0 n₁ W w₁)
    (h₂ : Segment n₁ n₂ W w₂) : W = w₁ ++ w₂ := by
  obtain ⟨g₁, q₁⟩ := segments_append w₁ w₂ h₁.1 h₂.1
  refine List.ext_getElem (by rw [List.length_append, h, h₁.1, h₂.1]) fun i hi hi' => ?_
  have key : entry W i = entry (w₁ ++ w₂) i := by
    by_cases hl : i < n₁
    · have a := h₁.2 i hl
      have b := g₁.2 i hl
      rw [Nat.zero_add] at a b
      rw [a, b]
    · obtain ⟨j, rfl⟩ := Nat.exists_eq_add_of_le (Nat.le_of_not_lt hl)
      rw [h₂.2 j (by omega), q₁.2 j (by omega)]
  unfold entry at key
  rwa [List.getD_eq_getElem _ _ hi, List.getD_eq_getElem _ _ hi'] at key

/-! ## Features -/

/-- `φ` is the part of `r` that starts at index `k`, stored in the same way. -/
def PartOf (k n : Nat) (r φ : Features K) : Prop :=
  r.isDense = φ.isDense ∧ (∀ i < n, ∀ a, Stored r (k + i) a ↔ Stored φ i a) ∧ ∀ i < n, value r (k + i) = value φ i

theorem PartOf.active {k n : Nat} {r φ : Features K} (h : PartOf k n r φ) {i : Nat} (hi : i < n) :
    Active r (k + i) ↔ Active φ i := exists_congr fun a => h.2.1 i hi a

theorem stack_parts {φ ψ r : Features K} (h₁ : WF φ) (h₂ : WF ψ) (h : φ.stack ψ = .ok r) (he : φ.isSparse = ψ.isSparse) :
    PartOf 0 (dim φ) r φ ∧ PartOf (dim φ) (dim ψ) r ψ := by
  obtain ⟨-, v₁, v₂⟩ := stack_values h₁ h₂ h
  cases φ with
  | dense da =>
    cases ψ with
    | sparse sa => cases he
    | dense db =>
      rw [stack_dense_of_not_sparse h₁ h₂ fun h => by cases h.1] at h
      cases h
      have e : view (.dense da) ++ view (.dense db) = da ++ db := by rw [view_dense, view_dense]
      rw [e] at v₁ v₂ ⊢
      refine ⟨⟨rfl, fun i hi a => ?_, fun i hi => by rw [Nat.zero_add]; exact v₁ i hi⟩, rfl, fun i hi a => ?_, v₂⟩
      · show (da ++ db)[0 + i]? = some a ↔ da[i]? = some a
        rw [Nat.zero_add, List.getElem?_append_left hi]
      · show (da ++ db)[da.length + i]? = some a ↔ db[i]? = some a
        rw [List.getElem?_append_right (by omega), Nat.add_sub_cancel_left]
  | sparse sa₁ =>
    cases ψ with
    | dense db => cases he
    | sparse sa₂ =>
      rw [stack_sparse h₁ h₂] at h
      cases h
      refine ⟨⟨rfl, fun i hi a => ?_, fun i hi => by rw [Nat.zero_add]; exact v₁ i hi⟩, rfl, fun i hi a => ?_, v₂⟩
      · show (0 + i, a) ∈ sa₁.activations ++ shift sa₁.dim sa₂.activations ↔ (i, a) ∈ sa₁.activations
        rw [Nat.zero_add, List.mem_append]
        refine or_iff_left fun hm => ?_
        obtain ⟨e, -, h⟩ := List.mem_map.1 hm
        cases h
        have : e.1 + sa₁.dim < sa₁.dim := hi
        omega
      · show (sa₁.dim + i, a) ∈ sa₁.activations ++ shift sa₁.dim sa₂.activations ↔ (i, a) ∈ sa₂.activations
        rw [List.mem_append]
        constructor
        · rintro (hm | hm)
          · have h' : sa₁.dim + i < sa₁.dim := h₁.2 _ hm
            omega
          · obtain ⟨⟨j, c⟩, hj, h⟩ := List.mem_map.1 hm
            have h : (j + sa₁.dim, c) = (sa₁.dim + i, a) := h
            obtain ⟨h1, rfl⟩ := Prod.mk.inj h
            have : j = i := by omega
            subst this
            exact hj
        · exact fun hm => .inr (List.mem_map.2 ⟨(i, a), hm, by show (i + sa₁.dim, a) = _; rw [Nat.add_comm]⟩)

theorem project_stack_any {b₁ : B₁} {b₂ : B₂} {x : I} {φ ψ : Features K} {n₁ n₂ : Nat}
    (h₁ : Basis.project b₁ x = .ok (.ok φ)) (h₂ : Basis.project b₂ x = .ok (.ok ψ)) (f₁ : Fits n₁ φ) (f₂ : Fits n₂ ψ) :
    ∃ r, Basis.project (Stack.mk b₁ b₂) x = .ok (.ok r) ∧ Fits (n₁ + n₂) r ∧
      (∀ i < n₁, value r i = value φ i) ∧ (∀ i < n₂, value r (n₁ + i) = value ψ i) ∧
      (φ.isSparse = ψ.isSparse → PartOf 0 n₁ r φ ∧ PartOf n₁ n₂ r ψ) := by
  obtain ⟨r, hr, wr, -⟩ := C21_stack_concat b₁ b₂ x φ ψ h₁ h₂ f₁.1 f₂.1
  obtain ⟨φ', ψ', e₁, e₂, hs⟩ := C21_stack_ok_only_if _ _ _ _ hr
  rw [h₁] at e₁; cases e₁
  rw [h₂] at e₂; cases e₂
  obtain ⟨-, v₁, v₂⟩ := stack_values f₁.1 f₂.1 hs
  have hd := stack_dim hs
  have hp := stack_parts f₁.1 f₂.1 hs
  rw [f₁.2, f₂.2] at hd hp
  rw [f₁.2] at v₁ v₂
  rw [f₂.2] at v₂
  exact ⟨r, hr, ⟨wr, hd⟩, v₁, v₂, hp⟩

/-! ## Steps -/

theorem scaledAddto_segment {k n N : Nat} {r φ : Features K} (hr : Fits N r) (hf : Fits n φ) (hk : k + n ≤ N)
    (hp : PartOf k n r φ) {α : K} {W w W' w' : List K} (hW : W.length = N) (h : Segment k n W w)
    (H : r.scaledAddto α W = .ok W') (H' : φ.scaledAddto α w = .ok w') : Segment k n W' w' := by
  obtain ⟨W₁, e₁, -, q₁⟩ := scaledAddto_any hr α hW
  obtain ⟨w₁, e₂, l₂, q₂⟩ := scaledAddto_any hf α h.1
  rw [H] at e₁; cases e₁
  rw [H'] at e₂; cases e₂
  refine ⟨l₂, fun i hi => ?_⟩
  by_cases hA : Active φ i
  · obtain ⟨a, ha⟩ := hA
    rw [(q₂ i hi).1 a ha, (q₁ (k + i) (by omega)).1 a ((hp.2.1 i hi a).2 ha), h.2 i hi]
  · rw [(q₂ i hi).2 hA, (q₁ (k + i) (by omega)).2 (mt (hp.active hi).1 hA), h.2 i hi]

open Features in
theorem velocityUpdate_kind {n : Nat} {φ : Features K} (h : Fits n φ) (m s : K) {v : List K} (hv : v.length = n) :
    ∃ v', velocityUpdate m v φ s = .ok v' ∧ v'.length = n ∧ ∀ i < n,
      (φ.isDense = true → entry v' i = (m *. entry v i +. value φ i *. s)) ∧
      (φ.isDense = false → (Active φ i → entry v' i = (entry v i *. m +. value φ i *. s)) ∧
        (¬ Active φ i → entry v' i = entry v i *. m)) := by
  obtain ⟨hwf, hd⟩ := h
  cases φ with
  | dense da =>
    have hd : da.length = n := hd
    refine ⟨_, zipMutWith_of_eq (hd.trans hv.symm) _, by simp [hd, hv], fun i hi => ⟨fun _ => ?_, fun h => by cases h⟩⟩
    rw [entry_zipWith _ (hv ▸ hi) (hd ▸ hi)]; rfl
  | sparse sa =>
    have hr : ∀ e ∈ sa.activations, e.1 < (v.map (· *. m)).length := fun e he => by
      rw [List.length_map, hv, ← hd]; exact hwf.2 e he
    refine ⟨_, scatterMod_ok (fun x a => x +. a *. s) hwf.1 hr, by simp [hv], fun i hi => ⟨fun h => (by cases h), fun _ => ?_⟩⟩
    rw [entry_scatterAll _ _ (by rw [List.length_map, hv]; exact hi), entry_map _ (hv ▸ hi), value_sparse]
    rcases hg : sa.activations.get? i with _ | a
    · exact ⟨fun ha => absurd ha ((not_active_sparse_iff hwf.1 i).2 hg), fun _ => rfl⟩
    · exact ⟨fun _ => rfl, fun hn => absurd ⟨a, (stored_sparse_iff hwf.1 i a).2 hg⟩ hn⟩

theorem velocity_segment {k n N : Nat} {r φ : Features K} (hr : Fits N r) (hf : Fits n φ) (hk : k + n ≤ N)
    (hp : PartOf k n r φ) {m s : K} {V v V' v' : List K} (hV : V.length = N) (h : Segment k n V v)
    (H : velocityUpdate m V r s = .ok V') (H' : velocityUpdate m v φ s = .ok v') : Segment k n V' v' := by
  obtain ⟨V₁, e₁, -, q₁⟩ := velocityUpdate_kind hr m s hV
  obtain ⟨v₁, e₂, l₂, q₂⟩ := velocityUpdate_kind hf m s h.1
  rw [H] at e₁; cases e₁
  rw [H'] at e₂; cases e₂
  refine ⟨l₂, fun i hi => ?_⟩
  obtain ⟨a, b⟩ := q₁ (k + i) (by omega)
  obtain ⟨a', b'⟩ := q₂ i hi
  rw [hp.1, hp.active hi, hp.2.2 i hi, h.2 i hi] at *
  cases hd : φ.isDense with
  | true => rw [a hd, a' hd]
  | false =>
    by_cases hA : Active φ i
    · rw [(b hd).1 hA, (b' hd).1 hA]
    · rw [(b hd).2 hA, (b' hd).2 hA]

theorem add_segment {k n N : Nat} (hk : k + n ≤ N) {c : K} {W w V v W' w' : List K} (h : Segment k n W w) (hv : Segment k n V v)
    (l : w'.length = n) (q : ∀ i < N, entry W' i = (entry W i +. c *. entry V i))
    (q' : ∀ i < n, entry w' i = (entry w i +. c *. entry v i)) : Segment k n W' w' :=
  ⟨l, fun i hi => by rw [q _ (by omega), q' i hi, h.2 i hi, hv.2 i hi]⟩

/-- `J o₁ o₂ o` for states of the optimisers of the two parts and of the stack, kept by steps on features that satisfy `C`. -/
def JointAny [Optimiser O K] (n₁ n₂ : Nat) (C : Features K → Features K → Features K → Prop) (J : O → O → O → Prop) : Prop :=
  ∀ (o₁ o₂ o : O) (φ ψ r : Features K) (w₁ w₂ : List K) (s : K), J o₁ o₂ o → Fits n₁ φ → Fits n₂ ψ →
    Fits (n₁ + n₂) r → C φ ψ r → w₁.length = n₁ → w₂.length = n₂ →
    ∃ o₁' o₂' o' w₁' w₂', Optimiser.stepScaled o₁ w₁ φ s = .ok (.ok (), o₁', w₁') ∧
      Optimiser.stepScaled o₂ w₂ ψ s = .ok (.ok (), o₂', w₂') ∧
      Optimiser.stepScaled o (w₁ ++ w₂) r s = .ok (.ok (), o', w₁' ++ w₂') ∧
      J o₁' o₂' o' ∧ w₁'.length = n₁ ∧ w₂'.length = n₂

theorem update_eq_any [Optimiser O K] {B : Type} [Space B] [Basis B I K] {b : B} {w w' : List K} {o o' : O} {x : I}
    {φ : Features K} {e : K} (h : Basis.project b x = .ok (.ok φ)) (hs : Optimiser.stepScaled o w φ e = .ok (.ok (), o', w')) :
    ScalarLFA.update (LFA.mk b w o : ScalarLFA B O K) x e = .ok (.ok (), LFA.mk b w' o') := by
  unfold ScalarLFA.update
  simp only [h, P.ok_bind, hs]

theorem joint_training_any [Optimiser O K] {n₁ n₂ : Nat} {C : Features K → Features K → Features K → Prop}
    {J : O → O → O → Prop} (hJ : JointAny n₁ n₂ C J) (b₁ : B₁) (b₂ : B₂) (es : List (I × K)) :
    ∀ (w₁ w₂ : List K) (o₁ o₂ o : O), w₁.length = n₁ → w₂.length = n₂ → J o₁ o₂ o →
    (∀ e ∈ es, ∃ φ ψ r, Basis.project b₁ e.1 = .ok (.ok φ) ∧ Fits n₁ φ ∧ Basis.project b₂ e.1 = .ok (.ok ψ) ∧ Fits n₂ ψ ∧
      Basis.project (Stack.mk b₁ b₂) e.1 = .ok (.ok r) ∧ Fits (n₁ + n₂) r ∧ C φ ψ r) →
    ∃ w₁' w₂' o₁' o₂' o', w₁'.length = n₁ ∧ w₂'.length = n₂ ∧ J o₁' o₂' o' ∧
      Updated (LFA.mk b₁ w₁ o₁) es (LFA.mk b₁ w₁' o₁') ∧ Updated (LFA.mk b₂ w₂ o₂) es (LFA.mk b₂ w₂' o₂') ∧
      Updated (LFA.mk (Stack.mk b₁ b₂) (w₁ ++ w₂) o) es (LFA.mk (Stack.mk b₁ b₂) (w₁' ++ w₂') o') := by
  induction es with
  | nil =>
    intro w₁ w₂ o₁ o₂ o h₁ h₂ h _
    exact ⟨w₁, w₂, o₁, o₂, o, h₁, h₂, h, .nil _, .nil _, .nil _⟩
  | cons e es ih =>
    intro w₁ w₂ o₁ o₂ o h₁ h₂ h hp
    obtain ⟨φ, ψ, r, p₁, f₁, p₂, f₂, pr, fr, hC⟩ := hp e (by simp)
    obtain ⟨o₁', o₂', o', w₁', w₂', s₁, s₂, s, h', l₁, l₂⟩ := hJ o₁ o₂ o φ ψ r w₁ w₂ e.2 h f₁ f₂ fr hC h₁ h₂
    obtain ⟨w₁'', w₂'', o₁'', o₂'', o'', l₁', l₂', h'', t₁, t₂, t⟩ :=
      ih w₁' w₂' o₁' o₂' o' l₁ l₂ h' fun e' he => hp e' (by simp [he])
    exact ⟨w₁'', w₂'', o₁'', o₂'', o'', l₁', l₂', h'', .cons (update_eq_any p₁ s₁) t₁, .cons (update_eq_any p₂ s₂) t₂,
      .cons (update_eq_any pr s) t⟩

/-- The features of the parts are stored as in the stack. -/
def StoredAlike (n₁ n₂ : Nat) (φ ψ r : Features K) : Prop := PartOf 0 n₁ r φ ∧ PartOf n₁ n₂ r ψ

theorem alike_of_trains {b₁ : B₁} {b₂ : B₂} {n₁ n₂ : Nat} {es : List (I × K)} (h : TrainsAlike b₁ b₂ n₁ n₂ es) :
    ∀ e ∈ es, ∃ φ ψ r, Basis.project b₁ e.1 = .ok (.ok φ) ∧ Fits n₁ φ ∧ Basis.project b₂ e.1 = .ok (.ok ψ) ∧ Fits n₂ ψ ∧
      Basis.project (Stack.mk b₁ b₂) e.1 = .ok (.ok r) ∧ Fits (n₁ + n₂) r ∧ StoredAlike n₁ n₂ φ ψ r := by
  intro e he
  obtain ⟨φ, ψ, p₁, f₁, p₂, f₂, hs⟩ := h e he
  obtain ⟨r, pr, fr, -, -, hp⟩ := project_stack_any p₁ p₂ f₁ f₂
  exact ⟨φ, ψ, r, p₁, f₁, p₂, f₂, pr, fr, hp hs⟩

theorem joint_any_sgd (n₁ n₂ : Nat) (lr : K) :
    JointAny n₁ n₂ (StoredAlike n₁ n₂) fun o₁ o₂ o : SGD K => o₁ = ⟨lr⟩ ∧ o₂ = ⟨lr⟩ ∧ o = ⟨lr⟩ := by
  rintro _ _ _ φ ψ r w₁ w₂ s ⟨rfl, rfl, rfl⟩ f₁ f₂ f ⟨p₁, p₂⟩ l₁ l₂
  have l : (w₁ ++ w₂).length = n₁ + n₂ := by rw [List.length_append, l₁, l₂]
  obtain ⟨w₁', e₁, -⟩ := scaledAddto_any f₁ (lr *. s) l₁
  obtain ⟨w₂', e₂, -⟩ := scaledAddto_any f₂ (lr *. s) l₂
  obtain ⟨w', e, lw, -⟩ := scaledAddto_any f (lr *. s) l
  obtain ⟨g₁, g₂⟩ := segments_append w₁ w₂ l₁ l₂
  have h₁ := scaledAddto_segment f f₁ (by omega) p₁ l g₁ e e₁
  have h₂ := scaledAddto_segment f f₂ (by omega) p₂ l g₂ e e₂
  obtain rfl := eq_append_of_segments lw h₁ h₂
  refine ⟨⟨lr⟩, ⟨lr⟩, ⟨lr⟩, w₁', w₂', ?_, ?_, ?_, ⟨rfl, rfl, rfl⟩, h₁.1, h₂.1⟩
  · show (φ.scaledAddto (lr *. s) w₁ >>= _) = _
    rw [e₁]; rfl
  · show (ψ.scaledAddto (lr *. s) w₂ >>= _) = _
    rw [e₂]; rfl
  · show (r.scaledAddto (lr *. s) (w₁ ++ w₂) >>= _) = _
    rw [e]; rfl

theorem joint_any_momentum (n₁ n₂ : Nat) (m lr : K) :
    JointAny n₁ n₂ (StoredAlike n₁ n₂) fun o₁ o₂ o : SGDMomentum K => ∃ v₁ v₂, v₁.length = n₁ ∧ v₂.length = n₂ ∧
      o₁ = ⟨m, lr, v₁⟩ ∧ o₂ = ⟨m, lr, v₂⟩ ∧ o = ⟨m, lr, v₁ ++ v₂⟩ := by
  rintro _ _ _ φ ψ r w₁ w₂ s ⟨u₁, u₂, m₁, m₂, rfl, rfl, rfl⟩ f₁ f₂ f ⟨p₁, p₂⟩ l₁ l₂
  have l : (w₁ ++ w₂).length = n₁ + n₂ := by rw [List.length_append, l₁, l₂]
  have k : (u₁ ++ u₂).length = n₁ + n₂ := by rw [List.length_append, m₁, m₂]
  obtain ⟨v₁', w₁', s₁, e₁, a₁, c₁, q₁⟩ := momentum_scaled f₁ ⟨m, lr, u₁⟩ m₁ s l₁
  obtain ⟨v₂', w₂', s₂, e₂, a₂, c₂, q₂⟩ := momentum_scaled f₂ ⟨m, lr, u₂⟩ m₂ s l₂
  obtain ⟨v', w', s', e, a, c, q⟩ := momentum_scaled f ⟨m, lr, u₁ ++ u₂⟩ k s l
  obtain ⟨g₁, g₂⟩ := segments_append w₁ w₂ l₁ l₂
  obtain ⟨d₁, d₂⟩ := segments_append u₁ u₂ m₁ m₂
  have h₁ := velocity_segment f f₁ (by omega) p₁ k d₁ e e₁
  have h₂ := velocity_segment f f₂ (by omega) p₂ k d₂ e e₂
  obtain rfl := eq_append_of_segments c (add_segment (by omega) g₁ h₁ c₁ q q₁) (add_segment (by omega) g₂ h₂ c₂ q q₂)
  obtain rfl := eq_append_of_segments a h₁ h₂
  exact ⟨_, _, _, w₁', w₂', s₁, s₂, s', ⟨v₁', v₂', a₁, a₂, rfl, rfl, rfl⟩, c₁, c₂⟩

theorem joint_any_nag (n₁ n₂ : Nat) (m lr : K) :
    JointAny n₁ n₂ (StoredAlike n₁ n₂) fun o₁ o₂ o : NAG K => ∃ v₁ v₂, v₁.length = n₁ ∧ v₂.length = n₂ ∧
      o₁ = ⟨m, lr, v₁⟩ ∧ o₂ = ⟨m, lr, v₂⟩ ∧ o = ⟨m, lr, v₁ ++ v₂⟩ := by
  rintro _ _ _ φ ψ r w₁ w₂ s ⟨u₁, u₂, m₁, m₂, rfl, rfl, rfl⟩ f₁ f₂ f ⟨p₁, p₂⟩ l₁ l₂
  have l : (w₁ ++ w₂).length = n₁ + n₂ := by rw [List.length_append, l₁, l₂]
  have k : (u₁ ++ u₂).length = n₁ + n₂ := by rw [List.length_append, m₁, m₂]
  obtain ⟨v₁', y₁, w₁', s₁, e₁, x₁, a₁, b₁, c₁, q₁⟩ := nag_scaled f₁ ⟨m, lr, u₁⟩ m₁ s l₁
  obtain ⟨v₂', y₂, w₂', s₂, e₂, x₂, a₂, b₂, c₂, q₂⟩ := nag_scaled f₂ ⟨m, lr, u₂⟩ m₂ s l₂
  obtain ⟨v', y, w', s', e, x, a, b, c, q⟩ := nag_scaled f ⟨m, lr, u₁ ++ u₂⟩ k s l
  obtain ⟨g₁, g₂⟩ := segments_append w₁ w₂ l₁ l₂
  obtain ⟨d₁, d₂⟩ := segments_append u₁ u₂ m₁ m₂
  have h₁ := velocity_segment f f₁ (by omega) p₁ k d₁ e e₁
  have h₂ := velocity_segment f f₂ (by omega) p₂ k d₂ e e₂
  have z₁ := scaledAddto_segment f f₁ (by omega) p₁ b (add_segment (by omega) g₁ h₁ b₁ q q₁) x x₁
  have z₂ := scaledAddto_segment f f₂ (by omega) p₂ b (add_segment (by omega) g₂ h₂ b₂ q q₂) x x₂
  obtain rfl := eq_append_of_segments c z₁ z₂
  obtain rfl := eq_append_of_segments a h₁ h₂
  exact ⟨_, _, _, w₁', w₂', s₁, s₂, s', ⟨v₁', v₂', a₁, a₂, rfl, rfl, rfl⟩, c₁, c₂⟩

theorem joint_any_adagrad (n₁ n₂ : Nat) (lr : K) :
    JointAny n₁ n₂ (fun φ ψ r => (∀ i < n₁, value r i = value φ i) ∧ ∀ i < n₂, value r (n₁ + i) = value ψ i)
      fun o₁ o₂ o : Adagrad K => ∃ v₁ v₂, v₁.length = n₁ ∧ v₂.length = n₂ ∧
        o₁ = ⟨lr, v₁⟩ ∧ o₂ = ⟨lr, v₂⟩ ∧ o = ⟨lr, v₁ ++ v₂⟩ := by
  rintro _ _ _ φ ψ r w₁ w₂ s ⟨u₁, u₂, m₁, m₂, rfl, rfl, rfl⟩ f₁ f₂ f ⟨p₁, p₂⟩ l₁ l₂
  have l : (w₁ ++ w₂).length = n₁ + n₂ := by rw [List.length_append, l₁, l₂]
  have k : (u₁ ++ u₂).length = n₁ + n₂ := by rw [List.length_append, m₁, m₂]
  obtain ⟨v₁', w₁', s₁, a₁, c₁, q₁⟩ := adagrad_scaled f₁ ⟨lr, u₁⟩ m₁ s l₁
  obtain ⟨v₂', w₂', s₂, a₂, c₂, q₂⟩ := adagrad_scaled f₂ ⟨lr, u₂⟩ m₂ s l₂
  obtain ⟨v', w', s', a, c, q⟩ := adagrad_scaled f ⟨lr, u₁ ++ u₂⟩ k s l
  obtain ⟨g₁, g₂⟩ := segments_append w₁ w₂ l₁ l₂
  obtain ⟨d₁, d₂⟩ := segments_append u₁ u₂ m₁ m₂
  have z₁ : ∀ i < n₁, entry v' (0 + i) = entry v₁' i ∧ entry w' (0 + i) = entry w₁' i := fun i hi => by
    have := q (0 + i) (by omega)
    dsimp only at this
    rw [this.1, this.2, (q₁ i hi).1, (q₁ i hi).2, d₁.2 i hi, g₁.2 i hi, Nat.zero_add, p₁ i hi]
    exact ⟨rfl, rfl⟩
  have z₂ : ∀ i < n₂, entry v' (n₁ + i) = entry v₂' i ∧ entry w' (n₁ + i) = entry w₂' i := fun i hi => by
    have := q (n₁ + i) (by omega)
    dsimp only at this
    rw [this.1, this.2, (q₂ i hi).1, (q₂ i hi).2, d₂.2 i hi, g₂.2 i hi, p₂ i hi]
    exact ⟨rfl, rfl⟩
  obtain rfl := eq_append_of_segments c ⟨c₁, fun i hi => (z₁ i hi).2⟩ ⟨c₂, fun i hi => (z₂ i hi).2⟩
  obtain rfl := eq_append_of_segments a ⟨a₁, fun i hi => (z₁ i hi).1⟩ ⟨a₂, fun i hi => (z₂ i hi).1⟩
  exact ⟨_, _, _, w₁', w₂', s₁, s₂, s', ⟨v₁', v₂', a₁, a₂, rfl, rfl, rfl⟩, c₁, c₂⟩

theorem joint_any_adam (n₁ n₂ : Nat) (β₁ β₂ lr : K) :
    JointAny n₁ n₂ (StoredAlike n₁ n₂) fun o₁ o₂ o : Adam K => ∃ c₁ c₂ m₁ m₂ v₁ v₂,
      (m₁.length = n₁ ∧ m₂.length = n₂ ∧ v₁.length = n₁ ∧ v₂.length = n₂) ∧
      o₁ = ⟨β₁, c₁, β₂, c₂, lr, m₁, v₁⟩ ∧ o₂ = ⟨β₁, c₁, β₂, c₂, lr, m₂, v₂⟩ ∧
      o = ⟨β₁, c₁, β₂, c₂, lr, m₁ ++ m₂, v₁ ++ v₂⟩ := by
  rintro _ _ _ φ ψ r w₁ w₂ s ⟨c₁, c₂, m₁, m₂, v₁, v₂, ⟨x1, x2, x3, x4⟩, rfl, rfl, rfl⟩ f₁ f₂ f ⟨p₁, p₂⟩ l₁ l₂
  have l : (w₁ ++ w₂).length = n₁ + n₂ := by rw [List.length_append, l₁, l₂]
  have k : (m₁ ++ m₂).length = n₁ + n₂ := by rw [List.length_append, x1, x2]
  have k' : (v₁ ++ v₂).length = n₁ + n₂ := by rw [List.length_append, x3, x4]
  obtain ⟨m₁', v₁', w₁', s₁, a1, a2, a3, q₁⟩ := adam_scaled f₁ ⟨β₁, c₁, β₂, c₂, lr, m₁, v₁⟩ x1 x3 s l₁
  obtain ⟨m₂', v₂', w₂', s₂, b1, b2, b3, q₂⟩ := adam_scaled f₂ ⟨β₁, c₁, β₂, c₂, lr, m₂, v₂⟩ x2 x4 s l₂
  obtain ⟨m', v', w', s', d1, d2, d3, q⟩ := adam_scaled f ⟨β₁, c₁, β₂, c₂, lr, m₁ ++ m₂, v₁ ++ v₂⟩ k k' s l
  obtain ⟨g₁, g₂⟩ := segments_append w₁ w₂ l₁ l₂
  obtain ⟨e₁, e₂⟩ := segments_append m₁ m₂ x1 x2
  obtain ⟨h₁, h₂⟩ := segments_append v₁ v₂ x3 x4
  have z₁ : ∀ i < n₁, entry m' (0 + i) = entry m₁' i ∧ entry v' (0 + i) = entry v₁' i ∧ entry w' (0 + i) = entry w₁' i :=
    fun i hi => by
      obtain ⟨t, t'⟩ := q (0 + i) (by omega)
      obtain ⟨u, u'⟩ := q₁ i hi
      dsimp only at t t' u u'
      rw [p₁.active hi, p₁.1, p₁.2.2 i hi, e₁.2 i hi, h₁.2 i hi, g₁.2 i hi] at t
      rw [p₁.active hi, e₁.2 i hi, h₁.2 i hi, g₁.2 i hi] at t'
      by_cases hA : Active φ i
      · obtain ⟨t1, t2, t3⟩ := t hA
        obtain ⟨u1, u2, u3⟩ := u hA
        have t1 := t1.trans u1.symm
        have t2 := t2.trans u2.symm
        rw [t1, t2] at t3
        exact ⟨t1, t2, t3.trans u3.symm⟩
      · obtain ⟨t1, t2, t3⟩ := t' hA
        obtain ⟨u1, u2, u3⟩ := u' hA
        exact ⟨t1.trans u1.symm, t2.trans u2.symm, t3.trans u3.symm⟩
  have z₂ : ∀ i < n₂, entry m' (n₁ + i) = entry m₂' i ∧ entry v' (n₁ + i) = entry v₂' i ∧ entry w' (n₁ + i) = entry w₂' i :=
    fun i hi => by
      obtain ⟨t, t'⟩ := q (n₁ + i) (by omega)
      obtain ⟨u, u'⟩ := q₂ i hi
      dsimp only at t t' u u'
      rw [p₂.active hi, p₂.1, p₂.2.2 i hi, e₂.2 i hi, h₂.2 i hi, g₂.2 i hi] at t
      rw [p₂.active hi, e₂.2 i hi, h₂.2 i hi, g₂.2 i hi] at t'
      by_cases hA : Active ψ i
      · obtain ⟨t1, t2, t3⟩ := t hA
        obtain ⟨u1, u2, u3⟩ := u hA
        have t1 := t1.trans u1.symm
        have t2 := t2.trans u2.symm
        rw [t1, t2] at t3
        exact ⟨t1, t2, t3.trans u3.symm⟩
      · obtain ⟨t1, t2, t3⟩ := t' hA
        obtain ⟨u1, u2, u3⟩ := u' hA
        exact ⟨t1.trans u1.symm, t2.trans u2.symm, t3.trans u3.symm⟩
  obtain rfl := eq_append_of_segments d1 ⟨a1, fun i hi => (z₁ i hi).1⟩ ⟨b1, fun i hi => (z₂ i hi).1⟩
  obtain rfl := eq_append_of_segments d2 ⟨a2, fun i hi => (z₁ i hi).2.1⟩ ⟨b2, fun i hi => (z₂ i hi).2.1⟩
  obtain rfl := eq_append_of_segments d3 ⟨a3, fun i hi => (z₁ i hi).2.2⟩ ⟨b3, fun i hi => (z₂ i hi).2.2⟩
  exact ⟨_, _, _, w₁', w₂', s₁, s₂, s', ⟨_, _, m₁', m₂', v₁', v₂', ⟨a1, b1, a2, b2⟩, rfl, rfl, rfl⟩, a3, b3⟩

theorem joint_any_adamax (n₁ n₂ : Nat) (β₁ β₂ lr : K) :
    JointAny n₁ n₂ (StoredAlike n₁ n₂) fun o₁ o₂ o : AdaMax K => ∃ c m₁ m₂ v₁ v₂,
      (m₁.length = n₁ ∧ m₂.length = n₂ ∧ v₁.length = n₁ ∧ v₂.length = n₂) ∧
      o₁ = ⟨β₁, c, β₂, lr, m₁, v₁⟩ ∧ o₂ = ⟨β₁, c, β₂, lr, m₂, v₂⟩ ∧ o = ⟨β₁, c, β₂, lr, m₁ ++ m₂, v₁ ++ v₂⟩ := by
  rintro _ _ _ φ ψ r w₁ w₂ s ⟨c, m₁, m₂, v₁, v₂, ⟨x1, x2, x3, x4⟩, rfl, rfl, rfl⟩ f₁ f₂ f ⟨p₁, p₂⟩ l₁ l₂
  have l : (w₁ ++ w₂).length = n₁ + n₂ := by rw [List.length_append, l₁, l₂]
  have k : (m₁ ++ m₂).length = n₁ + n₂ := by rw [List.length_append, x1, x2]
  have k' : (v₁ ++ v₂).length = n₁ + n₂ := by rw [List.length_append, x3, x4]
  obtain ⟨m₁', v₁', w₁', s₁, a1, a2, a3, q₁⟩ := adamax_scaled f₁ ⟨β₁, c, β₂, lr, m₁, v₁⟩ x1 x3 s l₁
  obtain ⟨m₂', v₂', w₂', s₂, b1, b2, b3, q₂⟩ := adamax_scaled f₂ ⟨β₁, c, β₂, lr, m₂, v₂⟩ x2 x4 s l₂
  obtain ⟨m', v', w', s', d1, d2, d3, q⟩ := adamax_scaled f ⟨β₁, c, β₂, lr, m₁ ++ m₂, v₁ ++ v₂⟩ k k' s l
  obtain ⟨g₁, g₂⟩ := segments_append w₁ w₂ l₁ l₂
  obtain ⟨e₁, e₂⟩ := segments_append m₁ m₂ x1 x2
  obtain ⟨h₁, h₂⟩ := segments_append v₁ v₂ x3 x4
  have z₁ : ∀ i < n₁, entry m' (0 + i) = entry m₁' i ∧ entry v' (0 + i) = entry v₁' i ∧ entry w' (0 + i) = entry w₁' i :=
    fun i hi => by
      obtain ⟨t, t'⟩ := q (0 + i) (by omega)
      obtain ⟨u, u'⟩ := q₁ i hi
      dsimp only at t t' u u'
      rw [p₁.active hi, p₁.1, p₁.2.2 i hi, e₁.2 i hi, h₁.2 i hi, g₁.2 i hi] at t
      rw [p₁.active hi, e₁.2 i hi, h₁.2 i hi, g₁.2 i hi] at t'
      by_cases hA : Active φ i
      · obtain ⟨t1, t2, t3⟩ := t hA
        obtain ⟨u1, u2, u3⟩ := u hA
        have t1 := t1.trans u1.symm
        have t2 := t2.trans u2.symm
        rw [t1, t2] at t3
        exact ⟨t1, t2, t3.trans u3.symm⟩
      · obtain ⟨t1, t2, t3⟩ := t' hA
        obtain ⟨u1, u2, u3⟩ := u' hA
        exact ⟨t1.trans u1.symm, t2.trans u2.symm, t3.trans u3.symm⟩
  have z₂ : ∀ i < n₂, entry m' (n₁ + i) = entry m₂' i ∧ entry v' (n₁ + i) = entry v₂' i ∧ entry w' (n₁ + i) = entry w₂' i :=
    fun i hi => by
      obtain ⟨t, t'⟩ := q (n₁ + i) (by omega)
      obtain ⟨u, u'⟩ := q₂ i hi
      dsimp only at t t' u u'
      rw [p₂.active hi, p₂.1, p₂.2.2 i hi, e₂.2 i hi, h₂.2 i hi, g₂.2 i hi] at t
      rw [p₂.active hi, e₂.2 i hi, h₂.2 i hi, g₂.2 i hi] at t'
      by_cases hA : Active ψ i
      · obtain ⟨t1, t2, t3⟩ := t hA
        obtain ⟨u1, u2, u3⟩ := u hA
        have t1 := t1.trans u1.symm
        have t2 := t2.trans u2.symm
        rw [t1, t2] at t3
        exact ⟨t1, t2, t3.trans u3.symm⟩
      · obtain ⟨t1, t2, t3⟩ := t' hA
        obtain ⟨u1, u2, u3⟩ := u' hA
        exact ⟨t1.trans u1.symm, t2.trans u2.symm, t3.trans u3.symm⟩
  obtain rfl := eq_append_of_segments d1 ⟨a1, fun i hi => (z₁ i hi).1⟩ ⟨b1, fun i hi => (z₂ i hi).1⟩
  obtain rfl := eq_append_of_segments d2 ⟨a2, fun i hi => (z₁ i hi).2.1⟩ ⟨b2, fun i hi => (z₂ i hi).2.1⟩
  obtain rfl := eq_append_of_segments d3 ⟨a3, fun i hi => (z₁ i hi).2.2⟩ ⟨b3, fun i hi => (z₂ i hi).2.2⟩
  exact ⟨_, _, _, w₁', w₂', s₁, s₂, s', ⟨_, m₁', m₂', v₁', v₂', ⟨a1, b1, a2, b2⟩, rfl, rfl, rfl⟩, a3, b3⟩

/-! ## C206 -/

/-- In every arithmetic, training over a stack by SGD is training the two parts side by side with the same errors. -/
theorem C206_sgd (b₁ : B₁) (b₂ : B₂) (es : List (I × K)) (lr : K) (w₁ w₂ : List K)
    (hu : TrainsAlike b₁ b₂ w₁.length w₂.length es) :
    ∃ w₁' w₂', w₁'.length = w₁.length ∧ w₂'.length = w₂.length ∧
      Updated (LFA.mk b₁ w₁ (SGD.mk lr)) es (LFA.mk b₁ w₁' (SGD.mk lr)) ∧
      Updated (LFA.mk b₂ w₂ (SGD.mk lr)) es (LFA.mk b₂ w₂' (SGD.mk lr)) ∧
      Updated (LFA.mk (Stack.mk b₁ b₂) (w₁ ++ w₂) (SGD.mk lr)) es
        (LFA.mk (Stack.mk b₁ b₂) (w₁' ++ w₂') (SGD.mk lr)) := by
  obtain ⟨w₁', w₂', _, _, _, l₁, l₂, ⟨rfl, rfl, rfl⟩, t₁, t₂, t⟩ :=
    joint_training_any (joint_any_sgd _ _ lr) b₁ b₂ es w₁ w₂ ⟨lr⟩ ⟨lr⟩ ⟨lr⟩ rfl rfl ⟨rfl, rfl, rfl⟩ (alike_of_trains hu)
  exact ⟨w₁', w₂', l₁, l₂, t₁, t₂, t⟩

/-- The same for momentum. -/
theorem C206_momentum (b₁ : B₁) (b₂ : B₂) (es : List (I × K)) (m lr : K) (w₁ w₂ v₁ v₂ : List K)
    (h₁ : v₁.length = w₁.length) (h₂ : v₂.length = w₂.length) (hu : TrainsAlike b₁ b₂ w₁.length w₂.length es) :
    ∃ w₁' w₂' v₁' v₂', w₁'.length = w₁.length ∧ w₂'.length = w₂.length ∧
      Updated (LFA.mk b₁ w₁ (SGDMomentum.mk m lr v₁)) es (LFA.mk b₁ w₁' (SGDMomentum.mk m lr v₁')) ∧
      Updated (LFA.mk b₂ w₂ (SGDMomentum.mk m lr v₂)) es (LFA.mk b₂ w₂' (SGDMomentum.mk m lr v₂')) ∧
      Updated (LFA.mk (Stack.mk b₁ b₂) (w₁ ++ w₂) (SGDMomentum.mk m lr (v₁ ++ v₂))) es
        (LFA.mk (Stack.mk b₁ b₂) (w₁' ++ w₂') (SGDMomentum.mk m lr (v₁' ++ v₂'))) := by
  obtain ⟨w₁', w₂', _, _, _, l₁, l₂, ⟨v₁', v₂', -, -, rfl, rfl, rfl⟩, t₁, t₂, t⟩ :=
    joint_training_any (joint_any_momentum _ _ m lr) b₁ b₂ es w₁ w₂ _ _ _ rfl rfl ⟨v₁, v₂, h₁, h₂, rfl, rfl, rfl⟩
      (alike_of_trains hu)
  exact ⟨w₁', w₂', v₁', v₂', l₁, l₂, t₁, t₂, t⟩

/-- The same for NAG. -/
theorem C206_nag (b₁ : B₁) (b₂ : B₂) (es : List (I × K)) (m lr : K) (w₁ w₂ v₁ v₂ : List K)
    (h₁ : v₁.length = w₁.length) (h₂ : v₂.length = w₂.length) (hu : TrainsAlike b₁ b₂ w₁.length w₂.length es) :
    ∃ w₁' w₂' v₁' v₂', w₁'.length = w₁.length ∧ w₂'.length = w₂.length ∧
      Updated (LFA.mk b₁ w₁ (NAG.mk m lr v₁)) es (LFA.mk b₁ w₁' (NAG.mk m lr v₁')) ∧
      Updated (LFA.mk b₂ w₂ (NAG.mk m lr v₂)) es (LFA.mk b₂ w₂' (NAG.mk m lr v₂')) ∧
      Updated (LFA.mk (Stack.mk b₁ b₂) (w₁ ++ w₂) (NAG.mk m lr (v₁ ++ v₂))) es
        (LFA.mk (Stack.mk b₁ b₂) (w₁' ++ w₂') (NAG.mk m lr (v₁' ++ v₂'))) := by
  obtain ⟨w₁', w₂', _, _, _, l₁, l₂, ⟨v₁', v₂', -, -, rfl, rfl, rfl⟩, t₁, t₂, t⟩ :=
    joint_training_any (joint_any_nag _ _ m lr) b₁ b₂ es w₁ w₂ _ _ _ rfl rfl ⟨v₁, v₂, h₁, h₂, rfl, rfl, rfl⟩
      (alike_of_trains hu)
  exact ⟨w₁', w₂', v₁', v₂', l₁, l₂, t₁, t₂, t⟩

/-- The same for Adagrad, also if one part is sparse and the other dense: Adagrad steps features that are not stored as zeros. -/
theorem C206_adagrad (b₁ : B₁) (b₂ : B₂) (es : List (I × K)) (lr : K) (w₁ w₂ v₁ v₂ : List K)
    (h₁ : v₁.length = w₁.length) (h₂ : v₂.length = w₂.length) (hu : TrainsBoth b₁ b₂ w₁.length w₂.length es) :
    ∃ w₁' w₂' v₁' v₂', w₁'.length = w₁.length ∧ w₂'.length = w₂.length ∧
      Updated (LFA.mk b₁ w₁ (Adagrad.mk lr v₁)) es (LFA.mk b₁ w₁' (Adagrad.mk lr v₁')) ∧
      Updated (LFA.mk b₂ w₂ (Adagrad.mk lr v₂)) es (LFA.mk b₂ w₂' (Adagrad.mk lr v₂')) ∧
      Updated (LFA.mk (Stack.mk b₁ b₂) (w₁ ++ w₂) (Adagrad.mk lr (v₁ ++ v₂))) es
        (LFA.mk (Stack.mk b₁ b₂) (w₁' ++ w₂') (Adagrad.mk lr (v₁' ++ v₂'))) := by
  obtain ⟨w₁', w₂', _, _, _, l₁, l₂, ⟨v₁', v₂', -, -, rfl, rfl, rfl⟩, t₁, t₂, t⟩ :=
    joint_training_any (joint_any_adagrad _ _ lr) b₁ b₂ es w₁ w₂ _ _ _ rfl rfl ⟨v₁, v₂, h₁, h₂, rfl, rfl, rfl⟩ (by
      intro e he
      obtain ⟨φ, ψ, p₁, f₁, p₂, f₂⟩ := hu e he
      obtain ⟨r, pr, fr, q₁, q₂, -⟩ := project_stack_any p₁ p₂ f₁ f₂
      exact ⟨φ, ψ, r, p₁, f₁, p₂, f₂, pr, fr, q₁, q₂⟩)
  exact ⟨w₁', w₂', v₁', v₂', l₁, l₂, t₁, t₂, t⟩

/-- The same for Adam. -/
theorem C206_adam (b₁ : B₁) (b₂ : B₂) (es : List (I × K)) (β₁ c₁ β₂ c₂ lr : K) (w₁ w₂ m₁ m₂ v₁ v₂ : List K)
    (h₁ : m₁.length = w₁.length) (h₂ : m₂.length = w₂.length) (k₁ : v₁.length = w₁.length) (k₂ : v₂.length = w₂.length)
    (hu : TrainsAlike b₁ b₂ w₁.length w₂.length es) :
    ∃ w₁' w₂' m₁' m₂' v₁' v₂' c₁' c₂', w₁'.length = w₁.length ∧ w₂'.length = w₂.length ∧
      Updated (LFA.mk b₁ w₁ (Adam.mk β₁ c₁ β₂ c₂ lr m₁ v₁)) es (LFA.mk b₁ w₁' (Adam.mk β₁ c₁' β₂ c₂' lr m₁' v₁')) ∧
      Updated (LFA.mk b₂ w₂ (Adam.mk β₁ c₁ β₂ c₂ lr m₂ v₂)) es (LFA.mk b₂ w₂' (Adam.mk β₁ c₁' β₂ c₂' lr m₂' v₂')) ∧
      Updated (LFA.mk (Stack.mk b₁ b₂) (w₁ ++ w₂) (Adam.mk β₁ c₁ β₂ c₂ lr (m₁ ++ m₂) (v₁ ++ v₂))) es
        (LFA.mk (Stack.mk b₁ b₂) (w₁' ++ w₂') (Adam.mk β₁ c₁' β₂ c₂' lr (m₁' ++ m₂') (v₁' ++ v₂'))) := by
  obtain ⟨w₁', w₂', _, _, _, l₁, l₂, ⟨c₁', c₂', m₁', m₂', v₁', v₂', -, rfl, rfl, rfl⟩, t₁, t₂, t⟩ :=
    joint_training_any (joint_any_adam _ _ β₁ β₂ lr) b₁ b₂ es w₁ w₂ _ _ _ rfl rfl
      ⟨c₁, c₂, m₁, m₂, v₁, v₂, ⟨h₁, h₂, k₁, k₂⟩, rfl, rfl, rfl⟩ (alike_of_trains hu)
  exact ⟨w₁', w₂', m₁', m₂', v₁', v₂', c₁', c₂', l₁, l₂, t₁, t₂, t⟩

/-- The same for AdaMax. -/
theorem C206_adamax (b₁ : B₁) (b₂ : B₂) (es : List (I × K)) (β₁ c β₂ lr : K) (w₁ w₂ m₁ m₂ v₁ v₂ : List K)
    (h₁ : m₁.length = w₁.length) (h₂ : m₂.length = w₂.length) (k₁ : v₁.length = w₁.length) (k₂ : v₂.length = w₂.length)
    (hu : TrainsAlike b₁ b₂ w₁.length w₂.length es) :
    ∃ w₁' w₂' m₁' m₂' v₁' v₂' c', w₁'.length = w₁.length ∧ w₂'.length = w₂.length ∧
      Updated (LFA.mk b₁ w₁ (AdaMax.mk β₁ c β₂ lr m₁ v₁)) es (LFA.mk b₁ w₁' (AdaMax.mk β₁ c' β₂ lr m₁' v₁')) ∧
      Updated (LFA.mk b₂ w₂ (AdaMax.mk β₁ c β₂ lr m₂ v₂)) es (LFA.mk b₂ w₂' (AdaMax.mk β₁ c' β₂ lr m₂' v₂')) ∧
      Updated (LFA.mk (Stack.mk b₁ b₂) (w₁ ++ w₂) (AdaMax.mk β₁ c β₂ lr (m₁ ++ m₂) (v₁ ++ v₂))) es
        (LFA.mk (Stack.mk b₁ b₂) (w₁' ++ w₂') (AdaMax.mk β₁ c' β₂ lr (m₁' ++ m₂') (v₁' ++ v₂'))) := by
  obtain ⟨w₁', w₂', _, _, _, l₁, l₂, ⟨c', m₁', m₂', v₁', v₂', -, rfl, rfl, rfl⟩, t₁, t₂, t⟩ :=
    joint_training_any (joint_any_adamax _ _ β₁ β₂ lr) b₁ b₂ es w₁ w₂ _ _ _ rfl rfl
      ⟨c, m₁, m₂, v₁, v₂, ⟨h₁, h₂, k₁, k₂⟩, rfl, rfl, rfl⟩ (alike_of_trains hu)
  exact ⟨w₁', w₂', m₁', m₂', v₁', v₂', c', l₁, l₂, t₁, t₂, t⟩

/-! ## A bias and errors that are not finite -/

open Machine XReal

variable {M : Machine}

theorem not_finite_mul_zero {c z : FP M} (hc : ¬ Spec.Finite c) (hz : Is z 0) : IsNaN (c *. z) := by
  unfold IsNaN
  rw [val_mul, hz]
  rcases h : c.1 with _ | _ | _ | r
  · rfl
  · show (M.round (if (0 : ℝ) = 0 then _ else _)).1 = _
    rw [if_pos rfl]; rfl
  · show (M.round (if (0 : ℝ) = 0 then _ else _)).1 = _
    rw [if_pos rfl]; rfl
  · exact absurd ⟨r, h⟩ hc

/-- One call of `update` by SGD in rounded arithmetic, at an input where feature `i` of a sparse basis is not stored. Its weight
stays without a bias, whatever the error. With a bias it stays if the rate times the error is finite, and is NaN otherwise. -/
theorem C206_with_bias {B : Type} [Space B] [Basis B I (FP M)] (b : B) (n : Nat) (x : I) (φ : Features (FP M))
    (h : Basis.project b x = .ok (.ok φ)) (hf : Fits n φ) (i : Nat) (hi : i < n) (hn : ¬ Active φ i) (lr e : FP M)
    (w wb : List (FP M)) (hw : w.length = n) (hwb : wb.length = n + 1) :
    ∃ fa fb, ScalarLFA.update (LFA.mk b w (SGD.mk lr)) x e = .ok (.ok (), fa) ∧
      ScalarLFA.update (LFA.mk (withBias b : Stack B (Bias (FP M))) wb (SGD.mk lr)) x e = .ok (.ok (), fb) ∧
      entry fa.weights i = entry w i ∧ (Spec.Finite (lr *. e) → entry fb.weights i = entry wb i) ∧
      (¬ Spec.Finite (lr *. e) → IsNaN (entry fb.weights i)) := by
  have hb : ∀ z : I, Basis.project (Bias.unit : Bias (FP M)) z = .ok (.ok (.dense [Scalar.one])) := fun _ => rfl
  have f2 : Fits 1 (.dense [Scalar.one] : Features (FP M)) := ⟨trivial, rfl⟩
  obtain ⟨r, hr, fr, v, -⟩ := project_stack_any h (hb x) hf f2
  obtain ⟨w₁, e₁, -, q₁⟩ := sgd_scaled hf (SGD.mk lr) e hw
  obtain ⟨w₂, e₂, -, q₂⟩ := sgd_scaled fr (SGD.mk lr) e hwb
  refine ⟨_, _, update_eq_any h e₁, update_eq_any hr e₂, (q₁ i hi).2 hn, ?_⟩
  have hs : Stored r i Scalar.zero := by
    obtain ⟨φ', ψ', g₁, g₂, hst⟩ := C21_stack_ok_only_if _ _ _ _ hr
    rw [h] at g₁; cases g₁
    rw [hb] at g₂; cases g₂
    rw [stack_dense_of_not_sparse hf.1 f2.1 fun h => by cases h.2] at hst
    cases hst
    have v := v i hi
    rw [value_of_not_stored fun a ha => hn ⟨a, ha⟩] at v
    have v : (view φ ++ view (.dense [Scalar.one])).getD i Scalar.zero = Scalar.zero := v
    show (view φ ++ view (.dense [Scalar.one]))[i]? = some Scalar.zero
    have hl : i < (view φ ++ view (.dense [Scalar.one] : Features (FP M))).length := by
      have : dim (.dense (view φ ++ view (.dense [Scalar.one])) : Features (FP M)) = n + 1 := fr.2
      have : (view φ ++ view (.dense [Scalar.one] : Features (FP M))).length = n + 1 := this
      omega
    rw [List.getElem?_eq_getElem hl, ← List.getD_eq_getElem _ Scalar.zero hl, v]
  have key := (q₂ i (by omega)).1 _ hs
  refine ⟨fun hc => ?_, fun hc => ?_⟩
  · show entry w₂ i = _
    have h0 : lr *. e *. Scalar.zero = (Scalar.zero : FP M) := fp_ext ((finite_mul_zero hc val_zero).trans val_zero.symm)
    rw [key, h0, fp_add_zero]
  · show IsNaN (entry w₂ i)
    rw [key]
    exact nan_add_right _ (not_finite_mul_zero hc val_zero)

/-- Two sparse bases of two features, and an infinite error that a bias carries into the weight of a feature that is not active. -/
theorem C206_example (e : FP M) (he : e.1 = .pinf) :
    (∀ c : FP M, TrainsAlike (⟨2, [0]⟩ : FixedSparse (FP M)) (⟨2, [1]⟩ : FixedSparse (FP M)) 2 2 [((), c), ((), e)]) ∧
    ∃ fa fb, ScalarLFA.update (LFA.mk (⟨2, [0]⟩ : FixedSparse (FP M)) [Scalar.zero, Scalar.zero] (SGD.mk (Scalar.one : FP M))) () e =
        .ok (.ok (), fa) ∧
      ScalarLFA.update (LFA.mk (withBias ⟨2, [0]⟩ : Stack (FixedSparse (FP M)) (Bias (FP M)))
        [Scalar.zero, Scalar.zero, Scalar.zero] (SGD.mk (Scalar.one : FP M))) () e = .ok (.ok (), fb) ∧
      entry fa.weights 1 = Scalar.zero ∧ IsNaN (entry fb.weights 1) := by
  have p : ∀ j, Basis.project (⟨2, [j]⟩ : FixedSparse (FP M)) () =
      .ok (.ok (.sparse ⟨2, [(j, Scalar.one)]⟩ : Features (FP M))) := fun _ => rfl
  have fit : ∀ j < 2, Fits 2 (.sparse ⟨2, [(j, Scalar.one)]⟩ : Features (FP M)) := fun j hj =>
    ⟨⟨by simp, by simpa using hj⟩, rfl⟩
  refine ⟨fun c a _ => ⟨_, _, p 0, fit 0 two_pos, p 1, fit 1 one_lt_two, rfl⟩, ?_⟩
  obtain ⟨fa, fb, h1, h2, h3, -, h4⟩ := C206_with_bias (⟨2, [0]⟩ : FixedSparse (FP M)) 2 () _ (p 0) (fit 0 two_pos) 1
    one_lt_two (by
      rintro ⟨a, ha⟩
      have ha : (1, a) ∈ [(0, (Scalar.one : FP M))] := ha
      rw [List.mem_singleton] at ha
      cases ha) Scalar.one e [Scalar.zero, Scalar.zero] [Scalar.zero, Scalar.zero, Scalar.zero] rfl rfl
  refine ⟨fa, fb, h1, h2, h3, h4 ?_⟩
  rintro ⟨r, hr⟩
  have hr : (Scalar.one *. e : FP M).1 = .fin r := hr
  rw [val_mul, he, val_one] at hr
  have : (M.round (if (1 : ℝ) = 0 then _ else XReal.infSign _)).1 = .fin r := hr
  rw [if_neg one_ne_zero] at this
  unfold XReal.infSign at this
  rw [if_pos (by norm_num)] at this
  cases this

end Lfa

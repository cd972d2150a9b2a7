import Verif.Proofs.Training
import Verif.Props.C17_C22
import Mathlib.Data.List.GetD

/-!
# C124: an approximator over a stack is the sum of its parts

Exact arithmetic.
-/

set_option linter.unusedSectionVars false

namespace Lfa

open Spec

variable {B₁ B₂ I O : Type} [Space B₁] [Space B₂] [Basis B₁ I ℝ] [Basis B₂ I ℝ]

namespace Spec

/-- `Updated fa es fa'`: calling `update(x, e)` for each pair in order succeeds and turns `fa` into
`fa'`. -/
inductive Updated {B I O K : Type} [Scalar K] [Space B] [Basis B I K] [Optimiser O K] :
    ScalarLFA B O K → List (I × K) → ScalarLFA B O K → Prop
  | nil (fa : ScalarLFA B O K) : Updated fa [] fa
  | cons {fa fa₁ fa' : ScalarLFA B O K} {x : I} {e : K} {es : List (I × K)}
      (h : fa.update x e = .ok (.ok (), fa₁)) (t : Updated fa₁ es fa') : Updated fa ((x, e) :: es) fa'

end Spec

theorem entry_append_left {w₁ w₂ : List ℝ} {i : Nat} (h : i < w₁.length) :
    entry (w₁ ++ w₂) i = entry w₁ i := by
  rw [entry_real, entry_real, List.getD_eq_getElem?_getD, List.getD_eq_getElem?_getD,
    List.getElem?_append_left h]

theorem entry_append_right (w₁ w₂ : List ℝ) (i : Nat) :
    entry (w₁ ++ w₂) (w₁.length + i) = entry w₂ i := by
  rw [entry_real, entry_real, List.getD_eq_getElem?_getD, List.getD_eq_getElem?_getD,
    List.getElem?_append_right (by omega), Nat.add_sub_cancel_left]

theorem eq_of_entries {w v : List ℝ} (hl : w.length = v.length)
    (h : ∀ i < w.length, entry w i = entry v i) : w = v := by
  refine List.ext_getElem hl fun i h1 h2 => ?_
  have := h i h1
  rwa [entry_real, entry_real, List.getD_eq_getElem _ _ h1, List.getD_eq_getElem _ _ h2] at this

theorem eq_append_of_entries {n₁ n₂ : Nat} {w w₁ w₂ : List ℝ} (h₁ : w₁.length = n₁)
    (h₂ : w₂.length = n₂) (h : w.length = n₁ + n₂) (e₁ : ∀ i < n₁, entry w i = entry w₁ i)
    (e₂ : ∀ i < n₂, entry w (n₁ + i) = entry w₂ i) : w = w₁ ++ w₂ := by
  subst h₁ h₂
  refine eq_of_entries (by simpa using h) fun i hi => ?_
  by_cases hl : i < w₁.length
  · rw [e₁ i hl, entry_append_left hl]
  · obtain ⟨j, rfl⟩ := Nat.exists_eq_add_of_le (Nat.le_of_not_lt hl)
    rw [e₂ j (by omega), entry_append_right]

theorem project_stack {b₁ : B₁} {b₂ : B₂} {x : I} {φ ψ : Features ℝ} {n₁ n₂ : Nat}
    (h₁ : Basis.project b₁ x = .ok (.ok φ)) (h₂ : Basis.project b₂ x = .ok (.ok ψ))
    (f₁ : Fits n₁ φ) (f₂ : Fits n₂ ψ) :
    ∃ r, Basis.project (Stack.mk b₁ b₂) x = .ok (.ok r) ∧ Fits (n₁ + n₂) r ∧
      (∀ i < n₁, value r i = value φ i) ∧ ∀ i < n₂, value r (n₁ + i) = value ψ i := by
  obtain ⟨r, hr, wr, -⟩ := C21_stack_concat b₁ b₂ x φ ψ h₁ h₂ f₁.1 f₂.1
  obtain ⟨φ', ψ', e₁, e₂, hs⟩ := C21_stack_ok_only_if _ _ _ _ hr
  rw [h₁] at e₁; cases e₁
  rw [h₂] at e₂; cases e₂
  obtain ⟨-, v₁, v₂⟩ := stack_values f₁.1 f₂.1 hs
  have hd := stack_dim hs
  rw [f₁.2, f₂.2] at hd
  rw [f₁.2] at v₁ v₂
  rw [f₂.2] at v₂
  exact ⟨r, hr, ⟨wr, hd⟩, v₁, v₂⟩

theorem inner_append {n₁ n₂ : Nat} {φ ψ r : Features ℝ} (f₁ : dim φ = n₁) (f₂ : dim ψ = n₂)
    (fr : dim r = n₁ + n₂) (v₁ : ∀ i < n₁, value r i = value φ i)
    (v₂ : ∀ i < n₂, value r (n₁ + i) = value ψ i) {w₁ w₂ : List ℝ} (hw : w₁.length = n₁) :
    Spec.inner r (w₁ ++ w₂) = Spec.inner φ w₁ + Spec.inner ψ w₂ := by
  rw [inner_eq, inner_eq, inner_eq, fr, f₁, f₂, Finset.sum_range_add]
  congr 1
  · refine Finset.sum_congr rfl fun i hi => ?_
    have hi := Finset.mem_range.1 hi
    rw [v₁ i hi, entry_append_left (hw ▸ hi)]
  · refine Finset.sum_congr rfl fun i hi => ?_
    rw [v₂ i (Finset.mem_range.1 hi), ← hw, entry_append_right]

/-- **C124.** The prediction over a stack is the sum of the two parts' predictions, with the weights
split between them. -/
theorem C124_prediction {b₁ : B₁} {b₂ : B₂} {x : I} {φ ψ : Features ℝ}
    (h₁ : Basis.project b₁ x = .ok (.ok φ)) (h₂ : Basis.project b₂ x = .ok (.ok ψ))
    (f₁ : WF φ) (f₂ : WF ψ) (w₁ w₂ : List ℝ) (l₁ : w₁.length = dim φ) (l₂ : w₂.length = dim ψ)
    (o₁ o₂ o : O) :
    ∃ p₁ p₂, ScalarLFA.evaluate (LFA.mk b₁ w₁ o₁ : ScalarLFA B₁ O ℝ) x = .ok (.ok p₁) ∧
      ScalarLFA.evaluate (LFA.mk b₂ w₂ o₂ : ScalarLFA B₂ O ℝ) x = .ok (.ok p₂) ∧
      ScalarLFA.evaluate (LFA.mk (Stack.mk b₁ b₂) (w₁ ++ w₂) o : ScalarLFA (Stack B₁ B₂) O ℝ) x =
        .ok (.ok (p₁ + p₂)) := by
  obtain ⟨r, hr, ⟨wr, dr⟩, v₁, v₂⟩ := project_stack h₁ h₂ ⟨f₁, rfl⟩ ⟨f₂, rfl⟩
  refine ⟨_, _, evaluate_eq (fa := LFA.mk b₁ w₁ o₁) h₁ (dot_real f₁ l₁.symm),
    evaluate_eq (fa := LFA.mk b₂ w₂ o₂) h₂ (dot_real f₂ l₂.symm), ?_⟩
  rw [← inner_append (w₁ := w₁) (w₂ := w₂) rfl rfl dr v₁ v₂ l₁]
  exact evaluate_eq (fa := LFA.mk (Stack.mk b₁ b₂) (w₁ ++ w₂) o) hr
    (dot_real wr (by rw [dr, List.length_append, l₁, l₂]))

/-! ## Training -/

theorem update_eq [Optimiser O ℝ] {B : Type} [Space B] [Basis B I ℝ] {b : B} {w w' : List ℝ}
    {o o' : O} {x : I} {φ : Features ℝ} {e : ℝ} (h : Basis.project b x = .ok (.ok φ))
    (hs : Optimiser.stepScaled o w φ e = .ok (.ok (), o', w')) :
    ScalarLFA.update (LFA.mk b w o : ScalarLFA B O ℝ) x e = .ok (.ok (), LFA.mk b w' o') := by
  unfold ScalarLFA.update
  simp only [h, P.ok_bind, hs]

/-- `J o₁ o₂ o` for all states of the optimisers of the two parts and of the stack, kept by steps. -/
def Joint [Optimiser O ℝ] (n₁ n₂ : Nat) (J : O → O → O → Prop) : Prop :=
  ∀ (o₁ o₂ o : O) (φ ψ r : Features ℝ) (w₁ w₂ : List ℝ) (s : ℝ), J o₁ o₂ o → Fits n₁ φ → Fits n₂ ψ →
    Fits (n₁ + n₂) r → (∀ i < n₁, value r i = value φ i) → (∀ i < n₂, value r (n₁ + i) = value ψ i) →
    w₁.length = n₁ → w₂.length = n₂ →
    ∃ o₁' o₂' o' w₁' w₂', Optimiser.stepScaled o₁ w₁ φ s = .ok (.ok (), o₁', w₁') ∧
      Optimiser.stepScaled o₂ w₂ ψ s = .ok (.ok (), o₂', w₂') ∧
      Optimiser.stepScaled o (w₁ ++ w₂) r s = .ok (.ok (), o', w₁' ++ w₂') ∧
      J o₁' o₂' o' ∧ w₁'.length = n₁ ∧ w₂'.length = n₂

theorem joint_training [Optimiser O ℝ] {n₁ n₂ : Nat} {J : O → O → O → Prop} (hJ : Joint n₁ n₂ J)
    (b₁ : B₁) (b₂ : B₂) (es : List (I × ℝ)) :
    ∀ (w₁ w₂ : List ℝ) (o₁ o₂ o : O), w₁.length = n₁ → w₂.length = n₂ → J o₁ o₂ o →
    (∀ e ∈ es, ∃ φ ψ, Basis.project b₁ e.1 = .ok (.ok φ) ∧ Fits n₁ φ ∧
      Basis.project b₂ e.1 = .ok (.ok ψ) ∧ Fits n₂ ψ) →
    ∃ w₁' w₂' o₁' o₂' o', w₁'.length = n₁ ∧ w₂'.length = n₂ ∧ J o₁' o₂' o' ∧
      Updated (LFA.mk b₁ w₁ o₁) es (LFA.mk b₁ w₁' o₁') ∧
      Updated (LFA.mk b₂ w₂ o₂) es (LFA.mk b₂ w₂' o₂') ∧
      Updated (LFA.mk (Stack.mk b₁ b₂) (w₁ ++ w₂) o) es (LFA.mk (Stack.mk b₁ b₂) (w₁' ++ w₂') o') := by
  induction es with
  | nil =>
    intro w₁ w₂ o₁ o₂ o h₁ h₂ h _
    exact ⟨w₁, w₂, o₁, o₂, o, h₁, h₂, h, .nil _, .nil _, .nil _⟩
  | cons e es ih =>
    intro w₁ w₂ o₁ o₂ o h₁ h₂ h hp
    obtain ⟨φ, ψ, p₁, f₁, p₂, f₂⟩ := hp e (by simp)
    obtain ⟨r, pr, fr, v₁, v₂⟩ := project_stack p₁ p₂ f₁ f₂
    obtain ⟨o₁', o₂', o', w₁', w₂', s₁, s₂, s, h', l₁, l₂⟩ :=
      hJ o₁ o₂ o φ ψ r w₁ w₂ e.2 h f₁ f₂ fr v₁ v₂ h₁ h₂
    obtain ⟨w₁'', w₂'', o₁'', o₂'', o'', l₁', l₂', h'', t₁, t₂, t⟩ :=
      ih w₁' w₂' o₁' o₂' o' l₁ l₂ h' fun e' he => hp e' (by simp [he])
    exact ⟨w₁'', w₂'', o₁'', o₂'', o'', l₁', l₂', h'', .cons (update_eq p₁ s₁) t₁,
      .cons (update_eq p₂ s₂) t₂, .cons (update_eq pr s) t⟩

theorem joint_sgd (n₁ n₂ : Nat) (lr : ℝ) :
    Joint n₁ n₂ fun o₁ o₂ o : SGD ℝ => o₁.lr = lr ∧ o₂.lr = lr ∧ o.lr = lr := by
  rintro o₁ o₂ o φ ψ r w₁ w₂ s ⟨e₁, e₂, e⟩ f₁ f₂ f v₁ v₂ l₁ l₂
  obtain ⟨w₁', s₁, l₁', q₁⟩ := sgd_real f₁ o₁ s l₁
  obtain ⟨w₂', s₂, l₂', q₂⟩ := sgd_real f₂ o₂ s l₂
  obtain ⟨w', s', l', q'⟩ := sgd_real f o s (w := w₁ ++ w₂) (by rw [List.length_append, l₁, l₂])
  have : w' = w₁' ++ w₂' := eq_append_of_entries l₁' l₂' l'
    (fun i hi => by
      rw [q' i (by omega), q₁ i hi, v₁ i hi, e, e₁, entry_append_left (l₁ ▸ hi)])
    (fun i hi => by
      rw [q' _ (by omega), q₂ i hi, v₂ i hi, e, e₂]
      subst l₁
      rw [entry_append_right])
  subst this
  exact ⟨o₁, o₂, o, w₁', w₂', s₁, s₂, s', ⟨e₁, e₂, e⟩, l₁', l₂'⟩

theorem joint_momentum (n₁ n₂ : Nat) (m lr : ℝ) :
    Joint n₁ n₂ fun o₁ o₂ o : SGDMomentum ℝ => ∃ v₁ v₂, v₁.length = n₁ ∧ v₂.length = n₂ ∧
      o₁ = ⟨m, lr, v₁⟩ ∧ o₂ = ⟨m, lr, v₂⟩ ∧ o = ⟨m, lr, v₁ ++ v₂⟩ := by
  rintro _ _ _ φ ψ r w₁ w₂ s ⟨u₁, u₂, m₁, m₂, rfl, rfl, rfl⟩ f₁ f₂ f v₁ v₂ l₁ l₂
  obtain ⟨u₁', w₁', s₁, m₁', l₁', q₁⟩ := momentum_real f₁ ⟨m, lr, u₁⟩ m₁ s l₁
  obtain ⟨u₂', w₂', s₂, m₂', l₂', q₂⟩ := momentum_real f₂ ⟨m, lr, u₂⟩ m₂ s l₂
  obtain ⟨u', w', s', m', l', q'⟩ := momentum_real f ⟨m, lr, u₁ ++ u₂⟩
    (by rw [List.length_append, m₁, m₂]) s (w := w₁ ++ w₂) (by rw [List.length_append, l₁, l₂])
  have hu : u' = u₁' ++ u₂' := eq_append_of_entries m₁' m₂' m'
    (fun i hi => by
      rw [(q' i (by omega)).1, (q₁ i hi).1, v₁ i hi, entry_append_left (m₁ ▸ hi)])
    (fun i hi => by
      rw [(q' _ (by omega)).1, (q₂ i hi).1, v₂ i hi]
      subst m₁
      rw [entry_append_right])
  have hw : w' = w₁' ++ w₂' := eq_append_of_entries l₁' l₂' l'
    (fun i hi => by
      rw [(q' i (by omega)).2, (q₁ i hi).2, hu, entry_append_left (l₁ ▸ hi),
        entry_append_left (m₁' ▸ hi)])
    (fun i hi => by
      rw [(q' _ (by omega)).2, (q₂ i hi).2, hu]
      conv_lhs => rw [← m₁', entry_append_right, m₁', ← l₁, entry_append_right])
  subst hu hw
  exact ⟨_, _, _, w₁', w₂', s₁, s₂, s', ⟨u₁', u₂', m₁', m₂', rfl, rfl, rfl⟩, l₁', l₂'⟩

theorem joint_nag (n₁ n₂ : Nat) (m lr : ℝ) :
    Joint n₁ n₂ fun o₁ o₂ o : NAG ℝ => ∃ v₁ v₂, v₁.length = n₁ ∧ v₂.length = n₂ ∧
      o₁ = ⟨m, lr, v₁⟩ ∧ o₂ = ⟨m, lr, v₂⟩ ∧ o = ⟨m, lr, v₁ ++ v₂⟩ := by
  rintro _ _ _ φ ψ r w₁ w₂ s ⟨u₁, u₂, m₁, m₂, rfl, rfl, rfl⟩ f₁ f₂ f v₁ v₂ l₁ l₂
  obtain ⟨u₁', w₁', s₁, m₁', l₁', q₁⟩ := nag_real f₁ ⟨m, lr, u₁⟩ m₁ s l₁
  obtain ⟨u₂', w₂', s₂, m₂', l₂', q₂⟩ := nag_real f₂ ⟨m, lr, u₂⟩ m₂ s l₂
  obtain ⟨u', w', s', m', l', q'⟩ := nag_real f ⟨m, lr, u₁ ++ u₂⟩
    (by rw [List.length_append, m₁, m₂]) s (w := w₁ ++ w₂) (by rw [List.length_append, l₁, l₂])
  have hu : u' = u₁' ++ u₂' := eq_append_of_entries m₁' m₂' m'
    (fun i hi => by
      rw [(q' i (by omega)).1, (q₁ i hi).1, v₁ i hi, entry_append_left (m₁ ▸ hi)])
    (fun i hi => by
      rw [(q' _ (by omega)).1, (q₂ i hi).1, v₂ i hi]
      subst m₁
      rw [entry_append_right])
  have hw : w' = w₁' ++ w₂' := eq_append_of_entries l₁' l₂' l'
    (fun i hi => by
      rw [(q' i (by omega)).2, (q₁ i hi).2, hu, entry_append_left (l₁ ▸ hi),
        entry_append_left (m₁' ▸ hi), v₁ i hi])
    (fun i hi => by
      rw [(q' _ (by omega)).2, (q₂ i hi).2, hu, v₂ i hi]
      conv_lhs => rw [← m₁', entry_append_right, m₁', ← l₁, entry_append_right])
  subst hu hw
  exact ⟨_, _, _, w₁', w₂', s₁, s₂, s', ⟨u₁', u₂', m₁', m₂', rfl, rfl, rfl⟩, l₁', l₂'⟩

theorem joint_adagrad (n₁ n₂ : Nat) (lr : ℝ) :
    Joint n₁ n₂ fun o₁ o₂ o : Adagrad ℝ => ∃ v₁ v₂, v₁.length = n₁ ∧ v₂.length = n₂ ∧
      o₁ = ⟨lr, v₁⟩ ∧ o₂ = ⟨lr, v₂⟩ ∧ o = ⟨lr, v₁ ++ v₂⟩ := by
  rintro _ _ _ φ ψ r w₁ w₂ s ⟨u₁, u₂, m₁, m₂, rfl, rfl, rfl⟩ f₁ f₂ f v₁ v₂ l₁ l₂
  obtain ⟨u₁', w₁', s₁, m₁', l₁', q₁⟩ := adagrad_real f₁ ⟨lr, u₁⟩ m₁ s l₁
  obtain ⟨u₂', w₂', s₂, m₂', l₂', q₂⟩ := adagrad_real f₂ ⟨lr, u₂⟩ m₂ s l₂
  obtain ⟨u', w', s', m', l', q'⟩ := adagrad_real f ⟨lr, u₁ ++ u₂⟩
    (by rw [List.length_append, m₁, m₂]) s (w := w₁ ++ w₂) (by rw [List.length_append, l₁, l₂])
  have hu : u' = u₁' ++ u₂' := eq_append_of_entries m₁' m₂' m'
    (fun i hi => by
      rw [(q' i (by omega)).1, (q₁ i hi).1, v₁ i hi, entry_append_left (m₁ ▸ hi)])
    (fun i hi => by
      rw [(q' _ (by omega)).1, (q₂ i hi).1, v₂ i hi]
      subst m₁
      rw [entry_append_right])
  have hw : w' = w₁' ++ w₂' := eq_append_of_entries l₁' l₂' l'
    (fun i hi => by
      rw [(q' i (by omega)).2, (q₁ i hi).2, hu, entry_append_left (l₁ ▸ hi),
        entry_append_left (m₁' ▸ hi), v₁ i hi])
    (fun i hi => by
      rw [(q' _ (by omega)).2, (q₂ i hi).2, hu, v₂ i hi]
      conv_lhs => rw [← m₁', entry_append_right, m₁', ← l₁, entry_append_right])
  subst hu hw
  exact ⟨_, _, _, w₁', w₂', s₁, s₂, s', ⟨u₁', u₂', m₁', m₂', rfl, rfl, rfl⟩, l₁', l₂'⟩

/-- The inputs and errors of a training run: both bases project every input to features that fit. -/
def Usable (b₁ : B₁) (b₂ : B₂) (n₁ n₂ : Nat) (es : List (I × ℝ)) : Prop :=
  ∀ e ∈ es, ∃ φ ψ, Basis.project b₁ e.1 = .ok (.ok φ) ∧ Fits n₁ φ ∧
    Basis.project b₂ e.1 = .ok (.ok ψ) ∧ Fits n₂ ψ

/-- Training over a stack by SGD is training the two parts side by side with the same errors. -/
theorem C124_sgd (b₁ : B₁) (b₂ : B₂) (es : List (I × ℝ)) (lr : ℝ) (w₁ w₂ : List ℝ)
    (hu : Usable b₁ b₂ w₁.length w₂.length es) :
    ∃ w₁' w₂', w₁'.length = w₁.length ∧ w₂'.length = w₂.length ∧
      Updated (LFA.mk b₁ w₁ (SGD.mk lr)) es (LFA.mk b₁ w₁' (SGD.mk lr)) ∧
      Updated (LFA.mk b₂ w₂ (SGD.mk lr)) es (LFA.mk b₂ w₂' (SGD.mk lr)) ∧
      Updated (LFA.mk (Stack.mk b₁ b₂) (w₁ ++ w₂) (SGD.mk lr)) es
        (LFA.mk (Stack.mk b₁ b₂) (w₁' ++ w₂') (SGD.mk lr)) := by
  obtain ⟨w₁', w₂', ⟨_⟩, ⟨_⟩, ⟨_⟩, l₁, l₂, ⟨e₁, e₂, e⟩, t₁, t₂, t⟩ :=
    joint_training (joint_sgd _ _ lr) b₁ b₂ es w₁ w₂ ⟨lr⟩ ⟨lr⟩ ⟨lr⟩ rfl rfl ⟨rfl, rfl, rfl⟩ hu
  dsimp only at e₁ e₂ e
  subst e₁ e₂
  rw [e] at t
  exact ⟨w₁', w₂', l₁, l₂, t₁, t₂, t⟩

/-- The same for momentum; the velocity of the stack is that of the two parts. -/
theorem C124_momentum (b₁ : B₁) (b₂ : B₂) (es : List (I × ℝ)) (m lr : ℝ) (w₁ w₂ v₁ v₂ : List ℝ)
    (h₁ : v₁.length = w₁.length) (h₂ : v₂.length = w₂.length)
    (hu : Usable b₁ b₂ w₁.length w₂.length es) :
    ∃ w₁' w₂' v₁' v₂', w₁'.length = w₁.length ∧ w₂'.length = w₂.length ∧
      Updated (LFA.mk b₁ w₁ (SGDMomentum.mk m lr v₁)) es (LFA.mk b₁ w₁' (SGDMomentum.mk m lr v₁')) ∧
      Updated (LFA.mk b₂ w₂ (SGDMomentum.mk m lr v₂)) es (LFA.mk b₂ w₂' (SGDMomentum.mk m lr v₂')) ∧
      Updated (LFA.mk (Stack.mk b₁ b₂) (w₁ ++ w₂) (SGDMomentum.mk m lr (v₁ ++ v₂))) es
        (LFA.mk (Stack.mk b₁ b₂) (w₁' ++ w₂') (SGDMomentum.mk m lr (v₁' ++ v₂'))) := by
  obtain ⟨w₁', w₂', _, _, _, l₁, l₂, ⟨v₁', v₂', -, -, rfl, rfl, rfl⟩, t₁, t₂, t⟩ :=
    joint_training (joint_momentum _ _ m lr) b₁ b₂ es w₁ w₂ _ _ _ rfl rfl
      ⟨v₁, v₂, h₁, h₂, rfl, rfl, rfl⟩ hu
  exact ⟨w₁', w₂', v₁', v₂', l₁, l₂, t₁, t₂, t⟩

/-- The same for NAG. -/
theorem C124_nag (b₁ : B₁) (b₂ : B₂) (es : List (I × ℝ)) (m lr : ℝ) (w₁ w₂ v₁ v₂ : List ℝ)
    (h₁ : v₁.length = w₁.length) (h₂ : v₂.length = w₂.length)
    (hu : Usable b₁ b₂ w₁.length w₂.length es) :
    ∃ w₁' w₂' v₁' v₂', w₁'.length = w₁.length ∧ w₂'.length = w₂.length ∧
      Updated (LFA.mk b₁ w₁ (NAG.mk m lr v₁)) es (LFA.mk b₁ w₁' (NAG.mk m lr v₁')) ∧
      Updated (LFA.mk b₂ w₂ (NAG.mk m lr v₂)) es (LFA.mk b₂ w₂' (NAG.mk m lr v₂')) ∧
      Updated (LFA.mk (Stack.mk b₁ b₂) (w₁ ++ w₂) (NAG.mk m lr (v₁ ++ v₂))) es
        (LFA.mk (Stack.mk b₁ b₂) (w₁' ++ w₂') (NAG.mk m lr (v₁' ++ v₂'))) := by
  obtain ⟨w₁', w₂', _, _, _, l₁, l₂, ⟨v₁', v₂', -, -, rfl, rfl, rfl⟩, t₁, t₂, t⟩ :=
    joint_training (joint_nag _ _ m lr) b₁ b₂ es w₁ w₂ _ _ _ rfl rfl
      ⟨v₁, v₂, h₁, h₂, rfl, rfl, rfl⟩ hu
  exact ⟨w₁', w₂', v₁', v₂', l₁, l₂, t₁, t₂, t⟩

/-- The same for Adagrad; the accumulator of the stack is that of the two parts. -/
theorem C124_adagrad (b₁ : B₁) (b₂ : B₂) (es : List (I × ℝ)) (lr : ℝ) (w₁ w₂ v₁ v₂ : List ℝ)
    (h₁ : v₁.length = w₁.length) (h₂ : v₂.length = w₂.length)
    (hu : Usable b₁ b₂ w₁.length w₂.length es) :
    ∃ w₁' w₂' v₁' v₂', w₁'.length = w₁.length ∧ w₂'.length = w₂.length ∧
      Updated (LFA.mk b₁ w₁ (Adagrad.mk lr v₁)) es (LFA.mk b₁ w₁' (Adagrad.mk lr v₁')) ∧
      Updated (LFA.mk b₂ w₂ (Adagrad.mk lr v₂)) es (LFA.mk b₂ w₂' (Adagrad.mk lr v₂')) ∧
      Updated (LFA.mk (Stack.mk b₁ b₂) (w₁ ++ w₂) (Adagrad.mk lr (v₁ ++ v₂))) es
        (LFA.mk (Stack.mk b₁ b₂) (w₁' ++ w₂') (Adagrad.mk lr (v₁' ++ v₂'))) := by
  obtain ⟨w₁', w₂', _, _, _, l₁, l₂, ⟨v₁', v₂', -, -, rfl, rfl, rfl⟩, t₁, t₂, t⟩ :=
    joint_training (joint_adagrad _ _ lr) b₁ b₂ es w₁ w₂ _ _ _ rfl rfl
      ⟨v₁, v₂, h₁, h₂, rfl, rfl, rfl⟩ hu
  exact ⟨w₁', w₂', v₁', v₂', l₁, l₂, t₁, t₂, t⟩

/-- ISGD couples the parts: over a stack each part moves as by SGD with the rate that the norm of the
*whole* feature vector gives. -/
theorem C124_isgd (b₁ : B₁) (b₂ : B₂) (x : I) (e lr : ℝ) (φ ψ : Features ℝ)
    (h₁ : Basis.project b₁ x = .ok (.ok φ)) (h₂ : Basis.project b₂ x = .ok (.ok ψ))
    (f₁ : WF φ) (f₂ : WF ψ) (w₁ w₂ : List ℝ) (l₁ : w₁.length = dim φ) (l₂ : w₂.length = dim ψ) :
    ∃ w₁' w₂', w₁'.length = w₁.length ∧ w₂'.length = w₂.length ∧
      ScalarLFA.update (LFA.mk (Stack.mk b₁ b₂) (w₁ ++ w₂) (ISGD.mk lr)) x e =
        .ok (.ok (), LFA.mk (Stack.mk b₁ b₂) (w₁' ++ w₂') (ISGD.mk lr)) ∧
      ScalarLFA.update (LFA.mk b₁ w₁ (SGD.mk (lr / (1 + lr * (normSq φ + normSq ψ))))) x e =
        .ok (.ok (), LFA.mk b₁ w₁' (SGD.mk (lr / (1 + lr * (normSq φ + normSq ψ))))) ∧
      ScalarLFA.update (LFA.mk b₂ w₂ (SGD.mk (lr / (1 + lr * (normSq φ + normSq ψ))))) x e =
        .ok (.ok (), LFA.mk b₂ w₂' (SGD.mk (lr / (1 + lr * (normSq φ + normSq ψ))))) := by
  obtain ⟨r, hr, fr, v₁, v₂⟩ := project_stack h₁ h₂ ⟨f₁, rfl⟩ ⟨f₂, rfl⟩
  have hn : normSq r = normSq φ + normSq ψ := by
    unfold normSq
    rw [fr.2, Finset.sum_range_add]
    congr 1
    · exact Finset.sum_congr rfl fun i hi => by rw [v₁ i (Finset.mem_range.1 hi)]
    · exact Finset.sum_congr rfl fun i hi => by rw [v₂ i (Finset.mem_range.1 hi)]
  obtain ⟨w₁', s₁, l₁', q₁⟩ := sgd_real ⟨f₁, rfl⟩ ⟨lr / (1 + lr * (normSq φ + normSq ψ))⟩ e l₁
  obtain ⟨w₂', s₂, l₂', q₂⟩ := sgd_real ⟨f₂, rfl⟩ ⟨lr / (1 + lr * (normSq φ + normSq ψ))⟩ e l₂
  obtain ⟨w', s', l', q'⟩ := isgd_real fr ⟨lr⟩ e (w := w₁ ++ w₂)
    (by rw [List.length_append, l₁, l₂])
  rw [hn] at q'
  have : w' = w₁' ++ w₂' := eq_append_of_entries l₁' l₂' l'
    (fun i hi => by rw [q' i (by omega), q₁ i hi, v₁ i hi, entry_append_left (l₁ ▸ hi)])
    (fun i hi => by
      rw [q' _ (by omega), q₂ i hi, v₂ i hi]
      conv_lhs => rw [← l₁, entry_append_right])
  subst this
  exact ⟨w₁', w₂', l₁'.trans l₁.symm, l₂'.trans l₂.symm, update_eq hr s', update_eq h₁ s₁,
    update_eq h₂ s₂⟩

/-- A polynomial basis with a bias meets the hypotheses, on any inputs of one coordinate. -/
example (es : List (List ℝ × ℝ)) :
    Usable (Polynomial.new 1 2) (Bias.unit (K := ℝ)) 2 1 es := by
  intro e _
  refine ⟨_, _, rfl, ⟨trivial, ?_⟩, rfl, ⟨trivial, rfl⟩⟩
  exact (List.length_map _).trans (by decide)

end Lfa

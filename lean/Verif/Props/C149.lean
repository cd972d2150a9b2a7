import Verif.Props.C124
import Verif.Proofs.LinearStep
import Mathlib.Logic.Equiv.Fin.Basic

/-!
# C149: the numbering of the features does not matter

Exact arithmetic, all seven optimisers. `Stream` is an endless run of `update_with(x, |_, p| y - p)`.
-/

set_option linter.unusedSectionVars false

namespace Lfa

open Spec

variable {n n' : Nat}

/-- Entry `σ i` of `w'` is entry `i` of `w`. -/
def Moved (σ : Fin n ≃ Fin n') (w w' : List ℝ) : Prop := ∀ i, entry w' (σ i) = entry w i

/-- Feature `σ i` of `φ'` is feature `i` of `φ`. -/
structure MovedFeatures (σ : Fin n ≃ Fin n') (φ φ' : Features ℝ) : Prop where
  fits : Fits n φ
  fits' : Fits n' φ'
  value : ∀ i, value φ' (σ i) = value φ i
  active : ∀ i, Active φ' (σ i) ↔ Active φ i

theorem moved_inner {σ : Fin n ≃ Fin n'} {φ φ' : Features ℝ} (h : MovedFeatures σ φ φ') {w w' : List ℝ}
    (hw : Moved σ w w') : Spec.inner φ' w' = Spec.inner φ w := by
  rw [inner_eq, inner_eq, h.fits.2, h.fits'.2, Finset.sum_range, Finset.sum_range, ← σ.sum_comp]
  exact Finset.sum_congr rfl fun i _ => by rw [h.value i, hw i]

theorem moved_normSq {σ : Fin n ≃ Fin n'} {φ φ' : Features ℝ} (h : MovedFeatures σ φ φ') :
    normSq φ' = normSq φ := by
  rw [normSq, normSq, h.fits.2, h.fits'.2, Finset.sum_range, Finset.sum_range, ← σ.sum_comp]
  exact Finset.sum_congr rfl fun i _ => by rw [h.value i]

/-- Optimisers that treat all features alike. `rel σ o o'`: `o'` is `o` with its state renumbered. -/
class Symmetric (O : Type) [Optimiser O ℝ] [HasSize O] where
  rel : {n n' : Nat} → (Fin n ≃ Fin n') → O → O → Prop
  step : ∀ {n n' : Nat} {σ : Fin n ≃ Fin n'} {o o' : O} {w w' : List ℝ} {φ φ' : Features ℝ} (s : ℝ),
    HasSize.sized n o → HasSize.sized n' o' → rel σ o o' → w.length = n → w'.length = n' → Moved σ w w' →
    MovedFeatures σ φ φ' → ∃ o₁ w₁ o₁' w₁', Optimiser.stepScaled o w φ s = .ok (.ok (), o₁, w₁) ∧
      Optimiser.stepScaled o' w' φ' s = .ok (.ok (), o₁', w₁') ∧ HasSize.sized n o₁ ∧ HasSize.sized n' o₁' ∧
      rel σ o₁ o₁' ∧ w₁.length = n ∧ w₁'.length = n' ∧ Moved σ w₁ w₁'

instance : Symmetric (SGD ℝ) where
  rel _ o o' := o' = o
  step := by
    rintro n n' σ _ o w w' φ φ' s ho ho' rfl hw hw' h hφ
    obtain ⟨w₁, e1, e2, e3⟩ := sgd_real hφ.fits o s hw
    obtain ⟨w₁', f1, f2, f3⟩ := sgd_real hφ.fits' o s hw'
    refine ⟨_, _, _, _, e1, f1, trivial, trivial, rfl, e2, f2, fun i => ?_⟩
    rw [e3 i i.2, f3 (σ i) (σ i).2, hφ.value, h]

instance : Symmetric (ISGD ℝ) where
  rel _ o o' := o' = o
  step := by
    rintro n n' σ _ o w w' φ φ' s ho ho' rfl hw hw' h hφ
    obtain ⟨w₁, e1, e2, e3⟩ := isgd_real hφ.fits o s hw
    obtain ⟨w₁', f1, f2, f3⟩ := isgd_real hφ.fits' o s hw'
    refine ⟨_, _, _, _, e1, f1, trivial, trivial, rfl, e2, f2, fun i => ?_⟩
    rw [e3 i i.2, f3 (σ i) (σ i).2, hφ.value, h, moved_normSq hφ]

instance : Symmetric (SGDMomentum ℝ) where
  rel σ o o' := o'.momentum = o.momentum ∧ o'.learningRate = o.learningRate ∧ Moved σ o.velocity o'.velocity
  step := by
    rintro n n' σ o o' w w' φ φ' s ho ho' ⟨r1, r2, r3⟩ hw hw' h hφ
    obtain ⟨v₁, w₁, e1, e2, e3, e4⟩ := momentum_real hφ.fits o ho s hw
    obtain ⟨v₁', w₁', f1, f2, f3, f4⟩ := momentum_real hφ.fits' o' ho' s hw'
    have hv : Moved σ v₁ v₁' := fun i => by
      rw [(e4 i i.2).1, (f4 (σ i) (σ i).2).1, hφ.value, r3 i, r1]
    refine ⟨_, _, _, _, e1, f1, e2, f2, ⟨r1, r2, hv⟩, e3, f3, fun i => ?_⟩
    rw [(e4 i i.2).2, (f4 (σ i) (σ i).2).2, hv i, h i, r2]

instance : Symmetric (NAG ℝ) where
  rel σ o o' := o'.momentum = o.momentum ∧ o'.learningRate = o.learningRate ∧ Moved σ o.velocity o'.velocity
  step := by
    rintro n n' σ o o' w w' φ φ' s ho ho' ⟨r1, r2, r3⟩ hw hw' h hφ
    obtain ⟨v₁, w₁, e1, e2, e3, e4⟩ := nag_real hφ.fits o ho s hw
    obtain ⟨v₁', w₁', f1, f2, f3, f4⟩ := nag_real hφ.fits' o' ho' s hw'
    have hv : Moved σ v₁ v₁' := fun i => by
      rw [(e4 i i.2).1, (f4 (σ i) (σ i).2).1, hφ.value, r3 i, r1]
    refine ⟨_, _, _, _, e1, f1, e2, f2, ⟨r1, r2, hv⟩, e3, f3, fun i => ?_⟩
    rw [(e4 i i.2).2, (f4 (σ i) (σ i).2).2, hv i, h i, r1, r2, hφ.value]

instance : Symmetric (Adagrad ℝ) where
  rel σ o o' := o'.learningRate = o.learningRate ∧ Moved σ o.accumulator o'.accumulator
  step := by
    rintro n n' σ o o' w w' φ φ' s ho ho' ⟨r1, r2⟩ hw hw' h hφ
    obtain ⟨a₁, w₁, e1, e2, e3, e4⟩ := adagrad_real hφ.fits o ho s hw
    obtain ⟨a₁', w₁', f1, f2, f3, f4⟩ := adagrad_real hφ.fits' o' ho' s hw'
    have ha : Moved σ a₁ a₁' := fun i => by
      rw [(e4 i i.2).1, (f4 (σ i) (σ i).2).1, hφ.value, r2 i]
    refine ⟨_, _, _, _, e1, f1, e2, f2, ⟨r1, ha⟩, e3, f3, fun i => ?_⟩
    rw [(e4 i i.2).2, (f4 (σ i) (σ i).2).2, ha i, h i, r1, hφ.value]

instance : Symmetric (Adam ℝ) where
  rel σ o o' := (o'.beta1 = o.beta1 ∧ o'.beta1Prod = o.beta1Prod ∧ o'.beta2 = o.beta2 ∧ o'.beta2Prod = o.beta2Prod ∧
    o'.learningRate = o.learningRate) ∧ Moved σ o.expAvg o'.expAvg ∧ Moved σ o.expAvgSq o'.expAvgSq
  step := by
    rintro n n' σ o o' w w' φ φ' s ho ho' ⟨⟨p1, p2, p3, p4, p5⟩, r1, r2⟩ hw hw' h hφ
    obtain ⟨m₁, v₁, w₁, e1, e2, e3, e4, e5⟩ := adam_real hφ.fits o ho.1 ho.2 s hw
    obtain ⟨m₁', v₁', w₁', f1, f2, f3, f4, f5⟩ := adam_real hφ.fits' o' ho'.1 ho'.2 s hw'
    have hm : Moved σ m₁ m₁' := fun i => by
      rw [(e5 i i.2).1, (f5 (σ i) (σ i).2).1, hφ.value, r1 i, p1]
    have hv : Moved σ v₁ v₁' := fun i => by
      rw [(e5 i i.2).2.1, (f5 (σ i) (σ i).2).2.1, hφ.value, r2 i, p3]
    refine ⟨_, _, _, _, e1, f1, ⟨e2, e3⟩, ⟨f2, f3⟩, ⟨⟨p1, ?_, p3, ?_, p5⟩, hm, hv⟩, e4, f4, fun i => ?_⟩
    · simp only [p1, p2]
    · simp only [p3, p4]
    · by_cases ha : Active φ i
      · rw [(e5 i i.2).2.2.1 ha, (f5 (σ i) (σ i).2).2.2.1 ((hφ.active i).2 ha), hm i, hv i, h i, p1, p2, p3, p4, p5]
      · rw [(e5 i i.2).2.2.2 ha, (f5 (σ i) (σ i).2).2.2.2 fun hc => ha ((hφ.active i).1 hc), h i]

instance : Symmetric (AdaMax ℝ) where
  rel σ o o' := (o'.beta1 = o.beta1 ∧ o'.beta1Prod = o.beta1Prod ∧ o'.beta2 = o.beta2 ∧
    o'.learningRate = o.learningRate) ∧ Moved σ o.expAvg o'.expAvg ∧ Moved σ o.expInf o'.expInf
  step := by
    rintro n n' σ o o' w w' φ φ' s ho ho' ⟨⟨p1, p2, p3, p4⟩, r1, r2⟩ hw hw' h hφ
    obtain ⟨m₁, u₁, w₁, e1, e2, e3, e4, e5⟩ := adamax_real hφ.fits o ho.1 ho.2 s hw
    obtain ⟨m₁', u₁', w₁', f1, f2, f3, f4, f5⟩ := adamax_real hφ.fits' o' ho'.1 ho'.2 s hw'
    have hm : Moved σ m₁ m₁' := fun i => by
      rw [(e5 i i.2).1, (f5 (σ i) (σ i).2).1, hφ.value, r1 i, p1]
    have hu : Moved σ u₁ u₁' := fun i => by
      by_cases ha : Active φ i
      · rw [((e5 i i.2).2.1 ha).1, ((f5 (σ i) (σ i).2).2.1 ((hφ.active i).2 ha)).1, hφ.value, r2 i, p3]
      · rw [((e5 i i.2).2.2 ha).1, ((f5 (σ i) (σ i).2).2.2 fun hc => ha ((hφ.active i).1 hc)).1, r2 i, p3]
    refine ⟨_, _, _, _, e1, f1, ⟨e2, e3⟩, ⟨f2, f3⟩, ⟨⟨p1, ?_, p3, p4⟩, hm, hu⟩, e4, f4, fun i => ?_⟩
    · simp only [p1, p2]
    · by_cases ha : Active φ i
      · rw [((e5 i i.2).2.1 ha).2, ((f5 (σ i) (σ i).2).2.1 ((hφ.active i).2 ha)).2, hm i, hu i, h i, p1, p2, p4]
      · rw [((e5 i i.2).2.2 ha).2, ((f5 (σ i) (σ i).2).2.2 fun hc => ha ((hφ.active i).1 hc)).2, h i]

/-- Training over a basis and over the same basis with its features renumbered, from weights renumbered alike: the
predictions agree for ever, and so do the weights up to the numbering. `o n` is a fresh optimiser for `n` weights. -/
def Equivariant {O : Type} [Optimiser O ℝ] (o : Nat → O) : Prop :=
  ∀ (B B' I : Type) [Space B] [Basis B I ℝ] [Space B'] [Basis B' I ℝ] (n n' : Nat) (σ : Fin n ≃ Fin n') (b : B) (b' : B')
    (X : I → Prop) (_ : ∀ x, X x → ∃ φ φ', Basis.project b x = .ok (.ok φ) ∧ Basis.project b' x = .ok (.ok φ') ∧
      MovedFeatures σ φ φ') (xs : Nat → I) (_ : ∀ k, X (xs k)) (ys ps ps' : Nat → ℝ) (fas : Nat → ScalarLFA B O ℝ)
    (fas' : Nat → ScalarLFA B' O ℝ) (w w' : List ℝ) (_ : w.length = n) (_ : w'.length = n') (_ : Moved σ w w')
    (_ : Stream fas xs ys ps) (_ : Stream fas' xs ys ps') (_ : fas 0 = LFA.mk b w (o n))
    (_ : fas' 0 = LFA.mk b' w' (o n')) (k : Nat),
    ps' k = ps k ∧ Moved σ (fas k).weights (fas' k).weights ∧
      ∀ x, X x → ∃ q, (fas k).evaluate x = .ok (.ok q) ∧ (fas' k).evaluate x = .ok (.ok q)

theorem symmetric_equivariant {O : Type} [Optimiser O ℝ] [HasSize O] [Symmetric O] {o : Nat → O}
    (ho : ∀ n, HasSize.sized n (o n)) (hr : ∀ {n n' : Nat} (σ : Fin n ≃ Fin n'), Symmetric.rel σ (o n) (o n')) :
    Equivariant o := by
  intro B B' I _ _ _ _ n n' σ b b' X hX xs hxs ys ps ps' fas fas' w w' hw hw' hm s s' h0 h0' k
  have key : ∀ k, (fas k).basis = b ∧ (fas' k).basis = b' ∧ HasSize.sized n (fas k).optimiser ∧
      HasSize.sized n' (fas' k).optimiser ∧ Symmetric.rel σ (fas k).optimiser (fas' k).optimiser ∧
      (fas k).weights.length = n ∧ (fas' k).weights.length = n' ∧ Moved σ (fas k).weights (fas' k).weights := by
    intro k
    induction k with
    | zero => rw [h0, h0']; exact ⟨rfl, rfl, ho n, ho n', hr σ, hw, hw', hm⟩
    | succ k ih =>
      obtain ⟨i1, i2, i3, i4, i5, i6, i7, i8⟩ := ih
      obtain ⟨φ, φ', hp, hp', hφ⟩ := hX (xs k) (hxs k)
      obtain ⟨o₁, w₁, o₁', w₁', e1, e2, e3, e4, e5, e6, e7, e8⟩ := Symmetric.step
        (ys k -. Spec.inner φ (fas k).weights) i3 i4 i5 i6 i7 i8 hφ
      have u := updateWith_eq (fa := fas k) (by rw [i1]; exact hp) (dot_real hφ.fits.1 (hφ.fits.2.trans i6.symm))
        (fun _ v => ys k -. v) e1
      have u' := updateWith_eq (fa := fas' k) (by rw [i2]; exact hp') (dot_real hφ.fits'.1 (hφ.fits'.2.trans i7.symm))
        (fun _ v => ys k -. v) (by rw [moved_inner hφ i8]; exact e2)
      have g := (s.updates k).symm.trans u
      have g' := (s'.updates k).symm.trans u'
      simp only [Except.ok.injEq, Prod.mk.injEq, true_and] at g g'
      rw [g, g']
      exact ⟨i1, i2, e3, e4, e5, e6, e7, e8⟩
  obtain ⟨i1, i2, i3, i4, i5, i6, i7, i8⟩ := key k
  have ev : ∀ x, X x → ∃ q, (fas k).evaluate x = .ok (.ok q) ∧ (fas' k).evaluate x = .ok (.ok q) := by
    intro x hx
    obtain ⟨φ, φ', hp, hp', hφ⟩ := hX x hx
    refine ⟨_, evaluate_eq (by rw [i1]; exact hp) (dot_real hφ.fits.1 (hφ.fits.2.trans i6.symm)), ?_⟩
    rw [← moved_inner hφ i8]
    exact evaluate_eq (by rw [i2]; exact hp') (dot_real hφ.fits'.1 (hφ.fits'.2.trans i7.symm))
  refine ⟨?_, i8, ev⟩
  obtain ⟨q, q1, q2⟩ := ev (xs k) (hxs k)
  have a1 := (s.predicts k).symm.trans q1
  have a2 := (s'.predicts k).symm.trans q2
  simp only [Except.ok.injEq] at a1 a2
  rw [a1, a2]

theorem moved_zeros (σ : Fin n ≃ Fin n') :
    Moved σ (List.replicate n (Scalar.zero : ℝ)) (List.replicate n' (Scalar.zero : ℝ)) := by
  intro i
  unfold entry
  rw [List.getD_eq_getElem _ _ (by simp), List.getD_eq_getElem _ _ (by simp), List.getElem_replicate,
    List.getElem_replicate]

/-- Renumbering the features renumbers the weights and changes no prediction, with every optimiser. -/
theorem C149_renumbering (lr m β₁ β₂ : ℝ) :
    Equivariant (fun _ => SGD.mk lr) ∧ Equivariant (fun _ => ISGD.mk lr) ∧
    Equivariant (fun n => SGDMomentum.new n m lr) ∧ Equivariant (fun n => NAG.new n m lr) ∧
    Equivariant (fun n => Adagrad.new n lr) ∧ Equivariant (fun n => Adam.new n lr β₁ β₂) ∧
    Equivariant (fun n => AdaMax.new n lr β₁ β₂) := by
  refine ⟨?_, ?_, ?_, ?_, ?_, ?_, ?_⟩
  · exact symmetric_equivariant (O := SGD ℝ) (fun _ => trivial) fun _ => rfl
  · exact symmetric_equivariant (O := ISGD ℝ) (fun _ => trivial) fun _ => rfl
  · exact symmetric_equivariant (O := SGDMomentum ℝ) (fun _ => List.length_replicate ..)
      fun σ => ⟨rfl, rfl, moved_zeros σ⟩
  · exact symmetric_equivariant (O := NAG ℝ) (fun _ => List.length_replicate ..) fun σ => ⟨rfl, rfl, moved_zeros σ⟩
  · exact symmetric_equivariant (O := Adagrad ℝ) (fun _ => List.length_replicate ..) fun σ => ⟨rfl, moved_zeros σ⟩
  · exact symmetric_equivariant (O := Adam ℝ) (fun _ => ⟨List.length_replicate .., List.length_replicate ..⟩)
      fun σ => ⟨⟨rfl, rfl, rfl, rfl, rfl⟩, moved_zeros σ, moved_zeros σ⟩
  · exact symmetric_equivariant (O := AdaMax ℝ) (fun _ => ⟨List.length_replicate .., List.length_replicate ..⟩)
      fun σ => ⟨⟨rfl, rfl, rfl, rfl⟩, moved_zeros σ, moved_zeros σ⟩

/-! ## Stacking in the other order -/

theorem stack_active {φ ψ r : Features ℝ} (h₁ : WF φ) (h₂ : WF ψ) (h : φ.stack ψ = .ok r) :
    (∀ i, i < dim φ → (Active r i ↔ Active φ i ∨ (φ.isSparse && ψ.isSparse) = false)) ∧
    (∀ i, i < dim ψ → (Active r (dim φ + i) ↔ Active ψ i ∨ (φ.isSparse && ψ.isSparse) = false)) := by
  by_cases hs : φ.isSparse = true ∧ ψ.isSparse = true
  · cases φ with
    | dense da => cases hs.1
    | sparse sa₁ =>
      cases ψ with
      | dense da => cases hs.2
      | sparse sa₂ =>
        rw [stack_sparse h₁ h₂] at h
        cases h
        have hm : ∀ k a, (k, a) ∈ shift sa₁.dim sa₂.activations ↔
            ∃ j, k = j + sa₁.dim ∧ (j, a) ∈ sa₂.activations := by
          intro k a
          constructor
          · intro h
            obtain ⟨e, he, h⟩ := List.mem_map.1 h
            cases h
            exact ⟨e.1, rfl, he⟩
          · rintro ⟨j, rfl, h⟩
            exact List.mem_map.2 ⟨(j, a), h, rfl⟩
        refine ⟨fun i hi => ?_, fun i hi => ?_⟩
        · constructor
          · rintro ⟨a, ha⟩
            rcases List.mem_append.1 ha with h | h
            · exact .inl ⟨a, h⟩
            · obtain ⟨j, hj, -⟩ := (hm i a).1 h
              have : i < sa₁.dim := hi
              omega
          · rintro (⟨a, ha⟩ | h)
            · exact ⟨a, List.mem_append_left _ ha⟩
            · cases h
        · constructor
          · rintro ⟨a, ha⟩
            rcases List.mem_append.1 ha with h | h
            · have h' := h₁.2 _ h
              have h' : sa₁.dim + i < sa₁.dim := h'
              omega
            · obtain ⟨j, hj, hj'⟩ := (hm _ a).1 h
              have hj : sa₁.dim + i = j + sa₁.dim := hj
              have : j = i := by omega
              subst this
              exact .inl ⟨a, hj'⟩
          · rintro (⟨a, ha⟩ | h)
            · exact ⟨a, List.mem_append_right _ ((hm _ a).2 ⟨i, Nat.add_comm _ _, ha⟩)⟩
            · cases h
  · have hf : (φ.isSparse && ψ.isSparse) = false := by
      cases h1 : φ.isSparse <;> cases h2 : ψ.isSparse <;> simp_all
    rw [stack_dense_of_not_sparse h₁ h₂ hs] at h
    cases h
    have hl : ∀ i, i < dim φ + dim ψ → Active (.dense (view φ ++ view ψ)) i := fun i hi =>
      ⟨_, List.getElem?_eq_getElem (by simpa using hi)⟩
    exact ⟨fun i hi => ⟨fun _ => .inr hf, fun _ => hl i (by omega)⟩,
      fun i hi => ⟨fun _ => .inr hf, fun _ => hl _ (by omega)⟩⟩

/-- The two stacks of two bases have the same features in another order. -/
theorem stack_moved {B₁ B₂ I : Type} [Space B₁] [Space B₂] [Basis B₁ I ℝ] [Basis B₂ I ℝ] {b₁ : B₁} {b₂ : B₂} {x : I}
    {φ ψ : Features ℝ} {n₁ n₂ : Nat} (h₁ : Basis.project b₁ x = .ok (.ok φ)) (h₂ : Basis.project b₂ x = .ok (.ok ψ))
    (f₁ : Fits n₁ φ) (f₂ : Fits n₂ ψ) :
    ∃ r r', Basis.project (Stack.mk b₁ b₂) x = .ok (.ok r) ∧ Basis.project (Stack.mk b₂ b₁) x = .ok (.ok r') ∧
      MovedFeatures (finAddFlip : Fin (n₁ + n₂) ≃ Fin (n₂ + n₁)) r r' := by
  obtain ⟨r, hr, fr, v1, v2⟩ := project_stack h₁ h₂ f₁ f₂
  obtain ⟨r', hr', fr', v1', v2'⟩ := project_stack h₂ h₁ f₂ f₁
  obtain ⟨φ₀, ψ₀, g1, g2, hs⟩ := C21_stack_ok_only_if _ _ _ _ hr
  rw [h₁] at g1; rw [h₂] at g2; cases g1; cases g2
  obtain ⟨φ₀, ψ₀, g1, g2, hs'⟩ := C21_stack_ok_only_if _ _ _ _ hr'
  rw [h₂] at g1; rw [h₁] at g2; cases g1; cases g2
  have a := stack_active f₁.1 f₂.1 hs
  have a' := stack_active f₂.1 f₁.1 hs'
  rw [f₁.2, f₂.2] at a a'
  refine ⟨r, r', hr, hr', fr, fr', fun i => ?_, fun i => ?_⟩
  · refine Fin.addCases (fun j => ?_) (fun j => ?_) i
    · rw [finAddFlip_apply_castAdd]
      exact (v2' j j.2).trans (v1 j j.2).symm
    · rw [finAddFlip_apply_natAdd]
      exact (v1' j j.2).trans (v2 j j.2).symm
  · refine Fin.addCases (fun j => ?_) (fun j => ?_) i
    · rw [finAddFlip_apply_castAdd]
      refine ((a'.2 j j.2).trans ?_).trans (a.1 j j.2).symm
      rw [Bool.and_comm]
    · rw [finAddFlip_apply_natAdd]
      refine ((a'.1 j j.2).trans ?_).trans (a.2 j j.2).symm
      rw [Bool.and_comm]

/-- Fresh approximators over `b₁.stack(b₂)` and `b₂.stack(b₁)` make the same predictions for ever. -/
def StackOrderFree {O : Type} [Optimiser O ℝ] (o : Nat → O) : Prop :=
  ∀ (B₁ B₂ I : Type) [Space B₁] [Space B₂] [Basis B₁ I ℝ] [Basis B₂ I ℝ] (b₁ : B₁) (b₂ : B₂) (n₁ n₂ : Nat) (X : I → Prop)
    (_ : ∀ x, X x → ∃ φ ψ, Basis.project b₁ x = .ok (.ok φ) ∧ Basis.project b₂ x = .ok (.ok ψ) ∧ Fits n₁ φ ∧ Fits n₂ ψ)
    (xs : Nat → I) (_ : ∀ k, X (xs k)) (ys ps ps' : Nat → ℝ) (fas : Nat → ScalarLFA (Stack B₁ B₂) O ℝ)
    (fas' : Nat → ScalarLFA (Stack B₂ B₁) O ℝ) (_ : Stream fas xs ys ps) (_ : Stream fas' xs ys ps')
    (_ : fas 0 = LFA.mk ⟨b₁, b₂⟩ (List.replicate (n₁ + n₂) Scalar.zero) (o (n₁ + n₂)))
    (_ : fas' 0 = LFA.mk ⟨b₂, b₁⟩ (List.replicate (n₂ + n₁) Scalar.zero) (o (n₂ + n₁))) (k : Nat),
    ps' k = ps k ∧ ∀ x, X x → ∃ q, (fas k).evaluate x = .ok (.ok q) ∧ (fas' k).evaluate x = .ok (.ok q)

theorem equivariant_stack {O : Type} [Optimiser O ℝ] {o : Nat → O} (h : Equivariant o) : StackOrderFree o := by
  intro B₁ B₂ I _ _ _ _ b₁ b₂ n₁ n₂ X hX xs hxs ys ps ps' fas fas' s s' h0 h0' k
  obtain ⟨h1, -, h3⟩ := h _ _ _ _ _ finAddFlip (Stack.mk b₁ b₂) (Stack.mk b₂ b₁) X (fun x hx => by
    obtain ⟨φ, ψ, p1, p2, f1, f2⟩ := hX x hx
    exact stack_moved p1 p2 f1 f2) xs hxs ys ps ps' fas fas' _ _ (List.length_replicate ..) (List.length_replicate ..)
    (moved_zeros _) s s' h0 h0' k
  exact ⟨h1, h3⟩

/-- The order in which two bases are stacked changes no prediction, with every optimiser. -/
theorem C149_stack_order (lr m β₁ β₂ : ℝ) :
    StackOrderFree (fun _ => SGD.mk lr) ∧ StackOrderFree (fun _ => ISGD.mk lr) ∧
    StackOrderFree (fun n => SGDMomentum.new n m lr) ∧ StackOrderFree (fun n => NAG.new n m lr) ∧
    StackOrderFree (fun n => Adagrad.new n lr) ∧ StackOrderFree (fun n => Adam.new n lr β₁ β₂) ∧
    StackOrderFree (fun n => AdaMax.new n lr β₁ β₂) := by
  obtain ⟨h1, h2, h3, h4, h5, h6, h7⟩ := C149_renumbering lr m β₁ β₂
  exact ⟨equivariant_stack h1, equivariant_stack h2, equivariant_stack h3, equivariant_stack h4, equivariant_stack h5,
    equivariant_stack h6, equivariant_stack h7⟩

/-- Such runs exist: a constant next to two fixed features, with Adam. -/
example : ∃ (fas : Nat → ScalarLFA (Stack (Bias ℝ) (FixedDense ℝ)) (Adam ℝ) ℝ) (ps : Nat → ℝ),
    Stream fas (fun _ => ([] : List ℝ)) (fun k => (k : ℝ)) ps ∧ fas 0 = LFA.mk ⟨⟨1⟩, ⟨[2, 3]⟩⟩
      (List.replicate (1 + 2) Scalar.zero) (Adam.new (1 + 2) (1 : ℝ) 0 0) :=
  stream_exists (O := Adam ℝ) (n := 1 + 2) _ _ _ (fun _ => ⟨.dense [1, 2, 3], rfl, ⟨trivial, rfl⟩⟩) _
    (List.length_replicate ..) _ ⟨List.length_replicate .., List.length_replicate ..⟩

end Lfa

import Verif.Proofs.Machine
import Verif.Proofs.OptimReal
import Verif.Spec.Machine
import Verif.Props.C69_C71
import Verif.Props.C59_C68

/-!
# C107, C108: numbers that are not finite

In rounded arithmetic (any `Machine`, hence `f64`) a weight that has become NaN or infinite is never
repaired by training, spoils every prediction it takes part in, and through an error computed from such a
prediction spoils every other weight that takes part.
-/

set_option linter.unusedSectionVars false

namespace Lfa

open Spec Machine

variable {M : Machine}

/-- The number is NaN. -/
def IsNaN (a : FP M) : Prop := a.1 = .nan

/-! ## Absorption -/

theorem add_finite {a b : FP M} (h : Spec.Finite (a +. b)) : Spec.Finite a ∧ Spec.Finite b := by
  obtain ⟨r, h⟩ := h
  unfold Is at h
  rw [val_add] at h
  rcases ha : a.1 with _ | _ | _ | x <;> rcases hb : b.1 with _ | _ | _ | y <;>
    rw [ha, hb] at h <;> simp [XReal.add] at h; exact ⟨⟨_, ha⟩, ⟨_, hb⟩⟩

theorem infSign_cases (r : ℝ) : XReal.infSign r = .pinf ∨ XReal.infSign r = .ninf := by
  unfold XReal.infSign; split_ifs <;> simp

theorem round_infSign (r s : ℝ) : (M.round (XReal.infSign r)).1 ≠ .fin s := by
  rcases infSign_cases r with h | h <;> rw [h] <;> exact XReal.noConfusion

theorem round_neg_infSign (r s : ℝ) : (M.round (XReal.neg (XReal.infSign r))).1 ≠ .fin s := by
  rcases infSign_cases r with h | h <;> rw [h] <;> exact XReal.noConfusion

theorem mul_finite {a b : FP M} (h : Spec.Finite (a *. b)) : Spec.Finite a ∧ Spec.Finite b := by
  obtain ⟨r, h⟩ := h
  unfold Is at h
  rw [val_mul] at h
  rcases ha : a.1 with _ | _ | _ | x <;> rcases hb : b.1 with _ | _ | _ | y <;>
    rw [ha, hb] at h <;> simp only [XReal.mul] at h <;> (try split_ifs at h) <;>
    first
      | exact ⟨⟨_, ha⟩, ⟨_, hb⟩⟩
      | exact absurd h (round_infSign _ _)
      | exact XReal.noConfusion h

theorem div_finite {a b : FP M} (h : Spec.Finite (a /. b)) : Spec.Finite a := by
  obtain ⟨r, h⟩ := h
  unfold Is at h
  rw [val_div] at h
  rcases ha : a.1 with _ | _ | _ | x <;> rcases hb : b.1 with _ | _ | _ | y <;>
    rw [ha, hb] at h <;> simp only [XReal.div] at h <;> (try split_ifs at h) <;>
    first
      | exact ⟨_, ha⟩
      | exact absurd h (round_infSign _ _)
      | exact absurd h (round_neg_infSign _ _)
      | exact XReal.noConfusion h

theorem sub_finite {a b : FP M} (h : Spec.Finite (a -. b)) : Spec.Finite a ∧ Spec.Finite b := by
  obtain ⟨r, h⟩ := h
  unfold Is at h
  rw [val_sub] at h
  rcases ha : a.1 with _ | _ | _ | x <;> rcases hb : b.1 with _ | _ | _ | y <;>
    rw [ha, hb] at h <;> simp [XReal.add, XReal.neg] at h; exact ⟨⟨_, ha⟩, ⟨_, hb⟩⟩

theorem nan_add {a : FP M} (h : IsNaN a) (b : FP M) : IsNaN (a +. b) := by
  unfold IsNaN at *
  rw [val_add, h]
  rfl

/-! ## Steps -/

/-- What a step does to weights that are not finite, and what a scale that is not finite does. -/
def Poisoned (O : Type) [Optimiser O (FP M)] [HasSize O] : Prop :=
  ∀ (n : Nat) (o : O) (w : List (FP M)) (φ : Features (FP M)) (s : FP M), HasSize.sized n o →
    w.length = n → Fits n φ → ∀ o' w', Optimiser.stepScaled o w φ s = .ok (.ok (), o', w') → ∀ i < n,
      (IsNaN (entry w i) → IsNaN (entry w' i)) ∧
      (Spec.Finite (entry w' i) → Spec.Finite (entry w i)) ∧
      (Active φ i → Spec.Finite (entry w' i) → Spec.Finite s)

theorem additive_poison {w w' s : FP M} {A : Prop}
    (h : (¬ A ∧ w' = w) ∨ ∃ d, w' = w +. d ∧ (A → Spec.Finite d → Spec.Finite s)) :
    (IsNaN w → IsNaN w') ∧ (Spec.Finite w' → Spec.Finite w) ∧ (A → Spec.Finite w' → Spec.Finite s) := by
  rcases h with ⟨h, rfl⟩ | ⟨d, rfl, h⟩
  · exact ⟨id, id, fun a => absurd a h⟩
  · exact ⟨fun hn => nan_add hn d, fun hf => (add_finite hf).1, fun a hf => h a (add_finite hf).2⟩

theorem poisoned_sgd : Poisoned (M := M) (SGD (FP M)) := by
  intro n o w φ s ho hw hf o' w' h i hi
  obtain ⟨w₁, h1, -, h3⟩ := sgd_scaled hf o s hw
  rw [h1] at h
  simp only [Except.ok.injEq, Prod.mk.injEq, true_and] at h
  obtain ⟨-, rfl⟩ := h
  apply additive_poison
  by_cases ha : Active φ i
  · obtain ⟨a, ha⟩ := ha
    exact .inr ⟨_, (h3 i hi).1 a ha, fun _ hd => (mul_finite (mul_finite hd).1).2⟩
  · exact .inl ⟨ha, (h3 i hi).2 ha⟩

theorem poisoned_isgd : Poisoned (M := M) (ISGD (FP M)) := by
  intro n o w φ s ho hw hf o' w' h i hi
  obtain ⟨w₁, h1, -, h3⟩ := isgd_scaled hf o s hw
  rw [h1] at h
  simp only [Except.ok.injEq, Prod.mk.injEq, true_and] at h
  obtain ⟨-, rfl⟩ := h
  apply additive_poison
  by_cases ha : Active φ i
  · obtain ⟨a, ha⟩ := ha
    exact .inr ⟨_, (h3 i hi).1 a ha, fun _ hd => (mul_finite (mul_finite hd).1).2⟩
  · exact .inl ⟨ha, (h3 i hi).2 ha⟩

theorem velocity_poison {n : Nat} {φ : Features (FP M)} (hf : Fits n φ) {m s : FP M} {v v' : List (FP M)}
    (hv : v.length = n) (h : velocityUpdate m v φ s = .ok v') {i : Nat} (hi : i < n) (ha : Active φ i)
    (hd : Spec.Finite (entry v' i)) : Spec.Finite s := by
  obtain ⟨v₁, h1, -, h3⟩ := velocityUpdate_any hf m s hv
  rw [h1] at h
  injection h with h
  subst h
  rcases h3 i hi with e | ⟨e, -⟩ | ⟨-, e⟩
  · rw [e] at hd; exact (mul_finite (add_finite hd).2).2
  · exact absurd ha e
  · rw [e] at hd; exact (mul_finite (add_finite hd).2).2

theorem poisoned_momentum : Poisoned (M := M) (SGDMomentum (FP M)) := by
  intro n o w φ s ho hw hf o' w' h i hi
  obtain ⟨v, w₁, h1, h2, h3, h4, h5⟩ := momentum_scaled hf o ho s hw
  rw [h1] at h
  simp only [Except.ok.injEq, Prod.mk.injEq, true_and] at h
  obtain ⟨-, rfl⟩ := h
  apply additive_poison
  exact .inr ⟨_, h5 i hi, fun ha hd => velocity_poison hf ho h2 hi ha (mul_finite hd).2⟩

theorem poisoned_nag : Poisoned (M := M) (NAG (FP M)) := by
  intro n o w φ s ho hw hf o' w' h i hi
  obtain ⟨v, w₁, w₂, h1, h2, h3, h4, h5, h6, h7⟩ := nag_scaled hf o ho s hw
  rw [h1] at h
  simp only [Except.ok.injEq, Prod.mk.injEq, true_and] at h
  obtain ⟨-, rfl⟩ := h
  obtain ⟨w₃, g1, -, g3⟩ := scaledAddto_any hf o.momentum h5
  rw [g1] at h3
  injection h3 with h3
  subst h3
  have first : (IsNaN (entry w i) → IsNaN (entry w₁ i)) ∧
      (Spec.Finite (entry w₁ i) → Spec.Finite (entry w i)) ∧
      (Active φ i → Spec.Finite (entry w₁ i) → Spec.Finite s) :=
    additive_poison (.inr ⟨_, h7 i hi, fun ha hd => velocity_poison hf ho h2 hi ha (mul_finite hd).2⟩)
  by_cases ha : Active φ i
  · obtain ⟨a, ha'⟩ := ha
    rw [(g3 i hi).1 a ha']
    exact ⟨fun hn => nan_add (first.1 hn) _, fun hd => first.2.1 (add_finite hd).1,
      fun ha hd => first.2.2 ha (add_finite hd).1⟩
  · rw [(g3 i hi).2 ha]
    exact first

theorem value_mul_finite {φ : Features (FP M)} {i : Nat} {s : FP M}
    (h : Spec.Finite (value φ i *. s)) : Spec.Finite s := (mul_finite h).2

theorem poisoned_adagrad : Poisoned (M := M) (Adagrad (FP M)) := by
  intro n o w φ s ho hw hf o' w' h i hi
  obtain ⟨acc, w₁, h1, -, -, h4⟩ := adagrad_scaled hf o ho s hw
  rw [h1] at h
  simp only [Except.ok.injEq, Prod.mk.injEq, true_and] at h
  obtain ⟨-, rfl⟩ := h
  apply additive_poison
  exact .inr ⟨_, (h4 i hi).2, fun _ hd => value_mul_finite (mul_finite (div_finite hd)).2⟩

theorem poisoned_adam : Poisoned (M := M) (Adam (FP M)) := by
  intro n o w φ s ho hw hf o' w' h i hi
  obtain ⟨m, v, w₁, h1, -, -, -, h4⟩ := adam_scaled hf o ho.1 ho.2 s hw
  rw [h1] at h
  simp only [Except.ok.injEq, Prod.mk.injEq, true_and] at h
  obtain ⟨-, rfl⟩ := h
  apply additive_poison
  by_cases ha : Active φ i
  · obtain ⟨e1, -, e3⟩ := (h4 i hi).1 ha
    refine .inr ⟨_, e3, fun _ hd => ?_⟩
    have := div_finite (mul_finite (div_finite hd)).2
    rw [e1] at this
    exact value_mul_finite (mul_finite (add_finite this).2).2
  · exact .inl ⟨ha, ((h4 i hi).2 ha).2.2⟩

theorem poisoned_adamax : Poisoned (M := M) (AdaMax (FP M)) := by
  intro n o w φ s ho hw hf o' w' h i hi
  obtain ⟨m, v, w₁, h1, -, -, -, h4⟩ := adamax_scaled hf o ho.1 ho.2 s hw
  rw [h1] at h
  simp only [Except.ok.injEq, Prod.mk.injEq, true_and] at h
  obtain ⟨-, rfl⟩ := h
  apply additive_poison
  by_cases ha : Active φ i
  · obtain ⟨e1, -, e3⟩ := (h4 i hi).1 ha
    refine .inr ⟨_, e3, fun _ hd => ?_⟩
    have := div_finite (mul_finite (div_finite hd)).2
    rw [e1] at this
    exact value_mul_finite (mul_finite (add_finite this).2).2
  · exact .inl ⟨ha, ((h4 i hi).2 ha).2.2⟩

/-! ## C107 What is not finite stays so -/

theorem step_additive_sgd {n : Nat} {o : SGD (FP M)} {w : List (FP M)} {φ : Features (FP M)}
    (hw : w.length = n) (hf : Fits n φ) {o' w'} (h : Optimiser.step o w φ = .ok (.ok (), o', w')) {i : Nat}
    (hi : i < n) : (IsNaN (entry w i) → IsNaN (entry w' i)) ∧
      (Spec.Finite (entry w' i) → Spec.Finite (entry w i)) := by
  obtain ⟨w₁, h1, -, h3⟩ := sgd_step hf o hw
  rw [h1] at h
  simp only [Except.ok.injEq, Prod.mk.injEq, true_and] at h
  obtain ⟨-, rfl⟩ := h
  by_cases ha : Active φ i
  · obtain ⟨a, ha⟩ := ha
    rw [(h3 i hi).1 a ha]
    exact ⟨fun hn => nan_add hn _, fun hd => (add_finite hd).1⟩
  · rw [(h3 i hi).2 ha]
    exact ⟨id, id⟩

theorem step_additive_isgd {n : Nat} {o : ISGD (FP M)} {w : List (FP M)} {φ : Features (FP M)}
    (hw : w.length = n) (hf : Fits n φ) {o' w'} (h : Optimiser.step o w φ = .ok (.ok (), o', w')) {i : Nat}
    (hi : i < n) : (IsNaN (entry w i) → IsNaN (entry w' i)) ∧
      (Spec.Finite (entry w' i) → Spec.Finite (entry w i)) := by
  obtain ⟨w₁, h1, -, h3⟩ := isgd_step hf o hw
  rw [h1] at h
  simp only [Except.ok.injEq, Prod.mk.injEq, true_and] at h
  obtain ⟨-, rfl⟩ := h
  by_cases ha : Active φ i
  · obtain ⟨a, ha⟩ := ha
    rw [(h3 i hi).1 a ha]
    exact ⟨fun hn => nan_add hn _, fun hd => (add_finite hd).1⟩
  · rw [(h3 i hi).2 ha]
    exact ⟨id, id⟩

/-- `step` spoils nothing less than `step_scaled`. -/
def StepPoisoned (O : Type) [Optimiser O (FP M)] [HasSize O] : Prop :=
  ∀ (n : Nat) (o : O) (w : List (FP M)) (φ : Features (FP M)), HasSize.sized n o →
    w.length = n → Fits n φ → ∀ o' w', Optimiser.step o w φ = .ok (.ok (), o', w') → ∀ i < n,
      (IsNaN (entry w i) → IsNaN (entry w' i)) ∧ (Spec.Finite (entry w' i) → Spec.Finite (entry w i))

theorem permanent {O : Type} [Optimiser O (FP M)] [HasSize O] [Safe (K := FP M) O]
    (hO : Poisoned (M := M) O) (hO' : StepPoisoned (M := M) O) {n i : Nat} (hi : i < n) (es : List (Event (FP M)))
    (hes : ∀ e ∈ es, e.Fits n) : ∀ (o o' : O) (w w' : List (FP M)), HasSize.sized n o → w.length = n →
    History o w es o' w' →
    (IsNaN (entry w i) → IsNaN (entry w' i)) ∧
      (¬ Spec.Finite (entry w i) → ¬ Spec.Finite (entry w' i)) := by
  induction es with
  | nil => intro o o' w w' _ _ h; cases h; exact ⟨id, id⟩
  | cons e es ih =>
    intro o o' w w' ho hw h
    have ih := ih fun e he => hes e (List.mem_cons_of_mem _ he)
    have hf := hes e List.mem_cons_self
    cases h with
    | step hs t =>
      obtain ⟨o₁, w₁, g1, g2, g3⟩ := Safe.step (K := FP M) ho hw hf
      have e := g1.symm.trans hs
      simp only [Except.ok.injEq, Prod.mk.injEq, true_and] at e
      obtain ⟨rfl, rfl⟩ := e
      obtain ⟨a, b⟩ := hO' n _ _ _ ho hw hf _ _ hs i hi
      obtain ⟨c, d⟩ := ih _ _ _ _ g2 g3 t
      exact ⟨fun h => c (a h), fun h => d fun h' => h (b h')⟩
    | stepScaled hs t =>
      obtain ⟨o₁, w₁, g1, g2, g3⟩ := Safe.scaled (K := FP M) _ ho hw hf
      have e := g1.symm.trans hs
      simp only [Except.ok.injEq, Prod.mk.injEq, true_and] at e
      obtain ⟨rfl, rfl⟩ := e
      obtain ⟨a, b, -⟩ := hO n _ _ _ _ ho hw hf _ _ hs i hi
      obtain ⟨c, d⟩ := ih _ _ _ _ g2 g3 t
      exact ⟨fun h => c (a h), fun h => d fun h' => h (b h')⟩
    | reset t => exact ih _ _ _ _ (Safe.reset (K := FP M) ho) hw t

/-- A weight that is NaN stays NaN, and one that is not finite never becomes finite, whatever calls
follow (`step`, `step_scaled`, `reset`), with each of the seven optimisers. -/
theorem C107_permanent {n i : Nat} (hi : i < n) (w w' : List (FP M)) (hw : w.length = n)
    (es : List (Event (FP M))) (hes : ∀ e ∈ es, e.Fits n) :
    (∀ o o' : SGD (FP M), History o w es o' w' →
      (IsNaN (entry w i) → IsNaN (entry w' i)) ∧ (¬ Spec.Finite (entry w i) → ¬ Spec.Finite (entry w' i))) ∧
    (∀ o o' : ISGD (FP M), History o w es o' w' →
      (IsNaN (entry w i) → IsNaN (entry w' i)) ∧ (¬ Spec.Finite (entry w i) → ¬ Spec.Finite (entry w' i))) ∧
    (∀ o o' : SGDMomentum (FP M), HasSize.sized n o → History o w es o' w' →
      (IsNaN (entry w i) → IsNaN (entry w' i)) ∧ (¬ Spec.Finite (entry w i) → ¬ Spec.Finite (entry w' i))) ∧
    (∀ o o' : NAG (FP M), HasSize.sized n o → History o w es o' w' →
      (IsNaN (entry w i) → IsNaN (entry w' i)) ∧ (¬ Spec.Finite (entry w i) → ¬ Spec.Finite (entry w' i))) ∧
    (∀ o o' : Adagrad (FP M), HasSize.sized n o → History o w es o' w' →
      (IsNaN (entry w i) → IsNaN (entry w' i)) ∧ (¬ Spec.Finite (entry w i) → ¬ Spec.Finite (entry w' i))) ∧
    (∀ o o' : Adam (FP M), HasSize.sized n o → History o w es o' w' →
      (IsNaN (entry w i) → IsNaN (entry w' i)) ∧ (¬ Spec.Finite (entry w i) → ¬ Spec.Finite (entry w' i))) ∧
    (∀ o o' : AdaMax (FP M), HasSize.sized n o → History o w es o' w' →
      (IsNaN (entry w i) → IsNaN (entry w' i)) ∧
        (¬ Spec.Finite (entry w i) → ¬ Spec.Finite (entry w' i))) := by
  have weaken : ∀ {O : Type} [Optimiser O (FP M)] [HasSize O], Poisoned (M := M) O →
      (∀ (o : O) w φ, Optimiser.step o w φ = Optimiser.stepScaled o w φ Scalar.one) →
      StepPoisoned (M := M) O := by
    intro O _ _ hO hs n o w φ ho hw hf o' w' h i hi
    rw [hs] at h
    obtain ⟨a, b, -⟩ := hO n o w φ _ ho hw hf o' w' h i hi
    exact ⟨a, b⟩
  refine ⟨fun o o' => ?_, fun o o' => ?_, fun o o' ho => ?_, fun o o' ho => ?_, fun o o' ho => ?_,
    fun o o' ho => ?_, fun o o' ho => ?_⟩
  · exact permanent poisoned_sgd (fun n o w φ _ hw hf o' w' h i hi => step_additive_sgd hw hf h hi) hi es hes
      o o' w w' (n := n) trivial hw
  · exact permanent poisoned_isgd (fun n o w φ _ hw hf o' w' h i hi => step_additive_isgd hw hf h hi) hi es
      hes o o' w w' (n := n) trivial hw
  · exact permanent poisoned_momentum (weaken poisoned_momentum fun _ _ _ => rfl) hi es hes o o' w w' ho hw
  · exact permanent poisoned_nag (weaken poisoned_nag fun _ _ _ => rfl) hi es hes o o' w w' ho hw
  · exact permanent poisoned_adagrad (weaken poisoned_adagrad fun _ _ _ => rfl) hi es hes o o' w w' ho hw
  · exact permanent poisoned_adam (weaken poisoned_adam fun _ _ _ => rfl) hi es hes o o' w w' ho hw
  · exact permanent poisoned_adamax (weaken poisoned_adamax fun _ _ _ => rfl) hi es hes o o' w w' ho hw

/-! ## C108 Contagion -/

theorem tree_finite (x : Nat → FP M) (t : SumTree) (z : FP M)
    (h : Spec.Finite (t.eval M.add z x)) : ∀ i ∈ t.terms, Spec.Finite (x i) := by
  induction t with
  | zero => intro i hi; cases hi
  | term j => intro i hi; rw [List.mem_singleton.1 hi]; exact h
  | add l r il ir =>
    obtain ⟨h1, h2⟩ := add_finite (a := l.eval M.add z x) (b := r.eval M.add z x) h
    intro i hi
    rcases List.mem_append.1 hi with h | h
    · exact il h1 i h
    · exact ir h2 i h

theorem foldl_finite (f : Nat × FP M → FP M) : ∀ (es : List (Nat × FP M)) (z : FP M),
    Spec.Finite (es.foldl (fun acc e => acc +. f e) z) → Spec.Finite z ∧ ∀ e ∈ es, Spec.Finite (f e)
  | [], z, h => ⟨h, fun e he => by cases he⟩
  | e :: es, z, h => by
    obtain ⟨h1, h2⟩ := foldl_finite f es _ h
    obtain ⟨h3, h4⟩ := add_finite h1
    refine ⟨h3, fun e' he => ?_⟩
    rcases List.mem_cons.1 he with rfl | he
    · exact h4
    · exact h2 e' he

/-- A finite inner product has only finite weights at the stored features. -/
theorem dot_finite {n : Nat} {φ : Features (FP M)} (hf : Fits n φ) {w : List (FP M)} (hw : w.length = n)
    {v : FP M} (h : φ.dot w = .ok v) (hv : Spec.Finite v) {i : Nat} (ha : Active φ i) :
    Spec.Finite (entry w i) := by
  obtain ⟨a, ha⟩ := ha
  cases φ with
  | dense da =>
    have hd : da.length = n := hf.2
    have hl : da.length = w.length := hd.trans hw.symm
    have ha : da[i]? = some a := ha
    have hi : i < da.length := (List.getElem?_eq_some_iff.1 ha).1
    have e : v = (M.dotTree (min da.length w.length)).eval M.add (M.lit 0)
        fun i => (List.zipWith M.mul da w).getD i (M.lit 0) := by
      have h : arrayDot da w = .ok v := h
      unfold arrayDot at h
      rw [if_pos hl] at h
      injection h with h
      exact h.symm
    rw [e] at hv
    have := tree_finite _ _ _ hv i ((M.dotTree_terms _).mem_iff.2 (List.mem_range.2 (by omega)))
    have e2 : (List.zipWith M.mul da w).getD i (M.lit 0) = da[i] *. entry w i := by
      rw [List.getD_eq_getElem?_getD, List.getElem?_zipWith, List.getElem?_eq_getElem hi,
        getElem?_entry (hl ▸ hi)]
      rfl
    rw [e2] at this
    exact (mul_finite this).2
  | sparse sa =>
    have hr : ∀ e ∈ sa.activations, e.1 < w.length := fun e he => by
      have := hf.1.2 e he
      have h2 := hf.2
      change sa.dim = n at h2
      omega
    have h : Features.dotSparse sa w = .ok v := h
    rw [dotSparse_ok hr] at h
    injection h with h
    rw [← h] at hv
    have := (foldl_finite (fun e => w.getD e.1 Scalar.zero *. e.2) sa.activations _ hv).2 _ ha
    exact (mul_finite this).1

section
variable {B O I : Type} [Space B] [Basis B I (FP M)]

/-- A prediction in which a weight takes part that is not finite is not finite. -/
theorem C108_prediction (fa : ScalarLFA B O (FP M)) (x : I) (φ : Features (FP M))
    (hp : Basis.project fa.basis x = .ok (.ok φ)) (hf : Fits fa.weights.length φ) {v : FP M}
    (hv : fa.evaluate x = .ok (.ok v)) (i : Nat) (ha : Active φ i)
    (hi : ¬ Spec.Finite (entry fa.weights i)) : ¬ Spec.Finite v := by
  intro h
  rw [scalar_evaluate_eq hp] at hv
  obtain ⟨_, e1, e2⟩ := P.map_eq_ok.1 hv
  cases e2
  exact hi (dot_finite hf rfl e1 h ha)

theorem dot_exists {K : Type} [Scalar K] {n : Nat} {φ : Features K} (hf : Fits n φ) {w : List K}
    (hw : w.length = n) : ∃ v, φ.dot w = .ok v := by
  cases φ with
  | dense da =>
    have hl : da.length = w.length := hf.2.trans hw.symm
    refine ⟨Scalar.dot da w, ?_⟩
    show arrayDot da w = _
    unfold arrayDot
    rw [if_pos hl]
  | sparse sa =>
    have hr : ∀ e ∈ sa.activations, e.1 < w.length := fun e he => by
      have := hf.1.2 e he
      have h2 := hf.2
      change sa.dim = n at h2
      omega
    exact ⟨_, dotSparse_ok hr⟩

theorem active_lt {K : Type} [Scalar K] {n : Nat} {φ : Features K} (hf : Fits n φ) {i : Nat}
    (h : Active φ i) : i < n := by
  obtain ⟨a, h⟩ := h
  rw [← hf.2]
  cases φ with
  | dense da => exact (List.getElem?_eq_some_iff.1 h).1
  | sparse sa => exact hf.1.2 _ h

variable (B I O) in
/-- One training call towards any target, at an input in whose prediction a weight takes part that is
not finite, leaves no weight finite that takes part in it. -/
def Contagious [Optimiser O (FP M)] [HasSize O] : Prop :=
  ∀ (fa : ScalarLFA B O (FP M)) (x : I) (φ : Features (FP M)),
    Basis.project fa.basis x = .ok (.ok φ) → Fits fa.weights.length φ →
    HasSize.sized fa.weights.length fa.optimiser →
    ∀ i, Active φ i → ¬ Spec.Finite (entry fa.weights i) → ∀ y : FP M,
    ∃ fa', fa.updateWith x (fun _ v => y -. v) = .ok (.ok (), fa') ∧
      ∀ j, Active φ j → ¬ Spec.Finite (entry fa'.weights j)

theorem contagion [Optimiser O (FP M)] [HasSize O] [Safe (K := FP M) O] (hO : Poisoned (M := M) O) :
    Contagious B O I (M := M) := by
  intro fa x φ hp hf ho i ha hi y
  obtain ⟨v, hd⟩ := dot_exists hf (w := fa.weights) rfl
  obtain ⟨o', w', h1, -, h3⟩ := Safe.scaled (K := FP M) (y -. v) ho rfl hf
  refine ⟨⟨fa.basis, w', o'⟩, updateWith_eq hp hd _ h1, fun j hj h => ?_⟩
  have := (hO _ _ _ _ _ ho rfl hf _ _ h1 j (active_lt hf hj)).2.2 hj h
  exact hi (dot_finite hf rfl hd (sub_finite this).2 ha)

/-- This holds with every optimiser. -/
theorem C108_contagion : Contagious B (SGD (FP M)) I (M := M) ∧ Contagious B (ISGD (FP M)) I (M := M) ∧
    Contagious B (SGDMomentum (FP M)) I (M := M) ∧ Contagious B (NAG (FP M)) I (M := M) ∧
    Contagious B (Adagrad (FP M)) I (M := M) ∧ Contagious B (Adam (FP M)) I (M := M) ∧
    Contagious B (AdaMax (FP M)) I (M := M) :=
  ⟨contagion poisoned_sgd, contagion poisoned_isgd, contagion poisoned_momentum, contagion poisoned_nag,
    contagion poisoned_adagrad, contagion poisoned_adam, contagion poisoned_adamax⟩

/-- With dense features one call is enough to lose every weight. -/
theorem C108_dense (fa : ScalarLFA B (SGD (FP M)) (FP M)) (x : I) (da : List (FP M))
    (hp : Basis.project fa.basis x = .ok (.ok (.dense da))) (hd : da.length = fa.weights.length) (i : Nat)
    (hi : i < fa.weights.length) (hn : ¬ Spec.Finite (entry fa.weights i)) (y : FP M) :
    ∃ fa', fa.updateWith x (fun _ v => y -. v) = .ok (.ok (), fa') ∧
      ∀ j < fa.weights.length, ¬ Spec.Finite (entry fa'.weights j) := by
  obtain ⟨fa', h1, h2⟩ := C108_contagion.1 fa x (.dense da) hp ⟨trivial, hd⟩ trivial i
    (active_dense (hd ▸ hi)) hn y
  exact ⟨fa', h1, fun j hj => h2 j (active_dense (hd ▸ hj))⟩

end

/-- Such weights exist: infinity minus infinity. -/
example : ∃ a : FP M, IsNaN a ∧ ¬ Spec.Finite a :=
  ⟨⟨.nan, fun _ h => XReal.noConfusion h⟩, rfl, fun ⟨_, h⟩ => XReal.noConfusion h⟩

end Lfa

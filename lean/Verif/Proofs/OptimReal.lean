import Verif.Proofs.Optim
import Verif.Proofs.Real

/-! # Optimiser steps: success, exact arithmetic, histories -/

set_option linter.unusedSectionVars false

namespace Lfa

open Spec Features

/-! ## Steps succeed -/

section Safe
variable {K : Type} [Scalar K]

/-- Steps on matching sizes succeed and keep sizes. -/
class Safe (O : Type) [Optimiser O K] [HasSize O] : Prop where
  scaled : ∀ {n : Nat} {o : O} {w : List K} {φ : Features K} (s : K), HasSize.sized n o →
    w.length = n → Fits n φ → ∃ o' w', Optimiser.stepScaled o w φ s = .ok (.ok (), o', w') ∧
      HasSize.sized n o' ∧ w'.length = n
  step : ∀ {n : Nat} {o : O} {w : List K} {φ : Features K}, HasSize.sized n o →
    w.length = n → Fits n φ → ∃ o' w', Optimiser.step o w φ = .ok (.ok (), o', w') ∧
      HasSize.sized n o' ∧ w'.length = n
  reset : ∀ {n : Nat} {o : O}, HasSize.sized n o → HasSize.sized n (Optimiser.reset o)

theorem sgd_scaled {n : Nat} {φ : Features K} (h : Fits n φ) (o : SGD K) (s : K) {w : List K}
    (hw : w.length = n) :
    ∃ w', Optimiser.stepScaled o w φ s = .ok (.ok (), o, w') ∧ w'.length = n ∧ ∀ i < n,
      (∀ a, Stored φ i a → entry w' i = (entry w i +. o.lr *. s *. a)) ∧
      (¬ Active φ i → entry w' i = entry w i) := by
  obtain ⟨w', h1, h2, h3⟩ := scaledAddto_any h (o.lr *. s) hw
  refine ⟨w', ?_, h2, h3⟩
  show (φ.scaledAddto (o.lr *. s) w >>= _) = _
  rw [h1]; rfl

theorem sgd_step {n : Nat} {φ : Features K} (h : Fits n φ) (o : SGD K) {w : List K}
    (hw : w.length = n) :
    ∃ w', Optimiser.step o w φ = .ok (.ok (), o, w') ∧ w'.length = n ∧ ∀ i < n,
      (∀ a, Stored φ i a → entry w' i = (entry w i +. o.lr *. a)) ∧
      (¬ Active φ i → entry w' i = entry w i) := by
  obtain ⟨w', h1, h2, h3⟩ := scaledAddto_any h o.lr hw
  refine ⟨w', ?_, h2, h3⟩
  show (φ.scaledAddto o.lr w >>= _) = _
  rw [h1]; rfl

theorem isgd_scaled {n : Nat} {φ : Features K} (h : Fits n φ) (o : ISGD K) (s : K) {w : List K}
    (hw : w.length = n) :
    ∃ w', Optimiser.stepScaled o w φ s = .ok (.ok (), o, w') ∧ w'.length = n ∧ ∀ i < n,
      (∀ a, Stored φ i a → entry w' i = (entry w i +. o.computeLr φ *. s *. a)) ∧
      (¬ Active φ i → entry w' i = entry w i) := by
  obtain ⟨w', h1, h2, h3⟩ := scaledAddto_any h (o.computeLr φ *. s) hw
  refine ⟨w', ?_, h2, h3⟩
  show (φ.scaledAddto (o.computeLr φ *. s) w >>= _) = _
  rw [h1]; rfl

theorem isgd_step {n : Nat} {φ : Features K} (h : Fits n φ) (o : ISGD K) {w : List K}
    (hw : w.length = n) :
    ∃ w', Optimiser.step o w φ = .ok (.ok (), o, w') ∧ w'.length = n ∧ ∀ i < n,
      (∀ a, Stored φ i a → entry w' i = (entry w i +. o.computeLr φ *. a)) ∧
      (¬ Active φ i → entry w' i = entry w i) := by
  obtain ⟨w', h1, h2, h3⟩ := scaledAddto_any h (o.computeLr φ) hw
  refine ⟨w', ?_, h2, h3⟩
  show (φ.scaledAddto (o.computeLr φ) w >>= _) = _
  rw [h1]; rfl

theorem momentum_scaled {n : Nat} {φ : Features K} (h : Fits n φ) (o : SGDMomentum K)
    (ho : o.velocity.length = n) (s : K) {w : List K} (hw : w.length = n) :
    ∃ v w', Optimiser.stepScaled o w φ s = .ok (.ok (), { o with velocity := v }, w') ∧
      velocityUpdate o.momentum o.velocity φ s = .ok v ∧ v.length = n ∧ w'.length = n ∧ ∀ i < n,
      entry w' i = (entry w i +. o.learningRate *. entry v i) := by
  obtain ⟨v, h1, h2, -⟩ := velocityUpdate_any h o.momentum s ho
  obtain ⟨w', h3, h4, h5⟩ := scaledAdd_any hw h2 o.learningRate
  refine ⟨v, w', ?_, h1, h2, h4, h5⟩
  show (velocityUpdate o.momentum o.velocity φ s >>= _) = _
  rw [h1, P.ok_bind, h3]; rfl

theorem nag_scaled {n : Nat} {φ : Features K} (h : Fits n φ) (o : NAG K)
    (ho : o.velocity.length = n) (s : K) {w : List K} (hw : w.length = n) :
    ∃ v w₁ w', Optimiser.stepScaled o w φ s = .ok (.ok (), { o with velocity := v }, w') ∧
      velocityUpdate o.momentum o.velocity φ s = .ok v ∧ φ.scaledAddto o.momentum w₁ = .ok w' ∧
      v.length = n ∧ w₁.length = n ∧ w'.length = n ∧ ∀ i < n,
      entry w₁ i = (entry w i +. o.learningRate *. entry v i) := by
  obtain ⟨v, h1, h2, -⟩ := velocityUpdate_any h o.momentum s ho
  obtain ⟨w₁, h3, h4, h5⟩ := scaledAdd_any hw h2 o.learningRate
  obtain ⟨w', h6, h7, -⟩ := scaledAddto_any h o.momentum h4
  refine ⟨v, w₁, w', ?_, h1, h6, h2, h4, h7, h5⟩
  show (velocityUpdate o.momentum o.velocity φ s >>= _) = _
  rw [h1, P.ok_bind, h3, P.ok_bind, h6]; rfl

theorem adagrad_scaled {n : Nat} {φ : Features K} (h : Fits n φ) (o : Adagrad K)
    (ho : o.accumulator.length = n) (s : K) {w : List K} (hw : w.length = n) :
    ∃ acc w', Optimiser.stepScaled o w φ s = .ok (.ok (), { o with accumulator := acc }, w') ∧
      acc.length = n ∧ w'.length = n ∧ ∀ i < n,
      entry acc i = (entry o.accumulator i +. Scalar.powi (value φ i *. s) 2) ∧
      entry w' i = (entry w i +. o.learningRate *. (value φ i *. s) /.
          (Scalar.sqrt (entry o.accumulator i +. Scalar.powi (value φ i *. s) 2) +. EPS)) := by
  obtain ⟨acc, w', h1, h2, h3, h4⟩ := adagrad_any h o ho s hw
  refine ⟨acc, w', ?_, h2, h3, h4⟩
  show (o.loop w φ s >>= _) = _
  rw [h1]; rfl

/-- Adam with the bias-correction products advanced by one step. -/
def adamTick (o : Adam K) : Adam K :=
  { o with beta1Prod := o.beta1Prod *. o.beta1, beta2Prod := o.beta2Prod *. o.beta2 }

theorem adam_scaled {n : Nat} {φ : Features K} (h : Fits n φ) (o : Adam K)
    (h1 : o.expAvg.length = n) (h2 : o.expAvgSq.length = n) (s : K) {w : List K}
    (hw : w.length = n) :
    ∃ m v w', Optimiser.stepScaled o w φ s =
        .ok (.ok (), { adamTick o with expAvg := m, expAvgSq := v }, w') ∧
      m.length = n ∧ v.length = n ∧ w'.length = n ∧ ∀ i < n,
      (Active φ i → entry m i = adamM o φ.isDense (entry o.expAvg i) (value φ i *. s) ∧
        entry v i = adamV o φ.isDense (entry o.expAvgSq i) (value φ i *. s) ∧
        entry w' i = adamW (adamTick o) (entry w i) (entry m i) (entry v i)) ∧
      (¬ Active φ i → entry m i = (entry o.expAvg i *. o.beta1) ∧
        entry v i = (entry o.expAvgSq i *. o.beta2) ∧ entry w' i = entry w i) := by
  obtain ⟨m, v, w', e1, e2, e3, e4, e5⟩ := adam_any h (adamTick o) h1 h2 s hw
  refine ⟨m, v, w', ?_, e2, e3, e4, e5⟩
  show ((adamTick o).loop w φ s >>= _) = _
  rw [e1]; rfl

/-- AdaMax with the bias-correction product advanced by one step. -/
def adamaxTick (o : AdaMax K) : AdaMax K := { o with beta1Prod := o.beta1Prod *. o.beta1 }

theorem adamax_scaled {n : Nat} {φ : Features K} (h : Fits n φ) (o : AdaMax K)
    (h1 : o.expAvg.length = n) (h2 : o.expInf.length = n) (s : K) {w : List K}
    (hw : w.length = n) :
    ∃ m u w', Optimiser.stepScaled o w φ s =
        .ok (.ok (), { adamaxTick o with expAvg := m, expInf := u }, w') ∧
      m.length = n ∧ u.length = n ∧ w'.length = n ∧ ∀ i < n,
      (Active φ i → entry m i = adamaxM o φ.isDense (entry o.expAvg i) (value φ i *. s) ∧
        entry u i = adamaxU o φ.isDense (entry o.expInf i) (value φ i *. s) ∧
        entry w' i = adamaxW (adamaxTick o) (entry w i) (entry m i) (entry u i)) ∧
      (¬ Active φ i → entry m i = (entry o.expAvg i *. o.beta1) ∧
        entry u i = (entry o.expInf i *. o.beta2) ∧ entry w' i = entry w i) := by
  obtain ⟨m, v, w', e1, e2, e3, e4, e5⟩ := adamax_any h (adamaxTick o) h1 h2 s hw
  refine ⟨m, v, w', ?_, e2, e3, e4, e5⟩
  show ((adamaxTick o).loop w φ s >>= _) = _
  rw [e1]; rfl

instance : Safe (K := K) (SGD K) where
  scaled s _ hw h := by
    obtain ⟨w', h1, h2, -⟩ := sgd_scaled h _ s hw
    exact ⟨_, w', h1, trivial, h2⟩
  step _ hw h := by
    obtain ⟨w', h1, h2, -⟩ := sgd_step h _ hw
    exact ⟨_, w', h1, trivial, h2⟩
  reset h := h

instance : Safe (K := K) (ISGD K) where
  scaled s _ hw h := by
    obtain ⟨w', h1, h2, -⟩ := isgd_scaled h _ s hw
    exact ⟨_, w', h1, trivial, h2⟩
  step _ hw h := by
    obtain ⟨w', h1, h2, -⟩ := isgd_step h _ hw
    exact ⟨_, w', h1, trivial, h2⟩
  reset h := h

theorem length_reset {n : Nat} {l : List K} (h : l.length = n) :
    (l.map fun _ => (Scalar.zero : K)).length = n := by rw [List.length_map, h]

instance : Safe (K := K) (SGDMomentum K) where
  scaled s ho hw h := by
    obtain ⟨v, w', h1, -, h2, h3, -⟩ := momentum_scaled h _ ho s hw
    exact ⟨_, w', h1, h2, h3⟩
  step ho hw h := by
    obtain ⟨v, w', h1, -, h2, h3, -⟩ := momentum_scaled h _ ho Scalar.one hw
    exact ⟨_, w', h1, h2, h3⟩
  reset h := length_reset h

instance : Safe (K := K) (NAG K) where
  scaled s ho hw h := by
    obtain ⟨v, w₁, w', h1, -, -, h2, -, h3, -⟩ := nag_scaled h _ ho s hw
    exact ⟨_, w', h1, h2, h3⟩
  step ho hw h := by
    obtain ⟨v, w₁, w', h1, -, -, h2, -, h3, -⟩ := nag_scaled h _ ho Scalar.one hw
    exact ⟨_, w', h1, h2, h3⟩
  reset h := length_reset h

instance : Safe (K := K) (Adagrad K) where
  scaled s ho hw h := by
    obtain ⟨v, w', h1, h2, h3, -⟩ := adagrad_scaled h _ ho s hw
    exact ⟨_, w', h1, h2, h3⟩
  step ho hw h := by
    obtain ⟨v, w', h1, h2, h3, -⟩ := adagrad_scaled h _ ho Scalar.one hw
    exact ⟨_, w', h1, h2, h3⟩
  reset h := length_reset h

instance : Safe (K := K) (Adam K) where
  scaled s ho hw h := by
    obtain ⟨m, v, w', h1, h2, h3, h4, -⟩ := adam_scaled h _ ho.1 ho.2 s hw
    exact ⟨_, w', h1, ⟨h2, h3⟩, h4⟩
  step ho hw h := by
    obtain ⟨m, v, w', h1, h2, h3, h4, -⟩ := adam_scaled h _ ho.1 ho.2 Scalar.one hw
    exact ⟨_, w', h1, ⟨h2, h3⟩, h4⟩
  reset h := ⟨length_reset h.1, length_reset h.2⟩

instance : Safe (K := K) (AdaMax K) where
  scaled s ho hw h := by
    obtain ⟨m, v, w', h1, h2, h3, h4, -⟩ := adamax_scaled h _ ho.1 ho.2 s hw
    exact ⟨_, w', h1, ⟨h2, h3⟩, h4⟩
  step ho hw h := by
    obtain ⟨m, v, w', h1, h2, h3, h4, -⟩ := adamax_scaled h _ ho.1 ho.2 Scalar.one hw
    exact ⟨_, w', h1, ⟨h2, h3⟩, h4⟩
  reset h := ⟨length_reset h.1, length_reset h.2⟩

/-! ## Histories -/

section
variable {O : Type} [Optimiser O K]

theorem history_exists [HasSize O] [Safe (K := K) O] {n : Nat} : ∀ {es : List (Event K)} {o : O}
    {w : List K}, HasSize.sized n o → w.length = n → (∀ e ∈ es, e.Fits n) →
    ∃ o' w', History o w es o' w' ∧ HasSize.sized n o' ∧ w'.length = n
  | [], o, w, ho, hw, _ => ⟨o, w, .nil o w, ho, hw⟩
  | e :: es, o, w, ho, hw, h => by
    have he := h e List.mem_cons_self
    have ht := fun e' h' => h e' (List.mem_cons_of_mem _ h')
    cases e with
    | step φ =>
      obtain ⟨o₁, w₁, h1, h2, h3⟩ := Safe.step ho hw he
      obtain ⟨o', w', h4, h5, h6⟩ := history_exists h2 h3 ht
      exact ⟨o', w', .step h1 h4, h5, h6⟩
    | stepScaled φ s =>
      obtain ⟨o₁, w₁, h1, h2, h3⟩ := Safe.scaled s ho hw he
      obtain ⟨o', w', h4, h5, h6⟩ := history_exists h2 h3 ht
      exact ⟨o', w', .stepScaled h1 h4, h5, h6⟩
    | reset =>
      obtain ⟨o', w', h4, h5, h6⟩ := history_exists (Safe.reset (K := K) ho) hw ht
      exact ⟨o', w', .reset h4, h5, h6⟩

theorem history_unique {es : List (Event K)} {o o₁ o₂ : O} {w w₁ w₂ : List K}
    (h : History o w es o₁ w₁) (h' : History o w es o₂ w₂) : o₁ = o₂ ∧ w₁ = w₂ := by
  induction h with
  | nil => cases h'; exact ⟨rfl, rfl⟩
  | step e _ ih =>
    cases h' with
    | step e' t' =>
      rw [e] at e'; cases e'; exact ih t'
  | stepScaled e _ ih =>
    cases h' with
    | stepScaled e' t' =>
      rw [e] at e'; cases e'; exact ih t'
  | reset _ ih =>
    cases h' with
    | reset t' => exact ih t'

theorem history_append {es es' : List (Event K)} {o o₁ o₂ : O} {w w₁ w₂ : List K}
    (h : History o w es o₁ w₁) (h' : History o₁ w₁ es' o₂ w₂) :
    History o w (es ++ es') o₂ w₂ := by
  induction h with
  | nil => exact h'
  | step e _ ih => exact .step e (ih h')
  | stepScaled e _ ih => exact .stepScaled e (ih h')
  | reset _ ih => exact .reset (ih h')

theorem history_split {es es' : List (Event K)} {o o₂ : O} {w w₂ : List K}
    (h : History o w (es ++ es') o₂ w₂) :
    ∃ o₁ w₁, History o w es o₁ w₁ ∧ History o₁ w₁ es' o₂ w₂ := by
  induction es generalizing o w with
  | nil => exact ⟨o, w, .nil o w, h⟩
  | cons e es ih =>
    rw [List.cons_append] at h
    cases h with
    | step e t => obtain ⟨o₁, w₁, h1, h2⟩ := ih t; exact ⟨o₁, w₁, .step e h1, h2⟩
    | stepScaled e t => obtain ⟨o₁, w₁, h1, h2⟩ := ih t; exact ⟨o₁, w₁, .stepScaled e h1, h2⟩
    | reset t => obtain ⟨o₁, w₁, h1, h2⟩ := ih t; exact ⟨o₁, w₁, .reset h1, h2⟩

theorem history_sized [HasSize O] [Safe (K := K) O] {n : Nat} {es : List (Event K)} {o o' : O}
    {w w' : List K} (ho : HasSize.sized n o) (hw : w.length = n) (hf : ∀ e ∈ es, e.Fits n)
    (h : History o w es o' w') : HasSize.sized n o' ∧ w'.length = n := by
  obtain ⟨o₁, w₁, h1, h2, h3⟩ := history_exists ho hw hf
  obtain ⟨rfl, rfl⟩ := history_unique h h1
  exact ⟨h2, h3⟩

end

end Safe

/-! ## Exact arithmetic -/

/-- `step` is `step_scaled` by one. -/
class UnitStep (O : Type) [Optimiser O ℝ] : Prop where
  unit : ∀ (o : O) (w : List ℝ) (φ : Features ℝ),
    Optimiser.step o w φ = Optimiser.stepScaled o w φ 1

instance : UnitStep (SGD ℝ) := ⟨fun o w φ => by
  show (φ.scaledAddto o.lr w >>= _) = (φ.scaledAddto (o.lr * 1) w >>= _)
  rw [mul_one]⟩
instance : UnitStep (ISGD ℝ) := ⟨fun o w φ => by
  show (φ.scaledAddto (o.computeLr φ) w >>= _) = (φ.scaledAddto (o.computeLr φ * 1) w >>= _)
  rw [mul_one]⟩
instance : UnitStep (SGDMomentum ℝ) := ⟨fun o w φ => by
  rw [← real_one]; rfl⟩
instance : UnitStep (NAG ℝ) := ⟨fun o w φ => by rw [← real_one]; rfl⟩
instance : UnitStep (Adagrad ℝ) := ⟨fun o w φ => by rw [← real_one]; rfl⟩
instance : UnitStep (Adam ℝ) := ⟨fun o w φ => by rw [← real_one]; rfl⟩
instance : UnitStep (AdaMax ℝ) := ⟨fun o w φ => by rw [← real_one]; rfl⟩

/-- Induction over histories, adding calls at the end. -/
theorem history_induct {O : Type} [Optimiser O ℝ] [UnitStep O] {n : Nat}
    {I : List (Event ℝ) → O → List ℝ → Prop} {o : O} {w : List ℝ} (h0 : I [] o w)
    (hs : ∀ es o₁ w₁ e φ s o₂ w₂, I es o₁ w₁ → e.isStep = true →
      (∀ i, e.grad i = value φ i * s) → Fits n φ →
      Optimiser.stepScaled o₁ w₁ φ s = .ok (.ok (), o₂, w₂) → I (es ++ [e]) o₂ w₂)
    (hr : ∀ es o₁ w₁, I es o₁ w₁ → I (es ++ [.reset]) (Optimiser.reset o₁) w₁) :
    ∀ (es : List (Event ℝ)) (o' : O) (w' : List ℝ), (∀ e ∈ es, e.Fits n) →
      History o w es o' w' → I es o' w' := by
  intro es
  induction es using List.reverseRecOn with
  | nil => intro o' w' _ h; cases h; exact h0
  | append_singleton es e ih =>
    intro o' w' hf h
    obtain ⟨o₁, w₁, h1, h2⟩ := history_split h
    have hi := ih o₁ w₁ (fun e' h' => hf e' (List.mem_append_left _ h')) h1
    have he := hf e (List.mem_append_right _ List.mem_cons_self)
    cases h2 with
    | step e' t =>
      cases t
      rw [UnitStep.unit] at e'
      exact hs _ _ _ _ _ 1 _ _ hi rfl (fun i => (mul_one _).symm) he e'
    | stepScaled e' t =>
      cases t
      exact hs _ _ _ _ _ _ _ _ hi rfl (fun i => rfl) he e'
    | reset t => cases t; exact hr _ _ _ hi

/-! ### Real closed forms -/

theorem value_of_not_active {φ : Features ℝ} {i : Nat} (h : ¬ Active φ i) : value φ i = 0 := by
  rw [value_of_not_stored fun a ha => h ⟨a, ha⟩, real_zero]

theorem scaledAddto_real {n : Nat} {φ : Features ℝ} (h : Fits n φ) (α : ℝ) {w : List ℝ}
    (hw : w.length = n) :
    ∃ w', φ.scaledAddto α w = .ok w' ∧ w'.length = n ∧ ∀ i < n,
      entry w' i = entry w i + α * value φ i := by
  obtain ⟨w', h1, h2, h3⟩ := scaledAddto_any h α hw
  refine ⟨w', h1, h2, fun i hi => ?_⟩
  by_cases ha : Active φ i
  · obtain ⟨a, ha⟩ := ha
    rw [(h3 i hi).1 a ha, value_of_stored (keysUnique_of_wf h.1) ha]; rfl
  · rw [(h3 i hi).2 ha, value_of_not_active ha, mul_zero, add_zero]

theorem sgd_real {n : Nat} {φ : Features ℝ} (h : Fits n φ) (o : SGD ℝ) (s : ℝ) {w : List ℝ}
    (hw : w.length = n) :
    ∃ w', Optimiser.stepScaled o w φ s = .ok (.ok (), o, w') ∧ w'.length = n ∧ ∀ i < n,
      entry w' i = entry w i + o.lr * s * value φ i := by
  obtain ⟨w', h1, h2, h3⟩ := scaledAddto_real h (o.lr * s) hw
  refine ⟨w', ?_, h2, h3⟩
  show (φ.scaledAddto (o.lr * s) w >>= _) = _
  rw [h1]; rfl

theorem computeLr_real {φ : Features ℝ} (h : WF φ) (o : ISGD ℝ) :
    o.computeLr φ = o.lr / (1 + o.lr * normSq φ) := by
  show o.lr / (((1 : Nat) : ℝ) + o.lr * φ.fold _ (fun acc x => acc + x * x)) = _
  rw [real_zero, fold_real h (fun x => x * x) (mul_zero 0), zero_add, Nat.cast_one]
  rfl

theorem isgd_real {n : Nat} {φ : Features ℝ} (h : Fits n φ) (o : ISGD ℝ) (s : ℝ) {w : List ℝ}
    (hw : w.length = n) :
    ∃ w', Optimiser.stepScaled o w φ s = .ok (.ok (), o, w') ∧ w'.length = n ∧ ∀ i < n,
      entry w' i = entry w i + o.lr / (1 + o.lr * normSq φ) * s * value φ i := by
  obtain ⟨w', h1, h2, h3⟩ := scaledAddto_real h (o.computeLr φ * s) hw
  refine ⟨w', ?_, h2, ?_⟩
  · show (φ.scaledAddto (o.computeLr φ * s) w >>= _) = _
    rw [h1]; rfl
  · rwa [computeLr_real h.1] at h3

theorem velocityUpdate_real {n : Nat} {φ : Features ℝ} (h : Fits n φ) (m s : ℝ) {v : List ℝ}
    (hv : v.length = n) :
    ∃ v', velocityUpdate m v φ s = .ok v' ∧ v'.length = n ∧ ∀ i < n,
      entry v' i = m * entry v i + value φ i * s := by
  obtain ⟨v', h1, h2, h3⟩ := velocityUpdate_any h m s hv
  refine ⟨v', h1, h2, fun i hi => ?_⟩
  rcases h3 i hi with h | ⟨ha, h⟩ | ⟨-, h⟩
  · exact h
  · rw [h, value_of_not_active ha, zero_mul, add_zero]; exact mul_comm _ _
  · rw [h, mul_comm m]; rfl

theorem momentum_real {n : Nat} {φ : Features ℝ} (h : Fits n φ) (o : SGDMomentum ℝ)
    (ho : o.velocity.length = n) (s : ℝ) {w : List ℝ} (hw : w.length = n) :
    ∃ v w', Optimiser.stepScaled o w φ s = .ok (.ok (), { o with velocity := v }, w') ∧
      v.length = n ∧ w'.length = n ∧ ∀ i < n,
      entry v i = o.momentum * entry o.velocity i + value φ i * s ∧
      entry w' i = entry w i + o.learningRate * entry v i := by
  obtain ⟨v, w', h1, h2, h3, h4, h5⟩ := momentum_scaled h o ho s hw
  obtain ⟨v', h6, -, h8⟩ := velocityUpdate_real h o.momentum s ho
  rw [h2] at h6; cases h6
  exact ⟨v, w', h1, h3, h4, fun i hi => ⟨h8 i hi, h5 i hi⟩⟩

theorem nag_real {n : Nat} {φ : Features ℝ} (h : Fits n φ) (o : NAG ℝ)
    (ho : o.velocity.length = n) (s : ℝ) {w : List ℝ} (hw : w.length = n) :
    ∃ v w', Optimiser.stepScaled o w φ s = .ok (.ok (), { o with velocity := v }, w') ∧
      v.length = n ∧ w'.length = n ∧ ∀ i < n,
      entry v i = o.momentum * entry o.velocity i + value φ i * s ∧
      entry w' i = entry w i + o.learningRate * entry v i + o.momentum * value φ i := by
  obtain ⟨v, w₁, w', h1, h2, h2', h3, h3', h4, h5⟩ := nag_scaled h o ho s hw
  obtain ⟨v', h6, -, h8⟩ := velocityUpdate_real h o.momentum s ho
  rw [h2] at h6; cases h6
  obtain ⟨w'', h9, -, h10⟩ := scaledAddto_real h o.momentum h3'
  rw [h2'] at h9; cases h9
  refine ⟨v, w', h1, h3, h4, fun i hi => ⟨h8 i hi, ?_⟩⟩
  rw [h10 i hi, h5 i hi]; rfl

theorem eps_real : (EPS : ℝ) = 1e-7 := by
  show ((1 : Nat) : ℝ) / 10 ^ 7 = _
  norm_num

theorem adagrad_real {n : Nat} {φ : Features ℝ} (h : Fits n φ) (o : Adagrad ℝ)
    (ho : o.accumulator.length = n) (s : ℝ) {w : List ℝ} (hw : w.length = n) :
    ∃ acc w', Optimiser.stepScaled o w φ s = .ok (.ok (), { o with accumulator := acc }, w') ∧
      acc.length = n ∧ w'.length = n ∧ ∀ i < n,
      entry acc i = entry o.accumulator i + (value φ i * s) ^ 2 ∧
      entry w' i = entry w i + o.learningRate * (value φ i * s) / (√(entry acc i) + 1e-7) := by
  obtain ⟨acc, w', h1, h2, h3, h4⟩ := adagrad_scaled h o ho s hw
  refine ⟨acc, w', h1, h2, h3, fun i hi => ⟨(h4 i hi).1, ?_⟩⟩
  rw [(h4 i hi).2, (h4 i hi).1, eps_real]; rfl

theorem adam_real {n : Nat} {φ : Features ℝ} (h : Fits n φ) (o : Adam ℝ)
    (h1 : o.expAvg.length = n) (h2 : o.expAvgSq.length = n) (s : ℝ) {w : List ℝ}
    (hw : w.length = n) :
    ∃ m v w', Optimiser.stepScaled o w φ s = .ok (.ok (), { o with
          beta1Prod := o.beta1Prod * o.beta1, beta2Prod := o.beta2Prod * o.beta2,
          expAvg := m, expAvgSq := v }, w') ∧
      m.length = n ∧ v.length = n ∧ w'.length = n ∧ ∀ i < n,
      entry m i = o.beta1 * entry o.expAvg i + (1 - o.beta1) * (value φ i * s) ∧
      entry v i = o.beta2 * entry o.expAvgSq i + (1 - o.beta2) * (value φ i * s) ^ 2 ∧
      (Active φ i → entry w' i = entry w i + o.learningRate *
          (entry m i / (1 - o.beta1Prod * o.beta1)) /
          (√(entry v i / (1 - o.beta2Prod * o.beta2)) + 1e-7)) ∧
      (¬ Active φ i → entry w' i = entry w i) := by
  obtain ⟨m, v, w', e1, e2, e3, e4, e5⟩ := adam_scaled h o h1 h2 s hw
  refine ⟨m, v, w', e1, e2, e3, e4, fun i hi => ?_⟩
  obtain ⟨ha, hna⟩ := e5 i hi
  by_cases hact : Active φ i
  · obtain ⟨g1, g2, g3⟩ := ha hact
    refine ⟨?_, ?_, fun _ => ?_, fun hc => absurd hact hc⟩
    · rw [g1]
      cases φ <;> simp [adamM, Features.isDense]
      ring
    · rw [g2]
      cases φ <;> simp [adamV, Features.isDense] <;> ring
    · rw [g3]; simp only [adamW, adamTick, eps_real]; simp
  · obtain ⟨g1, g2, g3⟩ := hna hact
    refine ⟨?_, ?_, fun hc => absurd hc hact, fun _ => g3⟩
    · rw [g1, value_of_not_active hact, real_mul]; ring
    · rw [g2, value_of_not_active hact, real_mul]; ring

theorem adamax_real {n : Nat} {φ : Features ℝ} (h : Fits n φ) (o : AdaMax ℝ)
    (h1 : o.expAvg.length = n) (h2 : o.expInf.length = n) (s : ℝ) {w : List ℝ}
    (hw : w.length = n) :
    ∃ m u w', Optimiser.stepScaled o w φ s = .ok (.ok (), { o with
          beta1Prod := o.beta1Prod * o.beta1, expAvg := m, expInf := u }, w') ∧
      m.length = n ∧ u.length = n ∧ w'.length = n ∧ ∀ i < n,
      entry m i = o.beta1 * entry o.expAvg i + (1 - o.beta1) * (value φ i * s) ∧
      (Active φ i → entry u i = max (o.beta2 * entry o.expInf i) |value φ i * s| ∧
        entry w' i = entry w i + o.learningRate *
          (entry m i / (1 - o.beta1Prod * o.beta1)) / (entry u i + 1e-7)) ∧
      (¬ Active φ i → entry u i = o.beta2 * entry o.expInf i ∧ entry w' i = entry w i) := by
  obtain ⟨m, v, w', e1, e2, e3, e4, e5⟩ := adamax_scaled h o h1 h2 s hw
  refine ⟨m, v, w', e1, e2, e3, e4, fun i hi => ?_⟩
  obtain ⟨ha, hna⟩ := e5 i hi
  by_cases hact : Active φ i
  · obtain ⟨g1, g2, g3⟩ := ha hact
    refine ⟨?_, fun _ => ⟨?_, ?_⟩, fun hc => absurd hact hc⟩
    · rw [g1]
      cases φ <;> simp [adamaxM, Features.isDense]
      ring
    · rw [g2]
      cases φ <;> simp only [adamaxU, Features.isDense, real_max, real_mul, real_abs]
      · rfl
      · simp [mul_comm]
    · rw [g3]; simp only [adamaxW, adamaxTick, eps_real]; simp
  · obtain ⟨g1, g2, g3⟩ := hna hact
    refine ⟨?_, fun hc => absurd hc hact, fun _ => ⟨?_, g3⟩⟩
    · rw [g1, value_of_not_active hact, real_mul]; ring
    · rw [g2, real_mul, mul_comm]

end Lfa

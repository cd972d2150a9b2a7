import Verif.Proofs.Training
import Verif.Spec.Sequence

/-! # Optimisers whose step is affine in the weights, the state and the error -/

set_option linter.unusedSectionVars false

namespace Lfa

open Spec

/-- The constants of an affine step. -/
structure StepPar where
  /-- factor on the velocity that is kept -/
  carry : ℝ
  /-- how much of the gradient enters it -/
  gain : ℝ
  /-- factor on the velocity in the move of the weights -/
  mom : ℝ
  /-- step size, given the squared norm of the features -/
  rate : ℝ → ℝ
  /-- what moves the weights along the features whatever the error -/
  drift : ℝ

/-- An affine step. -/
class LinearStep (O : Type) [Optimiser O ℝ] [HasSize O] where
  par : O → StepPar
  vel : O → Nat → ℝ
  step : ∀ {n : Nat} {o : O} {w : List ℝ} {φ : Features ℝ} (s : ℝ), HasSize.sized n o → w.length = n → Fits n φ →
    ∃ o' w', Optimiser.stepScaled o w φ s = .ok (.ok (), o', w') ∧ HasSize.sized n o' ∧ w'.length = n ∧
      par o' = par o ∧ ∀ i < n,
        vel o' i = (par o).carry * vel o i + (par o).gain * (value φ i * s) ∧
        entry w' i = entry w i + (par o).rate (normSq φ) * ((par o).mom * vel o i + value φ i * s)
          + (par o).drift * value φ i

noncomputable instance : LinearStep (SGD ℝ) where
  par o := ⟨0, 0, 0, fun _ => o.lr, 0⟩
  vel _ _ := 0
  step s ho hw h := by
    obtain ⟨w', h1, h2, h3⟩ := sgd_real h _ s hw
    refine ⟨_, w', h1, ho, h2, rfl, fun i hi => ⟨by simp, ?_⟩⟩
    rw [h3 i hi]; simp only []; ring

noncomputable instance : LinearStep (ISGD ℝ) where
  par o := ⟨0, 0, 0, fun q => o.lr / (1 + o.lr * q), 0⟩
  vel _ _ := 0
  step s ho hw h := by
    obtain ⟨w', h1, h2, h3⟩ := isgd_real h _ s hw
    refine ⟨_, w', h1, ho, h2, rfl, fun i hi => ⟨by simp, ?_⟩⟩
    rw [h3 i hi]; simp only []; ring

noncomputable instance : LinearStep (SGDMomentum ℝ) where
  par o := ⟨o.momentum, 1, o.momentum, fun _ => o.learningRate, 0⟩
  vel o i := entry o.velocity i
  step s ho hw h := by
    obtain ⟨v, w', h1, h2, h3, h4⟩ := momentum_real h _ ho s hw
    refine ⟨_, w', h1, h2, h3, rfl, fun i hi => ⟨?_, ?_⟩⟩
    · simp only []; rw [(h4 i hi).1]; ring
    · rw [(h4 i hi).2, (h4 i hi).1]; simp only []; ring

noncomputable instance : LinearStep (NAG ℝ) where
  par o := ⟨o.momentum, 1, o.momentum, fun _ => o.learningRate, o.momentum⟩
  vel o i := entry o.velocity i
  step s ho hw h := by
    obtain ⟨v, w', h1, h2, h3, h4⟩ := nag_real h _ ho s hw
    refine ⟨_, w', h1, h2, h3, rfl, fun i hi => ⟨?_, ?_⟩⟩
    · simp only []; rw [(h4 i hi).1]; ring
    · rw [(h4 i hi).2, (h4 i hi).1]

section
variable {B I O : Type} [Space B] [Basis B I ℝ] [Optimiser O ℝ] [HasSize O]

/-- What holds of an approximator throughout a run. -/
structure RunState [LinearStep O] (b : B) (n : Nat) (p : StepPar) (fa : ScalarLFA B O ℝ) : Prop where
  basis : fa.basis = b
  length : fa.weights.length = n
  sized : HasSize.sized n fa.optimiser
  par : LinearStep.par fa.optimiser = p

/-- One call of a run. -/
theorem linear_call [LinearStep O] {b : B} {n : Nat} {p : StepPar} {fa fa' : ScalarLFA B O ℝ} (h : RunState b n p fa)
    {x : I} {φ : Features ℝ} (hp : Basis.project b x = .ok (.ok φ)) (hf : Fits n φ) {f : Features ℝ → ℝ → ℝ}
    (hu : fa.updateWith x f = .ok (.ok (), fa')) :
    RunState b n p fa' ∧ ∀ i < n,
      LinearStep.vel fa'.optimiser i = p.carry * LinearStep.vel fa.optimiser i
        + p.gain * (value φ i * f φ (Spec.inner φ fa.weights)) ∧
      entry fa'.weights i = entry fa.weights i + p.rate (normSq φ) * (p.mom * LinearStep.vel fa.optimiser i
        + value φ i * f φ (Spec.inner φ fa.weights)) + p.drift * value φ i := by
  obtain ⟨hb, hl, hs, hpar⟩ := h
  subst hb hpar
  have hd := dot_real hf.1 (w := fa.weights) (hf.2.trans hl.symm)
  obtain ⟨o', w', h1, h2, h3, h4, h5⟩ := LinearStep.step (o := fa.optimiser) (f φ (Spec.inner φ fa.weights)) hs hl hf
  have := updateWith_eq hp hd f h1
  rw [this] at hu
  simp only [Except.ok.injEq, Prod.mk.injEq, true_and] at hu
  subst hu
  exact ⟨⟨rfl, h3, h2, h4⟩, h5⟩

theorem run_evaluate [LinearStep O] {b : B} {n : Nat} {p : StepPar} {fa : ScalarLFA B O ℝ} (h : RunState b n p fa)
    {x : I} {φ : Features ℝ} (hp : Basis.project b x = .ok (.ok φ)) (hf : Fits n φ) :
    fa.evaluate x = .ok (.ok (Spec.inner φ fa.weights)) :=
  evaluate_eq (by rw [h.basis]; exact hp) (dot_real hf.1 (hf.2.trans h.length.symm))

/-- A whole run. -/
theorem linear_stream [LinearStep O] {b : B} {n : Nat} {p : StepPar} {fas : Nat → ScalarLFA B O ℝ} {xs : Nat → I}
    {ys ps : Nat → ℝ} (hs : Stream fas xs ys ps) (h0 : RunState b n p (fas 0)) (φ : Nat → Features ℝ)
    (hφ : ∀ k, Basis.project b (xs k) = .ok (.ok (φ k)) ∧ Fits n (φ k)) (k : Nat) :
    RunState b n p (fas k) ∧ ps k = Spec.inner (φ k) (fas k).weights ∧ ∀ i < n,
      LinearStep.vel (fas (k + 1)).optimiser i = p.carry * LinearStep.vel (fas k).optimiser i
        + p.gain * (value (φ k) i * (ys k - Spec.inner (φ k) (fas k).weights)) ∧
      entry (fas (k + 1)).weights i = entry (fas k).weights i + p.rate (normSq (φ k)) *
        (p.mom * LinearStep.vel (fas k).optimiser i + value (φ k) i * (ys k - Spec.inner (φ k) (fas k).weights))
        + p.drift * value (φ k) i := by
  have key : ∀ k, RunState b n p (fas k) := by
    intro k
    induction k with
    | zero => exact h0
    | succ k ih => exact (linear_call ih (hφ k).1 (hφ k).2 (hs.updates k)).1
  refine ⟨key k, ?_, (linear_call (key k) (hφ k).1 (hφ k).2 (hs.updates k)).2⟩
  have := (hs.predicts k).symm.trans (run_evaluate (key k) (hφ k).1 (hφ k).2)
  injection this with this
  injection this

/-- Runs exist, for every optimiser. -/
theorem stream_exists [Safe (K := ℝ) O] (b : B) {n : Nat} (xs : Nat → I) (ys : Nat → ℝ)
    (hx : ∀ k, ∃ φ, Basis.project b (xs k) = .ok (.ok φ) ∧ Fits n φ) (w : List ℝ) (hw : w.length = n) (o : O)
    (ho : HasSize.sized n o) :
    ∃ (fas : Nat → ScalarLFA B O ℝ) (ps : Nat → ℝ), Stream fas xs ys ps ∧ fas 0 = LFA.mk b w o := by
  let Good : ScalarLFA B O ℝ → Prop := fun fa => fa.basis = b ∧ fa.weights.length = n ∧ HasSize.sized n fa.optimiser
  have step : ∀ (k : Nat) (fa : {fa : ScalarLFA B O ℝ // Good fa}), ∃ fa' : {fa : ScalarLFA B O ℝ // Good fa},
      fa.1.updateWith (xs k) (fun _ v => ys k -. v) = .ok (.ok (), fa'.1) ∧
      ∃ p, fa.1.evaluate (xs k) = .ok (.ok p) := by
    rintro k ⟨fa, rfl, h2, h3⟩
    obtain ⟨φ, hp, hf⟩ := hx k
    have hd := dot_real hf.1 (w := fa.weights) (hf.2.trans h2.symm)
    obtain ⟨o', w', e1, e2, e3⟩ := Safe.scaled (o := fa.optimiser) (ys k -. Spec.inner φ fa.weights) h3 h2 hf
    exact ⟨⟨⟨fa.basis, w', o'⟩, rfl, e3, e2⟩, updateWith_eq hp hd (fun _ v => ys k -. v) e1, _, evaluate_eq hp hd⟩
  choose next hn hp using step
  let run : Nat → {fa : ScalarLFA B O ℝ // Good fa} := fun k =>
    Nat.rec ⟨⟨b, w, o⟩, rfl, hw, ho⟩ (fun k fa => next k fa) k
  choose p hp using hp
  exact ⟨fun k => (run k).1, fun k => p k (run k), ⟨fun k => hp k (run k), fun k => hn k (run k)⟩, rfl⟩

end

end Lfa

import Verif.Proofs.Training
import Mathlib.Analysis.SpecificLimits.Basic

/-!
# C44–C50: optimiser steps, histories, SGD and ISGD, sparse against dense, reset
-/

set_option linter.unusedSectionVars false

namespace Lfa

open Spec

/-! ## C44 Optimiser steps never fail on matching sizes -/

section
variable {K : Type} [Scalar K]

/-- Every optimiser as constructed for `n` parameters has size `n` (SGD and ISGD have no state). -/
theorem C44_new_sized (n : Nat) (lr m b1 b2 : K) :
    HasSize.sized n (SGD.mk lr) ∧ HasSize.sized n (ISGD.mk lr) ∧
    HasSize.sized n (SGDMomentum.new n m lr) ∧ HasSize.sized n (NAG.new n m lr) ∧
    HasSize.sized n (Adagrad.new n lr) ∧ HasSize.sized n (Adam.new n lr b1 b2) ∧
    HasSize.sized n (AdaMax.new n lr b1 b2) := by
  have h : (List.replicate n (Scalar.zero : K)).length = n := List.length_replicate
  exact ⟨trivial, trivial, h, h, h, ⟨h, h⟩, ⟨h, h⟩⟩

/-- Any arithmetic, any of the seven optimisers `O`, any history of calls with well-formed features
of the right dimension: every call returns `Ok`, and the sizes stay. -/
theorem C44_history (n : Nat) (w : List K) (hw : w.length = n) (es : List (Event K))
    (he : ∀ e ∈ es, e.Fits n) (lr m b1 b2 : K) :
    (∃ (o : SGD K) (w' : List K), History (SGD.mk lr) w es o w' ∧ w'.length = n) ∧
    (∃ (o : ISGD K) (w' : List K), History (ISGD.mk lr) w es o w' ∧ w'.length = n) ∧
    (∃ (o : SGDMomentum K) (w' : List K), History (SGDMomentum.new n m lr) w es o w' ∧
      w'.length = n ∧ o.velocity.length = n) ∧
    (∃ (o : NAG K) (w' : List K), History (NAG.new n m lr) w es o w' ∧
      w'.length = n ∧ o.velocity.length = n) ∧
    (∃ (o : Adagrad K) (w' : List K), History (Adagrad.new n lr) w es o w' ∧
      w'.length = n ∧ o.accumulator.length = n) ∧
    (∃ (o : Adam K) (w' : List K), History (Adam.new n lr b1 b2) w es o w' ∧
      w'.length = n ∧ o.expAvg.length = n ∧ o.expAvgSq.length = n) ∧
    (∃ (o : AdaMax K) (w' : List K), History (AdaMax.new n lr b1 b2) w es o w' ∧
      w'.length = n ∧ o.expAvg.length = n ∧ o.expInf.length = n) := by
  obtain ⟨h1, h2, h3, h4, h5, h6, h7⟩ := C44_new_sized n lr m b1 b2
  refine ⟨?_, ?_, ?_, ?_, ?_, ?_, ?_⟩
  · obtain ⟨o, w', a, -, c⟩ := history_exists h1 hw he
    exact ⟨o, w', a, c⟩
  · obtain ⟨o, w', a, -, c⟩ := history_exists h2 hw he
    exact ⟨o, w', a, c⟩
  · obtain ⟨o, w', a, b, c⟩ := history_exists h3 hw he
    exact ⟨o, w', a, c, b⟩
  · obtain ⟨o, w', a, b, c⟩ := history_exists h4 hw he
    exact ⟨o, w', a, c, b⟩
  · obtain ⟨o, w', a, b, c⟩ := history_exists h5 hw he
    exact ⟨o, w', a, c, b⟩
  · obtain ⟨o, w', a, b, c⟩ := history_exists h6 hw he
    exact ⟨o, w', a, c, b⟩
  · obtain ⟨o, w', a, b, c⟩ := history_exists h7 hw he
    exact ⟨o, w', a, c, b⟩

/-- A history has only one outcome: the statements about "the" state after a history below are
about every run. -/
theorem C44_deterministic {O : Type} [Optimiser O K] (es : List (Event K)) (o o₁ o₂ : O)
    (w w₁ w₂ : List K) (h₁ : History o w es o₁ w₁) (h₂ : History o w es o₂ w₂) :
    o₁ = o₂ ∧ w₁ = w₂ := history_unique h₁ h₂

/-! ## C45 step is step_scaled by 1 -/

/-- SGD and ISGD: in any arithmetic where multiplying by one changes nothing (the reals, IEEE). -/
theorem C45_sgd (h : ∀ x : K, (x *. Scalar.one) = x) (o : SGD K) (o' : ISGD K) (w : List K)
    (φ : Features K) :
    Optimiser.step o w φ = Optimiser.stepScaled o w φ Scalar.one ∧
    Optimiser.step o' w φ = Optimiser.stepScaled o' w φ Scalar.one := by
  constructor
  · show (φ.scaledAddto o.lr w >>= _) = (φ.scaledAddto (o.lr *. Scalar.one) w >>= _)
    rw [h]
  · show (φ.scaledAddto (o'.computeLr φ) w >>= _) =
      (φ.scaledAddto (o'.computeLr φ *. Scalar.one) w >>= _)
    rw [h]

/-- The others: in any arithmetic. -/
theorem C45_others (w : List K) (φ : Features K) (o1 : SGDMomentum K) (o2 : NAG K)
    (o3 : Adagrad K) (o4 : Adam K) (o5 : AdaMax K) :
    Optimiser.step o1 w φ = Optimiser.stepScaled o1 w φ Scalar.one ∧
    Optimiser.step o2 w φ = Optimiser.stepScaled o2 w φ Scalar.one ∧
    Optimiser.step o3 w φ = Optimiser.stepScaled o3 w φ Scalar.one ∧
    Optimiser.step o4 w φ = Optimiser.stepScaled o4 w φ Scalar.one ∧
    Optimiser.step o5 w φ = Optimiser.stepScaled o5 w φ Scalar.one :=
  ⟨rfl, rfl, rfl, rfl, rfl⟩

end

/-- The law used for SGD and ISGD holds for the reals and with IEEE special values. -/
theorem C45_law : (∀ x : ℝ, (x *. Scalar.one) = x) ∧ (∀ x : XReal, (x *. Scalar.one) = x) := by
  refine ⟨fun x => by rw [real_one, real_mul, mul_one], fun x => ?_⟩
  show XReal.mul x (.fin ((1 : Nat) : ℝ)) = x
  rw [Nat.cast_one]
  cases x with
  | nan => rfl
  | fin a => exact congrArg XReal.fin (mul_one a)
  | pinf =>
    show (if (1 : ℝ) = 0 then _ else XReal.infSign 1) = _
    rw [if_neg one_ne_zero]
    show (if (0 : ℝ) ≤ 1 then XReal.pinf else _) = _
    rw [if_pos zero_le_one]
  | ninf =>
    show (if (1 : ℝ) = 0 then _ else XReal.infSign (-1)) = _
    rw [if_neg one_ne_zero]
    show (if (0 : ℝ) ≤ -1 then XReal.pinf else _) = _
    rw [if_neg (by norm_num)]

/-! ## C46 SGD history is a weighted sum -/

/-- After any history, weight `i` is its initial value plus `lr` times the sum of all gradients. -/
theorem C46_weighted_sum (n : Nat) (lr : ℝ) (w : List ℝ) (hw : w.length = n) (es : List (Event ℝ))
    (he : ∀ e ∈ es, e.Fits n) (o' : SGD ℝ) (w' : List ℝ)
    (h : History (SGD.mk lr) w es o' w') :
    o' = SGD.mk lr ∧ w'.length = n ∧
      ∀ i < n, entry w' i = entry w i + lr * (es.map fun e => e.grad i).sum := by
  refine history_induct (n := n) (I := fun es o' w' => o' = SGD.mk lr ∧ w'.length = n ∧
      ∀ i < n, entry w' i = entry w i + lr * (es.map fun e => e.grad i).sum)
    ⟨rfl, hw, fun i _ => by simp⟩ ?_ ?_ es o' w' he h
  · rintro es o₁ w₁ e φ s o₂ w₂ ⟨rfl, hl, hi⟩ - hg hf hs
    obtain ⟨w₃, h1, h2, h3⟩ := sgd_real hf (SGD.mk lr) s hl
    rw [hs] at h1
    cases h1
    refine ⟨rfl, h2, fun i hn => ?_⟩
    rw [h3 i hn, hi i hn, List.map_append, List.sum_append, List.map_singleton, List.sum_singleton,
      hg i]
    show _ + lr * s * _ = _
    ring
  · rintro es o₁ w₁ ⟨rfl, hl, hi⟩
    refine ⟨rfl, hl, fun i hn => ?_⟩
    rw [hi i hn, List.map_append, List.sum_append, List.map_singleton, List.sum_singleton]
    show _ = _ + lr * (_ + 0)
    rw [add_zero]

/-- Hence the order of the steps is irrelevant. -/
theorem C46_permutation (n : Nat) (lr : ℝ) (w : List ℝ) (hw : w.length = n) (es es' : List (Event ℝ))
    (he : ∀ e ∈ es, e.Fits n) (hp : es.Perm es') (o₁ o₂ : SGD ℝ) (w₁ w₂ : List ℝ)
    (h₁ : History (SGD.mk lr) w es o₁ w₁) (h₂ : History (SGD.mk lr) w es' o₂ w₂) : w₁ = w₂ := by
  obtain ⟨-, hl, hi⟩ := C46_weighted_sum n lr w hw es he o₁ w₁ h₁
  obtain ⟨-, hl', hi'⟩ := C46_weighted_sum n lr w hw es'
    (fun e h => he e (hp.mem_iff.2 h)) o₂ w₂ h₂
  refine ext_entry (hl.trans hl'.symm) fun i hn => ?_
  rw [hi i (hl ▸ hn), hi' i (hl ▸ hn), (hp.map fun e => e.grad i).sum_eq]

/-! ## C47 SGD residual contraction -/

section
variable {B I : Type} [Space B] [Basis B I ℝ]

/-- `k` calls of `update_with` towards the target `y` multiply the residual by
`(1 - lr ‖φ‖²)^k`. -/
theorem C47_residual (fa : ScalarLFA B (SGD ℝ) ℝ) (x : I) (φ : Features ℝ)
    (hp : Basis.project fa.basis x = .ok (.ok φ)) (hf : Fits fa.weights.length φ) (y : ℝ)
    (p₀ : ℝ) (h₀ : fa.evaluate x = .ok (.ok p₀)) (k : Nat) :
    ∃ fa', Trained fa x (fun _ p => y - p) k fa' ∧
      fa'.evaluate x = .ok (.ok (y - (1 - fa.optimiser.lr * normSq φ) ^ k * (y - p₀))) := by
  have hp₀ : p₀ = inner φ fa.weights := by
    rw [evaluate_eq hp (dot_real hf.1 hf.2)] at h₀
    cases h₀; rfl
  suffices ∃ fa', Trained fa x (fun _ p => y - p) k fa' ∧ fa'.basis = fa.basis ∧
      fa'.optimiser = fa.optimiser ∧ fa'.weights.length = fa.weights.length ∧
      y - inner φ fa'.weights = (1 - fa.optimiser.lr * normSq φ) ^ k * (y - p₀) by
    obtain ⟨fa', h1, h2, -, h4, h5⟩ := this
    refine ⟨fa', h1, ?_⟩
    rw [evaluate_eq (by rw [h2]; exact hp) (dot_real hf.1 (hf.2.trans h4.symm)), ← h5, sub_sub_cancel]
  induction k with
  | zero => exact ⟨fa, .zero, rfl, rfl, rfl, by rw [hp₀]; ring⟩
  | succ k ih =>
    obtain ⟨fa', h1, h2, h3, h4, h5⟩ := ih
    have hf' : Fits fa'.weights.length φ := ⟨hf.1, hf.2.trans h4.symm⟩
    obtain ⟨w', s1, s2, s3⟩ := sgd_real hf' fa'.optimiser (y - inner φ fa'.weights) rfl
    refine ⟨_, .succ h1 (updateWith_eq (by rw [h2]; exact hp) (dot_real hf.1 hf'.2) _ s1), h2, h3,
      s2.trans h4, ?_⟩
    show y - inner φ w' = _
    rw [inner_moved hf'.2 s3, pow_succ, h3]
    linear_combination (1 - fa.optimiser.lr * normSq φ) * h5

/-- The residual tends to zero iff `|1 - lr ‖φ‖²| < 1` or it is zero from the start. -/
theorem C47_converges_iff (fa : ScalarLFA B (SGD ℝ) ℝ) (x : I) (φ : Features ℝ)
    (hp : Basis.project fa.basis x = .ok (.ok φ)) (hf : Fits fa.weights.length φ) (y : ℝ)
    (fas : Nat → ScalarLFA B (SGD ℝ) ℝ) (ps : Nat → ℝ)
    (ht : ∀ k, Trained fa x (fun _ p => y - p) k (fas k))
    (he : ∀ k, (fas k).evaluate x = .ok (.ok (ps k))) :
    Filter.Tendsto (fun k => y - ps k) Filter.atTop (nhds 0) ↔
      |1 - fa.optimiser.lr * normSq φ| < 1 ∨ y - ps 0 = 0 := by
  have h₀ : fa.evaluate x = .ok (.ok (ps 0)) := by
    have := trained_unique (ht 0) .zero
    rw [← this]; exact he 0
  have key : ∀ k, y - ps k = (1 - fa.optimiser.lr * normSq φ) ^ k * (y - ps 0) := by
    intro k
    obtain ⟨fa', h1, h2⟩ := C47_residual fa x φ hp hf y (ps 0) h₀ k
    have := trained_unique (ht k) h1
    subst this
    rw [he k] at h2
    injection h2 with h2
    injection h2 with h2
    rw [h2, sub_sub_cancel]
  rw [show (fun k => y - ps k) = fun k => (1 - fa.optimiser.lr * normSq φ) ^ k * (y - ps 0) from
    funext key]
  by_cases hr : y - ps 0 = 0
  · simp [hr]
  · constructor
    · intro h
      have h2 := h.mul_const (y - ps 0)⁻¹
      rw [zero_mul] at h2
      simp only [mul_assoc, mul_inv_cancel₀ hr, mul_one] at h2
      exact .inl (tendsto_pow_atTop_nhds_zero_iff.1 h2)
    · rintro (h | h)
      · have := (tendsto_pow_atTop_nhds_zero_iff.2 h).mul_const (y - ps 0)
        rwa [zero_mul] at this
      · exact absurd h hr

/-! ## C48 ISGD is the implicit update and always contracts -/

/-- One ISGD step towards `y`: the residual is divided by `1 + lr ‖φ‖²`, and the new weights solve
the implicit equation `w' = w + lr (y - w'·φ) φ`. -/
theorem C48_implicit (fa : ScalarLFA B (ISGD ℝ) ℝ) (x : I) (φ : Features ℝ)
    (hp : Basis.project fa.basis x = .ok (.ok φ)) (hf : Fits fa.weights.length φ) (y : ℝ)
    (hne : 1 + fa.optimiser.lr * normSq φ ≠ 0) :
    ∃ fa' p p', fa.evaluate x = .ok (.ok p) ∧
      fa.updateWith x (fun _ p => y - p) = .ok (.ok (), fa') ∧
      fa'.evaluate x = .ok (.ok p') ∧
      y - p' = (y - p) / (1 + fa.optimiser.lr * normSq φ) ∧
      ∀ i < fa.weights.length,
        entry fa'.weights i = entry fa.weights i + fa.optimiser.lr * (y - p') * value φ i := by
  obtain ⟨w', s1, s2, s3⟩ := isgd_real hf fa.optimiser (y - inner φ fa.weights) rfl
  have hd := dot_real hf.1 hf.2
  have hr : y - inner φ w' = (y - inner φ fa.weights) / (1 + fa.optimiser.lr * normSq φ) := by
    rw [inner_moved hf.2 s3]
    field_simp
    ring
  refine ⟨_, inner φ fa.weights, inner φ w', evaluate_eq hp hd, updateWith_eq hp hd _ s1,
    evaluate_eq (fa := { fa with weights := w' }) hp (dot_real hf.1 (hf.2.trans s2.symm)), hr,
    fun i hi => ?_⟩
  show entry w' i = _
  rw [s3 i hi, hr]
  ring

/-- For `lr > 0` the residual never grows, whatever the learning rate; it shrinks strictly unless
it is zero already or the features are all zero. -/
theorem C48_contracts (fa : ScalarLFA B (ISGD ℝ) ℝ) (x : I) (φ : Features ℝ)
    (hp : Basis.project fa.basis x = .ok (.ok φ)) (hf : Fits fa.weights.length φ) (y : ℝ)
    (hlr : 0 < fa.optimiser.lr) :
    ∃ fa' p p', fa.evaluate x = .ok (.ok p) ∧
      fa.updateWith x (fun _ p => y - p) = .ok (.ok (), fa') ∧
      fa'.evaluate x = .ok (.ok p') ∧ |y - p'| ≤ |y - p| ∧
      (normSq φ ≠ 0 → y - p ≠ 0 → |y - p'| < |y - p|) := by
  have hn : 0 ≤ normSq φ := Finset.sum_nonneg fun i _ => mul_self_nonneg _
  have hpos : 1 ≤ 1 + fa.optimiser.lr * normSq φ := by
    have := mul_nonneg hlr.le hn
    linarith
  obtain ⟨fa', p, p', h1, h2, h3, h4, -⟩ := C48_implicit fa x φ hp hf y (by linarith)
  refine ⟨fa', p, p', h1, h2, h3, ?_, fun hne hr => ?_⟩
  · rw [h4, abs_div, abs_of_pos (by linarith : 0 < 1 + fa.optimiser.lr * normSq φ)]
    exact div_le_self (abs_nonneg _) hpos
  · rw [h4, abs_div, abs_of_pos (by linarith : 0 < 1 + fa.optimiser.lr * normSq φ)]
    refine div_lt_self (abs_pos.2 hr) ?_
    have := mul_pos hlr (lt_of_le_of_ne hn (Ne.symm hne))
    linarith

end

/-! ## C49 Sparse and dense features train identically -/

theorem fits_view {n : Nat} {φ : Features ℝ} (h : Fits n φ) : Fits n (.dense (view φ)) :=
  ⟨trivial, (view_length φ).trans h.2⟩

theorem value_view {φ : Features ℝ} (h : WF φ) (i : Nat) : value (.dense (view φ)) i = value φ i := by
  show (view φ).getD i Scalar.zero = _
  rw [List.getD_eq_getElem?_getD, view_getElem?]
  split
  · rfl
  · next hi => rw [value_of_ge_dim h (Nat.le_of_not_lt hi)]; rfl

/-- SGD, ISGD, SGDMomentum, NAG, Adagrad: the step with `φ` and the step with its dense view have
the same outcome: result, optimiser and weights. -/
theorem C49_sparse_eq_dense (n : Nat) (φ : Features ℝ) (hf : Fits n φ) (w : List ℝ)
    (hw : w.length = n) (s : ℝ) (o1 : SGD ℝ) (o2 : ISGD ℝ) (o3 : SGDMomentum ℝ) (o4 : NAG ℝ)
    (o5 : Adagrad ℝ) (h3 : HasSize.sized n o3) (h4 : HasSize.sized n o4)
    (h5 : HasSize.sized n o5) :
    Optimiser.stepScaled o1 w φ s = Optimiser.stepScaled o1 w (.dense (view φ)) s ∧
    Optimiser.stepScaled o2 w φ s = Optimiser.stepScaled o2 w (.dense (view φ)) s ∧
    Optimiser.stepScaled o3 w φ s = Optimiser.stepScaled o3 w (.dense (view φ)) s ∧
    Optimiser.stepScaled o4 w φ s = Optimiser.stepScaled o4 w (.dense (view φ)) s ∧
    Optimiser.stepScaled o5 w φ s = Optimiser.stepScaled o5 w (.dense (view φ)) s := by
  have hf' := fits_view hf
  have hv := value_view hf.1
  refine ⟨?_, ?_, ?_, ?_, ?_⟩
  · obtain ⟨w₁, a1, a2, a3⟩ := sgd_real hf o1 s hw
    obtain ⟨w₂, b1, b2, b3⟩ := sgd_real hf' o1 s hw
    have : w₁ = w₂ := ext_entry (a2.trans b2.symm) fun i hi => by
      rw [a3 i (a2 ▸ hi), b3 i (a2 ▸ hi), hv]
    rw [a1, b1, this]
  · obtain ⟨w₁, a1, a2, a3⟩ := isgd_real hf o2 s hw
    obtain ⟨w₂, b1, b2, b3⟩ := isgd_real hf' o2 s hw
    have hn : normSq (.dense (view φ)) = normSq φ := by
      unfold normSq
      rw [hf'.2, ← hf.2]
      simp only [hv]
    have : w₁ = w₂ := ext_entry (a2.trans b2.symm) fun i hi => by
      rw [a3 i (a2 ▸ hi), b3 i (a2 ▸ hi), hv, hn]
    rw [a1, b1, this]
  · obtain ⟨v₁, w₁, a1, a2, a3, a4⟩ := momentum_real hf o3 h3 s hw
    obtain ⟨v₂, w₂, b1, b2, b3, b4⟩ := momentum_real hf' o3 h3 s hw
    have hvv : v₁ = v₂ := ext_entry (a2.trans b2.symm) fun i hi => by
      rw [(a4 i (a2 ▸ hi)).1, (b4 i (a2 ▸ hi)).1, hv]
    subst hvv
    have : w₁ = w₂ := ext_entry (a3.trans b3.symm) fun i hi => by
      rw [(a4 i (a3 ▸ hi)).2, (b4 i (a3 ▸ hi)).2]
    rw [a1, b1, this]
  · obtain ⟨v₁, w₁, a1, a2, a3, a4⟩ := nag_real hf o4 h4 s hw
    obtain ⟨v₂, w₂, b1, b2, b3, b4⟩ := nag_real hf' o4 h4 s hw
    have hvv : v₁ = v₂ := ext_entry (a2.trans b2.symm) fun i hi => by
      rw [(a4 i (a2 ▸ hi)).1, (b4 i (a2 ▸ hi)).1, hv]
    subst hvv
    have : w₁ = w₂ := ext_entry (a3.trans b3.symm) fun i hi => by
      rw [(a4 i (a3 ▸ hi)).2, (b4 i (a3 ▸ hi)).2, hv]
    rw [a1, b1, this]
  · obtain ⟨v₁, w₁, a1, a2, a3, a4⟩ := adagrad_real hf o5 h5 s hw
    obtain ⟨v₂, w₂, b1, b2, b3, b4⟩ := adagrad_real hf' o5 h5 s hw
    have hvv : v₁ = v₂ := ext_entry (a2.trans b2.symm) fun i hi => by
      rw [(a4 i (a2 ▸ hi)).1, (b4 i (a2 ▸ hi)).1, hv]
    subst hvv
    have : w₁ = w₂ := ext_entry (a3.trans b3.symm) fun i hi => by
      rw [(a4 i (a3 ▸ hi)).2, (b4 i (a3 ▸ hi)).2, hv]
    rw [a1, b1, this]

/-- Adam and AdaMax: the optimiser's state agrees, and the weights of active features agree. What is
missing is the weights of inactive features (`C49_adam_inactive_differ`). AdaMax's norm needs
`beta2 ≥ 0` and a non-negative state, which every reachable state has (C56). -/
theorem C49_adam_partial (n : Nat) (φ : Features ℝ) (hf : Fits n φ) (w : List ℝ)
    (hw : w.length = n) (s : ℝ) (o1 : Adam ℝ) (o2 : AdaMax ℝ) (h1 : HasSize.sized n o1)
    (h2 : HasSize.sized n o2) (hb : 0 ≤ o2.beta2) (hu : ∀ i < n, 0 ≤ entry o2.expInf i) :
    (∃ o' w₁ w₂, Optimiser.stepScaled o1 w φ s = .ok (.ok (), o', w₁) ∧
      Optimiser.stepScaled o1 w (.dense (view φ)) s = .ok (.ok (), o', w₂) ∧
      ∀ i < n, Active φ i → entry w₁ i = entry w₂ i) ∧
    (∃ o' w₁ w₂, Optimiser.stepScaled o2 w φ s = .ok (.ok (), o', w₁) ∧
      Optimiser.stepScaled o2 w (.dense (view φ)) s = .ok (.ok (), o', w₂) ∧
      ∀ i < n, Active φ i → entry w₁ i = entry w₂ i) := by
  have hf' := fits_view hf
  have hv := value_view hf.1
  have hact : ∀ i < n, Active (.dense (view φ)) i := fun i hi =>
    active_dense (by rw [view_length, hf.2]; exact hi)
  constructor
  · obtain ⟨m₁, v₁, w₁, a1, a2, a3, a4, a5⟩ := adam_real hf o1 h1.1 h1.2 s hw
    obtain ⟨m₂, v₂, w₂, b1, b2, b3, b4, b5⟩ := adam_real hf' o1 h1.1 h1.2 s hw
    have hmm : m₁ = m₂ := ext_entry (a2.trans b2.symm) fun i hi => by
      rw [(a5 i (a2 ▸ hi)).1, (b5 i (a2 ▸ hi)).1, hv]
    have hvv : v₁ = v₂ := ext_entry (a3.trans b3.symm) fun i hi => by
      rw [(a5 i (a3 ▸ hi)).2.1, (b5 i (a3 ▸ hi)).2.1, hv]
    subst hmm; subst hvv
    refine ⟨_, w₁, w₂, a1, b1, fun i hi ha => ?_⟩
    rw [(a5 i hi).2.2.1 ha, (b5 i hi).2.2.1 (hact i hi)]
  · obtain ⟨m₁, v₁, w₁, a1, a2, a3, a4, a5⟩ := adamax_real hf o2 h2.1 h2.2 s hw
    obtain ⟨m₂, v₂, w₂, b1, b2, b3, b4, b5⟩ := adamax_real hf' o2 h2.1 h2.2 s hw
    have hmm : m₁ = m₂ := ext_entry (a2.trans b2.symm) fun i hi => by
      rw [(a5 i (a2 ▸ hi)).1, (b5 i (a2 ▸ hi)).1, hv]
    have hvv : v₁ = v₂ := ext_entry (a3.trans b3.symm) fun i hi => by
      have hi : i < n := a3 ▸ hi
      rw [((b5 i hi).2.1 (hact i hi)).1, hv]
      by_cases ha : Active φ i
      · rw [((a5 i hi).2.1 ha).1]
      · rw [((a5 i hi).2.2 ha).1, value_of_not_active ha, zero_mul, abs_zero,
          max_eq_left (mul_nonneg hb (hu i hi))]
    subst hmm; subst hvv
    refine ⟨_, w₁, w₂, a1, b1, fun i hi ha => ?_⟩
    rw [((a5 i hi).2.1 ha).2, ((b5 i hi).2.1 (hact i hi)).2]

theorem fits_dense_one (a : ℝ) : Fits 1 (.dense [a]) := ⟨trivial, rfl⟩
theorem fits_empty : Fits 1 (.sparse ⟨1, []⟩ : Features ℝ) :=
  ⟨⟨List.nodup_nil, fun e he => by cases he⟩, rfl⟩
theorem not_active_empty : ¬ Active (.sparse ⟨1, []⟩ : Features ℝ) 0 := by
  rintro ⟨a, ha⟩; cases ha

/-- Counterexample to the full claim: after one dense step, a second step with no active feature
leaves the weight alone if the features are sparse and moves it if they are dense. Any Adam or AdaMax
with `lr > 0` and `0 < beta1 < 1`. -/
theorem C49_adam_inactive_differ (lr b1 b2 : ℝ) (hlr : 0 < lr) (h1 : 0 < b1) (h1' : b1 < 1) :
    (∃ o₁ o₂ w₁ w₂,
      History (Adam.new 1 lr b1 b2) [0] [.step (.dense [1]), .stepScaled (.sparse ⟨1, []⟩) 1] o₁ w₁ ∧
      History (Adam.new 1 lr b1 b2) [0] [.step (.dense [1]), .stepScaled (.dense [0]) 1] o₂ w₂ ∧
      w₁ ≠ w₂) ∧
    (∃ o₁ o₂ w₁ w₂,
      History (AdaMax.new 1 lr b1 b2) [0] [.step (.dense [1]), .stepScaled (.sparse ⟨1, []⟩) 1]
        o₁ w₁ ∧
      History (AdaMax.new 1 lr b1 b2) [0] [.step (.dense [1]), .stepScaled (.dense [0]) 1] o₂ w₂ ∧
      w₁ ≠ w₂) := by
  have hp1 : b1 * b1 < 1 := by nlinarith
  have hp1' : b1 * b1 * b1 < 1 := by nlinarith [mul_pos h1 h1]
  constructor
  · obtain ⟨m, v, w, a1, a2, a3, a4, a5⟩ := adam_real (fits_dense_one 1) (Adam.new 1 lr b1 b2) rfl
      rfl 1 (w := [0]) rfl
    obtain ⟨m₁, v₁, w₁, c1, c2, c3, c4, c5⟩ := adam_real fits_empty ({ Adam.new 1 lr b1 b2 with
      beta1Prod := b1 * b1, beta2Prod := b2 * b2, expAvg := m, expAvgSq := v }) a2 a3 1 a4
    obtain ⟨m₂, v₂, w₂, d1, d2, d3, d4, d5⟩ := adam_real (fits_dense_one 0)
      ({ Adam.new 1 lr b1 b2 with
      beta1Prod := b1 * b1, beta2Prod := b2 * b2, expAvg := m, expAvgSq := v }) a2 a3 1 a4
    have hm : entry m 0 = 1 - b1 := by
      rw [(a5 0 Nat.one_pos).1]
      show b1 * entry [Scalar.zero] 0 + (1 - b1) * (1 * 1) = _
      rw [show entry [(Scalar.zero : ℝ)] 0 = 0 from real_zero]; ring
    have hs : Optimiser.step (Adam.new 1 lr b1 b2) [0] (.dense [1]) = _ :=
      (UnitStep.unit _ _ _).trans a1
    refine ⟨_, _, w₁, w₂, .step hs (.stepScaled c1 (.nil _ _)),
      .step hs (.stepScaled d1 (.nil _ _)), fun hc => ?_⟩
    have e1 := (c5 0 Nat.one_pos).2.2.2 not_active_empty
    have e2 := (d5 0 Nat.one_pos).2.2.1 (active_dense Nat.one_pos)
    have e3 := (d5 0 Nat.one_pos).1
    rw [← hc, e1] at e2
    have hm2 : 0 < entry m₂ 0 := by
      rw [e3, hm]
      show 0 < b1 * (1 - b1) + (1 - b1) * (0 * 1)
      nlinarith
    have : 0 < lr * (entry m₂ 0 / (1 - b1 * b1 * b1)) /
        (√(entry v₂ 0 / (1 - b2 * b2 * b2)) + 1e-7) := by
      apply div_pos (mul_pos hlr (div_pos hm2 (by linarith)))
      have := Real.sqrt_nonneg (entry v₂ 0 / (1 - b2 * b2 * b2))
      linarith
    have e2 : entry w 0 = entry w 0 + lr * (entry m₂ 0 / (1 - b1 * b1 * b1)) /
        (√(entry v₂ 0 / (1 - b2 * b2 * b2)) + 1e-7) := e2
    linarith
  · obtain ⟨m, v, w, a1, a2, a3, a4, a5⟩ := adamax_real (fits_dense_one 1)
      (AdaMax.new 1 lr b1 b2) rfl rfl 1 (w := [0]) rfl
    obtain ⟨m₁, v₁, w₁, c1, c2, c3, c4, c5⟩ := adamax_real fits_empty ({ AdaMax.new 1 lr b1 b2 with
      beta1Prod := b1 * b1, expAvg := m, expInf := v }) a2 a3 1 a4
    obtain ⟨m₂, v₂, w₂, d1, d2, d3, d4, d5⟩ := adamax_real (fits_dense_one 0)
      ({ AdaMax.new 1 lr b1 b2 with beta1Prod := b1 * b1, expAvg := m, expInf := v }) a2 a3 1 a4
    have hm : entry m 0 = 1 - b1 := by
      rw [(a5 0 Nat.one_pos).1]
      show b1 * entry [Scalar.zero] 0 + (1 - b1) * (1 * 1) = _
      rw [show entry [(Scalar.zero : ℝ)] 0 = 0 from real_zero]; ring
    have hs : Optimiser.step (AdaMax.new 1 lr b1 b2) [0] (.dense [1]) = _ :=
      (UnitStep.unit _ _ _).trans a1
    refine ⟨_, _, w₁, w₂, .step hs (.stepScaled c1 (.nil _ _)),
      .step hs (.stepScaled d1 (.nil _ _)), fun hc => ?_⟩
    have e1 := ((c5 0 Nat.one_pos).2.2 not_active_empty).2
    obtain ⟨e4, e2⟩ := (d5 0 Nat.one_pos).2.1 (active_dense Nat.one_pos)
    have e3 := (d5 0 Nat.one_pos).1
    rw [← hc, e1] at e2
    have hm2 : 0 < entry m₂ 0 := by
      rw [e3, hm]
      show 0 < b1 * (1 - b1) + (1 - b1) * (0 * 1)
      nlinarith
    have hu : 0 ≤ entry v₂ 0 := by
      rw [e4]; exact le_max_of_le_right (abs_nonneg _)
    have : 0 < lr * (entry m₂ 0 / (1 - b1 * b1 * b1)) / (entry v₂ 0 + 1e-7) := by
      apply div_pos (mul_pos hlr (div_pos hm2 (by linarith)))
      linarith
    have e2 : entry w 0 = entry w 0 + lr * (entry m₂ 0 / (1 - b1 * b1 * b1)) /
        (entry v₂ 0 + 1e-7) := e2
    linarith

/-! ## C50 reset restores the initial optimiser -/

section
variable {K : Type} [Scalar K]

/-- An invariant of one call is an invariant of a history (any arithmetic). -/
theorem history_inv {O : Type} [Optimiser O K] {n : Nat} {I : O → List K → Prop}
    (hs : ∀ o w φ s o₁ w₁, I o w → Fits n φ →
      Optimiser.stepScaled o w φ s = .ok (.ok (), o₁, w₁) → I o₁ w₁)
    (hs' : ∀ o w φ o₁ w₁, I o w → Fits n φ →
      Optimiser.step o w φ = .ok (.ok (), o₁, w₁) → I o₁ w₁)
    (hr : ∀ o w, I o w → I (Optimiser.reset o) w)
    {es : List (Event K)} {o o' : O} {w w' : List K} (h : History o w es o' w')
    (hf : ∀ e ∈ es, e.Fits n) (h0 : I o w) : I o' w' := by
  induction h with
  | nil => exact h0
  | step e _ ih =>
    exact ih (fun e' h' => hf e' (List.mem_cons_of_mem _ h'))
      (hs' _ _ _ _ _ h0 (hf _ List.mem_cons_self) e)
  | stepScaled e _ ih =>
    exact ih (fun e' h' => hf e' (List.mem_cons_of_mem _ h'))
      (hs _ _ _ _ _ _ h0 (hf _ List.mem_cons_self) e)
  | reset _ ih =>
    exact ih (fun e' h' => hf e' (List.mem_cons_of_mem _ h')) (hr _ _ h0)

theorem map_zero_eq {n : Nat} {l : List K} (h : l.length = n) :
    (l.map fun _ => (Scalar.zero : K)) = List.replicate n Scalar.zero := by
  rw [List.map_const', h]

/-- SGD, ISGD, SGDMomentum, NAG, Adagrad: after any history, `reset` gives the optimiser as
constructed (any arithmetic). -/
theorem C50_reset_eq_new (n : Nat) (w : List K) (hw : w.length = n) (es : List (Event K))
    (he : ∀ e ∈ es, e.Fits n) (lr m : K) :
    (∀ o w', History (SGD.mk lr) w es o w' → Optimiser.reset o = SGD.mk lr) ∧
    (∀ o w', History (ISGD.mk lr) w es o w' → Optimiser.reset o = ISGD.mk lr) ∧
    (∀ o w', History (SGDMomentum.new n m lr) w es o w' →
      Optimiser.reset o = SGDMomentum.new n m lr) ∧
    (∀ o w', History (NAG.new n m lr) w es o w' → Optimiser.reset o = NAG.new n m lr) ∧
    (∀ o w', History (Adagrad.new n lr) w es o w' → Optimiser.reset o = Adagrad.new n lr) := by
  refine ⟨fun o w' h => ?_, fun o w' h => ?_, fun o w' h => ?_, fun o w' h => ?_, fun o w' h => ?_⟩
  · refine (history_inv (n := n) (I := fun o w => o = SGD.mk lr ∧ w.length = n)
      ?_ ?_ ?_ h he ⟨rfl, hw⟩).1
    · rintro o w φ s o₁ w₁ ⟨rfl, hw⟩ hf hs
      obtain ⟨w₂, a1, a2, -⟩ := sgd_scaled hf (SGD.mk lr) s hw
      rw [hs] at a1; cases a1; exact ⟨rfl, a2⟩
    · rintro o w φ o₁ w₁ ⟨rfl, hw⟩ hf hs
      obtain ⟨w₂, a1, a2, -⟩ := sgd_step hf (SGD.mk lr) hw
      rw [hs] at a1; cases a1; exact ⟨rfl, a2⟩
    · exact fun o w h => h
  · refine (history_inv (n := n) (I := fun o w => o = ISGD.mk lr ∧ w.length = n)
      ?_ ?_ ?_ h he ⟨rfl, hw⟩).1
    · rintro o w φ s o₁ w₁ ⟨rfl, hw⟩ hf hs
      obtain ⟨w₂, a1, a2, -⟩ := isgd_scaled hf (ISGD.mk lr) s hw
      rw [hs] at a1; cases a1; exact ⟨rfl, a2⟩
    · rintro o w φ o₁ w₁ ⟨rfl, hw⟩ hf hs
      obtain ⟨w₂, a1, a2, -⟩ := isgd_step hf (ISGD.mk lr) hw
      rw [hs] at a1; cases a1; exact ⟨rfl, a2⟩
    · exact fun o w h => h
  · have hs : ∀ (o : SGDMomentum K) w φ s o₁ w₁, ((o.momentum = m ∧ o.learningRate = lr ∧
        o.velocity.length = n) ∧ w.length = n) → Fits n φ →
        Optimiser.stepScaled o w φ s = .ok (.ok (), o₁, w₁) →
        ((o₁.momentum = m ∧ o₁.learningRate = lr ∧ o₁.velocity.length = n) ∧ w₁.length = n) := by
      rintro o w φ s o₁ w₁ ⟨⟨h1, h2, h3⟩, hw⟩ hf hs
      obtain ⟨v, w₂, a1, -, a2, a3, -⟩ := momentum_scaled hf o h3 s hw
      rw [hs] at a1; cases a1; exact ⟨⟨h1, h2, a2⟩, a3⟩
    obtain ⟨⟨h1, h2, h3⟩, -⟩ := history_inv (n := n) hs (fun o w φ => hs o w φ Scalar.one)
      (fun o w h => ⟨⟨h.1.1, h.1.2.1, length_reset h.1.2.2⟩, h.2⟩) h he
      ⟨⟨rfl, rfl, List.length_replicate⟩, hw⟩
    show ({ o with velocity := _ } : SGDMomentum K) = _
    rw [map_zero_eq h3, h1, h2]; rfl
  · have hs : ∀ (o : NAG K) w φ s o₁ w₁, ((o.momentum = m ∧ o.learningRate = lr ∧
        o.velocity.length = n) ∧ w.length = n) → Fits n φ →
        Optimiser.stepScaled o w φ s = .ok (.ok (), o₁, w₁) →
        ((o₁.momentum = m ∧ o₁.learningRate = lr ∧ o₁.velocity.length = n) ∧ w₁.length = n) := by
      rintro o w φ s o₁ w₁ ⟨⟨h1, h2, h3⟩, hw⟩ hf hs
      obtain ⟨v, w₂, w₃, a1, -, -, a2, -, a3, -⟩ := nag_scaled hf o h3 s hw
      rw [hs] at a1; cases a1; exact ⟨⟨h1, h2, a2⟩, a3⟩
    obtain ⟨⟨h1, h2, h3⟩, -⟩ := history_inv (n := n) hs (fun o w φ => hs o w φ Scalar.one)
      (fun o w h => ⟨⟨h.1.1, h.1.2.1, length_reset h.1.2.2⟩, h.2⟩) h he
      ⟨⟨rfl, rfl, List.length_replicate⟩, hw⟩
    show ({ o with velocity := _ } : NAG K) = _
    rw [map_zero_eq h3, h1, h2]; rfl
  · have hs : ∀ (o : Adagrad K) w φ s o₁ w₁, ((o.learningRate = lr ∧
        o.accumulator.length = n) ∧ w.length = n) → Fits n φ →
        Optimiser.stepScaled o w φ s = .ok (.ok (), o₁, w₁) →
        ((o₁.learningRate = lr ∧ o₁.accumulator.length = n) ∧ w₁.length = n) := by
      rintro o w φ s o₁ w₁ ⟨⟨h2, h3⟩, hw⟩ hf hs
      obtain ⟨v, w₂, a1, a2, a3, -⟩ := adagrad_scaled hf o h3 s hw
      rw [hs] at a1; cases a1; exact ⟨⟨h2, a2⟩, a3⟩
    obtain ⟨⟨h2, h3⟩, -⟩ := history_inv (n := n) hs (fun o w φ => hs o w φ Scalar.one)
      (fun o w h => ⟨⟨h.1.1, length_reset h.1.2⟩, h.2⟩) h he
      ⟨⟨rfl, List.length_replicate⟩, hw⟩
    show ({ o with accumulator := _ } : Adagrad K) = _
    rw [map_zero_eq h3, h2]; rfl

/-- Adam and AdaMax: `reset` restores everything but the bias-correction products, which keep their
value from before (`C50_adam_not_reset` shows they differ from a new optimiser's). -/
theorem C50_adam_partial (n : Nat) (w : List K) (hw : w.length = n) (es : List (Event K))
    (he : ∀ e ∈ es, e.Fits n) (lr b1 b2 : K) :
    (∀ o w', History (Adam.new n lr b1 b2) w es o w' → Optimiser.reset o =
      { Adam.new n lr b1 b2 with beta1Prod := o.beta1Prod, beta2Prod := o.beta2Prod }) ∧
    (∀ o w', History (AdaMax.new n lr b1 b2) w es o w' → Optimiser.reset o =
      { AdaMax.new n lr b1 b2 with beta1Prod := o.beta1Prod }) := by
  constructor
  · intro o w' h
    have hs : ∀ (o : Adam K) w φ s o₁ w₁, ((o.beta1 = b1 ∧ o.beta2 = b2 ∧ o.learningRate = lr ∧
        o.expAvg.length = n ∧ o.expAvgSq.length = n) ∧ w.length = n) → Fits n φ →
        Optimiser.stepScaled o w φ s = .ok (.ok (), o₁, w₁) →
        ((o₁.beta1 = b1 ∧ o₁.beta2 = b2 ∧ o₁.learningRate = lr ∧
        o₁.expAvg.length = n ∧ o₁.expAvgSq.length = n) ∧ w₁.length = n) := by
      rintro o w φ s o₁ w₁ ⟨⟨h1, h2, h3, h4, h5⟩, hw⟩ hf hs
      obtain ⟨m, v, w₂, a1, a2, a3, a4, -⟩ := adam_scaled hf o h4 h5 s hw
      rw [hs] at a1; cases a1; exact ⟨⟨h1, h2, h3, a2, a3⟩, a4⟩
    obtain ⟨⟨h1, h2, h3, h4, h5⟩, -⟩ := history_inv (n := n) hs (fun o w φ => hs o w φ Scalar.one)
      (fun o w h => ⟨⟨h.1.1, h.1.2.1, h.1.2.2.1, length_reset h.1.2.2.2.1,
        length_reset h.1.2.2.2.2⟩, h.2⟩) h he
      ⟨⟨rfl, rfl, rfl, List.length_replicate, List.length_replicate⟩, hw⟩
    show ({ o with expAvg := _, expAvgSq := _ } : Adam K) = _
    rw [map_zero_eq h4, map_zero_eq h5, h1, h2, h3]; rfl
  · intro o w' h
    have hs : ∀ (o : AdaMax K) w φ s o₁ w₁, ((o.beta1 = b1 ∧ o.beta2 = b2 ∧ o.learningRate = lr ∧
        o.expAvg.length = n ∧ o.expInf.length = n) ∧ w.length = n) → Fits n φ →
        Optimiser.stepScaled o w φ s = .ok (.ok (), o₁, w₁) →
        ((o₁.beta1 = b1 ∧ o₁.beta2 = b2 ∧ o₁.learningRate = lr ∧
        o₁.expAvg.length = n ∧ o₁.expInf.length = n) ∧ w₁.length = n) := by
      rintro o w φ s o₁ w₁ ⟨⟨h1, h2, h3, h4, h5⟩, hw⟩ hf hs
      obtain ⟨m, v, w₂, a1, a2, a3, a4, -⟩ := adamax_scaled hf o h4 h5 s hw
      rw [hs] at a1; cases a1; exact ⟨⟨h1, h2, h3, a2, a3⟩, a4⟩
    obtain ⟨⟨h1, h2, h3, h4, h5⟩, -⟩ := history_inv (n := n) hs (fun o w φ => hs o w φ Scalar.one)
      (fun o w h => ⟨⟨h.1.1, h.1.2.1, h.1.2.2.1, length_reset h.1.2.2.2.1,
        length_reset h.1.2.2.2.2⟩, h.2⟩) h he
      ⟨⟨rfl, rfl, rfl, List.length_replicate, List.length_replicate⟩, hw⟩
    show ({ o with expAvg := _, expInf := _ } : AdaMax K) = _
    rw [map_zero_eq h4, map_zero_eq h5, h1, h2, h3]; rfl

end

/-- Counterexample to the full claim: one step and a reset leave an optimiser that differs from a
new one, for every size and every `beta1` other than 0 and 1. -/
theorem C50_adam_not_reset (n : Nat) (w : List ℝ) (hw : w.length = n) (φ : Features ℝ)
    (hf : Fits n φ) (lr b1 b2 : ℝ) (h0 : b1 ≠ 0) (h1 : b1 ≠ 1) :
    (∃ o w', History (Adam.new n lr b1 b2) w [.step φ] o w' ∧
      Optimiser.reset o ≠ Adam.new n lr b1 b2) ∧
    (∃ o w', History (AdaMax.new n lr b1 b2) w [.step φ] o w' ∧
      Optimiser.reset o ≠ AdaMax.new n lr b1 b2) := by
  have hne : b1 * b1 ≠ b1 := fun h => h1 (mul_left_cancel₀ h0 (by rw [h, mul_one]))
  constructor
  · obtain ⟨m, v, w', a1, -⟩ := adam_real hf (Adam.new n lr b1 b2) List.length_replicate
      List.length_replicate 1 hw
    refine ⟨_, _, .step ((UnitStep.unit _ _ _).trans a1) (.nil _ _), fun hc => ?_⟩
    exact hne (congrArg Adam.beta1Prod hc)
  · obtain ⟨m, v, w', a1, -⟩ := adamax_real hf (AdaMax.new n lr b1 b2) List.length_replicate
      List.length_replicate 1 hw
    refine ⟨_, _, .step ((UnitStep.unit _ _ _).trans a1) (.nil _ _), fun hc => ?_⟩
    exact hne (congrArg AdaMax.beta1Prod hc)

/-! ### Concrete cases -/

/-- A history with a dense step, a scaled sparse step and a reset. -/
def exHistory : List (Event ℝ) :=
  [.step (.dense [1, 2]), .stepScaled (.sparse ⟨2, [(1, 3)]⟩) (-2), .reset,
    .stepScaled (.sparse ⟨2, []⟩) 5]

theorem exHistory_fits : ∀ e ∈ exHistory, e.Fits 2 := by
  intro e he
  simp only [exHistory, List.mem_cons, List.not_mem_nil, or_false] at he
  rcases he with rfl | rfl | rfl | rfl
  · exact ⟨trivial, rfl⟩
  · refine ⟨⟨by simp, ?_⟩, rfl⟩
    intro e he
    simp only [List.mem_cons, List.not_mem_nil, or_false] at he
    subst he; decide
  · trivial
  · exact ⟨⟨by simp, fun e he => by cases he⟩, rfl⟩

example : ∃ (o : Adam ℝ) (w' : List ℝ), History (Adam.new 2 0.1 0.9 0.999) [7, 8] exHistory o w' ∧
    w'.length = 2 ∧ o.expAvg.length = 2 ∧ o.expAvgSq.length = 2 :=
  (C44_history 2 [7, 8] rfl exHistory exHistory_fits 0.1 0.9 0.9 0.999).2.2.2.2.2.1

/-- Weight 1 after the history: `8 + 0.1 (2 + 3·(-2) + 0)`. -/
example : ∃ o w', History (SGD.mk (0.1 : ℝ)) [7, 8] exHistory o w' ∧ entry w' 1 = 8 + 0.1 * (2 + 3 * -2) := by
  obtain ⟨o, w', h, -⟩ := (C44_history 2 [7, 8] rfl exHistory exHistory_fits (0.1 : ℝ) 0 0 0).1
  refine ⟨o, w', h, ?_⟩
  rw [(C46_weighted_sum 2 0.1 [7, 8] rfl exHistory exHistory_fits o w' h).2.2 1 (by norm_num)]
  have : value (.sparse ⟨2, []⟩ : Features ℝ) 1 = 0 := real_zero
  simp only [exHistory, List.map_cons, List.map_nil, List.sum_cons, List.sum_nil, Event.grad, this]
  show (8 : ℝ) + 0.1 * (2 + (3 * -2 + (0 + (0 * 5 + 0)))) = _
  norm_num

/-- An approximator meeting the hypotheses of C47 and C48. -/
example : ∃ fa', Trained (LFA.mk (FixedDense.mk [(1 : ℝ), 2]) [0, 0] (SGD.mk (0.1 : ℝ))) () (fun _ p => 3 - p)
      5 fa' ∧
    fa'.evaluate () = .ok (.ok (3 - (1 - 0.1 * normSq (.dense [1, 2])) ^ 5 * (3 - 0))) := by
  refine C47_residual (LFA.mk (FixedDense.mk [(1 : ℝ), 2]) [0, 0] (SGD.mk (0.1 : ℝ))) () (.dense [1, 2]) rfl
    ⟨trivial, rfl⟩ 3 0 ?_ 5
  rw [evaluate_eq (v := (0 : ℝ)) (φ := .dense [1, 2]) rfl]
  rw [dot_real (φ := .dense [1, 2]) (w := [0, 0]) trivial rfl]
  simp [inner, dim, Finset.sum_range_succ]

end Lfa

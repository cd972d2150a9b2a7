import Verif.Props.C187
import Verif.Props.C40_C43
import Verif.Props.Sharp

/-!
# C05, C41, C45 and C49: further cases

`addto` and `step` agree with their scaled versions in rounded arithmetic too, bit for bit; and normalising all-zero features is scale invariant and
idempotent as well, since the result is NaN. For AdaMax, as for Adam, it is said exactly when sparse and dense features train alike.
-/

set_option linter.unusedSectionVars false

namespace Lfa

open Spec Machine

/-- C05: in rounded arithmetic too `addto` is `scaled_addto` with 1. -/
theorem C05_addto_eq_scaled_f64 {M : Machine} (φ : Features (FP M)) (w : List (FP M)) : φ.addto w = φ.scaledAddto Scalar.one w := by
  have h : ∀ a : FP M, (Scalar.one *. a) = a := fun a => by
    rw [mul_comm_fp, mul_one_scalar]
  cases φ <;> simp [Features.addto, Features.scaledAddto, h]

/-- C45: in rounded arithmetic too `step` is `step_scaled` with 1, for SGD and ISGD; the other optimisers are covered by `C45_others`. -/
theorem C45_f64 {M : Machine} (o : SGD (FP M)) (o' : ISGD (FP M)) (w : List (FP M)) (φ : Features (FP M)) :
    Optimiser.step o w φ = Optimiser.stepScaled o w φ Scalar.one ∧ Optimiser.step o' w φ = Optimiser.stepScaled o' w φ Scalar.one :=
  C45_sgd (fun x => mul_one_scalar x) o o' w φ

/-! ## C41 on all-zero features -/

theorem null_values {φ : Features ℝ} (hz : ¬ NonZero φ) : (toX φ).values = List.replicate (toX φ).values.length (XReal.fin 0) := by
  refine List.eq_replicate_of_mem fun a ha => ?_
  have h0 : ∀ i r, Stored φ i r → r = 0 := fun i r h => by
    by_contra hr
    exact hz ⟨i, r, h, hr⟩
  cases φ with
  | dense da =>
    obtain ⟨r, hr, rfl⟩ := List.mem_map.1 (show a ∈ da.map XReal.fin from ha)
    obtain ⟨i, hi, rfl⟩ := List.mem_iff_getElem.1 hr
    rw [h0 i _ (List.getElem?_eq_getElem hi)]
  | sparse sa =>
    obtain ⟨e, he, rfl⟩ := List.mem_map.1 (show a ∈ (sa.activations.map fun e => (e.1, XReal.fin e.2)).map Prod.snd from ha)
    obtain ⟨d, hd, rfl⟩ := List.mem_map.1 he
    show XReal.fin d.2 = _
    rw [h0 d.1 d.2 hd]

theorem null_l1 {φ : Features ℝ} (hz : ¬ NonZero φ) : l1Norm (toX φ) = XReal.fin 0 := by
  unfold l1Norm
  rw [null_values hz]
  have e : (Scalar.zero : XReal) = .fin 0 := congrArg XReal.fin Nat.cast_zero
  rw [e]
  refine foldl_replicate_fix ?_ _
  show XReal.add (.fin 0) (XReal.abs (.fin 0)) = .fin 0
  simp [XReal.add, XReal.abs]

theorem null_l2 {φ : Features ℝ} (hz : ¬ NonZero φ) : l2Norm (toX φ) = XReal.fin 0 := by
  unfold l2Norm
  rw [null_values hz]
  have e : (Scalar.zero : XReal) = .fin 0 := congrArg XReal.fin Nat.cast_zero
  rw [e, foldl_replicate_fix]
  · show XReal.sqrt (.fin 0) = _
    simp [XReal.sqrt]
  · show XReal.add (.fin 0) (XReal.mul (.fin 0) (.fin 0)) = .fin 0
    simp [XReal.add, XReal.mul]

theorem null_linf {φ : Features ℝ} (hz : ¬ NonZero φ) : (toX φ).values = [] ∨ linfNorm (toX φ) = XReal.fin 0 := by
  unfold linfNorm
  rw [null_values hz]
  cases (toX φ).values.length with
  | zero => exact Or.inl rfl
  | succ n =>
    right
    rw [List.replicate_succ, List.foldl_cons]
    have e : Scalar.max (ScalarInf.negInf : XReal) (Scalar.abs (.fin 0)) = .fin 0 := by
      show XReal.max .ninf (XReal.abs (.fin 0)) = _
      simp [XReal.max, XReal.abs, XReal.lt]
    rw [e]
    refine foldl_replicate_fix ?_ _
    show XReal.max (.fin 0) (XReal.abs (.fin 0)) = .fin 0
    simp [XReal.max, XReal.abs, XReal.lt]

/-- Dividing all-zero features by their norm leaves NaN in every stored place. -/
theorem null_divide {φ : Features ℝ} (h : WF φ) (hz : ¬ NonZero φ) {z : XReal} (hn : (toX φ).values = [] ∨ z = .fin 0) :
    divideBy (toX φ) z = mapValues (fun _ => XReal.nan) φ := by
  rw [show toX φ = mapValues XReal.fin φ from rfl, divideBy_eq (mapValues_wf h)]
  have h0 : ∀ i r, Stored φ i r → r = 0 := fun i r h => by
    by_contra hr
    exact hz ⟨i, r, h, hr⟩
  cases φ with
  | dense da =>
    show Features.dense ((da.map XReal.fin).map _) = Features.dense (da.map _)
    rw [List.map_map]
    refine congrArg Features.dense (List.map_congr_left fun r hr => ?_)
    rcases hn with hn | rfl
    · rw [show da = [] from List.map_eq_nil_iff.1 hn] at hr
      cases hr
    · obtain ⟨i, hi, rfl⟩ := List.mem_iff_getElem.1 hr
      show XReal.div (.fin da[i]) (.fin 0) = _
      rw [h0 i _ (List.getElem?_eq_getElem hi), xdiv_zero]
  | sparse sa =>
    show Features.sparse ⟨sa.dim, (sa.activations.map fun e => (e.1, XReal.fin e.2)).map _⟩ = Features.sparse ⟨sa.dim, sa.activations.map _⟩
    rw [List.map_map]
    refine congrArg (fun l => Features.sparse ⟨sa.dim, l⟩) (List.map_congr_left fun e he => ?_)
    rcases hn with hn | rfl
    · rw [show sa.activations = [] from List.map_eq_nil_iff.1 (List.map_eq_nil_iff.1 hn)] at he
      cases he
    · show (e.1, XReal.div (.fin e.2) (.fin 0)) = _
      rw [h0 e.1 e.2 he, xdiv_zero]

theorem nan_divide {φ : Features ℝ} (h : WF φ) (z : XReal) :
    divideBy (mapValues (fun _ => XReal.nan) φ) z = mapValues (fun _ => XReal.nan) φ := by
  rw [divideBy_eq (mapValues_wf h), mapValues_comp]
  exact mapValues_congr fun a => by show XReal.div .nan z = .nan; simp [XReal.div]

/-- C41 on all-zero features, dense or sparse: each of the three normalisers gives NaN in every stored place, normalising twice gives the same, and
so does normalising a multiple. With `C41_scale_l1` to `C41_idempotent_linf` this covers all features. -/
theorem C41_null {B B' I : Type} [Space B] [Space B'] [Basis B I XReal] [Basis B' I XReal] (b : B) (b' : B') (x : I) (φ : Features ℝ) (h : WF φ)
    (hz : ¬ NonZero φ) (c : ℝ) (hp : Basis.project b x = .ok (.ok (toX φ)))
    (hp' : Basis.project b' x = .ok (.ok (toX (mapValues (fun a => c * a) φ)))) :
    let ν : P (Result (Features XReal)) := .ok (.ok (mapValues (fun _ => XReal.nan) φ))
    (Basis.project (L1Normaliser.mk b) x = ν ∧ Basis.project (L1Normaliser.mk (L1Normaliser.mk b)) x = ν ∧
      Basis.project (L1Normaliser.mk b') x = ν) ∧
    (Basis.project (L2Normaliser.mk b) x = ν ∧ Basis.project (L2Normaliser.mk (L2Normaliser.mk b)) x = ν ∧
      Basis.project (L2Normaliser.mk b') x = ν) ∧
    (Basis.project (LinfNormaliser.mk b) x = ν ∧ Basis.project (LinfNormaliser.mk (LinfNormaliser.mk b)) x = ν ∧
      Basis.project (LinfNormaliser.mk b') x = ν) := by
  have e : mapValues (fun a => c * a) φ = φ := by
    have h0 : ∀ i r, Stored φ i r → r = 0 := fun i r h => by
      by_contra hr
      exact hz ⟨i, r, h, hr⟩
    cases φ with
    | dense da =>
      refine congrArg Features.dense ((List.map_congr_left fun r hr => ?_).trans (List.map_id da))
      obtain ⟨i, hi, rfl⟩ := List.mem_iff_getElem.1 hr
      rw [h0 i _ (List.getElem?_eq_getElem hi), mul_zero]; rfl
    | sparse sa =>
      refine congrArg (fun l => Features.sparse ⟨sa.dim, l⟩) ((List.map_congr_left fun d hd => ?_).trans (List.map_id sa.activations))
      have := h0 d.1 d.2 hd
      show (d.1, c * d.2) = d
      rw [this, mul_zero, ← this]
  rw [e] at hp'
  have d1 := null_divide h hz (Or.inr (null_l1 hz))
  have d2 := null_divide h hz (Or.inr (null_l2 hz))
  have d3 := null_divide h hz (null_linf hz)
  have q1 := (l1_project hp).trans (congrArg (fun φ => Except.ok (Except.ok φ)) d1)
  have q2 := (l2_project hp).trans (congrArg (fun φ => Except.ok (Except.ok φ)) d2)
  have q3 := (linf_project hp).trans (congrArg (fun φ => Except.ok (Except.ok φ)) d3)
  exact ⟨⟨q1, (l1_project q1).trans (congrArg (fun φ => Except.ok (Except.ok φ)) (nan_divide h _)),
      (l1_project hp').trans (congrArg (fun φ => Except.ok (Except.ok φ)) d1)⟩,
    ⟨q2, (l2_project q2).trans (congrArg (fun φ => Except.ok (Except.ok φ)) (nan_divide h _)),
      (l2_project hp').trans (congrArg (fun φ => Except.ok (Except.ok φ)) d2)⟩,
    q3, (linf_project q3).trans (congrArg (fun φ => Except.ok (Except.ok φ)) (nan_divide h _)),
      (linf_project hp').trans (congrArg (fun φ => Except.ok (Except.ok φ)) d3)⟩

/-! ## C49 for AdaMax -/

/-- C49, exactly when a step of AdaMax with sparse features equals the step with their dense view; `C49_adam_iff` is the same for Adam. -/
theorem C49_adamax_iff (n : Nat) (φ : Features ℝ) (hf : Fits n φ) (w : List ℝ) (hw : w.length = n) (s : ℝ) (o : AdaMax ℝ)
    (h : HasSize.sized n o) (hb : 0 ≤ o.beta2) (hu : ∀ i < n, 0 ≤ entry o.expInf i) :
    ∃ o' w₁ w₂, Optimiser.stepScaled o w φ s = .ok (.ok (), o', w₁) ∧
      Optimiser.stepScaled o w (.dense (view φ)) s = .ok (.ok (), o', w₂) ∧
      (w₁ = w₂ ↔ ∀ i < n, ¬ Active φ i → o.learningRate * o.beta1 * entry o.expAvg i = 0 ∨ o.beta1Prod * o.beta1 = 1) := by
  obtain ⟨o', w₁, w₂, c1, c2, c3⟩ := (C49_adam_partial n φ hf w hw s (Adam.new n 0 0 0) o ⟨List.length_replicate .., List.length_replicate ..⟩ h hb hu).2
  refine ⟨o', w₁, w₂, c1, c2, ?_⟩
  have hf' := fits_view hf
  have hv := value_view hf.1
  obtain ⟨m₁, v₁, u₁, a1, a2, a3, a4, a5⟩ := adamax_real hf o h.1 h.2 s hw
  obtain ⟨m₂, v₂, u₂, b1, b2, b3, b4, b5⟩ := adamax_real hf' o h.1 h.2 s hw
  rw [a1] at c1
  rw [b1] at c2
  cases (Prod.mk.inj (Prod.mk.inj (Except.ok.inj c1)).2).2
  cases (Prod.mk.inj (Prod.mk.inj (Except.ok.inj c2)).2).2
  have hact : ∀ i < n, Active (.dense (view φ)) i := fun i hi => active_dense (by rw [view_length, hf.2]; exact hi)
  have key : ∀ i < n, ¬ Active φ i → (entry w₁ i = entry w₂ i ↔
      (o.learningRate * o.beta1 * entry o.expAvg i = 0 ∨ o.beta1Prod * o.beta1 = 1)) := by
    intro i hi hna
    have hz : value φ i = 0 := value_of_not_active hna
    have hd : entry v₂ i + 1e-7 ≠ (0 : ℝ) := by
      rw [((b5 i hi).2.1 (hact i hi)).1]
      have := le_max_right (o.beta2 * entry o.expInf i) |value (.dense (view φ)) i * s|
      have := abs_nonneg (value (.dense (view φ)) i * s)
      have : (0 : ℝ) < 1e-7 := by norm_num
      linarith
    rw [((a5 i hi).2.2 hna).2, ((b5 i hi).2.1 (hact i hi)).2, (b5 i hi).1, hv, hz, zero_mul, mul_zero, add_zero, left_eq_add, div_eq_zero_iff,
      or_iff_left hd, mul_div_assoc', div_eq_zero_iff, sub_eq_zero, mul_assoc]
    exact or_congr_right eq_comm
  constructor
  · intro he i hi hna
    exact (key i hi hna).1 (by rw [he])
  · intro hc
    refine ext_entry (a4.trans b4.symm) fun i hi => ?_
    have hi : i < n := a4 ▸ hi
    by_cases ha : Active φ i
    · exact c3 i hi ha
    · exact (key i hi ha).2 (hc i hi ha)

end Lfa

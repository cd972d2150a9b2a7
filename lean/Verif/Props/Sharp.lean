import Verif.Props.C12_C16
import Verif.Props.C17_C22
import Verif.Props.C23_C29
import Verif.Props.C51_C54

/-!
# Exactly when the refuted claims hold

For properties that the code violates in some cases, the cases in which it satisfies them, as
equivalences.
-/

set_option linter.unusedSectionVars false

namespace Lfa

open Spec

section
variable {K : Type} [Scalar K]

theorem stored_iff_get? {sa : SparseActivations K} (h : (sa.activations.map Prod.fst).Nodup) (i : Nat) :
    (∃ a, Stored (.sparse sa) i a) ↔ sa.activations.get? i ≠ none := by
  constructor
  · rintro ⟨a, ha⟩
    rw [HMap.get?_of_mem h (show (i, a) ∈ sa.activations from ha)]
    exact Option.some_ne_none _
  · intro hn
    rcases hg : sa.activations.get? i with _ | a
    · exact absurd hg hn
    · exact ⟨a, HMap.mem_of_get? hg⟩

/-- `map` is pointwise exactly when the features are dense, or `f 0` is 0, or `f 0` fails the test
`|f 0| < 1e-5`, or no feature is inactive (any arithmetic). -/
theorem C07_map_pointwise_iff (φ : Features K) (h : WF φ) (f : K → K) :
    ∃ r, φ.map f = .ok r ∧ (view r = (view φ).map f ↔
      (φ.isDense = true ∨ f Scalar.zero = Scalar.zero ∨
        Scalar.lt (Scalar.abs (f Scalar.zero)) (Scalar.sci 1 5) = false ∨
        ∀ i < dim φ, ∃ a, Stored φ i a)) := by
  by_cases hf : f Scalar.zero = Scalar.zero ∨
      Scalar.lt (Scalar.abs (f Scalar.zero)) (Scalar.sci 1 5) = false
  · obtain ⟨r, h1, -, h2⟩ := C07_map_pointwise_partial φ h f hf
    refine ⟨r, h1, fun _ => ?_, fun _ => h2⟩
    rcases hf with hf | hf
    · exact .inr (.inl hf)
    · exact .inr (.inr (.inl hf))
  · cases φ with
    | dense da => exact ⟨_, rfl, fun _ => .inl rfl, fun _ => by rw [view_dense, view_dense]⟩
    | sparse sa =>
      rw [not_or, Bool.not_eq_false] at hf
      refine ⟨_, map_sparse_preserving h.1 hf.2, ?_⟩
      have key : ∀ i, value (.sparse ⟨sa.dim, sa.activations.map fun e => (e.1, f e.2)⟩) i =
          f (value (.sparse sa) i) ↔ ∃ a, Stored (.sparse sa) i a := by
        intro i
        rw [value_map_entries, value_sparse, stored_iff_get? h.1]
        rcases HMap.get? sa.activations i with _ | a
        · simpa using fun e => hf.1 e.symm
        · simp
      constructor
      · intro hv
        refine .inr (.inr (.inr fun i hi => (key i).1 ?_))
        unfold view at hv
        rw [List.map_map] at hv
        exact List.map_inj_left.1 hv i (List.mem_range.2 hi)
      · rintro (hc | hc | hc | hc)
        · cases hc
        · exact absurd hc hf.1
        · rw [hf.2] at hc; cases hc
        · unfold view
          rw [List.map_map]
          exact List.map_congr_left fun i hi => (key i).2 (hc i (List.mem_range.1 hi))

/-- `merge` of dense with sparse features is pointwise exactly when `f x 0 = x` at the inactive
indices. -/
theorem C08_dense_sparse_iff (da : List K) (sa : SparseActivations K) (h : WF (.sparse sa))
    (hd : da.length = sa.dim) (f : K → K → K) :
    ∃ r, (Features.dense da).merge (.sparse sa) f = .ok r ∧
      ((∀ i < da.length, value r i = f (value (.dense da) i) (value (.sparse sa) i)) ↔
        ∀ i < da.length, (∀ a, ¬ Stored (.sparse sa) i a) →
          f (value (.dense da) i) Scalar.zero = value (.dense da) i) := by
  refine ⟨.dense (scatterAll f sa.activations da), ?_, ?_⟩
  · show (Features.scatterMod f sa.activations da >>= _) = _
    rw [Features.scatterMod_ok f h.1 fun e he => hd ▸ h.2 e he]; rfl
  · have key : ∀ i < da.length, value (.dense (scatterAll f sa.activations da)) i =
        match sa.activations.get? i with
        | some a => f (value (.dense da) i) a
        | none => value (.dense da) i := by
      intro i hi
      rw [value_dense, value_dense, List.getD_eq_getElem?_getD, List.getD_eq_getElem?_getD,
        scatterAll_getElem?, List.getElem?_eq_getElem hi]
      rcases HMap.get? sa.activations i with _ | a <;> rfl
    refine forall_congr' fun i => forall_congr' fun hi => ?_
    rw [key i hi, value_sparse, ← not_exists, stored_iff_get? h.1]
    rcases HMap.get? sa.activations i with _ | a
    · simp only [Option.getD_none, not_true, not_false_iff, true_imp_iff, ne_eq]
      exact eq_comm
    · simp

/-- `merge` of sparse with sparse features is pointwise exactly when `f 0 0 = 0` or every index is
stored on one side. -/
theorem C08_sparse_sparse_iff (sa₁ sa₂ : SparseActivations K) (f : K → K → K) :
    ∃ r, (Features.sparse sa₁).merge (.sparse sa₂) f = .ok r ∧
      ((∀ i < dim r, value r i = f (value (.sparse sa₁) i) (value (.sparse sa₂) i)) ↔
        f Scalar.zero Scalar.zero = Scalar.zero ∨
        ∀ i < max sa₁.dim sa₂.dim, (∃ a, Stored (.sparse sa₁) i a) ∨ ∃ a, Stored (.sparse sa₂) i a) := by
  refine ⟨_, rfl, ?_⟩
  have st : ∀ (sa : SparseActivations K) (i : Nat),
      (∃ a, Stored (.sparse sa) i a) ↔ i ∈ sa.activations.map Prod.fst := by
    intro sa i
    rw [List.mem_map]
    exact ⟨fun ⟨a, ha⟩ => ⟨_, ha, rfl⟩, by rintro ⟨e, he, rfl⟩; exact ⟨e.2, he⟩⟩
  have none : ∀ i, i ∉ sa₁.activations.map Prod.fst → i ∉ sa₂.activations.map Prod.fst →
      (value (.sparse (Features.mergeSparse sa₁ sa₂ f)) i =
        f (value (.sparse sa₁) i) (value (.sparse sa₂) i) ↔ f Scalar.zero Scalar.zero = Scalar.zero) := by
    intro i n1 n2
    rw [value_mergeSparse_none _ _ _ _ n1 n2, value_sparse, value_sparse,
      (HMap.get?_eq_none_iff _ _).2 n1, (HMap.get?_eq_none_iff _ _).2 n2]
    exact eq_comm
  constructor
  · intro hv
    by_contra hc
    rw [not_or] at hc
    obtain ⟨hz, hc⟩ := hc
    apply hc
    intro i hi
    rw [st, st]
    by_contra hn
    rw [not_or] at hn
    exact hz ((none i hn.1 hn.2).1 (hv i hi))
  · rintro hc i hi
    by_cases hk : i ∈ sa₁.activations.map Prod.fst ∨ i ∈ sa₂.activations.map Prod.fst
    · exact value_mergeSparse _ _ _ _ hk
    · have hk' := not_or.1 hk
      refine (none i hk'.1 hk'.2).2 ?_
      rcases hc with hc | hc
      · exact hc
      · have := hc i hi
        rw [st, st] at this
        exact absurd this hk

/-- `features[i]` agrees with the dense view exactly when the features are dense or no activation
other than 1 is stored for `i`. -/
theorem C11_index_iff (φ : Features K) (h : WF φ) (i : Nat) (hi : i < φ.nFeatures) :
    φ.index i = .ok (value φ i) ↔ (φ.isDense = true ∨ ∀ a, Stored φ i a → a = Scalar.one) := by
  cases φ with
  | dense da => exact ⟨fun _ => .inl rfl, fun _ => C11_index_partial _ i hi (.inl rfl)⟩
  | sparse sa =>
    obtain ⟨h1, h2⟩ := C11_index_sparse sa i
    constructor
    · intro he
      refine .inr fun a ha => ?_
      rw [h1 ⟨a, ha⟩, value_of_stored (φ := .sparse sa) h.1 ha] at he
      cases he
      rfl
    · rintro (hc | hc)
      · cases hc
      · by_cases hs : ∃ a, Stored (.sparse sa) i a
        · obtain ⟨a, ha⟩ := hs
          rw [h1 ⟨a, ha⟩, value_of_stored (φ := .sparse sa) h.1 ha, hc a ha]
        · rw [h2 (not_exists.1 hs), value_sparse]
          have : sa.activations.get? i = none := by
            by_contra hn
            exact hs ((stored_iff_get? h.1 i).2 hn)
          rw [this]
          rfl

theorem filter_length_eq {α : Type} {p q : α → Bool} (hpq : ∀ a, p a = true → q a = true) (l : List α)
    (h : (l.filter p).length = (l.filter q).length) : ∀ a ∈ l, q a = true → p a = true := by
  induction l with
  | nil => intro a ha; cases ha
  | cons b l ih =>
    have hle : (l.filter p).length ≤ (l.filter q).length :=
      (List.monotone_filter_right l hpq).length_le
    intro a ha hq
    rcases List.mem_cons.1 ha with rfl | ha
    · by_contra hp
      rw [Bool.not_eq_true] at hp
      rw [List.filter_cons_of_neg (by rw [hp]; simp), List.filter_cons_of_pos hq, List.length_cons] at h
      omega
    · refine ih ?_ a ha hq
      by_cases hb : q b = true
      · by_cases hp : p b = true
        · rw [List.filter_cons_of_pos hp, List.filter_cons_of_pos hb, List.length_cons, List.length_cons] at h
          omega
        · rw [List.filter_cons_of_neg hp, List.filter_cons_of_pos hb, List.length_cons] at h
          omega
      · have hp : ¬ p b = true := fun hp => hb (hpq b hp)
        rwa [List.filter_cons_of_neg hp, List.filter_cons_of_neg hb] at h

/-- `n_active` counts the entries above 1e-7 exactly when the features are dense or store no smaller
activation. -/
theorem C15_n_active_iff (φ : Features K) (h : WF φ)
    (h0 : Scalar.lt (Scalar.sci 1 7) (Scalar.abs (Scalar.zero : K)) = false) :
    φ.nActive = (bigEntries φ).length ↔ (φ.isDense = true ∨
      ∀ i a, Stored φ i a → Scalar.lt (Scalar.sci 1 7) (Scalar.abs a) = true) := by
  refine ⟨fun he => ?_, C15_n_active_partial φ h h0⟩
  cases φ with
  | dense da => exact .inl rfl
  | sparse sa =>
    refine .inr fun i a ha => ?_
    have hk := (keys_perm_filter h).length_eq
    rw [List.length_map] at hk
    have he : sa.activations.length = _ := he
    unfold bigEntries view at he
    rw [List.filter_map, List.length_map, ← hk] at he
    have := filter_length_eq (p := (fun v => Scalar.lt (Scalar.sci 1 7) (Scalar.abs v)) ∘ value (.sparse sa))
      (q := fun i => decide (i ∈ sa.activations.map Prod.fst)) (fun i hi => by
        rw [Function.comp_apply, value_sparse] at hi
        rcases hg : HMap.get? sa.activations i with _ | b
        · rw [hg] at hi; exact absurd hi (by rw [Option.getD_none, h0]; simp)
        · exact decide_eq_true (List.mem_map.2 ⟨_, HMap.mem_of_get? hg, rfl⟩)) _ he.symm i
        (List.mem_range.2 (h.2 _ ha)) (decide_eq_true (List.mem_map.2 ⟨_, ha, rfl⟩))
    rwa [Function.comp_apply, value_of_stored (φ := .sparse sa) h.1 ha] at this

end

section
variable {K : Type} [ScalarInf K]

/-- `Fixed::sparse` stays in range exactly when its indices are. -/
theorem C17_fixed_sparse_iff (b : FixedSparse K) :
    InRange (List K) b ↔ ∀ i ∈ b.active, i < b.nFeatures := by
  constructor
  · intro h i hi
    have hm : i ∈ (HMap.collect (b.active.map fun i => (i, (Scalar.one : K)))).map Prod.fst := by
      rw [HMap.mem_keys_collect]
      simpa using hi
    obtain ⟨e, he, rfl⟩ := List.mem_map.1 hm
    exact (h [] _ rfl).2 e he
  · rintro h input φ h'
    cases h'
    exact wf_units h

/-- `ith` of a dense `Fixed` agrees with `project` exactly when there is at most one constant. -/
theorem C18_fixed_dense_iff (b : FixedDense K) : IthAgrees (List K) b ↔ b.constants.length ≤ 1 := by
  constructor
  · intro h
    by_contra hc
    have := h [] _ _ 1 rfl rfl (show 1 < b.constants.length by omega)
    have h' : EnumerableBasis.ith (K := K) b ([] : List K) 1 = .ok (.error (Error.indexError 1 1)) := rfl
    rw [h'] at this
    cases this
  · intro h
    exact C18_ith_agrees_partial (.fixedDense b h)

/-- `ith` of a dense `Fixed` rejects exactly the out-of-range indices exactly when there is one
constant. -/
theorem C19_fixed_dense_iff (b : FixedDense K) : IthRejects (List K) b ↔ b.constants.length = 1 := by
  constructor
  · intro h
    rcases Nat.lt_trichotomy b.constants.length 1 with hl | hl | hl
    · have hn : b.constants = [] := List.eq_nil_of_length_eq_zero (by omega)
      have := (h [] _ 0 rfl).1 (by omega)
      obtain ⟨c⟩ := b
      have hn : c = [] := hn
      subst hn
      have h' : EnumerableBasis.ith (FixedDense.mk ([] : List K)) ([] : List K) 0 = .error .unwrapFailed := rfl
      rw [h'] at this
      cases this
    · exact hl
    · exact absurd (show EnumerableBasis.ith (K := K) b ([] : List K) 1 = .ok (.error (Error.indexError 1 1)) from rfl)
        ((h [] _ 1 rfl).2 hl _)
  · intro h
    exact C19_ith_rejects_partial (.fixedDense b h)

end

/-- A Chebyshev basis survives serialisation exactly when it is the result of `new` for some order and
limits. -/
theorem C27_round_trip_iff {K : Type} [Scalar K] (c : Chebyshev K) :
    Chebyshev.visitSeq (Chebyshev.serializeSeq c) = .ok (.ok c) ↔ ∃ n l, Chebyshev.new n l = .ok c := by
  constructor
  · intro h
    refine ⟨c.order, c.limits, ?_⟩
    have h : (Chebyshev.new c.order c.limits).map Except.ok = .ok (.ok c : Except Chebyshev.DeError _) := h
    rcases hn : Chebyshev.new c.order c.limits with p | c'
    · rw [hn] at h; cases h
    · rw [hn] at h; cases h; rfl
  · rintro ⟨n, l, h⟩
    exact (C27_round_trip_partial n l c h).1

/-! ## Optimisers, over ℝ -/

/-- Adam's step with sparse features and with their dense view give the same weights exactly when no
inactive weight has momentum to apply. -/
theorem C49_adam_iff (n : Nat) (φ : Features ℝ) (hf : Fits n φ) (w : List ℝ) (hw : w.length = n) (s : ℝ)
    (o : Adam ℝ) (h : HasSize.sized n o) :
    ∃ o' w₁ w₂, Optimiser.stepScaled o w φ s = .ok (.ok (), o', w₁) ∧
      Optimiser.stepScaled o w (.dense (view φ)) s = .ok (.ok (), o', w₂) ∧
      (w₁ = w₂ ↔ ∀ i < n, ¬ Active φ i →
        o.learningRate * o.beta1 * entry o.expAvg i = 0 ∨ o.beta1Prod * o.beta1 = 1) := by
  have hf' := fits_view hf
  have hv := value_view hf.1
  obtain ⟨m₁, v₁, w₁, a1, a2, a3, a4, a5⟩ := adam_real hf o h.1 h.2 s hw
  obtain ⟨m₂, v₂, w₂, b1, b2, b3, b4, b5⟩ := adam_real hf' o h.1 h.2 s hw
  have hact : ∀ i < n, Active (.dense (view φ)) i := fun i hi =>
    active_dense (by rw [view_length, hf.2]; exact hi)
  have hm : m₁ = m₂ := ext_entry (a2.trans b2.symm) fun i hi => by
    rw [(a5 i (a2 ▸ hi)).1, (b5 i (a2 ▸ hi)).1, hv]
  have hv' : v₁ = v₂ := ext_entry (a3.trans b3.symm) fun i hi => by
    rw [(a5 i (a3 ▸ hi)).2.1, (b5 i (a3 ▸ hi)).2.1, hv]
  subst hm hv'
  refine ⟨_, w₁, w₂, a1, b1, ?_⟩
  have key : ∀ i < n, ¬ Active φ i → (entry w₁ i = entry w₂ i ↔
      (o.learningRate * o.beta1 * entry o.expAvg i = 0 ∨ o.beta1Prod * o.beta1 = 1)) := by
    intro i hi hna
    have hz : value φ i = 0 := value_of_not_active hna
    rw [(a5 i hi).2.2.2 hna, (b5 i hi).2.2.1 (hact i hi), (a5 i hi).1, hz, zero_mul, mul_zero, add_zero]
    have hd : √(entry v₁ i / (1 - o.beta2Prod * o.beta2)) + 1e-7 ≠ (0 : ℝ) := by positivity
    rw [left_eq_add, div_eq_zero_iff, or_iff_left hd, mul_div_assoc', div_eq_zero_iff, sub_eq_zero, mul_assoc]
    exact or_congr_right eq_comm
  constructor
  · intro he i hi hna
    exact (key i hi hna).1 (by rw [he])
  · intro hc
    refine ext_entry (a4.trans b4.symm) fun i hi => ?_
    have hi : i < n := a4 ▸ hi
    by_cases ha : Active φ i
    · rw [(a5 i hi).2.2.1 ha, (b5 i hi).2.2.1 (hact i hi)]
    · exact (key i hi ha).2 (hc i hi ha)

/-- The number of `step` and `step_scaled` calls in a history. -/
def countSteps (es : List (Event ℝ)) : Nat := es.countP Event.isStep

theorem count_step (es : List (Event ℝ)) {e : Event ℝ} (h : e.isStep = true) :
    countSteps (es ++ [e]) = countSteps es + 1 := by
  unfold countSteps
  rw [List.countP_append, List.countP_singleton, if_pos h]

theorem count_reset (es : List (Event ℝ)) : countSteps (es ++ [.reset]) = countSteps es := by
  unfold countSteps
  rw [List.countP_append, List.countP_singleton, if_neg (by simp [Event.isStep]), Nat.add_zero]

/-- Adam's and AdaMax' `reset` restores the freshly constructed optimiser exactly when no step was
taken. -/
theorem C50_adam_iff (n : Nat) (w w' : List ℝ) (hw : w.length = n) (es : List (Event ℝ))
    (he : ∀ e ∈ es, e.Fits n) (lr b1 b2 : ℝ) (h0 : 0 < b1) (h1 : b1 < 1) :
    (∀ o, History (Adam.new n lr b1 b2) w es o w' →
      (Optimiser.reset o = Adam.new n lr b1 b2 ↔ ∀ e ∈ es, e.isStep = false)) ∧
    (∀ o, History (AdaMax.new n lr b1 b2) w es o w' →
      (Optimiser.reset o = AdaMax.new n lr b1 b2 ↔ ∀ e ∈ es, e.isStep = false)) := by
  have hpow : ∀ k, b1 ^ (k + 1) = b1 ↔ k = 0 := by
    intro k
    constructor
    · intro h
      by_contra hk
      have : b1 ^ (k + 1) < b1 ^ 1 := pow_lt_pow_right_of_lt_one₀ h0 h1 (by omega)
      rw [pow_one, h] at this
      exact lt_irrefl _ this
    · rintro rfl; simp
  have hcount : countSteps es = 0 ↔ ∀ e ∈ es, e.isStep = false := by
    unfold countSteps
    rw [List.countP_eq_zero]
    simp
  constructor
  · intro o h
    have hb : o.beta1 = b1 ∧ o.beta2 = b2 ∧ o.beta1Prod = b1 ^ (countSteps es + 1) ∧
        o.beta2Prod = b2 ^ (countSteps es + 1) ∧ o.expAvg.length = n ∧ o.expAvgSq.length = n ∧
        w'.length = n := by
      refine history_induct (n := n) (I := fun es (o : Adam ℝ) w' => o.beta1 = b1 ∧ o.beta2 = b2 ∧
        o.beta1Prod = b1 ^ (countSteps es + 1) ∧ o.beta2Prod = b2 ^ (countSteps es + 1) ∧
        o.expAvg.length = n ∧ o.expAvgSq.length = n ∧ w'.length = n) ?_ ?_ ?_ es o w' he h
      · refine ⟨rfl, rfl, ?_, ?_, List.length_replicate, List.length_replicate, hw⟩
        · show b1 = _; simp [countSteps]
        · show b2 = _; simp [countSteps]
      · intro es o₁ w₁ e φ s o₂ w₂ ⟨i1, i2, i3, i4, i5, i6, i7⟩ hst _ hf hstep
        obtain ⟨m, v, w₃, a1, a2, a3, a4, -⟩ := adam_real hf o₁ i5 i6 s i7
        rw [hstep] at a1
        cases a1
        rw [count_step es hst]
        refine ⟨i1, i2, ?_, ?_, a2, a3, a4⟩
        · show o₁.beta1Prod * o₁.beta1 = _; rw [i1, i3, ← pow_succ]
        · show o₁.beta2Prod * o₁.beta2 = _; rw [i2, i4, ← pow_succ]
      · intro es o₁ w₁ ⟨i1, i2, i3, i4, i5, i6, i7⟩
        rw [count_reset es]
        exact ⟨i1, i2, i3, i4, (List.length_map _).trans i5, (List.length_map _).trans i6, i7⟩
    rw [(C50_adam_partial n w hw es he lr b1 b2).1 o w' h, ← hcount, ← hpow, ← hb.2.2.1]
    constructor
    · intro hc
      exact congrArg Adam.beta1Prod hc
    · intro hc
      have hz := (hpow _).1 (hb.2.2.1.symm.trans hc)
      have e2 := hb.2.2.2.1
      rw [hz, zero_add, pow_one] at e2
      rw [hc, e2]
      rfl
  · intro o h
    have hb : o.beta1 = b1 ∧ o.beta1Prod = b1 ^ (countSteps es + 1) ∧
        o.expAvg.length = n ∧ o.expInf.length = n ∧ w'.length = n := by
      refine history_induct (n := n) (I := fun es (o : AdaMax ℝ) w' => o.beta1 = b1 ∧
        o.beta1Prod = b1 ^ (countSteps es + 1) ∧
        o.expAvg.length = n ∧ o.expInf.length = n ∧ w'.length = n) ?_ ?_ ?_ es o w' he h
      · refine ⟨rfl, ?_, List.length_replicate, List.length_replicate, hw⟩
        show b1 = _; simp [countSteps]
      · intro es o₁ w₁ e φ s o₂ w₂ ⟨i1, i3, i5, i6, i7⟩ hst _ hf hstep
        obtain ⟨m, v, w₃, a1, a2, a3, a4, -⟩ := adamax_real hf o₁ i5 i6 s i7
        rw [hstep] at a1
        cases a1
        rw [count_step es hst]
        refine ⟨i1, ?_, a2, a3, a4⟩
        show o₁.beta1Prod * o₁.beta1 = _; rw [i1, i3, ← pow_succ]
      · intro es o₁ w₁ ⟨i1, i3, i5, i6, i7⟩
        rw [count_reset es]
        exact ⟨i1, i3, (List.length_map _).trans i5, (List.length_map _).trans i6, i7⟩
    rw [(C50_adam_partial n w hw es he lr b1 b2).2 o w' h, ← hcount, ← hpow, ← hb.2.1]
    constructor
    · intro hc
      exact congrArg AdaMax.beta1Prod hc
    · intro hc
      rw [hc]
      rfl

/-- A fresh NAG optimiser leaves the weights alone on an error of 0 exactly when `m φ = 0`. -/
theorem C57_nag_iff (n : Nat) (φ : Features ℝ) (hf : Fits n φ) (w : List ℝ) (hw : w.length = n)
    (lr m : ℝ) : ∃ o' w', Optimiser.stepScaled (NAG.new n m lr) w φ 0 = .ok (.ok (), o', w') ∧
      (w' = w ↔ ∀ i < n, m * value φ i = 0) := by
  obtain ⟨v, w', a1, a2, a3, a4⟩ := nag_real hf (NAG.new n m lr) List.length_replicate 0 hw
  obtain ⟨o'', w'', h1, h2⟩ := C52_zero_scale_moves n φ hf m lr w hw
  rw [a1] at h1
  simp only [Except.ok.injEq, Prod.mk.injEq, true_and] at h1
  obtain ⟨-, rfl⟩ := h1
  refine ⟨_, w', a1, ?_, ?_⟩
  · intro he i hi
    have := h2 i hi
    rw [he] at this
    linarith
  · intro hc
    refine ext_entry (a3.trans hw.symm) fun i hi => ?_
    rw [h2 i (a3 ▸ hi), hc i (a3 ▸ hi), add_zero]

end Lfa

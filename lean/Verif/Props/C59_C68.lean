import Verif.Spec.Lfa
import Verif.Proofs.Training
import Verif.Props.C17_C22
import Verif.Props.C55_C58

/-!
# C59–C68: approximators

Any basis, any optimiser and any arithmetic unless a theorem says `ℝ`.
-/

set_option linter.unusedSectionVars false

namespace Lfa

open Spec

section
variable {B O I K : Type} [Scalar K] [Space B] [Basis B I K]

/-! ### Unfolding one call -/

theorem scalar_update_eq [Optimiser O K] {fa : ScalarLFA B O K} {x : I} {φ : Features K}
    (hp : Basis.project fa.basis x = .ok (.ok φ)) (e : K) :
    fa.update x e = (Optimiser.stepScaled fa.optimiser fa.weights φ e).map
      fun t => (t.1, { fa with weights := t.2.2, optimiser := t.2.1 }) := by
  show (Basis.project fa.basis x >>= _) = _
  rw [hp, P.ok_bind]
  show (Optimiser.stepScaled fa.optimiser fa.weights φ e >>= _) = _
  cases Optimiser.stepScaled fa.optimiser fa.weights φ e <;> rfl

theorem scalar_evaluate_eq {fa : ScalarLFA B O K} {x : I} {φ : Features K}
    (hp : Basis.project fa.basis x = .ok (.ok φ)) :
    fa.evaluate x = (φ.dot fa.weights).map Except.ok := by
  show (Basis.project fa.basis x >>= _) = _
  rw [hp, P.ok_bind]; rfl

theorem scalar_updateWith_eq [Optimiser O K] {fa : ScalarLFA B O K} {x : I} {φ : Features K}
    (hp : Basis.project fa.basis x = .ok (.ok φ)) (f : Features K → K → K) :
    fa.updateWith x f = (φ.dot fa.weights) >>= fun v => fa.update x (f φ v) := by
  show (Basis.project fa.basis x >>= _) = _
  rw [hp, P.ok_bind]
  show (φ.dot fa.weights >>= _) = _
  congr 1
  funext v
  rw [scalar_update_eq hp]
  show (Optimiser.stepScaled fa.optimiser fa.weights φ (f φ v) >>= _) = _
  cases Optimiser.stepScaled fa.optimiser fa.weights φ (f φ v) <;> rfl

theorem vector_update_eq [Optimiser O K] {fa : VectorLFA B O K} {x : I} {φ : Features K}
    (hp : Basis.project fa.basis x = .ok (.ok φ)) (es : List K) :
    fa.update x es = (VectorLFA.stepColumns φ es fa.weights fa.optimiser (.ok ())).map
      fun t => (t.1, { fa with weights := t.2.2, optimiser := t.2.1 }) := by
  show (Basis.project fa.basis x >>= _) = _
  rw [hp, P.ok_bind]
  show (VectorLFA.stepColumns φ es fa.weights fa.optimiser (.ok ()) >>= _) = _
  cases VectorLFA.stepColumns φ es fa.weights fa.optimiser (.ok ()) <;> rfl

theorem vector_updateWith_eq [Optimiser O K] {fa : VectorLFA B O K} {x : I} {φ : Features K}
    (hp : Basis.project fa.basis x = .ok (.ok φ)) (f : Features K → List K → List K) :
    fa.updateWith x f = (φ.matmul fa.weights) >>= fun v => fa.update x (f φ v) := by
  show (Basis.project fa.basis x >>= _) = _
  rw [hp, P.ok_bind]
  show (φ.matmul fa.weights >>= _) = _
  congr 1
  funext v
  rw [vector_update_eq hp]
  show (VectorLFA.stepColumns φ (f φ v) fa.weights fa.optimiser (.ok ()) >>= _) = _
  cases VectorLFA.stepColumns φ (f φ v) fa.weights fa.optimiser (.ok ()) <;> rfl

theorem vector_updateIndex_eq [Optimiser O K] {fa : VectorLFA B O K} {x : I} {φ : Features K}
    (hp : Basis.project fa.basis x = .ok (.ok φ)) {j : Nat} {c : List K}
    (hc : fa.weights[j]? = some c) (e : K) :
    fa.updateIndex x j e = (Optimiser.stepScaled fa.optimiser c φ e).map
      fun t => (t.1, { fa with weights := fa.weights.set j t.2.2, optimiser := t.2.1 }) := by
  show (Basis.project fa.basis x >>= _) = _
  rw [hp, P.ok_bind]
  show (idx fa.weights j >>= _) = _
  have hi : idx fa.weights j = .ok c := by unfold idx; rw [hc]
  rw [hi, P.ok_bind]
  show (Optimiser.stepScaled fa.optimiser c φ e >>= _) = _
  cases Optimiser.stepScaled fa.optimiser c φ e with
  | error p => rfl
  | ok t =>
    have hj : j < fa.weights.length := (List.getElem?_eq_some_iff.1 hc).1
    show (setIdx fa.weights j t.2.2 >>= _) = _
    unfold setIdx
    rw [if_pos hj]; rfl

theorem vector_evaluateIndex_eq {fa : VectorLFA B O K} {x : I} {φ : Features K}
    (hp : Basis.project fa.basis x = .ok (.ok φ)) {j : Nat} {c : List K}
    (hc : fa.weights[j]? = some c) :
    fa.evaluateIndex x j = (φ.dotColumn fa.weights.length c).map Except.ok := by
  show (Basis.project fa.basis x >>= _) = _
  rw [hp, P.ok_bind]
  show Except.map Except.ok (idx fa.weights j >>= _) = _
  have hi : idx fa.weights j = .ok c := by unfold idx; rw [hc]
  rw [hi, P.ok_bind]

theorem collect_eq_matmul (φ : Features K) (cs : List (List K)) :
    OutputIter.collect φ cs.length cs = φ.matmul cs := by
  unfold Features.matmul
  generalize cs.length = m
  induction cs with
  | nil => rfl
  | cons c cs ih =>
    rw [List.mapM_cons, ← ih]
    show ((φ.dotColumn m c >>= _) >>= _) = _
    cases φ.dotColumn m c with
    | error p => rfl
    | ok v => rfl

theorem vector_evaluate_eq {fa : VectorLFA B O K} {x : I} {φ : Features K}
    (hp : Basis.project fa.basis x = .ok (.ok φ)) :
    fa.evaluate x = (φ.matmul fa.weights).map Except.ok := by
  have ht : fa.tryIter x = .ok (.ok ⟨φ, fa.weights, fa.weights.length⟩) := by
    show (Basis.project fa.basis x >>= _) = _
    rw [hp]; rfl
  show (fa.tryIter x >>= _) = _
  rw [ht, P.ok_bind, ← collect_eq_matmul]; rfl

/-! ## C59 Fresh approximators evaluate to zero -/

/-- `LFA::scalar` and `LFA::vector` succeed exactly for a finite dimension; the weights then have
shape `dim` (`x n_outputs`) and are all zero (any arithmetic). -/
theorem C59_shape (b : B) (o : O) (k n : Nat) (hd : Space.dim b = .finite n) :
    (ScalarLFA.scalar b o : P (ScalarLFA B O K)) = .ok ⟨b, List.replicate n Scalar.zero, o⟩ ∧
    (VectorLFA.vector b o k : P (VectorLFA B O K)) =
      .ok ⟨b, List.replicate k (List.replicate n Scalar.zero), o⟩ := by
  unfold ScalarLFA.scalar VectorLFA.vector
  rw [hd]; exact ⟨rfl, rfl⟩

theorem C59_infinite_panics (b : B) (o : O) (k : Nat) (hd : Space.dim b = .infinite) :
    Panics (ScalarLFA.scalar b o : P (ScalarLFA B O K)) ∧
    Panics (VectorLFA.vector b o k : P (VectorLFA B O K)) := by
  unfold ScalarLFA.scalar VectorLFA.vector
  rw [hd]; exact ⟨⟨_, rfl⟩, ⟨_, rfl⟩⟩

end

/-- They evaluate to 0 on every input the basis accepts (exact arithmetic). -/
theorem C59_fresh {B O I : Type} [Space B] [Basis B I ℝ] (b : B) (o : O) (k n : Nat)
    (hd : Space.dim b = .finite n) (hdim : DimOK I b) (hr : InRange I b) (x : I) (hx : Accepts (K := ℝ) b x)
    (fa : ScalarLFA B O ℝ) (hfa : ScalarLFA.scalar b o = .ok fa)
    (fv : VectorLFA B O ℝ) (hfv : VectorLFA.vector b o k = .ok fv) :
    fa.evaluate x = .ok (.ok 0) ∧ fv.evaluate x = .ok (.ok (List.replicate k 0)) := by
  obtain ⟨h1, h2⟩ := C59_shape (K := ℝ) b o k n hd
  rw [hfa] at h1; rw [hfv] at h2
  cases h1; cases h2
  obtain ⟨φ, hφ⟩ := hx
  have hwf := hr x φ hφ
  have hn : dim φ = n := by
    have := hdim x φ hφ
    rw [hd] at this; cases this; rfl
  have hz : φ.dot (List.replicate n (Scalar.zero : ℝ)) = .ok 0 := by
    rw [dot_real hwf (by rw [List.length_replicate, hn]), inner_eq]
    congr 1
    apply Finset.sum_eq_zero
    intro i _
    rw [entry_replicate, real_zero, mul_zero]
  constructor
  · rw [scalar_evaluate_eq hφ, hz]; rfl
  · rw [vector_evaluate_eq hφ]
    have : ∀ k, φ.matmul (List.replicate k (List.replicate n (Scalar.zero : ℝ))) =
        .ok (List.replicate k 0) := by
      intro k
      rw [matmul_eq_real]
      induction k with
      | zero => rfl
      | succ k ih => rw [List.replicate_succ, List.mapM_cons, hz, ih]; rfl
    rw [this]; rfl

section
variable {B O I K : Type} [Scalar K] [Space B] [Basis B I K]

/-! ## C60 Failed projections have no effect -/

/-- If the basis returns an error for `x`, every call with `x` returns that error and leaves the
approximator — weights and optimiser — as it was; `iter` panics. -/
theorem C60_failed [Optimiser O K] (fa : ScalarLFA B O K) (fv : VectorLFA B O K) (x : I)
    (err : Error) (hs : Basis.project fa.basis x = .ok (.error err))
    (hv : Basis.project fv.basis x = .ok (.error err)) :
    fa.evaluate x = .ok (.error err) ∧
    (∀ e, fa.update x e = .ok (.error err, fa)) ∧
    (∀ f, fa.updateWith x f = .ok (.error err, fa)) ∧
    fv.evaluate x = .ok (.error err) ∧
    (∀ j, fv.evaluateIndex x j = .ok (.error err)) ∧
    fv.tryIter x = .ok (.error err) ∧
    (∀ es, fv.update x es = .ok (.error err, fv)) ∧
    (∀ j e, fv.updateIndex x j e = .ok (.error err, fv)) ∧
    (∀ f, fv.updateWith x f = .ok (.error err, fv)) ∧
    Panics (fv.iter x) := by
  have ht : fv.tryIter x = .ok (.error err) := by
    show (Basis.project fv.basis x >>= _) = _
    rw [hv]; rfl
  refine ⟨?_, fun e => ?_, fun f => ?_, ?_, fun j => ?_, ht, fun es => ?_, fun j e => ?_,
    fun f => ?_, .unwrapFailed, ?_⟩
  · show (Basis.project fa.basis x >>= _) = _
    rw [hs]; rfl
  · show (Basis.project fa.basis x >>= _) = _
    rw [hs]; rfl
  · show (Basis.project fa.basis x >>= _) = _
    rw [hs]; rfl
  · show (fv.tryIter x >>= _) = _
    rw [ht]; rfl
  · show (Basis.project fv.basis x >>= _) = _
    rw [hv]; rfl
  · show (Basis.project fv.basis x >>= _) = _
    rw [hv]; rfl
  · show (Basis.project fv.basis x >>= _) = _
    rw [hv]; rfl
  · show (Basis.project fv.basis x >>= _) = _
    rw [hv]; rfl
  · show (Basis.project fv.basis x >>= _) = _
    rw [hv]; rfl

/-! ## C61 update_with is update at the current prediction -/

/-- Whenever `evaluate(x)` returns, `update_with(x, f)` is `update(x, f(φ(x), evaluate(x)))` — same
result, same new approximator, same panics. -/
theorem C61_update_with [Optimiser O K] (fa : ScalarLFA B O K) (fv : VectorLFA B O K) (x : I) :
    (∀ φ v f, Basis.project fa.basis x = .ok (.ok φ) → fa.evaluate x = .ok (.ok v) →
      fa.updateWith x f = fa.update x (f φ v)) ∧
    (∀ φ vs f, Basis.project fv.basis x = .ok (.ok φ) → fv.evaluate x = .ok (.ok vs) →
      fv.updateWith x f = fv.update x (f φ vs)) := by
  constructor
  · intro φ v f hp hv
    rw [scalar_evaluate_eq hp] at hv
    obtain ⟨v', h1, h2⟩ := P.map_eq_ok.1 hv
    cases h2
    rw [scalar_updateWith_eq hp, h1, P.ok_bind]
  · intro φ v f hp hv
    rw [vector_evaluate_eq hp] at hv
    obtain ⟨v', h1, h2⟩ := P.map_eq_ok.1 hv
    cases h2
    rw [vector_updateWith_eq hp, h1, P.ok_bind]

/-- If the evaluation panics, so does `update_with`, the same way. -/
theorem C61_panics [Optimiser O K] (fa : ScalarLFA B O K) (fv : VectorLFA B O K) (x : I) (p : Panic) :
    (∀ f, fa.evaluate x = .error p → fa.updateWith x f = .error p) ∧
    (∀ f, fv.evaluate x = .error p → fv.updateWith x f = .error p) := by
  constructor
  · intro f h
    cases hp : Basis.project fa.basis x with
    | error q =>
      have : (Basis.project fa.basis x >>= _) = .error p := h
      rw [hp] at this; cases this
      show (Basis.project fa.basis x >>= _) = _
      rw [hp]; rfl
    | ok r =>
      cases r with
      | error e =>
        have : (Basis.project fa.basis x >>= _) = .error p := h
        rw [hp] at this; cases this
      | ok φ =>
        rw [scalar_evaluate_eq hp] at h
        rw [scalar_updateWith_eq hp]
        cases hd : φ.dot fa.weights with
        | error q => rw [hd] at h; cases h; rfl
        | ok v => rw [hd] at h; cases h
  · intro f h
    cases hp : Basis.project fv.basis x with
    | error q =>
      have ht : fv.tryIter x = .error q := by
        show (Basis.project fv.basis x >>= _) = _
        rw [hp]; rfl
      have : (fv.tryIter x >>= _) = .error p := h
      rw [ht] at this; cases this
      show (Basis.project fv.basis x >>= _) = _
      rw [hp]; rfl
    | ok r =>
      cases r with
      | error e =>
        have ht : fv.tryIter x = .ok (.error e) := by
          show (Basis.project fv.basis x >>= _) = _
          rw [hp]; rfl
        have : (fv.tryIter x >>= _) = .error p := h
        rw [ht] at this; cases this
      | ok φ =>
        rw [vector_evaluate_eq hp] at h
        rw [vector_updateWith_eq hp]
        cases hd : φ.matmul fv.weights with
        | error q => rw [hd] at h; cases h; rfl
        | ok v => rw [hd] at h; cases h

/-! ## C62 Vector evaluation is consistent -/

theorem dot_safe {n : Nat} {φ : Features K} (hf : Fits n φ) {c : List K} (hc : c.length = n) :
    ∃ v, φ.dot c = .ok v := by
  have hnp : ¬ Panics (φ.dot c) := by
    cases φ with
    | dense da =>
      rw [C03_dense_panics_iff]
      intro hne
      exact hne (hf.2.trans hc.symm)
    | sparse sa =>
      rw [C03_sparse_panics_iff]
      rintro ⟨i, a, hs, hle⟩
      have := hf.1.2 _ hs
      have hd : sa.dim = n := hf.2
      simp only at this
      omega
  cases h : φ.dot c with
  | ok v => exact ⟨v, rfl⟩
  | error p => exact absurd ⟨p, h⟩ hnp

theorem dotColumn_safe (m : Nat) {n : Nat} {φ : Features K} (hf : Fits n φ) {c : List K} (hc : c.length = n) :
    ∃ v, φ.dotColumn m c = .ok v := by
  obtain ⟨v, hv⟩ := dot_safe hf hc
  exact dotColumn_ok_of_dot m hv

theorem yields_of_mapM (φ : Features K) (m : Nat) : ∀ (cs : List (List K)) (vs : List K),
    (cs.mapM fun c => φ.dotColumn m c) = .ok vs → Yields ⟨φ, cs, m⟩ vs
  | [], vs, h => by cases h; exact .done rfl rfl rfl
  | c :: cs, vs, h => by
    rw [List.mapM_cons] at h
    obtain ⟨v, h1, h⟩ := P.bind_eq_ok.1 h
    obtain ⟨vs', h2, h⟩ := P.bind_eq_ok.1 h
    cases h
    have ih := yields_of_mapM φ m cs vs' h2
    have hl : cs.length = vs'.length := ((mapM_ok_iff _ _ _).1 h2).length_eq
    refine .next (it' := ⟨φ, cs, m⟩) ?_ ?_ ?_ ih
    · show (φ.dotColumn m c >>= _) = _
      rw [h1]; rfl
    · show (c :: cs).length = _
      rw [List.length_cons, hl]
    · show ((c :: cs).length, some (c :: cs).length) = _
      rw [List.length_cons, hl]

/-- If `evaluate(x)` returns values: there are `n_outputs` of them, `evaluate_index(x, j)` is the
`j`-th, `iter(x)` and `try_iter(x)` give the same iterator, and it yields exactly these values,
reporting its exact remaining length at every point. -/
theorem C62_consistent (fv : VectorLFA B O K) (x : I) (vs : List K)
    (h : fv.evaluate x = .ok (.ok vs)) :
    vs.length = fv.nOutputs ∧
    (∀ j v, vs[j]? = some v → fv.evaluateIndex x j = .ok (.ok v)) ∧
    ∃ it, fv.iter x = .ok it ∧ fv.tryIter x = .ok (.ok it) ∧ Yields it vs := by
  have h' : (fv.tryIter x >>= _) = _ := h
  obtain ⟨r, ht, -⟩ := P.bind_eq_ok.1 h'
  have ht' : (Basis.project fv.basis x >>= _) = _ := ht
  obtain ⟨rp, hp, hm⟩ := P.bind_eq_ok.1 ht'
  cases rp with
  | error e =>
    cases hm
    rw [ht] at h'
    cases h'
  | ok φ =>
    cases hm
    rw [vector_evaluate_eq hp] at h
    obtain ⟨vs', hm, hvs⟩ := P.map_eq_ok.1 h
    cases hvs
    obtain ⟨hl, hcol⟩ := matmul_columns φ _ _ hm
    refine ⟨hl, fun j v hj => ?_, ⟨φ, fv.weights, fv.weights.length⟩, ?_, ht, yields_of_mapM φ _ _ _ hm⟩
    · have hjl : j < fv.weights.length := hl ▸ (List.getElem?_eq_some_iff.1 hj).1
      rw [vector_evaluateIndex_eq hp (List.getElem?_eq_getElem hjl)]
      have := hcol j _ (List.getElem?_eq_getElem hjl)
      obtain ⟨v', e1, e2⟩ := this
      rw [hj] at e1; cases e1
      rw [e2]; rfl
    · show (Basis.project fv.basis x >>= _) = _
      rw [hp]; rfl

/-- On accepted inputs, with weights of the right shape, `evaluate` does not panic and
`evaluate_index` panics exactly for indices that are not outputs. -/
theorem C62_index_panics_iff (fv : VectorLFA B O K) (x : I) (φ : Features K)
    (hp : Basis.project fv.basis x = .ok (.ok φ)) (hw : WF φ)
    (hc : ∀ c ∈ fv.weights, c.length = dim φ) (j : Nat) :
    (∃ vs, fv.evaluate x = .ok (.ok vs)) ∧
    (Panics (fv.evaluateIndex x j) ↔ fv.nOutputs ≤ j) := by
  have hdot : ∀ c ∈ fv.weights, ∃ v, φ.dot c = .ok v := fun c hcm => dot_safe ⟨hw, rfl⟩ (hc c hcm)
  constructor
  · rw [vector_evaluate_eq hp]
    cases hm : φ.matmul fv.weights with
    | ok vs => exact ⟨vs, rfl⟩
    | error p =>
      obtain ⟨c, hcm, q, hq⟩ := (C04_matmul_panics_iff φ fv.weights).1 ⟨p, hm⟩
      obtain ⟨v, hv⟩ := hdot c hcm
      rw [hv] at hq; cases hq
  · constructor
    · intro hpan
      by_contra hlt
      have hj : j < fv.weights.length := Nat.lt_of_not_le hlt
      obtain ⟨v, hv⟩ := dotColumn_ok_of_dot fv.weights.length (hdot _ (List.getElem_mem hj)).choose_spec
      rw [vector_evaluateIndex_eq hp (List.getElem?_eq_getElem hj), hv] at hpan
      obtain ⟨p, hpp⟩ := hpan
      cases hpp
    · intro hge
      refine ⟨.indexOutOfBounds, ?_⟩
      show (Basis.project fv.basis x >>= _) = _
      rw [hp, P.ok_bind]
      show Except.map Except.ok (idx fv.weights j >>= _) = _
      have : idx fv.weights j = .error .indexOutOfBounds := by
        unfold idx; rw [List.getElem?_eq_none hge]
      rw [this]; rfl

/-! ## C63 update_index touches one column -/

/-- `update_index(x, j, e)` returns what `update(x, e)` returns on the scalar approximator made of
the same basis, column `j` and the same optimiser; column `j` and the optimiser become that
approximator's; every other column, and its evaluation at every input, is unchanged. -/
theorem C63_one_column [Optimiser O K] (fv fv' : VectorLFA B O K) (x : I) (j : Nat) (e : K)
    (r : Result Unit) (hx : Accepts (K := K) fv.basis x) (h : fv.updateIndex x j e = .ok (r, fv')) :
    j < fv.nOutputs ∧ fv'.nOutputs = fv.nOutputs ∧ fv'.basis = fv.basis ∧
    (∀ c, fv.weights[j]? = some c → ∃ c',
      ScalarLFA.update (LFA.mk fv.basis c fv.optimiser) x e =
        .ok (r, ⟨fv.basis, c', fv'.optimiser⟩) ∧ fv'.weights[j]? = some c') ∧
    (∀ k, k ≠ j → fv'.weights[k]? = fv.weights[k]?) ∧
    (∀ k (y : I), k ≠ j → fv'.evaluateIndex y k = fv.evaluateIndex y k) := by
  obtain ⟨φ, hp⟩ := hx
  have hj : j < fv.weights.length := by
    by_contra hge
    have h' : (Basis.project fv.basis x >>= _) = _ := h
    rw [hp, P.ok_bind] at h'
    obtain ⟨c, hc, -⟩ := P.bind_eq_ok.1 h'
    unfold idx at hc
    rw [List.getElem?_eq_none (Nat.le_of_not_lt hge)] at hc
    cases hc
  rw [vector_updateIndex_eq hp (List.getElem?_eq_getElem hj)] at h
  obtain ⟨⟨r', o', c'⟩, hs, ht⟩ := P.map_eq_ok.1 h
  cases ht
  have hw : ∀ k, k ≠ j → (fv.weights.set j c')[k]? = fv.weights[k]? := fun k hk => by
    rw [List.getElem?_set_ne (Ne.symm hk)]
  refine ⟨hj, List.length_set, rfl, fun c hc => ⟨c', ?_, ?_⟩, hw, fun k y hk => ?_⟩
  · rw [List.getElem?_eq_getElem hj] at hc
    cases hc
    rw [scalar_update_eq hp]
    show Except.map _ (Optimiser.stepScaled fv.optimiser fv.weights[j] φ e) = _
    rw [hs]; rfl
  · exact List.getElem?_set_self hj
  · have hi : idx (fv.weights.set j c') k = idx fv.weights k := by
      unfold idx; rw [hw k hk]
    show (Basis.project fv.basis y >>= _) = (Basis.project fv.basis y >>= _)
    congr 1
    funext r
    cases r with
    | error e => rfl
    | ok b =>
      show Except.map Except.ok (idx (fv.weights.set j c') k >>= _) =
        Except.map Except.ok (idx fv.weights k >>= _)
      rw [hi, show (fv.weights.set j (r', o', c').2.2).length = fv.weights.length from List.length_set]

/-- Out of range, `update_index` panics (on inputs the basis accepts). -/
theorem C63_out_of_range [Optimiser O K] (fv : VectorLFA B O K) (x : I) (j : Nat) (e : K)
    (hx : Accepts (K := K) fv.basis x) (hj : fv.nOutputs ≤ j) : Panics (fv.updateIndex x j e) := by
  obtain ⟨φ, hp⟩ := hx
  refine ⟨.indexOutOfBounds, ?_⟩
  show (Basis.project fv.basis x >>= _) = _
  rw [hp, P.ok_bind]
  show (idx fv.weights j >>= _) = _
  have : idx fv.weights j = .error .indexOutOfBounds := by
    unfold idx; rw [List.getElem?_eq_none hj]
  rw [this]; rfl

/-! ## C66 Optimiser errors in vector updates -/

theorem stepColumns_ok [Optimiser O K] (φ : Features K) : ∀ (es : List K) (cs : List (List K)) (o : O)
    (acc r : Result Unit) (o' : O) (cs' : List (List K)),
    VectorLFA.stepColumns φ es cs o acc = .ok (r, o', cs') →
    ∃ rs ds, Steps φ (es.take cs.length) (cs.take es.length) o rs ds o' ∧
      cs' = ds ++ cs.drop es.length ∧ r = acc.and (firstFailure rs)
  | [], cs, o, acc, r, o', cs', h => by
    have : VectorLFA.stepColumns φ [] cs o acc = .ok (acc, o, cs) := by
      cases cs <;> rfl
    rw [this] at h; cases h
    refine ⟨[], [], ?_, rfl, ?_⟩
    · rw [List.take_nil]; exact .nil o
    · cases acc <;> rfl
  | e :: es, [], o, acc, r, o', cs', h => by
    cases h
    refine ⟨[], [], .nil o, rfl, ?_⟩
    cases acc <;> rfl
  | e :: es, c :: cs, o, acc, r, o', cs', h => by
    obtain ⟨⟨r₁, o₁, c₁⟩, hs, h⟩ := P.bind_eq_ok.1 h
    obtain ⟨⟨acc₂, o₂, cs₂⟩, ht, h⟩ := P.bind_eq_ok.1 h
    cases h
    obtain ⟨rs, ds, h1, h2, h3⟩ := stepColumns_ok φ es cs o₁ (acc.and r₁) _ _ _ ht
    refine ⟨r₁ :: rs, c₁ :: ds, .cons hs h1, by rw [h2]; rfl, ?_⟩
    rw [h3]
    cases acc <;> cases r₁ <;> rfl

/-- `update(x, errors)` steps every column that has an error value — whether or not an earlier one
failed — carrying the optimiser along, and returns the first failure; columns without an error value
are unchanged. `Steps` demands a step for each of the first `min(errors, outputs)` columns. -/
theorem C66_first_failure [Optimiser O K] (fv fv' : VectorLFA B O K) (x : I) (φ : Features K)
    (es : List K) (r : Result Unit) (hp : Basis.project fv.basis x = .ok (.ok φ))
    (h : fv.update x es = .ok (r, fv')) :
    ∃ rs ds, Steps φ (es.take fv.nOutputs) (fv.weights.take es.length) fv.optimiser rs ds
        fv'.optimiser ∧
      fv'.weights = ds ++ fv.weights.drop es.length ∧ r = firstFailure rs ∧ fv'.basis = fv.basis := by
  rw [vector_update_eq hp] at h
  obtain ⟨⟨r', o', cs'⟩, hs, ht⟩ := P.map_eq_ok.1 h
  cases ht
  obtain ⟨rs, ds, h1, h2, h3⟩ := stepColumns_ok φ es fv.weights fv.optimiser _ _ _ _ hs
  exact ⟨rs, ds, h1, h2, h3, rfl⟩

/-- What `Steps` says about lengths: one result and one column per error value. -/
theorem C66_all_stepped [Optimiser O K] (φ : Features K) (es : List K) (cs ds : List (List K))
    (o o' : O) (rs : List (Result Unit)) (h : Steps φ es cs o rs ds o') :
    rs.length = es.length ∧ ds.length = es.length ∧ cs.length = es.length := by
  induction h with
  | nil => exact ⟨rfl, rfl, rfl⟩
  | cons _ _ ih => simp [ih]

/-- `firstFailure` is the first failure. -/
theorem C66_firstFailure_spec (rs : List (Result Unit)) :
    (firstFailure rs = .ok () ↔ ∀ r ∈ rs, r = .ok ()) ∧
    (∀ e, firstFailure rs = .error e ↔
      ∃ j : Nat, rs[j]? = some (.error e) ∧ ∀ i < j, rs[i]? = some (.ok ())) := by
  induction rs with
  | nil => exact ⟨by simp [firstFailure], fun e => by simp [firstFailure]⟩
  | cons r rs ih =>
    cases r with
    | ok u =>
      cases u
      refine ⟨by simp [firstFailure, ih.1], fun e => ?_⟩
      show firstFailure rs = .error e ↔ _
      rw [ih.2]
      constructor
      · rintro ⟨j, h1, h2⟩
        refine ⟨j + 1, by simpa using h1, fun i hi => ?_⟩
        cases i with
        | zero => rfl
        | succ i => simpa using h2 i (by omega)
      · rintro ⟨j, h1, h2⟩
        cases j with
        | zero => cases h1
        | succ j => exact ⟨j, by simpa using h1, fun i hi => by simpa using h2 (i + 1) (by omega)⟩
    | error e' =>
      refine ⟨by simp [firstFailure], fun e => ?_⟩
      constructor
      · intro h
        cases h
        exact ⟨0, rfl, fun i hi => absurd hi (Nat.not_lt_zero i)⟩
      · rintro ⟨j, h1, h2⟩
        cases j with
        | zero => cases h1; rfl
        | succ j => have := h2 0 (Nat.succ_pos j); cases this

/-! ## C65 Short or long error lists -/

/-- With fewer errors than outputs only the leading columns change; surplus errors are ignored
(result, weights, optimiser and panics are those of the truncated list). -/
theorem C65_lengths [Optimiser O K] (fv : VectorLFA B O K) (x : I) (es : List K) :
    (∀ r fv' j, Accepts (K := K) fv.basis x → fv.update x es = .ok (r, fv') → es.length ≤ j →
      fv'.weights[j]? = fv.weights[j]? ∧ fv'.nOutputs = fv.nOutputs) ∧
    fv.update x es = fv.update x (es.take fv.nOutputs) := by
  constructor
  · rintro r fv' j ⟨φ, hp⟩ h hj
    obtain ⟨rs, ds, h1, h2, -, -⟩ := C66_first_failure fv fv' x φ es r hp h
    obtain ⟨-, hl, hl'⟩ := C66_all_stepped φ _ _ _ _ _ _ h1
    have hlen : ds.length = min es.length fv.weights.length := by
      rw [hl, List.length_take, Nat.min_comm]; rfl
    constructor
    · rw [h2]
      by_cases hc : es.length ≤ fv.weights.length
      · rw [List.getElem?_append_right (by omega), List.getElem?_drop]
        congr 1
        omega
      · rw [List.getElem?_eq_none, List.getElem?_eq_none (by omega)]
        rw [List.length_append, List.length_drop]; omega
    · unfold VectorLFA.nOutputs
      rw [h2, List.length_append, List.length_drop]; omega
  · have key : ∀ (φ : Features K) (es : List K) (cs : List (List K)) (o : O) (acc : Result Unit),
        VectorLFA.stepColumns φ es cs o acc = VectorLFA.stepColumns φ (es.take cs.length) cs o acc := by
      intro φ es
      induction es with
      | nil => intro cs o acc; rw [List.take_nil]
      | cons e es ih =>
        intro cs o acc
        cases cs with
        | nil => rfl
        | cons c cs =>
          show (_ >>= _) = (_ >>= _)
          congr 1
          funext t
          show (VectorLFA.stepColumns φ es cs t.2.1 (acc.and t.1) >>= _) =
            (VectorLFA.stepColumns φ (es.take cs.length) cs t.2.1 (acc.and t.1) >>= _)
          rw [ih]
    show (Basis.project fv.basis x >>= _) = (Basis.project fv.basis x >>= _)
    congr 1
    funext r
    cases r with
    | error e => rfl
    | ok φ =>
      show (VectorLFA.stepColumns φ es fv.weights fv.optimiser (.ok ()) >>= _) =
        (VectorLFA.stepColumns φ (es.take fv.weights.length) fv.weights fv.optimiser (.ok ()) >>= _)
      rw [key]

/-! ## C64 Vector updates treat outputs independently

Full claim: each column evolves as a separate scalar approximator with its own copy of the optimiser.
False for optimisers with state, because all columns share one (`C64_momentum_shared`). -/

theorem steps_get [Optimiser O K] (hst : Stateless K O) {φ : Features K} {es : List K}
    {cs ds : List (List K)} {o o' : O} {rs : List (Result Unit)} (h : Steps φ es cs o rs ds o') :
    o' = o ∧ ∀ (j : Nat) c e, cs[j]? = some c → es[j]? = some e → ∃ d r, ds[j]? = some d ∧
      rs[j]? = some r ∧ Optimiser.stepScaled o c φ e = .ok (r, o, d) := by
  induction h with
  | nil o => exact ⟨rfl, fun j c e h => by cases j <;> cases h⟩
  | @cons e es c c' cs cs' o o₁ o' r rs hs _ ih =>
    have ho := hst _ _ _ _ _ _ _ hs
    subst ho
    refine ⟨ih.1, fun j c₂ e₂ hc he => ?_⟩
    cases j with
    | zero => cases hc; cases he; exact ⟨c', r, rfl, rfl, hs⟩
    | succ j => exact ih.2 j c₂ e₂ (by simpa using hc) (by simpa using he)

/-- For stateless optimisers (SGD and ISGD, see `C64_stateless`), over any sequence of successful
vector updates with one error per output, column `j` evolves exactly as a separate scalar
approximator given the `j`-th errors. Missing: optimisers with state. -/
theorem C64_independent_partial [Optimiser O K] (hst : Stateless K O) (k : Nat)
    (calls : List (I × List K)) (hl : ∀ c ∈ calls, c.2.length = k) (fv fv' : VectorLFA B O K)
    (hk : fv.nOutputs = k) (hx : ∀ c ∈ calls, Accepts (K := K) fv.basis c.1)
    (h : VRun fv (calls.map fun c => .update c.1 c.2) fv') :
    fv'.nOutputs = k ∧ fv'.optimiser = fv.optimiser ∧ ∀ j c, fv.weights[j]? = some c → ∃ c',
      fv'.weights[j]? = some c' ∧
      SRun (LFA.mk fv.basis c fv.optimiser : ScalarLFA B O K)
        (calls.map fun call => .update call.1 (entry call.2 j)) ⟨fv.basis, c', fv.optimiser⟩ := by
  induction calls generalizing fv with
  | nil => cases h; exact ⟨hk, rfl, fun j c hc => ⟨c, hc, .nil _⟩⟩
  | cons call calls ih =>
    rw [List.map_cons] at h
    cases h with
    | @update _ fv₁ _ _ _ _ hu t =>
      have hlen := hl call List.mem_cons_self
      obtain ⟨φ, hp⟩ := hx call List.mem_cons_self
      obtain ⟨rs, ds, h1, h2, h3, h4⟩ := C66_first_failure fv fv₁ _ φ _ _ hp hu
      rw [hk, ← hlen, List.take_length] at h1
      have hwl : fv.weights.length = call.2.length := by rw [hlen]; exact hk
      rw [← hwl, List.take_length] at h1
      rw [← hwl, List.drop_length, List.append_nil] at h2
      obtain ⟨ho, hcol⟩ := steps_get hst h1
      obtain ⟨hrl, hdl, -⟩ := C66_all_stepped φ _ _ _ _ _ _ h1
      have hk₁ : fv₁.nOutputs = k := by
        unfold VectorLFA.nOutputs; rw [h2, hdl, hlen]
      obtain ⟨g1, g2, g3⟩ := ih (fun c hc => hl c (List.mem_cons_of_mem _ hc)) fv₁ hk₁
        (fun c hc => by rw [h4]; exact hx c (List.mem_cons_of_mem _ hc)) t
      refine ⟨g1, g2.trans ho, fun j c hc => ?_⟩
      have hj : j < call.2.length := hwl ▸ (List.getElem?_eq_some_iff.1 hc).1
      have he : call.2[j]? = some (entry call.2 j) := getElem?_entry hj
      obtain ⟨d, r, e1, e2, e3⟩ := hcol j c _ hc he
      have hr : r = .ok () := by
        have := ((C66_firstFailure_spec rs).1.1 h3.symm) r (List.mem_of_getElem? e2)
        exact this
      obtain ⟨c', q1, q2⟩ := g3 j d (by rw [h2]; exact e1)
      refine ⟨c', q1, ?_⟩
      rw [h4, ho] at q2
      refine .update (fa₁ := ⟨fv.basis, d, fv.optimiser⟩) ?_ q2
      rw [scalar_update_eq hp]
      show Except.map _ (Optimiser.stepScaled fv.optimiser c φ _) = _
      rw [e3, hr]; rfl

/-- SGD and ISGD are stateless. -/
theorem C64_stateless : Stateless K (SGD K) ∧ Stateless K (ISGD K) := by
  constructor
  · intro o w φ s r o' w' h
    have h : (φ.scaledAddto (o.lr *. s) w >>= _) = _ := h
    obtain ⟨v, -, h⟩ := P.bind_eq_ok.1 h
    cases h; rfl
  · intro o w φ s r o' w' h
    have h : (φ.scaledAddto (o.computeLr φ *. s) w >>= _) = _ := h
    obtain ⟨v, -, h⟩ := P.bind_eq_ok.1 h
    cases h; rfl

end

/-- Counterexample to the full claim: two outputs with the same weights and the same errors, one
update with momentum. The first column moves by `lr`, the second by `lr (m + 1)`; a separate
approximator moves by `lr`. -/
theorem C64_momentum_shared (m lr : ℝ) (hm : m ≠ 0) (hlr : lr ≠ 0) :
    ∃ fv' : VectorLFA (Bias ℝ) (SGDMomentum ℝ) ℝ,
      VectorLFA.update (LFA.mk (Bias.unit (K := ℝ)) [[0], [0]] (SGDMomentum.new 1 m lr)) ()
        [1, 1] = .ok (.ok (), fv') ∧ fv'.weights = [[lr], [lr * (m + 1)]] ∧
      ∃ fs : ScalarLFA (Bias ℝ) (SGDMomentum ℝ) ℝ,
        ScalarLFA.update (LFA.mk (Bias.unit (K := ℝ)) [0] (SGDMomentum.new 1 m lr)) () 1 =
          .ok (.ok (), fs) ∧ fs.weights = [lr] ∧ fs.weights ≠ [lr * (m + 1)] := by
  have hf : Fits 1 (Features.dense [(1 : ℝ)]) := ⟨trivial, rfl⟩
  have hp : Basis.project (Bias.unit (K := ℝ)) () = .ok (.ok (Features.dense [(1 : ℝ)])) := by
    show Except.ok (Except.ok (Features.dense [Scalar.one])) = _
    rw [real_one]
  have single : ∀ {l : List ℝ}, l.length = 1 → l = [entry l 0] := by
    intro l hl
    match l, hl with
    | [a], _ => rfl
  obtain ⟨v, w, a1, a2, a3, a4⟩ := momentum_real hf (SGDMomentum.new 1 m lr) rfl 1 (w := [0]) rfl
  obtain ⟨v', w', b1, b2, b3, b4⟩ := momentum_real hf
    ({ SGDMomentum.new 1 m lr with velocity := v }) a2 1 (w := [0]) rfl
  have hv : entry v 0 = 1 := by
    rw [(a4 0 Nat.one_pos).1]
    show m * entry (List.replicate 1 (Scalar.zero : ℝ)) 0 + 1 * 1 = 1
    rw [entry_replicate, real_zero]; ring
  have hw : w = [lr] := by
    rw [single a3, (a4 0 Nat.one_pos).2, hv]
    show [(0 : ℝ) + lr * 1] = _
    rw [mul_one, zero_add]
  have hw' : w' = [lr * (m + 1)] := by
    rw [single b3, (b4 0 Nat.one_pos).2, (b4 0 Nat.one_pos).1]
    show [(0 : ℝ) + lr * (m * entry v 0 + 1 * 1)] = _
    rw [hv, mul_one, mul_one, zero_add]
  refine ⟨⟨Bias.unit, [w, w'], { SGDMomentum.new 1 m lr with velocity := v' }⟩, ?_, ?_,
    ⟨Bias.unit, w, { SGDMomentum.new 1 m lr with velocity := v }⟩, ?_, hw, ?_⟩
  · rw [vector_update_eq hp]
    show Except.map _ (Optimiser.stepScaled (SGDMomentum.new 1 m lr) [0] _ 1 >>= _) = _
    rw [a1, P.ok_bind]
    show Except.map _ ((Optimiser.stepScaled _ [0] _ 1 >>= _) >>= _) = _
    rw [b1]; rfl
  · show [w, w'] = _
    rw [hw, hw']
  · rw [scalar_update_eq hp]
    show Except.map _ (Optimiser.stepScaled (SGDMomentum.new 1 m lr) [0] _ 1) = _
    rw [a1]; rfl
  · show w ≠ _
    rw [hw]
    intro hc
    have hc' : lr = lr * (m + 1) := by simpa using hc
    have : lr * m = 0 := by linarith
    rcases mul_eq_zero.1 this with h | h
    · exact hlr h
    · exact hm h

/-! ## C67 Training never panics -/

section
variable {B O I K : Type} [Scalar K] [Space B] [Basis B I K] [Optimiser O K] [HasSize O]
  [Safe (K := K) O]

theorem matmul_safe {n : Nat} {φ : Features K} (hf : Fits n φ) {cs : List (List K)}
    (hc : ∀ c ∈ cs, c.length = n) : ∃ vs, φ.matmul cs = .ok vs := by
  cases hm : φ.matmul cs with
  | ok vs => exact ⟨vs, rfl⟩
  | error p =>
    obtain ⟨c, hcm, q, hq⟩ := (C04_matmul_panics_iff φ cs).1 ⟨p, hm⟩
    obtain ⟨v, hv⟩ := dot_safe hf (hc c hcm)
    rw [hv] at hq; cases hq

theorem stepColumns_safe {n : Nat} {φ : Features K} (hf : Fits n φ) : ∀ (es : List K)
    (cs : List (List K)) (o : O), (∀ c ∈ cs, c.length = n) → HasSize.sized n o →
    ∃ o' cs', VectorLFA.stepColumns φ es cs o (.ok ()) = .ok (.ok (), o', cs') ∧
      HasSize.sized n o' ∧ cs'.length = cs.length ∧ ∀ c ∈ cs', c.length = n
  | [], cs, o, hc, ho => ⟨o, cs, by cases cs <;> rfl, ho, rfl, hc⟩
  | e :: es, [], o, hc, ho => ⟨o, [], rfl, ho, rfl, hc⟩
  | e :: es, c :: cs, o, hc, ho => by
    obtain ⟨o₁, c₁, h1, h2, h3⟩ := Safe.scaled (K := K) e ho (hc c List.mem_cons_self) hf
    obtain ⟨o', cs', h4, h5, h6, h7⟩ := stepColumns_safe hf es cs o₁
      (fun d hd => hc d (List.mem_cons_of_mem _ hd)) h2
    refine ⟨o', c₁ :: cs', ?_, h5, by simp [h6], ?_⟩
    · show (Optimiser.stepScaled o c φ e >>= _) = _
      rw [h1, P.ok_bind]
      show (VectorLFA.stepColumns φ es cs o₁ (.ok ()) >>= _) = _
      rw [h4]; rfl
    · intro d hd
      rcases List.mem_cons.1 hd with rfl | hd
      · exact h3
      · exact h7 d hd

/-- A scalar approximator over any basis that keeps its contract (C17: dimension and index range) and
any optimiser of matching size: every sequence of calls on accepted inputs runs through without a
panic or an error, and the weights keep their shape. Any arithmetic. -/
theorem C67_scalar (b : B) (n : Nat) (hd : Space.dim b = .finite n) (hdim : DimOK I b)
    (hr : InRange I b) (w : List K) (hw : w.length = n) (o : O) (ho : HasSize.sized n o)
    (cs : List (SCall I K)) (hcs : ∀ c ∈ cs, Accepts (K := K) b c.input) :
    ∃ w' o', SRun (LFA.mk b w o : ScalarLFA B O K) cs ⟨b, w', o'⟩ ∧ w'.length = n ∧
      HasSize.sized n o' := by
  induction cs generalizing w o with
  | nil => exact ⟨w, o, .nil _, hw, ho⟩
  | cons c cs ih =>
    obtain ⟨φ, hp⟩ := hcs c List.mem_cons_self
    have hf : Fits n φ := by
      refine ⟨hr _ _ hp, ?_⟩
      have := hdim _ _ hp
      rw [hd] at this; cases this; rfl
    have hcs' := fun c' hc' => hcs c' (List.mem_cons_of_mem c hc')
    obtain ⟨v, hv⟩ := dot_safe hf hw
    have hu : ∀ e, ∃ o₁ w₁, ScalarLFA.update (LFA.mk b w o) c.input e =
        .ok (.ok (), ⟨b, w₁, o₁⟩) ∧ HasSize.sized n o₁ ∧ w₁.length = n := by
      intro e
      obtain ⟨o₁, w₁, h1, h2, h3⟩ := Safe.scaled (K := K) e ho hw hf
      refine ⟨o₁, w₁, ?_, h2, h3⟩
      rw [scalar_update_eq (fa := LFA.mk b w o) hp]
      show Except.map _ (Optimiser.stepScaled o w φ e) = _
      rw [h1]; rfl
    cases c with
    | evaluate x =>
      obtain ⟨w', o', h1, h2, h3⟩ := ih w hw o ho hcs'
      refine ⟨w', o', .evaluate (v := v) ?_ h1, h2, h3⟩
      rw [scalar_evaluate_eq (x := x) (fa := LFA.mk b w o) hp]
      show Except.map _ (φ.dot w) = _
      rw [hv]; rfl
    | update x e =>
      obtain ⟨o₁, w₁, g1, g2, g3⟩ := hu e
      obtain ⟨w', o', h1, h2, h3⟩ := ih w₁ g3 o₁ g2 hcs'
      exact ⟨w', o', .update g1 h1, h2, h3⟩
    | updateWith x f =>
      obtain ⟨o₁, w₁, g1, g2, g3⟩ := hu (f φ v)
      obtain ⟨w', o', h1, h2, h3⟩ := ih w₁ g3 o₁ g2 hcs'
      refine ⟨w', o', .updateWith (fa₁ := ⟨b, w₁, o₁⟩) ?_ h1, h2, h3⟩
      rw [scalar_updateWith_eq (x := x) (fa := LFA.mk b w o) hp]
      show (φ.dot w >>= _) = _
      rw [hv, P.ok_bind]; exact g1

/-- The same for vector approximators: any number of outputs, any error lists. -/
theorem C67_vector (b : B) (n k : Nat) (hd : Space.dim b = .finite n) (hdim : DimOK I b)
    (hr : InRange I b) (ws : List (List K)) (hk : ws.length = k) (hw : ∀ w ∈ ws, w.length = n)
    (o : O) (ho : HasSize.sized n o) (cs : List (VCall I K))
    (hcs : ∀ c ∈ cs, Accepts (K := K) b c.input) (hix : ∀ c ∈ cs, c.IndexOK k) :
    ∃ ws' o', VRun (LFA.mk b ws o : VectorLFA B O K) cs ⟨b, ws', o'⟩ ∧ ws'.length = k ∧
      (∀ w ∈ ws', w.length = n) ∧ HasSize.sized n o' := by
  induction cs generalizing ws o with
  | nil => exact ⟨ws, o, .nil _, hk, hw, ho⟩
  | cons c cs ih =>
    obtain ⟨φ, hp⟩ := hcs c List.mem_cons_self
    have hf : Fits n φ := by
      refine ⟨hr _ _ hp, ?_⟩
      have := hdim _ _ hp
      rw [hd] at this; cases this; rfl
    have hcs' := fun c' hc' => hcs c' (List.mem_cons_of_mem c hc')
    have hix' := fun c' hc' => hix c' (List.mem_cons_of_mem c hc')
    have hi := hix c List.mem_cons_self
    obtain ⟨vs, hvs⟩ := matmul_safe hf hw
    have hu : ∀ es, ∃ o₁ ws₁, VectorLFA.update (LFA.mk b ws o) c.input es =
        .ok (.ok (), ⟨b, ws₁, o₁⟩) ∧ HasSize.sized n o₁ ∧ ws₁.length = k ∧
        ∀ w ∈ ws₁, w.length = n := by
      intro es
      obtain ⟨o₁, ws₁, h1, h2, h3, h4⟩ := stepColumns_safe hf es ws o hw ho
      refine ⟨o₁, ws₁, ?_, h2, h3.trans hk, h4⟩
      rw [vector_update_eq (fa := LFA.mk b ws o) hp]
      show Except.map _ (VectorLFA.stepColumns φ es ws o (.ok ())) = _
      rw [h1]; rfl
    cases c with
    | evaluate x =>
      obtain ⟨ws', o', h1, h2⟩ := ih ws hk hw o ho hcs' hix'
      refine ⟨ws', o', .evaluate (v := vs) ?_ h1, h2⟩
      rw [vector_evaluate_eq (x := x) (fa := LFA.mk b ws o) hp]
      show Except.map _ (φ.matmul ws) = _
      rw [hvs]; rfl
    | evaluateIndex x j =>
      have hj : j < ws.length := hk ▸ hi
      obtain ⟨v, hv⟩ := dotColumn_safe ws.length hf (hw _ (List.getElem_mem hj))
      obtain ⟨ws', o', h1, h2⟩ := ih ws hk hw o ho hcs' hix'
      refine ⟨ws', o', .evaluateIndex (v := v) ?_ h1, h2⟩
      rw [vector_evaluateIndex_eq (x := x) (fa := LFA.mk b ws o) hp (List.getElem?_eq_getElem hj), hv]; rfl
    | update x es =>
      obtain ⟨o₁, ws₁, g1, g2, g3, g4⟩ := hu es
      obtain ⟨ws', o', h1, h2⟩ := ih ws₁ g3 g4 o₁ g2 hcs' hix'
      exact ⟨ws', o', .update g1 h1, h2⟩
    | updateIndex x j e =>
      have hj : j < ws.length := hk ▸ hi
      obtain ⟨o₁, c₁, g1, g2, g3⟩ := Safe.scaled (K := K) e ho (hw _ (List.getElem_mem hj)) hf
      obtain ⟨ws', o', h1, h2⟩ := ih (ws.set j c₁) (by rw [List.length_set, hk])
        (fun w hwm => by
          rcases List.mem_or_eq_of_mem_set hwm with h | rfl
          · exact hw w h
          · exact g3) o₁ g2 hcs' hix'
      refine ⟨ws', o', .updateIndex (fa₁ := ⟨b, ws.set j c₁, o₁⟩) ?_ h1, h2⟩
      rw [vector_updateIndex_eq (x := x) (fa := LFA.mk b ws o) hp (List.getElem?_eq_getElem hj)]
      show Except.map _ (Optimiser.stepScaled o ws[j] φ e) = _
      rw [g1]; rfl
    | updateWith x f =>
      obtain ⟨o₁, ws₁, g1, g2, g3, g4⟩ := hu (f φ vs)
      obtain ⟨ws', o', h1, h2⟩ := ih ws₁ g3 g4 o₁ g2 hcs' hix'
      refine ⟨ws', o', .updateWith (fa₁ := ⟨b, ws₁, o₁⟩) ?_ h1, h2⟩
      rw [vector_updateWith_eq (x := x) (fa := LFA.mk b ws o) hp]
      show (φ.matmul ws >>= _) = _
      rw [hvs, P.ok_bind]; exact g1

end

/-- For every nesting of built-in bases (`Fixed::sparse` with indices in range, see C17), and every
optimiser type with the safety property that C44 gives for the seven built-in ones: a freshly built
approximator goes through every sequence of calls on accepted inputs. -/
theorem C67_built {K : Type} [ScalarInf K] {B O : Type} [Space B] [Basis B (List K) K]
    [EnumerableBasis B (List K) K] [Optimiser O K] [HasSize O] [Safe (K := K) O] (b : B)
    (hb : Built (K := K) allowInRange b) (n : Nat) (hd : Space.dim b = .finite n) (o : O)
    (ho : HasSize.sized n o) (k : Nat) (cs : List (SCall (List K) K)) (vcs : List (VCall (List K) K))
    (hcs : ∀ c ∈ cs, Accepts (K := K) b c.input) (hvcs : ∀ c ∈ vcs, Accepts (K := K) b c.input)
    (hix : ∀ c ∈ vcs, c.IndexOK k) :
    (∃ fa fa' : ScalarLFA B O K, ScalarLFA.scalar b o = .ok fa ∧ SRun fa cs fa' ∧
      fa'.weights.length = n) ∧
    (∃ fv fv' : VectorLFA B O K, VectorLFA.vector b o k = .ok fv ∧ VRun fv vcs fv' ∧
      fv'.nOutputs = k ∧ ∀ w ∈ fv'.weights, w.length = n) := by
  obtain ⟨h1, h2⟩ := C59_shape (K := K) b o k n hd
  have hdim := C17_dim hb
  have hr := C17_in_range_partial (A := allowInRange) (fun _ h => h) hb
  constructor
  · obtain ⟨w', o', g1, g2, -⟩ := C67_scalar b n hd hdim hr (List.replicate n Scalar.zero)
      List.length_replicate o ho cs hcs
    exact ⟨_, _, h1, g1, g2⟩
  · obtain ⟨w', o', g1, g2, g3, -⟩ := C67_vector b n k hd hdim hr
      (List.replicate k (List.replicate n Scalar.zero)) List.length_replicate
      (fun w hw => by rw [List.eq_of_mem_replicate hw, List.length_replicate]) o ho vcs hvcs hix
    exact ⟨_, _, h2, g1, g2, g3⟩

/-- The seven built-in optimisers, freshly constructed for `n` parameters, meet the hypotheses. -/
theorem C67_optimisers {K : Type} [Scalar K] (n : Nat) (lr m b1 b2 : K) :
    (Safe (K := K) (SGD K) ∧ HasSize.sized n (SGD.mk lr)) ∧
    (Safe (K := K) (ISGD K) ∧ HasSize.sized n (ISGD.mk lr)) ∧
    (Safe (K := K) (SGDMomentum K) ∧ HasSize.sized n (SGDMomentum.new n m lr)) ∧
    (Safe (K := K) (NAG K) ∧ HasSize.sized n (NAG.new n m lr)) ∧
    (Safe (K := K) (Adagrad K) ∧ HasSize.sized n (Adagrad.new n lr)) ∧
    (Safe (K := K) (Adam K) ∧ HasSize.sized n (Adam.new n lr b1 b2)) ∧
    (Safe (K := K) (AdaMax K) ∧ HasSize.sized n (AdaMax.new n lr b1 b2)) :=
  ⟨⟨inferInstance, trivial⟩, ⟨inferInstance, trivial⟩, ⟨inferInstance, List.length_replicate⟩,
    ⟨inferInstance, List.length_replicate⟩, ⟨inferInstance, List.length_replicate⟩,
    ⟨inferInstance, List.length_replicate, List.length_replicate⟩,
    ⟨inferInstance, List.length_replicate, List.length_replicate⟩⟩

/-- Without the range restriction on `Fixed::sparse` training does panic. -/
theorem C67_out_of_range_panics {K : Type} [Scalar K] (o : SGD K) (e : K) :
    ∃ fa : ScalarLFA (FixedSparse K) (SGD K) K,
      ScalarLFA.scalar (FixedSparse.mk 1 [5]) o = .ok fa ∧ Panics (fa.evaluate ()) ∧
      Panics (fa.update () e) := ⟨_, rfl, ⟨_, rfl⟩, ⟨_, rfl⟩⟩

/-! ## C68 SGD update moves predictions along inner products -/

/-- After `update(x, e)` under SGD the evaluation at any `y` changes by `lr e ⟨φ(x), φ(y)⟩`. -/
theorem C68_sgd_prediction {B I : Type} [Space B] [Basis B I ℝ] (b : B) (n : Nat)
    (w : List ℝ) (hw : w.length = n) (lr e : ℝ) (x y : I) (φ ψ : Features ℝ)
    (hx : Basis.project b x = .ok (.ok φ)) (hy : Basis.project b y = .ok (.ok ψ)) (hφ : Fits n φ)
    (hψ : Fits n ψ) :
    ∃ (fa' : ScalarLFA B (SGD ℝ) ℝ) (v v' : ℝ),
      ScalarLFA.update (LFA.mk b w (SGD.mk lr)) x e = .ok (.ok (), fa') ∧
      ScalarLFA.evaluate (LFA.mk b w (SGD.mk lr)) y = .ok (.ok v) ∧
      fa'.evaluate y = .ok (.ok v') ∧ v' = v + lr * e * innerFeatures φ ψ := by
  obtain ⟨w', h1, h2, h3⟩ := sgd_real hφ (SGD.mk lr) e hw
  refine ⟨⟨b, w', SGD.mk lr⟩, inner ψ w, inner ψ w', ?_, ?_, ?_, ?_⟩
  · rw [scalar_update_eq (fa := LFA.mk b w (SGD.mk lr)) hx]
    show Except.map _ (Optimiser.stepScaled (SGD.mk lr) w φ e) = _
    rw [h1]; rfl
  · rw [scalar_evaluate_eq (fa := LFA.mk b w (SGD.mk lr)) hy]
    show Except.map _ (ψ.dot w) = _
    rw [dot_real hψ.1 (hψ.2.trans hw.symm)]; rfl
  · rw [scalar_evaluate_eq (fa := LFA.mk b w' (SGD.mk lr)) hy]
    show Except.map _ (ψ.dot w') = _
    rw [dot_real hψ.1 (hψ.2.trans h2.symm)]; rfl
  · rw [inner_eq, inner_eq, innerFeatures, Finset.mul_sum, hφ.2, hψ.2, ← Finset.sum_add_distrib]
    apply Finset.sum_congr rfl
    intro i hi
    rw [h3 i (Finset.mem_range.1 hi)]
    ring

/-- In particular at `x` itself: by `lr e ‖φ(x)‖²`. -/
theorem C68_self (φ : Features ℝ) : innerFeatures φ φ = normSq φ := rfl

/-! ### Concrete cases -/

/-- A basis that fails, for C60. -/
example : Basis.project (Closure.mk 3 fun _ : Nat => .ok (.error ⟨.evaluation, "no"⟩) :
    Closure Nat ℝ) 7 = .ok (.error ⟨.evaluation, "no"⟩) := rfl

/-- An optimiser that fails on negative errors, for C66. -/
structure Picky where

noncomputable instance : Optimiser Picky ℝ where
  stepScaled o w _ s := .ok (if s < 0 then .error ⟨.optimisation, "negative"⟩ else .ok (), o, w.map (· + s))
  step o w _ := .ok (.ok (), o, w)
  reset o := o

example : ∃ fv', VectorLFA.update (LFA.mk (Bias.unit (K := ℝ)) [[0], [0], [0]] Picky.mk) ()
    [1, -1] = .ok (.error ⟨.optimisation, "negative"⟩, fv') ∧ fv'.weights = [[0 + 1], [0 + -1], [0]] := by
  refine ⟨⟨Bias.unit, [[0 + 1], [0 + -1], [0]], Picky.mk⟩, ?_, rfl⟩
  show Except.ok ((Result.and (Result.and (.ok ()) (if (1 : ℝ) < 0 then _ else _))
    (if (-1 : ℝ) < 0 then _ else _)), _) = _
  rw [if_neg (by norm_num), if_pos (by norm_num)]
  rfl

/-- A nested basis and inputs for C67. -/
example {K : Type} [ScalarInf K] :
    Built (K := K) allowInRange (Stack.mk (L1Normaliser.mk (Polynomial.new 2 3)) (Bias.unit (K := K))) ∧
    Accepts (K := K) (Stack.mk (L1Normaliser.mk (Polynomial.new 2 3)) (Bias.unit (K := K)))
      [(Scalar.one : K), Scalar.zero] ∧
    Space.dim (Stack.mk (L1Normaliser.mk (Polynomial.new 2 3)) (Bias.unit (K := K))) = .finite 16 :=
  ⟨.stack _ _ (.l1 _ trivial (.polynomial _)) (.bias _), ⟨_, rfl⟩, rfl⟩

end Lfa

import Verif.Props.C59_C68
import Verif.Props.C69_C71
import Verif.Props.C103_C104
import Verif.Proofs.LinearStep

/-!
# C150: a vector approximator is a family of scalar approximators

`C64` treats given errors. Here a vector approximator is trained towards targets, so that the errors come
from its own predictions, over an endless sequence of inputs. With SGD or ISGD every output is, at every
moment, exactly a scalar approximator trained towards the targets of that output, and any family of scalar
approximators over one basis is some vector approximator. What is known about scalar training carries over.
In `f64` this needs sparse features or a single output: `dot` with a column of a matrix adds up in another
order than `dot` with a vector.
-/

set_option linter.unusedSectionVars false

namespace Lfa

open Spec

section
variable {B O I K : Type} [Scalar K] [Space B] [Basis B I K] [Optimiser O K]

/-- An endless sequence of `update_with` calls that train a vector approximator towards the targets
`ys k` at `xs k`, and its predictions just before. -/
structure VStream (fas : Nat → VectorLFA B O K) (xs : Nat → I) (ys ps : Nat → List K) : Prop where
  predicts : ∀ k, (fas k).evaluate (xs k) = .ok (.ok (ps k))
  updates : ∀ k, (fas k).updateWith (xs k) (fun _ vs => List.zipWith (· -. ·) (ys k) vs) =
    .ok (.ok (), fas (k + 1))

/-- Output `j` of a vector approximator by itself. -/
def output (fv : VectorLFA B O K) (j : Nat) : ScalarLFA B O K :=
  ⟨fv.basis, fv.weights.getD j [], fv.optimiser⟩

theorem accepts_of_evaluate {fv : VectorLFA B O K} {x : I} {vs : List K}
    (h : fv.evaluate x = .ok (.ok vs)) :
    ∃ φ, Basis.project (K := K) fv.basis x = .ok (.ok φ) ∧ φ.matmul fv.weights = .ok vs := by
  have h' : ((Basis.project fv.basis x >>= fun r => r.mapP fun basis =>
    .ok (OutputIter.mk basis fv.weights fv.weights.length)) >>= fun r => r.mapP fun it =>
      OutputIter.collect it.basis it.width it.lanes) = _ := h
  obtain ⟨r, h1, h2⟩ := P.bind_eq_ok.1 h'
  obtain ⟨r', h3, h4⟩ := P.bind_eq_ok.1 h1
  cases r' with
  | error e => cases h4; cases h2
  | ok φ =>
    refine ⟨φ, h3, ?_⟩
    rw [vector_evaluate_eq h3] at h
    obtain ⟨vs', h5, h6⟩ := P.map_eq_ok.1 h
    cases h6
    exact h5

theorem getElem?_getD {α : Type} {l : List α} {j : Nat} (d : α) (h : j < l.length) :
    l[j]? = some (l.getD j d) := by
  rw [List.getD_eq_getElem?_getD, List.getElem?_eq_getElem h]; rfl

/-- Columns of a weight matrix with `m` columns are multiplied like vectors: sparse features, a single column, or an arithmetic
in which the order of summation does not matter. -/
def SameDot (I : Type) [Basis B I K] (b : B) (m : Nat) : Prop :=
  m = 1 ∨ OneOrder K ∨ ∀ (x : I) (φ : Features K), Basis.project b x = .ok (.ok φ) → φ.isSparse = true

theorem SameDot.dot {b : B} {m : Nat} (h : SameDot (K := K) I b m) {x : I} {φ : Features K}
    (hp : Basis.project b x = .ok (.ok φ)) (c : List K) : φ.dotColumn m c = φ.dot c := by
  refine dotColumn_eq_dot ?_
  rcases h with h | h | h
  · exact .inr (.inl h)
  · exact .inr (.inr (.inr h))
  · exact .inl (h x φ hp)

/-- One call, column by column, with the dot product that `dot` with a matrix computes. -/
theorem column_call (hst : Stateless K O) {fv fv' : VectorLFA B O K} {x : I} {ys ps : List K}
    (hy : ys.length = fv.nOutputs) (hp : fv.evaluate x = .ok (.ok ps))
    (hu : fv.updateWith x (fun _ vs => List.zipWith (· -. ·) ys vs) = .ok (.ok (), fv')) :
    fv'.nOutputs = fv.nOutputs ∧ fv'.basis = fv.basis ∧ fv'.optimiser = fv.optimiser ∧
    ps.length = fv.nOutputs ∧ ∃ φ, Basis.project fv.basis x = .ok (.ok φ) ∧
    ∀ j < fv.nOutputs, φ.dotColumn fv.nOutputs (fv.weights.getD j []) = .ok (entry ps j) ∧
      Optimiser.stepScaled fv.optimiser (fv.weights.getD j []) φ (entry ys j -. entry ps j) =
        .ok (.ok (), fv.optimiser, fv'.weights.getD j []) := by
  obtain ⟨φ, hφ, hm⟩ := accepts_of_evaluate hp
  obtain ⟨hl, hcols⟩ := matmul_columns φ _ _ hm
  rw [vector_updateWith_eq hφ, hm, P.ok_bind] at hu
  obtain ⟨rs, ds, h1, h2, h3, h4⟩ := C66_first_failure fv fv' _ φ _ _ hφ hu
  unfold VectorLFA.nOutputs at hy
  have hlen : (List.zipWith (· -. ·) ys ps).length = fv.weights.length := by
    rw [List.length_zipWith, hy, hl, Nat.min_self]
  have hlen' : (List.zipWith (· -. ·) ys ps).length = fv.nOutputs := hlen
  rw [← hlen', List.take_length, hlen, List.take_length] at h1
  rw [hlen, List.drop_length, List.append_nil] at h2
  obtain ⟨ho, hcol⟩ := steps_get hst h1
  obtain ⟨hrl, hdl, -⟩ := C66_all_stepped φ _ _ _ _ _ _ h1
  refine ⟨?_, h4, ho, hl, φ, hφ, fun j hj => ?_⟩
  · unfold VectorLFA.nOutputs; rw [h2, hdl, hlen]
  have hc := getElem?_getD (l := fv.weights) (j := j) [] hj
  obtain ⟨y, hy1, hy2⟩ := hcols j _ hc
  have hye : y = entry ps j := by
    have : ps[j]? = some (entry ps j) := getElem?_entry (by rw [hl]; exact hj)
    rw [hy1] at this; injection this
  subst hye
  have he : (List.zipWith (· -. ·) ys ps)[j]? = some (entry ys j -. entry ps j) := by
    rw [List.getElem?_zipWith, getElem?_entry (by rw [hy]; exact hj), hy1]
  obtain ⟨d, r, e1, e2, e3⟩ := hcol j _ _ hc he
  have hr : r = .ok () := ((C66_firstFailure_spec rs).1.1 h3.symm) r (List.mem_of_getElem? e2)
  have hd : d = fv'.weights.getD j [] := by
    rw [h2, List.getD_eq_getElem?_getD, e1]; rfl
  refine ⟨hy2, ?_⟩
  rw [e3, hr, hd]

/-- One call: every output makes the call of a scalar approximator. -/
theorem output_call (hst : Stateless K O) {fv fv' : VectorLFA B O K} {x : I} {ys ps : List K}
    (hsd : SameDot (K := K) I fv.basis fv.nOutputs) (hy : ys.length = fv.nOutputs) (hp : fv.evaluate x = .ok (.ok ps))
    (hu : fv.updateWith x (fun _ vs => List.zipWith (· -. ·) ys vs) = .ok (.ok (), fv')) :
    fv'.nOutputs = fv.nOutputs ∧ fv'.basis = fv.basis ∧ fv'.optimiser = fv.optimiser ∧
    ps.length = fv.nOutputs ∧
    ∀ j < fv.nOutputs, (output fv j).evaluate x = .ok (.ok (entry ps j)) ∧
      (output fv j).updateWith x (fun _ v => entry ys j -. v) = .ok (.ok (), output fv' j) := by
  obtain ⟨h1, h2, h3, h4, φ, hφ, h⟩ := column_call hst hy hp hu
  refine ⟨h1, h2, h3, h4, fun j hj => ?_⟩
  obtain ⟨h5, h6⟩ := h j hj
  rw [hsd.dot hφ] at h5
  constructor
  · rw [scalar_evaluate_eq (fa := output fv j) hφ]
    show Except.map _ (φ.dot (fv.weights.getD j [])) = _
    rw [h5]; rfl
  · rw [scalar_updateWith_eq (fa := output fv j) hφ]
    show (φ.dot (fv.weights.getD j []) >>= _) = _
    rw [h5, P.ok_bind, scalar_update_eq (fa := output fv j) hφ]
    show Except.map _ (Optimiser.stepScaled fv.optimiser (fv.weights.getD j []) φ _) = _
    rw [h6]
    unfold output
    rw [h2, h3]; rfl

/-- With a stateless optimiser (SGD and ISGD, `C64_stateless`), each output of a vector approximator
trained towards targets is at every moment exactly a scalar approximator trained towards the targets of
that output: same weights, same predictions. In real arithmetic this holds for all bases (`C04_real_order`); in any
arithmetic for bases with sparse features. -/
theorem C150_outputs (hst : Stateless K O) (m : Nat) (fas : Nat → VectorLFA B O K) (xs : Nat → I)
    (ys ps : Nat → List K) (h : VStream fas xs ys ps) (hm : (fas 0).nOutputs = m)
    (hsd : SameDot (K := K) I (fas 0).basis m) (hy : ∀ k, (ys k).length = m) :
    (∀ k, (fas k).nOutputs = m ∧ (fas k).basis = (fas 0).basis ∧ (fas k).optimiser = (fas 0).optimiser ∧
      (ps k).length = m) ∧
    ∀ j < m, Stream (fun k => output (fas k) j) xs (fun k => entry (ys k) j) (fun k => entry (ps k) j) := by
  have hk' : ∀ k, (fas k).nOutputs = m ∧ (fas k).basis = (fas 0).basis := by
    intro k
    induction k with
    | zero => exact ⟨hm, rfl⟩
    | succ k ih =>
      have := output_call hst (by rw [ih.1, ih.2]; exact hsd) ((hy k).trans ih.1.symm) (h.predicts k) (h.updates k)
      exact ⟨this.1.trans ih.1, this.2.1.trans ih.2⟩
  have hk := fun k => (hk' k).1
  have call := fun k => output_call hst (by rw [hk, (hk' k).2]; exact hsd) ((hy k).trans (hk k).symm) (h.predicts k)
    (h.updates k)
  refine ⟨fun k => ⟨hk k, ?_, ?_, (call k).2.2.2.1.trans (hk k)⟩, fun j hj => ⟨fun k => ?_, fun k => ?_⟩⟩
  · induction k with
    | zero => rfl
    | succ k ih => exact (call k).2.1.trans ih
  · induction k with
    | zero => rfl
    | succ k ih => exact (call k).2.2.1.trans ih
  · exact ((call k).2.2.2.2 j ((hk k).symm ▸ hj)).1
  · exact ((call k).2.2.2.2 j ((hk k).symm ▸ hj)).2

theorem stepColumns_of_each {φ : Features K} {o : O} : ∀ (es : List K) (cs ds : List (List K)),
    es.length = cs.length → ds.length = cs.length →
    (∀ (j : Nat) e c d, es[j]? = some e → cs[j]? = some c → ds[j]? = some d →
      Optimiser.stepScaled o c φ e = .ok (.ok (), o, d)) →
    VectorLFA.stepColumns φ es cs o (.ok ()) = .ok (.ok (), o, ds)
  | [], [], [], _, _, _ => rfl
  | e :: es, c :: cs, d :: ds, h1, h2, h => by
    have ih := stepColumns_of_each es cs ds (by simpa using h1) (by simpa using h2)
      fun j e c d he hc hd => h (j + 1) e c d (by simpa using he) (by simpa using hc) (by simpa using hd)
    show (Optimiser.stepScaled o c φ e >>= _) = _
    rw [h 0 e c d rfl rfl rfl, P.ok_bind]
    show (VectorLFA.stepColumns φ es cs o (.ok ()) >>= _) = _
    rw [ih]; rfl

theorem project_of_scalar {fa : ScalarLFA B O K} {x : I} {p : K} (h : fa.evaluate x = .ok (.ok p)) :
    ∃ φ, Basis.project (K := K) fa.basis x = .ok (.ok φ) ∧ φ.dot fa.weights = .ok p := by
  have h' : (Basis.project fa.basis x >>= fun r => r.mapP fun b => b.dot fa.weights) = _ := h
  obtain ⟨r, h1, h2⟩ := P.bind_eq_ok.1 h'
  cases r with
  | error e => cases h2
  | ok φ =>
    obtain ⟨v, h3, h4⟩ := P.map_eq_ok.1 h2
    cases h4
    exact ⟨φ, h1, h3⟩

/-- Conversely, any family of scalar approximators over one basis, with one stateless optimiser and
trained on the same inputs, is a vector approximator trained on the targets taken together. -/
theorem C150_assemble (hst : Stateless K O) (m : Nat) (hm : 0 < m) (b : B) (o : O) (hsd : SameDot (K := K) I b m)
    (fas : Fin m → Nat → ScalarLFA B O K)
    (xs : Nat → I) (ys ps : Fin m → Nat → K) (h : ∀ j, Stream (fas j) xs (ys j) (ps j))
    (h0 : ∀ j, (fas j 0).basis = b ∧ (fas j 0).optimiser = o) :
    VStream (fun k => LFA.mk b (List.ofFn fun j => (fas j k).weights) o) xs
      (fun k => List.ofFn fun j => ys j k) (fun k => List.ofFn fun j => ps j k) := by
  have step : ∀ j k, (fas j k).basis = b → (fas j k).optimiser = o → ∃ φ,
      Basis.project (K := K) b (xs k) = .ok (.ok φ) ∧ φ.dot (fas j k).weights = .ok (ps j k) ∧
      Optimiser.stepScaled o (fas j k).weights φ (ys j k -. ps j k) = .ok (.ok (), o, (fas j (k + 1)).weights) ∧
      (fas j (k + 1)).basis = b ∧ (fas j (k + 1)).optimiser = o := by
    intro j k hb ho
    obtain ⟨φ, h1, h2⟩ := project_of_scalar ((h j).predicts k)
    have hu := (h j).updates k
    rw [scalar_updateWith_eq h1, h2, P.ok_bind, scalar_update_eq h1] at hu
    obtain ⟨⟨r, o', w'⟩, h3, h4⟩ := P.map_eq_ok.1 hu
    have := hst _ _ _ _ _ _ _ h3
    subst this
    injection h4 with h5 h6
    subst h5
    rw [← h6]
    refine ⟨φ, hb ▸ h1, h2, ?_, hb, ho⟩
    rw [← ho]; exact h3
  have inv : ∀ j k, (fas j k).basis = b ∧ (fas j k).optimiser = o := by
    intro j k
    induction k with
    | zero => exact h0 j
    | succ k ih => obtain ⟨φ, -, -, -, h4, h5⟩ := step j k ih.1 ih.2; exact ⟨h4, h5⟩
  have all : ∀ k, ∃ φ, Basis.project (K := K) b (xs k) = .ok (.ok φ) ∧
      φ.matmul (List.ofFn fun j => (fas j k).weights) = .ok (List.ofFn fun j => ps j k) ∧
      VectorLFA.stepColumns φ (List.zipWith (· -. ·) (List.ofFn fun j => ys j k) (List.ofFn fun j => ps j k))
        (List.ofFn fun j => (fas j k).weights) o (.ok ()) =
        .ok (.ok (), o, List.ofFn fun j => (fas j (k + 1)).weights) := by
    intro k
    obtain ⟨φ, hφ, -⟩ := step ⟨0, hm⟩ k (inv _ _).1 (inv _ _).2
    have each : ∀ j, φ.dot (fas j k).weights = .ok (ps j k) ∧ Optimiser.stepScaled o (fas j k).weights φ
        (ys j k -. ps j k) = .ok (.ok (), o, (fas j (k + 1)).weights) := by
      intro j
      obtain ⟨φ', h1, h2, h3, -⟩ := step j k (inv _ _).1 (inv _ _).2
      rw [hφ] at h1
      cases h1
      exact ⟨h2, h3⟩
    refine ⟨φ, hφ, ?_, stepColumns_of_each _ _ _ (by simp) (by simp) fun j e c d he hc hd => ?_⟩
    · unfold Features.matmul
      rw [List.length_ofFn]
      refine (mapM_ok_iff _ _ _).2 ?_
      rw [List.forall₂_iff_get]
      refine ⟨by simp, fun j h1 h2 => ?_⟩
      rw [hsd.dot hφ]
      simpa using (each ⟨j, by simpa using h1⟩).1
    · obtain ⟨hj, rfl⟩ := List.getElem?_eq_some_iff.1 hc
      obtain ⟨hj', rfl⟩ := List.getElem?_eq_some_iff.1 he
      obtain ⟨hj'', rfl⟩ := List.getElem?_eq_some_iff.1 hd
      simpa using (each ⟨j, by simpa using hj⟩).2
  constructor
  · intro k
    obtain ⟨φ, h1, h2, -⟩ := all k
    rw [vector_evaluate_eq (fa := LFA.mk b _ o) h1]
    show Except.map _ (φ.matmul (List.ofFn fun j => (fas j k).weights)) = _
    rw [h2]; rfl
  · intro k
    obtain ⟨φ, h1, h2, h3⟩ := all k
    rw [vector_updateWith_eq (fa := LFA.mk b _ o) h1]
    show (φ.matmul (List.ofFn fun j => (fas j k).weights) >>= _) = _
    rw [h2, P.ok_bind, vector_update_eq (fa := LFA.mk b _ o) h1]
    show Except.map _ (VectorLFA.stepColumns φ _ (List.ofFn fun j => (fas j k).weights) o (.ok ())) = _
    rw [h3]; rfl

end

section
variable {B I : Type} [Space B] [Basis B I ℝ]

/-- Convergence for all outputs at once: if weights `v j` predict the targets of output `j` exactly,
then with SGD and `lr ‖φ‖² ≤ c < 2` the squared errors of all calls and outputs together sum to at most
the squared distance of the initial weights over `lr (2 - c)`, and every output's errors tend to 0.
With ISGD the same holds for every positive rate over bounded features. -/
theorem C150_converges (m : Nat) (xs : Nat → I) (ys ps : Nat → List ℝ) (v : Nat → List ℝ)
    (hy : ∀ k, (ys k).length = m) :
    (∀ (fas : Nat → VectorLFA B (SGD ℝ) ℝ) (n : Nat) (c : ℝ), VStream fas xs ys ps → (fas 0).nOutputs = m →
      c < 2 → 0 < (fas 0).optimiser.lr → (∀ j < m, ((fas 0).weights.getD j []).length = n) →
      (∀ k, ∃ φ, Basis.project (fas 0).basis (xs k) = .ok (.ok φ) ∧ Fits n φ ∧
        (fas 0).optimiser.lr * normSq φ ≤ c) →
      (∀ k, ∀ j < m, Predicts (fas 0).basis (v j) (xs k) (entry (ys k) j)) →
      (∀ j < m, Filter.Tendsto (fun k => entry (ys k) j - entry (ps k) j) Filter.atTop (nhds 0)) ∧
      Summable (fun k => ∑ j ∈ Finset.range m, (entry (ys k) j - entry (ps k) j) ^ 2) ∧
      ∑' k, ∑ j ∈ Finset.range m, (entry (ys k) j - entry (ps k) j) ^ 2 ≤
        (∑ j ∈ Finset.range m, distSq n ((fas 0).weights.getD j []) (v j)) / ((fas 0).optimiser.lr * (2 - c))) ∧
    (∀ (fas : Nat → VectorLFA B (ISGD ℝ) ℝ) (n : Nat) (M : ℝ), VStream fas xs ys ps → (fas 0).nOutputs = m →
      0 < (fas 0).optimiser.lr → (∀ j < m, ((fas 0).weights.getD j []).length = n) →
      (∀ k, ∃ φ, Basis.project (fas 0).basis (xs k) = .ok (.ok φ) ∧ Fits n φ ∧ normSq φ ≤ M) →
      (∀ k, ∀ j < m, Predicts (fas 0).basis (v j) (xs k) (entry (ys k) j)) →
      (∀ j < m, Filter.Tendsto (fun k => entry (ys k) j - entry (ps k) j) Filter.atTop (nhds 0)) ∧
      Summable (fun k => ∑ j ∈ Finset.range m, (entry (ys k) j - entry (ps k) j) ^ 2) ∧
      ∑' k, ∑ j ∈ Finset.range m, (entry (ys k) j - entry (ps k) j) ^ 2 ≤
        (∑ j ∈ Finset.range m, distSq n ((fas 0).weights.getD j []) (v j)) /
          ((fas 0).optimiser.lr / (1 + (fas 0).optimiser.lr * M))) := by
  have together : ∀ (e : Nat → Nat → ℝ) (D : Nat → ℝ) (r : ℝ), (∀ j < m, Summable (fun k => e j k) ∧
      ∑' k, e j k ≤ D j / r) → Summable (fun k => ∑ j ∈ Finset.range m, e j k) ∧
      ∑' k, ∑ j ∈ Finset.range m, e j k ≤ (∑ j ∈ Finset.range m, D j) / r := by
    intro e D r h
    refine ⟨summable_sum fun j hj => (h j (Finset.mem_range.1 hj)).1, ?_⟩
    rw [Summable.tsum_finsetSum fun j hj => (h j (Finset.mem_range.1 hj)).1, Finset.sum_div]
    exact Finset.sum_le_sum fun j hj => (h j (Finset.mem_range.1 hj)).2
  constructor
  · intro fas n c h hm hc hlr hw hx hv
    have hs := (C150_outputs (C64_stateless (K := ℝ)).1 m fas xs ys ps h hm
      (.inr (.inl C04_real_order)) hy).2
    have conv := fun j (hj : j < m) => C71_sgd_converges (fun k => output (fas k) j) xs _ _ (hs j hj) (v j) c hc hlr
      (fun k => by
        obtain ⟨φ, h1, h2, h3⟩ := hx k
        exact ⟨φ, h1, by show Fits ((fas 0).weights.getD j []).length φ; rw [hw j hj]; exact h2, h3⟩)
      fun k => hv k j hj
    refine ⟨fun j hj => (conv j hj).2.2, together (fun j k => (entry (ys k) j - entry (ps k) j) ^ 2)
      (fun j => distSq n ((fas 0).weights.getD j []) (v j)) _ fun j hj => ⟨(conv j hj).1, ?_⟩⟩
    have := (conv j hj).2.1
    show _ ≤ distSq n _ _ / _
    rw [← hw j hj]
    exact this
  · intro fas n M h hm hlr hw hx hv
    have hs := (C150_outputs (C64_stateless (K := ℝ)).2 m fas xs ys ps h hm
      (.inr (.inl C04_real_order)) hy).2
    have conv := fun j (hj : j < m) => C71_isgd_converges (fun k => output (fas k) j) xs _ _ (hs j hj) (v j) M hlr
      (fun k => by
        obtain ⟨φ, h1, h2, h3⟩ := hx k
        exact ⟨φ, h1, by show Fits ((fas 0).weights.getD j []).length φ; rw [hw j hj]; exact h2, h3⟩)
      fun k => hv k j hj
    refine ⟨fun j hj => (conv j hj).2.2, together (fun j k => (entry (ys k) j - entry (ps k) j) ^ 2)
      (fun j => distSq n ((fas 0).weights.getD j []) (v j)) _ fun j hj => ⟨(conv j hj).1, ?_⟩⟩
    have := (conv j hj).2.1
    show _ ≤ distSq n _ _ / _
    rw [← hw j hj]
    exact this

/-- Such runs exist for every basis, input sequence, targets and initial weights. -/
theorem C150_exists (b : B) (n m : Nat) (hm : 0 < m) (lr : ℝ) (xs : Nat → I) (ys : Fin m → Nat → ℝ)
    (w : Fin m → List ℝ) (hw : ∀ j, (w j).length = n)
    (hx : ∀ k, ∃ φ, Basis.project b (xs k) = .ok (.ok φ) ∧ Fits n φ) :
    (∃ (fas : Nat → VectorLFA B (SGD ℝ) ℝ) (ps : Nat → List ℝ), VStream fas xs (fun k => List.ofFn fun j => ys j k) ps ∧
      fas 0 = LFA.mk b (List.ofFn w) (SGD.mk lr)) ∧
    (∃ (fas : Nat → VectorLFA B (ISGD ℝ) ℝ) (ps : Nat → List ℝ), VStream fas xs (fun k => List.ofFn fun j => ys j k) ps ∧
      fas 0 = LFA.mk b (List.ofFn w) (ISGD.mk lr)) := by
  constructor
  · choose fas ps h h0 using fun j => stream_exists (O := SGD ℝ) b xs (ys j) hx (w j) (hw j) (SGD.mk lr) trivial
    refine ⟨_, _, C150_assemble (C64_stateless (K := ℝ)).1 m hm b (SGD.mk lr)
      (.inr (.inl C04_real_order)) fas xs ys ps h fun j => ?_, ?_⟩
    · rw [h0 j]; exact ⟨rfl, rfl⟩
    · simp only [h0]
  · choose fas ps h h0 using fun j => stream_exists (O := ISGD ℝ) b xs (ys j) hx (w j) (hw j) (ISGD.mk lr) trivial
    refine ⟨_, _, C150_assemble (C64_stateless (K := ℝ)).2 m hm b (ISGD.mk lr)
      (.inr (.inl C04_real_order)) fas xs ys ps h fun j => ?_, ?_⟩
    · rw [h0 j]; exact ⟨rfl, rfl⟩
    · simp only [h0]

end

end Lfa

import Verif.Props.C184
import Verif.Props.C188

/-!
# C209: training several outputs in double precision is nearly repeatable

C188 is about one output. A vector approximator projects once per call, so all its outputs see the hash map in the same order, and it adds
up the products of dense features in another order than a scalar approximator does. Under the conditions of C188 for the targets of one
output, the weights of this output are within the same distance of exact training for ever. Hence two runs are close to one another, and
close to a scalar approximator trained on this output alone, which C150 shows to be a different one.
-/

set_option linter.unusedSectionVars false

namespace Lfa

open Spec Machine XReal

variable {M M' : Machine}

section Calls
variable {B O I K : Type} [Scalar K] [Space B] [Basis B I K] [Optimiser O K]

/-- `update_with(x, |_, ps| f(ps))` of a vector approximator can turn `fa` into `fa'`, the hash map of the features iterating in any
order. -/
def Spec.CanUpdateAll (fa : VectorLFA B O K) (x : I) (f : List K → List K) (fa' : VectorLFA B O K) : Prop :=
  ∃ φ ψ : Features K, Basis.project fa.basis x = .ok (.ok φ) ∧ Same φ ψ ∧ ∃ vs o ws,
    ψ.matmul fa.weights = .ok vs ∧
    VectorLFA.stepColumns ψ (f vs) fa.weights fa.optimiser (.ok ()) = .ok (.ok (), o, ws) ∧
      fa' = { fa with weights := ws, optimiser := o }

/-- Entry `j` of `evaluate(x)` of a vector approximator can be `v`. -/
def Spec.CanEvaluateAt (fa : VectorLFA B O K) (x : I) (j : Nat) (v : K) : Prop :=
  ∃ φ ψ : Features K, Basis.project fa.basis x = .ok (.ok φ) ∧ Same φ ψ ∧ ∃ vs,
    ψ.matmul fa.weights = .ok vs ∧ vs[j]? = some v

/-- What the code does when the hash map iterates as listed is among what it can do. -/
theorem C209_update {fa fa' : VectorLFA B O K} {x : I} {f : List K → List K}
    (h : fa.updateWith x (fun _ vs => f vs) = .ok (.ok (), fa')) : CanUpdateAll fa x f fa' := by
  unfold VectorLFA.updateWith at h
  cases hp : Basis.project (K := K) fa.basis x with
  | error p =>
    rw [hp] at h
    cases h
  | ok r =>
    rw [hp] at h
    cases r with
    | error e => cases h
    | ok φ =>
      cases hd : φ.matmul fa.weights with
      | error p =>
        simp only [P.ok_bind, hd] at h
        cases h
      | ok vs =>
        cases hst : VectorLFA.stepColumns φ (f vs) fa.weights fa.optimiser (.ok ()) with
        | error p =>
          simp only [P.ok_bind, hd, hst] at h
          cases h
        | ok r =>
          simp only [P.ok_bind, hd, hst] at h
          obtain ⟨r, o, ws⟩ := r
          simp only [Except.ok.injEq, Prod.mk.injEq] at h
          obtain ⟨rfl, e⟩ := h
          exact ⟨φ, φ, hp, same_refl φ, vs, o, ws, hd, hst, e.symm⟩

theorem C209_evaluate {fa : VectorLFA B O K} {x : I} {vs : List K} (h : fa.evaluate x = .ok (.ok vs)) {j : Nat}
    (hj : j < fa.nOutputs) : CanEvaluateAt fa x j (entry vs j) := by
  obtain ⟨φ, hp, hm⟩ := accepts_of_evaluate h
  exact ⟨φ, φ, hp, same_refl φ, vs, hm, getElem?_entry (by rw [(matmul_columns φ _ _ hm).1]; exact hj)⟩

/-- One call, column by column. -/
theorem can_column (hst : Stateless K O) {fv fv' : VectorLFA B O K} {x : I} {ys : List K} (hy : ys.length = fv.nOutputs)
    (h : CanUpdateAll fv x (List.zipWith (· -. ·) ys) fv') :
    (fv'.nOutputs = fv.nOutputs ∧ fv'.basis = fv.basis ∧ fv'.optimiser = fv.optimiser) ∧
    ∃ φ ψ, Basis.project fv.basis x = .ok (.ok φ) ∧ Same φ ψ ∧
    ∀ j < fv.nOutputs, ∃ v, ψ.dotColumn fv.nOutputs (fv.weights.getD j []) = .ok v ∧
      Optimiser.stepScaled fv.optimiser (fv.weights.getD j []) ψ (entry ys j -. v) =
        .ok (.ok (), fv.optimiser, fv'.weights.getD j []) := by
  obtain ⟨φ, ψ, hp, hs, vs, o, ws, hm, hc, rfl⟩ := h
  obtain ⟨hl, hcols⟩ := matmul_columns ψ _ _ hm
  obtain ⟨rs, ds, h1, h2, h3⟩ := stepColumns_ok ψ _ fv.weights fv.optimiser _ _ _ _ hc
  unfold VectorLFA.nOutputs at hy
  have hlen : (List.zipWith (· -. ·) ys vs).length = fv.weights.length := by
    rw [List.length_zipWith, hy, hl, Nat.min_self]
  rw [← hlen, List.take_length, hlen, List.take_length] at h1
  rw [hlen, List.drop_length, List.append_nil] at h2
  obtain ⟨ho, hcol⟩ := steps_get hst h1
  obtain ⟨hrl, hdl, -⟩ := C66_all_stepped ψ _ _ _ _ _ _ h1
  refine ⟨⟨?_, rfl, ho⟩, φ, ψ, hp, hs, fun j hj => ?_⟩
  · show ws.length = fv.weights.length
    rw [h2, hdl, hlen]
  have hc := getElem?_getD (l := fv.weights) (j := j) [] hj
  obtain ⟨v, hy1, hy2⟩ := hcols j _ hc
  have he : (List.zipWith (· -. ·) ys vs)[j]? = some (entry ys j -. v) := by
    rw [List.getElem?_zipWith, getElem?_entry (by rw [hy]; exact hj), hy1]
  obtain ⟨d, r, e1, e2, e3⟩ := hcol j _ _ hc he
  have hr : r = .ok () := ((C66_firstFailure_spec rs).1.1 h3.symm) r (List.mem_of_getElem? e2)
  have hd : d = ws.getD j [] := by
    rw [h2, List.getD_eq_getElem?_getD, e1]; rfl
  rw [hr, hd] at e3
  exact ⟨v, hy2, e3⟩

/-- One column of a run. -/
theorem can_trace (hst : Stateless K O) (rate : O → Features K → K)
    (hsc : ∀ {n : Nat} {φ : Features K} (_ : Fits n φ) (o : O) (s : K) {w : List K} (_ : w.length = n),
      ∃ w', Optimiser.stepScaled o w φ s = .ok (.ok (), o, w') ∧ w'.length = n ∧ ∀ i < n,
        (∀ a, Stored φ i a → entry w' i = (entry w i +. rate o φ *. s *. a)) ∧ (¬ Active φ i → entry w' i = entry w i))
    {n m : Nat} {fas : Nat → VectorLFA B O K} {xs : Nat → I} {ys : Nat → List K}
    (hs : ∀ t, CanUpdateAll (fas t) (xs t) (List.zipWith (· -. ·) (ys t)) (fas (t + 1)))
    (hm : (fas 0).nOutputs = m) (hy : ∀ t, (ys t).length = m) (hn : ∀ j < m, ((fas 0).weights.getD j []).length = n)
    {φ : Nat → Features K} (hφ : ∀ t, Basis.project (fas 0).basis (xs t) = .ok (.ok (φ t)) ∧ Fits n (φ t)) (t : Nat) :
    ((fas t).nOutputs = m ∧ (fas t).basis = (fas 0).basis ∧ (fas t).optimiser = (fas 0).optimiser) ∧
    (∀ j < m, ((fas t).weights.getD j []).length = n) ∧ ∀ j < m, ∃ (ψ : Features K) (v : K), Same (φ t) ψ ∧
      ψ.dotColumn m ((fas t).weights.getD j []) = .ok v ∧ ∀ i < n,
      (∀ a, Stored ψ i a → entry ((fas (t + 1)).weights.getD j []) i =
        (entry ((fas t).weights.getD j []) i +. rate (fas 0).optimiser ψ *. (entry (ys t) j -. v) *. a)) ∧
      (¬ Active ψ i → entry ((fas (t + 1)).weights.getD j []) i = entry ((fas t).weights.getD j []) i) := by
  have step : ∀ t, ((fas t).nOutputs = m ∧ (fas t).basis = (fas 0).basis ∧ (fas t).optimiser = (fas 0).optimiser) →
      (∀ j < m, ((fas t).weights.getD j []).length = n) →
      ((fas (t + 1)).nOutputs = m ∧ (fas (t + 1)).basis = (fas 0).basis ∧ (fas (t + 1)).optimiser = (fas 0).optimiser) ∧
      ∀ j < m, ((fas (t + 1)).weights.getD j []).length = n ∧ ∃ (ψ : Features K) (v : K), Same (φ t) ψ ∧
        ψ.dotColumn m ((fas t).weights.getD j []) = .ok v ∧ ∀ i < n,
        (∀ a, Stored ψ i a → entry ((fas (t + 1)).weights.getD j []) i =
          (entry ((fas t).weights.getD j []) i +. rate (fas 0).optimiser ψ *. (entry (ys t) j -. v) *. a)) ∧
        (¬ Active ψ i → entry ((fas (t + 1)).weights.getD j []) i = entry ((fas t).weights.getD j []) i) := by
    rintro t ⟨h1, h2, h3⟩ h4
    obtain ⟨⟨g1, g2, g3⟩, φ', ψ, hφ', hsame, g4⟩ := can_column hst ((hy t).trans h1.symm) (hs t)
    have e : φ' = φ t := by
      have := (hφ t).1
      rw [← h2, hφ'] at this
      simpa only [Except.ok.injEq] using this
    subst e
    refine ⟨⟨g1.trans h1, g2.trans h2, g3.trans h3⟩, fun j hj => ?_⟩
    obtain ⟨v, g5, g6⟩ := g4 j (by rw [h1]; exact hj)
    obtain ⟨w', f1, f2, f3⟩ := hsc (fits_same hsame (hφ t).2) (fas t).optimiser (entry (ys t) j -. v) (h4 j hj)
    rw [g6] at f1
    simp only [Except.ok.injEq, Prod.mk.injEq, true_and] at f1
    rw [f1]
    rw [h1] at g5
    rw [h3] at f3
    exact ⟨f2, ψ, v, hsame, g5, f3⟩
  have inv : ∀ t, ((fas t).nOutputs = m ∧ (fas t).basis = (fas 0).basis ∧ (fas t).optimiser = (fas 0).optimiser) ∧
      ∀ j < m, ((fas t).weights.getD j []).length = n := by
    intro t
    induction t with
    | zero => exact ⟨⟨hm, rfl, rfl⟩, hn⟩
    | succ t ih =>
      obtain ⟨h1, h2⟩ := step t ih.1 ih.2
      exact ⟨h1, fun j hj => (h2 j hj).1⟩
  obtain ⟨h1, h2⟩ := inv t
  exact ⟨h1, h2, fun j hj => ((step t h1 h2).2 j hj).2⟩

end Calls

noncomputable section

/-- `eval_near` for a column of a matrix. -/
theorem column_near (hM : M.rnd = binary64Format.rnd) (m : Nat) {n k : Nat} {φ : Features (FP M)} {y : FP M} (hφ : Fits n φ)
    (hmod : Moderate n k φ y) {w : List (FP M)} (hw : w.length = n) {v : FP M} (hv : φ.dotColumn m w = .ok v)
    (hf : ∀ i < n, Spec.Finite (entry w i)) {u : Nat → ℝ} {W E ε : ℝ} (h1 : len n u ≤ W)
    (h2 : len n (fun i => real (entry w i) - u i) ≤ E) (hk : 2 * k * roundoff ≤ ε) (hb : W + E ≤ 2 ^ 252)
    (hε : ε * (E + W) ≤ 2 * E) (ε0 : 0 ≤ ε) :
    Spec.Finite v ∧ |real v - ∑ j ∈ Finset.range n, real (value φ j) * u j| ≤
      3 * (len n (fun i => real (value φ i)) * E) + 2 ^ (-1034 : ℤ) := by
  have hN : len n (fun i => real (entry w i)) ≤ E + W := by
    refine le_trans (le_of_eq (len_congr fun i _ => ?_))
      ((len_add_le n (fun i => real (entry w i) - u i) u).trans (add_le_add h2 h1))
    ring
  have h3 := dotColumn_bounded hM m hφ hw hv (a := 100) (b := 252) (by norm_num) hmod.features
    (fun i hi => by
      obtain ⟨r, hr⟩ := hf i hi
      refine ⟨r, hr, le_trans ?_ (hN.trans (by linarith))⟩
      have := abs_le_len (fun i => real (entry w i)) hi
      rwa [is_real hr] at this) (hmod.count.1.trans (hmod.count.2.trans (by norm_num)))
  obtain ⟨z, hz, -⟩ := h3
  refine ⟨⟨z, hz⟩, ?_⟩
  have e1 : |z - exactDot φ w| ≤ predictionError φ w := dotColumn_err hM m hφ hw hv hz
  have e2 := predictionError_le hφ w hmod.count.1 hmod.count.2
  have e3 := count_tiny hmod.count.2
  have A0 := len_nonneg n fun i => real (value φ i)
  have e4 : |exactDot φ w - ∑ j ∈ Finset.range n, real (value φ j) * u j| ≤ len n (fun i => real (value φ i)) * E := by
    have e : exactDot φ w - ∑ j ∈ Finset.range n, real (value φ j) * u j =
        ∑ j ∈ Finset.range n, real (value φ j) * (real (entry w j) - u j) := by
      rw [exactDot, hφ.2, ← Finset.sum_sub_distrib]
      exact Finset.sum_congr rfl fun j _ => by ring
    rw [e]
    have hs := Finset.sum_mul_sq_le_sq_mul_sq (Finset.range n) (fun j => real (value φ j)) (fun j => real (entry w j) - u j)
    rw [← len_sq, ← len_sq, ← mul_pow] at hs
    exact (abs_le_of_sq_le_sq hs (mul_nonneg A0 (len_nonneg _ _))).trans (mul_le_mul_of_nonneg_left h2 A0)
  have h5 : 2 * k * roundoff * (len n (fun i => real (value φ i)) * len n (fun i => real (entry w i))) ≤
      ε * (len n (fun i => real (value φ i)) * (E + W)) :=
    mul_le_mul hk (mul_le_mul_of_nonneg_left hN A0) (mul_nonneg A0 (len_nonneg _ _)) ε0
  have h8 := mul_le_mul_of_nonneg_left hε A0
  rw [is_real hz]
  have e5 := abs_sub_le z (exactDot φ w) (∑ j ∈ Finset.range n, real (value φ j) * u j)
  linarith

/-- What an output can predict is the product with its column. -/
theorem at_column {K B O I : Type} [Scalar K] [Space B] [Basis B I K] [Optimiser O K] {fa : VectorLFA B O K} {x : I} {j : Nat}
    {v : K} {χ : Features K} (hp : Basis.project fa.basis x = .ok (.ok χ)) (h : CanEvaluateAt fa x j v) :
    ∃ ω, Same χ ω ∧ ω.dotColumn fa.nOutputs (fa.weights.getD j []) = .ok v := by
  obtain ⟨χ', ω, hp', hs, vs, hm, hv⟩ := h
  rw [hp] at hp'
  cases hp'
  obtain ⟨hl, hcols⟩ := matmul_columns ω _ _ hm
  have hj : j < fa.weights.length := by
    rw [← hl]
    by_contra hc
    rw [List.getElem?_eq_none (by omega)] at hv
    cases hv
  obtain ⟨y, h1, h2⟩ := hcols j _ (getElem?_getD [] hj)
  rw [hv] at h1
  cases h1
  exact ⟨ω, hs, h2⟩

/-- Two predictions near the same exact one. -/
theorem near_pair {a b e A : ℝ} (h1 : |a - e| ≤ 3 * A + 2 ^ (-1034 : ℤ)) (h2 : |b - e| ≤ 3 * A + 2 ^ (-1034 : ℤ)) :
    |a - b| ≤ 6 * A + 2 ^ (-1033 : ℤ) := by
  have e' : (2 : ℝ) ^ (-1033 : ℤ) = 2 * 2 ^ (-1034 : ℤ) := by
    rw [show (-1033 : ℤ) = 1 + -1034 by norm_num, zpow_add₀ (by norm_num), zpow_one]
  have h := abs_sub_le a e b
  rw [abs_sub_comm] at h2
  rw [e']
  linarith

section Single
variable {B I : Type} [Space B] [Basis B I (FP M)]

/-- SGD under the conditions of C188 for the targets of output `j`, each hash map iterating in any order at each call. For ever: the weights
of output `j` are finite and within `E` of exact training, and whatever `evaluate` can return for it at an input with moderate features is
finite and within `3 ‖φ‖ E` (up to `2^-1034`) of the exact prediction. The other outputs do not enter. -/
theorem C209_sgd (hM : M.rnd = binary64Format.rnd) (m n k L : Nat) (fas : Nat → VectorLFA B (SGD (FP M)) (FP M)) (xs : Nat → I)
    (ys : Nat → List (FP M)) (hs : ∀ t, CanUpdateAll (fas t) (xs t) (List.zipWith (· -. ·) (ys t)) (fas (t + 1)))
    (hm : (fas 0).nOutputs = m) (hy : ∀ t, (ys t).length = m)
    (φ : Nat → Features (FP M)) (hφ : ∀ t, Basis.project (fas 0).basis (xs t) = .ok (.ok (φ t)) ∧ Fits n (φ t))
    (hn : ∀ j < m, ((fas 0).weights.getD j []).length = n) (j : Nat) (hj : j < m)
    (hw : ∀ i < n, Bounded (2 ^ 100) (entry ((fas 0).weights.getD j []) i))
    (l : ℝ) (hlr : Is (fas 0).optimiser.lr l) (l0 : 0 ≤ l) (l1 : l ≤ 2 ^ 100)
    (h2 : ∀ t, l * ∑ i ∈ Finset.range n, real (value (φ t) i) ^ 2 ≤ 2) (hmod : ∀ t, Moderate n k (φ t) (entry (ys t) j))
    (D : ℝ) (hD : ∀ t, l * len n (fun i => real (value (φ t) i)) * |real (entry (ys t) j)| ≤ D) (hD1 : D ≤ 2 ^ 190)
    (r : ℝ) (r0 : 0 ≤ r) (Lpos : 0 < L) (hr : Persistent n L (fun t i => real (value (φ t) i)) (fun _ => l) r)
    (hL : L * (8 * k + 11) * 2 ^ (-51 : ℤ) ≤ 1 - r) (us : Nat → Nat → ℝ)
    (hus : ExactRun n (fun _ => l) (fun t i => real (value (φ t) i)) (fun t => real (entry (ys t) j)) us)
    (hu0 : ∀ i < n, us 0 i = real (entry ((fas 0).weights.getD j []) i)) (W E : ℝ)
    (hW : W = 2 * len n (us 0) + 10 * L * D / (1 - r))
    (hE : E = 10 * L * ((8 * k + 11) * 2 ^ (-53 : ℤ) * (W + D) + 2 ^ (-800 : ℤ)) / (1 - r)) (t : Nat) :
    (∀ i < n, Spec.Finite (entry ((fas t).weights.getD j []) i)) ∧ len n (us t) ≤ W ∧
    len n (fun i => real (entry ((fas t).weights.getD j []) i) - us t i) ≤ E ∧
    ∀ (x : I) (χ : Features (FP M)) (y v : FP M), Basis.project (fas 0).basis x = .ok (.ok χ) → Fits n χ → Moderate n k χ y →
      CanEvaluateAt (fas t) x j v → Spec.Finite v ∧
        |real v - ∑ i ∈ Finset.range n, real (value χ i) * us t i| ≤
          3 * (len n (fun i => real (value χ i)) * E) + 2 ^ (-1034 : ℤ) := by
  have run := can_trace C64_stateless.1 (fun o _ => o.lr) sgd_scaled hs hm hy hn hφ
  choose ψ v hsame hdot hstep using fun t => (run t).2.2 j hj
  have hval : ∀ t i, value (ψ t) i = value (φ t) i := fun t i =>
    value_same (hsame t) (keysUnique_of_wf (hφ t).2.1) (keysUnique_of_wf (fits_same (hsame t) (hφ t).2).1) i
  choose qs hqs using fun t => dot_safe (denseOf_fits n fun i => real (value (φ t) i))
    (c := (List.range n).map (us t)) (by rw [List.length_map, List.length_range])
  obtain ⟨b1, -, b3, b4, -⟩ := sgd_shadow hM m n k L (fun t => (fas t).weights.getD j []) (fun t => (List.range n).map (us t))
    (fas 0).optimiser.lr l (fun t => entry (ys t) j) v qs ψ (fun t => denseOf n fun i => real (value (φ t) i))
    (fun t => fits_same (hsame t) (hφ t).2) (fun t => denseOf_fits n _)
    (fun t i hi => by rw [denseOf_value _ hi, hval])
    (fun t => ⟨(run t).2.1 j hj, hdot t, hstep t⟩)
    (fun t => ⟨by rw [List.length_map, List.length_range], hqs t⟩)
    (fun t i hi => by
      rw [entry_map_range _ hi, entry_map_range _ hi, denseOf_inner, denseOf_value _ hi]
      exact hus t i hi)
    (fun i hi => ⟨hw i hi, by rw [entry_map_range _ hi]; exact hu0 i hi⟩) hlr l0 l1
    (fun t => by rw [denseOf_normSq]; exact h2 t) (fun t => moderate_same (hsame t) (hmod t)) D
    (fun t => by rw [denseOf_sqrt]; exact hD t) hD1 r r0 Lpos
    (persistent_congr hr fun t i hi => (denseOf_value (fun i => real (value (φ t) i)) hi).symm) hL W E
    (by rw [hW, len_congr (n := n) (f := entry ((List.range n).map (us 0))) (g := us 0) fun i hi => entry_map_range _ hi]) hE t
  have c1 : len n (us t) ≤ W := by
    rwa [len_congr (n := n) (f := entry ((List.range n).map (us t))) (g := us t) fun i hi => entry_map_range _ hi] at b3
  have c2 : len n (fun i => real (entry ((fas t).weights.getD j []) i) - us t i) ≤ E := by
    rwa [len_congr (n := n) (g := fun i => real (entry ((fas t).weights.getD j []) i) - us t i) fun i hi => by
      rw [entry_map_range _ hi]] at b4
  refine ⟨b1, c1, c2, fun x χ y w hp hf hmodx he => ?_⟩
  have hu := roundoff_pos
  have k0 : (0 : ℝ) ≤ k := k.cast_nonneg
  have e53 : (2 : ℝ) ^ (-53 : ℤ) = roundoff := by rw [roundoff]
  have e51 : (2 : ℝ) ^ (-51 : ℤ) = 4 * roundoff := by rw [roundoff]; norm_num
  have hN0 : len n (us 0) ≤ 2 ^ 120 := by
    refine (len_le_of_bounded (hmod 0).size (c := 2 ^ 100) (by positivity) fun i hi => ?_).trans
      (le_of_eq (by rw [← pow_add]))
    obtain ⟨z, hz, h1⟩ := hw i hi
    rwa [hu0 i hi, is_real hz]
  rw [e53] at hE
  obtain ⟨s1, s2⟩ := shadow_size (len_nonneg n (us 0)) (hN0.trans (by norm_num))
    ((mul_nonneg (mul_nonneg l0 (len_nonneg _ _)) (abs_nonneg _)).trans (hD 0)) hD1
    (ε := (8 * k + 11) * roundoff) (η := 2 ^ (-800 : ℤ)) (by nlinarith) (by positivity)
    (tiny_rate (by linarith) (by norm_num)) r0 Lpos (by rw [e51] at hL; linarith) hW hE
  obtain ⟨ω, hsx, hdx⟩ := at_column (by rw [(run t).1.2.1]; exact hp) he
  rw [(run t).1.1] at hdx
  have hvx : ∀ i, value ω i = value χ i := fun i =>
    value_same hsx (keysUnique_of_wf hf.1) (keysUnique_of_wf (fits_same hsx hf).1) i
  have := column_near hM m (fits_same hsx hf) (moderate_same hsx hmodx) ((run t).2.1 j hj) hdx b1 c1 c2
    (ε := (8 * k + 11) * roundoff) (by nlinarith) (s1.trans (by norm_num)) s2 (by positivity)
  simpa only [hvx] using this

/-- The same for ISGD. -/
theorem C209_isgd (hM : M.rnd = binary64Format.rnd) (m n k L : Nat) (fas : Nat → VectorLFA B (ISGD (FP M)) (FP M)) (xs : Nat → I)
    (ys : Nat → List (FP M)) (hs : ∀ t, CanUpdateAll (fas t) (xs t) (List.zipWith (· -. ·) (ys t)) (fas (t + 1)))
    (hm : (fas 0).nOutputs = m) (hy : ∀ t, (ys t).length = m)
    (φ : Nat → Features (FP M)) (hφ : ∀ t, Basis.project (fas 0).basis (xs t) = .ok (.ok (φ t)) ∧ Fits n (φ t))
    (hn : ∀ j < m, ((fas 0).weights.getD j []).length = n) (j : Nat) (hj : j < m)
    (hw : ∀ i < n, Bounded (2 ^ 100) (entry ((fas 0).weights.getD j []) i))
    (l : ℝ) (hlr : Is (fas 0).optimiser.lr l) (l0 : 0 ≤ l) (l1 : l ≤ 2 ^ 100)
    (c : Nat → ℝ) (hc : ∀ t, c t = l / (1 + l * ∑ i ∈ Finset.range n, real (value (φ t) i) ^ 2)) (hmod : ∀ t, Moderate n k (φ t) (entry (ys t) j))
    (D : ℝ) (hD : ∀ t, c t * len n (fun i => real (value (φ t) i)) * |real (entry (ys t) j)| ≤ D) (hD1 : D ≤ 2 ^ 190)
    (r : ℝ) (r0 : 0 ≤ r) (Lpos : 0 < L) (hr : Persistent n L (fun t i => real (value (φ t) i)) c r)
    (hL : L * (12 * k + 25) * 2 ^ (-51 : ℤ) ≤ 1 - r) (us : Nat → Nat → ℝ)
    (hus : ExactRun n c (fun t i => real (value (φ t) i)) (fun t => real (entry (ys t) j)) us)
    (hu0 : ∀ i < n, us 0 i = real (entry ((fas 0).weights.getD j []) i)) (W E : ℝ)
    (hW : W = 2 * len n (us 0) + 10 * L * D / (1 - r))
    (hE : E = 10 * L * ((12 * k + 25) * 2 ^ (-53 : ℤ) * (W + D) + 2 ^ (-500 : ℤ)) / (1 - r)) (t : Nat) :
    (∀ i < n, Spec.Finite (entry ((fas t).weights.getD j []) i)) ∧ len n (us t) ≤ W ∧
    len n (fun i => real (entry ((fas t).weights.getD j []) i) - us t i) ≤ E ∧
    ∀ (x : I) (χ : Features (FP M)) (y v : FP M), Basis.project (fas 0).basis x = .ok (.ok χ) → Fits n χ → Moderate n k χ y →
      CanEvaluateAt (fas t) x j v → Spec.Finite v ∧
        |real v - ∑ i ∈ Finset.range n, real (value χ i) * us t i| ≤
          3 * (len n (fun i => real (value χ i)) * E) + 2 ^ (-1034 : ℤ) := by
  have run := can_trace C64_stateless.2 (fun o φ => o.computeLr φ) isgd_scaled hs hm hy hn hφ
  choose ψ v hsame hdot hstep using fun t => (run t).2.2 j hj
  have hval : ∀ t i, value (ψ t) i = value (φ t) i := fun t i =>
    value_same (hsame t) (keysUnique_of_wf (hφ t).2.1) (keysUnique_of_wf (fits_same (hsame t) (hφ t).2).1) i
  have hc' : ∀ t, c t = l / (1 + l * normSq (denseOf n fun i => real (value (φ t) i))) := fun t => by
    rw [denseOf_normSq]; exact hc t
  have hcf : c = fun t => l / (1 + l * normSq (denseOf n fun i => real (value (φ t) i))) := funext hc'
  choose qs hqs using fun t => dot_safe (denseOf_fits n fun i => real (value (φ t) i))
    (c := (List.range n).map (us t)) (by rw [List.length_map, List.length_range])
  obtain ⟨b1, -, b3, b4, -⟩ := isgd_shadow hM m n k L (fun t => (fas t).weights.getD j []) (fun t => (List.range n).map (us t))
    (fas 0).optimiser l (fun t => entry (ys t) j) v qs ψ (fun t => denseOf n fun i => real (value (φ t) i))
    (fun t => fits_same (hsame t) (hφ t).2) (fun t => denseOf_fits n _)
    (fun t i hi => by rw [denseOf_value _ hi, hval])
    (fun t => ⟨(run t).2.1 j hj, hdot t, hstep t⟩)
    (fun t => ⟨by rw [List.length_map, List.length_range], hqs t⟩)
    (fun t i hi => by
      rw [entry_map_range _ hi, entry_map_range _ hi, denseOf_inner, denseOf_value _ hi, ← hc' t]
      exact hus t i hi)
    (fun i hi => ⟨hw i hi, by rw [entry_map_range _ hi]; exact hu0 i hi⟩) hlr l0 l1
    (fun t => moderate_same (hsame t) (hmod t)) D
    (fun t => by rw [denseOf_sqrt, ← hc' t]; exact hD t) hD1 r r0 Lpos
    (by rw [← hcf]; exact persistent_congr hr fun t i hi => (denseOf_value (fun i => real (value (φ t) i)) hi).symm) hL W E
    (by rw [hW, len_congr (n := n) (f := entry ((List.range n).map (us 0))) (g := us 0) fun i hi => entry_map_range _ hi]) hE t
  have c1 : len n (us t) ≤ W := by
    rwa [len_congr (n := n) (f := entry ((List.range n).map (us t))) (g := us t) fun i hi => entry_map_range _ hi] at b3
  have c2 : len n (fun i => real (entry ((fas t).weights.getD j []) i) - us t i) ≤ E := by
    rwa [len_congr (n := n) (g := fun i => real (entry ((fas t).weights.getD j []) i) - us t i) fun i hi => by
      rw [entry_map_range _ hi]] at b4
  refine ⟨b1, c1, c2, fun x χ y w hp hf hmodx he => ?_⟩
  have hu := roundoff_pos
  have k0 : (0 : ℝ) ≤ k := k.cast_nonneg
  have e53 : (2 : ℝ) ^ (-53 : ℤ) = roundoff := by rw [roundoff]
  have e51 : (2 : ℝ) ^ (-51 : ℤ) = 4 * roundoff := by rw [roundoff]; norm_num
  have hN0 : len n (us 0) ≤ 2 ^ 120 := by
    refine (len_le_of_bounded (hmod 0).size (c := 2 ^ 100) (by positivity) fun i hi => ?_).trans
      (le_of_eq (by rw [← pow_add]))
    obtain ⟨z, hz, h1⟩ := hw i hi
    rwa [hu0 i hi, is_real hz]
  rw [e53] at hE
  have c0 : 0 ≤ c 0 := by
    have : 0 ≤ ∑ i ∈ Finset.range n, real (value (φ 0) i) ^ 2 := Finset.sum_nonneg fun _ _ => sq_nonneg _
    rw [hc]; positivity
  obtain ⟨s1, s2⟩ := shadow_size (len_nonneg n (us 0)) (hN0.trans (by norm_num))
    ((mul_nonneg (mul_nonneg c0 (len_nonneg _ _)) (abs_nonneg _)).trans (hD 0)) hD1
    (ε := (12 * k + 25) * roundoff) (η := 2 ^ (-500 : ℤ)) (by nlinarith) (by positivity)
    (tiny_rate (by linarith) (by norm_num)) r0 Lpos (by rw [e51] at hL; linarith) hW hE
  obtain ⟨ω, hsx, hdx⟩ := at_column (by rw [(run t).1.2.1]; exact hp) he
  rw [(run t).1.1] at hdx
  have hvx : ∀ i, value ω i = value χ i := fun i =>
    value_same hsx (keysUnique_of_wf hf.1) (keysUnique_of_wf (fits_same hsx hf).1) i
  have := column_near hM m (fits_same hsx hf) (moderate_same hsx hmodx) ((run t).2.1 j hj) hdx b1 c1 c2
    (ε := (12 * k + 25) * roundoff) (by nlinarith) (s1.trans (by norm_num)) s2 (by positivity)
  simpa only [hvx] using this

end Single

section Two
variable {B B' I I' : Type} [Space B] [Basis B I (FP M)] [Space B'] [Basis B' I' (FP M')]

set_option maxHeartbeats 1000000 in
/-- Two runs of SGD, on any two machines that round as f64 does, over any two bases whose features have the same values, with the same rate
and, for output `j`, the same targets and initial weights, every hash map iterating in its own order at every call. For ever: the weights of
output `j` in the two runs are within `2 E` of one another, and whatever the two can predict for it at an input with the same moderate
features is within `6 ‖φ‖ E` (up to `2^-1033`). -/
theorem C209_sgd_runs (hM : M.rnd = binary64Format.rnd) (hM' : M'.rnd = binary64Format.rnd) (m n k L : Nat)
    (fas : Nat → VectorLFA B (SGD (FP M)) (FP M)) (gas : Nat → VectorLFA B' (SGD (FP M')) (FP M')) (xs : Nat → I) (xs' : Nat → I')
    (ys : Nat → List (FP M)) (ys' : Nat → List (FP M'))
    (hs : ∀ t, CanUpdateAll (fas t) (xs t) (List.zipWith (· -. ·) (ys t)) (fas (t + 1)))
    (hg : ∀ t, CanUpdateAll (gas t) (xs' t) (List.zipWith (· -. ·) (ys' t)) (gas (t + 1)))
    (hm : (fas 0).nOutputs = m) (hyl : ∀ t, (ys t).length = m)
    (hm' : (gas 0).nOutputs = m) (hy' : ∀ t, (ys' t).length = m)
    (φ : Nat → Features (FP M)) (φ' : Nat → Features (FP M'))
    (hφ : ∀ t, Basis.project (fas 0).basis (xs t) = .ok (.ok (φ t)) ∧ Fits n (φ t))
    (hφ' : ∀ t, Basis.project (gas 0).basis (xs' t) = .ok (.ok (φ' t)) ∧ Fits n (φ' t))
    (hv : ∀ t i, real (value (φ' t) i) = real (value (φ t) i))
    (hn : ∀ j < m, ((fas 0).weights.getD j []).length = n) (hn' : ∀ j < m, ((gas 0).weights.getD j []).length = n) (j : Nat) (hj : j < m)
    (hy : ∀ t, real (entry (ys' t) j) = real (entry (ys t) j))
    (hw : ∀ i < n, Bounded (2 ^ 100) (entry ((fas 0).weights.getD j []) i)) (hw' : ∀ i < n, Bounded (2 ^ 100) (entry ((gas 0).weights.getD j []) i))
    (hww : ∀ i < n, real (entry ((gas 0).weights.getD j []) i) = real (entry ((fas 0).weights.getD j []) i))
    (l : ℝ) (hlr : Is (fas 0).optimiser.lr l) (hlr' : Is (gas 0).optimiser.lr l) (l0 : 0 ≤ l) (l1 : l ≤ 2 ^ 100)
    (h2 : ∀ t, l * ∑ i ∈ Finset.range n, real (value (φ t) i) ^ 2 ≤ 2)
    (hmod : ∀ t, Moderate n k (φ t) (entry (ys t) j)) (hmod' : ∀ t, Moderate n k (φ' t) (entry (ys' t) j))
    (D : ℝ) (hD : ∀ t, l * len n (fun i => real (value (φ t) i)) * |real (entry (ys t) j)| ≤ D) (hD1 : D ≤ 2 ^ 190)
    (r : ℝ) (r0 : 0 ≤ r) (Lpos : 0 < L) (hr : Persistent n L (fun t i => real (value (φ t) i)) (fun _ => l) r)
    (hL : L * (8 * k + 11) * 2 ^ (-51 : ℤ) ≤ 1 - r) (W E : ℝ)
    (hW : W = 2 * len n (fun i => real (entry ((fas 0).weights.getD j []) i)) + 10 * L * D / (1 - r))
    (hE : E = 10 * L * ((8 * k + 11) * 2 ^ (-53 : ℤ) * (W + D) + 2 ^ (-800 : ℤ)) / (1 - r)) (t : Nat) :
    (∀ i < n, Spec.Finite (entry ((fas t).weights.getD j []) i) ∧ Spec.Finite (entry ((gas t).weights.getD j []) i)) ∧
    len n (fun i => real (entry ((fas t).weights.getD j []) i) - real (entry ((gas t).weights.getD j []) i)) ≤ 2 * E ∧
    ∀ (x : I) (x' : I') (χ : Features (FP M)) (χ' : Features (FP M')) (y v : FP M) (y' v' : FP M'),
      Basis.project (fas 0).basis x = .ok (.ok χ) → Basis.project (gas 0).basis x' = .ok (.ok χ') → Fits n χ → Fits n χ' →
      (∀ i, real (value χ' i) = real (value χ i)) → Moderate n k χ y → Moderate n k χ' y' →
      CanEvaluateAt (fas t) x j v → CanEvaluateAt (gas t) x' j v' → Spec.Finite v ∧ Spec.Finite v' ∧
        |real v - real v'| ≤ 6 * (len n (fun i => real (value χ i)) * E) + 2 ^ (-1033 : ℤ) := by
  have hus := exactWeights_run n (fun _ => l) (fun t i => real (value (φ t) i)) (fun t => real (entry (ys t) j))
    (fun i => real (entry ((fas 0).weights.getD j []) i))
  obtain ⟨a1, -, a3, a4⟩ := C209_sgd hM m n k L fas xs ys hs hm hyl φ hφ hn j hj hw l hlr l0 l1 h2 hmod D hD hD1 r r0 Lpos hr hL
    _ hus (fun i _ => rfl) W E hW hE t
  obtain ⟨b1, -, b3, b4⟩ := C209_sgd hM' m n k L gas xs' ys' hg hm' hy' φ' hφ' hn' j hj hw' l hlr' l0 l1 (by simp only [hv]; exact h2) hmod'
    D (by simp only [hv, hy]; exact hD) hD1 r r0 Lpos (by simp only [hv]; exact hr) hL _ (by simp only [hv, hy]; exact hus)
    (fun i hi => (hww i hi).symm) W E hW hE t
  refine ⟨fun i hi => ⟨a1 i hi, b1 i hi⟩, len_two a3 b3, fun x x' χ χ' y v y' v' hp hp' hf hf' hχ hm hm' he he' => ?_⟩
  obtain ⟨c1, c2⟩ := a4 x χ y v hp hf hm he
  obtain ⟨d1, d2⟩ := b4 x' χ' y' v' hp' hf' hm' he'
  simp only [hχ] at d2
  exact ⟨c1, d1, near_pair c2 d2⟩

set_option maxHeartbeats 1000000 in
/-- Two runs of ISGD, on any two machines that round as f64 does, over any two bases whose features have the same values, with the same rate
and, for output `j`, the same targets and initial weights, every hash map iterating in its own order at every call. For ever: the weights of
output `j` in the two runs are within `2 E` of one another, and whatever the two can predict for it at an input with the same moderate
features is within `6 ‖φ‖ E` (up to `2^-1033`). -/
theorem C209_isgd_runs (hM : M.rnd = binary64Format.rnd) (hM' : M'.rnd = binary64Format.rnd) (m n k L : Nat)
    (fas : Nat → VectorLFA B (ISGD (FP M)) (FP M)) (gas : Nat → VectorLFA B' (ISGD (FP M')) (FP M')) (xs : Nat → I) (xs' : Nat → I')
    (ys : Nat → List (FP M)) (ys' : Nat → List (FP M'))
    (hs : ∀ t, CanUpdateAll (fas t) (xs t) (List.zipWith (· -. ·) (ys t)) (fas (t + 1)))
    (hg : ∀ t, CanUpdateAll (gas t) (xs' t) (List.zipWith (· -. ·) (ys' t)) (gas (t + 1)))
    (hm : (fas 0).nOutputs = m) (hyl : ∀ t, (ys t).length = m)
    (hm' : (gas 0).nOutputs = m) (hy' : ∀ t, (ys' t).length = m)
    (φ : Nat → Features (FP M)) (φ' : Nat → Features (FP M'))
    (hφ : ∀ t, Basis.project (fas 0).basis (xs t) = .ok (.ok (φ t)) ∧ Fits n (φ t))
    (hφ' : ∀ t, Basis.project (gas 0).basis (xs' t) = .ok (.ok (φ' t)) ∧ Fits n (φ' t))
    (hv : ∀ t i, real (value (φ' t) i) = real (value (φ t) i))
    (hn : ∀ j < m, ((fas 0).weights.getD j []).length = n) (hn' : ∀ j < m, ((gas 0).weights.getD j []).length = n) (j : Nat) (hj : j < m)
    (hy : ∀ t, real (entry (ys' t) j) = real (entry (ys t) j))
    (hw : ∀ i < n, Bounded (2 ^ 100) (entry ((fas 0).weights.getD j []) i)) (hw' : ∀ i < n, Bounded (2 ^ 100) (entry ((gas 0).weights.getD j []) i))
    (hww : ∀ i < n, real (entry ((gas 0).weights.getD j []) i) = real (entry ((fas 0).weights.getD j []) i))
    (l : ℝ) (hlr : Is (fas 0).optimiser.lr l) (hlr' : Is (gas 0).optimiser.lr l) (l0 : 0 ≤ l) (l1 : l ≤ 2 ^ 100)
    (c : Nat → ℝ) (hc : ∀ t, c t = l / (1 + l * ∑ i ∈ Finset.range n, real (value (φ t) i) ^ 2))
    (hmod : ∀ t, Moderate n k (φ t) (entry (ys t) j)) (hmod' : ∀ t, Moderate n k (φ' t) (entry (ys' t) j))
    (D : ℝ) (hD : ∀ t, c t * len n (fun i => real (value (φ t) i)) * |real (entry (ys t) j)| ≤ D) (hD1 : D ≤ 2 ^ 190)
    (r : ℝ) (r0 : 0 ≤ r) (Lpos : 0 < L) (hr : Persistent n L (fun t i => real (value (φ t) i)) c r)
    (hL : L * (12 * k + 25) * 2 ^ (-51 : ℤ) ≤ 1 - r) (W E : ℝ)
    (hW : W = 2 * len n (fun i => real (entry ((fas 0).weights.getD j []) i)) + 10 * L * D / (1 - r))
    (hE : E = 10 * L * ((12 * k + 25) * 2 ^ (-53 : ℤ) * (W + D) + 2 ^ (-500 : ℤ)) / (1 - r)) (t : Nat) :
    (∀ i < n, Spec.Finite (entry ((fas t).weights.getD j []) i) ∧ Spec.Finite (entry ((gas t).weights.getD j []) i)) ∧
    len n (fun i => real (entry ((fas t).weights.getD j []) i) - real (entry ((gas t).weights.getD j []) i)) ≤ 2 * E ∧
    ∀ (x : I) (x' : I') (χ : Features (FP M)) (χ' : Features (FP M')) (y v : FP M) (y' v' : FP M'),
      Basis.project (fas 0).basis x = .ok (.ok χ) → Basis.project (gas 0).basis x' = .ok (.ok χ') → Fits n χ → Fits n χ' →
      (∀ i, real (value χ' i) = real (value χ i)) → Moderate n k χ y → Moderate n k χ' y' →
      CanEvaluateAt (fas t) x j v → CanEvaluateAt (gas t) x' j v' → Spec.Finite v ∧ Spec.Finite v' ∧
        |real v - real v'| ≤ 6 * (len n (fun i => real (value χ i)) * E) + 2 ^ (-1033 : ℤ) := by
  have hus := exactWeights_run n c (fun t i => real (value (φ t) i)) (fun t => real (entry (ys t) j))
    (fun i => real (entry ((fas 0).weights.getD j []) i))
  obtain ⟨a1, -, a3, a4⟩ := C209_isgd hM m n k L fas xs ys hs hm hyl φ hφ hn j hj hw l hlr l0 l1 c hc hmod D hD hD1 r r0 Lpos hr hL
    _ hus (fun i _ => rfl) W E hW hE t
  obtain ⟨b1, -, b3, b4⟩ := C209_isgd hM' m n k L gas xs' ys' hg hm' hy' φ' hφ' hn' j hj hw' l hlr' l0 l1 c (by simp only [hv]; exact hc) hmod'
    D (by simp only [hv, hy]; exact hD) hD1 r r0 Lpos (by simp only [hv]; exact hr) hL _ (by simp only [hv, hy]; exact hus)
    (fun i hi => (hww i hi).symm) W E hW hE t
  refine ⟨fun i hi => ⟨a1 i hi, b1 i hi⟩, len_two a3 b3, fun x x' χ χ' y v y' v' hp hp' hf hf' hχ hm hm' he he' => ?_⟩
  obtain ⟨c1, c2⟩ := a4 x χ y v hp hf hm he
  obtain ⟨d1, d2⟩ := b4 x' χ' y' v' hp' hf' hm' he'
  simp only [hχ] at d2
  exact ⟨c1, d1, near_pair c2 d2⟩

set_option maxHeartbeats 1000000 in
/-- Output `j` of a vector approximator and a scalar approximator trained with SGD on the targets of this output alone are the same in exact
arithmetic (C150). In f64 they need not be, but they are within `2 E` of one another for ever, and so are their predictions up to the
length of the features. -/
theorem C209_sgd_family (hM : M.rnd = binary64Format.rnd) (hM' : M'.rnd = binary64Format.rnd) (m n k L : Nat)
    (fas : Nat → VectorLFA B (SGD (FP M)) (FP M)) (gas : Nat → ScalarLFA B' (SGD (FP M')) (FP M')) (xs : Nat → I) (xs' : Nat → I')
    (ys : Nat → List (FP M)) (ys' : Nat → FP M')
    (hs : ∀ t, CanUpdateAll (fas t) (xs t) (List.zipWith (· -. ·) (ys t)) (fas (t + 1)))
    (hg : ∀ t, CanUpdateWith (gas t) (xs' t) (fun p => ys' t -. p) (gas (t + 1)))
    (hm : (fas 0).nOutputs = m) (hyl : ∀ t, (ys t).length = m)
    (φ : Nat → Features (FP M)) (φ' : Nat → Features (FP M'))
    (hφ : ∀ t, Basis.project (fas 0).basis (xs t) = .ok (.ok (φ t)) ∧ Fits n (φ t))
    (hφ' : ∀ t, Basis.project (gas 0).basis (xs' t) = .ok (.ok (φ' t)) ∧ Fits n (φ' t))
    (hv : ∀ t i, real (value (φ' t) i) = real (value (φ t) i))
    (hn : ∀ j < m, ((fas 0).weights.getD j []).length = n) (hn' : (gas 0).weights.length = n) (j : Nat) (hj : j < m)
    (hy : ∀ t, real (ys' t) = real (entry (ys t) j))
    (hw : ∀ i < n, Bounded (2 ^ 100) (entry ((fas 0).weights.getD j []) i)) (hw' : ∀ i < n, Bounded (2 ^ 100) (entry (gas 0).weights i))
    (hww : ∀ i < n, real (entry (gas 0).weights i) = real (entry ((fas 0).weights.getD j []) i))
    (l : ℝ) (hlr : Is (fas 0).optimiser.lr l) (hlr' : Is (gas 0).optimiser.lr l) (l0 : 0 ≤ l) (l1 : l ≤ 2 ^ 100)
    (h2 : ∀ t, l * ∑ i ∈ Finset.range n, real (value (φ t) i) ^ 2 ≤ 2)
    (hmod : ∀ t, Moderate n k (φ t) (entry (ys t) j)) (hmod' : ∀ t, Moderate n k (φ' t) (ys' t))
    (D : ℝ) (hD : ∀ t, l * len n (fun i => real (value (φ t) i)) * |real (entry (ys t) j)| ≤ D) (hD1 : D ≤ 2 ^ 190)
    (r : ℝ) (r0 : 0 ≤ r) (Lpos : 0 < L) (hr : Persistent n L (fun t i => real (value (φ t) i)) (fun _ => l) r)
    (hL : L * (8 * k + 11) * 2 ^ (-51 : ℤ) ≤ 1 - r) (W E : ℝ)
    (hW : W = 2 * len n (fun i => real (entry ((fas 0).weights.getD j []) i)) + 10 * L * D / (1 - r))
    (hE : E = 10 * L * ((8 * k + 11) * 2 ^ (-53 : ℤ) * (W + D) + 2 ^ (-800 : ℤ)) / (1 - r)) (t : Nat) :
    (∀ i < n, Spec.Finite (entry ((fas t).weights.getD j []) i) ∧ Spec.Finite (entry (gas t).weights i)) ∧
    len n (fun i => real (entry ((fas t).weights.getD j []) i) - real (entry (gas t).weights i)) ≤ 2 * E ∧
    ∀ (x : I) (x' : I') (χ : Features (FP M)) (χ' : Features (FP M')) (y v : FP M) (y' v' : FP M'),
      Basis.project (fas 0).basis x = .ok (.ok χ) → Basis.project (gas 0).basis x' = .ok (.ok χ') → Fits n χ → Fits n χ' →
      (∀ i, real (value χ' i) = real (value χ i)) → Moderate n k χ y → Moderate n k χ' y' →
      CanEvaluateAt (fas t) x j v → CanEvaluate (gas t) x' v' → Spec.Finite v ∧ Spec.Finite v' ∧
        |real v - real v'| ≤ 6 * (len n (fun i => real (value χ i)) * E) + 2 ^ (-1033 : ℤ) := by
  have hus := exactWeights_run n (fun _ => l) (fun t i => real (value (φ t) i)) (fun t => real (entry (ys t) j))
    (fun i => real (entry ((fas 0).weights.getD j []) i))
  obtain ⟨a1, -, a3, a4⟩ := C209_sgd hM m n k L fas xs ys hs hm hyl φ hφ hn j hj hw l hlr l0 l1 h2 hmod D hD hD1 r r0 Lpos hr hL
    _ hus (fun i _ => rfl) W E hW hE t
  obtain ⟨b1, -, b3, b4⟩ := C188_sgd hM' n k L gas xs' ys' hg φ' hφ' hn' hw' l hlr' l0 l1 (by simp only [hv]; exact h2) hmod'
    D (by simp only [hv, hy]; exact hD) hD1 r r0 Lpos (by simp only [hv]; exact hr) hL _ (by simp only [hv, hy]; exact hus)
    (fun i hi => (hww i hi).symm) W E hW hE t
  refine ⟨fun i hi => ⟨a1 i hi, b1 i hi⟩, len_two a3 b3, fun x x' χ χ' y v y' v' hp hp' hf hf' hχ hm hm' he he' => ?_⟩
  obtain ⟨c1, c2⟩ := a4 x χ y v hp hf hm he
  obtain ⟨d1, d2⟩ := b4 x' χ' y' v' hp' hf' hm' he'
  simp only [hχ] at d2
  exact ⟨c1, d1, near_pair c2 d2⟩

set_option maxHeartbeats 1000000 in
/-- Output `j` of a vector approximator and a scalar approximator trained with ISGD on the targets of this output alone are the same in exact
arithmetic (C150). In f64 they need not be, but they are within `2 E` of one another for ever, and so are their predictions up to the
length of the features. -/
theorem C209_isgd_family (hM : M.rnd = binary64Format.rnd) (hM' : M'.rnd = binary64Format.rnd) (m n k L : Nat)
    (fas : Nat → VectorLFA B (ISGD (FP M)) (FP M)) (gas : Nat → ScalarLFA B' (ISGD (FP M')) (FP M')) (xs : Nat → I) (xs' : Nat → I')
    (ys : Nat → List (FP M)) (ys' : Nat → FP M')
    (hs : ∀ t, CanUpdateAll (fas t) (xs t) (List.zipWith (· -. ·) (ys t)) (fas (t + 1)))
    (hg : ∀ t, CanUpdateWith (gas t) (xs' t) (fun p => ys' t -. p) (gas (t + 1)))
    (hm : (fas 0).nOutputs = m) (hyl : ∀ t, (ys t).length = m)
    (φ : Nat → Features (FP M)) (φ' : Nat → Features (FP M'))
    (hφ : ∀ t, Basis.project (fas 0).basis (xs t) = .ok (.ok (φ t)) ∧ Fits n (φ t))
    (hφ' : ∀ t, Basis.project (gas 0).basis (xs' t) = .ok (.ok (φ' t)) ∧ Fits n (φ' t))
    (hv : ∀ t i, real (value (φ' t) i) = real (value (φ t) i))
    (hn : ∀ j < m, ((fas 0).weights.getD j []).length = n) (hn' : (gas 0).weights.length = n) (j : Nat) (hj : j < m)
    (hy : ∀ t, real (ys' t) = real (entry (ys t) j))
    (hw : ∀ i < n, Bounded (2 ^ 100) (entry ((fas 0).weights.getD j []) i)) (hw' : ∀ i < n, Bounded (2 ^ 100) (entry (gas 0).weights i))
    (hww : ∀ i < n, real (entry (gas 0).weights i) = real (entry ((fas 0).weights.getD j []) i))
    (l : ℝ) (hlr : Is (fas 0).optimiser.lr l) (hlr' : Is (gas 0).optimiser.lr l) (l0 : 0 ≤ l) (l1 : l ≤ 2 ^ 100)
    (c : Nat → ℝ) (hc : ∀ t, c t = l / (1 + l * ∑ i ∈ Finset.range n, real (value (φ t) i) ^ 2))
    (hmod : ∀ t, Moderate n k (φ t) (entry (ys t) j)) (hmod' : ∀ t, Moderate n k (φ' t) (ys' t))
    (D : ℝ) (hD : ∀ t, c t * len n (fun i => real (value (φ t) i)) * |real (entry (ys t) j)| ≤ D) (hD1 : D ≤ 2 ^ 190)
    (r : ℝ) (r0 : 0 ≤ r) (Lpos : 0 < L) (hr : Persistent n L (fun t i => real (value (φ t) i)) c r)
    (hL : L * (12 * k + 25) * 2 ^ (-51 : ℤ) ≤ 1 - r) (W E : ℝ)
    (hW : W = 2 * len n (fun i => real (entry ((fas 0).weights.getD j []) i)) + 10 * L * D / (1 - r))
    (hE : E = 10 * L * ((12 * k + 25) * 2 ^ (-53 : ℤ) * (W + D) + 2 ^ (-500 : ℤ)) / (1 - r)) (t : Nat) :
    (∀ i < n, Spec.Finite (entry ((fas t).weights.getD j []) i) ∧ Spec.Finite (entry (gas t).weights i)) ∧
    len n (fun i => real (entry ((fas t).weights.getD j []) i) - real (entry (gas t).weights i)) ≤ 2 * E ∧
    ∀ (x : I) (x' : I') (χ : Features (FP M)) (χ' : Features (FP M')) (y v : FP M) (y' v' : FP M'),
      Basis.project (fas 0).basis x = .ok (.ok χ) → Basis.project (gas 0).basis x' = .ok (.ok χ') → Fits n χ → Fits n χ' →
      (∀ i, real (value χ' i) = real (value χ i)) → Moderate n k χ y → Moderate n k χ' y' →
      CanEvaluateAt (fas t) x j v → CanEvaluate (gas t) x' v' → Spec.Finite v ∧ Spec.Finite v' ∧
        |real v - real v'| ≤ 6 * (len n (fun i => real (value χ i)) * E) + 2 ^ (-1033 : ℤ) := by
  have hus := exactWeights_run n c (fun t i => real (value (φ t) i)) (fun t => real (entry (ys t) j))
    (fun i => real (entry ((fas 0).weights.getD j []) i))
  obtain ⟨a1, -, a3, a4⟩ := C209_isgd hM m n k L fas xs ys hs hm hyl φ hφ hn j hj hw l hlr l0 l1 c hc hmod D hD hD1 r r0 Lpos hr hL
    _ hus (fun i _ => rfl) W E hW hE t
  obtain ⟨b1, -, b3, b4⟩ := C188_isgd hM' n k L gas xs' ys' hg φ' hφ' hn' hw' l hlr' l0 l1 c (by simp only [hv]; exact hc) hmod'
    D (by simp only [hv, hy]; exact hD) hD1 r r0 Lpos (by simp only [hv]; exact hr) hL _ (by simp only [hv, hy]; exact hus)
    (fun i hi => (hww i hi).symm) W E hW hE t
  refine ⟨fun i hi => ⟨a1 i hi, b1 i hi⟩, len_two a3 b3, fun x x' χ χ' y v y' v' hp hp' hf hf' hχ hm hm' he he' => ?_⟩
  obtain ⟨c1, c2⟩ := a4 x χ y v hp hf hm he
  obtain ⟨d1, d2⟩ := b4 x' χ' y' v' hp' hf' hm' he'
  simp only [hχ] at d2
  exact ⟨c1, d1, near_pair c2 d2⟩

end Two

section Example

theorem turn_len (t : Nat) {Y : ℝ} {y : FP M} (hy : Bounded Y y) :
    1 / 4 * len 3 (fun i => real (value (turnFeatures (FP M) t) i)) * |real y| ≤ 1 / 2 * Y := by
  obtain ⟨r, hr, h⟩ := hy
  rw [is_real hr]
  refine mul_le_mul ?_ h (abs_nonneg _) (by norm_num)
  have : len 3 (fun i => real (value (turnFeatures (FP M) t) i)) ≤ 2 := by
    refine abs_le_of_sq_le_sq' ?_ (by norm_num) |>.2
    rw [len_sq]
    linarith [turn_sq (M := M) t]
  linarith

theorem turn_bound {L k : Nat} {Y : ℝ} (hL : L = 4) (hk : k = 3) (Y0 : 0 ≤ Y) :
    2 * (10 * L * ((8 * k + 11) * 2 ^ (-53 : ℤ) * (2 * 0 + 10 * L * (1 / 2 * Y) / (1 - 127 / 128) + 1 / 2 * Y) + 2 ^ (-800 : ℤ)) /
      (1 - 127 / 128)) ≤ 2 ^ (-23 : ℤ) * Y + 2 ^ (-786 : ℤ) := by
  subst hL hk
  have e1 : (2 : ℝ) ^ (-23 : ℤ) = 2 ^ 30 * 2 ^ (-53 : ℤ) := by norm_num
  have e2 : (2 : ℝ) ^ (-786 : ℤ) = 2 ^ 14 * 2 ^ (-800 : ℤ) := by
    rw [show (-786 : ℤ) = 14 + -800 by norm_num, zpow_add₀ (by norm_num)]
    norm_num
  rw [e1, e2]
  have p1 : (0 : ℝ) ≤ 2 ^ (-53 : ℤ) * Y := by positivity
  have p2 : (0 : ℝ) ≤ 2 ^ (-800 : ℤ) := by positivity
  generalize (2 : ℝ) ^ (-53 : ℤ) = a at *
  generalize (2 : ℝ) ^ (-800 : ℤ) = b at *
  push_cast
  refine (le_of_eq (b := 917683200 * (a * Y) + 10240 * b) (by ring)).trans ?_
  linarith

/-- The hypotheses are met: two outputs over the basis of `C188_example`, rate `1/4`, any targets up to `Y ≤ 2^100`. There are such runs, the
weights of each output in any two of them differ by at most `2^-23 Y + 2^-786` for ever, and so do those of a scalar approximator trained
on this output alone. -/
theorem C209_example (hM : M.rnd = binary64Format.rnd) (lr : FP M) (hl : Is lr (1 / 4)) (ys : Nat → List (FP M))
    (hm : ∀ t, (ys t).length = 2) (Y : ℝ) (hY : Y ≤ 2 ^ 100) (hy : ∀ t, ∀ j < 2, Bounded Y (entry (ys t) j)) :
    let Run := fun fas : Nat → VectorLFA (Closure Nat (FP M)) (SGD (FP M)) (FP M) =>
      fas 0 = LFA.mk (inTurns (FP M)) [[Scalar.zero, Scalar.zero, Scalar.zero], [Scalar.zero, Scalar.zero, Scalar.zero]] ⟨lr⟩ ∧
      ∀ t, CanUpdateAll (fas t) t (List.zipWith (· -. ·) (ys t)) (fas (t + 1))
    let One := fun (j : Nat) (gas : Nat → ScalarLFA (Closure Nat (FP M)) (SGD (FP M)) (FP M)) =>
      gas 0 = LFA.mk (inTurns (FP M)) [Scalar.zero, Scalar.zero, Scalar.zero] ⟨lr⟩ ∧
      ∀ t, CanUpdateWith (gas t) t (fun p => entry (ys t) j -. p) (gas (t + 1))
    (∃ fas, Run fas) ∧ (∀ fas gas, Run fas → Run gas → ∀ j < 2, ∀ t,
      len 3 (fun i => real (entry ((fas t).weights.getD j []) i) - real (entry ((gas t).weights.getD j []) i)) ≤
        2 ^ (-23 : ℤ) * Y + 2 ^ (-786 : ℤ)) ∧
    ∀ j < 2, (∃ gas, One j gas) ∧ ∀ fas gas, Run fas → One j gas → ∀ t,
      len 3 (fun i => real (entry ((fas t).weights.getD j []) i) - real (entry (gas t).weights i)) ≤
        2 ^ (-23 : ℤ) * Y + 2 ^ (-786 : ℤ) := by
  intro Run One
  have Y0 : 0 ≤ Y := by
    obtain ⟨r, -, h⟩ := hy 0 0 two_pos
    exact (abs_nonneg r).trans h
  have zero : ∀ i < 3, entry ([Scalar.zero, Scalar.zero, Scalar.zero] : List (FP M)) i = Scalar.zero := fun i hi => by
    interval_cases i <;> rfl
  have bz : ∀ i < 3, Bounded (2 ^ 100) (entry ([Scalar.zero, Scalar.zero, Scalar.zero] : List (FP M)) i) := fun i hi => by
    rw [zero i hi]; exact bounded_zero (by positivity)
  have W0 : len 3 (fun i => real (entry ([Scalar.zero, Scalar.zero, Scalar.zero] : List (FP M)) i)) = 0 := by
    rw [len_congr (g := fun _ => 0) fun i hi => by rw [zero i hi, is_real val_zero], len_const 3 0 le_rfl, mul_zero]
  have col : ∀ fas, Run fas → ∀ j < 2, (fas 0).weights.getD j [] = [Scalar.zero, Scalar.zero, Scalar.zero] := by
    rintro fas ⟨f0, -⟩ j hj
    rw [f0]
    interval_cases j <;> rfl
  have l1 : (1 / 4 : ℝ) ≤ 2 ^ 100 := (by norm_num : (1 / 4 : ℝ) ≤ 1).trans (one_le_pow₀ (by norm_num))
  have d1 : 1 / 2 * Y ≤ 2 ^ 190 := by
    have : (2 : ℝ) ^ 100 ≤ 2 ^ 190 := pow_le_pow_right₀ (by norm_num) (by norm_num)
    linarith
  have h2 : ∀ t, 1 / 4 * ∑ i ∈ Finset.range 3, real (value (turnFeatures (FP M) t) i) ^ 2 ≤ 2 := fun t => by
    linarith [turn_sq (M := M) t]
  refine ⟨?_, ?_, fun j hj => ⟨?_, ?_⟩⟩
  · obtain ⟨fas, ps, hs, h0⟩ := vstream_any (O := SGD (FP M)) (inTurns (FP M)) (n := 3) (fun t => t) ys
      (fun t => ⟨_, rfl, turn_fits (FP M) t⟩)
      [[Scalar.zero, Scalar.zero, Scalar.zero], [Scalar.zero, Scalar.zero, Scalar.zero]] (by simp) ⟨lr⟩ trivial
    exact ⟨fas, h0, fun t => C209_update (hs.updates t)⟩
  · intro fas gas rf rg j hj t
    have cf := col fas rf
    have cg := col gas rg
    obtain ⟨f0, hf⟩ := rf
    obtain ⟨g0, hg⟩ := rg
    obtain ⟨-, h, -⟩ := C209_sgd_runs hM hM 2 3 3 4 fas gas (fun t => t) (fun t => t) ys ys hf hg (by rw [f0]; rfl) hm (by rw [g0]; rfl) hm
      (turnFeatures (FP M)) (turnFeatures (FP M))
      (fun t => ⟨by rw [f0]; rfl, turn_fits _ t⟩) (fun t => ⟨by rw [g0]; rfl, turn_fits _ t⟩) (fun _ _ => rfl)
      (fun j hj => by rw [cf j hj]; rfl) (fun j hj => by rw [cg j hj]; rfl) j hj (fun _ => rfl)
      (by rw [cf j hj]; exact bz) (by rw [cg j hj]; exact bz) (by rw [cf j hj, cg j hj]; exact fun _ _ => rfl)
      (1 / 4) (by rw [f0]; exact hl) (by rw [g0]; exact hl) (by norm_num) l1 h2
      (fun t => turn_moderate t hY (hy t j hj)) (fun t => turn_moderate t hY (hy t j hj)) (1 / 2 * Y)
      (fun t => turn_len t (hy t j hj)) d1 (127 / 128) (by norm_num) (by norm_num) turn_persistent (by norm_num) _ _ rfl rfl t
    rw [cf j hj, W0] at h
    exact h.trans (turn_bound rfl rfl Y0)
  · obtain ⟨gas, ps, hs, h0⟩ := stream_any (O := SGD (FP M)) (inTurns (FP M)) (n := 3) (fun t => t) (fun t => entry (ys t) j)
      (fun t => ⟨_, rfl, turn_fits (FP M) t⟩) [Scalar.zero, Scalar.zero, Scalar.zero] rfl ⟨lr⟩ trivial
    exact ⟨gas, h0, fun t => C188_stream hs t⟩
  · intro fas gas rf rg t
    have cf := col fas rf
    obtain ⟨f0, hf⟩ := rf
    obtain ⟨g0, hg⟩ := rg
    obtain ⟨-, h, -⟩ := C209_sgd_family hM hM 2 3 3 4 fas gas (fun t => t) (fun t => t) ys (fun t => entry (ys t) j) hf hg
      (by rw [f0]; rfl) hm (turnFeatures (FP M)) (turnFeatures (FP M))
      (fun t => ⟨by rw [f0]; rfl, turn_fits _ t⟩) (fun t => ⟨by rw [g0]; rfl, turn_fits _ t⟩) (fun _ _ => rfl)
      (fun j hj => by rw [cf j hj]; rfl) (by rw [g0]; rfl) j hj (fun _ => rfl)
      (by rw [cf j hj]; exact bz) (by rw [g0]; exact bz) (by rw [cf j hj, g0]; exact fun _ _ => rfl)
      (1 / 4) (by rw [f0]; exact hl) (by rw [g0]; exact hl) (by norm_num) l1 h2
      (fun t => turn_moderate t hY (hy t j hj)) (fun t => turn_moderate t hY (hy t j hj)) (1 / 2 * Y)
      (fun t => turn_len t (hy t j hj)) d1 (127 / 128) (by norm_num) (by norm_num) turn_persistent (by norm_num) _ _ rfl rfl t
    rw [cf j hj, W0] at h
    exact h.trans (turn_bound rfl rfl Y0)

end Example

end

end Lfa

import Verif.Props.C150
import Verif.Props.C161_C162
import Verif.Props.C168

/-!
# C175: vector approximators in `f64` follow vector approximators in exact arithmetic

`M` is any machine that rounds like `f64`. The dot product with a column of the weight matrix adds in another order than the one
with a vector of weights, so an output of a vector approximator is not bit for bit a scalar approximator (`C150_order_matters`);
the bounds of C157, C161 and C168 hold for it all the same.
-/

set_option linter.unusedSectionVars false

namespace Lfa

open Spec Machine XReal

variable {M : Machine}

section
variable {B O I K : Type} [Scalar K] [Space B] [Basis B I K] [Optimiser O K]

/-- One column of a vector approximator whose optimiser keeps no state, over a run, in any arithmetic. -/
theorem vector_trace (hst : Stateless K O) (rate : O → Features K → K)
    (hsc : ∀ {n : Nat} {φ : Features K} (_ : Fits n φ) (o : O) (s : K) {w : List K} (_ : w.length = n),
      ∃ w', Optimiser.stepScaled o w φ s = .ok (.ok (), o, w') ∧ w'.length = n ∧ ∀ i < n,
        (∀ a, Stored φ i a → entry w' i = (entry w i +. rate o φ *. s *. a)) ∧ (¬ Active φ i → entry w' i = entry w i))
    {n m : Nat} {fas : Nat → VectorLFA B O K} {xs : Nat → I} {ys ps : Nat → List K} (hs : VStream fas xs ys ps)
    (hm : (fas 0).nOutputs = m) (hy : ∀ k, (ys k).length = m) (hn : ∀ j < m, ((fas 0).weights.getD j []).length = n)
    {φ : Nat → Features K} (hφ : ∀ k, Basis.project (fas 0).basis (xs k) = .ok (.ok (φ k)) ∧ Fits n (φ k)) (k : Nat) :
    ((fas k).nOutputs = m ∧ (fas k).basis = (fas 0).basis ∧ (fas k).optimiser = (fas 0).optimiser) ∧
    ∀ j < m, ((fas k).weights.getD j []).length = n ∧
      (φ k).dotColumn m ((fas k).weights.getD j []) = .ok (entry (ps k) j) ∧ ∀ i < n,
      (∀ a, Stored (φ k) i a → entry ((fas (k + 1)).weights.getD j []) i =
        (entry ((fas k).weights.getD j []) i +. rate (fas 0).optimiser (φ k) *. (entry (ys k) j -. entry (ps k) j) *. a)) ∧
      (¬ Active (φ k) i → entry ((fas (k + 1)).weights.getD j []) i = entry ((fas k).weights.getD j []) i) := by
  have step : ∀ k, ((fas k).nOutputs = m ∧ (fas k).basis = (fas 0).basis ∧ (fas k).optimiser = (fas 0).optimiser) →
      (∀ j < m, ((fas k).weights.getD j []).length = n) →
      ((fas (k + 1)).nOutputs = m ∧ (fas (k + 1)).basis = (fas 0).basis ∧ (fas (k + 1)).optimiser = (fas 0).optimiser) ∧
      ∀ j < m, ((fas (k + 1)).weights.getD j []).length = n ∧
        (φ k).dotColumn m ((fas k).weights.getD j []) = .ok (entry (ps k) j) ∧ ∀ i < n,
        (∀ a, Stored (φ k) i a → entry ((fas (k + 1)).weights.getD j []) i =
          (entry ((fas k).weights.getD j []) i +. rate (fas 0).optimiser (φ k) *. (entry (ys k) j -. entry (ps k) j) *. a)) ∧
        (¬ Active (φ k) i → entry ((fas (k + 1)).weights.getD j []) i = entry ((fas k).weights.getD j []) i) := by
    rintro k ⟨h1, h2, h3⟩ h4
    obtain ⟨g1, g2, g3, -, φ', hφ', g4⟩ := column_call hst ((hy k).trans h1.symm) (hs.predicts k) (hs.updates k)
    have e : φ' = φ k := by
      have := (hφ k).1
      rw [← h2, hφ'] at this
      simpa only [Except.ok.injEq] using this
    subst e
    refine ⟨⟨g1.trans h1, g2.trans h2, g3.trans h3⟩, fun j hj => ?_⟩
    obtain ⟨g5, g6⟩ := g4 j (by rw [h1]; exact hj)
    obtain ⟨w', f1, f2, f3⟩ := hsc (hφ k).2 (fas k).optimiser (entry (ys k) j -. entry (ps k) j) (h4 j hj)
    rw [g6] at f1
    simp only [Except.ok.injEq, Prod.mk.injEq, true_and] at f1
    rw [f1]
    rw [h1] at g5
    rw [h3] at f3
    exact ⟨f2, g5, f3⟩
  have inv : ∀ k, ((fas k).nOutputs = m ∧ (fas k).basis = (fas 0).basis ∧ (fas k).optimiser = (fas 0).optimiser) ∧
      ∀ j < m, ((fas k).weights.getD j []).length = n := by
    intro k
    induction k with
    | zero => exact ⟨⟨hm, rfl, rfl⟩, hn⟩
    | succ k ih =>
      obtain ⟨h1, h2⟩ := step k ih.1 ih.2
      exact ⟨h1, fun j hj => (h2 j hj).1⟩
  obtain ⟨h1, h2⟩ := inv k
  exact ⟨h1, fun j hj => ⟨h2 j hj, ((step k h1 h2).2 j hj).2⟩⟩

end

section
variable {B B' I I' : Type} [Space B] [Basis B I (FP M)] [Space B'] [Basis B' I' ℝ]

/-- Training every output of a vector approximator in exact arithmetic is training a scalar approximator. -/
theorem exact_output {O : Type} [Optimiser O ℝ] (hst : Stateless ℝ O) {m : Nat} {gas : Nat → VectorLFA B' O ℝ} {xs : Nat → I'}
    {ys : Nat → List (FP M)} {qs : Nat → List ℝ} (hg : VStream gas xs (fun k => (ys k).map real) qs)
    (hm : (gas 0).nOutputs = m) (hy : ∀ k, (ys k).length = m) {j : Nat} (hj : j < m) :
    Stream (fun k => output (gas k) j) xs (fun k => real (entry (ys k) j)) (fun k => entry (qs k) j) := by
  have h := (C150_outputs hst m gas xs _ qs hg hm (.inr (.inl C04_real_order)) fun k => by
    rw [List.length_map]; exact hy k).2 j hj
  have e : (fun k => entry ((ys k).map real) j) = fun k => real (entry (ys k) j) := by
    funext k
    have : j < (ys k).length := (hy k).symm ▸ hj
    simp [entry, this]
  rwa [e] at h

/-- A vector approximator trained with SGD in `f64` (`fas`) and one trained in exact arithmetic (`gas`) from the same weights, with
the same rate and targets, on features that differ by at most `δ` (Euclidean length; zero if they are the same). As long as
`lr ‖φ‖² ≤ 2` and the weights of output `j` stay finite, their distance after `T` calls is at most the sum of the errors of the
calls for this output. The other outputs do not enter. -/
theorem C175_sgd (hM : M.rnd = binary64Format.rnd) (n m : Nat)
    (fas : Nat → VectorLFA B (SGD (FP M)) (FP M)) (gas : Nat → VectorLFA B' (SGD ℝ) ℝ) (xs : Nat → I) (xs' : Nat → I')
    (ys ps : Nat → List (FP M)) (qs : Nat → List ℝ) (hs : VStream fas xs ys ps) (hg : VStream gas xs' (fun k => (ys k).map real) qs)
    (hm : (fas 0).nOutputs = m) (hm' : (gas 0).nOutputs = m) (hy : ∀ k, (ys k).length = m)
    (φ : Nat → Features (FP M)) (ψ : Nat → Features ℝ)
    (hφ : ∀ k, Basis.project (fas 0).basis (xs k) = .ok (.ok (φ k)) ∧ Fits n (φ k))
    (hψ : ∀ k, Basis.project (gas 0).basis (xs' k) = .ok (.ok (ψ k)) ∧ Fits n (ψ k)) (δ : Nat → ℝ)
    (hv : ∀ k, len n (fun i => real (value (φ k) i) - value (ψ k) i) ≤ δ k)
    (hn : ∀ j < m, ((fas 0).weights.getD j []).length = n ∧ ((gas 0).weights.getD j []).length = n)
    (hw : ∀ j < m, ∀ i < n, entry ((gas 0).weights.getD j []) i = real (entry ((fas 0).weights.getD j []) i))
    (hlr : (gas 0).optimiser.lr = real (fas 0).optimiser.lr) (h0 : 0 ≤ (gas 0).optimiser.lr)
    (h2 : ∀ k, (gas 0).optimiser.lr * normSq (ψ k) ≤ 2) (j : Nat) (hj : j < m) (T : Nat)
    (hT : ∀ i < n, Finite (entry ((fas T).weights.getD j []) i)) :
    len n (fun i => real (entry ((fas T).weights.getD j []) i) - entry ((gas T).weights.getD j []) i) ≤
      ∑ t ∈ Finset.range T, (callError n (fas 0).optimiser.lr (φ t) ((fas t).weights.getD j []) (entry (ys t) j) (entry (ps t) j) +
        featureError n (gas 0).optimiser.lr (δ t) (φ t) (ψ t) ((fas t).weights.getD j []) (entry (ys t) j)) := by
  have tr := fun k => (vector_trace C64_stateless.1 (fun o _ => o.lr) sgd_scaled hs hm hy (fun j hj => (hn j hj).1) hφ k).2 j hj
  exact follow_sgd hM n (fun k => (fas k).weights.getD j []) (fun k => (gas k).weights.getD j []) (fun k => entry (ys k) j)
    (fun k => entry (ps k) j) φ ψ (fun k => (hφ k).2) (fun k => (hψ k).2)
    (fun k r hr => dotColumn_err hM m (hφ k).2 (tr k).1 (tr k).2.1 hr) (fun k => (tr k).2.2)
    (exact_trace (exact_output C64_stateless.1 hg hm' hy hj) (hn j hj).2 hψ) δ hv (hw j hj) hlr h0 h2 T hT

/-- Hence what `evaluate` returns for output `j` in `f64` is close to what it returns after exact training. -/
theorem C175_prediction (hM : M.rnd = binary64Format.rnd) (n m : Nat)
    (fas : Nat → VectorLFA B (SGD (FP M)) (FP M)) (gas : Nat → VectorLFA B' (SGD ℝ) ℝ) (xs : Nat → I) (xs' : Nat → I')
    (ys ps : Nat → List (FP M)) (qs : Nat → List ℝ) (hs : VStream fas xs ys ps) (hg : VStream gas xs' (fun k => (ys k).map real) qs)
    (hm : (fas 0).nOutputs = m) (hm' : (gas 0).nOutputs = m) (hy : ∀ k, (ys k).length = m)
    (φ : Nat → Features (FP M)) (ψ : Nat → Features ℝ)
    (hφ : ∀ k, Basis.project (fas 0).basis (xs k) = .ok (.ok (φ k)) ∧ Fits n (φ k))
    (hψ : ∀ k, Basis.project (gas 0).basis (xs' k) = .ok (.ok (ψ k)) ∧ Fits n (ψ k)) (δ : Nat → ℝ)
    (hv : ∀ k, len n (fun i => real (value (φ k) i) - value (ψ k) i) ≤ δ k)
    (hn : ∀ j < m, ((fas 0).weights.getD j []).length = n ∧ ((gas 0).weights.getD j []).length = n)
    (hw : ∀ j < m, ∀ i < n, entry ((gas 0).weights.getD j []) i = real (entry ((fas 0).weights.getD j []) i))
    (hlr : (gas 0).optimiser.lr = real (fas 0).optimiser.lr) (h0 : 0 ≤ (gas 0).optimiser.lr)
    (h2 : ∀ k, (gas 0).optimiser.lr * normSq (ψ k) ≤ 2) (j : Nat) (hj : j < m) (T : Nat)
    (hT : ∀ i < n, Finite (entry ((fas T).weights.getD j []) i)) (hp : Finite (entry (ps T) j)) :
    |real (entry (ps T) j) - entry (qs T) j| ≤ √(normSq (ψ T)) * ∑ t ∈ Finset.range T,
      (callError n (fas 0).optimiser.lr (φ t) ((fas t).weights.getD j []) (entry (ys t) j) (entry (ps t) j) +
        featureError n (gas 0).optimiser.lr (δ t) (φ t) (ψ t) ((fas t).weights.getD j []) (entry (ys t) j)) +
      predictionError (φ T) ((fas T).weights.getD j []) +
      δ T * len n (fun i => real (entry ((fas T).weights.getD j []) i)) := by
  have h := C175_sgd hM n m fas gas xs xs' ys ps qs hs hg hm hm' hy φ ψ hφ hψ δ hv hn hw hlr h0 h2 j hj T hT
  have tr := (vector_trace C64_stateless.1 (fun o _ => o.lr) sgd_scaled hs hm hy (fun j hj => (hn j hj).1) hφ T).2 j hj
  obtain ⟨⟨-, -, hl'⟩, hd', -⟩ := sgd_trace (exact_output C64_stateless.1 hg hm' hy hj) (hn j hj).2 hψ T
  obtain ⟨p, hp⟩ := hp
  rw [is_real hp]
  refine follow_prediction (hφ T).2 (hψ T).2 (hv T) h (dotColumn_err hM m (hφ T).2 tr.1 tr.2.1 hp) ?_
  have := dot_real (hψ T).2.1 (w := (gas T).weights.getD j []) ((hψ T).2.2.trans hl'.symm)
  have e : (ψ T).dot ((gas T).weights.getD j []) = .ok (entry (qs T) j) := hd'
  rw [e] at this
  injection this

end

section
variable {B B' I : Type} [Space B] [Basis B I (FP M)] [Space B'] [Basis B' I ℝ]

/-- ISGD, on the same features in `f64` and in exact arithmetic, for every rate and however long the features are. -/
theorem C175_isgd (hM : M.rnd = binary64Format.rnd) (n m : Nat)
    (fas : Nat → VectorLFA B (ISGD (FP M)) (FP M)) (gas : Nat → VectorLFA B' (ISGD ℝ) ℝ) (xs : Nat → I)
    (ys ps : Nat → List (FP M)) (qs : Nat → List ℝ) (hs : VStream fas xs ys ps) (hg : VStream gas xs (fun k => (ys k).map real) qs)
    (hm : (fas 0).nOutputs = m) (hm' : (gas 0).nOutputs = m) (hy : ∀ k, (ys k).length = m)
    (φ : Nat → Features (FP M)) (ψ : Nat → Features ℝ)
    (hφ : ∀ k, Basis.project (fas 0).basis (xs k) = .ok (.ok (φ k)) ∧ Fits n (φ k))
    (hψ : ∀ k, Basis.project (gas 0).basis (xs k) = .ok (.ok (ψ k)) ∧ Fits n (ψ k))
    (hv : ∀ k, ∀ i < n, value (ψ k) i = real (value (φ k) i))
    (hn : ∀ j < m, ((fas 0).weights.getD j []).length = n ∧ ((gas 0).weights.getD j []).length = n)
    (hw : ∀ j < m, ∀ i < n, entry ((gas 0).weights.getD j []) i = real (entry ((fas 0).weights.getD j []) i))
    (h0 : 0 ≤ (gas 0).optimiser.lr) (j : Nat) (hj : j < m) (T : Nat)
    (hT : ∀ i < n, Finite (entry ((fas T).weights.getD j []) i)) :
    len n (fun i => real (entry ((fas T).weights.getD j []) i) - entry ((gas T).weights.getD j []) i) ≤
      ∑ t ∈ Finset.range T, implicitError n (gas 0).optimiser.lr ((fas 0).optimiser.computeLr (φ t)) (φ t)
        ((fas t).weights.getD j []) (entry (ys t) j) (entry (ps t) j) := by
  have tr := fun k => (vector_trace C64_stateless.2 (fun o φ => o.computeLr φ) isgd_scaled hs hm hy (fun j hj => (hn j hj).1) hφ k).2
    j hj
  exact follow_isgd hM n (fun k => (fas k).weights.getD j []) (fun k => (gas k).weights.getD j [])
    (fun k => (fas 0).optimiser.computeLr (φ k)) (fun k => entry (ys k) j)
    (fun k => entry (ps k) j) φ ψ (fun k => (hφ k).2) (fun k => (hψ k).2)
    (fun k r hr => dotColumn_err hM m (hφ k).2 (tr k).1 (tr k).2.1 hr) (fun k => (tr k).2.2)
    (exact_isgd_trace (exact_output C64_stateless.2 hg hm' hy hj) (hn j hj).2 hψ) hv (hw j hj) h0 T hT

end

/-- The hypotheses are met for ever by a cell shared by two outputs with targets `y` and `y'`. -/
theorem C175_example (hM : M.rnd = binary64Format.rnd) (lr y y' : FP M) (l q q' : ℝ) (hl : Is lr l) (hy : Is y q) (hy' : Is y' q')
    (l0 : 0 ≤ l) (l1 : l ≤ 1 - 2 ^ (-51 : ℤ)) (bq : |q| ≤ 2 ^ (1000 : ℤ)) (bq' : |q'| ≤ 2 ^ (1000 : ℤ)) :
    ∃ (fas : Nat → VectorLFA (FixedSparse (FP M)) (SGD (FP M)) (FP M)) (gas : Nat → VectorLFA (FixedDense ℝ) (SGD ℝ) ℝ)
      (ps : Nat → List (FP M)) (qs : Nat → List ℝ) (φ : Features (FP M)),
      fas 0 = LFA.mk ⟨1, [0]⟩ [[Scalar.zero], [Scalar.zero]] ⟨lr⟩ ∧ gas 0 = LFA.mk ⟨[1]⟩ [[0], [0]] ⟨l⟩ ∧
      VStream fas (fun _ => ()) (fun _ => [y, y']) ps ∧ VStream gas (fun _ => ()) (fun _ => [q, q']) qs ∧
      ∀ j < 2, ∀ T, len 1 (fun i => real (entry ((fas T).weights.getD j []) i) - entry ((gas T).weights.getD j []) i) ≤
        ∑ t ∈ Finset.range T, callError 1 lr φ ((fas t).weights.getD j []) (entry [y, y'] j) (entry (ps t) j) := by
  have hp : Basis.project (⟨1, [0]⟩ : FixedSparse (FP M)) () =
      .ok (.ok (.sparse ⟨1, [(0, (Scalar.one : FP M))]⟩)) := rfl
  have hpr : Basis.project (⟨[1]⟩ : FixedDense ℝ) () = .ok (.ok (.dense [1])) := rfl
  have hf : Fits 1 (.sparse ⟨1, [(0, (Scalar.one : FP M))]⟩) := by
    refine ⟨⟨List.nodup_singleton _, fun e he => ?_⟩, rfl⟩
    rw [List.mem_singleton] at he
    subst he
    exact Nat.zero_lt_one
  have hf' : Fits 1 (.dense [(1 : ℝ)]) := ⟨trivial, rfl⟩
  have run : ∀ j : Fin 2, ∃ (fas : Nat → ScalarLFA (FixedSparse (FP M)) (SGD (FP M)) (FP M)) (ps : Nat → FP M),
      fas 0 = LFA.mk ⟨1, [0]⟩ [Scalar.zero] ⟨lr⟩ ∧ Stream fas (fun _ => ()) (fun _ => entry [y, y'] j) ps ∧
      ∀ T, Finite (ps T) := fun j => by
    fin_cases j
    · obtain ⟨fas, ps, h0, hs, hfin, -⟩ := C105_cell hM (⟨1, [0]⟩ : FixedSparse (FP M)) () 1 0 Nat.zero_lt_one hp [Scalar.zero]
        rfl lr y l q 0 hl hy val_zero l0 l1 bq (by norm_num)
      exact ⟨fas, ps, h0, hs, hfin⟩
    · obtain ⟨fas, ps, h0, hs, hfin, -⟩ := C105_cell hM (⟨1, [0]⟩ : FixedSparse (FP M)) () 1 0 Nat.zero_lt_one hp [Scalar.zero]
        rfl lr y' l q' 0 hl hy' val_zero l0 l1 bq' (by norm_num)
      exact ⟨fas, ps, h0, hs, hfin⟩
  choose fa p hf0 hfs hfin using run
  have runr : ∀ j : Fin 2, ∃ (gas : Nat → ScalarLFA (FixedDense ℝ) (SGD ℝ) ℝ) (qs : Nat → ℝ),
      Stream gas (fun _ => ()) (fun _ => entry [q, q'] j) qs ∧ gas 0 = LFA.mk ⟨[1]⟩ [0] ⟨l⟩ := fun j =>
    stream_exists (O := SGD ℝ) (⟨[1]⟩ : FixedDense ℝ) (n := 1) (fun _ => ()) (fun _ => entry [q, q'] j)
      (fun _ => ⟨_, hpr, hf'⟩) [0] rfl ⟨l⟩ trivial
  choose ga r hgs hg0 using runr
  have hV := C150_assemble C64_stateless.1 2 two_pos (⟨1, [0]⟩ : FixedSparse (FP M)) (⟨lr⟩ : SGD (FP M))
    (.inr (.inr fun x φ h => by
      cases x
      rw [hp] at h
      simp only [Except.ok.injEq] at h
      subst h; rfl)) fa (fun _ => ()) (fun j _ => entry [y, y'] j) p hfs (fun j => by rw [hf0]; exact ⟨rfl, rfl⟩)
  have hG := C150_assemble C64_stateless.1 2 two_pos (⟨[1]⟩ : FixedDense ℝ) (⟨l⟩ : SGD ℝ)
    (.inr (.inl C04_real_order)) ga (fun _ => ()) (fun j _ => entry [q, q'] j) r hgs (fun j => by rw [hg0]; exact ⟨rfl, rfl⟩)
  have ey : (List.ofFn fun j : Fin 2 => entry [y, y'] j) = [y, y'] := by
    simp only [List.ofFn_succ, List.ofFn_zero]; rfl
  have eq : (List.ofFn fun j : Fin 2 => entry [q, q'] j) = [q, q'] := by
    simp only [List.ofFn_succ, List.ofFn_zero]; rfl
  simp only [ey] at hV
  simp only [eq] at hG
  have eF : (List.ofFn fun j : Fin 2 => (fa j 0).weights) = [[Scalar.zero], [Scalar.zero]] := by
    simp only [hf0]; simp [List.ofFn_succ]
  have eG : (List.ofFn fun j : Fin 2 => (ga j 0).weights) = [[0], [0]] := by
    simp only [hg0]; simp [List.ofFn_succ]
  have getF : ∀ j (hj : j < 2) T, (List.ofFn fun j : Fin 2 => (fa j T).weights).getD j [] = (fa ⟨j, hj⟩ T).weights := by
    intro j hj T
    interval_cases j <;> simp only [List.ofFn_succ, List.ofFn_zero] <;> rfl
  have hφ : ∀ j (k : Nat), Basis.project (fa j 0).basis () = .ok (.ok (.sparse ⟨1, [(0, (Scalar.one : FP M))]⟩)) ∧
      Fits 1 (.sparse ⟨1, [(0, (Scalar.one : FP M))]⟩) := fun j _ => ⟨by rw [hf0]; exact hp, hf⟩
  refine ⟨_, _, _, _, .sparse ⟨1, [(0, (Scalar.one : FP M))]⟩, by rw [eF], by rw [eG], hV, hG, fun j hj T => ?_⟩
  have hN : normSq (.dense [(1 : ℝ)]) = 1 := by
    rw [normSq]
    show ∑ i ∈ Finset.range 1, _ = _
    rw [Finset.sum_range_one]
    show (1 : ℝ) * 1 = 1
    norm_num
  have := C175_sgd hM 1 2 _ _ (fun _ => ()) (fun _ => ()) (fun _ => [y, y']) _ _ hV
    (by rw [show [y, y'].map real = [q, q'] by rw [← is_real hy, ← is_real hy']; rfl]; exact hG) (by rw [eF]; rfl) (by rw [eG]; rfl)
    (fun _ => rfl) (fun _ => .sparse ⟨1, [(0, (Scalar.one : FP M))]⟩) (fun _ => .dense [1]) (fun _ => ⟨hp, hf⟩) (fun _ => ⟨hpr, hf'⟩)
    (fun _ => 0) (fun _ => by
      unfold len
      rw [Finset.sum_range_one, Real.sqrt_sq_eq_abs]
      show |real (Scalar.one : FP M) - 1| ≤ _
      rw [is_real val_one]
      norm_num)
    (fun j hj => by
      rw [eF, eG]
      interval_cases j <;> exact ⟨rfl, rfl⟩)
    (fun j hj i hi => by
      rw [eF, eG]
      obtain rfl : i = 0 := by omega
      have e : (0 : ℝ) = real (Scalar.zero : FP M) := (is_real val_zero).symm
      interval_cases j <;> exact e) (is_real hl).symm l0
    (fun _ => by
      rw [hN]
      have h1 : (0 : ℝ) < 2 ^ (-51 : ℤ) := by positivity
      show l * 1 ≤ 2
      linarith) j hj T (fun i hi => by
      obtain rfl : i = 0 := by omega
      rw [getF j hj]
      obtain ⟨⟨-, -, hl⟩, hd, -⟩ := sgd_trace (hfs ⟨j, hj⟩) (by rw [hf0]; rfl) (hφ _) T
      exact dot_finite hf hl hd (hfin _ T) ⟨_, List.mem_singleton.2 rfl⟩)
  refine this.trans (le_of_eq (Finset.sum_congr rfl fun t _ => ?_))
  unfold featureError
  rw [mul_zero, add_zero]

end Lfa

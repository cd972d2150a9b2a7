import Verif.Props.C175
import Verif.Props.C181

/-!
# C184: training several outputs in double precision, for ever

C177, C180 and C181 are about one output. A vector approximator adds up the products of a prediction in another order than a scalar
approximator does, so their weights are not the same in `f64`. The bounds are: they hold for every output by itself, with the sizes of
the targets of this output.
-/

set_option linter.unusedSectionVars false

namespace Lfa

open Spec Machine XReal

variable {M : Machine} {ι : Type}

section
variable {B B' I : Type} [Space B] [Basis B I (FP M)] [Space B'] [Basis B' I ℝ]

/-- SGD, within the limits of C177, for the targets of output `j`. -/
theorem C184_sgd (hM : M.rnd = binary64Format.rnd) (m n k : Nat)
    (fas : Nat → VectorLFA B (SGD (FP M)) (FP M)) (gas : Nat → VectorLFA B' (SGD ℝ) ℝ) (xs : Nat → I)
    (ys ps : Nat → List (FP M)) (qs : Nat → List ℝ) (hs : VStream fas xs ys ps)
    (hg : VStream gas xs (fun k => (ys k).map real) qs) (hm : (fas 0).nOutputs = m) (hm' : (gas 0).nOutputs = m)
    (hy : ∀ k, (ys k).length = m)
    (φ : Nat → Features (FP M)) (ψ : Nat → Features ℝ)
    (hφ : ∀ k, Basis.project (fas 0).basis (xs k) = .ok (.ok (φ k)) ∧ Fits n (φ k))
    (hψ : ∀ k, Basis.project (gas 0).basis (xs k) = .ok (.ok (ψ k)) ∧ Fits n (ψ k))
    (hv : ∀ k, ∀ i < n, value (ψ k) i = real (value (φ k) i))
    (hn : ∀ j < m, ((fas 0).weights.getD j []).length = n ∧ ((gas 0).weights.getD j []).length = n) (j : Nat) (hj : j < m)
    (hw : ∀ i < n, Bounded (2 ^ 100) (entry ((fas 0).weights.getD j []) i) ∧
      entry ((gas 0).weights.getD j []) i = real (entry ((fas 0).weights.getD j []) i))
    (hlr : Is (fas 0).optimiser.lr (gas 0).optimiser.lr) (l0 : 0 ≤ (gas 0).optimiser.lr) (l1 : (gas 0).optimiser.lr ≤ 2 ^ 100)
    (h2 : ∀ t, (gas 0).optimiser.lr * normSq (ψ t) ≤ 2) (hmod : ∀ t, Moderate n k (φ t) (entry (ys t) j))
    (D : ℝ) (hD : ∀ t, (gas 0).optimiser.lr * √(normSq (ψ t)) * |real (entry (ys t) j)| ≤ D) (hD1 : D ≤ 2 ^ 200)
    (T : Nat) (hT : (8 * k + 11) * T ≤ 2 ^ 52) :
    (∀ i < n, Spec.Finite (entry ((fas T).weights.getD j []) i)) ∧ Spec.Finite (entry (ps T) j) ∧
    len n (fun i => real (entry ((fas T).weights.getD j []) i) - entry ((gas T).weights.getD j []) i) ≤
      (8 * k + 11) * T * 2 ^ (-52 : ℤ) * (len n (fun i => real (entry ((fas 0).weights.getD j []) i)) + T * D) + T * 2 ^ (-799 : ℤ) ∧
    |real (entry (ps T) j) - entry (qs T) j| ≤ √(normSq (ψ T)) * ((8 * k + 11) * (T + 1) * 2 ^ (-52 : ℤ) *
      (len n (fun i => real (entry ((fas 0).weights.getD j []) i)) + T * D) + (T + 1) * 2 ^ (-799 : ℤ)) + 2 ^ (-1034 : ℤ) := by
  have run := fun t => (vector_trace C64_stateless.1 (fun o _ => o.lr) sgd_scaled hs hm hy (fun j hj => (hn j hj).1) hφ t).2 j hj
  have ho := exact_output C64_stateless.1 hg hm' hy hj
  have run' := sgd_trace ho (hn j hj).2 hψ
  exact sgd_column hM m n k (fun t => (fas t).weights.getD j []) (fun t => (gas t).weights.getD j []) (fas 0).optimiser.lr
    (gas 0).optimiser.lr (fun t => entry (ys t) j) (fun t => entry (ps t) j) (fun t => entry (qs t) j) φ ψ
    (fun t => (hφ t).2) (fun t => (hψ t).2) hv run (fun t => ⟨(run' t).1.2.2, (run' t).2.1⟩) (exact_trace ho (hn j hj).2 hψ)
    hw hlr l0 l1 h2 hmod D hD hD1 T hT

/-- ISGD, within the limits of C177, for the targets of output `j`. -/
theorem C184_isgd (hM : M.rnd = binary64Format.rnd) (m n k : Nat)
    (fas : Nat → VectorLFA B (ISGD (FP M)) (FP M)) (gas : Nat → VectorLFA B' (ISGD ℝ) ℝ) (xs : Nat → I)
    (ys ps : Nat → List (FP M)) (qs : Nat → List ℝ) (hs : VStream fas xs ys ps)
    (hg : VStream gas xs (fun k => (ys k).map real) qs) (hm : (fas 0).nOutputs = m) (hm' : (gas 0).nOutputs = m)
    (hy : ∀ k, (ys k).length = m)
    (φ : Nat → Features (FP M)) (ψ : Nat → Features ℝ)
    (hφ : ∀ k, Basis.project (fas 0).basis (xs k) = .ok (.ok (φ k)) ∧ Fits n (φ k))
    (hψ : ∀ k, Basis.project (gas 0).basis (xs k) = .ok (.ok (ψ k)) ∧ Fits n (ψ k))
    (hv : ∀ k, ∀ i < n, value (ψ k) i = real (value (φ k) i))
    (hn : ∀ j < m, ((fas 0).weights.getD j []).length = n ∧ ((gas 0).weights.getD j []).length = n) (j : Nat) (hj : j < m)
    (hw : ∀ i < n, Bounded (2 ^ 100) (entry ((fas 0).weights.getD j []) i) ∧
      entry ((gas 0).weights.getD j []) i = real (entry ((fas 0).weights.getD j []) i))
    (hlr : Is (fas 0).optimiser.lr (gas 0).optimiser.lr) (l0 : 0 ≤ (gas 0).optimiser.lr) (l1 : (gas 0).optimiser.lr ≤ 2 ^ 100)
    (hmod : ∀ t, Moderate n k (φ t) (entry (ys t) j)) (D : ℝ)
    (hD : ∀ t, (gas 0).optimiser.lr / (1 + (gas 0).optimiser.lr * normSq (ψ t)) * √(normSq (ψ t)) * |real (entry (ys t) j)| ≤ D)
    (hD1 : D ≤ 2 ^ 200) (T : Nat) (hT : (12 * k + 25) * T ≤ 2 ^ 52) :
    (∀ i < n, Spec.Finite (entry ((fas T).weights.getD j []) i)) ∧ Spec.Finite (entry (ps T) j) ∧
    len n (fun i => real (entry ((fas T).weights.getD j []) i) - entry ((gas T).weights.getD j []) i) ≤
      (12 * k + 25) * T * 2 ^ (-52 : ℤ) * (len n (fun i => real (entry ((fas 0).weights.getD j []) i)) + T * D) + T * 2 ^ (-499 : ℤ) ∧
    |real (entry (ps T) j) - entry (qs T) j| ≤ √(normSq (ψ T)) * ((12 * k + 25) * (T + 1) * 2 ^ (-52 : ℤ) *
      (len n (fun i => real (entry ((fas 0).weights.getD j []) i)) + T * D) + (T + 1) * 2 ^ (-499 : ℤ)) + 2 ^ (-1034 : ℤ) := by
  have run := fun t => (vector_trace C64_stateless.2 (fun o φ => o.computeLr φ) isgd_scaled hs hm hy (fun j hj => (hn j hj).1) hφ t).2 j hj
  have ho := exact_output C64_stateless.2 hg hm' hy hj
  have run' := isgd_trace ho (hn j hj).2 hψ
  exact isgd_column hM m n k (fun t => (fas t).weights.getD j []) (fun t => (gas t).weights.getD j []) (fas 0).optimiser
    (gas 0).optimiser.lr (fun t => entry (ys t) j) (fun t => entry (ps t) j) (fun t => entry (qs t) j) φ ψ
    (fun t => (hφ t).2) (fun t => (hψ t).2) hv run (fun t => ⟨(run' t).1.2.2, (run' t).2.1⟩) (exact_isgd_trace ho (hn j hj).2 hψ)
    hw hlr l0 l1 hmod D hD hD1 T hT

/-- SGD for ever, on inputs that explore as in C181: every output stays near its exact training. -/
theorem C184_sgd_shadow (hM : M.rnd = binary64Format.rnd) (m n k L : Nat)
    (fas : Nat → VectorLFA B (SGD (FP M)) (FP M)) (gas : Nat → VectorLFA B' (SGD ℝ) ℝ) (xs : Nat → I)
    (ys ps : Nat → List (FP M)) (qs : Nat → List ℝ) (hs : VStream fas xs ys ps)
    (hg : VStream gas xs (fun k => (ys k).map real) qs) (hm : (fas 0).nOutputs = m) (hm' : (gas 0).nOutputs = m)
    (hy : ∀ k, (ys k).length = m)
    (φ : Nat → Features (FP M)) (ψ : Nat → Features ℝ)
    (hφ : ∀ k, Basis.project (fas 0).basis (xs k) = .ok (.ok (φ k)) ∧ Fits n (φ k))
    (hψ : ∀ k, Basis.project (gas 0).basis (xs k) = .ok (.ok (ψ k)) ∧ Fits n (ψ k))
    (hv : ∀ k, ∀ i < n, value (ψ k) i = real (value (φ k) i))
    (hn : ∀ j < m, ((fas 0).weights.getD j []).length = n ∧ ((gas 0).weights.getD j []).length = n) (j : Nat) (hj : j < m)
    (hw : ∀ i < n, Bounded (2 ^ 100) (entry ((fas 0).weights.getD j []) i) ∧
      entry ((gas 0).weights.getD j []) i = real (entry ((fas 0).weights.getD j []) i))
    (hlr : Is (fas 0).optimiser.lr (gas 0).optimiser.lr) (l0 : 0 ≤ (gas 0).optimiser.lr) (l1 : (gas 0).optimiser.lr ≤ 2 ^ 100)
    (h2 : ∀ t, (gas 0).optimiser.lr * normSq (ψ t) ≤ 2) (hmod : ∀ t, Moderate n k (φ t) (entry (ys t) j))
    (D : ℝ) (hD : ∀ t, (gas 0).optimiser.lr * √(normSq (ψ t)) * |real (entry (ys t) j)| ≤ D) (hD1 : D ≤ 2 ^ 190)
    (r : ℝ) (r0 : 0 ≤ r) (Lpos : 0 < L) (hr : Persistent n L (fun t => value (ψ t)) (fun _ => (gas 0).optimiser.lr) r)
    (hL : L * (8 * k + 11) * 2 ^ (-51 : ℤ) ≤ 1 - r) (W E : ℝ)
    (hW : W = 2 * len n (entry ((gas 0).weights.getD j [])) + 10 * L * D / (1 - r))
    (hE : E = 10 * L * ((8 * k + 11) * 2 ^ (-53 : ℤ) * (W + D) + 2 ^ (-800 : ℤ)) / (1 - r)) (t : Nat) :
    (∀ i < n, Spec.Finite (entry ((fas t).weights.getD j []) i)) ∧ Spec.Finite (entry (ps t) j) ∧ len n (entry ((gas t).weights.getD j [])) ≤ W ∧
    len n (fun i => real (entry ((fas t).weights.getD j []) i) - entry ((gas t).weights.getD j []) i) ≤ E ∧
    |real (entry (ps t) j) - entry (qs t) j| ≤ 3 * (√(normSq (ψ t)) * E) + 2 ^ (-1034 : ℤ) := by
  have run := fun t => (vector_trace C64_stateless.1 (fun o _ => o.lr) sgd_scaled hs hm hy (fun j hj => (hn j hj).1) hφ t).2 j hj
  have ho := exact_output C64_stateless.1 hg hm' hy hj
  have run' := sgd_trace ho (hn j hj).2 hψ
  exact sgd_shadow hM m n k L (fun t => (fas t).weights.getD j []) (fun t => (gas t).weights.getD j []) (fas 0).optimiser.lr
    (gas 0).optimiser.lr (fun t => entry (ys t) j) (fun t => entry (ps t) j) (fun t => entry (qs t) j) φ ψ
    (fun t => (hφ t).2) (fun t => (hψ t).2) hv run (fun t => ⟨(run' t).1.2.2, (run' t).2.1⟩) (exact_trace ho (hn j hj).2 hψ)
    hw hlr l0 l1 h2 hmod D hD hD1 r r0 Lpos hr hL W E hW hE t

/-- ISGD for ever, on inputs that explore as in C181. -/
theorem C184_isgd_shadow (hM : M.rnd = binary64Format.rnd) (m n k L : Nat)
    (fas : Nat → VectorLFA B (ISGD (FP M)) (FP M)) (gas : Nat → VectorLFA B' (ISGD ℝ) ℝ) (xs : Nat → I)
    (ys ps : Nat → List (FP M)) (qs : Nat → List ℝ) (hs : VStream fas xs ys ps)
    (hg : VStream gas xs (fun k => (ys k).map real) qs) (hm : (fas 0).nOutputs = m) (hm' : (gas 0).nOutputs = m)
    (hy : ∀ k, (ys k).length = m)
    (φ : Nat → Features (FP M)) (ψ : Nat → Features ℝ)
    (hφ : ∀ k, Basis.project (fas 0).basis (xs k) = .ok (.ok (φ k)) ∧ Fits n (φ k))
    (hψ : ∀ k, Basis.project (gas 0).basis (xs k) = .ok (.ok (ψ k)) ∧ Fits n (ψ k))
    (hv : ∀ k, ∀ i < n, value (ψ k) i = real (value (φ k) i))
    (hn : ∀ j < m, ((fas 0).weights.getD j []).length = n ∧ ((gas 0).weights.getD j []).length = n) (j : Nat) (hj : j < m)
    (hw : ∀ i < n, Bounded (2 ^ 100) (entry ((fas 0).weights.getD j []) i) ∧
      entry ((gas 0).weights.getD j []) i = real (entry ((fas 0).weights.getD j []) i))
    (hlr : Is (fas 0).optimiser.lr (gas 0).optimiser.lr) (l0 : 0 ≤ (gas 0).optimiser.lr) (l1 : (gas 0).optimiser.lr ≤ 2 ^ 100)
    (hmod : ∀ t, Moderate n k (φ t) (entry (ys t) j)) (D : ℝ)
    (hD : ∀ t, (gas 0).optimiser.lr / (1 + (gas 0).optimiser.lr * normSq (ψ t)) * √(normSq (ψ t)) * |real (entry (ys t) j)| ≤ D)
    (hD1 : D ≤ 2 ^ 190) (r : ℝ) (r0 : 0 ≤ r) (Lpos : 0 < L) (hr : Persistent n L (fun t => value (ψ t))
      (fun t => (gas 0).optimiser.lr / (1 + (gas 0).optimiser.lr * normSq (ψ t))) r)
    (hL : L * (12 * k + 25) * 2 ^ (-51 : ℤ) ≤ 1 - r) (W E : ℝ)
    (hW : W = 2 * len n (entry ((gas 0).weights.getD j [])) + 10 * L * D / (1 - r))
    (hE : E = 10 * L * ((12 * k + 25) * 2 ^ (-53 : ℤ) * (W + D) + 2 ^ (-500 : ℤ)) / (1 - r)) (t : Nat) :
    (∀ i < n, Spec.Finite (entry ((fas t).weights.getD j []) i)) ∧ Spec.Finite (entry (ps t) j) ∧ len n (entry ((gas t).weights.getD j [])) ≤ W ∧
    len n (fun i => real (entry ((fas t).weights.getD j []) i) - entry ((gas t).weights.getD j []) i) ≤ E ∧
    |real (entry (ps t) j) - entry (qs t) j| ≤ 3 * (√(normSq (ψ t)) * E) + 2 ^ (-1034 : ℤ) := by
  have run := fun t => (vector_trace C64_stateless.2 (fun o φ => o.computeLr φ) isgd_scaled hs hm hy (fun j hj => (hn j hj).1) hφ t).2 j hj
  have ho := exact_output C64_stateless.2 hg hm' hy hj
  have run' := isgd_trace ho (hn j hj).2 hψ
  exact isgd_shadow hM m n k L (fun t => (fas t).weights.getD j []) (fun t => (gas t).weights.getD j []) (fas 0).optimiser
    (gas 0).optimiser.lr (fun t => entry (ys t) j) (fun t => entry (ps t) j) (fun t => entry (qs t) j) φ ψ
    (fun t => (hφ t).2) (fun t => (hψ t).2) hv run (fun t => ⟨(run' t).1.2.2, (run' t).2.1⟩) (exact_isgd_trace ho (hn j hj).2 hψ)
    hw hlr l0 l1 hmod D hD hD1 r r0 Lpos hr hL W E hW hE t

/-- SGD for ever, on examples as in C180, where exact weights `v` fit the targets of output `j`. -/
theorem C184_sgd_fit (hM : M.rnd = binary64Format.rnd) (m n k L : Nat) (b : B) (lr : FP M) (l : ℝ) (hlr : Is lr l) (l0 : 0 ≤ l)
    (l1 : l ≤ 2 ^ 100) (xs : ι → I) (ys : ι → List (FP M)) (hy : ∀ i, (ys i).length = m) (φ : ι → Features (FP M))
    (hφ : ∀ i, Basis.project b (xs i) = .ok (.ok (φ i)) ∧ Fits n (φ i))
    (j : Nat) (hj : j < m) (hmod : ∀ i, Moderate n k (φ i) (entry (ys i) j))
    (h2 : ∀ i, l * ∑ e ∈ Finset.range n, real (value (φ i) e) ^ 2 ≤ 2)
    (v : Nat → ℝ) (hv : ∀ i, ∑ e ∈ Finset.range n, real (value (φ i) e) * v e = real (entry (ys i) j)) (hv1 : len n v ≤ 2 ^ 200)
    (r : ℝ) (r0 : 0 ≤ r) (hr : WindowFactor n L (fun i e => real (value (φ i) e)) (fun _ => l) r)
    (hL : L * (8 * k + 11) * 2 ^ (-51 : ℤ) ≤ 1 - r) (w : List (List (FP M)))
    (hm : w.length = m) (hn : ∀ j < m, (w.getD j []).length = n)
    (hw : ∀ i < n, Bounded (2 ^ 100) (entry (w.getD j []) i)) (σ : Nat → ι) (hσ : ∀ t i, ∃ d < L, σ (t + d) = i)
    (fas : Nat → VectorLFA B (SGD (FP M)) (FP M)) (ps : Nat → List (FP M))
    (hs : VStream fas (fun t => xs (σ t)) (fun t => ys (σ t)) ps) (h0 : fas 0 = LFA.mk b w ⟨lr⟩) (t : Nat) :
    (∀ i < n, Spec.Finite (entry ((fas t).weights.getD j []) i)) ∧ Spec.Finite (entry (ps t) j) ∧
    len n (fun i => real (entry ((fas t).weights.getD j []) i) - v i) ≤
      2 * ((1 + r) / 2) ^ (t / L) * len n (fun i => real (entry (w.getD j []) i) - v i) +
        10 * L * (3 * ((8 * k + 11) * 2 ^ (-53 : ℤ)) * len n v + 2 ^ (-800 : ℤ)) / (1 - r) ∧
    |real (entry (ps t) j) - real (entry (ys (σ t)) j)| ≤ len n (fun i => real (value (φ (σ t)) i)) *
      (2 * len n (fun i => real (entry ((fas t).weights.getD j []) i) - v i) + (8 * k + 11) * 2 ^ (-53 : ℤ) * len n v) +
        2 ^ (-1034 : ℤ) := by
  have run := fun t => (vector_trace C64_stateless.1 (fun o _ => o.lr) sgd_scaled hs (n := n) (φ := fun t => φ (σ t)) (by rw [h0]; exact hm)
    (fun t => hy (σ t)) (by rw [h0]; exact hn) (fun t => by rw [h0]; exact hφ (σ t)) t).2 j hj
  have ho : (fas 0).optimiser.lr = lr := by rw [h0]
  have := sgd_forever hM m n k L lr l hlr l0 l1 (fun i => entry (ys i) j) φ (fun i => (hφ i).2) hmod h2 v hv hv1 r r0 hr hL
    (fun t => (fas t).weights.getD j []) (fun i hi => by rw [h0]; exact hw i hi) σ hσ (fun t => entry (ps t) j)
    (fun t => ⟨(run t).1, (run t).2.1, by have := (run t).2.2; rwa [ho] at this⟩) t
  rwa [h0] at this

/-- ISGD for ever, on examples as in C180. -/
theorem C184_isgd_fit (hM : M.rnd = binary64Format.rnd) (m n k L : Nat) (b : B) (lr : FP M) (l : ℝ) (hlr : Is lr l) (l0 : 0 ≤ l)
    (l1 : l ≤ 2 ^ 100) (xs : ι → I) (ys : ι → List (FP M)) (hy : ∀ i, (ys i).length = m) (φ : ι → Features (FP M))
    (hφ : ∀ i, Basis.project b (xs i) = .ok (.ok (φ i)) ∧ Fits n (φ i))
    (j : Nat) (hj : j < m) (hmod : ∀ i, Moderate n k (φ i) (entry (ys i) j))
    (v : Nat → ℝ) (hv : ∀ i, ∑ e ∈ Finset.range n, real (value (φ i) e) * v e = real (entry (ys i) j)) (hv1 : len n v ≤ 2 ^ 200)
    (r : ℝ) (r0 : 0 ≤ r) (hr : WindowFactor n L (fun i e => real (value (φ i) e))
      (fun i => l / (1 + l * ∑ e ∈ Finset.range n, real (value (φ i) e) ^ 2)) r)
    (hL : L * (12 * k + 25) * 2 ^ (-51 : ℤ) ≤ 1 - r) (w : List (List (FP M)))
    (hm : w.length = m) (hn : ∀ j < m, (w.getD j []).length = n)
    (hw : ∀ i < n, Bounded (2 ^ 100) (entry (w.getD j []) i)) (σ : Nat → ι) (hσ : ∀ t i, ∃ d < L, σ (t + d) = i)
    (fas : Nat → VectorLFA B (ISGD (FP M)) (FP M)) (ps : Nat → List (FP M))
    (hs : VStream fas (fun t => xs (σ t)) (fun t => ys (σ t)) ps) (h0 : fas 0 = LFA.mk b w ⟨lr⟩) (t : Nat) :
    (∀ i < n, Spec.Finite (entry ((fas t).weights.getD j []) i)) ∧ Spec.Finite (entry (ps t) j) ∧
    len n (fun i => real (entry ((fas t).weights.getD j []) i) - v i) ≤
      2 * ((1 + r) / 2) ^ (t / L) * len n (fun i => real (entry (w.getD j []) i) - v i) +
        10 * L * (3 * ((12 * k + 25) * 2 ^ (-53 : ℤ)) * len n v + 2 ^ (-500 : ℤ)) / (1 - r) ∧
    |real (entry (ps t) j) - real (entry (ys (σ t)) j)| ≤ len n (fun i => real (value (φ (σ t)) i)) *
      (2 * len n (fun i => real (entry ((fas t).weights.getD j []) i) - v i) + (12 * k + 25) * 2 ^ (-53 : ℤ) * len n v) +
        2 ^ (-1034 : ℤ) := by
  have run := fun t => (vector_trace C64_stateless.2 (fun o φ => o.computeLr φ) isgd_scaled hs (n := n) (φ := fun t => φ (σ t)) (by rw [h0]; exact hm)
    (fun t => hy (σ t)) (by rw [h0]; exact hn) (fun t => by rw [h0]; exact hφ (σ t)) t).2 j hj
  have ho : (fas 0).optimiser = ⟨lr⟩ := by rw [h0]
  have := isgd_forever hM m n k L lr l hlr l0 l1 (fun i => entry (ys i) j) φ (fun i => (hφ i).2) hmod v hv hv1 r r0 hr hL
    (fun t => (fas t).weights.getD j []) (fun i hi => by rw [h0]; exact hw i hi) σ hσ (fun t => entry (ps t) j)
    (fun t => ⟨(run t).1, (run t).2.1, by have := (run t).2.2; rwa [ho] at this⟩) t
  rwa [h0] at this

end

/-- A vector approximator can be trained for ever, in any arithmetic. -/
theorem vstream_any {K B I O : Type} [Scalar K] [Space B] [Basis B I K] [Optimiser O K] [HasSize O] [Safe (K := K) O] (b : B)
    {n : Nat} (xs : Nat → I) (ys : Nat → List K) (hx : ∀ k, ∃ φ, Basis.project b (xs k) = .ok (.ok φ) ∧ Fits n φ)
    (w : List (List K)) (hw : ∀ c ∈ w, c.length = n) (o : O) (ho : HasSize.sized n o) :
    ∃ (fas : Nat → VectorLFA B O K) (ps : Nat → List K), VStream fas xs ys ps ∧ fas 0 = LFA.mk b w o := by
  let Good : VectorLFA B O K → Prop := fun fa => fa.basis = b ∧ (∀ c ∈ fa.weights, c.length = n) ∧ HasSize.sized n fa.optimiser
  have step : ∀ (k : Nat) (fa : {fa : VectorLFA B O K // Good fa}), ∃ fa' : {fa : VectorLFA B O K // Good fa},
      fa.1.updateWith (xs k) (fun _ vs => List.zipWith (· -. ·) (ys k) vs) = .ok (.ok (), fa'.1) ∧
      ∃ p, fa.1.evaluate (xs k) = .ok (.ok p) := by
    rintro k ⟨fa, rfl, h2, h3⟩
    obtain ⟨φ, hp, hf⟩ := hx k
    obtain ⟨vs, hd⟩ := matmul_safe hf h2
    obtain ⟨o', w', e1, e2, -, e4⟩ := stepColumns_safe (O := O) hf (List.zipWith (· -. ·) (ys k) vs) fa.weights fa.optimiser h2 h3
    refine ⟨⟨⟨fa.basis, w', o'⟩, rfl, e4, e2⟩, ?_, vs, ?_⟩
    · rw [vector_updateWith_eq hp, hd, P.ok_bind, vector_update_eq hp, e1]
      rfl
    · rw [vector_evaluate_eq hp, hd]
      rfl
  choose next hn hp using step
  let run : Nat → {fa : VectorLFA B O K // Good fa} := fun k =>
    Nat.rec ⟨⟨b, w, o⟩, rfl, hw, ho⟩ (fun k fa => next k fa) k
  choose p hp using hp
  exact ⟨fun k => (run k).1, fun k => p k (run k), ⟨fun k => hp k (run k), fun k => hn k (run k)⟩, rfl⟩

/-- The hypotheses are met: two outputs over the dense features `(1, 1)`, whose columns are not contiguous, any rate in `[0, 1]`, any
targets of at most `Y ≤ 2^90`. For `T ≤ 2^52 / 27` calls everything stays finite and the weights of both outputs stay within
`54 T² l Y 2^-52` of exact training, up to `T 2^-799`. -/
theorem C184_example (hM : M.rnd = binary64Format.rnd) (lr : FP M) (l : ℝ) (hl : Is lr l) (l0 : 0 ≤ l) (l1 : l ≤ 1)
    (ys : Nat → List (FP M)) (hm : ∀ t, (ys t).length = 2) (Y : ℝ) (hY : Y ≤ 2 ^ 90) (hy : ∀ t, ∀ j < 2, Bounded Y (entry (ys t) j)) :
    ∃ (fas : Nat → VectorLFA (FixedDense (FP M)) (SGD (FP M)) (FP M)) (gas : Nat → VectorLFA (FixedDense ℝ) (SGD ℝ) ℝ)
      (ps : Nat → List (FP M)) (qs : Nat → List ℝ),
      fas 0 = LFA.mk ⟨[Scalar.one, Scalar.one]⟩ [[Scalar.zero, Scalar.zero], [Scalar.zero, Scalar.zero]] ⟨lr⟩ ∧
      gas 0 = LFA.mk ⟨[1, 1]⟩ [[0, 0], [0, 0]] ⟨l⟩ ∧
      VStream fas (fun _ => ()) ys ps ∧ VStream gas (fun _ => ()) (fun t => (ys t).map real) qs ∧
      ∀ j < 2, ∀ T : Nat, 27 * T ≤ 2 ^ 52 → (∀ i < 2, Spec.Finite (entry ((fas T).weights.getD j []) i)) ∧
        len 2 (fun i => real (entry ((fas T).weights.getD j []) i) - entry ((gas T).weights.getD j []) i) ≤
          27 * T * 2 ^ (-52 : ℤ) * (T * (2 * l * Y)) + T * 2 ^ (-799 : ℤ) := by
  have hp : Basis.project (⟨[Scalar.one, Scalar.one]⟩ : FixedDense (FP M)) () =
      .ok (.ok (.dense [(Scalar.one : FP M), Scalar.one])) := rfl
  have hpr : Basis.project (⟨[1, 1]⟩ : FixedDense ℝ) () = .ok (.ok (.dense [(1 : ℝ), 1])) := rfl
  have hf : Fits 2 (.dense [(Scalar.one : FP M), Scalar.one]) := ⟨trivial, rfl⟩
  have hf' : Fits 2 (.dense [(1 : ℝ), 1]) := ⟨trivial, rfl⟩
  obtain ⟨fas, ps, hs, h0⟩ := vstream_any (O := SGD (FP M)) (⟨[Scalar.one, Scalar.one]⟩ : FixedDense (FP M)) (n := 2) (fun _ => ()) ys
    (fun _ => ⟨_, hp, hf⟩) [[Scalar.zero, Scalar.zero], [Scalar.zero, Scalar.zero]] (by simp) ⟨lr⟩ trivial
  obtain ⟨gas, qs, hg, g0⟩ := vstream_any (O := SGD ℝ) (⟨[1, 1]⟩ : FixedDense ℝ) (n := 2) (fun _ => ()) (fun t => (ys t).map real)
    (fun _ => ⟨_, hpr, hf'⟩) [[0, 0], [0, 0]] (by simp) ⟨l⟩ trivial
  have Y0 : 0 ≤ Y := by
    obtain ⟨r, -, h⟩ := hy 0 0 two_pos
    exact (abs_nonneg r).trans h
  have hN : normSq (.dense [(1 : ℝ), 1]) = 2 := by
    rw [normSq]
    show ∑ i ∈ Finset.range 2, _ = _
    rw [Finset.sum_range_succ, Finset.sum_range_one]
    show (1 : ℝ) * 1 + 1 * 1 = 2
    norm_num
  have hsq : √(2 : ℝ) ≤ 2 := by
    rw [Real.sqrt_le_left (by norm_num)]; norm_num
  have hw : ∀ j < 2, ([[(Scalar.zero : FP M), Scalar.zero], [Scalar.zero, Scalar.zero]] : List (List (FP M))).getD j [] =
      [Scalar.zero, Scalar.zero] ∧ ([[(0 : ℝ), 0], [0, 0]] : List (List ℝ)).getD j [] = [0, 0] := by
    intro j hj
    interval_cases j <;> exact ⟨rfl, rfl⟩
  have he : ∀ i < 2, entry [(Scalar.zero : FP M), Scalar.zero] i = Scalar.zero ∧ entry [(0 : ℝ), 0] i = 0 := by
    intro i hi
    interval_cases i <;> exact ⟨rfl, rfl⟩
  refine ⟨fas, gas, ps, qs, h0, g0, hs, hg, fun j hj T hT => ?_⟩
  obtain ⟨r1, -, r3, -⟩ := C184_sgd hM 2 2 2 fas gas (fun _ => ()) ys ps qs hs hg (by rw [h0]; rfl) (by rw [g0]; rfl) hm
    (fun _ => .dense [(Scalar.one : FP M), Scalar.one]) (fun _ => .dense [(1 : ℝ), 1]) (fun _ => ⟨by rw [h0]; exact hp, hf⟩)
    (fun _ => ⟨by rw [g0]; exact hpr, hf'⟩)
    (fun _ i hi => by
      have e : (1 : ℝ) = real (Scalar.one : FP M) := (is_real val_one).symm
      interval_cases i <;> exact e)
    (fun j hj => by
      rw [h0, g0]
      exact ⟨congrArg List.length (hw j hj).1, congrArg List.length (hw j hj).2⟩) j hj
    (fun i hi => by
      rw [h0, g0]
      show Bounded _ (entry (List.getD _ _ _) i) ∧ entry (List.getD _ _ _) i = real (entry (List.getD _ _ _) i)
      rw [(hw j hj).1, (hw j hj).2, (he i hi).1, (he i hi).2]
      exact ⟨bounded_zero (by positivity), real_zero'.symm⟩)
    (by rw [h0, g0]; exact hl) (by rw [g0]; exact l0) (by rw [g0]; exact l1.trans (one_le_pow₀ (by norm_num)))
    (fun _ => by rw [g0, hN]; show l * 2 ≤ 2; linarith)
    (fun t => ⟨by norm_num, ⟨le_rfl, by norm_num⟩, fun i x hx => by
      have hx : [(Scalar.one : FP M), Scalar.one][i]? = some x := hx
      have hi : i < 2 := by
        by_contra h
        rw [List.getElem?_eq_none (by simp only [List.length_cons, List.length_nil]; omega)] at hx
        cases hx
      have e : x = Scalar.one := by
        interval_cases i <;> exact (Option.some.inj hx).symm
      rw [e]
      exact ⟨1, val_one, by rw [abs_one]; exact one_le_pow₀ (by norm_num)⟩,
      bounded_mono (hy t j hj) (hY.trans (pow_le_pow_right₀ (by norm_num) (by norm_num)))⟩)
    (2 * l * Y) (fun t => by
      obtain ⟨r, hr, h1⟩ := hy t j hj
      rw [g0, hN, is_real hr]
      show l * √2 * |r| ≤ _
      have h2 := mul_le_mul (mul_le_mul_of_nonneg_left hsq l0) h1 (abs_nonneg r) (by positivity)
      linarith)
    (by
      have h1 : 2 * l * Y ≤ 2 * 1 * 2 ^ 90 := mul_le_mul (by linarith) hY Y0 (by norm_num)
      exact h1.trans (by norm_num)) T (by omega)
  refine ⟨r1, ?_⟩
  have e : len 2 (fun i => real (entry ((fas 0).weights.getD j []) i)) = 0 := by
    rw [← len_const 2 0 le_rfl |>.trans (mul_zero _)]
    refine len_congr fun i hi => ?_
    rw [h0]
    show real (entry (List.getD _ _ _) i) = 0
    rw [(hw j hj).1, (he i hi).1]
    exact real_zero'
  rw [e, zero_add] at r3
  refine r3.trans (le_of_eq ?_)
  push_cast
  ring

end Lfa

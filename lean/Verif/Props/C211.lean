import Verif.Props.C192
import Verif.Props.C209

/-!
# C211: several outputs in double precision forget their start and track moving targets

C192 for vector approximators, output by output.
-/

set_option linter.unusedSectionVars false

namespace Lfa

open Spec Machine XReal

variable {M : Machine}

noncomputable section

section Runs
variable {B I : Type} [Space B] [Basis B I (FP M)]

/-- SGD under the conditions of C181 for the targets of output `j`, each hash map iterating in any order at each call, against any moving weights `ref` that drift by
`‖ref (t+1) - ref t‖` in a call and miss the target by `|y - ⟨φ, ref⟩|`, together at most `β`. -/
theorem C211_sgd (hM : M.rnd = binary64Format.rnd) (m n k L : Nat) (fas : Nat → VectorLFA B (SGD (FP M)) (FP M)) (xs : Nat → I)
    (ys : Nat → List (FP M)) (hs : ∀ t, CanUpdateAll (fas t) (xs t) (List.zipWith (· -. ·) (ys t)) (fas (t + 1)))
    (hm : (fas 0).nOutputs = m) (hy : ∀ t, (ys t).length = m)
    (φ : Nat → Features (FP M)) (hφ : ∀ t, Basis.project (fas 0).basis (xs t) = .ok (.ok (φ t)) ∧ Fits n (φ t))
    (hn : ∀ j < m, ((fas 0).weights.getD j []).length = n) (j : Nat) (hj : j < m)
    (hw : ∀ i < n, Bounded (2 ^ 100) (entry ((fas 0).weights.getD j []) i))
    (l : ℝ) (hlr : Is (fas 0).optimiser.lr l) (l0 : 0 ≤ l) (l1 : l ≤ 2 ^ 100)
    (h2 : ∀ t, l * ∑ i ∈ Finset.range n, real (value (φ t) i) ^ 2 ≤ 2) (hmod : ∀ t, Moderate n k (φ t) (entry (ys t) j))
    (D : ℝ) (hD : ∀ t, l * len n (fun i => real (value (φ t) i)) * |real (entry (ys t) j)| ≤ D) (hD1 : D ≤ 2 ^ 190)
    (r : ℝ) (r0 : 0 ≤ r) (Lpos : 0 < L) (hr : Persistent n L (fun t i => real (value (φ t) i)) (fun _ => l) r)
    (hL : L * (8 * k + 11) * 2 ^ (-51 : ℤ) ≤ 1 - r) (ref : Nat → Nat → ℝ) (β : ℝ)
    (hβ : ∀ t, len n (fun i => ref (t + 1) i - ref t i) + l * len n (fun i => real (value (φ t) i)) *
      |real (entry (ys t) j) - ∑ i ∈ Finset.range n, real (value (φ t) i) * ref t i| ≤ β) (W E : ℝ)
    (hW : W = 2 * len n (fun i => real (entry ((fas 0).weights.getD j []) i)) + 10 * L * D / (1 - r))
    (hE : E = 10 * L * ((8 * k + 11) * 2 ^ (-53 : ℤ) * (W + D) + 2 ^ (-800 : ℤ)) / (1 - r)) (t : Nat) :
    (∀ i < n, Spec.Finite (entry ((fas t).weights.getD j []) i)) ∧
    len n (fun i => real (entry ((fas t).weights.getD j []) i) - ref t i) ≤
      r ^ (t / L) * len n (fun i => real (entry ((fas 0).weights.getD j []) i) - ref 0 i) + 2 * (L * β) / (1 - r) + E ∧
    ∀ (x : I) (χ : Features (FP M)) (y v : FP M), Basis.project (fas 0).basis x = .ok (.ok χ) → Fits n χ → Moderate n k χ y →
      CanEvaluateAt (fas t) x j v → Spec.Finite v ∧
        |real v - ∑ i ∈ Finset.range n, real (value χ i) * ref t i| ≤ len n (fun i => real (value χ i)) *
          (r ^ (t / L) * len n (fun i => real (entry ((fas 0).weights.getD j []) i) - ref 0 i) + 2 * (L * β) / (1 - r)) +
          (3 * (len n (fun i => real (value χ i)) * E) + 2 ^ (-1034 : ℤ)) := by
  obtain ⟨us, hus, u0⟩ : ∃ us, ExactRun n (fun _ => l) (fun t i => real (value (φ t) i)) (fun t => real (entry (ys t) j)) us ∧
      us 0 = fun i => real (entry ((fas 0).weights.getD j []) i) := ⟨_, exactWeights_run n (fun _ => l) _ _ _, rfl⟩
  obtain ⟨a1, -, a3, a4⟩ := C209_sgd hM m n k L fas xs ys hs hm hy φ hφ hn j hj hw l hlr l0 l1 h2 hmod D hD hD1 r r0 Lpos hr hL us hus
    (fun _ _ => by rw [u0]) W E (by rw [u0]; exact hW) hE t
  have L1 : (0 : ℝ) < L := by exact_mod_cast Lpos
  have r1 : r < 1 := by linarith [mul_pos (mul_pos L1 (by positivity : (0 : ℝ) < 8 * k + 11)) (by positivity : (0 : ℝ) < 2 ^ (-51 : ℤ))]
  have h := driven_exact (fun _ => l0) h2 r0 r1 Lpos hr hus (ref := ref) (fun t => (residual_le n l0 _ _ _ _).trans (hβ t)) t
  have h3 := len_add_le n (fun i => real (entry ((fas t).weights.getD j []) i) - us t i) (fun i => us t i - ref t i)
  simp only [sub_add_sub_cancel] at h3
  rw [u0] at h
  exact ⟨a1, h3.trans ((add_le_add a3 h).trans (le_of_eq (add_comm _ _))), fun x χ y v hp hf hm he =>
    ⟨(a4 x χ y v hp hf hm he).1, predict_near (a4 x χ y v hp hf hm he).2 h⟩⟩

/-- The same for ISGD. -/
theorem C211_isgd (hM : M.rnd = binary64Format.rnd) (m n k L : Nat) (fas : Nat → VectorLFA B (ISGD (FP M)) (FP M)) (xs : Nat → I)
    (ys : Nat → List (FP M)) (hs : ∀ t, CanUpdateAll (fas t) (xs t) (List.zipWith (· -. ·) (ys t)) (fas (t + 1)))
    (hm : (fas 0).nOutputs = m) (hy : ∀ t, (ys t).length = m)
    (φ : Nat → Features (FP M)) (hφ : ∀ t, Basis.project (fas 0).basis (xs t) = .ok (.ok (φ t)) ∧ Fits n (φ t))
    (hn : ∀ j < m, ((fas 0).weights.getD j []).length = n) (j : Nat) (hj : j < m)
    (hw : ∀ i < n, Bounded (2 ^ 100) (entry ((fas 0).weights.getD j []) i))
    (l : ℝ) (hlr : Is (fas 0).optimiser.lr l) (l0 : 0 ≤ l) (l1 : l ≤ 2 ^ 100) (c : Nat → ℝ)
    (hc : ∀ t, c t = l / (1 + l * ∑ i ∈ Finset.range n, real (value (φ t) i) ^ 2)) (hmod : ∀ t, Moderate n k (φ t) (entry (ys t) j))
    (D : ℝ) (hD : ∀ t, c t * len n (fun i => real (value (φ t) i)) * |real (entry (ys t) j)| ≤ D) (hD1 : D ≤ 2 ^ 190)
    (r : ℝ) (r0 : 0 ≤ r) (Lpos : 0 < L) (hr : Persistent n L (fun t i => real (value (φ t) i)) c r)
    (hL : L * (12 * k + 25) * 2 ^ (-51 : ℤ) ≤ 1 - r) (ref : Nat → Nat → ℝ) (β : ℝ)
    (hβ : ∀ t, len n (fun i => ref (t + 1) i - ref t i) + c t * len n (fun i => real (value (φ t) i)) *
      |real (entry (ys t) j) - ∑ i ∈ Finset.range n, real (value (φ t) i) * ref t i| ≤ β) (W E : ℝ)
    (hW : W = 2 * len n (fun i => real (entry ((fas 0).weights.getD j []) i)) + 10 * L * D / (1 - r))
    (hE : E = 10 * L * ((12 * k + 25) * 2 ^ (-53 : ℤ) * (W + D) + 2 ^ (-500 : ℤ)) / (1 - r)) (t : Nat) :
    (∀ i < n, Spec.Finite (entry ((fas t).weights.getD j []) i)) ∧
    len n (fun i => real (entry ((fas t).weights.getD j []) i) - ref t i) ≤
      r ^ (t / L) * len n (fun i => real (entry ((fas 0).weights.getD j []) i) - ref 0 i) + 2 * (L * β) / (1 - r) + E ∧
    ∀ (x : I) (χ : Features (FP M)) (y v : FP M), Basis.project (fas 0).basis x = .ok (.ok χ) → Fits n χ → Moderate n k χ y →
      CanEvaluateAt (fas t) x j v → Spec.Finite v ∧
        |real v - ∑ i ∈ Finset.range n, real (value χ i) * ref t i| ≤ len n (fun i => real (value χ i)) *
          (r ^ (t / L) * len n (fun i => real (entry ((fas 0).weights.getD j []) i) - ref 0 i) + 2 * (L * β) / (1 - r)) +
          (3 * (len n (fun i => real (value χ i)) * E) + 2 ^ (-1034 : ℤ)) := by
  obtain ⟨us, hus, u0⟩ : ∃ us, ExactRun n c (fun t i => real (value (φ t) i)) (fun t => real (entry (ys t) j)) us ∧
      us 0 = fun i => real (entry ((fas 0).weights.getD j []) i) := ⟨_, exactWeights_run n c _ _ _, rfl⟩
  obtain ⟨a1, -, a3, a4⟩ := C209_isgd hM m n k L fas xs ys hs hm hy φ hφ hn j hj hw l hlr l0 l1 c hc hmod D hD hD1 r r0 Lpos hr hL us hus
    (fun _ _ => by rw [u0]) W E (by rw [u0]; exact hW) hE t
  have L1 : (0 : ℝ) < L := by exact_mod_cast Lpos
  have r1 : r < 1 := by linarith [mul_pos (mul_pos L1 (by positivity : (0 : ℝ) < 12 * k + 25)) (by positivity : (0 : ℝ) < 2 ^ (-51 : ℤ))]
  have S0 : ∀ t, 0 ≤ ∑ i ∈ Finset.range n, real (value (φ t) i) ^ 2 := fun t => Finset.sum_nonneg fun _ _ => sq_nonneg _
  have p : ∀ t, 0 < 1 + l * ∑ i ∈ Finset.range n, real (value (φ t) i) ^ 2 := fun t => by
    have := mul_nonneg l0 (S0 t)
    linarith
  have c0 : ∀ t, 0 ≤ c t := fun t => by rw [hc]; exact div_nonneg l0 (p t).le
  have h2 : ∀ t, c t * ∑ i ∈ Finset.range n, real (value (φ t) i) ^ 2 ≤ 2 := fun t => by
    rw [hc, div_mul_eq_mul_div, div_le_iff₀ (p t)]
    have := mul_nonneg l0 (S0 t)
    linarith
  have h := driven_exact c0 h2 r0 r1 Lpos hr hus (ref := ref) (fun t => (residual_le n (c0 t) _ _ _ _).trans (hβ t)) t
  have h3 := len_add_le n (fun i => real (entry ((fas t).weights.getD j []) i) - us t i) (fun i => us t i - ref t i)
  simp only [sub_add_sub_cancel] at h3
  rw [u0] at h
  exact ⟨a1, h3.trans ((add_le_add a3 h).trans (le_of_eq (add_comm _ _))), fun x χ y v hp hf hm he =>
    ⟨(a4 x χ y v hp hf hm he).1, predict_near (a4 x χ y v hp hf hm he).2 h⟩⟩

/-- One output of two runs of SGD on the same stream from different weights, each hash map iterating in its own order at each call: what the start
leaves of their difference falls by `r` in every `L` calls, down to the rounding terms of the two. -/
theorem C211_sgd_forgets (hM : M.rnd = binary64Format.rnd) (m n k L : Nat) (fas gas : Nat → VectorLFA B (SGD (FP M)) (FP M)) (xs : Nat → I)
    (ys : Nat → List (FP M)) (hs : ∀ t, CanUpdateAll (fas t) (xs t) (List.zipWith (· -. ·) (ys t)) (fas (t + 1)))
    (hg : ∀ t, CanUpdateAll (gas t) (xs t) (List.zipWith (· -. ·) (ys t)) (gas (t + 1)))
    (hm : (fas 0).nOutputs = m ∧ (gas 0).nOutputs = m) (hy : ∀ t, (ys t).length = m)
    (φ : Nat → Features (FP M)) (hφ : ∀ t, Basis.project (fas 0).basis (xs t) = .ok (.ok (φ t)) ∧ Fits n (φ t))
    (hb : (gas 0).basis = (fas 0).basis) (ho : (gas 0).optimiser = (fas 0).optimiser)
    (hn : ∀ j < m, ((fas 0).weights.getD j []).length = n ∧ ((gas 0).weights.getD j []).length = n) (j : Nat) (hj : j < m)
    (hw : ∀ i < n, Bounded (2 ^ 100) (entry ((fas 0).weights.getD j []) i) ∧ Bounded (2 ^ 100) (entry ((gas 0).weights.getD j []) i))
    (l : ℝ) (hlr : Is (fas 0).optimiser.lr l) (l0 : 0 ≤ l) (l1 : l ≤ 2 ^ 100)
    (h2 : ∀ t, l * ∑ i ∈ Finset.range n, real (value (φ t) i) ^ 2 ≤ 2) (hmod : ∀ t, Moderate n k (φ t) (entry (ys t) j))
    (D : ℝ) (hD : ∀ t, l * len n (fun i => real (value (φ t) i)) * |real (entry (ys t) j)| ≤ D) (hD1 : D ≤ 2 ^ 190)
    (r : ℝ) (r0 : 0 ≤ r) (Lpos : 0 < L) (hr : Persistent n L (fun t i => real (value (φ t) i)) (fun _ => l) r)
    (hL : L * (8 * k + 11) * 2 ^ (-51 : ℤ) ≤ 1 - r) (E : ℝ → ℝ)
    (hE : ∀ N, E N = 10 * L * ((8 * k + 11) * 2 ^ (-53 : ℤ) * (2 * N + 10 * L * D / (1 - r) + D) + 2 ^ (-800 : ℤ)) / (1 - r)) (t : Nat) :
    len n (fun i => real (entry ((fas t).weights.getD j []) i) - real (entry ((gas t).weights.getD j []) i)) ≤
      r ^ (t / L) * len n (fun i => real (entry ((fas 0).weights.getD j []) i) - real (entry ((gas 0).weights.getD j []) i)) +
        E (len n fun i => real (entry ((fas 0).weights.getD j []) i)) + E (len n fun i => real (entry ((gas 0).weights.getD j []) i)) := by
  obtain ⟨us, hus, u0⟩ : ∃ us, ExactRun n (fun _ => l) (fun t i => real (value (φ t) i)) (fun t => real (entry (ys t) j)) us ∧
      us 0 = fun i => real (entry ((fas 0).weights.getD j []) i) := ⟨_, exactWeights_run n (fun _ => l) _ _ _, rfl⟩
  obtain ⟨vs, hvs, v0⟩ : ∃ us, ExactRun n (fun _ => l) (fun t i => real (value (φ t) i)) (fun t => real (entry (ys t) j)) us ∧
      us 0 = fun i => real (entry ((gas 0).weights.getD j []) i) := ⟨_, exactWeights_run n (fun _ => l) _ _ _, rfl⟩
  obtain ⟨-, -, a3, -⟩ := C209_sgd hM m n k L fas xs ys hs hm.1 hy φ hφ (fun j hj => (hn j hj).1) j hj (fun i hi => (hw i hi).1) l hlr l0 l1 h2 hmod D hD hD1 r r0 Lpos hr hL
    us hus (fun _ _ => by rw [u0]) _ _ (by rw [u0]) (hE _) t
  obtain ⟨-, -, b3, -⟩ := C209_sgd hM m n k L gas xs ys hg hm.2 hy φ (by rw [hb]; exact hφ) (fun j hj => (hn j hj).2) j hj (fun i hi => (hw i hi).2) l (by rw [ho]; exact hlr) l0 l1 h2 hmod
    D hD hD1 r r0 Lpos hr hL vs hvs (fun _ _ => by rw [v0]) _ _ (by rw [v0]) (hE _) t
  have L1 : (0 : ℝ) < L := by exact_mod_cast Lpos
  have r1 : r < 1 := by linarith [mul_pos (mul_pos L1 (by positivity : (0 : ℝ) < 8 * k + 11)) (by positivity : (0 : ℝ) < 2 ^ (-51 : ℤ))]
  have h := driven_exact (fun _ => l0) h2 r0 r1 Lpos hr hus (ref := vs) (β := 0) (fun t => by
    rw [len_congr (g := fun _ => 0) fun i hi => by rw [hvs t i hi, sub_self], len_const n 0 le_rfl, mul_zero]) t
  rw [mul_zero, mul_zero, zero_div, add_zero, u0, v0] at h
  exact len_three a3 h b3

/-- The same for ISGD. -/
theorem C211_isgd_forgets (hM : M.rnd = binary64Format.rnd) (m n k L : Nat) (fas gas : Nat → VectorLFA B (ISGD (FP M)) (FP M)) (xs : Nat → I)
    (ys : Nat → List (FP M)) (hs : ∀ t, CanUpdateAll (fas t) (xs t) (List.zipWith (· -. ·) (ys t)) (fas (t + 1)))
    (hg : ∀ t, CanUpdateAll (gas t) (xs t) (List.zipWith (· -. ·) (ys t)) (gas (t + 1)))
    (hm : (fas 0).nOutputs = m ∧ (gas 0).nOutputs = m) (hy : ∀ t, (ys t).length = m)
    (φ : Nat → Features (FP M)) (hφ : ∀ t, Basis.project (fas 0).basis (xs t) = .ok (.ok (φ t)) ∧ Fits n (φ t))
    (hb : (gas 0).basis = (fas 0).basis) (ho : (gas 0).optimiser = (fas 0).optimiser)
    (hn : ∀ j < m, ((fas 0).weights.getD j []).length = n ∧ ((gas 0).weights.getD j []).length = n) (j : Nat) (hj : j < m)
    (hw : ∀ i < n, Bounded (2 ^ 100) (entry ((fas 0).weights.getD j []) i) ∧ Bounded (2 ^ 100) (entry ((gas 0).weights.getD j []) i))
    (l : ℝ) (hlr : Is (fas 0).optimiser.lr l) (l0 : 0 ≤ l) (l1 : l ≤ 2 ^ 100) (c : Nat → ℝ)
    (hc : ∀ t, c t = l / (1 + l * ∑ i ∈ Finset.range n, real (value (φ t) i) ^ 2)) (hmod : ∀ t, Moderate n k (φ t) (entry (ys t) j))
    (D : ℝ) (hD : ∀ t, c t * len n (fun i => real (value (φ t) i)) * |real (entry (ys t) j)| ≤ D) (hD1 : D ≤ 2 ^ 190)
    (r : ℝ) (r0 : 0 ≤ r) (Lpos : 0 < L) (hr : Persistent n L (fun t i => real (value (φ t) i)) c r)
    (hL : L * (12 * k + 25) * 2 ^ (-51 : ℤ) ≤ 1 - r) (E : ℝ → ℝ)
    (hE : ∀ N, E N = 10 * L * ((12 * k + 25) * 2 ^ (-53 : ℤ) * (2 * N + 10 * L * D / (1 - r) + D) + 2 ^ (-500 : ℤ)) / (1 - r)) (t : Nat) :
    len n (fun i => real (entry ((fas t).weights.getD j []) i) - real (entry ((gas t).weights.getD j []) i)) ≤
      r ^ (t / L) * len n (fun i => real (entry ((fas 0).weights.getD j []) i) - real (entry ((gas 0).weights.getD j []) i)) +
        E (len n fun i => real (entry ((fas 0).weights.getD j []) i)) + E (len n fun i => real (entry ((gas 0).weights.getD j []) i)) := by
  obtain ⟨us, hus, u0⟩ : ∃ us, ExactRun n c (fun t i => real (value (φ t) i)) (fun t => real (entry (ys t) j)) us ∧
      us 0 = fun i => real (entry ((fas 0).weights.getD j []) i) := ⟨_, exactWeights_run n c _ _ _, rfl⟩
  obtain ⟨vs, hvs, v0⟩ : ∃ us, ExactRun n c (fun t i => real (value (φ t) i)) (fun t => real (entry (ys t) j)) us ∧
      us 0 = fun i => real (entry ((gas 0).weights.getD j []) i) := ⟨_, exactWeights_run n c _ _ _, rfl⟩
  obtain ⟨-, -, a3, -⟩ := C209_isgd hM m n k L fas xs ys hs hm.1 hy φ hφ (fun j hj => (hn j hj).1) j hj (fun i hi => (hw i hi).1) l hlr l0 l1 c hc hmod D hD hD1 r r0 Lpos hr hL
    us hus (fun _ _ => by rw [u0]) _ _ (by rw [u0]) (hE _) t
  obtain ⟨-, -, b3, -⟩ := C209_isgd hM m n k L gas xs ys hg hm.2 hy φ (by rw [hb]; exact hφ) (fun j hj => (hn j hj).2) j hj (fun i hi => (hw i hi).2) l (by rw [ho]; exact hlr) l0 l1 c hc hmod
    D hD hD1 r r0 Lpos hr hL vs hvs (fun _ _ => by rw [v0]) _ _ (by rw [v0]) (hE _) t
  have L1 : (0 : ℝ) < L := by exact_mod_cast Lpos
  have r1 : r < 1 := by linarith [mul_pos (mul_pos L1 (by positivity : (0 : ℝ) < 12 * k + 25)) (by positivity : (0 : ℝ) < 2 ^ (-51 : ℤ))]
  have S0 : ∀ t, 0 ≤ ∑ i ∈ Finset.range n, real (value (φ t) i) ^ 2 := fun t => Finset.sum_nonneg fun _ _ => sq_nonneg _
  have p : ∀ t, 0 < 1 + l * ∑ i ∈ Finset.range n, real (value (φ t) i) ^ 2 := fun t => by
    have := mul_nonneg l0 (S0 t)
    linarith
  have c0 : ∀ t, 0 ≤ c t := fun t => by rw [hc]; exact div_nonneg l0 (p t).le
  have h2 : ∀ t, c t * ∑ i ∈ Finset.range n, real (value (φ t) i) ^ 2 ≤ 2 := fun t => by
    rw [hc, div_mul_eq_mul_div, div_le_iff₀ (p t)]
    have := mul_nonneg l0 (S0 t)
    linarith
  have h := driven_exact c0 h2 r0 r1 Lpos hr hus (ref := vs) (β := 0) (fun t => by
    rw [len_congr (g := fun _ => 0) fun i hi => by rw [hvs t i hi, sub_self], len_const n 0 le_rfl, mul_zero]) t
  rw [mul_zero, mul_zero, zero_div, add_zero, u0, v0] at h
  exact len_three a3 h b3

end Runs

section Example

/-- The hypotheses are met: two outputs over the basis of `C188_example`, rate `1/4`, targets and initial weights up to `Y ≤ 2^100`, and
weights `ref` that drift by at most `δ` in a call and miss the targets of output `j` by at most `σ`. There are such runs, and in all of them
output `j` tracks `ref`. -/
theorem C211_example (hM : M.rnd = binary64Format.rnd) (lr : FP M) (hl : Is lr (1 / 4)) (ys : Nat → List (FP M))
    (hm : ∀ t, (ys t).length = 2) (Y : ℝ) (hY : Y ≤ 2 ^ 100) (w : List (List (FP M))) (hw2 : w.length = 2)
    (hn : ∀ c ∈ w, c.length = 3) (j : Nat) (hj : j < 2) (hy : ∀ t, Bounded Y (entry (ys t) j))
    (hw : ∀ i < 3, Bounded Y (entry (w.getD j []) i))
    (ref : Nat → Nat → ℝ) (δ σ : ℝ) (hδ : ∀ t, len 3 (fun i => ref (t + 1) i - ref t i) ≤ δ)
    (hσ : ∀ t, |real (entry (ys t) j) - ∑ i ∈ Finset.range 3, real (value (turnFeatures (FP M) t) i) * ref t i| ≤ σ) :
    let Run := fun fas : Nat → VectorLFA (Closure Nat (FP M)) (SGD (FP M)) (FP M) =>
      fas 0 = LFA.mk (inTurns (FP M)) w ⟨lr⟩ ∧
      ∀ t, CanUpdateAll (fas t) t (List.zipWith (· -. ·) (ys t)) (fas (t + 1))
    (∃ fas, Run fas) ∧ ∀ fas, Run fas → ∀ t,
      len 3 (fun i => real (entry ((fas t).weights.getD j []) i) - ref t i) ≤
        (127 / 128) ^ (t / 4) * len 3 (fun i => real (entry (w.getD j []) i) - ref 0 i) + 1024 * δ + 512 * σ +
          (2 ^ (-24 : ℤ) * Y + 2 ^ (-787 : ℤ)) := by
  intro Run
  have Y0 : 0 ≤ Y := by
    obtain ⟨r, -, h⟩ := hy 0
    exact (abs_nonneg r).trans h
  have col : ∀ j < 2, (w.getD j []).length = 3 := fun j hj =>
    hn _ (List.mem_of_getElem? (getElem?_getD [] (by rw [hw2]; exact hj)))
  refine ⟨?_, ?_⟩
  · obtain ⟨fas, ps, hs, h0⟩ := vstream_any (O := SGD (FP M)) (inTurns (FP M)) (n := 3) (fun t => t) ys
      (fun t => ⟨_, rfl, turn_fits (FP M) t⟩) w hn ⟨lr⟩ trivial
    exact ⟨fas, h0, fun t => C209_update (hs.updates t)⟩
  · rintro fas ⟨f0, hf⟩ t
    have two : ∀ t, len 3 (fun i => real (value (turnFeatures (FP M) t) i)) ≤ 2 := fun t => by
      refine abs_le_of_sq_le_sq' ?_ (by norm_num) |>.2
      rw [len_sq]
      linarith [turn_sq (M := M) t]
    have W0 : len 3 (fun i => real (entry (w.getD j []) i)) ≤ 2 * Y := by
      refine abs_le_of_sq_le_sq' ?_ (by linarith) |>.2
      rw [len_sq]
      have : ∀ i ∈ Finset.range 3, real (entry (w.getD j []) i) ^ 2 ≤ Y ^ 2 := fun i hi => by
        obtain ⟨r, hr, h⟩ := hw i (Finset.mem_range.1 hi)
        rw [is_real hr]
        exact sq_le_sq' (abs_le.1 h).1 (abs_le.1 h).2
      refine (Finset.sum_le_sum this).trans ?_
      simp only [Finset.sum_const, Finset.card_range, nsmul_eq_mul]
      push_cast
      nlinarith [sq_nonneg Y]
    obtain ⟨-, h, -⟩ := C211_sgd hM 2 3 3 4 fas (fun t => t) ys hf (by rw [f0]; exact hw2) hm (turnFeatures (FP M))
      (fun t => ⟨by rw [f0]; rfl, turn_fits _ t⟩) (by rw [f0]; exact col) j hj
      (by rw [f0]; exact fun i hi => bounded_mono (hw i hi) hY)
      (1 / 4) (by rw [f0]; exact hl) (by norm_num)
      ((by norm_num : (1 / 4 : ℝ) ≤ 1).trans (one_le_pow₀ (by norm_num))) (fun t => by linarith [turn_sq (M := M) t])
      (fun t => turn_moderate t hY (hy t)) (1 / 2 * Y) (fun t => turn_len t (hy t))
      (by
        have : (2 : ℝ) ^ 100 ≤ 2 ^ 190 := pow_le_pow_right₀ (by norm_num) (by norm_num)
        linarith) (127 / 128) (by norm_num) (by norm_num) turn_persistent (by norm_num) ref (δ + 1 / 2 * σ)
      (fun t => add_le_add (hδ t) (mul_le_mul (by linarith [two t]) (hσ t) (abs_nonneg _) (by norm_num))) _ _ rfl rfl t
    refine h.trans ?_
    rw [f0]
    have e1 : (2 : ℝ) ^ (-24 : ℤ) = 2 ^ 29 * 2 ^ (-53 : ℤ) := by norm_num
    have e2 : (2 : ℝ) ^ (-787 : ℤ) = 2 ^ 13 * 2 ^ (-800 : ℤ) := by
      rw [show (-787 : ℤ) = 13 + -800 by norm_num, zpow_add₀ (by norm_num)]
      norm_num
    rw [e1, e2]
    have p1 : (0 : ℝ) ≤ 2 ^ (-53 : ℤ) * Y := by positivity
    have p2 : (0 : ℝ) ≤ 2 ^ (-800 : ℤ) := by positivity
    have p3 := mul_le_mul_of_nonneg_left W0 (by positivity : (0 : ℝ) ≤ 2 ^ (-53 : ℤ))
    generalize (2 : ℝ) ^ (-53 : ℤ) = a at *
    generalize (2 : ℝ) ^ (-800 : ℤ) = b at *
    generalize len 3 (fun i => real (entry (w.getD j []) i)) = N at *
    generalize (127 / 128 : ℝ) ^ (t / 4) * len 3 (fun i => real (entry (w.getD j []) i) - ref 0 i) = x
    push_cast
    refine (le_of_eq (b := x + 1024 * δ + 512 * σ + (5120 * (35 * (2 * (a * N) + 2560 * (a * Y) + (a * Y) / 2)) + 5120 * b))
      (by ring)).trans ?_
    linarith

end Example

end

end Lfa

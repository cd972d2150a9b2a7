import Verif.Props.C191

/-!
# C192: training in double precision forgets its start and tracks moving targets

The distance of the weights from any moving reference, for example the weights that give the current targets, is for ever at most
`r^(t / L)` times the first distance, plus `2 L / (1 - r)` times what the reference moves and misses in a call, plus the fixed rounding
term of C181 and C190.
-/

set_option linter.unusedSectionVars false

namespace Lfa

open Spec Machine XReal

variable {M M' : Machine}

noncomputable section

/-! ## Exact training -/

/-- One exact call with target zero. -/
def pullStep (n : Nat) (c : ℝ) (f : Nat → ℝ) (u : Nat → ℝ) : Nat → ℝ := fun i => u i - c * (∑ j ∈ Finset.range n, f j * u j) * f i

theorem pullStep_add (n : Nat) (c : ℝ) (f u v : Nat → ℝ) : pullStep n c f (u + v) = pullStep n c f u + pullStep n c f v := by
  have e : ∑ j ∈ Finset.range n, f j * (u + v) j = ∑ j ∈ Finset.range n, f j * u j + ∑ j ∈ Finset.range n, f j * v j := by
    rw [← Finset.sum_add_distrib]
    exact Finset.sum_congr rfl fun j _ => mul_add _ _ _
  refine funext fun i => ?_
  show (u i + v i) - c * _ * f i = (u i - _) + (v i - _)
  rw [e]
  ring

theorem pullStep_le {n : Nat} {c : ℝ} {f : Nat → ℝ} (c0 : 0 ≤ c) (h2 : c * ∑ j ∈ Finset.range n, f j ^ 2 ≤ 2) (u : Nat → ℝ) :
    len n (pullStep n c f u) ≤ len n u := by
  have := Sweep.norm_lin c (spot n f) (spot n u)
  rw [spot_lin, spot_norm, spot_norm, spot_norm, len_sq n f] at this
  refine abs_le_of_sq_le_sq' ?_ (len_nonneg _ _) |>.2
  show len n (fun i => u i - c * (∑ j ∈ Finset.range n, f j * u j) * f i) ^ 2 ≤ _
  rw [this]
  have := mul_nonneg (mul_nonneg c0 (sub_nonneg.2 h2)) (sq_nonneg (inner ℝ (spot n f) (spot n u)))
  linarith

theorem pull_steps {n L : Nat} {g : Nat → Nat → ℝ} {c : Nat → ℝ} {r : ℝ} (h : Persistent n L g c r) (s : Nat) (u : Nat → ℝ) :
    len n (steps (fun t => pullStep n (c t) (g t)) s u L) ≤ r * len n u :=
  h s (fun k => steps (fun t => pullStep n (c t) (g t)) s u k) fun _ _ _ _ => rfl

/-- Exact training against a reference `ref` that one exact call moves to within `β` of its next value. -/
theorem driven_exact {n L : Nat} {c : Nat → ℝ} {g : Nat → Nat → ℝ} {y : Nat → ℝ} {us ref : Nat → Nat → ℝ} {r β : ℝ}
    (c0 : ∀ t, 0 ≤ c t) (h2 : ∀ t, c t * ∑ i ∈ Finset.range n, g t i ^ 2 ≤ 2) (r0 : 0 ≤ r) (r1 : r < 1) (Lpos : 0 < L)
    (hr : Persistent n L g c r) (hus : ExactRun n c g y us)
    (hβ : ∀ t, len n (fun i => ref t i + c t * (y t - ∑ j ∈ Finset.range n, g t j * ref t j) * g t i - ref (t + 1) i) ≤ β)
    (t : Nat) :
    len n (fun i => us t i - ref t i) ≤ r ^ (t / L) * len n (fun i => us 0 i - ref 0 i) + 2 * (L * β) / (1 - r) := by
  refine driven_steps (E := Nat → ℝ) (N := len n) (A := fun t => pullStep n (c t) (g t)) ?_ (fun x y => len_add_le n x y)
    (fun t => pullStep_add n (c t) (g t)) (fun t u => pullStep_le (c0 t) (h2 t) u) r0 ((len_nonneg _ _).trans (hβ 0)) r1 Lpos
    (pull_steps hr) (fun t i => us t i - ref t i) (fun s => ?_) t
  · unfold len
    simp
  · refine le_trans (le_of_eq (len_congr fun i hi => ?_)) (hβ s)
    show us (s + 1) i - ref (s + 1) i - (us s i - ref s i - c s * (∑ j ∈ Finset.range n, g s j * (us s j - ref s j)) * g s i) = _
    have e : ∑ j ∈ Finset.range n, g s j * (us s j - ref s j) =
        ∑ j ∈ Finset.range n, g s j * us s j - ∑ j ∈ Finset.range n, g s j * ref s j := by
      rw [← Finset.sum_sub_distrib]
      exact Finset.sum_congr rfl fun j _ => mul_sub _ _ _
    rw [hus s i hi, e]
    ring

theorem len_neg (n : Nat) (f : Nat → ℝ) : len n (fun i => -f i) = len n f := by
  unfold len
  simp only [neg_sq]

/-- What a reference that drifts and misses the targets leaves. -/
theorem residual_le (n : Nat) {c : ℝ} (c0 : 0 ≤ c) (y : ℝ) (f u u' : Nat → ℝ) :
    len n (fun i => u i + c * (y - ∑ j ∈ Finset.range n, f j * u j) * f i - u' i) ≤
      len n (fun i => u' i - u i) + c * len n f * |y - ∑ j ∈ Finset.range n, f j * u j| := by
  have h := len_add_le n (fun i => -(u' i - u i)) fun i => (c * (y - ∑ j ∈ Finset.range n, f j * u j)) * f i
  rw [len_neg, len_smul', abs_mul, abs_of_nonneg c0] at h
  refine le_trans (le_of_eq (len_congr fun i _ => by ring)) (h.trans (le_of_eq (by ring)))

/-- Exact Momentum and NAG against a reference for weights and velocities. -/
theorem driven_momentum {n L : Nat} {μ l ρ : ℝ} {g : Nat → Nat → ℝ} {y : Nat → ℝ} {us vs ref rev : Nat → Nat → ℝ} {r β : ℝ}
    (m0 : 0 ≤ μ) (m1 : μ < 1) (lp : 0 < l)
    (h2 : ∀ t, l * (∑ i ∈ Finset.range n, g t i ^ 2) * (1 + μ) ≤ 2 * (1 - μ) ^ 2) (r0 : 0 ≤ r) (r1 : r < 1) (Lpos : 0 < L)
    (hr : MomentumPersistent n L g μ l r) (hus : ExactMomentum n μ l ρ g y us vs)
    (hβ : ∀ t, energyLen n μ l
      (fun i => ref t i + l * (μ * rev t i + g t i * (y t - ∑ j ∈ Finset.range n, g t j * ref t j)) + ρ * g t i - ref (t + 1) i)
      (fun i => -(μ * rev t i + g t i * (y t - ∑ j ∈ Finset.range n, g t j * ref t j) - rev (t + 1) i)) ≤ β) (t : Nat) :
    energyLen n μ l (fun i => us t i - ref t i) (fun i => -(vs t i - rev t i)) ≤
      r ^ (t / L) * energyLen n μ l (fun i => us 0 i - ref 0 i) (fun i => -(vs 0 i - rev 0 i)) + 2 * (L * β) / (1 - r) := by
  refine driven_steps (E := (Nat → ℝ) × (Nat → ℝ)) (N := fun x => energyLen n μ l x.1 x.2)
    (A := fun t => moveStep n μ l (g t)) (energyLen_zero n μ l)
    (fun x y => energyLen_add_le n m1 lp.le x.1 x.2 y.1 y.2) (fun t x y => moveStep_add n μ l _ x y)
    (fun t x => energyLen_step n m0 m1 lp (h2 t) x.1 x.2) r0 ((energyLen_nonneg _ _ _ _ _).trans (hβ 0)) r1 Lpos
    (momentum_steps hr) (fun t => (fun i => us t i - ref t i, fun i => -(vs t i - rev t i))) (fun s => ?_) t
  have e : ∑ j ∈ Finset.range n, g s j * (us s j - ref s j) =
      ∑ j ∈ Finset.range n, g s j * us s j - ∑ j ∈ Finset.range n, g s j * ref s j := by
    rw [← Finset.sum_sub_distrib]
    exact Finset.sum_congr rfl fun j _ => mul_sub _ _ _
  refine le_trans (le_of_eq (energyLen_congr (fun i hi => ?_) fun i hi => ?_)) (hβ s)
  · show us (s + 1) i - ref (s + 1) i - (us s i - ref s i - l * (μ * -(vs s i - rev s i) +
      g s i * ∑ j ∈ Finset.range n, g s j * (us s j - ref s j))) = _
    rw [(hus s i hi).2, (hus s i hi).1, e]
    ring
  · show -(vs (s + 1) i - rev (s + 1) i) - (μ * -(vs s i - rev s i) + g s i * ∑ j ∈ Finset.range n, g s j * (us s j - ref s j)) = _
    rw [(hus s i hi).1, e]
    ring

/-- What a drifting reference with velocities zero leaves. -/
theorem residual_momentum (n : Nat) {μ l ρ : ℝ} (m1 : μ < 1) (hl : 0 ≤ l) (hρ : 0 ≤ ρ) (y : ℝ) (f u u' : Nat → ℝ) :
    energyLen n μ l (fun i => u i + l * (μ * 0 + f i * (y - ∑ j ∈ Finset.range n, f j * u j)) + ρ * f i - u' i)
      (fun i => -(μ * 0 + f i * (y - ∑ j ∈ Finset.range n, f j * u j) - 0)) ≤
      len n (fun i => u' i - u i) + ρ * len n f + 2 * (l / (1 - μ)) * len n f * |y - ∑ j ∈ Finset.range n, f j * u j| := by
  set ν := y - ∑ j ∈ Finset.range n, f j * u j
  have ha : 0 ≤ l / (1 - μ) := div_nonneg hl (by linarith)
  have h := energyLen_err n m1 hl (fun i => (u' i - u i) + -ρ * f i) (fun i => -ν * f i)
  have h1 := len_add_le n (fun i => u' i - u i) fun i => -ρ * f i
  rw [len_smul', abs_neg, abs_of_nonneg hρ] at h1
  rw [len_smul', abs_neg] at h
  have h3 : √μ ≤ 1 := Real.sqrt_le_one.2 m1.le
  have h4 := mul_le_mul_of_nonneg_right (mul_le_mul_of_nonneg_left (by linarith : 1 + √μ ≤ 2) ha)
    (mul_nonneg (abs_nonneg ν) (len_nonneg n f))
  refine le_trans (le_of_eq (energyLen_congr (fun i _ => by ring) fun i _ => by ring)) (h.trans ?_)
  linarith

/-- Predictions near those of `u`, against those of `v`. -/
theorem predict_near {n : Nat} {f u v : Nat → ℝ} {p a b : ℝ} (h1 : |p - ∑ j ∈ Finset.range n, f j * u j| ≤ b)
    (h2 : len n (fun i => u i - v i) ≤ a) : |p - ∑ j ∈ Finset.range n, f j * v j| ≤ len n f * a + b := by
  have e : ∑ j ∈ Finset.range n, f j * u j - ∑ j ∈ Finset.range n, f j * v j = ∑ j ∈ Finset.range n, f j * (u j - v j) := by
    rw [← Finset.sum_sub_distrib]
    exact Finset.sum_congr rfl fun j _ => (mul_sub _ _ _).symm
  have h3 : |∑ j ∈ Finset.range n, f j * (u j - v j)| ≤ len n f * len n (fun j => u j - v j) := by
    refine abs_le.2 ⟨?_, sum_mul_le_len n f _⟩
    have := sum_mul_le_len n (fun j => -f j) fun j => u j - v j
    rw [len_neg] at this
    simp only [neg_mul, Finset.sum_neg_distrib] at this
    linarith
  rw [← e] at h3
  have h4 := mul_le_mul_of_nonneg_left h2 (len_nonneg n f)
  have h5 := abs_sub_le p (∑ j ∈ Finset.range n, f j * u j) (∑ j ∈ Finset.range n, f j * v j)
  linarith

/-! ## Double precision -/

section Single
variable {B I : Type} [Space B] [Basis B I (FP M)]

/-- SGD under the conditions of C181, each hash map iterating in any order at each call, against any moving weights `ref` that drift by
`‖ref (t+1) - ref t‖` in a call and miss the target by `|y - ⟨φ, ref⟩|`, together at most `β`. -/
theorem C192_sgd (hM : M.rnd = binary64Format.rnd) (n k L : Nat) (fas : Nat → ScalarLFA B (SGD (FP M)) (FP M)) (xs : Nat → I)
    (ys : Nat → FP M) (hs : ∀ t, CanUpdateWith (fas t) (xs t) (fun p => ys t -. p) (fas (t + 1)))
    (φ : Nat → Features (FP M)) (hφ : ∀ t, Basis.project (fas 0).basis (xs t) = .ok (.ok (φ t)) ∧ Fits n (φ t))
    (hn : (fas 0).weights.length = n) (hw : ∀ i < n, Bounded (2 ^ 100) (entry (fas 0).weights i))
    (l : ℝ) (hlr : Is (fas 0).optimiser.lr l) (l0 : 0 ≤ l) (l1 : l ≤ 2 ^ 100)
    (h2 : ∀ t, l * ∑ i ∈ Finset.range n, real (value (φ t) i) ^ 2 ≤ 2) (hmod : ∀ t, Moderate n k (φ t) (ys t))
    (D : ℝ) (hD : ∀ t, l * len n (fun i => real (value (φ t) i)) * |real (ys t)| ≤ D) (hD1 : D ≤ 2 ^ 190)
    (r : ℝ) (r0 : 0 ≤ r) (Lpos : 0 < L) (hr : Persistent n L (fun t i => real (value (φ t) i)) (fun _ => l) r)
    (hL : L * (8 * k + 11) * 2 ^ (-51 : ℤ) ≤ 1 - r) (ref : Nat → Nat → ℝ) (β : ℝ)
    (hβ : ∀ t, len n (fun i => ref (t + 1) i - ref t i) + l * len n (fun i => real (value (φ t) i)) *
      |real (ys t) - ∑ j ∈ Finset.range n, real (value (φ t) j) * ref t j| ≤ β) (W E : ℝ)
    (hW : W = 2 * len n (fun i => real (entry (fas 0).weights i)) + 10 * L * D / (1 - r))
    (hE : E = 10 * L * ((8 * k + 11) * 2 ^ (-53 : ℤ) * (W + D) + 2 ^ (-800 : ℤ)) / (1 - r)) (t : Nat) :
    (∀ i < n, Spec.Finite (entry (fas t).weights i)) ∧
    len n (fun i => real (entry (fas t).weights i) - ref t i) ≤
      r ^ (t / L) * len n (fun i => real (entry (fas 0).weights i) - ref 0 i) + 2 * (L * β) / (1 - r) + E ∧
    ∀ (x : I) (χ : Features (FP M)) (y v : FP M), Basis.project (fas 0).basis x = .ok (.ok χ) → Fits n χ → Moderate n k χ y →
      CanEvaluate (fas t) x v → Spec.Finite v ∧
        |real v - ∑ j ∈ Finset.range n, real (value χ j) * ref t j| ≤ len n (fun i => real (value χ i)) *
          (r ^ (t / L) * len n (fun i => real (entry (fas 0).weights i) - ref 0 i) + 2 * (L * β) / (1 - r)) +
          (3 * (len n (fun i => real (value χ i)) * E) + 2 ^ (-1034 : ℤ)) := by
  obtain ⟨us, hus, u0⟩ : ∃ us, ExactRun n (fun _ => l) (fun t i => real (value (φ t) i)) (fun t => real (ys t)) us ∧
      us 0 = fun i => real (entry (fas 0).weights i) := ⟨_, exactWeights_run n (fun _ => l) _ _ _, rfl⟩
  obtain ⟨a1, -, a3, a4⟩ := C188_sgd hM n k L fas xs ys hs φ hφ hn hw l hlr l0 l1 h2 hmod D hD hD1 r r0 Lpos hr hL us hus
    (fun _ _ => by rw [u0]) W E (by rw [u0]; exact hW) hE t
  have L1 : (0 : ℝ) < L := by exact_mod_cast Lpos
  have r1 : r < 1 := by linarith [mul_pos (mul_pos L1 (by positivity : (0 : ℝ) < 8 * k + 11)) (by positivity : (0 : ℝ) < 2 ^ (-51 : ℤ))]
  have h := driven_exact (fun _ => l0) h2 r0 r1 Lpos hr hus (ref := ref) (fun t => (residual_le n l0 _ _ _ _).trans (hβ t)) t
  have h3 := len_add_le n (fun i => real (entry (fas t).weights i) - us t i) (fun i => us t i - ref t i)
  simp only [sub_add_sub_cancel] at h3
  rw [u0] at h
  exact ⟨a1, h3.trans ((add_le_add a3 h).trans (le_of_eq (add_comm _ _))), fun x χ y v hp hf hm he =>
    ⟨(a4 x χ y v hp hf hm he).1, predict_near (a4 x χ y v hp hf hm he).2 h⟩⟩

/-- The same for ISGD. -/
theorem C192_isgd (hM : M.rnd = binary64Format.rnd) (n k L : Nat) (fas : Nat → ScalarLFA B (ISGD (FP M)) (FP M)) (xs : Nat → I)
    (ys : Nat → FP M) (hs : ∀ t, CanUpdateWith (fas t) (xs t) (fun p => ys t -. p) (fas (t + 1)))
    (φ : Nat → Features (FP M)) (hφ : ∀ t, Basis.project (fas 0).basis (xs t) = .ok (.ok (φ t)) ∧ Fits n (φ t))
    (hn : (fas 0).weights.length = n) (hw : ∀ i < n, Bounded (2 ^ 100) (entry (fas 0).weights i))
    (l : ℝ) (hlr : Is (fas 0).optimiser.lr l) (l0 : 0 ≤ l) (l1 : l ≤ 2 ^ 100) (c : Nat → ℝ)
    (hc : ∀ t, c t = l / (1 + l * ∑ i ∈ Finset.range n, real (value (φ t) i) ^ 2)) (hmod : ∀ t, Moderate n k (φ t) (ys t))
    (D : ℝ) (hD : ∀ t, c t * len n (fun i => real (value (φ t) i)) * |real (ys t)| ≤ D) (hD1 : D ≤ 2 ^ 190)
    (r : ℝ) (r0 : 0 ≤ r) (Lpos : 0 < L) (hr : Persistent n L (fun t i => real (value (φ t) i)) c r)
    (hL : L * (12 * k + 25) * 2 ^ (-51 : ℤ) ≤ 1 - r) (ref : Nat → Nat → ℝ) (β : ℝ)
    (hβ : ∀ t, len n (fun i => ref (t + 1) i - ref t i) + c t * len n (fun i => real (value (φ t) i)) *
      |real (ys t) - ∑ j ∈ Finset.range n, real (value (φ t) j) * ref t j| ≤ β) (W E : ℝ)
    (hW : W = 2 * len n (fun i => real (entry (fas 0).weights i)) + 10 * L * D / (1 - r))
    (hE : E = 10 * L * ((12 * k + 25) * 2 ^ (-53 : ℤ) * (W + D) + 2 ^ (-500 : ℤ)) / (1 - r)) (t : Nat) :
    (∀ i < n, Spec.Finite (entry (fas t).weights i)) ∧
    len n (fun i => real (entry (fas t).weights i) - ref t i) ≤
      r ^ (t / L) * len n (fun i => real (entry (fas 0).weights i) - ref 0 i) + 2 * (L * β) / (1 - r) + E ∧
    ∀ (x : I) (χ : Features (FP M)) (y v : FP M), Basis.project (fas 0).basis x = .ok (.ok χ) → Fits n χ → Moderate n k χ y →
      CanEvaluate (fas t) x v → Spec.Finite v ∧
        |real v - ∑ j ∈ Finset.range n, real (value χ j) * ref t j| ≤ len n (fun i => real (value χ i)) *
          (r ^ (t / L) * len n (fun i => real (entry (fas 0).weights i) - ref 0 i) + 2 * (L * β) / (1 - r)) +
          (3 * (len n (fun i => real (value χ i)) * E) + 2 ^ (-1034 : ℤ)) := by
  obtain ⟨us, hus, u0⟩ : ∃ us, ExactRun n c (fun t i => real (value (φ t) i)) (fun t => real (ys t)) us ∧
      us 0 = fun i => real (entry (fas 0).weights i) := ⟨_, exactWeights_run n c _ _ _, rfl⟩
  obtain ⟨a1, -, a3, a4⟩ := C188_isgd hM n k L fas xs ys hs φ hφ hn hw l hlr l0 l1 c hc hmod D hD hD1 r r0 Lpos hr hL us hus
    (fun _ _ => by rw [u0]) W E (by rw [u0]; exact hW) hE t
  have L1 : (0 : ℝ) < L := by exact_mod_cast Lpos
  have r1 : r < 1 := by linarith [mul_pos (mul_pos L1 (by positivity : (0 : ℝ) < 12 * k + 25)) (by positivity : (0 : ℝ) < 2 ^ (-51 : ℤ))]
  have S0 : ∀ t, 0 ≤ ∑ i ∈ Finset.range n, real (value (φ t) i) ^ 2 := fun t => Finset.sum_nonneg fun _ _ => sq_nonneg _
  have p : ∀ t, 0 < 1 + l * ∑ i ∈ Finset.range n, real (value (φ t) i) ^ 2 := fun t => by
    have := mul_nonneg l0 (S0 t)
    linarith
  have c0 : ∀ t, 0 ≤ c t := fun t => by rw [hc]; exact div_nonneg l0 (p t).le
  have h2 : ∀ t, c t * ∑ i ∈ Finset.range n, real (value (φ t) i) ^ 2 ≤ 2 := fun t => by
    rw [hc, div_mul_eq_mul_div, div_le_iff₀ (p t)]
    have := mul_nonneg l0 (S0 t)
    linarith
  have h := driven_exact c0 h2 r0 r1 Lpos hr hus (ref := ref) (fun t => (residual_le n (c0 t) _ _ _ _).trans (hβ t)) t
  have h3 := len_add_le n (fun i => real (entry (fas t).weights i) - us t i) (fun i => us t i - ref t i)
  simp only [sub_add_sub_cancel] at h3
  rw [u0] at h
  exact ⟨a1, h3.trans ((add_le_add a3 h).trans (le_of_eq (add_comm _ _))), fun x χ y v hp hf hm he =>
    ⟨(a4 x χ y v hp hf hm he).1, predict_near (a4 x χ y v hp hf hm he).2 h⟩⟩

/-- Momentum under the conditions of C190, in the distance of C154 with velocities zero as reference. -/
theorem C192_momentum (hM : M.rnd = binary64Format.rnd) (n k L : Nat) (fas : Nat → ScalarLFA B (SGDMomentum (FP M)) (FP M))
    (xs : Nat → I) (ys : Nat → FP M) (hs : ∀ t, CanUpdateWith (fas t) (xs t) (fun p => ys t -. p) (fas (t + 1)))
    (φ : Nat → Features (FP M)) (hφ : ∀ t, Basis.project (fas 0).basis (xs t) = .ok (.ok (φ t)) ∧ Fits n (φ t))
    (hn : (fas 0).weights.length = n ∧ (fas 0).optimiser.velocity.length = n)
    (hw : ∀ i < n, Bounded (2 ^ 100) (entry (fas 0).weights i) ∧ Bounded (2 ^ 100) (entry (fas 0).optimiser.velocity i))
    (μ l : ℝ) (hl : Is (fas 0).optimiser.learningRate l) (hμ : Is (fas 0).optimiser.momentum μ)
    (hmod : ∀ t, Moderate n k (φ t) (ys t)) (D r : ℝ)
    (hc : SteadyMomentum n k L μ l 0 D r (fun t i => real (value (φ t) i)) fun t => real (ys t)) (ref : Nat → Nat → ℝ) (β : ℝ)
    (hβ : ∀ t, len n (fun i => ref (t + 1) i - ref t i) + 2 * (l / (1 - μ)) * len n (fun i => real (value (φ t) i)) *
      |real (ys t) - ∑ j ∈ Finset.range n, real (value (φ t) j) * ref t j| ≤ β) (W E : ℝ)
    (hW : W = 2 * energyLen n μ l (fun i => real (entry (fas 0).weights i))
      (fun i => -real (entry (fas 0).optimiser.velocity i)) + 10 * L * D / (1 - r))
    (hE : E = 10 * L * ((12 * k + 60) * 2 ^ (-53 : ℤ) * (W + D) + 2 ^ (-800 : ℤ)) / (1 - r)) (t : Nat) :
    (∀ i < n, Spec.Finite (entry (fas t).weights i) ∧ Spec.Finite (entry (fas t).optimiser.velocity i)) ∧
    energyLen n μ l (fun i => real (entry (fas t).weights i) - ref t i) (fun i => -real (entry (fas t).optimiser.velocity i)) ≤
      r ^ (t / L) * energyLen n μ l (fun i => real (entry (fas 0).weights i) - ref 0 i)
        (fun i => -real (entry (fas 0).optimiser.velocity i)) + 2 * (L * β) / (1 - r) + E ∧
    ∀ (x : I) (χ : Features (FP M)) (y v : FP M), Basis.project (fas 0).basis x = .ok (.ok χ) → Fits n χ → Moderate n k χ y →
      CanEvaluate (fas t) x v → Spec.Finite v ∧
        |real v - ∑ j ∈ Finset.range n, real (value χ j) * ref t j| ≤ len n (fun i => real (value χ i)) *
          (√(1 + μ) * (r ^ (t / L) * energyLen n μ l (fun i => real (entry (fas 0).weights i) - ref 0 i)
            (fun i => -real (entry (fas 0).optimiser.velocity i)) + 2 * (L * β) / (1 - r))) +
          (5 * (len n (fun i => real (value χ i)) * E) + 2 ^ (-1034 : ℤ)) := by
  obtain ⟨us, vs, hus, u0, v0⟩ := exactMomentum_exists n μ l 0 (fun t i => real (value (φ t) i)) (fun t => real (ys t))
    (fun i => real (entry (fas 0).weights i)) (fun i => real (entry (fas 0).optimiser.velocity i))
  obtain ⟨a1, -, a3, a4⟩ := C191_momentum hM n k L fas xs ys hs φ hφ hn hw μ l hl hμ hmod D r hc us vs hus
    (fun i _ => ⟨by rw [u0], by rw [v0]⟩) W E (by rw [u0, v0]; exact hW) hE t
  obtain ⟨⟨m0, m1⟩, ⟨l0, l1⟩, h2, -, r0, Lpos, hr, hL⟩ := hc
  have lp : 0 < l := lt_of_lt_of_le (by positivity) l0
  have L1 : (0 : ℝ) < L := by exact_mod_cast Lpos
  have r1 : r < 1 := by linarith [mul_pos (mul_pos L1 (by positivity : (0 : ℝ) < 12 * k + 60)) (by positivity : (0 : ℝ) < 2 ^ (-51 : ℤ))]
  have h := driven_momentum m0 m1 lp h2 r0 r1 Lpos hr hus (ref := ref) (rev := fun _ _ => 0) (β := β)
    (fun t => (residual_momentum n m1 lp.le le_rfl _ _ _ _).trans (le_trans (by rw [zero_mul, add_zero]) (hβ t))) t
  have h3 := energyLen_add_le n m1 lp.le (fun i => real (entry (fas t).weights i) - us t i)
    (fun i => -(real (entry (fas t).optimiser.velocity i) - vs t i)) (fun i => us t i - ref t i) (fun i => -(vs t i - 0))
  rw [energyLen_congr (d' := fun i => real (entry (fas t).weights i) - ref t i)
    (u' := fun i => -real (entry (fas t).optimiser.velocity i)) (fun i _ => by ring) (fun i _ => by ring)] at h3
  rw [u0, v0] at h
  simp only [sub_zero] at h h3
  exact ⟨a1, h3.trans ((add_le_add a3 h).trans (le_of_eq (add_comm _ _))), fun x χ y v hp hf hm he =>
    ⟨(a4 x χ y v hp hf hm he).1, predict_near (a4 x χ y v hp hf hm he).2
      ((len_le_energyLen n m0 m1 lp.le _ _).trans (mul_le_mul_of_nonneg_left h (Real.sqrt_nonneg _)))⟩⟩

/-- The same for NAG, whose shift `μ φ` in every call counts as drift. -/
theorem C192_nag (hM : M.rnd = binary64Format.rnd) (n k L : Nat) (fas : Nat → ScalarLFA B (NAG (FP M)) (FP M))
    (xs : Nat → I) (ys : Nat → FP M) (hs : ∀ t, CanUpdateWith (fas t) (xs t) (fun p => ys t -. p) (fas (t + 1)))
    (φ : Nat → Features (FP M)) (hφ : ∀ t, Basis.project (fas 0).basis (xs t) = .ok (.ok (φ t)) ∧ Fits n (φ t))
    (hn : (fas 0).weights.length = n ∧ (fas 0).optimiser.velocity.length = n)
    (hw : ∀ i < n, Bounded (2 ^ 100) (entry (fas 0).weights i) ∧ Bounded (2 ^ 100) (entry (fas 0).optimiser.velocity i))
    (μ l : ℝ) (hl : Is (fas 0).optimiser.learningRate l) (hμ : Is (fas 0).optimiser.momentum μ)
    (hmod : ∀ t, Moderate n k (φ t) (ys t)) (D r : ℝ)
    (hc : SteadyMomentum n k L μ l μ D r (fun t i => real (value (φ t) i)) fun t => real (ys t)) (ref : Nat → Nat → ℝ) (β : ℝ)
    (hβ : ∀ t, len n (fun i => ref (t + 1) i - ref t i) + μ * len n (fun i => real (value (φ t) i)) +
      2 * (l / (1 - μ)) * len n (fun i => real (value (φ t) i)) *
      |real (ys t) - ∑ j ∈ Finset.range n, real (value (φ t) j) * ref t j| ≤ β) (W E : ℝ)
    (hW : W = 2 * energyLen n μ l (fun i => real (entry (fas 0).weights i))
      (fun i => -real (entry (fas 0).optimiser.velocity i)) + 10 * L * D / (1 - r))
    (hE : E = 10 * L * ((12 * k + 60) * 2 ^ (-53 : ℤ) * (W + D) + 2 ^ (-800 : ℤ)) / (1 - r)) (t : Nat) :
    (∀ i < n, Spec.Finite (entry (fas t).weights i) ∧ Spec.Finite (entry (fas t).optimiser.velocity i)) ∧
    energyLen n μ l (fun i => real (entry (fas t).weights i) - ref t i) (fun i => -real (entry (fas t).optimiser.velocity i)) ≤
      r ^ (t / L) * energyLen n μ l (fun i => real (entry (fas 0).weights i) - ref 0 i)
        (fun i => -real (entry (fas 0).optimiser.velocity i)) + 2 * (L * β) / (1 - r) + E ∧
    ∀ (x : I) (χ : Features (FP M)) (y v : FP M), Basis.project (fas 0).basis x = .ok (.ok χ) → Fits n χ → Moderate n k χ y →
      CanEvaluate (fas t) x v → Spec.Finite v ∧
        |real v - ∑ j ∈ Finset.range n, real (value χ j) * ref t j| ≤ len n (fun i => real (value χ i)) *
          (√(1 + μ) * (r ^ (t / L) * energyLen n μ l (fun i => real (entry (fas 0).weights i) - ref 0 i)
            (fun i => -real (entry (fas 0).optimiser.velocity i)) + 2 * (L * β) / (1 - r))) +
          (5 * (len n (fun i => real (value χ i)) * E) + 2 ^ (-1034 : ℤ)) := by
  obtain ⟨us, vs, hus, u0, v0⟩ := exactMomentum_exists n μ l μ (fun t i => real (value (φ t) i)) (fun t => real (ys t))
    (fun i => real (entry (fas 0).weights i)) (fun i => real (entry (fas 0).optimiser.velocity i))
  obtain ⟨a1, -, a3, a4⟩ := C191_nag hM n k L fas xs ys hs φ hφ hn hw μ l hl hμ hmod D r hc us vs hus
    (fun i _ => ⟨by rw [u0], by rw [v0]⟩) W E (by rw [u0, v0]; exact hW) hE t
  obtain ⟨⟨m0, m1⟩, ⟨l0, l1⟩, h2, -, r0, Lpos, hr, hL⟩ := hc
  have lp : 0 < l := lt_of_lt_of_le (by positivity) l0
  have L1 : (0 : ℝ) < L := by exact_mod_cast Lpos
  have r1 : r < 1 := by linarith [mul_pos (mul_pos L1 (by positivity : (0 : ℝ) < 12 * k + 60)) (by positivity : (0 : ℝ) < 2 ^ (-51 : ℤ))]
  have h := driven_momentum m0 m1 lp h2 r0 r1 Lpos hr hus (ref := ref) (rev := fun _ _ => 0) (β := β)
    (fun t => (residual_momentum n m1 lp.le m0 _ _ _ _).trans (hβ t)) t
  have h3 := energyLen_add_le n m1 lp.le (fun i => real (entry (fas t).weights i) - us t i)
    (fun i => -(real (entry (fas t).optimiser.velocity i) - vs t i)) (fun i => us t i - ref t i) (fun i => -(vs t i - 0))
  rw [energyLen_congr (d' := fun i => real (entry (fas t).weights i) - ref t i)
    (u' := fun i => -real (entry (fas t).optimiser.velocity i)) (fun i _ => by ring) (fun i _ => by ring)] at h3
  rw [u0, v0] at h
  simp only [sub_zero] at h h3
  exact ⟨a1, h3.trans ((add_le_add a3 h).trans (le_of_eq (add_comm _ _))), fun x χ y v hp hf hm he =>
    ⟨(a4 x χ y v hp hf hm he).1, predict_near (a4 x χ y v hp hf hm he).2
      ((len_le_energyLen n m0 m1 lp.le _ _).trans (mul_le_mul_of_nonneg_left h (Real.sqrt_nonneg _)))⟩⟩

/-! ## Forgetting -/

theorem len_three {n : Nat} {f g u v : Nat → ℝ} {a b e : ℝ} (h1 : len n (fun i => f i - u i) ≤ a) (h2 : len n (fun i => u i - v i) ≤ e)
    (h3 : len n (fun i => g i - v i) ≤ b) : len n (fun i => f i - g i) ≤ e + a + b := by
  have e1 := len_add_le n (fun i => f i - u i) fun i => u i - v i
  have e2 := len_add_le n (fun i => (f i - u i) + (u i - v i)) fun i => -(g i - v i)
  rw [len_neg] at e2
  rw [len_congr (g := fun i => f i - u i + (u i - v i) + -(g i - v i)) fun i _ => by ring]
  linarith

theorem energyLen_three {n : Nat} {μ l : ℝ} (h1 : μ < 1) (hl : 0 ≤ l) {f g u v f' g' u' v' : Nat → ℝ} {a b e : ℝ}
    (ha : energyLen n μ l (fun i => f i - u i) (fun i => -(f' i - u' i)) ≤ a)
    (he : energyLen n μ l (fun i => u i - v i) (fun i => -(u' i - v' i)) ≤ e)
    (hb : energyLen n μ l (fun i => g i - v i) (fun i => -(g' i - v' i)) ≤ b) :
    energyLen n μ l (fun i => f i - g i) (fun i => -(f' i - g' i)) ≤ e + a + b := by
  have e1 := energyLen_add_le n h1 hl (fun i => f i - u i) (fun i => -(f' i - u' i)) (fun i => u i - v i) (fun i => -(u' i - v' i))
  have e2 := energyLen_add_le n h1 hl (fun i => (f i - u i) + (u i - v i)) (fun i => -(f' i - u' i) + -(u' i - v' i))
    (fun i => -(g i - v i)) (fun i => g' i - v' i)
  have e3 : energyLen n μ l (fun i => -(g i - v i)) (fun i => g' i - v' i) = energyLen n μ l (fun i => g i - v i) (fun i => -(g' i - v' i)) := by
    unfold energyLen
    rw [len_neg n fun i => g' i - v' i, ← len_neg n fun i => -(g i - v i) - μ * (l / (1 - μ)) * (g' i - v' i),
      len_congr (g := fun i => g i - v i - μ * (l / (1 - μ)) * -(g' i - v' i)) fun i _ => by ring]
  rw [e3] at e2
  rw [energyLen_congr (d' := fun i => f i - u i + (u i - v i) + -(g i - v i))
    (u' := fun i => -(f' i - u' i) + -(u' i - v' i) + (g' i - v' i)) (fun i _ => by ring) (fun i _ => by ring)]
  linarith

/-- Two runs of SGD on the same stream from different weights, each hash map iterating in its own order at each call: what the start
leaves of their difference falls by `r` in every `L` calls, down to the rounding terms of the two. -/
theorem C192_sgd_forgets (hM : M.rnd = binary64Format.rnd) (n k L : Nat) (fas gas : Nat → ScalarLFA B (SGD (FP M)) (FP M)) (xs : Nat → I)
    (ys : Nat → FP M) (hs : ∀ t, CanUpdateWith (fas t) (xs t) (fun p => ys t -. p) (fas (t + 1)))
    (hg : ∀ t, CanUpdateWith (gas t) (xs t) (fun p => ys t -. p) (gas (t + 1)))
    (φ : Nat → Features (FP M)) (hφ : ∀ t, Basis.project (fas 0).basis (xs t) = .ok (.ok (φ t)) ∧ Fits n (φ t))
    (hb : (gas 0).basis = (fas 0).basis) (ho : (gas 0).optimiser = (fas 0).optimiser)
    (hn : (fas 0).weights.length = n ∧ (gas 0).weights.length = n)
    (hw : ∀ i < n, Bounded (2 ^ 100) (entry (fas 0).weights i) ∧ Bounded (2 ^ 100) (entry (gas 0).weights i))
    (l : ℝ) (hlr : Is (fas 0).optimiser.lr l) (l0 : 0 ≤ l) (l1 : l ≤ 2 ^ 100)
    (h2 : ∀ t, l * ∑ i ∈ Finset.range n, real (value (φ t) i) ^ 2 ≤ 2) (hmod : ∀ t, Moderate n k (φ t) (ys t))
    (D : ℝ) (hD : ∀ t, l * len n (fun i => real (value (φ t) i)) * |real (ys t)| ≤ D) (hD1 : D ≤ 2 ^ 190)
    (r : ℝ) (r0 : 0 ≤ r) (Lpos : 0 < L) (hr : Persistent n L (fun t i => real (value (φ t) i)) (fun _ => l) r)
    (hL : L * (8 * k + 11) * 2 ^ (-51 : ℤ) ≤ 1 - r) (E : ℝ → ℝ)
    (hE : ∀ N, E N = 10 * L * ((8 * k + 11) * 2 ^ (-53 : ℤ) * (2 * N + 10 * L * D / (1 - r) + D) + 2 ^ (-800 : ℤ)) / (1 - r)) (t : Nat) :
    len n (fun i => real (entry (fas t).weights i) - real (entry (gas t).weights i)) ≤
      r ^ (t / L) * len n (fun i => real (entry (fas 0).weights i) - real (entry (gas 0).weights i)) +
        E (len n fun i => real (entry (fas 0).weights i)) + E (len n fun i => real (entry (gas 0).weights i)) := by
  obtain ⟨us, hus, u0⟩ : ∃ us, ExactRun n (fun _ => l) (fun t i => real (value (φ t) i)) (fun t => real (ys t)) us ∧
      us 0 = fun i => real (entry (fas 0).weights i) := ⟨_, exactWeights_run n (fun _ => l) _ _ _, rfl⟩
  obtain ⟨vs, hvs, v0⟩ : ∃ us, ExactRun n (fun _ => l) (fun t i => real (value (φ t) i)) (fun t => real (ys t)) us ∧
      us 0 = fun i => real (entry (gas 0).weights i) := ⟨_, exactWeights_run n (fun _ => l) _ _ _, rfl⟩
  obtain ⟨-, -, a3, -⟩ := C188_sgd hM n k L fas xs ys hs φ hφ hn.1 (fun i hi => (hw i hi).1) l hlr l0 l1 h2 hmod D hD hD1 r r0 Lpos hr hL
    us hus (fun _ _ => by rw [u0]) _ _ (by rw [u0]) (hE _) t
  obtain ⟨-, -, b3, -⟩ := C188_sgd hM n k L gas xs ys hg φ (by rw [hb]; exact hφ) hn.2 (fun i hi => (hw i hi).2) l (by rw [ho]; exact hlr) l0 l1 h2 hmod
    D hD hD1 r r0 Lpos hr hL vs hvs (fun _ _ => by rw [v0]) _ _ (by rw [v0]) (hE _) t
  have L1 : (0 : ℝ) < L := by exact_mod_cast Lpos
  have r1 : r < 1 := by linarith [mul_pos (mul_pos L1 (by positivity : (0 : ℝ) < 8 * k + 11)) (by positivity : (0 : ℝ) < 2 ^ (-51 : ℤ))]
  have h := driven_exact (fun _ => l0) h2 r0 r1 Lpos hr hus (ref := vs) (β := 0) (fun t => by
    rw [len_congr (g := fun _ => 0) fun i hi => by rw [hvs t i hi, sub_self], len_const n 0 le_rfl, mul_zero]) t
  rw [mul_zero, mul_zero, zero_div, add_zero, u0, v0] at h
  exact len_three a3 h b3

/-- The same for ISGD. -/
theorem C192_isgd_forgets (hM : M.rnd = binary64Format.rnd) (n k L : Nat) (fas gas : Nat → ScalarLFA B (ISGD (FP M)) (FP M)) (xs : Nat → I)
    (ys : Nat → FP M) (hs : ∀ t, CanUpdateWith (fas t) (xs t) (fun p => ys t -. p) (fas (t + 1)))
    (hg : ∀ t, CanUpdateWith (gas t) (xs t) (fun p => ys t -. p) (gas (t + 1)))
    (φ : Nat → Features (FP M)) (hφ : ∀ t, Basis.project (fas 0).basis (xs t) = .ok (.ok (φ t)) ∧ Fits n (φ t))
    (hb : (gas 0).basis = (fas 0).basis) (ho : (gas 0).optimiser = (fas 0).optimiser)
    (hn : (fas 0).weights.length = n ∧ (gas 0).weights.length = n)
    (hw : ∀ i < n, Bounded (2 ^ 100) (entry (fas 0).weights i) ∧ Bounded (2 ^ 100) (entry (gas 0).weights i))
    (l : ℝ) (hlr : Is (fas 0).optimiser.lr l) (l0 : 0 ≤ l) (l1 : l ≤ 2 ^ 100) (c : Nat → ℝ)
    (hc : ∀ t, c t = l / (1 + l * ∑ i ∈ Finset.range n, real (value (φ t) i) ^ 2)) (hmod : ∀ t, Moderate n k (φ t) (ys t))
    (D : ℝ) (hD : ∀ t, c t * len n (fun i => real (value (φ t) i)) * |real (ys t)| ≤ D) (hD1 : D ≤ 2 ^ 190)
    (r : ℝ) (r0 : 0 ≤ r) (Lpos : 0 < L) (hr : Persistent n L (fun t i => real (value (φ t) i)) c r)
    (hL : L * (12 * k + 25) * 2 ^ (-51 : ℤ) ≤ 1 - r) (E : ℝ → ℝ)
    (hE : ∀ N, E N = 10 * L * ((12 * k + 25) * 2 ^ (-53 : ℤ) * (2 * N + 10 * L * D / (1 - r) + D) + 2 ^ (-500 : ℤ)) / (1 - r)) (t : Nat) :
    len n (fun i => real (entry (fas t).weights i) - real (entry (gas t).weights i)) ≤
      r ^ (t / L) * len n (fun i => real (entry (fas 0).weights i) - real (entry (gas 0).weights i)) +
        E (len n fun i => real (entry (fas 0).weights i)) + E (len n fun i => real (entry (gas 0).weights i)) := by
  obtain ⟨us, hus, u0⟩ : ∃ us, ExactRun n c (fun t i => real (value (φ t) i)) (fun t => real (ys t)) us ∧
      us 0 = fun i => real (entry (fas 0).weights i) := ⟨_, exactWeights_run n c _ _ _, rfl⟩
  obtain ⟨vs, hvs, v0⟩ : ∃ us, ExactRun n c (fun t i => real (value (φ t) i)) (fun t => real (ys t)) us ∧
      us 0 = fun i => real (entry (gas 0).weights i) := ⟨_, exactWeights_run n c _ _ _, rfl⟩
  obtain ⟨-, -, a3, -⟩ := C188_isgd hM n k L fas xs ys hs φ hφ hn.1 (fun i hi => (hw i hi).1) l hlr l0 l1 c hc hmod D hD hD1 r r0 Lpos hr hL
    us hus (fun _ _ => by rw [u0]) _ _ (by rw [u0]) (hE _) t
  obtain ⟨-, -, b3, -⟩ := C188_isgd hM n k L gas xs ys hg φ (by rw [hb]; exact hφ) hn.2 (fun i hi => (hw i hi).2) l (by rw [ho]; exact hlr) l0 l1 c hc hmod
    D hD hD1 r r0 Lpos hr hL vs hvs (fun _ _ => by rw [v0]) _ _ (by rw [v0]) (hE _) t
  have L1 : (0 : ℝ) < L := by exact_mod_cast Lpos
  have r1 : r < 1 := by linarith [mul_pos (mul_pos L1 (by positivity : (0 : ℝ) < 12 * k + 25)) (by positivity : (0 : ℝ) < 2 ^ (-51 : ℤ))]
  have S0 : ∀ t, 0 ≤ ∑ i ∈ Finset.range n, real (value (φ t) i) ^ 2 := fun t => Finset.sum_nonneg fun _ _ => sq_nonneg _
  have p : ∀ t, 0 < 1 + l * ∑ i ∈ Finset.range n, real (value (φ t) i) ^ 2 := fun t => by
    have := mul_nonneg l0 (S0 t)
    linarith
  have c0 : ∀ t, 0 ≤ c t := fun t => by rw [hc]; exact div_nonneg l0 (p t).le
  have h2 : ∀ t, c t * ∑ i ∈ Finset.range n, real (value (φ t) i) ^ 2 ≤ 2 := fun t => by
    rw [hc, div_mul_eq_mul_div, div_le_iff₀ (p t)]
    have := mul_nonneg l0 (S0 t)
    linarith
  have h := driven_exact c0 h2 r0 r1 Lpos hr hus (ref := vs) (β := 0) (fun t => by
    rw [len_congr (g := fun _ => 0) fun i hi => by rw [hvs t i hi, sub_self], len_const n 0 le_rfl, mul_zero]) t
  rw [mul_zero, mul_zero, zero_div, add_zero, u0, v0] at h
  exact len_three a3 h b3

/-- The same for Momentum, from different weights and velocities. -/
theorem C192_momentum_forgets (hM : M.rnd = binary64Format.rnd) (n k L : Nat) (fas gas : Nat → ScalarLFA B (SGDMomentum (FP M)) (FP M))
    (xs : Nat → I)
    (ys : Nat → FP M) (hs : ∀ t, CanUpdateWith (fas t) (xs t) (fun p => ys t -. p) (fas (t + 1)))
    (hg : ∀ t, CanUpdateWith (gas t) (xs t) (fun p => ys t -. p) (gas (t + 1)))
    (φ : Nat → Features (FP M)) (hφ : ∀ t, Basis.project (fas 0).basis (xs t) = .ok (.ok (φ t)) ∧ Fits n (φ t))
    (hb : (gas 0).basis = (fas 0).basis)
    (hn : (fas 0).weights.length = n ∧ (fas 0).optimiser.velocity.length = n)
    (hn' : (gas 0).weights.length = n ∧ (gas 0).optimiser.velocity.length = n)
    (hw : ∀ i < n, Bounded (2 ^ 100) (entry (fas 0).weights i) ∧ Bounded (2 ^ 100) (entry (fas 0).optimiser.velocity i))
    (hw' : ∀ i < n, Bounded (2 ^ 100) (entry (gas 0).weights i) ∧ Bounded (2 ^ 100) (entry (gas 0).optimiser.velocity i))
    (μ l : ℝ) (hl : Is (fas 0).optimiser.learningRate l ∧ Is (gas 0).optimiser.learningRate l)
    (hμ : Is (fas 0).optimiser.momentum μ ∧ Is (gas 0).optimiser.momentum μ)
    (hmod : ∀ t, Moderate n k (φ t) (ys t)) (D r : ℝ)
    (hc : SteadyMomentum n k L μ l 0 D r (fun t i => real (value (φ t) i)) fun t => real (ys t)) (E : ℝ → ℝ)
    (hE : ∀ N, E N = 10 * L * ((12 * k + 60) * 2 ^ (-53 : ℤ) * (2 * N + 10 * L * D / (1 - r) + D) + 2 ^ (-800 : ℤ)) / (1 - r)) (t : Nat) :
    energyLen n μ l (fun i => real (entry (fas t).weights i) - real (entry (gas t).weights i))
      (fun i => -(real (entry (fas t).optimiser.velocity i) - real (entry (gas t).optimiser.velocity i))) ≤
      r ^ (t / L) * energyLen n μ l (fun i => real (entry (fas 0).weights i) - real (entry (gas 0).weights i))
        (fun i => -(real (entry (fas 0).optimiser.velocity i) - real (entry (gas 0).optimiser.velocity i))) +
        E (energyLen n μ l (fun i => real (entry (fas 0).weights i)) fun i => -real (entry (fas 0).optimiser.velocity i)) +
        E (energyLen n μ l (fun i => real (entry (gas 0).weights i)) fun i => -real (entry (gas 0).optimiser.velocity i)) := by
  obtain ⟨us, vs, hus, u0, v0⟩ := exactMomentum_exists n μ l 0 (fun t i => real (value (φ t) i)) (fun t => real (ys t))
    (fun i => real (entry (fas 0).weights i)) (fun i => real (entry (fas 0).optimiser.velocity i))
  obtain ⟨us', vs', hus', u0', v0'⟩ := exactMomentum_exists n μ l 0 (fun t i => real (value (φ t) i)) (fun t => real (ys t))
    (fun i => real (entry (gas 0).weights i)) (fun i => real (entry (gas 0).optimiser.velocity i))
  obtain ⟨-, -, a3, -⟩ := C191_momentum hM n k L fas xs ys hs φ hφ hn hw μ l hl.1 hμ.1 hmod D r hc us vs hus
    (fun i _ => ⟨by rw [u0], by rw [v0]⟩) _ _ (by rw [u0, v0]) (hE _) t
  obtain ⟨-, -, b3, -⟩ := C191_momentum hM n k L gas xs ys hg φ (by rw [hb]; exact hφ) hn' hw' μ l hl.2 hμ.2 hmod D r hc us' vs' hus'
    (fun i _ => ⟨by rw [u0'], by rw [v0']⟩) _ _ (by rw [u0', v0']) (hE _) t
  obtain ⟨⟨m0, m1⟩, ⟨l0, l1⟩, h2, -, r0, Lpos, hr, hL⟩ := hc
  have lp : 0 < l := lt_of_lt_of_le (by positivity) l0
  have L1 : (0 : ℝ) < L := by exact_mod_cast Lpos
  have r1 : r < 1 := by linarith [mul_pos (mul_pos L1 (by positivity : (0 : ℝ) < 12 * k + 60)) (by positivity : (0 : ℝ) < 2 ^ (-51 : ℤ))]
  have h := driven_momentum m0 m1 lp h2 r0 r1 Lpos hr hus (ref := us') (rev := vs') (β := 0) (fun t => by
    rw [energyLen_congr (d' := fun _ => 0) (u' := fun _ => 0) (fun i hi => by rw [(hus' t i hi).2, (hus' t i hi).1, sub_self])
      (fun i hi => by rw [(hus' t i hi).1, sub_self, neg_zero]), energyLen_zero]) t
  rw [mul_zero, mul_zero, zero_div, add_zero, u0, v0, u0', v0'] at h
  exact energyLen_three m1 lp.le a3 h b3

/-- The same for NAG. -/
theorem C192_nag_forgets (hM : M.rnd = binary64Format.rnd) (n k L : Nat) (fas gas : Nat → ScalarLFA B (NAG (FP M)) (FP M))
    (xs : Nat → I)
    (ys : Nat → FP M) (hs : ∀ t, CanUpdateWith (fas t) (xs t) (fun p => ys t -. p) (fas (t + 1)))
    (hg : ∀ t, CanUpdateWith (gas t) (xs t) (fun p => ys t -. p) (gas (t + 1)))
    (φ : Nat → Features (FP M)) (hφ : ∀ t, Basis.project (fas 0).basis (xs t) = .ok (.ok (φ t)) ∧ Fits n (φ t))
    (hb : (gas 0).basis = (fas 0).basis)
    (hn : (fas 0).weights.length = n ∧ (fas 0).optimiser.velocity.length = n)
    (hn' : (gas 0).weights.length = n ∧ (gas 0).optimiser.velocity.length = n)
    (hw : ∀ i < n, Bounded (2 ^ 100) (entry (fas 0).weights i) ∧ Bounded (2 ^ 100) (entry (fas 0).optimiser.velocity i))
    (hw' : ∀ i < n, Bounded (2 ^ 100) (entry (gas 0).weights i) ∧ Bounded (2 ^ 100) (entry (gas 0).optimiser.velocity i))
    (μ l : ℝ) (hl : Is (fas 0).optimiser.learningRate l ∧ Is (gas 0).optimiser.learningRate l)
    (hμ : Is (fas 0).optimiser.momentum μ ∧ Is (gas 0).optimiser.momentum μ)
    (hmod : ∀ t, Moderate n k (φ t) (ys t)) (D r : ℝ)
    (hc : SteadyMomentum n k L μ l μ D r (fun t i => real (value (φ t) i)) fun t => real (ys t)) (E : ℝ → ℝ)
    (hE : ∀ N, E N = 10 * L * ((12 * k + 60) * 2 ^ (-53 : ℤ) * (2 * N + 10 * L * D / (1 - r) + D) + 2 ^ (-800 : ℤ)) / (1 - r)) (t : Nat) :
    energyLen n μ l (fun i => real (entry (fas t).weights i) - real (entry (gas t).weights i))
      (fun i => -(real (entry (fas t).optimiser.velocity i) - real (entry (gas t).optimiser.velocity i))) ≤
      r ^ (t / L) * energyLen n μ l (fun i => real (entry (fas 0).weights i) - real (entry (gas 0).weights i))
        (fun i => -(real (entry (fas 0).optimiser.velocity i) - real (entry (gas 0).optimiser.velocity i))) +
        E (energyLen n μ l (fun i => real (entry (fas 0).weights i)) fun i => -real (entry (fas 0).optimiser.velocity i)) +
        E (energyLen n μ l (fun i => real (entry (gas 0).weights i)) fun i => -real (entry (gas 0).optimiser.velocity i)) := by
  obtain ⟨us, vs, hus, u0, v0⟩ := exactMomentum_exists n μ l μ (fun t i => real (value (φ t) i)) (fun t => real (ys t))
    (fun i => real (entry (fas 0).weights i)) (fun i => real (entry (fas 0).optimiser.velocity i))
  obtain ⟨us', vs', hus', u0', v0'⟩ := exactMomentum_exists n μ l μ (fun t i => real (value (φ t) i)) (fun t => real (ys t))
    (fun i => real (entry (gas 0).weights i)) (fun i => real (entry (gas 0).optimiser.velocity i))
  obtain ⟨-, -, a3, -⟩ := C191_nag hM n k L fas xs ys hs φ hφ hn hw μ l hl.1 hμ.1 hmod D r hc us vs hus
    (fun i _ => ⟨by rw [u0], by rw [v0]⟩) _ _ (by rw [u0, v0]) (hE _) t
  obtain ⟨-, -, b3, -⟩ := C191_nag hM n k L gas xs ys hg φ (by rw [hb]; exact hφ) hn' hw' μ l hl.2 hμ.2 hmod D r hc us' vs' hus'
    (fun i _ => ⟨by rw [u0'], by rw [v0']⟩) _ _ (by rw [u0', v0']) (hE _) t
  obtain ⟨⟨m0, m1⟩, ⟨l0, l1⟩, h2, -, r0, Lpos, hr, hL⟩ := hc
  have lp : 0 < l := lt_of_lt_of_le (by positivity) l0
  have L1 : (0 : ℝ) < L := by exact_mod_cast Lpos
  have r1 : r < 1 := by linarith [mul_pos (mul_pos L1 (by positivity : (0 : ℝ) < 12 * k + 60)) (by positivity : (0 : ℝ) < 2 ^ (-51 : ℤ))]
  have h := driven_momentum m0 m1 lp h2 r0 r1 Lpos hr hus (ref := us') (rev := vs') (β := 0) (fun t => by
    rw [energyLen_congr (d' := fun _ => 0) (u' := fun _ => 0) (fun i hi => by rw [(hus' t i hi).2, (hus' t i hi).1, sub_self])
      (fun i hi => by rw [(hus' t i hi).1, sub_self, neg_zero]), energyLen_zero]) t
  rw [mul_zero, mul_zero, zero_div, add_zero, u0, v0, u0', v0'] at h
  exact energyLen_three m1 lp.le a3 h b3

end Single

section Example

/-- The hypotheses are met: three weights, three features in turn and then all at once, rate `1/4`, targets and initial weights up to
`Y ≤ 2^100`, and weights `ref` that drift by at most `δ` in a call and miss the targets by at most `σ`. There are such runs, and all of
them track `ref`. -/
theorem C192_example (hM : M.rnd = binary64Format.rnd) (lr : FP M) (hl : Is lr (1 / 4)) (ys : Nat → FP M) (Y : ℝ)
    (hY : Y ≤ 2 ^ 100) (hy : ∀ t, Bounded Y (ys t)) (w : List (FP M)) (hn : w.length = 3) (hw : ∀ i < 3, Bounded Y (entry w i))
    (ref : Nat → Nat → ℝ) (δ σ : ℝ) (hδ : ∀ t, len 3 (fun i => ref (t + 1) i - ref t i) ≤ δ)
    (hσ : ∀ t, |real (ys t) - ∑ j ∈ Finset.range 3, real (value (turnFeatures (FP M) t) j) * ref t j| ≤ σ) :
    let Run := fun fas : Nat → ScalarLFA (Closure Nat (FP M)) (SGD (FP M)) (FP M) =>
      fas 0 = LFA.mk (inTurns (FP M)) w ⟨lr⟩ ∧
      ∀ t, CanUpdateWith (fas t) t (fun p => ys t -. p) (fas (t + 1))
    (∃ fas, Run fas) ∧ ∀ fas, Run fas → ∀ t,
      len 3 (fun i => real (entry (fas t).weights i) - ref t i) ≤
        (127 / 128) ^ (t / 4) * len 3 (fun i => real (entry w i) - ref 0 i) + 1024 * δ + 512 * σ +
          (2 ^ (-24 : ℤ) * Y + 2 ^ (-787 : ℤ)) := by
  intro Run
  have Y0 : 0 ≤ Y := by
    obtain ⟨r, -, h⟩ := hy 0
    exact (abs_nonneg r).trans h
  refine ⟨?_, ?_⟩
  · obtain ⟨fas, ps, hs, h0⟩ := stream_any (O := SGD (FP M)) (inTurns (FP M)) (n := 3) (fun t => t) ys
      (fun t => ⟨_, rfl, turn_fits (FP M) t⟩) w hn ⟨lr⟩ trivial
    exact ⟨fas, h0, fun t => C188_stream hs t⟩
  · rintro fas ⟨f0, hf⟩ t
    have two : ∀ t, len 3 (fun i => real (value (turnFeatures (FP M) t) i)) ≤ 2 := fun t => by
      refine abs_le_of_sq_le_sq' ?_ (by norm_num) |>.2
      rw [len_sq]
      linarith [turn_sq (M := M) t]
    have W0 : len 3 (fun i => real (entry w i)) ≤ 2 * Y := by
      refine abs_le_of_sq_le_sq' ?_ (by linarith) |>.2
      rw [len_sq]
      have : ∀ i ∈ Finset.range 3, real (entry w i) ^ 2 ≤ Y ^ 2 := fun i hi => by
        obtain ⟨r, hr, h⟩ := hw i (Finset.mem_range.1 hi)
        rw [is_real hr]
        exact sq_le_sq' (abs_le.1 h).1 (abs_le.1 h).2
      refine (Finset.sum_le_sum this).trans ?_
      simp only [Finset.sum_const, Finset.card_range, nsmul_eq_mul]
      push_cast
      nlinarith [sq_nonneg Y]
    obtain ⟨-, h, -⟩ := C192_sgd hM 3 3 4 fas (fun t => t) ys hf (turnFeatures (FP M))
      (fun t => ⟨by rw [f0]; rfl, turn_fits _ t⟩) (by rw [f0]; exact hn)
      (by rw [f0]; exact fun i hi => bounded_mono (hw i hi) hY)
      (1 / 4) (by rw [f0]; exact hl) (by norm_num)
      ((by norm_num : (1 / 4 : ℝ) ≤ 1).trans (one_le_pow₀ (by norm_num))) (fun t => by linarith [turn_sq (M := M) t])
      (fun t => turn_moderate t hY (hy t)) (1 / 2 * Y)
      (fun t => by
        obtain ⟨r, hr, h⟩ := hy t
        rw [is_real hr]
        exact mul_le_mul (by linarith [two t]) h (abs_nonneg _) (by norm_num))
      (by
        have : (2 : ℝ) ^ 100 ≤ 2 ^ 190 := pow_le_pow_right₀ (by norm_num) (by norm_num)
        linarith) (127 / 128) (by norm_num) (by norm_num) turn_persistent (by norm_num) ref (δ + 1 / 2 * σ)
      (fun t => add_le_add (hδ t) (mul_le_mul (by linarith [two t]) (hσ t) (abs_nonneg _) (by norm_num))) _ _ rfl rfl t
    refine h.trans ?_
    rw [f0]
    have e1 : (2 : ℝ) ^ (-24 : ℤ) = 2 ^ 29 * 2 ^ (-53 : ℤ) := by norm_num
    have e2 : (2 : ℝ) ^ (-787 : ℤ) = 2 ^ 13 * 2 ^ (-800 : ℤ) := by
      rw [show (-787 : ℤ) = 13 + -800 by norm_num, zpow_add₀ (by norm_num)]
      norm_num
    rw [e1, e2]
    have p1 : (0 : ℝ) ≤ 2 ^ (-53 : ℤ) * Y := by positivity
    have p2 : (0 : ℝ) ≤ 2 ^ (-800 : ℤ) := by positivity
    have p3 := mul_le_mul_of_nonneg_left W0 (by positivity : (0 : ℝ) ≤ 2 ^ (-53 : ℤ))
    generalize (2 : ℝ) ^ (-53 : ℤ) = a at *
    generalize (2 : ℝ) ^ (-800 : ℤ) = b at *
    generalize len 3 (fun i => real (entry w i)) = N at *
    generalize (127 / 128 : ℝ) ^ (t / 4) * len 3 (fun i => real (entry w i) - ref 0 i) = x
    push_cast
    refine (le_of_eq (b := x + 1024 * δ + 512 * σ + (5120 * (35 * (2 * (a * N) + 2560 * (a * Y) + (a * Y) / 2)) + 5120 * b))
      (by ring)).trans ?_
    linarith

end Example

end

end Lfa

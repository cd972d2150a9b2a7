import Verif.Props.C188
import Verif.Props.C190

/-!
# C191: Momentum and NAG in double precision are nearly repeatable

C188 for Momentum and NAG: two runs in `f64` that differ in the order in which hash maps iterate, at every call, and in the order in
which arrays are summed stay close for ever, in weights, velocities and predictions.
-/

set_option linter.unusedSectionVars false

namespace Lfa

open Spec Machine XReal

variable {M M' : Machine}

/-- Exact training with momentum `μ` and rate `l`: weights `us`, velocities `vs`, features `g t`, targets `y t`. NAG also adds `μ` times
the features in every call: `ρ = 0` for Momentum and `ρ = μ` for NAG. -/
def Spec.ExactMomentum (n : Nat) (μ l ρ : ℝ) (g : Nat → Nat → ℝ) (y : Nat → ℝ) (us vs : Nat → Nat → ℝ) : Prop :=
  ∀ t, ∀ i < n, vs (t + 1) i = μ * vs t i + g t i * (y t - ∑ j ∈ Finset.range n, g t j * us t j) ∧
    us (t + 1) i = us t i + l * vs (t + 1) i + ρ * g t i

/-- The conditions of C190 on momentum, rate, features and targets, with `k` stored features at most. -/
structure Spec.SteadyMomentum (n k L : Nat) (μ l ρ D r : ℝ) (g : Nat → Nat → ℝ) (y : Nat → ℝ) : Prop where
  momentum : 0 ≤ μ ∧ μ < 1
  rate : 2 ^ (-100 : ℤ) ≤ l ∧ l ≤ 2 ^ 100 * (1 - μ)
  stable : ∀ t, l * (∑ i ∈ Finset.range n, g t i ^ 2) * (1 + μ) ≤ 2 * (1 - μ) ^ 2
  drive : (∀ t, ρ * len n (g t) + 2 * (l / (1 - μ)) * len n (g t) * |y t| ≤ D) ∧ D ≤ 2 ^ 190
  contracts : 0 ≤ r ∧ 0 < L ∧ MomentumPersistent n L g μ l r ∧ L * (12 * k + 60) * 2 ^ (-51 : ℤ) ≤ 1 - r

/-- The run that training in exact arithmetic gives. -/
noncomputable def exactMomentum (n : Nat) (μ l ρ : ℝ) (g : Nat → Nat → ℝ) (y : Nat → ℝ) (u v : Nat → ℝ) :
    Nat → (Nat → ℝ) × (Nat → ℝ)
  | 0 => (u, v)
  | t + 1 =>
    let p := exactMomentum n μ l ρ g y u v t
    (fun i => p.1 i + l * (μ * p.2 i + g t i * (y t - ∑ j ∈ Finset.range n, g t j * p.1 j)) + ρ * g t i,
      fun i => μ * p.2 i + g t i * (y t - ∑ j ∈ Finset.range n, g t j * p.1 j))

theorem exactMomentum_run (n : Nat) (μ l ρ : ℝ) (g : Nat → Nat → ℝ) (y : Nat → ℝ) (u v : Nat → ℝ) :
    ExactMomentum n μ l ρ g y (fun t => (exactMomentum n μ l ρ g y u v t).1) (fun t => (exactMomentum n μ l ρ g y u v t).2) :=
  fun _ _ _ => ⟨rfl, rfl⟩

theorem exactMomentum_exists (n : Nat) (μ l ρ : ℝ) (g : Nat → Nat → ℝ) (y : Nat → ℝ) (u v : Nat → ℝ) :
    ∃ us vs, ExactMomentum n μ l ρ g y us vs ∧ us 0 = u ∧ vs 0 = v := ⟨_, _, exactMomentum_run n μ l ρ g y u v, rfl, rfl⟩

noncomputable section

section Single
variable {B I : Type} [Space B] [Basis B I (FP M)]

/-- A run of Momentum, each hash map iterating in any order at each call. -/
theorem momentum_any_trace {n : Nat} {fas : Nat → ScalarLFA B (SGDMomentum (FP M)) (FP M)} {xs : Nat → I} {ys : Nat → FP M}
    (hs : ∀ t, CanUpdateWith (fas t) (xs t) (fun p => ys t -. p) (fas (t + 1))) {φ : Nat → Features (FP M)}
    (hφ : ∀ t, Basis.project (fas 0).basis (xs t) = .ok (.ok (φ t)) ∧ Fits n (φ t)) (hn : (fas 0).weights.length = n)
    (hv : (fas 0).optimiser.velocity.length = n) :
    ∀ t, ((fas t).basis = (fas 0).basis ∧ (fas t).optimiser.momentum = (fas 0).optimiser.momentum ∧
      (fas t).optimiser.learningRate = (fas 0).optimiser.learningRate ∧ (fas t).optimiser.velocity.length = n ∧
      (fas t).weights.length = n) ∧
      ∃ (ψ : Features (FP M)) (v : FP M), Same (φ t) ψ ∧ ψ.dot (fas t).weights = .ok v ∧
        velocityUpdate (fas 0).optimiser.momentum (fas t).optimiser.velocity ψ (ys t -. v) =
          .ok (fas (t + 1)).optimiser.velocity ∧
        ∀ i < n, entry (fas (t + 1)).weights i =
          (entry (fas t).weights i +. (fas 0).optimiser.learningRate *. entry (fas (t + 1)).optimiser.velocity i) := by
  have step : ∀ t, ((fas t).basis = (fas 0).basis ∧ (fas t).optimiser.momentum = (fas 0).optimiser.momentum ∧
      (fas t).optimiser.learningRate = (fas 0).optimiser.learningRate ∧ (fas t).optimiser.velocity.length = n ∧
      (fas t).weights.length = n) →
      ((fas (t + 1)).basis = (fas 0).basis ∧ (fas (t + 1)).optimiser.momentum = (fas 0).optimiser.momentum ∧
      (fas (t + 1)).optimiser.learningRate = (fas 0).optimiser.learningRate ∧ (fas (t + 1)).optimiser.velocity.length = n ∧
      (fas (t + 1)).weights.length = n) ∧
      ∃ (ψ : Features (FP M)) (v : FP M), Same (φ t) ψ ∧ ψ.dot (fas t).weights = .ok v ∧
        velocityUpdate (fas 0).optimiser.momentum (fas t).optimiser.velocity ψ (ys t -. v) =
          .ok (fas (t + 1)).optimiser.velocity ∧
        ∀ i < n, entry (fas (t + 1)).weights i =
          (entry (fas t).weights i +. (fas 0).optimiser.learningRate *. entry (fas (t + 1)).optimiser.velocity i) := by
    rintro t ⟨hb, hμ, hl, h4, h5⟩
    obtain ⟨φ', ψ, hp, hsame, v, o, w, hd, hst, e⟩ := hs t
    rw [hb, (hφ t).1] at hp
    cases hp
    obtain ⟨v', w', g1, g2, g3, g4, g5⟩ := momentum_scaled (fits_same hsame (hφ t).2) (fas t).optimiser h4 (ys t -. v) h5
    rw [hst] at g1
    cases g1
    rw [e]
    rw [hμ] at g2
    rw [hl] at g5
    exact ⟨⟨hb, hμ, hl, g3, g4⟩, ψ, v, hsame, hd, g2, g5⟩
  have inv : ∀ t, (fas t).basis = (fas 0).basis ∧ (fas t).optimiser.momentum = (fas 0).optimiser.momentum ∧
      (fas t).optimiser.learningRate = (fas 0).optimiser.learningRate ∧ (fas t).optimiser.velocity.length = n ∧
      (fas t).weights.length = n := by
    intro t
    induction t with
    | zero => exact ⟨rfl, rfl, rfl, hv, hn⟩
    | succ t ih => exact (step t ih).1
  exact fun t => ⟨inv t, (step t (inv t)).2⟩

/-- A run of NAG, each hash map iterating in any order at each call. -/
theorem nag_any_trace {n : Nat} {fas : Nat → ScalarLFA B (NAG (FP M)) (FP M)} {xs : Nat → I} {ys : Nat → FP M}
    (hs : ∀ t, CanUpdateWith (fas t) (xs t) (fun p => ys t -. p) (fas (t + 1))) {φ : Nat → Features (FP M)}
    (hφ : ∀ t, Basis.project (fas 0).basis (xs t) = .ok (.ok (φ t)) ∧ Fits n (φ t)) (hn : (fas 0).weights.length = n)
    (hv : (fas 0).optimiser.velocity.length = n) :
    ∀ t, ((fas t).basis = (fas 0).basis ∧ (fas t).optimiser.momentum = (fas 0).optimiser.momentum ∧
      (fas t).optimiser.learningRate = (fas 0).optimiser.learningRate ∧ (fas t).optimiser.velocity.length = n ∧
      (fas t).weights.length = n) ∧
      ∃ (ψ : Features (FP M)) (v : FP M), Same (φ t) ψ ∧ ψ.dot (fas t).weights = .ok v ∧
        velocityUpdate (fas 0).optimiser.momentum (fas t).optimiser.velocity ψ (ys t -. v) =
          .ok (fas (t + 1)).optimiser.velocity ∧
        ∀ i < n, (∀ a, Stored ψ i a → entry (fas (t + 1)).weights i = (entry (fas t).weights i +.
            (fas 0).optimiser.learningRate *. entry (fas (t + 1)).optimiser.velocity i +. (fas 0).optimiser.momentum *. a)) ∧
          (¬ Active ψ i → entry (fas (t + 1)).weights i =
            (entry (fas t).weights i +. (fas 0).optimiser.learningRate *. entry (fas (t + 1)).optimiser.velocity i)) := by
  have step : ∀ t, ((fas t).basis = (fas 0).basis ∧ (fas t).optimiser.momentum = (fas 0).optimiser.momentum ∧
      (fas t).optimiser.learningRate = (fas 0).optimiser.learningRate ∧ (fas t).optimiser.velocity.length = n ∧
      (fas t).weights.length = n) →
      ((fas (t + 1)).basis = (fas 0).basis ∧ (fas (t + 1)).optimiser.momentum = (fas 0).optimiser.momentum ∧
      (fas (t + 1)).optimiser.learningRate = (fas 0).optimiser.learningRate ∧ (fas (t + 1)).optimiser.velocity.length = n ∧
      (fas (t + 1)).weights.length = n) ∧
      ∃ (ψ : Features (FP M)) (v : FP M), Same (φ t) ψ ∧ ψ.dot (fas t).weights = .ok v ∧
        velocityUpdate (fas 0).optimiser.momentum (fas t).optimiser.velocity ψ (ys t -. v) =
          .ok (fas (t + 1)).optimiser.velocity ∧
        ∀ i < n, (∀ a, Stored ψ i a → entry (fas (t + 1)).weights i = (entry (fas t).weights i +.
            (fas 0).optimiser.learningRate *. entry (fas (t + 1)).optimiser.velocity i +. (fas 0).optimiser.momentum *. a)) ∧
          (¬ Active ψ i → entry (fas (t + 1)).weights i =
            (entry (fas t).weights i +. (fas 0).optimiser.learningRate *. entry (fas (t + 1)).optimiser.velocity i)) := by
    rintro t ⟨hb, hμ, hl, h4, h5⟩
    obtain ⟨φ', ψ, hp, hsame, v, o, w, hd, hst, e⟩ := hs t
    rw [hb, (hφ t).1] at hp
    cases hp
    have hf := fits_same hsame (hφ t).2
    obtain ⟨v', w₁, w', g1, g2, g6, g3, g7, g4, g5⟩ := nag_scaled hf (fas t).optimiser h4 (ys t -. v) h5
    obtain ⟨w₂, c1, -, c2⟩ := scaledAddto_any hf (fas t).optimiser.momentum g7
    rw [g6] at c1
    cases c1
    rw [hst] at g1
    cases g1
    rw [e]
    rw [hμ] at g2 c2
    rw [hl] at g5
    refine ⟨⟨hb, hμ, hl, g3, g4⟩, ψ, v, hsame, hd, g2, fun i hi => ⟨fun a ha => ?_, fun ha => ?_⟩⟩
    · rw [← g5 i hi]
      exact (c2 i hi).1 a ha
    · rw [← g5 i hi]
      exact (c2 i hi).2 ha
  have inv : ∀ t, (fas t).basis = (fas 0).basis ∧ (fas t).optimiser.momentum = (fas 0).optimiser.momentum ∧
      (fas t).optimiser.learningRate = (fas 0).optimiser.learningRate ∧ (fas t).optimiser.velocity.length = n ∧
      (fas t).weights.length = n := by
    intro t
    induction t with
    | zero => exact ⟨rfl, rfl, rfl, hv, hn⟩
    | succ t ih => exact (step t ih).1
  exact fun t => ⟨inv t, (step t (inv t)).2⟩

/-- A prediction with weights near those of an exact run. -/
theorem momentum_eval (hM : M.rnd = binary64Format.rnd) {n k L : Nat} {μ l ρ D r : ℝ} {g : Nat → Nat → ℝ} {y : Nat → ℝ}
    (hc : SteadyMomentum n k L μ l ρ D r g y) (hρ : 0 ≤ ρ) (hsize : n ≤ 2 ^ 40) {u0 x0 : Nat → ℝ} (hu : ∀ i < n, |u0 i| ≤ 2 ^ 100)
    (hx : ∀ i < n, |x0 i| ≤ 2 ^ 100) {W E : ℝ} (hW : W = 2 * energyLen n μ l u0 (fun i => -x0 i) + 10 * L * D / (1 - r))
    (hE : E = 10 * L * ((12 * k + 60) * 2 ^ (-53 : ℤ) * (W + D) + 2 ^ (-800 : ℤ)) / (1 - r)) {u x : Nat → ℝ} {w : List (FP M)}
    (hw : w.length = n) (hf : ∀ i < n, Spec.Finite (entry w i)) {d : Nat → ℝ} (h1 : energyLen n μ l u x ≤ W)
    (h2 : energyLen n μ l (fun i => real (entry w i) - u i) d ≤ E) {χ ω : Features (FP M)} {z v : FP M} (hχ : Fits n χ)
    (hs : Same χ ω) (hmod : Moderate n k χ z) (hd : ω.dot w = .ok v) :
    Spec.Finite v ∧ |real v - ∑ j ∈ Finset.range n, real (value χ j) * u j| ≤
      5 * (len n (fun i => real (value χ i)) * E) + 2 ^ (-1034 : ℤ) := by
  obtain ⟨⟨m0, m1⟩, ⟨l0, l1⟩, -, ⟨hD, hD1⟩, r0, Lpos, -, hL⟩ := hc
  have lp : 0 < l := lt_of_lt_of_le (by positivity) l0
  have hm1 : 0 < 1 - μ := by linarith
  have hu' := roundoff_pos
  have k0 : (0 : ℝ) ≤ k := k.cast_nonneg
  have e53 : (2 : ℝ) ^ (-53 : ℤ) = roundoff := by rw [roundoff]
  have e51 : (2 : ℝ) ^ (-51 : ℤ) = 4 * roundoff := by rw [roundoff]; norm_num
  have neg : ∀ f : Nat → ℝ, len n (fun i => -f i) = len n f := fun f => by unfold len; simp only [neg_sq]
  have n0 : energyLen n μ l u0 (fun i => -x0 i) ≤ 2 ^ 222 := by
    refine (energyLen_le n m0 m1 lp.le _ _).trans ?_
    rw [neg]
    have a1 : len n u0 ≤ 2 ^ 20 * 2 ^ 100 := len_le_of_bounded hsize (by positivity) hu
    have a2 : len n x0 ≤ 2 ^ 20 * 2 ^ 100 := len_le_of_bounded hsize (by positivity) hx
    have a3 : l / (1 - μ) ≤ 2 ^ 100 := by rwa [div_le_iff₀ hm1]
    have a4 := mul_le_mul a3 a2 (len_nonneg _ _) (by positivity)
    have a5 : (2 : ℝ) ^ 20 * 2 ^ 100 + 2 * (2 ^ 100 * (2 ^ 20 * 2 ^ 100)) ≤ 2 ^ 222 := by norm_num
    linarith
  have ha : 0 ≤ l / (1 - μ) := div_nonneg lp.le hm1.le
  have D0 : 0 ≤ D := le_trans (add_nonneg (mul_nonneg hρ (len_nonneg _ _)) (mul_nonneg (mul_nonneg (by linarith) (len_nonneg _ _))
    (abs_nonneg _))) (hD 0)
  rw [e53] at hE
  obtain ⟨s1, s2⟩ := shadow_size (energyLen_nonneg n μ l u0 (fun i => -x0 i)) n0 D0 hD1
    (ε := (12 * k + 60) * roundoff) (η := 2 ^ (-800 : ℤ)) (by nlinarith) (by positivity)
    (tiny_rate (by linarith) (by norm_num)) r0 Lpos (by rw [e51] at hL; linarith) hW hE
  have hsq : √(1 + μ) ≤ 3 / 2 := Real.sqrt_le_iff.2 ⟨by norm_num, by linarith⟩
  have c1 : len n u ≤ 3 / 2 * W :=
    (len_le_energyLen n m0 m1 lp.le _ _).trans (mul_le_mul hsq h1 (energyLen_nonneg _ _ _ _ _) (by norm_num))
  have c2 : len n (fun i => real (entry w i) - u i) ≤ 3 / 2 * E :=
    (len_le_energyLen n m0 m1 lp.le _ _).trans (mul_le_mul hsq h2 (energyLen_nonneg _ _ _ _ _) (by norm_num))
  have hvx : ∀ i, value ω i = value χ i := fun i =>
    value_same hs (keysUnique_of_wf hχ.1) (keysUnique_of_wf (fits_same hs hχ).1) i
  have big : 3 / 2 * W + 3 / 2 * E ≤ 2 ^ 252 := by
    have : 3 / 2 * (2 : ℝ) ^ 251 ≤ 2 ^ 252 := by norm_num
    exact le_trans (by linarith) this
  obtain ⟨g1, g2⟩ := eval_near hM (fits_same hs hχ) (moderate_same hs hmod) hw hd hf c1 c2
    (ε := (12 * k + 60) * roundoff) (by nlinarith) big (by linarith) (by positivity)
  refine ⟨g1, ?_⟩
  simp only [hvx] at g2
  refine g2.trans ?_
  have := mul_nonneg (len_nonneg n fun i => real (value χ i)) ((energyLen_nonneg _ _ _ _ _).trans h2)
  generalize (2 : ℝ) ^ (-1034 : ℤ) = η
  linarith

/-- Momentum under the conditions of C190, each hash map iterating in any order at each call. For ever: weights and velocities are finite
and within `E` of exact training, and whatever `evaluate` can return at an input with moderate features is finite and within `5 ‖φ‖ E`
(up to `2^-1034`) of the exact prediction. -/
theorem C191_momentum (hM : M.rnd = binary64Format.rnd) (n k L : Nat) (fas : Nat → ScalarLFA B (SGDMomentum (FP M)) (FP M))
    (xs : Nat → I) (ys : Nat → FP M) (hs : ∀ t, CanUpdateWith (fas t) (xs t) (fun p => ys t -. p) (fas (t + 1)))
    (φ : Nat → Features (FP M)) (hφ : ∀ t, Basis.project (fas 0).basis (xs t) = .ok (.ok (φ t)) ∧ Fits n (φ t))
    (hn : (fas 0).weights.length = n ∧ (fas 0).optimiser.velocity.length = n)
    (hw : ∀ i < n, Bounded (2 ^ 100) (entry (fas 0).weights i) ∧ Bounded (2 ^ 100) (entry (fas 0).optimiser.velocity i))
    (μ l : ℝ) (hl : Is (fas 0).optimiser.learningRate l) (hμ : Is (fas 0).optimiser.momentum μ)
    (hmod : ∀ t, Moderate n k (φ t) (ys t)) (D r : ℝ)
    (hc : SteadyMomentum n k L μ l 0 D r (fun t i => real (value (φ t) i)) fun t => real (ys t)) (us vs : Nat → Nat → ℝ)
    (hus : ExactMomentum n μ l 0 (fun t i => real (value (φ t) i)) (fun t => real (ys t)) us vs)
    (hu0 : ∀ i < n, us 0 i = real (entry (fas 0).weights i) ∧ vs 0 i = real (entry (fas 0).optimiser.velocity i)) (W E : ℝ)
    (hW : W = 2 * energyLen n μ l (us 0) (fun i => -vs 0 i) + 10 * L * D / (1 - r))
    (hE : E = 10 * L * ((12 * k + 60) * 2 ^ (-53 : ℤ) * (W + D) + 2 ^ (-800 : ℤ)) / (1 - r)) (t : Nat) :
    (∀ i < n, Spec.Finite (entry (fas t).weights i) ∧ Spec.Finite (entry (fas t).optimiser.velocity i)) ∧
    energyLen n μ l (us t) (fun i => -vs t i) ≤ W ∧
    energyLen n μ l (fun i => real (entry (fas t).weights i) - us t i)
      (fun i => -(real (entry (fas t).optimiser.velocity i) - vs t i)) ≤ E ∧
    ∀ (x : I) (χ : Features (FP M)) (y v : FP M), Basis.project (fas 0).basis x = .ok (.ok χ) → Fits n χ → Moderate n k χ y →
      CanEvaluate (fas t) x v → Spec.Finite v ∧
        |real v - ∑ j ∈ Finset.range n, real (value χ j) * us t j| ≤
          5 * (len n (fun i => real (value χ i)) * E) + 2 ^ (-1034 : ℤ) := by
  have run := momentum_any_trace hs hφ hn.1 hn.2
  choose ψ v hsame hdot hvel hstep using fun t => (run t).2
  have hval : ∀ t i, value (ψ t) i = value (φ t) i := fun t i =>
    value_same (hsame t) (keysUnique_of_wf (hφ t).2.1) (keysUnique_of_wf (fits_same (hsame t) (hφ t).2).1) i
  have hc' := hc
  obtain ⟨⟨m0, m1⟩, ⟨l0, l1⟩, h2, ⟨hD, hD1⟩, r0, Lpos, hr, hL⟩ := hc'
  have lp : 0 < l := lt_of_lt_of_le (by positivity) l0
  obtain ⟨r1, -, r3, r4, -⟩ := momentum_shadow hM (n := n) (k := k) (L := L) (ws := fun t => (fas t).weights)
    (vs := fun t => (fas t).optimiser.velocity) (us := us) (xs := vs) (m := (fas 0).optimiser.momentum) (ys := ys) (ps := v)
    (φ := ψ) (μ := μ) (l := l) (ρ := 0) (D := D) (r := r) (fun t => moderate_same (hsame t) (hmod t))
    (fun t => fits_same (hsame t) (hφ t).2) (fun t => (run t).1.2.2.2.2) (fun t => (run t).1.2.2.2.1) hdot hvel hμ m0 m1 l0 l1 le_rfl
    (fun t hb vb i hi => by
      rw [hstep t i hi]
      exact finite_of_bounded (move_bound hM (lr_bound m0 lp l1 hl) (hb i hi) (vb i hi)))
    (fun t hf => by
      simp only [zero_mul, add_zero, mul_zero]
      have h3 := moves_err hM (hstep t) hf
      rw [is_real hl] at h3
      refine h3.trans ?_
      unfold moveError
      rw [is_real hl, abs_of_pos lp]
      have c1 := (move_coef (len_nonneg n fun i => real (entry (fas t).weights i))).1
      have c2 := (move_coef (mul_nonneg lp.le (len_nonneg n fun i => real (entry (fas (t + 1)).optimiser.velocity i)))).2.2.1
      have c3 := (move_coef (mul_nonneg (Real.sqrt_nonneg (n : ℝ)) tiny_pos.le)).2.2.2.2.1
      linarith)
    (fun t i hi => by simp only [hval]; exact (hus t i hi).1) (fun t i hi => by simp only [hval]; exact (hus t i hi).2)
    (fun i hi => ⟨(hu0 i hi).1, (hw i hi).1⟩) (fun i hi => ⟨(hu0 i hi).2, (hw i hi).2⟩)
    (fun t => by simp only [hval]; exact h2 t) (fun t => by simp only [hval]; exact hD t) hD1 r0 Lpos
    (by simp only [hval]; exact hr) hL t hW hE
  refine ⟨r1, r3, r4, fun x χ y z hp hf hmodx he => ?_⟩
  obtain ⟨χ', ω, hp', hsx, hdx⟩ := he
  rw [(run t).1.1, hp] at hp'
  cases hp'
  exact momentum_eval hM hc le_rfl (hmod 0).size
    (fun i hi => by obtain ⟨a, ha, h⟩ := (hw i hi).1; rwa [(hu0 i hi).1, is_real ha])
    (fun i hi => by obtain ⟨a, ha, h⟩ := (hw i hi).2; rwa [(hu0 i hi).2, is_real ha]) hW hE (run t).1.2.2.2.2
    (fun i hi => (r1 i hi).1) r3 r4 hf hsx hmodx hdx

/-- The same for NAG. -/
theorem C191_nag (hM : M.rnd = binary64Format.rnd) (n k L : Nat) (fas : Nat → ScalarLFA B (NAG (FP M)) (FP M))
    (xs : Nat → I) (ys : Nat → FP M) (hs : ∀ t, CanUpdateWith (fas t) (xs t) (fun p => ys t -. p) (fas (t + 1)))
    (φ : Nat → Features (FP M)) (hφ : ∀ t, Basis.project (fas 0).basis (xs t) = .ok (.ok (φ t)) ∧ Fits n (φ t))
    (hn : (fas 0).weights.length = n ∧ (fas 0).optimiser.velocity.length = n)
    (hw : ∀ i < n, Bounded (2 ^ 100) (entry (fas 0).weights i) ∧ Bounded (2 ^ 100) (entry (fas 0).optimiser.velocity i))
    (μ l : ℝ) (hl : Is (fas 0).optimiser.learningRate l) (hμ : Is (fas 0).optimiser.momentum μ)
    (hmod : ∀ t, Moderate n k (φ t) (ys t)) (D r : ℝ)
    (hc : SteadyMomentum n k L μ l μ D r (fun t i => real (value (φ t) i)) fun t => real (ys t)) (us vs : Nat → Nat → ℝ)
    (hus : ExactMomentum n μ l μ (fun t i => real (value (φ t) i)) (fun t => real (ys t)) us vs)
    (hu0 : ∀ i < n, us 0 i = real (entry (fas 0).weights i) ∧ vs 0 i = real (entry (fas 0).optimiser.velocity i)) (W E : ℝ)
    (hW : W = 2 * energyLen n μ l (us 0) (fun i => -vs 0 i) + 10 * L * D / (1 - r))
    (hE : E = 10 * L * ((12 * k + 60) * 2 ^ (-53 : ℤ) * (W + D) + 2 ^ (-800 : ℤ)) / (1 - r)) (t : Nat) :
    (∀ i < n, Spec.Finite (entry (fas t).weights i) ∧ Spec.Finite (entry (fas t).optimiser.velocity i)) ∧
    energyLen n μ l (us t) (fun i => -vs t i) ≤ W ∧
    energyLen n μ l (fun i => real (entry (fas t).weights i) - us t i)
      (fun i => -(real (entry (fas t).optimiser.velocity i) - vs t i)) ≤ E ∧
    ∀ (x : I) (χ : Features (FP M)) (y v : FP M), Basis.project (fas 0).basis x = .ok (.ok χ) → Fits n χ → Moderate n k χ y →
      CanEvaluate (fas t) x v → Spec.Finite v ∧
        |real v - ∑ j ∈ Finset.range n, real (value χ j) * us t j| ≤
          5 * (len n (fun i => real (value χ i)) * E) + 2 ^ (-1034 : ℤ) := by
  have run := nag_any_trace hs hφ hn.1 hn.2
  choose ψ v hsame hdot hvel hstep using fun t => (run t).2
  have hval : ∀ t i, value (ψ t) i = value (φ t) i := fun t i =>
    value_same (hsame t) (keysUnique_of_wf (hφ t).2.1) (keysUnique_of_wf (fits_same (hsame t) (hφ t).2).1) i
  have hc' := hc
  obtain ⟨⟨m0, m1⟩, ⟨l0, l1⟩, h2, ⟨hD, hD1⟩, r0, Lpos, hr, hL⟩ := hc'
  have lp : 0 < l := lt_of_lt_of_le (by positivity) l0
  obtain ⟨r1, -, r3, r4, -⟩ := momentum_shadow hM (n := n) (k := k) (L := L) (ws := fun t => (fas t).weights)
    (vs := fun t => (fas t).optimiser.velocity) (us := us) (xs := vs) (m := (fas 0).optimiser.momentum) (ys := ys) (ps := v)
    (φ := ψ) (μ := μ) (l := l) (ρ := μ) (D := D) (r := r) (fun t => moderate_same (hsame t) (hmod t))
    (fun t => fits_same (hsame t) (hφ t).2) (fun t => (run t).1.2.2.2.2) (fun t => (run t).1.2.2.2.1) hdot hvel hμ m0 m1 l0 l1 m0
    (fun t hb vb i hi => by
      have b1 := move_bound hM (lr_bound m0 lp l1 hl) (hb i hi) (vb i hi)
      by_cases ha : Active (ψ t) i
      · obtain ⟨a, ha⟩ := ha
        rw [(hstep t i hi).1 a ha]
        have b2 : Bounded (2 ^ 0) (fas 0).optimiser.momentum :=
          ⟨μ, hμ, by rw [abs_of_nonneg m0, pow_zero]; exact m1.le⟩
        have b3 := bounded_mul_pow hM (j := 0) (k := 100) (by norm_num) b2 ((moderate_same (hsame t) (hmod t)).features i a ha)
        exact finite_of_bounded (bounded_add_pow hM (k := 603) (by norm_num) b1
          (bounded_mono b3 (pow_le_pow_right₀ (by norm_num) (by norm_num)))).1
      · rw [(hstep t i hi).2 ha]
        exact finite_of_bounded b1)
    (fun t hf => by
      have h3 := lookaheads_err hM (fits_same (hsame t) (hφ t).2) (hstep t) hf
      rw [is_real hl, is_real hμ] at h3
      refine h3.trans ?_
      unfold lookaheadError
      rw [is_real hl, is_real hμ, abs_of_pos lp, abs_of_nonneg m0]
      have c1 := (move_coef (len_nonneg n fun i => real (entry (fas t).weights i))).2.1
      have c2 := (move_coef (mul_nonneg lp.le (len_nonneg n fun i => real (entry (fas (t + 1)).optimiser.velocity i)))).2.2.2.1
      have c3 := (move_coef (mul_nonneg m0 (len_nonneg n fun i => real (value (ψ t) i)))).2.1
      have c4 := (move_coef (mul_nonneg (Real.sqrt_nonneg (n : ℝ)) tiny_pos.le)).2.2.2.2.2
      linarith)
    (fun t i hi => by simp only [hval]; exact (hus t i hi).1) (fun t i hi => by simp only [hval]; exact (hus t i hi).2)
    (fun i hi => ⟨(hu0 i hi).1, (hw i hi).1⟩) (fun i hi => ⟨(hu0 i hi).2, (hw i hi).2⟩)
    (fun t => by simp only [hval]; exact h2 t) (fun t => by simp only [hval]; exact hD t) hD1 r0 Lpos
    (by simp only [hval]; exact hr) hL t hW hE
  refine ⟨r1, r3, r4, fun x χ y z hp hf hmodx he => ?_⟩
  obtain ⟨χ', ω, hp', hsx, hdx⟩ := he
  rw [(run t).1.1, hp] at hp'
  cases hp'
  exact momentum_eval hM hc m0 (hmod 0).size
    (fun i hi => by obtain ⟨a, ha, h⟩ := (hw i hi).1; rwa [(hu0 i hi).1, is_real ha])
    (fun i hi => by obtain ⟨a, ha, h⟩ := (hw i hi).2; rwa [(hu0 i hi).2, is_real ha]) hW hE (run t).1.2.2.2.2
    (fun i hi => (r1 i hi).1) r3 r4 hf hsx hmodx hdx

end Single

section Two
variable {B B' I I' : Type} [Space B] [Basis B I (FP M)] [Space B'] [Basis B' I' (FP M')]

/-- Two runs near the same exact one are near one another. -/
theorem energyLen_two {n : Nat} {μ l : ℝ} (h1 : μ < 1) (hl : 0 ≤ l) {f g u f' g' u' : Nat → ℝ} {E : ℝ}
    (ha : energyLen n μ l (fun i => f i - u i) (fun i => -(f' i - u' i)) ≤ E)
    (hb : energyLen n μ l (fun i => g i - u i) (fun i => -(g' i - u' i)) ≤ E) :
    energyLen n μ l (fun i => f i - g i) (fun i => -(f' i - g' i)) ≤ 2 * E := by
  have e : energyLen n μ l (fun i => u i - g i) (fun i => -(u' i - g' i)) =
      energyLen n μ l (fun i => g i - u i) (fun i => -(g' i - u' i)) := by
    unfold energyLen
    congr 1
    have neg : ∀ f : Nat → ℝ, len n (fun i => -f i) = len n f := fun f => by unfold len; simp only [neg_sq]
    rw [← neg (fun i => g i - u i - μ * (l / (1 - μ)) * -(g' i - u' i)), ← neg (fun i => -(g' i - u' i)),
      len_congr (n := n) (f := fun i => -(g i - u i - μ * (l / (1 - μ)) * -(g' i - u' i)))
        (g := fun i => u i - g i - μ * (l / (1 - μ)) * -(u' i - g' i)) (fun i _ => by ring),
      len_congr (n := n) (f := fun i => -(-(g' i - u' i))) (g := fun i => -(u' i - g' i)) (fun i _ => by ring)]
  have := energyLen_add_le n h1 hl (fun i => f i - u i) (fun i => -(f' i - u' i)) (fun i => u i - g i) (fun i => -(u' i - g' i))
  rw [energyLen_congr (d' := fun i => f i - g i) (u' := fun i => -(f' i - g' i)) (fun i _ => by ring) fun i _ => by ring, e] at this
  linarith

/-- Two runs of Momentum, on any two machines that round as f64 does, over any two bases whose features have the same values, with the same
momentum, rate, targets, initial weights and velocities, every hash map iterating in its own order at every call. For ever: the two are
within `2 E` of one another in weights and velocities, and whatever the two can predict at an input with the same moderate features is
within `10 ‖φ‖ E` (up to `2^-1033`). -/
theorem C191_momentum_runs (hM : M.rnd = binary64Format.rnd) (hM' : M'.rnd = binary64Format.rnd) (n k L : Nat)
    (fas : Nat → ScalarLFA B (SGDMomentum (FP M)) (FP M)) (gas : Nat → ScalarLFA B' (SGDMomentum (FP M')) (FP M')) (xs : Nat → I)
    (xs' : Nat → I') (ys : Nat → FP M) (ys' : Nat → FP M')
    (hs : ∀ t, CanUpdateWith (fas t) (xs t) (fun p => ys t -. p) (fas (t + 1)))
    (hg : ∀ t, CanUpdateWith (gas t) (xs' t) (fun p => ys' t -. p) (gas (t + 1)))
    (φ : Nat → Features (FP M)) (φ' : Nat → Features (FP M'))
    (hφ : ∀ t, Basis.project (fas 0).basis (xs t) = .ok (.ok (φ t)) ∧ Fits n (φ t))
    (hφ' : ∀ t, Basis.project (gas 0).basis (xs' t) = .ok (.ok (φ' t)) ∧ Fits n (φ' t))
    (hv : ∀ t i, real (value (φ' t) i) = real (value (φ t) i)) (hy : ∀ t, real (ys' t) = real (ys t))
    (hn : (fas 0).weights.length = n ∧ (fas 0).optimiser.velocity.length = n)
    (hn' : (gas 0).weights.length = n ∧ (gas 0).optimiser.velocity.length = n)
    (hw : ∀ i < n, Bounded (2 ^ 100) (entry (fas 0).weights i) ∧ Bounded (2 ^ 100) (entry (fas 0).optimiser.velocity i))
    (hw' : ∀ i < n, Bounded (2 ^ 100) (entry (gas 0).weights i) ∧ Bounded (2 ^ 100) (entry (gas 0).optimiser.velocity i))
    (hww : ∀ i < n, real (entry (gas 0).weights i) = real (entry (fas 0).weights i) ∧
      real (entry (gas 0).optimiser.velocity i) = real (entry (fas 0).optimiser.velocity i))
    (μ l : ℝ) (hl : Is (fas 0).optimiser.learningRate l ∧ Is (gas 0).optimiser.learningRate l)
    (hμ : Is (fas 0).optimiser.momentum μ ∧ Is (gas 0).optimiser.momentum μ)
    (hmod : ∀ t, Moderate n k (φ t) (ys t)) (hmod' : ∀ t, Moderate n k (φ' t) (ys' t)) (D r : ℝ)
    (hc : SteadyMomentum n k L μ l 0 D r (fun t i => real (value (φ t) i)) fun t => real (ys t)) (W E : ℝ)
    (hW : W = 2 * energyLen n μ l (fun i => real (entry (fas 0).weights i))
      (fun i => -real (entry (fas 0).optimiser.velocity i)) + 10 * L * D / (1 - r))
    (hE : E = 10 * L * ((12 * k + 60) * 2 ^ (-53 : ℤ) * (W + D) + 2 ^ (-800 : ℤ)) / (1 - r)) (t : Nat) :
    (∀ i < n, Spec.Finite (entry (fas t).weights i) ∧ Spec.Finite (entry (gas t).weights i)) ∧
    energyLen n μ l (fun i => real (entry (fas t).weights i) - real (entry (gas t).weights i))
      (fun i => -(real (entry (fas t).optimiser.velocity i) - real (entry (gas t).optimiser.velocity i))) ≤ 2 * E ∧
    len n (fun i => real (entry (fas t).weights i) - real (entry (gas t).weights i)) ≤ 3 * E ∧
    ∀ (x : I) (x' : I') (χ : Features (FP M)) (χ' : Features (FP M')) (y v : FP M) (y' v' : FP M'),
      Basis.project (fas 0).basis x = .ok (.ok χ) → Basis.project (gas 0).basis x' = .ok (.ok χ') → Fits n χ → Fits n χ' →
      (∀ i, real (value χ' i) = real (value χ i)) → Moderate n k χ y → Moderate n k χ' y' →
      CanEvaluate (fas t) x v → CanEvaluate (gas t) x' v' → Spec.Finite v ∧ Spec.Finite v' ∧
        |real v - real v'| ≤ 10 * (len n (fun i => real (value χ i)) * E) + 2 ^ (-1033 : ℤ) := by
  obtain ⟨us, vs, hus, u0, v0⟩ := exactMomentum_exists n μ l 0 (fun t i => real (value (φ t) i)) (fun t => real (ys t))
    (fun i => real (entry (fas 0).weights i)) (fun i => real (entry (fas 0).optimiser.velocity i))
  obtain ⟨a1, -, a3, a4⟩ := C191_momentum hM n k L fas xs ys hs φ hφ hn hw μ l hl.1 hμ.1 hmod D r hc us vs hus
    (fun i _ => ⟨by rw [u0], by rw [v0]⟩) W E (by rw [u0, v0]; exact hW) hE t
  obtain ⟨b1, -, b3, b4⟩ := C191_momentum hM' n k L gas xs' ys' hg φ' hφ' hn' hw' μ l hl.2 hμ.2 hmod' D r
    (by simp only [hv, hy]; exact hc) us vs (by simp only [hv, hy]; exact hus)
    (fun i hi => ⟨by rw [u0, (hww i hi).1], by rw [v0, (hww i hi).2]⟩) W E (by rw [u0, v0]; exact hW) hE t
  have h2 := energyLen_two hc.momentum.2 (le_trans (by positivity) hc.rate.1) a3 b3
  refine ⟨fun i hi => ⟨(a1 i hi).1, (b1 i hi).1⟩, h2, ?_, fun x x' χ χ' y v y' v' hp hp' hf hf' hχ hm hm' he he' => ?_⟩
  · have hsq : √(1 + μ) ≤ 3 / 2 := Real.sqrt_le_iff.2 ⟨by norm_num, by linarith [hc.momentum.2]⟩
    exact ((len_le_energyLen n hc.momentum.1 hc.momentum.2 (le_trans (by positivity) hc.rate.1) _ _).trans
      (mul_le_mul hsq h2 (energyLen_nonneg _ _ _ _ _) (by norm_num))).trans (le_of_eq (by ring))
  obtain ⟨c1, c2⟩ := a4 x χ y v hp hf hm he
  obtain ⟨d1, d2⟩ := b4 x' χ' y' v' hp' hf' hm' he'
  simp only [hχ] at d2
  refine ⟨c1, d1, ?_⟩
  have e : (2 : ℝ) ^ (-1033 : ℤ) = 2 * 2 ^ (-1034 : ℤ) := by
    rw [show (-1033 : ℤ) = 1 + -1034 by norm_num, zpow_add₀ (by norm_num), zpow_one]
  rw [abs_sub_comm] at d2
  rw [e]
  exact ((abs_sub_le (real v) _ (real v')).trans (add_le_add c2 d2)).trans (le_of_eq (by ring))

/-- The same for NAG. -/
theorem C191_nag_runs (hM : M.rnd = binary64Format.rnd) (hM' : M'.rnd = binary64Format.rnd) (n k L : Nat)
    (fas : Nat → ScalarLFA B (NAG (FP M)) (FP M)) (gas : Nat → ScalarLFA B' (NAG (FP M')) (FP M')) (xs : Nat → I)
    (xs' : Nat → I') (ys : Nat → FP M) (ys' : Nat → FP M')
    (hs : ∀ t, CanUpdateWith (fas t) (xs t) (fun p => ys t -. p) (fas (t + 1)))
    (hg : ∀ t, CanUpdateWith (gas t) (xs' t) (fun p => ys' t -. p) (gas (t + 1)))
    (φ : Nat → Features (FP M)) (φ' : Nat → Features (FP M'))
    (hφ : ∀ t, Basis.project (fas 0).basis (xs t) = .ok (.ok (φ t)) ∧ Fits n (φ t))
    (hφ' : ∀ t, Basis.project (gas 0).basis (xs' t) = .ok (.ok (φ' t)) ∧ Fits n (φ' t))
    (hv : ∀ t i, real (value (φ' t) i) = real (value (φ t) i)) (hy : ∀ t, real (ys' t) = real (ys t))
    (hn : (fas 0).weights.length = n ∧ (fas 0).optimiser.velocity.length = n)
    (hn' : (gas 0).weights.length = n ∧ (gas 0).optimiser.velocity.length = n)
    (hw : ∀ i < n, Bounded (2 ^ 100) (entry (fas 0).weights i) ∧ Bounded (2 ^ 100) (entry (fas 0).optimiser.velocity i))
    (hw' : ∀ i < n, Bounded (2 ^ 100) (entry (gas 0).weights i) ∧ Bounded (2 ^ 100) (entry (gas 0).optimiser.velocity i))
    (hww : ∀ i < n, real (entry (gas 0).weights i) = real (entry (fas 0).weights i) ∧
      real (entry (gas 0).optimiser.velocity i) = real (entry (fas 0).optimiser.velocity i))
    (μ l : ℝ) (hl : Is (fas 0).optimiser.learningRate l ∧ Is (gas 0).optimiser.learningRate l)
    (hμ : Is (fas 0).optimiser.momentum μ ∧ Is (gas 0).optimiser.momentum μ)
    (hmod : ∀ t, Moderate n k (φ t) (ys t)) (hmod' : ∀ t, Moderate n k (φ' t) (ys' t)) (D r : ℝ)
    (hc : SteadyMomentum n k L μ l μ D r (fun t i => real (value (φ t) i)) fun t => real (ys t)) (W E : ℝ)
    (hW : W = 2 * energyLen n μ l (fun i => real (entry (fas 0).weights i))
      (fun i => -real (entry (fas 0).optimiser.velocity i)) + 10 * L * D / (1 - r))
    (hE : E = 10 * L * ((12 * k + 60) * 2 ^ (-53 : ℤ) * (W + D) + 2 ^ (-800 : ℤ)) / (1 - r)) (t : Nat) :
    (∀ i < n, Spec.Finite (entry (fas t).weights i) ∧ Spec.Finite (entry (gas t).weights i)) ∧
    energyLen n μ l (fun i => real (entry (fas t).weights i) - real (entry (gas t).weights i))
      (fun i => -(real (entry (fas t).optimiser.velocity i) - real (entry (gas t).optimiser.velocity i))) ≤ 2 * E ∧
    len n (fun i => real (entry (fas t).weights i) - real (entry (gas t).weights i)) ≤ 3 * E ∧
    ∀ (x : I) (x' : I') (χ : Features (FP M)) (χ' : Features (FP M')) (y v : FP M) (y' v' : FP M'),
      Basis.project (fas 0).basis x = .ok (.ok χ) → Basis.project (gas 0).basis x' = .ok (.ok χ') → Fits n χ → Fits n χ' →
      (∀ i, real (value χ' i) = real (value χ i)) → Moderate n k χ y → Moderate n k χ' y' →
      CanEvaluate (fas t) x v → CanEvaluate (gas t) x' v' → Spec.Finite v ∧ Spec.Finite v' ∧
        |real v - real v'| ≤ 10 * (len n (fun i => real (value χ i)) * E) + 2 ^ (-1033 : ℤ) := by
  obtain ⟨us, vs, hus, u0, v0⟩ := exactMomentum_exists n μ l μ (fun t i => real (value (φ t) i)) (fun t => real (ys t))
    (fun i => real (entry (fas 0).weights i)) (fun i => real (entry (fas 0).optimiser.velocity i))
  obtain ⟨a1, -, a3, a4⟩ := C191_nag hM n k L fas xs ys hs φ hφ hn hw μ l hl.1 hμ.1 hmod D r hc us vs hus
    (fun i _ => ⟨by rw [u0], by rw [v0]⟩) W E (by rw [u0, v0]; exact hW) hE t
  obtain ⟨b1, -, b3, b4⟩ := C191_nag hM' n k L gas xs' ys' hg φ' hφ' hn' hw' μ l hl.2 hμ.2 hmod' D r
    (by simp only [hv, hy]; exact hc) us vs (by simp only [hv, hy]; exact hus)
    (fun i hi => ⟨by rw [u0, (hww i hi).1], by rw [v0, (hww i hi).2]⟩) W E (by rw [u0, v0]; exact hW) hE t
  have h2 := energyLen_two hc.momentum.2 (le_trans (by positivity) hc.rate.1) a3 b3
  refine ⟨fun i hi => ⟨(a1 i hi).1, (b1 i hi).1⟩, h2, ?_, fun x x' χ χ' y v y' v' hp hp' hf hf' hχ hm hm' he he' => ?_⟩
  · have hsq : √(1 + μ) ≤ 3 / 2 := Real.sqrt_le_iff.2 ⟨by norm_num, by linarith [hc.momentum.2]⟩
    exact ((len_le_energyLen n hc.momentum.1 hc.momentum.2 (le_trans (by positivity) hc.rate.1) _ _).trans
      (mul_le_mul hsq h2 (energyLen_nonneg _ _ _ _ _) (by norm_num))).trans (le_of_eq (by ring))
  obtain ⟨c1, c2⟩ := a4 x χ y v hp hf hm he
  obtain ⟨d1, d2⟩ := b4 x' χ' y' v' hp' hf' hm' he'
  simp only [hχ] at d2
  refine ⟨c1, d1, ?_⟩
  have e : (2 : ℝ) ^ (-1033 : ℤ) = 2 * 2 ^ (-1034 : ℤ) := by
    rw [show (-1033 : ℤ) = 1 + -1034 by norm_num, zpow_add₀ (by norm_num), zpow_one]
  rw [abs_sub_comm] at d2
  rw [e]
  exact ((abs_sub_le (real v) _ (real v')).trans (add_le_add c2 d2)).trans (le_of_eq (by ring))

end Two

section Example

theorem turn_momentum : MomentumPersistent 3 4 (fun t i => real (value (turnFeatures (FP M) t) i)) (1 / 2) (1 / 32)
    (10255 / 10256) := by
  have h := C190_excited 3 4 (fun t i => real (value (turnFeatures (FP M) t) i)) (1 / 2) (1 / 32) (1 / 32) (by norm_num)
    (by norm_num) (by norm_num) (by norm_num) (by norm_num) (fun t => by linarith [turn_sq (M := M) t]) (fun s u => by
      have := turn_excited (M := M) s u
      simp only [← Finset.mul_sum] at this ⊢
      linarith)
  refine fun s us vs hvs hus => (h s us vs hvs hus).trans (mul_le_mul_of_nonneg_right ?_ (energyLen_nonneg _ _ _ _ _))
  refine Real.sqrt_le_iff.2 ⟨by norm_num, by norm_num⟩

theorem turn_steady {ys : Nat → FP M} {Y : ℝ} (hY : Y ≤ 2 ^ 100) (hy : ∀ t, Bounded Y (ys t)) :
    SteadyMomentum 3 3 4 (1 / 2) (1 / 32) 0 (1 / 4 * Y) (10255 / 10256) (fun t i => real (value (turnFeatures (FP M) t) i))
      fun t => real (ys t) where
  momentum := by norm_num
  rate := by norm_num
  stable := fun t => by linarith [turn_sq (M := M) t]
  drive := by
    refine ⟨fun t => ?_, ?_⟩
    · obtain ⟨r, hr, h⟩ := hy t
      have h2 : len 3 (fun i => real (value (turnFeatures (FP M) t) i)) ≤ 2 := by
        refine abs_le_of_sq_le_sq' ?_ (by norm_num) |>.2
        rw [len_sq]
        linarith [turn_sq (M := M) t]
      rw [is_real hr]
      have := mul_le_mul h2 h (abs_nonneg _) (by norm_num)
      linarith
    · have : (2 : ℝ) ^ 100 ≤ 2 ^ 190 := pow_le_pow_right₀ (by norm_num) (by norm_num)
      have p : (0 : ℝ) < 2 ^ 100 := by positivity
      linarith
  contracts := ⟨by norm_num, by norm_num, turn_momentum, by norm_num⟩

/-- The hypotheses are met: three weights, three features in turn and then all at once, momentum `1/2`, rate `1/32`, any targets up to
`Y ≤ 2^100`. There are such runs, and the weights of any two of them differ by at most `2^-9 Y + 2^-779` for ever. -/
theorem C191_example (hM : M.rnd = binary64Format.rnd) (lr m : FP M) (hl : Is lr (1 / 32)) (hm : Is m (1 / 2)) (ys : Nat → FP M)
    (Y : ℝ) (hY : Y ≤ 2 ^ 100) (hy : ∀ t, Bounded Y (ys t)) :
    let Run := fun fas : Nat → ScalarLFA (Closure Nat (FP M)) (SGDMomentum (FP M)) (FP M) =>
      fas 0 = LFA.mk (inTurns (FP M)) [Scalar.zero, Scalar.zero, Scalar.zero] ⟨m, lr, [Scalar.zero, Scalar.zero, Scalar.zero]⟩ ∧
      ∀ t, CanUpdateWith (fas t) t (fun p => ys t -. p) (fas (t + 1))
    (∃ fas, Run fas) ∧ ∀ fas gas, Run fas → Run gas → ∀ t,
      len 3 (fun i => real (entry (fas t).weights i) - real (entry (gas t).weights i)) ≤ 2 ^ (-9 : ℤ) * Y + 2 ^ (-779 : ℤ) := by
  intro Run
  have Y0 : 0 ≤ Y := by
    obtain ⟨r, -, h⟩ := hy 0
    exact (abs_nonneg r).trans h
  refine ⟨?_, ?_⟩
  · obtain ⟨fas, ps, hs, h0⟩ := stream_any (O := SGDMomentum (FP M)) (inTurns (FP M)) (n := 3) (fun t => t) ys
      (fun t => ⟨_, rfl, turn_fits (FP M) t⟩) [Scalar.zero, Scalar.zero, Scalar.zero] rfl
      ⟨m, lr, [Scalar.zero, Scalar.zero, Scalar.zero]⟩ rfl
    exact ⟨fas, h0, fun t => C188_stream hs t⟩
  · rintro fas gas ⟨f0, hf⟩ ⟨g0, hg⟩ t
    have zero : ∀ i < 3, entry ([Scalar.zero, Scalar.zero, Scalar.zero] : List (FP M)) i = Scalar.zero := fun i hi => by
      interval_cases i <;> rfl
    have bz : ∀ i < 3, Bounded (2 ^ 100) (entry ([Scalar.zero, Scalar.zero, Scalar.zero] : List (FP M)) i) := fun i hi => by
      rw [zero i hi]; exact bounded_zero (by positivity)
    have W0 : energyLen 3 (1 / 2) (1 / 32) (fun i => real (entry ([Scalar.zero, Scalar.zero, Scalar.zero] : List (FP M)) i))
        (fun i => -real (entry ([Scalar.zero, Scalar.zero, Scalar.zero] : List (FP M)) i)) = 0 := by
      rw [energyLen_congr (d' := fun _ => 0) (u' := fun _ => 0) (fun i hi => by rw [zero i hi, is_real val_zero])
        (fun i hi => by rw [zero i hi, is_real val_zero, neg_zero]), energyLen_zero]
    obtain ⟨-, -, h, -⟩ := C191_momentum_runs hM hM 3 3 4 fas gas (fun t => t) (fun t => t) ys ys hf hg (turnFeatures (FP M))
      (turnFeatures (FP M)) (fun t => ⟨by rw [f0]; rfl, turn_fits _ t⟩) (fun t => ⟨by rw [g0]; rfl, turn_fits _ t⟩)
      (fun _ _ => rfl) (fun _ => rfl) (by rw [f0]; exact ⟨rfl, rfl⟩) (by rw [g0]; exact ⟨rfl, rfl⟩)
      (by rw [f0]; exact fun i hi => ⟨bz i hi, bz i hi⟩) (by rw [g0]; exact fun i hi => ⟨bz i hi, bz i hi⟩)
      (by rw [f0, g0]; exact fun _ _ => ⟨rfl, rfl⟩)
      (1 / 2) (1 / 32) (by rw [f0, g0]; exact ⟨hl, hl⟩) (by rw [f0, g0]; exact ⟨hm, hm⟩)
      (fun t => turn_moderate t hY (hy t)) (fun t => turn_moderate t hY (hy t)) _ _ (turn_steady hY hy) _ _ rfl rfl t
    refine h.trans ?_
    rw [f0, W0]
    have e800 : 3 * 410240 * (2 : ℝ) ^ (-800 : ℤ) ≤ 2 ^ (-779 : ℤ) := by
      rw [show (-779 : ℤ) = 21 + -800 by norm_num, zpow_add₀ (by norm_num)]
      exact mul_le_mul_of_nonneg_right (by norm_num) (by positivity)
    generalize (2 : ℝ) ^ (-800 : ℤ) = η at *
    generalize (2 : ℝ) ^ (-779 : ℤ) = η' at *
    push_cast
    norm_num
    linarith

end Example

end

end Lfa

import Verif.Spec.Regret
import Verif.Proofs.OptimReal
import Mathlib.Tactic.Linarith
import Mathlib.Tactic.Ring
import Mathlib.Tactic.FieldSimp
import Mathlib.Algebra.Order.BigOperators.Group.Finset

/-!
# C97–C98: regret of SGD and Adagrad against arbitrary reference weights

Exact arithmetic, endless runs, arbitrary (even adversarial) gradients.
-/

set_option linter.unusedSectionVars false

namespace Lfa

open Spec

/-- Every sequence of calls of the right size gives a run, from every optimiser state and weights of
that size. -/
theorem optRun_exists {K O : Type} [Scalar K] [Optimiser O K] [HasSize O] [Safe (K := K) O] {n : Nat}
    (es : Nat → Event K) (he : ∀ t, (es t).Fits n) {o : O} (ho : HasSize.sized n o) {w : List K}
    (hw : w.length = n) : ∃ os ws, os 0 = o ∧ ws 0 = w ∧ OptRun os ws es := by
  have next : ∀ (p : {p : O × List K // HasSize.sized n p.1 ∧ p.2.length = n}) (t : Nat),
      ∃ q : {p : O × List K // HasSize.sized n p.1 ∧ p.2.length = n},
        History p.1.1 p.1.2 [es t] q.1.1 q.1.2 := fun ⟨p, h1, h2⟩ t => by
    obtain ⟨o', w', h, h3, h4⟩ := history_exists (es := [es t]) h1 h2
      (fun e h => by rw [List.mem_singleton.mp h]; exact he t)
    exact ⟨⟨(o', w'), h3, h4⟩, h⟩
  choose f hf using next
  let run : Nat → {p : O × List K // HasSize.sized n p.1 ∧ p.2.length = n} :=
    fun t => Nat.rec ⟨(o, w), ho, hw⟩ (fun t p => f p t) t
  exact ⟨fun t => (run t).1.1, fun t => (run t).1.2, rfl, rfl, fun t => hf (run t) t⟩

/-- One call, seen as a scaled step or a reset. -/
theorem call_cases {O : Type} [Optimiser O ℝ] [UnitStep O] {n : Nat} {e : Event ℝ} {o o' : O}
    {w w' : List ℝ} (hf : e.Fits n) (h : History o w [e] o' w') :
    (∃ φ s, e.isStep = true ∧ (∀ i, e.grad i = value φ i * s) ∧ Fits n φ ∧
      Optimiser.stepScaled o w φ s = .ok (.ok (), o', w')) ∨
    (e = .reset ∧ o' = Optimiser.reset o ∧ w' = w) := by
  cases h with
  | step h t =>
    cases t
    rw [UnitStep.unit] at h
    exact .inl ⟨_, 1, rfl, fun i => (mul_one _).symm, hf, h⟩
  | stepScaled h t => cases t; exact .inl ⟨_, _, rfl, fun i => rfl, hf, h⟩
  | reset t => cases t; exact .inr ⟨rfl, rfl, rfl⟩

/-! ## C97 SGD -/

theorem sgd_call {n : Nat} {e : Event ℝ} {o o' : SGD ℝ} {w w' : List ℝ} (hf : e.Fits n)
    (hw : w.length = n) (h : History o w [e] o' w') :
    o' = o ∧ w'.length = n ∧ ∀ i < n, entry w' i = entry w i + o.lr * e.grad i := by
  rcases call_cases hf h with ⟨φ, s, -, hg, hφ, hs⟩ | ⟨rfl, rfl, rfl⟩
  · obtain ⟨w₁, h1, h2, h3⟩ := sgd_real hφ o s hw
    rw [hs] at h1
    cases h1
    exact ⟨rfl, h2, fun i hi => by rw [h3 i hi, hg]; ring⟩
  · exact ⟨rfl, hw, fun i _ => by show _ = _ + _ * (0 : ℝ); ring⟩

theorem sgd_run {n : Nat} {os : Nat → SGD ℝ} {ws : Nat → List ℝ} {es : Nat → Event ℝ}
    (hr : OptRun os ws es) (hw : (ws 0).length = n) (he : ∀ t, (es t).Fits n) (t : Nat) :
    os t = os 0 ∧ (ws t).length = n := by
  induction t with
  | zero => exact ⟨rfl, hw⟩
  | succ t ih =>
    obtain ⟨h1, h2, -⟩ := sgd_call (he t) ih.2 (hr t)
    exact ⟨h1.trans ih.1, h2⟩

/-- SGD's regret identity: `2·lr·∑ₜ gₜ·(u - wₜ) = |u - w₀|² - |u - w_T|² + lr²·∑ₜ |gₜ|²` for all
reference weights `u`, run lengths `T` and gradients (scaled features) `gₜ`. -/
theorem C97_sgd_identity (n : Nat) (os : Nat → SGD ℝ) (ws : Nat → List ℝ) (es : Nat → Event ℝ)
    (hr : OptRun os ws es) (hw : (ws 0).length = n) (he : ∀ t, (es t).Fits n) (u : List ℝ)
    (T : Nat) :
    2 * (os 0).lr * ∑ i ∈ Finset.range n, advantage i u ws es T
      = distSq n (ws 0) u - distSq n (ws T) u
        + (os 0).lr ^ 2 * ∑ t ∈ Finset.range T, ∑ i ∈ Finset.range n, (es t).grad i ^ 2 := by
  induction T with
  | zero => simp [advantage]
  | succ T ih =>
    obtain ⟨h1, h2⟩ := sgd_run hr hw he T
    obtain ⟨-, -, h3⟩ := sgd_call (he T) h2 (hr T)
    rw [h1] at h3
    have hd : distSq n (ws (T + 1)) u = distSq n (ws T) u
        - 2 * (os 0).lr * ∑ i ∈ Finset.range n, (es T).grad i * (entry u i - entry (ws T) i)
        + (os 0).lr ^ 2 * ∑ i ∈ Finset.range n, (es T).grad i ^ 2 := by
      unfold distSq
      rw [Finset.mul_sum, Finset.mul_sum, ← Finset.sum_sub_distrib, ← Finset.sum_add_distrib]
      refine Finset.sum_congr rfl fun i hi => ?_
      rw [h3 i (Finset.mem_range.mp hi)]
      ring
    have ha : ∑ i ∈ Finset.range n, advantage i u ws es (T + 1)
        = ∑ i ∈ Finset.range n, advantage i u ws es T
          + ∑ i ∈ Finset.range n, (es T).grad i * (entry u i - entry (ws T) i) := by
      rw [← Finset.sum_add_distrib]
      exact Finset.sum_congr rfl fun i _ => by unfold advantage; rw [Finset.sum_range_succ]
    rw [hd, ha, Finset.sum_range_succ, mul_add, ih]
    ring

/-- Linearised gains bound gains on objectives with supergradients. -/
theorem gain_le_advantage (n : Nat) (ws : Nat → List ℝ) (es : Nat → Event ℝ)
    (f : Nat → List ℝ → ℝ) (hf : ∀ t, Supergradient n (f t) (ws t) (es t).grad) (u : List ℝ)
    (hu : u.length = n) (T : Nat) :
    ∑ t ∈ Finset.range T, (f t u - f t (ws t)) ≤ ∑ i ∈ Finset.range n, advantage i u ws es T := by
  unfold advantage
  rw [Finset.sum_comm]
  exact Finset.sum_le_sum fun t _ => by have := hf t u hu; linarith

/-- SGD's regret bound for objectives that may change arbitrarily from call to call: if each call is
given a supergradient of `f t` at the current weights, no reference weights `u` collect more than
`|u - w₀|²/(2·lr) + (lr/2)·∑ₜ |gₜ|²` beyond what the weights in use collect. -/
theorem C97_sgd_regret (n : Nat) (os : Nat → SGD ℝ) (ws : Nat → List ℝ) (es : Nat → Event ℝ)
    (hr : OptRun os ws es) (hw : (ws 0).length = n) (he : ∀ t, (es t).Fits n)
    (hlr : 0 < (os 0).lr) (f : Nat → List ℝ → ℝ)
    (hf : ∀ t, Supergradient n (f t) (ws t) (es t).grad) (u : List ℝ) (hu : u.length = n)
    (T : Nat) :
    ∑ t ∈ Finset.range T, (f t u - f t (ws t))
      ≤ distSq n (ws 0) u / (2 * (os 0).lr)
        + (os 0).lr / 2 * ∑ t ∈ Finset.range T, ∑ i ∈ Finset.range n, (es t).grad i ^ 2 := by
  have h1 := gain_le_advantage n ws es f hf u hu T
  have h2 := C97_sgd_identity n os ws es hr hw he u T
  have h3 : 0 ≤ distSq n (ws T) u := Finset.sum_nonneg fun i _ => sq_nonneg _
  refine h1.trans ?_
  generalize ∑ i ∈ Finset.range n, advantage i u ws es T = A at *
  generalize ∑ t ∈ Finset.range T, ∑ i ∈ Finset.range n, (es t).grad i ^ 2 = G at *
  have : distSq n (ws 0) u / (2 * (os 0).lr) + (os 0).lr / 2 * G
      = (distSq n (ws 0) u + (os 0).lr ^ 2 * G) / (2 * (os 0).lr) := by
    field_simp
  rw [this, le_div_iff₀ (by positivity)]
  linarith

/-- Ascent on one objective: with `|gₜ|² ≤ G`, some weights among the first `T` come within
`|u - w₀|²/(2·lr·T) + lr·G/2` of the value at every `u`. -/
theorem C97_sgd_best (n : Nat) (os : Nat → SGD ℝ) (ws : Nat → List ℝ) (es : Nat → Event ℝ)
    (hr : OptRun os ws es) (hw : (ws 0).length = n) (he : ∀ t, (es t).Fits n)
    (hlr : 0 < (os 0).lr) (f : List ℝ → ℝ)
    (hf : ∀ t, Supergradient n f (ws t) (es t).grad) (G : ℝ)
    (hG : ∀ t, ∑ i ∈ Finset.range n, (es t).grad i ^ 2 ≤ G) (u : List ℝ) (hu : u.length = n)
    (T : Nat) (hT : 0 < T) :
    ∃ t < T, f u - f (ws t) ≤ distSq n (ws 0) u / (2 * (os 0).lr * T) + (os 0).lr * G / 2 := by
  by_contra hc
  push Not at hc
  have h1 := C97_sgd_regret n os ws es hr hw he hlr (fun _ => f) hf u hu T
  have h2 : ∑ t ∈ Finset.range T, ∑ i ∈ Finset.range n, (es t).grad i ^ 2 ≤ T * G := by
    have := Finset.sum_le_card_nsmul (Finset.range T) _ G fun t _ => hG t
    rwa [Finset.card_range, nsmul_eq_mul] at this
  have hT' : (0 : ℝ) < T := Nat.cast_pos.mpr hT
  have h3 : T * (distSq n (ws 0) u / (2 * (os 0).lr * T) + (os 0).lr * G / 2)
      < ∑ t ∈ Finset.range T, (f u - f (ws t)) := by
    have := Finset.sum_lt_sum_of_nonempty (s := Finset.range T)
      (Finset.nonempty_range_iff.mpr hT.ne') fun t ht => hc t (Finset.mem_range.mp ht)
    rwa [Finset.sum_const, Finset.card_range, nsmul_eq_mul] at this
  have h4 : (T : ℝ) * (distSq n (ws 0) u / (2 * (os 0).lr * T) + (os 0).lr * G / 2)
      = distSq n (ws 0) u / (2 * (os 0).lr) + (os 0).lr / 2 * (T * G) := by
    field_simp
  have h5 := mul_le_mul_of_nonneg_left h2 (by positivity : 0 ≤ (os 0).lr / 2)
  linarith

/-! ## C98 Adagrad -/

theorem adagrad_run {n : Nat} {lr : ℝ} {os : Nat → Adagrad ℝ} {ws : Nat → List ℝ}
    {es : Nat → Event ℝ} (hr : OptRun os ws es) (ho : os 0 = Adagrad.new n lr)
    (hw : (ws 0).length = n) (he : ∀ t, (es t).Fits n) (hs : ∀ t, (es t).isStep = true) (t : Nat) :
    ((os t).learningRate = lr ∧ (os t).accumulator.length = n ∧ (ws t).length = n) ∧
    ∀ i < n, entry (os t).accumulator i = ∑ s ∈ Finset.range t, (es s).grad i ^ 2 ∧
      entry (ws (t + 1)) i = entry (ws t) i
        + lr * (es t).grad i / (√(∑ s ∈ Finset.range (t + 1), (es s).grad i ^ 2) + 1e-7) := by
  have call : ∀ t, (os t).learningRate = lr → (os t).accumulator.length = n →
      (ws t).length = n →
      ((os (t + 1)).learningRate = lr ∧ (os (t + 1)).accumulator.length = n ∧
        (ws (t + 1)).length = n) ∧ ∀ i < n,
      entry (os (t + 1)).accumulator i = entry (os t).accumulator i + (es t).grad i ^ 2 ∧
      entry (ws (t + 1)) i = entry (ws t) i
        + lr * (es t).grad i / (√(entry (os (t + 1)).accumulator i) + 1e-7) := by
    intro t h1 h2 h3
    rcases call_cases (he t) (hr t) with ⟨φ, s, -, hg, hφ, h⟩ | ⟨hreset, -, -⟩
    · obtain ⟨acc, w', a1, a2, a3, a4⟩ := adagrad_real hφ (os t) h2 s h3
      rw [h] at a1
      obtain ⟨b1, b2⟩ : os (t + 1) = { os t with accumulator := acc } ∧ ws (t + 1) = w' := by
        simp only [Except.ok.injEq, Prod.mk.injEq, true_and] at a1
        exact a1
      rw [b1, b2]
      refine ⟨⟨h1, a2, a3⟩, fun i hi => ?_⟩
      rw [hg, ← h1]
      exact a4 i hi
    · have := hs t
      rw [hreset] at this
      cases this
  have inv : ∀ t, ((os t).learningRate = lr ∧ (os t).accumulator.length = n ∧
      (ws t).length = n) ∧
      ∀ i < n, entry (os t).accumulator i = ∑ s ∈ Finset.range t, (es s).grad i ^ 2 := by
    intro t
    induction t with
    | zero =>
      rw [ho]
      refine ⟨⟨rfl, List.length_replicate, hw⟩, fun i _ => ?_⟩
      show entry (List.replicate n Scalar.zero) i = _
      rw [entry_replicate, real_zero, Finset.range_zero, Finset.sum_empty]
    | succ t ih =>
      obtain ⟨⟨h1, h2, h3⟩, h4⟩ := ih
      obtain ⟨h5, h6⟩ := call t h1 h2 h3
      exact ⟨h5, fun i hi => by rw [(h6 i hi).1, h4 i hi, Finset.sum_range_succ]⟩
  obtain ⟨⟨h1, h2, h3⟩, h4⟩ := inv t
  refine ⟨⟨h1, h2, h3⟩, fun i hi => ⟨h4 i hi, ?_⟩⟩
  rw [((call t h1 h2 h3).2 i hi).2, (inv (t + 1)).2 i hi]

/-- One Adagrad step in the regret argument. -/
theorem adagrad_potential {lr g d D S : ℝ} (hlr : 0 < lr) (hS : 0 ≤ S) (hd : |d| ≤ D) {ε : ℝ}
    (hε : 0 < ε) :
    g * d ≤ (D ^ 2 * (√(S + g ^ 2) - √S) + (√S + ε) * d ^ 2
        - (√(S + g ^ 2) + ε) * (d - lr * g / (√(S + g ^ 2) + ε)) ^ 2) / (2 * lr)
      + lr * (√(S + g ^ 2) - √S) := by
  have h1 : √S ≤ √(S + g ^ 2) := Real.sqrt_le_sqrt (by nlinarith [sq_nonneg g])
  have h0 : 0 ≤ √S := Real.sqrt_nonneg _
  have hg : g ^ 2 = (√(S + g ^ 2) - √S) * (√(S + g ^ 2) + √S) := by
    have e1 := Real.sq_sqrt (show 0 ≤ S + g ^ 2 by nlinarith [sq_nonneg g])
    have e2 := Real.sq_sqrt hS
    nlinarith
  have hD : d ^ 2 ≤ D ^ 2 := by
    rw [← sq_abs d]
    exact pow_le_pow_left₀ (abs_nonneg _) hd 2
  generalize √(S + g ^ 2) = R at *
  generalize √S = Q at *
  have hH : 0 < R + ε := by linarith
  have e : (R + ε) * (d - lr * g / (R + ε)) ^ 2
      = (R + ε) * d ^ 2 - 2 * lr * (g * d) + lr ^ 2 * (g ^ 2 / (R + ε)) := by
    field_simp
    ring
  have h2 : g ^ 2 / (R + ε) ≤ 2 * (R - Q) := by
    rw [div_le_iff₀ hH]
    nlinarith
  rw [e]
  have h3 : lr ^ 2 * (g ^ 2 / (R + ε)) ≤ lr ^ 2 * (2 * (R - Q)) :=
    mul_le_mul_of_nonneg_left h2 (sq_nonneg _)
  have h4 : (R - Q) * d ^ 2 ≤ (R - Q) * D ^ 2 := mul_le_mul_of_nonneg_left hD (by linarith)
  have h5 : lr * (R - Q) = lr ^ 2 * (2 * (R - Q)) / (2 * lr) := by field_simp
  rw [h5, ← add_div, le_div_iff₀ (by positivity)]
  nlinarith

/-- Adagrad's regret per weight: as long as the weight stays within `D` of the reference, the
advantage of the reference over all `T` calls is at most
`(D²/(2·lr) + lr)·√(∑ₜ gₜ²) + D²·1e-7/(2·lr)`. The learning rate need not know the gradients' size
or the number of calls. -/
theorem C98_adagrad_coordinate (n : Nat) (lr : ℝ) (hlr : 0 < lr) (os : Nat → Adagrad ℝ)
    (ws : Nat → List ℝ) (es : Nat → Event ℝ) (hr : OptRun os ws es)
    (ho : os 0 = Adagrad.new n lr) (hw : (ws 0).length = n) (he : ∀ t, (es t).Fits n)
    (hs : ∀ t, (es t).isStep = true) (u : List ℝ) (D : ℝ) (T : Nat) (i : Nat) (hi : i < n)
    (hD : ∀ t ≤ T, |entry u i - entry (ws t) i| ≤ D) :
    advantage i u ws es T
      ≤ (D ^ 2 / (2 * lr) + lr) * √(∑ t ∈ Finset.range T, (es t).grad i ^ 2)
        + D ^ 2 * 1e-7 / (2 * lr) := by
  have key : ∀ t ≤ T, advantage i u ws es t ≤
      (D ^ 2 * (√(∑ s ∈ Finset.range t, (es s).grad i ^ 2) + 1e-7)
        - (√(∑ s ∈ Finset.range t, (es s).grad i ^ 2) + 1e-7)
          * (entry u i - entry (ws t) i) ^ 2) / (2 * lr)
      + lr * √(∑ s ∈ Finset.range t, (es s).grad i ^ 2) := by
    intro t
    induction t with
    | zero =>
      intro h0
      have h1 : (entry u i - entry (ws 0) i) ^ 2 ≤ D ^ 2 := by
        rw [← sq_abs (_ - _)]
        exact pow_le_pow_left₀ (abs_nonneg _) (hD 0 h0) 2
      simp only [advantage, Finset.range_zero, Finset.sum_empty, Real.sqrt_zero, mul_zero, zero_add,
        add_zero]
      refine div_nonneg ?_ (by positivity)
      nlinarith
    | succ t ih =>
      intro ht
      have h1 := ih (by omega)
      obtain ⟨-, h2⟩ := (adagrad_run hr ho hw he hs t).2 i hi
      have h3 := adagrad_potential (lr := lr) (g := (es t).grad i) hlr
        (Finset.sum_nonneg (s := Finset.range t) fun s _ => sq_nonneg ((es s).grad i)) (hD t (by omega))
        (ε := 1e-7) (by norm_num)
      rw [← Finset.sum_range_succ (fun s => (es s).grad i ^ 2) t, sub_sub, ← h2] at h3
      unfold advantage at h1 ⊢
      rw [Finset.sum_range_succ _ t]
      refine (add_le_add h1 h3).trans (le_of_eq ?_)
      field_simp
      ring
  refine (key T le_rfl).trans ?_
  have h0 := Real.sqrt_nonneg (∑ s ∈ Finset.range T, (es s).grad i ^ 2)
  generalize √(∑ s ∈ Finset.range T, (es s).grad i ^ 2) = R at *
  have h1 : 0 ≤ (R + 1e-7) * (entry u i - entry (ws T) i) ^ 2 := by positivity
  have h2 : (D ^ 2 / (2 * lr) + lr) * R + D ^ 2 * 1e-7 / (2 * lr)
      = D ^ 2 * (R + 1e-7) / (2 * lr) + lr * R := by
    field_simp
    ring
  rw [h2]
  gcongr
  linarith

/-- Adagrad's regret bound for objectives that may change arbitrarily from call to call. -/
theorem C98_adagrad_regret (n : Nat) (lr : ℝ) (hlr : 0 < lr) (os : Nat → Adagrad ℝ)
    (ws : Nat → List ℝ) (es : Nat → Event ℝ) (hr : OptRun os ws es)
    (ho : os 0 = Adagrad.new n lr) (hw : (ws 0).length = n) (he : ∀ t, (es t).Fits n)
    (hs : ∀ t, (es t).isStep = true) (f : Nat → List ℝ → ℝ)
    (hf : ∀ t, Supergradient n (f t) (ws t) (es t).grad) (u : List ℝ) (hu : u.length = n) (D : ℝ)
    (T : Nat) (hD : ∀ t ≤ T, ∀ i < n, |entry u i - entry (ws t) i| ≤ D) :
    ∑ t ∈ Finset.range T, (f t u - f t (ws t))
      ≤ (D ^ 2 / (2 * lr) + lr) * (∑ i ∈ Finset.range n,
          √(∑ t ∈ Finset.range T, (es t).grad i ^ 2)) + n * (D ^ 2 * 1e-7 / (2 * lr)) := by
  refine (gain_le_advantage n ws es f hf u hu T).trans ?_
  refine (Finset.sum_le_sum fun i hi => C98_adagrad_coordinate n lr hlr os ws es hr ho hw he hs u D T
    i (Finset.mem_range.mp hi) fun t ht => hD t ht i (Finset.mem_range.mp hi)).trans (le_of_eq ?_)
  rw [Finset.sum_add_distrib, ← Finset.mul_sum, Finset.sum_const, Finset.card_range, nsmul_eq_mul]

/-! ## The hypotheses can be met -/

/-- Ascent on `f(w) = -(w₀ - 3)²/2 - |w₁|`, SGD: the calls depend on the weights reached. -/
example : Supergradient 2 (fun w => -(entry w 0 - 3) ^ 2 / 2 - |entry w 1|) [1, 0]
    (Event.stepScaled (.dense [(2 : ℝ), 0]) 1).grad := by
  intro u _
  show -(entry u 0 - 3) ^ 2 / 2 - |entry u 1| ≤ -((1 : ℝ) - 3) ^ 2 / 2 - |(0 : ℝ)|
    + ∑ i ∈ Finset.range 2, _
  rw [Finset.sum_range_succ, Finset.sum_range_succ, Finset.sum_range_zero]
  show _ ≤ _ + (0 + (2 : ℝ) * 1 * (entry u 0 - 1) + (0 : ℝ) * 1 * (entry u 1 - 0))
  have := abs_nonneg (entry u 1)
  rw [abs_zero]
  nlinarith [sq_nonneg (entry u 0 - 1)]

/-- Linear objectives have supergradients everywhere, so adversarial runs of both optimisers exist. -/
example (n : Nat) (g : Nat → ℝ) (w : List ℝ) :
    Supergradient n (fun v => ∑ i ∈ Finset.range n, g i * entry v i) w g := by
  intro u _
  show ∑ i ∈ Finset.range n, _ ≤ ∑ i ∈ Finset.range n, _ + _
  rw [← Finset.sum_add_distrib]
  exact Finset.sum_le_sum fun i _ => by linarith

example : ∃ (os : Nat → SGD ℝ) (ws : Nat → List ℝ),
    os 0 = ⟨0.1⟩ ∧ ws 0 = [0, 0] ∧
    OptRun os ws (fun t => .stepScaled (.dense [1, (t : ℝ)]) 2) :=
  optRun_exists (n := 2) (fun t : Nat => .stepScaled (.dense [1, (t : ℝ)]) 2)
    (fun _ => ⟨trivial, rfl⟩) trivial rfl

example : ∃ (os : Nat → Adagrad ℝ) (ws : Nat → List ℝ),
    os 0 = Adagrad.new 2 0.1 ∧ ws 0 = [0, 0] ∧
    OptRun os ws (fun t => .stepScaled (.dense [1, (t : ℝ)]) 2) :=
  optRun_exists (n := 2) (fun t : Nat => .stepScaled (.dense [1, (t : ℝ)]) 2)
    (fun _ => ⟨trivial, rfl⟩) (List.length_replicate) rfl

end Lfa

import Verif.Spec.Bootstrap
import Verif.Proofs.Bootstrap
import Verif.Props.C23_C29
import Verif.Props.C132_C133

/-!
# C141: training towards the approximator's own predictions

Exact arithmetic. The target for an input is a reward plus `γ` times the current prediction elsewhere, as in
temporal-difference learning. Here one transition is repeated.
-/

set_option linter.unusedSectionVars false

namespace Lfa

open Spec Filter Topology

section
variable {B I O : Type} [Space B] [Basis B I ℝ] [Optimiser O ℝ]

theorem point_innerFeatures {n : Nat} {φ ψ : Features ℝ} (h : dim φ = n) :
    inner ℝ (featurePoint n φ) (featurePoint n ψ) = innerFeatures φ ψ := by
  rw [innerFeatures, h, PiLp.inner_apply, Finset.sum_range]
  exact Finset.sum_congr rfl fun i _ => mul_comm _ _

/-- What one bootstrapped call does. -/
theorem bootstraps_iff {b : B} {o : O} {n : Nat} {rate : Features ℝ → ℝ}
    (ht : TrainsBy b o n rate (fun _ : I => True)) {w : List ℝ} (hw : w.length = n) {x x' : I}
    {φ ψ : Features ℝ} (hx : Basis.project b x = .ok (.ok φ)) (hφ : Fits n φ)
    (hx' : Basis.project b x' = .ok (.ok ψ)) (hψ : Fits n ψ) (γ r : ℝ) :
    ∃ w', w'.length = n ∧ (∀ fa', Bootstraps γ (LFA.mk b w o) x r x' fa' ↔ fa' = LFA.mk b w' o) ∧
      (∀ δ, Surprise γ (LFA.mk b w o) x r x' δ ↔ δ = r + γ * Spec.inner ψ w - Spec.inner φ w) ∧
      (∀ i < n, entry w' i =
        entry w i + rate φ * (r + γ * Spec.inner ψ w - Spec.inner φ w) * value φ i) := by
  have e' : ScalarLFA.evaluate (LFA.mk b w o) x' = .ok (.ok (Spec.inner ψ w)) :=
    evaluate_eq (fa := LFA.mk b w o) hx' (dot_real hψ.1 (hψ.2.trans hw.symm))
  obtain ⟨w', s1, s2, s3, s4⟩ := ht w x φ (r + γ * Spec.inner ψ w) trivial hw hx hφ
  refine ⟨w', s3, fun fa' => ⟨?_, ?_⟩, fun δ => ⟨?_, ?_⟩, s4⟩
  · rintro ⟨p', hp, hu⟩
    rw [e'] at hp
    cases hp
    have hu := hu.symm.trans s2
    simp only [Except.ok.injEq, Prod.mk.injEq, true_and] at hu
    exact hu
  · rintro rfl
    exact ⟨_, e', s2⟩
  · rintro ⟨p, p', hp, hp', rfl⟩
    rw [e'] at hp'
    rw [s1] at hp
    cases hp
    cases hp'
    rfl
  · rintro rfl
    exact ⟨_, _, s1, e', rfl⟩

/-! ## C141 One transition repeated -/

theorem repeated_transition {b : B} {o : O} {n : Nat} {rate : Features ℝ → ℝ}
    (ht : TrainsBy b o n rate (fun _ : I => True)) {w : List ℝ} (hw : w.length = n) {x x' : I}
    {φ ψ : Features ℝ} (hx : Basis.project b x = .ok (.ok φ)) (hφ : Fits n φ)
    (hx' : Basis.project b x' = .ok (.ok ψ)) (hψ : Fits n ψ) {γ r : ℝ} {fas : Nat → ScalarLFA B O ℝ}
    (h0 : fas 0 = LFA.mk b w o) (hs : ∀ k, Bootstraps γ (fas k) x r x' (fas (k + 1))) :
    let q := 1 - rate φ * (normSq φ - γ * innerFeatures φ ψ)
    ∃ δ : Nat → ℝ, (∀ k ε, Surprise γ (fas k) x r x' ε ↔ ε = δ k) ∧ ∀ k, δ k = q ^ k * δ 0 ∧
      ∀ i < n, entry (fas k).weights i =
        entry w i + rate φ * δ 0 * (∑ j ∈ Finset.range k, q ^ j) * value φ i := by
  intro q
  have key : ∀ k, ∃ v, fas k = LFA.mk b v o ∧ v.length = n := by
    intro k
    induction k with
    | zero => exact ⟨w, h0, hw⟩
    | succ k ih =>
      obtain ⟨v, h1, h2⟩ := ih
      obtain ⟨w', s1, s2, -⟩ := bootstraps_iff ht h2 hx hφ hx' hψ γ r
      have := hs k
      rw [h1] at this
      exact ⟨w', (s2 _).1 this, s1⟩
  choose v hv hl using key
  set δ : Nat → ℝ := fun k => r + γ * Spec.inner ψ (v k) - Spec.inner φ (v k) with hδ
  have step : ∀ k, ∀ i < n, entry (v (k + 1)) i = entry (v k) i + rate φ * δ k * value φ i := by
    intro k
    obtain ⟨w', s1, s2, s3, s4⟩ := bootstraps_iff ht (hl k) hx hφ hx' hψ γ r
    have := hs k
    rw [hv k] at this
    have := (s2 _).1 this
    rw [hv (k + 1)] at this
    injection this with h1 h2 h3
    rw [h2]
    exact s4
  have hdelta : ∀ k, δ (k + 1) = q * δ k := by
    intro k
    have h1 : Spec.inner φ (v (k + 1)) = Spec.inner φ (v k) + rate φ * δ k * normSq φ :=
      inner_moved hφ.2 (step k)
    have h2 : Spec.inner ψ (v (k + 1)) = Spec.inner ψ (v k) + rate φ * δ k * innerFeatures φ ψ := by
      rw [inner_eq, inner_eq, innerFeatures, hφ.2, hψ.2, Finset.mul_sum, ← Finset.sum_add_distrib]
      refine Finset.sum_congr rfl fun i hi => ?_
      rw [step k i (Finset.mem_range.1 hi)]
      ring
    show r + γ * Spec.inner ψ (v (k + 1)) - Spec.inner φ (v (k + 1)) = q * δ k
    rw [h1, h2]
    show _ = (1 - rate φ * (normSq φ - γ * innerFeatures φ ψ)) * δ k
    rw [hδ]
    ring
  have hpow : ∀ k, δ k = q ^ k * δ 0 := by
    intro k
    induction k with
    | zero => rw [pow_zero, one_mul]
    | succ k ih => rw [hdelta, ih, pow_succ]; ring
  have hv0 : v 0 = w := by
    have := (hv 0).symm.trans h0
    injection this
  refine ⟨δ, fun k ε => ?_, fun k => ⟨hpow k, fun i hi => ?_⟩⟩
  · obtain ⟨w', -, -, s3, -⟩ := bootstraps_iff ht (hl k) hx hφ hx' hψ γ r
    rw [hv k]
    exact s3 ε
  · rw [hv k]
    show entry (v k) i = _
    induction k with
    | zero => rw [hv0]; simp
    | succ k ih => rw [step k i hi, ih, Finset.sum_range_succ, hpow k]; ring

/-- When the error of a repeated transition vanishes, and when it explodes. -/
theorem geometric_fate {δ : Nat → ℝ} {q : ℝ} (h : ∀ k, δ k = q ^ k * δ 0) :
    (Tendsto δ atTop (𝓝 0) ↔ |q| < 1 ∨ δ 0 = 0) ∧
    (1 < |q| → δ 0 ≠ 0 → Tendsto (fun k => |δ k|) atTop atTop) := by
  have e : δ = fun k => q ^ k * δ 0 := funext h
  constructor
  · constructor
    · intro ht
      by_contra hc
      rw [not_or, not_lt] at hc
      have h1 : ∀ k, |δ 0| ≤ |δ k| := fun k => by
        rw [h k, abs_mul, abs_pow]
        have := one_le_pow₀ hc.1 (n := k)
        nlinarith [abs_nonneg (δ 0)]
      have h2 := ht.abs
      rw [abs_zero] at h2
      have h3 := ge_of_tendsto' h2 h1
      exact hc.2 (abs_nonpos_iff.1 h3)
    · rintro (hq | h0)
      · have := (tendsto_pow_atTop_nhds_zero_of_abs_lt_one hq).mul_const (δ 0)
        rw [zero_mul] at this
        rw [e]
        exact this
      · have : δ = fun _ => 0 := funext fun k => by rw [h k, h0, mul_zero]
        rw [this]
        exact tendsto_const_nhds
  · intro hq h0
    have : (fun k => |δ k|) = fun k => |q| ^ k * |δ 0| := funext fun k => by rw [h k, abs_mul, abs_pow]
    rw [this]
    exact (tendsto_pow_atTop_atTop_of_one_lt hq).atTop_mul_const (abs_pos.2 h0)

end

section
variable {B I : Type} [Space B] [Basis B I ℝ]

/-- **C141.** SGD on one transition `x → x'` again and again: the error of the transition is multiplied by
`1 - lr (‖φ(x)‖² - γ ⟨φ(x), φ(x')⟩)` at every call, and the weights move along `φ(x)` accordingly. -/
theorem C141_sgd (b : B) (n : Nat) (lr γ r : ℝ) (w : List ℝ) (hw : w.length = n) (x x' : I) (φ ψ : Features ℝ)
    (hx : Basis.project b x = .ok (.ok φ)) (hφ : Fits n φ) (hx' : Basis.project b x' = .ok (.ok ψ))
    (hψ : Fits n ψ) (fas : Nat → ScalarLFA B (SGD ℝ) ℝ) (h0 : fas 0 = LFA.mk b w (SGD.mk lr))
    (hs : ∀ k, Bootstraps γ (fas k) x r x' (fas (k + 1))) :
    let q := 1 - lr * (normSq φ - γ * innerFeatures φ ψ)
    ∃ δ : Nat → ℝ, (∀ k ε, Surprise γ (fas k) x r x' ε ↔ ε = δ k) ∧
      (∀ k, δ k = q ^ k * δ 0 ∧ ∀ i < n, entry (fas k).weights i =
        entry w i + lr * δ 0 * (∑ j ∈ Finset.range k, q ^ j) * value φ i) ∧
      (Tendsto δ atTop (𝓝 0) ↔ |q| < 1 ∨ δ 0 = 0) ∧
      (1 < |q| → δ 0 ≠ 0 → Tendsto (fun k => |δ k|) atTop atTop) := by
  intro q
  obtain ⟨δ, h1, h2⟩ := repeated_transition (sgd_trainsBy b lr n _) hw hx hφ hx' hψ h0 hs
  exact ⟨δ, h1, h2, geometric_fate fun k => (h2 k).1⟩

/-- **C141.** The same for ISGD, whose step is `lr / (1 + lr ‖φ‖²)`. -/
theorem C141_isgd (b : B) (n : Nat) (lr γ r : ℝ) (w : List ℝ) (hw : w.length = n) (x x' : I) (φ ψ : Features ℝ)
    (hx : Basis.project b x = .ok (.ok φ)) (hφ : Fits n φ) (hx' : Basis.project b x' = .ok (.ok ψ))
    (hψ : Fits n ψ) (fas : Nat → ScalarLFA B (ISGD ℝ) ℝ) (h0 : fas 0 = LFA.mk b w (ISGD.mk lr))
    (hs : ∀ k, Bootstraps γ (fas k) x r x' (fas (k + 1))) :
    let q := 1 - lr / (1 + lr * normSq φ) * (normSq φ - γ * innerFeatures φ ψ)
    ∃ δ : Nat → ℝ, (∀ k ε, Surprise γ (fas k) x r x' ε ↔ ε = δ k) ∧
      (∀ k, δ k = q ^ k * δ 0 ∧ ∀ i < n, entry (fas k).weights i =
        entry w i + lr / (1 + lr * normSq φ) * δ 0 * (∑ j ∈ Finset.range k, q ^ j) * value φ i) ∧
      (Tendsto δ atTop (𝓝 0) ↔ |q| < 1 ∨ δ 0 = 0) ∧
      (1 < |q| → δ 0 ≠ 0 → Tendsto (fun k => |δ k|) atTop atTop) := by
  intro q
  obtain ⟨δ, h1, h2⟩ := repeated_transition (isgd_trainsBy b lr n _) hw hx hφ hx' hψ h0 hs
  exact ⟨δ, h1, h2, geometric_fate fun k => (h2 k).1⟩

/-- **C141.** No learning rate helps when `‖φ(x)‖² < γ ⟨φ(x), φ(x')⟩`: the error grows without bound under
SGD and under ISGD, from any weights that do not already satisfy the transition. -/
theorem C141_diverges (b : B) (n : Nat) (lr γ r : ℝ) (hlr : 0 < lr) (w : List ℝ) (hw : w.length = n) (x x' : I)
    (φ ψ : Features ℝ) (hx : Basis.project b x = .ok (.ok φ)) (hφ : Fits n φ)
    (hx' : Basis.project b x' = .ok (.ok ψ)) (hψ : Fits n ψ) (hd : normSq φ < γ * innerFeatures φ ψ)
    (hw0 : ∀ {O : Type} (o : O), ¬ Surprise γ (LFA.mk b w o) x r x' 0) :
    (∀ fas : Nat → ScalarLFA B (SGD ℝ) ℝ, fas 0 = LFA.mk b w (SGD.mk lr) →
      (∀ k, Bootstraps γ (fas k) x r x' (fas (k + 1))) →
      ∃ δ : Nat → ℝ, (∀ k, Surprise γ (fas k) x r x' (δ k)) ∧ Tendsto (fun k => |δ k|) atTop atTop) ∧
    (∀ fas : Nat → ScalarLFA B (ISGD ℝ) ℝ, fas 0 = LFA.mk b w (ISGD.mk lr) →
      (∀ k, Bootstraps γ (fas k) x r x' (fas (k + 1))) →
      ∃ δ : Nat → ℝ, (∀ k, Surprise γ (fas k) x r x' (δ k)) ∧ Tendsto (fun k => |δ k|) atTop atTop) := by
  have hbig : ∀ a : ℝ, 0 < a → 1 < |1 - a * (normSq φ - γ * innerFeatures φ ψ)| := fun a ha => by
    refine lt_of_lt_of_le ?_ (le_abs_self _)
    have := mul_pos ha (sub_pos.2 hd)
    linarith
  constructor
  · intro fas h0 hs
    obtain ⟨δ, h1, -, -, h4⟩ := C141_sgd b n lr γ r w hw x x' φ ψ hx hφ hx' hψ fas h0 hs
    refine ⟨δ, fun k => (h1 k _).2 rfl, h4 (hbig _ hlr) fun hz => hw0 (SGD.mk lr) ?_⟩
    rw [← h0, ← hz]
    exact (h1 0 _).2 rfl
  · intro fas h0 hs
    obtain ⟨δ, h1, -, -, h4⟩ := C141_isgd b n lr γ r w hw x x' φ ψ hx hφ hx' hψ fas h0 hs
    refine ⟨δ, fun k => (h1 k _).2 rfl, h4 (hbig _ (isgd_stable hlr φ).1) fun hz => hw0 (ISGD.mk lr) ?_⟩
    rw [← h0, ← hz]
    exact (h1 0 _).2 rfl

/-- Bootstrapped runs exist, from any weights, along any sequence of transitions. -/
theorem C141_run_exists (b : B) (n : Nat) (lr γ : ℝ) (xs xs' : Nat → I) (rs : Nat → ℝ) (w : List ℝ)
    (hw : w.length = n) (hx : ∀ k, ∃ φ, Basis.project b (xs k) = .ok (.ok φ) ∧ Fits n φ)
    (hx' : ∀ k, ∃ φ, Basis.project b (xs' k) = .ok (.ok φ) ∧ Fits n φ) :
    (∃ fas : Nat → ScalarLFA B (SGD ℝ) ℝ, fas 0 = LFA.mk b w (SGD.mk lr) ∧
      ∀ k, Bootstraps γ (fas k) (xs k) (rs k) (xs' k) (fas (k + 1))) ∧
    (∃ fas : Nat → ScalarLFA B (ISGD ℝ) ℝ, fas 0 = LFA.mk b w (ISGD.mk lr) ∧
      ∀ k, Bootstraps γ (fas k) (xs k) (rs k) (xs' k) (fas (k + 1))) := by
  have key : ∀ {O : Type} [Optimiser O ℝ] (o : O) (rate : Features ℝ → ℝ),
      TrainsBy b o n rate (fun _ : I => True) →
      ∃ fas : Nat → ScalarLFA B O ℝ, fas 0 = LFA.mk b w o ∧
        ∀ k, Bootstraps γ (fas k) (xs k) (rs k) (xs' k) (fas (k + 1)) := by
    intro O _ o rate ht
    have step : ∀ (k : Nat) (u : {u : List ℝ // u.length = n}), ∃ u' : {u : List ℝ // u.length = n},
        Bootstraps γ (LFA.mk b u.1 o) (xs k) (rs k) (xs' k) (LFA.mk b u'.1 o) := fun k u => by
      obtain ⟨φ, p1, p2⟩ := hx k
      obtain ⟨ψ, p3, p4⟩ := hx' k
      obtain ⟨w', s1, s2, -⟩ := bootstraps_iff ht u.2 p1 p2 p3 p4 γ (rs k)
      exact ⟨⟨w', s1⟩, (s2 _).2 rfl⟩
    choose nxt hn using step
    exact ⟨fun k => LFA.mk b (Nat.rec ⟨w, hw⟩ nxt k : {u : List ℝ // u.length = n}).1 o, rfl,
      fun k => hn k _⟩
  exact ⟨key _ _ (sgd_trainsBy b lr n _), key _ _ (isgd_trainsBy b lr n _)⟩

/-- Off-policy divergence with the polynomial basis: the only feature of `[x]` is `x`, all values are 0 and can
be represented, but on the transition `1 → 2` with `γ = 9/10` every learning rate diverges. -/
example (lr : ℝ) (hlr : 0 < lr) (fas : Nat → ScalarLFA Polynomial (SGD ℝ) ℝ)
    (h0 : fas 0 = LFA.mk (Polynomial.new 1 1) [1] (SGD.mk lr))
    (hs : ∀ k, Bootstraps (9 / 10) (fas k) [(1 : ℝ)] 0 [2] (fas (k + 1))) :
    ∃ δ : Nat → ℝ, (∀ k, Surprise (9 / 10) (fas k) [(1 : ℝ)] 0 [2] (δ k)) ∧
      Tendsto (fun k => |δ k|) atTop atTop := by
  have hp : ∀ t : ℝ, Basis.project (Polynomial.new 1 1) [t] = .ok (.ok (.dense [t])) := fun t => by
    obtain ⟨es, h1, h2⟩ := C24_monomials 1 1 one_pos fun _ => t
    have h3 : es = [[1]] := C23_multi_indices_unique h1 (by
      have := computeCoefficients_spec 1 1 one_pos
      rwa [show computeCoefficients 1 1 = [[1]] by decide] at this)
    rw [h3] at h2
    simpa [monomial] using h2
  refine (C141_diverges (Polynomial.new 1 1) 1 lr (9 / 10) 0 hlr [1] rfl [1] [2] (.dense [1]) (.dense [2])
    (hp 1) ⟨trivial, rfl⟩ (hp 2) ⟨trivial, rfl⟩ ?_ ?_).1 fas h0 hs
  · simp [normSq, innerFeatures, dim, value]
    norm_num
  · rintro O o ⟨p, p', e1, e2, e3⟩
    have f1 := e1.symm.trans (evaluate_eq (fa := LFA.mk (Polynomial.new 1 1) [1] o) (hp 1)
      (dot_real (φ := .dense [1]) trivial rfl))
    have f2 := e2.symm.trans (evaluate_eq (fa := LFA.mk (Polynomial.new 1 1) [1] o) (hp 2)
      (dot_real (φ := .dense [2]) trivial rfl))
    cases f1
    cases f2
    simp [Spec.inner, dim, value] at e3
    norm_num at e3

end

end Lfa

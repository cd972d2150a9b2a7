import Verif.Props.C142_C144
import Verif.Proofs.Walk

/-!
# C145: following a closed trajectory in order, with targets from the approximator's own predictions

Exact arithmetic. `N` transitions `x j → x (σ j)` in which every state is left as often as it is entered are
visited in order, again and again.
-/

set_option linter.unusedSectionVars false

namespace Lfa

open Spec Filter Topology

section
variable {B I : Type} [Space B] [Basis B I ℝ] {N : Nat}

/-- The run visits the transitions `0, 1, …, N - 1, 0, 1, …`. -/
def Follows (hN : 0 < N) (γ : ℝ) (x : Fin N → I) (r : Fin N → ℝ) (x' : Fin N → I)
    (fas : Nat → ScalarLFA B (SGD ℝ) ℝ) : Prop :=
  ∀ k, Bootstraps γ (fas k) (x ⟨k % N, Nat.mod_lt k hN⟩) (r ⟨k % N, Nat.mod_lt k hN⟩)
    (x' ⟨k % N, Nat.mod_lt k hN⟩) (fas (k + 1))

/-- **C145.** For every closed set of transitions and `0 ≤ γ < 1` there is a bound `lr₀ > 0` such that SGD with
any learning rate below it, following the transitions in order from any weights and for any rewards, approaches
a run that repeats with period `N`, geometrically. If the transitions can be satisfied exactly, the predictions
converge to the values that satisfy them. -/
theorem C145_sgd (b : B) (n : Nat) (γ : ℝ) (hγ : 0 ≤ γ) (hγ1 : γ < 1) (hN : 0 < N) (x : Fin N → I)
    (σ : Equiv.Perm (Fin N)) (φ : Fin N → Features ℝ)
    (hφ : ∀ j, Basis.project b (x j) = .ok (.ok (φ j)) ∧ Fits n (φ j)) :
    ∃ lr₀ > 0, ∀ lr, 0 < lr → lr < lr₀ → ∃ q, 0 < q ∧ q < 1 ∧
      ∀ (r : Fin N → ℝ) (w : List ℝ) (fas : Nat → ScalarLFA B (SGD ℝ) ℝ), w.length = n →
        fas 0 = LFA.mk b w (SGD.mk lr) → Follows hN γ x r (fun j => x (σ j)) fas →
        ∃ cycle : Nat → ScalarLFA B (SGD ℝ) ℝ, Follows hN γ x r (fun j => x (σ j)) cycle ∧
          (∀ k, cycle (k + N) = cycle k ∧ (cycle k).weights.length = n) ∧
          (∃ C, ∀ k, distSq n (fas k).weights (cycle k).weights ≤ C * q ^ (k / N)) ∧
          ∀ z, (∀ j, r j + γ * Spec.inner (φ (σ j)) z = Spec.inner (φ j) z) →
            (∀ k j, Spec.inner (φ j) (cycle k).weights = Spec.inner (φ j) z) ∧
            ∀ j, Tendsto (fun k => Spec.inner (φ j) (fas k).weights) atTop (𝓝 (Spec.inner (φ j) z)) := by
  set f : Fin N → EuclideanSpace ℝ (Fin n) := fun j => featurePoint n (φ j) with hf
  have hφ' : ∀ j, Fits n (φ j) := fun j => (hφ j).2
  obtain ⟨κ, s, hκ, hs0, hA, hU⟩ := Boot.pull_sweep hN f σ hγ hγ1
  set A : ℕ → EuclideanSpace ℝ (Fin n) →ₗ[ℝ] EuclideanSpace ℝ (Fin n) := fun k =>
    Boot.pull γ (f (Boot.turn hN k)) (f (σ (Boot.turn hN k))) with hAd
  obtain ⟨α₀, hα₀, hsweep⟩ := Boot.sweep_small (N := N) (A := A) hκ hA hs0 hU
  refine ⟨α₀, hα₀, fun lr hlr hlr1 => ?_⟩
  obtain ⟨q, q0, q1, hq⟩ := hsweep lr hlr hlr1
  refine ⟨q ^ 2, by positivity, pow_lt_one₀ q0.le q1 two_ne_zero, fun r w fas hw h0 hfol => ?_⟩
  set c : ℕ → EuclideanSpace ℝ (Fin n) := fun k => r (Boot.turn hN k) • f (Boot.turn hN k) with hc
  have hAU : ∀ k u, A k u ∈ Sweep.U f := fun k u => by
    show Boot.pull _ _ _ u ∈ _
    rw [Boot.pull_apply]
    exact Submodule.smul_mem _ _ (Sweep.mem_U _)
  have hcU : ∀ k, c k ∈ Sweep.U f := fun k => Submodule.smul_mem _ _ (Sweep.mem_U _)
  have hAN : ∀ k, A (k + N) = A k := fun k => by simp only [hAd, Boot.turn_add]
  have hcN : ∀ k, c (k + N) = c k := fun k => by simp only [hc, Boot.turn_add]
  -- one call as a step
  have step : ∀ (u : List ℝ), u.length = n → ∀ k, ∃ u', u'.length = n ∧
      (∀ fa', Bootstraps γ (LFA.mk b u (SGD.mk lr)) (x (Boot.turn hN k)) (r (Boot.turn hN k))
        (x (σ (Boot.turn hN k))) fa' ↔ fa' = LFA.mk b u' (SGD.mk lr)) ∧
      toPoint n u' = toPoint n u + lr • (c k - A k (toPoint n u)) := by
    intro u hu k
    set j := Boot.turn hN k with hj
    obtain ⟨u', s1, s2, -, s4⟩ := bootstraps_iff (sgd_trainsBy b lr n _) hu (hφ j).1 (hφ j).2 (hφ (σ j)).1
      (hφ (σ j)).2 γ (r j)
    refine ⟨u', s1, s2, ?_⟩
    have e : lr • (c k - A k (toPoint n u)) =
        (lr * (r j + γ * Spec.inner (φ (σ j)) u - Spec.inner (φ j) u)) • f j := by
      show lr • (r j • f j - Boot.pull γ (f j) (f (σ j)) (toPoint n u)) = _
      rw [Boot.pull_apply, hf]
      simp only
      rw [point_inner (hφ' j).2, point_inner (hφ' (σ j)).2]
      module
    rw [e]
    ext i
    exact s4 i i.2
  have hrun : ∀ k, ∃ u, fas k = LFA.mk b u (SGD.mk lr) ∧ u.length = n ∧
      toPoint n u = Boot.walk lr A c (toPoint n w) k := by
    intro k
    induction k with
    | zero => exact ⟨w, h0, hw, rfl⟩
    | succ k ih =>
      obtain ⟨u, h1, h2, h3⟩ := ih
      obtain ⟨u', s1, s2, s3⟩ := step u h2 k
      have := hfol k
      rw [h1] at this
      refine ⟨u', (s2 _).1 this, s1, ?_⟩
      rw [s3, h3]
      rfl
  obtain ⟨v, hv1, hv2, hv3, hv4⟩ := Boot.walk_cycle hN hlr.le hκ hA hAU hAN q0 q1 hq hcN hcU (toPoint n w)
  set cyc : ℕ → EuclideanSpace ℝ (Fin n) := Boot.walk lr A c v with hcyc
  have hC : ∀ k, distSq n (fas k).weights (List.ofFn (cyc k).ofLp) ≤
      ((1 + lr * κ) ^ N * ‖toPoint n w - v‖) ^ 2 * (q ^ 2) ^ (k / N) := by
    intro k
    obtain ⟨u, h1, h2, h3⟩ := hrun k
    rw [h1]
    show distSq n u (List.ofFn (cyc k).ofLp) ≤ _
    rw [← point_distSq, toPoint_ofFn, h3]
    have := pow_le_pow_left₀ (norm_nonneg _) (hv3 k) 2
    refine this.trans (le_of_eq ?_)
    rw [mul_pow, mul_pow, mul_pow, ← pow_mul q 2, mul_comm 2, pow_mul]
    ring
  refine ⟨fun k => LFA.mk b (List.ofFn (cyc k).ofLp) (SGD.mk lr), fun k => ?_, fun k => ⟨?_, by simp⟩,
    ⟨_, hC⟩, fun z hz => ?_⟩
  · obtain ⟨u', s1, s2, s3⟩ := step (List.ofFn (cyc k).ofLp) (by simp) k
    refine (s2 _).2 ?_
    have : List.ofFn (cyc (k + 1)).ofLp = u' := by
      refine toPoint_injective (n := n) (by simp) s1 ?_
      rw [s3, toPoint_ofFn, toPoint_ofFn]
      rfl
    simp only [this]
  · have : cyc (k + N) = cyc k := hv2 k
    simp only [this]
  · obtain ⟨p, hp1, hp2⟩ := Boot.exists_balanced f σ hγ hγ1 r (toPoint n w)
    have hpz : ∀ j, inner ℝ (f j) p = Spec.inner (φ j) z := by
      have h1 : ∑ j, (inner ℝ (f j) (p - toPoint n z) - γ * inner ℝ (f (σ j)) (p - toPoint n z)) • f j = 0 := by
        rw [← neg_zero, ← hp2, ← Finset.sum_neg_distrib]
        refine Finset.sum_congr rfl fun j _ => ?_
        rw [← neg_smul]
        congr 1
        rw [inner_sub_right, inner_sub_right, hf]
        simp only
        rw [point_inner (hφ' j).2 z, point_inner (hφ' (σ j)).2 z]
        have := hz j
        linarith
      intro j
      have h2 := Boot.drift_zero σ hγ hγ1 h1 j
      rw [inner_sub_right, hf] at h2
      simp only at h2
      rw [point_inner (hφ' j).2 z] at h2
      simp only [hf]
      linarith
    have hstay : ∀ k, Boot.walk lr A c p k = p := by
      intro k
      induction k with
      | zero => rfl
      | succ k ih =>
        show Boot.walk lr A c p k + lr • (c k - A k (Boot.walk lr A c p k)) = p
        rw [ih]
        have : c k - A k p = 0 := by
          show r _ • f _ - Boot.pull γ _ _ p = 0
          rw [Boot.pull_apply, hpz, hpz, ← sub_smul]
          have := hz (Boot.turn hN k)
          rw [show r (Boot.turn hN k) - (Spec.inner (φ (Boot.turn hN k)) z
            - γ * Spec.inner (φ (σ (Boot.turn hN k))) z) = 0 by linarith, zero_smul]
        rw [this, smul_zero, add_zero]
    have hpv : p = v := hv4 p hp1 (hstay N)
    have hcz : ∀ k j, Spec.inner (φ j) (List.ofFn (cyc k).ofLp) = Spec.inner (φ j) z := by
      intro k j
      rw [← point_inner (hφ' j).2, toPoint_ofFn, hcyc, ← hpv, hstay]
      exact hpz j
    refine ⟨hcz, fun j => ?_⟩
    have hlim : Tendsto (fun k => ‖Boot.walk lr A c (toPoint n w) k - p‖) atTop (𝓝 0) := by
      have hb : Tendsto (fun k : ℕ => (1 + lr * κ) ^ N * q ^ (k / N) * ‖toPoint n w - v‖) atTop (𝓝 0) := by
        have h1 : Tendsto (fun k : ℕ => q ^ (k / N)) atTop (𝓝 0) :=
          (tendsto_pow_atTop_nhds_zero_of_lt_one q0.le q1).comp (Nat.tendsto_div_const_atTop hN.ne')
        have h2 := (h1.const_mul ((1 + lr * κ) ^ N)).mul_const ‖toPoint n w - v‖
        rwa [mul_zero, zero_mul] at h2
      refine squeeze_zero (fun _ => norm_nonneg _) (fun k => ?_) hb
      have h1 := hv3 k
      have h2 : cyc k = p := by rw [hcyc, ← hpv]; exact hstay k
      rw [h2] at h1
      exact h1
    have h3 : ∀ k, Spec.inner (φ j) (fas k).weights =
        inner ℝ (f j) (Boot.walk lr A c (toPoint n w) k - p) + Spec.inner (φ j) z := by
      intro k
      obtain ⟨u, h1, h2, h3⟩ := hrun k
      rw [h1, ← h3, inner_sub_right, hpz, hf]
      simp only
      rw [point_inner (hφ' j).2 u]
      ring
    simp only [h3]
    have h4 : Tendsto (fun k => inner ℝ (f j) (Boot.walk lr A c (toPoint n w) k - p)) atTop (𝓝 0) := by
      rw [← tendsto_zero_iff_norm_tendsto_zero] at hlim
      have := (tendsto_const_nhds (x := f j)).inner hlim (𝕜 := ℝ)
      rwa [inner_zero_right] at this
    have := h4.add_const (Spec.inner (φ j) z)
    rwa [zero_add] at this

end

/-- A trajectory of three states, followed for ever, with features `[1, 0]`, `[0, 1]`, `[1, 1]`: the hypotheses of
C145 are met and rewards exist for which the values can be represented. -/
example : ∃ (b : Closure (Fin 3) ℝ) (φ : Fin 3 → Features ℝ) (r : Fin 3 → ℝ) (z : List ℝ),
    (∀ j, Basis.project b j = .ok (.ok (φ j)) ∧ Fits 2 (φ j)) ∧
    (∀ j, r j + 1 / 2 * Spec.inner (φ (finRotate 3 j)) z = Spec.inner (φ j) z) ∧ ∃ j, r j ≠ 0 := by
  set φ : Fin 3 → Features ℝ := fun j => .dense (match j with | 0 => [1, 0] | 1 => [0, 1] | 2 => [1, 1]) with hφ
  refine ⟨⟨2, fun j => .ok (.ok (φ j))⟩, φ,
    fun j => Spec.inner (φ j) [1, 3] - 1 / 2 * Spec.inner (φ (finRotate 3 j)) [1, 3], [1, 3], fun j => ⟨rfl, ?_⟩,
    fun j => by ring, 1, ?_⟩
  · fin_cases j <;> exact ⟨trivial, rfl⟩
  · have : finRotate 3 1 = 2 := rfl
    simp only [this]
    simp [hφ, Spec.inner, dim, value, Finset.sum_range_succ]
    norm_num

end Lfa

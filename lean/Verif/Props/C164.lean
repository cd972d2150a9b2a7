import Verif.Props.C132_C133

/-!
# C164: the mean error while training on random examples

Exact arithmetic; `N` examples with arbitrary targets, drawn independently and uniformly (`Spec/Sampling.lean`). The bounds
hold after any number of draws, with explicit constants.
-/

set_option linter.unusedSectionVars false

namespace Lfa

open Spec Filter Topology

namespace Sweep

variable {E : Type} [NormedAddCommGroup E] [InnerProductSpace ℝ E] {N : ℕ} {a : Fin N → ℝ} {f : Fin N → E}
  {y : Fin N → ℝ} {W : List (Fin N) → E}

theorem avg_mean (k : ℕ) (g : List (Fin N) → Fin N → ℝ) :
    (N : ℝ)⁻¹ * ∑ j, avg k (fun l => g l j) = avg k fun l => (N : ℝ)⁻¹ * ∑ j, g l j := by
  unfold avg
  simp only [smul_eq_mul]
  rw [← Finset.mul_sum, ← Finset.mul_sum, Finset.sum_comm]
  ring

/-- The mean squared distance from least-squares weights after one more draw. -/
theorem draw_mean (hN : 0 < N) (hD : Draws a f y W) {v : E}
    (hv : ∑ j, (a j * (y j - inner ℝ (f j) v)) • f j = 0) (l : List (Fin N)) :
    (N : ℝ)⁻¹ * ∑ j, ‖W (l ++ [j]) - v‖ ^ 2 = ‖W l - v‖ ^ 2
      + 2 * ((N : ℝ)⁻¹ * ∑ j, a j * (y j - inner ℝ (f j) v) ^ 2)
      - (N : ℝ)⁻¹ * ∑ j, a j * (2 - a j * ‖f j‖ ^ 2) * (y j - inner ℝ (f j) (W l)) ^ 2 := by
  have hn : (N : ℝ) ≠ 0 := by exact_mod_cast hN.ne'
  have h1 : ∀ j, ‖W (l ++ [j]) - v‖ ^ 2 = ‖W l - v‖ ^ 2 + 2 * (a j * (y j - inner ℝ (f j) v) ^ 2)
      - a j * (2 - a j * ‖f j‖ ^ 2) * (y j - inner ℝ (f j) (W l)) ^ 2
      - 2 * inner ℝ ((a j * (y j - inner ℝ (f j) v)) • f j) (W l - v) := by
    intro j
    have e : W (l ++ [j]) - v = (W l - v) + (a j * (y j - inner ℝ (f j) (W l))) • f j := by rw [hD]; abel
    rw [e, norm_add_sq_real, inner_smul_right, norm_smul, mul_pow, Real.norm_eq_abs, sq_abs, inner_smul_left,
      real_inner_comm (f j) (W l - v), inner_sub_right]
    simp only [conj_trivial]
    ring
  simp only [h1]
  rw [Finset.sum_sub_distrib, Finset.sum_sub_distrib, Finset.sum_add_distrib, Finset.sum_const, Finset.card_univ,
    Fintype.card_fin, nsmul_eq_mul, ← Finset.mul_sum, ← Finset.mul_sum, ← sum_inner, hv, inner_zero_left]
  field_simp
  ring

/-- The mean error over `T` draws. -/
theorem mean_loss (hN : 0 < N) (ha : ∀ j, 0 ≤ a j) {ρ : ℝ} (hρ : ∀ j, a j * ‖f j‖ ^ 2 ≤ ρ) (hD : Draws a f y W) {v : E}
    (hv : ∑ j, (a j * (y j - inner ℝ (f j) v)) • f j = 0) (T : ℕ) :
    (2 - ρ) * ∑ k ∈ Finset.range T, avg k (fun l => (N : ℝ)⁻¹ * ∑ j, a j * (y j - inner ℝ (f j) (W l)) ^ 2)
        + avg T (fun l => ‖W l - v‖ ^ 2)
      ≤ T * (2 * ((N : ℝ)⁻¹ * ∑ j, a j * (y j - inner ℝ (f j) v) ^ 2)) + ‖W [] - v‖ ^ 2 := by
  have hn : (0 : ℝ) < N := by exact_mod_cast hN
  induction T with
  | zero => rw [avg_zero]; simp
  | succ T ih =>
    have h1 : avg (T + 1) (fun l => ‖W l - v‖ ^ 2) = avg T fun l => (N : ℝ)⁻¹ * ∑ j, ‖W (l ++ [j]) - v‖ ^ 2 := by
      rw [avg_succ, smul_eq_mul]
      exact avg_mean T fun l j => ‖W (l ++ [j]) - v‖ ^ 2
    have h2 : avg (T + 1) (fun l => ‖W l - v‖ ^ 2) ≤ avg T (fun l => ‖W l - v‖ ^ 2
        + (2 * ((N : ℝ)⁻¹ * ∑ j, a j * (y j - inner ℝ (f j) v) ^ 2)
        + (-(2 - ρ)) * ((N : ℝ)⁻¹ * ∑ j, a j * (y j - inner ℝ (f j) (W l)) ^ 2))) := by
      rw [h1]
      refine avg_mono T fun l => ?_
      rw [draw_mean hN hD hv l]
      have : (2 - ρ) * ∑ j, a j * (y j - inner ℝ (f j) (W l)) ^ 2
          ≤ ∑ j, a j * (2 - a j * ‖f j‖ ^ 2) * (y j - inner ℝ (f j) (W l)) ^ 2 := by
        rw [Finset.mul_sum]
        refine Finset.sum_le_sum fun j _ => ?_
        have := mul_nonneg (mul_nonneg (ha j) (sub_nonneg.2 (hρ j))) (sq_nonneg (y j - inner ℝ (f j) (W l)))
        linarith
      have := mul_le_mul_of_nonneg_left this (inv_nonneg.2 hn.le)
      linarith
    have h3 : avg T (fun l => (-(2 - ρ)) * ((N : ℝ)⁻¹ * ∑ j, a j * (y j - inner ℝ (f j) (W l)) ^ 2))
        = (-(2 - ρ)) * avg T fun l => (N : ℝ)⁻¹ * ∑ j, a j * (y j - inner ℝ (f j) (W l)) ^ 2 := by
      have := avg_map (LinearMap.mulLeft ℝ (-(2 - ρ))) T fun l => (N : ℝ)⁻¹ * ∑ j, a j * (y j - inner ℝ (f j) (W l)) ^ 2
      simpa using this
    rw [avg_add, avg_add, avg_const hN, h3] at h2
    rw [Finset.sum_range_succ]
    push_cast
    linarith

/-- Least weights solve the normal equations. -/
theorem normal_of_least [FiniteDimensional ℝ E] (ha : ∀ j, 0 < a j) {v : E}
    (hv : ∀ z : E, ∑ j, a j * (y j - inner ℝ (f j) v) ^ 2 ≤ ∑ j, a j * (y j - inner ℝ (f j) z) ^ 2) :
    ∑ j, (a j * (y j - inner ℝ (f j) v)) • f j = 0 := by
  obtain ⟨s, -, hs⟩ := exists_normal (f := f) ha y v
  have h1 := normal_min hs v
  have h2 := hv s
  have h3 : ∑ j, a j * inner ℝ (f j) (v - s) ^ 2 = 0 :=
    le_antisymm (by linarith) (Finset.sum_nonneg fun j _ => mul_nonneg (ha j).le (sq_nonneg _))
  have h4 : ∀ j, inner ℝ (f j) v = inner ℝ (f j) s := fun j => by
    have := (Finset.sum_eq_zero_iff_of_nonneg fun j _ => mul_nonneg (ha j).le (sq_nonneg _)).1 h3 j (Finset.mem_univ j)
    have := pow_eq_zero_iff two_ne_zero |>.1 ((mul_eq_zero.1 this).resolve_left (ha j).ne')
    rw [inner_sub_right] at this
    linarith
  simp only [h4]
  exact hs

end Sweep

section
variable {B I O : Type} [Space B] [Basis B I ℝ] [Optimiser O ℝ] {N : Nat}

theorem sampling_loss {b : B} {o : O} {n : Nat} {rate : Features ℝ → ℝ} (hN : 0 < N) {x : Fin N → I}
    (ht : TrainsBy b o n rate (fun _ : I => True)) {φ : Fin N → Features ℝ}
    (hφ : ∀ j, Basis.project b (x j) = .ok (.ok (φ j)) ∧ Fits n (φ j)) {lr : ℝ} (hlr : 0 < lr) {c : Fin N → ℝ}
    (hc : ∀ j, rate (φ j) = lr * c j) (hr : ∀ j, 0 < c j) {ρ : ℝ} (hρ : ∀ j, rate (φ j) * normSq (φ j) ≤ ρ) (hρ2 : ρ < 2)
    {y : Fin N → ℝ} {w v : List ℝ} (hw : w.length = n)
    (hmin : ∀ z, z.length = n → sqError c φ y v ≤ sqError c φ y z)
    {fa : List (Fin N) → ScalarLFA B O ℝ} (hs : Sampling x y fa) (h0 : fa [] = LFA.mk b w o) {T : Nat} (hT : 0 < T) :
    (∑ k ∈ Finset.range T, average k (fun l => sqError c φ y (fa l).weights / N)) / T
      ≤ (sqError c φ y v / N + distSq n w v / (2 * lr * T)) / (1 - ρ / 2) := by
  obtain ⟨-, hD⟩ := sampling_point ht hφ hs hw h0
  have hn : (0 : ℝ) < N := by exact_mod_cast hN
  have hT' : (0 : ℝ) < T := by exact_mod_cast hT
  have ha : ∀ j, 0 < rate (φ j) := fun j => by rw [hc]; exact mul_pos hlr (hr j)
  have hsq : ∀ u, ∑ j, rate (φ j) * (y j - inner ℝ (featurePoint n (φ j)) (toPoint n u)) ^ 2 = lr * sqError c φ y u := by
    intro u
    rw [sqError_point (fun j => (hφ j).2), Finset.mul_sum]
    exact Finset.sum_congr rfl fun j _ => by rw [hc]; ring
  have hnorm := Sweep.normal_of_least (a := fun j => rate (φ j)) (f := fun j => featurePoint n (φ j)) (y := y) ha
    (v := toPoint n v) (fun z => by
      rw [hsq v, ← toPoint_ofFn z, hsq]
      exact mul_le_mul_of_nonneg_left (hmin _ (by simp)) hlr.le)
  have key := Sweep.mean_loss hN (fun j => (ha j).le) (ρ := ρ)
    (fun j => by rw [point_normSq (hφ j).2.2]; exact hρ j) hD hnorm T
  simp only [hsq] at key
  rw [h0, point_distSq] at key
  have h1 : 0 ≤ Sweep.avg T fun l => ‖toPoint n (fa l).weights - toPoint n v‖ ^ 2 := by
    have := Sweep.avg_mono T (g := fun _ : List (Fin N) => (0 : ℝ))
      (h := fun l => ‖toPoint n (fa l).weights - toPoint n v‖ ^ 2) fun l => sq_nonneg _
    rwa [Sweep.avg_const hN] at this
  have h2 : ∀ k, Sweep.avg k (fun l => (N : ℝ)⁻¹ * (lr * sqError c φ y (fa l).weights))
      = lr * average k fun l => sqError c φ y (fa l).weights / N := by
    intro k
    have := Sweep.avg_map (LinearMap.mulLeft ℝ lr) k fun l => sqError c φ y (fa l).weights / N
    simp only [LinearMap.mulLeft_apply] at this
    rw [average_avg, ← this]
    congr 1
    funext l
    field_simp
  simp only [h2] at key
  rw [← Finset.mul_sum] at key
  set S := ∑ k ∈ Finset.range T, average k fun l => sqError c φ y (fa l).weights / N with hS
  have hρ' : 0 < 1 - ρ / 2 := by linarith
  rw [div_le_div_iff₀ hT' hρ']
  have e1 : (sqError c φ y v / N + distSq n w v / (2 * lr * T)) * T
      = T * (sqError c φ y v / N) + distSq n w v / (2 * lr) := by field_simp
  rw [e1]
  have e2 : distSq n w v / (2 * lr) * (2 * lr) = distSq n w v := div_mul_cancel₀ _ (by positivity)
  have e3 : (N : ℝ)⁻¹ * (lr * sqError c φ y v) = lr * (sqError c φ y v / N) := by field_simp
  rw [e3] at key
  have hd : distSq n v w = distSq n w v := by
    unfold distSq
    exact Finset.sum_congr rfl fun i _ => by ring
  have key' : (2 - ρ) * (lr * S) ≤ T * (2 * (lr * (sqError c φ y v / N))) + distSq n w v := by
    have : distSq n (LFA.mk b w o : ScalarLFA B O ℝ).weights v = distSq n w v := rfl
    linarith
  have h2lr : 0 < 2 * lr := by linarith
  refine le_of_mul_le_mul_left ?_ h2lr
  nlinarith

end

section
variable {B I : Type} [Space B] [Basis B I ℝ] {N : Nat}

/-- SGD on random examples whose features have squared length at most `R`, with `lr R < 2`. `v` are weights with the least
mean squared error. Over the first `T` calls the expected mean squared error of the approximator averages at most that least
error plus `|w - v|² / (2 lr T)`, divided by `1 - lr R / 2`. -/
theorem C164_sgd (b : B) (n : Nat) (lr R : ℝ) (hlr : 0 < lr) (hN : 0 < N) (x : Fin N → I) (φ : Fin N → Features ℝ)
    (hφ : ∀ j, Basis.project b (x j) = .ok (.ok (φ j)) ∧ Fits n (φ j) ∧ normSq (φ j) ≤ R) (hR : lr * R < 2)
    (y : Fin N → ℝ) (w v : List ℝ) (hw : w.length = n)
    (hmin : ∀ z, z.length = n → sqError (fun _ => 1) φ y v ≤ sqError (fun _ => 1) φ y z)
    (fa : List (Fin N) → ScalarLFA B (SGD ℝ) ℝ) (hs : Sampling x y fa) (h0 : fa [] = LFA.mk b w (SGD.mk lr))
    (T : Nat) (hT : 0 < T) :
    (∑ k ∈ Finset.range T, average k (fun l => sqError (fun _ => 1) φ y (fa l).weights / N)) / T
      ≤ (sqError (fun _ => 1) φ y v / N + distSq n w v / (2 * lr * T)) / (1 - lr * R / 2) :=
  sampling_loss hN (sgd_trainsBy b lr n _) (fun j => ⟨(hφ j).1, (hφ j).2.1⟩) hlr (fun _ => (mul_one lr).symm)
    (fun _ => one_pos) (fun j => mul_le_mul_of_nonneg_left (hφ j).2.2 hlr.le) hR hw hmin hs h0 hT

/-- ISGD, for every learning rate; an example counts `1 / (1 + lr ‖φ‖²)` times. -/
theorem C164_isgd (b : B) (n : Nat) (lr R : ℝ) (hlr : 0 < lr) (hR : 0 ≤ R) (hN : 0 < N) (x : Fin N → I) (φ : Fin N → Features ℝ)
    (hφ : ∀ j, Basis.project b (x j) = .ok (.ok (φ j)) ∧ Fits n (φ j) ∧ normSq (φ j) ≤ R)
    (y : Fin N → ℝ) (w v : List ℝ) (hw : w.length = n)
    (hmin : ∀ z, z.length = n → sqError (fun j => 1 / (1 + lr * normSq (φ j))) φ y v ≤
      sqError (fun j => 1 / (1 + lr * normSq (φ j))) φ y z)
    (fa : List (Fin N) → ScalarLFA B (ISGD ℝ) ℝ) (hs : Sampling x y fa) (h0 : fa [] = LFA.mk b w (ISGD.mk lr))
    (T : Nat) (hT : 0 < T) :
    (∑ k ∈ Finset.range T, average k (fun l =>
        sqError (fun j => 1 / (1 + lr * normSq (φ j))) φ y (fa l).weights / N)) / T
      ≤ (sqError (fun j => 1 / (1 + lr * normSq (φ j))) φ y v / N + distSq n w v / (2 * lr * T))
        / (1 - lr * R / (1 + lr * R) / 2) := by
  have hd : ∀ j, 0 < 1 + lr * normSq (φ j) := fun j => by
    have := normSq_nonneg (φ j)
    positivity
  have hdR : 0 < 1 + lr * R := by positivity
  refine sampling_loss hN (isgd_trainsBy b lr n _) (fun j => ⟨(hφ j).1, (hφ j).2.1⟩) hlr (fun _ => by rw [mul_one_div])
    (fun j => one_div_pos.2 (hd j)) (fun j => ?_) ?_ hw hmin hs h0 hT
  · rw [div_mul_eq_mul_div, div_le_div_iff₀ (hd j) hdR]
    nlinarith [mul_le_mul_of_nonneg_left (hφ j).2.2 hlr.le]
  · rw [div_lt_iff₀ hdR]
    have := mul_nonneg hlr.le hR
    linarith

/-- Weights with the least error exist. -/
theorem C164_least (n : Nat) (φ : Fin N → Features ℝ) (hφ : ∀ j, Fits n (φ j)) (c : Fin N → ℝ) (hc : ∀ j, 0 < c j)
    (y : Fin N → ℝ) : ∃ v, v.length = n ∧ ∀ z, z.length = n → sqError c φ y v ≤ sqError c φ y z := by
  obtain ⟨s, -, hs⟩ := Sweep.exists_normal (f := fun j => featurePoint n (φ j)) hc y (0 : EuclideanSpace ℝ (Fin n))
  refine ⟨List.ofFn s.ofLp, by simp, fun z _ => ?_⟩
  rw [sqError_point hφ, sqError_point hφ, toPoint_ofFn, Sweep.normal_min hs (toPoint n z)]
  have : 0 ≤ ∑ j, c j * inner ℝ (featurePoint n (φ j)) (toPoint n z - s) ^ 2 :=
    Finset.sum_nonneg fun j _ => mul_nonneg (hc j).le (sq_nonneg _)
  linarith

end

/-- The hypotheses of `C164_sgd` on the examples: the features `(1, x)` at `x = 1, -1` with `lr = 1/2`. -/
example (j : Fin 2) : ∃ φ, Basis.project line ((-1 : ℝ) ^ (j : ℕ)) = .ok (.ok φ) ∧ Fits 2 φ ∧ normSq φ ≤ 2 ∧
    (1 / 2 : ℝ) * 2 < 2 := by
  refine ⟨_, (line_fits _).1, (line_fits _).2.1, ?_, by norm_num⟩
  rw [(line_fits _).2.2, ← pow_mul, mul_comm (j : ℕ), pow_mul]
  norm_num

end Lfa

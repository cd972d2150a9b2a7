import Verif.Proofs.Order
import Mathlib.Algebra.Order.Chebyshev
import Verif.Props.C177

/-!
# Perturbed rank-one updates

Updates as in `Verif.Proofs.Order`, each followed by an error that is small compared to the current point, stay near zero for ever.
-/

set_option linter.unusedSectionVars false

namespace Lfa.Sweep

open Filter Topology

noncomputable section

variable {E : Type} [NormedAddCommGroup E] [InnerProductSpace ℝ E]

theorem perturbed {c : ℕ → ℝ} {g : ℕ → E} (h : ∀ i, 0 ≤ c i ∧ c i * ‖g i‖ ^ 2 ≤ 2) {r ε β : ℝ} (r0 : 0 ≤ r) (ε0 : 0 ≤ ε)
    (β0 : 0 ≤ β) {L : ℕ} (hL : 4 * (L * ε) ≤ 1 - r) (r1 : r < 1)
    (Lpos : 0 < L) (hr : ∀ s u, ‖run (fun k => c (s + k)) (fun k => g (s + k)) u L‖ ≤ r * ‖u‖) (z : ℕ → E) (T : ℕ)
    (hz : ∀ s < T, ‖z (s + 1) - lin (c s) (g s) (z s)‖ ≤ ε * ‖z s‖ + β) (k : ℕ) (hk : k ≤ T) :
    ‖z k‖ ≤ 2 * ((1 + r) / 2) ^ (k / L) * ‖z 0‖ + 10 * (L * β) / (1 - r) := by
  have hst : ∀ i u, ‖lin (c i) (g i) u‖ ≤ ‖u‖ := by
    intro i u
    refine abs_le_of_sq_le_sq' ?_ (_root_.norm_nonneg _) |>.2
    rw [norm_lin]
    have h1 := mul_nonneg (h i).1 (sq_nonneg (inner ℝ (g i) u))
    have h2 := mul_nonneg h1 (sub_nonneg.2 (h i).2)
    nlinarith
  have hεL : ε * L ≤ 1 / 2 := by nlinarith
  have L0 : (0 : ℝ) ≤ L := L.cast_nonneg
  have d : 0 < 1 - r := by linarith
  -- within `L` calls
  have mid : ∀ s m, m ≤ L → s + m ≤ T → ‖z (s + m)‖ ≤ 2 * (‖z s‖ + L * β) := by
    intro s m hm hT
    have hm' : (m : ℝ) ≤ L := by exact_mod_cast hm
    have := growth_run (N := fun m => ‖z (s + m)‖) (D := 0) (ε := ε) (η := β) (fun _ => _root_.norm_nonneg _) le_rfl ε0 β0 (T := m)
      (by nlinarith) (fun t ht => by
        have h1 := hz (s + t) (by omega)
        have h2 := hst (s + t) (z (s + t))
        have h3 := norm_add_le (z (s + t + 1) - lin (c (s + t)) (g (s + t)) (z (s + t)))
          (lin (c (s + t)) (g (s + t)) (z (s + t)))
        rw [sub_add_cancel] at h3
        show ‖z (s + t + 1)‖ ≤ _
        linarith) m le_rfl
    simp only [add_zero, zero_add] at this
    have h1 := mul_le_mul_of_nonneg_right hm' β0
    linarith
  -- distance from the exact run
  have dev : ∀ s m, m ≤ L → s + m ≤ T → ‖z (s + m) - run (fun k => c (s + k)) (fun k => g (s + k)) (z s) m‖ ≤
      m * (ε * (2 * (‖z s‖ + L * β)) + β) := by
    intro s m
    induction m with
    | zero => intro _ _; simp [run]
    | succ m ih =>
      intro hm hT
      have i1 := ih (by omega) (by omega)
      have h1 := hz (s + m) (by omega)
      have h2 := mul_le_mul_of_nonneg_left (mid s m (by omega) (by omega)) ε0
      have e : z (s + (m + 1)) - run (fun k => c (s + k)) (fun k => g (s + k)) (z s) (m + 1) =
          (z (s + m + 1) - lin (c (s + m)) (g (s + m)) (z (s + m))) +
          lin (c (s + m)) (g (s + m)) (z (s + m) - run (fun k => c (s + k)) (fun k => g (s + k)) (z s) m) := by
        have e2 : lin (c (s + m)) (g (s + m)) (z (s + m)) =
            lin (c (s + m)) (g (s + m)) (z (s + m) - run (fun k => c (s + k)) (fun k => g (s + k)) (z s) m) +
            lin (c (s + m)) (g (s + m)) (run (fun k => c (s + k)) (fun k => g (s + k)) (z s) m) := by
          rw [← lin_add, sub_add_cancel]
        rw [e2]
        show z (s + m + 1) - lin _ _ _ = _
        abel
      rw [e]
      refine (norm_add_le _ _).trans ?_
      have h3 := hst (s + m) (z (s + m) - run (fun k => c (s + k)) (fun k => g (s + k)) (z s) m)
      rw [Nat.cast_succ]
      linarith
  -- one epoch
  have epoch : ∀ s, s + L ≤ T → ‖z (s + L)‖ ≤ (1 + r) / 2 * ‖z s‖ + 2 * (L * β) := by
    intro s hs
    have h1 := dev s L le_rfl hs
    have h2 := hr s (z s)
    have h3 := norm_add_le (z (s + L) - run (fun k => c (s + k)) (fun k => g (s + k)) (z s) L)
      (run (fun k => c (s + k)) (fun k => g (s + k)) (z s) L)
    rw [sub_add_cancel] at h3
    have h4 := _root_.norm_nonneg (z s)
    have h5 : (L : ℝ) * (ε * (2 * (‖z s‖ + L * β)) + β) ≤ (1 - r) / 2 * ‖z s‖ + 2 * (L * β) := by
      have a1 := mul_le_mul_of_nonneg_right (by linarith : 2 * (L * ε) ≤ (1 - r) / 2) h4
      have a2 := mul_le_mul_of_nonneg_right (by linarith : 2 * (L * ε) ≤ 1) (mul_nonneg L0 β0)
      linarith
    linarith
  have ends : ∀ j, L * j ≤ T → ‖z (L * j)‖ ≤ ((1 + r) / 2) ^ j * ‖z 0‖ + 4 * (L * β) / (1 - r) := by
    intro j
    induction j with
    | zero =>
      intro _
      have : 0 ≤ 4 * (L * β) / (1 - r) := by positivity
      simpa using this
    | succ j ih =>
      intro hT
      have h0 : L * (j + 1) = L * j + L := by ring
      rw [h0] at hT ⊢
      have h1 := ih (by omega)
      have h2 := epoch (L * j) hT
      have h3 := mul_le_mul_of_nonneg_left h1 (by linarith : 0 ≤ (1 + r) / 2)
      have h4 : (1 + r) / 2 * (4 * (L * β) / (1 - r)) + 2 * (L * β) = 4 * (L * β) / (1 - r) := by
        field_simp
        ring
      rw [pow_succ']
      nlinarith
  have hkd := Nat.div_add_mod k L
  have h1 := ends (k / L) (by omega)
  have h2 := mid (L * (k / L)) (k % L) (Nat.mod_lt _ Lpos).le (by omega)
  rw [hkd] at h2
  have h3 : (L : ℝ) * β ≤ L * β / (1 - r) := by
    rw [le_div_iff₀ d]
    nlinarith [mul_nonneg L0 β0]
  have e1 : 4 * (L * β) / (1 - r) = 4 * (L * β / (1 - r)) := by ring
  have e2 : 10 * (L * β) / (1 - r) = 10 * (L * β / (1 - r)) := by ring
  rw [e1] at h1
  rw [e2]
  linarith

/-- Updates that see every direction contract by a factor that can be computed. -/
theorem excited {c : ℕ → ℝ} {g : ℕ → E} {L : ℕ} (h : ∀ k < L, 0 ≤ c k ∧ c k * ‖g k‖ ^ 2 ≤ 1) {μ : ℝ} (u : E)
    (hμ : μ * ‖u‖ ^ 2 ≤ ∑ k ∈ Finset.range L, c k * inner ℝ (g k) u ^ 2) :
    L ^ 2 * ‖run c g u L‖ ^ 2 ≤ (L ^ 2 - μ) * ‖u‖ ^ 2 := by
  set e : ℕ → ℝ := fun k => √(c k) * |inner ℝ (g k) (run c g u k)| with he
  have e0 : ∀ k, 0 ≤ e k := fun k => mul_nonneg (Real.sqrt_nonneg _) (abs_nonneg _)
  have esq : ∀ k < L, e k ^ 2 = c k * inner ℝ (g k) (run c g u k) ^ 2 := fun k hk => by
    simp only [he]
    rw [mul_pow, Real.sq_sqrt (h k hk).1, sq_abs]
  have unit : ∀ k < L, √(c k) * ‖g k‖ ≤ 1 := fun k hk => by
    refine abs_le_of_sq_le_sq' ?_ zero_le_one |>.2
    rw [mul_pow, Real.sq_sqrt (h k hk).1, one_pow]
    exact (h k hk).2
  have drop : ∀ m ≤ L, ∑ k ∈ Finset.range m, e k ^ 2 ≤ ‖u‖ ^ 2 - ‖run c g u m‖ ^ 2 := by
    intro m
    induction m with
    | zero => intro _; simp [run]
    | succ m ih =>
      intro hm
      rw [Finset.sum_range_succ, esq m (by omega)]
      show _ ≤ ‖u‖ ^ 2 - ‖lin (c m) (g m) (run c g u m)‖ ^ 2
      rw [norm_lin]
      have h1 := ih (by omega)
      have h2 := mul_nonneg (mul_nonneg (h m (by omega)).1 (sub_nonneg.2 (h m (by omega)).2)) (sq_nonneg (inner ℝ (g m) (run c g u m)))
      nlinarith
  have far : ∀ m ≤ L, ‖u - run c g u m‖ ≤ ∑ k ∈ Finset.range m, e k := by
    intro m
    induction m with
    | zero => intro _; simp [run]
    | succ m ih =>
      intro hm
      have h1 := ih (by omega)
      have h2 : u - run c g u (m + 1) = (u - run c g u m) + (c m * inner ℝ (g m) (run c g u m)) • g m := by
        show u - lin (c m) (g m) (run c g u m) = _
        unfold lin
        abel
      rw [h2, Finset.sum_range_succ]
      refine (norm_add_le _ _).trans (add_le_add h1 ?_)
      rw [norm_smul, Real.norm_eq_abs, abs_mul, abs_of_nonneg (h m (by omega)).1]
      have h3 := mul_le_mul_of_nonneg_left (unit m (by omega)) (e0 m)
      have h4 : c m * |inner ℝ (g m) (run c g u m)| * ‖g m‖ = e m * (√(c m) * ‖g m‖) := by
        simp only [he]
        rw [← Real.mul_self_sqrt (h m (by omega)).1, Real.sqrt_mul_self (Real.sqrt_nonneg _)]
        ring
      rw [h4]
      linarith
  have each : ∀ k ∈ Finset.range L, c k * inner ℝ (g k) u ^ 2 ≤ L * ∑ j ∈ Finset.range L, e j ^ 2 := by
    intro k hk
    have hk := Finset.mem_range.1 hk
    have h1 : √(c k) * |inner ℝ (g k) u| ≤ ∑ j ∈ Finset.range (k + 1), e j := by
      have h2 : inner ℝ (g k) u = inner ℝ (g k) (run c g u k) + inner ℝ (g k) (u - run c g u k) := by
        rw [← inner_add_right, add_sub_cancel]
      have h3 := abs_real_inner_le_norm (g k) (u - run c g u k)
      have h4 : |inner ℝ (g k) u| ≤ |inner ℝ (g k) (run c g u k)| + ‖g k‖ * ‖u - run c g u k‖ := by
        rw [h2]
        exact (abs_add_le _ _).trans (add_le_add le_rfl h3)
      have h5 := mul_le_mul_of_nonneg_left h4 (Real.sqrt_nonneg (c k))
      have h6 := mul_le_mul_of_nonneg_right (unit k hk) (_root_.norm_nonneg (u - run c g u k))
      have h7 := far k hk.le
      rw [Finset.sum_range_succ]
      have h8 : e k = √(c k) * |inner ℝ (g k) (run c g u k)| := rfl
      rw [h8]
      linarith
    have h2 : c k * inner ℝ (g k) u ^ 2 = (√(c k) * |inner ℝ (g k) u|) ^ 2 := by
      rw [mul_pow, Real.sq_sqrt (h k hk).1, sq_abs]
    rw [h2]
    refine (pow_le_pow_left₀ (mul_nonneg (Real.sqrt_nonneg _) (abs_nonneg _)) h1 2).trans (sq_sum_le_card_mul_sum_sq.trans ?_)
    rw [Finset.card_range]
    refine mul_le_mul (by exact_mod_cast hk) (Finset.sum_le_sum_of_subset_of_nonneg ?_ fun _ _ _ => sq_nonneg _)
      (Finset.sum_nonneg fun _ _ => sq_nonneg _) (Nat.cast_nonneg _)
    intro j hj
    simp only [Finset.mem_range] at hj ⊢
    omega
  have h1 := (hμ.trans (Finset.sum_le_sum each))
  rw [Finset.sum_const, Finset.card_range, nsmul_eq_mul] at h1
  have h2 := mul_le_mul_of_nonneg_left (drop L le_rfl) (sq_nonneg (L : ℝ))
  linarith

end

end Lfa.Sweep

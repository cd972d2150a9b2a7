import Verif.Proofs.RoundErr
import Verif.Proofs.OptimReal
import Verif.Spec.Gradient

/-! # Rounding errors of velocities and of sums of increments, one parameter at a time -/

set_option linter.unusedSectionVars false

namespace Lfa

open Spec Machine XReal

variable {M : Machine}

/-- Additions of slightly wrong increments: each is wrong by at most the fraction `c` of its bound `a` plus `η`, each addition by at
most the fraction `κ` of the magnitudes of its operands. -/
theorem sums_near {κ c η : ℝ} (κ0 : 0 ≤ κ) (c0 : 0 ≤ c) (η0 : 0 ≤ η) {w q b W Q a : ℕ → ℝ} {T : ℕ} (h0 : w 0 = W 0)
    (hW : ∀ t, W (t + 1) = W t + Q t) (hQ : ∀ t, |Q t| ≤ a t)
    (hq : ∀ t < T, |q t - Q t| ≤ c * a t + η) (hb : ∀ t < T, b t ≤ (1 + c) * a t + η)
    (hw : ∀ t < T, |w (t + 1) - (w t + q t)| ≤ κ * (|w t| + b t)) :
    ∀ t ≤ T, |W t| ≤ |W 0| + ∑ s ∈ Finset.range t, a s ∧
      |w t - W t| ≤ ((1 + κ) ^ t * (1 + c) - 1) * (|W 0| + ∑ s ∈ Finset.range t, a s) + t * (1 + κ) ^ t * η := by
  intro t
  induction t with
  | zero =>
    intro _
    rw [h0]
    simp only [Finset.sum_range_zero, add_zero, sub_self, abs_zero, pow_zero, one_mul, le_refl, true_and]
    have := mul_nonneg c0 (abs_nonneg (W 0))
    push_cast
    linarith
  | succ t ih =>
    intro ht
    obtain ⟨g1, g2⟩ := ih (by omega)
    have h2 := hq t (by omega)
    have h3 := hw t (by omega)
    have h4 := hQ t
    have h5 := hb t (by omega)
    have a0 : 0 ≤ a t := (abs_nonneg _).trans h4
    rw [hW, Finset.sum_range_succ, ← add_assoc]
    have hB : 0 ≤ |W 0| + ∑ s ∈ Finset.range t, a s := (abs_nonneg _).trans g1
    generalize |W 0| + ∑ s ∈ Finset.range t, a s = B at *
    refine ⟨(abs_add_le _ _).trans (add_le_add g1 h4), ?_⟩
    have p1 : 1 ≤ (1 + κ) ^ t := one_le_pow₀ (by linarith)
    rw [pow_succ]
    generalize (1 + κ) ^ t = p at *
    have a1 : |w t| ≤ |w t - W t| + B := by
      have := abs_add_le (w t - W t) (W t)
      rw [sub_add_cancel] at this
      linarith
    have a2 : |w (t + 1) - (W t + Q t)| ≤ |w (t + 1) - (w t + q t)| + |w t - W t| + |q t - Q t| := by
      have e : w (t + 1) - (W t + Q t) = (w (t + 1) - (w t + q t)) + (w t - W t) + (q t - Q t) := by ring
      rw [e]
      exact (abs_add_le _ _).trans (add_le_add_left (abs_add_le _ _) _)
    have a3 : |w (t + 1) - (W t + Q t)| ≤ (1 + κ) * |w t - W t| + κ * B + κ * ((1 + c) * a t + η) + c * a t + η := by
      have := mul_le_mul_of_nonneg_left a1 κ0
      have := mul_le_mul_of_nonneg_left h5 κ0
      linarith
    have a4 := mul_le_mul_of_nonneg_left g2 (by linarith : 0 ≤ 1 + κ)
    have a5 : (1 + κ) * (1 + c) * a t ≤ p * ((1 + κ) * (1 + c) * a t) := le_mul_of_one_le_left (by positivity) p1
    have a6 : (1 + κ) * η ≤ p * ((1 + κ) * η) := le_mul_of_one_le_left (by positivity) p1
    push_cast
    nlinarith

/-- One update of a velocity: `m v + g`, each operation rounded. -/
theorem velocity_near {u τ p σ μ v V A x y G z : ℝ} (u0 : 0 ≤ u) (σ0 : 0 ≤ σ) (p1 : 1 ≤ p) (hμ : |μ| ≤ 1) (hV : |V| ≤ A)
    (hv : |v - V| ≤ (p - 1) * A + σ) (hx : |x - μ * v| ≤ u * |μ * v| + τ) (hy : |y - G| ≤ u * |G| + τ)
    (hz : |z - (x + y)| ≤ u * |x + y|) :
    |z - (μ * V + G)| ≤ (p * (1 + u) ^ 2 - 1) * (|μ| * A + |G|) + (1 + u) * ((1 + u) * σ + 2 * τ) := by
  have A0 : 0 ≤ A := (abs_nonneg _).trans hV
  have m0 := abs_nonneg μ
  have hv1 : |v| ≤ p * A + σ := by
    have := abs_add_le (v - V) V
    rw [sub_add_cancel] at this
    linarith
  have h1 : |μ * v - μ * V| ≤ |μ| * ((p - 1) * A) + σ := by
    rw [← mul_sub, abs_mul]
    have := mul_le_mul_of_nonneg_left hv m0
    have := mul_le_mul_of_nonneg_right hμ σ0
    linarith
  have h2 : |μ * v| ≤ |μ| * (p * A) + σ := by
    rw [abs_mul]
    have := mul_le_mul_of_nonneg_left hv1 m0
    have := mul_le_mul_of_nonneg_right hμ σ0
    linarith
  have h3 : |x - μ * V| ≤ (p * (1 + u) - 1) * (|μ| * A) + (1 + u) * σ + τ := by
    have := abs_sub_le x (μ * v) (μ * V)
    have := mul_le_mul_of_nonneg_left h2 u0
    nlinarith
  have h4 : u * |G| ≤ (p * (1 + u) - 1) * |G| := mul_le_mul_of_nonneg_right (by nlinarith) (abs_nonneg G)
  have h5 : |x + y - (μ * V + G)| ≤ (p * (1 + u) - 1) * (|μ| * A + |G|) + ((1 + u) * σ + 2 * τ) := by
    have e : x + y - (μ * V + G) = (x - μ * V) + (y - G) := by ring
    rw [e]
    have := abs_add_le (x - μ * V) (y - G)
    linarith
  have h6 : |μ * V + G| ≤ |μ| * A + |G| := by
    have := abs_add_le (μ * V) G
    rw [abs_mul] at this
    have := mul_le_mul_of_nonneg_left hV m0
    linarith
  have h7 : |x + y| ≤ |x + y - (μ * V + G)| + (|μ| * A + |G|) := by
    have := abs_add_le (x + y - (μ * V + G)) (μ * V + G)
    rw [sub_add_cancel] at this
    linarith
  have h8 := abs_sub_le z (x + y) (μ * V + G)
  have h9 := mul_le_mul_of_nonneg_left h7 u0
  have h10 := mul_le_mul_of_nonneg_left h5 u0
  have hG : 0 ≤ |μ| * A + |G| := by positivity
  nlinarith

/-- The velocity of parameter `i` over a run: finite at the end, it is near the discounted sum of the exact gradients, and it was
finite before. -/
theorem velocity_run (hM : M.rnd = binary64Format.rnd) {m : FP M} {μ : ℝ} (hm : Is m μ) (hμ : |μ| ≤ 1) {v g : ℕ → FP M} {G : ℕ → ℝ}
    {T : ℕ} (h0 : v 0 = Scalar.zero) (hg : ∀ t y, Is (g t) y → |y - G t| ≤ roundoff * |G t| + tiny)
    (hv : ∀ t < T, v (t + 1) = (m *. v t +. g t) ∨ (G t = 0 ∧ v (t + 1) = v t *. m) ∨ v (t + 1) = (v t *. m +. g t))
    (hfin : Finite (v T)) :
    ∀ t ≤ T, Finite (v t) ∧
      |discounted μ G t| ≤ discounted |μ| (fun s => |G s|) t ∧
      |real (v t) - discounted μ G t| ≤ ((1 + roundoff) ^ (2 * t) - 1) * discounted |μ| (fun s => |G s|) t +
        2 * t * (1 + roundoff) ^ (2 * t) * tiny := by
  have u0 := roundoff_pos
  have τ0 := tiny_pos
  have disc : ∀ (a : ℝ) (f : ℕ → ℝ) (t : ℕ), discounted a f (t + 1) = a * discounted a f t + f t := by
    intro a f t
    unfold discounted
    rw [Finset.sum_range_succ, Finset.mul_sum, show t + 1 - 1 - t = 0 by omega, pow_zero, one_mul]
    congr 1
    refine Finset.sum_congr rfl fun j hj => ?_
    have := Finset.mem_range.1 hj
    rw [show t + 1 - 1 - j = (t - 1 - j) + 1 by omega, pow_succ]
    ring
  -- the parts of one update
  have parts : ∀ t < T, ∀ z, Is (v (t + 1)) z → ∃ c x y, Is (v t) c ∧ |x - μ * c| ≤ roundoff * |μ * c| + tiny ∧
      |y - G t| ≤ roundoff * |G t| + tiny ∧ |z - (x + y)| ≤ roundoff * |x + y| := by
    intro t ht z hz
    rcases hv t ht with h | ⟨hG, h⟩ | h <;> rw [h] at hz
    · obtain ⟨x, y, hx, hy, hxy⟩ := add_err hM hz
      obtain ⟨a, c, ha, hc, hac⟩ := mul_err hM hx
      cases is_fun ha hm
      exact ⟨c, x, y, hc, hac, hg t y hy, hxy⟩
    · obtain ⟨c, a, hc, ha, hac⟩ := mul_err hM hz
      cases is_fun ha hm
      refine ⟨c, z, 0, hc, by rwa [mul_comm c μ] at hac, by rw [hG]; simp; exact τ0.le, ?_⟩
      rw [add_zero, sub_self, abs_zero]
      positivity
    · obtain ⟨x, y, hx, hy, hxy⟩ := add_err hM hz
      obtain ⟨c, a, hc, ha, hac⟩ := mul_err hM hx
      cases is_fun ha hm
      exact ⟨c, x, y, hc, by rwa [mul_comm c μ] at hac, hg t y hy, hxy⟩
  have fin : ∀ k t, t + k = T → Finite (v t) := by
    intro k
    induction k with
    | zero => intro t ht; rw [add_zero] at ht; rw [ht]; exact hfin
    | succ k ih =>
      intro t ht
      obtain ⟨z, hz⟩ := ih (t + 1) (by omega)
      obtain ⟨c, -, -, hc, -⟩ := parts t (by omega) z hz
      exact ⟨c, hc⟩
  intro t ht
  refine ⟨fin (T - t) t (by omega), ?_⟩
  induction t with
  | zero =>
    rw [h0, real_zero']
    simp [discounted]
  | succ t ih =>
    obtain ⟨i1, i2⟩ := ih (by omega)
    obtain ⟨z, hz⟩ := fin (T - (t + 1)) (t + 1) (by omega)
    obtain ⟨c, x, y, hc, hx, hy, hxy⟩ := parts t (by omega) z hz
    rw [is_real hc] at i2
    rw [is_real hz, disc, disc]
    have A0 : 0 ≤ discounted |μ| (fun s => |G s|) t := (abs_nonneg _).trans i1
    constructor
    · refine (abs_add_le _ _).trans (add_le_add_left ?_ _)
      rw [abs_mul]
      exact mul_le_mul_of_nonneg_left i1 (abs_nonneg μ)
    · have p1 : 1 ≤ (1 + roundoff) ^ (2 * t) := one_le_pow₀ (by linarith)
      have := velocity_near u0.le (by positivity) p1 hμ i1 i2 hx hy hxy
      refine this.trans ?_
      rw [show 2 * (t + 1) = 2 * t + 2 by ring, pow_add]
      generalize (1 + roundoff) ^ (2 * t) = p at *
      have k1 : (1 + roundoff) * tiny ≤ p * ((1 + roundoff) ^ 2 * tiny) := by
        have : (1 + roundoff) * tiny ≤ (1 + roundoff) ^ 2 * tiny := mul_le_mul_of_nonneg_right (by nlinarith) τ0.le
        exact this.trans (le_mul_of_one_le_left (by positivity) p1)
      push_cast
      linarith

end Lfa

import Verif.Props.C177
import Mathlib.Tactic.Abel

/-!
# Perturbed linear steps

As `Sweep.perturbed`, for additive steps `A t` on any group with a distance `N` that the steps never increase.
-/

set_option linter.unusedSectionVars false

namespace Lfa

noncomputable section

variable {E : Type} [AddCommGroup E]

/-- `m` steps from step `s` on. -/
def steps (A : ℕ → E → E) (s : ℕ) (x : E) : ℕ → E
  | 0 => x
  | m + 1 => A (s + m) (steps A s x m)

/-- Steps of which every `L` shrink by `r`, each followed by an error of at most `ε N + β`, stay near zero. -/
theorem perturbed_steps {N : E → ℝ} (Nn : ∀ x, 0 ≤ N x) (Nz : N 0 = 0) (Na : ∀ x y, N (x + y) ≤ N x + N y) {A : ℕ → E → E}
    (Aa : ∀ i x y, A i (x + y) = A i x + A i y) (hst : ∀ i x, N (A i x) ≤ N x) {r ε β : ℝ} (r0 : 0 ≤ r) (ε0 : 0 ≤ ε)
    (β0 : 0 ≤ β) {L : ℕ} (hL : 4 * (L * ε) ≤ 1 - r) (r1 : r < 1)
    (Lpos : 0 < L) (hr : ∀ s u, N (steps A s u L) ≤ r * N u) (z : ℕ → E) (T : ℕ)
    (hz : ∀ s < T, N (z (s + 1) - A s (z s)) ≤ ε * N (z s) + β) (k : ℕ) (hk : k ≤ T) :
    N (z k) ≤ 2 * ((1 + r) / 2) ^ (k / L) * N (z 0) + 10 * (L * β) / (1 - r) := by
  have hεL : ε * L ≤ 1 / 2 := by nlinarith
  have L0 : (0 : ℝ) ≤ L := L.cast_nonneg
  have d : 0 < 1 - r := by linarith
  -- within `L` calls
  have mid : ∀ s m, m ≤ L → s + m ≤ T → N (z (s + m)) ≤ 2 * (N (z s) + L * β) := by
    intro s m hm hT
    have hm' : (m : ℝ) ≤ L := by exact_mod_cast hm
    have := growth_run (N := fun m => N (z (s + m))) (D := 0) (ε := ε) (η := β) (fun _ => Nn _) le_rfl ε0 β0 (T := m)
      (by nlinarith) (fun t ht => by
        have h1 := hz (s + t) (by omega)
        have h2 := hst (s + t) (z (s + t))
        have h3 := Na (z (s + t + 1) - A (s + t) (z (s + t))) (A (s + t) (z (s + t)))
        rw [sub_add_cancel] at h3
        show N (z (s + t + 1)) ≤ _
        linarith) m le_rfl
    simp only [add_zero, zero_add] at this
    have h1 := mul_le_mul_of_nonneg_right hm' β0
    linarith
  -- distance from the exact run
  have dev : ∀ s m, m ≤ L → s + m ≤ T → N (z (s + m) - steps A s (z s) m) ≤ m * (ε * (2 * (N (z s) + L * β)) + β) := by
    intro s m
    induction m with
    | zero => intro _ _; simp [steps, Nz]
    | succ m ih =>
      intro hm hT
      have i1 := ih (by omega) (by omega)
      have h1 := hz (s + m) (by omega)
      have h2 := mul_le_mul_of_nonneg_left (mid s m (by omega) (by omega)) ε0
      have e : z (s + (m + 1)) - steps A s (z s) (m + 1) =
          (z (s + m + 1) - A (s + m) (z (s + m))) + A (s + m) (z (s + m) - steps A s (z s) m) := by
        have e2 : A (s + m) (z (s + m)) = A (s + m) (z (s + m) - steps A s (z s) m) + A (s + m) (steps A s (z s) m) := by
          rw [← Aa, sub_add_cancel]
        rw [e2]
        show z (s + m + 1) - A (s + m) (steps A s (z s) m) = _
        abel
      rw [e]
      refine (Na _ _).trans ?_
      have h3 := hst (s + m) (z (s + m) - steps A s (z s) m)
      rw [Nat.cast_succ]
      linarith
  -- one epoch
  have epoch : ∀ s, s + L ≤ T → N (z (s + L)) ≤ (1 + r) / 2 * N (z s) + 2 * (L * β) := by
    intro s hs
    have h1 := dev s L le_rfl hs
    have h2 := hr s (z s)
    have h3 := Na (z (s + L) - steps A s (z s) L) (steps A s (z s) L)
    rw [sub_add_cancel] at h3
    have h4 := Nn (z s)
    have h5 : (L : ℝ) * (ε * (2 * (N (z s) + L * β)) + β) ≤ (1 - r) / 2 * N (z s) + 2 * (L * β) := by
      have a1 := mul_le_mul_of_nonneg_right (by linarith : 2 * (L * ε) ≤ (1 - r) / 2) h4
      have a2 := mul_le_mul_of_nonneg_right (by linarith : 2 * (L * ε) ≤ 1) (mul_nonneg L0 β0)
      linarith
    linarith
  have ends : ∀ j, L * j ≤ T → N (z (L * j)) ≤ ((1 + r) / 2) ^ j * N (z 0) + 4 * (L * β) / (1 - r) := by
    intro j
    induction j with
    | zero =>
      intro _
      have : 0 ≤ 4 * (L * β) / (1 - r) := by positivity
      simpa using this
    | succ j ih =>
      intro hT
      have h0 : L * (j + 1) = L * j + L := by ring
      rw [h0] at hT ⊢
      have h1 := ih (by omega)
      have h2 := epoch (L * j) hT
      have h3 := mul_le_mul_of_nonneg_left h1 (by linarith : 0 ≤ (1 + r) / 2)
      have h4 : (1 + r) / 2 * (4 * (L * β) / (1 - r)) + 2 * (L * β) = 4 * (L * β) / (1 - r) := by
        field_simp
        ring
      rw [pow_succ']
      nlinarith
  have hkd := Nat.div_add_mod k L
  have h1 := ends (k / L) (by omega)
  have h2 := mid (L * (k / L)) (k % L) (Nat.mod_lt _ Lpos).le (by omega)
  rw [hkd] at h2
  have h3 : (L : ℝ) * β ≤ L * β / (1 - r) := by
    rw [le_div_iff₀ d]
    nlinarith [mul_nonneg L0 β0]
  have e1 : 4 * (L * β) / (1 - r) = 4 * (L * β / (1 - r)) := by ring
  have e2 : 10 * (L * β) / (1 - r) = 10 * (L * β / (1 - r)) := by ring
  rw [e1] at h1
  rw [e2]
  linarith

/-- Steps of which every `L` shrink by `r`, each followed by a move of at most `β`: the start is forgotten at the rate `r` per `L`
steps. -/
theorem driven_steps {N : E → ℝ} (Nz : N 0 = 0) (Na : ∀ x y, N (x + y) ≤ N x + N y) {A : ℕ → E → E}
    (Aa : ∀ i x y, A i (x + y) = A i x + A i y) (hst : ∀ i x, N (A i x) ≤ N x) {r β : ℝ} (r0 : 0 ≤ r) (β0 : 0 ≤ β) {L : ℕ}
    (r1 : r < 1) (Lpos : 0 < L) (hr : ∀ s u, N (steps A s u L) ≤ r * N u) (z : ℕ → E)
    (hz : ∀ s, N (z (s + 1) - A s (z s)) ≤ β) (k : ℕ) :
    N (z k) ≤ r ^ (k / L) * N (z 0) + 2 * (L * β) / (1 - r) := by
  have L0 : (0 : ℝ) ≤ L := L.cast_nonneg
  have d : 0 < 1 - r := by linarith
  have dev : ∀ s m, N (z (s + m) - steps A s (z s) m) ≤ m * β := by
    intro s m
    induction m with
    | zero => simp [steps, Nz]
    | succ m ih =>
      have h1 := hz (s + m)
      have e : z (s + (m + 1)) - steps A s (z s) (m + 1) =
          (z (s + m + 1) - A (s + m) (z (s + m))) + A (s + m) (z (s + m) - steps A s (z s) m) := by
        have e2 : A (s + m) (z (s + m)) = A (s + m) (z (s + m) - steps A s (z s) m) + A (s + m) (steps A s (z s) m) := by
          rw [← Aa, sub_add_cancel]
        rw [e2]
        show z (s + m + 1) - A (s + m) (steps A s (z s) m) = _
        abel
      rw [e]
      refine (Na _ _).trans ?_
      have h3 := hst (s + m) (z (s + m) - steps A s (z s) m)
      rw [Nat.cast_succ]
      linarith
  have steps_le : ∀ s x m, N (steps A s x m) ≤ N x := by
    intro s x m
    induction m with
    | zero => exact le_rfl
    | succ m ih => exact (hst _ _).trans ih
  have ends : ∀ j, N (z (L * j)) ≤ r ^ j * N (z 0) + L * β / (1 - r) := by
    intro j
    induction j with
    | zero =>
      have : 0 ≤ L * β / (1 - r) := by positivity
      simpa using this
    | succ j ih =>
      have h0 : L * (j + 1) = L * j + L := by ring
      rw [h0]
      have h1 := dev (L * j) L
      have h2 := hr (L * j) (z (L * j))
      have h3 := Na (z (L * j + L) - steps A (L * j) (z (L * j)) L) (steps A (L * j) (z (L * j)) L)
      rw [sub_add_cancel] at h3
      have h4 := mul_le_mul_of_nonneg_left ih r0
      have h5 : r * (L * β / (1 - r)) + L * β = L * β / (1 - r) := by
        field_simp
        ring
      rw [pow_succ']
      nlinarith
  have hkd := Nat.div_add_mod k L
  have h1 := ends (k / L)
  have h2 := dev (L * (k / L)) (k % L)
  have h3 := Na (z (L * (k / L) + k % L) - steps A (L * (k / L)) (z (L * (k / L))) (k % L))
    (steps A (L * (k / L)) (z (L * (k / L))) (k % L))
  rw [sub_add_cancel, hkd] at h3
  rw [hkd] at h2
  have h4 := steps_le (L * (k / L)) (z (L * (k / L))) (k % L)
  have h5 : ((k % L : ℕ) : ℝ) * β ≤ L * β := mul_le_mul_of_nonneg_right (by exact_mod_cast (Nat.mod_lt k Lpos).le) β0
  have h6 : (L : ℝ) * β ≤ L * β / (1 - r) := by
    rw [le_div_iff₀ d]
    nlinarith [mul_nonneg L0 β0]
  have e2 : 2 * (L * β) / (1 - r) = 2 * (L * β / (1 - r)) := by ring
  rw [e2]
  linarith

end

end Lfa

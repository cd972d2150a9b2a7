import Verif.Proofs.Bootstrap
import Mathlib.Logic.Equiv.Fin.Rotate

/-! # Small linear steps taken in a fixed order -/

set_option linter.unusedSectionVars false

namespace Lfa.Boot

open Filter Topology Sweep

noncomputable section

variable {E : Type} [NormedAddCommGroup E] [InnerProductSpace ℝ E]

/-- Steps `u ↦ u + α (c k - A k u)`. -/
def walk (α : ℝ) (A : ℕ → E →ₗ[ℝ] E) (c : ℕ → E) (u : E) : ℕ → E
  | 0 => u
  | k + 1 => walk α A c u k + α • (c k - A k (walk α A c u k))

variable {α : ℝ} {A : ℕ → E →ₗ[ℝ] E} {c : ℕ → E} {N : ℕ}

theorem walk_sub (u v : E) (k : ℕ) : walk α A c u k - walk α A c v k = walk α A 0 (u - v) k := by
  induction k with
  | zero => rfl
  | succ k ih =>
    show walk α A c u k + α • (c k - A k (walk α A c u k)) - (walk α A c v k + α • (c k - A k (walk α A c v k)))
      = walk α A 0 (u - v) k + α • (0 - A k (walk α A 0 (u - v) k))
    rw [← ih, map_sub]
    module

theorem walk_mem {U : Submodule ℝ E} (hA : ∀ k u, A k u ∈ U) (hc : ∀ k, c k ∈ U) (u : E) (k : ℕ) :
    walk α A c u k - u ∈ U := by
  induction k with
  | zero => show u - u ∈ U; rw [sub_self]; exact U.zero_mem
  | succ k ih =>
    show walk α A c u k + α • (c k - A k (walk α A c u k)) - u ∈ U
    rw [add_sub_right_comm]
    exact U.add_mem ih (U.smul_mem _ (U.sub_mem (hc k) (hA k _)))

theorem walk_shift (hA : ∀ k, A (k + N) = A k) (hc : ∀ k, c (k + N) = c k) (u : E) (k : ℕ) :
    walk α A c u (k + N) = walk α A c (walk α A c u N) k := by
  induction k with
  | zero => rw [Nat.zero_add]; rfl
  | succ k ih =>
    rw [Nat.succ_add]
    show walk α A c u (k + N) + α • (c (k + N) - A (k + N) (walk α A c u (k + N))) = _
    rw [ih, hA, hc]
    rfl

/-- The linear part. -/
def walkL (α : ℝ) (A : ℕ → E →ₗ[ℝ] E) : ℕ → E →ₗ[ℝ] E
  | 0 => LinearMap.id
  | k + 1 => walkL α A k - α • (A k).comp (walkL α A k)

theorem walkL_apply (u : E) (k : ℕ) : walkL α A k u = walk α A 0 u k := by
  induction k with
  | zero => rfl
  | succ k ih =>
    show (walkL α A k - α • (A k).comp (walkL α A k)) u = walk α A 0 u k + α • (0 - A k (walk α A 0 u k))
    rw [LinearMap.sub_apply, LinearMap.smul_apply, LinearMap.comp_apply, ih, zero_sub, smul_neg, sub_eq_add_neg]

variable {κ : ℝ}

theorem walk_near (hα : 0 ≤ α) (hκ : 0 ≤ κ) (hA : ∀ k u, ‖A k u‖ ≤ κ * ‖u‖) (u : E) (k : ℕ) :
    ‖walk α A 0 u k‖ ≤ (1 + α * κ) ^ k * ‖u‖ := by
  induction k with
  | zero => rw [pow_zero, one_mul]; exact le_rfl
  | succ k ih =>
    show ‖walk α A 0 u k + α • (0 - A k (walk α A 0 u k))‖ ≤ _
    refine (norm_add_le _ _).trans ?_
    rw [norm_smul, Real.norm_of_nonneg hα, zero_sub, norm_neg]
    have h1 := mul_le_mul_of_nonneg_left (hA k (walk α A 0 u k)) hα
    have h2 : (0 : ℝ) ≤ 1 + α * κ := by positivity
    have h3 := mul_le_mul_of_nonneg_left ih h2
    rw [pow_succ]
    nlinarith

theorem walk_first (hα : 0 ≤ α) (hκ : 0 ≤ κ) (hA : ∀ k u, ‖A k u‖ ≤ κ * ‖u‖) (u : E) (k : ℕ) :
    ‖walk α A 0 u k - u‖ ≤ ((1 + α * κ) ^ k - 1) * ‖u‖ := by
  induction k with
  | zero => simp [walk]
  | succ k ih =>
    have e : walk α A 0 u (k + 1) - u = (walk α A 0 u k - u) + α • -A k (walk α A 0 u k) := by
      show walk α A 0 u k + α • (0 - A k (walk α A 0 u k)) - u = _
      rw [zero_sub]
      abel
    rw [e]
    refine (norm_add_le _ _).trans ?_
    rw [norm_smul, Real.norm_of_nonneg hα, norm_neg]
    have h1 := mul_le_mul_of_nonneg_left (hA k (walk α A 0 u k)) hα
    have h2 := mul_le_mul_of_nonneg_left (walk_near hα hκ hA u k) (mul_nonneg hα hκ)
    rw [pow_succ]
    nlinarith

theorem walk_second (hα : 0 ≤ α) (hκ : 0 ≤ κ) (hA : ∀ k u, ‖A k u‖ ≤ κ * ‖u‖) (u : E) (k : ℕ) :
    ‖walk α A 0 u k - (u - α • ∑ j ∈ Finset.range k, A j u)‖ ≤
      ((1 + α * κ) ^ k - 1 - k * (α * κ)) * ‖u‖ := by
  induction k with
  | zero => simp [walk]
  | succ k ih =>
    have e : walk α A 0 u (k + 1) - (u - α • ∑ j ∈ Finset.range (k + 1), A j u) =
        (walk α A 0 u k - (u - α • ∑ j ∈ Finset.range k, A j u)) + α • -A k (walk α A 0 u k - u) := by
      show walk α A 0 u k + α • (0 - A k (walk α A 0 u k)) - _ = _
      rw [Finset.sum_range_succ, map_sub]
      module
    rw [e]
    refine (norm_add_le _ _).trans ?_
    rw [norm_smul, Real.norm_of_nonneg hα, norm_neg]
    have h1 := mul_le_mul_of_nonneg_left (hA k (walk α A 0 u k - u)) hα
    have h2 := mul_le_mul_of_nonneg_left (walk_first hα hκ hA u k) (mul_nonneg hα hκ)
    rw [pow_succ]
    push_cast
    nlinarith

theorem pow_second {t : ℝ} (h0 : 0 ≤ t) (h1 : t ≤ 1) (k : ℕ) : (1 + t) ^ k - 1 - k * t ≤ 3 ^ k * t ^ 2 := by
  induction k with
  | zero => simp; positivity
  | succ k ih =>
    have h2 : (k : ℝ) ≤ 3 ^ k := by
      have : k < 3 ^ k := Nat.lt_pow_self (by norm_num)
      exact_mod_cast this.le
    have h3 : (1 + t) ^ (k + 1) - 1 - (k + 1 : ℕ) * t = ((1 + t) ^ k - 1 - k * t) * (1 + t) + k * t ^ 2 := by
      rw [pow_succ]
      push_cast
      ring
    rw [h3, show (3 : ℝ) ^ (k + 1) = 3 ^ k * 3 from pow_succ _ _]
    have h4 : ((1 + t) ^ k - 1 - k * t) * (1 + t) ≤ 3 ^ k * t ^ 2 * 2 :=
      mul_le_mul ih (by linarith) (by linarith) (by positivity)
    have h5 := mul_le_mul_of_nonneg_right h2 (sq_nonneg t)
    linarith

/-- Steps that point the right way on the whole shrink distances, if they are small. -/
theorem sweep_small {U : Submodule ℝ E} (hκ : 0 ≤ κ) (hA : ∀ k u, ‖A k u‖ ≤ κ * ‖u‖) {s : ℝ} (hs : 0 < s)
    (hU : ∀ u ∈ U, s * ‖u‖ ^ 2 ≤ inner ℝ u (∑ j ∈ Finset.range N, A j u)) :
    ∃ α₀ > 0, ∀ α, 0 < α → α < α₀ → ∃ q, 0 < q ∧ q < 1 ∧ ∀ u ∈ U, ‖walk α A 0 u N‖ ≤ q * ‖u‖ := by
  set K : ℝ := N * κ with hK
  have hK0 : 0 ≤ K := by positivity
  set D : ℝ := K ^ 2 / 2 + 3 ^ N * κ ^ 2 + 1 with hD
  have hD0 : 0 < D := by positivity
  refine ⟨min (s / D) (min (1 / (κ + 1)) (1 / (2 * s))), by positivity, fun α h0 h1 => ?_⟩
  rw [lt_min_iff, lt_min_iff, lt_div_iff₀ hD0, lt_div_iff₀ (by positivity), lt_div_iff₀ (by positivity)] at h1
  obtain ⟨hα1, hα2, hα3⟩ := h1
  have hακ : α * κ ≤ 1 := by nlinarith
  have hp : 0 < 1 - α * s + α ^ 2 * K ^ 2 / 2 := by
    have : 0 ≤ α ^ 2 * K ^ 2 / 2 := by positivity
    nlinarith
  refine ⟨1 - α * s + α ^ 2 * D, ?_, ?_, fun u hu => ?_⟩
  · have : 0 ≤ α ^ 2 * D := by positivity
    nlinarith
  · nlinarith
  · have h2 := (walk_second h0.le hκ hA u N).trans
      (mul_le_mul_of_nonneg_right (pow_second (mul_nonneg h0.le hκ) hακ N) (norm_nonneg u))
    set G := ∑ j ∈ Finset.range N, A j u with hG
    have hGn : ‖G‖ ≤ K * ‖u‖ := by
      refine (norm_sum_le _ _).trans ((Finset.sum_le_sum fun j _ => hA j u).trans (le_of_eq ?_))
      rw [Finset.sum_const, Finset.card_range, nsmul_eq_mul, hK]
      ring
    have h3 : ‖u - α • G‖ ≤ (1 - α * s + α ^ 2 * K ^ 2 / 2) * ‖u‖ := by
      refine le_of_sq_le_sq ?_ (by positivity)
      rw [norm_sub_sq_real, inner_smul_right, norm_smul, Real.norm_of_nonneg h0.le, mul_pow, mul_pow]
      have h4 := mul_le_mul_of_nonneg_left (hU u hu) h0.le
      have h5 : ‖G‖ ^ 2 ≤ K ^ 2 * ‖u‖ ^ 2 := by
        rw [← mul_pow]
        exact pow_le_pow_left₀ (norm_nonneg _) hGn 2
      have h6 := mul_le_mul_of_nonneg_left h5 (sq_nonneg α)
      have h7 : (1 - α * s + α ^ 2 * K ^ 2 / 2) ^ 2 * ‖u‖ ^ 2 =
          (1 - 2 * (α * s) + α ^ 2 * K ^ 2) * ‖u‖ ^ 2 + (α * s - α ^ 2 * K ^ 2 / 2) ^ 2 * ‖u‖ ^ 2 := by ring
      have h8 : 0 ≤ (α * s - α ^ 2 * K ^ 2 / 2) ^ 2 * ‖u‖ ^ 2 := by positivity
      rw [h7]
      nlinarith
    have h9 : walk α A 0 u N = (u - α • G) + (walk α A 0 u N - (u - α • G)) := by abel
    rw [h9]
    refine (norm_add_le _ _).trans ((add_le_add h3 h2).trans ?_)
    rw [← add_mul]
    refine mul_le_mul_of_nonneg_right ?_ (norm_nonneg u)
    rw [hD, mul_pow]
    nlinarith [sq_nonneg α]

/-- Periodic steps approach a periodic orbit. -/
theorem walk_cycle [FiniteDimensional ℝ E] {U : Submodule ℝ E} (hN : 0 < N) (hα : 0 ≤ α) (hκ : 0 ≤ κ)
    (hA : ∀ k u, ‖A k u‖ ≤ κ * ‖u‖) (hAU : ∀ k u, A k u ∈ U) (hAN : ∀ k, A (k + N) = A k) {q : ℝ} (q0 : 0 < q)
    (q1 : q < 1) (hq : ∀ u ∈ U, ‖walk α A 0 u N‖ ≤ q * ‖u‖) (hc : ∀ k, c (k + N) = c k) (hcU : ∀ k, c k ∈ U)
    (w : E) : ∃ v, v - w ∈ U ∧ (∀ k, walk α A c v (k + N) = walk α A c v k) ∧
      (∀ k, ‖walk α A c w k - walk α A c v k‖ ≤ (1 + α * κ) ^ N * q ^ (k / N) * ‖w - v‖) ∧
      ∀ z, z - w ∈ U → walk α A c z N = z → z = v := by
  have hmem : ∀ u ∈ U, ∀ k, walk α A 0 u k ∈ U := fun u hu k => by
    have := U.add_mem (walk_mem (c := (0 : ℕ → E)) (α := α) hAU (fun _ => U.zero_mem) u k) hu
    rwa [sub_add_cancel] at this
  let T : U →ₗ[ℝ] U := LinearMap.id - (walkL α A N).restrict (fun u hu => by
    rw [walkL_apply]; exact hmem u hu N)
  have hzero : ∀ u ∈ U, walk α A 0 u N = u → u = 0 := by
    intro u hu he
    by_contra h0
    have h1 := hq u hu
    rw [he] at h1
    have h2 : 0 < ‖u‖ := norm_pos_iff.2 h0
    nlinarith
  have hinj : Function.Injective T := by
    rw [← LinearMap.ker_eq_bot, LinearMap.ker_eq_bot']
    intro u hu
    have h3 : (u : E) - walkL α A N u = 0 := congrArg Subtype.val hu
    rw [walkL_apply] at h3
    exact Subtype.ext (hzero u u.2 (sub_eq_zero.1 h3).symm)
  obtain ⟨z, hz⟩ := LinearMap.surjective_of_injective hinj ⟨walk α A c w N - w, walk_mem hAU hcU w N⟩
  have hz : (z : E) - walkL α A N z = walk α A c w N - w := congrArg Subtype.val hz
  rw [walkL_apply] at hz
  have hfix : walk α A c (w + z) N = w + z := by
    have h1 := walk_sub (α := α) (A := A) (c := c) (w + z) w N
    rw [add_sub_cancel_left] at h1
    have h2 : walk α A c (w + z) N = walk α A c w N + walk α A 0 z N := by rw [← h1]; abel
    rw [h2]
    have h3 : walk α A c w N = (z : E) - walk α A 0 z N + w := by rw [hz]; abel
    rw [h3]
    abel
  have hvU : w + z - w ∈ U := by rw [add_sub_cancel_left]; exact z.2
  refine ⟨w + z, hvU, fun k => ?_, fun k => ?_, fun s hs hsN => ?_⟩
  · rw [walk_shift hAN hc, hfix]
  · rw [walk_sub]
    have hu : w - (w + z) ∈ U := by rw [← neg_sub]; exact U.neg_mem hvU
    generalize w - (w + (z : E)) = u at hu
    induction k using Nat.strong_induction_on generalizing u with
    | _ k ih =>
      by_cases hk : k < N
      · rw [Nat.div_eq_of_lt hk, pow_zero, mul_one]
        refine (walk_near hα hκ hA u k).trans (mul_le_mul_of_nonneg_right ?_ (norm_nonneg u))
        exact pow_le_pow_right₀ (by have := mul_nonneg hα hκ; linarith) hk.le
      · obtain ⟨j, rfl⟩ := Nat.exists_eq_add_of_le' (not_lt.1 hk)
        rw [walk_shift hAN (fun _ => rfl), Nat.add_div_right _ hN, pow_succ]
        refine (ih j (by omega) _ (hmem u hu N)).trans ?_
        have h1 := mul_le_mul_of_nonneg_left (hq u hu)
          (show 0 ≤ (1 + α * κ) ^ N * q ^ (j / N) by
            have := mul_nonneg hα hκ
            positivity)
        calc _ ≤ (1 + α * κ) ^ N * q ^ (j / N) * (q * ‖u‖) := h1
          _ = _ := by ring
  · have h1 : walk α A 0 (s - (w + z)) N = s - (w + z) := by
      rw [← walk_sub (c := c), hsN, hfix]
    have h2 : s - (w + z) ∈ U := by
      have := U.sub_mem hs hvU
      rwa [sub_sub_sub_cancel_right] at this
    exact sub_eq_zero.1 (hzero _ h2 h1)

/-- The turn of the `k`-th call. -/
def turn (hN : 0 < N) (k : ℕ) : Fin N := ⟨k % N, Nat.mod_lt k hN⟩

theorem turn_add (hN : 0 < N) (k : ℕ) : turn hN (k + N) = turn hN k :=
  Fin.ext (Nat.add_mod_right k N)

theorem sum_turn (hN : 0 < N) {F : Type} [AddCommMonoid F] (g : Fin N → F) :
    ∑ k ∈ Finset.range N, g (turn hN k) = ∑ j, g j := by
  rw [Finset.sum_range]
  refine Finset.sum_congr rfl fun j _ => ?_
  congr 1
  exact Fin.ext (Nat.mod_eq_of_lt j.2)

/-- The step of a transition. -/
def pull (γ : ℝ) (f g : E) : E →ₗ[ℝ] E := (innerₛₗ ℝ f - γ • innerₛₗ ℝ g).smulRight f

theorem pull_apply (γ : ℝ) (f g u : E) : pull γ f g u = (inner ℝ f u - γ * inner ℝ g u) • f := by
  simp [pull]

/-- The steps of a closed set of transitions point the right way on the whole. -/
theorem pull_sweep [FiniteDimensional ℝ E] (hN : 0 < N) (f : Fin N → E) (σ : Equiv.Perm (Fin N)) {γ : ℝ}
    (hγ : 0 ≤ γ) (hγ1 : γ < 1) : ∃ κ s : ℝ, 0 ≤ κ ∧ 0 < s ∧
      (∀ k u, ‖pull γ (f (turn hN k)) (f (σ (turn hN k))) u‖ ≤ κ * ‖u‖) ∧
      ∀ u ∈ U f, s * ‖u‖ ^ 2 ≤
        inner ℝ u (∑ k ∈ Finset.range N, pull γ (f (turn hN k)) (f (σ (turn hN k))) u) := by
  have hn : (0 : ℝ) < N := by exact_mod_cast hN
  obtain ⟨s, s0, hs⟩ := visible hN f
  refine ⟨∑ j, ‖f j - γ • f (σ j)‖ * ‖f j‖, (1 - γ) * (N * s), Finset.sum_nonneg fun _ _ => by positivity,
    mul_pos (by linarith) (by positivity), fun k u => ?_, fun u hu => ?_⟩
  · set j := turn hN k
    have h1 := Finset.single_le_sum (f := fun j => ‖f j - γ • f (σ j)‖ * ‖f j‖)
      (fun _ _ => by positivity) (Finset.mem_univ j)
    refine le_trans ?_ (mul_le_mul_of_nonneg_right h1 (norm_nonneg u))
    have e : inner ℝ (f j) u - γ * inner ℝ (f (σ j)) u = inner ℝ (f j - γ • f (σ j)) u := by
      rw [inner_sub_left, inner_smul_left, RCLike.conj_to_real]
    rw [pull_apply, norm_smul, e, Real.norm_eq_abs]
    have h2 := abs_real_inner_le_norm (f j - γ • f (σ j)) u
    have := mul_le_mul_of_nonneg_right h2 (norm_nonneg (f j))
    nlinarith
  · rw [sum_turn hN fun j => pull γ (f j) (f (σ j)) u, inner_sum]
    simp only [pull_apply, inner_smul_right]
    have h1 := hs u hu
    rw [← div_eq_inv_mul, le_div_iff₀ hn] at h1
    have h2 := drift σ hγ fun j => inner ℝ (f j) u
    have h3 := mul_le_mul_of_nonneg_left h1 (sub_pos.2 hγ1).le
    have h4 : ∑ j, (inner ℝ (f j) u - γ * inner ℝ (f (σ j)) u) * inner ℝ u (f j) =
        ∑ j, inner ℝ (f j) u * (inner ℝ (f j) u - γ * inner ℝ (f (σ j)) u) :=
      Finset.sum_congr rfl fun j _ => by rw [real_inner_comm u (f j)]; ring
    rw [h4]
    nlinarith

end

end Lfa.Boot

import Mathlib.Analysis.SpecificLimits.Basic
import Mathlib.Analysis.SpecificLimits.Normed
import Mathlib.Topology.MetricSpace.Contracting
import Mathlib.Data.Finset.Lattice.Fold
import Mathlib.Topology.Algebra.InfiniteSum.Real
import Mathlib.Tactic.Linarith
import Mathlib.Tactic.Ring

/-!
# Tables trained one entry at a time towards targets that depend on the table

Deviations of a table from the values it should have, when each call trains one entry and the target deviates by
at most `γ` times the largest deviation of the entries it was computed from. Used by C186 and C187.
-/

namespace Lfa.Backup

open Filter Topology

/-- Entries that are trained again and again. -/
def Recurrent {ι : Type} (s : ℕ → ι) (i : ι) : Prop := ∀ m, ∃ j, m ≤ j ∧ s j = i

section
variable {ι : Type} [Finite ι] {α γ ρ : ℝ} {e : ℕ → ι → ℝ} {s : ℕ → ι} {T : ℕ → Set ι}

omit [Finite ι] in
/-- Deviations within `c ≥ ρ / (α (1 - γ))` stay within `c`. -/
theorem stays (hα1 : α ≤ 1) (h0 : ∀ k i, i ≠ s k → e (k + 1) i = e k i)
    {c : ℝ} (hc : ρ ≤ α * (1 - γ) * c) (hi : ∀ i, |e 0 i| ≤ c)
    (h1 : ∀ k, (∀ i, |e k i| ≤ c) → |e (k + 1) (s k)| ≤ (1 - α) * |e k (s k)| + α * γ * c + ρ) :
    ∀ k i, |e k i| ≤ c := by
  intro k
  induction k with
  | zero => exact hi
  | succ k ih =>
    intro i
    by_cases h : i = s k
    · rw [h]
      have h2 := h1 k ih
      have h3 := mul_le_mul_of_nonneg_left (ih (s k)) (by linarith : (0 : ℝ) ≤ 1 - α)
      nlinarith
    · rw [h0 k i h]
      exact ih i

/-- The deviations of the entries that are trained again and again fall to `ρ / (α (1 - γ))`. -/
theorem falls (hα : 0 < α) (hα1 : α ≤ 1) (hγ : 0 ≤ γ) (hγ1 : γ < 1) (hρ : 0 ≤ ρ)
    (h0 : ∀ k i, i ≠ s k → e (k + 1) i = e k i)
    (hT : ∀ k, ∀ i ∈ T k, Recurrent s i)
    (h1 : ∀ k c, 0 ≤ c → Recurrent s (s k) → (∀ i ∈ T k, |e k i| ≤ c) → |e k (s k)| ≤ c →
      |e (k + 1) (s k)| ≤ (1 - α) * |e k (s k)| + α * γ * c + ρ) :
    ∀ ε > 0, ∃ m, ∀ k, m ≤ k → ∀ i, Recurrent s i → |e k i| ≤ ρ / (α * (1 - γ)) + ε := by
  classical
  have : Fintype ι := Fintype.ofFinite ι
  set d := ρ / (α * (1 - γ)) with hd
  have hpos : 0 < α * (1 - γ) := mul_pos hα (by linarith)
  have hd0 : 0 ≤ d := div_nonneg hρ hpos.le
  have hρd : ρ = α * (1 - γ) * d := by
    rw [hd, mul_div_cancel₀ _ hpos.ne']
  -- one round
  have shrink : ∀ c : ℝ, 0 ≤ c → (∃ m, ∀ k, m ≤ k → ∀ i, Recurrent s i → |e k i| ≤ d + c) →
      ∃ m, ∀ k, m ≤ k → ∀ i, Recurrent s i → |e k i| ≤ d + (1 + γ) / 2 * c := by
    rintro c hc ⟨m, hm⟩
    have upd : ∀ k, m ≤ k → Recurrent s (s k) →
        |e (k + 1) (s k)| ≤ (1 - α) * |e k (s k)| + α * (d + γ * c) := by
      intro k hk hr
      have := h1 k (d + c) (by linarith) hr (fun i hi => hm k hk i (hT k i hi)) (hm k hk _ hr)
      rw [hρd] at this
      nlinarith
    have each : ∀ i, ∃ m', Recurrent s i → ∀ k, m' ≤ k → |e k i| ≤ d + (1 + γ) / 2 * c := by
      intro i
      by_cases hr : Recurrent s i
      swap
      · exact ⟨0, fun h => absurd h hr⟩
      have key : ∀ j : ℕ, ∃ m', m ≤ m' ∧ ∀ k, m' ≤ k → |e k i| ≤ d + γ * c + (1 - γ) * c * (1 - α) ^ j := by
        intro j
        have hp : ∀ j : ℕ, 0 ≤ (1 - γ) * c * (1 - α) ^ j := fun j =>
          mul_nonneg (mul_nonneg (by linarith) hc) (pow_nonneg (by linarith) _)
        induction j with
        | zero =>
          refine ⟨m, le_rfl, fun k hk => ?_⟩
          have := hm k hk i hr
          rw [pow_zero]
          linarith
        | succ j ih =>
          obtain ⟨m', h2, h3⟩ := ih
          obtain ⟨l, hl1, hl2⟩ := hr m'
          refine ⟨l + 1, by omega, fun k hk => ?_⟩
          obtain ⟨k', rfl⟩ : ∃ k', k = l + 1 + k' := ⟨k - (l + 1), by omega⟩
          have small : ∀ k, m' ≤ k → i = s k →
              |e (k + 1) i| ≤ d + γ * c + (1 - γ) * c * (1 - α) ^ (j + 1) := by
            intro k hk hik
            have h4 := upd k (by omega) (hik ▸ hr)
            rw [← hik] at h4
            have h5 := mul_le_mul_of_nonneg_left (h3 k hk) (by linarith : (0 : ℝ) ≤ 1 - α)
            rw [pow_succ]
            linarith
          clear hk
          induction k' with
          | zero => exact small l hl1 hl2.symm
          | succ k' ih =>
            by_cases hik : i = s (l + 1 + k')
            · exact small (l + 1 + k') (by omega) hik
            · rw [show l + 1 + (k' + 1) = (l + 1 + k') + 1 by ring, h0 _ _ hik]
              exact ih
      rcases eq_or_lt_of_le hc with hc0 | hc0
      · exact ⟨m, fun _ k hk => by
          have := hm k hk i hr
          rw [← hc0] at this ⊢
          linarith⟩
      · obtain ⟨j, hj⟩ := exists_pow_lt_of_lt_one (show (0 : ℝ) < 1 / 2 by norm_num)
          (by linarith : (1 - α) < 1)
        obtain ⟨m', -, h2⟩ := key j
        refine ⟨m', fun _ k hk => (h2 k hk).trans ?_⟩
        have h3 : (1 - γ) * c * (1 - α) ^ j ≤ (1 - γ) * c * (1 / 2) :=
          mul_le_mul_of_nonneg_left hj.le (mul_nonneg (by linarith) hc)
        linarith
    choose f hf using each
    refine ⟨Finset.univ.sup f, fun k hk i hr => hf i hr k ((Finset.le_sup (Finset.mem_univ i)).trans hk)⟩
  -- a bound to start from
  obtain ⟨c, hc0, hc⟩ : ∃ c, 0 ≤ c ∧ ∀ i, |e 0 i| ≤ d + c := by
    refine ⟨∑ i, |e 0 i|, Finset.sum_nonneg fun i _ => abs_nonneg _, fun i => ?_⟩
    have := Finset.single_le_sum (f := fun i => |e 0 i|) (fun i _ => abs_nonneg _) (Finset.mem_univ i)
    linarith
  have start : ∀ k i, Recurrent s i → |e k i| ≤ d + c := by
    intro k
    induction k with
    | zero => exact fun i _ => hc i
    | succ k ih =>
      intro i hr
      by_cases h : i = s k
      · subst h
        have h2 := h1 k (d + c) (by linarith) hr (fun i hi => ih i (hT k i hi)) (ih _ hr)
        have h3 := mul_le_mul_of_nonneg_left (ih _ hr) (by linarith : (0 : ℝ) ≤ 1 - α)
        have h4 := mul_nonneg hpos.le hc0
        rw [hρd] at h2
        nlinarith
      · rw [h0 k i h]
        exact ih i hr
  have rounds : ∀ j : ℕ, ∃ m, ∀ k, m ≤ k → ∀ i, Recurrent s i → |e k i| ≤ d + ((1 + γ) / 2) ^ j * c := by
    intro j
    induction j with
    | zero => exact ⟨0, fun k _ i hr => by rw [pow_zero, one_mul]; exact start k i hr⟩
    | succ j ih =>
      obtain ⟨m, hm⟩ := shrink _ (mul_nonneg (pow_nonneg (by linarith) j) hc0) ih
      refine ⟨m, fun k hk i hr => ?_⟩
      rw [pow_succ, mul_comm (((1 + γ) / 2) ^ j), mul_assoc]
      exact hm k hk i hr
  intro ε hε
  have ht : Tendsto (fun j : ℕ => ((1 + γ) / 2) ^ j * c) atTop (𝓝 (0 * c)) :=
    (tendsto_pow_atTop_nhds_zero_of_lt_one (by linarith) (by linarith)).mul_const c
  rw [zero_mul] at ht
  obtain ⟨j, hj⟩ := (ht.eventually (gt_mem_nhds hε)).exists
  obtain ⟨m, hm⟩ := rounds j
  exact ⟨m, fun k hk i hr => (hm k hk i hr).trans (by linarith)⟩

/-- Without an error of its own the training converges. -/
theorem converges (hα : 0 < α) (hα1 : α ≤ 1) (hγ : 0 ≤ γ) (hγ1 : γ < 1)
    (h0 : ∀ k i, i ≠ s k → e (k + 1) i = e k i)
    (hT : ∀ k, ∀ i ∈ T k, Recurrent s i)
    (h1 : ∀ k c, 0 ≤ c → (∀ i ∈ T k, |e k i| ≤ c) →
      |e (k + 1) (s k)| ≤ (1 - α) * |e k (s k)| + α * γ * c) {i : ι} (hi : Recurrent s i) :
    Tendsto (fun k => e k i) atTop (𝓝 0) := by
  have := falls (e := e) (s := s) (T := T) hα hα1 hγ hγ1 le_rfl h0 hT fun k c hc _ h _ => by
    rw [add_zero]
    exact h1 k c hc h
  rw [Metric.tendsto_atTop]
  intro ε hε
  obtain ⟨m, hm⟩ := this (ε / 2) (by linarith)
  refine ⟨m, fun k hk => ?_⟩
  rw [Real.dist_eq, sub_zero]
  have := hm k hk i hi
  rw [zero_div, zero_add] at this
  linarith

end

/-! ## The greatest discounted sums of rewards of a finite deterministic environment -/

section
variable {S A : Type} {r g : S → A → ℝ} {nx : S → A → S} {γ : ℝ}

/-- The states along a sequence of actions. -/
def states (nx : S → A → S) (x : S) (acts : ℕ → A) : ℕ → S
  | 0 => x
  | k + 1 => nx (states nx x acts k) (acts k)

/-- The discounted rewards along a sequence of actions. -/
noncomputable def terms (r g : S → A → ℝ) (nx : S → A → S) (x : S) (acts : ℕ → A) (k : ℕ) : ℝ :=
  (∏ j ∈ Finset.range k, g (states nx x acts j) (acts j)) * r (states nx x acts k) (acts k)

theorem exists_optimal [Finite S] [Finite A] [Nonempty A] (hg : ∀ s a, 0 ≤ g s a ∧ g s a ≤ γ) (hγ1 : γ < 1) :
    ∃ Q : S → A → ℝ, ∀ s a, ∃ b, Q s a = r s a + g s a * Q (nx s a) b ∧ ∀ b', Q (nx s a) b' ≤ Q (nx s a) b := by
  classical
  have : Fintype S := Fintype.ofFinite S
  have : Fintype A := Fintype.ofFinite A
  rcases isEmpty_or_nonempty S with hS | ⟨⟨s₀⟩⟩
  · exact ⟨fun s => hS.elim s, fun s => hS.elim s⟩
  have hγ : 0 ≤ γ := (hg s₀ (Classical.arbitrary A)).1.trans (hg s₀ (Classical.arbitrary A)).2
  set m : (S → A → ℝ) → S → ℝ := fun Q s => Finset.univ.sup' Finset.univ_nonempty (Q s) with hm
  have hdist : ∀ (P Q : S → A → ℝ) s a, |P s a - Q s a| ≤ dist P Q := fun P Q s a => by
    rw [← Real.dist_eq]
    exact (dist_le_pi_dist (P s) (Q s) a).trans (dist_le_pi_dist P Q s)
  have hmd : ∀ (P Q : S → A → ℝ) s, m P s ≤ m Q s + dist P Q := by
    intro P Q s
    refine Finset.sup'_le _ _ fun a _ => ?_
    have h1 := (abs_le.1 (hdist P Q s a)).2
    have h2 : Q s a ≤ m Q s := Finset.le_sup' (Q s) (Finset.mem_univ a)
    linarith
  set F : (S → A → ℝ) → S → A → ℝ := fun Q s a => r s a + g s a * m Q (nx s a) with hF
  have hc : ContractingWith ⟨γ, hγ⟩ F := by
    refine ⟨by exact_mod_cast hγ1, LipschitzWith.of_dist_le_mul fun P Q => ?_⟩
    have hnn : 0 ≤ γ * dist P Q := mul_nonneg hγ dist_nonneg
    refine (dist_pi_le_iff hnn).2 fun s => (dist_pi_le_iff hnn).2 fun a => ?_
    rw [Real.dist_eq]
    show |r s a + g s a * m P (nx s a) - (r s a + g s a * m Q (nx s a))| ≤ _
    rw [show r s a + g s a * m P (nx s a) - (r s a + g s a * m Q (nx s a)) =
      g s a * (m P (nx s a) - m Q (nx s a)) by ring, abs_mul, abs_of_nonneg (hg s a).1]
    refine mul_le_mul (hg s a).2 ?_ (abs_nonneg _) hγ
    rw [abs_le]
    have h1 := hmd P Q (nx s a)
    have h2 := hmd Q P (nx s a)
    rw [dist_comm] at h2
    constructor <;> linarith
  refine ⟨hc.fixedPoint F, fun s a => ?_⟩
  obtain ⟨b, -, hb⟩ := Finset.exists_mem_eq_sup' (Finset.univ_nonempty (α := A)) (hc.fixedPoint F (nx s a))
  refine ⟨b, ?_, fun b' => ?_⟩
  · have h1 : F (hc.fixedPoint F) s a = hc.fixedPoint F s a := congrFun (congrFun hc.fixedPoint_isFixedPt s) a
    rw [← h1]
    show r s a + g s a * m _ (nx s a) = _
    rw [hm]
    simp only
    rw [hb]
  · rw [← hb]
    exact Finset.le_sup' (hc.fixedPoint F (nx s a)) (Finset.mem_univ b')

/-- Rewards within `(1 - γ) V` give values within `V`. -/
theorem optimal_bound [Finite S] [Finite A] (hg : ∀ s a, 0 ≤ g s a ∧ g s a ≤ γ) (hγ1 : γ < 1) {Q : S → A → ℝ}
    (hQ : ∀ s a, ∃ b, Q s a = r s a + g s a * Q (nx s a) b ∧ ∀ b', Q (nx s a) b' ≤ Q (nx s a) b) {V : ℝ}
    (hr : ∀ s a, |r s a| ≤ (1 - γ) * V) (s : S) (a : A) : |Q s a| ≤ V := by
  have : Nonempty (S × A) := ⟨(s, a)⟩
  obtain ⟨⟨s₁, a₁⟩, hmax⟩ := Finite.exists_max fun p : S × A => |Q p.1 p.2|
  obtain ⟨b, h1, -⟩ := hQ s₁ a₁
  have h2 := hmax (nx s₁ a₁, b)
  have h3 := hmax (s, a)
  simp only at h2 h3
  have h4 : |Q s₁ a₁| ≤ (1 - γ) * V + γ * |Q s₁ a₁| := by
    conv_lhs => rw [h1]
    refine (abs_add_le _ _).trans (add_le_add (hr _ _) ?_)
    rw [abs_mul, abs_of_nonneg (hg _ _).1]
    exact mul_le_mul (hg _ _).2 h2 (abs_nonneg _) ((hg s a).1.trans (hg s a).2)
  have h5 : |Q s₁ a₁| ≤ V := by
    have : 0 < 1 - γ := by linarith
    nlinarith
  linarith

theorem prod_le (hg : ∀ s a, 0 ≤ g s a ∧ g s a ≤ γ) (x : S) (acts : ℕ → A) (k : ℕ) :
    0 ≤ ∏ j ∈ Finset.range k, g (states nx x acts j) (acts j) ∧
    ∏ j ∈ Finset.range k, g (states nx x acts j) (acts j) ≤ γ ^ k := by
  constructor
  · exact Finset.prod_nonneg fun j _ => (hg _ _).1
  · have := Finset.prod_le_prod (s := Finset.range k) (f := fun j => g (states nx x acts j) (acts j))
      (g := fun _ => γ) (fun j _ => (hg _ _).1) fun j _ => (hg _ _).2
    rwa [Finset.prod_const, Finset.card_range] at this

/-- What is left of the value after `k` actions. -/
theorem tail_zero [Finite S] [Finite A] (hg : ∀ s a, 0 ≤ g s a ∧ g s a ≤ γ) (hγ : 0 ≤ γ) (hγ1 : γ < 1)
    (Q : S → A → ℝ) (x : S) (acts : ℕ → A) :
    Tendsto (fun k => (∏ j ∈ Finset.range k, g (states nx x acts j) (acts j)) *
      Q (states nx x acts k) (acts k)) atTop (𝓝 0) := by
  classical
  have : Fintype S := Fintype.ofFinite S
  have : Fintype A := Fintype.ofFinite A
  set C := ∑ s, ∑ a, |Q s a| with hC
  have hQC : ∀ s a, |Q s a| ≤ C := fun s a =>
    (Finset.single_le_sum (f := fun a => |Q s a|) (fun _ _ => abs_nonneg _) (Finset.mem_univ a)).trans
      (Finset.single_le_sum (f := fun s => ∑ a, |Q s a|)
        (fun s _ => Finset.sum_nonneg fun a _ => abs_nonneg _) (Finset.mem_univ s))
  have h1 : Tendsto (fun k : ℕ => γ ^ k * C) atTop (𝓝 (0 * C)) :=
    (tendsto_pow_atTop_nhds_zero_of_lt_one hγ hγ1).mul_const C
  rw [zero_mul] at h1
  refine squeeze_zero_norm (fun k => ?_) h1
  rw [Real.norm_eq_abs, abs_mul, abs_of_nonneg (prod_le hg x acts k).1]
  exact mul_le_mul (prod_le hg x acts k).2 (hQC _ _) (abs_nonneg _) (pow_nonneg hγ k)

theorem summable_terms [Finite S] [Finite A] (hg : ∀ s a, 0 ≤ g s a ∧ g s a ≤ γ) (hγ : 0 ≤ γ) (hγ1 : γ < 1)
    (x : S) (acts : ℕ → A) : Summable (terms r g nx x acts) := by
  classical
  have : Fintype S := Fintype.ofFinite S
  have : Fintype A := Fintype.ofFinite A
  set D := ∑ s, ∑ a, |r s a| with hD
  have hrD : ∀ s a, |r s a| ≤ D := fun s a =>
    (Finset.single_le_sum (f := fun a => |r s a|) (fun _ _ => abs_nonneg _) (Finset.mem_univ a)).trans
      (Finset.single_le_sum (f := fun s => ∑ a, |r s a|)
        (fun s _ => Finset.sum_nonneg fun a _ => abs_nonneg _) (Finset.mem_univ s))
  refine Summable.of_norm_bounded ((summable_geometric_of_lt_one hγ hγ1).mul_right D) fun k => ?_
  unfold terms
  rw [Real.norm_eq_abs, abs_mul, abs_of_nonneg (prod_le hg x acts k).1]
  exact mul_le_mul (prod_le hg x acts k).2 (hrD _ _) (abs_nonneg _) (pow_nonneg hγ k)

/-- Actions that fall short of the best value by at most `δ` at every input after the first collect the value of the
first action, up to the discounted sum of the shortfalls. -/
theorem greedy_collects [Finite S] [Finite A] (hg : ∀ s a, 0 ≤ g s a ∧ g s a ≤ γ) (hγ : 0 ≤ γ) (hγ1 : γ < 1)
    {Q : S → A → ℝ}
    (hQ : ∀ s a, ∃ b, Q s a = r s a + g s a * Q (nx s a) b ∧ ∀ b', Q (nx s a) b' ≤ Q (nx s a) b) (x : S)
    (acts : ℕ → A) {δ : ℝ} (hδ : 0 ≤ δ)
    (h : ∀ k b, Q (states nx x acts (k + 1)) b ≤ Q (states nx x acts (k + 1)) (acts (k + 1)) + δ) :
    ∃ G, HasSum (terms r g nx x acts) G ∧ Q x (acts 0) - γ * δ / (1 - γ) ≤ G := by
  have part : ∀ k, Q x (acts 0) - (∏ j ∈ Finset.range k, g (states nx x acts j) (acts j)) *
      Q (states nx x acts k) (acts k) - γ * δ * ∑ j ∈ Finset.range k, γ ^ j ≤
      ∑ j ∈ Finset.range k, terms r g nx x acts j := by
    intro k
    induction k with
    | zero =>
      show Q x (acts 0) - 1 * Q x (acts 0) - γ * δ * 0 ≤ 0
      linarith
    | succ k ih =>
      rw [Finset.sum_range_succ, Finset.prod_range_succ, Finset.sum_range_succ, terms]
      obtain ⟨b, h1, -⟩ := hQ (states nx x acts k) (acts k)
      have h3 := h k b
      change Q (nx (states nx x acts k) (acts k)) b ≤ Q (nx (states nx x acts k) (acts k)) (acts (k + 1)) + δ at h3
      show Q x (acts 0) - _ * Q (nx (states nx x acts k) (acts k)) (acts (k + 1)) - _ ≤ _
      have hp := prod_le (nx := nx) hg x acts k
      have hgk := hg (states nx x acts k) (acts k)
      have h4 := mul_le_mul_of_nonneg_left (mul_le_mul_of_nonneg_left h3 hgk.1) hp.1
      have h5 : (∏ j ∈ Finset.range k, g (states nx x acts j) (acts j)) * (g (states nx x acts k) (acts k) * δ) ≤
          γ ^ k * (γ * δ) :=
        mul_le_mul hp.2 (mul_le_mul_of_nonneg_right hgk.2 hδ) (mul_nonneg hgk.1 hδ) (pow_nonneg hγ k)
      rw [h1] at ih
      linarith
  have h5 := (summable_terms (r := r) (nx := nx) hg hγ hγ1 x acts).hasSum
  refine ⟨_, h5, ?_⟩
  have h6 := ((tail_zero (nx := nx) hg hγ hγ1 Q x acts).const_sub (Q x (acts 0))).sub
    ((hasSum_geometric_of_lt_one hγ hγ1).tendsto_sum_nat.const_mul (γ * δ))
  rw [sub_zero, ← div_eq_mul_inv] at h6
  exact le_of_tendsto_of_tendsto' h6 h5.tendsto_sum_nat part

/-- Values that satisfy the equations of `exists_optimal` are the greatest discounted sums. -/
theorem optimal_greatest [Finite S] [Finite A] (hg : ∀ s a, 0 ≤ g s a ∧ g s a ≤ γ) (hγ : 0 ≤ γ) (hγ1 : γ < 1)
    {Q : S → A → ℝ}
    (hQ : ∀ s a, ∃ b, Q s a = r s a + g s a * Q (nx s a) b ∧ ∀ b', Q (nx s a) b' ≤ Q (nx s a) b) (x : S) (a : A) :
    IsGreatest {G | ∃ acts : ℕ → A, acts 0 = a ∧ HasSum (terms r g nx x acts) G} (Q x a) := by
  have upper : Q x a ∈ upperBounds {G | ∃ acts : ℕ → A, acts 0 = a ∧ HasSum (terms r g nx x acts) G} := by
    rintro G ⟨acts, ha, hG⟩
    have part : ∀ k, ∑ j ∈ Finset.range k, terms r g nx x acts j ≤ Q x a -
        (∏ j ∈ Finset.range k, g (states nx x acts j) (acts j)) * Q (states nx x acts k) (acts k) := by
      intro k
      induction k with
      | zero =>
        show 0 ≤ Q x a - 1 * Q x (acts 0)
        rw [ha]
        linarith
      | succ k ih =>
        rw [Finset.sum_range_succ, Finset.prod_range_succ, terms]
        obtain ⟨b, h1, h2⟩ := hQ (states nx x acts k) (acts k)
        have h3 := h2 (acts (k + 1))
        show _ ≤ Q x a - _ * Q (nx (states nx x acts k) (acts k)) (acts (k + 1))
        have h4 := mul_le_mul_of_nonneg_left (mul_le_mul_of_nonneg_left h3 (hg (states nx x acts k) (acts k)).1)
          (prod_le (nx := nx) hg x acts k).1
        rw [h1] at ih
        linarith
    have h5 := (tail_zero (nx := nx) hg hγ hγ1 Q x acts).const_sub (Q x a)
    rw [sub_zero] at h5
    exact le_of_tendsto_of_tendsto' hG.tendsto_sum_nat h5 part
  refine ⟨?_, upper⟩
  -- always choose the best action
  choose best h1 h2 using id hQ
  let step : S × A → S × A := fun p => (nx p.1 p.2, best p.1 p.2)
  let run : ℕ → S × A := fun k => step^[k] (x, a)
  have hrun : ∀ k, run (k + 1) = step (run k) := fun k => Function.iterate_succ_apply' step k _
  set acts : ℕ → A := fun k => (run k).2 with hacts
  have hst : ∀ k, states nx x acts k = (run k).1 := by
    intro k
    induction k with
    | zero => rfl
    | succ k ih =>
      show nx (states nx x acts k) (acts k) = _
      rw [ih, hrun]
  obtain ⟨G, hG, hle⟩ := greedy_collects hg hγ hγ1 hQ x acts le_rfl fun k b => by
    rw [add_zero]
    have h4 : acts (k + 1) = best (states nx x acts k) (acts k) := by
      show (run (k + 1)).2 = _
      rw [hrun, hst]
    rw [h4]
    exact h2 _ _ b
  rw [mul_zero, zero_div, sub_zero] at hle
  have hle' := upper ⟨acts, rfl, hG⟩
  exact ⟨acts, rfl, le_antisymm hle' hle ▸ hG⟩

end

end Lfa.Backup

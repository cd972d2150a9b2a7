import Verif.Props.C115_C117
import Verif.Props.C151
import Verif.Props.C59_C68
import Mathlib.Analysis.SpecificLimits.Normed

/-!
# C195: Adam and AdaMax can move for ever against the average error

SGD moves a prediction by `lr ‖φ‖²` times the sum of the errors it is given. Adam and AdaMax divide by a measure of recent errors,
and so give rare large errors less weight than frequent small ones. For every choice of the decays with `beta1² < beta2`
(`beta1 < beta2` for AdaMax) there is a bounded periodic stream of errors, with average as large and positive as one likes, on which
the prediction falls without bound. Exact arithmetic.
-/

set_option linter.unusedSectionVars false

namespace Lfa

open Spec Features Filter Topology

/-- One error `C` at every `N`-th call, `-1` at all others. -/
noncomputable def Spec.spiky (N : Nat) (C : ℝ) (t : Nat) : ℝ := if t % N = 0 then C else -1

/-- The running average with decay `β`. -/
noncomputable def runAvg (β : ℝ) (x : Nat → ℝ) : Nat → ℝ
  | 0 => 0
  | t + 1 => β * runAvg β x t + (1 - β) * x t

/-- The running maximum with decay `β`. -/
noncomputable def runMax (β : ℝ) (x : Nat → ℝ) : Nat → ℝ
  | 0 => 0
  | t + 1 => max (β * runMax β x t) |x t|

/-! ## The averages of the stream -/

theorem mod_succ {N : Nat} (hN : 0 < N) (t : Nat) : (t + 1) % N = 0 ∨ ((t + 1) % N ≠ 0 ∧ (t + 1) % N = t % N + 1) := by
  have h := Nat.mod_lt t hN
  rw [← Nat.mod_add_mod]
  by_cases hc : t % N + 1 = N
  · left; rw [hc, Nat.mod_self]
  · right
    rw [Nat.mod_eq_of_lt (by omega)]
    omega

/-- What the average of the errors is at most: the last large error, and minus one after it. -/
theorem runAvg_spiky_le {N : Nat} (hN : 0 < N) {b C : ℝ} (b0 : 0 ≤ b) (b1 : b ≤ 1) (C0 : 0 ≤ C) (t : Nat) :
    runAvg b (spiky N C) (t + 1) ≤ C * b ^ (t % N) - if t % N = 0 then 0 else 1 - b := by
  have le : ∀ {m : Nat} {x : ℝ}, x ≤ C * b ^ m - (if m = 0 then 0 else 1 - b) → x ≤ C := fun {m x} h => by
    have h1 : C * b ^ m ≤ C := mul_le_of_le_one_right C0 (pow_le_one₀ b0 b1)
    have h2 : (0 : ℝ) ≤ if m = 0 then 0 else 1 - b := by split_ifs <;> linarith
    linarith
  induction t with
  | zero =>
    show b * 0 + (1 - b) * spiky N C 0 ≤ _
    rw [spiky, if_pos (Nat.zero_mod N), Nat.zero_mod, if_pos rfl]
    nlinarith
  | succ t ih =>
    show b * runAvg b (spiky N C) (t + 1) + (1 - b) * spiky N C (t + 1) ≤ _
    rcases mod_succ hN t with h | ⟨h, h'⟩
    · rw [spiky, if_pos h, h, if_pos rfl, pow_zero]
      have := mul_le_mul_of_nonneg_left (le ih) b0
      linarith
    · rw [spiky, if_neg h, if_neg h, h', pow_succ]
      have h2 : (0 : ℝ) ≤ if t % N = 0 then 0 else 1 - b := by split_ifs <;> linarith
      have := mul_le_mul_of_nonneg_left (ih.trans (sub_le_self _ h2)) b0
      linarith

/-- The average of the squares, from below and above. -/
theorem runAvg_sq_bounds {N : Nat} (hN : 0 < N) {b C : ℝ} (b0 : 0 ≤ b) (b1 : b ≤ 1) (t : Nat) :
    (1 - b) * b ^ (t % N) * C ^ 2 ≤ runAvg b (fun t => spiky N C t ^ 2) (t + 1) ∧
    runAvg b (fun t => spiky N C t ^ 2) (t + 1) ≤ C ^ 2 * b ^ (t % N) + 1 := by
  have c0 := sq_nonneg C
  induction t with
  | zero =>
    show _ ≤ b * 0 + (1 - b) * spiky N C 0 ^ 2 ∧ b * 0 + (1 - b) * spiky N C 0 ^ 2 ≤ _
    rw [spiky, if_pos (Nat.zero_mod N), Nat.zero_mod, pow_zero]
    constructor <;> nlinarith
  | succ t ih =>
    obtain ⟨i1, i2⟩ := ih
    show _ ≤ b * runAvg b (fun t => spiky N C t ^ 2) (t + 1) + (1 - b) * spiky N C (t + 1) ^ 2 ∧
      b * runAvg b (fun t => spiky N C t ^ 2) (t + 1) + (1 - b) * spiky N C (t + 1) ^ 2 ≤ _
    have p0 : 0 ≤ b ^ (t % N) := by positivity
    have p1 : b ^ (t % N) ≤ 1 := pow_le_one₀ b0 b1
    have j1 := mul_le_mul_of_nonneg_left i1 b0
    have j2 := mul_le_mul_of_nonneg_left i2 b0
    rcases mod_succ hN t with h | ⟨h, h'⟩
    · rw [spiky, if_pos h, h, pow_zero]
      constructor
      · have : 0 ≤ b * ((1 - b) * b ^ (t % N) * C ^ 2) := by
          have : 0 ≤ 1 - b := by linarith
          positivity
        linarith
      · have : b * (C ^ 2 * b ^ (t % N)) ≤ b * C ^ 2 := mul_le_mul_of_nonneg_left (mul_le_of_le_one_right c0 p1) b0
        linarith
    · rw [spiky, if_neg h, h', pow_succ]
      constructor <;> nlinarith

/-- The running maximum, from below and above. -/
theorem runMax_bounds {N : Nat} (hN : 0 < N) {b C : ℝ} (b0 : 0 ≤ b) (b1 : b ≤ 1) (C0 : 0 ≤ C) (t : Nat) :
    b ^ (t % N) * C ≤ runMax b (spiky N C) (t + 1) ∧ runMax b (spiky N C) (t + 1) ≤ C * b ^ (t % N) + 1 := by
  induction t with
  | zero =>
    show _ ≤ max (b * 0) |spiky N C 0| ∧ max (b * 0) |spiky N C 0| ≤ _
    rw [spiky, if_pos (Nat.zero_mod N), Nat.zero_mod, pow_zero, mul_zero, abs_of_nonneg C0, max_eq_right C0]
    constructor <;> linarith
  | succ t ih =>
    obtain ⟨i1, i2⟩ := ih
    show _ ≤ max (b * runMax b (spiky N C) (t + 1)) |spiky N C (t + 1)| ∧
      max (b * runMax b (spiky N C) (t + 1)) |spiky N C (t + 1)| ≤ _
    have p1 : b ^ (t % N) ≤ 1 := pow_le_one₀ b0 b1
    have j1 := mul_le_mul_of_nonneg_left i1 b0
    have j2 := mul_le_mul_of_nonneg_left i2 b0
    rcases mod_succ hN t with h | ⟨h, h'⟩
    · rw [spiky, if_pos h, h, pow_zero, abs_of_nonneg C0]
      refine ⟨by rw [one_mul]; exact le_max_right _ _, max_le ?_ (by linarith)⟩
      have : b * (C * b ^ (t % N)) ≤ C * 1 := by
        rw [← mul_assoc, mul_comm b C, mul_assoc]
        exact mul_le_mul_of_nonneg_left (mul_le_one₀ b1 (by positivity) p1) C0
      nlinarith
    · rw [spiky, if_neg h, h', pow_succ]
      refine ⟨le_trans (by linarith) (le_max_left _ _), max_le (by nlinarith) ?_⟩
      rw [abs_neg, abs_one]
      have : 0 ≤ C * (b ^ (t % N) * b) := by positivity
      linarith

/-- The sum of the errors. -/
theorem spiky_sum {N : Nat} (hN : 0 < N) {μ C : ℝ} (hC : (|μ| + 1) * N = C) (T : Nat) :
    μ * T ≤ ∑ t ∈ Finset.range T, spiky N C t := by
  have hm := le_abs_self μ
  have m0 := abs_nonneg μ
  have key : ∀ T, |μ| * T + (if T % N = 0 then 0 else (|μ| + 1) * (N - (T % N : Nat))) ≤ ∑ t ∈ Finset.range T, spiky N C t := by
    intro T
    induction T with
    | zero => simp
    | succ T ih =>
      rw [Finset.sum_range_succ]
      have hlt := Nat.mod_lt T hN
      have n1 : (1 : ℝ) ≤ N := by exact_mod_cast hN
      have hlt' : ((T % N : Nat) : ℝ) + 1 ≤ N := by exact_mod_cast hlt
      by_cases h0 : T % N = 0
      · rw [if_pos h0] at ih
        have e : spiky N C T = C := if_pos h0
        rw [e]
        rcases mod_succ hN T with h | ⟨h, h'⟩
        · rw [if_pos h]; push_cast; nlinarith
        · rw [if_neg h, h', h0]; push_cast; nlinarith
      · rw [if_neg h0] at ih
        have e : spiky N C T = -1 := if_neg h0
        rw [e]
        rcases mod_succ hN T with h | ⟨h, h'⟩
        · rw [if_pos h]; push_cast
          nlinarith
        · rw [if_neg h, h']; push_cast
          nlinarith
  have h1 := key T
  have h2 : (0 : ℝ) ≤ if T % N = 0 then 0 else (|μ| + 1) * (N - (T % N : Nat)) := by
    split_ifs
    · exact le_rfl
    · have : ((T % N : Nat) : ℝ) ≤ N := by exact_mod_cast (Nat.mod_lt T hN).le
      have : 0 ≤ (N : ℝ) - (T % N : Nat) := by linarith
      positivity
  have h3 := mul_le_mul_of_nonneg_right hm (Nat.cast_nonneg T : (0 : ℝ) ≤ T)
  linarith

/-! ## The moves -/

/-- One move: the average over a denominator that remembers the last large error for a while. -/
theorem against_step {N J : Nat} (hN : 0 < N) (hJ : 0 < J) {b C c D δ ρ r H ε : ℝ} (b0 : 0 ≤ b) (b1 : b < 1) (C0 : 0 ≤ C)
    (δ0 : 0 < δ) (r0 : 0 ≤ r) (hr : b = r * ρ) (ε0 : 0 < ε) (c0 : 1 - b ≤ c) (c1 : c ≤ 1) (t : Nat)
    (D0 : 0 ≤ D) (hD : δ * ρ ^ (t % N) * C ≤ D) (hH : J ≤ t % N → D ≤ H) :
    runAvg b (spiky N C) (t + 1) / c / (D + ε) ≤ r ^ (t % N) / (δ * (1 - b)) - if J ≤ t % N then (1 - b) / (H + ε) else 0 := by
  have cpos : 0 < c := by linarith
  have bpos : 0 < 1 - b := by linarith
  have Dpos : 0 < D + ε := by linarith
  have h := runAvg_spiky_le hN b0 b1.le C0 t
  have h1 : C * b ^ (t % N) / c / (D + ε) ≤ r ^ (t % N) / (δ * (1 - b)) := by
    rw [div_div, div_le_div_iff₀ (by positivity) (by positivity)]
    have e : C * b ^ (t % N) * (δ * (1 - b)) = r ^ (t % N) * ((1 - b) * (δ * ρ ^ (t % N) * C)) := by
      rw [hr, mul_pow]; ring
    rw [e]
    refine mul_le_mul_of_nonneg_left ?_ (by positivity)
    exact (mul_le_mul_of_nonneg_left (hD.trans (by linarith)) bpos.le).trans (mul_le_mul_of_nonneg_right c0 Dpos.le)
  have h2 : runAvg b (spiky N C) (t + 1) / c / (D + ε) ≤
      (C * b ^ (t % N) - if t % N = 0 then 0 else 1 - b) / c / (D + ε) := by
    rw [div_div, div_div]
    exact div_le_div_of_nonneg_right h (by positivity)
  refine h2.trans ?_
  rw [sub_div, sub_div]
  refine sub_le_sub h1 ?_
  split_ifs with g1 g2 g2
  · omega
  · have hH := hH g1
    rw [div_div]
    refine div_le_div_of_nonneg_left bpos.le (by positivity) ?_
    have : c * (D + ε) ≤ 1 * (D + ε) := mul_le_mul_of_nonneg_right c1 Dpos.le
    linarith
  · simp
  · positivity

/-- A periodic sum. -/
theorem periodic_sum {f : Nat → ℝ} {N : Nat} {S A : ℝ} (h1 : ∑ j ∈ Finset.range N, f j ≤ S)
    (h2 : ∀ k < N, ∑ j ∈ Finset.range k, f j ≤ A) (hN : 0 < N) (T : Nat) :
    ∑ t ∈ Finset.range T, f (t % N) ≤ A + (T / N : Nat) * S := by
  have per : ∀ p, ∑ t ∈ Finset.range (N * p), f (t % N) ≤ p * S := by
    intro p
    induction p with
    | zero => simp
    | succ p ih =>
      rw [Nat.mul_succ, Finset.sum_range_add]
      have : ∑ x ∈ Finset.range N, f ((N * p + x) % N) = ∑ x ∈ Finset.range N, f x :=
        Finset.sum_congr rfl fun x hx => by rw [Nat.mul_add_mod, Nat.mod_eq_of_lt (Finset.mem_range.1 hx)]
      rw [this]
      push_cast
      linarith
  have e : ∑ t ∈ Finset.range T, f (t % N) = ∑ t ∈ Finset.range (N * (T / N)), f (t % N) + ∑ j ∈ Finset.range (T % N), f j := by
    conv_lhs => rw [← Nat.div_add_mod T N]
    rw [Finset.sum_range_add]
    congr 1
    refine Finset.sum_congr rfl fun x hx => ?_
    rw [Nat.mul_add_mod, Nat.mod_eq_of_lt ((Finset.mem_range.1 hx).trans (Nat.mod_lt T hN))]
  rw [e]
  have := per (T / N)
  have := h2 _ (Nat.mod_lt T hN)
  linarith

theorem geom_le {r : ℝ} (r0 : 0 ≤ r) (r1 : r < 1) (k : Nat) : ∑ j ∈ Finset.range k, r ^ j ≤ 1 / (1 - r) := by
  rw [le_div_iff₀ (by linarith), geom_sum_mul_neg]
  have : 0 ≤ r ^ k := by positivity
  linarith

/-- All moves together: in every period of `2 J` calls the many small errors win by `J κ`. -/
theorem against_sum {J : Nat} (hJ : 0 < J) {b C δ ρ r H ε : ℝ} {c D : Nat → ℝ} (b0 : 0 ≤ b) (b1 : b < 1) (C0 : 0 ≤ C)
    (δ0 : 0 < δ) (r0 : 0 ≤ r) (r1 : r < 1) (hr : b = r * ρ) (ε0 : 0 < ε) (H0 : 0 ≤ H) (hc : ∀ t, 1 - b ≤ c t ∧ c t ≤ 1)
    (D0 : ∀ t, 0 ≤ D t) (hD : ∀ t, δ * ρ ^ (t % (2 * J)) * C ≤ D t) (hH : ∀ t, J ≤ t % (2 * J) → D t ≤ H)
    (hκ : 1 / (1 - r) / (δ * (1 - b)) + 1 ≤ J * ((1 - b) / (H + ε))) (T : Nat) :
    ∑ t ∈ Finset.range T, runAvg b (spiky (2 * J) C) (t + 1) / c t / (D t + ε) ≤
      1 / (1 - r) / (δ * (1 - b)) - (T / (2 * J) : Nat) := by
  have hN : 0 < 2 * J := by omega
  have bpos : 0 < 1 - b := by linarith
  set A := 1 / (1 - r) / (δ * (1 - b)) with hA
  set κ := (1 - b) / (H + ε) with hκd
  have κ0 : 0 ≤ κ := by rw [hκd]; positivity
  have geo : ∀ k, ∑ j ∈ Finset.range k, r ^ j / (δ * (1 - b)) ≤ A := fun k => by
    rw [← Finset.sum_div]
    exact div_le_div_of_nonneg_right (geom_le r0 r1 k) (by positivity)
  have h1 : ∑ j ∈ Finset.range (2 * J), (r ^ j / (δ * (1 - b)) - if J ≤ j then κ else 0) ≤ -1 := by
    rw [Finset.sum_sub_distrib]
    have e : ∑ j ∈ Finset.range (2 * J), (if J ≤ j then κ else 0) = J * κ := by
      rw [two_mul, Finset.sum_range_add, Finset.sum_eq_zero fun j hj => if_neg (not_le.2 (Finset.mem_range.1 hj)), zero_add,
        Finset.sum_congr rfl fun j _ => if_pos (Nat.le_add_right J j), Finset.sum_const, Finset.card_range, nsmul_eq_mul]
    rw [e]
    have := geo (2 * J)
    linarith
  have h2 : ∀ k < 2 * J, ∑ j ∈ Finset.range k, (r ^ j / (δ * (1 - b)) - if J ≤ j then κ else 0) ≤ A := fun k _ => by
    refine (Finset.sum_le_sum fun j _ => sub_le_self _ ?_).trans (geo k)
    split_ifs
    · exact κ0
    · exact le_rfl
  refine (Finset.sum_le_sum fun t _ =>
    against_step hN hJ b0 b1 C0 δ0 r0 hr ε0 (hc t).1 (hc t).2 t (D0 t) (hD t) (hH t)).trans ?_
  have := periodic_sum (f := fun j => r ^ j / (δ * (1 - b)) - if J ≤ j then κ else 0) h1 h2 hN T
  linarith

/-! ## Runs -/

section
variable {B I : Type} [Space B] [Basis B I ℝ]

/-- What a run of updates with given errors at one input does. -/
theorem updates_one {O : Type} [Optimiser O ℝ] {b : B} {x : I} {φ : Features ℝ} {n : Nat}
    (hp : Basis.project b x = .ok (.ok φ)) {e : Nat → ℝ} (Inv : O → Prop)
    (hstep : ∀ (o : O) (w : List ℝ) (s : ℝ), Inv o → w.length = n →
      ∃ o' w', Optimiser.stepScaled o w φ s = .ok (.ok (), o', w') ∧ Inv o' ∧ w'.length = n)
    {fas : Nat → ScalarLFA B O ℝ} {w : List ℝ} {o : O} (h : ∀ t, (fas t).update x (e t) = .ok (.ok (), fas (t + 1)))
    (h0 : fas 0 = LFA.mk b w o) (hw : w.length = n) (ho : Inv o) (t : Nat) :
    (fas t).basis = b ∧ Inv (fas t).optimiser ∧ (fas t).weights.length = n ∧
      Optimiser.stepScaled (fas t).optimiser (fas t).weights φ (e t)
        = .ok (.ok (), (fas (t + 1)).optimiser, (fas (t + 1)).weights) := by
  have key : ∀ t, (fas t).basis = b → Inv (fas t).optimiser → (fas t).weights.length = n →
      (fas (t + 1)).basis = b ∧ Inv (fas (t + 1)).optimiser ∧ (fas (t + 1)).weights.length = n ∧
      Optimiser.stepScaled (fas t).optimiser (fas t).weights φ (e t)
        = .ok (.ok (), (fas (t + 1)).optimiser, (fas (t + 1)).weights) := by
    intro t h1 h2 h3
    have hp' : Basis.project (fas t).basis x = .ok (.ok φ) := by rw [h1]; exact hp
    obtain ⟨o', w', s1, s2, s3⟩ := hstep (fas t).optimiser (fas t).weights (e t) h2 h3
    have e2 := (h t).symm.trans (scalar_update_eq hp' (e t))
    rw [s1] at e2
    injection e2 with e2
    injection e2 with _ e2
    rw [e2]
    exact ⟨h1, s2, s3, s1⟩
  have inv : ∀ t, (fas t).basis = b ∧ Inv (fas t).optimiser ∧ (fas t).weights.length = n := by
    intro t
    induction t with
    | zero => rw [h0]; exact ⟨rfl, ho, hw⟩
    | succ t ih =>
      obtain ⟨k1, k2, k3, -⟩ := key t ih.1 ih.2.1 ih.2.2
      exact ⟨k1, k2, k3⟩
  obtain ⟨i1, i2, i3⟩ := inv t
  exact ⟨i1, i2, i3, (key t i1 i2 i3).2.2.2⟩

/-- Such runs exist. -/
theorem updates_exist {O : Type} [Optimiser O ℝ] {b : B} {x : I} {φ : Features ℝ} {n : Nat}
    (hp : Basis.project b x = .ok (.ok φ)) (e : Nat → ℝ) (Inv : O → Prop)
    (hstep : ∀ (o : O) (w : List ℝ) (s : ℝ), Inv o → w.length = n →
      ∃ o' w', Optimiser.stepScaled o w φ s = .ok (.ok (), o', w') ∧ Inv o' ∧ w'.length = n)
    {w : List ℝ} {o : O} (hw : w.length = n) (ho : Inv o) :
    ∃ fas : Nat → ScalarLFA B O ℝ, (∀ t, (fas t).update x (e t) = .ok (.ok (), fas (t + 1))) ∧ fas 0 = LFA.mk b w o := by
  let S := { q : O × List ℝ // Inv q.1 ∧ q.2.length = n }
  have hs : ∀ (t : Nat) (q : S), ∃ q' : S, Optimiser.stepScaled q.1.1 q.1.2 φ (e t) = .ok (.ok (), q'.1.1, q'.1.2) := by
    rintro t ⟨⟨o, w⟩, h1, h2⟩
    obtain ⟨o', w', s1, s2, s3⟩ := hstep o w (e t) h1 h2
    exact ⟨⟨(o', w'), s2, s3⟩, s1⟩
  choose next hnext using hs
  let st : Nat → S := fun k => Nat.rec ⟨(o, w), ho, hw⟩ (fun t q => next t q) k
  refine ⟨fun k => LFA.mk b (st k).1.2 (st k).1.1, fun t => ?_, rfl⟩
  rw [scalar_update_eq (fa := LFA.mk b (st t).1.2 (st t).1.1) hp (e t), hnext t (st t)]
  rfl

theorem prediction_inner {O : Type} {b : B} {x : I} {φ : Features ℝ} {n : Nat} (hp : Basis.project b x = .ok (.ok φ))
    (hf : Fits n φ) {fa : ScalarLFA B O ℝ} (hb : fa.basis = b) (hl : fa.weights.length = n) {p : ℝ}
    (h : fa.evaluate x = .ok (.ok p)) : p = ∑ i ∈ Finset.range n, value φ i * entry fa.weights i := by
  have hp' : Basis.project fa.basis x = .ok (.ok φ) := by rw [hb]; exact hp
  have e1 := h.symm.trans (evaluate_eq hp' (dot_real hf.1 (hf.2.trans hl.symm)))
  injection e1 with e1
  injection e1 with e1
  rw [e1, inner_eq, hf.2]

theorem prod_run {β : ℝ} {p : Nat → ℝ} (h0 : p 0 = β) (h : ∀ t, p (t + 1) = p t * β) (t : Nat) : p t = β ^ (t + 1) := by
  induction t with
  | zero => rw [h0, zero_add, pow_one]
  | succ t ih => rw [h, ih, ← pow_succ]

theorem avg_run {β a : ℝ} {m e : Nat → ℝ} (h0 : m 0 = 0) (h : ∀ t, m (t + 1) = β * m t + (1 - β) * (a * e t)) (t : Nat) :
    m t = a * runAvg β e t := by
  induction t with
  | zero => rw [h0]; simp [runAvg]
  | succ t ih => rw [h, ih]; simp only [runAvg]; ring

theorem max_run {β a : ℝ} {u e : Nat → ℝ} (h0 : u 0 = 0) (h : ∀ t, u (t + 1) = max (β * u t) |a * e t|) (t : Nat) :
    u t = |a| * runMax β e t := by
  induction t with
  | zero => rw [h0]; simp [runMax]
  | succ t ih =>
    rw [h, ih]
    simp only [runMax]
    rw [abs_mul, mul_max_of_nonneg _ _ (abs_nonneg a)]
    congr 1
    ring

/-- One move of one weight, seen at the prediction. -/
theorem move_eq {a lr m D : ℝ} : a * (lr * (a * m) / (|a| * D + 1e-7)) = lr * |a| * (m / (D + 1e-7 / |a|)) := by
  by_cases ha : a = 0
  · rw [ha]; simp
  · have : 0 < |a| := abs_pos.2 ha
    have e : |a| * D + 1e-7 = |a| * (D + 1e-7 / |a|) := by field_simp
    rw [e]
    have e2 : a * (lr * (a * m)) = lr * |a| * m * |a| := by
      have := abs_mul_abs_self a
      linear_combination -(lr * m) * this
    rw [← mul_div_assoc, e2, mul_comm |a| (D + _), mul_div_mul_right _ _ this.ne', mul_div_assoc]

/-- Adam on one input, any errors: the contribution of each weight to the prediction. -/
theorem adam_moves {b : B} {x : I} {φ : Features ℝ} {n : Nat} (hp : Basis.project b x = .ok (.ok φ)) (hf : Fits n φ)
    {lr β₁ β₂ : ℝ} {w : List ℝ} (hw : w.length = n) {e : Nat → ℝ} {fas : Nat → ScalarLFA B (Adam ℝ) ℝ}
    (h : ∀ t, (fas t).update x (e t) = .ok (.ok (), fas (t + 1))) (h0 : fas 0 = LFA.mk b w (Adam.new n lr β₁ β₂)) (T : Nat) :
    ((fas T).basis = b ∧ (fas T).weights.length = n) ∧ ∀ i < n,
      value φ i * entry (fas T).weights i = value φ i * entry w i + lr * |value φ i| * ∑ t ∈ Finset.range T,
        runAvg β₁ e (t + 1) / (1 - β₁ ^ (t + 2)) /
          (√(runAvg β₂ (fun t => e t ^ 2) (t + 1) / (1 - β₂ ^ (t + 2))) + 1e-7 / |value φ i|) := by
  have hi := updates_one hp _ (adam_keeps hf lr β₁ β₂) h h0 hw ⟨⟨rfl, rfl, rfl⟩, by simp [Adam.new], by simp [Adam.new]⟩
  have step : ∀ k, (fas (k + 1)).optimiser.beta1Prod = (fas k).optimiser.beta1Prod * β₁ ∧
      (fas (k + 1)).optimiser.beta2Prod = (fas k).optimiser.beta2Prod * β₂ ∧ ∀ i < n,
      entry (fas (k + 1)).optimiser.expAvg i = β₁ * entry (fas k).optimiser.expAvg i + (1 - β₁) * (value φ i * e k) ∧
      entry (fas (k + 1)).optimiser.expAvgSq i
        = β₂ * entry (fas k).optimiser.expAvgSq i + (1 - β₂) * (value φ i ^ 2 * e k ^ 2) ∧
      (Active φ i → entry (fas (k + 1)).weights i = entry (fas k).weights i + lr *
        (entry (fas (k + 1)).optimiser.expAvg i / (1 - (fas k).optimiser.beta1Prod * β₁)) /
        (√(entry (fas (k + 1)).optimiser.expAvgSq i / (1 - (fas k).optimiser.beta2Prod * β₂)) + 1e-7)) := by
    intro k
    obtain ⟨i1, ⟨⟨l1, l2, l3⟩, i3, i4⟩, i5, i7⟩ := hi k
    obtain ⟨m, v, w', s1, s2, s3, s4, s5⟩ := adam_real hf (fas k).optimiser i3 i4 (e k) i5
    rw [i7] at s1
    injection s1 with s1
    injection s1 with _ s1
    injection s1 with s1 s6
    rw [s1, s6]
    refine ⟨by show _ * _ = _; rw [l2], by show _ * _ = _; rw [l3], fun i hin => ?_⟩
    obtain ⟨c1, c2, c3, -⟩ := s5 i hin
    refine ⟨by rw [c1, l2], by rw [c2, l3, mul_pow], fun ha => ?_⟩
    rw [c3 ha, l1, l2, l3]
  have p1 := prod_run (p := fun k => (fas k).optimiser.beta1Prod) (by rw [h0]; rfl) fun k => (step k).1
  have p2 := prod_run (p := fun k => (fas k).optimiser.beta2Prod) (by rw [h0]; rfl) fun k => (step k).2.1
  refine ⟨⟨(hi T).1, (hi T).2.2.1⟩, fun i hin => ?_⟩
  have z : entry (List.replicate n (Scalar.zero : ℝ)) i = 0 := by
    unfold entry
    simp [hin]
  have m1 := avg_run (m := fun k => entry (fas k).optimiser.expAvg i) (by rw [h0]; exact z) fun k => ((step k).2.2 i hin).1
  have m2 := avg_run (m := fun k => entry (fas k).optimiser.expAvgSq i) (e := fun k => e k ^ 2) (by rw [h0]; exact z)
    fun k => ((step k).2.2 i hin).2.1
  induction T with
  | zero => rw [h0]; simp
  | succ T ih =>
    rw [Finset.sum_range_succ, mul_add, ← add_assoc, ← ih]
    by_cases ha : Active φ i
    · rw [((step T).2.2 i hin).2.2 ha, mul_add]
      congr 1
      rw [m1 (T + 1), m2 (T + 1), p1 T, p2 T, ← pow_succ, ← pow_succ, mul_div_assoc (value φ i), mul_div_assoc (value φ i ^ 2),
        Real.sqrt_mul (sq_nonneg _), Real.sqrt_sq_eq_abs]
      exact move_eq
    · rw [value_of_not_active ha]
      simp

/-- AdaMax on one input, any errors. -/
theorem adamax_moves {b : B} {x : I} {φ : Features ℝ} {n : Nat} (hp : Basis.project b x = .ok (.ok φ)) (hf : Fits n φ)
    {lr β₁ β₂ : ℝ} {w : List ℝ} (hw : w.length = n) {e : Nat → ℝ} {fas : Nat → ScalarLFA B (AdaMax ℝ) ℝ}
    (h : ∀ t, (fas t).update x (e t) = .ok (.ok (), fas (t + 1))) (h0 : fas 0 = LFA.mk b w (AdaMax.new n lr β₁ β₂)) (T : Nat) :
    ((fas T).basis = b ∧ (fas T).weights.length = n) ∧ ∀ i < n,
      value φ i * entry (fas T).weights i = value φ i * entry w i + lr * |value φ i| * ∑ t ∈ Finset.range T,
        runAvg β₁ e (t + 1) / (1 - β₁ ^ (t + 2)) / (runMax β₂ e (t + 1) + 1e-7 / |value φ i|) := by
  have hi := updates_one hp _ (adamax_keeps hf lr β₁ β₂) h h0 hw ⟨⟨rfl, rfl, rfl⟩, by simp [AdaMax.new], by simp [AdaMax.new]⟩
  have step : ∀ k, (fas (k + 1)).optimiser.beta1Prod = (fas k).optimiser.beta1Prod * β₁ ∧ ∀ i < n,
      entry (fas (k + 1)).optimiser.expAvg i = β₁ * entry (fas k).optimiser.expAvg i + (1 - β₁) * (value φ i * e k) ∧
      (Active φ i → entry (fas (k + 1)).optimiser.expInf i = max (β₂ * entry (fas k).optimiser.expInf i) |value φ i * e k| ∧
        entry (fas (k + 1)).weights i = entry (fas k).weights i + lr *
        (entry (fas (k + 1)).optimiser.expAvg i / (1 - (fas k).optimiser.beta1Prod * β₁)) /
        (entry (fas (k + 1)).optimiser.expInf i + 1e-7)) := by
    intro k
    obtain ⟨i1, ⟨⟨l1, l2, l3⟩, i3, i4⟩, i5, i7⟩ := hi k
    obtain ⟨m, v, w', s1, s2, s3, s4, s5⟩ := adamax_real hf (fas k).optimiser i3 i4 (e k) i5
    rw [i7] at s1
    injection s1 with s1
    injection s1 with _ s1
    injection s1 with s1 s6
    rw [s1, s6]
    refine ⟨by show _ * _ = _; rw [l2], fun i hin => ?_⟩
    obtain ⟨c1, c2, -⟩ := s5 i hin
    refine ⟨by rw [c1, l2], fun ha => ?_⟩
    rw [(c2 ha).2, l1, l2, (c2 ha).1, l3]
    exact ⟨rfl, rfl⟩
  have p1 := prod_run (p := fun k => (fas k).optimiser.beta1Prod) (by rw [h0]; rfl) fun k => (step k).1
  refine ⟨⟨(hi T).1, (hi T).2.2.1⟩, fun i hin => ?_⟩
  have z : entry (List.replicate n (Scalar.zero : ℝ)) i = 0 := by
    unfold entry
    simp [hin]
  have m1 := avg_run (m := fun k => entry (fas k).optimiser.expAvg i) (by rw [h0]; exact z) fun k => ((step k).2 i hin).1
  by_cases ha : Active φ i
  · have m2 := max_run (u := fun k => entry (fas k).optimiser.expInf i) (by rw [h0]; exact z)
      fun k => (((step k).2 i hin).2 ha).1
    induction T with
    | zero => rw [h0]; simp
    | succ T ih =>
      rw [Finset.sum_range_succ, mul_add, ← add_assoc, ← ih, (((step T).2 i hin).2 ha).2, mul_add]
      congr 1
      rw [m1 (T + 1), m2 (T + 1), p1 T, ← pow_succ, mul_div_assoc (value φ i)]
      exact move_eq
  · rw [value_of_not_active ha]
    simp

end

/-! ## Against the average -/

/-- A period long enough for every weight: the large error is forgotten in half a period, and the other half outweighs it. -/
theorem period_exists {n : Nat} (a : Nat → ℝ) {b H A q m : ℝ} {k : Nat} (b1 : b < 1) (H0 : 0 ≤ H) (q0 : 0 ≤ q) (q1 : q < 1) :
    ∃ J : Nat, 0 < J ∧ (m * (2 * J : Nat)) ^ k * q ^ J ≤ 1 ∧ ∀ i ∈ Finset.range n, a i ≠ 0 → A + 1 ≤ J * ((1 - b) / (H + 1e-7 / |a i|)) := by
  have e1 : ∀ᶠ J : Nat in atTop, (m * (2 * J : Nat)) ^ k * q ^ J ≤ 1 := by
    have h := (tendsto_pow_const_mul_const_pow_of_abs_lt_one k (by rwa [abs_of_nonneg q0] : |q| < 1)).const_mul ((m * 2) ^ k)
    rw [mul_zero] at h
    filter_upwards [h.eventually_le_const (by norm_num : (0 : ℝ) < 1)] with J hJ
    refine le_trans (le_of_eq ?_) hJ
    push_cast
    rw [← mul_assoc, ← mul_assoc, mul_pow _ (J : ℝ)]
  have e2 : ∀ᶠ J : Nat in atTop, ∀ i ∈ Finset.range n, a i ≠ 0 → A + 1 ≤ J * ((1 - b) / (H + 1e-7 / |a i|)) := by
    rw [Filter.eventually_all_finset]
    intro i _
    by_cases hi : a i = 0
    · exact Filter.Eventually.of_forall fun _ h => absurd hi h
    · have pos : 0 < (1 - b) / (H + 1e-7 / |a i|) := by
        have := abs_pos.2 hi
        have : 0 < 1 - b := by linarith
        positivity
      have t : Tendsto (fun J : Nat => (J : ℝ) * ((1 - b) / (H + 1e-7 / |a i|))) atTop atTop :=
        tendsto_natCast_atTop_atTop.atTop_mul_const pos
      filter_upwards [t.eventually_ge_atTop (A + 1)] with J hJ _ using hJ
  obtain ⟨J, h1, h2, h3⟩ := (e1.and (e2.and (eventually_gt_atTop 0))).exists
  exact ⟨J, h3, h1, h2⟩

/-- The prediction, from the moves of the weights. -/
theorem against_total {n J : Nat} {φ : Features ℝ} {w w' : List ℝ} {lr A : ℝ} (l0 : 0 ≤ lr) {S : Nat → ℝ} {T : Nat}
    (h : ∀ i < n, value φ i * entry w' i = value φ i * entry w i + lr * |value φ i| * S i)
    (hS : ∀ i < n, value φ i ≠ 0 → S i ≤ A - (T / (2 * J) : Nat)) (hJ : 0 < J) :
    ∑ i ∈ Finset.range n, value φ i * entry w' i ≤ ∑ i ∈ Finset.range n, value φ i * entry w i +
      lr * (∑ i ∈ Finset.range n, |value φ i|) * (A + 1 - T / (2 * J : Nat)) := by
  rw [Finset.mul_sum, Finset.sum_mul, ← Finset.sum_add_distrib]
  refine Finset.sum_le_sum fun i hi => ?_
  have hi := Finset.mem_range.1 hi
  rw [h i hi]
  by_cases hv : value φ i = 0
  · rw [hv]; simp
  · have h1 := hS i hi hv
    have h2 : (T : ℝ) / (2 * J : Nat) ≤ (T / (2 * J) : Nat) + 1 := by
      rw [div_le_iff₀ (by exact_mod_cast (by omega : 0 < 2 * J))]
      have h3 := (Nat.lt_mul_div_succ T (by omega : 0 < 2 * J)).le
      have h4 : (T : ℝ) ≤ ((2 * J * (T / (2 * J) + 1) : Nat) : ℝ) := by exact_mod_cast h3
      rw [Nat.cast_mul] at h4
      push_cast at h4 ⊢
      linarith
    have := mul_le_mul_of_nonneg_left (h1.trans (by linarith : A - (T / (2 * J) : Nat) ≤ A + 1 - T / (2 * J : Nat)))
      (by positivity : 0 ≤ lr * |value φ i|)
    linarith

theorem correction_bounds {β : ℝ} (h0 : 0 ≤ β) (h1 : β < 1) (t : Nat) : 1 - β ≤ 1 - β ^ (t + 2) ∧ 1 - β ^ (t + 2) ≤ 1 := by
  have a : β ^ (t + 2) ≤ β := pow_le_of_le_one h0 h1.le (by omega)
  have b : 0 ≤ β ^ (t + 2) := by positivity
  constructor <;> linarith

section
variable {B I : Type} [Space B] [Basis B I ℝ]

/-- Adam with `beta1² < beta2`, any basis, any input `x`, any learning rate. For every `μ`, however large, there are a period `N` and
an error `C` such that the errors `C, -1, …, -1, C, -1, …` sum to at least `μ T` over the first `T` calls, for every `T`, and yet, from
any weights, after `T` updates with these errors the prediction at `x` has fallen by `lr ‖φ‖₁ (T / N - K)`. -/
theorem C195_adam (b : B) (x : I) (φ : Features ℝ) (n : Nat) (hp : Basis.project b x = .ok (.ok φ)) (hf : Fits n φ)
    (lr β₁ β₂ : ℝ) (l0 : 0 ≤ lr) (h10 : 0 ≤ β₁) (h12 : β₁ ^ 2 < β₂) (h21 : β₂ < 1) (μ : ℝ) :
    ∃ (N : Nat) (C K : ℝ), 0 < N ∧ (∀ T : Nat, μ * T ≤ ∑ t ∈ Finset.range T, spiky N C t) ∧
      ∀ (w : List ℝ) (fas : Nat → ScalarLFA B (Adam ℝ) ℝ) (ps : Nat → ℝ), w.length = n →
        fas 0 = LFA.mk b w (Adam.new n lr β₁ β₂) → (∀ t, (fas t).update x (spiky N C t) = .ok (.ok (), fas (t + 1))) →
        (∀ t, (fas t).evaluate x = .ok (.ok (ps t))) → ∀ T : Nat,
        ps T ≤ ps 0 + lr * (∑ i ∈ Finset.range n, |value φ i|) * (K - T / N) := by
  have h20 : 0 < β₂ := lt_of_le_of_lt (sq_nonneg _) h12
  have h11 : β₁ < 1 := by nlinarith
  have s0 : 0 < √β₂ := Real.sqrt_pos.2 h20
  have hs : β₁ < √β₂ := Real.lt_sqrt_of_sq_lt h12
  set r := β₁ / √β₂ with hr
  have r0 : 0 ≤ r := by positivity
  have r1 : r < 1 := (div_lt_one s0).2 hs
  have hrb : β₁ = r * √β₂ := by rw [hr]; field_simp
  have d0 : 0 < √(1 - β₂) := Real.sqrt_pos.2 (by linarith)
  set A := 1 / (1 - r) / (√(1 - β₂) * (1 - β₁)) with hA
  obtain ⟨J, hJ, hf1, hf2⟩ := period_exists (n := n) (fun i => value φ i) (b := β₁) (H := √(2 / (1 - β₂))) (A := A) (q := β₂) (m := |μ| + 1)
    (k := 2) h11 (Real.sqrt_nonneg _) h20.le h21
  set C := (|μ| + 1) * (2 * J : Nat) with hC
  have C0 : 0 ≤ C := by positivity
  have hN : 0 < 2 * J := by omega
  refine ⟨2 * J, C, A + 1, hN, fun T => spiky_sum hN rfl T, fun w fas ps hw h0 hu he T => ?_⟩
  obtain ⟨⟨g1, g2⟩, g3⟩ := adam_moves hp hf hw hu h0 T
  rw [prediction_inner hp hf g1 g2 (he T), prediction_inner hp hf (by rw [h0]) (by rw [h0]; exact hw) (he 0), h0]
  refine against_total l0 g3 (fun i hi hv => ?_) hJ
  have hv' := abs_pos.2 hv
  refine against_sum (ρ := √β₂) (H := √(2 / (1 - β₂))) hJ h10 h11 C0 d0 r0 r1 hrb (by positivity) (Real.sqrt_nonneg _)
    (correction_bounds h10 h11)
    (fun t => Real.sqrt_nonneg _) (fun t => ?_) (fun t ht => ?_) (hf2 i (Finset.mem_range.2 hi) hv) T
  · obtain ⟨c0, c1⟩ := correction_bounds h20.le h21 t
    obtain ⟨v0, -⟩ := runAvg_sq_bounds hN h20.le h21.le (C := C) t
    have cpos : 0 < 1 - β₂ ^ (t + 2) := by linarith
    have e : √(1 - β₂) * √β₂ ^ (t % (2 * J)) * C = √((1 - β₂) * β₂ ^ (t % (2 * J)) * C ^ 2) := by
      have e1 : √(β₂ ^ (t % (2 * J))) = √β₂ ^ (t % (2 * J)) := by
        rw [Real.sqrt_eq_iff_eq_sq (by positivity) (by positivity), ← pow_mul, mul_comm (t % (2 * J)) 2, pow_mul,
          Real.sq_sqrt h20.le]
      rw [Real.sqrt_mul (mul_nonneg (by linarith) (by positivity)), Real.sqrt_sq C0, Real.sqrt_mul (by linarith), e1]
    rw [e]
    refine Real.sqrt_le_sqrt (v0.trans ?_)
    rw [le_div_iff₀ cpos]
    refine mul_le_of_le_one_right ?_ c1
    exact le_trans (mul_nonneg (mul_nonneg (by linarith) (by positivity)) (sq_nonneg _)) v0
  · obtain ⟨c0, c1⟩ := correction_bounds h20.le h21 t
    obtain ⟨-, v1⟩ := runAvg_sq_bounds hN h20.le h21.le (C := C) t
    refine Real.sqrt_le_sqrt ?_
    have h2 : C ^ 2 * β₂ ^ (t % (2 * J)) ≤ C ^ 2 * β₂ ^ J :=
      mul_le_mul_of_nonneg_left (pow_le_pow_of_le_one h20.le h21.le ht) (sq_nonneg _)
    exact div_le_div₀ (by norm_num) (by linarith) (by linarith) c0

/-- AdaMax with `beta1 < beta2`: the same. -/
theorem C195_adamax (b : B) (x : I) (φ : Features ℝ) (n : Nat) (hp : Basis.project b x = .ok (.ok φ)) (hf : Fits n φ)
    (lr β₁ β₂ : ℝ) (l0 : 0 ≤ lr) (h10 : 0 ≤ β₁) (h12 : β₁ < β₂) (h21 : β₂ < 1) (μ : ℝ) :
    ∃ (N : Nat) (C K : ℝ), 0 < N ∧ (∀ T : Nat, μ * T ≤ ∑ t ∈ Finset.range T, spiky N C t) ∧
      ∀ (w : List ℝ) (fas : Nat → ScalarLFA B (AdaMax ℝ) ℝ) (ps : Nat → ℝ), w.length = n →
        fas 0 = LFA.mk b w (AdaMax.new n lr β₁ β₂) → (∀ t, (fas t).update x (spiky N C t) = .ok (.ok (), fas (t + 1))) →
        (∀ t, (fas t).evaluate x = .ok (.ok (ps t))) → ∀ T : Nat,
        ps T ≤ ps 0 + lr * (∑ i ∈ Finset.range n, |value φ i|) * (K - T / N) := by
  have h20 : 0 < β₂ := by linarith
  have h11 : β₁ < 1 := by linarith
  set r := β₁ / β₂ with hr
  have r0 : 0 ≤ r := by positivity
  have r1 : r < 1 := (div_lt_one h20).2 h12
  have hrb : β₁ = r * β₂ := by rw [hr]; field_simp
  set A := 1 / (1 - r) / (1 * (1 - β₁)) with hA
  obtain ⟨J, hJ, hf1, hf2⟩ := period_exists (n := n) (fun i => value φ i) (b := β₁) (H := 2) (A := A) (q := β₂) (m := |μ| + 1)
    (k := 1) h11 (by norm_num) h20.le h21
  set C := (|μ| + 1) * (2 * J : Nat) with hC
  have C0 : 0 ≤ C := by positivity
  have hN : 0 < 2 * J := by omega
  rw [pow_one] at hf1
  refine ⟨2 * J, C, A + 1, hN, fun T => spiky_sum hN rfl T, fun w fas ps hw h0 hu he T => ?_⟩
  obtain ⟨⟨g1, g2⟩, g3⟩ := adamax_moves hp hf hw hu h0 T
  rw [prediction_inner hp hf g1 g2 (he T), prediction_inner hp hf (by rw [h0]) (by rw [h0]; exact hw) (he 0), h0]
  refine against_total l0 g3 (fun i hi hv => ?_) hJ
  have hv' := abs_pos.2 hv
  have bounds := fun t => runMax_bounds hN h20.le h21.le C0 t
  refine against_sum (ρ := β₂) (H := 2) hJ h10 h11 C0 one_pos r0 r1 hrb (by positivity) (by norm_num)
    (correction_bounds h10 h11)
    (fun t => le_trans (by positivity) (bounds t).1) (fun t => ?_) (fun t ht => ?_) (hf2 i (Finset.mem_range.2 hi) hv) T
  · rw [one_mul]; exact (bounds t).1
  · have h2 : C * β₂ ^ (t % (2 * J)) ≤ C * β₂ ^ J :=
      mul_le_mul_of_nonneg_left (pow_le_pow_of_le_one h20.le h21.le ht) C0
    linarith [(bounds t).2]

/-- SGD, on any errors, moves the prediction by `lr ‖φ‖²` times their sum. -/
theorem C195_sgd (b : B) (x : I) (φ : Features ℝ) (n : Nat) (hp : Basis.project b x = .ok (.ok φ)) (hf : Fits n φ)
    (lr : ℝ) (e : Nat → ℝ) (w : List ℝ) (fas : Nat → ScalarLFA B (SGD ℝ) ℝ) (ps : Nat → ℝ) (hw : w.length = n)
    (h0 : fas 0 = LFA.mk b w ⟨lr⟩) (hu : ∀ t, (fas t).update x (e t) = .ok (.ok (), fas (t + 1)))
    (he : ∀ t, (fas t).evaluate x = .ok (.ok (ps t))) (T : Nat) :
    ps T = ps 0 + lr * (∑ i ∈ Finset.range n, value φ i ^ 2) * ∑ t ∈ Finset.range T, e t := by
  have hi := updates_one hp (fun o => o = (⟨lr⟩ : SGD ℝ)) (fun o w s ho hw => by
    obtain ⟨w', s1, s2, -⟩ := sgd_real hf o s hw
    exact ⟨_, w', s1, ho, s2⟩) hu h0 hw rfl
  induction T with
  | zero => simp
  | succ T ih =>
    rw [Finset.sum_range_succ, mul_add, ← add_assoc, ← ih]
    rw [prediction_inner hp hf (hi (T + 1)).1 (hi (T + 1)).2.2.1 (he (T + 1)), prediction_inner hp hf (hi T).1 (hi T).2.2.1 (he T)]
    obtain ⟨-, i2, i3, i4⟩ := hi T
    obtain ⟨w', s1, s2, s3⟩ := sgd_real hf (fas T).optimiser (e T) i3
    rw [i4] at s1
    injection s1 with s1
    injection s1 with _ s1
    injection s1 with s1 s6
    rw [s6]
    rw [Finset.mul_sum, Finset.sum_mul, ← Finset.sum_add_distrib]
    refine Finset.sum_congr rfl fun i hi => ?_
    rw [s3 i (Finset.mem_range.1 hi), i2]
    ring

/-- Runs with any errors exist. -/
theorem C195_runs (b : B) (x : I) (φ : Features ℝ) (n : Nat) (hp : Basis.project b x = .ok (.ok φ)) (hf : Fits n φ)
    (lr β₁ β₂ : ℝ) (e : Nat → ℝ) (w : List ℝ) (hw : w.length = n) :
    (∃ fas : Nat → ScalarLFA B (Adam ℝ) ℝ, (∀ t, (fas t).update x (e t) = .ok (.ok (), fas (t + 1))) ∧
      fas 0 = LFA.mk b w (Adam.new n lr β₁ β₂)) ∧
    ∃ fas : Nat → ScalarLFA B (AdaMax ℝ) ℝ, (∀ t, (fas t).update x (e t) = .ok (.ok (), fas (t + 1))) ∧
      fas 0 = LFA.mk b w (AdaMax.new n lr β₁ β₂) :=
  ⟨updates_exist hp e _ (adam_keeps hf lr β₁ β₂) hw ⟨⟨rfl, rfl, rfl⟩, by simp [Adam.new], by simp [Adam.new]⟩,
    updates_exist hp e _ (adamax_keeps hf lr β₁ β₂) hw ⟨⟨rfl, rfl, rfl⟩, by simp [AdaMax.new], by simp [AdaMax.new]⟩⟩

end

/-- The hypotheses are met: a bias, the usual decays `0.9` and `0.999` and rate `0.001`; the errors average at least a million, and the
prediction of Adam goes to minus infinity. -/
theorem C195_example : ∃ (N : Nat) (C : ℝ), 0 < N ∧ (∀ T : Nat, 1000000 * (T : ℝ) ≤ ∑ t ∈ Finset.range T, spiky N C t) ∧
    ∃ (fas : Nat → ScalarLFA (Bias ℝ) (Adam ℝ) ℝ) (ps : Nat → ℝ),
      fas 0 = LFA.mk (Bias.mk (1 : ℝ)) [0] (Adam.new 1 0.001 0.9 0.999) ∧
      (∀ t, (fas t).update () (spiky N C t) = .ok (.ok (), fas (t + 1))) ∧
      (∀ t, (fas t).evaluate () = .ok (.ok (ps t))) ∧ Tendsto ps atTop atBot := by
  have hp : Basis.project (Bias.mk (1 : ℝ)) () = .ok (.ok (.dense [(1 : ℝ)])) := rfl
  have hf : Fits 1 (.dense [(1 : ℝ)]) := ⟨trivial, rfl⟩
  obtain ⟨N, C, K, hN, h1, h2⟩ := C195_adam (Bias.mk (1 : ℝ)) () _ 1 hp hf 0.001 0.9 0.999 (by norm_num) (by norm_num) (by norm_num)
    (by norm_num) 1000000
  obtain ⟨fas, h3, h4⟩ := (C195_runs (Bias.mk (1 : ℝ)) () _ 1 hp hf 0.001 0.9 0.999 (spiky N C) [0] rfl).1
  have inv := updates_one hp _ (adam_keeps hf 0.001 0.9 0.999) h3 h4 rfl ⟨⟨rfl, rfl, rfl⟩, by simp [Adam.new], by simp [Adam.new]⟩
  have he : ∀ t, ∃ p, (fas t).evaluate () = .ok (.ok p) := fun t => by
    obtain ⟨i1, -, i3, -⟩ := inv t
    exact ⟨_, evaluate_eq (by rw [i1]; exact hp) (dot_real hf.1 (hf.2.trans i3.symm))⟩
  choose ps he using he
  refine ⟨N, C, hN, h1, fas, ps, h4, h3, he, ?_⟩
  have h5 := h2 [0] fas ps rfl h4 h3 he
  have e : ∑ i ∈ Finset.range 1, |value (.dense [(1 : ℝ)]) i| = 1 := by
    rw [Finset.sum_range_one]
    show |(1 : ℝ)| = 1
    exact abs_one
  rw [e] at h5
  refine tendsto_atBot_mono h5 ?_
  have hN' : (0 : ℝ) < N := by exact_mod_cast hN
  refine tendsto_atBot_add_const_left _ _ (Tendsto.const_mul_atBot (by norm_num) ?_)
  refine tendsto_atBot_add_const_left _ _ (tendsto_neg_atTop_atBot.comp ?_)
  exact tendsto_natCast_atTop_atTop.atTop_div_const hN'

end Lfa

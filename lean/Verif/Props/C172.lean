import Verif.Proofs.VelocityErr
import Verif.Props.C93_C94
import Verif.Props.C97_C98
import Verif.Props.C91
import Verif.Props.C51_C54

/-!
# C172: accuracy of Momentum and NAG in `f64`

`M` is any machine that rounds like `f64`; its library functions and orders of summation are free.
-/

set_option linter.unusedSectionVars false

namespace Lfa

open Spec Machine XReal

variable {M : Machine}

theorem value_inactive {K : Type} [Scalar K] {n : Nat} {φ : Features K} (hφ : Fits n φ) {i : Nat} (ha : ¬ Active φ i) :
    value φ i = Scalar.zero := by
  cases φ with
  | dense da =>
    show entry da i = _
    refine entry_of_ge ?_
    by_contra hc
    exact ha (active_dense (not_le.1 hc))
  | sparse sa =>
    rw [value_sparse, (not_active_sparse_iff hφ.1.1 i).1 ha]; rfl

/-- One call, seen as a scaled step. -/
theorem fp_call_of {O : Type} [Optimiser O (FP M)] (hd : ∀ (o : O) w φ, Optimiser.step o w φ = Optimiser.stepScaled o w φ Scalar.one)
    {n : Nat} {e : Event (FP M)} {o o' : O} {w w' : List (FP M)} (hf : e.Fits n)
    (hs : e.isStep = true) (h : History o w [e] o' w') :
    ∃ φ s, (∀ i, gradient i e = real (value φ i) * real s) ∧ (∀ i, presented i e = real (value φ i)) ∧ Fits n φ ∧
      Optimiser.stepScaled o w φ s = .ok (.ok (), o', w') := by
  cases h with
  | step h t =>
    cases t
    rw [hd] at h
    refine ⟨_, Scalar.one, fun i => ?_, fun i => rfl, hf, h⟩
    rw [is_real (val_one (M := M)), mul_one]
    rfl
  | stepScaled h t => cases t; exact ⟨_, _, fun i => rfl, fun i => rfl, hf, h⟩
  | reset t => cases hs

/-- The velocity of parameter `i` after a call. -/
theorem velocity_call (hM : M.rnd = binary64Format.rnd) {n : Nat} {φ : Features (FP M)} (hφ : Fits n φ) {m s : FP M}
    {v v' : List (FP M)} (hv : v.length = n) (h : velocityUpdate m v φ s = .ok v') {i : Nat} (hi : i < n) :
    ∃ g : FP M, (∀ y, Is g y → |y - real (value φ i) * real s| ≤ roundoff * |real (value φ i) * real s| + tiny) ∧
      (entry v' i = (m *. entry v i +. g) ∨ (real (value φ i) * real s = 0 ∧ entry v' i = entry v i *. m) ∨
        entry v' i = (entry v i *. m +. g)) := by
  obtain ⟨v₁, h1, -, h2⟩ := velocityUpdate_any hφ m s hv
  rw [h] at h1
  injection h1 with h1
  subst h1
  refine ⟨value φ i *. s, fun y hy => ?_, ?_⟩
  · obtain ⟨a, b, ha, hb, hab⟩ := mul_err hM hy
    rwa [is_real ha, is_real hb]
  · rcases h2 i hi with h | ⟨ha, h⟩ | ⟨-, h⟩
    · exact .inl h
    · refine .inr (.inl ⟨?_, h⟩)
      rw [value_inactive hφ ha, real_zero', zero_mul]
    · exact .inr (.inr h)

/-- A rounded multiple of a velocity. -/
theorem scaled_velocity {u τ p σ l v V A q : ℝ} (u0 : 0 ≤ u) (hV : |V| ≤ A) (hv : |v - V| ≤ (p - 1) * A + σ)
    (hq : |q - l * v| ≤ u * |l * v| + τ) :
    |q - l * V| ≤ (p * (1 + u) - 1) * (|l| * A) + ((1 + u) * (|l| * σ) + τ) := by
  have h1 : |l * v - l * V| ≤ |l| * ((p - 1) * A + σ) := by
    rw [← mul_sub, abs_mul]
    exact mul_le_mul_of_nonneg_left hv (abs_nonneg l)
  have h2 : |l * v| ≤ |l * v - l * V| + |l| * A := by
    have := abs_add_le (l * v - l * V) (l * V)
    rw [sub_add_cancel, abs_mul l V] at this
    have := mul_le_mul_of_nonneg_left hV (abs_nonneg l)
    linarith
  have h3 := abs_sub_le q (l * v) (l * V)
  have h4 := mul_le_mul_of_nonneg_left h2 u0
  have h5 := mul_le_mul_of_nonneg_left h1 u0
  nlinarith

theorem finite_down {P : Nat → Prop} {T : Nat} (hT : P T) (h : ∀ t < T, P (t + 1) → P t) : ∀ t ≤ T, P t := by
  have key : ∀ k t, t + k = T → P t := by
    intro k
    induction k with
    | zero => intro t ht; rw [add_zero] at ht; rw [ht]; exact hT
    | succ k ih => intro t ht; exact h t (by omega) (ih (t + 1) (by omega))
  exact fun t ht => key (T - t) t (by omega)

/-- Momentum in `f64` against Momentum in exact arithmetic, both fed the same calls. If a weight is finite after `T` calls of `step`
and `step_scaled`, the velocity is the discounted sum of the exact gradients up to the fraction `(1 + u)^(2T) - 1` of the discounted
sum of their magnitudes, and the weight is the exact one up to the fraction `(1 + u)^(3T + 1) - 1` of the magnitudes that the exact
run adds up; underflow adds a few multiples of `2^-1075`. -/
theorem C172_momentum (hM : M.rnd = binary64Format.rnd) (n : Nat) (m lr : FP M) (μ l : ℝ) (hm : Is m μ) (hμ : |μ| ≤ 1) (hl : Is lr l)
    (os : Nat → SGDMomentum (FP M)) (ws : Nat → List (FP M)) (es : Nat → Event (FP M)) (hr : OptRun os ws es)
    (ho : os 0 = SGDMomentum.new n m lr) (hw : (ws 0).length = n) (he : ∀ t, (es t).Fits n) (hs : ∀ t, (es t).isStep = true)
    (T : Nat) (i : Nat) (hi : i < n) (hfin : Finite (entry (ws T) i)) :
    (∀ t ≤ T, |real (entry (os t).velocity i) - discounted μ (fun s => gradient i (es s)) t| ≤
      ((1 + roundoff) ^ (2 * t) - 1) * discounted |μ| (fun s => |gradient i (es s)|) t + 2 * t * (1 + roundoff) ^ (2 * t) * tiny) ∧
    |real (entry (ws T) i) - (real (entry (ws 0) i) +
        ∑ t ∈ Finset.range T, l * discounted μ (fun s => gradient i (es s)) (t + 1))| ≤
      ((1 + roundoff) ^ (3 * T + 1) - 1) * (|real (entry (ws 0) i)| +
        ∑ t ∈ Finset.range T, |l| * discounted |μ| (fun s => |gradient i (es s)|) (t + 1)) +
      T * (1 + roundoff) ^ T * (2 * T * |l| * (1 + roundoff) ^ (2 * T + 1) + 1) * tiny := by
  have u0 := roundoff_pos
  have τ0 := tiny_pos
  have is_of : ∀ {a : FP M}, Finite a → Is a (real a) := fun ⟨r, h⟩ => by rw [is_real h]; exact h
  -- the calls
  have call : ∀ t, ((os t).momentum = m ∧ (os t).learningRate = lr ∧ (os t).velocity.length = n ∧ (ws t).length = n) →
      ((os (t + 1)).momentum = m ∧ (os (t + 1)).learningRate = lr ∧ (os (t + 1)).velocity.length = n ∧ (ws (t + 1)).length = n) ∧
      (∃ g : FP M, (∀ y, Is g y → |y - gradient i (es t)| ≤ roundoff * |gradient i (es t)| + tiny) ∧
        (entry (os (t + 1)).velocity i = (m *. entry (os t).velocity i +. g) ∨
          (gradient i (es t) = 0 ∧ entry (os (t + 1)).velocity i = entry (os t).velocity i *. m) ∨
          entry (os (t + 1)).velocity i = (entry (os t).velocity i *. m +. g))) ∧
      entry (ws (t + 1)) i = (entry (ws t) i +. lr *. entry (os (t + 1)).velocity i) := by
    rintro t ⟨h1, h2, h3, h4⟩
    obtain ⟨φ, s, hg, -, hφ, h⟩ := fp_call_of (fun _ _ _ => rfl) (he t) (hs t) (hr t)
    obtain ⟨v, w', a1, a2, a3, a4, a5⟩ := momentum_scaled hφ (os t) h3 s h4
    rw [h] at a1
    obtain ⟨b1, b2⟩ : os (t + 1) = { os t with velocity := v } ∧ ws (t + 1) = w' := by
      simp only [Except.ok.injEq, Prod.mk.injEq, true_and] at a1
      exact a1
    rw [b1, b2]
    refine ⟨⟨h1, h2, a3, a4⟩, ?_, ?_⟩
    · rw [hg]
      rw [h1] at a2
      exact velocity_call hM hφ h3 a2 hi
    · rw [a5 i hi, h2]
  have inv : ∀ t, (os t).momentum = m ∧ (os t).learningRate = lr ∧ (os t).velocity.length = n ∧ (ws t).length = n := by
    intro t
    induction t with
    | zero => rw [ho]; exact ⟨rfl, rfl, List.length_replicate, hw⟩
    | succ t ih => exact (call t ih).1
  have hv := fun t => (call t (inv t)).2.1
  choose g hg hv using hv
  have hW := fun t => (call t (inv t)).2.2
  have fw : ∀ t ≤ T, Finite (entry (ws t) i) := finite_down hfin fun t _ ⟨z, hz⟩ => by
    rw [hW] at hz
    obtain ⟨a, b, ha, -, -⟩ := add_err hM hz
    exact ⟨a, ha⟩
  have hv0 : entry (os 0).velocity i = Scalar.zero := by
    rw [ho]
    exact entry_replicate n i
  have fv : Finite (entry (os T).velocity i) := by
    rcases T with _ | T
    · rw [hv0]; exact ⟨0, val_zero⟩
    · obtain ⟨z, hz⟩ := hfin
      rw [hW] at hz
      obtain ⟨a, b, -, hb, -⟩ := add_err hM hz
      obtain ⟨_, c, -, hc, -⟩ := mul_err hM hb
      exact ⟨c, hc⟩
  have hvel := velocity_run hM hm hμ (v := fun t => entry (os t).velocity i) (g := g) (G := fun s => gradient i (es s)) (T := T)
    hv0 hg (fun t _ => hv t) fv
  refine ⟨fun t ht => (hvel t ht).2.2, ?_⟩
  -- the increments
  have hp : ∀ t < T, (1 + roundoff) ^ (2 * (t + 1)) ≤ (1 + roundoff) ^ (2 * T) := fun t ht =>
    pow_le_pow_right₀ (by linarith) (by omega)
  have hA : ∀ t, 0 ≤ discounted |μ| (fun s => |gradient i (es s)|) t := fun t =>
    Finset.sum_nonneg fun j _ => mul_nonneg (pow_nonneg (abs_nonneg _) _) (abs_nonneg _)
  have hVA : ∀ t, |discounted μ (fun s => gradient i (es s)) t| ≤ discounted |μ| (fun s => |gradient i (es s)|) t := fun t => by
    refine (Finset.abs_sum_le_sum_abs _ _).trans (Finset.sum_le_sum fun j _ => ?_)
    rw [abs_mul, abs_pow]
  have hstep : ∀ t < T, ∃ q, |q - l * discounted μ (fun s => gradient i (es s)) (t + 1)| ≤
        ((1 + roundoff) ^ (2 * T + 1) - 1) * (|l| * discounted |μ| (fun s => |gradient i (es s)|) (t + 1)) +
          (2 * T * |l| * (1 + roundoff) ^ (2 * T + 1) + 1) * tiny ∧
      |real (entry (ws (t + 1)) i) - (real (entry (ws t) i) + q)| ≤ roundoff * (|real (entry (ws t) i)| + |q|) := by
    intro t ht
    have h1 := is_of (fw (t + 1) ht)
    rw [hW] at h1
    obtain ⟨a, q, ha, hb, hab⟩ := add_err hM h1
    refine ⟨q, ?_, ?_⟩
    · obtain ⟨l', c, hl', hc, hq⟩ := mul_err hM hb
      cases is_fun hl' hl
      have h2 := (hvel (t + 1) ht).2.2
      rw [is_real hc] at h2
      refine (scaled_velocity u0.le (hVA (t + 1)) h2 hq).trans (add_le_add ?_ ?_)
      · refine mul_le_mul_of_nonneg_right ?_ (mul_nonneg (abs_nonneg l) (hA _))
        rw [pow_succ (1 + roundoff) (2 * T)]
        have := mul_le_mul_of_nonneg_right (hp t ht) (by linarith : 0 ≤ 1 + roundoff)
        linarith
      · have ht' : ((t + 1 : ℕ) : ℝ) ≤ T := by exact_mod_cast ht
        have h3 : 2 * ((t + 1 : ℕ) : ℝ) * (1 + roundoff) ^ (2 * (t + 1)) * tiny ≤ 2 * T * (1 + roundoff) ^ (2 * T) * tiny :=
          mul_le_mul_of_nonneg_right (mul_le_mul (by linarith) (hp t ht) (by positivity) (by positivity)) τ0.le
        have h4 := mul_le_mul_of_nonneg_left h3 (mul_nonneg (by linarith : 0 ≤ 1 + roundoff) (abs_nonneg l))
        rw [pow_succ (1 + roundoff) (2 * T)]
        linarith
    · rw [is_real ha, hW]
      exact hab.trans (mul_le_mul_of_nonneg_left (abs_add_le _ _) u0.le)
  have hex : ∀ t, ∃ q, t < T → |q - l * discounted μ (fun s => gradient i (es s)) (t + 1)| ≤
        ((1 + roundoff) ^ (2 * T + 1) - 1) * (|l| * discounted |μ| (fun s => |gradient i (es s)|) (t + 1)) +
          (2 * T * |l| * (1 + roundoff) ^ (2 * T + 1) + 1) * tiny ∧
      |real (entry (ws (t + 1)) i) - (real (entry (ws t) i) + q)| ≤ roundoff * (|real (entry (ws t) i)| + |q|) := fun t => by
    by_cases ht : t < T
    · obtain ⟨q, h⟩ := hstep t ht
      exact ⟨q, fun _ => h⟩
    · exact ⟨0, fun h => absurd h ht⟩
  choose q hq using hex
  have hQ : ∀ t, |l * discounted μ (fun s => gradient i (es s)) (t + 1)| ≤
      |l| * discounted |μ| (fun s => |gradient i (es s)|) (t + 1) := fun t => by
    rw [abs_mul]
    exact mul_le_mul_of_nonneg_left (hVA _) (abs_nonneg l)
  have hsum := sums_near (T := T) (κ := roundoff) (c := (1 + roundoff) ^ (2 * T + 1) - 1)
    (η := (2 * T * |l| * (1 + roundoff) ^ (2 * T + 1) + 1) * tiny) (w := fun t => real (entry (ws t) i)) (q := q) (b := fun t => |q t|)
    (W := fun t => real (entry (ws 0) i) + ∑ s ∈ Finset.range t, l * discounted μ (fun s => gradient i (es s)) (s + 1))
    (Q := fun t => l * discounted μ (fun s => gradient i (es s)) (t + 1))
    (a := fun t => |l| * discounted |μ| (fun s => |gradient i (es s)|) (t + 1)) u0.le
    (sub_nonneg.2 (one_le_pow₀ (by linarith))) (by positivity) (by simp)
    (fun t => by simp only [Finset.sum_range_succ]; ring) hQ (fun t ht => (hq t ht).1)
    (fun t ht => by
      have h1 := (hq t ht).1
      have h2 := hQ t
      have h3 := abs_add_le (q t - l * discounted μ (fun s => gradient i (es s)) (t + 1))
        (l * discounted μ (fun s => gradient i (es s)) (t + 1))
      rw [sub_add_cancel] at h3
      linarith) (fun t ht => (hq t ht).2) T le_rfl
  have h1 := hsum.2
  simp only [Finset.sum_range_zero, add_zero] at h1
  rw [show 1 + ((1 + roundoff) ^ (2 * T + 1) - 1) = (1 + roundoff) ^ (2 * T + 1) by ring, ← pow_add,
    show T + (2 * T + 1) = 3 * T + 1 by ring, ← mul_assoc] at h1
  exact h1

/-- NAG in `f64` against NAG in exact arithmetic, both fed the same calls: the velocity as for Momentum; the weight, which also gains
the momentum times the unscaled activation, up to the fraction `(1 + u)^(4T + 1) - 1` of the magnitudes that the exact run adds up. -/
theorem C172_nag (hM : M.rnd = binary64Format.rnd) (n : Nat) (m lr : FP M) (μ l : ℝ) (hm : Is m μ) (hμ : |μ| ≤ 1) (hl : Is lr l)
    (os : Nat → NAG (FP M)) (ws : Nat → List (FP M)) (es : Nat → Event (FP M)) (hr : OptRun os ws es)
    (ho : os 0 = NAG.new n m lr) (hw : (ws 0).length = n) (he : ∀ t, (es t).Fits n) (hs : ∀ t, (es t).isStep = true)
    (T : Nat) (i : Nat) (hi : i < n) (hfin : Finite (entry (ws T) i)) :
    (∀ t ≤ T, |real (entry (os t).velocity i) - discounted μ (fun s => gradient i (es s)) t| ≤
      ((1 + roundoff) ^ (2 * t) - 1) * discounted |μ| (fun s => |gradient i (es s)|) t + 2 * t * (1 + roundoff) ^ (2 * t) * tiny) ∧
    |real (entry (ws T) i) - (real (entry (ws 0) i) +
        ∑ t ∈ Finset.range T, (l * discounted μ (fun s => gradient i (es s)) (t + 1) + μ * presented i (es t)))| ≤
      ((1 + roundoff) ^ (4 * T + 1) - 1) * (|real (entry (ws 0) i)| +
        ∑ t ∈ Finset.range T, (|l| * discounted |μ| (fun s => |gradient i (es s)|) (t + 1) + |μ * presented i (es t)|)) +
      T * (1 + roundoff) ^ (2 * T) * (2 * T * |l| * (1 + roundoff) ^ (2 * T + 1) + 2) * tiny := by
  have u0 := roundoff_pos
  have τ0 := tiny_pos
  have is_of : ∀ {a : FP M}, Finite a → Is a (real a) := fun ⟨r, h⟩ => by rw [is_real h]; exact h
  -- the calls
  have call : ∀ t, ((os t).momentum = m ∧ (os t).learningRate = lr ∧ (os t).velocity.length = n ∧ (ws t).length = n) →
      ((os (t + 1)).momentum = m ∧ (os (t + 1)).learningRate = lr ∧ (os (t + 1)).velocity.length = n ∧ (ws (t + 1)).length = n) ∧
      (∃ g : FP M, (∀ y, Is g y → |y - gradient i (es t)| ≤ roundoff * |gradient i (es t)| + tiny) ∧
        (entry (os (t + 1)).velocity i = (m *. entry (os t).velocity i +. g) ∨
          (gradient i (es t) = 0 ∧ entry (os (t + 1)).velocity i = entry (os t).velocity i *. m) ∨
          entry (os (t + 1)).velocity i = (entry (os t).velocity i *. m +. g))) ∧
      (∃ a : FP M, real a = presented i (es t) ∧
        (entry (ws (t + 1)) i = (entry (ws t) i +. lr *. entry (os (t + 1)).velocity i +. m *. a) ∨
          (presented i (es t) = 0 ∧ entry (ws (t + 1)) i = (entry (ws t) i +. lr *. entry (os (t + 1)).velocity i)))) := by
    rintro t ⟨h1, h2, h3, h4⟩
    obtain ⟨φ, s, hg, hpr, hφ, h⟩ := fp_call_of (fun _ _ _ => rfl) (he t) (hs t) (hr t)
    obtain ⟨v, w₁, w', a1, a2, a6, a3, a7, a4, a5⟩ := nag_scaled hφ (os t) h3 s h4
    rw [h] at a1
    obtain ⟨b1, b2⟩ : os (t + 1) = { os t with velocity := v } ∧ ws (t + 1) = w' := by
      simp only [Except.ok.injEq, Prod.mk.injEq, true_and] at a1
      exact a1
    rw [b1, b2]
    refine ⟨⟨h1, h2, a3, a4⟩, ?_, ?_⟩
    · rw [hg]
      rw [h1] at a2
      exact velocity_call hM hφ h3 a2 hi
    · obtain ⟨w₂, c1, -, c2⟩ := scaledAddto_any hφ (os t).momentum a7
      rw [a6] at c1
      injection c1 with c1
      subst c1
      refine ⟨value φ i, (hpr i).symm, ?_⟩
      by_cases ha : Active φ i
      · obtain ⟨a, ha⟩ := ha
        refine .inl ?_
        rw [(c2 i hi).1 a ha, a5 i hi, h2, h1, value_of_stored (keysUnique_of_wf hφ.1) ha]
      · refine .inr ⟨?_, ?_⟩
        · rw [hpr, value_inactive hφ ha, real_zero']
        · rw [(c2 i hi).2 ha, a5 i hi, h2]
  have inv : ∀ t, (os t).momentum = m ∧ (os t).learningRate = lr ∧ (os t).velocity.length = n ∧ (ws t).length = n := by
    intro t
    induction t with
    | zero => rw [ho]; exact ⟨rfl, rfl, List.length_replicate, hw⟩
    | succ t ih => exact (call t ih).1
  have hv := fun t => (call t (inv t)).2.1
  choose g hg hv using hv
  have hW : ∀ t z, Is (entry (ws (t + 1)) i) z → ∃ w x q r c, Is (entry (ws t) i) w ∧ Is (entry (os (t + 1)).velocity i) c ∧
      |q - l * c| ≤ roundoff * |l * c| + tiny ∧ |r - μ * presented i (es t)| ≤ roundoff * |μ * presented i (es t)| + tiny ∧
      |x - (w + q)| ≤ roundoff * |w + q| ∧ |z - (x + r)| ≤ roundoff * |x + r| := by
    intro t z hz
    obtain ⟨a, ha, h | ⟨hp, h⟩⟩ := (call t (inv t)).2.2 <;> rw [h] at hz
    · obtain ⟨x, r, hx, hr, hxr⟩ := add_err hM hz
      obtain ⟨w, q, hw, hq, hwq⟩ := add_err hM hx
      obtain ⟨l', c, hl', hc, hlc⟩ := mul_err hM hq
      obtain ⟨m', b, hm', hb, hmb⟩ := mul_err hM hr
      cases is_fun hl' hl
      cases is_fun hm' hm
      rw [← is_real hb, ha] at hmb
      exact ⟨w, x, q, r, c, hw, hc, hlc, hmb, hwq, hxr⟩
    · obtain ⟨w, q, hw, hq, hwq⟩ := add_err hM hz
      obtain ⟨l', c, hl', hc, hlc⟩ := mul_err hM hq
      cases is_fun hl' hl
      refine ⟨w, z, q, 0, c, hw, hc, hlc, ?_, hwq, ?_⟩
      · rw [hp]; simp; exact τ0.le
      · rw [add_zero, sub_self, abs_zero]; positivity
  have fw : ∀ t ≤ T, Finite (entry (ws t) i) := finite_down hfin fun t _ ⟨z, hz⟩ => by
    obtain ⟨w, -, -, -, -, hw, -⟩ := hW t z hz
    exact ⟨w, hw⟩
  have hv0 : entry (os 0).velocity i = Scalar.zero := by
    rw [ho]
    exact entry_replicate n i
  have fv : Finite (entry (os T).velocity i) := by
    rcases T with _ | T
    · rw [hv0]; exact ⟨0, val_zero⟩
    · obtain ⟨z, hz⟩ := hfin
      obtain ⟨-, -, -, -, c, -, hc, -⟩ := hW T z hz
      exact ⟨c, hc⟩
  have hvel := velocity_run hM hm hμ (v := fun t => entry (os t).velocity i) (g := g) (G := fun s => gradient i (es s)) (T := T)
    hv0 hg (fun t _ => hv t) fv
  refine ⟨fun t ht => (hvel t ht).2.2, ?_⟩
  -- the increments
  have hp : ∀ t < T, (1 + roundoff) ^ (2 * (t + 1)) ≤ (1 + roundoff) ^ (2 * T) := fun t ht =>
    pow_le_pow_right₀ (by linarith) (by omega)
  have hA : ∀ t, 0 ≤ discounted |μ| (fun s => |gradient i (es s)|) t := fun t =>
    Finset.sum_nonneg fun j _ => mul_nonneg (pow_nonneg (abs_nonneg _) _) (abs_nonneg _)
  have hVA : ∀ t, |discounted μ (fun s => gradient i (es s)) t| ≤ discounted |μ| (fun s => |gradient i (es s)|) t := fun t => by
    refine (Finset.abs_sum_le_sum_abs _ _).trans (Finset.sum_le_sum fun j _ => ?_)
    rw [abs_mul, abs_pow]
  let Q : Nat → ℝ := fun t => l * discounted μ (fun s => gradient i (es s)) (t + 1) + μ * presented i (es t)
  let A : Nat → ℝ := fun t => |l| * discounted |μ| (fun s => |gradient i (es s)|) (t + 1) + |μ * presented i (es t)|
  have hstep : ∀ t < T, ∃ q r, |q + r - Q t| ≤ ((1 + roundoff) ^ (2 * T + 1) - 1) * A t +
          (2 * T * |l| * (1 + roundoff) ^ (2 * T + 1) + 2) * tiny ∧
      |q| + |r| ≤ (1 + roundoff) ^ (2 * T + 1) * A t + (2 * T * |l| * (1 + roundoff) ^ (2 * T + 1) + 2) * tiny ∧
      |real (entry (ws (t + 1)) i) - (real (entry (ws t) i) + (q + r))| ≤
        ((1 + roundoff) ^ 2 - 1) * (|real (entry (ws t) i)| + (|q| + |r|)) := by
    intro t ht
    have hz := is_of (fw (t + 1) ht)
    obtain ⟨w, x, q, r, c, hw', hc, hq, hr', hx, hz'⟩ := hW t _ hz
    have h2 := (hvel (t + 1) ht).2.2
    rw [is_real hc] at h2
    have h1 : 1 ≤ (1 + roundoff) ^ (2 * T) := one_le_pow₀ (by linarith)
    have h3 : |q - l * discounted μ (fun s => gradient i (es s)) (t + 1)| ≤
        ((1 + roundoff) ^ (2 * T + 1) - 1) * (|l| * discounted |μ| (fun s => |gradient i (es s)|) (t + 1)) +
          (2 * T * |l| * (1 + roundoff) ^ (2 * T + 1) + 1) * tiny := by
      refine (scaled_velocity u0.le (hVA (t + 1)) h2 hq).trans (add_le_add ?_ ?_)
      · refine mul_le_mul_of_nonneg_right ?_ (mul_nonneg (abs_nonneg l) (hA _))
        rw [pow_succ (1 + roundoff) (2 * T)]
        have := mul_le_mul_of_nonneg_right (hp t ht) (by linarith : 0 ≤ 1 + roundoff)
        linarith
      · have ht' : ((t + 1 : ℕ) : ℝ) ≤ T := by exact_mod_cast ht
        have h3 : 2 * ((t + 1 : ℕ) : ℝ) * (1 + roundoff) ^ (2 * (t + 1)) * tiny ≤ 2 * T * (1 + roundoff) ^ (2 * T) * tiny :=
          mul_le_mul_of_nonneg_right (mul_le_mul (by linarith) (hp t ht) (by positivity) (by positivity)) τ0.le
        have h4 := mul_le_mul_of_nonneg_left h3 (mul_nonneg (by linarith : 0 ≤ 1 + roundoff) (abs_nonneg l))
        rw [pow_succ (1 + roundoff) (2 * T)]
        linarith
    have h4 : |r - μ * presented i (es t)| ≤ ((1 + roundoff) ^ (2 * T + 1) - 1) * |μ * presented i (es t)| + tiny := by
      refine hr'.trans (add_le_add_left (mul_le_mul_of_nonneg_right ?_ (abs_nonneg _)) _)
      rw [pow_succ]
      nlinarith
    have h5 : |l * discounted μ (fun s => gradient i (es s)) (t + 1)| ≤
        |l| * discounted |μ| (fun s => |gradient i (es s)|) (t + 1) := by
      rw [abs_mul]
      exact mul_le_mul_of_nonneg_left (hVA _) (abs_nonneg l)
    refine ⟨q, r, ?_, ?_, ?_⟩
    · have e : q + r - Q t = (q - l * discounted μ (fun s => gradient i (es s)) (t + 1)) + (r - μ * presented i (es t)) := by
        show q + r - (_ + _) = _
        ring
      rw [e]
      refine (abs_add_le _ _).trans ((add_le_add h3 h4).trans (le_of_eq ?_))
      show _ = _ * (_ + _) + _
      ring
    · have f1 := abs_add_le (q - l * discounted μ (fun s => gradient i (es s)) (t + 1))
        (l * discounted μ (fun s => gradient i (es s)) (t + 1))
      rw [sub_add_cancel] at f1
      have f2 := abs_add_le (r - μ * presented i (es t)) (μ * presented i (es t))
      rw [sub_add_cancel] at f2
      show _ ≤ _ * (_ + _) + _
      linarith
    · rw [is_real hw']
      have f1 : |x| ≤ |x - (w + q)| + |w + q| := by
        have := abs_add_le (x - (w + q)) (w + q)
        rwa [sub_add_cancel] at this
      have f2 := abs_add_le x r
      have f3 := abs_add_le w q
      have f4 : |real (entry (ws (t + 1)) i) - (w + (q + r))| ≤
          |real (entry (ws (t + 1)) i) - (x + r)| + |x - (w + q)| := by
        have e : real (entry (ws (t + 1)) i) - (w + (q + r)) = (real (entry (ws (t + 1)) i) - (x + r)) + (x - (w + q)) := by ring
        rw [e]
        exact abs_add_le _ _
      have f5 := mul_le_mul_of_nonneg_left f2 u0.le
      have f6 := mul_le_mul_of_nonneg_left f1 u0.le
      have f7 := mul_le_mul_of_nonneg_left hx u0.le
      have f8 := mul_le_mul_of_nonneg_left f3 u0.le
      have f9 := mul_le_mul_of_nonneg_left f8 u0.le
      have := mul_nonneg (mul_nonneg u0.le u0.le) (abs_nonneg r)
      have := mul_nonneg u0.le (abs_nonneg r)
      nlinarith
  have hex : ∀ t, ∃ q r, t < T → |q + r - Q t| ≤ ((1 + roundoff) ^ (2 * T + 1) - 1) * A t +
          (2 * T * |l| * (1 + roundoff) ^ (2 * T + 1) + 2) * tiny ∧
      |q| + |r| ≤ (1 + roundoff) ^ (2 * T + 1) * A t + (2 * T * |l| * (1 + roundoff) ^ (2 * T + 1) + 2) * tiny ∧
      |real (entry (ws (t + 1)) i) - (real (entry (ws t) i) + (q + r))| ≤
        ((1 + roundoff) ^ 2 - 1) * (|real (entry (ws t) i)| + (|q| + |r|)) := fun t => by
    by_cases ht : t < T
    · obtain ⟨q, r, h⟩ := hstep t ht
      exact ⟨q, r, fun _ => h⟩
    · exact ⟨0, 0, fun h => absurd h ht⟩
  choose q r hq using hex
  have hQ : ∀ t, |Q t| ≤ A t := fun t => by
    refine (abs_add_le _ _).trans (add_le_add_left ?_ _)
    rw [abs_mul]
    exact mul_le_mul_of_nonneg_left (hVA _) (abs_nonneg l)
  have hone : 1 + ((1 + roundoff) ^ (2 * T + 1) - 1) = (1 + roundoff) ^ (2 * T + 1) := by ring
  have hsum := sums_near (T := T) (κ := (1 + roundoff) ^ 2 - 1) (c := (1 + roundoff) ^ (2 * T + 1) - 1)
    (η := (2 * T * |l| * (1 + roundoff) ^ (2 * T + 1) + 2) * tiny) (w := fun t => real (entry (ws t) i)) (q := fun t => q t + r t)
    (b := fun t => |q t| + |r t|) (W := fun t => real (entry (ws 0) i) + ∑ s ∈ Finset.range t, Q s) (Q := Q) (a := A)
    (sub_nonneg.2 (one_le_pow₀ (by linarith))) (sub_nonneg.2 (one_le_pow₀ (by linarith))) (by positivity) (by simp)
    (fun t => by simp only [Finset.sum_range_succ]; ring) hQ (fun t ht => (hq t ht).1)
    (fun t ht => by rw [hone]; exact (hq t ht).2.1) (fun t ht => (hq t ht).2.2) T le_rfl
  have h1 := hsum.2
  simp only [Finset.sum_range_zero, add_zero] at h1
  rw [show 1 + ((1 + roundoff) ^ 2 - 1) = (1 + roundoff) ^ 2 by ring, hone, ← pow_mul, ← pow_add,
    show 2 * T + (2 * T + 1) = 4 * T + 1 by ring, ← mul_assoc] at h1
  exact h1

/-! ## Against runs in exact arithmetic -/

/-- One call in exact arithmetic, seen as a scaled step. -/
theorem real_call {O : Type} [Optimiser O ℝ] [UnitStep O] {n : Nat} {e : Event ℝ} {o o' : O} {w w' : List ℝ} (hf : e.Fits n)
    (hs : e.isStep = true) (h : History o w [e] o' w') :
    ∃ φ s, (∀ i, e.grad i = value φ i * s) ∧ (∀ i, e.raw i = value φ i) ∧ Fits n φ ∧
      Optimiser.stepScaled o w φ s = .ok (.ok (), o', w') := by
  cases h with
  | step h t =>
    cases t
    rw [UnitStep.unit] at h
    exact ⟨_, 1, fun i => (mul_one _).symm, fun i => rfl, hf, h⟩
  | stepScaled h t => cases t; exact ⟨_, _, fun i => rfl, fun i => rfl, hf, h⟩
  | reset t => cases hs

theorem exact_momentum {n : Nat} {μ l : ℝ} {os : Nat → SGDMomentum ℝ} {ws : Nat → List ℝ} {es : Nat → Event ℝ} (hr : OptRun os ws es)
    (ho : os 0 = SGDMomentum.new n μ l) (hw : (ws 0).length = n) (he : ∀ t, (es t).Fits n) (hs : ∀ t, (es t).isStep = true)
    {i : Nat} (hi : i < n) {g : Nat → ℝ} (hg : ∀ t, (es t).grad i = g t) (T : Nat) :
    entry (ws T) i = entry (ws 0) i + ∑ t ∈ Finset.range T, l * discounted μ g (t + 1) := by
  suffices h : ∀ T, ((os T).momentum = μ ∧ (os T).learningRate = l ∧ (os T).velocity.length = n ∧ (ws T).length = n) ∧
      entry (os T).velocity i = discounted μ g T ∧
      entry (ws T) i = entry (ws 0) i + ∑ t ∈ Finset.range T, l * discounted μ g (t + 1) from (h T).2.2
  intro T
  induction T with
  | zero =>
    rw [ho]
    refine ⟨⟨rfl, rfl, List.length_replicate, hw⟩, ?_, by simp⟩
    show entry (List.replicate n Scalar.zero) i = _
    rw [entry_replicate, real_zero]
    simp [discounted]
  | succ T ih =>
    obtain ⟨⟨h1, h2, h3, h4⟩, h5, h6⟩ := ih
    obtain ⟨φ, s, hg', ha', hφ, h⟩ := real_call (he T) (hs T) (hr T)
    obtain ⟨v, w', a1, a2, a3, a4⟩ := momentum_real hφ (os T) h3 s h4
    rw [h] at a1
    obtain ⟨b1, b2⟩ : os (T + 1) = { os T with velocity := v } ∧ ws (T + 1) = w' := by
      simp only [Except.ok.injEq, Prod.mk.injEq, true_and] at a1
      exact a1
    have hv : entry v i = discounted μ g (T + 1) := by
      rw [(a4 i hi).1, h1, h5, ← hg', hg, discounted_succ]
    rw [b1, b2]
    refine ⟨⟨h1, h2, a2, a3⟩, hv, ?_⟩
    rw [(a4 i hi).2, hv, h2, h6, Finset.sum_range_succ (fun t => l * discounted μ g (t + 1)) T]
    ring

theorem exact_nag {n : Nat} {μ l : ℝ} {os : Nat → NAG ℝ} {ws : Nat → List ℝ} {es : Nat → Event ℝ} (hr : OptRun os ws es)
    (ho : os 0 = NAG.new n μ l) (hw : (ws 0).length = n) (he : ∀ t, (es t).Fits n) (hs : ∀ t, (es t).isStep = true)
    {i : Nat} (hi : i < n) {g a : Nat → ℝ} (hg : ∀ t, (es t).grad i = g t) (ha : ∀ t, (es t).raw i = a t) (T : Nat) :
    entry (ws T) i = entry (ws 0) i + ∑ t ∈ Finset.range T, (l * discounted μ g (t + 1) + μ * a t) := by
  suffices h : ∀ T, ((os T).momentum = μ ∧ (os T).learningRate = l ∧ (os T).velocity.length = n ∧ (ws T).length = n) ∧
      entry (os T).velocity i = discounted μ g T ∧
      entry (ws T) i = entry (ws 0) i + ∑ t ∈ Finset.range T, (l * discounted μ g (t + 1) + μ * a t) from (h T).2.2
  intro T
  induction T with
  | zero =>
    rw [ho]
    refine ⟨⟨rfl, rfl, List.length_replicate, hw⟩, ?_, by simp⟩
    show entry (List.replicate n Scalar.zero) i = _
    rw [entry_replicate, real_zero]
    simp [discounted]
  | succ T ih =>
    obtain ⟨⟨h1, h2, h3, h4⟩, h5, h6⟩ := ih
    obtain ⟨φ, s, hg', ha', hφ, h⟩ := real_call (he T) (hs T) (hr T)
    obtain ⟨v, w', a1, a2, a3, a4⟩ := nag_real hφ (os T) h3 s h4
    rw [h] at a1
    obtain ⟨b1, b2⟩ : os (T + 1) = { os T with velocity := v } ∧ ws (T + 1) = w' := by
      simp only [Except.ok.injEq, Prod.mk.injEq, true_and] at a1
      exact a1
    have hv : entry v i = discounted μ g (T + 1) := by
      rw [(a4 i hi).1, h1, h5, ← hg', hg, discounted_succ]
    rw [b1, b2]
    refine ⟨⟨h1, h2, a2, a3⟩, hv, ?_⟩
    rw [(a4 i hi).2, hv, h2, h6, h1, ← ha', ha, Finset.sum_range_succ (fun t => (l * discounted μ g (t + 1) + μ * a t)) T]
    ring

/-- Momentum in `f64` against a run of the same optimiser in exact arithmetic on calls that present the same numbers. -/
theorem C172_momentum_exact_run (hM : M.rnd = binary64Format.rnd) (n : Nat) (m lr : FP M) (μ l : ℝ) (hm : Is m μ) (hμ : |μ| ≤ 1) (hl : Is lr l)
    (os : Nat → SGDMomentum (FP M)) (ws : Nat → List (FP M)) (es : Nat → Event (FP M)) (hr : OptRun os ws es)
    (ho : os 0 = SGDMomentum.new n m lr) (hw : (ws 0).length = n) (he : ∀ t, (es t).Fits n) (hs : ∀ t, (es t).isStep = true)
    (os' : Nat → SGDMomentum ℝ) (ws' : Nat → List ℝ) (es' : Nat → Event ℝ) (hr' : OptRun os' ws' es')
    (ho' : os' 0 = SGDMomentum.new n μ l) (hw' : (ws' 0).length = n) (he' : ∀ t, (es' t).Fits n) (hs' : ∀ t, (es' t).isStep = true)
    (T : Nat) (i : Nat) (hi : i < n) (h0 : entry (ws' 0) i = real (entry (ws 0) i)) (hg : ∀ t, (es' t).grad i = gradient i (es t))
    (hfin : Finite (entry (ws T) i)) :
    |real (entry (ws T) i) - entry (ws' T) i| ≤
      ((1 + roundoff) ^ (3 * T + 1) - 1) * (|real (entry (ws 0) i)| +
        ∑ t ∈ Finset.range T, |l| * discounted |μ| (fun s => |gradient i (es s)|) (t + 1)) +
      T * (1 + roundoff) ^ T * (2 * T * |l| * (1 + roundoff) ^ (2 * T + 1) + 1) * tiny := by
  rw [exact_momentum hr' ho' hw' he' hs' hi hg T, h0]
  exact (C172_momentum hM n m lr μ l hm hμ hl os ws es hr ho hw he hs T i hi hfin).2

/-- NAG in `f64` against a run of the same optimiser in exact arithmetic on calls that present the same numbers. -/
theorem C172_nag_exact_run (hM : M.rnd = binary64Format.rnd) (n : Nat) (m lr : FP M) (μ l : ℝ) (hm : Is m μ) (hμ : |μ| ≤ 1) (hl : Is lr l)
    (os : Nat → NAG (FP M)) (ws : Nat → List (FP M)) (es : Nat → Event (FP M)) (hr : OptRun os ws es)
    (ho : os 0 = NAG.new n m lr) (hw : (ws 0).length = n) (he : ∀ t, (es t).Fits n) (hs : ∀ t, (es t).isStep = true)
    (os' : Nat → NAG ℝ) (ws' : Nat → List ℝ) (es' : Nat → Event ℝ) (hr' : OptRun os' ws' es')
    (ho' : os' 0 = NAG.new n μ l) (hw' : (ws' 0).length = n) (he' : ∀ t, (es' t).Fits n) (hs' : ∀ t, (es' t).isStep = true)
    (T : Nat) (i : Nat) (hi : i < n) (h0 : entry (ws' 0) i = real (entry (ws 0) i)) (hg : ∀ t, (es' t).grad i = gradient i (es t))
    (ha : ∀ t, (es' t).raw i = presented i (es t)) (hfin : Finite (entry (ws T) i)) :
    |real (entry (ws T) i) - entry (ws' T) i| ≤
      ((1 + roundoff) ^ (4 * T + 1) - 1) * (|real (entry (ws 0) i)| +
        ∑ t ∈ Finset.range T, (|l| * discounted |μ| (fun s => |gradient i (es s)|) (t + 1) + |μ * presented i (es t)|)) +
      T * (1 + roundoff) ^ (2 * T) * (2 * T * |l| * (1 + roundoff) ^ (2 * T + 1) + 2) * tiny := by
  rw [exact_nag hr' ho' hw' he' hs' hi hg ha T, h0]
  exact (C172_nag hM n m lr μ l hm hμ hl os ws es hr ho hw he hs T i hi hfin).2

/-! ## When the weights stay finite -/

theorem run_history {K O : Type} [Scalar K] [Optimiser O K] {os : Nat → O} {ws : Nat → List K} {es : Nat → Event K} (hr : OptRun os ws es) (T : Nat) :
    History (os 0) (ws 0) ((List.range T).map es) (os T) (ws T) := by
  induction T with
  | zero => exact .nil _ _
  | succ T ih =>
    rw [List.range_succ, List.map_append]
    exact history_append ih (hr T)

/-- With momentum in `[0, 1)`, a rate in `[-1, 1]`, finite initial weights and bounded calls, the weights stay finite. -/
theorem C172_momentum_finite (hM : M.rnd = binary64Format.rnd) (n : Nat) (m lr : FP M) (hm : Decay m) (hlr : InUnit lr)
    (os : Nat → SGDMomentum (FP M)) (ws : Nat → List (FP M)) (es : Nat → Event (FP M)) (hr : OptRun os ws es)
    (ho : os 0 = SGDMomentum.new n m lr) (hw : (ws 0).length = n) (hw0 : ∀ a ∈ ws 0, Finite a) (he : ∀ t, (es t).Fits n)
    (hb : ∀ t, BoundedCall (es t)) (T : Nat) (i : Nat) (hi : i < n) : Finite (entry (ws T) i) := by
  obtain ⟨o', w', h1, -, h2, h3⟩ := C91_momentum hM m lr hm hlr (ws 0) hw hw0 ((List.range T).map es) (fun e h => by
    obtain ⟨t, -, rfl⟩ := List.mem_map.1 h
    exact ⟨he t, hb t⟩)
  have h4 := run_history hr T
  rw [ho] at h4
  obtain ⟨-, rfl⟩ := history_unique h4 h1
  refine h3 _ ?_
  show (ws T)[i]?.getD Scalar.zero ∈ _
  rw [List.getElem?_eq_getElem (h2 ▸ hi)]
  exact List.getElem_mem _

/-- With momentum in `[0, 1)`, a rate in `[-1, 1]`, finite initial weights and bounded calls, the weights stay finite. -/
theorem C172_nag_finite (hM : M.rnd = binary64Format.rnd) (n : Nat) (m lr : FP M) (hm : Decay m) (hlr : InUnit lr)
    (os : Nat → NAG (FP M)) (ws : Nat → List (FP M)) (es : Nat → Event (FP M)) (hr : OptRun os ws es)
    (ho : os 0 = NAG.new n m lr) (hw : (ws 0).length = n) (hw0 : ∀ a ∈ ws 0, Finite a) (he : ∀ t, (es t).Fits n)
    (hb : ∀ t, BoundedCall (es t)) (T : Nat) (i : Nat) (hi : i < n) : Finite (entry (ws T) i) := by
  obtain ⟨o', w', h1, -, h2, h3⟩ := C91_nag hM m lr hm hlr (ws 0) hw hw0 ((List.range T).map es) (fun e h => by
    obtain ⟨t, -, rfl⟩ := List.mem_map.1 h
    exact ⟨he t, hb t⟩)
  have h4 := run_history hr T
  rw [ho] at h4
  obtain ⟨-, rfl⟩ := history_unique h4 h1
  refine h3 _ ?_
  show (ws T)[i]?.getD Scalar.zero ∈ _
  rw [List.getElem?_eq_getElem (h2 ▸ hi)]
  exact List.getElem_mem _

/-- Momentum one half and rate one, with the gradients 1, -1, 1, -1, …: the weights stay finite, so the bounds apply for every `T`. -/
example (hM : M.rnd = binary64Format.rnd) (m : FP M) (hm : Is m (1 / 2)) (T : Nat) :
    ∃ (os : Nat → SGDMomentum (FP M)) (ws : Nat → List (FP M)) (es : Nat → Event (FP M)),
      OptRun os ws es ∧ os 0 = SGDMomentum.new 1 m Scalar.one ∧ ws 0 = [Scalar.zero] ∧ (∀ t, (es t).Fits 1) ∧
      (∀ t, (es t).isStep = true) ∧ (∀ t, gradient 0 (es t) = if t % 2 = 0 then 1 else -1) ∧ Finite (entry (ws T) 0) := by
  have hneg : (Scalar.neg (Scalar.one : FP M)).1 = .fin (-1) := by rw [val_neg, val_one]; rfl
  let es : Nat → Event (FP M) := fun t => .stepScaled (.dense [Scalar.one]) (if t % 2 = 0 then Scalar.one else Scalar.neg Scalar.one)
  have he : ∀ t, (es t).Fits 1 := fun t => ⟨trivial, rfl⟩
  have hsc : ∀ t : Nat, Is (if t % 2 = 0 then Scalar.one else Scalar.neg Scalar.one : FP M) (if t % 2 = 0 then 1 else -1) := by
    intro t
    by_cases h : t % 2 = 0
    · rw [if_pos h, if_pos h]; exact val_one
    · rw [if_neg h, if_neg h]; exact hneg
  obtain ⟨os, ws, ho, hw, hr⟩ := optRun_exists (O := SGDMomentum (FP M)) (n := 1) es he (o := SGDMomentum.new 1 m Scalar.one)
    (List.length_replicate ..) (w := [Scalar.zero]) rfl
  have hg : ∀ t, gradient 0 (es t) = (if t % 2 = 0 then 1 else -1 : ℝ) := fun t => by
    show real (Scalar.one : FP M) * real (if t % 2 = 0 then _ else _) = _
    rw [is_real (val_one (M := M)), is_real (hsc t), one_mul]
  refine ⟨os, ws, es, hr, ho, hw, he, fun _ => rfl, hg, ?_⟩
  refine C172_momentum_finite hM 1 m Scalar.one ⟨1 / 2, hm, by norm_num, by norm_num⟩ ⟨1, val_one, by simp⟩ os ws es hr ho (by rw [hw]; rfl)
    (fun a ha => by rw [hw] at ha; rw [List.mem_singleton.1 ha]; exact finite_zero) he (fun t => ?_) T 0 (by norm_num)
  refine ⟨⟨_, hsc t⟩, fun i a h => ?_⟩
  have ha : a = Scalar.one := by
    have h : [(Scalar.one : FP M)][i]? = some a := h
    rcases i with _ | i
    · injection h with h; exact h.symm
    · simp at h
  subst ha
  have h1 : (1 : ℝ) ≤ 2 ^ 500 := one_le_pow₀ (by norm_num)
  refine ⟨⟨1, val_one, by simpa using h1⟩, if t % 2 = 0 then 1 else -1, ?_, ?_⟩
  · show (_ *. _ : FP M).1 = _
    rw [val_mul, val_one, hsc t]
    show M.rnd (1 * _) = _
    rw [one_mul]
    exact (if t % 2 = 0 then Scalar.one else Scalar.neg Scalar.one : FP M).2 _ (hsc t)
  · split_ifs <;> simpa using h1

end Lfa

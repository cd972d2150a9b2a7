import Verif.Props.C181
import Verif.Proofs.Steps

/-!
# C190: Momentum and NAG in double precision stay near exact training for ever

C181 for Momentum and NAG: if the inputs keep exploring every direction of the weights, rounding errors are forgotten, and training in
`f64` stays within a fixed distance of exact training, for ever.
-/

set_option linter.unusedSectionVars false

namespace Lfa

open Spec Machine XReal

variable {M : Machine}

/-- From every call on, `L` calls of exact Momentum with features `g t` and targets zero, from any weights `us` and velocities `vs`,
multiply the distance of C154 from zero by at most `r`. -/
def Spec.MomentumPersistent (n L : Nat) (g : Nat → Nat → ℝ) (μ l r : ℝ) : Prop :=
  ∀ (s : Nat) (us vs : Nat → Nat → ℝ),
    (∀ k < L, ∀ i < n, vs (k + 1) i = μ * vs k i - g (s + k) i * ∑ j ∈ Finset.range n, g (s + k) j * us k j) →
    (∀ k < L, ∀ i < n, us (k + 1) i = us k i + l * vs (k + 1) i) →
    energyLen n μ l (us L) (fun i => -vs L i) ≤ r * energyLen n μ l (us 0) (fun i => -vs 0 i)

noncomputable section

/-! ## Exact steps -/

/-- One exact call with target zero on weights and negated velocities. -/
def moveStep (n : Nat) (μ l : ℝ) (f : Nat → ℝ) (x : (Nat → ℝ) × (Nat → ℝ)) : (Nat → ℝ) × (Nat → ℝ) :=
  (fun i => x.1 i - l * (μ * x.2 i + f i * ∑ j ∈ Finset.range n, f j * x.1 j),
    fun i => μ * x.2 i + f i * ∑ j ∈ Finset.range n, f j * x.1 j)

theorem moveStep_add (n : Nat) (μ l : ℝ) (f : Nat → ℝ) (x y : (Nat → ℝ) × (Nat → ℝ)) :
    moveStep n μ l f (x + y) = moveStep n μ l f x + moveStep n μ l f y := by
  have e : ∑ j ∈ Finset.range n, f j * (x + y).1 j =
      ∑ j ∈ Finset.range n, f j * x.1 j + ∑ j ∈ Finset.range n, f j * y.1 j := by
    rw [← Finset.sum_add_distrib]
    exact Finset.sum_congr rfl fun j _ => mul_add _ _ _
  have e1 : ∀ i, (x + y).1 i = x.1 i + y.1 i := fun _ => rfl
  have e2 : ∀ i, (x + y).2 i = x.2 i + y.2 i := fun _ => rfl
  refine Prod.ext (funext fun i => ?_) (funext fun i => ?_)
  · show (x + y).1 i - l * (μ * (x + y).2 i + f i * _) = (x.1 i - _) + (y.1 i - _)
    rw [e, e1, e2]
    ring
  · show μ * (x + y).2 i + f i * _ = (μ * x.2 i + _) + (μ * y.2 i + _)
    rw [e, e2]
    ring

theorem momentum_steps {n L : Nat} {g : Nat → Nat → ℝ} {μ l r : ℝ} (h : MomentumPersistent n L g μ l r) (s : Nat)
    (x : (Nat → ℝ) × (Nat → ℝ)) :
    energyLen n μ l (steps (fun t => moveStep n μ l (g t)) s x L).1 (steps (fun t => moveStep n μ l (g t)) s x L).2 ≤
      r * energyLen n μ l x.1 x.2 := by
  have := h s (fun k => (steps (fun t => moveStep n μ l (g t)) s x k).1)
    (fun k i => -(steps (fun t => moveStep n μ l (g t)) s x k).2 i) (fun k _ i _ => by
      show -(μ * (steps _ s x k).2 i + _) = _
      ring) (fun k _ i _ => by
      show (steps _ s x k).1 i - l * (μ * (steps _ s x k).2 i + _) = (steps _ s x k).1 i + l * -(μ * (steps _ s x k).2 i + _)
      ring)
  simp only [_root_.neg_neg] at this
  exact this

theorem momentumPersistent_congr {n L : Nat} {g g' : Nat → Nat → ℝ} {μ l r : ℝ} (h : MomentumPersistent n L g μ l r)
    (hg : ∀ t, ∀ i < n, g t i = g' t i) : MomentumPersistent n L g' μ l r := by
  refine fun s us vs hvs hus => h s us vs (fun k hk i hi => ?_) hus
  rw [hvs k hk i hi, hg _ i hi, Finset.sum_congr rfl fun j hj => by rw [← hg _ j (Finset.mem_range.1 hj)]]

/-- The velocities are within `(1 - μ) / (l √μ)` of the distance. -/
theorem velocity_le_energyLen (n : Nat) {μ l : ℝ} (h0 : 0 ≤ μ) (h1 : μ < 1) (hl : 0 ≤ l) (d u : Nat → ℝ) :
    l / (1 - μ) * μ * len n u ≤ energyLen n μ l d u := by
  have hm : 0 < 1 - μ := by linarith
  have s0 := Real.sqrt_nonneg μ
  have s1 : √μ ≤ 1 := Real.sqrt_le_one.2 h1.le
  have hb : 0 ≤ l / (1 - μ) * √μ * len n u := mul_nonneg (mul_nonneg (div_nonneg hl hm.le) s0) (len_nonneg _ _)
  have h2 : l / (1 - μ) * √μ * len n u ≤ energyLen n μ l d u := by
    refine Real.le_sqrt_of_sq_le ?_
    have := sq_nonneg (len n fun i => d i - μ * (l / (1 - μ)) * u i)
    linarith
  refine le_trans (le_of_eq_of_le ?_ (mul_le_of_le_one_left hb s1)) h2
  have e := Real.mul_self_sqrt h0
  linear_combination (-(l / (1 - μ) * len n u)) * e

theorem energyLen_le (n : Nat) {μ l : ℝ} (h0 : 0 ≤ μ) (h1 : μ < 1) (hl : 0 ≤ l) (d u : Nat → ℝ) :
    energyLen n μ l d u ≤ len n d + 2 * (l / (1 - μ)) * len n u := by
  have hm : 0 < 1 - μ := by linarith
  have ha : 0 ≤ l / (1 - μ) := div_nonneg hl hm.le
  have s0 := Real.sqrt_nonneg μ
  have s1 : √μ ≤ 1 := Real.sqrt_le_one.2 h1.le
  have hu := len_nonneg n u
  have hh : ∀ x y : ℝ, 0 ≤ x → 0 ≤ y → √(x ^ 2 + y ^ 2) ≤ x + y := fun x y hx hy =>
    Real.sqrt_le_iff.2 ⟨by positivity, by nlinarith⟩
  refine (hh _ _ (len_nonneg _ _) (by positivity)).trans ?_
  have h2 : len n (fun i => d i - μ * (l / (1 - μ)) * u i) ≤ len n d + μ * (l / (1 - μ)) * len n u := by
    refine le_trans (le_of_eq (len_congr fun i _ => ?_)) ((len_add_le n d fun i => -(μ * (l / (1 - μ))) * u i).trans
      (le_of_eq ?_))
    · ring
    · rw [len_smul', abs_neg, abs_of_nonneg (by positivity)]
  have h3 : l / (1 - μ) * √μ * len n u ≤ l / (1 - μ) * len n u :=
    mul_le_mul_of_nonneg_right (mul_le_of_le_one_right ha s1) hu
  have h4 : μ * (l / (1 - μ)) * len n u ≤ l / (1 - μ) * len n u :=
    mul_le_mul_of_nonneg_right (mul_le_of_le_one_left ha h1.le) hu
  linarith

/-! ## What rounding adds in one call -/

/-- The errors of one call, in numbers: `A = ‖φ‖`, `w` and `v` the lengths of weights and velocities, `v'` that of the new velocities. -/
theorem momentum_round {u τ A N w v v' Y e p D a l μ ρ m q s V : ℝ} {k : Nat} (u0 : 0 < u) (uk : 24 * k * u ≤ 1) (u1 : 200 * u ≤ 1)
    (A0 : 0 ≤ A) (w0 : 0 ≤ w) (v0 : 0 ≤ v) (Y0 : 0 ≤ Y) (a0 : 0 ≤ a) (μ0 : 0 ≤ μ) (l0 : 0 ≤ l) (hla : l ≤ a) (τ0 : 0 ≤ τ)
    (hN0 : 0 ≤ N) (hw : w ≤ 3 / 2 * N) (hv : a * μ * v ≤ N) (hA : a * A ^ 2 ≤ 2) (hD : ρ * A + 2 * a * A * Y ≤ D) (hρ : 0 ≤ ρ)
    (he : e ≤ Y + A * w + p) (hp : p ≤ 2 * k * u * (A * w) + q) (hq : a * A * q ≤ τ) (hs : a * s ≤ τ) (s0 : 0 ≤ s)
    (hV : V ≤ ((1 + u) ^ 2 - 1) * μ * v + A * (((1 + u) ^ 3 - 1) * e + p) + 2 * (1 + u) * s)
    (hv' : v' ≤ μ * v + A * (Y + A * w) + V)
    (hm : m ≤ 3 * u * w + 4 * u * (l * v') + 3 * u * (ρ * A) + 3 * s) {η : ℝ} (hη : 30 * τ + 3 * s ≤ η) :
    m + 2 * (a * V) ≤ (12 * k + 60) * u * (N + D) + η := by
  have k0 : (0 : ℝ) ≤ k := k.cast_nonneg
  have hD0 : 0 ≤ D := le_trans (by positivity) hD
  have g2 : (1 + u) ^ 2 - 1 ≤ 3 * u := by nlinarith
  have g3 : (1 + u) ^ 3 - 1 ≤ 4 * u := by nlinarith [mul_pos u0 u0]
  have g30 : 0 ≤ (1 + u) ^ 3 - 1 := sub_nonneg.2 (one_le_pow₀ (by linarith))
  have aA : 0 ≤ a * A := mul_nonneg a0 A0
  have hAw : a * A ^ 2 * w ≤ 3 * N := by
    have := mul_le_mul_of_nonneg_right hA w0
    linarith
  have hY : a * A * Y ≤ D / 2 := by
    have := mul_nonneg hρ A0
    linarith
  have hρA : ρ * A ≤ D := by
    have := mul_nonneg aA Y0
    linarith
  have hP : a * A * p ≤ 6 * k * u * N + τ := by
    have h1 := mul_le_mul_of_nonneg_left hp aA
    have h2 := mul_le_mul_of_nonneg_left hAw (by positivity : 0 ≤ 2 * k * u)
    linarith
  have hE : a * A * e ≤ D / 2 + 3 * N + (6 * k * u * N + τ) := by
    have := mul_le_mul_of_nonneg_left he aA
    linarith
  have kuN : 24 * k * u * N ≤ N := mul_le_of_le_one_left hN0 uk
  have kuN' := mul_le_mul_of_nonneg_left kuN u0.le
  have hV' : a * V ≤ u * ((16 + 6 * k) * N + 2 * D) + 6 * τ := by
    have h1 := mul_le_mul_of_nonneg_left hV a0
    have h2 : ((1 + u) ^ 2 - 1) * (a * μ * v) ≤ 3 * u * N :=
      mul_le_mul g2 hv (by positivity) (by positivity)
    have h3 : ((1 + u) ^ 3 - 1) * (a * A * e) ≤ 4 * u * (D / 2 + 3 * N + (6 * k * u * N + τ)) :=
      (mul_le_mul_of_nonneg_left hE g30).trans (mul_le_mul_of_nonneg_right g3 (by positivity))
    have h4 : 2 * (1 + u) * (a * s) ≤ 3 * τ := mul_le_mul (by linarith) hs (by positivity) (by norm_num)
    have h5 := mul_le_mul_of_nonneg_right u1 τ0
    linarith
  have hlv : l * v' ≤ 5 * N + D + 6 * τ := by
    have h1 := mul_le_mul_of_nonneg_left hv' l0
    have h2 : l * (μ * v + A * (Y + A * w)) ≤ a * (μ * v + A * (Y + A * w)) := mul_le_mul_of_nonneg_right hla (by positivity)
    have h3 : l * V ≤ u * ((16 + 6 * k) * N + 2 * D) + 6 * τ := by
      rcases le_total 0 V with h | h
      · exact (mul_le_mul_of_nonneg_right hla h).trans hV'
      · exact (mul_nonpos_of_nonneg_of_nonpos l0 h).trans (by positivity)
    have h4 := mul_le_mul_of_nonneg_right u1 hN0
    have h5 := mul_le_mul_of_nonneg_right u1 hD0
    linarith
  have h1 := mul_le_mul_of_nonneg_left hw (by positivity : 0 ≤ 3 * u)
  have h2 := mul_le_mul_of_nonneg_left hlv (by positivity : 0 ≤ 4 * u)
  have h3 := mul_le_mul_of_nonneg_left hρA (by positivity : 0 ≤ 3 * u)
  have h4 := mul_le_mul_of_nonneg_right u1 τ0
  have h5 : 0 ≤ u * D := by positivity
  have h6 : 0 ≤ u * N := by positivity
  have h7 : 0 ≤ k * (u * D) := by positivity
  linarith

set_option exponentiation.threshold 300 in
/-- One call: `e` is the error in the weights, `d` that in the velocities. -/
theorem momentum_call {n k : Nat} {φ : Features (FP M)} {y p m : FP M} (h : Moderate n k φ y) (hf : Fits n φ)
    {w v v' : List (FP M)} (hp : ∃ r, Is p r ∧ |r - exactDot φ w| ≤ predictionError φ w) {μ l ρ D : ℝ} (hm : real m = μ)
    (h0 : 0 ≤ μ) (h1 : μ < 1) (l0 : 0 < l) (l1 : l ≤ 2 ^ 100 * (1 - μ)) (hρ : 0 ≤ ρ)
    (h2 : l * (∑ i ∈ Finset.range n, real (value φ i) ^ 2) * (1 + μ) ≤ 2 * (1 - μ) ^ 2)
    (hD : ρ * len n (fun i => real (value φ i)) + 2 * (l / (1 - μ)) * len n (fun i => real (value φ i)) * |real y| ≤ D)
    {e d : Nat → ℝ} (hd : ∀ i < n, d i = real (entry v' i) - (real m * real (entry v i) + real (value φ i) * (real y - exactDot φ w)))
    (hdv : len n d ≤ velocityError n m φ v w y p)
    (he : len n e ≤ 3 * roundoff * len n (fun i => real (entry w i)) + 4 * roundoff * (l * len n (fun i => real (entry v' i))) +
      3 * roundoff * (ρ * len n (fun i => real (value φ i))) + 3 * (√n * tiny)) :
    energyLen n μ l (fun i => l * d i + e i) (fun i => -d i) ≤ (12 * k + 60) * roundoff *
      (energyLen n μ l (fun i => real (entry w i)) (fun i => -real (entry v i)) + D) + 2 ^ (-800 : ℤ) := by
  have hm1 : 0 < 1 - μ := by linarith
  have ha : 0 < l / (1 - μ) := div_pos l0 hm1
  have ha1 : l / (1 - μ) ≤ 2 ^ 100 := by rwa [div_le_iff₀ hm1]
  have hu := roundoff_pos
  have ht := tiny_pos
  have hk : (k : ℝ) ≤ 2 ^ 40 := by exact_mod_cast h.count.2
  have hA := features_len h hf
  have hA0 := len_nonneg n fun i => real (value φ i)
  have hn : √(n : ℝ) ≤ 2 ^ 20 := sqrt_count h.size
  have hsq : √(1 + μ) ≤ 3 / 2 := Real.sqrt_le_iff.2 ⟨by norm_num, by linarith⟩
  have neg : ∀ f : Nat → ℝ, len n (fun i => -f i) = len n f := fun f => by unfold len; simp only [neg_sq]
  have hla : l ≤ l / (1 - μ) := by
    rw [le_div_iff₀ hm1]
    nlinarith
  -- the distance
  have b1 := energyLen_err n h1 l0.le (fun i => -e i) (fun i => -d i)
  rw [neg, neg] at b1
  have e1 : energyLen n μ l (fun i => l * d i + e i) (fun i => -d i) =
      energyLen n μ l (fun i => -(l * -d i + -e i)) (fun i => -d i) :=
    energyLen_congr (fun i _ => by ring) fun _ _ => rfl
  rw [e1]
  refine b1.trans ?_
  have s1 : 1 + √μ ≤ 2 := by linarith [Real.sqrt_le_one.2 h1.le]
  have b2 : l / (1 - μ) * (1 + √μ) * len n d ≤ 2 * (l / (1 - μ) * len n d) := by
    have := mul_le_mul_of_nonneg_right s1 (mul_nonneg ha.le (len_nonneg n d))
    linarith
  refine (add_le_add le_rfl b2).trans ?_
  have hN := len_le_energyLen n h0 h1 l0.le (fun i => real (entry w i)) (fun i => -real (entry v i))
  have hV := velocity_le_energyLen n h0 h1 l0.le (fun i => real (entry w i)) (fun i => -real (entry v i))
  have hN0 := energyLen_nonneg n μ l (fun i => real (entry w i)) (fun i => -real (entry v i))
  rw [neg] at hV
  have hdot : |exactDot φ w| ≤ len n (fun i => real (value φ i)) * len n (fun i => real (entry w i)) := by
    unfold exactDot
    rw [hf.2]
    exact abs_sum_mul_le_len n _ _
  have hE : |real y - real p| ≤ |real y| + len n (fun i => real (value φ i)) * len n (fun i => real (entry w i)) +
      predictionError φ w := by
    obtain ⟨r, hr, hv⟩ := hp
    rw [is_real hr]
    have e1 := abs_sub_le (real y) 0 r
    have e2 := abs_add_le (r - exactDot φ w) (exactDot φ w)
    rw [sub_add_cancel] at e2
    rw [sub_zero, zero_sub, abs_neg] at e1
    linarith
  have hv' : len n (fun i => real (entry v' i)) ≤ μ * len n (fun i => real (entry v i)) +
      len n (fun i => real (value φ i)) * (|real y| + len n (fun i => real (value φ i)) * len n (fun i => real (entry w i))) +
      len n d := by
    refine le_trans (le_of_eq (len_congr fun i hi => ?_)) ((len_add_le n (fun i => μ * real (entry v i) +
      (real y - exactDot φ w) * real (value φ i)) d).trans (add_le_add ((len_add_le n _ _).trans (add_le_add ?_ ?_)) le_rfl))
    · rw [hd i hi, hm]
      ring
    · rw [len_smul h0]
    · rw [len_smul', mul_comm]
      refine mul_le_mul_of_nonneg_left ?_ hA0
      have e1 := abs_sub_le (real y) 0 (exactDot φ w)
      rw [sub_zero, zero_sub, abs_neg] at e1
      linarith
  have hA2 : l / (1 - μ) * len n (fun i => real (value φ i)) ^ 2 ≤ 2 := by
    rw [len_sq, div_mul_eq_mul_div, div_le_iff₀ hm1]
    have S0 : 0 ≤ l * ∑ i ∈ Finset.range n, real (value φ i) ^ 2 := mul_nonneg l0.le (Finset.sum_nonneg fun _ _ => sq_nonneg _)
    nlinarith
  unfold velocityError at hdv
  rw [hm, abs_of_nonneg h0] at hdv
  refine momentum_round (u := roundoff) (τ := 2 ^ 262 * tiny) (A := len n (fun i => real (value φ i)))
    (N := energyLen n μ l (fun i => real (entry w i)) (fun i => -real (entry v i))) (w := len n (fun i => real (entry w i)))
    (v := len n (fun i => real (entry v i))) (v' := len n (fun i => real (entry v' i))) (Y := |real y|) (e := |real y - real p|)
    (p := predictionError φ w) (D := D) (a := l / (1 - μ)) (l := l) (μ := μ) (ρ := ρ) (m := len n e) (q := 2 * k * tiny)
    (s := √n * tiny) (V := len n d) (k := k) hu ?_ ?_ hA0 (len_nonneg _ _) (len_nonneg _ _) (abs_nonneg _) ha.le h0 l0.le hla
    (by positivity) hN0 ?_ hV hA2 hD hρ hE (predictionError_le hf w h.count.1 h.count.2) ?_ ?_ (by positivity) ?_ hv' he ?_
  · have : 24 * (2 : ℝ) ^ 40 * roundoff ≤ 1 := by rw [roundoff]; norm_num
    have := mul_le_mul_of_nonneg_right hk hu.le
    linarith
  · rw [roundoff]; norm_num
  · exact hN.trans (mul_le_mul_of_nonneg_right hsq hN0)
  · have c1 : l / (1 - μ) * len n (fun i => real (value φ i)) ≤ 2 ^ 100 * 2 ^ 120 := mul_le_mul ha1 hA hA0 (by positivity)
    have c2 : 2 * (k : ℝ) * tiny ≤ 2 ^ 41 * tiny := mul_le_mul_of_nonneg_right (by linarith) ht.le
    refine (mul_le_mul c1 c2 (by positivity) (by positivity)).trans ?_
    rw [← mul_assoc, ← pow_add, ← pow_add]
    exact mul_le_mul_of_nonneg_right (pow_le_pow_right₀ (by norm_num) (by norm_num)) ht.le
  · have c1 : √(n : ℝ) * tiny ≤ 2 ^ 20 * tiny := mul_le_mul_of_nonneg_right hn ht.le
    refine (mul_le_mul ha1 c1 (by positivity) (by positivity)).trans ?_
    rw [← mul_assoc, ← pow_add]
    exact mul_le_mul_of_nonneg_right (pow_le_pow_right₀ (by norm_num) (by norm_num)) ht.le
  · refine hdv.trans (le_of_eq ?_)
    ring
  · have c1 : √(n : ℝ) * tiny ≤ 2 ^ 20 * tiny := mul_le_mul_of_nonneg_right hn ht.le
    refine le_trans ?_ tiny_moderate
    have c2 : 30 * (2 ^ 262 * tiny) + 3 * (2 ^ 20 * tiny) ≤ tiny * 2 ^ 270 := by
      rw [show 30 * (2 ^ 262 * tiny) + 3 * (2 ^ 20 * tiny) = tiny * (30 * 2 ^ 262 + 3 * 2 ^ 20) by ring]
      refine mul_le_mul_of_nonneg_left ?_ ht.le
      rw [show (2 : ℝ) ^ 270 = 2 ^ 200 * 2 ^ 70 by rw [← pow_add], show (2 : ℝ) ^ 262 = 2 ^ 200 * 2 ^ 62 by rw [← pow_add]]
      norm_num
    exact (add_le_add le_rfl (mul_le_mul_of_nonneg_left c1 (by norm_num))).trans c2

theorem value_bound {n : Nat} {φ : Features (FP M)} (hφ : Fits n φ) {c : ℝ} (h0 : 0 ≤ c)
    (h : ∀ i x, Stored φ i x → Bounded c x) (i : Nat) : Bounded c (value φ i) := by
  by_cases ha : Active φ i
  · obtain ⟨a, ha⟩ := ha
    rw [value_of_stored (keysUnique_of_wf hφ.1) ha]
    exact h i a ha
  · rw [value_inactive hφ ha]
    exact bounded_zero h0

/-- The new velocities of a moderate call. -/
theorem velocity_bound (hM : M.rnd = binary64Format.rnd) {n : Nat} {φ : Features (FP M)} (hφ : Fits n φ) {m y p : FP M}
    {v v' : List (FP M)} (hv : v.length = n) (h : velocityUpdate m v φ (y -. p) = .ok v') (hm : Spec.Finite m)
    (hx : ∀ i x, Stored φ i x → Bounded (2 ^ 100) x) (hy : Bounded (2 ^ 100) y) (hp : Bounded (2 ^ 400) p)
    (hf : ∀ i < n, Spec.Finite (entry v i)) (hb : ∀ i < n, |real m * real (entry v i)| ≤ 2 ^ 501) :
    ∀ i < n, Bounded (2 ^ 502) (entry v' i) := by
  obtain ⟨v₁, h1, -, h2⟩ := velocityUpdate_any hφ m (y -. p) hv
  rw [h] at h1
  injection h1 with h1
  subst h1
  intro i hi
  have b1 := (bounded_add_pow hM (k := 400) (by norm_num)
    (bounded_mono hy (pow_le_pow_right₀ (by norm_num) (by norm_num))) hp).2
  have b2 : Bounded (2 ^ 501) (value φ i *. (y -. p)) :=
    bounded_mul_pow hM (j := 100) (k := 401) (by norm_num) (value_bound hφ (by positivity) hx i) b1
  obtain ⟨c, hc⟩ := hm
  obtain ⟨d, hd⟩ := hf i hi
  have hb := hb i hi
  rw [is_real hc, is_real hd] at hb
  have b3 : Bounded (2 ^ 501) (m *. entry v i) :=
    bounded_rnd (x := c * d) (by rw [val_mul, hc, hd]; rfl) hb (rnd_two_pow hM (by norm_num))
  have b4 : Bounded (2 ^ 501) (entry v i *. m) :=
    bounded_rnd (x := d * c) (by rw [val_mul, hc, hd]; rfl) (by rwa [mul_comm]) (rnd_two_pow hM (by norm_num))
  rcases h2 i hi with h | ⟨-, h⟩ | ⟨-, h⟩ <;> rw [h]
  · exact (bounded_add_pow hM (by norm_num) b3 b2).1
  · exact bounded_mono b4 (pow_le_pow_right₀ (by norm_num) (by norm_num))
  · exact (bounded_add_pow hM (by norm_num) b4 b2).1

/-! ## Whole runs -/

theorem shadow_prediction {A w E W D ε η c r L p τ : ℝ} (A0 : 0 ≤ A) (w0 : 0 ≤ w) (hw : w ≤ 3 / 2 * (E + W)) (hc : c ≤ ε)
    (ε0 : 0 ≤ ε) (hε1 : ε ≤ 1 / 4) (W0 : 0 ≤ W) (D0 : 0 ≤ D) (η0 : 0 ≤ η) (E0 : 0 ≤ E) (r0 : 0 ≤ r) (d : 0 < 1 - r)
    (L1 : 1 ≤ L) (hE : E = 10 * L * (ε * (W + D) + η) / (1 - r)) (hp : p ≤ c * (A * w) + τ) :
    A * (3 / 2 * E) + p ≤ 5 * (A * E) + τ := by
  have h5 : c * (A * w) ≤ ε * (A * (3 / 2 * (E + W))) :=
    mul_le_mul hc (mul_le_mul_of_nonneg_left hw A0) (mul_nonneg A0 w0) ε0
  have b0 : 0 ≤ ε * (W + D) + η := by positivity
  have h6 : 10 * (ε * W) ≤ E := by
    rw [hE, le_div_iff₀ d]
    have a1 : ε * W * (1 - r) ≤ ε * W := mul_le_of_le_one_right (by positivity) (by linarith)
    have a2 := mul_nonneg ε0 D0
    have a3 := mul_le_mul_of_nonneg_right L1 b0
    linarith
  have h7 : ε * (3 / 2 * (E + W)) ≤ 2 * E := by
    have := mul_le_mul_of_nonneg_right hε1 E0
    linarith
  have h8 := mul_le_mul_of_nonneg_left h7 A0
  have h9 := mul_nonneg A0 E0
  linarith

/-- Weights `ws` and velocities `vs` moved by moderate calls beside exact ones, for ever. The calls also add `ρ` times the features. -/
theorem momentum_shadow (hM : M.rnd = binary64Format.rnd) {n k L : Nat} {ws vs : Nat → List (FP M)} {us xs : Nat → Nat → ℝ}
    {m : FP M} {ys ps : Nat → FP M} {φ : Nat → Features (FP M)} {μ l ρ D r : ℝ} (hmod : ∀ t, Moderate n k (φ t) (ys t))
    (hφ : ∀ t, Fits n (φ t)) (hw : ∀ t, (ws t).length = n) (hv : ∀ t, (vs t).length = n)
    (hdot : ∀ t, (φ t).dot (ws t) = .ok (ps t)) (hvel : ∀ t, velocityUpdate m (vs t) (φ t) (ys t -. ps t) = .ok (vs (t + 1)))
    (hm : Is m μ) (h0 : 0 ≤ μ) (h1 : μ < 1) (l0 : 2 ^ (-100 : ℤ) ≤ l) (l1 : l ≤ 2 ^ 100 * (1 - μ)) (hρ : 0 ≤ ρ)
    (hfin : ∀ t, (∀ i < n, Bounded (2 ^ 252) (entry (ws t) i)) → (∀ i < n, Bounded (2 ^ 502) (entry (vs (t + 1)) i)) →
      ∀ i < n, Spec.Finite (entry (ws (t + 1)) i))
    (herr : ∀ t, (∀ i < n, Spec.Finite (entry (ws (t + 1)) i)) →
      len n (fun i => real (entry (ws (t + 1)) i) -
        (real (entry (ws t) i) + l * real (entry (vs (t + 1)) i) + ρ * real (value (φ t) i))) ≤
      3 * roundoff * len n (fun i => real (entry (ws t) i)) + 4 * roundoff * (l * len n (fun i => real (entry (vs (t + 1)) i))) +
        3 * roundoff * (ρ * len n (fun i => real (value (φ t) i))) + 3 * (√n * tiny))
    (hxs : ∀ t, ∀ i < n, xs (t + 1) i = μ * xs t i +
      real (value (φ t) i) * (real (ys t) - ∑ j ∈ Finset.range n, real (value (φ t) j) * us t j))
    (hus : ∀ t, ∀ i < n, us (t + 1) i = us t i + l * xs (t + 1) i + ρ * real (value (φ t) i))
    (hu0 : ∀ i < n, us 0 i = real (entry (ws 0) i) ∧ Bounded (2 ^ 100) (entry (ws 0) i))
    (hx0 : ∀ i < n, xs 0 i = real (entry (vs 0) i) ∧ Bounded (2 ^ 100) (entry (vs 0) i))
    (h2 : ∀ t, l * (∑ i ∈ Finset.range n, real (value (φ t) i) ^ 2) * (1 + μ) ≤ 2 * (1 - μ) ^ 2)
    (hD : ∀ t, ρ * len n (fun i => real (value (φ t) i)) +
      2 * (l / (1 - μ)) * len n (fun i => real (value (φ t) i)) * |real (ys t)| ≤ D) (hD1 : D ≤ 2 ^ 190)
    (r0 : 0 ≤ r) (Lpos : 0 < L) (hr : MomentumPersistent n L (fun t i => real (value (φ t) i)) μ l r)
    (hL : L * (12 * k + 60) * 2 ^ (-51 : ℤ) ≤ 1 - r) (t : Nat) {W E : ℝ}
    (hW : W = 2 * energyLen n μ l (us 0) (fun i => -xs 0 i) + 10 * L * D / (1 - r))
    (hE : E = 10 * L * ((12 * k + 60) * 2 ^ (-53 : ℤ) * (W + D) + 2 ^ (-800 : ℤ)) / (1 - r)) :
    (∀ i < n, Spec.Finite (entry (ws t) i) ∧ Spec.Finite (entry (vs t) i)) ∧ Spec.Finite (ps t) ∧
    energyLen n μ l (us t) (fun i => -xs t i) ≤ W ∧
    energyLen n μ l (fun i => real (entry (ws t) i) - us t i) (fun i => -(real (entry (vs t) i) - xs t i)) ≤ E ∧
    len n (fun i => real (value (φ t) i)) * (3 / 2 * E) + predictionError (φ t) (ws t) ≤
      5 * (len n (fun i => real (value (φ t) i)) * E) + 2 ^ (-1034 : ℤ) := by
  have hu := roundoff_pos
  have k0 : (0 : ℝ) ≤ k := k.cast_nonneg
  have lp : 0 < l := lt_of_lt_of_le (by positivity) l0
  have hm1 : 0 < 1 - μ := by linarith
  have ha : 0 < l / (1 - μ) := div_pos lp hm1
  have hla : l ≤ l / (1 - μ) := by
    rw [le_div_iff₀ hm1]
    nlinarith
  have e51 : (2 : ℝ) ^ (-51 : ℤ) = 4 * roundoff := by rw [roundoff]; norm_num
  have e53 : (2 : ℝ) ^ (-53 : ℤ) = roundoff := by rw [roundoff]
  obtain ⟨ε, hε⟩ : ∃ ε, ε = (12 * k + 60) * roundoff := ⟨_, rfl⟩
  obtain ⟨η, hη⟩ : ∃ η : ℝ, η = 2 ^ (-800 : ℤ) := ⟨_, rfl⟩
  rw [e51] at hL
  rw [e53, ← hε, ← hη] at hE
  have hL : 4 * (L * ε) ≤ 1 - r := by rw [hε]; linarith
  have εu : 60 * roundoff ≤ ε := by rw [hε]; nlinarith
  have ε0 : 0 < ε := by linarith
  have η0 : 0 ≤ η := by rw [hη]; positivity
  have hηε : η ≤ ε := by rw [hη, hε]; exact tiny_rate (by linarith) (by norm_num)
  have L1 : (1 : ℝ) ≤ L := by exact_mod_cast Lpos
  have d : 0 < 1 - r := lt_of_lt_of_le (by positivity) hL
  have hε1 : ε ≤ 1 / 4 := by nlinarith
  have D0 : 0 ≤ D := le_trans (add_nonneg (mul_nonneg hρ (len_nonneg _ _)) (mul_nonneg (mul_nonneg (by linarith) (len_nonneg _ _))
    (abs_nonneg _))) (hD 0)
  have W0 : 0 ≤ W := by rw [hW]; have := energyLen_nonneg n μ l (us 0) (fun i => -xs 0 i); positivity
  have β0 : 0 ≤ ε * (W + D) + η := by positivity
  have E0 : 0 ≤ E := by rw [hE]; positivity
  have hsq : √(1 + μ) ≤ 3 / 2 := Real.sqrt_le_iff.2 ⟨by norm_num, by linarith⟩
  have neg : ∀ f : Nat → ℝ, len n (fun i => -f i) = len n f := fun f => by unfold len; simp only [neg_sq]
  have hex : ∀ t, exactDot (φ t) (ws t) = ∑ j ∈ Finset.range n, real (value (φ t) j) * real (entry (ws t) j) :=
    fun t => by unfold exactDot; rw [(hφ t).2]
  -- the general bound for perturbed steps
  have gen := fun {ε β : ℝ} (ε0 : 0 ≤ ε) (β0 : 0 ≤ β) (hL : 4 * (L * ε) ≤ 1 - r) (z : ℕ → (Nat → ℝ) × (Nat → ℝ)) (T : ℕ)
    (hz) => perturbed_steps (N := fun x : (Nat → ℝ) × (Nat → ℝ) => energyLen n μ l x.1 x.2)
      (A := fun t => moveStep n μ l fun i => real (value (φ t) i)) (fun _ => energyLen_nonneg _ _ _ _ _) (energyLen_zero n μ l)
      (fun x y => energyLen_add_le n h1 lp.le x.1 x.2 y.1 y.2) (fun i x y => moveStep_add n μ l _ x y)
      (fun t x => energyLen_step n h0 h1 lp (h2 t) x.1 x.2) r0 ε0 β0 hL (by linarith) Lpos (momentum_steps hr) z T hz T le_rfl
  -- the exact run is bounded
  have exact_le : ∀ t, energyLen n μ l (us t) (fun i => -xs t i) ≤ W := by
    intro t
    have h := gen (ε := 0) (β := D) le_rfl D0 (by rw [mul_zero, mul_zero]; exact d.le) (fun t => (us t, fun i => -xs t i)) t
      (fun s _ => by
        rw [zero_mul, zero_add]
        refine le_trans (le_of_eq (energyLen_congr (d' := fun i => -(l * -(real (ys s) * real (value (φ s) i)) +
          -(ρ * real (value (φ s) i)))) (u' := fun i => -(real (ys s) * real (value (φ s) i))) (fun i hi => ?_) (fun i hi => ?_)))
          ((energyLen_err n h1 lp.le (fun i => -(ρ * real (value (φ s) i))) (fun i => -(real (ys s) * real (value (φ s) i)))).trans ?_)
        · show us (s + 1) i - (us s i - l * (μ * -xs s i + real (value (φ s) i) * ∑ j ∈ Finset.range n, real (value (φ s) j) * us s j)) = _
          rw [hus s i hi, hxs s i hi]
          ring
        · show -xs (s + 1) i - (μ * -xs s i + real (value (φ s) i) * ∑ j ∈ Finset.range n, real (value (φ s) j) * us s j) = _
          rw [hxs s i hi]
          ring
        · rw [neg, neg, len_smul hρ, len_smul']
          refine le_trans ?_ (hD s)
          have s1 : 1 + √μ ≤ 2 := by linarith [Real.sqrt_le_one.2 h1.le]
          have := mul_le_mul_of_nonneg_right s1 (mul_nonneg ha.le (mul_nonneg (abs_nonneg (real (ys s)))
            (len_nonneg n fun i => real (value (φ s) i))))
          linarith)
    refine h.trans ?_
    rw [hW]
    have h3 : ((1 + r) / 2) ^ (t / L) ≤ 1 := pow_le_one₀ (by linarith) (by linarith)
    have h4 := mul_le_mul_of_nonneg_right h3 (energyLen_nonneg n μ l (us 0) (fun i => -xs 0 i))
    have e : 10 * (L * D) / (1 - r) = 10 * L * D / (1 - r) := by ring
    rw [e]
    show 2 * ((1 + r) / 2) ^ (t / L) * energyLen n μ l (us 0) (fun i => -xs 0 i) + _ ≤ _
    linarith
  have split : ∀ t, energyLen n μ l (fun i => real (entry (ws t) i)) (fun i => -real (entry (vs t) i)) ≤
      energyLen n μ l (fun i => real (entry (ws t) i) - us t i) (fun i => -(real (entry (vs t) i) - xs t i)) +
      energyLen n μ l (us t) (fun i => -xs t i) := by
    intro t
    refine le_trans (le_of_eq (energyLen_congr (fun i _ => ?_) fun i _ => ?_)) (energyLen_add_le n h1 lp.le _ _ _ _)
    · ring
    · ring
  -- the bounds are far from overflow
  have ratio : L / (1 - r) ≤ 1 / (4 * ε) := by
    rw [div_le_div_iff₀ d (by positivity)]
    linarith
  have big : W + E ≤ 2 ^ 251 := by
    have g1 : 1 / (4 * ε) ≤ 2 ^ 51 := by
      rw [div_le_iff₀ (by positivity)]
      have : (1 : ℝ) = 2 ^ 51 * (4 * roundoff) := by rw [roundoff]; norm_num
      nlinarith
    have n0 : energyLen n μ l (us 0) (fun i => -xs 0 i) ≤ 2 ^ 222 := by
      refine (energyLen_le n h0 h1 lp.le _ _).trans ?_
      rw [neg]
      have a1 : len n (us 0) ≤ 2 ^ 20 * 2 ^ 100 := len_le_of_bounded (hmod 0).size (by positivity) fun i hi => by
        obtain ⟨r, hr, h⟩ := (hu0 i hi).2
        rw [(hu0 i hi).1, is_real hr]
        exact h
      have a2 : len n (xs 0) ≤ 2 ^ 20 * 2 ^ 100 := len_le_of_bounded (hmod 0).size (by positivity) fun i hi => by
        obtain ⟨r, hr, h⟩ := (hx0 i hi).2
        rw [(hx0 i hi).1, is_real hr]
        exact h
      have a3 : l / (1 - μ) ≤ 2 ^ 100 := by rwa [div_le_iff₀ hm1]
      have a4 := mul_le_mul a3 a2 (len_nonneg _ _) (by positivity)
      have a5 : (2 : ℝ) ^ 20 * 2 ^ 100 + 2 * (2 ^ 100 * (2 ^ 20 * 2 ^ 100)) ≤ 2 ^ 222 := by norm_num
      linarith
    have g2 : W ≤ 2 * 2 ^ 222 + 10 * (2 ^ 51 * 2 ^ 190) := by
      have e : 10 * L * D / (1 - r) = 10 * (L / (1 - r) * D) := by ring
      rw [hW, e]
      have := mul_le_mul (ratio.trans g1) hD1 D0 (by positivity)
      linarith
    have g3 : E ≤ 3 * (W + D + 1) := by
      have e : E = 10 * (L / (1 - r) * (ε * (W + D) + η)) := by rw [hE]; ring
      rw [e]
      have h4 := mul_le_mul_of_nonneg_right ratio β0
      have h5 : 1 / (4 * ε) * (ε * (W + D) + η) ≤ 1 / 4 * (W + D + 1) := by
        rw [div_mul_eq_mul_div, div_le_iff₀ (by positivity)]
        nlinarith
      linarith
    have g6 : 4 * (2 * 2 ^ 222 + 10 * (2 ^ 51 * 2 ^ 190)) + 3 * (2 ^ 190 + 1) ≤ (2 : ℝ) ^ 251 := by norm_num
    linarith
  have small : ∀ t, energyLen n μ l (fun i => real (entry (ws t) i) - us t i) (fun i => -(real (entry (vs t) i) - xs t i)) ≤ E →
      energyLen n μ l (fun i => real (entry (ws t) i)) (fun i => -real (entry (vs t) i)) ≤ 2 ^ 251 := fun t h =>
    (split t).trans (by linarith [exact_le t])
  have len_small : ∀ t, energyLen n μ l (fun i => real (entry (ws t) i)) (fun i => -real (entry (vs t) i)) ≤ 2 ^ 251 →
      len n (fun i => real (entry (ws t) i)) ≤ 2 ^ 252 := fun t h => by
    have h3 := len_le_energyLen n h0 h1 lp.le (fun i => real (entry (ws t) i)) (fun i => -real (entry (vs t) i))
    have h4 := mul_le_mul hsq h (energyLen_nonneg _ _ _ _ _) (by norm_num)
    have h5 : (2 : ℝ) ^ 252 = 2 * 2 ^ 251 := pow_succ' _ _
    linarith
  have bw : ∀ t, (∀ i < n, Spec.Finite (entry (ws t) i)) → len n (fun i => real (entry (ws t) i)) ≤ 2 ^ 252 →
      ∀ i < n, Bounded (2 ^ 252) (entry (ws t) i) := fun t h1 h2 i hi => by
    obtain ⟨r, hr⟩ := h1 i hi
    refine ⟨r, hr, le_trans ?_ h2⟩
    have := abs_le_len (fun i => real (entry (ws t) i)) hi
    rwa [is_real hr] at this
  have pred : ∀ t, (∀ i < n, Bounded (2 ^ 252) (entry (ws t) i)) → Bounded (2 ^ 400) (ps t) := by
    intro t h2
    have h3 := dot_bounded hM (hφ t) (hw t) (hdot t) (a := 100) (b := 252) (by norm_num) (hmod t).features
      h2 ((hmod t).count.1.trans ((hmod t).count.2.trans (by norm_num)))
    refine bounded_mono h3 ?_
    have h4 : (storedCount (φ t) : ℝ) ≤ 2 ^ 40 := by exact_mod_cast (hmod t).count.1.trans (hmod t).count.2
    refine (mul_le_mul_of_nonneg_right h4 (by positivity)).trans ?_
    rw [← pow_add]
    exact pow_le_pow_right₀ (by norm_num) (by norm_num)
  have perr : ∀ t, Bounded (2 ^ 400) (ps t) →
      ∃ r, Is (ps t) r ∧ |r - exactDot (φ t) (ws t)| ≤ predictionError (φ t) (ws t) := by
    intro t h
    obtain ⟨r, hr, -⟩ := h
    exact ⟨r, hr, dot_err hM (hφ t) (hw t) (hdot t) hr⟩
  let e : Nat → Nat → ℝ := fun s i => real (entry (ws (s + 1)) i) -
    (real (entry (ws s) i) + l * real (entry (vs (s + 1)) i) + ρ * real (value (φ s) i))
  let dv : Nat → Nat → ℝ := fun s i => real (entry (vs (s + 1)) i) -
    (real m * real (entry (vs s) i) + real (value (φ s) i) * (real (ys s) - exactDot (φ s) (ws s)))
  have near : ∀ T, (∀ s < T, energyLen n μ l (fun i => l * dv s i + e s i) (fun i => -dv s i) ≤
      ε * (energyLen n μ l (fun i => real (entry (ws s) i)) (fun i => -real (entry (vs s) i)) + D) + η) →
      energyLen n μ l (fun i => real (entry (ws T) i) - us T i) (fun i => -(real (entry (vs T) i) - xs T i)) ≤ E := by
    intro T h
    have := gen ε0.le β0 hL (fun t => (fun i => real (entry (ws t) i) - us t i, fun i => -(real (entry (vs t) i) - xs t i))) T
      (fun s hs => by
        have ed : ∑ j ∈ Finset.range n, real (value (φ s) j) * (real (entry (ws s) j) - us s j) =
            exactDot (φ s) (ws s) - ∑ j ∈ Finset.range n, real (value (φ s) j) * us s j := by
          rw [hex, ← Finset.sum_sub_distrib]
          exact Finset.sum_congr rfl fun j _ => by ring
        refine le_trans (le_of_eq (energyLen_congr (d' := fun i => l * dv s i + e s i) (u' := fun i => -dv s i)
          (fun i hi => ?_) (fun i hi => ?_))) ((h s hs).trans ?_)
        · show (real (entry (ws (s + 1)) i) - us (s + 1) i) - ((real (entry (ws s) i) - us s i) -
            l * (μ * -(real (entry (vs s) i) - xs s i) + real (value (φ s) i) * ∑ j ∈ Finset.range n, real (value (φ s) j) *
              (real (entry (ws s) j) - us s j))) = l * (real (entry (vs (s + 1)) i) - (real m * real (entry (vs s) i) +
              real (value (φ s) i) * (real (ys s) - exactDot (φ s) (ws s)))) + (real (entry (ws (s + 1)) i) -
            (real (entry (ws s) i) + l * real (entry (vs (s + 1)) i) + ρ * real (value (φ s) i)))
          rw [ed, hus s i hi, hxs s i hi, is_real hm]
          ring
        · show -(real (entry (vs (s + 1)) i) - xs (s + 1) i) - (μ * -(real (entry (vs s) i) - xs s i) +
            real (value (φ s) i) * ∑ j ∈ Finset.range n, real (value (φ s) j) * (real (entry (ws s) j) - us s j)) =
            -(real (entry (vs (s + 1)) i) - (real m * real (entry (vs s) i) +
              real (value (φ s) i) * (real (ys s) - exactDot (φ s) (ws s))))
          rw [ed, hxs s i hi, is_real hm]
          ring
        · have h5 := mul_le_mul_of_nonneg_left ((split s).trans (add_le_add le_rfl (exact_le s))) ε0.le
          show _ ≤ ε * energyLen n μ l (fun i => real (entry (ws s) i) - us s i) (fun i => -(real (entry (vs s) i) - xs s i)) + _
          linarith)
    refine this.trans ?_
    have e0 : energyLen n μ l (fun i => real (entry (ws 0) i) - us 0 i) (fun i => -(real (entry (vs 0) i) - xs 0 i)) = 0 := by
      rw [energyLen_congr (d' := fun _ => 0) (u' := fun _ => 0) (fun i hi => by rw [(hu0 i hi).1, sub_self])
        (fun i hi => by rw [(hx0 i hi).1, sub_self, neg_zero]), energyLen_zero]
    show 2 * ((1 + r) / 2) ^ (T / L) * energyLen n μ l (fun i => real (entry (ws 0) i) - us 0 i)
      (fun i => -(real (entry (vs 0) i) - xs 0 i)) + _ ≤ _
    rw [e0, mul_zero, zero_add, hE]
    exact le_of_eq (by ring)
  have main : ∀ t, (∀ i < n, Spec.Finite (entry (ws t) i) ∧ Spec.Finite (entry (vs t) i)) ∧ ∀ s < t,
      energyLen n μ l (fun i => l * dv s i + e s i) (fun i => -dv s i) ≤
      ε * (energyLen n μ l (fun i => real (entry (ws s) i)) (fun i => -real (entry (vs s) i)) + D) + η := by
    intro t
    induction t with
    | zero => exact ⟨fun i hi => ⟨finite_of_bounded (hu0 i hi).2, finite_of_bounded (hx0 i hi).2⟩,
        fun s hs => absurd hs (Nat.not_lt_zero _)⟩
    | succ t ih =>
      obtain ⟨i1, i2⟩ := ih
      have g := small t (near t i2)
      have hb := bw t (fun i hi => (i1 i hi).1) (len_small t g)
      have hp := pred t hb
      have vb := velocity_bound hM (hφ t) (hv t) (hvel t) ⟨_, hm⟩ (hmod t).features (hmod t).target hp
        (fun i hi => (i1 i hi).2) fun i hi => by
          have g1 := velocity_le_energyLen n h0 h1 lp.le (fun i => real (entry (ws t) i)) (fun i => -real (entry (vs t) i))
          rw [neg] at g1
          have g2 := abs_le_len (fun i => real (entry (vs t) i)) hi
          rw [is_real hm, abs_mul, abs_of_nonneg h0]
          have g3 : 2 ^ (-100 : ℤ) * (μ * len n fun i => real (entry (vs t) i)) ≤ 2 ^ 251 := by
            refine le_trans (mul_le_mul_of_nonneg_right (l0.trans hla) (mul_nonneg h0 (len_nonneg _ _))) ?_
            linarith
          have g4 : μ * (len n fun i => real (entry (vs t) i)) ≤ 2 ^ 351 := by
            have c : (2 : ℝ) ^ 351 = 2 ^ 100 * 2 ^ 251 := by rw [← pow_add]
            have c1 : (2 : ℝ) ^ 100 * 2 ^ (-100 : ℤ) = 1 := by norm_num
            have := mul_le_mul_of_nonneg_left g3 (by positivity : (0 : ℝ) ≤ 2 ^ 100)
            rw [← mul_assoc, c1, one_mul] at this
            rw [c]
            exact this
          exact (mul_le_mul_of_nonneg_left g2 h0).trans (g4.trans (pow_le_pow_right₀ (by norm_num) (by norm_num)))
      have hf := hfin t hb vb
      refine ⟨fun i hi => ⟨hf i hi, finite_of_bounded (vb i hi)⟩, fun s hs => ?_⟩
      rcases Nat.lt_or_ge s t with h | h
      · exact i2 s h
      · obtain rfl : s = t := by omega
        rw [hε, hη]
        exact momentum_call (hmod s) (hφ s) (perr s hp) (is_real hm) h0 h1 lp l1 hρ (h2 s) (hD s) (d := dv s) (e := e s)
          (fun _ _ => rfl) (velocities_err hM (hφ s) (hv s) (hvel s) (fun _ hr => dot_err hM (hφ s) (hw s) (hdot s) hr)
            fun i hi => finite_of_bounded (vb i hi)) (herr s hf)
  have b := near t (main t).2
  have hp := pred t (bw t (fun i hi => ((main t).1 i hi).1) (len_small t (small t b)))
  refine ⟨(main t).1, finite_of_bounded hp, exact_le t, b, ?_⟩
  have h3 := predictionError_le (hφ t) (ws t) (hmod t).count.1 (hmod t).count.2
  have h4 := count_tiny (hmod t).count.2
  have A0 := len_nonneg n fun i => real (value (φ t) i)
  have hN : len n (fun i => real (entry (ws t) i)) ≤ 3 / 2 * (E + W) :=
    (len_le_energyLen n h0 h1 lp.le _ (fun i => -real (entry (vs t) i))).trans
      (mul_le_mul hsq ((split t).trans (add_le_add b (exact_le t))) (energyLen_nonneg _ _ _ _ _) (by norm_num))
  have hkε : 2 * k * roundoff ≤ ε := by rw [hε]; exact mul_le_mul_of_nonneg_right (by linarith) hu.le
  exact shadow_prediction A0 (len_nonneg _ _) hN hkε ε0.le hε1 W0 D0 η0 E0 r0 d L1 hE (h3.trans (add_le_add le_rfl h4))

section
variable {B B' I : Type} [Space B] [Basis B I (FP M)] [Space B'] [Basis B' I ℝ]

theorem lr_bound {μ l : ℝ} (h0 : 0 ≤ μ) (l0 : 0 < l) (l1 : l ≤ 2 ^ 100 * (1 - μ)) {lr : FP M} (hl : Is lr l) :
    Bounded (2 ^ 100) lr :=
  ⟨l, hl, by rw [abs_of_pos l0]; exact l1.trans (mul_le_of_le_one_right (by positivity) (by linarith))⟩

/-- `a + lr v` is bounded. -/
theorem move_bound (hM : M.rnd = binary64Format.rnd) {a v lr : FP M} (hl : Bounded (2 ^ 100) lr) (ha : Bounded (2 ^ 252) a)
    (hv : Bounded (2 ^ 502) v) : Bounded (2 ^ 603) (a +. lr *. v) :=
  (bounded_add_pow hM (k := 602) (by norm_num) (bounded_mono ha (pow_le_pow_right₀ (by norm_num) (by norm_num)))
    (bounded_mul_pow hM (j := 100) (k := 502) (by norm_num) hl hv)).1

theorem move_coef {x : ℝ} (x0 : 0 ≤ x) : roundoff * x ≤ 3 * roundoff * x ∧ ((1 + roundoff) ^ 2 - 1) * x ≤ 3 * roundoff * x ∧
    ((1 + roundoff) ^ 2 - 1) * x ≤ 4 * roundoff * x ∧ ((1 + roundoff) ^ 3 - 1) * x ≤ 4 * roundoff * x ∧
    (1 + roundoff) * x ≤ 3 * x ∧ ((1 + roundoff) ^ 2 + (1 + roundoff)) * x ≤ 3 * x := by
  have hu := roundoff_pos
  have hu1 : roundoff ≤ 1 / 100 := by unfold roundoff; norm_num
  have g2 : (1 + roundoff) ^ 2 - 1 ≤ 3 * roundoff := by nlinarith
  have g3 : (1 + roundoff) ^ 3 - 1 ≤ 4 * roundoff := by nlinarith [mul_pos hu hu]
  refine ⟨mul_le_mul_of_nonneg_right ?_ x0, mul_le_mul_of_nonneg_right g2 x0, mul_le_mul_of_nonneg_right ?_ x0,
    mul_le_mul_of_nonneg_right g3 x0, mul_le_mul_of_nonneg_right ?_ x0, mul_le_mul_of_nonneg_right ?_ x0⟩ <;> linarith

/-- Momentum with `0 ≤ μ < 1`, `2^-100 ≤ lr ≤ 2^100 (1 - μ)` and `lr ‖φ‖² (1 + μ) ≤ 2 (1 - μ)²`, within the size limits of C177 and with
`2 lr / (1 - μ) ‖φ‖ |y| ≤ D` in every call, on inputs for which `L` exact calls always contract by `r`, where
`L (12 k + 60) 2^-51 ≤ 1 - r`. For ever: nothing overflows, the exact weights and velocities stay within `W` of zero in the distance of
C154, those of `f64` stay within a fixed `E` of them, and the predictions within `5 ‖φ‖ E` (up to `2^-1034`). -/
theorem C190_momentum (hM : M.rnd = binary64Format.rnd) (n k L : Nat)
    (fas : Nat → ScalarLFA B (SGDMomentum (FP M)) (FP M)) (gas : Nat → ScalarLFA B' (SGDMomentum ℝ) ℝ)
    (xs : Nat → I)
    (ys ps : Nat → FP M) (qs : Nat → ℝ) (hs : Stream fas xs ys ps) (hg : Stream gas xs (fun k => real (ys k)) qs)
    (φ : Nat → Features (FP M)) (ψ : Nat → Features ℝ)
    (hφ : ∀ k, Basis.project (fas 0).basis (xs k) = .ok (.ok (φ k)) ∧ Fits n (φ k))
    (hψ : ∀ k, Basis.project (gas 0).basis (xs k) = .ok (.ok (ψ k)) ∧ Fits n (ψ k))
    (hv : ∀ k, ∀ i < n, value (ψ k) i = real (value (φ k) i))
    (hn : (fas 0).weights.length = n ∧ (fas 0).optimiser.velocity.length = n)
    (hm : (gas 0).weights.length = n ∧ (gas 0).optimiser.velocity.length = n)
    (hw : ∀ i < n, entry (gas 0).weights i = real (entry (fas 0).weights i) ∧ Bounded (2 ^ 100) (entry (fas 0).weights i))
    (hu : ∀ i < n, entry (gas 0).optimiser.velocity i = real (entry (fas 0).optimiser.velocity i) ∧
      Bounded (2 ^ 100) (entry (fas 0).optimiser.velocity i))
    (μ l : ℝ) (hl : (gas 0).optimiser.learningRate = l ∧ Is (fas 0).optimiser.learningRate l)
    (hμ : (gas 0).optimiser.momentum = μ ∧ Is (fas 0).optimiser.momentum μ) (h0 : 0 ≤ μ) (h1 : μ < 1)
    (l0 : 2 ^ (-100 : ℤ) ≤ l) (l1 : l ≤ 2 ^ 100 * (1 - μ)) (h2 : ∀ t, l * normSq (ψ t) * (1 + μ) ≤ 2 * (1 - μ) ^ 2)
    (hmod : ∀ t, Moderate n k (φ t) (ys t)) (D : ℝ)
    (hD : ∀ t, 2 * (l / (1 - μ)) * √(normSq (ψ t)) * |real (ys t)| ≤ D) (hD1 : D ≤ 2 ^ 190)
    (r : ℝ) (r0 : 0 ≤ r) (Lpos : 0 < L) (hr : MomentumPersistent n L (fun t => value (ψ t)) μ l r)
    (hL : L * (12 * k + 60) * 2 ^ (-51 : ℤ) ≤ 1 - r) (W E : ℝ)
    (hW : W = 2 * energyLen n μ l (entry (gas 0).weights) (fun i => -entry (gas 0).optimiser.velocity i) + 10 * L * D / (1 - r))
    (hE : E = 10 * L * ((12 * k + 60) * 2 ^ (-53 : ℤ) * (W + D) + 2 ^ (-800 : ℤ)) / (1 - r)) (t : Nat) :
    (∀ i < n, Spec.Finite (entry (fas t).weights i) ∧ Spec.Finite (entry (fas t).optimiser.velocity i)) ∧ Spec.Finite (ps t) ∧
    energyLen n μ l (entry (gas t).weights) (fun i => -entry (gas t).optimiser.velocity i) ≤ W ∧
    energyLen n μ l (fun i => real (entry (fas t).weights i) - entry (gas t).weights i)
      (fun i => -(real (entry (fas t).optimiser.velocity i) - entry (gas t).optimiser.velocity i)) ≤ E ∧
    len n (fun i => real (entry (fas t).weights i) - entry (gas t).weights i) ≤ 3 / 2 * E ∧
    |real (ps t) - qs t| ≤ 5 * (√(normSq (ψ t)) * E) + 2 ^ (-1034 : ℤ) := by
  have run := momentum_trace hs hn.1 hn.2 hφ
  have run' := momentum_trace hg hm.1 hm.2 hψ
  have lp : 0 < l := lt_of_lt_of_le (by positivity) l0
  have hA : ∀ t, √(normSq (ψ t)) = len n (fun i => real (value (φ t) i)) := fun t => by
    rw [len_value (hψ t).2]
    exact len_congr fun i hi => hv t i hi
  have hS : ∀ t, normSq (ψ t) = ∑ i ∈ Finset.range n, real (value (φ t) i) ^ 2 := fun t => by
    rw [normSq, (hψ t).2.2]
    exact Finset.sum_congr rfl fun i hi => by rw [hv t i (Finset.mem_range.1 hi), sq]
  have hdot : ∀ t, Spec.inner (ψ t) (gas t).weights = ∑ j ∈ Finset.range n, real (value (φ t) j) * entry (gas t).weights j :=
    fun t => by
      rw [inner_eq, (hψ t).2.2]
      exact Finset.sum_congr rfl fun j hj => by rw [hv t j (Finset.mem_range.1 hj)]
  have hr' : MomentumPersistent n L (fun t i => real (value (φ t) i)) μ l r :=
    momentumPersistent_congr hr hv
  obtain ⟨r1, r2, r3, r4, r5⟩ := momentum_shadow hM (n := n) (k := k) (L := L) (ws := fun t => (fas t).weights)
    (vs := fun t => (fas t).optimiser.velocity) (us := fun t => entry (gas t).weights)
    (xs := fun t => entry (gas t).optimiser.velocity) (m := (fas 0).optimiser.momentum) (ys := ys) (ps := ps) (φ := φ) (μ := μ)
    (l := l) (ρ := 0) (D := D) (r := r) hmod (fun t => (hφ t).2) (fun t => (run t).1.2.2.2.2) (fun t => (run t).1.2.2.2.1)
    (fun t => (run t).2.1) (fun t => (run t).2.2.1) hμ.2 h0 h1 l0 l1 le_rfl
    (fun t hb vb i hi => by
      rw [(run t).2.2.2 i hi]
      exact finite_of_bounded (move_bound hM (lr_bound h0 lp l1 hl.2) (hb i hi) (vb i hi)))
    (fun t hf => by
      simp only [zero_mul, add_zero, mul_zero]
      have h3 := moves_err hM (run t).2.2.2 hf
      rw [is_real hl.2] at h3
      refine h3.trans ?_
      unfold moveError
      rw [is_real hl.2, abs_of_pos lp]
      have c1 := (move_coef (len_nonneg n fun i => real (entry (fas t).weights i))).1
      have c2 := (move_coef (mul_nonneg lp.le (len_nonneg n fun i => real (entry (fas (t + 1)).optimiser.velocity i)))).2.2.1
      have c3 := (move_coef (mul_nonneg (Real.sqrt_nonneg (n : ℝ)) tiny_pos.le)).2.2.2.2.1
      linarith)
    (fun t i hi => by
      obtain ⟨⟨-, -, -, c4, c5⟩, c6, c7, -⟩ := run' t
      obtain ⟨v', e1, -, e2⟩ := velocityUpdate_real (hψ t).2 (gas 0).optimiser.momentum (real (ys t) -. qs t) c4
      rw [c7] at e1
      injection e1 with e1
      have e3 : qs t = Spec.inner (ψ t) (gas t).weights := by
        have := dot_real (hψ t).2.1 (w := (gas t).weights) ((hψ t).2.2.trans c5.symm)
        rw [c6] at this
        injection this
      show entry (gas (t + 1)).optimiser.velocity i = _
      rw [e1, e2 i hi, e3, hdot t, hv t i hi, hμ.1]
      rfl)
    (fun t i hi => by
      show entry (gas (t + 1)).weights i = _
      rw [(run' t).2.2.2 i hi, hl.1, zero_mul, add_zero]
      rfl) hw hu
    (fun t => by rw [← hS]; exact h2 t) (fun t => by rw [← hA]; exact le_of_eq_of_le (by ring) (hD t)) hD1 r0 Lpos hr' hL t hW hE
  have r6 : len n (fun i => real (entry (fas t).weights i) - entry (gas t).weights i) ≤ 3 / 2 * E := by
    have hsq : √(1 + μ) ≤ 3 / 2 := Real.sqrt_le_iff.2 ⟨by norm_num, by linarith⟩
    exact (len_le_energyLen n h0 h1 lp.le _ _).trans (mul_le_mul hsq r4 (energyLen_nonneg _ _ _ _ _) (by norm_num))
  refine ⟨r1, r2, r3, r4, r6, ?_⟩
  refine (prediction_near hM (hφ t).2 (hψ t).2 (hv t) (run t).1.2.2.2.2 (run' t).1.2.2.2.2 (run t).2.1 r2
    (run' t).2.1 r6).trans ?_
  rw [hA]
  exact r5

/-- NAG, which also adds `μ φ` in every call: the same with `μ ‖φ‖ + 2 lr / (1 - μ) ‖φ‖ |y| ≤ D`. -/
theorem C190_nag (hM : M.rnd = binary64Format.rnd) (n k L : Nat)
    (fas : Nat → ScalarLFA B (NAG (FP M)) (FP M)) (gas : Nat → ScalarLFA B' (NAG ℝ) ℝ)
    (xs : Nat → I)
    (ys ps : Nat → FP M) (qs : Nat → ℝ) (hs : Stream fas xs ys ps) (hg : Stream gas xs (fun k => real (ys k)) qs)
    (φ : Nat → Features (FP M)) (ψ : Nat → Features ℝ)
    (hφ : ∀ k, Basis.project (fas 0).basis (xs k) = .ok (.ok (φ k)) ∧ Fits n (φ k))
    (hψ : ∀ k, Basis.project (gas 0).basis (xs k) = .ok (.ok (ψ k)) ∧ Fits n (ψ k))
    (hv : ∀ k, ∀ i < n, value (ψ k) i = real (value (φ k) i))
    (hn : (fas 0).weights.length = n ∧ (fas 0).optimiser.velocity.length = n)
    (hm : (gas 0).weights.length = n ∧ (gas 0).optimiser.velocity.length = n)
    (hw : ∀ i < n, entry (gas 0).weights i = real (entry (fas 0).weights i) ∧ Bounded (2 ^ 100) (entry (fas 0).weights i))
    (hu : ∀ i < n, entry (gas 0).optimiser.velocity i = real (entry (fas 0).optimiser.velocity i) ∧
      Bounded (2 ^ 100) (entry (fas 0).optimiser.velocity i))
    (μ l : ℝ) (hl : (gas 0).optimiser.learningRate = l ∧ Is (fas 0).optimiser.learningRate l)
    (hμ : (gas 0).optimiser.momentum = μ ∧ Is (fas 0).optimiser.momentum μ) (h0 : 0 ≤ μ) (h1 : μ < 1)
    (l0 : 2 ^ (-100 : ℤ) ≤ l) (l1 : l ≤ 2 ^ 100 * (1 - μ)) (h2 : ∀ t, l * normSq (ψ t) * (1 + μ) ≤ 2 * (1 - μ) ^ 2)
    (hmod : ∀ t, Moderate n k (φ t) (ys t)) (D : ℝ)
    (hD : ∀ t, μ * √(normSq (ψ t)) + 2 * (l / (1 - μ)) * √(normSq (ψ t)) * |real (ys t)| ≤ D) (hD1 : D ≤ 2 ^ 190)
    (r : ℝ) (r0 : 0 ≤ r) (Lpos : 0 < L) (hr : MomentumPersistent n L (fun t => value (ψ t)) μ l r)
    (hL : L * (12 * k + 60) * 2 ^ (-51 : ℤ) ≤ 1 - r) (W E : ℝ)
    (hW : W = 2 * energyLen n μ l (entry (gas 0).weights) (fun i => -entry (gas 0).optimiser.velocity i) + 10 * L * D / (1 - r))
    (hE : E = 10 * L * ((12 * k + 60) * 2 ^ (-53 : ℤ) * (W + D) + 2 ^ (-800 : ℤ)) / (1 - r)) (t : Nat) :
    (∀ i < n, Spec.Finite (entry (fas t).weights i) ∧ Spec.Finite (entry (fas t).optimiser.velocity i)) ∧ Spec.Finite (ps t) ∧
    energyLen n μ l (entry (gas t).weights) (fun i => -entry (gas t).optimiser.velocity i) ≤ W ∧
    energyLen n μ l (fun i => real (entry (fas t).weights i) - entry (gas t).weights i)
      (fun i => -(real (entry (fas t).optimiser.velocity i) - entry (gas t).optimiser.velocity i)) ≤ E ∧
    len n (fun i => real (entry (fas t).weights i) - entry (gas t).weights i) ≤ 3 / 2 * E ∧
    |real (ps t) - qs t| ≤ 5 * (√(normSq (ψ t)) * E) + 2 ^ (-1034 : ℤ) := by
  have run := nag_trace hs hn.1 hn.2 hφ
  have run' := nag_trace hg hm.1 hm.2 hψ
  have lp : 0 < l := lt_of_lt_of_le (by positivity) l0
  have hA : ∀ t, √(normSq (ψ t)) = len n (fun i => real (value (φ t) i)) := fun t => by
    rw [len_value (hψ t).2]
    exact len_congr fun i hi => hv t i hi
  have hS : ∀ t, normSq (ψ t) = ∑ i ∈ Finset.range n, real (value (φ t) i) ^ 2 := fun t => by
    rw [normSq, (hψ t).2.2]
    exact Finset.sum_congr rfl fun i hi => by rw [hv t i (Finset.mem_range.1 hi), sq]
  have hdot : ∀ t, Spec.inner (ψ t) (gas t).weights = ∑ j ∈ Finset.range n, real (value (φ t) j) * entry (gas t).weights j :=
    fun t => by
      rw [inner_eq, (hψ t).2.2]
      exact Finset.sum_congr rfl fun j hj => by rw [hv t j (Finset.mem_range.1 hj)]
  have hr' : MomentumPersistent n L (fun t i => real (value (φ t) i)) μ l r :=
    momentumPersistent_congr hr hv
  obtain ⟨r1, r2, r3, r4, r5⟩ := momentum_shadow hM (n := n) (k := k) (L := L) (ws := fun t => (fas t).weights)
    (vs := fun t => (fas t).optimiser.velocity) (us := fun t => entry (gas t).weights)
    (xs := fun t => entry (gas t).optimiser.velocity) (m := (fas 0).optimiser.momentum) (ys := ys) (ps := ps) (φ := φ) (μ := μ)
    (l := l) (ρ := μ) (D := D) (r := r) hmod (fun t => (hφ t).2) (fun t => (run t).1.2.2.2.2) (fun t => (run t).1.2.2.2.1)
    (fun t => (run t).2.1) (fun t => (run t).2.2.1) hμ.2 h0 h1 l0 l1 h0
    (fun t hb vb i hi => by
      have b1 := move_bound hM (lr_bound h0 lp l1 hl.2) (hb i hi) (vb i hi)
      by_cases ha : Active (φ t) i
      · obtain ⟨a, ha⟩ := ha
        rw [((run t).2.2.2 i hi).1 a ha]
        have b2 : Bounded (2 ^ 0) (fas 0).optimiser.momentum :=
          ⟨μ, hμ.2, by rw [abs_of_nonneg h0, pow_zero]; exact h1.le⟩
        have b3 := bounded_mul_pow hM (j := 0) (k := 100) (by norm_num) b2 ((hmod t).features i a ha)
        exact finite_of_bounded (bounded_add_pow hM (k := 603) (by norm_num) b1
          (bounded_mono b3 (pow_le_pow_right₀ (by norm_num) (by norm_num)))).1
      · rw [((run t).2.2.2 i hi).2 ha]
        exact finite_of_bounded b1)
    (fun t hf => by
      have h3 := lookaheads_err hM (hφ t).2 (run t).2.2.2 hf
      rw [is_real hl.2, is_real hμ.2] at h3
      refine h3.trans ?_
      unfold lookaheadError
      rw [is_real hl.2, is_real hμ.2, abs_of_pos lp, abs_of_nonneg h0]
      have c1 := (move_coef (len_nonneg n fun i => real (entry (fas t).weights i))).2.1
      have c2 := (move_coef (mul_nonneg lp.le (len_nonneg n fun i => real (entry (fas (t + 1)).optimiser.velocity i)))).2.2.2.1
      have c3 := (move_coef (mul_nonneg h0 (len_nonneg n fun i => real (value (φ t) i)))).2.1
      have c4 := (move_coef (mul_nonneg (Real.sqrt_nonneg (n : ℝ)) tiny_pos.le)).2.2.2.2.2
      linarith)
    (fun t i hi => by
      obtain ⟨⟨-, -, -, c4, c5⟩, c6, c7, -⟩ := run' t
      obtain ⟨v', e1, -, e2⟩ := velocityUpdate_real (hψ t).2 (gas 0).optimiser.momentum (real (ys t) -. qs t) c4
      rw [c7] at e1
      injection e1 with e1
      have e3 : qs t = Spec.inner (ψ t) (gas t).weights := by
        have := dot_real (hψ t).2.1 (w := (gas t).weights) ((hψ t).2.2.trans c5.symm)
        rw [c6] at this
        injection this
      show entry (gas (t + 1)).optimiser.velocity i = _
      rw [e1, e2 i hi, e3, hdot t, hv t i hi, hμ.1]
      rfl)
    (fun t i hi => by
      show entry (gas (t + 1)).weights i = _
      by_cases ha : Active (ψ t) i
      · obtain ⟨a, ha⟩ := ha
        rw [((run' t).2.2.2 i hi).1 a ha, hl.1, hμ.1, ← hv t i hi, value_of_stored (keysUnique_of_wf (hψ t).2.1) ha]
        rfl
      · rw [((run' t).2.2.2 i hi).2 ha, hl.1, ← hv t i hi, value_inactive (hψ t).2 ha, real_zero, mul_zero, add_zero]
        rfl) hw hu
    (fun t => by rw [← hS]; exact h2 t) (fun t => by rw [← hA]; exact le_of_eq_of_le (by ring) (hD t)) hD1 r0 Lpos hr' hL t hW hE
  have r6 : len n (fun i => real (entry (fas t).weights i) - entry (gas t).weights i) ≤ 3 / 2 * E := by
    have hsq : √(1 + μ) ≤ 3 / 2 := Real.sqrt_le_iff.2 ⟨by norm_num, by linarith⟩
    exact (len_le_energyLen n h0 h1 lp.le _ _).trans (mul_le_mul hsq r4 (energyLen_nonneg _ _ _ _ _) (by norm_num))
  refine ⟨r1, r2, r3, r4, r6, ?_⟩
  refine (prediction_near hM (hφ t).2 (hψ t).2 (hv t) (run t).1.2.2.2.2 (run' t).1.2.2.2.2 (run t).2.1 r2
    (run' t).2.1 r6).trans ?_
  rw [hA]
  exact r5

end

/-! ## Inputs that keep exploring -/

/-- One exact call with target zero takes `a e² + a² μ (1 - μ²) ‖v‖² / 2` from the square of the distance. -/
theorem momentum_drop {n : Nat} {μ l e : ℝ} (h0 : 0 ≤ μ) (h1 : μ < 1) (hl : 0 < l) {f d v d' v' : Nat → ℝ}
    (hN : l * (∑ i ∈ Finset.range n, f i ^ 2) * (1 + μ) ^ 2 ≤ (1 - μ) ^ 2)
    (he : e = ∑ i ∈ Finset.range n, f i * d i) (hv : ∀ i < n, v' i = μ * v i - f i * e) (hd : ∀ i < n, d' i = d i + l * v' i) :
    energyLen n μ l d' (fun i => -v' i) ^ 2 + ((l / (1 - μ)) ^ 2 * μ * (1 - μ ^ 2) / 2 * (∑ i ∈ Finset.range n, v i ^ 2) +
      l / (1 - μ) * e ^ 2) ≤ energyLen n μ l d (fun i => -v i) ^ 2 := by
  have hm : 0 < 1 - μ := by linarith
  have ex : ∀ d v : Nat → ℝ, energyLen n μ l d (fun i => -v i) ^ 2 = ∑ i ∈ Finset.range n, (d i + μ * (l / (1 - μ)) * v i) ^ 2 +
      (l / (1 - μ)) ^ 2 * μ * ∑ i ∈ Finset.range n, v i ^ 2 := by
    intro d v
    unfold energyLen
    rw [Real.sq_sqrt (by positivity), len_sq, mul_pow, mul_pow, Real.sq_sqrt h0, len_sq]
    simp only [neg_sq, mul_neg, sub_neg_eq_add]
  rw [ex, ex]
  set a := l / (1 - μ) with ha
  have hla : l = a * (1 - μ) := by rw [ha]; field_simp
  have ha0 : 0 < a := div_pos hl hm
  set N := ∑ i ∈ Finset.range n, f i ^ 2 with hNN
  set S := ∑ i ∈ Finset.range n, v i ^ 2 with hS
  set q := ∑ i ∈ Finset.range n, f i * v i with hq
  have N0 : 0 ≤ N := Finset.sum_nonneg fun _ _ => sq_nonneg _
  have s1 : ∑ i ∈ Finset.range n, (d' i + μ * a * v' i) ^ 2 =
      ∑ i ∈ Finset.range n, (d i + μ * a * v i) ^ 2 - 2 * a * e * (e + μ * a * q) + a ^ 2 * N * e ^ 2 := by
    have : ∀ i ∈ Finset.range n, (d' i + μ * a * v' i) ^ 2 = (d i + μ * a * v i) ^ 2
        - 2 * a * e * (f i * d i + μ * a * (f i * v i)) + a ^ 2 * e ^ 2 * f i ^ 2 := by
      intro i hi
      have hi := Finset.mem_range.1 hi
      rw [hd i hi, hv i hi, hla]
      ring
    rw [Finset.sum_congr rfl this, Finset.sum_add_distrib, Finset.sum_sub_distrib, ← Finset.mul_sum, ← Finset.mul_sum,
      Finset.sum_add_distrib, ← Finset.mul_sum, ← he, ← hNN, ← hq]
    ring
  have s2 : ∑ i ∈ Finset.range n, v' i ^ 2 = μ ^ 2 * S - 2 * μ * e * q + N * e ^ 2 := by
    have : ∀ i ∈ Finset.range n, v' i ^ 2 = μ ^ 2 * v i ^ 2 - 2 * μ * e * (f i * v i) + e ^ 2 * f i ^ 2 := by
      intro i hi
      rw [hv i (Finset.mem_range.1 hi)]
      ring
    rw [Finset.sum_congr rfl this, Finset.sum_add_distrib, Finset.sum_sub_distrib, ← Finset.mul_sum, ← Finset.mul_sum,
      ← Finset.mul_sum]
    ring
  have s3 : 0 ≤ (1 - μ) ^ 2 * S + 4 * (1 - μ) * e * q + 4 * N * e ^ 2 := by
    have : (1 - μ) ^ 2 * S + 4 * (1 - μ) * e * q + 4 * N * e ^ 2 = ∑ i ∈ Finset.range n, ((1 - μ) * v i + 2 * e * f i) ^ 2 := by
      have : ∀ i ∈ Finset.range n, ((1 - μ) * v i + 2 * e * f i) ^ 2 =
          (1 - μ) ^ 2 * v i ^ 2 + 4 * (1 - μ) * e * (f i * v i) + 4 * e ^ 2 * f i ^ 2 := fun i _ => by ring
      rw [Finset.sum_congr rfl this, Finset.sum_add_distrib, Finset.sum_add_distrib, ← Finset.mul_sum, ← Finset.mul_sum,
        ← Finset.mul_sum]
      ring
    rw [this]
    exact Finset.sum_nonneg fun _ _ => sq_nonneg _
  have s4 := mul_nonneg (by positivity : 0 ≤ a ^ 2 * μ * ((1 + μ) / (2 * (1 - μ)))) s3
  have s5 : a ^ 2 * μ * ((1 + μ) / (2 * (1 - μ))) * ((1 - μ) ^ 2 * S + 4 * (1 - μ) * e * q + 4 * N * e ^ 2) =
      a ^ 2 * μ * ((1 - μ ^ 2) / 2 * S + 2 * (1 + μ) * e * q + 2 * ((1 + μ) / (1 - μ)) * (N * e ^ 2)) := by
    field_simp
    ring
  rw [s5] at s4
  have s6 : a ^ 2 * N * ((1 + μ) + 2 * μ * ((1 + μ) / (1 - μ))) * e ^ 2 ≤ a * e ^ 2 := by
    refine mul_le_mul_of_nonneg_right ?_ (sq_nonneg e)
    have e1 : a ^ 2 * N * ((1 + μ) + 2 * μ * ((1 + μ) / (1 - μ))) = a * (l * N * (1 + μ) ^ 2 / (1 - μ) ^ 2) := by
      rw [hla]
      field_simp
      ring
    rw [e1]
    refine mul_le_of_le_one_right ha0.le ?_
    rw [div_le_one (by positivity)]
    exact hN
  rw [s1, s2]
  linarith

theorem persist_sum {L : ℕ} {P δ : ℕ → ℝ} (h : ∀ k < L, P (k + 1) + δ k ≤ P k) : P L + ∑ k ∈ Finset.range L, δ k ≤ P 0 := by
  induction L with
  | zero => simp
  | succ L ih =>
    have := ih fun k hk => h k (by omega)
    have := h L (by omega)
    rw [Finset.sum_range_succ]
    linarith

/-- If every `L` calls together see every direction (`∑ lr ⟨φ, u⟩² ≥ κ ‖u‖²`) and `lr ‖φ‖² (1 + μ)² ≤ (1 - μ)²`, then `L` exact calls
contract by a factor that can be computed. -/
theorem C190_excited (n L : Nat) (g : Nat → Nat → ℝ) (μ l κ : ℝ) (h0 : 0 ≤ μ) (h1 : μ < 1) (hl : 0 < l) (hκ : 0 < κ) (hL : 0 < L)
    (hN : ∀ t, l * (∑ i ∈ Finset.range n, g t i ^ 2) * (1 + μ) ^ 2 ≤ (1 - μ) ^ 2) (h : Excited n L g (fun _ => l) κ) :
    MomentumPersistent n L g μ l √(1 - 1 / (20 * (1 - μ) * L ^ 2 / κ + 6 / (1 - μ ^ 2))) := by
  intro s us vs hvs hus
  have hm : 0 < 1 - μ := by linarith
  have hm2 : 0 < 1 - μ ^ 2 := by nlinarith
  have L1 : (1 : ℝ) ≤ L := by exact_mod_cast hL
  obtain ⟨a, ha⟩ : ∃ a, a = l / (1 - μ) := ⟨_, rfl⟩
  have hla : l = a * (1 - μ) := by rw [ha]; field_simp
  have ha0 : 0 < a := by rw [ha]; exact div_pos hl hm
  let e : Nat → ℝ := fun k => ∑ j ∈ Finset.range n, g (s + k) j * us k j
  let S : Nat → ℝ := fun k => ∑ i ∈ Finset.range n, vs k i ^ 2
  have S0 : ∀ k, 0 ≤ S k := fun k => Finset.sum_nonneg fun _ _ => sq_nonneg _
  let N : Nat → ℝ := fun k => ∑ i ∈ Finset.range n, g (s + k) i ^ 2
  have N0 : ∀ k, 0 ≤ N k := fun k => Finset.sum_nonneg fun _ _ => sq_nonneg _
  let δ : Nat → ℝ := fun k => a ^ 2 * μ * (1 - μ ^ 2) / 2 * S k + a * e k ^ 2
  let P : Nat → ℝ := fun k => energyLen n μ l (us k) (fun i => -vs k i) ^ 2
  have drop : ∀ k < L, P (k + 1) + δ k ≤ P k := fun k hk => by
    have := momentum_drop h0 h1 hl (hN (s + k)) (d := us k) (v := vs k) rfl (hvs k hk) (hus k hk)
    rw [← ha] at this
    exact this
  obtain ⟨Δ, hΔ⟩ : ∃ Δ, Δ = ∑ k ∈ Finset.range L, δ k := ⟨_, rfl⟩
  have total : P L + Δ ≤ P 0 := by rw [hΔ]; exact persist_sum drop
  have δ0 : ∀ k, 0 ≤ δ k := fun k => by have := S0 k; positivity
  have one : ∀ k < L, δ k ≤ Δ := fun k hk => by
    rw [hΔ]
    exact Finset.single_le_sum (f := δ) (fun k _ => δ0 k) (Finset.mem_range.2 hk)
  have lN : ∀ k, l * N k ≤ (1 - μ) ^ 2 := fun k => by
    have h3 : l * N k * (1 + μ) ^ 2 ≤ (1 - μ) ^ 2 := hN (s + k)
    have h4 := mul_nonneg (mul_nonneg hl.le (N0 k)) (by nlinarith : 0 ≤ (1 + μ) ^ 2 - 1)
    linarith
  have lN1 : ∀ k, l * N k ≤ 1 := fun k => (lN k).trans (by nlinarith)
  -- the velocities
  have vel : ∀ k, ∀ j < L, l ^ 2 * N k * S (j + 1) ≤ 4 / a * δ j := by
    intro k j hj
    have h3 : S (j + 1) ≤ 2 * μ ^ 2 * S j + 2 * N j * e j ^ 2 := by
      have h4 : ∀ i ∈ Finset.range n, vs (j + 1) i ^ 2 ≤ 2 * μ ^ 2 * vs j i ^ 2 + 2 * e j ^ 2 * g (s + j) i ^ 2 := by
        intro i hi
        rw [hvs j hj i (Finset.mem_range.1 hi)]
        nlinarith [sq_nonneg (μ * vs j i + g (s + j) i * e j)]
      refine (Finset.sum_le_sum h4).trans (le_of_eq ?_)
      rw [Finset.sum_add_distrib, ← Finset.mul_sum, ← Finset.mul_sum]
      ring
    have h4 : l ^ 2 * N k * S (j + 1) ≤ l * (l * N k) * (2 * μ ^ 2 * S j) + 2 * ((l * N k) * (l * N j)) * e j ^ 2 := by
      have := mul_le_mul_of_nonneg_left h3 (mul_nonneg (sq_nonneg l) (N0 k))
      linarith
    have h5 : l * (l * N k) * (2 * μ ^ 2 * S j) ≤ l * (1 - μ) ^ 2 * (2 * μ ^ 2 * S j) :=
      mul_le_mul_of_nonneg_right (mul_le_mul_of_nonneg_left (lN k) hl.le) (by have := S0 j; positivity)
    have h6 : (l * N k) * (l * N j) ≤ 1 := mul_le_one₀ (lN1 k) (mul_nonneg hl.le (N0 j)) (lN1 j)
    have h7 := mul_le_mul_of_nonneg_right h6 (sq_nonneg (e j))
    have h8 : l * (1 - μ) ^ 2 * (2 * μ ^ 2 * S j) ≤ 4 / a * (a ^ 2 * μ * (1 - μ ^ 2) / 2 * S j) := by
      have e1 : 4 / a * (a ^ 2 * μ * (1 - μ ^ 2) / 2 * S j) = 2 * a * μ * (1 - μ) * S j * (1 + μ) := by
        field_simp
        ring
      have e2 : l * (1 - μ) ^ 2 * (2 * μ ^ 2 * S j) = 2 * a * μ * (1 - μ) * S j * (μ * (1 - μ) ^ 2) := by
        rw [hla]
        ring
      rw [e1, e2]
      refine mul_le_mul_of_nonneg_left ?_ (by have := S0 j; positivity)
      have : μ * (1 - μ) ^ 2 ≤ 1 := mul_le_one₀ h1.le (sq_nonneg _) (by nlinarith)
      linarith
    have h9 : 4 / a * δ j = 4 / a * (a ^ 2 * μ * (1 - μ ^ 2) / 2 * S j) + 4 * e j ^ 2 := by
      show 4 / a * (a ^ 2 * μ * (1 - μ ^ 2) / 2 * S j + a * e j ^ 2) = _
      field_simp
    have := sq_nonneg (e j)
    linarith
  -- how far the weights move
  have path : ∀ k ≤ L, ∀ i < n, us k i - us 0 i = l * ∑ j ∈ Finset.range k, vs (j + 1) i := by
    intro k
    induction k with
    | zero => intro _ i _; simp
    | succ k ih =>
      intro hk i hi
      rw [Finset.sum_range_succ, mul_add, ← ih (by omega) i hi, hus k (by omega) i hi]
      ring
  have shift : ∀ k < L, (∑ j ∈ Finset.range n, g (s + k) j * (us k j - us 0 j)) ^ 2 ≤ 4 / a * (L * Δ) := by
    intro k hk
    have e1 : ∑ j ∈ Finset.range n, g (s + k) j * (us k j - us 0 j) =
        ∑ m ∈ Finset.range k, l * ∑ j ∈ Finset.range n, g (s + k) j * vs (m + 1) j := by
      simp only [Finset.mul_sum]
      rw [Finset.sum_comm]
      refine Finset.sum_congr rfl fun j hj => ?_
      rw [path k hk.le j (Finset.mem_range.1 hj), Finset.mul_sum, Finset.mul_sum]
      exact Finset.sum_congr rfl fun m _ => by ring
    rw [e1]
    have h3 := sq_sum_le_card_mul_sum_sq (s := Finset.range k)
      (f := fun m => l * ∑ j ∈ Finset.range n, g (s + k) j * vs (m + 1) j)
    rw [Finset.card_range] at h3
    refine h3.trans ?_
    have h4 : ∑ m ∈ Finset.range k, (l * ∑ j ∈ Finset.range n, g (s + k) j * vs (m + 1) j) ^ 2 ≤
        ∑ m ∈ Finset.range k, 4 / a * δ m := by
      refine Finset.sum_le_sum fun m hm => ?_
      have hm := Finset.mem_range.1 hm
      refine le_trans ?_ (vel k m (by omega))
      have := Finset.sum_mul_sq_le_sq_mul_sq (Finset.range n) (g (s + k)) (vs (m + 1))
      have := mul_le_mul_of_nonneg_left this (sq_nonneg l)
      rw [mul_pow]
      linarith
    rw [← Finset.mul_sum] at h4
    have h5 : ∑ m ∈ Finset.range k, δ m ≤ Δ := by
      rw [hΔ]
      exact Finset.sum_le_sum_of_subset_of_nonneg (Finset.range_subset_range.2 hk.le) fun m _ _ => δ0 m
    have h6 := mul_le_mul_of_nonneg_left h5 (by positivity : 0 ≤ 4 / a)
    have hk' : (k : ℝ) ≤ L := by exact_mod_cast hk.le
    have Δ0 : 0 ≤ 4 / a * Δ := mul_nonneg (by positivity) ((δ0 k).trans (one k hk))
    calc (k : ℝ) * _ ≤ k * (4 / a * Δ) := mul_le_mul_of_nonneg_left (h4.trans h6) k.cast_nonneg
      _ ≤ L * (4 / a * Δ) := mul_le_mul_of_nonneg_right hk' Δ0
      _ = 4 / a * (L * Δ) := by ring
  have Δ0 : 0 ≤ Δ := (δ0 0).trans (one 0 hL)
  -- the first weights are seen
  have seen : κ * ∑ j ∈ Finset.range n, us 0 j ^ 2 ≤ 10 * (1 - μ) * L ^ 2 * Δ := by
    refine (h s (us 0)).trans ?_
    have h3 : ∀ k ∈ Finset.range L, l * (∑ j ∈ Finset.range n, g (s + k) j * us 0 j) ^ 2 ≤
        2 * (1 - μ) * δ k + 8 * (1 - μ) * (L * Δ) := by
      intro k hk
      have hk := Finset.mem_range.1 hk
      have e1 : ∑ j ∈ Finset.range n, g (s + k) j * us 0 j = e k - ∑ j ∈ Finset.range n, g (s + k) j * (us k j - us 0 j) := by
        show _ = ∑ j ∈ Finset.range n, g (s + k) j * us k j - _
        rw [← Finset.sum_sub_distrib]
        exact Finset.sum_congr rfl fun j _ => by ring
      rw [e1]
      have h4 := shift k hk
      generalize ∑ j ∈ Finset.range n, g (s + k) j * (us k j - us 0 j) = z at h4 ⊢
      have h5 : (e k - z) ^ 2 ≤ 2 * e k ^ 2 + 2 * z ^ 2 := by nlinarith [sq_nonneg (e k + z)]
      have h6 : a * e k ^ 2 ≤ δ k := by
        show _ ≤ a ^ 2 * μ * (1 - μ ^ 2) / 2 * S k + a * e k ^ 2
        have : 0 ≤ a ^ 2 * μ * (1 - μ ^ 2) / 2 * S k := by have := S0 k; positivity
        linarith
      have h7 := mul_le_mul_of_nonneg_left h5 hl.le
      have h8 := mul_le_mul_of_nonneg_left h6 hm.le
      have h9 := mul_le_mul_of_nonneg_left h4 hl.le
      have e2 : l * (4 / a * (L * Δ)) = 4 * (1 - μ) * (L * Δ) := by
        rw [hla]
        field_simp
      rw [e2] at h9
      rw [hla] at h7 h9 ⊢
      linarith
    refine (Finset.sum_le_sum h3).trans ?_
    rw [Finset.sum_add_distrib, ← Finset.mul_sum, ← hΔ, Finset.sum_const, Finset.card_range, nsmul_eq_mul]
    have h4 : (1 : ℝ) ≤ L ^ 2 := one_le_pow₀ L1
    have h5 := mul_le_mul_of_nonneg_right h4 (mul_nonneg hm.le Δ0)
    linarith
  have first : P 0 ≤ (20 * (1 - μ) * L ^ 2 / κ + 6 / (1 - μ ^ 2)) * Δ := by
    have h3 : P 0 ≤ 2 * (∑ j ∈ Finset.range n, us 0 j ^ 2) + 3 * (a ^ 2 * μ * S 0) := by
      show energyLen n μ l (us 0) (fun i => -vs 0 i) ^ 2 ≤ _
      unfold energyLen
      rw [Real.sq_sqrt (by positivity), len_sq, mul_pow, mul_pow, Real.sq_sqrt h0, len_sq, ← ha]
      simp only [neg_sq, mul_neg, sub_neg_eq_add]
      have h4 : ∑ i ∈ Finset.range n, (us 0 i + μ * a * vs 0 i) ^ 2 ≤ 2 * (∑ j ∈ Finset.range n, us 0 j ^ 2) +
          2 * (μ * a) ^ 2 * S 0 := by
        show _ ≤ 2 * _ + 2 * (μ * a) ^ 2 * ∑ i ∈ Finset.range n, vs 0 i ^ 2
        rw [Finset.mul_sum, Finset.mul_sum, ← Finset.sum_add_distrib]
        exact Finset.sum_le_sum fun i _ => by nlinarith [sq_nonneg (us 0 i - μ * a * vs 0 i)]
      have h5 : (μ * a) ^ 2 * S 0 ≤ a ^ 2 * μ * S 0 := by
        refine mul_le_mul_of_nonneg_right ?_ (S0 0)
        have := mul_le_mul_of_nonneg_right h1.le (mul_nonneg (sq_nonneg a) h0)
        linarith
      show _ + a ^ 2 * μ * S 0 ≤ _
      linarith
    have h4 : a ^ 2 * μ * S 0 ≤ 2 / (1 - μ ^ 2) * Δ := by
      have h5 := one 0 hL
      have h6 : a ^ 2 * μ * (1 - μ ^ 2) / 2 * S 0 ≤ δ 0 := by
        show _ ≤ a ^ 2 * μ * (1 - μ ^ 2) / 2 * S 0 + a * e 0 ^ 2
        have : 0 ≤ a * e 0 ^ 2 := by positivity
        linarith
      rw [div_mul_eq_mul_div, le_div_iff₀ hm2]
      linarith
    have h5 : ∑ j ∈ Finset.range n, us 0 j ^ 2 ≤ 10 * (1 - μ) * L ^ 2 * Δ / κ := by
      rw [le_div_iff₀ hκ, mul_comm]
      exact seen
    have e1 : (20 * (1 - μ) * L ^ 2 / κ + 6 / (1 - μ ^ 2)) * Δ = 2 * (10 * (1 - μ) * L ^ 2 * Δ / κ) + 3 * (2 / (1 - μ ^ 2) * Δ) := by
      ring
    rw [e1]
    linarith
  generalize hQ : 20 * (1 - μ) * L ^ 2 / κ + 6 / (1 - μ ^ 2) = Q at first ⊢
  have Q0 : 0 < Q := by rw [← hQ]; positivity
  have fin : P L ≤ (1 - 1 / Q) * P 0 := by
    have h3 : 1 / Q * P 0 ≤ Δ := by
      rw [one_div, inv_mul_le_iff₀ Q0]
      exact first
    linarith
  refine (Real.le_sqrt_of_sq_le fin).trans (le_of_eq ?_)
  rw [Real.sqrt_mul' _ (sq_nonneg _), Real.sqrt_sq (energyLen_nonneg _ _ _ _ _)]

/-- The hypotheses are met: one constant feature, momentum `1/2`, rate `1/16`, any targets of at most `Y ≤ 2^100`, however noisy. For
ever, the weight is finite and within `2^29 Y 2^-53 + 2^-780` of exact training. -/
theorem C190_example (hM : M.rnd = binary64Format.rnd) (lr m : FP M) (hl : Is lr (1 / 16)) (hm : Is m (1 / 2)) (ys : Nat → FP M) (Y : ℝ)
    (hY : Y ≤ 2 ^ 100) (hy : ∀ t, Bounded Y (ys t)) :
    ∃ (fas : Nat → ScalarLFA (FixedSparse (FP M)) (SGDMomentum (FP M)) (FP M))
      (gas : Nat → ScalarLFA (FixedSparse ℝ) (SGDMomentum ℝ) ℝ) (ps : Nat → FP M) (qs : Nat → ℝ),
      fas 0 = LFA.mk ⟨1, [0]⟩ [Scalar.zero] ⟨m, lr, [Scalar.zero]⟩ ∧ gas 0 = LFA.mk ⟨1, [0]⟩ [0] ⟨1 / 2, 1 / 16, [0]⟩ ∧
      Stream fas (fun _ => ()) ys ps ∧ Stream gas (fun _ => ()) (fun t => real (ys t)) qs ∧
      ∀ t : Nat, Spec.Finite (entry (fas t).weights 0) ∧
        |real (entry (fas t).weights 0) - entry (gas t).weights 0| ≤ 2 ^ 29 * Y * 2 ^ (-53 : ℤ) + 2 ^ (-780 : ℤ) := by
  have hp : Basis.project (⟨1, [0]⟩ : FixedSparse (FP M)) () =
      .ok (.ok (.sparse ⟨1, [(0, (Scalar.one : FP M))]⟩)) := rfl
  have hpr : Basis.project (⟨1, [0]⟩ : FixedSparse ℝ) () =
      .ok (.ok (.sparse ⟨1, [(0, (Scalar.one : ℝ))]⟩)) := rfl
  have hf : ∀ {K : Type} [Scalar K], Fits 1 (.sparse ⟨1, [(0, (Scalar.one : K))]⟩) := fun {K} _ => by
    refine ⟨⟨List.nodup_singleton _, fun e he => ?_⟩, rfl⟩
    rw [List.mem_singleton] at he
    subst he
    exact Nat.zero_lt_one
  obtain ⟨fas, ps, hs, h0⟩ := stream_any (O := SGDMomentum (FP M)) (⟨1, [0]⟩ : FixedSparse (FP M)) (n := 1) (fun _ => ()) ys
    (fun _ => ⟨_, hp, hf⟩) [Scalar.zero] rfl ⟨m, lr, [Scalar.zero]⟩ rfl
  obtain ⟨gas, qs, hg, hg0⟩ := stream_any (O := SGDMomentum ℝ) (⟨1, [0]⟩ : FixedSparse ℝ) (n := 1) (fun _ => ())
    (fun t => real (ys t)) (fun _ => ⟨_, hpr, hf⟩) [0] rfl ⟨1 / 2, 1 / 16, [0]⟩ rfl
  have hval : value (.sparse ⟨1, [(0, (Scalar.one : ℝ))]⟩ : Features ℝ) 0 = 1 := real_one
  have hN : normSq (.sparse ⟨1, [(0, (Scalar.one : ℝ))]⟩) = 1 := by
    rw [normSq]
    show ∑ i ∈ Finset.range 1, _ = _
    rw [Finset.sum_range_one]
    show (Scalar.one : ℝ) * Scalar.one = 1
    rw [real_one, mul_one]
  have len1 : ∀ f : Nat → ℝ, len 1 f = |f 0| := fun f => by
    unfold len
    rw [Finset.sum_range_one, Real.sqrt_sq_eq_abs]
  have big : (1 : ℝ) ≤ 2 ^ 100 := one_le_pow₀ (by norm_num)
  have Y0 : 0 ≤ Y := by
    obtain ⟨r, -, h⟩ := hy 0
    exact (abs_nonneg r).trans h
  have zero : ∀ i < 1, entry [(0 : ℝ)] i = real (entry [(Scalar.zero : FP M)] i) ∧ Bounded (2 ^ 100) (entry [(Scalar.zero : FP M)] i) :=
    fun i hi => by
      obtain rfl : i = 0 := by omega
      refine ⟨?_, bounded_zero (by positivity)⟩
      show (0 : ℝ) = real (Scalar.zero : FP M)
      rw [is_real val_zero]
  have persists : MomentumPersistent 1 1 (fun _ => value (.sparse ⟨1, [(0, (Scalar.one : ℝ))]⟩ : Features ℝ)) (1 / 2) (1 / 16)
      (335 / 336) := by
    have := C190_excited 1 1 (fun _ => value (.sparse ⟨1, [(0, (Scalar.one : ℝ))]⟩ : Features ℝ)) (1 / 2) (1 / 16) (1 / 16)
      (by norm_num) (by norm_num) (by norm_num) (by norm_num) Nat.zero_lt_one (fun _ => by
        rw [Finset.sum_range_one, hval]
        norm_num) (fun s u => by
        simp only [Finset.sum_range_one, hval]
        exact le_of_eq (by ring))
    refine fun s us vs hvs hus => (this s us vs hvs hus).trans (mul_le_mul_of_nonneg_right ?_ (energyLen_nonneg _ _ _ _ _))
    refine Real.sqrt_le_iff.2 ⟨by norm_num, by norm_num⟩
  refine ⟨fas, gas, ps, qs, h0, hg0, hs, hg, fun t => ?_⟩
  obtain ⟨h1, -, -, -, h2, -⟩ := C190_momentum hM 1 1 1 fas gas (fun _ => ()) ys ps qs hs hg
    (fun _ => .sparse ⟨1, [(0, (Scalar.one : FP M))]⟩) (fun _ => .sparse ⟨1, [(0, (Scalar.one : ℝ))]⟩)
    (fun _ => ⟨by rw [h0]; exact hp, hf⟩) (fun _ => ⟨by rw [hg0]; exact hpr, hf⟩)
    (fun _ i hi => by
      obtain rfl : i = 0 := by omega
      show (Scalar.one : ℝ) = real (Scalar.one : FP M)
      rw [is_real val_one, real_one])
    (by rw [h0]; exact ⟨rfl, rfl⟩) (by rw [hg0]; exact ⟨rfl, rfl⟩) (by rw [h0, hg0]; exact zero) (by rw [h0, hg0]; exact zero)
    (1 / 2) (1 / 16) (by rw [h0, hg0]; exact ⟨rfl, hl⟩) (by rw [h0, hg0]; exact ⟨rfl, hm⟩) (by norm_num) (by norm_num)
    (by norm_num) (by norm_num) (fun _ => by rw [hN]; norm_num)
    (fun t => ⟨by norm_num, ⟨le_rfl, by norm_num⟩, fun i x hx => by
      obtain ⟨rfl, rfl⟩ := Prod.mk.inj (List.mem_singleton.1 hx)
      exact ⟨1, val_one, by rw [abs_one]; exact big⟩, bounded_mono (hy t) hY⟩)
    (1 / 4 * Y) (fun t => by
      obtain ⟨r, hr, h⟩ := hy t
      rw [hN, Real.sqrt_one, mul_one, is_real hr]
      have := mul_le_mul_of_nonneg_left h (by norm_num : (0 : ℝ) ≤ 1 / 4)
      linarith) (by
      have : (2 : ℝ) ^ 100 ≤ 2 ^ 190 := pow_le_pow_right₀ (by norm_num) (by norm_num)
      linarith) (335 / 336) (by norm_num) Nat.zero_lt_one persists (by norm_num) _ _ rfl rfl t
  refine ⟨(h1 0 Nat.zero_lt_one).1, ?_⟩
  have z : energyLen 1 (1 / 2) (1 / 16) (entry [(0 : ℝ)]) (fun i => -entry [(0 : ℝ)] i) = 0 := by
    have e0 : ∀ i < 1, entry [(0 : ℝ)] i = 0 := fun i hi => by
      obtain rfl : i = 0 := by omega
      rfl
    rw [energyLen_congr (d' := fun _ => 0) (u' := fun _ => 0) e0 (fun i hi => by rw [e0 i hi, neg_zero]), energyLen_zero]
  rw [len1, hg0, z] at h2
  refine h2.trans ?_
  have e800 : 5040 * (2 : ℝ) ^ (-800 : ℤ) ≤ 2 ^ (-780 : ℤ) := by
    rw [show (-780 : ℤ) = 20 + -800 by norm_num, zpow_add₀ (by norm_num)]
    exact mul_le_mul_of_nonneg_right (by norm_num) (by positivity)
  generalize (2 : ℝ) ^ (-800 : ℤ) = η at *
  generalize (2 : ℝ) ^ (-780 : ℤ) = η' at *
  have v0 : (0 : ℝ) < 2 ^ (-53 : ℤ) := by positivity
  generalize (2 : ℝ) ^ (-53 : ℤ) = v at *
  have := mul_nonneg Y0 v0.le
  push_cast
  norm_num
  linarith

end

end Lfa

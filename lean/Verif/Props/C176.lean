import Verif.Props.C157
import Verif.Props.C154
import Verif.Props.C172

/-!
# C176: Momentum and NAG in double precision follow training in exact arithmetic

`M` is any machine that rounds like `f64`; how sums are ordered is left open. A run of Momentum or NAG in `f64` is compared with the run
in exact arithmetic on the same examples. C154 has a distance on weights and velocities together that exact steps never increase if
`lr ‖φ‖² (1 + momentum) ≤ 2 (1 - momentum)²`. So the rounding errors of the calls add up and are not amplified.
-/

set_option linter.unusedSectionVars false

namespace Lfa

open Spec Machine XReal

variable {M : Machine}

/-! ## The distance on weights and velocities -/

/-- The distance of C154: `√(‖d - b u‖² + a b ‖u‖²)` with `a = lr / (1 - μ)` and `b = μ a`. -/
noncomputable def energyLen (n : Nat) (μ l : ℝ) (d u : Nat → ℝ) : ℝ :=
  √(len n (fun i => d i - μ * (l / (1 - μ)) * u i) ^ 2 + (l / (1 - μ) * √μ * len n u) ^ 2)

theorem energyLen_nonneg (n : Nat) (μ l : ℝ) (d u : Nat → ℝ) : 0 ≤ energyLen n μ l d u := Real.sqrt_nonneg _

theorem hypot_add_le (a b c d : ℝ) : √((a + b) ^ 2 + (c + d) ^ 2) ≤ √(a ^ 2 + c ^ 2) + √(b ^ 2 + d ^ 2) := by
  have h1 := Real.sq_sqrt (by positivity : 0 ≤ a ^ 2 + c ^ 2)
  have h2 := Real.sq_sqrt (by positivity : 0 ≤ b ^ 2 + d ^ 2)
  have h3 := Real.sqrt_nonneg (a ^ 2 + c ^ 2)
  have h4 := Real.sqrt_nonneg (b ^ 2 + d ^ 2)
  refine Real.sqrt_le_iff.2 ⟨by positivity, ?_⟩
  have h5 : a * b + c * d ≤ √(a ^ 2 + c ^ 2) * √(b ^ 2 + d ^ 2) := by
    refine abs_le_of_sq_le_sq' ?_ (mul_nonneg h3 h4) |>.2
    rw [mul_pow, h1, h2]
    nlinarith [sq_nonneg (a * d - b * c)]
  nlinarith

theorem energyLen_add_le (n : Nat) {μ l : ℝ} (h1 : μ < 1) (hl : 0 ≤ l) (d u d' u' : Nat → ℝ) :
    energyLen n μ l (fun i => d i + d' i) (fun i => u i + u' i) ≤ energyLen n μ l d u + energyLen n μ l d' u' := by
  have ha : 0 ≤ l / (1 - μ) * √μ := mul_nonneg (div_nonneg hl (by linarith)) (Real.sqrt_nonneg μ)
  refine le_trans (Real.sqrt_le_sqrt (add_le_add ?_ ?_)) (hypot_add_le _ _ _ _)
  · refine pow_le_pow_left₀ (len_nonneg _ _) ?_ 2
    refine le_trans (le_of_eq (len_congr fun i _ => ?_)) (len_add_le n (fun i => d i - μ * (l / (1 - μ)) * u i)
      (fun i => d' i - μ * (l / (1 - μ)) * u' i))
    ring
  · refine pow_le_pow_left₀ (mul_nonneg ha (len_nonneg _ _)) ?_ 2
    rw [← mul_add]
    exact mul_le_mul_of_nonneg_left (len_add_le n u u') ha

theorem energyLen_congr {n : Nat} {μ l : ℝ} {d u d' u' : Nat → ℝ} (hd : ∀ i < n, d i = d' i) (hu : ∀ i < n, u i = u' i) :
    energyLen n μ l d u = energyLen n μ l d' u' := by
  unfold energyLen
  rw [len_congr hu, len_congr fun i hi => by rw [hd i hi, hu i hi]]

theorem energyLen_zero (n : Nat) (μ l : ℝ) : energyLen n μ l (fun _ => 0) (fun _ => 0) = 0 := by
  unfold energyLen
  simp only [mul_zero, sub_zero, len_const n 0 le_rfl]
  simp

/-- Exact steps do not increase it. -/
theorem energyLen_step (n : Nat) {μ l : ℝ} (h0 : 0 ≤ μ) (h1 : μ < 1) (hl : 0 < l) {f : Nat → ℝ}
    (hN : l * (∑ i ∈ Finset.range n, f i ^ 2) * (1 + μ) ≤ 2 * (1 - μ) ^ 2) (d u : Nat → ℝ) :
    energyLen n μ l (fun i => d i - l * (μ * u i + f i * ∑ j ∈ Finset.range n, f j * d j))
      (fun i => μ * u i + f i * ∑ j ∈ Finset.range n, f j * d j) ≤ energyLen n μ l d u := by
  have hm : 0 < 1 - μ := by linarith
  refine Real.sqrt_le_sqrt ?_
  have h := momentum_energy (n := n) (f := f) (d := d) (u := u) (e := ∑ j ∈ Finset.range n, f j * d j) h0 h1 hl rfl
    (fun _ _ => rfl) (fun _ _ => rfl)
  have hc : 0 ≤ l / (1 - μ) * (2 - l * (∑ i ∈ Finset.range n, f i ^ 2) * (1 + μ) / (1 - μ) ^ 2) *
      (∑ j ∈ Finset.range n, f j * d j) ^ 2 := by
    refine mul_nonneg (mul_nonneg (div_pos hl hm).le (sub_nonneg.2 ?_)) (sq_nonneg _)
    rw [div_le_iff₀ (by positivity)]
    exact hN
  have e : ∀ v : Nat → ℝ, (l / (1 - μ) * √μ * len n v) ^ 2 = l / (1 - μ) * (μ * (l / (1 - μ))) * ∑ i ∈ Finset.range n, v i ^ 2 := by
    intro v
    rw [mul_pow, mul_pow, Real.sq_sqrt h0, len_sq]
    ring
  rw [e, e, len_sq, len_sq]
  linarith

/-- The weights are within `√(1 + μ)` of it. -/
theorem len_le_energyLen (n : Nat) {μ l : ℝ} (h0 : 0 ≤ μ) (h1 : μ < 1) (hl : 0 ≤ l) (d u : Nat → ℝ) :
    len n d ≤ √(1 + μ) * energyLen n μ l d u := by
  have ha : 0 ≤ l / (1 - μ) := div_nonneg hl (by linarith)
  set a := l / (1 - μ) with haa
  set p := len n (fun i => d i - μ * a * u i) with hp
  set q := a * √μ * len n u with hq
  have h : len n d ≤ p + √μ * q := by
    have := len_add_le n (fun i => d i - μ * a * u i) (fun i => μ * a * u i)
    rw [len_smul (mul_nonneg h0 ha)] at this
    refine le_trans (le_of_eq (len_congr fun i _ => by ring)) (this.trans (le_of_eq ?_))
    rw [hq, hp, show √μ * (a * √μ * len n u) = (√μ * √μ) * a * len n u by ring, Real.mul_self_sqrt h0]
  refine h.trans ?_
  have e : energyLen n μ l d u = √(p ^ 2 + q ^ 2) := rfl
  rw [e, ← Real.sqrt_mul (by linarith)]
  refine Real.le_sqrt_of_sq_le ?_
  have h2 := Real.sq_sqrt h0
  nlinarith [sq_nonneg (√μ * p - q)]

/-- What an error `ε` in the weights and `δ` in the velocity adds. -/
theorem energyLen_err (n : Nat) {μ l : ℝ} (h1 : μ < 1) (hl : 0 ≤ l) (ε δ : Nat → ℝ) :
    energyLen n μ l (fun i => -(l * δ i + ε i)) δ ≤ len n ε + l / (1 - μ) * (1 + √μ) * len n δ := by
  have hm : 0 < 1 - μ := by linarith
  have ha : 0 ≤ l / (1 - μ) := div_nonneg hl hm.le
  have hs := Real.sqrt_nonneg μ
  have hd := len_nonneg n δ
  have hh : ∀ x y : ℝ, 0 ≤ x → 0 ≤ y → √(x ^ 2 + y ^ 2) ≤ x + y := fun x y hx hy =>
    Real.sqrt_le_iff.2 ⟨by positivity, by nlinarith⟩
  refine (hh _ _ (len_nonneg _ _) (by positivity)).trans ?_
  have h : len n (fun i => -(l * δ i + ε i) - μ * (l / (1 - μ)) * δ i) ≤ l / (1 - μ) * len n δ + len n ε := by
    have e : len n (fun i => -(l * δ i + ε i) - μ * (l / (1 - μ)) * δ i) = len n (fun i => l / (1 - μ) * δ i + ε i) := by
      rw [← len_abs]
      conv_rhs => rw [← len_abs]
      refine len_congr fun i _ => ?_
      have : -(l * δ i + ε i) - μ * (l / (1 - μ)) * δ i = -(l / (1 - μ) * δ i + ε i) := by
        field_simp
        ring
      rw [this, abs_neg]
    rw [e]
    refine (len_add_le n _ _).trans (le_of_eq ?_)
    rw [len_smul ha]
  linarith

/-- Two runs with the same features and targets, the first with errors `δ` in the velocity and `ε` in the weights. -/
theorem momentum_follow {n T : Nat} {μ l : ℝ} (h0 : 0 ≤ μ) (h1 : μ < 1) (hl : 0 < l) {f : Nat → Nat → ℝ}
    (hN : ∀ t, l * (∑ i ∈ Finset.range n, f t i ^ 2) * (1 + μ) ≤ 2 * (1 - μ) ^ 2) {w v W V r : Nat → Nat → ℝ} {y : Nat → ℝ}
    {δ ε : Nat → ℝ}
    (hV : ∀ t, ∀ i < n, V (t + 1) i = μ * V t i + f t i * (y t - ∑ j ∈ Finset.range n, f t j * W t j))
    (hW : ∀ t, ∀ i < n, W (t + 1) i = W t i + l * V (t + 1) i + r t i)
    (hv : ∀ t < T, len n (fun i => v (t + 1) i - (μ * v t i + f t i * (y t - ∑ j ∈ Finset.range n, f t j * w t j))) ≤ δ t)
    (hw : ∀ t < T, len n (fun i => w (t + 1) i - (w t i + l * v (t + 1) i + r t i)) ≤ ε t)
    (hv0 : ∀ i < n, V 0 i = v 0 i) (hw0 : ∀ i < n, W 0 i = w 0 i) :
    len n (fun i => w T i - W T i) ≤ √(1 + μ) * ∑ t ∈ Finset.range T, (ε t + l / (1 - μ) * (1 + √μ) * δ t) := by
  have key : energyLen n μ l (fun i => W T i - w T i) (fun i => v T i - V T i) ≤
      ∑ t ∈ Finset.range T, (ε t + l / (1 - μ) * (1 + √μ) * δ t) := by
    induction T with
    | zero =>
      rw [Finset.range_zero, Finset.sum_empty, energyLen_congr (d' := fun _ => 0) (u' := fun _ => 0)
        (fun i hi => by rw [hw0 i hi, sub_self]) (fun i hi => by rw [hv0 i hi, sub_self]), energyLen_zero]
    | succ T ih =>
      have ih := ih (fun t ht => hv t (by omega)) (fun t ht => hw t (by omega))
      rw [Finset.sum_range_succ (fun t => ε t + l / (1 - μ) * (1 + √μ) * δ t) T]
      set D : Nat → ℝ := fun i => v (T + 1) i - (μ * v T i + f T i * (y T - ∑ j ∈ Finset.range n, f T j * w T j)) with hD
      set E : Nat → ℝ := fun i => w (T + 1) i - (w T i + l * v (T + 1) i + r T i) with hE
      have a1 := energyLen_step n h0 h1 hl (hN T) (fun i => W T i - w T i) (fun i => v T i - V T i)
      have a2 := energyLen_err n h1 hl.le E D
      have a3 := energyLen_add_le n h1 hl.le
        (fun i => (W T i - w T i) - l * (μ * (v T i - V T i) + f T i * ∑ j ∈ Finset.range n, f T j * (W T j - w T j)))
        (fun i => μ * (v T i - V T i) + f T i * ∑ j ∈ Finset.range n, f T j * (W T j - w T j)) (fun i => -(l * D i + E i)) D
      have hm : 0 < 1 - μ := by linarith
      have a4 := mul_le_mul_of_nonneg_left (hv T (by omega))
        (mul_nonneg (div_pos hl hm).le (by positivity : 0 ≤ 1 + √μ))
      have a5 := hw T (by omega)
      have ed : ∑ j ∈ Finset.range n, f T j * (W T j - w T j) =
          ∑ j ∈ Finset.range n, f T j * W T j - ∑ j ∈ Finset.range n, f T j * w T j := by
        rw [← Finset.sum_sub_distrib]
        exact Finset.sum_congr rfl fun j _ => by ring
      have a6 : energyLen n μ l (fun i => W (T + 1) i - w (T + 1) i) (fun i => v (T + 1) i - V (T + 1) i) =
          energyLen n μ l (fun i => (W T i - w T i) -
            l * (μ * (v T i - V T i) + f T i * ∑ j ∈ Finset.range n, f T j * (W T j - w T j)) + -(l * D i + E i))
            (fun i => μ * (v T i - V T i) + f T i * ∑ j ∈ Finset.range n, f T j * (W T j - w T j) + D i) := by
        refine energyLen_congr (fun i hi => ?_) (fun i hi => ?_)
        · rw [hW T i hi, hV T i hi, ed]
          simp only [hD, hE]
          ring
        · rw [hV T i hi, ed]
          simp only [hD]
          ring
      rw [a6]
      linarith
  have e : len n (fun i => w T i - W T i) = len n (fun i => W T i - w T i) := by
    rw [← len_abs]
    conv_rhs => rw [← len_abs]
    exact len_congr fun i _ => abs_sub_comm _ _
  rw [e]
  exact (len_le_energyLen n h0 h1 hl.le _ _).trans (mul_le_mul_of_nonneg_left key (Real.sqrt_nonneg _))

/-! ## One call in `f64` -/

/-- How far rounding can take the velocities of one call with target `y` and prediction `p` (Euclidean length). -/
noncomputable def Spec.velocityError (n : Nat) (m : FP M) (φ : Features (FP M)) (v w : List (FP M)) (y p : FP M) : ℝ :=
  ((1 + roundoff) ^ 2 - 1) * |real m| * len n (fun i => real (entry v i)) + len n (fun i => real (value φ i)) *
    (((1 + roundoff) ^ 3 - 1) * |real y - real p| + predictionError φ w) + 2 * (1 + roundoff) * √n * tiny

/-- How far rounding can take the weights when they move along the velocities `v`. -/
noncomputable def Spec.moveError (n : Nat) (lr : FP M) (w v : List (FP M)) : ℝ :=
  roundoff * len n (fun i => real (entry w i)) + ((1 + roundoff) ^ 2 - 1) * |real lr| * len n (fun i => real (entry v i)) +
    (1 + roundoff) * √n * tiny

/-- The same for NAG, which also adds the activations. -/
noncomputable def Spec.lookaheadError (n : Nat) (m lr : FP M) (φ : Features (FP M)) (w v : List (FP M)) : ℝ :=
  ((1 + roundoff) ^ 2 - 1) * len n (fun i => real (entry w i)) +
    ((1 + roundoff) ^ 3 - 1) * |real lr| * len n (fun i => real (entry v i)) +
    ((1 + roundoff) ^ 2 - 1) * |real m| * len n (fun i => real (value φ i)) + ((1 + roundoff) ^ 2 + (1 + roundoff)) * √n * tiny

/-- What rounding can add to the distance of C154 in one call of Momentum from weights `w` and velocities `v`, which become `v'`. -/
noncomputable def Spec.momentumError (n : Nat) (m lr : FP M) (φ : Features (FP M)) (w v v' : List (FP M)) (y p : FP M) : ℝ :=
  moveError n lr w v' + real lr / (1 - real m) * (1 + √(real m)) * velocityError n m φ v w y p

/-- The same for NAG. -/
noncomputable def Spec.nagError (n : Nat) (m lr : FP M) (φ : Features (FP M)) (w v v' : List (FP M)) (y p : FP M) : ℝ :=
  lookaheadError n m lr φ w v' + real lr / (1 - real m) * (1 + √(real m)) * velocityError n m φ v w y p

/-- `a v + g` after rounding. -/
theorem blend_real {u τ a b g X Y z : ℝ} (u0 : 0 ≤ u) (hX : |a - X| ≤ u * |X| + τ) (hY : |g - Y| ≤ u * |Y| + τ)
    (hz : |z - (a + g)| ≤ u * |a + g|) (hb : b = 2 * (1 + u) * τ) :
    |z - (X + Y)| ≤ ((1 + u) ^ 2 - 1) * (|X| + |Y|) + b := by
  have h1 : |a| ≤ (1 + u) * |X| + τ := by
    have := abs_add_le (a - X) X
    rw [sub_add_cancel] at this
    linarith
  have h2 : |g| ≤ (1 + u) * |Y| + τ := by
    have := abs_add_le (g - Y) Y
    rw [sub_add_cancel] at this
    linarith
  have h3 : |z - (X + Y)| ≤ |z - (a + g)| + (|a - X| + |g - Y|) := by
    have e : z - (X + Y) = (z - (a + g)) + ((a - X) + (g - Y)) := by ring
    rw [e]
    exact (abs_add_le _ _).trans (add_le_add_right (abs_add_le _ _) _)
  have h4 := mul_le_mul_of_nonneg_left ((abs_add_le a g).trans (add_le_add h1 h2)) u0
  rw [hb]
  linarith

/-- One velocity after one call. -/
theorem velocity_err (hM : M.rnd = binary64Format.rnd) {n : Nat} {φ : Features (FP M)} (hφ : Fits n φ) {m y p : FP M}
    {v v' w : List (FP M)} (hv : v.length = n) (h : velocityUpdate m v φ (y -. p) = .ok v')
    (hp : ∀ r, Is p r → |r - exactDot φ w| ≤ predictionError φ w) {i : Nat} (hi : i < n) (hz : Finite (entry v' i)) :
    Finite (entry v i) ∧
    |real (entry v' i) - (real m * real (entry v i) + real (value φ i) * (real y - exactDot φ w))| ≤
      ((1 + roundoff) ^ 2 - 1) * |real m| * |real (entry v i)| + |real (value φ i)| *
        (((1 + roundoff) ^ 3 - 1) * |real y - real p| + predictionError φ w) + 2 * (1 + roundoff) * tiny := by
  have u0 := roundoff_pos
  have τ0 := tiny_pos
  have hP := predictionError_nonneg φ w
  obtain ⟨z, hz⟩ := hz
  obtain ⟨v₁, h1, -, h2⟩ := velocityUpdate_any hφ m (y -. p) hv
  rw [h] at h1
  injection h1 with h1
  subst h1
  have full : ∀ {a : FP M} {c d : ℝ}, Is a c → |c - real m * d| ≤ roundoff * |real m * d| + tiny →
      Is (a +. value φ i *. (y -. p)) z →
      |z - (real m * d + real (value φ i) * (real y - exactDot φ w))| ≤
      ((1 + roundoff) ^ 2 - 1) * |real m| * |d| + |real (value φ i)| *
        (((1 + roundoff) ^ 3 - 1) * |real y - real p| + predictionError φ w) + 2 * (1 + roundoff) * tiny := by
    intro a c d ha hc hs
    obtain ⟨c', g, hc', hg, hs⟩ := add_err hM hs
    cases is_fun hc' ha
    obtain ⟨f, s, hf, hs', hfs⟩ := mul_err hM hg
    obtain ⟨y', p', hy, hp', hyp⟩ := sub_err hM hs'
    have hd := hp _ hp'
    rw [is_real hf, is_real hy, is_real hp']
    have b1 := blend_real u0.le hc hfs hs rfl
    have b2 : |f * s - f * (y' - exactDot φ w)| ≤ |f| * (roundoff * |y' - p'| + predictionError φ w) := by
      rw [← mul_sub, abs_mul]
      refine mul_le_mul_of_nonneg_left ?_ (abs_nonneg f)
      have e : s - (y' - exactDot φ w) = (s - (y' - p')) + -(p' - exactDot φ w) := by ring
      rw [e]
      refine (abs_add_le _ _).trans ?_
      rw [abs_neg]
      exact add_le_add hyp hd
    have b3 : |s| ≤ (1 + roundoff) * |y' - p'| := by
      have := abs_add_le (s - (y' - p')) (y' - p')
      rw [sub_add_cancel] at this
      linarith
    have b4 := mul_le_mul_of_nonneg_left b3 (abs_nonneg f)
    have p2 : 0 ≤ (1 + roundoff) ^ 2 - 1 := by nlinarith
    have b5 := mul_le_mul_of_nonneg_left b4 p2
    rw [abs_mul f s, abs_mul (real m) d] at b1
    have b6 := abs_sub_le z (real m * d + f * s) (real m * d + f * (y' - exactDot φ w))
    have b7 : real m * d + f * s - (real m * d + f * (y' - exactDot φ w)) = f * s - f * (y' - exactDot φ w) := by ring
    rw [b7] at b6
    refine b6.trans ((add_le_add b1 b2).trans (le_of_sub_nonneg ?_))
    have e : ((1 + roundoff) ^ 2 - 1) * |real m| * |d| + |f| * (((1 + roundoff) ^ 3 - 1) * |y' - p'| + predictionError φ w) +
        2 * (1 + roundoff) * tiny - (((1 + roundoff) ^ 2 - 1) * (|real m| * |d| + |f| * |s|) + 2 * (1 + roundoff) * tiny +
          |f| * (roundoff * |y' - p'| + predictionError φ w)) =
        ((1 + roundoff) ^ 2 - 1) * (|f| * ((1 + roundoff) * |y' - p'|)) - ((1 + roundoff) ^ 2 - 1) * (|f| * |s|) := by ring
    rw [e]
    linarith
  rcases h2 i hi with h | ⟨ha, h⟩ | ⟨-, h⟩ <;> rw [h] at hz ⊢ <;> rw [is_real hz]
  · obtain ⟨c, -, hc, -, -⟩ := add_err hM hz
    obtain ⟨μ, d, hμ, hd, hcd⟩ := mul_err hM hc
    refine ⟨⟨d, hd⟩, ?_⟩
    rw [is_real hd]
    rw [← is_real hμ] at hcd
    exact full hc hcd hz
  · obtain ⟨d, μ, hd, hμ, hcd⟩ := mul_err hM hz
    refine ⟨⟨d, hd⟩, ?_⟩
    rw [is_real hd, value_inactive hφ ha, real_zero', zero_mul, add_zero, abs_zero, zero_mul, add_zero, is_real hμ,
      mul_comm μ d, mul_assoc, ← abs_mul, mul_comm μ d]
    refine hcd.trans ?_
    have := abs_nonneg (d * μ)
    nlinarith [mul_nonneg u0.le this, mul_nonneg (mul_nonneg u0.le u0.le) this, mul_nonneg u0.le τ0.le]
  · obtain ⟨c, -, hc, -, -⟩ := add_err hM hz
    obtain ⟨d, μ, hd, hμ, hcd⟩ := mul_err hM hc
    refine ⟨⟨d, hd⟩, ?_⟩
    rw [is_real hd]
    rw [mul_comm d μ, ← is_real hμ] at hcd
    exact full hc hcd hz

/-- One weight after moving along a velocity. -/
theorem move_err (hM : M.rnd = binary64Format.rnd) {lr a c : FP M} (hz : Finite (a +. lr *. c)) :
    Finite a ∧ Finite c ∧ |real (a +. lr *. c) - (real a + real lr * real c)| ≤
      roundoff * |real a| + ((1 + roundoff) ^ 2 - 1) * |real lr| * |real c| + (1 + roundoff) * tiny := by
  have u0 := roundoff_pos
  have τ0 := tiny_pos
  obtain ⟨z, hz⟩ := hz
  obtain ⟨x, q, hx, hq, h⟩ := add_err hM hz
  obtain ⟨l, d, hl, hd, h'⟩ := mul_err hM hq
  refine ⟨⟨x, hx⟩, ⟨d, hd⟩, ?_⟩
  rw [is_real hz, is_real hx, is_real hl, is_real hd]
  have h1 : |q| ≤ (1 + roundoff) * |l * d| + tiny := by
    have := abs_add_le (q - l * d) (l * d)
    rw [sub_add_cancel] at this
    linarith
  have h2 : |z - (x + l * d)| ≤ |z - (x + q)| + |q - l * d| := by
    have e : z - (x + l * d) = (z - (x + q)) + (q - l * d) := by ring
    rw [e]
    exact abs_add_le _ _
  have h3 := mul_le_mul_of_nonneg_left ((abs_add_le x q).trans (add_le_add_right h1 _)) u0.le
  rw [mul_assoc, ← abs_mul]
  linarith

/-- One weight after moving along a velocity and the activation. -/
theorem lookahead_err (hM : M.rnd = binary64Format.rnd) {lr m a c f : FP M} (hz : Finite (a +. lr *. c +. m *. f)) :
    Finite a ∧ Finite c ∧ |real (a +. lr *. c +. m *. f) - (real a + real lr * real c + real m * real f)| ≤
      ((1 + roundoff) ^ 2 - 1) * |real a| + ((1 + roundoff) ^ 3 - 1) * |real lr| * |real c| +
      ((1 + roundoff) ^ 2 - 1) * |real m| * |real f| + ((1 + roundoff) ^ 2 + (1 + roundoff)) * tiny := by
  have u0 := roundoff_pos
  have τ0 := tiny_pos
  obtain ⟨z, hz⟩ := hz
  obtain ⟨x, q, hx, hq, h⟩ := add_err hM hz
  obtain ⟨μ, g, hμ, hg, h'⟩ := mul_err hM hq
  obtain ⟨ha, hc, hb⟩ := move_err hM ⟨x, hx⟩
  refine ⟨ha, hc, ?_⟩
  rw [is_real hx] at hb
  rw [is_real hz, is_real hμ, is_real hg]
  have h1 : |q| ≤ (1 + roundoff) * |μ * g| + tiny := by
    have := abs_add_le (q - μ * g) (μ * g)
    rw [sub_add_cancel] at this
    linarith
  have h0 : |x| ≤ |x - (real a + real lr * real c)| + (|real a| + |real lr| * |real c|) := by
    have := abs_add_le (x - (real a + real lr * real c)) (real a + real lr * real c)
    rw [sub_add_cancel] at this
    have h' := abs_add_le (real a) (real lr * real c)
    rw [abs_mul] at h'
    linarith
  have h2 : |z - (real a + real lr * real c + μ * g)| ≤ |z - (x + q)| + (|x - (real a + real lr * real c)| + |q - μ * g|) := by
    have e : z - (real a + real lr * real c + μ * g) = (z - (x + q)) + ((x - (real a + real lr * real c)) + (q - μ * g)) := by
      ring
    rw [e]
    exact (abs_add_le _ _).trans (add_le_add_right (abs_add_le _ _) _)
  have h3 := mul_le_mul_of_nonneg_left ((abs_add_le x q).trans (add_le_add h0 h1)) u0.le
  have h4 := mul_le_mul_of_nonneg_left hb (by linarith : 0 ≤ 1 + roundoff)
  rw [mul_assoc _ |μ| |g|, ← abs_mul μ g]
  have e : ((1 + roundoff) ^ 2 - 1) * |real a| + ((1 + roundoff) ^ 3 - 1) * |real lr| * |real c| +
      ((1 + roundoff) ^ 2 - 1) * |μ * g| + ((1 + roundoff) ^ 2 + (1 + roundoff)) * tiny =
      roundoff * (|real a| + |real lr| * |real c|) + (1 + roundoff) * (roundoff * |real a| +
        ((1 + roundoff) ^ 2 - 1) * |real lr| * |real c| + (1 + roundoff) * tiny) + roundoff * ((1 + roundoff) * |μ * g| + tiny) +
        (roundoff * |μ * g| + tiny) := by ring
  rw [e]
  linarith

/-- All velocities after one call. -/
theorem velocities_err (hM : M.rnd = binary64Format.rnd) {n : Nat} {φ : Features (FP M)} (hφ : Fits n φ) {m y p : FP M}
    {v v' w : List (FP M)} (hv : v.length = n) (h : velocityUpdate m v φ (y -. p) = .ok v')
    (hp : ∀ r, Is p r → |r - exactDot φ w| ≤ predictionError φ w) (hz : ∀ i < n, Finite (entry v' i)) :
    len n (fun i => real (entry v' i) - (real m * real (entry v i) + real (value φ i) * (real y - exactDot φ w))) ≤
      velocityError n m φ v w y p := by
  have u0 := roundoff_pos
  have τ0 := tiny_pos
  have p2 : 0 ≤ (1 + roundoff) ^ 2 - 1 := sub_nonneg.2 (one_le_pow₀ (by linarith))
  have p3 : 0 ≤ (1 + roundoff) ^ 3 - 1 := sub_nonneg.2 (one_le_pow₀ (by linarith))
  have h3 := add_nonneg (mul_nonneg p3 (abs_nonneg (real y - real p))) (predictionError_nonneg φ w)
  refine (len_mono fun i hi => (velocity_err hM hφ hv h hp hi (hz i hi)).2).trans ?_
  refine (len_add_le n _ _).trans (add_le_add ((len_add_le n _ _).trans (le_of_eq (congrArg₂ _ ?_ ?_))) (le_of_eq ?_))
  · rw [len_smul (mul_nonneg p2 (abs_nonneg _)), len_abs]
  · have := len_smul (n := n) h3 (fun i => |real (value φ i)|)
    rw [len_abs] at this
    rw [mul_comm (len n _), ← this]
    exact len_congr fun i _ => mul_comm _ _
  · rw [len_const n _ (by positivity)]
    ring

/-- All weights after one call of Momentum. -/
theorem moves_err (hM : M.rnd = binary64Format.rnd) {n : Nat} {lr : FP M} {w v w' : List (FP M)}
    (h : ∀ i < n, entry w' i = (entry w i +. lr *. entry v i)) (hz : ∀ i < n, Finite (entry w' i)) :
    len n (fun i => real (entry w' i) - (real (entry w i) + real lr * real (entry v i))) ≤ moveError n lr w v := by
  have u0 := roundoff_pos
  have τ0 := tiny_pos
  have p2 : 0 ≤ (1 + roundoff) ^ 2 - 1 := sub_nonneg.2 (one_le_pow₀ (by linarith))
  refine (len_mono (g := fun i => roundoff * |real (entry w i)| + ((1 + roundoff) ^ 2 - 1) * |real lr| * |real (entry v i)| +
    (1 + roundoff) * tiny) fun i hi => ?_).trans ?_
  · have hf := hz i hi
    rw [h i hi] at hf ⊢
    exact (move_err hM hf).2.2
  · refine (len_add_le n _ _).trans (add_le_add ((len_add_le n _ _).trans (le_of_eq (congrArg₂ _ ?_ ?_))) (le_of_eq ?_))
    · rw [len_smul u0.le, len_abs]
    · rw [len_smul (mul_nonneg p2 (abs_nonneg _)), len_abs]
    · rw [len_const n _ (by positivity)]
      ring

/-- All weights after one call of NAG. -/
theorem lookaheads_err (hM : M.rnd = binary64Format.rnd) {n : Nat} {lr m : FP M} {φ : Features (FP M)} (hφ : Fits n φ)
    {w v w' : List (FP M)}
    (h : ∀ i < n, (∀ a, Stored φ i a → entry w' i = (entry w i +. lr *. entry v i +. m *. a)) ∧
      (¬ Active φ i → entry w' i = (entry w i +. lr *. entry v i))) (hz : ∀ i < n, Finite (entry w' i)) :
    len n (fun i => real (entry w' i) - (real (entry w i) + real lr * real (entry v i) + real m * real (value φ i))) ≤
      lookaheadError n m lr φ w v := by
  have u0 := roundoff_pos
  have τ0 := tiny_pos
  have p2 : 0 ≤ (1 + roundoff) ^ 2 - 1 := sub_nonneg.2 (one_le_pow₀ (by linarith))
  have p3 : 0 ≤ (1 + roundoff) ^ 3 - 1 := sub_nonneg.2 (one_le_pow₀ (by linarith))
  refine (len_mono (g := fun i => ((1 + roundoff) ^ 2 - 1) * |real (entry w i)| +
    ((1 + roundoff) ^ 3 - 1) * |real lr| * |real (entry v i)| + ((1 + roundoff) ^ 2 - 1) * |real m| * |real (value φ i)| +
    ((1 + roundoff) ^ 2 + (1 + roundoff)) * tiny) fun i hi => ?_).trans ?_
  · have hf := hz i hi
    by_cases ha : Active φ i
    · obtain ⟨a, ha⟩ := ha
      rw [(h i hi).1 a ha] at hf ⊢
      rw [value_of_stored (keysUnique_of_wf hφ.1) ha]
      exact (lookahead_err hM hf).2.2
    · rw [(h i hi).2 ha] at hf ⊢
      rw [value_inactive hφ ha, real_zero', mul_zero, add_zero, abs_zero, mul_zero, add_zero]
      refine (move_err hM hf).2.2.trans ?_
      have a1 := abs_nonneg (real (entry w i))
      have a2 := mul_nonneg (abs_nonneg (real lr)) (abs_nonneg (real (entry v i)))
      have b1 : roundoff ≤ (1 + roundoff) ^ 2 - 1 := by nlinarith
      have b2 : (1 + roundoff) ^ 2 - 1 ≤ (1 + roundoff) ^ 3 - 1 := by
        have : (1 + roundoff) ^ 2 ≤ (1 + roundoff) ^ 3 := pow_le_pow_right₀ (by linarith) (by norm_num)
        linarith
      have b3 : 1 + roundoff ≤ (1 + roundoff) ^ 2 + (1 + roundoff) := by nlinarith
      have c1 := mul_le_mul_of_nonneg_right b1 a1
      have c2 := mul_le_mul_of_nonneg_right b2 a2
      have c3 := mul_le_mul_of_nonneg_right b3 τ0.le
      rw [mul_assoc, mul_assoc]
      linarith
  · refine (len_add_le n _ _).trans (add_le_add ((len_add_le n _ _).trans (add_le_add ((len_add_le n _ _).trans
      (le_of_eq (congrArg₂ _ ?_ ?_))) (le_of_eq ?_))) (le_of_eq ?_))
    · rw [len_smul p2, len_abs]
    · rw [len_smul (mul_nonneg p3 (abs_nonneg _)), len_abs]
    · rw [len_smul (mul_nonneg p2 (abs_nonneg _)), len_abs]
    · rw [len_const n _ (by positivity)]
      ring

theorem and_of_left {a b : Prop} (h : a) (h' : a → b) : a ∧ b := ⟨h, h' h⟩

/-! ## Whole runs -/

section
variable {B B' I : Type} [Space B] [Basis B I (FP M)] [Space B'] [Basis B' I ℝ]

/-- A run of Momentum, in any arithmetic. -/
theorem momentum_trace {K B I : Type} [Scalar K] [Space B] [Basis B I K] {n : Nat} {fas : Nat → ScalarLFA B (SGDMomentum K) K}
    {xs : Nat → I} {ys ps : Nat → K} (hs : Stream fas xs ys ps) (hn : (fas 0).weights.length = n)
    (hv : (fas 0).optimiser.velocity.length = n)
    {φ : Nat → Features K} (hφ : ∀ k, Basis.project (fas 0).basis (xs k) = .ok (.ok (φ k)) ∧ Fits n (φ k)) (k : Nat) :
    ((fas k).basis = (fas 0).basis ∧ (fas k).optimiser.momentum = (fas 0).optimiser.momentum ∧
      (fas k).optimiser.learningRate = (fas 0).optimiser.learningRate ∧ (fas k).optimiser.velocity.length = n ∧
      (fas k).weights.length = n) ∧
    (φ k).dot (fas k).weights = .ok (ps k) ∧
    velocityUpdate (fas 0).optimiser.momentum (fas k).optimiser.velocity (φ k) (ys k -. ps k) =
      .ok (fas (k + 1)).optimiser.velocity ∧
    ∀ i < n, entry (fas (k + 1)).weights i =
      (entry (fas k).weights i +. (fas 0).optimiser.learningRate *. entry (fas (k + 1)).optimiser.velocity i) := by
  have step : ∀ k, ((fas k).basis = (fas 0).basis ∧ (fas k).optimiser.momentum = (fas 0).optimiser.momentum ∧
      (fas k).optimiser.learningRate = (fas 0).optimiser.learningRate ∧ (fas k).optimiser.velocity.length = n ∧
      (fas k).weights.length = n) → (φ k).dot (fas k).weights = .ok (ps k) ∧ ∃ v w',
        fas (k + 1) = ⟨(fas k).basis, w', { (fas k).optimiser with velocity := v }⟩ ∧
        velocityUpdate (fas 0).optimiser.momentum (fas k).optimiser.velocity (φ k) (ys k -. ps k) = .ok v ∧
        v.length = n ∧ w'.length = n ∧ ∀ i < n, entry w' i = (entry (fas k).weights i +.
          (fas 0).optimiser.learningRate *. entry v i) := by
    rintro k ⟨h1, h2, h3, h4, h5⟩
    have hp : Basis.project (fas k).basis (xs k) = .ok (.ok (φ k)) := by rw [h1]; exact (hφ k).1
    have hd : (φ k).dot (fas k).weights = .ok (ps k) := by
      have := hs.predicts k
      rw [scalar_evaluate_eq hp] at this
      obtain ⟨_, e1, e2⟩ := P.map_eq_ok.1 this
      cases e2
      exact e1
    obtain ⟨v, w', g1, g2, g3, g4, g5⟩ := momentum_scaled (hφ k).2 (fas k).optimiser h4 (ys k -. ps k) h5
    have := updateWith_eq hp hd (fun _ v => ys k -. v) g1
    rw [hs.updates k] at this
    simp only [Except.ok.injEq, Prod.mk.injEq, true_and] at this
    rw [h3] at g5
    rw [h2] at g2
    exact ⟨hd, v, w', this, g2, g3, g4, g5⟩
  have inv : ∀ k, (fas k).basis = (fas 0).basis ∧ (fas k).optimiser.momentum = (fas 0).optimiser.momentum ∧
      (fas k).optimiser.learningRate = (fas 0).optimiser.learningRate ∧ (fas k).optimiser.velocity.length = n ∧
      (fas k).weights.length = n := by
    intro k
    induction k with
    | zero => exact ⟨rfl, rfl, rfl, hv, hn⟩
    | succ k ih =>
      obtain ⟨-, v, w', e, -, hl, hl', -⟩ := step k ih
      rw [e]
      exact ⟨ih.1, ih.2.1, ih.2.2.1, hl, hl'⟩
  obtain ⟨h1, v, w', e, h2, -, -, h3⟩ := step k (inv k)
  exact ⟨inv k, h1, by rw [e]; exact h2, by rw [e]; exact h3⟩

/-- A run of NAG, in any arithmetic. -/
theorem nag_trace {K B I : Type} [Scalar K] [Space B] [Basis B I K] {n : Nat} {fas : Nat → ScalarLFA B (NAG K) K}
    {xs : Nat → I} {ys ps : Nat → K} (hs : Stream fas xs ys ps) (hn : (fas 0).weights.length = n)
    (hv : (fas 0).optimiser.velocity.length = n)
    {φ : Nat → Features K} (hφ : ∀ k, Basis.project (fas 0).basis (xs k) = .ok (.ok (φ k)) ∧ Fits n (φ k)) (k : Nat) :
    ((fas k).basis = (fas 0).basis ∧ (fas k).optimiser.momentum = (fas 0).optimiser.momentum ∧
      (fas k).optimiser.learningRate = (fas 0).optimiser.learningRate ∧ (fas k).optimiser.velocity.length = n ∧
      (fas k).weights.length = n) ∧
    (φ k).dot (fas k).weights = .ok (ps k) ∧
    velocityUpdate (fas 0).optimiser.momentum (fas k).optimiser.velocity (φ k) (ys k -. ps k) =
      .ok (fas (k + 1)).optimiser.velocity ∧
    ∀ i < n, (∀ a, Stored (φ k) i a → entry (fas (k + 1)).weights i = (entry (fas k).weights i +.
        (fas 0).optimiser.learningRate *. entry (fas (k + 1)).optimiser.velocity i +. (fas 0).optimiser.momentum *. a)) ∧
      (¬ Active (φ k) i → entry (fas (k + 1)).weights i =
        (entry (fas k).weights i +. (fas 0).optimiser.learningRate *. entry (fas (k + 1)).optimiser.velocity i)) := by
  have step : ∀ k, ((fas k).basis = (fas 0).basis ∧ (fas k).optimiser.momentum = (fas 0).optimiser.momentum ∧
      (fas k).optimiser.learningRate = (fas 0).optimiser.learningRate ∧ (fas k).optimiser.velocity.length = n ∧
      (fas k).weights.length = n) → (φ k).dot (fas k).weights = .ok (ps k) ∧ ∃ v w',
        fas (k + 1) = ⟨(fas k).basis, w', { (fas k).optimiser with velocity := v }⟩ ∧
        velocityUpdate (fas 0).optimiser.momentum (fas k).optimiser.velocity (φ k) (ys k -. ps k) = .ok v ∧
        v.length = n ∧ w'.length = n ∧ ∀ i < n,
        (∀ a, Stored (φ k) i a → entry w' i = (entry (fas k).weights i +.
          (fas 0).optimiser.learningRate *. entry v i +. (fas 0).optimiser.momentum *. a)) ∧
        (¬ Active (φ k) i → entry w' i = (entry (fas k).weights i +. (fas 0).optimiser.learningRate *. entry v i)) := by
    rintro k ⟨h1, h2, h3, h4, h5⟩
    have hp : Basis.project (fas k).basis (xs k) = .ok (.ok (φ k)) := by rw [h1]; exact (hφ k).1
    have hd : (φ k).dot (fas k).weights = .ok (ps k) := by
      have := hs.predicts k
      rw [scalar_evaluate_eq hp] at this
      obtain ⟨_, e1, e2⟩ := P.map_eq_ok.1 this
      cases e2
      exact e1
    obtain ⟨v, w₁, w', g1, g2, g6, g3, g7, g4, g5⟩ := nag_scaled (hφ k).2 (fas k).optimiser h4 (ys k -. ps k) h5
    obtain ⟨w₂, c1, -, c2⟩ := scaledAddto_any (hφ k).2 (fas k).optimiser.momentum g7
    rw [g6] at c1
    injection c1 with c1
    subst c1
    have := updateWith_eq hp hd (fun _ v => ys k -. v) g1
    rw [hs.updates k] at this
    simp only [Except.ok.injEq, Prod.mk.injEq, true_and] at this
    rw [h3] at g5
    rw [h2] at g2 c2
    refine ⟨hd, v, w', this, g2, g3, g4, fun i hi => ⟨fun a ha => ?_, fun ha => ?_⟩⟩
    · rw [(c2 i hi).1 a ha, g5 i hi]
    · rw [(c2 i hi).2 ha, g5 i hi]
  have inv : ∀ k, (fas k).basis = (fas 0).basis ∧ (fas k).optimiser.momentum = (fas 0).optimiser.momentum ∧
      (fas k).optimiser.learningRate = (fas 0).optimiser.learningRate ∧ (fas k).optimiser.velocity.length = n ∧
      (fas k).weights.length = n := by
    intro k
    induction k with
    | zero => exact ⟨rfl, rfl, rfl, hv, hn⟩
    | succ k ih =>
      obtain ⟨-, v, w', e, -, hl, hl', -⟩ := step k ih
      rw [e]
      exact ⟨ih.1, ih.2.1, ih.2.2.1, hl, hl'⟩
  obtain ⟨h1, v, w', e, h2, -, -, h3⟩ := step k (inv k)
  exact ⟨inv k, h1, by rw [e]; exact h2, by rw [e]; exact h3⟩

/-- A prediction of weights that are within `ρ` of the exact ones. -/
theorem prediction_near_of {n : Nat} {φ : Features (FP M)} {ψ : Features ℝ} (hφ : Fits n φ)
    (hψ : Fits n ψ) (hv : ∀ i < n, value ψ i = real (value φ i)) {w : List (FP M)} {W : List ℝ}
    (hW : W.length = n) {p : FP M} (hd : ∀ r, Is p r → |r - exactDot φ w| ≤ predictionError φ w) (hp : Finite p) {q : ℝ} (hq : ψ.dot W = .ok q) {ρ : ℝ}
    (h : len n (fun i => real (entry w i) - entry W i) ≤ ρ) : |real p - q| ≤ √(normSq ψ) * ρ + predictionError φ w := by
  obtain ⟨p', hp⟩ := hp
  have e1 := hd p' hp
  rw [is_real hp]
  have e2 : q = Spec.inner ψ W := by
    have := dot_real hψ.1 (w := W) (hψ.2.trans hW.symm)
    rw [hq] at this
    injection this
  have e3 : exactDot φ w - q = ∑ j ∈ Finset.range n, value ψ j * (real (entry w j) - entry W j) := by
    rw [e2, inner_eq, hψ.2, exactDot, hφ.2, ← Finset.sum_sub_distrib]
    exact Finset.sum_congr rfl fun j hj => by rw [hv j (Finset.mem_range.1 hj)]; ring
  have e4 : |exactDot φ w - q| ≤ √(normSq ψ) * len n (fun i => real (entry w i) - entry W i) := by
    have hN : √(normSq ψ) = len n (fun i => value ψ i) := by
      unfold len
      rw [normSq, hψ.2]
      simp only [sq]
    rw [e3, hN, abs_le]
    constructor
    · have := sum_mul_le_len n (fun i => -value ψ i) (fun i => real (entry w i) - entry W i)
      have e : len n (fun i => -value ψ i) = len n (fun i => value ψ i) := by
        unfold len; simp only [neg_sq]
      rw [e] at this
      simp only [neg_mul, Finset.sum_neg_distrib] at this
      linarith
    · exact sum_mul_le_len n _ _
  have e5 := mul_le_mul_of_nonneg_left h (Real.sqrt_nonneg (normSq ψ))
  have e6 := abs_sub_le p' (exactDot φ w) q
  linarith

theorem prediction_near (hM : M.rnd = binary64Format.rnd) {n : Nat} {φ : Features (FP M)} {ψ : Features ℝ} (hφ : Fits n φ)
    (hψ : Fits n ψ) (hv : ∀ i < n, value ψ i = real (value φ i)) {w : List (FP M)} {W : List ℝ} (hw : w.length = n)
    (hW : W.length = n) {p : FP M} (hd : φ.dot w = .ok p) (hp : Finite p) {q : ℝ} (hq : ψ.dot W = .ok q) {ρ : ℝ}
    (h : len n (fun i => real (entry w i) - entry W i) ≤ ρ) : |real p - q| ≤ √(normSq ψ) * ρ + predictionError φ w :=
  prediction_near_of hφ hψ hv hW (fun _ hr => dot_err hM hφ hw hd hr) hp hq h

/-- A run of Momentum in `f64` (`fas`) and a run in exact arithmetic (`gas`) from the same weights and velocities, on the same
activations and targets, with the same learning rate and momentum. As long as `lr ‖φ‖² (1 + momentum) ≤ 2 (1 - momentum)²` and the
weights stay finite, the distance of their weights after `T` calls is at most `√(1 + momentum)` times the sum of what rounding does in
each call: its errors in the weights, plus its errors in the velocity times `(1 + √momentum) lr / (1 - momentum)`. Predictions are
accordingly close. -/
theorem C176_momentum (hM : M.rnd = binary64Format.rnd) (n : Nat)
    (fas : Nat → ScalarLFA B (SGDMomentum (FP M)) (FP M)) (gas : Nat → ScalarLFA B' (SGDMomentum ℝ) ℝ) (xs : Nat → I)
    (ys ps : Nat → FP M) (qs : Nat → ℝ) (hs : Stream fas xs ys ps) (hg : Stream gas xs (fun k => real (ys k)) qs)
    (φ : Nat → Features (FP M)) (ψ : Nat → Features ℝ)
    (hφ : ∀ k, Basis.project (fas 0).basis (xs k) = .ok (.ok (φ k)) ∧ Fits n (φ k))
    (hψ : ∀ k, Basis.project (gas 0).basis (xs k) = .ok (.ok (ψ k)) ∧ Fits n (ψ k))
    (hv : ∀ k, ∀ i < n, value (ψ k) i = real (value (φ k) i))
    (hn : (fas 0).weights.length = n ∧ (fas 0).optimiser.velocity.length = n)
    (hm : (gas 0).weights.length = n ∧ (gas 0).optimiser.velocity.length = n)
    (hw : ∀ i < n, entry (gas 0).weights i = real (entry (fas 0).weights i))
    (hu : ∀ i < n, entry (gas 0).optimiser.velocity i = real (entry (fas 0).optimiser.velocity i))
    (μ l : ℝ) (hl : (gas 0).optimiser.learningRate = l ∧ real (fas 0).optimiser.learningRate = l)
    (hμ : (gas 0).optimiser.momentum = μ ∧ real (fas 0).optimiser.momentum = μ) (l0 : 0 < l) (h0 : 0 ≤ μ) (h1 : μ < 1)
    (h2 : ∀ k, l * normSq (ψ k) * (1 + μ) ≤ 2 * (1 - μ) ^ 2) (T : Nat) (hT : ∀ i < n, Finite (entry (fas T).weights i)) :
    len n (fun i => real (entry (fas T).weights i) - entry (gas T).weights i) ≤ √(1 + μ) * ∑ t ∈ Finset.range T,
      momentumError n (fas 0).optimiser.momentum (fas 0).optimiser.learningRate (φ t) (fas t).weights (fas t).optimiser.velocity
        (fas (t + 1)).optimiser.velocity (ys t) (ps t) ∧
    (Finite (ps T) → |real (ps T) - qs T| ≤ √(normSq (ψ T)) * (√(1 + μ) * ∑ t ∈ Finset.range T,
      momentumError n (fas 0).optimiser.momentum (fas 0).optimiser.learningRate (φ t) (fas t).weights (fas t).optimiser.velocity
        (fas (t + 1)).optimiser.velocity (ys t) (ps t)) +
      predictionError (φ T) (fas T).weights) := by
  have run := momentum_trace hs hn.1 hn.2 hφ
  have run' := momentum_trace hg hm.1 hm.2 hψ
  have fin : ∀ t ≤ T, ∀ i < n, Finite (entry (fas t).weights i) :=
    finite_down (P := fun t => ∀ i < n, Finite (entry (fas t).weights i)) hT fun t _ h i hi => by
      have := h i hi
      rw [(run t).2.2.2 i hi] at this
      exact (move_err hM this).1
  have hdot : ∀ t, Spec.inner (ψ t) (gas t).weights = ∑ j ∈ Finset.range n, real (value (φ t) j) * entry (gas t).weights j :=
    fun t => by
      rw [inner_eq, (hψ t).2.2]
      exact Finset.sum_congr rfl fun j hj => by rw [hv t j (Finset.mem_range.1 hj)]
  have hex : ∀ t, exactDot (φ t) (fas t).weights = ∑ j ∈ Finset.range n, real (value (φ t) j) * real (entry (fas t).weights j) :=
    fun t => by unfold exactDot; rw [(hφ t).2.2]
  refine and_of_left ?_ fun h hp => prediction_near hM (hφ T).2 (hψ T).2 (hv T) (run T).1.2.2.2.2 (run' T).1.2.2.2.2 (run T).2.1 hp
    (run' T).2.1 h
  unfold momentumError
  rw [hl.2, hμ.2]
  refine momentum_follow (f := fun t i => real (value (φ t) i)) (w := fun t i => real (entry (fas t).weights i))
    (v := fun t i => real (entry (fas t).optimiser.velocity i)) (W := fun t i => entry (gas t).weights i)
    (V := fun t i => entry (gas t).optimiser.velocity i) (r := fun _ _ => 0) (y := fun t => real (ys t)) h0 h1 l0 ?_ ?_ ?_ ?_ ?_ hu hw
  · intro t
    have := h2 t
    rw [normSq, (hψ t).2.2] at this
    refine le_trans (le_of_eq ?_) this
    congr 2
    exact Finset.sum_congr rfl fun i hi => by rw [hv t i (Finset.mem_range.1 hi), sq]
  · intro t i hi
    obtain ⟨⟨-, -, -, c4, c5⟩, c6, c7, -⟩ := run' t
    obtain ⟨v', e1, -, e2⟩ := velocityUpdate_real (hψ t).2 (gas 0).optimiser.momentum (real (ys t) -. qs t) c4
    rw [c7] at e1
    injection e1 with e1
    have e3 : qs t = Spec.inner (ψ t) (gas t).weights := by
      have := dot_real (hψ t).2.1 (w := (gas t).weights) ((hψ t).2.2.trans c5.symm)
      rw [c6] at this
      injection this
    show entry (gas (t + 1)).optimiser.velocity i = _
    rw [e1, e2 i hi, e3, hdot t, hv t i hi, hμ.1]
    rfl
  · intro t i hi
    show entry (gas (t + 1)).weights i = _
    rw [(run' t).2.2.2 i hi, hl.1, add_zero]
    rfl
  · intro t ht
    obtain ⟨⟨-, -, -, c4, c5⟩, c6, c7, c8⟩ := run t
    have := velocities_err hM (hφ t).2 c4 c7 (fun _ hr => dot_err hM (hφ t).2 c5 c6 hr) fun i hi => by
      have := fin (t + 1) ht i hi
      rw [c8 i hi] at this
      exact (move_err hM this).2.1
    rw [hμ.2, hex t] at this
    exact this
  · intro t ht
    have := moves_err hM (run t).2.2.2 (fin (t + 1) ht)
    rw [hl.2] at this
    simp only [add_zero]
    exact this

/-- A finite weight after a call of NAG comes from a finite weight and a finite velocity. -/
theorem nag_finite (hM : M.rnd = binary64Format.rnd) {φ : Features (FP M)} {i : Nat} {z a lr c m : FP M}
    (h : (∀ f, Stored φ i f → z = (a +. lr *. c +. m *. f)) ∧ (¬ Active φ i → z = (a +. lr *. c))) (hz : Finite z) :
    Finite a ∧ Finite c := by
  by_cases ha : Active φ i
  · obtain ⟨f, hf⟩ := ha
    rw [h.1 f hf] at hz
    exact ⟨(lookahead_err hM hz).1, (lookahead_err hM hz).2.1⟩
  · rw [h.2 ha] at hz
    exact ⟨(move_err hM hz).1, (move_err hM hz).2.1⟩

/-- The same for NAG, with the errors of the look-ahead step in place of those of the plain one. -/
theorem C176_nag (hM : M.rnd = binary64Format.rnd) (n : Nat)
    (fas : Nat → ScalarLFA B (NAG (FP M)) (FP M)) (gas : Nat → ScalarLFA B' (NAG ℝ) ℝ) (xs : Nat → I)
    (ys ps : Nat → FP M) (qs : Nat → ℝ) (hs : Stream fas xs ys ps) (hg : Stream gas xs (fun k => real (ys k)) qs)
    (φ : Nat → Features (FP M)) (ψ : Nat → Features ℝ)
    (hφ : ∀ k, Basis.project (fas 0).basis (xs k) = .ok (.ok (φ k)) ∧ Fits n (φ k))
    (hψ : ∀ k, Basis.project (gas 0).basis (xs k) = .ok (.ok (ψ k)) ∧ Fits n (ψ k))
    (hv : ∀ k, ∀ i < n, value (ψ k) i = real (value (φ k) i))
    (hn : (fas 0).weights.length = n ∧ (fas 0).optimiser.velocity.length = n)
    (hm : (gas 0).weights.length = n ∧ (gas 0).optimiser.velocity.length = n)
    (hw : ∀ i < n, entry (gas 0).weights i = real (entry (fas 0).weights i))
    (hu : ∀ i < n, entry (gas 0).optimiser.velocity i = real (entry (fas 0).optimiser.velocity i))
    (μ l : ℝ) (hl : (gas 0).optimiser.learningRate = l ∧ real (fas 0).optimiser.learningRate = l)
    (hμ : (gas 0).optimiser.momentum = μ ∧ real (fas 0).optimiser.momentum = μ) (l0 : 0 < l) (h0 : 0 ≤ μ) (h1 : μ < 1)
    (h2 : ∀ k, l * normSq (ψ k) * (1 + μ) ≤ 2 * (1 - μ) ^ 2) (T : Nat) (hT : ∀ i < n, Finite (entry (fas T).weights i)) :
    len n (fun i => real (entry (fas T).weights i) - entry (gas T).weights i) ≤ √(1 + μ) * ∑ t ∈ Finset.range T,
      nagError n (fas 0).optimiser.momentum (fas 0).optimiser.learningRate (φ t) (fas t).weights (fas t).optimiser.velocity
        (fas (t + 1)).optimiser.velocity (ys t) (ps t) ∧
    (Finite (ps T) → |real (ps T) - qs T| ≤ √(normSq (ψ T)) * (√(1 + μ) * ∑ t ∈ Finset.range T,
      nagError n (fas 0).optimiser.momentum (fas 0).optimiser.learningRate (φ t) (fas t).weights (fas t).optimiser.velocity
        (fas (t + 1)).optimiser.velocity (ys t) (ps t)) +
      predictionError (φ T) (fas T).weights) := by
  have run := nag_trace hs hn.1 hn.2 hφ
  have run' := nag_trace hg hm.1 hm.2 hψ
  have fin : ∀ t ≤ T, ∀ i < n, Finite (entry (fas t).weights i) :=
    finite_down (P := fun t => ∀ i < n, Finite (entry (fas t).weights i)) hT fun t _ h i hi =>
      (nag_finite hM ((run t).2.2.2 i hi) (h i hi)).1
  have hdot : ∀ t, Spec.inner (ψ t) (gas t).weights = ∑ j ∈ Finset.range n, real (value (φ t) j) * entry (gas t).weights j :=
    fun t => by
      rw [inner_eq, (hψ t).2.2]
      exact Finset.sum_congr rfl fun j hj => by rw [hv t j (Finset.mem_range.1 hj)]
  have hex : ∀ t, exactDot (φ t) (fas t).weights = ∑ j ∈ Finset.range n, real (value (φ t) j) * real (entry (fas t).weights j) :=
    fun t => by unfold exactDot; rw [(hφ t).2.2]
  refine and_of_left ?_ fun h hp => prediction_near hM (hφ T).2 (hψ T).2 (hv T) (run T).1.2.2.2.2 (run' T).1.2.2.2.2 (run T).2.1 hp
    (run' T).2.1 h
  unfold nagError
  rw [hl.2, hμ.2]
  refine momentum_follow (f := fun t i => real (value (φ t) i)) (w := fun t i => real (entry (fas t).weights i))
    (v := fun t i => real (entry (fas t).optimiser.velocity i)) (W := fun t i => entry (gas t).weights i)
    (V := fun t i => entry (gas t).optimiser.velocity i) (r := fun t i => μ * real (value (φ t) i)) (y := fun t => real (ys t)) h0 h1 l0 ?_ ?_ ?_ ?_ ?_ hu hw
  · intro t
    have := h2 t
    rw [normSq, (hψ t).2.2] at this
    refine le_trans (le_of_eq ?_) this
    congr 2
    exact Finset.sum_congr rfl fun i hi => by rw [hv t i (Finset.mem_range.1 hi), sq]
  · intro t i hi
    obtain ⟨⟨-, -, -, c4, c5⟩, c6, c7, -⟩ := run' t
    obtain ⟨v', e1, -, e2⟩ := velocityUpdate_real (hψ t).2 (gas 0).optimiser.momentum (real (ys t) -. qs t) c4
    rw [c7] at e1
    injection e1 with e1
    have e3 : qs t = Spec.inner (ψ t) (gas t).weights := by
      have := dot_real (hψ t).2.1 (w := (gas t).weights) ((hψ t).2.2.trans c5.symm)
      rw [c6] at this
      injection this
    show entry (gas (t + 1)).optimiser.velocity i = _
    rw [e1, e2 i hi, e3, hdot t, hv t i hi, hμ.1]
    rfl
  · intro t i hi
    show entry (gas (t + 1)).weights i = _
    by_cases ha : Active (ψ t) i
    · obtain ⟨a, ha⟩ := ha
      rw [((run' t).2.2.2 i hi).1 a ha, hl.1, hμ.1, ← hv t i hi, value_of_stored (keysUnique_of_wf (hψ t).2.1) ha]
      rfl
    · rw [((run' t).2.2.2 i hi).2 ha, hl.1, ← hv t i hi, value_inactive (hψ t).2 ha, real_zero, mul_zero, add_zero]
      rfl
  · intro t ht
    obtain ⟨⟨-, -, -, c4, c5⟩, c6, c7, c8⟩ := run t
    have := velocities_err hM (hφ t).2 c4 c7 (fun _ hr => dot_err hM (hφ t).2 c5 c6 hr) fun i hi =>
      (nag_finite hM (c8 i hi) (fin (t + 1) ht i hi)).2
    rw [hμ.2, hex t] at this
    exact this
  · intro t ht
    have := lookaheads_err hM (hφ t).2 (run t).2.2.2 (fin (t + 1) ht)
    rw [hl.2, hμ.2] at this
    exact this

end

/-! ## The hypotheses are met -/

/-- Runs exist in any arithmetic, for every optimiser. -/
theorem stream_any {K B I O : Type} [Scalar K] [Space B] [Basis B I K] [Optimiser O K] [HasSize O] [Safe (K := K) O] (b : B) {n : Nat}
    (xs : Nat → I) (ys : Nat → K) (hx : ∀ k, ∃ φ, Basis.project b (xs k) = .ok (.ok φ) ∧ Fits n φ) (w : List K) (hw : w.length = n)
    (o : O) (ho : HasSize.sized n o) :
    ∃ (fas : Nat → ScalarLFA B O K) (ps : Nat → K), Stream fas xs ys ps ∧ fas 0 = LFA.mk b w o := by
  let Good : ScalarLFA B O K → Prop := fun fa => fa.basis = b ∧ fa.weights.length = n ∧ HasSize.sized n fa.optimiser
  have step : ∀ (k : Nat) (fa : {fa : ScalarLFA B O K // Good fa}), ∃ fa' : {fa : ScalarLFA B O K // Good fa},
      fa.1.updateWith (xs k) (fun _ v => ys k -. v) = .ok (.ok (), fa'.1) ∧
      ∃ p, fa.1.evaluate (xs k) = .ok (.ok p) := by
    rintro k ⟨fa, rfl, h2, h3⟩
    obtain ⟨φ, hp, hf⟩ := hx k
    obtain ⟨v, hd⟩ := dot_exists hf h2
    obtain ⟨o', w', e1, e2, e3⟩ := Safe.scaled (o := fa.optimiser) (ys k -. v) h3 h2 hf
    exact ⟨⟨⟨fa.basis, w', o'⟩, rfl, e3, e2⟩, updateWith_eq hp hd (fun _ v => ys k -. v) e1, _, evaluate_eq hp hd⟩
  choose next hn hp using step
  let run : Nat → {fa : ScalarLFA B O K // Good fa} := fun k =>
    Nat.rec ⟨⟨b, w, o⟩, rfl, hw, ho⟩ (fun k fa => next k fa) k
  choose p hp using hp
  exact ⟨fun k => (run k).1, fun k => p k (run k), ⟨fun k => hp k (run k), fun k => hn k (run k)⟩, rfl⟩

theorem bounded_add_pow (hM : M.rnd = binary64Format.rnd) {a b : FP M} {k : Nat} (hk : k ≤ 1022) (ha : Bounded (2 ^ k) a)
    (hb : Bounded (2 ^ k) b) : Bounded (2 ^ (k + 1)) (a +. b) ∧ Bounded (2 ^ (k + 1)) (a -. b) := by
  obtain ⟨x, hx, hx1⟩ := ha
  obtain ⟨y, hy, hy1⟩ := hb
  constructor
  · refine bounded_rnd (x := x + y) (by rw [val_add, hx, hy]; rfl) ?_ (rnd_two_pow hM (by omega))
    rw [pow_succ]
    have := abs_add_le x y
    linarith
  · refine bounded_rnd (x := x - y) (by rw [val_sub, hx, hy, sub_eq_add_neg]; rfl) ?_ (rnd_two_pow hM (by omega))
    rw [pow_succ]
    have := abs_sub x y
    linarith

/-- An approximator with one constant feature, trained with Momentum towards a target of magnitude at most 1 at any admissible rate, has
a run in `f64` whose weights are finite for the first 300 calls and an exact run beside it. -/
theorem C176_example (hM : M.rnd = binary64Format.rnd) (m lr y : FP M) (μ l : ℝ) (hm : Is m μ) (hl : Is lr l) (h0 : 0 ≤ μ) (h1 : μ < 1)
    (l0 : 0 < l) (l1 : l * (1 + μ) ≤ 2 * (1 - μ) ^ 2) (l2 : l ≤ 1) (hy : InUnit y) :
    ∃ (fas : Nat → ScalarLFA (FixedSparse (FP M)) (SGDMomentum (FP M)) (FP M))
      (gas : Nat → ScalarLFA (FixedSparse ℝ) (SGDMomentum ℝ) ℝ) (ps : Nat → FP M) (qs : Nat → ℝ) (φ : Features (FP M)),
      fas 0 = LFA.mk ⟨1, [0]⟩ [Scalar.zero] (SGDMomentum.new 1 m lr) ∧ gas 0 = LFA.mk ⟨1, [0]⟩ [0] (SGDMomentum.new 1 μ l) ∧
      Stream fas (fun _ => ()) (fun _ => y) ps ∧ Stream gas (fun _ => ()) (fun _ => real y) qs ∧
      ∀ T ≤ 300, Finite (ps T) ∧ |real (ps T) - qs T| ≤ √(1 + μ) * ∑ t ∈ Finset.range T, momentumError 1 m lr φ (fas t).weights
        (fas t).optimiser.velocity (fas (t + 1)).optimiser.velocity y (ps t) + predictionError φ (fas T).weights := by
  have hp : Basis.project (⟨1, [0]⟩ : FixedSparse (FP M)) () =
      .ok (.ok (.sparse ⟨1, [(0, (Scalar.one : FP M))]⟩)) := rfl
  have hpr : Basis.project (⟨1, [0]⟩ : FixedSparse ℝ) () =
      .ok (.ok (.sparse ⟨1, [(0, (Scalar.one : ℝ))]⟩)) := rfl
  have hf : ∀ {K : Type} [Scalar K], Fits 1 (.sparse ⟨1, [(0, (Scalar.one : K))]⟩) := fun {K} _ => by
    refine ⟨⟨List.nodup_singleton _, fun e he => ?_⟩, rfl⟩
    rw [List.mem_singleton] at he
    subst he
    exact Nat.zero_lt_one
  obtain ⟨fas, ps, hs, hs0⟩ := stream_any (O := SGDMomentum (FP M)) (⟨1, [0]⟩ : FixedSparse (FP M)) (n := 1) (fun _ => ()) (fun _ => y)
    (fun _ => ⟨_, hp, hf⟩) [Scalar.zero] rfl (SGDMomentum.new 1 m lr) (by simp [HasSize.sized, SGDMomentum.new])
  obtain ⟨gas, qs, hg, hg0⟩ := stream_any (O := SGDMomentum ℝ) (⟨1, [0]⟩ : FixedSparse ℝ) (n := 1) (fun _ => ()) (fun _ => real y)
    (fun _ => ⟨_, hpr, hf⟩) [0] rfl (SGDMomentum.new 1 μ l) (by simp [HasSize.sized, SGDMomentum.new])
  have hφ : ∀ k : Nat, Basis.project (fas 0).basis () = .ok (.ok (.sparse ⟨1, [(0, (Scalar.one : FP M))]⟩)) ∧
      Fits 1 (.sparse ⟨1, [(0, (Scalar.one : FP M))]⟩) := fun _ => ⟨by rw [hs0]; exact hp, hf⟩
  have hψ : ∀ k : Nat, Basis.project (gas 0).basis () = .ok (.ok (.sparse ⟨1, [(0, (Scalar.one : ℝ))]⟩)) ∧
      Fits 1 (.sparse ⟨1, [(0, (Scalar.one : ℝ))]⟩) := fun _ => ⟨by rw [hg0]; exact hpr, hf⟩
  have hn : (fas 0).weights.length = 1 ∧ (fas 0).optimiser.velocity.length = 1 := by rw [hs0]; exact ⟨rfl, rfl⟩
  have run := momentum_trace hs hn.1 hn.2 hφ
  have um : InUnit m := ⟨μ, hm, by rw [abs_of_nonneg h0]; exact h1.le⟩
  have ul : InUnit lr := ⟨l, hl, by rw [abs_of_pos l0]; exact l2⟩
  have em : (fas 0).optimiser.momentum = m := by rw [hs0]; rfl
  have el : (fas 0).optimiser.learningRate = lr := by rw [hs0]; rfl
  have ed : ∀ t, ps t = entry (fas t).weights 0 := fun t => by
    have := (run t).2.1
    rw [onehot_dot Nat.zero_lt_one (run t).1.2.2.2.2] at this
    injection this with this
    exact this.symm
  have main : ∀ t ≤ 300, Bounded (2 ^ (3 * t)) (entry (fas t).weights 0) ∧ Bounded (2 ^ (3 * t)) (entry (fas t).optimiser.velocity 0) := by
    intro t
    induction t with
    | zero =>
      intro _
      rw [hs0]
      exact ⟨bounded_zero (by positivity), bounded_zero (by positivity)⟩
    | succ t ih =>
      intro ht
      obtain ⟨iw, iv⟩ := ih (by omega)
      obtain ⟨⟨-, -, -, c4, c5⟩, c6, c7, c8⟩ := run t
      have mono : ∀ {a : FP M} {j k : Nat}, j ≤ k → Bounded (2 ^ j) a → Bounded (2 ^ k) a := fun h hb =>
        bounded_mono hb (pow_le_pow_right₀ (by norm_num) h)
      have by' : Bounded (2 ^ (3 * t)) y := by
        obtain ⟨r, hr, hr1⟩ := hy
        exact ⟨r, hr, hr1.trans (one_le_pow₀ (by norm_num))⟩
      have hsb : Bounded (2 ^ (3 * t + 1)) (y -. ps t) := by
        rw [ed t]
        exact (bounded_add_pow hM (by omega) by' iw).2
      have hg : Bounded (2 ^ (3 * t + 1)) (value (.sparse ⟨1, [(0, (Scalar.one : FP M))]⟩) 0 *. (y -. ps t)) :=
        bounded_unit_mul ⟨1, val_one, by norm_num⟩ hsb
      have hmv : Bounded (2 ^ (3 * t + 1)) (m *. entry (fas t).optimiser.velocity 0) := mono (by omega) (bounded_unit_mul um iv)
      have hv : Bounded (2 ^ (3 * t + 2)) (entry (fas (t + 1)).optimiser.velocity 0) := by
        rw [em] at c7
        obtain ⟨v₁, d1, -, d2⟩ := velocityUpdate_any (hf (K := FP M)) m (y -. ps t) c4
        rw [c7] at d1
        injection d1 with d1
        rw [d1]
        rcases d2 0 Nat.zero_lt_one with h | ⟨-, h⟩ | ⟨-, h⟩ <;> rw [h]
        · exact (bounded_add_pow hM (by omega) hmv hg).1
        · rw [mul_comm_fp]
          exact mono (by omega) hmv
        · rw [mul_comm_fp (entry _ 0) m]
          exact (bounded_add_pow hM (by omega) hmv hg).1
      refine ⟨?_, mono (by omega) hv⟩
      rw [c8 0 Nat.zero_lt_one, el]
      exact (bounded_add_pow hM (k := 3 * t + 2) (by omega) (mono (by omega) iw) (bounded_unit_mul ul hv)).1
  have hN : normSq (.sparse ⟨1, [(0, (Scalar.one : ℝ))]⟩) = 1 := by
    rw [normSq]
    show ∑ i ∈ Finset.range 1, _ = _
    rw [Finset.sum_range_one]
    show (Scalar.one : ℝ) * Scalar.one = 1
    rw [real_one, mul_one]
  refine ⟨fas, gas, ps, qs, .sparse ⟨1, [(0, (Scalar.one : FP M))]⟩, hs0, hg0, hs, hg, fun T hT => ?_⟩
  have fp : Finite (ps T) := by rw [ed T]; exact finite_of_bounded (main T hT).1
  refine ⟨fp, ?_⟩
  have := (C176_momentum hM 1 fas gas (fun _ => ()) (fun _ => y) ps qs hs hg
    (fun _ => .sparse ⟨1, [(0, (Scalar.one : FP M))]⟩) (fun _ => .sparse ⟨1, [(0, (Scalar.one : ℝ))]⟩) hφ hψ
    (fun _ i hi => by
      obtain rfl : i = 0 := by omega
      show (Scalar.one : ℝ) = real (Scalar.one : FP M)
      rw [is_real val_one, real_one])
    hn (by rw [hg0]; exact ⟨rfl, rfl⟩) (fun i hi => by
      obtain rfl : i = 0 := by omega
      rw [hs0, hg0]
      show (0 : ℝ) = real (Scalar.zero : FP M)
      rw [is_real val_zero]) (fun i hi => by
      obtain rfl : i = 0 := by omega
      rw [hs0, hg0]
      show (Scalar.zero : ℝ) = real (Scalar.zero : FP M)
      rw [is_real val_zero, real_zero]) μ l ⟨by rw [hg0]; rfl, by rw [el]; exact is_real hl⟩ ⟨by rw [hg0]; rfl, by rw [em]; exact is_real hm⟩
    l0 h0 h1 (fun _ => by rw [hN, mul_one]; exact l1) T (fun i hi => by
      obtain rfl : i = 0 := by omega
      exact finite_of_bounded (main T hT).1)).2 fp
  rw [hN, Real.sqrt_one, one_mul, em, el] at this
  exact this

/-- An approximator with one constant feature, trained with NAG towards a target of magnitude at most 1 at any admissible rate, has
a run in `f64` whose weights are finite for the first 250 calls and an exact run beside it. -/
theorem C176_example_nag (hM : M.rnd = binary64Format.rnd) (m lr y : FP M) (μ l : ℝ) (hm : Is m μ) (hl : Is lr l) (h0 : 0 ≤ μ) (h1 : μ < 1)
    (l0 : 0 < l) (l1 : l * (1 + μ) ≤ 2 * (1 - μ) ^ 2) (l2 : l ≤ 1) (hy : InUnit y) :
    ∃ (fas : Nat → ScalarLFA (FixedSparse (FP M)) (NAG (FP M)) (FP M))
      (gas : Nat → ScalarLFA (FixedSparse ℝ) (NAG ℝ) ℝ) (ps : Nat → FP M) (qs : Nat → ℝ) (φ : Features (FP M)),
      fas 0 = LFA.mk ⟨1, [0]⟩ [Scalar.zero] (NAG.new 1 m lr) ∧ gas 0 = LFA.mk ⟨1, [0]⟩ [0] (NAG.new 1 μ l) ∧
      Stream fas (fun _ => ()) (fun _ => y) ps ∧ Stream gas (fun _ => ()) (fun _ => real y) qs ∧
      ∀ T ≤ 250, Finite (ps T) ∧ |real (ps T) - qs T| ≤ √(1 + μ) * ∑ t ∈ Finset.range T, nagError 1 m lr φ (fas t).weights
        (fas t).optimiser.velocity (fas (t + 1)).optimiser.velocity y (ps t) + predictionError φ (fas T).weights := by
  have hp : Basis.project (⟨1, [0]⟩ : FixedSparse (FP M)) () =
      .ok (.ok (.sparse ⟨1, [(0, (Scalar.one : FP M))]⟩)) := rfl
  have hpr : Basis.project (⟨1, [0]⟩ : FixedSparse ℝ) () =
      .ok (.ok (.sparse ⟨1, [(0, (Scalar.one : ℝ))]⟩)) := rfl
  have hf : ∀ {K : Type} [Scalar K], Fits 1 (.sparse ⟨1, [(0, (Scalar.one : K))]⟩) := fun {K} _ => by
    refine ⟨⟨List.nodup_singleton _, fun e he => ?_⟩, rfl⟩
    rw [List.mem_singleton] at he
    subst he
    exact Nat.zero_lt_one
  obtain ⟨fas, ps, hs, hs0⟩ := stream_any (O := NAG (FP M)) (⟨1, [0]⟩ : FixedSparse (FP M)) (n := 1) (fun _ => ()) (fun _ => y)
    (fun _ => ⟨_, hp, hf⟩) [Scalar.zero] rfl (NAG.new 1 m lr) (by simp [HasSize.sized, NAG.new])
  obtain ⟨gas, qs, hg, hg0⟩ := stream_any (O := NAG ℝ) (⟨1, [0]⟩ : FixedSparse ℝ) (n := 1) (fun _ => ()) (fun _ => real y)
    (fun _ => ⟨_, hpr, hf⟩) [0] rfl (NAG.new 1 μ l) (by simp [HasSize.sized, NAG.new])
  have hφ : ∀ k : Nat, Basis.project (fas 0).basis () = .ok (.ok (.sparse ⟨1, [(0, (Scalar.one : FP M))]⟩)) ∧
      Fits 1 (.sparse ⟨1, [(0, (Scalar.one : FP M))]⟩) := fun _ => ⟨by rw [hs0]; exact hp, hf⟩
  have hψ : ∀ k : Nat, Basis.project (gas 0).basis () = .ok (.ok (.sparse ⟨1, [(0, (Scalar.one : ℝ))]⟩)) ∧
      Fits 1 (.sparse ⟨1, [(0, (Scalar.one : ℝ))]⟩) := fun _ => ⟨by rw [hg0]; exact hpr, hf⟩
  have hn : (fas 0).weights.length = 1 ∧ (fas 0).optimiser.velocity.length = 1 := by rw [hs0]; exact ⟨rfl, rfl⟩
  have run := nag_trace hs hn.1 hn.2 hφ
  have um : InUnit m := ⟨μ, hm, by rw [abs_of_nonneg h0]; exact h1.le⟩
  have ul : InUnit lr := ⟨l, hl, by rw [abs_of_pos l0]; exact l2⟩
  have em : (fas 0).optimiser.momentum = m := by rw [hs0]; rfl
  have el : (fas 0).optimiser.learningRate = lr := by rw [hs0]; rfl
  have ed : ∀ t, ps t = entry (fas t).weights 0 := fun t => by
    have := (run t).2.1
    rw [onehot_dot Nat.zero_lt_one (run t).1.2.2.2.2] at this
    injection this with this
    exact this.symm
  have main : ∀ t ≤ 250, Bounded (2 ^ (4 * t)) (entry (fas t).weights 0) ∧ Bounded (2 ^ (4 * t)) (entry (fas t).optimiser.velocity 0) := by
    intro t
    induction t with
    | zero =>
      intro _
      rw [hs0]
      exact ⟨bounded_zero (by positivity), bounded_zero (by positivity)⟩
    | succ t ih =>
      intro ht
      obtain ⟨iw, iv⟩ := ih (by omega)
      obtain ⟨⟨-, -, -, c4, c5⟩, c6, c7, c8⟩ := run t
      have mono : ∀ {a : FP M} {j k : Nat}, j ≤ k → Bounded (2 ^ j) a → Bounded (2 ^ k) a := fun h hb =>
        bounded_mono hb (pow_le_pow_right₀ (by norm_num) h)
      have by' : Bounded (2 ^ (4 * t)) y := by
        obtain ⟨r, hr, hr1⟩ := hy
        exact ⟨r, hr, hr1.trans (one_le_pow₀ (by norm_num))⟩
      have hsb : Bounded (2 ^ (4 * t + 1)) (y -. ps t) := by
        rw [ed t]
        exact (bounded_add_pow hM (by omega) by' iw).2
      have hg : Bounded (2 ^ (4 * t + 1)) (value (.sparse ⟨1, [(0, (Scalar.one : FP M))]⟩) 0 *. (y -. ps t)) :=
        bounded_unit_mul ⟨1, val_one, by norm_num⟩ hsb
      have hmv : Bounded (2 ^ (4 * t + 1)) (m *. entry (fas t).optimiser.velocity 0) := mono (by omega) (bounded_unit_mul um iv)
      have hv : Bounded (2 ^ (4 * t + 2)) (entry (fas (t + 1)).optimiser.velocity 0) := by
        rw [em] at c7
        obtain ⟨v₁, d1, -, d2⟩ := velocityUpdate_any (hf (K := FP M)) m (y -. ps t) c4
        rw [c7] at d1
        injection d1 with d1
        rw [d1]
        rcases d2 0 Nat.zero_lt_one with h | ⟨-, h⟩ | ⟨-, h⟩ <;> rw [h]
        · exact (bounded_add_pow hM (by omega) hmv hg).1
        · rw [mul_comm_fp]
          exact mono (by omega) hmv
        · rw [mul_comm_fp (entry _ 0) m]
          exact (bounded_add_pow hM (by omega) hmv hg).1
      have ho : Bounded (2 ^ (4 * t + 3)) (m *. (Scalar.one : FP M)) :=
        bounded_unit_mul um ⟨1, val_one, by rw [abs_one]; exact one_le_pow₀ (by norm_num)⟩
      refine ⟨?_, mono (by omega) hv⟩
      rw [(c8 0 Nat.zero_lt_one).1 Scalar.one (List.mem_singleton.2 rfl), el, em]
      exact (bounded_add_pow hM (k := 4 * t + 3) (by omega)
        (bounded_add_pow hM (k := 4 * t + 2) (by omega) (mono (by omega) iw) (bounded_unit_mul ul hv)).1 ho).1
  have hN : normSq (.sparse ⟨1, [(0, (Scalar.one : ℝ))]⟩) = 1 := by
    rw [normSq]
    show ∑ i ∈ Finset.range 1, _ = _
    rw [Finset.sum_range_one]
    show (Scalar.one : ℝ) * Scalar.one = 1
    rw [real_one, mul_one]
  refine ⟨fas, gas, ps, qs, .sparse ⟨1, [(0, (Scalar.one : FP M))]⟩, hs0, hg0, hs, hg, fun T hT => ?_⟩
  have fp : Finite (ps T) := by rw [ed T]; exact finite_of_bounded (main T hT).1
  refine ⟨fp, ?_⟩
  have := (C176_nag hM 1 fas gas (fun _ => ()) (fun _ => y) ps qs hs hg
    (fun _ => .sparse ⟨1, [(0, (Scalar.one : FP M))]⟩) (fun _ => .sparse ⟨1, [(0, (Scalar.one : ℝ))]⟩) hφ hψ
    (fun _ i hi => by
      obtain rfl : i = 0 := by omega
      show (Scalar.one : ℝ) = real (Scalar.one : FP M)
      rw [is_real val_one, real_one])
    hn (by rw [hg0]; exact ⟨rfl, rfl⟩) (fun i hi => by
      obtain rfl : i = 0 := by omega
      rw [hs0, hg0]
      show (0 : ℝ) = real (Scalar.zero : FP M)
      rw [is_real val_zero]) (fun i hi => by
      obtain rfl : i = 0 := by omega
      rw [hs0, hg0]
      show (Scalar.zero : ℝ) = real (Scalar.zero : FP M)
      rw [is_real val_zero, real_zero]) μ l ⟨by rw [hg0]; rfl, by rw [el]; exact is_real hl⟩ ⟨by rw [hg0]; rfl, by rw [em]; exact is_real hm⟩
    l0 h0 h1 (fun _ => by rw [hN, mul_one]; exact l1) T (fun i hi => by
      obtain rfl : i = 0 := by omega
      exact finite_of_bounded (main T hT).1)).2 fp
  rw [hN, Real.sqrt_one, one_mul, em, el] at this
  exact this

end Lfa

import Verif.Proofs.Sweep
import Mathlib.Analysis.InnerProductSpace.Projection.Basic
import Mathlib.Algebra.Order.BigOperators.Ring.Finset
import Mathlib.Analysis.SpecificLimits.Basic

/-!
# How far cyclic rank-one updates end from least squares
-/

set_option linter.unusedSectionVars false

namespace Lfa.Sweep

noncomputable section

variable {E : Type} [NormedAddCommGroup E] [InnerProductSpace ℝ E]

/-- The weighted squared error. -/
def loss (a : ℕ → ℝ) (f : ℕ → E) (y : ℕ → ℝ) (N : ℕ) (w : E) : ℝ :=
  ∑ k ∈ Finset.range N, a k * (y k - inner ℝ (f k) w) ^ 2

variable {a : ℕ → ℝ} {f : ℕ → E} {y : ℕ → ℝ} {N : ℕ}

theorem cauchy (ha : ∀ k, 0 ≤ a k) (x z : ℕ → ℝ) :
    (∑ k ∈ Finset.range N, a k * (x k * z k)) ^ 2
      ≤ (∑ k ∈ Finset.range N, a k * x k ^ 2) * ∑ k ∈ Finset.range N, a k * z k ^ 2 :=
  Finset.sum_sq_le_sum_mul_sum_of_sq_le_mul _ (fun k _ => mul_nonneg (ha k) (sq_nonneg _))
    (fun k _ => mul_nonneg (ha k) (sq_nonneg _)) fun k _ => le_of_eq (by ring)

theorem energy_nonneg (ha : ∀ k, 0 ≤ a k) (x : ℕ → ℝ) : 0 ≤ ∑ k ∈ Finset.range N, a k * x k ^ 2 :=
  Finset.sum_nonneg fun k _ => mul_nonneg (ha k) (sq_nonneg _)

/-- If `∑ a x² = ± ∑ a x c` with `|c| ≤ R ∑ a |d|`, then `x` is at most `R ∑ a` times as long as `d`. -/
theorem energy_le (ha : ∀ k, 0 ≤ a k) {x c d : ℕ → ℝ} {R : ℝ}
    (hc : ∀ k < N, |c k| ≤ R * ∑ j ∈ Finset.range N, a j * |d j|)
    (h : ∑ k ∈ Finset.range N, a k * x k ^ 2 ≤ |∑ k ∈ Finset.range N, a k * (x k * c k)|) :
    ∑ k ∈ Finset.range N, a k * x k ^ 2
      ≤ (R * ∑ k ∈ Finset.range N, a k) ^ 2 * ∑ k ∈ Finset.range N, a k * d k ^ 2 := by
  set A := ∑ k ∈ Finset.range N, a k with hA
  set D := ∑ j ∈ Finset.range N, a j * |d j| with hD
  set X := ∑ k ∈ Finset.range N, a k * x k ^ 2 with hX
  set Y := ∑ k ∈ Finset.range N, a k * d k ^ 2 with hY
  have hX0 : 0 ≤ X := energy_nonneg ha x
  have hY0 : 0 ≤ Y := energy_nonneg ha d
  have hD0 : 0 ≤ D := Finset.sum_nonneg fun j _ => mul_nonneg (ha j) (abs_nonneg _)
  have h1 : |∑ k ∈ Finset.range N, a k * (x k * c k)| ≤ R * D * ∑ k ∈ Finset.range N, a k * |x k| := by
    refine (Finset.abs_sum_le_sum_abs _ _).trans ?_
    rw [Finset.mul_sum]
    refine Finset.sum_le_sum fun k hk => ?_
    rw [abs_mul, abs_mul, abs_of_nonneg (ha k)]
    have := mul_le_mul_of_nonneg_left (hc k (Finset.mem_range.1 hk)) (mul_nonneg (ha k) (abs_nonneg (x k)))
    linarith
  have hcs : ∀ z : ℕ → ℝ, (∑ k ∈ Finset.range N, a k * |z k|) ^ 2 ≤ A * ∑ k ∈ Finset.range N, a k * z k ^ 2 := by
    intro z
    have := cauchy (N := N) ha (fun _ => 1) (fun k => |z k|)
    simp only [one_pow, mul_one, one_mul, sq_abs] at this
    exact this
  have h2 := hcs x
  have h3 : D ^ 2 ≤ A * Y := hcs d
  have h4 : X ^ 2 ≤ (R * A) ^ 2 * Y * X := by
    calc X ^ 2 ≤ (R * D * ∑ k ∈ Finset.range N, a k * |x k|) ^ 2 :=
          pow_le_pow_left₀ hX0 (h.trans h1) 2
      _ = R ^ 2 * (D ^ 2 * (∑ k ∈ Finset.range N, a k * |x k|) ^ 2) := by ring
      _ ≤ R ^ 2 * ((A * Y) * (A * X)) :=
          mul_le_mul_of_nonneg_left (mul_le_mul h3 h2 (sq_nonneg _) ((sq_nonneg D).trans h3)) (sq_nonneg R)
      _ = (R * A) ^ 2 * Y * X := by ring
  by_contra hlt
  push Not at hlt
  have hpos : 0 < X := lt_of_le_of_lt (mul_nonneg (sq_nonneg _) hY0) hlt
  have := mul_lt_mul_of_pos_right hlt hpos
  nlinarith

/-- Weights that solve the normal equations. -/
theorem exists_least [FiniteDimensional ℝ E] (ha : ∀ k, 0 ≤ a k) (f : ℕ → E) (y : ℕ → ℝ) (N : ℕ) :
    ∃ s : E, ∀ u : E, ∑ k ∈ Finset.range N, a k * ((y k - inner ℝ (f k) s) * inner ℝ (f k) u) = 0 := by
  let L : E →ₗ[ℝ] EuclideanSpace ℝ (Fin N) :=
    { toFun := fun u => WithLp.toLp 2 fun i => √(a i) * inner ℝ (f i) u
      map_add' := fun u v => by ext i; simp [inner_add_right, mul_add]
      map_smul' := fun c u => by ext i; simp [inner_smul_right]; ring }
  let Y : EuclideanSpace ℝ (Fin N) := WithLp.toLp 2 fun i => √(a i) * y i
  have hmem := (LinearMap.range L).starProjection_apply_mem Y
  obtain ⟨s, hs⟩ := hmem
  refine ⟨s, fun u => ?_⟩
  have h := (LinearMap.range L).starProjection_inner_eq_zero Y (L u) ⟨u, rfl⟩
  rw [← hs, PiLp.inner_apply] at h
  rw [Finset.sum_range, ← h]
  refine Finset.sum_congr rfl fun i _ => ?_
  have e := Real.mul_self_sqrt (ha i)
  show _ = (√(a i) * inner ℝ (f i) u) * (√(a i) * y i - √(a i) * inner ℝ (f i) s)
  rw [show (√(a i) * inner ℝ (f i) u) * (√(a i) * y i - √(a i) * inner ℝ (f i) s)
    = (√(a i) * √(a i)) * ((y i - inner ℝ (f i) s) * inner ℝ (f i) u) by ring, e]

/-- Pythagoras for least squares. -/
theorem loss_split {s : E} (hs : ∀ u : E, ∑ k ∈ Finset.range N, a k * ((y k - inner ℝ (f k) s) * inner ℝ (f k) u) = 0)
    (w : E) : loss a f y N w = loss a f y N s + ∑ k ∈ Finset.range N, a k * inner ℝ (f k) (w - s) ^ 2 := by
  have h := hs (w - s)
  have e : loss a f y N w = loss a f y N s + (∑ k ∈ Finset.range N, a k * inner ℝ (f k) (w - s) ^ 2)
      - 2 * ∑ k ∈ Finset.range N, a k * ((y k - inner ℝ (f k) s) * inner ℝ (f k) (w - s)) := by
    unfold loss
    rw [Finset.mul_sum, ← Finset.sum_add_distrib, ← Finset.sum_sub_distrib]
    refine Finset.sum_congr rfl fun k _ => ?_
    rw [inner_sub_right]
    ring
  rw [e, h]
  ring

/-- The displacement within a cycle. -/
theorem aff_eq (v : E) (k : ℕ) : aff a f y v k = v + ∑ j ∈ Finset.range k,
    (a j * (y j - inner ℝ (f j) (aff a f y v j))) • f j := by
  induction k with
  | zero => rw [Finset.sum_range_zero, add_zero]; rfl
  | succ k ih =>
    rw [Finset.sum_range_succ, ← add_assoc, ← ih]
    rfl

/-- The error of the weights at the start of a cycle. -/
theorem loss_cycle (ha : ∀ k, 0 ≤ a k) {R : ℝ} (hR : ∀ k, ‖f k‖ ^ 2 ≤ R)
    (hτ : R * ∑ k ∈ Finset.range N, a k < 1) {s : E}
    (hs : ∀ u : E, ∑ k ∈ Finset.range N, a k * ((y k - inner ℝ (f k) s) * inner ℝ (f k) u) = 0)
    {v : E} (hv : aff a f y v N = v) :
    loss a f y N v ≤ (1 + ((R * ∑ k ∈ Finset.range N, a k) / (1 - R * ∑ k ∈ Finset.range N, a k)) ^ 2)
      * loss a f y N s := by
  have hR0 : 0 ≤ R := (sq_nonneg _).trans (hR 0)
  have hb := balanced hv
  set q := aff a f y v with hq
  set d : ℕ → ℝ := fun k => y k - inner ℝ (f k) (q k) with hd
  set e : ℕ → ℝ := fun k => y k - inner ℝ (f k) s with he
  set c : ℕ → ℝ := fun k => inner ℝ (f k) (q k - v) with hcdef
  set p : ℕ → ℝ := fun k => inner ℝ (f k) (q k - s) with hp
  set x : ℕ → ℝ := fun k => inner ℝ (f k) (v - s) with hx
  have hpx : ∀ k, p k = x k + c k := fun k => by
    simp only [hp, hx, hcdef, inner_sub_right]; ring
  have hde : ∀ k, d k = e k - p k := fun k => by
    simp only [hd, he, hp, inner_sub_right]; ring
  have hA0 : 0 ≤ R * ∑ k ∈ Finset.range N, a k := mul_nonneg hR0 (Finset.sum_nonneg fun k _ => ha k)
  set τ := R * ∑ k ∈ Finset.range N, a k with hτdef
  -- displacements are small
  have hc : ∀ k < N, |c k| ≤ R * ∑ j ∈ Finset.range N, a j * |d j| := by
    intro k hk
    have h1 : q k - v = ∑ j ∈ Finset.range k, (a j * d j) • f j := by
      rw [hq, aff_eq v k, add_sub_cancel_left]
    show |inner ℝ (f k) (q k - v)| ≤ _
    rw [h1, inner_sum]
    refine (Finset.abs_sum_le_sum_abs _ _).trans ?_
    refine (Finset.sum_le_sum_of_subset_of_nonneg (Finset.range_mono hk.le) fun _ _ _ => abs_nonneg _).trans ?_
    rw [Finset.mul_sum]
    refine Finset.sum_le_sum fun j _ => ?_
    rw [inner_smul_right, abs_mul, abs_mul, abs_of_nonneg (ha j)]
    have h2 : |inner ℝ (f k) (f j)| ≤ R := by
      refine (abs_real_inner_le_norm _ _).trans ?_
      nlinarith [hR k, hR j, sq_nonneg (‖f k‖ - ‖f j‖)]
    have := mul_le_mul_of_nonneg_left h2 (mul_nonneg (ha j) (abs_nonneg (d j)))
    linarith
  -- the predictions and the normal equations
  have hbu : ∀ u : E, ∑ k ∈ Finset.range N, a k * (d k * inner ℝ (f k) u) = 0 := by
    intro u
    have := congrArg (fun z => inner ℝ z u) hb
    simp only [sum_inner, inner_zero_left, inner_smul_left, conj_trivial] at this
    rw [← this]
    exact Finset.sum_congr rfl fun k _ => by simp only [hd]; ring
  have hpv : ∑ k ∈ Finset.range N, a k * (p k * x k) = 0 := by
    have h1 := hbu (v - s)
    have h2 := hs (v - s)
    rw [← sub_zero (0 : ℝ)]
    nth_rewrite 1 [← h2]
    rw [← h1, ← Finset.sum_sub_distrib]
    refine Finset.sum_congr rfl fun k _ => ?_
    have := hde k
    simp only [he, hx] at this ⊢
    rw [show p k = (y k - inner ℝ (f k) s) - d k by linarith]
    ring
  have hX : ∑ k ∈ Finset.range N, a k * x k ^ 2 ≤ τ ^ 2 * ∑ k ∈ Finset.range N, a k * d k ^ 2 := by
    refine energy_le ha hc ?_
    have : ∑ k ∈ Finset.range N, a k * x k ^ 2 = - ∑ k ∈ Finset.range N, a k * (x k * c k) := by
      rw [eq_neg_iff_add_eq_zero, ← Finset.sum_add_distrib, ← hpv]
      exact Finset.sum_congr rfl fun k _ => by rw [hpx]; ring
    rw [this]
    exact neg_le_abs _
  have hP : ∑ k ∈ Finset.range N, a k * p k ^ 2 ≤ τ ^ 2 * ∑ k ∈ Finset.range N, a k * d k ^ 2 := by
    refine energy_le ha hc ?_
    have : ∑ k ∈ Finset.range N, a k * p k ^ 2 = ∑ k ∈ Finset.range N, a k * (p k * c k) := by
      rw [← sub_eq_zero, ← Finset.sum_sub_distrib, ← hpv]
      exact Finset.sum_congr rfl fun k _ => by
        rw [show c k = p k - x k by rw [hpx]; ring]; ring
    rw [this]
    exact le_abs_self _
  -- the residuals along the cycle
  have hD : (1 - τ) ^ 2 * ∑ k ∈ Finset.range N, a k * d k ^ 2 ≤ ∑ k ∈ Finset.range N, a k * e k ^ 2 := by
    set X := ∑ k ∈ Finset.range N, a k * d k ^ 2 with hXd
    set Q := ∑ k ∈ Finset.range N, a k * p k ^ 2 with hQd
    have hX0 : 0 ≤ X := energy_nonneg ha d
    have hQ0 : 0 ≤ Q := energy_nonneg ha p
    have h1 : ∑ k ∈ Finset.range N, a k * e k ^ 2
        = X + 2 * (∑ k ∈ Finset.range N, a k * (d k * p k)) + Q := by
      rw [Finset.mul_sum, ← Finset.sum_add_distrib, ← Finset.sum_add_distrib]
      refine Finset.sum_congr rfl fun k _ => ?_
      rw [hde]
      ring
    have h2 := cauchy (N := N) ha d p
    have h3 : |∑ k ∈ Finset.range N, a k * (d k * p k)| ≤ √X * √Q := by
      rw [← Real.sqrt_mul hX0]
      exact Real.abs_le_sqrt h2
    have h4 : √Q ≤ τ * √X := by
      rw [← Real.sqrt_sq hA0, ← Real.sqrt_mul (sq_nonneg τ)]
      exact Real.sqrt_le_sqrt hP
    have h5 := Real.sq_sqrt hX0
    have h6 := Real.sq_sqrt hQ0
    have h7 := (abs_le.1 h3).1
    have h8 : (√X - τ * √X) ^ 2 ≤ (√X - √Q) ^ 2 := by
      refine pow_le_pow_left₀ ?_ (by linarith) 2
      nlinarith [Real.sqrt_nonneg X]
    rw [h1]
    nlinarith
  have h1τ : 0 < 1 - τ := by linarith
  rw [loss_split hs v]
  have hloss : loss a f y N s = ∑ k ∈ Finset.range N, a k * e k ^ 2 := rfl
  have : ∑ k ∈ Finset.range N, a k * x k ^ 2 ≤ (τ / (1 - τ)) ^ 2 * ∑ k ∈ Finset.range N, a k * e k ^ 2 := by
    rw [div_pow, div_mul_eq_mul_div, le_div_iff₀ (by positivity)]
    have := mul_le_mul_of_nonneg_left hD (sq_nonneg τ)
    have := mul_le_mul_of_nonneg_right hX (sq_nonneg (1 - τ))
    linarith
  rw [hloss, add_mul, one_mul]
  exact add_le_add le_rfl this

theorem sum_shift {g : ℕ → ℝ} (hg : ∀ k, g (k + N) = g k) (j : ℕ) :
    ∑ k ∈ Finset.range N, g (k + j) = ∑ k ∈ Finset.range N, g k := by
  induction j with
  | zero => rfl
  | succ j ih =>
    rw [← ih]
    have h1 := Finset.sum_range_succ (fun k => g (k + j)) N
    have h2 := Finset.sum_range_succ' (fun k => g (k + j)) N
    have h3 : g (N + j) = g (0 + j) := by rw [Nat.add_comm N j, hg, Nat.zero_add]
    have h4 : ∀ k, g (k + 1 + j) = g (k + (j + 1)) := fun k => by congr 1; omega
    simp only [h4] at h2
    linarith

theorem aff_later (v : E) (j k : ℕ) :
    aff (fun i => a (i + j)) (fun i => f (i + j)) (fun i => y (i + j)) (aff a f y v j) k = aff a f y v (k + j) := by
  induction k with
  | zero => rw [Nat.zero_add]; rfl
  | succ k ih =>
    show _ + _ = _
    rw [ih, Nat.succ_add]
    rfl

theorem loss_shift (ha : ∀ k, a (k + N) = a k) (hf : ∀ k, f (k + N) = f k) (hy : ∀ k, y (k + N) = y k) (w : E) (j : ℕ) :
    loss (fun i => a (i + j)) (fun i => f (i + j)) (fun i => y (i + j)) N w = loss a f y N w :=
  sum_shift (g := fun k => a k * (y k - inner ℝ (f k) w) ^ 2) (fun k => by simp only [ha, hf, hy]) j

/-- The error that cyclic updates leave, compared with the error of any other weights. -/
theorem cyclic_loss [FiniteDimensional ℝ E] (h : Stable a f) (hN : 0 < N) (ha : ∀ k, a (k + N) = a k)
    (hf : ∀ k, f (k + N) = f k) {R : ℝ} (hR : ∀ k, ‖f k‖ ^ 2 ≤ R)
    (hτ : R * ∑ k ∈ Finset.range N, a k < 1) (hy : ∀ k, y (k + N) = y k) (w : E) {ε : ℝ} (hε : 0 < ε) :
    ∃ K, ∀ k, K ≤ k → ∀ v : E, loss a f y N (aff a f y w k) ≤
      (1 + ((R * ∑ k ∈ Finset.range N, a k) / (1 - R * ∑ k ∈ Finset.range N, a k)) ^ 2) * loss a f y N v + ε := by
  have ha0 : ∀ k, 0 ≤ a k := fun k => (h k).1.le
  obtain ⟨r, r0, r1, hr⟩ := cyclic h hN ha hf
  obtain ⟨z, hz1, hz2, -⟩ := hr y hy w
  obtain ⟨s, hs⟩ := exists_least ha0 f y N
  set κ := 1 + ((R * ∑ k ∈ Finset.range N, a k) / (1 - R * ∑ k ∈ Finset.range N, a k)) ^ 2 with hκ
  have hκ0 : 0 ≤ κ := by positivity
  -- every point of the cycle
  have hcyc : ∀ j, loss a f y N (aff a f y z j) ≤ κ * loss a f y N s := by
    intro j
    rw [← loss_shift ha hf hy _ j, ← loss_shift ha hf hy s j]
    have hsum : ∑ k ∈ Finset.range N, a (k + j) = ∑ k ∈ Finset.range N, a k := sum_shift ha j
    have := loss_cycle (a := fun i => a (i + j)) (f := fun i => f (i + j)) (y := fun i => y (i + j)) (N := N)
      (fun k => ha0 _) (R := R) (fun k => hR _) (by rw [hsum]; exact hτ) (s := s) (fun u => by
        rw [← hs u]
        exact sum_shift (g := fun k => a k * ((y k - inner ℝ (f k) s) * inner ℝ (f k) u))
          (fun k => by simp only [ha, hf, hy]) j) (v := aff a f y z j) (by
        rw [aff_later, Nat.add_comm, hz1])
    rw [hsum] at this
    exact this
  -- the run approaches the cycle
  set A := ∑ k ∈ Finset.range N, a k * ‖f k‖ ^ 2 with hA
  have hA0 : 0 ≤ A := Finset.sum_nonneg fun k _ => mul_nonneg (ha0 k) (sq_nonneg _)
  have hdiff : ∀ k, loss a f y N (aff a f y w k) ≤
      (√(κ * loss a f y N s) + √A * (r ^ (k / N) * ‖w - z‖)) ^ 2 := by
    intro k
    set u := aff a f y w k with hu
    set t := aff a f y z k with ht
    have h1 : loss a f y N u = loss a f y N t
        - 2 * (∑ i ∈ Finset.range N, a i * ((y i - inner ℝ (f i) t) * inner ℝ (f i) (u - t)))
        + ∑ i ∈ Finset.range N, a i * inner ℝ (f i) (u - t) ^ 2 := by
      unfold loss
      rw [Finset.mul_sum, ← Finset.sum_sub_distrib, ← Finset.sum_add_distrib]
      refine Finset.sum_congr rfl fun i _ => ?_
      rw [inner_sub_right]
      ring
    have h2 := cauchy (N := N) ha0 (fun i => y i - inner ℝ (f i) t) (fun i => inner ℝ (f i) (u - t))
    have hL0 : 0 ≤ loss a f y N t := energy_nonneg ha0 _
    set S := ∑ i ∈ Finset.range N, a i * inner ℝ (f i) (u - t) ^ 2 with hS
    have hS0 : 0 ≤ S := energy_nonneg ha0 _
    have h3 : |∑ i ∈ Finset.range N, a i * ((y i - inner ℝ (f i) t) * inner ℝ (f i) (u - t))|
        ≤ √(loss a f y N t) * √S := by
      rw [← Real.sqrt_mul hL0]
      exact Real.abs_le_sqrt h2
    have h4 : √S ≤ √A * ‖u - t‖ := by
      rw [← Real.sqrt_sq (norm_nonneg (u - t)), ← Real.sqrt_mul hA0]
      refine Real.sqrt_le_sqrt ?_
      rw [hA, Finset.sum_mul]
      refine Finset.sum_le_sum fun i _ => ?_
      rw [mul_assoc, ← mul_pow]
      refine mul_le_mul_of_nonneg_left ?_ (ha0 i)
      rw [← sq_abs]
      exact pow_le_pow_left₀ (abs_nonneg _) (abs_real_inner_le_norm _ _) 2
    have h5 := (abs_le.1 h3).1
    have h6 := Real.sq_sqrt hL0
    have h7 := Real.sq_sqrt hS0
    have h8 : loss a f y N u ≤ (√(loss a f y N t) + √S) ^ 2 := by nlinarith
    refine h8.trans (pow_le_pow_left₀ (add_nonneg (Real.sqrt_nonneg _) (Real.sqrt_nonneg _)) ?_ 2)
    refine add_le_add (Real.sqrt_le_sqrt (hcyc k)) (h4.trans ?_)
    exact mul_le_mul_of_nonneg_left (hz2 k) (Real.sqrt_nonneg _)
  have hκs : 0 ≤ κ * loss a f y N s := mul_nonneg hκ0 (energy_nonneg ha0 _)
  have hlim : Filter.Tendsto (fun k : ℕ => (√(κ * loss a f y N s) + √A * (r ^ (k / N) * ‖w - z‖)) ^ 2)
      Filter.atTop (nhds ((√(κ * loss a f y N s) + √A * (0 * ‖w - z‖)) ^ 2)) := by
    have hp : Filter.Tendsto (fun k : ℕ => r ^ (k / N)) Filter.atTop (nhds 0) :=
      (tendsto_pow_atTop_nhds_zero_of_lt_one r0 r1).comp (Nat.tendsto_div_const_atTop hN.ne')
    exact (((hp.mul_const _).const_mul _).const_add _).pow 2
  rw [zero_mul, mul_zero, add_zero, Real.sq_sqrt hκs] at hlim
  obtain ⟨K, hK⟩ := (hlim.eventually_lt_const (lt_add_of_pos_right _ hε)).exists_forall_of_atTop
  refine ⟨K, fun k hk v => (hdiff k).trans ((hK k hk).le.trans ?_)⟩
  have hmin : loss a f y N s ≤ loss a f y N v := by
    rw [loss_split hs v]
    have : 0 ≤ ∑ k ∈ Finset.range N, a k * inner ℝ (f k) (v - s) ^ 2 := energy_nonneg ha0 _
    linarith
  have := mul_le_mul_of_nonneg_left hmin hκ0
  linarith

end

end Lfa.Sweep

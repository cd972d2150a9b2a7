import Verif.Props.C180

/-!
# C181: training in double precision stays near exact training for ever

As C180, but for any inputs and any targets, noisy or changing: no weights need fit them. All that is needed is that the inputs keep
exploring every direction of the weights.
-/

set_option linter.unusedSectionVars false

namespace Lfa

open Spec Machine XReal Filter Topology

variable {M : Machine} {ι : Type}

/-- From every call on, `L` calls of exact training with rates `c t`, features `g t` and targets zero multiply the length of the weights
by at most `r`. -/
def Spec.Persistent (n L : Nat) (g : Nat → Nat → ℝ) (c : Nat → ℝ) (r : ℝ) : Prop :=
  ∀ (s : Nat) (us : Nat → Nat → ℝ),
    (∀ k < L, ∀ i < n, us (k + 1) i = us k i - c (s + k) * (∑ j ∈ Finset.range n, g (s + k) j * us k j) * g (s + k) i) →
    len n (us L) ≤ r * len n (us 0)

/-- In every `L` consecutive calls the features together see every direction: `∑ c ⟨φ, u⟩² ≥ μ ‖u‖²`. -/
def Spec.Excited (n L : Nat) (g : Nat → Nat → ℝ) (c : Nat → ℝ) (μ : ℝ) : Prop :=
  ∀ (s : Nat) (u : Nat → ℝ), μ * ∑ j ∈ Finset.range n, u j ^ 2 ≤
    ∑ k ∈ Finset.range L, c (s + k) * (∑ j ∈ Finset.range n, g (s + k) j * u j) ^ 2

noncomputable section

theorem run_spots {n : Nat} {g : Nat → Nat → ℝ} {c : Nat → ℝ} {us : Nat → Nat → ℝ} (s : Nat) : ∀ L : Nat,
    (∀ k < L, ∀ i < n, us (k + 1) i = us k i - c (s + k) * (∑ j ∈ Finset.range n, g (s + k) j * us k j) * g (s + k) i) →
    Sweep.run (fun k => c (s + k)) (fun k => spot n (g (s + k))) (spot n (us 0)) L = spot n (us L) := by
  intro L
  induction L with
  | zero => exact fun _ => rfl
  | succ k ih =>
    intro h
    show Sweep.lin _ _ (Sweep.run _ _ _ k) = _
    rw [ih fun k hk => h k (by omega), spot_lin]
    exact spot_congr fun i hi => (h k (by omega) i hi).symm

theorem persistent_run {n L : Nat} {g : Nat → Nat → ℝ} {c : Nat → ℝ} {r : ℝ} (h : Persistent n L g c r) (s : Nat)
    (u : EuclideanSpace ℝ (Fin n)) : ‖Sweep.run (fun k => c (s + k)) (fun k => spot n (g (s + k))) u L‖ ≤ r * ‖u‖ := by
  obtain ⟨f, rfl⟩ := exists_spot u
  let us : Nat → Nat → ℝ := fun k => Nat.rec f (fun k f i => f i -
    c (s + k) * (∑ j ∈ Finset.range n, g (s + k) j * f j) * g (s + k) i) k
  have hus : ∀ k < L, ∀ i < n, us (k + 1) i = us k i -
    c (s + k) * (∑ j ∈ Finset.range n, g (s + k) j * us k j) * g (s + k) i := fun k _ i _ => rfl
  have h1 := run_spots s L hus
  rw [show spot n f = spot n (us 0) from rfl, h1, spot_norm, spot_norm]
  exact h s us hus

/-- Inputs that keep exploring, with rates `c ‖φ‖² ≤ 1`, contract by `√(1 - μ / L²)`. -/
theorem C181_excited (n L : Nat) (hL : 0 < L) (g : Nat → Nat → ℝ) (c : Nat → ℝ) (hc : ∀ t, 0 ≤ c t)
    (h1 : ∀ t, c t * ∑ j ∈ Finset.range n, g t j ^ 2 ≤ 1) (μ : ℝ) (hμ : Excited n L g c μ) :
    Persistent n L g c √(1 - μ / L ^ 2) := by
  intro s us hus
  have h2 := Sweep.excited (c := fun k => c (s + k)) (g := fun k => spot n (g (s + k))) (L := L) (μ := μ)
    (fun k _ => ⟨hc _, by rw [spot_norm, len_sq]; exact h1 _⟩) (spot n (us 0)) (by
      rw [spot_norm, len_sq]
      simp only [spot_inner]
      exact hμ s (us 0))
  rw [run_spots s L hus, spot_norm, spot_norm] at h2
  have L0 : (0 : ℝ) < L := by exact_mod_cast hL
  have h3 : len n (us L) ^ 2 ≤ (1 - μ / L ^ 2) * len n (us 0) ^ 2 := by
    rw [← mul_le_mul_iff_right₀ (pow_pos L0 2)]
    refine h2.trans (le_of_eq ?_)
    field_simp
  refine (Real.le_sqrt_of_sq_le h3).trans (le_of_eq ?_)
  rw [Real.sqrt_mul' _ (sq_nonneg _), Real.sqrt_sq (len_nonneg _ _)]

theorem persistent_congr {n L : Nat} {g g' : Nat → Nat → ℝ} {c : Nat → ℝ} {r : ℝ} (h : Persistent n L g c r)
    (hg : ∀ t, ∀ i < n, g t i = g' t i) : Persistent n L g' c r := by
  refine fun s us hus => h s us fun k hk i hi => ?_
  rw [hus k hk i hi, hg _ i hi, Finset.sum_congr rfl fun j hj => by rw [← hg _ j (Finset.mem_range.1 hj)]]

/-- Two features that take turns explore both weights. -/
theorem C181_excited_example : Excited 2 2 (fun t j => if j = t % 2 then 1 else 0) (fun _ => 1 / 2) (1 / 2) := by
  intro s u
  rcases Nat.mod_two_eq_zero_or_one s with h | h
  · have h1 : (s + 1) % 2 = 1 := by omega
    simp [Finset.sum_range_succ, h, h1]
    linarith
  · have h1 : (s + 1) % 2 = 0 := by omega
    simp [Finset.sum_range_succ, h, h1]
    linarith

/-- Finitely many examples, in any order that repeats each of them within `L` calls, and any factor of C180. -/
theorem C181_examples (n L : Nat) (g : ι → Nat → ℝ) (c : ι → ℝ) (r : ℝ) (h : WindowFactor n L g c r) (σ : Nat → ι)
    (hσ : ∀ t i, ∃ m < L, σ (t + m) = i) : Persistent n L (fun t => g (σ t)) (fun t => c (σ t)) r :=
  fun s us hus => h (fun k => σ (s + k)) (hσ s) us hus

/-- Weights `ws` moved by moderate calls as in `run_bounds`, for ever. -/
theorem shadow_bounds (hM : M.rnd = binary64Format.rnd) {m n k L : Nat} {ws : Nat → List (FP M)} {us : Nat → Nat → ℝ}
    {c ys ps : Nat → FP M} {φ : Nat → Features (FP M)} {q : Nat → ℝ} {D ε η r : ℝ} (hmod : ∀ t, Moderate n k (φ t) (ys t))
    (hφ : ∀ t, Fits n (φ t)) (hw : ∀ t, (ws t).length = n) (hdot : ∀ t, (φ t).dotColumn m (ws t) = .ok (ps t))
    (hc : ∀ t, Bounded (2 ^ 101) (c t))
    (hstep : ∀ t, ∀ i < n, (∀ a, Stored (φ t) i a → entry (ws (t + 1)) i = (entry (ws t) i +. c t *. (ys t -. ps t) *. a)) ∧
      (¬ Active (φ t) i → entry (ws (t + 1)) i = entry (ws t) i))
    (hus : ∀ t, ∀ i < n, us (t + 1) i = us t i +
      q t * (real (ys t) - ∑ j ∈ Finset.range n, real (value (φ t) j) * us t j) * real (value (φ t) i))
    (h0 : ∀ i < n, us 0 i = real (entry (ws 0) i)) (hb : ∀ i < n, Bounded (2 ^ 100) (entry (ws 0) i))
    (q0 : ∀ t, 0 ≤ q t) (q2 : ∀ t, q t * ∑ i ∈ Finset.range n, real (value (φ t) i) ^ 2 ≤ 2)
    (hD : ∀ t, q t * len n (fun i => real (value (φ t) i)) * |real (ys t)| ≤ D) (hD1 : D ≤ 2 ^ 190)
    (hε : roundoff ≤ ε) (hη : 0 ≤ η) (hηε : η ≤ ε) (hkε : 2 * k * roundoff ≤ ε) (r0 : 0 ≤ r) (Lpos : 0 < L)
    (hr : Persistent n L (fun t i => real (value (φ t) i)) q r) (hL : 4 * (L * ε) ≤ 1 - r)
    (herr : ∀ t, (∃ r, Is (ps t) r ∧ |r - exactDot (φ t) (ws t)| ≤ predictionError (φ t) (ws t)) →
      (∀ i < n, Spec.Finite (entry (ws (t + 1)) i)) → len n (fun i => real (entry (ws t) i)) ≤ 2 ^ 252 →
      len n (fun i => real (entry (ws (t + 1)) i) - (real (entry (ws t) i) +
        q t * (real (ys t) - exactDot (φ t) (ws t)) * real (value (φ t) i))) ≤
      ε * (len n (fun i => real (entry (ws t) i)) + D) + η) (t : Nat) {W E : ℝ}
    (hW : W = 2 * len n (fun i => real (entry (ws 0) i)) + 10 * L * D / (1 - r))
    (hE : E = 10 * L * (ε * (W + D) + η) / (1 - r)) :
    (∀ i < n, Spec.Finite (entry (ws t) i)) ∧ Spec.Finite (ps t) ∧ len n (us t) ≤ W ∧
    len n (fun i => real (entry (ws t) i) - us t i) ≤ E ∧
    len n (fun i => real (value (φ t) i)) * E + predictionError (φ t) (ws t) ≤
      3 * (len n (fun i => real (value (φ t) i)) * E) + 2 ^ (-1034 : ℤ) := by
  have ε0 : 0 < ε := roundoff_pos.trans_le hε
  have L1 : (0 : ℝ) < L := by exact_mod_cast Lpos
  have d : 0 < 1 - r := lt_of_lt_of_le (by positivity) hL
  have D0 : 0 ≤ D := (mul_nonneg (mul_nonneg (q0 0) (len_nonneg _ _)) (abs_nonneg _)).trans (hD 0)
  have W0 : 0 ≤ W := by rw [hW]; have := len_nonneg n fun i => real (entry (ws 0) i); positivity
  have E0 : 0 ≤ E := by rw [hE]; positivity
  have hε1 : ε ≤ 1 / 4 := by
    have : (1 : ℝ) ≤ L := by exact_mod_cast Lpos
    nlinarith
  have hN0 : len n (fun i => real (entry (ws 0) i)) ≤ 2 ^ 120 := by
    refine (len_le_of_bounded (hmod 0).size (c := 2 ^ 100) (by positivity) fun i hi => ?_).trans
      (le_of_eq (by rw [← pow_add]))
    obtain ⟨r, hr, h1⟩ := hb i hi
    rwa [is_real hr]
  have hex : ∀ t, exactDot (φ t) (ws t) = ∑ j ∈ Finset.range n, real (value (φ t) j) * real (entry (ws t) j) :=
    fun t => by unfold exactDot; rw [(hφ t).2]
  -- the exact run is bounded
  have stable : ∀ t, 0 ≤ q t ∧ q t * ‖spot n fun i => real (value (φ t) i)‖ ^ 2 ≤ 2 := fun t =>
    ⟨q0 t, by rw [spot_norm, len_sq]; exact q2 t⟩
  have exact_le : ∀ t, len n (us t) ≤ W := by
    intro t
    have h := Sweep.perturbed (c := q) (g := fun t => spot n fun i => real (value (φ t) i)) stable r0 le_rfl D0 (L := L)
      (by rw [mul_zero, mul_zero]; exact d.le) (by linarith) Lpos (fun s u => persistent_run hr s u) (fun t => spot n (us t)) t
      (fun s _ => by
        rw [spot_lin, zero_mul, zero_add]
        have h1 : spot n (us (s + 1)) - spot n (fun i => us s i - q s * (∑ j ∈ Finset.range n, real (value (φ s) j) * us s j) *
            real (value (φ s) i)) = spot n fun i => q s * real (ys s) * real (value (φ s) i) := by
          refine Eq.trans (b := spot n fun i => us (s + 1) i - (us s i - q s * (∑ j ∈ Finset.range n, real (value (φ s) j) * us s j) *
            real (value (φ s) i))) rfl (spot_congr fun i hi => ?_)
          rw [hus s i hi]
          ring
        rw [h1, spot_norm, len_smul', abs_mul, abs_of_nonneg (q0 s)]
        exact le_trans (le_of_eq (by ring)) (hD s)) t le_rfl
    simp only [spot_norm] at h
    refine h.trans ?_
    rw [hW, len_congr (g := fun i => real (entry (ws 0) i)) h0]
    have h1 : ((1 + r) / 2) ^ (t / L) ≤ 1 := pow_le_one₀ (by linarith) (by linarith)
    have h2 := mul_le_mul_of_nonneg_right h1 (len_nonneg n fun i => real (entry (ws 0) i))
    have e : 10 * (L * D) / (1 - r) = 10 * L * D / (1 - r) := by ring
    rw [e]
    linarith
  have split : ∀ t, len n (fun i => real (entry (ws t) i)) ≤ len n (fun i => real (entry (ws t) i) - us t i) + len n (us t) := by
    intro t
    refine le_trans (le_of_eq (len_congr fun i _ => ?_)) (len_add_le n (fun i => real (entry (ws t) i) - us t i) (us t))
    ring
  have β0 : 0 ≤ ε * (W + D) + η := by positivity
  -- the bounds are far from overflow
  have ratio : L / (1 - r) ≤ 1 / (4 * ε) := by
    rw [div_le_div_iff₀ d (by positivity)]
    linarith
  have big : W + E ≤ 2 ^ 252 := by
    have h1 : 1 / (4 * ε) ≤ 2 ^ 51 := by
      rw [div_le_iff₀ (by positivity)]
      have : (1 : ℝ) = 2 ^ 51 * (4 * roundoff) := by rw [roundoff]; norm_num
      nlinarith
    have h2 : W ≤ 2 * 2 ^ 120 + 10 * (2 ^ 51 * 2 ^ 190) := by
      have e : 10 * L * D / (1 - r) = 10 * (L / (1 - r) * D) := by ring
      rw [hW, e]
      have := mul_le_mul (ratio.trans h1) hD1 D0 (by positivity)
      linarith
    have h3 : E ≤ 3 * (W + D + 1) := by
      have e : E = 10 * (L / (1 - r) * (ε * (W + D) + η)) := by rw [hE]; ring
      rw [e]
      have h4 := mul_le_mul_of_nonneg_right ratio β0
      have h5 : 1 / (4 * ε) * (ε * (W + D) + η) ≤ 1 / 4 * (W + D + 1) := by
        rw [div_mul_eq_mul_div, div_le_iff₀ (by positivity)]
        nlinarith
      linarith
    have h6 : 4 * (2 * 2 ^ 120 + 10 * (2 ^ 51 * 2 ^ 190)) + 3 * (2 ^ 190 + 1) ≤ (2 : ℝ) ^ 252 := by norm_num
    linarith
  have small : ∀ t, len n (fun i => real (entry (ws t) i) - us t i) ≤ E → len n (fun i => real (entry (ws t) i)) ≤ 2 ^ 252 :=
    fun t h => (split t).trans (by linarith [exact_le t])
  have pred : ∀ t, (∀ i < n, Spec.Finite (entry (ws t) i)) → len n (fun i => real (entry (ws t) i)) ≤ 2 ^ 252 →
      Bounded (2 ^ 400) (ps t) := by
    intro t h1 h2
    have h3 := dotColumn_bounded hM m (hφ t) (hw t) (hdot t) (a := 100) (b := 252) (by norm_num) (hmod t).features
      (fun i hi => by
        obtain ⟨r, hr⟩ := h1 i hi
        refine ⟨r, hr, le_trans ?_ h2⟩
        have := abs_le_len (fun i => real (entry (ws t) i)) hi
        rwa [is_real hr] at this) ((hmod t).count.1.trans ((hmod t).count.2.trans (by norm_num)))
    refine bounded_mono h3 ?_
    have h4 : (storedCount (φ t) : ℝ) ≤ 2 ^ 40 := by exact_mod_cast (hmod t).count.1.trans (hmod t).count.2
    refine (mul_le_mul_of_nonneg_right h4 (by positivity)).trans ?_
    rw [← pow_add]
    exact pow_le_pow_right₀ (by norm_num) (by norm_num)
  have perr : ∀ t, Bounded (2 ^ 400) (ps t) →
      ∃ r, Is (ps t) r ∧ |r - exactDot (φ t) (ws t)| ≤ predictionError (φ t) (ws t) := by
    intro t h
    obtain ⟨r, hr, -⟩ := h
    exact ⟨r, hr, dotColumn_err hM m (hφ t) (hw t) (hdot t) hr⟩
  have near : ∀ T, (∀ s < T, len n (fun i => real (entry (ws (s + 1)) i) - (real (entry (ws s) i) +
        q s * (real (ys s) - exactDot (φ s) (ws s)) * real (value (φ s) i))) ≤
      ε * (len n (fun i => real (entry (ws s) i)) + D) + η) →
      len n (fun i => real (entry (ws T) i) - us T i) ≤ E := by
    intro T h
    have := Sweep.perturbed (c := q) (g := fun t => spot n fun i => real (value (φ t) i)) stable r0 ε0.le β0 hL (by linarith) Lpos
      (fun s u => persistent_run hr s u)
      (fun t => spot n fun i => real (entry (ws t) i) - us t i) T (fun s hs => by
        rw [spot_lin, spot_norm]
        have h1 : spot n (fun i => real (entry (ws (s + 1)) i) - us (s + 1) i) -
            spot n (fun i => (real (entry (ws s) i) - us s i) - q s * (∑ j ∈ Finset.range n, real (value (φ s) j) *
              (real (entry (ws s) j) - us s j)) * real (value (φ s) i)) =
            spot n fun i => real (entry (ws (s + 1)) i) - (real (entry (ws s) i) +
              q s * (real (ys s) - exactDot (φ s) (ws s)) * real (value (φ s) i)) := by
          refine Eq.trans (b := spot n fun i => (real (entry (ws (s + 1)) i) - us (s + 1) i) - ((real (entry (ws s) i) - us s i) -
            q s * (∑ j ∈ Finset.range n, real (value (φ s) j) *
              (real (entry (ws s) j) - us s j)) * real (value (φ s) i))) rfl (spot_congr fun i hi => ?_)
          rw [hex, hus s i hi]
          simp only [mul_sub, Finset.sum_sub_distrib]
          ring
        rw [h1, spot_norm]
        refine (h s hs).trans ?_
        have h2 := mul_le_mul_of_nonneg_left ((split s).trans (add_le_add le_rfl (exact_le s))) ε0.le
        linarith) T le_rfl
    simp only [spot_norm] at this
    refine this.trans ?_
    have e : len n (fun i => real (entry (ws 0) i) - us 0 i) = 0 := by
      rw [len_congr (g := fun _ => 0) fun i hi => by rw [h0 i hi, sub_self], len_const n 0 le_rfl, mul_zero]
    rw [e, mul_zero, zero_add, hE]
    exact le_of_eq (by ring)
  have main : ∀ t, (∀ i < n, Spec.Finite (entry (ws t) i)) ∧ ∀ s < t,
      len n (fun i => real (entry (ws (s + 1)) i) - (real (entry (ws s) i) +
        q s * (real (ys s) - exactDot (φ s) (ws s)) * real (value (φ s) i))) ≤
      ε * (len n (fun i => real (entry (ws s) i)) + D) + η := by
    intro t
    induction t with
    | zero => exact ⟨fun i hi => finite_of_bounded (hb i hi), fun s hs => absurd hs (Nat.not_lt_zero _)⟩
    | succ t ih =>
      obtain ⟨i1, i2⟩ := ih
      have g := small t (near t i2)
      have hp := pred t i1 g
      have hf := call_finite hM (hc t) (hmod t).target hp (hmod t).features (hstep t) i1
      refine ⟨hf, fun s hs => ?_⟩
      rcases Nat.lt_or_ge s t with h | h
      · exact i2 s h
      · obtain rfl : s = t := by omega
        exact herr s (perr s hp) hf g
  have b := near t (main t).2
  have hp := pred t (main t).1 (small t b)
  refine ⟨(main t).1, finite_of_bounded hp, exact_le t, b, ?_⟩
  have h1 := predictionError_le (hφ t) (ws t) (hmod t).count.1 (hmod t).count.2
  have h4 := count_tiny (hmod t).count.2
  have A0 := len_nonneg n fun i => real (value (φ t) i)
  have hN : len n (fun i => real (entry (ws t) i)) ≤ E + W := (split t).trans (add_le_add b (exact_le t))
  have h5 : 2 * k * roundoff * (len n (fun i => real (value (φ t) i)) * len n (fun i => real (entry (ws t) i))) ≤
      ε * (len n (fun i => real (value (φ t) i)) * (E + W)) :=
    mul_le_mul hkε (mul_le_mul_of_nonneg_left hN A0) (mul_nonneg A0 (len_nonneg _ _)) ε0.le
  have h6 : ε * W ≤ E := by
    rw [hE, le_div_iff₀ d]
    have : (1 : ℝ) ≤ L := by exact_mod_cast Lpos
    have a1 : ε * W * (1 - r) ≤ ε * W := mul_le_of_le_one_right (by positivity) (by linarith)
    have a2 : ε * W ≤ ε * (W + D) + η := by nlinarith
    nlinarith
  have h7 : ε * (E + W) ≤ 2 * E := by nlinarith
  have h8 := mul_le_mul_of_nonneg_left h7 A0
  linarith

section
variable {B B' I : Type} [Space B] [Basis B I (FP M)] [Space B'] [Basis B' I ℝ]

omit [Space B] [Basis B I (FP M)] [Space B'] [Basis B' I ℝ] in
/-- Weights moved by SGD, of one output or of a column of several, beside exact weights. -/
theorem sgd_shadow (hM : M.rnd = binary64Format.rnd) (m n k L : Nat)
    (ws : Nat → List (FP M)) (us : Nat → List ℝ) (lr : FP M) (l : ℝ) (ys ps : Nat → FP M) (qs : Nat → ℝ)
    (φ : Nat → Features (FP M)) (ψ : Nat → Features ℝ) (hφ : ∀ t, Fits n (φ t)) (hψ : ∀ t, Fits n (ψ t))
    (hv : ∀ k, ∀ i < n, value (ψ k) i = real (value (φ k) i))
    (run : ∀ t, (ws t).length = n ∧ (φ t).dotColumn m (ws t) = .ok (ps t) ∧ ∀ i < n,
      (∀ a, Stored (φ t) i a → entry (ws (t + 1)) i = (entry (ws t) i +. lr *. (ys t -. ps t) *. a)) ∧
      (¬ Active (φ t) i → entry (ws (t + 1)) i = entry (ws t) i))
    (hus : ∀ t, (us t).length = n ∧ (ψ t).dot (us t) = .ok (qs t))
    (hex : ∀ t, ∀ i < n, entry (us (t + 1)) i = entry (us t) i +
      l * (real (ys t) - Spec.inner (ψ t) (us t)) * value (ψ t) i)
    (hw : ∀ i < n, Bounded (2 ^ 100) (entry (ws 0) i) ∧ entry (us 0) i = real (entry (ws 0) i))
    (hlr : Is lr l) (l0 : 0 ≤ l) (l1 : l ≤ 2 ^ 100)
    (h2 : ∀ t, l * normSq (ψ t) ≤ 2) (hmod : ∀ t, Moderate n k (φ t) (ys t))
    (D : ℝ) (hD : ∀ t, l * √(normSq (ψ t)) * |real (ys t)| ≤ D) (hD1 : D ≤ 2 ^ 190)
    (r : ℝ) (r0 : 0 ≤ r) (Lpos : 0 < L) (hr : Persistent n L (fun t => value (ψ t)) (fun _ => l) r)
    (hL : L * (8 * k + 11) * 2 ^ (-51 : ℤ) ≤ 1 - r) (W E : ℝ)
    (hW : W = 2 * len n (entry (us 0)) + 10 * L * D / (1 - r))
    (hE : E = 10 * L * ((8 * k + 11) * 2 ^ (-53 : ℤ) * (W + D) + 2 ^ (-800 : ℤ)) / (1 - r)) (t : Nat) :
    (∀ i < n, Spec.Finite (entry (ws t) i)) ∧ Spec.Finite (ps t) ∧ len n (entry (us t)) ≤ W ∧
    len n (fun i => real (entry (ws t) i) - entry (us t) i) ≤ E ∧
    |real (ps t) - qs t| ≤ 3 * (√(normSq (ψ t)) * E) + 2 ^ (-1034 : ℤ) := by
  have hu := roundoff_pos
  have k0 : (0 : ℝ) ≤ k := k.cast_nonneg
  have e53 : (2 : ℝ) ^ (-53 : ℤ) = roundoff := by rw [roundoff]
  have e51 : (2 : ℝ) ^ (-51 : ℤ) = 4 * roundoff := by rw [roundoff]; norm_num
  have hA : ∀ t, √(normSq (ψ t)) = len n (fun i => real (value (φ t) i)) := fun t => by
    rw [len_value (hψ t)]
    exact len_congr fun i hi => hv t i hi
  have hS : ∀ t, normSq (ψ t) = ∑ i ∈ Finset.range n, real (value (φ t) i) ^ 2 := fun t => by
    rw [normSq, (hψ t).2]
    exact Finset.sum_congr rfl fun i hi => by rw [hv t i (Finset.mem_range.1 hi), sq]
  have hr' : Persistent n L (fun t i => real (value (φ t) i)) (fun _ => l) r := persistent_congr hr hv
  rw [len_congr (g := fun i => real (entry (ws 0) i)) fun i hi => (hw i hi).2] at hW
  rw [e53] at hE
  have D0 : 0 ≤ D := (mul_nonneg (mul_nonneg l0 (Real.sqrt_nonneg _)) (abs_nonneg _)).trans (hD 0)
  obtain ⟨r1, r2, r3, r4, r5⟩ := shadow_bounds hM (m := m) (k := k) (L := L) (ws := ws)
    (us := fun t i => entry (us t) i) (c := fun _ => lr) (ys := ys) (ps := ps) (φ := φ)
    (q := fun _ => l) (D := D) (ε := (8 * k + 11) * roundoff) (η := 2 ^ (-800 : ℤ)) hmod
    (fun t => (hφ t)) (fun t => (run t).1) (fun t => (run t).2.1)
    (fun _ => ⟨_, hlr, by
      rw [abs_of_nonneg l0]
      exact l1.trans (pow_le_pow_right₀ (by norm_num) (by norm_num))⟩) (fun t => (run t).2.2) (fun t i hi => by
      rw [hex t i hi, hv t i hi, inner_eq, (hψ t).2]
      congr 4
      exact Finset.sum_congr rfl fun j hj => by rw [hv t j (Finset.mem_range.1 hj)])
    (fun i hi => (hw i hi).2) (fun i hi => (hw i hi).1) (fun _ => l0) (fun t => by rw [← hS]; exact h2 t)
    (fun t => by rw [← hA]; exact hD t) hD1 (by nlinarith) (by positivity) (tiny_rate (by linarith) (by norm_num)) (by nlinarith)
    r0 Lpos hr' (by rw [e51] at hL; linarith) (fun t hp hf _ => by
      have he := call_err hM (hφ t) (fun r hr => dotColumn_err hM m (hφ t) (run t).1 (run t).2.1 hr) (run t).2.2 hf
      rw [is_real hlr] at he
      refine he.trans ?_
      have := callError_le (hmod t) (hφ t) (ws t) (c := lr) (v := ps t) hp (D := D)
        (by rw [is_real hlr, abs_of_nonneg l0]; exact l1.trans (pow_le_pow_right₀ (by norm_num) (by norm_num)))
        (by rw [is_real hlr, abs_of_nonneg l0, len_sq, ← hS]; exact h2 t)
        (by rw [is_real hlr, abs_of_nonneg l0, ← hA]; exact hD t)
      refine this.trans ?_
      have h5 := mul_nonneg (mul_nonneg (by positivity : (0 : ℝ) ≤ 8 * k + 6) hu.le) D0
      linarith) t hW hE
  refine ⟨r1, r2, r3, r4, ?_⟩
  refine (prediction_near_of (hφ t) (hψ t) (hv t) (hus t).1 (fun _ hr => dotColumn_err hM m (hφ t) (run t).1 (run t).2.1 hr) r2 (hus t).2 r4).trans ?_
  rw [hA]
  exact r5

/-- SGD with a rate `l ≥ 0`, `l ‖φ‖² ≤ 2`, within the size limits of C177 and with `l ‖φ‖ |y| ≤ D` in every call, on inputs for which
`L` exact calls always contract by `r`, where `L (8 k + 11) 2^-51 ≤ 1 - r`. For ever: nothing overflows, the exact weights have length
at most `W`, the weights stay within a fixed `E` of exact training, and the predictions within `3 ‖φ‖ E` (up to `2^-1034`). -/
theorem C181_sgd (hM : M.rnd = binary64Format.rnd) (n k L : Nat)
    (fas : Nat → ScalarLFA B (SGD (FP M)) (FP M)) (gas : Nat → ScalarLFA B' (SGD ℝ) ℝ) (xs : Nat → I)
    (ys ps : Nat → FP M) (qs : Nat → ℝ) (hs : Stream fas xs ys ps) (hg : Stream gas xs (fun k => real (ys k)) qs)
    (φ : Nat → Features (FP M)) (ψ : Nat → Features ℝ)
    (hφ : ∀ k, Basis.project (fas 0).basis (xs k) = .ok (.ok (φ k)) ∧ Fits n (φ k))
    (hψ : ∀ k, Basis.project (gas 0).basis (xs k) = .ok (.ok (ψ k)) ∧ Fits n (ψ k))
    (hv : ∀ k, ∀ i < n, value (ψ k) i = real (value (φ k) i))
    (hn : (fas 0).weights.length = n) (hm : (gas 0).weights.length = n)
    (hw : ∀ i < n, Bounded (2 ^ 100) (entry (fas 0).weights i) ∧ entry (gas 0).weights i = real (entry (fas 0).weights i))
    (hlr : Is (fas 0).optimiser.lr (gas 0).optimiser.lr) (l0 : 0 ≤ (gas 0).optimiser.lr) (l1 : (gas 0).optimiser.lr ≤ 2 ^ 100)
    (h2 : ∀ t, (gas 0).optimiser.lr * normSq (ψ t) ≤ 2) (hmod : ∀ t, Moderate n k (φ t) (ys t))
    (D : ℝ) (hD : ∀ t, (gas 0).optimiser.lr * √(normSq (ψ t)) * |real (ys t)| ≤ D) (hD1 : D ≤ 2 ^ 190)
    (r : ℝ) (r0 : 0 ≤ r) (Lpos : 0 < L) (hr : Persistent n L (fun t => value (ψ t)) (fun _ => (gas 0).optimiser.lr) r)
    (hL : L * (8 * k + 11) * 2 ^ (-51 : ℤ) ≤ 1 - r) (W E : ℝ)
    (hW : W = 2 * len n (entry (gas 0).weights) + 10 * L * D / (1 - r))
    (hE : E = 10 * L * ((8 * k + 11) * 2 ^ (-53 : ℤ) * (W + D) + 2 ^ (-800 : ℤ)) / (1 - r)) (t : Nat) :
    (∀ i < n, Spec.Finite (entry (fas t).weights i)) ∧ Spec.Finite (ps t) ∧ len n (entry (gas t).weights) ≤ W ∧
    len n (fun i => real (entry (fas t).weights i) - entry (gas t).weights i) ≤ E ∧
    |real (ps t) - qs t| ≤ 3 * (√(normSq (ψ t)) * E) + 2 ^ (-1034 : ℤ) := by
  have run := sgd_trace hs hn hφ
  have run' := sgd_trace hg hm hψ
  exact sgd_shadow hM 1 n k L (fun t => (fas t).weights) (fun t => (gas t).weights) (fas 0).optimiser.lr (gas 0).optimiser.lr ys ps qs φ ψ
    (fun t => (hφ t).2) (fun t => (hψ t).2) hv (fun t => ⟨(run t).1.2.2, by rw [dotColumn_one]; exact (run t).2.1, (run t).2.2⟩)
    (fun t => ⟨(run' t).1.2.2, (run' t).2.1⟩) (exact_trace hg hm hψ) hw hlr l0 l1 h2 hmod D hD hD1 r r0 Lpos hr hL W E hW hE t

omit [Space B] [Basis B I (FP M)] [Space B'] [Basis B' I ℝ] in
/-- The same for ISGD. -/
theorem isgd_shadow (hM : M.rnd = binary64Format.rnd) (m n k L : Nat)
    (ws : Nat → List (FP M)) (us : Nat → List ℝ) (o : ISGD (FP M)) (l : ℝ) (ys ps : Nat → FP M) (qs : Nat → ℝ)
    (φ : Nat → Features (FP M)) (ψ : Nat → Features ℝ) (hφ : ∀ t, Fits n (φ t)) (hψ : ∀ t, Fits n (ψ t))
    (hv : ∀ k, ∀ i < n, value (ψ k) i = real (value (φ k) i))
    (run : ∀ t, (ws t).length = n ∧ (φ t).dotColumn m (ws t) = .ok (ps t) ∧ ∀ i < n,
      (∀ a, Stored (φ t) i a → entry (ws (t + 1)) i = (entry (ws t) i +. o.computeLr (φ t) *. (ys t -. ps t) *. a)) ∧
      (¬ Active (φ t) i → entry (ws (t + 1)) i = entry (ws t) i))
    (hus : ∀ t, (us t).length = n ∧ (ψ t).dot (us t) = .ok (qs t))
    (hex : ∀ t, ∀ i < n, entry (us (t + 1)) i = entry (us t) i +
      l / (1 + l * normSq (ψ t)) * (real (ys t) - Spec.inner (ψ t) (us t)) * value (ψ t) i)
    (hw : ∀ i < n, Bounded (2 ^ 100) (entry (ws 0) i) ∧ entry (us 0) i = real (entry (ws 0) i))
    (hlr : Is o.lr l) (l0 : 0 ≤ l) (l1 : l ≤ 2 ^ 100)
    (hmod : ∀ t, Moderate n k (φ t) (ys t)) (D : ℝ)
    (hD : ∀ t, l / (1 + l * normSq (ψ t)) * √(normSq (ψ t)) * |real (ys t)| ≤ D)
    (hD1 : D ≤ 2 ^ 190) (r : ℝ) (r0 : 0 ≤ r) (Lpos : 0 < L) (hr : Persistent n L (fun t => value (ψ t))
      (fun t => l / (1 + l * normSq (ψ t))) r)
    (hL : L * (12 * k + 25) * 2 ^ (-51 : ℤ) ≤ 1 - r) (W E : ℝ)
    (hW : W = 2 * len n (entry (us 0)) + 10 * L * D / (1 - r))
    (hE : E = 10 * L * ((12 * k + 25) * 2 ^ (-53 : ℤ) * (W + D) + 2 ^ (-500 : ℤ)) / (1 - r)) (t : Nat) :
    (∀ i < n, Spec.Finite (entry (ws t) i)) ∧ Spec.Finite (ps t) ∧ len n (entry (us t)) ≤ W ∧
    len n (fun i => real (entry (ws t) i) - entry (us t) i) ≤ E ∧
    |real (ps t) - qs t| ≤ 3 * (√(normSq (ψ t)) * E) + 2 ^ (-1034 : ℤ) := by
  have hu := roundoff_pos
  have k0 : (0 : ℝ) ≤ k := k.cast_nonneg
  have e53 : (2 : ℝ) ^ (-53 : ℤ) = roundoff := by rw [roundoff]
  have e51 : (2 : ℝ) ^ (-51 : ℤ) = 4 * roundoff := by rw [roundoff]; norm_num
  have hA : ∀ t, √(normSq (ψ t)) = len n (fun i => real (value (φ t) i)) := fun t => by
    rw [len_value (hψ t)]
    exact len_congr fun i hi => hv t i hi
  have hS : ∀ t, normSq (ψ t) = ∑ i ∈ Finset.range n, real (value (φ t) i) ^ 2 := fun t => by
    rw [normSq, (hψ t).2]
    exact Finset.sum_congr rfl fun i hi => by rw [hv t i (Finset.mem_range.1 hi), sq]
  have S0 : ∀ t, 0 ≤ normSq (ψ t) := fun t => by rw [hS]; exact Finset.sum_nonneg fun _ _ => sq_nonneg _
  have q0 : ∀ t, 0 ≤ l / (1 + l * normSq (ψ t)) := fun t => by
    have := S0 t
    positivity
  have hr' : Persistent n L (fun t i => real (value (φ t) i))
      (fun t => l / (1 + l * normSq (ψ t))) r := persistent_congr hr hv
  rw [len_congr (g := fun i => real (entry (ws 0) i)) fun i hi => (hw i hi).2] at hW
  rw [e53] at hE
  have bound := fun t => implicitError_le hM (hmod t) (hφ t) (ws t) o hlr l0 l1
    (q := l / (1 + l * normSq (ψ t))) (by rw [hS]) (D := D) (by rw [← hA]; exact hD t)
  obtain ⟨r1, r2, r3, r4, r5⟩ := shadow_bounds hM (m := m) (k := k) (L := L) (ws := ws)
    (us := fun t i => entry (us t) i) (c := fun t => o.computeLr (φ t)) (ys := ys) (ps := ps) (φ := φ)
    (q := fun t => l / (1 + l * normSq (ψ t))) (D := D)
    (ε := (12 * k + 25) * roundoff) (η := 2 ^ (-500 : ℤ)) hmod
    (fun t => (hφ t)) (fun t => (run t).1) (fun t => (run t).2.1)
    (fun t => (bound t).1) (fun t => (run t).2.2) (fun t i hi => by
      rw [hex t i hi, hv t i hi, inner_eq, (hψ t).2]
      congr 4
      exact Finset.sum_congr rfl fun j hj => by rw [hv t j (Finset.mem_range.1 hj)])
    (fun i hi => (hw i hi).2) (fun i hi => (hw i hi).1) q0 (fun t => by
      have := S0 t
      rw [← hS, div_mul_eq_mul_div, div_le_iff₀ (by positivity)]
      nlinarith [mul_nonneg l0 this])
    (fun t => by rw [← hA]; exact hD t) hD1 (by nlinarith) (by positivity) (tiny_rate (by linarith) (by norm_num)) (by nlinarith)
    r0 Lpos hr' (by rw [e51] at hL; linarith) (fun t hp hf hN => by
      have he := call_err hM (hφ t) (fun r hr => dotColumn_err hM m (hφ t) (run t).1 (run t).2.1 hr) (run t).2.2 hf
      refine le_trans ?_ ((bound t).2 (ps t) hp hN)
      unfold implicitError
      rw [← hS]
      generalize l / (1 + l * normSq (ψ t)) = l at *
      have hrate : len n (fun i => (real (o.computeLr (φ t)) - l) *
          (real (ys t) - exactDot (φ t) (ws t)) * real (value (φ t) i)) =
          |real (o.computeLr (φ t)) - l| * |real (ys t) - exactDot (φ t) (ws t)| *
            len n fun i => real (value (φ t) i) := by
        rw [len_smul', abs_mul]
      refine le_trans (le_of_eq (len_congr fun i _ => ?_)) ((len_add_le n (fun i => real (entry (ws (t + 1)) i) -
        (real (entry (ws t) i) + real (o.computeLr (φ t)) *
          (real (ys t) - exactDot (φ t) (ws t)) * real (value (φ t) i)))
        (fun i => (real (o.computeLr (φ t)) - l) *
          (real (ys t) - exactDot (φ t) (ws t)) * real (value (φ t) i))).trans (add_le_add he hrate.le))
      ring) t hW hE
  refine ⟨r1, r2, r3, r4, ?_⟩
  refine (prediction_near_of (hφ t) (hψ t) (hv t) (hus t).1 (fun _ hr => dotColumn_err hM m (hφ t) (run t).1 (run t).2.1 hr) r2 (hus t).2 r4).trans ?_
  rw [hA]
  exact r5

/-- ISGD with any nominal rate `0 ≤ l ≤ 2^100`, under the same limits for the rates `l / (1 + l ‖φ‖²)`. -/
theorem C181_isgd (hM : M.rnd = binary64Format.rnd) (n k L : Nat)
    (fas : Nat → ScalarLFA B (ISGD (FP M)) (FP M)) (gas : Nat → ScalarLFA B' (ISGD ℝ) ℝ) (xs : Nat → I)
    (ys ps : Nat → FP M) (qs : Nat → ℝ) (hs : Stream fas xs ys ps) (hg : Stream gas xs (fun k => real (ys k)) qs)
    (φ : Nat → Features (FP M)) (ψ : Nat → Features ℝ)
    (hφ : ∀ k, Basis.project (fas 0).basis (xs k) = .ok (.ok (φ k)) ∧ Fits n (φ k))
    (hψ : ∀ k, Basis.project (gas 0).basis (xs k) = .ok (.ok (ψ k)) ∧ Fits n (ψ k))
    (hv : ∀ k, ∀ i < n, value (ψ k) i = real (value (φ k) i))
    (hn : (fas 0).weights.length = n) (hm : (gas 0).weights.length = n)
    (hw : ∀ i < n, Bounded (2 ^ 100) (entry (fas 0).weights i) ∧ entry (gas 0).weights i = real (entry (fas 0).weights i))
    (hlr : Is (fas 0).optimiser.lr (gas 0).optimiser.lr) (l0 : 0 ≤ (gas 0).optimiser.lr) (l1 : (gas 0).optimiser.lr ≤ 2 ^ 100)
    (hmod : ∀ t, Moderate n k (φ t) (ys t)) (D : ℝ)
    (hD : ∀ t, (gas 0).optimiser.lr / (1 + (gas 0).optimiser.lr * normSq (ψ t)) * √(normSq (ψ t)) * |real (ys t)| ≤ D)
    (hD1 : D ≤ 2 ^ 190) (r : ℝ) (r0 : 0 ≤ r) (Lpos : 0 < L) (hr : Persistent n L (fun t => value (ψ t))
      (fun t => (gas 0).optimiser.lr / (1 + (gas 0).optimiser.lr * normSq (ψ t))) r)
    (hL : L * (12 * k + 25) * 2 ^ (-51 : ℤ) ≤ 1 - r) (W E : ℝ)
    (hW : W = 2 * len n (entry (gas 0).weights) + 10 * L * D / (1 - r))
    (hE : E = 10 * L * ((12 * k + 25) * 2 ^ (-53 : ℤ) * (W + D) + 2 ^ (-500 : ℤ)) / (1 - r)) (t : Nat) :
    (∀ i < n, Spec.Finite (entry (fas t).weights i)) ∧ Spec.Finite (ps t) ∧ len n (entry (gas t).weights) ≤ W ∧
    len n (fun i => real (entry (fas t).weights i) - entry (gas t).weights i) ≤ E ∧
    |real (ps t) - qs t| ≤ 3 * (√(normSq (ψ t)) * E) + 2 ^ (-1034 : ℤ) := by
  have run := isgd_trace hs hn hφ
  have run' := isgd_trace hg hm hψ
  exact isgd_shadow hM 1 n k L (fun t => (fas t).weights) (fun t => (gas t).weights) (fas 0).optimiser (gas 0).optimiser.lr ys ps qs φ ψ
    (fun t => (hφ t).2) (fun t => (hψ t).2) hv (fun t => ⟨(run t).1.2.2, by rw [dotColumn_one]; exact (run t).2.1, (run t).2.2⟩)
    (fun t => ⟨(run' t).1.2.2, (run' t).2.1⟩) (exact_isgd_trace hg hm hψ) hw hlr l0 l1 hmod D hD hD1 r r0 Lpos hr hL W E hW hE t

end

/-- The hypotheses are met: one constant feature, rate `1/2`, any targets of at most `Y ≤ 2^100`, however noisy. For ever, the weight
is finite and within `3990 Y 2^-53 + 2^-795` of exact training. -/
theorem C181_example (hM : M.rnd = binary64Format.rnd) (lr : FP M) (hl : Is lr (1 / 2)) (ys : Nat → FP M) (Y : ℝ)
    (hY : Y ≤ 2 ^ 100) (hy : ∀ t, Bounded Y (ys t)) :
    ∃ (fas : Nat → ScalarLFA (FixedSparse (FP M)) (SGD (FP M)) (FP M)) (gas : Nat → ScalarLFA (FixedSparse ℝ) (SGD ℝ) ℝ)
      (ps : Nat → FP M) (qs : Nat → ℝ),
      fas 0 = LFA.mk ⟨1, [0]⟩ [Scalar.zero] ⟨lr⟩ ∧ gas 0 = LFA.mk ⟨1, [0]⟩ [0] ⟨1 / 2⟩ ∧
      Stream fas (fun _ => ()) ys ps ∧ Stream gas (fun _ => ()) (fun t => real (ys t)) qs ∧
      ∀ t : Nat, Spec.Finite (entry (fas t).weights 0) ∧
        |real (entry (fas t).weights 0) - entry (gas t).weights 0| ≤ 3990 * Y * 2 ^ (-53 : ℤ) + 2 ^ (-795 : ℤ) := by
  have hp : Basis.project (⟨1, [0]⟩ : FixedSparse (FP M)) () =
      .ok (.ok (.sparse ⟨1, [(0, (Scalar.one : FP M))]⟩)) := rfl
  have hpr : Basis.project (⟨1, [0]⟩ : FixedSparse ℝ) () =
      .ok (.ok (.sparse ⟨1, [(0, (Scalar.one : ℝ))]⟩)) := rfl
  have hf : ∀ {K : Type} [Scalar K], Fits 1 (.sparse ⟨1, [(0, (Scalar.one : K))]⟩) := fun {K} _ => by
    refine ⟨⟨List.nodup_singleton _, fun e he => ?_⟩, rfl⟩
    rw [List.mem_singleton] at he
    subst he
    exact Nat.zero_lt_one
  obtain ⟨fas, ps, hs, h0⟩ := stream_any (O := SGD (FP M)) (⟨1, [0]⟩ : FixedSparse (FP M)) (n := 1) (fun _ => ()) ys
    (fun _ => ⟨_, hp, hf⟩) [Scalar.zero] rfl ⟨lr⟩ trivial
  obtain ⟨gas, qs, hg, hg0⟩ := stream_any (O := SGD ℝ) (⟨1, [0]⟩ : FixedSparse ℝ) (n := 1) (fun _ => ())
    (fun t => real (ys t)) (fun _ => ⟨_, hpr, hf⟩) [0] rfl ⟨1 / 2⟩ trivial
  have hval : value (.sparse ⟨1, [(0, (Scalar.one : ℝ))]⟩ : Features ℝ) 0 = 1 := real_one
  have hN : normSq (.sparse ⟨1, [(0, (Scalar.one : ℝ))]⟩) = 1 := by
    rw [normSq]
    show ∑ i ∈ Finset.range 1, _ = _
    rw [Finset.sum_range_one]
    show (Scalar.one : ℝ) * Scalar.one = 1
    rw [real_one, mul_one]
  have len1 : ∀ f : Nat → ℝ, len 1 f = |f 0| := fun f => by
    unfold len
    rw [Finset.sum_range_one, Real.sqrt_sq_eq_abs]
  have big : (1 : ℝ) ≤ 2 ^ 100 := one_le_pow₀ (by norm_num)
  have Y0 : 0 ≤ Y := by
    obtain ⟨r, -, h⟩ := hy 0
    exact (abs_nonneg r).trans h
  refine ⟨fas, gas, ps, qs, h0, hg0, hs, hg, fun t => ?_⟩
  obtain ⟨h1, -, -, h2, -⟩ := C181_sgd hM 1 1 1 fas gas (fun _ => ()) ys ps qs hs hg
    (fun _ => .sparse ⟨1, [(0, (Scalar.one : FP M))]⟩) (fun _ => .sparse ⟨1, [(0, (Scalar.one : ℝ))]⟩)
    (fun _ => ⟨by rw [h0]; exact hp, hf⟩) (fun _ => ⟨by rw [hg0]; exact hpr, hf⟩)
    (fun _ i hi => by
      obtain rfl : i = 0 := by omega
      show (Scalar.one : ℝ) = real (Scalar.one : FP M)
      rw [is_real val_one, real_one])
    (by rw [h0]; rfl) (by rw [hg0]; rfl) (fun i hi => by
      obtain rfl : i = 0 := by omega
      rw [h0, hg0]
      refine ⟨bounded_zero (by positivity), ?_⟩
      show (0 : ℝ) = real (Scalar.zero : FP M)
      rw [is_real val_zero]) (by rw [h0, hg0]; exact hl) (by rw [hg0]; norm_num)
    (by rw [hg0]; exact (by norm_num : (1 / 2 : ℝ) ≤ 1).trans big)
    (fun _ => by rw [hg0, hN]; norm_num)
    (fun t => ⟨by norm_num, ⟨le_rfl, by norm_num⟩, fun i x hx => by
      obtain ⟨rfl, rfl⟩ := Prod.mk.inj (List.mem_singleton.1 hx)
      exact ⟨1, val_one, by rw [abs_one]; exact big⟩, bounded_mono (hy t) hY⟩)
    (1 / 2 * Y) (fun t => by
      obtain ⟨r, hr, h⟩ := hy t
      rw [hg0, hN, Real.sqrt_one, mul_one, is_real hr]
      exact mul_le_mul_of_nonneg_left h (by norm_num)) (by
      have : (2 : ℝ) ^ 100 ≤ 2 ^ 190 := pow_le_pow_right₀ (by norm_num) (by norm_num)
      linarith) (1 / 2) (by norm_num) Nat.zero_lt_one (fun s us hus => by
      have := hus 0 Nat.zero_lt_one 0 Nat.zero_lt_one
      rw [Finset.sum_range_one] at this
      simp only [hval, hg0] at this
      rw [len1, len1]
      show |us (0 + 1) 0| ≤ _
      rw [this, show us 0 0 - 1 / 2 * (1 * us 0 0) * 1 = 1 / 2 * us 0 0 by ring, abs_mul]
      norm_num) (by norm_num) _ _ rfl rfl t
  refine ⟨h1 0 Nat.zero_lt_one, ?_⟩
  rw [len1, len1, hg0, show entry [(0 : ℝ)] 0 = 0 from rfl, abs_zero] at h2
  refine h2.trans (le_of_eq_of_le ?_ (add_le_add le_rfl
    (show 20 * (2 : ℝ) ^ (-800 : ℤ) ≤ 2 ^ (-795 : ℤ) by
      rw [show (-795 : ℤ) = 5 + -800 by norm_num, zpow_add₀ (by norm_num)]
      exact mul_le_mul_of_nonneg_right (by norm_num) (by positivity))))
  push_cast
  ring

end

end Lfa

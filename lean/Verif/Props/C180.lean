import Verif.Proofs.Forever
import Verif.Props.C178

/-!
# C180: training in double precision stays near the exact fit for ever

C177 bounds the distance from exact training by a quantity that grows with the number of calls. When the examples determine the
weights, exact training contracts, and the rounding errors do not accumulate.
-/

set_option linter.unusedSectionVars false

namespace Lfa

open Spec Machine XReal Filter Topology

variable {M : Machine} {ι : Type}

/-- Whatever the order of `L` calls in which every example occurs, exact training with rates `c i`, features `g i` and targets zero
multiplies the length of the weights by at most `r`. -/
def Spec.WindowFactor (n L : Nat) (g : ι → Nat → ℝ) (c : ι → ℝ) (r : ℝ) : Prop :=
  ∀ σ : Nat → ι, (∀ i, ∃ k < L, σ k = i) → ∀ us : Nat → Nat → ℝ,
    (∀ k < L, ∀ i < n, us (k + 1) i = us k i - c (σ k) * (∑ j ∈ Finset.range n, g (σ k) j * us k j) * g (σ k) i) →
    len n (us L) ≤ r * len n (us 0)

/-! ## Weights as points -/

noncomputable section

/-- The first `n` values as a point. -/
def spot (n : Nat) (f : Nat → ℝ) : EuclideanSpace ℝ (Fin n) := WithLp.toLp 2 fun i => f i

theorem spot_norm (n : Nat) (f : Nat → ℝ) : ‖spot n f‖ = len n f := by
  rw [EuclideanSpace.norm_eq]
  unfold len
  rw [Finset.sum_range]
  congr 1
  exact Finset.sum_congr rfl fun i _ => by
    rw [Real.norm_eq_abs, sq_abs]
    rfl

theorem spot_inner (n : Nat) (f g : Nat → ℝ) : inner ℝ (spot n f) (spot n g) = ∑ j ∈ Finset.range n, f j * g j := by
  rw [PiLp.inner_apply, Finset.sum_range]
  exact Finset.sum_congr rfl fun i _ => by
    simp only [RCLike.inner_apply, conj_trivial]
    exact mul_comm _ _

theorem spot_congr {n : Nat} {f g : Nat → ℝ} (h : ∀ i < n, f i = g i) : spot n f = spot n g := by
  unfold spot
  congr 1
  funext i
  exact h i i.2

theorem spot_lin (n : Nat) (a : ℝ) (f u : Nat → ℝ) :
    Sweep.lin a (spot n f) (spot n u) = spot n fun i => u i - a * (∑ j ∈ Finset.range n, f j * u j) * f i := by
  unfold Sweep.lin
  rw [spot_inner]
  rfl

theorem exists_spot {n : Nat} (u : EuclideanSpace ℝ (Fin n)) : ∃ f, spot n f = u := by
  refine ⟨fun i => if h : i < n then u ⟨i, h⟩ else 0, ?_⟩
  ext i
  show (if h : (i : Nat) < n then u ⟨i, h⟩ else 0) = u i
  rw [dif_pos i.2]

theorem window_run {n L : Nat} {g : ι → Nat → ℝ} {c : ι → ℝ} {r : ℝ} (h : WindowFactor n L g c r) (σ : Nat → ι)
    (hσ : ∀ i, ∃ k < L, σ k = i) (u : EuclideanSpace ℝ (Fin n)) :
    ‖Sweep.run (fun k => c (σ k)) (fun k => spot n (g (σ k))) u L‖ ≤ r * ‖u‖ := by
  obtain ⟨f, rfl⟩ := exists_spot u
  let us : Nat → Nat → ℝ := fun k => Nat.rec f (fun k f i => f i - c (σ k) * (∑ j ∈ Finset.range n, g (σ k) j * f j) * g (σ k) i) k
  have h1 : ∀ k, Sweep.run (fun k => c (σ k)) (fun k => spot n (g (σ k))) (spot n f) k = spot n (us k) := by
    intro k
    induction k with
    | zero => rfl
    | succ k ih =>
      show Sweep.lin _ _ (Sweep.run _ _ _ k) = _
      rw [ih, spot_lin]
  rw [h1, spot_norm, spot_norm]
  exact h σ hσ us fun k _ i _ => rfl

/-! ## A run in rounded arithmetic -/

/-- Weights `ws` moved by moderate calls as in `run_bounds`, on examples that come back within every `L` calls and that the weights
`v` fit. -/
theorem forever_bounds (hM : M.rnd = binary64Format.rnd) {m n k L : Nat} {ws : Nat → List (FP M)} {σ : Nat → ι}
    {c ps : Nat → FP M} {ys : ι → FP M} {φ : ι → Features (FP M)} {q : ι → ℝ} {ε η r : ℝ}
    (hmod : ∀ i, Moderate n k (φ i) (ys i)) (hφ : ∀ i, Fits n (φ i)) (hw : ∀ t, (ws t).length = n)
    (hdot : ∀ t, (φ (σ t)).dotColumn m (ws t) = .ok (ps t)) (hc : ∀ t, Bounded (2 ^ 101) (c t))
    (hstep : ∀ t, ∀ i < n, (∀ a, Stored (φ (σ t)) i a →
        entry (ws (t + 1)) i = (entry (ws t) i +. c t *. (ys (σ t) -. ps t) *. a)) ∧
      (¬ Active (φ (σ t)) i → entry (ws (t + 1)) i = entry (ws t) i))
    (hb : ∀ i < n, Bounded (2 ^ 100) (entry (ws 0) i))
    (q0 : ∀ i, 0 ≤ q i) (q2 : ∀ i, q i * ∑ j ∈ Finset.range n, real (value (φ i) j) ^ 2 ≤ 2)
    {v : Nat → ℝ} (hv : ∀ i, ∑ j ∈ Finset.range n, real (value (φ i) j) * v j = real (ys i)) (hv1 : len n v ≤ 2 ^ 200)
    (hε : 0 < ε) (hη : 0 ≤ η) (hηε : η ≤ ε) (hkε : 2 * k * roundoff ≤ ε) (r0 : 0 ≤ r)
    (hr : WindowFactor n L (fun i j => real (value (φ i) j)) q r)
    (hL : 4 * (L * ε) ≤ 1 - r) (hσ : ∀ t i, ∃ l < L, σ (t + l) = i)
    (herr : ∀ t, (∃ r, Is (ps t) r ∧ |r - exactDot (φ (σ t)) (ws t)| ≤ predictionError (φ (σ t)) (ws t)) →
      (∀ i < n, Spec.Finite (entry (ws (t + 1)) i)) → len n (fun i => real (entry (ws t) i)) ≤ 2 ^ 252 →
      len n (fun i => real (entry (ws (t + 1)) i) - (real (entry (ws t) i) +
        q (σ t) * (real (ys (σ t)) - exactDot (φ (σ t)) (ws t)) * real (value (φ (σ t)) i))) ≤
      ε * (len n (fun i => real (entry (ws t) i)) + 2 * len n v) + η) (t : Nat) :
    (∀ i < n, Spec.Finite (entry (ws t) i)) ∧ Spec.Finite (ps t) ∧
    len n (fun i => real (entry (ws t) i) - v i) ≤
      2 * ((1 + r) / 2) ^ (t / L) * len n (fun i => real (entry (ws 0) i) - v i) + 10 * L * (3 * ε * len n v + η) / (1 - r) ∧
    |real (ps t) - real (ys (σ t))| ≤ len n (fun i => real (value (φ (σ t)) i)) *
      (2 * len n (fun i => real (entry (ws t) i) - v i) + ε * len n v) + 2 ^ (-1034 : ℤ) := by
  have Lpos : 0 < L := by
    obtain ⟨l, hl, -⟩ := hσ 0 (σ 0)
    omega
  have L1 : (0 : ℝ) < L := by exact_mod_cast Lpos
  have V0 := len_nonneg n v
  have d : 0 < 1 - r := lt_of_lt_of_le (by positivity) hL
  have hk : ε ≤ 1 / 4 := by
    have : (1 : ℝ) ≤ L := by exact_mod_cast Lpos
    nlinarith
  have hN0 : len n (fun i => real (entry (ws 0) i)) ≤ 2 ^ 120 := by
    refine (len_le_of_bounded (hmod (σ 0)).size (c := 2 ^ 100) (by positivity) fun i hi => ?_).trans
      (le_of_eq (by rw [← pow_add]))
    obtain ⟨r, hr, h1⟩ := hb i hi
    rwa [is_real hr]
  have hex : ∀ t, exactDot (φ (σ t)) (ws t) = ∑ j ∈ Finset.range n, real (value (φ (σ t)) j) * real (entry (ws t) j) :=
    fun t => by unfold exactDot; rw [(hφ (σ t)).2]
  have split1 : ∀ t, len n (fun i => real (entry (ws t) i)) ≤ len n (fun i => real (entry (ws t) i) - v i) + len n v := by
    intro t
    refine le_trans (le_of_eq (len_congr fun i _ => ?_)) (len_add_le n (fun i => real (entry (ws t) i) - v i) v)
    ring
  have split2 : ∀ t, len n (fun i => real (entry (ws t) i) - v i) ≤ len n (fun i => real (entry (ws t) i)) + len n v := by
    intro t
    refine le_trans (le_of_eq (len_congr fun i _ => ?_)) ((len_add_le n (fun i => real (entry (ws t) i)) (fun i => -v i)).trans
      (add_le_add le_rfl (le_of_eq ?_)))
    · ring
    · rw [← len_abs n v, ← len_abs n fun i => -v i]
      exact len_congr fun i _ => abs_neg _
  have β0 : 0 ≤ 3 * ε * len n v + η := by positivity
  -- the bound implies that the weights and the prediction are bounded
  have tail : 10 * (L * (3 * ε * len n v + η)) / (1 - r) ≤ 10 * (len n v + 1) := by
    rw [div_le_iff₀ d]
    have h1 : L * (3 * ε * len n v + η) ≤ L * ε * (3 * len n v + 1) := by
      have := mul_le_mul_of_nonneg_left hηε L1.le
      linarith
    have h2 : 4 * (L * ε) * (3 * len n v + 1) ≤ (1 - r) * (3 * len n v + 1) := mul_le_mul_of_nonneg_right hL (by positivity)
    nlinarith [mul_nonneg d.le V0]
  have small : ∀ t, len n (fun i => real (entry (ws t) i) - v i) ≤
        2 * ((1 + r) / 2) ^ (t / L) * len n (fun i => real (entry (ws 0) i) - v i) +
          10 * (L * (3 * ε * len n v + η)) / (1 - r) →
      len n (fun i => real (entry (ws t) i)) ≤ 2 ^ 252 := by
    intro t h
    have h1 : ((1 + r) / 2) ^ (t / L) ≤ 1 := pow_le_one₀ (by linarith) (by linarith)
    have h2 := mul_le_mul_of_nonneg_right h1 (len_nonneg n fun i => real (entry (ws 0) i) - v i)
    have h3 := split1 t
    have h4 := split2 0
    have h5 : 2 * (2 ^ 120 + 2 ^ 200) + 2 ^ 200 + 10 * (2 ^ 200 + 1) ≤ (2 : ℝ) ^ 252 := by norm_num
    linarith
  have pred : ∀ t, (∀ i < n, Spec.Finite (entry (ws t) i)) → len n (fun i => real (entry (ws t) i)) ≤ 2 ^ 252 →
      Bounded (2 ^ 400) (ps t) := by
    intro t h1 h2
    have h3 := dotColumn_bounded hM m (hφ (σ t)) (hw t) (hdot t) (a := 100) (b := 252) (by norm_num) (hmod (σ t)).features
      (fun i hi => by
        obtain ⟨r, hr⟩ := h1 i hi
        refine ⟨r, hr, le_trans ?_ h2⟩
        have := abs_le_len (fun i => real (entry (ws t) i)) hi
        rwa [is_real hr] at this) ((hmod (σ t)).count.1.trans ((hmod (σ t)).count.2.trans (by norm_num)))
    refine bounded_mono h3 ?_
    have h4 : (storedCount (φ (σ t)) : ℝ) ≤ 2 ^ 40 := by exact_mod_cast (hmod (σ t)).count.1.trans (hmod (σ t)).count.2
    refine (mul_le_mul_of_nonneg_right h4 (by positivity)).trans ?_
    rw [← pow_add]
    exact pow_le_pow_right₀ (by norm_num) (by norm_num)
  have perr : ∀ t, Bounded (2 ^ 400) (ps t) →
      ∃ r, Is (ps t) r ∧ |r - exactDot (φ (σ t)) (ws t)| ≤ predictionError (φ (σ t)) (ws t) := by
    intro t h
    obtain ⟨r, hr, -⟩ := h
    exact ⟨r, hr, dotColumn_err hM m (hφ (σ t)) (hw t) (hdot t) hr⟩
  have near : ∀ T, (∀ s < T, len n (fun i => real (entry (ws (s + 1)) i) - (real (entry (ws s) i) +
        q (σ s) * (real (ys (σ s)) - exactDot (φ (σ s)) (ws s)) * real (value (φ (σ s)) i))) ≤
      ε * (len n (fun i => real (entry (ws s) i)) + 2 * len n v) + η) →
      len n (fun i => real (entry (ws T) i) - v i) ≤
        2 * ((1 + r) / 2) ^ (T / L) * len n (fun i => real (entry (ws 0) i) - v i) +
          10 * (L * (3 * ε * len n v + η)) / (1 - r) := by
    intro T h
    have := Sweep.perturbed (c := fun t => q (σ t)) (g := fun t => spot n fun j => real (value (φ (σ t)) j))
      (fun t => ⟨q0 _, by rw [spot_norm, len_sq]; exact q2 _⟩) r0 hε.le β0 hL (by linarith) Lpos
      (fun s u => window_run (g := fun i j => real (value (φ i) j)) hr (fun k => σ (s + k)) (hσ s) u)
      (fun t => spot n fun i => real (entry (ws t) i) - v i) T (fun s hs => by
        rw [spot_lin, spot_norm]
        have h1 : spot n (fun i => real (entry (ws (s + 1)) i) - v i) -
            spot n (fun i => (real (entry (ws s) i) - v i) - q (σ s) * (∑ j ∈ Finset.range n, real (value (φ (σ s)) j) *
              (real (entry (ws s) j) - v j)) * real (value (φ (σ s)) i)) =
            spot n fun i => real (entry (ws (s + 1)) i) - (real (entry (ws s) i) +
              q (σ s) * (real (ys (σ s)) - exactDot (φ (σ s)) (ws s)) * real (value (φ (σ s)) i)) := by
          refine Eq.trans (b := spot n fun i => (real (entry (ws (s + 1)) i) - v i) - ((real (entry (ws s) i) - v i) -
            q (σ s) * (∑ j ∈ Finset.range n, real (value (φ (σ s)) j) *
              (real (entry (ws s) j) - v j)) * real (value (φ (σ s)) i))) rfl (spot_congr fun i _ => ?_)
          rw [hex, ← hv]
          simp only [mul_sub, Finset.sum_sub_distrib]
          ring
        rw [h1, spot_norm]
        refine (h s hs).trans ?_
        have h2 := mul_le_mul_of_nonneg_left (split1 s) hε.le
        linarith) T le_rfl
    rwa [spot_norm, spot_norm] at this
  have main : ∀ t, (∀ i < n, Spec.Finite (entry (ws t) i)) ∧ ∀ s < t,
      len n (fun i => real (entry (ws (s + 1)) i) - (real (entry (ws s) i) +
        q (σ s) * (real (ys (σ s)) - exactDot (φ (σ s)) (ws s)) * real (value (φ (σ s)) i))) ≤
      ε * (len n (fun i => real (entry (ws s) i)) + 2 * len n v) + η := by
    intro t
    induction t with
    | zero => exact ⟨fun i hi => finite_of_bounded (hb i hi), fun s hs => absurd hs (Nat.not_lt_zero _)⟩
    | succ t ih =>
      obtain ⟨i1, i2⟩ := ih
      have g := small t (near t i2)
      have hp := pred t i1 g
      have hf := call_finite hM (hc t) (hmod (σ t)).target hp (hmod (σ t)).features (hstep t) i1
      refine ⟨hf, fun s hs => ?_⟩
      rcases Nat.lt_or_ge s t with h | h
      · exact i2 s h
      · obtain rfl : s = t := by omega
        exact herr s (perr s hp) hf g
  have b := near t (main t).2
  have hp := pred t (main t).1 (small t b)
  refine ⟨(main t).1, finite_of_bounded hp, b.trans (le_of_eq (by ring)), ?_⟩
  obtain ⟨p, hp1, hp2⟩ := perr t hp
  rw [is_real hp1]
  have h1 := hp2.trans (predictionError_le (hφ (σ t)) (ws t) (hmod (σ t)).count.1 (hmod (σ t)).count.2)
  have h2 : |exactDot (φ (σ t)) (ws t) - real (ys (σ t))| ≤
      len n (fun i => real (value (φ (σ t)) i)) * len n (fun i => real (entry (ws t) i) - v i) := by
    rw [hex, ← hv, ← Finset.sum_sub_distrib]
    simp only [← mul_sub]
    exact abs_sum_mul_le_len n _ _
  have h3 := abs_add_le (p - exactDot (φ (σ t)) (ws t)) (exactDot (φ (σ t)) (ws t) - real (ys (σ t)))
  rw [sub_add_sub_cancel] at h3
  have h4 := count_tiny (hmod (σ t)).count.2
  have A0 := len_nonneg n fun i => real (value (φ (σ t)) i)
  have Z0 := len_nonneg n fun i => real (entry (ws t) i) - v i
  have h5 := mul_le_mul_of_nonneg_left (split1 t) A0
  have h6 := mul_le_mul_of_nonneg_right hkε (mul_nonneg A0 (len_nonneg n fun i => real (entry (ws t) i)))
  have h7 := mul_le_mul_of_nonneg_left h5 hε.le
  have h8 := mul_le_mul_of_nonneg_right (by linarith : ε ≤ 1) (mul_nonneg A0 Z0)
  linarith

/-- Examples whose features determine the weights have a factor below one, the same for all lengths and orders. -/
theorem C180_factor [Finite ι] (n : Nat) (g : ι → Nat → ℝ) (c : ι → ℝ) (hc : ∀ i, 0 < c i)
    (h2 : ∀ i, c i * ∑ j ∈ Finset.range n, g i j ^ 2 < 2)
    (hd : ∀ u : Nat → ℝ, (∀ i, ∑ j ∈ Finset.range n, g i j * u j = 0) → ∀ j < n, u j = 0) :
    ∃ r : ℝ, 0 ≤ r ∧ r < 1 ∧ ∀ L, WindowFactor n L g c r := by
  obtain ⟨r, r0, r1, hr⟩ := Sweep.order_factor (c := c) (g := fun i => spot n (g i)) fun i => ⟨hc i, by
    rw [spot_norm, len_sq]; exact h2 i⟩
  have top : Submodule.span ℝ (Set.range fun i => spot n (g i)) = ⊤ := by
    rw [← Submodule.orthogonal_eq_bot_iff, Submodule.eq_bot_iff]
    intro u hu
    obtain ⟨f, rfl⟩ := exists_spot u
    have := hd f fun i => by
      rw [← spot_inner]
      exact (Submodule.mem_orthogonal _ _).1 hu _ (Submodule.subset_span ⟨i, rfl⟩)
    refine (spot_congr (g := fun _ => 0) this).trans ?_
    ext i
    rfl
  refine ⟨r, r0, r1, fun L σ hσ us hus => ?_⟩
  have h1 : ∀ k ≤ L, Sweep.run (fun k => c (σ k)) (fun k => spot n (g (σ k))) (spot n (us 0)) k = spot n (us k) := by
    intro k
    induction k with
    | zero => exact fun _ => rfl
    | succ k ih =>
      intro hk
      show Sweep.lin _ _ (Sweep.run _ _ _ k) = _
      rw [ih (by omega), spot_lin]
      exact spot_congr fun i hi => (hus k (by omega) i hi).symm
  have h3 := hr σ L hσ (spot n (us 0)) (by rw [top]; exact Submodule.mem_top)
  rwa [h1 L le_rfl, spot_norm, spot_norm] at h3

theorem tiny_rate {K : ℝ} {e : ℤ} (hK : 1 ≤ K) (he : e ≤ -53) : (2 : ℝ) ^ e ≤ K * roundoff := by
  have h1 : (2 : ℝ) ^ e ≤ 2 ^ (-53 : ℤ) := zpow_le_zpow_right₀ (by norm_num) he
  have h2 : (2 : ℝ) ^ (-53 : ℤ) = roundoff := by rw [roundoff]
  have h3 := mul_le_mul_of_nonneg_right hK roundoff_pos.le
  linarith

/-- The targets that `v` fits. -/
theorem fit_target {n : Nat} {f v : Nat → ℝ} {y q a : ℝ} (q0 : 0 ≤ q) (q2 : q * ∑ j ∈ Finset.range n, f j ^ 2 ≤ a)
    (hv : ∑ j ∈ Finset.range n, f j * v j = y) : q * len n f * |y| ≤ a * len n v := by
  have h1 : |y| ≤ len n f * len n v := by rw [← hv]; exact abs_sum_mul_le_len n _ _
  have h2 := mul_le_mul_of_nonneg_left h1 (mul_nonneg q0 (len_nonneg n f))
  rw [← len_sq] at q2
  have h3 := mul_le_mul_of_nonneg_right q2 (len_nonneg n v)
  nlinarith

section
variable {B I : Type} [Space B] [Basis B I (FP M)]

omit [Space B] [Basis B I (FP M)] in
/-- Weights moved by SGD, of one output or of a column of several. -/
theorem sgd_forever (hM : M.rnd = binary64Format.rnd) (m n k L : Nat) (lr : FP M) (l : ℝ) (hlr : Is lr l) (l0 : 0 ≤ l)
    (l1 : l ≤ 2 ^ 100) (ys : ι → FP M) (φ : ι → Features (FP M))
    (hφ : ∀ i, Fits n (φ i)) (hmod : ∀ i, Moderate n k (φ i) (ys i))
    (h2 : ∀ i, l * ∑ j ∈ Finset.range n, real (value (φ i) j) ^ 2 ≤ 2)
    (v : Nat → ℝ) (hv : ∀ i, ∑ j ∈ Finset.range n, real (value (φ i) j) * v j = real (ys i)) (hv1 : len n v ≤ 2 ^ 200)
    (r : ℝ) (r0 : 0 ≤ r) (hr : WindowFactor n L (fun i j => real (value (φ i) j)) (fun _ => l) r)
    (hL : L * (8 * k + 11) * 2 ^ (-51 : ℤ) ≤ 1 - r)
    (ws : Nat → List (FP M)) (hw : ∀ i < n, Bounded (2 ^ 100) (entry (ws 0) i)) (σ : Nat → ι) (hσ : ∀ t i, ∃ m < L, σ (t + m) = i)
    (ps : Nat → FP M) (run : ∀ t, (ws t).length = n ∧ (φ (σ t)).dotColumn m (ws t) = .ok (ps t) ∧ ∀ i < n,
      (∀ a, Stored (φ (σ t)) i a → entry (ws (t + 1)) i = (entry (ws t) i +. lr *. (ys (σ t) -. ps t) *. a)) ∧
      (¬ Active (φ (σ t)) i → entry (ws (t + 1)) i = entry (ws t) i)) (t : Nat) :
    (∀ i < n, Spec.Finite (entry (ws t) i)) ∧ Spec.Finite (ps t) ∧
    len n (fun i => real (entry (ws t) i) - v i) ≤
      2 * ((1 + r) / 2) ^ (t / L) * len n (fun i => real (entry (ws 0) i) - v i) +
        10 * L * (3 * ((8 * k + 11) * 2 ^ (-53 : ℤ)) * len n v + 2 ^ (-800 : ℤ)) / (1 - r) ∧
    |real (ps t) - real (ys (σ t))| ≤ len n (fun i => real (value (φ (σ t)) i)) *
      (2 * len n (fun i => real (entry (ws t) i) - v i) + (8 * k + 11) * 2 ^ (-53 : ℤ) * len n v) +
        2 ^ (-1034 : ℤ) := by
  have hu := roundoff_pos
  have k0 : (0 : ℝ) ≤ k := k.cast_nonneg
  have e53 : (2 : ℝ) ^ (-53 : ℤ) = roundoff := by rw [roundoff]
  have e51 : (2 : ℝ) ^ (-51 : ℤ) = 4 * roundoff := by rw [roundoff]; norm_num
  have hlb : l ≤ 2 ^ 101 := l1.trans (pow_le_pow_right₀ (by norm_num) (by norm_num))
  have V0 := len_nonneg n v
  rw [e53]
  have := forever_bounds hM (m := m) (k := k) (L := L) (ws := ws) (σ := σ) (c := fun _ => lr) (ps := ps) (ys := ys)
    (φ := φ) (q := fun _ => l) (ε := (8 * k + 11) * roundoff) (η := 2 ^ (-800 : ℤ)) (r := r) hmod hφ
    (fun t => (run t).1) (fun t => (run t).2.1) (fun _ => ⟨l, hlr, by rw [abs_of_nonneg l0]; exact hlb⟩)
    (fun t => (run t).2.2) hw (fun _ => l0) h2 hv hv1
    (by positivity) (by positivity) (tiny_rate (by linarith) (by norm_num)) (by nlinarith) r0 hr (by rw [e51] at hL; linarith) hσ
    (fun t hp hf _ => by
      have he := call_err hM (hφ (σ t)) (fun r hr => dotColumn_err hM m (hφ (σ t)) (run t).1 (run t).2.1 hr) (run t).2.2 hf
      rw [is_real hlr] at he
      refine he.trans ?_
      have := callError_le (hmod (σ t)) (hφ (σ t)) (ws t) (c := lr) (v := ps t) hp (D := 2 * len n v)
        (by rw [is_real hlr, abs_of_nonneg l0]; exact hlb)
        (by rw [is_real hlr, abs_of_nonneg l0, len_sq]; exact h2 (σ t))
        (by rw [is_real hlr, abs_of_nonneg l0]; exact fit_target l0 (h2 (σ t)) (hv (σ t)))
      refine this.trans ?_
      have h5 := mul_nonneg (mul_nonneg (by positivity : (0 : ℝ) ≤ 8 * k + 6) hu.le) V0
      linarith) t
  exact this

/-- SGD with a rate `l ≥ 0`, `l ‖φ‖² ≤ 2`, on at most `2^40` weights and `k ≤ 2^40` stored features per input, with targets,
features, rate and initial weights of at most `2^100`. Exact weights `v` with `‖v‖ ≤ 2^200` fit the examples, every `L` consecutive
calls contain every example, `r` is a factor for `L` calls, and `L (8 k + 11) 2^-51 ≤ 1 - r`. Then for ever nothing overflows, the
distance to `v` decays as `2 ((1 + r) / 2)^(t / L)` down to `10 L (3 (8 k + 11) 2^-53 ‖v‖ + 2^-800) / (1 - r)`, and the prediction of
every call is off by at most `‖φ‖` times twice this distance (up to the rounding of the prediction itself). -/
theorem C180_sgd (hM : M.rnd = binary64Format.rnd) (n k L : Nat) (b : B) (lr : FP M) (l : ℝ) (hlr : Is lr l) (l0 : 0 ≤ l)
    (l1 : l ≤ 2 ^ 100) (xs : ι → I) (ys : ι → FP M) (φ : ι → Features (FP M))
    (hφ : ∀ i, Basis.project b (xs i) = .ok (.ok (φ i)) ∧ Fits n (φ i)) (hmod : ∀ i, Moderate n k (φ i) (ys i))
    (h2 : ∀ i, l * ∑ j ∈ Finset.range n, real (value (φ i) j) ^ 2 ≤ 2)
    (v : Nat → ℝ) (hv : ∀ i, ∑ j ∈ Finset.range n, real (value (φ i) j) * v j = real (ys i)) (hv1 : len n v ≤ 2 ^ 200)
    (r : ℝ) (r0 : 0 ≤ r) (hr : WindowFactor n L (fun i j => real (value (φ i) j)) (fun _ => l) r)
    (hL : L * (8 * k + 11) * 2 ^ (-51 : ℤ) ≤ 1 - r) (w : List (FP M)) (hn : w.length = n)
    (hw : ∀ i < n, Bounded (2 ^ 100) (entry w i)) (σ : Nat → ι) (hσ : ∀ t i, ∃ m < L, σ (t + m) = i)
    (fas : Nat → ScalarLFA B (SGD (FP M)) (FP M)) (ps : Nat → FP M)
    (hs : Stream fas (fun t => xs (σ t)) (fun t => ys (σ t)) ps) (h0 : fas 0 = LFA.mk b w ⟨lr⟩) (t : Nat) :
    (∀ i < n, Spec.Finite (entry (fas t).weights i)) ∧ Spec.Finite (ps t) ∧
    len n (fun i => real (entry (fas t).weights i) - v i) ≤
      2 * ((1 + r) / 2) ^ (t / L) * len n (fun i => real (entry w i) - v i) +
        10 * L * (3 * ((8 * k + 11) * 2 ^ (-53 : ℤ)) * len n v + 2 ^ (-800 : ℤ)) / (1 - r) ∧
    |real (ps t) - real (ys (σ t))| ≤ len n (fun i => real (value (φ (σ t)) i)) *
      (2 * len n (fun i => real (entry (fas t).weights i) - v i) + (8 * k + 11) * 2 ^ (-53 : ℤ) * len n v) +
        2 ^ (-1034 : ℤ) := by
  have run := sgd_trace hs (n := n) (φ := fun t => φ (σ t)) (by rw [h0]; exact hn) (fun t => by rw [h0]; exact hφ (σ t))
  have ho : (fas 0).optimiser.lr = lr := by rw [h0]
  have := sgd_forever hM 1 n k L lr l hlr l0 l1 ys φ (fun i => (hφ i).2) hmod h2 v hv hv1 r r0 hr hL (fun t => (fas t).weights)
    (fun i hi => by rw [h0]; exact hw i hi) σ hσ ps (fun t => ⟨(run t).1.2.2, by rw [dotColumn_one]; exact (run t).2.1,
      by have := (run t).2.2; rwa [ho] at this⟩) t
  rwa [h0] at this

omit [Space B] [Basis B I (FP M)] in
/-- The same for ISGD. -/
theorem isgd_forever (hM : M.rnd = binary64Format.rnd) (m n k L : Nat) (lr : FP M) (l : ℝ) (hlr : Is lr l) (l0 : 0 ≤ l)
    (l1 : l ≤ 2 ^ 100) (ys : ι → FP M) (φ : ι → Features (FP M))
    (hφ : ∀ i, Fits n (φ i)) (hmod : ∀ i, Moderate n k (φ i) (ys i))
    (v : Nat → ℝ) (hv : ∀ i, ∑ j ∈ Finset.range n, real (value (φ i) j) * v j = real (ys i)) (hv1 : len n v ≤ 2 ^ 200)
    (r : ℝ) (r0 : 0 ≤ r) (hr : WindowFactor n L (fun i j => real (value (φ i) j))
      (fun i => l / (1 + l * ∑ j ∈ Finset.range n, real (value (φ i) j) ^ 2)) r)
    (hL : L * (12 * k + 25) * 2 ^ (-51 : ℤ) ≤ 1 - r)
    (ws : Nat → List (FP M)) (hw : ∀ i < n, Bounded (2 ^ 100) (entry (ws 0) i)) (σ : Nat → ι) (hσ : ∀ t i, ∃ m < L, σ (t + m) = i)
    (ps : Nat → FP M) (run : ∀ t, (ws t).length = n ∧ (φ (σ t)).dotColumn m (ws t) = .ok (ps t) ∧ ∀ i < n,
      (∀ a, Stored (φ (σ t)) i a → entry (ws (t + 1)) i = (entry (ws t) i +. (⟨lr⟩ : ISGD (FP M)).computeLr (φ (σ t)) *. (ys (σ t) -. ps t) *. a)) ∧
      (¬ Active (φ (σ t)) i → entry (ws (t + 1)) i = entry (ws t) i)) (t : Nat) :
    (∀ i < n, Spec.Finite (entry (ws t) i)) ∧ Spec.Finite (ps t) ∧
    len n (fun i => real (entry (ws t) i) - v i) ≤
      2 * ((1 + r) / 2) ^ (t / L) * len n (fun i => real (entry (ws 0) i) - v i) +
        10 * L * (3 * ((12 * k + 25) * 2 ^ (-53 : ℤ)) * len n v + 2 ^ (-500 : ℤ)) / (1 - r) ∧
    |real (ps t) - real (ys (σ t))| ≤ len n (fun i => real (value (φ (σ t)) i)) *
      (2 * len n (fun i => real (entry (ws t) i) - v i) + (12 * k + 25) * 2 ^ (-53 : ℤ) * len n v) +
        2 ^ (-1034 : ℤ) := by
  have hu := roundoff_pos
  have k0 : (0 : ℝ) ≤ k := k.cast_nonneg
  have e53 : (2 : ℝ) ^ (-53 : ℤ) = roundoff := by rw [roundoff]
  have e51 : (2 : ℝ) ^ (-51 : ℤ) = 4 * roundoff := by rw [roundoff]; norm_num
  have V0 := len_nonneg n v
  have S0 : ∀ i, 0 ≤ ∑ j ∈ Finset.range n, real (value (φ i) j) ^ 2 := fun i => Finset.sum_nonneg fun _ _ => sq_nonneg _
  have q0 : ∀ i, 0 ≤ l / (1 + l * ∑ j ∈ Finset.range n, real (value (φ i) j) ^ 2) := fun i => by
    have := S0 i
    positivity
  have q2 : ∀ i, l / (1 + l * ∑ j ∈ Finset.range n, real (value (φ i) j) ^ 2) *
      ∑ j ∈ Finset.range n, real (value (φ i) j) ^ 2 ≤ 2 := fun i => by
    have := S0 i
    rw [div_mul_eq_mul_div, div_le_iff₀ (by positivity)]
    nlinarith [mul_nonneg l0 this]
  rw [e53]
  have bound := fun t => implicitError_le hM (hmod (σ t)) (hφ (σ t)) (ws t) (⟨lr⟩ : ISGD (FP M)) hlr l0 l1
    (q := l / (1 + l * ∑ j ∈ Finset.range n, real (value (φ (σ t)) j) ^ 2)) rfl (D := 2 * len n v)
    (fit_target (q0 (σ t)) (q2 (σ t)) (hv (σ t)))
  have := forever_bounds hM (m := m) (k := k) (L := L) (ws := ws) (σ := σ)
    (c := fun t => (⟨lr⟩ : ISGD (FP M)).computeLr (φ (σ t))) (ps := ps) (ys := ys)
    (φ := φ) (q := fun i => l / (1 + l * ∑ j ∈ Finset.range n, real (value (φ i) j) ^ 2))
    (ε := (12 * k + 25) * roundoff) (η := 2 ^ (-500 : ℤ)) (r := r) hmod hφ
    (fun t => (run t).1) (fun t => (run t).2.1) (fun t => (bound t).1)
    (fun t => (run t).2.2) hw q0 q2 hv hv1
    (by positivity) (by positivity) (tiny_rate (by linarith) (by norm_num)) (by nlinarith) r0 hr (by rw [e51] at hL; linarith) hσ
    (fun t hp hf hN => by
      have he := call_err hM (hφ (σ t)) (fun r hr => dotColumn_err hM m (hφ (σ t)) (run t).1 (run t).2.1 hr) (run t).2.2 hf
      refine le_trans ?_ ((bound t).2 (ps t) hp hN)
      unfold implicitError
      generalize l / (1 + l * ∑ j ∈ Finset.range n, real (value (φ (σ t)) j) ^ 2) = q at *
      have hrate : len n (fun i => (real ((⟨lr⟩ : ISGD (FP M)).computeLr (φ (σ t))) - q) *
          (real (ys (σ t)) - exactDot (φ (σ t)) (ws t)) * real (value (φ (σ t)) i)) =
          |real ((⟨lr⟩ : ISGD (FP M)).computeLr (φ (σ t))) - q| * |real (ys (σ t)) - exactDot (φ (σ t)) (ws t)| *
            len n fun i => real (value (φ (σ t)) i) := by
        rw [len_smul', abs_mul]
      refine le_trans (le_of_eq (len_congr fun i _ => ?_)) ((len_add_le n (fun i => real (entry (ws (t + 1)) i) -
        (real (entry (ws t) i) + real ((⟨lr⟩ : ISGD (FP M)).computeLr (φ (σ t))) *
          (real (ys (σ t)) - exactDot (φ (σ t)) (ws t)) * real (value (φ (σ t)) i)))
        (fun i => (real ((⟨lr⟩ : ISGD (FP M)).computeLr (φ (σ t))) - q) *
          (real (ys (σ t)) - exactDot (φ (σ t)) (ws t)) * real (value (φ (σ t)) i))).trans (add_le_add he hrate.le))
      ring) t
  exact this

/-- ISGD with any nominal rate `0 ≤ l ≤ 2^100`: the factor is that of the rates `l / (1 + l ‖φ‖²)`. -/
theorem C180_isgd (hM : M.rnd = binary64Format.rnd) (n k L : Nat) (b : B) (lr : FP M) (l : ℝ) (hlr : Is lr l) (l0 : 0 ≤ l)
    (l1 : l ≤ 2 ^ 100) (xs : ι → I) (ys : ι → FP M) (φ : ι → Features (FP M))
    (hφ : ∀ i, Basis.project b (xs i) = .ok (.ok (φ i)) ∧ Fits n (φ i)) (hmod : ∀ i, Moderate n k (φ i) (ys i))
    (v : Nat → ℝ) (hv : ∀ i, ∑ j ∈ Finset.range n, real (value (φ i) j) * v j = real (ys i)) (hv1 : len n v ≤ 2 ^ 200)
    (r : ℝ) (r0 : 0 ≤ r) (hr : WindowFactor n L (fun i j => real (value (φ i) j))
      (fun i => l / (1 + l * ∑ j ∈ Finset.range n, real (value (φ i) j) ^ 2)) r)
    (hL : L * (12 * k + 25) * 2 ^ (-51 : ℤ) ≤ 1 - r) (w : List (FP M)) (hn : w.length = n)
    (hw : ∀ i < n, Bounded (2 ^ 100) (entry w i)) (σ : Nat → ι) (hσ : ∀ t i, ∃ m < L, σ (t + m) = i)
    (fas : Nat → ScalarLFA B (ISGD (FP M)) (FP M)) (ps : Nat → FP M)
    (hs : Stream fas (fun t => xs (σ t)) (fun t => ys (σ t)) ps) (h0 : fas 0 = LFA.mk b w ⟨lr⟩) (t : Nat) :
    (∀ i < n, Spec.Finite (entry (fas t).weights i)) ∧ Spec.Finite (ps t) ∧
    len n (fun i => real (entry (fas t).weights i) - v i) ≤
      2 * ((1 + r) / 2) ^ (t / L) * len n (fun i => real (entry w i) - v i) +
        10 * L * (3 * ((12 * k + 25) * 2 ^ (-53 : ℤ)) * len n v + 2 ^ (-500 : ℤ)) / (1 - r) ∧
    |real (ps t) - real (ys (σ t))| ≤ len n (fun i => real (value (φ (σ t)) i)) *
      (2 * len n (fun i => real (entry (fas t).weights i) - v i) + (12 * k + 25) * 2 ^ (-53 : ℤ) * len n v) +
        2 ^ (-1034 : ℤ) := by
  have run := isgd_trace hs (n := n) (φ := fun t => φ (σ t)) (by rw [h0]; exact hn) (fun t => by rw [h0]; exact hφ (σ t))
  have ho : (fas 0).optimiser = ⟨lr⟩ := by rw [h0]
  have := isgd_forever hM 1 n k L lr l hlr l0 l1 ys φ (fun i => (hφ i).2) hmod v hv hv1 r r0 hr hL (fun t => (fas t).weights)
    (fun i hi => by rw [h0]; exact hw i hi) σ hσ ps (fun t => ⟨(run t).1.2.2, by rw [dotColumn_one]; exact (run t).2.1,
      by have := (run t).2.2; rwa [ho] at this⟩) t
  rwa [h0] at this

end

/-- The hypotheses are met: one constant feature, rate `1/2`, a target of at most `2^100`. For ever, the weight is finite and within
`2 (3/4)^t |y|` of the target, up to `1140 |y| 2^-53 + 2^-795`. -/
theorem C180_example (hM : M.rnd = binary64Format.rnd) (lr : FP M) (hl : Is lr (1 / 2)) (y : FP M) (hy : Bounded (2 ^ 100) y) :
    ∃ (fas : Nat → ScalarLFA (FixedSparse (FP M)) (SGD (FP M)) (FP M)) (ps : Nat → FP M),
      fas 0 = LFA.mk ⟨1, [0]⟩ [Scalar.zero] ⟨lr⟩ ∧ Stream fas (fun _ => ()) (fun _ => y) ps ∧
      ∀ t : Nat, Spec.Finite (entry (fas t).weights 0) ∧ |real (entry (fas t).weights 0) - real y| ≤
        2 * (3 / 4) ^ t * |real y| + 1140 * |real y| * 2 ^ (-53 : ℤ) + 2 ^ (-795 : ℤ) := by
  have hp : Basis.project (⟨1, [0]⟩ : FixedSparse (FP M)) () =
      .ok (.ok (.sparse ⟨1, [(0, (Scalar.one : FP M))]⟩)) := rfl
  have hf : Fits 1 (.sparse ⟨1, [(0, (Scalar.one : FP M))]⟩) := by
    refine ⟨⟨List.nodup_singleton _, fun e he => ?_⟩, rfl⟩
    rw [List.mem_singleton] at he
    subst he
    exact Nat.zero_lt_one
  obtain ⟨fas, ps, hs, h0⟩ := stream_any (O := SGD (FP M)) (⟨1, [0]⟩ : FixedSparse (FP M)) (n := 1) (fun _ => ()) (fun _ => y)
    (fun _ => ⟨_, hp, hf⟩) [Scalar.zero] rfl ⟨lr⟩ trivial
  have hval : real (value (.sparse ⟨1, [(0, (Scalar.one : FP M))]⟩ : Features (FP M)) 0) = 1 := is_real val_one
  have len1 : ∀ f : Nat → ℝ, len 1 f = |f 0| := fun f => by
    unfold len
    rw [Finset.sum_range_one, Real.sqrt_sq_eq_abs]
  obtain ⟨yr, hyr, hy1⟩ := hy
  refine ⟨fas, ps, h0, hs, fun t => ?_⟩
  obtain ⟨h1, -, h3, -⟩ := C180_sgd (ι := Unit) hM 1 1 1 ⟨1, [0]⟩ lr (1 / 2) hl (by norm_num)
    ((by norm_num : (1 / 2 : ℝ) ≤ 1).trans (one_le_pow₀ (by norm_num))) (fun _ => ()) (fun _ => y)
    (fun _ => .sparse ⟨1, [(0, (Scalar.one : FP M))]⟩) (fun _ => ⟨hp, hf⟩)
    (fun _ => ⟨by norm_num, ⟨le_rfl, by norm_num⟩, fun i x hx => by
      obtain ⟨rfl, rfl⟩ := Prod.mk.inj (List.mem_singleton.1 hx)
      exact ⟨1, val_one, by rw [abs_one]; exact one_le_pow₀ (by norm_num)⟩, ⟨yr, hyr, hy1⟩⟩)
    (fun _ => by rw [Finset.sum_range_one, hval]; norm_num) (fun _ => real y)
    (fun _ => by rw [Finset.sum_range_one, hval, one_mul])
    (by rw [len1, is_real hyr]; exact hy1.trans (pow_le_pow_right₀ (by norm_num) (by norm_num))) (1 / 2) (by norm_num)
    (fun σ _ us hus => by
      have := hus 0 Nat.zero_lt_one 0 Nat.zero_lt_one
      rw [Finset.sum_range_one] at this
      simp only [hval] at this
      rw [len1, len1]
      show |us (0 + 1) 0| ≤ _
      rw [this, show us 0 0 - 1 / 2 * (1 * us 0 0) * 1 = 1 / 2 * us 0 0 by ring, abs_mul]
      norm_num)
    (by norm_num) [Scalar.zero] rfl (fun i hi => by
      obtain rfl : i = 0 := by omega
      exact bounded_zero (by positivity)) (fun _ => ()) (fun _ _ => ⟨0, Nat.zero_lt_one, rfl⟩) fas ps hs h0 t
  refine ⟨h1 0 Nat.zero_lt_one, ?_⟩
  rw [len1, len1, len1, show real (entry [(Scalar.zero : FP M)] 0) = 0 from real_zero', zero_sub, abs_neg, Nat.div_one] at h3
  refine h3.trans (le_of_eq_of_le ?_ (add_le_add le_rfl
    (show 20 * (2 : ℝ) ^ (-800 : ℤ) ≤ 2 ^ (-795 : ℤ) by
      rw [show (-795 : ℤ) = 5 + -800 by norm_num, zpow_add₀ (by norm_num)]
      exact mul_le_mul_of_nonneg_right (by norm_num) (by positivity))))
  rw [show ((1 : ℝ) + 1 / 2) / 2 = 3 / 4 by norm_num]
  push_cast
  ring

end

end Lfa

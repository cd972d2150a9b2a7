import Verif.Props.C184
import Verif.Props.C170

/-!
# C185: training from features computed in double precision stays near exact training for ever

In C181 and C184 both runs see the same activations. Here the run in `f64` projects its inputs with rounding, the other run with the
exact basis, and the inputs keep exploring as in C181.
-/

set_option linter.unusedSectionVars false

namespace Lfa

open Spec Machine XReal

variable {M : Machine}

noncomputable section

/-- Calls with rates `q'`, features `f` instead of rates `q`, features `g` differ by at most `τ ‖u‖` in what they take from weights `u`,
and by at most `τ D` in what a target adds. -/
structure Similar (n : Nat) (f g : Nat → ℝ) (q' q y τ D : ℝ) : Prop where
  linear : ∀ u : Nat → ℝ, len n (fun i => q' * (∑ j ∈ Finset.range n, f j * u j) * f i -
    q * (∑ j ∈ Finset.range n, g j * u j) * g i) ≤ τ * len n u
  target : len n (fun i => q' * f i - q * g i) * |y| ≤ τ * D

theorem Similar.step {n : Nat} {f g : Nat → ℝ} {q' q y τ D : ℝ} (h : Similar n f g q' q y τ D) (u : Nat → ℝ) :
    len n (fun i => q' * (y - ∑ j ∈ Finset.range n, f j * u j) * f i - q * (y - ∑ j ∈ Finset.range n, g j * u j) * g i) ≤
      τ * (len n u + D) := by
  have h1 := len_add_le n (fun i => y * (q' * f i - q * g i)) (fun i => -1 * (q' * (∑ j ∈ Finset.range n, f j * u j) * f i -
    q * (∑ j ∈ Finset.range n, g j * u j) * g i))
  rw [len_smul', len_smul', abs_neg, abs_one, one_mul] at h1
  refine le_trans (le_of_eq (len_congr fun i _ => ?_)) (h1.trans ?_)
  · ring
  · have h2 := h.linear u
    have h3 := h.target
    rw [mul_comm] at h3
    linarith

/-- Similar calls contract nearly alike. -/
theorem persistent_near {n L : Nat} {f g : Nat → Nat → ℝ} {q' q y : Nat → ℝ} {τ D r : ℝ} (hs : ∀ t, Similar n (f t) (g t) (q' t) (q t) (y t) τ D)
    (τ0 : 0 ≤ τ) (q0 : ∀ t, 0 ≤ q t) (q2 : ∀ t, q t * ∑ i ∈ Finset.range n, g t i ^ 2 ≤ 2)
    (q0' : ∀ t, 0 ≤ q' t) (q2' : ∀ t, q' t * ∑ i ∈ Finset.range n, f t i ^ 2 ≤ 2) (h : Persistent n L g q r) :
    Persistent n L f q' (r + L * τ) := by
  intro s us hus
  let vs : Nat → Nat → ℝ := fun k => Nat.rec (us 0) (fun k v i => v i -
    q (s + k) * (∑ j ∈ Finset.range n, g (s + k) j * v j) * g (s + k) i) k
  have hvs : ∀ k i, vs (k + 1) i = vs k i - q (s + k) * (∑ j ∈ Finset.range n, g (s + k) j * vs k j) * g (s + k) i :=
    fun k i => rfl
  have h1 := h s vs fun k _ i _ => hvs k i
  have h2 : ∀ k ≤ L, len n (us k) ≤ len n (us 0) := by
    intro k
    induction k with
    | zero => exact fun _ => le_rfl
    | succ k ih =>
      intro hk
      rw [len_congr (hus k (by omega))]
      exact (exact_step n (us k) (f (s + k)) (q0' _) (q2' _)).trans (ih (by omega))
  have h3 : ∀ k ≤ L, len n (fun i => us k i - vs k i) ≤ k * τ * len n (us 0) := by
    intro k
    induction k with
    | zero =>
      intro _
      rw [len_congr (n := n) (f := fun i => us 0 i - vs 0 i) (g := fun _ => 0) fun i _ => sub_self (us 0 i), len_const n 0 le_rfl]
      simp
    | succ k ih =>
      intro hk
      have i1 := ih (by omega)
      have i2 := exact_step n (fun i => us k i - vs k i) (g (s + k)) (q0 _) (q2 _)
      have i3 := ((hs (s + k)).linear (us k)).trans (mul_le_mul_of_nonneg_left (h2 k (by omega)) τ0)
      have i4 := len_add_le n (fun i => (us k i - vs k i) - q (s + k) * (∑ j ∈ Finset.range n, g (s + k) j * (us k j - vs k j)) * g (s + k) i)
        (fun i => -1 * (q' (s + k) * (∑ j ∈ Finset.range n, f (s + k) j * us k j) * f (s + k) i -
          q (s + k) * (∑ j ∈ Finset.range n, g (s + k) j * us k j) * g (s + k) i))
      rw [len_smul', abs_neg, abs_one, one_mul] at i4
      refine le_trans (le_of_eq (len_congr fun i hi => ?_)) (i4.trans ?_)
      · rw [hus k (by omega) i hi, hvs k i]
        simp only [mul_sub, Finset.sum_sub_distrib]
        ring
      · push_cast
        linarith
  have h4 := len_add_le n (fun i => us L i - vs L i) (vs L)
  rw [len_congr (g := us L) fun i _ => sub_add_cancel _ _] at h4
  have h5 := h3 L le_rfl
  have h6 : len n (vs L) ≤ r * len n (us 0) := h1
  linarith

/-- Two exact runs of similar calls. -/
theorem near_runs {n L : Nat} {f g : Nat → Nat → ℝ} {q' q y : Nat → ℝ} {us vs : Nat → Nat → ℝ} {τ D r W : ℝ}
    (hs : ∀ t, Similar n (f t) (g t) (q' t) (q t) (y t) τ D) (τ0 : 0 ≤ τ) (q0 : ∀ t, 0 ≤ q t)
    (q2 : ∀ t, q t * ∑ i ∈ Finset.range n, g t i ^ 2 ≤ 2) (r0 : 0 ≤ r) (r1 : r < 1) (Lpos : 0 < L) (h : Persistent n L g q r)
    (hus : ∀ t, ∀ i < n, us (t + 1) i = us t i + q' t * (y t - ∑ j ∈ Finset.range n, f t j * us t j) * f t i)
    (hvs : ∀ t, ∀ i < n, vs (t + 1) i = vs t i + q t * (y t - ∑ j ∈ Finset.range n, g t j * vs t j) * g t i)
    (h0 : ∀ i < n, us 0 i = vs 0 i) (hW : ∀ t, len n (us t) ≤ W) (D0 : 0 ≤ D) (t : Nat) :
    len n (fun i => us t i - vs t i) ≤ 10 * L * (τ * (W + D)) / (1 - r) := by
  have W0 := (len_nonneg n _).trans (hW 0)
  have p := Sweep.perturbed (c := q) (g := fun t => spot n (g t)) (fun t => ⟨q0 t, by rw [spot_norm, len_sq]; exact q2 t⟩) r0 le_rfl
    (β := τ * (W + D)) (by positivity) (L := L) (by rw [mul_zero, mul_zero]; linarith) r1 Lpos (fun s u => persistent_run h s u)
    (fun t => spot n fun i => us t i - vs t i) t (fun s _ => by
      rw [spot_lin, zero_mul, zero_add]
      have h1 : spot n (fun i => us (s + 1) i - vs (s + 1) i) -
          spot n (fun i => (us s i - vs s i) - q s * (∑ j ∈ Finset.range n, g s j * (us s j - vs s j)) * g s i) =
          spot n fun i => q' s * (y s - ∑ j ∈ Finset.range n, f s j * us s j) * f s i -
            q s * (y s - ∑ j ∈ Finset.range n, g s j * us s j) * g s i := by
        refine Eq.trans (b := spot n fun i => (us (s + 1) i - vs (s + 1) i) -
          ((us s i - vs s i) - q s * (∑ j ∈ Finset.range n, g s j * (us s j - vs s j)) * g s i)) rfl (spot_congr fun i hi => ?_)
        rw [hus s i hi, hvs s i hi]
        simp only [mul_sub, Finset.sum_sub_distrib]
        ring
      rw [h1, spot_norm]
      exact ((hs s).step (us s)).trans (mul_le_mul_of_nonneg_left (add_le_add (hW s) le_rfl) τ0)) t le_rfl
  simp only [spot_norm] at p
  rw [len_congr (n := n) (f := fun i => us 0 i - vs 0 i) (g := fun _ => 0) fun i hi => by rw [h0 i hi, sub_self],
    len_const n 0 le_rfl, mul_zero, mul_zero, zero_add] at p
  exact p.trans (le_of_eq (by ring))

/-- Calls with the same rate. -/
theorem similar_sgd {n : Nat} {f g : Nat → ℝ} {l A ρ y D : ℝ} (l0 : 0 ≤ l) (hf : len n f ≤ A) (hg : len n g ≤ A)
    (hv : len n (fun i => f i - g i) ≤ ρ * A) (ρ0 : 0 ≤ ρ) (hA : l * A ^ 2 ≤ 2) (hD : l * A * |y| ≤ D) (D0 : 0 ≤ D) :
    Similar n f g l l y (4 * ρ) D := by
  have A0 := (len_nonneg n f).trans hf
  refine ⟨fun u => ?_, ?_⟩
  · have h1 := feature_step n u f g 0 l0 hv
    have h2 := len_smul' (n := n) (-1) (fun i => l * (∑ j ∈ Finset.range n, f j * u j) * f i - l * (∑ j ∈ Finset.range n, g j * u j) * g i)
    rw [abs_neg, abs_one, one_mul] at h2
    rw [← h2]
    refine le_trans (le_of_eq (len_congr fun i _ => by ring)) (h1.trans ?_)
    have u0 := len_nonneg n u
    have h3 : |0 - ∑ j ∈ Finset.range n, f j * u j| ≤ A * len n u := by
      rw [zero_sub, abs_neg]
      exact (abs_sum_mul_le_len n f u).trans (mul_le_mul_of_nonneg_right hf u0)
    have h4 : len n g * len n u ≤ A * len n u := mul_le_mul_of_nonneg_right hg u0
    calc l * (|0 - ∑ j ∈ Finset.range n, f j * u j| + len n g * len n u) * (ρ * A)
        ≤ l * (A * len n u + A * len n u) * (ρ * A) := by gcongr
      _ = (l * A ^ 2) * (2 * ρ * len n u) := by ring
      _ ≤ 2 * (2 * ρ * len n u) := mul_le_mul_of_nonneg_right hA (by positivity)
      _ = 4 * ρ * len n u := by ring
  · rw [len_congr (g := fun i => l * (f i - g i)) fun i _ => by ring, len_smul', abs_of_nonneg l0]
    calc l * len n (fun i => f i - g i) * |y| ≤ l * (ρ * A) * |y| := by gcongr
      _ = ρ * (l * A * |y|) := by ring
      _ ≤ ρ * D := mul_le_mul_of_nonneg_left hD ρ0
      _ ≤ 4 * ρ * D := by nlinarith [mul_nonneg ρ0 D0]

theorem abs_len_sub_le (n : Nat) (f g : Nat → ℝ) : |len n f - len n g| ≤ len n (fun i => f i - g i) := by
  have h1 := len_add_le n (fun i => f i - g i) g
  rw [len_congr (g := f) fun i _ => sub_add_cancel _ _] at h1
  have h2 := len_add_le n (fun i => -1 * (f i - g i)) f
  rw [len_smul', abs_neg, abs_one, one_mul, len_congr (g := g) fun i _ => by ring] at h2
  rw [abs_le]
  constructor <;> linarith

/-- The implicit rates of two lengths `a`, `b`. -/
theorem implicit_rates {l a b : ℝ} (l0 : 0 ≤ l) (a0 : 0 ≤ a) (b0 : 0 ≤ b) :
    |l / (1 + l * a ^ 2) - l / (1 + l * b ^ 2)| * a ≤ 2 * l * |a - b| := by
  have pa : 0 < 1 + l * a ^ 2 := by positivity
  have pb : 0 < 1 + l * b ^ 2 := by positivity
  have e : l / (1 + l * a ^ 2) - l / (1 + l * b ^ 2) = l ^ 2 * (a + b) * (b - a) / ((1 + l * a ^ 2) * (1 + l * b ^ 2)) := by
    field_simp
    ring
  rw [e, abs_div, abs_mul, abs_mul, abs_of_nonneg (sq_nonneg l), abs_of_nonneg (add_nonneg a0 b0), abs_of_pos (mul_pos pa pb),
    abs_sub_comm b a, div_mul_eq_mul_div, div_le_iff₀ (mul_pos pa pb)]
  have key : l * (a + b) * a ≤ 2 * ((1 + l * a ^ 2) * (1 + l * b ^ 2)) := by
    have h1 : 0 ≤ l * (a - b) ^ 2 := by positivity
    have h2 : 0 ≤ l ^ 2 * a ^ 2 * b ^ 2 := by positivity
    have h3 : 0 ≤ l * a ^ 2 := by positivity
    have h4 : 0 ≤ l * b ^ 2 := by positivity
    nlinarith
  have := mul_le_mul_of_nonneg_left key (mul_nonneg l0 (abs_nonneg (a - b)))
  linarith

/-- Calls with implicit rates. -/
theorem similar_isgd {n : Nat} {f g : Nat → ℝ} {l A ρ y D Z : ℝ} (l0 : 0 ≤ l) (hf : len n f ≤ A) (hg : len n g ≤ A)
    (hv : len n (fun i => f i - g i) ≤ ρ * A) (ρ0 : 0 ≤ ρ) (Z1 : 1 ≤ Z) (hA : l * A ^ 2 ≤ Z) (hD : l * A * |y| ≤ D) (D0 : 0 ≤ D) :
    Similar n f g (l / (1 + l * ∑ i ∈ Finset.range n, f i ^ 2)) (l / (1 + l * ∑ i ∈ Finset.range n, g i ^ 2)) y (4 * (Z * ρ)) D := by
  have A0 := (len_nonneg n f).trans hf
  have f0 := len_nonneg n f
  have g0 := len_nonneg n g
  have hq := implicit_rates l0 f0 g0
  have hq2 := hq.trans (mul_le_mul_of_nonneg_left ((abs_len_sub_le n f g).trans hv) (by positivity : 0 ≤ 2 * l))
  rw [← len_sq n f, ← len_sq n g]
  set q' := l / (1 + l * len n f ^ 2)
  have ql : l / (1 + l * len n g ^ 2) ≤ l := by
    rw [div_le_iff₀ (by positivity)]
    nlinarith [mul_nonneg l0 (sq_nonneg (len n g)), mul_nonneg l0 (mul_nonneg l0 (sq_nonneg (len n g)))]
  have q0 : 0 ≤ l / (1 + l * len n g ^ 2) := by positivity
  set q := l / (1 + l * len n g ^ 2)
  refine ⟨fun u => ?_, ?_⟩
  · have u0 := len_nonneg n u
    have h1 := feature_step n u f g 0 q0 hv
    have h2 := len_add_le n (fun i => (q' - q) * (∑ j ∈ Finset.range n, f j * u j) * f i)
      (fun i => -1 * (q * (0 - ∑ j ∈ Finset.range n, f j * u j) * f i - q * (0 - ∑ j ∈ Finset.range n, g j * u j) * g i))
    rw [len_smul', len_smul', abs_neg, abs_one, one_mul, abs_mul] at h2
    refine le_trans (le_of_eq (len_congr fun i _ => by ring)) (h2.trans ?_)
    have h3 := abs_sum_mul_le_len n f u
    have h4 : |0 - ∑ j ∈ Finset.range n, f j * u j| ≤ A * len n u := by
      rw [zero_sub, abs_neg]
      exact h3.trans (mul_le_mul_of_nonneg_right hf u0)
    have h5 : q * (|0 - ∑ j ∈ Finset.range n, f j * u j| + len n g * len n u) * (ρ * A) ≤ 2 * (l * A ^ 2) * (ρ * len n u) :=
      calc q * (|0 - ∑ j ∈ Finset.range n, f j * u j| + len n g * len n u) * (ρ * A)
          ≤ l * (A * len n u + A * len n u) * (ρ * A) := by gcongr
        _ = _ := by ring
    have h6 : |q' - q| * |∑ j ∈ Finset.range n, f j * u j| * len n f ≤ 2 * (l * A ^ 2) * (ρ * len n u) :=
      calc |q' - q| * |∑ j ∈ Finset.range n, f j * u j| * len n f
          ≤ |q' - q| * (A * len n u) * len n f := by
            have := h3.trans (mul_le_mul_of_nonneg_right hf u0)
            gcongr
        _ = |q' - q| * len n f * (A * len n u) := by ring
        _ ≤ 2 * l * (ρ * A) * (A * len n u) := mul_le_mul_of_nonneg_right hq2 (by positivity)
        _ = _ := by ring
    have h7 := mul_le_mul_of_nonneg_right hA (by positivity : 0 ≤ 4 * (ρ * len n u))
    linarith
  · have h2 := len_add_le n (fun i => (q' - q) * f i) (fun i => q * (f i - g i))
    rw [len_smul', len_smul', abs_of_nonneg q0, len_congr (g := fun i => q' * f i - q * g i) fun i _ => by ring] at h2
    have h3 : len n (fun i => q' * f i - q * g i) ≤ 3 * ρ * (l * A) := by
      refine h2.trans ?_
      have : q * len n (fun i => f i - g i) ≤ l * (ρ * A) := mul_le_mul ql hv (len_nonneg _ _) l0
      linarith
    calc len n (fun i => q' * f i - q * g i) * |y| ≤ 3 * ρ * (l * A) * |y| := mul_le_mul_of_nonneg_right h3 (abs_nonneg _)
      _ = 3 * ρ * (l * A * |y|) := by ring
      _ ≤ 3 * ρ * D := mul_le_mul_of_nonneg_left hD (by positivity)
      _ ≤ 4 * (Z * ρ) * D := by nlinarith [mul_nonneg ρ0 D0, mul_le_mul_of_nonneg_right Z1 (mul_nonneg ρ0 D0)]

/-- The features as exact numbers. -/
def realFeatures (n : Nat) (φ : Features (FP M)) : Features ℝ := .dense ((List.range n).map fun i => real (value φ i))

theorem fits_realFeatures (n : Nat) (φ : Features (FP M)) : Fits n (realFeatures n φ) :=
  ⟨trivial, by show ((List.range n).map _).length = n; simp⟩

theorem value_realFeatures {n i : Nat} (φ : Features (FP M)) (hi : i < n) : value (realFeatures n φ) i = real (value φ i) := by
  show entry ((List.range n).map _) i = _
  simp [entry, hi]

theorem normSq_realFeatures (n : Nat) (φ : Features (FP M)) :
    normSq (realFeatures n φ) = ∑ i ∈ Finset.range n, real (value φ i) ^ 2 := by
  rw [normSq, (fits_realFeatures n φ).2]
  exact Finset.sum_congr rfl fun i hi => by rw [value_realFeatures φ (Finset.mem_range.1 hi), sq]

theorem inner_realFeatures (n : Nat) (φ : Features (FP M)) (u : List ℝ) :
    Spec.inner (realFeatures n φ) u = ∑ j ∈ Finset.range n, real (value φ j) * entry u j := by
  rw [inner_eq, (fits_realFeatures n φ).2]
  exact Finset.sum_congr rfl fun j hj => by rw [value_realFeatures _ (Finset.mem_range.1 hj)]

/-- An exact run with rates `q` on given features. -/
def exactRun (n : Nat) (w : List ℝ) (q y : Nat → ℝ) (ψ : Nat → Features ℝ) : Nat → List ℝ
  | 0 => w
  | t + 1 => (List.range n).map fun i => entry (exactRun n w q y ψ t) i +
      q t * (y t - Spec.inner (ψ t) (exactRun n w q y ψ t)) * value (ψ t) i

theorem exactRun_succ {n i : Nat} (w : List ℝ) (q y : Nat → ℝ) (ψ : Nat → Features ℝ) (t : Nat) (hi : i < n) :
    entry (exactRun n w q y ψ (t + 1)) i = entry (exactRun n w q y ψ t) i +
      q t * (y t - Spec.inner (ψ t) (exactRun n w q y ψ t)) * value (ψ t) i := by
  show entry ((List.range n).map _) i = _
  simp [entry, hi]

theorem exactRun_length {n : Nat} {w : List ℝ} (hw : w.length = n) (q y : Nat → ℝ) (ψ : Nat → Features ℝ) (t : Nat) :
    (exactRun n w q y ψ t).length = n := by
  cases t with
  | zero => exact hw
  | succ t => show ((List.range n).map _).length = n; simp

theorem combine_shadow {n L : Nat} {φ : Nat → Features (FP M)} {ψ : Nat → Features ℝ}
    {ws : Nat → List (FP M)} {us vs : Nat → List ℝ} {ps : Nat → FP M} {qs : Nat → ℝ} {A ρ τ ε η r D W W' E E' : ℝ}
    (hψ : ∀ t, Fits n (ψ t)) (hf : ∀ t, len n (fun i => real (value (φ t) i)) ≤ A)
    (hg : ∀ t, len n (value (ψ t)) ≤ A) (hv : ∀ t, len n (fun i => real (value (φ t) i) - value (ψ t) i) ≤ ρ * A)
    (ρ0 : 0 ≤ ρ) (hρ : ρ ≤ τ) (ε0 : 0 ≤ ε) (η0 : 0 ≤ η) (r0 : 0 ≤ r) (r1 : r < 1) (Lpos : 0 < L) (hL : 2 * (L * τ) ≤ 1 - r) (D0 : 0 ≤ D)
    {N : ℝ} (hW' : W' = N + 10 * L * D / (1 - (r + L * τ))) (hW : W = N + 20 * L * D / (1 - r))
    (hE : E = 20 * L * ((ε + τ) * (W + D) + η) / (1 - r))
    (hE' : E' = 10 * L * (ε * (W' + D) + η) / (1 - (r + L * τ))) (t : Nat)
    (hq : qs t = Spec.inner (ψ t) (vs t))
    (h : (∀ i < n, Spec.Finite (entry (ws t) i)) ∧ Spec.Finite (ps t) ∧ len n (entry (us t)) ≤ W' ∧
      len n (fun i => real (entry (ws t) i) - entry (us t) i) ≤ E' ∧
      |real (ps t) - Spec.inner (realFeatures n (φ t)) (us t)| ≤
        3 * (√(normSq (realFeatures n (φ t))) * E') + 2 ^ (-1034 : ℤ))
    (h' : len n (fun i => entry (us t) i - entry (vs t) i) ≤ 10 * L * (τ * (W' + D)) / (1 - r)) :
    (∀ i < n, Spec.Finite (entry (ws t) i)) ∧ Spec.Finite (ps t) ∧
    len n (fun i => real (entry (ws t) i) - entry (vs t) i) ≤ E ∧
    |real (ps t) - qs t| ≤ 4 * (A * E) + 2 ^ (-1034 : ℤ) := by
  obtain ⟨h1, h2, h3, h4, h5⟩ := h
  have A0 : 0 ≤ A := (len_nonneg n _).trans (hg 0)
  have L0 : (0 : ℝ) < L := by exact_mod_cast Lpos
  have L1 : (1 : ℝ) ≤ L := by exact_mod_cast Lpos
  have τ0 : 0 ≤ τ := ρ0.trans hρ
  have d : 0 < 1 - r := by linarith
  have d' : (1 - r) / 2 ≤ 1 - (r + L * τ) := by linarith
  have half : ∀ x : ℝ, 0 ≤ x → 10 * L * x / (1 - (r + L * τ)) ≤ 20 * L * x / (1 - r) := fun x hx => by
    rw [div_le_div_iff₀ (by linarith) d]
    have := mul_le_mul_of_nonneg_left d' (by positivity : 0 ≤ 20 * L * x)
    linarith
  have hWW : W' ≤ W := by
    have := half D D0
    rw [hW, hW']
    linarith
  have W0' : 0 ≤ W' := (len_nonneg n _).trans h3
  have W0 : 0 ≤ W := W0'.trans hWW
  have hE1 : E' ≤ 20 * L * (ε * (W + D) + η) / (1 - r) := by
    rw [hE']
    refine (half _ (by positivity)).trans ?_
    gcongr
  have hE2 : 10 * L * (τ * (W' + D)) / (1 - r) ≤ 10 * L * (τ * (W + D)) / (1 - r) := by gcongr
  have split : E = 20 * L * (ε * (W + D) + η) / (1 - r) + 2 * (10 * L * (τ * (W + D)) / (1 - r)) := by
    rw [hE]
    ring
  have R0 : 0 ≤ 10 * L * (τ * (W + D)) / (1 - r) := by positivity
  have P0 : 0 ≤ 20 * L * (ε * (W + D) + η) / (1 - r) := by positivity
  refine ⟨h1, h2, ?_, ?_⟩
  · have := len_add_le n (fun i => real (entry (ws t) i) - entry (us t) i) (fun i => entry (us t) i - entry (vs t) i)
    refine le_trans (le_of_eq (len_congr fun i _ => by ring)) (this.trans ?_)
    linarith
  · have e1 : √(normSq (realFeatures n (φ t))) ≤ A := by
      rw [normSq_realFeatures]
      exact hf t
    have e2 : Spec.inner (realFeatures n (φ t)) (us t) - qs t =
        ∑ j ∈ Finset.range n, (real (value (φ t) j) - value (ψ t) j) * entry (us t) j +
        ∑ j ∈ Finset.range n, value (ψ t) j * (entry (us t) j - entry (vs t) j) := by
      rw [hq, inner_eq, inner_eq, (hψ t).2, (fits_realFeatures n (φ t)).2, ← Finset.sum_add_distrib, ← Finset.sum_sub_distrib]
      refine Finset.sum_congr rfl fun j hj => ?_
      rw [value_realFeatures _ (Finset.mem_range.1 hj)]
      ring
    have e3 := abs_add_le (∑ j ∈ Finset.range n, (real (value (φ t) j) - value (ψ t) j) * entry (us t) j)
      (∑ j ∈ Finset.range n, value (ψ t) j * (entry (us t) j - entry (vs t) j))
    rw [← e2] at e3
    have e4 := (abs_sum_mul_le_len n (fun j => real (value (φ t) j) - value (ψ t) j) (entry (us t))).trans
      (mul_le_mul (hv t) (h3.trans hWW) (len_nonneg _ _) (by positivity))
    have e5 := (abs_sum_mul_le_len n (value (ψ t)) (fun j => entry (us t) j - entry (vs t) j)).trans
      (mul_le_mul (hg t) (h'.trans hE2) (len_nonneg _ _) A0)
    have e6 := abs_sub_le (real (ps t)) (Spec.inner (realFeatures n (φ t)) (us t)) (qs t)
    have E0' : 0 ≤ E' := (len_nonneg n _).trans h4
    have e7 := mul_le_mul e1 hE1 E0' A0
    have e8 : ρ * W ≤ 10 * L * (τ * (W + D)) / (1 - r) := by
      rw [le_div_iff₀ d]
      have a1 : ρ * W * (1 - r) ≤ ρ * W := mul_le_of_le_one_right (by positivity) (by linarith)
      have a2 : ρ * W ≤ τ * (W + D) := mul_le_mul hρ (by linarith) W0 τ0
      have a3 : 0 ≤ τ * (W + D) := by positivity
      nlinarith
    have e9 := mul_le_mul_of_nonneg_left e8 A0
    have e10 := mul_nonneg A0 P0
    have e11 := mul_nonneg A0 R0
    rw [split]
    linarith

theorem similar_pos {n : Nat} {φ : Nat → Features (FP M)} {ys : Nat → FP M} {l A D : ℝ} (l0 : 0 ≤ l)
    (hf : ∀ t, len n (fun i => real (value (φ t) i)) ≤ A) (hD : ∀ t, l * A * |real (ys t)| ≤ D) : 0 ≤ D :=
  (mul_nonneg (mul_nonneg l0 ((len_nonneg n _).trans (hf 0))) (abs_nonneg _)).trans (hD 0)

/-- Weights moved by SGD on rounded features, of one output or of a column of several, beside exact weights on exact features. -/
theorem sgd_near (hM : M.rnd = binary64Format.rnd) (m n k L : Nat)
    (ws : Nat → List (FP M)) (vs : Nat → List ℝ) (lr : FP M) (l : ℝ) (ys ps : Nat → FP M) (qs : Nat → ℝ)
    (φ : Nat → Features (FP M)) (ψ : Nat → Features ℝ) (hφ : ∀ t, Fits n (φ t)) (hψ : ∀ t, Fits n (ψ t))
    (run : ∀ t, (ws t).length = n ∧ (φ t).dotColumn m (ws t) = .ok (ps t) ∧ ∀ i < n,
      (∀ a, Stored (φ t) i a → entry (ws (t + 1)) i = (entry (ws t) i +. lr *. (ys t -. ps t) *. a)) ∧
      (¬ Active (φ t) i → entry (ws (t + 1)) i = entry (ws t) i))
    (hvs : ∀ t, (vs t).length = n ∧ (ψ t).dot (vs t) = .ok (qs t))
    (hex : ∀ t, ∀ i < n, entry (vs (t + 1)) i = entry (vs t) i +
      l * (real (ys t) - Spec.inner (ψ t) (vs t)) * value (ψ t) i)
    (hw : ∀ i < n, Bounded (2 ^ 100) (entry (ws 0) i) ∧ entry (vs 0) i = real (entry (ws 0) i))
    (hlr : Is lr l) (l0 : 0 ≤ l) (l1 : l ≤ 2 ^ 100) (hmod : ∀ t, Moderate n k (φ t) (ys t)) (A ρ : ℝ) (ρ0 : 0 ≤ ρ)
    (hf : ∀ t, len n (fun i => real (value (φ t) i)) ≤ A) (hg : ∀ t, √(normSq (ψ t)) ≤ A)
    (hv : ∀ t, len n (fun i => real (value (φ t) i) - value (ψ t) i) ≤ ρ * A) (hA : l * A ^ 2 ≤ 2)
    (D : ℝ) (hD : ∀ t, l * A * |real (ys t)| ≤ D) (hD1 : D ≤ 2 ^ 190)
    (r : ℝ) (r0 : 0 ≤ r) (Lpos : 0 < L) (hr : Persistent n L (fun t => value (ψ t)) (fun _ => l) r)
    (hL : L * (8 * k + 11) * 2 ^ (-50 : ℤ) ≤ 1 - r) (hρ : 8 * (L * ρ) ≤ 1 - r) (W E : ℝ)
    (hW : W = 2 * len n (entry (vs 0)) + 20 * L * D / (1 - r))
    (hE : E = 20 * L * (((8 * k + 11) * 2 ^ (-53 : ℤ) + 4 * ρ) * (W + D) + 2 ^ (-800 : ℤ)) / (1 - r)) (t : Nat) :
    (∀ i < n, Spec.Finite (entry (ws t) i)) ∧ Spec.Finite (ps t) ∧
    len n (fun i => real (entry (ws t) i) - entry (vs t) i) ≤ E ∧
    |real (ps t) - qs t| ≤ 4 * (A * E) + 2 ^ (-1034 : ℤ) := by
  have D0 := similar_pos l0 hf hD
  have L0 : (0 : ℝ) < L := by exact_mod_cast Lpos
  have r1 : r < 1 := by
    have : 0 < L * (8 * k + 11) * (2 : ℝ) ^ (-50 : ℤ) := by positivity
    linarith
  have e50 : (2 : ℝ) ^ (-50 : ℤ) = 2 * 2 ^ (-51 : ℤ) := by norm_num
  have hg' : ∀ t, len n (value (ψ t)) ≤ A := fun t => by
    have := hg t
    rwa [len_value (hψ t)] at this
  have sq_le : ∀ f : Nat → ℝ, len n f ≤ A → l * ∑ i ∈ Finset.range n, f i ^ 2 ≤ 2 := fun f h => by
    rw [← len_sq]
    exact (mul_le_mul_of_nonneg_left (pow_le_pow_left₀ (len_nonneg _ _) h 2) l0).trans hA
  have sim := fun t => similar_sgd l0 (hf t) (hg' t) (hv t) ρ0 hA (hD t) D0
  have hr' := persistent_near sim (by positivity) (fun _ => l0) (fun t => sq_le _ (hg' t)) (fun _ => l0) (fun t => sq_le _ (hf t)) hr
  have hlen : ((ws 0).map real).length = n := by rw [List.length_map]; exact (run 0).1
  have h0 : ∀ i < n, entry ((ws 0).map real) i = real (entry (ws 0) i) := fun i hi => by
    have : i < (ws 0).length := by rw [(run 0).1]; exact hi
    simp [entry, this]
  set us := exactRun n ((ws 0).map real) (fun _ => l) (fun t => real (ys t)) (fun t => realFeatures n (φ t)) with hus
  have hN : len n (entry (us 0)) = len n (entry (vs 0)) := len_congr fun i hi => by
    rw [(hw i hi).2]
    exact h0 i hi
  have main := sgd_shadow hM m n k L ws us lr l ys ps (fun t => Spec.inner (realFeatures n (φ t)) (us t)) φ
    (fun t => realFeatures n (φ t)) hφ (fun t => fits_realFeatures n (φ t)) (fun t i hi => value_realFeatures (φ t) hi) run
    (fun t => ⟨exactRun_length hlen _ _ _ t, dot_real (fits_realFeatures n (φ t)).1
      ((fits_realFeatures n (φ t)).2.trans (exactRun_length hlen _ _ _ t).symm)⟩)
    (fun t i hi => exactRun_succ _ _ _ _ t hi) (fun i hi => ⟨(hw i hi).1, h0 i hi⟩) hlr l0 l1
    (fun t => by rw [normSq_realFeatures]; exact sq_le _ (hf t)) hmod D
    (fun t => by
      rw [normSq_realFeatures]
      exact (mul_le_mul_of_nonneg_right (mul_le_mul_of_nonneg_left (hf t) l0) (abs_nonneg _)).trans (hD t)) hD1
    (r + L * (4 * ρ)) (by positivity) Lpos (persistent_congr hr' fun t i hi => (value_realFeatures (φ t) hi).symm)
    (by rw [e50] at hL; linarith)
    (2 * len n (entry (us 0)) + 10 * L * D / (1 - (r + L * (4 * ρ)))) _ rfl rfl
  refine combine_shadow hψ hf hg' hv ρ0 (by linarith : ρ ≤ 4 * ρ) (by positivity) (by positivity) r0 r1 Lpos (by linarith) D0 rfl
    (by rw [hN]; exact hW) hE rfl t ?_ (main t) ?_
  · have := dot_real (hψ t).1 (w := vs t) ((hψ t).2.trans (hvs t).1.symm)
    rw [(hvs t).2] at this
    injection this
  · refine near_runs (us := fun t => entry (us t)) (vs := fun t => entry (vs t)) sim (by positivity) (fun _ => l0)
      (fun t => sq_le _ (hg' t)) r0 r1 Lpos hr (fun t i hi => ?_) (fun t i hi => ?_) (fun i hi => ?_) (fun t => (main t).2.2.1) D0 t
    · rw [hus, exactRun_succ _ _ _ _ t hi, value_realFeatures _ hi, inner_realFeatures]
    · rw [hex t i hi, inner_eq, (hψ t).2]
    · rw [(hw i hi).2]
      exact h0 i hi

/-- The same for ISGD. -/
theorem isgd_near (hM : M.rnd = binary64Format.rnd) (m n k L : Nat)
    (ws : Nat → List (FP M)) (vs : Nat → List ℝ) (o : ISGD (FP M)) (l : ℝ) (ys ps : Nat → FP M) (qs : Nat → ℝ)
    (φ : Nat → Features (FP M)) (ψ : Nat → Features ℝ) (hφ : ∀ t, Fits n (φ t)) (hψ : ∀ t, Fits n (ψ t))
    (run : ∀ t, (ws t).length = n ∧ (φ t).dotColumn m (ws t) = .ok (ps t) ∧ ∀ i < n,
      (∀ a, Stored (φ t) i a → entry (ws (t + 1)) i = (entry (ws t) i +. o.computeLr (φ t) *. (ys t -. ps t) *. a)) ∧
      (¬ Active (φ t) i → entry (ws (t + 1)) i = entry (ws t) i))
    (hvs : ∀ t, (vs t).length = n ∧ (ψ t).dot (vs t) = .ok (qs t))
    (hex : ∀ t, ∀ i < n, entry (vs (t + 1)) i = entry (vs t) i +
      l / (1 + l * normSq (ψ t)) * (real (ys t) - Spec.inner (ψ t) (vs t)) * value (ψ t) i)
    (hw : ∀ i < n, Bounded (2 ^ 100) (entry (ws 0) i) ∧ entry (vs 0) i = real (entry (ws 0) i))
    (hlr : Is o.lr l) (l0 : 0 ≤ l) (l1 : l ≤ 2 ^ 100) (hmod : ∀ t, Moderate n k (φ t) (ys t)) (A ρ Z : ℝ) (ρ0 : 0 ≤ ρ)
    (hf : ∀ t, len n (fun i => real (value (φ t) i)) ≤ A) (hg : ∀ t, √(normSq (ψ t)) ≤ A)
    (hv : ∀ t, len n (fun i => real (value (φ t) i) - value (ψ t) i) ≤ ρ * A) (Z1 : 1 ≤ Z) (hA : l * A ^ 2 ≤ Z)
    (D : ℝ) (hD : ∀ t, l * A * |real (ys t)| ≤ D) (hD1 : D ≤ 2 ^ 190)
    (r : ℝ) (r0 : 0 ≤ r) (Lpos : 0 < L) (hr : Persistent n L (fun t => value (ψ t)) (fun t => l / (1 + l * normSq (ψ t))) r)
    (hL : L * (12 * k + 25) * 2 ^ (-50 : ℤ) ≤ 1 - r) (hρ : 8 * (L * (Z * ρ)) ≤ 1 - r) (W E : ℝ)
    (hW : W = 2 * len n (entry (vs 0)) + 20 * L * D / (1 - r))
    (hE : E = 20 * L * (((12 * k + 25) * 2 ^ (-53 : ℤ) + 4 * (Z * ρ)) * (W + D) + 2 ^ (-500 : ℤ)) / (1 - r)) (t : Nat) :
    (∀ i < n, Spec.Finite (entry (ws t) i)) ∧ Spec.Finite (ps t) ∧
    len n (fun i => real (entry (ws t) i) - entry (vs t) i) ≤ E ∧
    |real (ps t) - qs t| ≤ 4 * (A * E) + 2 ^ (-1034 : ℤ) := by
  have D0 := similar_pos l0 hf hD
  have L0 : (0 : ℝ) < L := by exact_mod_cast Lpos
  have r1 : r < 1 := by
    have : 0 < L * (12 * k + 25) * (2 : ℝ) ^ (-50 : ℤ) := by positivity
    linarith
  have e50 : (2 : ℝ) ^ (-50 : ℤ) = 2 * 2 ^ (-51 : ℤ) := by norm_num
  have hg' : ∀ t, len n (value (ψ t)) ≤ A := fun t => by
    have := hg t
    rwa [len_value (hψ t)] at this
  have hS : ∀ t, normSq (ψ t) = ∑ i ∈ Finset.range n, value (ψ t) i ^ 2 := fun t => by
    rw [normSq, (hψ t).2]
    exact Finset.sum_congr rfl fun i hi => (sq _).symm
  have rate : ∀ f : Nat → ℝ, 0 ≤ l / (1 + l * ∑ i ∈ Finset.range n, f i ^ 2) ∧ l / (1 + l * ∑ i ∈ Finset.range n, f i ^ 2) ≤ l ∧
      l / (1 + l * ∑ i ∈ Finset.range n, f i ^ 2) * ∑ i ∈ Finset.range n, f i ^ 2 ≤ 2 := fun f => by
    have : 0 ≤ ∑ i ∈ Finset.range n, f i ^ 2 := Finset.sum_nonneg fun _ _ => sq_nonneg _
    refine ⟨by positivity, ?_, ?_⟩
    · rw [div_le_iff₀ (by positivity)]
      nlinarith [mul_nonneg l0 (mul_nonneg l0 this)]
    · rw [div_mul_eq_mul_div, div_le_iff₀ (by positivity)]
      nlinarith [mul_nonneg l0 this]
  have Z0 : 0 ≤ Z := by linarith
  have sim := fun t => similar_isgd l0 (hf t) (hg' t) (hv t) ρ0 Z1 hA (hD t) D0
  simp only [hS] at hr hex
  have hr' := persistent_near sim (by positivity) (fun t => (rate _).1) (fun t => (rate _).2.2) (fun t => (rate _).1)
    (fun t => (rate _).2.2) hr
  have hlen : ((ws 0).map real).length = n := by rw [List.length_map]; exact (run 0).1
  have h0 : ∀ i < n, entry ((ws 0).map real) i = real (entry (ws 0) i) := fun i hi => by
    have : i < (ws 0).length := by rw [(run 0).1]; exact hi
    simp [entry, this]
  set us := exactRun n ((ws 0).map real) (fun t => l / (1 + l * ∑ i ∈ Finset.range n, real (value (φ t) i) ^ 2))
    (fun t => real (ys t)) (fun t => realFeatures n (φ t)) with hus
  have hN : len n (entry (us 0)) = len n (entry (vs 0)) := len_congr fun i hi => by
    rw [(hw i hi).2]
    exact h0 i hi
  have main := isgd_shadow hM m n k L ws us o l ys ps (fun t => Spec.inner (realFeatures n (φ t)) (us t)) φ
    (fun t => realFeatures n (φ t)) hφ (fun t => fits_realFeatures n (φ t)) (fun t i hi => value_realFeatures (φ t) hi) run
    (fun t => ⟨exactRun_length hlen _ _ _ t, dot_real (fits_realFeatures n (φ t)).1
      ((fits_realFeatures n (φ t)).2.trans (exactRun_length hlen _ _ _ t).symm)⟩)
    (fun t i hi => by rw [normSq_realFeatures]; exact exactRun_succ _ _ _ _ t hi) (fun i hi => ⟨(hw i hi).1, h0 i hi⟩) hlr l0 l1
    hmod D
    (fun t => by
      rw [normSq_realFeatures]
      exact (mul_le_mul_of_nonneg_right (mul_le_mul (rate _).2.1 (hf t) (len_nonneg _ _) l0) (abs_nonneg _)).trans (hD t)) hD1
    (r + L * (4 * (Z * ρ))) (by positivity) Lpos (by
      simp only [normSq_realFeatures]
      exact persistent_congr hr' fun t i hi => (value_realFeatures (φ t) hi).symm)
    (by rw [e50] at hL; linarith)
    (2 * len n (entry (us 0)) + 10 * L * D / (1 - (r + L * (4 * (Z * ρ))))) _ rfl rfl
  have hρ1 : ρ ≤ 4 * (Z * ρ) := by nlinarith
  refine combine_shadow hψ hf hg' hv ρ0 hρ1 (by positivity) (by positivity) r0 r1 Lpos (by linarith) D0 rfl
    (by rw [hN]; exact hW) hE rfl t ?_ (main t) ?_
  · have := dot_real (hψ t).1 (w := vs t) ((hψ t).2.trans (hvs t).1.symm)
    rw [(hvs t).2] at this
    injection this
  · refine near_runs (us := fun t => entry (us t)) (vs := fun t => entry (vs t)) sim (by positivity) (fun _ => (rate _).1)
      (fun t => (rate _).2.2) r0 r1 Lpos hr (fun t i hi => ?_) (fun t i hi => ?_) (fun i hi => ?_) (fun t => (main t).2.2.1) D0 t
    · rw [hus, exactRun_succ _ _ _ _ t hi, value_realFeatures _ hi, inner_realFeatures]
    · rw [hex t i hi, inner_eq, (hψ t).2]
    · rw [(hw i hi).2]
      exact h0 i hi

section
variable {B B' I I' : Type} [Space B] [Basis B I (FP M)] [Space B'] [Basis B' I' ℝ]

/-- SGD in `f64` on features `φ` of length at most `A` that are off by at most `ρ A`, beside exact SGD on the exact features `ψ`, with
`l A² ≤ 2` and `l A |y| ≤ D` in every call, on inputs for which `L` exact calls always contract by `r`, where
`L (8 k + 11) 2^-50 ≤ 1 - r` and `8 L ρ ≤ 1 - r`. For ever: nothing overflows, the weights stay within a fixed `E` of exact training,
and the predictions within `4 A E` (up to `2^-1034`). -/
theorem C185_sgd (hM : M.rnd = binary64Format.rnd) (n k L : Nat)
    (fas : Nat → ScalarLFA B (SGD (FP M)) (FP M)) (gas : Nat → ScalarLFA B' (SGD ℝ) ℝ) (xs : Nat → I) (xs' : Nat → I')
    (ys ps : Nat → FP M) (qs : Nat → ℝ) (hs : Stream fas xs ys ps) (hg : Stream gas xs' (fun k => real (ys k)) qs)
    (φ : Nat → Features (FP M)) (ψ : Nat → Features ℝ)
    (hφ : ∀ k, Basis.project (fas 0).basis (xs k) = .ok (.ok (φ k)) ∧ Fits n (φ k))
    (hψ : ∀ k, Basis.project (gas 0).basis (xs' k) = .ok (.ok (ψ k)) ∧ Fits n (ψ k))
    (hn : (fas 0).weights.length = n) (hm : (gas 0).weights.length = n)
    (hw : ∀ i < n, Bounded (2 ^ 100) (entry (fas 0).weights i) ∧ entry (gas 0).weights i = real (entry (fas 0).weights i))
    (hlr : Is (fas 0).optimiser.lr (gas 0).optimiser.lr) (l0 : 0 ≤ (gas 0).optimiser.lr) (l1 : (gas 0).optimiser.lr ≤ 2 ^ 100)
    (hmod : ∀ t, Moderate n k (φ t) (ys t)) (A ρ : ℝ) (ρ0 : 0 ≤ ρ)
    (hf : ∀ t, len n (fun i => real (value (φ t) i)) ≤ A) (hA : ∀ t, √(normSq (ψ t)) ≤ A)
    (hv : ∀ t, len n (fun i => real (value (φ t) i) - value (ψ t) i) ≤ ρ * A) (h2 : (gas 0).optimiser.lr * A ^ 2 ≤ 2)
    (D : ℝ) (hD : ∀ t, (gas 0).optimiser.lr * A * |real (ys t)| ≤ D) (hD1 : D ≤ 2 ^ 190)
    (r : ℝ) (r0 : 0 ≤ r) (Lpos : 0 < L) (hr : Persistent n L (fun t => value (ψ t)) (fun _ => (gas 0).optimiser.lr) r)
    (hL : L * (8 * k + 11) * 2 ^ (-50 : ℤ) ≤ 1 - r) (hρ : 8 * (L * ρ) ≤ 1 - r) (W E : ℝ)
    (hW : W = 2 * len n (entry (gas 0).weights) + 20 * L * D / (1 - r))
    (hE : E = 20 * L * (((8 * k + 11) * 2 ^ (-53 : ℤ) + 4 * ρ) * (W + D) + 2 ^ (-800 : ℤ)) / (1 - r)) (t : Nat) :
    (∀ i < n, Spec.Finite (entry (fas t).weights i)) ∧ Spec.Finite (ps t) ∧
    len n (fun i => real (entry (fas t).weights i) - entry (gas t).weights i) ≤ E ∧
    |real (ps t) - qs t| ≤ 4 * (A * E) + 2 ^ (-1034 : ℤ) := by
  have run := sgd_trace hs hn hφ
  have run' := sgd_trace hg hm hψ
  exact sgd_near hM 1 n k L (fun t => (fas t).weights) (fun t => (gas t).weights) (fas 0).optimiser.lr (gas 0).optimiser.lr ys ps qs φ ψ
    (fun t => (hφ t).2) (fun t => (hψ t).2) (fun t => ⟨(run t).1.2.2, by rw [dotColumn_one]; exact (run t).2.1, (run t).2.2⟩)
    (fun t => ⟨(run' t).1.2.2, (run' t).2.1⟩) (exact_trace hg hm hψ) hw hlr l0 l1 hmod A ρ ρ0 hf hA hv h2 D hD hD1 r r0 Lpos hr hL hρ
    W E hW hE t

/-- ISGD with any nominal rate, where `l A² ≤ Z`: the errors of the features count `Z` times. -/
theorem C185_isgd (hM : M.rnd = binary64Format.rnd) (n k L : Nat)
    (fas : Nat → ScalarLFA B (ISGD (FP M)) (FP M)) (gas : Nat → ScalarLFA B' (ISGD ℝ) ℝ) (xs : Nat → I) (xs' : Nat → I')
    (ys ps : Nat → FP M) (qs : Nat → ℝ) (hs : Stream fas xs ys ps) (hg : Stream gas xs' (fun k => real (ys k)) qs)
    (φ : Nat → Features (FP M)) (ψ : Nat → Features ℝ)
    (hφ : ∀ k, Basis.project (fas 0).basis (xs k) = .ok (.ok (φ k)) ∧ Fits n (φ k))
    (hψ : ∀ k, Basis.project (gas 0).basis (xs' k) = .ok (.ok (ψ k)) ∧ Fits n (ψ k))
    (hn : (fas 0).weights.length = n) (hm : (gas 0).weights.length = n)
    (hw : ∀ i < n, Bounded (2 ^ 100) (entry (fas 0).weights i) ∧ entry (gas 0).weights i = real (entry (fas 0).weights i))
    (hlr : Is (fas 0).optimiser.lr (gas 0).optimiser.lr) (l0 : 0 ≤ (gas 0).optimiser.lr) (l1 : (gas 0).optimiser.lr ≤ 2 ^ 100)
    (hmod : ∀ t, Moderate n k (φ t) (ys t)) (A ρ Z : ℝ) (ρ0 : 0 ≤ ρ)
    (hf : ∀ t, len n (fun i => real (value (φ t) i)) ≤ A) (hA : ∀ t, √(normSq (ψ t)) ≤ A)
    (hv : ∀ t, len n (fun i => real (value (φ t) i) - value (ψ t) i) ≤ ρ * A) (Z1 : 1 ≤ Z)
    (h2 : (gas 0).optimiser.lr * A ^ 2 ≤ Z) (D : ℝ) (hD : ∀ t, (gas 0).optimiser.lr * A * |real (ys t)| ≤ D) (hD1 : D ≤ 2 ^ 190)
    (r : ℝ) (r0 : 0 ≤ r) (Lpos : 0 < L) (hr : Persistent n L (fun t => value (ψ t))
      (fun t => (gas 0).optimiser.lr / (1 + (gas 0).optimiser.lr * normSq (ψ t))) r)
    (hL : L * (12 * k + 25) * 2 ^ (-50 : ℤ) ≤ 1 - r) (hρ : 8 * (L * (Z * ρ)) ≤ 1 - r) (W E : ℝ)
    (hW : W = 2 * len n (entry (gas 0).weights) + 20 * L * D / (1 - r))
    (hE : E = 20 * L * (((12 * k + 25) * 2 ^ (-53 : ℤ) + 4 * (Z * ρ)) * (W + D) + 2 ^ (-500 : ℤ)) / (1 - r)) (t : Nat) :
    (∀ i < n, Spec.Finite (entry (fas t).weights i)) ∧ Spec.Finite (ps t) ∧
    len n (fun i => real (entry (fas t).weights i) - entry (gas t).weights i) ≤ E ∧
    |real (ps t) - qs t| ≤ 4 * (A * E) + 2 ^ (-1034 : ℤ) := by
  have run := isgd_trace hs hn hφ
  have run' := isgd_trace hg hm hψ
  exact isgd_near hM 1 n k L (fun t => (fas t).weights) (fun t => (gas t).weights) (fas 0).optimiser (gas 0).optimiser.lr ys ps qs φ ψ
    (fun t => (hφ t).2) (fun t => (hψ t).2) (fun t => ⟨(run t).1.2.2, by rw [dotColumn_one]; exact (run t).2.1, (run t).2.2⟩)
    (fun t => ⟨(run' t).1.2.2, (run' t).2.1⟩) (exact_isgd_trace hg hm hψ) hw hlr l0 l1 hmod A ρ Z ρ0 hf hA hv Z1 h2 D hD hD1 r r0
    Lpos hr hL hρ W E hW hE t

/-- The same for output `j` of several, trained with SGD. -/
theorem C185_sgd_outputs (hM : M.rnd = binary64Format.rnd) (m n k L : Nat)
    (fas : Nat → VectorLFA B (SGD (FP M)) (FP M)) (gas : Nat → VectorLFA B' (SGD ℝ) ℝ) (xs : Nat → I) (xs' : Nat → I')
    (ys ps : Nat → List (FP M)) (qs : Nat → List ℝ) (hs : VStream fas xs ys ps)
    (hg : VStream gas xs' (fun k => (ys k).map real) qs) (hm : (fas 0).nOutputs = m) (hm' : (gas 0).nOutputs = m)
    (hy : ∀ k, (ys k).length = m) (φ : Nat → Features (FP M)) (ψ : Nat → Features ℝ)
    (hφ : ∀ k, Basis.project (fas 0).basis (xs k) = .ok (.ok (φ k)) ∧ Fits n (φ k))
    (hψ : ∀ k, Basis.project (gas 0).basis (xs' k) = .ok (.ok (ψ k)) ∧ Fits n (ψ k))
    (hn : ∀ j < m, ((fas 0).weights.getD j []).length = n ∧ ((gas 0).weights.getD j []).length = n) (j : Nat) (hj : j < m)
    (hw : ∀ i < n, Bounded (2 ^ 100) (entry ((fas 0).weights.getD j []) i) ∧
      entry ((gas 0).weights.getD j []) i = real (entry ((fas 0).weights.getD j []) i))
    (hlr : Is (fas 0).optimiser.lr (gas 0).optimiser.lr) (l0 : 0 ≤ (gas 0).optimiser.lr) (l1 : (gas 0).optimiser.lr ≤ 2 ^ 100)
    (hmod : ∀ t, Moderate n k (φ t) (entry (ys t) j)) (A ρ : ℝ) (ρ0 : 0 ≤ ρ)
    (hf : ∀ t, len n (fun i => real (value (φ t) i)) ≤ A) (hA : ∀ t, √(normSq (ψ t)) ≤ A)
    (hv : ∀ t, len n (fun i => real (value (φ t) i) - value (ψ t) i) ≤ ρ * A)
    (h2 : (gas 0).optimiser.lr * A ^ 2 ≤ 2)
    (D : ℝ) (hD : ∀ t, (gas 0).optimiser.lr * A * |real (entry (ys t) j)| ≤ D) (hD1 : D ≤ 2 ^ 190)
    (r : ℝ) (r0 : 0 ≤ r) (Lpos : 0 < L) (hr : Persistent n L (fun t => value (ψ t)) (fun _ => (gas 0).optimiser.lr) r)
    (hL : L * (8 * k + 11) * 2 ^ (-50 : ℤ) ≤ 1 - r) (hρ : 8 * (L * ρ) ≤ 1 - r) (W E : ℝ)
    (hW : W = 2 * len n (entry ((gas 0).weights.getD j [])) + 20 * L * D / (1 - r))
    (hE : E = 20 * L * (((8 * k + 11) * 2 ^ (-53 : ℤ) + 4 * ρ) * (W + D) + 2 ^ (-800 : ℤ)) / (1 - r)) (t : Nat) :
    (∀ i < n, Spec.Finite (entry ((fas t).weights.getD j []) i)) ∧ Spec.Finite (entry (ps t) j) ∧
    len n (fun i => real (entry ((fas t).weights.getD j []) i) - entry ((gas t).weights.getD j []) i) ≤ E ∧
    |real (entry (ps t) j) - entry (qs t) j| ≤ 4 * (A * E) + 2 ^ (-1034 : ℤ) := by
  have run := fun t => (vector_trace C64_stateless.1 (fun o _ => o.lr) sgd_scaled hs hm hy (fun j hj => (hn j hj).1) hφ t).2 j hj
  have ho := exact_output C64_stateless.1 hg hm' hy hj
  have run' := sgd_trace ho (hn j hj).2 hψ
  exact sgd_near hM m n k L (fun t => (fas t).weights.getD j []) (fun t => (gas t).weights.getD j []) (fas 0).optimiser.lr
    (gas 0).optimiser.lr (fun t => entry (ys t) j) (fun t => entry (ps t) j) (fun t => entry (qs t) j) φ ψ
    (fun t => (hφ t).2) (fun t => (hψ t).2) run (fun t => ⟨(run' t).1.2.2, (run' t).2.1⟩) (exact_trace ho (hn j hj).2 hψ)
    hw hlr l0 l1 hmod A ρ ρ0 hf hA hv h2 D hD hD1 r r0 Lpos hr hL hρ W E hW hE t

/-- The same for output `j` of several, trained with ISGD. -/
theorem C185_isgd_outputs (hM : M.rnd = binary64Format.rnd) (m n k L : Nat)
    (fas : Nat → VectorLFA B (ISGD (FP M)) (FP M)) (gas : Nat → VectorLFA B' (ISGD ℝ) ℝ) (xs : Nat → I) (xs' : Nat → I')
    (ys ps : Nat → List (FP M)) (qs : Nat → List ℝ) (hs : VStream fas xs ys ps)
    (hg : VStream gas xs' (fun k => (ys k).map real) qs) (hm : (fas 0).nOutputs = m) (hm' : (gas 0).nOutputs = m)
    (hy : ∀ k, (ys k).length = m) (φ : Nat → Features (FP M)) (ψ : Nat → Features ℝ)
    (hφ : ∀ k, Basis.project (fas 0).basis (xs k) = .ok (.ok (φ k)) ∧ Fits n (φ k))
    (hψ : ∀ k, Basis.project (gas 0).basis (xs' k) = .ok (.ok (ψ k)) ∧ Fits n (ψ k))
    (hn : ∀ j < m, ((fas 0).weights.getD j []).length = n ∧ ((gas 0).weights.getD j []).length = n) (j : Nat) (hj : j < m)
    (hw : ∀ i < n, Bounded (2 ^ 100) (entry ((fas 0).weights.getD j []) i) ∧
      entry ((gas 0).weights.getD j []) i = real (entry ((fas 0).weights.getD j []) i))
    (hlr : Is (fas 0).optimiser.lr (gas 0).optimiser.lr) (l0 : 0 ≤ (gas 0).optimiser.lr) (l1 : (gas 0).optimiser.lr ≤ 2 ^ 100)
    (hmod : ∀ t, Moderate n k (φ t) (entry (ys t) j)) (A ρ Z : ℝ) (ρ0 : 0 ≤ ρ)
    (hf : ∀ t, len n (fun i => real (value (φ t) i)) ≤ A) (hA : ∀ t, √(normSq (ψ t)) ≤ A)
    (hv : ∀ t, len n (fun i => real (value (φ t) i) - value (ψ t) i) ≤ ρ * A) (Z1 : 1 ≤ Z)
    (h2 : (gas 0).optimiser.lr * A ^ 2 ≤ Z)
    (D : ℝ) (hD : ∀ t, (gas 0).optimiser.lr * A * |real (entry (ys t) j)| ≤ D) (hD1 : D ≤ 2 ^ 190)
    (r : ℝ) (r0 : 0 ≤ r) (Lpos : 0 < L) (hr : Persistent n L (fun t => value (ψ t)) 
      (fun t => (gas 0).optimiser.lr / (1 + (gas 0).optimiser.lr * normSq (ψ t))) r)
    (hL : L * (12 * k + 25) * 2 ^ (-50 : ℤ) ≤ 1 - r) (hρ : 8 * (L * (Z * ρ)) ≤ 1 - r) (W E : ℝ)
    (hW : W = 2 * len n (entry ((gas 0).weights.getD j [])) + 20 * L * D / (1 - r))
    (hE : E = 20 * L * (((12 * k + 25) * 2 ^ (-53 : ℤ) + 4 * (Z * ρ)) * (W + D) + 2 ^ (-500 : ℤ)) / (1 - r)) (t : Nat) :
    (∀ i < n, Spec.Finite (entry ((fas t).weights.getD j []) i)) ∧ Spec.Finite (entry (ps t) j) ∧
    len n (fun i => real (entry ((fas t).weights.getD j []) i) - entry ((gas t).weights.getD j []) i) ≤ E ∧
    |real (entry (ps t) j) - entry (qs t) j| ≤ 4 * (A * E) + 2 ^ (-1034 : ℤ) := by
  have run := fun t => (vector_trace C64_stateless.2 (fun o φ => o.computeLr φ) isgd_scaled hs hm hy (fun j hj => (hn j hj).1) hφ t).2 j hj
  have ho := exact_output C64_stateless.2 hg hm' hy hj
  have run' := isgd_trace ho (hn j hj).2 hψ
  exact isgd_near hM m n k L (fun t => (fas t).weights.getD j []) (fun t => (gas t).weights.getD j []) (fas 0).optimiser
    (gas 0).optimiser.lr (fun t => entry (ys t) j) (fun t => entry (ps t) j) (fun t => entry (qs t) j) φ ψ
    (fun t => (hφ t).2) (fun t => (hψ t).2) run (fun t => ⟨(run' t).1.2.2, (run' t).2.1⟩) (exact_isgd_trace ho (hn j hj).2 hψ)
    hw hlr l0 l1 hmod A ρ Z ρ0 hf hA hv Z1 h2 D hD hD1 r r0 Lpos hr hL hρ W E hW hE t

/-! ## The shipped bases -/

/-- SGD on dense features that are off by at most `ρ top` and at most `top` in exact arithmetic. -/
theorem dense_forever (hM : M.rnd = binary64Format.rnd) {n L : Nat} (n0 : 0 < n) (n1 : n ≤ 2 ^ 40)
    (fas : Nat → ScalarLFA B (SGD (FP M)) (FP M)) (gas : Nat → ScalarLFA B' (SGD ℝ) ℝ) (xs : Nat → I) (xs' : Nat → I')
    (ys ps : Nat → FP M) (qs : Nat → ℝ) (hs : Stream fas xs ys ps) (hg : Stream gas xs' (fun k => real (ys k)) qs)
    (zs : Nat → List (FP M)) (fs : Nat → List ℝ) (hz : ∀ k, (zs k).length = n) (hfs : ∀ k, (fs k).length = n)
    (hφ : ∀ k, Basis.project (fas 0).basis (xs k) = .ok (.ok (.dense (zs k))))
    (hψ : ∀ k, Basis.project (gas 0).basis (xs' k) = .ok (.ok (.dense (fs k)))) {top ρ : ℝ} (t0 : 0 < top) (t1 : top ≤ 2 ^ 99)
    (ρ0 : 0 ≤ ρ) (h : ∀ k, ∀ i < n, ∃ r, Is (entry (zs k) i) r ∧ |r - entry (fs k) i| ≤ ρ * top)
    (hf : ∀ k, ∀ i < n, |entry (fs k) i| ≤ top)
    (hn : (fas 0).weights.length = n) (hm : (gas 0).weights.length = n)
    (hw : ∀ i < n, Bounded (2 ^ 100) (entry (fas 0).weights i) ∧ entry (gas 0).weights i = real (entry (fas 0).weights i))
    (hlr : Is (fas 0).optimiser.lr (gas 0).optimiser.lr) (l0 : 0 ≤ (gas 0).optimiser.lr) (l1 : (gas 0).optimiser.lr ≤ 2 ^ 100)
    (h2 : (gas 0).optimiser.lr * (n * top ^ 2) ≤ 3 / 2) (Y : ℝ) (hY : ∀ t, Bounded Y (ys t)) (hY1 : Y ≤ 2 ^ 100)
    (D : ℝ) (hD : D = 2 * ((gas 0).optimiser.lr * (√n * top)) * Y)
    (r : ℝ) (r0 : 0 ≤ r) (Lpos : 0 < L) (hr : Persistent n L (fun t => entry (fs t)) (fun _ => (gas 0).optimiser.lr) r)
    (hL : L * (8 * n + 11) * 2 ^ (-50 : ℤ) ≤ 1 - r) (hρ : 8 * (L * ρ) ≤ 1 - r) (W E : ℝ)
    (hW : W = 2 * len n (entry (gas 0).weights) + 20 * L * D / (1 - r))
    (hE : E = 20 * L * (((8 * n + 11) * 2 ^ (-53 : ℤ) + 4 * ρ) * (W + D) + 2 ^ (-800 : ℤ)) / (1 - r)) (t : Nat) :
    (∀ i < n, Spec.Finite (entry (fas t).weights i)) ∧ Spec.Finite (ps t) ∧
    len n (fun i => real (entry (fas t).weights i) - entry (gas t).weights i) ≤ E ∧
    |real (ps t) - qs t| ≤ 5 * (√n * top * E) + 2 ^ (-1034 : ℤ) := by
  set l := (gas 0).optimiser.lr
  have L1 : (1 : ℝ) ≤ L := by exact_mod_cast Lpos
  have hρ8 : ρ ≤ 1 / 8 := by nlinarith [mul_le_mul_of_nonneg_right L1 ρ0]
  have s0 : 0 ≤ √(n : ℝ) := Real.sqrt_nonneg _
  have ssq : √(n : ℝ) ^ 2 = n := Real.sq_sqrt n.cast_nonneg
  have Y0 : 0 ≤ Y := by
    obtain ⟨r, -, h⟩ := hY 0
    exact (abs_nonneg r).trans h
  have fφ : ∀ k, Fits n (.dense (zs k)) := fun k => ⟨trivial, hz k⟩
  have fψ : ∀ k, Fits n (.dense (fs k)) := fun k => ⟨trivial, hfs k⟩
  have near : ∀ k, len n (fun i => real (value (.dense (zs k)) i) - value (.dense (fs k)) i) ≤ √n * (ρ * top) := fun k => by
    rw [← len_const _ _ (mul_nonneg ρ0 t0.le)]
    refine len_mono fun i hi => ?_
    obtain ⟨r, h1, h2⟩ := h k i hi
    show |real (entry (zs k) i) - entry (fs k) i| ≤ _
    rw [is_real h1]
    exact h2
  have lψ : ∀ k, len n (value (.dense (fs k))) ≤ √n * top := fun k => by
    rw [← len_const _ _ t0.le]
    exact len_mono (g := fun _ => top) fun i hi => hf k i hi
  have lφ : ∀ k, len n (fun i => real (value (.dense (zs k)) i)) ≤ 9 / 8 * (√n * top) := fun k => by
    have := len_add_le n (fun i => real (value (.dense (zs k)) i) - value (.dense (fs k)) i) (value (.dense (fs k)))
    rw [len_congr (g := fun i => real (value (.dense (zs k)) i)) fun i _ => sub_add_cancel _ _] at this
    have h1 := mul_le_mul_of_nonneg_right hρ8 (mul_nonneg s0 t0.le)
    linarith [near k, lψ k]
  have q0 : 0 ≤ l * (√n * top) := mul_nonneg l0 (mul_nonneg s0 t0.le)
  have D0 : 0 ≤ D := by rw [hD]; positivity
  have r1 : r < 1 := by
    have : 0 < L * (8 * n + 11) * (2 : ℝ) ^ (-50 : ℤ) := by positivity
    linarith
  have d : 0 < 1 - r := by linarith
  obtain ⟨a1, a2, a3, a4⟩ := C185_sgd hM n n L fas gas xs xs' ys ps qs hs hg (fun k => .dense (zs k)) (fun k => .dense (fs k))
    (fun k => ⟨hφ k, fφ k⟩) (fun k => ⟨hψ k, fψ k⟩) hn hm hw hlr l0 l1
    (fun t => ⟨n1, ⟨(hz t).le, n1⟩, fun i x hx => by
      have hi : i < n := by
        rw [← hz t]
        exact (List.getElem?_eq_some_iff.1 hx).1
      obtain ⟨r, e1, e2⟩ := h t i hi
      have e3 : entry (zs t) i = x := by
        have : (zs t)[i]? = some x := hx
        simp [entry, this]
      rw [e3] at e1
      refine ⟨r, e1, ?_⟩
      have e4 := abs_add_le (r - entry (fs t) i) (entry (fs t) i)
      rw [sub_add_cancel] at e4
      have e5 := hf t i hi
      have e6 : (2 : ℝ) ^ 100 = 2 * 2 ^ 99 := by rw [pow_succ]; ring
      have e7 := mul_le_mul_of_nonneg_right hρ8 t0.le
      rw [e6]
      linarith, bounded_mono (hY t) hY1⟩)
    (9 / 8 * (√n * top)) ρ ρ0 lφ (fun k => by
      rw [len_value (fψ k)]
      have := lψ k
      have h1 := mul_nonneg s0 t0.le
      linarith) (fun k => by
      have h1 := mul_nonneg ρ0 (mul_nonneg s0 t0.le)
      refine (near k).trans ?_
      linarith) (by
      have e : l * (9 / 8 * (√n * top)) ^ 2 = 81 / 64 * (l * (n * top ^ 2)) := by
        linear_combination (81 / 64 * l * top ^ 2) * ssq
      rw [e]
      linarith) D (fun t => by
      obtain ⟨y, h1, h2⟩ := hY t
      rw [is_real h1, hD]
      calc l * (9 / 8 * (√n * top)) * |y| ≤ l * (9 / 8 * (√n * top)) * Y := by gcongr
        _ = 9 / 8 * (l * (√n * top)) * Y := by ring
        _ ≤ _ := by gcongr; norm_num) (by
      have e : (l * (√n * top)) ^ 2 ≤ (2 ^ 51) ^ 2 := by
        have e1 : (l * (√n * top)) ^ 2 = l * (l * (n * top ^ 2)) := by linear_combination (l ^ 2 * top ^ 2) * ssq
        rw [e1]
        have e2 := mul_le_mul l1 h2 (by positivity) (by positivity)
        refine e2.trans ?_
        norm_num
      have e3 := abs_le_of_sq_le_sq' e (by positivity) |>.2
      rw [hD]
      calc 2 * (l * (√n * top)) * Y ≤ 2 * 2 ^ 51 * 2 ^ 100 := by gcongr
        _ ≤ 2 ^ 190 := by norm_num) r r0 Lpos hr hL hρ W E hW hE t
  refine ⟨a1, a2, a3, a4.trans ?_⟩
  have E0 : 0 ≤ E := (len_nonneg n _).trans a3
  have := mul_nonneg (mul_nonneg s0 t0.le) E0
  linarith

end

/-- What the theorems about the shipped bases assume of the two runs: the same `n` weights at the start, each at most `2^100`; the same
rate with `l n top² ≤ 3 / 2`; targets of at most `Y`. -/
structure Spec.Together {B B' I I' : Type} [Space B] [Basis B I (FP M)] [Space B'] [Basis B' I' ℝ] (n : Nat) (top Y : ℝ)
    (fas : Nat → ScalarLFA B (SGD (FP M)) (FP M)) (gas : Nat → ScalarLFA B' (SGD ℝ) ℝ) (xs : Nat → I) (xs' : Nat → I')
    (ys ps : Nat → FP M) (qs : Nat → ℝ) : Prop where
  stream : Stream fas xs ys ps
  exactStream : Stream gas xs' (fun k => real (ys k)) qs
  size : 0 < n ∧ n ≤ 2 ^ 40
  count : (fas 0).weights.length = n
  exactCount : (gas 0).weights.length = n
  start : ∀ i < n, Bounded (2 ^ 100) (entry (fas 0).weights i) ∧ entry (gas 0).weights i = real (entry (fas 0).weights i)
  rate : Is (fas 0).optimiser.lr (gas 0).optimiser.lr
  rateNonneg : 0 ≤ (gas 0).optimiser.lr
  rateBound : (gas 0).optimiser.lr ≤ 2 ^ 100
  rateStable : (gas 0).optimiser.lr * (n * top ^ 2) ≤ 3 / 2
  targets : ∀ t, Bounded Y (ys t)
  targetBound : Y ≤ 2 ^ 100

/-- Exact training on the features `ψ` contracts by `r` in every `L` calls, far enough below one for features that are off by a factor
`ρ`. -/
structure Spec.Exploring (n L : Nat) (l r ρ : ℝ) (ψ : Nat → Features ℝ) : Prop where
  factorNonneg : 0 ≤ r
  window : 0 < L
  persistent : Persistent n L (fun t => value (ψ t)) (fun _ => l) r
  rounding : L * (8 * n + 11) * 2 ^ (-50 : ℤ) ≤ 1 - r
  features : 8 * (L * ρ) ≤ 1 - r

/-- What the theorems about the shipped bases say of the two runs. -/
structure Spec.StayNear {B B' : Type} (n L : Nat) (top Y r ρ : ℝ)
    (fas : Nat → ScalarLFA B (SGD (FP M)) (FP M)) (gas : Nat → ScalarLFA B' (SGD ℝ) ℝ) (ps : Nat → FP M) (qs : Nat → ℝ) : Prop where
  finite : ∀ t, (∀ i < n, Spec.Finite (entry (fas t).weights i)) ∧ Spec.Finite (ps t)
  near : ∀ D W E : ℝ, D = 2 * ((gas 0).optimiser.lr * (√n * top)) * Y →
    W = 2 * len n (entry (gas 0).weights) + 20 * L * D / (1 - r) →
    E = 20 * L * (((8 * n + 11) * 2 ^ (-53 : ℤ) + 4 * ρ) * (W + D) + 2 ^ (-800 : ℤ)) / (1 - r) →
    ∀ t, len n (fun i => real (entry (fas t).weights i) - entry (gas t).weights i) ≤ E ∧
      |real (ps t) - qs t| ≤ 5 * (√n * top * E) + 2 ^ (-1034 : ℤ)

theorem dense_together {B B' I I' : Type} [Space B] [Basis B I (FP M)] [Space B'] [Basis B' I' ℝ]
    (hM : M.rnd = binary64Format.rnd) {n L : Nat} {top Y r ρ : ℝ}
    {fas : Nat → ScalarLFA B (SGD (FP M)) (FP M)} {gas : Nat → ScalarLFA B' (SGD ℝ) ℝ} {xs : Nat → I} {xs' : Nat → I'}
    {ys ps : Nat → FP M} {qs : Nat → ℝ} (hT : Together n top Y fas gas xs xs' ys ps qs) {ψ : Nat → Features ℝ}
    (hψ : ∀ k, Basis.project (gas 0).basis (xs' k) = .ok (.ok (ψ k))) (hX : Exploring n L (gas 0).optimiser.lr r ρ ψ)
    (t0 : 0 < top) (t1 : top ≤ 2 ^ 99) (ρ0 : 0 ≤ ρ)
    (h : ∀ k, ∃ (zs : List (FP M)) (fs : List ℝ), zs.length = n ∧ fs.length = n ∧
      Basis.project (fas 0).basis (xs k) = .ok (.ok (.dense zs)) ∧ Basis.project (gas 0).basis (xs' k) = .ok (.ok (.dense fs)) ∧
      ∀ i < n, (∃ r, Is (entry zs i) r ∧ |r - entry fs i| ≤ ρ * top) ∧ |entry fs i| ≤ top) :
    StayNear n L top Y r ρ fas gas ps qs := by
  choose zs fs hz hf hp hq hc using h
  have e : ∀ k, ψ k = .dense (fs k) := fun k => by
    have := hq k
    rw [hψ k] at this
    simpa using this
  have hr := hX.persistent
  simp only [e] at hr
  have key := fun D W E hD hW hE t => dense_forever hM (n := n) (L := L) hT.size.1 hT.size.2 fas gas xs xs' ys ps qs hT.stream hT.exactStream zs fs hz hf hp hq
    t0 t1 ρ0 (fun k i hi => (hc k i hi).1) (fun k i hi => (hc k i hi).2) hT.count hT.exactCount hT.start hT.rate hT.rateNonneg
    hT.rateBound hT.rateStable Y hT.targets hT.targetBound D hD r hX.factorNonneg hX.window hr hX.rounding hX.features W E hW hE t
  exact ⟨fun t => ⟨(key _ _ _ rfl rfl rfl t).1, (key _ _ _ rfl rfl rfl t).2.1⟩,
    fun D W E hD hW hE t => (key D W E hD hW hE t).2.2⟩

theorem dense_indices {es : List (List Nat)} {zs : List (FP M)} {f : List Nat → ℝ} {b : List Nat → ℝ} {δ : ℝ}
    (h : List.Forall₂ (fun e y => ∃ r, Is y r ∧ |r - f e| ≤ b e) es zs) (hb : ∀ e ∈ es, b e ≤ δ) (hf : ∀ e ∈ es, |f e| ≤ 1) :
    ∀ i < es.length, (∃ r, Is (entry zs i) r ∧ |r - entry (es.map f) i| ≤ δ * 1) ∧ |entry (es.map f) i| ≤ 1 := by
  intro i hi
  have hl := h.length_eq
  have hi' : i < zs.length := hl ▸ hi
  obtain ⟨r, hr, he⟩ := (List.forall₂_iff_get.1 h).2 i hi hi'
  have e1 : entry zs i = zs[i] := by simp [entry, hi']
  have e2 : entry (es.map f) i = f es[i] := by simp [entry, hi]
  simp only [List.get_eq_getElem] at hr he
  rw [e1, e2, mul_one]
  exact ⟨⟨r, hr, he.trans (hb _ (List.getElem_mem hi))⟩, hf _ (List.getElem_mem hi)⟩

/-- Polynomial features of inputs in `[-1, 1]`. -/
theorem C185_polynomial (hM : M.rnd = binary64Format.rnd) (p d : Nat) (hd : 0 < d) (xs : Nat → Fin d → FP M)
    (hx : ∀ k j, InUnit (xs k j))
    (fas : Nat → ScalarLFA Polynomial (SGD (FP M)) (FP M)) (gas : Nat → ScalarLFA Polynomial (SGD ℝ) ℝ)
    (hb : (fas 0).basis = Polynomial.new d p) (hb' : (gas 0).basis = Polynomial.new d p)
    (ys ps : Nat → FP M) (qs : Nat → ℝ) (n L : Nat) (hn : n = (p + 1) ^ d - 1) (Y r : ℝ)
    (hT : Together n 1 Y fas gas (fun k => List.ofFn (xs k)) (fun k => List.ofFn fun j => real (xs k j)) ys ps qs)
    (ψ : Nat → Features ℝ)
    (hψ : ∀ k, Basis.project (Polynomial.new d p) (List.ofFn fun j => real (xs k j)) = .ok (.ok (ψ k)))
    (hX : Exploring n L (gas 0).optimiser.lr r (p * d * 2 ^ (-52 : ℤ)) ψ) :
    StayNear n L 1 Y r (p * d * 2 ^ (-52 : ℤ)) fas gas ps qs := by
  have hes := computeCoefficients_spec p d hd
  have hlen : (computeCoefficients p d).length = n := by rw [length_computeCoefficients p d hd, hn]
  obtain ⟨zs, hz⟩ := choose_near hes fun k => C96_polynomial hM p d hd (xs k) (hx k)
  refine dense_together hM hT (by rw [hb']; exact hψ) hX one_pos (one_le_pow₀ (by norm_num)) (by positivity) fun k =>
    ⟨zs k, (computeCoefficients p d).map (monomial fun j => real (xs k j)), ?_, by rw [List.length_map, hlen],
      by rw [hb]; exact (hz k).1, ?_, ?_⟩
  · rw [← hlen]
    exact (hz k).2.length_eq.symm
  · obtain ⟨es', h1, h2⟩ := C24_monomials p d hd fun j => real (xs k j)
    rw [hb', h2, C23_multi_indices_unique h1 hes]
  · rw [← hlen]
    refine dense_indices ((hz k).2.imp fun e y ⟨r, h1, _, h3⟩ => ⟨r, h1, h3⟩) (fun e he => ?_) (fun e he => ?_)
    · have h1 := sum_le_of_le (p := p) fun k hk => le_of_mem_computeCoefficients he k hk
      rw [length_of_mem_computeCoefficients he] at h1
      refine mul_le_mul_of_nonneg_right ?_ (by positivity)
      exact_mod_cast h1
    · unfold monomial
      rw [Finset.abs_prod]
      refine Finset.prod_le_one (fun j _ => abs_nonneg _) fun j _ => ?_
      rw [abs_pow]
      obtain ⟨r, h1, h2⟩ := hx k j
      have e2 : |real (xs k j)| ≤ 1 := by rw [is_real h1]; exact h2
      exact pow_le_one₀ (abs_nonneg _) e2

/-- Fourier features of inputs within the limits, with a `cos` accurate to `ε` before rounding. -/
theorem C185_fourier (hM : M.rnd = binary64Format.rnd) (ε : ℝ) (hε : ∀ r, |M.cos r - Real.cos r| ≤ ε) (p d : Nat)
    (hp : p ≤ 255) (hd : 0 < d) (hd' : d ≤ 2 ^ 40) (lo hi : Fin d → FP M) (xs : Nat → Fin d → FP M)
    (hx : ∀ k j, Within (xs k j) (lo j) (hi j))
    (fas : Nat → ScalarLFA (Fourier (FP M)) (SGD (FP M)) (FP M)) (gas : Nat → ScalarLFA (Fourier ℝ) (SGD ℝ) ℝ)
    (hb : (fas 0).basis = Fourier.new p (List.ofFn fun j => (lo j, hi j)))
    (hb' : (gas 0).basis = Fourier.new p (List.ofFn fun j => (real (lo j), real (hi j))))
    (ys ps : Nat → FP M) (qs : Nat → ℝ) (n L : Nat) (hn : n = (p + 1) ^ d - 1) (Y r : ℝ)
    (hT : Together n 1 Y fas gas (fun k => List.ofFn (xs k)) (fun k => List.ofFn fun j => real (xs k j)) ys ps qs)
    (ψ : Nat → Features ℝ) (hψ : ∀ k, Basis.project (gas 0).basis (List.ofFn fun j => real (xs k j)) = .ok (.ok (ψ k)))
    (hX : Exploring n L (gas 0).optimiser.lr r (ε + (2 + Real.pi * (2 * d + 6) * (p * d)) * roundoff) ψ) :
    StayNear n L 1 Y r (ε + (2 + Real.pi * (2 * d + 6) * (p * d)) * roundoff) fas gas ps qs := by
  have hes := computeCoefficients_spec p d hd
  have hu := roundoff_pos
  have hpi := Real.pi_pos
  have hε0 : 0 ≤ ε := (abs_nonneg _).trans (hε 0)
  have hlen : (computeCoefficients p d).length = n := by rw [length_computeCoefficients p d hd, hn]
  obtain ⟨zs, hz⟩ := choose_near hes fun k => C167_fourier hM ε hε p d hp hd hd' lo hi (xs k) (hx k)
  refine dense_together hM hT hψ hX one_pos (one_le_pow₀ (by norm_num)) (by positivity) fun k =>
    ⟨zs k, (computeCoefficients p d).map
      (fourierFeature (unit (fun j => real (lo j)) (fun j => real (hi j)) fun j => real (xs k j))), ?_, by rw [List.length_map, hlen],
      by rw [hb]; exact (hz k).1, ?_, ?_⟩
  · rw [← hlen]
    exact (hz k).2.length_eq.symm
  · obtain ⟨es', h1, h2⟩ := C28_features p d hd (fun j => real (lo j)) (fun j => real (hi j)) fun j => real (xs k j)
    rw [hb', h2, C23_multi_indices_unique h1 hes]
  · rw [← hlen]
    refine dense_indices (hz k).2 (fun e he => ?_) (fun e he => ?_)
    · have h1 := sum_le_of_le (p := p) fun k hk => le_of_mem_computeCoefficients he k hk
      rw [length_of_mem_computeCoefficients he] at h1
      have h2 : ((e.sum : ℕ) : ℝ) ≤ p * d := by exact_mod_cast h1
      gcongr
    · unfold fourierFeature
      exact Real.abs_cos_le_one _

/-- Chebyshev features of inputs within the limits. -/
theorem C185_chebyshev (hM : M.rnd = binary64Format.rnd) (p d : Nat)
    (hp : p ≤ 11) (hd : 0 < d) (hd' : d ≤ 2 ^ 32) (lo hi : Fin d → FP M) (xs : Nat → Fin d → FP M)
    (hx : ∀ k j, Within (xs k j) (lo j) (hi j))
    (fas : Nat → ScalarLFA (Chebyshev (FP M)) (SGD (FP M)) (FP M)) (gas : Nat → ScalarLFA (Chebyshev ℝ) (SGD ℝ) ℝ)
    (hb : Chebyshev.new p (List.ofFn fun j => (lo j, hi j)) = .ok (fas 0).basis)
    (hb' : Chebyshev.new p (List.ofFn fun j => (real (lo j), real (hi j))) = .ok (gas 0).basis)
    (ys ps : Nat → FP M) (qs : Nat → ℝ) (n L : Nat) (hn : n = (p + 1) ^ d - 1) (Y r : ℝ)
    (hT : Together n 1 Y fas gas (fun k => List.ofFn (xs k)) (fun k => List.ofFn fun j => real (xs k j)) ys ps qs)
    (ψ : Nat → Features ℝ) (hψ : ∀ k, Basis.project (gas 0).basis (List.ofFn fun j => real (xs k j)) = .ok (.ok (ψ k)))
    (hX : Exploring n L (gas 0).optimiser.lr r (d * (3 ^ p + 8 * p ^ 2 + 1) * 2 ^ (-52 : ℤ)) ψ) :
    StayNear n L 1 Y r (d * (3 ^ p + 8 * p ^ 2 + 1) * 2 ^ (-52 : ℤ)) fas gas ps qs := by
  have hes := computeCoefficients_spec p d hd
  have hlen : (computeCoefficients p d).length = n := by rw [length_computeCoefficients p d hd, hn]
  have hnear : ∀ k, ∃ es zs, MultiIndices p d es ∧ Basis.project (fas 0).basis (List.ofFn (xs k)) = .ok (.ok (.dense zs)) ∧
      List.Forall₂ (fun e y => ∃ r, Is y r ∧
        |r - chebProduct (unit (fun j => real (lo j)) (fun j => real (hi j)) fun j => real (xs k j)) e| ≤
          (e.map fun n : ℕ => (3 : ℝ) ^ n + 8 * (n : ℝ) ^ 2 + 1).sum * 2 ^ (-52 : ℤ)) es zs := fun k => by
    obtain ⟨es, c, zs, h1, h2, h3, h4⟩ := C167_chebyshev hM p d hp hd hd' lo hi (xs k) (hx k)
    rw [hb] at h2
    cases h2
    exact ⟨es, zs, h1, h3, h4⟩
  obtain ⟨zs, hz⟩ := choose_near hes hnear
  have hex : ∀ k, Basis.project (gas 0).basis (List.ofFn fun j => real (xs k j)) = .ok (.ok (.dense ((computeCoefficients p d).map
      (chebProduct (unit (fun j => real (lo j)) (fun j => real (hi j)) fun j => real (xs k j)))))) := fun k => by
    obtain ⟨es', c, h1, h2, h3⟩ :=
      C26_features p d hp hd (fun j => real (lo j)) (fun j => real (hi j)) fun j => real (xs k j)
    rw [hb'] at h2
    cases h2
    rw [h3, C23_multi_indices_unique h1 hes]
  refine dense_together hM hT hψ hX one_pos (one_le_pow₀ (by norm_num)) (by positivity) fun k =>
    ⟨zs k, _, ?_, by rw [List.length_map, hlen], (hz k).1, hex k, ?_⟩
  · rw [← hlen]
    exact (hz k).2.length_eq.symm
  · rw [← hlen]
    refine dense_indices (hz k).2 (fun e he => ?_) (fun e he => ?_)
    · refine mul_le_mul_of_nonneg_right ?_ (by positivity)
      have h1 : ∀ v ∈ (e.map fun n : ℕ => (3 : ℝ) ^ n + 8 * (n : ℝ) ^ 2 + 1), v ≤ 3 ^ p + 8 * (p : ℝ) ^ 2 + 1 := by
        intro v hv
        obtain ⟨n, hn, rfl⟩ := List.mem_map.1 hv
        have hnp := le_of_mem_computeCoefficients he n hn
        have : (n : ℝ) ≤ p := by exact_mod_cast hnp
        have : (3 : ℝ) ^ n ≤ 3 ^ p := pow_le_pow_right₀ (by norm_num) hnp
        gcongr
      have := List.sum_le_card_nsmul _ _ h1
      rw [List.length_map, length_of_mem_computeCoefficients he, nsmul_eq_mul] at this
      exact this
    · have hlim : ∀ j, real (lo j) < real (hi j) ∧ real (lo j) ≤ real (xs k j) ∧ real (xs k j) ≤ real (hi j) := fun j => by
        obtain ⟨l1, l2, l3, -⟩ := rescale_err hM (hx k j)
        have l4 : 0 < real (hi j) - real (lo j) := sub_pos.2 l1
        rw [le_div_iff₀ l4, zero_mul] at l2
        rw [div_le_one l4] at l3
        exact ⟨l1, by linarith, by linarith⟩
      obtain ⟨c', fs, g1, g2, g3⟩ := C26_bounded p d hp hd (fun j => real (lo j)) (fun j => real (hi j))
        (fun j => real (xs k j)) (fun j => (hlim j).1) (fun j => (hlim j).2)
      rw [hb'] at g1
      cases g1
      rw [hex] at g2
      cases g2
      exact g3 _ (List.mem_map_of_mem he)

/-- Kernels other than `Cosine`, with an `exp` accurate to a factor `1 ± ε` before rounding. -/
theorem C185_stationary (hM : M.rnd = binary64Format.rnd) {ε : ℝ} (hε : ExpWithin M ε) (hε1 : ε ≤ 1 / 100)
    {kind : StationaryKind} (hk : kind ≠ .cosine) (v : FP M) (ls : List (FP M)) {V : ℝ} (hv : Is v V)
    (hV : |V| * peak kind ≤ 2 ^ 99) (hV' : |V| ≤ 2 ^ 400)
    (cs : List (List (FP M))) (xs : Nat → List (FP M))
    (hx : ∀ t, ∀ c ∈ cs, Comparable ls (xs t) c ∧ exactDistance ls (xs t) c ≤ 2 ^ 200)
    (fas : Nat → ScalarLFA (KernelBasis (Stationary kind (FP M)) (FP M)) (SGD (FP M)) (FP M))
    (gas : Nat → ScalarLFA (KernelBasis (Stationary kind ℝ) ℝ) (SGD ℝ) ℝ)
    (hb : (fas 0).basis = KernelBasis.homogeneous cs (⟨v, ls⟩ : Stationary kind (FP M)))
    (hb' : (gas 0).basis = KernelBasis.homogeneous (cs.map fun c => c.map real) (⟨V, ls.map real⟩ : Stationary kind ℝ))
    (ys ps : Nat → FP M) (qs : Nat → ℝ) (n L : Nat) (hn : n = cs.length) (Y r ρ : ℝ)
    (hT : Together n (|V| * peak kind) Y fas gas xs (fun t => (xs t).map real) ys ps qs)
    (hρ : |V| * (6 / 5 * ε + (5 * ls.length + 40) * roundoff) + 3 * tiny ≤ ρ * (|V| * peak kind))
    (ψ : Nat → Features ℝ) (hψ : ∀ t, Basis.project (gas 0).basis ((xs t).map real) = .ok (.ok (ψ t)))
    (hX : Exploring n L (gas 0).optimiser.lr r ρ ψ) :
    StayNear n L (|V| * peak kind) Y r ρ fas gas ps qs := by
  subst hn
  have hu := roundoff_pos
  have ht := tiny_pos
  have ε0 : 0 ≤ ε := by
    have := (abs_nonneg _).trans (hε 0 (le_refl _))
    rwa [Real.exp_zero, mul_one] at this
  have top0 : 0 ≤ |V| * peak kind := mul_nonneg (abs_nonneg V) (peak_nonneg kind)
  have δ0 : 0 < |V| * (6 / 5 * ε + (5 * ls.length + 40) * roundoff) + 3 * tiny :=
    add_pos_of_nonneg_of_pos (by positivity) (mul_pos (by norm_num) ht)
  have top1 : 0 < |V| * peak kind := by
    rcases top0.lt_or_eq with h | h
    · exact h
    · rw [← h, mul_zero] at hρ
      linarith
  have ρ0 : 0 ≤ ρ := (pos_of_mul_pos_left (δ0.trans_le hρ) top0).le
  refine dense_together hM hT hψ hX top1 hV ρ0 fun t =>
    ⟨cs.map fun c => SliceKernel.kernel (⟨v, ls⟩ : Stationary kind (FP M)) (xs t) c,
      cs.map fun c => V * profile kind (exactDistance ls (xs t) c), List.length_map _, List.length_map _,
      by rw [hb, project_homogeneous], ?_, fun i hi => ?_⟩
  · rw [hb', project_homogeneous_map]
    congr 4
    funext c
    show Stationary.kernelStationary _ (sliceDistance (ls.map real) ((xs t).map real) (c.map real)) = _
    rw [kernelStationary_real, sliceDistance_map]
  · have e1 : entry (cs.map fun c => SliceKernel.kernel (⟨v, ls⟩ : Stationary kind (FP M)) (xs t) c) i =
        SliceKernel.kernel (⟨v, ls⟩ : Stationary kind (FP M)) (xs t) cs[i] := by simp [entry, hi]
    have e2 : entry (cs.map fun c => V * profile kind (exactDistance ls (xs t) c)) i =
        V * profile kind (exactDistance ls (xs t) cs[i]) := by simp [entry, hi]
    obtain ⟨hc1, hc2⟩ := hx t _ (List.getElem_mem hi)
    obtain ⟨z, hz, he⟩ := stationary_err hM hε hε1 hk ⟨v, ls⟩ hv hV' (xs t) cs[i] hc1 hc2
    rw [e1, e2]
    refine ⟨⟨z, hz, he.trans hρ⟩, ?_⟩
    rw [abs_mul]
    exact mul_le_mul_of_nonneg_left (abs_profile_le kind (exactDistance_nonneg _ _ _)) (abs_nonneg V)

/-! ## Runs that meet the hypotheses -/

/-- One feature that is `c` in exact arithmetic and `1`, its rounding, in `f64`; rate `1/2`; any targets of at most `Y ≤ 2^100`. For
ever, the weight is finite and within `58650 Y 2^-53 + 2^-794` of exact training. -/
theorem C185_example (hM : M.rnd = binary64Format.rnd) (lr : FP M) (hl : Is lr (1 / 2)) (c : ℝ) (hc : |1 - c| ≤ roundoff)
    (ys : Nat → FP M) (Y : ℝ) (hY : Y ≤ 2 ^ 100) (hy : ∀ t, Bounded Y (ys t)) :
    ∃ (fas : Nat → ScalarLFA (FixedSparse (FP M)) (SGD (FP M)) (FP M)) (gas : Nat → ScalarLFA (FixedDense ℝ) (SGD ℝ) ℝ)
      (ps : Nat → FP M) (qs : Nat → ℝ),
      fas 0 = LFA.mk ⟨1, [0]⟩ [Scalar.zero] ⟨lr⟩ ∧ gas 0 = LFA.mk ⟨[c]⟩ [0] ⟨1 / 2⟩ ∧
      Stream fas (fun _ => ()) ys ps ∧ Stream gas (fun _ => ()) (fun t => real (ys t)) qs ∧
      ∀ t : Nat, Spec.Finite (entry (fas t).weights 0) ∧
        |real (entry (fas t).weights 0) - entry (gas t).weights 0| ≤ 58650 * Y * 2 ^ (-53 : ℤ) + 2 ^ (-794 : ℤ) := by
  have hp : Basis.project (⟨1, [0]⟩ : FixedSparse (FP M)) () =
      .ok (.ok (.sparse ⟨1, [(0, (Scalar.one : FP M))]⟩)) := rfl
  have hpr : Basis.project (⟨[c]⟩ : FixedDense ℝ) () = .ok (.ok (.dense [c])) := rfl
  have hf : Fits 1 (.sparse ⟨1, [(0, (Scalar.one : FP M))]⟩) := by
    refine ⟨⟨List.nodup_singleton _, fun e he => ?_⟩, rfl⟩
    rw [List.mem_singleton] at he
    subst he
    exact Nat.zero_lt_one
  have hf' : Fits 1 (.dense [c]) := ⟨trivial, rfl⟩
  obtain ⟨fas, ps, hs, h0⟩ := stream_any (O := SGD (FP M)) (⟨1, [0]⟩ : FixedSparse (FP M)) (n := 1) (fun _ => ()) ys
    (fun _ => ⟨_, hp, hf⟩) [Scalar.zero] rfl ⟨lr⟩ trivial
  obtain ⟨gas, qs, hg, hg0⟩ := stream_any (O := SGD ℝ) (⟨[c]⟩ : FixedDense ℝ) (n := 1) (fun _ => ())
    (fun t => real (ys t)) (fun _ => ⟨_, hpr, hf'⟩) [0] rfl ⟨1 / 2⟩ trivial
  have len1 : ∀ f : Nat → ℝ, len 1 f = |f 0| := fun f => by
    unfold len
    rw [Finset.sum_range_one, Real.sqrt_sq_eq_abs]
  have big : (1 : ℝ) ≤ 2 ^ 100 := one_le_pow₀ (by norm_num)
  have Y0 : 0 ≤ Y := by
    obtain ⟨r, -, h⟩ := hy 0
    exact (abs_nonneg r).trans h
  have hu : roundoff ≤ 1 / 100 := by unfold roundoff; norm_num
  have hu0 := roundoff_pos
  have hc2 := abs_le.1 hc
  have hval : ∀ φ : Features (FP M), φ = .sparse ⟨1, [(0, (Scalar.one : FP M))]⟩ → real (value φ 0) = 1 := fun φ h => by
    rw [h]
    show real (Scalar.one : FP M) = 1
    exact is_real val_one
  refine ⟨fas, gas, ps, qs, h0, hg0, hs, hg, fun t => ?_⟩
  obtain ⟨h1, -, h2, -⟩ := C185_sgd hM 1 1 1 fas gas (fun _ => ()) (fun _ => ()) ys ps qs hs hg
    (fun _ => .sparse ⟨1, [(0, (Scalar.one : FP M))]⟩) (fun _ => .dense [c])
    (fun _ => ⟨by rw [h0]; exact hp, hf⟩) (fun _ => ⟨by rw [hg0]; exact hpr, hf'⟩)
    (by rw [h0]; rfl) (by rw [hg0]; rfl) (fun i hi => by
      obtain rfl : i = 0 := by omega
      rw [h0, hg0]
      refine ⟨bounded_zero (by positivity), ?_⟩
      show (0 : ℝ) = real (Scalar.zero : FP M)
      rw [is_real val_zero]) (by rw [h0, hg0]; exact hl) (by rw [hg0]; norm_num)
    (by rw [hg0]; exact (by norm_num : (1 / 2 : ℝ) ≤ 1).trans big)
    (fun t => ⟨by norm_num, ⟨le_rfl, by norm_num⟩, fun i x hx => by
      obtain ⟨rfl, rfl⟩ := Prod.mk.inj (List.mem_singleton.1 hx)
      exact ⟨1, val_one, by rw [abs_one]; exact big⟩, bounded_mono (hy t) hY⟩)
    2 roundoff hu0.le (fun _ => by rw [len1, hval _ rfl]; norm_num) (fun _ => by
      rw [len_value hf', len1]
      show |c| ≤ 2
      rw [abs_le]
      constructor <;> linarith) (fun _ => by
      rw [len1, hval _ rfl]
      show |1 - c| ≤ _
      linarith) (by rw [hg0]; norm_num) Y (fun t => by
      obtain ⟨r, hr, h⟩ := hy t
      rw [hg0, is_real hr]
      linarith) (hY.trans (pow_le_pow_right₀ (by norm_num) (by norm_num)))
    (3 / 5) (by norm_num) Nat.zero_lt_one (fun s us hus => by
      have := hus 0 Nat.zero_lt_one 0 Nat.zero_lt_one
      rw [Finset.sum_range_one] at this
      have e : value (.dense [c] : Features ℝ) 0 = c := rfl
      simp only [e, hg0] at this
      rw [len1, len1]
      show |us (0 + 1) 0| ≤ _
      rw [this, show us 0 0 - 1 / 2 * (c * us 0 0) * c = (1 - c * c / 2) * us 0 0 by ring, abs_mul]
      refine mul_le_mul_of_nonneg_right ?_ (abs_nonneg _)
      rw [abs_le]
      constructor <;> nlinarith) (by norm_num) (by push_cast; linarith) _ _ rfl rfl t
  refine ⟨h1 0 Nat.zero_lt_one, ?_⟩
  rw [len1, len1, hg0, show entry [(0 : ℝ)] 0 = 0 from rfl, abs_zero] at h2
  refine h2.trans (le_of_eq_of_le ?_ (add_le_add le_rfl
    (show 50 * (2 : ℝ) ^ (-800 : ℤ) ≤ 2 ^ (-794 : ℤ) by
      rw [show (-794 : ℤ) = 6 + -800 by norm_num, zpow_add₀ (by norm_num)]
      exact mul_le_mul_of_nonneg_right (by norm_num) (by positivity))))
  rw [show roundoff = (2 : ℝ) ^ (-53 : ℤ) by rw [roundoff]]
  push_cast
  ring

/-- Order one, one input anywhere in `[1/2, 1]` in each call, rate one: the conclusions of `C185_polynomial` hold of some runs. -/
theorem C185_polynomial_example (hM : M.rnd = binary64Format.rnd) (lr : FP M) (hl : Is lr 1) (xs : Nat → FP M)
    (hx : ∀ t, ∃ r, Is (xs t) r ∧ 1 / 2 ≤ r ∧ r ≤ 1) (ys : Nat → FP M) (Y : ℝ) (hY : Y ≤ 2 ^ 100) (hy : ∀ t, Bounded Y (ys t)) :
    ∃ (fas : Nat → ScalarLFA Polynomial (SGD (FP M)) (FP M)) (gas : Nat → ScalarLFA Polynomial (SGD ℝ) ℝ)
      (ps : Nat → FP M) (qs : Nat → ℝ),
      fas 0 = LFA.mk (Polynomial.new 1 1) [Scalar.zero] ⟨lr⟩ ∧ gas 0 = LFA.mk (Polynomial.new 1 1) [0] ⟨1⟩ ∧
      Stream fas (fun t => [xs t]) ys ps ∧ Stream gas (fun t => [real (xs t)]) (fun t => real (ys t)) qs ∧
      StayNear 1 1 1 Y (3 / 4) (1 * 1 * 2 ^ (-52 : ℤ)) fas gas ps qs := by
  have hunit : ∀ t, InUnit (xs t) := fun t => by
    obtain ⟨r, h1, h2, h3⟩ := hx t
    exact ⟨r, h1, by rw [abs_le]; constructor <;> linarith⟩
  have hes := computeCoefficients_spec 1 1 Nat.zero_lt_one
  have hl1 : (computeCoefficients 1 1).length = 1 := length_computeCoefficients 1 1 Nat.zero_lt_one
  have hq : ∀ t, Basis.project (Polynomial.new 1 1) [real (xs t)] = .ok (.ok (.dense [real (xs t)])) := fun t => by
    obtain ⟨es, h1, h2⟩ := C24_monomials 1 1 Nat.zero_lt_one fun _ => real (xs t)
    have e : es = [[1]] := by
      rw [C23_multi_indices_unique h1 hes]
      decide
    rw [show List.ofFn (fun _ : Fin 1 => real (xs t)) = [real (xs t)] by simp, e] at h2
    rw [h2]
    simp [monomial]
  have hp : ∀ t, ∃ φ, Basis.project (Polynomial.new 1 1) [xs t] = .ok (.ok φ) ∧ Fits 1 φ := fun t => by
    obtain ⟨es, zs, h1, h2, h3⟩ := C96_polynomial hM 1 1 Nat.zero_lt_one (fun _ => xs t) (fun _ => hunit t)
    rw [show List.ofFn (fun _ : Fin 1 => xs t) = [xs t] by simp] at h2
    refine ⟨_, h2, trivial, ?_⟩
    show zs.length = 1
    rw [← h3.length_eq, C23_multi_indices_unique h1 hes]
    exact hl1
  obtain ⟨fas, ps, hs, h0⟩ := stream_any (O := SGD (FP M)) (Polynomial.new 1 1) (n := 1) (fun t => [xs t]) ys hp
    [Scalar.zero] rfl ⟨lr⟩ trivial
  obtain ⟨gas, qs, hg, hg0⟩ := stream_any (O := SGD ℝ) (Polynomial.new 1 1) (n := 1) (fun t => [real (xs t)])
    (fun t => real (ys t)) (fun t => ⟨_, hq t, trivial, rfl⟩) [0] rfl ⟨1⟩ trivial
  have len1 : ∀ f : Nat → ℝ, len 1 f = |f 0| := fun f => by
    unfold len
    rw [Finset.sum_range_one, Real.sqrt_sq_eq_abs]
  have big : (1 : ℝ) ≤ 2 ^ 100 := one_le_pow₀ (by norm_num)
  refine ⟨fas, gas, ps, qs, h0, hg0, hs, hg, ?_⟩
  have key := C185_polynomial hM 1 1 Nat.zero_lt_one (fun t _ => xs t) (fun t _ => hunit t) fas gas (by rw [h0]) (by rw [hg0]) ys ps qs
    1 1 rfl Y (3 / 4)
    ⟨by simpa using hs, by simpa using hg, ⟨Nat.zero_lt_one, by norm_num⟩, by rw [h0]; rfl, by rw [hg0]; rfl, fun i hi => by
      obtain rfl : i = 0 := by omega
      rw [h0, hg0]
      refine ⟨bounded_zero (by positivity), ?_⟩
      show (0 : ℝ) = real (Scalar.zero : FP M)
      rw [is_real val_zero], by rw [h0, hg0]; exact hl, by rw [hg0]; norm_num, by rw [hg0]; exact big,
      by rw [hg0]; norm_num, hy, hY⟩ (fun t => .dense [real (xs t)]) (fun t => by simpa using hq t)
    ⟨by norm_num, Nat.zero_lt_one, fun s us hus => by
      have := hus 0 Nat.zero_lt_one 0 Nat.zero_lt_one
      rw [Finset.sum_range_one] at this
      have e : ∀ x : ℝ, value (.dense [x] : Features ℝ) 0 = x := fun _ => rfl
      simp only [e, hg0] at this
      rw [len1, len1]
      show |us (0 + 1) 0| ≤ _
      obtain ⟨x, h1, h2, h3⟩ := hx (s + 0)
      rw [is_real h1] at this
      rw [this, show us 0 0 - 1 * (x * us 0 0) * x = (1 - x * x) * us 0 0 by ring, abs_mul]
      refine mul_le_mul_of_nonneg_right ?_ (abs_nonneg _)
      rw [abs_le]
      constructor <;> nlinarith, by norm_num, by norm_num⟩
  simpa using key

end

end Lfa

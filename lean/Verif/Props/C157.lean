import Verif.Props.C93_C94
import Verif.Props.C105
import Verif.Props.C107_C108
import Verif.Proofs.LinearStep
import Verif.Proofs.Sequence
import Mathlib.Analysis.SpecialFunctions.Exponential
import Mathlib.Algebra.Order.BigOperators.Ring.Finset

/-!
# C157: training in double precision follows training in exact arithmetic

`M` is any machine that rounds like `f64`; how sums are ordered is left open. A run of SGD in `f64` is compared with the
run in exact arithmetic on the same examples from the same weights. Exact steps never increase the distance of two weight
vectors (`lr ‖φ‖² ≤ 2`), so the rounding errors of the calls add up and are not amplified.
-/

set_option linter.unusedSectionVars false

namespace Lfa

open Spec Machine XReal

variable {M : Machine}

/-! ## Euclidean length -/

/-- The Euclidean length of the first `n` entries. -/
noncomputable def Spec.len (n : Nat) (f : Nat → ℝ) : ℝ := √(∑ i ∈ Finset.range n, f i ^ 2)

theorem len_nonneg (n : Nat) (f : Nat → ℝ) : 0 ≤ len n f := Real.sqrt_nonneg _

theorem len_sq (n : Nat) (f : Nat → ℝ) : len n f ^ 2 = ∑ i ∈ Finset.range n, f i ^ 2 :=
  Real.sq_sqrt (Finset.sum_nonneg fun _ _ => sq_nonneg _)

theorem sum_mul_le_len (n : Nat) (f g : Nat → ℝ) : ∑ i ∈ Finset.range n, f i * g i ≤ len n f * len n g := by
  have h := Finset.sum_mul_sq_le_sq_mul_sq (Finset.range n) f g
  rw [← len_sq, ← len_sq, ← mul_pow] at h
  exact (le_abs_self _).trans (abs_le_of_sq_le_sq h (mul_nonneg (len_nonneg _ _) (len_nonneg _ _)))

theorem len_add_le (n : Nat) (f g : Nat → ℝ) : len n (fun i => f i + g i) ≤ len n f + len n g := by
  refine abs_le_of_sq_le_sq' ?_ (add_nonneg (len_nonneg _ _) (len_nonneg _ _)) |>.2
  have e : len n (fun i => f i + g i) ^ 2 = len n f ^ 2 + 2 * ∑ i ∈ Finset.range n, f i * g i + len n g ^ 2 := by
    rw [len_sq, len_sq, len_sq, Finset.mul_sum, ← Finset.sum_add_distrib, ← Finset.sum_add_distrib]
    exact Finset.sum_congr rfl fun i _ => by ring
  nlinarith [sum_mul_le_len n f g]

theorem len_mono {n : Nat} {f g : Nat → ℝ} (h : ∀ i < n, |f i| ≤ g i) : len n f ≤ len n g := by
  refine Real.sqrt_le_sqrt (Finset.sum_le_sum fun i hi => ?_)
  rw [← sq_abs (f i)]
  exact pow_le_pow_left₀ (abs_nonneg _) (h i (Finset.mem_range.1 hi)) 2

theorem len_congr {n : Nat} {f g : Nat → ℝ} (h : ∀ i < n, f i = g i) : len n f = len n g := by
  unfold len
  rw [Finset.sum_congr rfl fun i hi => by rw [h i (Finset.mem_range.1 hi)]]

theorem len_smul {n : Nat} {c : ℝ} (hc : 0 ≤ c) (f : Nat → ℝ) : len n (fun i => c * f i) = c * len n f := by
  unfold len
  simp only [mul_pow]
  rw [← Finset.mul_sum, Real.sqrt_mul (sq_nonneg c), Real.sqrt_sq hc]

theorem len_abs (n : Nat) (f : Nat → ℝ) : len n (fun i => |f i|) = len n f := by
  unfold len
  simp only [sq_abs]

theorem len_const (n : Nat) (c : ℝ) (hc : 0 ≤ c) : len n (fun _ => c) = √n * c := by
  unfold len
  rw [Finset.sum_const, Finset.card_range, nsmul_eq_mul, Real.sqrt_mul (Nat.cast_nonneg n), Real.sqrt_sq hc]

/-! ## One call -/

/-- A finite difference comes from finite numbers and is accurate to one unit roundoff. -/
theorem sub_err (hM : M.rnd = binary64Format.rnd) {a b : FP M} {z : ℝ} (h : Is (a -. b) z) :
    ∃ x y, Is a x ∧ Is b y ∧ |z - (x - y)| ≤ roundoff * |x - y| := by
  have e : (a -. b) = a +. Scalar.neg b := fp_ext (by rw [val_sub, val_add, val_neg])
  rw [e] at h
  obtain ⟨x, y, hx, hy, h'⟩ := add_err hM h
  rw [Is, val_neg] at hy
  refine ⟨x, -y, hx, ?_, by rwa [sub_neg_eq_add]⟩
  rcases hb : b.1 with _ | _ | _ | r <;> rw [hb] at hy <;> simp only [XReal.neg] at hy
  · cases hy
  · cases hy
  · cases hy
  · injection hy with hy
    rw [Is, hb, ← hy, _root_.neg_neg]

/-- How far a prediction in `f64` can be from the exact inner product (C93). -/
noncomputable def Spec.predictionError (φ : Features (FP M)) (w : List (FP M)) : ℝ :=
  ((1 + roundoff) ^ storedCount φ - 1) * absDot φ w + storedCount φ * (1 + roundoff) ^ storedCount φ * tiny

theorem predictionError_nonneg (φ : Features (FP M)) (w : List (FP M)) : 0 ≤ predictionError φ w := by
  have hu := roundoff_pos
  have hτ := tiny_pos
  have p0 : 1 ≤ (1 + roundoff) ^ storedCount φ := one_le_pow₀ (by linarith)
  have : 0 ≤ absDot φ w := Finset.sum_nonneg fun _ _ => abs_nonneg _
  unfold predictionError
  have := mul_nonneg (sub_nonneg.2 p0) this
  positivity

/-- One weight after one call with rate `c`, against the exact step from the same weights. -/
theorem step_err (hM : M.rnd = binary64Format.rnd) {n : Nat} {c : FP M} {w w₁ : List (FP M)} {φ : Features (FP M)}
    (hφ : Fits n φ) {v y : FP M} (hv : ∀ r, Is v r → |r - exactDot φ w| ≤ predictionError φ w) {i : Nat}
    (h : (∀ a, Stored φ i a → entry w₁ i = (entry w i +. c *. (y -. v) *. a)) ∧
      (¬ Active φ i → entry w₁ i = entry w i)) (hz : Finite (entry w₁ i)) :
    |real (entry w₁ i) - (real (entry w i) + real c * (real y - exactDot φ w) * real (value φ i))| ≤
      roundoff * |real (entry w i)| + |real c| * |real (value φ i)| *
        (((1 + roundoff) ^ 4 - 1) * |real y - real v| + predictionError φ w) +
      (1 + roundoff) ^ 2 * (1 + |real (value φ i)|) * tiny := by
  have hu := roundoff_pos
  have hτ := tiny_pos
  obtain ⟨z, hz⟩ := hz
  obtain ⟨ω, δ, h1, h2, h3⟩ := sgd_event hM (⟨c⟩ : SGD (FP M)) hφ (y -. v) i h hz
  rw [is_real hz, is_real h1]
  dsimp only at h3
  have key : |real c * real (y -. v) * real (value φ i) - real c * (real y - real v) * real (value φ i)| ≤
      roundoff * |real c * (real y - real v) * real (value φ i)| ∧
      |real c * (real y - real v) * real (value φ i) - real c * (real y - exactDot φ w) * real (value φ i)| ≤
        |real c| * |real (value φ i)| * predictionError φ w := by
    by_cases ha : Active φ i
    · obtain ⟨a, ha⟩ := ha
      rw [h.1 a ha] at hz
      obtain ⟨_, d, -, hd, -⟩ := add_err hM hz
      obtain ⟨q, -, hq, -, -⟩ := mul_err hM hd
      obtain ⟨-, s, -, hs, -⟩ := mul_err hM hq
      obtain ⟨y', v', hy, hv', he⟩ := sub_err hM hs
      have hd := hv _ hv'
      rw [is_real hs, is_real hy, is_real hv']
      constructor
      · have e : real c * s * real (value φ i) - real c * (y' - v') * real (value φ i) =
          real c * real (value φ i) * (s - (y' - v')) := by ring
        have e2 : real c * (y' - v') * real (value φ i) = real c * real (value φ i) * (y' - v') := by ring
        rw [e, e2, abs_mul, abs_mul _ (y' - v')]
        have := mul_le_mul_of_nonneg_left he (abs_nonneg (real c * real (value φ i)))
        linarith
      · have e : real c * (y' - v') * real (value φ i) - real c * (y' - exactDot φ w) * real (value φ i) =
          real c * real (value φ i) * (-(v' - exactDot φ w)) := by ring
        rw [e, abs_mul, abs_mul (real c), abs_neg]
        exact mul_le_mul_of_nonneg_left hd (by positivity)
    · have : real (value φ i) = 0 := by
        have : value φ i = Scalar.zero := by
          cases φ with
          | dense da =>
            show entry da i = _
            refine entry_of_ge ?_
            by_contra hc
            exact ha (active_dense (not_le.1 hc))
          | sparse sa =>
            rw [value_sparse, (not_active_sparse_iff hφ.1.1 i).1 ha]; rfl
        rw [this, real_zero']
      rw [this]
      simp
  obtain ⟨k1, k2⟩ := key
  have e4 : |real c * (real y - real v) * real (value φ i)| = |real c| * |real (value φ i)| * |real y - real v| := by
    rw [abs_mul, abs_mul]; ring
  set A := real c * real (y -. v) * real (value φ i) with hA
  set C := real c * (real y - real v) * real (value φ i) with hC
  set E := real c * (real y - exactDot φ w) * real (value φ i) with hE
  have b1 : |A| ≤ (1 + roundoff) * |C| := by
    have := abs_add_le (A - C) C
    rw [sub_add_cancel] at this
    linarith
  have b2 : |δ - C| ≤ ((1 + roundoff) ^ 3 - 1) * |C| + (1 + roundoff) * (1 + |real (value φ i)|) * tiny := by
    have := abs_sub_le δ A C
    have p : 0 ≤ (1 + roundoff) ^ 2 - 1 := by nlinarith
    have := mul_le_mul_of_nonneg_left b1 p
    nlinarith
  have b3 : |δ| ≤ (1 + roundoff) ^ 3 * |C| + (1 + roundoff) * (1 + |real (value φ i)|) * tiny := by
    have := abs_add_le (δ - C) C
    rw [sub_add_cancel] at this
    linarith
  have b4 : |z - (ω + E)| ≤ |z - (ω + δ)| + (|δ - C| + |C - E|) := by
    have e : z - (ω + E) = (z - (ω + δ)) + ((δ - C) + (C - E)) := by ring
    rw [e]
    exact (abs_add_le _ _).trans (add_le_add_right (abs_add_le _ _) _)
  have b5 : |z - (ω + δ)| ≤ roundoff * |ω| + roundoff * |δ| := by
    refine h2.trans ?_
    rw [← mul_add]
    exact mul_le_mul_of_nonneg_left (abs_add_le _ _) hu.le
  have b6 := mul_le_mul_of_nonneg_left b3 hu.le
  have b7 : |real c| * |real (value φ i)| * (((1 + roundoff) ^ 4 - 1) * |real y - real v| + predictionError φ w) =
      ((1 + roundoff) ^ 4 - 1) * |C| + |real c| * |real (value φ i)| * predictionError φ w := by
    rw [e4]; ring
  rw [b7]
  have b8 : (1 + roundoff) ^ 2 * (1 + |real (value φ i)|) * tiny =
      roundoff * ((1 + roundoff) * (1 + |real (value φ i)|) * tiny) + (1 + roundoff) * (1 + |real (value φ i)|) * tiny := by
    ring
  rw [b8]
  have b9 : ((1 + roundoff) ^ 4 - 1) * |C| = roundoff * ((1 + roundoff) ^ 3 * |C|) + ((1 + roundoff) ^ 3 - 1) * |C| := by
    ring
  rw [b9]
  linarith

/-- What rounding can add to the weights in one call with rate `c`, prediction `v` and target `y` (Euclidean length). -/
noncomputable def Spec.callError (n : Nat) (c : FP M) (φ : Features (FP M)) (w : List (FP M)) (y v : FP M) : ℝ :=
  roundoff * len n (fun i => real (entry w i)) + |real c| * len n (fun i => real (value φ i)) *
    (((1 + roundoff) ^ 4 - 1) * |real y - real v| + predictionError φ w) +
  (1 + roundoff) ^ 2 * (√n + len n fun i => real (value φ i)) * tiny

theorem callError_nonneg (n : Nat) (c : FP M) (φ : Features (FP M)) (w : List (FP M)) (y v : FP M) :
    0 ≤ callError n c φ w y v := by
  have hu := roundoff_pos
  have hτ := tiny_pos
  have p0 : 0 ≤ (1 + roundoff) ^ 4 - 1 := sub_nonneg.2 (one_le_pow₀ (by linarith))
  have h1 := len_nonneg n fun i => real (entry w i)
  have h2 := len_nonneg n fun i => real (value φ i)
  have h3 := predictionError_nonneg φ w
  have h4 := mul_nonneg p0 (abs_nonneg (real y - real v))
  unfold callError
  have := Real.sqrt_nonneg (n : ℝ)
  positivity

/-- All weights after one call, against the exact step from the same weights. -/
theorem call_err (hM : M.rnd = binary64Format.rnd) {n : Nat} {c : FP M} {w w₁ : List (FP M)} {φ : Features (FP M)}
    (hφ : Fits n φ) {v y : FP M} (hv : ∀ r, Is v r → |r - exactDot φ w| ≤ predictionError φ w)
    (h : ∀ i < n, (∀ a, Stored φ i a → entry w₁ i = (entry w i +. c *. (y -. v) *. a)) ∧
      (¬ Active φ i → entry w₁ i = entry w i)) (hz : ∀ i < n, Finite (entry w₁ i)) :
    len n (fun i => real (entry w₁ i) - (real (entry w i) + real c * (real y - exactDot φ w) * real (value φ i))) ≤
      callError n c φ w y v := by
  have hu := roundoff_pos
  have hτ := tiny_pos
  have p0 : 0 ≤ (1 + roundoff) ^ 4 - 1 := sub_nonneg.2 (one_le_pow₀ (by linarith))
  have h3 := predictionError_nonneg φ w
  have h4 := mul_nonneg p0 (abs_nonneg (real y - real v))
  have h5 : 0 ≤ (1 + roundoff) ^ 2 * tiny := by positivity
  refine (len_mono fun i hi => step_err hM hφ hv (h i hi) (hz i hi)).trans ?_
  refine (len_add_le n _ _).trans ?_
  refine (add_le_add_left (len_add_le n _ _) _).trans ?_
  have e1 : len n (fun i => roundoff * |real (entry w i)|) = roundoff * len n (fun i => real (entry w i)) := by
    rw [len_smul hu.le, len_abs]
  have e2 : len n (fun i => |real c| * |real (value φ i)| *
      (((1 + roundoff) ^ 4 - 1) * |real y - real v| + predictionError φ w)) = |real c| * len n (fun i => real (value φ i)) *
      (((1 + roundoff) ^ 4 - 1) * |real y - real v| + predictionError φ w) := by
    have := len_smul (n := n) (mul_nonneg (abs_nonneg (real c)) (add_nonneg h4 h3)) (fun i => |real (value φ i)|)
    rw [len_abs] at this
    rw [mul_right_comm, ← this]
    exact len_congr fun i _ => by ring
  have e3 : len n (fun i => (1 + roundoff) ^ 2 * (1 + |real (value φ i)|) * tiny) ≤
      (1 + roundoff) ^ 2 * (√n + len n fun i => real (value φ i)) * tiny := by
    have := len_smul (n := n) h5 (fun i => 1 + |real (value φ i)|)
    have h6 := len_add_le n (fun _ => 1) (fun i => |real (value φ i)|)
    rw [len_abs, len_const n 1 zero_le_one, mul_one] at h6
    have e : len n (fun i => (1 + roundoff) ^ 2 * (1 + |real (value φ i)|) * tiny) =
        len n (fun i => (1 + roundoff) ^ 2 * tiny * (1 + |real (value φ i)|)) := len_congr fun i _ => by ring
    rw [e, this]
    refine (mul_le_mul_of_nonneg_left h6 h5).trans (le_of_eq (by ring))
  rw [e1, e2]
  unfold callError
  linarith

/-- An exact step does not move two weight vectors apart. -/
theorem exact_step (n : Nat) (d φ : Nat → ℝ) {l : ℝ} (h0 : 0 ≤ l) (h2 : l * ∑ i ∈ Finset.range n, φ i ^ 2 ≤ 2) :
    len n (fun i => d i - l * (∑ j ∈ Finset.range n, φ j * d j) * φ i) ≤ len n d := by
  refine Real.sqrt_le_sqrt ?_
  set g := ∑ j ∈ Finset.range n, φ j * d j with hg
  have e : ∑ i ∈ Finset.range n, (d i - l * g * φ i) ^ 2 =
      ∑ i ∈ Finset.range n, d i ^ 2 - l * g ^ 2 * (2 - l * ∑ i ∈ Finset.range n, φ i ^ 2) := by
    have : ∀ i, (d i - l * g * φ i) ^ 2 = d i ^ 2 - 2 * l * g * (φ i * d i) + l ^ 2 * g ^ 2 * φ i ^ 2 := fun i => by ring
    simp only [this, Finset.sum_add_distrib, Finset.sum_sub_distrib, ← Finset.mul_sum, ← hg]
    ring
  rw [e]
  have : 0 ≤ l * g ^ 2 * (2 - l * ∑ i ∈ Finset.range n, φ i ^ 2) :=
    mul_nonneg (mul_nonneg h0 (sq_nonneg _)) (by linarith)
  linarith

/-! ## Whole runs -/

section
variable {B B' I : Type} [Space B] [Basis B I (FP M)] [Space B'] [Basis B' I ℝ]

/-- A run of SGD, in any arithmetic. -/
theorem sgd_trace {K B I : Type} [Scalar K] [Space B] [Basis B I K] {n : Nat} {fas : Nat → ScalarLFA B (SGD K) K}
    {xs : Nat → I} {ys ps : Nat → K} (hs : Stream fas xs ys ps) (hn : (fas 0).weights.length = n)
    {φ : Nat → Features K} (hφ : ∀ k, Basis.project (fas 0).basis (xs k) = .ok (.ok (φ k)) ∧ Fits n (φ k)) (k : Nat) :
    ((fas k).basis = (fas 0).basis ∧ (fas k).optimiser = (fas 0).optimiser ∧ (fas k).weights.length = n) ∧
    (φ k).dot (fas k).weights = .ok (ps k) ∧ ∀ i < n,
      (∀ a, Stored (φ k) i a → entry (fas (k + 1)).weights i =
        (entry (fas k).weights i +. (fas 0).optimiser.lr *. (ys k -. ps k) *. a)) ∧
      (¬ Active (φ k) i → entry (fas (k + 1)).weights i = entry (fas k).weights i) := by
  have step : ∀ k, ((fas k).basis = (fas 0).basis ∧ (fas k).optimiser = (fas 0).optimiser ∧ (fas k).weights.length = n) →
      (φ k).dot (fas k).weights = .ok (ps k) ∧ ∃ w', fas (k + 1) = { fas k with weights := w' } ∧ w'.length = n ∧
        ∀ i < n, (∀ a, Stored (φ k) i a → entry w' i =
          (entry (fas k).weights i +. (fas 0).optimiser.lr *. (ys k -. ps k) *. a)) ∧
        (¬ Active (φ k) i → entry w' i = entry (fas k).weights i) := by
    rintro k ⟨h1, h2, h3⟩
    have hp : Basis.project (fas k).basis (xs k) = .ok (.ok (φ k)) := by rw [h1]; exact (hφ k).1
    have hv : (φ k).dot (fas k).weights = .ok (ps k) := by
      have := hs.predicts k
      rw [scalar_evaluate_eq hp] at this
      obtain ⟨_, e1, e2⟩ := P.map_eq_ok.1 this
      cases e2
      exact e1
    obtain ⟨w', g1, g2, g3⟩ := sgd_scaled (hφ k).2 (fas k).optimiser (ys k -. ps k) h3
    have := updateWith_eq hp hv (fun _ v => ys k -. v) g1
    rw [hs.updates k] at this
    simp only [Except.ok.injEq, Prod.mk.injEq, true_and] at this
    rw [h2] at g3
    exact ⟨hv, w', this, g2, g3⟩
  have inv : ∀ k, (fas k).basis = (fas 0).basis ∧ (fas k).optimiser = (fas 0).optimiser ∧ (fas k).weights.length = n := by
    intro k
    induction k with
    | zero => exact ⟨rfl, rfl, hn⟩
    | succ k ih =>
      obtain ⟨-, w', e, hl, -⟩ := step k ih
      rw [e]
      exact ⟨ih.1, ih.2.1, hl⟩
  obtain ⟨h1, w', e, -, h2⟩ := step k (inv k)
  exact ⟨inv k, h1, by rw [e]; exact h2⟩

/-- Weights that are finite in the end were finite all along. -/
theorem finite_before (hM : M.rnd = binary64Format.rnd) {n : Nat} {fas : Nat → ScalarLFA B (SGD (FP M)) (FP M)}
    {xs : Nat → I} {ys ps : Nat → FP M} (hs : Stream fas xs ys ps) (hn : (fas 0).weights.length = n)
    {φ : Nat → Features (FP M)} (hφ : ∀ k, Basis.project (fas 0).basis (xs k) = .ok (.ok (φ k)) ∧ Fits n (φ k)) {k : Nat}
    {i : Nat} (hi : i < n) (h : Finite (entry (fas (k + 1)).weights i)) : Finite (entry (fas k).weights i) := by
  obtain ⟨z, hz⟩ := h
  obtain ⟨ω, -, h1, -⟩ := sgd_event hM (⟨(fas 0).optimiser.lr⟩ : SGD (FP M)) (hφ k).2 (ys k -. ps k) i
    ((sgd_trace hs hn hφ k).2.2 i hi) hz
  exact ⟨ω, h1⟩

/-- A run of SGD in `f64` (`fas`) and a run in exact arithmetic (`gas`) from the same weights, on the same activations and
targets, with the same learning rate. As long as `lr ‖φ‖² ≤ 2` and the weights stay finite, their distance after `T` calls is
at most the sum of the rounding errors of the calls: rounding errors are never amplified. -/
theorem C157_sgd (hM : M.rnd = binary64Format.rnd) (n : Nat)
    (fas : Nat → ScalarLFA B (SGD (FP M)) (FP M)) (gas : Nat → ScalarLFA B' (SGD ℝ) ℝ) (xs : Nat → I)
    (ys ps : Nat → FP M) (qs : Nat → ℝ) (hs : Stream fas xs ys ps) (hg : Stream gas xs (fun k => real (ys k)) qs)
    (φ : Nat → Features (FP M)) (ψ : Nat → Features ℝ)
    (hφ : ∀ k, Basis.project (fas 0).basis (xs k) = .ok (.ok (φ k)) ∧ Fits n (φ k))
    (hψ : ∀ k, Basis.project (gas 0).basis (xs k) = .ok (.ok (ψ k)) ∧ Fits n (ψ k))
    (hv : ∀ k, ∀ i < n, value (ψ k) i = real (value (φ k) i))
    (hn : (fas 0).weights.length = n) (hm : (gas 0).weights.length = n)
    (hw : ∀ i < n, entry (gas 0).weights i = real (entry (fas 0).weights i))
    (hlr : (gas 0).optimiser.lr = real (fas 0).optimiser.lr) (h0 : 0 ≤ (gas 0).optimiser.lr)
    (h2 : ∀ k, (gas 0).optimiser.lr * normSq (ψ k) ≤ 2) (T : Nat)
    (hT : ∀ i < n, Finite (entry (fas T).weights i)) :
    len n (fun i => real (entry (fas T).weights i) - entry (gas T).weights i) ≤
      ∑ t ∈ Finset.range T, callError n (fas 0).optimiser.lr (φ t) (fas t).weights (ys t) (ps t) := by
  induction T with
  | zero =>
    rw [Finset.range_zero, Finset.sum_empty]
    have : len n (fun i => real (entry (fas 0).weights i) - entry (gas 0).weights i) = len n (fun _ => 0) :=
      len_congr fun i hi => by rw [hw i hi, sub_self]
    rw [this, len_const n 0 le_rfl, mul_zero]
  | succ T ih =>
    have ih := ih fun i hi => finite_before hM hs hn hφ hi (hT i hi)
    obtain ⟨⟨-, -, hl⟩, hd, hstep⟩ := sgd_trace hs hn hφ T
    obtain ⟨hb, ho, hl'⟩ := (sgd_trace hg hm hψ T).1
    have hp : Basis.project (gas T).basis (xs T) = .ok (.ok (ψ T)) := by rw [hb]; exact (hψ T).1
    obtain ⟨w', -, g2, -, -, g5⟩ := sgd_update hp (by rw [hl']; exact (hψ T).2) (real (ys T))
    rw [hg.updates T] at g2
    simp only [Except.ok.injEq, Prod.mk.injEq, true_and] at g2
    have g6 : ∀ i < n, entry (gas (T + 1)).weights i = entry (gas T).weights i
        + (gas 0).optimiser.lr * (real (ys T) - Spec.inner (ψ T) (gas T).weights) * value (ψ T) i := by
      intro i hi
      rw [g2, ← ho]
      exact g5 i (by rw [hl']; exact hi)
    have he := call_err hM (hφ T).2 (fun _ hr => dot_err hM (hφ T).2 hl hd hr) hstep hT
    rw [Finset.sum_range_succ, add_comm (Finset.sum _ _)]
    set l := (gas 0).optimiser.lr with hldef
    have e1 : exactDot (φ T) (fas T).weights = ∑ j ∈ Finset.range n, value (ψ T) j * real (entry (fas T).weights j) := by
      unfold exactDot
      rw [(hφ T).2.2]
      exact Finset.sum_congr rfl fun j hj => by rw [hv T j (Finset.mem_range.1 hj)]
    have e2 : Spec.inner (ψ T) (gas T).weights = ∑ j ∈ Finset.range n, value (ψ T) j * entry (gas T).weights j := by
      rw [inner_eq, (hψ T).2.2]
    have hex := exact_step n (fun i => real (entry (fas T).weights i) - entry (gas T).weights i)
      (fun i => value (ψ T) i) h0 (by
        have := h2 T
        rw [normSq, (hψ T).2.2] at this
        simpa only [sq] using this)
    refine le_trans (le_of_eq (len_congr fun i hi => ?_)) ((len_add_le n (fun i => real (entry (fas (T + 1)).weights i) -
      (real (entry (fas T).weights i) + real (fas 0).optimiser.lr * (real (ys T) - exactDot (φ T) (fas T).weights) *
        real (value (φ T) i))) (fun i => (real (entry (fas T).weights i) - entry (gas T).weights i) -
      l * (∑ j ∈ Finset.range n, value (ψ T) j * (real (entry (fas T).weights j) - entry (gas T).weights j)) *
        value (ψ T) i)).trans (add_le_add he (hex.trans ih)))
    rw [g6 i hi, ← hv T i hi, ← hlr, e1, e2]
    simp only [mul_sub, Finset.sum_sub_distrib]
    ring

/-- Hence a prediction in `f64` differs from the one after exact training by at most the accumulated rounding errors times
the length of its features, plus the error of computing it. -/
theorem C157_prediction (hM : M.rnd = binary64Format.rnd) (n : Nat)
    (fas : Nat → ScalarLFA B (SGD (FP M)) (FP M)) (gas : Nat → ScalarLFA B' (SGD ℝ) ℝ) (xs : Nat → I)
    (ys ps : Nat → FP M) (qs : Nat → ℝ) (hs : Stream fas xs ys ps) (hg : Stream gas xs (fun k => real (ys k)) qs)
    (φ : Nat → Features (FP M)) (ψ : Nat → Features ℝ)
    (hφ : ∀ k, Basis.project (fas 0).basis (xs k) = .ok (.ok (φ k)) ∧ Fits n (φ k))
    (hψ : ∀ k, Basis.project (gas 0).basis (xs k) = .ok (.ok (ψ k)) ∧ Fits n (ψ k))
    (hv : ∀ k, ∀ i < n, value (ψ k) i = real (value (φ k) i))
    (hn : (fas 0).weights.length = n) (hm : (gas 0).weights.length = n)
    (hw : ∀ i < n, entry (gas 0).weights i = real (entry (fas 0).weights i))
    (hlr : (gas 0).optimiser.lr = real (fas 0).optimiser.lr) (h0 : 0 ≤ (gas 0).optimiser.lr)
    (h2 : ∀ k, (gas 0).optimiser.lr * normSq (ψ k) ≤ 2) (T : Nat)
    (hT : ∀ i < n, Finite (entry (fas T).weights i)) (hp : Finite (ps T)) :
    |real (ps T) - qs T| ≤ √(normSq (ψ T)) * ∑ t ∈ Finset.range T,
      callError n (fas 0).optimiser.lr (φ t) (fas t).weights (ys t) (ps t) + predictionError (φ T) (fas T).weights := by
  have h := C157_sgd hM n fas gas xs ys ps qs hs hg φ ψ hφ hψ hv hn hm hw hlr h0 h2 T hT
  obtain ⟨⟨-, -, hl⟩, hd, -⟩ := sgd_trace hs hn hφ T
  obtain ⟨⟨-, -, hl'⟩, hd', -⟩ := sgd_trace hg hm hψ T
  obtain ⟨p, hp⟩ := hp
  have e1 := dot_err hM (hφ T).2 hl hd hp
  rw [is_real hp]
  have e2 : qs T = Spec.inner (ψ T) (gas T).weights := by
    have := dot_real (hψ T).2.1 (w := (gas T).weights) ((hψ T).2.2.trans hl'.symm)
    rw [hd'] at this
    injection this
  have e3 : exactDot (φ T) (fas T).weights - qs T = ∑ j ∈ Finset.range n, value (ψ T) j *
      (real (entry (fas T).weights j) - entry (gas T).weights j) := by
    rw [e2, inner_eq, (hψ T).2.2, exactDot, (hφ T).2.2, ← Finset.sum_sub_distrib]
    exact Finset.sum_congr rfl fun j hj => by rw [hv T j (Finset.mem_range.1 hj)]; ring
  have e4 : |exactDot (φ T) (fas T).weights - qs T| ≤ √(normSq (ψ T)) *
      len n (fun i => real (entry (fas T).weights i) - entry (gas T).weights i) := by
    have hN : √(normSq (ψ T)) = len n (fun i => value (ψ T) i) := by
      unfold len
      rw [normSq, (hψ T).2.2]
      simp only [sq]
    rw [e3, hN, abs_le]
    constructor
    · have := sum_mul_le_len n (fun i => -value (ψ T) i)
        (fun i => real (entry (fas T).weights i) - entry (gas T).weights i)
      have e : len n (fun i => -value (ψ T) i) = len n (fun i => value (ψ T) i) := by
        unfold len; simp only [neg_sq]
      rw [e] at this
      simp only [neg_mul, Finset.sum_neg_distrib] at this
      linarith
    · exact sum_mul_le_len n _ _
  have e5 := mul_le_mul_of_nonneg_left h (Real.sqrt_nonneg (normSq (ψ T)))
  have e6 := abs_sub_le p (exactDot (φ T) (fas T).weights) (qs T)
  unfold predictionError
  linarith

omit [Space B'] [Basis B' I ℝ] in
/-- One repeated input in `f64`: if no call adds more than `δ` rounding error, the exact inner product is after `T` calls
within `|1 - lr ‖φ‖²|^T` times its initial distance plus `‖φ‖ δ / (1 - |1 - lr ‖φ‖²|)` of the target. -/
theorem C157_repeated (hM : M.rnd = binary64Format.rnd) (n : Nat)
    (fas : Nat → ScalarLFA B (SGD (FP M)) (FP M)) (x : I) (y : FP M) (ps : Nat → FP M)
    (hs : Stream fas (fun _ => x) (fun _ => y) ps) (φ : Features (FP M))
    (hφ : Basis.project (fas 0).basis x = .ok (.ok φ)) (hf : Fits n φ) (hn : (fas 0).weights.length = n)
    (s r : ℝ) (hsq : s = ∑ i ∈ Finset.range n, real (value φ i) ^ 2) (hr : r = |1 - real (fas 0).optimiser.lr * s|)
    (h1 : r < 1) (T : Nat) (δ : ℝ) (hδ0 : 0 ≤ δ) (hδ : ∀ t < T, callError n (fas 0).optimiser.lr φ (fas t).weights y (ps t) ≤ δ)
    (hT : ∀ i < n, Finite (entry (fas T).weights i)) :
    |exactDot φ (fas T).weights - real y| ≤ r ^ T * |exactDot φ (fas 0).weights - real y| + √s * δ / (1 - r) := by
  have hr0 : 0 ≤ r := hr ▸ abs_nonneg _
  have hlen : √s = len n (fun i => real (value φ i)) := by rw [hsq]; rfl
  have run := sgd_trace hs hn (φ := fun _ => φ) (fun _ => ⟨hφ, hf⟩)
  have main : |exactDot φ (fas T).weights - real y| ≤ r ^ T * |exactDot φ (fas 0).weights - real y| +
      √s * δ * ((1 - r ^ T) / (1 - r)) := by
    induction T with
    | zero => simp
    | succ T ih =>
      have ih := ih (fun t ht => hδ t (by omega)) fun i hi =>
        finite_before hM hs hn (φ := fun _ => φ) (fun _ => ⟨hφ, hf⟩) hi (hT i hi)
      obtain ⟨⟨-, -, hl⟩, hd, hstep⟩ := run T
      have he := (call_err hM hf (fun _ hr => dot_err hM hf hl hd hr) hstep hT).trans (hδ T (by omega))
      set R : Nat → ℝ := fun i => real (entry (fas (T + 1)).weights i) - (real (entry (fas T).weights i) +
        real (fas 0).optimiser.lr * (real y - exactDot φ (fas T).weights) * real (value φ i)) with hR
      have e1 : exactDot φ (fas (T + 1)).weights - real y =
          (1 - real (fas 0).optimiser.lr * s) * (exactDot φ (fas T).weights - real y)
            + ∑ i ∈ Finset.range n, real (value φ i) * R i := by
        have : ∑ i ∈ Finset.range n, real (value φ i) * R i = exactDot φ (fas (T + 1)).weights
            - exactDot φ (fas T).weights - real (fas 0).optimiser.lr * (real y - exactDot φ (fas T).weights) * s := by
          rw [hsq]
          conv_rhs => rw [exactDot, exactDot, hf.2]
          rw [← Finset.sum_sub_distrib, Finset.mul_sum, ← Finset.sum_sub_distrib]
          refine Finset.sum_congr rfl fun i _ => ?_
          simp only [hR, exactDot, hf.2]
          ring
        rw [this]
        ring
      have e2 : |∑ i ∈ Finset.range n, real (value φ i) * R i| ≤ √s * δ := by
        have e : len n (fun i => -real (value φ i)) = len n (fun i => real (value φ i)) := by
          unfold len; simp only [neg_sq]
        have hb := mul_le_mul_of_nonneg_left he (len_nonneg n fun i => real (value φ i))
        rw [hlen, abs_le]
        constructor
        · have := sum_mul_le_len n (fun i => -real (value φ i)) R
          simp only [neg_mul, Finset.sum_neg_distrib] at this
          rw [e] at this
          linarith
        · exact (sum_mul_le_len n _ R).trans hb
      have e3 : |exactDot φ (fas (T + 1)).weights - real y| ≤ r * |exactDot φ (fas T).weights - real y| + √s * δ := by
        rw [e1, hr]
        refine (abs_add_le _ _).trans (add_le_add ?_ e2)
        rw [abs_mul]
      have e4 := mul_le_mul_of_nonneg_left ih hr0
      have h1' : 1 - r ≠ 0 := by linarith
      have e5 : r * (√s * δ * ((1 - r ^ T) / (1 - r))) + √s * δ = √s * δ * ((1 - r ^ (T + 1)) / (1 - r)) := by
        field_simp
        ring
      rw [mul_add] at e4
      rw [← e5, pow_succ', mul_assoc]
      linarith
  refine main.trans (add_le_add le_rfl ?_)
  rw [mul_div_assoc' (√s * δ)]
  refine div_le_div_of_nonneg_right ?_ (by linarith)
  have h3 := mul_nonneg (mul_nonneg (Real.sqrt_nonneg s) hδ0) (pow_nonneg hr0 T)
  linarith

theorem growth_le {k : Nat} (hk : k ≤ 2 ^ 52) : (1 + roundoff) ^ k ≤ 1 + 2 * k * roundoff := by
  have h0 : 0 ≤ roundoff := roundoff_pos.le
  have hku : (k : ℝ) * roundoff ≤ 1 / 2 := by
    have h1 : (k : ℝ) ≤ 2 ^ 52 := by exact_mod_cast hk
    refine (mul_le_mul_of_nonneg_right h1 h0).trans (le_of_eq ?_)
    unfold roundoff
    norm_num
  have hx : 0 ≤ (k : ℝ) * roundoff := by positivity
  have h2 : (1 + roundoff) ^ k ≤ Real.exp (k * roundoff) := by
    rw [Real.exp_nat_mul]
    refine pow_le_pow_left₀ (by linarith) ?_ k
    rw [add_comm]
    exact Real.add_one_le_exp _
  refine h2.trans ?_
  have h4 : 1 - (k : ℝ) * roundoff ≤ Real.exp (-(k * roundoff)) := by
    have := Real.add_one_le_exp (-((k : ℝ) * roundoff))
    linarith
  have h5 : Real.exp (k * roundoff) * Real.exp (-(k * roundoff)) = 1 := by
    rw [← Real.exp_add, add_neg_cancel, Real.exp_zero]
  have h6 := mul_le_mul_of_nonneg_left h4 (Real.exp_pos (k * roundoff)).le
  rw [h5] at h6
  nlinarith [Real.exp_pos (k * roundoff)]

/-- Uniform bounds: with at most `2^52` stored features of length at most 1, a rate in `[0, 2]`, weights of length at most `W` and
errors of at most `E`, one call adds at most `((4 k + 1) W + 10 E) 2^-53 + (4 k + 2 √n + 2) 2^-1075`. -/
theorem C157_uniform (n : Nat) (c : FP M) (φ : Features (FP M)) (hf : Fits n φ) (w : List (FP M)) (y v : FP M) (k : Nat)
    (hk : storedCount φ ≤ k) (hk2 : k ≤ 2 ^ 52) (hc0 : 0 ≤ real c) (hc : real c ≤ 2)
    (hφ : ∑ i ∈ Finset.range n, real (value φ i) ^ 2 ≤ 1) (W E : ℝ) (hW0 : 0 ≤ W)
    (hW : ∑ i ∈ Finset.range n, real (entry w i) ^ 2 ≤ W ^ 2) (hE : |real y - real v| ≤ E) :
    callError n c φ w y v ≤ roundoff * ((4 * k + 1) * W + 10 * E) + tiny * (4 * k + 2 * √n + 2) := by
  have hu := roundoff_pos
  have hu1 : roundoff ≤ 1 / 100 := by unfold roundoff; norm_num
  have ht := tiny_pos
  have lφ : len n (fun i => real (value φ i)) ≤ 1 := by
    unfold len; exact Real.sqrt_le_one.2 hφ
  have lw : len n (fun i => real (entry w i)) ≤ W := by
    unfold len; rw [Real.sqrt_le_left hW0]; exact hW
  have lφ0 := len_nonneg n (fun i => real (value φ i))
  have lw0 := len_nonneg n (fun i => real (entry w i))
  have hE0 : 0 ≤ E := (abs_nonneg _).trans hE
  have hg : (1 + roundoff) ^ storedCount φ ≤ 1 + 2 * k * roundoff :=
    (pow_le_pow_right₀ (by linarith) hk).trans (growth_le hk2)
  have hg1 : 1 ≤ (1 + roundoff) ^ storedCount φ := one_le_pow₀ (by linarith)
  have hku : (k : ℝ) * roundoff ≤ 1 / 2 := by
    have h1 : (k : ℝ) ≤ 2 ^ 52 := by exact_mod_cast hk2
    refine (mul_le_mul_of_nonneg_right h1 hu.le).trans (le_of_eq ?_)
    unfold roundoff
    norm_num
  have hsk : (storedCount φ : ℝ) ≤ k := by exact_mod_cast hk
  have ha : absDot φ w ≤ W := by
    have := sum_mul_le_len n (fun i => |real (value φ i)|) (fun i => |real (entry w i)|)
    rw [len_abs, len_abs] at this
    have e : absDot φ w = ∑ i ∈ Finset.range n, |real (value φ i)| * |real (entry w i)| := by
      unfold absDot; rw [hf.2]; exact Finset.sum_congr rfl fun i _ => by rw [abs_mul]
    rw [e]
    nlinarith
  have hp : predictionError φ w ≤ 2 * k * roundoff * W + 2 * k * tiny := by
    unfold predictionError
    have ha0 : 0 ≤ absDot φ w := Finset.sum_nonneg fun _ _ => abs_nonneg _
    have hk0 : (0 : ℝ) ≤ k := k.cast_nonneg
    have hs0 : (0 : ℝ) ≤ storedCount φ := Nat.cast_nonneg _
    have b1 : ((1 + roundoff) ^ storedCount φ - 1) * absDot φ w ≤ 2 * k * roundoff * W :=
      mul_le_mul (by linarith) ha ha0 (by positivity)
    have b2 : storedCount φ * (1 + roundoff) ^ storedCount φ * tiny ≤ 2 * k * tiny := by
      refine mul_le_mul_of_nonneg_right ?_ ht.le
      rw [mul_comm (2 : ℝ)]
      exact mul_le_mul hsk (by linarith) (by linarith) hk0
    linarith
  have hp0 : 0 ≤ predictionError φ w := by
    unfold predictionError
    have ha0 : 0 ≤ absDot φ w := Finset.sum_nonneg fun _ _ => abs_nonneg _
    have : 0 ≤ (1 + roundoff) ^ storedCount φ - 1 := by linarith
    positivity
  have h4 : (1 + roundoff) ^ 4 - 1 ≤ 5 * roundoff := by nlinarith [mul_pos hu hu, mul_pos hu (mul_pos hu hu)]
  have h40 : 0 ≤ (1 + roundoff) ^ 4 - 1 := by
    have : (1 : ℝ) ≤ (1 + roundoff) ^ 4 := one_le_pow₀ (by linarith)
    linarith
  have h22 : (1 + roundoff) ^ 2 ≤ 2 := by nlinarith
  have hc1 : |real c| * len n (fun i => real (value φ i)) ≤ 2 := by
    rw [abs_of_nonneg hc0]; nlinarith
  have b3 : ((1 + roundoff) ^ 4 - 1) * |real y - real v| ≤ 5 * roundoff * E :=
    mul_le_mul h4 hE (abs_nonneg _) (by positivity)
  have b30 : 0 ≤ ((1 + roundoff) ^ 4 - 1) * |real y - real v| := mul_nonneg h40 (abs_nonneg _)
  have b4 := mul_le_mul hc1 (add_le_add b3 hp) (add_nonneg b30 hp0) (by norm_num)
  have b5 : (1 + roundoff) ^ 2 * (√n + len n (fun i => real (value φ i))) * tiny ≤ 2 * (√n + 1) * tiny :=
    mul_le_mul_of_nonneg_right (mul_le_mul h22 (by linarith) (by positivity) (by norm_num)) ht.le
  have b6 := mul_le_mul_of_nonneg_left lw hu.le
  unfold callError
  linarith

end

/-- The hypotheses are met: an approximator with one constant feature, trained at any rate below 1 towards any target of
moderate size, has a run in `f64` with finite weights for ever and an exact run beside it. -/
theorem C157_example (hM : M.rnd = binary64Format.rnd) (lr y : FP M) (l q : ℝ) (hl : Is lr l) (hy : Is y q) (l0 : 0 ≤ l)
    (l1 : l ≤ 1 - 2 ^ (-51 : ℤ)) (bq : |q| ≤ 2 ^ (1000 : ℤ)) :
    ∃ (fas : Nat → ScalarLFA (FixedSparse (FP M)) (SGD (FP M)) (FP M)) (gas : Nat → ScalarLFA (FixedSparse ℝ) (SGD ℝ) ℝ)
      (ps : Nat → FP M) (qs : Nat → ℝ) (φ : Features (FP M)),
      fas 0 = LFA.mk ⟨1, [0]⟩ [Scalar.zero] ⟨lr⟩ ∧ gas 0 = LFA.mk ⟨1, [0]⟩ [0] ⟨l⟩ ∧
      Stream fas (fun _ => ()) (fun _ => y) ps ∧ Stream gas (fun _ => ()) (fun _ => q) qs ∧
      (∀ T, ∀ i < 1, Finite (entry (fas T).weights i)) ∧ (∀ T, Finite (ps T)) ∧
      ∀ T, |real (ps T) - qs T| ≤ ∑ t ∈ Finset.range T, callError 1 lr φ (fas t).weights y (ps t) +
        predictionError φ (fas T).weights := by
  have hp : Basis.project (⟨1, [0]⟩ : FixedSparse (FP M)) () =
      .ok (.ok (.sparse ⟨1, [(0, (Scalar.one : FP M))]⟩)) := rfl
  have hpr : Basis.project (⟨1, [0]⟩ : FixedSparse ℝ) () =
      .ok (.ok (.sparse ⟨1, [(0, (Scalar.one : ℝ))]⟩)) := rfl
  have hf : ∀ {K : Type} [Scalar K], Fits 1 (.sparse ⟨1, [(0, (Scalar.one : K))]⟩) := fun {K} _ => by
    refine ⟨⟨List.nodup_singleton _, fun e he => ?_⟩, rfl⟩
    rw [List.mem_singleton] at he
    subst he
    exact Nat.zero_lt_one
  obtain ⟨fas, ps, h0, hs, hfin, -⟩ := C105_cell hM (⟨1, [0]⟩ : FixedSparse (FP M)) () 1 0 Nat.zero_lt_one hp [Scalar.zero]
    rfl lr y l q 0 hl hy val_zero l0 l1 bq (by norm_num)
  obtain ⟨gas, qs, hg, hg0⟩ := stream_exists (O := SGD ℝ) (⟨1, [0]⟩ : FixedSparse ℝ) (n := 1) (fun _ => ()) (fun _ => q)
    (fun _ => ⟨_, hpr, hf⟩) [0] rfl ⟨l⟩ trivial
  have hφ : ∀ k : Nat, Basis.project (fas 0).basis () = .ok (.ok (.sparse ⟨1, [(0, (Scalar.one : FP M))]⟩)) ∧
      Fits 1 (.sparse ⟨1, [(0, (Scalar.one : FP M))]⟩) := fun _ => ⟨by rw [h0]; exact hp, hf⟩
  have hψ : ∀ k : Nat, Basis.project (gas 0).basis () = .ok (.ok (.sparse ⟨1, [(0, (Scalar.one : ℝ))]⟩)) ∧
      Fits 1 (.sparse ⟨1, [(0, (Scalar.one : ℝ))]⟩) := fun _ => ⟨by rw [hg0]; exact hpr, hf⟩
  have hn : (fas 0).weights.length = 1 := by rw [h0]; rfl
  have hfw : ∀ T, ∀ i < 1, Finite (entry (fas T).weights i) := by
    intro T i hi
    obtain rfl : i = 0 := by omega
    obtain ⟨⟨-, -, hl⟩, hd, -⟩ := sgd_trace hs hn hφ T
    exact dot_finite hf hl hd (hfin T) ⟨_, List.mem_singleton.2 rfl⟩
  have hN : normSq (.sparse ⟨1, [(0, (Scalar.one : ℝ))]⟩) = 1 := by
    rw [normSq]
    show ∑ i ∈ Finset.range 1, _ = _
    rw [Finset.sum_range_one]
    show (Scalar.one : ℝ) * Scalar.one = 1
    rw [real_one, mul_one]
  refine ⟨fas, gas, ps, qs, .sparse ⟨1, [(0, (Scalar.one : FP M))]⟩, h0, hg0, hs, hg, hfw, hfin, fun T => ?_⟩
  have := C157_prediction hM 1 fas gas (fun _ => ()) (fun _ => y) ps qs hs (by rw [is_real hy]; exact hg)
    (fun _ => .sparse ⟨1, [(0, (Scalar.one : FP M))]⟩) (fun _ => .sparse ⟨1, [(0, (Scalar.one : ℝ))]⟩) hφ hψ
    (fun _ i hi => by
      obtain rfl : i = 0 := by omega
      show (Scalar.one : ℝ) = real (Scalar.one : FP M)
      rw [is_real val_one, real_one])
    hn (by rw [hg0]; rfl) (fun i hi => by
      obtain rfl : i = 0 := by omega
      rw [h0, hg0]
      show (0 : ℝ) = real (Scalar.zero : FP M)
      rw [is_real val_zero]) (by rw [h0, hg0]; exact (is_real hl).symm) (by rw [hg0]; exact l0)
    (fun _ => by
      rw [hg0, hN, mul_one]
      have : (0 : ℝ) < 2 ^ (-51 : ℤ) := by positivity
      show l ≤ 2
      linarith) T (hfw T) (hfin T)
  rw [hN, Real.sqrt_one, one_mul] at this
  simpa only [h0] using this

end Lfa

import Verif.Proofs.NormErr
import Verif.Props.C88
import Verif.Props.C157
import Mathlib.Analysis.SpecialFunctions.Trigonometric.Chebyshev.RootsExtrema
import Mathlib.Analysis.Calculus.MeanValue

/-! # Rounding errors of Chebyshev and Fourier features -/

set_option linter.unusedSectionVars false

namespace Lfa

open Spec Machine XReal

variable {M : Machine}

/-- `a` is within `k` unit roundoffs of `x`, which is at most `m` in magnitude. -/
def Near (a : FP M) (x m k : ℝ) : Prop := ∃ z, Is a z ∧ |z - x| ≤ k * roundoff ∧ |x| ≤ m

theorem Near.mono {a : FP M} {x m k l : ℝ} (h : Near a x m k) (hk : k ≤ l) : Near a x m l := by
  obtain ⟨z, h1, h2, h3⟩ := h
  exact ⟨z, h1, h2.trans (mul_le_mul_of_nonneg_right hk roundoff_pos.le), h3⟩

theorem near_lit (hM : M.rnd = binary64Format.rnd) {n : Nat} (h : n ≤ 2 ^ 53) :
    Near (Scalar.ofNat n : FP M) (Scalar.ofNat n : ℝ) n 0 :=
  ⟨n, (val_ofNat n).trans (C88_binary64 hM n h), by
    rw [zero_mul]; exact (abs_nonpos_iff.2 (sub_self _)), (abs_of_nonneg (Nat.cast_nonneg n)).le⟩

theorem finite_of_small (hM : M.rnd = binary64Format.rnd) {a : FP M} {x : ℝ} (h : a.1 = M.rnd x) (hx : |x| ≤ 2 ^ 100) :
    ∃ z, Is a z := by
  obtain ⟨z, hz, -⟩ := bounded_rnd h hx (rnd_two_pow hM (by norm_num))
  exact ⟨z, hz⟩

theorem near_mul (hM : M.rnd = binary64Format.rnd) {a b : FP M} {x y m n k l g : ℝ} (ha : Near a x m k) (hb : Near b y n l)
    (hs : (m + k / 2 ^ 53) * (n + l / 2 ^ 53) ≤ 2 ^ 100)
    (hg : m * l + n * k + k * l / 2 ^ 53 + (m + k / 2 ^ 53) * (n + l / 2 ^ 53) + 1 / 2 ^ 53 ≤ g) :
    Near (a *. b) (x *. y) (m * n) g := by
  obtain ⟨z, h1, h2, h3⟩ := ha
  obtain ⟨w, g1, g2, g3⟩ := hb
  have hu : roundoff = 1 / 2 ^ 53 := by norm_num [roundoff]
  have ht : tiny ≤ 1 / 2 ^ 53 * roundoff := by
    rw [← hu, roundoff, tiny, ← zpow_add₀ (by norm_num)]
    exact zpow_le_zpow_right₀ (by norm_num) (by norm_num)
  have hz : |z| ≤ m + k / 2 ^ 53 := by
    have := abs_add_le (z - x) x
    rw [sub_add_cancel] at this
    rw [hu] at h2
    linarith
  have hw : |w| ≤ n + l / 2 ^ 53 := by
    have := abs_add_le (w - y) y
    rw [sub_add_cancel] at this
    rw [hu] at g2
    linarith
  have hzw : |z * w| ≤ (m + k / 2 ^ 53) * (n + l / 2 ^ 53) := by
    rw [abs_mul]
    exact mul_le_mul hz hw (abs_nonneg _) ((abs_nonneg _).trans hz)
  obtain ⟨v, hv⟩ := finite_of_small hM (a := a *. b) (x := z * w) (by rw [val_mul, h1, g1]; rfl) (hzw.trans hs)
  obtain ⟨z', w', e1, e2, e3⟩ := mul_err hM hv
  cases is_fun e1 h1
  cases is_fun e2 g1
  refine ⟨v, hv, ?_, ?_⟩
  · show |v - x * y| ≤ _
    have c1 : |z * w - x * y| ≤ m * (l * roundoff) + n * (k * roundoff) + k * roundoff * (l * roundoff) := by
      rw [show z * w - x * y = x * (w - y) + y * (z - x) + (z - x) * (w - y) by ring]
      refine (abs_add_le _ _).trans (add_le_add ((abs_add_le _ _).trans (add_le_add ?_ ?_)) ?_) <;> rw [abs_mul]
      · exact mul_le_mul h3 g2 (abs_nonneg _) ((abs_nonneg _).trans h3)
      · exact mul_le_mul g3 h2 (abs_nonneg _) ((abs_nonneg _).trans g3)
      · exact mul_le_mul h2 g2 (abs_nonneg _) ((abs_nonneg _).trans h2)
    have c2 := abs_sub_le v (z * w) (x * y)
    have c3 := mul_le_mul_of_nonneg_left hzw roundoff_pos.le
    have c4 := mul_le_mul_of_nonneg_right hg roundoff_pos.le
    refine le_trans ?_ c4
    have e4 : k * roundoff * (l * roundoff) = k * l / 2 ^ 53 * roundoff := by rw [hu]; ring
    rw [e4] at c1
    calc |v - x * y| ≤ (roundoff * |z * w| + tiny) + (m * (l * roundoff) + n * (k * roundoff) + k * l / 2 ^ 53 * roundoff) :=
          c2.trans (add_le_add e3 c1)
      _ ≤ (roundoff * ((m + k / 2 ^ 53) * (n + l / 2 ^ 53)) + 1 / 2 ^ 53 * roundoff) +
          (m * (l * roundoff) + n * (k * roundoff) + k * l / 2 ^ 53 * roundoff) :=
        add_le_add (add_le_add c3 ht) le_rfl
      _ = _ := by ring
  · show |x * y| ≤ _
    rw [abs_mul]
    exact mul_le_mul h3 g3 (abs_nonneg _) ((abs_nonneg _).trans h3)

theorem near_add (hM : M.rnd = binary64Format.rnd) {a b : FP M} {x y m n k l g : ℝ} (ha : Near a x m k) (hb : Near b y n l)
    (hs : m + n + (k + l) / 2 ^ 53 ≤ 2 ^ 100) (hg : k + l + (m + n + (k + l) / 2 ^ 53) ≤ g) :
    Near (a +. b) (x +. y) (m + n) g := by
  obtain ⟨z, h1, h2, h3⟩ := ha
  obtain ⟨w, g1, g2, g3⟩ := hb
  have hu : roundoff = 1 / 2 ^ 53 := by norm_num [roundoff]
  have hd : |z + w - (x + y)| ≤ (k + l) * roundoff := by
    rw [show z + w - (x + y) = (z - x) + (w - y) by ring, add_mul]
    exact (abs_add_le _ _).trans (add_le_add h2 g2)
  have hxy : |x + y| ≤ m + n := (abs_add_le _ _).trans (add_le_add h3 g3)
  have hzw : |z + w| ≤ m + n + (k + l) / 2 ^ 53 := by
    have := abs_add_le (z + w - (x + y)) (x + y)
    rw [sub_add_cancel] at this
    rw [hu] at hd
    linarith
  obtain ⟨v, hv⟩ := finite_of_small hM (a := a +. b) (x := z + w) (by rw [val_add, h1, g1]; rfl) (hzw.trans hs)
  obtain ⟨z', w', e1, e2, e3⟩ := add_err hM hv
  cases is_fun e1 h1
  cases is_fun e2 g1
  refine ⟨v, hv, ?_, hxy⟩
  show |v - (x + y)| ≤ _
  have c2 := abs_sub_le v (z + w) (x + y)
  have c3 := mul_le_mul_of_nonneg_left hzw roundoff_pos.le
  have c4 := mul_le_mul_of_nonneg_right hg roundoff_pos.le
  refine le_trans ?_ c4
  calc |v - (x + y)| ≤ roundoff * (m + n + (k + l) / 2 ^ 53) + (k + l) * roundoff := c2.trans (add_le_add (e3.trans c3) hd)
    _ = _ := by ring

theorem near_sub (hM : M.rnd = binary64Format.rnd) {a b : FP M} {x y m n k l g : ℝ} (ha : Near a x m k) (hb : Near b y n l)
    (hs : m + n + (k + l) / 2 ^ 53 ≤ 2 ^ 100) (hg : k + l + (m + n + (k + l) / 2 ^ 53) ≤ g) :
    Near (a -. b) (x -. y) (m + n) g := by
  have e : (a -. b) = a +. Scalar.neg b := fp_ext (by rw [val_sub, val_add, val_neg])
  have e' : (x -. y) = x +. (-y) := sub_eq_add_neg x y
  rw [e, e']
  refine near_add hM ha ?_ hs hg
  obtain ⟨w, g1, g2, g3⟩ := hb
  refine ⟨-w, by rw [Is, val_neg, g1]; rfl, ?_, by rwa [abs_neg]⟩
  rw [show -w - -y = -(w - y) by ring, abs_neg]
  exact g2

theorem near_scale (hM : M.rnd = binary64Format.rnd) {a : FP M} {x : ℝ} {j c : Nat} (ha : Near a x 1 0) (hc : c = 2 ^ j)
    (hj : j ≤ 50) : Near (Scalar.ofNat c *. a) ((Scalar.ofNat c : ℝ) *. x) c 0 := by
  obtain ⟨z, h1, h2, h3⟩ := ha
  rw [zero_mul] at h2
  have : z = x := sub_eq_zero.1 (abs_nonpos_iff.1 h2)
  subst this
  have e := rnd_scale hM h1 h3 (k := j) (by omega)
  have hl : (Scalar.ofNat c : FP M).1 = .fin c := (val_ofNat c).trans (C88_binary64 hM c (by
    rw [hc]; exact Nat.pow_le_pow_right (by norm_num) (by omega)))
  refine ⟨c * z, ?_, ?_, ?_⟩
  · rw [Is, val_mul, hl, h1]
    show M.rnd (c * z) = _
    rw [hc]
    push_cast
    rw [mul_comm]
    exact e
  · rw [zero_mul]; exact (abs_nonpos_iff.2 (sub_self _))
  · show |(c : ℝ) * z| ≤ _
    rw [abs_mul, abs_of_nonneg (Nat.cast_nonneg c)]
    exact mul_le_of_le_one_right (Nat.cast_nonneg c) h3

theorem pow_err' (hM : M.rnd = binary64Format.rnd) {a : FP M} {x : ℝ} (ha : Is a x) (hx : |x| ≤ 1) :
    ∀ t : PowTree, ∃ z, Is (t.eval M.mul (M.lit 1) a) z ∧ |z| ≤ 1 ∧
      |z - x ^ t.degree| ≤ ((t.degree - 1 : ℕ) : ℝ) * (roundoff + tiny)
  | .one => ⟨1, M.rnd_one, abs_one.le, by simp [PowTree.degree]⟩
  | .base => ⟨x, ha, hx, by simp [PowTree.degree]⟩
  | .mul l r => by
    obtain ⟨p, hp, p1, p2⟩ := pow_err' hM ha hx l
    obtain ⟨q, hq, q1, q2⟩ := pow_err' hM ha hx r
    show ∃ z, Is (M.mul (l.eval M.mul (M.lit 1) a) (r.eval M.mul (M.lit 1) a)) z ∧ |z| ≤ 1 ∧
      |z - x ^ (l.degree + r.degree)| ≤ ((l.degree + r.degree - 1 : ℕ) : ℝ) * (roundoff + tiny)
    rcases Nat.eq_zero_or_pos l.degree with hl | hl
    · rw [powTree_zero a l hl, one_mul_fp, hl, zero_add]
      exact ⟨q, hq, q1, q2⟩
    rcases Nat.eq_zero_or_pos r.degree with hr | hr
    · rw [powTree_zero a r hr, mul_one_fp, hr, add_zero]
      exact ⟨p, hp, p1, p2⟩
    obtain ⟨z, hz, z1⟩ := InUnit.mul ⟨p, hp, p1⟩ ⟨q, hq, q1⟩
    obtain ⟨p', q', hp', hq', z2⟩ := mul_err hM hz
    rw [is_fun hp' hp, is_fun hq' hq] at z2
    refine ⟨z, hz, z1, ?_⟩
    have h0 : roundoff * |p * q| ≤ roundoff := mul_le_of_le_one_right roundoff_pos.le (by
      rw [abs_mul]; exact mul_le_one₀ p1 (abs_nonneg _) q1)
    have h1 := unit_mul_sub (y := q) (X := x ^ l.degree) p1 (Y := x ^ r.degree) (by
      rw [abs_pow]; exact pow_le_one₀ (abs_nonneg _) hx)
    have h2 := abs_sub_le z (p * q) (x ^ l.degree * x ^ r.degree)
    rw [pow_add]
    have e : ((l.degree + r.degree - 1 : ℕ) : ℝ) =
        ((l.degree - 1 : ℕ) : ℝ) + ((r.degree - 1 : ℕ) : ℝ) + 1 := by
      rw [show l.degree + r.degree - 1 = (l.degree - 1) + (r.degree - 1) + 1 by omega]
      push_cast; rfl
    rw [e]
    generalize roundoff = u at *
    generalize tiny = v at *
    linarith

theorem near_pow (hM : M.rnd = binary64Format.rnd) {a : FP M} {x : ℝ} (ha : Near a x 1 0) (n : Nat) {k : ℝ}
    (hk : ((n - 1 : ℕ) : ℝ) * (1 + 1 / 2 ^ 53) ≤ k) : Near (Scalar.powi a n) (Scalar.powi x n) 1 k := by
  obtain ⟨z, h1, h2, h3⟩ := ha
  rw [zero_mul] at h2
  have : z = x := sub_eq_zero.1 (abs_nonpos_iff.1 h2)
  subst this
  obtain ⟨q, hq, q1, q2⟩ := pow_err' hM h1 h3 (M.powTree n)
  rw [M.powTree_degree] at q2
  have hu : roundoff = 1 / 2 ^ 53 := by norm_num [roundoff]
  have ht : tiny ≤ 1 / 2 ^ 53 * roundoff := by
    rw [← hu, roundoff, tiny, ← zpow_add₀ (by norm_num)]
    exact zpow_le_zpow_right₀ (by norm_num) (by norm_num)
  refine ⟨q, hq, q2.trans ?_, ?_⟩
  · refine le_trans ?_ (mul_le_mul_of_nonneg_right hk roundoff_pos.le)
    rw [mul_assoc]
    refine mul_le_mul_of_nonneg_left ?_ (Nat.cast_nonneg _)
    rw [add_mul, one_mul]
    exact add_le_add le_rfl ht
  · show |z ^ n| ≤ 1
    rw [abs_pow]
    exact pow_le_one₀ (abs_nonneg _) h3

theorem t_2_err (hM : M.rnd = binary64Format.rnd) {a : FP M} {x : ℝ} (hx : Near a x 1 0) :
    ∃ m, Near (Cpfk.t_2 a) (Cpfk.t_2 x) m (3 ^ 2) :=
  ⟨_, (near_sub hM (near_mul hM (near_scale hM (j := 1) hx (by norm_num) (by norm_num)) (hx) (g := (2001/1000)) (by norm_num) (by norm_num)) (near_lit hM (n := 1) (by norm_num)) (g := (2501/500)) (by norm_num) (by norm_num)).mono (by norm_num)⟩

theorem t_3_err (hM : M.rnd = binary64Format.rnd) {a : FP M} {x : ℝ} (hx : Near a x 1 0) :
    ∃ m, Near (Cpfk.t_3 a) (Cpfk.t_3 x) m (3 ^ 3) :=
  ⟨_, (near_sub hM (near_mul hM (near_mul hM (near_scale hM (j := 2) hx (by norm_num) (by norm_num)) (hx) (g := (4001/1000)) (by norm_num) (by norm_num)) (hx) (g := (4001/500)) (by norm_num) (by norm_num)) (near_mul hM (near_lit hM (n := 3) (by norm_num)) (hx) (g := (3001/1000)) (by norm_num) (by norm_num)) (g := (4501/250)) (by norm_num) (by norm_num)).mono (by norm_num)⟩

theorem t_4_err (hM : M.rnd = binary64Format.rnd) {a : FP M} {x : ℝ} (hx : Near a x 1 0) :
    ∃ m, Near (Cpfk.t_4 a) (Cpfk.t_4 x) m (3 ^ 4) :=
  ⟨_, (near_add hM (near_sub hM (near_mul hM (near_mul hM (near_mul hM (near_scale hM (j := 3) hx (by norm_num) (by norm_num)) (hx) (g := (8001/1000)) (by norm_num) (by norm_num)) (hx) (g := (8001/500)) (by norm_num) (by norm_num)) (hx) (g := (24003/1000)) (by norm_num) (by norm_num)) (near_mul hM (near_scale hM (j := 3) hx (by norm_num) (by norm_num)) (hx) (g := (8001/1000)) (by norm_num) (by norm_num)) (g := (9601/200)) (by norm_num) (by norm_num)) (near_lit hM (n := 1) (by norm_num)) (g := (32503/500)) (by norm_num) (by norm_num)).mono (by norm_num)⟩

theorem t_5_err (hM : M.rnd = binary64Format.rnd) {a : FP M} {x : ℝ} (hx : Near a x 1 0) :
    ∃ m, Near (Cpfk.t_5 a) (Cpfk.t_5 x) m (3 ^ 5) :=
  ⟨_, (near_add hM (near_sub hM (near_mul hM (near_lit hM (n := 16) (by norm_num)) (near_pow hM hx 5 (k := (4001/1000)) (by norm_num)) (g := (80017/1000)) (by norm_num) (by norm_num)) (near_mul hM (near_lit hM (n := 20) (by norm_num)) (near_pow hM hx 3 (k := (2001/1000)) (by norm_num)) (g := (60021/1000)) (by norm_num) (by norm_num)) (g := (176039/1000)) (by norm_num) (by norm_num)) (near_mul hM (near_lit hM (n := 5) (by norm_num)) (hx) (g := (5001/1000)) (by norm_num) (by norm_num)) (g := (222041/1000)) (by norm_num) (by norm_num)).mono (by norm_num)⟩

theorem t_6_err (hM : M.rnd = binary64Format.rnd) {a : FP M} {x : ℝ} (hx : Near a x 1 0) :
    ∃ m, Near (Cpfk.t_6 a) (Cpfk.t_6 x) m (3 ^ 6) :=
  ⟨_, (near_sub hM (near_add hM (near_sub hM (near_mul hM (near_lit hM (n := 32) (by norm_num)) (near_pow hM hx 6 (k := (5001/1000)) (by norm_num)) (g := (192033/1000)) (by norm_num) (by norm_num)) (near_mul hM (near_lit hM (n := 48) (by norm_num)) (near_pow hM hx 4 (k := (3001/1000)) (by norm_num)) (g := (192049/1000)) (by norm_num) (by norm_num)) (g := (464083/1000)) (by norm_num) (by norm_num)) (near_mul hM (near_lit hM (n := 18) (by norm_num)) (near_pow hM hx 2 (k := (1001/1000)) (by norm_num)) (g := (36019/1000)) (by norm_num) (by norm_num)) (g := (598103/1000)) (by norm_num) (by norm_num)) (near_lit hM (n := 1) (by norm_num)) (g := (87138/125)) (by norm_num) (by norm_num)).mono (by norm_num)⟩

theorem t_7_err (hM : M.rnd = binary64Format.rnd) {a : FP M} {x : ℝ} (hx : Near a x 1 0) :
    ∃ m, Near (Cpfk.t_7 a) (Cpfk.t_7 x) m (3 ^ 7) :=
  ⟨_, (near_sub hM (near_add hM (near_sub hM (near_mul hM (near_lit hM (n := 64) (by norm_num)) (near_pow hM hx 7 (k := (6001/1000)) (by norm_num)) (g := (89613/200)) (by norm_num) (by norm_num)) (near_mul hM (near_lit hM (n := 112) (by norm_num)) (near_pow hM hx 5 (k := (4001/1000)) (by norm_num)) (g := (560113/1000)) (by norm_num) (by norm_num)) (g := (1184179/1000)) (by norm_num) (by norm_num)) (near_mul hM (near_lit hM (n := 56) (by norm_num)) (near_pow hM hx 3 (k := (2001/1000)) (by norm_num)) (g := (168057/1000)) (by norm_num) (by norm_num)) (g := (1584237/1000)) (by norm_num) (by norm_num)) (near_mul hM (near_lit hM (n := 7) (by norm_num)) (hx) (g := (7001/1000)) (by norm_num) (by norm_num)) (g := (1830239/1000)) (by norm_num) (by norm_num)).mono (by norm_num)⟩

theorem t_8_err (hM : M.rnd = binary64Format.rnd) {a : FP M} {x : ℝ} (hx : Near a x 1 0) :
    ∃ m, Near (Cpfk.t_8 a) (Cpfk.t_8 x) m (3 ^ 8) :=
  ⟨_, (near_add hM (near_sub hM (near_add hM (near_sub hM (near_mul hM (near_lit hM (n := 128) (by norm_num)) (near_pow hM hx 8 (k := (7001/1000)) (by norm_num)) (g := (1024129/1000)) (by norm_num) (by norm_num)) (near_mul hM (near_lit hM (n := 256) (by norm_num)) (near_pow hM hx 6 (k := (5001/1000)) (by norm_num)) (g := (1536257/1000)) (by norm_num) (by norm_num)) (g := (2944387/1000)) (by norm_num) (by norm_num)) (near_mul hM (near_lit hM (n := 160) (by norm_num)) (near_pow hM hx 4 (k := (3001/1000)) (by norm_num)) (g := (640161/1000)) (by norm_num) (by norm_num)) (g := (4128549/1000)) (by norm_num) (by norm_num)) (near_mul hM (near_lit hM (n := 32) (by norm_num)) (near_pow hM hx 2 (k := (1001/1000)) (by norm_num)) (g := (64033/1000)) (by norm_num) (by norm_num)) (g := (4768583/1000)) (by norm_num) (by norm_num)) (near_lit hM (n := 1) (by norm_num)) (g := (668198/125)) (by norm_num) (by norm_num)).mono (by norm_num)⟩

theorem t_9_err (hM : M.rnd = binary64Format.rnd) {a : FP M} {x : ℝ} (hx : Near a x 1 0) :
    ∃ m, Near (Cpfk.t_9 a) (Cpfk.t_9 x) m (3 ^ 9) :=
  ⟨_, (near_add hM (near_sub hM (near_add hM (near_sub hM (near_mul hM (near_lit hM (n := 256) (by norm_num)) (near_pow hM hx 9 (k := (8001/1000)) (by norm_num)) (g := (2304257/1000)) (by norm_num) (by norm_num)) (near_mul hM (near_lit hM (n := 576) (by norm_num)) (near_pow hM hx 7 (k := (6001/1000)) (by norm_num)) (g := (4032577/1000)) (by norm_num) (by norm_num)) (g := (1433767/200)) (by norm_num) (by norm_num)) (near_mul hM (near_lit hM (n := 432) (by norm_num)) (near_pow hM hx 5 (k := (4001/1000)) (by norm_num)) (g := (2160433/1000)) (by norm_num) (by norm_num)) (g := (10593269/1000)) (by norm_num) (by norm_num)) (near_mul hM (near_lit hM (n := 120) (by norm_num)) (near_pow hM hx 3 (k := (2001/1000)) (by norm_num)) (g := (360121/1000)) (by norm_num) (by norm_num)) (g := (12337391/1000)) (by norm_num) (by norm_num)) (near_mul hM (near_lit hM (n := 9) (by norm_num)) (hx) (g := (9001/1000)) (by norm_num) (by norm_num)) (g := (13739393/1000)) (by norm_num) (by norm_num)).mono (by norm_num)⟩

theorem t_10_err (hM : M.rnd = binary64Format.rnd) {a : FP M} {x : ℝ} (hx : Near a x 1 0) :
    ∃ m, Near (Cpfk.t_10 a) (Cpfk.t_10 x) m (3 ^ 10) :=
  ⟨_, (near_sub hM (near_add hM (near_sub hM (near_add hM (near_sub hM (near_mul hM (near_lit hM (n := 512) (by norm_num)) (near_pow hM hx 10 (k := (9001/1000)) (by norm_num)) (g := (5120513/1000)) (by norm_num) (by norm_num)) (near_mul hM (near_lit hM (n := 1280) (by norm_num)) (near_pow hM hx 8 (k := (7001/1000)) (by norm_num)) (g := (10241281/1000)) (by norm_num) (by norm_num)) (g := (3430759/200)) (by norm_num) (by norm_num)) (near_mul hM (near_lit hM (n := 1120) (by norm_num)) (near_pow hM hx 6 (k := (5001/1000)) (by norm_num)) (g := (6721121/1000)) (by norm_num) (by norm_num)) (g := (26786917/1000)) (by norm_num) (by norm_num)) (near_mul hM (near_lit hM (n := 400) (by norm_num)) (near_pow hM hx 4 (k := (3001/1000)) (by norm_num)) (g := (1600401/1000)) (by norm_num) (by norm_num)) (g := (31699319/1000)) (by norm_num) (by norm_num)) (near_mul hM (near_lit hM (n := 50) (by norm_num)) (near_pow hM hx 2 (k := (1001/1000)) (by norm_num)) (g := (100051/1000)) (by norm_num) (by norm_num)) (g := (35161371/1000)) (by norm_num) (by norm_num)) (near_lit hM (n := 1) (by norm_num)) (g := (9631093/250)) (by norm_num) (by norm_num)).mono (by norm_num)⟩

theorem t_11_err (hM : M.rnd = binary64Format.rnd) {a : FP M} {x : ℝ} (hx : Near a x 1 0) :
    ∃ m, Near (Cpfk.t_11 a) (Cpfk.t_11 x) m (3 ^ 11) :=
  ⟨_, (near_sub hM (near_add hM (near_sub hM (near_add hM (near_sub hM (near_mul hM (near_lit hM (n := 1024) (by norm_num)) (near_pow hM hx 11 (k := (10001/1000)) (by norm_num)) (g := (450601/40)) (by norm_num) (by norm_num)) (near_mul hM (near_lit hM (n := 2816) (by norm_num)) (near_pow hM hx 9 (k := (8001/1000)) (by norm_num)) (g := (25346817/1000)) (by norm_num) (by norm_num)) (g := (40451843/1000)) (by norm_num) (by norm_num)) (near_mul hM (near_lit hM (n := 2816) (by norm_num)) (near_pow hM hx 7 (k := (6001/1000)) (by norm_num)) (g := (19714817/1000)) (by norm_num) (by norm_num)) (g := (66822661/1000)) (by norm_num) (by norm_num)) (near_mul hM (near_lit hM (n := 1232) (by norm_num)) (near_pow hM hx 5 (k := (4001/1000)) (by norm_num)) (g := (6161233/1000)) (by norm_num) (by norm_num)) (g := (16174379/200)) (by norm_num) (by norm_num)) (near_mul hM (near_lit hM (n := 220) (by norm_num)) (near_pow hM hx 3 (k := (2001/1000)) (by norm_num)) (g := (660221/1000)) (by norm_num) (by norm_num)) (g := (89640117/1000)) (by norm_num) (by norm_num)) (near_mul hM (near_lit hM (n := 11) (by norm_num)) (hx) (g := (11001/1000)) (by norm_num) (by norm_num)) (g := (97770119/1000)) (by norm_num) (by norm_num)).mono (by norm_num)⟩

/-! ## Chebyshev polynomials -/

theorem abs_U_le : ∀ (n : ℕ) {x : ℝ}, |x| ≤ 1 → |(_root_.Polynomial.Chebyshev.U ℝ (n : ℤ)).eval x| ≤ n + 1
  | 0, x, _ => by simp
  | n + 1, x, hx => by
    have h := abs_U_le n hx
    have e := _root_.Polynomial.Chebyshev.U_eq_X_mul_U_add_T ℝ (n : ℤ)
    have e' := congrArg (_root_.Polynomial.eval x) e
    rw [_root_.Polynomial.eval_add, _root_.Polynomial.eval_mul, _root_.Polynomial.eval_X] at e'
    push_cast
    rw [e']
    have ht : |(_root_.Polynomial.Chebyshev.T ℝ ((n : ℤ) + 1)).eval x| ≤ 1 := abs_T_le_one _ hx
    refine (abs_add_le _ _).trans ?_
    rw [abs_mul]
    have := mul_le_mul hx h (abs_nonneg _) zero_le_one
    linarith

/-- On `[-1, 1]` the slope of `T n` is at most `n ^ 2`. -/
theorem chebT_lipschitz (n : ℕ) {x y : ℝ} (hx : |x| ≤ 1) (hy : |y| ≤ 1) : |chebT n x - chebT n y| ≤ n ^ 2 * |x - y| := by
  have hd : ∀ z ∈ Set.Icc (-1 : ℝ) 1, ‖deriv (chebT n) z‖ ≤ (n : ℝ) ^ 2 := by
    intro z hz
    have hz1 : |z| ≤ 1 := abs_le.2 hz
    have e : deriv (chebT n) z = n * (_root_.Polynomial.Chebyshev.U ℝ ((n : ℤ) - 1)).eval z := by
      unfold chebT
      rw [_root_.Polynomial.deriv, _root_.Polynomial.Chebyshev.T_derivative_eq_U, _root_.Polynomial.eval_mul]
      simp
    rw [e, Real.norm_eq_abs, abs_mul, abs_of_nonneg (Nat.cast_nonneg n), sq]
    rcases n with _ | n
    · simp
    · refine mul_le_mul_of_nonneg_left ?_ (Nat.cast_nonneg _)
      have := abs_U_le n hz1
      push_cast at this ⊢
      rwa [add_sub_cancel_right]
  have hdiff : ∀ z ∈ Set.Icc (-1 : ℝ) 1, DifferentiableAt ℝ (chebT n) z := fun z _ =>
    (_root_.Polynomial.Chebyshev.T ℝ (n : ℤ)).differentiable z
  exact (convex_Icc (-1 : ℝ) 1).norm_image_sub_le_of_norm_deriv_le hdiff hd (abs_le.1 hy) (abs_le.1 hx)

/-- Every hard-coded polynomial, at a number in `[-1, 1]`. -/
theorem polyOf_err (hM : M.rnd = binary64Format.rnd) (n : Nat) (hn : n ≤ 11) :
    ∃ f : FP M → FP M, Chebyshev.polyOf n = .ok f ∧
      ∀ (a : FP M) (x : ℝ), Is a x → |x| ≤ 1 → ∃ z, Is (f a) z ∧ |z - chebT n x| ≤ 3 ^ n * roundoff := by
  have hu := roundoff_pos
  have fin : ∀ (f : FP M → FP M) (g : ℝ → ℝ) (n : Nat), Chebyshev.polyOf n = .ok g → n ≤ 11 →
      (∀ (a : FP M) (x : ℝ), Near a x 1 0 → ∃ m, Near (f a) (g x) m (3 ^ n)) →
      ∀ (a : FP M) (x : ℝ), Is a x → |x| ≤ 1 → ∃ z, Is (f a) z ∧ |z - chebT n x| ≤ 3 ^ n * roundoff := by
    intro f g n hg hn h a x ha hx
    rw [polyOf_chebT n hn] at hg
    injection hg with hg
    obtain ⟨m, z, h1, h2, -⟩ := h a x ⟨x, ha, by simp, hx⟩
    exact ⟨z, h1, hg ▸ h2⟩
  interval_cases n
  · exact ⟨_, rfl, fin _ _ 0 rfl hn fun a x h =>
      ⟨((1 : ℕ) : ℝ), (near_lit hM (M := M) (n := 1) (by norm_num)).mono (by norm_num)⟩⟩
  · exact ⟨_, rfl, fin _ _ 1 rfl hn fun a x h => ⟨1, h.mono (by norm_num)⟩⟩
  · exact ⟨_, rfl, fin _ _ 2 rfl hn fun a x h => t_2_err hM h⟩
  · exact ⟨_, rfl, fin _ _ 3 rfl hn fun a x h => t_3_err hM h⟩
  · exact ⟨_, rfl, fin _ _ 4 rfl hn fun a x h => t_4_err hM h⟩
  · exact ⟨_, rfl, fin _ _ 5 rfl hn fun a x h => t_5_err hM h⟩
  · exact ⟨_, rfl, fin _ _ 6 rfl hn fun a x h => t_6_err hM h⟩
  · exact ⟨_, rfl, fin _ _ 7 rfl hn fun a x h => t_7_err hM h⟩
  · exact ⟨_, rfl, fin _ _ 8 rfl hn fun a x h => t_8_err hM h⟩
  · exact ⟨_, rfl, fin _ _ 9 rfl hn fun a x h => t_9_err hM h⟩
  · exact ⟨_, rfl, fin _ _ 10 rfl hn fun a x h => t_10_err hM h⟩
  · exact ⟨_, rfl, fin _ _ 11 rfl hn fun a x h => t_11_err hM h⟩

/-! ## Rescaling -/

theorem rescale_err (hM : M.rnd = binary64Format.rnd) {x lo hi : FP M} (h : Within x lo hi) :
    real lo < real hi ∧ 0 ≤ (real x - real lo) / (real hi - real lo) ∧
    (real x - real lo) / (real hi - real lo) ≤ 1 ∧
    ∃ r, Is ((x -. lo) /. (hi -. lo)) r ∧ 0 ≤ r ∧ r ≤ 1 ∧
      |r - (real x - real lo) / (real hi - real lo)| ≤ (301 / 100) * roundoff := by
  obtain ⟨u', r, hu', hr, hr0, hr1, -⟩ := C88_rescale [x] [(lo, hi)] 0 x lo hi rfl rfl h
  cases hu'
  obtain ⟨⟨l, hlo⟩, ⟨c, hhi⟩, h1, h2, d, hd, hd0⟩ := h
  have hxv : ∃ v, x.1 = .fin v ∧ l ≤ v ∧ v ≤ c := by
    refine fin_of_between ?_ ?_
    · rw [← hlo]; exact h1
    · rw [← hhi]; exact h2
  obtain ⟨v, hv, hlv, hvc⟩ := hxv
  have hd' := hd
  obtain ⟨c', l', e1, e2, ed⟩ := sub_err hM hd
  cases is_fun e1 hhi
  cases is_fun e2 hlo
  rw [is_real hv, is_real hlo, is_real hhi]
  have hu := roundoff_pos
  have hu1 : roundoff ≤ 1 / 1000 := by unfold roundoff; norm_num
  have ht : tiny ≤ 1 / 1000 * roundoff := by
    refine le_trans ?_ (mul_le_mul_of_nonneg_right (by norm_num : (1 : ℝ) / 2 ^ 53 ≤ 1 / 1000) hu.le)
    rw [show (1 : ℝ) / 2 ^ 53 = roundoff by norm_num [roundoff], roundoff, tiny, ← zpow_add₀ (by norm_num)]
    exact zpow_le_zpow_right₀ (by norm_num) (by norm_num)
  have hD : l < c := by
    refine lt_of_le_of_ne (hlv.trans hvc) fun he => hd0 ?_
    rw [he, sub_self, abs_zero, mul_zero, sub_zero] at ed
    exact abs_nonpos_iff.1 ed
  have hDp : 0 < c - l := sub_pos.2 hD
  have hN : 0 ≤ v - l := sub_nonneg.2 hlv
  have hND : (v - l) / (c - l) ≤ 1 := (div_le_one hDp).2 (by linarith)
  refine ⟨hD, div_nonneg hN hDp.le, hND, r, hr, hr0, hr1, ?_⟩
  have hq := val_div (x -. lo) (hi -. lo)
  rw [show ((x -. lo) /. (hi -. lo)).1 = .fin r from hr] at hq
  obtain ⟨n, hn⟩ : ∃ n, Is (x -. lo) n := by
    have e : (x -. lo).1 = M.rnd (v + -l) := by rw [val_sub, hv, hlo]; rfl
    have e' : (hi -. lo).1 = M.rnd (c + -l) := by rw [val_sub, hhi, hlo]; rfl
    obtain ⟨n, hn, -⟩ := fin_of_between (x := (x -. lo).1) (a := 0) (b := d)
      (by rw [e]; exact rnd_nonneg (by linarith)) (by
        rw [e, ← show (hi -. lo).1 = .fin d from hd', e']; exact M.rnd_mono (by linarith))
    exact ⟨n, hn⟩
  obtain ⟨v', l'', f1, f2, en⟩ := sub_err hM hn
  cases is_fun f1 hv
  cases is_fun f2 hlo
  have ec := div_err hM hn hd' hd0 hr
  rw [abs_of_pos hDp] at ed
  rw [abs_of_nonneg hN] at en
  generalize v - l = N at *
  generalize c - l = D at *
  have hNle : N ≤ D := (div_le_one hDp).1 hND
  have hdl : (999 / 1000) * D ≤ d := by
    have := (abs_le.1 ed).1
    have := mul_le_mul_of_nonneg_right hu1 hDp.le
    linarith
  have hdp : 0 < d := lt_of_lt_of_le (by positivity) hdl
  have key : |n / d - N / D| ≤ (2003 / 1000) * roundoff := by
    have e : n / d - N / D = ((n - N) * D + N * (D - d)) / (d * D) := by
      rw [div_sub_div _ _ hdp.ne' hDp.ne']
      congr 1
      ring
    rw [e, abs_div, abs_of_pos (mul_pos hdp hDp), div_le_iff₀ (mul_pos hdp hDp)]
    have t1 : |(n - N) * D + N * (D - d)| ≤ roundoff * N * D + N * (roundoff * D) := by
      refine (abs_add_le _ _).trans (add_le_add ?_ ?_)
      · rw [abs_mul, abs_of_pos hDp]
        exact mul_le_mul_of_nonneg_right en hDp.le
      · rw [abs_mul, abs_of_nonneg hN, abs_sub_comm]
        exact mul_le_mul_of_nonneg_left ed hN
    refine t1.trans ?_
    have t2 : N ≤ 1000 / 999 * d := by linarith
    have t3 : roundoff * D * N ≤ roundoff * D * (1000 / 999 * d) := mul_le_mul_of_nonneg_left t2 (by positivity)
    have t4 : 0 ≤ roundoff * d * D := by positivity
    have e5 : roundoff * N * D + N * (roundoff * D) = 2 * (roundoff * D * N) := by ring
    rw [e5]
    linarith
  have hnd1 : |n / d| ≤ 1 + (2003 / 1000) * roundoff := by
    have := abs_add_le (n / d - N / D) (N / D)
    rw [sub_add_cancel, abs_of_nonneg (div_nonneg hN hDp.le)] at this
    linarith
  have t5 := mul_le_mul_of_nonneg_left hnd1 hu.le
  have t6 : roundoff * roundoff ≤ 1 / 1000 * roundoff := mul_le_mul_of_nonneg_right hu1 hu.le
  have t7 := abs_sub_le r (n / d) (N / D)
  generalize roundoff = u at *
  generalize tiny = τ at *
  generalize N / D = ρ at *
  generalize n / d = σ at *
  rw [mul_add, mul_one] at t5
  have : u * (2003 / 1000 * u) = 2003 / 1000 * (u * u) := by ring
  rw [this] at t5
  linarith

/-- The rescaled coordinate in `[-1, 1]`. -/
theorem scaled_err (hM : M.rnd = binary64Format.rnd) {x lo hi : FP M} (h : Within x lo hi) :
    ∃ s, Is (Scalar.ofNat 2 *. ((x -. lo) /. (hi -. lo)) -. Scalar.ofNat 1) s ∧ |s| ≤ 1 ∧
      |s - (2 * ((real x - real lo) / (real hi - real lo)) - 1)| ≤ 8 * roundoff := by
  obtain ⟨-, -, -, r, hr, hr0, hr1, he⟩ := rescale_err hM h
  have hu := roundoff_pos
  obtain ⟨w, hw, hw2, -⟩ := near_scale hM (c := 2) (j := 1) (a := (x -. lo) /. (hi -. lo)) (x := r)
    ⟨r, hr, by simp, abs_le.2 ⟨by linarith, hr1⟩⟩ (by norm_num) (by norm_num)
  rw [zero_mul] at hw2
  have hw' : w = 2 * r := by
    have := sub_eq_zero.1 (abs_nonpos_iff.1 hw2)
    rw [this]
    show ((2 : ℕ) : ℝ) * r = _
    push_cast
    rfl
  subst hw'
  have e : (Scalar.ofNat 2 *. ((x -. lo) /. (hi -. lo)) -. Scalar.ofNat 1 : FP M).1 = M.rnd (2 * r + -1) := by
    rw [val_sub, hw, val_ofNat_one]; rfl
  obtain ⟨s, hs, hs1⟩ := bounded_rnd (c := 1) e (abs_le.2 ⟨by linarith, by linarith⟩) M.rnd_one
  refine ⟨s, hs, hs1, ?_⟩
  obtain ⟨a, b, ha, hb, h3⟩ := sub_err hM hs
  cases is_fun ha hw
  cases is_fun hb val_ofNat_one
  have h4 : |2 * r - 1| ≤ 1 := abs_le.2 ⟨by linarith, by linarith⟩
  have h5 := mul_le_mul_of_nonneg_left h4 hu.le
  generalize (real x - real lo) / (real hi - real lo) = ρ at *
  have h6 := abs_sub_le s (2 * r - 1) (2 * ρ - 1)
  have h7 : |2 * r - 1 - (2 * ρ - 1)| = 2 * |r - ρ| := by
    rw [show 2 * r - 1 - (2 * ρ - 1) = 2 * (r - ρ) by ring, abs_mul, abs_two]
  linarith

/-! ## Products -/

theorem product_err (hM : M.rnd = binary64Format.rnd) (l : List (FP M × ℝ × ℝ))
    (hl : ∀ p ∈ l, 0 ≤ p.2.2 ∧ ∃ z, Is p.1 z ∧ |z - p.2.1| ≤ p.2.2 * roundoff ∧ |p.2.1| ≤ 1)
    (hs : (l.map fun p => p.2.2 + 1).sum * (2 * roundoff) ≤ 1 / 4) :
    ∃ z, Is ((l.map Prod.fst).foldl (· *. ·) Scalar.one) z ∧
      |z - (l.map fun p => p.2.1).prod| ≤ (l.map fun p => p.2.2 + 1).sum * (2 * roundoff) := by
  have hu := roundoff_pos
  have ht : tiny ≤ 1 / 100 * roundoff := by
    refine le_trans ?_ (mul_le_mul_of_nonneg_right (by norm_num : (1 : ℝ) / 2 ^ 53 ≤ 1 / 100) hu.le)
    rw [show (1 : ℝ) / 2 ^ 53 = roundoff by norm_num [roundoff], roundoff, tiny, ← zpow_add₀ (by norm_num)]
    exact zpow_le_zpow_right₀ (by norm_num) (by norm_num)
  suffices ∃ z, Is ((l.map Prod.fst).foldl (· *. ·) Scalar.one) z ∧ |(l.map fun p => p.2.1).prod| ≤ 1 ∧
      |z - (l.map fun p => p.2.1).prod| ≤ (l.map fun p => p.2.2 + 1).sum * (2 * roundoff) by
    obtain ⟨z, h1, -, h2⟩ := this
    exact ⟨z, h1, h2⟩
  induction l using List.reverseRecOn with
  | nil => exact ⟨1, val_one, by simp, by simp⟩
  | append_singleton l p ih =>
    rw [List.map_append, List.sum_append, List.map_singleton, List.sum_singleton] at hs
    obtain ⟨hp0, w, hw, hw1, hw2⟩ := hl p (List.mem_append_right _ List.mem_cons_self)
    have hsum0 : 0 ≤ (l.map fun p => p.2.2 + 1).sum := List.sum_nonneg fun y hy => by
      obtain ⟨q, hq, rfl⟩ := List.mem_map.1 hy
      have := (hl q (List.mem_append_left _ hq)).1
      linarith
    rw [add_mul] at hs
    have hpos2 : 0 ≤ (p.2.2 + 1) * (2 * roundoff) := by positivity
    have hpos1 : 0 ≤ (l.map fun p => p.2.2 + 1).sum * (2 * roundoff) := mul_nonneg hsum0 (by positivity)
    obtain ⟨z, hz, hq1, hz1⟩ := ih (fun q hq => hl q (List.mem_append_left _ hq)) (by linarith)
    rw [List.map_append, List.foldl_append, List.map_append, List.prod_append, List.map_append, List.sum_append,
      List.map_singleton, List.map_singleton, List.map_singleton, List.prod_singleton, List.sum_singleton,
      List.foldl_cons, List.foldl_nil]
    generalize (l.map fun p => p.2.1).prod = Q at *
    generalize (l.map fun p => p.2.2 + 1).sum = S at *
    generalize (l.map Prod.fst).foldl (· *. ·) Scalar.one = acc at *
    generalize p.2.1 = t at *
    generalize p.2.2 = ε at *
    have hza : |z| ≤ 5 / 4 := by
      have := abs_add_le (z - Q) Q
      rw [sub_add_cancel] at this
      linarith
    have hwa : |w| ≤ 5 / 4 := by
      have := abs_add_le (w - t) t
      rw [sub_add_cancel] at this
      have : ε * roundoff ≤ (ε + 1) * (2 * roundoff) := by nlinarith
      linarith
    have hzw : |z * w| ≤ 25 / 16 := by
      rw [abs_mul]
      calc |z| * |w| ≤ 5 / 4 * (5 / 4) := mul_le_mul hza hwa (abs_nonneg _) (by norm_num)
        _ = _ := by norm_num
    obtain ⟨v, hv⟩ := finite_of_small hM (a := acc *. p.1) (x := z * w) (by rw [val_mul, hz, hw]; rfl)
      (hzw.trans (by norm_num))
    refine ⟨v, hv, ?_, ?_⟩
    · rw [abs_mul]; exact mul_le_one₀ hq1 (abs_nonneg _) hw2
    obtain ⟨a, b, ha, hb, h3⟩ := mul_err hM hv
    cases is_fun ha hz
    cases is_fun hb hw
    have h4 := mul_le_mul_of_nonneg_left hzw hu.le
    have h5 : |z * w - Q * t| ≤ 5 / 4 * (ε * roundoff) + S * (2 * roundoff) := by
      rw [show z * w - Q * t = z * (w - t) + t * (z - Q) by ring]
      refine (abs_add_le _ _).trans (add_le_add ?_ ?_)
      · rw [abs_mul]; exact mul_le_mul hza hw1 (abs_nonneg _) (by norm_num)
      · rw [abs_mul]; exact (mul_le_of_le_one_left (abs_nonneg _) hw2).trans hz1
    have h6 := abs_sub_le v (z * w) (Q * t)
    rw [add_mul]
    have h7 : 0 ≤ ε * roundoff := by positivity
    have h8 : (ε + 1) * (2 * roundoff) = 2 * (ε * roundoff) + 2 * roundoff := by ring
    rw [h8]
    linarith


end Lfa

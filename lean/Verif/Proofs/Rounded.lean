import Verif.Proofs.Binary64
import Verif.Proofs.OptimReal
import Verif.Spec.Machine

/-! # Lemmas about rounded arithmetic used for optimisers -/

set_option linter.unusedSectionVars false

namespace Lfa

open Spec XReal

namespace Format

variable (F : Format)

/-- The largest representable number below a power of two. -/
theorem le_pred {x : ℝ} {E : ℤ} (hx : F.nearest x = x) (h : |x| < 2 ^ E) (hp : F.emin ≤ E - F.p) :
    |x| ≤ (2 ^ F.p - 1) * 2 ^ (E - F.p) := by
  have hp1 := F.p_pos
  have hz := two_zpow_pos (E - F.p)
  have h2p : (2 : ℝ) ≤ 2 ^ F.p := by
    calc (2 : ℝ) = 2 ^ 1 := (pow_one 2).symm
      _ ≤ 2 ^ F.p := pow_le_pow_right₀ (by norm_num) hp1
  by_cases h0 : x = 0
  · rw [h0, abs_zero]
    exact mul_nonneg (by linarith) hz.le
  have e1 : (2 : ℝ) ^ E = 2 ^ F.p * 2 ^ (E - F.p) := by
    rw [← zpow_natCast, ← zpow_add₀ (by norm_num)]; congr 1; ring
  have hu : F.ulp x ≤ E - F.p := by
    have := (Int.lt_zpow_iff_log_lt (R := ℝ) (b := 2) (by norm_num) (abs_pos.2 h0)).1
      (by exact_mod_cast h)
    unfold ulp
    omega
  rcases eq_or_lt_of_le hu with he | he
  · -- the mantissa is an integer below `2 ^ p`
    have hx' : x = rne (x / 2 ^ F.ulp x) * 2 ^ (E - F.p) := by
      conv_lhs => rw [← hx]
      unfold nearest
      rw [he]
    set m := rne (x / 2 ^ F.ulp x)
    have hm : |x| = ((|m| : ℤ) : ℝ) * 2 ^ (E - F.p) := by
      rw [hx', abs_mul, abs_of_pos hz, Int.cast_abs]
    rw [hm, e1] at h
    have h := lt_of_mul_lt_mul_right h hz.le
    have h : |m| < 2 ^ F.p := by exact_mod_cast h
    rw [hm]
    refine mul_le_mul_of_nonneg_right ?_ hz.le
    have : |m| ≤ 2 ^ F.p - 1 := by omega
    exact_mod_cast this
  · have h1 := (F.lt_ulp (r := x)).le
    have h2 : (2 : ℝ) ^ (F.ulp x + F.p) ≤ 2 ^ (F.p - 1) * 2 ^ (E - F.p) := by
      rw [← zpow_natCast, ← zpow_add₀ (by norm_num)]
      exact zpow_le_zpow_right₀ (by norm_num) (by omega)
    refine h1.trans (h2.trans (mul_le_mul_of_nonneg_right ?_ hz.le))
    have h3 : (2 : ℝ) ^ F.p = 2 * 2 ^ (F.p - 1) := by
      rw [← pow_succ']; congr 1; omega
    have h4 : (1 : ℝ) ≤ 2 ^ (F.p - 1) := one_le_pow₀ (by norm_num)
    linarith

/-- Representable numbers can be scaled up by powers of two. -/
theorem nearest_scale {x : ℝ} (hx : F.nearest x = x) (k : Nat) : F.nearest (x * 2 ^ k) = x * 2 ^ k := by
  have e : x * 2 ^ k = rne (x / 2 ^ F.ulp x) * 2 ^ (F.ulp x + k) := by
    rw [zpow_add₀ (by norm_num), ← mul_assoc, zpow_natCast]
    conv_lhs => rw [← hx]
    rfl
  rw [e]
  exact F.nearest_exact F.mant_le (le_trans (le_max_left ..) (by omega : F.ulp x ≤ F.ulp x + k))

/-- A power of two plus half a unit rounds back to it. -/
theorem nearest_tie (hp2 : 2 ≤ F.p) (k : ℤ) (hk : F.emin ≤ k - (F.p - 1)) :
    F.nearest (2 ^ k + 2 ^ (k - F.p)) = 2 ^ k := by
  have h1 := two_zpow_pos k
  have h2 := two_zpow_pos (k - F.p)
  have hlt : (2 : ℝ) ^ (k - F.p) < 2 ^ k := zpow_lt_zpow_right₀ (by norm_num) (by omega)
  have hpos : (0 : ℝ) < 2 ^ k + 2 ^ (k - F.p) := by linarith
  have l1 : k ≤ Int.log 2 ((2 : ℝ) ^ k + 2 ^ (k - F.p)) :=
    (Int.zpow_le_iff_le_log (R := ℝ) (b := 2) (by norm_num) hpos).1 (by push_cast; linarith)
  have l2 : Int.log 2 ((2 : ℝ) ^ k + 2 ^ (k - F.p)) < k + 1 :=
    (Int.lt_zpow_iff_log_lt (R := ℝ) (b := 2) (by norm_num) hpos).1
      (by push_cast; rw [zpow_add₀ (by norm_num), zpow_one]; linarith)
  have hu : F.ulp (2 ^ k + 2 ^ (k - F.p)) = k - (F.p - 1) := by
    unfold ulp
    rw [abs_of_pos hpos]
    omega
  have hq : ((2 : ℝ) ^ k + 2 ^ (k - F.p)) / 2 ^ (k - (F.p - 1 : ℤ)) =
      ((2 ^ (F.p - 1) : ℤ) : ℝ) + 1 / 2 := by
    rw [add_div, ← zpow_sub₀ (by norm_num), ← zpow_sub₀ (by norm_num), zpow_nat]
    congr 1
    · congr 1; omega
    · rw [show k - (F.p : ℤ) - (k - (F.p - 1 : ℤ)) = -1 by ring]; norm_num
  unfold nearest
  rw [hu, hq]
  have hfl : ⌊((2 ^ (F.p - 1) : ℤ) : ℝ) + 1 / 2⌋ = 2 ^ (F.p - 1) := by
    rw [Int.floor_intCast_add]; norm_num
  have hfr : Int.fract (((2 ^ (F.p - 1) : ℤ) : ℝ) + 1 / 2) = 1 / 2 := by
    rw [Int.fract_intCast_add]; norm_num
  have hr : rne (((2 ^ (F.p - 1) : ℤ) : ℝ) + 1 / 2) = 2 ^ (F.p - 1) := by
    unfold rne
    rw [hfr, hfl, if_neg (lt_irrefl _), if_neg (lt_irrefl _), if_pos]
    exact (Int.even_pow' (by omega)).2 even_two
  rw [hr, zpow_nat, ← zpow_add₀ (by norm_num)]
  congr 1
  omega

/-- Adding less than a quarter unit to the largest finite number does not overflow. -/
theorem nearest_lt_max {x : ℝ} (hp : F.emin ≤ F.emax - F.p)
    (h : |x| ≤ (2 ^ F.p - 1) * 2 ^ (F.emax - F.p) + 2 ^ (F.emax - F.p) / 4) :
    |F.nearest x| < 2 ^ F.emax := by
  have hp1 := F.p_pos
  have hz := two_zpow_pos (F.emax - F.p)
  have e1 : (2 : ℝ) ^ F.emax = 2 ^ F.p * 2 ^ (F.emax - F.p) := by
    rw [← zpow_natCast, ← zpow_add₀ (by norm_num)]; congr 1; ring
  have habs : |F.nearest x| = F.nearest |x| := by
    rcases le_total 0 x with h0 | h0
    · rw [abs_of_nonneg h0, abs_of_nonneg (F.nearest_nonneg h0)]
    · rw [abs_of_nonpos h0, nearest_neg, abs_of_nonpos]
      have := F.nearest_nonneg (neg_nonneg.2 h0)
      rw [nearest_neg] at this
      linarith
  rw [habs]
  refine lt_of_le_of_lt (F.nearest_mono h) ?_
  set B : ℝ := (2 ^ F.p - 1) * 2 ^ (F.emax - F.p) + 2 ^ (F.emax - F.p) / 4 with hB
  have h2p : (2 : ℝ) ≤ 2 ^ F.p := by
    calc (2 : ℝ) = 2 ^ 1 := (pow_one 2).symm
      _ ≤ 2 ^ F.p := pow_le_pow_right₀ (by norm_num) hp1
  have hBpos : 0 < B := by
    rw [hB]
    have : (0 : ℝ) ≤ 2 ^ F.p - 1 := by linarith
    positivity
  have hBe : B = (2 ^ F.p - 1 + 1 / 4) * 2 ^ (F.emax - F.p) := by rw [hB]; ring
  have hBlt : B < 2 ^ F.emax := by
    rw [hBe, e1]
    exact mul_lt_mul_of_pos_right (by linarith) hz
  have hBge : (2 : ℝ) ^ (F.emax - 1) ≤ B := by
    have e2 : (2 : ℝ) ^ (F.emax - 1) = 2 ^ F.p / 2 * 2 ^ (F.emax - F.p) := by
      rw [zpow_sub₀ (by norm_num), e1, zpow_one]; ring
    rw [e2, hBe]
    exact mul_le_mul_of_nonneg_right (by linarith) hz.le
  have l1 := (Int.zpow_le_iff_le_log (R := ℝ) (b := 2) (by norm_num) hBpos).1
    (by exact_mod_cast hBge)
  have l2 := (Int.lt_zpow_iff_log_lt (R := ℝ) (b := 2) (by norm_num) hBpos).1
    (by exact_mod_cast hBlt)
  have hu : F.ulp B = F.emax - F.p := by
    unfold ulp
    rw [abs_of_pos hBpos]
    omega
  have hq : B / 2 ^ F.ulp B = ((2 ^ F.p - 1 : ℤ) : ℝ) + 1 / 4 := by
    rw [hu, hBe, mul_div_assoc, div_self hz.ne', mul_one]
    push_cast
    ring
  have hr : rne (B / 2 ^ F.ulp B) = 2 ^ F.p - 1 := by
    have h1 := abs_le.1 (rne_err (B / 2 ^ F.ulp B))
    rw [hq] at h1 ⊢
    set m := rne (((2 ^ F.p - 1 : ℤ) : ℝ) + 1 / 4)
    have a1 : ((2 ^ F.p - 1 : ℤ) : ℝ) - 1 < m := by linarith [h1.1]
    have a2 : (m : ℝ) < ((2 ^ F.p - 1 : ℤ) : ℝ) + 1 := by linarith [h1.2]
    have a1 : (2 ^ F.p - 1 : ℤ) - 1 < m := by
      have : (((2 ^ F.p - 1 : ℤ) - 1 : ℤ) : ℝ) < m := by push_cast at a1 ⊢; linarith
      exact_mod_cast this
    have a2 : m < (2 ^ F.p - 1 : ℤ) + 1 := by
      have : (m : ℝ) < (((2 ^ F.p - 1 : ℤ) + 1 : ℤ) : ℝ) := by push_cast at a2 ⊢; linarith
      exact_mod_cast this
    omega
  unfold nearest
  rw [hr, hu, e1]
  refine mul_lt_mul_of_pos_right ?_ hz
  push_cast
  linarith

end Format

open Machine

variable {M : Machine}

theorem mul_one_fp (a : FP M) : M.mul a (M.lit 1) = a := by
  apply fp_ext
  show (M.round (XReal.mul a.1 (M.rnd 1))).1 = _
  rw [M.rnd_one]
  have : XReal.mul a.1 (.fin 1) = a.1 := by cases a.1 <;> simp [XReal.mul, XReal.infSign]
  rw [this, round_self]

theorem one_mul_fp (a : FP M) : M.mul (M.lit 1) a = a :=
  (mul_comm_fp (M.lit 1) a).trans (mul_one_fp a)

theorem powTree_zero (a : FP M) : ∀ t : PowTree, t.degree = 0 → t.eval M.mul (M.lit 1) a = M.lit 1
  | .one, _ => rfl
  | .base, h => by cases h
  | .mul l r, h => by
    have h : l.degree + r.degree = 0 := h
    show M.mul _ _ = _
    rw [powTree_zero a l (by omega), powTree_zero a r (by omega), one_mul_fp]

theorem powTree_one (a : FP M) : ∀ t : PowTree, t.degree = 1 → t.eval M.mul (M.lit 1) a = a
  | .one, h => by cases h
  | .base, _ => rfl
  | .mul l r, h => by
    have h : l.degree + r.degree = 1 := h
    show M.mul _ _ = _
    rcases (by omega : l.degree = 0 ∧ r.degree = 1 ∨ l.degree = 1 ∧ r.degree = 0) with ⟨h1, h2⟩ | ⟨h1, h2⟩
    · rw [powTree_zero a l h1, powTree_one a r h2, one_mul_fp]
    · rw [powTree_one a l h1, powTree_zero a r h2, mul_one_fp]

theorem powTree_two (a : FP M) : ∀ t : PowTree, t.degree = 2 →
    t.eval M.mul (M.lit 1) a = M.mul a a
  | .one, h => by cases h
  | .base, h => by cases h
  | .mul l r, h => by
    have h : l.degree + r.degree = 2 := h
    show M.mul _ _ = _
    rcases (by omega : l.degree = 0 ∧ r.degree = 2 ∨ l.degree = 2 ∧ r.degree = 0 ∨
      l.degree = 1 ∧ r.degree = 1) with ⟨h1, h2⟩ | ⟨h1, h2⟩ | ⟨h1, h2⟩
    · rw [powTree_zero a l h1, powTree_two a r h2, one_mul_fp]
    · rw [powTree_two a l h1, powTree_zero a r h2, mul_one_fp]
    · rw [powTree_one a l h1, powTree_one a r h2]

/-- `powi(a, 2)` is `a * a`, whatever the order of multiplication. -/
theorem powi_two (a : FP M) : Scalar.powi a 2 = a *. a := powTree_two a _ (M.powTree_degree 2)

theorem mul_one_scalar (a : FP M) : a *. Scalar.one = a := by
  have : (Scalar.one : FP M) = M.lit 1 := fp_ext (val_one.trans M.rnd_one.symm)
  rw [this]; exact mul_one_fp a

theorem finite_zero : Finite (Scalar.zero : FP M) := ⟨0, val_zero⟩
theorem nonNeg_zero : NonNeg (Scalar.zero : FP M) := by
  unfold NonNeg; rw [val_zero]; exact le_refl (0 : ℝ)

theorem zero_mul_fin {a : FP M} (h : Finite a) : Finite (Scalar.zero *. a) := by
  obtain ⟨r, hr⟩ := h
  refine ⟨0, ?_⟩
  show (Scalar.zero *. a).1 = _
  rw [val_mul, val_zero, hr]
  show M.rnd (0 * r) = _
  rw [zero_mul, rnd_zero]

/-- Multiplying by a number in `[-1, 1]` does not enlarge. -/
theorem mul_unit {a b : FP M} {r : ℝ} (ha : InUnit a) (hb : Is b r) : ∃ q, Is (a *. b) q ∧ |q| ≤ |r| := by
  obtain ⟨s, hs, hs1⟩ := ha
  have hle : |s * r| ≤ |r| := by
    rw [abs_mul]; exact mul_le_of_le_one_left (abs_nonneg r) hs1
  have hv : (a *. b).1 = M.rnd (s * r) := by rw [val_mul, hs, hb]; rfl
  have hr : M.rnd |r| = .fin |r| := by
    rcases abs_choice r with e | e <;> rw [e]
    · exact b.2 r hb
    · rw [M.rnd_neg, b.2 r hb]; rfl
  have h1 := M.rnd_mono (abs_le.1 hle).1
  have h2 := M.rnd_mono (abs_le.1 hle).2
  rw [M.rnd_neg, hr] at h1
  rw [hr] at h2
  obtain ⟨q, hq, hq1⟩ := bounded_of_le h1 h2
  exact ⟨q, hv.trans hq, hq1⟩

/-- `f64`: adding a number of magnitude at most `2 ^ 969` to a finite number does not overflow. -/
theorem finite_add {w d : FP M} (hM : M.rnd = binary64Format.rnd) (hw : Finite w)
    (hd : ∃ r, Is d r ∧ |r| ≤ 2 ^ (969 : ℤ)) : Finite (w +. d) := by
  obtain ⟨x, hx⟩ := hw
  obtain ⟨y, hy, hy1⟩ := hd
  have hp : binary64Format.emin ≤ binary64Format.emax - binary64Format.p := by decide
  obtain ⟨h1, h2⟩ := binary64Format.rnd_eq_fin (r := x) (q := x) (by rw [← hM]; exact w.2 x hx)
  have hmax := binary64Format.le_pred h1 h2 hp
  have hlt := binary64Format.nearest_lt_max (x := x + y) hp (by
    refine (abs_add_le x y).trans (add_le_add hmax (hy1.trans (le_of_eq ?_)))
    show (2 : ℝ) ^ (969 : ℤ) = 2 ^ (971 : ℤ) / 4
    rw [show (971 : ℤ) = 969 + 2 by norm_num, zpow_add₀ (by norm_num) (969 : ℤ)]
    norm_num)
  refine ⟨binary64Format.nearest (x + y), ?_⟩
  show (w +. d).1 = _
  rw [val_add, hx, hy]
  show M.rnd (x + y) = _
  rw [hM, Format.rnd_of_lt _ hlt]

/-- `f64`: adding a number in `[-1, 1]` to a finite number does not overflow. -/
theorem finite_add_unit (hM : M.rnd = binary64Format.rnd) {w d : FP M} (hw : Finite w)
    (hd : InUnit d) : Finite (w +. d) := by
  obtain ⟨r, hr, h1⟩ := hd
  exact finite_add hM hw ⟨r, hr, h1.trans (one_le_zpow₀ (by norm_num) (by norm_num))⟩

/-- `f64`: the constant `1e-7` exceeds `2 ^ -511`. -/
theorem eps_binary64 (hM : M.rnd = binary64Format.rnd) :
    XReal.fin (2 ^ (-511 : ℤ)) ≤ (EPS : FP M).1 := by
  have h := M.rnd_mono (show (2 : ℝ) ^ (-511 : ℤ) ≤ ((1 : Nat) : ℝ) / 10 ^ 7 by
    calc (2 : ℝ) ^ (-511 : ℤ) ≤ 2 ^ (-24 : ℤ) := zpow_le_zpow_right₀ (by norm_num) (by norm_num)
      _ ≤ _ := by norm_num)
  have e : M.rnd (2 ^ (-511 : ℤ)) = .fin (2 ^ (-511 : ℤ)) := by
    have := binary64Format.rnd_exact (m := 1) (e := -511) (by decide) (by decide) (by
      rw [Int.cast_one, one_mul, abs_of_pos (Format.two_zpow_pos _)]
      exact zpow_lt_zpow_right₀ (by norm_num) (by decide))
    rw [Int.cast_one, one_mul] at this
    rw [hM, this]
  rw [e] at h
  exact h

/-! ## Bounds in `f64` -/

theorem bounded_rnd {a : FP M} {x c : ℝ} (h : a.1 = M.rnd x) (hx : |x| ≤ c)
    (hc : M.rnd c = .fin c) : Bounded c a := by
  have h1 := M.rnd_mono (abs_le.1 hx).1
  have h2 := M.rnd_mono (abs_le.1 hx).2
  rw [M.rnd_neg, hc] at h1
  rw [hc] at h2
  obtain ⟨q, hq, hq1⟩ := bounded_of_le h1 h2
  exact ⟨q, h.trans hq, hq1⟩

theorem bounded_mono {a : FP M} {c d : ℝ} (h : Bounded c a) (hcd : c ≤ d) : Bounded d a := by
  obtain ⟨r, hr, h1⟩ := h
  exact ⟨r, hr, h1.trans hcd⟩

theorem bounded_zero {c : ℝ} (hc : 0 ≤ c) : Bounded c (Scalar.zero : FP M) :=
  ⟨0, val_zero, by rwa [abs_zero]⟩

theorem two_pow_lt {k : Nat} (h : k ≤ 1023) : (2 : ℝ) ^ k < 2 ^ binary64Format.emax := by
  rw [← zpow_natCast]
  exact zpow_lt_zpow_right₀ (by norm_num) (by show (k : ℤ) < 1024; omega)

/-- Scaling up a number of `[-1, 1]` is exact. -/
theorem rnd_scale (hM : M.rnd = binary64Format.rnd) {b : FP M} {x : ℝ} (hb : Is b x) (hx : |x| ≤ 1)
    {k : Nat} (hk : k ≤ 1023) : M.rnd (x * 2 ^ k) = .fin (x * 2 ^ k) := by
  obtain ⟨h1, -⟩ := binary64Format.rnd_eq_fin (r := x) (q := x) (by rw [← hM]; exact b.2 x hb)
  have h2 := binary64Format.nearest_scale h1 k
  rw [hM, Format.rnd_of_lt _ (by
    rw [h2, abs_mul, abs_of_pos (by positivity : (0 : ℝ) < 2 ^ k)]
    refine lt_of_le_of_lt ?_ (two_pow_lt hk)
    exact mul_le_of_le_one_left (by positivity) hx), h2]

theorem rnd_two_pow (hM : M.rnd = binary64Format.rnd) {k : Nat} (hk : k ≤ 1023) :
    M.rnd (2 ^ k) = .fin (2 ^ k) := by
  have := rnd_scale hM (b := Scalar.one) val_one (by simp) hk
  rwa [one_mul] at this

/-- The largest number below 1. -/
theorem decay_le (hM : M.rnd = binary64Format.rnd) {a : FP M} {r : ℝ} (h : Is a r) (h0 : 0 ≤ r)
    (h1 : r < 1) : r ≤ 1 - 2 ^ (-53 : ℤ) := by
  obtain ⟨h2, -⟩ := binary64Format.rnd_eq_fin (r := r) (q := r) (by rw [← hM]; exact a.2 r h)
  have := binary64Format.le_pred (E := 0) h2 (by rw [abs_of_nonneg h0, zpow_zero]; exact h1)
    (by decide)
  rw [abs_of_nonneg h0] at this
  refine this.trans (le_of_eq ?_)
  show ((2 : ℝ) ^ 53 - 1) * 2 ^ (0 - (53 : ℤ)) = _
  norm_num

/-- `1 - β` as computed. -/
theorem complement (hM : M.rnd = binary64Format.rnd) {β : FP M} {b : ℝ} (h : Is β b) (h0 : 0 ≤ b)
    (h1 : b ≤ 1) : ∃ c, Is (Scalar.ofNat 1 -. β) c ∧ 0 ≤ c ∧ c ≤ 1 ∧ b + c ≤ 1 + 2 ^ (-53 : ℤ) := by
  have hv : (Scalar.ofNat 1 -. β).1 = M.rnd (1 - b) := by
    rw [val_sub, val_ofNat_one, h, sub_eq_add_neg]; rfl
  have l := rnd_nonneg (M := M) (r := 1 - b) (by linarith)
  have u := rnd_le_one (M := M) (r := 1 - b) (by linarith)
  obtain ⟨c, hc, c0, c1⟩ := fin_of_between l u
  refine ⟨c, hv.trans hc, c0, c1, ?_⟩
  rw [hM] at hc
  obtain ⟨hn, -⟩ := binary64Format.rnd_eq_fin hc
  have herr := (abs_le.1 (binary64Format.nearest_err (1 - b))).2
  rw [hn] at herr
  have hu : binary64Format.ulp (1 - b) ≤ -52 := by
    have hl : Int.log 2 |1 - b| < 1 := by
      by_cases hz : 1 - b = 0
      · rw [hz, abs_zero, Int.log_zero_right]; norm_num
      · refine (Int.lt_zpow_iff_log_lt (R := ℝ) (b := 2) (by norm_num) (abs_pos.2 hz)).1 ?_
        rw [abs_of_nonneg (by linarith)]
        norm_num
        linarith
    show max (-1074 : ℤ) (Int.log 2 |1 - b| - ((53 : ℕ) - 1)) ≤ -52
    omega
  have hz : (2 : ℝ) ^ binary64Format.ulp (1 - b) ≤ 2 ^ (-52 : ℤ) :=
    zpow_le_zpow_right₀ (by norm_num) hu
  have e : (2 : ℝ) ^ (-52 : ℤ) / 2 = 2 ^ (-53 : ℤ) := by norm_num
  rw [← e]
  generalize (2 : ℝ) ^ (-52 : ℤ) = t at hz
  generalize (2 : ℝ) ^ binary64Format.ulp (1 - b) = u at hz herr
  linarith

/-- A decay rate times a bounded number. -/
theorem bounded_mul (hM : M.rnd = binary64Format.rnd) {β m : FP M} {b : ℝ} (h : Is β b) (h0 : 0 ≤ b)
    (h1 : b ≤ 1) {k : Nat} (hk : k ≤ 1023) (hm : Bounded (2 ^ k) m) :
    Bounded (b * 2 ^ k) (β *. m) := by
  obtain ⟨r, hr, hr1⟩ := hm
  refine bounded_rnd (x := b * r) (by rw [val_mul, h, hr]; rfl) ?_
    (rnd_scale hM h (by rwa [abs_of_nonneg h0]) hk)
  rw [abs_mul, abs_of_nonneg h0]
  exact mul_le_mul_of_nonneg_left hr1 h0

/-- A sum of two parts whose shares add up to 1, up to rounding. -/
theorem bounded_share (hM : M.rnd = binary64Format.rnd) {x y : FP M} {b c : ℝ} {k : Nat}
    (hk : k ≤ 1023) (hx : Bounded (b * 2 ^ k) x) (hy : Bounded (c * 2 ^ k) y)
    (hbc : b + c ≤ 1 + 2 ^ (-53 : ℤ)) : Bounded (2 ^ k) (x +. y) := by
  obtain ⟨r, hr, hr1⟩ := hx
  obtain ⟨s, hs, hs1⟩ := hy
  have hv : (x +. y).1 = M.rnd (r + s) := by rw [val_add, hr, hs]; rfl
  have hpos : (0 : ℝ) < 2 ^ k := by positivity
  have hT : |r + s| ≤ 2 ^ (k : ℤ) + 2 ^ ((k : ℤ) - (53 : ℕ)) := by
    refine (abs_add_le r s).trans ?_
    have : (2 : ℝ) ^ (k : ℤ) + 2 ^ ((k : ℤ) - (53 : ℕ)) = (1 + 2 ^ (-53 : ℤ)) * 2 ^ k := by
      rw [sub_eq_add_neg, zpow_add₀ (by norm_num), zpow_natCast]
      push_cast
      ring
    rw [this]
    nlinarith
  have htie : M.rnd (2 ^ (k : ℤ) + 2 ^ ((k : ℤ) - (53 : ℕ))) = .fin (2 ^ k) := by
    have := binary64Format.nearest_tie (by decide) (k : ℤ) (by show (-1074 : ℤ) ≤ k - ((53 : ℕ) - 1); omega)
    have this : binary64Format.nearest (2 ^ (k : ℤ) + 2 ^ ((k : ℤ) - (53 : ℕ))) = 2 ^ (k : ℤ) := this
    rw [hM, Format.rnd_of_lt _ (by
      rw [this, zpow_natCast, abs_of_pos hpos]
      exact two_pow_lt hk), this, zpow_natCast]
  have h1 := M.rnd_mono (abs_le.1 hT).1
  have h2 := M.rnd_mono (abs_le.1 hT).2
  rw [M.rnd_neg, htie] at h1
  rw [htie] at h2
  obtain ⟨q, hq, hq1⟩ := bounded_of_le h1 h2
  exact ⟨q, hv.trans hq, hq1⟩

theorem finite_add_pow (hM : M.rnd = binary64Format.rnd) {w d : FP M} (hw : Finite w) {k : Nat}
    (hk : k ≤ 969) (hd : Bounded (2 ^ k) d) : Finite (w +. d) := by
  obtain ⟨r, hr, h1⟩ := hd
  refine finite_add hM hw ⟨r, hr, h1.trans ?_⟩
  rw [← zpow_natCast]
  exact zpow_le_zpow_right₀ (by norm_num) (by omega)

/-- Multiplying by a number in `[-1, 1]` keeps a bound. -/
theorem bounded_unit_mul {a b : FP M} {c : ℝ} (ha : InUnit a) (hb : Bounded c b) :
    Bounded c (a *. b) := by
  obtain ⟨r, hr, h1⟩ := hb
  obtain ⟨q, hq, h2⟩ := mul_unit ha hr
  exact ⟨q, hq, h2.trans h1⟩

/-- The bias-correction factor `1 - p` is at least `2 ^ -53`. -/
theorem correction (hM : M.rnd = binary64Format.rnd) {p : FP M} (hp : Decay p) :
    ∃ c, Is (Scalar.ofNat 1 -. p) c ∧ 2 ^ (-53 : ℤ) ≤ c := by
  obtain ⟨r, hr, h0, h1⟩ := hp
  have hle := decay_le hM hr h0 h1
  obtain ⟨c, hc, -, -, -⟩ := complement hM hr h0 h1.le
  refine ⟨c, hc, ?_⟩
  have hv : (Scalar.ofNat 1 -. p).1 = M.rnd (1 - r) := by
    rw [val_sub, val_ofNat_one, hr, sub_eq_add_neg]; rfl
  have h := M.rnd_mono (show (2 : ℝ) ^ (-53 : ℤ) ≤ 1 - r by linarith)
  have e : M.rnd (2 ^ (-53 : ℤ)) = .fin (2 ^ (-53 : ℤ)) := by
    have := binary64Format.rnd_exact (m := 1) (e := -53) (by decide) (by decide) (by
      rw [Int.cast_one, one_mul, abs_of_pos (Format.two_zpow_pos _)]
      exact zpow_lt_zpow_right₀ (by norm_num) (by decide))
    rw [Int.cast_one, one_mul] at this
    rw [hM, this]
  rw [e, ← hv, hc] at h
  exact h

/-- Dividing a bounded number by at least `2 ^ -j`. -/
theorem bounded_div (hM : M.rnd = binary64Format.rnd) {a z : FP M} {k j : Nat} (hkj : k + j ≤ 1023)
    (ha : Bounded (2 ^ k) a) (hz : XReal.fin (2 ^ (-(j : ℤ))) ≤ z.1) :
    Bounded (2 ^ (k + j)) (a /. z) := by
  obtain ⟨r, hr, h1⟩ := ha
  have hj := Format.two_zpow_pos (-(j : ℤ))
  rcases hv : z.1 with _ | _ | _ | c <;> rw [hv] at hz
  · exact absurd hz (le_nan _)
  · exact absurd hz (fin_le_ninf _)
  · refine ⟨0, ?_, by rw [abs_zero]; positivity⟩
    show (a /. z).1 = _
    rw [val_div, hr, hv]
    exact rnd_zero
  · have hc : (2 : ℝ) ^ (-(j : ℤ)) ≤ c := hz
    have hc0 : 0 < c := hj.trans_le hc
    refine bounded_rnd (x := r / c) ?_ ?_ (rnd_two_pow hM hkj)
    · rw [val_div, hr, hv]
      show (M.round (if c = 0 then _ else .fin (r / c))).1 = _
      rw [if_neg hc0.ne']; rfl
    · rw [abs_div, abs_of_pos hc0, div_le_iff₀ hc0]
      have e : (2 : ℝ) ^ (k + j) * 2 ^ (-(j : ℤ)) = 2 ^ k := by
        rw [pow_add, mul_assoc, ← zpow_natCast (2 : ℝ) j, ← zpow_add₀ (by norm_num), add_neg_cancel,
          zpow_zero, mul_one]
      calc |r| ≤ 2 ^ k := h1
        _ = 2 ^ (k + j) * 2 ^ (-(j : ℤ)) := e.symm
        _ ≤ _ := mul_le_mul_of_nonneg_left hc (by positivity)

/-- `f64`: the constant `1e-7` exceeds `2 ^ -24`. -/
theorem eps_ge (hM : M.rnd = binary64Format.rnd) :
    XReal.fin (2 ^ (-((24 : Nat) : ℤ))) ≤ (EPS : FP M).1 := by
  have h := M.rnd_mono (show (2 : ℝ) ^ (-((24 : Nat) : ℤ)) ≤ ((1 : Nat) : ℝ) / 10 ^ 7 by norm_num)
  have e : M.rnd (2 ^ (-((24 : Nat) : ℤ))) = .fin (2 ^ (-((24 : Nat) : ℤ))) := by
    have := binary64Format.rnd_exact (m := 1) (e := -24) (by decide) (by decide) (by
      rw [Int.cast_one, one_mul, abs_of_pos (Format.two_zpow_pos _)]
      exact zpow_lt_zpow_right₀ (by norm_num) (by decide))
    rw [Int.cast_one, one_mul] at this
    rw [hM]
    exact this
  rw [e] at h
  exact h

theorem decay_mul {p β : FP M} (hp : Decay p) (hβ : Decay β) : Decay (p *. β) := by
  obtain ⟨r, hr, h0, h1⟩ := hp
  obtain ⟨s, hs, g0, g1⟩ := hβ
  have hv : (p *. β).1 = M.rnd (r * s) := by rw [val_mul, hr, hs]; rfl
  have l := rnd_nonneg (M := M) (mul_nonneg h0 g0)
  have u := M.rnd_mono (mul_le_of_le_one_right h0 g1.le : r * s ≤ r)
  rw [p.2 r hr] at u
  obtain ⟨q, hq, q0, q1⟩ := fin_of_between l u
  exact ⟨q, hv.trans hq, q0, lt_of_le_of_lt q1 h1⟩

end Lfa

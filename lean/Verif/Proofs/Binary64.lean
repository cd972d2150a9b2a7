import Verif.Model.Binary64
import Verif.Proofs.Machine

/-! # Lemmas about binary floating-point formats -/

namespace Lfa

theorem rne_err (x : ℝ) : |(rne x : ℝ) - x| ≤ 1 / 2 := by
  have h1 := Int.fract_nonneg x
  have h2 := Int.fract_lt_one x
  have h3 : x = ⌊x⌋ + Int.fract x := (Int.floor_add_fract x).symm
  unfold rne
  rw [abs_le]
  split_ifs <;> push_cast <;> constructor <;> linarith

theorem le_rne {m : ℤ} {x : ℝ} (h : (m : ℝ) - 1 / 2 < x) : m ≤ rne x := by
  have h1 := (abs_le.1 (rne_err x)).1
  have h2 : (m : ℝ) - 1 < rne x := by linarith
  have h3 : (m - 1 : ℤ) < rne x := by
    have : ((m - 1 : ℤ) : ℝ) < rne x := by push_cast; exact h2
    exact_mod_cast this
  omega

namespace Format

variable (F : Format)

theorem nearest_err (r : ℝ) : |F.nearest r - r| ≤ 2 ^ F.ulp r / 2 := by
  have h2 := two_zpow_pos (F.ulp r)
  have h := rne_err (r / 2 ^ F.ulp r)
  have e : F.nearest r - r = ((rne (r / 2 ^ F.ulp r) : ℝ) - r / 2 ^ F.ulp r) * 2 ^ F.ulp r := by
    unfold nearest
    rw [sub_mul, div_mul_cancel₀ _ h2.ne']
  rw [e, abs_mul, abs_of_pos h2]
  calc _ ≤ 1 / 2 * 2 ^ F.ulp r := mul_le_mul_of_nonneg_right h h2.le
    _ = _ := by ring

theorem nearest_zero : F.nearest 0 = 0 := by
  have := F.nearest_neg 0
  rw [neg_zero] at this
  linarith

/-- `sqrt (x * x)` does not fall below `x`, for `x = m * 2 ^ e` with `p` significant bits whose
square does not underflow. -/
theorem le_sqrt_sq (hp2 : 2 ≤ F.p) {m e : ℤ} (h1 : 2 ^ (F.p - 1) ≤ m) (h2 : m < 2 ^ F.p) (he : F.emin ≤ e)
    (hu : F.emin ≤ F.p + 2 * e) :
    (m : ℝ) * 2 ^ e ≤ F.nearest (Real.sqrt (F.nearest ((m * 2 ^ e) * (m * 2 ^ e)))) := by
  have hp := F.p_pos
  have hm0 : (0 : ℤ) < m := lt_of_lt_of_le (by positivity) h1
  have hmr : (0 : ℝ) < m := by exact_mod_cast hm0
  have he0 := two_zpow_pos e
  have hx : (0 : ℝ) < m * 2 ^ e := by positivity
  set x : ℝ := m * 2 ^ e with hxd
  have hxx : F.nearest x = x := F.nearest_exact (by rw [abs_of_pos hm0]; exact h2.le) he
  -- it is enough to compare the root with `x`, or to land in the last half unit below it
  by_cases hge : x ≤ Real.sqrt (F.nearest (x * x))
  · have := F.nearest_mono hge
    rwa [hxx] at this
  rw [not_le] at hge
  have hm1 : 2 ^ (F.p - 1) < m := by
    refine lt_of_le_of_ne h1 fun hc => ?_
    -- a power of two has an exact square
    refine absurd hge (not_lt.2 ?_)
    have hsq : F.nearest (x * x) = x * x := by
      have : x * x = ((2 ^ (F.p - 1) : ℤ) : ℝ) * 2 ^ ((F.p : ℤ) - 1 + 2 * e) := by
        rw [hxd, ← hc, zpow_nat, ← zpow_add₀ (by norm_num), ← zpow_add₀ (by norm_num),
          ← zpow_add₀ (by norm_num)]
        congr 1
        omega
      rw [this]
      by_cases hem : F.emin ≤ (F.p : ℤ) - 1 + 2 * e
      · refine F.nearest_exact ?_ hem
        rw [abs_of_pos (by positivity)]
        exact pow_le_pow_right₀ (by norm_num) (by omega)
      · -- the unit is then `2 ^ (p + 2 e)`, with one bit less
        have e2 : ((2 ^ (F.p - 1) : ℤ) : ℝ) * 2 ^ ((F.p : ℤ) - 1 + 2 * e) =
            ((2 ^ (F.p - 2) : ℤ) : ℝ) * 2 ^ ((F.p : ℤ) + 2 * e) := by
          rw [zpow_nat, zpow_nat, ← zpow_add₀ (by norm_num), ← zpow_add₀ (by norm_num)]
          congr 1
          omega
        rw [e2]
        refine F.nearest_exact ?_ hu
        rw [abs_of_pos (by positivity)]
        exact pow_le_pow_right₀ (by norm_num) (by omega)
    rw [hsq, Real.sqrt_mul_self hx.le]
  -- the square as rounded
  have hulp : F.ulp (x * x) ≤ F.p + 2 * e := by
    have hlog : Int.log 2 |x * x| < 2 * (F.p : ℤ) + 2 * e := by
      refine (Int.lt_zpow_iff_log_lt (by norm_num) (abs_pos.2 (by positivity))).1 ?_
      rw [abs_of_pos (by positivity)]
      have hlt : x < 2 ^ ((F.p : ℤ) + e) := by
        rw [hxd, zpow_add₀ (by norm_num)]
        refine mul_lt_mul_of_pos_right ?_ he0
        rw [← zpow_nat]
        exact_mod_cast h2
      have := mul_lt_mul'' hlt hlt hx.le hx.le
      rw [← zpow_add₀ (by norm_num)] at this
      have e3 : (F.p : ℤ) + e + (F.p + e) = 2 * F.p + 2 * e := by ring
      rw [e3] at this
      exact_mod_cast this
    unfold ulp
    omega
  have hy : ((m : ℝ) - 1 / 2) * ((m : ℝ) - 1 / 2) * 2 ^ (2 * e) < F.nearest (x * x) := by
    have herr := (abs_le.1 (F.nearest_err (x * x))).1
    have hle : (2 : ℝ) ^ F.ulp (x * x) / 2 ≤ ((2 ^ (F.p - 1) : ℤ) : ℝ) * 2 ^ (2 * e) := by
      rw [zpow_nat, ← zpow_add₀ (by norm_num), div_le_iff₀ (by norm_num)]
      calc (2 : ℝ) ^ F.ulp (x * x) ≤ 2 ^ ((F.p : ℤ) + 2 * e) :=
            zpow_le_zpow_right₀ (by norm_num) hulp
        _ = 2 ^ (((F.p - 1 : ℕ) : ℤ) + 2 * e + 1) := by congr 1; omega
        _ = _ := by rw [zpow_add₀ (by norm_num) _ 1, zpow_one]
    have hsq : x * x = (m : ℝ) * m * 2 ^ (2 * e) := by
      rw [hxd, two_mul, zpow_add₀ (by norm_num)]; ring
    have hm2 : ((2 ^ (F.p - 1) : ℤ) : ℝ) + 1 ≤ m := by exact_mod_cast hm1
    have h4 : ((m : ℝ) - 1 / 2) * ((m : ℝ) - 1 / 2) * 2 ^ (2 * e) <
        ((m : ℝ) * m - ((2 ^ (F.p - 1) : ℤ) : ℝ)) * 2 ^ (2 * e) :=
      mul_lt_mul_of_pos_right (by nlinarith) (two_zpow_pos _)
    have h5 : ((m : ℝ) * m - ((2 ^ (F.p - 1) : ℤ) : ℝ)) * 2 ^ (2 * e) =
        x * x - ((2 ^ (F.p - 1) : ℤ) : ℝ) * 2 ^ (2 * e) := by rw [hsq]; ring
    linarith
  have hroot : ((m : ℝ) - 1 / 2) * 2 ^ e < Real.sqrt (F.nearest (x * x)) := by
    refine Real.lt_sqrt_of_sq_lt ?_
    have : (((m : ℝ) - 1 / 2) * 2 ^ e) ^ 2 =
        ((m : ℝ) - 1 / 2) * ((m : ℝ) - 1 / 2) * 2 ^ (2 * e) := by
      rw [two_mul, zpow_add₀ (by norm_num)]; ring
    rwa [this]
  set y := Real.sqrt (F.nearest (x * x)) with hyd
  have hypos : 0 < y := by
    refine lt_trans ?_ hroot
    have : (1 : ℝ) ≤ m := by exact_mod_cast hm0
    exact mul_pos (by linarith) he0
  have hulpy : F.ulp y = e := by
    have hlo : (2 : ℝ) ^ ((F.p : ℤ) - 1 + e) ≤ y := by
      refine le_trans ?_ hroot.le
      have : (2 : ℝ) ^ ((F.p : ℤ) - 1 + e) = ((2 ^ (F.p - 1) : ℤ) : ℝ) * 2 ^ e := by
        rw [zpow_nat, ← zpow_add₀ (by norm_num)]
        congr 1
        omega
      rw [this]
      refine mul_le_mul_of_nonneg_right ?_ he0.le
      have hm2 : ((2 ^ (F.p - 1) : ℤ) : ℝ) + 1 ≤ m := by exact_mod_cast hm1
      linarith
    have hhi : y < (2 : ℝ) ^ ((F.p : ℤ) + e) := by
      refine hge.trans ?_
      rw [hxd, zpow_add₀ (by norm_num)]
      refine mul_lt_mul_of_pos_right ?_ he0
      rw [← zpow_nat]
      exact_mod_cast h2
    have l1 : (F.p : ℤ) - 1 + e ≤ Int.log 2 y :=
      (Int.zpow_le_iff_le_log (by norm_num) hypos).1 (by exact_mod_cast hlo)
    have l2 : Int.log 2 y < (F.p : ℤ) + e :=
      (Int.lt_zpow_iff_log_lt (by norm_num) hypos).1 (by exact_mod_cast hhi)
    unfold ulp
    rw [abs_of_pos hypos]
    omega
  show x ≤ rne (y / 2 ^ F.ulp y) * 2 ^ F.ulp y
  rw [hulpy, hxd]
  refine mul_le_mul_of_nonneg_right ?_ he0.le
  have : m ≤ rne (y / 2 ^ e) := le_rne (by rwa [lt_div_iff₀ he0])
  exact_mod_cast this

theorem nearest_eq_of_rnd {r : ℝ} (h : F.rnd r = .fin r) : F.nearest r = r := (F.rnd_eq_fin h).1

theorem ulp_ge {r : ℝ} {k : ℤ} (h : (2 : ℝ) ^ k ≤ |r|) : k - (F.p - 1) ≤ F.ulp r := by
  have h0 : 0 < |r| := (two_zpow_pos k).trans_le h
  have := (Int.zpow_le_iff_le_log (R := ℝ) (b := 2) (by norm_num) h0).1 (by exact_mod_cast h)
  unfold ulp
  omega

/-- `sqrt (r * r)` does not fall below `|r|`, for representable `r` of magnitude at least `2 ^ k`. -/
theorem abs_le_sqrt_sq (hp2 : 2 ≤ F.p) {r : ℝ} (hr : F.nearest r = r) {k : ℤ}
    (hk : (2 : ℝ) ^ k ≤ |r|) (h1 : F.emin ≤ k - (F.p - 1)) (h2 : F.emin ≤ 2 * k - F.p + 2) :
    |r| ≤ F.nearest (Real.sqrt (F.nearest (r * r))) := by
  have hu := F.ulp_ge hk
  have hpos : 0 < |r| := (two_zpow_pos k).trans_le hk
  have hra : F.nearest |r| = |r| := by
    rcases abs_choice r with e | e <;> rw [e]
    · exact hr
    · rw [nearest_neg, hr]
  have hua : F.ulp |r| = F.ulp r := by unfold ulp; rw [abs_abs]
  have hmul : r * r = |r| * |r| := (abs_mul_abs_self r).symm
  set m := rne (|r| / 2 ^ F.ulp |r|) with hm
  have hrep : |r| = (m : ℝ) * 2 ^ F.ulp r := by
    rw [← hua]; exact hra.symm
  have he0 := two_zpow_pos (F.ulp r)
  have hlo : 2 ^ (F.p - 1) ≤ m := by
    have hlog : Int.log 2 |r| - (F.p - 1) = F.ulp r := by
      have h0 : 0 < |r| := hpos
      have := (Int.zpow_le_iff_le_log (R := ℝ) (b := 2) (by norm_num) h0).1 (by exact_mod_cast hk)
      unfold ulp
      omega
    have hz := Int.zpow_log_le_self (R := ℝ) (b := 2) (by norm_num) hpos
    have hz : (2 : ℝ) ^ (F.ulp r + (F.p - 1)) ≤ m * 2 ^ F.ulp r := by
      rw [← hrep, ← hlog, sub_add_cancel]
      exact_mod_cast hz
    rw [add_comm, zpow_add₀ (by norm_num)] at hz
    have hz := le_of_mul_le_mul_right hz he0
    have hp := F.p_pos
    have : ((2 ^ (F.p - 1) : ℤ) : ℝ) ≤ m := by
      rw [zpow_nat]
      refine le_trans (le_of_eq ?_) hz
      congr 1
      omega
    exact_mod_cast this
  have hhi : m < 2 ^ F.p := by
    have hz := F.lt_ulp (r := r)
    rw [hrep, add_comm, zpow_add₀ (by norm_num)] at hz
    have hz := lt_of_mul_lt_mul_right hz he0.le
    rw [← zpow_nat] at hz
    exact_mod_cast hz
  have := F.le_sqrt_sq hp2 hlo hhi (le_max_left ..) (e := F.ulp r) (by omega)
  rw [← hrep] at this
  rwa [hmul]

/-- Magnitudes below half the least unit round to zero. -/
theorem nearest_tiny {r : ℝ} (h : |r| < 2 ^ (F.emin - 1)) : F.nearest r = 0 := by
  by_cases h0 : r = 0
  · rw [h0]; exact F.nearest_zero
  have hl : Int.log 2 |r| < F.emin - 1 :=
    (Int.lt_zpow_iff_log_lt (R := ℝ) (b := 2) (by norm_num) (abs_pos.2 h0)).1 (by exact_mod_cast h)
  have hp := F.p_pos
  have hu : F.ulp r = F.emin := by unfold ulp; omega
  have he := two_zpow_pos F.emin
  have hq : |r / 2 ^ F.emin| < 1 / 2 := by
    rw [abs_div, abs_of_pos he, div_lt_iff₀ he]
    refine h.trans_eq ?_
    rw [zpow_sub₀ (by norm_num), zpow_one]
    ring
  have hz : rne (r / 2 ^ F.emin) = 0 := by
    have h1 := (abs_le.1 (rne_err (r / 2 ^ F.emin)))
    have h2 := abs_lt.1 hq
    have l1 : (-1 : ℝ) < rne (r / 2 ^ F.emin) := by linarith [h1.1, h2.1]
    have l2 : (rne (r / 2 ^ F.emin) : ℝ) < 1 := by linarith [h1.2, h2.2]
    have l1 : (-1 : ℤ) < rne (r / 2 ^ F.emin) := by exact_mod_cast l1
    have l2 : rne (r / 2 ^ F.emin) < 1 := by exact_mod_cast l2
    omega
  unfold nearest
  rw [hu, hz, Int.cast_zero, zero_mul]

end Format

open XReal Machine

theorem binary_sqrt_sq {M : Machine} {F : Format} (hM : M.rnd = F.rnd) (hp2 : 2 ≤ F.p) {a : FP M}
    {r : ℝ} (hr : a.1 = .fin r) {k : ℤ} (hk : r = 0 ∨ (2 : ℝ) ^ k ≤ |r|)
    (h1 : F.emin ≤ k - (F.p - 1)) (h2 : F.emin ≤ 2 * k - F.p + 2) :
    (Scalar.abs a).1 ≤ (Scalar.sqrt (a *. a)).1 := by
  rw [val_abs, val_sqrt, val_mul, hr]
  show XReal.fin |r| ≤ (M.round (XReal.sqrt (M.rnd (r * r)))).1
  rcases hk with rfl | hk
  · rw [mul_zero, rnd_zero]
    show _ ≤ (M.round (if (0 : ℝ) < 0 then _ else _)).1
    rw [if_neg (lt_irrefl _), Real.sqrt_zero, round_fin_zero, abs_zero]
    exact le_refl (0 : ℝ)
  have hrep : F.nearest r = r := F.nearest_eq_of_rnd (hM ▸ a.2 r hr)
  have key := F.abs_le_sqrt_sq hp2 hrep hk h1 h2
  rw [show M.rnd (r * r) = F.rnd (r * r) by rw [hM]]
  unfold Format.rnd
  split_ifs with ho
  · rw [XReal.infSign, if_pos (mul_self_nonneg r)]
    trivial
  · have hn : ¬ F.nearest (r * r) < 0 := not_lt.2 (F.nearest_nonneg (mul_self_nonneg r))
    show _ ≤ (M.round (if F.nearest (r * r) < 0 then _ else _)).1
    rw [if_neg hn, round_fin, hM]
    unfold Format.rnd
    split_ifs with ho'
    · rw [XReal.infSign, if_pos (Real.sqrt_nonneg _)]
      trivial
    · exact key

end Lfa

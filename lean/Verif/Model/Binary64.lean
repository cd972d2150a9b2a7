import Verif.Model.Machine
import Mathlib.Data.Int.Log
import Mathlib.Tactic.Linarith
import Mathlib.Tactic.Ring
import Mathlib.Tactic.FieldSimp
import Mathlib.Tactic.Positivity

/-!
# IEEE 754 binary formats with rounding to nearest even

`binary64` is the machine of Rust's `f64` (with exact `exp`, `cos` and `ln_1p` before rounding, and
left-to-right sums). It shows that `Machine` is inhabited by the arithmetic it is meant for.
-/

namespace Lfa

noncomputable section

/-- Rounding to the nearest integer, ties to even. -/
def rne (x : ℝ) : ℤ :=
  if Int.fract x < 1 / 2 then ⌊x⌋
  else if 1 / 2 < Int.fract x then ⌊x⌋ + 1
  else if Even ⌊x⌋ then ⌊x⌋ else ⌊x⌋ + 1

theorem rne_ge (x : ℝ) : ⌊x⌋ ≤ rne x := by unfold rne; split_ifs <;> omega
theorem rne_le (x : ℝ) : rne x ≤ ⌊x⌋ + 1 := by unfold rne; split_ifs <;> omega

theorem rne_int (n : ℤ) : rne n = n := by
  unfold rne
  rw [Int.fract_intCast, Int.floor_intCast, if_pos (by norm_num)]

theorem rne_mono {x y : ℝ} (h : x ≤ y) : rne x ≤ rne y := by
  rcases lt_or_eq_of_le (Int.floor_mono h) with hf | hf
  · have := rne_le x; have := rne_ge y; omega
  · have hfr : Int.fract x ≤ Int.fract y := by
      unfold Int.fract; rw [hf]; linarith
    unfold rne
    rw [hf]
    split_ifs <;> first | omega | (exfalso; linarith)

theorem rne_neg (x : ℝ) : rne (-x) = -rne x := by
  by_cases h : Int.fract x = 0
  · have hx : x = (⌊x⌋ : ℝ) := by
      have := Int.self_sub_floor x
      rw [h] at this
      linarith
    rw [hx, ← Int.cast_neg, rne_int, rne_int]
  · have hfl : ⌊-x⌋ = -⌊x⌋ - 1 := by
      rw [Int.floor_neg]
      have := Int.ceil_eq_add_one_sub_fract h
      have h2 : ⌈x⌉ = ⌊x⌋ + 1 := by
        have h3 : (⌈x⌉ : ℝ) = (⌊x⌋ : ℝ) + 1 := by
          rw [this]; unfold Int.fract; ring
        exact_mod_cast h3
      rw [h2]; ring
    have hfr := Int.fract_neg h
    unfold rne
    rw [hfr, hfl]
    have he : Even (-⌊x⌋ - 1) ↔ ¬ Even ⌊x⌋ := by
      rw [Int.even_sub, even_neg]
      simp
    simp only [he]
    split_ifs <;> first | omega | (exfalso; linarith)

/-- A binary format: precision, least exponent of a unit in the last place, overflow exponent. -/
structure Format where
  p : Nat
  emin : ℤ
  emax : ℤ
  p_pos : 1 ≤ p
  emin_le : emin ≤ 0
  emax_pos : 1 ≤ emax

namespace Format

variable (F : Format)

/-- The exponent of the unit in the last place of `r`. -/
def ulp (r : ℝ) : ℤ := max F.emin (Int.log 2 |r| - (F.p - 1))

/-- Rounding with unbounded exponent above. -/
def nearest (r : ℝ) : ℝ := rne (r / 2 ^ F.ulp r) * 2 ^ F.ulp r

theorem two_zpow_pos (e : ℤ) : (0 : ℝ) < 2 ^ e := by positivity

theorem ulp_neg (r : ℝ) : F.ulp (-r) = F.ulp r := by unfold ulp; rw [abs_neg]

theorem nearest_neg (r : ℝ) : F.nearest (-r) = -F.nearest r := by
  unfold nearest
  rw [ulp_neg, neg_div, rne_neg]
  push_cast
  ring

theorem ulp_mono {r s : ℝ} (h0 : 0 < r) (h : r ≤ s) : F.ulp r ≤ F.ulp s := by
  unfold ulp
  rw [abs_of_pos h0, abs_of_pos (h0.trans_le h)]
  have := Int.log_mono_right (b := 2) h0 h
  omega

theorem lt_ulp {r : ℝ} : |r| < 2 ^ (F.ulp r + F.p) := by
  have h1 := Int.lt_zpow_succ_log_self (b := 2) (by norm_num) |r|
  refine h1.trans_le ?_
  have : Int.log 2 |r| + 1 ≤ F.ulp r + F.p := by unfold ulp; omega
  exact_mod_cast zpow_le_zpow_right₀ (by norm_num : (1 : ℝ) ≤ 2) this

theorem zpow_nat (n : ℕ) : ((2 ^ n : ℤ) : ℝ) = (2 : ℝ) ^ (n : ℤ) := by
  push_cast; rw [zpow_natCast]

theorem mant_le {r : ℝ} : |rne (r / 2 ^ F.ulp r)| ≤ 2 ^ F.p := by
  have h2 := two_zpow_pos (F.ulp r)
  have hb : |r / 2 ^ F.ulp r| ≤ ((2 ^ F.p : ℤ) : ℝ) := by
    rw [abs_div, abs_of_pos h2, div_le_iff₀ h2, zpow_nat, ← zpow_add₀ (by norm_num)]
    have := F.lt_ulp (r := r)
    rw [add_comm] at this
    exact this.le
  rw [abs_le] at hb ⊢
  constructor
  · have := rne_mono hb.1
    rwa [← Int.cast_neg, rne_int] at this
  · have := rne_mono hb.2
    rwa [rne_int] at this

theorem nearest_nonneg {r : ℝ} (h : 0 ≤ r) : 0 ≤ F.nearest r := by
  have h2 := two_zpow_pos (F.ulp r)
  refine mul_nonneg ?_ h2.le
  have := rne_mono (div_nonneg h h2.le)
  have h0 := rne_int 0
  rw [Int.cast_zero] at h0
  rw [h0] at this
  exact_mod_cast this

theorem nearest_mono_pos {r s : ℝ} (h0 : 0 < r) (h : r ≤ s) : F.nearest r ≤ F.nearest s := by
  have hr2 := two_zpow_pos (F.ulp r)
  have hs2 := two_zpow_pos (F.ulp s)
  rcases eq_or_lt_of_le (F.ulp_mono h0 h) with he | he
  · unfold nearest
    rw [he]
    refine mul_le_mul_of_nonneg_right ?_ hs2.le
    exact_mod_cast rne_mono (div_le_div_of_nonneg_right h hs2.le)
  · -- `s` is at least `2 ^ (ulp s + p - 1)`, and `r` rounds to at most that
    have hs0 := h0.trans_le h
    have hlog : F.ulp s = Int.log 2 s - (F.p - 1) := by
      have h1 : F.emin ≤ F.ulp r := le_max_left ..
      have h3 : F.ulp s = max F.emin (Int.log 2 |s| - (F.p - 1)) := rfl
      rw [abs_of_pos hs0] at h3
      omega
    have hbound : (2 : ℝ) ^ (F.ulp s + (F.p - 1)) ≤ s := by
      have := Int.zpow_log_le_self (b := 2) (by norm_num) hs0
      rw [hlog, sub_add_cancel]
      exact_mod_cast this
    have h1 : F.nearest r ≤ 2 ^ (F.ulp s + (F.p - 1)) := by
      have hm : (rne (r / 2 ^ F.ulp r) : ℝ) ≤ ((2 ^ F.p : ℤ) : ℝ) := by
        exact_mod_cast (abs_le.1 F.mant_le).2
      calc F.nearest r ≤ ((2 ^ F.p : ℤ) : ℝ) * 2 ^ F.ulp r := mul_le_mul_of_nonneg_right hm hr2.le
        _ = 2 ^ ((F.p : ℤ) + F.ulp r) := by rw [zpow_nat, ← zpow_add₀ (by norm_num)]
        _ ≤ _ := zpow_le_zpow_right₀ (by norm_num) (by omega)
    have h2 : (2 : ℝ) ^ (F.ulp s + (F.p - 1)) ≤ F.nearest s := by
      have hq : ((2 ^ (F.p - 1) : ℤ) : ℝ) ≤ s / 2 ^ F.ulp s := by
        rw [le_div_iff₀ hs2, zpow_nat, ← zpow_add₀ (by norm_num)]
        refine le_trans (le_of_eq ?_) hbound
        congr 1
        have := F.p_pos
        omega
      have := rne_mono hq
      rw [rne_int] at this
      have hq' : ((2 ^ (F.p - 1) : ℤ) : ℝ) ≤ (rne (s / 2 ^ F.ulp s) : ℝ) := by exact_mod_cast this
      refine le_trans (le_of_eq ?_) (mul_le_mul_of_nonneg_right hq' hs2.le)
      rw [zpow_nat, ← zpow_add₀ (by norm_num)]
      congr 1
      have := F.p_pos
      omega
    exact h1.trans h2

theorem nearest_mono {r s : ℝ} (h : r ≤ s) : F.nearest r ≤ F.nearest s := by
  rcases lt_or_ge 0 r with h0 | h0
  · exact F.nearest_mono_pos h0 h
  · have hr : F.nearest r ≤ 0 := by
      have := F.nearest_nonneg (neg_nonneg.2 h0)
      rw [nearest_neg] at this
      linarith
    rcases le_or_gt 0 s with h1 | h1
    · exact hr.trans (F.nearest_nonneg h1)
    · have := F.nearest_mono_pos (neg_pos.2 h1) (neg_le_neg h)
      rw [nearest_neg, nearest_neg] at this
      linarith

/-- Multiples of a unit with at most `p` significant bits are left alone. -/
theorem nearest_exact {m e : ℤ} (hm : |m| ≤ 2 ^ F.p) (he : F.emin ≤ e) :
    F.nearest (m * 2 ^ e) = m * 2 ^ e := by
  have key : ∃ n : ℤ, (m * 2 ^ e : ℝ) / 2 ^ F.ulp (m * 2 ^ e) = n := by
    by_cases h0 : m = 0
    · exact ⟨0, by simp [h0]⟩
    have hpos : (0 : ℝ) < |(m : ℝ) * 2 ^ e| := abs_pos.2 (mul_ne_zero (by exact_mod_cast h0)
      (two_zpow_pos e).ne')
    have habs : |(m : ℝ) * 2 ^ e| = ((|m| : ℤ) : ℝ) * 2 ^ e := by
      rw [abs_mul, abs_of_pos (two_zpow_pos e), Int.cast_abs]
    rcases lt_or_eq_of_le hm with hlt | heq
    · -- the unit of the result is at most `2 ^ e`
      have hlog : Int.log 2 |(m : ℝ) * 2 ^ e| < e + F.p := by
        refine (Int.lt_zpow_iff_log_lt (by norm_num) hpos).1 ?_
        rw [habs]
        push_cast
        rw [add_comm, zpow_add₀ (by norm_num)]
        refine mul_lt_mul_of_pos_right ?_ (two_zpow_pos e)
        have : ((|m| : ℤ) : ℝ) < ((2 ^ F.p : ℤ) : ℝ) := by exact_mod_cast hlt
        rw [zpow_nat] at this
        exact_mod_cast this
      have hu : F.ulp (m * 2 ^ e) ≤ e := by unfold ulp; omega
      obtain ⟨k, hk⟩ := Int.eq_ofNat_of_zero_le (sub_nonneg.2 hu)
      refine ⟨m * 2 ^ k, ?_⟩
      rw [mul_div_assoc, ← zpow_sub₀ (by norm_num), hk]
      push_cast
      rw [zpow_natCast]
    · -- a power of two
      have hval : |(m : ℝ) * 2 ^ e| = 2 ^ ((F.p : ℤ) + e) := by
        rw [habs, heq, zpow_nat, ← zpow_add₀ (by norm_num)]
      have hlog : Int.log 2 |(m : ℝ) * 2 ^ e| = (F.p : ℤ) + e := by
        rw [hval]; exact_mod_cast Int.log_zpow (R := ℝ) (b := 2) (by norm_num) _
      have hu : F.ulp (m * 2 ^ e) = e + 1 := by unfold ulp; rw [hlog]; omega
      rw [hu]
      have hp := F.p_pos
      have hdiv : ∃ n : ℤ, m = n * 2 := by
        have h2 : (2 : ℤ) ∣ |m| := by
          rw [heq]; exact dvd_pow_self 2 (by omega)
        obtain ⟨n, hn⟩ := (dvd_abs 2 m).1 h2
        exact ⟨n, by rw [hn, mul_comm]⟩
      obtain ⟨n, hn⟩ := hdiv
      refine ⟨n, ?_⟩
      rw [hn, zpow_add₀ (by norm_num : (2 : ℝ) ≠ 0)]
      have := (two_zpow_pos e).ne'
      push_cast
      field_simp
  obtain ⟨n, hn⟩ := key
  unfold nearest
  rw [hn, rne_int, ← hn, div_mul_cancel₀ _ (two_zpow_pos _).ne']

theorem nearest_idem (r : ℝ) : F.nearest (F.nearest r) = F.nearest r :=
  F.nearest_exact F.mant_le (le_max_left ..)

/-- Rounding to nearest even, with overflow. -/
def rnd (r : ℝ) : XReal :=
  if 2 ^ F.emax ≤ |F.nearest r| then XReal.infSign r else .fin (F.nearest r)

theorem rnd_eq_fin {r q : ℝ} (h : F.rnd r = .fin q) : F.nearest r = q ∧ |q| < 2 ^ F.emax := by
  unfold rnd at h
  split_ifs at h with hc
  · unfold XReal.infSign at h
    split_ifs at h
  · injection h with h
    subst h
    exact ⟨rfl, not_le.1 hc⟩

theorem rnd_of_lt {r : ℝ} (h : |F.nearest r| < 2 ^ F.emax) : F.rnd r = .fin (F.nearest r) :=
  if_neg (not_le.2 h)

/-- Numbers with at most `p` significant bits and no overflow are left alone. -/
theorem rnd_exact {m e : ℤ} (hm : |m| ≤ 2 ^ F.p) (he : F.emin ≤ e)
    (ho : |(m : ℝ) * 2 ^ e| < 2 ^ F.emax) : F.rnd (m * 2 ^ e) = .fin (m * 2 ^ e) := by
  have := F.nearest_exact hm he
  rw [rnd_of_lt F (by rwa [this]), this]

/-- The machine of a format. -/
def machine : Machine where
  rnd := F.rnd
  rnd_mono := by
    intro a b h
    have hm := F.nearest_mono h
    have hE := two_zpow_pos F.emax
    unfold rnd XReal.infSign
    by_cases h1 : 2 ^ F.emax ≤ |F.nearest a| <;> by_cases h2 : 2 ^ F.emax ≤ |F.nearest b|
    · rw [if_pos h1, if_pos h2]
      by_cases h3 : 0 ≤ a
      · rw [if_pos h3, if_pos (h3.trans h)]; trivial
      · rw [if_neg h3]
        split_ifs <;> trivial
    · rw [if_pos h1, if_neg h2]
      by_cases h3 : 0 ≤ a
      · exfalso
        rw [abs_of_nonneg (F.nearest_nonneg h3)] at h1
        exact h2 (h1.trans (hm.trans (le_abs_self _)))
      · rw [if_neg h3]; trivial
    · rw [if_neg h1, if_pos h2]
      by_cases h3 : 0 ≤ b
      · rw [if_pos h3]; trivial
      · exfalso
        have h0 : F.nearest b ≤ 0 := by
          have := F.nearest_nonneg (neg_nonneg.2 (le_of_not_ge h3))
          rw [nearest_neg] at this
          linarith
        rw [abs_of_nonpos h0] at h2
        refine h1 (le_trans h2 ?_)
        rw [abs_of_nonpos (hm.trans h0)]
        linarith
    · rw [if_neg h1, if_neg h2]; exact hm
  rnd_neg := by
    intro a
    unfold rnd
    rw [nearest_neg, abs_neg]
    split_ifs with h
    · have ha : a ≠ 0 := by
        rintro rfl
        have h0 : F.nearest 0 = 0 := by
          unfold nearest
          have := rne_int 0
          rw [Int.cast_zero] at this
          rw [zero_div, this, Int.cast_zero, zero_mul]
        rw [h0, abs_zero] at h
        exact absurd h (not_le.2 (two_zpow_pos _))
      unfold XReal.infSign
      rcases lt_or_gt_of_ne ha with hs | hs
      · rw [if_pos (by linarith), if_neg (by linarith)]; rfl
      · rw [if_neg (by linarith), if_pos (by linarith)]; rfl
    · rfl
  rnd_one := by
    have h := F.rnd_exact (m := 1) (e := 0) (by rw [abs_one]; exact one_le_pow₀ (by norm_num))
      F.emin_le (by
        simp only [Int.cast_one, zpow_zero, mul_one, abs_one]
        exact one_lt_zpow₀ (by norm_num) (by have := F.emax_pos; omega))
    simpa using h
  rnd_idem := by
    intro a b h
    obtain ⟨h1, h2⟩ := F.rnd_eq_fin h
    have : F.nearest b = b := by rw [← h1, nearest_idem]
    rw [rnd_of_lt F (by rwa [this]), this]
  exp := Real.exp
  exp_zero := Real.exp_zero
  exp_nonneg := fun x => (Real.exp_pos x).le
  exp_le_one := fun h => Real.exp_le_one_iff.2 h
  cos := Real.cos
  cos_zero := Real.cos_zero
  cos_bounded := Real.abs_cos_le_one
  ln1p := fun x => Real.log (1 + x)
  ln1p_zero := by simp
  ln1p_nonneg := fun h => Real.log_nonneg (by linarith)
  sumTree := fun n => n.rec .zero fun k t => .add t (.term k)
  sumTree_terms := by
    intro n
    have : ∀ n : Nat, SumTree.terms (n.rec .zero fun k t => .add t (.term k)) = List.range n := by
      intro n
      induction n with
      | zero => rfl
      | succ k ih => rw [List.range_succ]; exact congrArg (· ++ [k]) ih
    rw [this]
  dotTree := fun n => n.rec .zero fun k t => .add t (.term k)
  dotTree_terms := by
    intro n
    have : ∀ n : Nat, SumTree.terms (n.rec .zero fun k t => .add t (.term k)) = List.range n := by
      intro n
      induction n with
      | zero => rfl
      | succ k ih => rw [List.range_succ]; exact congrArg (· ++ [k]) ih
    rw [this]
  powTree := fun n => n.rec .one fun _ t => .mul t .base
  powTree_degree := by
    intro n
    induction n with
    | zero => rfl
    | succ k ih => exact congrArg (· + 1) ih

end Format

/-- IEEE 754 binary64. -/
def binary64Format : Format where
  p := 53
  emin := -1074
  emax := 1024
  p_pos := by norm_num
  emin_le := by norm_num
  emax_pos := by norm_num

/-- The machine of `f64`. -/
def binary64 : Machine := binary64Format.machine

end

end Lfa

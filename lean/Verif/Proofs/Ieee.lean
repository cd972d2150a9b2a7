import Verif.Proofs.Binary64

/-!
# The rounding of the model is the one of IEEE 754

`binary64Format.rnd` is defined by a formula. Here it is compared with a description that does not mention the formula (IEEE 754-2008 §4.3.1):
the result is a number of the format, no number of the format is closer, of two that are equally close the one with an even significand
is taken, and results are finite exactly below `2^1024 - 2^970`.
-/

namespace Lfa

/-- `q` is `m 2^e` with a significand `m` of at most 53 bits (or `2^53` itself) and an exponent that is not too small; large exponents are
not excluded. -/
def Spec.Significand (q : ℝ) (m e : ℤ) : Prop := |m| ≤ 2 ^ 53 ∧ -1074 ≤ e ∧ q = m * 2 ^ e

/-- No integer is closer. -/
theorem rne_closest (x : ℝ) (k : ℤ) : |(rne x : ℝ) - x| ≤ |(k : ℝ) - x| := by
  by_cases h : k = rne x
  · rw [h]
  · have h1 := rne_err x
    have h2 : (1 : ℝ) ≤ |(k : ℝ) - rne x| := by
      rw [← Int.cast_sub, ← Int.cast_abs]
      exact_mod_cast Int.one_le_abs (sub_ne_zero.2 h)
    have h3 := abs_sub_le (k : ℝ) x (rne x)
    rw [abs_sub_comm x] at h3
    linarith

/-- Of two equally close integers the even one is taken. -/
theorem rne_tie {x : ℝ} {k : ℤ} (hk : k ≠ rne x) (h : |(k : ℝ) - x| = |(rne x : ℝ) - x|) : Even (rne x) := by
  have h1 := rne_err x
  have h2 : (1 : ℝ) ≤ |(k : ℝ) - rne x| := by
    rw [← Int.cast_sub, ← Int.cast_abs]
    exact_mod_cast Int.one_le_abs (sub_ne_zero.2 hk)
  have h3 := abs_sub_le (k : ℝ) x (rne x)
  rw [abs_sub_comm x] at h3
  have h4 : |(rne x : ℝ) - x| = 1 / 2 := by linarith
  have hf := Int.self_sub_floor x
  have f0 := Int.fract_nonneg x
  have f1 := Int.fract_lt_one x
  unfold rne at h4 ⊢
  split_ifs at h4 ⊢ with a b c
  · rw [abs_sub_comm, hf, abs_of_nonneg f0] at h4
    linarith
  · push_cast at h4
    rw [abs_of_nonneg (by linarith)] at h4
    linarith
  · exact c
  · exact (Int.not_even_iff_odd.1 c).add_one

/-- A number of the format that is no multiple of the unit in the last place of `r` lies strictly below the power of two below `r`. -/
theorem below_of_not_multiple {r q : ℝ} {m e : ℤ} (r0 : r ≠ 0) (hq : Spec.Significand q m e)
    (hn : ∀ k : ℤ, q ≠ k * 2 ^ binary64Format.ulp r) :
    |q| < 2 ^ (binary64Format.ulp r + 52) ∧ (2 : ℝ) ^ (binary64Format.ulp r + 52) ≤ |r| := by
  obtain ⟨hm, he, rfl⟩ := hq
  have lt : e < binary64Format.ulp r := by
    by_contra hc
    obtain ⟨d, hd⟩ := Int.eq_ofNat_of_zero_le (sub_nonneg.2 (not_lt.1 hc))
    refine hn (m * 2 ^ d) ?_
    rw [show e = d + binary64Format.ulp r by omega, zpow_add₀ (by norm_num)]
    push_cast
    rw [zpow_natCast, mul_assoc]
  have hu : binary64Format.ulp r = Int.log 2 |r| - 52 := by
    have : binary64Format.ulp r = max (-1074) (Int.log 2 |r| - ((53 : ℕ) - 1)) := rfl
    rw [this] at lt ⊢
    push_cast at lt ⊢
    omega
  have hr : (2 : ℝ) ^ (binary64Format.ulp r + 52) ≤ |r| := by
    rw [hu, sub_add_cancel]
    exact_mod_cast Int.zpow_log_le_self (b := 2) (by norm_num) (abs_pos.2 r0)
  refine ⟨lt_of_le_of_ne ?_ ?_, hr⟩
  · rw [abs_mul, abs_of_pos (by positivity : (0 : ℝ) < 2 ^ e)]
    calc |(m : ℝ)| * 2 ^ e ≤ 2 ^ (53 : ℤ) * 2 ^ e := by
          refine mul_le_mul_of_nonneg_right ?_ (by positivity)
          exact_mod_cast hm
      _ = 2 ^ (53 + e) := (zpow_add₀ (by norm_num) _ _).symm
      _ ≤ 2 ^ (binary64Format.ulp r + 52) := zpow_le_zpow_right₀ (by norm_num) (by omega)
  · intro h
    rw [add_comm, zpow_add₀ (by norm_num)] at h
    rcases abs_choice ((m : ℝ) * 2 ^ e) with a | a
    · refine hn (2 ^ 52) ?_
      rw [a] at h
      rw [h]
      push_cast
      norm_cast
    · refine hn (-2 ^ 52) ?_
      rw [a] at h
      rw [← neg_neg ((m : ℝ) * 2 ^ e), h]
      push_cast
      rw [neg_mul]
      norm_cast

/-- The multiple of the unit in the last place at the power of two below `|r|` is as far from `r` as the absolute values differ. -/
theorem power_distance {r : ℝ} (h : (2 : ℝ) ^ (binary64Format.ulp r + 52) ≤ |r|) :
    ∃ k : ℤ, |(k : ℝ) * 2 ^ binary64Format.ulp r - r| = |r| - 2 ^ (binary64Format.ulp r + 52) := by
  have e : (2 : ℝ) ^ (binary64Format.ulp r + 52) = 2 ^ 52 * 2 ^ binary64Format.ulp r := by
    rw [add_comm, zpow_add₀ (by norm_num)]
    norm_cast
  rcases abs_choice r with a | a
  · refine ⟨2 ^ 52, ?_⟩
    rw [show (((2 ^ 52 : ℤ) : ℝ)) = 2 ^ 52 by norm_num, ← e, abs_sub_comm, abs_of_nonneg (by linarith), a]
  · refine ⟨-2 ^ 52, ?_⟩
    rw [show (((-2 ^ 52 : ℤ) : ℝ)) = -2 ^ 52 by norm_num, neg_mul, ← e, abs_of_nonneg (by linarith), a]
    ring

theorem scaled_distance (k : ℤ) (r : ℝ) : |(k : ℝ) * 2 ^ binary64Format.ulp r - r| =
    |(k : ℝ) - r / 2 ^ binary64Format.ulp r| * 2 ^ binary64Format.ulp r := by
  have u := Format.two_zpow_pos (binary64Format.ulp r)
  nth_rw 3 [← abs_of_pos u]
  rw [← abs_mul, sub_mul, div_mul_cancel₀ _ u.ne']

/-- Rounding gives a number of the format, none is closer, and of two equally close ones it takes one with an even significand. -/
theorem ieee_nearest (r : ℝ) :
    (∃ m e, Spec.Significand (binary64Format.nearest r) m e) ∧
    ∀ q m e, Spec.Significand q m e → |binary64Format.nearest r - r| ≤ |q - r| ∧
      (q ≠ binary64Format.nearest r → |q - r| = |binary64Format.nearest r - r| →
        ∃ m' e', Spec.Significand (binary64Format.nearest r) m' e' ∧ Even m') := by
  have u := Format.two_zpow_pos (binary64Format.ulp r)
  have sig : Spec.Significand (binary64Format.nearest r) (rne (r / 2 ^ binary64Format.ulp r)) (binary64Format.ulp r) :=
    ⟨binary64Format.mant_le, le_max_left .., rfl⟩
  have best : ∀ k : ℤ, |binary64Format.nearest r - r| ≤ |(k : ℝ) * 2 ^ binary64Format.ulp r - r| := fun k => by
    rw [scaled_distance k, Format.nearest, scaled_distance]
    exact mul_le_mul_of_nonneg_right (rne_closest _ _) u.le
  refine ⟨⟨_, _, sig⟩, fun q m e hq => ?_⟩
  by_cases r0 : r = 0
  · subst r0
    have z : binary64Format.nearest 0 = 0 := binary64Format.nearest_zero
    rw [z]
    refine ⟨by simp, fun h1 h2 => absurd ?_ h1⟩
    simpa using h2
  by_cases hn : ∀ k : ℤ, q ≠ k * 2 ^ binary64Format.ulp r
  · obtain ⟨h1, h2⟩ := below_of_not_multiple r0 hq hn
    obtain ⟨k, hk⟩ := power_distance h2
    have h3 := best k
    have h4 : |r| - |q| ≤ |q - r| := by
      rw [abs_sub_comm]
      exact abs_sub_abs_le_abs_sub r q
    exact ⟨by linarith, fun _ h => absurd h (by linarith)⟩
  · push Not at hn
    obtain ⟨k, rfl⟩ := hn
    refine ⟨best k, fun h1 h2 => ⟨_, _, sig, rne_tie (k := k) (fun h => h1 (by rw [h]; rfl)) ?_⟩⟩
    rw [scaled_distance k, Format.nearest, scaled_distance] at h2
    exact mul_right_cancel₀ u.ne' h2

/-- The powers of two at the upper end of the format, in units of `2^971`. -/
theorem big_powers : ∃ U : ℝ, 0 < U ∧ (2 : ℝ) ^ (971 : ℤ) = U ∧ (2 : ℝ) ^ (1024 : ℤ) = 9007199254740992 * U ∧
    (2 : ℝ) ^ (1023 : ℤ) = 4503599627370496 * U ∧ (2 : ℝ) ^ (970 : ℤ) = U / 2 := by
  have e : ∀ a d : ℤ, d + 971 = a → (2 : ℝ) ^ a = 2 ^ d * 2 ^ (971 : ℤ) := fun a d h => by
    rw [← h]
    exact zpow_add₀ (by norm_num) _ _
  have p : (0 : ℝ) < 2 ^ (971 : ℤ) := zpow_pos (by norm_num) _
  have a := e 1024 53 rfl
  have b := e 1023 52 rfl
  have c := e 970 (-1) rfl
  generalize (2 : ℝ) ^ (971 : ℤ) = U at p a b c ⊢
  have h53 : (2 : ℝ) ^ (53 : ℤ) = 9007199254740992 := by norm_num
  have h52 : (2 : ℝ) ^ (52 : ℤ) = 4503599627370496 := by norm_num
  have h1 : (2 : ℝ) ^ (-1 : ℤ) = 1 / 2 := by norm_num
  rw [h53] at a
  rw [h52] at b
  rw [h1] at c
  exact ⟨U, p, rfl, a, b, c.trans (by ring)⟩

/-- The least number that overflows is half a unit below `2^1024`: it is a tie, and `2^53` is even. -/
theorem nearest_limit : binary64Format.nearest (2 ^ (1024 : ℤ) - 2 ^ (970 : ℤ)) = 2 ^ (1024 : ℤ) := by
  obtain ⟨U, U0, e0, e1, e3, e2⟩ := big_powers
  have pos : (0 : ℝ) < 9007199254740992 * U - U / 2 := by linarith only [U0]
  have lg : Int.log 2 |9007199254740992 * U - U / 2| = 1023 := by
    rw [abs_of_pos pos]
    refine le_antisymm (Int.lt_add_one_iff.1 ?_) ?_
    · refine (Int.lt_zpow_iff_log_lt (b := 2) (by norm_num) pos).1 ?_
      rw [show (1023 : ℤ) + 1 = 1024 from rfl, Nat.cast_ofNat, e1]
      linarith only [U0]
    · refine (Int.zpow_le_iff_le_log (b := 2) (by norm_num) pos).1 ?_
      rw [Nat.cast_ofNat, e3]
      linarith only [U0]
  have hu : binary64Format.ulp (9007199254740992 * U - U / 2) = 971 := by
    show max (-1074) (Int.log 2 |9007199254740992 * U - U / 2| - ((53 : ℕ) - 1)) = 971
    rw [lg]
    rfl
  have hx : (9007199254740992 * U - U / 2) / U = ((2 ^ 53 - 1 : ℤ) : ℝ) + 1 / 2 := by
    rw [div_eq_iff U0.ne']
    push_cast
    ring
  have hr : rne (((2 ^ 53 - 1 : ℤ) : ℝ) + 1 / 2) = 2 ^ 53 := by
    have fl : ⌊((2 ^ 53 - 1 : ℤ) : ℝ) + 1 / 2⌋ = 2 ^ 53 - 1 := by
      rw [Int.floor_intCast_add, show ⌊(1 / 2 : ℝ)⌋ = 0 from Int.floor_eq_iff.2 ⟨by norm_num, by norm_num⟩, add_zero]
    have fr : Int.fract (((2 ^ 53 - 1 : ℤ) : ℝ) + 1 / 2) = 1 / 2 := by
      rw [Int.fract, fl, add_sub_cancel_left]
    unfold rne
    rw [fr, fl, if_neg (lt_irrefl _), if_neg (lt_irrefl _), if_neg (by decide)]
    norm_num
  rw [e1, e2]
  unfold Format.nearest
  rw [hu, e0, hx, hr]
  push_cast
  norm_num

/-- Results are finite exactly below `2^1024 - 2^970`; beyond it they are the infinity of their sign. -/
theorem ieee_overflow (r : ℝ) : binary64Format.rnd r =
    if |r| < 2 ^ (1024 : ℤ) - 2 ^ (970 : ℤ) then .fin (binary64Format.nearest r) else if 0 < r then .pinf else .ninf := by
  have lim := nearest_limit
  have em : ((2 : ℝ) ^ binary64Format.emax) = 2 ^ (1024 : ℤ) := rfl
  have hq : Spec.Significand (((2 ^ 53 - 1 : ℤ) : ℝ) * 2 ^ (971 : ℤ)) (2 ^ 53 - 1) 971 := ⟨by decide, by decide, rfl⟩
  have near := fun s => ((ieee_nearest s).2 _ _ _ hq).1
  obtain ⟨U, U0, e0, e1, -, e2⟩ := big_powers
  rw [e0] at near
  rw [e1, e2] at lim
  rw [e1] at em
  rw [e1, e2]
  have neg : ∀ s, binary64Format.nearest (-s) = -binary64Format.nearest s := binary64Format.nearest_neg
  have ab : |binary64Format.nearest r| = binary64Format.nearest |r| := by
    rcases abs_choice r with a | a
    · rw [a, abs_of_nonneg (binary64Format.nearest_nonneg (by rw [← a]; exact abs_nonneg r))]
    · rw [a, ← abs_neg, ← neg, abs_of_nonneg (binary64Format.nearest_nonneg (by rw [← a]; exact abs_nonneg r))]
  have key : 9007199254740992 * U ≤ |binary64Format.nearest r| ↔ 9007199254740992 * U - U / 2 ≤ |r| := by
    rw [ab]
    constructor
    · intro h
      by_contra hc
      push Not at hc
      have h1 := near |r|
      push_cast at h1
      rw [abs_of_nonneg (by linarith only [U0, h, hc] : 0 ≤ binary64Format.nearest |r| - |r|)] at h1
      rcases abs_cases (9007199254740991 * U - |r|) with a | a <;> linarith only [U0, h, hc, h1, a.1, a.2]
    · intro h
      rw [← lim]
      exact binary64Format.nearest_mono h
  unfold Format.rnd
  rw [em]
  by_cases h : |r| < 9007199254740992 * U - U / 2
  · rw [if_neg (fun c => absurd (key.1 c) (not_le.2 h)), if_pos h]
  · rw [if_pos (key.2 (not_lt.1 h)), if_neg h]
    have r0 : r ≠ 0 := by
      rintro rfl
      rw [abs_zero] at h
      exact h (by linarith only [U0])
    unfold XReal.infSign
    by_cases hr : 0 < r
    · rw [if_pos hr.le, if_pos hr]
    · rw [if_neg (fun c => hr (lt_of_le_of_ne c r0.symm)), if_neg hr]

end Lfa

import Verif.Props.C87

/-!
# C87: the bound `2 ^ (-511)` for L2 normalisation cannot be lowered by as much as 1 %
-/

set_option linter.unusedSectionVars false

namespace Lfa

open Spec Machine XReal

namespace Format

variable (F : Format)

/-- Rounding a number between two powers of two that is nearest to `n` units in the last place. -/
theorem nearest_eq {r : ℝ} {k e n : ℤ} (h1 : (2 : ℝ) ^ k ≤ r) (h2 : r < 2 ^ (k + 1))
    (he : max F.emin (k - (F.p - 1)) = e) (hl : ((n : ℝ) - 1 / 2) * 2 ^ e < r)
    (hu : r < ((n : ℝ) + 1 / 2) * 2 ^ e) : F.nearest r = n * 2 ^ e := by
  have hr : 0 < r := (two_zpow_pos k).trans_le h1
  have hlog : Int.log 2 |r| = k := by
    rw [abs_of_pos hr]
    refine le_antisymm ?_ ?_
    · have := (Int.lt_zpow_iff_log_lt (R := ℝ) (b := 2) (by norm_num) hr).1
        (by exact_mod_cast h2 : r < ((2 : ℕ) : ℝ) ^ (k + 1))
      omega
    · exact (Int.zpow_le_iff_le_log (R := ℝ) (b := 2) (by norm_num) hr).1 (by exact_mod_cast h1)
  have hulp : F.ulp r = e := by unfold ulp; rw [hlog, he]
  have h2e := two_zpow_pos e
  unfold nearest
  rw [hulp]
  congr 2
  have ha := (abs_le.1 (rne_err (r / 2 ^ e)))
  have hb : (n : ℝ) - 1 / 2 < r / 2 ^ e := by rwa [lt_div_iff₀ h2e]
  have hc : r / 2 ^ e < (n : ℝ) + 1 / 2 := by rwa [div_lt_iff₀ h2e]
  have h3 : (rne (r / 2 ^ e) : ℝ) < ((n + 1 : ℤ) : ℝ) := by push_cast; linarith
  have h4 : ((n - 1 : ℤ) : ℝ) < rne (r / 2 ^ e) := by push_cast; linarith
  have h3 : rne (r / 2 ^ e) < n + 1 := by exact_mod_cast h3
  have h4 : n - 1 < rne (r / 2 ^ e) := by exact_mod_cast h4
  omega

end Format

theorem square_rounds :
    binary64Format.nearest ((8944728684037898 * 2 ^ (-564 : ℤ)) * (8944728684037898 * 2 ^ (-564 : ℤ))) =
      4441345692943207 * 2 ^ (-1074 : ℤ) := by
  have e1 : (8944728684037898 * 2 ^ (-564 : ℤ)) * (8944728684037898 * 2 ^ (-564 : ℤ)) =
      (8944728684037898 * 8944728684037898 / 2 ^ 54 : ℝ) * 2 ^ (-1074 : ℤ) := by
    rw [show (-1074 : ℤ) = -564 + -564 + 54 by norm_num, zpow_add₀ (by norm_num),
      zpow_add₀ (by norm_num)]
    generalize (2 : ℝ) ^ (-564 : ℤ) = t
    norm_num
    ring
  have hp := Format.two_zpow_pos (-1074)
  have e2 : (2 : ℝ) ^ (-1023 : ℤ) = 2 ^ 51 * 2 ^ (-1074 : ℤ) := by
    rw [show (-1023 : ℤ) = 51 + -1074 by norm_num, zpow_add₀ (by norm_num)]; norm_cast
  have e3 : (2 : ℝ) ^ (-1023 + 1 : ℤ) = 2 ^ 52 * 2 ^ (-1074 : ℤ) := by
    rw [show (-1023 + 1 : ℤ) = 52 + -1074 by norm_num, zpow_add₀ (by norm_num)]; norm_cast
  have := binary64Format.nearest_eq (r := (8944728684037898 * 2 ^ (-564 : ℤ)) * (8944728684037898 * 2 ^ (-564 : ℤ)))
    (k := -1023) (e := -1074) (n := 4441345692943207)
    (by rw [e1, e2]; exact mul_le_mul_of_nonneg_right (by norm_num) hp.le)
    (by rw [e1, e3]; exact mul_lt_mul_of_pos_right (by norm_num) hp) (by decide)
    (by rw [e1]; exact mul_lt_mul_of_pos_right (by norm_num) hp)
    (by rw [e1]; exact mul_lt_mul_of_pos_right (by norm_num) hp)
  rw [this]; norm_num

theorem root_rounds :
    binary64Format.nearest (Real.sqrt (4441345692943207 * 2 ^ (-1074 : ℤ))) =
      8944728684037897 * 2 ^ (-564 : ℤ) := by
  have hp := Format.two_zpow_pos (-564)
  have e1 : Real.sqrt (4441345692943207 * 2 ^ (-1074 : ℤ)) =
      Real.sqrt (4441345692943207 * 2 ^ 54) * 2 ^ (-564 : ℤ) := by
    have : (4441345692943207 * 2 ^ (-1074 : ℤ) : ℝ) =
        (4441345692943207 * 2 ^ 54) * (2 ^ (-564 : ℤ)) ^ 2 := by
      rw [show (-1074 : ℤ) = -564 + -564 + 54 by norm_num, zpow_add₀ (by norm_num),
        zpow_add₀ (by norm_num)]
      generalize (2 : ℝ) ^ (-564 : ℤ) = t
      norm_num
      ring
    rw [this, Real.sqrt_mul (by positivity), Real.sqrt_sq hp.le]
  have e2 : (2 : ℝ) ^ (-512 : ℤ) = 2 ^ 52 * 2 ^ (-564 : ℤ) := by
    rw [show (-512 : ℤ) = 52 + -564 by norm_num, zpow_add₀ (by norm_num)]; norm_cast
  have e3 : (2 : ℝ) ^ (-512 + 1 : ℤ) = 2 ^ 53 * 2 ^ (-564 : ℤ) := by
    rw [show (-512 + 1 : ℤ) = 53 + -564 by norm_num, zpow_add₀ (by norm_num)]; norm_cast
  have := binary64Format.nearest_eq (r := Real.sqrt (4441345692943207 * 2 ^ (-1074 : ℤ)))
    (k := -512) (e := -564) (n := 8944728684037897)
    (by rw [e1, e2]
        exact mul_le_mul_of_nonneg_right (Real.le_sqrt_of_sq_le (by norm_num)) hp.le)
    (by rw [e1, e3]
        exact mul_lt_mul_of_pos_right ((Real.sqrt_lt' (by norm_num)).2 (by norm_num)) hp)
    (by decide)
    (by rw [e1]
        exact mul_lt_mul_of_pos_right (Real.lt_sqrt_of_sq_lt (by norm_num)) hp)
    (by rw [e1]
        exact mul_lt_mul_of_pos_right ((Real.sqrt_lt' (by norm_num)).2 (by norm_num)) hp)
  rw [this]; norm_num

theorem quotient_rounds :
    binary64Format.nearest ((8944728684037898 * 2 ^ (-564 : ℤ)) / (8944728684037897 * 2 ^ (-564 : ℤ))) =
      1 + 2 ^ (-52 : ℤ) := by
  rw [mul_div_mul_right _ _ (Format.two_zpow_pos _).ne']
  have := binary64Format.nearest_eq (r := 8944728684037898 / 8944728684037897)
    (k := 0) (e := -52) (n := 2 ^ 52 + 1) (by norm_num) (by norm_num) (by decide)
    (by norm_num) (by norm_num)
  rw [this]
  norm_num

section
variable {M : Machine} {B I : Type} [Space B] [Basis B I (FP M)]

/-- The only activation is `1.986... * 2 ^ (-512)`, and its L2 normalisation is `1 + 2 ^ (-52)`: the
bound of `C87_l2_binary64` cannot be lowered by 1 %. -/
theorem C87_l2_tight (hM : M.rnd = binary64Format.rnd) (b : B) (x : I) (a : FP M)
    (ha : Is a (8944728684037898 * 2 ^ (-564 : ℤ)))
    (hp : Basis.project b x = .ok (.ok (.dense [a]))) :
    ((99 : ℝ) / 100) * 2 ^ (-511 : ℤ) < 8944728684037898 * 2 ^ (-564 : ℤ) ∧
    ∃ c : FP M, Basis.project (L2Normaliser.mk b) x = .ok (.ok (.dense [c])) ∧
      Is c (1 + 2 ^ (-52 : ℤ)) ∧ ¬ InUnit c := by
  have rnd_of {r q : ℝ} (h : binary64Format.nearest r = q) (hq : |q| < 2 ^ 1024) :
      M.rnd r = .fin q := by
    rw [hM, Format.rnd_of_lt _ (by rw [h]; exact hq.trans_eq (zpow_natCast (2 : ℝ) 1024).symm), h]
  have small {q : ℝ} {k : ℤ} (hk : k ≤ 0) (h0 : 0 ≤ q) (hq : q ≤ 2 ^ 60) : |q * 2 ^ k| < 2 ^ 1024 := by
    have hk1 : (2 : ℝ) ^ k ≤ 1 := zpow_le_one_of_nonpos₀ (by norm_num) hk
    have hk0 := Format.two_zpow_pos k
    rw [abs_of_nonneg (by positivity)]
    calc q * 2 ^ k ≤ q * 1 := mul_le_mul_of_nonneg_left hk1 h0
      _ = q := mul_one q
      _ ≤ 2 ^ 60 := hq
      _ < 2 ^ 1024 := pow_lt_pow_right₀ (by norm_num) (by norm_num)
  refine ⟨?_, ?_⟩
  · rw [show (-511 : ℤ) = 53 + -564 by norm_num, zpow_add₀ (by norm_num), ← mul_assoc]
    exact mul_lt_mul_of_pos_right (by norm_num) (Format.two_zpow_pos _)
  have hs : (a *. a).1 = .fin (4441345692943207 * 2 ^ (-1074 : ℤ)) := by
    rw [val_mul, ha]
    exact rnd_of square_rounds (small (by norm_num) (by norm_num) (by norm_num))
  have hn : (l2Norm (.dense [a])).1 = .fin (8944728684037897 * 2 ^ (-564 : ℤ)) := by
    show (M.round (XReal.sqrt (Scalar.zero +. a *. a).1)).1 = _
    have : (Scalar.zero +. a *. a).1 = .fin (4441345692943207 * 2 ^ (-1074 : ℤ)) := by
      rw [val_add, val_zero, hs]
      show M.rnd (0 + _) = _
      rw [zero_add]
      exact (a *. a).2 _ hs
    rw [this]
    show (M.round (if (_ : ℝ) < 0 then _ else _)).1 = _
    rw [if_neg (not_lt.2 (by positivity)), round_fin]
    exact rnd_of root_rounds (small (by norm_num) (by norm_num) (by norm_num))
  have hc : (a /. l2Norm (.dense [a])).1 = .fin (1 + 2 ^ (-52 : ℤ)) := by
    rw [val_div, hn, ha]
    show (M.round (if (_ : ℝ) = 0 then _ else _)).1 = _
    rw [if_neg (by positivity), round_fin]
    refine rnd_of quotient_rounds ?_
    rw [abs_of_pos (by positivity)]
    calc (1 + 2 ^ (-52 : ℤ) : ℝ) < 2 ^ 1 := by norm_num
      _ < 2 ^ 1024 := pow_lt_pow_right₀ (by norm_num) (by norm_num)
  refine ⟨_, by rw [l2_project hp]; rfl, hc, ?_⟩
  rintro ⟨r, hr, h1⟩
  have : XReal.fin (1 + 2 ^ (-52 : ℤ)) = .fin r := hc.symm.trans hr
  injection this with this
  rw [← this, abs_of_pos (by positivity)] at h1
  have := Format.two_zpow_pos (-52)
  linarith

end

/-- That activation is a number of `f64`. -/
example : ∃ a : FP binary64, Is a (8944728684037898 * 2 ^ (-564 : ℤ)) := by
  refine ⟨binary64.lit (8944728684037898 * 2 ^ (-564 : ℤ)), ?_⟩
  have := binary64Format.rnd_exact (m := 8944728684037898) (e := -564) (by decide) (by decide) (by
    have h := Format.two_zpow_pos (-564)
    rw [abs_of_pos (by positivity)]
    calc ((8944728684037898 : ℤ) : ℝ) * 2 ^ (-564 : ℤ) ≤ 2 ^ (53 : ℤ) * 2 ^ (-564 : ℤ) :=
          mul_le_mul_of_nonneg_right (by norm_num) h.le
      _ = 2 ^ (53 + -564 : ℤ) := (zpow_add₀ (by norm_num) _ _).symm
      _ < _ := zpow_lt_zpow_right₀ (by norm_num) (by decide))
  exact_mod_cast this

end Lfa

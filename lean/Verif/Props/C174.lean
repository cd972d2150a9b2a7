import Verif.Props.C161_C162
import Verif.Props.C88

/-!
# C174: how exact the L0, L1 and L∞ normalisations are in `f64`

`M` is any machine that rounds like `f64`, `b` any basis, `x` any input and `φ` what `b` projects `x` to.
-/

set_option linter.unusedSectionVars false

namespace Lfa

open Spec Machine XReal

variable {M : Machine}

/-- Dividing a finite number by one of at least `1` does not overflow. -/
theorem fin_of_div {a z : FP M} {q c : ℝ} (hq : Is a q) (hc : Is z c) (h1 : 1 ≤ c) : Finite (a /. z) := by
  have hc0 : 0 < c := lt_of_lt_of_le one_pos h1
  have hv : (a /. z).1 = M.rnd (q / c) := by
    rw [val_div, hq, hc]
    show (M.round (if c = 0 then _ else .fin (q / c))).1 = _
    rw [if_neg hc0.ne']; rfl
  have hr : M.rnd |q| = .fin |q| := by
    have e : (Scalar.abs a).1 = .fin |q| := by rw [val_abs, hq]; rfl
    have h2 := round_self (Scalar.abs a)
    rw [e] at h2
    have h3 : (M.round (.fin |q|)).1 = M.rnd |q| := rfl
    rw [← h3, h2, e]
  obtain ⟨y, hy, -⟩ := bounded_rnd hv (c := |q|) (by
    rw [abs_div, abs_of_pos hc0]
    exact div_le_self (abs_nonneg q) h1) hr
  exact ⟨y, hy⟩

/-- `f64`: the constant `1e-5` is positive. -/
theorem lt_small_const (hM : M.rnd = binary64Format.rnd) :
    XReal.lt (XReal.abs (.fin 0)) (Scalar.sci 1 5 : FP M).1 = true := by
  have h := M.rnd_mono (show (2 : ℝ) ^ (-20 : ℤ) ≤ ((1 : Nat) : ℝ) / 10 ^ 5 by norm_num)
  have e : M.rnd (2 ^ (-20 : ℤ)) = .fin (2 ^ (-20 : ℤ)) := by
    have := binary64Format.rnd_exact (m := 1) (e := -20) (by decide) (by decide) (by
      rw [Int.cast_one, one_mul, abs_of_pos (Format.two_zpow_pos _)]
      exact zpow_lt_zpow_right₀ (by norm_num) (by decide))
    rw [Int.cast_one, one_mul] at this
    rw [hM, this]
  rw [e, ← val_sci] at h
  have e0 : XReal.abs (.fin 0) = .fin 0 := by show XReal.fin |0| = _; rw [abs_zero]
  rw [e0]
  generalize (Scalar.sci 1 5 : FP M).1 = v at h
  cases v with
  | fin r =>
    have h : (2 : ℝ) ^ (-20 : ℤ) ≤ r := h
    show decide ((0 : ℝ) < r) = true
    exact decide_eq_true (lt_of_lt_of_le (by positivity) h)
  | nan => exact absurd h (le_nan _)
  | ninf => exact absurd h (fin_le_ninf _)
  | pinf => rfl

section
variable {B I : Type} [Space B] [Basis B I (FP M)]

/-- L0: every activation is divided by the number of active features with a single rounding. -/
theorem C174_l0 (hM : M.rnd = binary64Format.rnd) (b : B) (x : I) (φ : Features (FP M)) (h : WF φ)
    (hf : AllFinite φ) (hp : Basis.project b x = .ok (.ok φ)) (h0 : 0 < φ.nActive) (h1 : φ.nActive ≤ 2 ^ 53) :
    ∃ g : FP M → FP M, Basis.project (L0Normaliser.mk b) x = .ok (.ok (mapValues g φ)) ∧
      ∀ i a, Stored φ i a → Finite (g a) ∧
        |real (g a) - real a / φ.nActive| ≤ roundoff * (|real a| / φ.nActive) + tiny := by
  have hn : Is (Scalar.ofNat φ.nActive : FP M) φ.nActive := by
    show _ = _
    rw [val_ofNat, C88_binary64 hM _ h1]
  have hn1 : (1 : ℝ) ≤ φ.nActive := by exact_mod_cast h0
  have hn0 : (0 : ℝ) < φ.nActive := lt_of_lt_of_le one_pos hn1
  refine ⟨fun a => a /. Scalar.ofNat φ.nActive, ?_, fun i a ha => ?_⟩
  · have hm : l0Normalise φ = .ok (mapValues (fun a => a /. Scalar.ofNat φ.nActive) φ) := by
      cases φ with
      | dense da => rfl
      | sparse sa =>
        have hs : Features.sparsityPreserving
            (fun a : FP M => a /. Scalar.ofNat (Features.sparse sa).nActive) = true := by
          have hz : Is ((Scalar.zero : FP M) /. Scalar.ofNat (Features.sparse sa).nActive) 0 := by
            show _ = _
            rw [val_div, val_zero, hn]
            show (M.round (if _ = 0 then _ else .fin (0 / _))).1 = _
            rw [if_neg hn0.ne', zero_div]
            exact rnd_zero
          show XReal.lt (Scalar.abs (_ : FP M)).1 (Scalar.sci 1 5 : FP M).1 = true
          rw [val_abs, hz]
          exact lt_small_const hM
        exact map_sparse_preserving h.1 hs
    rw [l0_project hp, hm]; rfl
  · obtain ⟨q, hq⟩ := hf i a ha
    obtain ⟨z, hz⟩ := fin_of_div hq hn hn1
    have e := div_err hM hq hn hn0.ne' hz
    rw [abs_div, abs_of_pos hn0] at e
    rw [is_real hz, is_real hq]
    exact ⟨⟨z, hz⟩, e⟩

/-- L1: every activation is divided by the sum of magnitudes with a relative error of at most `(4 k + 2) 2^-53`, `k` being the
number of stored activations. -/
theorem C174_l1 (hM : M.rnd = binary64Format.rnd) (b : B) (x : I) (φ : Features (FP M)) (h : WF φ)
    (hf : AllFinite φ) (hz : SomeNonZero φ) (hp : Basis.project b x = .ok (.ok φ)) (hk : storedCount φ ≤ 2 ^ 40)
    (s : ℝ) (hs : s = ∑ i ∈ Finset.range (dim φ), |real (value φ i)|) (hs1 : s ≤ 2 ^ 1022) :
    ∃ g : FP M → FP M, Basis.project (L1Normaliser.mk b) x = .ok (.ok (mapValues g φ)) ∧
      ∀ i a, Stored φ i a → Finite (g a) ∧
        |real (g a) - real a / s| ≤ (4 * storedCount φ + 2) * roundoff * (|real a| / s) + tiny := by
  refine ⟨fun a => a /. l1Norm φ, by rw [l1_project hp, divideBy_eq h], fun i a ha => ?_⟩
  have hv : ∀ a ∈ φ.values, Finite a := values_finite hf
  have hlen := storedCount_values φ
  have hsum : (φ.values.map fun a => |real a|).sum = s :=
    (sum_values h (fun r => |r|) abs_zero).trans hs.symm
  obtain ⟨c, hc, c1, c2⟩ := sum_finite hM φ.values hv (by rw [hlen]; exact hk) (hsum ▸ hs1)
  have hS : 0 < s := by
    rw [← hsum]
    obtain ⟨i, a, r, hi, hr, h0⟩ := hz
    refine lt_of_lt_of_le (abs_pos.2 h0) ?_
    refine List.single_le_sum (l := φ.values.map fun a => |real a|) (fun y hy => ?_) _
      (List.mem_map.2 ⟨a, (mem_values_iff φ a).2 ⟨i, hi⟩, by rw [is_real hr]⟩)
    obtain ⟨y', -, rfl⟩ := List.mem_map.1 hy
    exact abs_nonneg _
  rw [hsum, hlen] at c1 c2
  clear hs hs1
  obtain ⟨q, hq, -⟩ : InUnit (a /. l1Norm φ) := (normalise_of hf hz (foldl_abs φ.values hv Scalar.zero (by
      rw [val_zero]; exact le_refl (0 : ℝ))).2 i a ha).1
  have hu := roundoff_pos
  have ht := length_roundoff' hk
  have hu1 : roundoff ≤ 1 / 2 := by norm_num [roundoff]
  have hp := compound hu.le (storedCount φ) (length_roundoff hk)
  have hb : 1 - (storedCount φ : ℝ) * roundoff ≤ (1 - roundoff) ^ storedCount φ := by
    have := one_add_mul_le_pow (a := -roundoff) (by linarith) (storedCount φ)
    rwa [mul_neg, ← sub_eq_add_neg, ← sub_eq_add_neg] at this
  have c1 : (1 - (storedCount φ : ℝ) * roundoff) * s ≤ c :=
    (mul_le_mul_of_nonneg_right hb hS.le).trans c1
  have c2 : c ≤ (1 + 2 * ((storedCount φ : ℝ) * roundoff)) * s :=
    c2.trans (mul_le_mul_of_nonneg_right hp hS.le)
  have ht0 : 0 ≤ (storedCount φ : ℝ) * roundoff * s := by positivity
  have hcs : |c - s| ≤ 2 * ((storedCount φ : ℝ) * roundoff) * s := abs_le.2 ⟨by linarith, by linarith⟩
  have hc0 : 0 < c := by
    have := mul_le_mul_of_nonneg_right ht hS.le
    linarith
  obtain ⟨r, hr⟩ := hf i a ha
  have e := div_err hM hr (show Is (l1Norm φ) c from hc) hc0.ne' hq
  obtain ⟨-, e8⟩ := quotient_err hS hcs (by linarith) hu.le e
  show Finite (a /. l1Norm φ) ∧ |real (a /. l1Norm φ) - _| ≤ _
  rw [is_real hq, is_real hr]
  exact ⟨⟨q, hq⟩, e8.trans (le_of_eq (by ring))⟩

/-- L∞: every activation is divided by the largest magnitude among them with a single rounding. -/
theorem C174_linf (hM : M.rnd = binary64Format.rnd) (b : B) (x : I) (φ : Features (FP M)) (h : WF φ)
    (hf : AllFinite φ) (hz : SomeNonZero φ) (hp : Basis.project b x = .ok (.ok φ)) (m : ℝ)
    (hm : ∀ i a, Stored φ i a → |real a| ≤ m) (hm' : ∃ i a, Stored φ i a ∧ |real a| = m) :
    ∃ g : FP M → FP M, Basis.project (LinfNormaliser.mk b) x = .ok (.ok (mapValues g φ)) ∧
      ∀ i a, Stored φ i a → Finite (g a) ∧
        |real (g a) - real a / m| ≤ roundoff * (|real a| / m) + tiny := by
  refine ⟨fun a => a /. linfNorm φ, by rw [linf_project hp, divideBy_eq h], fun i a ha => ?_⟩
  have hv : ∀ a ∈ φ.values, Finite a := values_finite hf
  obtain ⟨-, h2, h3⟩ := foldl_max φ.values hv ScalarInf.negInf (.inl val_negInf)
  have hat : ∃ a ∈ φ.values, linfNorm φ = Scalar.abs a := by
    rcases h3 with h3 | h3
    · obtain ⟨i, a, r, hs, hr, -⟩ := hz
      have := h2 a ((mem_values_iff φ a).2 ⟨i, hs⟩)
      rw [h3, val_negInf, val_abs, hr] at this
      exact absurd this (fin_le_ninf _)
    · exact h3
  have hn : Is (linfNorm φ) m := by
    obtain ⟨c, hcm, hce⟩ := hat
    obtain ⟨r, hr⟩ := hv c hcm
    obtain ⟨j, hj⟩ := (mem_values_iff φ c).1 hcm
    have u1 := hm j c hj
    rw [is_real hr] at u1
    obtain ⟨k, d, hd, hdm⟩ := hm'
    obtain ⟨r', hr'⟩ := hf k d hd
    rw [is_real hr'] at hdm
    have u2 := h2 d ((mem_values_iff φ d).2 ⟨k, hd⟩)
    have hce' : List.foldl (fun acc x => Scalar.max acc (Scalar.abs x)) ScalarInf.negInf φ.values =
      Scalar.abs c := hce
    rw [hce', val_abs, val_abs, hr, hr'] at u2
    have u2 : |r'| ≤ |r| := u2
    show _ = _
    rw [hce, val_abs, hr]
    show XReal.fin |r| = _
    rw [le_antisymm u1 (hdm ▸ u2)]
  have hm0 : 0 < m := by
    obtain ⟨j, c, s, hj, hc, hs0⟩ := hz
    refine lt_of_lt_of_le (abs_pos.2 hs0) ?_
    have := hm j c hj
    rwa [is_real hc] at this
  obtain ⟨q, hq, -⟩ : InUnit (a /. linfNorm φ) := (normalise_of hf hz h2 i a ha).1
  obtain ⟨r, hr⟩ := hf i a ha
  have e := div_err hM hr hn hm0.ne' hq
  rw [abs_div, abs_of_pos hm0] at e
  show Finite (a /. linfNorm φ) ∧ |real (a /. linfNorm φ) - _| ≤ _
  rw [is_real hq, is_real hr]
  exact ⟨⟨q, hq⟩, e⟩

/-- The hypotheses are met by the activations `1, 1, 3`, of which all are active: none of `1 / 3` (L0, L∞) and `1 / 5` (L1) is
representable. -/
example (hM : M.rnd = binary64Format.rnd) (b : B) (x : I)
    (hp : Basis.project b x = .ok (.ok (.dense [(Scalar.one : FP M), Scalar.one, Scalar.ofNat 3]))) :
    (∃ g : FP M → FP M, Basis.project (LinfNormaliser.mk b) x =
        .ok (.ok (.dense [g Scalar.one, g Scalar.one, g (Scalar.ofNat 3)])) ∧
      |real (g Scalar.one) - 1 / 3| ≤ roundoff * (1 / 3) + tiny) ∧
    (∃ g : FP M → FP M, Basis.project (L1Normaliser.mk b) x =
        .ok (.ok (.dense [g Scalar.one, g Scalar.one, g (Scalar.ofNat 3)])) ∧
      |real (g Scalar.one) - 1 / 5| ≤ 14 * roundoff * (1 / 5) + tiny) := by
  have h3 : Is (Scalar.ofNat 3 : FP M) 3 := by
    show _ = _
    rw [val_ofNat, C88_binary64 hM 3 (by norm_num)]
    norm_num
  have hall : ∀ i a, Stored (.dense [(Scalar.one : FP M), Scalar.one, Scalar.ofNat 3]) i a → Is a 1 ∨ Is a 3 := by
    intro i a ha
    have ha : [(Scalar.one : FP M), Scalar.one, Scalar.ofNat 3][i]? = some a := ha
    have := List.mem_of_getElem? ha
    simp only [List.mem_cons, List.not_mem_nil, or_false] at this
    rcases this with rfl | rfl | rfl
    · exact .inl val_one
    · exact .inl val_one
    · exact .inr h3
  have hf : AllFinite (.dense [(Scalar.one : FP M), Scalar.one, Scalar.ofNat 3]) := fun i a ha =>
    (hall i a ha).elim (fun h => ⟨1, h⟩) (fun h => ⟨3, h⟩)
  have hz : SomeNonZero (.dense [(Scalar.one : FP M), Scalar.one, Scalar.ofNat 3]) :=
    ⟨0, Scalar.one, 1, rfl, val_one, one_ne_zero⟩
  constructor
  · obtain ⟨g, h, h1⟩ := C174_linf hM b x (.dense [Scalar.one, Scalar.one, Scalar.ofNat 3]) trivial hf hz hp 3 (fun i a ha => by
      rcases hall i a ha with h | h <;> rw [is_real h] <;> norm_num) ⟨2, Scalar.ofNat 3, rfl, by
      rw [is_real h3]; norm_num⟩
    refine ⟨g, h, ?_⟩
    have := (h1 0 Scalar.one rfl).2
    rwa [is_real val_one, abs_one] at this
  · have hs : (5 : ℝ) = ∑ i ∈ Finset.range (dim (.dense [(Scalar.one : FP M), Scalar.one, Scalar.ofNat 3])),
        |real (value (.dense [(Scalar.one : FP M), Scalar.one, Scalar.ofNat 3]) i)| := by
      show _ = ∑ i ∈ Finset.range 3, |real (entry [(Scalar.one : FP M), Scalar.one, Scalar.ofNat 3] i)|
      rw [Finset.sum_range_succ, Finset.sum_range_succ, Finset.sum_range_one]
      show _ = |real (Scalar.one : FP M)| + |real (Scalar.one : FP M)| + |real (Scalar.ofNat 3 : FP M)|
      rw [is_real val_one, is_real h3]
      norm_num
    obtain ⟨g, h, h1⟩ := C174_l1 hM b x (.dense [Scalar.one, Scalar.one, Scalar.ofNat 3]) trivial hf hz hp (by show 3 ≤ _; norm_num) 5 hs
      ((by norm_num : (5 : ℝ) ≤ 2 ^ 3).trans (pow_le_pow_right₀ (by norm_num) (by norm_num)))
    refine ⟨g, h, ?_⟩
    have := (h1 0 Scalar.one rfl).2
    rw [is_real val_one, abs_one] at this
    have e : ((4 : ℝ) * (storedCount (.dense [(Scalar.one : FP M), Scalar.one, Scalar.ofNat 3]) : ℕ) + 2) = 14 := by
      show (4 : ℝ) * ((3 : ℕ) : ℝ) + 2 = 14
      norm_num
    rwa [e] at this

/-- L0: three units, each of which becomes one third. -/
example (hM : M.rnd = binary64Format.rnd) (b : B) (x : I)
    (hp : Basis.project b x = .ok (.ok (.sparse ⟨9, [(1, (Scalar.one : FP M)), (4, Scalar.one), (7, Scalar.one)]⟩))) :
    ∃ g : FP M → FP M, Basis.project (L0Normaliser.mk b) x =
        .ok (.ok (.sparse ⟨9, [(1, g Scalar.one), (4, g Scalar.one), (7, g Scalar.one)]⟩)) ∧
      |real (g Scalar.one) - 1 / 3| ≤ roundoff * (1 / 3) + tiny := by
  obtain ⟨g, h, h1⟩ := C174_l0 hM b x (.sparse ⟨9, [(1, (Scalar.one : FP M)), (4, Scalar.one), (7, Scalar.one)]⟩)
    (by
      refine ⟨by show List.Nodup [1, 4, 7]; decide, fun e he => ?_⟩
      simp only [List.mem_cons, List.not_mem_nil, or_false] at he
      rcases he with rfl | rfl | rfl <;> show _ < 9 <;> norm_num) (fun i a ha => by
      have ha : (i, a) ∈ [(1, (Scalar.one : FP M)), (4, Scalar.one), (7, Scalar.one)] := ha
      simp only [List.mem_cons, List.not_mem_nil, or_false, Prod.mk.injEq] at ha
      rcases ha with ⟨-, rfl⟩ | ⟨-, rfl⟩ | ⟨-, rfl⟩ <;> exact ⟨1, val_one⟩) hp (by show 0 < 3; norm_num)
      (by show 3 ≤ _; norm_num)
  refine ⟨g, h, ?_⟩
  have := (h1 1 Scalar.one (List.mem_cons_self ..)).2
  have e : ((Features.sparse ⟨9, [(1, (Scalar.one : FP M)), (4, Scalar.one), (7, Scalar.one)]⟩).nActive : ℝ) = 3 := by
    show ((3 : ℕ) : ℝ) = 3
    norm_num
  rwa [is_real val_one, abs_one, e] at this

end

end Lfa

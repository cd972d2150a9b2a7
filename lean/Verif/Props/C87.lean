import Verif.Spec.Machine
import Verif.Proofs.Machine
import Verif.Proofs.Binary64
import Verif.Proofs.Norm

/-!
# C87: normalised activations stay in [-1, 1] under rounding

`M` is any floating-point system, `b` any basis, `x` any input and `φ` what `b` projects `x` to.
-/

set_option linter.unusedSectionVars false

namespace Lfa

open Spec Machine XReal

variable {M : Machine}

theorem foldl_abs (l : List (FP M)) (h : ∀ a ∈ l, Finite a) (z : FP M) (hz : .fin 0 ≤ z.1) :
    z.1 ≤ (l.foldl (fun acc x => acc +. Scalar.abs x) z).1 ∧
    ∀ a ∈ l, (Scalar.abs a).1 ≤ (l.foldl (fun acc x => acc +. Scalar.abs x) z).1 := by
  induction l generalizing z with
  | nil => exact ⟨le_self.2 (ne_nan_right hz), fun a ha => by cases ha⟩
  | cons y l ih =>
    obtain ⟨r, hr⟩ := h y (List.mem_cons_self ..)
    have hy := abs_nonneg_fin hr
    obtain ⟨h1, h2⟩ := ih (fun a ha => h a (List.mem_cons_of_mem _ ha)) (z +. Scalar.abs y)
      (val_add_nonneg hz hy)
    refine ⟨le_trans' (val_le_add_left hz hy) h1, fun a ha => ?_⟩
    rcases List.mem_cons.1 ha with rfl | ha
    · exact le_trans' (val_le_add_right hz hy) h1
    · exact h2 a ha

theorem foldl_sq (l : List (FP M)) (h : ∀ a ∈ l, Finite a) (z : FP M) (hz : .fin 0 ≤ z.1) :
    z.1 ≤ (l.foldl (fun acc x => acc +. x *. x) z).1 ∧
    ∀ a ∈ l, (a *. a).1 ≤ (l.foldl (fun acc x => acc +. x *. x) z).1 := by
  induction l generalizing z with
  | nil => exact ⟨le_self.2 (ne_nan_right hz), fun a ha => by cases ha⟩
  | cons y l ih =>
    obtain ⟨r, hr⟩ := h y (List.mem_cons_self ..)
    have hy : .fin 0 ≤ (y *. y).1 := by
      rw [val_mul, hr]
      exact rnd_nonneg (mul_self_nonneg r)
    obtain ⟨h1, h2⟩ := ih (fun a ha => h a (List.mem_cons_of_mem _ ha)) (z +. y *. y)
      (val_add_nonneg hz hy)
    refine ⟨le_trans' (val_le_add_left hz hy) h1, fun a ha => ?_⟩
    rcases List.mem_cons.1 ha with rfl | ha
    · exact le_trans' (val_le_add_right hz hy) h1
    · exact h2 a ha

theorem foldl_max (l : List (FP M)) (h : ∀ a ∈ l, Finite a) (z : FP M)
    (hz : z.1 = .ninf ∨ ∃ c, z.1 = .fin c) :
    z.1 ≤ (l.foldl (fun acc x => Scalar.max acc (Scalar.abs x)) z).1 ∧
    (∀ a ∈ l, (Scalar.abs a).1 ≤ (l.foldl (fun acc x => Scalar.max acc (Scalar.abs x)) z).1) ∧
    (l.foldl (fun acc x => Scalar.max acc (Scalar.abs x)) z = z ∨
      ∃ a ∈ l, l.foldl (fun acc x => Scalar.max acc (Scalar.abs x)) z = Scalar.abs a) := by
  induction l generalizing z with
  | nil =>
    refine ⟨le_self.2 ?_, fun a ha => (by cases ha), .inl rfl⟩
    rcases hz with h | ⟨c, h⟩ <;> rw [h] <;> simp
  | cons y l ih =>
    obtain ⟨r, hr⟩ := h y (List.mem_cons_self ..)
    have hy : (Scalar.abs y).1 = .fin |r| := by rw [val_abs, hr]; rfl
    have key : (∃ c, (Scalar.max z (Scalar.abs y)).1 = .fin c) ∧
        z.1 ≤ (Scalar.max z (Scalar.abs y)).1 ∧ (Scalar.abs y).1 ≤ (Scalar.max z (Scalar.abs y)).1 ∧
        (Scalar.max z (Scalar.abs y) = z ∨ Scalar.max z (Scalar.abs y) = Scalar.abs y) := by
      have hv := val_max z (Scalar.abs y)
      rw [hy] at hv
      rcases hz with hz | ⟨c, hz⟩
      · rw [hz] at hv
        have hv : (Scalar.max z (Scalar.abs y)).1 = .fin |r| := hv
        rw [hv, hy, hz]
        exact ⟨⟨_, rfl⟩, trivial, fin_le_fin.2 le_rfl, .inr (fp_ext (hv.trans hy.symm))⟩
      · rw [hz, xmax_fin] at hv
        rw [hv, hy, hz]
        refine ⟨⟨_, rfl⟩, fin_le_fin.2 (le_max_left ..), fin_le_fin.2 (le_max_right ..), ?_⟩
        rcases max_choice c |r| with e | e
        · exact .inl (fp_ext (by rw [hv, e, hz]))
        · exact .inr (fp_ext (by rw [hv, e, hy]))
    obtain ⟨k1, k2, k3, k4⟩ := key
    obtain ⟨h1, h2, h3⟩ := ih (fun a ha => h a (List.mem_cons_of_mem _ ha))
      (Scalar.max z (Scalar.abs y)) (.inr k1)
    refine ⟨le_trans' k2 h1, fun a ha => ?_, ?_⟩
    · rcases List.mem_cons.1 ha with rfl | ha
      · exact le_trans' k3 h1
      · exact h2 a ha
    · rcases h3 with h3 | ⟨a, ha, h3⟩
      · rcases k4 with k4 | k4
        · exact .inl (h3.trans k4)
        · exact .inr ⟨y, List.mem_cons_self .., h3.trans k4⟩
      · exact .inr ⟨a, List.mem_cons_of_mem _ ha, h3⟩

theorem div_sign {a z : FP M} (ha : Finite a) (hz : XReal.fin 0 ≤ z.1) (hne : z.1 ≠ .fin 0) :
    (NonNeg a → NonNeg (a /. z)) ∧ (NonPos a → NonPos (a /. z)) := by
  obtain ⟨r, hr⟩ := ha
  unfold NonNeg NonPos
  rw [val_div, hr]
  rcases hv : z.1 with _ | _ | _ | c
  · rw [hv] at hz; exact absurd hz (le_nan _)
  · rw [hv] at hz; exact absurd hz (fin_le_ninf _)
  · exact ⟨fun _ => round_nonneg (le_refl (0 : ℝ)), fun _ => round_nonpos (le_refl (0 : ℝ))⟩
  · rw [hv] at hz hne
    have hc : c ≠ 0 := fun e => hne (by rw [e])
    have hz : 0 ≤ c := hz
    show (XReal.fin 0 ≤ .fin r → .fin 0 ≤ (M.round (if c = 0 then _ else _)).1) ∧
      (XReal.fin r ≤ .fin 0 → (M.round (if c = 0 then _ else _)).1 ≤ .fin 0)
    rw [if_neg hc]
    exact ⟨fun h => rnd_nonneg (div_nonneg h hz),
      fun h => rnd_nonpos (div_nonpos_of_nonpos_of_nonneg h hz)⟩

section
variable {B I : Type} [Space B] [Basis B I (FP M)]

/-- A norm that dominates every activation. -/
theorem normalise_of {φ : Features (FP M)} (hf : AllFinite φ) (hz : SomeNonZero φ) {z : FP M}
    (hd : ∀ a ∈ φ.values, (Scalar.abs a).1 ≤ z.1) (i : Nat) (a : FP M) (hs : Stored φ i a) :
    InUnit (a /. z) ∧ (NonNeg a → NonNeg (a /. z)) ∧ (NonPos a → NonPos (a /. z)) := by
  have hdom : ∀ i a r, Stored φ i a → Is a r → XReal.fin |r| ≤ z.1 := by
    intro i a r hs hr
    have := hd a ((mem_values_iff φ a).2 ⟨i, hs⟩)
    rwa [val_abs, hr] at this
  obtain ⟨j, c, s, hj, hc, hs0⟩ := hz
  have hz0 := hdom j c s hj hc
  have hne : z.1 ≠ .fin 0 := by
    intro h
    rw [h] at hz0
    have hz0 : |s| ≤ 0 := hz0
    exact hs0 (abs_nonpos_iff.1 hz0)
  have hnn : XReal.fin 0 ≤ z.1 := le_trans' (fin_le_fin.2 (abs_nonneg s)) hz0
  obtain ⟨r, hr⟩ := hf i a hs
  obtain ⟨q, hq, hq1⟩ := div_bounded hr (hdom i a r hs hr) hne
  exact ⟨⟨q, hq, hq1⟩, div_sign ⟨r, hr⟩ hnn hne⟩

/-- L1: the representation, dimension and stored indices are kept; every activation becomes a finite
number in `[-1, 1]` of unchanged sign, even if the norm overflows. -/
theorem C87_l1 (b : B) (x : I) (φ : Features (FP M)) (h : WF φ) (hf : AllFinite φ)
    (hz : SomeNonZero φ) (hp : Basis.project b x = .ok (.ok φ)) :
    ∃ g : FP M → FP M,
      Basis.project (L1Normaliser.mk b) x = .ok (.ok (mapValues g φ)) ∧
      ∀ i a, Stored φ i a →
        InUnit (g a) ∧ (NonNeg a → NonNeg (g a)) ∧ (NonPos a → NonPos (g a)) := by
  refine ⟨fun a => a /. l1Norm φ, by rw [l1_project hp, divideBy_eq h], fun i a hs => ?_⟩
  refine normalise_of hf hz (foldl_abs φ.values ?_ Scalar.zero ?_).2 i a hs
  · intro a ha
    obtain ⟨i, hi⟩ := (mem_values_iff φ a).1 ha
    exact hf i a hi
  · rw [val_zero]; exact le_refl (0 : ℝ)

/-- L∞: as L1, and some activation becomes exactly `1` or `-1`. -/
theorem C87_linf (b : B) (x : I) (φ : Features (FP M)) (h : WF φ) (hf : AllFinite φ)
    (hz : SomeNonZero φ) (hp : Basis.project b x = .ok (.ok φ)) :
    ∃ g : FP M → FP M,
      Basis.project (LinfNormaliser.mk b) x = .ok (.ok (mapValues g φ)) ∧
      (∀ i a, Stored φ i a →
        InUnit (g a) ∧ (NonNeg a → NonNeg (g a)) ∧ (NonPos a → NonPos (g a))) ∧
      ∃ i a r, Stored φ i a ∧ Is (g a) r ∧ |r| = 1 := by
  have hv : ∀ a ∈ φ.values, Finite a := fun a ha => by
    obtain ⟨i, hi⟩ := (mem_values_iff φ a).1 ha
    exact hf i a hi
  obtain ⟨-, h2, h3⟩ := foldl_max φ.values hv ScalarInf.negInf (.inl val_negInf)
  refine ⟨fun a => a /. linfNorm φ, by rw [linf_project hp, divideBy_eq h],
    normalise_of hf hz h2, ?_⟩
  have hat : ∃ a ∈ φ.values, linfNorm φ = Scalar.abs a := by
    rcases h3 with h3 | h3
    · obtain ⟨i, a, r, hs, hr, -⟩ := hz
      have := h2 a ((mem_values_iff φ a).2 ⟨i, hs⟩)
      rw [h3, val_negInf, val_abs, hr] at this
      exact absurd this (fin_le_ninf _)
    · exact h3
  obtain ⟨a, ha, he⟩ := hat
  obtain ⟨i, hi⟩ := (mem_values_iff φ a).1 ha
  obtain ⟨r, hr⟩ := hv a ha
  have hr0 : r ≠ 0 := by
    rintro rfl
    obtain ⟨j, c, s, hj, hc, hs0⟩ := hz
    have := h2 c ((mem_values_iff φ c).2 ⟨j, hj⟩)
    have he' : List.foldl (fun acc x => Scalar.max acc (Scalar.abs x)) ScalarInf.negInf φ.values =
      Scalar.abs a := he
    rw [he', val_abs, val_abs, hc, hr] at this
    have this : |s| ≤ |(0 : ℝ)| := this
    rw [abs_zero] at this
    exact hs0 (abs_nonpos_iff.1 this)
  have hval : (a /. linfNorm φ).1 = M.rnd (r / |r|) := by
    rw [he, val_div, val_abs, hr]
    show (M.round (if |r| = 0 then _ else _)).1 = _
    rw [if_neg (abs_ne_zero.2 hr0)]
    rfl
  rcases lt_or_gt_of_ne hr0 with hs | hs
  · refine ⟨i, a, -1, hi, ?_, by simp⟩
    show (a /. linfNorm φ).1 = _
    rw [hval, abs_of_neg hs, div_neg, div_self hr0, rnd_neg_one]
  · refine ⟨i, a, 1, hi, ?_, by simp⟩
    show (a /. linfNorm φ).1 = _
    rw [hval, abs_of_pos hs, div_self hr0, M.rnd_one]

/-- L2, for activations whose squares do not lose accuracy to underflow: `sqrt(a * a)` as computed
is at least `|a|`. (Missing for the full claim: the remaining activations, see `C87_l2_underflow`.) -/
theorem C87_l2_partial (b : B) (x : I) (φ : Features (FP M)) (h : WF φ) (hf : AllFinite φ)
    (hz : SomeNonZero φ) (hu : ∀ i a, Stored φ i a → Le (Scalar.abs a) (Scalar.sqrt (a *. a)))
    (hp : Basis.project b x = .ok (.ok φ)) :
    ∃ g : FP M → FP M,
      Basis.project (L2Normaliser.mk b) x = .ok (.ok (mapValues g φ)) ∧
      ∀ i a, Stored φ i a →
        InUnit (g a) ∧ (NonNeg a → NonNeg (g a)) ∧ (NonPos a → NonPos (g a)) := by
  refine ⟨fun a => a /. l2Norm φ, by rw [l2_project hp, divideBy_eq h], fun i a hs => ?_⟩
  have hv : ∀ a ∈ φ.values, Finite a := fun a ha => by
    obtain ⟨i, hi⟩ := (mem_values_iff φ a).1 ha
    exact hf i a hi
  have hsq := (foldl_sq φ.values hv Scalar.zero (by rw [val_zero]; exact le_refl (0 : ℝ))).2
  refine normalise_of hf hz (fun a ha => ?_) i a hs
  obtain ⟨i, hi⟩ := (mem_values_iff φ a).1 ha
  refine le_trans' (hu i a hi) ?_
  obtain ⟨r, hr⟩ := hv a ha
  have h0 : .fin 0 ≤ (a *. a).1 := by
    rw [val_mul, hr]
    exact rnd_nonneg (mul_self_nonneg r)
  exact round_mono (sqrt_le_sqrt' h0 (hsq a ha))

/-- L2 in `f64`: the claim holds when no activation other than 0 is smaller than `2 ^ (-511)` in
magnitude. -/
theorem C87_l2_binary64 (hM : M.rnd = binary64Format.rnd) (b : B) (x : I) (φ : Features (FP M))
    (h : WF φ) (hf : ∀ i a, Stored φ i a → ∃ r, Is a r ∧ (r = 0 ∨ (2 : ℝ) ^ (-511 : ℤ) ≤ |r|))
    (hz : SomeNonZero φ) (hp : Basis.project b x = .ok (.ok φ)) :
    ∃ g : FP M → FP M,
      Basis.project (L2Normaliser.mk b) x = .ok (.ok (mapValues g φ)) ∧
      ∀ i a, Stored φ i a →
        InUnit (g a) ∧ (NonNeg a → NonNeg (g a)) ∧ (NonPos a → NonPos (g a)) := by
  refine C87_l2_partial b x φ h (fun i a hs => ?_) hz (fun i a hs => ?_) hp
  · obtain ⟨r, hr, -⟩ := hf i a hs
    exact ⟨r, hr⟩
  · obtain ⟨r, hr, hk⟩ := hf i a hs
    exact binary_sqrt_sq hM (by decide) hr hk (by decide) (by decide)

/-- When the square of the only activation underflows to zero, L2 normalisation gives an
infinity. -/
theorem C87_l2_underflow (b : B) (x : I) (a : FP M) (r : ℝ) (hr : Is a r) (h0 : r ≠ 0)
    (hu : Is (a *. a) 0) (hp : Basis.project b x = .ok (.ok (.dense [a]))) :
    ∃ c : FP M, Basis.project (L2Normaliser.mk b) x = .ok (.ok (.dense [c])) ∧
      c.1 = XReal.infSign r := by
  refine ⟨_, by rw [l2_project hp]; rfl, ?_⟩
  have hn : (l2Norm (.dense [a])).1 = .fin 0 := by
    show (M.round (XReal.sqrt (Scalar.zero +. a *. a).1)).1 = _
    have : (Scalar.zero +. a *. a).1 = .fin 0 := by
      rw [val_add, val_zero, hu]
      show M.rnd (0 + 0) = _
      rw [add_zero, rnd_zero]
    rw [this]
    show (M.round (if (0 : ℝ) < 0 then _ else _)).1 = _
    rw [if_neg (lt_irrefl _), round_fin, Real.sqrt_zero, rnd_zero]
  rw [val_div, hn, hr]
  show (M.round (if (0 : ℝ) = 0 then (if r = 0 then _ else _) else _)).1 = _
  rw [if_pos rfl, if_neg h0]
  unfold XReal.infSign
  split_ifs <;> rfl

/-- In `f64` this happens for `2 ^ (-600)`. -/
theorem C87_l2_binary64_fails (hM : M.rnd = binary64Format.rnd) (b : B) (x : I)
    (a : FP M) (ha : Is a (2 ^ (-600 : ℤ))) (hp : Basis.project b x = .ok (.ok (.dense [a]))) :
    ∃ c : FP M, Basis.project (L2Normaliser.mk b) x = .ok (.ok (.dense [c])) ∧ c.1 = .pinf := by
  have hpos := Format.two_zpow_pos (-600)
  obtain ⟨c, h1, h2⟩ := C87_l2_underflow b x a _ ha hpos.ne' (by
    unfold Is
    rw [val_mul, ha]
    show M.rnd (2 ^ (-600 : ℤ) * 2 ^ (-600 : ℤ)) = _
    rw [hM, ← zpow_add₀ (by norm_num)]
    have hn : binary64Format.nearest (2 ^ (-600 + -600 : ℤ)) = 0 := by
      refine binary64Format.nearest_tiny ?_
      rw [abs_of_pos (Format.two_zpow_pos _)]
      exact zpow_lt_zpow_right₀ (by norm_num) (by decide)
    rw [Format.rnd_of_lt _ (by rw [hn, abs_zero]; exact Format.two_zpow_pos _), hn]) hp
  exact ⟨c, h1, by rw [h2, XReal.infSign, if_pos hpos.le]⟩

end

/-- `2 ^ (-600)` is a number of `f64`. -/
example : ∃ a : FP binary64, Is a (2 ^ (-600 : ℤ)) := by
  refine ⟨binary64.lit (2 ^ (-600 : ℤ)), ?_⟩
  have := binary64Format.rnd_exact (m := 1) (e := -600) (by decide) (by decide) (by
    rw [Int.cast_one, one_mul, abs_of_pos (Format.two_zpow_pos _)]
    exact zpow_lt_zpow_right₀ (by norm_num) (by decide))
  rw [Int.cast_one, one_mul] at this
  exact this

/-- The hypotheses of the positive theorems are met, e.g. by the projection `[1, 0, -1]` in `f64`. -/
example : AllFinite (.dense [Scalar.one, Scalar.zero, Scalar.neg Scalar.one] :
      Features (FP binary64)) ∧
    SomeNonZero (.dense [Scalar.one, Scalar.zero, Scalar.neg Scalar.one] :
      Features (FP binary64)) := by
  refine ⟨fun i a hs => ?_, 0, Scalar.one, 1, rfl, val_one, one_ne_zero⟩
  have hs : [Scalar.one, Scalar.zero, Scalar.neg Scalar.one][i]? = some a := hs
  have : a ∈ [(Scalar.one : FP binary64), Scalar.zero, Scalar.neg Scalar.one] :=
    List.mem_of_getElem? hs
  simp only [List.mem_cons, List.not_mem_nil, or_false] at this
  rcases this with rfl | rfl | rfl
  · exact ⟨1, val_one⟩
  · exact ⟨0, val_zero⟩
  · exact ⟨-1, by unfold Is; rw [val_neg, val_one]; rfl⟩

end Lfa

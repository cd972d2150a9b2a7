import Verif.Proofs.KernelMatern

/-!
# C169: kernels in double precision are accurate

The six kernels evaluated in `f64` on points with any number of coordinates, against the exact kernels of the same points.
The errors are multiples of the variance and grow with the number of lengthscales, not with the distance — except for
`Cosine`, whose error grows with the distance. `ε` and `ε'` stand for the accuracy of the platform's `exp`, `ln_1p` and `cos`.
-/

set_option linter.unusedSectionVars false

namespace Lfa

open Spec Machine XReal

variable {M : Machine}

/-- Non-zero finite lengthscales and points with finite coordinate differences, less than `2^500` apart. -/
structure Spec.Comparable (ls x y : List (FP M)) : Prop where
  count : ls.length ≤ 2 ^ 40
  scales : ∀ l ∈ ls, ∃ c, Is l c ∧ c ≠ 0
  points : ∀ q ∈ x.zip y, Finite (q.1 -. q.2)
  apart : exactDistance ls x y ≤ 2 ^ 500

/-- The distance of two points. -/
theorem C169_distance (hM : M.rnd = binary64Format.rnd) (ls x y : List (FP M)) (h : Comparable ls x y) :
    ∃ ρ, Is (sliceDistance ls x y) ρ ∧ 0 ≤ ρ ∧
      |ρ - exactDistance ls x y| ≤ (2 * ls.length + 6) * roundoff * exactDistance ls x y + speck :=
  distance_err hM ls x y h.count h.scales h.points h.apart

theorem computes_slice (hM : M.rnd = binary64Format.rnd) {ls x y : List (FP M)} (h : Comparable ls x y) :
    Computes (sliceDistance ls x y) (exactDistance ls x y) ((2 * ls.length + 6) * roundoff) := by
  refine ⟨exactDistance_nonneg _ _ _, ⟨by have := roundoff_pos; positivity, ?_⟩, h.apart, C169_distance hM ls x y h⟩
  have h1 : (ls.length : ℝ) ≤ 2 ^ 40 := by exact_mod_cast h.count
  have h2 := mul_le_mul_of_nonneg_right (show 2 * (ls.length : ℝ) + 6 ≤ 2 ^ 42 by linarith) roundoff_pos.le
  refine h2.trans ?_
  norm_num [roundoff]

/-- `Exponential`. -/
theorem C169_exponential (hM : M.rnd = binary64Format.rnd) {ε : ℝ} (hε : ExpWithin M ε) (hε1 : ε ≤ 1 / 100)
    (k : Stationary .exponential (FP M)) (hv : Finite k.variance) (x y : List (FP M)) (h : Comparable k.lengthscales x y) :
    ∃ z, Is (SliceKernel.kernel k x y) z ∧
      |z - real k.variance * Real.exp (-exactDistance k.lengthscales x y)| ≤
        |real k.variance| * (ε + (k.lengthscales.length + 7) * roundoff) + tiny := by
  obtain ⟨z, hz, he⟩ := exponential_err hM hε hε1 (computes_slice hM h) k hv
  refine ⟨z, hz, he.trans (le_of_eq ?_)⟩
  ring

/-- `ExpQuad`. -/
theorem C169_expQuad (hM : M.rnd = binary64Format.rnd) {ε : ℝ} (hε : ExpWithin M ε) (hε1 : ε ≤ 1 / 100)
    (k : Stationary .expQuad (FP M)) (hv : Finite k.variance) (x y : List (FP M)) (h : Comparable k.lengthscales x y) :
    ∃ z, Is (SliceKernel.kernel k x y) z ∧
      |z - real k.variance * Real.exp (-(exactDistance k.lengthscales x y ^ 2 / 2))| ≤
        |real k.variance| * (ε + (3 * k.lengthscales.length + 13) * roundoff) + tiny := by
  obtain ⟨z, hz, he⟩ := expQuad_err hM hε hε1 (computes_slice hM h) k hv
  refine ⟨z, hz, he.trans (add_le_add (mul_le_mul_of_nonneg_left ?_ (abs_nonneg _)) (le_refl _))⟩
  nlinarith [roundoff_pos, mul_nonneg (Nat.cast_nonneg (α := ℝ) k.lengthscales.length) roundoff_pos.le]

/-- `RationalQuadratic`, whatever the power. -/
theorem C169_rational (hM : M.rnd = binary64Format.rnd) {ε ε' : ℝ} (hε : ExpWithin M ε) (hε1 : ε ≤ 1 / 100)
    (hε' : Ln1pWithin M ε') (hε1' : ε' ≤ 1 / 1000) (k : RationalQuadratic (FP M)) (hv : Finite k.variance) {p : ℝ}
    (hp : Is k.power p) (p0 : 0 ≤ p) (p1 : p ≤ 2 ^ 400) (x y : List (FP M)) (h : Comparable k.lengthscales x y) :
    ∃ z, Is (SliceKernel.kernel k x y) z ∧
      |z - real k.variance * (1 + exactDistance k.lengthscales x y ^ 2 / 2) ^ (-p)| ≤
        |real k.variance| * (ε + ε' + (3 * k.lengthscales.length + 15) * roundoff) + tiny := by
  obtain ⟨z, hz, he⟩ := rational_err hM hε hε1 hε' hε1' (computes_slice hM h) k hv hp p0 p1
  have e : (1 + exactDistance k.lengthscales x y ^ 2 / 2) ^ (-p) =
      Real.exp (-(p * Real.log (1 + exactDistance k.lengthscales x y ^ 2 / 2))) := by
    rw [Real.rpow_def_of_pos (by positivity)]
    congr 1
    ring
  rw [e]
  refine ⟨z, hz, he.trans (add_le_add (mul_le_mul_of_nonneg_left ?_ (abs_nonneg _)) (le_refl _))⟩
  nlinarith [roundoff_pos, mul_nonneg (Nat.cast_nonneg (α := ℝ) k.lengthscales.length) roundoff_pos.le]

/-- `Cosine`: the error of the distance remains absolute. -/
theorem C169_cosine (hM : M.rnd = binary64Format.rnd) {ε : ℝ} (hε : ∀ r, |M.cos r - Real.cos r| ≤ ε)
    (k : Stationary .cosine (FP M)) (hv : Finite k.variance) (x y : List (FP M)) (h : Comparable k.lengthscales x y) :
    ∃ z, Is (SliceKernel.kernel k x y) z ∧
      |z - real k.variance * Real.cos (exactDistance k.lengthscales x y)| ≤
        |real k.variance| *
          (ε + ((2 * k.lengthscales.length + 6) * exactDistance k.lengthscales x y + 3) * roundoff) + tiny := by
  obtain ⟨z, hz, he⟩ := cosine_err hM hε (computes_slice hM h) k hv
  refine ⟨z, hz, he.trans (le_of_eq ?_)⟩
  ring

/-- `Matern32`, up to distance `2^200`. -/
theorem C169_matern32 (hM : M.rnd = binary64Format.rnd) {ε : ℝ} (hε : ExpWithin M ε) (hε1 : ε ≤ 1 / 100)
    (k : Stationary .matern32 (FP M)) {V : ℝ} (hv : Is k.variance V) (hV : |V| ≤ 2 ^ 400) (x y : List (FP M))
    (h : Comparable k.lengthscales x y) (hr : exactDistance k.lengthscales x y ≤ 2 ^ 200) :
    ∃ z, Is (SliceKernel.kernel k x y) z ∧
      |z - V * ((1 + √3 * exactDistance k.lengthscales x y) * Real.exp (-(√3 * exactDistance k.lengthscales x y)))| ≤
        |V| * (6 / 5 * ε + (2 * k.lengthscales.length + 14) * roundoff) + 3 * tiny := by
  obtain ⟨z, hz, he⟩ := matern32_err hM hε hε1 (computes_slice hM h) hr k hv hV
  refine ⟨z, hz, he.trans (add_le_add (mul_le_mul_of_nonneg_left ?_ (abs_nonneg _)) (le_refl _))⟩
  nlinarith [roundoff_pos, mul_nonneg (Nat.cast_nonneg (α := ℝ) k.lengthscales.length) roundoff_pos.le]

/-- `Matern52`, with the `sqrt(3)` of the code, up to distance `2^200`. -/
theorem C169_matern52 (hM : M.rnd = binary64Format.rnd) {ε : ℝ} (hε : ExpWithin M ε) (hε1 : ε ≤ 1 / 100)
    (k : Stationary .matern52 (FP M)) {V : ℝ} (hv : Is k.variance V) (hV : |V| ≤ 2 ^ 400) (x y : List (FP M))
    (h : Comparable k.lengthscales x y) (hr : exactDistance k.lengthscales x y ≤ 2 ^ 200) :
    ∃ z, Is (SliceKernel.kernel k x y) z ∧
      |z - V * ((1 + √3 * exactDistance k.lengthscales x y + 5 / 3 * exactDistance k.lengthscales x y ^ 2) *
        Real.exp (-(√3 * exactDistance k.lengthscales x y)))| ≤
        |V| * (6 / 5 * ε + (5 * k.lengthscales.length + 40) * roundoff) + 3 * tiny := by
  obtain ⟨z, hz, he⟩ := matern52_err hM hε hε1 (computes_slice hM h) hr k hv hV
  refine ⟨z, hz, he.trans (add_le_add (mul_le_mul_of_nonneg_left ?_ (abs_nonneg _)) (le_refl _))⟩
  nlinarith [roundoff_pos, mul_nonneg (Nat.cast_nonneg (α := ℝ) k.lengthscales.length) roundoff_pos.le]

/-! ## Scalar points -/

/-- The distance of two numbers is computed to three roundings, for a positive first lengthscale. -/
theorem C169_scalar_distance (hM : M.rnd = binary64Format.rnd) (l : FP M) (ls : List (FP M)) (x y : FP M) {c : ℝ} (hl : Is l c)
    (hc : 0 < c) (hd : Finite (x -. y)) (hr : |real x - real y| / c ≤ 2 ^ 500) :
    ∃ R ρ, scalarDistance (l :: ls) x y = .ok R ∧ Is R ρ ∧ 0 ≤ ρ ∧
      |ρ - |real x - real y| / c| ≤ 3 * roundoff * (|real x - real y| / c) + tiny := by
  have hq : |(real x - real y) / c| = |real x - real y| / c := by rw [abs_div, abs_of_pos hc]
  obtain ⟨z, hz, he⟩ := coordinate_err hM hl hc.ne' hd (by rw [hq]; exact hr.trans (two_pow_le (by norm_num)))
  obtain ⟨d, hd⟩ := hd
  refine ⟨Scalar.abs (x -. y) /. l, |z|, rfl, ?_, abs_nonneg z, ?_⟩
  · have h1 : M.rnd (d / c) = .fin z := by
      rw [← hz, val_div, hd, hl]
      show _ = (M.round (if c = 0 then _ else .fin (d / c))).1
      rw [if_neg hc.ne']; rfl
    have h2 : (Scalar.abs (x -. y) /. l).1 = M.rnd (|d| / c) := by
      rw [val_div, val_abs, hd, hl]
      show (M.round (if c = 0 then _ else .fin (|d| / c))).1 = _
      rw [if_neg hc.ne']; rfl
    unfold Is
    rw [h2]
    rcases le_total 0 d with h | h
    · have h3 := rnd_nonneg (M := M) (div_nonneg h hc.le)
      rw [h1] at h3
      rw [abs_of_nonneg h, h1, abs_of_nonneg (show 0 ≤ z from h3)]
    · have h3 := rnd_nonpos (M := M) (div_nonpos_of_nonpos_of_nonneg h hc.le)
      rw [h1] at h3
      rw [abs_of_nonpos h, neg_div, M.rnd_neg, h1, abs_of_nonpos (show z ≤ 0 from h3)]; rfl
  · rw [← hq]
    exact (abs_abs_sub_abs_le _ _).trans he

theorem computes_scalar (hM : M.rnd = binary64Format.rnd) (l : FP M) (ls : List (FP M)) (x y : FP M) {c : ℝ} (hl : Is l c)
    (hc : 0 < c) (hd : Finite (x -. y)) (hr : |real x - real y| / c ≤ 2 ^ 500) :
    ∃ R, scalarDistance (l :: ls) x y = .ok R ∧ Computes R (|real x - real y| / c) (3 * roundoff) := by
  obtain ⟨R, ρ, h1, h2, h3, h4⟩ := C169_scalar_distance hM l ls x y hl hc hd hr
  have ht := tiny_small
  have hs := speck_pos
  have hu := roundoff_small
  refine ⟨R, h1, by positivity, ⟨by have := roundoff_pos; positivity, by linarith⟩, hr, ρ, h2, h3, h4.trans ?_⟩
  have : (1 : ℝ) / 2 ^ 100 * speck ≤ 1 * speck := mul_le_mul_of_nonneg_right (by norm_num) hs.le
  linarith

/-- The exact value of a stationary kernel of variance 1 at a distance. -/
noncomputable def Spec.shape : StationaryKind → ℝ → ℝ
  | .exponential, r => Real.exp (-r)
  | .matern32, r => (1 + √3 * r) * Real.exp (-(√3 * r))
  | .matern52, r => (1 + √3 * r + 5 / 3 * r ^ 2) * Real.exp (-(√3 * r))
  | .expQuad, r => Real.exp (-(r ^ 2 / 2))
  | .cosine, r => Real.cos r

/-- The four decaying stationary kernels on numbers. -/
theorem C169_scalar (hM : M.rnd = binary64Format.rnd) {ε : ℝ} (hε : ExpWithin M ε) (hε1 : ε ≤ 1 / 100) {kind : StationaryKind}
    (hk : kind ≠ .cosine) (v l : FP M) (ls : List (FP M)) {V c : ℝ} (hv : Is v V) (hV : |V| ≤ 2 ^ 400) (hl : Is l c) (hc : 0 < c)
    (x y : FP M) (hd : Finite (x -. y)) (hr : |real x - real y| / c ≤ 2 ^ 200) :
    ∃ a z, ScalarKernel.kernel (⟨v, l :: ls⟩ : Stationary kind (FP M)) x y = .ok a ∧ Is a z ∧
      |z - V * shape kind (|real x - real y| / c)| ≤ |V| * (6 / 5 * ε + 33 * roundoff) + 3 * tiny := by
  obtain ⟨R, hR, hn⟩ := computes_scalar hM l ls x y hl hc hd (hr.trans (two_pow_le (by norm_num)))
  have hu := roundoff_pos
  have ht := tiny_pos
  have ε0 : 0 ≤ ε := by
    have := (abs_nonneg _).trans (hε 0 (le_refl _))
    rwa [Real.exp_zero, mul_one] at this
  have a1 : 0 ≤ |V| * ε := mul_nonneg (abs_nonneg V) ε0
  have a2 : 0 ≤ |V| * roundoff := mul_nonneg (abs_nonneg V) hu.le
  refine ⟨(⟨v, l :: ls⟩ : Stationary kind (FP M)).kernelStationary R, ?_⟩
  have hcall : ScalarKernel.kernel (⟨v, l :: ls⟩ : Stationary kind (FP M)) x y =
      .ok ((⟨v, l :: ls⟩ : Stationary kind (FP M)).kernelStationary R) := by
    show (do let r ← scalarDistance (l :: ls) x y; .ok _) = _
    rw [hR]; rfl
  rcases kind
  · obtain ⟨z, hz, he⟩ := exponential_err hM hε hε1 hn ⟨v, l :: ls⟩ ⟨V, hv⟩
    rw [show real (⟨v, l :: ls⟩ : Stationary .exponential (FP M)).variance = V from is_real hv] at he
    exact ⟨z, hcall, hz, he.trans (by linarith only [a1, a2, ht])⟩
  · obtain ⟨z, hz, he⟩ := matern32_err hM hε hε1 hn hr ⟨v, l :: ls⟩ hv hV
    exact ⟨z, hcall, hz, he.trans (by linarith only [a1, a2, ht])⟩
  · obtain ⟨z, hz, he⟩ := matern52_err hM hε hε1 hn hr ⟨v, l :: ls⟩ hv hV
    exact ⟨z, hcall, hz, he.trans (by linarith only [a1, a2, ht])⟩
  · obtain ⟨z, hz, he⟩ := expQuad_err hM hε hε1 hn ⟨v, l :: ls⟩ ⟨V, hv⟩
    rw [show real (⟨v, l :: ls⟩ : Stationary .expQuad (FP M)).variance = V from is_real hv] at he
    exact ⟨z, hcall, hz, he.trans (by linarith only [a1, a2, ht])⟩
  · exact absurd rfl hk

/-! ## Points too far apart -/

theorem rnd_overflow (hM : M.rnd = binary64Format.rnd) {n : Nat} (hn : 1025 ≤ n) : M.rnd (2 ^ n) = .pinf := by
  have h0 := rnd_nonneg (M := M) (r := 2 ^ n) (by positivity)
  rcases h : M.rnd (2 ^ n) with _ | _ | _ | q
  · exact absurd h (M.rnd_ne_nan _)
  · rw [h] at h0; exact absurd h0 id
  · rfl
  · exfalso
    have h1 := (abs_le.1 (rnd_err hM h)).1
    rw [hM] at h
    have h2 := (binary64Format.rnd_eq_fin h).2
    have h3 : (2 : ℝ) ^ 1025 ≤ 2 ^ n := two_pow_le hn
    have h4 := (le_abs_self q).trans h2.le
    have h5 : ((2 : ℝ) ^ binary64Format.emax) = 2 ^ 1024 := by
      rw [← zpow_natCast]; rfl
    rw [h5] at h4
    rw [abs_of_nonneg (by positivity)] at h1
    have h6 : (2 : ℝ) ^ 1025 = 2 * 2 ^ 1024 := by rw [← pow_succ']
    have hu := roundoff_small
    have ht : tiny ≤ 1 / 1000 := by
      have a := tiny_small; have b := speck_small; have c := speck_pos; linarith
    have h7 : roundoff * 2 ^ n ≤ 1 / 1000 * 2 ^ n := mul_le_mul_of_nonneg_right (by linarith) (by positivity)
    have h8 : (1 : ℝ) ≤ 2 ^ 1024 := one_le_pow₀ (by norm_num)
    rw [h6] at h3
    generalize (2 : ℝ) ^ 1024 = A at *
    generalize (2 : ℝ) ^ n = B at *
    linarith only [h1, h3, h4, h7, h8, ht]

/-- Between two finite points the squares of whose difference overflow, the default Matern kernels are NaN — `∞` times
`exp(-∞) = 0` — where the exponential and the squared exponential kernels are zero. -/
theorem C169_matern_far (hM : M.rnd = binary64Format.rnd) : ∃ x y : FP M, Finite x ∧ Finite y ∧
    (SliceKernel.kernel (Stationary.default : Stationary .matern32 (FP M)) [x] [y]).1 = .nan ∧
    (SliceKernel.kernel (Stationary.default : Stationary .matern52 (FP M)) [x] [y]).1 = .nan ∧
    Is (SliceKernel.kernel (Stationary.default : Stationary .exponential (FP M)) [x] [y]) 0 ∧
    Is (SliceKernel.kernel (Stationary.default : Stationary .expQuad (FP M)) [x] [y]) 0 := by
  have hbig : Is (M.lit (2 ^ 600)) (2 ^ 600) := rnd_two_pow hM (by norm_num)
  have h1 : (Scalar.one : FP M).1 = .fin 1 := val_one
  have hsub : Is (M.lit (2 ^ 600) -. Scalar.zero) (2 ^ 600) := by
    unfold Is
    rw [val_sub, hbig, val_zero]
    show M.rnd (2 ^ 600 + -0) = _
    rw [neg_zero, add_zero]
    exact rnd_two_pow hM (by norm_num)
  have hdiv : Is ((M.lit (2 ^ 600) -. Scalar.zero) /. Scalar.one) (2 ^ 600) := by
    unfold Is
    rw [val_div, hsub, h1]
    show (M.round (if (1 : ℝ) = 0 then _ else .fin (2 ^ 600 / 1))).1 = _
    rw [if_neg one_ne_zero, div_one]
    exact rnd_two_pow hM (by norm_num)
  set d := (M.lit (2 ^ 600) -. Scalar.zero) /. (Scalar.one : FP M) with hd
  have hsq : (d *. d).1 = .pinf := by
    rw [mul_val hdiv hdiv, ← pow_add]
    exact rnd_overflow hM (by norm_num)
  have hsum : (Scalar.zero +. d *. d : FP M).1 = .pinf := by
    rw [val_add, hsq, val_zero]; rfl
  have hdist : (sliceDistance [Scalar.one] [M.lit (2 ^ 600)] [(Scalar.zero : FP M)]).1 = .pinf := by
    show (Scalar.sqrt (Scalar.zero +. d *. d)).1 = _
    rw [val_sqrt, hsum]; rfl
  set R := sliceDistance [Scalar.one] [M.lit (2 ^ 600)] [(Scalar.zero : FP M)] with hR
  have pos : ∀ {x : ℝ}, 0 < x → XReal.mul (.fin x) .pinf = .pinf := fun {x} hx => by
    show (if x = 0 then _ else XReal.infSign x) = _
    rw [if_neg hx.ne', XReal.infSign, if_pos hx.le]
  have hneg : ∀ {x : ℝ}, x < 0 → XReal.mul (.fin x) .pinf = .ninf := fun {x} hx => by
    show (if x = 0 then _ else XReal.infSign x) = _
    rw [if_neg hx.ne, XReal.infSign, if_neg (not_le.2 hx)]
  have exp0 : ∀ {a : FP M}, a.1 = .ninf → Is (Scalar.exp a) 0 := fun {a} ha => by
    show (M.round (M.fexp a.1)).1 = _
    rw [ha]; exact rnd_zero
  have times0 : ∀ {a : FP M}, Is a 0 → Is (Scalar.one *. a) 0 := fun {a} ha => by
    have := mul_val (show Is (Scalar.one : FP M) 1 from val_one) ha
    rw [mul_zero, rnd_zero] at this
    exact this
  have nan0 : ∀ {a b : FP M}, a.1 = .pinf → Is b 0 → (Scalar.one *. a *. b).1 = .nan := fun {a b} ha hb => by
    rw [val_mul, val_mul, ha, h1, pos one_pos, hb]
    show (M.round (if (0 : ℝ) = 0 then _ else _)).1 = _
    rw [if_pos rfl]; rfl
  -- √3 rounds to a positive number
  have hs3 : ∃ c, Is (Scalar.sqrt (Scalar.ofNat 3) : FP M) c ∧ 0 < c := by
    have h3 : Is (Scalar.ofNat 3 : FP M) 3 := by
      have := C88_binary64 hM 3 (by norm_num)
      unfold Is; rw [val_ofNat]; simpa using this
    have s1 : 1 ≤ √(3 : ℝ) := by rw [Real.one_le_sqrt]; norm_num
    have s2 : √(3 : ℝ) ≤ 2 := by rw [Real.sqrt_le_iff]; norm_num
    have hval : (Scalar.sqrt (Scalar.ofNat 3) : FP M).1 = M.rnd (√3) := by
      rw [val_sqrt, h3]
      show (M.round (if (3 : ℝ) < 0 then _ else .fin (√3))).1 = _
      rw [if_neg (by norm_num)]; rfl
    obtain ⟨c, hc, hce, -⟩ := of_rnd hM hval (by
      rw [abs_of_nonneg (by linarith)]
      have : (2 : ℝ) ^ 1 ≤ 2 ^ 1022 := two_pow_le (by norm_num)
      exact le_trans (by linarith only [s2]) this)
    refine ⟨c, hc, ?_⟩
    rw [abs_of_nonneg (Real.sqrt_nonneg 3)] at hce
    have h4 := (abs_le.1 hce).1
    have hu := roundoff_small
    have ht : tiny ≤ 1 / 1000 := by
      have a := tiny_small; have b := speck_small; have c := speck_pos; linarith
    have h5 : roundoff * √3 ≤ 1 / 1000 * √3 := mul_le_mul_of_nonneg_right (by linarith) (by linarith)
    linarith
  obtain ⟨c, hc, c0⟩ := hs3
  have hT : (Scalar.sqrt (Scalar.ofNat 3) *. R).1 = .pinf := by
    rw [val_mul, hc, hdist, pos c0]; rfl
  have hT' : (Scalar.neg (Scalar.sqrt (Scalar.ofNat 3)) *. R).1 = .ninf := by
    rw [val_mul, is_neg hc, hdist, hneg (by linarith)]; rfl
  have hq : (Scalar.ofNat 1 +. Scalar.sqrt (Scalar.ofNat 3) *. R : FP M).1 = .pinf := by
    rw [val_add, val_ofNat_one, hT]; rfl
  have hq' : (Scalar.ofNat 1 +. Scalar.sqrt (Scalar.ofNat 3) *. R +.
      Scalar.ofNat 5 /. Scalar.ofNat 3 *. R *. R : FP M).1 = .pinf := by
    have h3 : Is (Scalar.ofNat 3 : FP M) 3 := by
      have := C88_binary64 hM 3 (by norm_num)
      unfold Is; rw [val_ofNat]; simpa using this
    have h5 : Is (Scalar.ofNat 5 : FP M) 5 := by
      have := C88_binary64 hM 5 (by norm_num)
      unfold Is; rw [val_ofNat]; simpa using this
    have hval : (Scalar.ofNat 5 /. Scalar.ofNat 3 : FP M).1 = M.rnd (5 / 3) := by
      rw [val_div, h3, h5]
      show (M.round (if (3 : ℝ) = 0 then _ else .fin (5 / 3))).1 = _
      rw [if_neg (by norm_num)]; rfl
    obtain ⟨e, he, hee, -⟩ := of_rnd hM hval (by
      rw [abs_of_pos (by norm_num : (0 : ℝ) < 5 / 3)]
      have : (2 : ℝ) ^ 1 ≤ 2 ^ 1022 := two_pow_le (by norm_num)
      exact le_trans (by norm_num) this)
    have e0 : 0 < e := by
      rw [abs_of_pos (by norm_num : (0 : ℝ) < 5 / 3)] at hee
      have h4 := (abs_le.1 hee).1
      have hu := roundoff_small
      have ht : tiny ≤ 1 / 1000 := by
        have a := tiny_small; have b := speck_small; have c := speck_pos; linarith
      linarith
    have m1 : (Scalar.ofNat 5 /. Scalar.ofNat 3 *. R).1 = .pinf := by rw [val_mul, he, hdist, pos e0]; rfl
    rw [val_add, hq, val_mul, m1, hdist]; rfl
  refine ⟨M.lit (2 ^ 600), Scalar.zero, ⟨_, hbig⟩, ⟨0, val_zero⟩, nan0 hq (exp0 hT'), nan0 hq' (exp0 hT'), times0 (exp0 ?_),
    times0 (exp0 ?_)⟩
  · rw [val_neg]
    show XReal.neg R.1 = _
    rw [hdist]; rfl
  · have m1 : (Scalar.neg (Scalar.sci 5 1) *. R).1 = .ninf := by
      rw [val_mul, is_neg (is_half hM), hdist, hneg (by norm_num)]; rfl
    show (Scalar.neg (Scalar.sci 5 1) *. R *. R).1 = _
    rw [val_mul, m1, hdist]; rfl

/-- The hypotheses hold in `f64` with exact elementary functions, lengthscale 1 and the points 0 and 1. -/
example : binary64.rnd = binary64Format.rnd ∧ ExpWithin binary64 (1 / 100) ∧
    Comparable (M := binary64) [Scalar.one] [Scalar.zero] [Scalar.one] := by
  refine ⟨rfl, fun r _ => ?_, by norm_num, fun l hl => ⟨1, ?_, one_ne_zero⟩, fun q hq => ?_, ?_⟩
  · show |Real.exp r - Real.exp r| ≤ _
    rw [sub_self, abs_zero]; positivity
  · rw [List.mem_singleton.1 hl]; exact val_one
  · rw [List.mem_singleton.1 hq]
    refine ⟨-1, ?_⟩
    unfold Is
    rw [val_sub, val_zero, val_one]
    show binary64.rnd (0 + -1) = _
    rw [zero_add, binary64.rnd_neg, binary64.rnd_one]; rfl
  · have e : exactDistance (M := binary64) [Scalar.one] [Scalar.zero] [Scalar.one] = 1 := by
      unfold exactDistance
      simp only [List.zip_cons_cons, List.zip_nil_right, List.map_cons, List.map_nil, List.sum_cons,
        List.sum_nil]
      rw [is_real (val_zero (M := binary64)), is_real (val_one (M := binary64))]
      norm_num
    rw [e]
    exact one_le_pow₀ (by norm_num)

end Lfa

import Verif.Props.C169
import Verif.Props.C179

/-!
# C182: kernels at inputs that are not numbers

`f64`. What the six kernels, and bases made of them, do with a coordinate that is NaN or infinite, and what one training call
there leaves behind: the kernels do not agree.
-/

set_option linter.unusedSectionVars false

namespace Lfa

open Spec Machine

variable {M : Machine}

/-- One of the two infinities. -/
def Spec.Infinite (a : FP M) : Prop := a.1 = .pinf ∨ a.1 = .ninf

/-! ## NaN propagates -/

theorem nan_mul_left {a : FP M} (h : IsNaN a) (b : FP M) : IsNaN (a *. b) := by
  unfold IsNaN at *
  rw [val_mul, h]
  rfl

theorem nan_mul_right (a : FP M) {b : FP M} (h : IsNaN b) : IsNaN (a *. b) := by
  unfold IsNaN at *
  rw [val_mul, h]
  cases a.1 <;> rfl

theorem nan_add_right (a : FP M) {b : FP M} (h : IsNaN b) : IsNaN (a +. b) := by
  unfold IsNaN at *
  rw [val_add, h]
  cases a.1 <;> rfl

theorem nan_div {a : FP M} (h : IsNaN a) (b : FP M) : IsNaN (a /. b) := by
  unfold IsNaN at *
  rw [val_div, h]
  rfl

theorem nan_sub {a : FP M} (h : IsNaN a) (b : FP M) : IsNaN (a -. b) := by
  unfold IsNaN at *
  rw [val_sub, h]
  rfl

theorem nan_sqrt {a : FP M} (h : IsNaN a) : IsNaN (Scalar.sqrt a) := by
  unfold IsNaN at *
  rw [val_sqrt, h]
  rfl

theorem nan_neg {a : FP M} (h : IsNaN a) : IsNaN (Scalar.neg a) := by
  unfold IsNaN at *
  rw [val_neg, h]
  rfl

theorem nan_abs {a : FP M} (h : IsNaN a) : IsNaN (Scalar.abs a) := by
  unfold IsNaN at *
  rw [val_abs, h]
  rfl

theorem nan_exp {a : FP M} (h : IsNaN a) : IsNaN (Scalar.exp a) := by
  show (M.round (M.fexp a.1)).1 = .nan
  rw [show a.1 = .nan from h]
  rfl

theorem nan_ln1p {a : FP M} (h : IsNaN a) : IsNaN (Scalar.ln1p a) := by
  show (M.round (M.fln1p a.1)).1 = .nan
  rw [show a.1 = .nan from h]
  rfl

theorem nan_not_finite {a : FP M} (h : IsNaN a) : ¬ Spec.Finite a := fun ⟨_, hr⟩ => by
  unfold IsNaN at h
  unfold Is at hr
  rw [h] at hr
  cases hr

theorem squares_nan : ∀ (zs : List (FP M)) (acc : FP M), (IsNaN acc ∨ ∃ z ∈ zs, IsNaN z) →
    IsNaN (zs.foldl (fun acc z => acc +. z *. z) acc)
  | [], _, h => by
    rcases h with h | ⟨z, hz, _⟩
    · exact h
    · cases hz
  | z :: zs, acc, h => by
    refine squares_nan zs _ ?_
    rcases h with h | ⟨z', hz, h⟩
    · exact .inl (nan_add h _)
    · rcases List.mem_cons.1 hz with rfl | hz
      · exact .inl (nan_add_right _ (nan_mul_left h _))
      · exact .inr ⟨z', hz, h⟩

/-- The coordinates of the scaled difference. -/
theorem scaled_mem {ls x y : List (FP M)} {i : Nat} {a c l : FP M} (hx : x[i]? = some a) (hy : y[i]? = some c)
    (hl : ls[i]? = some l) :
    (a -. c) /. l ∈ List.zipWith (fun d l => d /. l) (List.zipWith (fun a b => a -. b) x y) ls := by
  refine List.mem_of_getElem? (i := i) ?_
  rw [List.getElem?_zipWith, List.getElem?_zipWith, hx, hy, hl]

theorem distance_nan {ls x y : List (FP M)} {i : Nat} {a c l : FP M} (hx : x[i]? = some a) (hy : y[i]? = some c)
    (hl : ls[i]? = some l) (ha : IsNaN a) : IsNaN (sliceDistance ls x y) :=
  nan_sqrt (squares_nan _ _ (.inr ⟨_, scaled_mem hx hy hl, nan_div (nan_sub ha _) _⟩))

theorem stationary_nan {kind : StationaryKind} (k : Stationary kind (FP M)) {r : FP M} (h : IsNaN r) :
    IsNaN (k.kernelStationary r) := by
  cases kind
  · exact nan_mul_right _ (nan_exp (nan_neg h))
  · exact nan_mul_right _ (nan_exp (nan_mul_right _ h))
  · exact nan_mul_right _ (nan_exp (nan_mul_right _ h))
  · exact nan_mul_right _ (nan_exp (nan_mul_right _ h))
  · exact nan_mul_right _ (cos_bad (nan_not_finite h))

theorem rational_nan (k : RationalQuadratic (FP M)) {r : FP M} (h : IsNaN r) : IsNaN (k.kernelStationary r) :=
  nan_mul_right _ (nan_exp (nan_mul_right _ (nan_ln1p (nan_div (nan_mul_left h _) _))))

/-- **NaN.** A NaN coordinate that has a lengthscale makes each of the six kernels NaN, on slices and on numbers. -/
theorem C182_nan {kind : StationaryKind} (k : Stationary kind (FP M)) (q : RationalQuadratic (FP M)) (x y : List (FP M)) (i : Nat)
    (a c : FP M) (hx : x[i]? = some a) (hy : y[i]? = some c) (ha : IsNaN a) :
    (i < k.lengthscales.length → IsNaN (SliceKernel.kernel k x y)) ∧
    (i < q.lengthscales.length → IsNaN (SliceKernel.kernel q x y)) ∧
    (0 < k.lengthscales.length → ∃ v, ScalarKernel.kernel k a c = .ok v ∧ IsNaN v) ∧
    (0 < q.lengthscales.length → ∃ v, ScalarKernel.kernel q a c = .ok v ∧ IsNaN v) := by
  have hd : ∀ ls : List (FP M), 0 < ls.length → ∃ r, scalarDistance ls a c = .ok r ∧ IsNaN r := fun ls h => by
    cases ls with
    | nil => cases h
    | cons l ls => exact ⟨_, rfl, nan_div (nan_abs (nan_sub ha _)) _⟩
  refine ⟨fun h => stationary_nan k (distance_nan hx hy (List.getElem?_eq_getElem h) ha),
    fun h => rational_nan q (distance_nan hx hy (List.getElem?_eq_getElem h) ha), fun h => ?_, fun h => ?_⟩
  · obtain ⟨r, h1, h2⟩ := hd _ h
    refine ⟨k.kernelStationary r, ?_, stationary_nan k h2⟩
    show (do let r ← scalarDistance k.lengthscales a c; .ok _) = _
    rw [h1]; rfl
  · obtain ⟨r, h1, h2⟩ := hd _ h
    refine ⟨q.kernelStationary r, ?_, rational_nan q h2⟩
    show (do let r ← scalarDistance q.lengthscales a c; .ok _) = _
    rw [h1]; rfl

/-! ## Infinity -/

/-- Zero, positive or plus infinity: never NaN. -/
theorem square_not_nan {z : FP M} (h : ¬ IsNaN z) : XReal.fin 0 ≤ (z *. z).1 := by
  rw [val_mul]
  rcases hz : z.1 with _ | _ | _ | r
  · exact absurd hz h
  · exact trivial
  · exact trivial
  · exact rnd_nonneg (mul_self_nonneg r)

theorem square_infinite {z : FP M} (h : Infinite z) : (z *. z).1 = .pinf := by
  rw [val_mul]
  rcases h with h | h <;> rw [h] <;> rfl

theorem add_pinf_right {a b : FP M} (h : XReal.fin 0 ≤ a.1) (hb : b.1 = .pinf) : (a +. b).1 = .pinf := by
  rw [val_add, hb]
  rcases ha : a.1 with _ | _ | _ | r
  · rw [ha] at h; exact absurd h id
  · rw [ha] at h; exact absurd h id
  · rfl
  · rfl

theorem add_pinf_left {a b : FP M} (ha : a.1 = .pinf) (h : XReal.fin 0 ≤ b.1) : (a +. b).1 = .pinf := by
  rw [val_add, ha]
  rcases hb : b.1 with _ | _ | _ | r
  · rw [hb] at h; exact absurd h id
  · rw [hb] at h; exact absurd h id
  · rfl
  · rfl

theorem squares_pinf : ∀ (zs : List (FP M)) (acc : FP M), XReal.fin 0 ≤ acc.1 → (∀ z ∈ zs, ¬ IsNaN z) →
    (acc.1 = .pinf ∨ ∃ z ∈ zs, Infinite z) → (zs.foldl (fun acc z => acc +. z *. z) acc).1 = .pinf
  | [], _, _, _, h => by
    rcases h with h | ⟨z, hz, _⟩
    · exact h
    · cases hz
  | z :: zs, acc, h0, hn, h => by
    have hz0 := square_not_nan (hn z (List.mem_cons_self ..))
    refine squares_pinf zs _ (val_add_nonneg h0 hz0) (fun z' hz' => hn z' (List.mem_cons_of_mem _ hz')) ?_
    rcases h with h | ⟨z', hz, h⟩
    · exact .inl (add_pinf_left h hz0)
    · rcases List.mem_cons.1 hz with rfl | hz
      · exact .inl (add_pinf_right h0 (square_infinite h))
      · exact .inr ⟨z', hz, h⟩

theorem sub_infinite {a c : FP M} (ha : Infinite a) (hc : Spec.Finite c) : Infinite (a -. c) := by
  obtain ⟨r, hr⟩ := hc
  unfold Spec.Infinite
  rw [val_sub, hr]
  rcases ha with h | h <;> rw [h]
  · exact .inl rfl
  · exact .inr rfl

theorem sub_not_nan {a c : FP M} (ha : ¬ IsNaN a) (hc : Spec.Finite c) : ¬ IsNaN (a -. c) := by
  obtain ⟨r, hr⟩ := hc
  unfold IsNaN at *
  rw [val_sub, hr]
  rcases h : a.1 with _ | _ | _ | q
  · exact absurd h ha
  · exact fun h => by cases h
  · exact fun h => by cases h
  · exact M.rnd_ne_nan _

theorem div_infinite {a l : FP M} (ha : Infinite a) (hl : Spec.Finite l) : Infinite (a /. l) := by
  obtain ⟨r, hr⟩ := hl
  unfold Spec.Infinite
  rw [val_div, hr]
  rcases ha with h | h <;> rw [h]
  · show (M.round (XReal.infSign r)).1 = _ ∨ (M.round (XReal.infSign r)).1 = _
    rcases infSign_cases r with e | e <;> rw [e]
    · exact .inl rfl
    · exact .inr rfl
  · show (M.round (XReal.neg (XReal.infSign r))).1 = _ ∨ (M.round (XReal.neg (XReal.infSign r))).1 = _
    rcases infSign_cases r with e | e <;> rw [e]
    · exact .inr rfl
    · exact .inl rfl

theorem div_not_nan {a l : FP M} (ha : ¬ IsNaN a) {c : ℝ} (hl : Is l c) (hc : c ≠ 0) : ¬ IsNaN (a /. l) := by
  by_cases hi : Infinite a
  · intro h
    have := div_infinite hi ⟨c, hl⟩
    unfold IsNaN at h
    unfold Spec.Infinite at this
    rw [h] at this
    rcases this with h | h <;> cases h
  · unfold IsNaN Spec.Infinite at *
    rw [val_div, hl]
    rcases h : a.1 with _ | _ | _ | q
    · exact absurd h ha
    · exact absurd (.inr h) hi
    · exact absurd (.inl h) hi
    · show (M.round (if c = 0 then _ else .fin (q / c))).1 ≠ _
      rw [if_neg hc]
      exact M.rnd_ne_nan _

/-- A point with no NaN coordinate, of which one that has a lengthscale is infinite, and a finite point. -/
structure Spec.Remote (ls x y : List (FP M)) : Prop where
  scales : ∀ l ∈ ls, ∃ c, Is l c ∧ c ≠ 0
  centre : ∀ c ∈ y, Spec.Finite c
  numbers : ∀ a ∈ x, ¬ IsNaN a
  infinite : ∃ (i : Nat) (a : FP M), x[i]? = some a ∧ Infinite a ∧ i < y.length ∧ i < ls.length

theorem distance_remote {ls x y : List (FP M)} (h : Remote ls x y) : (sliceDistance ls x y).1 = .pinf := by
  unfold sliceDistance
  rw [val_sqrt, squares_pinf _ _ (by rw [val_zero]; exact le_refl (0 : ℝ)) ?_ (.inr ?_)]
  · rfl
  · intro z hz
    obtain ⟨j, hj⟩ := List.mem_iff_getElem?.1 hz
    rw [List.getElem?_zipWith_eq_some] at hj
    obtain ⟨d, l, h1, h2, rfl⟩ := hj
    rw [List.getElem?_zipWith_eq_some] at h1
    obtain ⟨a, c, h3, h4, rfl⟩ := h1
    obtain ⟨s, hs, hs0⟩ := h.scales l (List.mem_of_getElem? h2)
    exact div_not_nan (sub_not_nan (h.numbers a (List.mem_of_getElem? h3)) (h.centre c (List.mem_of_getElem? h4))) hs hs0
  · obtain ⟨i, a, hx, ha, hy, hl⟩ := h.infinite
    obtain ⟨s, hs, -⟩ := h.scales ls[i] (List.getElem_mem hl)
    exact ⟨_, scaled_mem hx (List.getElem?_eq_getElem hy) (List.getElem?_eq_getElem hl),
      div_infinite (sub_infinite ha (h.centre _ (List.getElem_mem hy))) ⟨s, hs⟩⟩

theorem mul_pinf {a b : FP M} {c : ℝ} (ha : Is a c) (hc : 0 < c) (hb : b.1 = .pinf) : (a *. b).1 = .pinf := by
  rw [val_mul, ha, hb]
  show (M.round (if c = 0 then _ else XReal.infSign c)).1 = _
  rw [if_neg hc.ne', XReal.infSign, if_pos hc.le]
  rfl

theorem mul_ninf {a b : FP M} {c : ℝ} (ha : Is a c) (hc : c < 0) (hb : b.1 = .pinf) : (a *. b).1 = .ninf := by
  rw [val_mul, ha, hb]
  show (M.round (if c = 0 then _ else XReal.infSign c)).1 = _
  rw [if_neg hc.ne, XReal.infSign, if_neg (not_le.2 hc)]
  rfl

theorem exp_ninf {a : FP M} (ha : a.1 = .ninf) : Is (Scalar.exp a) 0 := by
  show (M.round (M.fexp a.1)).1 = _
  rw [ha]; exact rnd_zero

theorem finite_mul_zero {v a : FP M} (hv : Spec.Finite v) (ha : Is a 0) : Is (v *. a) 0 := by
  obtain ⟨V, hv⟩ := hv
  have := mul_val hv ha
  rw [mul_zero, rnd_zero] at this
  exact this

/-- Anything times infinity, times zero, is NaN. -/
theorem times_pinf_zero (v : FP M) {a b : FP M} (ha : a.1 = .pinf) (hb : Is b 0) : IsNaN (v *. a *. b) := by
  have inf0 : ∀ u : FP M, Infinite u → IsNaN (u *. b) := fun u hu => by
    unfold IsNaN
    rw [val_mul, hb]
    rcases hu with h | h <;> rw [h]
    · show (M.round (if (0 : ℝ) = 0 then _ else _)).1 = _
      rw [if_pos rfl]; rfl
    · show (M.round (if (0 : ℝ) = 0 then _ else _)).1 = _
      rw [if_pos rfl]; rfl
  rcases hv : v.1 with _ | _ | _ | V
  · exact nan_mul_left (nan_mul_left hv _) _
  · exact inf0 _ (.inr (by rw [val_mul, hv, ha]; rfl))
  · exact inf0 _ (.inl (by rw [val_mul, hv, ha]; rfl))
  · rcases lt_trichotomy V 0 with h | h | h
    · exact inf0 _ (.inr (mul_ninf hv h ha))
    · refine nan_mul_left ?_ _
      unfold IsNaN
      rw [val_mul, hv, ha, h]
      show (M.round (if (0 : ℝ) = 0 then _ else _)).1 = _
      rw [if_pos rfl]; rfl
    · exact inf0 _ (.inl (mul_pinf hv h ha))

theorem is_three (hM : M.rnd = binary64Format.rnd) : Is (Scalar.ofNat 3 : FP M) 3 := by
  have := C88_binary64 hM 3 (by norm_num)
  unfold Is; rw [val_ofNat]; simpa using this

theorem is_five (hM : M.rnd = binary64Format.rnd) : Is (Scalar.ofNat 5 : FP M) 5 := by
  have := C88_binary64 hM 5 (by norm_num)
  unfold Is; rw [val_ofNat]; simpa using this

theorem positive_rnd (hM : M.rnd = binary64Format.rnd) {a : FP M} {r : ℝ} (h : a.1 = M.rnd r) (h1 : 1 ≤ r) (h2 : r ≤ 2) :
    ∃ c, Is a c ∧ 0 < c := by
  obtain ⟨c, hc, hce, -⟩ := of_rnd hM h (by
    rw [abs_of_nonneg (by linarith)]
    have : (2 : ℝ) ^ 1 ≤ 2 ^ 1022 := two_pow_le (by norm_num)
    exact le_trans (by linarith only [h2]) this)
  refine ⟨c, hc, ?_⟩
  have h3 := M.rnd_mono h1
  rw [M.rnd_one, ← h, hc] at h3
  exact lt_of_lt_of_le one_pos h3

theorem sqrt_three (hM : M.rnd = binary64Format.rnd) : ∃ c, Is (Scalar.sqrt (Scalar.ofNat 3) : FP M) c ∧ 0 < c := by
  refine positive_rnd hM (r := √3) ?_ (by rw [Real.one_le_sqrt]; norm_num) (by rw [Real.sqrt_le_iff]; norm_num)
  rw [val_sqrt, is_three hM]
  show (M.round (if (3 : ℝ) < 0 then _ else .fin (√3))).1 = _
  rw [if_neg (by norm_num)]; rfl

theorem five_thirds (hM : M.rnd = binary64Format.rnd) : ∃ c, Is (Scalar.ofNat 5 /. Scalar.ofNat 3 : FP M) c ∧ 0 < c := by
  refine positive_rnd hM (r := 5 / 3) ?_ (by norm_num) (by norm_num)
  rw [val_div, is_three hM, is_five hM]
  show (M.round (if (3 : ℝ) = 0 then _ else .fin (5 / 3))).1 = _
  rw [if_neg (by norm_num)]; rfl

theorem matern_remote (hM : M.rnd = binary64Format.rnd) {R : FP M} (h : R.1 = .pinf) (k : Stationary .matern32 (FP M))
    (k' : Stationary .matern52 (FP M)) : IsNaN (k.kernelStationary R) ∧ IsNaN (k'.kernelStationary R) := by
  obtain ⟨c, hc, c0⟩ := sqrt_three hM
  obtain ⟨e, he, e0⟩ := five_thirds hM
  have h1 : XReal.fin 0 ≤ (Scalar.ofNat 1 : FP M).1 := by rw [val_ofNat_one]; exact zero_le_one (α := ℝ)
  have hx : Is (Scalar.exp (Scalar.neg (Scalar.sqrt (Scalar.ofNat 3)) *. R)) 0 :=
    exp_ninf (mul_ninf (is_neg hc) (by linarith) h)
  have hq : (Scalar.ofNat 1 +. Scalar.sqrt (Scalar.ofNat 3) *. R : FP M).1 = .pinf := add_pinf_right h1 (mul_pinf hc c0 h)
  refine ⟨times_pinf_zero _ hq hx, times_pinf_zero _ (add_pinf_left hq ?_) hx⟩
  have m1 := mul_pinf he e0 h
  rw [val_mul, m1, h]
  exact trivial

/-- **Infinity, kernel by kernel.** `Exponential`, `ExpQuad` and `RationalQuadratic` with a positive power are zero; both Matern
kernels, `Cosine` and `RationalQuadratic` with power zero are NaN, whatever the variance. -/
theorem C182_infinite (hM : M.rnd = binary64Format.rnd) (v : FP M) (ls x y : List (FP M)) (h : Remote ls x y) :
    (Spec.Finite v → Is (SliceKernel.kernel (⟨v, ls⟩ : Stationary .exponential (FP M)) x y) 0) ∧
    (Spec.Finite v → Is (SliceKernel.kernel (⟨v, ls⟩ : Stationary .expQuad (FP M)) x y) 0) ∧
    (Spec.Finite v → ∀ (q : FP M) (p : ℝ), Is q p → 0 < p →
      Is (SliceKernel.kernel (⟨v, ls, q⟩ : RationalQuadratic (FP M)) x y) 0) ∧
    (∀ q : FP M, Is q 0 → IsNaN (SliceKernel.kernel (⟨v, ls, q⟩ : RationalQuadratic (FP M)) x y)) ∧
    IsNaN (SliceKernel.kernel (⟨v, ls⟩ : Stationary .matern32 (FP M)) x y) ∧
    IsNaN (SliceKernel.kernel (⟨v, ls⟩ : Stationary .matern52 (FP M)) x y) ∧
    IsNaN (SliceKernel.kernel (⟨v, ls⟩ : Stationary .cosine (FP M)) x y) := by
  have hR := distance_remote h
  have hln : (Scalar.ln1p (sliceDistance ls x y *. sliceDistance ls x y /. Scalar.ofNat 2)).1 = .pinf := by
    have h2 : Is (Scalar.ofNat 2 : FP M) 2 := by
      have := C88_binary64 hM 2 (by norm_num)
      unfold Is; rw [val_ofNat]; simpa using this
    have e : (sliceDistance ls x y *. sliceDistance ls x y /. Scalar.ofNat 2).1 = .pinf := by
      rw [val_div, square_infinite (.inl hR), h2]
      show (M.round (XReal.infSign 2)).1 = _
      rw [XReal.infSign, if_pos (by norm_num)]; rfl
    show (M.round (M.fln1p _)).1 = _
    rw [e]; rfl
  refine ⟨fun hv => finite_mul_zero hv (exp_ninf ?_), fun hv => finite_mul_zero hv (exp_ninf ?_),
    fun hv q p hq hp => finite_mul_zero hv (exp_ninf (mul_ninf (is_neg hq) (by linarith) hln)), fun q hq => ?_,
    (matern_remote hM hR ⟨v, ls⟩ ⟨v, ls⟩).1, (matern_remote hM hR ⟨v, ls⟩ ⟨v, ls⟩).2, nan_mul_right _ (cos_bad ?_)⟩
  · rw [val_neg]
    show XReal.neg (sliceDistance ls x y).1 = _
    rw [hR]; rfl
  · have m1 := mul_ninf (is_neg (is_half hM)) (by norm_num) hR
    show (Scalar.neg (Scalar.sci 5 1) *. sliceDistance ls x y *. sliceDistance ls x y).1 = _
    rw [val_mul, m1, hR]; rfl
  · refine nan_mul_right _ (nan_exp ?_)
    have := is_neg hq
    unfold Is at this
    unfold IsNaN
    rw [val_mul, this]
    show (M.round (XReal.mul _ (Scalar.ln1p (sliceDistance ls x y *. sliceDistance ls x y /. Scalar.ofNat 2)).1)).1 = _
    rw [hln]
    show (M.round (if (-0 : ℝ) = 0 then _ else _)).1 = _
    rw [if_pos neg_zero]; rfl
  · rintro ⟨r, hr⟩
    show False
    unfold Is at hr
    rw [hR] at hr
    cases hr

/-! ## Kernel bases -/

section
variable {κ : Type} [SliceKernel κ (FP M)]

/-- A basis all of whose kernels are NaN at an input is ruined by training there: with any of the seven optimisers, no prediction
at any input is finite any more, whatever calls of the optimiser follow. -/
theorem C182_ruined {O : Type} [Optimiser O (FP M)] [HasSize O] (hO : Ruinous (KernelBasis κ (FP M)) O (List (FP M)) (M := M))
    (b : KernelBasis κ (FP M)) (hb : 0 < b.prototypes.length) (w : List (FP M)) (o : O) (hw : w.length = b.prototypes.length)
    (ho : HasSize.sized b.prototypes.length o) (x : List (FP M))
    (hx : ∀ p ∈ b.prototypes, IsNaN (SliceKernel.kernel p.kernel x p.centroid)) (y : FP M) :
    ∃ fa', ScalarLFA.updateWith (LFA.mk b w o) x (fun _ v => y -. v) = .ok (.ok (), fa') ∧
      ∀ es : List (Event (FP M)), (∀ e ∈ es, e.Fits b.prototypes.length) → ∀ o' w', History fa'.optimiser fa'.weights es o' w' →
        w'.length = b.prototypes.length → ∀ (x' : List (FP M)) (v : FP M),
        ScalarLFA.evaluate (LFA.mk b w' o') x' = .ok (.ok v) → ¬ Spec.Finite v := by
  obtain ⟨fa', g1, g2⟩ := hO (LFA.mk b w o) x _ b.prototypes.length hw rfl (by rw [List.length_map]) ho
    ⟨_, List.mem_map.2 ⟨b.prototypes[0], List.getElem_mem hb, rfl⟩, nan_not_finite (hx _ (List.getElem_mem hb))⟩ y
  refine ⟨fa', g1, fun es hes o' w' hh hw' x' v hv => ?_⟩
  refine C108_prediction (LFA.mk b w' o') x' _ rfl ⟨trivial, ?_⟩ hv 0 ?_ (g2 es hes o' w' hh 0 hb)
  · show (List.map _ _).length = w'.length
    rw [List.length_map, hw']
  · refine active_dense ?_
    rw [List.length_map]
    exact hb

theorem tree_zero (x : Nat → FP M) : ∀ t : SumTree, (∀ i ∈ t.terms, Is (x i) 0) → Is (t.eval M.add (M.lit 0) x) 0
  | .zero, _ => val_lit_zero
  | .term i, h => h i (List.mem_singleton.2 rfl)
  | .add l r, h => by
    have h1 := tree_zero x l fun i hi => h i (List.mem_append.2 (.inl hi))
    have h2 := tree_zero x r fun i hi => h i (List.mem_append.2 (.inr hi))
    show (M.round (XReal.add (l.eval M.add (M.lit 0) x).1 (r.eval M.add (M.lit 0) x).1)).1 = _
    rw [h1, h2]
    show M.rnd (0 + 0) = _
    rw [add_zero, rnd_zero]

theorem zipMutWith_id {w da : List (FP M)} (f : FP M → FP M → FP M) (hl : w.length = da.length)
    (h : ∀ a ∈ w, ∀ d ∈ da, f a d = a) : zipMutWith w da f = .ok w := by
  rw [zipMutWith_of_eq hl.symm]
  congr 1
  induction w generalizing da with
  | nil => rfl
  | cons a w ih =>
    cases da with
    | nil => cases hl
    | cons d da =>
      rw [List.zipWith_cons_cons, h a (List.mem_cons_self ..) d (List.mem_cons_self ..), ih (by simpa using hl)
        fun a' ha' d' hd' => h a' (List.mem_cons_of_mem _ ha') d' (List.mem_cons_of_mem _ hd')]

/-- A basis all of whose kernels are zero at an input predicts zero there from finite weights, and training there with SGD
changes no weight, whatever the target: such examples are silently lost. -/
theorem C182_unheard (b : KernelBasis κ (FP M)) (w : List (FP M)) (o : SGD (FP M)) (hw : w.length = b.prototypes.length)
    (hf : ∀ a ∈ w, Spec.Finite a) (x : List (FP M)) (hx : ∀ p ∈ b.prototypes, Is (SliceKernel.kernel p.kernel x p.centroid) 0) :
    ∃ v, ScalarLFA.evaluate (LFA.mk b w o) x = .ok (.ok v) ∧ Is v 0 ∧ ∀ y : FP M, Spec.Finite (o.lr *. (y -. v)) →
      ScalarLFA.updateWith (LFA.mk b w o) x (fun _ v => y -. v) = .ok (.ok (), LFA.mk b w o) := by
  set da := b.prototypes.map fun p => p.distanceFrom x with hda
  have hl : da.length = w.length := by rw [hda, List.length_map, hw]
  have h0 : ∀ d ∈ da, Is d 0 := fun d hd => by
    obtain ⟨p, hp, rfl⟩ := List.mem_map.1 hd
    exact hx p hp
  have hdot : (Features.dense da).dot w = .ok ((M.dotTree (min da.length w.length)).eval M.add (M.lit 0)
      fun i => (List.zipWith M.mul da w).getD i (M.lit 0)) := by
    show arrayDot da w = _
    unfold arrayDot
    rw [if_pos hl]
    rfl
  have hv : Is ((M.dotTree (min da.length w.length)).eval M.add (M.lit 0)
      fun i => (List.zipWith M.mul da w).getD i (M.lit 0)) 0 := by
    refine tree_zero _ _ fun i hi => ?_
    have hi' := List.mem_range.1 ((M.dotTree_terms _).mem_iff.1 hi)
    have h1 : i < da.length := by omega
    have h2 : i < w.length := by omega
    rw [List.getD_eq_getElem?_getD, List.getElem?_zipWith, List.getElem?_eq_getElem h1, List.getElem?_eq_getElem h2]
    obtain ⟨r, hr⟩ := hf _ (List.getElem_mem h2)
    have := mul_val (h0 _ (List.getElem_mem h1)) hr
    rw [zero_mul, rnd_zero] at this
    exact this
  refine ⟨_, ?_, hv, fun y hy => ?_⟩
  · rw [scalar_evaluate_eq (φ := .dense da) rfl, hdot]
    rfl
  · refine updateWith_eq (φ := .dense da) rfl hdot _ ?_
    show (do let w ← (Features.dense da).scaledAddto _ w; Except.ok (Except.ok (), o, w)) = _
    have : (Features.dense da).scaledAddto (o.lr *. (y -. (M.dotTree (min da.length w.length)).eval M.add (M.lit 0)
        fun i => (List.zipWith M.mul da w).getD i (M.lit 0))) w = .ok w := by
      refine zipMutWith_id _ hl.symm fun a ha d hd => ?_
      obtain ⟨r, hr⟩ := hf a ha
      refine FP.ext ?_
      rw [val_add, finite_mul_zero hy (h0 d hd), hr]
      show M.rnd (r + 0) = _
      rw [add_zero]
      exact a.rep r hr
    rw [this]
    rfl

end

/-! ## The bases of the crate -/

theorem of_mem_cartesian {α : Type} : ∀ {xss : List (List α)} {xs : List α}, xs ∈ cartesian xss →
    xs.length = xss.length ∧ ∀ x ∈ xs, ∃ l ∈ xss, x ∈ l
  | [], xs, h => by
    rw [List.mem_singleton.1 h]
    exact ⟨rfl, fun x hx => by cases hx⟩
  | l :: xss, xs, h => by
    obtain ⟨a, ha, h⟩ := List.mem_flatMap.1 h
    obtain ⟨ys, hys, rfl⟩ := List.mem_map.1 h
    obtain ⟨h1, h2⟩ := of_mem_cartesian hys
    refine ⟨by rw [List.length_cons, List.length_cons, h1], fun x hx => ?_⟩
    rcases List.mem_cons.1 hx with rfl | hx
    · exact ⟨l, List.mem_cons_self .., ha⟩
    · obtain ⟨m, hm, hx⟩ := h2 x hx
      exact ⟨m, List.mem_cons_of_mem _ hm, hx⟩

theorem of_mem_grid {kind : StationaryKind} {ps : List (Equipartition (FP M))} {p : Prototype (Stationary kind (FP M)) (FP M)}
    (hp : p ∈ (KernelBasis.grid kind ps).prototypes) : p.kernel = ⟨Scalar.one, ps.map Equipartition.partitionWidth⟩ ∧
      p.centroid.length = ps.length ∧ ∀ c ∈ p.centroid, ∃ d ∈ ps, c ∈ d.centres := by
  obtain ⟨c, hc, rfl⟩ := List.mem_map.1 hp
  unfold KernelBasis.gridCentroids multiCartesianProduct at hc
  split_ifs at hc
  · cases hc
  · obtain ⟨h1, h2⟩ := of_mem_cartesian hc
    refine ⟨rfl, by rw [h1, List.length_map], fun a ha => ?_⟩
    obtain ⟨l, hl, ha⟩ := h2 a ha
    obtain ⟨d, hd, rfl⟩ := List.mem_map.1 hl
    exact ⟨d, hd, ha⟩

/-- **The grid bases.** At an input with a NaN coordinate every feature of `exp_quad`, `matern_32` and `matern_52` is NaN. At an input
whose coordinates are numbers or infinities, one of them infinite, every feature of `exp_quad` is zero and every feature of `matern_32` and
`matern_52` is NaN. -/
theorem C182_grids (hM : M.rnd = binary64Format.rnd) (ps : List (Equipartition (FP M)))
    (hw : ∀ d ∈ ps, ∃ c, Is d.partitionWidth c ∧ c ≠ 0) (hc : ∀ d ∈ ps, ∀ c ∈ d.centres, Spec.Finite c) (x : List (FP M))
    (i : Nat) (a : FP M) (hx : x[i]? = some a) (hi : i < ps.length) :
    (IsNaN a → ∀ kind, ∀ p ∈ (KernelBasis.grid kind ps).prototypes, IsNaN (SliceKernel.kernel p.kernel x p.centroid)) ∧
    (Infinite a → (∀ b ∈ x, ¬ IsNaN b) →
      (∀ p ∈ (KernelBasis.expQuad ps).prototypes, Is (SliceKernel.kernel p.kernel x p.centroid) 0) ∧
      (∀ p ∈ (KernelBasis.matern32 ps).prototypes, IsNaN (SliceKernel.kernel p.kernel x p.centroid)) ∧
      ∀ p ∈ (KernelBasis.matern52 ps).prototypes, IsNaN (SliceKernel.kernel p.kernel x p.centroid)) := by
  refine ⟨fun ha kind p hp => ?_, fun ha hn => ?_⟩
  · obtain ⟨h1, h2, -⟩ := of_mem_grid hp
    have hl : i < p.centroid.length := by rw [h2]; exact hi
    refine (C182_nan p.kernel RationalQuadratic.default x p.centroid i a _ hx (List.getElem?_eq_getElem hl) ha).1 ?_
    rw [h1]
    show i < (ps.map _).length
    rw [List.length_map]; exact hi
  · have key : ∀ {kind : StationaryKind} {p : Prototype (Stationary kind (FP M)) (FP M)},
        p ∈ (KernelBasis.grid kind ps).prototypes → Remote (ps.map Equipartition.partitionWidth) x p.centroid := fun hp => by
      obtain ⟨-, h2, h3⟩ := of_mem_grid hp
      refine ⟨fun l hl => ?_, fun c hc' => ?_, hn, i, a, hx, ha, by rw [h2]; exact hi, by rw [List.length_map]; exact hi⟩
      · obtain ⟨d, hd, rfl⟩ := List.mem_map.1 hl
        exact hw d hd
      · obtain ⟨d, hd, h⟩ := h3 c hc'
        exact hc d hd c h
    refine ⟨fun p hp => ?_, fun p hp => ?_, fun p hp => ?_⟩
    · rw [(of_mem_grid hp).1]
      exact (C182_infinite hM _ _ _ _ (key hp)).2.1 ⟨1, val_one⟩
    · rw [(of_mem_grid hp).1]
      exact (C182_infinite hM _ _ _ _ (key hp)).2.2.2.2.1
    · rw [(of_mem_grid hp).1]
      exact (C182_infinite hM _ _ _ _ (key hp)).2.2.2.2.2.1

/-- `matern_32` over one dimension with one cell centred at 0, trained once at infinity with SGD: no prediction is finite any more. With
`exp_quad` in its place the call changes nothing. -/
theorem C182_example (hM : M.rnd = binary64Format.rnd) : ∃ (a : FP M) (ps : List (Equipartition (FP M))), Infinite a ∧
    (∃ fa' : ScalarLFA (KernelBasis (Stationary .matern32 (FP M)) (FP M)) (SGD (FP M)) (FP M),
      ScalarLFA.updateWith (LFA.mk (KernelBasis.matern32 ps) [Scalar.zero] (SGD.mk (Scalar.one : FP M))) [a]
      (fun _ v => (Scalar.one : FP M) -. v) = .ok (.ok (), fa') ∧
      ∀ (x' : List (FP M)) (v : FP M), fa'.weights.length = 1 →
        ScalarLFA.evaluate (LFA.mk (KernelBasis.matern32 ps) fa'.weights fa'.optimiser) x' = .ok (.ok v) → ¬ Spec.Finite v) ∧
    ScalarLFA.updateWith (LFA.mk (KernelBasis.expQuad ps) [Scalar.zero] (SGD.mk (Scalar.one : FP M))) [a]
      (fun _ v => (Scalar.one : FP M) -. v) = .ok (.ok (), LFA.mk (KernelBasis.expQuad ps) [(Scalar.zero : FP M)] (SGD.mk (Scalar.one : FP M))) := by
  let d : Equipartition (FP M) := ⟨1, Scalar.one, [Scalar.zero], fun _ => 0⟩
  let a : FP M := ⟨.pinf, fun _ h => XReal.noConfusion h⟩
  obtain ⟨-, h2⟩ := C182_grids hM [d] (fun e he => ⟨1, by rw [List.mem_singleton.1 he]; exact val_one, one_ne_zero⟩)
    (fun e he c hc => by
      rw [List.mem_singleton.1 he] at hc
      rw [List.mem_singleton.1 hc]
      exact ⟨0, val_zero⟩) [a] 0 a rfl Nat.zero_lt_one
  obtain ⟨h3, h4, -⟩ := h2 (.inl rfl) fun b hb => by
    rw [List.mem_singleton.1 hb]
    exact fun h => XReal.noConfusion h
  refine ⟨a, [d], .inl rfl, ?_, ?_⟩
  · obtain ⟨fa', g1, g2⟩ := C182_ruined (O := SGD (FP M)) C179_training.1 (KernelBasis.matern32 [d]) Nat.zero_lt_one [Scalar.zero]
      (SGD.mk Scalar.one) rfl trivial [a] h4 Scalar.one
    exact ⟨fa', g1, fun x' v hl hv => g2 [] (fun e he => by cases he) _ _ (.nil _ _) hl x' v hv⟩
  · obtain ⟨v, -, hv, g⟩ := C182_unheard (KernelBasis.expQuad [d]) [Scalar.zero] (SGD.mk Scalar.one) rfl
      (fun b hb => by rw [List.mem_singleton.1 hb]; exact ⟨0, val_zero⟩) [a] h3
    refine g Scalar.one ⟨1, ?_⟩
    have : Is (Scalar.one -. v) 1 := by
      unfold Is at *
      rw [val_sub, val_one, hv]
      show M.rnd (1 + -0) = _
      rw [neg_zero, add_zero, M.rnd_one]
    have := mul_val (show Is (Scalar.one : FP M) 1 from val_one) this
    rw [mul_one, M.rnd_one] at this
    exact this

/-! ## Without rounding -/

/-- None of this is due to rounding: with infinities and NaN but no rounding, a finite distance gives the value of the formula,
and an infinite distance gives zero or NaN in the same cases as in `f64`. -/
theorem C182_exact (v p : ℝ) (ls : List XReal) (r : ℝ) (p0 : 0 < p) :
    (⟨.fin v, ls, .fin p⟩ : RationalQuadratic XReal).kernelStationary (.fin r) = .fin (v * (1 + r ^ 2 / 2) ^ (-p)) ∧
    (⟨.fin v, ls, .fin p⟩ : RationalQuadratic XReal).kernelStationary .pinf = .fin 0 ∧
    (⟨.fin v, ls, .fin 0⟩ : RationalQuadratic XReal).kernelStationary .pinf = .nan ∧
    (⟨.fin v, ls⟩ : Stationary .exponential XReal).kernelStationary (.fin r) = .fin (v * Real.exp (-r)) ∧
    (⟨.fin v, ls⟩ : Stationary .exponential XReal).kernelStationary .pinf = .fin 0 ∧
    (⟨.fin v, ls⟩ : Stationary .cosine XReal).kernelStationary (.fin r) = .fin (v * Real.cos r) ∧
    (⟨.fin v, ls⟩ : Stationary .cosine XReal).kernelStationary .pinf = .nan := by
  have h2 : (Scalar.ofNat 2 : XReal) = .fin 2 := by show XReal.fin _ = _; norm_num
  have hr : (0 : ℝ) < 1 + r ^ 2 / 2 := by positivity
  have hd : (XReal.fin r *. XReal.fin r /. Scalar.ofNat 2 : XReal) = .fin (r * r / 2) := by
    rw [h2]
    show XReal.div (.fin (r * r)) (.fin 2) = _
    simp [XReal.div]
  have hl : (Scalar.ln1p (XReal.fin (r * r / 2)) : XReal) = .fin (Real.log (1 + r ^ 2 / 2)) := by
    show XReal.ln1p _ = _
    have : r * r / 2 = r ^ 2 / 2 := by ring
    rw [this]
    show (if r ^ 2 / 2 = -1 then XReal.ninf else if r ^ 2 / 2 < -1 then XReal.nan else XReal.fin (Real.log (1 + r ^ 2 / 2))) = _
    rw [if_neg (fun h => by linarith), if_neg (fun h => by linarith)]
  have hi : (Scalar.ln1p (XReal.pinf *. XReal.pinf /. Scalar.ofNat 2) : XReal) = .pinf := by
    rw [h2]
    show XReal.ln1p (XReal.infSign 2) = _
    rw [XReal.infSign, if_pos (by norm_num)]; rfl
  refine ⟨?_, ?_, ?_, rfl, ?_, rfl, ?_⟩
  · show XReal.fin v *. Scalar.exp (Scalar.neg (XReal.fin p) *. Scalar.ln1p _) = _
    rw [hd, hl, Real.rpow_def_of_pos hr, mul_comm (Real.log _)]
    rfl
  · show XReal.fin v *. Scalar.exp (Scalar.neg (XReal.fin p) *. Scalar.ln1p _) = _
    rw [hi]
    show XReal.fin v *. Scalar.exp (if -p = 0 then XReal.nan else XReal.infSign (-p)) = _
    rw [if_neg (by linarith), XReal.infSign, if_neg (by linarith)]
    show XReal.fin (v * 0) = _
    rw [mul_zero]
  · show XReal.fin v *. Scalar.exp (Scalar.neg (XReal.fin 0) *. Scalar.ln1p _) = _
    rw [hi]
    show XReal.fin v *. Scalar.exp (if -(0 : ℝ) = 0 then XReal.nan else XReal.infSign (-(0 : ℝ))) = _
    rw [if_pos (by norm_num)]; rfl
  · show XReal.fin (v * 0) = _
    rw [mul_zero]
  · rfl

end Lfa

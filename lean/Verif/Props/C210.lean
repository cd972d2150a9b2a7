import Verif.Props.C193
import Verif.Props.C209

/-!
# C210: several outputs trained from scratch do not overflow

C193 for vector approximators, output by output.
-/

set_option linter.unusedSectionVars false

namespace Lfa

open Spec Machine XReal

variable {M : Machine}

/-- A prediction of one output from the length of its weights. -/
theorem column_bounded (hM : M.rnd = binary64Format.rnd) (m : Nat) {n k : Nat} {φ : Features (FP M)} {y : FP M} (hφ : Fits n φ)
    (hmod : Moderate n k φ y) {w : List (FP M)} (hw : w.length = n) {v : FP M} (hv : φ.dotColumn m w = .ok v)
    (hf : ∀ i < n, Spec.Finite (entry w i)) {N A : ℝ} (h1 : len n (fun i => real (entry w i)) ≤ N) (hN : N ≤ 2 ^ 252)
    (hA : len n (fun i => real (value φ i)) ≤ A) : Bounded (2 * A * N + 1) v := by
  obtain ⟨z, hz, -⟩ := dotColumn_bounded hM m hφ hw hv (a := 100) (b := 252) (by norm_num) hmod.features
    (fun i hi => by
      obtain ⟨r, hr⟩ := hf i hi
      refine ⟨r, hr, le_trans ?_ (h1.trans hN)⟩
      have := abs_le_len (fun i => real (entry w i)) hi
      rwa [is_real hr] at this) (hmod.count.1.trans (hmod.count.2.trans (by norm_num)))
  refine ⟨z, hz, ?_⟩
  have e1 : |z - exactDot φ w| ≤ predictionError φ w := dotColumn_err hM m hφ hw hv hz
  have e2 := predictionError_le hφ w hmod.count.1 hmod.count.2
  have e3 := count_tiny hmod.count.2
  have e4 : (2 : ℝ) ^ (-1034 : ℤ) ≤ 1 := zpow_le_one_of_nonpos₀ (by norm_num) (by norm_num)
  have hku := length_roundoff' hmod.count.2
  have hu := roundoff_pos
  have k0 : (0 : ℝ) ≤ k := k.cast_nonneg
  have e5 : |exactDot φ w| ≤ len n (fun i => real (value φ i)) * len n (fun i => real (entry w i)) := by
    unfold exactDot
    rw [hφ.2]
    exact abs_sum_mul_le_len n _ _
  have A0 := len_nonneg n fun i => real (value φ i)
  have N0 := len_nonneg n fun i => real (entry w i)
  have e6 : len n (fun i => real (value φ i)) * len n (fun i => real (entry w i)) ≤ A * N :=
    mul_le_mul hA h1 N0 (A0.trans hA)
  have e7 : 2 * k * roundoff * (len n (fun i => real (value φ i)) * len n (fun i => real (entry w i))) ≤
      1 * (len n (fun i => real (value φ i)) * len n (fun i => real (entry w i))) :=
    mul_le_mul_of_nonneg_right (by linarith) (mul_nonneg A0 N0)
  have e8 := abs_sub_abs_le_abs_sub z (exactDot φ w)
  linarith

section
variable {B I : Type} [Space B] [Basis B I (FP M)]

/-- SGD from the constructor on, on a basis that is tame at every input, each hash map iterating in any order at each call. With `l s ≤ 2`
and targets of output `j` up to `Y ≤ 2^100`, for `(8 k + 11) T ≤ 2^52` calls: all weights of output `j` are finite, their length is at most
`2 T l √s Y + 1`, they are near exact training, and whatever `evaluate` can return for it at a tame input is finite and at most
`2 √s (2 T l √s Y + 1) + 1`. -/
theorem C210_sgd (hM : M.rnd = binary64Format.rnd) (b : B) (m n k : Nat) (s l Y : ℝ) (lr : FP M) (hd : Space.dim b = .finite n)
    (hn : n ≤ 2 ^ 40) (hk : k ≤ 2 ^ 40) (hs : s ≤ 2 ^ 200) (hY : Y ≤ 2 ^ 100) (hlr : Is lr l) (l0 : 0 ≤ l) (l1 : l ≤ 2 ^ 100)
    (h2 : l * s ≤ 2) (fas : Nat → VectorLFA B (SGD (FP M)) (FP M)) (h0 : VectorLFA.vector b ⟨lr⟩ m = .ok (fas 0))
    (xs : Nat → I) (ys : Nat → List (FP M)) (hx : ∀ t, Tame n k s b (xs t)) (hm : ∀ t, (ys t).length = m) (j : Nat) (hj : j < m)
    (hy : ∀ t, Bounded Y (entry (ys t) j))
    (hr : ∀ t, CanUpdateAll (fas t) (xs t) (List.zipWith (· -. ·) (ys t)) (fas (t + 1))) (T : Nat) (hT : (8 * k + 11) * T ≤ 2 ^ 52) :
    (∀ i < n, Spec.Finite (entry ((fas T).weights.getD j []) i)) ∧
    len n (fun i => real (entry ((fas T).weights.getD j []) i)) ≤ 2 * T * (l * √s * Y) + 1 ∧
    (∀ (φ : Nat → Features (FP M)) (us : Nat → Nat → ℝ), (∀ t, Basis.project b (xs t) = .ok (.ok (φ t))) →
      ExactRun n (fun _ => l) (fun t i => real (value (φ t) i)) (fun t => real (entry (ys t) j)) us → (∀ i < n, us 0 i = 0) →
      len n (fun i => real (entry ((fas T).weights.getD j []) i) - us T i) ≤
        (8 * k + 11) * T * 2 ^ (-52 : ℤ) * (T * (l * √s * Y)) + T * 2 ^ (-799 : ℤ)) ∧
    ∀ (x : I) (v : FP M), Tame n k s b x → CanEvaluateAt (fas T) x j v → Bounded (2 * √s * (2 * T * (l * √s * Y) + 1) + 1) v := by
  have Y0 : 0 ≤ Y := by
    obtain ⟨r, -, h⟩ := hy 0
    exact (abs_nonneg r).trans h
  choose φ hp hf hc hfin hsq using hx
  have s0 : 0 ≤ s := (Finset.sum_nonneg fun _ _ => sq_nonneg _).trans (hsq 0)
  have hmod : ∀ t, Moderate n k (φ t) (entry (ys t) j) := fun t => tame_moderate hn hk hs (hf t) (hc t) (hfin t) (hsq t) (bounded_mono (hy t) hY)
  have e0 : fas 0 = ⟨b, List.replicate m (List.replicate n Scalar.zero), ⟨lr⟩⟩ := by
    rw [(C59_shape b (⟨lr⟩ : SGD (FP M)) m n hd).2] at h0
    exact (Except.ok.inj h0).symm
  have hlen : ∀ t, len n (fun i => real (value (φ t) i)) ≤ √s := fun t => Real.sqrt_le_sqrt (hsq t)
  have hD : ∀ t, l * len n (fun i => real (value (φ t) i)) * |real (entry (ys t) j)| ≤ l * √s * Y := fun t => by
    obtain ⟨r, hr, h⟩ := hy t
    rw [is_real hr]
    exact mul_le_mul (mul_le_mul_of_nonneg_left (hlen t) l0) h (abs_nonneg _) (by positivity)
  have D0 : 0 ≤ l * √s * Y := by positivity
  have hls : l * √s ≤ 2 ^ 51 := by
    refine abs_le_of_sq_le_sq' ?_ (by positivity) |>.2
    rw [mul_pow, Real.sq_sqrt s0, ← pow_mul]
    have h3 := mul_le_mul_of_nonneg_left h2 l0
    have : (2 : ℝ) ^ (51 * 2) = 2 * 2 * 2 ^ 100 := by norm_num
    rw [this]
    have h4 : (0 : ℝ) < 2 ^ 100 := by positivity
    nlinarith
  have hD1 : l * √s * Y ≤ 2 ^ 151 := by
    refine (mul_le_mul hls hY Y0 (by positivity)).trans (le_of_eq ?_)
    rw [← pow_add]
  have h2' : ∀ t, l * ∑ i ∈ Finset.range n, real (value (φ t) i) ^ 2 ≤ 2 := fun t =>
    (mul_le_mul_of_nonneg_left (hsq t) l0).trans h2
  have hcol : ∀ j < m, (fas 0).weights.getD j [] = List.replicate n Scalar.zero := fun j hj => by
    rw [e0]
    show (List.replicate m (List.replicate n Scalar.zero)).getD j [] = _
    rw [List.getD_eq_getElem?_getD, List.getElem?_replicate, if_pos hj]
    rfl
  have hz : ∀ i < n, entry ((fas 0).weights.getD j []) i = Scalar.zero := fun i hi => by
    rw [hcol j hj]
    exact entry_replicate n i
  have hφ : ∀ t, Basis.project (fas 0).basis (xs t) = .ok (.ok (φ t)) ∧ Fits n (φ t) := fun t => ⟨by rw [e0]; exact hp t, hf t⟩
  have run := can_trace C64_stateless.1 (fun o _ => o.lr) sgd_scaled hr
    (by rw [e0]; exact List.length_replicate ..) hm (fun j hj => by rw [hcol j hj]; exact List.length_replicate ..) hφ
  choose ψ v hsame hdot hstep using fun t => (run t).2.2 j hj
  have hval : ∀ t i, value (ψ t) i = value (φ t) i := fun t i =>
    value_same (hsame t) (keysUnique_of_wf (hf t).1) (keysUnique_of_wf (fits_same (hsame t) (hf t)).1) i
  have W0 : len n (fun i => real (entry ((fas 0).weights.getD j []) i)) = 0 := by
    rw [len_congr (g := fun _ => 0) fun i hi => by rw [hz i hi, is_real val_zero], len_const n 0 le_rfl, mul_zero]
  have key : ∀ us, ExactRun n (fun _ => l) (fun t i => real (value (φ t) i)) (fun t => real (entry (ys t) j)) us → (∀ i < n, us 0 i = 0) →
      (∀ i < n, Spec.Finite (entry ((fas T).weights.getD j []) i)) ∧ len n (fun i => real (entry ((fas T).weights.getD j []) i) - us T i) ≤
        (8 * k + 11) * T * 2 ^ (-52 : ℤ) * (0 + T * (l * √s * Y)) + T * 2 ^ (-799 : ℤ) := by
    intro us hus hu0
    choose qs hqs using fun t => dot_safe (denseOf_fits n fun i => real (value (φ t) i))
      (c := (List.range n).map (us t)) (by rw [List.length_map, List.length_range])
    obtain ⟨b1, -, b3, -⟩ := sgd_column hM m n k (fun t => ((fas t).weights.getD j [])) (fun t => (List.range n).map (us t))
      lr l (fun t => entry (ys t) j) v qs ψ (fun t => denseOf n fun i => real (value (φ t) i))
      (fun t => fits_same (hsame t) (hf t)) (fun t => denseOf_fits n _)
      (fun t i hi => by rw [denseOf_value _ hi, hval])
      (fun t => ⟨(run t).2.1 j hj, hdot t, by
        have := hstep t
        rw [e0] at this
        exact this⟩)
      (fun t => ⟨by rw [List.length_map, List.length_range], hqs t⟩)
      (fun t i hi => by
        rw [entry_map_range _ hi, entry_map_range _ hi, denseOf_inner, denseOf_value _ hi]
        exact hus t i hi)
      (fun i hi => ⟨by rw [hz i hi]; exact bounded_zero (by positivity), by
        rw [entry_map_range _ hi, hu0 i hi, hz i hi, is_real val_zero]⟩) hlr l0 l1
      (fun t => by rw [denseOf_normSq]; exact h2' t) (fun t => moderate_same (hsame t) (hmod t)) (l * √s * Y)
      (fun t => by rw [denseOf_sqrt]; exact hD t) (hD1.trans (pow_le_pow_right₀ (by norm_num) (by norm_num))) T hT
    refine ⟨b1, ?_⟩
    rw [W0, len_congr (n := n) (g := fun i => real (entry ((fas T).weights.getD j []) i) - us T i) fun i hi => by
      rw [entry_map_range _ hi]] at b3
    exact b3
  obtain ⟨a1, a2⟩ := key _ (exactWeights_run n (fun _ => l) (fun t i => real (value (φ t) i)) (fun t => real (entry (ys t) j)) fun _ => 0)
    fun _ _ => rfl
  have a3 := exactRun_le (exactWeights_run n (fun _ => l) (fun t i => real (value (φ t) i)) (fun t => real (entry (ys t) j)) fun _ => 0)
    (fun _ _ => rfl) (fun _ => l0) h2' hD T
  have hT' : ((8 * k + 11 : ℝ)) * T ≤ 2 ^ 52 := by exact_mod_cast hT
  have T52 : (T : ℝ) ≤ 2 ^ 52 := by
    have : (0 : ℝ) ≤ k * T := by positivity
    nlinarith [(Nat.cast_nonneg T : (0 : ℝ) ≤ T)]
  have a4 := shadow_le D0 hT' (η := 2 ^ (-799 : ℤ)) (by
    refine (mul_le_mul_of_nonneg_right T52 (by positivity)).trans ?_
    rw [← zpow_natCast (2 : ℝ), ← zpow_add₀ (by norm_num)]
    exact zpow_le_one_of_nonpos₀ (by norm_num) (by norm_num)) a2
  have a5 : len n (fun i => real (entry ((fas T).weights.getD j []) i)) ≤ 2 * T * (l * √s * Y) + 1 := by
    refine le_trans (le_of_eq (len_congr fun i _ => (sub_add_cancel _ _).symm)) ((len_add_le n _ _).trans ((add_le_add a4 a3).trans ?_))
    linarith
  refine ⟨a1, a5, fun φ' us hφ' hus hu0 => ?_, fun x w hx he => ?_⟩
  · have e : φ' = φ := by
      funext t
      have := hφ' t
      rw [hp t] at this
      exact (Except.ok.inj (Except.ok.inj this)).symm
    subst e
    have := (key us hus hu0).2
    rwa [zero_add] at this
  · obtain ⟨χ, px, fx, cx, nx, sx⟩ := hx
    obtain ⟨ω, hsx, hdx⟩ := at_column (by rw [(run T).1.2.1, e0]; exact px) he
    rw [(run T).1.1] at hdx
    have hvx : ∀ i, value ω i = value χ i := fun i =>
      value_same hsx (keysUnique_of_wf fx.1) (keysUnique_of_wf (fits_same hsx fx).1) i
    refine column_bounded hM m (fits_same hsx fx) (moderate_same hsx (tame_moderate hn hk hs fx cx nx sx (bounded_mono (hy 0) hY)))
      ((run T).2.1 j hj) hdx a1 a5 ?_ (by simp only [hvx]; exact Real.sqrt_le_sqrt sx)
    have h3 : (T : ℝ) * (l * √s * Y) ≤ 2 ^ 52 * 2 ^ 151 := mul_le_mul T52 hD1 D0 (by positivity)
    refine (add_le_add_left (le_trans (le_of_eq (mul_assoc _ _ _)) (mul_le_mul_of_nonneg_left h3 (by norm_num))) 1).trans ?_
    norm_num

/-- The same for ISGD with any rate up to `2^100`: for `(12 k + 25) T ≤ 2^52` calls the length of the weights is at most
`T √l Y + 1`, whatever the features. -/
theorem C210_isgd (hM : M.rnd = binary64Format.rnd) (b : B) (m n k : Nat) (s l Y : ℝ) (lr : FP M) (hd : Space.dim b = .finite n)
    (hn : n ≤ 2 ^ 40) (hk : k ≤ 2 ^ 40) (hs : s ≤ 2 ^ 200) (hY : Y ≤ 2 ^ 100) (hlr : Is lr l) (l0 : 0 ≤ l) (l1 : l ≤ 2 ^ 100)
    (fas : Nat → VectorLFA B (ISGD (FP M)) (FP M)) (h0 : VectorLFA.vector b ⟨lr⟩ m = .ok (fas 0))
    (xs : Nat → I) (ys : Nat → List (FP M)) (hx : ∀ t, Tame n k s b (xs t)) (hm : ∀ t, (ys t).length = m) (j : Nat) (hj : j < m)
    (hy : ∀ t, Bounded Y (entry (ys t) j))
    (hr : ∀ t, CanUpdateAll (fas t) (xs t) (List.zipWith (· -. ·) (ys t)) (fas (t + 1))) (T : Nat) (hT : (12 * k + 25) * T ≤ 2 ^ 52) :
    (∀ i < n, Spec.Finite (entry ((fas T).weights.getD j []) i)) ∧
    len n (fun i => real (entry ((fas T).weights.getD j []) i)) ≤ T * (√l * Y) + 1 ∧
    (∀ (φ : Nat → Features (FP M)) (us : Nat → Nat → ℝ), (∀ t, Basis.project b (xs t) = .ok (.ok (φ t))) →
      ExactRun n (fun t => l / (1 + l * ∑ i ∈ Finset.range n, real (value (φ t) i) ^ 2)) (fun t i => real (value (φ t) i)) (fun t => real (entry (ys t) j)) us → (∀ i < n, us 0 i = 0) →
      len n (fun i => real (entry ((fas T).weights.getD j []) i) - us T i) ≤
        (12 * k + 25) * T * 2 ^ (-52 : ℤ) * (T * (√l / 2 * Y)) + T * 2 ^ (-499 : ℤ)) ∧
    ∀ (x : I) (v : FP M), Tame n k s b x → CanEvaluateAt (fas T) x j v → Bounded (2 * √s * (T * (√l * Y) + 1) + 1) v := by
  have Y0 : 0 ≤ Y := by
    obtain ⟨r, -, h⟩ := hy 0
    exact (abs_nonneg r).trans h
  choose φ hp hf hc hfin hsq using hx
  have s0 : 0 ≤ s := (Finset.sum_nonneg fun _ _ => sq_nonneg _).trans (hsq 0)
  have hmod : ∀ t, Moderate n k (φ t) (entry (ys t) j) := fun t => tame_moderate hn hk hs (hf t) (hc t) (hfin t) (hsq t) (bounded_mono (hy t) hY)
  have e0 : fas 0 = ⟨b, List.replicate m (List.replicate n Scalar.zero), ⟨lr⟩⟩ := by
    rw [(C59_shape b (⟨lr⟩ : ISGD (FP M)) m n hd).2] at h0
    exact (Except.ok.inj h0).symm
  have hlen : ∀ t, len n (fun i => real (value (φ t) i)) ≤ √s := fun t => Real.sqrt_le_sqrt (hsq t)
  have S0 : ∀ t, 0 ≤ ∑ i ∈ Finset.range n, real (value (φ t) i) ^ 2 := fun t => Finset.sum_nonneg fun _ _ => sq_nonneg _
  have hD : ∀ t, l / (1 + l * ∑ i ∈ Finset.range n, real (value (φ t) i) ^ 2) * len n (fun i => real (value (φ t) i)) * |real (entry (ys t) j)| ≤
      √l / 2 * Y := fun t => by
    obtain ⟨r, hr, h⟩ := hy t
    rw [is_real hr]
    refine mul_le_mul ?_ h (abs_nonneg _) (by positivity)
    rw [div_mul_eq_mul_div, div_le_iff₀ (by have := mul_nonneg l0 (S0 t); linarith), ← len_sq]
    have e1 : l = √l * √l := (Real.mul_self_sqrt l0).symm
    generalize len n (fun i => real (value (φ t) i)) = A
    have e2 := Real.sqrt_nonneg l
    generalize √l = q at *
    subst e1
    nlinarith [mul_nonneg e2 (sq_nonneg (1 - q * A))]
  have D0 : 0 ≤ √l / 2 * Y := by positivity
  have hls : √l / 2 ≤ 2 ^ 51 := by
    have : √l ≤ 2 ^ 50 := by
      refine Real.sqrt_le_iff.2 ⟨by positivity, ?_⟩
      rw [← pow_mul]
      exact l1
    linarith
  have hD1 : √l / 2 * Y ≤ 2 ^ 151 := by
    refine (mul_le_mul hls hY Y0 (by positivity)).trans (le_of_eq ?_)
    rw [← pow_add]
  have c0 : ∀ t, 0 ≤ l / (1 + l * ∑ i ∈ Finset.range n, real (value (φ t) i) ^ 2) := fun t => by
    have := mul_nonneg l0 (S0 t)
    positivity
  have h2' : ∀ t, l / (1 + l * ∑ i ∈ Finset.range n, real (value (φ t) i) ^ 2) * ∑ i ∈ Finset.range n, real (value (φ t) i) ^ 2 ≤ 2 :=
    fun t => by
      have := mul_nonneg l0 (S0 t)
      rw [div_mul_eq_mul_div, div_le_iff₀ (by linarith)]
      linarith
  have hcol : ∀ j < m, (fas 0).weights.getD j [] = List.replicate n Scalar.zero := fun j hj => by
    rw [e0]
    show (List.replicate m (List.replicate n Scalar.zero)).getD j [] = _
    rw [List.getD_eq_getElem?_getD, List.getElem?_replicate, if_pos hj]
    rfl
  have hz : ∀ i < n, entry ((fas 0).weights.getD j []) i = Scalar.zero := fun i hi => by
    rw [hcol j hj]
    exact entry_replicate n i
  have hφ : ∀ t, Basis.project (fas 0).basis (xs t) = .ok (.ok (φ t)) ∧ Fits n (φ t) := fun t => ⟨by rw [e0]; exact hp t, hf t⟩
  have run := can_trace C64_stateless.2 (fun o φ => o.computeLr φ) isgd_scaled hr
    (by rw [e0]; exact List.length_replicate ..) hm (fun j hj => by rw [hcol j hj]; exact List.length_replicate ..) hφ
  choose ψ v hsame hdot hstep using fun t => (run t).2.2 j hj
  have hval : ∀ t i, value (ψ t) i = value (φ t) i := fun t i =>
    value_same (hsame t) (keysUnique_of_wf (hf t).1) (keysUnique_of_wf (fits_same (hsame t) (hf t)).1) i
  have W0 : len n (fun i => real (entry ((fas 0).weights.getD j []) i)) = 0 := by
    rw [len_congr (g := fun _ => 0) fun i hi => by rw [hz i hi, is_real val_zero], len_const n 0 le_rfl, mul_zero]
  have key : ∀ us, ExactRun n (fun t => l / (1 + l * ∑ i ∈ Finset.range n, real (value (φ t) i) ^ 2)) (fun t i => real (value (φ t) i)) (fun t => real (entry (ys t) j)) us → (∀ i < n, us 0 i = 0) →
      (∀ i < n, Spec.Finite (entry ((fas T).weights.getD j []) i)) ∧ len n (fun i => real (entry ((fas T).weights.getD j []) i) - us T i) ≤
        (12 * k + 25) * T * 2 ^ (-52 : ℤ) * (0 + T * (√l / 2 * Y)) + T * 2 ^ (-499 : ℤ) := by
    intro us hus hu0
    choose qs hqs using fun t => dot_safe (denseOf_fits n fun i => real (value (φ t) i))
      (c := (List.range n).map (us t)) (by rw [List.length_map, List.length_range])
    obtain ⟨b1, -, b3, -⟩ := isgd_column hM m n k (fun t => ((fas t).weights.getD j [])) (fun t => (List.range n).map (us t))
      ⟨lr⟩ l (fun t => entry (ys t) j) v qs ψ (fun t => denseOf n fun i => real (value (φ t) i))
      (fun t => fits_same (hsame t) (hf t)) (fun t => denseOf_fits n _)
      (fun t i hi => by rw [denseOf_value _ hi, hval])
      (fun t => ⟨(run t).2.1 j hj, hdot t, by
        have := hstep t
        rw [e0] at this
        exact this⟩)
      (fun t => ⟨by rw [List.length_map, List.length_range], hqs t⟩)
      (fun t i hi => by
        rw [entry_map_range _ hi, entry_map_range _ hi, denseOf_inner, denseOf_value _ hi, denseOf_normSq]
        exact hus t i hi)
      (fun i hi => ⟨by rw [hz i hi]; exact bounded_zero (by positivity), by
        rw [entry_map_range _ hi, hu0 i hi, hz i hi, is_real val_zero]⟩) hlr l0 l1
      (fun t => moderate_same (hsame t) (hmod t)) (√l / 2 * Y)
      (fun t => by rw [denseOf_sqrt, denseOf_normSq]; exact hD t) (hD1.trans (pow_le_pow_right₀ (by norm_num) (by norm_num))) T hT
    refine ⟨b1, ?_⟩
    rw [W0, len_congr (n := n) (g := fun i => real (entry ((fas T).weights.getD j []) i) - us T i) fun i hi => by
      rw [entry_map_range _ hi]] at b3
    exact b3
  obtain ⟨a1, a2⟩ := key _ (exactWeights_run n (fun t => l / (1 + l * ∑ i ∈ Finset.range n, real (value (φ t) i) ^ 2)) (fun t i => real (value (φ t) i)) (fun t => real (entry (ys t) j)) fun _ => 0)
    fun _ _ => rfl
  have a3 := exactRun_le (exactWeights_run n (fun t => l / (1 + l * ∑ i ∈ Finset.range n, real (value (φ t) i) ^ 2)) (fun t i => real (value (φ t) i)) (fun t => real (entry (ys t) j)) fun _ => 0)
    (fun _ _ => rfl) c0 h2' hD T
  have hT' : ((12 * k + 25 : ℝ)) * T ≤ 2 ^ 52 := by exact_mod_cast hT
  have T52 : (T : ℝ) ≤ 2 ^ 52 := by
    have : (0 : ℝ) ≤ k * T := by positivity
    nlinarith [(Nat.cast_nonneg T : (0 : ℝ) ≤ T)]
  have a4 := shadow_le D0 hT' (η := 2 ^ (-499 : ℤ)) (by
    refine (mul_le_mul_of_nonneg_right T52 (by positivity)).trans ?_
    rw [← zpow_natCast (2 : ℝ), ← zpow_add₀ (by norm_num)]
    exact zpow_le_one_of_nonpos₀ (by norm_num) (by norm_num)) a2
  have a5 : len n (fun i => real (entry ((fas T).weights.getD j []) i)) ≤ T * (√l * Y) + 1 := by
    refine le_trans (le_of_eq (len_congr fun i _ => (sub_add_cancel _ _).symm)) ((len_add_le n _ _).trans ((add_le_add a4 a3).trans ?_))
    linarith
  refine ⟨a1, a5, fun φ' us hφ' hus hu0 => ?_, fun x w hx he => ?_⟩
  · have e : φ' = φ := by
      funext t
      have := hφ' t
      rw [hp t] at this
      exact (Except.ok.inj (Except.ok.inj this)).symm
    subst e
    have := (key us hus hu0).2
    rwa [zero_add] at this
  · obtain ⟨χ, px, fx, cx, nx, sx⟩ := hx
    obtain ⟨ω, hsx, hdx⟩ := at_column (by rw [(run T).1.2.1, e0]; exact px) he
    rw [(run T).1.1] at hdx
    have hvx : ∀ i, value ω i = value χ i := fun i =>
      value_same hsx (keysUnique_of_wf fx.1) (keysUnique_of_wf (fits_same hsx fx).1) i
    refine column_bounded hM m (fits_same hsx fx) (moderate_same hsx (tame_moderate hn hk hs fx cx nx sx (bounded_mono (hy 0) hY)))
      ((run T).2.1 j hj) hdx a1 a5 ?_ (by simp only [hvx]; exact Real.sqrt_le_sqrt sx)
    have h3 : (T : ℝ) * (√l / 2 * Y) ≤ 2 ^ 52 * 2 ^ 151 := mul_le_mul T52 hD1 D0 (by positivity)
    refine (add_le_add_left (le_trans (le_of_eq (by ring)) (mul_le_mul_of_nonneg_left h3 (by norm_num : (0 : ℝ) ≤ 2))) 1).trans ?_
    norm_num

/-- Such runs exist: neither the constructor nor any call panics or fails. -/
theorem C210_runs (b : B) (m n k : Nat) (s : ℝ) (lr : FP M) (hd : Space.dim b = .finite n)
    (xs : Nat → I) (ys : Nat → List (FP M)) (hx : ∀ t, Tame n k s b (xs t)) :
    (∃ fas : Nat → VectorLFA B (SGD (FP M)) (FP M), VectorLFA.vector b ⟨lr⟩ m = .ok (fas 0) ∧
      ∀ t, CanUpdateAll (fas t) (xs t) (List.zipWith (· -. ·) (ys t)) (fas (t + 1))) ∧
    ∃ fas : Nat → VectorLFA B (ISGD (FP M)) (FP M), VectorLFA.vector b ⟨lr⟩ m = .ok (fas 0) ∧
      ∀ t, CanUpdateAll (fas t) (xs t) (List.zipWith (· -. ·) (ys t)) (fas (t + 1)) := by
  have hx' : ∀ t, ∃ φ, Basis.project b (xs t) = .ok (.ok φ) ∧ Fits n φ := fun t => by
    obtain ⟨φ, h1, h2, -⟩ := hx t
    exact ⟨φ, h1, h2⟩
  have hc : ∀ c ∈ List.replicate m (List.replicate n (Scalar.zero : FP M)), c.length = n := fun c hc => by
    rw [List.eq_of_mem_replicate hc]
    exact List.length_replicate ..
  constructor
  · obtain ⟨fas, ps, hs, h0⟩ := vstream_any (O := SGD (FP M)) b xs ys hx' _ hc ⟨lr⟩ trivial
    exact ⟨fas, by rw [h0]; exact (C59_shape b _ m n hd).2, fun t => C209_update (hs.updates t)⟩
  · obtain ⟨fas, ps, hs, h0⟩ := vstream_any (O := ISGD (FP M)) b xs ys hx' _ hc ⟨lr⟩ trivial
    exact ⟨fas, by rw [h0]; exact (C59_shape b _ m n hd).2, fun t => C209_update (hs.updates t)⟩

end

/-- The hypotheses are met: one output for each of four actions over 16 tilings in 1024 cells, rate `1/16`, targets up to one. After a
million calls every weight is below `2^20`. -/
theorem C210_example (hM : M.rnd = binary64Format.rnd) {H : Type} [BuildHasher H] (b : TileCoding H) (h1 : b.nTilings = 16)
    (h2 : b.memorySize = 1024) (lr : FP M) (hl : Is lr (1 / 16)) (xs : Nat → List (FP M))
    (hx : ∀ t, ∃ φ : Features (FP M), Basis.project b (xs t) = .ok (.ok φ)) (ys : Nat → List (FP M)) (hm : ∀ t, (ys t).length = 4)
    (hy : ∀ t, ∀ j < 4, InUnit (entry (ys t) j)) :
    ∃ fas : Nat → VectorLFA (TileCoding H) (SGD (FP M)) (FP M), VectorLFA.vector b ⟨lr⟩ 4 = .ok (fas 0) ∧
      (∀ t, CanUpdateAll (fas t) (xs t) (List.zipWith (· -. ·) (ys t)) (fas (t + 1))) ∧
      ∀ j < 4, ∀ i < 1024, Bounded (2 ^ 20) (entry ((fas 1000000).weights.getD j []) i) := by
  have ht : ∀ t, Tame 1024 16 16 b (xs t) := fun t => by
    obtain ⟨φ, hp⟩ := hx t
    have := (C193_tile_coding b (xs t) φ hp).2
    rw [h1, h2] at this
    exact_mod_cast this
  obtain ⟨φ₀, hp₀⟩ := hx 0
  have hd : Space.dim b = .finite 1024 := by
    rw [← h2]
    exact (C193_tile_coding b (xs 0) φ₀ hp₀).1
  obtain ⟨⟨fas, f0, hf⟩, -⟩ := C210_runs b 4 1024 16 16 lr hd xs ys ht
  refine ⟨fas, f0, hf, fun j hj i hi => ?_⟩
  obtain ⟨a1, a2, -⟩ := C210_sgd hM b 4 1024 16 16 (1 / 16) 1 lr hd (by norm_num) (by norm_num) (by norm_num) (one_le_pow₀ (by norm_num)) hl
    (by norm_num) (by norm_num) (by norm_num) fas f0 xs ys ht hm j hj (fun t => hy t j hj) hf 1000000 (by norm_num)
  obtain ⟨r, hr⟩ := a1 i hi
  refine ⟨r, hr, ?_⟩
  have h3 := abs_le_len (fun i => real (entry ((fas 1000000).weights.getD j []) i)) hi
  simp only [is_real hr] at h3
  refine (h3.trans a2).trans ?_
  have : √(16 : ℝ) = 4 := by
    rw [show (16 : ℝ) = 4 ^ 2 by norm_num]
    exact Real.sqrt_sq (by norm_num)
  rw [this]
  norm_num

end Lfa

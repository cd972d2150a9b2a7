import Verif.Props.C188
import Verif.Props.C88
import Verif.Props.C89
import Verif.Props.C87
import Verif.Props.C30_C35
import Verif.Props.C59_C68
import Verif.Proofs.KernelValue

/-!
# C193: built-in approximators trained from scratch do not overflow

C177 bounds double-precision training when the features are moderate. Here the same from the constructor on, for the bases the crate
offers: what a basis must guarantee is `Tame`, each built-in basis with bounded features is tame, and stacking keeps tameness.
-/

set_option linter.unusedSectionVars false

namespace Lfa

open Spec Machine XReal

variable {M : Machine}

/-- At `x` the basis gives `n` features, at most `k` of them stored, all finite, the sum of their squares at most `s`. -/
def Spec.Tame {B I : Type} [Space B] [Basis B I (FP M)] (n k : Nat) (s : ℝ) (b : B) (x : I) : Prop :=
  ∃ φ : Features (FP M), Basis.project b x = .ok (.ok φ) ∧ Fits n φ ∧ storedCount φ ≤ k ∧ (∀ i a, Stored φ i a → Spec.Finite a) ∧
    ∑ i ∈ Finset.range n, real (value φ i) ^ 2 ≤ s

/-! ## Weights from the length of exact training -/

/-- Exact training from weights zero. -/
theorem exactRun_le {n : Nat} {c : Nat → ℝ} {g : Nat → Nat → ℝ} {y : Nat → ℝ} {us : Nat → Nat → ℝ} (h : ExactRun n c g y us)
    (h0 : ∀ i < n, us 0 i = 0) (c0 : ∀ t, 0 ≤ c t) (c2 : ∀ t, c t * ∑ i ∈ Finset.range n, g t i ^ 2 ≤ 2) {D : ℝ}
    (hD : ∀ t, c t * len n (g t) * |y t| ≤ D) (t : Nat) : len n (us t) ≤ t * D := by
  induction t with
  | zero =>
    rw [len_congr (g := fun _ => 0) h0, len_const n 0 le_rfl]
    simp
  | succ t ih =>
    have e : len n (us (t + 1)) = len n (fun i => (us t i - c t * (∑ j ∈ Finset.range n, g t j * us t j) * g t i) +
        c t * (y t * g t i)) := len_congr fun i hi => by rw [h t i hi]; ring
    rw [e]
    refine (len_add_le n _ _).trans ?_
    have h1 := exact_step n (us t) (g t) (c0 t) (c2 t)
    have h2 : len n (fun i => c t * (y t * g t i)) ≤ D := by
      rw [len_smul (c0 t), ← len_abs, len_congr (g := fun i => |y t| * |g t i|) (fun i _ => abs_mul _ _),
        len_smul (abs_nonneg _), len_abs]
      have := hD t
      linarith
    push_cast
    linarith

/-! ## Training -/

theorem tame_moderate {n k : Nat} {s : ℝ} {φ : Features (FP M)} {y : FP M} (hn : n ≤ 2 ^ 40) (hk : k ≤ 2 ^ 40) (hs : s ≤ 2 ^ 200)
    (hf : Fits n φ) (hc : storedCount φ ≤ k) (hfin : ∀ i a, Stored φ i a → Spec.Finite a)
    (hsq : ∑ i ∈ Finset.range n, real (value φ i) ^ 2 ≤ s) (hy : Bounded (2 ^ 100) y) : Moderate n k φ y := by
  refine ⟨hn, ⟨hc, hk⟩, fun i a ha => ?_, hy⟩
  obtain ⟨r, hr⟩ := hfin i a ha
  refine ⟨r, hr, ?_⟩
  have hi : i < n := by
    rw [← hf.2]
    cases φ with
    | dense da => exact (List.getElem?_eq_some_iff.1 ha).1
    | sparse sa => exact hf.1.2 _ ha
  have h1 := Finset.single_le_sum (f := fun i => real (value φ i) ^ 2) (fun j _ => sq_nonneg _) (Finset.mem_range.2 hi)
  simp only [value_of_stored (keysUnique_of_wf hf.1) ha, is_real hr] at h1
  refine abs_le_of_sq_le_sq ?_ (by positivity)
  rw [← pow_mul]
  exact h1.trans (hsq.trans hs)

/-- A prediction from the length of the weights. -/
theorem eval_bounded (hM : M.rnd = binary64Format.rnd) {n k : Nat} {φ : Features (FP M)} {y : FP M} (hφ : Fits n φ)
    (hmod : Moderate n k φ y) {w : List (FP M)} (hw : w.length = n) {v : FP M} (hv : φ.dot w = .ok v)
    (hf : ∀ i < n, Spec.Finite (entry w i)) {N A : ℝ} (h1 : len n (fun i => real (entry w i)) ≤ N) (hN : N ≤ 2 ^ 252)
    (hA : len n (fun i => real (value φ i)) ≤ A) : Bounded (2 * A * N + 1) v := by
  obtain ⟨z, hz, -⟩ := dotColumn_bounded hM 1 hφ hw (by rw [dotColumn_one]; exact hv) (a := 100) (b := 252) (by norm_num) hmod.features
    (fun i hi => by
      obtain ⟨r, hr⟩ := hf i hi
      refine ⟨r, hr, le_trans ?_ (h1.trans hN)⟩
      have := abs_le_len (fun i => real (entry w i)) hi
      rwa [is_real hr] at this) (hmod.count.1.trans (hmod.count.2.trans (by norm_num)))
  refine ⟨z, hz, ?_⟩
  have e1 : |z - exactDot φ w| ≤ predictionError φ w := dot_err hM hφ hw hv hz
  have e2 := predictionError_le hφ w hmod.count.1 hmod.count.2
  have e3 := count_tiny hmod.count.2
  have e4 : (2 : ℝ) ^ (-1034 : ℤ) ≤ 1 := zpow_le_one_of_nonpos₀ (by norm_num) (by norm_num)
  have hku := length_roundoff' hmod.count.2
  have hu := roundoff_pos
  have k0 : (0 : ℝ) ≤ k := k.cast_nonneg
  have e5 : |exactDot φ w| ≤ len n (fun i => real (value φ i)) * len n (fun i => real (entry w i)) := by
    unfold exactDot
    rw [hφ.2]
    exact abs_sum_mul_le_len n _ _
  have A0 := len_nonneg n fun i => real (value φ i)
  have N0 := len_nonneg n fun i => real (entry w i)
  have e6 : len n (fun i => real (value φ i)) * len n (fun i => real (entry w i)) ≤ A * N :=
    mul_le_mul hA h1 N0 (A0.trans hA)
  have e7 : 2 * k * roundoff * (len n (fun i => real (value φ i)) * len n (fun i => real (entry w i))) ≤
      1 * (len n (fun i => real (value φ i)) * len n (fun i => real (entry w i))) :=
    mul_le_mul_of_nonneg_right (by linarith) (mul_nonneg A0 N0)
  have e8 := abs_sub_abs_le_abs_sub z (exactDot φ w)
  linarith

/-- The distance from exact training, in terms of `T D`. -/
theorem shadow_le {T : Nat} {D a : ℝ} (D0 : 0 ≤ D) (hT : a * T ≤ 2 ^ 52) {η E : ℝ} (hη : T * η ≤ 1)
    (hE : E ≤ a * T * 2 ^ (-52 : ℤ) * (0 + T * D) + T * η) : E ≤ T * D + 1 := by
  have h1 : a * T * 2 ^ (-52 : ℤ) ≤ 1 := by
    refine (mul_le_mul_of_nonneg_right hT (by positivity)).trans (le_of_eq ?_)
    norm_num
  have h2 := mul_le_mul_of_nonneg_right h1 (by positivity : 0 ≤ 0 + T * D)
  linarith

section
variable {B I : Type} [Space B] [Basis B I (FP M)]

/-- SGD from the constructor on, on a basis that is tame at every input, each hash map iterating in any order at each call. With
`l s ≤ 2` and targets up to `Y ≤ 2^100`, for `(8 k + 11) T ≤ 2^52` calls: all weights are finite, their length is at most
`2 T l √s Y + 1`, they are near exact training, and whatever `evaluate` can return at a tame input is finite and at most
`2 √s (2 T l √s Y + 1) + 1`. -/
theorem C193_sgd (hM : M.rnd = binary64Format.rnd) (b : B) (n k : Nat) (s l Y : ℝ) (lr : FP M) (hd : Space.dim b = .finite n)
    (hn : n ≤ 2 ^ 40) (hk : k ≤ 2 ^ 40) (hs : s ≤ 2 ^ 200) (hY : Y ≤ 2 ^ 100) (hlr : Is lr l) (l0 : 0 ≤ l) (l1 : l ≤ 2 ^ 100)
    (h2 : l * s ≤ 2) (fas : Nat → ScalarLFA B (SGD (FP M)) (FP M)) (h0 : ScalarLFA.scalar b ⟨lr⟩ = .ok (fas 0))
    (xs : Nat → I) (ys : Nat → FP M) (hx : ∀ t, Tame n k s b (xs t)) (hy : ∀ t, Bounded Y (ys t))
    (hr : ∀ t, CanUpdateWith (fas t) (xs t) (fun p => ys t -. p) (fas (t + 1))) (T : Nat) (hT : (8 * k + 11) * T ≤ 2 ^ 52) :
    (∀ i < n, Spec.Finite (entry (fas T).weights i)) ∧
    len n (fun i => real (entry (fas T).weights i)) ≤ 2 * T * (l * √s * Y) + 1 ∧
    (∀ (φ : Nat → Features (FP M)) (us : Nat → Nat → ℝ), (∀ t, Basis.project b (xs t) = .ok (.ok (φ t))) →
      ExactRun n (fun _ => l) (fun t i => real (value (φ t) i)) (fun t => real (ys t)) us → (∀ i < n, us 0 i = 0) →
      len n (fun i => real (entry (fas T).weights i) - us T i) ≤
        (8 * k + 11) * T * 2 ^ (-52 : ℤ) * (T * (l * √s * Y)) + T * 2 ^ (-799 : ℤ)) ∧
    ∀ (x : I) (v : FP M), Tame n k s b x → CanEvaluate (fas T) x v → Bounded (2 * √s * (2 * T * (l * √s * Y) + 1) + 1) v := by
  have Y0 : 0 ≤ Y := by
    obtain ⟨r, -, h⟩ := hy 0
    exact (abs_nonneg r).trans h
  choose φ hp hf hc hfin hsq using hx
  have s0 : 0 ≤ s := (Finset.sum_nonneg fun _ _ => sq_nonneg _).trans (hsq 0)
  have hmod : ∀ t, Moderate n k (φ t) (ys t) := fun t => tame_moderate hn hk hs (hf t) (hc t) (hfin t) (hsq t) (bounded_mono (hy t) hY)
  have e0 : fas 0 = ⟨b, List.replicate n Scalar.zero, ⟨lr⟩⟩ := by
    rw [(C59_shape b (⟨lr⟩ : SGD (FP M)) 1 n hd).1] at h0
    exact (Except.ok.inj h0).symm
  have hlen : ∀ t, len n (fun i => real (value (φ t) i)) ≤ √s := fun t => Real.sqrt_le_sqrt (hsq t)
  have hD : ∀ t, l * len n (fun i => real (value (φ t) i)) * |real (ys t)| ≤ l * √s * Y := fun t => by
    obtain ⟨r, hr, h⟩ := hy t
    rw [is_real hr]
    exact mul_le_mul (mul_le_mul_of_nonneg_left (hlen t) l0) h (abs_nonneg _) (by positivity)
  have D0 : 0 ≤ l * √s * Y := by positivity
  have hls : l * √s ≤ 2 ^ 51 := by
    refine abs_le_of_sq_le_sq' ?_ (by positivity) |>.2
    rw [mul_pow, Real.sq_sqrt s0, ← pow_mul]
    have h3 := mul_le_mul_of_nonneg_left h2 l0
    have : (2 : ℝ) ^ (51 * 2) = 2 * 2 * 2 ^ 100 := by norm_num
    rw [this]
    have h4 : (0 : ℝ) < 2 ^ 100 := by positivity
    nlinarith
  have hD1 : l * √s * Y ≤ 2 ^ 151 := by
    refine (mul_le_mul hls hY Y0 (by positivity)).trans (le_of_eq ?_)
    rw [← pow_add]
  have h2' : ∀ t, l * ∑ i ∈ Finset.range n, real (value (φ t) i) ^ 2 ≤ 2 := fun t =>
    (mul_le_mul_of_nonneg_left (hsq t) l0).trans h2
  have hz : ∀ i < n, entry (fas 0).weights i = Scalar.zero := fun i hi => by
    rw [e0]
    exact entry_replicate n i
  have hφ : ∀ t, Basis.project (fas 0).basis (xs t) = .ok (.ok (φ t)) ∧ Fits n (φ t) := fun t => ⟨by rw [e0]; exact hp t, hf t⟩
  have run := sgd_any_trace hr hφ (by rw [e0]; exact List.length_replicate ..)
  choose ψ v hsame hdot hstep using fun t => (run t).2
  have hval : ∀ t i, value (ψ t) i = value (φ t) i := fun t i =>
    value_same (hsame t) (keysUnique_of_wf (hf t).1) (keysUnique_of_wf (fits_same (hsame t) (hf t)).1) i
  have W0 : len n (fun i => real (entry (fas 0).weights i)) = 0 := by
    rw [len_congr (g := fun _ => 0) fun i hi => by rw [hz i hi, is_real val_zero], len_const n 0 le_rfl, mul_zero]
  have key : ∀ us, ExactRun n (fun _ => l) (fun t i => real (value (φ t) i)) (fun t => real (ys t)) us → (∀ i < n, us 0 i = 0) →
      (∀ i < n, Spec.Finite (entry (fas T).weights i)) ∧ len n (fun i => real (entry (fas T).weights i) - us T i) ≤
        (8 * k + 11) * T * 2 ^ (-52 : ℤ) * (0 + T * (l * √s * Y)) + T * 2 ^ (-799 : ℤ) := by
    intro us hus hu0
    choose qs hqs using fun t => dot_safe (denseOf_fits n fun i => real (value (φ t) i))
      (c := (List.range n).map (us t)) (by rw [List.length_map, List.length_range])
    obtain ⟨b1, -, b3, -⟩ := sgd_column hM 1 n k (fun t => (fas t).weights) (fun t => (List.range n).map (us t))
      lr l ys v qs ψ (fun t => denseOf n fun i => real (value (φ t) i))
      (fun t => fits_same (hsame t) (hf t)) (fun t => denseOf_fits n _)
      (fun t i hi => by rw [denseOf_value _ hi, hval])
      (fun t => ⟨(run t).1.2.2, by rw [dotColumn_one]; exact hdot t, by
        have := hstep t
        rw [e0] at this
        exact this⟩)
      (fun t => ⟨by rw [List.length_map, List.length_range], hqs t⟩)
      (fun t i hi => by
        rw [entry_map_range _ hi, entry_map_range _ hi, denseOf_inner, denseOf_value _ hi]
        exact hus t i hi)
      (fun i hi => ⟨by rw [hz i hi]; exact bounded_zero (by positivity), by
        rw [entry_map_range _ hi, hu0 i hi, hz i hi, is_real val_zero]⟩) hlr l0 l1
      (fun t => by rw [denseOf_normSq]; exact h2' t) (fun t => moderate_same (hsame t) (hmod t)) (l * √s * Y)
      (fun t => by rw [denseOf_sqrt]; exact hD t) (hD1.trans (pow_le_pow_right₀ (by norm_num) (by norm_num))) T hT
    refine ⟨b1, ?_⟩
    rw [W0, len_congr (n := n) (g := fun i => real (entry (fas T).weights i) - us T i) fun i hi => by
      rw [entry_map_range _ hi]] at b3
    exact b3
  obtain ⟨a1, a2⟩ := key _ (exactWeights_run n (fun _ => l) (fun t i => real (value (φ t) i)) (fun t => real (ys t)) fun _ => 0)
    fun _ _ => rfl
  have a3 := exactRun_le (exactWeights_run n (fun _ => l) (fun t i => real (value (φ t) i)) (fun t => real (ys t)) fun _ => 0)
    (fun _ _ => rfl) (fun _ => l0) h2' hD T
  have hT' : ((8 * k + 11 : ℝ)) * T ≤ 2 ^ 52 := by exact_mod_cast hT
  have T52 : (T : ℝ) ≤ 2 ^ 52 := by
    have : (0 : ℝ) ≤ k * T := by positivity
    nlinarith [(Nat.cast_nonneg T : (0 : ℝ) ≤ T)]
  have a4 := shadow_le D0 hT' (η := 2 ^ (-799 : ℤ)) (by
    refine (mul_le_mul_of_nonneg_right T52 (by positivity)).trans ?_
    rw [← zpow_natCast (2 : ℝ), ← zpow_add₀ (by norm_num)]
    exact zpow_le_one_of_nonpos₀ (by norm_num) (by norm_num)) a2
  have a5 : len n (fun i => real (entry (fas T).weights i)) ≤ 2 * T * (l * √s * Y) + 1 := by
    refine le_trans (le_of_eq (len_congr fun i _ => (sub_add_cancel _ _).symm)) ((len_add_le n _ _).trans ((add_le_add a4 a3).trans ?_))
    linarith
  refine ⟨a1, a5, fun φ' us hφ' hus hu0 => ?_, fun x w hx he => ?_⟩
  · have e : φ' = φ := by
      funext t
      have := hφ' t
      rw [hp t] at this
      exact (Except.ok.inj (Except.ok.inj this)).symm
    subst e
    have := (key us hus hu0).2
    rwa [zero_add] at this
  · obtain ⟨χ, px, fx, cx, nx, sx⟩ := hx
    obtain ⟨χ', ω, hp', hsx, hdx⟩ := he
    rw [(run T).1.1, e0, px] at hp'
    cases hp'
    have hvx : ∀ i, value ω i = value χ i := fun i =>
      value_same hsx (keysUnique_of_wf fx.1) (keysUnique_of_wf (fits_same hsx fx).1) i
    refine eval_bounded hM (fits_same hsx fx) (moderate_same hsx (tame_moderate hn hk hs fx cx nx sx (bounded_mono (hy 0) hY)))
      (run T).1.2.2 hdx a1 a5 ?_ (by simp only [hvx]; exact Real.sqrt_le_sqrt sx)
    have h3 : (T : ℝ) * (l * √s * Y) ≤ 2 ^ 52 * 2 ^ 151 := mul_le_mul T52 hD1 D0 (by positivity)
    refine (add_le_add_left (le_trans (le_of_eq (mul_assoc _ _ _)) (mul_le_mul_of_nonneg_left h3 (by norm_num))) 1).trans ?_
    norm_num

/-- The same for ISGD with any rate up to `2^100`: for `(12 k + 25) T ≤ 2^52` calls the length of the weights is at most
`T √l Y + 1`, whatever the features. -/
theorem C193_isgd (hM : M.rnd = binary64Format.rnd) (b : B) (n k : Nat) (s l Y : ℝ) (lr : FP M) (hd : Space.dim b = .finite n)
    (hn : n ≤ 2 ^ 40) (hk : k ≤ 2 ^ 40) (hs : s ≤ 2 ^ 200) (hY : Y ≤ 2 ^ 100) (hlr : Is lr l) (l0 : 0 ≤ l) (l1 : l ≤ 2 ^ 100)
    (fas : Nat → ScalarLFA B (ISGD (FP M)) (FP M)) (h0 : ScalarLFA.scalar b ⟨lr⟩ = .ok (fas 0))
    (xs : Nat → I) (ys : Nat → FP M) (hx : ∀ t, Tame n k s b (xs t)) (hy : ∀ t, Bounded Y (ys t))
    (hr : ∀ t, CanUpdateWith (fas t) (xs t) (fun p => ys t -. p) (fas (t + 1))) (T : Nat) (hT : (12 * k + 25) * T ≤ 2 ^ 52) :
    (∀ i < n, Spec.Finite (entry (fas T).weights i)) ∧
    len n (fun i => real (entry (fas T).weights i)) ≤ T * (√l * Y) + 1 ∧
    (∀ (φ : Nat → Features (FP M)) (us : Nat → Nat → ℝ), (∀ t, Basis.project b (xs t) = .ok (.ok (φ t))) →
      ExactRun n (fun t => l / (1 + l * ∑ i ∈ Finset.range n, real (value (φ t) i) ^ 2)) (fun t i => real (value (φ t) i)) (fun t => real (ys t)) us → (∀ i < n, us 0 i = 0) →
      len n (fun i => real (entry (fas T).weights i) - us T i) ≤
        (12 * k + 25) * T * 2 ^ (-52 : ℤ) * (T * (√l / 2 * Y)) + T * 2 ^ (-499 : ℤ)) ∧
    ∀ (x : I) (v : FP M), Tame n k s b x → CanEvaluate (fas T) x v → Bounded (2 * √s * (T * (√l * Y) + 1) + 1) v := by
  have Y0 : 0 ≤ Y := by
    obtain ⟨r, -, h⟩ := hy 0
    exact (abs_nonneg r).trans h
  choose φ hp hf hc hfin hsq using hx
  have s0 : 0 ≤ s := (Finset.sum_nonneg fun _ _ => sq_nonneg _).trans (hsq 0)
  have hmod : ∀ t, Moderate n k (φ t) (ys t) := fun t => tame_moderate hn hk hs (hf t) (hc t) (hfin t) (hsq t) (bounded_mono (hy t) hY)
  have e0 : fas 0 = ⟨b, List.replicate n Scalar.zero, ⟨lr⟩⟩ := by
    rw [(C59_shape b (⟨lr⟩ : ISGD (FP M)) 1 n hd).1] at h0
    exact (Except.ok.inj h0).symm
  have hlen : ∀ t, len n (fun i => real (value (φ t) i)) ≤ √s := fun t => Real.sqrt_le_sqrt (hsq t)
  have S0 : ∀ t, 0 ≤ ∑ i ∈ Finset.range n, real (value (φ t) i) ^ 2 := fun t => Finset.sum_nonneg fun _ _ => sq_nonneg _
  have hD : ∀ t, l / (1 + l * ∑ i ∈ Finset.range n, real (value (φ t) i) ^ 2) * len n (fun i => real (value (φ t) i)) * |real (ys t)| ≤
      √l / 2 * Y := fun t => by
    obtain ⟨r, hr, h⟩ := hy t
    rw [is_real hr]
    refine mul_le_mul ?_ h (abs_nonneg _) (by positivity)
    rw [div_mul_eq_mul_div, div_le_iff₀ (by have := mul_nonneg l0 (S0 t); linarith), ← len_sq]
    have e1 : l = √l * √l := (Real.mul_self_sqrt l0).symm
    generalize len n (fun i => real (value (φ t) i)) = A
    have e2 := Real.sqrt_nonneg l
    generalize √l = q at *
    subst e1
    nlinarith [mul_nonneg e2 (sq_nonneg (1 - q * A))]
  have D0 : 0 ≤ √l / 2 * Y := by positivity
  have hls : √l / 2 ≤ 2 ^ 51 := by
    have : √l ≤ 2 ^ 50 := by
      refine Real.sqrt_le_iff.2 ⟨by positivity, ?_⟩
      rw [← pow_mul]
      exact l1
    linarith
  have hD1 : √l / 2 * Y ≤ 2 ^ 151 := by
    refine (mul_le_mul hls hY Y0 (by positivity)).trans (le_of_eq ?_)
    rw [← pow_add]
  have c0 : ∀ t, 0 ≤ l / (1 + l * ∑ i ∈ Finset.range n, real (value (φ t) i) ^ 2) := fun t => by
    have := mul_nonneg l0 (S0 t)
    positivity
  have h2' : ∀ t, l / (1 + l * ∑ i ∈ Finset.range n, real (value (φ t) i) ^ 2) * ∑ i ∈ Finset.range n, real (value (φ t) i) ^ 2 ≤ 2 :=
    fun t => by
      have := mul_nonneg l0 (S0 t)
      rw [div_mul_eq_mul_div, div_le_iff₀ (by linarith)]
      linarith
  have hz : ∀ i < n, entry (fas 0).weights i = Scalar.zero := fun i hi => by
    rw [e0]
    exact entry_replicate n i
  have hφ : ∀ t, Basis.project (fas 0).basis (xs t) = .ok (.ok (φ t)) ∧ Fits n (φ t) := fun t => ⟨by rw [e0]; exact hp t, hf t⟩
  have run := isgd_any_trace hr hφ (by rw [e0]; exact List.length_replicate ..)
  choose ψ v hsame hdot hstep using fun t => (run t).2
  have hval : ∀ t i, value (ψ t) i = value (φ t) i := fun t i =>
    value_same (hsame t) (keysUnique_of_wf (hf t).1) (keysUnique_of_wf (fits_same (hsame t) (hf t)).1) i
  have W0 : len n (fun i => real (entry (fas 0).weights i)) = 0 := by
    rw [len_congr (g := fun _ => 0) fun i hi => by rw [hz i hi, is_real val_zero], len_const n 0 le_rfl, mul_zero]
  have key : ∀ us, ExactRun n (fun t => l / (1 + l * ∑ i ∈ Finset.range n, real (value (φ t) i) ^ 2)) (fun t i => real (value (φ t) i)) (fun t => real (ys t)) us → (∀ i < n, us 0 i = 0) →
      (∀ i < n, Spec.Finite (entry (fas T).weights i)) ∧ len n (fun i => real (entry (fas T).weights i) - us T i) ≤
        (12 * k + 25) * T * 2 ^ (-52 : ℤ) * (0 + T * (√l / 2 * Y)) + T * 2 ^ (-499 : ℤ) := by
    intro us hus hu0
    choose qs hqs using fun t => dot_safe (denseOf_fits n fun i => real (value (φ t) i))
      (c := (List.range n).map (us t)) (by rw [List.length_map, List.length_range])
    obtain ⟨b1, -, b3, -⟩ := isgd_column hM 1 n k (fun t => (fas t).weights) (fun t => (List.range n).map (us t))
      ⟨lr⟩ l ys v qs ψ (fun t => denseOf n fun i => real (value (φ t) i))
      (fun t => fits_same (hsame t) (hf t)) (fun t => denseOf_fits n _)
      (fun t i hi => by rw [denseOf_value _ hi, hval])
      (fun t => ⟨(run t).1.2.2, by rw [dotColumn_one]; exact hdot t, by
        have := hstep t
        rw [e0] at this
        exact this⟩)
      (fun t => ⟨by rw [List.length_map, List.length_range], hqs t⟩)
      (fun t i hi => by
        rw [entry_map_range _ hi, entry_map_range _ hi, denseOf_inner, denseOf_value _ hi, denseOf_normSq]
        exact hus t i hi)
      (fun i hi => ⟨by rw [hz i hi]; exact bounded_zero (by positivity), by
        rw [entry_map_range _ hi, hu0 i hi, hz i hi, is_real val_zero]⟩) hlr l0 l1
      (fun t => moderate_same (hsame t) (hmod t)) (√l / 2 * Y)
      (fun t => by rw [denseOf_sqrt, denseOf_normSq]; exact hD t) (hD1.trans (pow_le_pow_right₀ (by norm_num) (by norm_num))) T hT
    refine ⟨b1, ?_⟩
    rw [W0, len_congr (n := n) (g := fun i => real (entry (fas T).weights i) - us T i) fun i hi => by
      rw [entry_map_range _ hi]] at b3
    exact b3
  obtain ⟨a1, a2⟩ := key _ (exactWeights_run n (fun t => l / (1 + l * ∑ i ∈ Finset.range n, real (value (φ t) i) ^ 2)) (fun t i => real (value (φ t) i)) (fun t => real (ys t)) fun _ => 0)
    fun _ _ => rfl
  have a3 := exactRun_le (exactWeights_run n (fun t => l / (1 + l * ∑ i ∈ Finset.range n, real (value (φ t) i) ^ 2)) (fun t i => real (value (φ t) i)) (fun t => real (ys t)) fun _ => 0)
    (fun _ _ => rfl) c0 h2' hD T
  have hT' : ((12 * k + 25 : ℝ)) * T ≤ 2 ^ 52 := by exact_mod_cast hT
  have T52 : (T : ℝ) ≤ 2 ^ 52 := by
    have : (0 : ℝ) ≤ k * T := by positivity
    nlinarith [(Nat.cast_nonneg T : (0 : ℝ) ≤ T)]
  have a4 := shadow_le D0 hT' (η := 2 ^ (-499 : ℤ)) (by
    refine (mul_le_mul_of_nonneg_right T52 (by positivity)).trans ?_
    rw [← zpow_natCast (2 : ℝ), ← zpow_add₀ (by norm_num)]
    exact zpow_le_one_of_nonpos₀ (by norm_num) (by norm_num)) a2
  have a5 : len n (fun i => real (entry (fas T).weights i)) ≤ T * (√l * Y) + 1 := by
    refine le_trans (le_of_eq (len_congr fun i _ => (sub_add_cancel _ _).symm)) ((len_add_le n _ _).trans ((add_le_add a4 a3).trans ?_))
    linarith
  refine ⟨a1, a5, fun φ' us hφ' hus hu0 => ?_, fun x w hx he => ?_⟩
  · have e : φ' = φ := by
      funext t
      have := hφ' t
      rw [hp t] at this
      exact (Except.ok.inj (Except.ok.inj this)).symm
    subst e
    have := (key us hus hu0).2
    rwa [zero_add] at this
  · obtain ⟨χ, px, fx, cx, nx, sx⟩ := hx
    obtain ⟨χ', ω, hp', hsx, hdx⟩ := he
    rw [(run T).1.1, e0, px] at hp'
    cases hp'
    have hvx : ∀ i, value ω i = value χ i := fun i =>
      value_same hsx (keysUnique_of_wf fx.1) (keysUnique_of_wf (fits_same hsx fx).1) i
    refine eval_bounded hM (fits_same hsx fx) (moderate_same hsx (tame_moderate hn hk hs fx cx nx sx (bounded_mono (hy 0) hY)))
      (run T).1.2.2 hdx a1 a5 ?_ (by simp only [hvx]; exact Real.sqrt_le_sqrt sx)
    have h3 : (T : ℝ) * (√l / 2 * Y) ≤ 2 ^ 52 * 2 ^ 151 := mul_le_mul T52 hD1 D0 (by positivity)
    refine (add_le_add_left (le_trans (le_of_eq (by ring)) (mul_le_mul_of_nonneg_left h3 (by norm_num : (0 : ℝ) ≤ 2))) 1).trans ?_
    norm_num

end

/-! ## Tame bases -/

theorem squares_le {n k : Nat} {φ : Features (FP M)} (hf : Fits n φ) (hk : storedCount φ ≤ k) {c : ℝ} (c0 : 0 ≤ c)
    (h : ∀ i a, Stored φ i a → Bounded c a) : ∑ i ∈ Finset.range n, real (value φ i) ^ 2 ≤ k * c ^ 2 := by
  classical
  have e : ∑ i ∈ Finset.range n, real (value φ i) ^ 2 = ∑ i ∈ (Finset.range n).filter (Active φ), real (value φ i) ^ 2 := by
    rw [Finset.sum_filter]
    refine Finset.sum_congr rfl fun i _ => ?_
    by_cases ha : Active φ i
    · rw [if_pos ha]
    · rw [if_neg ha, value_inactive hf ha, is_real val_zero]
      norm_num
  have hcard : ((Finset.range n).filter (Active φ)).card ≤ storedCount φ := by
    cases φ with
    | dense da =>
      refine (Finset.card_filter_le _ _).trans (le_of_eq ?_)
      rw [Finset.card_range, ← hf.2]
      rfl
    | sparse sa =>
      refine le_trans (Finset.card_le_card (t := (sa.activations.map Prod.fst).toFinset) fun i hi => ?_)
        ((List.toFinset_card_le _).trans (le_of_eq (List.length_map ..)))
      obtain ⟨a, ha⟩ := (Finset.mem_filter.1 hi).2
      exact List.mem_toFinset.2 (List.mem_map.2 ⟨_, ha, rfl⟩)
  rw [e]
  refine (Finset.sum_le_card_nsmul _ _ (c ^ 2) fun i _ => ?_).trans ?_
  · exact sq_le_sq' (by linarith [neg_abs_le (real (value φ i)), value_le hf c0 h i]) ((le_abs_self _).trans (value_le hf c0 h i))
  · rw [nsmul_eq_mul]
    exact mul_le_mul_of_nonneg_right (by exact_mod_cast hcard.trans hk) (sq_nonneg c)

section
variable {B I : Type} [Space B] [Basis B I (FP M)]

theorem tame_of_bounded {b : B} {x : I} {φ : Features (FP M)} {n k : Nat} {c : ℝ} (hp : Basis.project b x = .ok (.ok φ))
    (hf : Fits n φ) (hk : storedCount φ ≤ k) (c0 : 0 ≤ c) (h : ∀ i a, Stored φ i a → Bounded c a) : Tame n k (k * c ^ 2) b x :=
  ⟨φ, hp, hf, hk, fun i a ha => finite_of_bounded (h i a ha), squares_le hf hk c0 h⟩

theorem tame_dense {b : B} {x : I} {fs : List (FP M)} {c : ℝ} (hp : Basis.project b x = .ok (.ok (.dense fs))) {n : Nat}
    (hn : fs.length = n) (c0 : 0 ≤ c) (h : ∀ f ∈ fs, Bounded c f) : Tame n n (n * c ^ 2) b x := by
  subst hn
  exact tame_of_bounded hp ⟨trivial, rfl⟩ le_rfl c0 fun i a ha => h a (List.mem_of_getElem? ha)

end

/-- Tile coding, at every input that does not panic — also at infinities and NaN. -/
theorem C193_tile_coding {H : Type} [BuildHasher H] (b : TileCoding H) (x : List (FP M)) (φ : Features (FP M))
    (h : Basis.project b x = .ok (.ok φ)) : Space.dim b = .finite b.memorySize ∧ Tame b.memorySize b.nTilings b.nTilings b x := by
  obtain ⟨h1, h2, h3, h4, h5, -⟩ := C30_activity b x φ h
  have := tame_of_bounded (k := b.nTilings) (c := 1) h ⟨h3, h2⟩ (by
    cases φ with
    | dense da => cases h1
    | sparse sa => exact h5) (by norm_num) fun i a ha => by
    rw [(h4 i a ha).1]
    exact ⟨1, val_one, by norm_num⟩
  rw [one_pow, mul_one] at this
  exact ⟨rfl, this⟩

/-- A uniform grid, at every non-empty input — also at infinities and NaN. -/
theorem C193_uniform_grid (ds : List (Equipartition (FP M))) (h : ∀ d ∈ ds, d.Lawful) (hds : ds ≠ []) (x : List (FP M)) (hx : x ≠ []) :
    ∃ n, Space.dim (UniformGrid.new ds) = .finite n ∧ Tame n 1 1 (UniformGrid.new ds) x := by
  obtain ⟨j, hj, hp, hd, -⟩ := C33_one_active ds h hds x hx
  have := tame_of_bounded (k := 1) (c := 1) hp (n := (ds.map Equipartition.nPartitions).prod) ⟨⟨by simp, by
    rintro e he
    rw [List.mem_singleton.1 he]
    exact hj⟩, rfl⟩ le_rfl (by norm_num) fun i a ha => by
      obtain ⟨-, rfl⟩ := Prod.mk.inj (List.mem_singleton.1 ha)
      exact ⟨1, val_one, by norm_num⟩
  rw [one_pow, mul_one, Nat.cast_one] at this
  exact ⟨_, hd, this⟩

/-- Polynomials on `[-1, 1]`. -/
theorem C193_polynomial (b : Polynomial) (x : List (FP M)) (hx : ∀ a ∈ x, InUnit a) :
    Space.dim b = .finite b.exponents.length ∧ Tame b.exponents.length b.exponents.length b.exponents.length b x := by
  obtain ⟨fs, h1, h2, -⟩ := C88_polynomial b x
  have := tame_dense h1 (n := b.exponents.length) (c := 1) (by cases h1; exact List.length_map ..) (by norm_num) (h2 hx)
  rw [one_pow, mul_one] at this
  exact ⟨rfl, this⟩

/-- Fourier features within their limits. -/
theorem C193_fourier (hM : M.rnd = binary64Format.rnd) (p : Nat) (limits : List (FP M × FP M)) (x : List (FP M))
    (hN : 4 * p * limits.length ≤ 2 ^ 53) (hlen : x.length = limits.length)
    (h : ∀ (i : Nat) (a lo hi : FP M), x[i]? = some a → limits[i]? = some (lo, hi) → Within a lo hi) :
    ∃ n, Space.dim (Fourier.new p limits) = .finite n ∧ Tame n n n (Fourier.new p limits) x := by
  obtain ⟨fs, h1, h2⟩ := C88_fourier p limits x (fun k hk => C88_binary64 hM k (hk.trans hN)) hlen h
  have := tame_dense h1 (n := (Fourier.new p limits).coefficients.length) (c := 1)
    (by cases h1; exact List.length_map ..) (by norm_num) h2
  rw [one_pow, mul_one] at this
  exact ⟨_, rfl, this⟩

theorem bounded_of_le {a v : FP M} {r : ℝ} (hv : Is v r) (h0 : NonNeg a) (h1 : Le a v) : Bounded r a := by
  unfold NonNeg at h0
  unfold Le at h1
  rw [hv] at h1
  rcases h : a.1 with _ | _ | _ | z <;> rw [h] at h0 h1
  · exact absurd h0 id
  · exact absurd h0 id
  · exact absurd h1 id
  · have h0 : 0 ≤ z := h0
    have h1 : z ≤ r := h1
    exact ⟨z, h, by rwa [abs_of_nonneg h0]⟩

/-- A kernel basis whose kernels lie between 0 and `v`. -/
theorem C193_kernels {κ : Type} [SliceKernel κ (FP M)] (b : KernelBasis κ (FP M)) (x : List (FP M)) (v : ℝ) (v0 : 0 ≤ v)
    (h : ∀ p ∈ b.prototypes, Bounded v (SliceKernel.kernel p.kernel x p.centroid)) :
    Space.dim b = .finite b.prototypes.length ∧
      Tame b.prototypes.length b.prototypes.length (b.prototypes.length * v ^ 2) b x :=
  ⟨rfl, tame_dense rfl (List.length_map ..) v0 fun f hf => by
    obtain ⟨p, hp, rfl⟩ := List.mem_map.1 hf
    exact h p hp⟩

/-- In particular kernel bases of exponential, squared-exponential and rational quadratic kernels of variance at most `v`, at finite
inputs. -/
theorem C193_exponential (b : KernelBasis (Stationary .exponential (FP M)) (FP M)) (x : List (FP M)) (v : ℝ) (v0 : 0 ≤ v)
    (hx : ∀ a ∈ x, Spec.Finite a) (h : ∀ p ∈ b.prototypes, (∃ r, Is p.kernel.variance r ∧ 0 ≤ r ∧ r ≤ v) ∧
      (∀ l ∈ p.kernel.lengthscales, Divisor l ∧ Spec.Finite l) ∧ ∀ a ∈ p.centroid, Spec.Finite a) :
    Tame b.prototypes.length b.prototypes.length (b.prototypes.length * v ^ 2) b x :=
  (C193_kernels b x v v0 fun p hp => by
    obtain ⟨⟨r, h1, h2, h3⟩, h4, h5⟩ := h p hp
    obtain ⟨g1, g2⟩ := C89_exponential_bound p.kernel ⟨r, h1⟩ (by unfold NonNeg; rw [h1]; exact h2) h4 x p.centroid hx h5
    exact bounded_mono (bounded_of_le h1 g1 g2) h3).2

theorem C193_expQuad (hM : M.rnd = binary64Format.rnd) (b : KernelBasis (Stationary .expQuad (FP M)) (FP M)) (x : List (FP M))
    (v : ℝ) (v0 : 0 ≤ v) (hx : ∀ a ∈ x, Spec.Finite a) (h : ∀ p ∈ b.prototypes, (∃ r, Is p.kernel.variance r ∧ 0 ≤ r ∧ r ≤ v) ∧
      (∀ l ∈ p.kernel.lengthscales, Divisor l ∧ Spec.Finite l) ∧ ∀ a ∈ p.centroid, Spec.Finite a) :
    Tame b.prototypes.length b.prototypes.length (b.prototypes.length * v ^ 2) b x :=
  (C193_kernels b x v v0 fun p hp => by
    obtain ⟨⟨r, h1, h2, h3⟩, h4, h5⟩ := h p hp
    obtain ⟨g1, g2⟩ := C89_expQuad_bound (rnd_half hM) p.kernel ⟨r, h1⟩ (by unfold NonNeg; rw [h1]; exact h2) h4 x p.centroid hx h5
    exact bounded_mono (bounded_of_le h1 g1 g2) h3).2

theorem C193_rational (hM : M.rnd = binary64Format.rnd) (b : KernelBasis (RationalQuadratic (FP M)) (FP M)) (x : List (FP M))
    (v : ℝ) (v0 : 0 ≤ v) (hx : ∀ a ∈ x, Spec.Finite a) (h : ∀ p ∈ b.prototypes, (∃ r, Is p.kernel.variance r ∧ 0 ≤ r ∧ r ≤ v) ∧
      (∃ q, Is p.kernel.power q ∧ 0 < q) ∧
      (∀ l ∈ p.kernel.lengthscales, Divisor l ∧ Spec.Finite l) ∧ ∀ a ∈ p.centroid, Spec.Finite a) :
    Tame b.prototypes.length b.prototypes.length (b.prototypes.length * v ^ 2) b x :=
  (C193_kernels b x v v0 fun p hp => by
    obtain ⟨⟨r, h1, h2, h3⟩, ⟨q, hq, q0⟩, h4, h5⟩ := h p hp
    obtain ⟨g1, g2⟩ := C89_rational_bound (fun k hk => C88_binary64 hM k (hk.trans (by norm_num))) p.kernel ⟨r, h1⟩
      (by unfold NonNeg; rw [h1]; exact h2) q hq q0 h4 x p.centroid hx h5
    exact bounded_mono (bounded_of_le h1 g1 g2) h3).2

/-! ## Constants, normalisers and stacks -/

/-- A bias or any other fixed features. -/
theorem C193_constants {I : Type} (b : FixedDense (FP M)) (x : I) (c : ℝ) (c0 : 0 ≤ c) (h : ∀ a ∈ b.constants, Bounded c a) :
    Space.dim b = .finite b.constants.length ∧ Tame b.constants.length b.constants.length (b.constants.length * c ^ 2) b x :=
  ⟨rfl, tame_dense rfl rfl c0 h⟩

theorem C193_bias {I : Type} (b : Bias (FP M)) (x : I) (c : ℝ) (c0 : 0 ≤ c) (h : Bounded c b.value) :
    Space.dim b = .finite 1 ∧ Tame 1 1 (c ^ 2) b x := by
  have := tame_dense (b := b) (x := x) (fs := [b.value]) (n := 1) (c := c) rfl rfl c0 fun f hf => by
    rw [List.mem_singleton.1 hf]; exact h
  rw [Nat.cast_one, one_mul] at this
  exact ⟨rfl, this⟩

theorem tame_mapValues {B I : Type} [Space B] [Basis B I (FP M)] {b : B} {x : I} {φ : Features (FP M)} {g : FP M → FP M} {n k : Nat}
    (hp : Basis.project b x = .ok (.ok (mapValues g φ))) (hf : Fits n φ) (hk : storedCount φ ≤ k)
    (h : ∀ i a, Stored φ i a → InUnit (g a)) : Tame n k k b x := by
  have := tame_of_bounded (k := k) (c := 1) hp (n := n) ⟨mapValues_wf hf.1, by rw [mapValues_dim]; exact hf.2⟩
    (by
      cases φ with
      | dense da => exact (le_of_eq (List.length_map ..)).trans hk
      | sparse sa => exact (le_of_eq (List.length_map ..)).trans hk) (by norm_num) fun i a ha => by
        cases φ with
        | dense da =>
          have ha : (da.map g)[i]? = some a := ha
          rw [List.getElem?_map] at ha
          obtain ⟨a', h1, rfl⟩ := Option.map_eq_some_iff.1 ha
          exact h i a' h1
        | sparse sa =>
          obtain ⟨e, he, e'⟩ := List.mem_map.1 ha
          cases e'
          exact h e.1 e.2 he
  rwa [one_pow, mul_one] at this

section
variable {B I : Type} [Space B] [Basis B I (FP M)]

/-- L1 and L∞ normalisation, of whatever finite features that are not all zero. -/
theorem C193_l1 (b : B) (x : I) (φ : Features (FP M)) (n k : Nat) (hp : Basis.project b x = .ok (.ok φ)) (hf : Fits n φ)
    (hk : storedCount φ ≤ k) (h : AllFinite φ) (hz : SomeNonZero φ) : Tame n k k (L1Normaliser.mk b) x := by
  obtain ⟨g, h1, h2⟩ := C87_l1 b x φ hf.1 h hz hp
  exact tame_mapValues h1 hf hk fun i a ha => (h2 i a ha).1

theorem C193_linf (b : B) (x : I) (φ : Features (FP M)) (n k : Nat) (hp : Basis.project b x = .ok (.ok φ)) (hf : Fits n φ)
    (hk : storedCount φ ≤ k) (h : AllFinite φ) (hz : SomeNonZero φ) : Tame n k k (LinfNormaliser.mk b) x := by
  obtain ⟨g, h1, h2, -⟩ := C87_linf b x φ hf.1 h hz hp
  exact tame_mapValues h1 hf hk fun i a ha => (h2 i a ha).1

/-- L2 normalisation, of finite features that are zero or at least `2^-511`, not all zero. -/
theorem C193_l2 (hM : M.rnd = binary64Format.rnd) (b : B) (x : I) (φ : Features (FP M)) (n k : Nat)
    (hp : Basis.project b x = .ok (.ok φ)) (hf : Fits n φ) (hk : storedCount φ ≤ k)
    (h : ∀ i a, Stored φ i a → ∃ r, Is a r ∧ (r = 0 ∨ (2 : ℝ) ^ (-511 : ℤ) ≤ |r|)) (hz : SomeNonZero φ) :
    Tame n k k (L2Normaliser.mk b) x := by
  obtain ⟨g, h1, h2⟩ := C87_l2_binary64 hM b x φ hf.1 h hz hp
  exact tame_mapValues h1 hf hk fun i a ha => (h2 i a ha).1

end

section
variable {B₁ B₂ I : Type} [Space B₁] [Space B₂] [Basis B₁ I (FP M)] [Basis B₂ I (FP M)]

theorem value_finite {n : Nat} {φ : Features (FP M)} (hf : Fits n φ) (h : ∀ i a, Stored φ i a → Spec.Finite a) (i : Nat) :
    Spec.Finite (value φ i) := by
  by_cases ha : Active φ i
  · obtain ⟨a, ha⟩ := ha
    rw [value_of_stored (keysUnique_of_wf hf.1) ha]
    exact h i a ha
  · rw [value_inactive hf ha]
    exact ⟨0, val_zero⟩

/-- A stack of tame bases is tame; of two sparse ones, with few stored features. -/
theorem C193_stack (b₁ : B₁) (b₂ : B₂) (x : I) (n₁ n₂ k₁ k₂ : Nat) (s₁ s₂ : ℝ) (h₁ : Tame n₁ k₁ s₁ b₁ x)
    (h₂ : Tame n₂ k₂ s₂ b₂ x) :
    Tame (n₁ + n₂) (n₁ + n₂) (s₁ + s₂) (Stack.mk b₁ b₂) x ∧
    ((∀ φ ψ : Features (FP M), Basis.project b₁ x = .ok (.ok φ) → Basis.project b₂ x = .ok (.ok ψ) → φ.isSparse = true ∧ ψ.isSparse = true) →
      Tame (n₁ + n₂) (k₁ + k₂) (s₁ + s₂) (Stack.mk b₁ b₂) x) := by
  obtain ⟨φ, p₁, f₁, c₁, u₁, q₁⟩ := h₁
  obtain ⟨ψ, p₂, f₂, c₂, u₂, q₂⟩ := h₂
  obtain ⟨r, hr, wr, -⟩ := C21_stack_concat b₁ b₂ x φ ψ p₁ p₂ f₁.1 f₂.1
  obtain ⟨φ', ψ', e₁, e₂, hst⟩ := C21_stack_ok_only_if _ _ _ _ hr
  rw [p₁] at e₁; cases e₁
  rw [p₂] at e₂; cases e₂
  obtain ⟨-, v₁, v₂⟩ := stack_values f₁.1 f₂.1 hst
  have hd := stack_dim hst
  rw [f₁.2, f₂.2] at hd
  rw [f₁.2] at v₁ v₂
  rw [f₂.2] at v₂
  have hsum : ∑ i ∈ Finset.range (n₁ + n₂), real (value r i) ^ 2 ≤ s₁ + s₂ := by
    rw [Finset.sum_range_add]
    refine add_le_add (le_trans (le_of_eq (Finset.sum_congr rfl fun i hi => ?_)) q₁)
      (le_trans (le_of_eq (Finset.sum_congr rfl fun i hi => ?_)) q₂)
    · rw [v₁ i (Finset.mem_range.1 hi)]
    · rw [v₂ i (Finset.mem_range.1 hi)]
  have hlt : ∀ i a, Stored r i a → i < n₁ + n₂ := fun i a ha => by
    rw [← hd]
    cases r with
    | dense da => exact (List.getElem?_eq_some_iff.1 ha).1
    | sparse sa => exact wr.2 _ ha
  have hfin : ∀ i a, Stored r i a → Spec.Finite a := fun i a ha => by
    rw [← value_of_stored (keysUnique_of_wf wr) ha]
    rcases Nat.lt_or_ge i n₁ with hi | hi
    · rw [v₁ i hi]
      exact value_finite f₁ u₁ i
    · obtain ⟨j, rfl⟩ := Nat.exists_eq_add_of_le hi
      rw [v₂ j (by have := hlt _ a ha; omega)]
      exact value_finite f₂ u₂ j
  have hcount : storedCount r ≤ n₁ + n₂ := by
    rw [← hd]
    cases r with
    | dense da => exact le_rfl
    | sparse sa =>
      have h3 : (sa.activations.map Prod.fst).toFinset ⊆ Finset.range sa.dim := fun i hi => by
        obtain ⟨e, he, rfl⟩ := List.mem_map.1 (List.mem_toFinset.1 hi)
        exact Finset.mem_range.2 (wr.2 e he)
      have h4 := Finset.card_le_card h3
      rw [List.toFinset_card_of_nodup wr.1, List.length_map, Finset.card_range] at h4
      exact h4
  refine ⟨⟨r, hr, ⟨wr, hd⟩, hcount, hfin, hsum⟩, fun hsp => ⟨r, hr, ⟨wr, hd⟩, ?_, hfin, hsum⟩⟩
  obtain ⟨g₁, g₂⟩ := hsp φ ψ p₁ p₂
  cases φ with
  | dense da => cases g₁
  | sparse sa₁ =>
    cases ψ with
    | dense da => cases g₂
    | sparse sa₂ =>
      rw [stack_sparse f₁.1 f₂.1] at hst
      cases hst
      show (sa₁.activations ++ shift sa₁.dim sa₂.activations).length ≤ _
      rw [List.length_append, shift, List.length_map]
      exact Nat.add_le_add c₁ c₂

end

/-! ## Runs exist -/

/-- From the constructor on there is a run over any inputs at which the basis is tame: nothing panics, nothing fails. -/
theorem C193_runs {B I : Type} [Space B] [Basis B I (FP M)] (b : B) (n k : Nat) (s : ℝ) (lr : FP M) (hd : Space.dim b = .finite n)
    (xs : Nat → I) (ys : Nat → FP M) (hx : ∀ t, Tame n k s b (xs t)) :
    (∃ fas : Nat → ScalarLFA B (SGD (FP M)) (FP M), ScalarLFA.scalar b ⟨lr⟩ = .ok (fas 0) ∧
      ∀ t, CanUpdateWith (fas t) (xs t) (fun p => ys t -. p) (fas (t + 1))) ∧
    ∃ fas : Nat → ScalarLFA B (ISGD (FP M)) (FP M), ScalarLFA.scalar b ⟨lr⟩ = .ok (fas 0) ∧
      ∀ t, CanUpdateWith (fas t) (xs t) (fun p => ys t -. p) (fas (t + 1)) := by
  have hx' : ∀ t, ∃ φ, Basis.project b (xs t) = .ok (.ok φ) ∧ Fits n φ := fun t => by
    obtain ⟨φ, h1, h2, -⟩ := hx t
    exact ⟨φ, h1, h2⟩
  constructor
  · obtain ⟨fas, ps, hs, h0⟩ := stream_any (O := SGD (FP M)) b xs ys hx' _ (List.length_replicate ..) ⟨lr⟩ trivial
    exact ⟨fas, by rw [h0]; exact (C59_shape b _ 1 n hd).1, fun t => C188_stream hs t⟩
  · obtain ⟨fas, ps, hs, h0⟩ := stream_any (O := ISGD (FP M)) b xs ys hx' _ (List.length_replicate ..) ⟨lr⟩ trivial
    exact ⟨fas, by rw [h0]; exact (C59_shape b _ 1 n hd).1, fun t => C188_stream hs t⟩

/-- The hypotheses are met: 16 tilings beside a bias, rate `1/16`, targets up to one. After a million calls every weight is below
`2^20`. -/
theorem C193_example (hM : M.rnd = binary64Format.rnd) {H : Type} [BuildHasher H] (b : TileCoding H) (h1 : b.nTilings = 16)
    (h2 : b.memorySize = 1024) (lr : FP M) (hl : Is lr (1 / 16)) (xs : Nat → List (FP M))
    (hx : ∀ t, ∃ φ : Features (FP M), Basis.project b (xs t) = .ok (.ok φ)) (ys : Nat → FP M) (hy : ∀ t, InUnit (ys t)) :
    ∃ fas : Nat → ScalarLFA (Stack (TileCoding H) (Bias (FP M))) (SGD (FP M)) (FP M),
      ScalarLFA.scalar (Stack.mk b (Bias.mk (Scalar.one : FP M))) ⟨lr⟩ = .ok (fas 0) ∧
      (∀ t, CanUpdateWith (fas t) (xs t) (fun p => ys t -. p) (fas (t + 1))) ∧
      ∀ i < 1025, Bounded (2 ^ 20) (entry (fas 1000000).weights i) := by
  have ht : ∀ t, Tame 1025 1025 17 (Stack.mk b (Bias.mk (Scalar.one : FP M))) (xs t) := fun t => by
    obtain ⟨φ, hp⟩ := hx t
    have a := (C193_tile_coding b (xs t) φ hp).2
    rw [h1, h2] at a
    have c := (C193_bias (Bias.mk (Scalar.one : FP M)) (xs t) 1 (by norm_num) ⟨1, val_one, by norm_num⟩).2
    have := (C193_stack b (Bias.mk (Scalar.one : FP M)) (xs t) _ _ _ _ _ _ a c).1
    norm_num at this
    exact this
  have hd : Space.dim (Stack.mk b (Bias.mk (Scalar.one : FP M))) = .finite 1025 := by
    have := (C21_stack_dim b (Bias.mk (Scalar.one : FP M)) 1024 1 (by rw [← h2]; rfl) rfl).1
    exact this
  obtain ⟨fas, h3, h4⟩ := (C193_runs _ 1025 1025 17 lr hd xs ys ht).1
  refine ⟨fas, h3, h4, fun i hi => ?_⟩
  obtain ⟨a1, a2, -⟩ := C193_sgd hM _ 1025 1025 17 (1 / 16) 1 lr hd (by norm_num) (by norm_num)
    ((by norm_num : (17 : ℝ) ≤ 2 ^ 5).trans (pow_le_pow_right₀ (by norm_num) (by norm_num))) (one_le_pow₀ (by norm_num)) hl (by norm_num)
    ((by norm_num : (1 / 16 : ℝ) ≤ 1).trans (one_le_pow₀ (by norm_num))) (by norm_num) fas h3 xs ys ht hy h4 1000000 (by norm_num)
  obtain ⟨r, hr⟩ := a1 i hi
  refine ⟨r, hr, ?_⟩
  have a3 := abs_le_len (fun i => real (entry (fas 1000000).weights i)) hi
  rw [is_real hr] at a3
  have a4 : √(17 : ℝ) ≤ 5 := Real.sqrt_le_iff.2 ⟨by norm_num, by norm_num⟩
  push_cast at a2
  norm_num at a2 ⊢
  linarith

end Lfa

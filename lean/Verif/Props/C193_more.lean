import Verif.Props.C193
import Verif.Props.C185

/-!
# C193 for Chebyshev features and for the Matérn and cosine kernels
-/

set_option linter.unusedSectionVars false

namespace Lfa

open Spec Machine XReal

variable {M : Machine}

/-- Chebyshev features of inputs within the limits. -/
theorem C193_chebyshev (hM : M.rnd = binary64Format.rnd) (p d : Nat) (hp : p ≤ 11) (hd : 0 < d) (hd' : d ≤ 2 ^ 32)
    (lo hi x : Fin d → FP M) (h : ∀ j, Within (x j) (lo j) (hi j)) :
    ∃ (c : Chebyshev (FP M)) (n : Nat), Chebyshev.new p (List.ofFn fun j => (lo j, hi j)) = .ok c ∧
      Space.dim c = .finite n ∧ Tame n n (4 * n) c (List.ofFn x) := by
  obtain ⟨es, c, ys, h1, h2, h3, h4⟩ := C167_chebyshev hM p d hp hd hd' lo hi x h
  have hlim : ∀ j, real (lo j) < real (hi j) ∧ real (lo j) ≤ real (x j) ∧ real (x j) ≤ real (hi j) := fun j => by
    obtain ⟨l1, l2, l3, -⟩ := rescale_err hM (h j)
    have l4 : 0 < real (hi j) - real (lo j) := sub_pos.2 l1
    rw [le_div_iff₀ l4, zero_mul] at l2
    rw [div_le_one l4] at l3
    exact ⟨l1, by linarith, by linarith⟩
  obtain ⟨c', fs, g1, g2, g3⟩ := C26_bounded p d hp hd (fun j => real (lo j)) (fun j => real (hi j))
    (fun j => real (x j)) (fun j => (hlim j).1) (fun j => (hlim j).2)
  obtain ⟨es', c'', k1, k2, k3⟩ := C26_features p d hp hd (fun j => real (lo j)) (fun j => real (hi j)) fun j => real (x j)
  rw [g1] at k2
  cases k2
  rw [g2] at k3
  cases k3
  rw [C23_multi_indices_unique k1 h1] at g3
  have hes := C23_multi_indices_unique h1 (computeCoefficients_spec p d hd)
  have hb : ∀ y ∈ ys, Bounded 2 y := by
    intro y hy
    obtain ⟨i, ii, rfl⟩ := List.mem_iff_getElem.1 hy
    have hi' : i < es.length := by rw [h4.length_eq]; exact ii
    obtain ⟨r, hr, hr1⟩ := (List.forall₂_iff_get.1 h4).2 i hi' ii
    refine ⟨r, hr, ?_⟩
    have e1 := g3 _ (List.mem_map_of_mem (List.getElem_mem hi'))
    have hmem : es[i] ∈ computeCoefficients p d := by rw [← hes]; exact List.getElem_mem hi'
    have e2 : ((es[i]).map fun n : ℕ => (3 : ℝ) ^ n + 8 * (n : ℝ) ^ 2 + 1).sum ≤ (d : ℝ) * 2 ^ 18 := by
      have h1 : ∀ v ∈ ((es[i]).map fun n : ℕ => (3 : ℝ) ^ n + 8 * (n : ℝ) ^ 2 + 1), v ≤ 2 ^ 18 := by
        intro v hv
        obtain ⟨n, hn, rfl⟩ := List.mem_map.1 hv
        have hnp := (le_of_mem_computeCoefficients hmem n hn).trans hp
        have a1 : (n : ℝ) ≤ 11 := by exact_mod_cast hnp
        have a2 : (3 : ℝ) ^ n ≤ 3 ^ 11 := pow_le_pow_right₀ (by norm_num) hnp
        have a3 : (n : ℝ) ^ 2 ≤ 11 ^ 2 := by gcongr
        norm_num at a2 a3 ⊢
        linarith
      have := List.sum_le_card_nsmul _ _ h1
      rwa [List.length_map, length_of_mem_computeCoefficients hmem, nsmul_eq_mul] at this
    have e3 : (d : ℝ) ≤ 2 ^ 32 := by exact_mod_cast hd'
    have e4 : ((es[i]).map fun n : ℕ => (3 : ℝ) ^ n + 8 * (n : ℝ) ^ 2 + 1).sum * 2 ^ (-52 : ℤ) ≤ 1 := by
      have := mul_le_mul_of_nonneg_right (e2.trans (mul_le_mul_of_nonneg_right e3 (by positivity)))
        (show (0 : ℝ) ≤ 2 ^ (-52 : ℤ) by positivity)
      refine this.trans ?_
      norm_num
    have e5 := hr1.trans e4
    simp only [List.get_eq_getElem] at e5
    have := abs_sub_abs_le_abs_sub r (chebProduct (unit (fun j => real (lo j)) (fun j => real (hi j)) fun j => real (x j)) es[i])
    linarith
  have hlen : ys.length = c.polynomials.length := by
    cases h3
    exact List.length_map ..
  have := tame_dense h3 hlen (by norm_num) hb
  exact ⟨c, _, h2, rfl, by rw [show (4 : ℝ) * c.polynomials.length = c.polynomials.length * 2 ^ 2 by ring]; exact this⟩

/-- The cosine kernel at comparable points. -/
theorem C193_cosine (hM : M.rnd = binary64Format.rnd) (b : KernelBasis (Stationary .cosine (FP M)) (FP M)) (x : List (FP M))
    (v : ℝ) (v0 : 0 ≤ v) (h : ∀ p ∈ b.prototypes, Bounded v p.kernel.variance ∧ Comparable p.kernel.lengthscales x p.centroid) :
    Tame b.prototypes.length b.prototypes.length (b.prototypes.length * v ^ 2) b x :=
  (C193_kernels b x v v0 fun p hp => by
    obtain ⟨h1, h2⟩ := h p hp
    obtain ⟨ρ, hρ, -⟩ := C169_distance hM _ _ _ h2
    have hb := M.cos_bounded ρ
    obtain ⟨w, hw, hw1⟩ := XReal.bounded_of_le (neg_one_le_rnd (M := M) (abs_le.1 hb).1) (rnd_le_one (abs_le.1 hb).2)
    have hc : InUnit (Scalar.cos (sliceDistance p.kernel.lengthscales x p.centroid)) := by
      refine ⟨w, ?_, hw1⟩
      show (M.round (M.fcos _)).1 = _
      rw [hρ]
      exact hw
    have := bounded_unit_mul hc h1
    rw [mul_comm_fp] at this
    exact this).2

/-- The Matérn kernels at comparable points. -/
theorem C193_matern (hM : M.rnd = binary64Format.rnd) {ε : ℝ} (hε : ExpWithin M ε) (hε1 : ε ≤ 1 / 100) {kind : StationaryKind}
    (hk : kind = .matern32 ∨ kind = .matern52) (b : KernelBasis (Stationary kind (FP M)) (FP M)) (x : List (FP M))
    (v : ℝ) (v0 : 2 ^ (-1000 : ℤ) ≤ v) (v1 : v ≤ 2 ^ 400) (h : ∀ p ∈ b.prototypes, Bounded v p.kernel.variance ∧
      Comparable p.kernel.lengthscales x p.centroid ∧ exactDistance p.kernel.lengthscales x p.centroid ≤ 2 ^ 200) :
    Tame b.prototypes.length b.prototypes.length (b.prototypes.length * (2 * v) ^ 2) b x :=
  (C193_kernels b x (2 * v) (by have := Format.two_zpow_pos (-1000); linarith) fun p hp => by
    obtain ⟨⟨V, hV, hV1⟩, h2, h3⟩ := h p hp
    have hc : (p.kernel.lengthscales.length : ℝ) ≤ 2 ^ 40 := by exact_mod_cast h2.count
    have hd := exactDistance_nonneg p.kernel.lengthscales x p.centroid
    have ht : 3 * tiny ≤ 1 / 2 * v := by
      refine le_trans ?_ (mul_le_mul_of_nonneg_left v0 (by norm_num))
      rw [tiny]
      have e : (2 : ℝ) ^ (-1075 : ℤ) = 2 ^ (-75 : ℤ) * 2 ^ (-1000 : ℤ) := by
        rw [← zpow_add₀ (by norm_num)]; norm_num
      rw [e]
      have := Format.two_zpow_pos (-1000)
      have e2 : (3 : ℝ) * 2 ^ (-75 : ℤ) ≤ 1 / 2 := by norm_num
      nlinarith
    have hr : (5 * (p.kernel.lengthscales.length : ℝ) + 40) * roundoff ≤ 1 / 100 := by
      have := mul_le_mul_of_nonneg_right (show 5 * (p.kernel.lengthscales.length : ℝ) + 40 ≤ 2 ^ 43 by linarith) roundoff_pos.le
      refine this.trans ?_
      norm_num [roundoff]
    have hr' : (2 * (p.kernel.lengthscales.length : ℝ) + 14) * roundoff ≤ 1 / 100 := by
      refine le_trans (mul_le_mul_of_nonneg_right ?_ roundoff_pos.le) hr
      have : (0 : ℝ) ≤ p.kernel.lengthscales.length := Nat.cast_nonneg _
      linarith
    have hp1 := abs_profile_le kind hd
    have key : ∀ z P E : ℝ, |P| ≤ 10 / 9 → E ≤ 1 / 10 → |z - V * P| ≤ |V| * E + 3 * tiny → |z| ≤ 2 * v := fun z P E hP hE hz => by
      have a1 : |V * P| ≤ v * (10 / 9) := by
        rw [abs_mul]
        exact mul_le_mul hV1 hP (abs_nonneg _) ((abs_nonneg _).trans hV1)
      have a2 : |V| * E ≤ v * (1 / 10) := (mul_le_mul_of_nonneg_left hE (abs_nonneg _)).trans
        (mul_le_mul_of_nonneg_right hV1 (by norm_num))
      have a3 := abs_sub_abs_le_abs_sub z (V * P)
      have a4 := (abs_nonneg V).trans hV1
      clear h v0 v1 h3 hc
      linarith
    rcases hk with rfl | rfl
    · obtain ⟨z, hz, hz1⟩ := C169_matern32 hM hε hε1 p.kernel hV (hV1.trans v1) x p.centroid h2 h3
      exact ⟨z, hz, key z _ _ (hp1.trans (by norm_num [peak])) (by linarith) hz1⟩
    · obtain ⟨z, hz, hz1⟩ := C169_matern52 hM hε hε1 p.kernel hV (hV1.trans v1) x p.centroid h2 h3
      exact ⟨z, hz, key z _ _ (hp1.trans (by norm_num [peak])) (by linarith) hz1⟩).2

/-- Matérn-5/2 features with one centroid at 0, trained at inputs that alternate between 0 and 1. -/
theorem C193_matern_example (lr : FP binary64) (hl : Is lr (1 / 2)) (ys : Nat → FP binary64) (hy : ∀ t, InUnit (ys t)) :
    ∃ fas : Nat → ScalarLFA (KernelBasis (Stationary .matern52 (FP binary64)) (FP binary64)) (SGD (FP binary64)) (FP binary64),
      ScalarLFA.scalar (KernelBasis.homogeneous [[(Scalar.zero : FP binary64)]]
        (⟨Scalar.one, [Scalar.one]⟩ : Stationary .matern52 (FP binary64))) ⟨lr⟩ = .ok (fas 0) ∧
      (∀ t, CanUpdateWith (fas t) ([if t % 2 = 0 then Scalar.zero else Scalar.one] : List (FP binary64)) (fun p => ys t -. p) (fas (t + 1))) ∧
      ∀ T : Nat, 19 * T ≤ 2 ^ 52 → Spec.Finite (entry (fas T).weights 0) := by
  have hd : ∀ t : Nat, exactDistance (M := binary64) [Scalar.one] [if t % 2 = 0 then Scalar.zero else Scalar.one] [Scalar.zero] ≤ 1 := by
    intro t
    unfold exactDistance
    simp only [List.zip_cons_cons, List.zip_nil_right, List.map_cons, List.map_nil, List.sum_cons, List.sum_nil]
    split
    · rw [is_real (val_zero (M := binary64))]; norm_num
    · rw [is_real (val_zero (M := binary64)), is_real (val_one (M := binary64))]; norm_num
  have hx : ∀ t : Nat, Tame 1 1 4 (KernelBasis.homogeneous [[(Scalar.zero : FP binary64)]]
      (⟨Scalar.one, [Scalar.one]⟩ : Stationary .matern52 (FP binary64))) ([if t % 2 = 0 then Scalar.zero else Scalar.one] : List (FP binary64)) := by
    intro t
    have := C193_matern (M := binary64) rfl (ε := 0) (fun r _ => by
      show |Real.exp r - Real.exp r| ≤ _
      rw [sub_self, abs_zero, zero_mul]) (by norm_num) (Or.inr rfl) (KernelBasis.homogeneous [[(Scalar.zero : FP binary64)]]
      (⟨Scalar.one, [Scalar.one]⟩ : Stationary .matern52 (FP binary64))) ([if t % 2 = 0 then Scalar.zero else Scalar.one] : List (FP binary64))
      1 (zpow_le_one_of_nonpos₀ (by norm_num) (by norm_num)) (one_le_pow₀ (by norm_num)) fun p hp => by
        obtain rfl := List.mem_singleton.1 hp
        refine ⟨⟨1, val_one, by simp⟩, ⟨by norm_num, fun l hl => ⟨1, ?_, one_ne_zero⟩, fun q hq => ?_,
          (hd t).trans (one_le_pow₀ (by norm_num))⟩, (hd t).trans (one_le_pow₀ (by norm_num))⟩
        · rw [List.mem_singleton.1 hl]; exact val_one
        · rw [List.mem_singleton.1 hq]
          unfold Spec.Finite Is
          rw [val_sub]
          dsimp only
          split
          · refine ⟨0, ?_⟩
            rw [val_zero]
            show binary64.rnd (0 + -0) = _
            rw [neg_zero, add_zero]; exact rnd_zero
          · refine ⟨1, ?_⟩
            rw [val_zero, val_one]
            show binary64.rnd (1 + -0) = _
            rw [neg_zero, add_zero, binary64.rnd_one]
    rw [show (4 : ℝ) = (1 : ℕ) * (2 * 1) ^ 2 by norm_num]
    exact this
  obtain ⟨fas, h1, h2⟩ := (C193_runs _ 1 1 4 lr rfl _ ys hx).1
  refine ⟨fas, h1, h2, fun T hT => ?_⟩
  exact (C193_sgd (M := binary64) rfl _ 1 1 4 (1 / 2) 1 lr rfl (by norm_num) (by norm_num)
    (by norm_num) (by norm_num) hl (by norm_num) (by norm_num) (by norm_num) fas h1 _ ys hx hy h2 T
    (by exact_mod_cast hT)).1 0 one_pos

end Lfa

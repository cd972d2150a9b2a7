import Verif.Proofs.FeatErr
import Mathlib.Analysis.SpecialFunctions.Trigonometric.Bounds

/-!
# C167 — accuracy of Chebyshev and Fourier features in `f64`
-/

set_option linter.unusedSectionVars false

namespace Lfa

open Spec Machine XReal

variable {M : Machine}

/-- Each of the twelve hard-coded polynomials, at a number of `[-1, 1]`: degree `n` is accurate to
`3 ^ n` unit roundoffs. -/
theorem C167_polynomials (hM : M.rnd = binary64Format.rnd) (n : Nat) (hn : n ≤ 11) :
    ∃ f : FP M → FP M, Chebyshev.polyOf n = .ok f ∧
      ∀ (a : FP M) (x : ℝ), Is a x → |x| ≤ 1 →
        ∃ z, Is (f a) z ∧ |z - (_root_.Polynomial.Chebyshev.T ℝ (n : ℤ)).eval x| ≤ 3 ^ n * roundoff :=
  polyOf_err hM n hn

/-- Rescaling into the limits. -/
theorem C167_rescale (hM : M.rnd = binary64Format.rnd) (xs : List (FP M)) (limits : List (FP M × FP M)) (i : Nat)
    (x lo hi : FP M) (hx : xs[i]? = some x) (hl : limits[i]? = some (lo, hi)) (h : Within x lo hi) :
    ∃ u r, (rescale xs limits)[i]? = some u ∧ Is u r ∧
      |r - (real x - real lo) / (real hi - real lo)| ≤ (301 / 100) * roundoff := by
  obtain ⟨-, -, -, r, hr, -, -, he⟩ := rescale_err hM h
  refine ⟨_, r, ?_, hr, he⟩
  have hz : (xs.zip limits)[i]? = some (x, (lo, hi)) := List.getElem?_zip_eq_some.2 ⟨hx, hl⟩
  rw [rescale, List.getElem?_map, hz]; rfl

theorem mapM_exists {α β : Type} {f : α → P β} {R : α → β → Prop} : ∀ {l : List α},
    (∀ a ∈ l, ∃ b, f a = .ok b ∧ R a b) → ∃ bs, l.mapM f = .ok bs ∧ List.Forall₂ R l bs
  | [], _ => ⟨[], rfl, .nil⟩
  | a :: l, h => by
    obtain ⟨b, hb, hr⟩ := h a List.mem_cons_self
    obtain ⟨bs, hbs, hrs⟩ := mapM_exists fun a' h' => h a' (List.mem_cons_of_mem _ h')
    refine ⟨b :: bs, ?_, .cons hr hrs⟩
    rw [List.mapM_cons, hb]
    show (l.mapM f >>= fun bs => pure (b :: bs)) = _
    rw [hbs]; rfl

/-- Chebyshev features of an input within the limits. -/
theorem C167_chebyshev (hM : M.rnd = binary64Format.rnd) (p d : Nat) (hp : p ≤ 11) (hd : 0 < d) (hd' : d ≤ 2 ^ 32)
    (lo hi x : Fin d → FP M) (h : ∀ j, Within (x j) (lo j) (hi j)) :
    ∃ es c ys, MultiIndices p d es ∧ Chebyshev.new p (List.ofFn fun j => (lo j, hi j)) = .ok c ∧
      Basis.project c (List.ofFn x) = .ok (.ok (.dense ys)) ∧
      List.Forall₂ (fun e y => ∃ r, Is y r ∧
        |r - chebProduct (unit (fun j => real (lo j)) (fun j => real (hi j)) fun j => real (x j)) e| ≤
          (e.map fun n : ℕ => (3 : ℝ) ^ n + 8 * (n : ℝ) ^ 2 + 1).sum * 2 ^ (-52 : ℤ)) es ys := by
  let R : Nat → (FP M → FP M) → Prop := fun n f => n ≤ 11 ∧
    ∀ (a : FP M) (x : ℝ), Is a x → |x| ≤ 1 → ∃ z, Is (f a) z ∧ |z - chebT n x| ≤ 3 ^ n * roundoff
  obtain ⟨pss, hps, hR⟩ : ∃ pss, (Chebyshev.makePolynomials p d : P (List (List (FP M → FP M)))) = .ok pss ∧
      List.Forall₂ (List.Forall₂ R) (computeCoefficients p d) pss := by
    refine mapM_exists fun e he => mapM_exists fun n hn => ?_
    have hn11 := (le_of_mem_computeCoefficients he n hn).trans hp
    obtain ⟨f, h1, h2⟩ := polyOf_err hM n hn11
    exact ⟨f, h1, hn11, h2⟩
  refine ⟨computeCoefficients p d, ⟨p, List.ofFn fun j => (lo j, hi j), pss⟩, _, computeCoefficients_spec p d hd, ?_,
    rfl, ?_⟩
  · unfold Chebyshev.new
    rw [if_neg (by omega), List.length_ofFn, hps]; rfl
  rw [List.forall₂_map_right_iff]
  have hmem : ∀ e ∈ computeCoefficients p d, e.length = d := fun e he => length_of_mem_computeCoefficients he
  refine (List.forall₂_iff_zip.2 ⟨hR.length_eq, fun {e ps} hz => ?_⟩)
  have hF : List.Forall₂ R e ps := (List.forall₂_iff_zip.1 hR).2 hz
  have hel : e.length = d := hmem e (List.of_mem_zip hz).1
  have hss : (Chebyshev.mk p (List.ofFn fun j => (lo j, hi j)) pss).scaledState (List.ofFn x) =
      List.ofFn fun j => (Scalar.ofNat 2 *. ((x j -. lo j) /. (hi j -. lo j)) -. Scalar.ofNat 1 : FP M) := by
    unfold Chebyshev.scaledState rescale
    have := map_zip_ofFn x (List.ofFn fun j => (lo j, hi j)) (by simp)
      (fun v l => (v -. l.1) /. (l.2 -. l.1)) (Scalar.zero, Scalar.zero)
    refine (congrArg _ this).trans ?_
    rw [List.map_ofFn]
    congr 1
    funext j
    simp
  rw [hss]
  have hpl : ps.length = d := hF.length_eq.symm.trans hel
  let f : Fin d → FP M → FP M := fun j => ps[j]'(by rw [hpl]; exact j.2)
  let n : Fin d → Nat := fun j => e[j]'(by rw [hel]; exact j.2)
  have hpse : ps = List.ofFn f := by
    refine List.ext_getElem (by simp [hpl]) fun i h1 h2 => ?_
    simp [f]
  have hee : e = List.ofFn n := by
    refine List.ext_getElem (by simp [hel]) fun i h1 h2 => ?_
    simp [n]
  have hRj : ∀ j, R (n j) (f j) := fun j => hF.get (by rw [hel]; exact j.2) (by rw [hpl]; exact j.2)
  let u := unit (fun j => real (lo j)) (fun j => real (hi j)) fun j => real (x j)
  let s : Fin d → FP M := fun j => Scalar.ofNat 2 *. ((x j -. lo j) /. (hi j -. lo j)) -. Scalar.ofNat 1
  obtain ⟨z, hz1, hz2⟩ := product_err hM (List.ofFn fun j => (f j (s j), chebT (n j) (2 * u j - 1),
      (3 : ℝ) ^ n j + 8 * (n j : ℝ) ^ 2)) (fun q hq => by
    obtain ⟨j, rfl⟩ := (List.mem_ofFn' _ _).1 hq
    obtain ⟨h11, hf⟩ := hRj j
    obtain ⟨-, u0, u1, -⟩ := rescale_err hM (h j)
    have hu1 : |2 * u j - 1| ≤ 1 := abs_le.2 ⟨by
      have : 0 ≤ u j := u0
      linarith, by
      have : u j ≤ 1 := u1
      linarith⟩
    obtain ⟨σ, hs, hs1, hs2⟩ := scaled_err hM (h j)
    obtain ⟨z, hz, hz'⟩ := hf (s j) σ hs hs1
    refine ⟨by positivity, z, hz, ?_, abs_T_le_one _ hu1⟩
    have hl := chebT_lipschitz (n j) hs1 hu1
    have hl' : (n j : ℝ) ^ 2 * |σ - (2 * u j - 1)| ≤ (n j : ℝ) ^ 2 * (8 * roundoff) :=
      mul_le_mul_of_nonneg_left hs2 (by positivity)
    have := abs_sub_le z (chebT (n j) σ) (chebT (n j) (2 * u j - 1))
    rw [add_mul]
    linarith) (by
    have hb : ∀ q ∈ (List.ofFn fun j => (f j (s j), chebT (n j) (2 * u j - 1),
        (3 : ℝ) ^ n j + 8 * (n j : ℝ) ^ 2)).map fun q => q.2.2 + 1, q ≤ 2 ^ 18 := by
      intro q hq
      obtain ⟨q', hq', rfl⟩ := List.mem_map.1 hq
      obtain ⟨j, rfl⟩ := (List.mem_ofFn' _ _).1 hq'
      have h11 := (hRj j).1
      have h1 : (3 : ℝ) ^ n j ≤ 3 ^ 11 := pow_le_pow_right₀ (by norm_num) h11
      have h2 : (n j : ℝ) ≤ 11 := by exact_mod_cast h11
      have h3 : (n j : ℝ) ^ 2 ≤ 11 ^ 2 := pow_le_pow_left₀ (Nat.cast_nonneg _) h2 2
      show (3 : ℝ) ^ n j + 8 * (n j : ℝ) ^ 2 + 1 ≤ _
      linarith
    have hsum := List.sum_le_card_nsmul _ _ hb
    rw [List.length_map, List.length_ofFn, nsmul_eq_mul] at hsum
    have hdr : (d : ℝ) ≤ 2 ^ 32 := by exact_mod_cast hd'
    have h5 : (d : ℝ) * 2 ^ 18 ≤ 2 ^ 32 * 2 ^ 18 := mul_le_mul_of_nonneg_right hdr (by norm_num)
    refine (mul_le_mul_of_nonneg_right (hsum.trans h5) (by have := roundoff_pos; positivity)).trans ?_
    norm_num [roundoff])
  have hfeat : Chebyshev.computeFeature ((List.ofFn s).zip ps) =
      ((List.ofFn fun j => (f j (s j), chebT (n j) (2 * u j - 1), (3 : ℝ) ^ n j + 8 * (n j : ℝ) ^ 2)).map
        Prod.fst).foldl (· *. ·) Scalar.one := by
    unfold Chebyshev.computeFeature
    rw [List.map_ofFn]
    have := map_zip_ofFn s ps hpl (fun v f => f v) id
    refine congrArg (fun l => List.foldl (· *. ·) Scalar.one l) (this.trans ?_)
    congr 1
    funext j
    have hj : (j : Nat) < ps.length := by rw [hpl]; exact j.2
    simp [f, hj]
  refine ⟨z, by rw [hfeat]; exact hz1, ?_⟩
  have e1 : ((List.ofFn fun j => (f j (s j), chebT (n j) (2 * u j - 1), (3 : ℝ) ^ n j + 8 * (n j : ℝ) ^ 2)).map
      fun q => q.2.1).prod = chebProduct u e := by
    rw [List.map_ofFn, List.prod_ofFn]
    unfold chebProduct
    refine Finset.prod_congr rfl fun j _ => ?_
    have hj : (j : Nat) < e.length := by rw [hel]; exact j.2
    simp [n, hj, chebT]
  have e2 : ((List.ofFn fun j => (f j (s j), chebT (n j) (2 * u j - 1), (3 : ℝ) ^ n j + 8 * (n j : ℝ) ^ 2)).map
      fun q => q.2.2 + 1).sum = (e.map fun n : ℕ => (3 : ℝ) ^ n + 8 * (n : ℝ) ^ 2 + 1).sum := by
    rw [List.map_ofFn]
    conv_rhs => rw [hee]
    rw [List.map_ofFn]
    rfl
  rw [e1, e2] at hz2
  refine hz2.trans (le_of_eq ?_)
  congr 1
  norm_num [roundoff]

/-! ## Fourier -/

theorem pi_err (hM : M.rnd = binary64Format.rnd) : ∃ q, Is (Scalar.pi : FP M) q ∧ 0 ≤ q ∧
    |q - Real.pi| ≤ roundoff * Real.pi + tiny := by
  have hN := C88_binary64 hM
  obtain ⟨q, hq, hq0, -⟩ : Between (Scalar.pi : FP M) ((4 : Nat) : ℝ) :=
    between_rnd (x := Real.pi) rfl Real.pi_pos.le (by push_cast; exact Real.pi_le_four) (hN 4 (by norm_num))
  refine ⟨q, hq, hq0, ?_⟩
  have e : M.rnd Real.pi = .fin q := hq
  rw [hM] at e
  have := binary64Format.nearest_rel Real.pi
  rw [(binary64Format.rnd_eq_fin e).1, abs_of_pos Real.pi_pos] at this
  exact this

theorem rnd_err (hM : M.rnd = binary64Format.rnd) {x z : ℝ} (h : M.rnd x = .fin z) :
    |z - x| ≤ roundoff * |x| + tiny := by
  rw [hM] at h
  have := binary64Format.nearest_rel x
  rwa [(binary64Format.rnd_eq_fin h).1] at this

/-- Fourier features of an input within the limits, with a `cos` that is accurate to `ε` before the
final rounding. -/
theorem C167_fourier (hM : M.rnd = binary64Format.rnd) (ε : ℝ) (hε : ∀ r, |M.cos r - Real.cos r| ≤ ε) (p d : Nat)
    (hp : p ≤ 255) (hd : 0 < d) (hd' : d ≤ 2 ^ 40) (lo hi x : Fin d → FP M) (h : ∀ j, Within (x j) (lo j) (hi j)) :
    ∃ es ys, MultiIndices p d es ∧
      Basis.project (Fourier.new p (List.ofFn fun j => (lo j, hi j))) (List.ofFn x) = .ok (.ok (.dense ys)) ∧
      List.Forall₂ (fun e y => ∃ r, Is y r ∧
        |r - fourierFeature (unit (fun j => real (lo j)) (fun j => real (hi j)) fun j => real (x j)) e| ≤
          ε + (2 + Real.pi * (2 * d + 6) * (e.sum : ℕ)) * roundoff) es ys := by
  have hu := roundoff_pos
  have ht0 := tiny_pos
  refine ⟨computeCoefficients p d, _, computeCoefficients_spec p d hd, rfl, ?_⟩
  rw [List.forall₂_map_right_iff]
  show List.Forall₂ _ _ ((computeCoefficients p (List.ofFn fun j => (lo j, hi j)).length).map _)
  rw [List.length_ofFn, List.forall₂_map_right_iff, List.forall₂_same]
  intro e he
  have hel := length_of_mem_computeCoefficients he
  have hep := fun k hk => le_of_mem_computeCoefficients he k hk
  have hC : e.sum ≤ 2 ^ 48 := by
    have h1 := sum_le_of_le (p := p) hep
    rw [hel] at h1
    have := Nat.mul_le_mul hp hd'
    omega
  let u := unit (fun j => real (lo j)) (fun j => real (hi j)) fun j => real (x j)
  let v : Fin d → FP M := fun j => (x j -. lo j) /. (hi j -. lo j)
  let n : Fin d → Nat := fun j => e[j]'(by rw [hel]; exact j.2)
  have hee : e = List.ofFn n := by
    refine List.ext_getElem (by simp [hel]) fun i h1 h2 => ?_
    simp [n]
  have hres : rescale (List.ofFn x) (Fourier.new p (List.ofFn fun j => (lo j, hi j))).limits = List.ofFn v := by
    show rescale (List.ofFn x) (List.ofFn fun j => (lo j, hi j)) = _
    unfold rescale
    have := map_zip_ofFn x (List.ofFn fun j => (lo j, hi j)) (by simp)
      (fun v l => (v -. l.1) /. (l.2 -. l.1)) (Scalar.zero, Scalar.zero)
    refine this.trans ?_
    congr 1
    funext j
    simp [v]
  rw [hres]
  have hzip : (List.ofFn v).zip (e.map fun c => (Scalar.ofNat c : FP M)) =
      List.ofFn fun j => (v j, (Scalar.ofNat (n j) : FP M)) := by
    conv_lhs => rw [hee]
    rw [List.map_ofFn]
    refine List.ext_getElem (by simp) fun i h1 h2 => ?_
    simp
  rw [hzip]
  have hN := C88_binary64 hM
  have hv : ∀ j, ∃ r, Is (v j) r ∧ 0 ≤ r ∧ r ≤ 1 ∧ |r - u j| ≤ (301 / 100) * roundoff := fun j =>
    (rescale_err hM (h j)).2.2.2
  obtain ⟨s, hs, hs0, hs1⟩ := fourier_sum (N := 2 ^ 53) hN (List.ofFn fun j => (v j, (Scalar.ofNat (n j) : FP M))) e
    (by
      conv_rhs => rw [hee]
      rw [List.map_ofFn, List.map_ofFn]; rfl)
    (fun q hq => by
      obtain ⟨j, rfl⟩ := (List.mem_ofFn' _ _).1 hq
      obtain ⟨r, h1, h2, h3, -⟩ := hv j
      exact ⟨r, h1, h2, h3⟩) Scalar.zero 0 ⟨0, val_zero, le_refl _, by simp⟩ (by omega)
  rw [Nat.zero_add] at hs1
  -- the sum
  have hsum : |s - ∑ j, (n j : ℝ) * u j| ≤ (2 * d + 301 / 100) * roundoff * (e.sum : ℕ) + (1 / 100) * roundoff := by
    have e1 := foldl_tree (fun vc : FP M × FP M => vc.2 *. vc.1) (List.ofFn fun j => (v j, (Scalar.ofNat (n j) : FP M)))
    rw [e1] at hs
    have e2 := products_err hM ((List.ofFn fun j => (v j, (Scalar.ofNat (n j) : FP M))).map fun q => (q.2, q.1))
      (t := leftTree (List.ofFn fun j => (v j, (Scalar.ofNat (n j) : FP M))).length)
      (by rw [leftTree_terms, List.length_map]) (z := s) (by rw [List.map_map]; exact hs)
    rw [List.map_ofFn, List.map_ofFn, List.map_ofFn, List.length_ofFn, List.sum_ofFn, List.sum_ofFn] at e2
    have hterm : ∀ j, real ((Scalar.ofNat (n j) : FP M)) = n j := fun j => is_real ((val_ofNat _).trans (hN _ (by
      have : n j ≤ e.sum := List.le_sum_of_mem (List.getElem_mem ..)
      omega)))
    have hsumn : ∑ j, (n j : ℝ) = (e.sum : ℕ) := by
      conv_rhs => rw [hee]
      rw [List.sum_ofFn]
      push_cast
      rfl
    have e3 : ∑ j, |(n j : ℝ) * real (v j)| ≤ (e.sum : ℕ) := by
      rw [← hsumn]
      refine Finset.sum_le_sum fun j _ => ?_
      obtain ⟨r, h1, h2, h3, -⟩ := hv j
      rw [is_real h1, abs_mul, abs_of_nonneg (Nat.cast_nonneg _), abs_of_nonneg h2]
      exact mul_le_of_le_one_right (Nat.cast_nonneg _) h3
    have e4 : |∑ j, (n j : ℝ) * real (v j) - ∑ j, (n j : ℝ) * u j| ≤ (301 / 100) * roundoff * (e.sum : ℕ) := by
      rw [← Finset.sum_sub_distrib, ← hsumn, Finset.mul_sum]
      refine (Finset.abs_sum_le_sum_abs _ _).trans (Finset.sum_le_sum fun j _ => ?_)
      obtain ⟨r, h1, h2, h3, h4⟩ := hv j
      rw [is_real h1, ← mul_sub, abs_mul, abs_of_nonneg (Nat.cast_nonneg _), mul_comm]
      exact mul_le_mul_of_nonneg_right h4 (Nat.cast_nonneg _)
    obtain ⟨g1, g2⟩ := growth hd'
    have hd1 : (d : ℝ) ≤ 2 ^ 40 := by exact_mod_cast hd'
    have e5 : (d : ℝ) * (1 + roundoff) ^ d * tiny ≤ (1 / 100) * roundoff := by
      have h1 : (d : ℝ) * (1 + roundoff) ^ d ≤ 2 ^ 40 * 2 := mul_le_mul hd1 g2 (by positivity) (by positivity)
      refine (mul_le_mul_of_nonneg_right h1 ht0.le).trans ?_
      have h2 := small_tiny (2 ^ (-10 : ℤ)) (-10) le_rfl (by norm_num)
      have h3 : roundoff * (2 : ℝ) ^ (-10 : ℤ) ≤ 1 / 100 * roundoff := by
        rw [mul_comm]
        exact mul_le_mul_of_nonneg_right (by norm_num) hu.le
      have h4 : (2 : ℝ) ^ 40 * 2 = 2 ^ 41 := by norm_num
      rw [h4]
      exact h2.trans h3
    have e6 : |s - ∑ j, (n j : ℝ) * real (v j)| ≤ 2 * (d * roundoff) * (e.sum : ℕ) + 1 / 100 * roundoff := by
      have k1 : ∀ j, ((fun p : FP M × FP M => real p.1 * real p.2) ∘ (fun q : FP M × FP M => (q.2, q.1)) ∘
          fun j => (v j, (Scalar.ofNat (n j) : FP M))) j = (n j : ℝ) * real (v j) := fun j => by
        show real (Scalar.ofNat (n j) : FP M) * real (v j) = _
        rw [hterm]
      have k2 : ∀ j, ((fun p : FP M × FP M => |real p.1 * real p.2|) ∘ (fun q : FP M × FP M => (q.2, q.1)) ∘
          fun j => (v j, (Scalar.ofNat (n j) : FP M))) j = |(n j : ℝ) * real (v j)| := fun j => by
        show |real (Scalar.ofNat (n j) : FP M) * real (v j)| = _
        rw [hterm]
      rw [Finset.sum_congr rfl fun j _ => k1 j, Finset.sum_congr rfl fun j _ => k2 j] at e2
      refine e2.trans (add_le_add ?_ e5)
      have hg0 : 0 ≤ (1 + roundoff) ^ d - 1 := sub_nonneg.2 (one_le_pow₀ (by linarith))
      refine (mul_le_mul_of_nonneg_left e3 hg0).trans (mul_le_mul_of_nonneg_right ?_ (Nat.cast_nonneg _))
      linarith
    have e7 := abs_sub_le s (∑ j, (n j : ℝ) * real (v j)) (∑ j, (n j : ℝ) * u j)
    have e8 : (2 * d + 301 / 100) * roundoff * (e.sum : ℕ) =
      2 * (d * roundoff) * (e.sum : ℕ) + 301 / 100 * roundoff * (e.sum : ℕ) := by ring
    rw [e8]
    linarith
  have hfour : fourierFeature u e = Real.cos (Real.pi * ∑ j, (n j : ℝ) * u j) := by
    unfold fourierFeature
    congr 2
    refine Finset.sum_congr rfl fun j _ => ?_
    have hj : (j : Nat) < e.length := by rw [hel]; exact j.2
    simp [n, hj]
  show ∃ r, Is _ r ∧ |r - fourierFeature u e| ≤ _
  rw [hfour]
  -- the argument of the cosine
  obtain ⟨q, hq, hq0, hq1⟩ := pi_err (M := M) hM
  have hpi3 := Real.two_le_pi
  have hpi4 := Real.pi_le_four
  have hu1 : roundoff ≤ 1 / 1000 := by unfold roundoff; norm_num
  have ht1 : tiny ≤ 1 / 2 ^ 53 * roundoff := by
    rw [show (1 : ℝ) / 2 ^ 53 = roundoff by norm_num [roundoff], roundoff, tiny, ← zpow_add₀ (by norm_num)]
    exact zpow_le_zpow_right₀ (by norm_num) (by norm_num)
  have hCr : ((e.sum : ℕ) : ℝ) ≤ 2 ^ 48 := by exact_mod_cast hC
  have hC0 : (0 : ℝ) ≤ (e.sum : ℕ) := Nat.cast_nonneg _
  have hq4 : q ≤ 101 / 100 * Real.pi := by
    have := (abs_le.1 hq1).2
    have := mul_le_mul_of_nonneg_right hu1 Real.pi_pos.le
    have : tiny ≤ 1 / 1000 := ht1.trans (by linarith)
    linarith
  have hqs : q * s ≤ 101 / 100 * Real.pi * (e.sum : ℕ) := mul_le_mul hq4 hs1 hs0 (by positivity)
  have hqs0 : 0 ≤ q * s := mul_nonneg hq0 hs0
  obtain ⟨t, ht⟩ := finite_of_small hM (a := Scalar.pi *. (List.ofFn fun j => (v j, (Scalar.ofNat (n j) : FP M))).foldl
      (fun acc vc => acc +. vc.2 *. vc.1) Scalar.zero) (x := q * s) (by rw [val_mul, hq, hs]; rfl) (by
    rw [abs_of_nonneg hqs0]
    refine hqs.trans ?_
    have : 101 / 100 * Real.pi * ((e.sum : ℕ) : ℝ) ≤ 5 * 2 ^ 48 := mul_le_mul (by linarith) hCr hC0 (by norm_num)
    exact this.trans (by norm_num))
  have hterr : |t - Real.pi * ∑ j, (n j : ℝ) * u j| ≤ Real.pi * (2 * d + 6) * (e.sum : ℕ) * roundoff + 1 / 2 * roundoff := by
    obtain ⟨a, b, ha, hb, h3⟩ := mul_err hM ht
    cases is_fun ha hq
    cases is_fun hb hs
    rw [abs_of_nonneg hqs0] at h3
    have h4 := mul_le_mul_of_nonneg_left hqs hu.le
    have h5 : |q * s - Real.pi * ∑ j, (n j : ℝ) * u j| ≤ (roundoff * Real.pi + tiny) * (e.sum : ℕ) +
        Real.pi * ((2 * d + 301 / 100) * roundoff * (e.sum : ℕ) + (1 / 100) * roundoff) := by
      rw [show q * s - Real.pi * ∑ j, (n j : ℝ) * u j = (q - Real.pi) * s + Real.pi * (s - ∑ j, (n j : ℝ) * u j) by ring]
      refine (abs_add_le _ _).trans (add_le_add ?_ ?_) <;> rw [abs_mul]
      · rw [abs_of_nonneg hs0]
        exact mul_le_mul hq1 hs1 hs0 ((abs_nonneg _).trans hq1)
      · rw [abs_of_pos Real.pi_pos]
        exact mul_le_mul_of_nonneg_left hsum Real.pi_pos.le
    have h6 : tiny * (e.sum : ℕ) ≤ 1 / 32 * roundoff := by
      refine (mul_le_mul ht1 hCr hC0 (by positivity)).trans (le_of_eq ?_)
      rw [mul_right_comm]
      congr 1
      norm_num
    have h7 := abs_sub_le t (q * s) (Real.pi * ∑ j, (n j : ℝ) * u j)
    have h8 : Real.pi * (1 / 100 * roundoff) ≤ 4 * (1 / 100 * roundoff) := mul_le_mul_of_nonneg_right hpi4 (by positivity)
    have h9 : tiny ≤ 1 / 32 * roundoff := ht1.trans (mul_le_mul_of_nonneg_right (by norm_num) hu.le)
    have h10 : 0 ≤ Real.pi * (e.sum : ℕ) * roundoff := by positivity
    have h11 : Real.pi * (2 * d + 6) * (e.sum : ℕ) * roundoff = Real.pi * ((2 * d + 301 / 100) * roundoff * (e.sum : ℕ)) +
      299 / 100 * (Real.pi * (e.sum : ℕ) * roundoff) := by ring
    have h12 : roundoff * (101 / 100 * Real.pi * (e.sum : ℕ)) = 101 / 100 * (Real.pi * (e.sum : ℕ) * roundoff) := by ring
    have h13 : (roundoff * Real.pi + tiny) * (e.sum : ℕ) = Real.pi * (e.sum : ℕ) * roundoff + tiny * (e.sum : ℕ) := by ring
    rw [h11]
    rw [h12] at h4
    rw [h13, mul_add] at h5
    generalize Real.pi * (e.sum : ℕ) * roundoff = A at *
    linarith
  -- the cosine
  have hb := M.cos_bounded t
  obtain ⟨w, hw, -⟩ := bounded_of_le (neg_one_le_rnd (M := M) (abs_le.1 hb).1) (rnd_le_one (abs_le.1 hb).2)
  refine ⟨w, ?_, ?_⟩
  · show (M.round (M.fcos ((Scalar.pi : FP M) *. _).1)).1 = _
    rw [ht]
    exact hw
  · have h1 := rnd_err hM hw
    have h2 : roundoff * |M.cos t| ≤ roundoff := mul_le_of_le_one_right hu.le hb
    have h3 := hε t
    have h4 : |Real.cos t - Real.cos (Real.pi * ∑ j, (n j : ℝ) * u j)| ≤ |t - Real.pi * ∑ j, (n j : ℝ) * u j| :=
      Real.abs_cos_sub_cos_le _ _
    have h5 := abs_sub_le w (M.cos t) (Real.cos (Real.pi * ∑ j, (n j : ℝ) * u j))
    have h6 := abs_sub_le (M.cos t) (Real.cos t) (Real.cos (Real.pi * ∑ j, (n j : ℝ) * u j))
    have h9 : tiny ≤ 1 / 32 * roundoff := ht1.trans (mul_le_mul_of_nonneg_right (by norm_num) hu.le)
    rw [add_mul]
    linarith

/-- The hypotheses are met: `binary64` rounds as `f64` does and its `cos` is the real one, and every input
of `(0, 1)` limits that is `0` in each coordinate is within them. -/
example : (binary64 : Machine).rnd = binary64Format.rnd ∧ (∀ r, |(binary64 : Machine).cos r - Real.cos r| ≤ 0) ∧
    ∀ (d : Nat) (_ : Fin d), Within (Scalar.zero : FP M) Scalar.zero Scalar.one := by
  refine ⟨rfl, fun r => ?_, fun _ _ => ⟨⟨0, val_zero⟩, ⟨1, val_one⟩, ?_, ?_, 1, ?_, one_ne_zero⟩⟩
  · show |Real.cos r - Real.cos r| ≤ 0
    rw [sub_self, abs_zero]
  · unfold Le; rw [val_zero]; exact le_refl (0 : ℝ)
  · unfold Le; rw [val_zero, val_one]; exact zero_le_one' ℝ
  · unfold Is
    rw [val_sub, val_zero, val_one]
    show M.rnd (1 + -0) = _
    rw [neg_zero, add_zero, M.rnd_one]

end Lfa

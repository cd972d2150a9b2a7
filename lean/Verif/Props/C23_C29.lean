import Verif.Proofs.Poly
import Verif.Proofs.Features
import Verif.Proofs.Special
import Verif.Model.Lfa
import Mathlib.Algebra.MvPolynomial.Degrees

/-!
# C23–C29: polynomial, Chebyshev and Fourier bases
-/

set_option linter.unusedSectionVars false

namespace Lfa

open Spec Features

/-! ## C23 Multi-index enumeration -/

/-- `MultiIndices p d` pins the list down completely. -/
theorem C23_multi_indices_unique {p d : Nat} {es es' : List (List Nat)}
    (h : MultiIndices p d es) (h' : MultiIndices p d es') : es = es' := by
  have n1 := h.sorted.imp (S := (· ≠ ·)) fun h => ne_of_lt h
  have n2 := h'.sorted.imp (S := (· ≠ ·)) fun h => ne_of_lt h
  have hp : es.Perm es' := (List.perm_ext_iff_of_nodup n1 n2).2 fun e => by rw [h.mem, h'.mem]
  exact hp.eq_of_pairwise (fun a b _ _ h1 h2 => absurd (lt_trans h1 h2) (lt_irrefl _))
    h.sorted h'.sorted

/-- The three bases over `d ≥ 1` inputs: the same lexicographic list of multi-indices, one feature
each, `(p+1)^d - 1` in all. (The Chebyshev functions belonging to a multi-index are those of
`polyOf`, identified in C26.) -/
theorem C23_enumeration {K : Type} [Scalar K] (p d : Nat) (hd : 0 < d) :
    ∃ es, MultiIndices p d es ∧ es.length = (p + 1) ^ d - 1 ∧
      (Polynomial.new d p).exponents = es ∧
      Space.dim (Polynomial.new d p) = .finite ((p + 1) ^ d - 1) ∧
      ∀ limits : List (K × K), limits.length = d →
        (Fourier.new p limits).coefficients = es.map (fun e => e.map Scalar.ofNat) ∧
        Space.dim (Fourier.new p limits) = .finite ((p + 1) ^ d - 1) ∧
        (p ≤ 11 → ∃ c, Chebyshev.new p limits = .ok c ∧
          Space.dim c = .finite ((p + 1) ^ d - 1) ∧
          List.Forall₂ (fun e fs => List.Forall₂ (fun n f => Chebyshev.polyOf n = .ok f) e fs)
            es c.polynomials) := by
  have hl := length_computeCoefficients p d hd
  refine ⟨computeCoefficients p d, computeCoefficients_spec p d hd, hl, rfl,
    congrArg Dim.finite hl, ?_⟩
  rintro limits rfl
  refine ⟨rfl, congrArg Dim.finite (by rw [← hl]; exact List.length_map _), fun hp => ?_⟩
  obtain ⟨g, hg⟩ : ∃ g : Nat → K → K, ∀ n ≤ 11, Chebyshev.polyOf n = .ok (g n) := by
    refine ⟨fun n => match (Chebyshev.polyOf n : P (K → K)) with | .ok f => f | .error _ => id, ?_⟩
    intro n hn
    interval_cases n <;> rfl
  have hle : ∀ e ∈ computeCoefficients p limits.length, ∀ c ∈ e, c ≤ 11 := fun e he c hc =>
    le_trans (le_of_mem_computeCoefficients he c hc) hp
  refine ⟨⟨p, limits, (computeCoefficients p limits.length).map fun e => e.map g⟩, ?_, ?_, ?_⟩
  · unfold Chebyshev.new Chebyshev.makePolynomials
    rw [if_neg (by omega), mapM_ok (g := fun e => e.map g)]
    · rfl
    · intro e he
      exact mapM_ok fun c hc => hg c (hle e he c hc)
  · exact congrArg Dim.finite (by rw [← hl]; exact List.length_map _)
  · rw [List.forall₂_map_right_iff, List.forall₂_same]
    intro e he
    rw [List.forall₂_map_right_iff, List.forall₂_same]
    intro n hn
    exact hg n (hle e he n hn)

/-- Without inputs there are no features. -/
theorem C23_no_inputs (p : Nat) : (Polynomial.new 0 p).exponents = [] := rfl

/-- Order 2 over two inputs, as in the crate's own tests. -/
example : MultiIndices 2 2 [[0,1],[0,2],[1,0],[1,1],[1,2],[2,0],[2,1],[2,2]] := by
  have := computeCoefficients_spec 2 2 (by decide)
  rwa [show computeCoefficients 2 2 = [[0,1],[0,2],[1,0],[1,1],[1,2],[2,0],[2,1],[2,2]] by decide]
    at this

/-! ## C24 Polynomial features are monomials -/

/-- The projection of `x` is the list of monomials, one per multi-index. -/
theorem C24_monomials (p d : Nat) (hd : 0 < d) (x : Fin d → ℝ) :
    ∃ es, MultiIndices p d es ∧
      Basis.project (Polynomial.new d p) (List.ofFn x) = .ok (.ok (.dense (es.map (monomial x)))) := by
  refine ⟨computeCoefficients p d, computeCoefficients_spec p d hd, ?_⟩
  show Except.ok (Except.ok (Features.dense ((computeCoefficients p d).map fun exps =>
    Polynomial.computeFeature ((List.ofFn x).zip exps)))) = _
  congr 3
  apply List.map_congr_left
  intro e he
  exact computeFeature_poly x e (length_of_mem_computeCoefficients he)

/-- Every real polynomial in `d` variables with degree at most `p` in each variable and no constant
term is an LFA over this basis. -/
theorem C24_expressive {O : Type} (o : O) (p d : Nat) (hd : 0 < d) (P : MvPolynomial (Fin d) ℝ)
    (hdeg : ∀ j, P.degreeOf j ≤ p) (h0 : P.coeff 0 = 0) :
    ∃ w : List ℝ, w.length = (p + 1) ^ d - 1 ∧ ∀ x : Fin d → ℝ,
      ScalarLFA.evaluate (⟨Polynomial.new d p, w, o⟩ : ScalarLFA Polynomial O ℝ) (List.ofFn x) =
        .ok (.ok (MvPolynomial.eval x P)) := by
  classical
  set es := computeCoefficients p d with hes
  have hsp := computeCoefficients_spec p d hd
  let toF : List Nat → Fin d →₀ ℕ := fun e => Finsupp.equivFunOnFinite.symm fun j => e.getD j 0
  refine ⟨es.map fun e => P.coeff (toF e), by rw [List.length_map, hes,
    length_computeCoefficients p d hd], fun x => ?_⟩
  obtain ⟨es', hs', hpr⟩ := C24_monomials p d hd x
  rw [C23_multi_indices_unique hs' hsp] at hpr
  unfold ScalarLFA.evaluate
  rw [hpr]
  show (Features.dot (.dense (es.map (monomial x))) _).map Except.ok = _
  rw [dot_real (φ := .dense (es.map (monomial x))) trivial (by simp [dim])]
  show Except.ok (Except.ok _) = _
  congr 2
  have hin : inner (.dense (es.map (monomial x))) (es.map fun e => P.coeff (toF e)) =
      (es.map fun e => P.coeff (toF e) * monomial x e).sum := by
    unfold inner
    simp only [value_dense, real_zero, dim]
    rw [← sum_zipWith_eq (fun a b => a * b) _ _ (by simp)]
    congr 1
    rw [List.zipWith_map_left, List.zipWith_map_right, List.zipWith_self]
    exact List.map_congr_left fun e _ => mul_comm _ _
  rw [hin, MvPolynomial.eval_eq']
  have hnd : es.Nodup := hsp.sorted.imp fun h => ne_of_lt h
  rw [← List.sum_toFinset _ hnd]
  have hinj : ∀ e ∈ es.toFinset, ∀ e' ∈ es.toFinset, toF e = toF e' → e = e' := by
    intro e he e' he' h
    have l1 := ((hsp.mem e).1 (List.mem_toFinset.1 he)).1
    have l2 := ((hsp.mem e').1 (List.mem_toFinset.1 he')).1
    apply List.ext_getElem (by rw [l1, l2])
    intro i h1 h2
    have := DFunLike.congr_fun h ⟨i, l1 ▸ h1⟩
    simpa [toF, h1, h2] using this
  rw [← Finset.sum_subset (s₁ := es.toFinset.image toF ∩ P.support) Finset.inter_subset_right]
  · rw [Finset.sum_subset (s₂ := es.toFinset.image toF) Finset.inter_subset_left]
    · exact (Finset.sum_image
        (f := fun m : Fin d →₀ ℕ => P.coeff m * ∏ i, x i ^ m i) hinj).symm
    · intro m hm hn
      rw [Finset.mem_inter, not_and] at hn
      rw [MvPolynomial.notMem_support_iff.1 (hn hm), zero_mul]
  · intro m hm hn
    exfalso
    apply hn
    rw [Finset.mem_inter]
    refine ⟨Finset.mem_image.2 ⟨List.ofFn m, List.mem_toFinset.2 ((hsp.mem _).2 ⟨by simp, ?_, ?_⟩), ?_⟩,
      hm⟩
    · intro c hc
      obtain ⟨j, rfl⟩ := (List.mem_ofFn' _ _).1 hc
      exact le_trans (MvPolynomial.monomial_le_degreeOf j hm) (hdeg j)
    · by_contra hc
      push Not at hc
      apply MvPolynomial.mem_support_iff.1 hm
      have : m = 0 := by
        ext j
        exact hc (m j) ((List.mem_ofFn' _ _).2 ⟨j, rfl⟩)
      rw [this, h0]
    · ext j
      simp [toF]

/-- Non-trivial: the polynomial `X₀` meets the hypotheses. -/
example : ∃ P : MvPolynomial (Fin 2) ℝ, P ≠ 0 ∧ (∀ j, P.degreeOf j ≤ 2) ∧ P.coeff 0 = 0 := by
  refine ⟨MvPolynomial.X 0, MvPolynomial.X_ne_zero 0, fun j => ?_, ?_⟩
  · rw [MvPolynomial.degreeOf_X]; split <;> decide
  · simp [MvPolynomial.coeff_zero_X]

/-! ## C25 with_zeroth appends a constant feature

Full claim: for all orders and dimensions. For `Polynomial` it fails when there are no multi-indices
(order 0, or no inputs): `C25_polynomial_panics`. -/

/-- `Polynomial`: one more feature, constantly 1 (whatever the input, NaN included), the others
unchanged. Missing: a basis without features, where the call panics. -/
theorem C25_polynomial_partial (b : Polynomial) (hb : b.exponents ≠ []) :
    ∃ b', b.withZeroth = .ok b' ∧
      (∀ (input : List ℝ) (fs : List ℝ), Basis.project b input = .ok (.ok (.dense fs)) →
        Basis.project b' input = .ok (.ok (.dense (fs ++ [1])))) ∧
      (∀ (input : List XReal) (fs : List XReal), Basis.project b input = .ok (.ok (.dense fs)) →
        Basis.project b' input = .ok (.ok (.dense (fs ++ [.fin 1])))) := by
  obtain ⟨e₀, es, he⟩ := List.exists_cons_of_ne_nil hb
  refine ⟨⟨b.order, b.exponents ++ [List.replicate e₀.length 0]⟩, ?_, ?_, ?_⟩
  · unfold Polynomial.withZeroth
    rw [he]; rfl
  · intro input fs h
    have h : Except.ok (Except.ok (Features.dense _)) = Except.ok (Except.ok _) := h
    cases h
    show Except.ok (Except.ok (Features.dense ((b.exponents ++ [_]).map _))) = _
    rw [List.map_append, List.map_singleton]
    congr 5
    unfold Polynomial.computeFeature
    rw [foldl_mul_eq_prod]
    apply List.prod_eq_one
    intro y hy
    obtain ⟨t, ht, rfl⟩ := List.mem_map.1 hy
    have : t.2 = 0 := List.eq_of_mem_replicate (List.of_mem_zip ht).2
    show t.1 ^ t.2 = 1
    rw [this, pow_zero]
  · intro input fs h
    have h : Except.ok (Except.ok (Features.dense _)) = Except.ok (Except.ok _) := h
    cases h
    show Except.ok (Except.ok (Features.dense ((b.exponents ++ [_]).map _))) = _
    rw [List.map_append, List.map_singleton]
    congr 5
    unfold Polynomial.computeFeature
    have key : ∀ (l : List XReal), (∀ y ∈ l, y = .fin 1) →
        l.foldl (· *. ·) (.fin 1) = XReal.fin 1 := by
      intro l
      induction l with
      | nil => intro _; rfl
      | cons a l ih =>
        intro h
        rw [List.foldl_cons, h a List.mem_cons_self,
          show (XReal.fin 1 *. XReal.fin 1) = XReal.fin 1 from congrArg XReal.fin (mul_one 1)]
        exact ih fun y hy => h y (List.mem_cons_of_mem _ hy)
    rw [show (Scalar.one : XReal) = .fin 1 from congrArg XReal.fin Nat.cast_one]
    apply key
    intro y hy
    obtain ⟨t, ht, rfl⟩ := List.mem_map.1 hy
    have : t.2 = 0 := List.eq_of_mem_replicate (List.of_mem_zip ht).2
    show XReal.powi t.1 t.2 = _
    rw [this]; rfl

/-- `Polynomial::new(d, p)` satisfies the hypothesis exactly when `d, p ≥ 1`. -/
theorem C25_polynomial_nonempty (p d : Nat) : (Polynomial.new d p).exponents ≠ [] ↔ 0 < d ∧ 0 < p := by
  constructor
  · intro h
    rcases Nat.eq_zero_or_pos d with rfl | hd
    · exact absurd rfl h
    · refine ⟨hd, Nat.pos_of_ne_zero ?_⟩
      rintro rfl
      apply h
      apply List.eq_nil_of_length_eq_zero
      show (computeCoefficients 0 d).length = 0
      rw [length_computeCoefficients 0 d hd]; simp
  · rintro ⟨hd, hp⟩ h
    have := length_computeCoefficients p d hd
    rw [show computeCoefficients p d = [] from h] at this
    have h2 : 1 < (p + 1) ^ d := Nat.one_lt_pow hd.ne' (by omega)
    simp at this
    omega

/-- The code violates the full claim: on a basis without features (order 0 or no inputs)
`with_zeroth` panics. -/
theorem C25_polynomial_panics (p d : Nat) (h : ¬ (0 < d ∧ 0 < p)) :
    Panics (Polynomial.new d p).withZeroth := by
  have : (Polynomial.new d p).exponents = [] := by
    by_contra hc; exact h ((C25_polynomial_nonempty p d).1 hc)
  unfold Polynomial.withZeroth
  rw [this]
  exact ⟨_, rfl⟩

/-- `Chebyshev`: for every basis, one more feature, constantly 1, the others unchanged. -/
theorem C25_chebyshev (c : Chebyshev ℝ) (input fs : List ℝ)
    (h : Basis.project c input = .ok (.ok (.dense fs))) :
    Basis.project c.withZeroth input = .ok (.ok (.dense (fs ++ [1]))) := by
  have h : Except.ok (Except.ok (Features.dense _)) = Except.ok (Except.ok _) := h
  cases h
  show Except.ok (Except.ok (Features.dense ((c.polynomials ++ [_]).map _))) = _
  rw [List.map_append, List.map_singleton]
  congr 5
  unfold Chebyshev.computeFeature
  rw [foldl_mul_eq_prod]
  apply List.prod_eq_one
  intro y hy
  obtain ⟨t, ht, rfl⟩ := List.mem_map.1 hy
  have : t.2 = fun _ => Scalar.one := List.eq_of_mem_replicate (List.of_mem_zip ht).2
  show t.2 t.1 = 1
  rw [this]; exact real_one

/-- The same with NaN and infinite inputs. -/
theorem C25_chebyshev_special (c : Chebyshev XReal) (input fs : List XReal)
    (h : Basis.project c input = .ok (.ok (.dense fs))) :
    Basis.project c.withZeroth input = .ok (.ok (.dense (fs ++ [.fin 1]))) := by
  have h : Except.ok (Except.ok (Features.dense _)) = Except.ok (Except.ok _) := h
  cases h
  show Except.ok (Except.ok (Features.dense ((c.polynomials ++ [_]).map _))) = _
  rw [List.map_append, List.map_singleton]
  congr 5
  unfold Chebyshev.computeFeature
  have h1 : (Scalar.one : XReal) = .fin 1 := congrArg XReal.fin Nat.cast_one
  have key : ∀ (l : List XReal), (∀ y ∈ l, y = .fin 1) →
      l.foldl (· *. ·) (.fin 1) = XReal.fin 1 := by
    intro l
    induction l with
    | nil => intro _; rfl
    | cons a l ih =>
      intro h
      rw [List.foldl_cons, h a List.mem_cons_self,
        show (XReal.fin 1 *. XReal.fin 1) = XReal.fin 1 from congrArg XReal.fin (mul_one 1)]
      exact ih fun y hy => h y (List.mem_cons_of_mem _ hy)
  rw [h1]
  apply key
  intro y hy
  obtain ⟨t, ht, rfl⟩ := List.mem_map.1 hy
  have : t.2 = fun _ => .fin 1 := List.eq_of_mem_replicate (List.of_mem_zip ht).2
  show t.2 t.1 = _
  rw [this]

/-! ## C26 Chebyshev polynomials -/

/-- The twelve hard-coded functions are `T_0, …, T_11`. -/
theorem C26_hard_coded (n : Nat) (hn : n ≤ 11) : ∃ f : ℝ → ℝ, Chebyshev.polyOf n = .ok f ∧
    ∀ x, f x = (_root_.Polynomial.Chebyshev.T ℝ (n : ℤ)).eval x := polyOf_eq n hn

/-- Orders above 11 panic, whatever the limits (and arithmetic); orders up to 11 do not. -/
theorem C26_orders {K : Type} [Scalar K] (p : Nat) (limits : List (K × K)) :
    (11 < p → Chebyshev.new p limits = .error Chebyshev.orderPanic) ∧
    (p ≤ 11 → ∃ c, Chebyshev.new p limits = .ok c ∧ c.order = p ∧ c.limits = limits) := by
  constructor
  · intro h; unfold Chebyshev.new; rw [if_pos h]
  · intro h
    rcases Nat.eq_zero_or_pos limits.length with hl | hl
    · refine ⟨⟨p, limits, []⟩, ?_, rfl, rfl⟩
      unfold Chebyshev.new Chebyshev.makePolynomials
      rw [if_neg (by omega), hl]; rfl
    · obtain ⟨es, -, -, -, -, h'⟩ := C23_enumeration (K := K) p limits.length hl
      obtain ⟨c, hc, -⟩ := (h' limits rfl).2.2 h
      refine ⟨c, hc, ?_⟩
      unfold Chebyshev.new at hc
      rw [if_neg (by omega)] at hc
      obtain ⟨ps, -, hc⟩ := P.bind_eq_ok.1 hc
      cases hc
      exact ⟨rfl, rfl⟩

/-- The features: products of Chebyshev polynomials of the coordinates rescaled to `[-1, 1]`. -/
theorem C26_features (p d : Nat) (hp : p ≤ 11) (hd : 0 < d) (lo hi x : Fin d → ℝ) :
    ∃ es c, MultiIndices p d es ∧ Chebyshev.new p (List.ofFn fun j => (lo j, hi j)) = .ok c ∧
      Basis.project c (List.ofFn x) =
        .ok (.ok (.dense (es.map (chebProduct (unit lo hi x))))) := by
  refine ⟨computeCoefficients p d, _, computeCoefficients_spec p d hd, new_real p _ hp, ?_⟩
  show Except.ok (Except.ok (Features.dense (((computeCoefficients p
    (List.ofFn fun j => (lo j, hi j)).length).map fun e => e.map chebT).map fun ps =>
      Chebyshev.computeFeature ((_ : List ℝ).zip ps)))) = _
  rw [List.length_ofFn, List.map_map]
  congr 3
  apply List.map_congr_left
  intro e he
  unfold Chebyshev.scaledState
  show Chebyshev.computeFeature (((rescale (List.ofFn x) (List.ofFn fun j => (lo j, hi j))).map _).zip
    (e.map chebT)) = _
  rw [rescale_ofFn]
  exact computeFeature_cheb _ e (length_of_mem_computeCoefficients he)

/-- Inside the limits every feature lies in `[-1, 1]`. -/
theorem C26_bounded (p d : Nat) (hp : p ≤ 11) (hd : 0 < d) (lo hi x : Fin d → ℝ)
    (hlim : ∀ j, lo j < hi j) (hx : ∀ j, lo j ≤ x j ∧ x j ≤ hi j) :
    ∃ c fs, Chebyshev.new p (List.ofFn fun j => (lo j, hi j)) = .ok c ∧
      Basis.project c (List.ofFn x) = .ok (.ok (.dense fs)) ∧ ∀ v ∈ fs, |v| ≤ 1 := by
  obtain ⟨es, c, -, hc, hpr⟩ := C26_features p d hp hd lo hi x
  refine ⟨c, _, hc, hpr, ?_⟩
  intro v hv
  obtain ⟨e, -, rfl⟩ := List.mem_map.1 hv
  unfold chebProduct
  rw [Finset.abs_prod]
  apply Finset.prod_le_one (fun j _ => abs_nonneg _)
  intro j _
  apply abs_T_le_one
  unfold unit
  have h1 := hlim j
  obtain ⟨h2, h3⟩ := hx j
  have hpos : 0 < hi j - lo j := by linarith
  have hu0 : 0 ≤ (x j - lo j) / (hi j - lo j) := div_nonneg (by linarith) hpos.le
  have hu1 : (x j - lo j) / (hi j - lo j) ≤ 1 := (div_le_one hpos).2 (by linarith)
  rw [abs_le]
  constructor <;> linarith

example : ∃ lo hi x : Fin 2 → ℝ, (∀ j, lo j < hi j) ∧ ∀ j, lo j ≤ x j ∧ x j ≤ hi j :=
  ⟨fun _ => 0, fun _ => 2, fun _ => 1, fun _ => by norm_num, fun _ => by norm_num⟩

/-! ## C27 Chebyshev serde round trip

Full claim: for all `Chebyshev` values. False after `with_zeroth`, whose extra feature is lost
(`C27_with_zeroth_lost`). -/

section C27
variable {K : Type} [Scalar K]
open Chebyshev

theorem new_fields {n : Nat} {l : List (K × K)} {c : Chebyshev K} (h : Chebyshev.new n l = .ok c) :
    c.order = n ∧ c.limits = l := by
  unfold Chebyshev.new at h
  split at h
  · cases h
  · obtain ⟨ps, -, h⟩ := P.bind_eq_ok.1 h
    cases h; exact ⟨rfl, rfl⟩

/-- A basis built by `new` (or `from_space`, which ends in `new`) comes back exactly, from the
sequence form and from the map form in any field order. Missing: bases extended by `with_zeroth`. -/
theorem C27_round_trip_partial (n : Nat) (l : List (K × K)) (c : Chebyshev K)
    (h : Chebyshev.new n l = .ok c) :
    visitSeq (serializeSeq c) = .ok (.ok c) ∧
    ∀ m, m.Perm (serializeMap c) → visitMap m = .ok (.ok c) := by
  obtain ⟨h1, h2⟩ := new_fields h
  have hnew : (Chebyshev.new c.order c.limits).map Except.ok = .ok (.ok c : Except DeError _) := by
    rw [h1, h2, h]; rfl
  refine ⟨hnew, ?_⟩
  intro m hm
  unfold serializeMap at hm
  rcases m with _ | ⟨a, _ | ⟨b, _ | ⟨x, m⟩⟩⟩
  · simp at hm
  · exact absurd hm.length_eq (by simp)
  · rw [List.perm_pair] at hm
    rcases hm with ⟨rfl, rfl⟩ | ⟨rfl, rfl⟩
    · exact hnew
    · exact hnew
  · exact absurd hm.length_eq (by simp)

/-- `from_space` ends in `new`, so its results are covered. -/
theorem C27_from_space_covered (n : Nat) (space : List (Interval K)) (c : Chebyshev K)
    (h : Chebyshev.fromSpace n space = .ok c) : ∃ l, Chebyshev.new n l = .ok c := by
  obtain ⟨l, -, h⟩ := P.bind_eq_ok.1 h
  exact ⟨l, h⟩

/-- The code violates the full claim: `with_zeroth` does not survive, the result has one feature
less. -/
theorem C27_with_zeroth_lost (n : Nat) (l : List (K × K)) (c : Chebyshev K)
    (h : Chebyshev.new n l = .ok c) :
    ∃ c', visitSeq (serializeSeq c.withZeroth) = .ok (.ok c') ∧
      c'.polynomials.length + 1 = c.withZeroth.polynomials.length := by
  refine ⟨c, (C27_round_trip_partial n l c h).1, ?_⟩
  show _ = (c.polynomials ++ [_]).length
  simp

/-- The fields of a serialised map, of the right types. -/
def WellTyped (m : List (Field × SerValue K)) : Prop :=
  ∀ e ∈ m, (∃ n, e = (.order, .order n)) ∨ ∃ l, e = (.limits, .limits l)

theorem visitMapLoop_spec : ∀ (m : List (Field × SerValue K)), WellTyped m →
    ∀ (o : Option Nat) (l : Option (List (K × K))),
    ((o.toList.length + m.countP (fun e => e.1 = .order) ≤ 1 ∧
      l.toList.length + m.countP (fun e => e.1 = .limits) ≤ 1) →
      ∃ o' l', visitMapLoop m o l = .ok (o', l') ∧
        (o'.isSome ↔ o.isSome ∨ 0 < m.countP (fun e => e.1 = .order)) ∧
        (l'.isSome ↔ l.isSome ∨ 0 < m.countP (fun e => e.1 = .limits)) ∧
        (∀ n, (.order, .order n) ∈ m → o' = some n) ∧
        (∀ x, (.limits, .limits x) ∈ m → l' = some x) ∧
        (o.isSome → o' = o) ∧ (l.isSome → l' = l)) ∧
    (¬ (o.toList.length + m.countP (fun e => e.1 = .order) ≤ 1 ∧
      l.toList.length + m.countP (fun e => e.1 = .limits) ≤ 1) →
      ∃ name, visitMapLoop m o l = .error (.duplicateField name)) := by
  intro m
  induction m with
  | nil =>
    intro _ o l
    refine ⟨fun _ => ⟨o, l, rfl, by simp, by simp, by simp, by simp, fun _ => rfl, fun _ => rfl⟩,
      fun h => ?_⟩
    exfalso; apply h
    cases o <;> cases l <;> simp
  | cons e m ih =>
    intro hw o l
    have hw' : WellTyped m := fun e' h' => hw e' (List.mem_cons_of_mem _ h')
    rcases hw e List.mem_cons_self with ⟨n, rfl⟩ | ⟨x, rfl⟩
    · cases o with
      | some v =>
        refine ⟨fun h => ?_, fun _ => ⟨_, rfl⟩⟩
        have := h.1
        simp at this
      | none =>
        obtain ⟨ih1, ih2⟩ := ih hw' (some n) l
        have e1 : (List.countP (fun e : Field × SerValue K => decide (e.1 = .order))
          ((.order, .order n) :: m)) = m.countP (fun e => e.1 = .order) + 1 := by simp
        have e2 : (List.countP (fun e : Field × SerValue K => decide (e.1 = .limits))
          ((.order, .order n) :: m)) = m.countP (fun e => e.1 = .limits) := by simp
        rw [e1, e2]
        simp only [Option.toList, List.length_nil, List.length_cons] at ih1 ih2 ⊢
        refine ⟨fun h => ?_, fun h => ih2 (fun hc => h (by omega))⟩
        obtain ⟨o', l', h1, h2, h3, h4, h5, h6, h7⟩ := ih1 (by omega)
        refine ⟨o', l', h1, by simp [h6 rfl], h3, ?_, ?_, by simp, h7⟩
        · intro n' hn'
          rcases List.mem_cons.1 hn' with hn' | hn'
          · cases hn'; exact h6 rfl
          · exact h4 _ hn'
        · intro x hx
          rcases List.mem_cons.1 hx with hx | hx
          · cases hx
          · exact h5 _ hx
    · cases l with
      | some v =>
        refine ⟨fun h => ?_, fun _ => ⟨_, rfl⟩⟩
        have := h.2
        simp at this
      | none =>
        obtain ⟨ih1, ih2⟩ := ih hw' o (some x)
        have e1 : (List.countP (fun e : Field × SerValue K => decide (e.1 = .limits))
          ((.limits, .limits x) :: m)) = m.countP (fun e => e.1 = .limits) + 1 := by simp
        have e2 : (List.countP (fun e : Field × SerValue K => decide (e.1 = .order))
          ((.limits, .limits x) :: m)) = m.countP (fun e => e.1 = .order) := by simp
        rw [e1, e2]
        simp only [Option.toList, List.length_nil, List.length_cons] at ih1 ih2 ⊢
        refine ⟨fun h => ?_, fun h => ih2 (fun hc => h (by omega))⟩
        obtain ⟨o', l', h1, h2, h3, h4, h5, h6, h7⟩ := ih1 (by omega)
        refine ⟨o', l', h1, h2, by simp [h7 rfl], ?_, ?_, h6, by simp⟩
        · intro n' hn'
          rcases List.mem_cons.1 hn' with hn' | hn'
          · cases hn'
          · exact h4 _ hn'
        · intro y hy
          rcases List.mem_cons.1 hy with hy | hy
          · cases hy; exact h7 rfl
          · exact h5 _ hy

/-- Duplicated fields are an error, wherever they stand. -/
theorem C27_duplicates (m : List (Field × SerValue K)) (hw : WellTyped m)
    (hd : 2 ≤ m.countP (fun e => e.1 = .order) ∨ 2 ≤ m.countP (fun e => e.1 = .limits)) :
    ∃ name, visitMap m = .ok (.error (.duplicateField name)) := by
  obtain ⟨name, h⟩ := (visitMapLoop_spec m hw none none).2 (by
    simp only [Option.toList, List.length_nil]; omega)
  exact ⟨name, by unfold visitMap; rw [h]⟩

/-- Missing fields are errors naming the field (the order first). -/
theorem C27_missing (m : List (Field × SerValue K)) (hw : WellTyped m)
    (ho : m.countP (fun e => e.1 = .order) ≤ 1) (hl : m.countP (fun e => e.1 = .limits) ≤ 1) :
    (m.countP (fun e => e.1 = .order) = 0 →
      visitMap m = .ok (.error (.missingField "order"))) ∧
    (m.countP (fun e => e.1 = .order) = 1 → m.countP (fun e => e.1 = .limits) = 0 →
      visitMap m = .ok (.error (.missingField "limits"))) := by
  obtain ⟨o', l', h1, h2, h3, -⟩ := (visitMapLoop_spec m hw none none).1 (by
    simp only [Option.toList, List.length_nil]; omega)
  constructor
  · intro h
    rw [h] at h2
    cases o' with
    | some v => simp at h2
    | none => unfold visitMap; rw [h1]
  · intro h h'
    rw [h] at h2
    rw [h'] at h3
    cases o' with
    | none => simp at h2
    | some v =>
      cases l' with
      | some v => simp at h3
      | none => unfold visitMap; rw [h1]

/-- Short sequences are errors naming the length. -/
theorem C27_short_seq (n : Nat) :
    visitSeq ([] : List (SerValue K)) = .ok (.error (.invalidLength 0)) ∧
    visitSeq ([.order n] : List (SerValue K)) = .ok (.error (.invalidLength 1)) := ⟨rfl, rfl⟩

/-- Beyond the claim: an order above 11 in the data is a panic, not an error. -/
theorem C27_order_panics (n : Nat) (l : List (K × K)) (h : 11 < n) :
    visitSeq [.order n, .limits l] = .error orderPanic := by
  show (Chebyshev.new n l).map Except.ok = _
  rw [(C26_orders n l).1 h]; rfl

example (l : List (K × K)) : ∃ c, Chebyshev.new 3 l = .ok c := by
  obtain ⟨c, hc, -⟩ := (C26_orders 3 l).2 (by decide)
  exact ⟨c, hc⟩

end C27

/-! ## C28 Fourier features -/

/-- The features: `cos(π e·u)` of the rescaled coordinates. -/
theorem C28_features (p d : Nat) (hd : 0 < d) (lo hi x : Fin d → ℝ) :
    ∃ es, MultiIndices p d es ∧
      Basis.project (Fourier.new p (List.ofFn fun j => (lo j, hi j))) (List.ofFn x) =
        .ok (.ok (.dense (es.map (fourierFeature (unit lo hi x))))) := by
  refine ⟨computeCoefficients p d, computeCoefficients_spec p d hd, ?_⟩
  show Except.ok (Except.ok (Features.dense (((computeCoefficients p
    (List.ofFn fun j => (lo j, hi j)).length).map fun e => e.map fun c => Scalar.ofNat c).map
      fun cfs => Fourier.computeFeature
        ((rescale (List.ofFn x) (List.ofFn fun j => (lo j, hi j))).zip cfs)))) = _
  rw [List.length_ofFn, List.map_map]
  congr 3
  apply List.map_congr_left
  intro e he
  rw [rescale_ofFn]
  exact computeFeature_fourier _ e (length_of_mem_computeCoefficients he)

/-- Any input, of any length, any limits: every feature is in `[-1, 1]`. -/
theorem C28_bounded (p : Nat) (limits : List (ℝ × ℝ)) (input : List ℝ) :
    ∃ fs, Basis.project (Fourier.new p limits) input = .ok (.ok (.dense fs)) ∧
      ∀ v ∈ fs, -1 ≤ v ∧ v ≤ 1 := by
  refine ⟨_, rfl, ?_⟩
  intro v hv
  obtain ⟨e, -, rfl⟩ := List.mem_map.1 hv
  exact ⟨Real.neg_one_le_cos _, Real.cos_le_one _⟩

/-- 1 at the lower corner. -/
theorem C28_lower_corner (p d : Nat) (hd : 0 < d) (lo hi : Fin d → ℝ) :
    Basis.project (Fourier.new p (List.ofFn fun j => (lo j, hi j))) (List.ofFn lo) =
      .ok (.ok (.dense (List.replicate ((p + 1) ^ d - 1) 1))) := by
  obtain ⟨es, hes, h⟩ := C28_features p d hd lo hi lo
  rw [h, C23_multi_indices_unique hes (computeCoefficients_spec p d hd),
    ← length_computeCoefficients p d hd, ← List.map_const']
  congr 3
  apply List.map_congr_left
  intro e _
  unfold fourierFeature unit
  simp

/-- `(-1)^(e₁ + … + e_d)` at the upper corner. -/
theorem C28_upper_corner (p d : Nat) (hd : 0 < d) (lo hi : Fin d → ℝ) (hne : ∀ j, lo j ≠ hi j) :
    ∃ es, MultiIndices p d es ∧
      Basis.project (Fourier.new p (List.ofFn fun j => (lo j, hi j))) (List.ofFn hi) =
        .ok (.ok (.dense (es.map fun e => (-1) ^ e.sum))) := by
  obtain ⟨es, hes, h⟩ := C28_features p d hd lo hi hi
  refine ⟨es, hes, ?_⟩
  rw [h]
  congr 3
  apply List.map_congr_left
  intro e he
  have hl := ((hes.mem e).1 he).1
  have hsum : ∑ j : Fin d, (e.getD j 0 : ℝ) * unit lo hi hi j = (e.sum : ℝ) := by
    have h1 : ∀ j : Fin d, unit lo hi hi j = 1 := fun j =>
      div_self (sub_ne_zero.2 (hne j).symm)
    simp only [h1, mul_one]
    rw [← Nat.cast_sum]
    congr 1
    subst hl
    rw [← List.sum_ofFn]
    congr 1
    apply List.ext_getElem (by simp)
    intro i h1 h2
    simp
  unfold fourierFeature
  rw [hsum, mul_comm]
  exact Real.cos_nat_mul_pi _

/-- Moving one coordinate by twice the width of its limits changes nothing. -/
theorem C28_periodic (p d : Nat) (hd : 0 < d) (lo hi x : Fin d → ℝ) (hne : ∀ j, lo j ≠ hi j)
    (k : Fin d) :
    Basis.project (Fourier.new p (List.ofFn fun j => (lo j, hi j)))
        (List.ofFn fun j => if j = k then x j + 2 * (hi j - lo j) else x j) =
      Basis.project (Fourier.new p (List.ofFn fun j => (lo j, hi j))) (List.ofFn x) := by
  obtain ⟨es, hes, h⟩ := C28_features p d hd lo hi x
  obtain ⟨es', hes', h'⟩ := C28_features p d hd lo hi
    fun j => if j = k then x j + 2 * (hi j - lo j) else x j
  rw [C23_multi_indices_unique hes' hes] at h'
  rw [h, h']
  congr 3
  apply List.map_congr_left
  intro e _
  unfold fourierFeature
  have hu : ∀ j, unit lo hi (fun j => if j = k then x j + 2 * (hi j - lo j) else x j) j =
      unit lo hi x j + if j = k then 2 else 0 := by
    intro j
    have hw : hi j - lo j ≠ 0 := sub_ne_zero.2 (hne j).symm
    unfold unit
    by_cases hj : j = k
    · simp only [if_pos hj]; field_simp; ring
    · simp only [if_neg hj]; ring
  simp only [hu, mul_add, Finset.sum_add_distrib, mul_ite, mul_zero, Finset.sum_ite_eq',
    Finset.mem_univ, if_true]
  rw [show Real.pi * ((e.getD (k : Nat) 0 : ℝ) * 2) = ((e.getD (k : Nat) 0 : ℕ) : ℝ) * (2 * Real.pi)
    by ring]
  exact Real.cos_add_nat_mul_two_pi _ _

/-! ## C29 Input rescaling -/

/-- Coordinate by coordinate; extra inputs or limits are ignored. -/
theorem C29_pointwise (xs : List ℝ) (limits : List (ℝ × ℝ)) (i : Nat) (x lo hi : ℝ)
    (hx : xs[i]? = some x) (hl : limits[i]? = some (lo, hi)) :
    (rescale xs limits).length = min xs.length limits.length ∧
    (rescale xs limits)[i]? = some ((x - lo) / (hi - lo)) := by
  unfold rescale
  refine ⟨by simp, ?_⟩
  rw [List.getElem?_map, (List.getElem?_zip_eq_some (z := (x, (lo, hi)))).2 ⟨hx, hl⟩]
  rfl

/-- One coordinate: the lower limit goes to 0, the upper to 1, strictly monotone, and the result is
in `[0, 1]` exactly inside the limits. -/
theorem C29_affine (lo hi : ℝ) (h : lo < hi) :
    rescale [lo] [(lo, hi)] = [0] ∧ rescale [hi] [(lo, hi)] = [1] ∧
    ∀ x y, ∃ u v, rescale [x] [(lo, hi)] = [u] ∧ rescale [y] [(lo, hi)] = [v] ∧
      (u < v ↔ x < y) ∧ (v - u) * (hi - lo) = y - x ∧
      ((0 ≤ u ∧ u ≤ 1) ↔ (lo ≤ x ∧ x ≤ hi)) := by
  have hpos : 0 < hi - lo := by linarith
  refine ⟨?_, ?_, fun x y => ⟨(x - lo) / (hi - lo), (y - lo) / (hi - lo), rfl, rfl, ?_, ?_, ?_⟩⟩
  · show [(lo - lo) / (hi - lo)] = _; simp
  · show [(hi - lo) / (hi - lo)] = _; rw [div_self hpos.ne']
  · rw [div_lt_div_iff_of_pos_right hpos]; constructor <;> intro h <;> linarith
  · field_simp; ring
  · rw [div_le_one hpos, le_div_iff₀ hpos, zero_mul]
    constructor <;> rintro ⟨h1, h2⟩ <;> constructor <;> linarith

/-- Degenerate limits: NaN at the limit itself, an infinity elsewhere. -/
theorem C29_degenerate (l x : ℝ) :
    ∃ u, rescale [XReal.fin x] [(.fin l, .fin l)] = [u] ∧ NotFinite u ∧
      (x = l → u = .nan) ∧ (l < x → u = .pinf) ∧ (x < l → u = .ninf) := by
  have e : rescale [XReal.fin x] [(.fin l, .fin l)] =
      [XReal.div (.fin (x + -l)) (.fin (l + -l))] := rfl
  have : XReal.div (.fin (x + -l)) (.fin (l + -l)) =
      if x + -l = 0 then .nan else XReal.infSign (x + -l) := by
    show (if l + -l = 0 then _ else _) = _
    rw [if_pos (by ring)]
  rw [this] at e
  refine ⟨_, e, ?_, ?_, ?_, ?_⟩
  · intro r
    split
    · simp
    · unfold XReal.infSign; split <;> simp
  · intro h; rw [if_pos (by rw [h]; ring)]
  · intro h
    rw [if_neg (by intro h'; linarith)]
    unfold XReal.infSign; rw [if_pos (by linarith)]
  · intro h
    rw [if_neg (by intro h'; linarith)]
    unfold XReal.infSign; rw [if_neg (by linarith)]

/-- Consequence: one degenerate limit turns every Fourier feature into NaN, also those whose
coefficient for that coordinate is 0. -/
theorem C29_degenerate_fourier (p : Nat) (limits : List (ℝ × ℝ)) (xs : List ℝ) (i : Nat) (l x : ℝ)
    (hl : limits[i]? = some (l, l)) (hx : xs[i]? = some x) :
    ∃ fs, Basis.project (Fourier.new p (limits.map fun t => (XReal.fin t.1, XReal.fin t.2)))
        (xs.map XReal.fin) = .ok (.ok (.dense fs)) ∧ ∀ v ∈ fs, v = .nan := by
  refine ⟨_, rfl, ?_⟩
  intro v hv
  obtain ⟨cfs, hc, rfl⟩ := List.mem_map.1 hv
  obtain ⟨e, he, rfl⟩ := List.mem_map.1 hc
  have hlen := length_of_mem_computeCoefficients he
  unfold Fourier.computeFeature
  set ss := rescale (xs.map XReal.fin) (limits.map fun t => (XReal.fin t.1, XReal.fin t.2)) with hss
  have hil : i < limits.length := (List.getElem?_eq_some_iff.1 hl).1
  have hie : i < e.length := by rw [hlen]; simpa using hil
  obtain ⟨u, hu, hnf, -⟩ := C29_degenerate l x
  have hsi : ss[i]? = some u := by
    rw [hss]; unfold rescale
    rw [List.getElem?_map, (List.getElem?_zip_eq_some (z := (XReal.fin x, (XReal.fin l, XReal.fin l)))).2
      ⟨by rw [List.getElem?_map, hx]; rfl, by rw [List.getElem?_map, hl]; rfl⟩]
    have hu' : [((XReal.fin x -. XReal.fin l) /. (XReal.fin l -. XReal.fin l) : XReal)] = [u] := hu
    exact congrArg some (List.head_eq_of_cons_eq hu')
  have hmem : (u, (Scalar.ofNat e[i] : XReal)) ∈ ss.zip (e.map fun c => Scalar.ofNat c) := by
    apply List.mem_of_getElem? (i := i)
    rw [List.getElem?_zip_eq_some]
    exact ⟨hsi, by rw [List.getElem?_map, List.getElem?_eq_getElem hie]; rfl⟩
  have hfold : ∀ (t : List (XReal × XReal)) (z : XReal),
      (NotFinite z ∨ ∃ c : ℝ, (u, XReal.fin c) ∈ t) →
      NotFinite (t.foldl (fun acc vc => acc +. vc.2 *. vc.1) z) := by
    intro t
    induction t with
    | nil =>
      intro z h
      rcases h with h | ⟨c, h⟩
      · exact h
      · cases h
    | cons a t ih =>
      intro z h
      rw [List.foldl_cons]
      apply ih
      rcases h with h | ⟨c, h⟩
      · exact .inl (NotFinite.add (.inl h))
      · rcases List.mem_cons.1 h with rfl | h
        · exact .inl (NotFinite.add (.inr (NotFinite.mul hnf)))
        · exact .inr ⟨c, h⟩
  have hf := hfold _ Scalar.zero (.inr ⟨_, hmem⟩)
  exact NotFinite.cos (NotFinite.mul (a := Real.pi) hf)

example : ([(0, 1), (2, 2)] : List (ℝ × ℝ))[1]? = some (2, 2) ∧ ([0, 3] : List ℝ)[1]? = some 3 :=
  ⟨rfl, rfl⟩

end Lfa

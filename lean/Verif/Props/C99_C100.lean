import Verif.Spec.Identify
import Verif.Proofs.Tensor
import Verif.Proofs.Sequence
import Verif.Props.C23_C29
import Verif.Props.C30_C35
import Mathlib.Analysis.Analytic.Uniqueness
import Mathlib.Analysis.Analytic.Constructions
import Mathlib.Analysis.Analytic.Linear
import Mathlib.Analysis.SpecialFunctions.Trigonometric.Deriv
import Mathlib.Analysis.SpecialFunctions.Trigonometric.Chebyshev.Basic
import Mathlib.Data.Nat.Digits.Lemmas

/-!
# C99–C100: predictions determine the weights

Exact arithmetic: polynomial and Chebyshev approximators from their predictions on a grid, Fourier
approximators from their predictions on an open set, uniform grids from one input per cell.
-/

set_option linter.unusedSectionVars false

namespace Lfa

open Spec

section General
variable {B I : Type} [Space B] [Basis B I ℝ]

theorem predict_eq_inner {b : B} {x : I} {φ : Features ℝ} (h : Basis.project b x = .ok (.ok φ))
    (hwf : WF φ) {w : List ℝ} (hw : dim φ = w.length) :
    predict b w x = .ok (.ok (inner φ w)) := by
  unfold predict ScalarLFA.evaluate
  rw [h]
  show (φ.dot w).map Except.ok = _
  rw [dot_real hwf hw]
  rfl

theorem predict_dense {b : B} {x : I} {fs : List ℝ}
    (h : Basis.project b x = .ok (.ok (.dense fs))) {w : List ℝ} (hw : fs.length = w.length) :
    predict b w x = .ok (.ok (∑ i ∈ Finset.range fs.length, fs.getD i 0 * entry w i)) := by
  rw [predict_eq_inner h trivial hw]
  congr 2
  rw [inner_eq]
  exact Finset.sum_congr rfl fun i _ => by rw [value_dense, real_zero]

/-- Identifiability is linear independence of the features. -/
theorem identifies_of_indep (b : B) (n : Nat) (X : I → Prop) (fs : I → List ℝ)
    (hp : ∀ x, X x → Basis.project b x = .ok (.ok (.dense (fs x))) ∧ (fs x).length = n)
    (hi : ∀ a : Nat → ℝ, (∀ x, X x → ∑ i ∈ Finset.range n, (fs x).getD i 0 * a i = 0) →
      ∀ i < n, a i = 0) : Identifies b n X := by
  intro w v hw hv h
  have := hi (fun i => entry w i - entry v i) fun x hx => by
    obtain ⟨h1, h2⟩ := hp x hx
    have hq := h x hx
    rw [predict_dense h1 (h2.trans hw.symm), predict_dense h1 (h2.trans hv.symm), h2] at hq
    simp only [Except.ok.injEq] at hq
    simp only [mul_sub, Finset.sum_sub_distrib, hq, sub_self]
  refine List.ext_getElem (hw.trans hv.symm) fun i h1 h2 => ?_
  have h3 := this i (hw ▸ h1)
  unfold entry at h3
  rw [List.getD_eq_getElem _ _ h1, List.getD_eq_getElem _ _ h2] at h3
  linarith

/-- With as many points as features, interpolation. -/
theorem interpolates_of_indep (b : B) (n : Nat) (X : I → Prop) (fs : I → List ℝ)
    (hp : ∀ x, X x → Basis.project b x = .ok (.ok (.dense (fs x))) ∧ (fs x).length = n)
    (hi : ∀ a : Nat → ℝ, (∀ x, X x → ∑ i ∈ Finset.range n, (fs x).getD i 0 * a i = 0) →
      ∀ i < n, a i = 0) (hf : Fintype {x // X x}) (hc : Fintype.card {x // X x} = n) :
    Interpolates b n X := by
  intro y
  obtain ⟨a, ha⟩ := interpolation_exists n hc (fun i (x : {x // X x}) => (fs x).getD i 0)
    (fun a h => hi a fun x hx => h ⟨x, hx⟩) (fun x => y x)
  have hw : ∀ x, X x → predict b ((List.range n).map a) x = .ok (.ok (y x)) := fun x hx => by
    obtain ⟨h1, h2⟩ := hp x hx
    rw [predict_dense h1 (by rw [h2, List.length_map, List.length_range]), h2, ← ha ⟨x, hx⟩]
    congr 2
    refine Finset.sum_congr rfl fun i hi => ?_
    have hi := Finset.mem_range.1 hi
    congr 1
    unfold entry
    rw [List.getD_eq_getElem _ _ (by simpa using hi)]
    simp
  refine ⟨(List.range n).map a, ⟨by simp, hw⟩, ?_⟩
  rintro v ⟨hv, hv'⟩
  exact identifies_of_indep b n X fs hp hi v _ hv (by simp)
    fun x hx => by rw [hv' x hx, hw x hx]

end General

/-- Features that are products over the coordinates, on a grid. -/
theorem product_indep {p d : Nat} (f : Fin d → Nat → ℝ → ℝ) (S : Fin d → Finset ℝ)
    (hf : ∀ j (c : Fin (p + 1) → ℝ), (∀ s ∈ S j, ∑ k, c k * f j k s = 0) → c = 0)
    (es : List (List Nat)) (hn : es.Nodup) (hes : ∀ e ∈ es, e.length = d ∧ ∀ c ∈ e, c ≤ p)
    (fs : List ℝ → List ℝ)
    (hfs : ∀ u : Fin d → ℝ, fs (List.ofFn u) = es.map fun e => ∏ j, f j (e.getD j 0) (u j))
    (a : Nat → ℝ)
    (h : ∀ x, OnGrid S x → ∑ i ∈ Finset.range es.length, (fs x).getD i 0 * a i = 0) :
    ∀ i < es.length, a i = 0 := by
  refine list_indep p d f S hf es hn hes a fun u hu => ?_
  rw [← h _ ⟨u, rfl, hu⟩, hfs]
  refine Finset.sum_congr rfl fun i hi => ?_
  have hi := Finset.mem_range.1 hi
  rw [List.getD_eq_getElem _ _ hi, List.getD_eq_getElem _ _ (by simpa using hi), List.getElem_map]

/-- All multi-indices, the zero one last. -/
theorem allIndices {p d : Nat} {es : List (List Nat)} (h : MultiIndices p d es) :
    (es ++ [List.replicate d 0]).Nodup ∧
    (∀ e ∈ es ++ [List.replicate d 0], e.length = d ∧ ∀ c ∈ e, c ≤ p) := by
  have hn : es.Nodup := h.sorted.imp fun h => ne_of_lt h
  constructor
  · rw [List.nodup_append]
    refine ⟨hn, by simp, fun e he e' he' => ?_⟩
    rw [List.mem_singleton.1 he']
    rintro rfl
    obtain ⟨-, -, c, hc, h0⟩ := (h.mem _).1 he
    exact h0 (List.eq_of_mem_replicate hc)
  · intro e he
    rcases List.mem_append.1 he with he | he
    · exact ⟨((h.mem e).1 he).1, ((h.mem e).1 he).2.1⟩
    · rw [List.mem_singleton.1 he]
      exact ⟨by simp, fun c hc => by rw [List.eq_of_mem_replicate hc]; exact Nat.zero_le _⟩

/-- The points of a grid, as a finite type. -/
theorem onGrid_fintype {d : Nat} (S : Fin d → Finset ℝ) :
    ∃ _ : Fintype {x // OnGrid S x}, Fintype.card {x // OnGrid S x} = ∏ j, (S j).card := by
  classical
  let e : {u // u ∈ Fintype.piFinset S} ≃ {x // OnGrid S x} :=
    Equiv.ofBijective (fun u => ⟨List.ofFn u.1, u.1, rfl, Fintype.mem_piFinset.1 u.2⟩) (by
      constructor
      · intro u v h
        exact Subtype.ext (List.ofFn_injective (Subtype.ext_iff.1 h))
      · rintro ⟨x, u, rfl, hu⟩
        exact ⟨⟨u, Fintype.mem_piFinset.2 hu⟩, rfl⟩)
  refine ⟨Fintype.ofEquiv _ e, ?_⟩
  rw [Fintype.ofEquiv_card, Fintype.card_coe, Fintype.card_piFinset]

/-! ## C99 Polynomial and Chebyshev approximators -/

theorem polynomial_indep {p d : Nat} (S : Fin d → Finset ℝ) (hS : ∀ j, p < (S j).card)
    (es : List (List Nat)) (hn : es.Nodup) (hes : ∀ e ∈ es, e.length = d ∧ ∀ c ∈ e, c ≤ p)
    (fs : List ℝ → List ℝ) (hfs : ∀ u : Fin d → ℝ, fs (List.ofFn u) = es.map (monomial u))
    (a : Nat → ℝ)
    (h : ∀ x, OnGrid S x → ∑ i ∈ Finset.range es.length, (fs x).getD i 0 * a i = 0) :
    ∀ i < es.length, a i = 0 :=
  product_indep (fun _ k s => s ^ k) S (fun j c hc =>
    sequence_indep monomialSequence p (S j) (hS j) id Function.injective_id c fun s hs => by
      rw [← hc s hs]
      exact Finset.sum_congr rfl fun k _ => by simp [monomialSequence])
    es hn hes fs hfs a h

theorem chebyshev_indep {p d : Nat} (lo hi : Fin d → ℝ) (hl : ∀ j, lo j ≠ hi j)
    (S : Fin d → Finset ℝ) (hS : ∀ j, p < (S j).card)
    (es : List (List Nat)) (hn : es.Nodup) (hes : ∀ e ∈ es, e.length = d ∧ ∀ c ∈ e, c ≤ p)
    (fs : List ℝ → List ℝ)
    (hfs : ∀ u : Fin d → ℝ, fs (List.ofFn u) = es.map (chebProduct (unit lo hi u)))
    (a : Nat → ℝ)
    (h : ∀ x, OnGrid S x → ∑ i ∈ Finset.range es.length, (fs x).getD i 0 * a i = 0) :
    ∀ i < es.length, a i = 0 :=
  product_indep (fun j k s => (_root_.Polynomial.Chebyshev.T ℝ (k : ℤ)).eval
      (2 * ((s - lo j) / (hi j - lo j)) - 1)) S (fun j c hc =>
    sequence_indep chebyshevSequence p (S j) (hS j)
      (fun s => 2 * ((s - lo j) / (hi j - lo j)) - 1) (fun s t hst => by
        have h0 : hi j - lo j ≠ 0 := sub_ne_zero.2 (hl j).symm
        have h1 : (s - lo j) / (hi j - lo j) = (t - lo j) / (hi j - lo j) := by
          have : 2 * ((s - lo j) / (hi j - lo j)) - 1 = 2 * ((t - lo j) / (hi j - lo j)) - 1 := hst
          linarith
        have := (div_left_inj' h0).1 h1
        linarith) c fun s hs => hc s hs)
    es hn hes fs hfs a h

theorem length_mulIndices {p d : Nat} (hd : 0 < d) {es : List (List Nat)} (h : MultiIndices p d es) :
    es.length = (p + 1) ^ d - 1 := by
  rw [C23_multi_indices_unique h (computeCoefficients_spec p d hd), length_computeCoefficients p d hd]

theorem length_allIndices {p d : Nat} (hd : 0 < d) {es : List (List Nat)}
    (h : MultiIndices p d es) : (es ++ [List.replicate d 0]).length = (p + 1) ^ d := by
  rw [List.length_append, length_mulIndices hd h, List.length_singleton]
  exact Nat.sub_add_cancel (Nat.one_le_pow _ _ (Nat.succ_pos p))

theorem polynomial_project (p d : Nat) (hd : 0 < d) : ∃ es, MultiIndices p d es ∧
    ∃ fs : List ℝ → List ℝ, (∀ u : Fin d → ℝ, fs (List.ofFn u) = es.map (monomial u)) ∧
      ∀ u : Fin d → ℝ, Basis.project (Polynomial.new d p) (List.ofFn u) =
        .ok (.ok (.dense (fs (List.ofFn u)))) := by
  refine ⟨computeCoefficients p d, computeCoefficients_spec p d hd,
    fun x => (computeCoefficients p d).map (monomial fun j : Fin d => x.getD j 0), fun u => ?_,
    fun u => ?_⟩
  · simp
  · obtain ⟨es, h1, h2⟩ := C24_monomials p d hd u
    rw [h2, C23_multi_indices_unique h1 (computeCoefficients_spec p d hd)]
    simp

/-- Polynomial approximators of order `p` over `d` inputs: their predictions on any grid with more
than `p` values per coordinate determine the weights. -/
theorem C99_polynomial (p d : Nat) (hd : 0 < d) (S : Fin d → Finset ℝ) (hS : ∀ j, p < (S j).card) :
    Identifies (Polynomial.new d p) ((p + 1) ^ d - 1) (OnGrid S) := by
  obtain ⟨es, h1, fs, h2, h3⟩ := polynomial_project p d hd
  refine identifies_of_indep _ _ _ fs ?_ ?_
  · rintro x ⟨u, rfl, -⟩
    exact ⟨h3 u, by rw [h2, List.length_map, length_mulIndices hd h1]⟩
  · rw [← length_mulIndices hd h1]
    exact polynomial_indep S hS es (h1.sorted.imp fun h => ne_of_lt h)
      (fun e he => ⟨((h1.mem e).1 he).1, ((h1.mem e).1 he).2.1⟩) fs h2

/-- With the constant feature as well, and with exactly `p+1` values per coordinate any targets on the
grid are fitted by exactly one weight vector. -/
theorem C99_polynomial_zeroth (p d : Nat) (hd : 0 < d) (hp : 0 < p) (S : Fin d → Finset ℝ)
    (hS : ∀ j, p < (S j).card) :
    ∃ b, (Polynomial.new d p).withZeroth = .ok b ∧ Identifies b ((p + 1) ^ d) (OnGrid S) ∧
      ((∀ j, (S j).card = p + 1) → Interpolates b ((p + 1) ^ d) (OnGrid S)) := by
  obtain ⟨es, h1, fs, h2, h3⟩ := polynomial_project p d hd
  obtain ⟨b, hb, hb', -⟩ := C25_polynomial_partial (Polynomial.new d p)
    ((C25_polynomial_nonempty p d).2 ⟨hd, hp⟩)
  have hfs : ∀ u : Fin d → ℝ, fs (List.ofFn u) ++ [1]
      = (es ++ [List.replicate d 0]).map (monomial u) := fun u => by
    rw [h2, List.map_append, List.map_singleton]
    congr 2
    unfold monomial
    rw [Finset.prod_eq_one]
    intro j _
    simp
  have hproj : ∀ x, OnGrid S x → Basis.project b x = .ok (.ok (.dense (fs x ++ [1]))) ∧
      (fs x ++ [1]).length = (p + 1) ^ d := by
    rintro x ⟨u, rfl, -⟩
    exact ⟨hb' _ _ (h3 u), by rw [hfs, List.length_map, length_allIndices hd h1]⟩
  have hind : ∀ a : Nat → ℝ, (∀ x, OnGrid S x →
      ∑ i ∈ Finset.range ((p + 1) ^ d), (fs x ++ [1]).getD i 0 * a i = 0) →
      ∀ i < (p + 1) ^ d, a i = 0 := by
    rw [← length_allIndices hd h1]
    exact polynomial_indep S hS _ (allIndices h1).1 (allIndices h1).2 (fun x => fs x ++ [1]) hfs
  refine ⟨b, hb, identifies_of_indep _ _ _ _ hproj hind, fun hc => ?_⟩
  obtain ⟨i1, i2⟩ := onGrid_fintype S
  refine interpolates_of_indep _ _ _ _ hproj hind i1 ?_
  rw [i2, Finset.prod_congr rfl fun j _ => hc j, Finset.prod_const, Finset.card_univ,
    Fintype.card_fin]

theorem chebyshev_project (p d : Nat) (hp : p ≤ 11) (hd : 0 < d) (lo hi : Fin d → ℝ) :
    ∃ es c, MultiIndices p d es ∧ Chebyshev.new p (List.ofFn fun j => (lo j, hi j)) = .ok c ∧
    ∃ fs : List ℝ → List ℝ,
      (∀ u : Fin d → ℝ, fs (List.ofFn u) = es.map (chebProduct (unit lo hi u))) ∧
      ∀ u : Fin d → ℝ, Basis.project c (List.ofFn u) = .ok (.ok (.dense (fs (List.ofFn u)))) := by
  obtain ⟨es, c, h1, hc, -⟩ := C26_features p d hp hd lo hi lo
  refine ⟨es, c, h1, hc, fun x => es.map (chebProduct (unit lo hi fun j : Fin d => x.getD j 0)),
    fun u => by simp, fun u => ?_⟩
  obtain ⟨es', c', h1', hc', h⟩ := C26_features p d hp hd lo hi u
  rw [hc] at hc'
  cases hc'
  rw [h, C23_multi_indices_unique h1' h1]
  simp

/-- The same for Chebyshev approximators over any non-degenerate limits. -/
theorem C99_chebyshev (p d : Nat) (hp : p ≤ 11) (hd : 0 < d) (lo hi : Fin d → ℝ)
    (hl : ∀ j, lo j ≠ hi j) (S : Fin d → Finset ℝ) (hS : ∀ j, p < (S j).card) :
    ∃ c, Chebyshev.new p (List.ofFn fun j => (lo j, hi j)) = .ok c ∧
      Identifies c ((p + 1) ^ d - 1) (OnGrid S) ∧
      Identifies c.withZeroth ((p + 1) ^ d) (OnGrid S) ∧
      ((∀ j, (S j).card = p + 1) → Interpolates c.withZeroth ((p + 1) ^ d) (OnGrid S)) := by
  obtain ⟨es, c, h1, hc, fs, h2, h3⟩ := chebyshev_project p d hp hd lo hi
  have hfs : ∀ u : Fin d → ℝ, fs (List.ofFn u) ++ [1]
      = (es ++ [List.replicate d 0]).map (chebProduct (unit lo hi u)) := fun u => by
    rw [h2, List.map_append, List.map_singleton]
    congr 2
    unfold chebProduct
    rw [Finset.prod_eq_one]
    intro j _
    simp
  have hproj : ∀ x, OnGrid S x →
      Basis.project c.withZeroth x = .ok (.ok (.dense (fs x ++ [1]))) ∧
      (fs x ++ [1]).length = (p + 1) ^ d := by
    rintro x ⟨u, rfl, -⟩
    exact ⟨C25_chebyshev _ _ _ (h3 u), by rw [hfs, List.length_map, length_allIndices hd h1]⟩
  have hind : ∀ a : Nat → ℝ, (∀ x, OnGrid S x →
      ∑ i ∈ Finset.range ((p + 1) ^ d), (fs x ++ [1]).getD i 0 * a i = 0) →
      ∀ i < (p + 1) ^ d, a i = 0 := by
    rw [← length_allIndices hd h1]
    exact chebyshev_indep lo hi hl S hS _ (allIndices h1).1 (allIndices h1).2
      (fun x => fs x ++ [1]) hfs
  refine ⟨c, hc, ?_, identifies_of_indep _ _ _ _ hproj hind, fun hcard => ?_⟩
  · refine identifies_of_indep _ _ _ fs ?_ ?_
    · rintro x ⟨u, rfl, -⟩
      exact ⟨h3 u, by rw [h2, List.length_map, length_mulIndices hd h1]⟩
    · rw [← length_mulIndices hd h1]
      exact chebyshev_indep lo hi hl S hS es (h1.sorted.imp fun h => ne_of_lt h)
        (fun e he => ⟨((h1.mem e).1 he).1, ((h1.mem e).1 he).2.1⟩) fs h2
  · obtain ⟨i1, i2⟩ := onGrid_fintype S
    refine interpolates_of_indep _ _ _ _ hproj hind i1 ?_
    rw [i2, Finset.prod_congr rfl fun j _ => hcard j, Finset.prod_const, Finset.card_univ,
      Fintype.card_fin]

/-- `p` values per coordinate are not enough: over one input, order 1 and the single grid point 0 all
weights predict the same. -/
theorem C99_too_few : ¬ Identifies (Polynomial.new 1 1) 1 (OnGrid fun _ : Fin 1 => {0}) := by
  intro h
  have := h [1] [2] rfl rfl fun x => by
    rintro ⟨u, rfl, hu⟩
    have h0 : u = fun _ => 0 := funext fun j => Finset.mem_singleton.1 (hu j)
    obtain ⟨es, h1, h2⟩ := C24_monomials 1 1 (by decide) u
    have he : es = [[1]] := C23_multi_indices_unique h1
      (computeCoefficients_spec 1 1 (by decide)) |>.trans (by decide)
    rw [predict_dense h2 (by simp [he]), predict_dense h2 (by simp [he]), he, h0]
    simp [monomial]
  exact absurd (List.head_eq_of_cons_eq this) (by norm_num)

example : ∃ S : Fin 2 → Finset ℝ, (∀ j, 1 < (S j).card) ∧ OnGrid S [0, 1] :=
  ⟨fun _ => {0, 1}, fun _ => by rw [Finset.card_pair (by norm_num)]; decide,
    ![0, 1], by simp, fun j => by fin_cases j <;> simp⟩

/-! ## C100 Fourier approximators and uniform grids -/

/-- The number with base-`(p+2)` digits `e`. -/
theorem ofDigits_sum (B : Nat) : ∀ (d : Nat) (e : List Nat), e.length = d →
    ((Nat.ofDigits B e : Nat) : ℝ) = ∑ j : Fin d, (e.getD j 0 : ℝ) * (B : ℝ) ^ (j : Nat)
  | 0, e, h => by rw [List.length_eq_zero_iff.1 h]; simp
  | d + 1, [], h => by simp at h
  | d + 1, k :: e, h => by
    rw [Nat.ofDigits_cons, Fin.sum_univ_succ, Nat.cast_add, Nat.cast_mul]
    rw [ofDigits_sum B d e (by simpa using h), Finset.mul_sum]
    congr 1
    · simp
    · refine Finset.sum_congr rfl fun j _ => ?_
      simp only [Fin.val_succ, List.getD_cons_succ]
      ring

/-- Cosines of distinct integer frequencies are independent. -/
theorem cos_indep (n : Nat) (N : Nat → Nat) (hN : ∀ i < n, ∀ k < n, N i = N k → i = k)
    (a : Nat → ℝ) (h : ∀ θ : ℝ, ∑ i ∈ Finset.range n, Real.cos (N i * θ) * a i = 0) :
    ∀ i < n, a i = 0 := by
  have hz : ∑ i : Fin n, a i • chebyshevSequence (N i) = 0 := by
    apply _root_.Polynomial.eq_zero_of_infinite_isRoot
    refine Set.Infinite.mono (s := Set.Icc (-1) 1) ?_ (Set.Icc_infinite (by norm_num))
    rintro y ⟨h1, h2⟩
    show _root_.Polynomial.IsRoot _ _
    rw [_root_.Polynomial.IsRoot.def, _root_.Polynomial.eval_finsetSum]
    have := h (Real.arccos y)
    rw [Finset.sum_range] at this
    rw [← this]
    refine Finset.sum_congr rfl fun i _ => ?_
    rw [_root_.Polynomial.eval_smul, smul_eq_mul, mul_comm]
    congr 1
    show (_root_.Polynomial.Chebyshev.T ℝ ((N i : Nat) : ℤ)).eval y = _
    conv_lhs => rw [← Real.cos_arccos h1 h2]
    rw [_root_.Polynomial.Chebyshev.T_real_cos]
    simp
  have hi : LinearIndependent ℝ (fun i : Fin n => chebyshevSequence (N i)) :=
    chebyshevSequence.linearIndependent.comp (fun i : Fin n => N i)
      fun i k hik => Fin.ext (hN i i.2 k k.2 hik)
  intro i hi'
  exact Fintype.linearIndependent_iff.1 hi (fun i => a i) hz ⟨i, hi'⟩

/-- Fourier features of distinct multi-indices are independent on every box with interior. -/
theorem fourier_indep {p d : Nat} (lo hi : Fin d → ℝ) (hl : ∀ j, lo j ≠ hi j) (α β : Fin d → ℝ)
    (hαβ : ∀ j, α j < β j) (es : List (List Nat)) (hn : es.Nodup)
    (hes : ∀ e ∈ es, e.length = d ∧ ∀ c ∈ e, c ≤ p) (a : Nat → ℝ)
    (h : ∀ u : Fin d → ℝ, (∀ j, α j ≤ u j ∧ u j ≤ β j) →
      ∑ i ∈ Finset.range es.length, fourierFeature (unit lo hi u) (es.getD i []) * a i = 0) :
    ∀ i < es.length, a i = 0 := by
  have hmem : ∀ i < es.length, es.getD i [] ∈ es := fun i hi => by
    rw [List.getD_eq_getElem _ _ hi]
    exact List.getElem_mem hi
  let F : (Fin d → ℝ) → ℝ := fun u =>
    ∑ i ∈ Finset.range es.length, fourierFeature (unit lo hi u) (es.getD i []) * a i
  have hF : AnalyticOnNhd ℝ F Set.univ := by
    refine Finset.analyticOnNhd_fun_sum _ fun i _ => AnalyticOnNhd.mul ?_ analyticOnNhd_const
    intro u _
    refine Real.analyticAt_cos.comp (analyticAt_const.mul ?_)
    refine Finset.analyticAt_fun_sum _ fun j _ => analyticAt_const.mul ?_
    exact ((ContinuousLinearMap.proj (R := ℝ) (φ := fun _ : Fin d => ℝ) j).analyticAt u).sub
      analyticAt_const |>.div_const
  have hzero : F = 0 := by
    refine hF.eq_of_eventuallyEq analyticOnNhd_const (z₀ := fun j => (α j + β j) / 2) ?_
    have : Set.pi Set.univ (fun j => Set.Ioo (α j) (β j)) ∈ nhds fun j => (α j + β j) / 2 :=
      set_pi_mem_nhds Set.finite_univ fun j _ => Ioo_mem_nhds (by linarith [hαβ j])
        (by linarith [hαβ j])
    filter_upwards [this] with u hu
    exact h u fun j => ⟨(hu j trivial).1.le, (hu j trivial).2.le⟩
  refine cos_indep es.length (fun i => Nat.ofDigits (p + 2) (es.getD i [])) ?_ a ?_
  · intro i hi k hk hik
    have hi' := hes _ (hmem i hi)
    have hk' := hes _ (hmem k hk)
    have := Nat.ofDigits_inj_of_len_eq (by omega) (hi'.1.trans hk'.1.symm)
      (fun c hc => by have := hi'.2 c hc; omega) (fun c hc => by have := hk'.2 c hc; omega) hik
    rw [List.getD_eq_getElem _ _ hi, List.getD_eq_getElem _ _ hk] at this
    exact (List.Nodup.getElem_inj_iff hn).1 this
  · intro θ
    have := congrFun hzero fun j => lo j + (hi j - lo j) * (((p + 2 : Nat) : ℝ) ^ (j : Nat)
      * (θ / Real.pi))
    refine Eq.trans (Finset.sum_congr rfl fun i hi' => ?_) this
    congr 1
    unfold fourierFeature unit
    congr 1
    rw [ofDigits_sum (p + 2) d _ (hes _ (hmem i (Finset.mem_range.1 hi'))).1, Finset.sum_mul,
      Finset.mul_sum]
    refine Finset.sum_congr rfl fun j _ => ?_
    have h0 : hi j - lo j ≠ 0 := sub_ne_zero.2 (hl j).symm
    have hpi := Real.pi_ne_zero
    rw [add_sub_cancel_left, mul_div_cancel_left₀ _ h0]
    field_simp

/-- Fourier approximators: the predictions on any box with non-empty interior, however small, determine
the weights. -/
theorem C100_fourier (p d : Nat) (hd : 0 < d) (lo hi : Fin d → ℝ) (hl : ∀ j, lo j ≠ hi j)
    (α β : Fin d → ℝ) (hαβ : ∀ j, α j < β j) :
    Identifies (Fourier.new p (List.ofFn fun j => (lo j, hi j))) ((p + 1) ^ d - 1) (OnBox α β) := by
  obtain ⟨es, h1, -⟩ := C28_features p d hd lo hi lo
  have h2 : ∀ u : Fin d → ℝ, Basis.project (Fourier.new p (List.ofFn fun j => (lo j, hi j)))
      (List.ofFn u) = .ok (.ok (.dense (es.map (fourierFeature (unit lo hi u))))) := fun u => by
    obtain ⟨es', h1', h⟩ := C28_features p d hd lo hi u
    rw [h, C23_multi_indices_unique h1' h1]
  refine identifies_of_indep _ _ _
    (fun x => es.map (fourierFeature (unit lo hi fun j : Fin d => x.getD j 0))) ?_ ?_
  · rintro x ⟨u, rfl, -⟩
    rw [h2]
    exact ⟨by simp, by rw [List.length_map, length_mulIndices hd h1]⟩
  · rw [← length_mulIndices hd h1]
    intro a ha
    refine fourier_indep lo hi hl α β hαβ es (h1.sorted.imp fun h => ne_of_lt h)
      (fun e he => ⟨((h1.mem e).1 he).1, ((h1.mem e).1 he).2.1⟩) a fun u hu => ?_
    rw [← ha _ ⟨u, rfl, hu⟩]
    refine Finset.sum_congr rfl fun i hi => ?_
    have hi := Finset.mem_range.1 hi
    rw [List.getD_eq_getElem _ _ hi, List.getD_eq_getElem _ _ (by simpa using hi),
      List.getElem_map]
    simp

/-- Uniform grids: weights and functions that are constant on cells correspond one to one. Predictions
on inputs that reach every cell determine the weights, and any value per cell can be predicted. -/
theorem C100_uniform_grid (ds : List (Equipartition ℝ)) (h : ∀ d ∈ ds, d.Lawful) (hds : ds ≠ []) :
    let n := (ds.map Equipartition.nPartitions).prod
    Identifies (UniformGrid.new ds) n (fun x : List ℝ => x.length = ds.length) ∧
    ∀ y : List ℝ → ℝ, (∀ x x', x.length = ds.length → x'.length = ds.length →
        (∀ (i : Nat) (d : Equipartition ℝ) (u v : ℝ), ds[i]? = some d → x[i]? = some u →
          x'[i]? = some v → d.mapOnto u = d.mapOnto v) → y x = y x') →
      ∃! w : List ℝ, w.length = n ∧ ∀ x, x.length = ds.length →
        predict (UniformGrid.new ds) w x = .ok (.ok (y x)) := by
  intro n
  have hone : ∀ (x : List ℝ) (k : Nat), k < n → Basis.project (UniformGrid.new ds) x =
      .ok (.ok (.sparse ⟨n, [(k, (Scalar.one : ℝ))]⟩)) → ∀ w : List ℝ, w.length = n →
      predict (UniformGrid.new ds) w x = .ok (.ok (entry w k)) := by
    intro x k hk hx w hw
    rw [predict_eq_inner hx (by
      refine ⟨by simp, ?_⟩
      intro i hi
      rw [List.mem_singleton.1 hi]; exact hk) hw.symm, inner_eq]
    congr 2
    show ∑ i ∈ Finset.range n, _ = _
    rw [Finset.sum_eq_single_of_mem k (Finset.mem_range.2 hk)]
    · rw [show value (.sparse ⟨n, [(k, (Scalar.one : ℝ))]⟩) k = 1 by simp [value, real_one], one_mul]
    · intro i _ hi
      rw [show value (.sparse ⟨n, [(k, (Scalar.one : ℝ))]⟩) i = 0 by
        simp [value, hi.symm, real_zero], zero_mul]
  have hid : Identifies (UniformGrid.new ds) n (fun x : List ℝ => x.length = ds.length) := by
    intro w v hw hv hp
    refine List.ext_getElem (hw.trans hv.symm) fun k h1 h2 => ?_
    have hk : k < n := by rw [← hw]; exact h1
    obtain ⟨x, hx, hx'⟩ := C34_surjective ds h hds k hk
    have := hp x hx
    rw [hone x k hk hx' w hw, hone x k hk hx' v hv] at this
    simp only [Except.ok.injEq] at this
    unfold entry at this
    rwa [List.getD_eq_getElem _ _ h1, List.getD_eq_getElem _ _ h2] at this
  refine ⟨hid, fun y hy => ?_⟩
  have hl : 0 < ds.length := List.length_pos_iff.2 hds
  choose! c hc1 hc2 using C34_surjective (K := ℝ) ds h hds
  have hw : ∀ x : List ℝ, x.length = ds.length →
      predict (UniformGrid.new ds) ((List.range n).map fun k => y (c k)) x = .ok (.ok (y x)) := by
    intro x hx
    obtain ⟨k, hk, hx', -⟩ := C33_one_active ds h hds x
      (by rintro rfl; rw [List.length_nil] at hx; omega)
    rw [hone x k hk hx' _ (by simp)]
    congr 2
    unfold entry
    rw [List.getD_eq_getElem _ _ (by simpa using hk)]
    simp only [List.getElem_map, List.getElem_range]
    exact hy _ _ (hc1 k hk) hx ((C34_injective ds h hds _ _ (hc1 k hk) hx).1
      ((hc2 k hk).trans hx'.symm))
  refine ⟨_, ⟨by simp, hw⟩, fun v hv => ?_⟩
  exact hid v _ hv.1 (by simp) fun x hx => by rw [hv.2 x hx, hw x hx]

/-- A box inside the limits meeting the hypotheses of `C100_fourier`. -/
example : OnBox (fun _ : Fin 2 => (0.4 : ℝ)) (fun _ => 0.5) [0.45, 0.41] :=
  ⟨![0.45, 0.41], by simp, fun j => by fin_cases j <;> norm_num⟩

end Lfa

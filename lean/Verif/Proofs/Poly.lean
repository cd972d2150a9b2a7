import Verif.Spec.Poly
import Verif.Model.Poly
import Verif.Proofs.Basis
import Verif.Proofs.Real
import Mathlib.Analysis.SpecialFunctions.Trigonometric.Inverse
import Mathlib.Analysis.SpecialFunctions.Trigonometric.Chebyshev.Basic
import Mathlib.Tactic.IntervalCases

/-! # Lemmas about multi-indices, Chebyshev polynomials and rescaling -/

set_option linter.unusedSectionVars false

namespace Lfa

open Spec

/-! ## Enumeration -/

/-- The grid of all multi-indices. -/
theorem mem_cartesian {d p : Nat} {e : List Nat} :
    e ∈ cartesian (List.replicate d (List.range (p + 1))) ↔
      e.length = d ∧ ∀ c ∈ e, c ≤ p := by
  induction d generalizing e with
  | zero =>
    simp only [List.replicate_zero, cartesian, List.mem_singleton, List.length_eq_zero_iff]
    exact ⟨fun h => ⟨h, by simp [h]⟩, fun h => h.1⟩
  | succ d ih =>
    simp only [List.replicate_succ, cartesian, List.mem_flatMap, List.mem_range, List.mem_map]
    constructor
    · rintro ⟨x, hx, e', he', rfl⟩
      obtain ⟨h1, h2⟩ := ih.1 he'
      refine ⟨by simp [h1], fun c hc => ?_⟩
      rcases List.mem_cons.1 hc with rfl | hc
      · omega
      · exact h2 c hc
    · rintro ⟨h1, h2⟩
      cases e with
      | nil => simp at h1
      | cons x e =>
        refine ⟨x, by have := h2 x List.mem_cons_self; omega, e, ih.2 ⟨by simpa using h1, fun c hc =>
          h2 c (List.mem_cons_of_mem _ hc)⟩, rfl⟩

theorem length_cartesian (d p : Nat) :
    (cartesian (List.replicate d (List.range (p + 1)))).length = (p + 1) ^ d := by
  induction d with
  | zero => rfl
  | succ d ih =>
    simp only [List.replicate_succ, cartesian, List.length_flatMap, List.length_map, ih]
    rw [List.map_const', List.sum_replicate, List.length_range, pow_succ, smul_eq_mul, mul_comm]

theorem cartesian_sorted (d p : Nat) :
    (cartesian (List.replicate d (List.range (p + 1)))).Pairwise (· < ·) := by
  induction d with
  | zero => simp [cartesian]
  | succ d ih =>
    simp only [List.replicate_succ, cartesian]
    rw [List.pairwise_flatMap]
    refine ⟨fun a _ => ?_, ?_⟩
    · rw [List.pairwise_map]
      exact ih.imp fun h => List.Lex.cons h
    · refine List.Pairwise.imp (R := (· < ·)) ?_ List.pairwise_lt_range
      intro a b hab x hx y hy
      obtain ⟨x', -, rfl⟩ := List.mem_map.1 hx
      obtain ⟨y', -, rfl⟩ := List.mem_map.1 hy
      exact List.Lex.rel hab

theorem cartesian_head (d p : Nat) :
    ∃ rest, cartesian (List.replicate d (List.range (p + 1))) = List.replicate d 0 :: rest := by
  induction d with
  | zero => exact ⟨[], rfl⟩
  | succ d ih =>
    obtain ⟨r, hr⟩ := ih
    rw [List.range_succ_eq_map, ] at *
    simp only [List.replicate_succ, cartesian, List.flatMap_cons, hr, List.map_cons,
      List.cons_append]
    exact ⟨_, rfl⟩

theorem lexLe_of_lt {a b : List Nat} (h : a < b) : lexLe a b = true := by
  induction h with
  | nil => rfl
  | cons _ ih => simp [lexLe, ih]
  | rel h => simp [lexLe, h]

theorem lexSort_of_sorted {l : List (List Nat)} (h : l.Pairwise (· < ·)) : lexSort l = l := by
  induction l with
  | nil => rfl
  | cons a l ih =>
    rw [List.pairwise_cons] at h
    rw [lexSort, ih h.2]
    cases l with
    | nil => rfl
    | cons b l => rw [lexInsert, if_pos (lexLe_of_lt (h.1 b List.mem_cons_self))]

theorem dedupAdj_of_sorted : ∀ {l : List (List Nat)}, l.Pairwise (· < ·) → dedupAdj l = l
  | [], _ => rfl
  | [_], _ => rfl
  | a :: b :: l, h => by
    rw [List.pairwise_cons] at h
    rw [dedupAdj, if_neg (ne_of_lt (h.1 b List.mem_cons_self)), dedupAdj_of_sorted h.2]

theorem computeCoefficients_zero (p : Nat) : computeCoefficients p 0 = [] := rfl

theorem computeCoefficients_pos (p d : Nat) (hd : 0 < d) :
    computeCoefficients p d =
      (cartesian (List.replicate d (List.range (p + 1)))).drop 1 := by
  unfold computeCoefficients multiCartesianProduct
  rw [if_neg (by cases d <;> simp_all)]
  have hs := (cartesian_sorted d p).sublist (List.drop_sublist 1 _)
  rw [lexSort_of_sorted hs, dedupAdj_of_sorted hs]

theorem computeCoefficients_spec (p d : Nat) (hd : 0 < d) :
    MultiIndices p d (computeCoefficients p d) := by
  rw [computeCoefficients_pos p d hd]
  have hs := cartesian_sorted d p
  obtain ⟨r, hr⟩ := cartesian_head d p
  refine ⟨hs.sublist (List.drop_sublist 1 _), fun e => ?_⟩
  have hm := @mem_cartesian d p e
  rw [hr] at hm hs ⊢
  rw [List.pairwise_cons] at hs
  show e ∈ r ↔ _
  have hz : (e.length = d ∧ ¬ ∃ c ∈ e, c ≠ 0) ↔ e = List.replicate d 0 := by
    rw [List.eq_replicate_iff]; push Not; exact Iff.rfl
  constructor
  · intro he
    obtain ⟨h1, h2⟩ := hm.1 (List.mem_cons_of_mem _ he)
    refine ⟨h1, h2, ?_⟩
    by_contra hc
    exact ne_of_lt (hs.1 e he) (hz.1 ⟨h1, hc⟩).symm
  · rintro ⟨h1, h2, h3⟩
    rcases List.mem_cons.1 (hm.2 ⟨h1, h2⟩) with h | h
    · exact absurd h3 (hz.2 h).2
    · exact h

theorem length_computeCoefficients (p d : Nat) (hd : 0 < d) :
    (computeCoefficients p d).length = (p + 1) ^ d - 1 := by
  rw [computeCoefficients_pos p d hd, List.length_drop, length_cartesian]

theorem length_of_mem_computeCoefficients {p d : Nat} {e : List Nat}
    (h : e ∈ computeCoefficients p d) : e.length = d := by
  rcases Nat.eq_zero_or_pos d with rfl | hd
  · cases h
  · exact ((computeCoefficients_spec p d hd).mem e).1 h |>.1

theorem le_of_mem_computeCoefficients {p d : Nat} {e : List Nat}
    (h : e ∈ computeCoefficients p d) : ∀ c ∈ e, c ≤ p := by
  rcases Nat.eq_zero_or_pos d with rfl | hd
  · cases h
  · exact ((computeCoefficients_spec p d hd).mem e).1 h |>.2.1

/-! ## Products and sums over zipped lists -/

theorem foldl_mul_eq_prod (l : List ℝ) : l.foldl (· *. ·) Scalar.one = l.prod := by
  rw [List.prod_eq_foldl, real_one]; rfl

theorem map_zip_ofFn {α β γ : Type} {d : Nat} (x : Fin d → α) (e : List β) (he : e.length = d)
    (f : α → β → γ) (b : β) :
    ((List.ofFn x).zip e).map (fun t => f t.1 t.2) = List.ofFn fun j => f (x j) (e.getD j b) := by
  apply List.ext_getElem
  · simp [he]
  · intro i h1 h2
    have hi : i < e.length := by simp at h1; omega
    simp [hi]

theorem computeFeature_poly {d : Nat} (x : Fin d → ℝ) (e : List Nat) (he : e.length = d) :
    Polynomial.computeFeature ((List.ofFn x).zip e) = monomial x e := by
  unfold Polynomial.computeFeature monomial
  rw [foldl_mul_eq_prod, show (fun t : ℝ × Nat => match t with | (v, e) => Scalar.powi v e) =
    (fun t => t.1 ^ t.2) from rfl, map_zip_ofFn x e he (fun a b => a ^ b) 0, List.prod_ofFn]

/-! ## Chebyshev -/

/-- The twelve hard-coded polynomials, by degree. -/
theorem polyOf_eq (n : Nat) (hn : n ≤ 11) :
    ∃ f : ℝ → ℝ, Chebyshev.polyOf n = .ok f ∧
      ∀ x, f x = (_root_.Polynomial.Chebyshev.T ℝ (n : ℤ)).eval x := by
  have hrec : ∀ (n : ℤ) (x : ℝ), (_root_.Polynomial.Chebyshev.T ℝ (n + 2)).eval x =
      2 * x * (_root_.Polynomial.Chebyshev.T ℝ (n + 1)).eval x -
        (_root_.Polynomial.Chebyshev.T ℝ n).eval x := by
    intro n x
    rw [_root_.Polynomial.Chebyshev.T_add_two]
    simp
  have e0 : ∀ x, (_root_.Polynomial.Chebyshev.T ℝ 0).eval x = (1 : ℝ) := by simp
  have e1 : ∀ x, (_root_.Polynomial.Chebyshev.T ℝ 1).eval x = (x : ℝ) := by simp
  have e2 := hrec 0
  have e3 := hrec 1
  have e4 := hrec 2
  have e5 := hrec 3
  have e6 := hrec 4
  have e7 := hrec 5
  have e8 := hrec 6
  have e9 := hrec 7
  have e10 := hrec 8
  have e11 := hrec 9
  norm_num [e0, e1] at e2
  norm_num [e1, e2] at e3
  norm_num [e2, e3] at e4
  norm_num [e3, e4] at e5
  norm_num [e4, e5] at e6
  norm_num [e5, e6] at e7
  norm_num [e6, e7] at e8
  norm_num [e7, e8] at e9
  norm_num [e8, e9] at e10
  norm_num [e9, e10] at e11
  interval_cases n
  · exact ⟨_, rfl, fun x => by rw [Nat.cast_zero, e0]; simp [Cpfk.t_0]⟩
  · exact ⟨_, rfl, fun x => by rw [Nat.cast_one, e1]; simp [Cpfk.t_1]⟩
  · exact ⟨_, rfl, fun x => by push_cast; rw [e2]; simp [Cpfk.t_2]⟩
  · exact ⟨_, rfl, fun x => by push_cast; rw [e3]; simp [Cpfk.t_3]; ring⟩
  · exact ⟨_, rfl, fun x => by push_cast; rw [e4]; simp [Cpfk.t_4]; ring⟩
  · exact ⟨_, rfl, fun x => by push_cast; rw [e5]; simp [Cpfk.t_5]; ring⟩
  · exact ⟨_, rfl, fun x => by push_cast; rw [e6]; simp [Cpfk.t_6]; ring⟩
  · exact ⟨_, rfl, fun x => by push_cast; rw [e7]; simp [Cpfk.t_7]; ring⟩
  · exact ⟨_, rfl, fun x => by push_cast; rw [e8]; simp [Cpfk.t_8]; ring⟩
  · exact ⟨_, rfl, fun x => by push_cast; rw [e9]; simp [Cpfk.t_9]; ring⟩
  · exact ⟨_, rfl, fun x => by push_cast; rw [e10]; simp [Cpfk.t_10]; ring⟩
  · exact ⟨_, rfl, fun x => by push_cast; rw [e11]; simp [Cpfk.t_11]; ring⟩

theorem polyOf_panics {K : Type} [Scalar K] (n : Nat) (hn : 11 < n) :
    (Chebyshev.polyOf n : P (K → K)) = .error Chebyshev.orderPanic := by
  match n, hn with
  | n + 12, _ => rfl

theorem abs_T_le_one (n : ℤ) {y : ℝ} (h : |y| ≤ 1) :
    |(_root_.Polynomial.Chebyshev.T ℝ n).eval y| ≤ 1 := by
  obtain ⟨h1, h2⟩ := abs_le.1 h
  rw [← Real.cos_arccos h1 h2, _root_.Polynomial.Chebyshev.T_real_cos]
  exact Real.abs_cos_le_one _

/-! ## mapM in P -/

theorem mapM_ok {α β : Type} {f : α → P β} {g : α → β} : ∀ {l : List α},
    (∀ a ∈ l, f a = .ok (g a)) → l.mapM f = .ok (l.map g)
  | [], _ => rfl
  | a :: l, h => by
    rw [List.mapM_cons, h a List.mem_cons_self]
    show (l.mapM f >>= fun bs => pure (g a :: bs)) = _
    rw [mapM_ok fun a' h' => h a' (List.mem_cons_of_mem _ h')]; rfl

theorem mapM_error {α β : Type} {f : α → P β} {p : Panic} : ∀ {l : List α},
    (∀ a ∈ l, f a = .error p ∨ ∃ b, f a = .ok b) → (∃ a ∈ l, f a = .error p) →
    l.mapM f = .error p
  | [], _, h => by obtain ⟨a, ha, -⟩ := h; cases ha
  | a :: l, h, he => by
    rw [List.mapM_cons]
    rcases h a List.mem_cons_self with hp | ⟨b, hb⟩
    · rw [hp]; rfl
    · rw [hb]
      obtain ⟨a', ha', hp⟩ := he
      have : ∃ a ∈ l, f a = .error p := by
        rcases List.mem_cons.1 ha' with rfl | h'
        · rw [hb] at hp; cases hp
        · exact ⟨a', h', hp⟩
      show (l.mapM f >>= fun bs => pure (b :: bs)) = _
      rw [mapM_error (fun a' h' => h a' (List.mem_cons_of_mem _ h')) this]; rfl

/-! ## The Chebyshev basis over the reals -/

/-- The Chebyshev polynomial `T n` as a function. -/
noncomputable def chebT (n : Nat) : ℝ → ℝ :=
  fun x => (_root_.Polynomial.Chebyshev.T ℝ (n : ℤ)).eval x

theorem polyOf_chebT (n : Nat) (hn : n ≤ 11) : Chebyshev.polyOf n = .ok (chebT n) := by
  obtain ⟨f, h1, h2⟩ := polyOf_eq n hn
  rw [h1]; congr 1; funext x; exact h2 x

theorem makePolynomials_real (p d : Nat) (hp : p ≤ 11) :
    (Chebyshev.makePolynomials p d : P (List (List (ℝ → ℝ)))) =
      .ok ((computeCoefficients p d).map fun e => e.map chebT) := by
  unfold Chebyshev.makePolynomials
  apply mapM_ok
  intro e he
  apply mapM_ok
  intro c hc
  exact polyOf_chebT c (le_trans (le_of_mem_computeCoefficients he c hc) hp)

theorem new_real (p : Nat) (limits : List (ℝ × ℝ)) (hp : p ≤ 11) :
    Chebyshev.new p limits =
      .ok ⟨p, limits, (computeCoefficients p limits.length).map fun e => e.map chebT⟩ := by
  unfold Chebyshev.new
  rw [if_neg (by omega), makePolynomials_real _ _ hp]; rfl

theorem rescale_ofFn {d : Nat} (x lo hi : Fin d → ℝ) :
    rescale (List.ofFn x) (List.ofFn fun j => (lo j, hi j)) = List.ofFn (unit lo hi x) := by
  unfold rescale
  have := map_zip_ofFn x (List.ofFn fun j => (lo j, hi j)) (by simp)
    (fun v l => (v - l.1) / (l.2 - l.1)) (0, 0)
  refine Eq.trans this ?_
  congr 1
  funext j
  simp [unit]

theorem computeFeature_cheb {d : Nat} (u : Fin d → ℝ) (e : List Nat) (he : e.length = d) :
    Chebyshev.computeFeature
      (((List.ofFn u).map fun v => Scalar.ofNat 2 *. v -. Scalar.ofNat 1).zip (e.map chebT)) =
      chebProduct u e := by
  unfold Chebyshev.computeFeature chebProduct
  rw [foldl_mul_eq_prod, List.map_ofFn]
  have := map_zip_ofFn ((fun v : ℝ => Scalar.ofNat 2 *. v -. Scalar.ofNat 1) ∘ u) (e.map chebT)
    (by simpa using he) (fun v f => f v) (chebT 0)
  refine Eq.trans (congrArg List.prod this) ?_
  rw [List.prod_ofFn]
  refine Finset.prod_congr rfl fun j _ => ?_
  have hj : (j : Nat) < e.length := by omega
  simp [hj, chebT]

theorem computeFeature_fourier {d : Nat} (u : Fin d → ℝ) (e : List Nat) (he : e.length = d) :
    Fourier.computeFeature ((List.ofFn u).zip (e.map fun c => (Scalar.ofNat c : ℝ))) =
      fourierFeature u e := by
  unfold Fourier.computeFeature fourierFeature
  have h := map_zip_ofFn u (e.map fun c => (Scalar.ofNat c : ℝ)) (by simpa using he)
    (fun v c => c * v) 0
  have hf : ∀ (l : List (ℝ × ℝ)) (z : ℝ), l.foldl (fun acc vc => acc +. vc.2 *. vc.1) z =
      z + (l.map fun t => t.2 * t.1).sum := by
    intro l
    induction l with
    | nil => intro z; simp
    | cons a l ih =>
      intro z
      rw [List.foldl_cons, ih, List.map_cons, List.sum_cons]
      simp only [real_add, real_mul]; ring
  rw [hf, h, List.sum_ofFn, real_zero, zero_add, real_cos, real_pi, real_mul]
  congr 2
  refine Finset.sum_congr rfl fun j _ => ?_
  have hj : (j : Nat) < e.length := by omega
  simp [hj]

end Lfa

import Verif.Model.Describe
import Verif.Spec.Basis
import Verif.Proofs.Basis
import Verif.Props.C17_C22
import Verif.Props.C30_C35
import Verif.Props.C125_C127
import Verif.Props.C106
import Mathlib.Analysis.SpecialFunctions.Trigonometric.Inverse
import Mathlib.Data.Set.Finite.Lattice
import Mathlib.Data.Set.Finite.Range
import Mathlib.Data.Set.Finite.List
import Mathlib.Topology.Separation.Connected

/-!
# C136–C137: what errors and bases say about themselves
-/

set_option linter.unusedSectionVars false

namespace Lfa

open Spec

/-! ## C136 The text of an index error -/

theorem digits_no_paren {n : Nat} : ∀ c ∈ (toString n).toList, c ≠ ')' ∧ c ≠ '\n' := by
  intro c hc
  rw [Nat.toString_eq_repr, Nat.toList_repr] at hc
  have := Nat.isDigit_of_mem_toDigits (by norm_num) (by norm_num) hc
  constructor <;> (rintro rfl; revert this; decide)

theorem append_paren {a b r s : List Char} (ha : ∀ c ∈ a, c ≠ ')') (hb : ∀ c ∈ b, c ≠ ')')
    (h : a ++ ')' :: r = b ++ ')' :: s) : a = b ∧ r = s := by
  induction a generalizing b with
  | nil =>
    cases b with
    | nil => exact ⟨rfl, (List.cons.inj h).2⟩
    | cons c b => exact absurd (List.cons.inj h).1.symm (hb c (List.mem_cons_self ..))
  | cons c a ih =>
    cases b with
    | nil => exact absurd (List.cons.inj h).1 (ha c (List.mem_cons_self ..))
    | cons d b =>
      obtain ⟨h1, h2⟩ := List.cons.inj h
      obtain ⟨h3, h4⟩ := ih (fun c hc => ha c (List.mem_cons_of_mem _ hc))
        (fun c hc => hb c (List.mem_cons_of_mem _ hc)) h2
      exact ⟨by rw [h1, h3], h4⟩

theorem toString_nat_inj {n m : Nat} (h : (toString n).toList = (toString m).toList) : n = m := by
  rw [Nat.toString_eq_repr, Nat.toString_eq_repr, Nat.toList_repr, Nat.toList_repr] at h
  rw [← Nat.ofDigitChars_ten_toDigits (n := n), h, Nat.ofDigitChars_ten_toDigits]

/-- The text of an index error tells which index was asked for and how many features there are. -/
theorem C136_text (i n j m : Nat) :
    (Error.indexError i n).description = (Error.indexError j m).description ↔ i = j ∧ n = m := by
  constructor
  · intro h
    have h := congrArg String.toList h
    simp only [Error.description, Error.indexError, String.toList_append, List.append_assoc] at h
    have h1 := List.append_cancel_left h
    have hp : ") exceeded dimensionality (".toList = ')' :: " exceeded dimensionality (".toList := by decide
    have hq : ") of the projection.".toList = ')' :: " of the projection.".toList := by decide
    rw [hp, hq] at h1
    obtain ⟨h2, h3⟩ := append_paren (fun c hc => (digits_no_paren c hc).1) (fun c hc => (digits_no_paren c hc).1) h1
    obtain ⟨h4, -⟩ := append_paren (fun c hc => (digits_no_paren c hc).1) (fun c hc => (digits_no_paren c hc).1)
      (List.append_cancel_left h3)
    exact ⟨toString_nat_inj h2, toString_nat_inj h4⟩
  · rintro ⟨rfl, rfl⟩; rfl

/-- Printing an error gives its description on one line, line feed included. -/
theorem C136_display (i n : Nat) :
    (∀ e : Error, e.display = e.description ++ "\n") ∧ '\n' ∉ (Error.indexError i n).description.toList ∧
    (Error.indexError i n).kind = .basis := by
  refine ⟨fun _ => rfl, ?_, rfl⟩
  simp only [Error.description, Error.indexError, String.toList_append, List.mem_append, not_or]
  exact ⟨⟨⟨⟨by decide, fun h => (digits_no_paren _ h).2 rfl⟩, by decide⟩,
    fun h => (digits_no_paren _ h).2 rfl⟩, by decide⟩

/-- So the text of the error that `ith` returns gives back both numbers. -/
theorem C136_ith {K : Type} [ScalarInf K] {B : Type} [Space B] [Basis B (List K) K] [EnumerableBasis B (List K) K]
    {b : B} (hb : Built (K := K) allowReject b) (x : List K) (n : Nat) (hn : Space.dim b = .finite n) (i : Nat)
    (hi : n ≤ i) : ∃ e, EnumerableBasis.ith b x i = .ok (.error e) ∧
      ∀ j m, e.description = (Error.indexError j m).description ↔ j = i ∧ m = n := by
  refine ⟨_, (C19_ith_rejects_partial hb x n i hn).1 hi, fun j m => ?_⟩
  rw [C136_text]
  exact ⟨fun h => ⟨h.1.symm, h.2.symm⟩, fun h => ⟨h.1.symm, h.2.symm⟩⟩

example : (Error.indexError 12 3).description ≠ (Error.indexError 1 23).description :=
  fun h => by simpa using ((C136_text 12 3 1 23).1 h).1

/-! ## C137 How many projections a basis has

Full claim: `card()` is the number of different projections. It is `Infinite` for every basis. -/

/-- The projections of a basis. -/
def projections (K : Type) {B : Type} [Space B] [Basis B (List K) K] (b : B) : Set (Features K) :=
  {φ | ∃ x : List K, Basis.project b x = .ok (.ok φ)}

section
variable {K : Type} [ScalarInf K]

/-- The bases of the crate with finitely many projections, and how they nest. -/
inductive Coarse : ∀ {B : Type} [Space B] [Basis B (List K) K] [HasCard B], B → Prop
  | bias (b : Bias K) : Coarse b
  | fixedDense (b : FixedDense K) : Coarse b
  | fixedSparse (b : FixedSparse K) : Coarse b
  | tileCoding {H : Type} [BuildHasher H] (b : TileCoding H) : Coarse b
  | uniformGrid (ds : List (Equipartition K)) (h : ∀ d ∈ ds, d.Lawful) : Coarse (UniformGrid.new ds)
  | stack {B₁ B₂ : Type} [Space B₁] [Space B₂] [Basis B₁ (List K) K] [Basis B₂ (List K) K] [HasCard B₁]
      [HasCard B₂] (b₁ : B₁) (b₂ : B₂) : Coarse b₁ → Coarse b₂ → Coarse (Stack.mk b₁ b₂)
  | l0 {B : Type} [Space B] [Basis B (List K) K] [HasCard B] (b : B) : Coarse b → Coarse (L0Normaliser.mk b)
  | l1 {B : Type} [Space B] [Basis B (List K) K] [HasCard B] (b : B) : Coarse b → Coarse (L1Normaliser.mk b)
  | l2 {B : Type} [Space B] [Basis B (List K) K] [HasCard B] (b : B) : Coarse b → Coarse (L2Normaliser.mk b)
  | linf {B : Type} [Space B] [Basis B (List K) K] [HasCard B] (b : B) : Coarse b → Coarse (LinfNormaliser.mk b)

theorem finite_of_const {S : Set (Features K)} (φ : Features K) (h : ∀ ψ ∈ S, ψ = φ) : S.Finite :=
  (Set.finite_singleton φ).subset fun ψ hψ => h ψ hψ

theorem finite_mapP {B B' : Type} [Space B] [Space B'] [Basis B (List K) K] [Basis B' (List K) K] {b : B} {b' : B'}
    (f : Features K → P (Features K)) (hf : (projections K b).Finite)
    (h : ∀ x : List K, Basis.project b' x = (do let r ← Basis.project b x; Result.mapP r f)) : (projections K b').Finite := by
  refine ((hf.image fun φ => (f φ).toOption).preimage (f := some) (Option.some_injective _).injOn).subset ?_
  rintro ψ ⟨x, hx⟩
  rw [h] at hx
  obtain ⟨r, hr, hx⟩ := P.bind_eq_ok.1 hx
  rcases r with e | φ
  · cases hx
  · refine ⟨φ, ⟨x, hr⟩, ?_⟩
    rcases hfφ : f φ with p | χ
    · have hx : (f φ).map Except.ok = _ := hx
      rw [hfφ] at hx; cases hx
    · have hx : (f φ).map Except.ok = _ := hx
      rw [hfφ] at hx
      cases hx
      show (f φ).toOption = some _
      rw [hfφ]; rfl

/-- They all say `Infinite`, and all have finitely many projections. -/
theorem C137_coarse {B : Type} [Space B] [Basis B (List K) K] [HasCard B] {b : B} (hb : Coarse (K := K) b) :
    HasCard.card b = .infinite ∧ (projections K b).Finite := by
  induction hb with
  | bias b => exact ⟨rfl, finite_of_const _ fun ψ ⟨x, h⟩ => by cases h; rfl⟩
  | fixedDense b => exact ⟨rfl, finite_of_const _ fun ψ ⟨x, h⟩ => by cases h; rfl⟩
  | fixedSparse b => exact ⟨rfl, finite_of_const _ fun ψ ⟨x, h⟩ => by cases h; rfl⟩
  | @tileCoding H _ b =>
    refine ⟨rfl, ?_⟩
    have : Set.Finite {is : List Nat | (∀ i ∈ is, i < b.memorySize) ∧ is.length = b.nTilings} := by
      refine ((List.finite_length_eq (Fin b.memorySize) b.nTilings).image fun l => l.map Fin.val).subset ?_
      rintro is ⟨h1, h2⟩
      refine ⟨is.attach.map fun i => ⟨i.1, h1 i.1 i.2⟩, ?_, ?_⟩
      · simp [h2]
      · simp [List.map_map, Function.comp_def]
    refine (this.image fun is : List Nat => (Features.sparse
      { dim := b.memorySize, activations := HMap.collect (is.map fun i => (i, Scalar.one)) } : Features K)).subset ?_
    rintro φ ⟨x, h⟩
    rw [tile_project] at h
    obtain ⟨is, his, h⟩ := P.bind_eq_ok.1 h
    cases h
    have := hashState_lt his
    rw [List.length_range] at this
    exact ⟨is, this, rfl⟩
  | uniformGrid ds h =>
    refine ⟨rfl, ?_⟩
    refine ((Set.finite_Iio (ds.map Equipartition.nPartitions).prod).image fun k =>
      (Features.sparse ⟨(ds.map Equipartition.nPartitions).prod, [(k, Scalar.one)]⟩ : Features K)).subset ?_
    rintro φ ⟨x, hx⟩
    by_cases he : ds = [] ∨ x = []
    · obtain ⟨p, hp⟩ := C33_empty_panics ds x he
      rw [hx] at hp
      cases hp
    · obtain ⟨k, hk, hp, -⟩ := C33_one_active ds h (fun h => he (.inl h)) x fun h => he (.inr h)
      rw [hx] at hp
      cases hp
      exact ⟨k, hk, rfl⟩
  | @stack B₁ B₂ _ _ _ _ _ _ b₁ b₂ _ _ h1 h2 =>
    refine ⟨?_, ?_⟩
    · show (HasCard.card b₁).mul (HasCard.card b₂) = _
      rw [h1.1]; rfl
    · refine ((h1.2.image2 (fun f₁ f₂ => (Features.stack f₁ f₂).toOption) h2.2).preimage (f := some)
        (Option.some_injective _).injOn).subset ?_
      rintro ψ ⟨x, hx⟩
      obtain ⟨r₁, hr₁, hx⟩ := P.bind_eq_ok.1 hx
      rcases r₁ with e | f₁
      · cases hx
      · obtain ⟨r₂, hr₂, hx⟩ := P.bind_eq_ok.1 hx
        rcases r₂ with e | f₂
        · cases hx
        · have hx : (Features.stack f₁ f₂).map Except.ok = _ := hx
          rcases hs : Features.stack f₁ f₂ with p | χ
          · rw [hs] at hx; cases hx
          · rw [hs] at hx
            cases hx
            refine ⟨f₁, ⟨x, hr₁⟩, f₂, ⟨x, hr₂⟩, ?_⟩
            show (Features.stack f₁ f₂).toOption = some _
            rw [hs]; rfl
  | l0 b _ h => exact ⟨h.1, finite_mapP _ h.2 fun _ => rfl⟩
  | l1 b _ h => exact ⟨h.1, finite_mapP _ h.2 fun _ => rfl⟩
  | l2 b _ h => exact ⟨h.1, finite_mapP _ h.2 fun _ => rfl⟩
  | linf b _ h => exact ⟨h.1, finite_mapP _ h.2 fun _ => rfl⟩

end

/-- With finitely many projections there are only finitely many predictions. -/
theorem finite_predictions {K : Type} [Scalar K] {B O : Type} [Space B] [Basis B (List K) K] {b : B} (h : (projections K b).Finite)
    (w : List K) (o : O) :
    {v : K | ∃ x : List K, ScalarLFA.evaluate (⟨b, w, o⟩ : ScalarLFA B O K) x = .ok (.ok v)}.Finite := by
  refine ((h.image fun φ => (φ.dot w).toOption).preimage (f := some) (Option.some_injective _).injOn).subset ?_
  rintro v ⟨x, hx⟩
  obtain ⟨r, hr, hx⟩ := P.bind_eq_ok.1 hx
  rcases r with e | φ
  · cases hx
  · refine ⟨φ, ⟨x, hr⟩, ?_⟩
    have hx : (φ.dot w).map Except.ok = _ := hx
    rcases hf : φ.dot w with p | χ
    · rw [hf] at hx; cases hx
    · rw [hf] at hx
      cases hx
      show (φ.dot w).toOption = some _
      rw [hf]; rfl

/-- So an approximator over such a basis predicts finitely many values over all inputs. -/
theorem C137_predictions {K : Type} [ScalarInf K] {B O : Type} [Space B] [Basis B (List K) K] [HasCard B] {b : B}
    (hb : Coarse (K := K) b) (w : List K) (o : O) :
    {v : K | ∃ x : List K, ScalarLFA.evaluate (⟨b, w, o⟩ : ScalarLFA B O K) x = .ok (.ok v)}.Finite :=
  finite_predictions (C137_coarse hb).2 w o

/-- A stack of two tile codings and a bias, normalised, meets the hypothesis. -/
example {H : Type} [BuildHasher H] (t₁ t₂ : TileCoding H) (b : Bias XReal) :
    Coarse (K := XReal) (L1Normaliser.mk (Stack.mk (Stack.mk t₁ t₂) b)) :=
  .l1 _ (.stack _ _ (.stack _ _ (.tileCoding _) (.tileCoding _)) (.bias _))

/-- If one feature takes infinitely many values there are infinitely many projections. -/
theorem infinite_of_entry {B : Type} [Space B] [Basis B (List ℝ) ℝ] {b : B} (k : Nat) (f : ℝ → ℝ)
    (hf : (Set.range f).Infinite)
    (h : ∀ t, ∃ (x fs : List ℝ), Basis.project b x = .ok (.ok (.dense fs)) ∧ fs[k]? = some (f t)) :
    (projections ℝ b).Infinite := by
  intro hfin
  refine hf ((hfin.image fun φ => match φ with
    | .dense fs => (fs[k]?).getD 0
    | .sparse _ => 0).subset ?_)
  rintro _ ⟨t, rfl⟩
  obtain ⟨x, fs, hx, hk⟩ := h t
  exact ⟨.dense fs, ⟨x, hx⟩, by show (fs[k]?).getD 0 = f t; rw [hk]; rfl⟩

theorem infinite_range {f : ℝ → ℝ} (hc : Continuous f) {a b : ℝ} (h : f a ≠ f b) : (Set.range f).Infinite :=
  IsPreconnected.infinite_of_nontrivial (isPreconnected_range hc) ⟨_, ⟨a, rfl⟩, _, ⟨b, rfl⟩, h⟩

/-- For polynomials `Infinite` is right. -/
theorem C137_polynomial_partial (p d : Nat) (hp : 0 < p) (hd : 0 < d) :
    HasCard.card (Polynomial.new d p) = .infinite ∧ (projections ℝ (Polynomial.new d p)).Infinite := by
  refine ⟨rfl, fun h => ?_⟩
  classical
  obtain ⟨w, -, hw⟩ := C24_expressive () p d hd (MvPolynomial.X ⟨0, hd⟩)
    (fun j => by rw [MvPolynomial.degreeOf_X]; split <;> omega) (by simp)
  refine Set.infinite_univ ((finite_predictions h w ()).subset fun v _ => ⟨List.ofFn fun _ : Fin d => v, ?_⟩)
  rw [hw, MvPolynomial.eval_X]

/-- The multi-index with a one at `j` and zeros elsewhere, and its place in the list. -/
theorem unit_index {p d : Nat} (hp : 0 < p) {es : List (List Nat)} (hes : MultiIndices p d es) (j : Fin d) :
    ∃ k : Nat, es[k]? = some (List.ofFn fun i : Fin d => if i = j then 1 else 0) := by
  have : (List.ofFn fun i : Fin d => if i = j then 1 else 0) ∈ es := by
    rw [hes.mem]
    refine ⟨List.length_ofFn, ?_, 1, ?_, one_ne_zero⟩
    · intro c hc
      obtain ⟨i, rfl⟩ := (List.mem_ofFn' _ _).1 hc
      dsimp only
      split <;> omega
    · exact (List.mem_ofFn' _ _).2 ⟨j, if_pos rfl⟩
  exact List.getElem?_of_mem this

theorem unit_index_getD {d : Nat} (i j : Fin d) :
    (List.ofFn fun i : Fin d => if i = j then 1 else 0).getD i 0 = if i = j then 1 else 0 := by
  rw [List.getD_eq_getElem?_getD, List.getElem?_ofFn]
  simp

theorem unit_move {d : Nat} (lo hi : Fin d → ℝ) (j : Fin d) (hj : lo j ≠ hi j) (t : ℝ) :
    unit lo hi (Function.update lo j (lo j + t * (hi j - lo j))) j = t := by
  unfold unit
  rw [Function.update_self, add_sub_cancel_left, mul_div_cancel_right₀ _ (sub_ne_zero.2 hj.symm)]

/-- And for Fourier bases over any number of inputs, one of which has limits that differ. -/
theorem C137_fourier_partial (p d : Nat) (hp : 0 < p) (lo hi : Fin d → ℝ) (j : Fin d) (hj : lo j ≠ hi j) :
    HasCard.card (Fourier.new p (List.ofFn fun i => (lo i, hi i))) = .infinite ∧
    (projections ℝ (Fourier.new p (List.ofFn fun i => (lo i, hi i)))).Infinite := by
  have hd : 0 < d := j.pos
  obtain ⟨k, hk⟩ := unit_index hp (computeCoefficients_spec p d hd) j
  refine ⟨rfl, infinite_of_entry k (fun t => Real.cos (Real.pi * t))
    (infinite_range (a := 0) (b := 1) (by fun_prop) (by norm_num [Real.cos_pi])) fun t => ?_⟩
  obtain ⟨es, hes, h⟩ := C28_features p d hd lo hi (Function.update lo j (lo j + t * (hi j - lo j)))
  refine ⟨_, _, h, ?_⟩
  rw [C23_multi_indices_unique hes (computeCoefficients_spec p d hd), List.getElem?_map, hk]
  show some (fourierFeature _ _) = some _
  unfold fourierFeature
  simp only [unit_index_getD]
  rw [Finset.sum_eq_single j (fun i _ hi => by rw [if_neg hi, Nat.cast_zero, zero_mul])
    (fun h => absurd (Finset.mem_univ _) h), if_pos rfl, unit_move lo hi j hj, Nat.cast_one, one_mul]

/-- And for Chebyshev bases. -/
theorem C137_chebyshev_partial (p d : Nat) (hp : 0 < p) (hp' : p ≤ 11) (lo hi : Fin d → ℝ) (j : Fin d)
    (hj : lo j ≠ hi j) : ∃ c, Chebyshev.new p (List.ofFn fun i => (lo i, hi i)) = .ok c ∧
      HasCard.card c = .infinite ∧ (projections ℝ c).Infinite := by
  have hd : 0 < d := j.pos
  obtain ⟨k, hk⟩ := unit_index hp (computeCoefficients_spec p d hd) j
  obtain ⟨-, c, -, hc, -⟩ := C26_features p d hp' hd lo hi lo
  refine ⟨c, hc, rfl, infinite_of_entry k (fun t => 2 * t - 1)
    (infinite_range (a := 0) (b := 1) (by fun_prop) (by norm_num)) fun t => ?_⟩
  obtain ⟨es, c', hes, hc', h⟩ := C26_features p d hp' hd lo hi (Function.update lo j (lo j + t * (hi j - lo j)))
  obtain rfl : c = c' := by rw [hc] at hc'; exact Except.ok.inj hc'
  refine ⟨_, _, h, ?_⟩
  rw [C23_multi_indices_unique hes (computeCoefficients_spec p d hd), List.getElem?_map, hk]
  show some (chebProduct _ _) = some _
  unfold chebProduct
  simp only [unit_index_getD]
  rw [Finset.prod_eq_single j (fun i _ hi => by rw [if_neg hi]; simp)
    (fun h => absurd (Finset.mem_univ _) h), if_pos rfl, unit_move lo hi j hj]
  simp

theorem profile_continuous (kind : StationaryKind) : Continuous (profile kind) := by
  cases kind <;> (unfold profile; fun_prop)

theorem profile_not_constant (kind : StationaryKind) : ∃ r, 0 ≤ r ∧ profile kind r ≠ profile kind 0 := by
  have h3 : (0 : ℝ) < Real.sqrt 3 := by positivity
  cases kind with
  | exponential => exact ⟨1, zero_le_one, by simp [profile]⟩
  | matern32 =>
    refine ⟨1 / Real.sqrt 3, by positivity, ?_⟩
    simp only [profile]
    rw [mul_one_div_cancel h3.ne', mul_zero, neg_zero, Real.exp_zero, Real.exp_neg]
    have := Real.add_one_lt_exp (one_ne_zero (α := ℝ))
    rw [← div_eq_mul_inv, ne_eq, div_eq_iff (Real.exp_pos _).ne']
    linarith
  | matern52 =>
    exact ⟨1 / 10 / Real.sqrt 3, by positivity, by rw [profile_zero]; exact profile_matern52_exceeds.ne'⟩
  | expQuad => exact ⟨1, zero_le_one, by simp [profile]⟩
  | cosine => exact ⟨Real.pi, Real.pi_pos.le, by norm_num [profile]⟩

theorem scaledDist_move {d : Nat} (l c : Fin d → ℝ) (j : Fin d) (hl : l j ≠ 0) (t : ℝ) :
    scaledDist l (Function.update c j (c j + t * l j)) c = |t| := by
  unfold scaledDist
  rw [Finset.sum_eq_single j (fun i _ hi => by rw [Function.update_of_ne hi]; simp)
    (fun h => absurd (Finset.mem_univ _) h), Function.update_self, add_sub_cancel_left,
    mul_div_cancel_right₀ _ hl, Real.sqrt_sq_eq_abs]

/-- And for kernel bases with a centroid, over a kernel with non-zero variance and a usable lengthscale. -/
theorem C137_kernel_partial {kind : StationaryKind} {d m : Nat} (v : ℝ) (hv : v ≠ 0) (l : Fin d → ℝ) (j : Fin d)
    (hl : l j ≠ 0) (c : Fin m → Fin d → ℝ) (hm : 0 < m) :
    HasCard.card (KernelBasis.homogeneous (List.ofFn fun i => List.ofFn (c i))
      (⟨v, List.ofFn l⟩ : Stationary kind ℝ)) = .infinite ∧
    (projections ℝ (KernelBasis.homogeneous (List.ofFn fun i => List.ofFn (c i))
      (⟨v, List.ofFn l⟩ : Stationary kind ℝ))).Infinite := by
  obtain ⟨r, hr0, hr⟩ := profile_not_constant kind
  refine ⟨rfl, infinite_of_entry 0 (fun t => v * profile kind (abs t))
    (infinite_range (a := r) (b := 0) ?_ ?_) fun t => ?_⟩
  · exact continuous_const.mul ((profile_continuous kind).comp continuous_abs)
  · rw [abs_of_nonneg hr0, abs_zero]
    exact fun h => hr (mul_left_cancel₀ hv h)
  · have := (C106_features (kind := kind) v 1 l (Function.update (c ⟨0, hm⟩) j (c ⟨0, hm⟩ j + t * l j)) c).1
    refine ⟨_, _, this, ?_⟩
    rw [List.getElem?_ofFn, dif_pos hm, scaledDist_move _ _ _ hl]

end Lfa

import Verif.Proofs.Basis
import Verif.Model.Lfa
import Verif.Props.C06_C11

/-!
# C17–C22: bases, `project` and `ith`, Stack, with_bias

`Built A b` (Spec/Basis) is the class of bases the crate can build; the theorems hold for every
such basis, at any nesting depth, in any arithmetic (IEEE included).
-/

set_option linter.unusedSectionVars false

namespace Lfa

open Spec Features

section
variable {K : Type} [ScalarInf K]

/-! ## C17 Projections have the advertised dimension

Full claim: `n_features = dim()` and no index out of range, for every built-in basis. The second
half is false for `Fixed::sparse(n, active)` when some active index is `≥ n`
(`C17_fixed_sparse_out_of_range`), which the constructor does not check. -/

/-- No restriction on the bases at all. -/
def allowAll : Allow K := ⟨fun _ => True, fun _ => True, True⟩

/-- `Fixed::sparse` restricted to active indices below the dimension. -/
def allowInRange : Allow K := ⟨fun _ => True, fun b => ∀ i ∈ b.active, i < b.nFeatures, True⟩

/-- A `Closure` basis advertises the declared number of features: projections have that number
exactly when the closure returns that number. -/
theorem C17_closure_iff {I : Type} (n : Nat) (f : I → P (Result (Features K))) :
    Space.dim (Closure.mk n f) = .finite n ∧
      (DimOK I (Closure.mk n f) ↔ ∀ input φ, f input = .ok (.ok φ) → dim φ = n) := by
  refine ⟨rfl, fun h input φ hf => ?_, fun h input φ hf => ?_⟩
  · have := h input φ hf
    injection this with this
    exact this.symm
  · exact congrArg Dim.finite (h input φ hf).symm

/-- Every built basis: the projection has `dim()` features. -/
theorem C17_dim {A : Allow K} {B : Type} [Space B] [Basis B (List K) K]
    [EnumerableBasis B (List K) K] {b : B} (hb : Built A b) : DimOK (List K) b := by
  induction hb with
  | bias b => rintro input φ h; cases h; rfl
  | fixedDense b h => rintro input φ h; cases h; rfl
  | fixedSparse b h => rintro input φ h; cases h; rfl
  | polynomial b =>
    rintro input φ h; cases h
    exact congrArg Dim.finite (List.length_map _).symm
  | chebyshev b =>
    rintro input φ h; cases h
    exact congrArg Dim.finite (List.length_map _).symm
  | fourier b =>
    rintro input φ h; cases h
    exact congrArg Dim.finite (List.length_map _).symm
  | kernel b =>
    rintro input φ h; cases h
    exact congrArg Dim.finite (List.length_map _).symm
  | tileCoding b =>
    rintro input φ h
    obtain ⟨is, -, h⟩ := P.bind_eq_ok.1 h
    cases h; rfl
  | uniformGrid ds hds =>
    rintro input φ h
    obtain ⟨i, -, h⟩ := P.bind_eq_ok.1 h
    cases h; rfl
  | stack b₁ b₂ _ _ ih₁ ih₂ =>
    rintro input φ h
    obtain ⟨f₁, f₂, h1, h2, h3⟩ := stack_project_ok h
    show (Space.dim b₁).add (Space.dim b₂) = _
    rw [ih₁ _ _ h1, ih₂ _ _ h2, stack_dim h3]; rfl
  | l0 b _ _ ih =>
    rintro input φ h
    obtain ⟨f, h1, h2⟩ := bind_mapP_ok h
    rw [mapInto_dim h2]; exact ih _ _ h1
  | l1 b _ _ ih =>
    rintro input φ h
    obtain ⟨f, h1, h2⟩ := bind_mapP_ok h
    cases h2
    rw [divideBy_dim]; exact ih _ _ h1
  | l2 b _ _ ih =>
    rintro input φ h
    obtain ⟨f, h1, h2⟩ := bind_mapP_ok h
    cases h2
    rw [divideBy_dim]; exact ih _ _ h1
  | linf b _ _ ih =>
    rintro input φ h
    obtain ⟨f, h1, h2⟩ := bind_mapP_ok h
    cases h2
    rw [divideBy_dim]; exact ih _ _ h1

/-- No stored index out of range, nor twice, for every family `A` whose `Fixed::sparse` leaves are
in range. Missing: `Fixed::sparse` with an out-of-range index, where the claim is false. -/
theorem C17_in_range_partial {A : Allow K}
    (hA : ∀ b : FixedSparse K, A.fixedSparse b → ∀ i ∈ b.active, i < b.nFeatures)
    {B : Type} [Space B] [Basis B (List K) K]
    [EnumerableBasis B (List K) K] {b : B} (hb : Built A b) : InRange (List K) b := by
  induction hb with
  | bias b => rintro input φ h; cases h; trivial
  | fixedDense b h => rintro input φ h; cases h; trivial
  | fixedSparse b h => rintro input φ h'; cases h'; exact wf_units (hA b h)
  | polynomial b => rintro input φ h; cases h; trivial
  | chebyshev b => rintro input φ h; cases h; trivial
  | fourier b => rintro input φ h; cases h; trivial
  | kernel b => rintro input φ h; cases h; trivial
  | tileCoding b =>
    rintro input φ h
    obtain ⟨is, h1, h⟩ := P.bind_eq_ok.1 h
    cases h
    exact wf_units (hashState_lt h1).1
  | uniformGrid ds hds =>
    rintro input φ h
    obtain ⟨i, h1, h⟩ := P.bind_eq_ok.1 h
    cases h
    refine wf_units (is := [i]) ?_
    intro j hj
    rw [List.mem_singleton.1 hj]
    exact hash_lt hds h1
  | stack b₁ b₂ _ _ ih₁ ih₂ =>
    rintro input φ h
    obtain ⟨f₁, f₂, h1, h2, h3⟩ := stack_project_ok h
    exact (stack_values (ih₁ _ _ h1) (ih₂ _ _ h2) h3).1
  | l0 b _ _ ih =>
    rintro input φ h
    obtain ⟨f, h1, h2⟩ := bind_mapP_ok h
    exact mapInto_wf (ih _ _ h1) h2
  | l1 b _ _ ih =>
    rintro input φ h
    obtain ⟨f, h1, h2⟩ := bind_mapP_ok h
    cases h2
    exact divideBy_wf (ih _ _ h1) _
  | l2 b _ _ ih =>
    rintro input φ h
    obtain ⟨f, h1, h2⟩ := bind_mapP_ok h
    cases h2
    exact divideBy_wf (ih _ _ h1) _
  | linf b _ _ ih =>
    rintro input φ h
    obtain ⟨f, h1, h2⟩ := bind_mapP_ok h
    cases h2
    exact divideBy_wf (ih _ _ h1) _

/-- The code violates the full claim: `Fixed::sparse(1, [5])` projects to features of dimension 1
with an activation at index 5. -/
theorem C17_fixed_sparse_out_of_range :
    ∃ b : FixedSparse K, Built allowAll b ∧ ¬ InRange (List K) b := by
  refine ⟨⟨1, [5]⟩, .fixedSparse _ trivial, fun h => ?_⟩
  have := (h [] _ rfl).2 (5, Scalar.one) (by simp [HMap.collect, HMap.insert])
  exact absurd this (by show ¬ 5 < 1; decide)

/-- A nested basis in the family: normalised tile coding with a bias. -/
example {H : Type} [BuildHasher H] (h : H) :
    Built (K := K) allowInRange
      (Stack.mk (L1Normaliser.mk (TileCoding.mk h 8 1024)) (Bias.unit (K := K))) :=
  .stack _ _ (.l1 _ trivial (.tileCoding _)) (.bias _)

/-! ## C18 ith agrees with project

Full claim: for every built-in basis, including `Fixed` dense. False there: `ith` of a dense `Fixed`
rejects every index but 0 (`C18_fixed_dense_wrong`). -/

/-- Restrictions under which `ith` agrees: `Fixed` dense has at most one constant, `Fixed` sparse is
in range; no normalisers (see C20). -/
def allowIth : Allow K :=
  ⟨fun b => b.constants.length ≤ 1, fun b => ∀ i ∈ b.active, i < b.nFeatures, False⟩

/-- For every stack of Bias, Fixed, Polynomial, Chebyshev, Fourier, KernelBasis, TileCoding,
UniformGrid: whenever `project` returns features, `ith i` returns their entry `i`. Missing: dense
`Fixed` with two or more constants and `Fixed` sparse with an out-of-range index. -/
theorem C18_ith_agrees_partial {B : Type} [Space B] [Basis B (List K) K]
    [EnumerableBasis B (List K) K] {b : B} (hb : Built (K := K) allowIth b) : IthAgrees (List K) b := by
  induction hb with
  | bias b =>
    rintro input φ n i h hn hi
    cases h; cases hn
    have : i = 0 := by omega
    subst this
    rfl
  | fixedDense b hc =>
    rintro input φ n i h hn hi
    cases h; cases hn
    have hc : b.constants.length ≤ 1 := hc
    show checkIndex i 1 _ = _
    unfold checkIndex
    rw [if_pos (by omega), List.getElem?_eq_getElem hi]
    rw [show (unwrap (some b.constants[i]) : P K) = .ok b.constants[i] from rfl, P.ok_bind,
      show mkDense b.constants = .dense b.constants from rfl,
      value_dense_of_getElem? (List.getElem?_eq_getElem hi)]
  | fixedSparse b hc =>
    rintro input φ n i h hn hi
    cases h; cases hn
    rw [value_units]
    show checkIndex i b.nFeatures _ = _
    unfold checkIndex
    rw [if_pos hi]
  | polynomial b =>
    rintro input φ n i h hn hi
    cases h; cases hn
    have hi : i < b.exponents.length := hi
    have e := List.getElem?_eq_getElem hi
    rw [show mkDense _ = Features.dense _ from rfl, value_dense_of_getElem?
      (a := Polynomial.computeFeature (input.zip b.exponents[i])) (by rw [List.getElem?_map, e]; rfl)]
    show (match b.exponents[i]? with | some exps => _ | none => _) = _
    rw [e]
  | chebyshev b =>
    rintro input φ n i h hn hi
    cases h; cases hn
    have hi : i < b.polynomials.length := hi
    have e := List.getElem?_eq_getElem hi
    rw [show mkDense _ = Features.dense _ from rfl, value_dense_of_getElem?
      (a := Chebyshev.computeFeature ((b.scaledState input).zip b.polynomials[i]))
      (by rw [List.getElem?_map, e]; rfl)]
    show (match b.polynomials[i]? with | some exps => _ | none => _) = _
    rw [e]
  | fourier b =>
    rintro input φ n i h hn hi
    cases h; cases hn
    have hi : i < b.coefficients.length := hi
    have e := List.getElem?_eq_getElem hi
    rw [show mkDense _ = Features.dense _ from rfl, value_dense_of_getElem?
      (a := Fourier.computeFeature ((rescale input b.limits).zip b.coefficients[i]))
      (by rw [List.getElem?_map, e]; rfl)]
    show (match b.coefficients[i]? with | some exps => _ | none => _) = _
    rw [e]
  | kernel b =>
    rintro input φ n i h hn hi
    cases h; cases hn
    have hi : i < b.prototypes.length := hi
    have e := List.getElem?_eq_getElem hi
    rw [value_dense_of_getElem? (a := b.prototypes[i].distanceFrom input)
      (by rw [List.getElem?_map, e]; rfl)]
    simp only [EnumerableBasis.ith, e]
  | tileCoding b =>
    rintro input φ n i h hn hi
    obtain ⟨is, h1, h⟩ := P.bind_eq_ok.1 h
    cases h; cases hn
    rw [value_units]
    show checkIndex i b.memorySize _ = _
    unfold checkIndex
    rw [if_pos hi]
    show (TileCoding.hashAny _ _ _ _ _ _ >>= _) = _
    rw [hashAny_of_hashState h1, P.ok_bind]
    simp only [decide_eq_true_eq]
  | uniformGrid ds hds =>
    rintro input φ n i h hn hi
    obtain ⟨k, h1, h⟩ := P.bind_eq_ok.1 h
    cases h; cases hn
    rw [show HMap.collect [(k, Scalar.one)] =
      HMap.collect (([k] : List Nat).map fun i => (i, (Scalar.one : K))) from rfl, value_units]
    show checkIndex i _ _ = _
    unfold checkIndex
    rw [if_pos hi, h1, P.ok_bind]
    simp only [List.mem_singleton, eq_comm]
  | stack b₁ b₂ hb₁ hb₂ ih₁ ih₂ =>
    rintro input φ n i h hn hi
    obtain ⟨f₁, f₂, h1, h2, h3⟩ := stack_project_ok h
    have d₁ := C17_dim hb₁ _ _ h1
    have d₂ := C17_dim hb₂ _ _ h2
    have w₁ := C17_in_range_partial (fun _ h => h) hb₁ _ _ h1
    have w₂ := C17_in_range_partial (fun _ h => h) hb₂ _ _ h2
    obtain ⟨-, v1, v2⟩ := stack_values w₁ w₂ h3
    have hn' : (Space.dim b₁).add (Space.dim b₂) = .finite n := hn
    rw [d₁, d₂] at hn'
    cases hn'
    show ((Space.dim b₁).toUsize >>= fun n₁ => (Space.dim b₂).toUsize >>= fun n₂ => _) = _
    rw [d₁, d₂]
    show (if i < dim f₁ then _ else if i < dim f₁ + dim f₂ then _ else _) = _
    by_cases hl : i < dim f₁
    · rw [if_pos hl, ih₁ _ _ _ _ h1 d₁ hl, v1 i hl]
    · rw [if_neg hl, if_pos hi, ih₂ _ _ _ (i - dim f₁) h2 d₂ (by omega),
        ← v2 (i - dim f₁) (by omega), Nat.add_sub_cancel' (Nat.le_of_not_lt hl)]
  | l0 b h => exact absurd h id
  | l1 b h => exact absurd h id
  | l2 b h => exact absurd h id
  | linf b h => exact absurd h id

/-- The code violates the full claim: the second constant of a dense `Fixed` cannot be read. -/
theorem C18_fixed_dense_wrong (x y : K) (input : List K) :
    Basis.project (FixedDense.mk [x, y]) input = .ok (.ok (.dense [x, y])) ∧
    EnumerableBasis.ith (FixedDense.mk [x, y]) input 1 =
      .ok (.error (Error.indexError 1 1)) := ⟨rfl, rfl⟩

example {H : Type} [BuildHasher H] (h : H) (limits : List (K × K)) :
    Built (K := K) allowIth
      (Stack.mk (Stack.mk (TileCoding.mk h 8 1024) (Fourier.new 3 limits)) (Bias.unit (K := K))) :=
  .stack _ _ (.stack _ _ (.tileCoding _) (.fourier _)) (.bias _)

/-! ## C19 ith rejects out-of-range indices

Full claim: for every built-in basis. False for dense `Fixed` unless it has exactly one constant:
see `C18_fixed_dense_wrong` and `C19_fixed_dense_empty_panics`. -/

/-- Dense `Fixed` restricted to exactly one constant; everything else unrestricted. -/
def allowReject : Allow K := ⟨fun b => b.constants.length = 1, fun _ => True, True⟩

/-- Built bases never return an error value from `project`. -/
theorem C19_project_never_errs {A : Allow K} {B : Type} [Space B] [Basis B (List K) K]
    [EnumerableBasis B (List K) K] {b : B} (hb : Built A b) : NoErr (List K) b := by
  induction hb with
  | bias b => rintro input φ h; cases h
  | fixedDense b h => rintro input φ h; cases h
  | fixedSparse b h => rintro input φ h; cases h
  | polynomial b => rintro input φ h; cases h
  | chebyshev b => rintro input φ h; cases h
  | fourier b => rintro input φ h; cases h
  | kernel b => rintro input φ h; cases h
  | tileCoding b =>
    rintro input φ h
    obtain ⟨is, -, h⟩ := P.bind_eq_ok.1 h
    cases h
  | uniformGrid ds hds =>
    rintro input φ h
    obtain ⟨i, -, h⟩ := P.bind_eq_ok.1 h
    cases h
  | stack b₁ b₂ _ _ ih₁ ih₂ =>
    rintro input e h
    rcases stack_project_error h with h | h
    · exact ih₁ _ _ h
    · exact ih₂ _ _ h
  | l0 b _ _ ih => rintro input e h; exact ih _ _ (bind_mapP_error h)
  | l1 b _ _ ih => rintro input e h; exact ih _ _ (bind_mapP_error h)
  | l2 b _ _ ih => rintro input e h; exact ih _ _ (bind_mapP_error h)
  | linf b _ _ ih => rintro input e h; exact ih _ _ (bind_mapP_error h)

theorem checkIndex_rejects {α : Type} {i n : Nat} {code : P (Result α)}
    (h : ∀ e, code ≠ .ok (.error e)) :
    (n ≤ i → checkIndex i n code = .ok (.error (Error.indexError i n))) ∧
    (i < n → ∀ e, checkIndex i n code ≠ .ok (.error e)) := by
  unfold checkIndex
  constructor
  · intro hn; rw [if_neg (by omega)]
  · intro hi e; rw [if_pos hi]; exact h e

theorem lookup_rejects {α β : Type} {l : List α} {f : α → β} {i : Nat} {x : P (Result β)}
    (hs : ∀ a, l[i]? = some a → x = .ok (.ok (f a)))
    (hn : l[i]? = none → x = .ok (.error (Error.indexError i l.length))) :
    (l.length ≤ i → x = .ok (.error (Error.indexError i l.length))) ∧
    (i < l.length → ∀ e, x ≠ .ok (.error e)) := by
  constructor
  · intro h; exact hn (List.getElem?_eq_none h)
  · intro h e; rw [hs _ (List.getElem?_eq_getElem h)]; intro hc; cases hc

/-- Every built basis (normalisers included): `ith` returns the index error naming the index and the
dimension exactly for out-of-range indices. Missing: dense `Fixed` with other than one constant. -/
theorem C19_ith_rejects_partial {B : Type} [Space B] [Basis B (List K) K]
    [EnumerableBasis B (List K) K] {b : B} (hb : Built (K := K) allowReject b) : IthRejects (List K) b := by
  induction hb with
  | bias b =>
    rintro input n i hn; cases hn
    exact checkIndex_rejects fun e h => by cases h
  | fixedDense b hc =>
    rintro input n i hn; cases hn
    have hc : b.constants.length = 1 := hc
    rw [hc]
    apply checkIndex_rejects
    intro e h
    obtain ⟨v, -, h⟩ := P.bind_eq_ok.1 h
    cases h
  | fixedSparse b _ =>
    rintro input n i hn; cases hn
    exact checkIndex_rejects fun e h => by cases h
  | polynomial b =>
    rintro input n i hn; cases hn
    exact lookup_rejects (fun a h => by simp only [EnumerableBasis.ith, h]; rfl)
      (fun h => by simp only [EnumerableBasis.ith, h])
  | chebyshev b =>
    rintro input n i hn; cases hn
    exact lookup_rejects (fun a h => by simp only [EnumerableBasis.ith, h]; rfl)
      (fun h => by simp only [EnumerableBasis.ith, h])
  | fourier b =>
    rintro input n i hn; cases hn
    exact lookup_rejects (fun a h => by simp only [EnumerableBasis.ith, h]; rfl)
      (fun h => by simp only [EnumerableBasis.ith, h])
  | kernel b =>
    rintro input n i hn; cases hn
    exact lookup_rejects (fun a h => by simp only [EnumerableBasis.ith, h]; rfl)
      (fun h => by simp only [EnumerableBasis.ith, h])
  | tileCoding b =>
    rintro input n i hn; cases hn
    apply checkIndex_rejects
    intro e h
    obtain ⟨v, -, h⟩ := P.bind_eq_ok.1 h
    cases h
  | uniformGrid ds hds =>
    rintro input n i hn; cases hn
    apply checkIndex_rejects
    intro e h
    obtain ⟨v, -, h⟩ := P.bind_eq_ok.1 h
    cases h
  | stack b₁ b₂ _ _ ih₁ ih₂ =>
    rintro input n i hn
    have hn' : (Space.dim b₁).add (Space.dim b₂) = .finite n := hn
    rcases h1 : Space.dim b₁ with n₁ | _
    · rcases h2 : Space.dim b₂ with n₂ | _
      · rw [h1, h2] at hn'
        cases hn'
        have e : EnumerableBasis.ith (Stack.mk b₁ b₂) input i =
            if i < n₁ then EnumerableBasis.ith b₁ input i
            else if i < n₁ + n₂ then EnumerableBasis.ith b₂ input (i - n₁)
            else .ok (.error (Error.indexError i (n₁ + n₂))) := by
          show ((Space.dim b₁).toUsize >>= fun n₁ => (Space.dim b₂).toUsize >>= fun n₂ => _) = _
          rw [h1, h2]; rfl
        rw [e]
        constructor
        · intro h
          rw [if_neg (by omega), if_neg (by omega)]
        · intro h e
          by_cases hl : i < n₁
          · rw [if_pos hl]; exact (ih₁ _ _ _ h1).2 hl e
          · rw [if_neg hl, if_pos h]; exact (ih₂ _ _ _ h2).2 (by omega) e
      · rw [h1, h2] at hn'; cases hn'
    · rw [h1] at hn'; cases hn'
  | l0 b _ hb _ =>
    rintro input n i hn
    have hn : Space.dim b = .finite n := hn
    show (n ≤ i → ((Space.dim b).toUsize >>= fun n => checkIndex i n _) = _) ∧
      (i < n → ∀ e, ((Space.dim b).toUsize >>= fun n => checkIndex i n _) ≠ _)
    rw [hn]
    exact checkIndex_rejects fun e h => C19_project_never_errs hb _ _ (bind_mapP_error h)
  | l1 b _ hb _ =>
    rintro input n i hn
    have hn : Space.dim b = .finite n := hn
    show (n ≤ i → ((Space.dim b).toUsize >>= fun n => checkIndex i n _) = _) ∧
      (i < n → ∀ e, ((Space.dim b).toUsize >>= fun n => checkIndex i n _) ≠ _)
    rw [hn]
    exact checkIndex_rejects fun e h => C19_project_never_errs hb _ _ (bind_mapP_error h)
  | l2 b _ hb _ =>
    rintro input n i hn
    have hn : Space.dim b = .finite n := hn
    show (n ≤ i → ((Space.dim b).toUsize >>= fun n => checkIndex i n _) = _) ∧
      (i < n → ∀ e, ((Space.dim b).toUsize >>= fun n => checkIndex i n _) ≠ _)
    rw [hn]
    exact checkIndex_rejects fun e h => C19_project_never_errs hb _ _ (bind_mapP_error h)
  | linf b _ hb _ =>
    rintro input n i hn
    have hn : Space.dim b = .finite n := hn
    show (n ≤ i → ((Space.dim b).toUsize >>= fun n => checkIndex i n _) = _) ∧
      (i < n → ∀ e, ((Space.dim b).toUsize >>= fun n => checkIndex i n _) ≠ _)
    rw [hn]
    exact checkIndex_rejects fun e h => C19_project_never_errs hb _ _ (bind_mapP_error h)

/-- The code violates the full claim: `ith(0)` of an empty dense `Fixed` panics instead of returning
the index error. -/
theorem C19_fixed_dense_empty_panics (input : List K) :
    Space.dim (FixedDense.mk ([] : List K)) = .finite 0 ∧
    EnumerableBasis.ith (FixedDense.mk ([] : List K)) input 0 = .error .unwrapFailed := ⟨rfl, rfl⟩

/-- The error names both numbers: different indices or dimensions give different errors. -/
example : Error.indexError 7 3 ≠ Error.indexError 7 4 := by decide

example (b : Polynomial) : Built (K := K) allowReject (L2Normaliser.mk b) :=
  .l2 _ trivial (.polynomial _)

end

/-! ## C20 ith of normalised bases

Full claim: agreement at every `i < dim`. False on sparse projections at inactive indices, where
`ith` panics (`C20_ith_panics_iff`). -/

section C20
variable {K : Type} [ScalarInf K] {B I : Type} [Space B] [Basis B I K]

theorem ithOver_agrees {φ : Features K} (hu : KeysUnique φ) (z : K) {i : Nat} {a : K}
    (hs : Stored φ i a) : ithOver φ z i = .ok (value (divideBy φ z) i) := by
  cases φ with
  | dense da =>
    have hs : da[i]? = some a := hs
    rw [show divideBy (.dense da) z = .dense (da.map (· /. z)) from rfl,
      value_dense_of_getElem? (a := a /. z) (by rw [List.getElem?_map, hs]; rfl)]
    show (idx da i >>= _) = _
    unfold idx
    rw [hs]; rfl
  | sparse sa =>
    have hg := HMap.get?_of_mem hu (show (i, a) ∈ sa.activations from hs)
    rw [divideBy_sparse hu, value_map_entries sa (· /. z), hg]
    show (sparseAt sa i >>= _) = _
    unfold sparseAt
    rw [hg]; rfl

/-- One statement for the four normalisers: at every stored index (all indices, when the inner
projection is dense) `ith` returns the entry of the normalised projection. Missing: inactive indices
of sparse projections, where `ith` panics. -/
theorem C20_ith_agrees_partial (b : B) (input : I) (φ : Features K) (n i : Nat) (a : K)
    (hp : Basis.project b input = .ok (.ok φ)) (hw : WF φ) (hn : Space.dim b = .finite n)
    (hd : dim φ = n) (hi : i < n) (hs : Stored φ i a) :
    (∀ ψ, Basis.project (L0Normaliser.mk b) input = .ok (.ok ψ) →
      EnumerableBasis.ith (L0Normaliser.mk b) input i = .ok (.ok (value ψ i))) ∧
    (∀ ψ, Basis.project (L1Normaliser.mk b) input = .ok (.ok ψ) →
      EnumerableBasis.ith (L1Normaliser.mk b) input i = .ok (.ok (value ψ i))) ∧
    (∀ ψ, Basis.project (L2Normaliser.mk b) input = .ok (.ok ψ) →
      EnumerableBasis.ith (L2Normaliser.mk b) input i = .ok (.ok (value ψ i))) ∧
    (∀ ψ, Basis.project (LinfNormaliser.mk b) input = .ok (.ok ψ) →
      EnumerableBasis.ith (LinfNormaliser.mk b) input i = .ok (.ok (value ψ i))) := by
  have hu := keysUnique_of_wf hw
  have key : ∀ (f : Features K → P K) (c : K), f φ = .ok c →
      ((Space.dim b).toUsize >>= fun n => checkIndex i n
        (Basis.project b input >>= fun r => r.mapP f)) = .ok (.ok c) := by
    intro f c hf
    rw [hn]
    show checkIndex i n _ = _
    unfold checkIndex
    rw [if_pos hi, hp]
    show (f φ).map Except.ok = _
    rw [hf]; rfl
  refine ⟨?_, ?_, ?_, ?_⟩
  · intro ψ h
    apply key
    obtain ⟨f, h1, h2⟩ := bind_mapP_ok (x := Basis.project b input) h
    rw [hp] at h1
    cases h1
    have hv : value ψ i = a /. Scalar.ofNat φ.nActive := by
      have h2 : φ.map (fun x => x /. Scalar.ofNat φ.nActive) = .ok ψ := by cases φ <;> exact h2
      cases φ with
      | dense da =>
        have hs : da[i]? = some a := hs
        cases h2
        exact value_dense_of_getElem? (by rw [List.getElem?_map, hs]; rfl)
      | sparse sa =>
        have hg := HMap.get?_of_mem hu (show (i, a) ∈ sa.activations from hs)
        rcases hpz : sparsityPreserving
            (fun x : K => x /. Scalar.ofNat (Features.sparse sa).nActive) with _ | _
        · rw [map_sparse_dense hw hpz] at h2
          cases h2
          apply value_dense_of_getElem?
          rw [List.getElem?_map, view_getElem?, if_pos (by omega), value_sparse, hg]; rfl
        · rw [map_sparse_preserving hu hpz] at h2
          cases h2
          rw [value_map_entries sa (· /. Scalar.ofNat (Features.sparse sa).nActive), hg]; rfl
    rw [hv]
    have hg : φ.uget i = .ok (some a) := by
      cases φ with
      | dense da =>
        have hs : da[i]? = some a := hs
        show (idx da i).map some = _
        unfold idx; rw [hs]; rfl
      | sparse sa =>
        show Except.ok (HMap.get? sa.activations i) = _
        rw [HMap.get?_of_mem hu (show (i, a) ∈ sa.activations from hs)]
    simp only [hg, P.ok_bind]
    rfl
  all_goals
    intro ψ h
    apply key
    obtain ⟨f, h1, h2⟩ := bind_mapP_ok (x := Basis.project b input) h
    rw [hp] at h1
    cases h1
    cases h2
    exact ithOver_agrees hu _ hs

/-- `ith` of a normalised basis panics, at an in-range index, exactly when the inner projection does
not store that index, i.e. is sparse and inactive there. -/
theorem C20_ith_panics_iff (b : B) (input : I) (φ : Features K) (n i : Nat)
    (hp : Basis.project b input = .ok (.ok φ)) (hn : Space.dim b = .finite n) (hi : i < n) :
    (Panics (EnumerableBasis.ith (L0Normaliser.mk b) input i) ↔ ∀ a, ¬ Stored φ i a) ∧
    (Panics (EnumerableBasis.ith (L1Normaliser.mk b) input i) ↔ ∀ a, ¬ Stored φ i a) ∧
    (Panics (EnumerableBasis.ith (L2Normaliser.mk b) input i) ↔ ∀ a, ¬ Stored φ i a) ∧
    (Panics (EnumerableBasis.ith (LinfNormaliser.mk b) input i) ↔ ∀ a, ¬ Stored φ i a) := by
  have key : ∀ (f : Features K → P K), (Panics (f φ) ↔ ∀ a, ¬ Stored φ i a) →
      (Panics ((Space.dim b).toUsize >>= fun n => checkIndex i n
        (Basis.project b input >>= fun r => r.mapP f)) ↔ ∀ a, ¬ Stored φ i a) := by
    intro f hf
    rw [hn, ← hf]
    show Panics (checkIndex i n _) ↔ _
    unfold checkIndex
    rw [if_pos hi, hp]
    show Panics ((f φ).map Except.ok) ↔ _
    cases f φ with
    | ok c => exact ⟨fun ⟨p, h⟩ => by (cases h), fun ⟨p, h⟩ => by (cases h)⟩
    | error p => exact ⟨fun _ => ⟨p, rfl⟩, fun _ => ⟨p, rfl⟩⟩
  have hover : ∀ z : K, Panics (ithOver φ z i) ↔ ∀ a, ¬ Stored φ i a := by
    intro z
    cases φ with
    | dense da =>
      show Panics (idx da i >>= _) ↔ ∀ a, ¬ da[i]? = some a
      unfold idx
      rcases da[i]? with _ | a
      · exact ⟨fun _ a h => by (cases h), fun _ => ⟨_, rfl⟩⟩
      · exact ⟨fun ⟨p, h⟩ => by (cases h), fun h => absurd rfl (h a)⟩
    | sparse sa =>
      show Panics (sparseAt sa i >>= _) ↔ ∀ a, ¬ (i, a) ∈ sa.activations
      unfold sparseAt
      rcases hg : HMap.get? sa.activations i with _ | a
      · refine ⟨fun _ a h => ?_, fun _ => ⟨_, rfl⟩⟩
        rw [HMap.get?_eq_none_iff] at hg
        exact hg (List.mem_map.2 ⟨_, h, rfl⟩)
      · exact ⟨fun ⟨p, h⟩ => by (cases h), fun h => absurd (HMap.mem_of_get? hg) (h a)⟩
  refine ⟨key _ ?_, key _ (hover _), key _ (hover _), key _ (hover _)⟩
  cases φ with
  | dense da =>
    show Panics (((idx da i).map some) >>= fun o => unwrap o >>= _) ↔ ∀ a, ¬ da[i]? = some a
    unfold idx
    rcases da[i]? with _ | a
    · exact ⟨fun _ a h => by (cases h), fun _ => ⟨_, rfl⟩⟩
    · exact ⟨fun ⟨p, h⟩ => by (cases h), fun h => absurd rfl (h a)⟩
  | sparse sa =>
    show Panics (unwrap (HMap.get? sa.activations i) >>= _) ↔ ∀ a, ¬ (i, a) ∈ sa.activations
    rcases hg : HMap.get? sa.activations i with _ | a
    · refine ⟨fun _ a h => ?_, fun _ => ⟨_, rfl⟩⟩
      rw [HMap.get?_eq_none_iff] at hg
      exact hg (List.mem_map.2 ⟨_, h, rfl⟩)
    · exact ⟨fun ⟨p, h⟩ => by (cases h), fun h => absurd (HMap.mem_of_get? hg) (h a)⟩

/-- A sparse inner projection with both cases: index 2 is stored, index 0 is not. -/
example : ∃ φ : Features K, Basis.project (FixedSparse.mk 3 [2] : FixedSparse K) ([] : List K) =
    .ok (.ok φ) ∧ WF φ ∧ dim φ = 3 ∧ Stored φ 2 Scalar.one ∧ ∀ a, ¬ Stored φ 0 a :=
  ⟨_, rfl, wf_units (fun i hi => by rw [List.mem_singleton.1 hi]; exact Nat.lt_succ_self 2), rfl, by simp [Stored, HMap.collect, HMap.insert],
    by simp [Stored, HMap.collect, HMap.insert]⟩

end C20

/-! ## C21 Stack projects both bases in order -/

section C21
variable {K : Type} [Scalar K] {B₁ B₂ I : Type} [Space B₁] [Space B₂] [Basis B₁ I K] [Basis B₂ I K]

/-- Both succeed with well-formed features: the stack's projection is the concatenation. -/
theorem C21_stack_concat (b₁ : B₁) (b₂ : B₂) (input : I) (φ ψ : Features K)
    (h₁ : Basis.project b₁ input = .ok (.ok φ)) (h₂ : Basis.project b₂ input = .ok (.ok ψ))
    (w₁ : WF φ) (w₂ : WF ψ) :
    ∃ r, Basis.project (Stack.mk b₁ b₂) input = .ok (.ok r) ∧ WF r ∧
      view r = view φ ++ view ψ := by
  obtain ⟨r, hr, wr, vr, -⟩ := C06_stack φ ψ w₁ w₂
  refine ⟨r, ?_, wr, vr⟩
  rw [stack_project_eq, h₁, h₂]
  show ((φ.stack ψ).map Except.ok) = _
  rw [hr]; rfl

/-- Errors: the first basis' error if it fails (the second is not consulted), else the second's. -/
theorem C21_stack_errors (b₁ : B₁) (b₂ : B₂) (input : I) (e : Error) :
    (Basis.project b₁ input = .ok (.error e) →
      Basis.project (Stack.mk b₁ b₂) input = .ok (.error e)) ∧
    (∀ φ, Basis.project b₁ input = .ok (.ok φ) → Basis.project b₂ input = .ok (.error e) →
      Basis.project (Stack.mk b₁ b₂) input = .ok (.error e)) := by
  constructor
  · intro h; rw [stack_project_eq, h]; rfl
  · intro φ h h'; rw [stack_project_eq, h, h']; rfl

/-- The stack succeeds only if both bases do. -/
theorem C21_stack_ok_only_if (b₁ : B₁) (b₂ : B₂) (input : I) (r : Features K)
    (h : Basis.project (Stack.mk b₁ b₂) input = .ok (.ok r)) :
    ∃ φ ψ, Basis.project b₁ input = .ok (.ok φ) ∧ Basis.project b₂ input = .ok (.ok ψ) ∧
      φ.stack ψ = .ok r := stack_project_ok h

/-- Dimensions add up. -/
theorem C21_stack_dim (b₁ : B₁) (b₂ : B₂) (n₁ n₂ : Nat) (h₁ : Space.dim b₁ = .finite n₁)
    (h₂ : Space.dim b₂ = .finite n₂) :
    Space.dim (Stack.mk b₁ b₂) = .finite (n₁ + n₂) ∧
    nFeatures (Stack.mk b₁ b₂) = .ok (n₁ + n₂) := by
  have : Space.dim (Stack.mk b₁ b₂) = .finite (n₁ + n₂) := by
    show (Space.dim b₁).add (Space.dim b₂) = _
    rw [h₁, h₂]; rfl
  exact ⟨this, by unfold nFeatures; rw [this]; rfl⟩

/-- The three outcomes all occur: a closure may fail. -/
example (e : Error) : Basis.project (Stack.mk (Closure.mk (I := List K) (K := K) 1 fun _ => .ok (.error e))
    (Bias.unit (K := K))) ([] : List K) = .ok (.error e) := rfl

end C21

/-! ## C22 with_bias adds an intercept -/

/-- The approximator over `basis.with_bias()` with weights `w ++ [c]` evaluates to the one over
`basis` with weights `w`, plus `c`; projection errors are passed on (exact arithmetic). -/
theorem C22_with_bias {B I O : Type} [Space B] [Basis B I ℝ] (b : B) (o : O) (w : List ℝ) (c : ℝ)
    (input : I) (φ : Features ℝ) (h : Basis.project b input = .ok (.ok φ)) (hw : WF φ)
    (hd : dim φ = w.length) :
    ∃ v, ScalarLFA.evaluate (⟨b, w, o⟩ : ScalarLFA B O ℝ) input = .ok (.ok v) ∧
      ScalarLFA.evaluate (⟨withBias b, w ++ [c], o⟩ : ScalarLFA (Stack B (Bias ℝ)) O ℝ) input =
        .ok (.ok (v + c)) := by
  refine ⟨inner φ w, ?_, ?_⟩
  · unfold ScalarLFA.evaluate
    rw [h]
    show ((φ.dot w).map Except.ok) = _
    rw [dot_real hw hd]; rfl
  · obtain ⟨r, hr, wr, vr⟩ := C21_stack_concat b (Bias.unit (K := ℝ)) input φ (.dense [Scalar.one]) h
      rfl hw trivial
    obtain ⟨φ', ψ', h1, h2, h3⟩ := C21_stack_ok_only_if _ _ _ _ hr
    rw [h] at h1; cases h1
    cases h2
    have hdr : dim r = dim φ + 1 := stack_dim h3
    have hw' : WF (Features.mkDense [(Bias.unit (K := ℝ)).value]) := trivial
    obtain ⟨-, v1, v2⟩ := stack_values hw hw' h3
    unfold ScalarLFA.evaluate withBias
    rw [hr]
    show ((r.dot (w ++ [c])).map Except.ok) = _
    rw [dot_real wr (by rw [hdr, hd]; simp)]
    show Except.ok (Except.ok _) = _
    congr 2
    unfold inner
    rw [hdr, Finset.sum_range_succ]
    have e2 := v2 0 Nat.zero_lt_one
    rw [Nat.add_zero] at e2
    rw [e2, hd]
    congr 1
    · apply Finset.sum_congr rfl
      intro i hi
      have hi := Finset.mem_range.1 hi
      rw [v1 i (hd ▸ hi), List.getD_eq_getElem?_getD, List.getD_eq_getElem?_getD,
        List.getElem?_append_left hi]
    · rw [List.getD_eq_getElem?_getD, List.getElem?_append_right (le_refl _), Nat.sub_self]
      simp [mkDense, value_dense, Bias.unit]

/-- An error of the inner basis is the error of the biased approximator. -/
theorem C22_with_bias_error {B I O : Type} [Space B] [Basis B I ℝ] (b : B) (o : O) (w : List ℝ)
    (input : I) (e : Error) (h : Basis.project b input = .ok (.error e)) :
    ScalarLFA.evaluate (⟨withBias b, w, o⟩ : ScalarLFA (Stack B (Bias ℝ)) O ℝ) input =
      .ok (.error e) := by
  unfold ScalarLFA.evaluate withBias
  rw [(C21_stack_errors b (Bias.unit (K := ℝ)) input e).1 h]; rfl

example : ∃ φ, Basis.project (Polynomial.new 1 2) [(3 : ℝ)] = .ok (.ok φ) ∧ WF φ ∧ dim φ = 2 :=
  ⟨_, rfl, trivial, by decide⟩

end Lfa

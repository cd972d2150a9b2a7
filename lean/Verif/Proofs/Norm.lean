import Verif.Spec.Norm
import Verif.Proofs.Basis
import Verif.Proofs.Features
import Mathlib.Tactic.Linarith
import Mathlib.Tactic.FieldSimp

/-! # Lemmas about normalisers -/

set_option linter.unusedSectionVars false

namespace Lfa

open Spec Features

section Map
variable {K L : Type}

@[simp] theorem mapValues_dim (g : K → L) (φ : Features K) : dim (mapValues g φ) = dim φ := by
  cases φ <;> simp [mapValues, dim]

theorem mapValues_wf {g : K → L} {φ : Features K} (h : WF φ) : WF (mapValues g φ) := by
  cases φ with
  | dense da => trivial
  | sparse sa =>
    refine ⟨?_, ?_⟩
    · have := HMap.nodupKeys_map g (m := sa.activations) h.1
      exact this
    · intro e he
      obtain ⟨e', he', rfl⟩ := List.mem_map.1 he
      exact h.2 e' he'

theorem mapValues_isDense [Scalar K] [Scalar L] (g : K → L) (φ : Features K) :
    (mapValues g φ).isDense = φ.isDense := by
  cases φ <;> rfl

theorem mapValues_comp {M : Type} (g : K → L) (f : L → M) (φ : Features K) :
    mapValues f (mapValues g φ) = mapValues (fun x => f (g x)) φ := by
  cases φ <;> simp [mapValues, Function.comp_def]

theorem mapValues_congr {g f : K → L} {φ : Features K} (h : ∀ x, g x = f x) :
    mapValues g φ = mapValues f φ := by
  have : g = f := funext h
  rw [this]

theorem mapValues_id (φ : Features K) : mapValues (fun x => x) φ = φ := by
  cases φ <;> simp [mapValues]

theorem value_mapValues [Scalar K] [Scalar L] {g : K → L} (g0 : g Scalar.zero = Scalar.zero)
    (φ : Features K) (i : Nat) : value (mapValues g φ) i = g (value φ i) := by
  cases φ with
  | dense da =>
    simp only [mapValues, value_dense, List.getD_eq_getElem?_getD, List.getElem?_map]
    cases da[i]? <;> simp [g0]
  | sparse sa =>
    simp only [mapValues, value_sparse]
    rw [HMap.get?_map]
    cases HMap.get? sa.activations i <;> simp [g0]

theorem values_mapValues (g : K → L) (φ : Features K) :
    (mapValues g φ).values = φ.values.map g := by
  cases φ <;> simp [mapValues, Features.values]

theorem mem_values_iff (φ : Features K) (a : K) : a ∈ φ.values ↔ ∃ i, Stored φ i a := by
  cases φ with
  | dense da =>
    show a ∈ da ↔ ∃ i : Nat, da[i]? = some a
    rw [List.mem_iff_getElem?]
  | sparse sa =>
    show a ∈ sa.activations.map Prod.snd ↔ ∃ i, (i, a) ∈ sa.activations
    rw [List.mem_map]
    exact ⟨fun ⟨e, h, he⟩ => ⟨e.1, he ▸ h⟩, fun ⟨i, h⟩ => ⟨_, h, rfl⟩⟩

theorem divideBy_eq [Scalar K] {φ : Features K} (h : WF φ) (z : K) :
    divideBy φ z = mapValues (fun x => x /. z) φ := by
  cases φ with
  | dense da => rfl
  | sparse sa => rw [divideBy_sparse h.1]; rfl

end Map

/-! ## Projections of the normalisers -/

section Project
variable {B I K : Type} [Space B] [Scalar K] [Basis B I K]

theorem l0_project {b : B} {x : I} {φ : Features K} (h : Basis.project b x = .ok (.ok φ)) :
    Basis.project (L0Normaliser.mk b) x = (l0Normalise φ).map Except.ok := by
  show (Basis.project b x >>= _) = _
  rw [h]; rfl

theorem l1_project {b : B} {x : I} {φ : Features K} (h : Basis.project b x = .ok (.ok φ)) :
    Basis.project (L1Normaliser.mk b) x = .ok (.ok (divideBy φ (l1Norm φ))) := by
  show (Basis.project b x >>= _) = _
  rw [h]; rfl

theorem l2_project {b : B} {x : I} {φ : Features K} (h : Basis.project b x = .ok (.ok φ)) :
    Basis.project (L2Normaliser.mk b) x = .ok (.ok (divideBy φ (l2Norm φ))) := by
  show (Basis.project b x >>= _) = _
  rw [h]; rfl

end Project

theorem linf_project {B I K : Type} [Space B] [ScalarInf K] [Basis B I K] {b : B} {x : I}
    {φ : Features K} (h : Basis.project b x = .ok (.ok φ)) :
    Basis.project (LinfNormaliser.mk b) x = .ok (.ok (divideBy φ (linfNorm φ))) := by
  show (Basis.project b x >>= _) = _
  rw [h]; rfl

/-! ## Norms over the reals -/

theorem fold_eq_values {K : Type} [Scalar K] (φ : Features K) (z : K) (f : K → K → K) :
    φ.fold z f = φ.values.foldl f z := by cases φ <;> rfl

theorem l1Norm_real {φ : Features ℝ} (h : WF φ) : l1Norm φ = l1 φ := by
  show φ.values.foldl _ _ = _
  rw [← fold_eq_values]
  simp only [real_add, real_abs, real_zero]
  rw [fold_real h (fun x => |x|) abs_zero, zero_add]
  rfl

theorem l2Norm_real {φ : Features ℝ} (h : WF φ) : l2Norm φ = l2 φ := by
  show Real.sqrt (φ.values.foldl _ _) = _
  rw [← fold_eq_values]
  simp only [real_add, real_mul, real_zero]
  rw [fold_real h (fun x => x * x) (mul_zero 0), zero_add]
  rfl

theorem nonZero_value {φ : Features ℝ} (h : WF φ) (hz : NonZero φ) :
    ∃ i < dim φ, value φ i ≠ 0 := by
  obtain ⟨i, a, hs, ha⟩ := hz
  refine ⟨i, ?_, by rw [value_of_stored (keysUnique_of_wf h) hs]; exact ha⟩
  by_contra hc
  have hv := value_of_ge_dim h (Nat.le_of_not_lt hc)
  rw [value_of_stored (keysUnique_of_wf h) hs, real_zero] at hv
  exact ha hv

theorem l1_pos {φ : Features ℝ} (h : WF φ) (hz : NonZero φ) : 0 < l1 φ := by
  obtain ⟨i, hi, hv⟩ := nonZero_value h hz
  exact Finset.sum_pos' (fun _ _ => abs_nonneg _) ⟨i, Finset.mem_range.2 hi, abs_pos.2 hv⟩

theorem normSq_pos {φ : Features ℝ} (h : WF φ) (hz : NonZero φ) : 0 < normSq φ := by
  obtain ⟨i, hi, hv⟩ := nonZero_value h hz
  exact Finset.sum_pos' (fun _ _ => mul_self_nonneg _)
    ⟨i, Finset.mem_range.2 hi, mul_self_pos.2 hv⟩

theorem l2_pos {φ : Features ℝ} (h : WF φ) (hz : NonZero φ) : 0 < l2 φ :=
  Real.sqrt_pos.2 (normSq_pos h hz)

theorem value_scale (c : ℝ) (φ : Features ℝ) (i : Nat) :
    value (mapValues (fun x => c * x) φ) i = c * value φ i :=
  value_mapValues (g := fun x => c * x) (by rw [real_zero, mul_zero]) φ i

theorem value_over (z : ℝ) (φ : Features ℝ) (i : Nat) :
    value (mapValues (fun x => x / z) φ) i = value φ i / z :=
  value_mapValues (g := fun x => x / z) (by rw [real_zero, zero_div]) φ i

theorem l1_scale (c : ℝ) (φ : Features ℝ) : l1 (mapValues (fun x => c * x) φ) = |c| * l1 φ := by
  simp only [l1, value_scale, mapValues_dim, abs_mul, Finset.mul_sum]

theorem normSq_scale (c : ℝ) (φ : Features ℝ) :
    normSq (mapValues (fun x => c * x) φ) = c ^ 2 * normSq φ := by
  simp only [normSq, value_scale, mapValues_dim, Finset.mul_sum]
  exact Finset.sum_congr rfl fun i _ => by ring

theorem l2_scale (c : ℝ) (φ : Features ℝ) : l2 (mapValues (fun x => c * x) φ) = |c| * l2 φ := by
  rw [l2, normSq_scale, Real.sqrt_mul (sq_nonneg c), Real.sqrt_sq_eq_abs]; rfl

theorem over_eq_scale (z : ℝ) (φ : Features ℝ) :
    mapValues (fun x => x / z) φ = mapValues (fun x => z⁻¹ * x) φ :=
  mapValues_congr fun x => by rw [div_eq_inv_mul]

theorem nonZero_over {φ : Features ℝ} (hz : NonZero φ) {c : ℝ} (hc : c ≠ 0) :
    NonZero (mapValues (fun x => x / c) φ) := by
  obtain ⟨i, a, hs, ha⟩ := hz
  refine ⟨i, a / c, ?_, div_ne_zero ha hc⟩
  cases φ with
  | dense da =>
    show (da.map _)[i]? = _
    rw [List.getElem?_map]
    have hs : da[i]? = some a := hs
    rw [hs]; rfl
  | sparse sa => exact List.mem_map.2 ⟨(i, a), hs, rfl⟩

theorem nonZero_scale {φ : Features ℝ} (hz : NonZero φ) {c : ℝ} (hc : c ≠ 0) :
    NonZero (mapValues (fun x => c * x) φ) := by
  have := nonZero_over hz (inv_ne_zero hc)
  rwa [over_eq_scale, inv_inv] at this

/-! ## The L∞ norm with special values -/

theorem xmax_fin (a b : ℝ) : XReal.max (.fin a) (.fin b) = .fin (max a b) := by
  show (if decide (a < b) = true then XReal.fin b else XReal.fin a) = _
  by_cases h : a < b
  · rw [if_pos (by simpa using h), max_eq_right h.le]
  · rw [if_neg (by simpa using h), max_eq_left (not_lt.1 h)]

theorem foldl_xmax (l : List ℝ) (a : ℝ) :
    (l.map XReal.fin).foldl (fun acc x => XReal.max acc (XReal.abs x)) (.fin a) =
      .fin (l.foldl (fun acc x => max acc |x|) a) := by
  induction l generalizing a with
  | nil => rfl
  | cons x l ih =>
    rw [List.map_cons, List.foldl_cons, List.foldl_cons,
      show XReal.abs (.fin x) = .fin |x| from rfl, xmax_fin, ih]

theorem foldl_max_spec (l : List ℝ) (a : ℝ) :
    a ≤ l.foldl (fun acc x => max acc |x|) a ∧
    (∀ x ∈ l, |x| ≤ l.foldl (fun acc x => max acc |x|) a) ∧
    (l.foldl (fun acc x => max acc |x|) a = a ∨
      ∃ x ∈ l, |x| = l.foldl (fun acc x => max acc |x|) a) := by
  induction l generalizing a with
  | nil => simp
  | cons y l ih =>
    obtain ⟨h1, h2, h3⟩ := ih (max a |y|)
    rw [List.foldl_cons]
    refine ⟨le_trans (le_max_left _ _) h1, ?_, ?_⟩
    · intro x hx
      rcases List.mem_cons.1 hx with rfl | hx
      · exact le_trans (le_max_right _ _) h1
      · exact h2 x hx
    · rcases h3 with h3 | ⟨x, hx, h3⟩
      · rcases le_total a |y| with h | h
        · exact .inr ⟨y, List.mem_cons_self, by rw [h3, max_eq_right h]⟩
        · exact .inl (by rw [h3, max_eq_left h])
      · exact .inr ⟨x, List.mem_cons_of_mem _ hx, h3⟩

/-- The code's L∞ norm of finite, non-zero features is finite and is their L∞ norm. -/
theorem linfNorm_fin {φ : Features ℝ} (h : WF φ) (hz : NonZero φ) :
    ∃ m, linfNorm (toX φ) = .fin m ∧ IsLinf φ m ∧ 0 < m := by
  have hne : φ.values ≠ [] := by
    obtain ⟨i, a, hs, -⟩ := hz
    intro hc
    have := (mem_values_iff φ a).2 ⟨i, hs⟩
    rw [hc] at this; cases this
  obtain ⟨x, l, hl⟩ := List.exists_cons_of_ne_nil hne
  have e : linfNorm (toX φ) = .fin (l.foldl (fun acc x => max acc |x|) |x|) := by
    show (mapValues XReal.fin φ).values.foldl (fun acc x => XReal.max acc (XReal.abs x)) .ninf = _
    rw [values_mapValues, hl, List.map_cons, List.foldl_cons,
      show XReal.max .ninf (XReal.abs (.fin x)) = .fin |x| from rfl, foldl_xmax]
  obtain ⟨h1, h2, h3⟩ := foldl_max_spec l |x|
  set m := l.foldl (fun acc x => max acc |x|) |x| with hm
  have hall : ∀ y ∈ φ.values, |y| ≤ m := by
    intro y hy
    rw [hl] at hy
    rcases List.mem_cons.1 hy with rfl | hy
    · exact h1
    · exact h2 y hy
  have hex : ∃ y ∈ φ.values, |y| = m := by
    rw [hl]
    rcases h3 with h3 | ⟨y, hy, h3⟩
    · exact ⟨x, List.mem_cons_self, h3.symm⟩
    · exact ⟨y, List.mem_cons_of_mem _ hy, h3⟩
  have hpos : 0 < m := by
    obtain ⟨i, a, hs, ha⟩ := hz
    exact lt_of_lt_of_le (abs_pos.2 ha) (hall a ((mem_values_iff φ a).2 ⟨i, hs⟩))
  refine ⟨m, e, ⟨fun i => ?_, ?_⟩, hpos⟩
  · by_cases hs : ∃ a, Stored φ i a
    · obtain ⟨a, hs⟩ := hs
      rw [value_of_stored (keysUnique_of_wf h) hs]
      exact hall a ((mem_values_iff φ a).2 ⟨i, hs⟩)
    · push Not at hs
      rw [value_of_not_stored hs, real_zero, abs_zero]
      exact hpos.le
  · obtain ⟨y, hy, hym⟩ := hex
    obtain ⟨i, hs⟩ := (mem_values_iff φ y).1 hy
    have hv := value_of_stored (keysUnique_of_wf h) hs
    refine ⟨i, ?_, by rw [hv, hym]⟩
    by_contra hc
    have hv' := value_of_ge_dim h (Nat.le_of_not_lt hc)
    rw [hv, real_zero] at hv'
    rw [hv', abs_zero] at hym
    exact hpos.ne hym

theorem isLinf_unique {φ : Features ℝ} {m m' : ℝ} (h : IsLinf φ m) (h' : IsLinf φ m') : m = m' := by
  obtain ⟨h1, i, -, hi⟩ := h
  obtain ⟨h1', j, -, hj⟩ := h'
  exact le_antisymm (hi ▸ h1' i) (hj ▸ h1 j)

theorem isLinf_scale {φ : Features ℝ} {m c : ℝ} (hc : 0 < c) (h : IsLinf φ m) :
    IsLinf (mapValues (fun x => c * x) φ) (c * m) := by
  obtain ⟨h1, i, hi, h2⟩ := h
  refine ⟨fun j => ?_, i, by rw [mapValues_dim]; exact hi, ?_⟩
  · rw [value_scale, abs_mul, abs_of_pos hc]
    exact mul_le_mul_of_nonneg_left (h1 j) hc.le
  · rw [value_scale, abs_mul, abs_of_pos hc, h2]

theorem divideBy_fin {φ : Features ℝ} (h : WF φ) {z : ℝ} (hz : z ≠ 0) :
    divideBy (toX φ) (.fin z) = toX (mapValues (fun x => x / z) φ) := by
  rw [toX, toX, divideBy_eq (mapValues_wf h), mapValues_comp, mapValues_comp]
  apply mapValues_congr
  intro x
  show XReal.div (.fin x) (.fin z) = _
  show (if z = 0 then _ else _) = _
  rw [if_neg hz]

end Lfa

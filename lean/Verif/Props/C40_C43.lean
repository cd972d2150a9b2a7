import Verif.Proofs.Norm
import Verif.Props.C30_C35
import Mathlib.Algebra.BigOperators.Field

/-!
# C40–C43: normalisers

L1 and L2 over exact reals. L∞ starts its fold from `-∞`, so it lives over `XReal` (reals plus IEEE
special values); finite features embed there through `toX`. `b` is any basis, `x` any input; `φ` is
what `b` projects `x` to.
-/

set_option linter.unusedSectionVars false

namespace Lfa

open Spec

section
variable {B I : Type} [Space B]

/-! ## C40 Normalisers produce unit norm -/

/-- L1: every activation is divided by one positive number (so representation, dimension, stored
indices and signs are kept) and the result has norm 1. -/
theorem C40_l1 [Basis B I ℝ] (b : B) (x : I) (φ : Features ℝ) (h : WF φ) (hz : NonZero φ)
    (hp : Basis.project b x = .ok (.ok φ)) :
    ∃ z > 0, Basis.project (L1Normaliser.mk b) x = .ok (.ok (mapValues (fun a => a / z) φ)) ∧
      l1 (mapValues (fun a => a / z) φ) = 1 := by
  have hpos := l1_pos h hz
  refine ⟨l1 φ, hpos, ?_, ?_⟩
  · rw [l1_project hp, l1Norm_real h, divideBy_eq h]; rfl
  · rw [over_eq_scale, l1_scale, abs_of_pos (inv_pos.2 hpos), inv_mul_cancel₀ hpos.ne']

/-- L2. -/
theorem C40_l2 [Basis B I ℝ] (b : B) (x : I) (φ : Features ℝ) (h : WF φ) (hz : NonZero φ)
    (hp : Basis.project b x = .ok (.ok φ)) :
    ∃ z > 0, Basis.project (L2Normaliser.mk b) x = .ok (.ok (mapValues (fun a => a / z) φ)) ∧
      l2 (mapValues (fun a => a / z) φ) = 1 := by
  have hpos := l2_pos h hz
  refine ⟨l2 φ, hpos, ?_, ?_⟩
  · rw [l2_project hp, l2Norm_real h, divideBy_eq h]; rfl
  · rw [over_eq_scale, l2_scale, abs_of_pos (inv_pos.2 hpos), inv_mul_cancel₀ hpos.ne']

/-- L∞. -/
theorem C40_linf [Basis B I XReal] (b : B) (x : I) (φ : Features ℝ) (h : WF φ) (hz : NonZero φ)
    (hp : Basis.project b x = .ok (.ok (toX φ))) :
    ∃ z > 0, Basis.project (LinfNormaliser.mk b) x =
        .ok (.ok (toX (mapValues (fun a => a / z) φ))) ∧
      IsLinf (mapValues (fun a => a / z) φ) 1 := by
  obtain ⟨m, hm, hl, hpos⟩ := linfNorm_fin h hz
  refine ⟨m, hpos, ?_, ?_⟩
  · rw [linf_project hp, hm, divideBy_fin h hpos.ne']
  · have := isLinf_scale (inv_pos.2 hpos) hl
    rwa [inv_mul_cancel₀ hpos.ne', ← over_eq_scale] at this

/-- What dividing every stored activation by a positive number keeps. -/
theorem C40_kept (φ : Features ℝ) (h : WF φ) (z : ℝ) (hz : 0 < z) :
    (mapValues (fun a => a / z) φ).isDense = φ.isDense ∧
    dim (mapValues (fun a => a / z) φ) = dim φ ∧
    WF (mapValues (fun a => a / z) φ) ∧
    ∀ i, value (mapValues (fun a => a / z) φ) i = value φ i / z ∧
      (0 < value (mapValues (fun a => a / z) φ) i ↔ 0 < value φ i) ∧
      (value (mapValues (fun a => a / z) φ) i < 0 ↔ value φ i < 0) := by
  refine ⟨mapValues_isDense _ _, mapValues_dim _ _, mapValues_wf h, fun i => ?_⟩
  have e := value_over z φ i
  refine ⟨e, ?_, ?_⟩ <;> rw [e]
  · exact ⟨fun h => by
      by_contra hc
      exact absurd h (not_lt.2 (div_nonpos_of_nonpos_of_nonneg (not_lt.1 hc) hz.le)),
      fun h => div_pos h hz⟩
  · exact ⟨fun h => by
      by_contra hc
      exact absurd h (not_lt.2 (div_nonneg (not_lt.1 hc) hz.le)),
      fun h => div_neg_of_neg_of_pos h hz⟩

/-! ## C41 Normalisation is scale invariant and idempotent -/

/-- L1: two bases whose projections differ by a positive factor have equal normalised
projections. -/
theorem C41_scale_l1 {B' : Type} [Space B'] [Basis B I ℝ] [Basis B' I ℝ] (b : B) (b' : B') (x : I)
    (φ : Features ℝ) (h : WF φ) (c : ℝ) (hc : 0 < c)
    (hp : Basis.project b x = .ok (.ok φ))
    (hp' : Basis.project b' x = .ok (.ok (mapValues (fun a => c * a) φ))) :
    (Basis.project (L1Normaliser.mk b') x : P (Result (Features ℝ))) =
      Basis.project (L1Normaliser.mk b) x := by
  rw [l1_project hp, l1_project hp', l1Norm_real h, l1Norm_real (mapValues_wf h), l1_scale,
    divideBy_eq h, divideBy_eq (mapValues_wf h), mapValues_comp, abs_of_pos hc]
  refine congrArg (fun φ => Except.ok (Except.ok φ)) (mapValues_congr fun a => ?_)
  exact mul_div_mul_left a _ hc.ne'

/-- L2. -/
theorem C41_scale_l2 {B' : Type} [Space B'] [Basis B I ℝ] [Basis B' I ℝ] (b : B) (b' : B') (x : I)
    (φ : Features ℝ) (h : WF φ) (c : ℝ) (hc : 0 < c)
    (hp : Basis.project b x = .ok (.ok φ))
    (hp' : Basis.project b' x = .ok (.ok (mapValues (fun a => c * a) φ))) :
    (Basis.project (L2Normaliser.mk b') x : P (Result (Features ℝ))) =
      Basis.project (L2Normaliser.mk b) x := by
  rw [l2_project hp, l2_project hp', l2Norm_real h, l2Norm_real (mapValues_wf h), l2_scale,
    divideBy_eq h, divideBy_eq (mapValues_wf h), mapValues_comp, abs_of_pos hc]
  refine congrArg (fun φ => Except.ok (Except.ok φ)) (mapValues_congr fun a => ?_)
  exact mul_div_mul_left a _ hc.ne'

/-- L∞. -/
theorem C41_scale_linf {B' : Type} [Space B'] [Basis B I XReal] [Basis B' I XReal] (b : B) (b' : B')
    (x : I) (φ : Features ℝ) (h : WF φ) (hz : NonZero φ) (c : ℝ) (hc : 0 < c)
    (hp : Basis.project b x = .ok (.ok (toX φ)))
    (hp' : Basis.project b' x = .ok (.ok (toX (mapValues (fun a => c * a) φ)))) :
    (Basis.project (LinfNormaliser.mk b') x : P (Result (Features XReal))) =
      Basis.project (LinfNormaliser.mk b) x := by
  obtain ⟨m, hm, hl, hpos⟩ := linfNorm_fin h hz
  obtain ⟨m', hm', hl', hpos'⟩ := linfNorm_fin (mapValues_wf h) (nonZero_scale hz hc.ne')
  have e : m' = c * m := isLinf_unique hl' (isLinf_scale hc hl)
  rw [linf_project hp, linf_project hp', hm, hm', divideBy_fin h hpos.ne',
    divideBy_fin (mapValues_wf h) hpos'.ne', mapValues_comp, e]
  refine congrArg (fun φ => Except.ok (Except.ok (toX φ))) (mapValues_congr fun a => ?_)
  exact mul_div_mul_left a _ hc.ne'

/-- Normalising twice is normalising once. -/
theorem C41_idempotent [Basis B I ℝ] (b : B) (x : I) (φ : Features ℝ) (h : WF φ) (hz : NonZero φ)
    (hp : Basis.project b x = .ok (.ok φ)) :
    (Basis.project (L1Normaliser.mk (L1Normaliser.mk b)) x : P (Result (Features ℝ))) =
        Basis.project (L1Normaliser.mk b) x ∧
    (Basis.project (L2Normaliser.mk (L2Normaliser.mk b)) x : P (Result (Features ℝ))) =
        Basis.project (L2Normaliser.mk b) x := by
  constructor
  · obtain ⟨z, hz, h1, h2⟩ := C40_l1 b x φ h hz hp
    rw [l1_project h1, h1, l1Norm_real (mapValues_wf h), h2, divideBy_eq (mapValues_wf h)]
    refine congrArg (fun φ => Except.ok (Except.ok φ)) ?_
    rw [mapValues_comp]
    exact mapValues_congr fun a => div_one _
  · obtain ⟨z, hz, h1, h2⟩ := C40_l2 b x φ h hz hp
    rw [l2_project h1, h1, l2Norm_real (mapValues_wf h), h2, divideBy_eq (mapValues_wf h)]
    refine congrArg (fun φ => Except.ok (Except.ok φ)) ?_
    rw [mapValues_comp]
    exact mapValues_congr fun a => div_one _

theorem C41_idempotent_linf [Basis B I XReal] (b : B) (x : I) (φ : Features ℝ) (h : WF φ)
    (hz : NonZero φ) (hp : Basis.project b x = .ok (.ok (toX φ))) :
    (Basis.project (LinfNormaliser.mk (LinfNormaliser.mk b)) x : P (Result (Features XReal))) =
        Basis.project (LinfNormaliser.mk b) x := by
  obtain ⟨z, hzp, h1, h2⟩ := C40_linf b x φ h hz hp
  have hw := mapValues_wf (g := fun a : ℝ => a / z) h
  obtain ⟨m, hm, hl, -⟩ := linfNorm_fin hw (nonZero_over hz hzp.ne')
  rw [linf_project h1, h1, hm, isLinf_unique hl h2, divideBy_fin hw one_ne_zero, mapValues_comp]
  exact congrArg (fun φ => Except.ok (Except.ok (toX φ))) (mapValues_congr fun a => div_one _)

/-! ## C42 Normalising a null projection -/

theorem foldl_replicate_fix {α β : Type} {f : α → β → α} {a : α} {b : β} (h : f a b = a)
    (n : Nat) : (List.replicate n b).foldl f a = a := by
  induction n with
  | zero => rfl
  | succ n ih => rw [List.replicate_succ, List.foldl_cons, h, ih]

theorem xdiv_zero : XReal.div (.fin 0) (.fin 0) = .nan := by
  show (if (0 : ℝ) = 0 then (if (0 : ℝ) = 0 then XReal.nan else _) else _) = _
  rw [if_pos rfl, if_pos rfl]

theorem divideBy_null (n : Nat) :
    divideBy (.dense (List.replicate n (XReal.fin 0))) (.fin 0) =
      .dense (List.replicate n .nan) := by
  show Features.dense ((List.replicate n (XReal.fin 0)).map fun x => XReal.div x (.fin 0)) = _
  rw [List.map_replicate, xdiv_zero]

/-- A dense projection of zeros becomes NaN everywhere, under each normaliser. -/
theorem C42_dense_null [Basis B I XReal] (b : B) (x : I) (n : Nat)
    (hp : Basis.project b x = .ok (.ok (.dense (List.replicate n (XReal.fin 0))))) :
    Basis.project (L0Normaliser.mk b) x = .ok (.ok (.dense (List.replicate n XReal.nan))) ∧
    Basis.project (L1Normaliser.mk b) x = .ok (.ok (.dense (List.replicate n XReal.nan))) ∧
    Basis.project (L2Normaliser.mk b) x = .ok (.ok (.dense (List.replicate n XReal.nan))) ∧
    Basis.project (LinfNormaliser.mk b) x = .ok (.ok (.dense (List.replicate n XReal.nan))) := by
  have add0 : XReal.add (.fin 0) (.fin 0) = .fin 0 := congrArg XReal.fin (add_zero 0)
  have abs0 : XReal.abs (.fin 0) = .fin 0 := congrArg XReal.fin abs_zero
  have cast0 : (Scalar.ofNat 0 : XReal) = .fin 0 := congrArg XReal.fin Nat.cast_zero
  refine ⟨?_, ?_, ?_, ?_⟩
  · rw [l0_project hp]
    have hn : (Features.dense (List.replicate n (XReal.fin 0))).nActive = 0 := by
      show (List.filter _ _).length = 0
      rw [List.length_eq_zero_iff, List.filter_eq_nil_iff]
      intro a ha
      rw [List.eq_of_mem_replicate ha]
      show ¬ XReal.lt (.fin _) (XReal.abs (.fin 0)) = true
      rw [abs0]
      show ¬ decide _ = true
      rw [decide_eq_true_eq, not_lt]
      show (0 : ℝ) ≤ (1 : Nat) / 10 ^ 7
      positivity
    show Except.map Except.ok ((Features.dense _).mapInto _) = _
    rw [hn, cast0]
    show Except.ok (Except.ok (Features.dense
      ((List.replicate n (XReal.fin 0)).map fun x => XReal.div x (.fin 0)))) = _
    rw [List.map_replicate, xdiv_zero]
  · rw [l1_project hp]
    have : l1Norm (.dense (List.replicate n (XReal.fin 0))) = .fin 0 := by
      show (List.replicate n (XReal.fin 0)).foldl
        (fun acc x => XReal.add acc (XReal.abs x)) (Scalar.ofNat 0) = _
      rw [cast0]
      exact foldl_replicate_fix (by rw [abs0, add0]) n
    rw [this, divideBy_null]
  · rw [l2_project hp]
    have : l2Norm (.dense (List.replicate n (XReal.fin 0))) = .fin 0 := by
      show XReal.sqrt ((List.replicate n (XReal.fin 0)).foldl
        (fun acc x => XReal.add acc (XReal.mul x x)) (Scalar.ofNat 0)) = _
      have m0 : XReal.mul (.fin 0) (.fin 0) = .fin 0 := congrArg XReal.fin (mul_zero 0)
      rw [cast0, foldl_replicate_fix (by rw [m0, add0])]
      show (if (0 : ℝ) < 0 then XReal.nan else .fin (Real.sqrt 0)) = _
      rw [if_neg (lt_irrefl _), Real.sqrt_zero]
    rw [this, divideBy_null]
  · rw [linf_project hp]
    cases n with
    | zero => rfl
    | succ n =>
      have : linfNorm (.dense (List.replicate (n + 1) (XReal.fin 0))) = .fin 0 := by
        show (List.replicate (n + 1) (XReal.fin 0)).foldl
          (fun acc x => XReal.max acc (XReal.abs x)) .ninf = _
        rw [List.replicate_succ, List.foldl_cons, abs0,
          show XReal.max .ninf (.fin 0) = .fin 0 from rfl]
        exact foldl_replicate_fix (by rw [abs0, xmax_fin, max_self]) n
      rw [this, divideBy_null]

/-- An empty sparse projection stays as it is under L1, L2 and L∞; under L0 it becomes a dense
vector of NaN. -/
theorem C42_sparse_null [Basis B I XReal] (b : B) (x : I) (n : Nat)
    (hp : Basis.project b x = .ok (.ok (.sparse ⟨n, ([] : HMap XReal)⟩))) :
    Basis.project (L0Normaliser.mk b) x = .ok (.ok (.dense (List.replicate n XReal.nan))) ∧
    Basis.project (L1Normaliser.mk b) x = .ok (.ok (.sparse ⟨n, ([] : HMap XReal)⟩)) ∧
    Basis.project (L2Normaliser.mk b) x = .ok (.ok (.sparse ⟨n, ([] : HMap XReal)⟩)) ∧
    Basis.project (LinfNormaliser.mk b) x = .ok (.ok (.sparse ⟨n, ([] : HMap XReal)⟩)) := by
  refine ⟨?_, ?_, ?_, ?_⟩
  · rw [l0_project hp]
    have h0 : XReal.div Scalar.zero (Scalar.ofNat 0) = .nan := by
      show XReal.div (.fin ((0 : Nat) : ℝ)) (.fin ((0 : Nat) : ℝ)) = .nan
      rw [Nat.cast_zero, xdiv_zero]
    have hs : Features.sparsityPreserving
        (fun a : XReal => XReal.div a (Scalar.ofNat 0)) = false := by
      show XReal.lt (XReal.abs (XReal.div Scalar.zero (Scalar.ofNat 0))) _ = false
      rw [h0]; rfl
    show Except.map Except.ok (Features.mapInto (.sparse ⟨n, []⟩)
      (fun a : XReal => XReal.div a (Scalar.ofNat 0))) = _
    simp only [Features.mapInto, hs]
    show Except.map Except.ok (Except.ok (Features.dense (List.replicate n
      (XReal.div Scalar.zero (Scalar.ofNat 0))))) = _
    rw [h0]; rfl
  · rw [l1_project hp]; rfl
  · rw [l2_project hp]; rfl
  · rw [linf_project hp]; rfl

/-! ## C43 L0 normalisation divides by the active count -/

theorem C43_active_count [Basis B I ℝ] (b : B) (x : I) (φ : Features ℝ) (h : WF φ)
    (ha : 0 < φ.nActive) (hp : Basis.project b x = .ok (.ok φ)) :
    ∃ ψ, Basis.project (L0Normaliser.mk b) x = .ok (.ok ψ) ∧
      ψ.isDense = φ.isDense ∧ dim ψ = dim φ ∧ WF ψ ∧
      ∀ i, value ψ i = value φ i / φ.nActive := by
  have hm : l0Normalise φ = .ok (mapValues (fun a => a / (φ.nActive : ℝ)) φ) := by
    cases φ with
    | dense da => rfl
    | sparse sa =>
      have hs : Features.sparsityPreserving
          (fun a : ℝ => a / ((Features.sparse sa).nActive : ℝ)) = true := by
        show decide (|(Scalar.zero : ℝ) / _| < _) = true
        rw [real_zero, zero_div, abs_zero, decide_eq_true_eq]
        show (0 : ℝ) < (1 : Nat) / 10 ^ 5
        norm_num
      exact map_sparse_preserving h.1 hs
  rw [l0_project hp, hm]
  exact ⟨_, rfl, mapValues_isDense _ _, mapValues_dim _ _, mapValues_wf h, fun i => value_over _ _ i⟩

/-- Unitary features then sum to one. -/
theorem C43_unitary_sum [Basis B I ℝ] (b : B) (x : I) (n : Nat) (is : List Nat)
    (his : ∀ i ∈ is, i < n) (hne : is ≠ [])
    (hp : Basis.project b x = .ok (.ok (Features.unitary n is))) :
    ∃ ψ, Basis.project (L0Normaliser.mk b) x = .ok (.ok ψ) ∧
      ∑ i ∈ Finset.range n, value ψ i = 1 := by
  have hwf : WF (Features.unitary n is : Features ℝ) := wf_units his
  have hone : ∀ e ∈ (HMap.collect (is.map fun i => (i, (Scalar.one : ℝ)))), e.2 = 1 := by
    intro e he
    have hs : Stored (Features.unitary n is : Features ℝ) e.1 e.2 := he
    have hv := value_of_stored (keysUnique_of_wf hwf) hs
    have hu : value (Features.unitary n is : Features ℝ) e.1 = _ := value_units n is e.1
    rw [← hv, hu, if_pos, real_one]
    simpa using (HMap.mem_keys_collect _ e.1).1 (List.mem_map.2 ⟨_, he, rfl⟩)
  have hsum := fold_real hwf (fun a => a) rfl 0
  have hcount : (Features.unitary n is : Features ℝ).fold 0 (fun acc a => acc + a) =
      ((Features.unitary n is : Features ℝ).nActive : ℝ) := by
    show ((HMap.collect (is.map fun i => (i, (Scalar.one : ℝ)))).map Prod.snd).foldl _ _ =
      ((HMap.collect (is.map fun i => (i, (Scalar.one : ℝ)))).length : ℝ)
    generalize HMap.collect (is.map fun i => (i, (Scalar.one : ℝ))) = m at hone
    suffices ∀ z : ℝ, (m.map Prod.snd).foldl (fun acc a => acc + a) z = z + (m.length : ℝ) by
      rw [this, zero_add]
    induction m with
    | nil => intro z; simp
    | cons e m ih =>
      intro z
      rw [List.map_cons, List.foldl_cons, ih fun e he => hone e (List.mem_cons_of_mem _ he),
        hone e List.mem_cons_self, List.length_cons]
      push_cast; ring
  rw [hcount, zero_add] at hsum
  have hpos : 0 < (Features.unitary n is : Features ℝ).nActive := by
    show 0 < (HMap.collect (is.map fun i => (i, (Scalar.one : ℝ)))).length
    obtain ⟨i, l, rfl⟩ := List.exists_cons_of_ne_nil hne
    rw [List.length_pos_iff]
    intro hc
    have := (HMap.mem_keys_collect ((i :: l).map fun i => (i, (Scalar.one : ℝ))) i).2
      (by simp)
    rw [hc] at this
    cases this
  obtain ⟨ψ, h1, -, -, -, h2⟩ := C43_active_count b x _ hwf hpos hp
  refine ⟨ψ, h1, ?_⟩
  simp only [h2]
  rw [← Finset.sum_div]
  show (∑ i ∈ Finset.range (dim (Features.unitary n is : Features ℝ)), _) / _ = _
  rw [← hsum, div_self]
  exact_mod_cast hpos.ne'

end

/-! ### Concrete cases -/

theorem nonZero_example : NonZero (.dense [3, -4]) := ⟨1, -4, rfl, by norm_num⟩

example : ∃ z > 0, Basis.project (I := Unit) (L2Normaliser.mk (FixedDense.mk [(3 : ℝ), -4])) () =
      .ok (.ok (mapValues (fun a => a / z) (.dense [3, -4]))) ∧
    l2 (mapValues (fun a => a / z) (.dense [3, -4])) = 1 :=
  C40_l2 _ _ _ trivial nonZero_example rfl

example : ∃ z > 0, Basis.project (I := Unit)
      (LinfNormaliser.mk (FixedDense.mk [XReal.fin 3, .fin (-4)])) () =
      .ok (.ok (toX (mapValues (fun a => a / z) (.dense [3, -4])))) ∧
    IsLinf (mapValues (fun a => a / z) (.dense [3, -4])) 1 :=
  C40_linf _ _ _ trivial nonZero_example rfl

example : Basis.project (I := Unit) (L1Normaliser.mk (FixedDense.mk [(6 : ℝ), -8])) () =
    (Basis.project (L1Normaliser.mk (FixedDense.mk [(3 : ℝ), -4])) () : P (Result (Features ℝ))) :=
  C41_scale_l1 _ _ _ (.dense [3, -4]) trivial 2 (by norm_num) rfl (by
    show Except.ok (Except.ok (Features.dense [(6 : ℝ), -8])) =
      Except.ok (Except.ok (Features.dense [(2 : ℝ) * 3, 2 * -4]))
    norm_num)

example : Basis.project (I := Unit) (L0Normaliser.mk (FixedDense.mk (List.replicate 3 (XReal.fin 0))))
    () = .ok (.ok (.dense (List.replicate 3 XReal.nan))) :=
  (C42_dense_null _ _ 3 rfl).1

example : ∃ ψ, Basis.project (L0Normaliser.mk
      (Closure.mk 5 fun _ : Unit => .ok (.ok (Features.unitary (K := ℝ) 5 [1, 3])))) () = .ok (.ok ψ) ∧
    ∑ i ∈ Finset.range 5, value ψ i = 1 :=
  C43_unitary_sum _ _ 5 [1, 3] (by decide) (by decide) rfl

end Lfa

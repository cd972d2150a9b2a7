import Verif.Props.C182
import Verif.Props.C174

/-!
# C183: normalising activations that are not numbers

Rounded arithmetic (any `Machine`, hence `f64`). One NaN activation destroys all activations under L1 and L2, but under L∞ the others
are normalised as though it were not there. One infinite activation is replaced by NaN and all finite ones by zero.
-/

set_option linter.unusedSectionVars false

namespace Lfa

open Spec Machine

variable {M : Machine}

theorem foldl_abs_nan : ∀ (zs : List (FP M)) (acc : FP M), (IsNaN acc ∨ ∃ z ∈ zs, IsNaN z) →
    IsNaN (zs.foldl (fun acc z => acc +. Scalar.abs z) acc)
  | [], _, h => by
    rcases h with h | ⟨z, hz, _⟩
    · exact h
    · cases hz
  | z :: zs, acc, h => by
    refine foldl_abs_nan zs _ ?_
    rcases h with h | ⟨z', hz, h⟩
    · exact .inl (nan_add h _)
    · rcases List.mem_cons.1 hz with rfl | hz
      · exact .inl (nan_add_right _ (nan_abs h))
      · exact .inr ⟨z', hz, h⟩

theorem abs_nonneg' {z : FP M} (h : ¬ IsNaN z) : XReal.fin 0 ≤ (Scalar.abs z).1 := by
  rw [val_abs]
  rcases hz : z.1 with _ | _ | _ | r
  · exact absurd hz h
  · exact trivial
  · exact trivial
  · exact _root_.abs_nonneg r

theorem abs_infinite {z : FP M} (h : Spec.Infinite z) : (Scalar.abs z).1 = .pinf := by
  rw [val_abs]
  rcases h with h | h <;> rw [h] <;> rfl

theorem foldl_abs_pinf : ∀ (zs : List (FP M)) (acc : FP M), XReal.fin 0 ≤ acc.1 → (∀ z ∈ zs, ¬ IsNaN z) →
    (acc.1 = .pinf ∨ ∃ z ∈ zs, Spec.Infinite z) → (zs.foldl (fun acc z => acc +. Scalar.abs z) acc).1 = .pinf
  | [], _, _, _, h => by
    rcases h with h | ⟨z, hz, _⟩
    · exact h
    · cases hz
  | z :: zs, acc, h0, hn, h => by
    have hz0 := abs_nonneg' (hn z (List.mem_cons_self ..))
    refine foldl_abs_pinf zs _ (val_add_nonneg h0 hz0) (fun z' hz' => hn z' (List.mem_cons_of_mem _ hz')) ?_
    rcases h with h | ⟨z', hz, h⟩
    · exact .inl (add_pinf_left h hz0)
    · rcases List.mem_cons.1 hz with rfl | hz
      · exact .inl (add_pinf_right h0 (abs_infinite h))
      · exact .inr ⟨z', hz, h⟩

theorem nan_div_right (a : FP M) {z : FP M} (h : IsNaN z) : IsNaN (a /. z) := by
  unfold IsNaN at *
  rw [val_div, h]
  cases a.1 <;> rfl

theorem over_pinf {a z : FP M} (hz : z.1 = .pinf) :
    (Spec.Finite a → Is (a /. z) 0) ∧ (Spec.Infinite a → IsNaN (a /. z)) := by
  refine ⟨fun ⟨r, hr⟩ => ?_, fun h => ?_⟩
  · unfold Is at *
    rw [val_div, hz, hr]
    exact rnd_zero
  · unfold IsNaN
    rw [val_div, hz]
    rcases h with h | h <;> rw [h] <;> rfl

/-! ## The maximum -/

/-- What folding `f64::max` over magnitudes yields: the largest magnitude of the entries that are not NaN. -/
theorem foldl_max_skips : ∀ (zs : List (FP M)) (acc : FP M), (acc.1 = .ninf ∨ XReal.fin 0 ≤ acc.1) →
    (zs.foldl (fun acc z => Scalar.max acc (Scalar.abs z)) acc = acc ∨
      ∃ m ∈ zs, ¬ IsNaN m ∧ zs.foldl (fun acc z => Scalar.max acc (Scalar.abs z)) acc = Scalar.abs m) ∧
    acc.1 ≤ (zs.foldl (fun acc z => Scalar.max acc (Scalar.abs z)) acc).1 ∧
    ∀ z ∈ zs, ¬ IsNaN z → (Scalar.abs z).1 ≤ (zs.foldl (fun acc z => Scalar.max acc (Scalar.abs z)) acc).1
  | [], acc, h => by
    refine ⟨.inl rfl, ?_, fun z hz => by cases hz⟩
    rcases h with h | h
    · show acc.1 ≤ acc.1
      rw [h]; exact trivial
    · rcases ha : acc.1 with _ | _ | _ | r
      · rw [ha] at h; exact absurd h id
      · rw [ha] at h; exact absurd h id
      · show XReal.pinf ≤ acc.1
        rw [ha]; exact trivial
      · show XReal.fin r ≤ acc.1
        rw [ha]; exact le_refl r
  | z :: zs, acc, h => by
    show (zs.foldl _ (Scalar.max acc (Scalar.abs z)) = acc ∨ _) ∧ _ ≤ (zs.foldl _ (Scalar.max acc (Scalar.abs z))).1 ∧ _
    by_cases hz : IsNaN z
    · have e : Scalar.max acc (Scalar.abs z) = acc := by
        refine FP.ext ?_
        show (Scalar.max acc (Scalar.abs z)).1 = acc.1
        rw [val_max, nan_abs hz]
        rcases acc.1 <;> rfl
      obtain ⟨h1, h2, h3⟩ := foldl_max_skips zs acc h
      rw [List.foldl_cons, e]
      refine ⟨h1.imp id fun ⟨m, hm, h⟩ => ⟨m, List.mem_cons_of_mem _ hm, h⟩, h2, fun z' hz' hn => ?_⟩
      rcases List.mem_cons.1 hz' with rfl | hz'
      · exact absurd hz hn
      · exact h3 z' hz' hn
    · have hz0 := abs_nonneg' hz
      -- the new accumulator is one of the two and above both
      have hmax : (Scalar.max acc (Scalar.abs z) = acc ∨ Scalar.max acc (Scalar.abs z) = Scalar.abs z) ∧
          acc.1 ≤ (Scalar.max acc (Scalar.abs z)).1 ∧ (Scalar.abs z).1 ≤ (Scalar.max acc (Scalar.abs z)).1 := by
        rw [val_max]
        have ext : ∀ c : FP M, XReal.max acc.1 (Scalar.abs z).1 = c.1 → Scalar.max acc (Scalar.abs z) = c := fun c hc =>
          FP.ext (by show (Scalar.max acc (Scalar.abs z)).1 = c.1; rw [val_max, hc])
        have refl : ∀ c : FP M, (c.1 = .ninf ∨ XReal.fin 0 ≤ c.1) → c.1 ≤ c.1 := fun c hc => by
          rcases ha : c.1 with _ | _ | _ | r
          · rw [ha] at hc
            rcases hc with hc | hc
            · cases hc
            · exact absurd hc id
          · exact trivial
          · exact trivial
          · exact le_refl r
        rcases hb : (Scalar.abs z).1 with _ | _ | _ | q
        · rw [hb] at hz0; exact absurd hz0 id
        · rw [hb] at hz0; exact absurd hz0 id
        · rcases ha : acc.1 with _ | _ | _ | r
          · rw [ha] at h
            rcases h with h | h
            · cases h
            · exact absurd h id
          · exact ⟨.inr (ext _ (by rw [ha, hb]; rfl)), trivial, trivial⟩
          · exact ⟨.inl (ext _ (by rw [ha, hb]; rfl)), trivial, trivial⟩
          · exact ⟨.inr (ext _ (by rw [ha, hb]; rfl)), trivial, trivial⟩
        · rcases ha : acc.1 with _ | _ | _ | r
          · rw [ha] at h
            rcases h with h | h
            · cases h
            · exact absurd h id
          · exact ⟨.inr (ext _ (by rw [ha, hb]; rfl)), trivial, le_refl q⟩
          · exact ⟨.inl (ext _ (by rw [ha, hb]; rfl)), trivial, trivial⟩
          · by_cases hrq : r < q
            · have e : XReal.max (.fin r) (.fin q) = .fin q := by
                show (if (decide (r < q)) = true then _ else _) = _
                rw [if_pos (decide_eq_true hrq)]
              rw [e]
              exact ⟨.inr (ext _ (by rw [ha, hb, e])), hrq.le, le_refl q⟩
            · have e : XReal.max (.fin r) (.fin q) = .fin r := by
                show (if (decide (r < q)) = true then _ else _) = _
                rw [if_neg (by simpa using hrq)]
              rw [e]
              exact ⟨.inl (ext _ (by rw [ha, hb, e])), le_refl r, not_lt.1 hrq⟩
      obtain ⟨g1, g2, g3⟩ := hmax
      have hnew : (Scalar.max acc (Scalar.abs z)).1 = .ninf ∨ XReal.fin 0 ≤ (Scalar.max acc (Scalar.abs z)).1 := by
        rcases g1 with g1 | g1 <;> rw [g1]
        · exact h
        · exact .inr hz0
      obtain ⟨h1, h2, h3⟩ := foldl_max_skips zs (Scalar.max acc (Scalar.abs z)) hnew
      rw [List.foldl_cons]
      refine ⟨?_, XReal.le_trans' g2 h2, fun z' hz' hn => ?_⟩
      · rcases h1 with h1 | ⟨m, hm, hn, h1⟩
        · rw [h1]
          rcases g1 with g1 | g1
          · exact .inl g1
          · exact .inr ⟨z, List.mem_cons_self .., hz, g1⟩
        · exact .inr ⟨m, List.mem_cons_of_mem _ hm, hn, h1⟩
      · rcases List.mem_cons.1 hz' with rfl | hz'
        · exact XReal.le_trans' g3 h2
        · exact h3 z' hz' hn

section
variable {B I : Type} [Space B] [Basis B I (FP M)]

/-- **L1 and L2, NaN.** One stored NaN and every stored activation becomes NaN. -/
theorem C183_nan (b : B) (x : I) (φ : Features (FP M)) (h : WF φ) (hp : Basis.project b x = .ok (.ok φ))
    (hn : ∃ i a, Stored φ i a ∧ IsNaN a) :
    (∃ g : FP M → FP M, Basis.project (L1Normaliser.mk b) x = .ok (.ok (mapValues g φ)) ∧ ∀ i a, Stored φ i a → IsNaN (g a)) ∧
    ∃ g : FP M → FP M, Basis.project (L2Normaliser.mk b) x = .ok (.ok (mapValues g φ)) ∧ ∀ i a, Stored φ i a → IsNaN (g a) := by
  obtain ⟨i, a, hs, ha⟩ := hn
  have hm : ∃ z ∈ φ.values, IsNaN z := ⟨a, (mem_values_iff φ a).2 ⟨i, hs⟩, ha⟩
  exact ⟨⟨fun a => a /. l1Norm φ, by rw [l1_project hp, divideBy_eq h], fun j c _ => nan_div_right c (foldl_abs_nan _ _ (.inr hm))⟩,
    ⟨fun a => a /. l2Norm φ, by rw [l2_project hp, divideBy_eq h],
      fun j c _ => nan_div_right c (nan_sqrt (squares_nan _ _ (.inr hm)))⟩⟩

/-- **L∞, NaN.** The activations are divided by the largest magnitude among those that are not NaN, if there are any: a NaN activation
stays NaN and the others do not notice. -/
theorem C183_linf (b : B) (x : I) (φ : Features (FP M)) (h : WF φ) (hp : Basis.project b x = .ok (.ok φ))
    (hn : ∃ i a, Stored φ i a ∧ ¬ IsNaN a) :
    ∃ j m, Stored φ j m ∧ ¬ IsNaN m ∧ (∀ i a, Stored φ i a → ¬ IsNaN a → XReal.abs a.1 ≤ XReal.abs m.1) ∧
      Basis.project (LinfNormaliser.mk b) x = .ok (.ok (mapValues (fun a => a /. Scalar.abs m) φ)) := by
  obtain ⟨i, a, hs, ha⟩ := hn
  obtain ⟨h1, -, h3⟩ := foldl_max_skips φ.values ScalarInf.negInf (.inl val_negInf)
  have hne : ∃ m ∈ φ.values, ¬ IsNaN m ∧ linfNorm φ = Scalar.abs m := by
    rcases h1 with h1 | h1
    · have := h3 a ((mem_values_iff φ a).2 ⟨i, hs⟩) ha
      rw [h1, val_negInf] at this
      have h0 := abs_nonneg' ha
      rcases hb : (Scalar.abs a).1 with _ | _ | _ | q
      · rw [hb] at h0; exact absurd h0 id
      · rw [hb] at h0; exact absurd h0 id
      · rw [hb] at this; exact absurd this id
      · rw [hb] at this; exact absurd this id
    · exact h1
  obtain ⟨m, hm, hmn, he⟩ := hne
  obtain ⟨j, hj⟩ := (mem_values_iff φ m).1 hm
  refine ⟨j, m, hj, hmn, fun i a hs ha => ?_, ?_⟩
  · have := h3 a ((mem_values_iff φ a).2 ⟨i, hs⟩) ha
    rw [← val_abs, ← val_abs, ← he]
    exact this
  · rw [linf_project hp, divideBy_eq h, he]

/-- **Infinity.** Under L1, L2 and L∞, if no activation is NaN and one is infinite, the finite activations become zero and the infinite
ones NaN. -/
theorem C183_infinite (b : B) (x : I) (φ : Features (FP M)) (h : WF φ) (hp : Basis.project b x = .ok (.ok φ))
    (hn : ∀ i a, Stored φ i a → ¬ IsNaN a) (hi : ∃ i a, Stored φ i a ∧ Spec.Infinite a) :
    ∃ g : FP M → FP M, (∀ a, (Spec.Finite a → Is (g a) 0) ∧ (Spec.Infinite a → IsNaN (g a))) ∧
      Basis.project (L1Normaliser.mk b) x = .ok (.ok (mapValues g φ)) ∧
      Basis.project (L2Normaliser.mk b) x = .ok (.ok (mapValues g φ)) ∧
      Basis.project (LinfNormaliser.mk b) x = .ok (.ok (mapValues g φ)) := by
  obtain ⟨i, a, hs, ha⟩ := hi
  have hv : ∀ z ∈ φ.values, ¬ IsNaN z := fun z hz => by
    obtain ⟨j, hj⟩ := (mem_values_iff φ z).1 hz
    exact hn j z hj
  have hm : ∃ z ∈ φ.values, Spec.Infinite z := ⟨a, (mem_values_iff φ a).2 ⟨i, hs⟩, ha⟩
  have h0 : XReal.fin 0 ≤ (Scalar.zero : FP M).1 := by rw [val_zero]; exact le_refl (0 : ℝ)
  have e1 : (l1Norm φ).1 = .pinf := foldl_abs_pinf _ _ h0 hv (.inr hm)
  have e2 : (l2Norm φ).1 = .pinf := by
    unfold l2Norm
    rw [val_sqrt, squares_pinf _ _ h0 hv (.inr hm)]
    rfl
  have e3 : (linfNorm φ).1 = .pinf := by
    have := (foldl_max_skips φ.values ScalarInf.negInf (.inl val_negInf)).2.2 a ((mem_values_iff φ a).2 ⟨i, hs⟩) (hn i a hs)
    rw [abs_infinite ha] at this
    have e : linfNorm φ = φ.values.foldl (fun acc z => Scalar.max acc (Scalar.abs z)) ScalarInf.negInf := rfl
    rw [e]
    rcases hb : (φ.values.foldl (fun acc z => Scalar.max acc (Scalar.abs z)) (ScalarInf.negInf : FP M)).1 with _ | _ | _ | q
    · rw [hb] at this; exact absurd this id
    · rw [hb] at this; exact absurd this id
    · rfl
    · rw [hb] at this; exact absurd this id
  have f1 : l2Norm φ = l1Norm φ := FP.ext (e2.trans e1.symm)
  have f2 : linfNorm φ = l1Norm φ := FP.ext (e3.trans e1.symm)
  refine ⟨fun a => a /. l1Norm φ, fun a => over_pinf e1, by rw [l1_project hp, divideBy_eq h], ?_, ?_⟩
  · rw [l2_project hp, divideBy_eq h, f1]
  · rw [linf_project hp, divideBy_eq h, f2]

end

/-- Activations `NaN, 2, -4`: L1 and L2 give three NaNs, L∞ divides by 4. -/
theorem C183_example (n p q : FP M) (hn : IsNaN n) (hp : Is p 2) (hq : Is q (-4)) :
    (∃ g : FP M → FP M, Basis.project (L1Normaliser.mk (FixedDense.mk [n, p, q])) () = .ok (.ok (.dense [g n, g p, g q])) ∧
      IsNaN (g n) ∧ IsNaN (g p) ∧ IsNaN (g q)) ∧
    Basis.project (LinfNormaliser.mk (FixedDense.mk [n, p, q])) () =
      .ok (.ok (.dense [n /. Scalar.abs q, p /. Scalar.abs q, q /. Scalar.abs q])) := by
  have hb : Basis.project (FixedDense.mk [n, p, q]) () = .ok (.ok (.dense [n, p, q])) := rfl
  constructor
  · obtain ⟨⟨g, h1, h2⟩, -⟩ := C183_nan (FixedDense.mk [n, p, q]) () (.dense [n, p, q]) trivial hb ⟨0, n, rfl, hn⟩
    exact ⟨g, h1, h2 0 n rfl, h2 1 p rfl, h2 2 q rfl⟩
  · have hpn : ¬ IsNaN p := fun h => nan_not_finite h ⟨_, hp⟩
    have hqn : ¬ IsNaN q := fun h => nan_not_finite h ⟨_, hq⟩
    obtain ⟨j, m, hj, hm, hd, h⟩ := C183_linf (FixedDense.mk [n, p, q]) () (.dense [n, p, q]) trivial hb ⟨1, p, rfl, hpn⟩
    have hmem : m ∈ [n, p, q] := List.mem_of_getElem? hj
    simp only [List.mem_cons, List.not_mem_nil, or_false] at hmem
    rcases hmem with rfl | rfl | rfl
    · exact absurd hn hm
    · have := hd 2 q rfl hqn
      rw [hq, hp] at this
      have this : |(-4 : ℝ)| ≤ |2| := this
      norm_num at this
    · exact h

end Lfa

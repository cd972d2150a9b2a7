import Verif.Props.C206

/-!
# C59 in rounded arithmetic

For every rounding: what a fresh approximator evaluates to when features are infinite or NaN.
-/

set_option linter.unusedSectionVars false

namespace Lfa

open Spec Machine XReal

variable {M : Machine}

theorem tree_all_zero (t : SumTree) {x : Nat → FP M} (h : ∀ i ∈ t.terms, x i = Scalar.zero) :
    t.eval M.add (M.lit 0) x = Scalar.zero := by
  induction t with
  | zero => exact lit_zero'
  | term i => exact h i (by simp [SumTree.terms])
  | add l r hl hr =>
    have h1 := hl fun i hi => h i (List.mem_append_left _ hi)
    have h2 := hr fun i hi => h i (List.mem_append_right _ hi)
    show M.add (l.eval M.add (M.lit 0) x) (r.eval M.add (M.lit 0) x) = _
    rw [h1, h2]
    exact fp_add_zero _

theorem tree_nan (t : SumTree) {x : Nat → FP M} (h : ∃ i ∈ t.terms, IsNaN (x i)) : IsNaN (t.eval M.add (M.lit 0) x) := by
  induction t with
  | zero => simp [SumTree.terms] at h
  | term i =>
    obtain ⟨j, hj, h⟩ := h
    rw [SumTree.terms, List.mem_singleton] at hj
    exact hj ▸ h
  | add l r hl hr =>
    obtain ⟨i, hi, h⟩ := h
    rcases List.mem_append.1 hi with hi | hi
    · exact nan_add (hl ⟨i, hi, h⟩) _
    · exact nan_add_right _ (hr ⟨i, hi, h⟩)

/-- `v` is what the products of `φ` with zeros add up to. -/
def Spec.Nothing (φ : Features (FP M)) (v : FP M) : Prop :=
  ((∀ i a, Stored φ i a → Spec.Finite a) → v = Scalar.zero) ∧ ((∃ i a, Stored φ i a ∧ ¬ Spec.Finite a) → IsNaN v)

theorem sum_nothing {φ : Features (FP M)} {L : List (FP M)} {t : SumTree} (ht : t.terms.Perm (List.range L.length))
    (h1 : ∀ p ∈ L, ∃ i a, Stored φ i a ∧ p = (a *. Scalar.zero)) (h2 : ∀ i a, Stored φ i a → (a *. Scalar.zero) ∈ L) :
    Nothing φ (t.eval M.add (M.lit 0) fun i => L.getD i (M.lit 0)) := by
  constructor
  · intro hf
    refine tree_all_zero t fun i hi => ?_
    have hi := List.mem_range.1 (ht.mem_iff.1 hi)
    show L.getD i _ = _
    rw [List.getD_eq_getElem _ _ hi]
    obtain ⟨j, a, ha, h⟩ := h1 _ (List.getElem_mem hi)
    rw [h]
    exact fp_ext ((finite_mul_zero (hf j a ha) val_zero).trans val_zero.symm)
  · rintro ⟨j, a, ha, hn⟩
    obtain ⟨i, hi, h⟩ := List.getElem_of_mem (h2 j a ha)
    refine tree_nan t ⟨i, ht.mem_iff.2 (List.mem_range.2 hi), ?_⟩
    show IsNaN (L.getD i _)
    rw [List.getD_eq_getElem _ _ hi, h]
    exact not_finite_mul_zero hn val_zero

theorem dots_nothing {n : Nat} {φ : Features (FP M)} (h : Fits n φ) :
    (∃ v, φ.dot (List.replicate n Scalar.zero) = .ok v ∧ Nothing φ v) ∧
    ∀ m, ∃ v, φ.dotColumn m (List.replicate n Scalar.zero) = .ok v ∧ Nothing φ v := by
  cases φ with
  | dense da =>
    have hl : da.length = n := h.2
    subst hl
    have e : List.zipWith (fun x y => x *. y) da (List.replicate da.length Scalar.zero) =
        da.map fun a : FP M => a *. Scalar.zero := by
      apply List.ext_getElem
      · simp
      · intro i _ _; simp
    have m1 : ∀ p ∈ da.map (fun a : FP M => a *. Scalar.zero), ∃ i a, Stored (.dense da) i a ∧ p = (a *. Scalar.zero) := by
      intro p hp
      obtain ⟨a, ha, rfl⟩ := List.mem_map.1 hp
      obtain ⟨i, hi, rfl⟩ := List.getElem_of_mem ha
      exact ⟨i, _, List.getElem?_eq_getElem hi, rfl⟩
    have m2 : ∀ i a, Stored (.dense da) i a → (a *. Scalar.zero) ∈ da.map (fun a : FP M => a *. Scalar.zero) :=
      fun i a ha => List.mem_map.2 ⟨a, List.mem_of_getElem? ha, rfl⟩
    have q1 : ∃ v, arrayDot da (List.replicate da.length Scalar.zero) = .ok v ∧ Nothing (.dense da) v := by
      refine ⟨Scalar.dot da (List.replicate da.length Scalar.zero), ?_, ?_⟩
      · unfold arrayDot
        rw [if_pos (by rw [List.length_replicate])]
      · have := sum_nothing (φ := .dense da) (L := da.map fun a : FP M => a *. Scalar.zero)
          (t := M.dotTree (min da.length (List.replicate da.length (Scalar.zero : FP M)).length)) (by
            rw [List.length_replicate, Nat.min_self, List.length_map]
            exact M.dotTree_terms _) m1 m2
        rw [← e] at this
        exact this
    refine ⟨q1, fun m => ?_⟩
    show ∃ v, (if m = 1 ∨ (List.replicate da.length (Scalar.zero : FP M)).length ≤ 1
      then arrayDot da (List.replicate da.length Scalar.zero)
      else Features.stridedDot da (List.replicate da.length Scalar.zero)) = .ok v ∧ Nothing (.dense da) v
    by_cases hc : m = 1 ∨ (List.replicate da.length (Scalar.zero : FP M)).length ≤ 1
    · rw [if_pos hc]
      exact q1
    · rw [if_neg hc]
      refine ⟨_, by unfold Features.stridedDot; rw [if_pos (by rw [List.length_replicate])], ?_⟩
      rw [e]
      have f := foldl_tree (M := M) (fun p => p) (da.map fun a : FP M => a *. Scalar.zero)
      rw [List.map_id'] at f
      rw [show (da.map fun a : FP M => a *. Scalar.zero).foldl (fun acc p => acc +. p) Scalar.zero = _ from f]
      exact sum_nothing (leftTree_terms _ ▸ List.Perm.refl _) m1 m2
  | sparse sa =>
    have key : ∃ v, Features.dotSparse sa (List.replicate n Scalar.zero) = .ok v ∧ Nothing (.sparse sa) v := by
      have hr : ∀ e ∈ sa.activations, e.1 < (List.replicate n (Scalar.zero : FP M)).length := fun e he => by
        rw [List.length_replicate, ← h.2]; exact h.1.2 e he
      refine ⟨_, dotSparse_ok hr, ?_⟩
      rw [foldl_tree (fun e : Nat × FP M => (List.replicate n Scalar.zero).getD e.1 Scalar.zero *. e.2) sa.activations]
      have g : ∀ e ∈ sa.activations, (List.replicate n (Scalar.zero : FP M)).getD e.1 Scalar.zero *. e.2 =
          (e.2 *. Scalar.zero) := fun e he => by
        rw [List.getD_replicate _ (by simpa using hr e he), mul_comm_fp]
      refine sum_nothing (by rw [leftTree_terms, List.length_map]) ?_ ?_
      · intro p hp
        obtain ⟨e, he, rfl⟩ := List.mem_map.1 hp
        exact ⟨e.1, e.2, he, g e he⟩
      · intro i a ha
        exact List.mem_map.2 ⟨(i, a), ha, g (i, a) ha⟩
    exact ⟨key, fun _ => key⟩

/-- In rounded arithmetic a fresh approximator evaluates to 0 where all features are finite, and to NaN where one is infinite or NaN;
with several outputs all of them do. -/
theorem C59_fresh_f64 {B O I : Type} [Space B] [Basis B I (FP M)] (b : B) (o : O) (k n : Nat) (hd : Space.dim b = .finite n) (x : I)
    (φ : Features (FP M)) (hp : Basis.project b x = .ok (.ok φ)) (hf : Fits n φ)
    (fa : ScalarLFA B O (FP M)) (hfa : ScalarLFA.scalar b o = .ok fa) (fv : VectorLFA B O (FP M)) (hfv : VectorLFA.vector b o k = .ok fv) :
    ∃ v vs, fa.evaluate x = .ok (.ok v) ∧ fv.evaluate x = .ok (.ok vs) ∧ vs.length = k ∧
      ((∀ i a, Stored φ i a → Spec.Finite a) → v = Scalar.zero ∧ ∀ u ∈ vs, u = Scalar.zero) ∧
      ((∃ i a, Stored φ i a ∧ ¬ Spec.Finite a) → IsNaN v ∧ ∀ u ∈ vs, IsNaN u) := by
  obtain ⟨h1, h2⟩ := C59_shape (K := FP M) b o k n hd
  rw [hfa] at h1; rw [hfv] at h2
  cases h1; cases h2
  obtain ⟨⟨v, hv, q⟩, hc⟩ := dots_nothing hf
  obtain ⟨u, hu, q'⟩ := hc k
  refine ⟨v, List.replicate k u, ?_, ?_, List.length_replicate, fun h => ⟨q.1 h, ?_⟩, fun h => ⟨q.2 h, ?_⟩⟩
  · rw [scalar_evaluate_eq hp, hv]; rfl
  · rw [vector_evaluate_eq hp]
    have : φ.matmul (List.replicate k (List.replicate n (Scalar.zero : FP M))) = .ok (List.replicate k u) := by
      show List.mapM _ _ = _
      rw [List.length_replicate]
      have : ∀ j, (List.replicate j (List.replicate n (Scalar.zero : FP M))).mapM (fun col => φ.dotColumn k col) =
          .ok (List.replicate j u) := by
        intro j
        induction j with
        | zero => rfl
        | succ j ih => rw [List.replicate_succ, List.mapM_cons, hu, ih]; rfl
      exact this k
    rw [this]; rfl
  · intro z hz
    rw [List.eq_of_mem_replicate hz]
    exact q'.1 h
  · intro z hz
    rw [List.eq_of_mem_replicate hz]
    exact q'.2 h

/-- The constant features `[1, a]`: a fresh approximator returns 0 if `a` is 1, and NaN in every output if `a` is infinite. -/
theorem C59_fresh_f64_example (a : FP M) (O : Type) (o : O) (k : Nat) :
    ∃ (fa : ScalarLFA (FixedDense (FP M)) O (FP M)) (fv : VectorLFA (FixedDense (FP M)) O (FP M)) (v : FP M) (vs : List (FP M)),
      ScalarLFA.scalar ⟨[Scalar.one, a]⟩ o = .ok fa ∧ VectorLFA.vector ⟨[Scalar.one, a]⟩ o k = .ok fv ∧
      fa.evaluate () = .ok (.ok v) ∧ fv.evaluate () = .ok (.ok vs) ∧ vs.length = k ∧
      (a = Scalar.one → v = Scalar.zero ∧ ∀ u ∈ vs, u = Scalar.zero) ∧ (a.1 = .pinf → IsNaN v ∧ ∀ u ∈ vs, IsNaN u) := by
  obtain ⟨h1, h2⟩ := C59_shape (K := FP M) (⟨[Scalar.one, a]⟩ : FixedDense (FP M)) o k 2 rfl
  obtain ⟨v, vs, e1, e2, e3, e4, e5⟩ := C59_fresh_f64 (⟨[Scalar.one, a]⟩ : FixedDense (FP M)) o k 2 rfl ()
    (.dense [Scalar.one, a]) rfl ⟨trivial, rfl⟩ _ h1 _ h2
  refine ⟨_, _, v, vs, h1, h2, e1, e2, e3, fun h => e4 ?_, fun h => e5 ⟨1, a, rfl, ?_⟩⟩
  · subst h
    intro i b hb
    have hb : b ∈ [(Scalar.one : FP M), Scalar.one] := List.mem_of_getElem? hb
    have : b = Scalar.one := by simpa using hb
    subst this
    exact ⟨1, val_one⟩
  · rintro ⟨r, hr⟩
    exact XReal.noConfusion (h.symm.trans (show a.1 = .fin r from hr))

end Lfa

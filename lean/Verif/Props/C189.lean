import Verif.Model.PartialEq
import Verif.Props.C140

/-!
# C189: fixed sparse bases are compared by content

`Fixed::sparse(n, indices)` keeps a hash set, whose order differs between values that are equal.
-/

set_option linter.unusedSectionVars false

namespace Lfa

open Spec

section
variable {K : Type} [Scalar K]

theorem setEq_iff {s t : List Nat} (hs : s.Nodup) (ht : t.Nodup) : setEq s t = true ↔ ∀ i, i ∈ s ↔ i ∈ t := by
  unfold setEq
  rw [Bool.and_eq_true, List.all_eq_true, beq_iff_eq]
  simp only [decide_eq_true_eq]
  constructor
  · rintro ⟨hl, h⟩
    have hp : s.Perm t := (List.subperm_of_subset hs h).perm_of_length_le hl.ge
    exact fun i => hp.mem_iff
  · intro h
    exact ⟨((List.perm_ext_iff_of_nodup hs ht).2 h).length_eq, fun i hi => (h i).1 hi⟩

theorem fixedSparse_eq_iff {b c : FixedSparse K} (hb : b.active.Nodup) (hc : c.active.Nodup) :
    PartialEq.eq b c = true ↔ b.nFeatures = c.nFeatures ∧ ∀ i, i ∈ b.active ↔ i ∈ c.active := by
  show (b.nFeatures == c.nFeatures && setEq b.active c.active) = true ↔ _
  rw [Bool.and_eq_true, beq_iff_eq, setEq_iff hb hc]

/-- Whatever the order and the repetitions of the indices given, two bases are equal exactly when they have the same number of features
and the same active ones. -/
theorem C189_eq_iff (n m : Nat) (is js : List Nat) :
    PartialEq.eq (FixedSparse.mk' (K := K) n is) (FixedSparse.mk' m js) = true ↔ n = m ∧ ∀ i, i ∈ is ↔ i ∈ js := by
  rw [fixedSparse_eq_iff (List.nodup_dedup is) (List.nodup_dedup js)]
  simp only [FixedSparse.mk', hashSet, List.mem_dedup]

/-- Bases are sets: each index is there once, whatever the order. -/
def Spec.IsSet (b : FixedSparse K) : Prop := b.active.Nodup

/-- `==` is reflexive, symmetric and transitive. -/
theorem C189_equivalence (a b c : FixedSparse K) (ha : IsSet a) (hb : IsSet b) (hc : IsSet c) :
    PartialEq.eq a a = true ∧ PartialEq.eq a b = PartialEq.eq b a ∧
    (PartialEq.eq a b = true → PartialEq.eq b c = true → PartialEq.eq a c = true) := by
  refine ⟨(fixedSparse_eq_iff ha ha).2 ⟨rfl, fun _ => Iff.rfl⟩, ?_, fun h1 h2 => ?_⟩
  · rw [Bool.eq_iff_iff, fixedSparse_eq_iff ha hb, fixedSparse_eq_iff hb ha]
    exact ⟨fun h => ⟨h.1.symm, fun i => (h.2 i).symm⟩, fun h => ⟨h.1.symm, fun i => (h.2 i).symm⟩⟩
  · obtain ⟨e1, e2⟩ := (fixedSparse_eq_iff ha hb).1 h1
    obtain ⟨f1, f2⟩ := (fixedSparse_eq_iff hb hc).1 h2
    exact (fixedSparse_eq_iff ha hc).2 ⟨e1.trans f1, fun i => (e2 i).trans (f2 i)⟩

theorem fixedSparse_project {I : Type} {b : FixedSparse K} (hb : IsSet b) (x : I) :
    Basis.project b x = .ok (.ok (.sparse ⟨b.nFeatures, b.active.map fun i => (i, (Scalar.one : K))⟩)) := by
  show Except.ok (Except.ok (Features.sparse ⟨_, HMap.collect _⟩)) = _
  rw [HMap.collect_of_nodup]
  show ((b.active.map fun i => (i, (Scalar.one : K))).map Prod.fst).Nodup
  rw [List.map_map]
  exact (List.map_id b.active).symm ▸ hb

/-- Two bases are equal exactly when they have the same dimension and project every input to the same features, up to hash order;
single features agree too. -/
theorem C189_projects {I : Type} (b c : FixedSparse K) (hb : IsSet b) (hc : IsSet c) (x y : I) :
    (PartialEq.eq b c = true ↔ ∃ φ ψ : Features K, Basis.project b x = .ok (.ok φ) ∧ Basis.project c y = .ok (.ok ψ) ∧ Same φ ψ) ∧
    (PartialEq.eq b c = true → Space.dim b = Space.dim c ∧
      ∀ i, EnumerableBasis.ith b x i = EnumerableBasis.ith c y i) := by
  refine ⟨⟨fun h => ?_, ?_⟩, fun h => ?_⟩
  · obtain ⟨h1, h2⟩ := (fixedSparse_eq_iff hb hc).1 h
    refine ⟨_, _, fixedSparse_project hb x, fixedSparse_project hc y, ?_⟩
    rw [h1]
    exact .sparse _ (((List.perm_ext_iff_of_nodup hb hc).2 h2).map _)
  · rintro ⟨φ, ψ, h1, h2, hs⟩
    rw [fixedSparse_project hb x] at h1
    rw [fixedSparse_project hc y] at h2
    cases h1
    cases h2
    have hp : (b.active.map fun i => (i, (Scalar.one : K))).Perm (c.active.map fun i => (i, (Scalar.one : K))) ∧
        b.nFeatures = c.nFeatures := by
      generalize hφ : Features.sparse ⟨b.nFeatures, b.active.map fun i => (i, (Scalar.one : K))⟩ = φ at hs
      generalize hψ : Features.sparse ⟨c.nFeatures, c.active.map fun i => (i, (Scalar.one : K))⟩ = ψ at hs
      cases hs with
      | dense da => cases hφ
      | sparse n h =>
        cases hφ
        simp only [Features.sparse.injEq, SparseActivations.mk.injEq] at hψ
        obtain ⟨e1, e2⟩ := hψ
        exact ⟨e2 ▸ h, e1.symm⟩
    have hq := hp.1.map Prod.fst
    rw [List.map_map, List.map_map] at hq
    have e : (Prod.fst ∘ fun i : Nat => (i, (Scalar.one : K))) = id := rfl
    rw [e, List.map_id, List.map_id] at hq
    exact (fixedSparse_eq_iff hb hc).2 ⟨hp.2, fun i => hq.mem_iff⟩
  · obtain ⟨h1, h2⟩ := (fixedSparse_eq_iff hb hc).1 h
    refine ⟨congrArg Dim.finite h1, fun i => ?_⟩
    show checkIndex i b.nFeatures (.ok (.ok (if i ∈ b.active then Scalar.one else Scalar.zero))) =
      checkIndex i c.nFeatures (.ok (.ok (if i ∈ c.active then Scalar.one else Scalar.zero)))
    rw [h1]
    simp only [h2 i]

/-- Approximators over equal bases, with the same weights and optimiser: an update (any optimiser but ISGD) has the same result for
both, in any arithmetic, whatever the hash orders. -/
theorem C189_update {O I : Type} [Optimiser O K] (ho : OrderFree (K := K) O) (b c : FixedSparse K) (hb : IsSet b) (hc : IsSet c)
    (h : PartialEq.eq b c = true) (w : List K) (o : O) (x y : I) (e : K) (fa : ScalarLFA (FixedSparse K) O K)
    (ga : ScalarLFA (FixedSparse K) O K)
    (hf : CanUpdate (LFA.mk b w o) x e fa) (hg : CanUpdate (LFA.mk c w o) y e ga) :
    fa.weights = ga.weights ∧ fa.optimiser = ga.optimiser ∧ fa.basis = b ∧ ga.basis = c := by
  obtain ⟨h1, h2⟩ := (fixedSparse_eq_iff hb hc).1 h
  obtain ⟨φ, φ', p1, s1, o1, w1, e1, rfl⟩ := hf
  obtain ⟨ψ, ψ', p2, s2, o2, w2, e2, rfl⟩ := hg
  rw [show (LFA.mk b w o : ScalarLFA (FixedSparse K) O K).basis = b from rfl, fixedSparse_project hb x] at p1
  rw [show (LFA.mk c w o : ScalarLFA (FixedSparse K) O K).basis = c from rfl, fixedSparse_project hc y] at p2
  cases p1
  cases p2
  have hk : KeysUnique (.sparse ⟨b.nFeatures, b.active.map fun i => (i, (Scalar.one : K))⟩) := by
    show ((b.active.map fun i => (i, (Scalar.one : K))).map Prod.fst).Nodup
    rw [List.map_map]
    exact (List.map_id b.active).symm ▸ hb
  have hk' : KeysUnique (.sparse ⟨c.nFeatures, c.active.map fun i => (i, (Scalar.one : K))⟩) := by
    show ((c.active.map fun i => (i, (Scalar.one : K))).map Prod.fst).Nodup
    rw [List.map_map]
    exact (List.map_id c.active).symm ▸ hc
  have hs : Same (K := K) (.sparse ⟨b.nFeatures, b.active.map fun i => (i, (Scalar.one : K))⟩)
      (.sparse ⟨c.nFeatures, c.active.map fun i => (i, (Scalar.one : K))⟩) := by
    rw [h1]
    exact .sparse _ (((List.perm_ext_iff_of_nodup hb hc).2 h2).map _)
  have g := (ho o w _ _ e hk s1).1.symm.trans ((ho o w _ _ e hk hs).1.trans (ho o w _ _ e hk' s2).1)
  have e1 : Optimiser.stepScaled o w φ' e = .ok (.ok (), o1, w1) := e1
  have e2 : Optimiser.stepScaled o w ψ' e = .ok (.ok (), o2, w2) := e2
  rw [e1, e2] at g
  simp only [Except.ok.injEq, Prod.mk.injEq, true_and] at g
  exact ⟨g.2, g.1, rfl, rfl⟩

/-- Bases given in another order and with repetitions are equal, but iterate differently. -/
theorem C189_example : PartialEq.eq (FixedSparse.mk' (K := ℝ) 5 [3, 1, 3]) (FixedSparse.mk' 5 [1, 3]) = true ∧
    PartialEq.eq (FixedSparse.mk' (K := ℝ) 5 [3]) (FixedSparse.mk' 5 [1, 3]) = false ∧
    PartialEq.eq (FixedSparse.mk' (K := ℝ) 4 [3]) (FixedSparse.mk' 5 [3]) = false := by
  refine ⟨(C189_eq_iff 5 5 _ _).2 ⟨rfl, fun i => ?_⟩, ?_, ?_⟩
  · simp only [List.mem_cons, List.not_mem_nil, or_false]
    omega
  · rw [Bool.eq_false_iff, Ne, C189_eq_iff]
    rintro ⟨-, h⟩
    have := (h 1).2 (by simp)
    simp at this
  · rw [Bool.eq_false_iff, Ne, C189_eq_iff]
    rintro ⟨h, -⟩
    omega

end

end Lfa

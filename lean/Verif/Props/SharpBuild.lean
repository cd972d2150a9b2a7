import Verif.Props.C17_C22
import Verif.Model.Ifdd
import Verif.Props.Sharp

/-!
# What two constructors build

Stated after seeded errors in them went unnoticed. Any scalars.
-/

set_option linter.unusedSectionVars false

namespace Lfa

open Spec

/-- `Fixed::sparse(n, indices)` has `n` features, whatever the indices; feature `i` is 1 if `i` is listed and absent
otherwise. Order and repetition of the indices do not matter. -/
theorem C17_fixed_sparse_built {K I : Type} [Scalar K] (n : Nat) (is : List Nat) (input : I) :
    Space.dim (FixedSparse.mk' n is : FixedSparse K) = .finite n ∧
    ∃ φ : Features K, Basis.project (FixedSparse.mk' n is : FixedSparse K) input = .ok (.ok φ) ∧ dim φ = n ∧
      (∀ i a, Stored φ i a ↔ i ∈ is ∧ a = Scalar.one) ∧
      ∀ i < n, EnumerableBasis.ith (FixedSparse.mk' n is : FixedSparse K) input i =
        .ok (.ok (if i ∈ is then Scalar.one else Scalar.zero)) := by
  refine ⟨rfl, _, rfl, rfl, ?_, ?_⟩
  · intro i a
    have hnd : HMap.NodupKeys (HMap.collect (is.dedup.map fun i => (i, (Scalar.one : K)))) := HMap.nodupKeys_collect _
    have hc : HMap.collect (is.dedup.map fun i => (i, (Scalar.one : K))) = is.dedup.map fun i => (i, Scalar.one) := by
      apply HMap.collect_of_nodup
      unfold HMap.NodupKeys
      rw [List.map_map]
      exact (List.nodup_dedup is).map fun _ _ h => h
    show (i, a) ∈ HMap.collect (is.dedup.map fun i => (i, (Scalar.one : K))) ↔ _
    rw [hc]
    simp only [List.mem_map, List.mem_dedup, Prod.mk.injEq]
    constructor
    · rintro ⟨j, hj, rfl, rfl⟩
      exact ⟨hj, rfl⟩
    · rintro ⟨hi, rfl⟩
      exact ⟨i, hi, rfl, rfl⟩
  · intro i hi
    show checkIndex i n _ = _
    unfold checkIndex
    rw [if_pos hi]
    show Except.ok (Except.ok (if i ∈ is.dedup then _ else _)) = _
    simp only [List.mem_dedup]

/-- A candidate made from a list of indices has relevance zero, and its parents are the listed indices. -/
theorem C111_candidate_from_vec {K : Type} [Scalar K] (is : List Nat) :
    (Candidate.fromVec is : Candidate K).relevance = Scalar.zero ∧
    ∀ i, i ∈ (Candidate.fromVec is : Candidate K).parents ↔ i ∈ is := by
  refine ⟨rfl, fun i => ?_⟩
  have : ∀ (is : List Nat) (s : Finset Nat), i ∈ is.foldl (fun s i => Insert.insert i s) s ↔ i ∈ s ∨ i ∈ is := by
    intro is
    induction is with
    | nil => intro s; simp
    | cons j is ih =>
      intro s
      rw [List.foldl_cons, ih, Finset.mem_insert, List.mem_cons]
      tauto
  show i ∈ is.foldl (fun s i => Insert.insert i s) ∅ ↔ _
  rw [this]
  simp

end Lfa

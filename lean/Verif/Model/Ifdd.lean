import Verif.Model.Basis
import Mathlib.Data.Finset.Sort

/-!
# Incremental feature dependency discovery

`src/basis/ifdd.rs`. **The file is not part of the compiled crate** (there is no `mod ifdd`) and is
written against an older version of it: `Features::Sparse` holds an `IndexSet`, `project` returns
features rather than a `Result`, `stack` takes dimensions. It is modelled on the present `Features`:
an index set is a sparse vector of ones; errors of `project` are passed on.

`IndexSet` is an ordered set (it is hashed and used as a key), here `Finset Nat`, iterated in
increasing order. The map of candidates is never iterated, so it is a partial function.
-/

namespace Lfa

/-- `Feature` — ifdd.rs:13-21. -/
structure IfddFeature where
  index : Nat
  parents : Finset Nat

/-- `Feature::union` — ifdd.rs:23-30. -/
def IfddFeature.union (f g : IfddFeature) : Finset Nat := f.parents ∪ g.parents

/-- `CandidateFeature` — ifdd.rs:36-45. -/
structure Candidate (K : Type) where
  relevance : K
  parents : Finset Nat

/-- `CandidateFeature::new` — ifdd.rs:47-53. -/
def Candidate.new {K : Type} [Scalar K] (parents : Finset Nat) : Candidate K := ⟨Scalar.zero, parents⟩

/-- `CandidateFeature::from_vec` — ifdd.rs:55-63. -/
def Candidate.fromVec {K : Type} [Scalar K] (is : List Nat) : Candidate K :=
  Candidate.new (is.foldl (fun s i => Insert.insert i s) ∅)

/-- `CandidateFeature::into_feature` — ifdd.rs:65-70. -/
def Candidate.intoFeature {K : Type} (c : Candidate K) (index : Nat) : IfddFeature :=
  ⟨index, c.parents⟩

/-- `IFDD` — ifdd.rs:83-95. -/
structure IFDD (B K : Type) where
  basis : B
  features : List IfddFeature
  candidates : Finset Nat → Option (Candidate K)
  threshold : K

namespace IFDD
variable {B K : Type} [Scalar K]

/-- `IFDD::new` — ifdd.rs:98-121. -/
def new [Space B] (basis : B) (threshold : K) : P (IFDD B K) := do
  let n ← (Space.dim basis).toUsize
  .ok ⟨basis, (List.range n).map fun i => ⟨i, {i}⟩, fun _ => none, threshold⟩

/-- `rel >= self.discovery_threshold` (false when either is NaN). -/
def reaches (threshold rel : K) : Bool := Scalar.lt threshold rel || Scalar.beq rel threshold

/-- `inspect_candidate` — ifdd.rs:123-142. -/
def inspectCandidate (s : IFDD B K) (g h : Nat) (error : K) : P (Option (Candidate K) × IFDD B K) := do
  let fg ← idx s.features g
  let fh ← idx s.features h
  let key := fg.union fh
  let c := (s.candidates key).getD (Candidate.new key)
  let c := { c with relevance := c.relevance +. Scalar.abs error }
  if reaches s.threshold c.relevance then
    .ok (some c, { s with candidates := Function.update s.candidates key none })
  else
    .ok (none, { s with candidates := Function.update s.candidates key (some c) })

/-- `combinations(2)`, `tuple_combinations()` (itertools): the pairs in order. -/
def pairs : List Nat → List (Nat × Nat)
  | [] => []
  | g :: is => is.map (fun h => (g, h)) ++ pairs is

/-- The `filter_map(..).collect()` of `discover_dense` and `discover_sparse` — ifdd.rs:146-150,
154-158. -/
def inspectAll (s : IFDD B K) (error : K) : List (Nat × Nat) → P (List (Candidate K) × IFDD B K)
  | [] => .ok ([], s)
  | p :: ps => do
    let (c, s) ← s.inspectCandidate p.1 p.2 error
    let (cs, s) ← s.inspectAll error ps
    .ok (c.toList ++ cs, s)

/-- The indices whose pairs are inspected: `discover_dense` — ifdd.rs:145-148, which keeps those with
`phi[i].abs() < 1e-7`; `discover_sparse` — ifdd.rs:154-156, which takes the active ones. -/
def inspected : Features K → List Nat
  | .dense da => (List.range da.length).filter fun i =>
      match da[i]? with
      | some a => Scalar.lt (Scalar.abs a) (Scalar.sci 1 7)
      | none => false
  | .sparse sa => (sa.activations.map Prod.fst).toFinset.sort (· ≤ ·)

/-- `add_feature` — ifdd.rs:161-169; it always returns the mapping. -/
def addFeature (s : IFDD B K) (c : Candidate K) : (Nat × Finset Nat) × IFDD B K :=
  let i := s.features.length
  ((i, c.parents), { s with features := s.features ++ [c.intoFeature i] })

/-- The fold of `discover` — ifdd.rs:185-194: the new features with their indices. -/
def addAll (s : IFDD B K) : List (Candidate K) → List (Nat × Finset Nat) × IFDD B K
  | [] => ([], s)
  | c :: cs =>
    let (m, s) := s.addFeature c
    let (ms, s) := s.addAll cs
    (m :: ms, s)

/-- `discover` — ifdd.rs:172-195. The result lists the entries of the returned map; `None` is the
empty list. -/
def discover [Space B] {I : Type} [Basis B I K] (s : IFDD B K) (input : I) (error : K) :
    P (Result (List (Nat × Finset Nat) × IFDD B K)) := do
  let φ ← Basis.project s.basis input
  match φ with
  | .error e => .ok (.error e)
  | .ok φ =>
    let (cs, s) ← s.inspectAll error (pairs (inspected φ))
    .ok (.ok (s.addAll cs))

/-- `n_features` — ifdd.rs:199-201. -/
instance : Space (IFDD B K) := ⟨fun s => .finite s.features.length⟩

/-- The test `f.parent_indices.iter().all(|i| p[*i].abs() < 1e-7)` — ifdd.rs:213. `all` stops at the
first failure; reads of sparse features never panic. -/
def allBelow (p : Features K) : List Nat → P Bool
  | [] => .ok true
  | i :: is => do
    let a ← p.index i
    if Scalar.lt (Scalar.abs a) (Scalar.sci 1 7) then allBelow p is else .ok false

/-- The `filter_map` over the discovered features — ifdd.rs:208-219. -/
def activated (s : IFDD B K) (p : Features K) : List Nat → P (List Nat)
  | [] => .ok []
  | i :: is => do
    let f ← idx s.features i
    let b ← allBelow p (f.parents.sort (· ≤ ·))
    let r ← s.activated p is
    .ok (if b then i :: r else r)

/-- The loop `for j in self.features[*i].parent_indices.iter() { p.remove(*j) }` — ifdd.rs:221-225. -/
def removeParents (s : IFDD B K) (p : Features K) : List Nat → P (Features K)
  | [] => .ok p
  | i :: is => do
    let f ← idx s.features i
    s.removeParents ((f.parents.sort (· ≤ ·)).foldl Features.remove p) is

/-- `project` — ifdd.rs:203-228. The last line stacks the indices `np`, which count from the first
feature of the inner basis, as they are; `stack` is the present one, which offsets them by the
dimension of its first operand. -/
def project [Space B] {I : Type} [Basis B I K] (s : IFDD B K) (input : I) : P (Result (Features K)) := do
  let nBase ← (Space.dim s.basis).toUsize
  let r ← Basis.project s.basis input
  match r with
  | .error e => .ok (.error e)
  | .ok p =>
    let np ← s.activated p (List.range' nBase (s.features.length - nBase))
    let p ← s.removeParents p np
    let r ← p.stack (Features.unitary (s.features.length - nBase) np)
    .ok (.ok r)

/-- ifdd.rs:198-229. -/
instance [Space B] {I : Type} [Basis B I K] : Basis (IFDD B K) I K := ⟨IFDD.project⟩

end IFDD

end Lfa

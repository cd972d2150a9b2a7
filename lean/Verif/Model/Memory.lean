import Verif.Model.Basis

/-!
# The `unsafe` blocks, at the level of memory

The other model files give the values computed by `map_inplace`, `merge`, `merge_into`,
`merge_inplace` and `L0Normaliser::ith`. This file models what their `unsafe` blocks do to memory:
places that hold no valid value, cells that were never written, and unchecked reads. Closures passed
by the caller may panic here, so they return in `P`. A panic unwinds.
-/

namespace Lfa

/-- How a computation with `unsafe` blocks can fail. -/
inductive Fault where
  /-- it panics -/
  | panic (p : Panic)
  /-- it reads memory that holds no value (undefined behaviour) -/
  | undefined
  deriving DecidableEq, Repr

/-- A computation that may panic or run into undefined behaviour. -/
abbrev Mem (α : Type) := Except Fault α

/-- A computation without `unsafe` blocks. -/
def Mem.lift {α : Type} : P α → Mem α
  | .ok a => .ok a
  | .error p => .error (.panic p)

/-! ## Uninitialised arrays (`ndarray::Array1<MaybeUninit<f64>>`) -/

/-- `Array1<MaybeUninit<f64>>`: the cells, with the value last written if there is one. -/
abbrev UArray (K : Type) := List (Option K)

namespace UArray
variable {K : Type}

/-- `Array1::uninit(n)` — features.rs:451, 508. -/
def uninit (n : Nat) : UArray K := List.replicate n none

/-- `phi[i] = MaybeUninit::new(v)` — features.rs:454, 511. -/
def write (phi : UArray K) (i : Nat) (v : K) : Mem (UArray K) :=
  Mem.lift (setIdx phi i (some v))

/-- `phi.assume_init()` — features.rs:460, 517. Undefined unless every cell has been written. -/
def assumeInit (phi : UArray K) : Mem (List K) :=
  match phi with
  | [] => .ok []
  | none :: _ => .error .undefined
  | some v :: phi => do
    let vs ← assumeInit phi
    .ok (v :: vs)

end UArray

namespace Features
variable {K : Type} [Scalar K]

/-! ## Mapping and merging with closures that may panic -/

/-- `map_into` with a closure that may panic — features.rs:347-375. -/
def mapIntoMem (φ : Features K) (f : K → P K) : P (Features K) :=
  match φ with
  | .dense da => do
    let da ← da.mapM f
    .ok (.dense da)
  | .sparse sa => do
    let z ← f Scalar.zero
    if Scalar.lt (Scalar.abs z) (Scalar.sci 1 5) then do
      let es ← sa.activations.mapM fun e => do
        let v ← f e.2
        .ok (e.1, v)
      .ok (.sparse { dim := sa.dim, activations := HMap.collect es })
    else do
      let phi ← sa.activations.foldlM (fun phi e => do
        let v ← f e.2
        setIdx phi e.1 v) (List.replicate sa.dim z)
      .ok (.dense phi)

/-- `zip_mut_with` with a closure that may panic — features.rs:435, 492. -/
def zipMutWithMem (xs ys : List K) (f : K → K → P K) : P (List K) := do
  let ys ← broadcast ys xs.length
  (List.zip xs ys).mapM fun e => f e.1 e.2

/-- `for (&i, a) in sa2.iter() { a_out[i] = f(a_out[i], *a); }` — features.rs:440-442, 497-499. -/
def scatterModMem (f : K → K → P K) (entries : List (Nat × K)) (w : List K) : P (List K) :=
  entries.foldlM (fun w e => do
    let x ← idx w e.1
    let v ← f x e.2
    setIdx w e.1 v) w

/-- The sparse/sparse branch — features.rs:462-477, 519-532. `or_insert_with` calls its closure only
if the key is missing. -/
def mergeSparseMem (sa₁ sa₂ : SparseActivations K) (f : K → K → P K) :
    P (SparseActivations K) := do
  let updated ← sa₁.activations.mapM fun e => do
    let v ← f e.2 ((sa₂.activations.get? e.1).getD Scalar.zero)
    .ok (e.1, v)
  let merged ← sa₂.activations.foldlM (fun (m : HMap K) e =>
    if HMap.contains m e.1 then .ok m
    else do
      let v ← f Scalar.zero e.2
      .ok (HMap.insert m e.1 v)) updated
  .ok { dim := Max.max sa₁.dim sa₂.dim, activations := merged }

/-- `Features::merge` — features.rs:422-480, with the uninitialised array of lines 451-460. -/
def mergeMem (φ ψ : Features K) (f : K → K → P K) : Mem (Features K) :=
  match φ, ψ with
  | .dense da₁, .dense da₂ => do
    let a ← Mem.lift (zipMutWithMem da₁ da₂ f)
    .ok (.dense a)
  | .dense da₁, .sparse sa₂ => do
    let a ← Mem.lift (scatterModMem f sa₂.activations da₁)
    .ok (.dense a)
  | .sparse sa₁, .dense da₂ => do
    let n := Max.max sa₁.dim da₂.length
    let phi ← (List.range n).foldlM (fun phi i => do
      let y ← Mem.lift (idx da₂ i)
      let v ← Mem.lift (f ((sa₁.activations.get? i).getD Scalar.zero) y)
      UArray.write phi i v) (UArray.uninit n)
    let vs ← UArray.assumeInit phi
    .ok (.dense vs)
  | .sparse sa₁, .sparse sa₂ => do
    let sa ← Mem.lift (mergeSparseMem sa₁ sa₂ f)
    .ok (.sparse sa)

/-- `Features::merge_into` — features.rs:483-535, with the uninitialised array of lines 508-517. -/
def mergeIntoMem (φ ψ : Features K) (f : K → K → P K) : Mem (Features K) :=
  match φ, ψ with
  | .dense da₁, .dense da₂ => do
    let a ← Mem.lift (zipMutWithMem da₁ da₂ f)
    .ok (.dense a)
  | .dense da₁, .sparse sa₂ => do
    let a ← Mem.lift (scatterModMem f sa₂.activations da₁)
    .ok (.dense a)
  | .sparse sa₁, .dense da₂ => do
    let n := Max.max sa₁.dim da₂.length
    let phi ← (List.range n).foldlM (fun phi i => do
      let v ← Mem.lift (f ((sa₁.activations.get? i).getD Scalar.zero) (da₂[i]?.getD Scalar.zero))
      UArray.write phi i v) (UArray.uninit n)
    let vs ← UArray.assumeInit phi
    .ok (.dense vs)
  | .sparse sa₁, .sparse sa₂ => do
    let sa ← Mem.lift (mergeSparseMem sa₁ sa₂ f)
    .ok (.sparse sa)

/-! ## In-place operations -/

/-- What a place of type `Features` holds. -/
inductive Slot (K : Type) where
  /-- features made by one of the constructors -/
  | features (φ : Features K)
  /-- all bytes zero: null where `ndarray` and `HashMap` keep a non-null pointer -/
  | zeroed

/-- One call of an in-place operation, seen from its caller. -/
structure Call (K : Type) where
  /-- how the call ends -/
  outcome : Mem Unit
  /-- what `*self` holds when the call has ended, by returning or by unwinding -/
  place : Slot K
  /-- the values whose destructor the call runs, among those stored in `*self` before or during it -/
  dropped : List (Slot K)

/-- The body shared by `map_inplace` and `merge_inplace` — features.rs:379-382, 544-547: put a zeroed
value in `*self`, hand the old features to `op`, store the result and drop the zeroed value. When `op`
unwinds, the zeroed value stays. `op` owns the old features and leaves no copy of them. -/
def inplace (φ : Features K) (op : Features K → Mem (Features K)) : Call K :=
  match op φ with
  | .ok ψ => { outcome := .ok (), place := .features ψ, dropped := [.zeroed] }
  | .error e => { outcome := .error e, place := .zeroed, dropped := [] }

/-- `Features::map_inplace` — features.rs:378-383. -/
def mapInplaceMem (φ : Features K) (f : K → P K) : Call K :=
  inplace φ fun old => Mem.lift (old.mapIntoMem f)

/-- `Features::merge_inplace` — features.rs:539-548. -/
def mergeInplaceMem (φ ψ : Features K) (f : K → K → P K) : Call K :=
  inplace φ fun old => old.mergeIntoMem ψ f

/-! ## Unchecked reads -/

/-- `Features::uget` — features.rs:204-210. `da.uget(idx)` reads past the end without a check. -/
def ugetMem (φ : Features K) (i : Nat) : Mem (Option K) :=
  match φ with
  | .dense da => match da[i]? with
    | some a => .ok (some a)
    | none => .error .undefined
  | .sparse sa => .ok (sa.activations.get? i)

end Features

/-- `L0Normaliser::ith` — normalisation.rs:44-54, with the unchecked read of line 51. -/
def L0Normaliser.ithMem {B I K : Type} [Scalar K] [Space B] [Basis B I K] (b : L0Normaliser B)
    (input : I) (index : Nat) : Mem (Result K) := do
  let n ← Mem.lift (Space.dim b.inner).toUsize
  if index < n then
    match ← Mem.lift (Basis.project b.inner input) with
    | .error e => .ok (.error e)
    | .ok φ => do
      let z : K := Scalar.ofNat φ.nActive
      let o ← φ.ugetMem index
      let a ← Mem.lift (unwrap o)
      .ok (.ok (a /. z))
  else .ok (.error (Error.indexError index n))

end Lfa

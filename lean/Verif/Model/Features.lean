import Verif.Model.Prelude

/-!
# `src/features.rs`
-/

namespace Lfa

/-- `SparseActivations` — features.rs:92-98. `activations` lists the hash map's entries in
iteration order (`iter`, features.rs:103-105). -/
structure SparseActivations (K : Type) where
  dim : Nat
  activations : HMap K

/-- `Features` — features.rs:123-129. -/
inductive Features (K : Type) where
  | dense (da : List K)
  | sparse (sa : SparseActivations K)

namespace Features
variable {K : Type} [Scalar K]

/-- `Features::dense` — features.rs:136-141; also `From<DenseActivations>`, `From<Vec<f64>>`,
`FromIterator<f64>` — features.rs:746-762. -/
def mkDense (da : List K) : Features K := .dense da

/-- `Features::sparse` — features.rs:145-153. -/
def mkSparse (dim : Nat) (activations : List (Nat × K)) : Features K :=
  .sparse { dim, activations := HMap.collect activations }

/-- `Features::unitary` — features.rs:157-162. -/
def unitary (dim : Nat) (indices : List Nat) : Features K :=
  mkSparse dim (indices.map fun i => (i, Scalar.one))

/-- `Features::is_dense` — features.rs:165-167. -/
def isDense : Features K → Bool
  | .dense _ => true
  | .sparse _ => false

/-- `Features::is_sparse` — features.rs:170-172. -/
def isSparse : Features K → Bool
  | .dense _ => false
  | .sparse _ => true

/-- `Features::n_features` — features.rs:175-180. -/
def nFeatures : Features K → Nat
  | .dense da => da.length
  | .sparse sa => sa.dim

/-- `Features::n_active` — features.rs:183-189. -/
def nActive : Features K → Nat
  | .dense da => (da.filter fun v => Scalar.lt (Scalar.sci 1 7) (Scalar.abs v)).length
  | .sparse sa => sa.activations.length

/-- `Features::get` — features.rs:194-200. -/
def get (f : Features K) (i : Nat) : Option K :=
  match f with
  | .dense da => da[i]?
  | .sparse sa => sa.activations.get? i

/-- `Features::uget` — features.rs:204-210. Unchecked access; an out-of-range dense index is
undefined behaviour in Rust and is modelled as a panic. -/
def uget (f : Features K) (i : Nat) : P (Option K) :=
  match f with
  | .dense da => (idx da i).map some
  | .sparse sa => .ok (sa.activations.get? i)

/-- `Features::remove` — features.rs:230-238. -/
def remove (f : Features K) (i : Nat) : Features K :=
  match f with
  | .dense da => .dense (da.set i Scalar.zero)
  | .sparse sa => .sparse { sa with activations := sa.activations.remove i }

/-- The loop `for (idx, act) in entries { phi[idx] = g(act) }` — features.rs:247-249, 272-274,
336-338, 367-369. -/
def scatterSet (g : K → K) (entries : List (Nat × K)) (phi : List K) : P (List K) :=
  entries.foldlM (fun phi e => setIdx phi e.1 (g e.2)) phi

/-- The loop `for (idx, act) in entries { w[idx] = g(w[idx], act) }` — features.rs:440-442,
498-500, 652, 667. -/
def scatterMod (g : K → K → K) (entries : List (Nat × K)) (w : List K) : P (List K) :=
  entries.foldlM (fun w e => modIdx w e.1 (fun x => g x e.2)) w

/-- `Features::to_dense` — features.rs:241-254. -/
def toDense : Features K → P (List K)
  | .dense da => .ok da
  | .sparse sa => scatterSet id sa.activations (List.replicate sa.dim Scalar.zero)

/-- `Features::into_dense` — features.rs:266-279 (also `From<Features> for DenseActivations` and
`for Vec<f64>`, features.rs:786-796). -/
def intoDense : Features K → P (List K)
  | .dense da => .ok da
  | .sparse sa => scatterSet id sa.activations (List.replicate sa.dim Scalar.zero)

/-- `Features::stack` — features.rs:291-312. -/
def stack (f₁ f₂ : Features K) : P (Features K) :=
  match f₁, f₂ with
  | .sparse sa₁, .sparse sa₂ =>
    .ok (.sparse
      { dim := sa₁.dim + sa₂.dim
        activations := sa₂.activations.foldl
          (fun m e => HMap.insert m (e.1 + sa₁.dim) e.2) sa₁.activations })
  | f₁, f₂ => do
    let a₁ ← f₁.intoDense
    let a₂ ← f₂.intoDense
    .ok (.dense (a₁ ++ a₂))

/-- The test `null_activation.abs() < 1e-5` — features.rs:326, 357. -/
def sparsityPreserving (f : K → K) : Bool :=
  Scalar.lt (Scalar.abs (f Scalar.zero)) (Scalar.sci 1 5)

/-- `Features::map` — features.rs:316-344. -/
def map (φ : Features K) (f : K → K) : P (Features K) :=
  match φ with
  | .dense da => .ok (.dense (da.map f))
  | .sparse sa =>
    if sparsityPreserving f then
      .ok (.sparse
        { dim := sa.dim
          activations := HMap.collect (sa.activations.map fun e => (e.1, f e.2)) })
    else do
      let phi ← scatterSet f sa.activations (List.replicate sa.dim (f Scalar.zero))
      .ok (.dense phi)

/-- `Features::map_into` — features.rs:347-375. -/
def mapInto (φ : Features K) (f : K → K) : P (Features K) :=
  match φ with
  | .dense da => .ok (.dense (da.map f))
  | .sparse sa =>
    if sparsityPreserving f then
      .ok (.sparse
        { dim := sa.dim
          activations := HMap.collect (sa.activations.map fun e => (e.1, f e.2)) })
    else do
      let phi ← scatterSet f sa.activations (List.replicate sa.dim (f Scalar.zero))
      .ok (.dense phi)

/-- `Features::map_inplace` — features.rs:378-383. The temporary zeroed `Features` written by
`mem::replace` is modelled in Model/Memory.lean. -/
def mapInplace (φ : Features K) (f : K → K) : P (Features K) := φ.mapInto f

/-- `Features::map_dense` — features.rs:387-393. -/
def mapDense {T : Type} (φ : Features K) (f : List K → T) : Option T :=
  match φ with
  | .dense da => some (f da)
  | .sparse _ => none

/-- `Features::map_sparse` — features.rs:398-404. -/
def mapSparse {T : Type} (φ : Features K) (f : SparseActivations K → T) : Option T :=
  match φ with
  | .dense _ => none
  | .sparse sa => some (f sa)

/-- `Features::map_either` — features.rs:408-418. -/
def mapEither {T : Type} (φ : Features K) (fd : List K → T) (fs : SparseActivations K → T) : T :=
  match φ with
  | .dense da => fd da
  | .sparse sa => fs sa

/-- The sparse/sparse branch shared by `merge` and `merge_into` — features.rs:462-477, 519-532. -/
def mergeSparse (sa₁ sa₂ : SparseActivations K) (f : K → K → K) : SparseActivations K :=
  let updated : HMap K := sa₁.activations.map fun e =>
    (e.1, f e.2 ((sa₂.activations.get? e.1).getD Scalar.zero))
  { dim := Max.max sa₁.dim sa₂.dim
    activations := sa₂.activations.foldl
      (fun m e => HMap.orInsert m e.1 (f Scalar.zero e.2)) updated }

/-- `Features::merge` — features.rs:422-480. In the sparse/dense branch `da2[i]` panics when the
dense side is shorter. -/
def merge (φ ψ : Features K) (f : K → K → K) : P (Features K) :=
  match φ, ψ with
  | .dense da₁, .dense da₂ => do
    let a ← zipMutWith da₁ da₂ f
    .ok (.dense a)
  | .dense da₁, .sparse sa₂ => do
    let a ← scatterMod f sa₂.activations da₁
    .ok (.dense a)
  | .sparse sa₁, .dense da₂ => do
    let n := Max.max sa₁.dim da₂.length
    let phi ← (List.range n).mapM fun i => do
      let y ← idx da₂ i
      .ok (f ((sa₁.activations.get? i).getD Scalar.zero) y)
    .ok (.dense phi)
  | .sparse sa₁, .sparse sa₂ => .ok (.sparse (mergeSparse sa₁ sa₂ f))

/-- `Features::merge_into` — features.rs:483-535. -/
def mergeInto (φ ψ : Features K) (f : K → K → K) : P (Features K) :=
  match φ, ψ with
  | .dense da₁, .dense da₂ => do
    let a ← zipMutWith da₁ da₂ f
    .ok (.dense a)
  | .dense da₁, .sparse sa₂ => do
    let a ← scatterMod f sa₂.activations da₁
    .ok (.dense a)
  | .sparse sa₁, .dense da₂ =>
    let n := Max.max sa₁.dim da₂.length
    .ok (.dense ((List.range n).map fun i =>
      f ((sa₁.activations.get? i).getD Scalar.zero) (da₂[i]?.getD Scalar.zero)))
  | .sparse sa₁, .sparse sa₂ => .ok (.sparse (mergeSparse sa₁ sa₂ f))

/-- `Features::merge_inplace` — features.rs:539-548 (see `mapInplace` for the temporary). -/
def mergeInplace (φ ψ : Features K) (f : K → K → K) : P (Features K) := φ.mergeInto ψ f

/-- `Features::fold` — features.rs:553-559. -/
def fold (φ : Features K) (init : K) (f : K → K → K) : K :=
  match φ with
  | .dense da => da.foldl f init
  | .sparse sa => (sa.activations.map Prod.snd).foldl f init

/-- `Features::dot_sparse` — features.rs:592-599. -/
def dotSparse (sa : SparseActivations K) (weights : List K) : P K :=
  sa.activations.foldlM (fun acc e => do
    let w ← idx weights e.1
    .ok (acc +. w *. e.2)) Scalar.zero

/-- `Features::dot` — features.rs:573-590. -/
def dot (φ : Features K) (weights : List K) : P K :=
  match φ with
  | .dense da => arrayDot da weights
  | .sparse sa => dotSparse sa weights

/-- `ArrayBase::dot` (ndarray) with an operand that is not contiguous: the products are added from left to right,
whereas `Scalar.dot` is the unrolled loop over two contiguous operands. -/
def stridedDot (xs ys : List K) : P K :=
  if xs.length = ys.length then
    .ok ((List.zipWith (fun x y => x *. y) xs ys).foldl (fun acc p => acc +. p) Scalar.zero)
  else .error .shapeMismatch

/-- `Features::dot` — features.rs:573-590 — with a column of a matrix that has `m` columns and is in standard layout. Such a
column is contiguous when it is the only one or has at most one element. -/
def dotColumn (m : Nat) (φ : Features K) (col : List K) : P K :=
  match φ with
  | .dense da => if m = 1 ∨ col.length ≤ 1 then arrayDot da col else stridedDot da col
  | .sparse sa => dotSparse sa col

/-- `Features::matmul` — features.rs:623-632. A matrix is the list of its columns. -/
def matmul (φ : Features K) (columns : List (List K)) : P (List K) :=
  columns.mapM fun col => φ.dotColumn columns.length col

/-- `Features::sum` — features.rs:635-640. -/
def sum (φ : Features K) : K :=
  match φ with
  | .dense da => Scalar.sum da
  | .sparse sa => (sa.activations.map Prod.snd).foldl (· +. ·) Scalar.zero

/-- `Features::addto` — features.rs:643-654. -/
def addto (φ : Features K) (weights : List K) : P (List K) :=
  match φ with
  | .dense da => zipMutWith weights da (fun w a => w +. a)
  | .sparse sa => scatterMod (fun w a => w +. a) sa.activations weights

/-- `Features::scaled_addto` — features.rs:658-669. -/
def scaledAddto (φ : Features K) (alpha : K) (weights : List K) : P (List K) :=
  match φ with
  | .dense da => zipMutWith weights da (fun w a => w +. alpha *. a)
  | .sparse sa => scatterMod (fun w a => w +. alpha *. a) sa.activations weights

/-- `Dot<Features> for Features` — features.rs:684-707. The sparse/sparse branch counts shared
keys in `i32` and casts (overflow beyond 2^31 shared keys is not modelled). -/
def dotFeatures (φ ψ : Features K) : P K :=
  match φ, ψ with
  | .sparse sa₁, .sparse sa₂ =>
    .ok (Scalar.ofNat ((sa₁.activations.map Prod.fst).foldl
      (fun acc k => acc + if sa₂.activations.contains k then 1 else 0) 0))
  | .sparse sa₁, .dense da₂ => dotSparse sa₁ da₂
  | .dense da₁, .sparse sa₂ => dotSparse sa₂ da₁
  | .dense da₁, .dense da₂ => arrayDot da₁ da₂

/-- `Index<usize> for Features` — features.rs:715-729. -/
def index (φ : Features K) (i : Nat) : P K :=
  match φ with
  | .dense da => idx da i
  | .sparse sa => .ok (if sa.activations.contains i then Scalar.one else Scalar.zero)

/-- `PartialEq for Features` — features.rs:731-744. -/
def eq (φ ψ : Features K) : P Bool :=
  match φ, ψ with
  | .sparse sa₁, .sparse sa₂ =>
    .ok (sa₁.dim == sa₂.dim && HMap.beqWith Scalar.beq sa₁.activations sa₂.activations)
  | .dense da₁, .dense da₂ =>
    .ok (da₁.length == da₂.length && (List.zipWith Scalar.beq da₁ da₂).all id)
  | _, _ => .error .unimplemented

/-- The maximum of a list of indices, as `Iterator::max` (`None` on the empty iterator). -/
def maxIndex : List Nat → Option Nat
  | [] => none
  | i :: is => some (is.foldl Max.max i)

/-- `From<SparseActivations> for Features` — features.rs:764-773. -/
def ofSparseActivations (sa : SparseActivations K) : P (Features K) := do
  let m ← unwrap (maxIndex (sa.activations.map Prod.fst))
  .ok (.sparse { dim := m + 1, activations := sa.activations })

/-- `From<Vec<IndexT>> for Features` — features.rs:775-784. -/
def ofIndices (indices : List Nat) : P (Features K) := do
  let m ← unwrap (maxIndex indices)
  .ok (.sparse
    { dim := m + 1, activations := HMap.collect (indices.map fun i => (i, Scalar.one)) })

end Features

end Lfa

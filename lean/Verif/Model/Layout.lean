import Verif.Model.Features
import Verif.Model.Lfa

/-!
# Owned arrays with their memory layout

The rest of the model takes an `Array1<f64>` as the list of its elements. An `Array1` of ndarray 0.15 also has a
layout: it owns a buffer, and element `i` lies at `offset + i * stride` in it. Public operations such as
`invert_axis` and `slice_move` change the layout and leave the buffer alone. Three functions of the crate read the
buffer itself, and this file models those three.
-/

namespace Lfa

variable {K : Type}

/-- `ndarray::Array1<K>` (ndarray 0.15): an owned buffer and the way its elements are laid out in it. -/
structure Arr (K : Type) where
  buf : List K
  offset : Nat
  len : Nat
  stride : Int

namespace Arr

/-- The place of element `i` in the buffer. -/
def pos (a : Arr K) (i : Nat) : Int := a.offset + i * a.stride

/-- ndarray's invariant: every element lies in the buffer. -/
def Valid (a : Arr K) : Prop := ∀ i < a.len, 0 ≤ a.pos i ∧ a.pos i < a.buf.length

/-- The elements in logical order, which is what indexing, `iter`, arithmetic and comparison go by. -/
def toList (a : Arr K) : List K := (List.range a.len).filterMap fun i => a.buf[(a.pos i).toNat]?

/-- `Array1::from(Vec)`, `Array1::zeros` and `collect`: the standard layout. -/
def std (l : List K) : Arr K := ⟨l, 0, l.length, 1⟩

/-- `Array::into_raw_vec` (ndarray 0.15): the buffer as it is stored. -/
def intoRawVec (a : Arr K) : List K := a.buf

/-- `Array::is_standard_layout` in one dimension (ndarray 0.15). -/
def isStandard (a : Arr K) : Bool := a.stride == 1 || decide (a.len ≤ 1)

/-- `Array::as_slice` (ndarray 0.15): the elements, if they lie in order without gaps. -/
def asSlice (a : Arr K) : Option (List K) :=
  if a.isStandard then some ((a.buf.drop a.offset).take a.len) else none

/-- `Array::invert_axis(Axis(0))` (ndarray 0.15). -/
def inverted (a : Arr K) : Arr K :=
  { a with offset := (a.pos (a.len - 1)).toNat, stride := -a.stride }

/-- `Array::slice_move(s![k..k + n])` for `k + n ≤ len` (ndarray 0.15). -/
def sliced (a : Arr K) (k n : Nat) : Arr K := { a with offset := (a.pos k).toNat, len := n }

end Arr

/-- `Features` with the layout of a dense array kept — features.rs:123-129. -/
inductive LFeatures (K : Type) where
  | dense (a : Arr K)
  | sparse (sa : SparseActivations K)

namespace LFeatures

variable [Scalar K]

/-- The features without their layout, as in the rest of the model. -/
def erase : LFeatures K → Features K
  | .dense a => .dense a.toList
  | .sparse sa => .sparse sa

/-- `Features::into_dense` — features.rs:266-279. A dense array is moved, layout and all. -/
def intoDense : LFeatures K → P (Arr K)
  | .dense a => .ok a
  | .sparse sa => do
    let l ← (Features.sparse sa).intoDense
    .ok (Arr.std l)

/-- `Features::stack` — features.rs:291-312. -/
def stack : LFeatures K → LFeatures K → P (LFeatures K)
  | .sparse sa₁, .sparse sa₂ =>
    .ok (.sparse
      { dim := sa₁.dim + sa₂.dim
        activations := sa₂.activations.foldl
          (fun m e => HMap.insert m (e.1 + sa₁.dim) e.2) sa₁.activations })
  | f₁, f₂ => do
    let all := (← f₁.intoDense).intoRawVec
    match (← f₂.intoDense).asSlice with
    | some s => .ok (.dense (Arr.std (all ++ s)))
    | none => .error .unwrapFailed

/-- `From<Features> for Vec<f64>` — features.rs:792-796. -/
def toVec (f : LFeatures K) : P (List K) := do .ok (← f.intoDense).intoRawVec

end LFeatures

namespace VectorLFA

variable [Scalar K] {B O I : Type} [Space B]

/-- `VectorLFA::update_with` for a closure that returns an array in any layout — lib.rs:298-319. `matmul` gives the
closure an array in standard layout. -/
def updateWithArr [Basis B I K] [Optimiser O K] (fa : VectorLFA B O K) (input : I)
    (f : Features K → Arr K → Arr K) : P (Result Unit × VectorLFA B O K) := do
  match ← Basis.project fa.basis input with
  | .error e => .ok (.error e, fa)
  | .ok b => do
    let values ← b.matmul fa.weights
    let errors := (f b (Arr.std values)).intoRawVec
    let (r, o, ws) ← stepColumns b errors fa.weights fa.optimiser (.ok ())
    .ok (r, { fa with weights := ws, optimiser := o })

end VectorLFA

end Lfa

import Verif.Model.Kernels
import Verif.Model.Optim

/-!
# Linear function approximators — `src/lib.rs`

A weight matrix (`Array2`) is the list of its columns.
-/

namespace Lfa

/-- `LFA<B, W, O>` — lib.rs:91-112. -/
structure LFA (B W O : Type) where
  basis : B
  weights : W
  optimiser : O

/-- `ScalarLFA<B, O>` — lib.rs:79. -/
abbrev ScalarLFA (B O K : Type) := LFA B (List K) O
/-- `VectorLFA<B, O>` — lib.rs:82. -/
abbrev VectorLFA (B O K : Type) := LFA B (List (List K)) O

namespace ScalarLFA
variable {B O I K : Type} [Scalar K] [Space B]

/-- `LFA::scalar` — lib.rs:118-130. -/
def scalar (basis : B) (optimiser : O) : P (ScalarLFA B O K) := do
  let n ← (Space.dim basis).toUsize
  .ok { basis, weights := List.replicate n Scalar.zero, optimiser }

/-- `ScalarLFA::evaluate` — lib.rs:133-140. -/
def evaluate [Basis B I K] (fa : ScalarLFA B O K) (input : I) : P (Result K) := do
  let r ← Basis.project fa.basis input
  r.mapP fun b => b.dot fa.weights

/-- `ScalarLFA::update` — lib.rs:143-152. -/
def update [Basis B I K] [Optimiser O K] (fa : ScalarLFA B O K) (input : I) (error : K) :
    P (Result Unit × ScalarLFA B O K) := do
  match ← Basis.project fa.basis input with
  | .error e => .ok (.error e, fa)
  | .ok b => do
    let (r, o, w) ← Optimiser.stepScaled fa.optimiser fa.weights b error
    .ok (r, { fa with weights := w, optimiser := o })

/-- `ScalarLFA::update_with` — lib.rs:156-169. -/
def updateWith [Basis B I K] [Optimiser O K] (fa : ScalarLFA B O K) (input : I)
    (f : Features K → K → K) : P (Result Unit × ScalarLFA B O K) := do
  match ← Basis.project fa.basis input with
  | .error e => .ok (.error e, fa)
  | .ok b => do
    let v ← b.dot fa.weights
    let e := f b v
    let (r, o, w) ← Optimiser.stepScaled fa.optimiser fa.weights b e
    .ok (r, { fa with weights := w, optimiser := o })

end ScalarLFA

/-- `OutputIter` — lib.rs:173-176; the remaining columns and the number of columns of the matrix they belong to. -/
structure OutputIter (K : Type) where
  basis : Features K
  lanes : List (List K)
  width : Nat

namespace OutputIter
variable {K : Type} [Scalar K]

/-- `Iterator::next` — lib.rs:181-183. -/
def next (it : OutputIter K) : P (Option K × OutputIter K) :=
  match it.lanes with
  | [] => .ok (none, it)
  | c :: cs => do
    let v ← it.basis.dotColumn it.width c
    .ok (some v, { it with lanes := cs })

/-- `size_hint` and `len` — lib.rs:185-187, 191-193. -/
def sizeHint (it : OutputIter K) : Nat × Option Nat := (it.lanes.length, some it.lanes.length)
/-- `ExactSizeIterator::len` — lib.rs:191-193. -/
def len (it : OutputIter K) : Nat := it.lanes.length

/-- `collect()` on an `OutputIter`: call `next` until it returns `None` — lib.rs:224. -/
def collect (basis : Features K) (width : Nat) : List (List K) → P (List K)
  | [] => .ok []
  | c :: cs => do
    match ← next { basis, lanes := c :: cs, width } with
    | (some v, it) => do
      let vs ← collect it.basis it.width cs
      .ok (v :: vs)
    | (none, _) => .ok []

end OutputIter

namespace VectorLFA
variable {B O I K : Type} [Scalar K] [Space B]

/-- `LFA::vector` — lib.rs:200-212. -/
def vector (basis : B) (optimiser : O) (nOutputs : Nat) : P (VectorLFA B O K) := do
  let n ← (Space.dim basis).toUsize
  .ok { basis, weights := List.replicate nOutputs (List.replicate n Scalar.zero), optimiser }

/-- `VectorLFA::n_outputs` — lib.rs:215-217. -/
def nOutputs (fa : VectorLFA B O K) : Nat := fa.weights.length

/-- `VectorLFA::iter` — lib.rs:242-250. -/
def iter [Basis B I K] (fa : VectorLFA B O K) (input : I) : P (OutputIter K) := do
  let r ← Basis.project fa.basis input
  let basis ← r.unwrap
  .ok { basis, lanes := fa.weights, width := fa.weights.length }

/-- `VectorLFA::try_iter` — lib.rs:254-262. -/
def tryIter [Basis B I K] (fa : VectorLFA B O K) (input : I) : P (Result (OutputIter K)) := do
  let r ← Basis.project fa.basis input
  r.mapP fun basis => .ok { basis, lanes := fa.weights, width := fa.weights.length }

/-- `VectorLFA::evaluate` — lib.rs:220-225. -/
def evaluate [Basis B I K] (fa : VectorLFA B O K) (input : I) : P (Result (List K)) := do
  let r ← fa.tryIter input
  r.mapP fun it => OutputIter.collect it.basis it.width it.lanes

/-- `VectorLFA::evaluate_index` — lib.rs:229-236. -/
def evaluateIndex [Basis B I K] (fa : VectorLFA B O K) (input : I) (index : Nat) :
    P (Result K) := do
  let r ← Basis.project fa.basis input
  r.mapP fun b => do
    let c ← idx fa.weights index
    b.dotColumn fa.weights.length c

/-- The `zip(columns_mut()).fold(Ok(()), |acc, (e, c)| acc.and(step_scaled(c, b, e)))` loop —
lib.rs:274-279, 312-317. Every column that has an error value is stepped, also after a failure. -/
def stepColumns [Optimiser O K] (b : Features K) :
    List K → List (List K) → O → Result Unit → P (Result Unit × O × List (List K))
  | e :: es, c :: cs, o, acc => do
    let (r, o, c) ← Optimiser.stepScaled o c b e
    let (acc, o, cs) ← stepColumns b es cs o (acc.and r)
    .ok (acc, o, c :: cs)
  | _, cs, o, acc => .ok (acc, o, cs)

/-- `VectorLFA::update` — lib.rs:265-281. -/
def update [Basis B I K] [Optimiser O K] (fa : VectorLFA B O K) (input : I) (errors : List K) :
    P (Result Unit × VectorLFA B O K) := do
  match ← Basis.project fa.basis input with
  | .error e => .ok (.error e, fa)
  | .ok b => do
    let (r, o, ws) ← stepColumns b errors fa.weights fa.optimiser (.ok ())
    .ok (r, { fa with weights := ws, optimiser := o })

/-- `VectorLFA::update_index` — lib.rs:285-294. `column_mut(index)` panics out of range. -/
def updateIndex [Basis B I K] [Optimiser O K] (fa : VectorLFA B O K) (input : I) (index : Nat)
    (error : K) : P (Result Unit × VectorLFA B O K) := do
  match ← Basis.project fa.basis input with
  | .error e => .ok (.error e, fa)
  | .ok b => do
    let c ← idx fa.weights index
    let (r, o, c) ← Optimiser.stepScaled fa.optimiser c b error
    let ws ← setIdx fa.weights index c
    .ok (r, { fa with weights := ws, optimiser := o })

/-- `VectorLFA::update_with` — lib.rs:298-319 (`into_raw_vec` in standard layout). -/
def updateWith [Basis B I K] [Optimiser O K] (fa : VectorLFA B O K) (input : I)
    (f : Features K → List K → List K) : P (Result Unit × VectorLFA B O K) := do
  match ← Basis.project fa.basis input with
  | .error e => .ok (.error e, fa)
  | .ok b => do
    let values ← b.matmul fa.weights
    let errors := f b values
    let (r, o, ws) ← stepColumns b errors fa.weights fa.optimiser (.ok ())
    .ok (r, { fa with weights := ws, optimiser := o })

end VectorLFA

end Lfa

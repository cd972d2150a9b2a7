import Verif.Model.Lfa

/-!
# What a panicking call leaves behind

Elsewhere a panic is the end: `P` forgets the state. But `update` works on `&mut self`, and a caller that
catches the panic (`catch_unwind`, a worker thread) still has the approximator. Here every step says how it
ended, `none` for a return and `some p` for a panic, together with the optimiser and the weights at that moment.
-/

namespace Lfa

variable {K : Type}

/-- `a[i] = g(a[i], v)` for the entries in turn; stops at the first index out of range. -/
def scatterAfter (g : K → K → K) : List (Nat × K) → List K → Option Panic × List K
  | [], w => (none, w)
  | e :: es, w => match w[e.1]? with
    | some x => scatterAfter g es (w.set e.1 (g x e.2))
    | none => (some .indexOutOfBounds, w)

/-- `zip_mut_with` (ndarray): the shapes are checked before anything is written. -/
def zipAfter (xs ys : List K) (f : K → K → K) : Option Panic × List K :=
  match zipMutWith xs ys f with
  | .ok zs => (none, zs)
  | .error p => (some p, xs)

variable [Scalar K]

/-- `Features::scaled_addto` — features.rs:658-669. -/
def Features.scaledAddtoAfter (φ : Features K) (alpha : K) (w : List K) : Option Panic × List K :=
  match φ with
  | .dense da => zipAfter w da (fun w a => w +. alpha *. a)
  | .sparse sa => scatterAfter (fun w a => w +. alpha *. a) sa.activations w

/-- An optimiser's `step_scaled` with the state it leaves: how it ended, the optimiser, the weights. -/
class Unwinds (O : Type) (K : outParam Type) [Scalar K] where
  stepAfter : O → List K → Features K → K → Option Panic × O × List K

/-- sgd.rs:16-24. -/
instance : Unwinds (SGD K) K where
  stepAfter o w φ s :=
    let r := φ.scaledAddtoAfter (o.lr *. s) w
    (r.1, o, r.2)

/-- isgd.rs:24-32. -/
instance : Unwinds (ISGD K) K where
  stepAfter o w φ s :=
    let r := φ.scaledAddtoAfter (o.computeLr φ *. s) w
    (r.1, o, r.2)

/-- momentum.rs:39-50, nesterov.rs:39-52: the sparse branch decays the velocity before it adds. -/
def velocityAfter (m : K) (velocity : List K) (φ : Features K) (s : K) : Option Panic × List K :=
  match φ with
  | .dense da => zipAfter velocity da (fun x y => m *. x +. y *. s)
  | .sparse sa => scatterAfter (fun x a => x +. a *. s) sa.activations (velocity.map (· *. m))

/-- momentum.rs:29-53. -/
instance : Unwinds (SGDMomentum K) K where
  stepAfter o w φ s :=
    match velocityAfter o.momentum o.velocity φ s with
    | (some p, v) => (some p, { o with velocity := v }, w)
    | (none, v) =>
      let r := zipAfter w v (fun y x => y +. o.learningRate *. x)
      (r.1, { o with velocity := v }, r.2)

/-- nesterov.rs:30-58. -/
instance : Unwinds (NAG K) K where
  stepAfter o w φ s :=
    match velocityAfter o.momentum o.velocity φ s with
    | (some p, v) => (some p, { o with velocity := v }, w)
    | (none, v) =>
      match zipAfter w v (fun y x => y +. o.learningRate *. x) with
      | (some p, w) => (some p, { o with velocity := v }, w)
      | (none, w) =>
        let r := φ.scaledAddtoAfter o.momentum w
        (r.1, { o with velocity := v }, r.2)

/-- adagrad.rs:48-53, for the accumulator's indices in turn: the accumulator is written before the weight. -/
def Adagrad.sparseAfter (lr s : K) (m : HMap K) : List Nat → List K → List K → Option Panic × List K × List K
  | [], accs, w => (none, accs, w)
  | i :: is, accs, w => match accs[i]? with
    | none => (some .indexOutOfBounds, accs, w)
    | some ss =>
      let g := (m.get? i).getD Scalar.zero *. s
      let ss' := ss +. Scalar.powi g 2
      match w[i]? with
      | none => (some .indexOutOfBounds, accs.set i ss', w)
      | some x => sparseAfter lr s m is (accs.set i ss') (w.set i (x +. lr *. g /. (Scalar.sqrt ss' +. EPS)))

/-- adagrad.rs:27-58. The dense loop cannot panic. -/
instance : Unwinds (Adagrad K) K where
  stepAfter o w φ s :=
    match φ with
    | .dense da =>
      let r := Adagrad.denseLoop o.learningRate s da w o.accumulator
      (none, { o with accumulator := r.1 }, r.2)
    | .sparse sa =>
      let r := Adagrad.sparseAfter o.learningRate s sa.activations (List.range o.accumulator.length) o.accumulator w
      (r.1, { o with accumulator := r.2.1 }, r.2.2)

/-- adam.rs:62-74, 83-95: both moments are written before the weight. -/
def Adam.loopAfter (o : Adam K) (decay : Bool) (s : K) :
    List (Nat × K) → List K → List K → List K → Option Panic × List K × List K × List K
  | [], m1, m2, w => (none, m1, m2, w)
  | e :: es, m1, m2, w => match m1[e.1]?, m2[e.1]? with
    | some m1i, some m2i =>
      let g := e.2 *. s
      let m1New := (if decay then o.beta1 *. m1i else m1i) +. (Scalar.ofNat 1 -. o.beta1) *. g
      let m2New := (if decay then o.beta2 *. m2i else m2i) +. (Scalar.ofNat 1 -. o.beta2) *. g *. g
      let m1Unbiased := m1New /. (Scalar.ofNat 1 -. o.beta1Prod)
      let m2Unbiased := m2New /. (Scalar.ofNat 1 -. o.beta2Prod)
      match w[e.1]? with
      | none => (some .indexOutOfBounds, m1.set e.1 m1New, m2.set e.1 m2New, w)
      | some x => loopAfter o decay s es (m1.set e.1 m1New) (m2.set e.1 m2New)
          (w.set e.1 (x +. o.learningRate *. m1Unbiased /. (Scalar.sqrt m2Unbiased +. EPS)))
    | _, _ => (some .indexOutOfBounds, m1, m2, w)

/-- adam.rs:47-101. The products advance first. -/
instance : Unwinds (Adam K) K where
  stepAfter o w φ s :=
    let o : Adam K := { o with beta1Prod := o.beta1Prod *. o.beta1
                               beta2Prod := o.beta2Prod *. o.beta2 }
    let r := match φ with
      | .dense da => o.loopAfter true s (indexedIter da) o.expAvg o.expAvgSq w
      | .sparse sa => o.loopAfter false s sa.activations (o.expAvg.map (· *. o.beta1))
          (o.expAvgSq.map (· *. o.beta2)) w
    (r.1, { o with expAvg := r.2.1, expAvgSq := r.2.2.1 }, r.2.2.2)

/-- adamax.rs:59-69, 78-88. -/
def AdaMax.loopAfter (o : AdaMax K) (decay : Bool) (s : K) :
    List (Nat × K) → List K → List K → List K → Option Panic × List K × List K × List K
  | [], m, u, w => (none, m, u, w)
  | e :: es, m, u, w => match m[e.1]?, u[e.1]? with
    | some mi, some ui =>
      let g := e.2 *. s
      let mNew := (if decay then o.beta1 *. mi else mi) +. (Scalar.ofNat 1 -. o.beta1) *. g
      let uNew := Scalar.max (if decay then o.beta2 *. ui else ui) (Scalar.abs g)
      let mUnbiased := mNew /. (Scalar.ofNat 1 -. o.beta1Prod)
      match w[e.1]? with
      | none => (some .indexOutOfBounds, m.set e.1 mNew, u.set e.1 uNew, w)
      | some x => loopAfter o decay s es (m.set e.1 mNew) (u.set e.1 uNew)
          (w.set e.1 (x +. o.learningRate *. mUnbiased /. (uNew +. EPS)))
    | _, _ => (some .indexOutOfBounds, m, u, w)

/-- adamax.rs:45-94. -/
instance : Unwinds (AdaMax K) K where
  stepAfter o w φ s :=
    let o : AdaMax K := { o with beta1Prod := o.beta1Prod *. o.beta1 }
    let r := match φ with
      | .dense da => o.loopAfter true s (indexedIter da) o.expAvg o.expInf w
      | .sparse sa => o.loopAfter false s sa.activations (o.expAvg.map (· *. o.beta1))
          (o.expInf.map (· *. o.beta2)) w
    (r.1, { o with expAvg := r.2.1, expInf := r.2.2.1 }, r.2.2.2)

/-- What a call of an updating function leaves: how it ended and the approximator. -/
abbrev Left (FA : Type) := P (Result Unit) × FA

namespace ScalarLFA
variable {B O I : Type} [Space B]

/-- `ScalarLFA::update` — lib.rs:143-152. -/
def updateAfter [Basis B I K] [Unwinds O K] (fa : ScalarLFA B O K) (input : I) (error : K) : Left (ScalarLFA B O K) :=
  match Basis.project fa.basis input with
  | .error p => (.error p, fa)
  | .ok (.error e) => (.ok (.error e), fa)
  | .ok (.ok b) =>
    match Unwinds.stepAfter fa.optimiser fa.weights b error with
    | (none, o, w) => (.ok (.ok ()), { fa with weights := w, optimiser := o })
    | (some p, o, w) => (.error p, { fa with weights := w, optimiser := o })

/-- `ScalarLFA::update_with` — lib.rs:156-169, with a closure that may panic. -/
def updateWithAfter [Basis B I K] [Unwinds O K] (fa : ScalarLFA B O K) (input : I) (f : Features K → K → P K) :
    Left (ScalarLFA B O K) :=
  match Basis.project fa.basis input with
  | .error p => (.error p, fa)
  | .ok (.error e) => (.ok (.error e), fa)
  | .ok (.ok b) =>
    match b.dot fa.weights with
    | .error p => (.error p, fa)
    | .ok v => match f b v with
      | .error p => (.error p, fa)
      | .ok e =>
        match Unwinds.stepAfter fa.optimiser fa.weights b e with
        | (none, o, w) => (.ok (.ok ()), { fa with weights := w, optimiser := o })
        | (some p, o, w) => (.error p, { fa with weights := w, optimiser := o })

end ScalarLFA

namespace VectorLFA
variable {B O I : Type} [Space B]

/-- The loop over errors and columns — lib.rs:274-279. -/
def columnsAfter [Unwinds O K] (b : Features K) :
    List K → List (List K) → O → Option Panic × O × List (List K)
  | e :: es, c :: cs, o =>
    match Unwinds.stepAfter o c b e with
    | (some p, o, c) => (some p, o, c :: cs)
    | (none, o, c) =>
      let r := columnsAfter b es cs o
      (r.1, r.2.1, c :: r.2.2)
  | _, cs, o => (none, o, cs)

/-- `VectorLFA::update` — lib.rs:265-281. -/
def updateAfter [Basis B I K] [Unwinds O K] (fa : VectorLFA B O K) (input : I) (errors : List K) :
    Left (VectorLFA B O K) :=
  match Basis.project fa.basis input with
  | .error p => (.error p, fa)
  | .ok (.error e) => (.ok (.error e), fa)
  | .ok (.ok b) =>
    match columnsAfter b errors fa.weights fa.optimiser with
    | (none, o, ws) => (.ok (.ok ()), { fa with weights := ws, optimiser := o })
    | (some p, o, ws) => (.error p, { fa with weights := ws, optimiser := o })

end VectorLFA

end Lfa

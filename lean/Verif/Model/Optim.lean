import Verif.Model.Features

/-!
# Optimisers — `src/optim/*.rs`

`weights: &mut ArrayViewMut1<f64>` is passed in and returned; the optimiser's own state likewise.
-/

namespace Lfa

variable {K : Type} [Scalar K]

/-- What a step returns: the `Result<()>`, the optimiser and the weights after the call. -/
abbrev StepOut (O K : Type) := Result Unit × O × List K

/-- `trait Optimiser<Features>` — optim/mod.rs:5-18. -/
class Optimiser (O : Type) (K : outParam Type) [Scalar K] where
  /-- `step_scaled` — optim/mod.rs:10-15 -/
  stepScaled : O → List K → Features K → K → P (StepOut O K)
  /-- `step` — default at optim/mod.rs:6-8 -/
  step : O → List K → Features K → P (StepOut O K) := fun o w φ => stepScaled o w φ Scalar.one
  /-- `reset` — default at optim/mod.rs:17 -/
  reset : O → O := id

/-! ## SGD -/

/-- `SGD` — sgd.rs:9. -/
structure SGD (K : Type) where
  lr : K

/-- sgd.rs:11-25. -/
instance : Optimiser (SGD K) K where
  step o w φ := do
    let w ← φ.scaledAddto o.lr w
    .ok (.ok (), o, w)
  stepScaled o w φ s := do
    let w ← φ.scaledAddto (o.lr *. s) w
    .ok (.ok (), o, w)

/-! ## ISGD -/

/-- `ISGD` — isgd.rs:9. -/
structure ISGD (K : Type) where
  lr : K

/-- `ISGD::compute_lr` — isgd.rs:12-16. -/
def ISGD.computeLr (o : ISGD K) (φ : Features K) : K :=
  let norm := φ.fold Scalar.zero (fun acc x => acc +. x *. x)
  o.lr /. (Scalar.ofNat 1 +. o.lr *. norm)

/-- isgd.rs:19-33. -/
instance : Optimiser (ISGD K) K where
  step o w φ := do
    let w ← φ.scaledAddto (o.computeLr φ) w
    .ok (.ok (), o, w)
  stepScaled o w φ s := do
    let w ← φ.scaledAddto (o.computeLr φ *. s) w
    .ok (.ok (), o, w)

/-! ## SGDMomentum and NAG -/

/-- The velocity update shared (textually) by momentum.rs:39-50 and nesterov.rs:39-52. -/
def velocityUpdate (m : K) (velocity : List K) (φ : Features K) (s : K) : P (List K) :=
  match φ with
  | .dense da => zipMutWith velocity da (fun x y => m *. x +. y *. s)
  | .sparse sa =>
    Features.scatterMod (fun x a => x +. a *. s) sa.activations (velocity.map (· *. m))

/-- `ArrayBase::scaled_add(alpha, rhs)` (ndarray): `self = self + alpha * rhs`, broadcasting. -/
def scaledAdd (w : List K) (alpha : K) (rhs : List K) : P (List K) :=
  zipMutWith w rhs (fun y x => y +. alpha *. x)

/-- `SGDMomentum` — momentum.rs:11-16. -/
structure SGDMomentum (K : Type) where
  momentum : K
  learningRate : K
  velocity : List K

/-- `SGDMomentum::new` — momentum.rs:19-25. -/
def SGDMomentum.new (nParams : Nat) (momentum learningRate : K) : SGDMomentum K :=
  { momentum, learningRate, velocity := List.replicate nParams Scalar.zero }

/-- momentum.rs:28-56. -/
instance : Optimiser (SGDMomentum K) K where
  stepScaled o w φ s := do
    let v ← velocityUpdate o.momentum o.velocity φ s
    let w ← scaledAdd w o.learningRate v
    .ok (.ok (), { o with velocity := v }, w)
  reset o := { o with velocity := o.velocity.map fun _ => Scalar.zero }

/-- `NAG` — nesterov.rs:12-17. -/
structure NAG (K : Type) where
  momentum : K
  learningRate : K
  velocity : List K

/-- `NAG::new` — nesterov.rs:20-26. -/
def NAG.new (nParams : Nat) (momentum learningRate : K) : NAG K :=
  { momentum, learningRate, velocity := List.replicate nParams Scalar.zero }

/-- nesterov.rs:29-63. The look-ahead term adds `m * features`, unscaled (nesterov.rs:55). -/
instance : Optimiser (NAG K) K where
  stepScaled o w φ s := do
    let v ← velocityUpdate o.momentum o.velocity φ s
    let w ← scaledAdd w o.learningRate v
    let w ← φ.scaledAddto o.momentum w
    .ok (.ok (), { o with velocity := v }, w)
  reset o := { o with velocity := o.velocity.map fun _ => Scalar.zero }

/-! ## Adagrad -/

/-- `const EPS: f64 = 1e-7` — adagrad.rs:4, adam.rs:5, adamax.rs:5. -/
def EPS : K := Scalar.sci 1 7

/-- `Adagrad` — adagrad.rs:12-15. -/
structure Adagrad (K : Type) where
  learningRate : K
  accumulator : List K

/-- `Adagrad::new` — adagrad.rs:18-23. -/
def Adagrad.new (nParams : Nat) (learningRate : K) : Adagrad K :=
  { learningRate, accumulator := List.replicate nParams Scalar.zero }

/-- The dense `zip` loop — adagrad.rs:37-46: stops at the shortest of the three. Returns
(accumulator, weights). -/
def Adagrad.denseLoop (lr s : K) : List K → List K → List K → List K × List K
  | a :: as, w :: ws, ss :: sss =>
    let g := a *. s
    let ss' := ss +. Scalar.powi g 2
    let w' := w +. lr *. g /. (Scalar.sqrt ss' +. EPS)
    let (accs, ws') := denseLoop lr s as ws sss
    (ss' :: accs, w' :: ws')
  | _, ws, sss => (sss, ws)

/-- The body of the sparse loop for parameter `i` — adagrad.rs:48-53. -/
def Adagrad.sparseBody (lr s : K) (m : HMap K) (st : List K × List K) (i : Nat) :
    P (List K × List K) := do
  let (accs, w) := st
  let ss ← idx accs i
  let g := (m.get? i).getD Scalar.zero *. s
  let ss' := ss +. Scalar.powi g 2
  let accs ← setIdx accs i ss'
  let w ← modIdx w i (fun w => w +. lr *. g /. (Scalar.sqrt ss' +. EPS))
  .ok (accs, w)

/-- The two loops — adagrad.rs:36-55. The sparse loop runs over the accumulator's indices. -/
def Adagrad.loop (o : Adagrad K) (w : List K) (φ : Features K) (s : K) : P (List K × List K) :=
  match φ with
  | .dense da => .ok (Adagrad.denseLoop o.learningRate s da w o.accumulator)
  | .sparse sa =>
    (List.range o.accumulator.length).foldlM
      (Adagrad.sparseBody o.learningRate s sa.activations) (o.accumulator, w)

/-- adagrad.rs:26-61. -/
instance : Optimiser (Adagrad K) K where
  stepScaled o w φ s := do
    let (accs, w) ← o.loop w φ s
    .ok (.ok (), { o with accumulator := accs }, w)
  reset o := { o with accumulator := o.accumulator.map fun _ => Scalar.zero }

/-! ## Adam -/

/-- `Adam` — adam.rs:16-27. -/
structure Adam (K : Type) where
  beta1 : K
  beta1Prod : K
  beta2 : K
  beta2Prod : K
  learningRate : K
  expAvg : List K
  expAvgSq : List K

/-- `Adam::new` — adam.rs:30-43: the products start at `beta`, not at 1. -/
def Adam.new (nParams : Nat) (learningRate beta1 beta2 : K) : Adam K :=
  { beta1, beta1Prod := beta1, beta2, beta2Prod := beta2, learningRate
    expAvg := List.replicate nParams Scalar.zero
    expAvgSq := List.replicate nParams Scalar.zero }

/-- The loop body — adam.rs:62-74 (dense: `decay` multiplies the old moments by beta) and 83-95
(sparse: the moments were already multiplied). State: (m1, m2, weights). -/
def Adam.body (o : Adam K) (decay : Bool) (s : K) (st : List K × List K × List K)
    (e : Nat × K) : P (List K × List K × List K) := do
  let (m1, m2, w) := st
  let i := e.1
  let g := e.2 *. s
  let m1i ← idx m1 i
  let m1New := (if decay then o.beta1 *. m1i else m1i) +. (Scalar.ofNat 1 -. o.beta1) *. g
  let m2i ← idx m2 i
  let m2New := (if decay then o.beta2 *. m2i else m2i) +. (Scalar.ofNat 1 -. o.beta2) *. g *. g
  let m1Unbiased := m1New /. (Scalar.ofNat 1 -. o.beta1Prod)
  let m2Unbiased := m2New /. (Scalar.ofNat 1 -. o.beta2Prod)
  let m1 ← setIdx m1 i m1New
  let m2 ← setIdx m2 i m2New
  let w ← modIdx w i (fun w =>
    w +. o.learningRate *. m1Unbiased /. (Scalar.sqrt m2Unbiased +. EPS))
  .ok (m1, m2, w)

/-- `indexed_iter()` of a 1-d array (ndarray): `(index, element)` pairs in order. -/
def indexedIter (xs : List K) : List (Nat × K) := xs.zipIdx.map fun p => (p.2, p.1)

/-- The two loops — adam.rs:57-97. -/
def Adam.loop (o : Adam K) (w : List K) (φ : Features K) (s : K) :
    P (List K × List K × List K) :=
  match φ with
  | .dense da => (indexedIter da).foldlM (o.body true s) (o.expAvg, o.expAvgSq, w)
  | .sparse sa =>
    sa.activations.foldlM (o.body false s)
      (o.expAvg.map (· *. o.beta1), o.expAvgSq.map (· *. o.beta2), w)

/-- adam.rs:46-106. -/
instance : Optimiser (Adam K) K where
  stepScaled o w φ s := do
    let o : Adam K := { o with beta1Prod := o.beta1Prod *. o.beta1
                               beta2Prod := o.beta2Prod *. o.beta2 }
    let (m1, m2, w) ← o.loop w φ s
    .ok (.ok (), { o with expAvg := m1, expAvgSq := m2 }, w)
  reset o := { o with expAvg := o.expAvg.map fun _ => Scalar.zero
                      expAvgSq := o.expAvgSq.map fun _ => Scalar.zero }

/-! ## AdaMax -/

/-- `AdaMax` — adamax.rs:16-26. -/
structure AdaMax (K : Type) where
  beta1 : K
  beta1Prod : K
  beta2 : K
  learningRate : K
  expAvg : List K
  expInf : List K

/-- `AdaMax::new` — adamax.rs:29-41. -/
def AdaMax.new (nParams : Nat) (learningRate beta1 beta2 : K) : AdaMax K :=
  { beta1, beta1Prod := beta1, beta2, learningRate
    expAvg := List.replicate nParams Scalar.zero
    expInf := List.replicate nParams Scalar.zero }

/-- The loop body — adamax.rs:59-69 (dense) and 78-88 (sparse). State: (m, u, weights). -/
def AdaMax.body (o : AdaMax K) (decay : Bool) (s : K) (st : List K × List K × List K)
    (e : Nat × K) : P (List K × List K × List K) := do
  let (m, u, w) := st
  let i := e.1
  let g := e.2 *. s
  let mi ← idx m i
  let mNew := (if decay then o.beta1 *. mi else mi) +. (Scalar.ofNat 1 -. o.beta1) *. g
  let ui ← idx u i
  let uNew := Scalar.max (if decay then o.beta2 *. ui else ui) (Scalar.abs g)
  let mUnbiased := mNew /. (Scalar.ofNat 1 -. o.beta1Prod)
  let m ← setIdx m i mNew
  let u ← setIdx u i uNew
  let w ← modIdx w i (fun w => w +. o.learningRate *. mUnbiased /. (uNew +. EPS))
  .ok (m, u, w)

/-- The two loops — adamax.rs:54-90. -/
def AdaMax.loop (o : AdaMax K) (w : List K) (φ : Features K) (s : K) :
    P (List K × List K × List K) :=
  match φ with
  | .dense da => (indexedIter da).foldlM (o.body true s) (o.expAvg, o.expInf, w)
  | .sparse sa =>
    sa.activations.foldlM (o.body false s)
      (o.expAvg.map (· *. o.beta1), o.expInf.map (· *. o.beta2), w)

/-- adamax.rs:44-99. -/
instance : Optimiser (AdaMax K) K where
  stepScaled o w φ s := do
    let o : AdaMax K := { o with beta1Prod := o.beta1Prod *. o.beta1 }
    let (m, u, w) ← o.loop w φ s
    .ok (.ok (), { o with expAvg := m, expInf := u }, w)
  reset o := { o with expAvg := o.expAvg.map fun _ => Scalar.zero
                      expInf := o.expInf.map fun _ => Scalar.zero }

end Lfa

import Verif.Model.Lfa
import Verif.Model.Poly
import Verif.Model.Kernels
import Verif.Model.Grid

/-!
# Saving and restoring (feature `serde`)

`derive(Serialize, Deserialize)` on the types of the crate, and the hand-written `Deserialize` of
`Chebyshev`, over serde's data model. A format is assumed to represent every `f64` and `usize`; which of
several errors is reported first is not modelled. `Array1`, `Equipartition` and hasher builders are
serialised by their own crates: arrays as sequences, the others through an arbitrary codec.
-/

namespace Lfa

/-- A value of serde's data model. -/
inductive Tree (K : Type) where
  /-- an `f64` -/
  | num (x : K)
  /-- an unsigned integer -/
  | nat (n : Nat)
  | str (s : String)
  /-- a sequence, a tuple, or a struct in a format without field names -/
  | seq (ts : List (Tree K))
  /-- a struct in a format with field names -/
  | fields (fs : List (String × Tree K))
  /-- a map with integer keys -/
  | entries (es : List (Nat × Tree K))
  /-- a variant of an enum, with its payload -/
  | variant (name : String) (t : Tree K)
  /-- a variant of an enum without payload -/
  | unitVariant (name : String)

/-- Serialisation and deserialisation of a type. `ser` writes structs with field names. -/
structure Codec (K T : Type) where
  ser : T → Tree K
  de : Tree K → P (Except Chebyshev.DeError T)

namespace Codec
variable {K : Type}

open Chebyshev (DeError)

/-- `f64` -/
def float : Codec K K where
  ser := .num
  de
    | .num x => .ok (.ok x)
    | _ => .ok (.error .invalidType)

/-- `u8`, `usize` -/
def nat : Codec K Nat where
  ser := .nat
  de
    | .nat n => .ok (.ok n)
    | _ => .ok (.error .invalidType)

/-- `String` -/
def string : Codec K String where
  ser := .str
  de
    | .str s => .ok (.ok s)
    | _ => .ok (.error .invalidType)

/-- The elements of a sequence, first to last. -/
def deList {T : Type} (c : Codec K T) : List (Tree K) → P (Except DeError (List T))
  | [] => .ok (.ok [])
  | t :: ts => do
    match ← c.de t with
    | .error e => .ok (.error e)
    | .ok x =>
      match ← deList c ts with
      | .error e => .ok (.error e)
      | .ok xs => .ok (.ok (x :: xs))

/-- `Vec<T>`, `Array1<T>` -/
def list {T : Type} (c : Codec K T) : Codec K (List T) where
  ser xs := .seq (xs.map c.ser)
  de
    | .seq ts => c.deList ts
    | _ => .ok (.error .invalidType)

/-- `(f64, f64)` -/
def pair : Codec K (K × K) where
  ser p := .seq [.num p.1, .num p.2]
  de
    | .seq [.num x, .num y] => .ok (.ok (x, y))
    | _ => .ok (.error .invalidType)

/-- `HashMap<usize, f64>`: entries are inserted one by one. -/
def hmap : Codec K (HMap K) where
  ser m := .entries (m.map fun e => (e.1, .num e.2))
  de
    | .entries es => do
      match ← deList float (es.map Prod.snd) with
      | .error e => .ok (.error e)
      | .ok xs => .ok (.ok (HMap.collect ((es.map Prod.fst).zip xs)))
    | _ => .ok (.error .invalidType)

/-- `HashSet<usize>` -/
def hset : Codec K (List Nat) where
  ser := nat.list.ser
  de t := do
    match ← nat.list.de t with
    | .error e => .ok (.error e)
    | .ok xs => .ok (.ok (hashSet xs))

/-- Deserialise and convert. -/
def deMap {S T : Type} (c : Codec K S) (join : S → T) (t : Tree K) : P (Except DeError T) := do
  match ← c.de t with
  | .error e => .ok (.error e)
  | .ok s => .ok (.ok (join s))

/-- A type serialised as another: newtype structs are transparent. -/
def via {S T : Type} (c : Codec K S) (split : T → S) (join : S → T) : Codec K T where
  ser x := c.ser (split x)
  de := c.deMap join

/-! ## Structs -/

/-- The fields of a struct, in order of declaration. -/
structure Fields (K T : Type) where
  ser : T → List (Tree K)
  de : List (Tree K) → P (Except DeError T)

/-- No more fields. -/
def Fields.nil : Fields K Unit where
  ser _ := []
  de _ := .ok (.ok ())

/-- One more field. -/
def Fields.cons {S T : Type} (c : Codec K S) (f : Fields K T) : Fields K (S × T) where
  ser x := c.ser x.1 :: f.ser x.2
  de
    | [] => .ok (.error (.invalidLength 0))
    | t :: ts => do
      match ← c.de t with
      | .error e => .ok (.error e)
      | .ok x =>
        match ← f.de ts with
        | .error e => .ok (.error e)
        | .ok y => .ok (.ok (x, y))

/-- The value of a field in a struct with field names: it must occur exactly once. -/
def getField (fs : List (String × Tree K)) (name : String) : Except DeError (Tree K) :=
  match fs.filter fun e => e.1 = name with
  | [] => .error (.missingField name)
  | [e] => .ok e.2
  | _ => .error (.duplicateField name)

/-- The values of all fields. -/
def getFields (fs : List (String × Tree K)) : List String → Except DeError (List (Tree K))
  | [] => .ok []
  | n :: ns =>
    match getField fs n with
    | .error e => .error e
    | .ok t =>
      match getFields fs ns with
      | .error e => .error e
      | .ok ts => .ok (t :: ts)

/-- `derive(Serialize, Deserialize)` on a struct with these field names: accepts a sequence (further elements
ignored) and a map in any order (unknown fields ignored). -/
def struct {S T : Type} (names : List String) (f : Fields K S) (split : T → S) (join : S → T) : Codec K T where
  ser x := .fields (names.zip (f.ser (split x)))
  de t := do
    let ts : Except DeError (List (Tree K)) := match t with
      | .seq ts => if ts.length < names.length then .error (.invalidLength ts.length) else .ok ts
      | .fields fs => getFields fs names
      | _ => .error .invalidType
    match ts with
    | .error e => .ok (.error e)
    | .ok ts =>
      match ← f.de ts with
      | .error e => .ok (.error e)
      | .ok s => .ok (.ok (join s))

/-! ## The types of the crate -/

open Fields (cons nil)

/-- `ErrorKind` — src/error.rs:7-17. -/
def errorKind : Codec K ErrorKind where
  ser
    | .basis => .unitVariant "Basis"
    | .evaluation => .unitVariant "Evaluation"
    | .optimisation => .unitVariant "Optimisation"
  de
    | .unitVariant s =>
      if s = "Basis" then .ok (.ok .basis) else if s = "Evaluation" then .ok (.ok .evaluation)
      else if s = "Optimisation" then .ok (.ok .optimisation) else .ok (.error .invalidType)
    | _ => .ok (.error .invalidType)

/-- `Error` — src/error.rs:19-28. -/
def error : Codec K Error :=
  struct ["kind", "message"] (cons errorKind (cons string nil))
    (fun e => (e.kind, e.message, ())) (fun s => ⟨s.1, s.2.1⟩)

/-- `SparseActivations` — src/features.rs:86-97. -/
def sparse : Codec K (SparseActivations K) :=
  struct ["dim", "activations"] (cons nat (cons hmap nil))
    (fun s => (s.dim, s.activations, ())) (fun s => ⟨s.1, s.2.1⟩)

/-- `Features` — src/features.rs:117-129. -/
def features : Codec K (Features K) where
  ser
    | .dense da => .variant "Dense" (float.list.ser da)
    | .sparse sa => .variant "Sparse" (sparse.ser sa)
  de
    | .variant s t =>
      if s = "Dense" then float.list.deMap Features.dense t
      else if s = "Sparse" then sparse.deMap Features.sparse t
      else .ok (.error .invalidType)
    | _ => .ok (.error .invalidType)

/-- `Bias` — src/basis/constant.rs:6-12. -/
def bias : Codec K (Bias K) := via float Bias.value Bias.mk

/-- `Fixed<Vec<f64>>` — src/basis/constant.rs:38-44. -/
def fixedDense : Codec K (FixedDense K) := via float.list FixedDense.constants FixedDense.mk

/-- `Fixed<(usize, HashSet<usize>)>` — src/basis/constant.rs:38-44; a tuple. -/
def fixedSparse : Codec K (FixedSparse K) where
  ser b := .seq [.nat b.nFeatures, hset.ser b.active]
  de
    | .seq [.nat n, t] => do
      match ← hset.de t with
      | .error e => .ok (.error e)
      | .ok a => .ok (.ok ⟨n, a⟩)
    | _ => .ok (.error .invalidType)

/-- `Stack<B1, B2>` — src/basis/stack.rs:6-15. -/
def stack {B₁ B₂ : Type} (c₁ : Codec K B₁) (c₂ : Codec K B₂) : Codec K (Stack B₁ B₂) :=
  struct ["b1", "b2"] (cons c₁ (cons c₂ nil)) (fun s => (s.b₁, s.b₂, ())) (fun s => ⟨s.1, s.2.1⟩)

/-- `L0Normaliser<B>` — src/basis/normalisation.rs:7-13. -/
def l0 {B : Type} (c : Codec K B) : Codec K (L0Normaliser B) := via c L0Normaliser.inner L0Normaliser.mk
/-- `L1Normaliser<B>` — src/basis/normalisation.rs:60-66. -/
def l1 {B : Type} (c : Codec K B) : Codec K (L1Normaliser B) := via c L1Normaliser.inner L1Normaliser.mk
/-- `L2Normaliser<B>` — src/basis/normalisation.rs:129-135. -/
def l2 {B : Type} (c : Codec K B) : Codec K (L2Normaliser B) := via c L2Normaliser.inner L2Normaliser.mk
/-- `LinfNormaliser<B>` — src/basis/normalisation.rs:198-204. -/
def linf {B : Type} (c : Codec K B) : Codec K (LinfNormaliser B) :=
  via c LinfNormaliser.inner LinfNormaliser.mk

/-- `Polynomial` — src/basis/polynomial/mod.rs:38-48. -/
def polynomial : Codec K Polynomial :=
  struct ["order", "exponents"] (cons nat (cons nat.list.list nil))
    (fun b => (b.order, b.exponents, ())) (fun s => ⟨s.1, s.2.1⟩)

/-- The keys the `field_identifier` enum of `Chebyshev` knows — src/basis/polynomial/mod.rs:256-264. -/
def knownFields (t : Tree K) : Bool :=
  match t with
  | .fields fs => fs.all fun e => e.1 = "order" ∨ e.1 = "limits"
  | _ => true

/-- `Chebyshev`: derived `Serialize` without `polynomials` (src/basis/polynomial/mod.rs:121-129),
hand-written `Deserialize` that ends in `Chebyshev::new` (:242-322; `Chebyshev.visitMap` models it key by key).
Unlike the derived implementations it rejects unknown fields (the `field_identifier` enum, :256-264), here as
`invalidType`. -/
def chebyshev [Scalar K] : Codec K (Chebyshev K) where
  ser c := .fields [("order", .nat c.order), ("limits", pair.list.ser c.limits)]
  de t := do
    if knownFields t then
      match ← (struct ["order", "limits"] (cons nat (cons pair.list nil)) (fun x => x) (fun x => x)).de t with
      | .error e => .ok (.error e)
      | .ok s => do
        let c ← Chebyshev.new s.1 s.2.1
        .ok (.ok c)
    else .ok (.error .invalidType)

/-- `Fourier` — src/basis/fourier.rs:12-22. -/
def fourier : Codec K (Fourier K) :=
  struct ["order", "limits", "coefficients"] (cons nat (cons pair.list (cons float.list.list nil)))
    (fun b => (b.order, b.limits, b.coefficients, ())) (fun s => ⟨s.1, s.2.1, s.2.2.1⟩)

/-- The kernels of `stationary_kernel!` — src/basis/kernels/stationary.rs:4-13. -/
def stationary {kind : StationaryKind} : Codec K (Stationary kind K) :=
  struct ["variance", "lengthscales"] (cons float (cons float.list nil))
    (fun k => (k.variance, k.lengthscales, ())) (fun s => ⟨s.1, s.2.1⟩)

/-- `RationalQuadratic` — src/basis/kernels/rational_quadratic.rs:1-12. -/
def rationalQuadratic : Codec K (RationalQuadratic K) :=
  struct ["variance", "lengthscales", "power"] (cons float (cons float.list (cons float nil)))
    (fun k => (k.variance, k.lengthscales, k.power, ())) (fun s => ⟨s.1, s.2.1, s.2.2.1⟩)

/-- `Prototype<Vec<f64>, K>` — src/basis/kernelised.rs:7-16. -/
def prototype {κ : Type} (c : Codec K κ) : Codec K (Prototype κ K) :=
  struct ["centroid", "kernel"] (cons float.list (cons c nil))
    (fun p => (p.centroid, p.kernel, ())) (fun s => ⟨s.1, s.2.1⟩)

/-- `KernelBasis<Vec<f64>, K>` — src/basis/kernelised.rs:29-37. -/
def kernelBasis {κ : Type} (c : Codec K κ) : Codec K (KernelBasis κ K) :=
  struct ["prototypes"] (cons (prototype c).list nil) (fun b => (b.prototypes, ())) (fun s => ⟨s.1⟩)

/-- `TileCoding<H>` — src/basis/tile_coding.rs:39-50. The attribute `serde(default)` of the hasher is under a
feature `serialize` the crate does not have, so the hasher is always read. -/
def tileCoding {H : Type} (c : Codec K H) : Codec K (TileCoding H) :=
  struct ["hasher_builder", "n_tilings", "memory_size"] (cons c (cons nat (cons nat nil)))
    (fun b => (b.hasherBuilder, b.nTilings, b.memorySize, ())) (fun s => ⟨s.1, s.2.1, s.2.2.1⟩)

/-- `UniformGrid` — src/basis/uniform_grid.rs:6-15. -/
def uniformGrid (c : Codec K (Equipartition K)) : Codec K (UniformGrid K) :=
  struct ["n_features", "feature_space"] (cons nat (cons c.list nil))
    (fun b => (b.nFeatures, b.featureSpace, ())) (fun s => ⟨s.1, s.2.1⟩)

/-- `SGD` — src/optim/sgd.rs:3-9. -/
def sgd : Codec K (SGD K) := via float SGD.lr SGD.mk

/-- `ISGD` — src/optim/isgd.rs:3-9. -/
def isgd : Codec K (ISGD K) := via float ISGD.lr ISGD.mk

/-- `SGDMomentum` — src/optim/momentum.rs:5-16. -/
def momentum : Codec K (SGDMomentum K) :=
  struct ["momentum", "learning_rate", "velocity"] (cons float (cons float (cons float.list nil)))
    (fun o => (o.momentum, o.learningRate, o.velocity, ())) (fun s => ⟨s.1, s.2.1, s.2.2.1⟩)

/-- `NAG` — src/optim/nesterov.rs:6-17. -/
def nag : Codec K (NAG K) :=
  struct ["momentum", "learning_rate", "velocity"] (cons float (cons float (cons float.list nil)))
    (fun o => (o.momentum, o.learningRate, o.velocity, ())) (fun s => ⟨s.1, s.2.1, s.2.2.1⟩)

/-- `Adagrad` — src/optim/adagrad.rs:6-15. -/
def adagrad : Codec K (Adagrad K) :=
  struct ["learning_rate", "accumulator"] (cons float (cons float.list nil))
    (fun o => (o.learningRate, o.accumulator, ())) (fun s => ⟨s.1, s.2.1⟩)

/-- `Adam` — src/optim/adam.rs:10-27. -/
def adam : Codec K (Adam K) :=
  struct ["beta1", "beta1_prod", "beta2", "beta2_prod", "learning_rate", "exp_avg", "exp_avg_sq"]
    (cons float (cons float (cons float (cons float (cons float (cons float.list (cons float.list nil)))))))
    (fun o => (o.beta1, o.beta1Prod, o.beta2, o.beta2Prod, o.learningRate, o.expAvg, o.expAvgSq, ()))
    (fun s => ⟨s.1, s.2.1, s.2.2.1, s.2.2.2.1, s.2.2.2.2.1, s.2.2.2.2.2.1, s.2.2.2.2.2.2.1⟩)

/-- `AdaMax` — src/optim/adamax.rs:10-26. -/
def adamax : Codec K (AdaMax K) :=
  struct ["beta1", "beta1_prod", "beta2", "learning_rate", "exp_avg", "exp_inf"]
    (cons float (cons float (cons float (cons float (cons float.list (cons float.list nil))))))
    (fun o => (o.beta1, o.beta1Prod, o.beta2, o.learningRate, o.expAvg, o.expInf, ()))
    (fun s => ⟨s.1, s.2.1, s.2.2.1, s.2.2.2.1, s.2.2.2.2.1, s.2.2.2.2.2.1⟩)

/-- `LFA<B, W, O>` — src/lib.rs:84-97. -/
def lfa {B W O : Type} (cb : Codec K B) (cw : Codec K W) (co : Codec K O) : Codec K (LFA B W O) :=
  struct ["basis", "weights", "optimiser"] (cons cb (cons cw (cons co nil)))
    (fun fa => (fa.basis, fa.weights, fa.optimiser, ())) (fun s => ⟨s.1, s.2.1, s.2.2.1⟩)

/-- `ScalarLFA` — weights are an `Array1<f64>`. -/
def scalarLFA {B O : Type} (cb : Codec K B) (co : Codec K O) : Codec K (ScalarLFA B O K) :=
  lfa cb float.list co

/-- `VectorLFA` — weights are an `Array2<f64>`, here a sequence of columns. -/
def vectorLFA {B O : Type} (cb : Codec K B) (co : Codec K O) : Codec K (VectorLFA B O K) :=
  lfa cb float.list.list co

end Codec

end Lfa

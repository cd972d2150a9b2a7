import Verif.Model.Features

/-!
# Basis traits and the combinator bases

`src/basis/mod.rs` (traits, combinators), `constant.rs`, `closure.rs`, `stack.rs`,
`normalisation.rs`.
-/

namespace Lfa

/-- `spaces::Space`, reduced to `dim` (the crate never reads `card` of a basis). -/
class Space (B : Type) where
  dim : B → Dim

/-- `Basis<T>` — basis/mod.rs:22-41, for bases with `Value = Features`. -/
class Basis (B : Type) (I : Type) (K : outParam Type) [Space B] where
  project : B → I → P (Result (Features K))

/-- `Basis::n_features` — basis/mod.rs:26. -/
def nFeatures {B : Type} [Space B] (b : B) : P Nat := (Space.dim b).toUsize

/-- `EnumerableBasis<T>` — basis/mod.rs:43-57. -/
class EnumerableBasis (B : Type) (I : Type) (K : outParam Type) [Space B] where
  ith : B → I → Nat → P (Result K)

/-- The default `EnumerableBasis::ith` — basis/mod.rs:52-56. No basis of the crate keeps it. -/
def ithDefault {B I K : Type} [Scalar K] [Space B] [Basis B I K] (b : B) (input : I)
    (index : Nat) : P (Result K) := do
  let n ← (Space.dim b).toUsize
  checkIndex index n do
    let r ← Basis.project b input
    r.mapP fun φ => φ.index index

/-! ## `src/basis/constant.rs` -/

/-- `Bias` — constant.rs:12. -/
structure Bias (K : Type) where
  value : K

section Constant
variable {K I : Type} [Scalar K]

/-- `Bias::unit` — constant.rs:15. -/
def Bias.unit : Bias K := ⟨Scalar.one⟩

/-- constant.rs:18-24. -/
instance : Space (Bias K) := ⟨fun _ => .finite 1⟩

/-- constant.rs:26-28. -/
instance : Basis (Bias K) I K := ⟨fun b _ => .ok (.ok (.mkDense [b.value]))⟩

/-- constant.rs:30-34. -/
instance : EnumerableBasis (Bias K) I K :=
  ⟨fun b _ index => checkIndex index 1 (.ok (.ok b.value))⟩

/-- `Fixed<Vec<f64>>` — constant.rs:44, 48-52. -/
structure FixedDense (K : Type) where
  constants : List K

/-- constant.rs:54-60. -/
instance : Space (FixedDense K) := ⟨fun b => .finite b.constants.length⟩

/-- constant.rs:62-64. -/
instance : Basis (FixedDense K) I K := ⟨fun b _ => .ok (.ok (.mkDense b.constants))⟩

/-- constant.rs:66-72 — the bound checked is the literal `1`. -/
instance : EnumerableBasis (FixedDense K) I K :=
  ⟨fun b _ index => checkIndex index 1 do
    let v ← unwrap b.constants[index]?
    .ok (.ok v)⟩

/-- `Fixed<(usize, HashSet<usize>)>` — constant.rs:74-79. The set is the list of its elements in
iteration order (the scalar type is a phantom parameter). -/
structure FixedSparse (K : Type) where
  nFeatures : Nat
  active : List Nat

/-- `HashSet::from_iter`: keep one copy of each element. -/
def hashSet (xs : List Nat) : List Nat := xs.dedup

/-- `Fixed::sparse` — constant.rs:75-78. -/
def FixedSparse.mk' (n : Nat) (active : List Nat) : FixedSparse K := ⟨n, hashSet active⟩

/-- constant.rs:81-87. -/
instance : Space (FixedSparse K) := ⟨fun b => .finite b.nFeatures⟩

/-- `project` of `Fixed<(usize, HashSet<usize>)>` — constant.rs:89-96. -/
def FixedSparse.project (b : FixedSparse K) : P (Result (Features K)) :=
  .ok (.ok (.sparse
    { dim := b.nFeatures
      activations := HMap.collect (b.active.map fun i => (i, Scalar.one)) }))

/-- constant.rs:89-96 -/
instance : Basis (FixedSparse K) I K := ⟨fun b _ => b.project⟩

/-- constant.rs:98-104. -/
instance : EnumerableBasis (FixedSparse K) I K :=
  ⟨fun b _ index => checkIndex index b.nFeatures
    (.ok (.ok (if index ∈ b.active then Scalar.one else Scalar.zero)))⟩

end Constant

/-! ## `src/basis/closure.rs` -/

/-- `Closure<F>` — closure.rs:11-23. -/
structure Closure (I K : Type) where
  nFeatures : Nat
  mapping : I → P (Result (Features K))

/-- closure.rs:25-31. -/
instance {I K : Type} : Space (Closure I K) := ⟨fun b => .finite b.nFeatures⟩

/-- closure.rs:33-37. -/
instance {I K : Type} : Basis (Closure I K) I K := ⟨fun b input => b.mapping input⟩

/-! ## `src/basis/stack.rs` -/

/-- `Stack<B1, B2>` — stack.rs:12-19. -/
structure Stack (B₁ B₂ : Type) where
  b₁ : B₁
  b₂ : B₂

section Stack
variable {B₁ B₂ I K : Type} [Scalar K] [Space B₁] [Space B₂]

/-- stack.rs:21-27. -/
instance : Space (Stack B₁ B₂) := ⟨fun s => (Space.dim s.b₁).add (Space.dim s.b₂)⟩

/-- stack.rs:29-41. -/
instance [Basis B₁ I K] [Basis B₂ I K] : Basis (Stack B₁ B₂) I K :=
  ⟨fun s input => do
    let r₁ ← Basis.project s.b₁ input
    r₁.andThenP fun f₁ => do
      let r₂ ← Basis.project s.b₂ input
      r₂.mapP fun f₂ => f₁.stack f₂⟩

/-- stack.rs:43-64. -/
instance [EnumerableBasis B₁ I K] [EnumerableBasis B₂ I K] : EnumerableBasis (Stack B₁ B₂) I K :=
  ⟨fun s input index => do
    let n₁ ← (Space.dim s.b₁).toUsize
    let n₂ ← (Space.dim s.b₂).toUsize
    let n₁₂ := n₁ + n₂
    if index < n₁ then EnumerableBasis.ith s.b₁ input index
    else if index < n₁₂ then EnumerableBasis.ith s.b₂ input (index - n₁)
    else .ok (.error (Error.indexError index n₁₂))⟩

/-- `Combinators::with_bias` — basis/mod.rs:72-75. -/
def withBias {B : Type} (b : B) : Stack B (Bias K) := ⟨b, Bias.unit⟩

end Stack

/-! ## `src/basis/normalisation.rs` -/

/-- `L0Normaliser<B>` — normalisation.rs:13. -/
structure L0Normaliser (B : Type) where
  inner : B
/-- `L1Normaliser<B>` — normalisation.rs:66. -/
structure L1Normaliser (B : Type) where
  inner : B
/-- `L2Normaliser<B>` — normalisation.rs:135. -/
structure L2Normaliser (B : Type) where
  inner : B
/-- `LinfNormaliser<B>` — normalisation.rs:204. -/
structure LinfNormaliser (B : Type) where
  inner : B

section Normalise
variable {B I K : Type} [Space B]

/-- normalisation.rs:19-25. -/
instance : Space (L0Normaliser B) := ⟨fun b => Space.dim b.inner⟩
/-- normalisation.rs:72-78. -/
instance : Space (L1Normaliser B) := ⟨fun b => Space.dim b.inner⟩
/-- normalisation.rs:141-147. -/
instance : Space (L2Normaliser B) := ⟨fun b => Space.dim b.inner⟩
/-- normalisation.rs:210-216. -/
instance : Space (LinfNormaliser B) := ⟨fun b => Space.dim b.inner⟩

/-- `sa.activations[&index]` (std): panics on a missing key. -/
def sparseAt (sa : SparseActivations K) (i : Nat) : P K :=
  match sa.activations.get? i with
  | some a => .ok a
  | none => .error .missingKey

/-- The activations of features in iteration order (`da.fold`, `sa.iter().fold`). -/
def Features.values (φ : Features K) : List K :=
  match φ with
  | .dense da => da
  | .sparse sa => sa.activations.map Prod.snd

variable [Scalar K]

/-- `Features` with every activation divided by `z`, keeping the representation —
normalisation.rs:88, 93-100 (and :157, 162-169, :226, 233-240). -/
def divideBy (φ : Features K) (z : K) : Features K :=
  match φ with
  | .dense da => .dense (da.map (· /. z))
  | .sparse sa => .sparse
      { dim := sa.dim
        activations := HMap.collect (sa.activations.map fun e => (e.1, e.2 /. z)) }

/-- `da[index] / z`, resp. `sa.activations[&index] / z` — normalisation.rs:117, 120, 186, 189,
257, 259. -/
def ithOver (φ : Features K) (z : K) (index : Nat) : P K :=
  match φ with
  | .dense da => do
    let a ← idx da index
    .ok (a /. z)
  | .sparse sa => do
    let a ← sparseAt sa index
    .ok (a /. z)

/-- L0 normalisation — normalisation.rs:31-35. -/
def l0Normalise (φ : Features K) : P (Features K) :=
  let z : K := Scalar.ofNat φ.nActive
  φ.mapInto (fun x => x /. z)

/-- The L1 norm — normalisation.rs:86, 91. -/
def l1Norm (φ : Features K) : K := φ.values.foldl (fun acc x => acc +. Scalar.abs x) Scalar.zero

/-- The L2 norm — normalisation.rs:155, 160. -/
def l2Norm (φ : Features K) : K :=
  Scalar.sqrt (φ.values.foldl (fun acc x => acc +. x *. x) Scalar.zero)

/-- normalisation.rs:27-37. -/
instance [Basis B I K] : Basis (L0Normaliser B) I K :=
  ⟨fun b input => do
    let r ← Basis.project b.inner input
    r.mapP l0Normalise⟩

/-- normalisation.rs:39-55. -/
instance [Basis B I K] : EnumerableBasis (L0Normaliser B) I K :=
  ⟨fun b input index => do
    let n ← (Space.dim b.inner).toUsize
    checkIndex index n do
      let r ← Basis.project b.inner input
      r.mapP fun φ => do
        let z : K := Scalar.ofNat φ.nActive
        let o ← φ.uget index
        let a ← unwrap o
        .ok (a /. z)⟩

/-- normalisation.rs:80-104. -/
instance [Basis B I K] : Basis (L1Normaliser B) I K :=
  ⟨fun b input => do
    let r ← Basis.project b.inner input
    r.mapP fun φ => .ok (divideBy φ (l1Norm φ))⟩

/-- normalisation.rs:106-124. -/
instance [Basis B I K] : EnumerableBasis (L1Normaliser B) I K :=
  ⟨fun b input index => do
    let n ← (Space.dim b.inner).toUsize
    checkIndex index n do
      let r ← Basis.project b.inner input
      r.mapP fun φ => ithOver φ (l1Norm φ) index⟩

/-- normalisation.rs:149-173. -/
instance [Basis B I K] : Basis (L2Normaliser B) I K :=
  ⟨fun b input => do
    let r ← Basis.project b.inner input
    r.mapP fun φ => .ok (divideBy φ (l2Norm φ))⟩

/-- normalisation.rs:175-193. -/
instance [Basis B I K] : EnumerableBasis (L2Normaliser B) I K :=
  ⟨fun b input index => do
    let n ← (Space.dim b.inner).toUsize
    checkIndex index n do
      let r ← Basis.project b.inner input
      r.mapP fun φ => ithOver φ (l2Norm φ) index⟩

end Normalise

section Linf
variable {B I K : Type} [Space B] [ScalarInf K]

/-- The L∞ norm, folded from `NEG_INFINITY` — normalisation.rs:224, 229-231. -/
def linfNorm (φ : Features K) : K :=
  φ.values.foldl (fun acc x => Scalar.max acc (Scalar.abs x)) ScalarInf.negInf

/-- normalisation.rs:218-244. -/
instance [Basis B I K] : Basis (LinfNormaliser B) I K :=
  ⟨fun b input => do
    let r ← Basis.project b.inner input
    r.mapP fun φ => .ok (divideBy φ (linfNorm φ))⟩

/-- normalisation.rs:246-266. -/
instance [Basis B I K] : EnumerableBasis (LinfNormaliser B) I K :=
  ⟨fun b input index => do
    let n ← (Space.dim b.inner).toUsize
    checkIndex index n do
      let r ← Basis.project b.inner input
      r.mapP fun φ => ithOver φ (linfNorm φ) index⟩

end Linf

end Lfa

import Verif.Model.Basis

/-!
# Polynomial, Chebyshev and Fourier bases

`src/basis/mod.rs` (`rescale!`, `compute_coefficients`, `get_bounds`), `polynomial/mod.rs`,
`polynomial/cpfk.rs`, `fourier.rs`.  Input collections are lists.
-/

namespace Lfa

/-! ## `src/basis/mod.rs` helpers -/

/-- All ways to pick one element per list, last position varying fastest. -/
def cartesian {α : Type} : List (List α) → List (List α)
  | [] => [[]]
  | xs :: rest => xs.flatMap fun x => (cartesian rest).map (x :: ·)

/-- `Itertools::multi_cartesian_product` (itertools 0.10): the product of *no* iterators is empty. -/
def multiCartesianProduct {α : Type} (xss : List (List α)) : List (List α) :=
  if xss.isEmpty then [] else cartesian xss

/-- Lexicographic `<=` of `Vec<u8>` (`partial_cmp`, basis/mod.rs:147). -/
def lexLe : List Nat → List Nat → Bool
  | [], _ => true
  | _ :: _, [] => false
  | a :: as, b :: bs => if a < b then true else if b < a then false else lexLe as bs

/-- Insertion into a sorted list after all elements `<=` it (one step of a stable sort). -/
def lexInsert (a : List Nat) : List (List Nat) → List (List Nat)
  | [] => [a]
  | b :: bs => if lexLe a b then a :: b :: bs else b :: lexInsert a bs

/-- `sorted_by(|a, b| a.partial_cmp(b).unwrap())` — basis/mod.rs:147 (any stable sort). -/
def lexSort : List (List Nat) → List (List Nat)
  | [] => []
  | a :: as => lexInsert a (lexSort as)

/-- `Itertools::dedup`: drop consecutive duplicates — basis/mod.rs:148. -/
def dedupAdj : List (List Nat) → List (List Nat)
  | [] => []
  | [a] => [a]
  | a :: b :: rest => if a = b then dedupAdj (b :: rest) else a :: dedupAdj (b :: rest)

/-- `compute_coefficients(order, dim)` — basis/mod.rs:142-149. -/
def computeCoefficients (order dim : Nat) : List (List Nat) :=
  dedupAdj (lexSort
    ((multiCartesianProduct (List.replicate dim (List.range (order + 1)))).drop 1))

section Rescale
variable {K : Type} [Scalar K]

/-- `rescale!(x into limits)` — basis/mod.rs:9-17. -/
def rescale (xs : List K) (limits : List (K × K)) : List K :=
  (xs.zip limits).map fun (v, l) => (v -. l.1) /. (l.2 -. l.1)

end Rescale

/-- `spaces::real::Interval`, as its two optional bounds. -/
structure Interval (K : Type) where
  inf : Option K
  sup : Option K

/-- `get_bounds` — basis/mod.rs:151-158 (the interval's `Display` text is left out of the panic
message). -/
def getBounds {K : Type} (d : Interval K) : P (K × K) :=
  match d.inf, d.sup with
  | some lb, some ub => .ok (lb, ub)
  | some _, none => .error (.explicit "missing an upper bound (sup)")
  | none, some _ => .error (.explicit "missing a lower bound (inf)")
  | none, none => .error (.explicit "must be bounded")

/-! ## `Polynomial` — polynomial/mod.rs:44-118 -/

/-- `Polynomial` — polynomial/mod.rs:44-47. -/
structure Polynomial where
  order : Nat
  exponents : List (List Nat)

namespace Polynomial

/-- `Polynomial::new` — polynomial/mod.rs:50-54. -/
def new (dim order : Nat) : Polynomial := ⟨order, computeCoefficients order dim⟩

/-- `Polynomial::with_zeroth` — polynomial/mod.rs:56-59 (`self.exponents[0]` panics when empty). -/
def withZeroth (p : Polynomial) : P Polynomial := do
  let e₀ ← idx p.exponents 0
  .ok { p with exponents := p.exponents ++ [List.replicate e₀.length 0] }

/-- `Polynomial::compute_feature` — polynomial/mod.rs:61-69. `Iterator::product` folds from 1. -/
def computeFeature {K : Type} [Scalar K] (it : List (K × Nat)) : K :=
  (it.map fun (v, e) => Scalar.powi v e).foldl (· *. ·) Scalar.one

end Polynomial

section
variable {K : Type} [Scalar K]

/-- polynomial/mod.rs:72-82. -/
instance : Space Polynomial := ⟨fun p => .finite p.exponents.length⟩

/-- polynomial/mod.rs:84-97. -/
instance : Basis Polynomial (List K) K :=
  ⟨fun p input => .ok (.ok (.mkDense (p.exponents.map fun exps =>
    Polynomial.computeFeature (input.zip exps))))⟩

/-- polynomial/mod.rs:99-116. -/
instance : EnumerableBasis Polynomial (List K) K :=
  ⟨fun p input index =>
    match p.exponents[index]? with
    | some exps => .ok (.ok (Polynomial.computeFeature (input.zip exps)))
    | none => .ok (.error (Error.indexError index p.exponents.length))⟩

end

/-! ## `polynomial/cpfk.rs` -/

namespace Cpfk
variable {K : Type} [Scalar K]
open Scalar

/-- cpfk.rs:3 -/
def t_0 (_x : K) : K := ofNat 1
/-- cpfk.rs:5 -/
def t_1 (x : K) : K := x
/-- cpfk.rs:7 -/
def t_2 (x : K) : K := ofNat 2 *. x *. x -. ofNat 1
/-- cpfk.rs:9 -/
def t_3 (x : K) : K := ofNat 4 *. x *. x *. x -. ofNat 3 *. x
/-- cpfk.rs:11 -/
def t_4 (x : K) : K := ofNat 8 *. x *. x *. x *. x -. ofNat 8 *. x *. x +. ofNat 1
/-- cpfk.rs:13 -/
def t_5 (x : K) : K := ofNat 16 *. powi x 5 -. ofNat 20 *. powi x 3 +. ofNat 5 *. x
/-- cpfk.rs:15 -/
def t_6 (x : K) : K := ofNat 32 *. powi x 6 -. ofNat 48 *. powi x 4 +. ofNat 18 *. powi x 2 -. ofNat 1
/-- cpfk.rs:17-19 -/
def t_7 (x : K) : K :=
  ofNat 64 *. powi x 7 -. ofNat 112 *. powi x 5 +. ofNat 56 *. powi x 3 -. ofNat 7 *. x
/-- cpfk.rs:21-23 -/
def t_8 (x : K) : K :=
  ofNat 128 *. powi x 8 -. ofNat 256 *. powi x 6 +. ofNat 160 *. powi x 4 -. ofNat 32 *. powi x 2
    +. ofNat 1
/-- cpfk.rs:25-27 -/
def t_9 (x : K) : K :=
  ofNat 256 *. powi x 9 -. ofNat 576 *. powi x 7 +. ofNat 432 *. powi x 5 -. ofNat 120 *. powi x 3
    +. ofNat 9 *. x
/-- cpfk.rs:29-33 -/
def t_10 (x : K) : K :=
  ofNat 512 *. powi x 10 -. ofNat 1280 *. powi x 8 +. ofNat 1120 *. powi x 6
    -. ofNat 400 *. powi x 4 +. ofNat 50 *. powi x 2 -. ofNat 1
/-- cpfk.rs:35-39 -/
def t_11 (x : K) : K :=
  ofNat 1024 *. powi x 11 -. ofNat 2816 *. powi x 9 +. ofNat 2816 *. powi x 7
    -. ofNat 1232 *. powi x 5 +. ofNat 220 *. powi x 3 -. ofNat 11 *. x

end Cpfk

/-! ## `Chebyshev` — polynomial/mod.rs:120-240 -/

/-- `Chebyshev` — polynomial/mod.rs:123-129; function pointers become functions. -/
structure Chebyshev (K : Type) where
  order : Nat
  limits : List (K × K)
  polynomials : List (List (K → K))

namespace Chebyshev
variable {K : Type} [Scalar K]

/-- The message of polynomial/mod.rs:134, 180. -/
def orderPanic : Panic := .explicit "Chebyshev only supports orders up to 11."

/-- The `match *i { .. }` of `make_polynomials` — polynomial/mod.rs:167-181. -/
def polyOf : Nat → P (K → K)
  | 0 => .ok Cpfk.t_0
  | 1 => .ok Cpfk.t_1
  | 2 => .ok Cpfk.t_2
  | 3 => .ok Cpfk.t_3
  | 4 => .ok Cpfk.t_4
  | 5 => .ok Cpfk.t_5
  | 6 => .ok Cpfk.t_6
  | 7 => .ok Cpfk.t_7
  | 8 => .ok Cpfk.t_8
  | 9 => .ok Cpfk.t_9
  | 10 => .ok Cpfk.t_10
  | 11 => .ok Cpfk.t_11
  | _ => .error orderPanic

/-- `Chebyshev::make_polynomials` — polynomial/mod.rs:161-185. -/
def makePolynomials (order dim : Nat) : P (List (List (K → K))) :=
  (computeCoefficients order dim).mapM fun vals => vals.mapM polyOf

/-- `Chebyshev::new` — polynomial/mod.rs:132-144. -/
def new (order : Nat) (limits : List (K × K)) : P (Chebyshev K) :=
  if order > 11 then .error orderPanic
  else do
    let polynomials ← makePolynomials order limits.length
    .ok { order, limits, polynomials }

/-- `Chebyshev::from_space` — polynomial/mod.rs:146-154. -/
def fromSpace (order : Nat) (space : List (Interval K)) : P (Chebyshev K) := do
  let limits ← space.mapM fun d => do
    let lb ← unwrap d.inf
    let ub ← unwrap d.sup
    .ok (lb, ub)
  new order limits

/-- `Chebyshev::with_zeroth` — polynomial/mod.rs:156-159. -/
def withZeroth (c : Chebyshev K) : Chebyshev K :=
  { c with polynomials := c.polynomials ++ [List.replicate c.limits.length (fun _ => Scalar.one)] }

/-- `Chebyshev::compute_feature` — polynomial/mod.rs:187-192. -/
def computeFeature (it : List (K × (K → K))) : K :=
  (it.map fun (v, f) => f v).foldl (· *. ·) Scalar.one

/-- `rescale!(input into self.limits).map(|v| 2.0 * v - 1.0)` — polynomial/mod.rs:212-214, 232. -/
def scaledState (c : Chebyshev K) (input : List K) : List K :=
  (rescale input c.limits).map fun v => Scalar.ofNat 2 *. v -. Scalar.ofNat 1

end Chebyshev

section
variable {K : Type} [Scalar K]

/-- polynomial/mod.rs:195-205. -/
instance : Space (Chebyshev K) := ⟨fun c => .finite c.polynomials.length⟩

/-- polynomial/mod.rs:207-222. -/
instance : Basis (Chebyshev K) (List K) K :=
  ⟨fun c input =>
    let ss := c.scaledState input
    .ok (.ok (.mkDense (c.polynomials.map fun ps => Chebyshev.computeFeature (ss.zip ps))))⟩

/-- polynomial/mod.rs:224-238. -/
instance : EnumerableBasis (Chebyshev K) (List K) K :=
  ⟨fun c input index =>
    match c.polynomials[index]? with
    | some ps => .ok (.ok (Chebyshev.computeFeature ((c.scaledState input).zip ps)))
    | none => .ok (.error (Error.indexError index c.polynomials.length))⟩

end

/-! ### Hand-written `Deserialize for Chebyshev` — polynomial/mod.rs:242-322 -/

namespace Chebyshev
variable {K : Type} [Scalar K]

/-- `de::Error` values produced by the visitor. -/
inductive DeError where
  | invalidLength (n : Nat)
  | duplicateField (name : String)
  | missingField (name : String)
  | invalidType
  deriving DecidableEq, Repr

/-- A serialised field value. -/
inductive SerValue (K : Type) where
  | order (n : Nat)
  | limits (l : List (K × K))

/-- The field identifiers — polynomial/mod.rs:261-264. -/
inductive Field where
  | order
  | limits
  deriving DecidableEq, Repr

/-- Decode a value as `u8` / as `Vec<(f64, f64)>`. -/
def SerValue.asOrder : SerValue K → Except DeError Nat
  | .order n => .ok n
  | .limits _ => .error .invalidType
@[inherit_doc SerValue.asOrder]
def SerValue.asLimits : SerValue K → Except DeError (List (K × K))
  | .limits l => .ok l
  | .order _ => .error .invalidType

/-- The derived `Serialize` (polynomial/mod.rs:122-128), in map form: `polynomials` is skipped. -/
def serializeMap (c : Chebyshev K) : List (Field × SerValue K) :=
  [(.order, .order c.order), (.limits, .limits c.limits)]

/-- The derived `Serialize`, in sequence form. -/
def serializeSeq (c : Chebyshev K) : List (SerValue K) := [.order c.order, .limits c.limits]

/-- `visit_seq` — polynomial/mod.rs:275-287. -/
def visitSeq (seq : List (SerValue K)) : P (Except DeError (Chebyshev K)) :=
  match seq with
  | [] => .ok (.error (.invalidLength 0))
  | v₀ :: rest =>
    match v₀.asOrder with
    | .error e => .ok (.error e)
    | .ok order =>
      match rest with
      | [] => .ok (.error (.invalidLength 1))
      | v₁ :: _ =>
        match v₁.asLimits with
        | .error e => .ok (.error e)
        | .ok limits => (new order limits).map .ok

/-- The `while let Some(key)` loop of `visit_map` — polynomial/mod.rs:293-310. -/
def visitMapLoop (map : List (Field × SerValue K)) (order : Option Nat)
    (limits : Option (List (K × K))) : Except DeError (Option Nat × Option (List (K × K))) :=
  match map with
  | [] => .ok (order, limits)
  | (.order, v) :: map =>
    if order.isSome then .error (.duplicateField "order")
    else match v.asOrder with
      | .error e => .error e
      | .ok n => visitMapLoop map (some n) limits
  | (.limits, v) :: map =>
    if limits.isSome then .error (.duplicateField "limits")
    else match v.asLimits with
      | .error e => .error e
      | .ok l => visitMapLoop map order (some l)

/-- `visit_map` — polynomial/mod.rs:289-316. -/
def visitMap (map : List (Field × SerValue K)) : P (Except DeError (Chebyshev K)) :=
  match visitMapLoop map none none with
  | .error e => .ok (.error e)
  | .ok (none, _) => .ok (.error (.missingField "order"))
  | .ok (some _, none) => .ok (.error (.missingField "limits"))
  | .ok (some order, some limits) => (new order limits).map .ok

end Chebyshev

/-! ## `Fourier` — fourier.rs -/

/-- `Fourier` — fourier.rs:18-22. -/
structure Fourier (K : Type) where
  order : Nat
  limits : List (K × K)
  coefficients : List (List K)

namespace Fourier
variable {K : Type} [Scalar K]

/-- `Fourier::new` — fourier.rs:25-35. -/
def new (order : Nat) (limits : List (K × K)) : Fourier K :=
  { order, limits
    coefficients := (computeCoefficients order limits.length).map fun cfs =>
      cfs.map fun c => Scalar.ofNat c }

/-- `Fourier::from_space` — fourier.rs:37-39. -/
def fromSpace (order : Nat) (space : List (Interval K)) : P (Fourier K) := do
  let limits ← space.mapM getBounds
  .ok (new order limits)

/-- `Fourier::compute_feature` — fourier.rs:41-45. -/
def computeFeature (it : List (K × K)) : K :=
  Scalar.cos (Scalar.pi *. it.foldl (fun acc vc => acc +. vc.2 *. vc.1) Scalar.zero)

end Fourier

section
variable {K : Type} [Scalar K]

/-- fourier.rs:48-54. -/
instance : Space (Fourier K) := ⟨fun f => .finite f.coefficients.length⟩

/-- fourier.rs:56-66. -/
instance : Basis (Fourier K) (List K) K :=
  ⟨fun f input =>
    let ss := rescale input f.limits
    .ok (.ok (.mkDense (f.coefficients.map fun cfs => Fourier.computeFeature (ss.zip cfs))))⟩

/-- fourier.rs:68-79. -/
instance : EnumerableBasis (Fourier K) (List K) K :=
  ⟨fun f input index =>
    match f.coefficients[index]? with
    | some cfs => .ok (.ok (Fourier.computeFeature ((rescale input f.limits).zip cfs)))
    | none => .ok (.error (Error.indexError index f.coefficients.length))⟩

end

end Lfa

import Verif.Model.Scalar

/-!
# Errors, panics, 1-d arrays and hash maps
-/

namespace Lfa

/-- The ways a modelled function can panic. -/
inductive Panic where
  /-- `array[i]` / `vec[i]` with `i` out of range -/
  | indexOutOfBounds
  /-- `ndarray` shape mismatch (`zip_mut_with`, `dot`) -/
  | shapeMismatch
  /-- `Option::unwrap` on `None` / `Result::unwrap` on `Err` -/
  | unwrapFailed
  /-- `hash_map[&k]` with a missing key -/
  | missingKey
  /-- `% 0` -/
  | remByZero
  /-- integer overflow (debug profile) -/
  | overflow
  /-- `unimplemented!()` -/
  | unimplemented
  /-- `usize::from(Dim::Infinite)` -/
  | infiniteDim
  /-- an explicit `panic!(..)` -/
  | explicit (msg : String)
  deriving DecidableEq, Repr

/-- A computation that may panic. -/
abbrev P (α : Type) := Except Panic α

/-- `ErrorKind` — src/error.rs:13-17. -/
inductive ErrorKind where
  | basis
  | evaluation
  | optimisation
  deriving DecidableEq, Repr

/-- `Error` — src/error.rs:25-28. -/
structure Error where
  kind : ErrorKind
  message : String
  deriving DecidableEq, Repr

/-- `Error::index_error` — src/error.rs:30-40. -/
def Error.indexError (index dim : Nat) : Error :=
  { kind := .basis
    message := "Index (" ++ toString index ++ ") exceeded dimensionality (" ++ toString dim ++
      ") of the projection." }

/-- `lfa::Result<T>` — src/error.rs:5. -/
abbrev Result (α : Type) := Except Error α

/-- `check_index!(index < dim => code)` — src/error.rs:50-58. -/
def checkIndex {α : Type} (index dim : Nat) (code : P (Result α)) : P (Result α) :=
  if index < dim then code else .ok (.error (Error.indexError index dim))

/-- `Result::map` with a closure that may panic. -/
def Result.mapP {α β : Type} (r : Result α) (f : α → P β) : P (Result β) :=
  match r with
  | .ok a => (f a).map .ok
  | .error e => .ok (.error e)

/-- `Result::and_then` with a closure that may panic. -/
def Result.andThenP {α β : Type} (r : Result α) (f : α → P (Result β)) : P (Result β) :=
  match r with
  | .ok a => f a
  | .error e => .ok (.error e)

/-- `Result::and` (std): `Ok.and(r) = r`, `Err(e).and(_) = Err(e)`; used at src/lib.rs:278, 316. -/
def Result.and (a b : Result Unit) : Result Unit :=
  match a with
  | .ok _ => b
  | .error e => .error e

/-- `Option::unwrap` (std). -/
def unwrap {α : Type} : Option α → P α
  | some a => .ok a
  | none => .error .unwrapFailed

/-- `Result::unwrap` (std), as used by `VectorLFA::iter`, src/lib.rs:247. -/
def Result.unwrap {α : Type} : Result α → P α
  | .ok a => .ok a
  | .error _ => .error .unwrapFailed

/-! ## 1-d arrays (`ndarray::Array1<f64>`, `Vec<f64>`) in standard layout, as lists -/

section Arrays
variable {α β : Type}

/-- `array[i]` (read): panics out of range. -/
def idx (xs : List α) (i : Nat) : P α :=
  match xs[i]? with
  | some a => .ok a
  | none => .error .indexOutOfBounds

/-- `array[i] = v`: panics out of range. -/
def setIdx (xs : List α) (i : Nat) (v : α) : P (List α) :=
  if i < xs.length then .ok (xs.set i v) else .error .indexOutOfBounds

/-- `array[i] = f(array[i])`, e.g. `array[i] += a`. -/
def modIdx (xs : List α) (i : Nat) (f : α → α) : P (List α) := do
  let x ← idx xs i
  setIdx xs i (f x)

/-- `ndarray` broadcasting of a 1-d array to length `n`: equal lengths, or a length-1 array is
repeated; anything else panics (`broadcast_unwrap`). -/
def broadcast (ys : List α) (n : Nat) : P (List α) :=
  if ys.length = n then .ok ys
  else match ys with
    | [y] => .ok (List.replicate n y)
    | _ => .error .shapeMismatch

/-- `ArrayBase::zip_mut_with(&mut xs, &ys, |x, y| *x = f(*x, *y))`. -/
def zipMutWith (xs : List α) (ys : List β) (f : α → β → α) : P (List α) := do
  let ys ← broadcast ys xs.length
  .ok (List.zipWith f xs ys)

end Arrays

/-- `ArrayBase::dot` for two 1-d arrays: asserts equal lengths. -/
def arrayDot {K : Type} [Scalar K] (xs ys : List K) : P K :=
  if xs.length = ys.length then .ok (Scalar.dot xs ys) else .error .shapeMismatch

/-! ## `std::collections::HashMap<usize, V>`

A map is the list of its entries in iteration order.  Rust leaves that order unspecified; theorem
statements quantify over it. Uniqueness of keys is the separate predicate `HMap.Nodup`. -/

/-- `HashMap<usize, V>`, as its entries in iteration order. -/
abbrev HMap (V : Type) := List (Nat × V)

namespace HMap
variable {V W : Type}

/-- Keys are unique — the invariant of the data type. -/
def NodupKeys (m : HMap V) : Prop := (m.map Prod.fst).Nodup

/-- `HashMap::get`. -/
def get? (m : HMap V) (k : Nat) : Option V :=
  match m with
  | [] => none
  | (k', v) :: m => if k = k' then some v else get? m k

/-- `HashMap::contains_key`. -/
def contains (m : HMap V) (k : Nat) : Bool := (get? m k).isSome

/-- `HashMap::insert`: overwrite the value of an existing key, otherwise add an entry. -/
def insert (m : HMap V) (k : Nat) (v : V) : HMap V :=
  match m with
  | [] => [(k, v)]
  | (k', v') :: m => if k = k' then (k', v) :: m else (k', v') :: insert m k v

/-- `HashMap::remove`. -/
def remove (m : HMap V) (k : Nat) : HMap V := m.filter (fun e => e.1 ≠ k)

/-- `HashMap::from_iter` / `collect`: insert one by one, so the last value of a key wins. -/
def collect (es : List (Nat × V)) : HMap V := es.foldl (fun m e => insert m e.1 e.2) []

/-- `map.entry(k).or_insert_with(|| v)`. -/
def orInsert (m : HMap V) (k : Nat) (v : V) : HMap V :=
  if contains m k then m else insert m k v

/-- `HashMap == HashMap` (std): same length and every entry of the first is equal in the second. -/
def beqWith (eq : V → V → Bool) (m₁ m₂ : HMap V) : Bool :=
  m₁.length == m₂.length &&
    m₁.all (fun e => match get? m₂ e.1 with
      | some v => eq e.2 v
      | none => false)

end HMap

/-! ## `spaces::Dim` -/

/-- `spaces::Dim` — finite or infinite dimension. -/
inductive Dim where
  | finite (n : Nat)
  | infinite
  deriving DecidableEq, Repr

/-- `Dim + Dim` (spaces). -/
def Dim.add : Dim → Dim → Dim
  | .finite a, .finite b => .finite (a + b)
  | _, _ => .infinite

/-- `Into<usize> for Dim` (spaces): panics on the infinite dimension. -/
def Dim.toUsize : Dim → P Nat
  | .finite n => .ok n
  | .infinite => .error .infiniteDim

end Lfa

import Verif.Model.Poly

/-!
# `src/utils.rs`

Comparison helpers used by the crate's own tests.
-/

namespace Lfa
variable {K : Type} [Scalar K]

/-- `f64::is_nan`: the value differs from itself. -/
def isNan (a : K) : Bool := !Scalar.beq a a

/-- `eq_with_nan_eq` — utils.rs:3-5. -/
def eqWithNanEq (a b tol : K) : Bool :=
  (isNan a && isNan b) || Scalar.lt (Scalar.abs (a -. b)) tol

/-- `compare_floats` — utils.rs:7-17. -/
def compareFloats (a b : List K) (tol : K) : Bool :=
  (a.zip b).all fun xy => Scalar.lt (Scalar.abs (xy.1 -. xy.2)) tol

end Lfa

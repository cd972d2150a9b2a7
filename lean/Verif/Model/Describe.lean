import Verif.Model.Poly
import Verif.Model.Kernels
import Verif.Model.Grid

/-!
# What errors and bases say about themselves: `Display`, `description`, `Space::card`
-/

namespace Lfa

/-- `to_string()` of an error, i.e. its `Display` — src/error.rs:43-45. `writeln!` appends a line feed. -/
def Error.display (e : Error) : String := e.message ++ "\n"

/-- `StdError::description` — src/error.rs:47-49. -/
def Error.description (e : Error) : String := e.message

/-- `spaces::Card` (spaces 5.0). -/
inductive Card where
  | finite (n : Nat)
  | infinite
  deriving DecidableEq, Repr

/-- `Mul for Card` (spaces 5.0). -/
def Card.mul : Card → Card → Card
  | .finite a, .finite b => .finite (a * b)
  | _, _ => .infinite

/-- `Space::card`, the part of `spaces::Space` that `Model/Basis.lean` leaves out. -/
class HasCard (B : Type) where
  card : B → Card

variable {K : Type}

/-- constant.rs:23. -/
instance : HasCard (Bias K) := ⟨fun _ => .infinite⟩
/-- constant.rs:59. -/
instance : HasCard (FixedDense K) := ⟨fun _ => .infinite⟩
/-- constant.rs:86. -/
instance : HasCard (FixedSparse K) := ⟨fun _ => .infinite⟩
/-- closure.rs:30. -/
instance {I : Type} : HasCard (Closure I K) := ⟨fun _ => .infinite⟩
/-- polynomial/mod.rs:79-81. -/
instance : HasCard Polynomial := ⟨fun _ => .infinite⟩
/-- polynomial/mod.rs:202-204. -/
instance : HasCard (Chebyshev K) := ⟨fun _ => .infinite⟩
/-- fourier.rs:53. -/
instance : HasCard (Fourier K) := ⟨fun _ => .infinite⟩
/-- kernelised.rs:106. -/
instance {κ : Type} : HasCard (KernelBasis κ K) := ⟨fun _ => .infinite⟩
/-- tile_coding.rs:67. -/
instance {H : Type} : HasCard (TileCoding H) := ⟨fun _ => .infinite⟩
/-- uniform_grid.rs:44. -/
instance : HasCard (UniformGrid K) := ⟨fun _ => .infinite⟩
/-- stack.rs:26. -/
instance {B₁ B₂ : Type} [HasCard B₁] [HasCard B₂] : HasCard (Stack B₁ B₂) :=
  ⟨fun s => (HasCard.card s.b₁).mul (HasCard.card s.b₂)⟩
/-- normalisation.rs:24. -/
instance {B : Type} [HasCard B] : HasCard (L0Normaliser B) := ⟨fun b => HasCard.card b.inner⟩
/-- normalisation.rs:77. -/
instance {B : Type} [HasCard B] : HasCard (L1Normaliser B) := ⟨fun b => HasCard.card b.inner⟩
/-- normalisation.rs:146. -/
instance {B : Type} [HasCard B] : HasCard (L2Normaliser B) := ⟨fun b => HasCard.card b.inner⟩
/-- normalisation.rs:215. -/
instance {B : Type} [HasCard B] : HasCard (LinfNormaliser B) := ⟨fun b => HasCard.card b.inner⟩

end Lfa

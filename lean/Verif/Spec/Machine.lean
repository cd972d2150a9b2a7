import Verif.Model.Machine
import Verif.Spec.Features
import Verif.Spec.Optim

/-! # Specification vocabulary for rounded arithmetic -/

namespace Lfa.Spec

open Lfa

variable {M : Machine}

/-- The real value of a number of the machine is `r`. -/
def Is (a : FP M) (r : ℝ) : Prop := a.1 = .fin r

/-- Neither NaN nor infinite. -/
def Finite (a : FP M) : Prop := ∃ r, Is a r

/-- A finite number in `[-1, 1]`. -/
def InUnit (a : FP M) : Prop := ∃ r, Is a r ∧ |r| ≤ 1

/-- IEEE `0 <= a`: not NaN and not negative. -/
def NonNeg (a : FP M) : Prop := XReal.fin 0 ≤ a.1

/-- IEEE `a <= 0`. -/
def NonPos (a : FP M) : Prop := a.1 ≤ XReal.fin 0

/-- IEEE `a <= b`. -/
def Le (a b : FP M) : Prop := a.1 ≤ b.1

/-- Every activation is finite. -/
def AllFinite (φ : Features (FP M)) : Prop := ∀ i a, Stored φ i a → Finite a

/-- Some activation is finite and not zero. -/
def SomeNonZero (φ : Features (FP M)) : Prop := ∃ i a r, Stored φ i a ∧ Is a r ∧ r ≠ 0

/-- The machine represents the integers up to `n` exactly. -/
def ExactTo (M : Machine) (n : Nat) : Prop := ∀ k ≤ n, M.rnd k = .fin k

/-- `x` lies within the limits `lo` and `hi`, which are finite and whose difference neither overflows
nor underflows to zero. -/
def Within (x lo hi : FP M) : Prop :=
  Finite lo ∧ Finite hi ∧ Le lo x ∧ Le x hi ∧ ∃ d, Is (hi -. lo) d ∧ d ≠ 0

/-- A call that presents finite gradients (activation times scale). -/
def FiniteCall : Event (FP M) → Prop
  | .step φ => AllFinite φ
  | .stepScaled φ s => Finite s ∧ ∀ i a, Stored φ i a → Finite (a *. s)
  | .reset => True

/-- A finite number of magnitude at most `c`. -/
def Bounded (c : ℝ) (a : FP M) : Prop := ∃ r, Is a r ∧ |r| ≤ c

/-- A finite number `r` with `0 ≤ r < 1`: a decay rate. -/
def Decay (a : FP M) : Prop := ∃ r, Is a r ∧ 0 ≤ r ∧ r < 1

/-- A call whose scale is finite and whose activations and gradients (activation times scale) have
magnitude at most `2 ^ 500`. -/
def BoundedCall : Event (FP M) → Prop
  | .step φ => ∀ i a, Stored φ i a → Bounded (2 ^ 500) a
  | .stepScaled φ s => Finite s ∧ ∀ i a, Stored φ i a →
      Bounded (2 ^ 500) a ∧ Bounded (2 ^ 500) (a *. s)
  | .reset => True

/-- The real value of a number, 0 for NaN and infinities. -/
noncomputable def real (a : FP M) : ℝ :=
  match a.1 with
  | .fin r => r
  | _ => 0

/-- The number of stored activations. -/
def storedCount : Features (FP M) → Nat
  | .dense da => da.length
  | .sparse sa => sa.activations.length

/-- The inner product of features and weights in exact arithmetic. -/
noncomputable def exactDot (φ : Features (FP M)) (w : List (FP M)) : ℝ :=
  ∑ i ∈ Finset.range (dim φ), real (value φ i) * real (entry w i)

/-- The inner product of their magnitudes. -/
noncomputable def absDot (φ : Features (FP M)) (w : List (FP M)) : ℝ :=
  ∑ i ∈ Finset.range (dim φ), |real (value φ i) * real (entry w i)|

/-- The unit roundoff of `f64`. -/
noncomputable def roundoff : ℝ := 2 ^ (-53 : ℤ)

/-- Half of the least positive `f64`. -/
noncomputable def tiny : ℝ := 2 ^ (-1075 : ℤ)

/-- The activation of feature `i` that a call presents. -/
noncomputable def presented (i : Nat) : Event (FP M) → ℝ
  | .step φ => real (value φ i)
  | .stepScaled φ _ => real (value φ i)
  | .reset => 0

/-- What gradient ascent with rate `lr` adds to weight `i` in exact arithmetic. -/
noncomputable def increment (lr : ℝ) (i : Nat) : Event (FP M) → ℝ
  | .step φ => lr * real (value φ i)
  | .stepScaled φ s => lr * real s * real (value φ i)
  | .reset => 0

end Lfa.Spec

import Verif.Spec.Training
import Verif.Spec.Basis

/-!
# Specification of approximators: sequences of calls, iteration, failures
-/

namespace Lfa.Spec

open Lfa

variable {B O I K : Type} [Scalar K] [Space B] [Basis B I K] [Optimiser O K]

/-- The basis returns features for `x`. -/
def Accepts (b : B) (x : I) : Prop := ∃ φ, Basis.project (K := K) b x = .ok (.ok φ)

/-- A call on a scalar approximator. -/
inductive SCall (I K : Type)
  | evaluate (x : I)
  | update (x : I) (e : K)
  | updateWith (x : I) (f : Features K → K → K)

/-- The input of a call. -/
def SCall.input : SCall I K → I
  | .evaluate x => x
  | .update x _ => x
  | .updateWith x _ => x

/-- `SRun fa cs fa'`: the calls `cs`, one after the other, all return `Ok` and turn `fa` into
`fa'`. -/
inductive SRun : ScalarLFA B O K → List (SCall I K) → ScalarLFA B O K → Prop
  | nil (fa : ScalarLFA B O K) : SRun fa [] fa
  | evaluate {fa fa' : ScalarLFA B O K} {x : I} {v : K} {cs : List (SCall I K)}
      (h : fa.evaluate x = .ok (.ok v)) (t : SRun fa cs fa') : SRun fa (.evaluate x :: cs) fa'
  | update {fa fa₁ fa' : ScalarLFA B O K} {x : I} {e : K} {cs : List (SCall I K)}
      (h : fa.update x e = .ok (.ok (), fa₁)) (t : SRun fa₁ cs fa') : SRun fa (.update x e :: cs) fa'
  | updateWith {fa fa₁ fa' : ScalarLFA B O K} {x : I} {f : Features K → K → K} {cs : List (SCall I K)}
      (h : fa.updateWith x f = .ok (.ok (), fa₁)) (t : SRun fa₁ cs fa') :
      SRun fa (.updateWith x f :: cs) fa'

/-- A call on a vector approximator. -/
inductive VCall (I K : Type)
  | evaluate (x : I)
  | evaluateIndex (x : I) (j : Nat)
  | update (x : I) (es : List K)
  | updateIndex (x : I) (j : Nat) (e : K)
  | updateWith (x : I) (f : Features K → List K → List K)

/-- The input of a call. -/
def VCall.input : VCall I K → I
  | .evaluate x => x
  | .evaluateIndex x _ => x
  | .update x _ => x
  | .updateIndex x _ _ => x
  | .updateWith x _ => x

/-- The output index of a call, if it has one, is one of `n`. -/
def VCall.IndexOK (n : Nat) : VCall I K → Prop
  | .evaluateIndex _ j => j < n
  | .updateIndex _ j _ => j < n
  | _ => True

/-- `VRun fa cs fa'`: the calls `cs`, one after the other, all return `Ok` and turn `fa` into
`fa'`. -/
inductive VRun : VectorLFA B O K → List (VCall I K) → VectorLFA B O K → Prop
  | nil (fa : VectorLFA B O K) : VRun fa [] fa
  | evaluate {fa fa' : VectorLFA B O K} {x : I} {v : List K} {cs : List (VCall I K)}
      (h : fa.evaluate x = .ok (.ok v)) (t : VRun fa cs fa') : VRun fa (.evaluate x :: cs) fa'
  | evaluateIndex {fa fa' : VectorLFA B O K} {x : I} {j : Nat} {v : K} {cs : List (VCall I K)}
      (h : fa.evaluateIndex x j = .ok (.ok v)) (t : VRun fa cs fa') :
      VRun fa (.evaluateIndex x j :: cs) fa'
  | update {fa fa₁ fa' : VectorLFA B O K} {x : I} {es : List K} {cs : List (VCall I K)}
      (h : fa.update x es = .ok (.ok (), fa₁)) (t : VRun fa₁ cs fa') :
      VRun fa (.update x es :: cs) fa'
  | updateIndex {fa fa₁ fa' : VectorLFA B O K} {x : I} {j : Nat} {e : K} {cs : List (VCall I K)}
      (h : fa.updateIndex x j e = .ok (.ok (), fa₁)) (t : VRun fa₁ cs fa') :
      VRun fa (.updateIndex x j e :: cs) fa'
  | updateWith {fa fa₁ fa' : VectorLFA B O K} {x : I} {f : Features K → List K → List K}
      {cs : List (VCall I K)}
      (h : fa.updateWith x f = .ok (.ok (), fa₁)) (t : VRun fa₁ cs fa') :
      VRun fa (.updateWith x f :: cs) fa'

/-- `Yields it vs`: repeated `next` on `it` yields exactly the values `vs`, then `None` (and stays
there), and before each of the calls `len` and `size_hint` report the number of values left. -/
inductive Yields : OutputIter K → List K → Prop
  | done {it : OutputIter K} (h : it.next = .ok (none, it)) (hl : it.len = 0)
      (hs : it.sizeHint = (0, some 0)) : Yields it []
  | next {it it' : OutputIter K} {v : K} {vs : List K} (h : it.next = .ok (some v, it'))
      (hl : it.len = vs.length + 1) (hs : it.sizeHint = (vs.length + 1, some (vs.length + 1)))
      (t : Yields it' vs) : Yields it (v :: vs)

/-- `Steps b es cs o rs cs' o'`: the optimiser `o` steps the vectors `cs` one by one, the j-th with
error `es[j]`, its state carried along, with results `rs`, giving `cs'` and `o'`. One step per
error. -/
inductive Steps (b : Features K) : List K → List (List K) → O → List (Result Unit) →
    List (List K) → O → Prop
  | nil (o : O) : Steps b [] [] o [] [] o
  | cons {e : K} {es : List K} {c c' : List K} {cs cs' : List (List K)} {o o₁ o' : O}
      {r : Result Unit} {rs : List (Result Unit)}
      (h : Optimiser.stepScaled o c b e = .ok (r, o₁, c')) (t : Steps b es cs o₁ rs cs' o') :
      Steps b (e :: es) (c :: cs) o (r :: rs) (c' :: cs') o'

/-- The first failure among some results; `Ok` if there is none. -/
def firstFailure : List (Result Unit) → Result Unit
  | [] => .ok ()
  | .ok _ :: rs => firstFailure rs
  | .error e :: _ => .error e

/-- An optimiser that carries no state from step to step. -/
def Stateless (K O : Type) [Scalar K] [Optimiser O K] : Prop :=
  ∀ (o : O) (w : List K) φ s r o' w', Optimiser.stepScaled o w φ s = .ok (r, o', w') → o' = o

/-- The optimiser never changes a weight whose feature is inactive. -/
def LeavesInactive (K O : Type) [Scalar K] [Optimiser O K] [HasSize O] : Prop :=
  ∀ (n : Nat) (o : O) (w : List K) (φ : Features K) (s : K) (o' : O) (w' : List K) (i : Nat),
    w.length = n → HasSize.sized n o → Fits n φ → i < n → ¬ Active φ i →
    Optimiser.stepScaled o w φ s = .ok (.ok (), o', w') → entry w' i = entry w i

/-- The vector approximator with the single output column of a scalar approximator. -/
def oneOutput (fa : ScalarLFA B O K) : VectorLFA B O K := ⟨fa.basis, [fa.weights], fa.optimiser⟩

/-- Call `update_index(x, j, e)` for each pair `(j, e)` in turn, whatever the calls return. -/
def updateEach (x : I) : List (Nat × K) → VectorLFA B O K → P (List (Result Unit) × VectorLFA B O K)
  | [], fa => .ok ([], fa)
  | (j, e) :: ps, fa => do
    let (r, fa) ← fa.updateIndex x j e
    let (rs, fa) ← updateEach x ps fa
    .ok (r :: rs, fa)

end Lfa.Spec

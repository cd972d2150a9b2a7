import Verif.Model.Unwind
import Verif.Spec.Features
import Verif.Proofs.Features
import Verif.Proofs.Real

/-!
# C146: what a panicking update leaves behind

Full claim: an `update` that panics leaves the weights and the optimiser as they were. True of SGD, ISGD and Adagrad
with dense features (`C146_dense_partial`) and of the weights under Momentum and NAG (`C146_weights_kept`). False
otherwise, see the counterexamples.
-/

set_option linter.unusedSectionVars false

namespace Lfa

open Spec

section
variable {K : Type} [Scalar K]

/-- How a step ended, without the state after a panic. -/
def endOf {O : Type} (r : Option Panic × O × List K) : P (StepOut O K) :=
  match r with
  | (none, o, w) => .ok (.ok (), o, w)
  | (some p, _, _) => .error p

/-- The two models of an optimiser agree. -/
def SameStep (O : Type) [Optimiser O K] [Unwinds O K] : Prop :=
  ∀ (o : O) (w : List K) (φ : Features K) (s : K), Optimiser.stepScaled o w φ s = endOf (Unwinds.stepAfter o w φ s)

/-- How a loop ended, without the state after a panic. -/
def endLoop {S : Type} (r : Option Panic × S) : P S :=
  match r with
  | (none, s) => .ok s
  | (some p, _) => .error p

theorem scatter_end (g : K → K → K) (es : List (Nat × K)) (w : List K) :
    Features.scatterMod g es w = endLoop (scatterAfter g es w) := by
  induction es generalizing w with
  | nil => rfl
  | cons e es ih =>
    unfold Features.scatterMod at ih ⊢
    rw [List.foldlM_cons, scatterAfter]
    unfold modIdx idx setIdx
    rcases h : w[e.1]? with _ | x
    · rfl
    · have hl : e.1 < w.length := (List.getElem?_eq_some_iff.1 h).1
      simp only [bind, Except.bind, if_pos hl]
      exact ih _

theorem zip_end (xs ys : List K) (f : K → K → K) : zipMutWith xs ys f = endLoop (zipAfter xs ys f) := by
  unfold zipAfter
  cases zipMutWith xs ys f <;> rfl

theorem scaledAddto_end (φ : Features K) (alpha : K) (w : List K) :
    φ.scaledAddto alpha w = endLoop (φ.scaledAddtoAfter alpha w) := by
  cases φ with
  | dense da => exact zip_end (K := K) _ _ _
  | sparse sa => exact scatter_end (fun w a => w +. alpha *. a) _ _

theorem velocity_end (m : K) (v : List K) (φ : Features K) (s : K) :
    velocityUpdate m v φ s = endLoop (velocityAfter m v φ s) := by
  cases φ with
  | dense da => exact zip_end (K := K) _ _ _
  | sparse sa => exact scatter_end (fun x a => x +. a *. s) _ _

theorem adagrad_end (lr s : K) (m : HMap K) (is : List Nat) (accs w : List K) :
    is.foldlM (Adagrad.sparseBody lr s m) (accs, w) = endLoop (Adagrad.sparseAfter lr s m is accs w) := by
  induction is generalizing accs w with
  | nil => rfl
  | cons i is ih =>
    rw [List.foldlM_cons, Adagrad.sparseAfter, Adagrad.sparseBody]
    unfold modIdx idx setIdx
    rcases h : accs[i]? with _ | ss
    · rfl
    · have hl : i < accs.length := (List.getElem?_eq_some_iff.1 h).1
      rcases h' : w[i]? with _ | x
      · simp only [bind, Except.bind, if_pos hl]; rfl
      · have hl' : i < w.length := (List.getElem?_eq_some_iff.1 h').1
        simp only [bind, Except.bind, if_pos hl, if_pos hl']
        exact ih _ _

theorem adam_end (o : Adam K) (b : Bool) (s : K) (es : List (Nat × K)) (m1 m2 w : List K) :
    es.foldlM (o.body b s) (m1, m2, w) = endLoop (o.loopAfter b s es m1 m2 w) := by
  induction es generalizing m1 m2 w with
  | nil => rfl
  | cons e es ih =>
    rw [List.foldlM_cons, Adam.loopAfter, Adam.body]
    unfold modIdx idx setIdx
    rcases h1 : m1[e.1]? with _ | x1
    · rfl
    · rcases h2 : m2[e.1]? with _ | x2
      · rfl
      · have l1 : e.1 < m1.length := (List.getElem?_eq_some_iff.1 h1).1
        have l2 : e.1 < m2.length := (List.getElem?_eq_some_iff.1 h2).1
        rcases h3 : w[e.1]? with _ | x
        · simp only [bind, Except.bind, if_pos l1, if_pos l2]; rfl
        · have l3 : e.1 < w.length := (List.getElem?_eq_some_iff.1 h3).1
          simp only [bind, Except.bind, if_pos l1, if_pos l2, if_pos l3]
          exact ih _ _ _

theorem adamax_end (o : AdaMax K) (b : Bool) (s : K) (es : List (Nat × K)) (m1 m2 w : List K) :
    es.foldlM (o.body b s) (m1, m2, w) = endLoop (o.loopAfter b s es m1 m2 w) := by
  induction es generalizing m1 m2 w with
  | nil => rfl
  | cons e es ih =>
    rw [List.foldlM_cons, AdaMax.loopAfter, AdaMax.body]
    unfold modIdx idx setIdx
    rcases h1 : m1[e.1]? with _ | x1
    · rfl
    · rcases h2 : m2[e.1]? with _ | x2
      · rfl
      · have l1 : e.1 < m1.length := (List.getElem?_eq_some_iff.1 h1).1
        have l2 : e.1 < m2.length := (List.getElem?_eq_some_iff.1 h2).1
        rcases h3 : w[e.1]? with _ | x
        · simp only [bind, Except.bind, if_pos l1, if_pos l2]; rfl
        · have l3 : e.1 < w.length := (List.getElem?_eq_some_iff.1 h3).1
          simp only [bind, Except.bind, if_pos l1, if_pos l2, if_pos l3]
          exact ih _ _ _

/-- The state-keeping model ends every step as the model of the other properties does. -/
theorem C146_same_step : SameStep (K := K) (SGD K) ∧ SameStep (K := K) (ISGD K) ∧ SameStep (K := K) (SGDMomentum K) ∧
    SameStep (K := K) (NAG K) ∧ SameStep (K := K) (Adagrad K) ∧ SameStep (K := K) (Adam K) ∧
    SameStep (K := K) (AdaMax K) := by
  refine ⟨?_, ?_, ?_, ?_, ?_, ?_, ?_⟩
  · intro o w φ s
    show (φ.scaledAddto (o.lr *. s) w >>= _) = endOf (_, o, _)
    rw [scaledAddto_end]
    rcases φ.scaledAddtoAfter (o.lr *. s) w with ⟨_ | p, w'⟩ <;> rfl
  · intro o w φ s
    show (φ.scaledAddto (o.computeLr φ *. s) w >>= _) = endOf (_, o, _)
    rw [scaledAddto_end]
    rcases φ.scaledAddtoAfter (o.computeLr φ *. s) w with ⟨_ | p, w'⟩ <;> rfl
  · intro o w φ s
    simp only [Optimiser.stepScaled, Unwinds.stepAfter, scaledAdd]
    rw [velocity_end]
    rcases velocityAfter o.momentum o.velocity φ s with ⟨_ | p, v⟩
    · simp only [endLoop, bind, Except.bind, zip_end]
      rcases zipAfter w v (fun y x => y +. o.learningRate *. x) with ⟨_ | p, w'⟩ <;> rfl
    · rfl
  · intro o w φ s
    simp only [Optimiser.stepScaled, Unwinds.stepAfter, scaledAdd]
    rw [velocity_end]
    rcases velocityAfter o.momentum o.velocity φ s with ⟨_ | p, v⟩
    · simp only [endLoop, bind, Except.bind, zip_end]
      rcases zipAfter w v (fun y x => y +. o.learningRate *. x) with ⟨_ | p, w'⟩
      · simp only [scaledAddto_end]
        rcases φ.scaledAddtoAfter o.momentum w' with ⟨_ | p, w''⟩ <;> rfl
      · rfl
    · rfl
  · intro o w φ s
    simp only [Optimiser.stepScaled, Unwinds.stepAfter]
    cases φ with
    | dense da => rfl
    | sparse sa =>
      simp only [Adagrad.loop]
      rw [adagrad_end]
      rcases Adagrad.sparseAfter o.learningRate s sa.activations (List.range o.accumulator.length) o.accumulator w
        with ⟨_ | p, a, w'⟩ <;> rfl
  · intro o w φ s
    simp only [Optimiser.stepScaled, Unwinds.stepAfter]
    cases φ with
    | dense da =>
      simp only [Adam.loop]
      rw [adam_end]
      rcases Adam.loopAfter _ _ _ _ _ _ w with ⟨_ | p, a, b, w'⟩ <;> rfl
    | sparse sa =>
      simp only [Adam.loop]
      rw [adam_end]
      rcases Adam.loopAfter _ _ _ _ _ _ w with ⟨_ | p, a, b, w'⟩ <;> rfl
  · intro o w φ s
    simp only [Optimiser.stepScaled, Unwinds.stepAfter]
    cases φ with
    | dense da =>
      simp only [AdaMax.loop]
      rw [adamax_end]
      rcases AdaMax.loopAfter _ _ _ _ _ _ w with ⟨_ | p, a, b, w'⟩ <;> rfl
    | sparse sa =>
      simp only [AdaMax.loop]
      rw [adamax_end]
      rcases AdaMax.loopAfter _ _ _ _ _ _ w with ⟨_ | p, a, b, w'⟩ <;> rfl

/-- How a call ended, without the approximator after a panic. -/
def Left.ending {FA : Type} (r : Left FA) : P (Result Unit × FA) := r.1.map fun x => (x, r.2)

variable {B O I : Type} [Space B] [Basis B I K]

/-- And so do the calls. -/
theorem C146_same_call [Optimiser O K] [Unwinds O K] (hO : SameStep (K := K) O) (fa : ScalarLFA B O K)
    (fv : VectorLFA B O K) (x : I) (e : K) (es : List K) (f : Features K → K → K) :
    fa.update x e = (fa.updateAfter x e).ending ∧
    fa.updateWith x f = (fa.updateWithAfter x fun φ v => .ok (f φ v)).ending ∧
    fv.update x es = (fv.updateAfter x es).ending := by
  have hc : ∀ (b : Features K) (es : List K) (cs : List (List K)) (o : O),
      VectorLFA.stepColumns b es cs o (.ok ()) = (match VectorLFA.columnsAfter b es cs o with
        | (none, o, ws) => .ok (.ok (), o, ws)
        | (some p, _, _) => .error p) := by
    intro b es
    induction es with
    | nil => intro cs o; rfl
    | cons e es ih =>
      intro cs o
      cases cs with
      | nil => rfl
      | cons c cs =>
        rw [VectorLFA.stepColumns, VectorLFA.columnsAfter, hO]
        rcases Unwinds.stepAfter o c b e with ⟨_ | p, o', c'⟩
        · simp only [endOf, bind, Except.bind, Result.and]
          rw [ih]
          rcases VectorLFA.columnsAfter b es cs o' with ⟨_ | p, o'', cs'⟩ <;> rfl
        · rfl
  refine ⟨?_, ?_, ?_⟩
  · unfold ScalarLFA.update ScalarLFA.updateAfter
    rcases Basis.project fa.basis x with p | e' | b
    · rfl
    · rfl
    · simp only [bind, Except.bind]
      rw [hO]
      rcases Unwinds.stepAfter fa.optimiser fa.weights b e with ⟨_ | p, o', c'⟩ <;> rfl
  · unfold ScalarLFA.updateWith ScalarLFA.updateWithAfter
    rcases Basis.project fa.basis x with p | e' | b
    · rfl
    · rfl
    · simp only [bind, Except.bind]
      rcases b.dot fa.weights with p | v
      · rfl
      · simp only []
        rw [hO]
        rcases Unwinds.stepAfter fa.optimiser fa.weights b (f b v) with ⟨_ | p, o', c'⟩ <;> rfl
  · unfold VectorLFA.update VectorLFA.updateAfter
    rcases Basis.project fv.basis x with p | e' | b
    · rfl
    · rfl
    · simp only [bind, Except.bind]
      rw [hc]
      rcases VectorLFA.columnsAfter b es fv.weights fv.optimiser with ⟨_ | p, o', c'⟩ <;> rfl

/-! ## Where nothing is lost -/

theorem zip_kept {xs ys : List K} {f : K → K → K} {p : Panic} (h : (zipAfter xs ys f).1 = some p) :
    (zipAfter xs ys f).2 = xs := by
  unfold zipAfter at h ⊢
  rcases hz : zipMutWith xs ys f with q | zs
  · rfl
  · rw [hz] at h; cases h

/-- A step that panics changes neither the optimiser nor the weights. -/
def KeepsOn (O : Type) [Unwinds O K] (φ : Features K) : Prop :=
  ∀ (o : O) (w : List K) (s : K) (p : Panic), (Unwinds.stepAfter o w φ s).1 = some p →
    (Unwinds.stepAfter o w φ s).2 = (o, w)

theorem keeps_dense (da : List K) : KeepsOn (SGD K) (.dense da) ∧ KeepsOn (ISGD K) (.dense da) ∧
    KeepsOn (Adagrad K) (.dense da) := by
  refine ⟨fun o w s p h => ?_, fun o w s p h => ?_, fun o w s p h => ?_⟩
  · exact Prod.ext rfl (zip_kept h)
  · exact Prod.ext rfl (zip_kept h)
  · cases h

theorem keeps_scalar [Unwinds O K] (fa : ScalarLFA B O K) (x : I) (e : K) (f : Features K → K → P K)
    (hk : ∀ φ, Basis.project fa.basis x = .ok (.ok φ) → KeepsOn O φ) (p : Panic) :
    ((fa.updateAfter x e).1 = .error p → (fa.updateAfter x e).2 = fa) ∧
    ((fa.updateWithAfter x f).1 = .error p → (fa.updateWithAfter x f).2 = fa) := by
  constructor
  · unfold ScalarLFA.updateAfter
    rcases hp : Basis.project fa.basis x with p | e' | b
    · exact fun _ => rfl
    · exact fun _ => rfl
    · have := hk b hp fa.optimiser fa.weights e
      simp only []
      rcases hs : Unwinds.stepAfter fa.optimiser fa.weights b e with ⟨_ | q, o', c'⟩
      · exact fun h => by cases h
      · rw [hs] at this
        intro _
        have := this q rfl
        simp only [Prod.mk.injEq] at this
        rw [this.1, this.2]
  · unfold ScalarLFA.updateWithAfter
    rcases hp : Basis.project fa.basis x with p | e' | b
    · exact fun _ => rfl
    · exact fun _ => rfl
    · simp only []
      rcases b.dot fa.weights with p | v
      · exact fun _ => rfl
      · simp only []
        rcases f b v with p | e
        · exact fun _ => rfl
        · have := hk b hp fa.optimiser fa.weights e
          simp only []
          rcases hs : Unwinds.stepAfter fa.optimiser fa.weights b e with ⟨_ | q, o', c'⟩
          · exact fun h => by cases h
          · rw [hs] at this
            intro _
            have := this q rfl
            simp only [Prod.mk.injEq] at this
            rw [this.1, this.2]

/-- With dense features, SGD, ISGD and Adagrad: a caught panic — of the basis, the closure or the step — leaves the
approximator as it was. Missing: sparse features and the other optimisers, where it is false. -/
theorem C146_dense_partial (b : B) (w : List K) (x : I) (e : K) (f : Features K → K → P K)
    (hd : ∀ φ, Basis.project b x = .ok (.ok φ) → φ.isDense = true) (p : Panic) :
    (∀ o : SGD K, let fa : ScalarLFA B (SGD K) K := ⟨b, w, o⟩
      ((fa.updateAfter x e).1 = .error p → (fa.updateAfter x e).2 = fa) ∧
      ((fa.updateWithAfter x f).1 = .error p → (fa.updateWithAfter x f).2 = fa)) ∧
    (∀ o : ISGD K, let fa : ScalarLFA B (ISGD K) K := ⟨b, w, o⟩
      ((fa.updateAfter x e).1 = .error p → (fa.updateAfter x e).2 = fa) ∧
      ((fa.updateWithAfter x f).1 = .error p → (fa.updateWithAfter x f).2 = fa)) ∧
    (∀ o : Adagrad K, let fa : ScalarLFA B (Adagrad K) K := ⟨b, w, o⟩
      ((fa.updateAfter x e).1 = .error p → (fa.updateAfter x e).2 = fa) ∧
      ((fa.updateWithAfter x f).1 = .error p → (fa.updateWithAfter x f).2 = fa)) := by
  refine ⟨fun o => keeps_scalar _ x e f (fun φ h => ?_) p, fun o => keeps_scalar _ x e f (fun φ h => ?_) p,
    fun o => keeps_scalar _ x e f (fun φ h => ?_) p⟩
  all_goals
    cases φ with
    | dense da => first | exact (keeps_dense da).1 | exact (keeps_dense da).2.1 | exact (keeps_dense da).2.2
    | sparse sa => cases hd _ h

/-! ## The weights under Momentum and NAG -/

theorem zip_none_iff (xs ys : List K) (f : K → K → K) :
    (zipAfter xs ys f).1 = none ↔ ys.length = xs.length ∨ ys.length = 1 := by
  unfold zipAfter zipMutWith broadcast
  by_cases h : ys.length = xs.length
  · simp [h, bind, Except.bind]
  · rw [if_neg h]
    rcases ys with _ | ⟨y, _ | ⟨z, ys⟩⟩ <;> simp_all [bind, Except.bind]

theorem zip_length (xs ys : List K) (f : K → K → K) : (zipAfter xs ys f).2.length = xs.length := by
  rcases h : (zipAfter xs ys f).1 with _ | p
  · unfold zipAfter zipMutWith broadcast at *
    by_cases h : ys.length = xs.length
    · simp [h, bind, Except.bind]
    · rw [if_neg h] at *
      rcases ys with _ | ⟨y, _ | ⟨z, ys⟩⟩ <;> simp_all [bind, Except.bind]
  · rw [zip_kept h]

theorem scatter_length (g : K → K → K) (es : List (Nat × K)) (w : List K) : (scatterAfter g es w).2.length = w.length := by
  induction es generalizing w with
  | nil => rfl
  | cons e es ih =>
    rw [scatterAfter]
    rcases h : w[e.1]? with _ | x
    · rfl
    · simp only []
      rw [ih, List.length_set]

theorem scatter_none_iff (g : K → K → K) (es : List (Nat × K)) (w : List K) :
    (scatterAfter g es w).1 = none ↔ ∀ e ∈ es, e.1 < w.length := by
  induction es generalizing w with
  | nil => simp [scatterAfter]
  | cons e es ih =>
    rw [scatterAfter, List.forall_mem_cons]
    rcases h : w[e.1]? with _ | x
    · have := List.getElem?_eq_none_iff.1 h
      simp only [reduceCtorEq, false_iff, not_and]
      intro h'; omega
    · have hl : e.1 < w.length := (List.getElem?_eq_some_iff.1 h).1
      simp only []
      rw [ih, List.length_set]
      exact ⟨fun h => ⟨hl, h⟩, fun h => h.2⟩

theorem scatter_nil (g : K → K → K) (es : List (Nat × K)) : (scatterAfter g es []).2 = [] :=
  List.length_eq_zero_iff.1 (scatter_length g es [])

theorem nag_third {m s lr : K} {v w v' w' : List K} {φ : Features K} (h1 : velocityAfter m v φ s = (none, v'))
    (h2 : zipAfter w v' (fun y x => y +. lr *. x) = (none, w')) {p : Panic}
    (h3 : (φ.scaledAddtoAfter m w').1 = some p) : (φ.scaledAddtoAfter m w').2 = w := by
  have e2 := (zip_none_iff w v' (fun y x => y +. lr *. x)).1 (by rw [h2])
  have l2 : w'.length = w.length := by have := zip_length w v' (fun y x => y +. lr *. x); rwa [h2] at this
  cases φ with
  | dense da =>
    have e1 := (zip_none_iff v da (fun x y => m *. x +. y *. s)).1 (congrArg Prod.fst h1)
    have l1 : v'.length = v.length := by
      have := zip_length v da (fun x y => m *. x +. y *. s)
      rwa [show zipAfter v da (fun x y => m *. x +. y *. s) = (none, v') from h1] at this
    have : (Features.scaledAddtoAfter (.dense da) m w').1 = none := by
      refine (zip_none_iff w' da _).2 ?_
      omega
    rw [this] at h3; cases h3
  | sparse sa =>
    have e1 := (scatter_none_iff (fun x a => x +. a *. s) sa.activations (v.map (· *. m))).1 (congrArg Prod.fst h1)
    have l1 : v'.length = v.length := by
      have := scatter_length (fun x a => x +. a *. s) sa.activations (v.map (· *. m))
      rw [show scatterAfter (fun x a => x +. a *. s) sa.activations (v.map (· *. m)) = (none, v') from h1] at this
      simpa using this
    rcases Nat.eq_zero_or_pos w.length with hw | hw
    · have hw0 : w = [] := List.length_eq_zero_iff.1 hw
      have hw' : w' = [] := List.length_eq_zero_iff.1 (l2.trans hw)
      rw [hw0, hw']
      exact scatter_nil _ _
    · have : (Features.scaledAddtoAfter (.sparse sa) m w').1 = none := by
        refine (scatter_none_iff _ _ _).2 fun e he => ?_
        have := e1 e he
        rw [List.length_map] at this
        omega
      rw [this] at h3; cases h3

/-- Under Momentum and NAG a step that panics leaves the weights alone, whatever the features. -/
theorem C146_weights_kept (w : List K) (φ : Features K) (s : K) (p : Panic) :
    (∀ o : SGDMomentum K, (Unwinds.stepAfter o w φ s).1 = some p → (Unwinds.stepAfter o w φ s).2.2 = w) ∧
    (∀ o : NAG K, (Unwinds.stepAfter o w φ s).1 = some p → (Unwinds.stepAfter o w φ s).2.2 = w) := by
  constructor
  · intro o
    simp only [Unwinds.stepAfter]
    rcases velocityAfter o.momentum o.velocity φ s with ⟨_ | q, v⟩
    · exact fun h => zip_kept h
    · exact fun _ => rfl
  · intro o
    simp only [Unwinds.stepAfter]
    rcases h1 : velocityAfter o.momentum o.velocity φ s with ⟨_ | q, v⟩
    · simp only []
      rcases h2 : zipAfter w v (fun y x => y +. o.learningRate *. x) with ⟨_ | q, w'⟩
      · exact fun h => nag_third h1 h2 h
      · intro _
        have := zip_kept (K := K) (show (zipAfter w v (fun y x => y +. o.learningRate *. x)).1 = some q by rw [h2])
        rw [h2] at this
        exact this
    · exact fun _ => rfl

/-! ## What is left elsewhere -/

/-- SGD and ISGD with sparse features: the entries up to the first index out of range, in the order of iteration, have
been added; the others have not. -/
theorem C146_sparse_prefix (w : List K) (sa : SparseActivations K) (s : K) (p : Panic) :
    (∀ o : SGD K, (Unwinds.stepAfter o w (.sparse sa) s).1 = some p →
      ∃ pre i a post, sa.activations = pre ++ (i, a) :: post ∧ w.length ≤ i ∧
        Features.scaledAddto (.sparse ⟨sa.dim, pre⟩) (o.lr *. s) w = .ok (Unwinds.stepAfter o w (.sparse sa) s).2.2) ∧
    (∀ o : ISGD K, (Unwinds.stepAfter o w (.sparse sa) s).1 = some p →
      ∃ pre i a post, sa.activations = pre ++ (i, a) :: post ∧ w.length ≤ i ∧
        Features.scaledAddto (.sparse ⟨sa.dim, pre⟩) (o.computeLr (.sparse sa) *. s) w
          = .ok (Unwinds.stepAfter o w (.sparse sa) s).2.2) := by
  have key : ∀ (g : K → K → K) (es : List (Nat × K)) (w : List K), (scatterAfter g es w).1 = some p →
      ∃ pre i a post, es = pre ++ (i, a) :: post ∧ w.length ≤ i ∧
        Features.scatterMod g pre w = .ok (scatterAfter g es w).2 := by
    intro g es
    induction es with
    | nil => intro w h; cases h
    | cons e es ih =>
      intro w h
      rw [scatterAfter] at h ⊢
      rcases hx : w[e.1]? with _ | x
      · exact ⟨[], e.1, e.2, es, rfl, List.getElem?_eq_none_iff.1 hx, rfl⟩
      · rw [hx] at h
        obtain ⟨pre, i, a, post, h1, h2, h3⟩ := ih _ h
        have hl : e.1 < w.length := (List.getElem?_eq_some_iff.1 hx).1
        refine ⟨e :: pre, i, a, post, by rw [h1]; rfl, by rwa [List.length_set] at h2, ?_⟩
        unfold Features.scatterMod at h3 ⊢
        rw [List.foldlM_cons]
        unfold modIdx idx setIdx
        rw [hx]
        simp only [bind, Except.bind, if_pos hl]
        exact h3
  exact ⟨fun o h => key _ _ _ h, fun o h => key _ _ _ h⟩

/-- Momentum and NAG: if the features fit the velocity and the weights do not, the velocity has moved on. -/
theorem C146_velocity (w : List K) (φ : Features K) (s : K) (v : List K) (p : Panic) :
    (∀ o : SGDMomentum K, velocityUpdate o.momentum o.velocity φ s = .ok v → (Unwinds.stepAfter o w φ s).1 = some p →
      (Unwinds.stepAfter o w φ s).2 = ({ o with velocity := v }, w)) ∧
    (∀ o : NAG K, velocityUpdate o.momentum o.velocity φ s = .ok v → (Unwinds.stepAfter o w φ s).1 = some p →
      (Unwinds.stepAfter o w φ s).2 = ({ o with velocity := v }, w)) := by
  constructor
  · intro o hv hp
    refine Prod.ext ?_ ((C146_weights_kept w φ s p).1 o hp)
    rw [velocity_end] at hv
    simp only [Unwinds.stepAfter]
    rcases h1 : velocityAfter o.momentum o.velocity φ s with ⟨_ | q, v'⟩
    · rw [h1] at hv; cases hv; rfl
    · rw [h1] at hv; cases hv
  · intro o hv hp
    refine Prod.ext ?_ ((C146_weights_kept w φ s p).2 o hp)
    rw [velocity_end] at hv
    simp only [Unwinds.stepAfter]
    rcases h1 : velocityAfter o.momentum o.velocity φ s with ⟨_ | q, v'⟩
    · rw [h1] at hv; cases hv
      simp only []
      rcases zipAfter w v (fun y x => y +. o.learningRate *. x) with ⟨_ | q, w'⟩ <;> rfl
    · rw [h1] at hv; cases hv

/-- Adam and AdaMax: a step that panics has advanced the bias-correction products all the same. -/
theorem C146_products (w : List K) (φ : Features K) (s : K) :
    (∀ o : Adam K, (Unwinds.stepAfter o w φ s).2.1.beta1Prod = o.beta1Prod *. o.beta1 ∧
      (Unwinds.stepAfter o w φ s).2.1.beta2Prod = o.beta2Prod *. o.beta2) ∧
    (∀ o : AdaMax K, (Unwinds.stepAfter o w φ s).2.1.beta1Prod = o.beta1Prod *. o.beta1) :=
  ⟨fun _ => ⟨rfl, rfl⟩, fun _ => rfl⟩

/-! ## Several outputs -/

theorem columns_kept [Unwinds O K] {φ : Features K} {n : Nat} (hk : KeepsOn O φ)
    (hl : ∀ (o : O) (w w' : List K) (s s' : K) (o' : O), w.length = w'.length →
      ((Unwinds.stepAfter o w φ s).1 = none ↔ (Unwinds.stepAfter o' w' φ s').1 = none))
    (cs : List (List K)) (hcs : ∀ c ∈ cs, c.length = n) (es : List K) (o : O) (p : Panic)
    (h : (VectorLFA.columnsAfter φ es cs o).1 = some p) : (VectorLFA.columnsAfter φ es cs o).2 = (o, cs) := by
  have hnone : ∀ (es : List K) (cs : List (List K)) (o : O) (o' : O) (c : List K) (e : K), c.length = n →
      (∀ c ∈ cs, c.length = n) → (Unwinds.stepAfter o' c φ e).1 = none → (VectorLFA.columnsAfter φ es cs o).1 = none := by
    intro es
    induction es with
    | nil => intro cs o o' c e _ _ _; rfl
    | cons e es ih =>
      intro cs o o' c e' hc hcs hn
      cases cs with
      | nil => rfl
      | cons d cs =>
        rw [VectorLFA.columnsAfter]
        have hd := (hl o' c d e' e o (hc.trans (hcs d (List.mem_cons_self ..)).symm)).1 hn
        rcases hs : Unwinds.stepAfter o d φ e with ⟨_ | q, o'', d'⟩
        · exact ih cs o'' o' c e' hc (fun c hc => hcs c (List.mem_cons_of_mem _ hc)) hn
        · rw [hs] at hd; cases hd
  cases es with
  | nil => cases h
  | cons e es =>
    cases cs with
    | nil => cases h
    | cons c cs =>
      rw [VectorLFA.columnsAfter] at h ⊢
      rcases hs : Unwinds.stepAfter o c φ e with ⟨_ | q, o', c'⟩
      · rw [hs] at h
        have := hnone es cs o' o c e (hcs c (List.mem_cons_self ..)) (fun c hc => hcs c (List.mem_cons_of_mem _ hc))
          (by rw [hs])
        simp only [this, reduceCtorEq] at h
      · have := hk o c e q (by rw [hs])
        rw [hs] at this
        simp only [Prod.mk.injEq] at this ⊢
        rw [this.1, this.2]
        exact ⟨rfl, rfl⟩

/-- A vector approximator with SGD or ISGD and dense features: a caught panic leaves all outputs as they were. -/
theorem C146_vector_dense_partial (b : B) (ws : List (List K)) (n : Nat) (hws : ∀ c ∈ ws, c.length = n) (x : I)
    (es : List K) (hd : ∀ φ, Basis.project b x = .ok (.ok φ) → φ.isDense = true) (p : Panic) :
    (∀ o : SGD K, let fa : VectorLFA B (SGD K) K := ⟨b, ws, o⟩
      (fa.updateAfter x es).1 = .error p → (fa.updateAfter x es).2 = fa) ∧
    (∀ o : ISGD K, let fa : VectorLFA B (ISGD K) K := ⟨b, ws, o⟩
      (fa.updateAfter x es).1 = .error p → (fa.updateAfter x es).2 = fa) := by
  constructor
  · intro o fa
    show (VectorLFA.updateAfter (⟨b, ws, o⟩ : VectorLFA B (SGD K) K) x es).1 = _ →
      (VectorLFA.updateAfter (⟨b, ws, o⟩ : VectorLFA B (SGD K) K) x es).2 = _
    unfold VectorLFA.updateAfter
    rcases hp : Basis.project b x with p | e' | φ
    · exact fun _ => rfl
    · exact fun _ => rfl
    · simp only []
      cases φ with
      | sparse sa => cases hd _ hp
      | dense da =>
        have := columns_kept (n := n) (keeps_dense da).1 (fun o w w' s s' o' hlen => by
          show (zipAfter w da _).1 = none ↔ (zipAfter w' da _).1 = none
          rw [zip_none_iff, zip_none_iff, hlen]) ws hws es o
        rcases hs : VectorLFA.columnsAfter (.dense da) es ws o with ⟨_ | q, o', c'⟩
        · exact fun h => by cases h
        · rw [hs] at this
          intro _
          have := this q rfl
          simp only [Prod.mk.injEq] at this
          rw [this.1, this.2]
  · intro o fa
    show (VectorLFA.updateAfter (⟨b, ws, o⟩ : VectorLFA B (ISGD K) K) x es).1 = _ →
      (VectorLFA.updateAfter (⟨b, ws, o⟩ : VectorLFA B (ISGD K) K) x es).2 = _
    unfold VectorLFA.updateAfter
    rcases hp : Basis.project b x with p | e' | φ
    · exact fun _ => rfl
    · exact fun _ => rfl
    · simp only []
      cases φ with
      | sparse sa => cases hd _ hp
      | dense da =>
        have := columns_kept (n := n) (keeps_dense da).2.1 (fun o w w' s s' o' hlen => by
          show (zipAfter w da _).1 = none ↔ (zipAfter w' da _).1 = none
          rw [zip_none_iff, zip_none_iff, hlen]) ws hws es o
        rcases hs : VectorLFA.columnsAfter (.dense da) es ws o with ⟨_ | q, o', c'⟩
        · exact fun h => by cases h
        · rw [hs] at this
          intro _
          have := this q rfl
          simp only [Prod.mk.injEq] at this
          rw [this.1, this.2]

end

/-! ## Counterexamples -/

/-- Three features and two weights: the hypotheses of `C146_dense_partial` and of `C146_vector_dense_partial` are met, and
the calls do panic. -/
example : (ScalarLFA.updateAfter (⟨⟨[1, 2, 3]⟩, [0, 0], ⟨1⟩⟩ : ScalarLFA (FixedDense ℝ) (SGD ℝ) ℝ) ([] : List ℝ) 1).1
      = .error .shapeMismatch ∧
    (VectorLFA.updateAfter (⟨⟨[1, 2, 3]⟩, [[0, 0], [1, 1]], ⟨1⟩⟩ : VectorLFA (FixedDense ℝ) (SGD ℝ) ℝ) ([] : List ℝ)
      [1, 2]).1 = .error .shapeMismatch ∧
    ∀ φ, Basis.project (⟨[1, 2, 3]⟩ : FixedDense ℝ) ([] : List ℝ) = .ok (.ok φ) → φ.isDense = true :=
  ⟨rfl, rfl, fun φ h => by cases h; rfl⟩

/-- Two weights, a velocity of three: Momentum's step panics after the velocity has moved. -/
example : (Unwinds.stepAfter (SGDMomentum.new 3 (1 : ℝ) 1) [0, 0] (.dense [1, 2, 3]) 1).1 = some .shapeMismatch ∧
    (Unwinds.stepAfter (SGDMomentum.new 3 (1 : ℝ) 1) [0, 0] (.dense [1, 2, 3]) 1).2.1.velocity = [1, 2, 3] := by
  constructor
  · simp [Unwinds.stepAfter, SGDMomentum.new, velocityAfter, zipAfter, zipMutWith, broadcast, List.replicate, bind,
      Except.bind]
  · simp [Unwinds.stepAfter, SGDMomentum.new, velocityAfter, zipAfter, zipMutWith, broadcast, List.replicate, bind,
      Except.bind]

/-- A sparse basis with an index out of range: the call panics, and the hash order decides whether the weights have
changed. -/
theorem C146_sparse_counterexample :
    let fa := fun is : List Nat => (⟨⟨2, is⟩, [0, 0], ⟨1⟩⟩ : ScalarLFA (FixedSparse ℝ) (SGD ℝ) ℝ)
    ScalarLFA.updateAfter (fa [0, 5]) ([] : List ℝ) 1
      = (.error .indexOutOfBounds, { fa [0, 5] with weights := [1, 0] }) ∧
    ScalarLFA.updateAfter (fa [5, 0]) ([] : List ℝ) 1 = (.error .indexOutOfBounds, fa [5, 0]) := by
  intro fa
  constructor
  · simp [fa, ScalarLFA.updateAfter, Basis.project, Unwinds.stepAfter, Features.scaledAddtoAfter, scatterAfter,
      FixedSparse.project, HMap.collect, HMap.insert]
  · simp [fa, ScalarLFA.updateAfter, Basis.project, Unwinds.stepAfter, Features.scaledAddtoAfter, scatterAfter,
      FixedSparse.project, HMap.collect, HMap.insert]

/-- Features that fit neither the weights nor the moments: Adam's step panics, changes no weight, and leaves a
different optimiser. -/
theorem C146_adam_counterexample :
    (Unwinds.stepAfter (Adam.new 1 (1 : ℝ) (1 / 2) (1 / 2)) [0] (.dense [0, 0]) 0).1 = some .indexOutOfBounds ∧
    (Unwinds.stepAfter (Adam.new 1 (1 : ℝ) (1 / 2) (1 / 2)) [0] (.dense [0, 0]) 0).2.1 ≠ Adam.new 1 1 (1 / 2) (1 / 2) := by
  constructor
  · simp [Unwinds.stepAfter, Adam.new, Adam.loopAfter, indexedIter]
  · intro h
    have h := congrArg Adam.beta1Prod h
    rw [((C146_products _ _ _).1 _).1] at h
    simp only [Adam.new, real_mul] at h
    norm_num at h

end Lfa

import Verif.Spec.PartialEq
import Verif.Props.C165

/-!
# C166 — optimisers and bases that compare equal behave equally
-/

set_option linter.unusedSectionVars false

namespace Lfa

open Spec

variable {M : Machine} {Z : ZeroChoice}

section Laws

theorem Spec.PartialEquivalence.nat : PartialEquivalence Nat where
  symm a b := by
    show (a == b) = (b == a)
    rw [Bool.eq_iff_iff, beq_iff_eq, beq_iff_eq, eq_comm]
  trans a b c h k := by
    rw [show PartialEq.eq a b = (a == b) from rfl, beq_iff_eq] at h
    rw [h]
    exact k
  refl_iff a := by
    rw [show PartialEq.eq a a = (a == a) from rfl, beq_self_eq_true]
    exact ⟨fun _ => trivial, fun _ => rfl⟩

theorem Spec.PartialEquivalence.number : PartialEquivalence (SFP M Z) := by
  have key : ∀ x y : XReal, XReal.beq x y = true ↔ x = y ∧ x ≠ .nan := by
    intro x y
    cases x <;> cases y <;> simp [XReal.beq]
  have k2 : ∀ a b : SFP M Z, PartialEq.eq a b = true ↔ a.val.1 = b.val.1 ∧ a.val.1 ≠ .nan :=
    fun a b => key _ _
  refine ⟨fun a b => ?_, fun a b c h k => ?_, fun a => ?_⟩
  · rw [Bool.eq_iff_iff, k2, k2]
    constructor <;> (rintro ⟨h, h'⟩; exact ⟨h.symm, h ▸ h'⟩)
  · rw [k2] at *
    exact ⟨h.1.trans k.1, h.2⟩
  · rw [k2]
    exact ⟨fun h => h.2, fun h => ⟨rfl, h⟩⟩

theorem Spec.PartialEquivalence.list {T : Type} [PartialEq T] [NoNaN T] (h : PartialEquivalence T) :
    PartialEquivalence (List T) where
  symm a b := by
    show listEq _ a b = listEq _ b a
    induction a generalizing b with
    | nil => cases b <;> rfl
    | cons x a ih =>
      cases b with
      | nil => rfl
      | cons y b =>
        show (_ && listEq _ a b) = (_ && listEq _ b a)
        rw [ih, h.symm]
  trans a b c := by
    show listEq _ a b = true → listEq _ b c = true → listEq _ a c = true
    induction a generalizing b c with
    | nil =>
      cases b with
      | nil => exact fun _ k => k
      | cons y b => intro k; cases k
    | cons x a ih =>
      cases b with
      | nil => intro k; cases k
      | cons y b =>
        cases c with
        | nil => intro _ k; cases k
        | cons z c =>
          show (_ && listEq _ a b) = true → (_ && listEq _ b c) = true → (_ && listEq _ a c) = true
          rw [Bool.and_eq_true, Bool.and_eq_true, Bool.and_eq_true]
          exact fun k k' => ⟨h.trans _ _ _ k.1 k'.1, ih b c k.2 k'.2⟩
  refl_iff a := by
    show listEq _ a a = true ↔ ∀ t ∈ a, NoNaN.everyNumber t
    induction a with
    | nil => exact ⟨fun _ _ h => (List.not_mem_nil h).elim, fun _ => rfl⟩
    | cons x a ih =>
      show (PartialEq.eq x x && listEq _ a a) = true ↔ _
      rw [Bool.and_eq_true, ih, h.refl_iff, List.forall_mem_cons]

theorem Spec.PartialEquivalence.prod {S T : Type} [PartialEq S] [NoNaN S] [PartialEq T] [NoNaN T]
    (hs : PartialEquivalence S) (ht : PartialEquivalence T) : PartialEquivalence (S × T) where
  symm a b := by
    show (_ && _) = (_ && _)
    rw [hs.symm, ht.symm]
  trans a b c := by
    show (_ && _) = true → (_ && _) = true → (_ && _) = true
    rw [Bool.and_eq_true, Bool.and_eq_true, Bool.and_eq_true]
    exact fun k k' => ⟨hs.trans _ _ _ k.1 k'.1, ht.trans _ _ _ k.2 k'.2⟩
  refl_iff a := by
    show (_ && _) = true ↔ _ ∧ _
    rw [Bool.and_eq_true, hs.refl_iff, ht.refl_iff]

/-- A value compared through its fields. -/
theorem Spec.PartialEquivalence.of {S T : Type} [PartialEq S] [NoNaN S] [PartialEq T] [NoNaN T]
    (hs : PartialEquivalence S) (f : T → S) (he : ∀ a b : T, PartialEq.eq a b = PartialEq.eq (f a) (f b))
    (hn : ∀ a : T, NoNaN.everyNumber a ↔ NoNaN.everyNumber (f a)) : PartialEquivalence T where
  symm a b := by rw [he, he, hs.symm]
  trans a b c := by rw [he, he, he]; exact hs.trans _ _ _
  refl_iff a := by rw [he, hn, hs.refl_iff]

end Laws

open PartialEquivalence

/-- `==` on optimisers is a partial equivalence: only a NaN makes an optimiser differ from itself. -/
theorem C166_optimisers : PartialEquivalence (SGD (SFP M Z)) ∧ PartialEquivalence (ISGD (SFP M Z)) ∧
    PartialEquivalence (SGDMomentum (SFP M Z)) ∧ PartialEquivalence (NAG (SFP M Z)) ∧
    PartialEquivalence (Adagrad (SFP M Z)) ∧ PartialEquivalence (Adam (SFP M Z)) ∧
    PartialEquivalence (AdaMax (SFP M Z)) := by
  have n := number (M := M) (Z := Z)
  refine ⟨n.of (fun o => o.lr) (fun _ _ => rfl) fun _ => Iff.rfl,
    n.of (fun o => o.lr) (fun _ _ => rfl) fun _ => Iff.rfl,
    (n.prod (n.prod n.list)).of (fun o => (o.momentum, o.learningRate, o.velocity)) (fun a b => ?_) fun _ => Iff.rfl,
    (n.prod (n.prod n.list)).of (fun o => (o.momentum, o.learningRate, o.velocity)) (fun a b => ?_) fun _ => Iff.rfl,
    (n.prod n.list).of (fun o => (o.learningRate, o.accumulator)) (fun a b => rfl) fun _ => Iff.rfl,
    (n.prod (n.prod (n.prod (n.prod (n.prod (n.list.prod n.list)))))).of (fun o => (o.beta1, o.beta1Prod, o.beta2,
      o.beta2Prod, o.learningRate, o.expAvg, o.expAvgSq)) (fun a b => ?_) fun _ => Iff.rfl,
    (n.prod (n.prod (n.prod (n.prod (n.list.prod n.list))))).of (fun o => (o.beta1, o.beta1Prod, o.beta2,
      o.learningRate, o.expAvg, o.expInf)) (fun a b => ?_) fun _ => Iff.rfl⟩
  · exact Bool.and_assoc ..
  · exact Bool.and_assoc ..
  · show (_ && _ && _ && _ && _ && _ && _) = (_ && (_ && (_ && (_ && (_ && (_ && _))))))
    simp only [Bool.and_assoc]
  · show (_ && _ && _ && _ && _ && _) = (_ && (_ && (_ && (_ && (_ && _)))))
    simp only [Bool.and_assoc]

section
variable {B C κ H : Type} [PartialEq B] [NoNaN B] [PartialEq C] [NoNaN C] [PartialEq κ] [NoNaN κ]

/-- And likewise on bases and kernels. -/
theorem C166_bases {kind : StationaryKind} : PartialEquivalence (Bias (SFP M Z)) ∧
    PartialEquivalence (FixedDense (SFP M Z)) ∧ PartialEquivalence Polynomial ∧
    PartialEquivalence (Fourier (SFP M Z)) ∧ PartialEquivalence (Stationary kind (SFP M Z)) ∧
    PartialEquivalence (RationalQuadratic (SFP M Z)) := by
  have n := number (M := M) (Z := Z)
  refine ⟨n.of (fun o => o.value) (fun _ _ => rfl) fun _ => Iff.rfl,
    n.list.of (fun o => o.constants) (fun _ _ => rfl) fun _ => Iff.rfl,
    (nat.prod nat.list.list).of (fun o => (o.order, o.exponents)) (fun _ _ => rfl) fun _ => ?_,
    (nat.prod ((n.prod n).list.prod n.list.list)).of (fun o => (o.order, o.limits, o.coefficients))
      (fun a b => Bool.and_assoc ..) fun _ => ?_,
    (n.prod n.list).of (fun o => (o.variance, o.lengthscales)) (fun _ _ => rfl) fun _ => Iff.rfl,
    (n.prod (n.list.prod n)).of (fun o => (o.variance, o.lengthscales, o.power))
      (fun a b => Bool.and_assoc ..) fun _ => Iff.rfl⟩
  · exact ⟨fun _ => ⟨trivial, fun _ _ _ _ => trivial⟩, fun _ => trivial⟩
  · exact ⟨fun h => ⟨trivial, h⟩, fun h => h.2⟩

/-- Composite bases inherit this from their parts. -/
theorem C166_composites (hb : PartialEquivalence B) (hc : PartialEquivalence C)
    (hk : PartialEquivalence κ) : PartialEquivalence (Stack B C) ∧
    PartialEquivalence (L0Normaliser B) ∧ PartialEquivalence (L1Normaliser B) ∧
    PartialEquivalence (L2Normaliser B) ∧ PartialEquivalence (LinfNormaliser B) ∧
    PartialEquivalence (KernelBasis κ (SFP M Z)) := by
  have n := number (M := M) (Z := Z)
  have p : PartialEquivalence (Prototype κ (SFP M Z)) :=
    (n.list.prod hk).of (fun p => (p.centroid, p.kernel)) (fun _ _ => rfl) fun _ => Iff.rfl
  exact ⟨(hb.prod hc).of (fun b => (b.b₁, b.b₂)) (fun _ _ => rfl) fun _ => Iff.rfl,
    hb.of (fun b => b.inner) (fun _ _ => rfl) fun _ => Iff.rfl,
    hb.of (fun b => b.inner) (fun _ _ => rfl) fun _ => Iff.rfl,
    hb.of (fun b => b.inner) (fun _ _ => rfl) fun _ => Iff.rfl,
    hb.of (fun b => b.inner) (fun _ _ => rfl) fun _ => Iff.rfl,
    p.list.of (fun b => b.prototypes) (fun _ _ => rfl) fun _ => Iff.rfl⟩

end

/-! ## Equal optimisers -/

theorem eq_alike {a b : SFP M Z} (h : PartialEq.eq a b = true) : Alike a b := .inl h

theorem eq_alikes : ∀ {a b : List (SFP M Z)}, PartialEq.eq a b = true → Alikes a b
  | [], [], _ => .nil
  | [], _ :: _, h => by cases h
  | _ :: _, [], h => by cases h
  | x :: a, y :: b, h => by
    have h' : (PartialEq.eq x y && PartialEq.eq a b) = true := h
    rw [Bool.and_eq_true] at h'
    exact .cons (eq_alike h'.1) (eq_alikes h'.2)

/-- Equal optimisers are alike. -/
def EqualAlike (O : Type) [PartialEq O] [Optim O] : Prop :=
  ∀ o o' : O, PartialEq.eq o o' = true → Optim.alike o o'

theorem optimisers_equal_alike : EqualAlike (SGD (SFP M Z)) ∧ EqualAlike (ISGD (SFP M Z)) ∧
    EqualAlike (SGDMomentum (SFP M Z)) ∧ EqualAlike (NAG (SFP M Z)) ∧ EqualAlike (Adagrad (SFP M Z)) ∧
    EqualAlike (Adam (SFP M Z)) ∧ EqualAlike (AdaMax (SFP M Z)) := by
  refine ⟨fun o o' h => eq_alike h, fun o o' h => eq_alike h, fun o o' h => ?_, fun o o' h => ?_,
    fun o o' h => ?_, fun o o' h => ?_, fun o o' h => ?_⟩
  · have h' : (_ && _ && _) = true := h
    rw [Bool.and_eq_true, Bool.and_eq_true] at h'
    exact ⟨eq_alike h'.1.1, eq_alike h'.1.2, eq_alikes h'.2⟩
  · have h' : (_ && _ && _) = true := h
    rw [Bool.and_eq_true, Bool.and_eq_true] at h'
    exact ⟨eq_alike h'.1.1, eq_alike h'.1.2, eq_alikes h'.2⟩
  · have h' : (_ && _) = true := h
    rw [Bool.and_eq_true] at h'
    exact ⟨eq_alike h'.1, eq_alikes h'.2⟩
  · have h' : (_ && _ && _ && _ && _ && _ && _) = true := h
    simp only [Bool.and_eq_true] at h'
    obtain ⟨⟨⟨⟨⟨⟨h1, h2⟩, h3⟩, h4⟩, h5⟩, h6⟩, h7⟩ := h'
    exact ⟨eq_alike h1, eq_alike h2, eq_alike h3, eq_alike h4, eq_alike h5, eq_alikes h6, eq_alikes h7⟩
  · have h' : (_ && _ && _ && _ && _ && _) = true := h
    simp only [Bool.and_eq_true] at h'
    obtain ⟨⟨⟨⟨⟨h1, h2⟩, h3⟩, h4⟩, h5⟩, h6⟩ := h'
    exact ⟨eq_alike h1, eq_alike h2, eq_alike h3, eq_alike h4, eq_alikes h5, eq_alikes h6⟩

theorem alike_eq {a b : SFP M Z} (h : Alike a b) (n : NotNaN a) : PartialEq.eq a b = true := by
  rcases h with h | h
  · exact h
  · have h1 := (number.refl_iff a).2 n
    rw [show PartialEq.eq a a = Scalar.beq a a from rfl, h.1] at h1
    cases h1

theorem alikes_eq {a b : List (SFP M Z)} (h : Alikes a b) (n : ∀ v ∈ a, NotNaN v) : PartialEq.eq a b = true := by
  induction h with
  | nil => rfl
  | cons hx _ ih =>
    show (PartialEq.eq (_ : SFP M Z) _ && PartialEq.eq (_ : List (SFP M Z)) _) = true
    rw [alike_eq hx (n _ List.mem_cons_self), ih fun v m => n v (List.mem_cons_of_mem _ m)]
    rfl

/-- Optimisers compare equal exactly when their numbers are alike and none is NaN. -/
def EqualIff (O : Type) [PartialEq O] [NoNaN O] [Optim O] : Prop :=
  ∀ o o' : O, PartialEq.eq o o' = true ↔ Optim.alike o o' ∧ NoNaN.everyNumber o

theorem equalIff_of {O : Type} [PartialEq O] [NoNaN O] [Optim O] (h : PartialEquivalence O) (k : EqualAlike O)
    (l : ∀ o o' : O, Optim.alike o o' → NoNaN.everyNumber o → PartialEq.eq o o' = true) : EqualIff O := by
  refine fun o o' => ⟨fun e => ⟨k o o' e, (h.refl_iff o).1 (h.trans o o' o e ?_)⟩, fun e => l o o' e.1 e.2⟩
  rw [h.symm]
  exact e

/-- What `==` on optimisers tells. -/
theorem C166_equal_iff : EqualIff (SGD (SFP M Z)) ∧ EqualIff (ISGD (SFP M Z)) ∧
    EqualIff (SGDMomentum (SFP M Z)) ∧ EqualIff (NAG (SFP M Z)) ∧ EqualIff (Adagrad (SFP M Z)) ∧
    EqualIff (Adam (SFP M Z)) ∧ EqualIff (AdaMax (SFP M Z)) := by
  obtain ⟨a1, a2, a3, a4, a5, a6, a7⟩ := optimisers_equal_alike (M := M) (Z := Z)
  obtain ⟨p1, p2, p3, p4, p5, p6, p7⟩ := C166_optimisers (M := M) (Z := Z)
  refine ⟨equalIff_of p1 a1 fun o o' h n => alike_eq h n, equalIff_of p2 a2 fun o o' h n => alike_eq h n,
    equalIff_of p3 a3 ?_, equalIff_of p4 a4 ?_, equalIff_of p5 a5 ?_, equalIff_of p6 a6 ?_,
    equalIff_of p7 a7 ?_⟩
  · rintro o o' ⟨h1, h2, h3⟩ ⟨n1, n2, n3⟩
    show (PartialEq.eq (_ : SFP M Z) _ && PartialEq.eq (_ : SFP M Z) _ && PartialEq.eq (_ : List (SFP M Z)) _) = true
    rw [alike_eq h1 n1, alike_eq h2 n2, alikes_eq h3 n3]; rfl
  · rintro o o' ⟨h1, h2, h3⟩ ⟨n1, n2, n3⟩
    show (PartialEq.eq (_ : SFP M Z) _ && PartialEq.eq (_ : SFP M Z) _ && PartialEq.eq (_ : List (SFP M Z)) _) = true
    rw [alike_eq h1 n1, alike_eq h2 n2, alikes_eq h3 n3]; rfl
  · rintro o o' ⟨h1, h3⟩ ⟨n1, n3⟩
    show (PartialEq.eq (_ : SFP M Z) _ && PartialEq.eq (_ : List (SFP M Z)) _) = true
    rw [alike_eq h1 n1, alikes_eq h3 n3]; rfl
  · rintro o o' ⟨h1, h2, h3, h4, h5, h6, h7⟩ ⟨n1, n2, n3, n4, n5, n6, n7⟩
    show (PartialEq.eq (_ : SFP M Z) _ && PartialEq.eq (_ : SFP M Z) _ && PartialEq.eq (_ : SFP M Z) _ && PartialEq.eq (_ : SFP M Z) _ &&
      PartialEq.eq (_ : SFP M Z) _ && PartialEq.eq (_ : List (SFP M Z)) _ && PartialEq.eq (_ : List (SFP M Z)) _) = true
    rw [alike_eq h1 n1, alike_eq h2 n2, alike_eq h3 n3, alike_eq h4 n4, alike_eq h5 n5, alikes_eq h6 n6,
      alikes_eq h7 n7]; rfl
  · rintro o o' ⟨h1, h2, h3, h4, h5, h6⟩ ⟨n1, n2, n3, n4, n5, n6⟩
    show (PartialEq.eq (_ : SFP M Z) _ && PartialEq.eq (_ : SFP M Z) _ && PartialEq.eq (_ : SFP M Z) _ && PartialEq.eq (_ : SFP M Z) _ &&
      PartialEq.eq (_ : List (SFP M Z)) _ && PartialEq.eq (_ : List (SFP M Z)) _) = true
    rw [alike_eq h1 n1, alike_eq h2 n2, alike_eq h3 n3, alike_eq h4 n4, alikes_eq h5 n5, alikes_eq h6 n6]; rfl

/-- Approximators on one basis whose weights and optimisers compare equal stay alike through any
number of updates, whichever optimiser. -/
theorem C166_training {B : Type} [Space B] [Basis B (List (SFP M Z)) (SFP M Z)] {b b' : B}
    (hb : AlikeB M Z b b') {w w' : List (SFP M Z)} (hw : PartialEq.eq w w' = true)
    {es es' : List (List (SFP M Z) × SFP M Z)} (he : PartialEq.eq es es' = true) :
    (∀ o o' : SGD (SFP M Z), PartialEq.eq o o' = true →
      AlikeP AlikeFa (updates ⟨b, w, o⟩ es) (updates ⟨b', w', o'⟩ es')) ∧
    (∀ o o' : ISGD (SFP M Z), PartialEq.eq o o' = true →
      AlikeP AlikeFa (updates ⟨b, w, o⟩ es) (updates ⟨b', w', o'⟩ es')) ∧
    (∀ o o' : SGDMomentum (SFP M Z), PartialEq.eq o o' = true →
      AlikeP AlikeFa (updates ⟨b, w, o⟩ es) (updates ⟨b', w', o'⟩ es')) ∧
    (∀ o o' : NAG (SFP M Z), PartialEq.eq o o' = true →
      AlikeP AlikeFa (updates ⟨b, w, o⟩ es) (updates ⟨b', w', o'⟩ es')) ∧
    (∀ o o' : Adagrad (SFP M Z), PartialEq.eq o o' = true →
      AlikeP AlikeFa (updates ⟨b, w, o⟩ es) (updates ⟨b', w', o'⟩ es')) ∧
    (∀ o o' : Adam (SFP M Z), PartialEq.eq o o' = true →
      AlikeP AlikeFa (updates ⟨b, w, o⟩ es) (updates ⟨b', w', o'⟩ es')) ∧
    (∀ o o' : AdaMax (SFP M Z), PartialEq.eq o o' = true →
      AlikeP AlikeFa (updates ⟨b, w, o⟩ es) (updates ⟨b', w', o'⟩ es')) := by
  have hes : List.Forall₂ (fun p p' : List (SFP M Z) × SFP M Z => Alikes p.1 p'.1 ∧ Alike p.2 p'.2) es es' := by
    induction es generalizing es' with
    | nil =>
      cases es' with
      | nil => exact .nil
      | cons e es' => cases he
    | cons e es ih =>
      cases es' with
      | nil => cases he
      | cons e' es' =>
        have h' : ((PartialEq.eq e.1 e'.1 && PartialEq.eq e.2 e'.2) && PartialEq.eq es es') = true := he
        rw [Bool.and_eq_true, Bool.and_eq_true] at h'
        exact .cons ⟨eq_alikes h'.1.1, eq_alike h'.1.2⟩ (ih h'.2)
  obtain ⟨a1, a2, a3, a4, a5, a6, a7⟩ := optimisers_equal_alike (M := M) (Z := Z)
  obtain ⟨b1, b2, b3, b4, b5, b6, b7⟩ := C165_optimisers (M := M) (Z := Z)
  exact ⟨fun o o' h => C165_updates b1 ⟨hb, eq_alikes hw, a1 o o' h⟩ hes,
    fun o o' h => C165_updates b2 ⟨hb, eq_alikes hw, a2 o o' h⟩ hes,
    fun o o' h => C165_updates b3 ⟨hb, eq_alikes hw, a3 o o' h⟩ hes,
    fun o o' h => C165_updates b4 ⟨hb, eq_alikes hw, a4 o o' h⟩ hes,
    fun o o' h => C165_updates b5 ⟨hb, eq_alikes hw, a5 o o' h⟩ hes,
    fun o o' h => C165_updates b6 ⟨hb, eq_alikes hw, a6 o o' h⟩ hes,
    fun o o' h => C165_updates b7 ⟨hb, eq_alikes hw, a7 o o' h⟩ hes⟩

/-! ## Equal bases -/

/-- Bases that compare equal project alike. -/
def EqualProjects (M : Machine) (Z : ZeroChoice) (B : Type) [PartialEq B] [Space B]
    [Basis B (List (SFP M Z)) (SFP M Z)] : Prop :=
  ∀ b b' : B, PartialEq.eq b b' = true → AlikeB M Z b b'

theorem eq_limits : ∀ {a b : List (SFP M Z × SFP M Z)}, PartialEq.eq a b = true → AlikeL a b
  | [], [], _ => .nil
  | [], _ :: _, h => by cases h
  | _ :: _, [], h => by cases h
  | x :: a, y :: b, h => by
    have h' : ((PartialEq.eq x.1 y.1 && PartialEq.eq x.2 y.2) && PartialEq.eq a b) = true := h
    rw [Bool.and_eq_true, Bool.and_eq_true] at h'
    exact .cons ⟨eq_alike h'.1.1, eq_alike h'.1.2⟩ (eq_limits h'.2)

theorem eq_rows : ∀ {a b : List (List (SFP M Z))}, PartialEq.eq a b = true → List.Forall₂ Alikes a b
  | [], [], _ => .nil
  | [], _ :: _, h => by cases h
  | _ :: _, [], h => by cases h
  | x :: a, y :: b, h => by
    have h' : (PartialEq.eq x y && PartialEq.eq a b) = true := h
    rw [Bool.and_eq_true] at h'
    exact .cons (eq_alikes h'.1) (eq_rows h'.2)

theorem eq_of_nats {a b : List Nat} (h : PartialEq.eq a b = true) : a = b := by
  induction a generalizing b with
  | nil =>
    cases b with
    | nil => rfl
    | cons y b => cases h
  | cons x a ih =>
    cases b with
    | nil => cases h
    | cons y b =>
      have h' : ((x == y) && PartialEq.eq a b) = true := h
      rw [Bool.and_eq_true, beq_iff_eq] at h'
      rw [h'.1, ih h'.2]

theorem eq_of_natss {a b : List (List Nat)} (h : PartialEq.eq a b = true) : a = b := by
  induction a generalizing b with
  | nil =>
    cases b with
    | nil => rfl
    | cons y b => cases h
  | cons x a ih =>
    cases b with
    | nil => cases h
    | cons y b =>
      have h' : (PartialEq.eq x y && PartialEq.eq a b) = true := h
      rw [Bool.and_eq_true] at h'
      rw [eq_of_nats h'.1, ih h'.2]

/-- Simple bases. -/
theorem C166_projections : EqualProjects M Z (Bias (SFP M Z)) ∧ EqualProjects M Z (FixedDense (SFP M Z)) ∧
    EqualProjects M Z Polynomial := by
  refine ⟨fun b b' h => C165_bias (eq_alike h), fun b b' h => C165_fixed (eq_alikes h), fun b b' h => ?_⟩
  have h' : ((b.order == b'.order) && PartialEq.eq b.exponents b'.exponents) = true := h
  rw [Bool.and_eq_true, beq_iff_eq] at h'
  obtain ⟨o, e⟩ := b
  obtain ⟨o', e'⟩ := b'
  obtain ⟨h1, h2⟩ := h'
  cases h1
  cases eq_of_natss h2
  exact C165_polynomial _

/-- Fourier bases, also with coefficients set by hand, unless an interval is `(0.0, -0.0)`. -/
theorem C166_fourier (b b' : Fourier (SFP M Z)) (h : PartialEq.eq b b' = true)
    (hl : ∀ l ∈ b.limits, ¬ Crossed l) (hl' : ∀ l ∈ b'.limits, ¬ Crossed l) : AlikeB M Z b b' := by
  have h' : (PartialEq.eq b.order b'.order && PartialEq.eq b.limits b'.limits &&
    PartialEq.eq b.coefficients b'.coefficients) = true := h
  rw [Bool.and_eq_true, Bool.and_eq_true, show PartialEq.eq b.order b'.order = (b.order == b'.order) from rfl,
    beq_iff_eq] at h'
  have h1 := SFP.hom.fourier b fun l m => not_crossed (hl l m)
  have h2 := SFP.hom.fourier b' fun l m => not_crossed (hl' l m)
  have e : ScalarHom.fourierMap SFP.val b' = ScalarHom.fourierMap SFP.val b := by
    unfold ScalarHom.fourierMap
    rw [h'.1.1, alikeL_iff.1 (eq_limits h'.1.2), (forall₂_iff (fun _ _ => alikes_iff) _ _).1 (eq_rows h'.2)]
  rw [e] at h2
  exact alikeB_of h1 h2

theorem eq_kernels {κ : Type} [PartialEq κ] {R : κ → κ → Prop} (hR : ∀ k k', PartialEq.eq k k' = true → R k k') :
    ∀ {a b : List (Prototype κ (SFP M Z))}, PartialEq.eq a b = true →
      List.Forall₂ (fun p p' => Alikes p.centroid p'.centroid ∧ R p.kernel p'.kernel) a b
  | [], [], _ => .nil
  | [], _ :: _, h => by cases h
  | _ :: _, [], h => by cases h
  | x :: a, y :: b, h => by
    have h' : ((PartialEq.eq x.centroid y.centroid && PartialEq.eq x.kernel y.kernel) && PartialEq.eq a b) = true := h
    rw [Bool.and_eq_true, Bool.and_eq_true] at h'
    exact .cons ⟨eq_alikes h'.1.1, hR _ _ h'.1.2⟩ (eq_kernels hR h'.2)

theorem kernelBasis_alike {κ κ' : Type} [SliceKernel κ (SFP M Z)] [SliceKernel κ' (FP M)] (f : κ → κ')
    (hf : ∀ k, KernelHom SFP.val k (f k)) {b b' : KernelBasis κ (SFP M Z)}
    (h : List.Forall₂ (fun p p' => Alikes p.centroid p'.centroid ∧ f p.kernel = f p'.kernel)
      b.prototypes b'.prototypes) : AlikeB M Z b b' := by
  have drops : ∀ b : KernelBasis κ (SFP M Z), Drops M Z b (KernelBasis.mk (b.prototypes.map fun p =>
      (⟨p.centroid.map SFP.val, f p.kernel⟩ : Prototype κ' (FP M)))) := by
    intro b
    refine SFP.hom.kernelBasis _ _ ?_
    show List.Forall₂ _ b.prototypes (b.prototypes.map _)
    generalize b.prototypes = l
    induction l with
    | nil => exact .nil
    | cons p l ih => exact .cons ⟨rfl, hf _⟩ ih
  refine alikeB_of (drops b) ?_
  have e : (b'.prototypes.map fun p => (⟨p.centroid.map SFP.val, f p.kernel⟩ : Prototype κ' (FP M))) =
      b.prototypes.map fun p => ⟨p.centroid.map SFP.val, f p.kernel⟩ := by
    refine ((forall₂_iff (fun p p' => ?_) _ _).1 h).symm
    rw [alikes_iff, Prototype.mk.injEq]
  rw [← e]
  exact drops b'

/-- Kernel bases. -/
theorem C166_kernels {kind : StationaryKind} :
    EqualProjects M Z (KernelBasis (Stationary kind (SFP M Z)) (SFP M Z)) ∧
    EqualProjects M Z (KernelBasis (RationalQuadratic (SFP M Z)) (SFP M Z)) := by
  constructor
  · intro b b' h
    refine kernelBasis_alike (ScalarHom.stationaryMap SFP.val) (fun k => SFP.hom.stationary k)
      (eq_kernels (R := fun k k' => ScalarHom.stationaryMap SFP.val k = ScalarHom.stationaryMap SFP.val k')
        (fun k k' hk => ?_) h)
    have h' : (_ && _) = true := hk
    rw [Bool.and_eq_true] at h'
    unfold ScalarHom.stationaryMap
    rw [alike_iff.1 (eq_alike h'.1), alikes_iff.1 (eq_alikes h'.2)]
  · intro b b' h
    let f : RationalQuadratic (SFP M Z) → RationalQuadratic (FP M) := fun k =>
      ⟨k.variance.val, k.lengthscales.map SFP.val, k.power.val⟩
    refine kernelBasis_alike f (fun k => SFP.hom.rational k)
      (eq_kernels (R := fun k k' => f k = f k') (fun k k' hk => ?_) h)
    show RationalQuadratic.mk .. = RationalQuadratic.mk ..
    have h' : (_ && _ && _) = true := hk
    rw [Bool.and_eq_true, Bool.and_eq_true] at h'
    rw [alike_iff.1 (eq_alike h'.1.1), alikes_iff.1 (eq_alikes h'.1.2), alike_iff.1 (eq_alike h'.2)]

/-- Tile coding, for hashers whose `==` is equality. -/
theorem C166_tile_coding {T : Type} [BuildHasher T] [PartialEq T]
    (hT : ∀ a b : T, PartialEq.eq a b = true → a = b) : EqualProjects M Z (TileCoding T) := by
  intro b b' h
  have h' : (PartialEq.eq b.hasherBuilder b'.hasherBuilder && (b.nTilings == b'.nTilings) &&
    (b.memorySize == b'.memorySize)) = true := h
  rw [Bool.and_eq_true, Bool.and_eq_true, beq_iff_eq, beq_iff_eq] at h'
  obtain ⟨hb, n, m⟩ := b
  obtain ⟨hb', n', m'⟩ := b'
  obtain ⟨⟨h1, h2⟩, h3⟩ := h'
  cases hT _ _ h1
  cases h2
  cases h3
  exact C165_tile_coding _

section
variable {B C : Type} [PartialEq B] [PartialEq C] [Space B] [Space C]
  [Basis B (List (SFP M Z)) (SFP M Z)] [Basis C (List (SFP M Z)) (SFP M Z)]

/-- Composite bases. -/
theorem C166_composite_projections (hb : EqualProjects M Z B) (hc : EqualProjects M Z C) :
    EqualProjects M Z (Stack B C) ∧ EqualProjects M Z (L0Normaliser B) ∧
    EqualProjects M Z (L1Normaliser B) ∧ EqualProjects M Z (L2Normaliser B) ∧
    EqualProjects M Z (LinfNormaliser B) := by
  refine ⟨fun b b' h => ?_, fun b b' h => (C165_normalised (hb _ _ h)).1,
    fun b b' h => (C165_normalised (hb _ _ h)).2.1, fun b b' h => (C165_normalised (hb _ _ h)).2.2.1,
    fun b b' h => (C165_normalised (hb _ _ h)).2.2.2⟩
  have h' : (_ && _) = true := h
  rw [Bool.and_eq_true] at h'
  exact C165_stack (hb _ _ h'.1) (hc _ _ h'.2)

end

/-! ## Chebyshev bases: function pointers -/

/-- Chebyshev bases that compare equal project alike, if functions with equal addresses are equal. -/
theorem C166_chebyshev {same : (SFP M Z → SFP M Z) → (SFP M Z → SFP M Z) → Bool}
    (hs : ∀ f g, same f g = true → f = g) {n n' k k' : Nat} {ls ls' : List (SFP M Z × SFP M Z)}
    {c c' : Chebyshev (SFP M Z)} (hc : Chebyshev.new n ls = .ok c) (hc' : Chebyshev.new n' ls' = .ok c')
    (hl : ∀ l ∈ ls, ¬ Crossed l) (hl' : ∀ l ∈ ls', ¬ Crossed l)
    (h : (Chebyshev.withZeroth^[k] c).eqBy same (Chebyshev.withZeroth^[k'] c') = true) :
    AlikeB M Z (Chebyshev.withZeroth^[k] c) (Chebyshev.withZeroth^[k'] c') := by
  have lst : ∀ {T : Type} {eq : T → T → Bool}, (∀ a b, eq a b = true → a = b) →
      ∀ a b : List T, listEq eq a b = true → a = b := by
    intro T eq he a
    induction a with
    | nil =>
      intro b hb
      cases b with
      | nil => rfl
      | cons y b => cases hb
    | cons x a ih =>
      intro b hb
      cases b with
      | nil => cases hb
      | cons y b =>
        have hb' : (eq x y && listEq eq a b) = true := hb
        rw [Bool.and_eq_true] at hb'
        rw [he _ _ hb'.1, ih b hb'.2]
  obtain ⟨e, d, h1, h2⟩ := SFP.hom.chebyshev_new n ls hc
  obtain ⟨e', d', h1', h2'⟩ := SFP.hom.chebyshev_new n' ls' hc'
  have iter : ∀ (k : Nat) {c : Chebyshev (SFP M Z)} {d : Chebyshev (FP M)}, ScalarHom.ChebyshevHom SFP.val c d →
      ScalarHom.ChebyshevHom SFP.val (Chebyshev.withZeroth^[k] c) (Chebyshev.withZeroth^[k] d) ∧
      (Chebyshev.withZeroth^[k] c).limits = c.limits := by
    intro k
    induction k with
    | zero => exact fun h => ⟨h, rfl⟩
    | succ k ih => exact fun h => ih (SFP.hom.chebyshev_withZeroth h)
  obtain ⟨i1, j1⟩ := iter k h2
  obtain ⟨i2, j2⟩ := iter k' h2'
  generalize Chebyshev.withZeroth^[k] c = x at *
  generalize Chebyshev.withZeroth^[k'] c' = y at *
  generalize Chebyshev.withZeroth^[k] d = u at *
  unfold Chebyshev.eqBy at h
  rw [Bool.and_eq_true, Bool.and_eq_true] at h
  have hp := lst (lst hs) _ _ h.2
  have hlim := alikeL_iff.1 (eq_limits h.1.2)
  have j : ScalarHom.ChebyshevHom SFP.val y u := ⟨by rw [i1.limits, hlim], by rw [← hp]; exact i1.polys⟩
  exact alikeB_of (SFP.hom.chebyshev i1 fun l m => not_crossed (hl l (e ▸ j1 ▸ m)))
    (SFP.hom.chebyshev j fun l m => not_crossed (hl' l (e' ▸ j2 ▸ m)))

/-- Rust does not promise that one function has one address. With a comparison of pointers that
never confuses two functions, but does not recognise them either, a Chebyshev basis differs from
itself. -/
theorem C166_chebyshev_differs : ∃ same : (SFP M Z → SFP M Z) → (SFP M Z → SFP M Z) → Bool,
    (∀ f g, same f g = true → f = g) ∧
    ∃ c, Chebyshev.new 1 [((Scalar.zero : SFP M Z), (Scalar.one : SFP M Z))] = .ok c ∧
      c.eqBy same c = false := by
  refine ⟨fun _ _ => false, fun f g h => absurd h Bool.false_ne_true, _, rfl, ?_⟩
  unfold Chebyshev.eqBy
  rw [Bool.and_eq_false_iff]
  exact .inr rfl

/-! ## Examples -/

section
variable (M Z)

/-- Two Momentum optimisers that compare equal but are different values. -/
example : PartialEq.eq (SGDMomentum.mk (nz M Z) Scalar.one [Scalar.zero]) (SGDMomentum.mk Scalar.zero Scalar.one [nz M Z]) = true := by
  have h : ∀ {a b : SFP M Z}, a.val.1 = b.val.1 → a.val.1 ≠ .nan → PartialEq.eq a b = true := by
    intro a b h1 h2
    show XReal.beq a.val.1 b.val.1 = true
    rw [← h1]
    revert h2
    cases a.val.1 <;> simp [XReal.beq]
  have v0 : (Scalar.zero : SFP M Z).val.1 = .fin 0 := Machine.val_zero
  have v1 : (Scalar.one : SFP M Z).val.1 = .fin 1 := Machine.val_one
  have vn : (nz M Z).val.1 = .fin 0 := by rw [nz_val]; exact Machine.val_zero
  show (PartialEq.eq (nz M Z) Scalar.zero && PartialEq.eq (Scalar.one : SFP M Z) Scalar.one &&
    (PartialEq.eq Scalar.zero (nz M Z) && true)) = true
  rw [h (vn.trans v0.symm) (by rw [vn]; exact fun h => by cases h), h rfl (by rw [v1]; exact fun h => by cases h),
    h (v0.trans vn.symm) (by rw [v0]; exact fun h => by cases h)]
  rfl

end

end Lfa

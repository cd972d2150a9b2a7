import Verif.Props.C01_C05
import Verif.Props.C59_C68
import Verif.Props.C17_C22
import Verif.Props.C109_C110

/-!
# C140: which runs can be repeated

Every `HashMap` has its own iteration order, so a run of the same program may see the sparse features of each call
in another order. Here each call takes any order.
-/

set_option linter.unusedSectionVars false

namespace Lfa

open Spec

section General

variable {K : Type} [Scalar K]

/-- A step of the optimiser does not depend on the iteration order of the features, in any arithmetic, panics
included. -/
def OrderFree (O : Type) [Optimiser O K] : Prop :=
  ∀ (o : O) (w : List K) (φ ψ : Features K) (s : K), KeysUnique φ → Same φ ψ →
    Optimiser.stepScaled o w φ s = Optimiser.stepScaled o w ψ s ∧ Optimiser.step o w φ = Optimiser.step o w ψ

theorem velocityUpdate_perm (m : K) (v : List K) {φ ψ : Features K} (s : K) (h : KeysUnique φ) (hs : Same φ ψ) :
    velocityUpdate m v φ s = velocityUpdate m v ψ s := by
  cases hs with
  | dense da => rfl
  | @sparse n m₁ m₂ hp => exact Features.scatterMod_perm (fun x a => x +. a *. s) h hp _

theorem foldlM_perm_of_comm {α β : Type} {f : β → Nat × α → P β}
    (hc : ∀ b x y, x.1 ≠ y.1 → (f b x >>= fun b => f b y) = (f b y >>= fun b => f b x))
    {l l' : List (Nat × α)} (hp : l.Perm l') : (l.map Prod.fst).Nodup → ∀ b, l.foldlM f b = l'.foldlM f b := by
  induction hp with
  | nil => intro _ _; rfl
  | cons x _ ih =>
    intro hn b
    rw [List.foldlM_cons, List.foldlM_cons]
    rw [List.map_cons, List.nodup_cons] at hn
    congr 1
    funext b
    exact ih hn.2 b
  | swap x y l =>
    intro hn b
    simp only [List.map_cons, List.nodup_cons, List.mem_cons, not_or] at hn
    have key := hc b y x hn.1.1
    calc (y :: x :: l).foldlM f b = (f b y >>= fun b => f b x) >>= fun b => l.foldlM f b := by
          rw [List.foldlM_cons, bind_assoc]
          simp only [List.foldlM_cons]
      _ = (f b x >>= fun b => f b y) >>= fun b => l.foldlM f b := by rw [key]
      _ = _ := by
          rw [List.foldlM_cons, bind_assoc]
          simp only [List.foldlM_cons]
  | trans p q ih ih' =>
    intro hn b
    rw [ih hn b, ih' (((p.map Prod.fst).nodup_iff).1 hn) b]

/-- A loop body that changes three arrays at one index. -/
theorem three_comm (g₁ g₂ : K → K → K) (g : K → K → K → K → K)
    {f : List K × List K × List K → Nat × K → P (List K × List K × List K)}
    (hf : ∀ a b c i x, f (a, b, c) (i, x) =
      if h : i < a.length ∧ i < b.length ∧ i < c.length then
        .ok (a.set i (g₁ (a[i]'h.1) x), b.set i (g₂ (b[i]'h.2.1) x),
          c.set i (g (c[i]'h.2.2) (a[i]'h.1) (b[i]'h.2.1) x))
      else .error .indexOutOfBounds)
    (st : List K × List K × List K) (x y : Nat × K) (hxy : x.1 ≠ y.1) :
    (f st x >>= fun b => f b y) = (f st y >>= fun b => f b x) := by
  obtain ⟨a, b, c⟩ := st
  obtain ⟨i, x⟩ := x
  obtain ⟨j, y⟩ := y
  have hij : i ≠ j := hxy
  rw [hf, hf]
  by_cases h1 : i < a.length ∧ i < b.length ∧ i < c.length <;>
    by_cases h2 : j < a.length ∧ j < b.length ∧ j < c.length
  · rw [dif_pos h1, dif_pos h2, P.ok_bind, P.ok_bind, hf, hf, dif_pos (by simpa using h2),
      dif_pos (by simpa using h1)]
    simp only [List.getElem_set_ne hij, List.getElem_set_ne hij.symm]
    rw [List.set_comm _ _ hij, List.set_comm _ _ hij, List.set_comm _ _ hij]
  · rw [dif_pos h1, dif_neg h2, P.ok_bind, hf, dif_neg (by simpa using h2)]
    rfl
  · rw [dif_neg h1, dif_pos h2, P.ok_bind, hf, dif_neg (by simpa using h1)]
    rfl
  · rw [dif_neg h1, dif_neg h2]
    rfl

theorem adam_body_eq (o : Adam K) (d : Bool) (s : K) (a b c : List K) (i : Nat) (x : K) :
    o.body d s (a, b, c) (i, x) =
      if h : i < a.length ∧ i < b.length ∧ i < c.length then
        .ok (a.set i ((if d then o.beta1 *. a[i]'h.1 else a[i]'h.1) +. (Scalar.ofNat 1 -. o.beta1) *. (x *. s)),
          b.set i ((if d then o.beta2 *. b[i]'h.2.1 else b[i]'h.2.1) +.
            (Scalar.ofNat 1 -. o.beta2) *. (x *. s) *. (x *. s)),
          c.set i (c[i]'h.2.2 +. o.learningRate *.
            (((if d then o.beta1 *. a[i]'h.1 else a[i]'h.1) +. (Scalar.ofNat 1 -. o.beta1) *. (x *. s)) /.
              (Scalar.ofNat 1 -. o.beta1Prod)) /.
            (Scalar.sqrt (((if d then o.beta2 *. b[i]'h.2.1 else b[i]'h.2.1) +.
              (Scalar.ofNat 1 -. o.beta2) *. (x *. s) *. (x *. s)) /. (Scalar.ofNat 1 -. o.beta2Prod)) +. EPS)))
      else .error .indexOutOfBounds := by
  unfold Adam.body
  by_cases h1 : i < a.length
  · by_cases h2 : i < b.length
    · by_cases h3 : i < c.length
      · rw [dif_pos ⟨h1, h2, h3⟩]
        simp only [idx, List.getElem?_eq_getElem h1, List.getElem?_eq_getElem h2, setIdx, if_pos h1, if_pos h2,
          modIdx_of_lt h3, P.ok_bind]
      · rw [dif_neg (by tauto)]
        simp only [idx, List.getElem?_eq_getElem h1, List.getElem?_eq_getElem h2, setIdx, if_pos h1, if_pos h2,
          modIdx_of_ge (not_lt.1 h3), P.ok_bind]
        rfl
    · rw [dif_neg (by tauto)]
      simp only [idx, List.getElem?_eq_getElem h1, List.getElem?_eq_none (not_lt.1 h2), P.ok_bind]
      rfl
  · rw [dif_neg (by tauto)]
    simp only [idx, List.getElem?_eq_none (not_lt.1 h1)]
    rfl

theorem adamax_body_eq (o : AdaMax K) (d : Bool) (s : K) (a b c : List K) (i : Nat) (x : K) :
    o.body d s (a, b, c) (i, x) =
      if h : i < a.length ∧ i < b.length ∧ i < c.length then
        .ok (a.set i ((if d then o.beta1 *. a[i]'h.1 else a[i]'h.1) +. (Scalar.ofNat 1 -. o.beta1) *. (x *. s)),
          b.set i (Scalar.max (if d then o.beta2 *. b[i]'h.2.1 else b[i]'h.2.1) (Scalar.abs (x *. s))),
          c.set i (c[i]'h.2.2 +. o.learningRate *.
            (((if d then o.beta1 *. a[i]'h.1 else a[i]'h.1) +. (Scalar.ofNat 1 -. o.beta1) *. (x *. s)) /.
              (Scalar.ofNat 1 -. o.beta1Prod)) /.
            (Scalar.max (if d then o.beta2 *. b[i]'h.2.1 else b[i]'h.2.1) (Scalar.abs (x *. s)) +. EPS)))
      else .error .indexOutOfBounds := by
  unfold AdaMax.body
  by_cases h1 : i < a.length
  · by_cases h2 : i < b.length
    · by_cases h3 : i < c.length
      · rw [dif_pos ⟨h1, h2, h3⟩]
        simp only [idx, List.getElem?_eq_getElem h1, List.getElem?_eq_getElem h2, setIdx, if_pos h1, if_pos h2,
          modIdx_of_lt h3, P.ok_bind]
      · rw [dif_neg (by tauto)]
        simp only [idx, List.getElem?_eq_getElem h1, List.getElem?_eq_getElem h2, setIdx, if_pos h1, if_pos h2,
          modIdx_of_ge (not_lt.1 h3), P.ok_bind]
        rfl
    · rw [dif_neg (by tauto)]
      simp only [idx, List.getElem?_eq_getElem h1, List.getElem?_eq_none (not_lt.1 h2), P.ok_bind]
      rfl
  · rw [dif_neg (by tauto)]
    simp only [idx, List.getElem?_eq_none (not_lt.1 h1)]
    rfl

theorem orderFree_of_scaled {O : Type} [Optimiser O K]
    (h : ∀ (o : O) (w : List K) (φ ψ : Features K) (s : K), KeysUnique φ → Same φ ψ →
      Optimiser.stepScaled o w φ s = Optimiser.stepScaled o w ψ s)
    (hd : ∀ (o : O) (w : List K) (φ : Features K), Optimiser.step o w φ = Optimiser.stepScaled o w φ Scalar.one) :
    OrderFree (K := K) O := fun o w φ ψ s hk hs => ⟨h o w φ ψ s hk hs, by rw [hd, hd, h o w φ ψ _ hk hs]⟩

/-- A step of every optimiser but ISGD is the same whatever the order. -/
theorem C140_order_free :
    OrderFree (K := K) (SGD K) ∧ OrderFree (K := K) (SGDMomentum K) ∧ OrderFree (K := K) (NAG K) ∧
      OrderFree (K := K) (Adagrad K) ∧ OrderFree (K := K) (Adam K) ∧ OrderFree (K := K) (AdaMax K) := by
  refine ⟨?_, orderFree_of_scaled ?_ fun _ _ _ => rfl, orderFree_of_scaled ?_ fun _ _ _ => rfl,
    orderFree_of_scaled ?_ fun _ _ _ => rfl, orderFree_of_scaled ?_ fun _ _ _ => rfl,
    orderFree_of_scaled ?_ fun _ _ _ => rfl⟩
  · intro o w φ ψ s hk hs
    have h := (C02_order_irrelevant φ ψ hk hs).2.2.2.2.2.2.2
    constructor
    · change (φ.scaledAddto (o.lr *. s) w >>= _) = (ψ.scaledAddto (o.lr *. s) w >>= _)
      rw [h]
    · change (φ.scaledAddto o.lr w >>= _) = (ψ.scaledAddto o.lr w >>= _)
      rw [h]
  · intro o w φ ψ s hk hs
    change (velocityUpdate o.momentum o.velocity φ s >>= _) = (velocityUpdate o.momentum o.velocity ψ s >>= _)
    rw [velocityUpdate_perm _ _ _ hk hs]
  · intro o w φ ψ s hk hs
    have h := (C02_order_irrelevant φ ψ hk hs).2.2.2.2.2.2.2
    simp only [Optimiser.stepScaled]
    rw [velocityUpdate_perm _ _ _ hk hs]
    simp only [h]
  · intro o w φ ψ s hk hs
    have : o.loop w φ s = o.loop w ψ s := by
      cases hs with
      | dense da => rfl
      | @sparse n m₁ m₂ hp =>
        have hb : Adagrad.sparseBody o.learningRate s m₁ = Adagrad.sparseBody o.learningRate s m₂ := by
          funext st i
          unfold Adagrad.sparseBody
          rw [HMap.get?_perm hk hp]
        simp only [Adagrad.loop, hb]
    simp only [Optimiser.stepScaled, this]
  · intro o w φ ψ s hk hs
    have : ∀ o : Adam K, o.loop w φ s = o.loop w ψ s := by
      intro o
      cases hs with
      | dense da => rfl
      | @sparse n m₁ m₂ hp =>
        exact foldlM_perm_of_comm (three_comm
          (fun a x => (if false then o.beta1 *. a else a) +. (Scalar.ofNat 1 -. o.beta1) *. (x *. s))
          (fun b x => (if false then o.beta2 *. b else b) +. (Scalar.ofNat 1 -. o.beta2) *. (x *. s) *. (x *. s))
          (fun c a b x => c +. o.learningRate *.
            (((if false then o.beta1 *. a else a) +. (Scalar.ofNat 1 -. o.beta1) *. (x *. s)) /.
              (Scalar.ofNat 1 -. o.beta1Prod)) /.
            (Scalar.sqrt (((if false then o.beta2 *. b else b) +.
              (Scalar.ofNat 1 -. o.beta2) *. (x *. s) *. (x *. s)) /. (Scalar.ofNat 1 -. o.beta2Prod)) +. EPS))
          (adam_body_eq o false s)) hp hk _
    simp only [Optimiser.stepScaled, this]
  · intro o w φ ψ s hk hs
    have : ∀ o : AdaMax K, o.loop w φ s = o.loop w ψ s := by
      intro o
      cases hs with
      | dense da => rfl
      | @sparse n m₁ m₂ hp =>
        exact foldlM_perm_of_comm (three_comm
          (fun a x => (if false then o.beta1 *. a else a) +. (Scalar.ofNat 1 -. o.beta1) *. (x *. s))
          (fun b x => Scalar.max (if false then o.beta2 *. b else b) (Scalar.abs (x *. s)))
          (fun c a b x => c +. o.learningRate *.
            (((if false then o.beta1 *. a else a) +. (Scalar.ofNat 1 -. o.beta1) *. (x *. s)) /.
              (Scalar.ofNat 1 -. o.beta1Prod)) /.
            (Scalar.max (if false then o.beta2 *. b else b) (Scalar.abs (x *. s)) +. EPS))
          (adamax_body_eq o false s)) hp hk _
    simp only [Optimiser.stepScaled, this]

end General

section Runs

variable {K : Type} [Scalar K] {B O I : Type} [Space B] [Basis B I K] [Optimiser O K]

/-- `evaluate(x)` can return `v`. -/
def CanEvaluate (fa : ScalarLFA B O K) (x : I) (v : K) : Prop :=
  ∃ φ ψ : Features K, Basis.project fa.basis x = .ok (.ok φ) ∧ Same φ ψ ∧ ψ.dot fa.weights = .ok v

/-- `update(x, e)` can turn `fa` into `fa'`. -/
def CanUpdate (fa : ScalarLFA B O K) (x : I) (e : K) (fa' : ScalarLFA B O K) : Prop :=
  ∃ φ ψ : Features K, Basis.project fa.basis x = .ok (.ok φ) ∧ Same φ ψ ∧ ∃ o w,
    Optimiser.stepScaled fa.optimiser fa.weights ψ e = .ok (.ok (), o, w) ∧
      fa' = { fa with weights := w, optimiser := o }

/-- `update_with(x, |_, p| f(p))` can turn `fa` into `fa'`. -/
def CanUpdateWith (fa : ScalarLFA B O K) (x : I) (f : K → K) (fa' : ScalarLFA B O K) : Prop :=
  ∃ φ ψ : Features K, Basis.project fa.basis x = .ok (.ok φ) ∧ Same φ ψ ∧ ∃ v o w,
    ψ.dot fa.weights = .ok v ∧
    Optimiser.stepScaled fa.optimiser fa.weights ψ (f v) = .ok (.ok (), o, w) ∧
      fa' = { fa with weights := w, optimiser := o }

/-- The calls can turn `fa` into `fa'`. -/
inductive CanRun : ScalarLFA B O K → List (I × K) → ScalarLFA B O K → Prop
  | nil (fa : ScalarLFA B O K) : CanRun fa [] fa
  | cons {fa fa₁ fa' : ScalarLFA B O K} {x : I} {e : K} {es : List (I × K)} (h : CanUpdate fa x e fa₁)
      (t : CanRun fa₁ es fa') : CanRun fa ((x, e) :: es) fa'

/-- The calls with their closures can turn `fa` into `fa'`. -/
inductive CanRunWith : ScalarLFA B O K → List (I × (K → K)) → ScalarLFA B O K → Prop
  | nil (fa : ScalarLFA B O K) : CanRunWith fa [] fa
  | cons {fa fa₁ fa' : ScalarLFA B O K} {x : I} {f : K → K} {es : List (I × (K → K))}
      (h : CanUpdateWith fa x f fa₁) (t : CanRunWith fa₁ es fa') : CanRunWith fa ((x, f) :: es) fa'

/-- Projections are maps: every index is stored once. -/
def Maps (b : B) : Prop :=
  ∀ (x : I) (φ : Features K), Basis.project b x = .ok (.ok φ) → KeysUnique φ

/-- Every nesting of the crate's own bases projects to maps. -/
theorem C140_built_maps {K : Type} [ScalarInf K] {A : Allow K}
    (hA : ∀ b : FixedSparse K, A.fixedSparse b → ∀ i ∈ b.active, i < b.nFeatures) {B : Type} [Space B]
    [Basis B (List K) K] [EnumerableBasis B (List K) K] {b : B} (hb : Built A b) : Maps (K := K) (I := List K) b :=
  fun x φ h => keysUnique_of_wf (C17_in_range_partial hA hb x φ h)

theorem same_refl (φ : Features K) : Same φ φ := by
  cases φ with
  | dense da => exact .dense da
  | sparse sa => exact .sparse sa.dim (List.Perm.refl _)

/-- What a call of `update` returns is one of the results it can have. -/
theorem C140_update_can (fa fa' : ScalarLFA B O K) (x : I) (e : K)
    (h : fa.update x e = .ok (.ok (), fa')) : CanUpdate fa x e fa' := by
  unfold ScalarLFA.update at h
  cases hp : Basis.project (K := K) fa.basis x with
  | error p =>
    rw [hp] at h
    cases h
  | ok r =>
    rw [hp] at h
    cases r with
    | error e => cases h
    | ok φ =>
      refine ⟨φ, φ, hp, same_refl φ, ?_⟩
      cases hs : Optimiser.stepScaled fa.optimiser fa.weights φ e with
      | error p =>
        simp only [P.ok_bind, hs] at h
        cases h
      | ok r =>
        simp only [P.ok_bind, hs] at h
        obtain ⟨r, o, w⟩ := r
        cases h
        exact ⟨o, w, rfl, rfl⟩

/-- With any optimiser but ISGD, in any arithmetic, an update has one result. -/
theorem C140_update {fa fa₁ fa₂ : ScalarLFA B O K} (ho : OrderFree (K := K) O) {x : I} {e : K}
    (hb : Maps (K := K) (I := I) fa.basis) (h₁ : CanUpdate fa x e fa₁) (h₂ : CanUpdate fa x e fa₂) : fa₁ = fa₂ := by
  obtain ⟨φ, ψ₁, hp, hs₁, o₁, w₁, h₁, rfl⟩ := h₁
  obtain ⟨φ', ψ₂, hp', hs₂, o₂, w₂, h₂, rfl⟩ := h₂
  rw [hp] at hp'
  cases hp'
  have hk := hb x φ hp
  rw [← (ho fa.optimiser fa.weights φ ψ₁ e hk hs₁).1] at h₁
  rw [← (ho fa.optimiser fa.weights φ ψ₂ e hk hs₂).1, h₁] at h₂
  cases h₂
  rfl

theorem canUpdate_basis {fa fa₁ : ScalarLFA B O K} {x : I} {e : K} (h : CanUpdate fa x e fa₁) :
    fa₁.basis = fa.basis := by
  obtain ⟨_, _, _, _, _, _, _, rfl⟩ := h
  rfl

/-- And so has any number of updates: the run can be repeated exactly. -/
theorem C140_run {fa fa₁ fa₂ : ScalarLFA B O K} (ho : OrderFree (K := K) O) {es : List (I × K)}
    (hb : Maps (K := K) (I := I) fa.basis) (h₁ : CanRun fa es fa₁) (h₂ : CanRun fa es fa₂) : fa₁ = fa₂ := by
  induction h₁ with
  | nil fa =>
    cases h₂
    rfl
  | @cons fa fa₁ fa' x e es h t ih =>
    cases h₂ with
    | @cons _ fa₃ _ _ _ _ h' t' =>
      obtain rfl := C140_update ho hb h h'
      exact ih (by rw [canUpdate_basis h]; exact hb) t'

/-- One prediction, when every order gives the same. -/
def OneValue (fa : ScalarLFA B O K) (x : I) : Prop :=
  ∀ v v' : K, CanEvaluate fa x v → CanEvaluate fa x v' → v = v'

/-- `update_with` has one result wherever the prediction has one value. -/
theorem C140_update_with_partial {fa fa₁ fa₂ : ScalarLFA B O K} (ho : OrderFree (K := K) O) {x : I} {f : K → K}
    (hb : Maps (K := K) (I := I) fa.basis) (hv : OneValue fa x) (h₁ : CanUpdateWith fa x f fa₁)
    (h₂ : CanUpdateWith fa x f fa₂) : fa₁ = fa₂ := by
  obtain ⟨φ, ψ₁, hp, hs₁, v₁, o₁, w₁, hd₁, h₁, rfl⟩ := h₁
  obtain ⟨φ', ψ₂, hp', hs₂, v₂, o₂, w₂, hd₂, h₂, rfl⟩ := h₂
  rw [hp] at hp'
  cases hp'
  have := hv v₁ v₂ ⟨φ, ψ₁, hp, hs₁, hd₁⟩ ⟨φ, ψ₂, hp, hs₂, hd₂⟩
  subst this
  exact C140_update ho hb ⟨φ, ψ₁, hp, hs₁, o₁, w₁, h₁, rfl⟩ ⟨φ, ψ₂, hp, hs₂, o₂, w₂, h₂, rfl⟩

end Runs

/-! ### Exact arithmetic -/

section Real

variable {B O I : Type} [Space B] [Basis B I ℝ] [Optimiser O ℝ]

theorem isgd_order_free : OrderFree (K := ℝ) (ISGD ℝ) := by
  intro o w φ ψ s hk hs
  have h := (C02_order_irrelevant φ ψ hk hs).2.2.2.2.2.2.2
  have hc : o.computeLr φ = o.computeLr ψ := by
    unfold ISGD.computeLr
    rw [C02_fold φ ψ hs _ (fun a x y => by simp; ring)]
  constructor
  · change (φ.scaledAddto (o.computeLr φ *. s) w >>= _) = (ψ.scaledAddto (o.computeLr ψ *. s) w >>= _)
    rw [h, hc]
  · change (φ.scaledAddto (o.computeLr φ) w >>= _) = (ψ.scaledAddto (o.computeLr ψ) w >>= _)
    rw [h, hc]

theorem oneValue_real (fa : ScalarLFA B O ℝ) (x : I) : OneValue fa x := by
  rintro v v' ⟨φ, ψ, hp, hs, hd⟩ ⟨φ', ψ', hp', hs', hd'⟩
  rw [hp] at hp'
  cases hp'
  rw [← (C02_dot_sum φ ψ hs).2] at hd
  rw [← (C02_dot_sum φ ψ' hs').2, hd] at hd'
  cases hd'
  rfl

/-- In exact arithmetic every run can be repeated, also with ISGD and through predictions. -/
theorem C140_real {fa fa₁ fa₂ : ScalarLFA B O ℝ} (ho : OrderFree (K := ℝ) O) {es : List (I × (ℝ → ℝ))}
    (hb : Maps (K := ℝ) (I := I) fa.basis) (h₁ : CanRunWith fa es fa₁) (h₂ : CanRunWith fa es fa₂) :
    OrderFree (K := ℝ) (ISGD ℝ) ∧ fa₁ = fa₂ := by
  refine ⟨isgd_order_free, ?_⟩
  induction h₁ with
  | nil fa =>
    cases h₂
    rfl
  | @cons fa fa₁ fa' x e es h t ih =>
    cases h₂ with
    | @cons _ fa₃ _ _ _ _ h' t' =>
      obtain rfl := C140_update_with_partial ho hb (oneValue_real fa x) h h'
      refine ih ?_ t'
      obtain ⟨_, _, _, _, _, _, _, _, _, rfl⟩ := h
      exact hb

end Real

/-! ### Floating point -/

section Floating

open Machine

variable {M : Machine} {B O I : Type} [Space B] [Basis B I (FP M)] [Optimiser O (FP M)]

theorem fp_add_comm (a b : FP M) : a +. b = b +. a := by
  apply fp_ext
  rw [val_add, val_add]
  congr 2
  cases ha : a.1 <;> cases hb : b.1 <;> simp [XReal.add, add_comm]

theorem fp_zero_add (a : FP M) : Scalar.zero +. a = a := by
  apply fp_ext
  rw [val_add, val_zero]
  cases ha : a.1 with
  | fin r =>
    simp only [XReal.add, zero_add]
    exact a.rep r ha
  | _ => rfl

/-- With two active features or fewer a prediction has one value on every machine. -/
theorem C140_two_active (fa : ScalarLFA B O (FP M)) (x : I)
    (h : ∀ φ : Features (FP M), Basis.project fa.basis x = .ok (.ok φ) →
      ∀ n m, φ = .sparse ⟨n, m⟩ → m.length ≤ 2) : OneValue fa x := by
  have key : ∀ φ ψ : Features (FP M), (∀ n m, φ = .sparse ⟨n, m⟩ → m.length ≤ 2) → Same φ ψ → ∀ w,
      φ.dot w = ψ.dot w := by
    intro φ ψ hl hs w
    cases hs with
    | dense da => rfl
    | @sparse n m₁ m₂ hp =>
      have hl := hl n m₁ rfl
      change Features.dotSparse ⟨n, m₁⟩ w = Features.dotSparse ⟨n, m₂⟩ w
      match m₁, hl, hp with
      | [], _, hp => rw [hp.nil_eq]
      | [e], _, hp => rw [List.singleton_perm.1 hp]
      | [e, e'], _, hp =>
        rcases List.perm_pair.1 hp.symm with rfl | rfl
        · rfl
        · by_cases h1 : e.1 < w.length <;> by_cases h2 : e'.1 < w.length <;>
            simp [Features.dotSparse, List.foldlM_cons, idx, h1, h2, P.ok_bind, fp_zero_add]
          · exact fp_add_comm _ _
          all_goals rfl
  rintro v v' ⟨φ, ψ, hp, hs, hd⟩ ⟨φ', ψ', hp', hs', hd'⟩
  rw [hp] at hp'
  cases hp'
  rw [← key φ ψ (h φ hp) hs] at hd
  rw [← key φ ψ' (h φ hp) hs', hd] at hd'
  cases hd'
  rfl

theorem ulp54 {c : ℝ} (h0 : 0 ≤ c) (h1 : c < 8) : binary64Format.ulp ((2 : ℝ) ^ 54 + c) = 2 := by
  have hpos : (0 : ℝ) < 2 ^ 54 + c := by positivity
  have hlog : Int.log 2 |((2 : ℝ) ^ 54 + c)| = 54 := by
    rw [abs_of_pos hpos]
    have l1 := (Int.zpow_le_iff_le_log (R := ℝ) (b := 2) (x := 54) (by norm_num) hpos).1 (by norm_num; exact h0)
    have l2 := (Int.lt_zpow_iff_log_lt (R := ℝ) (b := 2) (x := 55) (by norm_num) hpos).1 (by norm_num; linarith)
    omega
  unfold Format.ulp
  rw [hlog]
  rfl

theorem nearest54_low {c : ℝ} (h0 : 0 ≤ c) (h1 : c < 2) : binary64Format.nearest (2 ^ 54 + c) = 2 ^ 54 := by
  unfold Format.nearest
  rw [ulp54 h0 (by linarith)]
  have hq : ((2 : ℝ) ^ 54 + c) / 2 ^ (2 : ℤ) = ((2 ^ 52 : ℤ) : ℝ) + c / 4 := by
    push_cast
    norm_num
    ring
  have hr : rne (((2 : ℝ) ^ 54 + c) / 2 ^ (2 : ℤ)) = 2 ^ 52 := by
    rw [hq]
    unfold rne
    rw [Int.fract_intCast_add, Int.floor_intCast_add]
    have f1 : Int.fract (c / 4) = c / 4 := Int.fract_eq_self.2 ⟨by positivity, by linarith⟩
    have f2 : ⌊c / 4⌋ = 0 := Int.floor_eq_zero_iff.2 ⟨by positivity, by linarith⟩
    rw [f1, f2, if_pos (by linarith)]
    norm_num
  rw [hr]
  norm_num

theorem nearest54_high {c : ℝ} (h0 : 2 < c) (h1 : c < 6) :
    binary64Format.nearest (2 ^ 54 + c) = 2 ^ 54 + 4 := by
  unfold Format.nearest
  rw [ulp54 (by linarith) (by linarith)]
  have hr : rne (((2 : ℝ) ^ 54 + c) / 2 ^ (2 : ℤ)) = 2 ^ 52 + 1 := by
    rcases lt_or_ge c 4 with hc | hc
    · have hq : ((2 : ℝ) ^ 54 + c) / 2 ^ (2 : ℤ) = ((2 ^ 52 : ℤ) : ℝ) + c / 4 := by
        push_cast
        norm_num
        ring
      rw [hq]
      unfold rne
      rw [Int.fract_intCast_add, Int.floor_intCast_add]
      have f1 : Int.fract (c / 4) = c / 4 := Int.fract_eq_self.2 ⟨by linarith, by linarith⟩
      have f2 : ⌊c / 4⌋ = 0 := Int.floor_eq_zero_iff.2 ⟨by linarith, by linarith⟩
      rw [f1, f2, if_neg (by linarith), if_pos (by linarith)]
      norm_num
    · have hq : ((2 : ℝ) ^ 54 + c) / 2 ^ (2 : ℤ) = ((2 ^ 52 + 1 : ℤ) : ℝ) + (c - 4) / 4 := by
        push_cast
        norm_num
        ring
      rw [hq]
      unfold rne
      rw [Int.fract_intCast_add, Int.floor_intCast_add]
      have f1 : Int.fract ((c - 4) / 4) = (c - 4) / 4 := Int.fract_eq_self.2 ⟨by linarith, by linarith⟩
      have f2 : ⌊(c - 4) / 4⌋ = 0 := Int.floor_eq_zero_iff.2 ⟨by linarith, by linarith⟩
      rw [f1, f2, if_pos (by linarith)]
      norm_num
  rw [hr]
  norm_num

theorem rnd54_low (hM : M.rnd = binary64Format.rnd) {c : ℝ} (h0 : 0 ≤ c) (h1 : c < 2) :
    M.rnd (2 ^ 54 + c) = .fin (2 ^ 54) := by
  rw [hM, binary64Format.rnd_of_lt (by
    rw [nearest54_low h0 h1, abs_of_pos (by positivity)]
    show (2 : ℝ) ^ 54 < 2 ^ (1024 : ℤ)
    rw [show ((1024 : ℤ)) = ((1024 : ℕ) : ℤ) from rfl, zpow_natCast]
    exact pow_lt_pow_right₀ (by norm_num) (by norm_num)), nearest54_low h0 h1]

theorem rnd54_high (hM : M.rnd = binary64Format.rnd) {c : ℝ} (h0 : 2 < c) (h1 : c < 6) :
    M.rnd (2 ^ 54 + c) = .fin (2 ^ 54 + 4) := by
  rw [hM, binary64Format.rnd_of_lt (by
    rw [nearest54_high h0 h1, abs_of_pos (by positivity)]
    show (2 : ℝ) ^ 54 + 4 < 2 ^ (1024 : ℤ)
    rw [show ((1024 : ℤ)) = ((1024 : ℕ) : ℤ) from rfl, zpow_natCast]
    refine lt_of_lt_of_le ?_ (pow_le_pow_right₀ (by norm_num : (1 : ℝ) ≤ 2) (by norm_num : 55 ≤ 1024))
    norm_num), nearest54_high h0 h1]

theorem is_lit54 (hM : M.rnd = binary64Format.rnd) : Is (M.lit (2 ^ 54)) (2 ^ 54) := by
  have := rnd54_low hM (le_refl 0) (by norm_num)
  rw [add_zero] at this
  exact this

theorem is_lit_neg54 (hM : M.rnd = binary64Format.rnd) : Is (M.lit (-2 ^ 54)) (-2 ^ 54) := by
  show M.rnd (-2 ^ 54) = _
  rw [M.rnd_neg, show M.rnd (2 ^ 54) = .fin (2 ^ 54) from is_lit54 hM]
  rfl

theorem fp_mul_one (a : FP M) : a *. Scalar.one = a := by
  apply fp_ext
  rw [val_mul, val_one]
  cases ha : a.1 with
  | fin r =>
    simp only [XReal.mul, mul_one]
    exact a.rep r ha
  | nan => rfl
  | pinf =>
    simp [XReal.mul, XReal.infSign]
  | ninf =>
    simp [XReal.mul, XReal.infSign, not_le.2 (zero_lt_one (α := ℝ))]

/-- Three active features: weights 1, 2⁵⁴ and -2⁵⁴ predict 0 in one order and 1 in another. -/
theorem C140_three_active_counterexample (hM : M.rnd = binary64Format.rnd) (fa : ScalarLFA B O (FP M)) (x : I)
    (hp : Basis.project fa.basis x =
      .ok (.ok (.sparse ⟨3, [(0, Scalar.one), (1, Scalar.one), (2, (Scalar.one : FP M))]⟩)))
    (hw : fa.weights = [Scalar.one, M.lit (2 ^ 54), M.lit (-2 ^ 54)]) :
    (∃ v, CanEvaluate fa x v ∧ Is v 0) ∧ ∃ v, CanEvaluate fa x v ∧ Is v 1 := by
  have h1 : Is (Scalar.one : FP M) 1 := val_one
  have hb := is_lit54 hM
  have hc := is_lit_neg54 hM
  have dot : ∀ a b c : Nat, ∀ u v w : FP M, fa.weights[a]? = some u → fa.weights[b]? = some v →
      fa.weights[c]? = some w →
      (Features.sparse ⟨3, [(a, Scalar.one), (b, Scalar.one), (c, (Scalar.one : FP M))]⟩).dot fa.weights =
        .ok (u +. v +. w) := by
    intro a b c u v w ha hb hc
    simp [Features.dot, Features.dotSparse, List.foldlM_cons, idx, ha, hb, hc, P.ok_bind, fp_mul_one, fp_zero_add]
  constructor
  · refine ⟨_, ⟨_, _, hp, same_refl _, dot 0 1 2 _ _ _ (by rw [hw]; rfl) (by rw [hw]; rfl) (by rw [hw]; rfl)⟩, ?_⟩
    have s1 : Is ((Scalar.one : FP M) +. M.lit (2 ^ 54)) (2 ^ 54) := by
      show (_ +. _ : FP M).1 = _
      rw [val_add, h1, hb]
      show M.rnd (1 + 2 ^ 54) = _
      rw [add_comm]
      exact rnd54_low hM (by norm_num) (by norm_num)
    show (_ +. _ : FP M).1 = _
    rw [val_add, s1, hc]
    show M.rnd (2 ^ 54 + -2 ^ 54) = _
    rw [add_neg_cancel]
    exact rnd_zero
  · refine ⟨_, ⟨_, .sparse ⟨3, [(1, Scalar.one), (2, Scalar.one), (0, Scalar.one)]⟩, hp,
      .sparse 3 ((List.Perm.swap _ _ _).trans ((List.Perm.swap _ _ _).cons _)),
      dot 1 2 0 _ _ _ (by rw [hw]; rfl) (by rw [hw]; rfl) (by rw [hw]; rfl)⟩, ?_⟩
    have s1 : Is (M.lit (2 ^ 54) +. M.lit (-2 ^ 54)) 0 := by
      show (_ +. _ : FP M).1 = _
      rw [val_add, hb, hc]
      show M.rnd (2 ^ 54 + -2 ^ 54) = _
      rw [add_neg_cancel]
      exact rnd_zero
    show (_ +. _ : FP M).1 = _
    rw [val_add, s1, h1]
    show M.rnd (0 + 1) = _
    rw [zero_add, M.rnd_one]

theorem fp_one_mul (a : FP M) : Scalar.one *. a = a := by
  refine Eq.trans ?_ (fp_mul_one a)
  apply fp_ext
  rw [val_mul, val_mul]
  congr 2
  cases ha : a.1 <;> simp [XReal.mul, val_one]

/-- The features 2²⁷, 1, 1 and 1, iterated in the order `l`. -/
noncomputable def steep (M : Machine) (l : List Nat) : Features (FP M) :=
  .sparse ⟨4, l.map fun i => (i, if i = 0 then M.lit (2 ^ 27) else Scalar.one)⟩

theorem steep_step {l : List Nat} (hp : l.Perm [0, 1, 2, 3]) :
    ∃ w, Optimiser.stepScaled (ISGD.mk (Scalar.one : FP M)) (List.replicate 4 Scalar.zero) (steep M l)
        Scalar.one = .ok (.ok (), ISGD.mk (Scalar.one : FP M), w) ∧
      entry w 1 = ISGD.computeLr (ISGD.mk (Scalar.one : FP M)) (steep M l) := by
  have hk : (l.map fun i => (i, if i = 0 then M.lit (2 ^ 27) else Scalar.one)).map Prod.fst = l := by
    rw [List.map_map]
    exact (List.map_congr_left fun _ _ => rfl).trans (List.map_id l)
  have hf : Fits 4 (steep M l) := by
    refine ⟨⟨?_, ?_⟩, rfl⟩
    · show (_ : List Nat).Nodup
      rw [hk, hp.nodup_iff]
      decide
    · intro e he
      have : e.1 ∈ l := by
        rw [← hk]
        exact List.mem_map_of_mem he
      have := hp.mem_iff.1 this
      simp only [List.mem_cons, List.not_mem_nil, or_false] at this
      show e.1 < 4
      omega
  obtain ⟨w, h1, h2, h3⟩ := scaledAddto_any hf
    (ISGD.computeLr (ISGD.mk (Scalar.one : FP M)) (steep M l) *. Scalar.one) (w := List.replicate 4 Scalar.zero)
    (by simp)
  refine ⟨w, ?_, ?_⟩
  · show ((steep M l).scaledAddto _ _ >>= _) = _
    rw [h1]
    rfl
  · rw [(h3 1 (by norm_num)).1 Scalar.one ?_, fp_mul_one, fp_mul_one]
    · exact fp_zero_add _
    · show (1, Scalar.one) ∈ _
      exact List.mem_map.2 ⟨1, hp.mem_iff.2 (by decide), by simp⟩

theorem square27 (hM : M.rnd = binary64Format.rnd) : Is (M.lit (2 ^ 27) *. M.lit (2 ^ 27)) (2 ^ 54) := by
  have h : Is (M.lit (2 ^ 27)) (((1 : ℤ) : ℝ) * 2 ^ (27 : ℤ)) := by
    have := rnd_dyadic hM (m := 1) (e := 27) (by norm_num) (by norm_num) (by norm_num)
    refine Eq.trans ?_ this
    show M.rnd _ = _
    norm_num
  have := exact_mul hM h h (by norm_num) (by norm_num) (by norm_num)
  norm_num at this ⊢
  exact this

/-- ISGD: one call of `update(x, 1)` from zero weights can leave two different weights of feature 1. -/
theorem C140_isgd_counterexample (hM : M.rnd = binary64Format.rnd) (fa : ScalarLFA B (ISGD (FP M)) (FP M)) (x : I)
    (hp : Basis.project fa.basis x = .ok (.ok (steep M [0, 1, 2, 3])))
    (hw : fa.weights = List.replicate 4 Scalar.zero) (ho : fa.optimiser = ISGD.mk Scalar.one) :
    ∃ fa₁ fa₂, CanUpdate fa x Scalar.one fa₁ ∧ CanUpdate fa x Scalar.one fa₂ ∧
      entry fa₁.weights 1 ≠ entry fa₂.weights 1 := by
  have hq : [1, 2, 3, 0].Perm [0, 1, 2, 3] := by decide
  obtain ⟨w₁, h1, e1⟩ := steep_step (M := M) (List.Perm.refl [0, 1, 2, 3])
  obtain ⟨w₂, h2, e2⟩ := steep_step (M := M) hq
  refine ⟨_, _, ⟨_, _, hp, same_refl _, _, w₁, by rw [hw, ho]; exact h1, rfl⟩,
    ⟨_, _, hp, .sparse 4 (hq.symm.map _), _, w₂, by rw [hw, ho]; exact h2, rfl⟩, ?_⟩
  show entry w₁ 1 ≠ entry w₂ 1
  rw [e1, e2]
  have one : Is (Scalar.one : FP M) 1 := val_one
  have sq := square27 hM
  have add : ∀ {a b : FP M} {r s : ℝ}, Is a r → Is b s → (a +. b).1 = M.rnd (r + s) := by
    intro a b r s ha hb
    rw [val_add, ha, hb]
    rfl
  have n1 : Is ((steep M [0, 1, 2, 3]).fold Scalar.zero (fun acc x => acc +. x *. x)) (2 ^ 54) := by
    have step : ∀ a : FP M, Is a (2 ^ 54) → Is (a +. Scalar.one) (2 ^ 54) := fun a ha =>
      (add ha one).trans (rnd54_low hM (by norm_num) (by norm_num))
    have e : (steep M [0, 1, 2, 3]).fold Scalar.zero (fun acc x => acc +. x *. x) =
        M.lit (2 ^ 27) *. M.lit (2 ^ 27) +. Scalar.one +. Scalar.one +. Scalar.one := by
      simp [steep, Features.fold, fp_zero_add, fp_mul_one]
    rw [e]
    exact step _ (step _ (step _ sq))
  have n2 : Is ((steep M [1, 2, 3, 0]).fold Scalar.zero (fun acc x => acc +. x *. x)) (2 ^ 54 + 4) := by
    have e : (steep M [1, 2, 3, 0]).fold Scalar.zero (fun acc x => acc +. x *. x) =
        Scalar.one +. Scalar.one +. Scalar.one +. M.lit (2 ^ 27) *. M.lit (2 ^ 27) := by
      simp [steep, Features.fold, fp_zero_add, fp_mul_one]
    rw [e]
    have i1 : ∀ {a : FP M} {m : ℤ}, Is a m → |m + 1| ≤ 2 ^ 53 → Is (a +. Scalar.one) ((m + 1 : ℤ) : ℝ) := by
      intro a m ha hm
      have := exact_add hM (int_is.1 ha) (int_is.1 (show Is (Scalar.one : FP M) ((1 : ℤ) : ℝ) by simpa using one)) hm
        (by norm_num) (by norm_num)
      rw [zpow_zero, mul_one] at this
      exact this
    have a1 : Is (Scalar.one : FP M) ((1 : ℤ) : ℝ) := by simpa using one
    have a3 := i1 (i1 a1 (by norm_num)) (by norm_num)
    have := add a3 sq
    refine this.trans ?_
    rw [add_comm]
    exact rnd54_high hM (by norm_num) (by norm_num)
  unfold ISGD.computeLr
  simp only [fp_one_mul]
  generalize (steep M [0, 1, 2, 3]).fold Scalar.zero (fun acc x => acc +. x *. x) = u at n1
  generalize (steep M [1, 2, 3, 0]).fold Scalar.zero (fun acc x => acc +. x *. x) = v at n2
  have d1 : Is (Scalar.ofNat 1 +. u) (2 ^ 54) := by
    refine (add one n1).trans ?_
    rw [add_comm]
    exact rnd54_low hM (by norm_num) (by norm_num)
  have d2 : Is (Scalar.ofNat 1 +. v) (2 ^ 54 + 4) := by
    refine (add one n2).trans ?_
    rw [show (1 : ℝ) + (2 ^ 54 + 4) = 2 ^ 54 + 5 by norm_num]
    exact rnd54_high hM (by norm_num) (by norm_num)
  intro hc
  have hc := congrArg FP.val hc
  rw [val_div, val_div, val_one, d1, d2] at hc
  have q1 : XReal.div (.fin 1) (.fin (2 ^ 54)) = .fin (1 / 2 ^ 54) := by
    simp [XReal.div]
  have q2 : XReal.div (.fin 1) (.fin (2 ^ 54 + 4)) = .fin (1 / (2 ^ 54 + 4)) := by
    have : (2 : ℝ) ^ 54 + 4 ≠ 0 := by positivity
    simp [XReal.div, this]
  rw [q1, q2] at hc
  have hc : M.rnd (1 / 2 ^ 54) = M.rnd (1 / (2 ^ 54 + 4)) := hc
  have r1 : M.rnd (1 / 2 ^ 54) = .fin (1 / 2 ^ 54) := by
    have := rnd_dyadic hM (m := 1) (e := -54) (by norm_num) (by norm_num) (by norm_num)
    rw [Int.cast_one, one_mul, zpow_neg, ← one_div] at this
    exact this
  have r2 := rnd_dyadic hM (m := 2 ^ 53 - 1) (e := -107) (by norm_num) (by norm_num) (by norm_num)
  have r3 := M.rnd_mono (a := 1 / (2 ^ 54 + 4)) (b := ((2 ^ 53 - 1 : ℤ) : ℝ) * 2 ^ (-107 : ℤ)) (by
    push_cast
    norm_num)
  rw [r2, ← hc, r1] at r3
  have r3 : (1 : ℝ) / 2 ^ 54 ≤ ((2 ^ 53 - 1 : ℤ) : ℝ) * 2 ^ (-107 : ℤ) := r3
  push_cast at r3
  norm_num at r3

/-- SGD through its own prediction: `update_with(x, |_, p| p)` can leave the weight 1 or 2 of feature 0. -/
theorem C140_update_with_counterexample (hM : M.rnd = binary64Format.rnd) (fa : ScalarLFA B (SGD (FP M)) (FP M))
    (x : I) (hp : Basis.project fa.basis x =
      .ok (.ok (.sparse ⟨3, [(0, Scalar.one), (1, Scalar.one), (2, (Scalar.one : FP M))]⟩)))
    (hw : fa.weights = [Scalar.one, M.lit (2 ^ 54), M.lit (-2 ^ 54)]) (ho : fa.optimiser = SGD.mk Scalar.one) :
    ∃ fa₁ fa₂, CanUpdateWith fa x id fa₁ ∧ CanUpdateWith fa x id fa₂ ∧
      Is (entry fa₁.weights 0) 1 ∧ Is (entry fa₂.weights 0) 2 := by
  have one : Is (Scalar.one : FP M) 1 := val_one
  obtain ⟨⟨v, ⟨φ, ψ, hφ, hs, hd⟩, hv⟩, v', ⟨φ', ψ', hφ', hs', hd'⟩, hv'⟩ :=
    C140_three_active_counterexample hM fa x hp hw
  rw [hp] at hφ hφ'
  cases hφ
  cases hφ'
  have step : ∀ (ψ : Features (FP M)) (v : FP M),
      Same (.sparse ⟨3, [(0, Scalar.one), (1, Scalar.one), (2, (Scalar.one : FP M))]⟩) ψ →
      ∃ w, Optimiser.stepScaled fa.optimiser fa.weights ψ v = .ok (.ok (), fa.optimiser, w) ∧
        entry w 0 = Scalar.one +. v := by
    intro ψ v hs
    cases hs with
    | @sparse _ _ m hq =>
      have hf : Fits 3 (.sparse ⟨3, m⟩) := by
        refine ⟨⟨?_, ?_⟩, rfl⟩
        · show (m.map Prod.fst).Nodup
          rw [← (hq.map Prod.fst).nodup_iff]
          simp
        · intro e he
          have := hq.mem_iff.2 he
          simp only [List.mem_cons, List.not_mem_nil, or_false] at this
          show e.1 < 3
          rcases this with rfl | rfl | rfl <;> norm_num
      obtain ⟨w, h1, h2, h3⟩ := scaledAddto_any hf (fa.optimiser.lr *. v) (w := fa.weights) (by rw [hw]; rfl)
      refine ⟨w, ?_, ?_⟩
      · show ((Features.sparse ⟨3, m⟩).scaledAddto _ _ >>= _) = _
        rw [h1]
        rfl
      · rw [(h3 0 (by norm_num)).1 Scalar.one (hq.mem_iff.1 (by simp)), ho, hw]
        simp only [fp_one_mul, fp_mul_one]
        rfl
  obtain ⟨w, h1, e1⟩ := step ψ v hs
  obtain ⟨w', h1', e1'⟩ := step ψ' v' hs'
  refine ⟨_, _, ⟨_, ψ, hp, hs, v, _, w, hd, h1, rfl⟩, ⟨_, ψ', hp, hs', v', _, w', hd', h1', rfl⟩, ?_, ?_⟩
  · show (entry w 0).1 = _
    rw [e1, val_add, one, hv]
    show M.rnd (1 + 0) = _
    rw [add_zero, M.rnd_one]
  · show (entry w' 0).1 = _
    rw [e1', val_add, one, hv']
    have := rnd_dyadic hM (m := 1) (e := 1) (by norm_num) (by norm_num) (by norm_num)
    norm_num at this
    show M.rnd (1 + 1) = _
    rw [one_add_one_eq_two]
    exact this

/-- A closure basis meets the hypotheses of the counterexamples in `f64`. -/
example : ∃ fa : ScalarLFA (Closure (List (FP binary64)) (FP binary64)) (SGD (FP binary64)) (FP binary64),
    Basis.project fa.basis ([] : List (FP binary64)) =
      .ok (.ok (.sparse ⟨3, [(0, Scalar.one), (1, Scalar.one), (2, (Scalar.one : FP binary64))]⟩)) ∧
    fa.weights = [Scalar.one, binary64.lit (2 ^ 54), binary64.lit (-2 ^ 54)] ∧ fa.optimiser = SGD.mk Scalar.one :=
  ⟨⟨⟨3, fun _ => .ok (.ok (.sparse ⟨3, [(0, Scalar.one), (1, Scalar.one), (2, Scalar.one)]⟩))⟩, _, _⟩, rfl, rfl, rfl⟩

example : ∃ fa : ScalarLFA (Closure (List (FP binary64)) (FP binary64)) (ISGD (FP binary64)) (FP binary64),
    Basis.project fa.basis ([] : List (FP binary64)) = .ok (.ok (steep binary64 [0, 1, 2, 3])) ∧
    fa.weights = List.replicate 4 Scalar.zero ∧ fa.optimiser = ISGD.mk Scalar.one :=
  ⟨⟨⟨4, fun _ => .ok (.ok (steep binary64 [0, 1, 2, 3]))⟩, _, _⟩, rfl, rfl, rfl⟩

end Floating

end Lfa

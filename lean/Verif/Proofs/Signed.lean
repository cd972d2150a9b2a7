import Verif.Spec.Signed
import Verif.Proofs.HomBasis
import Verif.Proofs.Machine
import Verif.Proofs.Binary64

/-!
# Dropping the sign of zero
-/

set_option linter.unusedSectionVars false

namespace Lfa

open Machine

/-- A sum of two numbers of a format is rounded to zero only when it is zero. -/
theorem Format.nearest_sum_ne_zero (F : Format) {a b : ℝ} (ha : F.nearest a = a)
    (hb : F.nearest b = b) (h : a + b ≠ 0) : F.nearest (a + b) ≠ 0 := by
  have mult : ∀ r : ℝ, F.nearest r = r → ∃ n : ℤ, r = n * 2 ^ F.emin := by
    intro r hr
    have he : F.emin ≤ F.ulp r := le_max_left _ _
    refine ⟨rne (r / 2 ^ F.ulp r) * 2 ^ (F.ulp r - F.emin).toNat, ?_⟩
    conv_lhs => rw [← hr]
    unfold nearest
    push_cast
    rw [mul_assoc, ← zpow_natCast, Int.toNat_of_nonneg (by omega), ← zpow_add₀ (by norm_num)]
    congr 2
    omega
  have key : ∀ s : ℝ, (∃ n : ℤ, s = n * 2 ^ F.emin) → 0 < s → 0 < F.nearest s := by
    rintro s ⟨n, rfl⟩ hs
    have h2 := two_zpow_pos F.emin
    have hn : (1 : ℝ) ≤ n := by
      have : (0 : ℝ) < n := by
        by_contra hc
        have : (n : ℝ) * 2 ^ F.emin ≤ 0 := mul_nonpos_of_nonpos_of_nonneg (not_lt.1 hc) h2.le
        linarith
      have : 0 < n := by exact_mod_cast this
      exact_mod_cast this
    have h1 := F.nearest_exact (m := 1) (e := F.emin)
      (by rw [abs_one]; exact one_le_pow₀ (by norm_num)) (le_refl _)
    have h3 : F.nearest ((1 : ℤ) * 2 ^ F.emin) ≤ F.nearest (n * 2 ^ F.emin) := by
      refine F.nearest_mono ?_
      rw [Int.cast_one]
      exact mul_le_mul_of_nonneg_right hn h2.le
    rw [h1, Int.cast_one, one_mul] at h3
    linarith
  obtain ⟨m, hm⟩ := mult a ha
  obtain ⟨n, hn⟩ := mult b hb
  have hs : a + b = ((m + n : ℤ) : ℝ) * 2 ^ F.emin := by rw [hm, hn]; push_cast; ring
  rcases lt_or_gt_of_ne h with hl | hl
  · have := key (-(a + b)) ⟨-(m + n), by rw [hs]; push_cast; ring⟩ (by linarith)
    rw [F.nearest_neg] at this
    linarith
  · exact (key (a + b) ⟨m + n, hs⟩ hl).ne'

namespace SFP

variable {M : Machine} {Z : ZeroChoice}

theorem signed_neg0 (v : FP M) : (signed v false : SFP M Z).neg0 = false := rfl

theorem powTree_val (t : PowTree) (u a : SFP M Z) :
    (t.eval mul u a).val = t.eval M.mul u.val a.val := by
  induction t with
  | one => rfl
  | base => rfl
  | mul l r ihl ihr =>
    show M.mul (l.eval mul u a).val (r.eval mul u a).val = _
    rw [ihl, ihr]
    rfl

theorem sumTree_val (t : SumTree) (z : SFP M Z) (x : Nat → SFP M Z) :
    (t.eval add z x).val = t.eval M.add z.val fun i => (x i).val := by
  induction t with
  | zero => rfl
  | term i => rfl
  | add l r ihl ihr =>
    show M.add (l.eval add z x).val (r.eval add z x).val = _
    rw [ihl, ihr]
    rfl

theorem getD_val (l : List (SFP M Z)) (i : Nat) (z : SFP M Z) :
    (l.getD i z).val = (l.map SFP.val).getD i z.val := by
  rw [List.getD_eq_getElem?_getD, List.getD_eq_getElem?_getD, List.getElem?_map]
  cases l[i]? <;> rfl

theorem neg_mul_neg (a : FP M) : Scalar.neg a *. Scalar.neg a = a *. a := by
  have h : (Scalar.neg a *. Scalar.neg a).1 = (a *. a).1 := by
    rw [val_mul, val_mul, val_neg]
    congr 1
    congr 1
    cases a.1 with
    | fin r => show XReal.fin (-r * -r) = XReal.fin (r * r); rw [_root_.neg_mul_neg]
    | _ => rfl
  exact FP.ext h

/-- Dropping the sign of zero commutes with every operation, and with division unless the divisor
is `-0.0`. -/
theorem hom : ScalarHom (SFP.val : SFP M Z → FP M) (fun a => a.neg0 = false) where
  add _ _ := rfl
  sub _ _ := rfl
  mul _ _ := rfl
  div a b hb := by
    show (div a b).val = _
    unfold div
    rw [hb]
    rfl
  sq_div a b := by
    show (div a b).val *. (div a b).val = _
    unfold div
    cases b.neg0
    · rfl
    · exact neg_mul_neg _
  neg _ := rfl
  abs _ := rfl
  sqrt _ := rfl
  exp _ := rfl
  cos _ := rfl
  ln1p _ := rfl
  lt _ _ := rfl
  beq _ _ := rfl
  max _ _ := rfl
  powi a n := powTree_val _ _ _
  ofNat _ := rfl
  sci _ _ := rfl
  pi := rfl
  floorIsize _ := rfl
  dot xs ys := by
    show (SumTree.eval add _ _ _).val = (M.dotTree (min (xs.map _).length (ys.map _).length)).eval _ _ _
    rw [sumTree_val, List.length_map, List.length_map]
    congr 1
    funext i
    rw [getD_val, List.map_zipWith, List.zipWith_map]
    rfl
  sum xs := by
    show (SumTree.eval add _ _ _).val = (M.sumTree (xs.map _).length).eval _ _ _
    rw [sumTree_val, List.length_map]
    congr 1
    funext i
    rw [getD_val]
    rfl
  negInf := rfl
  d_add_left a b ha := by
    show (a.neg0 && b.neg0 && _) = false
    rw [ha]
    rfl
  d_add_right a b hb := by
    show (a.neg0 && b.neg0 && _) = false
    rw [hb, Bool.and_false]
    rfl
  d_sub a b ha := by
    show (a.neg0 && _ && _) = false
    rw [ha]
    rfl
  d_abs _ := rfl
  d_sqrt a ha := by
    show (a.neg0 && _) = false
    rw [ha]
    rfl
  d_max a b ha hb := by
    classical
    show ((if _ then Z.pick a.neg0 b.neg0 else a.neg0 || b.neg0) && _) = false
    rw [ha, hb]
    have : Z.pick false false = false := by rcases Z.pick_or false false with h | h <;> exact h
    rw [this]
    split_ifs <;> rfl
  d_ofNat _ := rfl
  d_sci _ _ := rfl
  d_negInf := rfl

end SFP

namespace Spec

variable {M : Machine} {Z : ZeroChoice}

theorem alike_iff {a b : SFP M Z} : Alike a b ↔ a.val = b.val := by
  have key : ∀ x y : XReal, (XReal.beq x y = true ∨ XReal.beq x x = false ∧ XReal.beq y y = false) ↔
      x = y := by
    intro x y
    cases x <;> cases y <;> simp [XReal.beq]
  show (XReal.beq a.val.1 b.val.1 = true ∨ XReal.beq a.val.1 a.val.1 = false ∧ XReal.beq b.val.1 b.val.1 = false) ↔ _
  rw [key]
  exact ⟨FP.ext, fun h => by rw [h]⟩

theorem forall₂_iff {α β : Type} {R : α → α → Prop} {f : α → β} (h : ∀ a b, R a b ↔ f a = f b)
    (xs ys : List α) : List.Forall₂ R xs ys ↔ xs.map f = ys.map f := by
  induction xs generalizing ys with
  | nil =>
    cases ys with
    | nil => simp
    | cons y ys => simp
  | cons x xs ih =>
    cases ys with
    | nil => simp
    | cons y ys => rw [List.forall₂_cons, List.map_cons, List.map_cons, List.cons.injEq, h, ih]

theorem alikes_iff {xs ys : List (SFP M Z)} : Alikes xs ys ↔ xs.map SFP.val = ys.map SFP.val :=
  forall₂_iff (fun _ _ => alike_iff) xs ys

theorem alikeF_iff {φ ψ : Features (SFP M Z)} : AlikeF φ ψ ↔ φ.hmap SFP.val = ψ.hmap SFP.val := by
  cases φ with
  | dense xs =>
    cases ψ with
    | dense ys =>
      show Alikes xs ys ↔ Features.dense _ = Features.dense _
      rw [alikes_iff, Features.dense.injEq]
    | sparse sb => exact ⟨False.elim, fun h => by cases h⟩
  | sparse sa =>
    cases ψ with
    | dense ys => exact ⟨False.elim, fun h => by cases h⟩
    | sparse sb =>
      show (_ ∧ List.Forall₂ _ _ _) ↔ Features.sparse _ = Features.sparse _
      rw [Features.sparse.injEq, SparseActivations.mk.injEq,
        forall₂_iff (f := fun e : Nat × SFP M Z => (e.1, e.2.val))
          (fun e e' => by rw [alike_iff, Prod.mk.injEq])]
      rfl

theorem alikeP_iff {α β : Type} {R : α → α → Prop} {f : α → β} (h : ∀ a b, R a b ↔ f a = f b)
    (x y : P α) : AlikeP R x y ↔ x.map f = y.map f := by
  cases x with
  | error e =>
    cases y with
    | error e' =>
      show e = e' ↔ Except.error e = Except.error e'
      rw [Except.error.injEq]
    | ok b => exact ⟨False.elim, fun h => by cases h⟩
  | ok a =>
    cases y with
    | error e' => exact ⟨False.elim, fun h => by cases h⟩
    | ok b =>
      show R a b ↔ Except.ok (f a) = Except.ok (f b)
      rw [Except.ok.injEq, h]

theorem alikeR_iff {α β : Type} {R : α → α → Prop} {f : α → β} (h : ∀ a b, R a b ↔ f a = f b)
    (x y : Result α) : AlikeR R x y ↔ x.map f = y.map f := by
  cases x with
  | error e =>
    cases y with
    | error e' =>
      show e = e' ↔ Except.error e = Except.error e'
      rw [Except.error.injEq]
    | ok b => exact ⟨False.elim, fun h => by cases h⟩
  | ok a =>
    cases y with
    | error e' => exact ⟨False.elim, fun h => by cases h⟩
    | ok b =>
      show R a b ↔ Except.ok (f a) = Except.ok (f b)
      rw [Except.ok.injEq, h]

theorem alikeProj_iff (x y : P (Result (Features (SFP M Z)))) :
    AlikeP (AlikeR AlikeF) x y ↔ projMap SFP.val x = projMap SFP.val y :=
  alikeP_iff (fun a b => alikeR_iff (fun _ _ => alikeF_iff) a b) x y

/-- Dropping the signs of zeros from a basis. -/
abbrev Drops (M : Machine) (Z : ZeroChoice) {B B' : Type} [Space B] [Space B']
    [Basis B (List (SFP M Z)) (SFP M Z)] [Basis B' (List (FP M)) (FP M)] (b : B) (b' : B') : Prop :=
  BasisHom (SFP.val (M := M) (Z := Z)) (List.map (SFP.val (M := M) (Z := Z))) b b'

theorem alikeB_of {B C B' : Type} [Space B] [Space C] [Space B'] [Basis B (List (SFP M Z)) (SFP M Z)]
    [Basis C (List (SFP M Z)) (SFP M Z)] [Basis B' (List (FP M)) (FP M)] {b : B} {c : C} {b' : B'}
    (h : Drops M Z b b') (h' : Drops M Z c b') : AlikeB M Z b c := by
  intro x y hxy
  rw [alikeProj_iff, ← h.project x, ← h'.project y, alikes_iff.1 hxy]

/-- Alike bases are one basis of the unsigned arithmetic. -/
theorem alikeB_drops {B C : Type} [Space B] [Space C] [Basis B (List (SFP M Z)) (SFP M Z)]
    [Basis C (List (SFP M Z)) (SFP M Z)] {b : B} {c : C} (h : AlikeB M Z b c) :
    ∃ b' : Closure (List (FP M)) (FP M), Drops M Z b b' ∧ Drops M Z c b' := by
  have hm : ∀ x : List (SFP M Z),
      ((x.map SFP.val).map fun v => (SFP.signed v false : SFP M Z)).map SFP.val = x.map SFP.val := by
    intro x
    rw [List.map_map, List.map_map]
    exact List.map_congr_left fun a _ => rfl
  refine ⟨Closure.mk 0 fun x : List (FP M) =>
    projMap SFP.val (Basis.project b (x.map fun v => (SFP.signed v false : SFP M Z))), ⟨fun x => ?_⟩,
    ⟨fun x => ?_⟩⟩
  · show projMap SFP.val (Basis.project b ((x.map SFP.val).map _)) = _
    rw [(alikeProj_iff _ _).1 (h _ x (alikes_iff.2 (hm x))), ← (alikeProj_iff _ _).1 (h x x (alikes_iff.2 rfl))]
  · show projMap SFP.val (Basis.project b ((x.map SFP.val).map _)) = _
    rw [(alikeProj_iff _ _).1 (h _ x (alikes_iff.2 (hm x)))]

theorem blindSteps_of {O O' : Type} [Optim O] [Optimiser O (SFP M Z)] [Optimiser O' (FP M)] {ho : O → O'}
    (H : OptHom (SFP.val (M := M) (Z := Z)) ho) (ha : ∀ o o' : O, Optim.alike o o' ↔ ho o = ho o') :
    BlindSteps M Z O := by
  intro o o' w w' φ φ' s s' h1 h2 h3 h4
  rw [alikeP_iff (f := stepMap SFP.val ho), ← H.stepScaled, ← H.stepScaled, (ha _ _).1 h1,
    alikes_iff.1 h2, alikeF_iff.1 h3, alike_iff.1 h4]
  intro a b
  rw [ha, alikes_iff]
  unfold stepMap
  rw [Prod.mk.injEq, Prod.mk.injEq]

theorem alikeP_bind {α β : Type} {R : α → α → Prop} {S : β → β → Prop} {x y : P α} (h : AlikeP R x y)
    {f g : α → P β} (hfg : ∀ a b, R a b → AlikeP S (f a) (g b)) : AlikeP S (x >>= f) (y >>= g) := by
  cases x with
  | error e =>
    cases y with
    | error e' => exact h
    | ok b => exact h.elim
  | ok a =>
    cases y with
    | error e' => exact h.elim
    | ok b => exact hfg a b h

end Spec

end Lfa

import Verif.Props.C59_C68
import Verif.Props.C194
import Verif.Props.C109_C110
import Mathlib.SetTheory.Cardinal.Finite

/-!
# C197: Training in f64 on a repeated sequence of calls is eventually periodic

There are finitely many doubles and an approximator keeps finitely many of them, so passing over the same calls again and again
ends in a cycle, for every optimiser and every basis, overflow and NaN included. In `f64` a sequence of numbers converges only if it
is constant from some point on.
-/

set_option linter.unusedSectionVars false

namespace Lfa

open Spec Features Filter Topology

/-! ## How many doubles there are -/

section
variable {M : Machine}

open Classical in
/-- NaN, the infinities and the multiples `m 2^e` with `|m| ≤ A` and `C ≤ e ≤ D`. -/
noncomputable def floats (A C D : ℤ) : Finset XReal :=
  ({.nan, .pinf, .ninf} : Finset XReal) ∪
    ((Finset.Icc (-A) A) ×ˢ (Finset.Icc C D)).image fun q => .fin ((q.1 : ℝ) * 2 ^ q.2)

theorem fin_mem_floats {A C D m e : ℤ} (hm : |m| ≤ A) (h1 : C ≤ e) (h2 : e ≤ D) : XReal.fin ((m : ℝ) * 2 ^ e) ∈ floats A C D := by
  classical
  unfold floats
  rw [Finset.mem_union, Finset.mem_image]
  right
  refine ⟨(m, e), ?_, rfl⟩
  rw [Finset.mem_product, Finset.mem_Icc, Finset.mem_Icc]
  exact ⟨abs_le.1 hm, h1, h2⟩

theorem card_floats (A C D : ℤ) : (floats A C D).card ≤ 3 + (A + 1 - -A).toNat * (D + 1 - C).toNat := by
  classical
  unfold floats
  refine (Finset.card_union_le _ _).trans (Nat.add_le_add Finset.card_le_three (Finset.card_image_le.trans (le_of_eq ?_)))
  rw [Finset.card_product, Int.card_Icc, Int.card_Icc]

/-- The numbers of a binary format. -/
theorem val_mem_floats (F : Format) (hF : F.emin ≤ F.emax - F.p) (hM : M.rnd = F.rnd) (a : FP M) :
    a.val ∈ floats (2 ^ F.p) F.emin (F.emax - F.p) := by
  classical
  rcases h : a.val with _ | _ | _ | r
  case fin =>
    have h1 := a.rep r h
    rw [hM] at h1
    have h2 := (F.rnd_eq_fin h1).1
    have h3 := (F.rnd_eq_fin h1).2
    have h5 : F.ulp r ≤ F.emax - F.p := by
      refine max_le hF ?_
      have : Int.log 2 |r| < F.emax := by
        by_cases h0 : r = 0
        · rw [h0, abs_zero, Int.log_zero_right]; exact lt_of_lt_of_le one_pos F.emax_pos
        · exact (Int.lt_zpow_iff_log_lt (by norm_num) (abs_pos.2 h0)).1 (by exact_mod_cast h3)
      omega
    have h6 := fin_mem_floats (e := F.ulp r) (F.mant_le (r := r)) (le_max_left _ _ : F.emin ≤ F.ulp r) h5
    have h7 : (rne (r / 2 ^ F.ulp r) : ℝ) * 2 ^ F.ulp r = r := h2
    rw [h7] at h6
    exact h6
  all_goals
    unfold floats
    rw [Finset.mem_union]
    left
    simp

theorem format_finite (F : Format) (hF : F.emin ≤ F.emax - F.p) (hM : M.rnd = F.rnd) :
    _root_.Finite (FP M) ∧
      Nat.card (FP M) ≤ 3 + ((2 ^ F.p : ℤ) + 1 - -2 ^ F.p).toNat * (F.emax - F.p + 1 - F.emin).toNat := by
  have inj : Function.Injective fun a : FP M =>
      (⟨a.val, val_mem_floats F hF hM a⟩ : { v // v ∈ floats (2 ^ F.p) F.emin (F.emax - F.p) }) :=
    fun a b h => FP.ext (congrArg Subtype.val h)
  refine ⟨_root_.Finite.of_injective _ inj, ?_⟩
  have h1 := Nat.card_le_card_of_injective _ inj
  rw [Nat.card_eq_fintype_card (α := { v // v ∈ floats (2 ^ F.p) F.emin (F.emax - F.p) }), Fintype.card_coe] at h1
  exact h1.trans (card_floats _ _ _)

theorem FP.finite (hM : M.rnd = binary64Format.rnd) : _root_.Finite (FP M) :=
  (format_finite binary64Format (by norm_num [binary64Format]) hM).1

/-- There are at most `2^65` doubles. -/
theorem FP.card_le (hM : M.rnd = binary64Format.rnd) : Nat.card (FP M) ≤ 2 ^ 65 :=
  (format_finite binary64Format (by norm_num [binary64Format]) hM).2.trans (by
    norm_num [binary64Format]
    decide)

end

/-! ## Repeating a map on finitely many states -/

theorem periodic_of_card {S α : Type} [_root_.Finite α] (code : S → α) (s : Nat → S)
    (hinj : ∀ a b, code (s a) = code (s b) → s a = s b) (hstep : ∀ a b, s a = s b → s (a + 1) = s (b + 1)) :
    ∃ N p, 0 < p ∧ N + p ≤ Nat.card α ∧ ∀ t, N ≤ t → s (t + p) = s t := by
  have : ¬ Function.Injective fun k : Fin (Nat.card α + 1) => code (s k) := fun hi => by
    have := Nat.card_le_card_of_injective _ hi
    rw [Nat.card_eq_fintype_card, Fintype.card_fin] at this
    omega
  rw [Function.Injective] at this
  push Not at this
  obtain ⟨a, b, h1, h2⟩ := this
  have key : ∀ a b : Nat, a < b → b ≤ Nat.card α → code (s a) = code (s b) →
      ∃ N p, 0 < p ∧ N + p ≤ Nat.card α ∧ ∀ t, N ≤ t → s (t + p) = s t := by
    intro a b hab hb h
    refine ⟨a, b - a, by omega, by omega, fun t ht => ?_⟩
    induction t, ht using Nat.le_induction with
    | base => rw [show a + (b - a) = b by omega]; exact (hinj _ _ h).symm
    | succ t ht ih => rw [show t + 1 + (b - a) = t + (b - a) + 1 by omega]; exact hstep _ _ ih
  rcases lt_or_gt_of_ne (fun h => h2 (Fin.ext h) : (a : Nat) ≠ b) with h | h
  · exact key a b h (by omega) h1
  · exact key b a h (by omega) h1.symm

/-! ## What optimisers keep -/

namespace Spec

/-- The numbers that the steps of an optimiser change, and what they leave alone (rates and sizes). -/
class Memory (O : Type) (K : outParam Type) [Scalar K] where
  Fixed : Type
  fixed : O → Fixed
  moving : O → List K

instance {K : Type} [Scalar K] : Memory (SGD K) K := ⟨SGD K, id, fun _ => []⟩
instance {K : Type} [Scalar K] : Memory (ISGD K) K := ⟨ISGD K, id, fun _ => []⟩
instance {K : Type} [Scalar K] : Memory (SGDMomentum K) K :=
  ⟨K × K × Nat, fun o => (o.momentum, o.learningRate, o.velocity.length), fun o => o.velocity⟩
instance {K : Type} [Scalar K] : Memory (NAG K) K :=
  ⟨K × K × Nat, fun o => (o.momentum, o.learningRate, o.velocity.length), fun o => o.velocity⟩
instance {K : Type} [Scalar K] : Memory (Adagrad K) K :=
  ⟨K × Nat, fun o => (o.learningRate, o.accumulator.length), fun o => o.accumulator⟩
instance {K : Type} [Scalar K] : Memory (Adam K) K :=
  ⟨K × K × K × Nat × Nat, fun o => (o.beta1, o.beta2, o.learningRate, o.expAvg.length, o.expAvgSq.length),
    fun o => o.beta1Prod :: o.beta2Prod :: (o.expAvg ++ o.expAvgSq)⟩
instance {K : Type} [Scalar K] : Memory (AdaMax K) K :=
  ⟨K × K × K × Nat × Nat, fun o => (o.beta1, o.beta2, o.learningRate, o.expAvg.length, o.expInf.length),
    fun o => o.beta1Prod :: (o.expAvg ++ o.expInf)⟩

end Spec

section lengths
variable {K : Type} [Scalar K]

theorem zipMutWith_length {α β : Type} {xs zs : List α} {ys : List β} {f : α → β → α} (h : zipMutWith xs ys f = .ok zs) :
    zs.length = xs.length := by
  obtain ⟨ys', h1, h2⟩ := P.bind_eq_ok.1 h
  injection h2 with h2
  rw [← h2, List.length_zipWith]
  unfold broadcast at h1
  split_ifs at h1 with c1
  · injection h1 with h1
    rw [← h1, c1, min_self]
  · split at h1
    · injection h1 with h1
      rw [← h1, List.length_replicate, min_self]
    · cases h1

theorem scaledAddto_length {φ : Features K} {α : K} {w w' : List K} (h : φ.scaledAddto α w = .ok w') : w'.length = w.length := by
  cases φ with
  | dense da => exact zipMutWith_length h
  | sparse sa => exact Features.scatterMod_length (fun w a => w +. α *. a) h

theorem velocityUpdate_length {m s : K} {φ : Features K} {v v' : List K} (h : velocityUpdate m v φ s = .ok v') : v'.length = v.length := by
  cases φ with
  | dense da => exact zipMutWith_length h
  | sparse sa => exact (Features.scatterMod_length (fun x a => x +. a *. s) h).trans (List.length_map ..)

theorem setIdx_length {α : Type} {xs ys : List α} {i : Nat} {v : α} (h : setIdx xs i v = .ok ys) : ys.length = xs.length := by
  unfold setIdx at h
  split_ifs at h
  injection h with h
  rw [← h, List.length_set]

theorem modIdx_length {α : Type} {xs ys : List α} {i : Nat} {f : α → α} (h : modIdx xs i f = .ok ys) : ys.length = xs.length := by
  obtain ⟨x, -, h2⟩ := P.bind_eq_ok.1 h
  exact setIdx_length h2

theorem foldlM_inv {σ ε : Type} {f : σ → ε → P σ} (R : σ → Prop) (hf : ∀ a e b, R a → f a e = .ok b → R b) (es : List ε) {a b : σ}
    (ha : R a) (h : es.foldlM f a = .ok b) : R b := by
  induction es generalizing a with
  | nil => rw [List.foldlM_nil] at h; injection h with h; exact h ▸ ha
  | cons e es ih =>
    rw [List.foldlM_cons] at h
    obtain ⟨c, h1, h2⟩ := P.bind_eq_ok.1 h
    exact ih (hf _ _ _ ha h1) h2

theorem denseLoop_length (lr s : K) (as ws sss : List K) :
    (Adagrad.denseLoop lr s as ws sss).1.length = sss.length ∧ (Adagrad.denseLoop lr s as ws sss).2.length = ws.length := by
  induction as generalizing ws sss with
  | nil => exact ⟨rfl, rfl⟩
  | cons a as ih =>
    cases ws with
    | nil => exact ⟨rfl, rfl⟩
    | cons w ws =>
      cases sss with
      | nil => exact ⟨rfl, rfl⟩
      | cons ss sss =>
        have := ih ws sss
        exact ⟨congrArg (· + 1) this.1, congrArg (· + 1) this.2⟩

theorem adagrad_loop_length {o : Adagrad K} {w w' accs : List K} {φ : Features K} {s : K} (h : o.loop w φ s = .ok (accs, w')) :
    accs.length = o.accumulator.length ∧ w'.length = w.length := by
  cases φ with
  | dense da =>
    have h1 : Adagrad.denseLoop o.learningRate s da w o.accumulator = (accs, w') := Except.ok.inj h
    have h2 := denseLoop_length o.learningRate s da w o.accumulator
    rw [h1] at h2
    exact h2
  | sparse sa =>
    refine foldlM_inv (fun q => q.1.length = o.accumulator.length ∧ q.2.length = w.length) ?_ _ ⟨rfl, rfl⟩ h
    rintro ⟨a1, a2⟩ i ⟨b1, b2⟩ ⟨h1, h2⟩ h
    obtain ⟨ss, -, h⟩ := P.bind_eq_ok.1 h
    obtain ⟨ac, h3, h⟩ := P.bind_eq_ok.1 h
    obtain ⟨w1, h4, h⟩ := P.bind_eq_ok.1 h
    injection h with h
    injection h with h5 h6
    subst h5 h6
    exact ⟨(setIdx_length h3).trans h1, (modIdx_length h4).trans h2⟩

theorem adam_body_length {o : Adam K} {d : Bool} {s : K} {q q' : List K × List K × List K} {e : Nat × K} (h : o.body d s q e = .ok q') :
    q'.1.length = q.1.length ∧ q'.2.1.length = q.2.1.length ∧ q'.2.2.length = q.2.2.length := by
  obtain ⟨m1, m2, w⟩ := q
  obtain ⟨x1, -, h⟩ := P.bind_eq_ok.1 h
  obtain ⟨x2, -, h⟩ := P.bind_eq_ok.1 h
  obtain ⟨y1, h1, h⟩ := P.bind_eq_ok.1 h
  obtain ⟨y2, h2, h⟩ := P.bind_eq_ok.1 h
  obtain ⟨y3, h3, h⟩ := P.bind_eq_ok.1 h
  injection h with h
  subst h
  exact ⟨setIdx_length h1, setIdx_length h2, modIdx_length h3⟩

theorem adamax_body_length {o : AdaMax K} {d : Bool} {s : K} {q q' : List K × List K × List K} {e : Nat × K}
    (h : o.body d s q e = .ok q') :
    q'.1.length = q.1.length ∧ q'.2.1.length = q.2.1.length ∧ q'.2.2.length = q.2.2.length := by
  obtain ⟨m1, m2, w⟩ := q
  obtain ⟨x1, -, h⟩ := P.bind_eq_ok.1 h
  obtain ⟨x2, -, h⟩ := P.bind_eq_ok.1 h
  obtain ⟨y1, h1, h⟩ := P.bind_eq_ok.1 h
  obtain ⟨y2, h2, h⟩ := P.bind_eq_ok.1 h
  obtain ⟨y3, h3, h⟩ := P.bind_eq_ok.1 h
  injection h with h
  subst h
  exact ⟨setIdx_length h1, setIdx_length h2, modIdx_length h3⟩

theorem adam_loop_length {o : Adam K} {w : List K} {φ : Features K} {s : K} {q : List K × List K × List K} (h : o.loop w φ s = .ok q) :
    q.1.length = o.expAvg.length ∧ q.2.1.length = o.expAvgSq.length ∧ q.2.2.length = w.length := by
  have step : ∀ d, ∀ a e b, (a.1.length = o.expAvg.length ∧ a.2.1.length = o.expAvgSq.length ∧ a.2.2.length = w.length) →
      o.body d s a e = .ok b → b.1.length = o.expAvg.length ∧ b.2.1.length = o.expAvgSq.length ∧ b.2.2.length = w.length := by
    intro d a e b ha hb
    have := adam_body_length hb
    exact ⟨this.1.trans ha.1, this.2.1.trans ha.2.1, this.2.2.trans ha.2.2⟩
  cases φ with
  | dense da => exact foldlM_inv _ (step true) _ ⟨rfl, rfl, rfl⟩ h
  | sparse sa => exact foldlM_inv _ (step false) _ ⟨List.length_map .., List.length_map .., rfl⟩ h

theorem adamax_loop_length {o : AdaMax K} {w : List K} {φ : Features K} {s : K} {q : List K × List K × List K}
    (h : o.loop w φ s = .ok q) :
    q.1.length = o.expAvg.length ∧ q.2.1.length = o.expInf.length ∧ q.2.2.length = w.length := by
  have step : ∀ d, ∀ a e b, (a.1.length = o.expAvg.length ∧ a.2.1.length = o.expInf.length ∧ a.2.2.length = w.length) →
      o.body d s a e = .ok b → b.1.length = o.expAvg.length ∧ b.2.1.length = o.expInf.length ∧ b.2.2.length = w.length := by
    intro d a e b ha hb
    have := adamax_body_length hb
    exact ⟨this.1.trans ha.1, this.2.1.trans ha.2.1, this.2.2.trans ha.2.2⟩
  cases φ with
  | dense da => exact foldlM_inv _ (step true) _ ⟨rfl, rfl, rfl⟩ h
  | sparse sa => exact foldlM_inv _ (step false) _ ⟨List.length_map .., List.length_map .., rfl⟩ h

end lengths

/-- The memory of an optimiser is all there is to it, and steps keep the sizes. -/
class Remembers (O : Type) {K : Type} [Scalar K] [Optimiser O K] [Memory O K] : Prop where
  inj : ∀ {o o' : O}, Memory.fixed o = Memory.fixed o' → Memory.moving o = Memory.moving o' → o = o'
  len : ∀ {o o' : O}, Memory.fixed o = Memory.fixed o' → (Memory.moving o).length = (Memory.moving o').length
  step : ∀ {o o' : O} {w w' : List K} {φ : Features K} {s : K} {r : Result Unit},
    Optimiser.stepScaled o w φ s = .ok (r, o', w') → Memory.fixed o' = Memory.fixed o ∧ w'.length = w.length

section
variable {K : Type} [Scalar K]

instance : Remembers (K := K) (SGD K) where
  inj h _ := h
  len _ := rfl
  step h := by
    obtain ⟨w1, h1, h⟩ := P.bind_eq_ok.1 h
    injection h with h
    injection h with _ h
    injection h with h2 h3
    subst h2 h3
    exact ⟨rfl, scaledAddto_length h1⟩

instance : Remembers (K := K) (ISGD K) where
  inj h _ := h
  len _ := rfl
  step h := by
    obtain ⟨w1, h1, h⟩ := P.bind_eq_ok.1 h
    injection h with h
    injection h with _ h
    injection h with h2 h3
    subst h2 h3
    exact ⟨rfl, scaledAddto_length h1⟩

instance : Remembers (K := K) (SGDMomentum K) where
  inj {o o'} h h' := by
    obtain ⟨a, b, c⟩ := o
    obtain ⟨a', b', c'⟩ := o'
    change (_, _, _) = (_, _, _) at h
    simp only [Prod.mk.injEq] at h
    simp only [Memory.moving] at h'
    rw [h.1, h.2.1, h']
  len {o o'} h := by
    change (_, _, _) = (_, _, _) at h
    simp only [Prod.mk.injEq] at h
    exact h.2.2
  step h := by
    obtain ⟨v, h1, h⟩ := P.bind_eq_ok.1 h
    obtain ⟨w1, h2, h⟩ := P.bind_eq_ok.1 h
    injection h with h
    injection h with _ h
    injection h with h3 h4
    subst h3 h4
    exact ⟨congrArg (fun n => (_, _, n)) (velocityUpdate_length h1), zipMutWith_length h2⟩

instance : Remembers (K := K) (NAG K) where
  inj {o o'} h h' := by
    obtain ⟨a, b, c⟩ := o
    obtain ⟨a', b', c'⟩ := o'
    change (_, _, _) = (_, _, _) at h
    simp only [Prod.mk.injEq] at h
    simp only [Memory.moving] at h'
    rw [h.1, h.2.1, h']
  len {o o'} h := by
    change (_, _, _) = (_, _, _) at h
    simp only [Prod.mk.injEq] at h
    exact h.2.2
  step h := by
    obtain ⟨v, h1, h⟩ := P.bind_eq_ok.1 h
    obtain ⟨w1, h2, h⟩ := P.bind_eq_ok.1 h
    obtain ⟨w2, h5, h⟩ := P.bind_eq_ok.1 h
    injection h with h
    injection h with _ h
    injection h with h3 h4
    subst h3 h4
    exact ⟨congrArg (fun n => (_, _, n)) (velocityUpdate_length h1), (scaledAddto_length h5).trans (zipMutWith_length h2)⟩

instance : Remembers (K := K) (Adagrad K) where
  inj {o o'} h h' := by
    obtain ⟨a, b⟩ := o
    obtain ⟨a', b'⟩ := o'
    change (_, _) = (_, _) at h
    simp only [Prod.mk.injEq] at h
    simp only [Memory.moving] at h'
    rw [h.1, h']
  len {o o'} h := by
    change (_, _) = (_, _) at h
    simp only [Prod.mk.injEq] at h
    exact h.2
  step h := by
    obtain ⟨⟨accs, w1⟩, h1, h⟩ := P.bind_eq_ok.1 h
    injection h with h
    injection h with _ h
    injection h with h3 h4
    subst h3 h4
    have := adagrad_loop_length h1
    exact ⟨congrArg (fun n => (_, n)) this.1, this.2⟩

instance : Remembers (K := K) (Adam K) where
  inj {o o'} h h' := by
    obtain ⟨a, b, c, d, e, f, g⟩ := o
    obtain ⟨a', b', c', d', e', f', g'⟩ := o'
    change (_, _, _, _, _) = (_, _, _, _, _) at h
    simp only [Prod.mk.injEq] at h
    simp only [Memory.moving, List.cons.injEq] at h'
    obtain ⟨h1, h2⟩ := List.append_inj h'.2.2 h.2.2.2.1
    rw [h.1, h.2.1, h.2.2.1, h'.1, h'.2.1, h1, h2]
  len {o o'} h := by
    change (_, _, _, _, _) = (_, _, _, _, _) at h
    simp only [Prod.mk.injEq] at h
    simp only [Memory.moving, List.length_cons, List.length_append, h.2.2.2.1, h.2.2.2.2]
  step h := by
    obtain ⟨⟨m1, m2, w1⟩, h1, h⟩ := P.bind_eq_ok.1 h
    injection h with h
    injection h with _ h
    injection h with h3 h4
    subst h3 h4
    have := adam_loop_length h1
    refine ⟨?_, this.2.2⟩
    exact congrArg₂ (fun n m => (_, _, _, n, m)) this.1 this.2.1

instance : Remembers (K := K) (AdaMax K) where
  inj {o o'} h h' := by
    obtain ⟨a, b, c, e, f, g⟩ := o
    obtain ⟨a', b', c', e', f', g'⟩ := o'
    change (_, _, _, _, _) = (_, _, _, _, _) at h
    simp only [Prod.mk.injEq] at h
    simp only [Memory.moving, List.cons.injEq] at h'
    obtain ⟨h1, h2⟩ := List.append_inj h'.2 h.2.2.2.1
    rw [h.1, h.2.1, h.2.2.1, h'.1, h1, h2]
  len {o o'} h := by
    change (_, _, _, _, _) = (_, _, _, _, _) at h
    simp only [Prod.mk.injEq] at h
    simp only [Memory.moving, List.length_cons, List.length_append, h.2.2.2.1, h.2.2.2.2]
  step h := by
    obtain ⟨⟨m1, m2, w1⟩, h1, h⟩ := P.bind_eq_ok.1 h
    injection h with h
    injection h with _ h
    injection h with h3 h4
    subst h3 h4
    have := adamax_loop_length h1
    refine ⟨?_, this.2.2⟩
    exact congrArg₂ (fun n m => (_, _, _, n, m)) this.1 this.2.1

end

/-! ## Runs keep the sizes, and are determined by where they start -/

section
variable {B O I K : Type} [Scalar K] [Space B] [Basis B I K] [Optimiser O K] [Memory O K] [Remembers (K := K) O]

/-- The same basis, the same fixed part of the optimiser, as many weights. -/
def SameShape (fa fa' : ScalarLFA B O K) : Prop :=
  fa'.basis = fa.basis ∧ Memory.fixed fa'.optimiser = Memory.fixed fa.optimiser ∧ fa'.weights.length = fa.weights.length

theorem SameShape.trans {a b c : ScalarLFA B O K} (h : SameShape a b) (h' : SameShape b c) : SameShape a c :=
  ⟨h'.1.trans h.1, h'.2.1.trans h.2.1, h'.2.2.trans h.2.2⟩

theorem update_shape {fa fa' : ScalarLFA B O K} {x : I} {e : K} {r : Result Unit} (h : fa.update x e = .ok (r, fa')) :
    SameShape fa fa' := by
  obtain ⟨φ, -, h⟩ := P.bind_eq_ok.1 h
  cases φ with
  | error e =>
    injection h with h
    injection h with _ h
    exact h ▸ ⟨rfl, rfl, rfl⟩
  | ok φ =>
    obtain ⟨⟨r', o, w⟩, h1, h⟩ := P.bind_eq_ok.1 h
    injection h with h
    injection h with _ h
    have := Remembers.step h1
    exact h ▸ ⟨rfl, this.1, this.2⟩

theorem updateWith_shape {fa fa' : ScalarLFA B O K} {x : I} {f : Features K → K → K} {r : Result Unit}
    (h : fa.updateWith x f = .ok (r, fa')) : SameShape fa fa' := by
  obtain ⟨φ, -, h⟩ := P.bind_eq_ok.1 h
  cases φ with
  | error e =>
    injection h with h
    injection h with _ h
    exact h ▸ ⟨rfl, rfl, rfl⟩
  | ok φ =>
    obtain ⟨v, -, h⟩ := P.bind_eq_ok.1 h
    obtain ⟨⟨r', o, w⟩, h1, h⟩ := P.bind_eq_ok.1 h
    injection h with h
    injection h with _ h
    have := Remembers.step h1
    exact h ▸ ⟨rfl, this.1, this.2⟩

theorem srun_shape {fa fa' : ScalarLFA B O K} {cs : List (SCall I K)} (h : SRun fa cs fa') : SameShape fa fa' := by
  induction h with
  | nil fa => exact ⟨rfl, rfl, rfl⟩
  | evaluate _ _ ih => exact ih
  | update h _ ih => exact (update_shape h).trans ih
  | updateWith h _ ih => exact (updateWith_shape h).trans ih

theorem srun_unique {fa fa₁ fa₂ : ScalarLFA B O K} {cs : List (SCall I K)} (h₁ : SRun fa cs fa₁) (h₂ : SRun fa cs fa₂) : fa₁ = fa₂ := by
  induction h₁ with
  | nil fa => cases h₂; rfl
  | evaluate _ _ ih =>
    cases h₂ with
    | evaluate _ t => exact ih t
  | update h _ ih =>
    cases h₂ with
    | update h' t =>
      rw [h] at h'
      injection h' with h'
      injection h' with _ h'
      subst h'
      exact ih t
  | updateWith h _ ih =>
    cases h₂ with
    | updateWith h' t =>
      rw [h] at h'
      injection h' with h'
      injection h' with _ h'
      subst h'
      exact ih t

/-- The same, with the sizes of all columns. -/
def SameShapes (fa fa' : VectorLFA B O K) : Prop :=
  fa'.basis = fa.basis ∧ Memory.fixed fa'.optimiser = Memory.fixed fa.optimiser ∧
    fa'.weights.map List.length = fa.weights.map List.length

theorem SameShapes.trans {a b c : VectorLFA B O K} (h : SameShapes a b) (h' : SameShapes b c) : SameShapes a c :=
  ⟨h'.1.trans h.1, h'.2.1.trans h.2.1, h'.2.2.trans h.2.2⟩

theorem stepColumns_shape {φ : Features K} {es : List K} {cs cs' : List (List K)} {o o' : O} {acc r : Result Unit}
    (h : VectorLFA.stepColumns φ es cs o acc = .ok (r, o', cs')) :
    Memory.fixed o' = Memory.fixed o ∧ cs'.map List.length = cs.map List.length := by
  induction es generalizing cs o acc r o' cs' with
  | nil =>
    cases cs <;>
    · injection h with h
      injection h with _ h
      injection h with h1 h2
      subst h1 h2
      exact ⟨rfl, rfl⟩
  | cons e es ih =>
    cases cs with
    | nil =>
      injection h with h
      injection h with _ h
      injection h with h1 h2
      subst h1 h2
      exact ⟨rfl, rfl⟩
    | cons c cs =>
      obtain ⟨⟨r1, o1, c1⟩, h1, h⟩ := P.bind_eq_ok.1 h
      obtain ⟨⟨r2, o2, cs2⟩, h2, h⟩ := P.bind_eq_ok.1 h
      injection h with h
      injection h with _ h
      injection h with h3 h4
      subst h3 h4
      have a := Remembers.step h1
      have b := ih h2
      exact ⟨b.1.trans a.1, by rw [List.map_cons, List.map_cons, a.2, b.2]⟩

theorem vrun_shape {fa fa' : VectorLFA B O K} {cs : List (VCall I K)} (h : VRun fa cs fa') : SameShapes fa fa' := by
  induction h with
  | nil fa => exact ⟨rfl, rfl, rfl⟩
  | evaluate _ _ ih => exact ih
  | evaluateIndex _ _ ih => exact ih
  | update h _ ih =>
    refine SameShapes.trans ?_ ih
    obtain ⟨φ, -, h⟩ := P.bind_eq_ok.1 h
    cases φ with
    | error e => injection h with h; injection h with h _; cases h
    | ok φ =>
      obtain ⟨⟨r', o, w⟩, h1, h⟩ := P.bind_eq_ok.1 h
      injection h with h
      injection h with _ h
      have := stepColumns_shape h1
      exact h ▸ ⟨rfl, this.1, this.2⟩
  | updateIndex h _ ih =>
    refine SameShapes.trans ?_ ih
    obtain ⟨φ, -, h⟩ := P.bind_eq_ok.1 h
    cases φ with
    | error e => injection h with h; injection h with h _; cases h
    | ok φ =>
      obtain ⟨c, h0, h⟩ := P.bind_eq_ok.1 h
      obtain ⟨⟨r', o, w⟩, h1, h⟩ := P.bind_eq_ok.1 h
      obtain ⟨ws, h2, h⟩ := P.bind_eq_ok.1 h
      injection h with h
      injection h with _ h
      have := Remembers.step h1
      refine h ▸ ⟨rfl, this.1, ?_⟩
      unfold setIdx at h2
      split_ifs at h2 with hc
      injection h2 with h2
      show ws.map List.length = _
      rw [← h2, List.map_set, this.2]
      unfold idx at h0
      split at h0
      · rename_i a ha
        injection h0 with h0
        subst h0
        apply List.ext_getElem?
        intro j
        rw [List.getElem?_set]
        split_ifs with h3 h4
        · subst h3; rw [List.getElem?_map, ha]; rfl
        · rw [List.length_map] at h4; exact absurd (h3 ▸ hc) h4
        · rfl
      · cases h0
  | updateWith h _ ih =>
    refine SameShapes.trans ?_ ih
    obtain ⟨φ, -, h⟩ := P.bind_eq_ok.1 h
    cases φ with
    | error e => injection h with h; injection h with h _; cases h
    | ok φ =>
      obtain ⟨vs, -, h⟩ := P.bind_eq_ok.1 h
      obtain ⟨⟨r', o, w⟩, h1, h⟩ := P.bind_eq_ok.1 h
      injection h with h
      injection h with _ h
      have := stepColumns_shape h1
      exact h ▸ ⟨rfl, this.1, this.2⟩

theorem vrun_unique {fa fa₁ fa₂ : VectorLFA B O K} {cs : List (VCall I K)} (h₁ : VRun fa cs fa₁) (h₂ : VRun fa cs fa₂) : fa₁ = fa₂ := by
  induction h₁ with
  | nil fa => cases h₂; rfl
  | evaluate _ _ ih =>
    cases h₂ with
    | evaluate _ t => exact ih t
  | evaluateIndex _ _ ih =>
    cases h₂ with
    | evaluateIndex _ t => exact ih t
  | update h _ ih =>
    cases h₂ with
    | update h' t =>
      rw [h] at h'
      injection h' with h'
      injection h' with _ h'
      subst h'
      exact ih t
  | updateIndex h _ ih =>
    cases h₂ with
    | updateIndex h' t =>
      rw [h] at h'
      injection h' with h'
      injection h' with _ h'
      subst h'
      exact ih t
  | updateWith h _ ih =>
    cases h₂ with
    | updateWith h' t =>
      rw [h] at h'
      injection h' with h'
      injection h' with _ h'
      subst h'
      exact ih t

end

/-! ## The claims -/

section
variable {M : Machine} {B O I : Type} [Space B] [Basis B I (FP M)] [Optimiser O (FP M)] [Memory O (FP M)] [Remembers (K := FP M) O]

/-- `fas k` is a scalar approximator after `k` passes over the calls `cs`. From some pass on the passes repeat: weights, optimiser and
all. `m` numbers are stored, and there are at most `2^65` doubles. -/
theorem C197_scalar (hM : M.rnd = binary64Format.rnd) (cs : List (SCall I (FP M))) (fas : Nat → ScalarLFA B O (FP M))
    (hr : ∀ k, SRun (fas k) cs (fas (k + 1))) (m : Nat) (hm : (Memory.moving (fas 0).optimiser).length + (fas 0).weights.length = m) :
    ∃ N p, 0 < p ∧ N + p ≤ (2 ^ 65) ^ m ∧ ∀ k, N ≤ k → fas (k + p) = fas k := by
  have := FP.finite hM
  have shape : ∀ k, SameShape (fas 0) (fas k) := fun k => by
    induction k with
    | zero => exact ⟨rfl, rfl, rfl⟩
    | succ k ih => exact ih.trans (srun_shape (hr k))
  let code : ScalarLFA B O (FP M) → Fin m → FP M := fun fa i => (Memory.moving fa.optimiser ++ fa.weights).getD i Scalar.zero
  obtain ⟨N, p, h1, h2, h3⟩ := periodic_of_card code fas (fun a b h => by
      have sa := shape a
      have sb := shape b
      have la : (Memory.moving (fas a).optimiser).length = (Memory.moving (fas 0).optimiser).length := Remembers.len sa.2.1
      have lb : (Memory.moving (fas b).optimiser).length = (Memory.moving (fas 0).optimiser).length := Remembers.len sb.2.1
      have hl : Memory.moving (fas a).optimiser ++ (fas a).weights = Memory.moving (fas b).optimiser ++ (fas b).weights := by
        apply List.ext_getElem
        · rw [List.length_append, List.length_append, la, lb, sa.2.2, sb.2.2]
        · intro i h1 h2
          have hi : i < m := by
            rw [List.length_append, la, sa.2.2] at h1
            omega
          have := congrFun h ⟨i, hi⟩
          simp only [code] at this
          rwa [List.getD_eq_getElem _ _ h1, List.getD_eq_getElem _ _ h2] at this
      obtain ⟨e1, e2⟩ := List.append_inj hl (la.trans lb.symm)
      have e3 := Remembers.inj (sa.2.1.trans sb.2.1.symm) e1
      have e4 := sa.1.trans sb.1.symm
      rcases ha : fas a with ⟨b1, w1, o1⟩
      rcases hb : fas b with ⟨b2, w2, o2⟩
      rw [ha, hb] at e2 e3 e4
      simp only at e2 e3 e4
      rw [e2, e3, e4])
    (fun a b h => by
      have h1 := hr a
      rw [h] at h1
      exact srun_unique h1 (hr b))
  refine ⟨N, p, h1, h2.trans ?_, h3⟩
  rw [Nat.card_fun, Nat.card_eq_fintype_card (α := Fin m), Fintype.card_fin]
  exact Nat.pow_le_pow_left (FP.card_le hM) m

/-- The same for several outputs. -/
theorem C197_vector (hM : M.rnd = binary64Format.rnd) (cs : List (VCall I (FP M))) (fas : Nat → VectorLFA B O (FP M))
    (hr : ∀ k, VRun (fas k) cs (fas (k + 1))) (m : Nat)
    (hm : (Memory.moving (fas 0).optimiser).length + ((fas 0).weights.map List.length).sum = m) :
    ∃ N p, 0 < p ∧ N + p ≤ (2 ^ 65) ^ m ∧ ∀ k, N ≤ k → fas (k + p) = fas k := by
  have := FP.finite hM
  have shape : ∀ k, SameShapes (fas 0) (fas k) := fun k => by
    induction k with
    | zero => exact ⟨rfl, rfl, rfl⟩
    | succ k ih => exact ih.trans (vrun_shape (hr k))
  let code : VectorLFA B O (FP M) → Fin m → FP M := fun fa i => (Memory.moving fa.optimiser ++ fa.weights.flatten).getD i Scalar.zero
  obtain ⟨N, p, h1, h2, h3⟩ := periodic_of_card code fas (fun a b h => by
      have sa := shape a
      have sb := shape b
      have la : (Memory.moving (fas a).optimiser).length = (Memory.moving (fas 0).optimiser).length := Remembers.len sa.2.1
      have lb : (Memory.moving (fas b).optimiser).length = (Memory.moving (fas 0).optimiser).length := Remembers.len sb.2.1
      have hl : Memory.moving (fas a).optimiser ++ (fas a).weights.flatten =
          Memory.moving (fas b).optimiser ++ (fas b).weights.flatten := by
        apply List.ext_getElem
        · rw [List.length_append, List.length_append, la, lb, List.length_flatten, List.length_flatten, sa.2.2, sb.2.2]
        · intro i h1 h2
          have hi : i < m := by
            rw [List.length_append, la, List.length_flatten, sa.2.2] at h1
            omega
          have := congrFun h ⟨i, hi⟩
          simp only [code] at this
          rwa [List.getD_eq_getElem _ _ h1, List.getD_eq_getElem _ _ h2] at this
      obtain ⟨e1, e2⟩ := List.append_inj hl (la.trans lb.symm)
      have e3 := Remembers.inj (sa.2.1.trans sb.2.1.symm) e1
      have e4 := sa.1.trans sb.1.symm
      have e5 := List.eq_iff_flatten_eq.2 ⟨e2, sa.2.2.trans sb.2.2.symm⟩
      rcases ha : fas a with ⟨b1, w1, o1⟩
      rcases hb : fas b with ⟨b2, w2, o2⟩
      rw [ha, hb] at e5 e3 e4
      simp only at e5 e3 e4
      rw [e5, e3, e4])
    (fun a b h => by
      have h1 := hr a
      rw [h] at h1
      exact vrun_unique h1 (hr b))
  refine ⟨N, p, h1, h2.trans ?_, h3⟩
  rw [Nat.card_fun, Nat.card_eq_fintype_card (α := Fin m), Fintype.card_fin]
  exact Nat.pow_le_pow_left (FP.card_le hM) m

/-- A sequence of finite doubles converges exactly if it is constant from some point on. No assumption on the calls. -/
theorem C197_limit (hM : M.rnd = binary64Format.rnd) (ps : Nat → FP M) (L : ℝ) (hf : ∀ t, Spec.Finite (ps t)) :
    Tendsto (fun t => real (ps t)) atTop (𝓝 L) ↔ ∃ N, ∀ t, N ≤ t → Is (ps t) L := by
  have := FP.finite hM
  constructor
  · intro h
    have fin : (Set.range (real : FP M → ℝ) \ {L}).Finite := (Set.finite_range _).subset Set.sdiff_subset
    have := h.eventually (fin.isClosed.isOpen_compl.mem_nhds (fun h => h.2 rfl))
    obtain ⟨N, hN⟩ := eventually_atTop.1 this
    refine ⟨N, fun t ht => ?_⟩
    obtain ⟨r, hr⟩ := hf t
    have e : real (ps t) = L := by
      by_contra hc
      exact hN t ht ⟨⟨_, rfl⟩, hc⟩
    rw [← e, is_real hr]
    exact hr
  · rintro ⟨N, hN⟩
    refine tendsto_const_nhds.congr' ?_
    filter_upwards [eventually_ge_atTop N] with t ht
    exact (is_real (hN t ht)).symm

end

/-- Such runs exist: any optimiser of matching size, any calls on inputs that the basis accepts. -/
theorem C197_runs {K : Type} [Scalar K] {B O I : Type} [Space B] [Basis B I K] [Optimiser O K] [HasSize O] [Safe (K := K) O]
    (b : B) (n : Nat) (hd : Space.dim b = .finite n) (hdim : DimOK I b)
    (hr : InRange I b) (w : List K) (hw : w.length = n) (o : O) (ho : HasSize.sized n o)
    (cs : List (SCall I K)) (hcs : ∀ c ∈ cs, Accepts (K := K) b c.input) :
    ∃ fas : Nat → ScalarLFA B O K, fas 0 = LFA.mk b w o ∧ ∀ k, SRun (fas k) cs (fas (k + 1)) := by
  let S := { q : List K × O // q.1.length = n ∧ HasSize.sized n q.2 }
  have hs : ∀ q : S, ∃ q' : S, SRun (LFA.mk b q.1.1 q.1.2 : ScalarLFA B O K) cs (LFA.mk b q'.1.1 q'.1.2) := by
    rintro ⟨⟨w, o⟩, h1, h2⟩
    obtain ⟨w', o', h3, h4, h5⟩ := C67_scalar b n hd hdim hr w h1 o h2 cs hcs
    exact ⟨⟨(w', o'), h4, h5⟩, h3⟩
  choose f hf using hs
  refine ⟨fun k => LFA.mk b (f^[k] ⟨(w, o), hw, ho⟩).1.1 (f^[k] ⟨(w, o), hw, ho⟩).1.2, rfl, fun k => ?_⟩
  have := hf (f^[k] ⟨(w, o), hw, ho⟩)
  rw [← Function.iterate_succ_apply' f k] at this
  exact this

/-- The seven optimisers are covered, and this many numbers they keep. -/
theorem C197_optimisers {K : Type} [Scalar K] (n : Nat) (lr γ β₁ β₂ : K) :
    (Remembers (K := K) (SGD K) ∧ Remembers (K := K) (ISGD K) ∧ Remembers (K := K) (SGDMomentum K) ∧ Remembers (K := K) (NAG K) ∧
      Remembers (K := K) (Adagrad K) ∧ Remembers (K := K) (Adam K) ∧ Remembers (K := K) (AdaMax K)) ∧
    (Memory.moving (SGD.mk lr)).length = 0 ∧ (Memory.moving (ISGD.mk lr)).length = 0 ∧
    (Memory.moving (SGDMomentum.new n γ lr)).length = n ∧ (Memory.moving (NAG.new n γ lr)).length = n ∧
    (Memory.moving (Adagrad.new n lr)).length = n ∧ (Memory.moving (Adam.new n lr β₁ β₂)).length = 2 * n + 2 ∧
    (Memory.moving (AdaMax.new n lr β₁ β₂)).length = 2 * n + 1 := by
  refine ⟨⟨inferInstance, inferInstance, inferInstance, inferInstance, inferInstance, inferInstance, inferInstance⟩, rfl, rfl, ?_⟩
  simp [Memory.moving, SGDMomentum.new, NAG.new, Adagrad.new, Adam.new, AdaMax.new]
  omega

open Machine in
/-- A period of two: SGD with rate `2` on a bias and target `1` predicts `0`, `2`, `0`, `2`, … for ever. -/
theorem C197_example (M : Machine) (hM : M.rnd = binary64Format.rnd) :
    ∃ fas : Nat → ScalarLFA (Bias (FP M)) (SGD (FP M)) (FP M),
      (∀ k, SRun (fas k) [.updateWith () fun _ p => Scalar.one -. p] (fas (k + 1))) ∧
      (∀ k, (fas (k + 2)) = fas k) ∧ Is (entry (fas 0).weights 0) 0 ∧ Is (entry (fas 1).weights 0) 2 := by
  have int : ∀ m : ℤ, |m| ≤ 2 ^ 53 → M.rnd (m : ℝ) = .fin m := fun m hm => by
    rw [hM]
    have h := binary64Format.rnd_exact (m := m) (e := 0) hm (by norm_num [binary64Format]) (by
      rw [zpow_zero, mul_one]
      have : |(m : ℝ)| ≤ 2 ^ 53 := by exact_mod_cast hm
      refine this.trans_lt ?_
      show (2 : ℝ) ^ (53 : Nat) < 2 ^ (1024 : ℤ)
      exact_mod_cast zpow_lt_zpow_right₀ (by norm_num : (1 : ℝ) < 2) (by norm_num : ((53 : Nat) : ℤ) < 1024))
    rwa [zpow_zero, mul_one] at h
  have lit : ∀ m : ℤ, |m| ≤ 2 ^ 53 → Is (M.lit m) m := int
  have l0 : Is (M.lit 0) 0 := by simpa using lit 0 (by norm_num)
  have l2 : Is (M.lit 2) 2 := by simpa using lit 2 (by norm_num)
  have step : ∀ (W W' : ℤ), |W| ≤ 2 → |W'| ≤ 2 → W' = W + 2 * (1 - W) →
      ScalarLFA.updateWith (LFA.mk (Bias.mk Scalar.one) [M.lit W] ⟨M.lit 2⟩ : ScalarLFA (Bias (FP M)) (SGD (FP M)) (FP M)) ()
        (fun _ p => Scalar.one -. p) = .ok (.ok (), LFA.mk (Bias.mk Scalar.one) [M.lit W'] ⟨M.lit 2⟩) := by
    intro W W' h1 h2 hW
    have s1 : |W| ≤ 2 ^ 53 := h1.trans (by norm_num)
    have hp : Basis.project (Bias.mk (Scalar.one : FP M)) () = .ok (.ok (.dense [Scalar.one])) := rfl
    have hf : Fits 1 (.dense [(Scalar.one : FP M)]) := ⟨trivial, rfl⟩
    obtain ⟨v, hv, hi⟩ := C109_exact hM (LFA.mk (Bias.mk Scalar.one) [M.lit W] ⟨M.lit 2⟩ : ScalarLFA (Bias (FP M)) (SGD (FP M)) (FP M))
      () _ hp hf (fun _ => 1) (fun _ => W) 0 0 (by norm_num) (by norm_num)
      (fun i hi => by
        obtain rfl : i = 0 := by simpa using hi
        show Is (Scalar.one : FP M) _
        rw [Int.cast_one, zpow_zero, mul_one]
        exact val_one)
      (fun i hi => by
        obtain rfl : i = 0 := by simpa using hi
        show Is (M.lit W) _
        simpa using lit W s1)
      (by simpa using s1)
    have hv' : (Features.dense [(Scalar.one : FP M)]).dot [M.lit W] = .ok v := by
      have : ((Features.dense [(Scalar.one : FP M)]).dot [M.lit W] >>= fun v => (.ok (.ok v) : P (Result (FP M)))) = .ok (.ok v) := hv
      obtain ⟨u, h3, h4⟩ := P.bind_eq_ok.1 this
      rw [h3]
      exact congrArg Except.ok (Except.ok.inj (Except.ok.inj h4))
    have hi' : Is v W := by simpa using hi
    have b1 := abs_le.1 h1
    have e1 : Is (Scalar.one -. v) ((1 - W : ℤ) : ℝ) := by
      have h := int (1 - W) (by rw [abs_le]; constructor <;> omega)
      show (_ -. _ : FP M).1 = _
      rw [val_sub, show (Scalar.one : FP M).1 = .fin 1 from val_one, show v.1 = .fin W from hi']
      show M.rnd (1 + -(W : ℝ)) = _
      rw [← h]
      congr 1
      push_cast
      ring
    have e2 : Is (M.lit 2 *. (Scalar.one -. v)) ((2 * (1 - W) : ℤ) : ℝ) := by
      have h := int (2 * (1 - W)) (by rw [abs_le]; constructor <;> omega)
      show (_ *. _ : FP M).1 = _
      rw [val_mul, show (M.lit 2).1 = .fin 2 from l2, show (_ : FP M).1 = .fin _ from e1]
      show M.rnd (2 * ((1 - W : ℤ) : ℝ)) = _
      rw [← h]
      congr 1
      push_cast
      ring
    have e3 : M.lit W +. M.lit 2 *. (Scalar.one -. v) *. Scalar.one = M.lit W' := by
      rw [mul_is_one val_one]
      apply fp_ext
      rw [val_add, show (M.lit W).1 = .fin W from lit W s1, show (_ : FP M).1 = .fin _ from e2,
        show (M.lit W').1 = .fin W' from lit W' (h2.trans (by norm_num))]
      show M.rnd ((W : ℝ) + ((2 * (1 - W) : ℤ) : ℝ)) = _
      rw [← int W' (h2.trans (by norm_num)), hW]
      congr 1
      push_cast
      ring
    have e4 : (Features.dense [(Scalar.one : FP M)]).scaledAddto (M.lit 2 *. (Scalar.one -. v)) [M.lit W] = .ok [M.lit W'] := by
      rw [← e3]
      rfl
    refine updateWith_eq (fa := (LFA.mk (Bias.mk Scalar.one) [M.lit W] ⟨M.lit 2⟩ : ScalarLFA (Bias (FP M)) (SGD (FP M)) (FP M))) hp hv' _ ?_
    show ((Features.dense [(Scalar.one : FP M)]).scaledAddto (M.lit 2 *. (Scalar.one -. v)) [M.lit W] >>= _) = _
    rw [e4]
    rfl
  have up := step 0 2 (by norm_num) (by norm_num) (by norm_num)
  have down := step 2 0 (by norm_num) (by norm_num) (by norm_num)
  refine ⟨fun k => if k % 2 = 0 then LFA.mk (Bias.mk Scalar.one) [M.lit (0 : ℤ)] ⟨M.lit 2⟩ else
    LFA.mk (Bias.mk Scalar.one) [M.lit (2 : ℤ)] ⟨M.lit 2⟩, fun k => ?_, fun k => ?_, ?_, ?_⟩
  · rcases Nat.mod_two_eq_zero_or_one k with h | h
    · have h' : (k + 1) % 2 = 1 := by omega
      simp only [h, h', if_true, one_ne_zero, if_false]
      exact .updateWith up (.nil _)
    · have h' : (k + 1) % 2 = 0 := by omega
      simp only [h, h', if_true, one_ne_zero, if_false]
      exact .updateWith down (.nil _)
  · simp only [Nat.add_mod_right]
  · show Is (M.lit (0 : ℤ)) 0
    simpa using lit 0 (by norm_num)
  · show Is (M.lit (2 : ℤ)) 2
    simpa using lit 2 (by norm_num)

end Lfa

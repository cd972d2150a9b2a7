import Verif.Proofs.LinearStep
import Mathlib.Data.List.GetD

/-!
# C147–C148: training is linear, and sees a basis only through inner products

Exact arithmetic. `Stream` is an endless run of `update_with(x, |_, p| y - p)`, `Spec/Sequence.lean`.
-/

set_option linter.unusedSectionVars false

namespace Lfa

open Spec

section
variable {B I : Type} [Space B] [Basis B I ℝ]

/-- `a w + c v`. -/
noncomputable def combine (a c : ℝ) (w v : List ℝ) : List ℝ := List.zipWith (fun x y => a * x + c * y) w v

theorem combine_length {a c : ℝ} {w v : List ℝ} {n : Nat} (hw : w.length = n) (hv : v.length = n) :
    (combine a c w v).length = n := by
  unfold combine
  rw [List.length_zipWith, hw, hv, min_self]

theorem entry_combine {a c : ℝ} {w v : List ℝ} {n : Nat} (hw : w.length = n) (hv : v.length = n) {i : Nat} (hi : i < n) :
    entry (combine a c w v) i = a * entry w i + c * entry v i := by
  unfold combine entry
  rw [List.getD_eq_getElem _ _ (by simp; omega), List.getD_eq_getElem _ _ (by omega),
    List.getD_eq_getElem _ _ (by omega), List.getElem_zipWith]

/-- Run 3 is `a` times run 1 plus `c` times run 2, after every call: its weights, and its predictions at every input
with `n` features. -/
def Superposes {O : Type} (b : B) (n : Nat) (a c : ℝ) (fas₁ fas₂ fas₃ : Nat → ScalarLFA B O ℝ) : Prop :=
  ∀ k, (fas₃ k).weights = combine a c (fas₁ k).weights (fas₂ k).weights ∧
    ∀ (x : I) (φ : Features ℝ), Basis.project b x = .ok (.ok φ) → Fits n φ →
      ∃ p₁ p₂, (fas₁ k).evaluate x = .ok (.ok p₁) ∧ (fas₂ k).evaluate x = .ok (.ok p₂) ∧
        (fas₃ k).evaluate x = .ok (.ok (a * p₁ + c * p₂))

theorem inner_combine {n : Nat} {φ : Features ℝ} (hφ : dim φ = n) {a c : ℝ} {w w₁ w₂ : List ℝ}
    (h : ∀ i < n, entry w i = a * entry w₁ i + c * entry w₂ i) :
    Spec.inner φ w = a * Spec.inner φ w₁ + c * Spec.inner φ w₂ := by
  rw [inner_eq, inner_eq, inner_eq, hφ, Finset.mul_sum, Finset.mul_sum, ← Finset.sum_add_distrib]
  refine Finset.sum_congr rfl fun i hi => ?_
  rw [h i (Finset.mem_range.1 hi)]
  ring

variable {O : Type} [Optimiser O ℝ] [HasSize O]

/-- Combined weights make combined predictions, at every input. -/
theorem superposed_evaluate [LinearStep O] {b : B} {n : Nat} {p : StepPar} {a c : ℝ} {fa₁ fa₂ fa₃ : ScalarLFA B O ℝ}
    (r₁ : RunState b n p fa₁) (r₂ : RunState b n p fa₂) (r₃ : RunState b n p fa₃)
    (h : fa₃.weights = combine a c fa₁.weights fa₂.weights) {x : I} {φ : Features ℝ}
    (hp : Basis.project b x = .ok (.ok φ)) (hf : Fits n φ) :
    ∃ p₁ p₂, fa₁.evaluate x = .ok (.ok p₁) ∧ fa₂.evaluate x = .ok (.ok p₂) ∧
      fa₃.evaluate x = .ok (.ok (a * p₁ + c * p₂)) := by
  refine ⟨_, _, run_evaluate r₁ hp hf, run_evaluate r₂ hp hf, ?_⟩
  rw [run_evaluate r₃ hp hf, h, inner_combine hf.2 fun i hi => entry_combine r₁.length r₂.length hi]

/-- The general form. `a + c = 1` is only needed where the step has a part that ignores the error. -/
theorem superpose [LinearStep O] {b : B} {n : Nat} {p : StepPar} {a c : ℝ} (hd : p.drift = 0 ∨ a + c = 1)
    {xs : Nat → I} (hx : ∀ k, ∃ φ, Basis.project b (xs k) = .ok (.ok φ) ∧ Fits n φ)
    {ys₁ ys₂ ps₁ ps₂ ps₃ : Nat → ℝ} {fas₁ fas₂ fas₃ : Nat → ScalarLFA B O ℝ}
    (s₁ : Stream fas₁ xs ys₁ ps₁) (s₂ : Stream fas₂ xs ys₂ ps₂)
    (s₃ : Stream fas₃ xs (fun k => a * ys₁ k + c * ys₂ k) ps₃)
    (r₁ : RunState b n p (fas₁ 0)) (r₂ : RunState b n p (fas₂ 0)) (r₃ : RunState b n p (fas₃ 0))
    (hw : (fas₃ 0).weights = combine a c (fas₁ 0).weights (fas₂ 0).weights)
    (hv : ∀ i < n, LinearStep.vel (fas₃ 0).optimiser i = a * LinearStep.vel (fas₁ 0).optimiser i
      + c * LinearStep.vel (fas₂ 0).optimiser i) :
    Superposes (I := I) b n a c fas₁ fas₂ fas₃ ∧ ∀ k, ps₃ k = a * ps₁ k + c * ps₂ k := by
  choose φ hφ using hx
  have l₁ := linear_stream s₁ r₁ φ hφ
  have l₂ := linear_stream s₂ r₂ φ hφ
  have l₃ := linear_stream s₃ r₃ φ hφ
  have key : ∀ k, ∀ i < n, entry (fas₃ k).weights i = a * entry (fas₁ k).weights i + c * entry (fas₂ k).weights i ∧
      LinearStep.vel (fas₃ k).optimiser i = a * LinearStep.vel (fas₁ k).optimiser i
        + c * LinearStep.vel (fas₂ k).optimiser i := by
    intro k
    induction k with
    | zero => exact fun i hi => ⟨by rw [hw, entry_combine r₁.length r₂.length hi], hv i hi⟩
    | succ k ih =>
      intro i hi
      have hin := inner_combine (hφ k).2.2 fun i hi => (ih i hi).1
      obtain ⟨a1, a2⟩ := (l₁ k).2.2 i hi
      obtain ⟨b1, b2⟩ := (l₂ k).2.2 i hi
      obtain ⟨c1, c2⟩ := (l₃ k).2.2 i hi
      rw [a1, a2, b1, b2, c1, c2, hin, (ih i hi).1, (ih i hi).2]
      refine ⟨?_, by ring⟩
      rcases hd with hd | hd
      · rw [hd]; ring
      · have : c = 1 - a := by linarith
        subst this; ring
  refine ⟨fun k => ?_, fun k => ?_⟩
  · have hw : (fas₃ k).weights = combine a c (fas₁ k).weights (fas₂ k).weights := by
      refine ext_entry ?_ fun i hi => ?_
      · rw [(l₃ k).1.length, combine_length (l₁ k).1.length (l₂ k).1.length]
      · rw [(l₃ k).1.length] at hi
        rw [entry_combine (l₁ k).1.length (l₂ k).1.length hi, (key k i hi).1]
    exact ⟨hw, fun x φ hp hf => superposed_evaluate (l₁ k).1 (l₂ k).1 (l₃ k).1 hw hp hf⟩
  · rw [(l₁ k).2.1, (l₂ k).2.1, (l₃ k).2.1]
    exact inner_combine (hφ k).2.2 fun i hi => (key k i hi).1

end

/-! ## C147 -/

section
variable {B I : Type} [Space B] [Basis B I ℝ]

/-- Three runs over the same inputs: the targets and the initial weights of the third are combinations of those of the
first two. All start with the optimiser `o`. -/
structure Combined {O : Type} [Optimiser O ℝ] (b : B) (o : O) (n : Nat) (a c : ℝ) (xs : Nat → I)
    (ys₁ ys₂ ps₁ ps₂ ps₃ : Nat → ℝ) (fas₁ fas₂ fas₃ : Nat → ScalarLFA B O ℝ) (w₁ w₂ : List ℝ) : Prop where
  accepts : ∀ k, ∃ φ, Basis.project b (xs k) = .ok (.ok φ) ∧ Fits n φ
  length₁ : w₁.length = n
  length₂ : w₂.length = n
  run₁ : Stream fas₁ xs ys₁ ps₁
  run₂ : Stream fas₂ xs ys₂ ps₂
  run₃ : Stream fas₃ xs (fun k => a * ys₁ k + c * ys₂ k) ps₃
  start₁ : fas₁ 0 = LFA.mk b w₁ o
  start₂ : fas₂ 0 = LFA.mk b w₂ o
  start₃ : fas₃ 0 = LFA.mk b (combine a c w₁ w₂) o

theorem combined_superposes {O : Type} [Optimiser O ℝ] [HasSize O] [LinearStep O] {b : B} {o : O} {n : Nat} {a c : ℝ}
    {xs : Nat → I} {ys₁ ys₂ ps₁ ps₂ ps₃ : Nat → ℝ} {fas₁ fas₂ fas₃ : Nat → ScalarLFA B O ℝ} {w₁ w₂ : List ℝ}
    (h : Combined b o n a c xs ys₁ ys₂ ps₁ ps₂ ps₃ fas₁ fas₂ fas₃ w₁ w₂)
    (hd : (LinearStep.par o).drift = 0 ∨ a + c = 1) (ho : HasSize.sized n o)
    (hv : ∀ i < n, LinearStep.vel o i = a * LinearStep.vel o i + c * LinearStep.vel o i) :
    Superposes (I := I) b n a c fas₁ fas₂ fas₃ ∧ ∀ k, ps₃ k = a * ps₁ k + c * ps₂ k := by
  obtain ⟨h1, h2, h3, h4, h5, h6, h7, h8, h9⟩ := h
  refine superpose (b := b) (n := n) (p := LinearStep.par o) hd h1 h4 h5 h6 ?_ ?_ ?_ ?_ ?_
  · rw [h7]; exact ⟨rfl, h2, ho, rfl⟩
  · rw [h8]; exact ⟨rfl, h3, ho, rfl⟩
  · rw [h9]; exact ⟨rfl, combine_length h2 h3, ho, rfl⟩
  · rw [h7, h8, h9]
  · rw [h7, h8, h9]; exact hv

theorem entry_zeros (n i : Nat) : entry (List.replicate n (0 : ℝ)) i = 0 := by
  rw [entry_real]
  rcases Nat.lt_or_ge i n with h | h
  · rw [List.getD_eq_getElem _ _ (by simpa using h), List.getElem_replicate]
  · rw [List.getD_eq_default _ _ (by simpa using h)]

/-- Under SGD, ISGD and Momentum training is linear in the targets and the initial weights together: a run on combined
targets from combined weights has combined weights and predictions after every call. -/
theorem C147_superposition (b : B) (n : Nat) (lr m a c : ℝ) (xs : Nat → I) (ys₁ ys₂ ps₁ ps₂ ps₃ : Nat → ℝ)
    (w₁ w₂ : List ℝ) :
    (∀ fas₁ fas₂ fas₃, Combined b (SGD.mk lr) n a c xs ys₁ ys₂ ps₁ ps₂ ps₃ fas₁ fas₂ fas₃ w₁ w₂ →
      Superposes (I := I) b n a c fas₁ fas₂ fas₃ ∧ ∀ k, ps₃ k = a * ps₁ k + c * ps₂ k) ∧
    (∀ fas₁ fas₂ fas₃, Combined b (ISGD.mk lr) n a c xs ys₁ ys₂ ps₁ ps₂ ps₃ fas₁ fas₂ fas₃ w₁ w₂ →
      Superposes (I := I) b n a c fas₁ fas₂ fas₃ ∧ ∀ k, ps₃ k = a * ps₁ k + c * ps₂ k) ∧
    (∀ fas₁ fas₂ fas₃, Combined b (SGDMomentum.new n m lr) n a c xs ys₁ ys₂ ps₁ ps₂ ps₃ fas₁ fas₂ fas₃ w₁ w₂ →
      Superposes (I := I) b n a c fas₁ fas₂ fas₃ ∧ ∀ k, ps₃ k = a * ps₁ k + c * ps₂ k) := by
  refine ⟨fun _ _ _ h => combined_superposes h (.inl rfl) trivial fun i _ => ?_,
    fun _ _ _ h => combined_superposes h (.inl rfl) trivial fun i _ => ?_,
    fun _ _ _ h => combined_superposes h (.inl rfl) (List.length_replicate ..) fun i _ => ?_⟩
  · simp [LinearStep.vel]
  · simp [LinearStep.vel]
  · have : LinearStep.vel (SGDMomentum.new n m lr) i = 0 := by
      show entry (List.replicate n (Scalar.zero : ℝ)) i = 0
      rw [real_zero, entry_zeros]
    rw [this]; ring

/-- NAG, whose step has a part that ignores the error: the same for weighted means, `a + c = 1`. -/
theorem C147_nag_mean (b : B) (n : Nat) (lr m a c : ℝ) (hac : a + c = 1) (xs : Nat → I)
    (ys₁ ys₂ ps₁ ps₂ ps₃ : Nat → ℝ) (w₁ w₂ : List ℝ) (fas₁ fas₂ fas₃ : Nat → ScalarLFA B (NAG ℝ) ℝ)
    (h : Combined b (NAG.new n m lr) n a c xs ys₁ ys₂ ps₁ ps₂ ps₃ fas₁ fas₂ fas₃ w₁ w₂) :
    Superposes (I := I) b n a c fas₁ fas₂ fas₃ ∧ ∀ k, ps₃ k = a * ps₁ k + c * ps₂ k := by
  refine combined_superposes h (.inr hac) (List.length_replicate ..) fun i _ => ?_
  rw [← add_mul, hac, one_mul]

/-- Changing the unit of the targets of a fresh approximator changes the unit of all its predictions. -/
theorem C147_units (b : B) (n : Nat) (lr m a : ℝ) (xs : Nat → I) (ys ps ps' : Nat → ℝ)
    (hx : ∀ k, ∃ φ, Basis.project b (xs k) = .ok (.ok φ) ∧ Fits n φ) :
    (∀ fas fas' : Nat → ScalarLFA B (SGD ℝ) ℝ, Stream fas xs ys ps → Stream fas' xs (fun k => a * ys k) ps' →
      fas 0 = LFA.mk b (List.replicate n 0) (SGD.mk lr) → fas' 0 = fas 0 → ∀ k, ps' k = a * ps k) ∧
    (∀ fas fas' : Nat → ScalarLFA B (ISGD ℝ) ℝ, Stream fas xs ys ps → Stream fas' xs (fun k => a * ys k) ps' →
      fas 0 = LFA.mk b (List.replicate n 0) (ISGD.mk lr) → fas' 0 = fas 0 → ∀ k, ps' k = a * ps k) ∧
    (∀ fas fas' : Nat → ScalarLFA B (SGDMomentum ℝ) ℝ, Stream fas xs ys ps → Stream fas' xs (fun k => a * ys k) ps' →
      fas 0 = LFA.mk b (List.replicate n 0) (SGDMomentum.new n m lr) → fas' 0 = fas 0 → ∀ k, ps' k = a * ps k) := by
  have h0 : combine a 0 (List.replicate n 0) (List.replicate n 0) = List.replicate n (0 : ℝ) := by
    unfold combine
    rw [List.zipWith_replicate]
    simp
  have hc : ∀ {O : Type} [Optimiser O ℝ] (o : O) (fas fas' : Nat → ScalarLFA B O ℝ), Stream fas xs ys ps →
      Stream fas' xs (fun k => a * ys k) ps' → fas 0 = LFA.mk b (List.replicate n 0) o → fas' 0 = fas 0 →
      Combined b o n a 0 xs ys ys ps ps ps' fas fas fas' (List.replicate n 0) (List.replicate n 0) := by
    intro O _ o fas fas' s s' e e'
    refine ⟨hx, List.length_replicate .., List.length_replicate .., s, s, ?_, e, e, by rw [e', e, h0]⟩
    simpa using s'
  obtain ⟨t1, t2, t3⟩ := C147_superposition b n lr m a 0 xs ys ys ps ps ps' (List.replicate n 0) (List.replicate n 0)
  refine ⟨fun fas fas' s s' e e' k => ?_, fun fas fas' s s' e e' k => ?_, fun fas fas' s s' e e' k => ?_⟩
  · simpa using (t1 _ _ _ (hc _ _ _ s s' e e')).2 k
  · simpa using (t2 _ _ _ (hc _ _ _ s s' e e')).2 k
  · simpa using (t3 _ _ _ (hc _ _ _ s s' e e')).2 k

/-- What is left of the initial weights: the difference of two runs on the same targets is the run on zero targets from
the difference of the initial weights, whatever the targets. With NAG it is the difference of two such runs. -/
theorem C147_forgetting (b : B) (n : Nat) (lr m : ℝ) (xs : Nat → I) (ys ps₁ ps₂ ps₃ : Nat → ℝ) (w₁ w₂ : List ℝ)
    (hw₁ : w₁.length = n) (hw₂ : w₂.length = n)
    (hx : ∀ k, ∃ φ, Basis.project b (xs k) = .ok (.ok φ) ∧ Fits n φ) :
    (∀ fas₁ fas₂ fas₃ : Nat → ScalarLFA B (SGD ℝ) ℝ, Stream fas₁ xs ys ps₁ → Stream fas₂ xs ys ps₂ →
      Stream fas₃ xs (fun _ => 0) ps₃ → fas₁ 0 = LFA.mk b w₁ (SGD.mk lr) → fas₂ 0 = LFA.mk b w₂ (SGD.mk lr) →
      fas₃ 0 = LFA.mk b (combine 1 (-1) w₁ w₂) (SGD.mk lr) → ∀ k, ps₁ k - ps₂ k = ps₃ k) ∧
    (∀ fas₁ fas₂ fas₃ : Nat → ScalarLFA B (ISGD ℝ) ℝ, Stream fas₁ xs ys ps₁ → Stream fas₂ xs ys ps₂ →
      Stream fas₃ xs (fun _ => 0) ps₃ → fas₁ 0 = LFA.mk b w₁ (ISGD.mk lr) → fas₂ 0 = LFA.mk b w₂ (ISGD.mk lr) →
      fas₃ 0 = LFA.mk b (combine 1 (-1) w₁ w₂) (ISGD.mk lr) → ∀ k, ps₁ k - ps₂ k = ps₃ k) ∧
    (∀ fas₁ fas₂ fas₃ : Nat → ScalarLFA B (SGDMomentum ℝ) ℝ, Stream fas₁ xs ys ps₁ → Stream fas₂ xs ys ps₂ →
      Stream fas₃ xs (fun _ => 0) ps₃ → fas₁ 0 = LFA.mk b w₁ (SGDMomentum.new n m lr) →
      fas₂ 0 = LFA.mk b w₂ (SGDMomentum.new n m lr) →
      fas₃ 0 = LFA.mk b (combine 1 (-1) w₁ w₂) (SGDMomentum.new n m lr) → ∀ k, ps₁ k - ps₂ k = ps₃ k) := by
  have hc : ∀ {O : Type} [Optimiser O ℝ] (o : O) (fas₁ fas₂ fas₃ : Nat → ScalarLFA B O ℝ), Stream fas₁ xs ys ps₁ →
      Stream fas₂ xs ys ps₂ → Stream fas₃ xs (fun _ => 0) ps₃ → fas₁ 0 = LFA.mk b w₁ o → fas₂ 0 = LFA.mk b w₂ o →
      fas₃ 0 = LFA.mk b (combine 1 (-1) w₁ w₂) o →
      Combined b o n 1 (-1) xs ys ys ps₁ ps₂ ps₃ fas₁ fas₂ fas₃ w₁ w₂ := by
    intro O _ o fas₁ fas₂ fas₃ s₁ s₂ s₃ e₁ e₂ e₃
    refine ⟨hx, hw₁, hw₂, s₁, s₂, ?_, e₁, e₂, e₃⟩
    simpa using s₃
  obtain ⟨t1, t2, t3⟩ := C147_superposition b n lr m 1 (-1) xs ys ys ps₁ ps₂ ps₃ w₁ w₂
  refine ⟨fun _ _ _ s₁ s₂ s₃ e₁ e₂ e₃ k => ?_, fun _ _ _ s₁ s₂ s₃ e₁ e₂ e₃ k => ?_,
    fun _ _ _ s₁ s₂ s₃ e₁ e₂ e₃ k => ?_⟩
  · rw [(t1 _ _ _ (hc _ _ _ _ s₁ s₂ s₃ e₁ e₂ e₃)).2 k]; ring
  · rw [(t2 _ _ _ (hc _ _ _ _ s₁ s₂ s₃ e₁ e₂ e₃)).2 k]; ring
  · rw [(t3 _ _ _ (hc _ _ _ _ s₁ s₂ s₃ e₁ e₂ e₃)).2 k]; ring

/-- Such runs exist, for every basis, targets, weights and combination. -/
theorem C147_exists (b : B) (n : Nat) (lr m a c : ℝ) (xs : Nat → I) (ys₁ ys₂ : Nat → ℝ) (w₁ w₂ : List ℝ)
    (hw₁ : w₁.length = n) (hw₂ : w₂.length = n)
    (hx : ∀ k, ∃ φ, Basis.project b (xs k) = .ok (.ok φ) ∧ Fits n φ) :
    (∃ ps₁ ps₂ ps₃ fas₁ fas₂ fas₃, Combined b (SGD.mk lr) n a c xs ys₁ ys₂ ps₁ ps₂ ps₃ fas₁ fas₂ fas₃ w₁ w₂) ∧
    (∃ ps₁ ps₂ ps₃ fas₁ fas₂ fas₃, Combined b (ISGD.mk lr) n a c xs ys₁ ys₂ ps₁ ps₂ ps₃ fas₁ fas₂ fas₃ w₁ w₂) ∧
    (∃ ps₁ ps₂ ps₃ fas₁ fas₂ fas₃,
      Combined b (SGDMomentum.new n m lr) n a c xs ys₁ ys₂ ps₁ ps₂ ps₃ fas₁ fas₂ fas₃ w₁ w₂) ∧
    (∃ ps₁ ps₂ ps₃ fas₁ fas₂ fas₃,
      Combined b (NAG.new n m lr) n a c xs ys₁ ys₂ ps₁ ps₂ ps₃ fas₁ fas₂ fas₃ w₁ w₂) := by
  have hc : ∀ {O : Type} [Optimiser O ℝ] [HasSize O] [Safe (K := ℝ) O] (o : O), HasSize.sized n o →
      ∃ ps₁ ps₂ ps₃ fas₁ fas₂ fas₃, Combined b o n a c xs ys₁ ys₂ ps₁ ps₂ ps₃ fas₁ fas₂ fas₃ w₁ w₂ := by
    intro O _ _ _ o ho
    obtain ⟨f1, p1, s1, e1⟩ := stream_exists b xs ys₁ hx w₁ hw₁ o ho
    obtain ⟨f2, p2, s2, e2⟩ := stream_exists b xs ys₂ hx w₂ hw₂ o ho
    obtain ⟨f3, p3, s3, e3⟩ := stream_exists b xs (fun k => a * ys₁ k + c * ys₂ k) hx (combine a c w₁ w₂)
      (combine_length hw₁ hw₂) o ho
    exact ⟨p1, p2, p3, f1, f2, f3, hx, hw₁, hw₂, s1, s2, s3, e1, e2, e3⟩
  exact ⟨hc _ trivial, hc _ trivial, hc _ (List.length_replicate ..), hc _ (List.length_replicate ..)⟩

end

/-! ### Counterexamples: doubling the target does not double the prediction -/

/-- One call of `update_with` towards the target `y` at weights zero, over the constant features `c`; then the
prediction is `p`. -/
def OneCall {O : Type} [Optimiser O ℝ] (c : List ℝ) (o : O) (y p : ℝ) : Prop :=
  ∃ fa, ScalarLFA.updateWith (LFA.mk (FixedDense.mk c) (List.replicate c.length 0) o : ScalarLFA (FixedDense ℝ) O ℝ)
    ([] : List ℝ) (fun _ v => y - v) = .ok (.ok (), fa) ∧ fa.evaluate ([] : List ℝ) = .ok (.ok p)

theorem oneCall {O : Type} [Optimiser O ℝ] {c : List ℝ} {o o' : O} {y : ℝ} {w' : List ℝ}
    (h : Optimiser.stepScaled o (List.replicate c.length 0) (.dense c) y = .ok (.ok (), o', w'))
    (hw : w'.length = c.length) : OneCall c o y (Spec.inner (.dense c) w') := by
  have hp : Basis.project (FixedDense.mk c) ([] : List ℝ) = .ok (.ok (Features.dense c)) := rfl
  have hz : Spec.inner (.dense c) (List.replicate c.length (0 : ℝ)) = 0 := by
    rw [inner_eq]
    refine Finset.sum_eq_zero fun i _ => ?_
    rw [entry_zeros, mul_zero]
  refine ⟨⟨⟨c⟩, w', o'⟩, ?_, ?_⟩
  · refine updateWith_eq hp (v := 0) ?_ _ ?_
    · rw [dot_real (φ := .dense c) trivial (by simp [dim]), hz]
    · simpa using h
  · exact evaluate_eq hp (dot_real (φ := .dense c) trivial hw.symm)

theorem inner_dense (c w : List ℝ) : Spec.inner (.dense c) w = ∑ i ∈ Finset.range c.length, entry c i * entry w i := by
  rw [inner_eq]; rfl

theorem adagrad_call (c : List ℝ) (lr y : ℝ) : OneCall c (Adagrad.new c.length lr) y
    (∑ i ∈ Finset.range c.length, entry c i * (lr * (entry c i * y) / (|entry c i * y| + 1e-7))) := by
  obtain ⟨acc, w', h1, h2, h3, h4⟩ := adagrad_real (n := c.length) (φ := .dense c) ⟨trivial, rfl⟩
    (Adagrad.new c.length lr) (List.length_replicate ..) y (w := List.replicate c.length 0) (List.length_replicate ..)
  have := oneCall h1 h3
  rw [inner_dense] at this
  convert this using 1
  refine Finset.sum_congr rfl fun i hi => ?_
  obtain ⟨g1, g2⟩ := h4 i (Finset.mem_range.1 hi)
  rw [g2, g1]
  simp only [Adagrad.new, real_zero, entry_zeros, zero_add, Real.sqrt_sq_eq_abs]
  rfl

theorem adam_call (c : List ℝ) (lr y : ℝ) : OneCall c (Adam.new c.length lr 0 0) y
    (∑ i ∈ Finset.range c.length, entry c i * (lr * (entry c i * y) / (|entry c i * y| + 1e-7))) := by
  obtain ⟨m, v, w', h1, h2, h3, h4, h5⟩ := adam_real (n := c.length) (φ := .dense c) ⟨trivial, rfl⟩
    (Adam.new c.length lr 0 0) (List.length_replicate ..) (List.length_replicate ..) y
    (w := List.replicate c.length 0) (List.length_replicate ..)
  have := oneCall h1 h4
  rw [inner_dense] at this
  convert this using 1
  refine Finset.sum_congr rfl fun i hi => ?_
  have hi := Finset.mem_range.1 hi
  obtain ⟨g1, g2, g3, -⟩ := h5 i hi
  rw [g3 ⟨c[i], List.getElem?_eq_getElem hi⟩, g2, g1]
  simp only [Adam.new, mul_zero, sub_zero, div_one, one_mul, zero_add, entry_zeros, real_zero,
    Real.sqrt_sq_eq_abs]
  rfl

theorem adamax_call (c : List ℝ) (lr y : ℝ) : OneCall c (AdaMax.new c.length lr 0 0) y
    (∑ i ∈ Finset.range c.length, entry c i * (lr * (entry c i * y) / (|entry c i * y| + 1e-7))) := by
  obtain ⟨m, v, w', h1, h2, h3, h4, h5⟩ := adamax_real (n := c.length) (φ := .dense c) ⟨trivial, rfl⟩
    (AdaMax.new c.length lr 0 0) (List.length_replicate ..) (List.length_replicate ..) y
    (w := List.replicate c.length 0) (List.length_replicate ..)
  have := oneCall h1 h4
  rw [inner_dense] at this
  convert this using 1
  refine Finset.sum_congr rfl fun i hi => ?_
  have hi := Finset.mem_range.1 hi
  obtain ⟨g1, g2, -⟩ := h5 i hi
  obtain ⟨g2, g3⟩ := g2 ⟨c[i], List.getElem?_eq_getElem hi⟩
  rw [g3, g2, g1]
  simp only [AdaMax.new, mul_zero, sub_zero, div_one, one_mul, zero_add, entry_zeros, real_zero]
  rw [max_eq_right (abs_nonneg _)]
  rfl

theorem nag_call (c : List ℝ) (lr m y : ℝ) : OneCall c (NAG.new c.length m lr) y
    (∑ i ∈ Finset.range c.length, entry c i * (lr * (entry c i * y) + m * entry c i)) := by
  obtain ⟨v, w', h1, h2, h3, h4⟩ := nag_real (n := c.length) (φ := .dense c) ⟨trivial, rfl⟩
    (NAG.new c.length m lr) (List.length_replicate ..) y (w := List.replicate c.length 0) (List.length_replicate ..)
  have := oneCall h1 h3
  rw [inner_dense] at this
  convert this using 1
  refine Finset.sum_congr rfl fun i hi => ?_
  obtain ⟨g1, g2⟩ := h4 i (Finset.mem_range.1 hi)
  rw [g2, g1]
  simp only [NAG.new, real_zero, entry_zeros, mul_zero, zero_add]
  rfl

theorem C147_counterexamples :
    (∃ p₁ p₂, OneCall [1] (NAG.new 1 (1 / 2 : ℝ) 1) 1 p₁ ∧ OneCall [1] (NAG.new 1 (1 / 2 : ℝ) 1) 2 p₂ ∧ p₂ ≠ 2 * p₁) ∧
    (∃ p₁ p₂, OneCall [1] (Adagrad.new 1 (1 : ℝ)) 1 p₁ ∧ OneCall [1] (Adagrad.new 1 (1 : ℝ)) 2 p₂ ∧ p₂ ≠ 2 * p₁) ∧
    (∃ p₁ p₂, OneCall [1] (Adam.new 1 (1 : ℝ) 0 0) 1 p₁ ∧ OneCall [1] (Adam.new 1 (1 : ℝ) 0 0) 2 p₂ ∧ p₂ ≠ 2 * p₁) ∧
    (∃ p₁ p₂, OneCall [1] (AdaMax.new 1 (1 : ℝ) 0 0) 1 p₁ ∧ OneCall [1] (AdaMax.new 1 (1 : ℝ) 0 0) 2 p₂ ∧ p₂ ≠ 2 * p₁) := by
  refine ⟨⟨_, _, nag_call [1] _ _ _, nag_call [1] _ _ _, ?_⟩, ⟨_, _, adagrad_call [1] _ _, adagrad_call [1] _ _, ?_⟩,
    ⟨_, _, adam_call [1] _ _, adam_call [1] _ _, ?_⟩, ⟨_, _, adamax_call [1] _ _, adamax_call [1] _ _, ?_⟩⟩ <;>
  · simp [entry]
    norm_num

/-! ## C148 -/

section
variable {B B' I : Type} [Space B] [Basis B I ℝ] [Space B'] [Basis B' I ℝ]

/-- On the inputs `X` both bases give well-formed features, `n` and `n'` of them, and any two inputs have the same
inner product in both. -/
structure SameInner (b : B) (b' : B') (n n' : Nat) (X : I → Prop) : Prop where
  left : ∀ x, X x → ∃ φ, Basis.project b x = .ok (.ok φ) ∧ Fits n φ
  right : ∀ x, X x → ∃ φ, Basis.project b' x = .ok (.ok φ) ∧ Fits n' φ
  same : ∀ x y φ ψ φ' ψ', X x → X y → Basis.project b x = .ok (.ok φ) → Basis.project b y = .ok (.ok ψ) →
    Basis.project b' x = .ok (.ok φ') → Basis.project b' y = .ok (.ok ψ') →
    innerFeatures φ ψ = innerFeatures φ' ψ'

theorem inner_expansion {n k : Nat} {ψ : Features ℝ} (hψ : dim ψ = n) {φ : Nat → Features ℝ} {c : Nat → ℝ} {w : List ℝ}
    (h : ∀ i < n, entry w i = ∑ j ∈ Finset.range k, c j * value (φ j) i) :
    Spec.inner ψ w = ∑ j ∈ Finset.range k, c j * innerFeatures ψ (φ j) := by
  rw [inner_eq, hψ, Finset.sum_congr rfl fun i hi => by rw [h i (Finset.mem_range.1 hi), Finset.mul_sum],
    Finset.sum_comm]
  refine Finset.sum_congr rfl fun j _ => ?_
  rw [innerFeatures, hψ, Finset.mul_sum]
  exact Finset.sum_congr rfl fun i _ => by ring

theorem expansion_succ {k : Nat} {φ : Nat → Features ℝ} {i : Nat} (g : Nat → ℝ) (last : ℝ) :
    ∑ j ∈ Finset.range (k + 1), (if j = k then last else g j) * value (φ j) i
      = ∑ j ∈ Finset.range k, g j * value (φ j) i + last * value (φ k) i := by
  rw [Finset.sum_range_succ, if_pos rfl]
  congr 1
  refine Finset.sum_congr rfl fun j hj => ?_
  rw [if_neg (Nat.ne_of_lt (Finset.mem_range.1 hj))]

variable {O : Type} [Optimiser O ℝ] [HasSize O]

theorem same_predictions [LinearStep O] {b : B} {b' : B'} {n n' : Nat} {X : I → Prop} (hX : SameInner b b' n n' X)
    {xs : Nat → I} (hxs : ∀ k, X (xs k)) {p : StepPar} {ys ps ps' : Nat → ℝ} {fas : Nat → ScalarLFA B O ℝ}
    {fas' : Nat → ScalarLFA B' O ℝ} (s : Stream fas xs ys ps) (s' : Stream fas' xs ys ps')
    (r : RunState b n p (fas 0)) (r' : RunState b' n' p (fas' 0))
    (z : ∀ i < n, entry (fas 0).weights i = 0 ∧ LinearStep.vel (fas 0).optimiser i = 0)
    (z' : ∀ i < n', entry (fas' 0).weights i = 0 ∧ LinearStep.vel (fas' 0).optimiser i = 0) (k : Nat) :
    ps k = ps' k ∧ ∀ x, X x → ∃ q, (fas k).evaluate x = .ok (.ok q) ∧ (fas' k).evaluate x = .ok (.ok q) := by
  choose φ hφ using fun k => hX.left (xs k) (hxs k)
  choose φ' hφ' using fun k => hX.right (xs k) (hxs k)
  have l := linear_stream s r φ hφ
  have l' := linear_stream s' r' φ' hφ'
  have hin : ∀ (x : I) (ψ ψ' : Features ℝ), X x → Basis.project b x = .ok (.ok ψ) → Basis.project b' x = .ok (.ok ψ') →
      ∀ j, innerFeatures ψ (φ j) = innerFeatures ψ' (φ' j) := fun x ψ ψ' hx h h' j =>
    hX.same x (xs j) ψ (φ j) ψ' (φ' j) hx (hxs j) h (hφ j).1 h' (hφ' j).1
  have hn : ∀ k, normSq (φ k) = normSq (φ' k) := fun k => hin (xs k) _ _ (hxs k) (hφ k).1 (hφ' k).1 k
  have key : ∀ k, ∃ c d : Nat → ℝ,
      (∀ i < n, entry (fas k).weights i = ∑ j ∈ Finset.range k, c j * value (φ j) i ∧
        LinearStep.vel (fas k).optimiser i = ∑ j ∈ Finset.range k, d j * value (φ j) i) ∧
      (∀ i < n', entry (fas' k).weights i = ∑ j ∈ Finset.range k, c j * value (φ' j) i ∧
        LinearStep.vel (fas' k).optimiser i = ∑ j ∈ Finset.range k, d j * value (φ' j) i) := by
    intro k
    induction k with
    | zero => exact ⟨fun _ => 0, fun _ => 0, fun i hi => by simpa using z i hi, fun i hi => by simpa using z' i hi⟩
    | succ k ih =>
      obtain ⟨c, d, h1, h2⟩ := ih
      have e : Spec.inner (φ k) (fas k).weights = Spec.inner (φ' k) (fas' k).weights := by
        rw [inner_expansion (hφ k).2.2 fun i hi => (h1 i hi).1, inner_expansion (hφ' k).2.2 fun i hi => (h2 i hi).1]
        exact Finset.sum_congr rfl fun j _ => by rw [hin (xs k) _ _ (hxs k) (hφ k).1 (hφ' k).1 j]
      let err := ys k - Spec.inner (φ k) (fas k).weights
      let q := p.rate (normSq (φ k))
      refine ⟨fun j => if j = k then q * err + p.drift else c j + q * p.mom * d j,
        fun j => if j = k then p.gain * err else p.carry * d j, fun i hi => ?_, fun i hi => ?_⟩
      · obtain ⟨g1, g2⟩ := (l k).2.2 i hi
        rw [expansion_succ, expansion_succ, g1, g2, (h1 i hi).1, (h1 i hi).2]
        simp only [add_mul, Finset.sum_add_distrib, mul_assoc, ← Finset.mul_sum]
        constructor <;> ring
      · obtain ⟨g1, g2⟩ := (l' k).2.2 i hi
        rw [← e, ← hn] at g2
        rw [← e] at g1
        rw [expansion_succ, expansion_succ, g1, g2, (h2 i hi).1, (h2 i hi).2]
        simp only [add_mul, Finset.sum_add_distrib, mul_assoc, ← Finset.mul_sum]
        constructor <;> ring
  obtain ⟨c, d, h1, h2⟩ := key k
  have hev : ∀ (x : I) (ψ ψ' : Features ℝ), X x → Basis.project b x = .ok (.ok ψ) → Basis.project b' x = .ok (.ok ψ') →
      dim ψ = n → dim ψ' = n' → Spec.inner ψ (fas k).weights = Spec.inner ψ' (fas' k).weights := by
    intro x ψ ψ' hx h h' hd hd'
    rw [inner_expansion hd fun i hi => (h1 i hi).1, inner_expansion hd' fun i hi => (h2 i hi).1]
    exact Finset.sum_congr rfl fun j _ => by rw [hin x ψ ψ' hx h h' j]
  refine ⟨?_, fun x hx => ?_⟩
  · rw [(l k).2.1, (l' k).2.1]
    exact hev (xs k) _ _ (hxs k) (hφ k).1 (hφ' k).1 (hφ k).2.2 (hφ' k).2.2
  · obtain ⟨ψ, hp, hf⟩ := hX.left x hx
    obtain ⟨ψ', hp', hf'⟩ := hX.right x hx
    refine ⟨_, run_evaluate (l k).1 hp hf, ?_⟩
    rw [run_evaluate (l' k).1 hp' hf', hev x ψ ψ' hx hp hp' hf.2 hf'.2]

end

section
variable {B B' I : Type} [Space B] [Basis B I ℝ] [Space B'] [Basis B' I ℝ]

/-- Two runs on the same inputs and targets over different bases, both starting at weights zero. -/
structure Twins {O : Type} [Optimiser O ℝ] (b : B) (b' : B') (n n' : Nat) (o o' : O) (xs : Nat → I) (ys ps ps' : Nat → ℝ)
    (fas : Nat → ScalarLFA B O ℝ) (fas' : Nat → ScalarLFA B' O ℝ) : Prop where
  run : Stream fas xs ys ps
  run' : Stream fas' xs ys ps'
  start : fas 0 = LFA.mk b (List.replicate n 0) o
  start' : fas' 0 = LFA.mk b' (List.replicate n' 0) o'

/-- After every call both predict the same at every input of `X`. -/
def Agree {O : Type} (X : I → Prop) (ps ps' : Nat → ℝ) (fas : Nat → ScalarLFA B O ℝ) (fas' : Nat → ScalarLFA B' O ℝ) :
    Prop :=
  ∀ k, ps k = ps' k ∧ ∀ x, X x → ∃ q, (fas k).evaluate x = .ok (.ok q) ∧ (fas' k).evaluate x = .ok (.ok q)

theorem twins_agree {O : Type} [Optimiser O ℝ] [HasSize O] [LinearStep O] {b : B} {b' : B'} {n n' : Nat} {X : I → Prop}
    (hX : SameInner b b' n n' X) {xs : Nat → I} (hxs : ∀ k, X (xs k)) {ys ps ps' : Nat → ℝ} {o o' : O}
    {fas : Nat → ScalarLFA B O ℝ} {fas' : Nat → ScalarLFA B' O ℝ} (h : Twins b b' n n' o o' xs ys ps ps' fas fas')
    (ho : HasSize.sized n o) (ho' : HasSize.sized n' o') (hp : LinearStep.par o' = LinearStep.par o)
    (hv : ∀ i, LinearStep.vel o i = 0 ∧ LinearStep.vel o' i = 0) : Agree X ps ps' fas fas' := by
  obtain ⟨h1, h2, h3, h4⟩ := h
  refine fun k => same_predictions (p := LinearStep.par o) hX hxs h1 h2 ?_ ?_ ?_ ?_ k
  · rw [h3]; exact ⟨rfl, List.length_replicate .., ho, rfl⟩
  · rw [h4]; exact ⟨rfl, List.length_replicate .., ho', hp⟩
  · rw [h3]; exact fun i _ => ⟨entry_zeros n i, (hv i).1⟩
  · rw [h4]; exact fun i _ => ⟨entry_zeros n' i, (hv i).2⟩

/-- Fresh approximators over two bases that have the same inner products make the same predictions for ever, whatever
the number, the order and the meaning of their features, with SGD, ISGD, Momentum and NAG. -/
theorem C148_inner_products (b : B) (b' : B') (n n' : Nat) (X : I → Prop) (hX : SameInner b b' n n' X) (lr m : ℝ)
    (xs : Nat → I) (hxs : ∀ k, X (xs k)) (ys ps ps' : Nat → ℝ) :
    (∀ fas fas', Twins b b' n n' (SGD.mk lr) (SGD.mk lr) xs ys ps ps' fas fas' → Agree X ps ps' fas fas') ∧
    (∀ fas fas', Twins b b' n n' (ISGD.mk lr) (ISGD.mk lr) xs ys ps ps' fas fas' → Agree X ps ps' fas fas') ∧
    (∀ fas fas', Twins b b' n n' (SGDMomentum.new n m lr) (SGDMomentum.new n' m lr) xs ys ps ps' fas fas' →
      Agree X ps ps' fas fas') ∧
    (∀ fas fas', Twins b b' n n' (NAG.new n m lr) (NAG.new n' m lr) xs ys ps ps' fas fas' → Agree X ps ps' fas fas') := by
  have hz : ∀ n i : Nat, entry (List.replicate n (Scalar.zero : ℝ)) i = 0 := fun n i => by rw [real_zero, entry_zeros]
  exact ⟨fun _ _ h => twins_agree hX hxs h trivial trivial rfl fun _ => ⟨rfl, rfl⟩,
    fun _ _ h => twins_agree hX hxs h trivial trivial rfl fun _ => ⟨rfl, rfl⟩,
    fun _ _ h => twins_agree hX hxs h (List.length_replicate ..) (List.length_replicate ..) rfl
      fun i => ⟨hz n i, hz n' i⟩,
    fun _ _ h => twins_agree hX hxs h (List.length_replicate ..) (List.length_replicate ..) rfl
      fun i => ⟨hz n i, hz n' i⟩⟩

end

/-- Such pairs exist: the constant features `[3, 4]` and `[5]`. -/
example : SameInner (FixedDense.mk [(3 : ℝ), 4]) (FixedDense.mk [(5 : ℝ)]) 2 1 (fun _ : List ℝ => True) where
  left _ _ := ⟨_, rfl, trivial, rfl⟩
  right _ _ := ⟨_, rfl, trivial, rfl⟩
  same x y φ ψ φ' ψ' _ _ h1 h2 h3 h4 := by
    cases h1; cases h2; cases h3; cases h4
    simp [innerFeatures, dim, value, Features.mkDense, Finset.sum_range_succ]
    norm_num

/-- Not so with Adagrad, Adam and AdaMax, which treat every feature by itself: the same inner products, one call,
different predictions. -/
theorem C148_counterexamples :
    (∃ p p', OneCall [3, 4] (Adagrad.new 2 (1 : ℝ)) 1 p ∧ OneCall [5] (Adagrad.new 1 (1 : ℝ)) 1 p' ∧ p ≠ p') ∧
    (∃ p p', OneCall [3, 4] (Adam.new 2 (1 : ℝ) 0 0) 1 p ∧ OneCall [5] (Adam.new 1 (1 : ℝ) 0 0) 1 p' ∧ p ≠ p') ∧
    (∃ p p', OneCall [3, 4] (AdaMax.new 2 (1 : ℝ) 0 0) 1 p ∧ OneCall [5] (AdaMax.new 1 (1 : ℝ) 0 0) 1 p' ∧ p ≠ p') := by
  refine ⟨⟨_, _, adagrad_call [3, 4] _ _, adagrad_call [5] _ _, ?_⟩, ⟨_, _, adam_call [3, 4] _ _, adam_call [5] _ _, ?_⟩,
    ⟨_, _, adamax_call [3, 4] _ _, adamax_call [5] _ _, ?_⟩⟩ <;>
  · simp [entry, Finset.sum_range_succ]
    norm_num

end Lfa

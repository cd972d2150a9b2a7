import Verif.Proofs.Recurrence
import Verif.Proofs.Sequence

/-!
# C115–C117: what the stateful optimisers do on one input, shown over and over

Exact arithmetic. An approximator over any basis is built with a fresh optimiser and trained by
calling `update_with(x, |_, p| y - p)` on the same `x` for ever (`Stream`). The error is
`y - evaluate(x)`. C47 settles plain SGD.
-/

set_option linter.unusedSectionVars false

namespace Lfa

open Spec Features Filter Topology

section
variable {B I : Type} [Space B] [Basis B I ℝ]

/-! ## Unfolding a stream -/

/-- What a stream on one input does, for an optimiser with an invariant `Inv` on its state that
every step keeps. -/
theorem stream_one {O : Type} [Optimiser O ℝ] {b : B} {x : I} {φ : Features ℝ} {n : Nat}
    (hp : Basis.project b x = .ok (.ok φ)) (hf : Fits n φ) {y : ℝ} (Inv : O → Prop)
    (hstep : ∀ (o : O) (w : List ℝ) (s : ℝ), Inv o → w.length = n →
      ∃ o' w', Optimiser.stepScaled o w φ s = .ok (.ok (), o', w') ∧ Inv o' ∧ w'.length = n)
    {fas : Nat → ScalarLFA B O ℝ} {ps : Nat → ℝ} {w : List ℝ} {o : O}
    (h : Stream fas (fun _ => x) (fun _ => y) ps) (h0 : fas 0 = LFA.mk b w o) (hw : w.length = n)
    (ho : Inv o) (k : Nat) :
    (fas k).basis = b ∧ Inv (fas k).optimiser ∧ (fas k).weights.length = n ∧
      ps k = inner φ (fas k).weights ∧
      Optimiser.stepScaled (fas k).optimiser (fas k).weights φ (y - ps k)
        = .ok (.ok (), (fas (k + 1)).optimiser, (fas (k + 1)).weights) := by
  have key : ∀ k, (fas k).basis = b → Inv (fas k).optimiser → (fas k).weights.length = n →
      ps k = inner φ (fas k).weights ∧ (fas (k + 1)).basis = b ∧ Inv (fas (k + 1)).optimiser ∧
      (fas (k + 1)).weights.length = n ∧
      Optimiser.stepScaled (fas k).optimiser (fas k).weights φ (y - ps k)
        = .ok (.ok (), (fas (k + 1)).optimiser, (fas (k + 1)).weights) := by
    intro k h1 h2 h3
    have hp' : Basis.project (fas k).basis x = .ok (.ok φ) := by rw [h1]; exact hp
    have hd : φ.dot (fas k).weights = .ok (inner φ (fas k).weights) :=
      dot_real hf.1 (hf.2.trans h3.symm)
    have e1 := (h.predicts k).symm.trans (evaluate_eq hp' hd)
    have e1 : ps k = inner φ (fas k).weights := by
      injection e1 with e1
      injection e1
    obtain ⟨o', w', s1, s2, s3⟩ := hstep (fas k).optimiser (fas k).weights (y - ps k) h2 h3
    have e2 := (h.updates k).symm.trans (updateWith_eq hp' hd (fun _ v => y -. v)
      (by rw [← e1]; exact s1))
    injection e2 with e2
    injection e2 with _ e2
    rw [e2]
    exact ⟨e1, h1, s2, s3, s1⟩
  have inv : ∀ k, (fas k).basis = b ∧ Inv (fas k).optimiser ∧ (fas k).weights.length = n := by
    intro k
    induction k with
    | zero => rw [h0]; exact ⟨rfl, ho, hw⟩
    | succ k ih =>
      obtain ⟨-, k2, k3, k4, -⟩ := key k ih.1 ih.2.1 ih.2.2
      exact ⟨k2, k3, k4⟩
  obtain ⟨i1, i2, i3⟩ := inv k
  obtain ⟨k1, -, -, -, k5⟩ := key k i1 i2 i3
  exact ⟨i1, i2, i3, k1, k5⟩

/-- Such streams exist, from any weights of the right length. -/
theorem stream_one_exists {O : Type} [Optimiser O ℝ] {b : B} {x : I} {φ : Features ℝ} {n : Nat}
    (hp : Basis.project b x = .ok (.ok φ)) (hf : Fits n φ) (y : ℝ) (Inv : O → Prop)
    (hstep : ∀ (o : O) (w : List ℝ) (s : ℝ), Inv o → w.length = n →
      ∃ o' w', Optimiser.stepScaled o w φ s = .ok (.ok (), o', w') ∧ Inv o' ∧ w'.length = n)
    {w : List ℝ} {o : O} (hw : w.length = n) (ho : Inv o) :
    ∃ (fas : Nat → ScalarLFA B O ℝ) (ps : Nat → ℝ),
      Stream fas (fun _ => x) (fun _ => y) ps ∧ fas 0 = LFA.mk b w o := by
  let S := { q : O × List ℝ // Inv q.1 ∧ q.2.length = n }
  have hs : ∀ q : S, ∃ q' : S, Optimiser.stepScaled q.1.1 q.1.2 φ (y - inner φ q.1.2)
      = .ok (.ok (), q'.1.1, q'.1.2) := by
    rintro ⟨⟨o, w⟩, h1, h2⟩
    obtain ⟨o', w', s1, s2, s3⟩ := hstep o w (y - inner φ w) h1 h2
    exact ⟨⟨(o', w'), s2, s3⟩, s1⟩
  choose next hnext using hs
  let st : Nat → S := fun k => Nat.rec ⟨(o, w), ho, hw⟩ (fun _ q => next q) k
  refine ⟨fun k => LFA.mk b (st k).1.2 (st k).1.1, fun k => inner φ (st k).1.2, ⟨?_, ?_⟩, rfl⟩
  · intro k
    exact evaluate_eq (fa := LFA.mk b (st k).1.2 (st k).1.1) hp
      (dot_real hf.1 (hf.2.trans (st k).2.2.symm))
  · intro k
    exact updateWith_eq (fa := LFA.mk b (st k).1.2 (st k).1.1) hp
      (dot_real hf.1 (hf.2.trans (st k).2.2.symm)) (fun _ v => y -. v) (hnext (st k))

theorem inner_lin {n : Nat} {φ : Features ℝ} (hd : dim φ = n) {w v w' : List ℝ} {α β γ : ℝ}
    (h : ∀ i < n, entry w' i = α * entry w i + β * entry v i + γ * value φ i) :
    inner φ w' = α * inner φ w + β * inner φ v + γ * normSq φ := by
  rw [inner_eq, inner_eq, inner_eq, normSq, hd, Finset.mul_sum, Finset.mul_sum, Finset.mul_sum,
    ← Finset.sum_add_distrib, ← Finset.sum_add_distrib]
  apply Finset.sum_congr rfl
  intro i hi
  rw [h i (Finset.mem_range.1 hi)]
  ring

theorem inner_zeros (φ : Features ℝ) (n : Nat) :
    inner φ (List.replicate n Scalar.zero) = 0 := by
  rw [inner_eq]
  apply Finset.sum_eq_zero
  intro i _
  have : entry (List.replicate n (Scalar.zero : ℝ)) i = 0 := by
    unfold entry
    by_cases hi : i < n
    · simp [hi]
    · simp [hi]
  rw [this, mul_zero]

/-! ## C115 Momentum -/

theorem momentum_keeps {n : Nat} {φ : Features ℝ} (hf : Fits n φ) (m lr : ℝ) (o : SGDMomentum ℝ)
    (w : List ℝ) (s : ℝ)
    (ho : o.momentum = m ∧ o.learningRate = lr ∧ o.velocity.length = n) (hw : w.length = n) :
    ∃ o' w', Optimiser.stepScaled o w φ s = .ok (.ok (), o', w') ∧
      (o'.momentum = m ∧ o'.learningRate = lr ∧ o'.velocity.length = n) ∧ w'.length = n := by
  obtain ⟨v, w', h1, h2, h3, -⟩ := momentum_real hf o ho.2.2 s hw
  exact ⟨_, w', h1, ⟨ho.1, ho.2.1, h2⟩, h3⟩

/-- The errors of Momentum on one input obey the heavy-ball recurrence. -/
theorem momentum_errors {b : B} {x : I} {φ : Features ℝ} {n : Nat}
    (hp : Basis.project b x = .ok (.ok φ)) (hf : Fits n φ) {y m lr : ℝ} {w : List ℝ}
    (hw : w.length = n) {fas : Nat → ScalarLFA B (SGDMomentum ℝ) ℝ} {ps : Nat → ℝ}
    (h : Stream fas (fun _ => x) (fun _ => y) ps)
    (h0 : fas 0 = LFA.mk b w (SGDMomentum.new n m lr)) :
    (y - ps 1 = (1 - lr * normSq φ) * (y - ps 0)) ∧ ∀ k,
      y - ps (k + 2) = (1 + m - lr * normSq φ) * (y - ps (k + 1)) - m * (y - ps k) := by
  have hi := stream_one hp hf _ (momentum_keeps hf m lr) h h0 hw
    ⟨rfl, rfl, by simp [SGDMomentum.new]⟩
  have step : ∀ k, ∃ q q' : ℝ, q = inner φ (fas k).optimiser.velocity ∧
      q' = inner φ (fas (k + 1)).optimiser.velocity ∧
      q' = m * q + normSq φ * (y - ps k) ∧ ps (k + 1) = ps k + lr * q' := by
    intro k
    obtain ⟨i1, ⟨i2, i3, i4⟩, i5, i6, i7⟩ := hi k
    obtain ⟨v, w', s1, s2, s3, s4⟩ := momentum_real hf (fas k).optimiser i4 (y - ps k) i5
    rw [i7] at s1
    injection s1 with s1
    injection s1 with _ s1
    injection s1 with s1 s5
    refine ⟨_, _, rfl, rfl, ?_, ?_⟩
    · rw [s1]
      rw [inner_lin (w := (fas k).optimiser.velocity) (v := []) (α := m) (β := 0) (γ := y - ps k)
        hf.2 fun i hi => ?_]
      · ring
      · rw [(s4 i hi).1, i2]; ring
    · rw [(hi (k + 1)).2.2.2.1, i6, s5, s1]
      rw [inner_lin (w := (fas k).weights) (v := v) (α := 1) (β := lr) (γ := 0)
        hf.2 fun i hi => ?_]
      · ring
      · rw [(s4 i hi).2, i3]; ring
  constructor
  · obtain ⟨q, q', h1, -, h3, h4⟩ := step 0
    have : q = 0 := by
      rw [h1, h0]
      exact inner_zeros φ n
    rw [h4, h3, this]
    ring
  · intro k
    obtain ⟨q, q', -, h2, h3, h4⟩ := step k
    obtain ⟨r, r', h5, -, h7, h8⟩ := step (k + 1)
    have h8 : ps (k + 2) = ps (k + 1) + lr * r' := h8
    rw [h8, h7, h5.trans h2.symm]
    linear_combination m * h4

/-- **C115.** Whatever the basis, the input, the target, the learning rate and the momentum: the
error of a freshly built Momentum approximator with a wrong first prediction tends to zero if and
only if `|m| < 1` and `0 < lr ‖φ‖² < 2 (1 + m)`. -/
theorem C115_momentum_iff (b : B) (x : I) (φ : Features ℝ) (n : Nat)
    (hp : Basis.project b x = .ok (.ok φ)) (hf : Fits n φ) (y m lr : ℝ) (w : List ℝ)
    (hw : w.length = n) (fas : Nat → ScalarLFA B (SGDMomentum ℝ) ℝ) (ps : Nat → ℝ)
    (h : Stream fas (fun _ => x) (fun _ => y) ps)
    (h0 : fas 0 = LFA.mk b w (SGDMomentum.new n m lr)) (hy : ps 0 ≠ y) :
    Tendsto (fun k => y - ps k) atTop (𝓝 0) ↔
      |m| < 1 ∧ 0 < lr * normSq φ ∧ lr * normSq φ < 2 * (1 + m) := by
  obtain ⟨h1, h2⟩ := momentum_errors hp hf hw h h0
  exact heavy_ball_iff (e := fun k => y - ps k) (sub_ne_zero.2 hy.symm) h1 h2

/-- Where it converges, the weights tend to `w + (y - p₀) / ‖φ‖² φ`, which are the weights closest to
the initial `w` among those that predict the target. -/
theorem C115_momentum_weights (b : B) (x : I) (φ : Features ℝ) (n : Nat)
    (hp : Basis.project b x = .ok (.ok φ)) (hf : Fits n φ) (y m lr : ℝ) (w : List ℝ)
    (hw : w.length = n) (fas : Nat → ScalarLFA B (SGDMomentum ℝ) ℝ) (ps : Nat → ℝ)
    (h : Stream fas (fun _ => x) (fun _ => y) ps)
    (h0 : fas 0 = LFA.mk b w (SGDMomentum.new n m lr)) (hm : |m| < 1) (h1 : 0 < lr * normSq φ)
    (h2 : lr * normSq φ < 2 * (1 + m)) (i : Nat) (hin : i < n) :
    Tendsto (fun k => entry (fas k).weights i) atTop
      (𝓝 (entry w i + (y - ps 0) / normSq φ * value φ i)) := by
  have hN : normSq φ ≠ 0 := by intro h; rw [h, mul_zero] at h1; exact lt_irrefl _ h1
  have hi := stream_one hp hf _ (momentum_keeps hf m lr) h h0 hw
    ⟨rfl, rfl, by simp [SGDMomentum.new]⟩
  have hl : Tendsto (fun k => y - ps k) atTop (𝓝 0) := by
    obtain ⟨-, e2⟩ := momentum_errors hp hf hw h h0
    exact tendsto_of_second_order hm (abs_lt.2 ⟨by linarith, by linarith⟩) e2
  have along : ∀ k, ∃ c d : ℝ, (∀ j < n, entry (fas k).optimiser.velocity j = c * value φ j) ∧
      ∀ j < n, entry (fas k).weights j = entry w j + d * value φ j := by
    intro k
    induction k with
    | zero =>
      refine ⟨0, 0, fun j hj => ?_, fun j _ => by rw [h0]; ring⟩
      rw [h0, zero_mul]
      show entry (List.replicate n (Scalar.zero : ℝ)) j = 0
      unfold entry
      simp [hj]
    | succ k ih =>
      obtain ⟨c, d, hc, hd⟩ := ih
      obtain ⟨i1, ⟨i2, i3, i4⟩, i5, i6, i7⟩ := hi k
      obtain ⟨v, w', s1, s2, s3, s4⟩ := momentum_real hf (fas k).optimiser i4 (y - ps k) i5
      rw [i7] at s1
      injection s1 with s1
      injection s1 with _ s1
      injection s1 with s1 s5
      rw [s1, s5]
      have hv : ∀ j < n, entry v j = (m * c + (y - ps k)) * value φ j := fun j hj => by
        rw [(s4 j hj).1, i2, hc j hj]; ring
      exact ⟨_, d + lr * (m * c + (y - ps k)), hv, fun j hj => by
        rw [(s4 j hj).2, i3, hv j hj, hd j hj]; ring⟩
  have hw' : ∀ k, entry (fas k).weights i
      = entry w i + (y - ps 0 - (y - ps k)) / normSq φ * value φ i := by
    intro k
    obtain ⟨-, d, -, hd⟩ := along k
    have a1 := (hi k).2.2.2.1
    have a0 := (hi 0).2.2.2.1
    rw [inner_lin (w := w) (v := []) (α := 1) (β := 0) (γ := d) hf.2
      fun j hj => by rw [hd j hj]; ring] at a1
    rw [h0] at a0
    have a0 : ps 0 = inner φ w := a0
    rw [hd i hin, a1, a0]
    field_simp
    ring
  have hlim := ((((tendsto_const_nhds (x := y - ps 0)).sub hl).div_const
    (normSq φ)).mul_const (value φ i)).const_add (entry w i)
  rw [sub_zero] at hlim
  exact hlim.congr fun k => (hw' k).symm

/-- A right first prediction stays right for ever. -/
theorem C115_momentum_exact (b : B) (x : I) (φ : Features ℝ) (n : Nat)
    (hp : Basis.project b x = .ok (.ok φ)) (hf : Fits n φ) (y m lr : ℝ) (w : List ℝ)
    (hw : w.length = n) (fas : Nat → ScalarLFA B (SGDMomentum ℝ) ℝ) (ps : Nat → ℝ)
    (h : Stream fas (fun _ => x) (fun _ => y) ps)
    (h0 : fas 0 = LFA.mk b w (SGDMomentum.new n m lr)) (hy : ps 0 = y) (k : Nat) : ps k = y := by
  obtain ⟨h1, h2⟩ := momentum_errors hp hf hw h h0
  have : ∀ k, y - ps k = 0 ∧ y - ps (k + 1) = 0 := by
    intro k
    induction k with
    | zero => exact ⟨by rw [hy]; ring, by rw [h1, hy]; ring⟩
    | succ k ih => exact ⟨ih.2, by rw [h2 k, ih.1, ih.2]; ring⟩
  linarith [(this k).1]

/-- Such a run exists from every start. -/
theorem C115_exists (b : B) (x : I) (φ : Features ℝ) (n : Nat)
    (hp : Basis.project b x = .ok (.ok φ)) (hf : Fits n φ) (y m lr : ℝ) (w : List ℝ)
    (hw : w.length = n) :
    ∃ (fas : Nat → ScalarLFA B (SGDMomentum ℝ) ℝ) (ps : Nat → ℝ),
      Stream fas (fun _ => x) (fun _ => y) ps ∧ fas 0 = LFA.mk b w (SGDMomentum.new n m lr) :=
  stream_one_exists hp hf y _ (momentum_keeps hf m lr) hw ⟨rfl, rfl, by simp [SGDMomentum.new]⟩

/-! ## C116 NAG -/

theorem nag_keeps {n : Nat} {φ : Features ℝ} (hf : Fits n φ) (m lr : ℝ) (o : NAG ℝ)
    (w : List ℝ) (s : ℝ)
    (ho : o.momentum = m ∧ o.learningRate = lr ∧ o.velocity.length = n) (hw : w.length = n) :
    ∃ o' w', Optimiser.stepScaled o w φ s = .ok (.ok (), o', w') ∧
      (o'.momentum = m ∧ o'.learningRate = lr ∧ o'.velocity.length = n) ∧ w'.length = n := by
  obtain ⟨v, w', h1, h2, h3, -⟩ := nag_real hf o ho.2.2 s hw
  exact ⟨_, w', h1, ⟨ho.1, ho.2.1, h2⟩, h3⟩

/-- The errors of NAG on one input obey a heavy-ball recurrence with a constant offset. -/
theorem nag_errors {b : B} {x : I} {φ : Features ℝ} {n : Nat}
    (hp : Basis.project b x = .ok (.ok φ)) (hf : Fits n φ) {y m lr : ℝ} {w : List ℝ}
    (hw : w.length = n) {fas : Nat → ScalarLFA B (NAG ℝ) ℝ} {ps : Nat → ℝ}
    (h : Stream fas (fun _ => x) (fun _ => y) ps)
    (h0 : fas 0 = LFA.mk b w (NAG.new n m lr)) (k : Nat) :
      y - ps (k + 2) = (1 + m - lr * normSq φ) * (y - ps (k + 1)) - m * (y - ps k)
        - m * (1 - m) * normSq φ := by
  have hi := stream_one hp hf _ (nag_keeps hf m lr) h h0 hw ⟨rfl, rfl, by simp [NAG.new]⟩
  have step : ∀ k, ∃ q q' : ℝ, q = inner φ (fas k).optimiser.velocity ∧
      q' = inner φ (fas (k + 1)).optimiser.velocity ∧
      q' = m * q + normSq φ * (y - ps k) ∧ ps (k + 1) = ps k + lr * q' + m * normSq φ := by
    intro k
    obtain ⟨i1, ⟨i2, i3, i4⟩, i5, i6, i7⟩ := hi k
    obtain ⟨v, w', s1, s2, s3, s4⟩ := nag_real hf (fas k).optimiser i4 (y - ps k) i5
    rw [i7] at s1
    injection s1 with s1
    injection s1 with _ s1
    injection s1 with s1 s5
    refine ⟨_, _, rfl, rfl, ?_, ?_⟩
    · rw [s1]
      rw [inner_lin (w := (fas k).optimiser.velocity) (v := []) (α := m) (β := 0) (γ := y - ps k)
        hf.2 fun i hi => ?_]
      · ring
      · rw [(s4 i hi).1, i2]; ring
    · rw [(hi (k + 1)).2.2.2.1, i6, s5, s1]
      rw [inner_lin (w := (fas k).weights) (v := v) (α := 1) (β := lr) (γ := m)
        hf.2 fun i hi => ?_]
      · ring
      · rw [(s4 i hi).2, i3, i2]; ring
  obtain ⟨q, q', -, h2, h3, h4⟩ := step k
  obtain ⟨r, r', h5, -, h7, h8⟩ := step (k + 1)
  have h8 : ps (k + 2) = ps (k + 1) + lr * r' + m * normSq φ := h8
  rw [h8, h7, h5.trans h2.symm]
  linear_combination m * h4

/-- **C116.** Within the stable range the prediction of a freshly built NAG approximator settles at
`y + m (1 - m) / lr`, not at the target `y`. -/
theorem C116_nag_limit (b : B) (x : I) (φ : Features ℝ) (n : Nat)
    (hp : Basis.project b x = .ok (.ok φ)) (hf : Fits n φ) (y m lr : ℝ) (w : List ℝ)
    (hw : w.length = n) (fas : Nat → ScalarLFA B (NAG ℝ) ℝ) (ps : Nat → ℝ)
    (h : Stream fas (fun _ => x) (fun _ => y) ps)
    (h0 : fas 0 = LFA.mk b w (NAG.new n m lr)) (hm : |m| < 1) (h1 : 0 < lr * normSq φ)
    (h2 : lr * normSq φ < 2 * (1 + m)) :
    Tendsto ps atTop (𝓝 (y + m * (1 - m) / lr)) := by
  have hlr : lr ≠ 0 := by rintro rfl; simp at h1
  have key := tendsto_of_second_order (p := 1 + m - lr * normSq φ) hm
    (abs_lt.2 ⟨by linarith, by linarith⟩)
    (e := fun k => y + m * (1 - m) / lr - ps k) fun k => by
      have := nag_errors hp hf hw h h0 k
      field_simp
      linear_combination lr * this
  have := (tendsto_const_nhds (x := y + m * (1 - m) / lr)).sub key
  simpa using this

/-- **C116.** With any momentum other than `0` and `1`, any learning rate, any target and any
initial weights, NAG never converges to the target on an input whose features are not all zero. -/
theorem C116_nag_never (b : B) (x : I) (φ : Features ℝ) (n : Nat)
    (hp : Basis.project b x = .ok (.ok φ)) (hf : Fits n φ) (hφ : normSq φ ≠ 0) (y m lr : ℝ)
    (hm0 : m ≠ 0) (hm1 : m ≠ 1) (w : List ℝ)
    (hw : w.length = n) (fas : Nat → ScalarLFA B (NAG ℝ) ℝ) (ps : Nat → ℝ)
    (h : Stream fas (fun _ => x) (fun _ => y) ps)
    (h0 : fas 0 = LFA.mk b w (NAG.new n m lr)) :
    ¬ Tendsto (fun k => y - ps k) atTop (𝓝 0) := by
  intro ht
  have t1 := (tendsto_add_atTop_iff_nat 1).2 ht
  have t2 := (tendsto_add_atTop_iff_nat 2).2 ht
  have t3 := ((t1.const_mul (1 + m - lr * normSq φ)).sub (ht.const_mul m)).sub
    (tendsto_const_nhds (x := m * (1 - m) * normSq φ))
  have := tendsto_nhds_unique t2 (t3.congr fun k => (nag_errors hp hf hw h h0 k).symm)
  have hne : m * (1 - m) * normSq φ ≠ 0 :=
    mul_ne_zero (mul_ne_zero hm0 (sub_ne_zero.2 hm1.symm)) hφ
  apply hne
  linarith

/-- Such a run exists from every start. -/
theorem C116_exists (b : B) (x : I) (φ : Features ℝ) (n : Nat)
    (hp : Basis.project b x = .ok (.ok φ)) (hf : Fits n φ) (y m lr : ℝ) (w : List ℝ)
    (hw : w.length = n) :
    ∃ (fas : Nat → ScalarLFA B (NAG ℝ) ℝ) (ps : Nat → ℝ),
      Stream fas (fun _ => x) (fun _ => y) ps ∧ fas 0 = LFA.mk b w (NAG.new n m lr) :=
  stream_one_exists hp hf y _ (nag_keeps hf m lr) hw ⟨rfl, rfl, by simp [NAG.new]⟩

/-! ## C117 Adagrad -/

theorem adagrad_keeps {n : Nat} {φ : Features ℝ} (hf : Fits n φ) (lr : ℝ) (o : Adagrad ℝ)
    (w : List ℝ) (s : ℝ) (ho : o.learningRate = lr ∧ o.accumulator.length = n)
    (hw : w.length = n) :
    ∃ o' w', Optimiser.stepScaled o w φ s = .ok (.ok (), o', w') ∧
      (o'.learningRate = lr ∧ o'.accumulator.length = n) ∧ w'.length = n := by
  obtain ⟨v, w', h1, h2, h3, -⟩ := adagrad_real hf o ho.2 s hw
  exact ⟨_, w', h1, ⟨ho.1, h2⟩, h3⟩

/-- The errors of Adagrad on one input shrink by a gain that depends on the summed squared errors. -/
theorem adagrad_errors {b : B} {x : I} {φ : Features ℝ} {n : Nat}
    (hp : Basis.project b x = .ok (.ok φ)) (hf : Fits n φ) {y lr : ℝ} {w : List ℝ}
    (hw : w.length = n) {fas : Nat → ScalarLFA B (Adagrad ℝ) ℝ} {ps : Nat → ℝ}
    (h : Stream fas (fun _ => x) (fun _ => y) ps)
    (h0 : fas 0 = LFA.mk b w (Adagrad.new n lr)) (k : Nat) :
    y - ps (k + 1) = (1 - ∑ i ∈ Finset.range n, lr * value φ i ^ 2 /
      (|value φ i| * √(∑ s ∈ Finset.range (k + 1), (y - ps s) ^ 2) + 1e-7)) * (y - ps k) := by
  have hi := stream_one hp hf _ (adagrad_keeps hf lr) h h0 hw ⟨rfl, by simp [Adagrad.new]⟩
  have step : ∀ k, ∀ i < n,
      entry (fas (k + 1)).optimiser.accumulator i
        = entry (fas k).optimiser.accumulator i + (value φ i * (y - ps k)) ^ 2 ∧
      entry (fas (k + 1)).weights i = entry (fas k).weights i + lr * (value φ i * (y - ps k)) /
        (√(entry (fas (k + 1)).optimiser.accumulator i) + 1e-7) := by
    intro k i hin
    obtain ⟨i1, ⟨i2, i3⟩, i5, i6, i7⟩ := hi k
    obtain ⟨v, w', s1, s2, s3, s4⟩ := adagrad_real hf (fas k).optimiser i3 (y - ps k) i5
    rw [i7] at s1
    injection s1 with s1
    injection s1 with _ s1
    injection s1 with s1 s5
    rw [s1, s5]
    refine ⟨(s4 i hin).1, ?_⟩
    rw [(s4 i hin).2, i2]
  have acc : ∀ k, ∀ i < n, entry (fas k).optimiser.accumulator i
      = value φ i ^ 2 * ∑ s ∈ Finset.range k, (y - ps s) ^ 2 := by
    intro k
    induction k with
    | zero =>
      intro i hin
      rw [h0, Finset.sum_range_zero, mul_zero]
      show entry (List.replicate n (Scalar.zero : ℝ)) i = 0
      unfold entry
      simp [hin]
    | succ k ih =>
      intro i hin
      rw [(step k i hin).1, ih i hin, Finset.sum_range_succ]
      ring
  have hsq : ∀ i < n, √(entry (fas (k + 1)).optimiser.accumulator i)
      = |value φ i| * √(∑ s ∈ Finset.range (k + 1), (y - ps s) ^ 2) := by
    intro i hin
    rw [acc (k + 1) i hin, Real.sqrt_mul (sq_nonneg _), Real.sqrt_sq_eq_abs]
  have hps : ps (k + 1) = ps k + ∑ i ∈ Finset.range n, lr * value φ i ^ 2 /
      (|value φ i| * √(∑ s ∈ Finset.range (k + 1), (y - ps s) ^ 2) + 1e-7) * (y - ps k) := by
    have a1 := (hi (k + 1)).2.2.2.1
    have a2 := (hi k).2.2.2.1
    rw [inner_eq, hf.2] at a1 a2
    rw [← sub_eq_iff_eq_add', a1]
    nth_rw 1 [a2]
    rw [← Finset.sum_sub_distrib]
    apply Finset.sum_congr rfl
    intro i hin
    have hin := Finset.mem_range.1 hin
    rw [(step k i hin).2, hsq i hin]
    ring
  rw [hps, ← Finset.sum_mul]
  ring

/-- **C117.** With any positive learning rate, however large, Adagrad converges to any target on
any input whose features are not all zero, from any initial weights. -/
theorem C117_adagrad_converges (b : B) (x : I) (φ : Features ℝ) (n : Nat)
    (hp : Basis.project b x = .ok (.ok φ)) (hf : Fits n φ) (hφ : normSq φ ≠ 0) (y lr : ℝ)
    (hlr : 0 < lr) (w : List ℝ) (hw : w.length = n) (fas : Nat → ScalarLFA B (Adagrad ℝ) ℝ)
    (ps : Nat → ℝ) (h : Stream fas (fun _ => x) (fun _ => y) ps)
    (h0 : fas 0 = LFA.mk b w (Adagrad.new n lr)) :
    Tendsto (fun k => y - ps k) atTop (𝓝 0) := by
  refine adagrad_tendsto (n := n) (c := fun i => lr * value φ i ^ 2) (d := fun i => |value φ i|)
    (ε := 1e-7) (by norm_num) (fun i _ => by positivity) (fun i _ => abs_nonneg _) ?_ ?_
    (adagrad_errors hp hf hw h h0)
  · intro i _ hi
    rw [abs_eq_zero.1 hi]
    ring
  · by_contra hc
    push Not at hc
    apply hφ
    rw [normSq, hf.2]
    apply Finset.sum_eq_zero
    intro i hi
    have h1 := hc i (Finset.mem_range.1 hi)
    have h2 := mul_nonneg hlr.le (sq_nonneg (value φ i))
    have h3 : value φ i ^ 2 = 0 := by
      rcases mul_eq_zero.1 (le_antisymm h1 h2) with h | h
      · exact absurd h hlr.ne'
      · exact h
    rw [← sq, h3]

/-- Such a run exists from every start. -/
theorem C117_exists (b : B) (x : I) (φ : Features ℝ) (n : Nat)
    (hp : Basis.project b x = .ok (.ok φ)) (hf : Fits n φ) (y lr : ℝ) (w : List ℝ)
    (hw : w.length = n) :
    ∃ (fas : Nat → ScalarLFA B (Adagrad ℝ) ℝ) (ps : Nat → ℝ),
      Stream fas (fun _ => x) (fun _ => y) ps ∧ fas 0 = LFA.mk b w (Adagrad.new n lr) :=
  stream_one_exists hp hf y _ (adagrad_keeps hf lr) hw ⟨rfl, by simp [Adagrad.new]⟩

end

/-! ### Concrete cases -/

/-- The features `(1, x)`. -/
noncomputable def affine : Closure ℝ ℝ := ⟨2, fun x => .ok (.ok (.dense [1, x]))⟩

theorem affine_fits (x : ℝ) : Basis.project affine x = .ok (.ok (.dense [1, x])) ∧
    Fits 2 (.dense [1, x]) ∧ normSq (.dense [1, x]) = 1 + x ^ 2 := by
  refine ⟨rfl, ⟨trivial, rfl⟩, ?_⟩
  show ∑ i ∈ Finset.range 2, _ = _
  rw [Finset.sum_range_succ, Finset.sum_range_one]
  show (1 : ℝ) * 1 + x * x = _
  ring

/-- With `m = 0.9` and `lr = 0.1`, Momentum learns the target `5` at `x = 1` from zero weights. -/
example : ∃ (fas : Nat → ScalarLFA (Closure ℝ ℝ) (SGDMomentum ℝ) ℝ) (ps : Nat → ℝ),
    Stream fas (fun _ => (1 : ℝ)) (fun _ => 5) ps ∧ ps 0 = 0 ∧
      fas 0 = LFA.mk affine [0, 0] (SGDMomentum.new 2 0.9 0.1) ∧
      Tendsto (fun k => 5 - ps k) atTop (𝓝 0) := by
  obtain ⟨h1, h2, h3⟩ := affine_fits 1
  obtain ⟨fas, ps, h, h0⟩ := C115_exists affine (1 : ℝ) _ 2 h1 h2 5 0.9 0.1 [0, 0] rfl
  have hps : ps 0 = 0 := by
    have := (h.predicts 0).symm
    rw [h0, evaluate_eq (fa := LFA.mk affine [0, 0] _) h1 (dot_real h2.1 h2.2)] at this
    injection this with this
    injection this with this
    rw [this, inner_eq]
    show ∑ i ∈ Finset.range 2, _ = _
    rw [Finset.sum_range_succ, Finset.sum_range_one]
    show (1 : ℝ) * 0 + 1 * 0 = 0
    ring
  refine ⟨fas, ps, h, hps, h0, ?_⟩
  rw [C115_momentum_iff affine (1 : ℝ) _ 2 h1 h2 5 0.9 0.1 [0, 0] rfl fas ps h h0 (by rw [hps]; norm_num), h3]
  norm_num [abs_of_pos]

/-- With the same settings NAG settles at `5.9`. -/
example : ∃ (fas : Nat → ScalarLFA (Closure ℝ ℝ) (NAG ℝ) ℝ) (ps : Nat → ℝ),
    Stream fas (fun _ => (1 : ℝ)) (fun _ => 5) ps ∧
      fas 0 = LFA.mk affine [0, 0] (NAG.new 2 0.9 0.1) ∧ Tendsto ps atTop (𝓝 5.9) := by
  obtain ⟨h1, h2, h3⟩ := affine_fits 1
  obtain ⟨fas, ps, h, h0⟩ := C116_exists affine (1 : ℝ) _ 2 h1 h2 5 0.9 0.1 [0, 0] rfl
  refine ⟨fas, ps, h, h0, ?_⟩
  have := C116_nag_limit affine (1 : ℝ) _ 2 h1 h2 5 0.9 0.1 [0, 0] rfl fas ps h h0
    (by norm_num [abs_of_pos]) (by rw [h3]; norm_num) (by rw [h3]; norm_num)
  norm_num at this ⊢
  exact this

/-- Adagrad with learning rate `1000` learns it. -/
example : ∃ (fas : Nat → ScalarLFA (Closure ℝ ℝ) (Adagrad ℝ) ℝ) (ps : Nat → ℝ),
    Stream fas (fun _ => (1 : ℝ)) (fun _ => 5) ps ∧
      fas 0 = LFA.mk affine [0, 0] (Adagrad.new 2 1000) ∧
      Tendsto (fun k => 5 - ps k) atTop (𝓝 0) := by
  obtain ⟨h1, h2, h3⟩ := affine_fits 1
  obtain ⟨fas, ps, h, h0⟩ := C117_exists affine (1 : ℝ) _ 2 h1 h2 5 1000 [0, 0] rfl
  exact ⟨fas, ps, h, h0, C117_adagrad_converges affine (1 : ℝ) _ 2 h1 h2 (by rw [h3]; norm_num) 5 1000
    (by norm_num) [0, 0] rfl fas ps h h0⟩

end Lfa

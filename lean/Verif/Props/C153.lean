import Verif.Props.C152
import Verif.Proofs.DelayedGain

/-!
# C153: Adagrad with one accumulator for all outputs

The optimiser of a vector approximator steps the outputs in turn (`turns`, for every optimiser), so that the
squared gradients of every output shrink the steps of all others. With Adagrad this does no harm: any number
of outputs converges to any targets on one input for every positive learning rate, as one output does (C117).
Exact arithmetic.
-/

set_option linter.unusedSectionVars false

namespace Lfa

open Spec Filter Topology

section
variable {O : Type} [Optimiser O ℝ]

/-- On optimisers that satisfy `Inv` and columns of length `n`, steps with the features `φ` succeed and keep
that up. -/
def Keeps (O : Type) [Optimiser O ℝ] (Inv : O → Prop) (n : Nat) (φ : Features ℝ) : Prop :=
  ∀ (o : O) (w : List ℝ) (s : ℝ), Inv o → w.length = n →
    ∃ o' w', Optimiser.stepScaled o w φ s = .ok (.ok (), o', w') ∧ Inv o' ∧ w'.length = n

/-- The columns of one call are stepped in turn. -/
theorem columns_turns {Inv : O → Prop} {n : Nat} {φ : Features ℝ} (hk : Keeps O Inv n φ) :
    ∀ (es : List ℝ) (cs : List (List ℝ)) (o : O), es.length = cs.length → (∀ c ∈ cs, c.length = n) → Inv o →
    ∃ o' ds, VectorLFA.stepColumns φ es cs o (.ok ()) = .ok (.ok (), o', ds) ∧ Inv o' ∧
      ds.length = cs.length ∧ (∀ d ∈ ds, d.length = n) ∧
      ∃ os : Nat → O, os 0 = o ∧ os cs.length = o' ∧ ∀ j < cs.length, Inv (os j) ∧
        Optimiser.stepScaled (os j) (cs.getD j []) φ (entry es j) = .ok (.ok (), os (j + 1), ds.getD j [])
  | [], [], o, _, _, ho => ⟨o, [], rfl, ho, rfl, by simp, fun _ => o, rfl, rfl, by simp⟩
  | e :: es, c :: cs, o, hl, hc, ho => by
    obtain ⟨o₁, w', s1, s2, s3⟩ := hk o c e ho (hc c (by simp))
    obtain ⟨o', ds, r1, r2, r3, r4, os, u0, u1, u2⟩ := columns_turns hk es cs o₁
      (by simpa using hl) (fun d hd => hc d (by simp [hd])) s2
    refine ⟨o', w' :: ds, ?_, r2, by simp [r3], ?_, fun j => Nat.casesOn j o os, rfl, u1, ?_⟩
    · show (Optimiser.stepScaled o c φ e >>= _) = _
      rw [s1, P.ok_bind]
      show (VectorLFA.stepColumns φ es cs _ (.ok ()) >>= _) = _
      rw [r1]; rfl
    · intro d hd
      rcases List.mem_cons.1 hd with rfl | hd
      · exact s3
      · exact r4 d hd
    · intro j hj
      cases j with
      | zero =>
        show Inv o ∧ Optimiser.stepScaled o c φ e = .ok (.ok (), os 0, w')
        rw [u0]
        exact ⟨ho, s1⟩
      | succ j =>
        exact u2 j (by simpa using hj)

variable {B I : Type} [Space B] [Basis B I ℝ]

/-- One call on `m` outputs. -/
theorem turns_vcall {b : B} {x : I} {φ : Features ℝ} {n m : Nat} (hp : Basis.project b x = .ok (.ok φ))
    (hf : Fits n φ) {Inv : O → Prop} (hk : Keeps O Inv n φ) {ys : List ℝ} (hy : ys.length = m)
    (fv : VectorLFA B O ℝ) (hb : fv.basis = b) (hm : fv.weights.length = m) (hc : ∀ c ∈ fv.weights, c.length = n)
    (ho : Inv fv.optimiser) :
    fv.evaluate x = .ok (.ok (fv.weights.map (inner φ))) ∧
    ∃ fv' : VectorLFA B O ℝ,
      fv.updateWith x (fun _ vs => List.zipWith (· -. ·) ys vs) = .ok (.ok (), fv') ∧
      fv'.basis = b ∧ fv'.weights.length = m ∧ (∀ c ∈ fv'.weights, c.length = n) ∧ Inv fv'.optimiser ∧
      ∃ os : Nat → O, os 0 = fv.optimiser ∧ os m = fv'.optimiser ∧ ∀ j < m, Inv (os j) ∧
        Optimiser.stepScaled (os j) (fv.weights.getD j []) φ (entry ys j - entry (fv.weights.map (inner φ)) j) =
          .ok (.ok (), os (j + 1), fv'.weights.getD j []) := by
  have hp' : Basis.project fv.basis x = .ok (.ok φ) := hb ▸ hp
  have hmat := matmul_real hf hc
  have hl : (List.zipWith (· -. ·) ys (fv.weights.map (inner φ))).length = fv.weights.length := by
    rw [List.length_zipWith, hy, List.length_map, hm, Nat.min_self]
  obtain ⟨o', ds, r1, r2, r3, r4, os, u0, u1, u2⟩ := columns_turns hk _ _ _ hl hc ho
  refine ⟨?_, { fv with weights := ds, optimiser := o' }, ?_, hb, r3.trans hm, r4, r2, os, u0, hm ▸ u1, fun j hj => ?_⟩
  · rw [vector_evaluate_eq hp', hmat]; rfl
  · rw [vector_updateWith_eq hp', hmat, P.ok_bind, vector_update_eq hp', r1]; rfl
  · rw [← hm] at hj
    obtain ⟨a1, a2⟩ := u2 j hj
    have e1 : entry (List.zipWith (· -. ·) ys (fv.weights.map (inner φ))) j
        = entry ys j - entry (fv.weights.map (inner φ)) j := by
      unfold entry
      rw [List.getD_eq_getElem?_getD, List.getElem?_zipWith]
      have h1 : j < ys.length := by omega
      simp [h1, hj]
    rw [e1] at a2
    exact ⟨a1, a2⟩

/-- The column that is stepped at turn `s` of a run with `m` outputs. -/
def columnInTurn (m : Nat) (fas : Nat → VectorLFA B O ℝ) (s : Nat) : List ℝ := (fas (s / m)).weights.getD (s % m) []

/-- Training a vector approximator on one input, with any optimiser: the outputs take turns with the one
optimiser, and the error of each is measured against its own column only. -/
theorem turns {b : B} {x : I} {φ : Features ℝ} {n m : Nat} (hm : 0 < m) (hp : Basis.project b x = .ok (.ok φ))
    (hf : Fits n φ) {Inv : O → Prop} (hk : Keeps O Inv n φ) {ys : List ℝ} (hy : ys.length = m)
    {ws : List (List ℝ)} (hw : ws.length = m) (hc : ∀ c ∈ ws, c.length = n) {o : O} (ho : Inv o)
    {fas : Nat → VectorLFA B O ℝ} {ps : Nat → List ℝ}
    (h : VStream fas (fun _ => x) (fun _ => ys) ps) (h0 : fas 0 = LFA.mk b ws o) :
    ∃ os : Nat → O, os 0 = o ∧ ∀ s, Inv (os s) ∧ (columnInTurn m fas s).length = n ∧
      errorsInTurn m ys ps s = entry ys (s % m) - inner φ (columnInTurn m fas s) ∧
      Optimiser.stepScaled (os s) (columnInTurn m fas s) φ (errorsInTurn m ys ps s) =
        .ok (.ok (), os (s + 1), columnInTurn m fas (s + m)) := by
  have inv : ∀ k, (fas k).basis = b ∧ (fas k).weights.length = m ∧ (∀ c ∈ (fas k).weights, c.length = n) ∧
      Inv (fas k).optimiser := by
    intro k
    induction k with
    | zero => rw [h0]; exact ⟨rfl, hw, hc, ho⟩
    | succ k ih =>
      obtain ⟨-, fv', h1, h2, h3, h4, h5, -⟩ := turns_vcall hp hf hk hy (fas k) ih.1 ih.2.1 ih.2.2.1 ih.2.2.2
      rw [h.updates k] at h1
      injection h1 with h1
      injection h1 with _ h1
      rw [h1]; exact ⟨h2, h3, h4, h5⟩
  have hps : ∀ k, ps k = (fas k).weights.map (inner φ) := by
    intro k
    obtain ⟨h1, -⟩ := turns_vcall hp hf hk hy (fas k) (inv k).1 (inv k).2.1 (inv k).2.2.1 (inv k).2.2.2
    rw [h.predicts k] at h1
    injection h1 with h1
    injection h1
  have step : ∀ k, ∃ os : Nat → O, os 0 = (fas k).optimiser ∧ os m = (fas (k + 1)).optimiser ∧
      ∀ j < m, Inv (os j) ∧
        Optimiser.stepScaled (os j) ((fas k).weights.getD j []) φ (entry ys j - entry (ps k) j) =
          .ok (.ok (), os (j + 1), (fas (k + 1)).weights.getD j []) := by
    intro k
    obtain ⟨-, fv', h1, -, -, -, -, os, h2⟩ := turns_vcall hp hf hk hy (fas k) (inv k).1 (inv k).2.1 (inv k).2.2.1 (inv k).2.2.2
    rw [h.updates k] at h1
    injection h1 with h1
    injection h1 with _ h1
    rw [hps k, h1]
    exact ⟨os, h2⟩
  choose u hu using step
  have next : ∀ s, u ((s + 1) / m) ((s + 1) % m) = u (s / m) (s % m + 1) := by
    intro s
    have hlt := Nat.mod_lt s hm
    rcases Nat.lt_or_ge (s % m + 1) m with h1 | h1
    · have e1 : s + 1 = m * (s / m) + (s % m + 1) := by
        have := Nat.div_add_mod s m
        omega
      rw [e1, Nat.mul_add_div hm, Nat.mul_add_mod, Nat.mod_eq_of_lt h1, Nat.div_eq_of_lt h1, Nat.add_zero]
    · have e0 : s % m + 1 = m := by omega
      have e3 : s + 1 = (s / m + 1) * m := by
        have := Nat.div_add_mod s m
        nlinarith
      rw [e0, e3, Nat.mul_mod_left, Nat.mul_div_cancel _ hm, (hu (s / m + 1)).1, (hu (s / m)).2.1]
  refine ⟨fun s => u (s / m) (s % m), ?_, fun s => ?_⟩
  · show u (0 / m) (0 % m) = o
    rw [Nat.zero_div, Nat.zero_mod, (hu 0).1, h0]
  · have hlt := Nat.mod_lt s hm
    obtain ⟨h1, h2⟩ := (hu (s / m)).2.2 (s % m) hlt
    have hlt' : s % m < (fas (s / m)).weights.length := by rw [(inv (s / m)).2.1]; exact hlt
    refine ⟨h1, ?_, ?_, ?_⟩
    · unfold columnInTurn
      rw [List.getD_eq_getElem _ _ hlt']
      exact (inv (s / m)).2.2.1 _ (List.getElem_mem _)
    · unfold errorsInTurn columnInTurn
      rw [hps]
      unfold entry
      simp [hlt']
    · show Optimiser.stepScaled (u (s / m) (s % m)) _ φ _ = .ok (.ok (), u ((s + 1) / m) ((s + 1) % m), _)
      rw [next]
      unfold columnInTurn errorsInTurn
      rw [Nat.add_mod_right, Nat.add_div_right s hm]
      exact h2

/-- Such runs exist. -/
theorem turns_exists {b : B} {x : I} {φ : Features ℝ} {n m : Nat} (hp : Basis.project b x = .ok (.ok φ))
    (hf : Fits n φ) {Inv : O → Prop} (hk : Keeps O Inv n φ) (ys : List ℝ) (hy : ys.length = m)
    (ws : List (List ℝ)) (hw : ws.length = m) (hc : ∀ c ∈ ws, c.length = n) (o : O) (ho : Inv o) :
    ∃ (fas : Nat → VectorLFA B O ℝ) (ps : Nat → List ℝ),
      VStream fas (fun _ => x) (fun _ => ys) ps ∧ fas 0 = LFA.mk b ws o := by
  let S := { fv : VectorLFA B O ℝ // fv.basis = b ∧ fv.weights.length = m ∧
    (∀ c ∈ fv.weights, c.length = n) ∧ Inv fv.optimiser }
  have hs : ∀ q : S, ∃ q' : S, q.1.updateWith x (fun _ vs => List.zipWith (· -. ·) ys vs) = .ok (.ok (), q'.1) := by
    rintro ⟨fv, h1, h2, h3, h4⟩
    obtain ⟨-, fv', r1, r2, r3, r4, r5, -⟩ := turns_vcall hp hf hk hy fv h1 h2 h3 h4
    exact ⟨⟨fv', r2, r3, r4, r5⟩, r1⟩
  choose next hnext using hs
  let st : Nat → S := fun k => Nat.rec ⟨LFA.mk b ws o, rfl, hw, hc, ho⟩ (fun _ q => next q) k
  refine ⟨fun k => (st k).1, fun k => (st k).1.weights.map (inner φ), ⟨fun k => ?_, fun k => hnext (st k)⟩, rfl⟩
  exact (turns_vcall hp hf hk hy (st k).1 (st k).2.1 (st k).2.2.1 (st k).2.2.2.1 (st k).2.2.2.2).1

end

section
variable {B I : Type} [Space B] [Basis B I ℝ]

theorem adagrad_keeps' {n : Nat} {φ : Features ℝ} (hf : Fits n φ) (lr : ℝ) :
    Keeps (Adagrad ℝ) (fun o => o.learningRate = lr ∧ o.accumulator.length = n) n φ :=
  fun o w s ho hw => adagrad_keeps hf lr o w s ho hw

/-- The errors of all outputs in turn shrink by a gain that depends on the squared errors of all outputs. -/
theorem adagrad_in_turn {b : B} {x : I} {φ : Features ℝ} {n m : Nat} (hm : 0 < m)
    (hp : Basis.project b x = .ok (.ok φ)) (hf : Fits n φ) {lr : ℝ} {ys : List ℝ} (hy : ys.length = m)
    {ws : List (List ℝ)} (hw : ws.length = m) (hc : ∀ c ∈ ws, c.length = n)
    {fas : Nat → VectorLFA B (Adagrad ℝ) ℝ} {ps : Nat → List ℝ}
    (h : VStream fas (fun _ => x) (fun _ => ys) ps) (h0 : fas 0 = LFA.mk b ws (Adagrad.new n lr)) (s : Nat) :
    errorsInTurn m ys ps (s + m) = (1 - ∑ i ∈ Finset.range n, lr * value φ i ^ 2 /
      (|value φ i| * √(∑ t ∈ Finset.range (s + 1), errorsInTurn m ys ps t ^ 2) + 1e-7)) * errorsInTurn m ys ps s := by
  obtain ⟨os, o0, hos⟩ := turns hm hp hf (adagrad_keeps' hf lr) hy hw hc (o := Adagrad.new n lr)
    ⟨rfl, by simp [Adagrad.new]⟩ h h0
  set E := errorsInTurn m ys ps with hE
  have step : ∀ s, ∀ i < n,
      entry (os (s + 1)).accumulator i = entry (os s).accumulator i + (value φ i * E s) ^ 2 ∧
      entry (columnInTurn m fas (s + m)) i = entry (columnInTurn m fas s) i + lr * (value φ i * E s) /
        (√(entry (os (s + 1)).accumulator i) + 1e-7) := by
    intro s i hin
    obtain ⟨⟨i2, i3⟩, i5, i6, i7⟩ := hos s
    obtain ⟨v, w', s1, s2, s3, s4⟩ := adagrad_real hf (os s) i3 (E s) i5
    rw [i7] at s1
    injection s1 with s1
    injection s1 with _ s1
    injection s1 with s1 s5
    rw [s1, s5]
    refine ⟨(s4 i hin).1, ?_⟩
    rw [(s4 i hin).2, i2]
  have acc : ∀ s, ∀ i < n, entry (os s).accumulator i
      = value φ i ^ 2 * ∑ t ∈ Finset.range s, E t ^ 2 := by
    intro s
    induction s with
    | zero =>
      intro i hin
      rw [o0, Finset.sum_range_zero, mul_zero]
      show entry (List.replicate n (Scalar.zero : ℝ)) i = 0
      unfold entry
      simp [hin]
    | succ s ih =>
      intro i hin
      rw [(step s i hin).1, ih i hin, Finset.sum_range_succ]
      ring
  have hsq : ∀ i < n, √(entry (os (s + 1)).accumulator i)
      = |value φ i| * √(∑ t ∈ Finset.range (s + 1), E t ^ 2) := by
    intro i hin
    rw [acc (s + 1) i hin, Real.sqrt_mul (sq_nonneg _), Real.sqrt_sq_eq_abs]
  have a1 := (hos (s + m)).2.2.1
  have a2 := (hos s).2.2.1
  rw [Nat.add_mod_right] at a1
  have a3 : inner φ (columnInTurn m fas (s + m)) = inner φ (columnInTurn m fas s) +
      (∑ i ∈ Finset.range n, lr * value φ i ^ 2 /
      (|value φ i| * √(∑ t ∈ Finset.range (s + 1), E t ^ 2) + 1e-7)) * E s := by
    rw [inner_eq, inner_eq, hf.2, Finset.sum_mul, ← Finset.sum_add_distrib]
    apply Finset.sum_congr rfl
    intro i hin
    have hin := Finset.mem_range.1 hin
    rw [(step s i hin).2, hsq i hin]
    ring
  have b1 : E (s + m) = entry ys (s % m) - inner φ (columnInTurn m fas (s + m)) := a1
  have b2 : E s = entry ys (s % m) - inner φ (columnInTurn m fas s) := a2
  rw [b1, a3]
  linear_combination -b2

/-- **C153.** Any number of outputs, any targets, any positive learning rate, any initial weights: all
predictions of a vector approximator with Adagrad converge to their targets on one input whose features are
not all zero, although all outputs share one accumulator. -/
theorem C153_converges (b : B) (x : I) (φ : Features ℝ) (n m : Nat) (hp : Basis.project b x = .ok (.ok φ))
    (hf : Fits n φ) (hφ : normSq φ ≠ 0) (lr : ℝ) (hlr : 0 < lr) (ys : List ℝ) (hy : ys.length = m)
    (ws : List (List ℝ)) (hw : ws.length = m) (hc : ∀ c ∈ ws, c.length = n)
    (fas : Nat → VectorLFA B (Adagrad ℝ) ℝ) (ps : Nat → List ℝ)
    (h : VStream fas (fun _ => x) (fun _ => ys) ps) (h0 : fas 0 = LFA.mk b ws (Adagrad.new n lr)) :
    ∀ j < m, Tendsto (fun k => entry (ps k) j) atTop (𝓝 (entry ys j)) := by
  intro j hj
  have hm : 0 < m := by omega
  have ht : Tendsto (errorsInTurn m ys ps) atTop (𝓝 0) := by
    refine adagrad_delay_tendsto hm (n := n) (c := fun i => lr * value φ i ^ 2) (d := fun i => |value φ i|)
      (ε := 1e-7) (by norm_num) (fun i _ => by positivity) (fun i _ => abs_nonneg _) ?_ ?_
      (adagrad_in_turn hm hp hf hy hw hc h h0)
    · intro i _ hi
      rw [abs_eq_zero.1 hi]
      ring
    · by_contra hcon
      push Not at hcon
      apply hφ
      rw [normSq, hf.2]
      apply Finset.sum_eq_zero
      intro i hi
      have h1 := hcon i (Finset.mem_range.1 hi)
      have h2 := mul_nonneg hlr.le (sq_nonneg (value φ i))
      have h3 : value φ i ^ 2 = 0 := by
        rcases mul_eq_zero.1 (le_antisymm h1 h2) with h | h
        · exact absurd h hlr.ne'
        · exact h
      rw [← sq, h3]
  have := ((errors_tendsto hm).1 ht j hj).const_sub (entry ys j)
  simpa using this

/-- Such runs exist from every start. -/
theorem C153_exists (b : B) (x : I) (φ : Features ℝ) (n m : Nat) (hp : Basis.project b x = .ok (.ok φ))
    (hf : Fits n φ) (lr : ℝ) (ys : List ℝ) (hy : ys.length = m)
    (ws : List (List ℝ)) (hw : ws.length = m) (hc : ∀ c ∈ ws, c.length = n) :
    ∃ (fas : Nat → VectorLFA B (Adagrad ℝ) ℝ) (ps : Nat → List ℝ),
      VStream fas (fun _ => x) (fun _ => ys) ps ∧ fas 0 = LFA.mk b ws (Adagrad.new n lr) :=
  turns_exists hp hf (adagrad_keeps' hf lr) ys hy ws hw hc _ ⟨rfl, by simp [Adagrad.new]⟩

/-- But the outputs do slow each other down, and their order matters: already in the first call the step of
output `j` is divided by the root of the squared errors of the outputs `0, ..., j` together. -/
theorem C153_first_call (b : B) (x : I) (φ : Features ℝ) (n m : Nat) (hm : 0 < m)
    (hp : Basis.project b x = .ok (.ok φ)) (hf : Fits n φ) (lr : ℝ) (ys : List ℝ) (hy : ys.length = m)
    (ws : List (List ℝ)) (hw : ws.length = m) (hc : ∀ c ∈ ws, c.length = n)
    (fas : Nat → VectorLFA B (Adagrad ℝ) ℝ) (ps : Nat → List ℝ)
    (h : VStream fas (fun _ => x) (fun _ => ys) ps) (h0 : fas 0 = LFA.mk b ws (Adagrad.new n lr))
    (j : Nat) (hj : j < m) :
    entry ys j - entry (ps 1) j = (1 - ∑ i ∈ Finset.range n, lr * value φ i ^ 2 /
      (|value φ i| * √(∑ t ∈ Finset.range (j + 1), (entry ys t - entry (ps 0) t) ^ 2) + 1e-7)) *
      (entry ys j - entry (ps 0) j) := by
  have h1 := adagrad_in_turn hm hp hf hy hw hc h h0 j
  have e0 : ∀ t < m, errorsInTurn m ys ps t = entry ys t - entry (ps 0) t := by
    intro t ht
    unfold errorsInTurn
    rw [Nat.mod_eq_of_lt ht, Nat.div_eq_of_lt ht]
  have e1 : errorsInTurn m ys ps (j + m) = entry ys j - entry (ps 1) j := by
    unfold errorsInTurn
    rw [Nat.add_mod_right, Nat.mod_eq_of_lt hj, Nat.add_div_right j hm, Nat.div_eq_of_lt hj]
  rw [e1, e0 j hj] at h1
  rw [h1]
  have e2 : ∑ t ∈ Finset.range (j + 1), errorsInTurn m ys ps t ^ 2 =
      ∑ t ∈ Finset.range (j + 1), (entry ys t - entry (ps 0) t) ^ 2 := by
    refine Finset.sum_congr rfl fun t ht => ?_
    rw [e0 t (by have := Finset.mem_range.1 ht; omega)]
  rw [e2]

end

/-- Three outputs on the constant feature 1 with a learning rate of 1000. -/
example : ∃ (fas : Nat → VectorLFA (Bias ℝ) (Adagrad ℝ) ℝ) (ps : Nat → List ℝ),
    VStream fas (fun _ => ()) (fun _ => [1, -2, 30]) ps ∧
    fas 0 = LFA.mk ⟨1⟩ [[5], [0], [7]] (Adagrad.new 1 1000) ∧
    Tendsto (fun k => entry (ps k) 0) atTop (𝓝 1) ∧ Tendsto (fun k => entry (ps k) 1) atTop (𝓝 (-2)) ∧
    Tendsto (fun k => entry (ps k) 2) atTop (𝓝 30) := by
  have hp : Basis.project (⟨1⟩ : Bias ℝ) () = .ok (.ok (.dense [1])) := rfl
  have hf : Fits 1 (Features.dense [(1 : ℝ)]) := ⟨trivial, rfl⟩
  have hN : normSq (Features.dense [(1 : ℝ)]) = 1 := by simp [normSq, Spec.dim, value]
  have hw : ∀ c ∈ [[(5 : ℝ)], [0], [7]], c.length = 1 := by simp
  obtain ⟨fas, ps, h, h0⟩ := C153_exists (⟨1⟩ : Bias ℝ) () _ 1 3 hp hf 1000 [1, -2, 30] rfl _ rfl hw
  have := C153_converges (⟨1⟩ : Bias ℝ) () _ 1 3 hp hf (by rw [hN]; exact one_ne_zero) 1000 (by norm_num) _ rfl _ rfl
    hw fas ps h h0
  exact ⟨fas, ps, h, h0, this 0 (by omega), this 1 (by omega), this 2 (by omega)⟩

end Lfa

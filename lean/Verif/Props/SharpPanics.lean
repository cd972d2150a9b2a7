import Verif.Props.C23_C29
import Verif.Props.C134_C135
import Verif.Props.C146
import Verif.Proofs.Training

/-!
# What a panicking call leaves behind, exactly, and what saved data looks like

Complements C146 (the state of every optimiser after a panic, entry by entry), C27 (only well-typed data is
accepted) and C134 (the names under which values are saved).
-/

set_option linter.unusedSectionVars false

namespace Lfa

open Spec

section
variable {K : Type} [Scalar K]

/-! ## C146 -/

/-- Where a loop over entries stops. -/
theorem scatter_prefix {p : Panic} (g : K → K → K) : ∀ (es : List (Nat × K)) (w : List K), (scatterAfter g es w).1 = some p →
    ∃ pre i a post, es = pre ++ (i, a) :: post ∧ w.length ≤ i ∧
      Features.scatterMod g pre w = .ok (scatterAfter g es w).2 := by
  intro es
  induction es with
  | nil => intro w h; cases h
  | cons e es ih =>
    intro w h
    rw [scatterAfter] at h ⊢
    rcases hx : w[e.1]? with _ | x
    · exact ⟨[], e.1, e.2, es, rfl, List.getElem?_eq_none_iff.1 hx, rfl⟩
    · rw [hx] at h
      obtain ⟨pre, i, a, post, h1, h2, h3⟩ := ih _ h
      have hl : e.1 < w.length := (List.getElem?_eq_some_iff.1 hx).1
      refine ⟨e :: pre, i, a, post, by rw [h1]; rfl, by rwa [List.length_set] at h2, ?_⟩
      unfold Features.scatterMod at h3 ⊢
      rw [List.foldlM_cons]
      unfold modIdx idx setIdx
      rw [hx]
      simp only [bind, Except.bind, if_pos hl]
      exact h3

/-- Momentum and NAG with sparse features that do not fit the velocity: the weights are untouched, and the
velocity has been decayed and has received the entries before the first index out of range. -/
theorem C146_velocity_prefix (w : List K) (sa : SparseActivations K) (s : K) (p : Panic) :
    (∀ o : SGDMomentum K, velocityUpdate o.momentum o.velocity (.sparse sa) s = .error p →
      ∃ pre i a post v, sa.activations = pre ++ (i, a) :: post ∧ o.velocity.length ≤ i ∧
        velocityUpdate o.momentum o.velocity (.sparse ⟨sa.dim, pre⟩) s = .ok v ∧
        Unwinds.stepAfter o w (.sparse sa) s = (some p, { o with velocity := v }, w)) ∧
    (∀ o : NAG K, velocityUpdate o.momentum o.velocity (.sparse sa) s = .error p →
      ∃ pre i a post v, sa.activations = pre ++ (i, a) :: post ∧ o.velocity.length ≤ i ∧
        velocityUpdate o.momentum o.velocity (.sparse ⟨sa.dim, pre⟩) s = .ok v ∧
        Unwinds.stepAfter o w (.sparse sa) s = (some p, { o with velocity := v }, w)) := by
  have key : ∀ (m : K) (v : List K), velocityUpdate m v (.sparse sa) s = .error p →
      (velocityAfter m v (.sparse sa) s).1 = some p ∧ ∃ pre i a post, sa.activations = pre ++ (i, a) :: post ∧
        v.length ≤ i ∧ velocityUpdate m v (.sparse ⟨sa.dim, pre⟩) s = .ok (velocityAfter m v (.sparse sa) s).2 := by
    intro m v h
    rw [velocity_end] at h
    have h1 : (velocityAfter m v (.sparse sa) s).1 = some p := by
      rcases hv : velocityAfter m v (.sparse sa) s with ⟨_ | q, v'⟩
      · rw [hv] at h; cases h
      · rw [hv] at h; cases h; rfl
    obtain ⟨pre, i, a, post, a1, a2, a3⟩ := scatter_prefix (fun x a => x +. a *. s) sa.activations (v.map (· *. m)) h1
    exact ⟨h1, pre, i, a, post, a1, by simpa using a2, a3⟩
  constructor
  · intro o h
    obtain ⟨h1, pre, i, a, post, a1, a2, a3⟩ := key _ _ h
    refine ⟨pre, i, a, post, _, a1, a2, a3, ?_⟩
    simp only [Unwinds.stepAfter]
    rcases hv : velocityAfter o.momentum o.velocity (.sparse sa) s with ⟨_ | q, v'⟩
    · rw [hv] at h1; cases h1
    · rw [hv] at h1; cases h1; rfl
  · intro o h
    obtain ⟨h1, pre, i, a, post, a1, a2, a3⟩ := key _ _ h
    refine ⟨pre, i, a, post, _, a1, a2, a3, ?_⟩
    simp only [Unwinds.stepAfter]
    rcases hv : velocityAfter o.momentum o.velocity (.sparse sa) s with ⟨_ | q, v'⟩
    · rw [hv] at h1; cases h1
    · rw [hv] at h1; cases h1; rfl

theorem adagrad_after (lr s : K) (m : HMap K) : ∀ (r k : Nat) (accs w : List K), k + r = accs.length → k ≤ w.length →
    let res := Adagrad.sparseAfter lr s m (List.range' k r) accs w
    (res.1 = none ↔ accs.length ≤ w.length) ∧ res.2.1.length = accs.length ∧ res.2.2.length = w.length ∧
    (∀ j, entry res.2.1 j = if k ≤ j ∧ j ≤ w.length ∧ j < accs.length then
      entry accs j +. Scalar.powi ((m.get? j).getD Scalar.zero *. s) 2 else entry accs j) ∧
    ∀ j, entry res.2.2 j = if k ≤ j ∧ j < w.length ∧ j < accs.length then
      entry w j +. lr *. ((m.get? j).getD Scalar.zero *. s) /. (Scalar.sqrt (entry res.2.1 j) +. EPS) else entry w j := by
  intro r
  induction r with
  | zero =>
    intro k accs w h1 h2
    refine ⟨⟨fun _ => by omega, fun _ => rfl⟩, rfl, rfl, fun j => ?_, fun j => ?_⟩
    · rw [if_neg (by omega)]; rfl
    · rw [if_neg (by omega)]; rfl
  | succ r ih =>
    intro k accs w h1 h2
    have hk : k < accs.length := by omega
    have ha : accs[k]? = some (entry accs k) := getElem?_entry hk
    rw [List.range'_succ, Adagrad.sparseAfter, ha]
    simp only []
    have hset : ∀ (l : List K) (v : K) (j : Nat), k < l.length → entry (l.set k v) j = if j = k then v else entry l j := by
      intro l v j hl
      unfold entry
      rw [List.getD_eq_getElem?_getD, List.getD_eq_getElem?_getD, List.getElem?_set]
      by_cases hj : k = j
      · subst hj; simp [hl]
      · rw [if_neg hj, if_neg (fun h => hj h.symm)]
    rcases hw : w[k]? with _ | x
    · have hwl : w.length ≤ k := List.getElem?_eq_none_iff.1 hw
      refine ⟨⟨fun h => (by cases h), fun h => (by omega)⟩, by simp, rfl, fun j => ?_, fun j => ?_⟩
      · simp only []
        rw [hset _ _ _ hk]
        by_cases hj : j = k
        · subst hj; rw [if_pos rfl, if_pos (by omega)]
        · rw [if_neg hj, if_neg (by omega)]
      · simp only []
        rw [if_neg (by omega)]
    · have hwl : k < w.length := (List.getElem?_eq_some_iff.1 hw).1
      have hx : x = entry w k := by
        have := getElem?_entry hwl
        rw [hw] at this; injection this
      subst hx
      obtain ⟨i1, i2, i3, i4, i5⟩ := ih (k + 1)
        (accs.set k (entry accs k +. Scalar.powi ((m.get? k).getD Scalar.zero *. s) 2))
        (w.set k (entry w k +. lr *. ((m.get? k).getD Scalar.zero *. s) /.
          (Scalar.sqrt (entry accs k +. Scalar.powi ((m.get? k).getD Scalar.zero *. s) 2) +. EPS)))
        (by rw [List.length_set]; omega) (by rw [List.length_set]; omega)
      simp only [] at i1 i2 i3 i4 i5 ⊢
      rw [List.length_set, List.length_set] at i1
      rw [List.length_set] at i2 i3
      simp only [List.length_set] at i4 i5
      refine ⟨i1, i2, i3, fun j => ?_, fun j => ?_⟩
      · rw [i4 j, hset _ _ _ hk]
        by_cases hj : j = k
        · subst hj
          rw [if_neg (by omega), if_pos rfl, if_pos (by omega)]
        · rw [if_neg hj]
          by_cases hc : k + 1 ≤ j ∧ j ≤ w.length ∧ j < accs.length
          · rw [if_pos hc, if_pos (by omega)]
          · rw [if_neg hc, if_neg (by omega)]
      · rw [i5 j, hset _ _ _ hwl]
        by_cases hj : j = k
        · subst hj
          rw [if_neg (by omega), if_pos rfl, if_pos (by omega), i4 j, if_neg (by omega), hset _ _ _ hk, if_pos rfl]
        · rw [if_neg hj]
          by_cases hc : k + 1 ≤ j ∧ j < w.length ∧ j < accs.length
          · rw [if_pos hc, if_pos (by omega)]
          · rw [if_neg hc, if_neg (by omega)]

/-- Adagrad with sparse features: a step panics exactly if there are fewer weights than accumulators. It has
then updated all weights, and one accumulator more than there are weights. -/
theorem C146_adagrad_left (o : Adagrad K) (w : List K) (sa : SparseActivations K) (s : K) :
    ((Unwinds.stepAfter o w (.sparse sa) s).1 = none ↔ o.accumulator.length ≤ w.length) ∧
    (w.length < o.accumulator.length →
      ∃ accs w', Unwinds.stepAfter o w (.sparse sa) s = (some .indexOutOfBounds, { o with accumulator := accs }, w') ∧
      accs.length = o.accumulator.length ∧ w'.length = w.length ∧
      (∀ j ≤ w.length, entry accs j =
        entry o.accumulator j +. Scalar.powi ((sa.activations.get? j).getD Scalar.zero *. s) 2) ∧
      (∀ j, w.length < j → entry accs j = entry o.accumulator j) ∧
      ∀ j < w.length, entry w' j = entry w j +. o.learningRate *. ((sa.activations.get? j).getD Scalar.zero *. s) /.
        (Scalar.sqrt (entry accs j) +. EPS)) := by
  obtain ⟨h1, h2, h3, h4, h5⟩ := adagrad_after o.learningRate s sa.activations o.accumulator.length 0 o.accumulator w
    (by omega) (by omega)
  have hr : List.range o.accumulator.length = List.range' 0 o.accumulator.length := List.range_eq_range'
  have hstep : Unwinds.stepAfter o w (.sparse sa) s =
      ((Adagrad.sparseAfter o.learningRate s sa.activations (List.range' 0 o.accumulator.length) o.accumulator w).1,
        { o with accumulator := (Adagrad.sparseAfter o.learningRate s sa.activations
          (List.range' 0 o.accumulator.length) o.accumulator w).2.1 },
        (Adagrad.sparseAfter o.learningRate s sa.activations (List.range' 0 o.accumulator.length) o.accumulator w).2.2) := by
    simp only [Unwinds.stepAfter, hr]
  have hp : ∀ (is : List Nat) (accs w : List K) q, (Adagrad.sparseAfter o.learningRate s sa.activations is accs w).1 = some q →
      q = .indexOutOfBounds := by
    intro is
    induction is with
    | nil => intro accs w q h; cases h
    | cons i is ih =>
      intro accs w q h
      rw [Adagrad.sparseAfter] at h
      rcases ha : accs[i]? with _ | x
      · rw [ha] at h; cases h; rfl
      · rw [ha] at h
        rcases hw : w[i]? with _ | y
        · rw [hw] at h; cases h; rfl
        · rw [hw] at h; exact ih _ _ _ h
  rw [hstep]
  refine ⟨h1, fun hlt => ⟨_, _, ?_, h2, h3, fun j hj => ?_, fun j hj => ?_, fun j hj => ?_⟩⟩
  · rcases hn : (Adagrad.sparseAfter o.learningRate s sa.activations (List.range' 0 o.accumulator.length)
      o.accumulator w).1 with _ | q
    · exact absurd (h1.1 hn) (by omega)
    · rw [hp _ _ _ _ hn]
  · rw [h4 j, if_pos (by omega)]
  · rw [h4 j, if_neg (by omega)]
  · rw [h5 j, if_pos (by omega)]

theorem adam_prefix (o : Adam K) (d : Bool) (s : K) (p : Panic) : ∀ (es : List (Nat × K)) (m1 m2 w : List K),
    (o.loopAfter d s es m1 m2 w).1 = some p →
    ∃ pre i a post m1' m2' w', es = pre ++ (i, a) :: post ∧ pre.foldlM (o.body d s) (m1, m2, w) = .ok (m1', m2', w') ∧
      ((m1'.length ≤ i ∨ m2'.length ≤ i) ∧ (o.loopAfter d s es m1 m2 w).2 = (m1', m2', w') ∨
       i < m1'.length ∧ i < m2'.length ∧ w'.length ≤ i ∧ (o.loopAfter d s es m1 m2 w).2 =
        (m1'.set i ((if d then o.beta1 *. entry m1' i else entry m1' i) +. (Scalar.ofNat 1 -. o.beta1) *. (a *. s)),
         m2'.set i ((if d then o.beta2 *. entry m2' i else entry m2' i) +.
          (Scalar.ofNat 1 -. o.beta2) *. (a *. s) *. (a *. s)), w')) := by
  intro es
  induction es with
  | nil => intro m1 m2 w h; cases h
  | cons e es ih =>
    intro m1 m2 w h
    rw [Adam.loopAfter] at h ⊢
    rcases h1 : m1[e.1]? with _ | x1
    · exact ⟨[], e.1, e.2, es, m1, m2, w, rfl, rfl, .inl ⟨.inl (List.getElem?_eq_none_iff.1 h1), rfl⟩⟩
    rcases h2 : m2[e.1]? with _ | x2
    · exact ⟨[], e.1, e.2, es, m1, m2, w, rfl, rfl, .inl ⟨.inr (List.getElem?_eq_none_iff.1 h2), rfl⟩⟩
    have l1 : e.1 < m1.length := (List.getElem?_eq_some_iff.1 h1).1
    have l2 : e.1 < m2.length := (List.getElem?_eq_some_iff.1 h2).1
    have e1 : x1 = entry m1 e.1 := by have := getElem?_entry l1; rw [h1] at this; injection this
    have e2 : x2 = entry m2 e.1 := by have := getElem?_entry l2; rw [h2] at this; injection this
    rcases h3 : w[e.1]? with _ | x3
    · refine ⟨[], e.1, e.2, es, m1, m2, w, rfl, rfl, .inr ⟨l1, l2, List.getElem?_eq_none_iff.1 h3, ?_⟩⟩
      simp only []
      rw [e1, e2]
    · have l3 : e.1 < w.length := (List.getElem?_eq_some_iff.1 h3).1
      rw [h1, h2] at h
      simp only [h3] at h
      obtain ⟨pre, i, a, post, m1', m2', w', a1, a2, a3⟩ := ih _ _ _ h
      refine ⟨e :: pre, i, a, post, m1', m2', w', by rw [a1]; rfl, ?_, ?_⟩
      · rw [List.foldlM_cons, Adam.body]
        unfold modIdx idx setIdx
        simp only [h1, h2, h3, if_pos l1, if_pos l2, if_pos l3, bind, Except.bind]
        exact a2
      · exact a3

theorem adamax_prefix (o : AdaMax K) (d : Bool) (s : K) (p : Panic) : ∀ (es : List (Nat × K)) (m1 m2 w : List K),
    (o.loopAfter d s es m1 m2 w).1 = some p →
    ∃ pre i a post m1' m2' w', es = pre ++ (i, a) :: post ∧ pre.foldlM (o.body d s) (m1, m2, w) = .ok (m1', m2', w') ∧
      ((m1'.length ≤ i ∨ m2'.length ≤ i) ∧ (o.loopAfter d s es m1 m2 w).2 = (m1', m2', w') ∨
       i < m1'.length ∧ i < m2'.length ∧ w'.length ≤ i ∧ (o.loopAfter d s es m1 m2 w).2 =
        (m1'.set i ((if d then o.beta1 *. entry m1' i else entry m1' i) +. (Scalar.ofNat 1 -. o.beta1) *. (a *. s)),
         m2'.set i (Scalar.max (if d then o.beta2 *. entry m2' i else entry m2' i) (Scalar.abs (a *. s))), w')) := by
  intro es
  induction es with
  | nil => intro m1 m2 w h; cases h
  | cons e es ih =>
    intro m1 m2 w h
    rw [AdaMax.loopAfter] at h ⊢
    rcases h1 : m1[e.1]? with _ | x1
    · exact ⟨[], e.1, e.2, es, m1, m2, w, rfl, rfl, .inl ⟨.inl (List.getElem?_eq_none_iff.1 h1), rfl⟩⟩
    rcases h2 : m2[e.1]? with _ | x2
    · exact ⟨[], e.1, e.2, es, m1, m2, w, rfl, rfl, .inl ⟨.inr (List.getElem?_eq_none_iff.1 h2), rfl⟩⟩
    have l1 : e.1 < m1.length := (List.getElem?_eq_some_iff.1 h1).1
    have l2 : e.1 < m2.length := (List.getElem?_eq_some_iff.1 h2).1
    have e1 : x1 = entry m1 e.1 := by have := getElem?_entry l1; rw [h1] at this; injection this
    have e2 : x2 = entry m2 e.1 := by have := getElem?_entry l2; rw [h2] at this; injection this
    rcases h3 : w[e.1]? with _ | x3
    · refine ⟨[], e.1, e.2, es, m1, m2, w, rfl, rfl, .inr ⟨l1, l2, List.getElem?_eq_none_iff.1 h3, ?_⟩⟩
      simp only []
      rw [e1, e2]
    · have l3 : e.1 < w.length := (List.getElem?_eq_some_iff.1 h3).1
      rw [h1, h2] at h
      simp only [h3] at h
      obtain ⟨pre, i, a, post, m1', m2', w', a1, a2, a3⟩ := ih _ _ _ h
      refine ⟨e :: pre, i, a, post, m1', m2', w', by rw [a1]; rfl, ?_, ?_⟩
      · rw [List.foldlM_cons, AdaMax.body]
        unfold modIdx idx setIdx
        simp only [h1, h2, h3, if_pos l1, if_pos l2, if_pos l3, bind, Except.bind]
        exact a2
      · exact a3

/-- Adam and AdaMax with sparse features: a step that panics at the entry `(i, a)` has done all that a step with
the entries before it does. If the moments have an entry `i` and the weights have not, the moments at `i` have
been updated too. -/
theorem C146_moments_left (w : List K) (sa : SparseActivations K) (s : K) (p : Panic) :
    (∀ o : Adam K, (Unwinds.stepAfter o w (.sparse sa) s).1 = some p →
      ∃ pre i a post o₁ w₁, sa.activations = pre ++ (i, a) :: post ∧
        Optimiser.stepScaled o w (.sparse ⟨sa.dim, pre⟩) s = .ok (.ok (), o₁, w₁) ∧
        ((o₁.expAvg.length ≤ i ∨ o₁.expAvgSq.length ≤ i) ∧ (Unwinds.stepAfter o w (.sparse sa) s).2 = (o₁, w₁) ∨
         w₁.length ≤ i ∧ (Unwinds.stepAfter o w (.sparse sa) s).2 =
          ({ o₁ with
              expAvg := o₁.expAvg.set i (entry o₁.expAvg i +. (Scalar.ofNat 1 -. o.beta1) *. (a *. s))
              expAvgSq := o₁.expAvgSq.set i (entry o₁.expAvgSq i +.
                (Scalar.ofNat 1 -. o.beta2) *. (a *. s) *. (a *. s)) }, w₁))) ∧
    (∀ o : AdaMax K, (Unwinds.stepAfter o w (.sparse sa) s).1 = some p →
      ∃ pre i a post o₁ w₁, sa.activations = pre ++ (i, a) :: post ∧
        Optimiser.stepScaled o w (.sparse ⟨sa.dim, pre⟩) s = .ok (.ok (), o₁, w₁) ∧
        ((o₁.expAvg.length ≤ i ∨ o₁.expInf.length ≤ i) ∧ (Unwinds.stepAfter o w (.sparse sa) s).2 = (o₁, w₁) ∨
         w₁.length ≤ i ∧ (Unwinds.stepAfter o w (.sparse sa) s).2 =
          ({ o₁ with
              expAvg := o₁.expAvg.set i (entry o₁.expAvg i +. (Scalar.ofNat 1 -. o.beta1) *. (a *. s))
              expInf := o₁.expInf.set i (Scalar.max (entry o₁.expInf i) (Scalar.abs (a *. s))) }, w₁))) := by
  constructor
  · intro o h
    let o' : Adam K := { o with beta1Prod := o.beta1Prod *. o.beta1
                                beta2Prod := o.beta2Prod *. o.beta2 }
    obtain ⟨pre, i, a, post, m1', m2', w', a1, a2, a3⟩ := adam_prefix o' false s p sa.activations
      (o.expAvg.map (· *. o.beta1)) (o.expAvgSq.map (· *. o.beta2)) w h
    refine ⟨pre, i, a, post, { o' with expAvg := m1', expAvgSq := m2' }, w', a1, ?_, ?_⟩
    · show (Adam.loop o' w (.sparse ⟨sa.dim, pre⟩) s >>= _) = _
      show (pre.foldlM (o'.body false s) (o.expAvg.map (· *. o.beta1), o.expAvgSq.map (· *. o.beta2), w) >>= _) = _
      rw [a2]; rfl
    · rcases a3 with ⟨b1, b2⟩ | ⟨-, -, b3, b4⟩
      · refine .inl ⟨b1, ?_⟩
        show (({ o' with
          expAvg := (o'.loopAfter false s sa.activations (o.expAvg.map (· *. o.beta1)) (o.expAvgSq.map (· *. o.beta2)) w).2.1
          expAvgSq := (o'.loopAfter false s sa.activations (o.expAvg.map (· *. o.beta1)) (o.expAvgSq.map (· *. o.beta2)) w).2.2.1 } : Adam K),
          (o'.loopAfter false s sa.activations (o.expAvg.map (· *. o.beta1)) (o.expAvgSq.map (· *. o.beta2)) w).2.2.2) = _
        rw [b2]
      · refine .inr ⟨b3, ?_⟩
        show (({ o' with
          expAvg := (o'.loopAfter false s sa.activations (o.expAvg.map (· *. o.beta1)) (o.expAvgSq.map (· *. o.beta2)) w).2.1
          expAvgSq := (o'.loopAfter false s sa.activations (o.expAvg.map (· *. o.beta1)) (o.expAvgSq.map (· *. o.beta2)) w).2.2.1 } : Adam K),
          (o'.loopAfter false s sa.activations (o.expAvg.map (· *. o.beta1)) (o.expAvgSq.map (· *. o.beta2)) w).2.2.2) = _
        rw [b4]; rfl
  · intro o h
    let o' : AdaMax K := { o with beta1Prod := o.beta1Prod *. o.beta1 }
    obtain ⟨pre, i, a, post, m1', m2', w', a1, a2, a3⟩ := adamax_prefix o' false s p sa.activations
      (o.expAvg.map (· *. o.beta1)) (o.expInf.map (· *. o.beta2)) w h
    refine ⟨pre, i, a, post, { o' with expAvg := m1', expInf := m2' }, w', a1, ?_, ?_⟩
    · show (AdaMax.loop o' w (.sparse ⟨sa.dim, pre⟩) s >>= _) = _
      show (pre.foldlM (o'.body false s) (o.expAvg.map (· *. o.beta1), o.expInf.map (· *. o.beta2), w) >>= _) = _
      rw [a2]; rfl
    · rcases a3 with ⟨b1, b2⟩ | ⟨-, -, b3, b4⟩
      · refine .inl ⟨b1, ?_⟩
        show (({ o' with
          expAvg := (o'.loopAfter false s sa.activations (o.expAvg.map (· *. o.beta1)) (o.expInf.map (· *. o.beta2)) w).2.1
          expInf := (o'.loopAfter false s sa.activations (o.expAvg.map (· *. o.beta1)) (o.expInf.map (· *. o.beta2)) w).2.2.1 } : AdaMax K),
          (o'.loopAfter false s sa.activations (o.expAvg.map (· *. o.beta1)) (o.expInf.map (· *. o.beta2)) w).2.2.2) = _
        rw [b2]
      · refine .inr ⟨b3, ?_⟩
        show (({ o' with
          expAvg := (o'.loopAfter false s sa.activations (o.expAvg.map (· *. o.beta1)) (o.expInf.map (· *. o.beta2)) w).2.1
          expInf := (o'.loopAfter false s sa.activations (o.expAvg.map (· *. o.beta1)) (o.expInf.map (· *. o.beta2)) w).2.2.1 } : AdaMax K),
          (o'.loopAfter false s sa.activations (o.expAvg.map (· *. o.beta1)) (o.expInf.map (· *. o.beta2)) w).2.2.2) = _
        rw [b4]; rfl

/-- A vector update that panics in output `j`: the outputs before it keep their completed steps, output `j` is as
its step left it, the outputs after it are untouched. -/
theorem C146_columns_left {O : Type} [Optimiser O K] [Unwinds O K] (hO : SameStep (K := K) O) (φ : Features K)
    (p : Panic) : ∀ (es : List K) (cs : List (List K)) (o : O), (VectorLFA.columnsAfter φ es cs o).1 = some p →
    ∃ j < cs.length, j < es.length ∧ ∃ o₁ ds o₂ c',
      VectorLFA.stepColumns φ (es.take j) (cs.take j) o (.ok ()) = .ok (.ok (), o₁, ds) ∧
      Unwinds.stepAfter o₁ (cs.getD j []) φ (entry es j) = (some p, o₂, c') ∧
      (VectorLFA.columnsAfter φ es cs o).2 = (o₂, ds ++ c' :: cs.drop (j + 1))
  | [], cs, o, h => by rw [VectorLFA.columnsAfter] at h; cases h; simp
  | e :: es, [], o, h => by cases h
  | e :: es, c :: cs, o, h => by
    rw [VectorLFA.columnsAfter] at h ⊢
    rcases hs : Unwinds.stepAfter o c φ e with ⟨_ | q, o', c'⟩
    · rw [hs] at h
      obtain ⟨j, h1, h2, o₁, ds, o₂, c₂, h3, h4, h5⟩ := C146_columns_left hO φ p es cs o' h
      refine ⟨j + 1, by simpa using h1, by simpa using h2, o₁, c' :: ds, o₂, c₂, ?_, h4, ?_⟩
      · have := hO o c φ e
        rw [hs] at this
        show (Optimiser.stepScaled o c φ e >>= _) = _
        rw [this, endOf, P.ok_bind]
        show (VectorLFA.stepColumns φ (es.take j) (cs.take j) o' (.ok ()) >>= _) = _
        rw [h3]; rfl
      · simp only []
        rw [h5]; rfl
    · rw [hs] at h
      cases h
      exact ⟨0, by simp, by simp, o, [], o', c', rfl, hs, rfl⟩

/-- Three columns, the second too short for the features: the first has been updated, the third has not. -/
example : VectorLFA.columnsAfter (.dense [1, 2]) [1, 1, 1] [[0, 0], [0, 0, 0], [0, 0]] (⟨1⟩ : SGD ℝ) =
    (some .shapeMismatch, ⟨1⟩, [[(0 : ℝ) + 1 * 1 * 1, 0 + 1 * 1 * 2], [0, 0, 0], [0, 0]]) := by
  rfl

/-! ## C27 -/

open Chebyshev in
/-- Only well-typed data with each field exactly once is accepted, and what is restored is `Chebyshev::new` of
the two values found. -/
theorem C27_accepts_only (c : Chebyshev K) :
    (∀ seq, visitSeq seq = .ok (.ok c) ↔ ∃ n l rest, seq = .order n :: .limits l :: rest ∧ Chebyshev.new n l = .ok c) ∧
    (∀ m, visitMap m = .ok (.ok c) ↔ ∃ n l, Chebyshev.new n l = .ok c ∧
      (m = [(.order, .order n), (.limits, .limits l)] ∨ m = [(.limits, .limits l), (.order, .order n)])) := by
  have hmap : ∀ {x : P (Chebyshev K)}, x.map (Except.ok (ε := DeError)) = .ok (.ok c) ↔ x = .ok c := by
    intro x
    cases x with
    | error e => exact ⟨fun h => (by cases h), fun h => (by cases h)⟩
    | ok v => exact ⟨fun h => (by cases h; rfl), fun h => (by cases h; rfl)⟩
  constructor
  · intro seq
    constructor
    · intro h
      rcases seq with _ | ⟨v₀, _ | ⟨v₁, rest⟩⟩
      · cases h
      · cases v₀ <;> cases h
      · cases v₀ with
        | limits l => cases h
        | order n =>
          cases v₁ with
          | order n => cases h
          | limits l => exact ⟨n, l, rest, rfl, hmap.1 h⟩
    · rintro ⟨n, l, rest, rfl, h⟩
      exact hmap.2 h
  · intro m
    constructor
    · intro h
      rcases m with _ | ⟨⟨f₀, v₀⟩, _ | ⟨⟨f₁, v₁⟩, _ | ⟨⟨f₂, v₂⟩, m⟩⟩⟩
      · cases h
      · cases f₀ <;> cases v₀ <;> cases h
      · cases f₀ <;> cases v₀ <;> cases f₁ <;> cases v₁ <;> try cases h
        · exact ⟨_, _, hmap.1 h, .inl rfl⟩
        · exact ⟨_, _, hmap.1 h, .inr rfl⟩
      · cases f₀ <;> cases v₀ <;> cases f₁ <;> cases v₁ <;> try cases h
        · cases f₂ <;> cases v₂ <;> cases h
        · cases f₂ <;> cases v₂ <;> cases h
    · rintro ⟨n, l, h, rfl | rfl⟩
      · exact hmap.2 h
      · exact hmap.2 h

/-! ## C134 -/

open Codec in
/-- The names under which values are saved are the field names of the Rust structs, in order of declaration. -/
theorem C134_layout {B O κ H : Type} (cb : Codec K B) (cw : Codec K H) (co : Codec K O) (ck : Codec K κ)
    (ce : Codec K (Equipartition K)) :
    (∀ fa : LFA B H O, (lfa cb cw co).ser fa =
      .fields [("basis", cb.ser fa.basis), ("weights", cw.ser fa.weights), ("optimiser", co.ser fa.optimiser)]) ∧
    (∀ b : Stack B O, (stack cb co).ser b = .fields [("b1", cb.ser b.b₁), ("b2", co.ser b.b₂)]) ∧
    (∀ b : Polynomial, (polynomial (K := K)).ser b =
      .fields [("order", .nat b.order), ("exponents", nat.list.list.ser b.exponents)]) ∧
    (∀ b : Fourier K, fourier.ser b = .fields [("order", .nat b.order), ("limits", pair.list.ser b.limits),
      ("coefficients", float.list.list.ser b.coefficients)]) ∧
    (∀ (kind : StationaryKind) (k : Stationary kind K), stationary.ser k =
      .fields [("variance", .num k.variance), ("lengthscales", float.list.ser k.lengthscales)]) ∧
    (∀ k : RationalQuadratic K, rationalQuadratic.ser k = .fields [("variance", .num k.variance),
      ("lengthscales", float.list.ser k.lengthscales), ("power", .num k.power)]) ∧
    (∀ q : Prototype κ K, (prototype ck).ser q =
      .fields [("centroid", float.list.ser q.centroid), ("kernel", ck.ser q.kernel)]) ∧
    (∀ b : KernelBasis κ K, (kernelBasis ck).ser b = .fields [("prototypes", (prototype ck).list.ser b.prototypes)]) ∧
    (∀ b : TileCoding H, (tileCoding cw).ser b = .fields [("hasher_builder", cw.ser b.hasherBuilder),
      ("n_tilings", .nat b.nTilings), ("memory_size", .nat b.memorySize)]) ∧
    (∀ b : UniformGrid K, (uniformGrid ce).ser b =
      .fields [("n_features", .nat b.nFeatures), ("feature_space", ce.list.ser b.featureSpace)]) ∧
    (∀ o : SGDMomentum K, momentum.ser o = .fields [("momentum", .num o.momentum),
      ("learning_rate", .num o.learningRate), ("velocity", float.list.ser o.velocity)]) ∧
    (∀ o : NAG K, nag.ser o = .fields [("momentum", .num o.momentum),
      ("learning_rate", .num o.learningRate), ("velocity", float.list.ser o.velocity)]) ∧
    (∀ o : Adagrad K, adagrad.ser o =
      .fields [("learning_rate", .num o.learningRate), ("accumulator", float.list.ser o.accumulator)]) ∧
    (∀ o : Adam K, adam.ser o = .fields [("beta1", .num o.beta1), ("beta1_prod", .num o.beta1Prod),
      ("beta2", .num o.beta2), ("beta2_prod", .num o.beta2Prod), ("learning_rate", .num o.learningRate),
      ("exp_avg", float.list.ser o.expAvg), ("exp_avg_sq", float.list.ser o.expAvgSq)]) ∧
    (∀ o : AdaMax K, adamax.ser o = .fields [("beta1", .num o.beta1), ("beta1_prod", .num o.beta1Prod),
      ("beta2", .num o.beta2), ("learning_rate", .num o.learningRate), ("exp_avg", float.list.ser o.expAvg),
      ("exp_inf", float.list.ser o.expInf)]) ∧
    (∀ s : SparseActivations K, sparse.ser s = .fields [("dim", .nat s.dim), ("activations", hmap.ser s.activations)]) ∧
    (∀ e : Error, (error (K := K)).ser e = .fields [("kind", errorKind.ser e.kind), ("message", .str e.message)]) := by
  refine ⟨?_, ?_, ?_, ?_, ?_, ?_, ?_, ?_, ?_, ?_, ?_, ?_, ?_, ?_, ?_, ?_, ?_⟩ <;> intros <;> rfl

end

end Lfa

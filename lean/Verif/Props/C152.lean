import Verif.Props.C115_C117
import Verif.Props.C150
import Verif.Proofs.Delay

/-!
# C152: Momentum with one velocity for all outputs

A vector approximator has one optimiser, which steps the outputs in turn. With Momentum, the velocity of one
output's step therefore enters the next output's step (`C64` records that outputs are not independent). What
this does to learning a list of targets on one input: C115 says that one output converges exactly if
`lr ‖φ‖² < 2 (1 + momentum)`. Two outputs need `lr ‖φ‖² < 2 (1 - momentum²)`, and `lr ‖φ‖² < 2 (1 - |momentum|)`
is enough for any number of outputs and cannot be improved. Exact arithmetic.
-/

set_option linter.unusedSectionVars false

namespace Lfa

open Spec Filter Topology

/-- The errors of `m` outputs towards the targets `ys` in the order in which the optimiser sees them: call
after call, output after output. -/
noncomputable def errorsInTurn (m : Nat) (ys : List ℝ) (ps : Nat → List ℝ) (s : Nat) : ℝ :=
  entry ys (s % m) - entry (ps (s / m)) (s % m)

/-- Momentum as the calls leave it. -/
def IsMomentum (n : Nat) (μ lr : ℝ) (o : SGDMomentum ℝ) : Prop :=
  o.momentum = μ ∧ o.learningRate = lr ∧ o.velocity.length = n

theorem momentum_columns {n : Nat} {φ : Features ℝ} (hf : Fits n φ) (μ lr : ℝ) :
    ∀ (es : List ℝ) (cs : List (List ℝ)) (o : SGDMomentum ℝ), es.length = cs.length → (∀ c ∈ cs, c.length = n) →
    IsMomentum n μ lr o →
    ∃ o' ds, VectorLFA.stepColumns φ es cs o (.ok ()) = .ok (.ok (), o', ds) ∧ IsMomentum n μ lr o' ∧
      ds.length = cs.length ∧ (∀ d ∈ ds, d.length = n) ∧
      ∃ u : Nat → ℝ, u 0 = lr * inner φ o.velocity ∧ u cs.length = lr * inner φ o'.velocity ∧
        ∀ j < cs.length, u (j + 1) = μ * u j + lr * normSq φ * entry es j ∧
          inner φ (ds.getD j []) = inner φ (cs.getD j []) + u (j + 1)
  | [], [], o, _, _, ho => ⟨o, [], rfl, ho, rfl, by simp, fun _ => lr * inner φ o.velocity, rfl, rfl, by simp⟩
  | e :: es, c :: cs, o, hl, hc, ho => by
    obtain ⟨v, w', s1, s2, s3, s4⟩ := momentum_real hf o ho.2.2 e (hc c (by simp))
    obtain ⟨o', ds, r1, r2, r3, r4, u, u0, u1, u2⟩ := momentum_columns hf μ lr es cs { o with velocity := v }
      (by simpa using hl) (fun d hd => hc d (by simp [hd])) ⟨ho.1, ho.2.1, s2⟩
    have hv : lr * inner φ v = μ * (lr * inner φ o.velocity) + lr * normSq φ * e := by
      rw [inner_lin (w := o.velocity) (v := []) (α := μ) (β := 0) (γ := e) hf.2 fun i hi => ?_]
      · ring
      · rw [(s4 i hi).1, ho.1]; ring
    have hw : inner φ w' = inner φ c + lr * inner φ v := by
      rw [inner_lin (w := c) (v := v) (α := 1) (β := lr) (γ := 0) hf.2 fun i hi => ?_]
      · ring
      · rw [(s4 i hi).2, ho.2.1]; ring
    refine ⟨o', w' :: ds, ?_, r2, by simp [r3], ?_, fun j => Nat.casesOn j (lr * inner φ o.velocity) u, rfl, u1, ?_⟩
    · show (Optimiser.stepScaled o c φ e >>= _) = _
      rw [s1, P.ok_bind]
      show (VectorLFA.stepColumns φ es cs _ (.ok ()) >>= _) = _
      rw [r1]; rfl
    · intro d hd
      rcases List.mem_cons.1 hd with rfl | hd
      · exact s3
      · exact r4 d hd
    · intro j hj
      cases j with
      | zero =>
        show u 0 = μ * (lr * inner φ o.velocity) + lr * normSq φ * e ∧ inner φ w' = inner φ c + u 0
        rw [u0]
        exact ⟨hv, hw⟩
      | succ j =>
        exact u2 j (by simpa using hj)

theorem matmul_real {n : Nat} {φ : Features ℝ} (hf : Fits n φ) {cs : List (List ℝ)} (hc : ∀ c ∈ cs, c.length = n) :
    φ.matmul cs = .ok (cs.map (inner φ)) := by
  rw [matmul_eq_real]
  refine (mapM_ok_iff _ _ _).2 ?_
  rw [List.forall₂_iff_get]
  refine ⟨by simp, fun j h1 h2 => ?_⟩
  simpa using dot_real hf.1 (hf.2.trans (hc cs[j] (List.getElem_mem _)).symm)

section
variable {B I : Type} [Space B] [Basis B I ℝ]

/-- One call on `m` outputs. -/
theorem momentum_vcall {b : B} {x : I} {φ : Features ℝ} {n m : Nat} (hp : Basis.project b x = .ok (.ok φ))
    (hf : Fits n φ) {μ lr : ℝ} {ys : List ℝ} (hy : ys.length = m) (fv : VectorLFA B (SGDMomentum ℝ) ℝ)
    (hb : fv.basis = b) (hm : fv.weights.length = m) (hc : ∀ c ∈ fv.weights, c.length = n)
    (ho : IsMomentum n μ lr fv.optimiser) :
    fv.evaluate x = .ok (.ok (fv.weights.map (inner φ))) ∧
    ∃ fv' : VectorLFA B (SGDMomentum ℝ) ℝ,
      fv.updateWith x (fun _ vs => List.zipWith (· -. ·) ys vs) = .ok (.ok (), fv') ∧
      fv'.basis = b ∧ fv'.weights.length = m ∧ (∀ c ∈ fv'.weights, c.length = n) ∧ IsMomentum n μ lr fv'.optimiser ∧
      ∃ u : Nat → ℝ, u 0 = lr * inner φ fv.optimiser.velocity ∧ u m = lr * inner φ fv'.optimiser.velocity ∧
        ∀ j < m, u (j + 1) = μ * u j + lr * normSq φ * (entry ys j - entry (fv.weights.map (inner φ)) j) ∧
          entry (fv'.weights.map (inner φ)) j = entry (fv.weights.map (inner φ)) j + u (j + 1) := by
  have hp' : Basis.project fv.basis x = .ok (.ok φ) := hb ▸ hp
  have hmat := matmul_real hf hc
  have hl : (List.zipWith (· -. ·) ys (fv.weights.map (inner φ))).length = fv.weights.length := by
    rw [List.length_zipWith, hy, List.length_map, hm, Nat.min_self]
  obtain ⟨o', ds, r1, r2, r3, r4, u, u0, u1, u2⟩ := momentum_columns hf μ lr _ _ _ hl hc ho
  refine ⟨?_, { fv with weights := ds, optimiser := o' }, ?_, hb, r3.trans hm, r4, r2, u, u0, hm ▸ u1, fun j hj => ?_⟩
  · rw [vector_evaluate_eq hp', hmat]; rfl
  · rw [vector_updateWith_eq hp', hmat, P.ok_bind, vector_update_eq hp', r1]; rfl
  · rw [← hm] at hj
    obtain ⟨a1, a2⟩ := u2 j hj
    have e1 : entry (List.zipWith (· -. ·) ys (fv.weights.map (inner φ))) j
        = entry ys j - entry (fv.weights.map (inner φ)) j := by
      unfold entry
      rw [List.getD_eq_getElem?_getD, List.getElem?_zipWith]
      have h1 : j < ys.length := by omega
      simp [h1, hj]
    have e2 : ∀ (cs : List (List ℝ)), j < cs.length → entry (cs.map (inner φ)) j = inner φ (cs.getD j []) := by
      intro cs h
      unfold entry
      simp [h]
    refine ⟨by rw [a1, e1], ?_⟩
    rw [e2 _ hj]
    show entry (ds.map (inner φ)) j = _
    rw [e2 _ (by omega)]
    exact a2

/-- The errors of all outputs in turn obey the shared recurrence. -/
theorem momentum_shared {b : B} {x : I} {φ : Features ℝ} {n m : Nat} (hm : 0 < m)
    (hp : Basis.project b x = .ok (.ok φ)) (hf : Fits n φ) {μ lr : ℝ} {ys : List ℝ} (hy : ys.length = m)
    {ws : List (List ℝ)} (hw : ws.length = m) (hc : ∀ c ∈ ws, c.length = n)
    {fas : Nat → VectorLFA B (SGDMomentum ℝ) ℝ} {ps : Nat → List ℝ}
    (h : VStream fas (fun _ => x) (fun _ => ys) ps) (h0 : fas 0 = LFA.mk b ws (SGDMomentum.new n μ lr)) :
    ps 0 = ws.map (inner φ) ∧
    ∃ U : Nat → ℝ, U 0 = 0 ∧ Shared m μ (lr * normSq φ) (errorsInTurn m ys ps) U := by
  have inv : ∀ k, (fas k).basis = b ∧ (fas k).weights.length = m ∧ (∀ c ∈ (fas k).weights, c.length = n) ∧
      IsMomentum n μ lr (fas k).optimiser := by
    intro k
    induction k with
    | zero => rw [h0]; exact ⟨rfl, hw, hc, rfl, rfl, by simp [SGDMomentum.new]⟩
    | succ k ih =>
      obtain ⟨-, fv', h1, h2, h3, h4, h5, -⟩ := momentum_vcall hp hf hy (fas k) ih.1 ih.2.1 ih.2.2.1 ih.2.2.2
      rw [h.updates k] at h1
      injection h1 with h1
      injection h1 with _ h1
      rw [h1]; exact ⟨h2, h3, h4, h5⟩
  have hps : ∀ k, ps k = (fas k).weights.map (inner φ) := by
    intro k
    obtain ⟨h1, -⟩ := momentum_vcall hp hf hy (fas k) (inv k).1 (inv k).2.1 (inv k).2.2.1 (inv k).2.2.2
    rw [h.predicts k] at h1
    injection h1 with h1
    injection h1
  have step : ∀ k, ∃ u : Nat → ℝ, u 0 = lr * inner φ (fas k).optimiser.velocity ∧
      u m = lr * inner φ (fas (k + 1)).optimiser.velocity ∧
      ∀ j < m, u (j + 1) = μ * u j + lr * normSq φ * (entry ys j - entry (ps k) j) ∧
        entry (ps (k + 1)) j = entry (ps k) j + u (j + 1) := by
    intro k
    obtain ⟨-, fv', h1, -, -, -, -, u, h2⟩ := momentum_vcall hp hf hy (fas k) (inv k).1 (inv k).2.1 (inv k).2.2.1 (inv k).2.2.2
    rw [h.updates k] at h1
    injection h1 with h1
    injection h1 with _ h1
    rw [hps k, hps (k + 1), h1]
    exact ⟨u, h2⟩
  choose u hu using step
  refine ⟨by rw [hps 0, h0], fun s => u (s / m) (s % m), ?_, ?_⟩
  · show u (0 / m) (0 % m) = 0
    rw [Nat.zero_div, Nat.zero_mod, (hu 0).1, h0]
    show lr * inner φ (List.replicate n Scalar.zero) = 0
    rw [inner_zeros, mul_zero]
  · have next : ∀ s, u ((s + 1) / m) ((s + 1) % m) = u (s / m) (s % m + 1) := by
      intro s
      have hlt := Nat.mod_lt s hm
      rcases Nat.lt_or_ge (s % m + 1) m with h1 | h1
      · have e1 : s + 1 = m * (s / m) + (s % m + 1) := by
          have := Nat.div_add_mod s m
          omega
        rw [e1, Nat.mul_add_div hm, Nat.mul_add_mod, Nat.mod_eq_of_lt h1, Nat.div_eq_of_lt h1, Nat.add_zero]
      · have e0 : s % m + 1 = m := by omega
        have e3 : s + 1 = (s / m + 1) * m := by
          have := Nat.div_add_mod s m
          nlinarith
        rw [e0, e3, Nat.mul_mod_left, Nat.mul_div_cancel _ hm, (hu (s / m + 1)).1, (hu (s / m)).2.1]
    refine ⟨fun s => ?_, fun s => ?_⟩
    · show u ((s + 1) / m) ((s + 1) % m) = _
      rw [next]
      exact ((hu (s / m)).2.2 (s % m) (Nat.mod_lt s hm)).1
    · show entry ys ((s + m) % m) - entry (ps ((s + m) / m)) ((s + m) % m) =
        entry ys (s % m) - entry (ps (s / m)) (s % m) - u ((s + 1) / m) ((s + 1) % m)
      rw [next, Nat.add_mod_right, Nat.add_div_right s hm,
        ((hu (s / m)).2.2 (s % m) (Nat.mod_lt s hm)).2]
      ring

/-- Such runs exist from every start. -/
theorem C152_exists (b : B) (x : I) (φ : Features ℝ) (n m : Nat) (hp : Basis.project b x = .ok (.ok φ))
    (hf : Fits n φ) (μ lr : ℝ) (ys : List ℝ) (hy : ys.length = m) (ws : List (List ℝ)) (hw : ws.length = m)
    (hc : ∀ c ∈ ws, c.length = n) :
    ∃ (fas : Nat → VectorLFA B (SGDMomentum ℝ) ℝ) (ps : Nat → List ℝ),
      VStream fas (fun _ => x) (fun _ => ys) ps ∧ fas 0 = LFA.mk b ws (SGDMomentum.new n μ lr) := by
  let S := { fv : VectorLFA B (SGDMomentum ℝ) ℝ // fv.basis = b ∧ fv.weights.length = m ∧
    (∀ c ∈ fv.weights, c.length = n) ∧ IsMomentum n μ lr fv.optimiser }
  have hs : ∀ q : S, ∃ q' : S, q.1.updateWith x (fun _ vs => List.zipWith (· -. ·) ys vs) = .ok (.ok (), q'.1) := by
    rintro ⟨fv, h1, h2, h3, h4⟩
    obtain ⟨-, fv', r1, r2, r3, r4, r5, -⟩ := momentum_vcall hp hf hy fv h1 h2 h3 h4
    exact ⟨⟨fv', r2, r3, r4, r5⟩, r1⟩
  choose next hnext using hs
  let st : Nat → S := fun k => Nat.rec ⟨LFA.mk b ws (SGDMomentum.new n μ lr), rfl, hw, hc, rfl, rfl,
    by simp [SGDMomentum.new]⟩ (fun _ q => next q) k
  refine ⟨fun k => (st k).1, fun k => (st k).1.weights.map (inner φ), ⟨fun k => ?_, fun k => hnext (st k)⟩, rfl⟩
  exact (momentum_vcall hp hf hy (st k).1 (st k).2.1 (st k).2.2.1 (st k).2.2.2.1 (st k).2.2.2.2).1

theorem errors_tendsto {m : Nat} (hm : 0 < m) {ys : List ℝ} {ps : Nat → List ℝ} :
    Tendsto (errorsInTurn m ys ps) atTop (𝓝 0) ↔
      ∀ j < m, Tendsto (fun k => entry ys j - entry (ps k) j) atTop (𝓝 0) := by
  have at_ : ∀ k, ∀ j < m, errorsInTurn m ys ps (m * k + j) = entry ys j - entry (ps k) j := by
    intro k j hj
    unfold errorsInTurn
    rw [Nat.mul_add_mod, Nat.mod_eq_of_lt hj, Nat.mul_add_div hm, Nat.div_eq_of_lt hj, Nat.add_zero]
  constructor
  · intro h j hj
    refine (h.comp (tendsto_atTop_mono (fun k => ?_) tendsto_id : Tendsto (fun k => m * k + j) atTop atTop)).congr fun k => at_ k j hj
    show k ≤ m * k + j
    nlinarith
  · intro h
    rw [Metric.tendsto_atTop]
    intro ε hε
    have h1 : ∀ j : Fin m, ∃ N, ∀ k ≥ N, |entry ys j - entry (ps k) j| < ε := by
      intro j
      obtain ⟨N, hN⟩ := Metric.tendsto_atTop.1 (h j j.2) ε hε
      exact ⟨N, fun k hk => by simpa [Real.dist_eq] using hN k hk⟩
    choose N hN using h1
    refine ⟨m * (∑ j, N j), fun s hs => ?_⟩
    have hlt := Nat.mod_lt s hm
    have h2 : ∑ j, N j ≤ s / m := (Nat.le_div_iff_mul_le hm).2 (by rw [Nat.mul_comm]; exact hs)
    have h3 : N ⟨s % m, hlt⟩ ≤ ∑ j, N j := Finset.single_le_sum (fun _ _ => Nat.zero_le _) (Finset.mem_univ _)
    rw [Real.dist_eq, sub_zero]
    exact hN ⟨s % m, hlt⟩ (s / m) (h3.trans h2)

/-- **C152.** Any number of outputs: with `0 < lr ‖φ‖² < 2 (1 - |momentum|)` all predictions of a vector
approximator with Momentum converge to their targets, although the outputs disturb each other. -/
theorem C152_converges (b : B) (x : I) (φ : Features ℝ) (n m : Nat) (hp : Basis.project b x = .ok (.ok φ))
    (hf : Fits n φ) (μ lr : ℝ) (ys : List ℝ) (hy : ys.length = m) (ws : List (List ℝ)) (hw : ws.length = m)
    (hc : ∀ c ∈ ws, c.length = n) (fas : Nat → VectorLFA B (SGDMomentum ℝ) ℝ) (ps : Nat → List ℝ)
    (h : VStream fas (fun _ => x) (fun _ => ys) ps) (h0 : fas 0 = LFA.mk b ws (SGDMomentum.new n μ lr))
    (h1 : 0 < lr * normSq φ) (h2 : lr * normSq φ < 2 * (1 - |μ|)) :
    ∀ j < m, Tendsto (fun k => entry (ps k) j) atTop (𝓝 (entry ys j)) := by
  intro j hj
  have hm : 0 < m := by omega
  obtain ⟨-, U, -, hs⟩ := momentum_shared hm hp hf hy hw hc h h0
  have := ((errors_tendsto hm).1 (hs.converges h1 h2).1 j hj).const_sub (entry ys j)
  simpa using this

/-- Two outputs converge from every start exactly if `lr ‖φ‖² < 2 (1 - momentum²)`, much less than the
`2 (1 + momentum)` of one output (`C115_momentum_iff`). -/
theorem C152_two_iff (b : B) (x : I) (φ : Features ℝ) (n : Nat) (hp : Basis.project b x = .ok (.ok φ))
    (hf : Fits n φ) (μ lr : ℝ) (hlr : 0 < lr * normSq φ) (ys : List ℝ) (hy : ys.length = 2) :
    (∀ (ws : List (List ℝ)) (fas : Nat → VectorLFA B (SGDMomentum ℝ) ℝ) (ps : Nat → List ℝ), ws.length = 2 →
      (∀ c ∈ ws, c.length = n) → VStream fas (fun _ => x) (fun _ => ys) ps →
      fas 0 = LFA.mk b ws (SGDMomentum.new n μ lr) →
      ∀ j < 2, Tendsto (fun k => entry (ps k) j) atTop (𝓝 (entry ys j))) ↔ lr * normSq φ < 2 * (1 - μ ^ 2) := by
  have hN : normSq φ ≠ 0 := by intro h; rw [h, mul_zero] at hlr; exact lt_irrefl _ hlr
  constructor
  · intro hall
    by_contra hcon
    push Not at hcon
    -- initial errors from which it does not converge
    obtain ⟨e0, e1, he⟩ : ∃ e0 e1 : ℝ, 2 * (1 - μ ^ 2) < lr * normSq φ ∧ e0 = 2 * μ ∧ e1 = 2 - lr * normSq φ ∨
        2 * (1 - μ ^ 2) = lr * normSq φ ∧ e0 = 1 ∧ e1 = μ := by
      rcases hcon.lt_or_eq with h | h
      · exact ⟨_, _, .inl ⟨h, rfl, rfl⟩⟩
      · exact ⟨_, _, .inr ⟨h, rfl, rfl⟩⟩
    let col : ℝ → List ℝ := fun p => List.ofFn fun i : Fin n => p / normSq φ * value φ i
    have hcol : ∀ p, inner φ (col p) = p := by
      intro p
      have e : ∀ i < n, entry (col p) i = 0 * entry [] i + 0 * entry [] i + p / normSq φ * value φ i := by
        intro i hi
        have : entry (col p) i = p / normSq φ * value φ i := by
          unfold entry
          simp [col, hi]
        rw [this]; ring
      rw [inner_lin hf.2 e]; field_simp; ring
    have hlen : ∀ p, (col p).length = n := fun p => by simp [col]
    obtain ⟨fas, ps, h, h0⟩ := C152_exists b x φ n 2 hp hf μ lr ys hy [col (entry ys 0 - e0), col (entry ys 1 - e1)] rfl
      (by intro c hc; rcases List.mem_pair.1 hc with rfl | rfl <;> exact hlen _)
    have hw : ∀ c ∈ [col (entry ys 0 - e0), col (entry ys 1 - e1)], c.length = n := by
      intro c hc; rcases List.mem_pair.1 hc with rfl | rfl <;> exact hlen _
    obtain ⟨hp0, U, hU, hs⟩ := momentum_shared two_pos hp hf hy rfl hw h h0
    have a0 : errorsInTurn 2 ys ps 0 = e0 := by
      show entry ys 0 - entry (ps 0) 0 = e0
      rw [hp0]
      show entry ys 0 - inner φ (col _) = e0
      rw [hcol]; ring
    have a1 : errorsInTurn 2 ys ps 1 = e1 := by
      show entry ys 1 - entry (ps 0) 1 = e1
      rw [hp0]
      show entry ys 1 - inner φ (col _) = e1
      rw [hcol]; ring
    refine hs.two_diverges hlr hU (by rw [a0, a1]; exact he) ((errors_tendsto two_pos).2 fun j hj => ?_)
    have := (hall _ fas ps rfl hw h h0 j hj).const_sub (entry ys j)
    simpa using this
  · intro hlt ws fas ps hw hc h h0 j hj
    obtain ⟨-, U, -, hs⟩ := momentum_shared two_pos hp hf hy hw hc h h0
    have := ((errors_tendsto two_pos).1 (hs.two_converges hlr hlt) j hj).const_sub (entry ys j)
    simpa using this

end

/-- The bound of `C152_converges` is the best that does not depend on the number of outputs: for every
`0 < momentum < 1` and every gain bound above `2 (1 - momentum)` there are a number of outputs and a learning
rate below that bound (with the constant feature 1) and initial weights from which some output never
converges. -/
theorem C152_tight (μ δ : ℝ) (h0 : 0 < μ) (h1 : μ < 1) (hδ : 0 < δ) :
    ∃ (m : Nat) (lr : ℝ) (ws : List (List ℝ)) (fas : Nat → VectorLFA (Bias ℝ) (SGDMomentum ℝ) ℝ)
      (ps : Nat → List ℝ), lr < 2 * (1 - μ) + δ ∧ ws.length = m ∧
      fas 0 = LFA.mk ⟨1⟩ ws (SGDMomentum.new 1 μ lr) ∧
      VStream fas (fun _ => ()) (fun _ => List.replicate m 0) ps ∧
      ∃ j < m, ¬ Tendsto (fun k => entry (ps k) j) atTop (𝓝 0) := by
  obtain ⟨m, c, E, U, hm, -, hc, hs, hU, hE⟩ := shared_tight h0 h1 hδ
  have hp : Basis.project (⟨1⟩ : Bias ℝ) () = .ok (.ok (.dense [1])) := rfl
  have hf : Fits 1 (Features.dense [(1 : ℝ)]) := ⟨trivial, rfl⟩
  have hN : normSq (Features.dense [(1 : ℝ)]) = 1 := by simp [normSq, Spec.dim, value]
  have hw : ∀ d ∈ (List.ofFn fun j : Fin m => [-E j]), d.length = 1 := by
    intro d hd
    obtain ⟨j, rfl⟩ := (List.mem_ofFn' _ _).1 hd
    rfl
  obtain ⟨fas, ps, h, hf0⟩ := C152_exists (⟨1⟩ : Bias ℝ) () _ 1 m hp hf μ c (List.replicate m 0) (by simp)
    (List.ofFn fun j : Fin m => [-E j]) (by simp) hw
  refine ⟨m, c, _, fas, ps, hc, by simp, hf0, h, ?_⟩
  obtain ⟨hp0, U', hU', hs'⟩ := momentum_shared hm hp hf (by simp) (by simp) hw h hf0
  rw [hN, mul_one] at hs'
  have hz : ∀ j, entry (List.replicate m (0 : ℝ)) j = 0 := by
    intro j
    unfold entry
    by_cases hj : j < m
    · simp [hj]
    · simp [Nat.le_of_not_lt hj]
  have he : E = errorsInTurn m (List.replicate m 0) ps := by
    refine hs.unique hs' hm (hU.trans hU'.symm) fun s hsm => ?_
    unfold errorsInTurn
    rw [Nat.mod_eq_of_lt hsm, Nat.div_eq_of_lt hsm, hp0, hz]
    unfold entry
    simp [hsm, Spec.inner, Spec.dim, value]
  by_contra hcon
  push Not at hcon
  refine hE (he ▸ (errors_tendsto hm).2 fun j hj => ?_)
  have := (hcon j hj).const_sub 0
  simp only [hz]
  simpa using this

/-- The constant feature 1, momentum 0.9 and learning rate 1: every approximator with one output learns every
target, some approximator with two outputs does not. -/
theorem C152_example (y₁ y₂ : ℝ) :
    (∀ (w : ℝ) (fas : Nat → ScalarLFA (Bias ℝ) (SGDMomentum ℝ) ℝ) (ps : Nat → ℝ),
      Stream fas (fun _ => ()) (fun _ => y₁) ps → fas 0 = LFA.mk ⟨1⟩ [w] (SGDMomentum.new 1 0.9 1) →
      Tendsto ps atTop (𝓝 y₁)) ∧
    ∃ (ws : List (List ℝ)) (fas : Nat → VectorLFA (Bias ℝ) (SGDMomentum ℝ) ℝ) (ps : Nat → List ℝ),
      ws.length = 2 ∧ (∀ c ∈ ws, c.length = 1) ∧ VStream fas (fun _ => ()) (fun _ => [y₁, y₂]) ps ∧
      fas 0 = LFA.mk ⟨1⟩ ws (SGDMomentum.new 1 0.9 1) ∧
      ∃ j < 2, ¬ Tendsto (fun k => entry (ps k) j) atTop (𝓝 (entry [y₁, y₂] j)) := by
  have hp : Basis.project (⟨1⟩ : Bias ℝ) () = .ok (.ok (.dense [1])) := rfl
  have hf : Fits 1 (Features.dense [(1 : ℝ)]) := ⟨trivial, rfl⟩
  have hN : normSq (Features.dense [(1 : ℝ)]) = 1 := by simp [normSq, Spec.dim, value]
  constructor
  · intro w fas ps h h0
    by_cases h1 : ps 0 = y₁
    · have := C115_momentum_exact (⟨1⟩ : Bias ℝ) () _ 1 hp hf y₁ 0.9 1 [w] rfl fas ps h h0 h1
      exact tendsto_const_nhds.congr fun k => (this k).symm
    · have := ((C115_momentum_iff (⟨1⟩ : Bias ℝ) () _ 1 hp hf y₁ 0.9 1 [w] rfl fas ps h h0 h1).2 (by
        rw [hN, abs_of_pos (by norm_num)]; norm_num)).const_sub y₁
      simpa using this
  · by_contra hcon
    push Not at hcon
    have := (C152_two_iff (⟨1⟩ : Bias ℝ) () _ 1 hp hf 0.9 1 (by rw [hN]; norm_num) [y₁, y₂] rfl).1
      fun ws fas ps h1 h2 h3 h4 j hj => hcon ws fas ps h1 h2 h3 h4 j hj
    rw [hN] at this
    norm_num at this

end Lfa

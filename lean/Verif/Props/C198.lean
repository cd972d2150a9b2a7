import Verif.Props.C97_C98
import Verif.Props.C115_C117
import Verif.Props.C72_C79
import Verif.Props.C196

/-!
# C198: Adagrad's total error on any sequence of inputs

As long as the weights stay within `D` of reference weights, the total squared error of Adagrad is at most twice that of the reference
plus a constant that does not depend on the number of calls. With features of which one at most is not zero (tables, grids) and targets
that some weights reproduce, the weights do stay bounded. Exact arithmetic.
-/

set_option linter.unusedSectionVars false

namespace Lfa

open Spec Features Filter Topology

/-- `E ≤ E/4 + Δ + A √E + c` bounds `E`. -/
theorem self_bound {E Δ A c : ℝ} (hE : 0 ≤ E) (h : E ≤ E / 4 + Δ + A * √E + c) : E ≤ 2 * Δ + 2 * A ^ 2 + 2 * c := by
  have h1 := Real.sq_sqrt hE
  have h2 := sq_nonneg (√E / 2 - A)
  nlinarith

section
variable {B I : Type} [Space B] [Basis B I ℝ]

/-- What the calls of a stream do. -/
theorem adagrad_stream {fas : Nat → ScalarLFA B (Adagrad ℝ) ℝ} {xs : Nat → I} {ys ps : Nat → ℝ} (h : Stream fas xs ys ps) {b : B}
    {n : Nat} {lr : ℝ} {w : List ℝ} (hw : w.length = n) (h0 : fas 0 = LFA.mk b w (Adagrad.new n lr)) {φs : Nat → Features ℝ}
    (hp : ∀ t, Basis.project b (xs t) = .ok (.ok (φs t))) (hf : ∀ t, Fits n (φs t)) (t : Nat) :
    ((fas t).basis = b ∧ (fas t).optimiser.learningRate = lr ∧ (fas t).optimiser.accumulator.length = n ∧ (fas t).weights.length = n) ∧
      ps t = ∑ i ∈ Finset.range n, value (φs t) i * entry (fas t).weights i ∧
      Optimiser.stepScaled (fas t).optimiser (fas t).weights (φs t) (ys t - ps t) =
        .ok (.ok (), (fas (t + 1)).optimiser, (fas (t + 1)).weights) := by
  have call : ∀ t, ((fas t).basis = b ∧ (fas t).optimiser.learningRate = lr ∧ (fas t).optimiser.accumulator.length = n ∧
      (fas t).weights.length = n) → ps t = ∑ i ∈ Finset.range n, value (φs t) i * entry (fas t).weights i ∧
      Optimiser.stepScaled (fas t).optimiser (fas t).weights (φs t) (ys t - ps t) =
        .ok (.ok (), (fas (t + 1)).optimiser, (fas (t + 1)).weights) ∧
      ((fas (t + 1)).basis = b ∧ (fas (t + 1)).optimiser.learningRate = lr ∧ (fas (t + 1)).optimiser.accumulator.length = n ∧
        (fas (t + 1)).weights.length = n) := by
    rintro t ⟨i1, i2, i3, i4⟩
    have hp' : Basis.project (fas t).basis (xs t) = .ok (.ok (φs t)) := by rw [i1]; exact hp t
    have hd := dot_real (hf t).1 ((hf t).2.trans i4.symm)
    have hv : ps t = Spec.inner (φs t) (fas t).weights := by
      have := (h.predicts t).symm.trans (evaluate_eq hp' hd)
      exact Except.ok.inj (Except.ok.inj this)
    obtain ⟨accs, w', s1, s2, s3, -⟩ := adagrad_real (hf t) (fas t).optimiser i3 (ys t - ps t) i4
    have hu := (h.updates t).symm.trans (updateWith_eq hp' hd (fun _ v => ys t -. v) (by rw [← hv]; exact s1))
    have hu' : fas (t + 1) = LFA.mk (fas t).basis w' { (fas t).optimiser with accumulator := accs } :=
      congrArg Prod.snd (Except.ok.inj hu)
    have e1 : (fas (t + 1)).optimiser = { (fas t).optimiser with accumulator := accs } := congrArg LFA.optimiser hu'
    have e2 : (fas (t + 1)).weights = w' := congrArg LFA.weights hu'
    have e3 : (fas (t + 1)).basis = (fas t).basis := by rw [hu']
    refine ⟨?_, by rw [s1, e1, e2], e3.trans i1, by rw [e1]; exact i2, by rw [e1]; exact s2, by rw [e2]; exact s3⟩
    rw [hv, inner_eq, (hf t).2]
  have inv : ∀ t, (fas t).basis = b ∧ (fas t).optimiser.learningRate = lr ∧ (fas t).optimiser.accumulator.length = n ∧
      (fas t).weights.length = n := fun t => by
    induction t with
    | zero => rw [h0]; exact ⟨rfl, rfl, List.length_replicate, hw⟩
    | succ t ih => exact (call t ih).2.2
  exact ⟨inv t, (call t (inv t)).1, (call t (inv t)).2.1⟩

/-- The total squared error, for any targets and reference weights `u`. -/
theorem C198_bounded (b : B) (n : Nat) (lr : ℝ) (hlr : 0 < lr) (w : List ℝ) (hw : w.length = n)
    (fas : Nat → ScalarLFA B (Adagrad ℝ) ℝ) (xs : Nat → I) (ys ps : Nat → ℝ) (h : Stream fas xs ys ps)
    (h0 : fas 0 = LFA.mk b w (Adagrad.new n lr)) (φs : Nat → Features ℝ)
    (hp : ∀ t, Basis.project b (xs t) = .ok (.ok (φs t))) (hf : ∀ t, Fits n (φs t)) (G : ℝ) (hG : ∀ t, ∀ i < n, |value (φs t) i| ≤ G)
    (G0 : 0 ≤ G) (u : List ℝ) (D : ℝ) (T : Nat) (hD : ∀ t ≤ T, ∀ i < n, |entry u i - entry (fas t).weights i| ≤ D) :
    ∑ t ∈ Finset.range T, (ys t - ps t) ^ 2 ≤
      2 * ∑ t ∈ Finset.range T, (ys t - ∑ i ∈ Finset.range n, value (φs t) i * entry u i) ^ 2 +
      2 * ((D ^ 2 / (2 * lr) + lr) * (n * G)) ^ 2 + 2 * (n * (D ^ 2 * 1e-7 / (2 * lr))) := by
  have st := adagrad_stream h hw h0 hp hf
  let es : Nat → Event ℝ := fun t => .stepScaled (φs t) (ys t - ps t)
  have hr : OptRun (fun t => (fas t).optimiser) (fun t => (fas t).weights) es := fun t => .stepScaled (st t).2.2 (.nil _ _)
  have g : ∀ t i, (es t).grad i = value (φs t) i * (ys t - ps t) := fun t i => rfl
  have h1 := Finset.sum_le_sum fun i (hi : i ∈ Finset.range n) => C98_adagrad_coordinate n lr hlr (fun t => (fas t).optimiser)
    (fun t => (fas t).weights) es hr (by simp only [h0]) (by simp only [h0]; exact hw) hf (fun t => rfl) u D T i (Finset.mem_range.1 hi)
    fun t ht => hD t ht i (Finset.mem_range.1 hi)
  set E := ∑ t ∈ Finset.range T, (ys t - ps t) ^ 2 with hE
  set Δ := ∑ t ∈ Finset.range T, (ys t - ∑ i ∈ Finset.range n, value (φs t) i * entry u i) ^ 2 with hΔ
  have E0 : 0 ≤ E := Finset.sum_nonneg fun _ _ => sq_nonneg _
  have lhs : E - (E / 4 + Δ) ≤ ∑ i ∈ Finset.range n, advantage i u (fun t => (fas t).weights) es T := by
    unfold advantage
    rw [Finset.sum_comm, hE, hΔ, Finset.sum_div, ← Finset.sum_add_distrib, ← Finset.sum_sub_distrib]
    refine Finset.sum_le_sum fun t _ => ?_
    have e : ∑ i ∈ Finset.range n, (es t).grad i * (entry u i - entry (fas t).weights i) =
        (ys t - ps t) * (∑ i ∈ Finset.range n, value (φs t) i * entry u i - ps t) := by
      rw [(st t).2.1, ← Finset.sum_sub_distrib, Finset.mul_sum]
      refine Finset.sum_congr rfl fun i _ => ?_
      rw [g, (st t).2.1]
      ring
    rw [e]
    generalize ∑ i ∈ Finset.range n, value (φs t) i * entry u i = q
    nlinarith [sq_nonneg ((ys t - ps t) / 2 - (ys t - q))]
  have rhs : ∀ i ∈ Finset.range n, √(∑ t ∈ Finset.range T, (es t).grad i ^ 2) ≤ G * √E := fun i hi => by
    rw [← Real.sqrt_sq G0, ← Real.sqrt_mul (sq_nonneg _)]
    refine Real.sqrt_le_sqrt ?_
    rw [hE, Finset.mul_sum]
    refine Finset.sum_le_sum fun t _ => ?_
    rw [g, mul_pow]
    refine mul_le_mul_of_nonneg_right ?_ (sq_nonneg _)
    rw [← sq_abs (value _ _)]
    exact pow_le_pow_left₀ (abs_nonneg _) (hG t i (Finset.mem_range.1 hi)) 2
  have c0 : 0 ≤ D ^ 2 / (2 * lr) + lr := by positivity
  have h2 : ∑ i ∈ Finset.range n, ((D ^ 2 / (2 * lr) + lr) * √(∑ t ∈ Finset.range T, (es t).grad i ^ 2) + D ^ 2 * 1e-7 / (2 * lr)) ≤
      (D ^ 2 / (2 * lr) + lr) * (n * G) * √E + n * (D ^ 2 * 1e-7 / (2 * lr)) := by
    have : ∀ i ∈ Finset.range n, (D ^ 2 / (2 * lr) + lr) * √(∑ t ∈ Finset.range T, (es t).grad i ^ 2) + D ^ 2 * 1e-7 / (2 * lr) ≤
        (D ^ 2 / (2 * lr) + lr) * (G * √E) + D ^ 2 * 1e-7 / (2 * lr) := fun i hi =>
      add_le_add_left (mul_le_mul_of_nonneg_left (rhs i hi) c0) _
    refine (Finset.sum_le_sum this).trans (le_of_eq ?_)
    rw [Finset.sum_const, Finset.card_range, nsmul_eq_mul]
    ring
  refine self_bound E0 ?_
  linarith

/-- Targets that some weights reproduce: if the weights stay bounded, the errors are square-summable and tend to zero. -/
theorem C198_realisable (b : B) (n : Nat) (lr : ℝ) (hlr : 0 < lr) (w : List ℝ) (hw : w.length = n)
    (fas : Nat → ScalarLFA B (Adagrad ℝ) ℝ) (xs : Nat → I) (ys ps : Nat → ℝ) (h : Stream fas xs ys ps)
    (h0 : fas 0 = LFA.mk b w (Adagrad.new n lr)) (φs : Nat → Features ℝ)
    (hp : ∀ t, Basis.project b (xs t) = .ok (.ok (φs t))) (hf : ∀ t, Fits n (φs t)) (G : ℝ) (hG : ∀ t, ∀ i < n, |value (φs t) i| ≤ G)
    (G0 : 0 ≤ G) (u : List ℝ) (hu : ∀ t, ys t = ∑ i ∈ Finset.range n, value (φs t) i * entry u i) (D : ℝ)
    (hD : ∀ t, ∀ i < n, |entry u i - entry (fas t).weights i| ≤ D) :
    Summable (fun t => (ys t - ps t) ^ 2) ∧ Tendsto (fun t => ys t - ps t) atTop (𝓝 0) := by
  have h1 : Summable fun t => (ys t - ps t) ^ 2 := by
    refine summable_of_sum_range_le (fun t => sq_nonneg _)
      (c := 2 * ((D ^ 2 / (2 * lr) + lr) * (n * G)) ^ 2 + 2 * (n * (D ^ 2 * 1e-7 / (2 * lr)))) fun T => ?_
    have := C198_bounded b n lr hlr w hw fas xs ys ps h h0 φs hp hf G hG G0 u D T fun t _ => hD t
    have z : ∑ t ∈ Finset.range T, (ys t - ∑ i ∈ Finset.range n, value (φs t) i * entry u i) ^ 2 = 0 :=
      Finset.sum_eq_zero fun t _ => by rw [← hu t, sub_self]; norm_num
    rw [z, mul_zero, zero_add] at this
    exact this
  refine ⟨h1, ?_⟩
  have := h1.tendsto_atTop_zero
  have h2 := this.sqrt
  simp only [Real.sqrt_sq_eq_abs, Real.sqrt_zero] at h2
  exact (tendsto_zero_iff_abs_tendsto_zero _).2 h2

/-- One weight at a time: the distance to weights that reproduce the target stays below its start or the learning rate. -/
theorem C198_table_bounded (b : B) (n : Nat) (lr : ℝ) (hlr : 0 < lr) (w : List ℝ) (hw : w.length = n)
    (fas : Nat → ScalarLFA B (Adagrad ℝ) ℝ) (xs : Nat → I) (ys ps : Nat → ℝ) (h : Stream fas xs ys ps)
    (h0 : fas 0 = LFA.mk b w (Adagrad.new n lr)) (φs : Nat → Features ℝ)
    (hp : ∀ t, Basis.project b (xs t) = .ok (.ok (φs t))) (hf : ∀ t, Fits n (φs t))
    (h1 : ∀ t, ∀ i < n, ∀ j < n, value (φs t) i ≠ 0 → value (φs t) j ≠ 0 → i = j)
    (u : List ℝ) (hu : ∀ t, ys t = ∑ i ∈ Finset.range n, value (φs t) i * entry u i) (t : Nat) (i : Nat) (hi : i < n) :
    |entry u i - entry (fas t).weights i| ≤ max |entry u i - entry w i| lr := by
  have st := adagrad_stream h hw h0 hp hf
  have acc0 : ∀ t, 0 ≤ entry (fas t).optimiser.accumulator i := fun t => by
    induction t with
    | zero =>
      rw [h0]
      show 0 ≤ entry (List.replicate n (Scalar.zero : ℝ)) i
      unfold entry
      simp [hi]
    | succ t ih =>
      obtain ⟨⟨-, -, i3, i4⟩, -, s⟩ := st t
      obtain ⟨accs, w', s1, s2, s3, s4⟩ := adagrad_real (hf t) (fas t).optimiser i3 (ys t - ps t) i4
      rw [s] at s1
      injection s1 with s1
      injection s1 with _ s1
      injection s1 with s1 s5
      rw [s1, (s4 i hi).1]
      positivity
  induction t with
  | zero => rw [h0]; exact le_max_left _ _
  | succ t ih =>
    obtain ⟨⟨-, i2, i3, i4⟩, i5, s⟩ := st t
    obtain ⟨accs, w', s1, s2, s3, s4⟩ := adagrad_real (hf t) (fas t).optimiser i3 (ys t - ps t) i4
    rw [s] at s1
    injection s1 with s1
    injection s1 with _ s1
    injection s1 with s1 s5
    obtain ⟨a1, a2⟩ := s4 i hi
    rw [s5, a2, i2, a1]
    by_cases hv : value (φs t) i = 0
    · rw [hv]
      simpa using ih
    · have one : ∀ v : List ℝ, ∑ j ∈ Finset.range n, value (φs t) j * entry v j = value (φs t) i * entry v i := fun v => by
        refine Finset.sum_eq_single i (fun j hj hne => ?_) fun hn => absurd (Finset.mem_range.2 hi) hn
        by_contra hc
        exact hne (h1 t j (Finset.mem_range.1 hj) i hi (left_ne_zero_of_mul hc) hv)
      have e : ys t - ps t = value (φs t) i * (entry u i - entry (fas t).weights i) := by
        rw [hu t, i5, one, one]; ring
      rw [e]
      have hacc := acc0 t
      generalize entry (fas t).optimiser.accumulator i = S at hacc
      generalize hd : entry u i - entry (fas t).weights i = d at *
      generalize value (φs t) i = v at *
      have hR : |v * (v * d)| ≤ √(S + (v * (v * d)) ^ 2) := by
        rw [← Real.sqrt_sq_eq_abs]
        exact Real.sqrt_le_sqrt (by linarith)
      generalize √(S + (v * (v * d)) ^ 2) = R at *
      have B0 : 0 < R + 1e-7 := by
        have := abs_nonneg (v * (v * d))
        have : (0 : ℝ) < 1e-7 := by norm_num
        linarith
      have hq : |v * (v * d) / (R + 1e-7)| ≤ 1 := by
        rw [abs_div, abs_of_pos B0, div_le_one B0]
        have : (0 : ℝ) < 1e-7 := by norm_num
        linarith
      have eq : entry u i - (entry (fas t).weights i + lr * (v * (v * d)) / (R + 1e-7)) = d - lr * (v * (v * d) / (R + 1e-7)) := by
        rw [← hd]; ring
      rw [eq]
      -- the step has the sign of `d`
      have sgn : 0 ≤ d * (v * (v * d) / (R + 1e-7)) := by
        rw [← mul_div_assoc]
        refine div_nonneg ?_ B0.le
        nlinarith [sq_nonneg (v * d)]
      generalize v * (v * d) / (R + 1e-7) = q at *
      obtain ⟨q1, q2⟩ := abs_le.1 hq
      have m1 := le_max_left |entry u i - entry w i| lr
      have m2 := le_max_right |entry u i - entry w i| lr
      generalize max |entry u i - entry w i| lr = m at *
      obtain ⟨d1, d2⟩ := abs_le.1 ih
      rw [abs_le]
      rcases lt_trichotomy d 0 with hs | hs | hs
      · have : q ≤ 0 := by
          by_contra hc
          nlinarith [mul_pos_of_neg_of_neg hs (neg_neg_of_pos (not_le.1 hc))]
        constructor <;> nlinarith
      · subst hs
        have : q = 0 ∨ q ≠ 0 := em _
        constructor <;> nlinarith
      · have : 0 ≤ q := by
          by_contra hc
          nlinarith [mul_pos hs (neg_pos.2 (not_le.1 hc))]
        constructor <;> nlinarith

/-- So a table is learnt, with any rate, whatever the order in which its inputs come. -/
theorem C198_table (b : B) (n : Nat) (lr : ℝ) (hlr : 0 < lr) (w : List ℝ) (hw : w.length = n)
    (fas : Nat → ScalarLFA B (Adagrad ℝ) ℝ) (xs : Nat → I) (ys ps : Nat → ℝ) (h : Stream fas xs ys ps)
    (h0 : fas 0 = LFA.mk b w (Adagrad.new n lr)) (φs : Nat → Features ℝ)
    (hp : ∀ t, Basis.project b (xs t) = .ok (.ok (φs t))) (hf : ∀ t, Fits n (φs t)) (G : ℝ) (hG : ∀ t, ∀ i < n, |value (φs t) i| ≤ G)
    (G0 : 0 ≤ G) (h1 : ∀ t, ∀ i < n, ∀ j < n, value (φs t) i ≠ 0 → value (φs t) j ≠ 0 → i = j)
    (u : List ℝ) (hu : ∀ t, ys t = ∑ i ∈ Finset.range n, value (φs t) i * entry u i) :
    Summable (fun t => (ys t - ps t) ^ 2) ∧ Tendsto (fun t => ys t - ps t) atTop (𝓝 0) := by
  refine C198_realisable b n lr hlr w hw fas xs ys ps h h0 φs hp hf G hG G0 u hu
    (∑ j ∈ Finset.range n, max |entry u j - entry w j| lr) fun t i hi => ?_
  refine (C198_table_bounded b n lr hlr w hw fas xs ys ps h h0 φs hp hf h1 u hu t i hi).trans ?_
  exact Finset.single_le_sum (f := fun j => max |entry u j - entry w j| lr)
    (fun j _ => (abs_nonneg _).trans (le_max_left _ _)) (Finset.mem_range.2 hi)

/-- Such runs exist for every sequence of inputs and targets. -/
theorem C198_runs (b : B) (n : Nat) (lr : ℝ) (w : List ℝ) (hw : w.length = n) (xs : Nat → I) (ys : Nat → ℝ) (φs : Nat → Features ℝ)
    (hp : ∀ t, Basis.project b (xs t) = .ok (.ok (φs t))) (hf : ∀ t, Fits n (φs t)) :
    ∃ (fas : Nat → ScalarLFA B (Adagrad ℝ) ℝ) (ps : Nat → ℝ), Stream fas xs ys ps ∧ fas 0 = LFA.mk b w (Adagrad.new n lr) := by
  let S := { q : Adagrad ℝ × List ℝ // q.1.accumulator.length = n ∧ q.2.length = n }
  have hs : ∀ (t : Nat) (q : S), ∃ q' : S, Optimiser.stepScaled q.1.1 q.1.2 (φs t) (ys t - inner (φs t) q.1.2) =
      .ok (.ok (), q'.1.1, q'.1.2) := by
    rintro t ⟨⟨o, w⟩, h1, h2⟩
    obtain ⟨accs, w', s1, s2, s3, -⟩ := adagrad_real (hf t) o h1 (ys t - inner (φs t) w) h2
    exact ⟨⟨(_, w'), s2, s3⟩, s1⟩
  choose next hnext using hs
  let st : Nat → S := fun k => Nat.rec ⟨(Adagrad.new n lr, w), List.length_replicate, hw⟩ (fun t q => next t q) k
  refine ⟨fun k => LFA.mk b (st k).1.2 (st k).1.1, fun k => inner (φs k) (st k).1.2, ⟨fun k => ?_, fun k => ?_⟩, rfl⟩
  · exact evaluate_eq (fa := LFA.mk b (st k).1.2 (st k).1.1) (hp k) (dot_real (hf k).1 ((hf k).2.trans (st k).2.2.symm))
  · exact updateWith_eq (fa := LFA.mk b (st k).1.2 (st k).1.1) (hp k) (dot_real (hf k).1 ((hf k).2.trans (st k).2.2.symm))
      (fun _ v => ys k -. v) (hnext k (st k))

end

/-- A uniform grid, with any rate, any inputs in any order, and targets that some setting of the weights predicts. -/
theorem C198_grid (ds : List (Equipartition ℝ)) (h : ∀ d ∈ ds, d.Lawful) (hds : ds ≠ []) (lr : ℝ) (hlr : 0 < lr) (w u : List ℝ)
    (hw : w.length = (ds.map Equipartition.nPartitions).prod) (hu : u.length = (ds.map Equipartition.nPartitions).prod)
    (fas : Nat → ScalarLFA (UniformGrid ℝ) (Adagrad ℝ) ℝ) (xs : Nat → List ℝ) (ys ps : Nat → ℝ) (hs : Stream fas xs ys ps)
    (h0 : fas 0 = LFA.mk (UniformGrid.new ds) w (Adagrad.new (ds.map Equipartition.nPartitions).prod lr))
    (hx : ∀ t, (xs t).length = ds.length) (o : Adagrad ℝ)
    (hy : ∀ t, ScalarLFA.evaluate (LFA.mk (UniformGrid.new ds) u o) (xs t) = .ok (.ok (ys t))) :
    Summable (fun t => (ys t - ps t) ^ 2) ∧ Tendsto (fun t => ys t - ps t) atTop (𝓝 0) := by
  choose k hp hk hf using fun t => grid_fits ds h hds (xs t) (length_ne_nil hds (hx t))
  simp only [real_one] at hp hf
  generalize (ds.map Equipartition.nPartitions).prod = n at *
  have hval : ∀ t i, value (Features.sparse ⟨n, [(k t, (1 : ℝ))]⟩) i = if i = k t then 1 else 0 := fun t i => by
    split
    · next e =>
      subst e
      exact value_of_stored (keysUnique_of_wf (hf t).1) (a := (1 : ℝ)) (by show (k t, (1 : ℝ)) ∈ _; exact List.mem_cons_self)
    · next e =>
      rw [value_of_not_stored, real_zero]
      intro a ha
      have : (i, a) ∈ [(k t, (1 : ℝ))] := ha
      rw [List.mem_singleton] at this
      exact e (Prod.ext_iff.1 this).1
  refine C198_table (UniformGrid.new ds) n lr hlr w hw fas xs ys ps hs h0 _ hp hf 1 (fun t i _ => ?_) zero_le_one
    (fun t i _ j _ hi hj => ?_) u fun t => ?_
  · rw [hval]
    split <;> norm_num
  · rw [hval] at hi hj
    by_cases e1 : i = k t
    · by_cases e2 : j = k t
      · rw [e1, e2]
      · exact absurd (if_neg e2) hj
    · exact absurd (if_neg e1) hi
  · have := (hy t).symm.trans (evaluate_eq (fa := LFA.mk (UniformGrid.new ds) u o) (hp t) (dot_real (hf t).1 ((hf t).2.trans hu.symm)))
    rw [Except.ok.inj (Except.ok.inj this), inner_eq, (hf t).2]

/-- A grid of two cells, visited alternately with targets `3` and `-2`, and a rate of `1000`. -/
theorem C198_example : ∃ (fas : Nat → ScalarLFA (UniformGrid ℝ) (Adagrad ℝ) ℝ) (xs : Nat → List ℝ) (ys ps : Nat → ℝ),
    Stream fas xs ys ps ∧ fas 0 = LFA.mk (UniformGrid.new [ofBounds 0 1 2]) [0, 0] (Adagrad.new 2 1000) ∧
    (∀ t, ys (2 * t) = 3 ∧ ys (2 * t + 1) = -2) ∧ Tendsto (fun t => ys t - ps t) atTop (𝓝 0) := by
  have hl : ∀ d ∈ [ofBounds 0 1 2], d.Lawful := fun d hd => by
    rw [List.mem_singleton] at hd
    subst hd
    exact ofBounds_lawful one_pos two_pos
  obtain ⟨x0, l0, p0⟩ := C34_surjective [ofBounds 0 1 2] hl (by simp) 0 (by simp [ofBounds])
  obtain ⟨x1, l1, p1⟩ := C34_surjective [ofBounds 0 1 2] hl (by simp) 1 (by simp [ofBounds])
  have hn : ([ofBounds 0 1 2].map Equipartition.nPartitions).prod = 2 := by simp [ofBounds]
  rw [hn, real_one] at p0 p1
  let xs : Nat → List ℝ := fun t => if t % 2 = 0 then x0 else x1
  let ys : Nat → ℝ := fun t => if t % 2 = 0 then 3 else -2
  let φs : Nat → Features ℝ := fun t => .sparse ⟨2, [(t % 2, 1)]⟩
  have hp : ∀ t, Basis.project (UniformGrid.new [ofBounds 0 1 2]) (xs t) = .ok (.ok (φs t)) := fun t => by
    rcases Nat.mod_two_eq_zero_or_one t with e | e
    · simp only [xs, φs, e, if_pos]; exact p0
    · simp only [xs, φs, e, one_ne_zero, if_false]; exact p1
  have hf : ∀ t, Fits 2 (φs t) := fun t => ⟨⟨by simp, by simpa using Nat.mod_lt t two_pos⟩, rfl⟩
  obtain ⟨fas, ps, hs, h0⟩ := C198_runs (UniformGrid.new [ofBounds 0 1 2]) 2 1000 [0, 0] rfl xs ys φs hp hf
  refine ⟨fas, xs, ys, ps, hs, h0, fun t => ⟨?_, ?_⟩, ?_⟩
  · show (if 2 * t % 2 = 0 then (3 : ℝ) else -2) = 3
    rw [if_pos (by omega)]
  · show (if (2 * t + 1) % 2 = 0 then (3 : ℝ) else -2) = -2
    rw [if_neg (by omega)]
  · refine (C198_grid [ofBounds 0 1 2] hl (by simp) 1000 (by norm_num) [0, 0] [3, -2] (by rw [hn]; rfl) (by rw [hn]; rfl) fas xs ys ps hs
      (by rw [hn]; exact h0) (fun t => ?_) (Adagrad.new 2 1000) fun t => ?_).2
    · simp only [xs]
      split
      · exact l0
      · exact l1
    · rw [evaluate_eq (fa := LFA.mk (UniformGrid.new [ofBounds 0 1 2]) [3, -2] (Adagrad.new 2 1000)) (hp t)
        (dot_real (hf t).1 (hf t).2)]
      congr 2
      rw [inner_eq]
      rcases Nat.mod_two_eq_zero_or_one t with e | e
      · show ∑ i ∈ Finset.range 2, value (φs t) i * entry [3, -2] i = ys t
        simp [φs, ys, e, Finset.sum_range_succ, value, entry]
      · show ∑ i ∈ Finset.range 2, value (φs t) i * entry [3, -2] i = ys t
        simp [φs, ys, e, Finset.sum_range_succ, value, entry]

end Lfa

import Verif.Proofs.Sweep
import Verif.Props.C69_C71
import Mathlib.Data.List.GetD

/-!
# C103–C104: cycling through a finite set of examples

Exact arithmetic. The examples repeat with period `N`; the targets are arbitrary.
-/

set_option linter.unusedSectionVars false

namespace Lfa

open Spec

/-- Weights as a point. -/
noncomputable def toPoint (n : Nat) (w : List ℝ) : EuclideanSpace ℝ (Fin n) :=
  WithLp.toLp 2 fun i => entry w i

/-- Features as a point. -/
noncomputable def featurePoint (n : Nat) (φ : Features ℝ) : EuclideanSpace ℝ (Fin n) :=
  WithLp.toLp 2 fun i => value φ i

theorem point_inner {n : Nat} {φ : Features ℝ} (h : dim φ = n) (w : List ℝ) :
    inner ℝ (featurePoint n φ) (toPoint n w) = Spec.inner φ w := by
  rw [inner_eq, h, PiLp.inner_apply, Finset.sum_range]
  exact Finset.sum_congr rfl fun i _ => mul_comm _ _

theorem point_normSq {n : Nat} {φ : Features ℝ} (h : dim φ = n) :
    ‖featurePoint n φ‖ ^ 2 = normSq φ := by
  rw [EuclideanSpace.norm_sq_eq, normSq, h, Finset.sum_range]
  refine Finset.sum_congr rfl fun i _ => ?_
  rw [Real.norm_eq_abs, sq_abs, sq]
  rfl

theorem point_distSq {n : Nat} (w v : List ℝ) : ‖toPoint n w - toPoint n v‖ ^ 2 = distSq n w v := by
  rw [EuclideanSpace.norm_sq_eq, distSq, Finset.sum_range]
  refine Finset.sum_congr rfl fun i _ => ?_
  rw [Real.norm_eq_abs, sq_abs]
  show (entry w i - entry v i) ^ 2 = (entry v i - entry w i) ^ 2
  ring

theorem entry_ofFn {n : Nat} (g : Fin n → ℝ) (i : Fin n) : entry (List.ofFn g) i = g i := by
  unfold entry
  rw [List.getD_eq_getElem _ _ (by simp)]
  simp

theorem toPoint_ofFn {n : Nat} (p : EuclideanSpace ℝ (Fin n)) : toPoint n (List.ofFn p.ofLp) = p := by
  ext i
  exact entry_ofFn _ i

theorem toPoint_injective {n : Nat} {w v : List ℝ} (hw : w.length = n) (hv : v.length = n)
    (h : toPoint n w = toPoint n v) : w = v := by
  refine ext_entry (hw.trans hv.symm) fun i hi => ?_
  exact congrFun (congrArg WithLp.ofLp h) ⟨i, hw ▸ hi⟩

section
variable {B I O : Type} [Space B] [Basis B I ℝ] [Optimiser O ℝ]

/-- How a stateless optimiser with step size `rate φ` trains. -/
def TrainsBy (b : B) (o : O) (n : Nat) (rate : Features ℝ → ℝ) (X : I → Prop) : Prop :=
  ∀ (w : List ℝ) (x : I) (φ : Features ℝ) (y : ℝ), X x → w.length = n →
    Basis.project b x = .ok (.ok φ) → Fits n φ → ∃ w',
    ScalarLFA.evaluate (LFA.mk b w o) x = .ok (.ok (Spec.inner φ w)) ∧
    ScalarLFA.updateWith (LFA.mk b w o) x (fun _ v => y -. v) = .ok (.ok (), LFA.mk b w' o) ∧
    w'.length = n ∧ ∀ i < n, entry w' i = entry w i + rate φ * (y - Spec.inner φ w) * value φ i

theorem trains_point {n : Nat} {rate : ℝ} {φ : Features ℝ} (hφ : dim φ = n) {y : ℝ} {w w' : List ℝ}
    (h : ∀ i < n, entry w' i = entry w i + rate * (y - Spec.inner φ w) * value φ i) :
    toPoint n w' = toPoint n w
      + (rate * (y - inner ℝ (featurePoint n φ) (toPoint n w))) • featurePoint n φ := by
  rw [point_inner hφ]
  ext i
  exact h i i.2

/-- The run of the weights as points. -/
theorem stream_point {b : B} {o : O} {n : Nat} {rate : Features ℝ → ℝ} {xs : Nat → I}
    (ht : TrainsBy b o n rate (fun x => ∃ k, xs k = x)) (φ : Nat → Features ℝ)
    (hφ : ∀ k, Basis.project b (xs k) = .ok (.ok (φ k)) ∧ Fits n (φ k)) {ys ps : Nat → ℝ}
    {fas : Nat → ScalarLFA B O ℝ} (hs : Stream fas xs ys ps) {w : List ℝ} (hw : w.length = n)
    (h0 : fas 0 = LFA.mk b w o) (k : Nat) :
    ∃ v, fas k = LFA.mk b v o ∧ v.length = n ∧ ps k = Spec.inner (φ k) v ∧
      toPoint n v = Sweep.aff (fun k => rate (φ k)) (fun k => featurePoint n (φ k)) ys (toPoint n w) k := by
  have key : ∃ v, fas k = LFA.mk b v o ∧ v.length = n ∧
      toPoint n v = Sweep.aff (fun k => rate (φ k)) (fun k => featurePoint n (φ k)) ys (toPoint n w) k := by
    induction k with
    | zero => exact ⟨w, h0, hw, rfl⟩
    | succ k ih =>
      obtain ⟨v, h1, h2, h3⟩ := ih
      obtain ⟨w', -, s2, s3, s4⟩ := ht v (xs k) (φ k) (ys k) ⟨k, rfl⟩ h2 (hφ k).1 (hφ k).2
      have hu := hs.updates k
      rw [h1] at hu
      have hu := hu.symm.trans s2
      simp only [Except.ok.injEq, Prod.mk.injEq, true_and] at hu
      refine ⟨w', hu, s3, ?_⟩
      rw [trains_point (hφ k).2.2 s4, h3]
      rfl
  obtain ⟨v, h1, h2, h3⟩ := key
  obtain ⟨w', s1, -⟩ := ht v (xs k) (φ k) (ys k) ⟨k, rfl⟩ h2 (hφ k).1 (hφ k).2
  have hp := hs.predicts k
  rw [h1] at hp
  have hp := hp.symm.trans s1
  injection hp with hp
  injection hp with hp
  exact ⟨v, h1, h2, hp, h3⟩

/-- Every run of points is a run of the approximator. -/
theorem point_stream {b : B} {o : O} {n : Nat} {rate : Features ℝ → ℝ} {xs : Nat → I}
    (ht : TrainsBy b o n rate (fun x => ∃ k, xs k = x)) (φ : Nat → Features ℝ)
    (hφ : ∀ k, Basis.project b (xs k) = .ok (.ok (φ k)) ∧ Fits n (φ k)) (ys : Nat → ℝ)
    (p : EuclideanSpace ℝ (Fin n)) :
    let q := Sweep.aff (fun k => rate (φ k)) (fun k => featurePoint n (φ k)) ys p
    Stream (fun k => (LFA.mk b (List.ofFn (q k).ofLp) o : ScalarLFA B O ℝ)) xs ys
      (fun k => inner ℝ (featurePoint n (φ k)) (q k)) := by
  intro q
  have step := fun k => ht (List.ofFn (q k).ofLp) (xs k) (φ k) (ys k) ⟨k, rfl⟩ (by simp)
    (hφ k).1 (hφ k).2
  constructor
  · intro k
    obtain ⟨w', s1, -⟩ := step k
    rw [s1, ← point_inner (hφ k).2.2, toPoint_ofFn]
  · intro k
    obtain ⟨w', -, s2, s3, s4⟩ := step k
    rw [s2]
    have : w' = List.ofFn (q (k + 1)).ofLp := by
      refine toPoint_injective (n := n) s3 (by simp) ?_
      rw [trains_point (hφ k).2.2 s4, toPoint_ofFn, toPoint_ofFn]
      rfl
    rw [this]

/-- Cyclic training, for any step size that is stable at all examples. -/
theorem cyclic_training {b : B} {o : O} {n : Nat} {rate : Features ℝ → ℝ} {xs : Nat → I} {N : Nat}
    (hN : 0 < N) (hxs : ∀ k, xs (k + N) = xs k)
    (ht : TrainsBy b o n rate (fun x => ∃ k, xs k = x))
    (hx : ∀ k, ∃ φ, Basis.project b (xs k) = .ok (.ok φ) ∧ Fits n φ ∧ 0 < rate φ ∧
      rate φ * normSq φ < 2) :
    ∃ r : ℝ, 0 ≤ r ∧ r < 1 ∧ ∀ ys : Nat → ℝ, (∀ k, ys (k + N) = ys k) →
      ∀ (fas : Nat → ScalarLFA B O ℝ) (ps : Nat → ℝ) (w : List ℝ), Stream fas xs ys ps →
      w.length = n → fas 0 = LFA.mk b w o →
      ∃ (cycle : Nat → ScalarLFA B O ℝ) (qs : Nat → ℝ), Stream cycle xs ys qs ∧
        (∀ k, cycle (k + N) = cycle k ∧ (cycle k).weights.length = n ∧
          cycle k = LFA.mk b (cycle k).weights o) ∧
        (∀ k, distSq n (fas k).weights (cycle k).weights
          ≤ r ^ (k / N) * distSq n w (cycle 0).weights) ∧
        (∀ i < n, ∀ φ : Nat → Features ℝ, (∀ k, Basis.project b (xs k) = .ok (.ok (φ k))) →
          ∑ k ∈ Finset.range N, rate (φ k) * (ys k - qs k) * value (φ k) i = 0) ∧
        (∀ v, (∀ k, Predicts b v (xs k) (ys k)) → (∀ k, cycle k = cycle 0 ∧ qs k = ys k) ∧
          distSq n w v = distSq n w (cycle 0).weights + distSq n (cycle 0).weights v) := by
  have hφx : ∀ x : I, ∃ φ : Features ℝ, ∀ k, xs k = x → Basis.project b x = .ok (.ok φ) ∧ Fits n φ ∧
      0 < rate φ ∧ rate φ * normSq φ < 2 := by
    intro x
    by_cases h : ∃ k, xs k = x
    · obtain ⟨k, rfl⟩ := h
      obtain ⟨φ, h⟩ := hx k
      exact ⟨φ, fun _ _ => h⟩
    · exact ⟨.dense [], fun k hk => absurd ⟨k, hk⟩ h⟩
  choose ψ hψ using hφx
  set φ : Nat → Features ℝ := fun k => ψ (xs k) with hφdef
  have hφ : ∀ k, Basis.project b (xs k) = .ok (.ok (φ k)) ∧ Fits n (φ k) := fun k =>
    ⟨(hψ _ k rfl).1, (hψ _ k rfl).2.1⟩
  have hst : Sweep.Stable (fun k => rate (φ k)) (fun k => featurePoint n (φ k)) := fun k => by
    rw [point_normSq (hφ k).2.2]
    exact (hψ _ k rfl).2.2
  have hper : ∀ k, φ (k + N) = φ k := fun k => by rw [hφdef]; simp only [hxs]
  obtain ⟨r, r0, r1, hr⟩ := Sweep.cyclic hst hN (N := N) (fun k => by simp only [hper])
    (fun k => by simp only [hper])
  refine ⟨r ^ 2, sq_nonneg r, pow_lt_one₀ r0 r1 two_ne_zero, fun ys hy fas ps w hs hw h0 => ?_⟩
  obtain ⟨v, hv1, hv2, hv3⟩ := hr ys hy (toPoint n w)
  refine ⟨_, _, point_stream ht φ hφ ys v, fun k => ⟨?_, by simp, rfl⟩, fun k => ?_, fun i hi χ hχ => ?_,
    fun s hsol => ?_⟩
  · simp only [hv1 k]
  · obtain ⟨u, e1, e2, -, e4⟩ := stream_point ht φ hφ hs hw h0 k
    rw [e1]
    show distSq n u (List.ofFn _) ≤ _ * distSq n w (List.ofFn _)
    rw [← point_distSq, ← point_distSq, toPoint_ofFn, toPoint_ofFn, e4, ← pow_mul, mul_comm 2,
      pow_mul, ← mul_pow]
    exact pow_le_pow_left₀ (norm_nonneg _) (hv2 k) 2
  · have hχφ : ∀ k, χ k = φ k := fun k => by
      have := (hχ k).symm.trans (hφ k).1
      injection this with this
      injection this
    have hfix := hv1 0
    rw [Nat.zero_add] at hfix
    have hb := congrFun (congrArg WithLp.ofLp (Sweep.balanced hfix)) ⟨i, hi⟩
    simp only [WithLp.ofLp_sum, Finset.sum_apply, WithLp.ofLp_smul, Pi.smul_apply, smul_eq_mul] at hb
    simp only [hχφ]
    exact hb
  · obtain ⟨h1, h2⟩ := hv3 (toPoint n s) (fun k => by
      rw [point_inner (hφ k).2.2]
      exact (predicts_inner (hsol k) (hφ k).1).symm)
    refine ⟨fun k => ⟨?_, ?_⟩, ?_⟩
    · simp only [(h1 k).1]
      rfl
    · show inner ℝ _ _ = _
      rw [(h1 k).1, (h1 k).2]
    · show distSq n w s = distSq n w (List.ofFn v.ofLp) + distSq n (List.ofFn v.ofLp) s
      rw [← point_distSq, ← point_distSq, ← point_distSq, toPoint_ofFn]
      exact h2

end

section
variable {B I : Type} [Space B] [Basis B I ℝ]

theorem sgd_trainsBy (b : B) (lr : ℝ) (n : Nat) (X : I → Prop) :
    TrainsBy (I := I) b (SGD.mk lr) n (fun _ => lr) X := by
  intro w x φ y _ hw hp hf
  subst hw
  obtain ⟨w', s1, s2, -, s4, s5⟩ := sgd_update (fa := LFA.mk b w (SGD.mk lr)) hp hf y
  exact ⟨w', s1, s2, s4, s5⟩

theorem isgd_trainsBy (b : B) (lr : ℝ) (n : Nat) (X : I → Prop) :
    TrainsBy (I := I) b (ISGD.mk lr) n (fun φ => lr / (1 + lr * normSq φ)) X := by
  intro w x φ y _ hw hp hf
  subst hw
  obtain ⟨w', s1, s2, -, s4, s5⟩ := isgd_update (fa := LFA.mk b w (ISGD.mk lr)) hp hf y
  exact ⟨w', s1, s2, s4, s5⟩

/-- Cycling through finitely many inputs is always possible. -/
theorem C103_stream_exists (b : B) (n : Nat) (lr : ℝ) (xs : Nat → I) (ys : Nat → ℝ) (w : List ℝ)
    (hw : w.length = n)
    (hx : ∀ k, ∃ φ, Basis.project b (xs k) = .ok (.ok φ) ∧ Fits n φ) :
    (∃ fas ps, Stream fas xs ys ps ∧ fas 0 = (LFA.mk b w (SGD.mk lr) : ScalarLFA B (SGD ℝ) ℝ)) ∧
    (∃ fas ps, Stream fas xs ys ps ∧ fas 0 = (LFA.mk b w (ISGD.mk lr) : ScalarLFA B (ISGD ℝ) ℝ)) := by
  choose φ hφ using hx
  have hl : List.ofFn (toPoint n w).ofLp = w :=
    toPoint_injective (n := n) (by simp) hw (toPoint_ofFn _)
  refine ⟨⟨_, _, point_stream (sgd_trainsBy b lr n _) φ hφ ys (toPoint n w), ?_⟩,
    ⟨_, _, point_stream (isgd_trainsBy b lr n _) φ hφ ys (toPoint n w), ?_⟩⟩
  · show LFA.mk b (List.ofFn (toPoint n w).ofLp) _ = _
    rw [hl]
  · show LFA.mk b (List.ofFn (toPoint n w).ofLp) _ = _
    rw [hl]

/-- SGD cycling through `N` examples with `lr ‖φ‖² < 2`, whatever the targets, approaches a training run
that repeats with period `N`. The distance shrinks by a factor `r < 1` per cycle that depends on the
inputs and the learning rate only. Along the repeating run the residuals are balanced: they are
orthogonal to every feature. If some weights achieve the targets, then the repeating run is one weight
vector, which achieves them and is the nearest such vector to the initial weights. -/
theorem C103_sgd_cycle (b : B) (n : Nat) (lr : ℝ) (hlr : 0 < lr) (N : Nat) (hN : 0 < N)
    (xs : Nat → I) (hxs : ∀ k, xs (k + N) = xs k)
    (hx : ∀ k, ∃ φ, Basis.project b (xs k) = .ok (.ok φ) ∧ Fits n φ ∧ lr * normSq φ < 2) :
    ∃ r : ℝ, 0 ≤ r ∧ r < 1 ∧ ∀ ys : Nat → ℝ, (∀ k, ys (k + N) = ys k) →
      ∀ (fas : Nat → ScalarLFA B (SGD ℝ) ℝ) (ps : Nat → ℝ) (w : List ℝ), Stream fas xs ys ps →
      w.length = n → fas 0 = LFA.mk b w (SGD.mk lr) →
      ∃ (cycle : Nat → ScalarLFA B (SGD ℝ) ℝ) (qs : Nat → ℝ), Stream cycle xs ys qs ∧
        (∀ k, cycle (k + N) = cycle k ∧ (cycle k).weights.length = n ∧
          cycle k = LFA.mk b (cycle k).weights (SGD.mk lr)) ∧
        (∀ k, distSq n (fas k).weights (cycle k).weights
          ≤ r ^ (k / N) * distSq n w (cycle 0).weights) ∧
        (∀ i < n, ∀ φ : Nat → Features ℝ, (∀ k, Basis.project b (xs k) = .ok (.ok (φ k))) →
          ∑ k ∈ Finset.range N, (ys k - qs k) * value (φ k) i = 0) ∧
        (∀ v, (∀ k, Predicts b v (xs k) (ys k)) → (∀ k, cycle k = cycle 0 ∧ qs k = ys k) ∧
          distSq n w v = distSq n w (cycle 0).weights + distSq n (cycle 0).weights v) := by
  obtain ⟨r, r0, r1, hr⟩ := cyclic_training hN hxs (sgd_trainsBy b lr n _) (fun k => by
    obtain ⟨φ, h1, h2, h3⟩ := hx k
    exact ⟨φ, h1, h2, hlr, h3⟩)
  refine ⟨r, r0, r1, fun ys hy fas ps w hs hw h0 => ?_⟩
  obtain ⟨cycle, qs, c1, c2, c3, c4, c5⟩ := hr ys hy fas ps w hs hw h0
  refine ⟨cycle, qs, c1, c2, c3, fun i hi φ hφ => ?_, c5⟩
  have := c4 i hi φ hφ
  simp only [mul_assoc] at this
  rw [← Finset.mul_sum] at this
  exact (mul_eq_zero.1 this).resolve_left hlr.ne'

/-- ISGD does the same for every learning rate and features of any size; its residuals balance with the
weights `1 / (1 + lr ‖φ‖²)`. -/
theorem C104_isgd_cycle (b : B) (n : Nat) (lr : ℝ) (hlr : 0 < lr) (N : Nat) (hN : 0 < N)
    (xs : Nat → I) (hxs : ∀ k, xs (k + N) = xs k)
    (hx : ∀ k, ∃ φ, Basis.project b (xs k) = .ok (.ok φ) ∧ Fits n φ) :
    ∃ r : ℝ, 0 ≤ r ∧ r < 1 ∧ ∀ ys : Nat → ℝ, (∀ k, ys (k + N) = ys k) →
      ∀ (fas : Nat → ScalarLFA B (ISGD ℝ) ℝ) (ps : Nat → ℝ) (w : List ℝ), Stream fas xs ys ps →
      w.length = n → fas 0 = LFA.mk b w (ISGD.mk lr) →
      ∃ (cycle : Nat → ScalarLFA B (ISGD ℝ) ℝ) (qs : Nat → ℝ), Stream cycle xs ys qs ∧
        (∀ k, cycle (k + N) = cycle k ∧ (cycle k).weights.length = n ∧
          cycle k = LFA.mk b (cycle k).weights (ISGD.mk lr)) ∧
        (∀ k, distSq n (fas k).weights (cycle k).weights
          ≤ r ^ (k / N) * distSq n w (cycle 0).weights) ∧
        (∀ i < n, ∀ φ : Nat → Features ℝ, (∀ k, Basis.project b (xs k) = .ok (.ok (φ k))) →
          ∑ k ∈ Finset.range N, (ys k - qs k) * value (φ k) i / (1 + lr * normSq (φ k)) = 0) ∧
        (∀ v, (∀ k, Predicts b v (xs k) (ys k)) → (∀ k, cycle k = cycle 0 ∧ qs k = ys k) ∧
          distSq n w v = distSq n w (cycle 0).weights + distSq n (cycle 0).weights v) := by
  obtain ⟨r, r0, r1, hr⟩ := cyclic_training hN hxs (isgd_trainsBy b lr n _) (fun k => by
    obtain ⟨φ, h1, h2⟩ := hx k
    have hn := normSq_nonneg φ
    have hd : 0 < 1 + lr * normSq φ := by positivity
    refine ⟨φ, h1, h2, div_pos hlr hd, ?_⟩
    rw [div_mul_eq_mul_div, div_lt_iff₀ hd]
    have := mul_nonneg hlr.le hn
    linarith)
  refine ⟨r, r0, r1, fun ys hy fas ps w hs hw h0 => ?_⟩
  obtain ⟨cycle, qs, c1, c2, c3, c4, c5⟩ := hr ys hy fas ps w hs hw h0
  refine ⟨cycle, qs, c1, c2, c3, fun i hi φ hφ => ?_, c5⟩
  have := c4 i hi φ hφ
  have e : ∀ k, lr / (1 + lr * normSq (φ k)) * (ys k - qs k) * value (φ k) i
      = lr * ((ys k - qs k) * value (φ k) i / (1 + lr * normSq (φ k))) := fun k => by ring
  simp only [e] at this
  rw [← Finset.mul_sum] at this
  exact (mul_eq_zero.1 this).resolve_left hlr.ne'

end

/-- The hypotheses of `C103_sgd_cycle` on the inputs: the features `(1, x)` at `x = 1, -1, 1, -1, …` with
`lr = 1/4`. -/
example (k : Nat) : (-1 : ℝ) ^ (k + 2) = (-1) ^ k ∧
    ∃ φ, Basis.project line ((-1 : ℝ) ^ k) = .ok (.ok φ) ∧ Fits 2 φ ∧ (1 / 4 : ℝ) * normSq φ < 2 := by
  refine ⟨by ring, _, (line_fits _).1, (line_fits _).2.1, ?_⟩
  rw [(line_fits _).2.2, ← pow_mul, mul_comm k, pow_mul]
  norm_num

end Lfa

import Verif.Proofs.AdagradErr
import Verif.Props.C90
import Verif.Props.C97_C98

/-!
# C171: accuracy of Adagrad in `f64`

`M` is any machine that rounds like `f64`; its library functions and orders of summation are free.
-/

set_option linter.unusedSectionVars false

namespace Lfa

open Spec Machine XReal

variable {M : Machine}

/-- One call, seen as a scaled step. -/
theorem fp_call {n : Nat} {e : Event (FP M)} {o o' : Adagrad (FP M)} {w w' : List (FP M)} (hf : e.Fits n)
    (hs : e.isStep = true) (h : History o w [e] o' w') :
    ∃ φ s, (∀ i, gradient i e = real (value φ i) * real s) ∧ Fits n φ ∧ Optimiser.stepScaled o w φ s = .ok (.ok (), o', w') := by
  cases h with
  | step h t =>
    cases t
    refine ⟨_, Scalar.one, fun i => ?_, hf, h⟩
    rw [is_real (val_one (M := M)), mul_one]
    rfl
  | stepScaled h t => cases t; exact ⟨_, _, fun i => rfl, hf, h⟩
  | reset t => cases hs

/-- What a finite accumulator and a finite weight say about the call before. -/
theorem adagrad_before (hM : M.rnd = binary64Format.rnd) {n : Nat} {lr : FP M} {os : Nat → Adagrad (FP M)}
    {ws : Nat → List (FP M)} {es : Nat → Event (FP M)} (hr : OptRun os ws es) (ho : os 0 = Adagrad.new n lr)
    (hw : (ws 0).length = n) (he : ∀ t, (es t).Fits n) (hs : ∀ t, (es t).isStep = true) (t : Nat) :
    ((os t).learningRate = lr ∧ (os t).accumulator.length = n ∧ (ws t).length = n) ∧
    ∀ i < n, ∃ g : FP M, (∀ γ, Is g γ → |γ - gradient i (es t)| ≤ roundoff * |gradient i (es t)| + tiny) ∧
      entry (os (t + 1)).accumulator i = (entry (os t).accumulator i +. g *. g) ∧
      entry (ws (t + 1)) i = (entry (ws t) i +. lr *. g /. (Scalar.sqrt (entry (os (t + 1)).accumulator i) +. EPS)) := by
  have call : ∀ t, ((os t).learningRate = lr ∧ (os t).accumulator.length = n ∧ (ws t).length = n) →
      ((os (t + 1)).learningRate = lr ∧ (os (t + 1)).accumulator.length = n ∧ (ws (t + 1)).length = n) ∧
      ∀ i < n, ∃ g : FP M, (∀ γ, Is g γ → |γ - gradient i (es t)| ≤ roundoff * |gradient i (es t)| + tiny) ∧
        entry (os (t + 1)).accumulator i = (entry (os t).accumulator i +. g *. g) ∧
        entry (ws (t + 1)) i = (entry (ws t) i +. lr *. g /. (Scalar.sqrt (entry (os (t + 1)).accumulator i) +. EPS)) := by
    rintro t ⟨h1, h2, h3⟩
    obtain ⟨φ, s, hg, hφ, h⟩ := fp_call (he t) (hs t) (hr t)
    obtain ⟨acc, w', a1, a2, a3, a4⟩ := adagrad_scaled hφ (os t) h2 s h3
    rw [h] at a1
    obtain ⟨b1, b2⟩ : os (t + 1) = { os t with accumulator := acc } ∧ ws (t + 1) = w' := by
      simp only [Except.ok.injEq, Prod.mk.injEq, true_and] at a1
      exact a1
    rw [b1, b2]
    refine ⟨⟨h1, a2, a3⟩, fun i hi => ⟨value φ i *. s, fun γ hγ => ?_, ?_, ?_⟩⟩
    · obtain ⟨x, y, hx, hy, hxy⟩ := mul_err hM hγ
      rwa [hg, is_real hx, is_real hy]
    · rw [(a4 i hi).1, powi_two]
    · rw [(a4 i hi).2, (a4 i hi).1, h1]
  have inv : ∀ t, (os t).learningRate = lr ∧ (os t).accumulator.length = n ∧ (ws t).length = n := by
    intro t
    induction t with
    | zero => rw [ho]; exact ⟨rfl, List.length_replicate, hw⟩
    | succ t ih => exact (call t ih).1
  exact ⟨inv t, (call t (inv t)).2⟩

theorem down {P : Nat → Prop} {T : Nat} (hT : P T) (h : ∀ t < T, P (t + 1) → P t) : ∀ t ≤ T, P t := by
  intro t ht
  obtain ⟨k, rfl⟩ := Nat.exists_eq_add_of_le ht
  clear ht
  induction k generalizing t with
  | zero => exact hT
  | succ k ih =>
    refine h t (by omega) (ih (t + 1) ?_ ?_)
    · rwa [show t + 1 + k = t + (k + 1) by omega]
    · intro s hs
      exact h s (by omega)

/-- Adagrad in `f64` against Adagrad in exact arithmetic, both fed the same calls. After `T ≤ 2^40` calls of `step` and
`step_scaled`, an accumulator that is finite is the exact sum of the squared gradients up to the factor `(2T + 10) 2^-53` and
underflow, and the weight, if it is finite, is the exact one up to
`2^-53 T (2 |w₀| + (5T + 75) |lr|) + T (8 |lr| + 6) 10^7 2^-1075`. The bound does not depend on the gradients. -/
theorem C171_adagrad (hM : M.rnd = binary64Format.rnd) (n : Nat) (lr : FP M) (l : ℝ) (hl : Is lr l)
    (os : Nat → Adagrad (FP M)) (ws : Nat → List (FP M)) (es : Nat → Event (FP M)) (hr : OptRun os ws es)
    (ho : os 0 = Adagrad.new n lr) (hw : (ws 0).length = n) (he : ∀ t, (es t).Fits n) (hs : ∀ t, (es t).isStep = true)
    (T : Nat) (hT : T ≤ 2 ^ 40) (i : Nat) (hi : i < n) (hacc : Finite (entry (os T).accumulator i))
    (hfin : Finite (entry (ws T) i)) :
    |real (entry (os T).accumulator i) - ∑ t ∈ Finset.range T, gradient i (es t) ^ 2| ≤
      (2 * T + 10) * roundoff * ∑ t ∈ Finset.range T, gradient i (es t) ^ 2 + 4 * T * tiny ∧
    |real (entry (ws T) i) - (real (entry (ws 0) i) + ∑ t ∈ Finset.range T,
        l * gradient i (es t) / (√(∑ s ∈ Finset.range (t + 1), gradient i (es s) ^ 2) + 1e-7))| ≤
      roundoff * T * (2 * |real (entry (ws 0) i)| + (5 * T + 75) * |l|) + T * (8 * |l| + 6) * 10 ^ 7 * tiny := by
  have u0 := roundoff_pos
  have τ0 := tiny_pos
  have hcall := fun t => (adagrad_before hM hr ho hw he hs t).2 i hi
  choose g hg hA hW using hcall
  -- everything before is finite
  have facc : ∀ t ≤ T, Finite (entry (os t).accumulator i) := down hacc fun t _ h => by
    obtain ⟨z, hz⟩ := h
    rw [hA] at hz
    obtain ⟨a, b, ha, -, -⟩ := add_err hM hz
    exact ⟨a, ha⟩
  have fw : ∀ t ≤ T, Finite (entry (ws t) i) := down hfin fun t _ h => by
    obtain ⟨z, hz⟩ := h
    rw [hW] at hz
    obtain ⟨a, b, ha, -, -⟩ := add_err hM hz
    exact ⟨a, ha⟩
  have is_of : ∀ {a : FP M}, Finite a → Is a (real a) := fun ⟨r, h⟩ => by rw [is_real h]; exact h
  let G : Nat → ℝ := fun t => gradient i (es t)
  let S : Nat → ℝ := fun t => ∑ s ∈ Finset.range t, G s ^ 2
  have hS : ∀ t, S (t + 1) = S t + G t ^ 2 := fun t => Finset.sum_range_succ _ _
  have S0 : ∀ t, 0 ≤ S t := fun t => Finset.sum_nonneg fun s _ => sq_nonneg _
  -- accumulators
  have hq : ∀ t < T, Finite (g t) ∧ |real (g t *. g t) - G t ^ 2| ≤ 5 * roundoff * G t ^ 2 + 2 * tiny ∧
      |real (entry (os (t + 1)).accumulator i) - (real (entry (os t).accumulator i) + real (g t *. g t))| ≤
        roundoff * |real (entry (os t).accumulator i) + real (g t *. g t)| := by
    intro t ht
    have h1 := is_of (facc (t + 1) ht)
    rw [hA] at h1
    obtain ⟨a, b, ha, hb, hab⟩ := add_err hM h1
    obtain ⟨x, y, hx, hy, hxy⟩ := mul_err hM hb
    cases is_fun hx hy
    refine ⟨⟨x, hx⟩, ?_, ?_⟩
    · rw [is_real hb]
      exact square_near u0 (by norm_num [roundoff]) τ0.le
        (le_trans (zpow_le_zpow_right₀ (by norm_num) (by norm_num) : tiny ≤ 2 ^ (-56 : ℤ)) (by norm_num [roundoff]))
        (hg t x hx) hxy
    · rw [is_real ha, is_real hb, hA]
      exact hab
  have hnear := accumulate_near (T := T) (s := fun t => real (entry (os t).accumulator i)) (q := fun t => real (g t *. g t))
    (S := S) (Q := fun t => G t ^ 2) u0.le (by positivity : 0 ≤ 5 * roundoff) (by positivity : 0 ≤ 2 * tiny)
    (by
      show real (entry (os 0).accumulator i) = 0
      rw [ho]
      show real (entry (List.replicate n Scalar.zero) i) = 0
      rw [entry_replicate, real_zero'])
    (Finset.sum_range_zero _) hS (fun t => sq_nonneg _) (fun t ht => (hq t ht).2.1) (fun t ht => (hq t ht).2.2)
  have hnn : ∀ t ≤ T, NonNeg (entry (os t).accumulator i) := by
    intro t
    induction t with
    | zero =>
      intro _
      rw [ho]
      show NonNeg (entry (List.replicate n Scalar.zero) i)
      rw [entry_replicate]
      show XReal.fin 0 ≤ (Scalar.zero : FP M).1
      rw [val_zero]
      exact fin_le_fin.2 le_rfl
    | succ t ih =>
      intro ht
      rw [hA, ← powi_two]
      exact (adagrad_acc (ih (by omega)) (hq t ht).1).1
  have hacc0 : ∀ t ≤ T, 0 ≤ real (entry (os t).accumulator i) := fun t ht => by
    have h1 : XReal.fin 0 ≤ (entry (os t).accumulator i).1 := hnn t ht
    have h2 : (entry (os t).accumulator i).1 = .fin (real (entry (os t).accumulator i)) := is_of (facc t ht)
    rw [h2] at h1
    exact fin_le_fin.1 h1
  -- weights
  let Q : Nat → ℝ := fun t => l * G t / (√(S (t + 1)) + 1e-7)
  have hQ : ∀ t, |Q t| ≤ |l| := fun t => by
    have h1 : |G t| ≤ √(S (t + 1)) := by
      rw [← Real.sqrt_sq_eq_abs]
      refine Real.sqrt_le_sqrt ?_
      rw [hS]
      linarith [S0 t]
    have h2 : 0 < √(S (t + 1)) + 1e-7 := by positivity
    show |l * G t / (√(S (t + 1)) + 1e-7)| ≤ |l|
    rw [abs_div, abs_of_pos h2, div_le_iff₀ h2, abs_mul]
    exact mul_le_mul_of_nonneg_left (by linarith) (abs_nonneg l)
  have hstep : ∀ t < T, ∃ q, |q - Q t| ≤ (4 * (t + 1) + 34) * roundoff * |Q t| + (4 * |l| + 3) * 10 ^ 7 * tiny ∧
      |real (entry (ws (t + 1)) i) - (real (entry (ws t) i) + q)| ≤ roundoff * |real (entry (ws t) i) + q| := by
    intro t ht
    have h1 := is_of (fw (t + 1) ht)
    rw [hW] at h1
    obtain ⟨a, q, ha, hb, hab⟩ := add_err hM h1
    refine ⟨q, ?_, ?_⟩
    · obtain ⟨x, hx⟩ := (hq t ht).1
      have := adagrad_increment hM (t := t + 1) (by omega) hl hx (hg t x hx) (is_of (facc (t + 1) ht)) (hacc0 (t + 1) ht)
        (S0 (t + 1)) (hnear (t + 1) ht).2 hb
      push_cast at this
      exact this
    · rw [is_real ha, hW]
      exact hab
  have hex : ∀ t, ∃ q, t < T → |q - Q t| ≤ (4 * (t + 1) + 34) * roundoff * |Q t| + (4 * |l| + 3) * 10 ^ 7 * tiny ∧
      |real (entry (ws (t + 1)) i) - (real (entry (ws t) i) + q)| ≤ roundoff * |real (entry (ws t) i) + q| := fun t => by
    by_cases ht : t < T
    · obtain ⟨q, h⟩ := hstep t ht
      exact ⟨q, fun _ => h⟩
    · exact ⟨0, fun h => absurd h ht⟩
  choose q hq1 using hex
  have hdrift := drift_near (T := T) (w := fun t => real (entry (ws t) i)) (q := q)
    (W := fun t => real (entry (ws 0) i) + ∑ s ∈ Finset.range t, Q s) (Q := Q) u0.le (abs_nonneg l) (by simp)
    (fun t => by simp only [Finset.sum_range_succ]; ring) hQ (fun t ht => (hq1 t ht).1) (fun t ht => (hq1 t ht).2) T le_rfl
  have hgrow := (growth hT).2
  have T0 : (0 : ℝ) ≤ T := Nat.cast_nonneg T
  constructor
  · refine (hnear T le_rfl).2.trans (add_le_add (mul_le_mul_of_nonneg_right ?_ (S0 T)) ?_)
    · have h1 : 1 + 5 * roundoff ≤ (1 + roundoff) ^ 5 := by
        have := one_add_mul_le_pow (by linarith : -2 ≤ roundoff) 5
        exact_mod_cast this
      have h2 : (1 + roundoff) ^ T * (1 + 5 * roundoff) ≤ (1 + roundoff) ^ (T + 5) := by
        rw [pow_add]
        exact mul_le_mul_of_nonneg_left h1 (by positivity)
      have h3 := growth_le (k := T + 5) (by
        have : (2 : ℕ) ^ 40 + 5 ≤ 2 ^ 52 := by norm_num
        omega)
      push_cast at h3
      linarith
    · have := mul_le_mul_of_nonneg_right (mul_le_mul_of_nonneg_left hgrow T0) (by positivity : 0 ≤ 2 * tiny)
      linarith
  · have h1 := hdrift.2
    simp only [Finset.sum_range_zero, add_zero] at h1
    refine h1.trans ?_
    have h2 : 0 ≤ roundoff * (T * |real (entry (ws 0) i)| + (5 / 2 * T ^ 2 + 37 * T) * |l|) + T * ((4 * |l| + 3) * 10 ^ 7 * tiny) := by
      positivity
    refine (mul_le_mul_of_nonneg_right hgrow h2).trans ?_
    have h3 : 0 ≤ roundoff * T * |l| := by positivity
    linarith

/-- The same against a run of the same optimiser in exact arithmetic. -/
theorem C171_exact_run (hM : M.rnd = binary64Format.rnd) (n : Nat) (lr : FP M) (l : ℝ) (hl : Is lr l)
    (os : Nat → Adagrad (FP M)) (ws : Nat → List (FP M)) (es : Nat → Event (FP M)) (hr : OptRun os ws es)
    (ho : os 0 = Adagrad.new n lr) (hw : (ws 0).length = n) (he : ∀ t, (es t).Fits n) (hs : ∀ t, (es t).isStep = true)
    (os' : Nat → Adagrad ℝ) (ws' : Nat → List ℝ) (es' : Nat → Event ℝ) (hr' : OptRun os' ws' es')
    (ho' : os' 0 = Adagrad.new n l) (hw' : (ws' 0).length = n) (he' : ∀ t, (es' t).Fits n)
    (hs' : ∀ t, (es' t).isStep = true) (T : Nat) (hT : T ≤ 2 ^ 40) (i : Nat) (hi : i < n)
    (h0 : entry (ws' 0) i = real (entry (ws 0) i)) (hg : ∀ t, (es' t).grad i = gradient i (es t))
    (hacc : Finite (entry (os T).accumulator i)) (hfin : Finite (entry (ws T) i)) :
    |real (entry (ws T) i) - entry (ws' T) i| ≤
      roundoff * T * (2 * |real (entry (ws 0) i)| + (5 * T + 75) * |l|) + T * (8 * |l| + 6) * 10 ^ 7 * tiny := by
  have key : ∀ T, entry (ws' T) i = real (entry (ws 0) i) + ∑ t ∈ Finset.range T,
      l * gradient i (es t) / (√(∑ s ∈ Finset.range (t + 1), gradient i (es s) ^ 2) + 1e-7) := by
    intro T
    induction T with
    | zero => rw [h0]; simp
    | succ T ih =>
      rw [((adagrad_run hr' ho' hw' he' hs' T).2 i hi).2, ih, Finset.sum_range_succ (fun t =>
        l * gradient i (es t) / (√(∑ s ∈ Finset.range (t + 1), gradient i (es s) ^ 2) + 1e-7)) T, add_assoc]
      simp only [hg]
  rw [key]
  exact (C171_adagrad hM n lr l hl os ws es hr ho hw he hs T hT i hi hacc hfin).2

/-- The hypotheses on finiteness are met for every `T` when the rate lies in `[-1, 1]`, the initial weights are finite and the
gradients have magnitude at most `2^484`. -/
theorem C171_finite (hM : M.rnd = binary64Format.rnd) (n : Nat) (lr : FP M) (hlr : InUnit lr)
    (os : Nat → Adagrad (FP M)) (ws : Nat → List (FP M)) (es : Nat → Event (FP M)) (hr : OptRun os ws es)
    (ho : os 0 = Adagrad.new n lr) (hw : (ws 0).length = n) (hw0 : ∀ a ∈ ws 0, Finite a) (he : ∀ t, (es t).Fits n)
    (hb : ∀ t, match es t with
      | .step φ => ∀ i a, Stored φ i a → Bounded (2 ^ 484) a
      | .stepScaled φ s => Finite s ∧ ∀ i a, Stored φ i a → Bounded (2 ^ 484) (a *. s)
      | .reset => False) (T : Nat) (i : Nat) (hi : i < n) :
    Finite (entry (os T).accumulator i) ∧ Finite (entry (ws T) i) := by
  have call : ∀ t, ∃ φ s, Fits n φ ∧ Optimiser.stepScaled (os t) (ws t) φ s = .ok (.ok (), os (t + 1), ws (t + 1)) ∧
      Finite s ∧ ∀ i a, Stored φ i a → Bounded (2 ^ 484) (a *. s) := by
    intro t
    have h1 := hr t
    have h2 := he t
    have h3 := hb t
    cases hev : es t with
    | step φ =>
      rw [hev] at h1 h2 h3
      cases h1 with
      | step h h' =>
        cases h'
        exact ⟨φ, Scalar.one, h2, h, ⟨1, val_one⟩, fun i a ha => by rw [mul_one_scalar]; exact h3 i a ha⟩
    | stepScaled φ s =>
      rw [hev] at h1 h2 h3
      cases h1 with
      | stepScaled h h' => cases h'; exact ⟨φ, s, h2, h, h3.1, h3.2⟩
    | reset => rw [hev] at h3; exact h3.elim
  have zero_le : (0 : ℝ) ≤ 2 ^ 484 := by positivity
  suffices key : ∀ T, (InUnit (os T).learningRate ∧ (os T).accumulator.length = n ∧ (ws T).length = n) ∧ ∀ i < n,
      NonNeg (entry (os T).accumulator i) ∧ Finite (entry (os T).accumulator i) ∧ Finite (entry (ws T) i) from
    ((key T).2 i hi).2
  intro T
  induction T with
  | zero =>
    rw [ho]
    refine ⟨⟨hlr, List.length_replicate, hw⟩, fun i hi => ⟨?_, ?_, ?_⟩⟩
    · show NonNeg (entry (List.replicate n Scalar.zero) i)
      rw [entry_replicate]; exact nonNeg_zero
    · show Finite (entry (List.replicate n Scalar.zero) i)
      rw [entry_replicate]; exact finite_zero
    · rw [← getElem_entry (hw ▸ hi)]
      exact hw0 _ (List.getElem_mem _)
  | succ T ih =>
    obtain ⟨⟨h1, h2, h3⟩, h4⟩ := ih
    obtain ⟨φ, s, hφ, hst, hs, hg⟩ := call T
    obtain ⟨acc, w', a1, a2, a3, a4⟩ := C90_step hM (os T) h1 h2 (fun i hi => (h4 i hi).1) (ws T) h3
      (fun i hi => (h4 i hi).2.2) φ hφ s hs (fun i a ha => (hg i a ha).imp fun _ h => h.1)
    obtain ⟨acc', w'', b1, b2, b3, b4⟩ := adagrad_scaled hφ (os T) h2 s h3
    rw [a1] at b1
    rw [hst] at a1
    obtain ⟨c1, c2⟩ : os (T + 1) = { os T with accumulator := acc } ∧ ws (T + 1) = w' := by
      simp only [Except.ok.injEq, Prod.mk.injEq, true_and] at a1
      exact a1
    obtain ⟨d1, d2⟩ : acc = acc' ∧ w' = w'' := by
      simp only [Except.ok.injEq, Prod.mk.injEq, true_and, Adagrad.mk.injEq] at b1
      exact b1
    rw [c1, c2]
    refine ⟨⟨h1, a2, a3⟩, fun i hi => ⟨(a4 i hi).1, ?_, (a4 i hi).2.2.1⟩⟩
    show Finite (entry acc i)
    rw [d1, (b4 i hi).1, powi_two]
    refine finite_add hM (h4 i hi).2.1 ?_
    -- the square is at most `2^968`
    have hv : Bounded (2 ^ 484) (value φ i *. s) := by
      by_cases ha : Active φ i
      · obtain ⟨a, ha⟩ := ha
        rw [value_of_stored (keysUnique_of_wf hφ.1) ha]
        exact hg i a ha
      · have : value φ i = Scalar.zero := by
          cases φ with
          | dense da =>
            show entry da i = _
            refine entry_of_ge ?_
            by_contra hc
            exact ha (active_dense (not_le.1 hc))
          | sparse sa =>
            rw [value_sparse, (not_active_sparse_iff hφ.1.1 i).1 ha]; rfl
        obtain ⟨r, hr⟩ := hs
        refine ⟨0, ?_, by rw [abs_zero]; exact zero_le⟩
        show (value φ i *. s).1 = _
        rw [this, val_mul, val_zero, hr]
        show M.rnd (0 * r) = _
        rw [zero_mul, rnd_zero]
    obtain ⟨x, hx, hx1⟩ := hv
    have hsq : (value φ i *. s *. (value φ i *. s)).1 = M.rnd (x * x) := by rw [val_mul, hx]; rfl
    have e : (2 : ℝ) ^ 484 * 2 ^ 484 = 2 ^ 968 := by rw [← pow_add]
    obtain ⟨q, hq, hq1⟩ := bounded_rnd hsq (c := 2 ^ 968) (by
      rw [abs_mul, ← e]
      exact mul_le_mul hx1 hx1 (abs_nonneg x) zero_le) (rnd_two_pow hM (by norm_num))
    refine ⟨q, hq, hq1.trans ?_⟩
    rw [← zpow_natCast]
    exact zpow_le_zpow_right₀ (by norm_num) (by norm_num)

/-- A run that meets all hypotheses: one weight, rate one, gradients 1 and -1 in turn, any number of calls up to `2^40`. -/
example (hM : M.rnd = binary64Format.rnd) (T : Nat) (hT : T ≤ 2 ^ 40) :
    ∃ (os : Nat → Adagrad (FP M)) (ws : Nat → List (FP M)),
      os 0 = Adagrad.new 1 Scalar.one ∧ ws 0 = [Scalar.zero] ∧
      |real (entry (ws T) 0) - (real (entry (ws 0) 0) + ∑ t ∈ Finset.range T,
          1 * (if t % 2 = 0 then 1 else -1 : ℝ) / (√(t + 1 : ℕ) + 1e-7))| ≤
        roundoff * T * (2 * |real (entry (ws 0) 0)| + (5 * T + 75) * |1|) + T * (8 * |1| + 6) * 10 ^ 7 * tiny := by
  have hneg : (Scalar.neg (Scalar.one : FP M)).1 = .fin (-1) := by rw [val_neg, val_one]; rfl
  let es : Nat → Event (FP M) := fun t => .stepScaled (.dense [Scalar.one]) (if t % 2 = 0 then Scalar.one else Scalar.neg Scalar.one)
  have he : ∀ t, (es t).Fits 1 := fun t => ⟨trivial, rfl⟩
  have hsc : ∀ t : Nat, Is (if t % 2 = 0 then Scalar.one else Scalar.neg Scalar.one : FP M) (if t % 2 = 0 then 1 else -1) := by
    intro t
    by_cases h : t % 2 = 0
    · rw [if_pos h, if_pos h]; exact val_one
    · rw [if_neg h, if_neg h]; exact hneg
  obtain ⟨os, ws, ho, hw, hr⟩ := optRun_exists (O := Adagrad (FP M)) (n := 1) es he (o := Adagrad.new 1 Scalar.one)
    (List.length_replicate ..) (w := [Scalar.zero]) rfl
  have hg : ∀ t, gradient 0 (es t) = (if t % 2 = 0 then 1 else -1 : ℝ) := fun t => by
    show real (Scalar.one : FP M) * real (if t % 2 = 0 then _ else _) = _
    rw [is_real (val_one (M := M)), is_real (hsc t), one_mul]
  have hfin := C171_finite hM 1 Scalar.one ⟨1, val_one, by simp⟩ os ws es hr ho (by rw [hw]; rfl)
    (fun a ha => by rw [hw] at ha; rw [List.mem_singleton.1 ha]; exact finite_zero) he (fun t => by
      refine ⟨⟨_, hsc t⟩, fun i a h => ?_⟩
      have ha : a = Scalar.one := by
        have h : [(Scalar.one : FP M)][i]? = some a := h
        rcases i with _ | i
        · injection h with h; exact h.symm
        · simp at h
      subst ha
      refine ⟨if t % 2 = 0 then 1 else -1, ?_, ?_⟩
      · show (_ *. _ : FP M).1 = _
        rw [val_mul, val_one, hsc t]
        show M.rnd (1 * _) = _
        rw [one_mul]
        exact (if t % 2 = 0 then Scalar.one else Scalar.neg Scalar.one : FP M).2 _ (hsc t)
      have : (1 : ℝ) ≤ 2 ^ 484 := one_le_pow₀ (by norm_num)
      split_ifs <;> simpa using this) T 0 (by norm_num)
  refine ⟨os, ws, ho, hw, ?_⟩
  have := (C171_adagrad hM 1 Scalar.one 1 val_one os ws es hr ho (by rw [hw]; rfl) he (fun t => rfl) T hT 0 (by norm_num)
    hfin.1 hfin.2).2
  simp only [hg] at this
  have hone : ∀ t : Nat, ∑ s ∈ Finset.range (t + 1), (if s % 2 = 0 then 1 else -1 : ℝ) ^ 2 = ((t + 1 : ℕ) : ℝ) := fun t => by
    rw [Finset.sum_congr rfl (g := fun _ => (1 : ℝ)) (fun s _ => by split_ifs <;> norm_num)]
    simp
  simp only [hone] at this
  exact this

end Lfa

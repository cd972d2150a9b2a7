import Verif.Proofs.AdamErr
import Verif.Props.C172
import Verif.Spec.AdamStep

/-!
# C173: accuracy of Adam and AdaMax in `f64`

`M` is any machine that rounds like `f64`; its library functions and orders of summation are free.
-/

set_option linter.unusedSectionVars false

namespace Lfa

open Spec Machine XReal

variable {M : Machine}

/-- One call, seen as a scaled step, with the activity of the features. -/
theorem fp_call_active {O : Type} [Optimiser O (FP M)]
    (hd : ∀ (o : O) w φ, Optimiser.step o w φ = Optimiser.stepScaled o w φ Scalar.one)
    {n : Nat} {e : Event (FP M)} {o o' : O} {w w' : List (FP M)} (hf : e.Fits n)
    (hs : e.isStep = true) (h : History o w [e] o' w') :
    ∃ φ s, (∀ i, gradient i e = real (value φ i) * real s) ∧ (∀ i, e.ActiveAt i ↔ Active φ i) ∧ Fits n φ ∧
      Optimiser.stepScaled o w φ s = .ok (.ok (), o', w') := by
  cases h with
  | step h t =>
    cases t
    rw [hd] at h
    refine ⟨_, Scalar.one, fun i => ?_, fun i => Iff.rfl, hf, h⟩
    rw [is_real (val_one (M := M)), mul_one]
    rfl
  | stepScaled h t => cases t; exact ⟨_, _, fun i => rfl, fun i => Iff.rfl, hf, h⟩
  | reset t => cases hs

/-- A rounded gradient. -/
theorem gradient_near (hM : M.rnd = binary64Format.rnd) (φ : Features (FP M)) (s : FP M) (i : Nat) {y : ℝ} (hy : Is (value φ i *. s) y) :
    |y - real (value φ i) * real s| ≤ roundoff * |real (value φ i) * real s| + tiny := by
  obtain ⟨a, b, ha, hb, hab⟩ := mul_err hM hy
  rwa [is_real ha, is_real hb]

/-- What enters the first average of Adam and AdaMax. -/
theorem first_input (hM : M.rnd = binary64Format.rnd) {b g : FP M} {β G : ℝ} (hb : Is b β) (β0 : 0 ≤ β) (β1 : β ≤ 1)
    (hg : ∀ y, Is g y → |y - G| ≤ roundoff * |G| + tiny) {y : ℝ} (hy : Is ((Scalar.ofNat 1 -. b) *. g) y) :
    |y - (1 - β) * G| ≤ 4 * roundoff * |(1 - β) * G| + 3 * tiny := by
  obtain ⟨a, f, ha, hf, haf⟩ := mul_err hM hy
  obtain ⟨o, b', ho, hb', hob⟩ := sub_err hM ha
  cases is_fun ho val_ofNat_one
  cases is_fun hb' hb
  rw [abs_of_nonneg (by linarith : 0 ≤ 1 - β)] at hob
  exact first_near roundoff_pos.le (by norm_num [roundoff]) tiny_pos.le (by linarith) (by linarith) hob (hg f hf) haf

/-- What enters the second average of Adam. -/
theorem second_input (hM : M.rnd = binary64Format.rnd) {b g : FP M} {β G : ℝ} (hb : Is b β) (β0 : 0 ≤ β) (β1 : β ≤ 1 - 2 ^ (-40 : ℤ))
    (hg : ∀ y, Is g y → |y - G| ≤ roundoff * |G| + tiny) {z : ℝ} (hz : Is ((Scalar.ofNat 1 -. b) *. g *. g) z) :
    |z - (1 - β) * G ^ 2| ≤ 8 * roundoff * |(1 - β) * G ^ 2| + 2 * tiny := by
  have h0 : (0 : ℝ) < 2 ^ (-40 : ℤ) := by positivity
  obtain ⟨y, f, hy, hf, hyf⟩ := mul_err hM hz
  have h1 := first_input hM hb β0 (by linarith) hg hy
  have hA : 0 < 1 - β := by linarith
  rw [abs_of_nonneg (by positivity : 0 ≤ (1 - β) * G ^ 2)]
  refine second_near roundoff_pos (by norm_num [roundoff]) tiny_pos.le hA (by linarith) ?_ (hg f hf) h1 hyf
  have h2 : (2 : ℝ) ^ (-40 : ℤ) ≤ 1 - β := by linarith
  have h3 := mul_le_mul_of_nonneg_left h2 roundoff_pos.le
  have h4 : tiny ≤ (2 : ℝ) ^ (-200 : ℤ) := zpow_le_zpow_right₀ (by norm_num) (by norm_num)
  refine h4.trans (le_trans ?_ (mul_le_mul_of_nonneg_left h3 (by norm_num)))
  norm_num [roundoff]

/-- What one call of Adam does to parameter `i`. -/
structure AdamCall (b₁ b₂ lr : FP M) (n : Nat) (i : Nat) (e : Event (FP M)) (o o' : Adam (FP M)) (w w' : List (FP M)) (g : FP M) : Prop where
  near : ∀ y, Is g y → |y - gradient i e| ≤ roundoff * |gradient i e| + tiny
  active : e.ActiveAt i →
    (entry o'.expAvg i = (b₁ *. entry o.expAvg i +. (Scalar.ofNat 1 -. b₁) *. g) ∨
      entry o'.expAvg i = (entry o.expAvg i *. b₁ +. (Scalar.ofNat 1 -. b₁) *. g)) ∧
    (entry o'.expAvgSq i = (b₂ *. entry o.expAvgSq i +. (Scalar.ofNat 1 -. b₂) *. g *. g) ∨
      entry o'.expAvgSq i = (entry o.expAvgSq i *. b₂ +. (Scalar.ofNat 1 -. b₂) *. g *. g)) ∧
    entry w' i = (entry w i +. lr *. (entry o'.expAvg i /. (Scalar.ofNat 1 -. o'.beta1Prod)) /.
      (Scalar.sqrt (entry o'.expAvgSq i /. (Scalar.ofNat 1 -. o'.beta2Prod)) +. EPS))
  inactive : ¬ e.ActiveAt i → gradient i e = 0 ∧ entry o'.expAvg i = (entry o.expAvg i *. b₁) ∧
    entry o'.expAvgSq i = (entry o.expAvgSq i *. b₂) ∧ entry w' i = entry w i

theorem adam_calls (hM : M.rnd = binary64Format.rnd) {n : Nat} {b₁ b₂ lr : FP M} {os : Nat → Adam (FP M)} {ws : Nat → List (FP M)}
    {es : Nat → Event (FP M)} (hr : OptRun os ws es) (ho : os 0 = Adam.new n lr b₁ b₂) (hw : (ws 0).length = n)
    (he : ∀ t, (es t).Fits n) (hs : ∀ t, (es t).isStep = true) {i : Nat} (hi : i < n) :
    (∀ t, (os (t + 1)).beta1Prod = ((os t).beta1Prod *. b₁)) ∧ (∀ t, (os (t + 1)).beta2Prod = ((os t).beta2Prod *. b₂)) ∧
      ∀ t, ∃ g, AdamCall b₁ b₂ lr n i (es t) (os t) (os (t + 1)) (ws t) (ws (t + 1)) g := by
  have call : ∀ t, ((os t).beta1 = b₁ ∧ (os t).beta2 = b₂ ∧ (os t).learningRate = lr ∧ (os t).expAvg.length = n ∧
        (os t).expAvgSq.length = n ∧ (ws t).length = n) →
      ((os (t + 1)).beta1 = b₁ ∧ (os (t + 1)).beta2 = b₂ ∧ (os (t + 1)).learningRate = lr ∧ (os (t + 1)).expAvg.length = n ∧
        (os (t + 1)).expAvgSq.length = n ∧ (ws (t + 1)).length = n) ∧
      (os (t + 1)).beta1Prod = ((os t).beta1Prod *. b₁) ∧ (os (t + 1)).beta2Prod = ((os t).beta2Prod *. b₂) ∧
      ∃ g, AdamCall b₁ b₂ lr n i (es t) (os t) (os (t + 1)) (ws t) (ws (t + 1)) g := by
    rintro t ⟨h1, h2, h3, h4, h5, h6⟩
    obtain ⟨φ, s, hg, hact, hφ, h⟩ := fp_call_active (fun _ _ _ => rfl) (he t) (hs t) (hr t)
    obtain ⟨m, v, w', a1, a2, a3, a4, a5⟩ := adam_scaled hφ (os t) h4 h5 s h6
    rw [h] at a1
    obtain ⟨c1, c2⟩ : os (t + 1) = { adamTick (os t) with expAvg := m, expAvgSq := v } ∧ ws (t + 1) = w' := by
      simp only [Except.ok.injEq, Prod.mk.injEq, true_and] at a1
      exact a1
    rw [c1, c2]
    refine ⟨⟨h1, h2, h3, a2, a3, a4⟩, by rw [← h1]; rfl, by rw [← h2]; rfl, value φ i *. s, ?_, ?_, ?_⟩
    · intro y hy
      rw [hg]
      exact gradient_near hM φ s i hy
    · intro ha
      obtain ⟨d1, d2, d3⟩ := (a5 i hi).1 ((hact i).1 ha)
      refine ⟨?_, ?_, ?_⟩
      · show entry m i = _ ∨ entry m i = _
        rw [d1, ← h1]
        cases hd : φ.isDense
        · exact .inr (by simp [adamM])
        · exact .inl (by simp [adamM])
      · show entry v i = _ ∨ entry v i = _
        rw [d2, ← h2]
        cases hd : φ.isDense
        · exact .inr (by simp [adamV])
        · exact .inl (by simp [adamV])
      · rw [d3, ← h3]; rfl
    · intro ha
      have ha' : ¬ Active φ i := fun hc => ha ((hact i).2 hc)
      obtain ⟨d1, d2, d3⟩ := (a5 i hi).2 ha'
      refine ⟨?_, ?_, ?_, d3⟩
      · rw [hg, value_inactive hφ ha', real_zero', zero_mul]
      · rw [← h1]; exact d1
      · rw [← h2]; exact d2
  have inv : ∀ t, (os t).beta1 = b₁ ∧ (os t).beta2 = b₂ ∧ (os t).learningRate = lr ∧ (os t).expAvg.length = n ∧
        (os t).expAvgSq.length = n ∧ (ws t).length = n := by
    intro t
    induction t with
    | zero => rw [ho]; exact ⟨rfl, rfl, rfl, List.length_replicate, List.length_replicate, hw⟩
    | succ t ih => exact (call t ih).1
  exact ⟨fun t => (call t (inv t)).2.1, fun t => (call t (inv t)).2.2.1, fun t => (call t (inv t)).2.2.2⟩

open Classical in
/-- Sums of steps over a run: the increments are near the exact ones, up to the fraction `c` of their bounds `a` and `η`. -/
theorem run_near {T : ℕ} {act : ℕ → Prop} {c η E : ℝ} {w W₀ : ℝ} {ws Q a : ℕ → ℝ} (c0 : 0 ≤ c) (η0 : 0 ≤ η) (h0 : ws 0 = W₀) (hw : ws T = w)
    (hQ : ∀ t, |Q t| ≤ a t)
    (hact : ∀ t < T, act t → ∃ z, |z - Q t| ≤ c * a t + η ∧ |ws (t + 1) - (ws t + z)| ≤ roundoff * |ws t + z|)
    (hin : ∀ t < T, ¬ act t → ws (t + 1) = ws t) (hT : T ≤ 2 ^ 40) (hE : 2 * (T * roundoff + c) = E) (hE1 : E ≤ 1) :
    |w - (W₀ + ∑ t ∈ Finset.range T, if act t then Q t else 0)| ≤
      E * (|W₀| + ∑ t ∈ Finset.range T, if act t then a t else 0) + 2 * T * η := by
  have u0 := roundoff_pos
  have hex : ∀ t, ∃ z, t < T → |z - (if act t then Q t else 0)| ≤ c * (if act t then a t else 0) + η ∧
      |ws (t + 1) - (ws t + z)| ≤ roundoff * |ws t + z| := by
    intro t
    by_cases ht : t < T
    · by_cases ha : act t
      · obtain ⟨z, hz⟩ := hact t ht ha
        exact ⟨z, fun _ => by rw [if_pos ha, if_pos ha]; exact hz⟩
      · refine ⟨0, fun _ => ?_⟩
        rw [if_neg ha, if_neg ha, hin t ht ha]
        simp only [sub_self, abs_zero, mul_zero, zero_add, add_zero]
        exact ⟨η0, by positivity⟩
    · exact ⟨0, fun h => absurd h ht⟩
  choose z hz using hex
  have hQ' : ∀ t, |if act t then Q t else 0| ≤ (if act t then a t else 0) := fun t => by
    split_ifs
    · exact hQ t
    · simp
  have hsum := sums_near (T := T) (κ := roundoff) (c := c) (η := η) (w := ws) (q := z) (b := fun t => |z t|)
    (W := fun t => W₀ + ∑ s ∈ Finset.range t, if act s then Q s else 0) (Q := fun t => if act t then Q t else 0)
    (a := fun t => if act t then a t else 0) u0.le c0 η0 (by simpa using h0) (fun t => by simp only [Finset.sum_range_succ]; ring) hQ'
    (fun t ht => (hz t ht).1)
    (fun t ht => by
      have h1 := (hz t ht).1
      have h2 := hQ' t
      have h3 := abs_add_le (z t - (if act t then Q t else 0)) (if act t then Q t else 0)
      rw [sub_add_cancel] at h3
      linarith)
    (fun t ht => (hz t ht).2.trans (mul_le_mul_of_nonneg_left (abs_add_le _ _) u0.le)) T le_rfl
  have h1 := hsum.2
  simp only [Finset.sum_range_zero, add_zero] at h1
  rw [hw] at h1
  refine h1.trans (add_le_add (mul_le_mul_of_nonneg_right ?_ ?_) ?_)
  · have k1 : (1 + roundoff) ^ T ≤ Real.exp (T * roundoff) := by
      rw [Real.exp_nat_mul]
      exact pow_le_pow_left₀ (by linarith) (by linarith [Real.add_one_le_exp roundoff]) _
    have k2 := mul_le_mul k1 (show 1 + c ≤ Real.exp c by linarith [Real.add_one_le_exp c]) (by linarith) (Real.exp_pos _).le
    rw [← Real.exp_add] at k2
    have k3 := exp_le_small (x := T * roundoff + c) (by positivity) (by linarith)
    linarith
  · refine add_nonneg (abs_nonneg _) (Finset.sum_nonneg fun t _ => ?_)
    exact (abs_nonneg _).trans (hQ' t)
  · have := (growth hT).2
    rw [mul_comm 2 (T : ℝ)]
    exact mul_le_mul_of_nonneg_right (mul_le_mul_of_nonneg_left this (by positivity)) η0

theorem is_of_finite {a : FP M} : Finite a → Is a (real a) := fun ⟨r, h⟩ => by rw [is_real h]; exact h

/-- A non-negative average stays non-negative. -/
theorem average_nonneg (hM : M.rnd = binary64Format.rnd) {b : FP M} {β : ℝ} (hb : Is b β) (β0 : 0 ≤ β) {v v' g : FP M}
    (h : v' = (b *. v +. g) ∨ v' = (v *. b +. g)) {x y : ℝ} (hx : Is v x) (x0 : 0 ≤ x) (hg : ∀ z, Is g z → 0 ≤ z) (hy : Is v' y) : 0 ≤ y := by
  have key : ∀ {c : FP M}, c.1 = M.rnd (x * β) → Is (c +. g) y → 0 ≤ y := by
    intro c hc hy
    obtain ⟨p, q, hp, hq, -⟩ := add_err hM hy
    have h1 := rnd_nonneg (M := M) (mul_nonneg x0 β0)
    rw [← hc, hp] at h1
    have h2 : 0 ≤ p + q := add_nonneg h1 (hg q hq)
    have h3 := rnd_nonneg (M := M) h2
    have e : (c +. g).1 = M.rnd (p + q : ℝ) := by rw [val_add, hp, hq]; rfl
    rw [← e, hy] at h3
    exact h3
  rcases h with h | h <;> rw [h] at hy
  · exact key (by rw [val_mul, hb, hx, mul_comm x β]; rfl) hy
  · exact key (by rw [val_mul, hb, hx]; rfl) hy

theorem decayed_nonneg {b : FP M} {β : ℝ} (hb : Is b β) (β0 : 0 ≤ β) {v : FP M} {x y : ℝ} (hx : Is v x) (x0 : 0 ≤ x)
    (hy : Is (v *. b) y) : 0 ≤ y := by
  have h1 := rnd_nonneg (M := M) (mul_nonneg x0 β0)
  have e : (v *. b).1 = M.rnd (x * β : ℝ) := by rw [val_mul, hb, hx]; rfl
  rw [← e, hy] at h1
  exact h1

/-- The first average over a run of Adam or AdaMax. -/
theorem first_run (hM : M.rnd = binary64Format.rnd) {b : FP M} {β : ℝ} (hb : Is b β) (β0 : 0 ≤ β) (β1 : β ≤ 1) {v g : ℕ → FP M}
    {G : ℕ → ℝ} {T : ℕ} (h0 : v 0 = Scalar.zero) (hg : ∀ t y, Is (g t) y → |y - G t| ≤ roundoff * |G t| + tiny)
    (hv : ∀ t, v (t + 1) = (b *. v t +. (Scalar.ofNat 1 -. b) *. g t) ∨ (G t = 0 ∧ v (t + 1) = v t *. b) ∨
      v (t + 1) = (v t *. b +. (Scalar.ofNat 1 -. b) *. g t)) (hfin : Finite (v T)) :
    (∀ t ≤ T, Finite (v t)) ∧ ∀ t ≤ T, |real (v t) - discounted β (fun s => (1 - β) * G s) t| ≤
      ((1 + roundoff) ^ (2 * t) * (1 + 4 * roundoff) - 1) * discounted β (fun s => (1 - β) * |G s|) t +
        t * (1 + roundoff) ^ (2 * t) * (tiny + 3 * tiny) := by
  have u0 := roundoff_pos
  have τ0 := tiny_pos
  have hf : ∀ t ≤ T, Finite (v t) := finite_down hfin fun t _ ⟨z, hz⟩ => by
    rcases hv t with h | ⟨-, h⟩ | h <;> rw [h] at hz
    · obtain ⟨x, -, hx, -, -⟩ := add_err hM hz
      obtain ⟨-, a, -, ha, -⟩ := mul_err hM hx
      exact ⟨a, ha⟩
    · obtain ⟨a, -, ha, -, -⟩ := mul_err hM hz
      exact ⟨a, ha⟩
    · obtain ⟨x, -, hx, -, -⟩ := add_err hM hz
      obtain ⟨a, -, ha, -, -⟩ := mul_err hM hx
      exact ⟨a, ha⟩
  refine ⟨hf, fun t ht => ?_⟩
  have := average_run hM hb β0 β1 (v := v) (g := fun t => (Scalar.ofNat 1 -. b) *. g t) (G := fun s => (1 - β) * G s)
    (c := 4 * roundoff) (η := 3 * tiny) (by linarith) (by linarith) (T := T) h0
    (fun t _ y hy => first_input hM hb β0 β1 (hg t) hy)
    (fun t _ => by
      rcases hv t with h | ⟨hG, h⟩ | h
      · exact .inl h
      · exact .inr (.inl ⟨by rw [hG, mul_zero], h⟩)
      · exact .inr (.inr h)) hf t ht
  simpa only [abs_mul, abs_of_nonneg (by linarith : 0 ≤ 1 - β)] using this

/-- The second average over a run of Adam. -/
theorem second_run (hM : M.rnd = binary64Format.rnd) {b : FP M} {β : ℝ} (hb : Is b β) (β0 : 0 ≤ β) (β1 : β ≤ 1 - 2 ^ (-40 : ℤ))
    {v g : ℕ → FP M} {G : ℕ → ℝ} {T : ℕ} (h0 : v 0 = Scalar.zero) (hg : ∀ t y, Is (g t) y → |y - G t| ≤ roundoff * |G t| + tiny)
    (hv : ∀ t, v (t + 1) = (b *. v t +. (Scalar.ofNat 1 -. b) *. g t *. g t) ∨ (G t = 0 ∧ v (t + 1) = v t *. b) ∨
      v (t + 1) = (v t *. b +. (Scalar.ofNat 1 -. b) *. g t *. g t)) (hf : ∀ t ≤ T, Finite (v t)) :
    ∀ t ≤ T, 0 ≤ real (v t) ∧ |real (v t) - discounted β (fun s => (1 - β) * G s ^ 2) t| ≤
      ((1 + roundoff) ^ (2 * t) * (1 + 8 * roundoff) - 1) * discounted β (fun s => (1 - β) * G s ^ 2) t +
        t * (1 + roundoff) ^ (2 * t) * (tiny + 2 * tiny) := by
  have u0 := roundoff_pos
  have τ0 := tiny_pos
  have p0 : (0 : ℝ) < 2 ^ (-40 : ℤ) := by positivity
  have hsq : ∀ t z, Is ((Scalar.ofNat 1 -. b) *. g t *. g t) z → 0 ≤ z := fun t z hz => by
    obtain ⟨y, f, hy, hf, -⟩ := mul_err hM hz
    obtain ⟨c, f', hc, -, -⟩ := mul_err hM hy
    obtain ⟨c', hc', c0, -⟩ := complement hM hb β0 (by linarith)
    cases is_fun hc hc'
    exact square_nonneg hc c0 hf hz
  have hnn : ∀ t ≤ T, 0 ≤ real (v t) := by
    intro t
    induction t with
    | zero => intro _; rw [h0, real_zero']
    | succ t ih =>
      intro ht
      have hx := is_of_finite (hf t (by omega))
      have hy := is_of_finite (hf (t + 1) ht)
      have x0 := ih (by omega)
      rcases hv t with h | ⟨-, h⟩ | h
      · exact average_nonneg hM hb β0 (.inl h) hx x0 (hsq t) hy
      · rw [h] at hy ⊢
        exact decayed_nonneg hb β0 hx x0 hy
      · exact average_nonneg hM hb β0 (.inr h) hx x0 (hsq t) hy
  intro t ht
  refine ⟨hnn t ht, ?_⟩
  have := average_run hM hb β0 (by linarith) (v := v) (g := fun t => (Scalar.ofNat 1 -. b) *. g t *. g t)
    (G := fun s => (1 - β) * G s ^ 2) (c := 8 * roundoff) (η := 2 * tiny) (by linarith) (by linarith) (T := T) h0
    (fun t _ y hy => second_input hM hb β0 β1 (hg t) hy)
    (fun t _ => by
      rcases hv t with h | ⟨hG, h⟩ | h
      · exact .inl h
      · exact .inr (.inl ⟨by rw [hG]; ring, h⟩)
      · exact .inr (.inr h)) hf t ht
  simpa only [abs_of_nonneg (mul_nonneg (by linarith : 0 ≤ 1 - β) (sq_nonneg _))] using this

theorem adamStep_abs {β₁ β₂ : ℝ} (h10 : 0 ≤ β₁) (h11 : β₁ < 1) (l : ℝ) (g : Nat → ℝ) (t : Nat) :
    |adamStep l β₁ β₂ g t| ≤ adamStep |l| β₁ β₂ (fun s => |g s|) t := by
  unfold adamStep
  have hD : 0 < 1 - β₁ ^ (t + 2) := sub_pos.2 (pow_lt_one₀ h10 h11 (by omega))
  simp only [sq_abs]
  rw [abs_div, abs_mul, abs_div, abs_of_pos hD,
    abs_of_nonneg (by positivity : 0 ≤ √(discounted β₂ (fun s => (1 - β₂) * g s ^ 2) (t + 1) / (1 - β₂ ^ (t + 2))) + 1e-7)]
  have h := discounted_abs h10 (fun s => (1 - β₁) * g s) (t + 1)
  simp only [abs_mul, abs_of_pos (sub_pos.2 h11)] at h
  gcongr

open Classical in
/-- Adam in `f64` against Adam in exact arithmetic, both fed the same calls. Let the decay rates be at most `1 - 2^-40` and let there be
at most `2^40` calls of `step` and `step_scaled`. If the weight and the first average end finite and the second average stays below `2^980`,
the weight is its start plus the exact steps of the calls that hold the weight's feature, up to the fraction
`(42 T + 24 / (1 - β₁) + 96 / (1 - β₂) + 324) u` of the magnitudes that the exact run adds up; underflow adds a multiple of `2^-1075`. -/
theorem C173_adam (hM : M.rnd = binary64Format.rnd) (n : Nat) (lr b₁ b₂ : FP M) (l β₁ β₂ : ℝ) (hl : Is lr l) (hb₁ : Is b₁ β₁)
    (hb₂ : Is b₂ β₂) (h10 : 0 ≤ β₁) (h11 : β₁ ≤ 1 - 2 ^ (-40 : ℤ)) (h20 : 0 ≤ β₂) (h21 : β₂ ≤ 1 - 2 ^ (-40 : ℤ))
    (os : Nat → Adam (FP M)) (ws : Nat → List (FP M)) (es : Nat → Event (FP M)) (hr : OptRun os ws es)
    (ho : os 0 = Adam.new n lr b₁ b₂) (hw : (ws 0).length = n) (he : ∀ t, (es t).Fits n) (hs : ∀ t, (es t).isStep = true)
    (T : Nat) (hT : T ≤ 2 ^ 40) (i : Nat) (hi : i < n) (hfm : Finite (entry (os T).expAvg i))
    (hfv : ∀ t ≤ T, Bounded (2 ^ 980) (entry (os t).expAvgSq i)) (hfin : Finite (entry (ws T) i)) :
    |real (entry (ws T) i) - (real (entry (ws 0) i) +
        ∑ t ∈ Finset.range T, if (es t).ActiveAt i then adamStep l β₁ β₂ (fun s => gradient i (es s)) t else 0)| ≤
      (42 * T + 24 / (1 - β₁) + 96 / (1 - β₂) + 324) * roundoff * (|real (entry (ws 0) i)| +
        ∑ t ∈ Finset.range T, if (es t).ActiveAt i then adamStep |l| β₁ β₂ (fun s => |gradient i (es s)|) t else 0) +
      2 * T * ((68 * T * |l| / (1 - β₁) + 3) * 10 ^ 7 * tiny) := by
  have u0 := roundoff_pos
  have τ0 := tiny_pos
  have p0 : (0 : ℝ) < 2 ^ (-40 : ℤ) := by positivity
  obtain ⟨hp₁, hp₂, call⟩ := adam_calls hM hr ho hw he hs hi
  choose g hg using call
  have hm := first_run hM hb₁ h10 (by linarith) (v := fun t => entry (os t).expAvg i) (g := g) (G := fun t => gradient i (es t)) (T := T)
    (by rw [ho]; exact entry_replicate n i) (fun t => (hg t).near)
    (fun t => by
      by_cases ha : (es t).ActiveAt i
      · exact ((hg t).active ha).1.imp id .inr
      · exact .inr (.inl ⟨((hg t).inactive ha).1, ((hg t).inactive ha).2.1⟩)) hfm
  have hv := second_run hM hb₂ h20 h21 (v := fun t => entry (os t).expAvgSq i) (g := g) (G := fun t => gradient i (es t)) (T := T)
    (by rw [ho]; exact entry_replicate n i) (fun t => (hg t).near)
    (fun t => by
      by_cases ha : (es t).ActiveAt i
      · exact ((hg t).active ha).2.1.imp id .inr
      · exact .inr (.inl ⟨((hg t).inactive ha).1, ((hg t).inactive ha).2.2.1⟩)) (fun t ht => (hfv t ht).imp fun _ h => h.1)
  have fw : ∀ t ≤ T, Finite (entry (ws t) i) := finite_down hfin fun t _ ⟨z, hz⟩ => by
    by_cases ha : (es t).ActiveAt i
    · rw [((hg t).active ha).2.2] at hz
      obtain ⟨a, -, ha, -, -⟩ := add_err hM hz
      exact ⟨a, ha⟩
    · rw [((hg t).inactive ha).2.2.2] at hz
      exact ⟨z, hz⟩
  have b1 : 0 < 1 - β₁ := by linarith
  have b2 : 0 < 1 - β₂ := by linarith
  refine run_near (T := T) (c := (20 * T + 12 * (1 / (1 - β₁)) + 48 * (1 / (1 - β₂)) + 162) * roundoff)
    (η := (68 * T * |l| / (1 - β₁) + 3) * 10 ^ 7 * tiny) (ws := fun t => real (entry (ws t) i)) (by positivity) (by positivity) rfl rfl
    (adamStep_abs h10 (by linarith) l _) ?_ ?_ hT (by ring) ?_
  · intro t ht ha
    have hz := is_of_finite (fw (t + 1) ht)
    have e := ((hg t).active ha).2.2
    rw [e] at hz
    obtain ⟨w, z, hw', hz', hwz⟩ := add_err hM hz
    refine ⟨z, ?_, ?_⟩
    · obtain ⟨d1, c1, hc1, hcc1⟩ := correction_run hM hb₁ h10 h11 (p := fun t => (os t).beta1Prod) (by rw [ho]; rfl) hp₁ (t := t) (by omega)
      obtain ⟨d2, c2, hc2, hcc2⟩ := correction_run hM hb₂ h20 h21 (p := fun t => (os t).beta2Prod) (by rw [ho]; rfl) hp₂ (t := t) (by omega)
      have k1 := hm.2 (t + 1) ht
      have k2 := hv (t + 1) ht
      have hX := discounted_abs h10 (fun s => (1 - β₁) * gradient i (es s)) (t + 1)
      simp only [abs_mul, abs_of_pos b1] at hX
      have hY : 0 ≤ discounted β₂ (fun s => (1 - β₂) * gradient i (es s) ^ 2) (t + 1) :=
        Finset.sum_nonneg fun j _ => by positivity
      have := adam_increment hM hT ht h10 h11 h20 h21 hl (is_of_finite (hm.1 (t + 1) ht)) hX k1
        (is_of_finite ((hfv (t + 1) ht).imp fun _ h => h.1)) (hfv (t + 1) ht) k2.1 hY k2.2 hc1 d1 hcc1 hc2 d2 hcc2 hz'
      unfold adamStep
      simp only [sq_abs]
      rw [show 68 * (T : ℝ) * |l| / (1 - β₁) = 68 * T * |l| * (1 / (1 - β₁)) by ring]
      exact this
    · have e2 : real (entry (ws (t + 1)) i) = real (entry (ws t) i +. lr *. (entry (os (t + 1)).expAvg i /. (Scalar.ofNat 1 -. (os (t + 1)).beta1Prod)) /.
        (Scalar.sqrt (entry (os (t + 1)).expAvgSq i /. (Scalar.ofNat 1 -. (os (t + 1)).beta2Prod)) +. EPS)) := by rw [← e]
      simp only [is_real hw']
      rw [e2, ← e]
      rwa [← e] at hwz
  · intro t ht ha
    simp only [((hg t).inactive ha).2.2.2]
  · have h1 := (recip_beta h10 h11 le_rfl).2.2.2.2.2
    have h2 := (recip_beta h20 h21 le_rfl).2.2.2.2.2
    have h3 := length_roundoff' hT
    have u1 : roundoff ≤ 1e-12 := by norm_num [roundoff]
    have e : (42 * (T : ℝ) + 24 / (1 - β₁) + 96 / (1 - β₂) + 324) * roundoff = 42 * (T * roundoff) + 24 * (1 / (1 - β₁) * roundoff) +
      96 * (1 / (1 - β₂) * roundoff) + 324 * roundoff := by ring
    rw [e]
    linarith

/-! ## AdaMax -/

/-- The rounded crest over a run. -/
theorem crest_run (hM : M.rnd = binary64Format.rnd) {b : FP M} {β : ℝ} (hb : Is b β) (β0 : 0 ≤ β) (β1 : β ≤ 1) {v g : ℕ → FP M}
    {G : ℕ → ℝ} {T : ℕ} (h0 : v 0 = Scalar.zero) (hg : ∀ t y, Is (g t) y → |y - G t| ≤ roundoff * |G t| + tiny)
    (hv : ∀ t < T, (Finite (g t) ∧ (v (t + 1) = Scalar.max (b *. v t) (Scalar.abs (g t)) ∨
      v (t + 1) = Scalar.max (v t *. b) (Scalar.abs (g t)))) ∨ (G t = 0 ∧ v (t + 1) = v t *. b)) :
    ∀ t ≤ T, 0 ≤ crest β G t ∧ ∃ x, Is (v t) x ∧ 0 ≤ x ∧
      |x - crest β G t| ≤ ((1 + roundoff) ^ t - 1) * crest β G t + t * (1 + roundoff) ^ t * tiny := by
  have u0 := roundoff_pos
  have τ0 := tiny_pos
  intro t
  induction t with
  | zero =>
    intro _
    refine ⟨le_rfl, 0, by rw [h0]; exact val_zero, le_rfl, ?_⟩
    simp [crest]
  | succ t ih =>
    intro ht
    obtain ⟨P0, x, hx, x0, hxe⟩ := ih (by omega)
    have q1 : 1 ≤ (1 + roundoff) ^ t := one_le_pow₀ (by linarith)
    have hP : 0 ≤ crest β G (t + 1) := le_max_of_le_right (abs_nonneg _)
    refine ⟨hP, ?_⟩
    -- the decayed crest
    have hval : (v t *. b).1 = M.rnd (x * β : ℝ) := by rw [val_mul, hb, hx]; rfl
    have k1 := rnd_nonneg (M := M) (mul_nonneg x0 β0)
    have k2 := M.rnd_mono (show x * β ≤ x from mul_le_of_le_one_right x0 β1)
    rw [(v t).2 x hx] at k2
    obtain ⟨y, hy, y0, -⟩ := fin_of_between k1 k2
    have hy' : Is (v t *. b) y := hval.trans hy
    obtain ⟨x', b', hx', hb', hxb⟩ := mul_err hM hy'
    cases is_fun hx hx'
    cases is_fun hb hb'
    have hye : |y - β * crest β G t| ≤ ((1 + roundoff) ^ (t + 1) - 1) * (β * crest β G t) +
        (t + 1 : ℕ) * (1 + roundoff) ^ (t + 1) * tiny := by
      rw [abs_of_nonneg (mul_nonneg x0 β0)] at hxb
      have a1 : |x * β - β * crest β G t| ≤ β * (((1 + roundoff) ^ t - 1) * crest β G t + t * (1 + roundoff) ^ t * tiny) := by
        rw [mul_comm x β, ← mul_sub, abs_mul, abs_of_nonneg β0]
        exact mul_le_mul_of_nonneg_left hxe β0
      have a2 := abs_sub_le y (x * β) (β * crest β G t)
      have a3 := (abs_le.1 a1).2
      have a4 : roundoff * (x * β) ≤ roundoff * (β * crest β G t + β * (((1 + roundoff) ^ t - 1) * crest β G t + t * (1 + roundoff) ^ t * tiny)) :=
        mul_le_mul_of_nonneg_left (by linarith) u0.le
      have a5 : β * ((t : ℝ) * (1 + roundoff) ^ t * tiny) ≤ t * (1 + roundoff) ^ t * tiny := mul_le_of_le_one_left (by positivity) β1
      have a6 := mul_le_mul_of_nonneg_left a5 u0.le
      have a7 : tiny ≤ (1 + roundoff) ^ t * (1 + roundoff) * tiny := by
        have : 1 ≤ (1 + roundoff) ^ t * (1 + roundoff) := by nlinarith
        nlinarith
      rw [pow_succ]
      push_cast
      generalize (1 + roundoff) ^ t = q at *
      nlinarith
    have hβP : 0 ≤ β * crest β G t := mul_nonneg β0 P0
    have grow : 0 ≤ (1 + roundoff) ^ (t + 1) - 1 := sub_nonneg.2 (one_le_pow₀ (by linarith))
    rcases hv t ht with ⟨⟨γ, hγ⟩, h⟩ | ⟨hG, h⟩
    · have h' : v (t + 1) = Scalar.max (v t *. b) (Scalar.abs (g t)) := by
        rcases h with h | h
        · rw [h, mul_comm_fp b]
        · exact h
      have e : (v (t + 1)).1 = .fin (max y |γ|) := by
        rw [h', val_max, show (v t *. b).1 = .fin y from hy', val_abs, show (g t).1 = .fin γ from hγ]
        exact xmax_fin ..
      refine ⟨_, e, le_max_of_le_left y0, ?_⟩
      have c1 := hg t γ hγ
      have c2 : |(|γ| - |G t|)| ≤ roundoff * |G t| + tiny := (abs_abs_sub_abs_le _ _).trans c1
      have c3 : ∀ {a A : ℝ}, 0 ≤ A → A ≤ crest β G (t + 1) → |a - A| ≤ ((1 + roundoff) ^ (t + 1) - 1) * A + (t + 1 : ℕ) * (1 + roundoff) ^ (t + 1) * tiny →
          |a - A| ≤ ((1 + roundoff) ^ (t + 1) - 1) * crest β G (t + 1) + (t + 1 : ℕ) * (1 + roundoff) ^ (t + 1) * tiny := fun _ hA h =>
        h.trans (add_le_add_left (mul_le_mul_of_nonneg_left hA grow) _)
      refine (abs_max_sub_max_le_max _ _ _ _).trans (max_le (c3 hβP (le_max_left _ _) hye) (c3 (abs_nonneg _) (le_max_right _ _) (c2.trans (add_le_add ?_ ?_))))
      · refine mul_le_mul_of_nonneg_right ?_ (abs_nonneg _)
        rw [pow_succ]
        nlinarith
      · have : 1 ≤ ((t + 1 : ℕ) : ℝ) * (1 + roundoff) ^ (t + 1) := by
          have c4 : (1 : ℝ) ≤ ((t + 1 : ℕ) : ℝ) := by push_cast; linarith [Nat.cast_nonneg (α := ℝ) t]
          have c5 : 1 ≤ (1 + roundoff) ^ (t + 1) := by linarith
          nlinarith
        nlinarith
    · refine ⟨y, by rw [h]; exact hy', y0, ?_⟩
      have : crest β G (t + 1) = β * crest β G t := by
        show max _ |G t| = _
        rw [hG, abs_zero, max_eq_left hβP]
      rw [this]
      exact hye

/-- One step of AdaMax. -/
theorem adamax_increment (hM : M.rnd = binary64Format.rnd) {T t : ℕ} (hT : T ≤ 2 ^ 40) (ht : t < T) {β₁ : ℝ} (h10 : 0 ≤ β₁)
    (h11 : β₁ ≤ 1 - 2 ^ (-40 : ℤ)) {lr m v c₁ : FP M} {l x X A y Y C₁ D₁ z : ℝ} (hl : Is lr l) (hm : Is m x) (hX : |X| ≤ A)
    (hx : |x - X| ≤ ((1 + roundoff) ^ (2 * (t + 1)) * (1 + 4 * roundoff) - 1) * A +
      (t + 1 : ℕ) * (1 + roundoff) ^ (2 * (t + 1)) * (tiny + 3 * tiny))
    (hv : Is v y) (y0 : 0 ≤ y) (Y0 : 0 ≤ Y)
    (hy : |y - Y| ≤ ((1 + roundoff) ^ (t + 1) - 1) * Y + (t + 1 : ℕ) * (1 + roundoff) ^ (t + 1) * tiny)
    (hc₁ : Is c₁ C₁) (hD₁ : 1 - β₁ ≤ D₁) (hC₁ : |C₁ - D₁| ≤ (3 / (1 - β₁) + 3) * roundoff * D₁)
    (hz : Is (lr *. (m /. c₁) /. (v +. EPS)) z) :
    |z - l * (X / D₁) / (Y + 1e-7)| ≤
      (12 * T + 12 * (1 / (1 - β₁)) + 42) * roundoff * (|l| * (A / D₁) / (Y + 1e-7)) +
        (68 * T * |l| * (1 / (1 - β₁)) + 3) * 10 ^ 7 * tiny := by
  have u0 := roundoff_pos
  have u1 : roundoff ≤ 1e-12 := by norm_num [roundoff]
  have τ0 := tiny_pos
  have A0 : 0 ≤ A := (abs_nonneg _).trans hX
  have hTu := length_roundoff' hT
  have T1 : (1 : ℝ) ≤ T := by exact_mod_cast (by omega : 1 ≤ T)
  have T0 : 0 ≤ (T : ℝ) * roundoff := by positivity
  obtain ⟨g1, g2, g3⟩ := run_growth hT ht
  obtain ⟨a1, a2, a3, a4, a5, a6⟩ := recip_beta h10 h11 hD₁
  rw [show 3 / (1 - β₁) = 3 * (1 / (1 - β₁)) by ring] at hC₁
  generalize 1 / (1 - β₁) = k₁ at *
  -- the divisor
  have tT : ((t + 1 : ℕ) : ℝ) ≤ T := by exact_mod_cast ht
  obtain ⟨q1, q2⟩ := growth (k := t + 1) (by omega)
  have hR : |y - Y| ≤ 2 * T * roundoff * Y + 2 ^ 41 * tiny := by
    refine hy.trans (add_le_add (mul_le_mul_of_nonneg_right ?_ Y0) (mul_le_mul_of_nonneg_right ?_ τ0.le))
    · have := mul_le_mul_of_nonneg_right tT u0.le
      linarith
    · have h1 : (T : ℝ) ≤ 2 ^ 40 := by exact_mod_cast hT
      have := mul_le_mul (tT.trans h1) q2 (by positivity) (by positivity)
      linarith
  have small : (2 : ℝ) ^ (-83 : ℤ) ≤ roundoff * 1e-9 := by norm_num [roundoff]
  have τ1 : tiny ≤ roundoff * 1e-9 := le_trans (zpow_le_zpow_right₀ (by norm_num) (by norm_num)) small
  have σ1 : 2 ^ 41 * tiny ≤ roundoff * 1e-9 := by
    refine le_trans ?_ small
    unfold tiny
    rw [← zpow_natCast, ← zpow_add₀ (by norm_num)]
    exact zpow_le_zpow_right₀ (by norm_num) (by norm_num)
  obtain ⟨e, he, he1⟩ := eps_err hM
  have he2 : |e| ≤ 1 := by
    have := abs_le.1 he1
    rw [abs_le]
    constructor <;> linarith
  obtain ⟨d, hd⟩ := finite_add hM ⟨y, hv⟩ ⟨e, he, he2.trans (one_le_zpow₀ (by norm_num) (by norm_num))⟩
  obtain ⟨y', e', hy', he', hd1⟩ := add_err hM hd
  cases is_fun hv hy'
  cases is_fun he he'
  have hdiv := divisor_near (R' := y) u0 u1 τ1 σ1 (by positivity : 0 ≤ 2 * T * roundoff) (by linarith) Y0 hR
    (by rw [sub_self, abs_zero]; positivity) he1 hd1
  have s1 := run_underflow hT ht (η := tiny + 3 * tiny) (by positivity)
  have s10 : 0 ≤ ((t + 1 : ℕ) : ℝ) * (1 + roundoff) ^ (2 * (t + 1)) * (tiny + 3 * tiny) := by positivity
  generalize ((t + 1 : ℕ) : ℝ) * (1 + roundoff) ^ (2 * (t + 1)) * (tiny + 3 * tiny) = σ₁ at *
  generalize (1 + roundoff) ^ (2 * (t + 1)) = p at *
  have ku1 : 0 ≤ k₁ * roundoff := by positivity
  have e8 : ∀ n : ℝ, 0 ≤ n → p * (1 + n * roundoff) ≤ Real.exp (2 * T * roundoff + n * roundoff) := fun n hn => by
    rw [Real.exp_add]
    exact mul_le_mul g3 (by linarith [Real.add_one_le_exp (n * roundoff)]) (by positivity) (Real.exp_pos _).le
  have δ₁0 : 0 ≤ (3 * k₁ + 3) * roundoff := by positivity
  have δ₁1 : (3 * k₁ + 3) * roundoff ≤ 1 / 4 := by linarith
  have n4 : 1 ≤ p * (1 + 4 * roundoff) := by nlinarith
  have hD : 1e-7 ≤ Y + 1e-7 := by linarith
  have hD0 : 0 < Y + 1e-7 := lt_of_lt_of_le (by norm_num) hD
  have d0 : 0 ≤ 2 * T * roundoff + 4 * roundoff := by positivity
  have d1 : 2 * T * roundoff + 4 * roundoff ≤ 1 / 4 := by linarith
  have hstep := bias_step hM hl hm hc₁ hd n4 s10 hX hx δ₁0 (by linarith) a3 hC₁ d0 (by linarith) hD0 hdiv hz
  refine hstep.trans (add_le_add (mul_le_mul_of_nonneg_right ?_ ?_) ?_)
  · have := step_growth (δ₁ := (3 * k₁ + 3) * roundoff) (E₂ := 2 * T * roundoff + 4 * roundoff) u0.le
      (e8 4 (by norm_num)) (by linarith) δ₁0 (by positivity) d0 (by linarith)
    linarith
  · have : 0 ≤ A / D₁ := by positivity
    positivity
  · exact step_underflow u0.le (by linarith) τ0.le (abs_nonneg l) s10 a4 a3 hD δ₁0 δ₁1 d1 T1 a5 (s1.trans (by linarith))

/-- What one call of AdaMax does to parameter `i`. -/
structure AdaMaxCall (b₁ b₂ lr : FP M) (n : Nat) (i : Nat) (e : Event (FP M)) (o o' : AdaMax (FP M)) (w w' : List (FP M)) (g : FP M) : Prop where
  near : ∀ y, Is g y → |y - gradient i e| ≤ roundoff * |gradient i e| + tiny
  active : e.ActiveAt i →
    (entry o'.expAvg i = (b₁ *. entry o.expAvg i +. (Scalar.ofNat 1 -. b₁) *. g) ∨
      entry o'.expAvg i = (entry o.expAvg i *. b₁ +. (Scalar.ofNat 1 -. b₁) *. g)) ∧
    (entry o'.expInf i = Scalar.max (b₂ *. entry o.expInf i) (Scalar.abs g) ∨
      entry o'.expInf i = Scalar.max (entry o.expInf i *. b₂) (Scalar.abs g)) ∧
    entry w' i = (entry w i +. lr *. (entry o'.expAvg i /. (Scalar.ofNat 1 -. o'.beta1Prod)) /. (entry o'.expInf i +. EPS))
  inactive : ¬ e.ActiveAt i → gradient i e = 0 ∧ entry o'.expAvg i = (entry o.expAvg i *. b₁) ∧
    entry o'.expInf i = (entry o.expInf i *. b₂) ∧ entry w' i = entry w i

theorem adamax_calls (hM : M.rnd = binary64Format.rnd) {n : Nat} {b₁ b₂ lr : FP M} {os : Nat → AdaMax (FP M)} {ws : Nat → List (FP M)}
    {es : Nat → Event (FP M)} (hr : OptRun os ws es) (ho : os 0 = AdaMax.new n lr b₁ b₂) (hw : (ws 0).length = n)
    (he : ∀ t, (es t).Fits n) (hs : ∀ t, (es t).isStep = true) {i : Nat} (hi : i < n) :
    (∀ t, (os (t + 1)).beta1Prod = ((os t).beta1Prod *. b₁)) ∧
      ∀ t, ∃ g, AdaMaxCall b₁ b₂ lr n i (es t) (os t) (os (t + 1)) (ws t) (ws (t + 1)) g := by
  have call : ∀ t, ((os t).beta1 = b₁ ∧ (os t).beta2 = b₂ ∧ (os t).learningRate = lr ∧ (os t).expAvg.length = n ∧
        (os t).expInf.length = n ∧ (ws t).length = n) →
      ((os (t + 1)).beta1 = b₁ ∧ (os (t + 1)).beta2 = b₂ ∧ (os (t + 1)).learningRate = lr ∧ (os (t + 1)).expAvg.length = n ∧
        (os (t + 1)).expInf.length = n ∧ (ws (t + 1)).length = n) ∧
      (os (t + 1)).beta1Prod = ((os t).beta1Prod *. b₁) ∧
      ∃ g, AdaMaxCall b₁ b₂ lr n i (es t) (os t) (os (t + 1)) (ws t) (ws (t + 1)) g := by
    rintro t ⟨h1, h2, h3, h4, h5, h6⟩
    obtain ⟨φ, s, hg, hact, hφ, h⟩ := fp_call_active (fun _ _ _ => rfl) (he t) (hs t) (hr t)
    obtain ⟨m, v, w', a1, a2, a3, a4, a5⟩ := adamax_scaled hφ (os t) h4 h5 s h6
    rw [h] at a1
    obtain ⟨c1, c2⟩ : os (t + 1) = { adamaxTick (os t) with expAvg := m, expInf := v } ∧ ws (t + 1) = w' := by
      simp only [Except.ok.injEq, Prod.mk.injEq, true_and] at a1
      exact a1
    rw [c1, c2]
    refine ⟨⟨h1, h2, h3, a2, a3, a4⟩, by rw [← h1]; rfl, value φ i *. s, ?_, ?_, ?_⟩
    · intro y hy
      rw [hg]
      exact gradient_near hM φ s i hy
    · intro ha
      obtain ⟨d1, d2, d3⟩ := (a5 i hi).1 ((hact i).1 ha)
      refine ⟨?_, ?_, ?_⟩
      · show entry m i = _ ∨ entry m i = _
        rw [d1, ← h1]
        cases hd : φ.isDense
        · exact .inr (by simp [adamaxM])
        · exact .inl (by simp [adamaxM])
      · show entry v i = _ ∨ entry v i = _
        rw [d2, ← h2]
        cases hd : φ.isDense
        · exact .inr (by simp [adamaxU])
        · exact .inl (by simp [adamaxU])
      · rw [d3, ← h3]; rfl
    · intro ha
      have ha' : ¬ Active φ i := fun hc => ha ((hact i).2 hc)
      obtain ⟨d1, d2, d3⟩ := (a5 i hi).2 ha'
      refine ⟨?_, ?_, ?_, d3⟩
      · rw [hg, value_inactive hφ ha', real_zero', zero_mul]
      · rw [← h1]; exact d1
      · rw [← h2]; exact d2
  have inv : ∀ t, (os t).beta1 = b₁ ∧ (os t).beta2 = b₂ ∧ (os t).learningRate = lr ∧ (os t).expAvg.length = n ∧
        (os t).expInf.length = n ∧ (ws t).length = n := by
    intro t
    induction t with
    | zero => rw [ho]; exact ⟨rfl, rfl, rfl, List.length_replicate, List.length_replicate, hw⟩
    | succ t ih => exact (call t ih).1
  exact ⟨fun t => (call t (inv t)).2.1, fun t => (call t (inv t)).2.2⟩

theorem crest_nonneg (β : ℝ) (g : Nat → ℝ) (t : Nat) : 0 ≤ crest β g t := by
  cases t with
  | zero => exact le_rfl
  | succ t => exact le_max_of_le_right (abs_nonneg _)

theorem crest_abs (β : ℝ) (g : Nat → ℝ) (t : Nat) : crest β (fun s => |g s|) t = crest β g t := by
  induction t with
  | zero => rfl
  | succ t ih => simp only [crest, ih, abs_abs]

theorem adamaxStep_abs {β₁ β₂ : ℝ} (h10 : 0 ≤ β₁) (h11 : β₁ < 1) (l : ℝ) (g : Nat → ℝ) (t : Nat) :
    |adamaxStep l β₁ β₂ g t| ≤ adamaxStep |l| β₁ β₂ (fun s => |g s|) t := by
  unfold adamaxStep
  have hD : 0 < 1 - β₁ ^ (t + 2) := sub_pos.2 (pow_lt_one₀ h10 h11 (by omega))
  have hP := crest_nonneg β₂ g (t + 1)
  rw [crest_abs, abs_div, abs_mul, abs_div, abs_of_pos hD, abs_of_nonneg (by positivity : 0 ≤ crest β₂ g (t + 1) + 1e-7)]
  have h := discounted_abs h10 (fun s => (1 - β₁) * g s) (t + 1)
  simp only [abs_mul, abs_of_pos (sub_pos.2 h11)] at h
  gcongr

open Classical in
/-- AdaMax in `f64` against AdaMax in exact arithmetic, both fed the same calls. Let `β₁` be at most `1 - 2^-40`, `β₂` at most 1, and let
there be at most `2^40` calls of `step` and `step_scaled`. If the weight and the first average end finite, the weight is its start plus the
exact steps of the calls that hold the weight's feature, up to the fraction `(26 T + 24 / (1 - β₁) + 84) u` of the magnitudes that the
exact run adds up; underflow adds a multiple of `2^-1075`. -/
theorem C173_adamax (hM : M.rnd = binary64Format.rnd) (n : Nat) (lr b₁ b₂ : FP M) (l β₁ β₂ : ℝ) (hl : Is lr l) (hb₁ : Is b₁ β₁)
    (hb₂ : Is b₂ β₂) (h10 : 0 ≤ β₁) (h11 : β₁ ≤ 1 - 2 ^ (-40 : ℤ)) (h20 : 0 ≤ β₂) (h21 : β₂ ≤ 1)
    (os : Nat → AdaMax (FP M)) (ws : Nat → List (FP M)) (es : Nat → Event (FP M)) (hr : OptRun os ws es)
    (ho : os 0 = AdaMax.new n lr b₁ b₂) (hw : (ws 0).length = n) (he : ∀ t, (es t).Fits n) (hs : ∀ t, (es t).isStep = true)
    (T : Nat) (hT : T ≤ 2 ^ 40) (i : Nat) (hi : i < n) (hfm : Finite (entry (os T).expAvg i)) (hfin : Finite (entry (ws T) i)) :
    |real (entry (ws T) i) - (real (entry (ws 0) i) +
        ∑ t ∈ Finset.range T, if (es t).ActiveAt i then adamaxStep l β₁ β₂ (fun s => gradient i (es s)) t else 0)| ≤
      (26 * T + 24 / (1 - β₁) + 84) * roundoff * (|real (entry (ws 0) i)| +
        ∑ t ∈ Finset.range T, if (es t).ActiveAt i then adamaxStep |l| β₁ β₂ (fun s => |gradient i (es s)|) t else 0) +
      2 * T * ((68 * T * |l| / (1 - β₁) + 3) * 10 ^ 7 * tiny) := by
  have u0 := roundoff_pos
  have τ0 := tiny_pos
  have p0 : (0 : ℝ) < 2 ^ (-40 : ℤ) := by positivity
  obtain ⟨hp₁, call⟩ := adamax_calls hM hr ho hw he hs hi
  choose g hg using call
  have hm := first_run hM hb₁ h10 (by linarith) (v := fun t => entry (os t).expAvg i) (g := g) (G := fun t => gradient i (es t)) (T := T)
    (by rw [ho]; exact entry_replicate n i) (fun t => (hg t).near)
    (fun t => by
      by_cases ha : (es t).ActiveAt i
      · exact ((hg t).active ha).1.imp id .inr
      · exact .inr (.inl ⟨((hg t).inactive ha).1, ((hg t).inactive ha).2.1⟩)) hfm
  have hv := crest_run hM hb₂ h20 h21 (v := fun t => entry (os t).expInf i) (g := g) (G := fun t => gradient i (es t)) (T := T)
    (by rw [ho]; exact entry_replicate n i) (fun t => (hg t).near)
    (fun t ht => by
      by_cases ha : (es t).ActiveAt i
      · refine .inl ⟨?_, ((hg t).active ha).2.1⟩
        obtain ⟨z, hz⟩ := hm.1 (t + 1) ht
        rcases ((hg t).active ha).1 with h | h <;> rw [h] at hz <;>
        · obtain ⟨-, y, -, hy, -⟩ := add_err hM hz
          obtain ⟨-, γ, -, hγ, -⟩ := mul_err hM hy
          exact ⟨γ, hγ⟩
      · exact .inr ⟨((hg t).inactive ha).1, ((hg t).inactive ha).2.2.1⟩)
  have fw : ∀ t ≤ T, Finite (entry (ws t) i) := finite_down hfin fun t _ ⟨z, hz⟩ => by
    by_cases ha : (es t).ActiveAt i
    · rw [((hg t).active ha).2.2] at hz
      obtain ⟨a, -, ha, -, -⟩ := add_err hM hz
      exact ⟨a, ha⟩
    · rw [((hg t).inactive ha).2.2.2] at hz
      exact ⟨z, hz⟩
  have b1 : 0 < 1 - β₁ := by linarith
  refine run_near (T := T) (c := (12 * T + 12 * (1 / (1 - β₁)) + 42) * roundoff)
    (η := (68 * T * |l| / (1 - β₁) + 3) * 10 ^ 7 * tiny) (ws := fun t => real (entry (ws t) i)) (by positivity) (by positivity) rfl rfl
    (adamaxStep_abs h10 (by linarith) l _) ?_ ?_ hT (by ring) ?_
  · intro t ht ha
    have hz := is_of_finite (fw (t + 1) ht)
    have e := ((hg t).active ha).2.2
    rw [e] at hz
    obtain ⟨w, z, hw', hz', hwz⟩ := add_err hM hz
    refine ⟨z, ?_, ?_⟩
    · obtain ⟨d1, c1, hc1, hcc1⟩ := correction_run hM hb₁ h10 h11 (p := fun t => (os t).beta1Prod) (by rw [ho]; rfl) hp₁ (t := t) (by omega)
      have k1 := hm.2 (t + 1) ht
      obtain ⟨hY, y, hy, y0, hye⟩ := hv (t + 1) ht
      have hX := discounted_abs h10 (fun s => (1 - β₁) * gradient i (es s)) (t + 1)
      simp only [abs_mul, abs_of_pos b1] at hX
      have := adamax_increment hM hT ht h10 h11 hl (is_of_finite (hm.1 (t + 1) ht)) hX k1 hy y0 hY hye hc1 d1 hcc1 hz'
      unfold adamaxStep
      rw [crest_abs, show 68 * (T : ℝ) * |l| / (1 - β₁) = 68 * T * |l| * (1 / (1 - β₁)) by ring]
      exact this
    · rw [← e] at hwz
      simp only [is_real hw']
      exact hwz
  · intro t ht ha
    simp only [((hg t).inactive ha).2.2.2]
  · have h1 := (recip_beta h10 h11 le_rfl).2.2.2.2.2
    have h3 := length_roundoff' hT
    have u1 : roundoff ≤ 1e-12 := by norm_num [roundoff]
    have e : (26 * (T : ℝ) + 24 / (1 - β₁) + 84) * roundoff = 26 * (T * roundoff) + 24 * (1 / (1 - β₁) * roundoff) +
      84 * roundoff := by ring
    rw [e]
    linarith

/-! ## Against runs in exact arithmetic -/

/-- One call in exact arithmetic, seen as a scaled step, with the activity of the features. -/
theorem real_call_active {O : Type} [Optimiser O ℝ] [UnitStep O] {n : Nat} {e : Event ℝ} {o o' : O} {w w' : List ℝ} (hf : e.Fits n)
    (hs : e.isStep = true) (h : History o w [e] o' w') :
    ∃ φ s, (∀ i, e.grad i = value φ i * s) ∧ (∀ i, e.ActiveAt i ↔ Active φ i) ∧ Fits n φ ∧
      Optimiser.stepScaled o w φ s = .ok (.ok (), o', w') := by
  cases h with
  | step h t =>
    cases t
    rw [UnitStep.unit] at h
    exact ⟨_, 1, fun i => (mul_one _).symm, fun i => Iff.rfl, hf, h⟩
  | stepScaled h t => cases t; exact ⟨_, _, fun i => rfl, fun i => Iff.rfl, hf, h⟩
  | reset t => cases hs

open Classical in
theorem exact_adam {n : Nat} {l β₁ β₂ : ℝ} {os : Nat → Adam ℝ} {ws : Nat → List ℝ} {es : Nat → Event ℝ} (hr : OptRun os ws es)
    (ho : os 0 = Adam.new n l β₁ β₂) (hw : (ws 0).length = n) (he : ∀ t, (es t).Fits n) (hs : ∀ t, (es t).isStep = true)
    {i : Nat} (hi : i < n) {g : Nat → ℝ} (hg : ∀ t, (es t).grad i = g t) (T : Nat) :
    entry (ws T) i = entry (ws 0) i + ∑ t ∈ Finset.range T, if (es t).ActiveAt i then adamStep l β₁ β₂ g t else 0 := by
  suffices h : ∀ T, ((os T).beta1 = β₁ ∧ (os T).beta2 = β₂ ∧ (os T).learningRate = l ∧ (os T).beta1Prod = β₁ ^ (T + 1) ∧
        (os T).beta2Prod = β₂ ^ (T + 1) ∧ (os T).expAvg.length = n ∧ (os T).expAvgSq.length = n ∧ (ws T).length = n) ∧
      entry (os T).expAvg i = discounted β₁ (fun s => (1 - β₁) * g s) T ∧
      entry (os T).expAvgSq i = discounted β₂ (fun s => (1 - β₂) * g s ^ 2) T ∧
      entry (ws T) i = entry (ws 0) i + ∑ t ∈ Finset.range T, if (es t).ActiveAt i then adamStep l β₁ β₂ g t else 0 from (h T).2.2.2
  intro T
  induction T with
  | zero =>
    rw [ho]
    refine ⟨⟨rfl, rfl, rfl, (pow_one _).symm, (pow_one _).symm, List.length_replicate, List.length_replicate, hw⟩, ?_, ?_, by simp⟩
    · show entry (List.replicate n Scalar.zero) i = _
      rw [entry_replicate, real_zero]
      simp [discounted]
    · show entry (List.replicate n Scalar.zero) i = _
      rw [entry_replicate, real_zero]
      simp [discounted]
  | succ T ih =>
    obtain ⟨⟨h1, h2, h3, h4, h5, h6, h7, h8⟩, hm, hv, hW⟩ := ih
    obtain ⟨φ, s, hg', hact, hφ, h⟩ := real_call_active (he T) (hs T) (hr T)
    obtain ⟨m, v, w', a1, a2, a3, a4, a5⟩ := adam_real hφ (os T) h6 h7 s h8
    rw [h] at a1
    simp only [Except.ok.injEq, Prod.mk.injEq, true_and] at a1
    obtain ⟨b1, b2⟩ := a1
    obtain ⟨c1, c2, c3, c4⟩ := a5 i hi
    rw [h1, hm, ← hg', hg, ← discounted_step β₁ (fun s => (1 - β₁) * g s)] at c1
    rw [h2, hv, ← hg', hg, ← discounted_step β₂ (fun s => (1 - β₂) * g s ^ 2)] at c2
    rw [b1, b2]
    refine ⟨⟨h1, h2, h3, ?_, ?_, a2, a3, a4⟩, c1, c2, ?_⟩
    · show (os T).beta1Prod * (os T).beta1 = _
      rw [h4, h1, pow_succ β₁ (T + 1)]
    · show (os T).beta2Prod * (os T).beta2 = _
      rw [h5, h2, pow_succ β₂ (T + 1)]
    · rw [Finset.sum_range_succ (fun t => if (es t).ActiveAt i then adamStep l β₁ β₂ g t else 0) T, ← add_assoc, ← hW]
      by_cases ha : (es T).ActiveAt i
      · rw [if_pos ha, c3 ((hact i).1 ha), c1, c2, h3, h4, h1, h5, h2, ← pow_succ, ← pow_succ]
        rfl
      · rw [if_neg ha, c4 (fun hc => ha ((hact i).2 hc)), add_zero]

open Classical in
theorem exact_adamax {n : Nat} {l β₁ β₂ : ℝ} (h20 : 0 ≤ β₂) {os : Nat → AdaMax ℝ} {ws : Nat → List ℝ} {es : Nat → Event ℝ} (hr : OptRun os ws es)
    (ho : os 0 = AdaMax.new n l β₁ β₂) (hw : (ws 0).length = n) (he : ∀ t, (es t).Fits n) (hs : ∀ t, (es t).isStep = true)
    {i : Nat} (hi : i < n) {g : Nat → ℝ} (hg : ∀ t, (es t).grad i = g t) (T : Nat) :
    entry (ws T) i = entry (ws 0) i + ∑ t ∈ Finset.range T, if (es t).ActiveAt i then adamaxStep l β₁ β₂ g t else 0 := by
  suffices h : ∀ T, ((os T).beta1 = β₁ ∧ (os T).beta2 = β₂ ∧ (os T).learningRate = l ∧ (os T).beta1Prod = β₁ ^ (T + 1) ∧
        (os T).expAvg.length = n ∧ (os T).expInf.length = n ∧ (ws T).length = n) ∧
      entry (os T).expAvg i = discounted β₁ (fun s => (1 - β₁) * g s) T ∧
      entry (os T).expInf i = crest β₂ g T ∧
      entry (ws T) i = entry (ws 0) i + ∑ t ∈ Finset.range T, if (es t).ActiveAt i then adamaxStep l β₁ β₂ g t else 0 from (h T).2.2.2
  intro T
  induction T with
  | zero =>
    rw [ho]
    refine ⟨⟨rfl, rfl, rfl, (pow_one _).symm, List.length_replicate, List.length_replicate, hw⟩, ?_, ?_, by simp⟩
    · show entry (List.replicate n Scalar.zero) i = _
      rw [entry_replicate, real_zero]
      simp [discounted]
    · show entry (List.replicate n Scalar.zero) i = _
      rw [entry_replicate, real_zero]
      rfl
  | succ T ih =>
    obtain ⟨⟨h1, h2, h3, h4, h6, h7, h8⟩, hm, hv, hW⟩ := ih
    obtain ⟨φ, s, hg', hact, hφ, h⟩ := real_call_active (he T) (hs T) (hr T)
    obtain ⟨m, v, w', a1, a2, a3, a4, a5⟩ := adamax_real hφ (os T) h6 h7 s h8
    rw [h] at a1
    simp only [Except.ok.injEq, Prod.mk.injEq, true_and] at a1
    obtain ⟨b1, b2⟩ := a1
    obtain ⟨c1, c2, c3⟩ := a5 i hi
    rw [h1, hm, ← hg', hg, ← discounted_step β₁ (fun s => (1 - β₁) * g s)] at c1
    have c4 : entry v i = crest β₂ g (T + 1) := by
      simp only [crest]
      by_cases ha : Active φ i
      · rw [(c2 ha).1, h2, hv, ← hg', hg]
      · have h0 : g T = 0 := by rw [← hg, hg', value_of_not_active ha, zero_mul]
        rw [(c3 ha).1, h2, hv, h0, abs_zero, max_eq_left (mul_nonneg h20 (crest_nonneg _ _ _))]
    rw [b1, b2]
    refine ⟨⟨h1, h2, h3, ?_, a2, a3, a4⟩, c1, c4, ?_⟩
    · show (os T).beta1Prod * (os T).beta1 = _
      rw [h4, h1, pow_succ β₁ (T + 1)]
    · rw [Finset.sum_range_succ (fun t => if (es t).ActiveAt i then adamaxStep l β₁ β₂ g t else 0) T, ← add_assoc, ← hW]
      by_cases ha : (es T).ActiveAt i
      · rw [if_pos ha, (c2 ((hact i).1 ha)).2, c1, c4, h3, h4, h1, ← pow_succ]
        rfl
      · rw [if_neg ha, (c3 (fun hc => ha ((hact i).2 hc))).2, add_zero]

open Classical in
/-- Adam in `f64` against a run of the same optimiser in exact arithmetic on calls that present the same numbers. -/
theorem C173_adam_exact_run (hM : M.rnd = binary64Format.rnd) (n : Nat) (lr b₁ b₂ : FP M) (l β₁ β₂ : ℝ) (hl : Is lr l) (hb₁ : Is b₁ β₁)
    (hb₂ : Is b₂ β₂) (h10 : 0 ≤ β₁) (h11 : β₁ ≤ 1 - 2 ^ (-40 : ℤ)) (h20 : 0 ≤ β₂) (h21 : β₂ ≤ 1 - 2 ^ (-40 : ℤ))
    (os : Nat → Adam (FP M)) (ws : Nat → List (FP M)) (es : Nat → Event (FP M)) (hr : OptRun os ws es)
    (ho : os 0 = Adam.new n lr b₁ b₂) (hw : (ws 0).length = n) (he : ∀ t, (es t).Fits n) (hs : ∀ t, (es t).isStep = true)
    (os' : Nat → Adam ℝ) (ws' : Nat → List ℝ) (es' : Nat → Event ℝ) (hr' : OptRun os' ws' es')
    (ho' : os' 0 = Adam.new n l β₁ β₂) (hw' : (ws' 0).length = n) (he' : ∀ t, (es' t).Fits n) (hs' : ∀ t, (es' t).isStep = true)
    (T : Nat) (hT : T ≤ 2 ^ 40) (i : Nat) (hi : i < n) (h0 : entry (ws' 0) i = real (entry (ws 0) i))
    (hg : ∀ t, (es' t).grad i = gradient i (es t)) (ha : ∀ t, (es' t).ActiveAt i ↔ (es t).ActiveAt i)
    (hfm : Finite (entry (os T).expAvg i)) (hfv : ∀ t ≤ T, Bounded (2 ^ 980) (entry (os t).expAvgSq i)) (hfin : Finite (entry (ws T) i)) :
    |real (entry (ws T) i) - entry (ws' T) i| ≤
      (42 * T + 24 / (1 - β₁) + 96 / (1 - β₂) + 324) * roundoff * (|real (entry (ws 0) i)| +
        ∑ t ∈ Finset.range T, if (es t).ActiveAt i then adamStep |l| β₁ β₂ (fun s => |gradient i (es s)|) t else 0) +
      2 * T * ((68 * T * |l| / (1 - β₁) + 3) * 10 ^ 7 * tiny) := by
  rw [exact_adam hr' ho' hw' he' hs' hi hg T, h0]
  simp only [ha]
  exact C173_adam hM n lr b₁ b₂ l β₁ β₂ hl hb₁ hb₂ h10 h11 h20 h21 os ws es hr ho hw he hs T hT i hi hfm hfv hfin

open Classical in
/-- AdaMax in `f64` against a run of the same optimiser in exact arithmetic on calls that present the same numbers. -/
theorem C173_adamax_exact_run (hM : M.rnd = binary64Format.rnd) (n : Nat) (lr b₁ b₂ : FP M) (l β₁ β₂ : ℝ) (hl : Is lr l) (hb₁ : Is b₁ β₁)
    (hb₂ : Is b₂ β₂) (h10 : 0 ≤ β₁) (h11 : β₁ ≤ 1 - 2 ^ (-40 : ℤ)) (h20 : 0 ≤ β₂) (h21 : β₂ ≤ 1)
    (os : Nat → AdaMax (FP M)) (ws : Nat → List (FP M)) (es : Nat → Event (FP M)) (hr : OptRun os ws es)
    (ho : os 0 = AdaMax.new n lr b₁ b₂) (hw : (ws 0).length = n) (he : ∀ t, (es t).Fits n) (hs : ∀ t, (es t).isStep = true)
    (os' : Nat → AdaMax ℝ) (ws' : Nat → List ℝ) (es' : Nat → Event ℝ) (hr' : OptRun os' ws' es')
    (ho' : os' 0 = AdaMax.new n l β₁ β₂) (hw' : (ws' 0).length = n) (he' : ∀ t, (es' t).Fits n) (hs' : ∀ t, (es' t).isStep = true)
    (T : Nat) (hT : T ≤ 2 ^ 40) (i : Nat) (hi : i < n) (h0 : entry (ws' 0) i = real (entry (ws 0) i))
    (hg : ∀ t, (es' t).grad i = gradient i (es t)) (ha : ∀ t, (es' t).ActiveAt i ↔ (es t).ActiveAt i)
    (hfm : Finite (entry (os T).expAvg i)) (hfin : Finite (entry (ws T) i)) :
    |real (entry (ws T) i) - entry (ws' T) i| ≤
      (26 * T + 24 / (1 - β₁) + 84) * roundoff * (|real (entry (ws 0) i)| +
        ∑ t ∈ Finset.range T, if (es t).ActiveAt i then adamaxStep |l| β₁ β₂ (fun s => |gradient i (es s)|) t else 0) +
      2 * T * ((68 * T * |l| / (1 - β₁) + 3) * 10 ^ 7 * tiny) := by
  rw [exact_adamax h20 hr' ho' hw' he' hs' hi hg T, h0]
  simp only [ha]
  exact C173_adamax hM n lr b₁ b₂ l β₁ β₂ hl hb₁ hb₂ h10 h11 h20 h21 os ws es hr ho hw he hs T hT i hi hfm hfin

/-! ## When the weights stay finite -/

theorem entry_of_forall {P : FP M → Prop} {l : List (FP M)} (h : ∀ a ∈ l, P a) {i : Nat} (hi : i < l.length) : P (entry l i) := by
  refine h _ ?_
  show l[i]?.getD Scalar.zero ∈ _
  rw [List.getElem?_eq_getElem hi]
  exact List.getElem_mem _

theorem discounted_le {β B : ℝ} (β0 : 0 ≤ β) {g : Nat → ℝ} (hg : ∀ t, (1 - β) * g t ≤ (1 - β) * B) (B0 : 0 ≤ B) (t : Nat) :
    discounted β (fun s => (1 - β) * g s) t ≤ B := by
  induction t with
  | zero => simpa [discounted] using B0
  | succ t ih =>
    rw [discounted_step]
    have h1 := mul_le_mul_of_nonneg_left ih β0
    have h2 := hg t
    show _ + (1 - β) * g t ≤ _
    linarith

theorem second_bounded {p D σ y : ℝ} (hp : p - 1 ≤ 1) (D0 : 0 ≤ D) (hD : D ≤ (2 ^ 489) ^ 2) (hσ : σ ≤ 1) (y0 : 0 ≤ y)
    (hy : |y - D| ≤ (p - 1) * D + σ) : |y| ≤ 2 ^ 980 := by
  rw [abs_of_nonneg y0]
  have h1 := (abs_le.1 hy).2
  have h2 := mul_le_mul_of_nonneg_right hp D0
  have h3 : (1 : ℝ) ≤ (2 ^ 489) ^ 2 := one_le_pow₀ (one_le_pow₀ (by norm_num))
  have h4 : (2 : ℝ) ^ 980 = 4 * (2 ^ 489) ^ 2 := by rw [← pow_mul, show (980 : ℕ) = 2 + 489 * 2 by norm_num, pow_add]; norm_num
  rw [h4]
  clear h4
  generalize ((2 : ℝ) ^ 489) ^ 2 = Q at *
  linarith

/-- The hypotheses of `C173_adam` hold for rates in `[-1, 1]`, finite initial weights, bounded calls and gradients of at most `2^489`. -/
theorem C173_adam_finite (hM : M.rnd = binary64Format.rnd) (n : Nat) (lr b₁ b₂ : FP M) (β₁ β₂ : ℝ) (hlr : InUnit lr) (hb₁ : Is b₁ β₁)
    (hb₂ : Is b₂ β₂) (h10 : 0 ≤ β₁) (h11 : β₁ < 1) (h20 : 0 ≤ β₂) (h21 : β₂ ≤ 1 - 2 ^ (-40 : ℤ))
    (os : Nat → Adam (FP M)) (ws : Nat → List (FP M)) (es : Nat → Event (FP M)) (hr : OptRun os ws es)
    (ho : os 0 = Adam.new n lr b₁ b₂) (hw : (ws 0).length = n) (hw0 : ∀ a ∈ ws 0, Finite a) (he : ∀ t, (es t).Fits n)
    (hs : ∀ t, (es t).isStep = true) (hb : ∀ t, BoundedCall (es t)) (i : Nat) (hi : i < n) (hg : ∀ t, |gradient i (es t)| ≤ 2 ^ 489)
    (T : Nat) (hT : T ≤ 2 ^ 40) :
    Finite (entry (os T).expAvg i) ∧ Bounded (2 ^ 980) (entry (os T).expAvgSq i) ∧ Finite (entry (ws T) i) := by
  have p0 : (0 : ℝ) < 2 ^ (-40 : ℤ) := by positivity
  have b2 : 0 < 1 - β₂ := by linarith
  have hall : ∀ t, Finite (entry (os t).expAvg i) ∧ Finite (entry (os t).expAvgSq i) ∧ Finite (entry (ws t) i) := by
    intro t
    obtain ⟨o', w', h1, hm, hv, ⟨h2, h3⟩, -⟩ := C91_adam hM lr b₁ b₂ hlr ⟨β₁, hb₁, h10, h11⟩ ⟨β₂, hb₂, h20, by linarith⟩ (ws 0) hw hw0
      ((List.range t).map es) (fun e h => by
        obtain ⟨t, -, rfl⟩ := List.mem_map.1 h
        exact ⟨he t, hb t⟩)
    have h4 := run_history hr t
    rw [ho] at h4
    obtain ⟨rfl, rfl⟩ := history_unique h4 h1
    have hz : ∀ {P : FP M → Prop} {l : List (FP M)}, (∀ a ∈ l, P a) → P Scalar.zero → P (entry l i) := fun {P l} h h0 => by
      by_cases hl : i < l.length
      · exact entry_of_forall h hl
      · rw [entry_of_ge (not_lt.1 hl)]; exact h0
    exact ⟨hz (P := Finite) (fun a ha => (hm a ha).imp fun _ h => h.1) finite_zero,
      hz (P := Finite) (fun a ha => (hv a ha).2.imp fun _ h => h.1) finite_zero, entry_of_forall h3 (h2 ▸ hi)⟩
  refine ⟨(hall T).1, ?_, (hall T).2.2⟩
  obtain ⟨-, -, call⟩ := adam_calls hM hr ho hw he hs hi
  choose g hgc using call
  have hv := second_run hM hb₂ h20 h21 (v := fun t => entry (os t).expAvgSq i) (g := g) (G := fun t => gradient i (es t)) (T := T)
    (by rw [ho]; exact entry_replicate n i) (fun t => (hgc t).near)
    (fun t => by
      by_cases ha : (es t).ActiveAt i
      · exact ((hgc t).active ha).2.1.imp id .inr
      · exact .inr (.inl ⟨((hgc t).inactive ha).1, ((hgc t).inactive ha).2.2.1⟩)) (fun t _ => (hall t).2.1) T le_rfl
  refine ⟨_, is_of_finite (hall T).2.1, second_bounded ?_ ?_ ?_ ?_ hv.1 hv.2⟩
  · have u0 := roundoff_pos
    have h1 := growth_le (k := 2 * T) (by
      have : (2 : ℕ) * 2 ^ 40 ≤ 2 ^ 52 := by norm_num
      omega)
    have h2 := length_roundoff' hT
    push_cast at h1
    have h3 : (1 + roundoff) ^ (2 * T) ≤ 3 / 2 := by linarith
    have h4 : 1 + 8 * roundoff ≤ 4 / 3 := by norm_num [roundoff]
    have := mul_le_mul h3 h4 (by linarith) (by norm_num)
    linarith
  · exact Finset.sum_nonneg fun j _ => by positivity
  · refine discounted_le h20 (fun t => mul_le_mul_of_nonneg_left ?_ b2.le) (by positivity) T
    rw [← sq_abs]
    exact pow_le_pow_left₀ (abs_nonneg _) (hg t) 2
  · have u0 := roundoff_pos
    have τ0 := tiny_pos
    have h1 : (T : ℝ) ≤ 2 ^ 40 := by exact_mod_cast hT
    have h2 := growth_le (k := 2 * T) (by
      have : (2 : ℕ) * 2 ^ 40 ≤ 2 ^ 52 := by norm_num
      omega)
    have h3 := length_roundoff' hT
    push_cast at h2
    have h4 : (1 + roundoff) ^ (2 * T) ≤ 2 := by linarith
    have h5 : (T : ℝ) * (1 + roundoff) ^ (2 * T) ≤ 2 ^ 40 * 2 := mul_le_mul h1 h4 (by positivity) (by positivity)
    have h6 : tiny ≤ (2 : ℝ) ^ (-200 : ℤ) := zpow_le_zpow_right₀ (by norm_num) (by norm_num)
    have h7 : tiny + 2 * tiny ≤ 3 * (2 : ℝ) ^ (-200 : ℤ) := by linarith
    refine (mul_le_mul h5 h7 (by positivity) (by positivity)).trans ?_
    norm_num

/-- The hypotheses of `C173_adamax` hold for rates in `[-1, 1]`, finite initial weights and bounded calls. -/
theorem C173_adamax_finite (hM : M.rnd = binary64Format.rnd) (n : Nat) (lr b₁ b₂ : FP M) (hlr : InUnit lr) (h₁ : Decay b₁) (h₂ : Decay b₂)
    (os : Nat → AdaMax (FP M)) (ws : Nat → List (FP M)) (es : Nat → Event (FP M)) (hr : OptRun os ws es)
    (ho : os 0 = AdaMax.new n lr b₁ b₂) (hw : (ws 0).length = n) (hw0 : ∀ a ∈ ws 0, Finite a) (he : ∀ t, (es t).Fits n)
    (hb : ∀ t, BoundedCall (es t)) (i : Nat) (hi : i < n) (T : Nat) :
    Finite (entry (os T).expAvg i) ∧ Finite (entry (ws T) i) := by
  obtain ⟨o', w', h1, hm, hv, ⟨h2, h3⟩, -⟩ := C91_adamax hM lr b₁ b₂ hlr h₁ h₂ (ws 0) hw hw0
    ((List.range T).map es) (fun e h => by
      obtain ⟨t, -, rfl⟩ := List.mem_map.1 h
      exact ⟨he t, hb t⟩)
  have h4 := run_history hr T
  rw [ho] at h4
  obtain ⟨rfl, rfl⟩ := history_unique h4 h1
  refine ⟨?_, entry_of_forall h3 (h2 ▸ hi)⟩
  by_cases hl : i < (os T).expAvg.length
  · exact entry_of_forall (P := Finite) (fun a ha => (hm a ha).imp fun _ h => h.1) hl
  · rw [entry_of_ge (not_lt.1 hl)]; exact finite_zero

/-- Both decay rates one half and rate one, with the gradients 1, -1, 1, -1, …: the bounds apply for every `T` up to `2^40`. -/
example (hM : M.rnd = binary64Format.rnd) (b : FP M) (hb : Is b (1 / 2)) (T : Nat) (hT : T ≤ 2 ^ 40) :
    ∃ (os : Nat → Adam (FP M)) (ws : Nat → List (FP M)) (es : Nat → Event (FP M)),
      OptRun os ws es ∧ os 0 = Adam.new 1 Scalar.one b b ∧ ws 0 = [Scalar.zero] ∧ (∀ t, (es t).Fits 1) ∧
      (∀ t, (es t).isStep = true) ∧ (∀ t, gradient 0 (es t) = if t % 2 = 0 then 1 else -1) ∧ Finite (entry (os T).expAvg 0) ∧
      (∀ t ≤ T, Bounded (2 ^ 980) (entry (os t).expAvgSq 0)) ∧ Finite (entry (ws T) 0) := by
  have hneg : (Scalar.neg (Scalar.one : FP M)).1 = .fin (-1) := by rw [val_neg, val_one]; rfl
  let es : Nat → Event (FP M) := fun t => .stepScaled (.dense [Scalar.one]) (if t % 2 = 0 then Scalar.one else Scalar.neg Scalar.one)
  have he : ∀ t, (es t).Fits 1 := fun t => ⟨trivial, rfl⟩
  have hsc : ∀ t : Nat, Is (if t % 2 = 0 then Scalar.one else Scalar.neg Scalar.one : FP M) (if t % 2 = 0 then 1 else -1) := by
    intro t
    by_cases h : t % 2 = 0
    · rw [if_pos h, if_pos h]; exact val_one
    · rw [if_neg h, if_neg h]; exact hneg
  obtain ⟨os, ws, ho, hw, hr⟩ := optRun_exists (O := Adam (FP M)) (n := 1) es he (o := Adam.new 1 Scalar.one b b)
    (by exact ⟨List.length_replicate .., List.length_replicate ..⟩) (w := [Scalar.zero]) rfl
  have hg : ∀ t, gradient 0 (es t) = (if t % 2 = 0 then 1 else -1 : ℝ) := fun t => by
    show real (Scalar.one : FP M) * real (if t % 2 = 0 then _ else _) = _
    rw [is_real (val_one (M := M)), is_real (hsc t), one_mul]
  have h1 : (1 : ℝ) ≤ 2 ^ 500 := one_le_pow₀ (by norm_num)
  have h2 : (1 : ℝ) ≤ 2 ^ 489 := one_le_pow₀ (by norm_num)
  have hbc : ∀ t, BoundedCall (es t) := fun t => by
    refine ⟨⟨_, hsc t⟩, fun i a h => ?_⟩
    have ha : a = Scalar.one := by
      have h : [(Scalar.one : FP M)][i]? = some a := h
      rcases i with _ | i
      · injection h with h; exact h.symm
      · simp at h
    subst ha
    refine ⟨⟨1, val_one, by simpa using h1⟩, if t % 2 = 0 then 1 else -1, ?_, ?_⟩
    · show (_ *. _ : FP M).1 = _
      rw [val_mul, val_one, hsc t]
      show M.rnd (1 * _) = _
      rw [one_mul]
      exact (if t % 2 = 0 then Scalar.one else Scalar.neg Scalar.one : FP M).2 _ (hsc t)
    · split_ifs <;> simpa using h1
  have key := C173_adam_finite hM 1 Scalar.one b b (1 / 2) (1 / 2) ⟨1, val_one, by simp⟩ hb hb (by norm_num) (by norm_num) (by norm_num)
    (by norm_num) os ws es hr ho (by rw [hw]; rfl) (fun a ha => by rw [hw] at ha; rw [List.mem_singleton.1 ha]; exact finite_zero) he
    (fun _ => rfl) hbc 0 (by norm_num) (fun t => by rw [hg]; split_ifs <;> simpa using h2)
  exact ⟨os, ws, es, hr, ho, hw, he, fun _ => rfl, hg, (key T hT).1, fun t ht => (key t (ht.trans hT)).2.1, (key T hT).2.2⟩

end Lfa

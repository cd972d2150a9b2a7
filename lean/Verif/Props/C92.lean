import Verif.Proofs.Rounded
import Verif.Props.C59_C68
import Verif.Props.C91

/-!
# C92: an update never moves the prediction the wrong way

Predictions before and after an SGD or ISGD update on every machine: rounding may swallow the update
or exaggerate it, but cannot turn it round. No order of summation is assumed.
-/

set_option linter.unusedSectionVars false

namespace Lfa

open Spec Machine XReal

namespace XReal

theorem mul_mono_pos {x y : XReal} {a : ℝ} (h : x ≤ y) (ha : 0 < a) :
    mul x (fin a) ≤ mul y (fin a) := by
  cases x <;> cases y <;> simp_all [mul, infSign, ha.ne', ha.le, not_le.2 ha]

theorem mul_mono_neg {x y : XReal} {a : ℝ} (h : x ≤ y) (ha : a < 0) :
    mul y (fin a) ≤ mul x (fin a) := by
  cases x <;> cases y <;> simp_all [mul, infSign, ha.ne, ha.le, not_le.2 ha]

theorem le_add_fin {x : ℝ} {d : XReal} (h : fin 0 ≤ d) : fin x ≤ add (fin x) d := by
  cases d <;> simp_all [add]

theorem add_fin_le {x : ℝ} {d : XReal} (h : d ≤ fin 0) : add (fin x) d ≤ fin x := by
  cases d <;> simp_all [add]

theorem add_ne_nan {x y : XReal} (h : add x y ≠ nan) : x ≠ nan ∧ y ≠ nan := by
  cases x <;> cases y <;> simp_all [add]

end XReal

variable {M : Machine}

theorem val_add_ne_nan {a b : FP M} (h : (a +. b).1 ≠ .nan) : a.1 ≠ .nan ∧ b.1 ≠ .nan := by
  refine XReal.add_ne_nan fun hc => h ?_
  rw [val_add, hc]; rfl

/-! ## One weight -/

/-- The product of a zero step and a finite activation. -/
theorem add_zero_step {w α a : FP M} (hα : Is α 0) (ha : Finite a) : w +. α *. a = w := by
  obtain ⟨r, hr⟩ := ha
  have h0 : (α *. a).1 = .fin 0 := by
    rw [val_mul, hα, hr]
    show M.rnd (0 * r) = _
    rw [zero_mul, rnd_zero]
  apply fp_ext
  rw [val_add, h0]
  conv_rhs => rw [← round_self w]
  congr 2
  cases w.1 <;> simp [XReal.add]

theorem add_zero_activation {w α a : FP M} (hα : Finite α) (ha : Is a 0) : w +. α *. a = w := by
  rw [mul_comm_fp]; exact add_zero_step ha hα

/-- The weight of a feature moves so that its contribution does not fall. -/
theorem contribution_up {w α a : FP M} (hw : Finite w) (hα : Finite α) (h0 : NonNeg α)
    (ha : Finite a) : Le (w *. a) ((w +. α *. a) *. a) := by
  obtain ⟨r, hr⟩ := ha
  obtain ⟨c, hc⟩ := hα
  obtain ⟨x, hx⟩ := hw
  have hc0 : 0 ≤ c := by unfold NonNeg at h0; rw [hc] at h0; exact h0
  have hp : (α *. a).1 = (M.round (.fin (c * r))).1 := by rw [val_mul, hc, hr]; rfl
  unfold Le
  rcases lt_trichotomy r 0 with h | h | h
  · have h1 : (w +. α *. a).1 ≤ w.1 := by
      rw [val_add]
      refine round_le ?_
      rw [hx]
      refine XReal.add_fin_le ?_
      rw [hp]
      exact round_nonpos (mul_nonpos_of_nonneg_of_nonpos hc0 h.le : c * r ≤ (0 : ℝ))
    rw [val_mul, val_mul, hr]
    exact round_mono (XReal.mul_mono_neg h1 h)
  · subst h
    rw [add_zero_activation ⟨c, hc⟩ hr]
    refine XReal.le_self.2 ?_
    rw [val_mul, hx, hr]
    exact M.rnd_ne_nan _
  · have h1 : w.1 ≤ (w +. α *. a).1 := by
      rw [val_add]
      refine le_round ?_
      rw [hx]
      refine XReal.le_add_fin ?_
      rw [hp]
      exact round_nonneg (mul_nonneg hc0 h.le : (0 : ℝ) ≤ c * r)
    rw [val_mul, val_mul, hr]
    exact round_mono (XReal.mul_mono_pos h1 h)

theorem contribution_down {w α a : FP M} (hw : Finite w) (hα : Finite α) (h0 : NonPos α)
    (ha : Finite a) : Le ((w +. α *. a) *. a) (w *. a) := by
  obtain ⟨r, hr⟩ := ha
  obtain ⟨c, hc⟩ := hα
  obtain ⟨x, hx⟩ := hw
  have hc0 : c ≤ 0 := by unfold NonPos at h0; rw [hc] at h0; exact h0
  have hp : (α *. a).1 = (M.round (.fin (c * r))).1 := by rw [val_mul, hc, hr]; rfl
  unfold Le
  rcases lt_trichotomy r 0 with h | h | h
  · have h1 : w.1 ≤ (w +. α *. a).1 := by
      rw [val_add]
      refine le_round ?_
      rw [hx]
      refine XReal.le_add_fin ?_
      rw [hp]
      exact round_nonneg (mul_nonneg_of_nonpos_of_nonpos hc0 h.le : (0 : ℝ) ≤ c * r)
    rw [val_mul, val_mul, hr]
    exact round_mono (XReal.mul_mono_neg h1 h)
  · subst h
    rw [add_zero_activation ⟨c, hc⟩ hr]
    refine XReal.le_self.2 ?_
    rw [val_mul, hx, hr]
    exact M.rnd_ne_nan _
  · have h1 : (w +. α *. a).1 ≤ w.1 := by
      rw [val_add]
      refine round_le ?_
      rw [hx]
      refine XReal.add_fin_le ?_
      rw [hp]
      exact round_nonpos (mul_nonpos_of_nonpos_of_nonneg hc0 h.le : c * r ≤ (0 : ℝ))
    rw [val_mul, val_mul, hr]
    exact round_mono (XReal.mul_mono_pos h1 h)

/-! ## Predictions -/

theorem tree_mono {x y : Nat → FP M} : ∀ t : SumTree, (∀ i ∈ t.terms, Le (x i) (y i)) →
    (t.eval M.add (M.lit 0) x).1 ≠ .nan → (t.eval M.add (M.lit 0) y).1 ≠ .nan →
    Le (t.eval M.add (M.lit 0) x) (t.eval M.add (M.lit 0) y)
  | .zero, _, h, _ => XReal.le_self.2 h
  | .term i, h, _, _ => h i List.mem_cons_self
  | .add l r, h, hx, hy => by
    have h1 := val_add_ne_nan (a := l.eval M.add (M.lit 0) x) (b := r.eval M.add (M.lit 0) x) hx
    have h2 := val_add_ne_nan (a := l.eval M.add (M.lit 0) y) (b := r.eval M.add (M.lit 0) y) hy
    exact val_add_mono
      (tree_mono l (fun i hi => h i (List.mem_append_left _ hi)) h1.1 h2.1)
      (tree_mono r (fun i hi => h i (List.mem_append_right _ hi)) h1.2 h2.2) hx hy

theorem fold_mono {w w' : List (FP M)} : ∀ (m : List (Nat × FP M)) (z z' : FP M),
    (∀ e ∈ m, Le (entry w e.1 *. e.2) (entry w' e.1 *. e.2)) → Le z z' →
    (m.foldl (fun acc e => acc +. entry w e.1 *. e.2) z).1 ≠ .nan →
    (m.foldl (fun acc e => acc +. entry w' e.1 *. e.2) z').1 ≠ .nan →
    Le (m.foldl (fun acc e => acc +. entry w e.1 *. e.2) z)
      (m.foldl (fun acc e => acc +. entry w' e.1 *. e.2) z') := by
  have nan : ∀ (u : List (FP M)) (m : List (Nat × FP M)) (z : FP M),
      (m.foldl (fun acc e => acc +. entry u e.1 *. e.2) z).1 ≠ .nan → z.1 ≠ .nan := by
    intro u m
    induction m with
    | nil => exact fun z h => h
    | cons e m ih => exact fun z h => (val_add_ne_nan (ih _ h)).1
  intro m
  induction m with
  | nil => exact fun z z' _ h _ _ => h
  | cons e m ih =>
    intro z z' h hz hx hy
    exact ih _ _ (fun e' h' => h e' (List.mem_cons_of_mem _ h'))
      (val_add_mono hz (h e List.mem_cons_self) (nan _ _ _ hx) (nan _ _ _ hy)) hx hy

/-- If no feature's contribution falls, neither does their sum, in whatever order it is formed. -/
theorem dot_mono {n : Nat} {φ : Features (FP M)} (hφ : Fits n φ) {w w' : List (FP M)}
    (hw : w.length = n) (hw' : w'.length = n)
    (h : ∀ i < n, ∀ a, Stored φ i a → Le (entry w i *. a) (entry w' i *. a)) {v v' : FP M}
    (hv : φ.dot w = .ok v) (hv' : φ.dot w' = .ok v') (hn : v.1 ≠ .nan) (hn' : v'.1 ≠ .nan) :
    Le v v' := by
  obtain ⟨hwf, hd⟩ := hφ
  cases φ with
  | dense da =>
    have hd : da.length = n := hd
    have key : ∀ u : List (FP M), u.length = n → Features.dot (.dense da) u =
        .ok ((M.dotTree n).eval M.add (M.lit 0) fun i =>
          (List.zipWith M.mul da u).getD i (M.lit 0)) := by
      intro u hu
      show arrayDot da u = _
      unfold arrayDot
      rw [if_pos (hd.trans hu.symm)]
      show Except.ok ((M.dotTree (min da.length u.length)).eval M.add (M.lit 0) _) = _
      rw [hd, hu, min_self]
    rw [key w hw] at hv
    rw [key w' hw'] at hv'
    cases hv
    cases hv'
    refine tree_mono _ (fun i hi => ?_) hn hn'
    have hi : i < n := List.mem_range.1 ((M.dotTree_terms n).mem_iff.1 hi)
    have get : ∀ u : List (FP M), u.length = n → (List.zipWith M.mul da u).getD i (M.lit 0) =
        entry u i *. da[i]'(hd ▸ hi) := by
      intro u hu
      rw [List.getD_eq_getElem?_getD, List.getElem?_eq_getElem (by
        rw [List.length_zipWith, hd, hu, min_self]; exact hi), Option.getD_some,
        List.getElem_zipWith, mul_comm_fp, ← getElem_entry (hu ▸ hi)]
      rfl
    show Le ((List.zipWith M.mul da w).getD i (M.lit 0)) ((List.zipWith M.mul da w').getD i (M.lit 0))
    rw [get w hw, get w' hw']
    exact h i hi _ (List.getElem?_eq_getElem _)
  | sparse sa =>
    have hd : sa.dim = n := hd
    have hlt : ∀ e ∈ sa.activations, e.1 < n := fun e he => hd ▸ hwf.2 e he
    have hv : Features.dotSparse sa w = .ok v := hv
    have hv' : Features.dotSparse sa w' = .ok v' := hv'
    rw [dotSparse_ok fun e he => hw ▸ hlt e he] at hv
    rw [dotSparse_ok fun e he => hw' ▸ hlt e he] at hv'
    cases hv
    cases hv'
    exact fold_mono sa.activations _ _ (fun e he => h e.1 (hlt e he) e.2 he)
      (XReal.le_self.2 (by rw [val_zero]; exact XReal.noConfusion)) hn hn'

theorem list_entries_eq {n : Nat} {w w' : List (FP M)} (hw : w.length = n) (hw' : w'.length = n)
    (h : ∀ i < n, entry w' i = entry w i) : w' = w := by
  refine List.ext_getElem (hw'.trans hw.symm) fun i h1 h2 => ?_
  rw [getElem_entry h1, getElem_entry h2]
  exact h i (hw' ▸ h1)

/-- The effect of adding a multiple of the features to the weights. -/
theorem scaled_prediction {n : Nat} {φ : Features (FP M)} (hφ : Fits n φ) (hfin : AllFinite φ)
    {w w' : List (FP M)} (hw : w.length = n) (hwf : ∀ a ∈ w, Finite a) {α : FP M} (hα : Finite α)
    (hl : w'.length = n) (h : ∀ i < n,
      (∀ a, Stored φ i a → entry w' i = (entry w i +. α *. a)) ∧
      (¬ Active φ i → entry w' i = entry w i)) :
    (∀ v v', φ.dot w = .ok v → φ.dot w' = .ok v' → v.1 ≠ .nan → v'.1 ≠ .nan →
      (NonNeg α → Le v v') ∧ (NonPos α → Le v' v)) ∧ (Is α 0 → w' = w) := by
  refine ⟨fun v v' hv hv' hn hn' => ⟨fun h0 => ?_, fun h0 => ?_⟩, fun h0 => ?_⟩
  · refine dot_mono hφ hw hl (fun i hi a ha => ?_) hv hv' hn hn'
    rw [(h i hi).1 a ha]
    exact contribution_up (to_entries hw hwf i hi) hα h0 (hfin i a ha)
  · refine dot_mono hφ hl hw (fun i hi a ha => ?_) hv' hv hn' hn
    rw [(h i hi).1 a ha]
    exact contribution_down (to_entries hw hwf i hi) hα h0 (hfin i a ha)
  · refine list_entries_eq hw hl fun i hi => ?_
    by_cases ha : Active φ i
    · obtain ⟨a, ha⟩ := ha
      rw [(h i hi).1 a ha, add_zero_step h0 (hfin i a ha)]
    · exact (h i hi).2 ha

section
variable {B I : Type} [Space B] [Basis B I (FP M)]

/-- SGD. The prediction at `x` moves in the direction of learning rate times error, or not at all; a
zero step changes nothing. -/
theorem C92_sgd (fa : ScalarLFA B (SGD (FP M)) (FP M)) (x : I) (φ : Features (FP M))
    (hp : Basis.project fa.basis x = .ok (.ok φ)) (hφ : Fits fa.weights.length φ)
    (hfin : AllFinite φ) (hw : ∀ a ∈ fa.weights, Finite a) (e : FP M)
    (he : Finite (fa.optimiser.lr *. e)) :
    ∃ fa' : ScalarLFA B (SGD (FP M)) (FP M), fa.update x e = .ok (.ok (), fa') ∧
      (∀ v v', fa.evaluate x = .ok (.ok v) → fa'.evaluate x = .ok (.ok v') → v.1 ≠ .nan →
        v'.1 ≠ .nan → (NonNeg (fa.optimiser.lr *. e) → Le v v') ∧
          (NonPos (fa.optimiser.lr *. e) → Le v' v)) ∧
      (Is (fa.optimiser.lr *. e) 0 → fa' = fa) := by
  obtain ⟨w', h1, h2, h3⟩ := sgd_scaled hφ fa.optimiser e rfl
  obtain ⟨r1, r2⟩ := scaled_prediction hφ hfin rfl hw he h2 h3
  refine ⟨{ fa with weights := w' }, ?_, fun v v' hv hv' hn hn' => ?_, fun h => ?_⟩
  · rw [scalar_update_eq hp, h1]; rfl
  · rw [scalar_evaluate_eq hp] at hv
    rw [scalar_evaluate_eq (fa := { fa with weights := w' }) hp] at hv'
    obtain ⟨_, e1, e2⟩ := P.map_eq_ok.1 hv
    cases e2
    obtain ⟨_, e3, e4⟩ := P.map_eq_ok.1 hv'
    cases e4
    exact r1 _ _ e1 e3 hn hn'
  · rw [r2 h]

/-- The rate and the error decide the sign of the step. -/
theorem step_sign {r e : FP M} (hr : Finite r) (h0 : NonNeg r) (he : Finite e) :
    (NonNeg e → NonNeg (r *. e)) ∧ (NonPos e → NonPos (r *. e)) ∧ (Is e 0 → Is (r *. e) 0) := by
  obtain ⟨c, hc⟩ := hr
  obtain ⟨d, hd⟩ := he
  unfold NonNeg at h0
  rw [hc] at h0
  have h0 : 0 ≤ c := h0
  have hv : (r *. e).1 = (M.round (.fin (c * d))).1 := by rw [val_mul, hc, hd]; rfl
  unfold NonNeg NonPos Is
  rw [hv, hd]
  refine ⟨fun h => round_nonneg (mul_nonneg h0 h : (0 : ℝ) ≤ c * d),
    fun h => round_nonpos (mul_nonpos_of_nonneg_of_nonpos h0 h : c * d ≤ (0 : ℝ)), fun h => ?_⟩
  injection h with h
  rw [h, mul_zero]
  exact rnd_zero

/-- ISGD, whose rate depends on the features: the prediction moves in the direction of the error, or
not at all. -/
theorem C92_isgd (fa : ScalarLFA B (ISGD (FP M)) (FP M)) (x : I) (φ : Features (FP M))
    (hp : Basis.project fa.basis x = .ok (.ok φ)) (hφ : Fits fa.weights.length φ)
    (hfin : AllFinite φ) (hw : ∀ a ∈ fa.weights, Finite a) {r : ℝ} (hr : Is fa.optimiser.lr r)
    (h0 : 0 < r) (h1 : r ≤ 1) (e : FP M) (he : Finite e) :
    ∃ fa' : ScalarLFA B (ISGD (FP M)) (FP M), fa.update x e = .ok (.ok (), fa') ∧
      (∀ v v', fa.evaluate x = .ok (.ok v) → fa'.evaluate x = .ok (.ok v') → v.1 ≠ .nan →
        v'.1 ≠ .nan → (NonNeg e → Le v v') ∧ (NonPos e → Le v' v)) ∧
      (Is e 0 → fa' = fa) := by
  obtain ⟨w', e1, e2, e3⟩ := isgd_scaled hφ fa.optimiser e rfl
  obtain ⟨r0, r1⟩ := C91_isgd_rate fa.optimiser hr h0 φ hfin
  have hu : ∃ q, Is (fa.optimiser.computeLr φ) q ∧ |q| ≤ 1 := by
    unfold Le at r1
    rw [hr] at r1
    obtain ⟨q, hq, q0, q1⟩ := fin_of_between r0 r1
    exact ⟨q, hq, abs_le.2 ⟨by linarith, q1.trans h1⟩⟩
  have hs : Finite (fa.optimiser.computeLr φ *. e) := by
    obtain ⟨d, hd⟩ := he
    obtain ⟨q, hq, -⟩ := mul_unit hu hd
    exact ⟨q, hq⟩
  obtain ⟨s1, s2, s3⟩ := step_sign (let ⟨q, hq, _⟩ := hu; ⟨q, hq⟩) r0 he
  obtain ⟨t1, t2⟩ := scaled_prediction hφ hfin rfl hw hs e2 e3
  refine ⟨{ fa with weights := w' }, ?_, fun v v' hv hv' hn hn' => ?_, fun h => ?_⟩
  · rw [scalar_update_eq hp, e1]; rfl
  · rw [scalar_evaluate_eq hp] at hv
    rw [scalar_evaluate_eq (fa := { fa with weights := w' }) hp] at hv'
    obtain ⟨_, a1, a2⟩ := P.map_eq_ok.1 hv
    cases a2
    obtain ⟨_, a3, a4⟩ := P.map_eq_ok.1 hv'
    cases a4
    obtain ⟨u1, u2⟩ := t1 _ _ a1 a3 hn hn'
    exact ⟨fun h => u1 (s1 h), fun h => u2 (s2 h)⟩
  · rw [t2 (s3 h)]

/-- Regression towards a target `y` by SGD with a non-negative rate: a prediction below the target
does not fall, one above does not rise, and one on target leaves the weights alone. -/
theorem C92_target (fa : ScalarLFA B (SGD (FP M)) (FP M)) (x : I) (φ : Features (FP M))
    (hp : Basis.project fa.basis x = .ok (.ok φ)) (hφ : Fits fa.weights.length φ)
    (hfin : AllFinite φ) (hw : ∀ a ∈ fa.weights, Finite a) (y v : FP M) (hy : Finite y)
    (hv : fa.evaluate x = .ok (.ok v)) (hvf : Finite v) (hlr : Finite fa.optimiser.lr)
    (h0 : NonNeg fa.optimiser.lr) (hd : Finite (y -. v))
    (he : Finite (fa.optimiser.lr *. (y -. v))) :
    ∃ fa' : ScalarLFA B (SGD (FP M)) (FP M),
      fa.updateWith x (fun _ p => y -. p) = .ok (.ok (), fa') ∧
      (∀ v', fa'.evaluate x = .ok (.ok v') → v'.1 ≠ .nan → (Le v y → Le v v') ∧ (Le y v → Le v' v)) ∧
      (v = y → fa' = fa) := by
  obtain ⟨fa', h1, h2, h3⟩ := C92_sgd fa x φ hp hφ hfin hw (y -. v) he
  obtain ⟨s1, s2, s3⟩ := step_sign hlr h0 hd
  obtain ⟨p, hvp⟩ := hvf
  obtain ⟨q, hyq⟩ := hy
  have hsub : (y -. v).1 = (M.round (.fin (q + -p))).1 := by rw [val_sub, hyq, hvp]; rfl
  refine ⟨fa', ?_, fun v' hv' hn' => ?_, fun h => ?_⟩
  · rw [scalar_updateWith_eq hp]
    rw [scalar_evaluate_eq hp] at hv
    obtain ⟨_, a1, a2⟩ := P.map_eq_ok.1 hv
    cases a2
    rw [a1, P.ok_bind, h1]
  · obtain ⟨u1, u2⟩ := h2 v v' hv hv' (by rw [hvp]; exact XReal.noConfusion) hn'
    unfold Le
    rw [hvp, hyq]
    constructor
    · intro h
      have h : p ≤ q := h
      have := u1 (s1 (by
        unfold NonNeg
        rw [hsub]
        exact round_nonneg (by linarith : (0 : ℝ) ≤ q + -p)))
      unfold Le at this
      rwa [hvp] at this
    · intro h
      have h : q ≤ p := h
      have := u2 (s2 (by
        unfold NonPos
        rw [hsub]
        exact round_nonpos (by linarith : q + -p ≤ (0 : ℝ))))
      unfold Le at this
      rwa [hvp] at this
  · refine h3 (s3 ?_)
    subst h
    have : q = p := by
      have h := hyq.symm.trans hvp
      injection h
    subst this
    show (v -. v).1 = _
    rw [hsub, add_neg_cancel]
    exact rnd_zero

/-- Regression towards a target `y` by ISGD: a prediction below the target
does not fall, one above does not rise, and one on target leaves the weights alone. -/
theorem C92_isgd_target (fa : ScalarLFA B (ISGD (FP M)) (FP M)) (x : I) (φ : Features (FP M))
    (hp : Basis.project fa.basis x = .ok (.ok φ)) (hφ : Fits fa.weights.length φ)
    (hfin : AllFinite φ) (hw : ∀ a ∈ fa.weights, Finite a) (y v : FP M) (hy : Finite y)
    (hv : fa.evaluate x = .ok (.ok v)) (hvf : Finite v) {r : ℝ} (hr : Is fa.optimiser.lr r)
    (h0 : 0 < r) (h1 : r ≤ 1) (hd : Finite (y -. v)) :
    ∃ fa' : ScalarLFA B (ISGD (FP M)) (FP M),
      fa.updateWith x (fun _ p => y -. p) = .ok (.ok (), fa') ∧
      (∀ v', fa'.evaluate x = .ok (.ok v') → v'.1 ≠ .nan → (Le v y → Le v v') ∧ (Le y v → Le v' v)) ∧
      (v = y → fa' = fa) := by
  obtain ⟨fa', hu, h2, h3⟩ := C92_isgd fa x φ hp hφ hfin hw hr h0 h1 (y -. v) hd
  obtain ⟨p, hvp⟩ := hvf
  obtain ⟨q, hyq⟩ := hy
  have hsub : (y -. v).1 = (M.round (.fin (q + -p))).1 := by rw [val_sub, hyq, hvp]; rfl
  refine ⟨fa', ?_, fun v' hv' hn' => ?_, fun h => ?_⟩
  · rw [scalar_updateWith_eq hp]
    rw [scalar_evaluate_eq hp] at hv
    obtain ⟨_, a1, a2⟩ := P.map_eq_ok.1 hv
    cases a2
    rw [a1, P.ok_bind, hu]
  · obtain ⟨u1, u2⟩ := h2 v v' hv hv' (by rw [hvp]; exact XReal.noConfusion) hn'
    unfold Le
    rw [hvp, hyq]
    constructor
    · intro h
      have h : p ≤ q := h
      have := u1 ((by
        unfold NonNeg
        rw [hsub]
        exact round_nonneg (by linarith : (0 : ℝ) ≤ q + -p)))
      unfold Le at this
      rwa [hvp] at this
    · intro h
      have h : q ≤ p := h
      have := u2 ((by
        unfold NonPos
        rw [hsub]
        exact round_nonpos (by linarith : q + -p ≤ (0 : ℝ))))
      unfold Le at this
      rwa [hvp] at this
  · refine h3 ?_
    subst h
    have : q = p := by
      have h := hyq.symm.trans hvp
      injection h
    subst this
    show (v -. v).1 = _
    rw [hsub, add_neg_cancel]
    exact rnd_zero

end

/-- The hypotheses can be met: a constant feature, weight 0, rate 1 and error 1. -/
example : ∃ fa : ScalarLFA (Bias (FP M)) (SGD (FP M)) (FP M), ∃ φ,
    Basis.project fa.basis () = .ok (.ok φ) ∧ Fits fa.weights.length φ ∧ AllFinite φ ∧
    (∀ a ∈ fa.weights, Finite a) ∧ Finite (fa.optimiser.lr *. Scalar.one) ∧
    NonNeg (fa.optimiser.lr *. Scalar.one) ∧ ∃ v, fa.evaluate () = .ok (.ok v) := by
  refine ⟨⟨Bias.unit, [Scalar.zero], ⟨Scalar.one⟩⟩, .dense [Scalar.one], rfl, ⟨trivial, rfl⟩, ?_, ?_,
    ?_, ?_, _, rfl⟩
  · intro i a h
    have h : [(Scalar.one : FP M)][i]? = some a := h
    rcases i with _ | i
    · injection h with h
      exact ⟨1, h ▸ val_one⟩
    · simp at h
  · intro a ha
    rw [List.mem_singleton] at ha
    exact ha ▸ finite_zero
  · rw [mul_one_scalar]
    exact ⟨1, val_one⟩
  · rw [mul_one_scalar]
    show XReal.fin 0 ≤ (Scalar.one : FP M).1
    rw [val_one]
    exact zero_le_one' ℝ

end Lfa

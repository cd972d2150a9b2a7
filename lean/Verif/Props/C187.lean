import Verif.Props.C186
import Verif.Props.C161_C162
import Verif.Props.C105
import Verif.Proofs.KernelValue

/-!
# C187: learning the values of actions in a table, in f64

The calls of C186 with every operation rounded.
-/

set_option linter.unusedSectionVars false

namespace Lfa

open Spec Spec.Environment Machine Filter Topology

section
variable {M : Machine}

theorem exactOne_fp : ExactOne (FP M) := fun v => by
  rw [mul_one_scalar]
  apply fp_ext
  rw [val_add, val_zero]
  conv_rhs => rw [← round_self v]
  congr 2
  cases v.1 <;> simp [XReal.add]

theorem sub_rnd {a b : FP M} {x y : ℝ} (h : Is a x) (h' : Is b y) : (a -. b).1 = M.rnd (x - y) := by
  rw [val_sub, h, h', sub_eq_add_neg]
  rfl

/-- The rounded step of one entry. -/
theorem backup_step (hM : M.rnd = binary64Format.rnd) {rw g m p lr : FP M} {r γ μ π l S : ℝ} (hr : Is rw r)
    (hg : Is g γ) (hm : Is m μ) (hp : Is p π) (hl : Is lr l) (l0 : 0 ≤ l) (l1 : l ≤ 1) (g0 : 0 ≤ γ) (g1 : γ ≤ 1)
    (br : |r| ≤ S) (bm : |μ| ≤ S) (bp : |π| ≤ S) (hS : S ≤ 2 ^ 1000) :
    ∃ z, Is (p +. lr *. (rw +. g *. m -. p) *. Scalar.one) z ∧
      |z - (π + l * (r + γ * μ - π))| ≤ 16 * roundoff * S + 8 * tiny := by
  have u0 := roundoff_pos
  have u1 := roundoff_small
  have t0 := tiny_pos
  have t1 : tiny ≤ 1 := by
    rw [tiny, zpow_neg]
    exact inv_le_one_of_one_le₀ (one_le_zpow₀ (by norm_num) (by norm_num))
  have S0 : 0 ≤ S := (abs_nonneg _).trans br
  have big : (6 : ℝ) * 2 ^ 1000 + 10 ≤ 2 ^ 1022 := by
    rw [show (2 : ℝ) ^ 1022 = 2 ^ 1000 * 2 ^ 22 by rw [← pow_add]]
    have : (1 : ℝ) ≤ 2 ^ 1000 := one_le_pow₀ (by norm_num)
    generalize (2 : ℝ) ^ 1000 = T at this
    norm_num
    linarith
  generalize (2 : ℝ) ^ 1000 = T at hS big
  have uS0 : 0 ≤ roundoff * S := mul_nonneg u0.le S0
  have uS : roundoff * S ≤ 1 / 100000 * S := mul_le_mul_of_nonneg_right u1 S0
  have ut : roundoff * tiny ≤ 1 / 100000 * tiny := mul_le_mul_of_nonneg_right u1 t0.le
  have lim : ∀ x : ℝ, |x| ≤ 5 * S + 9 * tiny → |x| ≤ 2 ^ 1022 := fun x h =>
    (h.trans (by linarith : 5 * S + 9 * tiny ≤ 6 * T + 10)).trans big
  -- the product with the discount
  have b1 : |γ * μ| ≤ S := by
    rw [abs_mul, abs_of_nonneg g0]
    exact (mul_le_of_le_one_left (abs_nonneg _) g1).trans bm
  obtain ⟨z1, h1, e1, -⟩ := of_rnd hM (mul_val hg hm) (lim _ (by linarith))
  have e1' : |z1 - γ * μ| ≤ roundoff * S + tiny := by
    have := mul_le_mul_of_nonneg_left b1 u0.le
    linarith
  have a1 : |z1| ≤ 1.001 * S + tiny := by
    have := abs_add_le (z1 - γ * μ) (γ * μ)
    rw [sub_add_cancel] at this
    linarith
  -- the target
  have b2 : |r + z1| ≤ 2.001 * S + tiny := by
    have := abs_add_le r z1
    linarith
  obtain ⟨z2, h2, e2, -⟩ := of_rnd hM (add_val hr h1) (lim _ (by linarith))
  have e2' : |z2 - (r + z1)| ≤ 2.001 * (roundoff * S) + 1.001 * tiny := by
    have := mul_le_mul_of_nonneg_left b2 u0.le
    linarith
  have a2 : |z2| ≤ 2.01 * S + 2.1 * tiny := by
    have := abs_add_le (z2 - (r + z1)) (r + z1)
    rw [sub_add_cancel] at this
    linarith
  -- the error
  have b3 : |z2 - π| ≤ 3.01 * S + 2.1 * tiny := by
    have := abs_sub z2 π
    linarith
  obtain ⟨z3, h3, e3, -⟩ := of_rnd hM (sub_rnd h2 hp) (lim _ (by linarith))
  have e3' : |z3 - (z2 - π)| ≤ 3.01 * (roundoff * S) + 1.01 * tiny := by
    have := mul_le_mul_of_nonneg_left b3 u0.le
    linarith
  have a3 : |z3| ≤ 3.02 * S + 3.2 * tiny := by
    have := abs_add_le (z3 - (z2 - π)) (z2 - π)
    rw [sub_add_cancel] at this
    linarith
  -- the step
  have b4 : |l * z3| ≤ 3.02 * S + 3.2 * tiny := by
    rw [abs_mul, abs_of_nonneg l0]
    exact (mul_le_of_le_one_left (abs_nonneg _) l1).trans a3
  obtain ⟨z4, h4, e4, -⟩ := of_rnd hM (mul_val hl h3) (lim _ (by linarith))
  have e4' : |z4 - l * z3| ≤ 3.02 * (roundoff * S) + 1.01 * tiny := by
    have := mul_le_mul_of_nonneg_left b4 u0.le
    linarith
  have a4 : |z4| ≤ 3.03 * S + 4.3 * tiny := by
    have := abs_add_le (z4 - l * z3) (l * z3)
    rw [sub_add_cancel] at this
    linarith
  -- the new entry
  have b5 : |π + z4| ≤ 4.03 * S + 4.3 * tiny := by
    have := abs_add_le π z4
    linarith
  obtain ⟨z5, h5, e5, -⟩ := of_rnd hM (add_val hp h4) (lim _ (by linarith))
  have e5' : |z5 - (π + z4)| ≤ 4.03 * (roundoff * S) + 1.01 * tiny := by
    have := mul_le_mul_of_nonneg_left b5 u0.le
    linarith
  refine ⟨z5, by rw [mul_one_scalar]; exact h5, ?_⟩
  have e6 : |l * (z3 - (r + γ * μ - π))| ≤ 6.02 * (roundoff * S) + 3.1 * tiny := by
    have : |z3 - (r + γ * μ - π)| ≤ 6.02 * (roundoff * S) + 3.1 * tiny := by
      have h := abs_add_three (z3 - (z2 - π)) (z2 - (r + z1)) (z1 - γ * μ)
      rw [show z3 - (z2 - π) + (z2 - (r + z1)) + (z1 - γ * μ) = z3 - (r + γ * μ - π) by ring] at h
      linarith
    rw [abs_mul, abs_of_nonneg l0]
    exact (mul_le_of_le_one_left (abs_nonneg _) l1).trans this
  have h := abs_add_three (z5 - (π + z4)) (z4 - l * z3) (l * (z3 - (r + γ * μ - π)))
  rw [show z5 - (π + z4) + (z4 - l * z3) + l * (z3 - (r + γ * μ - π)) = z5 - (π + l * (r + γ * μ - π)) by ring] at h
  linarith

theorem le_of_lt_false {a b : FP M} {x y : ℝ} (ha : Is a x) (hb : Is b y) (h : Scalar.lt a b = false) : y ≤ x := by
  have : XReal.lt a.1 b.1 = false := h
  rw [ha, hb] at this
  exact not_lt.1 (of_decide_eq_false this)

theorem is_of_finite {a : FP M} (h : Spec.Finite a) : Is a (real a) := by
  obtain ⟨r, hr⟩ := h
  rw [is_real hr]
  exact hr

/-- One step in reals, with an error. -/
theorem backup_bound {p q r g m mq l γ d z ρ : ℝ} (hq : q = r + g * mq) (hm : |m - mq| ≤ d) (l0 : 0 ≤ l) (l1 : l ≤ 1)
    (g0 : 0 ≤ g) (g1 : g ≤ γ) (hz : |z - (p + l * (r + g * m - p))| ≤ ρ) :
    |z - q| ≤ (1 - l) * |p - q| + l * γ * d + ρ := by
  have e : z - q = (1 - l) * (p - q) + l * (g * (m - mq)) + (z - (p + l * (r + g * m - p))) := by
    rw [hq]
    ring
  have h := abs_add_three ((1 - l) * (p - q)) (l * (g * (m - mq))) (z - (p + l * (r + g * m - p)))
  rw [← e, abs_mul, abs_mul, abs_mul, abs_of_nonneg (by linarith : (0 : ℝ) ≤ 1 - l), abs_of_nonneg l0,
    abs_of_nonneg g0] at h
  have h2 : l * (g * |m - mq|) ≤ l * (γ * d) :=
    mul_le_mul_of_nonneg_left (mul_le_mul g1 hm (abs_nonneg _) (g0.trans g1)) l0
  rw [mul_assoc l γ d]
  linarith

end

section
variable {M : Machine} {B O I : Type} [Space B] [Basis B I (FP M)] [Optimiser O (FP M)]

/-- What one call does to the deviations. -/
theorem fp_step (hM : M.rnd = binary64Format.rnd) {b : B} {o : O} {n A : Nat} {X : I → Prop}
    {E : Environment I (FP M)} {rate : FP M} {α γ V C : ℝ} (hrate : Is rate α) (hα : 0 < α) (hα1 : α ≤ 1)
    (ho : TableRate o n rate) (hE : Respects E b A X)
    (hγ : ∀ x a, X x → a < A → Spec.Finite (E.discount x a) ∧ 0 ≤ real (E.discount x a) ∧ real (E.discount x a) ≤ γ)
    (hγ1 : γ < 1)
    (hr : ∀ x a, X x → a < A → Spec.Finite (E.reward x a) ∧ |real (E.reward x a)| ≤ (1 - γ) * V)
    (hu : 32 * roundoff ≤ α * (1 - γ)) (hC : 32 * roundoff * V + 16 * tiny ≤ α * (1 - γ) * C)
    (hVC : V + C ≤ 2 ^ 1000)
    {c : {x // X x} → {i // Cells (K := FP M) b n X i}}
    (hc : ∀ x, Basis.project b x.1 = .ok (.ok (oneHot (FP M) n (c x).1)))
    {Q : {i // Cells (K := FP M) b n X i} → Fin A → ℝ}
    (hQ : ∀ x (a : Fin A), ∃ b', Q (c x) a = real (E.reward x.1 a) + real (E.discount x.1 a) *
          Q (c ⟨E.next x.1 a, hE.closed _ _ x.2 a.2⟩) b' ∧
        ∀ b'', Q (c ⟨E.next x.1 a, hE.closed _ _ x.2 a.2⟩) b'' ≤
          Q (c ⟨E.next x.1 a, hE.closed _ _ x.2 a.2⟩) b') (hQV : ∀ i a, |Q i a| ≤ V)
    {ws : List (List (FP M))} (hA : ws.length = A) (hl : ∀ col ∈ ws, col.length = n)
    (inv : ∀ i (a : Fin A), Spec.Finite (cellOf ws a i.1) ∧ |real (cellOf ws a i.1) - Q i a| ≤ C)
    {x : I} (hx : X x) {a : Nat} (ha : a < A) {fv' : VectorLFA B O (FP M)}
    (h : Learns E (LFA.mk b ws o) x a fv') :
    ∃ ws', fv' = LFA.mk b ws' o ∧ ws'.length = A ∧ (∀ col ∈ ws', col.length = n) ∧
      (∀ i (a : Fin A), Spec.Finite (cellOf ws' a i.1) ∧ |real (cellOf ws' a i.1) - Q i a| ≤ C) ∧
      (∀ i (a' : Fin A), (i, a') ≠ (c ⟨x, hx⟩, ⟨a, ha⟩) → cellOf ws' a' i.1 = cellOf ws a' i.1) ∧
      ∀ d, 0 ≤ d → (∀ a' : Fin A, |real (cellOf ws a' (c ⟨E.next x a, hE.closed x a hx ha⟩).1) -
          Q (c ⟨E.next x a, hE.closed x a hx ha⟩) a'| ≤ d) →
        |real (cellOf ws a (c ⟨x, hx⟩).1) - Q (c ⟨x, hx⟩) ⟨a, ha⟩| ≤ d →
        |real (cellOf ws' a (c ⟨x, hx⟩).1) - Q (c ⟨x, hx⟩) ⟨a, ha⟩| ≤
          (1 - α) * |real (cellOf ws a (c ⟨x, hx⟩).1) - Q (c ⟨x, hx⟩) ⟨a, ha⟩| + α * (γ + 16 * roundoff / α) * d +
            (16 * roundoff * V + 8 * tiny) := by
  obtain ⟨ws', m, g1, g2, g3, ⟨a', ha', g4⟩, g5, g6, g7⟩ := learns_any exactOne_fp ho hE hc hA hl hx ha h
  obtain ⟨b', q1, q2⟩ := hQ ⟨x, hx⟩ ⟨a, ha⟩
  set i₀ := c ⟨x, hx⟩ with hi₀
  set i₁ := c ⟨E.next x a, hE.closed x a hx ha⟩ with hi₁
  obtain ⟨fd, d0, d1⟩ := hγ x a hx ha
  obtain ⟨fr, br⟩ := hr x a hx ha
  have u0 := roundoff_pos
  have t0 := tiny_pos
  have hg : 0 < 1 - γ := by linarith
  have hag : 0 < α * (1 - γ) := mul_pos hα hg
  have V0 : 0 ≤ V := by
    by_contra hneg
    have := abs_nonneg (real (E.reward x a))
    nlinarith
  have C0 : 0 ≤ C := by
    by_contra hneg
    have := mul_nonneg u0.le V0
    nlinarith
  have hm : Is m (real (cellOf ws a' i₁.1)) := by
    rw [g4]
    exact is_of_finite (inv i₁ ⟨a', ha'⟩).1
  have hp := is_of_finite (inv i₀ ⟨a, ha⟩).1
  have main : ∀ d, 0 ≤ d → d ≤ C → (∀ a'' : Fin A, |real (cellOf ws a'' i₁.1) - Q i₁ a''| ≤ d) →
      |real (cellOf ws a i₀.1) - Q i₀ ⟨a, ha⟩| ≤ d → ∃ z, Is (cellOf ws' a i₀.1) z ∧ |z - Q i₀ ⟨a, ha⟩| ≤
        (1 - α) * |real (cellOf ws a i₀.1) - Q i₀ ⟨a, ha⟩| + α * (γ + 16 * roundoff / α) * d +
          (16 * roundoff * V + 8 * tiny) := by
    intro d dpos dC hd1 hd2
    have bnd : ∀ v w : ℝ, |v - w| ≤ d → |w| ≤ V → |v| ≤ V + d := by
      intro v w h1 h2
      have := abs_add_le (v - w) w
      rw [sub_add_cancel] at this
      linarith
    obtain ⟨z, hz, ez⟩ := backup_step hM (is_of_finite fr) (is_of_finite fd) hm hp hrate hα.le hα1 d0
      (by linarith) (S := V + d) (br.trans (by nlinarith only [V0, dpos, d0, d1, hγ1])) (bnd _ _ (hd1 ⟨a', ha'⟩) (hQV _ _))
      (bnd _ _ hd2 (hQV _ _)) (by linarith)
    rw [g6]
    refine ⟨z, hz, ?_⟩
    have hmq : |real (cellOf ws a' i₁.1) - Q i₁ b'| ≤ d := by
      have t1 := (abs_le.1 (hd1 ⟨a', ha'⟩)).2
      have t2 := (abs_le.1 (hd1 b')).1
      have t5 := q2 ⟨a', ha'⟩
      have t6 := le_of_lt_false hm (is_of_finite (inv i₁ b').1) (g5 b' b'.2)
      simp only at t1 t2 t5 t6
      rw [abs_le]
      constructor <;> linarith
    have := backup_bound q1 hmq hα.le hα1 d0 d1 ez
    refine this.trans (le_of_eq ?_)
    field_simp
    ring
  have key : ∀ d, 0 ≤ d → (∀ a'' : Fin A, |real (cellOf ws a'' i₁.1) - Q i₁ a''| ≤ d) →
      |real (cellOf ws a i₀.1) - Q i₀ ⟨a, ha⟩| ≤ d → ∃ z, Is (cellOf ws' a i₀.1) z ∧ |z - Q i₀ ⟨a, ha⟩| ≤
        (1 - α) * |real (cellOf ws a i₀.1) - Q i₀ ⟨a, ha⟩| + α * (γ + 16 * roundoff / α) * d +
          (16 * roundoff * V + 8 * tiny) := by
    intro d dpos hd1 hd2
    obtain ⟨z, hz, ez⟩ := main (min d C) (le_min dpos C0) (min_le_right _ _)
      (fun a'' => le_min (hd1 a'') (inv i₁ a'').2) (le_min hd2 (inv i₀ ⟨a, ha⟩).2)
    refine ⟨z, hz, ez.trans ?_⟩
    have : α * (γ + 16 * roundoff / α) * min d C ≤ α * (γ + 16 * roundoff / α) * d :=
      mul_le_mul_of_nonneg_left (min_le_left _ _) (by
        have := d0.trans d1
        positivity)
    linarith
  have invC := key C C0 (fun a'' => (inv i₁ a'').2) (inv i₀ ⟨a, ha⟩).2
  obtain ⟨z, hz, ez⟩ := invC
  have ezC : |z - Q i₀ ⟨a, ha⟩| ≤ C := by
    refine ez.trans ?_
    have h1 := mul_le_mul_of_nonneg_left (inv i₀ ⟨a, ha⟩).2 (by linarith : (0 : ℝ) ≤ 1 - α)
    have h2 : α * (γ + 16 * roundoff / α) * C = α * γ * C + 16 * roundoff * C := by
      field_simp
    have h3 := mul_le_mul_of_nonneg_right hu C0
    rw [h2]
    simp only at h1
    linarith
  refine ⟨ws', g1, g2, g3, fun i a'' => ?_, fun i a'' hne => ?_, fun d dpos hd1 hd2 => ?_⟩
  · by_cases hne : (i, a'') = (i₀, ⟨a, ha⟩)
    · cases hne
      exact ⟨⟨z, hz⟩, by rw [is_real hz]; exact ezC⟩
    · rw [g7 a'' i.1 fun hcon => hne (Prod.ext (Subtype.ext (congrArg Prod.snd hcon))
        (Fin.ext (congrArg Prod.fst hcon)))]
      exact inv i a''
  · exact g7 a'' i.1 fun hcon => hne (Prod.ext (Subtype.ext (congrArg Prod.snd hcon))
      (Fin.ext (congrArg Prod.fst hcon)))
  · obtain ⟨z', hz', ez'⟩ := key d dpos hd1 hd2
    rw [is_real hz']
    exact ez'

/-- The weights at the start are near the values. -/
theorem fp_start {b : B} {n A : Nat} {X : I → Prop} {V C : ℝ} {Q : {i // Cells (K := FP M) b n X i} → Fin A → ℝ}
    (hQV : ∀ i a, |Q i a| ≤ V) {ws : List (List (FP M))} (hws : ws.length = A) (hl : ∀ col ∈ ws, col.length = n)
    (hw : ∀ col ∈ ws, ∀ w ∈ col, Spec.Finite w ∧ |real w| + V ≤ C) (i : {i // Cells (K := FP M) b n X i}) (a : Fin A) :
    Spec.Finite (cellOf ws a i.1) ∧ |real (cellOf ws a i.1) - Q i a| ≤ C := by
  have ha : a.1 < ws.length := hws.symm ▸ a.2
  have hcol := List.getElem_mem ha
  have hi : i.1 < ws[a.1].length := by
    rw [hl _ hcol]
    exact i.2.1
  have e : cellOf ws a i.1 = ws[a.1][i.1] := by
    unfold cellOf entry
    rw [List.getD_eq_getElem _ _ ha, List.getD_eq_getElem _ _ hi]
  obtain ⟨h1, h2⟩ := hw _ hcol _ (List.getElem_mem hi)
  rw [e]
  refine ⟨h1, (abs_sub _ _).trans ?_⟩
  have := hQV i a
  linarith

/-- The values, the weights and their distance. -/
theorem learns_fp (hM : M.rnd = binary64Format.rnd) {b : B} {o : O} {n A : Nat} {X : I → Prop}
    {E : Environment I (FP M)} {rate : FP M} {α γ V C : ℝ} (hA : 0 < A) (hrate : Is rate α) (hα : 0 < α) (hα1 : α ≤ 1)
    (ho : TableRate o n rate) (hb : IsTable (K := FP M) b n X) (hE : Respects E b A X)
    (hγ : ∀ x a, X x → a < A → Spec.Finite (E.discount x a) ∧ 0 ≤ real (E.discount x a) ∧ real (E.discount x a) ≤ γ)
    (hγ1 : γ < 1)
    (hr : ∀ x a, X x → a < A → Spec.Finite (E.reward x a) ∧ |real (E.reward x a)| ≤ (1 - γ) * V)
    (hu : 32 * roundoff ≤ α * (1 - γ)) (hC : 32 * roundoff * V + 16 * tiny ≤ α * (1 - γ) * C)
    (hVC : V + C ≤ 2 ^ 1000) (xs : Nat → I) (as : Nat → Nat) (hxs : ∀ k, X (xs k)) (has : ∀ k, as k < A)
    (ws : List (List (FP M))) (hws : ws.length = A) (hl : ∀ col ∈ ws, col.length = n)
    (hw : ∀ col ∈ ws, ∀ w ∈ col, Spec.Finite w ∧ |real w| + V ≤ C)
    (fas : Nat → VectorLFA B O (FP M)) (h0 : fas 0 = LFA.mk b ws o)
    (hs : ∀ k, Learns E (fas k) (xs k) (as k) (fas (k + 1))) :
    ∃ (c : {x // X x} → {i // Cells (K := FP M) b n X i}) (Q : {i // Cells (K := FP M) b n X i} → Fin A → ℝ)
      (v : Nat → List (List (FP M))), Function.Surjective c ∧
      (∀ x, Basis.project b x.1 = .ok (.ok (oneHot (FP M) n (c x).1))) ∧
      (∀ k, fas k = LFA.mk b (v k) o ∧ (v k).length = A ∧ ∀ col ∈ v k, col.length = n) ∧
      (∀ x (a : Fin A), Best (mapEnv real E) A x.1 a (Q (c x) a)) ∧
      (∀ (x : {x // X x}) (acts : Nat → Nat) (hacts : ∀ k, acts k < A) (hin : ∀ k, X (E.visits x.1 acts k)) (δ : ℝ),
        0 ≤ δ →
        (∀ k b', Q (c ⟨_, hin (k + 1)⟩) b' ≤ Q (c ⟨_, hin (k + 1)⟩) ⟨acts (k + 1), hacts (k + 1)⟩ + δ) →
        ∃ G, Collects (mapEnv real E) x.1 acts G ∧ Q (c x) ⟨acts 0, hacts 0⟩ - γ * δ / (1 - γ) ≤ G) ∧
      (∀ i a, |Q i a| ≤ V) ∧
      (∀ k i (a : Fin A), Spec.Finite (cellOf (v k) a i.1) ∧ |real (cellOf (v k) a i.1) - Q i a| ≤ C) ∧
      ((∀ k a, a < A → ∀ m, ∃ j, m ≤ j ∧ SameProjection (K := FP M) b (xs j) (E.next (xs k) (as k)) ∧ as j = a) →
        ∀ ε > 0, ∃ m, ∀ k, m ≤ k → ∀ (x : {x // X x}) (a : Fin A),
          (∀ m, ∃ j, m ≤ j ∧ SameProjection (K := FP M) b (xs j) x.1 ∧ as j = a) →
          |real (cellOf (v k) a (c x).1) - Q (c x) a| ≤
            (32 * roundoff * V + 16 * tiny) / (α * (1 - γ)) + ε) := by
  classical
  obtain ⟨c, hc, hsurj, hal⟩ := cell_exists hb
  have hγ' : ∀ x a, X x → a < A → 0 ≤ real (E.discount x a) ∧ real (E.discount x a) ≤ γ := fun x a hx ha =>
    (hγ x a hx ha).2
  have hγ0 : 0 ≤ γ := (hγ' _ _ (hxs 0) (has 0)).1.trans (hγ' _ _ (hxs 0) (has 0)).2
  obtain ⟨Q, hQ1, hQ2, hQ3, hQ4⟩ := values_exist real hA hE hsurj hal hγ0 hγ' hγ1
  have hQV := hQ4 V fun x a hx ha => (hr x a hx ha).2
  have := cells_finite (K := FP M) b n X
  have u0 := roundoff_pos
  have t0 := tiny_pos
  have hg : 0 < 1 - γ := by linarith
  have hag : 0 < α * (1 - γ) := mul_pos hα hg
  have V0 : 0 ≤ V := by
    by_contra hneg
    have h1 := (hr _ _ (hxs 0) (has 0)).2
    have h2 := abs_nonneg (real (E.reward (xs 0) (as 0)))
    nlinarith
  have key : ∀ k, ∃ v, fas k = LFA.mk b v o ∧ v.length = A ∧ (∀ col ∈ v, col.length = n) ∧
      ∀ i (a : Fin A), Spec.Finite (cellOf v a i.1) ∧ |real (cellOf v a i.1) - Q i a| ≤ C := by
    intro k
    induction k with
    | zero => exact ⟨ws, h0, hws, hl, fp_start hQV hws hl hw⟩
    | succ k ih =>
      obtain ⟨v, h1, h2, h3, h4⟩ := ih
      have := hs k
      rw [h1] at this
      obtain ⟨v', g1, g2, g3, g4, -⟩ := fp_step hM hrate hα hα1 ho hE hγ hγ1 hr hu hC hVC hc hQ2 hQV h2 h3 h4
        (hxs k) (has k) this
      exact ⟨v', g1, g2, g3, g4⟩
  choose v hv1 hv2 hv3 hv4 using key
  refine ⟨c, Q, v, hsurj, hc, fun k => ⟨hv1 k, hv2 k, hv3 k⟩, hQ1, hQ3, hQV, hv4, fun hv ε hε => ?_⟩
  have step := fun k => by
    have := hs k
    rw [hv1 k] at this
    exact fp_step hM hrate hα hα1 ho hE hγ hγ1 hr hu hC hVC hc hQ2 hQV (hv2 k) (hv3 k) (hv4 k) (hxs k) (has k) this
  set s : Nat → {i // Cells (K := FP M) b n X i} × Fin A := fun k => (c ⟨xs k, hxs k⟩, ⟨as k, has k⟩) with hsd
  set nxt : Nat → {i // Cells (K := FP M) b n X i} := fun k => c ⟨E.next (xs k) (as k), hE.closed _ _ (hxs k) (has k)⟩
    with hnxt
  set e : Nat → {i // Cells (K := FP M) b n X i} × Fin A → ℝ := fun k p => real (cellOf (v k) p.2 p.1.1) - Q p.1 p.2
    with he
  have hrec : ∀ (x : {x // X x}) (a : Fin A),
      (∀ m, ∃ j, m ≤ j ∧ SameProjection (K := FP M) b (xs j) x.1 ∧ as j = a.1) → Backup.Recurrent s (c x, a) := by
    intro x a h m
    obtain ⟨j, h1, h2, h3⟩ := h m
    exact ⟨j, h1, Prod.ext ((hal ⟨xs j, hxs j⟩ x).2 h2) (Fin.ext h3)⟩
  have hsmall : 16 * roundoff / α ≤ (1 - γ) / 2 := by
    rw [div_le_iff₀ hα]
    linarith
  have hfalls := Backup.falls (e := e) (s := s) (T := fun k => {p | p.1 = nxt k}) (γ := γ + 16 * roundoff / α)
    (ρ := 16 * roundoff * V + 8 * tiny) hα hα1 (by positivity) (by linarith) (by positivity)
    (fun k i hi => ?_) (fun k i hi => ?_) (fun k d hd _ hT hs' => ?_) ε hε
  · obtain ⟨m, hm⟩ := hfalls
    refine ⟨m, fun k hk x a hrx => (hm k hk _ (hrec x a hrx)).trans ?_⟩
    refine add_le_add ?_ le_rfl
    have hpos : 0 < 1 - (γ + 16 * roundoff / α) := by linarith
    rw [div_le_div_iff₀ (mul_pos hα hpos) hag]
    have h1 : α * (1 - γ) ≤ 2 * (α * (1 - (γ + 16 * roundoff / α))) := by
      have := mul_le_mul_of_nonneg_left (by linarith : 1 - γ ≤ 2 * (1 - (γ + 16 * roundoff / α))) hα.le
      linarith
    have h2 : 0 ≤ 16 * roundoff * V + 8 * tiny := by positivity
    have := mul_le_mul_of_nonneg_left h1 h2
    linarith
  · obtain ⟨ws', g1, -, -, -, g5, -⟩ := step k
    have hw' : v (k + 1) = ws' := by
      have := (hv1 (k + 1)).symm.trans g1
      injection this
    show real (cellOf (v (k + 1)) i.2 i.1.1) - _ = real (cellOf (v k) i.2 i.1.1) - _
    rw [hw', g5 i.1 i.2 hi]
  · have hi : i.1 = nxt k := hi
    have := hrec ⟨E.next (xs k) (as k), hE.closed _ _ (hxs k) (has k)⟩ i.2 (hv k i.2 i.2.2)
    rw [show i = (nxt k, i.2) from Prod.ext hi rfl]
    exact this
  · obtain ⟨ws', g1, -, -, -, -, g6⟩ := step k
    have hw' : v (k + 1) = ws' := by
      have := (hv1 (k + 1)).symm.trans g1
      injection this
    show |real (cellOf (v (k + 1)) (as k) (c ⟨xs k, hxs k⟩).1) - _| ≤ _
    rw [hw']
    exact g6 d hd (fun a' => hT (nxt k, a') rfl) hs'

/-- Greedy actions, in the end. -/
theorem learns_fp_greedy (hM : M.rnd = binary64Format.rnd) {b : B} {o : O} {n A : Nat} {X : I → Prop}
    {E : Environment I (FP M)} {rate : FP M} {α γ V C : ℝ} (hA : 0 < A) (hrate : Is rate α) (hα : 0 < α) (hα1 : α ≤ 1)
    (ho : TableRate o n rate) (hb : IsTable (K := FP M) b n X) (hE : Respects E b A X)
    (hγ : ∀ x a, X x → a < A → Spec.Finite (E.discount x a) ∧ 0 ≤ real (E.discount x a) ∧ real (E.discount x a) ≤ γ)
    (hγ1 : γ < 1)
    (hr : ∀ x a, X x → a < A → Spec.Finite (E.reward x a) ∧ |real (E.reward x a)| ≤ (1 - γ) * V)
    (hu : 32 * roundoff ≤ α * (1 - γ)) (hC : 32 * roundoff * V + 16 * tiny ≤ α * (1 - γ) * C)
    (hVC : V + C ≤ 2 ^ 1000) (xs : Nat → I) (as : Nat → Nat) (hxs : ∀ k, X (xs k)) (has : ∀ k, as k < A)
    (ws : List (List (FP M))) (hws : ws.length = A) (hl : ∀ col ∈ ws, col.length = n)
    (hw : ∀ col ∈ ws, ∀ w ∈ col, Spec.Finite w ∧ |real w| + V ≤ C)
    (hv : ∀ x a, X x → a < A → ∀ m, ∃ j, m ≤ j ∧ SameProjection (K := FP M) b (xs j) x ∧ as j = a)
    (fas : Nat → VectorLFA B O (FP M)) (h0 : fas 0 = LFA.mk b ws o)
    (hs : ∀ k, Learns E (fas k) (xs k) (as k) (fas (k + 1))) (ε : ℝ) (hε : 0 < ε) :
    ∃ m, ∀ k, m ≤ k → ∀ (x : I) (acts : Nat → Nat), X x → (∀ j, acts j < A) →
      (∀ j, Greedy (fas k) (E.visits x acts j) (acts j)) →
      ∃ G, (mapEnv real E).Collects x acts G ∧
        ∀ (acts' : Nat → Nat) (G' : ℝ), (∀ j, acts' j < A) → (mapEnv real E).Collects x acts' G' →
          G' ≤ G + 2 / (1 - γ) * ((32 * roundoff * V + 16 * tiny) / (α * (1 - γ)) + ε) := by
  obtain ⟨c, Q, v, hsurj, hc, hv', hQ, hQ3, -, hfin, ht⟩ := learns_fp hM hA hrate hα hα1 ho hb hE hγ hγ1 hr hu hC hVC
    xs as hxs has ws hws hl hw fas h0 hs
  obtain ⟨m, hm⟩ := ht (fun k a ha => hv _ a (hE.closed _ _ (hxs k) (has k)) ha) ε hε
  set D := (32 * roundoff * V + 16 * tiny) / (α * (1 - γ)) + ε with hD
  have hg : 0 < 1 - γ := by linarith
  refine ⟨m, fun k hk x acts hx hacts hgr => ?_⟩
  have hin : ∀ j, X (E.visits x acts j) := by
    intro j
    induction j with
    | zero => exact hx
    | succ j ih => exact hE.closed _ _ ih (hacts j)
  have near : ∀ (x : {x // X x}) (a : Fin A), |real (cellOf (v k) a (c x).1) - Q (c x) a| ≤ D := fun x a =>
    hm k hk x a (hv _ _ x.2 a.2)
  have D0 : 0 ≤ D := (abs_nonneg _).trans (near ⟨x, hx⟩ ⟨0, hA⟩)
  have best : ∀ j b', Q (c ⟨_, hin j⟩) b' ≤ Q (c ⟨_, hin j⟩) ⟨acts j, hacts j⟩ + 2 * D := by
    intro j b'
    obtain ⟨qs, q, g1, g2, g3⟩ := hgr j
    rw [(hv' k).1, table_evaluate exactOne_fp (hv' k).2.2 (c ⟨_, hin j⟩).2.1 (hc ⟨_, hin j⟩)] at g1
    cases g1
    have hlen : ∀ a : Fin A, a.1 < (v k).length := fun a => (hv' k).2.1.symm ▸ a.2
    have e : ∀ a : Fin A, ((v k).map fun col => entry col (c ⟨_, hin j⟩).1)[a.1]? =
        some (cellOf (v k) a (c ⟨_, hin j⟩).1) := fun a => by
      rw [List.getElem?_map, List.getElem?_eq_getElem (hlen a), cellOf, List.getD_eq_getElem _ _ (hlen a)]
      rfl
    have g4 := (e ⟨acts j, hacts j⟩).symm.trans g2
    injection g4 with g4
    have g5 := g3 _ (List.mem_of_getElem? (e b'))
    rw [← g4] at g5
    have g6 := le_of_lt_false (is_of_finite (hfin k (c ⟨_, hin j⟩) ⟨acts j, hacts j⟩).1)
      (is_of_finite (hfin k (c ⟨_, hin j⟩) b').1) g5
    have n1 := abs_le.1 (near ⟨_, hin j⟩ b')
    have n2 := abs_le.1 (near ⟨_, hin j⟩ ⟨acts j, hacts j⟩)
    simp only at g6 n2
    linarith [n1.1, n2.2]
  obtain ⟨G, hG, hle⟩ := hQ3 ⟨x, hx⟩ acts hacts hin (2 * D) (by linarith) fun j b' => best (j + 1) b'
  refine ⟨G, hG, fun acts' G' ha' hG' => ?_⟩
  have h1 := (hQ ⟨x, hx⟩ ⟨acts' 0, ha' 0⟩).2 ⟨acts', rfl, ha', hG'⟩
  have h2 : Q (c ⟨x, hx⟩) ⟨acts' 0, ha' 0⟩ ≤ Q (c ⟨x, hx⟩) ⟨acts 0, hacts 0⟩ + 2 * D := best 0 _
  have h3 : 2 / (1 - γ) * D = γ * (2 * D) / (1 - γ) + 2 * D := by
    field_simp
    ring
  rw [h3]
  linarith

/-- Every call succeeds. -/
theorem learns_fp_total {b : B} {o : O} {n A : Nat} {X : I → Prop} {E : Environment I (FP M)} {rate : FP M} (hA : 0 < A)
    (ho : TableRate o n rate) (hb : IsTable (K := FP M) b n X) (hE : Respects E b A X) {ws : List (List (FP M))}
    (hws : ws.length = A) (hl : ∀ col ∈ ws, col.length = n)
    (hf : ∀ i (a : Fin A), Cells (K := FP M) b n X i → Spec.Finite (cellOf ws a i)) {x : I} (hx : X x) {a : Nat}
    (ha : a < A) :
    ∃ ws', Learns E (LFA.mk b ws o) x a (LFA.mk b ws' o) := by
  subst hws
  obtain ⟨i, hi, hp⟩ := hb x hx
  obtain ⟨i', hi', hp'⟩ := hb _ (hE.closed x a hx ha)
  have : Nonempty (Fin ws.length) := ⟨⟨a, ha⟩⟩
  obtain ⟨a₁, hmax⟩ := Finite.exists_max fun a : Fin ws.length => real (cellOf ws a i')
  have fin := fun a' => is_of_finite (hf i' a' ⟨hi', _, hE.closed x a hx ha, hp'⟩)
  have e : ∀ a : Fin ws.length, cellOf ws a i' = entry ws[a.1] i' := fun a => by
    rw [cellOf, List.getD_eq_getElem _ _ a.2]
  obtain ⟨ws', u1, -⟩ := table_update ho hl hi hp ha
    (E.reward x a +. E.discount x a *. cellOf ws a₁ i' -. cellOf ws a i)
  refine ⟨ws', _, cellOf ws a₁ i', _, table_evaluate exactOne_fp hl hi' hp', ?_, fun p hp => ?_,
    table_evaluateIndex exactOne_fp hl hi hp ha, u1⟩
  · rw [e]
    exact List.mem_map.2 ⟨_, List.getElem_mem a₁.2, rfl⟩
  · obtain ⟨col, hcol, rfl⟩ := List.mem_map.1 hp
    obtain ⟨j, hj, rfl⟩ := List.mem_iff_getElem.1 hcol
    have h1 := e ⟨j, hj⟩
    simp only at h1
    rw [← h1]
    show XReal.lt (cellOf ws a₁ i').1 (cellOf ws j i').1 = false
    rw [fin a₁, fin ⟨j, hj⟩]
    exact decide_eq_false (not_lt.2 (hmax ⟨j, hj⟩))

theorem learns_fp_run (hM : M.rnd = binary64Format.rnd) {b : B} {o : O} {n A : Nat} {X : I → Prop}
    {E : Environment I (FP M)} {rate : FP M} {α γ V C : ℝ} (hA : 0 < A) (hrate : Is rate α) (hα : 0 < α) (hα1 : α ≤ 1)
    (ho : TableRate o n rate) (hb : IsTable (K := FP M) b n X) (hE : Respects E b A X)
    (hγ : ∀ x a, X x → a < A → Spec.Finite (E.discount x a) ∧ 0 ≤ real (E.discount x a) ∧ real (E.discount x a) ≤ γ)
    (hγ1 : γ < 1)
    (hr : ∀ x a, X x → a < A → Spec.Finite (E.reward x a) ∧ |real (E.reward x a)| ≤ (1 - γ) * V)
    (hu : 32 * roundoff ≤ α * (1 - γ)) (hC : 32 * roundoff * V + 16 * tiny ≤ α * (1 - γ) * C)
    (hVC : V + C ≤ 2 ^ 1000) (xs : Nat → I) (as : Nat → Nat) (hxs : ∀ k, X (xs k)) (has : ∀ k, as k < A)
    (ws : List (List (FP M))) (hws : ws.length = A) (hl : ∀ col ∈ ws, col.length = n)
    (hw : ∀ col ∈ ws, ∀ w ∈ col, Spec.Finite w ∧ |real w| + V ≤ C) :
    ∃ fas : Nat → VectorLFA B O (FP M), fas 0 = LFA.mk b ws o ∧
      ∀ k, Learns E (fas k) (xs k) (as k) (fas (k + 1)) := by
  obtain ⟨c, hc, hsurj, hal⟩ := cell_exists hb
  have hγ' : ∀ x a, X x → a < A → 0 ≤ real (E.discount x a) ∧ real (E.discount x a) ≤ γ := fun x a hx ha =>
    (hγ x a hx ha).2
  have hγ0 : 0 ≤ γ := (hγ' _ _ (hxs 0) (has 0)).1.trans (hγ' _ _ (hxs 0) (has 0)).2
  obtain ⟨Q, hQ1, hQ2, hQ3, hQ4⟩ := values_exist real hA hE hsurj hal hγ0 hγ' hγ1
  have hQV := hQ4 V fun x a hx ha => (hr x a hx ha).2
  let Ok : List (List (FP M)) → Prop := fun ws => ws.length = A ∧ (∀ col ∈ ws, col.length = n) ∧
    ∀ i (a : Fin A), Spec.Finite (cellOf ws a i.1) ∧ |real (cellOf ws a i.1) - Q i a| ≤ C
  have next : ∀ (u : {ws : List (List (FP M)) // Ok ws}) (k : Nat), ∃ ws', Ok ws' ∧
      Learns E (LFA.mk b u.1 o) (xs k) (as k) (LFA.mk b ws' o) := by
    intro u k
    obtain ⟨ws', h⟩ := learns_fp_total hA ho hb hE u.2.1 u.2.2.1 (fun i a hi => (u.2.2.2 ⟨i, hi⟩ a).1) (hxs k) (has k)
    obtain ⟨ws'', g1, g2, g3, g4, -⟩ := fp_step hM hrate hα hα1 ho hE hγ hγ1 hr hu hC hVC hc hQ2 hQV u.2.1 u.2.2.1
      u.2.2.2 (hxs k) (has k) h
    have e : ws' = ws'' := by injection g1
    rw [e] at h
    exact ⟨ws'', ⟨g2, g3, g4⟩, h⟩
  choose f f1 f2 using next
  let us : Nat → {ws : List (List (FP M)) // Ok ws} := fun k =>
    k.rec ⟨ws, hws, hl, fp_start hQV hws hl hw⟩ fun k u => ⟨f u k, f1 u k⟩
  exact ⟨fun k => LFA.mk b (us k).1 o, rfl, fun k => f2 (us k) k⟩

/-- Predictions in the end. -/
theorem learns_fp_converge (hM : M.rnd = binary64Format.rnd) {b : B} {o : O} {n A : Nat} {X : I → Prop}
    {E : Environment I (FP M)} {rate : FP M} {α γ V C : ℝ} (hA : 0 < A) (hrate : Is rate α) (hα : 0 < α) (hα1 : α ≤ 1)
    (ho : TableRate o n rate) (hb : IsTable (K := FP M) b n X) (hE : Respects E b A X)
    (hγ : ∀ x a, X x → a < A → Spec.Finite (E.discount x a) ∧ 0 ≤ real (E.discount x a) ∧ real (E.discount x a) ≤ γ)
    (hγ1 : γ < 1)
    (hr : ∀ x a, X x → a < A → Spec.Finite (E.reward x a) ∧ |real (E.reward x a)| ≤ (1 - γ) * V)
    (hu : 32 * roundoff ≤ α * (1 - γ)) (hC : 32 * roundoff * V + 16 * tiny ≤ α * (1 - γ) * C)
    (hVC : V + C ≤ 2 ^ 1000) (xs : Nat → I) (as : Nat → Nat) (hxs : ∀ k, X (xs k)) (has : ∀ k, as k < A)
    (ws : List (List (FP M))) (hws : ws.length = A) (hl : ∀ col ∈ ws, col.length = n)
    (hw : ∀ col ∈ ws, ∀ w ∈ col, Spec.Finite w ∧ |real w| + V ≤ C)
    (fas : Nat → VectorLFA B O (FP M)) (h0 : fas 0 = LFA.mk b ws o)
    (hs : ∀ k, Learns E (fas k) (xs k) (as k) (fas (k + 1))) (x : I) (a : Nat) (hx : X x) (ha : a < A) :
    ∃ (p : Nat → FP M) (q : ℝ), (∀ k, (fas k).evaluateIndex x a = .ok (.ok (p k))) ∧
      Best (mapEnv real E) A x a q ∧ |q| ≤ V ∧ (∀ k, Spec.Finite (p k) ∧ |real (p k) - q| ≤ C) ∧
      ((∀ k a, a < A → ∀ m, ∃ j, m ≤ j ∧ SameProjection (K := FP M) b (xs j) (E.next (xs k) (as k)) ∧ as j = a) →
        (∀ m, ∃ j, m ≤ j ∧ SameProjection (K := FP M) b (xs j) x ∧ as j = a) →
        ∀ ε > 0, ∃ m, ∀ k, m ≤ k →
          |real (p k) - q| ≤ (32 * roundoff * V + 16 * tiny) / (α * (1 - γ)) + ε) := by
  obtain ⟨c, Q, v, hsurj, hc, hv', hQ, -, hQV, hfin, ht⟩ := learns_fp hM hA hrate hα hα1 ho hb hE hγ hγ1 hr hu hC hVC
    xs as hxs has ws hws hl hw fas h0 hs
  refine ⟨fun k => cellOf (v k) a (c ⟨x, hx⟩).1, Q (c ⟨x, hx⟩) ⟨a, ha⟩, fun k => ?_, hQ ⟨x, hx⟩ ⟨a, ha⟩, hQV _ _,
    fun k => hfin k (c ⟨x, hx⟩) ⟨a, ha⟩, fun hv hrx ε hε => ?_⟩
  · rw [(hv' k).1]
    exact table_evaluateIndex exactOne_fp (hv' k).2.2 (c ⟨x, hx⟩).2.1 (hc ⟨x, hx⟩) ((hv' k).2.1.symm ▸ ha)
  · obtain ⟨m, hm⟩ := ht hv ε hε
    exact ⟨m, fun k hk => hm k hk ⟨x, hx⟩ ⟨a, ha⟩ hrx⟩

end

section
variable {M : Machine} {B I : Type} [Space B] [Basis B I (FP M)]

/-- The rate of ISGD on a table. -/
theorem isgd_rate_fp (hM : M.rnd = binary64Format.rnd) {lr : FP M} {l : ℝ} (hl : Is lr l) (l0 : 0 < l) (l1 : l ≤ 2 ^ 40)
    (l2 : 64 * roundoff ≤ l / (1 + l)) :
    ∃ α, Is ((ISGD.mk lr).computeLr (oneHot (FP M) 1 0)) α ∧ l / (1 + l) ≤ 2 * α ∧ α ≤ 1 := by
  obtain ⟨c, hc, ec⟩ := C161_rate hM (ISGD.mk lr) hl l0.le
    (l1.trans (pow_le_pow_right₀ (by norm_num) (by norm_num))) (oneHot (FP M) 1 0) (oneHot_fits (by norm_num)).1
    (fun i v h => by
      have h := List.mem_singleton.1 h
      injection h with _ h
      rw [h]
      exact ⟨1, val_one⟩)
    (by
      show (1 : ℕ) ≤ 2 ^ 40
      norm_num) 1
    (by
      show (1 : ℝ) = ∑ i ∈ Finset.range 1, real (value (oneHot (FP M) 1 0) i) ^ 2
      rw [Finset.sum_range_one, show value (oneHot (FP M) 1 0) 0 = Scalar.one from rfl, is_real val_one, one_pow])
    (one_le_pow₀ (by norm_num))
    (by
      rw [mul_one]
      exact l1.trans (pow_le_pow_right₀ (by norm_num) (by norm_num)))
  have hcount : (storedCount (oneHot (FP M) 1 0) : ℝ) = 1 := by
    show ((1 : ℕ) : ℝ) = 1
    norm_num
  rw [hcount, mul_one] at ec
  have u1 : roundoff = 2 ^ (-53 : ℤ) := rfl
  have t1 : tiny ≤ roundoff * roundoff := by
    rw [tiny, roundoff, ← zpow_add₀ (by norm_num : (2 : ℝ) ≠ 0)]
    exact zpow_le_zpow_right₀ (by norm_num) (by norm_num)
  have u0 := roundoff_pos
  have u2 := roundoff_small
  obtain ⟨e1, e2⟩ := abs_le.1 ec
  have hup : l / (1 + l) ≤ 1 - 1 / 2 ^ 41 := by
    rw [div_le_iff₀ (by linarith)]
    norm_num at l1 ⊢
    linarith
  have hu : 20 * roundoff ≤ 1 / 2 ^ 41 := by
    rw [u1]
    norm_num
  refine ⟨c, hc, ?_, ?_⟩ <;> nlinarith

theorem isgd_conditions (hM : M.rnd = binary64Format.rnd) {lr : FP M} {l γ V C : ℝ} (hl : Is lr l) (l0 : 0 < l)
    (l1 : l ≤ 2 ^ 40) (hγ0 : 0 ≤ γ) (hγ1 : γ < 1) (hR : 0 ≤ (1 - γ) * V)
    (hu : 64 * roundoff ≤ l / (1 + l) * (1 - γ))
    (hC : 64 * roundoff * V + 32 * tiny ≤ l / (1 + l) * (1 - γ) * C) :
    ∃ α, Is ((ISGD.mk lr).computeLr (oneHot (FP M) 1 0)) α ∧ l / (1 + l) ≤ 2 * α ∧ α ≤ 1 ∧
      32 * roundoff ≤ α * (1 - γ) ∧ 32 * roundoff * V + 16 * tiny ≤ α * (1 - γ) * C := by
  have u0 := roundoff_pos
  have t0 := tiny_pos
  have hg : 0 < 1 - γ := by linarith
  have hl' : 0 < l / (1 + l) := by positivity
  have V0 : 0 ≤ V := by
    by_contra hneg
    nlinarith
  have C0 : 0 ≤ C := by
    by_contra hneg
    have := mul_nonneg u0.le V0
    have := mul_pos hl' hg
    nlinarith
  obtain ⟨α, h1, h2, h3⟩ := isgd_rate_fp hM hl l0 l1 (hu.trans (mul_le_of_le_one_right hl'.le (by linarith)))
  have h4 := mul_le_mul_of_nonneg_right h2 hg.le
  have h5 := mul_le_mul_of_nonneg_right h4 C0
  exact ⟨α, h1, h2, h3, by linarith, by linarith⟩

/-- **C187.** SGD at a rate of at most 1. -/
theorem C187_sgd (hM : M.rnd = binary64Format.rnd) (b : B) (n A : Nat) (X : I → Prop) (E : Environment I (FP M))
    (lr : FP M) (l γ V C : ℝ) (hA : 0 < A) (hlr : Is lr l) (hl0 : 0 < l) (hl1 : l ≤ 1)
    (hb : IsTable (K := FP M) b n X) (hE : Respects E b A X)
    (hγ : ∀ x a, X x → a < A → Spec.Finite (E.discount x a) ∧ 0 ≤ real (E.discount x a) ∧ real (E.discount x a) ≤ γ)
    (hγ1 : γ < 1)
    (hr : ∀ x a, X x → a < A → Spec.Finite (E.reward x a) ∧ |real (E.reward x a)| ≤ (1 - γ) * V)
    (hu : 32 * roundoff ≤ l * (1 - γ)) (hC : 32 * roundoff * V + 16 * tiny ≤ l * (1 - γ) * C)
    (hVC : V + C ≤ 2 ^ 1000) (xs : Nat → I) (as : Nat → Nat) (hxs : ∀ k, X (xs k)) (has : ∀ k, as k < A)
    (ws : List (List (FP M))) (hws : ws.length = A) (hcol : ∀ col ∈ ws, col.length = n)
    (hw : ∀ col ∈ ws, ∀ w ∈ col, Spec.Finite w ∧ |real w| + V ≤ C)
    (fas : Nat → VectorLFA B (SGD (FP M)) (FP M)) (h0 : fas 0 = LFA.mk b ws (SGD.mk lr))
    (hs : ∀ k, Learns E (fas k) (xs k) (as k) (fas (k + 1))) :
    (∀ x a, X x → a < A → ∃ (p : Nat → FP M) (q : ℝ), (∀ k, (fas k).evaluateIndex x a = .ok (.ok (p k))) ∧
      Best (mapEnv real E) A x a q ∧ |q| ≤ V ∧ (∀ k, Spec.Finite (p k) ∧ |real (p k) - q| ≤ C) ∧
      ((∀ k a, a < A → ∀ m, ∃ j, m ≤ j ∧ SameProjection (K := FP M) b (xs j) (E.next (xs k) (as k)) ∧ as j = a) →
        (∀ m, ∃ j, m ≤ j ∧ SameProjection (K := FP M) b (xs j) x ∧ as j = a) →
        ∀ ε > 0, ∃ m, ∀ k, m ≤ k →
          |real (p k) - q| ≤ (32 * roundoff * V + 16 * tiny) / (l * (1 - γ)) + ε)) ∧
    ((∀ x a, X x → a < A → ∀ m, ∃ j, m ≤ j ∧ SameProjection (K := FP M) b (xs j) x ∧ as j = a) →
      ∀ ε > 0, ∃ m, ∀ k, m ≤ k → ∀ (x : I) (acts : Nat → Nat), X x → (∀ j, acts j < A) →
        (∀ j, Greedy (fas k) (E.visits x acts j) (acts j)) →
        ∃ G, (mapEnv real E).Collects x acts G ∧
          ∀ (acts' : Nat → Nat) (G' : ℝ), (∀ j, acts' j < A) → (mapEnv real E).Collects x acts' G' →
            G' ≤ G + 2 / (1 - γ) * ((32 * roundoff * V + 16 * tiny) / (l * (1 - γ)) + ε)) :=
  ⟨fun x a hx ha => learns_fp_converge hM hA hlr hl0 hl1 (sgd_tableRate n lr) hb hE hγ hγ1 hr hu hC hVC xs as hxs has ws
      hws hcol hw fas h0 hs x a hx ha,
    fun hv ε hε => learns_fp_greedy hM hA hlr hl0 hl1 (sgd_tableRate n lr) hb hE hγ hγ1 hr hu hC hVC xs as hxs has ws
      hws hcol hw hv fas h0 hs ε hε⟩

/-- **C187.** ISGD. -/
theorem C187_isgd (hM : M.rnd = binary64Format.rnd) (b : B) (n A : Nat) (X : I → Prop) (E : Environment I (FP M))
    (lr : FP M) (l γ V C : ℝ) (hA : 0 < A) (hlr : Is lr l) (hl0 : 0 < l) (hl1 : l ≤ 2 ^ 40)
    (hb : IsTable (K := FP M) b n X) (hE : Respects E b A X)
    (hγ : ∀ x a, X x → a < A → Spec.Finite (E.discount x a) ∧ 0 ≤ real (E.discount x a) ∧ real (E.discount x a) ≤ γ)
    (hγ1 : γ < 1)
    (hr : ∀ x a, X x → a < A → Spec.Finite (E.reward x a) ∧ |real (E.reward x a)| ≤ (1 - γ) * V)
    (hu : 64 * roundoff ≤ l / (1 + l) * (1 - γ)) (hC : 64 * roundoff * V + 32 * tiny ≤ l / (1 + l) * (1 - γ) * C)
    (hVC : V + C ≤ 2 ^ 1000) (xs : Nat → I) (as : Nat → Nat) (hxs : ∀ k, X (xs k)) (has : ∀ k, as k < A)
    (ws : List (List (FP M))) (hws : ws.length = A) (hcol : ∀ col ∈ ws, col.length = n)
    (hw : ∀ col ∈ ws, ∀ w ∈ col, Spec.Finite w ∧ |real w| + V ≤ C)
    (fas : Nat → VectorLFA B (ISGD (FP M)) (FP M)) (h0 : fas 0 = LFA.mk b ws (ISGD.mk lr))
    (hs : ∀ k, Learns E (fas k) (xs k) (as k) (fas (k + 1))) :
    (∀ x a, X x → a < A → ∃ (p : Nat → FP M) (q : ℝ), (∀ k, (fas k).evaluateIndex x a = .ok (.ok (p k))) ∧
      Best (mapEnv real E) A x a q ∧ |q| ≤ V ∧ (∀ k, Spec.Finite (p k) ∧ |real (p k) - q| ≤ C) ∧
      ((∀ k a, a < A → ∀ m, ∃ j, m ≤ j ∧ SameProjection (K := FP M) b (xs j) (E.next (xs k) (as k)) ∧ as j = a) →
        (∀ m, ∃ j, m ≤ j ∧ SameProjection (K := FP M) b (xs j) x ∧ as j = a) →
        ∀ ε > 0, ∃ m, ∀ k, m ≤ k →
          |real (p k) - q| ≤ (64 * roundoff * V + 32 * tiny) / (l / (1 + l) * (1 - γ)) + ε)) ∧
    ((∀ x a, X x → a < A → ∀ m, ∃ j, m ≤ j ∧ SameProjection (K := FP M) b (xs j) x ∧ as j = a) →
      ∀ ε > 0, ∃ m, ∀ k, m ≤ k → ∀ (x : I) (acts : Nat → Nat), X x → (∀ j, acts j < A) →
        (∀ j, Greedy (fas k) (E.visits x acts j) (acts j)) →
        ∃ G, (mapEnv real E).Collects x acts G ∧
          ∀ (acts' : Nat → Nat) (G' : ℝ), (∀ j, acts' j < A) → (mapEnv real E).Collects x acts' G' →
            G' ≤ G + 2 / (1 - γ) * ((64 * roundoff * V + 32 * tiny) / (l / (1 + l) * (1 - γ)) + ε)) := by
  have hγ0 : 0 ≤ γ := (hγ _ _ (hxs 0) (has 0)).2.1.trans (hγ _ _ (hxs 0) (has 0)).2.2
  obtain ⟨α, hα, h2, hα1, hu', hC'⟩ := isgd_conditions hM hlr hl0 hl1 hγ0 hγ1
    ((abs_nonneg _).trans (hr _ _ (hxs 0) (has 0)).2) hu hC
  have hl' : 0 < l / (1 + l) := by positivity
  have hαpos : 0 < α := by linarith
  have hg : 0 < 1 - γ := by linarith
  have V0 : 0 ≤ V := by
    by_contra hneg
    have h1 := (hr _ _ (hxs 0) (has 0)).2
    have h2 := abs_nonneg (real (E.reward (xs 0) (as 0)))
    nlinarith
  have hb' : (32 * roundoff * V + 16 * tiny) / (α * (1 - γ)) ≤
      (64 * roundoff * V + 32 * tiny) / (l / (1 + l) * (1 - γ)) := by
    have u0 := roundoff_pos
    have t0 := tiny_pos
    rw [div_le_div_iff₀ (mul_pos hαpos hg) (mul_pos hl' hg)]
    have h3 : 0 ≤ 32 * roundoff * V + 16 * tiny := by positivity
    have h4 := mul_le_mul_of_nonneg_left (mul_le_mul_of_nonneg_right h2 hg.le) h3
    linarith
  constructor
  · intro x a hx ha
    obtain ⟨p, q, h1, h2, h3, h4, h5⟩ := learns_fp_converge hM hA hα hαpos hα1 (isgd_tableRate n (ISGD.mk lr)) hb hE hγ
      hγ1 hr hu' hC' hVC xs as hxs has ws hws hcol hw fas h0 hs x a hx ha
    refine ⟨p, q, h1, h2, h3, h4, fun hv hrx ε hε => ?_⟩
    obtain ⟨m, hm⟩ := h5 hv hrx ε hε
    exact ⟨m, fun k hk => (hm k hk).trans (add_le_add hb' le_rfl)⟩
  · intro hv ε hε
    obtain ⟨m, hm⟩ := learns_fp_greedy hM hA hα hαpos hα1 (isgd_tableRate n (ISGD.mk lr)) hb hE hγ hγ1 hr hu' hC' hVC xs
      as hxs has ws hws hcol hw hv fas h0 hs ε hε
    refine ⟨m, fun k hk x acts hx hacts hgr => ?_⟩
    obtain ⟨G, hG, hle⟩ := hm k hk x acts hx hacts hgr
    refine ⟨G, hG, fun acts' G' ha' hG' => (hle acts' G' ha' hG').trans ?_⟩
    have : 0 ≤ 2 / (1 - γ) := by positivity
    have := mul_le_mul_of_nonneg_left (add_le_add hb' (le_refl ε)) this
    linarith

/-- **C187.** The calls succeed for ever, with SGD. -/
theorem C187_sgd_total (hM : M.rnd = binary64Format.rnd) (b : B) (n A : Nat) (X : I → Prop) (E : Environment I (FP M))
    (lr : FP M) (l γ V C : ℝ) (hA : 0 < A) (hlr : Is lr l) (hl0 : 0 < l) (hl1 : l ≤ 1)
    (hb : IsTable (K := FP M) b n X) (hE : Respects E b A X)
    (hγ : ∀ x a, X x → a < A → Spec.Finite (E.discount x a) ∧ 0 ≤ real (E.discount x a) ∧ real (E.discount x a) ≤ γ)
    (hγ1 : γ < 1)
    (hr : ∀ x a, X x → a < A → Spec.Finite (E.reward x a) ∧ |real (E.reward x a)| ≤ (1 - γ) * V)
    (hu : 32 * roundoff ≤ l * (1 - γ)) (hC : 32 * roundoff * V + 16 * tiny ≤ l * (1 - γ) * C)
    (hVC : V + C ≤ 2 ^ 1000) (xs : Nat → I) (as : Nat → Nat) (hxs : ∀ k, X (xs k)) (has : ∀ k, as k < A)
    (ws : List (List (FP M))) (hws : ws.length = A) (hcol : ∀ col ∈ ws, col.length = n)
    (hw : ∀ col ∈ ws, ∀ w ∈ col, Spec.Finite w ∧ |real w| + V ≤ C) :
    ∃ fas : Nat → VectorLFA B (SGD (FP M)) (FP M), fas 0 = LFA.mk b ws (SGD.mk lr) ∧
      ∀ k, Learns E (fas k) (xs k) (as k) (fas (k + 1)) :=
  learns_fp_run hM hA hlr hl0 hl1 (sgd_tableRate n lr) hb hE hγ hγ1 hr hu hC hVC xs as hxs has ws hws hcol hw

/-- **C187.** The calls succeed for ever, with ISGD. -/
theorem C187_isgd_total (hM : M.rnd = binary64Format.rnd) (b : B) (n A : Nat) (X : I → Prop) (E : Environment I (FP M))
    (lr : FP M) (l γ V C : ℝ) (hA : 0 < A) (hlr : Is lr l) (hl0 : 0 < l) (hl1 : l ≤ 2 ^ 40)
    (hb : IsTable (K := FP M) b n X) (hE : Respects E b A X)
    (hγ : ∀ x a, X x → a < A → Spec.Finite (E.discount x a) ∧ 0 ≤ real (E.discount x a) ∧ real (E.discount x a) ≤ γ)
    (hγ1 : γ < 1)
    (hr : ∀ x a, X x → a < A → Spec.Finite (E.reward x a) ∧ |real (E.reward x a)| ≤ (1 - γ) * V)
    (hu : 64 * roundoff ≤ l / (1 + l) * (1 - γ)) (hC : 64 * roundoff * V + 32 * tiny ≤ l / (1 + l) * (1 - γ) * C)
    (hVC : V + C ≤ 2 ^ 1000) (xs : Nat → I) (as : Nat → Nat) (hxs : ∀ k, X (xs k)) (has : ∀ k, as k < A)
    (ws : List (List (FP M))) (hws : ws.length = A) (hcol : ∀ col ∈ ws, col.length = n)
    (hw : ∀ col ∈ ws, ∀ w ∈ col, Spec.Finite w ∧ |real w| + V ≤ C) :
    ∃ fas : Nat → VectorLFA B (ISGD (FP M)) (FP M), fas 0 = LFA.mk b ws (ISGD.mk lr) ∧
      ∀ k, Learns E (fas k) (xs k) (as k) (fas (k + 1)) := by
  have hγ0 : 0 ≤ γ := (hγ _ _ (hxs 0) (has 0)).2.1.trans (hγ _ _ (hxs 0) (has 0)).2.2
  obtain ⟨α, hα, h2, hα1, hu', hC'⟩ := isgd_conditions hM hlr hl0 hl1 hγ0 hγ1
    ((abs_nonneg _).trans (hr _ _ (hxs 0) (has 0)).2) hu hC
  have hl' : 0 < l / (1 + l) := by positivity
  exact learns_fp_run hM hA hα (by linarith) hα1 (isgd_tableRate n (ISGD.mk lr)) hb hE hγ hγ1 hr hu' hC' hVC xs as hxs
    has ws hws hcol hw

end

/-- Two cells: below 1, and the rest. -/
noncomputable def cutAtOne : Equipartition (FP binary64) :=
  ⟨2, Scalar.one, [Scalar.zero, Scalar.one], fun v => if Scalar.lt v Scalar.one then 0 else 1⟩

theorem cutAtOne_lawful : cutAtOne.Lawful := by
  have h0 : Scalar.lt (Scalar.zero : FP binary64) Scalar.one = true := by
    show XReal.lt (Scalar.zero : FP binary64).1 (Scalar.one : FP binary64).1 = true
    rw [val_zero, val_one]
    exact decide_eq_true (by norm_num)
  have h1 : Scalar.lt (Scalar.one : FP binary64) Scalar.one = false := by
    show XReal.lt (Scalar.one : FP binary64).1 (Scalar.one : FP binary64).1 = false
    rw [val_one]
    exact decide_eq_false (by norm_num)
  refine ⟨by norm_num [cutAtOne], fun v => ?_, rfl, fun i c h => ?_⟩
  · show (if Scalar.lt v Scalar.one then 0 else 1) < 2
    split_ifs <;> norm_num
  · show (if Scalar.lt c Scalar.one then 0 else 1) = i
    change [(Scalar.zero : FP binary64), Scalar.one][i]? = some c at h
    match i, h with
    | 0, h =>
      rw [← Option.some.inj h, h0]
      rfl
    | 1, h =>
      rw [← Option.some.inj h, h1]
      rfl

/-- Action 1 is rewarded with 1 and leads to the second cell, action 0 leads to the first. -/
noncomputable def moving : Environment (List (FP binary64)) (FP binary64) :=
  ⟨fun _ a => if a = 1 then Scalar.one else Scalar.zero, fun _ _ => Scalar.sci 5 1,
    fun _ a => if a = 1 then [Scalar.one] else [Scalar.zero]⟩

/-- **C187.** A run that meets the hypotheses: from zero weights with the rate 1/2, the prediction of action 1 comes
within 2^-44 of 2. -/
theorem C187_example :
    let b := UniformGrid.new [cutAtOne]
    let xs : Nat → List (FP binary64) := fun k => if k % 4 < 2 then [Scalar.zero] else [Scalar.one]
    let z : FP binary64 := Scalar.zero
    ∃ fas : Nat → VectorLFA (UniformGrid (FP binary64)) (SGD (FP binary64)) (FP binary64),
      fas 0 = LFA.mk b [[z, z], [z, z]] (SGD.mk (Scalar.sci 5 1)) ∧
      (∀ k, Learns moving (fas k) (xs k) (k % 2) (fas (k + 1))) ∧
      ∃ p : Nat → FP binary64, (∀ k, (fas k).evaluateIndex [z] 1 = .ok (.ok (p k))) ∧ (∀ k, Spec.Finite (p k)) ∧
        ∃ m, ∀ k, m ≤ k → |real (p k) - 2| ≤ 2 ^ (-44 : ℤ) := by
  intro b xs z
  have hM : binary64.rnd = binary64Format.rnd := rfl
  have hb : IsTable (K := FP binary64) b 2 (fun x : List (FP binary64) => x.length = 1) :=
    C186_grid [cutAtOne] (by
      intro d hd
      rw [List.mem_singleton.1 hd]
      exact cutAtOne_lawful) (by simp)
  have hnext : ∀ x a, moving.next x a = if a = 1 then [Scalar.one] else [Scalar.zero] := fun x a => rfl
  have hE : Respects moving b 2 (fun x : List (FP binary64) => x.length = 1) := by
    refine ⟨fun x a hx _ => ?_, fun _ _ _ _ _ _ _ => rfl, fun _ _ _ _ _ _ _ => rfl, fun x y a _ _ h _ => rfl⟩
    rw [hnext]
    split_ifs <;> rfl
  have hhalf : Is (Scalar.sci 5 1 : FP binary64) (1 / 2) := is_half hM
  have hxs : ∀ k, (xs k).length = 1 := by
    intro k
    show (if k % 4 < 2 then [(Scalar.zero : FP binary64)] else [Scalar.one]).length = 1
    split_ifs <;> rfl
  have has : ∀ k, k % 2 < 2 := fun k => Nat.mod_lt _ (by norm_num)
  have hrec : ∀ y a, (y = [(Scalar.zero : FP binary64)] ∨ y = [(Scalar.one : FP binary64)]) → a < 2 →
      ∀ m, ∃ j, m ≤ j ∧ SameProjection (K := FP binary64) b (xs j) y ∧ j % 2 = a := by
    rintro y a (rfl | rfl) ha m
    · refine ⟨4 * m + a, by omega, ?_, by omega⟩
      have : xs (4 * m + a) = [Scalar.zero] := if_pos (by omega)
      rw [this]
      rfl
    · refine ⟨4 * m + 2 + a, by omega, ?_, by omega⟩
      have : xs (4 * m + 2 + a) = [Scalar.one] := if_neg (by omega)
      rw [this]
      rfl
  have hγ : ∀ (x : List (FP binary64)) a, x.length = 1 → a < 2 → Spec.Finite (moving.discount x a) ∧
      0 ≤ real (moving.discount x a) ∧ real (moving.discount x a) ≤ 1 / 2 := by
    intro x a _ _
    show Spec.Finite (Scalar.sci 5 1 : FP binary64) ∧ 0 ≤ real (Scalar.sci 5 1 : FP binary64) ∧
      real (Scalar.sci 5 1 : FP binary64) ≤ 1 / 2
    rw [is_real hhalf]
    exact ⟨⟨_, hhalf⟩, by norm_num, le_rfl⟩
  have hrew : ∀ x a, Is (moving.reward x a) (if a = 1 then 1 else 0) := by
    intro x a
    show Is (if a = 1 then Scalar.one else Scalar.zero : FP binary64) _
    split_ifs
    · exact val_one
    · exact val_zero
  have hr : ∀ (x : List (FP binary64)) a, x.length = 1 → a < 2 → Spec.Finite (moving.reward x a) ∧
      |real (moving.reward x a)| ≤ (1 - 1 / 2) * (2 : ℝ) := by
    intro x a _ _
    refine ⟨⟨_, hrew x a⟩, ?_⟩
    rw [is_real (hrew x a)]
    split_ifs <;> norm_num
  have u1 : roundoff = 2 ^ (-53 : ℤ) := rfl
  have t1 : tiny ≤ 2 ^ (-100 : ℤ) := by
    rw [tiny]
    exact zpow_le_zpow_right₀ (by norm_num) (by norm_num)
  have t0 := tiny_pos
  have hu : 32 * roundoff ≤ 1 / 2 * (1 - 1 / 2) := by
    rw [u1]
    norm_num
  have hC : 32 * roundoff * 2 + 16 * tiny ≤ 1 / 2 * (1 - 1 / 2) * 4 := by
    rw [u1]
    norm_num at t1 ⊢
    linarith
  have hVC : (2 : ℝ) + 4 ≤ 2 ^ 1000 := by
    have : (2 : ℝ) ^ 3 ≤ 2 ^ 1000 := pow_le_pow_right₀ (by norm_num) (by norm_num)
    have e : (2 : ℝ) ^ 3 = 8 := by norm_num
    rw [e] at this
    exact le_trans (by norm_num) this
  have hcol : ∀ col ∈ [[z, z], [z, z]], col.length = 2 := by simp
  have hw : ∀ col ∈ [[z, z], [z, z]], ∀ w ∈ col, Spec.Finite w ∧ |real w| + 2 ≤ 4 := by
    intro col hc w hw
    have : w = z := by
      simp at hc
      subst hc
      simpa using hw
    rw [this]
    refine ⟨⟨0, val_zero⟩, ?_⟩
    rw [show real z = 0 from is_real val_zero]
    norm_num
  obtain ⟨fas, h0, hs⟩ := C187_sgd_total hM b 2 2 _ moving (Scalar.sci 5 1) (1 / 2) (1 / 2) 2 4 (by norm_num) hhalf
    (by norm_num) (by norm_num) hb hE hγ (by norm_num) hr hu hC hVC xs (fun k => k % 2) hxs has [[z, z], [z, z]] rfl hcol
    hw
  refine ⟨fas, h0, hs, ?_⟩
  obtain ⟨p, q, hp, hq, -, hfin, ht⟩ := (C187_sgd hM b 2 2 _ moving (Scalar.sci 5 1) (1 / 2) (1 / 2) 2 4 (by norm_num)
    hhalf (by norm_num) (by norm_num) hb hE hγ (by norm_num) hr hu hC hVC xs (fun k => k % 2) hxs has [[z, z], [z, z]]
    rfl hcol hw fas h0 hs).1 [z] 1 rfl (by norm_num)
  have hq2 : q = 2 := by
    have hsum : ∀ acts : Nat → Nat, ∀ G, (mapEnv real moving).Collects [z] acts G ↔
        HasSum (fun k => (1 / 2 : ℝ) ^ k * if acts k = 1 then 1 else 0) G := fun acts G => by
      unfold Collects
      have : (fun k => (∏ j ∈ Finset.range k, (mapEnv real moving).discount ((mapEnv real moving).visits [z] acts j)
          (acts j)) * (mapEnv real moving).reward ((mapEnv real moving).visits [z] acts k) (acts k)) =
          fun k => (1 / 2 : ℝ) ^ k * if acts k = 1 then 1 else 0 := by
        funext k
        show (∏ _j ∈ Finset.range k, real (Scalar.sci 5 1 : FP binary64)) * real (moving.reward _ (acts k)) = _
        rw [Finset.prod_const, Finset.card_range, is_real hhalf, is_real (hrew _ _)]
      rw [this]
    have htwo : HasSum (fun k : Nat => (1 / 2 : ℝ) ^ k * if 1 = 1 then 1 else 0) 2 := by
      have := hasSum_geometric_two
      simpa using this
    refine le_antisymm ?_ (hq.2 ⟨fun _ => 1, rfl, fun _ => by norm_num, (hsum _ _).2 htwo⟩)
    obtain ⟨acts, -, -, h3⟩ := hq.1
    refine hasSum_le (fun k => ?_) ((hsum _ _).1 h3) htwo
    refine mul_le_mul_of_nonneg_left ?_ (by positivity)
    split_ifs <;> norm_num at *
  obtain ⟨m, hm⟩ := ht (fun k a ha => by
      refine hrec _ a ?_ ha
      rw [hnext]
      split_ifs
      · exact Or.inr rfl
      · exact Or.inl rfl) (hrec _ 1 (Or.inl rfl) (by norm_num)) (2 ^ (-46 : ℤ)) (by positivity)
  refine ⟨p, hp, fun k => (hfin k).1, m, fun k hk => ?_⟩
  have hk' := hm k hk
  rw [hq2] at hk'
  refine hk'.trans ?_
  rw [u1]
  norm_num at t1 ⊢
  linarith

end Lfa

import Verif.Props.C149
import Verif.Props.C198

/-!
# C205: stacking, Adam and AdaMax

Exact arithmetic. Adam and AdaMax leave the weights of features without a stored activation alone. Stacking a sparse basis with a
dense one (as `with_bias` does) stores an activation for every feature, so it changes which weights they move.
-/

set_option linter.unusedSectionVars false

namespace Lfa

open Spec

variable {B₁ B₂ I : Type} [Space B₁] [Space B₂] [Basis B₁ I ℝ] [Basis B₂ I ℝ]

/-- Stacking two features stores an activation for every feature, though one of the two does not. -/
def Spec.Mixed (φ ψ : Features ℝ) : Prop := (φ.isSparse && ψ.isSparse) = false

/-- The states of Adam with given hyper-parameters and products of decay rates. -/
abbrev Spec.adamWith (β₁ p₁ β₂ p₂ lr : ℝ) (m v : List ℝ) : Adam ℝ := ⟨β₁, p₁, β₂, p₂, lr, m, v⟩

/-- The states of AdaMax with given hyper-parameters and product of decay rates. -/
abbrev Spec.adamaxWith (β₁ p₁ β₂ lr : ℝ) (m u : List ℝ) : AdaMax ℝ := ⟨β₁, p₁, β₂, lr, m, u⟩

theorem split_list {n₁ n₂ : Nat} {w : List ℝ} (h : w.length = n₁ + n₂) :
    ∃ u₁ u₂, w = u₁ ++ u₂ ∧ u₁.length = n₁ ∧ u₂.length = n₂ ∧ (∀ i < n₁, entry u₁ i = entry w i) ∧
      ∀ i < n₂, entry u₂ i = entry w (n₁ + i) := by
  have h1 : (w.take n₁).length = n₁ := by rw [List.length_take]; omega
  have e : w = w.take n₁ ++ w.drop n₁ := (List.take_append_drop _ _).symm
  refine ⟨w.take n₁, w.drop n₁, e, h1, by rw [List.length_drop]; omega, ?_, ?_⟩
  · intro i hi
    conv_rhs => rw [e]
    rw [entry_append_left (by omega)]
  · intro i hi
    have := entry_append_right (w.take n₁) (w.drop n₁) i
    rw [h1, ← e] at this
    exact this.symm

/-! ## One step -/

/-- One step of Adam on both parts and on the stack: the moments are the same, and a weight differs only where the stack stores an
activation and its part does not. -/
theorem adam_parts {n₁ n₂ : Nat} {φ ψ r : Features ℝ} (f₁ : Fits n₁ φ) (f₂ : Fits n₂ ψ) (f : Fits (n₁ + n₂) r)
    (v₁ : ∀ i < n₁, value r i = value φ i) (v₂ : ∀ i < n₂, value r (n₁ + i) = value ψ i)
    (a₁ : ∀ i < n₁, Active r i ↔ Active φ i ∨ Mixed φ ψ) (a₂ : ∀ i < n₂, Active r (n₁ + i) ↔ Active ψ i ∨ Mixed φ ψ)
    (β₁ p₁ β₂ p₂ lr s : ℝ) {m₁ m₂ s₁ s₂ w₁ w₂ : List ℝ} (hm₁ : m₁.length = n₁) (hm₂ : m₂.length = n₂) (hs₁ : s₁.length = n₁)
    (hs₂ : s₂.length = n₂) (hw₁ : w₁.length = n₁) (hw₂ : w₂.length = n₂) :
    ∃ m₁' m₂' s₁' s₂' w₁' w₂' u₁ u₂,
      Optimiser.stepScaled (adamWith β₁ p₁ β₂ p₂ lr m₁ s₁) w₁ φ s =
        .ok (.ok (), adamWith β₁ (p₁ * β₁) β₂ (p₂ * β₂) lr m₁' s₁', w₁') ∧
      Optimiser.stepScaled (adamWith β₁ p₁ β₂ p₂ lr m₂ s₂) w₂ ψ s =
        .ok (.ok (), adamWith β₁ (p₁ * β₁) β₂ (p₂ * β₂) lr m₂' s₂', w₂') ∧
      Optimiser.stepScaled (adamWith β₁ p₁ β₂ p₂ lr (m₁ ++ m₂) (s₁ ++ s₂)) (w₁ ++ w₂) r s =
        .ok (.ok (), adamWith β₁ (p₁ * β₁) β₂ (p₂ * β₂) lr (m₁' ++ m₂') (s₁' ++ s₂'), u₁ ++ u₂) ∧
      (m₁'.length = n₁ ∧ m₂'.length = n₂ ∧ s₁'.length = n₁ ∧ s₂'.length = n₂) ∧
      (w₁'.length = n₁ ∧ w₂'.length = n₂ ∧ u₁.length = n₁ ∧ u₂.length = n₂) ∧
      (∀ i < n₁, ((Active φ i ∨ ¬ Mixed φ ψ) → entry u₁ i = entry w₁' i) ∧
        (¬ Active φ i → entry w₁' i = entry w₁ i ∧ (Mixed φ ψ → entry u₁ i = entry w₁ i +
          lr * (β₁ * entry m₁ i / (1 - p₁ * β₁)) / (√(β₂ * entry s₁ i / (1 - p₂ * β₂)) + 1e-7)))) ∧
      (∀ i < n₂, ((Active ψ i ∨ ¬ Mixed φ ψ) → entry u₂ i = entry w₂' i) ∧
        (¬ Active ψ i → entry w₂' i = entry w₂ i ∧ (Mixed φ ψ → entry u₂ i = entry w₂ i +
          lr * (β₁ * entry m₂ i / (1 - p₁ * β₁)) / (√(β₂ * entry s₂ i / (1 - p₂ * β₂)) + 1e-7)))) := by
  obtain ⟨m₁', s₁', w₁', e₁, c1, c2, c3, q₁⟩ := adam_real f₁ (adamWith β₁ p₁ β₂ p₂ lr m₁ s₁) hm₁ hs₁ s hw₁
  obtain ⟨m₂', s₂', w₂', e₂, d1, d2, d3, q₂⟩ := adam_real f₂ (adamWith β₁ p₁ β₂ p₂ lr m₂ s₂) hm₂ hs₂ s hw₂
  obtain ⟨m', s', w', e, g1, g2, g3, q⟩ := adam_real f (adamWith β₁ p₁ β₂ p₂ lr (m₁ ++ m₂) (s₁ ++ s₂))
    (by show (m₁ ++ m₂).length = _; rw [List.length_append, hm₁, hm₂])
    (by show (s₁ ++ s₂).length = _; rw [List.length_append, hs₁, hs₂]) s (w := w₁ ++ w₂)
    (by rw [List.length_append, hw₁, hw₂])
  dsimp only at q₁ q₂ q e e₁ e₂
  have L : ∀ {x y : List ℝ} (_ : x.length = n₁) {i : Nat} (_ : i < n₁), entry (x ++ y) i = entry x i :=
    fun hx _ hi => entry_append_left (hx ▸ hi)
  have R : ∀ {x y : List ℝ} (_ : x.length = n₁) {i : Nat}, entry (x ++ y) (n₁ + i) = entry y i := by
    intro x y hx i
    rw [← hx, entry_append_right]
  have hm : m' = m₁' ++ m₂' := eq_append_of_entries c1 d1 g1
    (fun i hi => by rw [(q i (by omega)).1, (q₁ i hi).1, v₁ i hi, L hm₁ hi])
    (fun i hi => by rw [(q (n₁ + i) (by omega)).1, (q₂ i hi).1, v₂ i hi, R hm₁])
  have hs : s' = s₁' ++ s₂' := eq_append_of_entries c2 d2 g2
    (fun i hi => by rw [(q i (by omega)).2.1, (q₁ i hi).2.1, v₁ i hi, L hs₁ hi])
    (fun i hi => by rw [(q (n₁ + i) (by omega)).2.1, (q₂ i hi).2.1, v₂ i hi, R hs₁])
  obtain ⟨u₁, u₂, hu, k1, k2, k3, k4⟩ := split_list g3
  have z₁ : ∀ i, ¬ Active φ i → value φ i = 0 := fun i h => value_of_not_active h
  have z₂ : ∀ i, ¬ Active ψ i → value ψ i = 0 := fun i h => value_of_not_active h
  subst hm hs
  refine ⟨m₁', m₂', s₁', s₂', w₁', w₂', u₁, u₂, e₁, e₂, by rw [e, hu], ⟨c1, d1, c2, d2⟩, ⟨c3, d3, k1, k2⟩, ?_, ?_⟩
  · intro i hi
    rw [k3 i hi]
    obtain ⟨x1, x2, x3, x4⟩ := q₁ i hi
    obtain ⟨-, -, y3, y4⟩ := q i (by omega)
    rw [a₁ i hi] at y3 y4
    rw [L c1 hi, L c2 hi, L hw₁ hi] at y3
    rw [L hw₁ hi] at y4
    by_cases hA : Active φ i
    · refine ⟨fun _ => ?_, fun h => absurd hA h⟩
      rw [y3 (.inl hA), x3 hA]
    · refine ⟨?_, fun _ => ⟨x4 hA, fun hM => ?_⟩⟩
      · rintro (h | h)
        · exact absurd h hA
        · rw [y4 (by tauto), x4 hA]
      · rw [y3 (.inr hM), x1, x2, z₁ i hA]
        norm_num
  · intro i hi
    rw [k4 i hi]
    obtain ⟨x1, x2, x3, x4⟩ := q₂ i hi
    obtain ⟨-, -, y3, y4⟩ := q (n₁ + i) (by omega)
    rw [a₂ i hi] at y3 y4
    rw [R c1, R c2, R hw₁] at y3
    rw [R hw₁] at y4
    by_cases hA : Active ψ i
    · refine ⟨fun _ => ?_, fun h => absurd hA h⟩
      rw [y3 (.inl hA), x3 hA]
    · refine ⟨?_, fun _ => ⟨x4 hA, fun hM => ?_⟩⟩
      · rintro (h | h)
        · exact absurd h hA
        · rw [y4 (by tauto), x4 hA]
      · rw [y3 (.inr hM), x1, x2, z₂ i hA]
        norm_num

set_option maxHeartbeats 800000 in
/-- One step of AdaMax on both parts and on the stack: the moments are the same, and a weight differs only where the stack stores an
activation and its part does not. -/
theorem adamax_parts {n₁ n₂ : Nat} {φ ψ r : Features ℝ} (f₁ : Fits n₁ φ) (f₂ : Fits n₂ ψ) (f : Fits (n₁ + n₂) r)
    (v₁ : ∀ i < n₁, value r i = value φ i) (v₂ : ∀ i < n₂, value r (n₁ + i) = value ψ i)
    (a₁ : ∀ i < n₁, Active r i ↔ Active φ i ∨ Mixed φ ψ) (a₂ : ∀ i < n₂, Active r (n₁ + i) ↔ Active ψ i ∨ Mixed φ ψ)
    (β₁ p₁ β₂ lr s : ℝ) (h0 : 0 ≤ β₂) {m₁ m₂ s₁ s₂ w₁ w₂ : List ℝ} (hm₁ : m₁.length = n₁) (hm₂ : m₂.length = n₂) (hs₁ : s₁.length = n₁)
    (hs₂ : s₂.length = n₂) (hw₁ : w₁.length = n₁) (hw₂ : w₂.length = n₂) (n1 : ∀ i, 0 ≤ entry s₁ i) (n2 : ∀ i, 0 ≤ entry s₂ i) :
    ∃ m₁' m₂' s₁' s₂' w₁' w₂' u₁ u₂,
      Optimiser.stepScaled (adamaxWith β₁ p₁ β₂ lr m₁ s₁) w₁ φ s =
        .ok (.ok (), adamaxWith β₁ (p₁ * β₁) β₂ lr m₁' s₁', w₁') ∧
      Optimiser.stepScaled (adamaxWith β₁ p₁ β₂ lr m₂ s₂) w₂ ψ s =
        .ok (.ok (), adamaxWith β₁ (p₁ * β₁) β₂ lr m₂' s₂', w₂') ∧
      Optimiser.stepScaled (adamaxWith β₁ p₁ β₂ lr (m₁ ++ m₂) (s₁ ++ s₂)) (w₁ ++ w₂) r s =
        .ok (.ok (), adamaxWith β₁ (p₁ * β₁) β₂ lr (m₁' ++ m₂') (s₁' ++ s₂'), u₁ ++ u₂) ∧
      (m₁'.length = n₁ ∧ m₂'.length = n₂ ∧ s₁'.length = n₁ ∧ s₂'.length = n₂ ∧ (∀ i, 0 ≤ entry s₁' i) ∧ ∀ i, 0 ≤ entry s₂' i) ∧
      (w₁'.length = n₁ ∧ w₂'.length = n₂ ∧ u₁.length = n₁ ∧ u₂.length = n₂) ∧
      (∀ i < n₁, ((Active φ i ∨ ¬ Mixed φ ψ) → entry u₁ i = entry w₁' i) ∧
        (¬ Active φ i → entry w₁' i = entry w₁ i ∧ (Mixed φ ψ → entry u₁ i = entry w₁ i +
          lr * (β₁ * entry m₁ i / (1 - p₁ * β₁)) / (β₂ * entry s₁ i + 1e-7)))) ∧
      (∀ i < n₂, ((Active ψ i ∨ ¬ Mixed φ ψ) → entry u₂ i = entry w₂' i) ∧
        (¬ Active ψ i → entry w₂' i = entry w₂ i ∧ (Mixed φ ψ → entry u₂ i = entry w₂ i +
          lr * (β₁ * entry m₂ i / (1 - p₁ * β₁)) / (β₂ * entry s₂ i + 1e-7)))) := by
  obtain ⟨m₁', s₁', w₁', e₁, c1, c2, c3, q₁⟩ := adamax_real f₁ (adamaxWith β₁ p₁ β₂ lr m₁ s₁) hm₁ hs₁ s hw₁
  obtain ⟨m₂', s₂', w₂', e₂, d1, d2, d3, q₂⟩ := adamax_real f₂ (adamaxWith β₁ p₁ β₂ lr m₂ s₂) hm₂ hs₂ s hw₂
  obtain ⟨m', s', w', e, g1, g2, g3, q⟩ := adamax_real f (adamaxWith β₁ p₁ β₂ lr (m₁ ++ m₂) (s₁ ++ s₂))
    (by show (m₁ ++ m₂).length = _; rw [List.length_append, hm₁, hm₂])
    (by show (s₁ ++ s₂).length = _; rw [List.length_append, hs₁, hs₂]) s (w := w₁ ++ w₂)
    (by rw [List.length_append, hw₁, hw₂])
  dsimp only at q₁ q₂ q e e₁ e₂
  have L : ∀ {x y : List ℝ} (_ : x.length = n₁) {i : Nat} (_ : i < n₁), entry (x ++ y) i = entry x i :=
    fun hx _ hi => entry_append_left (hx ▸ hi)
  have R : ∀ {x y : List ℝ} (_ : x.length = n₁) {i : Nat}, entry (x ++ y) (n₁ + i) = entry y i := by
    intro x y hx i
    rw [← hx, entry_append_right]
  have hm : m' = m₁' ++ m₂' := eq_append_of_entries c1 d1 g1
    (fun i hi => by rw [(q i (by omega)).1, (q₁ i hi).1, v₁ i hi, L hm₁ hi])
    (fun i hi => by rw [(q (n₁ + i) (by omega)).1, (q₂ i hi).1, v₂ i hi, R hm₁])
  have z₁ : ∀ i, ¬ Active φ i → value φ i = 0 := fun i h => value_of_not_active h
  have z₂ : ∀ i, ¬ Active ψ i → value ψ i = 0 := fun i h => value_of_not_active h
  have hx₁ : ∀ i < n₁, entry s₁' i = max (β₂ * entry s₁ i) |value φ i * s| := by
    intro i hi
    by_cases hA : Active φ i
    · exact ((q₁ i hi).2.1 hA).1
    · rw [((q₁ i hi).2.2 hA).1, z₁ i hA, zero_mul, abs_zero, max_eq_left (mul_nonneg h0 (n1 i))]
  have hx₂ : ∀ i < n₂, entry s₂' i = max (β₂ * entry s₂ i) |value ψ i * s| := by
    intro i hi
    by_cases hA : Active ψ i
    · exact ((q₂ i hi).2.1 hA).1
    · rw [((q₂ i hi).2.2 hA).1, z₂ i hA, zero_mul, abs_zero, max_eq_left (mul_nonneg h0 (n2 i))]
  have hx : ∀ i < n₁ + n₂, 0 ≤ entry (s₁ ++ s₂) i → entry s' i = max (β₂ * entry (s₁ ++ s₂) i) |value r i * s| := by
    intro i hi hn
    by_cases hA : Active r i
    · exact ((q i hi).2.1 hA).1
    · rw [((q i hi).2.2 hA).1, value_of_not_active hA, zero_mul, abs_zero, max_eq_left (mul_nonneg h0 hn)]
  have hs : s' = s₁' ++ s₂' := eq_append_of_entries c2 d2 g2
    (fun i hi => by rw [hx i (by omega) (by rw [L hs₁ hi]; exact n1 i), hx₁ i hi, v₁ i hi, L hs₁ hi])
    (fun i hi => by rw [hx (n₁ + i) (by omega) (by rw [R hs₁]; exact n2 i), hx₂ i hi, v₂ i hi, R hs₁])
  have nn : ∀ {l : List ℝ} {k : Nat}, l.length = k → (∀ i < k, 0 ≤ entry l i) → ∀ i, 0 ≤ entry l i := by
    intro l k hl h i
    by_cases hi : i < k
    · exact h i hi
    · show 0 ≤ l.getD i Scalar.zero
      rw [List.getD_eq_default _ _ (by omega), real_zero]
  obtain ⟨u₁, u₂, hu, k1, k2, k3, k4⟩ := split_list g3
  subst hm hs
  refine ⟨m₁', m₂', s₁', s₂', w₁', w₂', u₁, u₂, e₁, e₂, by rw [e, hu], ⟨c1, d1, c2, d2, nn c2 fun i hi => by rw [hx₁ i hi]; exact (abs_nonneg _).trans (le_max_right _ _),
      nn d2 fun i hi => by rw [hx₂ i hi]; exact (abs_nonneg _).trans (le_max_right _ _)⟩, ⟨c3, d3, k1, k2⟩, ?_, ?_⟩
  · intro i hi
    rw [k3 i hi]
    obtain ⟨x1, x3, x4⟩ := q₁ i hi
    have x3 := fun h => (x3 h).2
    have x4 := fun h => (x4 h).2
    have x2 := hx₁ i hi
    obtain ⟨-, y3, y4⟩ := q i (by omega)
    have y3 := fun h => (y3 h).2
    have y4 := fun h => (y4 h).2
    rw [a₁ i hi] at y3 y4
    rw [L c1 hi, L c2 hi, L hw₁ hi] at y3
    rw [L hw₁ hi] at y4
    by_cases hA : Active φ i
    · refine ⟨fun _ => ?_, fun h => absurd hA h⟩
      rw [y3 (.inl hA), x3 hA]
    · refine ⟨?_, fun _ => ⟨x4 hA, fun hM => ?_⟩⟩
      · rintro (h | h)
        · exact absurd h hA
        · rw [y4 (by tauto), x4 hA]
      · rw [y3 (.inr hM), x1, x2, z₁ i hA, zero_mul, abs_zero, max_eq_left (mul_nonneg h0 (n1 i))]
        norm_num
  · intro i hi
    rw [k4 i hi]
    obtain ⟨x1, x3, x4⟩ := q₂ i hi
    have x3 := fun h => (x3 h).2
    have x4 := fun h => (x4 h).2
    have x2 := hx₂ i hi
    obtain ⟨-, y3, y4⟩ := q (n₁ + i) (by omega)
    have y3 := fun h => (y3 h).2
    have y4 := fun h => (y4 h).2
    rw [a₂ i hi] at y3 y4
    rw [R c1, R c2, R hw₁] at y3
    rw [R hw₁] at y4
    by_cases hA : Active ψ i
    · refine ⟨fun _ => ?_, fun h => absurd hA h⟩
      rw [y3 (.inl hA), x3 hA]
    · refine ⟨?_, fun _ => ⟨x4 hA, fun hM => ?_⟩⟩
      · rintro (h | h)
        · exact absurd h hA
        · rw [y4 (by tauto), x4 hA]
      · rw [y3 (.inr hM), x1, x2, z₂ i hA, zero_mul, abs_zero, max_eq_left (mul_nonneg h0 (n2 i))]
        norm_num

theorem project_parts {b₁ : B₁} {b₂ : B₂} {x : I} {φ ψ : Features ℝ} {n₁ n₂ : Nat}
    (h₁ : Basis.project b₁ x = .ok (.ok φ)) (h₂ : Basis.project b₂ x = .ok (.ok ψ)) (f₁ : Fits n₁ φ) (f₂ : Fits n₂ ψ) :
    ∃ r, Basis.project (Stack.mk b₁ b₂) x = .ok (.ok r) ∧ Fits (n₁ + n₂) r ∧
      (∀ i < n₁, value r i = value φ i) ∧ (∀ i < n₂, value r (n₁ + i) = value ψ i) ∧
      (∀ i < n₁, Active r i ↔ Active φ i ∨ Mixed φ ψ) ∧ ∀ i < n₂, Active r (n₁ + i) ↔ Active ψ i ∨ Mixed φ ψ := by
  obtain ⟨r, hr, fr, v1, v2⟩ := project_stack h₁ h₂ f₁ f₂
  obtain ⟨φ₀, ψ₀, g1, g2, hs⟩ := C21_stack_ok_only_if _ _ _ _ hr
  rw [h₁] at g1; rw [h₂] at g2; cases g1; cases g2
  have a := stack_active f₁.1 f₂.1 hs
  rw [f₁.2, f₂.2] at a
  exact ⟨r, hr, fr, v1, v2, a.1, a.2⟩

theorem not_mixed_active {n : Nat} {φ ψ : Features ℝ} (h : φ.isSparse = ψ.isSparse) (f₁ : Fits n φ) {i : Nat} (hi : i < n) :
    Active φ i ∨ ¬ Mixed φ ψ := by
  cases φ with
  | sparse sa =>
    refine .inr fun hm => ?_
    have hm : (Features.isSparse (.sparse sa) && ψ.isSparse) = false := hm
    rw [← h] at hm
    cases hm
  | dense da => exact .inl ⟨_, List.getElem?_eq_getElem (by have : da.length = n := f₁.2; omega)⟩

/-- The inputs and errors of a training run: both bases project every input to features that fit, both sparse or both dense. -/
def Spec.UsableAlike (b₁ : B₁) (b₂ : B₂) (n₁ n₂ : Nat) (es : List (I × ℝ)) : Prop :=
  ∀ e ∈ es, ∃ φ ψ, Basis.project b₁ e.1 = .ok (.ok φ) ∧ Fits n₁ φ ∧ Basis.project b₂ e.1 = .ok (.ok ψ) ∧ Fits n₂ ψ ∧
    φ.isSparse = ψ.isSparse

/-! ## C205 -/

/-- Where both parts are sparse or both dense, training over a stack by Adam is training the two parts side by side with the same
errors. -/
theorem C205_adam (b₁ : B₁) (b₂ : B₂) (es : List (I × ℝ)) (β₁ β₂ lr : ℝ) : ∀ (p₁ p₂ : ℝ) (w₁ w₂ m₁ m₂ s₁ s₂ : List ℝ),
    m₁.length = w₁.length → m₂.length = w₂.length → s₁.length = w₁.length → s₂.length = w₂.length →
    UsableAlike b₁ b₂ w₁.length w₂.length es →
    ∃ (p₁' p₂' : ℝ) (w₁' w₂' m₁' m₂' s₁' s₂' : List ℝ), w₁'.length = w₁.length ∧ w₂'.length = w₂.length ∧
      Updated (LFA.mk b₁ w₁ (adamWith β₁ p₁ β₂ p₂ lr m₁ s₁)) es (LFA.mk b₁ w₁' (adamWith β₁ p₁' β₂ p₂' lr m₁' s₁')) ∧
      Updated (LFA.mk b₂ w₂ (adamWith β₁ p₁ β₂ p₂ lr m₂ s₂)) es (LFA.mk b₂ w₂' (adamWith β₁ p₁' β₂ p₂' lr m₂' s₂')) ∧
      Updated (LFA.mk (Stack.mk b₁ b₂) (w₁ ++ w₂) (adamWith β₁ p₁ β₂ p₂ lr (m₁ ++ m₂) (s₁ ++ s₂))) es
        (LFA.mk (Stack.mk b₁ b₂) (w₁' ++ w₂') (adamWith β₁ p₁' β₂ p₂' lr (m₁' ++ m₂') (s₁' ++ s₂'))) := by
  induction es with
  | nil =>
    intro p₁ p₂ w₁ w₂ m₁ m₂ s₁ s₂ _ _ _ _ _
    exact ⟨p₁, p₂, w₁, w₂, m₁, m₂, s₁, s₂, rfl, rfl, .nil _, .nil _, .nil _⟩
  | cons e es ih =>
    intro p₁ p₂ w₁ w₂ m₁ m₂ s₁ s₂ c1 c2 c3 c4 hu
    obtain ⟨φ, ψ, h₁, f₁, h₂, f₂, hk⟩ := hu e List.mem_cons_self
    obtain ⟨r, hr, fr, v1, v2, a1, a2⟩ := project_parts h₁ h₂ f₁ f₂
    obtain ⟨m₁', m₂', s₁', s₂', w₁', w₂', u₁, u₂, e1, e2, e3, ⟨d1, d2, d3, d4⟩, ⟨l1, l2, l3, l4⟩, q1, q2⟩ :=
      adam_parts f₁ f₂ fr v1 v2 a1 a2 β₁ p₁ β₂ p₂ lr e.2 c1 c2 c3 c4 rfl rfl
    have g1 : u₁ = w₁' := eq_of_entries (l3.trans l1.symm) fun i hi =>
      (q1 i (by omega)).1 (not_mixed_active hk f₁ (by omega))
    have g2 : u₂ = w₂' := eq_of_entries (l4.trans l2.symm) fun i hi => by
      refine (q2 i (by omega)).1 ?_
      have := not_mixed_active hk.symm f₂ (i := i) (by omega)
      unfold Mixed at this ⊢
      rwa [Bool.and_comm]
    subst g1 g2
    obtain ⟨p₁'', p₂'', w₁'', w₂'', m₁'', m₂'', s₁'', s₂'', k1, k2, t1, t2, t3⟩ := ih (p₁ * β₁) (p₂ * β₂) u₁ u₂ m₁' m₂' s₁' s₂'
      (d1.trans l1.symm) (d2.trans l2.symm) (d3.trans l1.symm) (d4.trans l2.symm)
      (by rw [l1, l2]; exact fun e' he => hu e' (List.mem_cons_of_mem _ he))
    exact ⟨p₁'', p₂'', w₁'', w₂'', m₁'', m₂'', s₁'', s₂'', k1.trans l1, k2.trans l2, .cons (update_eq h₁ e1) t1,
      .cons (update_eq h₂ e2) t2, .cons (update_eq hr e3) t3⟩

/-- One call over a stack of a sparse and a dense part. The moments are those of the parts trained separately. So are the weights of
features with a stored activation. Every other weight stays when the part is trained separately, and moves along its old mean
gradient in the stack: it stays there only if that is 0. -/
theorem C205_adam_mixed (b₁ : B₁) (b₂ : B₂) (x : I) (e : ℝ) (φ ψ : Features ℝ) (h₁ : Basis.project b₁ x = .ok (.ok φ))
    (h₂ : Basis.project b₂ x = .ok (.ok ψ)) (w₁ w₂ m₁ m₂ s₁ s₂ : List ℝ) (f₁ : Fits w₁.length φ) (f₂ : Fits w₂.length ψ)
    (c1 : m₁.length = w₁.length) (c2 : m₂.length = w₂.length) (c3 : s₁.length = w₁.length) (c4 : s₂.length = w₂.length)
    (hM : Mixed φ ψ) (β₁ p₁ β₂ p₂ lr : ℝ) (hlr : lr ≠ 0) (hβ : β₁ ≠ 0) (hp : p₁ * β₁ ≠ 1) :
    ∃ m₁' m₂' s₁' s₂' w₁' w₂' u₁ u₂,
      ScalarLFA.update (LFA.mk b₁ w₁ (adamWith β₁ p₁ β₂ p₂ lr m₁ s₁)) x e =
        .ok (.ok (), LFA.mk b₁ w₁' (adamWith β₁ (p₁ * β₁) β₂ (p₂ * β₂) lr m₁' s₁')) ∧
      ScalarLFA.update (LFA.mk b₂ w₂ (adamWith β₁ p₁ β₂ p₂ lr m₂ s₂)) x e =
        .ok (.ok (), LFA.mk b₂ w₂' (adamWith β₁ (p₁ * β₁) β₂ (p₂ * β₂) lr m₂' s₂')) ∧
      ScalarLFA.update (LFA.mk (Stack.mk b₁ b₂) (w₁ ++ w₂) (adamWith β₁ p₁ β₂ p₂ lr (m₁ ++ m₂) (s₁ ++ s₂))) x e =
        .ok (.ok (), LFA.mk (Stack.mk b₁ b₂) (u₁ ++ u₂) (adamWith β₁ (p₁ * β₁) β₂ (p₂ * β₂) lr (m₁' ++ m₂') (s₁' ++ s₂'))) ∧
      (u₁.length = w₁.length ∧ u₂.length = w₂.length) ∧
      (∀ i < w₁.length, (Active φ i → entry u₁ i = entry w₁' i) ∧
        (¬ Active φ i → entry w₁' i = entry w₁ i ∧ (entry u₁ i = entry w₁ i ↔ entry m₁ i = 0) ∧ entry u₁ i = entry w₁ i +
          lr * (β₁ * entry m₁ i / (1 - p₁ * β₁)) / (√(β₂ * entry s₁ i / (1 - p₂ * β₂)) + 1e-7))) ∧
      (∀ i < w₂.length, (Active ψ i → entry u₂ i = entry w₂' i) ∧
        (¬ Active ψ i → entry w₂' i = entry w₂ i ∧ (entry u₂ i = entry w₂ i ↔ entry m₂ i = 0) ∧ entry u₂ i = entry w₂ i +
          lr * (β₁ * entry m₂ i / (1 - p₁ * β₁)) / (√(β₂ * entry s₂ i / (1 - p₂ * β₂)) + 1e-7))) := by
  obtain ⟨r, hr, fr, v1, v2, a1, a2⟩ := project_parts h₁ h₂ f₁ f₂
  obtain ⟨m₁', m₂', s₁', s₂', w₁', w₂', u₁, u₂, e1, e2, e3, -, ⟨-, -, l3, l4⟩, q1, q2⟩ :=
    adam_parts f₁ f₂ fr v1 v2 a1 a2 β₁ p₁ β₂ p₂ lr e c1 c2 c3 c4 rfl rfl
  have key : ∀ a m d : ℝ, 0 < d → (a + lr * (β₁ * m / (1 - p₁ * β₁)) / d = a ↔ m = 0) := fun a m d hd => by
    have h1 : 1 - p₁ * β₁ ≠ 0 := sub_ne_zero.2 (Ne.symm hp)
    rw [add_eq_left, div_eq_zero_iff, or_iff_left hd.ne', mul_eq_zero, or_iff_right hlr, div_eq_zero_iff, or_iff_left h1,
      mul_eq_zero, or_iff_right hβ]
  refine ⟨m₁', m₂', s₁', s₂', w₁', w₂', u₁, u₂, update_eq h₁ e1, update_eq h₂ e2, update_eq hr e3, ⟨l3, l4⟩,
    fun i hi => ⟨fun h => (q1 i hi).1 (.inl h), fun h => ?_⟩, fun i hi => ⟨fun h => (q2 i hi).1 (.inl h), fun h => ?_⟩⟩
  · obtain ⟨k1, k2⟩ := (q1 i hi).2 h
    have k2 := k2 hM
    exact ⟨k1, by rw [k2]; exact key _ _ _ (by positivity), k2⟩
  · obtain ⟨k1, k2⟩ := (q2 i hi).2 h
    have k2 := k2 hM
    exact ⟨k1, by rw [k2]; exact key _ _ _ (by positivity), k2⟩

/-- Where both parts are sparse or both dense, training over a stack by AdaMax is training the two parts side by side with the same
errors. -/
theorem C205_adamax (b₁ : B₁) (b₂ : B₂) (es : List (I × ℝ)) (β₁ β₂ lr : ℝ) (h0 : 0 ≤ β₂) : ∀ (p₁ : ℝ) (w₁ w₂ m₁ m₂ s₁ s₂ : List ℝ),
    m₁.length = w₁.length → m₂.length = w₂.length → s₁.length = w₁.length → s₂.length = w₂.length →
    (∀ i, 0 ≤ entry s₁ i) → (∀ i, 0 ≤ entry s₂ i) →
    UsableAlike b₁ b₂ w₁.length w₂.length es →
    ∃ (p₁' : ℝ) (w₁' w₂' m₁' m₂' s₁' s₂' : List ℝ), w₁'.length = w₁.length ∧ w₂'.length = w₂.length ∧
      Updated (LFA.mk b₁ w₁ (adamaxWith β₁ p₁ β₂ lr m₁ s₁)) es (LFA.mk b₁ w₁' (adamaxWith β₁ p₁' β₂ lr m₁' s₁')) ∧
      Updated (LFA.mk b₂ w₂ (adamaxWith β₁ p₁ β₂ lr m₂ s₂)) es (LFA.mk b₂ w₂' (adamaxWith β₁ p₁' β₂ lr m₂' s₂')) ∧
      Updated (LFA.mk (Stack.mk b₁ b₂) (w₁ ++ w₂) (adamaxWith β₁ p₁ β₂ lr (m₁ ++ m₂) (s₁ ++ s₂))) es
        (LFA.mk (Stack.mk b₁ b₂) (w₁' ++ w₂') (adamaxWith β₁ p₁' β₂ lr (m₁' ++ m₂') (s₁' ++ s₂'))) := by
  induction es with
  | nil =>
    intro p₁ w₁ w₂ m₁ m₂ s₁ s₂ _ _ _ _ _ _ _
    exact ⟨p₁, w₁, w₂, m₁, m₂, s₁, s₂, rfl, rfl, .nil _, .nil _, .nil _⟩
  | cons e es ih =>
    intro p₁ w₁ w₂ m₁ m₂ s₁ s₂ c1 c2 c3 c4 n1 n2 hu
    obtain ⟨φ, ψ, h₁, f₁, h₂, f₂, hk⟩ := hu e List.mem_cons_self
    obtain ⟨r, hr, fr, v1, v2, a1, a2⟩ := project_parts h₁ h₂ f₁ f₂
    obtain ⟨m₁', m₂', s₁', s₂', w₁', w₂', u₁, u₂, e1, e2, e3, ⟨d1, d2, d3, d4, n3, n4⟩, ⟨l1, l2, l3, l4⟩, q1, q2⟩ :=
      adamax_parts f₁ f₂ fr v1 v2 a1 a2 β₁ p₁ β₂ lr e.2 h0 c1 c2 c3 c4 rfl rfl n1 n2
    have g1 : u₁ = w₁' := eq_of_entries (l3.trans l1.symm) fun i hi =>
      (q1 i (by omega)).1 (not_mixed_active hk f₁ (by omega))
    have g2 : u₂ = w₂' := eq_of_entries (l4.trans l2.symm) fun i hi => by
      refine (q2 i (by omega)).1 ?_
      have := not_mixed_active hk.symm f₂ (i := i) (by omega)
      unfold Mixed at this ⊢
      rwa [Bool.and_comm]
    subst g1 g2
    obtain ⟨p₁'', w₁'', w₂'', m₁'', m₂'', s₁'', s₂'', k1, k2, t1, t2, t3⟩ := ih (p₁ * β₁) u₁ u₂ m₁' m₂' s₁' s₂'
      (d1.trans l1.symm) (d2.trans l2.symm) (d3.trans l1.symm) (d4.trans l2.symm) n3 n4
      (by rw [l1, l2]; exact fun e' he => hu e' (List.mem_cons_of_mem _ he))
    exact ⟨p₁'', w₁'', w₂'', m₁'', m₂'', s₁'', s₂'', k1.trans l1, k2.trans l2, .cons (update_eq h₁ e1) t1,
      .cons (update_eq h₂ e2) t2, .cons (update_eq hr e3) t3⟩

/-- One call over a stack of a sparse and a dense part. The moments are those of the parts trained separately. So are the weights of
features with a stored activation. Every other weight stays when the part is trained separately, and moves along its old mean
gradient in the stack: it stays there only if that is 0. -/
theorem C205_adamax_mixed (b₁ : B₁) (b₂ : B₂) (x : I) (e : ℝ) (φ ψ : Features ℝ) (h₁ : Basis.project b₁ x = .ok (.ok φ))
    (h₂ : Basis.project b₂ x = .ok (.ok ψ)) (w₁ w₂ m₁ m₂ s₁ s₂ : List ℝ) (f₁ : Fits w₁.length φ) (f₂ : Fits w₂.length ψ)
    (c1 : m₁.length = w₁.length) (c2 : m₂.length = w₂.length) (c3 : s₁.length = w₁.length) (c4 : s₂.length = w₂.length)
    (hM : Mixed φ ψ) (β₁ p₁ β₂ lr : ℝ) (h0 : 0 ≤ β₂)
    (n1 : ∀ i, 0 ≤ entry s₁ i) (n2 : ∀ i, 0 ≤ entry s₂ i) (hlr : lr ≠ 0) (hβ : β₁ ≠ 0) (hp : p₁ * β₁ ≠ 1) :
    ∃ m₁' m₂' s₁' s₂' w₁' w₂' u₁ u₂,
      ScalarLFA.update (LFA.mk b₁ w₁ (adamaxWith β₁ p₁ β₂ lr m₁ s₁)) x e =
        .ok (.ok (), LFA.mk b₁ w₁' (adamaxWith β₁ (p₁ * β₁) β₂ lr m₁' s₁')) ∧
      ScalarLFA.update (LFA.mk b₂ w₂ (adamaxWith β₁ p₁ β₂ lr m₂ s₂)) x e =
        .ok (.ok (), LFA.mk b₂ w₂' (adamaxWith β₁ (p₁ * β₁) β₂ lr m₂' s₂')) ∧
      ScalarLFA.update (LFA.mk (Stack.mk b₁ b₂) (w₁ ++ w₂) (adamaxWith β₁ p₁ β₂ lr (m₁ ++ m₂) (s₁ ++ s₂))) x e =
        .ok (.ok (), LFA.mk (Stack.mk b₁ b₂) (u₁ ++ u₂) (adamaxWith β₁ (p₁ * β₁) β₂ lr (m₁' ++ m₂') (s₁' ++ s₂'))) ∧
      (u₁.length = w₁.length ∧ u₂.length = w₂.length) ∧
      (∀ i < w₁.length, (Active φ i → entry u₁ i = entry w₁' i) ∧
        (¬ Active φ i → entry w₁' i = entry w₁ i ∧ (entry u₁ i = entry w₁ i ↔ entry m₁ i = 0) ∧ entry u₁ i = entry w₁ i +
          lr * (β₁ * entry m₁ i / (1 - p₁ * β₁)) / (β₂ * entry s₁ i + 1e-7))) ∧
      (∀ i < w₂.length, (Active ψ i → entry u₂ i = entry w₂' i) ∧
        (¬ Active ψ i → entry w₂' i = entry w₂ i ∧ (entry u₂ i = entry w₂ i ↔ entry m₂ i = 0) ∧ entry u₂ i = entry w₂ i +
          lr * (β₁ * entry m₂ i / (1 - p₁ * β₁)) / (β₂ * entry s₂ i + 1e-7))) := by
  obtain ⟨r, hr, fr, v1, v2, a1, a2⟩ := project_parts h₁ h₂ f₁ f₂
  obtain ⟨m₁', m₂', s₁', s₂', w₁', w₂', u₁, u₂, e1, e2, e3, -, ⟨-, -, l3, l4⟩, q1, q2⟩ :=
    adamax_parts f₁ f₂ fr v1 v2 a1 a2 β₁ p₁ β₂ lr e h0 c1 c2 c3 c4 rfl rfl n1 n2
  have key : ∀ a m d : ℝ, 0 < d → (a + lr * (β₁ * m / (1 - p₁ * β₁)) / d = a ↔ m = 0) := fun a m d hd => by
    have h1 : 1 - p₁ * β₁ ≠ 0 := sub_ne_zero.2 (Ne.symm hp)
    rw [add_eq_left, div_eq_zero_iff, or_iff_left hd.ne', mul_eq_zero, or_iff_right hlr, div_eq_zero_iff, or_iff_left h1,
      mul_eq_zero, or_iff_right hβ]
  refine ⟨m₁', m₂', s₁', s₂', w₁', w₂', u₁, u₂, update_eq h₁ e1, update_eq h₂ e2, update_eq hr e3, ⟨l3, l4⟩,
    fun i hi => ⟨fun h => (q1 i hi).1 (.inl h), fun h => ?_⟩, fun i hi => ⟨fun h => (q2 i hi).1 (.inl h), fun h => ?_⟩⟩
  · obtain ⟨k1, k2⟩ := (q1 i hi).2 h
    have k2 := k2 hM
    exact ⟨k1, by rw [k2]; exact key _ _ _ (by have := mul_nonneg h0 (n1 i); positivity), k2⟩
  · obtain ⟨k1, k2⟩ := (q2 i hi).2 h
    have k2 := k2 hM
    exact ⟨k1, by rw [k2]; exact key _ _ _ (by have := mul_nonneg h0 (n2 i); positivity), k2⟩

set_option maxHeartbeats 1000000 in
/-- A sparse basis with and without a bias, both trained by a fresh Adam: after a call that uses feature `i`, a call that does not
use it leaves its weight alone without the bias, and moves it with the bias. -/
theorem C205_with_bias {B I : Type} [Space B] [Basis B I ℝ] (b : B) (n : Nat) (x x' : I) (φ φ' : Features ℝ)
    (h : Basis.project b x = .ok (.ok φ)) (h' : Basis.project b x' = .ok (.ok φ')) (hf : Fits n φ) (hf' : Fits n φ') (i : Nat)
    (hi : i < n) (hv : value φ i ≠ 0) (hn : ¬ Active φ' i) (e e' : ℝ) (he : e ≠ 0) (lr β₁ β₂ : ℝ) (hlr : lr ≠ 0) (h0 : 0 < β₁)
    (h1 : β₁ < 1) (w wb : List ℝ) (hw : w.length = n) (hwb : wb.length = n + 1) :
    ∃ fa fa' fb fb',
      ScalarLFA.update (LFA.mk b w (Adam.new n lr β₁ β₂)) x e = .ok (.ok (), fa) ∧ ScalarLFA.update fa x' e' = .ok (.ok (), fa') ∧
      ScalarLFA.update (LFA.mk (withBias b : Stack B (Bias ℝ)) wb (Adam.new (n + 1) lr β₁ β₂)) x e = .ok (.ok (), fb) ∧
      ScalarLFA.update fb x' e' = .ok (.ok (), fb') ∧
      entry fa'.weights i = entry fa.weights i ∧ entry fb'.weights i ≠ entry fb.weights i := by
  have hb : ∀ z : I, Basis.project (Bias.unit : Bias ℝ) z = .ok (.ok (.dense [Scalar.one])) := fun _ => rfl
  have fb : Fits 1 (.dense [Scalar.one] : Features ℝ) := ⟨trivial, rfl⟩
  obtain ⟨r, hr, fr, v, -⟩ := project_parts h (hb x) hf fb
  obtain ⟨r', hr', fr', v', -, a', -⟩ := project_parts h' (hb x') hf' fb
  obtain ⟨m, s, w₁, e1, l1, l2, l3, q⟩ := adam_real hf (Adam.new n lr β₁ β₂) List.length_replicate List.length_replicate e hw
  obtain ⟨m₂, s₂, w₂, e2, k1, k2, k3, q₂⟩ := adam_real hf' { Adam.new n lr β₁ β₂ with
    beta1Prod := β₁ * β₁, beta2Prod := β₂ * β₂, expAvg := m, expAvgSq := s } l1 l2 e' l3
  obtain ⟨mb, sb, wb₁, g1, c1, c2, c3, p⟩ := adam_real fr (Adam.new (n + 1) lr β₁ β₂) List.length_replicate
    List.length_replicate e hwb
  obtain ⟨mb₂, sb₂, wb₂, g2, d1, d2, d3, p₂⟩ := adam_real fr' { Adam.new (n + 1) lr β₁ β₂ with
    beta1Prod := β₁ * β₁, beta2Prod := β₂ * β₂, expAvg := mb, expAvgSq := sb } c1 c2 e' c3
  refine ⟨_, _, _, _, update_eq h e1, update_eq h' e2, update_eq hr g1, update_eq hr' g2, (q₂ i hi).2.2.2 hn, ?_⟩
  have hm : entry mb i ≠ 0 := by
    have := (p i (by omega)).1
    have z : entry (Adam.new (n + 1) lr β₁ β₂).expAvg i = 0 := by
      show (List.replicate (n + 1) Scalar.zero).getD i Scalar.zero = 0
      rw [List.getD_replicate _ (by omega), real_zero]
    rw [z, v i hi] at this
    rw [this, mul_zero, zero_add]
    exact mul_ne_zero (sub_ne_zero.2 h1.ne') (mul_ne_zero hv he)
  have hact : Active r' i := (a' i hi).2 (.inr (by unfold Mixed; rw [Bool.and_comm]; rfl))
  obtain ⟨x1, -, x3, -⟩ := p₂ i (by omega)
  have x3 := x3 hact
  show entry wb₂ i ≠ entry wb₁ i
  rw [x3, Ne, add_eq_left, v' i hi, value_of_not_active hn] at *
  dsimp only [Adam.new] at x1 ⊢
  rw [x1]
  have hd : ∀ d : ℝ, (√d + 1e-7) ≠ 0 := fun d => by positivity
  have hp : 1 - β₁ * β₁ * β₁ ≠ 0 := by
    have : β₁ * β₁ * β₁ < 1 := by
      have := mul_lt_one_of_nonneg_of_lt_one_left h0.le h1 h1.le
      exact mul_lt_one_of_nonneg_of_lt_one_left (by positivity) this h1.le
    linarith
  rw [div_eq_zero_iff, or_iff_left (hd _), mul_eq_zero, or_iff_right hlr, div_eq_zero_iff, or_iff_left hp, zero_mul, mul_zero,
    add_zero, mul_eq_zero]
  exact not_or.2 ⟨h0.ne', hm⟩

/-- A grid of two cells with a bias: training in the second cell moves the weight of the first. -/
theorem C205_example : ∃ (x x' : List ℝ) (fa fa' fb fb' : _),
    ScalarLFA.update (LFA.mk (UniformGrid.new [ofBounds 0 1 2]) [0, 0] (Adam.new 2 1 (1 / 2) (1 / 2) : Adam ℝ)) x 1 =
      .ok (.ok (), fa) ∧ ScalarLFA.update fa x' 1 = .ok (.ok (), fa') ∧
    ScalarLFA.update (LFA.mk (withBias (UniformGrid.new [ofBounds 0 1 2]) : Stack (UniformGrid ℝ) (Bias ℝ)) [0, 0, 0]
      (Adam.new 3 1 (1 / 2) (1 / 2) : Adam ℝ)) x 1 = .ok (.ok (), fb) ∧ ScalarLFA.update fb x' 1 = .ok (.ok (), fb') ∧
    entry fa'.weights 0 = entry fa.weights 0 ∧ entry fb'.weights 0 ≠ entry fb.weights 0 := by
  have hl : ∀ d ∈ [ofBounds 0 1 2], d.Lawful := fun d hd => by
    rw [List.mem_singleton] at hd
    subst hd
    exact ofBounds_lawful one_pos two_pos
  obtain ⟨x0, -, p0⟩ := C34_surjective [ofBounds 0 1 2] hl (by simp) 0 (by simp [ofBounds])
  obtain ⟨x1, -, p1⟩ := C34_surjective [ofBounds 0 1 2] hl (by simp) 1 (by simp [ofBounds])
  have hn : ([ofBounds 0 1 2].map Equipartition.nPartitions).prod = 2 := by simp [ofBounds]
  rw [hn, real_one] at p0 p1
  obtain ⟨fa, fa', fb, fb', h⟩ := C205_with_bias (UniformGrid.new [ofBounds 0 1 2]) 2 x0 x1 _ _ p0 p1
    ⟨⟨by simp, by simp⟩, rfl⟩ ⟨⟨by simp, by simp⟩, rfl⟩ 0 two_pos (by show (1 : ℝ) ≠ 0; norm_num)
    (by
      rintro ⟨a, ha⟩
      have ha : (0, a) ∈ [(1, (1 : ℝ))] := ha
      rw [List.mem_singleton] at ha
      cases ha) 1 1 one_ne_zero 1 (1 / 2) (1 / 2) one_ne_zero (by norm_num) (by norm_num) [0, 0] [0, 0, 0] rfl rfl
  exact ⟨x0, x1, fa, fa', fb, fb', h⟩

end Lfa

import Verif.Proofs.RoundErr
import Verif.Props.C59_C68
import Verif.Props.C91

/-!
# C93-C94: accuracy of predictions and of gradient ascent in `f64`

`M` is any machine that rounds like `f64`; how sums are ordered is left open.
-/

set_option linter.unusedSectionVars false

namespace Lfa

open Spec Machine XReal

variable {M : Machine}

/-! ## C93 Predictions -/

section
variable {B O I : Type} [Space B] [Basis B I (FP M)]

/-- A finite prediction is within `(1 + u)^k - 1` of the exact inner product, relative to the sum of
the magnitudes of its `k` stored terms, plus underflow. -/
theorem C93_evaluate (hM : M.rnd = binary64Format.rnd) (fa : ScalarLFA B O (FP M)) (x : I)
    (φ : Features (FP M)) (hp : Basis.project fa.basis x = .ok (.ok φ))
    (hφ : Fits fa.weights.length φ) {v : FP M} (hv : fa.evaluate x = .ok (.ok v)) {z : ℝ}
    (hz : Is v z) :
    |z - exactDot φ fa.weights| ≤ ((1 + roundoff) ^ storedCount φ - 1) * absDot φ fa.weights +
      storedCount φ * (1 + roundoff) ^ storedCount φ * tiny := by
  rw [scalar_evaluate_eq hp] at hv
  obtain ⟨_, e1, e2⟩ := P.map_eq_ok.1 hv
  cases e2
  exact dot_err hM hφ rfl e1 hz

/-- Every output of a vector approximator. -/
theorem C93_evaluate_vector (hM : M.rnd = binary64Format.rnd) (fa : VectorLFA B O (FP M)) (x : I)
    (φ : Features (FP M)) (hp : Basis.project fa.basis x = .ok (.ok φ))
    (hφ : ∀ c ∈ fa.weights, Fits c.length φ) {vs : List (FP M)}
    (hv : fa.evaluate x = .ok (.ok vs)) (j : Nat) (hj : j < fa.weights.length) {z : ℝ}
    (hz : Is (entry vs j) z) :
    |z - exactDot φ fa.weights[j]| ≤ ((1 + roundoff) ^ storedCount φ - 1) * absDot φ fa.weights[j] +
      storedCount φ * (1 + roundoff) ^ storedCount φ * tiny := by
  rw [vector_evaluate_eq hp] at hv
  obtain ⟨us, e1, e2⟩ := P.map_eq_ok.1 hv
  cases e2
  unfold Features.matmul at e1
  have e1 := (mapM_ok_iff _ _ _).1 e1
  have hl := e1.length_eq
  rw [← getElem_entry (hl ▸ hj)] at hz
  exact dotColumn_err hM _ (hφ _ (List.getElem_mem hj)) rfl (e1.get hj (hl ▸ hj)) hz

/-- A vector approximator adds up the products with a column in another order than a scalar approximator with the same
weights. Their finite predictions differ by at most twice that bound. -/
theorem C93_column_order (hM : M.rnd = binary64Format.rnd) (fv : VectorLFA B O (FP M)) (x : I)
    (φ : Features (FP M)) (hp : Basis.project fv.basis x = .ok (.ok φ))
    (hφ : ∀ c ∈ fv.weights, Fits c.length φ) {vs : List (FP M)}
    (hv : fv.evaluate x = .ok (.ok vs)) (j : Nat) (hj : j < fv.weights.length) {v : FP M}
    (hs : ScalarLFA.evaluate (LFA.mk fv.basis fv.weights[j] fv.optimiser) x = .ok (.ok v)) {z z' : ℝ}
    (hz : Is (entry vs j) z) (hz' : Is v z') :
    |z - z'| ≤ 2 * (((1 + roundoff) ^ storedCount φ - 1) * absDot φ fv.weights[j] +
      storedCount φ * (1 + roundoff) ^ storedCount φ * tiny) := by
  have h1 := C93_evaluate_vector hM fv x φ hp hφ hv j hj hz
  have h2 := C93_evaluate hM (LFA.mk fv.basis fv.weights[j] fv.optimiser) x φ hp (hφ _ (List.getElem_mem hj)) hs hz'
  have := abs_sub_le z (exactDot φ fv.weights[j]) z'
  rw [abs_sub_comm z'] at h2
  linarith

end

/-- The order in which a hash map is visited changes a prediction by at most twice that bound. -/
theorem C93_hash_order (hM : M.rnd = binary64Format.rnd) {n : Nat} (m m' : HMap (FP M))
    (hm : m.Perm m') (hφ : Fits n (.sparse ⟨n, m⟩)) {w : List (FP M)} (hw : w.length = n)
    {v v' : FP M} (hv : (Features.sparse ⟨n, m⟩).dot w = .ok v)
    (hv' : (Features.sparse ⟨n, m'⟩).dot w = .ok v') {z z' : ℝ} (hz : Is v z) (hz' : Is v' z') :
    |z - z'| ≤ 2 * (((1 + roundoff) ^ m.length - 1) * absDot (.sparse ⟨n, m⟩) w +
      m.length * (1 + roundoff) ^ m.length * tiny) := by
  have hv0 : ∀ i, value (.sparse ⟨n, m'⟩) i = value (.sparse ⟨n, m⟩ : Features (FP M)) i := fun i => by
    rw [value_sparse, value_sparse, HMap.get?_perm hφ.1.1 hm]
  have hφ' : Fits n (.sparse ⟨n, m'⟩ : Features (FP M)) :=
    ⟨⟨HMap.NodupKeys.perm hφ.1.1 hm, fun e he => hφ.1.2 e (hm.mem_iff.2 he)⟩, rfl⟩
  have h1 := dot_err hM hφ hw hv hz
  have h2 := dot_err hM hφ' hw hv' hz'
  have e1 : exactDot (.sparse ⟨n, m'⟩) w = exactDot (.sparse ⟨n, m⟩) w :=
    Finset.sum_congr rfl fun i _ => by rw [hv0]
  have e2 : absDot (.sparse ⟨n, m'⟩) w = absDot (.sparse ⟨n, m⟩) w :=
    Finset.sum_congr rfl fun i _ => by rw [hv0]
  have e3 : storedCount (.sparse ⟨n, m'⟩ : Features (FP M)) = m.length := hm.length_eq.symm
  rw [e1, e2, e3] at h2
  have e4 : storedCount (.sparse ⟨n, m⟩ : Features (FP M)) = m.length := rfl
  rw [e4] at h1
  have := abs_sub_le z (exactDot (.sparse ⟨n, m⟩) w) z'
  rw [abs_sub_comm z'] at h2
  linarith

/-! ## C94 Gradient ascent -/

/-- The rounded increment of one weight against the exact one. -/
theorem increment_err (hM : M.rnd = binary64Format.rnd) {lr s a : FP M} {d : ℝ}
    (h : Is (lr *. s *. a) d) :
    |d - real lr * real s * real a| ≤ ((1 + roundoff) ^ 2 - 1) * |real lr * real s * real a| +
      (1 + roundoff) * (1 + |real a|) * tiny := by
  obtain ⟨p, y, hp, hy, h1⟩ := mul_err hM h
  obtain ⟨l, t, hl, ht, h2⟩ := mul_err hM hp
  rw [is_real hl, is_real ht, is_real hy]
  have hu := roundoff_pos
  have hτ := tiny_pos
  have h3 : |d - l * t * y| ≤ |d - p * y| + |p * y - l * t * y| := abs_sub_le _ _ _
  have h4 : |p * y - l * t * y| ≤ (roundoff * |l * t| + tiny) * |y| := by
    rw [← sub_mul, abs_mul]
    exact mul_le_mul_of_nonneg_right h2 (abs_nonneg _)
  have h5 : |p * y| ≤ |p * y - l * t * y| + |l * t * y| := by
    have := abs_add_le (p * y - l * t * y) (l * t * y)
    rwa [sub_add_cancel] at this
  have h6 : |l * t * y| = |l * t| * |y| := abs_mul _ _
  have h7 := mul_le_mul_of_nonneg_left (h5.trans (add_le_add_left h4 _)) hu.le
  have h8 : 0 ≤ |l * t| * |y| := by positivity
  have h9 : 0 ≤ roundoff * tiny := by positivity
  rw [h6] at h7 ⊢
  nlinarith [abs_nonneg y]

/-- One call adds a slightly wrong increment with a slightly wrong sum. -/
theorem sgd_event (hM : M.rnd = binary64Format.rnd) {n : Nat} (o : SGD (FP M)) {w w₁ : List (FP M)}
    {φ : Features (FP M)} (hφ : Fits n φ) (s : FP M) (i : Nat)
    (h : (∀ a, Stored φ i a → entry w₁ i = (entry w i +. o.lr *. s *. a)) ∧
      (¬ Active φ i → entry w₁ i = entry w i)) {z : ℝ} (hz : Is (entry w₁ i) z) :
    ∃ ω δ, Is (entry w i) ω ∧ |z - (ω + δ)| ≤ roundoff * |ω + δ| ∧
      |δ - real o.lr * real s * real (value φ i)| ≤
        ((1 + roundoff) ^ 2 - 1) * |real o.lr * real s * real (value φ i)| +
          (1 + roundoff) * (1 + |real (value φ i)|) * tiny := by
  have hu := roundoff_pos
  have hτ := tiny_pos
  by_cases ha : Active φ i
  · obtain ⟨a, ha⟩ := ha
    rw [h.1 a ha] at hz
    obtain ⟨ω, δ, hω, hδ, he⟩ := add_err hM hz
    rw [value_of_stored (keysUnique_of_wf hφ.1) ha]
    exact ⟨ω, δ, hω, he, increment_err hM hδ⟩
  · rw [h.2 ha] at hz
    have : value φ i = Scalar.zero := by
      cases φ with
      | dense da =>
        show entry da i = _
        refine entry_of_ge ?_
        by_contra hc
        exact ha (active_dense (not_le.1 hc))
      | sparse sa =>
        rw [value_sparse, (not_active_sparse_iff hφ.1.1 i).1 ha]; rfl
    refine ⟨z, 0, hz, by rw [add_zero, sub_self, abs_zero]; positivity, ?_⟩
    rw [this, real_zero', mul_zero, sub_self, abs_zero, mul_zero]
    positivity

/-- Additions accumulate one rounding per call. -/
theorem sgd_history (hM : M.rnd = binary64Format.rnd) {n : Nat} (i : Nat) (hi : i < n) :
    ∀ (es : List (Event (FP M))) (o o' : SGD (FP M)) (w w' : List (FP M)), w.length = n →
      (∀ e ∈ es, e.Fits n) → History o w es o' w' → ∀ z, Is (entry w' i) z →
      ∃ ω δ, Is (entry w i) ω ∧
        List.Forall₂ (fun e d => |d - increment (real o.lr) i e| ≤
          ((1 + roundoff) ^ 2 - 1) * |increment (real o.lr) i e| +
            (1 + roundoff) * (1 + |presented i e|) * tiny) es δ ∧
        |z - (ω + δ.sum)| ≤ ((1 + roundoff) ^ es.length - 1) * (|ω| + (δ.map (|·|)).sum) := by
  have hu := roundoff_pos
  have hτ := tiny_pos
  have key : ∀ {z ω₁ ω δ D A : ℝ} {k : ℕ}, |D| ≤ A → |ω₁ - (ω + δ)| ≤ roundoff * |ω + δ| →
      |z - (ω₁ + D)| ≤ ((1 + roundoff) ^ k - 1) * (|ω₁| + A) →
      |z - (ω + (δ + D))| ≤ ((1 + roundoff) ^ (k + 1) - 1) * (|ω| + (|δ| + A)) := by
    intro z ω₁ ω δ D A k hD h1 h2
    have a1 : |z - (ω + (δ + D))| ≤ |z - (ω₁ + D)| + |ω₁ - (ω + δ)| := by
      have := abs_add_le (z - (ω₁ + D)) (ω₁ - (ω + δ))
      have e : z - (ω₁ + D) + (ω₁ - (ω + δ)) = z - (ω + (δ + D)) := by ring
      rwa [e] at this
    have a2 : |ω₁| ≤ |ω₁ - (ω + δ)| + |ω + δ| := by
      have := abs_add_le (ω₁ - (ω + δ)) (ω + δ)
      rwa [sub_add_cancel] at this
    have a3 := abs_add_le ω δ
    have p0 : 1 ≤ (1 + roundoff) ^ k := one_le_pow₀ (by linarith)
    have hA : 0 ≤ A := (abs_nonneg _).trans hD
    have a4 : |ω₁| ≤ (1 + roundoff) * (|ω| + |δ|) := by nlinarith
    have a5 : |ω₁ - (ω + δ)| ≤ roundoff * (|ω| + |δ|) := by nlinarith
    have a6 : ((1 + roundoff) ^ k - 1) * (|ω₁| + A) ≤
        ((1 + roundoff) ^ k - 1) * ((1 + roundoff) * (|ω| + |δ|) + (1 + roundoff) * A) :=
      mul_le_mul_of_nonneg_left (by nlinarith) (by linarith)
    rw [pow_succ]
    have : 0 ≤ roundoff * A := by positivity
    nlinarith
  intro es
  induction es with
  | nil =>
    intro o o' w w' _ _ h z hz
    cases h
    exact ⟨z, [], hz, .nil, by simp⟩
  | cons e es ih =>
    intro o o' w w' hw hes h z hz
    have hfit := hes e List.mem_cons_self
    have hes' := fun e' h' => hes e' (List.mem_cons_of_mem _ h')
    cases h with
    | step h t =>
      rename_i φ
      obtain ⟨w₁, h1, h2, h3⟩ := sgd_scaled hfit o Scalar.one hw
      have e1 : Optimiser.step o w φ = Optimiser.stepScaled o w φ Scalar.one := by
        show (φ.scaledAddto o.lr w >>= _) = (φ.scaledAddto (o.lr *. Scalar.one) w >>= _)
        rw [mul_one_scalar]
      rw [e1, h1] at h
      cases h
      obtain ⟨ω₁, δ, g1, g2, g3⟩ := ih _ _ _ _ h2 hes' t z hz
      obtain ⟨ω, d, k1, k2, k3⟩ := sgd_event hM o hfit Scalar.one i (h3 i hi) g1
      refine ⟨ω, d :: δ, k1, .cons ?_ g2, ?_⟩
      · rw [is_real (val_one (M := M)), mul_one] at k3
        exact k3
      · rw [List.sum_cons, List.map_cons, List.sum_cons]
        exact key (abs_sum_le δ) k2 g3
    | stepScaled h t =>
      rename_i φ s
      obtain ⟨w₁, h1, h2, h3⟩ := sgd_scaled hfit o s hw
      rw [h1] at h
      cases h
      obtain ⟨ω₁, δ, g1, g2, g3⟩ := ih _ _ _ _ h2 hes' t z hz
      obtain ⟨ω, d, k1, k2, k3⟩ := sgd_event hM o hfit s i (h3 i hi) g1
      refine ⟨ω, d :: δ, k1, .cons k3 g2, ?_⟩
      rw [List.sum_cons, List.map_cons, List.sum_cons]
      exact key (abs_sum_le δ) k2 g3
    | reset t =>
      obtain ⟨ω₁, δ, g1, g2, g3⟩ := ih _ _ _ _ hw hes' t z hz
      refine ⟨ω₁, 0 :: δ, g1, .cons ?_ g2, ?_⟩
      · show |(0 : ℝ) - 0| ≤ _ * |(0 : ℝ)| + _
        rw [sub_zero, abs_zero, mul_zero]
        positivity
      · rw [List.sum_cons, List.map_cons, List.sum_cons]
        exact key (ω := ω₁) (δ := 0) (abs_sum_le δ)
          (by rw [add_zero, sub_self, abs_zero]; positivity) g3

/-- Over any history of `T` calls a weight that ends up finite is the initial weight plus the exact
increments, up to relative error `(1 + u)^(T + 2) - 1` and underflow. -/
theorem C94_sgd (hM : M.rnd = binary64Format.rnd) {n : Nat} (o o' : SGD (FP M))
    (w w' : List (FP M)) (hw : w.length = n) (es : List (Event (FP M)))
    (hes : ∀ e ∈ es, e.Fits n) (h : History o w es o' w') (i : Nat) (hi : i < n)
    (hz : Finite (entry w' i)) :
    |real (entry w' i) - (real (entry w i) + (es.map (increment (real o.lr) i)).sum)| ≤
      ((1 + roundoff) ^ (es.length + 2) - 1) *
        (|real (entry w i)| + (es.map fun e => |increment (real o.lr) i e|).sum) +
      (1 + roundoff) ^ (es.length + 1) * (es.map fun e => 1 + |presented i e|).sum * tiny := by
  have hu := roundoff_pos
  have hτ := tiny_pos
  obtain ⟨z, hz⟩ := hz
  obtain ⟨ω, δ, h1, h2, h3⟩ := sgd_history hM i hi es o o' w w' hw hes h z hz
  rw [is_real hz, is_real h1]
  have hsum : |δ.sum - (es.map (increment (real o.lr) i)).sum| ≤
      ((1 + roundoff) ^ 2 - 1) * (es.map fun e => |increment (real o.lr) i e|).sum +
        (1 + roundoff) * (es.map fun e => 1 + |presented i e|).sum * tiny ∧
      (δ.map (|·|)).sum ≤ (1 + roundoff) ^ 2 * (es.map fun e => |increment (real o.lr) i e|).sum +
        (1 + roundoff) * (es.map fun e => 1 + |presented i e|).sum * tiny := by
    clear h3 h hes
    induction h2 with
    | nil => simp
    | @cons e d es δ hd _ ih =>
      simp only [List.map_cons, List.sum_cons]
      constructor
      · rw [add_sub_add_comm]
        refine (abs_add_le _ _).trans ?_
        linarith [ih.1]
      · have : |d| ≤ |d - increment (real o.lr) i e| + |increment (real o.lr) i e| := by
          have := abs_add_le (d - increment (real o.lr) i e) (increment (real o.lr) i e)
          rwa [sub_add_cancel] at this
        linarith [ih.2]
  obtain ⟨s1, s2⟩ := hsum
  generalize (es.map (increment (real o.lr) i)).sum = E at *
  have hA : 0 ≤ (es.map fun e => |increment (real o.lr) i e|).sum := by
    refine List.sum_nonneg fun a ha => ?_
    obtain ⟨e, -, rfl⟩ := List.mem_map.1 ha
    exact abs_nonneg _
  have hB : 0 ≤ (es.map fun e => 1 + |presented i e|).sum := by
    refine List.sum_nonneg fun a ha => ?_
    obtain ⟨e, -, rfl⟩ := List.mem_map.1 ha
    positivity
  generalize (es.map fun e => |increment (real o.lr) i e|).sum = A at *
  generalize (es.map fun e => 1 + |presented i e|).sum = B at *
  generalize (δ.map (|·|)).sum = D at *
  have p0 : 1 ≤ (1 + roundoff) ^ es.length := one_le_pow₀ (by linarith)
  have a1 : |z - (ω + E)| ≤ |z - (ω + δ.sum)| + |δ.sum - E| := by
    have := abs_add_le (z - (ω + δ.sum)) (δ.sum - E)
    have e : z - (ω + δ.sum) + (δ.sum - E) = z - (ω + E) := by ring
    rwa [e] at this
  have a2 := mul_le_mul_of_nonneg_left (add_le_add_right s2 |ω|) (sub_nonneg.2 p0)
  have p1 : (1 + roundoff) ^ es.length ≤ (1 + roundoff) ^ (es.length + 2) :=
    pow_le_pow_right₀ (by linarith) (by omega)
  have a3 := mul_le_mul_of_nonneg_right p1 (abs_nonneg ω)
  rw [pow_succ (1 + roundoff) es.length]
  rw [pow_add] at a3 ⊢
  generalize (1 + roundoff) ^ es.length = Q at *
  nlinarith

/-- A finite prediction: one active feature. -/
example : ∃ (φ : Features (FP M)) (w : List (FP M)) (v : FP M), Fits w.length φ ∧ φ.dot w = .ok v ∧
    Is v 1 ∧ storedCount φ = 1 := by
  refine ⟨.sparse ⟨1, [(0, Scalar.one)]⟩, [Scalar.one], _,
    ⟨⟨List.nodup_singleton _, fun e he => ?_⟩, rfl⟩, rfl, ?_, rfl⟩
  · rw [List.mem_singleton] at he
    subst he
    exact Nat.zero_lt_one
  · show (Scalar.zero +. Scalar.one *. Scalar.one : FP M).1 = _
    rw [mul_one_scalar, val_add, val_zero, val_one]
    show M.rnd (0 + 1) = _
    rw [zero_add, M.rnd_one]

/-- Histories with finite final weights: those of C91. -/
example (hM : M.rnd = binary64Format.rnd) (k : Nat) : ∃ o' w',
    History (⟨Scalar.one⟩ : SGD (FP M)) [Scalar.zero]
      (List.replicate k (.step (.dense [Scalar.one]))) o' w' ∧ w'.length = 1 ∧
      ∀ a ∈ w', Finite a := by
  refine C91_sgd hM (n := 1) _ ⟨1, val_one, abs_one.le⟩ _ rfl ?_ _ ?_
  · intro a ha
    rw [List.mem_singleton] at ha
    exact ha ▸ finite_zero
  · intro e he
    rw [List.eq_of_mem_replicate he]
    refine ⟨⟨trivial, rfl⟩, fun i a h => ?_⟩
    have h : [(Scalar.one : FP M)][i]? = some a := h
    rcases i with _ | i
    · injection h with h
      exact ⟨1, h ▸ val_one, by rw [abs_one]; exact one_le_pow₀ (by norm_num)⟩
    · simp at h

end Lfa

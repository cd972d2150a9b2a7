import Verif.Spec.Sequence
import Verif.Props.C59_C68
import Verif.Props.C30_C35
import Verif.Proofs.Norm
import Verif.Props.C51_C54
import Mathlib.Algebra.BigOperators.Field
import Mathlib.Algebra.Order.BigOperators.Ring.Finset

/-!
# C72–C79: how updates generalise; scalar and vector approximators
-/

set_option linter.unusedSectionVars false

namespace Lfa

open Spec

/-! ## C72 SGD predictions are kernel expansions -/

section
variable {B I : Type} [Space B] [Basis B I ℝ]

/-- After any list of SGD updates `update(x_k, e_k)` the prediction at any `y` is the old one plus
`lr ∑ e_k ⟨φ(x_k), φ(y)⟩`. -/
theorem C72_kernel_expansion (b : B) (n : Nat) (lr : ℝ) (φ : I → Features ℝ) (y : I)
    (hy : Basis.project b y = .ok (.ok (φ y))) (hfy : Fits n (φ y)) (us : List (I × ℝ)) :
    (∀ u ∈ us, Basis.project b u.1 = .ok (.ok (φ u.1)) ∧ Fits n (φ u.1)) →
    ∀ w : List ℝ, w.length = n →
    ∃ (fa' : ScalarLFA B (SGD ℝ) ℝ) (v : ℝ),
      SRun (LFA.mk b w (SGD.mk lr)) (us.map fun u => .update u.1 u.2) fa' ∧
      ScalarLFA.evaluate (LFA.mk b w (SGD.mk lr)) y = .ok (.ok v) ∧
      fa'.evaluate y
        = .ok (.ok (v + lr * (us.map fun u => u.2 * innerFeatures (φ u.1) (φ y)).sum)) := by
  induction us with
  | nil =>
    intro _ w hw
    have := evaluate_eq (fa := (LFA.mk b w (SGD.mk lr))) hy (dot_real hfy.1 (hfy.2.trans hw.symm))
    exact ⟨_, _, .nil _, this, by simpa using this⟩
  | cons u us ih =>
    intro h w hw
    obtain ⟨hp, hf⟩ := h u List.mem_cons_self
    obtain ⟨w', s1, s2, s3⟩ := sgd_real hf (SGD.mk lr) u.2 hw
    obtain ⟨fa', v', h1, h2, h3⟩ := ih (fun u hu => h u (List.mem_cons_of_mem _ hu)) w' s2
    have h0 : ScalarLFA.update (LFA.mk b w (SGD.mk lr)) u.1 u.2
        = .ok (.ok (), LFA.mk b w' (SGD.mk lr)) := by
      rw [scalar_update_eq (fa := LFA.mk b w (SGD.mk lr)) hp, s1]; rfl
    refine ⟨fa', Spec.inner (φ y) w, .update h0 h1,
      evaluate_eq (fa := (LFA.mk b w (SGD.mk lr))) hy (dot_real hfy.1 (hfy.2.trans hw.symm)), ?_⟩
    rw [h3]
    have hv : v' = Spec.inner (φ y) w' := by
      rw [evaluate_eq (fa := (LFA.mk b w' (SGD.mk lr))) hy
        (dot_real hfy.1 (hfy.2.trans s2.symm))] at h2
      cases h2; rfl
    have hd : Spec.inner (φ y) w' = Spec.inner (φ y) w
        + lr * (u.2 * innerFeatures (φ u.1) (φ y)) := by
      rw [inner_eq, inner_eq, innerFeatures, hfy.2, hf.2, Finset.mul_sum, Finset.mul_sum,
        ← Finset.sum_add_distrib]
      apply Finset.sum_congr rfl
      intro i hi
      rw [s3 i (Finset.mem_range.1 hi)]
      ring
    rw [hv, hd, List.map_cons, List.sum_cons]
    congr 2
    ring

end

/-! ## C75 Updates are local -/

section
variable {B O I K : Type} [Scalar K] [Space B] [Basis B I K]

/-- `dot` reads only the weights of active features. -/
theorem C75_dot_reads_active {n : Nat} {φ : Features K} (hf : Fits n φ) {w w' : List K}
    (hw : w.length = n) (hw' : w'.length = n)
    (h : ∀ i < n, Active φ i → entry w' i = entry w i) : φ.dot w' = φ.dot w := by
  cases φ with
  | dense da =>
    have : w' = w := ext_entry (hw'.trans hw.symm) fun i hi => by
      have hi' : i < n := hw' ▸ hi
      refine h i hi' ⟨da[i]'(by have := hf.2; change da.length = n at this; omega), ?_⟩
      exact List.getElem?_eq_getElem _
    rw [this]
  | sparse sa =>
    have hr : ∀ e ∈ sa.activations, e.1 < n := fun e he => by
      have := hf.1.2 e he
      have h2 := hf.2
      change sa.dim = n at h2
      omega
    show Features.dotSparse sa w' = Features.dotSparse sa w
    rw [dotSparse_ok (by rw [hw']; exact hr), dotSparse_ok (by rw [hw]; exact hr)]
    congr 1
    apply List.foldl_ext
    intro acc e he
    have := h e.1 (hr e he) ⟨e.2, he⟩
    unfold entry at this
    rw [this]

theorem C75_optimisers : LeavesInactive K (SGD K) ∧ LeavesInactive K (ISGD K) ∧
    LeavesInactive K (Adam K) ∧ LeavesInactive K (AdaMax K) ∧ LeavesInactive ℝ (Adagrad ℝ) := by
  have key : ∀ {n : Nat} {w : List K} {φ : Features K} {i : Nat} (s : K), Fits n φ →
      ¬ Active φ i → (∀ e ∈ [Event.stepScaled φ s], e.Fits n) ∧
        (∀ e ∈ [Event.stepScaled φ s], ¬ e.ActiveAt i) := by
    intro n w φ i s hf ha
    constructor <;> intro e he <;> rw [List.mem_singleton] at he <;> subst he <;> assumption
  refine ⟨?_, ?_, ?_, ?_, ?_⟩
  · intro n o w φ s o' w' i hw ho hf hi ha h
    obtain ⟨k1, k2⟩ := key (w := w) s hf ha
    exact (C58_inactive n i hi w hw _ k1 k2).1 o o' w' (.stepScaled h (.nil _ _))
  · intro n o w φ s o' w' i hw ho hf hi ha h
    obtain ⟨k1, k2⟩ := key (w := w) s hf ha
    exact (C58_inactive n i hi w hw _ k1 k2).2.1 o o' w' (.stepScaled h (.nil _ _))
  · intro n o w φ s o' w' i hw ho hf hi ha h
    obtain ⟨k1, k2⟩ := key (w := w) s hf ha
    exact (C58_inactive n i hi w hw _ k1 k2).2.2.1 o o' w' ho (.stepScaled h (.nil _ _))
  · intro n o w φ s o' w' i hw ho hf hi ha h
    obtain ⟨k1, k2⟩ := key (w := w) s hf ha
    exact (C58_inactive n i hi w hw _ k1 k2).2.2.2 o o' w' ho (.stepScaled h (.nil _ _))
  · intro n o w φ s o' w' i hw ho hf hi ha h
    refine C58_adagrad n i hi w hw [.stepScaled φ s] ?_ ?_ o o' w' ho (.stepScaled h (.nil _ _))
    · intro e he; rw [List.mem_singleton] at he; subst he; exact hf
    · intro e he; rw [List.mem_singleton] at he; subst he; exact ha

variable [Optimiser O K] [HasSize O] [Safe (K := K) O]

/-- Updates at inputs sharing no active feature with `y`, however many and whatever the errors,
leave the outcome of `evaluate(y)` exactly as it was. -/
theorem C75_local (hO : LeavesInactive K O) (n : Nat) (y : I) (ψ : Features K) (hψ : Fits n ψ)
    (us : List (I × K)) : ∀ (fa fa' : ScalarLFA B O K),
    Basis.project fa.basis y = .ok (.ok ψ) → fa.weights.length = n →
    HasSize.sized n fa.optimiser →
    (∀ u ∈ us, ∃ φ, Basis.project fa.basis u.1 = .ok (.ok φ) ∧ Fits n φ ∧
      ∀ i, ¬ (Active φ i ∧ Active ψ i)) →
    SRun fa (us.map fun u => .update u.1 u.2) fa' → fa'.evaluate y = fa.evaluate y := by
  induction us with
  | nil => intro fa fa' _ _ _ _ h; cases h; rfl
  | cons u us ih =>
    intro fa fa' hy hw ho hd h
    cases h with
    | @update _ fa₁ _ _ _ _ hu t =>
      obtain ⟨φ, hp, hf, hdis⟩ := hd u List.mem_cons_self
      obtain ⟨o₁, w₁, s1, s2, s3⟩ := Safe.scaled (K := K) u.2 ho hw hf
      rw [scalar_update_eq hp, s1] at hu
      cases hu
      rw [ih ⟨fa.basis, w₁, o₁⟩ fa' hy s3 s2
        (fun u hu => hd u (List.mem_cons_of_mem _ hu)) t]
      rw [scalar_evaluate_eq (fa := ⟨fa.basis, w₁, o₁⟩) hy, scalar_evaluate_eq hy]
      show Except.map _ (ψ.dot w₁) = _
      rw [C75_dot_reads_active hψ hw s3 fun i hi ha =>
        hO n _ _ _ _ _ _ i hw ho hf hi (fun h => hdis i ⟨h, ha⟩) s1]

end

/-! ## C74 A uniform grid is a table -/

section
variable {O K : Type} [Scalar K]

theorem grid_fits (ds : List (Equipartition K)) (h : ∀ d ∈ ds, d.Lawful) (hds : ds ≠ [])
    (x : List K) (hx : x ≠ []) :
    ∃ k, Basis.project (UniformGrid.new ds) x
        = .ok (.ok (.sparse ⟨(ds.map Equipartition.nPartitions).prod, [(k, (Scalar.one : K))]⟩)) ∧
      k < (ds.map Equipartition.nPartitions).prod ∧
      Fits (ds.map Equipartition.nPartitions).prod
        (.sparse ⟨(ds.map Equipartition.nPartitions).prod, [(k, (Scalar.one : K))]⟩) := by
  obtain ⟨k, hk, hp, -⟩ := C33_one_active ds h hds x hx
  exact ⟨k, hp, hk, ⟨by simp, by simpa using hk⟩, rfl⟩

theorem length_ne_nil {ds : List (Equipartition K)} (hds : ds ≠ []) {x : List K}
    (hx : x.length = ds.length) : x ≠ [] := by
  rintro rfl
  exact hds (List.length_eq_zero_iff.1 hx.symm)

/-- Inputs in the same cell (coordinate by coordinate) always have the same value. -/
theorem C74_same_cell (ds : List (Equipartition K)) (h : ∀ d ∈ ds, d.Lawful) (hds : ds ≠ [])
    (x y : List K) (hx : x.length = ds.length) (hy : y.length = ds.length)
    (hc : ∀ (i : Nat) (d : Equipartition K) (u v : K), ds[i]? = some d → x[i]? = some u →
      y[i]? = some v → d.mapOnto u = d.mapOnto v) (w : List K) (o : O) :
    ScalarLFA.evaluate (LFA.mk (UniformGrid.new ds) w o) x
      = ScalarLFA.evaluate (LFA.mk (UniformGrid.new ds) w o) y := by
  have := (C34_injective ds h hds x y hx hy).2 hc
  show (Basis.project (UniformGrid.new ds) x >>= _) = (Basis.project (UniformGrid.new ds) y >>= _)
  rw [this]

/-- Updating the value at `x` leaves the value at every input of another cell exactly as it was,
for SGD, ISGD, Adam, AdaMax (any arithmetic) and Adagrad (exact arithmetic); see
`C75_optimisers`. -/
theorem C74_other_cell [Optimiser O K] [HasSize O] [Safe (K := K) O] (hO : LeavesInactive K O)
    (ds : List (Equipartition K)) (h : ∀ d ∈ ds, d.Lawful) (hds : ds ≠ [])
    (x y : List K) (hx : x.length = ds.length) (hy : y.length = ds.length)
    (i : Nat) (d : Equipartition K) (u v : K) (hd : ds[i]? = some d) (hu : x[i]? = some u)
    (hv : y[i]? = some v) (hc : d.mapOnto u ≠ d.mapOnto v)
    (w : List K) (hw : w.length = (ds.map Equipartition.nPartitions).prod) (o : O)
    (ho : HasSize.sized w.length o) (e : K) (fa' : ScalarLFA (UniformGrid K) O K)
    (hup : ScalarLFA.update (LFA.mk (UniformGrid.new ds) w o) x e = .ok (.ok (), fa')) :
    fa'.evaluate y = ScalarLFA.evaluate (LFA.mk (UniformGrid.new ds) w o) y := by
  obtain ⟨k, hpx, -, hfx⟩ := grid_fits ds h hds x (length_ne_nil hds hx)
  obtain ⟨l, hpy, -, hfy⟩ := grid_fits ds h hds y (length_ne_nil hds hy)
  rw [← hw] at hfx hfy
  refine C75_local hO w.length y _ hfy [(x, e)] (LFA.mk (UniformGrid.new ds) w o) fa'
    (by rw [hw]; exact hpy) rfl ho ?_ (.update hup (.nil _))
  intro z hz
  rw [List.mem_singleton] at hz
  subst hz
  refine ⟨_, by rw [hw]; exact hpx, hfx, ?_⟩
  rintro j ⟨⟨a, ha⟩, ⟨b, hb⟩⟩
  have ha' : (j, a) ∈ [(k, (Scalar.one : K))] := ha
  have hb' : (j, b) ∈ [(l, (Scalar.one : K))] := hb
  rw [List.mem_singleton] at ha' hb'
  have hkl : k = l := (Prod.ext_iff.1 ha').1.symm.trans (Prod.ext_iff.1 hb').1
  apply hc
  refine (C34_injective ds h hds x y hx hy).1 ?_ i d u v hd hu hv
  rw [hpx, hpy, hkl]

/-- In exact arithmetic the value of a cell is its weight, and an SGD update adds `lr * e` to it. -/
theorem C74_table (ds : List (Equipartition ℝ)) (h : ∀ d ∈ ds, d.Lawful) (hds : ds ≠ [])
    (x : List ℝ) (hx : x.length = ds.length) :
    ∃ k < (ds.map Equipartition.nPartitions).prod, ∀ (w : List ℝ),
      w.length = (ds.map Equipartition.nPartitions).prod → ∀ lr e : ℝ,
      ScalarLFA.evaluate (LFA.mk (UniformGrid.new ds) w (SGD.mk lr)) x = .ok (.ok (entry w k)) ∧
      ∃ fa', ScalarLFA.update (LFA.mk (UniformGrid.new ds) w (SGD.mk lr)) x e = .ok (.ok (), fa') ∧
        fa'.evaluate x = .ok (.ok (entry w k + lr * e)) := by
  obtain ⟨k, hp, hk, hf⟩ := grid_fits ds h hds x (length_ne_nil hds hx)
  rw [real_one] at hp hf
  have hin : ∀ w : List ℝ, Spec.inner (.sparse ⟨(ds.map Equipartition.nPartitions).prod,
      [(k, (1 : ℝ))]⟩) w = entry w k := by
    intro w
    rw [inner_eq]
    show ∑ i ∈ Finset.range (ds.map Equipartition.nPartitions).prod, _ = _
    rw [Finset.sum_eq_single k]
    · rw [value_of_stored (keysUnique_of_wf hf.1) (a := (1 : ℝ)) (by
        show (k, (1 : ℝ)) ∈ _; exact List.mem_cons_self), one_mul]
    · intro i _ hi
      rw [value_of_not_stored, real_zero, zero_mul]
      intro a ha
      have : (i, a) ∈ [(k, (1 : ℝ))] := ha
      rw [List.mem_singleton] at this
      exact hi (Prod.ext_iff.1 this).1
    · intro hk'; exact absurd (Finset.mem_range.2 hk) hk'
  refine ⟨k, hk, fun w hw lr e => ?_⟩
  rw [← hw] at hf
  obtain ⟨w', s1, s2, s3⟩ := sgd_real hf (SGD.mk lr) e rfl
  rw [hw] at hf s1 s2 s3
  refine ⟨?_, LFA.mk (UniformGrid.new ds) w' (SGD.mk lr), ?_, ?_⟩
  · rw [evaluate_eq (fa := LFA.mk (UniformGrid.new ds) w (SGD.mk lr)) hp
      (dot_real hf.1 (hf.2.trans hw.symm)), ← hin w]
  · rw [scalar_update_eq (fa := LFA.mk (UniformGrid.new ds) w (SGD.mk lr)) hp, s1]; rfl
  · rw [evaluate_eq (fa := LFA.mk (UniformGrid.new ds) w' (SGD.mk lr)) hp
      (dot_real hf.1 (hf.2.trans s2.symm))]
    have h3 := s3 k hk
    rw [value_of_stored (keysUnique_of_wf hf.1) (a := (1 : ℝ)) (by
        show (k, (1 : ℝ)) ∈ _; exact List.mem_cons_self), mul_one] at h3
    rw [← h3, ← hin w']

end

/-! ## C73 Predictions over normalised features -/

section
variable {B O I : Type} [Space B] [Basis B I ℝ]

theorem l1_evaluate (b : B) (x : I) (φ : Features ℝ) (hp : Basis.project b x = .ok (.ok φ))
    (hφ : WF φ) (w : List ℝ) (hw : w.length = dim φ) (o : O) :
    ScalarLFA.evaluate (LFA.mk (L1Normaliser.mk b) w o) x
      = .ok (.ok (∑ i ∈ Finset.range (dim φ), value φ i / l1 φ * entry w i)) := by
  have h := l1_project hp
  rw [divideBy_eq hφ, l1Norm_real hφ] at h
  rw [evaluate_eq (fa := LFA.mk (L1Normaliser.mk b) w o) h (dot_real (mapValues_wf hφ)
    ((mapValues_dim _ φ).trans hw.symm)), inner_eq, mapValues_dim]
  congr 2
  apply Finset.sum_congr rfl
  intro i _
  have := value_over (l1 φ) φ i
  rw [← this]; rfl

/-- Over L1-normalised features a prediction never exceeds the largest weight in magnitude. -/
theorem C73_l1_bounded (b : B) (x : I) (φ : Features ℝ) (hp : Basis.project b x = .ok (.ok φ))
    (hφ : WF φ) (hz : NonZero φ) (w : List ℝ) (hw : w.length = dim φ) (o : O) (M : ℝ)
    (hM : ∀ i < dim φ, |entry w i| ≤ M) :
    ∃ v, ScalarLFA.evaluate (LFA.mk (L1Normaliser.mk b) w o) x = .ok (.ok v) ∧ |v| ≤ M := by
  refine ⟨_, l1_evaluate b x φ hp hφ w hw o, ?_⟩
  have hl := l1_pos hφ hz
  calc |∑ i ∈ Finset.range (dim φ), value φ i / l1 φ * entry w i|
      ≤ ∑ i ∈ Finset.range (dim φ), |value φ i / l1 φ * entry w i| := Finset.abs_sum_le_sum_abs _ _
    _ ≤ ∑ i ∈ Finset.range (dim φ), |value φ i| / l1 φ * M := by
        apply Finset.sum_le_sum
        intro i hi
        rw [abs_mul, abs_div, abs_of_pos hl]
        exact mul_le_mul_of_nonneg_left (hM i (Finset.mem_range.1 hi))
          (div_nonneg (abs_nonneg _) hl.le)
    _ = M := by
        rw [← Finset.sum_mul, ← Finset.sum_div]
        change l1 φ / l1 φ * M = M
        rw [div_self hl.ne', one_mul]

/-- Over L1-normalised non-negative features a prediction lies between the smallest and the largest
weight. -/
theorem C73_l1_convex (b : B) (x : I) (φ : Features ℝ) (hp : Basis.project b x = .ok (.ok φ))
    (hφ : WF φ) (hz : NonZero φ) (hn : ∀ i < dim φ, 0 ≤ value φ i) (w : List ℝ)
    (hw : w.length = dim φ) (o : O) (m M : ℝ) (hM : ∀ i < dim φ, m ≤ entry w i ∧ entry w i ≤ M) :
    ∃ v, ScalarLFA.evaluate (LFA.mk (L1Normaliser.mk b) w o) x = .ok (.ok v) ∧ m ≤ v ∧ v ≤ M := by
  refine ⟨_, l1_evaluate b x φ hp hφ w hw o, ?_⟩
  have hl := l1_pos hφ hz
  have hs : ∑ i ∈ Finset.range (dim φ), value φ i / l1 φ = 1 := by
    rw [← Finset.sum_div, div_eq_one_iff_eq hl.ne']
    apply Finset.sum_congr rfl
    intro i hi
    rw [abs_of_nonneg (hn i (Finset.mem_range.1 hi))]
  have hc : ∀ i ∈ Finset.range (dim φ), 0 ≤ value φ i / l1 φ := fun i hi =>
    div_nonneg (hn i (Finset.mem_range.1 hi)) hl.le
  constructor
  · calc m = ∑ i ∈ Finset.range (dim φ), value φ i / l1 φ * m := by
          rw [← Finset.sum_mul, hs, one_mul]
      _ ≤ _ := Finset.sum_le_sum fun i hi =>
          mul_le_mul_of_nonneg_left (hM i (Finset.mem_range.1 hi)).1 (hc i hi)
  · calc _ ≤ ∑ i ∈ Finset.range (dim φ), value φ i / l1 φ * M := Finset.sum_le_sum fun i hi =>
          mul_le_mul_of_nonneg_left (hM i (Finset.mem_range.1 hi)).2 (hc i hi)
      _ = M := by rw [← Finset.sum_mul, hs, one_mul]

/-- Over L2-normalised features a prediction never exceeds the Euclidean norm of the weights. -/
theorem C73_l2_bounded (b : B) (x : I) (φ : Features ℝ) (hp : Basis.project b x = .ok (.ok φ))
    (hφ : WF φ) (hz : NonZero φ) (w : List ℝ) (hw : w.length = dim φ) (o : O) :
    ∃ v, ScalarLFA.evaluate (LFA.mk (L2Normaliser.mk b) w o) x = .ok (.ok v) ∧
      v ^ 2 ≤ ∑ i ∈ Finset.range (dim φ), entry w i ^ 2 := by
  have h := l2_project hp
  rw [divideBy_eq hφ, l2Norm_real hφ] at h
  refine ⟨_, evaluate_eq (fa := LFA.mk (L2Normaliser.mk b) w o) h (dot_real (mapValues_wf hφ)
    ((mapValues_dim _ φ).trans hw.symm)), ?_⟩
  rw [inner_eq, mapValues_dim]
  refine (Finset.sum_mul_sq_le_sq_mul_sq _ _ _).trans ?_
  have hl := l2_pos hφ hz
  have : ∑ i ∈ Finset.range (dim φ), value (mapValues (fun x => x /. l2 φ) φ) i ^ 2 = 1 := by
    have h2 : ∀ i, value (mapValues (fun x => x /. l2 φ) φ) i = value φ i / l2 φ :=
      fun i => value_over (l2 φ) φ i
    simp only [h2, div_pow]
    rw [← Finset.sum_div, div_eq_one_iff_eq (pow_ne_zero 2 hl.ne'), l2,
      Real.sq_sqrt (show 0 ≤ normSq φ from Finset.sum_nonneg fun i _ => mul_self_nonneg _), normSq]
    exact Finset.sum_congr rfl fun i _ => sq _
  rw [this, one_mul]

end

/-! ## C76 A vector approximator with one output is a scalar approximator -/

section
variable {B O I K : Type} [Scalar K] [Space B]

theorem C76_construct (b : B) (o : O) :
    (VectorLFA.vector b o 1 : P (VectorLFA B O K)) = (ScalarLFA.scalar b o).map oneOutput := by
  show ((Space.dim b).toUsize >>= _) = Except.map oneOutput ((Space.dim b).toUsize >>= _)
  cases (Space.dim b).toUsize <;> rfl

variable [Basis B I K]

theorem C76_evaluate (fa : ScalarLFA B O K) (x : I) :
    (oneOutput fa).evaluate x = (fa.evaluate x).map (fun r => r.map fun v => [v]) ∧
    (oneOutput fa).evaluateIndex x 0 = fa.evaluate x := by
  cases hp : Basis.project (K := K) fa.basis x with
  | error p =>
    constructor
    · show (((Basis.project fa.basis x >>= _) : P _) >>= _) = Except.map _ (Basis.project fa.basis x >>= _)
      rw [hp]; rfl
    · show (Basis.project fa.basis x >>= _) = (Basis.project fa.basis x >>= _)
      rw [hp]; rfl
  | ok r =>
    cases r with
    | error e =>
      constructor
      · show (((Basis.project fa.basis x >>= _) : P _) >>= _) = Except.map _ (Basis.project fa.basis x >>= _)
        rw [hp]; rfl
      · show (Basis.project fa.basis x >>= _) = (Basis.project fa.basis x >>= _)
        rw [hp]; rfl
    | ok φ =>
      constructor
      · rw [vector_evaluate_eq (fa := oneOutput fa) hp, scalar_evaluate_eq hp]
        show Except.map _ (List.mapM (fun c => φ.dotColumn 1 c) [fa.weights]) = _
        rw [List.mapM_cons, List.mapM_nil, dotColumn_one]
        cases φ.dot fa.weights <;> rfl
      · rw [vector_evaluateIndex_eq (fa := oneOutput fa) hp (c := fa.weights) rfl,
          scalar_evaluate_eq hp, show (oneOutput fa).weights.length = 1 from rfl, dotColumn_one]

variable [Optimiser O K]

/-- Every call has the same outcome — the same panic, the same error, or the same new state — for
any basis, optimiser, input and arithmetic. -/
theorem C76_update (fa : ScalarLFA B O K) (x : I) (e : K) (f : Features K → K → K) :
    (oneOutput fa).update x [e] = (fa.update x e).map (fun t => (t.1, oneOutput t.2)) ∧
    (oneOutput fa).updateIndex x 0 e = (fa.update x e).map (fun t => (t.1, oneOutput t.2)) ∧
    (oneOutput fa).updateWith x (fun φ vs => vs.map (f φ))
      = (fa.updateWith x f).map (fun t => (t.1, oneOutput t.2)) := by
  have hpanic : ∀ p, Basis.project (K := K) fa.basis x = .error p →
      (oneOutput fa).update x [e] = (fa.update x e).map (fun t => (t.1, oneOutput t.2)) ∧
      (oneOutput fa).updateIndex x 0 e = (fa.update x e).map (fun t => (t.1, oneOutput t.2)) ∧
      (oneOutput fa).updateWith x (fun φ vs => vs.map (f φ))
        = (fa.updateWith x f).map (fun t => (t.1, oneOutput t.2)) := by
    intro p hp
    refine ⟨?_, ?_, ?_⟩ <;>
    · show (Basis.project fa.basis x >>= _) = Except.map _ (Basis.project fa.basis x >>= _)
      rw [hp]; rfl
  cases hp : Basis.project (K := K) fa.basis x with
  | error p => exact hpanic p hp
  | ok r =>
    cases r with
    | error err =>
      refine ⟨?_, ?_, ?_⟩ <;>
      · show (Basis.project fa.basis x >>= _) = Except.map _ (Basis.project fa.basis x >>= _)
        rw [hp]; rfl
    | ok φ =>
      have hstep : ∀ e : K, (oneOutput fa).update x [e]
          = (fa.update x e).map (fun t => (t.1, oneOutput t.2)) := by
        intro e
        rw [vector_update_eq (fa := oneOutput fa) hp, scalar_update_eq hp]
        show Except.map _ ((Optimiser.stepScaled fa.optimiser fa.weights φ e >>= _) : P _) = _
        cases Optimiser.stepScaled fa.optimiser fa.weights φ e with
        | error p => rfl
        | ok t => obtain ⟨r, o, w⟩ := t; cases r <;> rfl
      refine ⟨hstep e, ?_, ?_⟩
      · rw [vector_updateIndex_eq (fa := oneOutput fa) hp (c := fa.weights) rfl,
          scalar_update_eq hp]
        show Except.map _ (Optimiser.stepScaled fa.optimiser fa.weights φ e) = _
        cases Optimiser.stepScaled fa.optimiser fa.weights φ e <;> rfl
      · rw [vector_updateWith_eq (fa := oneOutput fa) hp, scalar_updateWith_eq hp]
        show ((List.mapM φ.dot [fa.weights] : P _) >>= _) = _
        rw [List.mapM_cons, List.mapM_nil]
        cases φ.dot fa.weights with
        | error p => rfl
        | ok v => exact hstep (f φ v)

/-- Hence any sequence of updates keeps the two in step. -/
theorem C76_history (us : List (I × K)) : ∀ (fa fa' : ScalarLFA B O K),
    SRun fa (us.map fun u => .update u.1 u.2) fa' →
    VRun (oneOutput fa) (us.map fun u => .update u.1 [u.2]) (oneOutput fa') := by
  induction us with
  | nil => intro fa fa' h; cases h; exact .nil _
  | cons u us ih =>
    intro fa fa' h
    cases h with
    | update hu t =>
      refine .update ?_ (ih _ _ t)
      rw [(C76_update fa u.1 u.2 fun _ v => v).1, hu]; rfl

/-! ## C77 A vector update is a sequence of single-output updates -/

theorem stepColumns_updateEach (b : B) (x : I) (φ : Features K)
    (hp : Basis.project b x = .ok (.ok φ)) : ∀ (es : List K) (pre cs : List (List K)) (o : O)
    (acc : Result Unit),
    (VectorLFA.stepColumns φ es cs o acc).map
        (fun t => (t.1, (⟨b, pre ++ t.2.2, t.2.1⟩ : VectorLFA B O K)))
      = (updateEach x ((es.take cs.length).zipIdx pre.length |>.map fun p => (p.2, p.1))
          (⟨b, pre ++ cs, o⟩ : VectorLFA B O K)).map
        (fun t => (acc.and (firstFailure t.1), t.2))
  | [], pre, cs, o, acc => by cases cs <;> cases acc <;> rfl
  | e :: es, pre, [], o, acc => by cases acc <;> rfl
  | e :: es, pre, c :: cs, o, acc => by
    show Except.map _ ((Optimiser.stepScaled o c φ e >>= _) : P _)
      = Except.map _ (((VectorLFA.updateIndex _ x pre.length e) >>= _) : P _)
    rw [vector_updateIndex_eq (fa := (⟨b, pre ++ c :: cs, o⟩ : VectorLFA B O K)) hp (c := c)
      (by simp)]
    show _ = Except.map _ (Except.map _ (Optimiser.stepScaled o c φ e) >>= _)
    cases hs : Optimiser.stepScaled o c φ e with
    | error p => rfl
    | ok t =>
      obtain ⟨r, o₁, c₁⟩ := t
      have ih := stepColumns_updateEach b x φ hp es (pre ++ [c₁]) cs o₁ (acc.and r)
      have hset : (pre ++ c :: cs).set pre.length c₁ = (pre ++ [c₁]) ++ cs := by simp
      rw [List.length_append, List.length_singleton] at ih
      show Except.map _ ((VectorLFA.stepColumns φ es cs o₁ (acc.and r) >>= _) : P _)
        = Except.map _ ((updateEach x _
            (⟨b, (pre ++ c :: cs).set pre.length c₁, o₁⟩ : VectorLFA B O K) >>= _) : P _)
      rw [hset]
      cases h1 : VectorLFA.stepColumns φ es cs o₁ (acc.and r) with
      | error p =>
        rw [h1] at ih
        cases h2 : updateEach x ((es.take cs.length).zipIdx (pre.length + 1) |>.map fun p => (p.2, p.1))
          (⟨b, (pre ++ [c₁]) ++ cs, o₁⟩ : VectorLFA B O K) with
        | error q => rw [h2] at ih; cases ih; rfl
        | ok t => rw [h2] at ih; cases ih
      | ok t =>
        rw [h1] at ih
        cases h2 : updateEach x ((es.take cs.length).zipIdx (pre.length + 1) |>.map fun p => (p.2, p.1))
          (⟨b, (pre ++ [c₁]) ++ cs, o₁⟩ : VectorLFA B O K) with
        | error q => rw [h2] at ih; cases ih
        | ok t' =>
          obtain ⟨r', o', cs'⟩ := t
          obtain ⟨rs, fa'⟩ := t'
          rw [h2] at ih
          injection ih with ih
          injection ih with i1 i2
          show Except.ok (r', (⟨b, pre ++ c₁ :: cs', o'⟩ : VectorLFA B O K))
            = .ok (acc.and (firstFailure (r :: rs)), fa')
          change r' = _ at i1
          change _ = fa' at i2
          rw [← i2, i1]
          simp only [List.append_assoc, List.cons_append, List.nil_append]
          congr 2
          cases acc <;> cases r <;> rfl

/-- `update(x, [e_0, e_1, …])` has exactly the outcome of `update_index(x, 0, e_0)`,
`update_index(x, 1, e_1)`, … made one after the other (surplus errors ignored), and returns the
first failure: for any basis, optimiser, arithmetic and number of outputs, panics included. -/
theorem C77_sequential (fv : VectorLFA B O K) (x : I) (es : List K)
    (hx : Accepts (K := K) fv.basis x) :
    fv.update x es
      = (updateEach x ((es.take fv.nOutputs).zipIdx.map fun p => (p.2, p.1)) fv).map
        (fun t => (firstFailure t.1, t.2)) := by
  obtain ⟨φ, hp⟩ := hx
  rw [vector_update_eq hp]
  exact stepColumns_updateEach fv.basis x φ hp es [] fv.weights fv.optimiser (.ok ())

end

/-! ## C78 Without momentum, SGDMomentum and NAG are SGD -/

/-- Over any history, with resets, `SGDMomentum` and `NAG` with momentum 0 give exactly the weights
SGD with the same learning rate gives. -/
theorem C78_zero_momentum (n : Nat) (lr : ℝ) (w : List ℝ) (hw : w.length = n)
    (es : List (Event ℝ)) (he : ∀ e ∈ es, e.Fits n) (o₁ : SGD ℝ) (w₁ : List ℝ)
    (h₁ : History (SGD.mk lr) w es o₁ w₁) :
    (∀ o₂ w₂, History (SGDMomentum.new n 0 lr) w es o₂ w₂ → w₂ = w₁) ∧
    (∀ o₂ w₂, History (NAG.new n 0 lr) w es o₂ w₂ → w₂ = w₁) := by
  obtain ⟨-, hl, hi⟩ := C46_weighted_sum n lr w hw es he o₁ w₁ h₁
  constructor
  · intro o₂ w₂ h₂
    suffices (o₂.momentum = 0 ∧ o₂.learningRate = lr ∧ o₂.velocity.length = n ∧ w₂.length = n) ∧
        ∀ i < n, entry w₂ i = entry w i + lr * (es.map fun e => e.grad i).sum from
      ext_entry (this.1.2.2.2.trans hl.symm) fun i h => by
        have h' : i < n := this.1.2.2.2 ▸ h
        rw [this.2 i h', hi i h']
    refine history_induct (n := n) (I := fun es o' w' => (o'.momentum = 0 ∧ o'.learningRate = lr ∧
        o'.velocity.length = n ∧ w'.length = n) ∧
        ∀ i < n, entry w' i = entry w i + lr * (es.map fun e => e.grad i).sum)
      ⟨⟨rfl, rfl, List.length_replicate, hw⟩, fun i _ => by simp⟩ ?_ ?_ es o₂ w₂ he h₂
    · rintro es o w₁ e φ s o₂ w₂ ⟨⟨a1, a2, a3, a4⟩, a5⟩ - hg hf hs
      obtain ⟨v, w₃, b1, b2, b3, b4⟩ := momentum_real hf o a3 s a4
      rw [hs] at b1
      cases b1
      refine ⟨⟨a1, a2, b2, b3⟩, fun i hn => ?_⟩
      rw [(b4 i hn).2, (b4 i hn).1, a5 i hn, a1, a2, List.map_append, List.sum_append,
        List.map_singleton, List.sum_singleton, hg i]
      ring
    · rintro es o w₁ ⟨⟨a1, a2, a3, a4⟩, a5⟩
      refine ⟨⟨a1, a2, (List.length_map _).trans a3, a4⟩, fun i hn => ?_⟩
      rw [a5 i hn, List.map_append, List.sum_append, List.map_singleton, List.sum_singleton]
      show _ = _ + lr * (_ + 0)
      rw [add_zero]
  · intro o₂ w₂ h₂
    suffices (o₂.momentum = 0 ∧ o₂.learningRate = lr ∧ o₂.velocity.length = n ∧ w₂.length = n) ∧
        ∀ i < n, entry w₂ i = entry w i + lr * (es.map fun e => e.grad i).sum from
      ext_entry (this.1.2.2.2.trans hl.symm) fun i h => by
        have h' : i < n := this.1.2.2.2 ▸ h
        rw [this.2 i h', hi i h']
    refine history_induct (n := n) (I := fun es o' w' => (o'.momentum = 0 ∧ o'.learningRate = lr ∧
        o'.velocity.length = n ∧ w'.length = n) ∧
        ∀ i < n, entry w' i = entry w i + lr * (es.map fun e => e.grad i).sum)
      ⟨⟨rfl, rfl, List.length_replicate, hw⟩, fun i _ => by simp⟩ ?_ ?_ es o₂ w₂ he h₂
    · rintro es o w₁ e φ s o₂ w₂ ⟨⟨a1, a2, a3, a4⟩, a5⟩ - hg hf hs
      obtain ⟨v, w₃, b1, b2, b3, b4⟩ := nag_real hf o a3 s a4
      rw [hs] at b1
      cases b1
      refine ⟨⟨a1, a2, b2, b3⟩, fun i hn => ?_⟩
      rw [(b4 i hn).2, (b4 i hn).1, a5 i hn, a1, a2, List.map_append, List.sum_append,
        List.map_singleton, List.sum_singleton, hg i]
      ring
    · rintro es o w₁ ⟨⟨a1, a2, a3, a4⟩, a5⟩
      refine ⟨⟨a1, a2, (List.length_map _).trans a3, a4⟩, fun i hn => ?_⟩
      rw [a5 i hn, List.map_append, List.sum_append, List.map_singleton, List.sum_singleton]
      show _ = _ + lr * (_ + 0)
      rw [add_zero]

/-! ## C79 NAG over a history -/

/-- After any sequence of `step`/`step_scaled` calls from a fresh NAG, the velocity is the
discounted sum of the gradients, and the weights have moved by `lr` times the summed velocities
plus `m` times the summed *unscaled* activations. -/
theorem C79_nag_history (n : Nat) (m lr : ℝ) (w : List ℝ) (hw : w.length = n)
    (es : List (Event ℝ)) (he : ∀ e ∈ es, e.Fits n) (hs : ∀ e ∈ es, e.isStep = true)
    (o' : NAG ℝ) (w' : List ℝ) (h : History (NAG.new n m lr) w es o' w') :
    ∀ i < n, entry o'.velocity i = discounted m (gradAt es i) es.length ∧
      entry w' i = entry w i
        + lr * ∑ t ∈ Finset.range es.length, discounted m (gradAt es i) (t + 1)
        + m * (es.map fun e => e.raw i).sum := by
  suffices (o'.momentum = m ∧ o'.learningRate = lr ∧ o'.velocity.length = n ∧ w'.length = n) ∧
      ∀ i < n, entry o'.velocity i = discounted m (gradAt es i) es.length ∧
      entry w' i = entry w i
        + lr * ∑ t ∈ Finset.range es.length, discounted m (gradAt es i) (t + 1)
        + m * (es.map fun e => e.raw i).sum from this.2
  induction es using List.reverseRecOn generalizing o' w' with
  | nil =>
    cases h
    refine ⟨⟨rfl, rfl, List.length_replicate, hw⟩, fun i _ => ⟨?_, by simp⟩⟩
    show entry (List.replicate n Scalar.zero) i = _
    rw [entry_replicate, real_zero]
    simp [discounted]
  | append_singleton es e ih =>
    obtain ⟨o₁, w₁, h1, h2⟩ := history_split h
    obtain ⟨⟨a1, a2, a3, a4⟩, a5⟩ := ih (fun e h => he e (List.mem_append_left _ h))
      (fun e h => hs e (List.mem_append_left _ h)) o₁ w₁ h1
    have hfit := he e (List.mem_append_right _ List.mem_cons_self)
    have key : ∀ (φ : Features ℝ) (s : ℝ), Fits n φ →
        (∀ i, e.grad i = value φ i * s) → (∀ i, e.raw i = value φ i) →
        Optimiser.stepScaled o₁ w₁ φ s = .ok (.ok (), o', w') →
        (o'.momentum = m ∧ o'.learningRate = lr ∧ o'.velocity.length = n ∧ w'.length = n) ∧
        ∀ i < n, entry o'.velocity i = discounted m (gradAt (es ++ [e]) i) (es ++ [e]).length ∧
        entry w' i = entry w i
          + lr * ∑ t ∈ Finset.range (es ++ [e]).length, discounted m (gradAt (es ++ [e]) i) (t + 1)
          + m * ((es ++ [e]).map fun e => e.raw i).sum := by
      intro φ s hf hg hr hstep
      obtain ⟨v, w₃, b1, b2, b3, b4⟩ := nag_real hf o₁ a3 s a4
      rw [hstep] at b1
      cases b1
      refine ⟨⟨a1, a2, b2, b3⟩, fun i hi => ?_⟩
      obtain ⟨c1, c2⟩ := b4 i hi
      obtain ⟨d1, d2⟩ := a5 i hi
      have hv : entry v i = discounted m (gradAt (es ++ [e]) i) (es.length + 1) := by
        rw [c1, d1, a1, discounted_succ, gradAt_append_length, hg,
          discounted_congr (g := gradAt (es ++ [e]) i) fun j hj => gradAt_append_lt hj]
      rw [List.length_append, List.length_singleton]
      refine ⟨hv, ?_⟩
      have hsum : ∑ t ∈ Finset.range es.length, discounted m (gradAt (es ++ [e]) i) (t + 1)
          = ∑ t ∈ Finset.range es.length, discounted m (gradAt es i) (t + 1) :=
        Finset.sum_congr rfl fun t ht => discounted_congr fun j hj => gradAt_append_lt
          (lt_of_lt_of_le hj (Finset.mem_range.1 ht))
      rw [c2, d2, a1, a2, hv, Finset.sum_range_succ, hsum, List.map_append, List.sum_append,
        List.map_singleton, List.sum_singleton, hr i]
      ring
    cases e with
    | step φ =>
      cases h2 with
      | step hst t =>
        cases t
        exact key φ 1 hfit (fun i => (mul_one _).symm) (fun i => rfl)
          ((UnitStep.unit _ _ _).symm.trans hst)
    | stepScaled φ s =>
      cases h2 with
      | stepScaled hst t => cases t; exact key φ s hfit (fun i => rfl) (fun i => rfl) hst
    | reset =>
      have := hs .reset (List.mem_append_right _ List.mem_cons_self)
      cases this

/-! ### Concrete cases -/

/-- C72: two inputs of a dense basis. -/
example : (∀ u ∈ [((1 : ℝ), (2 : ℝ)), (3, -1)], Basis.project
      (Closure.mk 2 fun x => .ok (.ok (.dense [1, x])) : Closure ℝ ℝ) u.1
        = .ok (.ok (.dense [1, u.1])) ∧ Fits 2 (.dense [1, u.1])) :=
  fun _ _ => ⟨rfl, trivial, rfl⟩

/-- C73: features that are not all zero. -/
example : WF (.dense [1, 0, (3 : ℝ)]) ∧ NonZero (.dense [1, 0, (3 : ℝ)]) ∧
    ∀ i < 3, 0 ≤ value (.dense [1, 0, (3 : ℝ)]) i := by
  refine ⟨trivial, ⟨0, 1, rfl, one_ne_zero⟩, fun i hi => ?_⟩
  have : i = 0 ∨ i = 1 ∨ i = 2 := by omega
  rcases this with rfl | rfl | rfl
  · exact zero_le_one
  · exact le_rfl
  · exact (by norm_num : (0 : ℝ) ≤ 3)

/-- C74: a 10 × 3 grid, and two inputs in different cells. -/
example : ∃ ds : List (Equipartition ℝ), (∀ d ∈ ds, d.Lawful) ∧ ds.length = 2 ∧
    ∃ (d : Equipartition ℝ) (u v : ℝ), ds[0]? = some d ∧ d.mapOnto u ≠ d.mapOnto v := by
  have h1 : (ofBounds 0 1 10).Lawful := ofBounds_lawful (by norm_num) (by norm_num)
  have h2 : (ofBounds (-2) 5 3).Lawful := ofBounds_lawful (by norm_num) (by norm_num)
  refine ⟨[ofBounds 0 1 10, ofBounds (-2) 5 3], ?_, rfl, ?_⟩
  · intro d hd
    simp only [List.mem_cons, List.not_mem_nil, or_false] at hd
    rcases hd with rfl | rfl
    · exact h1
    · exact h2
  · have hl := h1.centres_length
    have hn : (ofBounds 0 1 10).nPartitions = 10 := rfl
    refine ⟨ofBounds 0 1 10, (ofBounds 0 1 10).centres[0], (ofBounds 0 1 10).centres[1], rfl, ?_⟩
    rw [h1.mapOnto_centre 0 _ (List.getElem?_eq_getElem _),
      h1.mapOnto_centre 1 _ (List.getElem?_eq_getElem _)]
    exact zero_ne_one

/-- C75: sparse features with no active feature in common. -/
example : ∀ i, ¬ (Active (.sparse ⟨4, [(0, (1 : ℝ)), (2, 1)]⟩) i ∧
    Active (.sparse ⟨4, [(1, (1 : ℝ)), (3, 1)]⟩) i) := by
  rintro i ⟨⟨a, ha⟩, ⟨b, hb⟩⟩
  have ha' : (i, a) ∈ [(0, (1 : ℝ)), (2, 1)] := ha
  have hb' : (i, b) ∈ [(1, (1 : ℝ)), (3, 1)] := hb
  simp only [List.mem_cons, Prod.mk.injEq, List.not_mem_nil, or_false] at ha' hb'
  omega

/-- C77: a basis that accepts its input. -/
example : Accepts (K := ℝ) (Bias.unit (K := ℝ)) () := ⟨_, rfl⟩

/-- C78, C79: a history of each optimiser. -/
example : ∃ o w₁, History (NAG.new 2 (0.9 : ℝ) 0.1) [7, 8]
    [.step (.dense [1, 2]), .stepScaled (.sparse ⟨2, [(1, 3)]⟩) (-2)] o w₁ :=
  let ⟨o, w, h, _⟩ := (C44_history 2 [7, 8] rfl
    [.step (.dense [1, 2]), .stepScaled (.sparse ⟨2, [(1, 3)]⟩) (-2)]
    (by
      intro e he
      simp only [List.mem_cons, List.not_mem_nil, or_false] at he
      rcases he with rfl | rfl
      · exact ⟨trivial, rfl⟩
      · exact ⟨⟨by simp, by simp⟩, rfl⟩) (0.1 : ℝ) 0.9 0 0).2.2.2.1
  ⟨o, w, h⟩

end Lfa

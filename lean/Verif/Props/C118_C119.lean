import Verif.Proofs.Universal
import Verif.Props.C101_C102
import Verif.Props.C30_C35

/-!
# C118–C119: what kernel approximators and uniform grids can represent

Exact arithmetic.
-/

set_option linter.unusedSectionVars false

namespace Lfa

open Spec

/-! ## C118 Squared exponential kernels are universal -/

theorem scaledCoord_ofFn {d : Nat} (ls : List ℝ) (hd : d ≤ ls.length) (u : Fin d → ℝ) (k : Fin d) :
    scaledCoord ls (List.ofFn u) k = u k / ls.getD k 0 := by
  unfold scaledCoord
  rw [if_pos (lt_of_lt_of_le k.2 hd), List.getD_eq_getElem _ _ (by simp)]
  simp

/-- The prediction of a kernel approximator is the weighted sum of the kernel values. -/
theorem predict_homogeneous {κ : Type} [SliceKernel κ ℝ] (k : κ) {α : Type} (as : List α)
    (c : α → List ℝ) (t : α → ℝ) (x : List ℝ) :
    predict (KernelBasis.homogeneous (as.map c) k) (as.map t) x =
      .ok (.ok (as.map fun a => SliceKernel.kernel k x (c a) * t a).sum) := by
  show ScalarLFA.evaluate (LFA.mk _ _ _) x = _
  have hp : Basis.project (KernelBasis.homogeneous (as.map c) k) x
      = .ok (.ok (.dense (as.map fun a => SliceKernel.kernel k x (c a)))) := by
    show Except.ok (Except.ok (Features.dense (((as.map c).map _).map _))) = _
    rw [List.map_map, List.map_map]
    rfl
  refine evaluate_eq (fa := LFA.mk _ (as.map t) ()) hp ?_
  show (if _ then _ else _) = _
  rw [if_pos (by simp)]
  congr 1
  show (List.zipWith _ _ _).sum = _
  rw [List.zipWith_map]
  congr 1
  clear hp
  induction as with
  | nil => rfl
  | cons a as ih => simp only [List.zipWith_cons_cons, List.map_cons, ih]

/-- **C118.** With a non-zero variance and a non-zero lengthscale for every coordinate, an
approximator over squared exponential kernels can be brought within any `ε > 0` of any continuous
function, uniformly over any compact set, in any number of dimensions. -/
theorem C118_expQuad_universal (k : Stationary .expQuad ℝ) (hv : k.variance ≠ 0) (d : Nat)
    (hd : d ≤ k.lengthscales.length) (h0 : ∀ l ∈ k.lengthscales, l ≠ 0) (S : Set (Fin d → ℝ))
    (hS : IsCompact S) (f : (Fin d → ℝ) → ℝ) (hf : ContinuousOn f S) (ε : ℝ) (hε : 0 < ε) :
    ∃ (centroids : List (List ℝ)) (w : List ℝ), (∀ c ∈ centroids, c.length = d) ∧
      w.length = centroids.length ∧ ∀ u ∈ S, ∃ p,
        predict (KernelBasis.homogeneous centroids k) w (List.ofFn u) = .ok (.ok p) ∧
        |p - f u| < ε := by
  set l : Fin d → ℝ := fun j => k.lengthscales.getD j 0 with hl
  have hl0 : ∀ j, l j ≠ 0 := fun j => by
    have hj : j.1 < k.lengthscales.length := lt_of_lt_of_le j.2 hd
    rw [hl]
    show k.lengthscales.getD j 0 ≠ 0
    rw [List.getD_eq_getElem _ _ hj]
    exact h0 _ (List.getElem_mem _)
  set q : (Fin d → ℝ) → ℝ := fun u => (∑ j, (u j / l j) ^ 2) / 2 with hq
  have hqc : Continuous q := (continuous_finsetSum _ fun j _ =>
    ((continuous_apply j).div_const _).pow 2).div_const _
  have hg : ContinuousOn (fun u => f u * Real.exp (q u) / k.variance) S :=
    (hf.mul (Real.continuous_exp.comp hqc).continuousOn).div_const _
  obtain ⟨c, hc⟩ := exp_dense l hl0 hS hg (ε := ε / |k.variance|) (div_pos hε (abs_pos.2 hv))
  refine ⟨c.support.toList.map fun a => List.ofFn fun j => a j * l j,
    c.support.toList.map fun a => c a * Real.exp ((∑ j, a j ^ 2) / 2), ?_, by simp, ?_⟩
  · intro x hx
    obtain ⟨a, -, rfl⟩ := List.mem_map.1 hx
    simp
  intro u hu
  refine ⟨_, predict_homogeneous k _ _ _ _, ?_⟩
  rw [Finset.sum_map_toList]
  have hker : ∀ a : Fin d → ℝ, SliceKernel.kernel k (List.ofFn u) (List.ofFn fun j => a j * l j)
      * (c a * Real.exp ((∑ j, a j ^ 2) / 2))
      = k.variance * Real.exp (-q u) * (c a * Real.exp (∑ j, u j / l j * a j)) := by
    intro a
    rw [slice_stationary, sliceDistance_scaled k.lengthscales (d := d) (by simp) (by simp)]
    show k.variance * Real.exp (-(√_ ^ 2 / 2)) * _ = _
    rw [Real.sq_sqrt (Finset.sum_nonneg fun _ _ => sq_nonneg _)]
    have e : Real.exp (-((∑ j : Fin d, (scaledCoord k.lengthscales (List.ofFn u) j
        - scaledCoord k.lengthscales (List.ofFn fun j => a j * l j) j) ^ 2) / 2))
        * Real.exp ((∑ j, a j ^ 2) / 2) = Real.exp (-q u) * Real.exp (∑ j, u j / l j * a j) := by
      rw [← Real.exp_add, ← Real.exp_add]
      congr 1
      rw [hq, neg_div', neg_div', ← add_div, div_add' _ _ _ (by norm_num)]
      congr 1
      rw [← Finset.sum_neg_distrib, ← Finset.sum_neg_distrib, ← Finset.sum_add_distrib, Finset.sum_mul,
        ← Finset.sum_add_distrib]
      refine Finset.sum_congr rfl fun j _ => ?_
      rw [scaledCoord_ofFn _ hd, scaledCoord_ofFn _ hd]
      show -((u j / l j - a j * l j / l j) ^ 2) + _ = _
      rw [mul_div_cancel_right₀ _ (hl0 j)]
      ring
    linear_combination (k.variance * c a) * e
  simp only [hker]
  rw [← Finset.mul_sum]
  have h1 := hc u hu
  rw [Finsupp.sum] at h1
  set s := ∑ a ∈ c.support, c a * Real.exp (∑ j, u j / l j * a j) with hs
  have h2 : k.variance * Real.exp (-q u) * s - f u
      = k.variance * Real.exp (-q u) * (s - f u * Real.exp (q u) / k.variance) := by
    rw [mul_sub]
    congr 1
    rw [mul_div_assoc', mul_assoc, mul_div_assoc, mul_comm (f u), ← mul_assoc, mul_div_assoc']
    rw [show k.variance * (Real.exp (-q u) * Real.exp (q u) * f u) = k.variance * f u by
      rw [← Real.exp_add]; simp]
    rw [mul_div_cancel_left₀ _ hv]
  rw [h2, abs_mul, abs_mul, abs_of_pos (Real.exp_pos _)]
  have hq0 : 0 ≤ q u := div_nonneg (Finset.sum_nonneg fun _ _ => sq_nonneg _) (by norm_num)
  have h3 : Real.exp (-q u) ≤ 1 := Real.exp_le_one_iff.2 (by linarith)
  have hvp := abs_pos.2 hv
  calc |k.variance| * Real.exp (-q u) * |s - f u * Real.exp (q u) / k.variance|
      ≤ |k.variance| * 1 * |s - f u * Real.exp (q u) / k.variance| := by gcongr
    _ < |k.variance| * 1 * (ε / |k.variance|) := by
      rw [mul_one]
      exact mul_lt_mul_of_pos_left h1 hvp
    _ = ε := by field_simp

/-- The lengthscales must cover all coordinates. With the single lengthscale of `non_ard`, whatever
the kernel, the centroids and the weights, predictions in two dimensions ignore the second
coordinate. -/
theorem C118_non_ard {kind : StationaryKind} (v l : ℝ) (centroids : List (List ℝ))
    (hc : ∀ c ∈ centroids, c.length = 2) (w : List ℝ) (a b b' : ℝ) :
    predict (KernelBasis.homogeneous centroids (Stationary.nonArd v l : Stationary kind ℝ)) w [a, b]
      = predict (KernelBasis.homogeneous centroids (Stationary.nonArd v l : Stationary kind ℝ)) w
        [a, b'] := by
  have hp : Basis.project (KernelBasis.homogeneous centroids
        (Stationary.nonArd v l : Stationary kind ℝ)) [a, b]
      = Basis.project (KernelBasis.homogeneous centroids
        (Stationary.nonArd v l : Stationary kind ℝ)) [a, b'] := by
    show Except.ok (Except.ok (Features.dense ((centroids.map _).map _)))
      = Except.ok (Except.ok (Features.dense ((centroids.map _).map _)))
    congr 3
    rw [List.map_map, List.map_map]
    refine List.map_congr_left fun c hcm => ?_
    show SliceKernel.kernel (Stationary.nonArd v l : Stationary kind ℝ) [a, b] c
      = SliceKernel.kernel (Stationary.nonArd v l : Stationary kind ℝ) [a, b'] c
    rw [slice_stationary, slice_stationary, sliceDistance_real, sliceDistance_real]
    match c, hc c hcm with
    | [p, q], _ => rfl
  show ScalarLFA.evaluate _ _ = ScalarLFA.evaluate _ _
  unfold ScalarLFA.evaluate
  show (Basis.project (KernelBasis.homogeneous centroids
        (Stationary.nonArd v l : Stationary kind ℝ)) [a, b] >>= _)
    = (Basis.project (KernelBasis.homogeneous centroids
        (Stationary.nonArd v l : Stationary kind ℝ)) [a, b'] >>= _)
  rw [hp]

/-- The cosine kernel is not universal: in one dimension every prediction repeats after `2 π l`. -/
theorem C118_cosine_periodic (v l : ℝ) (hl : l ≠ 0) (centroids : List (List ℝ))
    (hc : ∀ c ∈ centroids, c.length = 1) (w : List ℝ) (a : ℝ) :
    predict (KernelBasis.homogeneous centroids (⟨v, [l]⟩ : Stationary .cosine ℝ)) w
        [a + 2 * Real.pi * l]
      = predict (KernelBasis.homogeneous centroids (⟨v, [l]⟩ : Stationary .cosine ℝ)) w [a] := by
  have hp : Basis.project (KernelBasis.homogeneous centroids
        (⟨v, [l]⟩ : Stationary .cosine ℝ)) [a + 2 * Real.pi * l]
      = Basis.project (KernelBasis.homogeneous centroids
        (⟨v, [l]⟩ : Stationary .cosine ℝ)) [a] := by
    show Except.ok (Except.ok (Features.dense ((centroids.map _).map _)))
      = Except.ok (Except.ok (Features.dense ((centroids.map _).map _)))
    congr 3
    rw [List.map_map, List.map_map]
    refine List.map_congr_left fun c hcm => ?_
    show SliceKernel.kernel (⟨v, [l]⟩ : Stationary .cosine ℝ) [a + 2 * Real.pi * l] c
      = SliceKernel.kernel (⟨v, [l]⟩ : Stationary .cosine ℝ) [a] c
    rw [slice_stationary, slice_stationary, sliceDistance_real, sliceDistance_real]
    match c, hc c hcm with
    | [p], _ =>
      have key : ∀ z : ℝ, √((z / l) ^ 2) = |z / l| := fun z => Real.sqrt_sq_eq_abs _
      simp only [List.zipWith_cons_cons, List.zipWith_nil_left, List.sum_cons, List.sum_nil,
        add_zero, key]
      show v * Real.cos _ = v * Real.cos _
      rw [Real.cos_abs, Real.cos_abs, show (a + 2 * Real.pi * l - p) / l = (a - p) / l + 2 * Real.pi by
        field_simp; ring, Real.cos_add_two_pi]
  show ScalarLFA.evaluate _ _ = ScalarLFA.evaluate _ _
  unfold ScalarLFA.evaluate
  show (Basis.project (KernelBasis.homogeneous centroids
        (⟨v, [l]⟩ : Stationary .cosine ℝ)) [a + 2 * Real.pi * l] >>= _)
    = (Basis.project (KernelBasis.homogeneous centroids
        (⟨v, [l]⟩ : Stationary .cosine ℝ)) [a] >>= _)
  rw [hp]

/-! ## C119 Uniform grids -/

/-- Points of the same part are at most a part's width apart. -/
theorem ofBounds_near {lb ub : ℝ} (h : lb < ub) {n : Nat} (hn : 0 < n) {u v : ℝ}
    (hu : lb ≤ u ∧ u ≤ ub) (hv : lb ≤ v ∧ v ≤ ub)
    (he : (ofBounds lb ub n).mapOnto u = (ofBounds lb ub n).mapOnto v) :
    |u - v| ≤ (ub - lb) / n := by
  have hw : 0 < ub - lb := sub_pos.2 h
  have hn' : (0 : ℝ) < n := Nat.cast_pos.2 hn
  have key : ∀ z : ℝ, lb ≤ z ∧ z ≤ ub → ∀ k : Nat,
      (ofBounds lb ub n).mapOnto z = k → (k : ℝ) ≤ n * ((z - lb) / (ub - lb)) ∧
        n * ((z - lb) / (ub - lb)) ≤ k + 1 := by
    intro z hz k hk
    have hk : min (n - 1) ⌊n * ((max lb (min ub z) - lb) / (ub - lb))⌋₊ = k := hk
    rw [min_eq_right hz.2, max_eq_right hz.1] at hk
    have h0 : 0 ≤ n * ((z - lb) / (ub - lb)) :=
      mul_nonneg hn'.le (div_nonneg (sub_nonneg.2 hz.1) hw.le)
    have h1 : n * ((z - lb) / (ub - lb)) ≤ n := by
      have : (z - lb) / (ub - lb) ≤ 1 := (div_le_one hw).2 (by linarith [hz.2])
      nlinarith
    constructor
    · refine le_trans ?_ (Nat.floor_le h0)
      rw [← hk]
      exact Nat.cast_le.2 (min_le_right _ _)
    · rcases le_total (n - 1) ⌊n * ((z - lb) / (ub - lb))⌋₊ with hc | hc
      · rw [min_eq_left hc] at hk
        rw [← hk, Nat.cast_sub hn]
        push_cast
        linarith
      · rw [min_eq_right hc] at hk
        rw [← hk]
        exact (Nat.lt_floor_add_one _).le
  obtain ⟨a1, a2⟩ := key u hu _ rfl
  obtain ⟨b1, b2⟩ := key v hv _ he.symm
  have e : u - v = (n * ((u - lb) / (ub - lb)) - n * ((v - lb) / (ub - lb))) * ((ub - lb) / n) := by
    field_simp
    ring
  rw [e, abs_mul, abs_of_pos (div_pos hw hn')]
  have : |n * ((u - lb) / (ub - lb)) - n * ((v - lb) / (ub - lb))| ≤ 1 :=
    abs_le.2 ⟨by linarith, by linarith⟩
  have := mul_le_mul_of_nonneg_right this (div_pos hw hn').le
  linarith

/-- **C119.** Whatever the function, if it varies by at most `ε` between points that are at most a
cell's width apart in every coordinate, some weights bring the grid's prediction within `ε` of it,
uniformly over the box. -/
theorem C119_grid_oscillation (d : Nat) (hd : 0 < d) (lo hi : Fin d → ℝ) (hb : ∀ j, lo j < hi j)
    (n : Fin d → Nat) (hn : ∀ j, 0 < n j) (f : (Fin d → ℝ) → ℝ) (ε : ℝ)
    (hf : ∀ u v : Fin d → ℝ, (∀ j, lo j ≤ u j ∧ u j ≤ hi j) → (∀ j, lo j ≤ v j ∧ v j ≤ hi j) →
      (∀ j, |u j - v j| ≤ (hi j - lo j) / n j) → |f u - f v| ≤ ε) :
    ∃ w : List ℝ, w.length = ∏ j, n j ∧ ∀ u : Fin d → ℝ, (∀ j, lo j ≤ u j ∧ u j ≤ hi j) → ∃ p,
      predict (UniformGrid.new (List.ofFn fun j => ofBounds (lo j) (hi j) (n j))) w (List.ofFn u)
        = .ok (.ok p) ∧ |p - f u| ≤ ε := by
  classical
  set ds := List.ofFn fun j => ofBounds (lo j) (hi j) (n j) with hds
  have hlaw : ∀ e ∈ ds, e.Lawful := by
    intro e he
    obtain ⟨j, rfl⟩ := List.mem_ofFn.1 he
    exact ofBounds_lawful (hb j) (hn j)
  have hne : ds ≠ [] := by
    intro h
    have := congrArg List.length h
    simp [hds] at this
    omega
  have hN : (ds.map Equipartition.nPartitions).prod = ∏ j, n j := by
    rw [hds, List.map_ofFn, List.prod_ofFn]
    rfl
  have hcell : ∀ u : Fin d → ℝ, ∃ k < ∏ j, n j, Basis.project (UniformGrid.new ds) (List.ofFn u) =
      .ok (.ok (.sparse ⟨∏ j, n j, [(k, (Scalar.one : ℝ))]⟩)) := by
    intro u
    obtain ⟨k, hk, hp, -⟩ := C33_one_active ds hlaw hne (List.ofFn u) (by
      intro h
      have := congrArg List.length h
      simp at this
      omega)
    rw [hN] at hk hp
    exact ⟨k, hk, hp⟩
  choose cell hcell1 hcell2 using hcell
  set Box : (Fin d → ℝ) → Prop := fun u => ∀ j, lo j ≤ u j ∧ u j ≤ hi j with hBox
  let wt : Nat → ℝ := fun k => if h : ∃ u, Box u ∧ cell u = k then f h.choose else 0
  refine ⟨(List.range (∏ j, n j)).map wt, by simp, fun u hu => ?_⟩
  have hex : ∃ v, Box v ∧ cell v = cell u := ⟨u, hu, rfl⟩
  refine ⟨wt (cell u), ?_, ?_⟩
  · show ScalarLFA.evaluate (LFA.mk _ _ _) _ = _
    refine evaluate_eq (fa := LFA.mk (UniformGrid.new ds) _ ()) (hcell2 u) ?_
    have hF : Fits (∏ j, n j) (.sparse ⟨∏ j, n j, [(cell u, (Scalar.one : ℝ))]⟩) := by
      refine ⟨?_, rfl⟩
      refine ⟨by simp, fun e he => ?_⟩
      rw [List.mem_singleton.1 he]
      exact hcell1 u
    rw [dot_real hF.1 (by rw [hF.2]; simp), inner_eq]
    congr 1
    show ∑ i ∈ Finset.range (∏ j, n j), _ = _
    rw [Finset.sum_eq_single (cell u)]
    · rw [value_of_stored (a := (Scalar.one : ℝ)) (keysUnique_of_wf hF.1) (by
        show _ ∈ _
        simp)]
      unfold entry
      rw [List.getD_eq_getElem _ _ (by simpa using hcell1 u)]
      simp
    · intro i _ hi
      rw [value_of_not_stored, real_zero, zero_mul]
      intro a ha
      have ha : (i, a) ∈ [(cell u, (Scalar.one : ℝ))] := ha
      simp at ha
      exact hi ha.1
    · intro h
      exact absurd (Finset.mem_range.2 (hcell1 u)) h
  · have hw : wt (cell u) = f hex.choose := dif_pos hex
    obtain ⟨hv1, hv2⟩ := hex.choose_spec
    rw [hw]
    refine hf _ u hv1 hu fun j => ?_
    apply ofBounds_near (hb j) (hn j) (hv1 j) (hu j)
    have hsame : (Basis.project (UniformGrid.new ds) (List.ofFn hex.choose)
        : P (Result (Features ℝ))) = Basis.project (UniformGrid.new ds) (List.ofFn u) := by
      rw [hcell2, hcell2, hv2]
    exact (C34_injective ds hlaw hne _ _ (by simp [hds]) (by simp [hds])).1 hsame j _ _ _
      (by simp [hds]) (by simp) (by simp)

/-- **C119.** Hence any continuous function on the box is approximated to any accuracy by every
sufficiently fine grid. -/
theorem C119_grid_universal (d : Nat) (hd : 0 < d) (lo hi : Fin d → ℝ) (hb : ∀ j, lo j < hi j)
    (f : (Fin d → ℝ) → ℝ) (hf : ContinuousOn f (Set.Icc lo hi)) (ε : ℝ) (hε : 0 < ε) :
    ∃ N : Nat, ∀ n : Fin d → Nat, (∀ j, N ≤ n j) → ∃ w : List ℝ, w.length = ∏ j, n j ∧
      ∀ u : Fin d → ℝ, (∀ j, lo j ≤ u j ∧ u j ≤ hi j) → ∃ p,
      predict (UniformGrid.new (List.ofFn fun j => ofBounds (lo j) (hi j) (n j))) w (List.ofFn u)
        = .ok (.ok p) ∧ |p - f u| ≤ ε := by
  have hu := (isCompact_Icc (a := lo) (b := hi)).uniformContinuousOn_of_continuous hf
  rw [Metric.uniformContinuousOn_iff_le] at hu
  obtain ⟨δ, hδ, h⟩ := hu ε hε
  have : ∀ j, ∃ N : Nat, 0 < N ∧ (hi j - lo j) / N ≤ δ := by
    intro j
    obtain ⟨N, hN⟩ := exists_nat_gt ((hi j - lo j) / δ)
    have h0 : 0 < (N : ℝ) := lt_trans (div_pos (sub_pos.2 (hb j)) hδ) hN
    refine ⟨N, by exact_mod_cast h0, ?_⟩
    rw [div_le_iff₀ h0]
    rw [div_lt_iff₀ hδ] at hN
    linarith
  choose N hN0 hN using this
  refine ⟨∑ j, N j, fun n hn => ?_⟩
  have hge : ∀ j, N j ≤ n j := fun j =>
    (Finset.single_le_sum (fun _ _ => Nat.zero_le _) (Finset.mem_univ j)).trans (hn j)
  refine C119_grid_oscillation d hd lo hi hb n (fun j => (hN0 j).trans_le (hge j)) f ε
    fun u v hu hv huv => ?_
  have := h u ⟨fun j => (hu j).1, fun j => (hu j).2⟩ v ⟨fun j => (hv j).1, fun j => (hv j).2⟩
    ((dist_pi_le_iff hδ.le).2 fun j => by
      rw [Real.dist_eq]
      refine (huv j).trans (le_trans ?_ (hN j))
      exact div_le_div_of_nonneg_left (sub_pos.2 (hb j)).le (Nat.cast_pos.2 (hN0 j))
        (Nat.cast_le.2 (hge j)))
  rwa [Real.dist_eq] at this

/-! ### Concrete cases -/

/-- C118 in two dimensions with lengthscales `1` and `2`, on the unit square. -/
example (ε : ℝ) (hε : 0 < ε) : ∃ (centroids : List (List ℝ)) (w : List ℝ),
    (∀ c ∈ centroids, c.length = 2) ∧ w.length = centroids.length ∧
      ∀ u ∈ Set.Icc (0 : Fin 2 → ℝ) 1, ∃ p,
        predict (KernelBasis.homogeneous centroids (⟨1, [1, 2]⟩ : Stationary .expQuad ℝ)) w
          (List.ofFn u) = .ok (.ok p) ∧ |p - u 0 * max (u 1) (1 / 2)| < ε :=
  C118_expQuad_universal ⟨1, [1, 2]⟩ one_ne_zero 2 le_rfl (by simp) _ isCompact_Icc
    (fun u => u 0 * max (u 1) (1 / 2)) (by fun_prop) ε hε

/-- C119 for `x ↦ x²` on `[0, 1]` with ten cells: within `0.2`. -/
example : ∃ w : List ℝ, w.length = ∏ _j : Fin 1, 10 ∧
    ∀ u : Fin 1 → ℝ, (∀ j, (0 : ℝ) ≤ u j ∧ u j ≤ 1) → ∃ p,
      predict (UniformGrid.new (List.ofFn fun _ : Fin 1 => ofBounds 0 1 10)) w (List.ofFn u)
        = .ok (.ok p) ∧ |p - u 0 ^ 2| ≤ 0.2 :=
  C119_grid_oscillation 1 one_pos (fun _ => 0) (fun _ => 1) (fun _ => one_pos) (fun _ => 10)
    (fun _ => by norm_num) (fun u => u 0 ^ 2) 0.2 fun u v hu hv h => by
      have h1 := h 0
      have h2 := hu 0
      have h3 := hv 0
      rw [show u 0 ^ 2 - v 0 ^ 2 = (u 0 - v 0) * (u 0 + v 0) by ring, abs_mul,
        abs_of_nonneg (by linarith : 0 ≤ u 0 + v 0)]
      norm_num at h1 ⊢
      nlinarith [abs_nonneg (u 0 - v 0)]

end Lfa

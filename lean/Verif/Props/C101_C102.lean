import Verif.Proofs.StrictPD
import Verif.Props.C86
import Verif.Props.C99_C100

/-!
# C101–C102: positive definite kernels and interpolation

Exact arithmetic.
-/

set_option linter.unusedSectionVars false

namespace Lfa

open Spec

/-! ## C101 Positive definiteness -/

/-- The point with the scaled coordinates of `x`. -/
noncomputable def scaledPoint (ls : List ℝ) (d : Nat) (x : List ℝ) : Pt d :=
  WithLp.toLp 2 fun k => scaledCoord ls x k

theorem scaledPoint_dist (ls : List ℝ) {d : Nat} {x y : List ℝ} (hx : x.length = d)
    (hy : y.length = d) :
    sliceDistance ls x y = Real.sqrt (‖scaledPoint ls d x - scaledPoint ls d y‖ ^ 2) := by
  rw [sliceDistance_scaled ls hx hy, normSq_eq]
  rfl

theorem scaledPoint_injective (ls : List ℝ) {d : Nat} (hd : d ≤ ls.length) (h0 : ∀ l ∈ ls, l ≠ 0)
    {x y : List ℝ} (hx : x.length = d) (hy : y.length = d)
    (h : scaledPoint ls d x = scaledPoint ls d y) : x = y := by
  refine List.ext_getElem (hx.trans hy.symm) fun i h1 h2 => ?_
  have hi : i < d := hx ▸ h1
  have hq : scaledCoord ls x i = scaledCoord ls y i :=
    congrFun (congrArg WithLp.ofLp h) ⟨i, hi⟩
  unfold scaledCoord at hq
  rw [if_pos (by omega), if_pos (by omega), List.getD_eq_getElem _ _ h1,
    List.getD_eq_getElem _ _ h2, List.getD_eq_getElem _ _ (by omega : i < ls.length)] at hq
  exact (div_left_inj' (h0 _ (List.getElem_mem _))).1 hq

/-- From radial functions to kernels. -/
theorem strict_of_radial {d : Nat} {g : ℝ → ℝ} (hg : StrictRadial d g) (ls : List ℝ)
    (hd : d ≤ ls.length) (h0 : ∀ l ∈ ls, l ≠ 0) {v : ℝ} (hv : 0 < v) (k : List ℝ → List ℝ → ℝ)
    (hk : ∀ x y, x.length = d → y.length = d →
      k x y = v * g (sliceDistance ls x y ^ 2)) :
    StrictlyPositiveOn (fun x : List ℝ => x.length = d) k := by
  intro m x c hx hinj hc
  have h := hg m (fun i => scaledPoint ls d (x i)) c
    (fun i j hij => hinj (scaledPoint_injective ls hd h0 (hx i) (hx j) hij)) hc
  have e : ∑ i, ∑ j, c i * c j * k (x i) (x j)
      = v * radialForm g (fun i => scaledPoint ls d (x i)) c := by
    unfold radialForm
    rw [Finset.mul_sum]
    refine Finset.sum_congr rfl fun i _ => ?_
    rw [Finset.mul_sum]
    refine Finset.sum_congr rfl fun j _ => ?_
    rw [hk _ _ (hx i) (hx j), scaledPoint_dist ls (hx i) (hx j), Real.sq_sqrt (sq_nonneg _)]
    ring
  rw [e]
  exact mul_pos hv h

theorem sliceDistance_nonneg' (ls x y : List ℝ) : 0 ≤ sliceDistance ls x y := by
  rw [sliceDistance_real]
  exact Real.sqrt_nonneg _

/-- The exponential, Matérn-3/2 and squared exponential kernels with positive variance and a non-zero
lengthscale per coordinate are positive definite in any dimension. -/
theorem C101_stationary {kind : StationaryKind}
    (hk : kind = .exponential ∨ kind = .matern32 ∨ kind = .expQuad) (k : Stationary kind ℝ)
    (hv : 0 < k.variance) (d : Nat) (hd : d ≤ k.lengthscales.length)
    (h0 : ∀ l ∈ k.lengthscales, l ≠ 0) :
    StrictlyPositiveOn (fun x : List ℝ => x.length = d) (SliceKernel.kernel k) := by
  rcases hk with rfl | rfl | rfl
  · refine strict_of_radial (exponential_strict d) _ hd h0 hv _ fun x y _ _ => ?_
    rw [slice_stationary, Real.sqrt_sq (sliceDistance_nonneg' _ _ _)]
    rfl
  · refine strict_of_radial ((matern32_strict d).scale (show (0 : ℝ) < 3 by norm_num)) _ hd h0 hv _
      fun x y _ _ => ?_
    rw [slice_stationary, Real.sqrt_mul (by norm_num), Real.sqrt_sq (sliceDistance_nonneg' _ _ _)]
    rfl
  · refine strict_of_radial (gauss_strict d (show (0 : ℝ) < 1 / 2 by norm_num)) _ hd h0 hv _
      fun x y _ _ => ?_
    rw [slice_stationary]
    show _ * Real.exp _ = _
    congr 2
    ring

/-- So is the rational quadratic kernel with positive power. -/
theorem C101_rational (q : RationalQuadratic ℝ) (hv : 0 < q.variance) (hp : 0 < q.power) (d : Nat)
    (hd : d ≤ q.lengthscales.length) (h0 : ∀ l ∈ q.lengthscales, l ≠ 0) :
    StrictlyPositiveOn (fun x : List ℝ => x.length = d) (SliceKernel.kernel q) := by
  refine strict_of_radial ((rational_strict d one_pos hp).scale (show (0 : ℝ) < 1 / 2 by norm_num))
    _ hd h0 hv _ fun x y _ _ => ?_
  rw [slice_rational]
  show _ * (1 + _ / 2) ^ _ = _
  congr 3
  ring

/-- The lengthscales must cover all coordinates: with fewer, points that differ elsewhere only are not
told apart. -/
theorem C101_missing_lengthscale (v l : ℝ) :
    ¬ StrictlyPositiveOn (fun x : List ℝ => x.length = 2)
      (SliceKernel.kernel (⟨v, [l]⟩ : Stationary .expQuad ℝ)) := by
  intro h
  have := h 2 ![[0, 0], [0, 1]] ![1, -1] (fun i => by fin_cases i <;> rfl)
    (fun i j hij => by
      fin_cases i <;> fin_cases j
      · rfl
      · simp at hij
      · simp at hij
      · rfl)
    (fun hc => by simpa using congrFun hc 0)
  have hd : ∀ a b : ℝ, sliceDistance [l] [0, a] [0, b] = 0 := fun a b => by
    rw [sliceDistance_real]; simp
  simp only [Fin.sum_univ_two, Matrix.cons_val_zero, Matrix.cons_val_one, slice_stationary, hd] at this
  linarith

/-! ## C102 Kernel interpolation -/

/-- A kernel basis with a positive definite kernel and distinct centroids fits any targets at the
centroids with exactly one weight vector; predictions at the centroids determine the weights. -/
theorem C102_interpolation {κ : Type} [SliceKernel κ ℝ] (k : κ) (d : Nat)
    (hk : StrictlyPositiveOn (fun x : List ℝ => x.length = d) (SliceKernel.kernel k))
    (centroids : List (List ℝ)) (hn : centroids.Nodup) (hl : ∀ c ∈ centroids, c.length = d) :
    Identifies (KernelBasis.homogeneous centroids k) centroids.length (fun x => x ∈ centroids) ∧
    Interpolates (KernelBasis.homogeneous centroids k) centroids.length
      (fun x => x ∈ centroids) := by
  classical
  have hproj : ∀ x : List ℝ, x ∈ centroids →
      Basis.project (KernelBasis.homogeneous centroids k) x =
        .ok (.ok (.dense (centroids.map fun c => SliceKernel.kernel k x c))) ∧
      (centroids.map fun c => SliceKernel.kernel k x c).length = centroids.length := by
    intro x _
    refine ⟨?_, by simp⟩
    show Except.ok (Except.ok (Features.dense ((centroids.map _).map _))) = _
    rw [List.map_map]
    rfl
  have hind : ∀ a : Nat → ℝ, (∀ x, x ∈ centroids → ∑ i ∈ Finset.range centroids.length,
      (centroids.map fun c => SliceKernel.kernel k x c).getD i 0 * a i = 0) →
      ∀ i < centroids.length, a i = 0 := by
    intro a ha
    by_contra hne
    push Not at hne
    obtain ⟨i, hi, hai⟩ := hne
    have hpos := hk centroids.length (fun i => centroids[i]) (fun i => a i)
      (fun i => hl _ (List.getElem_mem _)) (fun i j hij => Fin.ext ((List.Nodup.getElem_inj_iff hn).1 hij))
      (fun hc => hai (congrFun hc ⟨i, hi⟩))
    refine hpos.ne' (Finset.sum_eq_zero fun i _ => ?_)
    have := ha centroids[i] (List.getElem_mem _)
    rw [Finset.sum_range] at this
    rw [← mul_zero (a i), ← this, Finset.mul_sum]
    refine Finset.sum_congr rfl fun j _ => ?_
    rw [List.getD_eq_getElem _ _ (by simp), List.getElem_map]
    show a i * a j * _ = a i * (_ * a j)
    ring_nf
    rfl
  refine ⟨identifies_of_indep _ _ _ _ hproj hind, ?_⟩
  refine interpolates_of_indep _ _ _ _ hproj hind
    (Fintype.ofEquiv {x // x ∈ centroids.toFinset} (Equiv.subtypeEquivRight fun x =>
      List.mem_toFinset)) ?_
  rw [Fintype.ofEquiv_card, Fintype.card_coe, List.toFinset_card_of_nodup hn]

/-- The grid constructors `exp_quad` and `matern_32`: any values at the cell centres are fitted by
exactly one weight vector. -/
theorem C102_kernel_grids {kind : StationaryKind} (hk : kind = .matern32 ∨ kind = .expQuad)
    (ds : List (Equipartition ℝ)) (h : ∀ d ∈ ds, d.Lawful) (hds : ds ≠ [])
    (hw : ∀ d ∈ ds, d.partitionWidth ≠ 0) :
    let n := (ds.map Equipartition.nPartitions).prod
    let centres := (KernelBasis.grid kind ds).prototypes.map Prototype.centroid
    centres.Nodup ∧ centres.length = n ∧
    Identifies (KernelBasis.grid kind ds) n (fun x => x ∈ centres) ∧
    Interpolates (KernelBasis.grid kind ds) n (fun x => x ∈ centres) := by
  intro n centres
  obtain ⟨h1, -, h2⟩ := C35_kernel_grid (K := ℝ) kind ds h hds
  have hlen : centres.length = n := by
    have h3 : Dim.finite (KernelBasis.grid kind ds).prototypes.length = Dim.finite n := h1
    injection h3 with h3
    rw [List.length_map, h3]
  have hcen : centres = KernelBasis.gridCentroids ds := by
    show List.map _ (List.map _ (KernelBasis.gridCentroids ds)) = _
    rw [List.map_map]
    exact List.map_id _
  have hnd : centres.Nodup := by
    rw [List.nodup_iff_injective_getElem]
    intro i j hij
    have key : ∀ i : Fin centres.length, Basis.project (UniformGrid.new ds) centres[i] =
        .ok (.ok (.sparse ⟨n, [((i : Nat), (Scalar.one : ℝ))]⟩)) := fun i => by
      have hi : (i : Nat) < (KernelBasis.grid kind ds).prototypes.length := by
        exact lt_of_lt_of_eq i.2 (List.length_map ..)
      have := (h2 i _ (List.getElem?_eq_getElem hi)).2.2.1
      simpa [centres] using this
    have hq : centres[i] = centres[j] := hij
    have := (key i).symm.trans ((congrArg _ hq).trans (key j))
    injection this with this
    injection this with this
    injection this with this
    injection this with _ this
    injection this with this
    injection this with this
    exact Fin.ext this
  have hl : ∀ c ∈ centres, c.length = ds.length := by
    intro c hc
    obtain ⟨p, hp, rfl⟩ := List.mem_map.1 hc
    obtain ⟨i, hi, rfl⟩ := List.mem_iff_getElem.1 hp
    exact (h2 i _ (List.getElem?_eq_getElem hi)).2.1
  have hb : KernelBasis.grid kind ds = KernelBasis.homogeneous centres
      (⟨Scalar.one, ds.map Equipartition.partitionWidth⟩ : Stationary kind ℝ) := by
    rw [hcen]; rfl
  have hpos := C101_stationary (.inr hk)
    (⟨Scalar.one, ds.map Equipartition.partitionWidth⟩ : Stationary kind ℝ)
    (by rw [real_one]; exact one_pos) ds.length (by simp) (by
      intro l hl
      obtain ⟨d, hd, rfl⟩ := List.mem_map.1 hl
      exact hw d hd)
  have := C102_interpolation _ ds.length hpos centres hnd hl
  rw [← hb, hlen] at this
  exact ⟨hnd, hlen, this⟩

/-- A grid that meets the hypotheses. -/
example : ∀ d ∈ [ofBounds 0 1 10, ofBounds (-2) 5 3], d.partitionWidth ≠ 0 := by
  intro d hd
  simp only [List.mem_cons, List.not_mem_nil, or_false] at hd
  rcases hd with rfl | rfl
  · show ((1 : ℝ) - 0) / (10 : Nat) ≠ 0
    norm_num
  · show ((5 : ℝ) - (-2)) / (3 : Nat) ≠ 0
    norm_num

/-- A kernel and centroids that meet the hypotheses of `C102_interpolation`. -/
example : StrictlyPositiveOn (fun x : List ℝ => x.length = 2)
    (SliceKernel.kernel (⟨1, [2, 3]⟩ : Stationary .exponential ℝ)) ∧
    [[(0 : ℝ), 0], [1, 5]].Nodup :=
  ⟨C101_stationary (.inl rfl) _ one_pos 2 le_rfl (by simp), by simp⟩

end Lfa

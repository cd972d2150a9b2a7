import Verif.Props.C168
import Verif.Props.C169
import Verif.Proofs.Kernels

/-!
# C170: training a kernel approximator in double precision follows the exact training

The run in `f64` evaluates its kernels with rounding and with the platform's `exp` (C169); the other run has the same
centroids, lengthscales, variance, inputs and targets, and evaluates its kernels exactly.
-/

set_option linter.unusedSectionVars false

namespace Lfa

open Spec Machine XReal

variable {M : Machine}

/-- Two runs on dense features computed from the same list, at most `δ` apart and the exact ones in `[-B, B]`. -/
theorem list_run {α B B' I I' : Type} [Space B] [Basis B I (FP M)] [Space B'] [Basis B' I' ℝ]
    (hM : M.rnd = binary64Format.rnd) (es : List α)
    (fas : Nat → ScalarLFA B (SGD (FP M)) (FP M)) (gas : Nat → ScalarLFA B' (SGD ℝ) ℝ) (xs : Nat → I) (xs' : Nat → I')
    (ys ps : Nat → FP M) (qs : Nat → ℝ) (hs : Stream fas xs ys ps) (hg : Stream gas xs' (fun k => real (ys k)) qs)
    (g : Nat → α → FP M) (f : Nat → α → ℝ) {δ top : ℝ} (hδ : 0 ≤ δ) (ht : 0 ≤ top)
    (hφ : ∀ k, Basis.project (fas 0).basis (xs k) = .ok (.ok (.dense (es.map (g k)))))
    (hψ : ∀ k, Basis.project (gas 0).basis (xs' k) = .ok (.ok (.dense (es.map (f k)))))
    (h : ∀ k, ∀ e ∈ es, |real (g k e) - f k e| ≤ δ) (hf : ∀ k, ∀ e ∈ es, |f k e| ≤ top)
    (hn : (fas 0).weights.length = es.length) (hm : (gas 0).weights.length = es.length)
    (hw : ∀ i < es.length, entry (gas 0).weights i = real (entry (fas 0).weights i))
    (hlr : (gas 0).optimiser.lr = real (fas 0).optimiser.lr) (h0 : 0 ≤ (gas 0).optimiser.lr)
    (h2 : (gas 0).optimiser.lr * (es.length * top ^ 2) ≤ 2) (T : Nat)
    (hT : ∀ i < es.length, Finite (entry (fas T).weights i)) :
    len es.length (fun i => real (entry (fas T).weights i) - entry (gas T).weights i) ≤
      ∑ t ∈ Finset.range T, (callError es.length (fas 0).optimiser.lr (.dense (es.map (g t))) (fas t).weights (ys t) (ps t) +
        (gas 0).optimiser.lr * (|real (ys t) - exactDot (.dense (es.map (g t))) (fas t).weights| +
          √es.length * top * len es.length fun i => real (entry (fas t).weights i)) * (√es.length * δ)) := by
  have hnorm : ∀ k, normSq (Features.dense (es.map (f k))) ≤ es.length * top ^ 2 := fun k => by
    have e : dim (Features.dense (es.map (f k))) = es.length := List.length_map _
    rw [normSq, e]
    calc ∑ i ∈ Finset.range es.length, value (Features.dense (es.map (f k))) i * value (Features.dense (es.map (f k))) i
        ≤ ∑ _i ∈ Finset.range es.length, top ^ 2 := Finset.sum_le_sum fun i hi => by
          have hi := Finset.mem_range.1 hi
          have e2 : value (Features.dense (es.map (f k))) i = f k es[i] := by
            show entry (es.map (f k)) i = _
            simp [entry, hi]
          have := hf k es[i] (List.getElem_mem hi)
          rw [e2, ← abs_mul_abs_self, sq]
          exact mul_le_mul this this (abs_nonneg _) ht
      _ = es.length * top ^ 2 := by simp
  have hnear : ∀ k, len es.length (fun i => real (value (Features.dense (es.map (g k))) i) -
      value (Features.dense (es.map (f k))) i) ≤ √es.length * δ := fun k => by
    rw [← len_const _ _ hδ]
    refine len_mono fun i hi => ?_
    show |real (entry (es.map (g k)) i) - entry (es.map (f k)) i| ≤ δ
    have e1 : entry (es.map (g k)) i = g k es[i] := by simp [entry, hi]
    have e2 : entry (es.map (f k)) i = f k es[i] := by simp [entry, hi]
    rw [e1, e2]
    exact h k _ (List.getElem_mem hi)
  refine (C168_sgd hM es.length fas gas xs xs' ys ps qs hs hg (fun k => .dense (es.map (g k)))
    (fun k => .dense (es.map (f k))) (fun k => ⟨hφ k, trivial, List.length_map _⟩)
    (fun k => ⟨hψ k, trivial, List.length_map _⟩) (fun _ => √es.length * δ) hnear hn hm hw hlr h0
    (fun k => (mul_le_mul_of_nonneg_left (hnorm k) h0).trans h2) T hT).trans ?_
  refine Finset.sum_le_sum fun t _ => add_le_add_right ?_ _
  unfold featureError
  refine mul_le_mul_of_nonneg_right (mul_le_mul_of_nonneg_left (add_le_add_right ?_ _) h0)
    (mul_nonneg (Real.sqrt_nonneg _) hδ)
  refine mul_le_mul_of_nonneg_right ((Real.sqrt_le_sqrt (hnorm t)).trans (le_of_eq ?_)) (len_nonneg _ _)
  rw [Real.sqrt_mul (Nat.cast_nonneg _), Real.sqrt_sq ht]

/-- The distance between the exact values of two points is what the model computes over ℝ. -/
theorem sliceDistance_map (ls x y : List (FP M)) :
    sliceDistance (ls.map real) (x.map real) (y.map real) = exactDistance ls x y := by
  rw [sliceDistance_real, exactDistance]
  congr 2
  induction ls generalizing x y with
  | nil => simp
  | cons l ls ih =>
    cases x with
    | nil => simp
    | cons u x =>
      cases y with
      | nil => simp
      | cons v y =>
        simp only [List.map_cons, List.zipWith_cons_cons, List.zip_cons_cons]
        rw [ih x y]

/-- The largest value of a stationary kernel of variance 1 does not exceed this. -/
noncomputable def Spec.peak : StationaryKind → ℝ
  | .matern52 => 10 / 9
  | _ => 1

theorem peak_nonneg (kind : StationaryKind) : 0 ≤ peak kind := by cases kind <;> norm_num [peak]

theorem abs_profile_le (kind : StationaryKind) {r : ℝ} (hr : 0 ≤ r) : |profile kind r| ≤ peak kind := by
  by_cases h1 : kind = .cosine
  · subst h1; exact Real.abs_cos_le_one _
  rw [abs_of_pos (profile_pos h1 hr)]
  by_cases h2 : kind = .matern52
  · subst h2; exact profile_matern52_le hr
  have h3 := profile_antitone h1 h2 (le_refl 0) hr
  rw [profile_zero] at h3
  refine h3.trans (le_of_eq ?_)
  cases kind <;> first | rfl | exact absurd rfl h2

/-- The decaying stationary kernels in `f64`, with one bound for the four. -/
theorem stationary_err (hM : M.rnd = binary64Format.rnd) {ε : ℝ} (hε : ExpWithin M ε) (hε1 : ε ≤ 1 / 100) {kind : StationaryKind}
    (hk : kind ≠ .cosine) (k : Stationary kind (FP M)) {V : ℝ} (hv : Is k.variance V) (hV : |V| ≤ 2 ^ 400)
    (x y : List (FP M)) (h : Comparable k.lengthscales x y) (hr : exactDistance k.lengthscales x y ≤ 2 ^ 200) :
    ∃ z, Is (SliceKernel.kernel k x y) z ∧
      |z - V * profile kind (exactDistance k.lengthscales x y)| ≤
        |V| * (6 / 5 * ε + (5 * k.lengthscales.length + 40) * roundoff) + 3 * tiny := by
  have hu := roundoff_pos
  have ht := tiny_pos
  have ε0 : 0 ≤ ε := by
    have := (abs_nonneg _).trans (hε 0 (le_refl _))
    rwa [Real.exp_zero, mul_one] at this
  have a1 : 0 ≤ |V| * ε := mul_nonneg (abs_nonneg V) ε0
  have a2 : 0 ≤ |V| * roundoff := mul_nonneg (abs_nonneg V) hu.le
  have a3 : 0 ≤ |V| * (k.lengthscales.length * roundoff) :=
    mul_nonneg (abs_nonneg V) (mul_nonneg (Nat.cast_nonneg _) hu.le)
  rcases kind
  · obtain ⟨z, hz, he⟩ := C169_exponential hM hε hε1 k ⟨V, hv⟩ x y h
    rw [is_real hv] at he
    exact ⟨z, hz, he.trans (by linarith only [a1, a2, a3, ht])⟩
  · obtain ⟨z, hz, he⟩ := C169_matern32 hM hε hε1 k hv hV x y h hr
    exact ⟨z, hz, he.trans (by linarith only [a1, a2, a3, ht])⟩
  · obtain ⟨z, hz, he⟩ := C169_matern52 hM hε hε1 k hv hV x y h hr
    exact ⟨z, hz, he.trans (by linarith only [a1, a2, a3, ht])⟩
  · obtain ⟨z, hz, he⟩ := C169_expQuad hM hε hε1 k ⟨V, hv⟩ x y h
    rw [is_real hv] at he
    exact ⟨z, hz, he.trans (by linarith only [a1, a2, a3, ht])⟩
  · exact absurd rfl hk

theorem project_homogeneous {κ K : Type} [SliceKernel κ K] (cs : List (List K)) (k : κ) (x : List K) :
    Basis.project (KernelBasis.homogeneous cs k) x = .ok (.ok (.dense (cs.map fun c => SliceKernel.kernel k x c))) := by
  show Except.ok (Except.ok (Features.dense (List.map _ (List.map _ cs)))) = _
  rw [List.map_map]
  rfl

theorem project_homogeneous_map {κ : Type} [SliceKernel κ ℝ] (cs : List (List (FP M))) (k : κ) (x : List (FP M)) :
    Basis.project (KernelBasis.homogeneous (cs.map fun c => c.map real) k) (x.map real) =
      .ok (.ok (.dense (cs.map fun c => SliceKernel.kernel k (x.map real) (c.map real)))) := by
  rw [project_homogeneous, List.map_map]
  rfl

/-- The centroids shared by two runs, the bases of which hold the kernels `k` and `k'`. -/
structure Spec.Paired {κ κ' : Type} [SliceKernel κ (FP M)] [SliceKernel κ' ℝ] (cs : List (List (FP M))) (k : κ) (k' : κ')
    (fas : Nat → ScalarLFA (KernelBasis κ (FP M)) (SGD (FP M)) (FP M))
    (gas : Nat → ScalarLFA (KernelBasis κ' ℝ) (SGD ℝ) ℝ) (xs : Nat → List (FP M)) (ys ps : Nat → FP M) (qs : Nat → ℝ) :
    Prop where
  rounded : (fas 0).basis = KernelBasis.homogeneous cs k
  exact : (gas 0).basis = KernelBasis.homogeneous (cs.map fun c => c.map real) k'
  stream : Stream fas xs ys ps
  exactStream : Stream gas (fun t => (xs t).map real) (fun t => real (ys t)) qs
  count : (fas 0).weights.length = cs.length
  exactCount : (gas 0).weights.length = cs.length
  start : ∀ i < cs.length, entry (gas 0).weights i = real (entry (fas 0).weights i)
  rate : (gas 0).optimiser.lr = real (fas 0).optimiser.lr
  rateNonneg : 0 ≤ (gas 0).optimiser.lr

/-- The stationary kernels other than `Cosine`. -/
theorem C170_stationary (hM : M.rnd = binary64Format.rnd) {ε : ℝ} (hε : ExpWithin M ε) (hε1 : ε ≤ 1 / 100)
    {kind : StationaryKind} (hk : kind ≠ .cosine) (v : FP M) (ls : List (FP M)) {V : ℝ} (hv : Is v V) (hV : |V| ≤ 2 ^ 400)
    (cs : List (List (FP M))) (xs : Nat → List (FP M))
    (hx : ∀ t, ∀ c ∈ cs, Comparable ls (xs t) c ∧ exactDistance ls (xs t) c ≤ 2 ^ 200)
    (fas : Nat → ScalarLFA (KernelBasis (Stationary kind (FP M)) (FP M)) (SGD (FP M)) (FP M))
    (gas : Nat → ScalarLFA (KernelBasis (Stationary kind ℝ) ℝ) (SGD ℝ) ℝ) (ys ps : Nat → FP M) (qs : Nat → ℝ)
    (h : Paired cs (⟨v, ls⟩ : Stationary kind (FP M)) (⟨V, ls.map real⟩ : Stationary kind ℝ) fas gas xs ys ps qs)
    (n : Nat) (hn : n = cs.length) (h2 : (gas 0).optimiser.lr * (n * (|V| * peak kind) ^ 2) ≤ 2) :
    ∃ φ : Nat → Features (FP M),
      (∀ t, Basis.project (fas 0).basis (xs t) = .ok (.ok (φ t))) ∧
      ∀ T, (∀ i < n, Finite (entry (fas T).weights i)) →
        len n (fun i => real (entry (fas T).weights i) - entry (gas T).weights i) ≤
          ∑ t ∈ Finset.range T, (callError n (fas 0).optimiser.lr (φ t) (fas t).weights (ys t) (ps t) +
            (gas 0).optimiser.lr * (|real (ys t) - exactDot (φ t) (fas t).weights| +
              √n * (|V| * peak kind) * len n fun i => real (entry (fas t).weights i)) *
                (√n * (|V| * (6 / 5 * ε + (5 * ls.length + 40) * roundoff) + 3 * tiny))) := by
  subst hn
  have hu := roundoff_pos
  have ht := tiny_pos
  have ε0 : 0 ≤ ε := by
    have := (abs_nonneg _).trans (hε 0 (le_refl _))
    rwa [Real.exp_zero, mul_one] at this
  have hφ : ∀ t, Basis.project (fas 0).basis (xs t) =
      .ok (.ok (.dense (cs.map fun c => SliceKernel.kernel (⟨v, ls⟩ : Stationary kind (FP M)) (xs t) c))) := fun t => by
    rw [h.rounded, project_homogeneous]
  have hδ : 0 ≤ |V| * (6 / 5 * ε + (5 * ls.length + 40) * roundoff) + 3 * tiny :=
    add_nonneg (by positivity) (mul_nonneg (by norm_num) ht.le)
  refine ⟨_, hφ, fun T hT => ?_⟩
  refine list_run hM cs fas gas xs _ ys ps qs h.stream h.exactStream
    (fun t c => SliceKernel.kernel (⟨v, ls⟩ : Stationary kind (FP M)) (xs t) c)
    (fun t c => V * profile kind (exactDistance ls (xs t) c)) hδ
    (mul_nonneg (abs_nonneg V) (peak_nonneg kind)) hφ (fun t => ?_) (fun t c hc => ?_) (fun t c _ => ?_) h.count
    h.exactCount h.start h.rate h.rateNonneg h2 T hT
  · rw [h.exact, project_homogeneous_map]
    congr 4
    funext c
    show Stationary.kernelStationary _ (sliceDistance (ls.map real) ((xs t).map real) (c.map real)) = _
    rw [kernelStationary_real, sliceDistance_map]
  · obtain ⟨z, hz, he⟩ := stationary_err hM hε hε1 hk ⟨v, ls⟩ hv hV (xs t) c (hx t c hc).1 (hx t c hc).2
    rw [is_real hz]
    exact he
  · rw [abs_mul]
    exact mul_le_mul_of_nonneg_left (abs_profile_le kind (exactDistance_nonneg _ _ _)) (abs_nonneg V)

/-- `Cosine`, for inputs within a distance `D` of the centroids. -/
theorem C170_cosine (hM : M.rnd = binary64Format.rnd) {ε : ℝ} (hε : ∀ r, |M.cos r - Real.cos r| ≤ ε)
    (v : FP M) (ls : List (FP M)) {V D : ℝ} (hv : Is v V) (hD : 0 ≤ D) (cs : List (List (FP M))) (xs : Nat → List (FP M))
    (hx : ∀ t, ∀ c ∈ cs, Comparable ls (xs t) c ∧ exactDistance ls (xs t) c ≤ D)
    (fas : Nat → ScalarLFA (KernelBasis (Stationary .cosine (FP M)) (FP M)) (SGD (FP M)) (FP M))
    (gas : Nat → ScalarLFA (KernelBasis (Stationary .cosine ℝ) ℝ) (SGD ℝ) ℝ) (ys ps : Nat → FP M) (qs : Nat → ℝ)
    (h : Paired cs (⟨v, ls⟩ : Stationary .cosine (FP M)) (⟨V, ls.map real⟩ : Stationary .cosine ℝ) fas gas xs ys ps qs)
    (n : Nat) (hn : n = cs.length) (h2 : (gas 0).optimiser.lr * (n * |V| ^ 2) ≤ 2) :
    ∃ φ : Nat → Features (FP M),
      (∀ t, Basis.project (fas 0).basis (xs t) = .ok (.ok (φ t))) ∧
      ∀ T, (∀ i < n, Finite (entry (fas T).weights i)) →
        len n (fun i => real (entry (fas T).weights i) - entry (gas T).weights i) ≤
          ∑ t ∈ Finset.range T, (callError n (fas 0).optimiser.lr (φ t) (fas t).weights (ys t) (ps t) +
            (gas 0).optimiser.lr * (|real (ys t) - exactDot (φ t) (fas t).weights| +
              √n * |V| * len n fun i => real (entry (fas t).weights i)) *
                (√n * (|V| * (ε + ((2 * ls.length + 6) * D + 3) * roundoff) + tiny))) := by
  subst hn
  have hu := roundoff_pos
  have ht := tiny_pos
  have ε0 : 0 ≤ ε := (abs_nonneg _).trans (hε 0)
  have hφ : ∀ t, Basis.project (fas 0).basis (xs t) =
      .ok (.ok (.dense (cs.map fun c => SliceKernel.kernel (⟨v, ls⟩ : Stationary .cosine (FP M)) (xs t) c))) := fun t => by
    rw [h.rounded, project_homogeneous]
  have hδ : 0 ≤ |V| * (ε + ((2 * ls.length + 6) * D + 3) * roundoff) + tiny := add_nonneg (by positivity) ht.le
  refine ⟨_, hφ, fun T hT => ?_⟩
  refine list_run hM cs fas gas xs _ ys ps qs h.stream h.exactStream
    (fun t c => SliceKernel.kernel (⟨v, ls⟩ : Stationary .cosine (FP M)) (xs t) c)
    (fun t c => V * profile .cosine (exactDistance ls (xs t) c)) hδ
    (abs_nonneg V) hφ (fun t => ?_) (fun t c hc => ?_) (fun t c _ => ?_) h.count
    h.exactCount h.start h.rate h.rateNonneg h2 T hT
  · rw [h.exact, project_homogeneous_map]
    congr 4
    funext c
    show Stationary.kernelStationary _ (sliceDistance (ls.map real) ((xs t).map real) (c.map real)) = _
    rw [kernelStationary_real, sliceDistance_map]
  · obtain ⟨z, hz, he⟩ := C169_cosine hM hε (⟨v, ls⟩ : Stationary .cosine (FP M)) ⟨V, hv⟩ (xs t) c (hx t c hc).1
    have e : real (⟨v, ls⟩ : Stationary .cosine (FP M)).variance = V := is_real hv
    rw [e] at he
    rw [is_real hz]
    refine he.trans (add_le_add (mul_le_mul_of_nonneg_left ?_ (abs_nonneg V)) (le_refl _))
    have h5 := (hx t c hc).2
    show ε + ((2 * (ls.length : ℝ) + 6) * exactDistance ls (xs t) c + 3) * roundoff ≤ _
    gcongr
  · rw [abs_mul]
    exact mul_le_of_le_one_right (abs_nonneg V) (Real.abs_cos_le_one _)

/-- `RationalQuadratic`, whatever the power. -/
theorem C170_rational (hM : M.rnd = binary64Format.rnd) {ε ε' : ℝ} (hε : ExpWithin M ε) (hε1 : ε ≤ 1 / 100)
    (hε' : Ln1pWithin M ε') (hε1' : ε' ≤ 1 / 1000) (v a : FP M) (ls : List (FP M)) {V p : ℝ} (hv : Is v V) (hp : Is a p)
    (p0 : 0 ≤ p) (p1 : p ≤ 2 ^ 400) (cs : List (List (FP M))) (xs : Nat → List (FP M))
    (hx : ∀ t, ∀ c ∈ cs, Comparable ls (xs t) c)
    (fas : Nat → ScalarLFA (KernelBasis (RationalQuadratic (FP M)) (FP M)) (SGD (FP M)) (FP M))
    (gas : Nat → ScalarLFA (KernelBasis (RationalQuadratic ℝ) ℝ) (SGD ℝ) ℝ) (ys ps : Nat → FP M) (qs : Nat → ℝ)
    (k : RationalQuadratic (FP M)) (k' : RationalQuadratic ℝ)
    (hk : k.variance = v ∧ k.lengthscales = ls ∧ k.power = a)
    (hk' : k'.variance = V ∧ k'.lengthscales = ls.map real ∧ k'.power = p)
    (h : Paired cs k k' fas gas xs ys ps qs)
    (n : Nat) (hn : n = cs.length) (h2 : (gas 0).optimiser.lr * (n * |V| ^ 2) ≤ 2) :
    ∃ φ : Nat → Features (FP M),
      (∀ t, Basis.project (fas 0).basis (xs t) = .ok (.ok (φ t))) ∧
      ∀ T, (∀ i < n, Finite (entry (fas T).weights i)) →
        len n (fun i => real (entry (fas T).weights i) - entry (gas T).weights i) ≤
          ∑ t ∈ Finset.range T, (callError n (fas 0).optimiser.lr (φ t) (fas t).weights (ys t) (ps t) +
            (gas 0).optimiser.lr * (|real (ys t) - exactDot (φ t) (fas t).weights| +
              √n * |V| * len n fun i => real (entry (fas t).weights i)) *
                (√n * (|V| * (ε + ε' + (3 * ls.length + 15) * roundoff) + tiny))) := by
  subst hn
  obtain ⟨hk1, hk2, hk3⟩ := hk
  obtain ⟨hk1', hk2', hk3'⟩ := hk'
  have hu := roundoff_pos
  have ht := tiny_pos
  have hφ : ∀ t, Basis.project (fas 0).basis (xs t) =
      .ok (.ok (.dense (cs.map fun c => SliceKernel.kernel k (xs t) c))) := fun t => by
    rw [h.rounded, project_homogeneous]
  have herr : ∀ t, ∀ c ∈ cs, |real (SliceKernel.kernel k (xs t) c) - V * rationalProfile p (exactDistance ls (xs t) c)| ≤
      |V| * (ε + ε' + (3 * ls.length + 15) * roundoff) + tiny := fun t c hc => by
    obtain ⟨z, hz, he⟩ := C169_rational hM hε hε1 hε' hε1' k ⟨V, hk1 ▸ hv⟩ (hk3 ▸ hp) p0 p1 (xs t) c
      (hk2 ▸ hx t c hc)
    rw [hk1, hk2, is_real hv] at he
    rw [is_real hz]
    exact he
  have ε0 : 0 ≤ ε := by
    have := (abs_nonneg _).trans (hε 0 (le_refl _))
    rwa [Real.exp_zero, mul_one] at this
  have ε0' : 0 ≤ ε' := by
    have := (abs_nonneg _).trans (hε' 1 (by norm_num))
    have h3 : 0 < Real.log (1 + 1) := Real.log_pos (by norm_num)
    by_contra hc
    have := mul_neg_of_neg_of_pos (not_le.1 hc) h3
    linarith
  have hδ : 0 ≤ |V| * (ε + ε' + (3 * ls.length + 15) * roundoff) + tiny := add_nonneg (by positivity) ht.le
  refine ⟨_, hφ, fun T hT => ?_⟩
  refine list_run hM cs fas gas xs _ ys ps qs h.stream h.exactStream
    (fun t c => SliceKernel.kernel k (xs t) c)
    (fun t c => V * rationalProfile p (exactDistance ls (xs t) c)) hδ
    (abs_nonneg V) hφ (fun t => ?_) herr (fun t c _ => ?_) h.count
    h.exactCount h.start h.rate h.rateNonneg h2 T hT
  · rw [h.exact, project_homogeneous_map]
    congr 4
    funext c
    show RationalQuadratic.kernelStationary _ (sliceDistance k'.lengthscales ((xs t).map real) (c.map real)) = _
    rw [kernelRational_real, hk2', sliceDistance_map, hk1', hk3']
  · rw [abs_mul]
    refine mul_le_of_le_one_right (abs_nonneg V) ?_
    rw [abs_of_pos (rationalProfile_pos _ _)]
    have := rationalProfile_antitone p0 (le_refl 0) (exactDistance_nonneg ls (xs t) c)
    rwa [rationalProfile_zero] at this

/-! ## A run that meets the hypotheses -/

/-- Runs of SGD exist, over any numbers. -/
theorem sgd_stream_exists {B I K : Type} [Scalar K] [Space B] [Basis B I K] (b : B) {n : Nat} (xs : Nat → I) (ys : Nat → K)
    (hx : ∀ k, ∃ φ, Basis.project b (xs k) = .ok (.ok φ) ∧ Fits n φ) (w : List K) (hw : w.length = n) (o : SGD K) :
    ∃ (fas : Nat → ScalarLFA B (SGD K) K) (ps : Nat → K), Stream fas xs ys ps ∧ fas 0 = LFA.mk b w o := by
  let Good : ScalarLFA B (SGD K) K → Prop := fun fa => fa.basis = b ∧ fa.weights.length = n
  have step : ∀ (k : Nat) (fa : {fa : ScalarLFA B (SGD K) K // Good fa}), ∃ fa' : {fa : ScalarLFA B (SGD K) K // Good fa},
      fa.1.updateWith (xs k) (fun _ v => ys k -. v) = .ok (.ok (), fa'.1) ∧
      ∃ p, fa.1.evaluate (xs k) = .ok (.ok p) := by
    rintro k ⟨fa, rfl, h2⟩
    obtain ⟨φ, hp, hf⟩ := hx k
    obtain ⟨v, hd⟩ := dot_safe hf h2
    obtain ⟨w', e1, e2, -⟩ := sgd_scaled hf fa.optimiser (ys k -. v) h2
    exact ⟨⟨⟨fa.basis, w', fa.optimiser⟩, rfl, e2⟩, updateWith_eq hp hd (fun _ v => ys k -. v) e1, _, evaluate_eq hp hd⟩
  choose next hn hp using step
  let run : Nat → {fa : ScalarLFA B (SGD K) K // Good fa} := fun k =>
    Nat.rec ⟨⟨b, w, o⟩, rfl, hw⟩ (fun k fa => next k fa) k
  choose p hp using hp
  exact ⟨fun k => (run k).1, fun k => p k (run k), ⟨fun k => hp k (run k), fun k => hn k (run k)⟩, rfl⟩

/-- One centroid, at 0, and inputs that alternate between 0 and 1. -/
example : ∃ (fas : Nat → ScalarLFA (KernelBasis (Stationary .matern52 (FP binary64)) (FP binary64)) (SGD (FP binary64)) (FP binary64))
    (gas : Nat → ScalarLFA (KernelBasis (Stationary .matern52 ℝ) ℝ) (SGD ℝ) ℝ) (ps : Nat → FP binary64) (qs : Nat → ℝ),
    binary64.rnd = binary64Format.rnd ∧ ExpWithin binary64 0 ∧
    Paired [[Scalar.zero]] (⟨Scalar.one, [Scalar.one]⟩ : Stationary .matern52 (FP binary64))
      (⟨1, ([Scalar.one] : List (FP binary64)).map real⟩ : Stationary .matern52 ℝ) fas gas
      (fun t => [if t % 2 = 0 then Scalar.zero else Scalar.one]) (fun _ => Scalar.one) ps qs ∧
    (∀ t : Nat, ∀ c ∈ ([[Scalar.zero]] : List (List (FP binary64))),
      Comparable [Scalar.one] [if t % 2 = 0 then Scalar.zero else Scalar.one] c ∧
      exactDistance [Scalar.one] [if t % 2 = 0 then Scalar.zero else Scalar.one] c ≤ 2 ^ 200) ∧
    (gas 0).optimiser.lr * ((1 : ℕ) * (|1| * peak .matern52) ^ 2) ≤ 2 := by
  have hd : ∀ t : Nat, exactDistance (M := binary64) [Scalar.one] [if t % 2 = 0 then Scalar.zero else Scalar.one] [Scalar.zero] ≤ 1 := by
    intro t
    unfold exactDistance
    simp only [List.zip_cons_cons, List.zip_nil_right, List.map_cons, List.map_nil, List.sum_cons, List.sum_nil]
    split
    · rw [is_real (val_zero (M := binary64))]; norm_num
    · rw [is_real (val_zero (M := binary64)), is_real (val_one (M := binary64))]; norm_num
  have hpf : ∀ x : List (FP binary64), Basis.project (KernelBasis.homogeneous [[Scalar.zero]]
      (⟨Scalar.one, [Scalar.one]⟩ : Stationary .matern52 (FP binary64))) x =
      .ok (.ok (.dense [SliceKernel.kernel (⟨Scalar.one, [Scalar.one]⟩ : Stationary .matern52 (FP binary64)) x [Scalar.zero]])) :=
    fun x => project_homogeneous _ _ _
  obtain ⟨fas, ps, hs, hf0⟩ := sgd_stream_exists (KernelBasis.homogeneous [[Scalar.zero]]
    (⟨Scalar.one, [Scalar.one]⟩ : Stationary .matern52 (FP binary64))) (n := 1)
    (fun t => [if t % 2 = 0 then Scalar.zero else Scalar.one]) (fun _ => Scalar.one)
    (fun t => ⟨_, hpf _, ⟨trivial, rfl⟩⟩) [Scalar.zero] rfl ⟨Scalar.one⟩
  obtain ⟨gas, qs, hg, hg0⟩ := sgd_stream_exists (KernelBasis.homogeneous
    (([[Scalar.zero]] : List (List (FP binary64))).map fun c => c.map real)
    (⟨1, ([Scalar.one] : List (FP binary64)).map real⟩ : Stationary .matern52 ℝ)) (n := 1)
    (fun t => ([if t % 2 = 0 then Scalar.zero else Scalar.one] : List (FP binary64)).map real)
    (fun _ => real (Scalar.one : FP binary64))
    (fun t => ⟨_, project_homogeneous _ _ _, ⟨trivial, rfl⟩⟩) [0] rfl ⟨1⟩
  refine ⟨fas, gas, ps, qs, rfl, fun r _ => ?_, ⟨by rw [hf0], by rw [hg0], hs, hg, by rw [hf0]; rfl, by rw [hg0]; rfl, ?_, ?_, ?_⟩,
    fun t c hc => ?_, ?_⟩
  · show |Real.exp r - Real.exp r| ≤ _
    rw [sub_self, abs_zero, zero_mul]
  · intro i hi
    obtain rfl : i = 0 := by simpa using hi
    rw [hf0, hg0]
    exact (is_real (val_zero (M := binary64))).symm
  · rw [hf0, hg0]
    exact (is_real (val_one (M := binary64))).symm
  · rw [hg0]; exact zero_le_one
  · rw [List.mem_singleton.1 hc]
    refine ⟨⟨by norm_num, fun l hl => ⟨1, ?_, one_ne_zero⟩, fun q hq => ?_, (hd t).trans (one_le_pow₀ (by norm_num))⟩,
      (hd t).trans (one_le_pow₀ (by norm_num))⟩
    · rw [List.mem_singleton.1 hl]; exact val_one
    · rw [List.mem_singleton.1 hq]
      unfold Spec.Finite Is
      rw [val_sub]
      dsimp only
      split
      · refine ⟨0, ?_⟩
        rw [val_zero]
        show binary64.rnd (0 + -0) = _
        rw [neg_zero, add_zero]; exact rnd_zero
      · refine ⟨1, ?_⟩
        rw [val_zero, val_one]
        show binary64.rnd (1 + -0) = _
        rw [neg_zero, add_zero, binary64.rnd_one]
  · rw [hg0]
    norm_num [peak]

end Lfa

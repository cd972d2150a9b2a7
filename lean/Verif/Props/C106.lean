import Verif.Props.C36_C39

/-!
# C106: closed forms of the kernels and of kernel features

What the constructors (`new`, `non_ard`, `Default`) build, as functions of the points; the features of a
kernel basis; invariance under translation and rescaling; agreement of the kernels on numbers with those on
slices.
-/

set_option linter.unusedSectionVars false

namespace Lfa

open Spec

variable {kind : StationaryKind}

/-- `non_ard` on numbers. -/
theorem C106_non_ard (v l p x y : ℝ) :
    ScalarKernel.kernel (Stationary.nonArd v l : Stationary kind ℝ) x y
      = .ok (v * profile kind (|x - y| / l)) ∧
    ScalarKernel.kernel (RationalQuadratic.nonArd p v l) x y
      = .ok (v * (1 + (x - y) ^ 2 / (2 * l ^ 2)) ^ (-p)) := by
  constructor
  · show Except.ok _ = Except.ok _
    rw [kernelStationary_real]
    rfl
  · show Except.ok _ = Except.ok _
    rw [kernelRational_real]
    show Except.ok (v * (1 + (|x - y| / l) ^ 2 / 2) ^ (-p)) = _
    rw [div_pow, sq_abs, div_div, mul_comm (l ^ 2)]

/-- `Default`: unit variance and lengthscale; the rational quadratic has power 1 and lengthscale 2. -/
theorem C106_default (x y : ℝ) :
    ScalarKernel.kernel (Stationary.default : Stationary kind ℝ) x y
      = .ok (profile kind |x - y|) ∧
    ScalarKernel.kernel (RationalQuadratic.default : RationalQuadratic ℝ) x y
      = .ok (8 / (8 + (x - y) ^ 2)) := by
  obtain ⟨h1, -⟩ := C106_non_ard (kind := kind) 1 1 1 x y
  obtain ⟨-, h2⟩ := C106_non_ard (kind := kind) 1 2 1 x y
  constructor
  · rw [one_mul, div_one] at h1
    unfold Stationary.default
    rw [real_one]
    exact h1
  · have e : (RationalQuadratic.default : RationalQuadratic ℝ) = RationalQuadratic.nonArd 1 1 2 := by
      unfold RationalQuadratic.default
      rw [real_one, real_ofNat, Nat.cast_ofNat]
    rw [e, h2, one_mul, Real.rpow_neg_one]
    congr 1
    have : (8 + (x - y) ^ 2 : ℝ) ≠ 0 := by positivity
    field_simp
    ring

/-- On slices of length one the kernels agree with those on numbers, for positive lengthscales. -/
theorem C106_slice_scalar (v l p x y : ℝ) (hl : 0 < l) :
    ScalarKernel.kernel (⟨v, [l]⟩ : Stationary kind ℝ) x y
      = .ok (SliceKernel.kernel (⟨v, [l]⟩ : Stationary kind ℝ) [x] [y]) ∧
    ScalarKernel.kernel (⟨v, [l], p⟩ : RationalQuadratic ℝ) x y
      = .ok (SliceKernel.kernel (⟨v, [l], p⟩ : RationalQuadratic ℝ) [x] [y]) := by
  rw [slice_stationary, slice_rational, sliceDistance_singleton, abs_div, abs_of_pos hl]
  constructor
  · show Except.ok _ = Except.ok _
    rw [kernelStationary_real]
    rfl
  · show Except.ok _ = Except.ok _
    rw [kernelRational_real]
    rfl

/-- For a negative lengthscale they do not: on numbers the exponential kernel grows with the distance. -/
theorem C106_negative_lengthscale :
    ScalarKernel.kernel (⟨1, [-1]⟩ : Stationary .exponential ℝ) 1 0 = .ok (Real.exp 1) ∧
    SliceKernel.kernel (⟨1, [-1]⟩ : Stationary .exponential ℝ) [1] [0] = Real.exp (-1) := by
  constructor
  · show Except.ok _ = Except.ok _
    rw [kernelStationary_real]
    show Except.ok ((1 : ℝ) * Real.exp (-(|1 - 0| / -1))) = _
    norm_num
  · rw [slice_stationary, sliceDistance_singleton]
    simp [profile]

/-- Without a lengthscale the kernels on numbers panic. -/
theorem C106_no_lengthscale {K : Type} [Scalar K] (v p x y : K) :
    Panics (ScalarKernel.kernel (⟨v, []⟩ : Stationary kind K) x y) ∧
    Panics (ScalarKernel.kernel (⟨v, [], p⟩ : RationalQuadratic K) x y) :=
  ⟨⟨_, rfl⟩, ⟨_, rfl⟩⟩

/-- Translating both points changes nothing; rescaling both points and the lengthscales changes
nothing. -/
theorem C106_invariant {d : Nat} (v p : ℝ) (l x y t s : Fin d → ℝ) (hs : ∀ i, s i ≠ 0) :
    let k : Stationary kind ℝ := ⟨v, List.ofFn l⟩
    let q : RationalQuadratic ℝ := ⟨v, List.ofFn l, p⟩
    SliceKernel.kernel k (List.ofFn (x + t)) (List.ofFn (y + t))
      = SliceKernel.kernel k (List.ofFn x) (List.ofFn y) ∧
    SliceKernel.kernel q (List.ofFn (x + t)) (List.ofFn (y + t))
      = SliceKernel.kernel q (List.ofFn x) (List.ofFn y) ∧
    SliceKernel.kernel (⟨v, List.ofFn (s * l)⟩ : Stationary kind ℝ) (List.ofFn (s * x)) (List.ofFn (s * y))
      = SliceKernel.kernel k (List.ofFn x) (List.ofFn y) ∧
    SliceKernel.kernel (⟨v, List.ofFn (s * l), p⟩ : RationalQuadratic ℝ) (List.ofFn (s * x))
        (List.ofFn (s * y))
      = SliceKernel.kernel q (List.ofFn x) (List.ofFn y) := by
  have h1 : scaledDist l (x + t) (y + t) = scaledDist l x y := by simp [scaledDist]
  have h2 : scaledDist (s * l) (s * x) (s * y) = scaledDist l x y := by
    unfold scaledDist
    congr 1
    refine Finset.sum_congr rfl fun i _ => ?_
    rw [Pi.mul_apply, Pi.mul_apply, Pi.mul_apply, ← mul_sub, mul_div_mul_left _ _ (hs i)]
  simp only [slice_stationary, slice_rational, sliceDistance_ofFn, h1, h2, and_self]

/-- The features of a kernel basis are the kernel's values between the input and the centroids, in
order; `ith` gives each of them. -/
theorem C106_features {d m : Nat} (v p : ℝ) (l x : Fin d → ℝ) (c : Fin m → Fin d → ℝ) :
    let cs := List.ofFn fun j => List.ofFn (c j)
    let b := KernelBasis.homogeneous cs (⟨v, List.ofFn l⟩ : Stationary kind ℝ)
    let r := KernelBasis.homogeneous cs (⟨v, List.ofFn l, p⟩ : RationalQuadratic ℝ)
    Basis.project b (List.ofFn x)
      = .ok (.ok (.dense (List.ofFn fun j => v * profile kind (scaledDist l x (c j))))) ∧
    Basis.project r (List.ofFn x)
      = .ok (.ok (.dense (List.ofFn fun j => v * rationalProfile p (scaledDist l x (c j))))) ∧
    (∀ j : Fin m, EnumerableBasis.ith b (List.ofFn x) j
      = .ok (.ok (v * profile kind (scaledDist l x (c j))))) ∧
    (∀ j : Fin m, EnumerableBasis.ith r (List.ofFn x) j
      = .ok (.ok (v * rationalProfile p (scaledDist l x (c j))))) ∧
    Space.dim b = .finite m ∧ Space.dim r = .finite m := by
  intro cs b r
  have hb : ∀ j, (⟨List.ofFn (c j), ⟨v, List.ofFn l⟩⟩ : Prototype (Stationary kind ℝ) ℝ).distanceFrom
      (List.ofFn x) = v * profile kind (scaledDist l x (c j)) := by
    intro j
    show SliceKernel.kernel _ _ _ = _
    rw [slice_stationary, sliceDistance_ofFn]
  have hr : ∀ j, (⟨List.ofFn (c j), ⟨v, List.ofFn l, p⟩⟩ : Prototype (RationalQuadratic ℝ) ℝ).distanceFrom
      (List.ofFn x) = v * rationalProfile p (scaledDist l x (c j)) := by
    intro j
    show SliceKernel.kernel _ _ _ = _
    rw [slice_rational, sliceDistance_ofFn]
  refine ⟨?_, ?_, fun j => ?_, fun j => ?_, ?_, ?_⟩
  · show Except.ok (Except.ok (Features.dense (List.map _ (List.map _ (List.ofFn _))))) = _
    rw [List.map_ofFn, List.map_ofFn]
    congr 4
    funext j
    exact hb j
  · show Except.ok (Except.ok (Features.dense (List.map _ (List.map _ (List.ofFn _))))) = _
    rw [List.map_ofFn, List.map_ofFn]
    congr 4
    funext j
    exact hr j
  · have e : b.prototypes[j.1]? = some ⟨List.ofFn (c j), ⟨v, List.ofFn l⟩⟩ := by
      show (List.map _ (List.ofFn _))[j.1]? = _
      simp
    simp only [EnumerableBasis.ith, e]
    exact congrArg (fun z => Except.ok (Except.ok z)) (hb j)
  · have e : r.prototypes[j.1]? = some ⟨List.ofFn (c j), ⟨v, List.ofFn l, p⟩⟩ := by
      show (List.map _ (List.ofFn _))[j.1]? = _
      simp
    simp only [EnumerableBasis.ith, e]
    exact congrArg (fun z => Except.ok (Except.ok z)) (hr j)
  · show Dim.finite (List.map _ (List.ofFn _)).length = _
    simp
  · show Dim.finite (List.map _ (List.ofFn _)).length = _
    simp

/-- Some numbers: with unit lengthscale the default squared exponential at distance 0 is 1, and the
default rational quadratic at distance 2 is 2/3. -/
example : ScalarKernel.kernel (RationalQuadratic.default : RationalQuadratic ℝ) 2 0 = .ok (2 / 3) := by
  rw [(C106_default (kind := .cosine) 2 0).2]
  norm_num

end Lfa

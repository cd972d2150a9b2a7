import Verif.Proofs.Signed
import Verif.Proofs.Binary64

/-!
# C165 — the sign of a zero never matters

`SFP M Z` is the rounded arithmetic with both zeros. Alike numbers are those that compare equal, or
are both NaN. Alike inputs, weights, optimisers and bases give alike results: no decision and no
number the crate computes depends on the sign of a zero, except a division by a width or a length
scale that is `-0.0`.
-/

set_option linter.unusedSectionVars false

namespace Lfa

open Spec

variable {M : Machine} {Z : ZeroChoice}

/-! ## Features -/

/-- The dot product of features with weights. -/
theorem C165_dot {φ φ' : Features (SFP M Z)} {w w' : List (SFP M Z)} (h : AlikeF φ φ')
    (hw : Alikes w w') : AlikeP Alike (φ.dot w) (φ'.dot w') := by
  rw [alikeP_iff (fun _ _ => alike_iff), ← SFP.hom.fdot, ← SFP.hom.fdot, alikeF_iff.1 h, alikes_iff.1 hw]

/-- The product with a matrix. -/
theorem C165_matmul {φ φ' : Features (SFP M Z)} {ws ws' : List (List (SFP M Z))} (h : AlikeF φ φ')
    (hw : List.Forall₂ Alikes ws ws') : AlikeP Alikes (φ.matmul ws) (φ'.matmul ws') := by
  rw [alikeP_iff (fun _ _ => alikes_iff), ← SFP.hom.matmul, ← SFP.hom.matmul, alikeF_iff.1 h,
    (forall₂_iff (fun _ _ => alikes_iff) _ _).1 hw]

/-- `scaled_addto`. -/
theorem C165_scaled_addto {φ φ' : Features (SFP M Z)} {a a' : SFP M Z} {w w' : List (SFP M Z)}
    (h : AlikeF φ φ') (ha : Alike a a') (hw : Alikes w w') :
    AlikeP Alikes (φ.scaledAddto a w) (φ'.scaledAddto a' w') := by
  rw [alikeP_iff (fun _ _ => alikes_iff), ← SFP.hom.scaledAddto, ← SFP.hom.scaledAddto, alikeF_iff.1 h,
    alike_iff.1 ha, alikes_iff.1 hw]

/-- The dense form. -/
theorem C165_to_dense {φ φ' : Features (SFP M Z)} (h : AlikeF φ φ') :
    AlikeP Alikes φ.toDense φ'.toDense := by
  rw [alikeP_iff (fun _ _ => alikes_iff), ← SFP.hom.toDense, ← SFP.hom.toDense, alikeF_iff.1 h]

/-- The number of active features: `-0.0` is not active. -/
theorem C165_n_active {φ φ' : Features (SFP M Z)} (h : AlikeF φ φ') : φ.nActive = φ'.nActive := by
  rw [← SFP.hom.nActive, ← SFP.hom.nActive φ', alikeF_iff.1 h]

/-- The sum. -/
theorem C165_sum {φ φ' : Features (SFP M Z)} (h : AlikeF φ φ') : Alike φ.sum φ'.sum := by
  rw [alike_iff, ← SFP.hom.fsum, ← SFP.hom.fsum, alikeF_iff.1 h]

/-! ## Bases -/

/-- Constant features. -/
theorem C165_bias {v v' : SFP M Z} (h : Alike v v') : AlikeB M Z (Bias.mk v) (Bias.mk v') := by
  refine alikeB_of (SFP.hom.bias _) ?_
  rw [alike_iff.1 h]
  exact SFP.hom.bias _

/-- Fixed features. -/
theorem C165_fixed {vs vs' : List (SFP M Z)} (h : Alikes vs vs') :
    AlikeB M Z (FixedDense.mk vs) (FixedDense.mk vs') := by
  refine alikeB_of (SFP.hom.fixedDense _) ?_
  have := SFP.hom.fixedDense (inp := List.map (SFP.val (M := M) (Z := Z))) (FixedDense.mk vs')
  have e := alikes_iff.1 h
  show Drops M Z _ (FixedDense.mk (vs.map SFP.val))
  rw [e]
  exact this

/-- Polynomials. -/
theorem C165_polynomial (p : Polynomial) : AlikeB M Z p p :=
  alikeB_of (SFP.hom.polynomial p) (SFP.hom.polynomial p)

theorem not_crossed {l : SFP M Z × SFP M Z} (h : ¬ Crossed l) : (l.2 -. l.1).neg0 = false := by
  classical
  by_contra hc
  refine h ?_
  have h1 : (l.2.neg0 && (!l.1.neg0 && decide ((Scalar.neg l.1.val).1 = .fin 0)) &&
    decide ((l.2.val -. l.1.val).1 = .fin 0)) = true := by
    rw [← Bool.not_eq_false]; exact hc
  simp only [Bool.and_eq_true, Bool.not_eq_true', decide_eq_true_eq] at h1
  obtain ⟨⟨h2, h3, h4⟩, -⟩ := h1
  refine ⟨⟨?_, h3⟩, h2⟩
  rw [Machine.val_neg] at h4
  revert h4
  cases l.1.val.1 with
  | fin r => intro h4; exact congrArg XReal.fin (neg_eq_zero.1 (XReal.fin.inj h4))
  | nan => intro h4; cases h4
  | pinf => intro h4; cases h4
  | ninf => intro h4; cases h4

theorem alikeL_iff {ls ls' : List (SFP M Z × SFP M Z)} :
    AlikeL ls ls' ↔ ls.map (Prod.map SFP.val SFP.val) = ls'.map (Prod.map SFP.val SFP.val) :=
  forall₂_iff (fun l l' => by
    rw [alike_iff, alike_iff]
    show _ ↔ (_, _) = (_, _)
    rw [Prod.mk.injEq]) ls ls'

/-- Fourier features, unless an interval is `(0.0, -0.0)`. -/
theorem C165_fourier (n : Nat) {ls ls' : List (SFP M Z × SFP M Z)} (h : AlikeL ls ls')
    (hl : ∀ l ∈ ls, ¬ Crossed l) (hl' : ∀ l ∈ ls', ¬ Crossed l) :
    AlikeB M Z (Fourier.new n ls) (Fourier.new n ls') := by
  have h1 := SFP.hom.fourier (Fourier.new n ls) fun l m => not_crossed (hl l m)
  have h2 := SFP.hom.fourier (Fourier.new n ls') fun l m => not_crossed (hl' l m)
  rw [SFP.hom.fourier_new] at h1 h2
  rw [← alikeL_iff.1 h] at h2
  exact alikeB_of h1 h2

/-- Chebyshev features, unless an interval is `(0.0, -0.0)`. -/
theorem C165_chebyshev (n : Nat) {ls ls' : List (SFP M Z × SFP M Z)} (h : AlikeL ls ls')
    (hl : ∀ l ∈ ls, ¬ Crossed l) (hl' : ∀ l ∈ ls', ¬ Crossed l) {c c' : Chebyshev (SFP M Z)}
    (hc : Chebyshev.new n ls = .ok c) (hc' : Chebyshev.new n ls' = .ok c') :
    AlikeB M Z c c' ∧ AlikeB M Z c.withZeroth c'.withZeroth := by
  obtain ⟨e, d, h1, h2⟩ := SFP.hom.chebyshev_new n ls hc
  obtain ⟨e', d', h1', h2'⟩ := SFP.hom.chebyshev_new n ls' hc'
  have hd : d' = d := by
    rw [← alikeL_iff.1 h, h1] at h1'
    cases h1'
    rfl
  subst hd
  have k : ∀ l ∈ c.limits, (l.2 -. l.1).neg0 = false := fun l m => not_crossed (hl l (e ▸ m))
  have k' : ∀ l ∈ c'.limits, (l.2 -. l.1).neg0 = false := fun l m => not_crossed (hl' l (e' ▸ m))
  exact ⟨alikeB_of (SFP.hom.chebyshev h2 k) (SFP.hom.chebyshev h2' k'),
    alikeB_of (SFP.hom.chebyshev (SFP.hom.chebyshev_withZeroth h2) k)
      (SFP.hom.chebyshev (SFP.hom.chebyshev_withZeroth h2') k')⟩

/-- `Chebyshev::new` panics for the one exactly when it panics for the other. -/
theorem C165_chebyshev_new (n : Nat) {ls ls' : List (SFP M Z × SFP M Z)} (h : AlikeL ls ls') :
    AlikeP (fun _ _ => True) (Chebyshev.new n ls) (Chebyshev.new n ls') := by
  have hlen : ls.length = ls'.length := h.length_eq
  unfold Chebyshev.new
  rw [hlen]
  split
  · exact rfl
  · cases Chebyshev.makePolynomials (K := SFP M Z) n ls'.length with
    | error e => exact rfl
    | ok ps => exact trivial

/-- Tile coding: `-0.0` falls in the tile of `0.0`. -/
theorem C165_tile_coding {T : Type} [BuildHasher T] (b : TileCoding T) : AlikeB M Z b b :=
  alikeB_of (SFP.hom.tileCoding b) (SFP.hom.tileCoding b)

/-- A grid whose partitions do not tell the zeros apart. -/
theorem C165_uniform_grid (g : UniformGrid (SFP M Z))
    (hg : ∀ d ∈ g.featureSpace, ∀ v v', Alike v v' → d.mapOnto v = d.mapOnto v') : AlikeB M Z g g := by
  have h := SFP.hom.uniformGrid g
    (⟨g.nFeatures, g.featureSpace.map fun d => ⟨d.nPartitions, d.partitionWidth.val,
      d.centres.map SFP.val, fun v => d.mapOnto (SFP.signed v false)⟩⟩ : UniformGrid (FP M)) rfl (by
    generalize g.featureSpace = l at hg
    induction l with
    | nil => exact .nil
    | cons d l ih =>
      refine .cons ⟨rfl, fun v => ?_⟩ (ih fun d' m => hg d' (List.mem_cons_of_mem _ m))
      exact hg d (List.mem_cons_self ..) _ _ (alike_iff.2 rfl))
  exact alikeB_of h h

/-- Kernel features with stationary kernels, whatever the length scales: the quotients are squared. -/
theorem C165_kernel {kind : StationaryKind} {cs cs' : List (List (SFP M Z))}
    {k k' : Stationary kind (SFP M Z)} (hc : List.Forall₂ Alikes cs cs')
    (hv : Alike k.variance k'.variance) (hl : Alikes k.lengthscales k'.lengthscales) :
    AlikeB M Z (KernelBasis.homogeneous cs k) (KernelBasis.homogeneous cs' k') := by
  have h1 : ∀ (cs : List (List (SFP M Z))) (k : Stationary kind (SFP M Z)),
      Drops M Z (KernelBasis.homogeneous cs k)
        (KernelBasis.homogeneous (cs.map (List.map SFP.val)) (ScalarHom.stationaryMap SFP.val k)) := by
    intro cs k
    refine SFP.hom.kernelBasis _ _ ?_
    unfold KernelBasis.homogeneous
    induction cs with
    | nil => exact .nil
    | cons c cs ih => exact .cons ⟨rfl, SFP.hom.stationary k⟩ ih
  refine alikeB_of (h1 cs k) ?_
  have h2 := h1 cs' k'
  have e : ScalarHom.stationaryMap SFP.val k' = ScalarHom.stationaryMap SFP.val k := by
    unfold ScalarHom.stationaryMap
    rw [alike_iff.1 hv, alikes_iff.1 hl]
  rw [e, ← (forall₂_iff (fun _ _ => alikes_iff) _ _).1 hc] at h2
  exact h2

/-- And with the rational quadratic kernel. -/
theorem C165_rational_quadratic {cs cs' : List (List (SFP M Z))} {k k' : RationalQuadratic (SFP M Z)}
    (hc : List.Forall₂ Alikes cs cs') (hv : Alike k.variance k'.variance)
    (hl : Alikes k.lengthscales k'.lengthscales) (hp : Alike k.power k'.power) :
    AlikeB M Z (KernelBasis.homogeneous cs k) (KernelBasis.homogeneous cs' k') := by
  have h1 : ∀ (cs : List (List (SFP M Z))) (k : RationalQuadratic (SFP M Z)),
      Drops M Z (KernelBasis.homogeneous cs k)
        (KernelBasis.homogeneous (cs.map (List.map SFP.val))
          (⟨k.variance.val, k.lengthscales.map SFP.val, k.power.val⟩ : RationalQuadratic (FP M))) := by
    intro cs k
    refine SFP.hom.kernelBasis _ _ ?_
    unfold KernelBasis.homogeneous
    induction cs with
    | nil => exact .nil
    | cons c cs ih => exact .cons ⟨rfl, SFP.hom.rational k⟩ ih
  refine alikeB_of (h1 cs k) ?_
  have h2 := h1 cs' k'
  rw [← alike_iff.1 hv, ← alikes_iff.1 hl, ← alike_iff.1 hp,
    ← (forall₂_iff (fun _ _ => alikes_iff) _ _).1 hc] at h2
  exact h2

/-- Kernels between numbers, unless the length scale is `-0.0`. -/
theorem C165_number_kernel {kind : StationaryKind} {k k' : Stationary kind (SFP M Z)}
    (hv : Alike k.variance k'.variance) (hl : Alikes k.lengthscales k'.lengthscales)
    (hn : ∀ l ∈ k.lengthscales, ¬ NegZero l) (hn' : ∀ l ∈ k'.lengthscales, ¬ NegZero l)
    {x x' y y' : SFP M Z} (hx : Alike x x') (hy : Alike y y') :
    AlikeP Alike (ScalarKernel.kernel k x y) (ScalarKernel.kernel k' x' y') := by
  have key : ∀ (k : Stationary kind (SFP M Z)), (∀ l ∈ k.lengthscales, ¬ NegZero l) → ∀ x y : SFP M Z,
      ScalarKernel.kernel (ScalarHom.stationaryMap SFP.val k) x.val y.val =
        (ScalarKernel.kernel k x y).map SFP.val := by
    intro k hn x y
    show (scalarDistance (k.lengthscales.map SFP.val) x.val y.val >>= fun r =>
        .ok ((ScalarHom.stationaryMap SFP.val k).kernelStationary r)) =
      Except.map _ (scalarDistance k.lengthscales x y >>= fun r => .ok (k.kernelStationary r))
    unfold scalarDistance
    cases hk : k.lengthscales with
    | nil => rfl
    | cons l ls =>
      have hl : l.neg0 = false := by
        rw [← Bool.not_eq_true]
        exact hn l (by rw [hk]; exact List.mem_cons_self ..)
      show Except.ok ((ScalarHom.stationaryMap SFP.val k).kernelStationary
        (Scalar.abs (x.val -. y.val) /. l.val)) = Except.ok (SFP.val (k.kernelStationary (Scalar.abs (x -. y) /. l)))
      rw [← SFP.hom.kernelStationary, SFP.hom.div _ _ hl, SFP.hom.abs, SFP.hom.sub]
  rw [alikeP_iff (fun _ _ => alike_iff), ← key k hn, ← key k' hn', alike_iff.1 hx, alike_iff.1 hy]
  have e : ScalarHom.stationaryMap SFP.val k = ScalarHom.stationaryMap SFP.val k' := by
    unfold ScalarHom.stationaryMap
    rw [alike_iff.1 hv, alikes_iff.1 hl]
  rw [e]

section
variable {B C B' C' : Type} [Space B] [Space C] [Space B'] [Space C']
  [Basis B (List (SFP M Z)) (SFP M Z)] [Basis C (List (SFP M Z)) (SFP M Z)]
  [Basis B' (List (SFP M Z)) (SFP M Z)] [Basis C' (List (SFP M Z)) (SFP M Z)]

/-- Stacked bases. -/
theorem C165_stack {b : B} {b' : B'} {c : C} {c' : C'} (hb : AlikeB M Z b b') (hc : AlikeB M Z c c') :
    AlikeB M Z (Stack.mk b c) (Stack.mk b' c') := by
  obtain ⟨d, h1, h2⟩ := alikeB_drops hb
  obtain ⟨e, h3, h4⟩ := alikeB_drops hc
  exact alikeB_of (SFP.hom.stackB h1 h3) (SFP.hom.stackB h2 h4)

/-- Normalised bases: a norm is never `-0.0`. -/
theorem C165_normalised {b : B} {b' : B'} (hb : AlikeB M Z b b') :
    AlikeB M Z (L0Normaliser.mk b) (L0Normaliser.mk b') ∧ AlikeB M Z (L1Normaliser.mk b) (L1Normaliser.mk b') ∧
      AlikeB M Z (L2Normaliser.mk b) (L2Normaliser.mk b') ∧ AlikeB M Z (LinfNormaliser.mk b) (LinfNormaliser.mk b') := by
  obtain ⟨d, h1, h2⟩ := alikeB_drops hb
  exact ⟨alikeB_of (SFP.hom.l0 h1) (SFP.hom.l0 h2), alikeB_of (SFP.hom.l1 h1) (SFP.hom.l1 h2),
    alikeB_of (SFP.hom.l2 h1) (SFP.hom.l2 h2), alikeB_of (SFP.hom.linf h1) (SFP.hom.linf h2)⟩

end

/-! ## Optimisers -/

/-- Every optimiser: alike state, weights, features and error give an alike step. -/
theorem C165_optimisers : BlindSteps M Z (SGD (SFP M Z)) ∧ BlindSteps M Z (ISGD (SFP M Z)) ∧
    BlindSteps M Z (SGDMomentum (SFP M Z)) ∧ BlindSteps M Z (NAG (SFP M Z)) ∧
    BlindSteps M Z (Adagrad (SFP M Z)) ∧ BlindSteps M Z (Adam (SFP M Z)) ∧
    BlindSteps M Z (AdaMax (SFP M Z)) := by
  refine ⟨blindSteps_of SFP.hom.sgd fun _ _ => ?_, blindSteps_of SFP.hom.isgd fun _ _ => ?_,
    blindSteps_of SFP.hom.momentum fun _ _ => ?_, blindSteps_of SFP.hom.nag fun _ _ => ?_,
    blindSteps_of SFP.hom.adagrad fun _ _ => ?_, blindSteps_of SFP.hom.adam fun _ _ => ?_,
    blindSteps_of SFP.hom.adamax fun _ _ => ?_⟩
  · rw [SGD.mk.injEq]; exact alike_iff
  · rw [ISGD.mk.injEq]; exact alike_iff
  · rw [SGDMomentum.mk.injEq]; exact and_congr alike_iff (and_congr alike_iff alikes_iff)
  · rw [NAG.mk.injEq]; exact and_congr alike_iff (and_congr alike_iff alikes_iff)
  · rw [Adagrad.mk.injEq]; exact and_congr alike_iff alikes_iff
  · unfold ScalarHom.adamMap
    rw [Adam.mk.injEq]
    exact and_congr alike_iff (and_congr alike_iff (and_congr alike_iff (and_congr alike_iff
      (and_congr alike_iff (and_congr alikes_iff alikes_iff)))))
  · unfold ScalarHom.adamaxMap
    rw [AdaMax.mk.injEq]
    exact and_congr alike_iff (and_congr alike_iff (and_congr alike_iff
      (and_congr alike_iff (and_congr alikes_iff alikes_iff))))

/-! ## Approximators -/

section
variable {B O : Type} [Space B] [Basis B (List (SFP M Z)) (SFP M Z)] [Optim O] [Optimiser O (SFP M Z)]

/-- Predictions are alike. -/
theorem C165_evaluate {fa fa' : ScalarLFA B O (SFP M Z)} (h : AlikeFa fa fa')
    {x x' : List (SFP M Z)} (hx : Alikes x x') :
    AlikeP (AlikeR Alike) (fa.evaluate x) (fa'.evaluate x') := by
  unfold ScalarLFA.evaluate
  refine alikeP_bind (h.basis x x' hx) fun r r' hr => ?_
  cases r with
  | error e =>
    cases r' with
    | error e' => exact hr
    | ok b => exact hr.elim
  | ok φ =>
    cases r' with
    | error e' => exact hr.elim
    | ok φ' => exact alikeP_bind (C165_dot hr h.weights) fun _ _ hv => hv

/-- Training keeps approximators alike, with the same verdict. -/
theorem C165_update (ho : BlindSteps M Z O) {fa fa' : ScalarLFA B O (SFP M Z)} (h : AlikeFa fa fa')
    {x x' : List (SFP M Z)} (hx : Alikes x x') {e e' : SFP M Z} (he : Alike e e') :
    AlikeP (fun r r' => r.1 = r'.1 ∧ AlikeFa r.2 r'.2) (fa.update x e) (fa'.update x' e') := by
  unfold ScalarLFA.update
  refine alikeP_bind (h.basis x x' hx) fun r r' hr => ?_
  cases r with
  | error e =>
    cases r' with
    | error e' => exact ⟨congrArg Except.error hr, h⟩
    | ok b => exact hr.elim
  | ok φ =>
    cases r' with
    | error e' => exact hr.elim
    | ok φ' =>
      exact alikeP_bind (ho _ _ _ _ _ _ _ _ h.optimiser h.weights hr he)
        fun _ _ hs => ⟨hs.1, h.basis, hs.2.2, hs.2.1⟩

/-- `update_with`, for a closure that does not tell the zeros apart. -/
theorem C165_update_with (ho : BlindSteps M Z O) {fa fa' : ScalarLFA B O (SFP M Z)} (h : AlikeFa fa fa')
    {x x' : List (SFP M Z)} (hx : Alikes x x')
    {f f' : Features (SFP M Z) → SFP M Z → SFP M Z}
    (hf : ∀ φ φ' v v', AlikeF φ φ' → Alike v v' → Alike (f φ v) (f' φ' v')) :
    AlikeP (fun r r' => r.1 = r'.1 ∧ AlikeFa r.2 r'.2) (fa.updateWith x f) (fa'.updateWith x' f') := by
  unfold ScalarLFA.updateWith
  refine alikeP_bind (h.basis x x' hx) fun r r' hr => ?_
  cases r with
  | error e =>
    cases r' with
    | error e' => exact ⟨congrArg Except.error hr, h⟩
    | ok b => exact hr.elim
  | ok φ =>
    cases r' with
    | error e' => exact hr.elim
    | ok φ' =>
      refine alikeP_bind (C165_dot hr h.weights) fun v v' hv => ?_
      exact alikeP_bind (ho _ _ _ _ _ _ _ _ h.optimiser h.weights hr (hf _ _ _ _ hr hv))
        fun _ _ hs => ⟨hs.1, h.basis, hs.2.2, hs.2.1⟩

/-- Any number of updates. -/
theorem C165_updates (ho : BlindSteps M Z O) {fa fa' : ScalarLFA B O (SFP M Z)} (h : AlikeFa fa fa')
    {es es' : List (List (SFP M Z) × SFP M Z)}
    (he : List.Forall₂ (fun p p' => Alikes p.1 p'.1 ∧ Alike p.2 p'.2) es es') :
    AlikeP AlikeFa (updates fa es) (updates fa' es') := by
  induction he generalizing fa fa' with
  | nil => exact h
  | cons hp _ ih => exact alikeP_bind (C165_update ho h hp.1 hp.2) fun _ _ hr => ih hr.2

theorem collect_alike {φ φ' : Features (SFP M Z)} (h : AlikeF φ φ') {ws ws' : List (List (SFP M Z))}
    (hw : List.Forall₂ Alikes ws ws') (m : Nat) :
    AlikeP Alikes (OutputIter.collect φ m ws) (OutputIter.collect φ' m ws') := by
  rw [alikeP_iff (fun _ _ => alikes_iff), ← SFP.hom.collect, ← SFP.hom.collect, alikeF_iff.1 h,
    (forall₂_iff (fun _ _ => alikes_iff) _ _).1 hw]

/-- Predictions of several outputs. -/
theorem C165_evaluate_vector {fa fa' : VectorLFA B O (SFP M Z)} (h : AlikeVec fa fa')
    {x x' : List (SFP M Z)} (hx : Alikes x x') :
    AlikeP (AlikeR Alikes) (fa.evaluate x) (fa'.evaluate x') := by
  unfold VectorLFA.evaluate VectorLFA.tryIter
  rw [bind_assoc, bind_assoc]
  refine alikeP_bind (h.basis x x' hx) fun r r' hr => ?_
  cases r with
  | error e =>
    cases r' with
    | error e' => exact hr
    | ok b => exact hr.elim
  | ok φ =>
    cases r' with
    | error e' => exact hr.elim
    | ok φ' =>
      show AlikeP _ (OutputIter.collect φ fa.weights.length fa.weights >>= _) (OutputIter.collect φ' fa'.weights.length _ >>= _)
      rw [← h.weights.length_eq]
      exact alikeP_bind (collect_alike hr h.weights _) fun _ _ hv => hv

theorem stepColumns_alike (ho : BlindSteps M Z O) {φ φ' : Features (SFP M Z)} (h : AlikeF φ φ')
    {es es' : List (SFP M Z)} (he : Alikes es es') {cs cs' : List (List (SFP M Z))}
    (hc : List.Forall₂ Alikes cs cs') {o o' : O} (hoo : Optim.alike o o') (acc : Result Unit) :
    AlikeP (fun r r' => r.1 = r'.1 ∧ Optim.alike r.2.1 r'.2.1 ∧ List.Forall₂ Alikes r.2.2 r'.2.2)
      (VectorLFA.stepColumns φ es cs o acc) (VectorLFA.stepColumns φ' es' cs' o' acc) := by
  induction he generalizing cs cs' o o' acc with
  | nil => exact ⟨rfl, hoo, hc⟩
  | cons he _ ih =>
    cases hc with
    | nil => exact ⟨rfl, hoo, .nil⟩
    | cons hc hcs =>
      refine alikeP_bind (ho _ _ _ _ _ _ _ _ hoo hc h he) fun r r' hr => ?_
      obtain ⟨r, o, c⟩ := r
      obtain ⟨r', o', c'⟩ := r'
      obtain ⟨h1, h2, h3⟩ := hr
      cases h1
      exact alikeP_bind (ih hcs h2 _) fun q q' hq => ⟨hq.1, hq.2.1, .cons h3 hq.2.2⟩

/-- Updates of several outputs. -/
theorem C165_update_vector (ho : BlindSteps M Z O) {fa fa' : VectorLFA B O (SFP M Z)}
    (h : AlikeVec fa fa') {x x' : List (SFP M Z)} (hx : Alikes x x') {es es' : List (SFP M Z)}
    (he : Alikes es es') :
    AlikeP (fun r r' => r.1 = r'.1 ∧ AlikeVec r.2 r'.2) (fa.update x es) (fa'.update x' es') := by
  unfold VectorLFA.update
  refine alikeP_bind (h.basis x x' hx) fun r r' hr => ?_
  cases r with
  | error e =>
    cases r' with
    | error e' => exact ⟨congrArg Except.error hr, h⟩
    | ok b => exact hr.elim
  | ok φ =>
    cases r' with
    | error e' => exact hr.elim
    | ok φ' =>
      exact alikeP_bind (stepColumns_alike ho hr he h.weights h.optimiser _)
        fun _ _ hs => ⟨hs.1, h.basis, hs.2.2, hs.2.1⟩

/-- A sequence of calls `update(x, es)` of several outputs, errors ignored. -/
noncomputable def Spec.updatesVector (fa : VectorLFA B O (SFP M Z)) :
    List (List (SFP M Z) × List (SFP M Z)) → P (VectorLFA B O (SFP M Z))
  | [] => .ok fa
  | (x, es) :: cs => do
    let r ← fa.update x es
    Spec.updatesVector r.2 cs

/-- Any number of updates of several outputs. -/
theorem C165_updates_vector (ho : BlindSteps M Z O) {fa fa' : VectorLFA B O (SFP M Z)} (h : AlikeVec fa fa')
    {cs cs' : List (List (SFP M Z) × List (SFP M Z))}
    (hc : List.Forall₂ (fun p p' => Alikes p.1 p'.1 ∧ Alikes p.2 p'.2) cs cs') :
    AlikeP AlikeVec (updatesVector fa cs) (updatesVector fa' cs') := by
  induction hc generalizing fa fa' with
  | nil => exact h
  | cons hp _ ih => exact alikeP_bind (C165_update_vector ho h hp.1 hp.2) fun _ _ hr => ih hr.2

end

/-! ## Without signs -/

/-- A prediction with signed zeros is the prediction of the unsigned arithmetic, with signs. -/
theorem C165_unsigned_evaluate {B B' O O' : Type} [Space B] [Space B']
    [Basis B (List (SFP M Z)) (SFP M Z)] [Basis B' (List (FP M)) (FP M)] [Optimiser O (SFP M Z)]
    [Optimiser O' (FP M)] (fa : ScalarLFA B O (SFP M Z)) (fa' : ScalarLFA B' O' (FP M))
    (hb : ∀ x : List (SFP M Z), Basis.project fa'.basis (x.map SFP.val) =
      (Basis.project fa.basis x).map (Except.map (Features.hmap SFP.val)))
    (hw : fa'.weights = fa.weights.map SFP.val) (x : List (SFP M Z)) :
    fa'.evaluate (x.map SFP.val) = (fa.evaluate x).map (Except.map SFP.val) :=
  SFP.hom.evaluate fa fa' ⟨hb⟩ hw x

/-! ## Where a sign does matter -/

section
variable (M Z)

theorem one_sub_zero : ((Scalar.one : SFP M Z) -. Scalar.zero).val.1 = .fin 1 := by
  show (M.round (XReal.add (Scalar.one : FP M).1 (XReal.neg (Scalar.zero : FP M).1))).1 = _
  rw [Machine.val_one, Machine.val_zero]
  show M.rnd (1 + -0) = _
  rw [neg_zero, add_zero, M.rnd_one]

/-- `-0.0`. -/
noncomputable def nz : SFP M Z := Scalar.neg Scalar.zero

theorem nz_val : (nz M Z).val = (Scalar.zero : FP M) := by
  refine FP.ext ?_
  show (Scalar.neg (Scalar.zero : FP M)).1 = _
  rw [Machine.val_neg, Machine.val_zero]
  show XReal.fin (-0) = _
  rw [neg_zero]

theorem nz_neg0 : (nz M Z).neg0 = true := by
  classical
  show (true && decide ((Scalar.neg (Scalar.zero : FP M)).1 = .fin 0)) = true
  have := congrArg FP.val (nz_val M Z)
  rw [show (Scalar.neg (Scalar.zero : FP M)).1 = .fin 0 from this.trans Machine.val_zero]
  simp

theorem alike_zero : Alike (Scalar.zero : SFP M Z) (nz M Z) := alike_iff.2 (nz_val M Z).symm

/-- A number that is 1, divided by the two zeros. -/
theorem div_zeros {a b c : SFP M Z} (ha : a.val.1 = .fin 1) (hb : b.val.1 = .fin 0)
    (hb' : b.neg0 = false) (hc : c.neg0 = true) :
    (a /. b).val.1 = .pinf ∧ (a /. c).val.1 = .ninf := by
  have h1 : XReal.div (.fin 1) (.fin 0) = .pinf := by
    show (if (0 : ℝ) = 0 then (if (1 : ℝ) = 0 then XReal.nan else XReal.infSign 1) else _) = _
    rw [if_pos rfl, if_neg one_ne_zero]
    unfold XReal.infSign
    norm_num
  constructor
  · show (SFP.div a b).val.1 = _
    unfold SFP.div
    rw [hb']
    show (M.round (XReal.div a.val.1 b.val.1)).1 = _
    rw [ha, hb, h1]
    rfl
  · show (SFP.div a c).val.1 = _
    unfold SFP.div
    rw [hc]
    show (Scalar.neg (a.val /. c.val)).1 = _
    rw [Machine.val_neg]
    show XReal.neg (M.round (XReal.div a.val.1 c.val.1)).1 = _
    rw [ha, c.zero_of hc, h1]
    rfl

theorem mul_pos_pinf {r : ℝ} (hr : 0 < r) : XReal.mul (.fin r) .pinf = .pinf := by
  show (if r = 0 then XReal.nan else XReal.infSign r) = _
  rw [if_neg hr.ne']
  exact if_pos hr.le

theorem mul_pos_ninf {r : ℝ} (hr : 0 < r) : XReal.mul (.fin r) .ninf = .ninf := by
  show (if r = 0 then XReal.nan else XReal.infSign (-r)) = _
  rw [if_neg hr.ne']
  exact if_neg (by linarith)

/-- The hypotheses hold of an approximator, an input and an error whose zeros have other signs. -/
example : AlikeP (fun r r' => r.1 = r'.1 ∧ AlikeFa r.2 r'.2)
    (ScalarLFA.update (LFA.mk (Stack.mk (Polynomial.new 1 2) (Bias.mk (Scalar.zero : SFP M Z)))
      [(Scalar.zero : SFP M Z), Scalar.one, nz M Z] (SGD.mk (Scalar.one : SFP M Z))) [(Scalar.one : SFP M Z), nz M Z] (Scalar.zero : SFP M Z))
    (ScalarLFA.update (LFA.mk (Stack.mk (Polynomial.new 1 2) (Bias.mk (nz M Z)))
      [nz M Z, Scalar.one, Scalar.zero] (SGD.mk (Scalar.one : SFP M Z))) [(Scalar.one : SFP M Z), Scalar.zero] (nz M Z)) := by
  have r : Alike (Scalar.one : SFP M Z) Scalar.one := alike_iff.2 rfl
  have z := alike_zero M Z
  have z' : Alike (nz M Z) Scalar.zero := alike_iff.2 (nz_val M Z)
  refine C165_update C165_optimisers.1 ⟨?_, ?_, ?_⟩ (.cons r (.cons z' .nil)) z
  · exact C165_stack (C165_polynomial _) (C165_bias z)
  · exact .cons z (.cons r (.cons z' .nil))
  · exact r

/-- And of limits: `(-0.0, 1.0)` and `(0.0, 1.0)` are not crossed. -/
example : AlikeB M Z (Fourier.new 3 [(nz M Z, (Scalar.one : SFP M Z))]) (Fourier.new 3 [((Scalar.zero : SFP M Z), (Scalar.one : SFP M Z))]) := by
  refine C165_fourier 3 (.cons ⟨alike_iff.2 (nz_val M Z), alike_iff.2 rfl⟩ .nil) ?_ ?_ <;>
  · intro l hl hc
    cases List.mem_singleton.1 hl
    exact Bool.false_ne_true hc.2

/-- The limits `(0.0, 0.0)` and `(0.0, -0.0)` are alike, but the Chebyshev features of `1.0` are
`inf` for the one and `-inf` for the other. -/
theorem C165_crossed_limits : ∃ (ls ls' : List (SFP M Z × SFP M Z)) (c c' : Chebyshev (SFP M Z)),
    AlikeL ls ls' ∧ Chebyshev.new 1 ls = .ok c ∧ Chebyshev.new 1 ls' = .ok c' ∧ ¬ AlikeB M Z c c' := by
  refine ⟨[(Scalar.zero, Scalar.zero)], [(Scalar.zero, nz M Z)], _, _, ?_, rfl, rfl, ?_⟩
  · exact .cons ⟨alike_iff.2 rfl, alike_zero M Z⟩ .nil
  · intro h
    have h1 := h [Scalar.one] [Scalar.one] (alikes_iff.2 rfl)
    have d1 : ((Scalar.zero : SFP M Z) -. Scalar.zero).neg0 = false := rfl
    have d0 : ((Scalar.zero : SFP M Z) -. Scalar.zero).val.1 = .fin 0 := by
      show (M.round (XReal.add (Scalar.zero : FP M).1 (XReal.neg (Scalar.zero : FP M).1))).1 = _
      rw [Machine.val_zero]
      show M.rnd (0 + -0) = _
      rw [neg_zero, add_zero, Machine.rnd_zero]
    have d2 : (nz M Z -. Scalar.zero).neg0 = true := by
      classical
      show ((nz M Z).neg0 && (nz M Z).neg0 && decide (((nz M Z).val -. Scalar.zero).1 = .fin 0)) = true
      have e : ((nz M Z).val -. Scalar.zero).1 = .fin 0 := by rw [nz_val]; exact d0
      rw [nz_neg0, e]
      simp
    obtain ⟨k1, k2⟩ := div_zeros M Z (one_sub_zero M Z) d0 d1 d2
    have h2 : Alikes (M := M) (Z := Z)
      [Scalar.one *. (Scalar.ofNat 2 *. ((Scalar.one -. Scalar.zero) /. (Scalar.zero -. Scalar.zero)) -. Scalar.ofNat 1)]
      [Scalar.one *. (Scalar.ofNat 2 *. ((Scalar.one -. Scalar.zero) /. (nz M Z -. Scalar.zero)) -. Scalar.ofNat 1)] := h1
    rw [alikes_iff] at h2
    have h3 := congrArg FP.val (List.cons.inj h2).1
    have two : (Scalar.ofNat 2 : FP M).1 = .pinf ∨ ∃ r : ℝ, (Scalar.ofNat 2 : FP M).1 = .fin r ∧ 0 < r := by
      have hm := M.rnd_mono (show (1 : ℝ) ≤ 2 by norm_num)
      rw [M.rnd_one] at hm
      show M.rnd ((2 : ℕ) : ℝ) = _ ∨ ∃ r : ℝ, M.rnd ((2 : ℕ) : ℝ) = _ ∧ _
      rw [Nat.cast_ofNat]
      cases hr : M.rnd 2 with
      | nan => rw [hr] at hm; exact hm.elim
      | ninf => rw [hr] at hm; exact hm.elim
      | pinf => exact .inl rfl
      | fin r => rw [hr] at hm; exact .inr ⟨r, rfl, lt_of_lt_of_le one_pos hm⟩
    have e1 : ∀ q : SFP M Z, (Scalar.one *. (Scalar.ofNat 2 *. q -. Scalar.ofNat 1)).val.1 =
        (M.round (XReal.mul (.fin 1) (M.round (XReal.add (M.round (XReal.mul (Scalar.ofNat 2 : FP M).1 q.val.1)).1
          (.fin (-1)))).1)).1 := by
      intro q
      show (M.round (XReal.mul (Scalar.one : FP M).1 (M.round (XReal.add (M.round (XReal.mul
        (Scalar.ofNat 2 : FP M).1 q.val.1)).1 (XReal.neg (Scalar.one : FP M).1))).1)).1 = _
      rw [Machine.val_one]
      rfl
    rw [e1, e1, k1, k2] at h3
    have hp : XReal.mul (Scalar.ofNat 2 : FP M).1 .pinf = .pinf := by
      rcases two with h | ⟨r, h, hr⟩
      · rw [h]; rfl
      · rw [h, mul_pos_pinf hr]
    have hn : XReal.mul (Scalar.ofNat 2 : FP M).1 .ninf = .ninf := by
      rcases two with h | ⟨r, h, hr⟩
      · rw [h]; rfl
      · rw [h, mul_pos_ninf hr]
    rw [hp, hn] at h3
    have h4 : (M.round (XReal.mul (.fin 1) .pinf)).1 = (M.round (XReal.mul (.fin 1) .ninf)).1 := h3
    rw [mul_pos_pinf one_pos, mul_pos_ninf one_pos] at h4
    cases h4

/-- The length scales `0.0` and `-0.0` are alike, but a scalar exponential kernel divides by them:
`k(1.0, 0.0)` is `0.0` for the one and `inf` for the other. -/
theorem C165_scalar_kernel : ∃ (k k' : Stationary .exponential (SFP M Z)) (v v' : SFP M Z),
    Alike k.variance k'.variance ∧ Alikes k.lengthscales k'.lengthscales ∧
    ScalarKernel.kernel k Scalar.one Scalar.zero = .ok v ∧
    ScalarKernel.kernel k' Scalar.one Scalar.zero = .ok v' ∧ v.val.1 = .fin 0 ∧ v'.val.1 = .pinf := by
  have h0 : (Scalar.abs ((Scalar.one : SFP M Z) -. Scalar.zero)).val.1 = .fin 1 := by
    show (Scalar.abs ((Scalar.one : SFP M Z) -. Scalar.zero).val).1 = _
    rw [Machine.val_abs, one_sub_zero]
    show XReal.fin |(1 : ℝ)| = _
    rw [abs_one]
  obtain ⟨k1, k2⟩ := div_zeros M Z h0 (b := Scalar.zero) Machine.val_zero rfl (nz_neg0 M Z)
  refine ⟨⟨Scalar.one, [Scalar.zero]⟩, ⟨Scalar.one, [nz M Z]⟩, _, _, alike_iff.2 rfl,
    .cons (alike_zero M Z) .nil, rfl, rfl, ?_, ?_⟩
  · show (M.round (XReal.mul (Scalar.one : FP M).1 (M.round (M.fexp (Scalar.neg
      (Scalar.abs ((Scalar.one : SFP M Z) -. Scalar.zero) /. Scalar.zero).val).1)).1)).1 = _
    rw [Machine.val_neg, k1, Machine.val_one]
    show (M.round (XReal.mul (.fin 1) (M.rnd 0))).1 = _
    rw [Machine.rnd_zero]
    show M.rnd (1 * 0) = _
    rw [mul_zero, Machine.rnd_zero]
  · show (M.round (XReal.mul (Scalar.one : FP M).1 (M.round (M.fexp (Scalar.neg
      (Scalar.abs ((Scalar.one : SFP M Z) -. Scalar.zero) /. nz M Z).val).1)).1)).1 = _
    rw [Machine.val_neg, k2, Machine.val_one]
    show (M.round (XReal.mul (.fin 1) .pinf)).1 = _
    rw [mul_pos_pinf one_pos]
    rfl

end

/-! ## The signs themselves (IEEE 754-2008 §6.3) -/

/-- The sign bit is set: `-0.0`, a negative number or `-inf`. -/
def Spec.Negative (a : SFP M Z) : Prop := a.neg0 = true ∨ a.val.1 = .ninf ∨ ∃ r < 0, a.val.1 = .fin r

theorem sign_iff (a : SFP M Z) : a.sign = true ↔ Negative a := by
  unfold SFP.sign Negative
  rw [Bool.or_eq_true]
  refine or_congr_right ?_
  cases h : a.val.1 with
  | nan => simp
  | ninf => simp
  | pinf => simp
  | fin r => simp

theorem xor_sign_iff (a b : SFP M Z) : (a.sign ^^ b.sign) = true ↔ (Negative a ↔ ¬ Negative b) := by
  rw [← sign_iff, ← sign_iff]
  cases a.sign <;> cases b.sign <;> simp

theorem signed_zero {v : FP M} {s : Bool} (h : (SFP.signed v s : SFP M Z).val.1 = .fin 0) :
    (SFP.signed v s : SFP M Z).neg0 = s := by
  classical
  show (s && decide (v.1 = .fin 0)) = s
  rw [decide_eq_true (show v.1 = .fin 0 from h), Bool.and_true]

/-- A result that is zero is `-0.0` exactly when the standard says so: a sum if both terms are, a difference if it is `-0.0 - 0.0`, a
product or quotient if the signs differ (also when it underflows), a root or a negation as its argument says. -/
theorem C165_signs (a b : SFP M Z) :
    ((a +. b).val.1 = .fin 0 → ((a +. b).neg0 = true ↔ a.neg0 = true ∧ b.neg0 = true)) ∧
    ((a -. b).val.1 = .fin 0 → ((a -. b).neg0 = true ↔ a.neg0 = true ∧ b.val.1 = .fin 0 ∧ b.neg0 = false)) ∧
    ((a *. b).val.1 = .fin 0 → ((a *. b).neg0 = true ↔ (Negative a ↔ ¬ Negative b))) ∧
    (b.neg0 = false → (a /. b).val.1 = .fin 0 → ((a /. b).neg0 = true ↔ (Negative a ↔ ¬ Negative b))) ∧
    (a.val.1 = .fin 0 → ((Scalar.neg a).neg0 = true ↔ a.neg0 = false)) ∧ (Scalar.abs a).neg0 = false ∧
    ((Scalar.sqrt a).val.1 = .fin 0 → ((Scalar.sqrt a).neg0 = true ↔ a.neg0 = true)) := by
  classical
  have hneg : ∀ c : SFP M Z, ((Scalar.neg c).neg0 = true ↔ c.neg0 = false ∧ c.val.1 = .fin 0) := fun c => by
    show (!c.neg0 && decide ((Scalar.neg c.val).1 = .fin 0)) = true ↔ _
    rw [Bool.and_eq_true, Bool.not_eq_true', decide_eq_true_eq, Machine.val_neg]
    refine and_congr_right fun _ => ?_
    cases c.val.1 with
    | nan => simp [XReal.neg]
    | ninf => simp [XReal.neg]
    | pinf => simp [XReal.neg]
    | fin r => simp [XReal.neg]
  refine ⟨fun h => ?_, fun h => ?_, fun h => ?_, fun hb h => ?_, fun h => ?_, rfl, fun h => ?_⟩
  · rw [show (a +. b).neg0 = (a.neg0 && b.neg0) from signed_zero h, Bool.and_eq_true]
  · rw [show (a -. b).neg0 = (a.neg0 && (Scalar.neg b : SFP M Z).neg0) from signed_zero h, Bool.and_eq_true, hneg, and_comm (a := b.neg0 = false)]
  · rw [show (a *. b).neg0 = (a.sign ^^ b.sign) from signed_zero h, xor_sign_iff]
  · have e : a /. b = SFP.signed (a.val /. b.val) (a.sign ^^ b.sign) := by
      show SFP.div a b = _
      unfold SFP.div
      rw [hb]
      rfl
    rw [e] at h ⊢
    rw [signed_zero h, xor_sign_iff]
  · rw [hneg]; exact and_iff_left h
  · rw [show (Scalar.sqrt a).neg0 = a.neg0 from signed_zero h]

end Lfa

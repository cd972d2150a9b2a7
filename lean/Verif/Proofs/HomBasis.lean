import Verif.Proofs.HomTrain

/-!
# Maps between scalars: bases and approximators
-/

set_option linter.unusedSectionVars false

namespace Lfa

/-- What `h` does to the result of a projection. -/
def projMap {K K' : Type} (h : K → K') : P (Result (Features K)) → P (Result (Features K')) :=
  Except.map (Except.map (Features.hmap h))

/-- `b'` projects the image of an input to the image of what `b` projects it to. -/
structure BasisHom {B B' I I' K K' : Type} [Space B] [Space B'] [Basis B I K] [Basis B' I' K']
    (h : K → K') (inp : I → I') (b : B) (b' : B') : Prop where
  project : ∀ x : I, Basis.project b' (inp x) = projMap h (Basis.project b x)

/-- And likewise feature by feature. -/
def EnumHom {B B' I I' K K' : Type} [Space B] [Space B'] [EnumerableBasis B I K]
    [EnumerableBasis B' I' K'] (h : K → K') (inp : I → I') (b : B) (b' : B') : Prop :=
  ∀ (x : I) (i : Nat), EnumerableBasis.ith b' (inp x) i = (EnumerableBasis.ith b x i).map (Except.map h)

/-- `k'` is the image of the kernel `k`. -/
def KernelHom {κ κ' K K' : Type} [SliceKernel κ K] [SliceKernel κ' K'] (h : K → K') (k : κ)
    (k' : κ') : Prop :=
  ∀ x y : List K, SliceKernel.kernel k' (x.map h) (y.map h) = h (SliceKernel.kernel k x y)

section
variable {α β γ : Type} {h : α → β}

theorem Result.mapP_map {γ' : Type} (hc : γ → γ') (r : Result α) {f : α → P γ} {f' : β → P γ'}
    (hf : ∀ a, f' (h a) = (f a).map hc) :
    Result.mapP (Except.map h r) f' = (r.mapP f).map (Except.map hc) := by
  cases r with
  | error e => rfl
  | ok a =>
    show (f' (h a)).map _ = ((f a).map Except.ok).map (Except.map hc)
    rw [hf]
    cases f a <;> rfl

theorem bind_projMap {K K' : Type} {h : K → K'} (x : P (Result (Features K)))
    (f : Result (Features K') → P γ) :
    (projMap h x >>= f) = x >>= fun r => f (Except.map (Features.hmap h) r) := by
  cases x <;> rfl

end

namespace ScalarHom

variable {K K' : Type} [ScalarInf K] [ScalarInf K'] {h : K → K'} {D : K → Prop}

section
variable (H : ScalarHom h D)
include H

section
variable {I I' : Type} {inp : I → I'}

theorem bias (b : Bias K) : BasisHom h inp b (Bias.mk (h b.value)) := ⟨fun _ => rfl⟩

theorem bias_ith (b : Bias K) : EnumHom h inp b (Bias.mk (h b.value)) := fun x i => by
  show checkIndex i 1 _ = Except.map _ (checkIndex i 1 _)
  unfold checkIndex
  split_ifs <;> rfl

theorem fixedDense (b : FixedDense K) : BasisHom h inp b (FixedDense.mk (b.constants.map h)) :=
  ⟨fun _ => rfl⟩

theorem fixedSparse (b : FixedSparse K) :
    BasisHom h inp b (⟨b.nFeatures, b.active⟩ : FixedSparse K') := by
  refine ⟨fun _ => ?_⟩
  show Except.ok (Except.ok (Features.sparse ⟨_, _⟩)) = Except.ok (Except.ok (Features.sparse ⟨_, _⟩))
  rw [← HMap.collect_vmap]
  unfold HMap.vmap
  rw [List.map_map]
  have : (fun i => ((i, Scalar.one) : Nat × K')) =
      (fun e : Nat × K => (e.1, h e.2)) ∘ fun i => (i, Scalar.one) := by
    funext i
    show (i, Scalar.one) = (i, h Scalar.one)
    rw [H.one]
  rw [this]

theorem closure (n : Nat) (f : I → P (Result (Features K))) (f' : I' → P (Result (Features K')))
    (hf : ∀ x, f' (inp x) = projMap h (f x)) :
    BasisHom h inp (Closure.mk n f) (Closure.mk n f') := ⟨hf⟩

variable {B B' B₂ B₂' : Type} [Space B] [Space B'] [Basis B I K] [Basis B' I' K'] [Space B₂]
  [Space B₂'] [Basis B₂ I K] [Basis B₂' I' K']

theorem stackB {b : B} {b' : B'} {c : B₂} {c' : B₂'} (hb : BasisHom h inp b b')
    (hc : BasisHom h inp c c') : BasisHom h inp (Stack.mk b c) (Stack.mk b' c') := by
  refine ⟨fun x => ?_⟩
  · show (Basis.project b' (inp x) >>= fun r₁ => Result.andThenP r₁ fun f₁ =>
      Basis.project c' (inp x) >>= fun r₂ => r₂.mapP fun f₂ => f₁.stack f₂) =
      projMap h (Basis.project b x >>= fun r₁ => Result.andThenP r₁ fun f₁ =>
        Basis.project c x >>= fun r₂ => r₂.mapP fun f₂ => f₁.stack f₂)
    rw [hb.project, hc.project, bind_projMap]
    unfold projMap
    rw [Except.map_bind']
    congr 1
    funext r₁
    cases r₁ with
    | error e => rfl
    | ok φ =>
      show (Except.map (Except.map (Features.hmap h)) (Basis.project c x) >>= fun r₂ =>
        Result.mapP r₂ fun f₂ => (φ.hmap h).stack f₂) = Except.map _ (Basis.project c x >>= fun r₂ =>
          r₂.mapP fun f₂ => φ.stack f₂)
      rw [Except.bind_map', Except.map_bind']
      congr 1
      funext r₂
      exact Result.mapP_map (Features.hmap h) r₂ (fun ψ => H.stack φ ψ)

theorem project_mapP {b : B} {b' : B'} (hb : BasisHom h inp b b') {f : Features K → P (Features K)}
    {f' : Features K' → P (Features K')} (hf : ∀ φ, f' (φ.hmap h) = (f φ).map (Features.hmap h))
    (x : I) :
    (Basis.project b' (inp x) >>= fun r => r.mapP f') =
      projMap h (Basis.project b x >>= fun r => r.mapP f) := by
  rw [hb.project, bind_projMap]
  unfold projMap
  rw [Except.map_bind']
  congr 1
  funext r
  exact Result.mapP_map (Features.hmap h) r hf

theorem divideBy (φ : Features K) {z : K} (hz : D z) :
    divideBy (φ.hmap h) (h z) = (divideBy φ z).hmap h := by
  cases φ with
  | dense da =>
    show Features.dense ((da.map h).map _) = Features.dense ((da.map _).map h)
    rw [List.map_map, List.map_map]
    congr 1
    exact List.map_congr_left fun a _ => (H.div a z hz).symm
  | sparse sa =>
    show Features.sparse ⟨_, HMap.collect ((HMap.vmap h sa.activations).map _)⟩ =
      Features.sparse ⟨_, HMap.vmap h (HMap.collect _)⟩
    rw [← HMap.collect_vmap]
    unfold HMap.vmap
    rw [List.map_map, List.map_map]
    congr 3
    refine List.map_congr_left fun e _ => ?_
    show (e.1, h e.2 /. h z) = (e.1, h (e.2 /. z))
    rw [H.div _ _ hz]

theorem l0 {b : B} {b' : B'} (hb : BasisHom h inp b b') :
    BasisHom h inp (L0Normaliser.mk b) (L0Normaliser.mk b') := by
  refine ⟨H.project_mapP hb fun φ => ?_⟩
  unfold l0Normalise
  show (φ.hmap h).mapInto (fun x => x /. Scalar.ofNat (φ.hmap h).nActive) = _
  rw [H.nActive]
  refine H.mapInto (fun a => ?_) φ
  rw [H.div _ _ (H.d_ofNat _), H.ofNat]

theorem foldl_d {f : K → K → K} (hf : ∀ a b, D a → D (f a b)) (l : List K) {z : K} (hz : D z) :
    D (l.foldl f z) := by
  induction l generalizing z with
  | nil => exact hz
  | cons a l ih => exact ih (hf _ _ hz)

theorem l1Norm (φ : Features K) : l1Norm (φ.hmap h) = h (l1Norm φ) ∧ D (l1Norm φ) := by
  unfold Lfa.l1Norm
  constructor
  · rw [H.values, ← H.zero]
    exact foldl_map_hom h h (fun a b => by rw [H.add, H.abs]) φ.values _
  · exact H.foldl_d (fun a b ha => H.d_add_left _ _ ha) _ H.d_zero

theorem l2Norm (φ : Features K) : l2Norm (φ.hmap h) = h (l2Norm φ) ∧ D (l2Norm φ) := by
  unfold Lfa.l2Norm
  constructor
  · rw [H.values, H.sqrt, ← H.zero]
    congr 1
    exact foldl_map_hom h h (fun a b => by rw [H.add, H.mul]) φ.values _
  · exact H.d_sqrt _ (H.foldl_d (fun a b ha => H.d_add_left _ _ ha) _ H.d_zero)

theorem linfNorm (φ : Features K) : linfNorm (φ.hmap h) = h (linfNorm φ) ∧ D (linfNorm φ) := by
  unfold Lfa.linfNorm
  constructor
  · rw [H.values, ← H.negInf]
    exact foldl_map_hom h h (fun a b => by rw [H.max, H.abs]) φ.values _
  · exact H.foldl_d (fun a b ha => H.d_max _ _ ha (H.d_abs _)) _ H.d_negInf

theorem l1 {b : B} {b' : B'} (hb : BasisHom h inp b b') :
    BasisHom h inp (L1Normaliser.mk b) (L1Normaliser.mk b') := by
  refine ⟨H.project_mapP hb fun φ => ?_⟩
  show Except.ok (Lfa.divideBy (φ.hmap h) (Lfa.l1Norm (φ.hmap h))) = Except.ok _
  rw [(H.l1Norm φ).1, H.divideBy φ (H.l1Norm φ).2]

theorem l2 {b : B} {b' : B'} (hb : BasisHom h inp b b') :
    BasisHom h inp (L2Normaliser.mk b) (L2Normaliser.mk b') := by
  refine ⟨H.project_mapP hb fun φ => ?_⟩
  show Except.ok (Lfa.divideBy (φ.hmap h) (Lfa.l2Norm (φ.hmap h))) = Except.ok _
  rw [(H.l2Norm φ).1, H.divideBy φ (H.l2Norm φ).2]

theorem linf {b : B} {b' : B'} (hb : BasisHom h inp b b') :
    BasisHom h inp (LinfNormaliser.mk b) (LinfNormaliser.mk b') := by
  refine ⟨H.project_mapP hb fun φ => ?_⟩
  show Except.ok (Lfa.divideBy (φ.hmap h) (Lfa.linfNorm (φ.hmap h))) = Except.ok _
  rw [(H.linfNorm φ).1, H.divideBy φ (H.linfNorm φ).2]

end

/-! ## Polynomial, Fourier and Chebyshev bases -/

theorem poly_feature (it : List (K × Nat)) :
    Polynomial.computeFeature (it.map fun p => (h p.1, p.2)) = h (Polynomial.computeFeature it) := by
  unfold Polynomial.computeFeature
  rw [← H.one, List.map_map]
  have : ((fun p : K' × Nat => Scalar.powi p.1 p.2) ∘ fun p : K × Nat => (h p.1, p.2)) =
      h ∘ fun p : K × Nat => Scalar.powi p.1 p.2 := by
    funext p
    exact (H.powi p.1 p.2).symm
  show List.foldl _ _ (it.map ((fun p : K' × Nat => Scalar.powi p.1 p.2) ∘ _)) = _
  rw [this, ← List.map_map]
  exact foldl_map_hom h h H.mul _ _

theorem polynomial (p : Polynomial) :
    BasisHom (I := List K) (I' := List K') h (List.map h) p p := by
  refine ⟨fun x => ?_⟩
  show Except.ok (Except.ok (Features.dense (List.map _ _))) =
    Except.ok (Except.ok (Features.dense ((List.map _ _).map h)))
  rw [List.map_map]
  congr 4
  funext es
  show Polynomial.computeFeature ((x.map h).zip es) = h (Polynomial.computeFeature (x.zip es))
  rw [← H.poly_feature, List.zip_map_left]
  rfl

theorem rescale (xs : List K) (ls : List (K × K)) (hl : ∀ l ∈ ls, D (l.2 -. l.1)) :
    rescale (xs.map h) (ls.map (Prod.map h h)) = (rescale xs ls).map h := by
  unfold Lfa.rescale
  rw [List.zip_map, List.map_map, List.map_map]
  refine List.map_congr_left fun p hp => ?_
  show (h p.1 -. h p.2.1) /. (h p.2.2 -. h p.2.1) = h ((p.1 -. p.2.1) /. (p.2.2 -. p.2.1))
  rw [H.div _ _ (hl p.2 (List.of_mem_zip hp).2), H.sub, H.sub]

/-- The image of a Fourier basis. -/
def fourierMap (h : K → K') (f : Fourier K) : Fourier K' :=
  ⟨f.order, f.limits.map (Prod.map h h), f.coefficients.map (List.map h)⟩

theorem fourier (f : Fourier K) (hl : ∀ l ∈ f.limits, D (l.2 -. l.1)) :
    BasisHom h (List.map h) f (fourierMap h f) := by
  refine ⟨fun x => ?_⟩
  show Except.ok (Except.ok (Features.dense (List.map _ (f.coefficients.map (List.map h))))) =
    Except.ok (Except.ok (Features.dense ((List.map _ f.coefficients).map h)))
  rw [List.map_map, List.map_map]
  congr 4
  funext cs
  show Fourier.computeFeature ((Lfa.rescale (x.map h) (f.limits.map (Prod.map h h))).zip (cs.map h)) =
    h (Fourier.computeFeature ((Lfa.rescale x f.limits).zip cs))
  rw [H.rescale x _ hl]
  unfold Fourier.computeFeature
  rw [H.cos, H.mul, H.pi, List.zip_map, ← H.zero]
  congr 2
  exact foldl_map_hom h (Prod.map h h) (fun a b => by rw [H.add, H.mul]; rfl) _ _

theorem fourier_new (n : Nat) (ls : List (K × K)) :
    fourierMap h (Fourier.new n ls) = Fourier.new n (ls.map (Prod.map h h)) := by
  unfold fourierMap Fourier.new
  simp only [List.length_map, List.map_map]
  congr 2
  funext cs
  show (cs.map fun c => (Scalar.ofNat c : K)).map h = _
  rw [List.map_map]
  exact List.map_congr_left fun c _ => H.ofNat c

/-- `c'` is the image of the Chebyshev basis `c`. -/
structure ChebyshevHom (h : K → K') (c : Chebyshev K) (c' : Chebyshev K') : Prop where
  limits : c'.limits = c.limits.map (Prod.map h h)
  polys : List.Forall₂ (List.Forall₂ fun (f : K → K) (f' : K' → K') => ∀ a, f' (h a) = h (f a))
    c.polynomials c'.polynomials

theorem cheb_feature (ss : List K) (fs : List (K → K)) (fs' : List (K' → K'))
    (hf : List.Forall₂ (fun (f : K → K) (f' : K' → K') => ∀ a, f' (h a) = h (f a)) fs fs') :
    Chebyshev.computeFeature ((ss.map h).zip fs') = h (Chebyshev.computeFeature (ss.zip fs)) := by
  unfold Chebyshev.computeFeature
  rw [← H.one]
  generalize (Scalar.one : K) = z
  induction hf generalizing ss z with
  | nil => rw [List.zip_nil_right, List.zip_nil_right]; rfl
  | @cons f f' fs fs' hff _ ih =>
    cases ss with
    | nil => rfl
    | cons s ss =>
      show List.foldl _ (h z *. f' (h s)) _ = h (List.foldl _ (z *. f s) _)
      rw [hff, ← H.mul]
      exact ih ss _

theorem chebyshev {c : Chebyshev K} {c' : Chebyshev K'} (hc : ChebyshevHom h c c')
    (hl : ∀ l ∈ c.limits, D (l.2 -. l.1)) : BasisHom h (List.map h) c c' := by
  refine ⟨fun x => ?_⟩
  have hs : c'.scaledState (x.map h) = (c.scaledState x).map h := by
    unfold Chebyshev.scaledState
    rw [hc.limits, H.rescale x _ hl, List.map_map, List.map_map]
    refine List.map_congr_left fun v _ => ?_
    show Scalar.ofNat 2 *. h v -. Scalar.ofNat 1 = h (Scalar.ofNat 2 *. v -. Scalar.ofNat 1)
    rw [H.sub, H.mul, H.ofNat, H.ofNat]
  show Except.ok (Except.ok (Features.dense (c'.polynomials.map fun ps =>
      Chebyshev.computeFeature ((c'.scaledState (x.map h)).zip ps)))) =
    Except.ok (Except.ok (Features.dense ((c.polynomials.map fun ps =>
      Chebyshev.computeFeature ((c.scaledState x).zip ps)).map h)))
  rw [hs]
  congr 3
  generalize c.scaledState x = ss
  have hp := hc.polys
  generalize c.polynomials = l, c'.polynomials = l' at hp
  induction hp with
  | nil => rfl
  | cons hf _ ih =>
    rw [List.map_cons, List.map_cons, List.map_cons, ih, H.cheb_feature ss _ _ hf]

theorem polyOf (i : Nat) : (∃ (f : K → K) (f' : K' → K'), Chebyshev.polyOf i = .ok f ∧
      Chebyshev.polyOf i = .ok f' ∧ ∀ a, f' (h a) = h (f a)) ∨
    (Chebyshev.polyOf (K := K) i = .error Chebyshev.orderPanic ∧
      Chebyshev.polyOf (K := K') i = .error Chebyshev.orderPanic) := by
  match i with
  | 0 => exact .inl ⟨_, _, rfl, rfl, fun a => (H.ofNat 1).symm⟩
  | 1 => exact .inl ⟨_, _, rfl, rfl, fun a => rfl⟩
  | 2 => exact .inl ⟨_, _, rfl, rfl, fun a => by simp only [Cpfk.t_2, H.sub, H.mul, H.ofNat]⟩
  | 3 => exact .inl ⟨_, _, rfl, rfl, fun a => by simp only [Cpfk.t_3, H.sub, H.mul, H.ofNat]⟩
  | 4 => exact .inl ⟨_, _, rfl, rfl, fun a => by simp only [Cpfk.t_4, H.sub, H.add, H.mul, H.ofNat]⟩
  | 5 => exact .inl ⟨_, _, rfl, rfl, fun a => by simp only [Cpfk.t_5, H.sub, H.add, H.mul, H.ofNat, H.powi]⟩
  | 6 => exact .inl ⟨_, _, rfl, rfl, fun a => by simp only [Cpfk.t_6, H.sub, H.add, H.mul, H.ofNat, H.powi]⟩
  | 7 => exact .inl ⟨_, _, rfl, rfl, fun a => by simp only [Cpfk.t_7, H.sub, H.add, H.mul, H.ofNat, H.powi]⟩
  | 8 => exact .inl ⟨_, _, rfl, rfl, fun a => by simp only [Cpfk.t_8, H.sub, H.add, H.mul, H.ofNat, H.powi]⟩
  | 9 => exact .inl ⟨_, _, rfl, rfl, fun a => by simp only [Cpfk.t_9, H.sub, H.add, H.mul, H.ofNat, H.powi]⟩
  | 10 => exact .inl ⟨_, _, rfl, rfl, fun a => by simp only [Cpfk.t_10, H.sub, H.add, H.mul, H.ofNat, H.powi]⟩
  | 11 => exact .inl ⟨_, _, rfl, rfl, fun a => by simp only [Cpfk.t_11, H.sub, H.add, H.mul, H.ofNat, H.powi]⟩
  | n + 12 => exact .inr ⟨rfl, rfl⟩

omit H in
theorem forall₂_mapM {α β γ ε : Type} {R : β → γ → Prop} (f : α → Except ε β) (f' : α → Except ε γ)
    (hf : ∀ a, (∃ b c, f a = .ok b ∧ f' a = .ok c ∧ R b c) ∨ ∃ e, f a = .error e ∧ f' a = .error e)
    (l : List α) : (∃ bs cs, l.mapM f = .ok bs ∧ l.mapM f' = .ok cs ∧ List.Forall₂ R bs cs) ∨
      ∃ e, l.mapM f = .error e ∧ l.mapM f' = .error e := by
  induction l with
  | nil => exact .inl ⟨[], [], rfl, rfl, .nil⟩
  | cons a l ih =>
    rw [List.mapM_cons, List.mapM_cons]
    rcases hf a with ⟨b, c, hb, hc, hr⟩ | ⟨e, he, he'⟩
    · rw [hb, hc]
      rcases ih with ⟨bs, cs, hbs, hcs, hrs⟩ | ⟨e, he, he'⟩
      · exact .inl ⟨b :: bs, c :: cs, by rw [hbs]; rfl, by rw [hcs]; rfl, .cons hr hrs⟩
      · exact .inr ⟨e, by rw [he]; rfl, by rw [he']; rfl⟩
    · exact .inr ⟨e, by rw [he]; rfl, by rw [he']; rfl⟩

/-- `Chebyshev::new` of the image of the limits is the image of `Chebyshev::new`. -/
theorem chebyshev_new (n : Nat) (ls : List (K × K)) {c : Chebyshev K}
    (hc : Chebyshev.new n ls = .ok c) : c.limits = ls ∧ ∃ c' : Chebyshev K',
      Chebyshev.new n (ls.map (Prod.map h h)) = .ok c' ∧ ChebyshevHom h c c' := by
  unfold Chebyshev.new at hc ⊢
  rw [List.length_map]
  by_cases hn : n > 11
  · rw [if_pos hn] at hc; cases hc
  · rw [if_neg hn] at hc ⊢
    have key := forall₂_mapM (R := List.Forall₂ fun (f : K → K) (f' : K' → K') => ∀ a, f' (h a) = h (f a))
      (fun vals : List Nat => vals.mapM (Chebyshev.polyOf (K := K)))
      (fun vals : List Nat => vals.mapM (Chebyshev.polyOf (K := K')))
      (fun vals => forall₂_mapM _ _ (fun i => by
        rcases H.polyOf i with ⟨f, f', h1, h2, h3⟩ | ⟨h1, h2⟩
        · exact .inl ⟨f, f', h1, h2, h3⟩
        · exact .inr ⟨_, h1, h2⟩) vals) (computeCoefficients n ls.length)
    unfold Chebyshev.makePolynomials at hc ⊢
    rcases key with ⟨bs, cs, h1, h2, h3⟩ | ⟨e, h1, h2⟩
    · rw [h1] at hc
      rw [h2]
      cases hc
      exact ⟨rfl, _, rfl, rfl, h3⟩
    · rw [h1] at hc
      cases hc

/-- And likewise after `with_zeroth`. -/
theorem chebyshev_withZeroth {c : Chebyshev K} {c' : Chebyshev K'} (hc : ChebyshevHom h c c') :
    ChebyshevHom h c.withZeroth c'.withZeroth := by
  refine ⟨hc.limits, ?_⟩
  refine List.rel_append hc.polys (.cons ?_ .nil)
  rw [hc.limits, List.length_map]
  generalize c.limits.length = n
  induction n with
  | zero => exact .nil
  | succ n ih => exact .cons (fun _ => H.one.symm) ih

/-! ## Kernels -/

theorem sliceDistance (ls x y : List K) :
    sliceDistance (ls.map h) (x.map h) (y.map h) = h (sliceDistance ls x y) := by
  unfold Lfa.sliceDistance
  rw [H.sqrt, ← H.zero]
  congr 1
  generalize (Scalar.zero : K) = z
  induction ls generalizing x y z with
  | nil =>
    rw [List.map_nil, List.zipWith_nil_right, List.zipWith_nil_right]
    rfl
  | cons l ls ih =>
    cases x with
    | nil => rfl
    | cons a x =>
      cases y with
      | nil => rfl
      | cons b y =>
        show List.foldl _ (h z +. ((h a -. h b) /. h l) *. ((h a -. h b) /. h l)) _ =
          h (List.foldl _ (z +. ((a -. b) /. l) *. ((a -. b) /. l)) _)
        rw [← H.sub, ← H.sq_div, ← H.add]
        exact ih x y _

/-- The image of a stationary kernel. -/
def stationaryMap (h : K → K') {kind : StationaryKind} (k : Stationary kind K) : Stationary kind K' :=
  ⟨h k.variance, k.lengthscales.map h⟩

theorem kernelStationary {kind : StationaryKind} (k : Stationary kind K) (r : K) :
    (stationaryMap h k).kernelStationary (h r) = h (k.kernelStationary r) := by
  have h3 : h (Scalar.ofNat 5 /. Scalar.ofNat 3) = Scalar.ofNat 5 /. Scalar.ofNat 3 := by
    rw [H.div _ _ (H.d_ofNat 3), H.ofNat, H.ofNat]
  cases kind <;>
    simp only [Stationary.kernelStationary, stationaryMap, H.mul, H.add, H.exp, H.neg, H.sqrt,
      H.ofNat, H.sci, H.cos, h3]

theorem stationary {kind : StationaryKind} (k : Stationary kind K) :
    KernelHom h k (stationaryMap h k) := fun x y => by
  show (stationaryMap h k).kernelStationary (Lfa.sliceDistance (k.lengthscales.map h) _ _) = _
  rw [H.sliceDistance, H.kernelStationary]
  rfl

theorem rational (k : RationalQuadratic K) :
    KernelHom h k (⟨h k.variance, k.lengthscales.map h, h k.power⟩ : RationalQuadratic K') :=
  fun x y => by
    show RationalQuadratic.kernelStationary _ (Lfa.sliceDistance (k.lengthscales.map h) _ _) =
      h (k.kernelStationary (Lfa.sliceDistance k.lengthscales x y))
    rw [H.sliceDistance]
    unfold RationalQuadratic.kernelStationary
    rw [H.mul, H.exp, H.mul, H.neg, H.ln1p, H.div _ _ (H.d_ofNat 2), H.mul, H.ofNat]

theorem kernelBasis {κ κ' : Type} [SliceKernel κ K] [SliceKernel κ' K'] (b : KernelBasis κ K)
    (b' : KernelBasis κ' K') (hb : List.Forall₂ (fun (p : Prototype κ K) (p' : Prototype κ' K') =>
      p'.centroid = p.centroid.map h ∧ KernelHom h p.kernel p'.kernel) b.prototypes b'.prototypes) :
    BasisHom h (List.map h) b b' := by
  refine ⟨fun x => ?_⟩
  show Except.ok (Except.ok (Features.dense (b'.prototypes.map fun p => p.distanceFrom (x.map h)))) =
    Except.ok (Except.ok (Features.dense ((b.prototypes.map fun p => p.distanceFrom x).map h)))
  congr 3
  generalize b.prototypes = l, b'.prototypes = l' at hb
  induction hb with
  | nil => rfl
  | @cons p p' l l' hp _ ih =>
    rw [List.map_cons, List.map_cons, List.map_cons, ih]
    congr 1
    show SliceKernel.kernel p'.kernel (x.map h) p'.centroid = h (SliceKernel.kernel p.kernel x p.centroid)
    rw [hp.1, hp.2]

/-! ## Tile coding and grids -/

theorem ones (is : List Nat) : HMap.collect (is.map fun i => ((i, Scalar.one) : Nat × K')) =
    HMap.vmap h (HMap.collect (is.map fun i => (i, Scalar.one))) := by
  rw [← HMap.collect_vmap]
  unfold HMap.vmap
  rw [List.map_map]
  have : (fun i => ((i, Scalar.one) : Nat × K')) =
      (fun e : Nat × K => (e.1, h e.2)) ∘ fun i => (i, Scalar.one) := by
    funext i
    show (i, Scalar.one) = (i, h Scalar.one)
    rw [H.one]
  rw [this]

theorem tileCoding {T : Type} [BuildHasher T] (b : TileCoding T) :
    BasisHom (I := List K) (I' := List K') h (List.map h) b b := by
  refine ⟨fun x => ?_⟩
  have hs : TileCoding.binState (x.map h) b.nTilings = TileCoding.binState x b.nTilings := by
    unfold TileCoding.binState
    rw [List.map_map]
    refine List.map_congr_left fun a _ => ?_
    show Scalar.floorIsize (h a *. Scalar.ofNat b.nTilings) = _
    rw [← H.ofNat, ← H.mul, H.floorIsize]
  show (TileCoding.hashState (H := T) (TileCoding.binState (x.map h) b.nTilings) _ _ _ _ >>= _) =
    projMap h (TileCoding.hashState (H := T) (TileCoding.binState x b.nTilings) _ _ _ _ >>= _)
  rw [hs]
  unfold projMap
  rw [Except.map_bind']
  congr 1
  funext is
  show Except.ok (Except.ok (Features.sparse ⟨_, _⟩)) = Except.ok (Except.ok (Features.sparse ⟨_, _⟩))
  rw [H.ones]

theorem uniformGrid (g : UniformGrid K) (g' : UniformGrid K') (hn : g'.nFeatures = g.nFeatures)
    (hg : List.Forall₂ (fun (d : Equipartition K) (d' : Equipartition K') =>
      d'.nPartitions = d.nPartitions ∧ ∀ v, d'.mapOnto (h v) = d.mapOnto v)
      g.featureSpace g'.featureSpace) : BasisHom h (List.map h) g g' := by
  have hash : ∀ x : List K, g'.hash (x.map h) = g.hash x := by
    intro x
    unfold UniformGrid.hash
    generalize g.featureSpace = l, g'.featureSpace = l' at hg
    cases hg with
    | nil => rfl
    | @cons d d' l l' hd hl =>
      cases x with
      | nil => rfl
      | cons v vs =>
        show Except.ok (UniformGrid.hashFold l' (vs.map h) (d'.mapOnto (h v))) =
          Except.ok (UniformGrid.hashFold l vs (d.mapOnto v))
        rw [hd.2]
        congr 1
        generalize d.mapOnto v = acc
        induction hl generalizing vs acc with
        | nil => rfl
        | @cons e e' l l' he _ ih =>
          cases vs with
          | nil => rfl
          | cons u us =>
            show UniformGrid.hashFold l' (us.map h) (e'.mapOnto (h u) + e'.nPartitions * acc) =
              UniformGrid.hashFold l us (e.mapOnto u + e.nPartitions * acc)
            rw [he.1, he.2]
            exact ih us _
  refine ⟨fun x => ?_⟩
  show (g'.hash (x.map h) >>= _) = projMap h (g.hash x >>= _)
  rw [hash]
  unfold projMap
  rw [Except.map_bind']
  congr 1
  funext i
  show Except.ok (Except.ok (Features.sparse ⟨_, _⟩)) = Except.ok (Except.ok (Features.sparse ⟨_, _⟩))
  rw [hn]
  exact congrArg (fun m => Except.ok (Except.ok (Features.sparse ⟨g.nFeatures, m⟩))) (H.ones [i])

/-! ## Approximators -/

section
variable {B B' I I' O O' : Type} {inp : I → I'} [Space B] [Space B'] [Basis B I K] [Basis B' I' K']
  [Optimiser O K] [Optimiser O' K'] {ho : O → O'}

theorem evaluate (fa : ScalarLFA B O K) (fa' : ScalarLFA B' O' K')
    (hb : BasisHom h inp fa.basis fa'.basis) (hw : fa'.weights = fa.weights.map h) (x : I) :
    fa'.evaluate (inp x) = (fa.evaluate x).map (Except.map h) := by
  unfold ScalarLFA.evaluate
  rw [hb.project, bind_projMap, Except.map_bind', hw]
  congr 1
  funext r
  exact Result.mapP_map h r (fun φ => H.fdot φ fa.weights)

/-- The images of an approximator: the basis, the weights and the optimiser. -/
structure LfaHom (h : K → K') (inp : I → I') (ho : O → O') (fa : ScalarLFA B O K)
    (fa' : ScalarLFA B' O' K') : Prop where
  basis : BasisHom h inp fa.basis fa'.basis
  weights : fa'.weights = fa.weights.map h
  optimiser : fa'.optimiser = ho fa.optimiser

/-- Two results of a call: the same panic, or the same verdict and related approximators. -/
def OutHom {A A' : Type} (R : A → A' → Prop) : P (Result Unit × A) → P (Result Unit × A') → Prop
  | .ok (r, a), .ok (r', a') => r' = r ∧ R a a'
  | .error e, .error e' => e = e'
  | _, _ => False

theorem update (Ho : OptHom h ho) {fa : ScalarLFA B O K} {fa' : ScalarLFA B' O' K'}
    (hf : LfaHom h inp ho fa fa') (x : I) (e : K) :
    OutHom (LfaHom h inp ho) (fa.update x e) (fa'.update (inp x) (h e)) := by
  unfold ScalarLFA.update
  rw [hf.basis.project, bind_projMap]
  cases hp : Basis.project fa.basis x with
  | error p => exact rfl
  | ok r =>
    cases r with
    | error err => exact ⟨rfl, hf⟩
    | ok φ =>
      show OutHom _ (Optimiser.stepScaled fa.optimiser fa.weights φ e >>= fun r => .ok (r.1, _))
        (Optimiser.stepScaled fa'.optimiser fa'.weights (φ.hmap h) (h e) >>= fun r => .ok (r.1, _))
      rw [hf.weights, hf.optimiser, Ho.stepScaled]
      cases hs : Optimiser.stepScaled fa.optimiser fa.weights φ e with
      | error p => exact rfl
      | ok r => exact ⟨rfl, hf.basis, rfl, rfl⟩

theorem updateWith (Ho : OptHom h ho) {fa : ScalarLFA B O K} {fa' : ScalarLFA B' O' K'}
    (hf : LfaHom h inp ho fa fa') (x : I) {f : Features K → K → K} {f' : Features K' → K' → K'}
    (hff : ∀ φ v, f' (φ.hmap h) (h v) = h (f φ v)) :
    OutHom (LfaHom h inp ho) (fa.updateWith x f) (fa'.updateWith (inp x) f') := by
  unfold ScalarLFA.updateWith
  rw [hf.basis.project, bind_projMap]
  cases hp : Basis.project fa.basis x with
  | error p => exact rfl
  | ok r =>
    cases r with
    | error err => exact ⟨rfl, hf⟩
    | ok φ =>
      show OutHom _ (φ.dot fa.weights >>= fun v =>
          Optimiser.stepScaled fa.optimiser fa.weights φ (f φ v) >>= fun r => .ok (r.1, _))
        ((φ.hmap h).dot fa'.weights >>= fun v =>
          Optimiser.stepScaled fa'.optimiser fa'.weights (φ.hmap h) (f' (φ.hmap h) v) >>= fun r => .ok (r.1, _))
      rw [hf.weights, hf.optimiser, H.fdot]
      cases hd : φ.dot fa.weights with
      | error p => exact rfl
      | ok v =>
        show OutHom _ (Optimiser.stepScaled fa.optimiser fa.weights φ (f φ v) >>= fun r => .ok (r.1, _))
          (Optimiser.stepScaled (ho fa.optimiser) (fa.weights.map h) (φ.hmap h) (f' (φ.hmap h) (h v)) >>= fun r =>
            .ok (r.1, _))
        rw [hff, Ho.stepScaled]
        cases hs : Optimiser.stepScaled fa.optimiser fa.weights φ (f φ v) with
        | error p => exact rfl
        | ok r => exact ⟨rfl, hf.basis, rfl, rfl⟩

/-! ## Several outputs -/

/-- The images of an approximator with several outputs. -/
structure VecHom (h : K → K') (inp : I → I') (ho : O → O') (fa : VectorLFA B O K)
    (fa' : VectorLFA B' O' K') : Prop where
  basis : BasisHom h inp fa.basis fa'.basis
  weights : fa'.weights = fa.weights.map (List.map h)
  optimiser : fa'.optimiser = ho fa.optimiser

theorem collect (φ : Features K) (m : Nat) (ws : List (List K)) :
    OutputIter.collect (φ.hmap h) m (ws.map (List.map h)) = (OutputIter.collect φ m ws).map (List.map h) := by
  induction ws with
  | nil => rfl
  | cons c cs ih =>
    show ((φ.hmap h).dotColumn m (c.map h) >>= fun v => _) >>= _ = Except.map _ ((φ.dotColumn m c >>= fun v => _) >>= _)
    rw [H.dotColumn]
    cases φ.dotColumn m c with
    | error e => rfl
    | ok v =>
      show (OutputIter.collect (φ.hmap h) m (cs.map (List.map h)) >>= fun vs => .ok (h v :: vs)) =
        Except.map _ (OutputIter.collect φ m cs >>= fun vs => .ok (v :: vs))
      rw [ih]
      cases OutputIter.collect φ m cs <;> rfl

theorem evaluateVec (fa : VectorLFA B O K) (fa' : VectorLFA B' O' K')
    (hb : BasisHom h inp fa.basis fa'.basis) (hw : fa'.weights = fa.weights.map (List.map h)) (x : I) :
    fa'.evaluate (inp x) = (fa.evaluate x).map (Except.map (List.map h)) := by
  unfold VectorLFA.evaluate VectorLFA.tryIter
  rw [hb.project, bind_projMap, hw]
  cases Basis.project fa.basis x with
  | error e => rfl
  | ok r =>
    cases r with
    | error e => rfl
    | ok φ =>
      show (OutputIter.collect (φ.hmap h) (fa.weights.map (List.map h)).length (fa.weights.map (List.map h)) >>=
        fun a => Except.ok (Except.ok a)) =
        Except.map _ (OutputIter.collect φ fa.weights.length fa.weights >>= fun a => Except.ok (Except.ok a))
      rw [H.collect, List.length_map]
      cases OutputIter.collect φ fa.weights.length fa.weights <;> rfl

theorem stepColumns (Ho : OptHom h ho) (φ : Features K) (es : List K) (cs : List (List K)) (o : O)
    (acc : Result Unit) :
    VectorLFA.stepColumns (φ.hmap h) (es.map h) (cs.map (List.map h)) (ho o) acc =
      (VectorLFA.stepColumns φ es cs o acc).map
        fun r => (r.1, ho r.2.1, r.2.2.map (List.map h)) := by
  induction cs generalizing es o acc with
  | nil => cases es <;> rfl
  | cons c cs ih =>
    cases es with
    | nil => rfl
    | cons e es =>
      show (Optimiser.stepScaled (ho o) (c.map h) (φ.hmap h) (h e) >>= fun r =>
          VectorLFA.stepColumns (φ.hmap h) (es.map h) (cs.map (List.map h)) r.2.1 (acc.and r.1) >>= fun q =>
            .ok (q.1, q.2.1, r.2.2 :: q.2.2)) =
        Except.map _ (Optimiser.stepScaled o c φ e >>= fun r =>
          VectorLFA.stepColumns φ es cs r.2.1 (acc.and r.1) >>= fun q => .ok (q.1, q.2.1, r.2.2 :: q.2.2))
      rw [Ho.stepScaled]
      cases Optimiser.stepScaled o c φ e with
      | error p => rfl
      | ok r =>
        show (VectorLFA.stepColumns (φ.hmap h) (es.map h) (cs.map (List.map h)) (ho r.2.1) (acc.and r.1) >>= fun q =>
            .ok (q.1, q.2.1, r.2.2.map h :: q.2.2)) =
          Except.map _ (VectorLFA.stepColumns φ es cs r.2.1 (acc.and r.1) >>= fun q => .ok (q.1, q.2.1, r.2.2 :: q.2.2))
        rw [ih]
        cases VectorLFA.stepColumns φ es cs r.2.1 (acc.and r.1) <;> rfl

theorem updateVec (Ho : OptHom h ho) {fa : VectorLFA B O K} {fa' : VectorLFA B' O' K'}
    (hf : VecHom h inp ho fa fa') (x : I) (es : List K) :
    OutHom (VecHom h inp ho) (fa.update x es) (fa'.update (inp x) (es.map h)) := by
  unfold VectorLFA.update
  rw [hf.basis.project, bind_projMap]
  cases hp : Basis.project fa.basis x with
  | error p => exact rfl
  | ok r =>
    cases r with
    | error err => exact ⟨rfl, hf⟩
    | ok φ =>
      show OutHom _ (VectorLFA.stepColumns φ es fa.weights fa.optimiser (.ok ()) >>= fun r => .ok (r.1, _))
        (VectorLFA.stepColumns (φ.hmap h) (es.map h) fa'.weights fa'.optimiser (.ok ()) >>= fun r => .ok (r.1, _))
      rw [hf.weights, hf.optimiser, H.stepColumns Ho]
      cases hs : VectorLFA.stepColumns φ es fa.weights fa.optimiser (.ok ()) with
      | error p => exact rfl
      | ok r => exact ⟨rfl, hf.basis, rfl, rfl⟩

theorem updateVecWith (Ho : OptHom h ho) {fa : VectorLFA B O K} {fa' : VectorLFA B' O' K'}
    (hf : VecHom h inp ho fa fa') (x : I) {f : Features K → List K → List K}
    {f' : Features K' → List K' → List K'}
    (hff : ∀ φ vs, f' (φ.hmap h) (vs.map h) = (f φ vs).map h) :
    OutHom (VecHom h inp ho) (fa.updateWith x f) (fa'.updateWith (inp x) f') := by
  unfold VectorLFA.updateWith
  rw [hf.basis.project, bind_projMap]
  cases hp : Basis.project fa.basis x with
  | error p => exact rfl
  | ok r =>
    cases r with
    | error err => exact ⟨rfl, hf⟩
    | ok φ =>
      show OutHom _ (φ.matmul fa.weights >>= fun vs =>
          VectorLFA.stepColumns φ (f φ vs) fa.weights fa.optimiser (.ok ()) >>= fun r => .ok (r.1, _))
        ((φ.hmap h).matmul fa'.weights >>= fun vs =>
          VectorLFA.stepColumns (φ.hmap h) (f' (φ.hmap h) vs) fa'.weights fa'.optimiser (.ok ()) >>= fun r => .ok (r.1, _))
      rw [hf.weights, hf.optimiser, H.matmul]
      cases hd : φ.matmul fa.weights with
      | error p => exact rfl
      | ok vs =>
        show OutHom _ (VectorLFA.stepColumns φ (f φ vs) fa.weights fa.optimiser (.ok ()) >>= fun r => .ok (r.1, _))
          (VectorLFA.stepColumns (φ.hmap h) (f' (φ.hmap h) (vs.map h)) (fa.weights.map (List.map h)) (ho fa.optimiser) (.ok ()) >>= fun r =>
            .ok (r.1, _))
        rw [hff, H.stepColumns Ho]
        cases hs : VectorLFA.stepColumns φ (f φ vs) fa.weights fa.optimiser (.ok ()) with
        | error p => exact rfl
        | ok r => exact ⟨rfl, hf.basis, rfl, rfl⟩

theorem updateIndex (Ho : OptHom h ho) {fa : VectorLFA B O K} {fa' : VectorLFA B' O' K'}
    (hf : VecHom h inp ho fa fa') (x : I) (i : Nat) (e : K) :
    OutHom (VecHom h inp ho) (fa.updateIndex x i e) (fa'.updateIndex (inp x) i (h e)) := by
  unfold VectorLFA.updateIndex
  rw [hf.basis.project, bind_projMap]
  cases hp : Basis.project fa.basis x with
  | error p => exact rfl
  | ok r =>
    cases r with
    | error err => exact ⟨rfl, hf⟩
    | ok φ =>
      show OutHom _ (idx fa.weights i >>= fun c => Optimiser.stepScaled fa.optimiser c φ e >>= fun r =>
          setIdx fa.weights i r.2.2 >>= fun ws => .ok (r.1, _))
        (idx fa'.weights i >>= fun c => Optimiser.stepScaled fa'.optimiser c (φ.hmap h) (h e) >>= fun r =>
          setIdx fa'.weights i r.2.2 >>= fun ws => .ok (r.1, _))
      rw [hf.weights, hf.optimiser, idx_map]
      cases idx fa.weights i with
      | error p => exact rfl
      | ok c =>
        show OutHom _ (Optimiser.stepScaled fa.optimiser c φ e >>= fun r =>
            setIdx fa.weights i r.2.2 >>= fun ws => .ok (r.1, _))
          (Optimiser.stepScaled (ho fa.optimiser) (c.map h) (φ.hmap h) (h e) >>= fun r =>
            setIdx (fa.weights.map (List.map h)) i r.2.2 >>= fun ws => .ok (r.1, _))
        rw [Ho.stepScaled]
        cases Optimiser.stepScaled fa.optimiser c φ e with
        | error p => exact rfl
        | ok r =>
          show OutHom _ (setIdx fa.weights i r.2.2 >>= fun ws => .ok (r.1, _))
            (setIdx (fa.weights.map (List.map h)) i (r.2.2.map h) >>= fun ws => .ok (r.1, _))
          rw [setIdx_map]
          cases setIdx fa.weights i r.2.2 with
          | error p => exact rfl
          | ok ws => exact ⟨rfl, hf.basis, rfl, rfl⟩

end

end

end ScalarHom

end Lfa

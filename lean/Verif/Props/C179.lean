import Verif.Props.C107_C108
import Verif.Proofs.Poly
import Verif.Model.Grid

/-!
# C179: inputs that are not numbers

Rounded arithmetic (any `Machine`, hence `f64`). No basis reports an input that is NaN or infinite; this is what
comes out instead, and what one training call on such an input does.
-/

set_option linter.unusedSectionVars false

namespace Lfa

open Spec Machine

variable {M : Machine}

theorem finite_lit_one : Spec.Finite (M.lit 1) := ⟨1, by show (M.round (.fin 1)).1 = _; exact M.rnd_one⟩

theorem rescale_bad {xs : List (FP M)} {limits : List (FP M × FP M)} {i : Nat} {a : FP M} (hi : i < limits.length)
    (hx : xs[i]? = some a) (ha : ¬ Spec.Finite a) : ∃ c, (rescale xs limits)[i]? = some c ∧ ¬ Spec.Finite c := by
  refine ⟨(a -. limits[i].1) /. (limits[i].2 -. limits[i].1), ?_, fun h => ha (sub_finite (div_finite h)).1⟩
  unfold rescale
  rw [List.getElem?_map, List.getElem?_zip_eq_some (z := (a, limits[i])) |>.2 ⟨hx, List.getElem?_eq_getElem hi⟩]
  rfl

/-- A finite sum of products has finite factors. -/
theorem foldl_mac_finite : ∀ (it : List (FP M × FP M)) (z : FP M),
    Spec.Finite (it.foldl (fun acc vc => acc +. vc.2 *. vc.1) z) → Spec.Finite z ∧ ∀ vc ∈ it, Spec.Finite vc.1
  | [], z, h => ⟨h, fun vc hvc => by cases hvc⟩
  | e :: es, z, h => by
    obtain ⟨h1, h2⟩ := foldl_mac_finite es _ h
    obtain ⟨h3, h4⟩ := add_finite h1
    refine ⟨h3, fun e' he => ?_⟩
    rcases List.mem_cons.1 he with rfl | he
    · exact (mul_finite h4).2
    · exact h2 e' he

/-- A finite product has finite factors. -/
theorem foldl_mul_finite : ∀ (it : List (FP M)) (z : FP M),
    Spec.Finite (it.foldl (· *. ·) z) → Spec.Finite z ∧ ∀ a ∈ it, Spec.Finite a
  | [], z, h => ⟨h, fun a ha => by cases ha⟩
  | e :: es, z, h => by
    obtain ⟨h1, h2⟩ := foldl_mul_finite es _ h
    obtain ⟨h3, h4⟩ := mul_finite h1
    refine ⟨h3, fun e' he => ?_⟩
    rcases List.mem_cons.1 he with rfl | he
    · exact h4
    · exact h2 e' he

theorem cos_bad {a : FP M} (h : ¬ Spec.Finite a) : IsNaN (Scalar.cos a) := by
  show (M.round (M.fcos a.1)).1 = .nan
  rcases ha : a.1 with _ | _ | _ | r
  · rfl
  · rfl
  · rfl
  · exact absurd ⟨r, ha⟩ h

theorem powTree_finite {a : FP M} : ∀ t : PowTree, 0 < t.degree → Spec.Finite (t.eval M.mul (M.lit 1) a) → Spec.Finite a
  | .one, h, _ => absurd h (by simp [PowTree.degree])
  | .base, _, h => h
  | .mul l r, hd, h => by
    obtain ⟨h1, h2⟩ := mul_finite (a := l.eval M.mul (M.lit 1) a) (b := r.eval M.mul (M.lit 1) a) h
    by_cases hl : 0 < l.degree
    · exact powTree_finite l hl h1
    · exact powTree_finite r (by simp only [PowTree.degree] at hd; omega) h2

theorem powi_finite {a : FP M} {n : Nat} (hn : 0 < n) (h : Spec.Finite (Scalar.powi a n)) : Spec.Finite a :=
  powTree_finite (M.powTree n) (by rw [M.powTree_degree]; exact hn) h

theorem powTree_const : ∀ t : PowTree, t.degree = 0 → ∀ a a' : FP M,
    t.eval M.mul (M.lit 1) a' = t.eval M.mul (M.lit 1) a
  | .one, _, _, _ => rfl
  | .base, h, _, _ => absurd h (by simp [PowTree.degree])
  | .mul l r, h, a, a' => by
    simp only [PowTree.degree] at h
    show M.mul _ _ = M.mul _ _
    rw [powTree_const l (by omega) a a', powTree_const r (by omega) a a']

/-- **Fourier.** One coordinate that is NaN or infinite makes every feature NaN, including the features that do not depend on
that coordinate. -/
theorem C179_fourier (order : Nat) (limits : List (FP M × FP M)) (x : List (FP M)) (i : Nat) (a : FP M)
    (hi : i < limits.length) (hx : x[i]? = some a) (ha : ¬ Spec.Finite a) :
    (∃ da, Basis.project (Fourier.new order limits) x = .ok (.ok (.dense da)) ∧
      da.length = (order + 1) ^ limits.length - 1 ∧ ∀ v ∈ da, IsNaN v) ∧
    ∀ k < (order + 1) ^ limits.length - 1, ∃ v, EnumerableBasis.ith (Fourier.new order limits) x k = .ok (.ok v) ∧ IsNaN v := by
  obtain ⟨c, hc, hcf⟩ := rescale_bad hi hx ha
  have hlen := length_computeCoefficients order limits.length (by omega)
  have key : ∀ cfs ∈ (Fourier.new order limits).coefficients,
      IsNaN (Fourier.computeFeature ((rescale x limits).zip cfs)) := by
    intro cfs hcfs
    obtain ⟨e, he, rfl⟩ := List.mem_map.1 hcfs
    have hel := length_of_mem_computeCoefficients he
    refine cos_bad fun h => hcf ?_
    have h2 := (foldl_mac_finite _ _ (mul_finite h).2).2
    have hm : i < (e.map fun c => (Scalar.ofNat c : FP M)).length := by rw [List.length_map, hel]; exact hi
    exact h2 (c, _) (List.mem_of_getElem? (List.getElem?_zip_eq_some.2 ⟨hc, List.getElem?_eq_getElem hm⟩))
  refine ⟨⟨_, rfl, ?_, fun v hv => ?_⟩, fun k hk => ?_⟩
  · rw [List.length_map]
    show (List.map _ (computeCoefficients order limits.length)).length = _
    rw [List.length_map, hlen]
  · obtain ⟨cfs, h1, rfl⟩ := List.mem_map.1 hv
    exact key cfs h1
  · have hk' : k < (Fourier.new order limits).coefficients.length := by
      show k < (List.map _ (computeCoefficients order limits.length)).length
      rw [List.length_map, hlen]
      exact hk
    refine ⟨Fourier.computeFeature ((rescale x limits).zip (Fourier.new order limits).coefficients[k]), ?_, key _ (List.getElem_mem hk')⟩
    have e := List.getElem?_eq_getElem hk'
    simp only [EnumerableBasis.ith, e]
    rfl

/-- **Polynomial.** A monomial in which such a coordinate has a positive exponent is not finite; one in which it has exponent
zero does not notice. -/
theorem C179_polynomial (p : Polynomial) (x : List (FP M)) (i k : Nat) (a : FP M) (exps : List Nat) (e : Nat)
    (hk : p.exponents[k]? = some exps) (he : exps[i]? = some e) (hx : x[i]? = some a) :
    ∃ da, Basis.project p x = .ok (.ok (.dense da)) ∧ da.length = p.exponents.length ∧
      (0 < e → ¬ Spec.Finite a → ∃ v, da[k]? = some v ∧ ¬ Spec.Finite v) ∧
      (e = 0 → ∀ a', ∃ da', Basis.project p (x.set i a') = .ok (.ok (.dense da')) ∧ da'[k]? = da[k]?) := by
  have hg : ∀ x : List (FP M), (p.exponents.map fun exps => Polynomial.computeFeature (x.zip exps))[k]? =
      some (Polynomial.computeFeature (x.zip exps)) := fun x => by rw [List.getElem?_map, hk]; rfl
  refine ⟨_, rfl, by rw [List.length_map], fun h0 ha => ⟨_, hg x, fun h => ha ?_⟩, fun h0 a' => ⟨_, rfl, ?_⟩⟩
  · exact powi_finite h0 ((foldl_mul_finite _ _ h).2 _ (List.mem_map.2
      ⟨(a, e), List.mem_of_getElem? (List.getElem?_zip_eq_some.2 ⟨hx, he⟩), rfl⟩))
  · rw [hg, hg]
    congr 1
    unfold Polynomial.computeFeature
    congr 1
    refine List.ext_getElem? fun j => ?_
    rw [List.getElem?_map, List.getElem?_map]
    by_cases hj : j = i
    · subst hj
      have hl : j < x.length := (List.getElem?_eq_some_iff.1 hx).1
      rw [(List.getElem?_zip_eq_some (z := (a, e))).2 ⟨hx, he⟩,
        (List.getElem?_zip_eq_some (z := (a', e))).2 ⟨List.getElem?_set_self hl, he⟩, h0]
      exact congrArg some (powTree_const _ (M.powTree_degree 0) _ _)
    · congr 1
      rw [List.zip_eq_zipWith, List.zip_eq_zipWith, List.getElem?_zipWith, List.getElem?_zipWith, List.getElem?_set_ne (Ne.symm hj)]

theorem forall₂_get {α β : Type} {R : α → β → Prop} {xs : List α} {ys : List β} (h : List.Forall₂ R xs ys) :
    ∀ {k : Nat} {x : α}, xs[k]? = some x → ∃ y, ys[k]? = some y ∧ R x y := by
  induction h with
  | nil => intro k x hx; cases hx
  | cons h _ ih =>
    intro k x hx
    cases k with
    | zero => cases hx; exact ⟨_, rfl, h⟩
    | succ k => exact ih hx

/-- A Chebyshev polynomial of positive degree, as coded, of a number that is not finite is not finite. -/
theorem polyOf_finite {d : Nat} (hd : 0 < d) {f : FP M → FP M} (hf : Chebyshev.polyOf d = .ok f) {a : FP M}
    (h : Spec.Finite (f a)) : Spec.Finite a := by
  have three : ∀ {n : Nat} {b : FP M}, Spec.Finite (b *. Scalar.powi a (n + 1)) → Spec.Finite a := fun h =>
    powi_finite (Nat.succ_pos _) (mul_finite h).2
  match d, hd, hf with
  | 1, _, hf => injection hf with hf; rw [← hf] at h; exact h
  | 2, _, hf => injection hf with hf; rw [← hf] at h; exact (mul_finite (sub_finite h).1).2
  | 3, _, hf => injection hf with hf; rw [← hf] at h; exact (mul_finite (sub_finite h).2).2
  | 4, _, hf => injection hf with hf; rw [← hf] at h; exact (mul_finite (sub_finite (add_finite h).1).1).2
  | 5, _, hf => injection hf with hf; rw [← hf] at h; exact (mul_finite (add_finite h).2).2
  | 6, _, hf => injection hf with hf; rw [← hf] at h; exact three (add_finite (sub_finite h).1).2
  | 7, _, hf => injection hf with hf; rw [← hf] at h; exact (mul_finite (sub_finite h).2).2
  | 8, _, hf => injection hf with hf; rw [← hf] at h; exact three (sub_finite (add_finite h).1).2
  | 9, _, hf => injection hf with hf; rw [← hf] at h; exact (mul_finite (add_finite h).2).2
  | 10, _, hf => injection hf with hf; rw [← hf] at h; exact three (add_finite (sub_finite h).1).2
  | 11, _, hf => injection hf with hf; rw [← hf] at h; exact (mul_finite (sub_finite h).2).2
  | n + 12, _, hf => exact absurd hf (by simp [Chebyshev.polyOf])

/-- **Chebyshev.** A feature that has positive degree in such a coordinate is not finite. -/
theorem C179_chebyshev (order : Nat) (limits : List (FP M × FP M)) (c : Chebyshev (FP M))
    (hc : Chebyshev.new order limits = .ok c) (x : List (FP M)) (i k : Nat) (a : FP M) (degs : List Nat) (d : Nat)
    (hk : (computeCoefficients order limits.length)[k]? = some degs) (hd : degs[i]? = some d) (h0 : 0 < d)
    (hx : x[i]? = some a) (ha : ¬ Spec.Finite a) :
    ∃ da, Basis.project c x = .ok (.ok (.dense da)) ∧ da.length = (computeCoefficients order limits.length).length ∧
      ∃ v, da[k]? = some v ∧ ¬ Spec.Finite v := by
  unfold Chebyshev.new at hc
  split_ifs at hc with ho
  obtain ⟨pss, h1, h2⟩ := P.bind_eq_ok.1 hc
  cases h2
  have h1 := (mapM_ok_iff _ _ _).1 h1
  obtain ⟨ps, e1, e2⟩ := forall₂_get h1 hk
  obtain ⟨f, e3, e4⟩ := forall₂_get ((mapM_ok_iff _ _ _).1 e2) hd
  have hi : i < limits.length := by
    rw [← length_of_mem_computeCoefficients (List.mem_of_getElem? hk)]
    exact (List.getElem?_eq_some_iff.1 hd).1
  obtain ⟨r, hr, hrf⟩ := rescale_bad hi hx ha
  have hs : (Chebyshev.scaledState { order, limits, polynomials := pss } x)[i]? =
      some (Scalar.ofNat 2 *. r -. Scalar.ofNat 1) := by
    unfold Chebyshev.scaledState
    rw [List.getElem?_map]
    show Option.map _ (rescale x limits)[i]? = _
    rw [hr]
    rfl
  refine ⟨_, rfl, by rw [List.length_map]; exact h1.length_eq.symm, _, by rw [List.getElem?_map, e1]; rfl, fun h => hrf ?_⟩
  have := (foldl_mul_finite _ _ h).2 _ (List.mem_map.2 ⟨_, List.mem_of_getElem? (List.getElem?_zip_eq_some
    (z := (_, f)) |>.2 ⟨hs, e3⟩), rfl⟩)
  exact (mul_finite (sub_finite (polyOf_finite h0 e4 this)).1).2

/-- **TileCoding.** NaN is taken for zero: the features are those of the input with 0 in its place. -/
theorem C179_tiles {H : Type} [BuildHasher H] (b : TileCoding H) (x : List (FP M)) (i : Nat) (a : FP M)
    (hx : x[i]? = some a) (ha : IsNaN a) :
    Basis.project b x = Basis.project b (x.set i Scalar.zero) ∧
    ∀ k, EnumerableBasis.ith b x k = EnumerableBasis.ith b (x.set i Scalar.zero) k := by
  have key : TileCoding.binState x b.nTilings = TileCoding.binState (x.set i Scalar.zero) b.nTilings := by
    have h1 : (Scalar.floorIsize (a *. Scalar.ofNat b.nTilings) : Int) = 0 := by
      show XReal.floorIsize (a *. Scalar.ofNat b.nTilings).1 = 0
      rw [val_mul, ha]
      rfl
    have h2 : (Scalar.floorIsize ((Scalar.zero : FP M) *. Scalar.ofNat b.nTilings) : Int) = 0 := by
      show XReal.floorIsize ((Scalar.zero : FP M) *. Scalar.ofNat b.nTilings).1 = 0
      rw [val_mul, val_zero]
      rcases (Scalar.ofNat b.nTilings : FP M).1 with _ | _ | _ | r
      · rfl
      · simp [XReal.mul, Machine.round, XReal.floorIsize]
      · simp [XReal.mul, Machine.round, XReal.floorIsize]
      · show XReal.floorIsize (M.rnd (0 * r)) = 0
        rw [zero_mul, rnd_zero]
        simp [XReal.floorIsize, isizeMin, isizeMax]
    refine List.ext_getElem? fun j => ?_
    unfold TileCoding.binState
    rw [List.getElem?_map, List.getElem?_map]
    by_cases hj : j = i
    · subst hj
      rw [hx, List.getElem?_set_self (List.getElem?_eq_some_iff.1 hx).1]
      exact congrArg some (h1.trans h2.symm)
    · rw [List.getElem?_set_ne (Ne.symm hj)]
  refine ⟨?_, fun k => ?_⟩
  · simp only [Basis.project, key]
  · simp only [EnumerableBasis.ith, key]

/-! ## Training -/

/-- A finite prediction from dense features has finite features. -/
theorem dot_finite_features {da w : List (FP M)} (hl : da.length = w.length) {v : FP M}
    (h : (Features.dense da).dot w = .ok v) (hv : Spec.Finite v) {i : Nat} {a : FP M} (ha : da[i]? = some a) :
    Spec.Finite a := by
  have hi : i < da.length := (List.getElem?_eq_some_iff.1 ha).1
  have e : v = (M.dotTree (min da.length w.length)).eval M.add (M.lit 0)
      fun i => (List.zipWith M.mul da w).getD i (M.lit 0) := by
    have h : arrayDot da w = .ok v := h
    unfold arrayDot at h
    rw [if_pos hl] at h
    injection h with h
    exact h.symm
  rw [e] at hv
  have := tree_finite _ _ _ hv i ((M.dotTree_terms _).mem_iff.2 (List.mem_range.2 (by omega)))
  have e2 : (List.zipWith M.mul da w).getD i (M.lit 0) = a *. entry w i := by
    rw [List.getD_eq_getElem?_getD, List.getElem?_zipWith, ha, getElem?_entry (hl ▸ hi)]
    rfl
  rw [e2] at this
  exact (mul_finite this).1

section
variable {B O I : Type} [Space B] [Basis B I (FP M)]

variable (B I O) in
/-- One training call towards any target, at an input with dense features of which one is not finite, succeeds and
leaves no weight finite, for good: whatever calls of the optimiser follow. -/
def Ruinous [Optimiser O (FP M)] [HasSize O] : Prop :=
  ∀ (fa : ScalarLFA B O (FP M)) (x : I) (da : List (FP M)) (n : Nat), fa.weights.length = n →
    Basis.project fa.basis x = .ok (.ok (.dense da)) → da.length = n → HasSize.sized n fa.optimiser →
    (∃ a ∈ da, ¬ Spec.Finite a) → ∀ y : FP M,
    ∃ fa', fa.updateWith x (fun _ v => y -. v) = .ok (.ok (), fa') ∧
      ∀ es : List (Event (FP M)), (∀ e ∈ es, e.Fits n) → ∀ o' w', History fa'.optimiser fa'.weights es o' w' →
        ∀ j < n, ¬ Spec.Finite (entry w' j)

theorem ruin [Optimiser O (FP M)] [HasSize O] [Safe (K := FP M) O] (hO : Poisoned (M := M) O)
    (hO' : StepPoisoned (M := M) O) : Ruinous B O I (M := M) := by
  intro fa x da n hn hp hl ho ⟨a, ha, haf⟩ y
  subst hn
  have hf : Fits fa.weights.length (.dense da) := ⟨trivial, hl⟩
  obtain ⟨i, hi⟩ := List.mem_iff_getElem?.1 ha
  obtain ⟨v, hd⟩ := dot_exists hf (w := fa.weights) rfl
  obtain ⟨o', w', h1, h2, h3⟩ := Safe.scaled (K := FP M) (y -. v) ho rfl hf
  refine ⟨⟨fa.basis, w', o'⟩, updateWith_eq hp hd _ h1, fun es hes o'' w'' hh j hj => ?_⟩
  refine (permanent hO hO' hj es hes o' o'' w' w'' h2 h3 hh).2 fun h => haf ?_
  have := (hO _ _ _ _ _ ho rfl hf _ _ h1 j hj).2.2 (active_dense (hl ▸ hj)) h
  exact dot_finite_features hl hd (sub_finite this).2 hi

theorem stepPoisoned_of [Optimiser O (FP M)] [HasSize O] (hO : Poisoned (M := M) O)
    (hs : ∀ (o : O) w φ, Optimiser.step o w φ = Optimiser.stepScaled o w φ Scalar.one) : StepPoisoned (M := M) O := by
  intro n o w φ ho hw hf o' w' h i hi
  rw [hs] at h
  obtain ⟨a, b, -⟩ := hO n o w φ _ ho hw hf o' w' h i hi
  exact ⟨a, b⟩

/-- **Training.** This holds with every optimiser. -/
theorem C179_training : Ruinous B (SGD (FP M)) I (M := M) ∧ Ruinous B (ISGD (FP M)) I (M := M) ∧
    Ruinous B (SGDMomentum (FP M)) I (M := M) ∧ Ruinous B (NAG (FP M)) I (M := M) ∧
    Ruinous B (Adagrad (FP M)) I (M := M) ∧ Ruinous B (Adam (FP M)) I (M := M) ∧
    Ruinous B (AdaMax (FP M)) I (M := M) :=
  ⟨ruin poisoned_sgd fun _ _ _ _ _ hw hf _ _ h _ hi => step_additive_sgd hw hf h hi,
    ruin poisoned_isgd fun _ _ _ _ _ hw hf _ _ h _ hi => step_additive_isgd hw hf h hi,
    ruin poisoned_momentum (stepPoisoned_of poisoned_momentum fun _ _ _ => rfl),
    ruin poisoned_nag (stepPoisoned_of poisoned_nag fun _ _ _ => rfl),
    ruin poisoned_adagrad (stepPoisoned_of poisoned_adagrad fun _ _ _ => rfl),
    ruin poisoned_adam (stepPoisoned_of poisoned_adam fun _ _ _ => rfl),
    ruin poisoned_adamax (stepPoisoned_of poisoned_adamax fun _ _ _ => rfl)⟩

end

/-- **Fourier, end to end.** After one training call at an input with a coordinate that is NaN or infinite, no prediction at any
input is finite any more, whatever calls of the optimiser follow. -/
theorem C179_fourier_ruined {O : Type} [Optimiser O (FP M)] [HasSize O] (hO : Ruinous (Fourier (FP M)) O (List (FP M)) (M := M))
    (order : Nat) (hor : 0 < order) (limits : List (FP M × FP M)) (w : List (FP M)) (o : O) (n : Nat)
    (hn : n = (order + 1) ^ limits.length - 1) (hw : w.length = n) (ho : HasSize.sized n o)
    (x : List (FP M)) (i : Nat) (a y : FP M) (hi : i < limits.length) (hx : x[i]? = some a) (ha : ¬ Spec.Finite a) :
    ∃ fa', ScalarLFA.updateWith (LFA.mk (Fourier.new order limits) w o) x (fun _ v => y -. v) = .ok (.ok (), fa') ∧
      ∀ es : List (Event (FP M)), (∀ e ∈ es, e.Fits n) → ∀ o' w', History fa'.optimiser fa'.weights es o' w' → w'.length = n →
        ∀ (x' : List (FP M)) (v : FP M), ScalarLFA.evaluate (LFA.mk (Fourier.new order limits) w' o') x' = .ok (.ok v) → ¬ Spec.Finite v := by
  obtain ⟨⟨da, h1, h2, h3⟩, -⟩ := C179_fourier order limits x i a hi hx ha
  have hpos : 0 < n := by
    have : 2 ^ 1 ≤ (order + 1) ^ limits.length :=
      (Nat.pow_le_pow_left (by omega) 1).trans (Nat.pow_le_pow_right (by omega) (by omega))
    omega
  have hl : da.length = n := h2.trans hn.symm
  obtain ⟨fa', g1, g2⟩ := hO (LFA.mk (Fourier.new order limits) w o) x da n hw h1 hl ho
    ⟨da[0], List.getElem_mem (hl ▸ hpos), fun ⟨r, hr⟩ => by
      have := h3 _ (List.getElem_mem (hl ▸ hpos))
      unfold IsNaN at this
      unfold Is at hr
      rw [this] at hr
      cases hr⟩ y
  refine ⟨fa', g1, fun es hes o' w' hh hw' x' v hv => ?_⟩
  have hcl : (Fourier.new order limits).coefficients.length = n := by
    show (List.map _ (computeCoefficients order limits.length)).length = _
    rw [List.length_map, length_computeCoefficients order limits.length (by omega), hn]
  refine C108_prediction (LFA.mk (Fourier.new order limits) w' o') x' _ rfl ⟨trivial, ?_⟩ hv 0 ?_ (g2 es hes o' w' hh 0 hpos)
  · show (List.map _ _).length = w'.length
    rw [List.length_map, hcl, hw']
  · refine active_dense ?_
    rw [List.length_map, hcl]
    exact hpos

/-- An order-1 Fourier approximator over `[0, 1]` whose weight is 0, trained with SGD at NaN. -/
theorem C179_example : ∃ (a : FP M) (fa' : ScalarLFA (Fourier (FP M)) (SGD (FP M)) (FP M)), IsNaN a ∧
    ScalarLFA.updateWith (LFA.mk (Fourier.new 1 [(Scalar.zero, Scalar.one)]) [Scalar.zero] (SGD.mk Scalar.one)) [a]
      (fun _ v => Scalar.one -. v) = .ok (.ok (), fa') ∧ ¬ Spec.Finite (entry fa'.weights 0) := by
  have hn : ¬ Spec.Finite (⟨.nan, fun _ h => XReal.noConfusion h⟩ : FP M) := fun ⟨_, h⟩ => XReal.noConfusion h
  obtain ⟨⟨da, h1, h2, h3⟩, -⟩ := C179_fourier (M := M) 1 [(Scalar.zero, Scalar.one)]
    [⟨.nan, fun _ h => XReal.noConfusion h⟩] 0 _ Nat.zero_lt_one rfl hn
  have hl : da.length = 1 := h2
  obtain ⟨fa', g1, g2⟩ := C179_training.1 (LFA.mk (Fourier.new 1 [(Scalar.zero, Scalar.one)]) [Scalar.zero] (SGD.mk Scalar.one))
    [(⟨.nan, fun _ h => XReal.noConfusion h⟩ : FP M)] da 1 rfl h1 hl trivial
    ⟨da[0], List.getElem_mem (by omega), fun ⟨r, hr⟩ => by
      have := h3 da[0] (List.getElem_mem (by omega))
      unfold IsNaN at this
      unfold Is at hr
      rw [this] at hr
      cases hr⟩ Scalar.one
  exact ⟨⟨.nan, fun _ h => XReal.noConfusion h⟩, fa', by exact rfl, g1, g2 [] (fun e he => by cases he) _ _ (.nil _ _) 0 Nat.zero_lt_one⟩

end Lfa

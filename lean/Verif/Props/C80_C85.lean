import Std.Data.String.ToNat
import Verif.Model.Utils
import Verif.Proofs.Merge
import Verif.Proofs.Basis
import Verif.Proofs.Special
import Verif.Spec.Features
import Verif.Props.C06_C11
import Verif.Props.C23_C29

/-!
# C80–C85: exact behaviour of map and merge, case analysis, `from_space`, default `ith`, index errors
-/

set_option linter.unusedSectionVars false

namespace Lfa

open Spec Features

variable {K : Type} [Scalar K]

/-! ## C80 what `map` does to any features and any closure -/

/-- A closure with `|f(0)| < 1e-5` keeps sparse features sparse: the stored entries of the result are
exactly the images of the stored entries. -/
theorem C80_map_keeps_sparse (sa : SparseActivations K) (hk : KeysUnique (.sparse sa)) (f : K → K)
    (hf : Scalar.lt (Scalar.abs (f Scalar.zero)) (Scalar.sci 1 5) = true) :
    ∃ r : SparseActivations K, Features.map (.sparse sa) f = .ok (.sparse r) ∧ r.dim = sa.dim ∧
      KeysUnique (.sparse r) ∧
      ∀ i b, Stored (.sparse r) i b ↔ ∃ a, Stored (.sparse sa) i a ∧ b = f a := by
  have hn : HMap.NodupKeys (sa.activations.map fun e => (e.1, f e.2) : List (Nat × K)) :=
    HMap.nodupKeys_map f hk
  refine ⟨⟨sa.dim, List.map (fun e : Nat × K => (e.1, f e.2)) sa.activations⟩, ?_, rfl, hn, ?_⟩
  · simp only [Features.map, sparsityPreserving, hf, if_true]
    rw [HMap.collect_of_nodup hn]
  · intro i b
    simp only [Stored, List.mem_map, Prod.mk.injEq]
    constructor
    · rintro ⟨⟨k, a⟩, hm, rfl, rfl⟩
      exact ⟨a, hm, rfl⟩
    · rintro ⟨a, hm, rfl⟩
      exact ⟨(i, a), hm, rfl, rfl⟩

/-- Any other closure makes sparse features dense; every entry, stored or not, is the image of the
activation. It panics exactly when an index beyond the dimension is stored. -/
theorem C80_map_densifies (sa : SparseActivations K) (hk : KeysUnique (.sparse sa)) (f : K → K)
    (hf : Scalar.lt (Scalar.abs (f Scalar.zero)) (Scalar.sci 1 5) = false) :
    (Panics (Features.map (.sparse sa) f) ↔ ∃ i a, Stored (.sparse sa) i a ∧ sa.dim ≤ i) ∧
      (¬ Panics (Features.map (.sparse sa) f) →
        Features.map (.sparse sa) f = .ok (.dense ((view (.sparse sa)).map f))) := by
  have hm : Features.map (.sparse sa) f =
      ((scatterSet f sa.activations (List.replicate sa.dim (f Scalar.zero))).map
        Features.dense : P (Features K)) := by
    simp only [Features.map, sparsityPreserving, hf]
    cases scatterSet f sa.activations (List.replicate sa.dim (f Scalar.zero)) <;> rfl
  by_cases hr : ∃ i a, Stored (.sparse sa) i a ∧ sa.dim ≤ i
  · obtain ⟨i, a, hs, hi⟩ := hr
    have he : Features.map (.sparse sa) f = .error .indexOutOfBounds := by
      rw [hm, scatterSet_eq_scatterMod, scatterMod_error _ ⟨(i, a), hs, by simpa using hi⟩]
      rfl
    exact ⟨⟨fun _ => ⟨i, a, hs, hi⟩, fun _ => ⟨_, he⟩⟩, fun h => absurd ⟨_, he⟩ h⟩
  · have hw : WF (.sparse sa) := ⟨hk, fun e he => by
      by_contra hge
      exact hr ⟨e.1, e.2, he, not_lt.1 hge⟩⟩
    have he : Features.map (.sparse sa) f = .ok (.dense ((view (.sparse sa)).map f)) := by
      rw [hm, scatterSet_eq_scatterMod, scatterMod_ok _ hk (by simpa using hw.2)]
      show Except.ok (Features.dense _) = _
      congr 2
      apply List.ext_getElem?
      intro j
      rw [scatterAll_getElem?]
      simp only [view, List.getElem?_map, dim]
      by_cases hj : j < sa.dim
      · rw [List.getElem?_replicate, if_pos hj, List.getElem?_range hj]
        simp only [Option.map_some, value_sparse]
        cases HMap.get? sa.activations j <;> rfl
      · rw [List.getElem?_replicate, if_neg hj, List.getElem?_eq_none (by simpa using hj)]
        rfl
    refine ⟨⟨fun ⟨p, hp⟩ => ?_, fun h => absurd h hr⟩, fun _ => he⟩
    rw [he] at hp
    cases hp

/-! ## C81 what `merge` does to any pair of features and any closure -/

/-- Dense with dense: equal lengths combine entry by entry, a second operand of length 1 is used for
every entry, and any other lengths panic. -/
theorem C81_dense_dense (a b : List K) (f : K → K → K) :
    (b.length = a.length → merge (.dense a) (.dense b) f = .ok (.dense (List.zipWith f a b))) ∧
      (∀ y, b = [y] → merge (.dense a) (.dense b) f = .ok (.dense (a.map (f · y)))) ∧
      (Panics (merge (.dense a) (.dense b) f) ↔ b.length ≠ a.length ∧ b.length ≠ 1) := by
  have h1 : b.length = a.length →
      merge (.dense a) (.dense b) f = .ok (.dense (List.zipWith f a b)) := by
    intro h
    simp only [merge, zipMutWith_of_eq h]
    rfl
  have h2 : ∀ y, b = [y] → merge (.dense a) (.dense b) f = .ok (.dense (a.map (f · y))) := by
    rintro y rfl
    by_cases ha : [y].length = a.length
    · simp only [merge, zipMutWith_of_eq ha]
      match a, ha with
      | [x], _ => rfl
    · simp only [merge, zipMutWith, broadcast, if_neg ha]
      show Except.ok (Features.dense _) = _
      congr 2
      clear ha h1
      induction a with
      | nil => rfl
      | cons x a ih => simpa [List.replicate_succ] using ih
  refine ⟨h1, h2, ⟨?_, ?_⟩⟩
  · rintro ⟨p, hp⟩
    refine ⟨fun h => ?_, fun h => ?_⟩
    · rw [h1 h] at hp; cases hp
    · obtain ⟨y, rfl⟩ := List.length_eq_one_iff.1 h
      rw [h2 y rfl] at hp; cases hp
  · rintro ⟨hl, h1'⟩
    refine ⟨.shapeMismatch, ?_⟩
    simp only [merge, zipMutWith, broadcast, if_neg hl]
    match b, h1' with
    | [], _ => rfl
    | [_], h => exact absurd rfl h
    | _ :: _ :: _, _ => rfl

/-- Dense with sparse: the closure is applied at the stored indices only; every other entry keeps its
value. It panics exactly when an index beyond the dense operand is stored. -/
theorem C81_dense_sparse (a : List K) (sa : SparseActivations K) (hk : KeysUnique (.sparse sa))
    (f : K → K → K) :
    (Panics (merge (.dense a) (.sparse sa) f) ↔
        ∃ i v, Stored (.sparse sa) i v ∧ a.length ≤ i) ∧
      ∀ r, merge (.dense a) (.sparse sa) f = .ok r → ∃ c, r = .dense c ∧ c.length = a.length ∧
        ∀ i x, a[i]? = some x →
          (∀ v, Stored (.sparse sa) i v → c[i]? = some (f x v)) ∧
          ((∀ v, ¬ Stored (.sparse sa) i v) → c[i]? = some x) := by
  by_cases hr : ∃ i v, Stored (.sparse sa) i v ∧ a.length ≤ i
  · obtain ⟨i, v, hs, hi⟩ := hr
    have he : merge (.dense a) (.sparse sa) f = .error .indexOutOfBounds := by
      simp only [merge]
      rw [scatterMod_error _ ⟨(i, v), hs, hi⟩]
      rfl
    refine ⟨⟨fun _ => ⟨i, v, hs, hi⟩, fun _ => ⟨_, he⟩⟩, fun r h => ?_⟩
    rw [he] at h; cases h
  · have he : merge (.dense a) (.sparse sa) f = .ok (.dense (scatterAll f sa.activations a)) := by
      simp only [merge]
      rw [scatterMod_ok f hk fun e he => Nat.lt_of_not_le fun hl => hr ⟨e.1, e.2, he, hl⟩]
      rfl
    refine ⟨⟨fun ⟨p, hp⟩ => ?_, fun h => absurd h hr⟩, fun r h => ?_⟩
    · rw [he] at hp; cases hp
    · rw [he] at h
      cases h
      refine ⟨_, rfl, by simp, fun i x hx => ⟨fun v hv => ?_, fun hv => ?_⟩⟩
      · rw [scatterAll_getElem?, hx, HMap.get?_of_mem hk hv]; rfl
      · rw [scatterAll_getElem?, hx]
        cases hg : HMap.get? sa.activations i with
        | none => rfl
        | some v => exact absurd (HMap.mem_of_get? hg) (hv v)

/-- Sparse with dense: every entry of the dense operand is combined with the sparse activation, stored
or not. It panics exactly when the dense operand is shorter than the sparse dimension; sparse indices
beyond the dense operand are dropped. -/
theorem C81_sparse_dense (sa : SparseActivations K) (b : List K) (f : K → K → K) :
    (Panics (merge (.sparse sa) (.dense b) f) ↔ b.length < sa.dim) ∧
      (sa.dim ≤ b.length → merge (.sparse sa) (.dense b) f =
        .ok (.dense ((List.range b.length).map fun i =>
          f (value (.sparse sa) i) (value (.dense b) i)))) := by
  refine ⟨⟨fun ⟨p, hp⟩ => ?_, merge_sparse_dense_panics f⟩, merge_sparse_dense f⟩
  by_contra hl
  rw [merge_sparse_dense f (not_lt.1 hl)] at hp
  cases hp

/-- Sparse with sparse: the closure is applied at the indices stored in either operand, a missing
activation counting as 0; nothing else is stored, and the dimension is the larger one. It never
panics. -/
theorem C81_sparse_sparse (sa₁ sa₂ : SparseActivations K) (h₁ : KeysUnique (.sparse sa₁))
    (f : K → K → K) :
    ∃ r : SparseActivations K, merge (.sparse sa₁) (.sparse sa₂) f = .ok (.sparse r) ∧
      r.dim = max sa₁.dim sa₂.dim ∧ KeysUnique (.sparse r) ∧
      ∀ i c, Stored (.sparse r) i c ↔
        ((∃ a, Stored (.sparse sa₁) i a) ∨ ∃ b, Stored (.sparse sa₂) i b) ∧
          c = f (value (.sparse sa₁) i) (value (.sparse sa₂) i) := by
  have hn : HMap.NodupKeys (mergeSparse sa₁ sa₂ f).activations :=
    nodupKeys_foldl_orInsert _ _ _ (HMap.nodupKeys_mapKV
      (fun k a => f a ((sa₂.activations.get? k).getD Scalar.zero)) h₁)
  refine ⟨_, rfl, rfl, hn, fun i c => ?_⟩
  have e₁ : (∃ a, Stored (.sparse sa₁) i a) ↔ i ∈ sa₁.activations.map Prod.fst := by
    simp [Stored]
  have e₂ : (∃ a, Stored (.sparse sa₂) i a) ↔ i ∈ sa₂.activations.map Prod.fst := by
    simp [Stored]
  rw [e₁, e₂]
  constructor
  · intro hs
    have hm : i ∈ sa₁.activations.map Prod.fst ∨ i ∈ sa₂.activations.map Prod.fst := by
      by_contra hc
      have hg := HMap.get?_of_mem hn hs
      rw [get?_mergeSparse, (HMap.get?_eq_none_iff _ _).2 fun h => hc (.inl h),
        (HMap.get?_eq_none_iff _ _).2 fun h => hc (.inr h)] at hg
      cases hg
    refine ⟨hm, ?_⟩
    rw [← value_mergeSparse sa₁ sa₂ f i hm]
    exact (value_of_stored (φ := .sparse (mergeSparse sa₁ sa₂ f)) hn hs).symm
  · rintro ⟨hm, rfl⟩
    rw [← value_mergeSparse sa₁ sa₂ f i hm, value_sparse]
    cases hg : HMap.get? (mergeSparse sa₁ sa₂ f).activations i with
    | some v => exact HMap.mem_of_get? hg
    | none =>
      rw [get?_mergeSparse, Option.or_eq_none_iff] at hg
      obtain ⟨g₁, g₂⟩ := hg
      rw [Option.map_eq_none_iff, HMap.get?_eq_none_iff] at g₁ g₂
      exact absurd hm (by simp only [g₁, g₂, or_self, not_false_iff])

/-! ## C82 inspecting the representation -/

/-- `is_dense` and `is_sparse` are opposite; `map_dense` and `map_sparse` return a value exactly on
their own representation, computed from the stored contents; `map_either` agrees with whichever of the
two returns. -/
theorem C82_case_analysis {T : Type} (φ : Features K) (fd : List K → T)
    (fs : SparseActivations K → T) :
    φ.isDense = !φ.isSparse ∧
      (∀ t, φ.mapDense fd = some t ↔ ∃ da, φ = .dense da ∧ t = fd da) ∧
      (∀ t, φ.mapSparse fs = some t ↔ ∃ sa, φ = .sparse sa ∧ t = fs sa) ∧
      ((φ.mapDense fd).isSome = φ.isDense) ∧ ((φ.mapSparse fs).isSome = φ.isSparse) ∧
      (φ.mapDense fd).or (φ.mapSparse fs) = some (φ.mapEither fd fs) := by
  cases φ with
  | dense da =>
    refine ⟨rfl, fun t => ⟨fun h => ⟨da, rfl, ?_⟩, ?_⟩, fun t => ⟨fun h => (by cases h), ?_⟩, rfl,
      rfl, rfl⟩
    · cases h; rfl
    · rintro ⟨_, h, rfl⟩; cases h; rfl
    · rintro ⟨_, h, _⟩; cases h
  | sparse sa =>
    refine ⟨rfl, fun t => ⟨fun h => (by cases h), ?_⟩, fun t => ⟨fun h => ⟨sa, rfl, ?_⟩, ?_⟩, rfl,
      rfl, rfl⟩
    · rintro ⟨_, h, _⟩; cases h
    · cases h; rfl
    · rintro ⟨_, h, rfl⟩; cases h; rfl

/-! ## C83 `from_space` uses exactly the bounds of the space -/

/-- The intervals of a space are all bounded, with these bounds in order. -/
def Bounds (space : List (Interval K)) (limits : List (K × K)) : Prop :=
  List.Forall₂ (fun d l => d.inf = some l.1 ∧ d.sup = some l.2) space limits

theorem getBounds_ok_iff (d : Interval K) (l : K × K) :
    getBounds d = .ok l ↔ d.inf = some l.1 ∧ d.sup = some l.2 := by
  obtain ⟨i, s⟩ := d
  obtain ⟨l₁, l₂⟩ := l
  cases i <;> cases s <;> simp [getBounds]

theorem unwrapBounds_ok_iff (d : Interval K) (l : K × K) :
    (do let lb ← unwrap d.inf
        let ub ← unwrap d.sup
        (.ok (lb, ub) : P (K × K))) = .ok l ↔ d.inf = some l.1 ∧ d.sup = some l.2 := by
  obtain ⟨i, s⟩ := d
  obtain ⟨l₁, l₂⟩ := l
  cases i <;> cases s <;> simp [unwrap, bind, Except.bind]

/-- `Fourier::from_space` is `Fourier::new` with the bounds of the space; it panics exactly when some
dimension lacks a bound. -/
theorem C83_fourier (order : Nat) (space : List (Interval K)) :
    (∀ limits, Bounds space limits → Fourier.fromSpace order space = .ok (Fourier.new order limits)) ∧
      (Panics (Fourier.fromSpace order space) ↔ ∃ d ∈ space, d.inf = none ∨ d.sup = none) := by
  have h1 : ∀ limits, Bounds space limits →
      Fourier.fromSpace order space = .ok (Fourier.new order limits) := by
    intro limits h
    show (space.mapM getBounds >>= _) = _
    rw [(mapM_ok_iff _ _ limits).2 (h.imp fun _ _ => (getBounds_ok_iff _ _).2)]
    rfl
  refine ⟨h1, ?_⟩
  have h2 : Panics (Fourier.fromSpace order space) ↔ Panics (space.mapM getBounds) := by
    show Panics (space.mapM getBounds >>= fun limits => .ok (Fourier.new order limits)) ↔ _
    cases space.mapM getBounds with
    | ok l => exact ⟨fun ⟨p, hp⟩ => (by cases hp), fun ⟨p, hp⟩ => (by cases hp)⟩
    | error p => exact ⟨fun _ => ⟨p, rfl⟩, fun _ => ⟨p, rfl⟩⟩
  rw [h2, mapM_panics_iff]
  refine exists_congr fun d => and_congr_right fun _ => ?_
  obtain ⟨i, s⟩ := d
  cases i <;> cases s <;> simp [getBounds, Panics]

/-- `Chebyshev::from_space` is `Chebyshev::new` with the bounds of the space; it panics exactly when
some dimension lacks a bound or the order exceeds 11. -/
theorem C83_chebyshev (order : Nat) (space : List (Interval K)) :
    (∀ limits, Bounds space limits →
      Chebyshev.fromSpace order space = Chebyshev.new order limits) ∧
      (Panics (Chebyshev.fromSpace order space) ↔
        (∃ d ∈ space, d.inf = none ∨ d.sup = none) ∨ 11 < order) := by
  have h1 : ∀ limits, Bounds space limits →
      Chebyshev.fromSpace order space = Chebyshev.new order limits := by
    intro limits h
    show (space.mapM (fun d => do
      let lb ← unwrap d.inf
      let ub ← unwrap d.sup
      .ok (lb, ub)) >>= _) = _
    rw [(mapM_ok_iff _ _ limits).2 (h.imp fun _ _ => (unwrapBounds_ok_iff _ _).2)]
    rfl
  refine ⟨h1, ?_⟩
  by_cases hb : ∃ d ∈ space, d.inf = none ∨ d.sup = none
  · refine ⟨fun _ => .inl hb, fun _ => ?_⟩
    have hp : Panics (space.mapM (fun d : Interval K => do
        let lb ← unwrap d.inf
        let ub ← unwrap d.sup
        (.ok (lb, ub) : P (K × K)))) := by
      rw [mapM_panics_iff]
      obtain ⟨⟨i, s⟩, hd, h⟩ := hb
      refine ⟨_, hd, ?_⟩
      cases i <;> cases s <;> simp_all [unwrap, Panics, bind, Except.bind]
    obtain ⟨p, hp⟩ := hp
    exact ⟨p, by show (space.mapM _ >>= _) = _; rw [hp]; rfl⟩
  · have hl : ∃ limits, Bounds space limits := by
      clear h1
      induction space with
      | nil => exact ⟨[], .nil⟩
      | cons d ds ih =>
        obtain ⟨ls, hls⟩ := ih fun ⟨d', hd', h⟩ => hb ⟨d', List.mem_cons_of_mem _ hd', h⟩
        obtain ⟨i, s⟩ := d
        cases i with
        | none => exact absurd ⟨_, List.mem_cons_self, .inl rfl⟩ hb
        | some lo =>
          cases s with
          | none => exact absurd ⟨_, List.mem_cons_self, .inr rfl⟩ hb
          | some hi => exact ⟨(lo, hi) :: ls, .cons ⟨rfl, rfl⟩ hls⟩
    obtain ⟨limits, hl⟩ := hl
    rw [h1 _ hl]
    refine ⟨fun ⟨p, hp⟩ => .inr ?_, fun h => ⟨Chebyshev.orderPanic, ?_⟩⟩
    · by_contra ho
      obtain ⟨c, hc, -⟩ := (C26_orders order limits).2 (not_lt.1 ho)
      rw [hc] at hp; cases hp
    · rcases h with h | h
      · exact absurd h hb
      · simp only [Chebyshev.new]; rw [if_pos h]

/-! ## C84 the default `ith` -/

section
variable {B I : Type} [Space B] [Basis B I K]

/-- The default `ith` reads entry `i` of a dense projection, fails with an index error beyond the
dimension without projecting the input, passes on projection errors, and panics for infinite
dimensions. -/
theorem C84_default_ith (b : B) (x : I) (i : Nat) :
    (Space.dim b = .infinite → Panics (ithDefault b x i : P (Result K))) ∧
      ∀ n, Space.dim b = .finite n →
        (n ≤ i → ithDefault b x i = .ok (.error (Error.indexError i n) : Result K)) ∧
        (i < n → ∀ e, Basis.project b x = .ok (.error e) → ithDefault b x i = .ok (.error e)) ∧
        (i < n → ∀ φ, Basis.project b x = .ok (.ok φ) → dim φ = n →
          (φ.isDense = true ∨ ∀ j a, Stored φ j a → a = Scalar.one) →
          ithDefault b x i = .ok (.ok (value φ i))) := by
  refine ⟨fun h => ⟨.infiniteDim, ?_⟩, fun n h => ⟨fun hi => ?_, fun hi e he => ?_,
    fun hi φ hφ hd hu => ?_⟩⟩
  · simp only [ithDefault, h]; rfl
  · simp only [ithDefault, h]
    show checkIndex i n _ = _
    rw [checkIndex, if_neg (not_lt.2 hi)]
  · simp only [ithDefault, h]
    show checkIndex i n _ = _
    rw [checkIndex, if_pos hi, he]; rfl
  · simp only [ithDefault, h]
    show checkIndex i n _ = _
    have hn : i < φ.nFeatures := by
      have : φ.nFeatures = dim φ := by cases φ <;> rfl
      omega
    rw [checkIndex, if_pos hi, hφ]
    show (φ.index i).map Except.ok = _
    rw [C11_index_partial φ i hn hu]; rfl

/-- Over a basis with sparse projections the default `ith` reports 1 for every stored activation. -/
theorem C84_default_ith_sparse (b : B) (x : I) (i n : Nat) (h : Space.dim b = .finite n) (hi : i < n)
    (sa : SparseActivations K) (hp : Basis.project b x = .ok (.ok (.sparse sa))) (a : K)
    (ha : Stored (.sparse sa) i a) : ithDefault b x i = .ok (.ok (Scalar.one : K)) := by
  simp only [ithDefault, h]
  show checkIndex i n _ = _
  rw [checkIndex, if_pos hi, hp]
  show ((Features.sparse sa).index i).map Except.ok = _
  rw [(C11_index_sparse sa i).1 ⟨a, ha⟩]; rfl

end

/-! ## C85 index errors and the test comparison helpers -/

theorem split_at {c : Char} : ∀ {l₁ l₂ t₁ t₂ : List Char}, c ∉ l₁ → c ∉ l₂ →
    l₁ ++ c :: t₁ = l₂ ++ c :: t₂ → l₁ = l₂ ∧ t₁ = t₂
  | [], [], _, _, _, _, h => ⟨rfl, (List.cons.inj h).2⟩
  | [], d :: l, _, _, _, h₂, h => absurd ((List.cons.inj h).1 ▸ List.mem_cons_self) h₂
  | d :: l, [], _, _, h₁, _, h => absurd ((List.cons.inj h).1 ▸ List.mem_cons_self) h₁
  | d :: l, e :: l', _, _, h₁, h₂, h => by
    obtain ⟨h0, ht⟩ := List.cons.inj h
    obtain ⟨hl, ht'⟩ := split_at (fun hc => h₁ (List.mem_cons_of_mem _ hc))
      (fun hc => h₂ (List.mem_cons_of_mem _ hc)) ht
    exact ⟨by rw [h0, hl], ht'⟩

theorem paren_not_mem_repr (n : Nat) : ')' ∉ (Nat.repr n).toList := by
  intro h
  rw [Nat.toList_repr] at h
  have := Nat.isDigit_of_mem_toDigits (by decide) (by decide) h
  revert this
  decide

theorem parenthesised_inj {i j n m : Nat} {a b c : List Char}
    (h : a ++ (Nat.repr i).toList ++ ')' :: b ++ (Nat.repr n).toList ++ ')' :: c =
      a ++ (Nat.repr j).toList ++ ')' :: b ++ (Nat.repr m).toList ++ ')' :: c) :
    i = j ∧ n = m := by
  simp only [List.append_assoc, List.cons_append] at h
  obtain ⟨h₁, h₂⟩ := split_at (paren_not_mem_repr i) (paren_not_mem_repr j)
    (List.append_cancel_left h)
  obtain ⟨h₃, -⟩ := split_at (paren_not_mem_repr n) (paren_not_mem_repr m)
    (List.append_cancel_left h₂)
  exact ⟨Nat.repr_injective (String.toList_inj.1 h₁), Nat.repr_injective (String.toList_inj.1 h₃)⟩

/-- The index and the dimension can be read off an index error: different failing accesses give
different errors. All are of the basis kind. -/
theorem C85_index_error (i n j m : Nat) : (Error.indexError i n).kind = .basis ∧
    (Error.indexError i n = Error.indexError j m ↔ i = j ∧ n = m) := by
  refine ⟨rfl, fun h => ?_, fun ⟨h₁, h₂⟩ => by rw [h₁, h₂]⟩
  have e₁ : (") exceeded dimensionality (" : String).toList =
    ')' :: " exceeded dimensionality (".toList := by simp
  have e₂ : (") of the projection." : String).toList = ')' :: " of the projection.".toList := by
    simp
  have hm := congrArg (fun e => e.message.toList) h
  simp only [Error.indexError, String.toList_append, Nat.toString_eq_repr, e₁, e₂] at hm
  exact parenthesised_inj hm

/-- `compare_floats` holds exactly when entries at common positions are within the tolerance; surplus
entries of the longer list are never looked at. -/
theorem C85_compare_floats (a b : List K) (tol : K) : compareFloats a b tol = true ↔
    ∀ (i : Nat) (x y : K), a[i]? = some x → b[i]? = some y →
      Scalar.lt (Scalar.abs (x -. y)) tol = true := by
  simp only [compareFloats, List.all_eq_true]
  constructor
  · intro h i x y hx hy
    refine h (x, y) (List.mem_of_getElem? (i := i) ?_)
    rw [List.getElem?_zip_eq_some]
    exact ⟨hx, hy⟩
  · rintro h ⟨x, y⟩ hxy
    obtain ⟨i, hi⟩ := List.getElem?_of_mem hxy
    rw [List.getElem?_zip_eq_some] at hi
    exact h i x y hi.1 hi.2

theorem nan_gap (y : XReal) : ((XReal.nan : XReal) -. y) = .nan ∧ (y -. (XReal.nan : XReal)) = .nan := by
  cases y <;> exact ⟨rfl, rfl⟩

theorem lt_abs_nan (tol : XReal) : Scalar.lt (Scalar.abs (XReal.nan : XReal)) tol = false := rfl

theorem isNan_iff (x : XReal) : isNan x = true ↔ x = .nan := by
  cases x with
  | nan => exact ⟨fun _ => rfl, fun _ => rfl⟩
  | ninf => exact ⟨fun h => (by cases h), fun h => (by cases h)⟩
  | pinf => exact ⟨fun h => (by cases h), fun h => (by cases h)⟩
  | fin r =>
    refine ⟨fun h => ?_, fun h => by cases h⟩
    have : (!decide (r = r)) = true := h
    simp at this

/-- A NaN at a common position always fails `compare_floats`; `eq_with_nan_eq` accepts two NaNs and
rejects a NaN against a number. -/
theorem C85_nan (a b : List XReal) (tol x : XReal) :
    ((∃ i : Nat, (a[i]? = some .nan ∧ (b[i]?).isSome ∨ b[i]? = some .nan ∧ (a[i]?).isSome)) →
      compareFloats a b tol = false) ∧
      eqWithNanEq .nan .nan tol = true ∧
      (x ≠ .nan → eqWithNanEq .nan x tol = false ∧ eqWithNanEq x .nan tol = false) := by
  refine ⟨?_, rfl, fun hx => ?_⟩
  · rintro ⟨i, h⟩
    rw [Bool.eq_false_iff]
    intro hc
    rw [C85_compare_floats] at hc
    rcases h with ⟨h, hs⟩ | ⟨h, hs⟩ <;> obtain ⟨y, hy⟩ := Option.isSome_iff_exists.1 hs
    · have := hc i _ _ h hy
      rw [(nan_gap y).1, lt_abs_nan] at this
      cases this
    · have := hc i _ _ hy h
      rw [(nan_gap y).2, lt_abs_nan] at this
      cases this
  · have hn : isNan x = false := by
      rw [Bool.eq_false_iff]
      exact fun h => hx ((isNan_iff x).1 h)
    simp only [eqWithNanEq, hn, (nan_gap x).1, (nan_gap x).2, lt_abs_nan, Bool.and_false,
      Bool.false_and, Bool.or_false, and_self]

/-! ## Non-vacuity -/

/-- `f(0) = 0` keeps features sparse, `f(0) = 1` makes them dense. -/
example : Scalar.lt (Scalar.abs ((fun x : ℝ => 2 * x) (Scalar.zero : ℝ))) (Scalar.sci 1 5) = true ∧
    Scalar.lt (Scalar.abs ((fun x : ℝ => x + 1) (Scalar.zero : ℝ))) (Scalar.sci 1 5) = false := by
  constructor
  · show decide (|2 * ((0 : ℕ) : ℝ)| < ((1 : ℕ) : ℝ) / 10 ^ 5) = true
    norm_num
  · show decide (|((0 : ℕ) : ℝ) + 1| < ((1 : ℕ) : ℝ) / 10 ^ 5) = false
    norm_num

/-- A bounded space and a space without an upper bound. -/
example : Bounds [⟨some (0 : ℝ), some 1⟩, ⟨some (-1), some 2⟩] [(0, 1), (-1, 2)] ∧
    ∃ d ∈ [(⟨some (0 : ℝ), none⟩ : Interval ℝ)], d.inf = none ∨ d.sup = none :=
  ⟨.cons ⟨rfl, rfl⟩ (.cons ⟨rfl, rfl⟩ .nil), _, List.mem_cons_self, .inr rfl⟩

end Lfa

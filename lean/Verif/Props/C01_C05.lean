import Verif.Proofs.Features

/-!
# C01–C05: dense view, hash order, dot, matmul, addto
-/

set_option linter.unusedSectionVars false

namespace Lfa

open Spec Features

/-! ## C01 Dense view of features -/

/-- For well-formed features `to_dense` and `into_dense` return the activations of features
`0 … dim-1`. -/
theorem C01_dense_view {K : Type} [Scalar K] (φ : Features K) (h : WF φ) :
    φ.toDense = .ok (view φ) ∧ φ.intoDense = .ok (view φ) :=
  ⟨toDense_eq_view h, intoDense_eq_toDense φ ▸ toDense_eq_view h⟩

/-- The two conversions agree, also when they panic. -/
theorem C01_into_eq_to {K : Type} [Scalar K] (φ : Features K) : φ.intoDense = φ.toDense :=
  intoDense_eq_toDense φ

/-- Length and entries of the view: `n_features` entries; the stored activation, or 0. -/
theorem C01_view_entries {K : Type} [Scalar K] (φ : Features K) (h : KeysUnique φ) :
    (view φ).length = φ.nFeatures ∧
    (∀ i a, i < φ.nFeatures → Stored φ i a → (view φ)[i]? = some a) ∧
    (∀ i, i < φ.nFeatures → (∀ a, ¬ Stored φ i a) → (view φ)[i]? = some Scalar.zero) := by
  have hd : φ.nFeatures = dim φ := by cases φ <;> rfl
  refine ⟨by rw [view_length, hd], ?_, ?_⟩
  · intro i a hi hs
    rw [view_getElem?, if_pos (hd ▸ hi), value_of_stored h hs]
  · intro i hi hs
    rw [view_getElem?, if_pos (hd ▸ hi), value_of_not_stored hs]

/-- The conversion panics exactly when some stored index is `≥ n_features`. -/
theorem C01_panics_iff {K : Type} [Scalar K] (φ : Features K) (h : KeysUnique φ) :
    Panics φ.toDense ↔ ∃ i a, Stored φ i a ∧ φ.nFeatures ≤ i := by
  by_cases hwf : WF φ
  · rw [toDense_eq_view hwf]
    constructor
    · rintro ⟨p, hp⟩; cases hp
    · rintro ⟨i, a, hs, hi⟩
      exfalso
      cases φ with
      | dense da =>
        have h1 : da[i]? = some a := hs
        rw [List.getElem?_eq_none hi] at h1
        cases h1
      | sparse sa => exact absurd (hwf.2 _ hs) (Nat.not_lt.2 hi)
  · cases φ with
    | dense da => exact absurd trivial hwf
    | sparse sa =>
      obtain ⟨e, he, hl⟩ := not_wf_sparse h hwf
      constructor
      · intro _; exact ⟨e.1, e.2, he, hl⟩
      · intro _
        refine ⟨.indexOutOfBounds, ?_⟩
        show scatterSet id sa.activations (List.replicate sa.dim Scalar.zero) = _
        rw [scatterSet_eq_scatterMod]
        exact scatterMod_error _ ⟨e, he, by rw [List.length_replicate]; exact hl⟩

/-- A non-trivial well-formed sparse vector: `[1, 0, 5]`. -/
def exSparse : Features ℝ := .sparse ⟨3, [(2, 5), (0, 1)]⟩

theorem exSparse_wf : WF exSparse := by
  refine ⟨by decide, ?_⟩
  intro e he
  rcases List.mem_cons.1 he with rfl | he
  · decide
  · rcases List.mem_cons.1 he with rfl | he
    · decide
    · cases he

example : exSparse.toDense = .ok [1, 0, 5] := by
  rw [(C01_dense_view _ exSparse_wf).1]
  simp [view, exSparse, value, dim, List.range, List.range.loop]

example : Panics (Features.toDense (.sparse ⟨1, [(4, (2 : ℝ))]⟩)) :=
  (C01_panics_iff _ (by simp [KeysUnique])).2 ⟨4, 2, by simp [Stored], by decide⟩

/-! ## C02 Hash iteration order is unobservable -/

section C02
variable {K : Type} [Scalar K]

/-- Dense views, lookups, counts and the effect on weights do not depend on the order, in any
arithmetic. -/
theorem C02_order_irrelevant (φ ψ : Features K) (h : KeysUnique φ) (hs : Same φ ψ) :
    φ.toDense = ψ.toDense ∧ φ.nActive = ψ.nActive ∧ φ.nFeatures = ψ.nFeatures ∧
    (∀ i, φ.get i = ψ.get i) ∧ (∀ i, φ.index i = ψ.index i) ∧ (∀ i, φ.uget i = ψ.uget i) ∧
    (∀ w, φ.addto w = ψ.addto w) ∧ (∀ α w, φ.scaledAddto α w = ψ.scaledAddto α w) := by
  cases hs with
  | dense da => simp
  | @sparse n m₁ m₂ hp =>
    have h : m₁.NodupKeys := h
    refine ⟨scatterSet_perm _ h hp _, hp.length_eq, rfl, fun i => HMap.get?_perm h hp i,
      fun i => ?_, fun i => ?_, fun w => scatterMod_perm _ h hp w,
      fun α w => scatterMod_perm (fun w a => w +. α *. a) h hp w⟩
    · simp only [index, HMap.contains_perm h hp]
    · simp only [uget, HMap.get?_perm h hp]

/-- Removing an activation gives the same features up to hash order. -/
theorem C02_remove (φ ψ : Features K) (hs : Same φ ψ) (i : Nat) :
    Same (φ.remove i) (ψ.remove i) := by
  cases hs with
  | dense da => exact .dense _
  | sparse n hp => exact .sparse n (hp.filter _)

/-- Mapping gives the same outcome up to hash order. -/
theorem C02_map (φ ψ : Features K) (h : KeysUnique φ) (hs : Same φ ψ) (f : K → K) :
    SameP Same (φ.map f) (ψ.map f) := by
  cases hs with
  | dense da => exact .ok (.dense _)
  | @sparse n m₁ m₂ hp =>
    have h : m₁.NodupKeys := h
    unfold Features.map
    by_cases hf : sparsityPreserving f = true
    · simp only [hf, if_true]
      exact .ok (.sparse n (collect_perm (HMap.nodupKeys_map f h) (hp.map _)))
    · simp only [hf]
      rw [scatterSet_perm f h hp]
      cases scatterSet f m₂ (List.replicate n (f Scalar.zero)) with
      | error p => exact .panic p
      | ok a => exact .ok (.dense a)

/-- Stacking gives the same outcome up to hash order. -/
theorem C02_stack (φ φ' ψ ψ' : Features K) (h : KeysUnique φ) (h' : KeysUnique ψ)
    (hs : Same φ φ') (hs' : Same ψ ψ') : SameP Same (φ.stack ψ) (φ'.stack ψ') := by
  cases hs with
  | dense da =>
    cases hs' with
    | dense da' => exact .ok (.dense _)
    | @sparse n m₁ m₂ hp =>
      have h' : m₁.NodupKeys := h'
      show SameP Same (_ >>= _) (_ >>= _)
      simp only [intoDense, P.ok_bind, scatterSet_perm _ h' hp]
      cases scatterSet id m₂ (List.replicate n Scalar.zero) with
      | error p => exact .panic p
      | ok a => exact .ok (.dense _)
  | @sparse n m₁ m₂ hp =>
    have h : m₁.NodupKeys := h
    cases hs' with
    | dense da' =>
      show SameP Same (_ >>= _) (_ >>= _)
      simp only [intoDense, scatterSet_perm _ h hp]
      cases scatterSet id m₂ (List.replicate n Scalar.zero) with
      | error p => exact .panic p
      | ok a => exact .ok (.dense _)
    | @sparse n' m₁' m₂' hp' =>
      exact .ok (.sparse _ (foldl_insert_shift_perm n h hp h' hp'))

/-- Merging (both variants) gives the same outcome up to hash order. -/
theorem C02_merge (φ φ' ψ ψ' : Features K) (h : KeysUnique φ) (h' : KeysUnique ψ)
    (hs : Same φ φ') (hs' : Same ψ ψ') (f : K → K → K) :
    SameP Same (φ.merge ψ f) (φ'.merge ψ' f) ∧
      SameP Same (φ.mergeInto ψ f) (φ'.mergeInto ψ' f) := by
  have refl : ∀ x : P (List K), SameP Same (x >>= fun a => .ok (.dense a))
      (x >>= fun a => .ok (.dense a)) := by
    intro x
    cases x with
    | error p => exact .panic p
    | ok a => exact .ok (.dense a)
  cases hs with
  | dense da =>
    cases hs' with
    | dense da' => exact ⟨refl _, refl _⟩
    | @sparse n m₁ m₂ hp =>
      have h' : m₁.NodupKeys := h'
      simp only [merge, mergeInto, scatterMod_perm _ h' hp]
      exact ⟨refl _, refl _⟩
  | @sparse n m₁ m₂ hp =>
    have h : m₁.NodupKeys := h
    cases hs' with
    | dense da' =>
      simp only [merge, mergeInto, HMap.get?_perm h hp]
      exact ⟨refl _, .ok (.dense _)⟩
    | @sparse n' m₁' m₂' hp' =>
      exact ⟨.ok (mergeSparse_perm h hp h' hp' f), .ok (mergeSparse_perm h hp h' hp' f)⟩

/-- `fold` does not depend on the order, for closures insensitive to the order of two elements. -/
theorem C02_fold (φ ψ : Features K) (hs : Same φ ψ) (f : K → K → K)
    (hf : ∀ a x y, f (f a x) y = f (f a y) x) (z : K) : φ.fold z f = ψ.fold z f := by
  cases hs with
  | dense da => rfl
  | sparse n hp =>
    have : RightCommutative f := ⟨hf⟩
    exact (hp.map Prod.snd).foldl_eq z

/-- Exact arithmetic: `dot` and `sum` do not depend on the order. -/
theorem C02_dot_sum (φ ψ : Features ℝ) (hs : Same φ ψ) :
    φ.sum = ψ.sum ∧ ∀ w, φ.dot w = ψ.dot w := by
  cases hs with
  | dense da => exact ⟨rfl, fun _ => rfl⟩
  | @sparse n m₁ m₂ hp =>
    constructor
    · have : RightCommutative (fun a b : ℝ => a +. b) := ⟨fun a x y => by simp; ring⟩
      exact (hp.map Prod.snd).foldl_eq _
    · intro w
      show dotSparse _ _ = dotSparse _ _
      by_cases hr : ∀ e ∈ m₁, e.1 < w.length
      · rw [dotSparse_ok (sa := ⟨n, m₁⟩) hr,
          dotSparse_ok (sa := ⟨n, m₂⟩) fun e he => hr e (hp.mem_iff.2 he)]
        congr 1
        have : RightCommutative (fun (acc : ℝ) (e : Nat × ℝ) =>
            acc +. w.getD e.1 Scalar.zero *. e.2) := ⟨fun a x y => by simp; ring⟩
        exact hp.foldl_eq _
      · have : ∃ e ∈ m₁, w.length ≤ e.1 := by
          by_contra hc
          exact hr fun e he => Nat.lt_of_not_le fun hl => hc ⟨e, he, hl⟩
        obtain ⟨e, he, hl⟩ := this
        rw [dotSparse_error (sa := ⟨n, m₁⟩) ⟨e, he, hl⟩,
          dotSparse_error (sa := ⟨n, m₂⟩) ⟨e, hp.mem_iff.1 he, hl⟩]

end C02

/-- The same vector as `exSparse`, iterated in the other order. -/
example : Same exSparse (.sparse ⟨3, [(0, 1), (2, 5)]⟩) := .sparse 3 (List.Perm.swap _ _ _)

/-! ## C03 dot is the inner product -/

/-- Matching sizes: `dot` is `Σ φ_i w_i`, for both representations (exact arithmetic). -/
theorem C03_dot_eq_inner (φ : Features ℝ) (hφ : WF φ) (w : List ℝ) (h : dim φ = w.length) :
    φ.dot w = .ok (inner φ w) := dot_real hφ h

/-- Sparse features only need their stored indices to be in range. -/
theorem C03_dot_sparse_any_length (sa : SparseActivations ℝ) (hφ : WF (.sparse sa)) (w : List ℝ)
    (h : ∀ i a, Stored (.sparse sa) i a → i < w.length) :
    (Features.sparse sa).dot w = .ok (inner (.sparse sa) w) :=
  dotSparse_real hφ fun e he => h e.1 e.2 he

/-- Dense features panic exactly when the lengths differ (any arithmetic). -/
theorem C03_dense_panics_iff {K : Type} [Scalar K] (da w : List K) :
    Panics ((Features.dense da).dot w) ↔ da.length ≠ w.length := by
  show Panics (arrayDot da w) ↔ _
  unfold arrayDot
  by_cases h : da.length = w.length
  · rw [if_pos h]; simp [Panics, h]
  · rw [if_neg h]; simp [Panics, h]

/-- Sparse features panic exactly when a stored index is out of range (any arithmetic). -/
theorem C03_sparse_panics_iff {K : Type} [Scalar K] (sa : SparseActivations K) (w : List K) :
    Panics ((Features.sparse sa).dot w) ↔ ∃ i a, Stored (.sparse sa) i a ∧ w.length ≤ i := by
  show Panics (dotSparse sa w) ↔ _
  by_cases hr : ∀ e ∈ sa.activations, e.1 < w.length
  · rw [dotSparse_ok hr]
    constructor
    · rintro ⟨p, hp⟩; cases hp
    · rintro ⟨i, a, hs, hi⟩; exact absurd (hr _ hs) (Nat.not_lt.2 hi)
  · have : ∃ e ∈ sa.activations, w.length ≤ e.1 := by
      by_contra hc
      exact hr fun e he => Nat.lt_of_not_le fun hl => hc ⟨e, he, hl⟩
    obtain ⟨e, he, hl⟩ := this
    exact ⟨fun _ => ⟨e.1, e.2, he, hl⟩, fun _ => ⟨_, dotSparse_error ⟨e, he, hl⟩⟩⟩

example : exSparse.dot [10, 20, 30] = .ok 160 := by
  rw [C03_dot_eq_inner _ exSparse_wf _ rfl]
  simp [inner, exSparse, value, dim, Finset.sum_range_succ]
  norm_num

/-! ## C04 matmul is column-wise dot -/

theorem matmul_columns {K : Type} [Scalar K] (φ : Features K) (cols : List (List K))
    (ys : List K) (h : φ.matmul cols = .ok ys) :
    ys.length = cols.length ∧
      ∀ (j : Nat) c, cols[j]? = some c → ∃ y, ys[j]? = some y ∧ φ.dotColumn cols.length c = .ok y := by
  unfold Features.matmul at h
  have h := (mapM_ok_iff _ _ _).1 h
  refine ⟨h.length_eq.symm, ?_⟩
  generalize cols.length = m at h
  clear * - h
  induction h with
  | nil => intro j c hc; simp at hc
  | cons h1 _ ih =>
    intro j c hc
    cases j with
    | zero => simp at hc; subst hc; exact ⟨_, rfl, h1⟩
    | succ j => simp at hc; simpa using ih j c hc

theorem dotColumn_eq_dot {K : Type} [Scalar K] {m : Nat} {φ : Features K} {c : List K}
    (h : φ.isSparse = true ∨ m = 1 ∨ c.length ≤ 1 ∨ OneOrder K) : φ.dotColumn m c = φ.dot c := by
  rcases h with h | rfl | h | h
  · cases φ with
    | dense da => cases h
    | sparse sa => rfl
  · exact dotColumn_one φ c
  · exact dotColumn_short m φ h
  · cases φ with
    | dense da =>
      rw [dotColumn_dense]
      split_ifs
      · rfl
      · show stridedDot da c = arrayDot da c
        unfold stridedDot arrayDot
        split_ifs with hl
        · rw [← h da c hl]; rfl
        · rfl
    | sparse sa => rfl

/-- One output per column. The `j`-th is `dot` with column `j`, in any arithmetic, for sparse features, for a matrix with one
column or row, and whenever the sum of a list of products does not depend on its order; otherwise the products are added from
left to right, where `dot` with a vector uses an order of its own. -/
theorem C04_matmul_columns {K : Type} [Scalar K] (φ : Features K) (cols : List (List K))
    (ys : List K) (h : φ.matmul cols = .ok ys) :
    ys.length = cols.length ∧
      ∀ (j : Nat) c, cols[j]? = some c → ∃ y v, ys[j]? = some y ∧ φ.dot c = .ok v ∧
        (φ.isSparse = true ∨ cols.length = 1 ∨ c.length ≤ 1 ∨ OneOrder K → y = v) ∧
        ∀ da, φ = .dense da → 2 ≤ cols.length → 2 ≤ c.length → y = inTurn da c := by
  obtain ⟨hl, hc⟩ := matmul_columns φ cols ys h
  refine ⟨hl, fun j c hj => ?_⟩
  obtain ⟨y, hy, hd⟩ := hc j c hj
  cases hv : φ.dot c with
  | error p =>
    rw [(dotColumn_error_iff _ φ c p).2 hv] at hd
    cases hd
  | ok v =>
    refine ⟨y, v, hy, rfl, fun hs => ?_, fun da hda h2 h3 => ?_⟩
    · rw [dotColumn_eq_dot hs, hv] at hd
      cases hd; rfl
    · subst hda
      rw [dotColumn_dense, if_neg (by omega)] at hd
      unfold stridedDot at hd
      split_ifs at hd
      cases hd; rfl

/-- Real arithmetic is such an arithmetic. -/
theorem C04_real_order : OneOrder ℝ := by
  intro xs ys _
  rw [real_dot, List.sum_eq_foldl]
  show List.foldl _ Scalar.zero _ = _
  rw [real_zero]
  rfl

/-- `matmul` panics exactly when `dot` with one of the columns does. -/
theorem C04_matmul_panics_iff {K : Type} [Scalar K] (φ : Features K) (cols : List (List K)) :
    Panics (φ.matmul cols) ↔ ∃ c ∈ cols, Panics (φ.dot c) := by
  unfold Features.matmul
  rw [mapM_panics_iff]
  refine exists_congr fun c => and_congr_right fun _ => ?_
  constructor
  · rintro ⟨p, hp⟩; exact ⟨p, (dotColumn_error_iff _ _ _ _).1 hp⟩
  · rintro ⟨p, hp⟩; exact ⟨p, (dotColumn_error_iff _ _ _ _).2 hp⟩

/-- Matching sizes: the product with the matrix, column by column (exact arithmetic). -/
theorem C04_matmul_real (φ : Features ℝ) (hφ : WF φ) (cols : List (List ℝ))
    (h : ∀ c ∈ cols, dim φ = c.length) : φ.matmul cols = .ok (cols.map (inner φ)) := by
  rw [matmul_eq_real]
  refine (mapM_ok_iff _ _ _).2 ?_
  rw [List.forall₂_map_right_iff, List.forall₂_same]
  intro c hc
  exact dot_real hφ (h c hc)

example : ∀ c ∈ [[1, 2, 3], [4, 5, (6 : ℝ)]], dim exSparse = c.length := by
  intro c hc; simp at hc; rcases hc with rfl | rfl <;> rfl

/-! ## C05 addto / scaled_addto -/

/-- Any arithmetic: active weights move by `alpha * a`, all others keep their value. -/
theorem C05_scaled_addto {K : Type} [Scalar K] (φ : Features K) (hφ : WF φ) (α : K) (w : List K)
    (h : dim φ = w.length) :
    ∃ w', φ.scaledAddto α w = .ok w' ∧ w'.length = w.length ∧
      (∀ i x a, w[i]? = some x → Stored φ i a → w'[i]? = some (x +. α *. a)) ∧
      (∀ i, (∀ a, ¬ Stored φ i a) → w'[i]? = w[i]?) := by
  cases φ with
  | dense da =>
    have h : da.length = w.length := h
    refine ⟨_, zipMutWith_of_eq h _, by simp [h], ?_, ?_⟩
    · intro i x a hx ha
      have ha : da[i]? = some a := ha
      simp [List.getElem?_zipWith, hx, ha]
    · intro i hs
      have : da[i]? = none := by
        rcases hd : da[i]? with _ | a
        · rfl
        · exact absurd hd (hs a)
      have hw : w[i]? = none := by
        rw [List.getElem?_eq_none_iff] at this ⊢; omega
      simp [List.getElem?_zipWith, hw]
  | sparse sa =>
    have h : sa.dim = w.length := h
    refine ⟨_, scatterMod_ok (fun w a => w +. α *. a) hφ.1 fun e he => h ▸ hφ.2 e he, by simp, ?_, ?_⟩
    · intro i x a hx ha
      rw [scatterAll_getElem?, hx, HMap.get?_of_mem hφ.1 (show (i, a) ∈ sa.activations from ha)]
      rfl
    · intro i hs
      have : HMap.get? sa.activations i = none := by
        rcases hd : HMap.get? sa.activations i with _ | a
        · rfl
        · exact absurd (HMap.mem_of_get? hd) (hs a)
      rw [scatterAll_getElem?, this]
      cases w[i]? <;> rfl

/-- The same for `addto`. -/
theorem C05_addto {K : Type} [Scalar K] (φ : Features K) (hφ : WF φ) (w : List K)
    (h : dim φ = w.length) :
    ∃ w', φ.addto w = .ok w' ∧ w'.length = w.length ∧
      (∀ i x a, w[i]? = some x → Stored φ i a → w'[i]? = some (x +. a)) ∧
      (∀ i, (∀ a, ¬ Stored φ i a) → w'[i]? = w[i]?) := by
  cases φ with
  | dense da =>
    have h : da.length = w.length := h
    refine ⟨_, zipMutWith_of_eq h _, by simp [h], ?_, ?_⟩
    · intro i x a hx ha
      have ha : da[i]? = some a := ha
      simp [List.getElem?_zipWith, hx, ha]
    · intro i hs
      have : da[i]? = none := by
        rcases hd : da[i]? with _ | a
        · rfl
        · exact absurd hd (hs a)
      have hw : w[i]? = none := by
        rw [List.getElem?_eq_none_iff] at this ⊢; omega
      simp [List.getElem?_zipWith, hw]
  | sparse sa =>
    have h : sa.dim = w.length := h
    refine ⟨_, scatterMod_ok _ hφ.1 fun e he => h ▸ hφ.2 e he, by simp, ?_, ?_⟩
    · intro i x a hx ha
      rw [scatterAll_getElem?, hx, HMap.get?_of_mem hφ.1 (show (i, a) ∈ sa.activations from ha)]
      rfl
    · intro i hs
      have : HMap.get? sa.activations i = none := by
        rcases hd : HMap.get? sa.activations i with _ | a
        · rfl
        · exact absurd (HMap.mem_of_get? hd) (hs a)
      rw [scatterAll_getElem?, this]
      cases w[i]? <;> rfl

/-- Exact arithmetic: every weight becomes `w_i + alpha * φ_i`. -/
theorem C05_scaled_addto_real (φ : Features ℝ) (hφ : WF φ) (α : ℝ) (w : List ℝ)
    (h : dim φ = w.length) :
    φ.scaledAddto α w = .ok (w.mapIdx fun i x => x + α * value φ i) := by
  obtain ⟨w', h1, hl, hs, hu⟩ := C05_scaled_addto φ hφ α w h
  rw [h1]
  congr 1
  apply List.ext_getElem?
  intro i
  rw [List.getElem?_mapIdx]
  by_cases hst : ∃ a, Stored φ i a
  · obtain ⟨a, ha⟩ := hst
    rcases hx : w[i]? with _ | x
    · have : w'[i]? = none := by rw [List.getElem?_eq_none_iff] at hx ⊢; omega
      rw [this]; rfl
    · rw [hs i x a hx ha, value_of_stored (keysUnique_of_wf hφ) ha]; rfl
  · have hst : ∀ a, ¬ Stored φ i a := fun a ha => hst ⟨a, ha⟩
    rw [hu i hst, value_of_not_stored hst]
    cases w[i]? <;> simp

/-- Exact arithmetic: `addto` is `scaled_addto` with factor 1. -/
theorem C05_addto_eq_scaled (φ : Features ℝ) (w : List ℝ) : φ.addto w = φ.scaledAddto 1 w := by
  cases φ <;> simp [addto, scaledAddto]

/-- The sizes need not match for dense features of length one: `ndarray` broadcasts them to every
weight, so the hypothesis `dim φ = w.length` above cannot be dropped. -/
theorem C05_dense_broadcasts {K : Type} [Scalar K] (a α : K) (w : List K) (h : w.length ≠ 1) :
    (Features.dense [a]).scaledAddto α w = .ok (w.map fun x => x +. α *. a) := by
  show zipMutWith w [a] _ = _
  unfold zipMutWith broadcast
  rw [if_neg (by simpa using Ne.symm h), P.ok_bind]
  congr 1
  apply List.ext_getElem?
  intro i
  rw [List.getElem?_zipWith, List.getElem?_map, List.getElem?_replicate]
  rcases hw : w[i]? with _ | x
  · rfl
  · have : i < w.length := by
      by_contra hc
      rw [List.getElem?_eq_none (Nat.le_of_not_lt hc)] at hw; cases hw
    rw [if_pos this]; rfl

example : exSparse.scaledAddto 2 [10, 20, 30] = .ok [12, 20, 40] := by
  rw [C05_scaled_addto_real _ exSparse_wf _ _ rfl]
  simp [exSparse, value, List.mapIdx_cons]
  norm_num

end Lfa

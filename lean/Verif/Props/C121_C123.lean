import Verif.Model.Memory
import Verif.Props.C17_C22

/-!
# C121-C123: the `unsafe` blocks
-/

set_option linter.unusedSectionVars false

namespace Lfa

open Spec Features

variable {K : Type} [Scalar K]

/-! ## Lemmas -/

theorem Mem.ok_bind {α β : Type} (a : α) (f : α → Mem β) : (Except.ok a >>= f : Mem β) = f a := rfl

theorem Mem.error_bind {α β : Type} (e : Fault) (f : α → Mem β) :
    (Except.error e >>= f : Mem β) = .error e := rfl

theorem Mem.lift_ne_undefined {α : Type} (x : P α) : Mem.lift x ≠ .error .undefined := by
  cases x <;> simp [Mem.lift]

theorem Mem.lift_bind {α β : Type} (x : P α) (f : α → P β) :
    Mem.lift (x >>= f) = (Mem.lift x >>= fun a => Mem.lift (f a)) := by
  cases x <;> rfl

theorem assumeInit_map_some (vs : List K) : UArray.assumeInit (vs.map some) = .ok vs := by
  induction vs with
  | nil => rfl
  | cons v vs ih =>
    show (UArray.assumeInit (vs.map some) >>= fun vs => Except.ok (v :: vs)) = _
    rw [ih]; rfl

theorem fill_aux (g : Nat → P K) (m : Nat) : ∀ vs : List K,
    (List.range' vs.length m).foldlM (fun (phi : UArray K) i => do
        let v ← Mem.lift (g i)
        UArray.write phi i v) (vs.map some ++ List.replicate m none) =
      (Mem.lift ((List.range' vs.length m).mapM g) >>= fun ws =>
        Except.ok ((vs ++ ws).map some)) := by
  induction m with
  | zero => intro vs; simp [Mem.lift, pure, Except.pure, Mem.ok_bind]
  | succ m ih =>
    intro vs
    rw [List.range'_succ, List.foldlM_cons, List.mapM_cons, Mem.lift_bind]
    cases h : g vs.length with
    | error p => rfl
    | ok v =>
      have hw : UArray.write (vs.map some ++ List.replicate (m + 1) none) vs.length v =
          .ok ((vs ++ [v]).map some ++ List.replicate m none) := by
        unfold UArray.write
        rw [setIdx_of_lt (by simp)]
        show Except.ok _ = Except.ok _
        congr 1
        rw [List.set_append_right _ _ (by simp)]
        simp [List.replicate_succ]
      have hi := ih (vs ++ [v])
      rw [List.length_append, List.length_singleton] at hi
      simp only [Mem.lift, Mem.ok_bind] at hi ⊢
      rw [hw, Mem.ok_bind, hi]
      cases hm : (List.range' (vs.length + 1) m).mapM g with
      | error p => rfl
      | ok ws => simp [Mem.ok_bind, P.ok_bind, pure, Except.pure]

/-- Filling an uninitialised array cell by cell and then assuming it initialised is collecting the
values. -/
theorem fill (g : Nat → P K) (n : Nat) :
    ((List.range n).foldlM (fun (phi : UArray K) i => do
        let v ← Mem.lift (g i)
        UArray.write phi i v) (UArray.uninit n) >>= fun phi => UArray.assumeInit phi) =
      Mem.lift ((List.range n).mapM g) := by
  have h := fill_aux g n []
  rw [List.length_nil, ← List.range_eq_range'] at h
  rw [show (UArray.uninit n : UArray K) = [].map some ++ List.replicate n none from rfl, h]
  cases (List.range n).mapM g with
  | error p => rfl
  | ok ws =>
    show UArray.assumeInit (([] ++ ws).map some) = _
    rw [List.nil_append, assumeInit_map_some]; rfl

theorem mapM_total {α β : Type} (g : α → β) (xs : List α) :
    xs.mapM (fun a => (.ok (g a) : P β)) = .ok (xs.map g) := by
  induction xs with
  | nil => rfl
  | cons x xs ih => rw [List.mapM_cons, ih]; rfl

theorem foldlM_total {α β : Type} (g : β → α → β) (xs : List α) : ∀ b : β,
    xs.foldlM (fun b a => (.ok (g b a) : P β)) b = .ok (xs.foldl g b) := by
  induction xs with
  | nil => intro b; rfl
  | cons x xs ih => intro b; rw [List.foldlM_cons]; exact ih _

theorem mapIntoMem_total (φ : Features K) (f : K → K) :
    φ.mapIntoMem (fun x => .ok (f x)) = φ.mapInto f := by
  cases φ with
  | dense da => simp only [mapIntoMem, mapM_total, P.ok_bind, mapInto]
  | sparse sa =>
    simp only [mapIntoMem, mapInto, P.ok_bind]
    by_cases h : sparsityPreserving f = true
    · rw [if_pos h, if_pos (show Scalar.lt (Scalar.abs (f Scalar.zero)) (Scalar.sci 1 5) = true from h),
        mapM_total (fun e : Nat × K => (e.1, f e.2))]; rfl
    · rw [if_neg h, if_neg (show ¬ Scalar.lt (Scalar.abs (f Scalar.zero)) (Scalar.sci 1 5) = true
        from h)]; rfl

theorem zipMutWithMem_total (xs ys : List K) (f : K → K → K) :
    zipMutWithMem xs ys (fun x y => .ok (f x y)) = zipMutWith xs ys f := by
  unfold zipMutWithMem zipMutWith
  congr 1; funext zs
  rw [mapM_total (fun e : K × K => f e.1 e.2), List.map_zip_eq_zipWith]
  rfl

theorem scatterModMem_total (f : K → K → K) (es : List (Nat × K)) (w : List K) :
    scatterModMem (fun x y => .ok (f x y)) es w = scatterMod f es w := rfl

theorem mergeSparseMem_total (sa₁ sa₂ : SparseActivations K) (f : K → K → K) :
    mergeSparseMem sa₁ sa₂ (fun x y => .ok (f x y)) = .ok (mergeSparse sa₁ sa₂ f) := by
  unfold mergeSparseMem mergeSparse
  simp only [P.ok_bind]
  rw [mapM_total (fun e : Nat × K => (e.1, f e.2 ((sa₂.activations.get? e.1).getD Scalar.zero)))]
  simp only [P.ok_bind]
  have h : (fun (m : HMap K) (e : Nat × K) => if HMap.contains m e.1 then (.ok m : P (HMap K))
      else .ok (HMap.insert m e.1 (f Scalar.zero e.2))) =
      fun m e => .ok (HMap.orInsert m e.1 (f Scalar.zero e.2)) := by
    funext m e
    unfold HMap.orInsert
    split <;> rfl
  rw [h, foldlM_total]; rfl

/-! ## C122: no merge reads an unwritten cell -/

/-- The merge of two features with a closure that may panic never reads a cell it has not written,
whatever the sizes, the stored indices, the closure and the arguments it panics on. -/
theorem C122_merge_defined (φ ψ : Features K) (f : K → K → P K) :
    φ.mergeMem ψ f ≠ .error .undefined ∧ φ.mergeIntoMem ψ f ≠ .error .undefined := by
  have lifted : ∀ {α : Type} (x : P α) (g : α → Features K),
      (Mem.lift x >>= fun a => Except.ok (g a) : Mem (Features K)) ≠ .error .undefined := by
    intro α x g
    cases x <;> simp [Mem.lift, Mem.ok_bind, Mem.error_bind]
  cases φ with
  | dense da₁ => cases ψ with
    | dense da₂ => exact ⟨lifted _ _, lifted _ _⟩
    | sparse sa₂ => exact ⟨lifted _ _, lifted _ _⟩
  | sparse sa₁ => cases ψ with
    | sparse sa₂ => exact ⟨lifted _ _, lifted _ _⟩
    | dense da₂ =>
      have key : ∀ (g : Nat → P K) (n : Nat),
          ((List.range n).foldlM (fun (phi : UArray K) i => do
            let v ← Mem.lift (g i)
            UArray.write phi i v) (UArray.uninit n) >>= fun phi => do
              let vs ← UArray.assumeInit phi
              Except.ok (Features.dense vs)) ≠ .error .undefined := by
        intro g n
        have h := fill g n
        rw [← bind_assoc, h]
        exact lifted _ _
      refine ⟨?_, key _ _⟩
      have h := key (fun i => do
        let y ← idx da₂ i
        f ((sa₁.activations.get? i).getD Scalar.zero) y) (Max.max sa₁.dim da₂.length)
      simp only [Mem.lift_bind, bind_assoc] at h
      exact h

/-- With a closure that returns, the memory-level merge computes the value-level one: the array that
is declared initialised holds exactly the merged activations. -/
theorem C122_merge_value (φ ψ : Features K) (f : K → K → K) :
    φ.mergeMem ψ (fun x y => .ok (f x y)) = Mem.lift (φ.merge ψ f) ∧
      φ.mergeIntoMem ψ (fun x y => .ok (f x y)) = Mem.lift (φ.mergeInto ψ f) := by
  cases φ with
  | dense da₁ => cases ψ with
    | dense da₂ =>
      constructor <;>
      · simp only [mergeMem, mergeIntoMem, merge, mergeInto, zipMutWithMem_total, Mem.lift_bind]
        rfl
    | sparse sa₂ =>
      constructor <;>
      · simp only [mergeMem, mergeIntoMem, merge, mergeInto, scatterModMem_total, Mem.lift_bind]
        rfl
  | sparse sa₁ => cases ψ with
    | sparse sa₂ =>
      constructor <;>
      · simp only [mergeMem, mergeIntoMem, merge, mergeInto, mergeSparseMem_total]
        rfl
    | dense da₂ =>
      constructor
      · have h := fill (fun i => do
          let y ← idx da₂ i
          .ok (f ((sa₁.activations.get? i).getD Scalar.zero) y)) (Max.max sa₁.dim da₂.length)
        simp only [Mem.lift_bind, bind_assoc] at h
        simp only [mergeMem, merge, Mem.lift_bind]
        rw [← h]
        simp only [bind_assoc]; rfl
      · have h := fill (fun i => .ok (f ((sa₁.activations.get? i).getD Scalar.zero)
          (da₂[i]?.getD Scalar.zero))) (Max.max sa₁.dim da₂.length)
        rw [mapM_total] at h
        simp only [mergeIntoMem, mergeInto]
        rw [← bind_assoc, h]; rfl

/-- What is ruled out: declaring an array initialised is undefined as soon as one cell has not been written, and
otherwise gives exactly what was written. -/
theorem C122_detected (phi : UArray K) :
    (UArray.assumeInit phi = .error .undefined ↔ none ∈ phi) ∧
    (∀ vs, UArray.assumeInit phi = .ok vs ↔ phi = vs.map some) := by
  have hu : none ∈ phi → UArray.assumeInit phi = .error .undefined := by
    induction phi with
    | nil => intro h; cases h
    | cons c phi ih =>
      intro h
      rcases c with _ | v
      · rfl
      · show (UArray.assumeInit phi >>= fun vs => Except.ok (v :: vs)) = _
        rw [ih (by simpa using h)]; rfl
  have hd : none ∉ phi → ∃ vs : List K, phi = vs.map some := by
    intro h
    refine ⟨phi.filterMap id, ?_⟩
    clear hu
    induction phi with
    | nil => rfl
    | cons c phi ih =>
      rcases c with _ | v
      · simp at h
      · rw [List.filterMap_cons_some (f := id) (b := v) rfl, List.map_cons, ← ih fun hm => h (.tail _ hm)]
  refine ⟨⟨fun h => ?_, hu⟩, fun vs => ⟨fun h => ?_, fun h => by rw [h]; exact assumeInit_map_some vs⟩⟩
  · by_contra hn
    obtain ⟨vs, rfl⟩ := hd hn
    rw [assumeInit_map_some] at h; cases h
  · by_cases hn : none ∈ phi
    · rw [hu hn] at h; cases h
    · obtain ⟨vs', rfl⟩ := hd hn
      rw [assumeInit_map_some] at h; cases h; rfl

example : (none : Option ℝ) ∈ (UArray.uninit 2 : UArray ℝ) := List.mem_cons_self

/-! ## C121: in-place operations -/

/-- A call that respects the validity of values: the caller's place holds features afterwards, and
only features are destroyed. -/
def Sound (c : Call K) : Prop :=
  (∃ φ, c.place = .features φ) ∧ ∀ s ∈ c.dropped, ∃ φ, s = .features φ

/-- A returning call of `map_inplace` stores what `map_into` returns; a returning call of
`merge_inplace` stores what `merge_into` returns. -/
theorem C121_returned_partial (φ ψ : Features K) (f : K → K) (g : K → K → K) :
    (∀ χ, φ.mapInto f = .ok χ → (φ.mapInplaceMem fun x => .ok (f x)) =
      { outcome := .ok (), place := .features χ, dropped := [.zeroed] }) ∧
    (∀ χ, φ.mergeInto ψ g = .ok χ → (φ.mergeInplaceMem ψ fun x y => .ok (g x y)) =
      { outcome := .ok (), place := .features χ, dropped := [.zeroed] }) := by
  constructor
  · intro χ h
    simp only [mapInplaceMem, inplace, mapIntoMem_total, h, Mem.lift]
  · intro χ h
    simp only [mergeInplaceMem, inplace, (C122_merge_value φ ψ g).2, h, Mem.lift]

/-- Whatever the features and the closure, the place holds features after the call exactly when the
call returned. -/
theorem C121_place_iff (φ : Features K) (op : Features K → Mem (Features K)) :
    (∃ χ, (φ.inplace op).place = .features χ) ↔ (φ.inplace op).outcome = .ok () := by
  unfold inplace
  cases op φ <;> simp

/-- No call is sound: a returning call destroys a zeroed value, an unwinding one leaves it behind. -/
theorem C121_never_sound (φ ψ : Features K) (f : K → P K) (g : K → K → P K) :
    ¬ Sound (φ.mapInplaceMem f) ∧ ¬ Sound (φ.mergeInplaceMem ψ g) := by
  have key : ∀ op : Features K → Mem (Features K), ¬ Sound (φ.inplace op) := by
    intro op ⟨h₁, h₂⟩
    unfold inplace at h₁ h₂
    cases h : op φ with
    | ok χ =>
      rw [h] at h₂
      obtain ⟨χ', h'⟩ := h₂ .zeroed (by simp)
      cases h'
    | error e =>
      rw [h] at h₁
      obtain ⟨χ', h'⟩ := h₁
      cases h'
  exact ⟨key _, key _⟩

/-- `map_inplace` on dense features leaves a zeroed value exactly when the closure panics on one of
the activations. -/
theorem C121_map_dense_lost_iff (da : List K) (f : K → P K) :
    (mapInplaceMem (.dense da) f).place = .zeroed ↔ ∃ x ∈ da, Panics (f x) := by
  have h := mapM_panics_iff f da
  unfold mapInplaceMem inplace
  unfold Panics at h ⊢
  simp only [mapIntoMem]
  cases hm : da.mapM f with
  | ok l =>
    rw [hm] at h
    constructor
    · intro h'; simp [P.ok_bind, Mem.lift] at h'
    · intro h'
      obtain ⟨p, hp⟩ := h.2 h'
      cases hp
  | error p =>
    exact ⟨fun _ => h.1 ⟨p, hm⟩, fun _ => rfl⟩

theorem foldlM_set_panics_iff (f : K → P K) (es : List (Nat × K)) : ∀ w : List K,
    Panics (es.foldlM (fun w e => do
      let v ← f e.2
      setIdx w e.1 v) w) ↔ ∃ e ∈ es, Panics (f e.2) ∨ w.length ≤ e.1 := by
  induction es with
  | nil => intro w; simp [Panics, pure, Except.pure]
  | cons e es ih =>
    intro w
    rw [List.foldlM_cons]
    cases h : f e.2 with
    | error p => exact ⟨fun _ => ⟨e, by simp, .inl ⟨p, h⟩⟩, fun _ => ⟨p, rfl⟩⟩
    | ok v =>
      rw [P.ok_bind]
      by_cases hl : e.1 < w.length
      · rw [setIdx_of_lt hl, P.ok_bind, ih, List.length_set]
        constructor
        · rintro ⟨e', he, h'⟩; exact ⟨e', List.mem_cons_of_mem _ he, h'⟩
        · rintro ⟨e', he, h'⟩
          rcases List.mem_cons.1 he with rfl | he
          · rcases h' with ⟨p, hp⟩ | h'
            · rw [h] at hp; cases hp
            · omega
          · exact ⟨e', he, h'⟩
      · rw [setIdx_of_ge (by omega)]
        exact ⟨fun _ => ⟨e, by simp, .inr (by omega)⟩, fun _ => ⟨_, rfl⟩⟩

/-- `map_inplace` on sparse features leaves a zeroed value exactly when the closure panics on zero or
on a stored activation, or when the features have to be made dense and a stored index does not
fit. -/
theorem C121_map_sparse_lost_iff (sa : SparseActivations K) (f : K → P K) :
    (mapInplaceMem (.sparse sa) f).place = .zeroed ↔
      Panics (f Scalar.zero) ∨ ∃ e ∈ sa.activations, Panics (f e.2) ∨
        (∃ z, f Scalar.zero = .ok z ∧ Scalar.lt (Scalar.abs z) (Scalar.sci 1 5) = false ∧
          sa.dim ≤ e.1) := by
  have place : ∀ x : P (Features K), (inplace (.sparse sa) fun _ => Mem.lift x).place = .zeroed ↔
      Panics x := by
    intro x
    cases x with
    | ok χ => simp [inplace, Mem.lift, Panics]
    | error p => simp [inplace, Mem.lift, Panics]
  have bind_ok : ∀ {α : Type} (x : P α) (g : α → Features K),
      Panics (x >>= fun a => .ok (g a)) ↔ Panics x := by
    intro α x g
    cases x with
    | ok a => simp [Panics, P.ok_bind]
    | error p => simp [Panics, P.error_bind]
  rw [show mapInplaceMem (.sparse sa) f =
    inplace (.sparse sa) fun _ => Mem.lift (mapIntoMem (.sparse sa) f) from rfl, place]
  simp only [mapIntoMem]
  cases hz : f Scalar.zero with
  | error p =>
    exact ⟨fun _ => .inl ⟨p, rfl⟩, fun _ => ⟨p, rfl⟩⟩
  | ok z =>
    rw [P.ok_bind]
    have hno : ¬ Panics (Except.ok z : P K) := by rintro ⟨p, h⟩; cases h
    simp only [hno, false_or, Except.ok.injEq, exists_eq_left']
    by_cases hs : Scalar.lt (Scalar.abs z) (Scalar.sci 1 5) = true
    · rw [if_pos hs, bind_ok, mapM_panics_iff]
      have : ∀ e : Nat × K, Panics (f e.2 >>= fun v => (.ok (e.1, v) : P (Nat × K))) ↔
          Panics (f e.2) := by
        intro e
        cases f e.2 with
        | ok a => simp [Panics, P.ok_bind]
        | error p => simp [Panics, P.error_bind]
      simp [this, hs]
    · rw [if_neg hs, bind_ok, foldlM_set_panics_iff]
      simp [Bool.not_eq_true _ ▸ hs]

/-- `merge_inplace` with a closure that never panics still loses the features: exactly when
`merge_into` panics, on a stored index or a length that does not fit. -/
theorem C121_merge_lost_iff (φ ψ : Features K) (g : K → K → K) :
    (φ.mergeInplaceMem ψ fun x y => .ok (g x y)).place = .zeroed ↔ Panics (φ.mergeInto ψ g) := by
  simp only [mergeInplaceMem, inplace, (C122_merge_value φ ψ g).2]
  cases h : φ.mergeInto ψ g with
  | ok χ =>
    constructor
    · intro h'; cases h'
    · rintro ⟨p, hp⟩; cases hp
  | error p => exact ⟨fun _ => ⟨p, rfl⟩, fun _ => rfl⟩

/-- Two dense vectors of lengths 2 and 3: the caller of `merge_inplace` is left with a zeroed value. -/
example (a b c d e : K) (g : K → K → K) :
    (mergeInplaceMem (.dense [a, b]) (.dense [c, d, e]) fun x y => .ok (g x y)).place =
      .zeroed := rfl

/-- A closure that panics on the second activation. -/
example (a b : K) (p : Panic) (f : K → P K) (_ : f a = .ok a) (hb : f b = .error p) :
    (mapInplaceMem (.dense [a, b]) f).place = .zeroed :=
  (C121_map_dense_lost_iff [a, b] f).2 ⟨b, by simp, p, hb⟩

/-! ## C123: the unchecked read of `L0Normaliser::ith` -/

section Ith
variable {B I : Type} [Space B] [Basis B I K]

theorem ithMem_eq (b : B) (input : I) (φ : Features K) (n i : Nat)
    (hp : Basis.project b input = .ok (.ok φ)) (hn : Space.dim b = .finite n) (hi : i < n) :
    (L0Normaliser.mk b).ithMem (K := K) input i = (φ.ugetMem i >>= fun o =>
      Mem.lift (unwrap o) >>= fun a => .ok (.ok (a /. Scalar.ofNat φ.nActive))) := by
  unfold L0Normaliser.ithMem
  simp only [hn, Dim.toUsize, Mem.lift, Mem.ok_bind, if_pos hi, hp]

/-- `ith` of an L0-normalised basis reads past the end of an array exactly when the inner basis
returns fewer dense activations than its `dim()` and the index lies between the two. -/
theorem C123_undefined_iff (b : B) (input : I) (i : Nat) :
    (L0Normaliser.mk b).ithMem (K := K) input i = .error .undefined ↔
      ∃ n da, Space.dim b = .finite n ∧ Basis.project b input = .ok (.ok (.dense da)) ∧
        da.length ≤ i ∧ i < n := by
  cases hn : Space.dim b with
  | infinite =>
    simp [L0Normaliser.ithMem, hn, Dim.toUsize, Mem.lift, Mem.error_bind]
  | finite n =>
    by_cases hi : i < n
    · cases hp : (Basis.project b input : P (Result (Features K))) with
      | error p =>
        simp [L0Normaliser.ithMem, hn, Dim.toUsize, Mem.lift, Mem.error_bind, Mem.ok_bind, hi, hp]
      | ok r => cases r with
        | error e =>
          simp [L0Normaliser.ithMem, hn, Dim.toUsize, Mem.lift, Mem.ok_bind, hi, hp]
        | ok φ =>
          rw [ithMem_eq b input φ n i hp hn hi]
          cases φ with
          | sparse sa =>
            have : ∀ o : Option K, (Mem.lift (unwrap o) >>= fun a =>
                (.ok (.ok (a /. Scalar.ofNat (Features.sparse sa).nActive)) : Mem (Result K))) ≠
                .error .undefined := by
              intro o; cases o <;> simp [unwrap, Mem.lift, Mem.ok_bind, Mem.error_bind]
            simp only [ugetMem, Mem.ok_bind]
            constructor
            · intro h; exact absurd h (this _)
            · rintro ⟨n', da, -, h, -⟩; cases h
          | dense da =>
            simp only [ugetMem]
            by_cases hl : i < da.length
            · rw [List.getElem?_eq_getElem hl]
              constructor
              · intro h; cases h
              · rintro ⟨n', da', -, h, h', -⟩
                cases h; omega
            · rw [List.getElem?_eq_none (by omega)]
              exact ⟨fun _ => ⟨n, da, rfl, rfl, by omega, hi⟩, fun _ => rfl⟩
    · constructor
      · intro h
        simp [L0Normaliser.ithMem, hn, Dim.toUsize, Mem.lift, Mem.ok_bind, hi] at h
      · rintro ⟨n', da, h, -, -, h'⟩
        cases h
        exact absurd h' hi

/-- When nothing is read past the end, the memory-level `ith` is the one of the other properties. -/
theorem C123_ith_value (b : B) (input : I) (i : Nat)
    (h : (L0Normaliser.mk b).ithMem (K := K) input i ≠ .error .undefined) :
    (L0Normaliser.mk b).ithMem (K := K) input i =
      Mem.lift (EnumerableBasis.ith (L0Normaliser.mk b) input i) := by
  show _ = Mem.lift ((Space.dim b).toUsize >>= fun n => checkIndex i n
    ((Basis.project b input : P (Result (Features K))) >>= fun r => r.mapP fun φ => do
        let z : K := Scalar.ofNat φ.nActive
        let o ← φ.uget i
        let a ← unwrap o
        .ok (a /. z)))
  cases hn : Space.dim b with
  | infinite =>
    simp [L0Normaliser.ithMem, hn, Dim.toUsize, Mem.lift, Mem.error_bind, P.error_bind]
  | finite n =>
    by_cases hi : i < n
    · simp only [Dim.toUsize, P.ok_bind, checkIndex, if_pos hi]
      cases hp : (Basis.project b input : P (Result (Features K))) with
      | error p =>
        simp [L0Normaliser.ithMem, hn, Dim.toUsize, Mem.lift, Mem.error_bind, Mem.ok_bind, hi, hp,
          P.error_bind]
      | ok r => cases r with
        | error e =>
          simp [L0Normaliser.ithMem, hn, Dim.toUsize, Mem.lift, Mem.ok_bind, hi, hp, P.ok_bind,
            Result.mapP]
        | ok φ =>
          have hne := h
          rw [ithMem_eq b input φ n i hp hn hi] at hne ⊢
          simp only [P.ok_bind, Result.mapP]
          cases φ with
          | sparse sa =>
            simp only [ugetMem, uget, Mem.ok_bind, P.ok_bind]
            cases sa.activations.get? i <;> rfl
          | dense da =>
            simp only [ugetMem, uget] at hne ⊢
            by_cases hl : i < da.length
            · rw [List.getElem?_eq_getElem hl, idx_of_lt hl]; rfl
            · rw [List.getElem?_eq_none (by omega)] at hne
              exact absurd rfl hne
    · simp [L0Normaliser.ithMem, hn, Dim.toUsize, Mem.lift, Mem.ok_bind, hi, P.ok_bind, checkIndex]

end Ith

/-- No basis built from the crate's own constructors, by any nesting, makes `ith` of its L0
normalisation read past the end of an array. -/
theorem C123_built_partial {K : Type} [ScalarInf K] {A : Allow K} {B : Type} [Space B]
    [Basis B (List K) K] [EnumerableBasis B (List K) K] {b : B} (hb : Built A b) (input : List K)
    (i : Nat) : (L0Normaliser.mk b).ithMem (K := K) input i ≠ .error .undefined := by
  intro h
  obtain ⟨n, da, hn, hp, h₁, h₂⟩ := (C123_undefined_iff b input i).1 h
  have := C17_dim hb input _ hp
  rw [hn] at this
  injection this with this
  simp only [dim] at this
  omega

/-- A `Closure` basis may declare any number of features, so the read past the end is reachable from
safe code: three declared, two returned, index 2. -/
theorem C123_closure_undefined (x y : K) :
    (L0Normaliser.mk (Closure.mk (I := Unit) 3 fun _ => .ok (.ok (.dense [x, y])))).ithMem
      (K := K) () 2 = .error .undefined := rfl

/-- A stack of a bias and a dense constant basis meets the hypotheses of `C123_built_partial`. -/
example {K : Type} [ScalarInf K] (v : K) (input : List K) (i : Nat) :
    (L0Normaliser.mk (Stack.mk (Bias.mk v) (Polynomial.new 1 2))).ithMem (K := K) input i ≠
      .error .undefined :=
  C123_built_partial (A := allowAll) (.stack _ _ (.bias _) (.polynomial _)) input i

end Lfa

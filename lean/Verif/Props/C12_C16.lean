import Verif.Proofs.MapEq
import Verif.Props.C06_C11

/-!
# C12–C16: dot of features, equality, constructors, n_active, sum and fold
-/

set_option linter.unusedSectionVars false

namespace Lfa

open Spec Features

/-! ## C12 Dot product of two features

Full claim: `Dot::dot` is the inner product of the dense views for all four representation pairs.
False for sparse × sparse: the code counts shared indices and ignores the activations
(`C12_dot_sparse_sparse_wrong`). -/

/-- The inner product of the views unless both are sparse; if both are sparse, under the extra
hypothesis that all activations are 1. Missing: sparse × sparse with other activations, where the
claim is false. -/
theorem C12_dot_partial (φ ψ : Features ℝ) (h₁ : WF φ) (h₂ : WF ψ) (hd : dim φ = dim ψ)
    (h : φ.isSparse = true → ψ.isSparse = true →
      (∀ i a, Stored φ i a → a = 1) ∧ (∀ i a, Stored ψ i a → a = 1)) :
    φ.dotFeatures ψ = .ok (innerFeatures φ ψ) := by
  cases φ with
  | dense da₁ =>
    cases ψ with
    | dense da₂ =>
      show (Features.dense da₁).dot da₂ = _
      rw [dot_real h₁ hd]
      simp only [inner, innerFeatures, value_dense, real_zero]
    | sparse sa₂ =>
      show (Features.sparse sa₂).dot da₁ = _
      rw [dot_real h₂ hd.symm]
      simp only [inner, innerFeatures, value_dense, real_zero, hd]
      congr 1
      exact Finset.sum_congr rfl fun i _ => mul_comm _ _
  | sparse sa₁ =>
    cases ψ with
    | dense da₂ =>
      show (Features.sparse sa₁).dot da₂ = _
      rw [dot_real h₁ hd]
      simp only [inner, innerFeatures, value_dense, real_zero]
    | sparse sa₂ =>
      obtain ⟨u₁, u₂⟩ := h rfl rfl
      have key : ∀ (m : List (Nat × ℝ)) (z : Nat), (∀ e ∈ m, e.2 = 1) →
          (((m.map Prod.fst).foldl
            (fun acc k => acc + if sa₂.activations.contains k then 1 else 0) z : Nat) : ℝ) =
          z + (m.map fun e => e.2 * value (.sparse sa₂) e.1).sum := by
        intro m
        induction m with
        | nil => intro z _; simp
        | cons e m ih =>
          intro z hm
          rw [List.map_cons, List.foldl_cons, ih _ fun e' h' => hm e' (List.mem_cons_of_mem _ h'),
            List.map_cons, List.sum_cons, hm e List.mem_cons_self, value_sparse]
          unfold HMap.contains
          rcases hg : HMap.get? sa₂.activations e.1 with _ | a
          · simp
          · rw [u₂ _ _ (HMap.mem_of_get? hg)]; simp; ring
      show Except.ok (Scalar.ofNat _) = _
      rw [real_ofNat, key _ _ fun e he => u₁ e.1 e.2 he,
        sum_entries_eq (fun i a => a * value (.sparse sa₂) i) (fun i => zero_mul _) sa₁.dim _
          h₁.1 h₁.2]
      simp only [innerFeatures, value_sparse, real_zero, Nat.cast_zero, zero_add]
      rfl

/-- What the code returns on sparse × sparse: the number of shared indices. -/
theorem C12_dot_sparse_counts (sa₁ sa₂ : SparseActivations ℝ) (h₁ : KeysUnique (.sparse sa₁)) :
    (Features.sparse sa₁).dotFeatures (.sparse sa₂) = .ok
      (((sa₁.activations.map Prod.fst).toFinset ∩
        (sa₂.activations.map Prod.fst).toFinset).card : ℝ) := by
  have key : ∀ (l : List Nat) (z : Nat), l.Nodup → l.foldl
      (fun acc k => acc + if sa₂.activations.contains k then 1 else 0) z =
      z + (l.toFinset ∩ (sa₂.activations.map Prod.fst).toFinset).card := by
    intro l
    induction l with
    | nil => intro z _; simp
    | cons a l ih =>
      intro z hn
      rw [List.nodup_cons] at hn
      rw [List.foldl_cons, ih _ hn.2, List.toFinset_cons]
      by_cases hc : a ∈ sa₂.activations.map Prod.fst
      · rw [if_pos ((HMap.contains_iff _ _).2 hc),
          Finset.insert_inter_of_mem (List.mem_toFinset.2 hc), Finset.card_insert_of_notMem]
        · omega
        · intro hm
          exact hn.1 (List.mem_toFinset.1 (Finset.mem_inter.1 hm).1)
      · rw [if_neg (fun h => hc ((HMap.contains_iff _ _).1 h)),
          Finset.insert_inter_of_notMem (fun h => hc (List.mem_toFinset.1 h))]
        rfl
  show Except.ok (Scalar.ofNat _) = _
  rw [key _ _ h₁, real_ofNat, Nat.zero_add]

/-- Symmetric for all pairs, panics included (exact arithmetic). -/
theorem C12_dot_symm (φ ψ : Features ℝ) (h₁ : KeysUnique φ) (h₂ : KeysUnique ψ) :
    φ.dotFeatures ψ = ψ.dotFeatures φ := by
  cases φ with
  | dense da₁ =>
    cases ψ with
    | dense da₂ =>
      show arrayDot da₁ da₂ = arrayDot da₂ da₁
      unfold arrayDot
      by_cases h : da₁.length = da₂.length
      · rw [if_pos h, if_pos h.symm, real_dot, real_dot, List.zipWith_comm]
        simp only [mul_comm]
      · rw [if_neg h, if_neg (Ne.symm h)]
    | sparse sa₂ => rfl
  | sparse sa₁ =>
    cases ψ with
    | dense da₂ => rfl
    | sparse sa₂ => rw [C12_dot_sparse_counts _ _ h₁, C12_dot_sparse_counts _ _ h₂, Finset.inter_comm]

/-- The code violates the full claim: `5 · 5 = 25`, but the code returns 1. -/
theorem C12_dot_sparse_sparse_wrong :
    ∃ φ ψ : Features ℝ, WF φ ∧ WF ψ ∧ dim φ = dim ψ ∧
      φ.dotFeatures ψ ≠ .ok (innerFeatures φ ψ) := by
  have hwf : WF (.sparse ⟨1, [(0, (5 : ℝ))]⟩) := ⟨by simp, by simp⟩
  refine ⟨_, _, hwf, hwf, rfl, ?_⟩
  rw [C12_dot_sparse_counts _ _ hwf.1]
  simp [innerFeatures, value]
  norm_num

/-! ## C13 Feature equality -/

/-- Comparing dense with sparse panics; comparing like with like never does (any arithmetic). -/
theorem C13_eq_panics_iff {K : Type} [Scalar K] (φ ψ : Features K) :
    Panics (φ.eq ψ) ↔ φ.isSparse ≠ ψ.isSparse := by
  cases φ <;> cases ψ <;> simp [Features.eq, Panics, isSparse]

/-- `==` does not depend on hash order (any arithmetic). -/
theorem C13_eq_hash_order {K : Type} [Scalar K] {φ φ' ψ ψ' : Features K} (h₁ : KeysUnique φ)
    (h₂ : KeysUnique ψ) (s₁ : Same φ φ') (s₂ : Same ψ ψ') : φ.eq ψ = φ'.eq ψ' := by
  cases s₁ with
  | dense da => cases s₂ <;> rfl
  | sparse n hp =>
    cases s₂ with
    | dense da => rfl
    | sparse n' hq =>
      show Except.ok _ = Except.ok _
      congr 2
      rw [Bool.eq_iff_iff, HMap.beqWith_iff _ h₁ h₂,
        HMap.beqWith_iff _ (HMap.NodupKeys.perm h₁ hp) (HMap.NodupKeys.perm h₂ hq)]
      simp only [HMap.get?_perm h₁ hp, HMap.get?_perm h₂ hq]

/-- Reflexive as soon as no stored activation is NaN (`a == a` for each). -/
theorem C13_eq_refl {K : Type} [Scalar K] (φ : Features K) (h : KeysUnique φ)
    (hb : ∀ i a, Stored φ i a → Scalar.beq a a = true) : φ.eq φ = .ok true := by
  cases φ with
  | dense da =>
    have : (List.zipWith Scalar.beq da da).all id = true := by
      rw [List.zipWith_self, List.all_map, List.all_eq_true]
      intro a ha
      obtain ⟨i, hi⟩ := List.mem_iff_getElem?.1 ha
      exact hb i a hi
    show Except.ok ((da.length == da.length) && _) = _
    rw [this, beq_self_eq_true]; rfl
  | sparse sa =>
    have : HMap.beqWith Scalar.beq sa.activations sa.activations = true := by
      rw [HMap.beqWith_iff _ h h]
      intro k
      rcases hg : HMap.get? sa.activations k with _ | a
      · exact .none
      · exact .some (hb k a (HMap.mem_of_get? hg))
    simp [Features.eq, this]

/-- Symmetric, panics included, given that `==` on activations is (which holds for `f64`). -/
theorem C13_eq_symm {K : Type} [Scalar K] (φ ψ : Features K) (h₁ : KeysUnique φ)
    (h₂ : KeysUnique ψ) (hb : ∀ a b : K, Scalar.beq a b = Scalar.beq b a) : φ.eq ψ = ψ.eq φ := by
  cases φ with
  | dense da₁ =>
    cases ψ with
    | dense da₂ =>
      show Except.ok _ = Except.ok _
      rw [List.zipWith_comm]
      simp only [hb]
      rw [Bool.beq_comm]
    | sparse sa₂ => rfl
  | sparse sa₁ =>
    cases ψ with
    | dense da₂ => rfl
    | sparse sa₂ =>
      show Except.ok _ = Except.ok _
      rw [Bool.beq_comm (a := sa₁.dim)]
      congr 2
      rw [Bool.eq_iff_iff, HMap.beqWith_iff _ h₁ h₂, HMap.beqWith_iff _ h₂ h₁]
      apply forall_congr'
      intro k
      rcases HMap.get? sa₁.activations k with _ | a <;>
        rcases HMap.get? sa₂.activations k with _ | b
      · exact ⟨fun _ => .none, fun _ => .none⟩
      · exact ⟨fun h => (by cases h), fun h => (by cases h)⟩
      · exact ⟨fun h => (by cases h), fun h => (by cases h)⟩
      · constructor
        · intro h; cases h with
          | some h => exact .some (hb a b ▸ h)
        · intro h; cases h with
          | some h => exact .some (hb b a ▸ h)

/-- Transitive, given that `==` on activations is (which holds for `f64`). -/
theorem C13_eq_trans {K : Type} [Scalar K] (φ ψ χ : Features K) (h₁ : KeysUnique φ)
    (h₂ : KeysUnique ψ) (h₃ : KeysUnique χ)
    (hb : ∀ a b c : K, Scalar.beq a b = true → Scalar.beq b c = true → Scalar.beq a c = true)
    (e₁ : φ.eq ψ = .ok true) (e₂ : ψ.eq χ = .ok true) : φ.eq χ = .ok true := by
  cases φ with
  | dense da₁ =>
    cases ψ with
    | sparse sa₂ => cases e₁
    | dense da₂ =>
      cases χ with
      | sparse sa₃ => cases e₂
      | dense da₃ =>
        have f : ∀ l l' : List K, (Features.dense l).eq (.dense l') = .ok true ↔
            List.Forall₂ (fun a b => Scalar.beq a b = true) l l' := by
          intro l
          induction l with
          | nil => intro l'; cases l' <;> simp [Features.eq]
          | cons a l ih =>
            intro l'
            cases l' with
            | nil => simp [Features.eq]
            | cons b l' =>
              rw [List.forall₂_cons, ← ih]
              simp only [Features.eq, Except.ok.injEq, Bool.and_eq_true, List.zipWith_cons_cons,
                List.all_cons, id, List.length_cons, beq_iff_eq, Nat.add_right_cancel_iff]
              tauto
        rw [f] at e₁ e₂ ⊢
        clear f h₁ h₂ h₃
        induction e₁ generalizing da₃ with
        | nil => cases e₂; exact .nil
        | cons h _ ih =>
          cases e₂ with
          | cons h' t => exact .cons (hb _ _ _ h h') (ih _ t)
  | sparse sa₁ =>
    cases ψ with
    | dense da₂ => cases e₁
    | sparse sa₂ =>
      cases χ with
      | dense da₃ => cases e₂
      | sparse sa₃ =>
        simp only [Features.eq, Except.ok.injEq, Bool.and_eq_true, beq_iff_eq] at e₁ e₂ ⊢
        rw [HMap.beqWith_iff _ h₁ h₂] at e₁
        rw [HMap.beqWith_iff _ h₂ h₃] at e₂
        rw [HMap.beqWith_iff _ h₁ h₃]
        refine ⟨e₁.1.trans e₂.1, fun k => ?_⟩
        have a₁ := e₁.2 k
        have a₂ := e₂.2 k
        revert a₁ a₂
        rcases HMap.get? sa₁.activations k with _ | a <;>
          rcases HMap.get? sa₂.activations k with _ | b <;>
          rcases HMap.get? sa₃.activations k with _ | c <;> intro a₁ a₂ <;>
          first
          | (cases a₁; done)
          | (cases a₂; done)
          | exact .none
          | (cases a₁ with
             | some r₁ => cases a₂ with
               | some r₂ => exact .some (hb _ _ _ r₁ r₂))

/-- Over numbers without NaN and signed zeros, `==` is equality up to hash order; in particular
equal features have the same dimension and dense view. -/
theorem C13_eq_iff_same (φ ψ : Features ℝ) (h₁ : KeysUnique φ) (h₂ : KeysUnique ψ) :
    φ.eq ψ = .ok true ↔ Same φ ψ := by
  constructor
  · intro e
    cases φ with
    | dense da₁ =>
      cases ψ with
      | sparse sa₂ => cases e
      | dense da₂ =>
        simp only [Features.eq, Except.ok.injEq, Bool.and_eq_true, beq_iff_eq] at e
        have : ∀ l l' : List ℝ, l.length = l'.length →
            (List.zipWith Scalar.beq l l').all id = true → l = l' := by
          intro l
          induction l with
          | nil => intro l' hl _; cases l' with
            | nil => rfl
            | cons => cases hl
          | cons a l ih =>
            intro l' hl ha
            cases l' with
            | nil => cases hl
            | cons b l' =>
              simp only [List.zipWith_cons_cons, List.all_cons, Bool.and_eq_true, id, real_beq,
                decide_eq_true_eq] at ha
              rw [ha.1, ih l' (by simpa using hl) (by simpa [id] using ha.2)]
        rw [this _ _ e.1 e.2]
        exact .dense _
    | sparse sa₁ =>
      cases ψ with
      | dense da₂ => cases e
      | sparse sa₂ =>
        simp only [Features.eq, Except.ok.injEq, Bool.and_eq_true, beq_iff_eq] at e
        rw [HMap.beqWith_iff _ h₁ h₂] at e
        obtain ⟨n, m⟩ := sa₁
        obtain ⟨n', m'⟩ := sa₂
        obtain ⟨rfl, e⟩ := e
        refine .sparse _ (HMap.perm_of_get? h₁ h₂ fun k => ?_)
        have := e k
        revert this
        rcases HMap.get? m k with _ | a <;> rcases HMap.get? m' k with _ | b <;> intro hr
        · rfl
        · cases hr
        · cases hr
        · cases hr with
          | some hr => simp only [real_beq, decide_eq_true_eq] at hr; rw [hr]
  · intro s
    have r : Same ψ ψ := by
      cases ψ with
      | dense da => exact .dense da
      | sparse sa => exact .sparse _ (List.Perm.refl _)
    rw [C13_eq_hash_order h₁ h₂ s r]
    exact C13_eq_refl ψ h₂ fun i a _ => by simp

/-- Equal features have the same dimension and the same dense view. -/
theorem C13_eq_view (φ ψ : Features ℝ) (h₁ : KeysUnique φ) (h₂ : KeysUnique ψ)
    (e : φ.eq ψ = .ok true) : φ.nFeatures = ψ.nFeatures ∧ view φ = view ψ := by
  cases (C13_eq_iff_same φ ψ h₁ h₂).1 e with
  | dense da => exact ⟨rfl, rfl⟩
  | sparse n hp =>
    refine ⟨rfl, view_ext rfl fun i _ => ?_⟩
    rw [value_sparse, value_sparse, HMap.get?_perm h₁ hp]

/-- A NaN activation makes a feature vector different from itself. -/
theorem C13_nan_not_reflexive :
    (Features.dense [XReal.nan]).eq (.dense [.nan]) = .ok false ∧
    (Features.sparse ⟨1, [(0, XReal.nan)]⟩).eq (.sparse ⟨1, [(0, .nan)]⟩) = .ok false :=
  ⟨rfl, rfl⟩

example : exSparse.eq (.sparse ⟨3, [(0, 1), (2, 5)]⟩) = .ok true :=
  (C13_eq_iff_same exSparse _ exSparse_wf.1 (by simp [KeysUnique])).2
    (.sparse _ (List.Perm.swap _ _ _))

/-! ## C14 Sparse constructors -/

/-- `Features::sparse` stores for each index the last activation given, and nothing else. -/
theorem C14_sparse {K : Type} [Scalar K] (n : Nat) (es : List (Nat × K)) :
    KeysUnique (mkSparse n es) ∧ (mkSparse n es).nFeatures = n ∧
    (mkSparse n es).isSparse = true ∧
    (∀ i a, Stored (mkSparse n es) i a ↔
      ∃ l₁ l₂, es = l₁ ++ (i, a) :: l₂ ∧ i ∉ l₂.map Prod.fst) ∧
    (WF (mkSparse n es) ↔ ∀ e ∈ es, e.1 < n) := by
  refine ⟨HMap.nodupKeys_collect es, rfl, rfl, ?_, ?_⟩
  · intro i a
    show (i, a) ∈ HMap.collect es ↔ _
    rw [← HMap.get?_eq_some_iff (HMap.nodupKeys_collect es), HMap.get?_collect,
      HMap.get?_reverse_eq_some_iff]
  · constructor
    · intro h e he
      have hk : e.1 ∈ (HMap.collect es).map Prod.fst :=
        (HMap.mem_keys_collect es e.1).2 (List.mem_map.2 ⟨e, he, rfl⟩)
      obtain ⟨e', he', hh⟩ := List.mem_map.1 hk
      rw [← hh]; exact h.2 e' he'
    · intro h
      refine ⟨HMap.nodupKeys_collect es, fun e he => ?_⟩
      have hk : e.1 ∈ es.map Prod.fst :=
        (HMap.mem_keys_collect es e.1).1 (List.mem_map.2 ⟨e, he, rfl⟩)
      obtain ⟨e', he', hh⟩ := List.mem_map.1 hk
      rw [← hh]; exact h e' he'

/-- `Features::unitary` has activation 1 at the listed indices, whatever the repetitions, and 0
elsewhere. -/
theorem C14_unitary {K : Type} [Scalar K] (n : Nat) (is : List Nat) :
    (∀ i, value (unitary n is : Features K) i = if i ∈ is then Scalar.one else Scalar.zero) ∧
    (∀ i a, Stored (unitary n is : Features K) i a ↔ i ∈ is ∧ a = Scalar.one) ∧
    (unitary n is : Features K).nFeatures = n ∧
    (WF (unitary n is : Features K) ↔ ∀ i ∈ is, i < n) := by
  refine ⟨?_, ?_, rfl, ?_⟩
  · intro i
    unfold Features.unitary
    rw [value_mkSparse, get?_units]
    split <;> rfl
  · intro i a
    show (i, a) ∈ HMap.collect _ ↔ _
    rw [← HMap.get?_eq_some_iff (HMap.nodupKeys_collect _), HMap.get?_collect, get?_units]
    by_cases h : i ∈ is <;> simp [h, eq_comm]
  · unfold Features.unitary
    rw [(C14_sparse n _).2.2.2.2]
    simp

/-- `From<Vec<usize>>`: panics exactly on the empty list; otherwise dimension = max index + 1,
activation 1 exactly at the listed indices, well-formed. -/
theorem C14_from_indices {K : Type} [Scalar K] (is : List Nat) :
    (Panics (ofIndices is : P (Features K)) ↔ is = []) ∧
    (∀ r : Features K, ofIndices is = .ok r → WF r ∧ r.isSparse = true ∧
      (∃ m ∈ is, r.nFeatures = m + 1 ∧ ∀ j ∈ is, j ≤ m) ∧
      ∀ i, value r i = if i ∈ is then Scalar.one else Scalar.zero) := by
  constructor
  · unfold ofIndices
    rcases hm : maxIndex is with _ | m
    · exact ⟨fun _ => maxIndex_eq_none.1 hm, fun _ => ⟨_, rfl⟩⟩
    · constructor
      · rintro ⟨p, hp⟩; cases hp
      · intro h; rw [maxIndex_eq_none.2 h] at hm; cases hm
  · intro r hr
    unfold ofIndices at hr
    rcases hm : maxIndex is with _ | m
    · rw [hm] at hr; cases hr
    · rw [hm] at hr
      have hr : unitary (m + 1) is = r := by cases hr; rfl
      obtain ⟨h1, h2⟩ := maxIndex_spec hm
      subst hr
      obtain ⟨u1, u2, u3, u4⟩ := C14_unitary (K := K) (m + 1) is
      exact ⟨u4.2 fun i hi => Nat.lt_succ_of_le (h2 i hi), rfl, ⟨m, h1, u3, h2⟩, u1⟩

/-- `From<SparseActivations>`: the declared dimension is ignored and recomputed as max index + 1;
panics exactly when nothing is stored. -/
theorem C14_from_sparse {K : Type} [Scalar K] (sa : SparseActivations K)
    (h : KeysUnique (.sparse sa)) :
    (Panics (ofSparseActivations sa) ↔ sa.activations = []) ∧
    (∀ r : Features K, ofSparseActivations sa = .ok r → WF r ∧
      (∃ i a, Stored (.sparse sa) i a ∧ r.nFeatures = i + 1 ∧
        ∀ j b, Stored (.sparse sa) j b → j ≤ i) ∧
      ∀ i a, Stored r i a ↔ Stored (.sparse sa) i a) := by
  constructor
  · unfold ofSparseActivations
    rcases hm : maxIndex (sa.activations.map Prod.fst) with _ | m
    · exact ⟨fun _ => List.map_eq_nil_iff.1 (maxIndex_eq_none.1 hm), fun _ => ⟨_, rfl⟩⟩
    · constructor
      · rintro ⟨p, hp⟩; cases hp
      · intro h; rw [h] at hm; cases hm
  · intro r hr
    unfold ofSparseActivations at hr
    rcases hm : maxIndex (sa.activations.map Prod.fst) with _ | m
    · rw [hm] at hr; cases hr
    · rw [hm] at hr
      cases hr
      obtain ⟨h1, h2⟩ := maxIndex_spec hm
      refine ⟨⟨h, fun e he => Nat.lt_succ_of_le (h2 _ (List.mem_map.2 ⟨e, he, rfl⟩))⟩, ?_,
        fun i a => Iff.rfl⟩
      obtain ⟨e, he, rfl⟩ := List.mem_map.1 h1
      exact ⟨e.1, e.2, he, rfl, fun j b hj => h2 j (List.mem_map.2 ⟨_, hj, rfl⟩)⟩

example : ∃ l₁ l₂, [(0, (1 : ℝ)), (2, 3), (0, 7)] = l₁ ++ (0, 7) :: l₂ ∧ 0 ∉ l₂.map Prod.fst :=
  ⟨[(0, 1), (2, 3)], [], rfl, by simp⟩

/-! ## C15 n_active counts non-zero features

Full claim: `n_active` is the number of entries of the dense view with magnitude above 1e-7. False
for sparse features that store a (near-)zero activation (`C15_n_active_counts_stored_zeros`). -/

/-- Exact for dense features, and for sparse ones whose stored activations all exceed 1e-7 in
magnitude. Missing: sparse features storing smaller activations, where the claim is false. -/
theorem C15_n_active_partial {K : Type} [Scalar K] (φ : Features K) (h : WF φ)
    (h0 : Scalar.lt (Scalar.sci 1 7) (Scalar.abs (Scalar.zero : K)) = false)
    (hs : φ.isDense = true ∨
      ∀ i a, Stored φ i a → Scalar.lt (Scalar.sci 1 7) (Scalar.abs a) = true) :
    φ.nActive = (bigEntries φ).length := by
  cases φ with
  | dense da => unfold bigEntries; rw [view_dense]; rfl
  | sparse sa =>
    have hs : ∀ i a, Stored (.sparse sa) i a → Scalar.lt (Scalar.sci 1 7) (Scalar.abs a) = true := by
      rcases hs with hs | hs
      · cases hs
      · exact hs
    unfold bigEntries view
    rw [List.filter_map, List.length_map]
    have : (List.range (dim (.sparse sa))).filter
        ((fun v => Scalar.lt (Scalar.sci 1 7) (Scalar.abs v)) ∘ value (.sparse sa)) =
        (List.range sa.dim).filter fun i => decide (i ∈ sa.activations.map Prod.fst) := by
      apply List.filter_congr
      intro i _
      rw [Function.comp_apply, value_sparse]
      rcases hg : HMap.get? sa.activations i with _ | a
      · rw [HMap.get?_eq_none_iff] at hg
        rw [decide_eq_false hg]; exact h0
      · have hm := HMap.mem_of_get? hg
        rw [decide_eq_true (List.mem_map.2 ⟨_, hm, rfl⟩)]
        exact hs i a hm
    rw [this, (keys_perm_filter h).length_eq, List.length_map]
    rfl

/-- In general `n_active` is an upper bound, itself bounded by the dimension. -/
theorem C15_n_active_bounds {K : Type} [Scalar K] (φ : Features K) (h : WF φ)
    (h0 : Scalar.lt (Scalar.sci 1 7) (Scalar.abs (Scalar.zero : K)) = false) :
    (bigEntries φ).length ≤ φ.nActive ∧ φ.nActive ≤ φ.nFeatures := by
  cases φ with
  | dense da =>
    refine ⟨?_, List.length_filter_le _ _⟩
    unfold bigEntries; rw [view_dense]; exact le_refl _
  | sparse sa =>
    have hk := (keys_perm_filter h).length_eq
    rw [List.length_map] at hk
    constructor
    · show _ ≤ sa.activations.length
      rw [← hk]
      unfold bigEntries view
      rw [List.filter_map, List.length_map]
      apply List.Sublist.length_le
      apply List.monotone_filter_right
      intro i hi
      rw [Function.comp_apply, value_sparse] at hi
      rcases hg : HMap.get? sa.activations i with _ | a
      · rw [hg] at hi; exact absurd hi (by rw [Option.getD_none, h0]; simp)
      · rw [decide_eq_true (List.mem_map.2 ⟨_, HMap.mem_of_get? hg, rfl⟩)]
    · show sa.activations.length ≤ sa.dim
      rw [← hk]
      exact le_trans (List.length_filter_le _ _) (by simp)

/-- For unitary features: the number of distinct indices. -/
theorem C15_n_active_unitary {K : Type} [Scalar K] (n : Nat) (is : List Nat) :
    (unitary n is : Features K).nActive = is.toFinset.card := by
  have hn : ((HMap.collect (is.map fun i => (i, (Scalar.one : K)))).map Prod.fst).Nodup :=
    HMap.nodupKeys_collect _
  show (HMap.collect (is.map fun i => (i, (Scalar.one : K)))).length = _
  rw [← List.length_map (f := Prod.fst), ← List.toFinset_card_of_nodup hn]
  congr 1
  ext i
  rw [List.mem_toFinset, List.mem_toFinset, HMap.mem_keys_collect]
  simp

/-- The code violates the full claim: a stored 0 counts as active. -/
theorem C15_n_active_counts_stored_zeros :
    ∃ φ : Features ℝ, WF φ ∧ φ.nActive ≠ (bigEntries φ).length := by
  refine ⟨.sparse ⟨1, [(0, 0)]⟩, ⟨by simp, by simp⟩, ?_⟩
  have : ¬ ((1 : ℝ) / 10 ^ 7 < |0|) := by norm_num
  simp [nActive, bigEntries, view, value, dim, List.range, List.range.loop]

example : Scalar.lt (Scalar.sci 1 7) (Scalar.abs (Scalar.zero : ℝ)) = false := by
  simp

/-! ## C16 sum and fold -/

/-- `sum` is the total of the dense view in either representation (exact arithmetic). -/
theorem C16_sum (φ : Features ℝ) (h : WF φ) :
    φ.sum = ∑ i ∈ Finset.range φ.nFeatures, value φ i := by
  have e : φ.sum = φ.fold 0 (fun acc x => acc + id x) := by
    cases φ with
    | dense da =>
      show da.sum = da.foldl _ _
      rw [foldl_add_eq]; simp
    | sparse sa => 
      show (sa.activations.map Prod.snd).foldl _ _ = (sa.activations.map Prod.snd).foldl _ _
      simp [id]
  have hd : φ.nFeatures = dim φ := by cases φ <;> rfl
  rw [e, fold_real h id rfl, hd, zero_add]
  rfl

/-- `fold` equals the left fold over the dense view, for every closure that ignores zeros and whose
steps commute (any arithmetic). -/
theorem C16_fold {K : Type} [Scalar K] (φ : Features K) (h : WF φ) (f : K → K → K) (z : K)
    (h0 : ∀ acc, f acc Scalar.zero = acc)
    (hc : ∀ acc x y, f (f acc x) y = f (f acc y) x) :
    φ.fold z f = (view φ).foldl f z := by
  cases φ with
  | dense da => rw [view_dense]; rfl
  | sparse sa =>
    show (sa.activations.map Prod.snd).foldl f z = _
    unfold view
    rw [← map_value_keys (sa := sa) h.1, List.foldl_map (g := f), List.foldl_map (g := f),
      foldl_filter_skip (fun acc i => f acc (value (.sparse sa) i))
        (fun i => decide (i ∈ sa.activations.map Prod.fst)) _ (List.range (dim (.sparse sa)))]
    · have : RightCommutative (fun (acc : K) (i : Nat) => f acc (value (.sparse sa) i)) :=
        ⟨fun acc i j => hc _ _ _⟩
      exact ((keys_perm_filter h).foldl_eq z).symm
    · intro acc i hi
      rw [decide_eq_false_iff_not, ← HMap.get?_eq_none_iff] at hi
      rw [value_sparse, hi]
      exact h0 acc

/-- On dense features `fold` is the left fold over the view for every closure. -/
theorem C16_fold_dense {K : Type} [Scalar K] (da : List K) (f : K → K → K) (z : K) :
    (Features.dense da).fold z f = da.foldl f z := rfl

example : (∀ acc : ℝ, max acc |(Scalar.zero : ℝ)| = max acc 0) ∧
    ∀ acc x y : ℝ, max (max acc |x|) |y| = max (max acc |y|) |x| :=
  ⟨fun _ => by simp, fun _ _ _ => max_right_comm _ _ _⟩

end Lfa

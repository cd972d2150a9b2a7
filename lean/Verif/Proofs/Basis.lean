import Verif.Spec.Basis
import Verif.Proofs.MapEq

/-! # Lemmas about bases -/

set_option linter.unusedSectionVars false

namespace Lfa

open Spec Features

section
variable {K : Type} [Scalar K]

/-! ## leaves -/

theorem wf_units {n : Nat} {is : List Nat} (h : ∀ i ∈ is, i < n) :
    WF (.sparse ⟨n, HMap.collect (is.map fun i => (i, (Scalar.one : K)))⟩) := by
  refine ⟨HMap.nodupKeys_collect _, fun e he => ?_⟩
  have hk := (HMap.mem_keys_collect _ e.1).1 (List.mem_map.2 ⟨e, he, rfl⟩)
  rw [List.map_map, List.mem_map] at hk
  obtain ⟨i, hi, hh⟩ := hk
  have : i = e.1 := hh
  exact this ▸ h i hi

theorem value_units (n : Nat) (is : List Nat) (i : Nat) :
    value (.sparse ⟨n, HMap.collect (is.map fun i => (i, (Scalar.one : K)))⟩) i =
      if i ∈ is then Scalar.one else Scalar.zero := by
  rw [value_sparse, HMap.get?_collect, get?_units]
  split <;> rfl

theorem value_dense_of_getElem? {l : List K} {i : Nat} {a : K} (h : l[i]? = some a) :
    value (.dense l) i = a := by
  rw [value_dense, List.getD_eq_getElem?_getD, h]; rfl

/-! ## tile coding -/

section Tile
variable {H : Type} [BuildHasher H]
open TileCoding

theorem hashState_lt {state : List Int} {n m : Nat} {ts : List Nat} {h : BuildHasher.σ H}
    {is : List Nat} (hs : hashState (H := H) state n m ts h = .ok is) :
    (∀ i ∈ is, i < m) ∧ is.length = ts.length := by
  induction ts generalizing h is with
  | nil => cases hs; exact ⟨by simp, rfl⟩
  | cons t ts ih =>
    unfold hashState at hs
    cases ht : tiling (H := H) state n m h t with
    | error p => rw [ht] at hs; cases hs
    | ok r =>
      obtain ⟨h', i⟩ := r
      rw [ht, P.ok_bind] at hs
      cases hr : hashState (H := H) state n m ts h' with
      | error p => simp only [hr] at hs; cases hs
      | ok is' =>
        simp only [hr] at hs
        cases hs
        obtain ⟨ih1, ih2⟩ := ih hr
        refine ⟨?_, by simp [ih2]⟩
        intro j hj
        rcases List.mem_cons.1 hj with rfl | hj
        · have hi : ∃ h'', h'' % m = j ∧ 0 < m := by
            unfold tiling at ht
            obtain ⟨x, -, ht⟩ := P.bind_eq_ok.1 ht
            obtain ⟨y, -, ht⟩ := P.bind_eq_ok.1 ht
            by_cases hz : m = 0
            · rw [if_pos hz] at ht; cases ht
            · rw [if_neg hz] at ht
              cases ht
              exact ⟨_, rfl, Nat.pos_of_ne_zero hz⟩
          obtain ⟨x, rfl, hm⟩ := hi
          exact Nat.mod_lt _ hm
        · exact ih1 j hj

/-- When all tilings succeed, `any` agrees with membership. -/
theorem hashAny_of_hashState {state : List Int} {n m : Nat} {ts : List Nat} {h : BuildHasher.σ H}
    {is : List Nat} (hs : hashState (H := H) state n m ts h = .ok is) (index : Nat) :
    hashAny (H := H) index state n m ts h = .ok (decide (index ∈ is)) := by
  induction ts generalizing h is with
  | nil => cases hs; simp [hashAny]
  | cons t ts ih =>
    unfold hashState at hs
    unfold hashAny
    cases ht : tiling (H := H) state n m h t with
    | error p => rw [ht] at hs; cases hs
    | ok r =>
      obtain ⟨h', i⟩ := r
      rw [ht, P.ok_bind] at hs
      rw [P.ok_bind]
      cases hr : hashState (H := H) state n m ts h' with
      | error p => simp only [hr] at hs; cases hs
      | ok is' =>
        simp only [hr] at hs
        cases hs
        by_cases hi : index = i
        · simp [hi]
        · show (if index = i then _ else _) = _
          rw [if_neg hi, ih hr]; simp [hi]

end Tile

/-! ## uniform grid -/

theorem foldl_mul_pos (ns : List Nat) (a : Nat) :
    ns.foldl (· * ·) a = a * ns.foldl (· * ·) 1 := by
  induction ns generalizing a with
  | nil => simp
  | cons n ns ih => rw [List.foldl_cons, List.foldl_cons, ih (a * n), ih (1 * n)]; ring

theorem prod_pos {ds : List (Equipartition K)} (h : ∀ d ∈ ds, d.Lawful) :
    0 < (ds.map Equipartition.nPartitions).foldl (· * ·) 1 := by
  induction ds with
  | nil => simp
  | cons d ds ih =>
    rw [List.map_cons, List.foldl_cons, foldl_mul_pos]
    have h1 := (h d List.mem_cons_self).pos
    have h2 := ih fun d' hd => h d' (List.mem_cons_of_mem _ hd)
    positivity

theorem hashFold_lt {ds : List (Equipartition K)} (h : ∀ d ∈ ds, d.Lawful) (vs : List K)
    {acc n : Nat} (hacc : acc < n) :
    UniformGrid.hashFold ds vs acc <
      n * (ds.map Equipartition.nPartitions).foldl (· * ·) 1 := by
  induction ds generalizing vs acc n with
  | nil => simp [UniformGrid.hashFold, hacc]
  | cons d ds ih =>
    have hd := h d List.mem_cons_self
    have hds : ∀ d' ∈ ds, d'.Lawful := fun d' h' => h d' (List.mem_cons_of_mem _ h')
    rw [List.map_cons, List.foldl_cons, Nat.one_mul, foldl_mul_pos, ← Nat.mul_assoc]
    cases vs with
    | nil =>
      show acc < _
      have h1 := hd.pos
      have h2 := prod_pos hds
      calc acc < n := hacc
        _ ≤ n * d.nPartitions := Nat.le_mul_of_pos_right _ h1
        _ ≤ _ := Nat.le_mul_of_pos_right _ h2
    | cons v vs =>
      show UniformGrid.hashFold ds vs (d.mapOnto v + d.nPartitions * acc) < _
      apply ih hds
      have := hd.mapOnto_lt v
      calc d.mapOnto v + d.nPartitions * acc < d.nPartitions + d.nPartitions * acc := by omega
        _ = d.nPartitions * (acc + 1) := by ring
        _ ≤ d.nPartitions * n := Nat.mul_le_mul_left _ hacc
        _ = n * d.nPartitions := Nat.mul_comm _ _

theorem hash_lt {ds : List (Equipartition K)} (h : ∀ d ∈ ds, d.Lawful) {input : List K} {i : Nat}
    (hi : (UniformGrid.new ds).hash input = .ok i) : i < (UniformGrid.new ds).nFeatures := by
  cases ds with
  | nil => cases hi
  | cons d ds =>
    cases input with
    | nil => cases hi
    | cons v vs =>
      cases hi
      show _ < ((d :: ds).map Equipartition.nPartitions).foldl (· * ·) 1
      rw [List.map_cons, List.foldl_cons, Nat.one_mul, foldl_mul_pos]
      exact hashFold_lt (fun d' hd => h d' (List.mem_cons_of_mem _ hd)) vs
        ((h d List.mem_cons_self).mapOnto_lt v)

/-! ## combinators -/

/-- A map always keeps the dimension. -/
theorem mapInto_dim {φ r : Features K} {f : K → K} (h : φ.mapInto f = .ok r) :
    dim r = dim φ := by
  cases φ with
  | dense da => cases h; simp
  | sparse sa =>
    unfold mapInto at h
    rcases hp : sparsityPreserving f with _ | _
    · simp only [hp] at h
      cases hs : scatterSet f sa.activations (List.replicate sa.dim (f Scalar.zero)) with
      | error p => simp [hs, P.error_bind] at h
      | ok phi =>
        simp [hs, P.ok_bind] at h
        subst h
        rw [scatterSet_eq_scatterMod] at hs
        have := scatterMod_length _ hs
        simpa using this
    · simp only [hp, if_true] at h
      cases h; rfl

theorem mapInto_wf {φ r : Features K} {f : K → K} (hw : WF φ) (h : φ.mapInto f = .ok r) :
    WF r := by
  have h : φ.map f = .ok r := by cases φ <;> exact h
  cases φ with
  | dense da => cases h; trivial
  | sparse sa =>
    rcases hp : sparsityPreserving f with _ | _
    · rw [map_sparse_dense hw hp] at h; cases h; trivial
    · rw [map_sparse_preserving hw.1 hp] at h
      cases h
      exact wf_map_entries hw (fun _ => f)

theorem divideBy_dim (φ : Features K) (z : K) : dim (divideBy φ z) = dim φ := by
  cases φ <;> simp [divideBy]

theorem divideBy_sparse {sa : SparseActivations K} (h : KeysUnique (.sparse sa)) (z : K) :
    divideBy (.sparse sa) z =
      .sparse ⟨sa.dim, sa.activations.map fun e => (e.1, e.2 /. z)⟩ := by
  simp only [divideBy]
  rw [HMap.collect_of_nodup (HMap.nodupKeys_map (· /. z) h)]

theorem divideBy_wf {φ : Features K} (h : WF φ) (z : K) : WF (divideBy φ z) := by
  cases φ with
  | dense da => trivial
  | sparse sa => rw [divideBy_sparse h.1]; exact wf_map_entries h (fun _ a => a /. z)

theorem stack_dim {φ ψ r : Features K} (h : φ.stack ψ = .ok r) : dim r = dim φ + dim ψ := by
  have key : ∀ χ : Features K, ∀ l, χ.intoDense = .ok l → l.length = dim χ := by
    intro χ l hl
    cases χ with
    | dense da => cases hl; rfl
    | sparse sa =>
      have hl : scatterSet id sa.activations (List.replicate sa.dim Scalar.zero) = .ok l := hl
      rw [scatterSet_eq_scatterMod] at hl
      have := scatterMod_length _ hl
      simpa using this
  by_cases hs : φ.isSparse = true ∧ ψ.isSparse = true
  · cases φ with
    | dense da => cases hs.1
    | sparse sa₁ =>
      cases ψ with
      | dense da => cases hs.2
      | sparse sa₂ => cases h; rfl
  · have : φ.stack ψ = (do
        let a₁ ← φ.intoDense
        let a₂ ← ψ.intoDense
        .ok (.dense (a₁ ++ a₂))) := by
      cases φ <;> cases ψ <;> first | rfl | exact absurd ⟨rfl, rfl⟩ hs
    rw [this] at h
    cases h1 : φ.intoDense with
    | error p => rw [h1] at h; cases h
    | ok a₁ =>
      rw [h1, P.ok_bind] at h
      cases h2 : ψ.intoDense with
      | error p => rw [h2] at h; cases h
      | ok a₂ =>
        rw [h2, P.ok_bind] at h
        cases h
        simp [key _ _ h1, key _ _ h2]

/-- Stacking well-formed features: well-formed, entries in order. -/
theorem stack_values {φ ψ r : Features K} (h₁ : WF φ) (h₂ : WF ψ) (h : φ.stack ψ = .ok r) :
    WF r ∧ (∀ i, i < dim φ → value r i = value φ i) ∧
      (∀ i, i < dim ψ → value r (dim φ + i) = value ψ i) := by
  have hv : WF r ∧ view r = view φ ++ view ψ := by
    by_cases hs : φ.isSparse = true ∧ ψ.isSparse = true
    · cases φ with
      | dense da => cases hs.1
      | sparse sa₁ =>
        cases ψ with
        | dense da => cases hs.2
        | sparse sa₂ =>
          rw [stack_sparse h₁ h₂] at h
          cases h
          exact ⟨wf_stack_sparse h₁ h₂, view_stack_sparse h₁⟩
    · rw [stack_dense_of_not_sparse h₁ h₂ hs] at h
      cases h
      exact ⟨trivial, view_dense _⟩
  have hd : dim r = dim φ + dim ψ := stack_dim h
  refine ⟨hv.1, ?_, ?_⟩
  · intro i hi
    have : (view r)[i]? = (view φ ++ view ψ)[i]? := by rw [hv.2]
    rw [List.getElem?_append_left (by simpa using hi), view_getElem?, view_getElem?,
      if_pos hi, if_pos (by omega)] at this
    exact Option.some.inj this
  · intro i hi
    have : (view r)[dim φ + i]? = (view φ ++ view ψ)[dim φ + i]? := by rw [hv.2]
    rw [List.getElem?_append_right (by simp), view_length, Nat.add_sub_cancel_left, view_getElem?,
      view_getElem?, if_pos hi, if_pos (by omega)] at this
    exact Option.some.inj this

end

/-! ## `Result.mapP` -/

theorem bind_mapP_ok {α β : Type} {x : P (Result α)} {f : α → P β} {b : β}
    (h : (x >>= fun r => r.mapP f) = .ok (.ok b)) : ∃ a, x = .ok (.ok a) ∧ f a = .ok b := by
  cases x with
  | error p => cases h
  | ok r =>
    cases r with
    | error e => cases h
    | ok a =>
      obtain ⟨b', hb, hh⟩ := P.map_eq_ok.1 (show (f a).map Except.ok = _ from h)
      cases hh
      exact ⟨a, rfl, hb⟩

theorem bind_mapP_error {α β : Type} {x : P (Result α)} {f : α → P β} {e : Error}
    (h : (x >>= fun r => r.mapP f) = .ok (.error e)) : x = .ok (.error e) := by
  cases x with
  | error p => cases h
  | ok r =>
    cases r with
    | error e' => cases h; rfl
    | ok a =>
      obtain ⟨b', hb, hh⟩ := P.map_eq_ok.1 (show (f a).map Except.ok = _ from h)
      cases hh

section StackProject
variable {K : Type} [Scalar K] {B₁ B₂ I : Type} [Space B₁] [Space B₂] [Basis B₁ I K] [Basis B₂ I K]

theorem stack_project_eq (b₁ : B₁) (b₂ : B₂) (input : I) :
    Basis.project (Stack.mk b₁ b₂) input = (do
      let r₁ ← Basis.project b₁ input
      r₁.andThenP fun f₁ => do
        let r₂ ← Basis.project b₂ input
        r₂.mapP fun f₂ => f₁.stack f₂) := rfl

theorem stack_project_ok {b₁ : B₁} {b₂ : B₂} {input : I} {φ : Features K}
    (h : Basis.project (Stack.mk b₁ b₂) input = .ok (.ok φ)) :
    ∃ f₁ f₂, Basis.project b₁ input = .ok (.ok f₁) ∧ Basis.project b₂ input = .ok (.ok f₂) ∧
      f₁.stack f₂ = .ok φ := by
  rw [stack_project_eq] at h
  cases h1 : Basis.project b₁ input with
  | error p => rw [h1] at h; cases h
  | ok r =>
    cases r with
    | error e => rw [h1] at h; cases h
    | ok f₁ =>
      rw [h1] at h
      obtain ⟨f₂, h2, h3⟩ := bind_mapP_ok (x := Basis.project b₂ input) h
      exact ⟨f₁, f₂, rfl, h2, h3⟩

theorem stack_project_error {b₁ : B₁} {b₂ : B₂} {input : I} {e : Error}
    (h : Basis.project (Stack.mk b₁ b₂) input = .ok (.error e)) :
    Basis.project b₁ input = .ok (.error e) ∨ Basis.project b₂ input = .ok (.error e) := by
  rw [stack_project_eq] at h
  cases h1 : Basis.project b₁ input with
  | error p => rw [h1] at h; cases h
  | ok r =>
    cases r with
    | error e' => rw [h1] at h; cases h; exact .inl rfl
    | ok f₁ =>
      rw [h1] at h
      exact .inr (bind_mapP_error h)

end StackProject

end Lfa

import Verif.Proofs.Real

/-! # Lemmas about the operations of `Features` -/

set_option linter.unusedSectionVars false

namespace Lfa

open Spec Features

section General
variable {K : Type} [Scalar K]

theorem keysUnique_of_wf {φ : Features K} (h : WF φ) : KeysUnique φ := by
  cases φ with
  | dense _ => trivial
  | sparse sa => exact h.1

theorem not_wf_sparse {sa : SparseActivations K} (hn : KeysUnique (.sparse sa))
    (h : ¬ WF (.sparse sa)) : ∃ e ∈ sa.activations, sa.dim ≤ e.1 := by
  by_contra hc
  apply h
  exact ⟨hn, fun e he => Nat.lt_of_not_le fun hl => hc ⟨e, he, hl⟩⟩

theorem value_of_stored {φ : Features K} (h : KeysUnique φ) {i : Nat} {a : K}
    (hs : Stored φ i a) : value φ i = a := by
  cases φ with
  | dense da =>
    rw [value_dense, List.getD_eq_getElem?_getD, show da[i]? = some a from hs]; rfl
  | sparse sa =>
    rw [value_sparse, HMap.get?_of_mem h (show (i, a) ∈ sa.activations from hs)]; rfl

theorem value_of_not_stored {φ : Features K} {i : Nat} (hs : ∀ a, ¬ Stored φ i a) :
    value φ i = Scalar.zero := by
  cases φ with
  | dense da =>
    rw [value_dense, List.getD_eq_getElem?_getD]
    rcases h : da[i]? with _ | a
    · rfl
    · exact absurd h (hs a)
  | sparse sa =>
    rw [value_sparse]
    rcases h : HMap.get? sa.activations i with _ | a
    · rfl
    · exact absurd (HMap.mem_of_get? h) (hs a)

theorem dotSparse_cons_aux (m : List (Nat × K)) (w : List K) (acc : K)
    (h : ∃ e ∈ m, w.length ≤ e.1) :
    m.foldlM (fun acc e => do
      let w ← idx w e.1
      (Except.ok (acc +. w *. e.2) : P K)) acc = .error .indexOutOfBounds := by
  induction m generalizing acc with
  | nil => simp at h
  | cons e m ih =>
    rw [List.foldlM_cons]
    rcases Nat.lt_or_ge e.1 w.length with he | he
    · rw [idx_of_lt he]
      apply ih
      obtain ⟨e', h', hl⟩ := h
      rcases List.mem_cons.1 h' with rfl | h'
      · omega
      · exact ⟨e', h', hl⟩
    · rw [idx_of_ge he]; rfl

theorem dotSparse_error {sa : SparseActivations K} {w : List K}
    (h : ∃ e ∈ sa.activations, w.length ≤ e.1) :
    dotSparse sa w = .error .indexOutOfBounds := dotSparse_cons_aux _ _ _ h

theorem dotSparse_foldl_aux (m : List (Nat × K)) (w : List K) (acc : K)
    (h : ∀ e ∈ m, e.1 < w.length) :
    m.foldlM (fun acc e => do
      let w ← idx w e.1
      (Except.ok (acc +. w *. e.2) : P K)) acc =
    .ok (m.foldl (fun acc e => acc +. w.getD e.1 Scalar.zero *. e.2) acc) := by
  induction m generalizing acc with
  | nil => rfl
  | cons e m ih =>
    have he := h e List.mem_cons_self
    rw [List.foldlM_cons, idx_of_lt he, List.foldl_cons]
    show List.foldlM _ (acc +. w[e.1] *. e.2) m = _
    rw [ih _ fun e' h' => h e' (List.mem_cons_of_mem _ h'), List.getD_eq_getElem?_getD,
      List.getElem?_eq_getElem he]
    rfl

/-- In range, `dot_sparse` is the plain fold (any arithmetic). -/
theorem dotSparse_ok {sa : SparseActivations K} {w : List K}
    (h : ∀ e ∈ sa.activations, e.1 < w.length) :
    dotSparse sa w = .ok (sa.activations.foldl
      (fun acc e => acc +. w.getD e.1 Scalar.zero *. e.2) Scalar.zero) :=
  dotSparse_foldl_aux _ _ _ h

theorem collect_perm {m₁ m₂ : HMap K} (h : m₁.NodupKeys) (hp : m₁.Perm m₂) :
    (HMap.collect m₁).Perm (HMap.collect m₂) := by
  rw [HMap.collect_of_nodup h, HMap.collect_of_nodup (h.perm hp)]; exact hp

theorem foldl_insert_shift_perm {m₁ m₂ n₁ n₂ : HMap K} (d : Nat) (h : m₁.NodupKeys)
    (hp : m₁.Perm m₂) (hn : n₁.NodupKeys) (hq : n₁.Perm n₂) :
    (n₁.foldl (fun m e => HMap.insert m (e.1 + d) e.2) m₁).Perm
      (n₂.foldl (fun m e => HMap.insert m (e.1 + d) e.2) m₂) := by
  have key : ∀ (n m : HMap K), n.foldl (fun m e => HMap.insert m (e.1 + d) e.2) m =
      (n.map fun e => (e.1 + d, e.2) : List (Nat × K)).foldl
        (fun m e => HMap.insert m e.1 e.2) m := by
    intro n m; rw [List.foldl_map]
  rw [key, key]
  have hnk : HMap.NodupKeys (n₁.map fun e => (e.1 + d, e.2) : List (Nat × K)) := by
    unfold HMap.NodupKeys at *
    rw [List.map_map]
    have : (Prod.fst ∘ fun e : Nat × K => (e.1 + d, e.2)) = (· + d) ∘ Prod.fst := rfl
    rw [this, ← List.map_map]
    exact hn.map (fun a b hab => Nat.add_right_cancel hab)
  have hqk := hq.map fun e : Nat × K => (e.1 + d, e.2)
  apply HMap.perm_of_get? (HMap.nodupKeys_foldl_insert _ _ h)
    (HMap.nodupKeys_foldl_insert _ _ (h.perm hp))
  intro k
  rw [HMap.get?_foldl_insert, HMap.get?_foldl_insert, HMap.get?_perm h hp]
  congr 1
  apply HMap.get?_perm
  · unfold HMap.NodupKeys at *; rw [List.map_reverse]; exact List.nodup_reverse.2 hnk
  · exact (List.reverse_perm _).trans (hqk.trans (List.reverse_perm _).symm)

theorem orInsert_foldl_perm (g : K → K) {n₁ n₂ m₁ m₂ : HMap K} (h : m₁.NodupKeys)
    (hp : m₁.Perm m₂) (hn : n₁.NodupKeys) (hq : n₁.Perm n₂) :
    (n₁.foldl (fun m e => HMap.orInsert m e.1 (g e.2)) m₁).Perm
      (n₂.foldl (fun m e => HMap.orInsert m e.1 (g e.2)) m₂) := by
  have nd : ∀ (n m : HMap K), m.NodupKeys →
      (n.foldl (fun m e => HMap.orInsert m e.1 (g e.2)) m).NodupKeys := by
    intro n
    induction n with
    | nil => exact fun m hm => hm
    | cons e n ih => exact fun m hm => ih _ (HMap.nodupKeys_orInsert hm _ _)
  have gt : ∀ (n m : HMap K) (k : Nat),
      HMap.get? (n.foldl (fun m e => HMap.orInsert m e.1 (g e.2)) m) k =
        (HMap.get? m k).or ((HMap.get? n k).map g) := by
    intro n
    induction n with
    | nil => intro m k; simp
    | cons e n ih =>
      intro m k
      rw [List.foldl_cons, ih, HMap.get?_orInsert, HMap.get?_cons]
      rcases HMap.get? m k with _ | a <;> by_cases hk : k = e.1 <;> simp [hk]
  apply HMap.perm_of_get? (nd _ _ h) (nd _ _ (h.perm hp))
  intro k
  rw [gt, gt, HMap.get?_perm h hp, HMap.get?_perm hn hq]

theorem mergeSparse_perm {n n' : Nat} {m₁ m₂ m₁' m₂' : HMap K} (h : m₁.NodupKeys)
    (hp : m₁.Perm m₂) (h' : m₁'.NodupKeys) (hp' : m₁'.Perm m₂') (f : K → K → K) :
    Same (.sparse (mergeSparse ⟨n, m₁⟩ ⟨n', m₁'⟩ f)) (.sparse (mergeSparse ⟨n, m₂⟩ ⟨n', m₂'⟩ f)) := by
  refine .sparse _ (orInsert_foldl_perm _ ?_ ?_ h' hp')
  · exact HMap.nodupKeys_mapKV (fun i a => f a ((HMap.get? m₁' i).getD Scalar.zero)) h
  · simp only [HMap.get?_perm h' hp']
    exact hp.map _

/-! ### `dot` with a column of a matrix -/

theorem dotColumn_sparse (m : Nat) (sa : SparseActivations K) (c : List K) :
    (Features.sparse sa).dotColumn m c = (Features.sparse sa).dot c := rfl

theorem dotColumn_dense (m : Nat) (da c : List K) : (Features.dense da).dotColumn m c =
    if m = 1 ∨ c.length ≤ 1 then arrayDot da c else stridedDot da c := rfl

theorem dotColumn_one (φ : Features K) (c : List K) : φ.dotColumn 1 c = φ.dot c := by
  cases φ with
  | dense da => rw [dotColumn_dense, if_pos (Or.inl rfl)]; rfl
  | sparse sa => rfl

theorem dotColumn_short (m : Nat) (φ : Features K) {c : List K} (hc : c.length ≤ 1) : φ.dotColumn m c = φ.dot c := by
  cases φ with
  | dense da => rw [dotColumn_dense, if_pos (Or.inr hc)]; rfl
  | sparse sa => rfl

theorem dotColumn_error_iff (m : Nat) (φ : Features K) (c : List K) (p : Panic) :
    φ.dotColumn m c = .error p ↔ φ.dot c = .error p := by
  cases φ with
  | dense da =>
    rw [dotColumn_dense]
    split_ifs
    · exact Iff.rfl
    · show stridedDot da c = _ ↔ arrayDot da c = _
      unfold stridedDot arrayDot
      split_ifs
      · constructor <;> intro h <;> cases h
      · exact Iff.rfl
  | sparse sa => exact Iff.rfl

theorem dotColumn_ok_of_dot (m : Nat) {φ : Features K} {c : List K} {v : K} (h : φ.dot c = .ok v) :
    ∃ u, φ.dotColumn m c = .ok u := by
  cases hd : φ.dotColumn m c with
  | ok u => exact ⟨u, rfl⟩
  | error p =>
    rw [dotColumn_error_iff, h] at hd
    cases hd

end General

theorem mapM_ok_iff {α β : Type} (f : α → P β) (xs : List α) (ys : List β) :
    xs.mapM f = .ok ys ↔ List.Forall₂ (fun x y => f x = .ok y) xs ys := by
  induction xs generalizing ys with
  | nil =>
    rw [List.mapM_nil]
    constructor
    · intro h; cases h; exact .nil
    · intro h; cases h; rfl
  | cons x xs ih =>
    rw [List.mapM_cons]
    constructor
    · intro h
      cases hx : f x with
      | error p => rw [hx] at h; cases h
      | ok y =>
        rw [hx, P.ok_bind] at h
        cases hxs : xs.mapM f with
        | error p => rw [hxs] at h; cases h
        | ok zs => rw [hxs] at h; cases h; exact .cons hx ((ih zs).1 hxs)
    · intro h
      cases h with
      | cons h1 h2 => rw [h1, P.ok_bind, (ih _).2 h2]; rfl

theorem mapM_panics_iff {α β : Type} (f : α → P β) (xs : List α) :
    Panics (xs.mapM f) ↔ ∃ x ∈ xs, Panics (f x) := by
  induction xs with
  | nil => rw [List.mapM_nil]; simp [Panics, pure, Except.pure]
  | cons x xs ih =>
    rw [List.mapM_cons]
    cases hx : f x with
    | error p =>
      exact ⟨fun _ => ⟨x, List.mem_cons_self, p, hx⟩, fun _ => ⟨p, rfl⟩⟩
    | ok y =>
      rw [P.ok_bind]
      cases hxs : xs.mapM f with
      | error p =>
        obtain ⟨z, hz, hp⟩ := ih.1 ⟨p, hxs⟩
        exact ⟨fun _ => ⟨z, List.mem_cons_of_mem _ hz, hp⟩, fun _ => ⟨p, rfl⟩⟩
      | ok zs =>
        constructor
        · rintro ⟨p, hp⟩; cases hp
        · rintro ⟨z, hz, p, hp⟩
          rcases List.mem_cons.1 hz with rfl | hz
          · rw [hx] at hp; cases hp
          · obtain ⟨q, hq⟩ := ih.2 ⟨z, hz, p, hp⟩
            rw [hxs] at hq; cases hq

section Reals

theorem dotColumn_real (m : Nat) (φ : Features ℝ) (c : List ℝ) : φ.dotColumn m c = φ.dot c := by
  cases φ with
  | dense da =>
    rw [dotColumn_dense]
    split_ifs
    · rfl
    · show stridedDot da c = arrayDot da c
      unfold stridedDot arrayDot
      split
      · congr 1
        rw [real_dot, List.sum_eq_foldl, real_zero]
        rfl
      · rfl
  | sparse sa => rfl

theorem matmul_eq_real (φ : Features ℝ) (cs : List (List ℝ)) : φ.matmul cs = cs.mapM fun c => φ.dot c := by
  unfold matmul
  simp only [dotColumn_real]

theorem foldl_entries_add (g : Nat × ℝ → ℝ) (m : List (Nat × ℝ)) (z : ℝ) :
    m.foldl (fun acc e => acc + g e) z = z + (m.map g).sum := by
  induction m generalizing z with
  | nil => simp
  | cons a l ih => simp only [List.foldl_cons, ih, List.map_cons, List.sum_cons]; ring

theorem dotSparse_real {sa : SparseActivations ℝ} (hwf : WF (.sparse sa)) {w : List ℝ}
    (h : ∀ e ∈ sa.activations, e.1 < w.length) :
    dotSparse sa w = .ok (inner (.sparse sa) w) := by
  rw [dotSparse_ok h]
  congr 1
  simp only [real_add, real_mul, real_zero]
  rw [foldl_entries_add (fun e => w.getD e.1 0 * e.2), zero_add]
  rw [sum_entries_eq (fun i a => w.getD i 0 * a) (fun i => mul_zero _) sa.dim _ hwf.1 hwf.2]
  unfold inner
  apply Finset.sum_congr rfl
  intro i _
  rw [value_sparse, real_zero, mul_comm]

theorem dot_real {φ : Features ℝ} (hwf : WF φ) {w : List ℝ} (h : dim φ = w.length) :
    φ.dot w = .ok (inner φ w) := by
  cases φ with
  | dense da =>
    have h : da.length = w.length := h
    show arrayDot da w = _
    unfold arrayDot
    rw [if_pos h, real_dot, sum_zipWith_eq _ _ _ h]
    unfold inner
    simp only [value_dense, real_zero]
    rfl
  | sparse sa =>
    have h : sa.dim = w.length := h
    exact dotSparse_real hwf fun e he => h ▸ hwf.2 e he

theorem fold_real {φ : Features ℝ} (hwf : WF φ) (g : ℝ → ℝ) (g0 : g 0 = 0) (z : ℝ) :
    φ.fold z (fun acc x => acc + g x) = z + ∑ i ∈ Finset.range (dim φ), g (value φ i) := by
  cases φ with
  | dense da =>
    show da.foldl _ _ = _
    rw [foldl_add_eq, sum_map_eq]; simp only [value_dense, real_zero]; rfl
  | sparse sa =>
    show (sa.activations.map Prod.snd).foldl _ _ = _
    rw [foldl_add_eq, List.map_map]
    have := sum_entries_eq (fun _ a => g a) (fun _ => g0) sa.dim _ hwf.1 hwf.2
    simp only [value_sparse, real_zero]
    show _ = z + ∑ i ∈ Finset.range sa.dim, g ((sa.activations.get? i).getD 0)
    rw [← this]
    rfl

end Reals

end Lfa

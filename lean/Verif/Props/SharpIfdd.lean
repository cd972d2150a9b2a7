import Verif.Props.C111_C114
import Verif.Props.C51_C54
import Verif.Props.C12_C16

/-!
# When exactly the claims about Adam's correction and about feature discovery hold

C54, C112, C113 and C114 are false of the code; these theorems say where they hold.
-/

set_option linter.unusedSectionVars false

namespace Lfa

open Spec

/-! ## C54 -/

/-- The factor is 1 exactly when there is no decay. -/
theorem factor_eq_one_iff {b : ℝ} (h0 : 0 ≤ b) (h1 : b < 1) (t : Nat) :
    (1 - b ^ (t + 1)) / (1 - b ^ (t + 2)) = 1 ↔ b = 0 := by
  constructor
  · intro h
    by_contra hb
    exact absurd h (C54_factor_lt_one b (lt_of_le_of_ne h0 (Ne.symm hb)) h1 (t + 1)).ne
  · rintro rfl
    simp

/-- Whether one expression in the gradient is the claimed one for every gradient depends on both factors. -/
theorem corrected_iff {lr r v : ℝ} (hlr : lr ≠ 0) (hv : 0 ≤ v) :
    (∀ g : ℝ, lr * (g * r) / (√(g ^ 2 * v) + 1e-7) = lr * g / (√(g ^ 2) + 1e-7)) ↔ r = 1 ∧ v = 1 := by
  constructor
  · intro h
    have key : ∀ g : ℝ, 0 < g → r * (g + 1e-7) = g * √v + 1e-7 := by
      intro g hg
      have := h g
      rw [Real.sqrt_mul (sq_nonneg g), Real.sqrt_sq hg.le,
        div_eq_div_iff (by positivity) (by positivity)] at this
      have h2 : lr * g * (r * (g + 1e-7)) = lr * g * (g * √v + 1e-7) := by linarith
      exact mul_left_cancel₀ (mul_ne_zero hlr hg.ne') h2
    have k1 := key 1 one_pos
    have k2 := key 2 two_pos
    have hr : r = 1 := by linarith
    refine ⟨hr, ?_⟩
    have hs : √v = 1 := by rw [hr] at k1; linarith
    rw [← Real.sqrt_eq_one]
    exact hs
  · rintro ⟨rfl, rfl⟩ g
    rw [mul_one, mul_one]

/-- The claim holds at step `t + 1` for every gradient exactly when both decay rates are 0. -/
theorem C54_iff (lr b1 b2 : ℝ) (hlr : lr ≠ 0) (h10 : 0 ≤ b1) (h11 : b1 < 1) (h20 : 0 ≤ b2) (h21 : b2 < 1) (t : Nat) :
    (∀ (g : ℝ) (n : Nat) (w : List ℝ) (es : List (Event ℝ)) (i : Nat) (o : Adam ℝ) (w₁ : List ℝ) (φ : Features ℝ) (s : ℝ),
      w.length = n → es.length = t → (∀ e ∈ es, e.Fits n ∧ e.isStep = true ∧ e.grad i = g) → i < n →
      History (Adam.new n lr b1 b2) w es o w₁ → Fits n φ → Active φ i → value φ i * s = g →
      ∃ o' w', Optimiser.stepScaled o w₁ φ s = .ok (.ok (), o', w') ∧
        entry w' i = entry w₁ i + lr * g / (√(g ^ 2) + 1e-7)) ↔ b1 = 0 ∧ b2 = 0 := by
  have hv : 0 ≤ (1 - b2 ^ (t + 1)) / (1 - b2 ^ (t + 2)) := by
    have := pow_le_one₀ (n := t + 1) h20 h21.le
    have := pow_le_one₀ (n := t + 2) h20 h21.le
    exact div_nonneg (by linarith) (by linarith)
  rw [← factor_eq_one_iff h10 h11 t, ← factor_eq_one_iff h20 h21 t, ← corrected_iff hlr hv]
  constructor
  · intro h g
    have hfit : Fits 1 (.dense [(1 : ℝ)]) := ⟨trivial, rfl⟩
    have he : ∀ e ∈ List.replicate t (Event.stepScaled (.dense [(1 : ℝ)]) g),
        e.Fits 1 ∧ e.isStep = true ∧ e.grad 0 = g := by
      intro e he
      rw [List.eq_of_mem_replicate he]
      exact ⟨hfit, rfl, one_mul g⟩
    obtain ⟨o, w₁, hh, -⟩ := history_exists (n := 1) (o := Adam.new 1 lr b1 b2) (w := [0])
      (show HasSize.sized 1 (Adam.new 1 lr b1 b2) from ⟨List.length_replicate, List.length_replicate⟩) rfl fun e h => (he e h).1
    have ha : Active (.dense [(1 : ℝ)]) 0 := active_dense Nat.one_pos
    obtain ⟨o', w', e1, e2⟩ := h g 1 [0] _ 0 o w₁ (.dense [1]) g rfl List.length_replicate he Nat.one_pos hh hfit
      ha (one_mul g)
    obtain ⟨o'', w'', f1, f2⟩ := C54_correction_partial 1 lr b1 b2 g [0] rfl _ (fun e h => (he e h).1)
      (fun e h => (he e h).2.1) 0 Nat.one_pos (fun e h => (he e h).2.2) o w₁ hh (.dense [1]) hfit ha g (one_mul g)
    rw [e1] at f1
    cases f1
    rw [e2, List.length_replicate] at f2
    linarith
  · intro h g n w es i o w₁ φ s hw ht he hi hh hf ha hgs
    obtain ⟨o', w', f1, f2⟩ := C54_correction_partial n lr b1 b2 g w hw es (fun e h => (he e h).1)
      (fun e h => (he e h).2.1) i hi (fun e h => (he e h).2.2) o w₁ hh φ hf ha s hgs
    rw [ht] at f2
    exact ⟨o', w', f1, by rw [f2, h g]⟩

/-! ## C112 -/

section
variable (thr : ℝ)

/-- How often an account that holds `a` reaches the threshold. -/
noncomputable def closures : ℝ → List ℝ → Nat
  | _, [] => 0
  | a, x :: xs => if thr ≤ a + x then 1 + closures 0 xs else closures (a + x) xs

theorem closures_fold (xs : List ℝ) : ∀ a : Option ℝ × Nat,
    (xs.foldl (pay thr) a).2 = a.2 + closures thr (a.1.getD 0) xs := by
  induction xs with
  | nil => intro a; rfl
  | cons x xs ih =>
    intro a
    rw [List.foldl_cons, ih, pay_real, closures]
    by_cases h : thr ≤ a.1.getD 0 + x
    · rw [if_pos h, if_pos h]
      show a.2 + 1 + closures thr 0 xs = _
      omega
    · rw [if_neg h, if_neg h]; rfl

theorem closures_mono {xs : List ℝ} (hx : ∀ x ∈ xs, 0 ≤ x) : ∀ a b : ℝ, 0 ≤ a → a ≤ b →
    closures thr a xs ≤ closures thr b xs ∧ closures thr b xs ≤ closures thr a xs + 1 := by
  induction xs with
  | nil => intro _ _ _ _; exact ⟨le_rfl, Nat.zero_le _⟩
  | cons x xs ih =>
    intro a b h0 hab
    have ih := ih fun y hy => hx y (List.mem_cons_of_mem _ hy)
    have hx0 := hx x List.mem_cons_self
    unfold closures
    by_cases h1 : thr ≤ a + x
    · rw [if_pos h1, if_pos (by linarith)]
      exact ⟨le_rfl, Nat.le_succ _⟩
    · rw [if_neg h1]
      by_cases h2 : thr ≤ b + x
      · rw [if_pos h2]
        obtain ⟨i1, i2⟩ := ih 0 (a + x) le_rfl (by linarith)
        omega
      · rw [if_neg h2]
        exact ih (a + x) (b + x) (by linarith) (by linarith)

theorem closures_append {ys : List ℝ} (hy : ∀ y ∈ ys, 0 ≤ y) : ∀ (xs : List ℝ), (∀ x ∈ xs, 0 ≤ x) → ∀ a, 0 ≤ a →
    closures thr a xs + closures thr 0 ys ≤ closures thr a (xs ++ ys)
  | [], _, a, h => by
    rw [List.nil_append]
    have := (closures_mono thr hy 0 a le_rfl h).1
    show 0 + _ ≤ _
    omega
  | x :: xs, hx, a, h => by
    have hx' : ∀ y ∈ xs, 0 ≤ y := fun y hy => hx y (List.mem_cons_of_mem _ hy)
    rw [List.cons_append, closures, closures]
    by_cases h1 : thr ≤ a + x
    · rw [if_pos h1, if_pos h1]
      have := closures_append hy xs hx' 0 le_rfl
      omega
    · rw [if_neg h1, if_neg h1]
      exact closures_append hy xs hx' (a + x) (add_nonneg h (hx x List.mem_cons_self))

theorem closures_pos : ∀ (xs : List ℝ) (a : ℝ), a < thr → thr ≤ a + xs.sum → 1 ≤ closures thr a xs
  | [], a, h, h' => by simp at h'; linarith
  | x :: xs, a, h, h' => by
    unfold closures
    by_cases h1 : thr ≤ a + x
    · rw [if_pos h1]; omega
    · rw [if_neg h1]
      rw [List.sum_cons, ← add_assoc] at h'
      exact closures_pos xs (a + x) (not_le.1 h1) h'

theorem closures_cut : ∀ (xs : List ℝ) (a : ℝ) (m : Nat), m + 1 ≤ closures thr a xs →
    ∃ p rest, xs = p ++ rest ∧ thr ≤ a + p.sum ∧ m ≤ closures thr 0 rest
  | [], _, _, h => by
    have h : _ ≤ 0 := h
    omega
  | x :: xs, a, m, h => by
    unfold closures at h
    by_cases h1 : thr ≤ a + x
    · rw [if_pos h1] at h
      exact ⟨[x], xs, rfl, by simpa using h1, by omega⟩
    · rw [if_neg h1] at h
      obtain ⟨p, rest, e1, e2, e3⟩ := closures_cut xs (a + x) m h
      exact ⟨x :: p, rest, by rw [e1]; rfl, by rw [List.sum_cons]; linarith, e3⟩

/-- The account is closed `m` times exactly when the payments can be cut into `m` consecutive parts that reach the threshold
(and a rest). -/
theorem closures_iff (ht : 0 < thr) (m : Nat) : ∀ xs : List ℝ, (∀ x ∈ xs, 0 ≤ x) → (m ≤ closures thr 0 xs ↔
    ∃ (parts : List (List ℝ)) (rest : List ℝ), xs = parts.flatten ++ rest ∧ parts.length = m ∧ ∀ p ∈ parts, thr ≤ p.sum) := by
  induction m with
  | zero =>
    intro xs _
    exact ⟨fun _ => ⟨[], xs, rfl, rfl, by simp⟩, fun _ => Nat.zero_le _⟩
  | succ m ih =>
    intro xs hx
    constructor
    · intro h
      obtain ⟨p, rest, rfl, h2, h3⟩ := closures_cut thr xs 0 m h
      obtain ⟨parts, rest', rfl, e2, e3⟩ := (ih rest fun x h => hx x (List.mem_append_right _ h)).1 h3
      refine ⟨p :: parts, rest', by rw [List.flatten_cons, List.append_assoc], by rw [List.length_cons, e2], ?_⟩
      intro q hq
      rcases List.mem_cons.1 hq with rfl | hq
      · linarith
      · exact e3 q hq
    · rintro ⟨parts, rest, rfl, h2, h3⟩
      obtain ⟨p, parts, rfl⟩ : ∃ p ps, parts = p :: ps := by
        cases parts with
        | nil => cases h2
        | cons p ps => exact ⟨p, ps, rfl⟩
      rw [List.flatten_cons, List.append_assoc] at hx ⊢
      have hr : ∀ x ∈ parts.flatten ++ rest, 0 ≤ x := fun x h => hx x (List.mem_append_right _ h)
      have h4 := (ih _ hr).2 ⟨parts, rest, rfl, by simpa using h2, fun q hq => h3 q (List.mem_cons_of_mem _ hq)⟩
      have h5 := closures_append thr hr p (fun x h => hx x (List.mem_append_left _ h)) 0 le_rfl
      have h6 := closures_pos thr p 0 ht (by rw [zero_add]; exact h3 p List.mem_cons_self)
      omega

end

section
variable {B I : Type} [Space B] [Basis B I ℝ]

/-- A pair is discovered at least `m` times exactly when the absolute errors of the calls that inspect both can be cut into `m`
consecutive parts, each of which sums to the threshold, and a rest. -/
theorem C112_count {n : Nat} (b : B) (hn : Space.dim b = .finite n) (thr : ℝ) (ht : 0 < thr)
    (s₀ s : IFDD B ℝ) (hs : IFDD.new b thr = .ok s₀) (calls : List (Features ℝ × ℝ))
    (hf : ∀ c ∈ calls, Fits n c.1) (h : Discoveries I s₀ calls s) (g k : Nat) (hgk : g < k) (hk : k < n) (m : Nat) :
    m ≤ copies s {g, k} ↔ ∃ (parts : List (List ℝ)) (rest : List ℝ),
      credited g k calls = parts.flatten ++ rest ∧ parts.length = m ∧ ∀ p ∈ parts, thr ≤ p.sum := by
  rw [C111_discovered b hn thr s₀ s hs calls hf h g k hgk hk, tally, closures_fold]
  show m ≤ 0 + closures thr 0 _ ↔ _
  rw [zero_add, closures_iff thr ht m _ (credited_nonneg g k calls)]

/-- The claim holds for a pair exactly when its errors cannot be cut into two parts that both reach the threshold. -/
theorem C112_iff {n : Nat} (b : B) (hn : Space.dim b = .finite n) (thr : ℝ) (ht : 0 < thr)
    (s₀ s : IFDD B ℝ) (hs : IFDD.new b thr = .ok s₀) (calls : List (Features ℝ × ℝ))
    (hf : ∀ c ∈ calls, Fits n c.1) (h : Discoveries I s₀ calls s) (g k : Nat) (hgk : g < k) (hk : k < n) :
    copies s {g, k} ≤ 1 ↔ ¬ ∃ xs ys, credited g k calls = xs ++ ys ∧ thr ≤ xs.sum ∧ thr ≤ ys.sum := by
  rw [← not_iff_not, not_not, not_le]
  refine (C112_count b hn thr ht s₀ s hs calls hf h g k hgk hk 2).trans ?_
  constructor
  · rintro ⟨parts, rest, h1, h2, h3⟩
    match parts, h2 with
    | [p, q], _ =>
      refine ⟨p, q ++ rest, by simpa using h1, h3 p (by simp), ?_⟩
      rw [List.sum_append]
      have : 0 ≤ rest.sum := List.sum_nonneg fun x hx =>
        credited_nonneg g k calls x (by rw [h1]; exact List.mem_append_right _ hx)
      linarith [h3 q (by simp)]
  · rintro ⟨xs, ys, h1, h2, h3⟩
    refine ⟨[xs, ys], [], by simpa using h1, rfl, ?_⟩
    intro p hp
    simp only [List.mem_cons, List.not_mem_nil, or_false] at hp
    rcases hp with rfl | rfl
    · exact h2
    · exact h3

end

/-! ## C113 -/

/-- A call is credited to a pair exactly as claimed if and only if its projection is sparse, or exactly one of the two features
is active in it. -/
theorem C113_iff {K : Type} [Scalar K] {n : Nat} (φ : Features K) (hf : Fits n φ) (g k : Nat) (hg : g < n) (hk : k < n) :
    ((Inspects φ g ∧ Inspects φ k) ↔ (Live φ g ∧ Live φ k)) ↔
      φ.isSparse = true ∨ (Live φ g ∧ ¬ Live φ k) ∨ (¬ Live φ g ∧ Live φ k) := by
  cases φ with
  | sparse sa => exact ⟨fun _ => .inl rfl, fun _ => Iff.rfl⟩
  | dense da =>
    have hl : da.length = n := hf.2
    have key : ∀ i < n, Inspects (.dense da) i ↔ ¬ Live (.dense da) i := by
      intro i hi
      have e : da[i]? = some (da[i]'(by omega)) := List.getElem?_eq_getElem (by omega)
      show (∃ a, da[i]? = some a ∧ _) ↔ ¬ ∃ a, da[i]? = some a ∧ _
      rw [e]
      simp
    rw [key g hg, key k hk]
    have hs : (Features.dense da).isSparse = true ↔ False := by
      constructor
      · intro h; cases h
      · exact False.elim
    rw [hs]
    tauto

/-! ## C114 -/

theorem foldl_insert_keys {K : Type} (d : Nat) (k : Nat) : ∀ (es m : HMap K),
    (k ∈ m.map Prod.fst ∨ ∃ e ∈ es, e.1 + d = k) →
      k ∈ (es.foldl (fun m e => HMap.insert m (e.1 + d) e.2) m).map Prod.fst := by
  intro es
  induction es with
  | nil =>
    rintro m (h | ⟨e, he, -⟩)
    · exact h
    · cases he
  | cons e es ih =>
    intro m h
    apply ih
    rcases h with h | ⟨e', he, hk⟩
    · exact .inl ((HMap.mem_keys_insert _ _ _ _).2 (.inr h))
    · rcases List.mem_cons.1 he with rfl | he
      · exact .inl ((HMap.mem_keys_insert _ _ _ _).2 (.inl hk.symm))
      · exact .inr ⟨e', he, hk⟩

theorem live_sparse {K : Type} [Scalar K] (sa : SparseActivations K) (j : Nat) :
    Live (.sparse sa) j ↔ j ∈ sa.activations.map Prod.fst := by
  constructor
  · rintro ⟨a, ha⟩
    exact List.mem_map.2 ⟨_, ha, rfl⟩
  · intro h
    obtain ⟨⟨i, a⟩, he, rfl⟩ := List.mem_map.1 h
    exact ⟨a, he⟩

theorem remove_keeps {K : Type} [Scalar K] {n : Nat} {p : Features K} (h : Fits n p) (i : Nat) :
    Fits n (p.remove i) ∧ ∀ j, j ≠ i → Live p j → Live (p.remove i) j := by
  cases p with
  | dense da =>
    refine ⟨⟨trivial, ?_⟩, ?_⟩
    · have h2 : da.length = n := h.2
      show (da.set i Scalar.zero).length = n
      rw [List.length_set, h2]
    · rintro j hj ⟨a, ha, hb⟩
      exact ⟨a, by rw [List.getElem?_set_ne (Ne.symm hj), ha], hb⟩
  | sparse sa =>
    refine ⟨⟨⟨HMap.nodupKeys_remove h.1.1 i, fun e he => h.1.2 e (List.mem_of_mem_filter he)⟩, h.2⟩, ?_⟩
    intro j hj hl
    rw [live_sparse] at hl
    show Live (.sparse ⟨_, HMap.remove sa.activations i⟩) j
    rw [live_sparse]
    by_contra hc
    have := (HMap.get?_eq_none_iff _ _).2 hc
    rw [HMap.get?_remove, if_neg hj] at this
    exact (HMap.get?_eq_none_iff _ _).1 this hl

theorem stack_live {K : Type} [Scalar K] {φ ψ r : Features K} (h : φ.stack ψ = .ok r) {j : Nat} (hw : WF φ) (hl : Live φ j)
    (hs : ψ.isSparse = true) : Live r j := by
  cases ψ with
  | dense _ => cases hs
  | sparse sb =>
    cases φ with
    | dense da =>
      have h : (Features.intoDense (.dense da) >>= fun a₁ => (Features.sparse sb).intoDense >>= fun a₂ =>
        (.ok (.dense (a₁ ++ a₂)) : P (Features K))) = .ok r := h
      rw [show Features.intoDense (.dense da) = .ok da from rfl, P.ok_bind] at h
      cases h2 : (Features.sparse sb).intoDense with
      | error p => rw [h2] at h; cases h
      | ok a₂ =>
        rw [h2, P.ok_bind] at h
        cases h
        obtain ⟨a, ha, hb⟩ := hl
        exact ⟨a, by rw [List.getElem?_append_left (List.getElem?_eq_some_iff.1 ha).1, ha], hb⟩
    | sparse sa =>
      cases h
      rw [live_sparse] at hl ⊢
      exact foldl_insert_keys _ _ _ _ (.inl hl)

/-- Which discovered features the projection takes to be active: those without an active parent. -/
theorem allBelow_iff {p : Features ℝ} {n : Nat} (hf : Fits n p) : ∀ is : List Nat, (∀ i ∈ is, i < n) →
    ∃ b, IFDD.allBelow p is = .ok b ∧ (b = true ↔ ∀ i ∈ is, ¬ Live p i) := by
  intro is his
  by_cases hl : ∃ j ∈ is, Live p j
  · obtain ⟨j, hj, hlj⟩ := hl
    exact ⟨false, allBelow_false hf his hj hlj, by simpa using ⟨j, hj, hlj⟩⟩
  · push Not at hl
    refine ⟨true, ?_, by simpa using hl⟩
    induction is with
    | nil => rfl
    | cons i is ih =>
      have hi := his i List.mem_cons_self
      have hli := hl i List.mem_cons_self
      have hx : ∃ a, p.index i = .ok a ∧ Scalar.lt (Scalar.abs a) (Scalar.sci 1 7 : ℝ) = true := by
        cases p with
        | dense da =>
          have h2 : da.length = n := hf.2
          have e : da[i]? = some (da[i]'(by omega)) := List.getElem?_eq_getElem (by omega)
          refine ⟨_, show idx da i = .ok _ by unfold idx; rw [e], ?_⟩
          by_contra hc
          exact hli ⟨_, e, hc⟩
        | sparse sa =>
          refine ⟨_, rfl, ?_⟩
          rw [live_sparse, ← HMap.contains_iff] at hli
          rw [if_neg hli, real_lt, real_abs, real_zero, real_sci]
          norm_num
      obtain ⟨a, ha, hb⟩ := hx
      show (p.index i >>= _) = _
      rw [ha, P.ok_bind, if_pos hb]
      exact ih (fun i hi => his i (List.mem_cons_of_mem _ hi)) fun i hi => hl i (List.mem_cons_of_mem _ hi)

/-- The projection is as claimed exactly at the inputs where every discovered feature has an active and an inactive parent, so that
there is nothing to switch. -/
theorem C114_iff {B I : Type} [Space B] [Basis B I ℝ] {n : Nat} (b : B) (hn : Space.dim b = .finite n) (thr : ℝ)
    (s₀ s : IFDD B ℝ) (hs : IFDD.new b thr = .ok s₀) (calls : List (Features ℝ × ℝ))
    (hf : ∀ c ∈ calls, Fits n c.1) (h : Discoveries I s₀ calls s) (x : I) (φ : Features ℝ)
    (hp : Basis.project b x = .ok (.ok φ)) (hφ : Fits n φ) :
    ProjectsConjunctions n s x φ ↔ ∀ (i : Nat) (f : IfddFeature), n ≤ i → s.features[i]? = some f →
      (∃ j ∈ f.parents, Live φ j) ∧ ∃ j ∈ f.parents, ¬ Live φ j := by
  obtain ⟨a1, a2, -⟩ := IFDD.new_spec hs hn
  obtain ⟨b1, b2, -⟩ := run_spec h a1 hf
  have hge := b1.ge
  constructor
  · rintro ⟨r, hr, hw, hd, hv, ho⟩
    -- the steps of the projection
    have hact : ∀ is : List Nat, (∀ i ∈ is, n ≤ i ∧ i < s.features.length) →
        ∃ np, s.activated φ is = .ok np ∧ ∀ i, i ∈ np ↔ i ∈ is ∧ ∀ f, s.features[i]? = some f → ∀ j ∈ f.parents, ¬ Live φ j := by
      intro is
      induction is with
      | nil => intro _; exact ⟨[], rfl, by simp⟩
      | cons i is ih =>
        intro his
        obtain ⟨np, h1, h2⟩ := ih fun i hi => his i (List.mem_cons_of_mem _ hi)
        obtain ⟨q1, q2⟩ := his i List.mem_cons_self
        obtain ⟨f, hf⟩ : ∃ f, s.features[i]? = some f := ⟨_, List.getElem?_eq_getElem q2⟩
        obtain ⟨g, k, hgk, hk, hpar⟩ := b1.pair i f q1 hf
        obtain ⟨c, hc, hc'⟩ := allBelow_iff hφ (f.parents.sort (· ≤ ·)) fun j hj => by
          rw [Finset.mem_sort, hpar, Finset.mem_insert, Finset.mem_singleton] at hj
          omega
        have hc'' : c = true ↔ ∀ f, s.features[i]? = some f → ∀ j ∈ f.parents, ¬ Live φ j := by
          rw [hc']
          constructor
          · intro h f' hf' j hj
            rw [hf] at hf'
            cases hf'
            exact h j ((Finset.mem_sort _).2 hj)
          · exact fun h j hj => h f hf j ((Finset.mem_sort _).1 hj)
        refine ⟨if c then i :: np else np, ?_, ?_⟩
        · show (idx s.features i >>= _) = _
          rw [show idx s.features i = .ok f by unfold idx; rw [hf], P.ok_bind, hc, P.ok_bind, h1]
          rfl
        · intro k
          split_ifs with hcc
          · rw [List.mem_cons, List.mem_cons, h2]
            constructor
            · rintro (rfl | h)
              · exact ⟨.inl rfl, hc''.1 hcc⟩
              · exact ⟨.inr h.1, h.2⟩
            · rintro ⟨rfl | h, h'⟩
              · exact .inl rfl
              · exact .inr ⟨h, h'⟩
          · rw [List.mem_cons, h2]
            constructor
            · exact fun h => ⟨.inr h.1, h.2⟩
            · rintro ⟨rfl | h, h'⟩
              · exact absurd (hc''.2 h') hcc
              · exact ⟨h, h'⟩
    obtain ⟨np, h1, h2⟩ := hact (List.range' n (s.features.length - n)) fun i hi => by
      rw [List.mem_range'_1] at hi
      omega
    have h2 : ∀ i, i ∈ np ↔ (n ≤ i ∧ i < s.features.length) ∧ ∀ f, s.features[i]? = some f → ∀ j ∈ f.parents, ¬ Live φ j := by
      intro i
      rw [h2, List.mem_range'_1, Nat.add_sub_cancel' hge]
    have hfold : ∀ (js : List Nat) (p : Features ℝ), Fits n p → Fits n (js.foldl Features.remove p) ∧
        ∀ j, j ∉ js → Live p j → Live (js.foldl Features.remove p) j := by
      intro js
      induction js with
      | nil => exact fun p hp => ⟨hp, fun _ _ h => h⟩
      | cons i js ih =>
        intro p hp
        obtain ⟨c1, c2⟩ := remove_keeps hp i
        obtain ⟨d1, d2⟩ := ih _ c1
        exact ⟨d1, fun j hj hl => d2 j (fun h => hj (List.mem_cons_of_mem _ h))
          (c2 j (fun h => hj (h ▸ List.mem_cons_self)) hl)⟩
    have hrem : ∀ (is : List Nat), (∀ i ∈ is, i ∈ np) → ∀ p : Features ℝ, Fits n p → (∀ j, Live φ j → Live p j) →
        ∃ p', s.removeParents p is = .ok p' ∧ Fits n p' ∧ ∀ j, Live φ j → Live p' j := by
      intro is
      induction is with
      | nil => exact fun _ p hp hl => ⟨p, rfl, hp, hl⟩
      | cons i is ih =>
        intro his p hp hl
        obtain ⟨⟨q1, q2⟩, q3⟩ := (h2 i).1 (his i List.mem_cons_self)
        obtain ⟨f, hf⟩ : ∃ f, s.features[i]? = some f := ⟨_, List.getElem?_eq_getElem q2⟩
        obtain ⟨c1, c2⟩ := hfold (f.parents.sort (· ≤ ·)) p hp
        obtain ⟨p', e1, e2, e3⟩ := ih (fun i hi => his i (List.mem_cons_of_mem _ hi)) _ c1 fun j hj =>
          c2 j (fun hm => q3 f hf j ((Finset.mem_sort _).1 hm) hj) (hl j hj)
        refine ⟨p', ?_, e2, e3⟩
        show (idx s.features i >>= _) = _
        rw [show idx s.features i = .ok f by unfold idx; rw [hf], P.ok_bind]
        exact e1
    obtain ⟨p', e1, e2, e3⟩ := hrem np (fun _ h => h) φ hφ fun _ h => h
    have hst : p'.stack (Features.unitary (s.features.length - n) np) = .ok r := by
      have hr : IFDD.project s x = _ := hr
      unfold IFDD.project at hr
      rw [b2, a2, hn, show (Dim.finite n).toUsize = .ok n from rfl, P.ok_bind, hp, P.ok_bind] at hr
      have hr : (s.activated φ (List.range' n (s.features.length - n)) >>= fun np => s.removeParents φ np >>= fun p =>
        p.stack (Features.unitary (s.features.length - n) np) >>= fun r => (.ok (.ok r) : P (Result (Features ℝ)))) = _ := hr
      rw [h1, P.ok_bind, e1, P.ok_bind] at hr
      cases hs : p'.stack (Features.unitary (s.features.length - n) np) with
      | error e => rw [hs] at hr; cases hr
      | ok r' => rw [hs] at hr; cases hr; rfl
    -- no discovered feature has only active parents
    have hA : ∀ (i : Nat) (f : IfddFeature), n ≤ i → s.features[i]? = some f → ∃ j ∈ f.parents, ¬ Live φ j := by
      intro i f hi hf
      by_contra hc
      push Not at hc
      obtain ⟨g, k, hgk, hk, hpar⟩ := b1.pair i f hi hf
      have hg : g ∈ f.parents := by rw [hpar]; simp
      have := ho g (by omega)
      rw [if_pos ⟨i, f, hi, hf, hg, hc⟩] at this
      exact this (stack_live hst e2.1 (e3 g (hc g hg)) rfl)
    refine fun i f hi hf => ⟨?_, hA i f hi hf⟩
    by_contra hc
    push Not at hc
    have hil := (List.getElem?_eq_some_iff.1 hf).1
    have hmem : i ∈ np := (h2 i).2 ⟨⟨hi, hil⟩, fun f' hf' j hj => by
      rw [hf] at hf'
      cases hf'
      exact hc j hj⟩
    by_cases hall : ∀ k ∈ np, k < s.features.length - n
    · obtain ⟨-, -, c3⟩ := stack_values e2.1 ((C14_unitary (K := ℝ) _ np).2.2.2.2 hall) hst
      have c3 := c3 i (hall i hmem)
      rw [(C14_unitary _ np).1, if_pos hmem, e2.2] at c3
      have hlt : n + i < s.features.length := by have := hall i hmem; omega
      obtain ⟨f', hf'⟩ : ∃ f, s.features[n + i]? = some f := ⟨_, List.getElem?_eq_getElem hlt⟩
      have := hv (n + i) f' (by omega) hf'
      obtain ⟨j, hj, hnl⟩ := hA _ f' (by omega) hf'
      rw [if_neg fun hc => hnl (hc j hj), c3, real_one, real_zero] at this
      norm_num at this
    · push Not at hall
      obtain ⟨k, hk, hge'⟩ := hall
      obtain ⟨sa, g1, g2, e, g3, g4⟩ := wf_unitary_keys (s.features.length - n) np _ hk
      rw [g1] at hst
      cases p' with
      | dense l =>
        have hpan : (Features.sparse sa).intoDense = .error .indexOutOfBounds := by
          show Features.scatterSet id sa.activations _ = _
          rw [Features.scatterSet_eq_scatterMod]
          refine Features.scatterMod_error _ ⟨e, g3, ?_⟩
          rw [List.length_replicate, g4, g2]
          omega
        have hst : (Features.intoDense (.dense l) >>= fun a₁ => (Features.sparse sa).intoDense >>= fun a₂ =>
          (.ok (.dense (a₁ ++ a₂)) : P (Features ℝ))) = .ok r := hst
        rw [hpan] at hst
        cases hst
      | sparse sp =>
        cases hst
        have hdim : sp.dim = n := e2.2
        have hkey := foldl_insert_keys sp.dim (e.1 + sp.dim) sa.activations sp.activations (.inr ⟨e, g3, rfl⟩)
        obtain ⟨e', he', hk'⟩ := List.mem_map.1 hkey
        have hb : e'.1 < sp.dim + sa.dim := hw.2 e' he'
        omega
  · intro hm
    obtain ⟨r, hr, hw, hd, hv⟩ := C114_project_partial b hn thr s₀ s hs calls hf h x φ hp hφ fun i f hi hf => (hm i f hi hf).1
    have hd : s.features.length = dim r := by
      have : Dim.finite s.features.length = Dim.finite (dim r) := hd
      exact Dim.finite.inj this
    have hφd : dim φ = n := hφ.2
    have hval : ∀ i < dim r, value r i = if i < n then value φ i else 0 := by
      intro i hi
      have e : (view r)[i]? = (view φ ++ List.replicate (dim r - n) 0)[i]? := by rw [hv]
      rw [view_getElem?, if_pos hi] at e
      split_ifs with hin
      · rw [List.getElem?_append_left (by rw [view_length]; omega), view_getElem?, if_pos (by omega)] at e
        exact Option.some.inj e
      · rw [List.getElem?_append_right (by rw [view_length]; omega), view_length, hφd,
          List.getElem?_replicate, if_pos (by omega)] at e
        exact Option.some.inj e
    refine ⟨r, hr, hw, hd.symm, ?_, ?_⟩
    · intro i f hi hf
      obtain ⟨j, hj, hnl⟩ := (hm i f hi hf).2
      have hil := (List.getElem?_eq_some_iff.1 hf).1
      rw [if_neg fun hc => hnl (hc j hj), hval i (by omega), if_neg (by omega), real_zero]
    · intro j hj
      rw [if_neg, hval j (by omega), if_pos hj]
      rintro ⟨i, f, hi, hf, -, hall⟩
      obtain ⟨k, hk, hnl⟩ := (hm i f hi hf).2
      exact hnl (hall k hk)

end Lfa

import Verif.Spec.Grid
import Verif.Proofs.Basis
import Verif.Model.Kernels
import Mathlib.Tactic.Linarith

/-! # Lemmas about tile coding and uniform grids -/

set_option linter.unusedSectionVars false

namespace Lfa

open Spec Features

/-! ## The saturating cast -/

theorem clamp_range (a : Int) :
    isizeMin ≤ max isizeMin (min isizeMax a) ∧ max isizeMin (min isizeMax a) ≤ isizeMax := by
  unfold isizeMin isizeMax; omega

theorem floorInRange_real : FloorInRange ℝ := fun x => clamp_range ⌊x⌋

theorem floorInRange_xreal : FloorInRange XReal := by
  intro x
  cases x with
  | nan => exact ⟨by decide, by decide⟩
  | ninf => exact ⟨by decide, by decide⟩
  | pinf => exact ⟨by decide, by decide⟩
  | fin r => exact clamp_range ⌊r⌋

theorem floorInRange_float : FloorInRange Float := by
  intro x
  show isizeMin ≤ floatFloorIsize x ∧ floatFloorIsize x ≤ isizeMax
  unfold floatFloorIsize
  split
  · exact ⟨by decide, by decide⟩
  · dsimp only
    split
    · generalize (-x.floor).toUInt64.toNat = k
      unfold isizeMin isizeMax; simp only [Int.ofNat_eq_natCast]; omega
    · generalize x.floor.toUInt64.toNat = k
      unfold isizeMin isizeMax; simp only [Int.ofNat_eq_natCast]; omega

/-! ## `isize` arithmetic -/

theorem asIsize_small {n : Nat} (h : n < 2 ^ 63) : asIsize n = n := by
  unfold asIsize
  rw [Int.bmod_def]
  have h1 : (n : Int) < 2 ^ 63 := by exact_mod_cast h
  have : (n : Int) % ((2 ^ 64 : Nat) : Int) = n := Int.emod_eq_of_lt (by omega) (by push_cast; omega)
  rw [this, if_pos]
  push_cast; omega

theorem checkIsize_ok {x : Int} (h1 : isizeMin ≤ x) (h2 : x ≤ isizeMax) : checkIsize x = .ok x := by
  unfold checkIsize; rw [if_pos ⟨h1, h2⟩]

theorem checkIsize_error {x : Int} (h : isizeMax < x) : checkIsize x = .error .overflow := by
  unfold checkIsize; rw [if_neg (by omega)]

/-! ## Tile coding -/

section Tile
variable {H : Type} [BuildHasher H]
open TileCoding

/-- The tile numbers written for the cells `ss`, from coordinate `i` on. -/
def tilesFrom (n t : Nat) : Nat → List Int → List Int
  | _, [] => []
  | i, s :: ss => tile n t i s :: tilesFrom n t (i + 1) ss

theorem writeCoords_spec {n t : Nat} (hn : 0 < n) (hn' : n < 2 ^ 63) :
    ∀ (ss : List Int) (i : Nat) (h : BuildHasher.σ H), i + ss.length < 2 ^ 63 →
      (∀ s ∈ ss, isizeMin ≤ s ∧ s ≤ isizeMax) →
      ((∀ (j : Nat) (s : Int), ss[j]? = some s →
          ((t : Int) + 2 * t * (i + j) ≤ isizeMax ∧ s + (t + 2 * t * (i + j)) ≤ isizeMax)) →
        writeCoords (H := H) n t (t * 2) i ss h =
          .ok ((tilesFrom n t i ss).foldl (BuildHasher.writeIsize (H := H)) h)) ∧
      ((∃ (j : Nat) (s : Int), ss[j]? = some s ∧
          (isizeMax < (t : Int) + 2 * t * (i + j) ∨ isizeMax < s + (t + 2 * t * (i + j)))) →
        writeCoords (H := H) n t (t * 2) i ss h = .error .overflow) := by
  intro ss
  induction ss with
  | nil =>
    intro i h _ _
    refine ⟨fun _ => rfl, ?_⟩
    rintro ⟨j, s, hs, -⟩
    simp at hs
  | cons s ss ih =>
    intro i h hl hr
    have hl' : i + 1 + ss.length < 2 ^ 63 := by rw [List.length_cons] at hl; omega
    obtain ⟨ih1, ih2⟩ := ih (i + 1) (BuildHasher.writeIsize (H := H) h (tile n t i s)) hl'
      fun s' h' => hr s' (List.mem_cons_of_mem _ h')
    have hs := hr s List.mem_cons_self
    have hi : i < 2 ^ 63 := by rw [List.length_cons] at hl; omega
    have ei : asIsize i = i := asIsize_small hi
    have en : asIsize n = n := asIsize_small hn'
    have ht0 : (0 : Int) ≤ t := by omega
    have hti : (0 : Int) ≤ 2 * t * i := Int.mul_nonneg (by omega) (by omega)
    have emul : (i : Int) * (t * 2) = 2 * t * i := by ring
    -- this coordinate is fine
    have step : (t : Int) + 2 * t * i ≤ isizeMax → s + (t + 2 * t * i) ≤ isizeMax →
        writeCoords (H := H) n t (t * 2) i (s :: ss) h =
          writeCoords (H := H) n t (t * 2) (i + 1) ss
            (BuildHasher.writeIsize (H := H) h (tile n t i s)) := by
      intro h1 h2
      rw [writeCoords, ei, en]
      unfold isizeMul isizeAdd isizeDiv
      rw [emul, checkIsize_ok (by unfold isizeMin; omega) (by omega), P.ok_bind,
        checkIsize_ok (by unfold isizeMin; omega) (by omega), P.ok_bind,
        checkIsize_ok (by omega) (by omega), P.ok_bind, if_neg (by omega)]
      have hd : isizeMin ≤ tile n t i s ∧ tile n t i s ≤ isizeMax := by
        unfold tile
        have habs := Int.natAbs_tdiv_le_natAbs (s + (t + 2 * t * i)) n
        unfold isizeMin isizeMax at *
        by_cases hneg : s + (t + 2 * t * i) < 0
        · constructor
          · omega
          · have := Int.tdiv_nonneg (a := -(s + (t + 2 * t * i))) (b := n) (by omega) (by omega)
            rw [Int.neg_tdiv] at this
            omega
        · have := Int.tdiv_nonneg (a := s + (t + 2 * t * i)) (b := n) (by omega) (by omega)
          omega
      rw [show Int.tdiv (s + (t + 2 * t * i)) n = tile n t i s from rfl,
        checkIsize_ok hd.1 hd.2, P.ok_bind]
    have bad : (isizeMax < (t : Int) + 2 * t * i ∨ isizeMax < s + (t + 2 * t * i)) →
        writeCoords (H := H) n t (t * 2) i (s :: ss) h = .error .overflow := by
      intro hb
      rw [writeCoords, ei, en]
      unfold isizeMul isizeAdd
      rw [emul]
      by_cases h1 : 2 * (t : Int) * i ≤ isizeMax
      · rw [checkIsize_ok (by unfold isizeMin; omega) h1, P.ok_bind]
        by_cases h2 : (t : Int) + 2 * t * i ≤ isizeMax
        · rw [checkIsize_ok (by unfold isizeMin; omega) h2, P.ok_bind, checkIsize_error (by omega)]
          rfl
        · rw [checkIsize_error (by omega)]; rfl
      · rw [checkIsize_error (by omega)]; rfl
    constructor
    · intro hall
      have h0 := hall 0 s rfl
      simp only [Nat.cast_zero, add_zero] at h0
      rw [step h0.1 h0.2, ih1]
      · rfl
      · intro j s' hj
        have := hall (j + 1) s' hj
        push_cast at this ⊢
        rw [show (i : Int) + 1 + j = i + (j + 1) by ring]
        exact this
    · rintro ⟨j, s', hj, hb⟩
      by_cases h0 : isizeMax < (t : Int) + 2 * t * i ∨ isizeMax < s + (t + 2 * t * i)
      · exact bad h0
      · rw [step (by omega) (by omega)]
        apply ih2
        cases j with
        | zero =>
          rw [List.getElem?_cons_zero, Option.some.injEq] at hj
          subst hj
          simp only [Nat.cast_zero, add_zero] at hb
          exact absurd hb h0
        | succ j =>
          refine ⟨j, s', hj, ?_⟩
          push_cast at hb ⊢
          rw [show (i : Int) + 1 + j = i + (j + 1) by ring]
          exact hb

/-- No overflow in tiling `t`. -/
def TilingFits (t : Nat) (cells : List Int) : Prop :=
  ∀ (j : Nat) (s : Int), cells[j]? = some s →
    ((t : Int) + 2 * t * j ≤ isizeMax ∧ s + (t + 2 * t * j) ≤ isizeMax)

theorem tiling_ok {n m t : Nat} (hn : 0 < n) (hn' : n < 2 ^ 63) (ht : t < 2 ^ 62) (hm : 0 < m)
    {cells : List Int} (hl : cells.length < 2 ^ 63)
    (hr : ∀ s ∈ cells, isizeMin ≤ s ∧ s ≤ isizeMax) (hf : TilingFits t cells)
    (h : BuildHasher.σ H) :
    tiling (H := H) cells n m h t =
      .ok (((t : Int) :: tilesFrom n t 0 cells).foldl (BuildHasher.writeIsize (H := H)) h,
        BuildHasher.finish (H := H)
          (((t : Int) :: tilesFrom n t 0 cells).foldl (BuildHasher.writeIsize (H := H)) h) % m) := by
  unfold tiling
  have et : asIsize t = t := asIsize_small (by omega)
  show (isizeMul (asIsize t) 2 >>= _) = _
  rw [et]
  unfold isizeMul
  rw [checkIsize_ok (by unfold isizeMin; omega) (by unfold isizeMax; omega), P.ok_bind]
  have := (writeCoords_spec (H := H) (t := t) hn hn' cells 0
    (BuildHasher.writeIsize (H := H) h t) (by omega) hr).1 (by
      intro j s hj
      have := hf j s hj
      rw [Nat.cast_zero, zero_add]
      exact this)
  show (writeCoords (H := H) n t (t * 2) 0 cells (BuildHasher.writeIsize (H := H) h t) >>= _) = _
  rw [this, P.ok_bind, if_neg (by omega)]
  rfl

theorem tiling_error {n m t : Nat} (hn : 0 < n) (hn' : n < 2 ^ 63) (ht : t < 2 ^ 62)
    {cells : List Int} (hl : cells.length < 2 ^ 63)
    (hr : ∀ s ∈ cells, isizeMin ≤ s ∧ s ≤ isizeMax) (hf : m = 0 ∨ ¬ TilingFits t cells)
    (h : BuildHasher.σ H) : Panics (tiling (H := H) cells n m h t) := by
  unfold tiling
  have et : asIsize t = t := asIsize_small (by omega)
  show Panics (isizeMul (asIsize t) 2 >>= _)
  rw [et]
  unfold isizeMul
  rw [checkIsize_ok (by unfold isizeMin; omega) (by unfold isizeMax; omega), P.ok_bind]
  show Panics (writeCoords (H := H) n t (t * 2) 0 cells (BuildHasher.writeIsize (H := H) h t) >>= _)
  obtain ⟨w1, w2⟩ := writeCoords_spec (H := H) (t := t) hn hn' cells 0
    (BuildHasher.writeIsize (H := H) h t) (by omega) hr
  simp only [Nat.cast_zero, zero_add] at w1 w2
  by_cases hfit : TilingFits t cells
  · have hm : m = 0 := hf.resolve_right (fun hc => hc hfit)
    rw [w1 hfit, P.ok_bind, if_pos hm]
    exact ⟨_, rfl⟩
  · unfold TilingFits at hfit
    push Not at hfit
    obtain ⟨j, s, hj, hb⟩ := hfit
    rw [w2 ⟨j, s, hj, by
      by_cases hc : (t : Int) + 2 * t * j ≤ isizeMax
      · exact .inr (hb hc)
      · exact .inl (by omega)⟩]
    exact ⟨_, rfl⟩

theorem hashState_ok {n m : Nat} (hn : 0 < n) (hn' : n < 2 ^ 63) (hm : 0 < m)
    {cells : List Int} (hl : cells.length < 2 ^ 63)
    (hr : ∀ s ∈ cells, isizeMin ≤ s ∧ s ≤ isizeMax) : ∀ (ts : List Nat) (h : BuildHasher.σ H),
    (∀ t ∈ ts, t < 2 ^ 62 ∧ TilingFits t cells) →
    ∃ is, hashState (H := H) cells n m ts h = .ok is := by
  intro ts
  induction ts with
  | nil => intro h _; exact ⟨_, rfl⟩
  | cons t ts ih =>
    intro h hf
    obtain ⟨h1, h2⟩ := hf t List.mem_cons_self
    rw [hashState, tiling_ok hn hn' h1 hm hl hr h2, P.ok_bind]
    obtain ⟨is, his⟩ := ih (((t : Int) :: tilesFrom n t 0 cells).foldl
      (BuildHasher.writeIsize (H := H)) h) fun t' h' => hf t' (List.mem_cons_of_mem _ h')
    exact ⟨_ :: is, by show (hashState (H := H) cells n m ts _ >>= _) = _; rw [his]; rfl⟩

theorem hashState_error {n m : Nat} (hn : 0 < n) (hn' : n < 2 ^ 63)
    {cells : List Int} (hl : cells.length < 2 ^ 63)
    (hr : ∀ s ∈ cells, isizeMin ≤ s ∧ s ≤ isizeMax) : ∀ (ts : List Nat) (h : BuildHasher.σ H),
    (∀ t ∈ ts, t < 2 ^ 62) → (∃ t ∈ ts, m = 0 ∨ ¬ TilingFits t cells) →
    Panics (hashState (H := H) cells n m ts h) := by
  intro ts
  induction ts with
  | nil => rintro h _ ⟨t, ht, -⟩; cases ht
  | cons t ts ih =>
    rintro h hf ⟨t', ht', hb⟩
    have h1 := hf t List.mem_cons_self
    rw [hashState]
    by_cases hbt : m = 0 ∨ ¬ TilingFits t cells
    · obtain ⟨p, hp⟩ := tiling_error (H := H) (n := n) hn hn' h1 hl hr hbt h
      rw [hp]; exact ⟨p, rfl⟩
    · push Not at hbt
      rw [tiling_ok hn hn' h1 (by omega) hl hr hbt.2, P.ok_bind]
      rcases List.mem_cons.1 ht' with rfl | ht'
      · rcases hb with hb | hb
        · exact absurd hb hbt.1
        · exact absurd hbt.2 hb
      · obtain ⟨p, hp⟩ := ih (((t : Int) :: tilesFrom n t 0 cells).foldl
          (BuildHasher.writeIsize (H := H)) h) (fun t' h' => hf t' (List.mem_cons_of_mem _ h'))
          ⟨t', ht', hb⟩
        exact ⟨p, by show (hashState (H := H) cells n m ts _ >>= _) = _; rw [hp]; rfl⟩

/-- With more than `2^62` tilings, `t * 2` overflows at `t = 2^62`. -/
theorem hashState_huge {n m : Nat} {cells : List Int} : ∀ (ts : List Nat) (h : BuildHasher.σ H),
    2 ^ 62 ∈ ts → Panics (hashState (H := H) cells n m ts h) := by
  intro ts
  induction ts with
  | nil => intro h hm; cases hm
  | cons t ts ih =>
    intro h hm
    rw [hashState]
    rcases List.mem_cons.1 hm with hm | hm
    · subst hm
      have : tiling (H := H) cells n m h (2 ^ 62) = .error .overflow := by
        unfold tiling
        show (isizeMul (asIsize (2 ^ 62)) 2 >>= _) = _
        rw [asIsize_small (by norm_num)]
        unfold isizeMul
        rw [checkIsize_error (by unfold isizeMax; norm_num)]
        rfl
      rw [this]; exact ⟨_, rfl⟩
    · cases tiling (H := H) cells n m h t with
      | error p => exact ⟨p, rfl⟩
      | ok r =>
        obtain ⟨h', i⟩ := r
        obtain ⟨p, hp⟩ := ih h' hm
        exact ⟨p, by show (hashState (H := H) cells n m ts h' >>= _) = _; rw [hp]; rfl⟩

/-- Whether all tilings fit is decided by the last one. -/
theorem fits_iff {n : Nat} (hn : 0 < n) (cells : List Int) :
    (∀ t ∈ List.range n, TilingFits t cells) ↔ ¬ TileOverflow n cells := by
  constructor
  · rintro h ⟨i, s, hs, hb⟩
    obtain ⟨h1, h2⟩ := h (n - 1) (List.mem_range.2 (by omega)) i s hs
    have e : ((n - 1 : Nat) : Int) + 2 * ((n - 1 : Nat) : Int) * i = (2 * i + 1) * ((n : Int) - 1) := by
      rw [Nat.cast_sub hn]; push_cast; ring
    rw [e] at h1 h2
    omega
  · intro h t ht i s hs
    have ht := List.mem_range.1 ht
    by_contra hc
    apply h
    refine ⟨i, s, hs, ?_⟩
    have e : (t : Int) + 2 * t * i = (2 * i + 1) * (t : Int) := by ring
    have hle : (2 * (i : Int) + 1) * (t : Int) ≤ (2 * i + 1) * ((n : Int) - 1) :=
      mul_le_mul_of_nonneg_left (by omega) (by positivity)
    rw [e] at hc
    by_contra hcc
    push Not at hcc
    exact hc ⟨by omega, by omega⟩

end Tile

/-! ## Mixed radix numbering -/

section Radix
variable {K : Type}

/-- The number of cells of a grid. -/
def cells (ds : List (Equipartition K)) : Nat := (ds.map Equipartition.nPartitions).foldl (· * ·) 1

theorem cells_cons (d : Equipartition K) (ds : List (Equipartition K)) :
    cells (d :: ds) = d.nPartitions * cells ds := by
  unfold cells
  rw [List.map_cons, List.foldl_cons, Nat.one_mul, foldl_mul_pos]

theorem cells_pos {ds : List (Equipartition K)} (h : ∀ d ∈ ds, d.Lawful) : 0 < cells ds := by
  induction ds with
  | nil => exact Nat.one_pos
  | cons d ds ih =>
    rw [cells_cons]
    exact Nat.mul_pos (h d List.mem_cons_self).pos (ih fun d' h' => h d' (List.mem_cons_of_mem _ h'))

theorem hashFold_acc {ds : List (Equipartition K)} : ∀ {vs : List K}, ds.length = vs.length →
    ∀ acc, UniformGrid.hashFold ds vs acc =
      acc * cells ds + UniformGrid.hashFold ds vs 0 := by
  induction ds with
  | nil =>
    intro vs hl acc
    cases vs with
    | nil => simp [UniformGrid.hashFold, cells]
    | cons => simp at hl
  | cons d ds ih =>
    intro vs hl acc
    cases vs with
    | nil => simp at hl
    | cons v vs =>
      have hl' : ds.length = vs.length := by simpa using hl
      rw [UniformGrid.hashFold, UniformGrid.hashFold, ih hl' (d.mapOnto v + d.nPartitions * acc),
        ih hl' (d.mapOnto v + d.nPartitions * 0), cells_cons]
      ring

theorem hashFold_zero_lt {ds : List (Equipartition K)} (h : ∀ d ∈ ds, d.Lawful) :
    ∀ {vs : List K}, ds.length = vs.length → UniformGrid.hashFold ds vs 0 < cells ds := by
  induction ds with
  | nil =>
    intro vs hl
    cases vs with
    | nil => exact Nat.one_pos
    | cons => simp at hl
  | cons d ds ih =>
    intro vs hl
    cases vs with
    | nil => simp at hl
    | cons v vs =>
      have hl' : ds.length = vs.length := by simpa using hl
      have hd := h d List.mem_cons_self
      have := ih (fun d' h' => h d' (List.mem_cons_of_mem _ h')) hl'
      rw [UniformGrid.hashFold, hashFold_acc hl', cells_cons, Nat.mul_zero, Nat.add_zero]
      have h1 := hd.mapOnto_lt v
      calc d.mapOnto v * cells ds + UniformGrid.hashFold ds vs 0
          < d.mapOnto v * cells ds + cells ds := by omega
        _ = (d.mapOnto v + 1) * cells ds := by ring
        _ ≤ d.nPartitions * cells ds := Nat.mul_le_mul_right _ h1

theorem hashFold_inj {ds : List (Equipartition K)} (h : ∀ d ∈ ds, d.Lawful) :
    ∀ {vs ws : List K}, ds.length = vs.length → ds.length = ws.length →
      (UniformGrid.hashFold ds vs 0 = UniformGrid.hashFold ds ws 0 ↔
        List.zipWith (fun d v => d.mapOnto v) ds vs = List.zipWith (fun d v => d.mapOnto v) ds ws) := by
  induction ds with
  | nil => intro vs ws h1 h2; cases vs <;> cases ws <;> simp_all [UniformGrid.hashFold]
  | cons d ds ih =>
    intro vs ws h1 h2
    cases vs with
    | nil => simp at h1
    | cons v vs =>
      cases ws with
      | nil => simp at h2
      | cons w ws =>
        have l1 : ds.length = vs.length := by simpa using h1
        have l2 : ds.length = ws.length := by simpa using h2
        have hds : ∀ d' ∈ ds, d'.Lawful := fun d' h' => h d' (List.mem_cons_of_mem _ h')
        have a1 := hashFold_zero_lt hds l1
        have a2 := hashFold_zero_lt hds l2
        have hp := cells_pos hds
        rw [UniformGrid.hashFold, UniformGrid.hashFold, hashFold_acc l1, hashFold_acc l2,
          List.zipWith_cons_cons, List.zipWith_cons_cons, List.cons.injEq, ← ih hds l1 l2,
          Nat.mul_zero, Nat.add_zero, Nat.add_zero]
        constructor
        · intro he
          have e1 := congrArg (· / cells ds) he
          have e2 := congrArg (· % cells ds) he
          simp only [Nat.mod_eq_of_lt a1, Nat.mod_eq_of_lt a2,
            Nat.mul_comm _ (cells ds), Nat.mul_add_div hp, Nat.div_eq_of_lt a1,
            Nat.div_eq_of_lt a2, Nat.add_zero, Nat.mul_add_mod] at e1 e2
          exact ⟨e1, e2⟩
        · rintro ⟨e1, e2⟩; rw [e1, e2]

end Radix

/-! ## The Cartesian product, by position -/

theorem getElem?_flatMap_block {α β : Type} {f : α → List β} {m : Nat} (hm : 0 < m) :
    ∀ (xs : List α), (∀ x ∈ xs, (f x).length = m) → ∀ k,
      (xs.flatMap f)[k]? = (xs[k / m]?).bind fun x => (f x)[k % m]? := by
  intro xs
  induction xs with
  | nil => intro _ k; simp
  | cons x xs ih =>
    intro h k
    have hx := h x List.mem_cons_self
    rw [List.flatMap_cons]
    by_cases hk : k < m
    · rw [List.getElem?_append_left (by omega), Nat.div_eq_of_lt hk, Nat.mod_eq_of_lt hk]
      rfl
    · rw [List.getElem?_append_right (by omega), ih (fun x' h' => h x' (List.mem_cons_of_mem _ h')), hx]
      have hk' : m ≤ k := by omega
      have e1 : k / m = (k - m) / m + 1 := by
        rw [Nat.div_eq_sub_div hm hk']
      have e2 : k % m = (k - m) % m := by rw [Nat.mod_eq_sub_mod hk']
      rw [e1, e2]; rfl

theorem length_cartesian_centres {K : Type} {ds : List (Equipartition K)}
    (h : ∀ d ∈ ds, d.Lawful) :
    (cartesian (ds.map Equipartition.centres)).length = cells ds := by
  induction ds with
  | nil => rfl
  | cons d ds ih =>
    simp only [List.map_cons, cartesian, List.length_flatMap, List.length_map,
      ih fun d' h' => h d' (List.mem_cons_of_mem _ h')]
    rw [List.map_const', List.sum_replicate, smul_eq_mul, cells_cons,
      (h d List.mem_cons_self).centres_length]

/-- The `k`-th combination of centres is the one the grid numbers `k`, made of the centres of its
partitions. -/
theorem cartesian_centres {K : Type} {ds : List (Equipartition K)} (h : ∀ d ∈ ds, d.Lawful) :
    ∀ (k : Nat) (c : List K), (cartesian (ds.map Equipartition.centres))[k]? = some c →
      c.length = ds.length ∧ UniformGrid.hashFold ds c 0 = k ∧
      ∀ (i : Nat) (d : Equipartition K) (v : K), ds[i]? = some d → c[i]? = some v → d.centres[d.mapOnto v]? = some v := by
  induction ds with
  | nil =>
    intro k c hk
    cases k with
    | zero =>
      cases hk
      exact ⟨rfl, rfl, fun i d v hi => by simp at hi⟩
    | succ k => simp [cartesian] at hk
  | cons d ds ih =>
    intro k c hk
    have hd := h d List.mem_cons_self
    have hds : ∀ d' ∈ ds, d'.Lawful := fun d' h' => h d' (List.mem_cons_of_mem _ h')
    have hp := cells_pos hds
    rw [List.map_cons, cartesian, getElem?_flatMap_block hp _ (fun x _ => by
      rw [List.length_map, length_cartesian_centres hds])] at hk
    rcases hx : d.centres[k / cells ds]? with _ | x
    · rw [hx] at hk; cases hk
    · rw [hx, Option.bind_some, List.getElem?_map, Option.map_eq_some_iff] at hk
      obtain ⟨c', hc', rfl⟩ := hk
      obtain ⟨i1, i2, i3⟩ := ih hds _ _ hc'
      refine ⟨by simp [i1], ?_, ?_⟩
      · rw [UniformGrid.hashFold, hashFold_acc i1.symm, hd.mapOnto_centre _ _ hx, i2, Nat.mul_zero,
          Nat.add_zero, Nat.mul_comm]
        exact Nat.div_add_mod k (cells ds)
      · intro i d' v hi hv
        cases i with
        | zero =>
          rw [List.getElem?_cons_zero, Option.some.injEq] at hi hv
          subst hi hv
          rw [hd.mapOnto_centre _ _ hx, hx]
        | succ i => exact i3 i d' v hi hv

/-! ## What the hasher is fed -/

section Trace
variable {H : Type} [BuildHasher H]
open TileCoding

theorem tilesFrom_eq (n t : Nat) : ∀ (i : Nat) (ss : List Int),
    tilesFrom n t i ss = ss.mapIdx fun j s => tile n t (i + j) s := by
  intro i ss
  induction ss generalizing i with
  | nil => rfl
  | cons s ss ih =>
    rw [tilesFrom, ih, List.mapIdx_cons]
    congr 1
    have : (fun (j : Nat) (s : Int) => tile n t (i + 1 + j) s) =
        fun (j : Nat) (s : Int) => tile n t (i + (j + 1)) s := by
      funext j s
      rw [show i + 1 + j = i + (j + 1) by omega]
    rw [this]

theorem tilingKey_eq (n t : Nat) (cells : List Int) :
    tilingKey n t cells = (t : Int) :: tilesFrom n t 0 cells := by
  rw [tilesFrom_eq]; simp [tilingKey]

/-- `hashState` over the tilings `k, …, k+r-1`, the hasher having been fed those below `k`. -/
theorem hashState_eq {n m : Nat} (hn : 0 < n) (hn' : n < 2 ^ 63) (hm : 0 < m)
    {cells : List Int} (hl : cells.length < 2 ^ 63)
    (hr : ∀ s ∈ cells, isizeMin ≤ s ∧ s ≤ isizeMax) (b : H) : ∀ (r k : Nat),
    (∀ t, t < k + r → t < 2 ^ 62 ∧ TilingFits t cells) →
    hashState (H := H) cells n m ((List.range r).map (k + ·))
      (((List.range k).flatMap fun t => tilingKey n t cells).foldl
        (BuildHasher.writeIsize (H := H)) (BuildHasher.build b)) =
      .ok ((List.range r).map fun t => tileIndex b n m cells (k + t)) := by
  intro r
  induction r with
  | zero => intro k _; rfl
  | succ r ih =>
    intro k hf
    have e1 : (List.range (r + 1)).map (k + ·) = k :: (List.range r).map (k + 1 + ·) := by
      rw [List.range_succ_eq_map, List.map_cons, List.map_map]
      congr 1
      apply List.map_congr_left
      intro a _; simp; omega
    have e2 : ((List.range (r + 1)).map fun t => tileIndex b n m cells (k + t)) =
        tileIndex b n m cells k :: (List.range r).map fun t => tileIndex b n m cells (k + 1 + t) := by
      rw [List.range_succ_eq_map, List.map_cons, List.map_map]
      congr 1
      apply List.map_congr_left
      intro a _; simp; congr 1; omega
    obtain ⟨h1, h2⟩ := hf k (by omega)
    have key : (((k : Int) :: tilesFrom n k 0 cells).foldl (BuildHasher.writeIsize (H := H))
        (((List.range k).flatMap fun t => tilingKey n t cells).foldl
          (BuildHasher.writeIsize (H := H)) (BuildHasher.build b))) =
        (((List.range (k + 1)).flatMap fun t => tilingKey n t cells).foldl
          (BuildHasher.writeIsize (H := H)) (BuildHasher.build b)) := by
      rw [List.range_succ, List.flatMap_append, List.foldl_append, ← tilingKey_eq]
      simp
    rw [e1, e2, hashState, tiling_ok hn hn' h1 hm hl hr h2, P.ok_bind]
    show (hashState (H := H) cells n m _ _ >>= _) = _
    rw [key, ih (k + 1) fun t ht => hf t (by omega), P.ok_bind]
    rw [tileIndex]

end Trace

/-! ## Tiles -/

theorem tdiv_eq_pos {a q : Int} {n : Nat} (hn : 0 < n) (hq : 0 < q) :
    Int.tdiv a n = q ↔ q * n ≤ a ∧ a < q * n + n := by
  have hn' : (0 : Int) < n := by omega
  by_cases ha : 0 ≤ a
  · rw [Int.tdiv_eq_ediv_of_nonneg ha, Int.ediv_eq_iff_of_pos hn']
  · constructor
    · intro h
      have := Int.tdiv_nonneg (a := -a) (b := n) (by omega) (by omega)
      rw [Int.neg_tdiv] at this
      omega
    · rintro ⟨h1, h2⟩
      have := Int.mul_pos hq hn'
      omega

theorem tdiv_eq_zero {a : Int} {n : Nat} (hn : 0 < n) :
    Int.tdiv a n = 0 ↔ -(n : Int) < a ∧ a < n := by
  have hn' : (0 : Int) < n := by omega
  by_cases ha : 0 ≤ a
  · rw [Int.tdiv_eq_ediv_of_nonneg ha, Int.ediv_eq_iff_of_pos hn']
    constructor
    · rintro ⟨h1, h2⟩; constructor <;> linarith
    · rintro ⟨h1, h2⟩; constructor <;> linarith
  · have e : Int.tdiv a n = -Int.tdiv (-a) n := by rw [Int.neg_tdiv]; omega
    rw [e, neg_eq_zero, Int.tdiv_eq_ediv_of_nonneg (by omega), Int.ediv_eq_iff_of_pos hn']
    constructor
    · rintro ⟨h1, h2⟩; constructor <;> linarith
    · rintro ⟨h1, h2⟩; constructor <;> linarith

theorem tdiv_eq_neg {a q : Int} {n : Nat} (hn : 0 < n) (hq : q < 0) :
    Int.tdiv a n = q ↔ q * n - n + 1 ≤ a ∧ a < q * n - n + 1 + n := by
  have e : Int.tdiv a n = -Int.tdiv (-a) n := by rw [Int.neg_tdiv]; omega
  rw [e, neg_eq_iff_eq_neg, tdiv_eq_pos hn (by omega)]
  constructor
  · rintro ⟨h1, h2⟩; constructor <;> linarith
  · rintro ⟨h1, h2⟩; constructor <;> linarith

/-! ## Equal-width partitions of an interval -/

theorem ofBounds_lawful {lb ub : ℝ} (h : lb < ub) {n : Nat} (hn : 0 < n) :
    (ofBounds lb ub n).Lawful where
  pos := hn
  mapOnto_lt v := by
    show min (n - 1) _ < n
    omega
  centres_length := by simp [ofBounds]
  mapOnto_centre i c hc := by
    simp only [ofBounds, List.getElem?_map, Option.map_eq_some_iff] at hc
    obtain ⟨j, hj, rfl⟩ := hc
    obtain ⟨hi, rfl⟩ : i < n ∧ i = j := by
      rw [List.getElem?_eq_some_iff] at hj
      obtain ⟨h1, h2⟩ := hj
      rw [List.getElem_range] at h2
      exact ⟨by simpa using h1, h2⟩
    have hn0 : (0 : ℝ) < n := by exact_mod_cast hn
    have hi' : (i : ℝ) + 1 ≤ n := by exact_mod_cast hi
    have hw : 0 < (ub - lb) / n := div_pos (by linarith) hn0
    have hnw : (ub - lb) / n * n = ub - lb := by field_simp
    have hc0 : 0 ≤ (ub - lb) / n * ((i : ℝ) + 1 / 2) := by positivity
    have hc1 : (ub - lb) / n * ((i : ℝ) + 1 / 2) ≤ ub - lb := by
      have := mul_le_mul_of_nonneg_left (show (i : ℝ) + 1 / 2 ≤ n by linarith) hw.le
      linarith
    show min (n - 1) ⌊(n : ℝ) * ((max lb (min ub _) - lb) / (ub - lb))⌋₊ = i
    rw [min_eq_right (show lb + (ub - lb) / n * ((i : ℝ) + 1 / 2) ≤ ub by linarith),
      max_eq_right (show lb ≤ lb + (ub - lb) / n * ((i : ℝ) + 1 / 2) by linarith)]
    have e : (n : ℝ) * ((lb + (ub - lb) / n * ((i : ℝ) + 1 / 2) - lb) / (ub - lb)) = i + 1 / 2 := by
      have : ub - lb ≠ 0 := by linarith
      field_simp
      ring
    have hfl : ⌊(i : ℝ) + 1 / 2⌋₊ = i := by
      rw [Nat.floor_eq_iff (by positivity)]
      constructor <;> linarith
    rw [e, hfl]
    omega

end Lfa

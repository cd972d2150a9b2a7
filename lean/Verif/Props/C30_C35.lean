import Verif.Proofs.Grid
import Verif.Proofs.Features
import Verif.Model.Lfa

/-!
# C30–C35: tile coding, uniform grids and kernel grids
-/

set_option linter.unusedSectionVars false

namespace Lfa

open Spec Features

/-! ## C30 TileCoding activity -/

section Tile
variable {K H : Type} [Scalar K] [BuildHasher H]

theorem tile_project (b : TileCoding H) (x : List K) :
    Basis.project b x = TileCoding.hashState (H := H) (x.map (cell b.nTilings)) b.nTilings
      b.memorySize (List.range b.nTilings) (BuildHasher.build b.hasherBuilder) >>= fun is =>
        .ok (.ok (.sparse ⟨b.memorySize, HMap.collect (is.map fun i => (i, (Scalar.one : K)))⟩)) :=
  rfl

/-- Every projection is sparse, has dimension `m`, and activates between 1 and `n` features (none
when `n = 0`), each with activation 1 and index below `m`. -/
theorem C30_activity (b : TileCoding H) (x : List K) (φ : Features K)
    (h : Basis.project b x = .ok (.ok φ)) :
    φ.isSparse = true ∧ dim φ = b.memorySize ∧ WF φ ∧
      (∀ i a, Stored φ i a → a = Scalar.one ∧ i < b.memorySize) ∧
      φ.nActive ≤ b.nTilings ∧ (0 < b.nTilings → 0 < φ.nActive) := by
  rw [tile_project] at h
  obtain ⟨is, his, h⟩ := P.bind_eq_ok.1 h
  cases h
  obtain ⟨h1, h2⟩ := hashState_lt his
  rw [List.length_range] at h2
  have hwf := wf_units (K := K) h1
  refine ⟨rfl, rfl, hwf, ?_, ?_, ?_⟩
  · intro i a hs
    have hi : i < b.memorySize := hwf.2 _ hs
    have hv := value_of_stored (keysUnique_of_wf hwf) hs
    rw [value_units] at hv
    split at hv
    · exact ⟨hv.symm, hi⟩
    · next hni =>
      exfalso
      apply hni
      have := (HMap.mem_keys_collect _ i).1 (List.mem_map.2 ⟨_, hs, rfl⟩)
      simpa using this
  · have hsub : ((HMap.collect (is.map fun i => (i, (Scalar.one : K)))).map Prod.fst) ⊆ is := by
      intro k hk
      simpa using (HMap.mem_keys_collect _ k).1 hk
    have := (List.Nodup.subperm (HMap.nodupKeys_collect
      (is.map fun i => (i, (Scalar.one : K)))) hsub).length_le
    rw [List.length_map] at this
    show (HMap.collect _).length ≤ _
    omega
  · intro hn
    show 0 < (HMap.collect _).length
    rcases is with _ | ⟨i, is⟩
    · simp at h2; omega
    · have : i ∈ (HMap.collect ((i :: is).map fun i => (i, (Scalar.one : K)))).map Prod.fst :=
        (HMap.mem_keys_collect _ i).2 (by simp)
      exact List.length_pos_of_mem (List.mem_map.1 this).choose_spec.1

/-- It never returns an error value. -/
theorem C30_no_error (b : TileCoding H) (x : List K) (e : Error) :
    (Basis.project b x : P (Result (Features K))) ≠ .ok (.error e) := by
  rw [tile_project]
  intro h
  obtain ⟨is, -, h⟩ := P.bind_eq_ok.1 h
  cases h

/-- It panics exactly when `m = 0 < n` or a 64-bit overflow occurs (more than `2^62` tilings, or a
shifted cell out of range). Inputs are shorter than `2^63`, as every Rust slice is. -/
theorem C30_panics (hK : FloorInRange K) (b : TileCoding H) (x : List K) (hx : x.length < 2 ^ 63) :
    Panics (Basis.project b x : P (Result (Features K))) ↔
      0 < b.nTilings ∧ (b.memorySize = 0 ∨ 2 ^ 62 < b.nTilings ∨
        TileOverflow b.nTilings (x.map (cell b.nTilings))) := by
  have hl : (x.map (cell b.nTilings)).length < 2 ^ 63 := by rw [List.length_map]; exact hx
  have hr : ∀ s ∈ x.map (cell b.nTilings), isizeMin ≤ s ∧ s ≤ isizeMax := by
    intro s hs
    obtain ⟨v, -, rfl⟩ := List.mem_map.1 hs
    exact hK _
  have key : Panics (Basis.project b x : P (Result (Features K))) ↔
      Panics (TileCoding.hashState (H := H) (x.map (cell b.nTilings)) b.nTilings
        b.memorySize (List.range b.nTilings) (BuildHasher.build b.hasherBuilder)) := by
    rw [tile_project]
    cases TileCoding.hashState (H := H) (x.map (cell b.nTilings)) b.nTilings
        b.memorySize (List.range b.nTilings) (BuildHasher.build b.hasherBuilder) with
    | error p => exact ⟨fun _ => ⟨p, rfl⟩, fun _ => ⟨p, rfl⟩⟩
    | ok is => exact ⟨(by rintro ⟨p, hp⟩; cases hp), (by rintro ⟨p, hp⟩; cases hp)⟩
  rw [key]
  rcases Nat.eq_zero_or_pos b.nTilings with hn | hn
  · rw [hn]
    constructor
    · rintro ⟨p, hp⟩; cases hp
    · rintro ⟨h, -⟩; omega
  · by_cases hbig : 2 ^ 62 < b.nTilings
    · refine ⟨fun _ => ⟨hn, .inr (.inl hbig)⟩, fun _ => ?_⟩
      apply hashState_huge
      exact List.mem_range.2 hbig
    · have hn' : b.nTilings < 2 ^ 63 := by omega
      constructor
      · intro hp
        refine ⟨hn, ?_⟩
        by_contra hc
        push Not at hc
        obtain ⟨is, his⟩ := hashState_ok (H := H) (m := b.memorySize) hn hn' (by omega) hl hr
          (List.range b.nTilings) (BuildHasher.build b.hasherBuilder) (by
            intro t ht
            have := (fits_iff hn _).2 hc.2.2 t ht
            rw [List.mem_range] at ht
            exact ⟨by omega, this⟩)
        rw [his] at hp
        obtain ⟨p, hp⟩ := hp
        cases hp
      · rintro ⟨-, h⟩
        apply hashState_error hn hn' hl hr
        · intro t ht
          rw [List.mem_range] at ht
          omega
        · rcases h with h | h | h
          · exact ⟨0, List.mem_range.2 hn, .inl h⟩
          · exact absurd h hbig
          · have := mt (fits_iff hn (x.map (cell b.nTilings))).1 (not_not.2 h)
            push Not at this
            obtain ⟨t, ht, hf⟩ := this
            exact ⟨t, ht, .inr hf⟩

/-- The three scalars satisfy the hypothesis of `C30_panics`. -/
theorem C30_scalars : FloorInRange ℝ ∧ FloorInRange XReal ∧ FloorInRange Float :=
  ⟨floorInRange_real, floorInRange_xreal, floorInRange_float⟩

/-- In particular an infinite coordinate makes two or more tilings panic. -/
theorem C30_infinite_input_panics (b : TileCoding H) (x : List XReal) (hx : x.length < 2 ^ 63)
    (hn : 2 ≤ b.nTilings) (h : XReal.pinf ∈ x) : Panics (Basis.project b x) := by
  rw [C30_panics floorInRange_xreal b x hx]
  refine ⟨by omega, .inr (.inr ?_)⟩
  obtain ⟨i, hi, he⟩ := List.mem_iff_getElem.1 h
  refine ⟨i, isizeMax, ?_, .inr ?_⟩
  · rw [List.getElem?_map, List.getElem?_eq_getElem hi, he]
    show some (XReal.floorIsize (XReal.mul .pinf (.fin (b.nTilings : ℝ)))) = _
    have h0 : (b.nTilings : ℝ) ≠ 0 := by
      have : b.nTilings ≠ 0 := by omega
      exact_mod_cast this
    have hm : XReal.mul .pinf (.fin (b.nTilings : ℝ)) = .pinf := by
      show (if (b.nTilings : ℝ) = 0 then _ else XReal.infSign _) = _
      rw [if_neg h0, XReal.infSign, if_pos (by positivity)]
    rw [hm]; rfl
  · have : 0 < (2 * (i : Int) + 1) * ((b.nTilings : Int) - 1) :=
      Int.mul_pos (by omega) (by omega)
    omega

end Tile

/-- A hasher that adds everything up, to exhibit concrete cases. -/
structure SumHasher where

instance : BuildHasher SumHasher where
  σ := Int
  build _ := 0
  writeIsize h x := h + x
  finish h := h.toNat

/-- A concrete projection satisfying the hypothesis of `C30_activity`, with collisions. -/
example : ∃ φ, (Basis.project (TileCoding.mk SumHasher.mk 2 2) ([] : List ℝ)) = .ok (.ok φ) ∧
    φ.nActive = 2 := by
  refine ⟨_, rfl, ?_⟩
  decide

/-! ## C31 TileCoding generalises within tiles -/

section
variable {K H : Type} [Scalar K] [BuildHasher H]

/-- Inputs in the same cells have the same projection, whatever the hasher and the arithmetic. -/
theorem C31_same_cells (b : TileCoding H) (x y : List K)
    (h : x.map (cell b.nTilings) = y.map (cell b.nTilings)) :
    (Basis.project b x : P (Result (Features K))) = Basis.project b y ∧
      ∀ i, (EnumerableBasis.ith b x i : P (Result K)) = EnumerableBasis.ith b y i := by
  refine ⟨by rw [tile_project, tile_project, h], fun i => ?_⟩
  show checkIndex _ _ (TileCoding.hashAny (H := H) i (x.map (cell b.nTilings)) _ _ _ _ >>= _) =
    checkIndex _ _ (TileCoding.hashAny (H := H) i (y.map (cell b.nTilings)) _ _ _ _ >>= _)
  rw [h]

/-- Over exact reals: the coordinates lie in the same interval `[k/n, (k+1)/n)`. -/
theorem C31_same_intervals (b : TileCoding H) (x y : List ℝ)
    (h : List.Forall₂ (fun u v => ∃ k : Int,
      (k : ℝ) / b.nTilings ≤ u ∧ u < (k + 1) / b.nTilings ∧
      (k : ℝ) / b.nTilings ≤ v ∧ v < (k + 1) / b.nTilings) x y) :
    (Basis.project b x : P (Result (Features ℝ))) = Basis.project b y := by
  apply (C31_same_cells b x y _).1
  rcases Nat.eq_zero_or_pos b.nTilings with hn | hn
  · induction h with
    | nil => rfl
    | cons hk _ ih =>
      obtain ⟨k, h1, h2, -, -⟩ := hk
      rw [hn] at h1 h2
      simp at h1 h2
      linarith
  · have hn0 : (0 : ℝ) < b.nTilings := by exact_mod_cast hn
    have hcell : ∀ (k : Int) (u : ℝ), (k : ℝ) / b.nTilings ≤ u → u < (k + 1) / b.nTilings →
        ⌊u * (b.nTilings : ℝ)⌋ = k := by
      intro k u h1 h2
      rw [Int.floor_eq_iff]
      exact ⟨(div_le_iff₀ hn0).1 h1, (lt_div_iff₀ hn0).1 h2⟩
    induction h with
    | nil => rfl
    | cons hk _ ih =>
      obtain ⟨k, h1, h2, h3, h4⟩ := hk
      rw [List.map_cons, List.map_cons, ih]
      congr 1
      show max isizeMin (min isizeMax ⌊_⌋) = max isizeMin (min isizeMax ⌊_⌋)
      rw [real_mul, real_mul, real_ofNat, hcell k _ h1 h2, hcell k _ h3 h4]

end

/-- Two different inputs meeting the hypothesis. -/
example : List.Forall₂ (fun u v : ℝ => ∃ k : Int,
      (k : ℝ) / (4 : ℕ) ≤ u ∧ u < (k + 1) / (4 : ℕ) ∧ (k : ℝ) / (4 : ℕ) ≤ v ∧ v < (k + 1) / (4 : ℕ))
    [0.3, -0.1] [0.4, -0.2] := by
  refine .cons ⟨1, ?_⟩ (.cons ⟨-1, ?_⟩ .nil) <;> norm_num

/-! ## C32 TileCoding tiles -/

section
variable {K H : Type} [Scalar K] [BuildHasher H]

/-- Link with the code: the feature activated by tiling `t` is the hash of the tile numbers
`tile n t i cell_i` of all coordinates (preceded by those of the earlier tilings). -/
theorem C32_hash_of_tiles (hK : FloorInRange K) (b : TileCoding H) (x : List K)
    (hx : x.length < 2 ^ 63) (hm : 0 < b.memorySize) (hn : b.nTilings ≤ 2 ^ 62)
    (ho : ¬ TileOverflow b.nTilings (x.map (cell b.nTilings))) :
    ∃ φ : Features K, Basis.project b x = .ok (.ok φ) ∧
      ∀ i, (∃ a, Stored φ i a) ↔ ∃ t < b.nTilings,
        i = tileIndex b.hasherBuilder b.nTilings b.memorySize (x.map (cell b.nTilings)) t := by
  have hl : (x.map (cell b.nTilings)).length < 2 ^ 63 := by rw [List.length_map]; exact hx
  have hr : ∀ s ∈ x.map (cell b.nTilings), isizeMin ≤ s ∧ s ≤ isizeMax := by
    intro s hs
    obtain ⟨v, -, rfl⟩ := List.mem_map.1 hs
    exact hK _
  have hs : TileCoding.hashState (H := H) (x.map (cell b.nTilings)) b.nTilings
      b.memorySize (List.range b.nTilings) (BuildHasher.build b.hasherBuilder) =
      .ok ((List.range b.nTilings).map fun t => tileIndex b.hasherBuilder b.nTilings b.memorySize
        (x.map (cell b.nTilings)) t) := by
    rcases Nat.eq_zero_or_pos b.nTilings with h0 | h0
    · rw [h0]; rfl
    · have := hashState_eq h0 (by omega) hm hl hr b.hasherBuilder b.nTilings 0 (by
        intro t ht
        have := (fits_iff h0 _).2 ho t (List.mem_range.2 (by omega))
        exact ⟨by omega, this⟩)
      simpa using this
  refine ⟨_, by rw [tile_project, hs, P.ok_bind], fun i => ?_⟩
  show (∃ a, (i, a) ∈ HMap.collect _) ↔ _
  have : (∃ a, (i, a) ∈ HMap.collect (((List.range b.nTilings).map fun t =>
      tileIndex b.hasherBuilder b.nTilings b.memorySize (x.map (cell b.nTilings)) t).map
        fun i => (i, (Scalar.one : K)))) ↔ i ∈ (HMap.collect (((List.range b.nTilings).map fun t =>
      tileIndex b.hasherBuilder b.nTilings b.memorySize (x.map (cell b.nTilings)) t).map
        fun i => (i, (Scalar.one : K)))).map Prod.fst := by
    rw [List.mem_map]
    exact ⟨fun ⟨a, h⟩ => ⟨_, h, rfl⟩, fun ⟨e, h, he⟩ => ⟨e.2, he ▸ h⟩⟩
  rw [this, HMap.mem_keys_collect]
  simp only [List.map_map, List.mem_map, List.mem_range, Function.comp]
  exact ⟨fun ⟨t, h, e⟩ => ⟨t, h, e.symm⟩, fun ⟨t, h, e⟩ => ⟨t, h, e.symm⟩⟩

end

/-- The overflow condition fails for ordinary cells. -/
example : ¬ TileOverflow 8 [3, -2] := by
  rintro ⟨i, s, hs, hb⟩
  unfold isizeMax at hb
  rcases i with _ | _ | i
  · cases hs; omega
  · cases hs; omega
  · cases hs

/-- Every tile other than tile 0 consists of exactly `n` consecutive cells. *Missing for the full
claim:* tile 0, for which it is false — see `C32_tile_zero_is_wider`. -/
theorem C32_uniform_width_partial (n t i : Nat) (hn : 0 < n) (q : Int) (hq : q ≠ 0) :
    ∃ a : Int, ∀ s : Int, tile n t i s = q ↔ a ≤ s ∧ s < a + n := by
  rcases lt_or_gt_of_ne hq with hq | hq
  · refine ⟨q * n - n + 1 - (t + 2 * t * i), fun s => ?_⟩
    rw [tile, tdiv_eq_neg hn hq]
    constructor <;> (rintro ⟨h1, h2⟩; constructor <;> linarith)
  · refine ⟨q * n - (t + 2 * t * i), fun s => ?_⟩
    rw [tile, tdiv_eq_pos hn hq]
    constructor <;> (rintro ⟨h1, h2⟩; constructor <;> linarith)

/-- Tile 0 consists of exactly `2n - 1` consecutive cells: the division rounds towards zero. -/
theorem C32_tile_zero_width (n t i : Nat) (hn : 0 < n) :
    ∃ a : Int, ∀ s : Int, tile n t i s = 0 ↔ a ≤ s ∧ s < a + (2 * n - 1) := by
  refine ⟨-n + 1 - (t + 2 * t * i), fun s => ?_⟩
  rw [tile, tdiv_eq_zero hn]
  constructor <;> (rintro ⟨h1, h2⟩; constructor <;> linarith)

/-- The full claim is false whenever there are at least two tilings. -/
theorem C32_tile_zero_is_wider (n t i : Nat) (hn : 2 ≤ n) :
    ¬ ∃ a : Int, ∀ s : Int, tile n t i s = 0 ↔ a ≤ s ∧ s < a + n := by
  rintro ⟨a, h⟩
  obtain ⟨c, hc⟩ := C32_tile_zero_width n t i (by omega)
  have h1 := (h c).1 ((hc c).2 ⟨le_rfl, by omega⟩)
  have h2 := (h (c + (2 * n - 2))).1 ((hc _).2 ⟨by omega, by omega⟩)
  omega

/-- Observable consequence: in the first of two tilings, the cells `-1` and `1` (e.g. inputs -0.5
and 0.5) are not separated although they are `n` cells apart. -/
theorem C32_no_separation (n i : Nat) (hn : 2 ≤ n) : tile n 0 i (-1) = tile n 0 i ((n : Int) - 1) := by
  rw [tile, tile, (tdiv_eq_zero (by omega)).2 ⟨by omega, by omega⟩,
    (tdiv_eq_zero (by omega)).2 ⟨by omega, by omega⟩]

/-! ## C33 UniformGrid activates exactly one in-range cell -/

section Grid
variable {K : Type} [Scalar K]

theorem hashFold_eq_foldl (ds : List (Equipartition K)) (vs : List K) (acc : Nat) :
    UniformGrid.hashFold ds vs acc = (ds.zip vs).foldl radixStep acc := by
  induction ds generalizing vs acc with
  | nil => rfl
  | cons d ds ih =>
    cases vs with
    | nil => rfl
    | cons v vs => rw [UniformGrid.hashFold, List.zip_cons_cons, List.foldl_cons, ih]; rfl

theorem hash_eq (ds : List (Equipartition K)) (hds : ds ≠ []) (x : List K) (hx : x ≠ []) :
    (UniformGrid.new ds).hash x = .ok (UniformGrid.hashFold ds x 0) := by
  rcases ds with _ | ⟨d, ds⟩
  · exact absurd rfl hds
  rcases x with _ | ⟨v, x⟩
  · exact absurd rfl hx
  rfl

theorem grid_project (ds : List (Equipartition K)) (hds : ds ≠ []) (x : List K) (hx : x ≠ []) :
    Basis.project (UniformGrid.new ds) x =
      .ok (.ok (.sparse ⟨cells ds, [(UniformGrid.hashFold ds x 0, (Scalar.one : K))]⟩)) := by
  show ((UniformGrid.new ds).hash x >>= _) = _
  rw [hash_eq ds hds x hx]
  rfl

theorem cells_eq_prod (ds : List (Equipartition K)) :
    cells ds = (ds.map Equipartition.nPartitions).prod := by
  induction ds with
  | nil => rfl
  | cons d ds ih => rw [cells_cons, ih, List.map_cons, List.prod_cons]

/-- Exactly one feature is active, with activation 1; its index is the mixed-radix number of the
coordinates' partitions and is below the number of features, as is every intermediate value of its
computation. -/
theorem C33_one_active (ds : List (Equipartition K)) (h : ∀ d ∈ ds, d.Lawful) (hds : ds ≠ [])
    (x : List K) (hx : x ≠ []) :
    let n := (ds.map Equipartition.nPartitions).prod
    ∃ k < n, Basis.project (UniformGrid.new ds) x =
        .ok (.ok (.sparse ⟨n, [(k, (Scalar.one : K))]⟩)) ∧
      Space.dim (UniformGrid.new ds) = .finite n ∧
      k = (ds.zip x).foldl radixStep 0 ∧
      (∀ j, ((ds.zip x).take j).foldl radixStep 0 < n) ∧
      (∀ j d, ds[j]? = some d → j < x.length →
        d.nPartitions * ((ds.zip x).take j).foldl radixStep 0 < n) := by
  intro n
  have hn : n = cells ds := (cells_eq_prod ds).symm
  have hlt : ∀ vs : List K, UniformGrid.hashFold ds vs 0 < cells ds := fun vs => by
    have := hashFold_lt h vs (acc := 0) (n := 1) Nat.one_pos
    rwa [Nat.one_mul] at this
  have hpre : ∀ j, ((ds.zip x).take j).foldl radixStep 0 < n := by
    intro j
    have e : (ds.zip x).take j = ds.zip (x.take j) := by
      apply List.ext_getElem?
      intro i
      simp only [List.zip, List.getElem?_zipWith, List.getElem?_take]
      by_cases hij : i < j
      · simp [hij]
      · cases ds[i]? <;> simp [hij]
    rw [e, ← hashFold_eq_foldl, hn]
    exact hlt _
  refine ⟨UniformGrid.hashFold ds x 0, hn ▸ hlt x, ?_, ?_, hashFold_eq_foldl ds x 0, hpre, ?_⟩
  · rw [hn]; exact grid_project ds hds x hx
  · rw [hn]; rfl
  · intro j d hd hj
    have hjd : j < ds.length := by
      rw [List.getElem?_eq_some_iff] at hd
      exact hd.1
    have e : (ds.zip x).take (j + 1) = (ds.zip x).take j ++ [(d, x[j])] := by
      rw [List.take_add_one]
      congr 1
      rw [List.getElem?_zip_eq_some (z := (d, x[j])).2 ⟨hd, List.getElem?_eq_getElem hj⟩]
      rfl
    have := hpre (j + 1)
    rw [e, List.foldl_append] at this
    have this : d.mapOnto x[j] + d.nPartitions * ((ds.zip x).take j).foldl radixStep 0 < n := this
    omega

/-- An empty grid or an empty input panics (`unwrap` on `None`). -/
theorem C33_empty_panics (ds : List (Equipartition K)) (x : List K) (h : ds = [] ∨ x = []) :
    Panics (Basis.project (UniformGrid.new ds) x) := by
  rcases h with rfl | rfl
  · exact ⟨_, rfl⟩
  · cases ds <;> exact ⟨_, rfl⟩

/-! ## C34 UniformGrid indexing is a bijection -/

/-- Two full-length inputs activate the same feature iff they fall into the same partition in every
coordinate. -/
theorem C34_injective (ds : List (Equipartition K)) (h : ∀ d ∈ ds, d.Lawful) (hds : ds ≠ [])
    (x y : List K) (hx : x.length = ds.length) (hy : y.length = ds.length) :
    (Basis.project (UniformGrid.new ds) x : P (Result (Features K))) =
        Basis.project (UniformGrid.new ds) y ↔
      ∀ (i : Nat) (d : Equipartition K) (u v : K), ds[i]? = some d → x[i]? = some u →
        y[i]? = some v → d.mapOnto u = d.mapOnto v := by
  have hl : 0 < ds.length := List.length_pos_iff.2 hds
  have hx0 : x ≠ [] := by rintro rfl; simp at hx; omega
  have hy0 : y ≠ [] := by rintro rfl; simp at hy; omega
  rw [grid_project ds hds x hx0, grid_project ds hds y hy0]
  have e : (Except.ok (.ok (.sparse ⟨cells ds, [(UniformGrid.hashFold ds x 0, (Scalar.one : K))]⟩)) :
      P (Result (Features K))) =
      .ok (.ok (.sparse ⟨cells ds, [(UniformGrid.hashFold ds y 0, (Scalar.one : K))]⟩)) ↔
      UniformGrid.hashFold ds x 0 = UniformGrid.hashFold ds y 0 := by
    constructor
    · intro he
      injection he with he
      injection he with he
      injection he with he
      injection he with _ he
      injection he with he
      injection he
    · intro he; rw [he]
  rw [e, hashFold_inj h hx.symm hy.symm]
  constructor
  · intro hz i d u v hd hu hv
    have := congrArg (fun l => l[i]?) hz
    simp only [List.getElem?_zipWith, hd, hu, hv, Option.some.injEq] at this
    exact this
  · intro hall
    apply List.ext_getElem?
    intro i
    rw [List.getElem?_zipWith, List.getElem?_zipWith]
    rcases hd : ds[i]? with _ | d
    · rfl
    · have hi : i < ds.length := (List.getElem?_eq_some_iff.1 hd).1
      have hu := List.getElem?_eq_getElem (l := x) (i := i) (by omega)
      have hv := List.getElem?_eq_getElem (l := y) (i := i) (by omega)
      rw [hu, hv]
      exact congrArg some (hall i d _ _ hd hu hv)

/-- Every feature is activated by some full-length input (the centres of its cell). -/
theorem C34_surjective (ds : List (Equipartition K)) (h : ∀ d ∈ ds, d.Lawful) (hds : ds ≠ [])
    (k : Nat) (hk : k < (ds.map Equipartition.nPartitions).prod) :
    ∃ x : List K, x.length = ds.length ∧ Basis.project (UniformGrid.new ds) x =
      .ok (.ok (.sparse ⟨(ds.map Equipartition.nPartitions).prod, [(k, (Scalar.one : K))]⟩)) := by
  rw [← cells_eq_prod] at hk ⊢
  have hk' : k < (cartesian (ds.map Equipartition.centres)).length := by
    rw [length_cartesian_centres h]; exact hk
  obtain ⟨h1, h2, -⟩ := cartesian_centres h k _ (List.getElem?_eq_getElem hk')
  refine ⟨_, h1, ?_⟩
  rw [grid_project ds hds _ ?_, h2]
  intro hc
  rw [hc] at h1
  exact hds (List.length_eq_zero_iff.1 h1.symm)

/-! ## C35 Kernel grids follow the uniform grid -/

/-- One prototype per cell; the `k`-th centroid is a full-length point, made of the centres of the
partitions it lies in, that the uniform grid numbers `k`; its kernel has unit variance and the
partition widths as lengthscales. (`kind` selects `exp_quad`, `matern_32` or `matern_52`.) -/
theorem C35_kernel_grid (kind : StationaryKind) (ds : List (Equipartition K))
    (h : ∀ d ∈ ds, d.Lawful) (hds : ds ≠ []) :
    let n := (ds.map Equipartition.nPartitions).prod
    let b := KernelBasis.grid kind ds
    Space.dim b = .finite n ∧ Space.dim (UniformGrid.new ds) = .finite n ∧
    ∀ k p, b.prototypes[k]? = some p →
      p.kernel = ⟨Scalar.one, ds.map Equipartition.partitionWidth⟩ ∧
      p.centroid.length = ds.length ∧
      Basis.project (UniformGrid.new ds) p.centroid =
        .ok (.ok (.sparse ⟨n, [(k, (Scalar.one : K))]⟩)) ∧
      ∀ (i : Nat) (d : Equipartition K) (v : K), ds[i]? = some d → p.centroid[i]? = some v →
        d.centres[d.mapOnto v]? = some v := by
  intro n b
  have hn : n = cells ds := (cells_eq_prod ds).symm
  have hm : KernelBasis.gridCentroids ds = cartesian (ds.map Equipartition.centres) := by
    rcases ds with _ | ⟨d, ds⟩
    · exact absurd rfl hds
    · rfl
  have hlen : b.prototypes.length = n := by
    show (List.map _ (KernelBasis.gridCentroids ds)).length = n
    rw [List.length_map, hm, length_cartesian_centres h, hn]
  refine ⟨by rw [← hlen]; rfl, by rw [hn]; rfl, ?_⟩
  intro k p hp
  have hp : (List.map (fun centroid => ({ centroid, kernel := (⟨Scalar.one,
      ds.map Equipartition.partitionWidth⟩ : Stationary kind K) } : Prototype _ K))
      (KernelBasis.gridCentroids ds))[k]? = some p := hp
  rw [List.getElem?_map, Option.map_eq_some_iff, hm] at hp
  obtain ⟨c, hc, rfl⟩ := hp
  obtain ⟨h1, h2, h3⟩ := cartesian_centres h k c hc
  refine ⟨rfl, h1, ?_, h3⟩
  show Basis.project (UniformGrid.new ds) c = _
  rw [grid_project ds hds c ?_, h2, hn]
  rintro rfl
  exact hds (List.length_eq_zero_iff.1 h1.symm)

theorem C35_constructors (ds : List (Equipartition K)) :
    KernelBasis.expQuad ds = KernelBasis.grid .expQuad ds ∧
    KernelBasis.matern32 ds = KernelBasis.grid .matern32 ds ∧
    KernelBasis.matern52 ds = KernelBasis.grid .matern52 ds := ⟨rfl, rfl, rfl⟩

end Grid

/-- The partitions of `spaces` satisfy the contract assumed in C33–C35 (over exact reals). -/
theorem C33_equipartition_lawful {lb ub : ℝ} (h : lb < ub) {n : Nat} (hn : 0 < n) :
    (ofBounds lb ub n).Lawful := ofBounds_lawful h hn

/-- A two-dimensional grid meeting the hypotheses of C33–C35. -/
example : (∀ d ∈ [ofBounds 0 1 10, ofBounds (-2) 5 3], d.Lawful) ∧
    [ofBounds 0 1 10, ofBounds (-2) 5 3] ≠ [] := by
  refine ⟨fun d hd => ?_, by simp⟩
  simp only [List.mem_cons, List.not_mem_nil, or_false] at hd
  rcases hd with rfl | rfl
  · exact ofBounds_lawful (by norm_num) (by norm_num)
  · exact ofBounds_lawful (by norm_num) (by norm_num)

end Lfa

import Verif.Props.C30_C35
import Verif.Props.C72_C79
import Verif.Props.C99_C100
import Verif.Proofs.Training

/-!
# C138: what tile coding shares between inputs

The feature of a tiling is the hash of everything fed to one hasher so far, so it depends on the tiles in the
earlier tilings too.
-/

set_option linter.unusedSectionVars false

namespace Lfa

open Spec Features

/-- Everything the hasher has been fed when it yields the feature of tiling `t`. -/
def fed (n t : Nat) (cells : List Int) : List Int := (List.range (t + 1)).flatMap fun t => tilingKey n t cells

/-- Two inputs lie in the same tile of tiling `t`. -/
def SameTile (n t : Nat) (c d : List Int) : Prop :=
  ∀ i s s', c[i]? = some s → d[i]? = some s' → tile n t i s = tile n t i s'

/-- The hasher and the memory size separate whatever is hashed for the two inputs. -/
def CollisionFree {H : Type} [BuildHasher H] (b : H) (n m : Nat) (c d : List Int) : Prop :=
  ∀ u ∈ [c, d], ∀ v ∈ [c, d], ∀ t < n, ∀ t' < n, tileIndex b n m u t = tileIndex b n m v t' →
    fed n t u = fed n t' v

theorem key_length (n t : Nat) (c : List Int) : (tilingKey n t c).length = c.length + 1 := by
  simp [tilingKey]

theorem key_eq_iff {n t : Nat} {c d : List Int} (hl : c.length = d.length) :
    tilingKey n t c = tilingKey n t d ↔ SameTile n t c d := by
  unfold tilingKey
  rw [List.cons_inj_right, List.ext_getElem?_iff]
  simp only [List.getElem?_mapIdx]
  constructor
  · intro h i s s' hs hs'
    have := h i
    rw [hs, hs'] at this
    exact Option.some.inj this
  · intro h i
    rcases lt_or_ge i c.length with hi | hi
    · rw [List.getElem?_eq_getElem hi, List.getElem?_eq_getElem (hl ▸ hi)]
      exact congrArg some (h i _ _ (List.getElem?_eq_getElem hi) (List.getElem?_eq_getElem (hl ▸ hi)))
    · rw [List.getElem?_eq_none hi, List.getElem?_eq_none (hl ▸ hi)]

theorem fed_succ (n t : Nat) (c : List Int) : fed n (t + 1) c = fed n t c ++ tilingKey n (t + 1) c := by
  unfold fed
  rw [List.range_succ, List.flatMap_append, List.flatMap_singleton]

theorem fed_length (n t : Nat) (c : List Int) : (fed n t c).length = (t + 1) * (c.length + 1) := by
  induction t with
  | zero => simp [fed, key_length]
  | succ t ih => rw [fed_succ, List.length_append, ih, key_length]; ring

theorem fed_eq_iff {n : Nat} {c d : List Int} (hl : c.length = d.length) (t t' : Nat) :
    fed n t c = fed n t' d ↔ t = t' ∧ ∀ s ≤ t, SameTile n s c d := by
  constructor
  · intro h
    have ht : t = t' := by
      have := congrArg List.length h
      rw [fed_length, fed_length, hl] at this
      have := Nat.eq_of_mul_eq_mul_right (Nat.succ_pos _) this
      omega
    subst ht
    refine ⟨rfl, ?_⟩
    induction t with
    | zero =>
      intro s hs
      obtain rfl : s = 0 := by omega
      rw [← key_eq_iff hl]
      simpa [fed] using h
    | succ t ih =>
      rw [fed_succ, fed_succ] at h
      obtain ⟨h1, h2⟩ := List.append_inj h (by rw [fed_length, fed_length, hl])
      intro s hs
      rcases Nat.lt_or_ge s (t + 1) with hs' | hs'
      · exact ih h1 s (by omega)
      · obtain rfl : s = t + 1 := by omega
        exact (key_eq_iff hl).1 h2
  · rintro ⟨rfl, h⟩
    unfold fed
    refine List.flatMap_congr fun s hs => ?_
    exact (key_eq_iff hl).2 (h s (by have := List.mem_range.1 hs; omega))

section
variable {H : Type} [BuildHasher H]

/-- Tiling `t` yields the same feature for two inputs in the same tile of it and of all earlier tilings, and
without collisions only then: sharing the tile of `t` alone is not enough. -/
theorem C138_shared (b : H) (n m : Nat) (c d : List Int) (hl : c.length = d.length) (t : Nat) :
    ((∀ s ≤ t, SameTile n s c d) → tileIndex b n m c t = tileIndex b n m d t) ∧
    (CollisionFree b n m c d → t < n → ∀ t' < n, tileIndex b n m c t = tileIndex b n m d t' →
      t = t' ∧ ∀ s ≤ t, SameTile n s c d) := by
  refine ⟨fun h => ?_, fun hf ht t' ht' h => ?_⟩
  · have : fed n t c = fed n t d := (fed_eq_iff hl t t).2 ⟨rfl, h⟩
    unfold fed at this
    unfold tileIndex
    rw [this]
  · exact (fed_eq_iff hl t t').1 (hf c (by simp) d (by simp) t ht t' ht' h)

/-- The projection when nothing overflows. -/
theorem tile_project_eq {K : Type} [Scalar K] (hK : FloorInRange K) (b : TileCoding H) (x : List K)
    (hx : x.length < 2 ^ 63) (hm : 0 < b.memorySize) (hn : b.nTilings ≤ 2 ^ 62)
    (ho : ¬ TileOverflow b.nTilings (x.map (cell b.nTilings))) :
    Basis.project b x = .ok (.ok (.sparse ⟨b.memorySize, HMap.collect (((List.range b.nTilings).map fun t =>
      tileIndex b.hasherBuilder b.nTilings b.memorySize (x.map (cell b.nTilings)) t).map
        fun i => (i, (Scalar.one : K)))⟩)) := by
  have hl : (x.map (cell b.nTilings)).length < 2 ^ 63 := by rw [List.length_map]; exact hx
  have hr : ∀ s ∈ x.map (cell b.nTilings), isizeMin ≤ s ∧ s ≤ isizeMax := by
    intro s hs
    obtain ⟨v, -, rfl⟩ := List.mem_map.1 hs
    exact hK _
  have hs : TileCoding.hashState (H := H) (x.map (cell b.nTilings)) b.nTilings
      b.memorySize (List.range b.nTilings) (BuildHasher.build b.hasherBuilder) =
      .ok ((List.range b.nTilings).map fun t => tileIndex b.hasherBuilder b.nTilings b.memorySize
        (x.map (cell b.nTilings)) t) := by
    rcases Nat.eq_zero_or_pos b.nTilings with h0 | h0
    · rw [h0]; rfl
    · have := hashState_eq h0 (by omega) hm hl hr b.hasherBuilder b.nTilings 0 (by
        intro t ht
        have := (fits_iff h0 _).2 ho t (List.mem_range.2 (by omega))
        exact ⟨by omega, this⟩)
      simpa using this
  rw [tile_project, hs, P.ok_bind]

/-- The number of tilings whose feature the two inputs share. -/
noncomputable def sharedTilings (n : Nat) (c d : List Int) : Nat :=
  by classical exact ((Finset.range n).filter fun t => ∀ s ≤ t, SameTile n s c d).card

/-- Without collisions, training at one input moves the prediction at another by the rate times the error times
the number of features they share. -/
theorem C138_training (b : TileCoding H) (x y : List ℝ) (hxy : x.length = y.length) (hx : x.length < 2 ^ 63)
    (hm : 0 < b.memorySize) (hn : b.nTilings ≤ 2 ^ 62)
    (hox : ¬ TileOverflow b.nTilings (x.map (cell b.nTilings)))
    (hoy : ¬ TileOverflow b.nTilings (y.map (cell b.nTilings)))
    (hf : CollisionFree b.hasherBuilder b.nTilings b.memorySize (x.map (cell b.nTilings))
      (y.map (cell b.nTilings)))
    (w : List ℝ) (hw : w.length = b.memorySize) (lr e : ℝ) :
    ∃ v fa', predict b w y = .ok (.ok v) ∧
      ScalarLFA.update (LFA.mk b w (SGD.mk lr)) x e = .ok (.ok (), fa') ∧
      fa'.evaluate y = .ok (.ok (v + lr * e *
        sharedTilings b.nTilings (x.map (cell b.nTilings)) (y.map (cell b.nTilings)))) := by
  classical
  set c := x.map (cell b.nTilings) with hc
  set d := y.map (cell b.nTilings) with hd
  have hl : c.length = d.length := by rw [hc, hd, List.length_map, List.length_map, hxy]
  have hpx := tile_project_eq floorInRange_real b x hx hm hn hox
  have hpy := tile_project_eq floorInRange_real b y (hxy ▸ hx) hm hn hoy
  rw [← hc] at hpx
  rw [← hd] at hpy
  set f : Nat → Nat := fun t => tileIndex b.hasherBuilder b.nTilings b.memorySize c t with hfdef
  set g : Nat → Nat := fun t => tileIndex b.hasherBuilder b.nTilings b.memorySize d t with hgdef
  have hlt : ∀ u t, tileIndex b.hasherBuilder b.nTilings b.memorySize u t < b.memorySize :=
    fun u t => Nat.mod_lt _ hm
  have wfx : Fits w.length (.sparse ⟨b.memorySize, HMap.collect (((List.range b.nTilings).map f).map
      fun i => (i, (Scalar.one : ℝ)))⟩) := ⟨wf_units (by
        intro i hi
        obtain ⟨t, -, rfl⟩ := List.mem_map.1 hi
        exact hlt _ _), hw.symm⟩
  have wfy : Fits w.length (.sparse ⟨b.memorySize, HMap.collect (((List.range b.nTilings).map g).map
      fun i => (i, (Scalar.one : ℝ)))⟩) := ⟨wf_units (by
        intro i hi
        obtain ⟨t, -, rfl⟩ := List.mem_map.1 hi
        exact hlt _ _), hw.symm⟩
  obtain ⟨w', s1, s2, s3⟩ := sgd_real wfx (SGD.mk lr) e rfl
  refine ⟨_, LFA.mk b w' (SGD.mk lr), predict_eq_inner hpy wfy.1 hw.symm, ?_, ?_⟩
  · rw [scalar_update_eq (fa := LFA.mk b w (SGD.mk lr)) hpx e]
    show (Optimiser.stepScaled (SGD.mk lr) w _ e).map _ = _
    rw [s1]
    rfl
  · rw [evaluate_eq (fa := LFA.mk b w' (SGD.mk lr)) hpy (dot_real wfy.1 (hw.symm.trans s2.symm))]
    congr 2
    rw [inner_eq, inner_eq]
    show ∑ i ∈ Finset.range b.memorySize, _ = ∑ i ∈ Finset.range b.memorySize, _ + _
    have hsum : ∑ i ∈ Finset.range b.memorySize,
        (if i ∈ (List.range b.nTilings).map g then (1 : ℝ) else 0) *
          (if i ∈ (List.range b.nTilings).map f then (1 : ℝ) else 0) = sharedTilings b.nTilings c d := by
      simp only [← ite_and, mul_ite, mul_one, mul_zero]
      rw [Finset.sum_boole]
      congr 1
      unfold sharedTilings
      symm
      refine Finset.card_bij (fun t _ => f t) ?_ ?_ ?_
      · intro t ht
        obtain ⟨ht, hs⟩ := Finset.mem_filter.1 ht
        have ht := Finset.mem_range.1 ht
        refine Finset.mem_filter.2 ⟨Finset.mem_range.2 (hlt _ _), ?_, ?_⟩
        · exact List.mem_map.2 ⟨t, List.mem_range.2 ht, rfl⟩
        · exact List.mem_map.2 ⟨t, List.mem_range.2 ht,
            ((C138_shared b.hasherBuilder b.nTilings b.memorySize c d hl t).1 hs).symm⟩
      · intro t ht t' ht' h
        have ht := Finset.mem_range.1 (Finset.mem_filter.1 ht).1
        have ht' := Finset.mem_range.1 (Finset.mem_filter.1 ht').1
        exact ((fed_eq_iff rfl t t').1 (hf c (by simp) c (by simp) t ht t' ht' h)).1
      · intro i hi
        obtain ⟨-, h1, h2⟩ := Finset.mem_filter.1 hi
        obtain ⟨t, ht, rfl⟩ := List.mem_map.1 h1
        obtain ⟨t', ht', h2⟩ := List.mem_map.1 h2
        have ht := List.mem_range.1 ht
        have ht' := List.mem_range.1 ht'
        obtain ⟨rfl, hs⟩ := (C138_shared b.hasherBuilder b.nTilings b.memorySize c d hl t).2 hf ht t' ht' h2.symm
        exact ⟨t, Finset.mem_filter.2 ⟨Finset.mem_range.2 ht, hs⟩, rfl⟩
    rw [← hsum, Finset.mul_sum, ← Finset.sum_add_distrib]
    refine Finset.sum_congr rfl fun i hi => ?_
    rw [s3 i (hw.symm ▸ Finset.mem_range.1 hi), value_units, value_units, real_one, real_zero]
    ring

end

/-! ### Adjacent cells of one coordinate -/

theorem tile_nat (n t c : Nat) : tile n t 0 (c : Int) = ((c + t) / n : ℕ) := by
  unfold tile
  rw [show ((c : Int) + (t + 2 * t * (0 : ℕ))) = ((c + t : ℕ) : Int) by push_cast; ring]
  rfl

theorem same_iff (n c t : Nat) (ht : t < n) :
    SameTile n t [(c : Int)] [((c + 1 : ℕ) : Int)] ↔ t ≠ n - 1 - c % n := by
  have h1 : SameTile n t [(c : Int)] [((c + 1 : ℕ) : Int)] ↔ (c + t) / n = (c + t + 1) / n := by
    constructor
    · intro h
      have := h 0 _ _ rfl rfl
      rw [tile_nat, tile_nat] at this
      rw [Nat.cast_inj.1 this]
      congr 1
      omega
    · intro h i s s' hs hs'
      rcases i with _ | i
      · cases hs; cases hs'
        rw [tile_nat, tile_nat, h]
        congr 2
        omega
      · cases hs
  rw [h1, Nat.succ_div]
  have hr := Nat.mod_lt c (show 0 < n by omega)
  have hd : n ∣ c + t + 1 ↔ t = n - 1 - c % n := by
    have : c + t + 1 = n * (c / n) + (c % n + t + 1) := by have := Nat.div_add_mod c n; omega
    rw [this, Nat.dvd_add_right (Dvd.intro _ rfl)]
    constructor
    · rintro ⟨k, hk⟩
      have : k = 1 := by
        rcases k with _ | _ | k
        · omega
        · rfl
        · have : n * 2 ≤ n * (k + 1 + 1) := Nat.mul_le_mul_left n (by omega)
          omega
      subst this
      omega
    · rintro rfl
      exact ⟨1, by omega⟩
  by_cases h : n ∣ c + t + 1
  · rw [if_pos h]
    exact ⟨fun h' => by omega, fun h' => absurd (hd.1 h) h'⟩
  · rw [if_neg h]
    exact ⟨fun _ h' => h (hd.2 h'), fun _ => rfl⟩

/-- Inputs in adjacent cells lie in the same tile of all tilings but one, yet share the features only of the
tilings before that one: anything between none and all but one, depending on the position. -/
theorem C138_neighbours (n c : Nat) (hn : 0 < n) :
    (∃! t, t < n ∧ ¬ SameTile n t [(c : Int)] [((c + 1 : ℕ) : Int)]) ∧
    sharedTilings n [(c : Int)] [((c + 1 : ℕ) : Int)] = n - 1 - c % n := by
  classical
  have hlt : n - 1 - c % n < n := by omega
  refine ⟨⟨n - 1 - c % n, ⟨hlt, by rw [same_iff n c _ hlt]; simp⟩, ?_⟩, ?_⟩
  · rintro t ⟨ht, h⟩
    by_contra hne
    exact h ((same_iff n c t ht).2 hne)
  · unfold sharedTilings
    have : ((Finset.range n).filter fun t => ∀ s ≤ t, SameTile n s [(c : Int)] [((c + 1 : ℕ) : Int)]) =
        Finset.range (n - 1 - c % n) := by
      ext t
      rw [Finset.mem_filter, Finset.mem_range, Finset.mem_range]
      constructor
      · rintro ⟨ht, h⟩
        by_contra hge
        exact (same_iff n c _ hlt).1 (h (n - 1 - c % n) (not_lt.1 hge)) rfl
      · intro h
        exact ⟨by omega, fun s hs => (same_iff n c s (by omega)).2 (by omega)⟩
    convert congrArg Finset.card this using 1
    exact (Finset.card_range _).symm

theorem cell_real {n : Nat} (hn : 0 < n) {c : Nat} (hc : (c : Int) ≤ isizeMax) {x : ℝ} (h1 : (c : ℝ) / n ≤ x)
    (h2 : x < (c + 1) / n) : cell n x = (c : Int) := by
  have hn0 : (0 : ℝ) < n := by exact_mod_cast hn
  have : ⌊x * (n : ℝ)⌋ = (c : Int) := by
    rw [Int.floor_eq_iff]
    exact ⟨by exact_mod_cast (div_le_iff₀ hn0).1 h1, by exact_mod_cast (lt_div_iff₀ hn0).1 h2⟩
  show max isizeMin (min isizeMax ⌊_⌋) = _
  rw [real_mul, real_ofNat, this, min_eq_right hc, max_eq_right]
  unfold isizeMin
  omega

/-- So training at `x` moves the prediction in the next cell by `lr * e * (n - 1 - c mod n)`: not at all when
`c` is the last of `n` cells, and never by the `lr * e * (n - 1)` that one differing tile in `n` suggests
unless `c` is the first. -/
theorem C138_next_cell {H : Type} [BuildHasher H] (b : TileCoding H) (hn : 0 < b.nTilings)
    (hn' : b.nTilings ≤ 2 ^ 62) (hm : 0 < b.memorySize) (c : Nat) (hc : (c + b.nTilings : Int) ≤ isizeMax)
    (x y : ℝ) (hx : (c : ℝ) / b.nTilings ≤ x ∧ x < (c + 1) / b.nTilings)
    (hy : (c + 1 : ℝ) / b.nTilings ≤ y ∧ y < (c + 2) / b.nTilings)
    (hf : CollisionFree b.hasherBuilder b.nTilings b.memorySize [(c : Int)] [((c + 1 : ℕ) : Int)])
    (w : List ℝ) (hw : w.length = b.memorySize) (lr e : ℝ) :
    ∃ v fa', predict b w [y] = .ok (.ok v) ∧
      ScalarLFA.update (LFA.mk b w (SGD.mk lr)) [x] e = .ok (.ok (), fa') ∧
      fa'.evaluate [y] = .ok (.ok (v + lr * e * (b.nTilings - 1 - c % b.nTilings : ℕ))) := by
  have cx : cell b.nTilings x = (c : Int) := cell_real hn (by omega) hx.1 hx.2
  have cy : cell b.nTilings y = ((c + 1 : ℕ) : Int) := cell_real hn (by push_cast; omega)
    (by push_cast; exact hy.1) (by push_cast; rw [show (c : ℝ) + 1 + 1 = c + 2 by ring]; exact hy.2)
  have ho : ∀ k : Nat, k ≤ c + 1 → ¬ TileOverflow b.nTilings [(k : Int)] := by
    rintro k hk ⟨i, s, hs, h⟩
    rcases i with _ | i
    · cases hs
      unfold isizeMax at h hc
      omega
    · cases hs
  have := C138_training b [x] [y] rfl (by norm_num) hm hn'
    (by rw [List.map_singleton, cx]; exact ho c (by omega))
    (by rw [List.map_singleton, cy]; exact ho (c + 1) le_rfl)
    (by rw [List.map_singleton, List.map_singleton, cx, cy]; exact hf) w hw lr e
  rwa [List.map_singleton, List.map_singleton, cx, cy, (C138_neighbours b.nTilings c hn).2] at this

/-- A hasher that looks up what it was fed in a table. -/
structure TableHasher where
  table : List Int → Nat

instance : BuildHasher TableHasher where
  σ := TableHasher × List Int
  build b := (b, [])
  writeIsize s x := (s.1, s.2 ++ [x])
  finish s := s.1.table s.2 % 2 ^ 64

theorem table_fed (b : TableHasher) (l : List Int) (acc : List Int) :
    l.foldl (BuildHasher.writeIsize (H := TableHasher)) (b, acc) = (b, acc ++ l) := by
  induction l generalizing acc with
  | nil => simp
  | cons a l ih =>
    rw [List.foldl_cons]
    refine (ih (acc ++ [a])).trans ?_
    rw [List.append_assoc]
    rfl

/-- For any two inputs and any memory of at least twice the number of tilings there is a hasher without collisions. -/
theorem C138_collision_free_exists (n m : Nat) (hm : 2 * n ≤ m) (hm' : m ≤ 2 ^ 64) (c d : List Int) :
    ∃ b : TableHasher, CollisionFree b n m c d := by
  classical
  set S : Finset (List Int) := (Finset.range n).image (fun t => fed n t c) ∪
    (Finset.range n).image (fun t => fed n t d) with hS
  have hcard : S.card ≤ 2 * n := by
    refine (Finset.card_union_le _ _).trans ?_
    have h1 := Finset.card_image_le (s := Finset.range n) (f := fun t => fed n t c)
    have h2 := Finset.card_image_le (s := Finset.range n) (f := fun t => fed n t d)
    rw [Finset.card_range] at h1 h2
    omega
  set f : List Int → Nat := fun l => if h : l ∈ S then (S.equivFin ⟨l, h⟩).1 else 0 with hfd
  have hlt : ∀ l, l ∈ S → f l < m := by
    intro l hl
    simp only [hfd, dif_pos hl]
    exact lt_of_lt_of_le (S.equivFin ⟨l, hl⟩).2 (hcard.trans hm)
  have hinj : ∀ l ∈ S, ∀ l' ∈ S, f l = f l' → l = l' := by
    intro l hl l' hl' h
    simp only [hfd, dif_pos hl, dif_pos hl'] at h
    exact congrArg Subtype.val (S.equivFin.injective (Fin.ext h))
  have hmem : ∀ u ∈ [c, d], ∀ t < n, fed n t u ∈ S := by
    intro u hu t ht
    rcases List.mem_cons.1 hu with rfl | hu
    · exact Finset.mem_union_left _ (Finset.mem_image.2 ⟨t, Finset.mem_range.2 ht, rfl⟩)
    · rw [List.mem_singleton] at hu
      subst hu
      exact Finset.mem_union_right _ (Finset.mem_image.2 ⟨t, Finset.mem_range.2 ht, rfl⟩)
  have hval : ∀ u ∈ [c, d], ∀ t < n, tileIndex (⟨f⟩ : TableHasher) n m u t = f (fed n t u) := by
    intro u hu t ht
    have := hlt _ (hmem u hu t ht)
    have hfold : (fed n t u).foldl (BuildHasher.writeIsize (H := TableHasher)) ((⟨f⟩ : TableHasher), []) =
      (⟨f⟩, fed n t u) := by rw [table_fed]; rfl
    show BuildHasher.finish (H := TableHasher) ((fed n t u).foldl (BuildHasher.writeIsize (H := TableHasher))
      ((⟨f⟩ : TableHasher), [])) % m = _
    rw [hfold]
    show f (fed n t u) % 2 ^ 64 % m = _
    rw [Nat.mod_eq_of_lt (lt_of_lt_of_le this hm'), Nat.mod_eq_of_lt this]
  refine ⟨⟨f⟩, fun u hu v hv t ht t' ht' h => ?_⟩
  rw [hval u hu t ht, hval v hv t' ht'] at h
  exact hinj _ (hmem u hu t ht) _ (hmem v hv t' ht') h

/-- With eight tilings the cells 7 and 8 differ in one tile of eight and share no feature, 0 and 1 share seven. -/
example : sharedTilings 8 [((7 : ℕ) : Int)] [((7 + 1 : ℕ) : Int)] = 0 ∧
    sharedTilings 8 [((0 : ℕ) : Int)] [((0 + 1 : ℕ) : Int)] = 7 :=
  ⟨(C138_neighbours 8 7 (by norm_num)).2, (C138_neighbours 8 0 (by norm_num)).2⟩

end Lfa

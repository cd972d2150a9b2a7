import Verif.Spec.Overflow
import Verif.Props.C30_C35
import Verif.Props.C17_C22

/-!
# C155: integer overflow and build profiles

The model counts with natural numbers. This is faithful: as long as the number of features fits in 64 bits, no
`usize` operation of the crate overflows, in either build profile. Beyond that a debug build panics and a release
build goes wrong silently. The `isize` arithmetic of tile coding panics on far inputs in a debug build (C30); a
release build wraps, never panics, and agrees with the debug build wherever that does not panic. Any scalars.
-/

set_option linter.unusedSectionVars false

namespace Lfa

open Spec

/-! ## Tile coding -/

section
variable {K H : Type} [Scalar K] [BuildHasher H]

theorem isizeIn_debug (x : Int) : isizeIn .debug x = checkIsize x := rfl

theorem isizeIn_release (x : Int) : isizeIn .release x = .ok (Int.bmod x (2 ^ 64)) := by
  unfold isizeIn
  split
  · rename_i h
    unfold isizeMin isizeMax at h
    rw [Int.bmod_eq_of_le (by omega) (by omega)]
  · rfl

theorem writeCoordsIn_debug (n : Nat) (t tx2 : Int) (ss : List Int) : ∀ (i : Nat) (h : BuildHasher.σ H),
    TileCoding.writeCoordsIn (H := H) .debug n t tx2 i ss h = TileCoding.writeCoords (H := H) n t tx2 i ss h := by
  induction ss with
  | nil => intro i h; rfl
  | cons s ss ih =>
    intro i h
    unfold TileCoding.writeCoordsIn TileCoding.writeCoords
    simp only [ih]
    rfl

theorem hashStateIn_debug (state : List Int) (n m : Nat) (ts : List Nat) : ∀ h : BuildHasher.σ H,
    TileCoding.hashStateIn (H := H) .debug state n m ts h = TileCoding.hashState (H := H) state n m ts h := by
  induction ts with
  | nil => intro h; rfl
  | cons t ts ih =>
    intro h
    have : ∀ h : BuildHasher.σ H, TileCoding.tilingIn (H := H) .debug state n m h t =
        TileCoding.tiling (H := H) state n m h t := by
      intro h
      unfold TileCoding.tilingIn TileCoding.tiling
      simp only [writeCoordsIn_debug]
      rfl
    unfold TileCoding.hashStateIn TileCoding.hashState
    rw [this]
    simp only [ih]

/-- The debug build of tile coding is the one that C30 to C32 are about. -/
theorem C155_tile_debug (b : TileCoding H) (x : List K) :
    TileCoding.projectIn .debug b x = (Basis.project b x : P (Result (Features K))) := by
  unfold TileCoding.projectIn
  simp only [hashStateIn_debug]
  rfl

/-- What the loop over the coordinates writes. -/
def wrappedFrom (n t : Nat) : Nat → List Int → List Int
  | _, [] => []
  | i, s :: ss => wrappedTile n t i s :: wrappedFrom n t (i + 1) ss

theorem wrappedFrom_eq (n t : Nat) (ss : List Int) : ∀ i, wrappedFrom n t i ss =
    ss.mapIdx fun j s => wrappedTile n t (i + j) s := by
  induction ss with
  | nil => intro i; rfl
  | cons s ss ih =>
    intro i
    rw [wrappedFrom, ih, List.mapIdx_cons]
    simp only [Nat.add_zero, Nat.add_comm, Nat.add_left_comm]

theorem writeCoordsIn_release {n t : Nat} (hn : 0 < n) (hn' : n < 2 ^ 63) (ss : List Int) :
    ∀ (i : Nat) (h : BuildHasher.σ H),
      TileCoding.writeCoordsIn (H := H) .release n (asIsize t) (Int.bmod (asIsize t * 2) (2 ^ 64)) i ss h =
        .ok ((wrappedFrom n t i ss).foldl (BuildHasher.writeIsize (H := H)) h) := by
  induction ss with
  | nil => intro i h; rfl
  | cons s ss ih =>
    intro i h
    have en : asIsize n = n := asIsize_small hn'
    have e : Int.bmod (s + Int.bmod (asIsize t + Int.bmod (asIsize i * Int.bmod (asIsize t * 2) (2 ^ 64)) (2 ^ 64)) (2 ^ 64))
        (2 ^ 64) = Int.bmod (s + (t + 2 * t * i)) (2 ^ 64) := by
      have hb : ∀ x : Int, Int.bmod x (2 ^ 64) ≡ x [ZMOD ((2 ^ 64 : Nat) : Int)] := fun x => Int.bmod_emod ..
      have hc : ∀ x y : Int, x ≡ y [ZMOD ((2 ^ 64 : Nat) : Int)] → Int.bmod x (2 ^ 64) = Int.bmod y (2 ^ 64) := by
        intro x y h
        rw [← Int.emod_bmod (x := x), h, Int.emod_bmod]
      apply hc
      have e1 : asIsize i * Int.bmod (asIsize t * 2) (2 ^ 64) ≡ i * (t * 2) [ZMOD ((2 ^ 64 : Nat) : Int)] :=
        (hb i).mul ((hb _).trans ((hb t).mul_right 2))
      have e2 : s + Int.bmod (asIsize t + Int.bmod (asIsize i * Int.bmod (asIsize t * 2) (2 ^ 64)) (2 ^ 64)) (2 ^ 64) ≡
          s + (t + i * (t * 2)) [ZMOD ((2 ^ 64 : Nat) : Int)] :=
        ((hb _).trans ((hb t).add ((hb _).trans e1))).add_left s
      rw [show s + ((t : Int) + 2 * t * i) = s + (t + i * (t * 2)) by ring]
      exact e2
    rw [TileCoding.writeCoordsIn, isizeIn_release, P.ok_bind, isizeIn_release, P.ok_bind, isizeIn_release, P.ok_bind,
      e, en]
    have hd : isizeDiv (Int.bmod (s + (t + 2 * t * i)) (2 ^ 64)) n = .ok (wrappedTile n t i s) := by
      unfold isizeDiv
      rw [if_neg (by omega)]
      have h1 := Int.le_bmod (x := s + (t + 2 * t * i)) (m := 2 ^ 64) (by norm_num)
      have h2 := Int.bmod_lt (x := s + (t + 2 * t * i)) (m := 2 ^ 64) (by norm_num)
      have habs := Int.natAbs_tdiv_le_natAbs (Int.bmod (s + (t + 2 * t * i)) (2 ^ 64)) n
      set z := Int.bmod (s + (t + 2 * t * i)) (2 ^ 64) with hz
      show checkIsize (Int.tdiv z n) = .ok (wrappedTile n t i s)
      rw [show wrappedTile n t i s = Int.tdiv z n from rfl]
      norm_num at h1 h2
      have hr : isizeMin ≤ Int.tdiv z n ∧ Int.tdiv z n ≤ isizeMax := by
        unfold isizeMin isizeMax
        by_cases hneg : z < 0
        · have := Int.tdiv_nonneg (a := -z) (b := n) (by omega) (by omega)
          rw [Int.neg_tdiv] at this
          constructor <;> omega
        · have := Int.tdiv_nonneg (a := z) (b := n) (by omega) (by omega)
          constructor <;> omega
      exact checkIsize_ok hr.1 hr.2
    rw [hd, P.ok_bind, ih]
    rfl

theorem hashStateIn_release {n m : Nat} (hn : 0 < n) (hn' : n < 2 ^ 63) (hm : 0 < m) (cells : List Int) (b : H) :
    ∀ k t₀, t₀ + k ≤ n → TileCoding.hashStateIn (H := H) .release cells n m ((List.range k).map (t₀ + ·))
      (((List.range t₀).flatMap fun t => wrappedKey n t cells).foldl (BuildHasher.writeIsize (H := H)) (BuildHasher.build b)) =
      .ok ((List.range k).map fun j => wrappedIndex b n m cells (t₀ + j)) := by
  intro k
  induction k with
  | zero => intro t₀ _; rfl
  | succ k ih =>
    intro t₀ hk
    have et : asIsize t₀ = t₀ := asIsize_small (by omega)
    rw [List.range_succ_eq_map, List.map_cons, List.map_map, TileCoding.hashStateIn]
    have ht : TileCoding.tilingIn (H := H) .release cells n m
        (((List.range t₀).flatMap fun t => wrappedKey n t cells).foldl (BuildHasher.writeIsize (H := H)) (BuildHasher.build b))
        (t₀ + 0) = .ok (((List.range (t₀ + 1)).flatMap fun t => wrappedKey n t cells).foldl
          (BuildHasher.writeIsize (H := H)) (BuildHasher.build b), wrappedIndex b n m cells t₀) := by
      rw [Nat.add_zero]
      unfold TileCoding.tilingIn
      simp only [isizeIn_release, P.ok_bind]
      rw [writeCoordsIn_release hn hn', P.ok_bind, if_neg (by omega)]
      have hfold : (wrappedFrom n t₀ 0 cells).foldl (BuildHasher.writeIsize (H := H))
          (BuildHasher.writeIsize (H := H) (((List.range t₀).flatMap fun t => wrappedKey n t cells).foldl
            (BuildHasher.writeIsize (H := H)) (BuildHasher.build b)) (asIsize t₀)) =
          ((List.range (t₀ + 1)).flatMap fun t => wrappedKey n t cells).foldl
            (BuildHasher.writeIsize (H := H)) (BuildHasher.build b) := by
        rw [List.range_succ, List.flatMap_append, List.foldl_append, List.flatMap_singleton, wrappedKey, List.foldl_cons,
          wrappedFrom_eq, et]
        simp only [Nat.zero_add]
      rw [hfold]
      rfl
    rw [ht, P.ok_bind]
    have := ih (t₀ + 1) (by omega)
    have hmap : List.map ((t₀ + ·) ∘ Nat.succ) (List.range k) = (List.range k).map (t₀ + 1 + ·) :=
      List.map_congr_left fun j _ => by simp; omega
    show (TileCoding.hashStateIn (H := H) .release cells n m (List.map ((t₀ + ·) ∘ Nat.succ) (List.range k)) _ >>= _) = _
    rw [hmap, this, P.ok_bind, List.map_cons, List.map_map]
    have hidx : List.map ((fun j => wrappedIndex b n m cells (t₀ + j)) ∘ Nat.succ) (List.range k) =
        (List.range k).map fun j => wrappedIndex b n m cells (t₀ + 1 + j) :=
      List.map_congr_left fun j _ => by
        show wrappedIndex b n m cells (t₀ + (j + 1)) = _
        rw [show t₀ + (j + 1) = t₀ + 1 + j by omega]
    rw [hidx]
    rfl

/-- A release build of tile coding never panics, whatever the input: not on NaN, infinities or huge coordinates.
Its active features are those of the wrapped tiles. -/
theorem C155_tile_release (b : TileCoding H) (x : List K) (hn : b.nTilings < 2 ^ 63) (hm : 0 < b.memorySize) :
    TileCoding.projectIn .release b x = .ok (.ok (.sparse ⟨b.memorySize, HMap.collect (((List.range b.nTilings).map fun t =>
      wrappedIndex b.hasherBuilder b.nTilings b.memorySize (x.map (cell b.nTilings)) t).map
        fun i => (i, (Scalar.one : K)))⟩)) := by
  unfold TileCoding.projectIn
  rcases Nat.eq_zero_or_pos b.nTilings with h0 | h0
  · simp only [h0]; rfl
  · have := hashStateIn_release h0 hn hm (x.map (cell b.nTilings)) b.hasherBuilder b.nTilings 0 (by omega)
    simp only [Nat.zero_add, List.map_id', List.range_zero, List.flatMap_nil, List.foldl_nil] at this
    show (TileCoding.hashStateIn (H := H) .release (x.map (cell b.nTilings)) _ _ _ _ >>= _) = _
    rw [this]
    rfl

/-- The results of the first computation, if any, are those of the second. -/
def Refined {α : Type} (a b : P α) : Prop := ∀ r, a = .ok r → b = .ok r

theorem Refined.rfl' {α : Type} (a : P α) : Refined a a := fun _ h => h

theorem Refined.bind {α β : Type} {a b : P α} (h : Refined a b) {f g : α → P β} (hf : ∀ r, Refined (f r) (g r)) :
    Refined (a >>= f) (b >>= g) := by
  intro r hr
  obtain ⟨y, hy, hr⟩ := P.bind_eq_ok.1 hr
  rw [h y hy]
  exact hf y r hr

theorem isizeIn_refined (x : Int) : Refined (isizeIn .debug x) (isizeIn .release x) := by
  intro r hr
  unfold isizeIn at *
  split at hr
  · rw [if_pos (by assumption)]; exact hr
  · cases hr

theorem usizeIn_refined (n : Nat) : Refined (usizeIn .debug n) (usizeIn .release n) := by
  intro r hr
  unfold usizeIn at *
  split at hr
  · rw [if_pos (by assumption)]; exact hr
  · cases hr

theorem writeCoordsIn_refined (n : Nat) (t tx2 : Int) (ss : List Int) : ∀ (i : Nat) (h : BuildHasher.σ H),
    Refined (TileCoding.writeCoordsIn (H := H) .debug n t tx2 i ss h)
      (TileCoding.writeCoordsIn (H := H) .release n t tx2 i ss h) := by
  induction ss with
  | nil => exact fun i h => .rfl' _
  | cons s ss ih =>
    exact fun i h => (isizeIn_refined _).bind fun m => (isizeIn_refined _).bind fun o => (isizeIn_refined _).bind fun so =>
      (Refined.rfl' _).bind fun q => ih _ _

theorem hashStateIn_refined (state : List Int) (n m : Nat) (ts : List Nat) : ∀ h : BuildHasher.σ H,
    Refined (TileCoding.hashStateIn (H := H) .debug state n m ts h) (TileCoding.hashStateIn (H := H) .release state n m ts h) := by
  induction ts with
  | nil => exact fun h => .rfl' _
  | cons t ts ih =>
    exact fun h => Refined.bind ((isizeIn_refined _).bind fun tx2 => (writeCoordsIn_refined _ _ _ _ _ _).bind fun h => .rfl' _)
      fun r => (ih r.1).bind fun is => .rfl' _

/-- Wherever the debug build does not panic, the release build does the same. -/
theorem C155_tile_agree (b : TileCoding H) (x : List K) (h : ¬ Panics (Basis.project b x : P (Result (Features K)))) :
    TileCoding.projectIn .release b x = (Basis.project b x : P (Result (Features K))) := by
  rcases hp : (Basis.project b x : P (Result (Features K))) with p | r
  · exact absurd ⟨p, hp⟩ h
  · rw [← C155_tile_debug] at hp
    exact ((hashStateIn_refined _ _ _ _ _).bind fun _ => .rfl' _) r hp

end

/-! ## Feature vectors -/

section
variable {K : Type} [Scalar K]

theorem usizeIn_small (p : Profile) {n : Nat} (h : n < 2 ^ 64) : usizeIn p n = .ok n := if_pos h

theorem stackEntriesIn_small (p : Profile) (d : Nat) (es : HMap K) (h : ∀ e ∈ es, e.1 + d < 2 ^ 64) : ∀ m : HMap K,
    Features.stackEntriesIn p d m es = .ok (es.foldl (fun m e => HMap.insert m (e.1 + d) e.2) m) := by
  induction es with
  | nil => intro m; rfl
  | cons e es ih =>
    intro m
    rw [Features.stackEntriesIn, usizeIn_small p (h e List.mem_cons_self), P.ok_bind,
      ih fun e he => h e (List.mem_cons_of_mem _ he)]
    rfl

/-- Stacking feature vectors does not overflow as long as the total dimension fits in 64 bits. -/
theorem C155_stack (p : Profile) (f₁ f₂ : Features K) (h₂ : WF f₂) (h : dim f₁ + dim f₂ < 2 ^ 64) :
    f₁.stackIn p f₂ = f₁.stack f₂ := by
  cases f₁ with
  | dense a => rfl
  | sparse sa₁ =>
    cases f₂ with
    | dense a => rfl
    | sparse sa₂ =>
      have h : sa₁.dim + sa₂.dim < 2 ^ 64 := h
      show (Features.stackEntriesIn p sa₁.dim sa₁.activations sa₂.activations >>= _) = _
      rw [stackEntriesIn_small p _ _ fun e he => by have := h₂.2 e he; omega, P.ok_bind, usizeIn_small p h]
      rfl

theorem stackEntriesIn_release (d : Nat) (es : HMap K) : ∀ m : HMap K, ∃ m', Features.stackEntriesIn .release d m es = .ok m' := by
  induction es with
  | nil => exact fun m => ⟨m, rfl⟩
  | cons e es ih =>
    intro m
    have : ∃ i, usizeIn .release (e.1 + d) = .ok i := by unfold usizeIn; split <;> exact ⟨_, rfl⟩
    obtain ⟨i, hi⟩ := this
    obtain ⟨m', hm⟩ := ih (HMap.insert m i e.2)
    exact ⟨m', by rw [Features.stackEntriesIn, hi, P.ok_bind, hm]⟩

/-- Otherwise two sparse vectors make a debug build panic, and a release build return a vector that is shorter than
each of them. -/
theorem C155_stack_overflow (sa₁ sa₂ : SparseActivations K) (h1 : sa₁.dim < 2 ^ 64) (h2 : sa₂.dim < 2 ^ 64)
    (h : 2 ^ 64 ≤ sa₁.dim + sa₂.dim) :
    Panics ((Features.sparse sa₁).stackIn .debug (.sparse sa₂)) ∧
    ∃ φ, (Features.sparse sa₁).stackIn .release (.sparse sa₂) = .ok φ ∧ dim φ < sa₁.dim ∧ dim φ < sa₂.dim := by
  constructor
  · show Panics (Features.stackEntriesIn .debug sa₁.dim sa₁.activations sa₂.activations >>= _)
    rcases Features.stackEntriesIn .debug sa₁.dim sa₁.activations sa₂.activations with q | m
    · exact ⟨q, rfl⟩
    · rw [P.ok_bind]
      unfold usizeIn
      rw [if_neg (by omega)]
      exact ⟨_, rfl⟩
  · obtain ⟨m, hm⟩ := stackEntriesIn_release sa₁.dim sa₂.activations sa₁.activations
    refine ⟨.sparse ⟨(sa₁.dim + sa₂.dim) % 2 ^ 64, m⟩, ?_, ?_, ?_⟩
    · show (Features.stackEntriesIn .release sa₁.dim sa₁.activations sa₂.activations >>= _) = _
      rw [hm, P.ok_bind]
      unfold usizeIn
      rw [if_neg (by omega)]
      rfl
    · show (sa₁.dim + sa₂.dim) % 2 ^ 64 < sa₁.dim
      omega
    · show (sa₁.dim + sa₂.dim) % 2 ^ 64 < sa₂.dim
      omega

theorem usizeIn_wrap {n : Nat} (h : 2 ^ 64 ≤ n) : usizeIn .release n = .ok (n % 2 ^ 64) := if_neg (by omega)

/-- Then a feature of the second vector can replace one of the first: here the first has `d = usize::MAX` features
and the second has two. -/
theorem C155_stack_overwrites (a c : K) (d : Nat) (hd : d + 1 = 2 ^ 64) :
    (Features.sparse ⟨d, [(0, a)]⟩).stackIn .release (.sparse ⟨2, [(1, c)]⟩) = .ok (.sparse ⟨1, [(0, c)]⟩) := by
  show (Features.stackEntriesIn .release d [(0, a)] [(1, c)] >>= _) = _
  have h1 : usizeIn .release (1 + d) = .ok 0 := by
    rw [usizeIn_wrap (by omega), show (1 + d) % 2 ^ 64 = 0 by omega]
  have h2 : usizeIn .release (d + 2) = .ok 1 := by
    rw [usizeIn_wrap (by omega), show (d + 2) % 2 ^ 64 = 1 by omega]
  rw [Features.stackEntriesIn, h1, P.ok_bind, Features.stackEntriesIn, P.ok_bind]
  show (usizeIn .release (d + 2) >>= _) = _
  rw [h2]
  rfl

/-- Building features from entries or from indices does not overflow unless the largest index is `usize::MAX`. -/
theorem C155_from (p : Profile) (sa : SparseActivations K) (is : List Nat) :
    ((∀ e ∈ sa.activations, e.1 < 2 ^ 64 - 1) → Features.ofSparseActivationsIn p sa = Features.ofSparseActivations sa) ∧
    ((∀ i ∈ is, i < 2 ^ 64 - 1) → (Features.ofIndicesIn p is : P (Features K)) = Features.ofIndices is) := by
  constructor
  · intro h
    unfold Features.ofSparseActivationsIn Features.ofSparseActivations
    rcases hm : Features.maxIndex (sa.activations.map Prod.fst) with _ | m
    · rfl
    · have hm' := (maxIndex_spec hm).1
      obtain ⟨e, he, rfl⟩ := List.mem_map.1 hm'
      have := h e he
      show (usizeIn p (e.1 + 1) >>= _) = _
      rw [usizeIn_small p (by omega)]
      rfl
  · intro h
    unfold Features.ofIndicesIn Features.ofIndices
    rcases hm : Features.maxIndex is with _ | m
    · rfl
    · have := h m (maxIndex_spec hm).1
      show (usizeIn p (m + 1) >>= _) = _
      rw [usizeIn_small p (by omega)]
      rfl

/-- With the index `usize::MAX` a debug build panics, and a release build returns a vector with no features that
stores the entry nevertheless. -/
theorem C155_from_max (is : List Nat) (h : ∀ i ∈ is, i < 2 ^ 64) (hm : 2 ^ 64 - 1 ∈ is) :
    Panics (Features.ofIndicesIn .debug is : P (Features K)) ∧
    ∃ φ : Features K, Features.ofIndicesIn .release is = .ok φ ∧ dim φ = 0 ∧ ¬ WF φ := by
  have hM : Features.maxIndex is = some (2 ^ 64 - 1) := by
    rcases hx : Features.maxIndex is with _ | m
    · cases is with
      | nil => cases hm
      | cons i is => cases hx
    · obtain ⟨h1, h2⟩ := maxIndex_spec hx
      have := h m h1
      have := h2 _ hm
      rw [show m = 2 ^ 64 - 1 by omega]
  unfold Features.ofIndicesIn
  rw [hM]
  refine ⟨⟨.overflow, rfl⟩, .sparse ⟨0, HMap.collect (is.map fun i => (i, Scalar.one))⟩, rfl, rfl, ?_⟩
  rintro ⟨-, hw⟩
  have : 2 ^ 64 - 1 ∈ (HMap.collect (is.map fun i => (i, (Scalar.one : K)))).map Prod.fst := by
    rw [HMap.mem_keys_collect]
    simpa using hm
  obtain ⟨e, he, -⟩ := List.mem_map.1 this
  exact absurd (hw e he) (Nat.not_lt_zero _)

end

/-! ## Bases -/

section
variable {B₁ B₂ I K : Type} [Scalar K] [Space B₁] [Space B₂]

/-- A stack of bases with fewer than `2^64` features in total behaves as in the model, in both profiles, if its parts
do and their projections are in range. -/
theorem C155_stack_basis [Basis B₁ I K] [Basis B₂ I K] (p : Profile) (s : Stack B₁ B₂) (n₁ n₂ : Nat)
    (h1 : Space.dim s.b₁ = .finite n₁) (h2 : Space.dim s.b₂ = .finite n₂) (hn : n₁ + n₂ < 2 ^ 64)
    (d1 : DimOK I s.b₁) (d2 : DimOK I s.b₂) (r2 : InRange I s.b₂) (x : I) :
    Stack.dimIn p s = .ok (Space.dim s) ∧
    Stack.projectIn p (Basis.project s.b₁) (Basis.project s.b₂) x = (Basis.project s x : P (Result (Features K))) := by
  constructor
  · unfold Stack.dimIn
    rw [h1, h2]
    show (usizeIn p (n₁ + n₂) >>= _) = .ok ((Space.dim s.b₁).add (Space.dim s.b₂))
    rw [usizeIn_small p hn, h1, h2]
    rfl
  · show (Basis.project s.b₁ x >>= _) = (Basis.project s.b₁ x >>= _)
    rcases e1 : Basis.project s.b₁ x with q | (e | f₁)
    · rfl
    · rfl
    · rw [P.ok_bind, P.ok_bind]
      show (Basis.project s.b₂ x >>= _) = (Basis.project s.b₂ x >>= _)
      rcases e2 : Basis.project s.b₂ x with q | (e | f₂)
      · rfl
      · rfl
      · rw [P.ok_bind, P.ok_bind]
        have a1 := d1 x f₁ e1
        have a2 := d2 x f₂ e2
        rw [h1] at a1
        rw [h2] at a2
        injection a1 with a1
        injection a2 with a2
        have := C155_stack p f₁ f₂ (r2 x f₂ e2) (by rw [← a1, ← a2]; exact hn)
        simp only [Result.mapP, this]

/-- So does its `ith`. -/
theorem C155_stack_ith [EnumerableBasis B₁ I K] [EnumerableBasis B₂ I K] (p : Profile) (s : Stack B₁ B₂) (n₁ n₂ : Nat)
    (h1 : Space.dim s.b₁ = .finite n₁) (h2 : Space.dim s.b₂ = .finite n₂) (hn : n₁ + n₂ < 2 ^ 64) (x : I) (i : Nat) :
    Stack.ithIn p s x i = EnumerableBasis.ith s x i := by
  unfold Stack.ithIn
  show _ = ((Space.dim s.b₁).toUsize >>= _)
  rw [h1]
  show ((Space.dim s.b₂).toUsize >>= _) = ((Space.dim s.b₂).toUsize >>= _)
  rw [h2]
  show (usizeIn p (n₁ + n₂) >>= _) = _
  rw [usizeIn_small p hn]
  rfl

theorem cardIn_small (p : Profile) (ds : List (Equipartition K)) (h : ∀ d ∈ ds, 0 < d.nPartitions) :
    ∀ acc, acc * (ds.map Equipartition.nPartitions).prod < 2 ^ 64 →
      UniformGrid.cardIn p ds acc = .ok ((ds.map Equipartition.nPartitions).foldl (· * ·) acc) := by
  induction ds with
  | nil => intro acc _; rfl
  | cons d ds ih =>
    intro acc hacc
    rw [List.map_cons, List.prod_cons] at hacc
    have h0 : 0 < (ds.map Equipartition.nPartitions).prod := by
      refine Nat.pos_of_ne_zero fun h0 => ?_
      obtain ⟨d', hd', h0⟩ := List.mem_map.1 (List.prod_eq_zero_iff.1 h0)
      have := h d' (List.mem_cons_of_mem _ hd')
      omega
    have : acc * d.nPartitions < 2 ^ 64 := by
      refine lt_of_le_of_lt ?_ hacc
      rw [← Nat.mul_assoc]
      exact Nat.le_mul_of_pos_right _ h0
    rw [UniformGrid.cardIn, usizeIn_small p this, P.ok_bind, ih (fun d hd => h d (List.mem_cons_of_mem _ hd)) _
      (by rw [Nat.mul_assoc]; exact hacc)]
    rfl

theorem hashFoldIn_small (p : Profile) (ds : List (Equipartition K)) (h : ∀ d ∈ ds, d.Lawful) (vs : List K) :
    ∀ acc n, acc < n → n * (ds.map Equipartition.nPartitions).prod < 2 ^ 64 →
      UniformGrid.hashFoldIn p ds vs acc = .ok (UniformGrid.hashFold ds vs acc) := by
  induction ds generalizing vs with
  | nil => intro acc n _ _; cases vs <;> rfl
  | cons d ds ih =>
    intro acc n hacc hn
    cases vs with
    | nil => rfl
    | cons v vs =>
      rw [List.map_cons, List.prod_cons] at hn
      have hd := h d List.mem_cons_self
      have h0 : 0 < (ds.map Equipartition.nPartitions).prod := by
        refine Nat.pos_of_ne_zero fun h0 => ?_
        obtain ⟨d', hd', h0⟩ := List.mem_map.1 (List.prod_eq_zero_iff.1 h0)
        have := (h d' (List.mem_cons_of_mem _ hd')).pos
        omega
      have hv := hd.mapOnto_lt v
      have h1 : d.mapOnto v + d.nPartitions * acc < n * d.nPartitions := by
        have : d.nPartitions * (acc + 1) ≤ d.nPartitions * n := Nat.mul_le_mul_left _ hacc
        rw [Nat.mul_comm n]
        rw [Nat.mul_add] at this
        omega
      have h2 : n * d.nPartitions < 2 ^ 64 := by
        refine lt_of_le_of_lt ?_ hn
        rw [← Nat.mul_assoc]
        exact Nat.le_mul_of_pos_right _ h0
      rw [UniformGrid.hashFoldIn, usizeIn_small p (by omega), P.ok_bind, usizeIn_small p (by omega), P.ok_bind,
        ih (fun d hd => h d (List.mem_cons_of_mem _ hd)) vs _ (n * d.nPartitions) h1 (by rw [Nat.mul_assoc]; exact hn)]
      rfl

/-- A uniform grid with fewer than `2^64` cells is built and projects as in the model, in both profiles. -/
theorem C155_grid (p : Profile) (ds : List (Equipartition K)) (h : ∀ d ∈ ds, d.Lawful)
    (hn : (ds.map Equipartition.nPartitions).prod < 2 ^ 64) (x : List K) :
    UniformGrid.newIn p ds = .ok (UniformGrid.new ds) ∧
    UniformGrid.projectIn p (UniformGrid.new ds) x = (Basis.project (UniformGrid.new ds) x : P (Result (Features K))) := by
  constructor
  · unfold UniformGrid.newIn
    rw [cardIn_small p ds (fun d hd => (h d hd).pos) 1 (by rw [Nat.one_mul]; exact hn)]
    rfl
  · have : (UniformGrid.new ds).hashIn p x = (UniformGrid.new ds).hash x := by
      cases ds with
      | nil => rfl
      | cons d ds =>
        cases x with
        | nil => rfl
        | cons v x =>
          rw [List.map_cons, List.prod_cons] at hn
          exact hashFoldIn_small p ds (fun d hd => h d (List.mem_cons_of_mem _ hd)) x _ d.nPartitions
            ((h d List.mem_cons_self).mapOnto_lt v) hn
    unfold UniformGrid.projectIn
    rw [this]
    rfl

theorem cardIn_release (ds : List (Equipartition K)) : ∀ acc, ∃ n, UniformGrid.cardIn .release ds acc = .ok n ∧
    n % 2 ^ 64 = acc * (ds.map Equipartition.nPartitions).prod % 2 ^ 64 ∧ (acc < 2 ^ 64 → n < 2 ^ 64) := by
  induction ds with
  | nil => intro acc; exact ⟨acc, rfl, by simp, id⟩
  | cons d ds ih =>
    intro acc
    have : usizeIn .release (acc * d.nPartitions) = .ok (acc * d.nPartitions % 2 ^ 64) := by
      unfold usizeIn
      split
      · rename_i h; rw [Nat.mod_eq_of_lt h]
      · rfl
    obtain ⟨n, h1, h2, h3⟩ := ih (acc * d.nPartitions % 2 ^ 64)
    refine ⟨n, by rw [UniformGrid.cardIn, this, P.ok_bind, h1], ?_, fun _ => h3 (Nat.mod_lt _ (by norm_num))⟩
    rw [h2, List.map_cons, List.prod_cons, ← Nat.mul_assoc, Nat.mod_mul_mod]

theorem cardIn_debug (ds : List (Equipartition K)) : ∀ acc n, acc < 2 ^ 64 → UniformGrid.cardIn .debug ds acc = .ok n →
    n = acc * (ds.map Equipartition.nPartitions).prod ∧ n < 2 ^ 64 := by
  induction ds with
  | nil => rintro acc n ha h; cases h; simpa using ha
  | cons d ds ih =>
    intro acc n ha h
    rw [UniformGrid.cardIn] at h
    obtain ⟨m, hm, h⟩ := P.bind_eq_ok.1 h
    unfold usizeIn at hm
    split at hm
    · cases hm
      rw [List.map_cons, List.prod_cons, ← Nat.mul_assoc]
      exact ih _ _ (by assumption) h
    · cases hm

/-- With more cells a debug build panics when the grid is built, and a release build takes the number of features
modulo `2^64`. -/
theorem C155_grid_overflow (ds : List (Equipartition K)) (hn : 2 ^ 64 ≤ (ds.map Equipartition.nPartitions).prod) :
    Panics (UniformGrid.newIn .debug ds) ∧ ∃ g, UniformGrid.newIn .release ds = .ok g ∧
      g.nFeatures = (ds.map Equipartition.nPartitions).prod % 2 ^ 64 := by
  constructor
  · unfold UniformGrid.newIn
    rcases h : UniformGrid.cardIn .debug ds 1 with q | n
    · exact ⟨q, rfl⟩
    · have := cardIn_debug ds 1 n (by norm_num) h
      omega
  · obtain ⟨n, h1, h2, h3⟩ := cardIn_release ds 1
    refine ⟨⟨n, ds⟩, by unfold UniformGrid.newIn; rw [h1]; rfl, ?_⟩
    have := h3 (by norm_num)
    rw [Nat.one_mul] at h2
    show n = _
    omega

end

/-! ## Cases -/

/-- Three tilings, one coordinate that is infinite: the debug build panics, the release build does not. -/
theorem C155_infinite_input {H : Type} [BuildHasher H] (h : H) :
    Panics (Basis.project (⟨h, 3, 16⟩ : TileCoding H) [XReal.pinf] : P (Result (Features XReal))) ∧
    ∃ φ : Features XReal, TileCoding.projectIn .release (⟨h, 3, 16⟩ : TileCoding H) [XReal.pinf] = .ok (.ok φ) := by
  refine ⟨?_, _, C155_tile_release _ _ (by norm_num) (by norm_num)⟩
  refine (C30_panics floorInRange_xreal _ _ (by simp)).2 ⟨by norm_num, .inr (.inr ⟨0, isizeMax, ?_, .inr ?_⟩)⟩
  · show some (XReal.floorIsize (XReal.mul XReal.pinf (XReal.fin ((3 : Nat) : ℝ)))) = _
    simp [XReal.mul, XReal.infSign, XReal.floorIsize]
  · norm_num

end Lfa

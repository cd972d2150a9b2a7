import Verif.Model.Lfa

/-!
# Maps between scalars

`ScalarHom h D`: `h` commutes with every operation, with division only when the divisor satisfies
`D`. Then it commutes with the functions of the crate.
-/

set_option linter.unusedSectionVars false

namespace Lfa

/-- `h` commutes with the operations; `D` holds of the divisors that are harmless. -/
structure ScalarHom {K K' : Type} [ScalarInf K] [ScalarInf K'] (h : K → K') (D : K → Prop) :
    Prop where
  add : ∀ a b : K, h (a +. b) = h a +. h b
  sub : ∀ a b : K, h (a -. b) = h a -. h b
  mul : ∀ a b : K, h (a *. b) = h a *. h b
  div : ∀ a b : K, D b → h (a /. b) = h a /. h b
  sq_div : ∀ a b : K, h ((a /. b) *. (a /. b)) = (h a /. h b) *. (h a /. h b)
  neg : ∀ a : K, h (Scalar.neg a) = Scalar.neg (h a)
  abs : ∀ a : K, h (Scalar.abs a) = Scalar.abs (h a)
  sqrt : ∀ a : K, h (Scalar.sqrt a) = Scalar.sqrt (h a)
  exp : ∀ a : K, h (Scalar.exp a) = Scalar.exp (h a)
  cos : ∀ a : K, h (Scalar.cos a) = Scalar.cos (h a)
  ln1p : ∀ a : K, h (Scalar.ln1p a) = Scalar.ln1p (h a)
  lt : ∀ a b : K, Scalar.lt (h a) (h b) = Scalar.lt a b
  beq : ∀ a b : K, Scalar.beq (h a) (h b) = Scalar.beq a b
  max : ∀ a b : K, h (Scalar.max a b) = Scalar.max (h a) (h b)
  powi : ∀ (a : K) (n : Nat), h (Scalar.powi a n) = Scalar.powi (h a) n
  ofNat : ∀ n : Nat, h (Scalar.ofNat n) = Scalar.ofNat n
  sci : ∀ m e : Nat, h (Scalar.sci m e) = Scalar.sci m e
  pi : h Scalar.pi = Scalar.pi
  floorIsize : ∀ a : K, Scalar.floorIsize (h a) = Scalar.floorIsize a
  dot : ∀ xs ys : List K, h (Scalar.dot xs ys) = Scalar.dot (xs.map h) (ys.map h)
  sum : ∀ xs : List K, h (Scalar.sum xs) = Scalar.sum (xs.map h)
  negInf : h ScalarInf.negInf = ScalarInf.negInf
  d_add_left : ∀ a b : K, D a → D (a +. b)
  d_add_right : ∀ a b : K, D b → D (a +. b)
  d_sub : ∀ a b : K, D a → D (a -. b)
  d_abs : ∀ a : K, D (Scalar.abs a)
  d_sqrt : ∀ a : K, D a → D (Scalar.sqrt a)
  d_max : ∀ a b : K, D a → D b → D (Scalar.max a b)
  d_ofNat : ∀ n : Nat, D (Scalar.ofNat n)
  d_sci : ∀ m e : Nat, D (Scalar.sci m e)
  d_negInf : D ScalarInf.negInf

/-! ## Panics, arrays and maps -/

section Lists
variable {α β γ δ σ τ : Type}

theorem Except.map_bind' {ε : Type} (x : Except ε α) (f : α → Except ε β) (g : β → γ) :
    Except.map g (x >>= f) = x >>= fun a => Except.map g (f a) := by cases x <;> rfl

theorem Except.bind_map' {ε : Type} (x : Except ε α) (f : α → β) (g : β → Except ε γ) :
    (Except.map f x >>= g) = x >>= fun a => g (f a) := by cases x <;> rfl

theorem idx_map (f : α → β) (xs : List α) (i : Nat) : idx (xs.map f) i = (idx xs i).map f := by
  unfold idx
  rw [List.getElem?_map]
  cases xs[i]? <;> rfl

theorem setIdx_map (f : α → β) (xs : List α) (i : Nat) (v : α) :
    setIdx (xs.map f) i (f v) = (setIdx xs i v).map (List.map f) := by
  unfold setIdx
  rw [List.length_map]
  split_ifs
  · simp only [Except.map, List.map_set]
  · rfl

theorem modIdx_map (f : α → β) {u : α → α} {u' : β → β} (hu : ∀ a, f (u a) = u' (f a))
    (xs : List α) (i : Nat) : modIdx (xs.map f) i u' = (modIdx xs i u).map (List.map f) := by
  unfold modIdx
  rw [idx_map, Except.bind_map', Except.map_bind']
  congr 1
  funext a
  rw [← hu, setIdx_map]

theorem broadcast_map (f : α → β) (ys : List α) (n : Nat) :
    broadcast (ys.map f) n = (broadcast ys n).map (List.map f) := by
  unfold broadcast
  rw [List.length_map]
  split_ifs
  · rfl
  · match ys with
    | [] => rfl
    | [y] => simp only [List.map_cons, List.map_nil, Except.map, List.map_replicate]
    | _ :: _ :: _ => rfl

theorem zipMutWith_map (f : α → β) (g : γ → δ) {u : α → γ → α} {u' : β → δ → β}
    (hu : ∀ a c, f (u a c) = u' (f a) (g c)) (xs : List α) (ys : List γ) :
    zipMutWith (xs.map f) (ys.map g) u' = (zipMutWith xs ys u).map (List.map f) := by
  unfold zipMutWith
  rw [List.length_map, broadcast_map, Except.bind_map', Except.map_bind']
  congr 1
  funext a
  simp only [Except.map, List.map_zipWith, List.zipWith_map, hu]

theorem foldlM_map' {ε : Type} (hs : σ → τ) (he : α → β) {f : σ → α → Except ε σ}
    {f' : τ → β → Except ε τ} (hf : ∀ s a, f' (hs s) (he a) = (f s a).map hs) (l : List α) (s : σ) :
    (l.map he).foldlM f' (hs s) = (l.foldlM f s).map hs := by
  induction l generalizing s with
  | nil => rfl
  | cons a l ih =>
    rw [List.map_cons, List.foldlM_cons, List.foldlM_cons, hf, Except.bind_map', Except.map_bind']
    congr 1
    funext t
    exact ih t

theorem mapM_map' {ε : Type} (he : α → β) (ho : γ → δ) {f : α → Except ε γ} {f' : β → Except ε δ}
    (hf : ∀ a, f' (he a) = (f a).map ho) (l : List α) :
    (l.map he).mapM f' = (l.mapM f).map (List.map ho) := by
  induction l with
  | nil => rfl
  | cons a l ih =>
    rw [List.map_cons, List.mapM_cons, List.mapM_cons, hf, ih]
    cases f a with
    | error e => rfl
    | ok c =>
      cases l.mapM f <;> rfl

/-- A map over the values of a hash map. -/
def HMap.vmap (f : α → β) (m : HMap α) : HMap β := m.map fun e => (e.1, f e.2)

theorem HMap.get?_vmap (f : α → β) (m : HMap α) (k : Nat) :
    HMap.get? (HMap.vmap f m) k = (HMap.get? m k).map f := by
  induction m with
  | nil => rfl
  | cons e m ih =>
    show (if k = e.1 then some (f e.2) else HMap.get? (HMap.vmap f m) k) = Option.map f (if k = e.1 then _ else _)
    split_ifs
    · rfl
    · exact ih

theorem HMap.contains_vmap (f : α → β) (m : HMap α) (k : Nat) :
    HMap.contains (HMap.vmap f m) k = HMap.contains m k := by
  unfold HMap.contains
  rw [HMap.get?_vmap, Option.isSome_map]

theorem HMap.insert_vmap (f : α → β) (m : HMap α) (k : Nat) (v : α) :
    HMap.insert (HMap.vmap f m) k (f v) = HMap.vmap f (HMap.insert m k v) := by
  induction m with
  | nil => rfl
  | cons e m ih =>
    show (if k = e.1 then _ else (e.1, f e.2) :: HMap.insert (HMap.vmap f m) k (f v)) =
      HMap.vmap f (if k = e.1 then _ else _)
    split_ifs
    · rfl
    · rw [ih]; rfl

theorem HMap.orInsert_vmap (f : α → β) (m : HMap α) (k : Nat) (v : α) :
    HMap.orInsert (HMap.vmap f m) k (f v) = HMap.vmap f (HMap.orInsert m k v) := by
  unfold HMap.orInsert
  rw [HMap.contains_vmap]
  split_ifs
  · rfl
  · exact HMap.insert_vmap f m k v

theorem HMap.foldl_insert_vmap (f : α → β) (g : Nat → Nat) (es : List (Nat × α)) (m : HMap α) :
    (HMap.vmap f es).foldl (fun m e => HMap.insert m (g e.1) e.2) (HMap.vmap f m) =
      HMap.vmap f (es.foldl (fun m e => HMap.insert m (g e.1) e.2) m) := by
  induction es generalizing m with
  | nil => rfl
  | cons e es ih =>
    show List.foldl _ (HMap.insert (HMap.vmap f m) (g e.1) (f e.2)) (HMap.vmap f es) = _
    rw [HMap.insert_vmap]
    exact ih _

theorem HMap.collect_vmap (f : α → β) (es : List (Nat × α)) :
    HMap.collect (HMap.vmap f es) = HMap.vmap f (HMap.collect es) :=
  HMap.foldl_insert_vmap f id es []

theorem HMap.vmap_snd (f : α → β) (m : HMap α) :
    (HMap.vmap f m).map Prod.snd = (m.map Prod.snd).map f := by
  unfold HMap.vmap
  rw [List.map_map, List.map_map]; rfl

theorem HMap.vmap_fst (f : α → β) (m : HMap α) : (HMap.vmap f m).map Prod.fst = m.map Prod.fst := by
  unfold HMap.vmap
  rw [List.map_map]; rfl

theorem foldl_map_hom (hs : σ → τ) (he : α → β) {f : σ → α → σ} {f' : τ → β → τ}
    (hf : ∀ s a, hs (f s a) = f' (hs s) (he a)) (l : List α) (s : σ) :
    (l.map he).foldl f' (hs s) = hs (l.foldl f s) := by
  induction l generalizing s with
  | nil => rfl
  | cons a l ih => rw [List.map_cons, List.foldl_cons, List.foldl_cons, ← hf, ih]

end Lists

/-- The image of features. -/
def Features.hmap {K K' : Type} (h : K → K') : Features K → Features K'
  | .dense da => .dense (da.map h)
  | .sparse sa => .sparse { dim := sa.dim, activations := HMap.vmap h sa.activations }

namespace ScalarHom

variable {K K' : Type} [ScalarInf K] [ScalarInf K'] {h : K → K'} {D : K → Prop}

section
variable (H : ScalarHom h D)
include H

theorem zero : h Scalar.zero = Scalar.zero := H.ofNat 0
theorem one : h Scalar.one = Scalar.one := H.ofNat 1
theorem d_zero : D Scalar.zero := H.d_ofNat 0

/-! ## Features -/

theorem nActive (φ : Features K) : (φ.hmap h).nActive = φ.nActive := by
  cases φ with
  | dense da =>
    show ((da.map h).filter _).length = (da.filter _).length
    rw [List.filter_map, List.length_map]
    congr 2
    funext v
    show Scalar.lt (Scalar.sci 1 7) (Scalar.abs (h v)) = _
    rw [← H.sci, ← H.abs, H.lt]
  | sparse sa => exact List.length_map _

theorem scatterSet {g : K → K} {g' : K' → K'} (hg : ∀ a, h (g a) = g' (h a)) (es : List (Nat × K))
    (phi : List K) : Features.scatterSet g' (HMap.vmap h es) (phi.map h) =
      (Features.scatterSet g es phi).map (List.map h) := by
  refine foldlM_map' (List.map h) (fun e : Nat × K => (e.1, h e.2)) (fun s e => ?_) es phi
  show setIdx (s.map h) e.1 (g' (h e.2)) = _
  rw [← hg, setIdx_map]

theorem scatterMod {g : K → K → K} {g' : K' → K' → K'} (hg : ∀ a b, h (g a b) = g' (h a) (h b))
    (es : List (Nat × K)) (w : List K) : Features.scatterMod g' (HMap.vmap h es) (w.map h) =
      (Features.scatterMod g es w).map (List.map h) := by
  refine foldlM_map' (List.map h) (fun e : Nat × K => (e.1, h e.2)) (fun s e => ?_) es w
  exact modIdx_map h (fun a => hg a e.2) s e.1

theorem toDense (φ : Features K) : (φ.hmap h).toDense = φ.toDense.map (List.map h) := by
  cases φ with
  | dense da => rfl
  | sparse sa =>
    show Features.scatterSet id _ (List.replicate _ _) = _
    rw [← H.zero, ← List.map_replicate]
    exact H.scatterSet (fun _ => rfl) _ _

theorem intoDense (φ : Features K) : (φ.hmap h).intoDense = φ.intoDense.map (List.map h) :=
  H.toDense φ

theorem stack (φ ψ : Features K) :
    (φ.hmap h).stack (ψ.hmap h) = (φ.stack ψ).map (Features.hmap h) := by
  have key : ((φ.hmap h).intoDense >>= fun a => (ψ.hmap h).intoDense >>= fun b =>
      (.ok (.dense (a ++ b)) : P (Features K'))) =
      Except.map (Features.hmap h) (φ.intoDense >>= fun a => ψ.intoDense >>= fun b =>
        .ok (.dense (a ++ b))) := by
    rw [H.intoDense, H.intoDense, Except.bind_map', Except.map_bind']
    congr 1
    funext a
    rw [Except.bind_map', Except.map_bind']
    congr 1
    funext b
    simp only [Except.map, Features.hmap, List.map_append]
  cases φ with
  | dense da => exact key
  | sparse sa =>
    cases ψ with
    | dense db => exact key
    | sparse sb =>
      show (.ok (.sparse ⟨_, _⟩) : P (Features K')) = .ok (.sparse ⟨_, _⟩)
      exact congrArg (fun m => (Except.ok (Features.sparse ⟨sa.dim + sb.dim, m⟩) : P (Features K')))
        (HMap.foldl_insert_vmap h (· + sa.dim) sb.activations sa.activations)

theorem sparsityPreserving {f : K → K} {f' : K' → K'} (hf : ∀ a, h (f a) = f' (h a)) :
    Features.sparsityPreserving f' = Features.sparsityPreserving f := by
  unfold Features.sparsityPreserving
  rw [← H.zero, ← hf, ← H.sci, ← H.abs, H.lt]

theorem mapInto {f : K → K} {f' : K' → K'} (hf : ∀ a, h (f a) = f' (h a)) (φ : Features K) :
    (φ.hmap h).mapInto f' = (φ.mapInto f).map (Features.hmap h) := by
  cases φ with
  | dense da =>
    simp only [Features.hmap, Features.mapInto, Except.map, List.map_map]
    congr 3
    funext a
    exact (hf a).symm
  | sparse sa =>
    show (if Features.sparsityPreserving f' then _ else _) = Except.map _ (if Features.sparsityPreserving f then _ else _)
    rw [H.sparsityPreserving hf]
    split_ifs
    · have : (HMap.vmap h sa.activations).map (fun e => (e.1, f' e.2)) =
          HMap.vmap h (sa.activations.map fun e => (e.1, f e.2)) := by
        unfold HMap.vmap
        rw [List.map_map, List.map_map]
        refine List.map_congr_left fun e _ => ?_
        show (e.1, f' (h e.2)) = (e.1, h (f e.2))
        rw [hf]
      show (.ok (.sparse ⟨sa.dim, HMap.collect ((HMap.vmap h sa.activations).map _)⟩) : P (Features K')) = _
      rw [this, HMap.collect_vmap]
      rfl
    · show (Features.scatterSet f' (HMap.vmap h sa.activations) (List.replicate sa.dim (f' Scalar.zero)) >>= _) = _
      rw [← H.zero, ← hf, ← List.map_replicate, H.scatterSet hf, Except.bind_map', Except.map_bind']
      rfl

theorem map {f : K → K} {f' : K' → K'} (hf : ∀ a, h (f a) = f' (h a)) (φ : Features K) :
    (φ.hmap h).map f' = (φ.map f).map (Features.hmap h) := H.mapInto hf φ

theorem mergeSparse {f : K → K → K} {f' : K' → K' → K'} (hf : ∀ a b, h (f a b) = f' (h a) (h b))
    (sa sb : SparseActivations K) :
    Features.mergeSparse ⟨sa.dim, HMap.vmap h sa.activations⟩ ⟨sb.dim, HMap.vmap h sb.activations⟩ f' =
      ⟨(Features.mergeSparse sa sb f).dim, HMap.vmap h (Features.mergeSparse sa sb f).activations⟩ := by
  unfold Features.mergeSparse
  refine congrArg (SparseActivations.mk (Max.max sa.dim sb.dim)) ?_
  show (HMap.vmap h sb.activations).foldl (fun m e => HMap.orInsert m e.1 (f' Scalar.zero e.2))
    (List.map _ (HMap.vmap h sa.activations)) = _
  have h1 : (HMap.vmap h sa.activations).map (fun e =>
      (e.1, f' e.2 ((HMap.get? (HMap.vmap h sb.activations) e.1).getD Scalar.zero))) =
      HMap.vmap h (sa.activations.map fun e =>
        (e.1, f e.2 ((HMap.get? sb.activations e.1).getD Scalar.zero))) := by
    unfold HMap.vmap
    rw [List.map_map, List.map_map]
    refine List.map_congr_left fun e _ => ?_
    show (e.1, f' (h e.2) ((HMap.get? (HMap.vmap h sb.activations) e.1).getD Scalar.zero)) =
      (e.1, h (f e.2 _))
    rw [HMap.get?_vmap, hf]
    cases HMap.get? sb.activations e.1 with
    | none => show (_, f' _ Scalar.zero) = (_, f' _ (h Scalar.zero)); rw [H.zero]
    | some v => rfl
  rw [h1]
  refine foldl_map_hom (HMap.vmap h) (fun e : Nat × K => (e.1, h e.2)) (fun s e => ?_)
    sb.activations _
  show HMap.vmap h (HMap.orInsert s e.1 (f Scalar.zero e.2)) = HMap.orInsert _ e.1 (f' Scalar.zero (h e.2))
  rw [← H.zero, ← hf, HMap.orInsert_vmap]

theorem merge {f : K → K → K} {f' : K' → K' → K'} (hf : ∀ a b, h (f a b) = f' (h a) (h b))
    (φ ψ : Features K) :
    (φ.hmap h).merge (ψ.hmap h) f' = (φ.merge ψ f).map (Features.hmap h) := by
  cases φ with
  | dense da =>
    cases ψ with
    | dense db =>
      show (zipMutWith (da.map h) (db.map h) f' >>= _) = Except.map _ (zipMutWith da db f >>= _)
      rw [zipMutWith_map h h hf, Except.bind_map', Except.map_bind']
      rfl
    | sparse sb =>
      show (Features.scatterMod f' (HMap.vmap h sb.activations) (da.map h) >>= _) =
        Except.map _ (Features.scatterMod f sb.activations da >>= _)
      rw [H.scatterMod hf, Except.bind_map', Except.map_bind']
      rfl
  | sparse sa =>
    cases ψ with
    | dense db =>
      show ((List.range (Max.max sa.dim (db.map h).length)).mapM _ >>= _) =
        Except.map _ ((List.range (Max.max sa.dim db.length)).mapM _ >>= _)
      rw [List.length_map]
      have := mapM_map' (id : Nat → Nat) h
        (f := fun i => do
          let y ← idx db i
          .ok (f ((HMap.get? sa.activations i).getD Scalar.zero) y))
        (f' := fun i => do
          let y ← idx (db.map h) i
          .ok (f' ((HMap.get? (HMap.vmap h sa.activations) i).getD Scalar.zero) y))
        (fun i => by
          show (idx (db.map h) i >>= _) = Except.map h (idx db i >>= _)
          rw [idx_map, Except.bind_map', Except.map_bind']
          congr 1
          funext y
          show Except.ok _ = Except.ok _
          rw [hf, HMap.get?_vmap]
          show Except.ok (f' ((Option.map h (HMap.get? sa.activations i)).getD Scalar.zero) (h y)) = _
          cases HMap.get? sa.activations i with
          | none => show Except.ok (f' Scalar.zero _) = Except.ok (f' (h Scalar.zero) _); rw [H.zero]
          | some v => rfl) (List.range (Max.max sa.dim db.length))
      rw [List.map_id] at this
      rw [this, Except.bind_map', Except.map_bind']
      rfl
    | sparse sb =>
      show (.ok (.sparse _) : P (Features K')) = .ok (.sparse _)
      rw [H.mergeSparse hf]

theorem fold {f : K → K → K} {f' : K' → K' → K'} (hf : ∀ a b, h (f a b) = f' (h a) (h b))
    (φ : Features K) (z : K) : (φ.hmap h).fold (h z) f' = h (φ.fold z f) := by
  cases φ with
  | dense da => exact foldl_map_hom h h hf da z
  | sparse sa =>
    show ((HMap.vmap h sa.activations).map Prod.snd).foldl f' (h z) = _
    rw [HMap.vmap_snd]
    exact foldl_map_hom h h hf _ z

theorem arrayDot (xs ys : List K) : arrayDot (xs.map h) (ys.map h) = (arrayDot xs ys).map h := by
  unfold Lfa.arrayDot
  rw [List.length_map, List.length_map]
  split_ifs
  · rw [← H.dot]; rfl
  · rfl

theorem dotSparse (sa : SparseActivations K) (w : List K) :
    Features.dotSparse ⟨sa.dim, HMap.vmap h sa.activations⟩ (w.map h) =
      (Features.dotSparse sa w).map h := by
  unfold Features.dotSparse
  rw [← H.zero]
  refine foldlM_map' h (fun e : Nat × K => (e.1, h e.2)) (fun s e => ?_) sa.activations _
  show (idx (w.map h) e.1 >>= _) = Except.map h (idx w e.1 >>= _)
  rw [idx_map, Except.bind_map', Except.map_bind']
  congr 1
  funext a
  show Except.ok _ = Except.ok _
  rw [H.add, H.mul]

theorem fdot (φ : Features K) (w : List K) : (φ.hmap h).dot (w.map h) = (φ.dot w).map h := by
  cases φ with
  | dense da => exact H.arrayDot da w
  | sparse sa => exact H.dotSparse sa w

theorem stridedDot (xs ys : List K) :
    Features.stridedDot (xs.map h) (ys.map h) = (Features.stridedDot xs ys).map h := by
  unfold Features.stridedDot
  rw [List.length_map, List.length_map]
  split_ifs
  · show Except.ok _ = Except.ok _
    congr 1
    have hz : List.zipWith (fun x y => x *. y) (xs.map h) (ys.map h) =
        (List.zipWith (fun x y => x *. y) xs ys).map h := by
      rw [List.zipWith_map, List.map_zipWith]
      congr 1
      funext x y
      exact (H.mul x y).symm
    rw [hz, List.foldl_map, ← H.zero]
    generalize (Scalar.zero : K) = a
    induction List.zipWith (fun x y => x *. y) xs ys generalizing a with
    | nil => rfl
    | cons b bs ih =>
      rw [List.foldl_cons, List.foldl_cons, ← H.add]
      exact ih _
  · rfl

theorem dotColumn (m : Nat) (φ : Features K) (w : List K) :
    (φ.hmap h).dotColumn m (w.map h) = (φ.dotColumn m w).map h := by
  cases φ with
  | dense da =>
    show (if m = 1 ∨ (w.map h).length ≤ 1 then Lfa.arrayDot (da.map h) (w.map h) else
      Features.stridedDot (da.map h) (w.map h)) = Except.map h (if m = 1 ∨ w.length ≤ 1 then _ else _)
    rw [List.length_map]
    split_ifs
    · exact H.arrayDot da w
    · exact H.stridedDot da w
  | sparse sa => exact H.dotSparse sa w

theorem matmul (φ : Features K) (ws : List (List K)) :
    (φ.hmap h).matmul (ws.map (List.map h)) = (φ.matmul ws).map (List.map h) := by
  unfold Features.matmul
  rw [List.length_map]
  exact mapM_map' (List.map h) h (fun w => H.dotColumn _ φ w) ws

theorem fsum (φ : Features K) : (φ.hmap h).sum = h φ.sum := by
  cases φ with
  | dense da => exact (H.sum da).symm
  | sparse sa =>
    show ((HMap.vmap h sa.activations).map Prod.snd).foldl _ _ = _
    rw [HMap.vmap_snd, ← H.zero]
    exact foldl_map_hom h h H.add _ _

theorem addto (φ : Features K) (w : List K) :
    (φ.hmap h).addto (w.map h) = (φ.addto w).map (List.map h) := by
  cases φ with
  | dense da => exact zipMutWith_map h h H.add w da
  | sparse sa => exact H.scatterMod H.add sa.activations w

theorem scaledAddto (φ : Features K) (a : K) (w : List K) :
    (φ.hmap h).scaledAddto (h a) (w.map h) = (φ.scaledAddto a w).map (List.map h) := by
  have e : ∀ x y, h (x +. a *. y) = h x +. h a *. h y := fun x y => by rw [H.add, H.mul]
  cases φ with
  | dense da => exact zipMutWith_map h h (u := fun w x => w +. a *. x) (u' := fun w x => w +. h a *. x) e w da
  | sparse sa => exact H.scatterMod (g := fun w x => w +. a *. x) (g' := fun w x => w +. h a *. x) e sa.activations w

theorem dotFeatures (φ ψ : Features K) :
    (φ.hmap h).dotFeatures (ψ.hmap h) = (φ.dotFeatures ψ).map h := by
  cases φ with
  | dense da =>
    cases ψ with
    | dense db => exact H.arrayDot da db
    | sparse sb => exact H.dotSparse sb da
  | sparse sa =>
    cases ψ with
    | dense db => exact H.dotSparse sa db
    | sparse sb =>
      show Except.ok (Scalar.ofNat (List.foldl _ _ ((HMap.vmap h sa.activations).map Prod.fst))) =
        Except.ok (h (Scalar.ofNat _))
      rw [HMap.vmap_fst, H.ofNat]
      simp only [HMap.contains_vmap]

theorem values (φ : Features K) : (φ.hmap h).values = φ.values.map h := by
  cases φ with
  | dense da => rfl
  | sparse sa => exact HMap.vmap_snd h _

end

end ScalarHom

end Lfa

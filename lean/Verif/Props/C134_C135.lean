import Verif.Proofs.Serde
import Verif.Spec.Features
import Verif.Props.C23_C29

/-!
# C134–C135: saving and restoring

For every scalar type: no arithmetic is involved.
-/

set_option linter.unusedSectionVars false

namespace Lfa

open Spec Codec

variable {K : Type}

/-! ## C134 What is saved is restored -/

/-- `Reform` keeps the variant. -/
theorem reform_variant {name : String} {t u : Tree K} (h : Reform (.variant name t) u) :
    ∃ t', u = .variant name t' ∧ Reform t t' := by
  cases h with
  | refl => exact ⟨t, rfl, .refl t⟩
  | variant _ _ t' h => exact ⟨t', rfl, h⟩

theorem sparse_restores : Restores (sparse : Codec K (SparseActivations K)) fun s => s.activations.NodupKeys :=
  fun x t hx h => struct_restores (by decide) (cons_restores nat_restores (cons_restores hmap_restores nil_restores))
    (fun _ => rfl) (fun _ => rfl) x t ⟨trivial, hx, trivial⟩ h

/-- Features whose map has unique keys, as every `HashMap` does. -/
theorem C134_features : Restores (features : Codec K (Features K)) fun φ =>
    match φ with | .dense _ => True | .sparse sa => sa.activations.NodupKeys := by
  intro φ t hφ h
  cases φ with
  | dense da =>
    obtain ⟨t', rfl, h'⟩ := reform_variant h
    exact deMap_restores (list_restores' float_restores) Features.dense da t' trivial h'
  | sparse sa =>
    obtain ⟨t', rfl, h'⟩ := reform_variant h
    exact deMap_restores sparse_restores Features.sparse sa t' hφ h'

theorem errorKind_restores : Restores (errorKind : Codec K ErrorKind) fun _ => True := by
  intro x t _ h
  cases x <;> (cases h; rfl)

/-- Errors. -/
theorem C134_error : Restores (error : Codec K Error) fun _ => True :=
  fun x t _ h => struct_restores (by decide)
    (cons_restores errorKind_restores (cons_restores string_restores nil_restores)) (fun _ => rfl) (fun _ => rfl)
    x t ⟨trivial, trivial, trivial⟩ h

/-- The optimisers of the crate. -/
inductive SavedOptimiser : {O : Type} → Codec K O → Prop
  | sgd : SavedOptimiser Codec.sgd
  | isgd : SavedOptimiser Codec.isgd
  | momentum : SavedOptimiser Codec.momentum
  | nag : SavedOptimiser Codec.nag
  | adagrad : SavedOptimiser Codec.adagrad
  | adam : SavedOptimiser Codec.adam
  | adamax : SavedOptimiser Codec.adamax

/-- Every optimiser in every state is restored, with its accumulated state. -/
theorem C134_optimiser {O : Type} {c : Codec K O} (h : SavedOptimiser c) : Restores c fun _ => True := by
  have hl := list_restores' (float_restores (K := K))
  cases h with
  | sgd => exact via_restores float_restores fun _ => rfl
  | isgd => exact via_restores float_restores fun _ => rfl
  | momentum =>
    exact fun x t _ h => struct_restores (by decide) (cons_restores float_restores
      (cons_restores float_restores (cons_restores hl nil_restores))) (fun _ => rfl) (fun _ => rfl)
      x t ⟨trivial, trivial, trivial, trivial⟩ h
  | nag =>
    exact fun x t _ h => struct_restores (by decide) (cons_restores float_restores
      (cons_restores float_restores (cons_restores hl nil_restores))) (fun _ => rfl) (fun _ => rfl)
      x t ⟨trivial, trivial, trivial, trivial⟩ h
  | adagrad =>
    exact fun x t _ h => struct_restores (by decide) (cons_restores float_restores
      (cons_restores hl nil_restores)) (fun _ => rfl) (fun _ => rfl) x t ⟨trivial, trivial, trivial⟩ h
  | adam =>
    exact fun x t _ h => struct_restores (by decide) (cons_restores float_restores (cons_restores float_restores
      (cons_restores float_restores (cons_restores float_restores (cons_restores float_restores
      (cons_restores hl (cons_restores hl nil_restores))))))) (fun _ => rfl) (fun _ => rfl)
      x t ⟨trivial, trivial, trivial, trivial, trivial, trivial, trivial, trivial⟩ h
  | adamax =>
    exact fun x t _ h => struct_restores (by decide) (cons_restores float_restores (cons_restores float_restores
      (cons_restores float_restores (cons_restores float_restores
      (cons_restores hl (cons_restores hl nil_restores)))))) (fun _ => rfl) (fun _ => rfl)
      x t ⟨trivial, trivial, trivial, trivial, trivial, trivial, trivial⟩ h

/-- The kernels of the crate. -/
inductive SavedKernel : {κ : Type} → Codec K κ → Prop
  | stationary {kind : StationaryKind} : SavedKernel (Codec.stationary (kind := kind))
  | rationalQuadratic : SavedKernel Codec.rationalQuadratic

theorem kernel_restores {κ : Type} {c : Codec K κ} (h : SavedKernel c) : Restores c fun _ => True := by
  have hl := list_restores' (float_restores (K := K))
  cases h with
  | stationary =>
    exact fun x t _ h => struct_restores (by decide) (cons_restores float_restores
      (cons_restores hl nil_restores)) (fun _ => rfl) (fun _ => rfl) x t ⟨trivial, trivial, trivial⟩ h
  | rationalQuadratic =>
    exact fun x t _ h => struct_restores (by decide) (cons_restores float_restores (cons_restores hl
      (cons_restores float_restores nil_restores))) (fun _ => rfl) (fun _ => rfl)
      x t ⟨trivial, trivial, trivial, trivial⟩ h

section
variable [Scalar K]

/-- The bases of the crate, nested in any way, and the condition under which they are restored: a Chebyshev
basis must be as `Chebyshev::new` leaves it. Hashers and partitions are restored as their own crates do. -/
inductive SavedBasis : {B : Type} → Codec K B → (B → Prop) → Prop
  | bias : SavedBasis Codec.bias fun _ => True
  | fixedDense : SavedBasis Codec.fixedDense fun _ => True
  | fixedSparse : SavedBasis Codec.fixedSparse fun b => b.active.Nodup
  | polynomial : SavedBasis Codec.polynomial fun _ => True
  | chebyshev : SavedBasis Codec.chebyshev fun c => ∃ n l, Chebyshev.new n l = .ok c
  | fourier : SavedBasis Codec.fourier fun _ => True
  | kernels {κ : Type} {c : Codec K κ} : SavedKernel c → SavedBasis (Codec.kernelBasis c) fun _ => True
  | tileCoding {H : Type} {c : Codec K H} {I : H → Prop} :
      Restores c I → SavedBasis (Codec.tileCoding c) fun b => I b.hasherBuilder
  | uniformGrid {c : Codec K (Equipartition K)} {I : Equipartition K → Prop} :
      Restores c I → SavedBasis (Codec.uniformGrid c) fun b => ∀ d ∈ b.featureSpace, I d
  | stack {B₁ B₂ : Type} {c₁ : Codec K B₁} {c₂ : Codec K B₂} {I₁ : B₁ → Prop} {I₂ : B₂ → Prop} :
      SavedBasis c₁ I₁ → SavedBasis c₂ I₂ → SavedBasis (Codec.stack c₁ c₂) fun b => I₁ b.b₁ ∧ I₂ b.b₂
  | l0 {B : Type} {c : Codec K B} {I : B → Prop} : SavedBasis c I → SavedBasis (Codec.l0 c) fun b => I b.inner
  | l1 {B : Type} {c : Codec K B} {I : B → Prop} : SavedBasis c I → SavedBasis (Codec.l1 c) fun b => I b.inner
  | l2 {B : Type} {c : Codec K B} {I : B → Prop} : SavedBasis c I → SavedBasis (Codec.l2 c) fun b => I b.inner
  | linf {B : Type} {c : Codec K B} {I : B → Prop} :
      SavedBasis c I → SavedBasis (Codec.linf c) fun b => I b.inner

theorem chebyshev_restores :
    Restores (chebyshev : Codec K (Chebyshev K)) fun c => ∃ n l, Chebyshev.new n l = .ok c := by
  rintro c t ⟨n, l, hc⟩ h
  obtain ⟨h1, h2⟩ := new_fields hc
  have hs := struct_restores (names := ["order", "limits"]) (by decide)
    (cons_restores nat_restores (cons_restores (list_restores' (pair_restores (K := K))) nil_restores))
    (fun _ => rfl) (split := fun x => x) (join := fun x => x) (fun _ => rfl)
    (c.order, c.limits, ()) t ⟨trivial, trivial, trivial⟩ h
  have hk : knownFields t = true := by
    obtain ⟨us, u1, u2⟩ := reform_fields (names := ["order", "limits"])
      (ts := [.nat c.order, pair.list.ser c.limits]) rfl h
    rcases u2 with rfl | ⟨gs, rfl, hg⟩
    · rfl
    · obtain ⟨u, us, rfl, -, u1⟩ := reforms_cons u1
      obtain ⟨v, us, rfl, -, u1⟩ := reforms_cons u1
      rw [reforms_nil u1] at hg
      simp only [knownFields, List.all_eq_true, decide_eq_true_eq]
      intro e he
      have := hg.mem_iff.1 he
      simp only [List.zip_cons_cons, List.zip_nil_left, List.mem_cons, List.not_mem_nil, or_false] at this
      rcases this with rfl | rfl
      · exact .inl rfl
      · exact .inr rfl
  unfold chebyshev
  simp only
  rw [if_pos hk, hs]
  show (do let c ← Chebyshev.new c.order c.limits; Except.ok (Except.ok c)) = _
  rw [h1, h2, hc]
  rfl

/-- Every nesting of the crate's bases is restored. -/
theorem C134_basis {B : Type} {c : Codec K B} {I : B → Prop} (h : SavedBasis c I) : Restores c I := by
  have hl := list_restores' (float_restores (K := K))
  induction h with
  | bias => exact via_restores float_restores fun _ => rfl
  | fixedDense => exact via_restores hl fun _ => rfl
  | fixedSparse =>
    intro b t hb h
    obtain ⟨us, rfl, h'⟩ := reform_seq (ts := [.nat b.nFeatures, hset.ser b.active]) h
    obtain ⟨u, us, rfl, h1, h'⟩ := reforms_cons h'
    obtain ⟨v, us, rfl, h2, h'⟩ := reforms_cons h'
    rw [reforms_nil h']
    cases h1
    show (do
      match ← hset.de v with
      | .error e => .ok (.error e)
      | .ok a => .ok (.ok ⟨b.nFeatures, a⟩) : P (Except Chebyshev.DeError (FixedSparse K))) = _
    rw [hset_restores b.active v hb h2]
    rfl
  | polynomial =>
    exact fun x t _ h => struct_restores (by decide) (cons_restores nat_restores
      (cons_restores (list_restores' (list_restores' nat_restores)) nil_restores)) (fun _ => rfl) (fun _ => rfl)
      x t ⟨trivial, trivial, trivial⟩ h
  | chebyshev => exact chebyshev_restores
  | fourier =>
    exact fun x t _ h => struct_restores (by decide) (cons_restores nat_restores
      (cons_restores (list_restores' pair_restores) (cons_restores (list_restores' hl) nil_restores)))
      (fun _ => rfl) (fun _ => rfl) x t ⟨trivial, trivial, trivial, trivial⟩ h
  | kernels hk =>
    have hp : Restores (prototype _) fun _ => True := fun x t _ h => struct_restores (by decide)
      (cons_restores hl (cons_restores (kernel_restores hk) nil_restores)) (fun _ => rfl) (fun _ => rfl)
      x t ⟨trivial, trivial, trivial⟩ h
    exact fun x t _ h => struct_restores (by decide) (cons_restores (list_restores' hp) nil_restores)
      (fun _ => rfl) (fun _ => rfl) x t ⟨trivial, trivial⟩ h
  | tileCoding hc =>
    exact fun x t hx h => struct_restores (by decide) (cons_restores hc (cons_restores nat_restores
      (cons_restores nat_restores nil_restores))) (fun _ => rfl) (fun _ => rfl) x t
      ⟨hx, trivial, trivial, trivial⟩ h
  | uniformGrid hc =>
    exact fun x t hx h => struct_restores (by decide) (cons_restores nat_restores
      (cons_restores (list_restores hc) nil_restores)) (fun _ => rfl) (fun _ => rfl) x t ⟨trivial, hx, trivial⟩ h
  | stack _ _ h1 h2 =>
    exact fun x t hx h => struct_restores (by decide) (cons_restores h1 (cons_restores h2 nil_restores))
      (fun _ => rfl) (fun _ => rfl) x t ⟨hx.1, hx.2, trivial⟩ h
  | l0 _ h => exact via_restores h fun _ => rfl
  | l1 _ h => exact via_restores h fun _ => rfl
  | l2 _ h => exact via_restores h fun _ => rfl
  | linf _ h => exact via_restores h fun _ => rfl

/-- A saved scalar approximator is restored in the middle of training: same basis, weights and optimiser
state. -/
theorem C134_scalar {B O : Type} {cb : Codec K B} {I : B → Prop} (hb : SavedBasis cb I) {co : Codec K O}
    (ho : SavedOptimiser co) : Restores (scalarLFA cb co) fun fa => I fa.basis :=
  fun x t hx h => struct_restores (by decide) (cons_restores (C134_basis hb)
    (cons_restores (list_restores' float_restores) (cons_restores (C134_optimiser ho) nil_restores)))
    (fun _ => rfl) (fun _ => rfl) x t ⟨hx, trivial, trivial, trivial⟩ h

/-- A vector approximator. -/
theorem C134_vector {B O : Type} {cb : Codec K B} {I : B → Prop} (hb : SavedBasis cb I) {co : Codec K O}
    (ho : SavedOptimiser co) : Restores (vectorLFA cb co) fun fa => I fa.basis :=
  fun x t hx h => struct_restores (by decide) (cons_restores (C134_basis hb)
    (cons_restores (list_restores' (list_restores' float_restores)) (cons_restores (C134_optimiser ho) nil_restores)))
    (fun _ => rfl) (fun _ => rfl) x t ⟨hx, trivial, trivial, trivial⟩ h

/-- The condition on Chebyshev bases is needed: an approximator over a Chebyshev basis with its constant
feature comes back without the feature but with the weight, and evaluating it panics. -/
theorem C134_zeroth_lost {O : Type} {co : Codec K O} (ho : SavedOptimiser co) (n : Nat) (l : List (K × K))
    (c : Chebyshev K) (hc : Chebyshev.new n l = .ok c) (o : O) (fa : ScalarLFA (Chebyshev K) O K)
    (hfa : ScalarLFA.scalar c.withZeroth o = .ok fa) (t : Tree K)
    (h : Reform ((scalarLFA chebyshev co).ser fa) t) :
    ∃ fa', (scalarLFA chebyshev co).de t = .ok (.ok fa') ∧ fa'.weights.length = fa.weights.length ∧
      nFeatures fa.basis = .ok fa.weights.length ∧ ∀ x : List K, Panics (ScalarLFA.evaluate fa' x) := by
  cases hfa
  -- what is saved does not mention the constant feature
  have hser : (scalarLFA chebyshev co).ser
      (LFA.mk c.withZeroth (List.replicate c.withZeroth.polynomials.length Scalar.zero) o) =
      (scalarLFA chebyshev co).ser
        (LFA.mk c (List.replicate c.withZeroth.polynomials.length Scalar.zero) o) := rfl
  have h' : Reform ((scalarLFA chebyshev co).ser
      (LFA.mk c.withZeroth (List.replicate c.withZeroth.polynomials.length Scalar.zero) o)) t := h
  rw [hser] at h'
  refine ⟨_, C134_scalar .chebyshev ho _ t ⟨n, l, hc⟩ h', rfl, ?_, fun x => ⟨.shapeMismatch, ?_⟩⟩
  · show Except.ok _ = Except.ok _
    rw [List.length_replicate]
  · show (arrayDot (c.polynomials.map _) (List.replicate c.withZeroth.polynomials.length Scalar.zero)).map
      Except.ok = _
    unfold arrayDot
    rw [if_neg]
    · rfl
    rw [List.length_map, List.length_replicate]
    show ¬ _ = (c.polynomials ++ [_]).length
    simp

/-- Concrete saved forms: Momentum in mid-training, with field names and without. -/
example (a b c d : K) : momentum.de (.fields [("velocity", .seq [.num c, .num d]), ("learning_rate", .num b),
      ("momentum", .num a)]) = .ok (.ok ⟨a, b, [c, d]⟩) ∧
    momentum.de (.seq [.num a, .num b, .seq [.num c, .num d]]) = .ok (.ok ⟨a, b, [c, d]⟩) := ⟨rfl, rfl⟩

/-! ## C135 What restoring accepts

Full claim: restoring never panics, and returns only values that the constructors of the crate can produce.
Both are false. -/

/-- Restoring never panics. -/
def Total {T : Type} (c : Codec K T) : Prop := ∀ t, ∃ r, c.de t = .ok r

theorem float_total : Total (float : Codec K K) := by
  intro d
  simp only [float]
  split <;> exact ⟨_, rfl⟩
theorem nat_total : Total (nat : Codec K Nat) := by
  intro d
  simp only [nat]
  split <;> exact ⟨_, rfl⟩
theorem string_total : Total (string : Codec K String) := by
  rintro (_ | _ | _ | _ | _ | _ | _ | _) <;> exact ⟨_, rfl⟩

theorem deList_total {T : Type} {c : Codec K T} (hc : Total c) : ∀ ts, ∃ r, c.deList ts = .ok r
  | [] => ⟨_, rfl⟩
  | t :: ts => by
    obtain ⟨r, hr⟩ := hc t
    obtain ⟨r', hr'⟩ := deList_total hc ts
    unfold deList
    rw [hr, hr']
    rcases r with e | x
    · exact ⟨_, rfl⟩
    · rcases r' with e | xs <;> exact ⟨_, rfl⟩

theorem list_total {T : Type} {c : Codec K T} (hc : Total c) : Total c.list := by
  rintro (_ | _ | _ | ts | _ | _ | _ | _)
  case seq => exact deList_total hc ts
  all_goals exact ⟨_, rfl⟩

theorem pair_total : Total (pair : Codec K (K × K)) := by
  intro t
  unfold pair
  simp only
  split <;> exact ⟨_, rfl⟩

theorem hmap_total : Total (hmap : Codec K (HMap K)) := by
  rintro (_ | _ | _ | _ | _ | es | _ | _)
  case entries =>
    obtain ⟨r, hr⟩ := deList_total float_total (es.map Prod.snd)
    unfold hmap
    simp only
    rw [hr]
    rcases r with e | x <;> exact ⟨_, rfl⟩
  all_goals exact ⟨_, rfl⟩

theorem hset_total : Total (hset : Codec K (List Nat)) := by
  intro t
  obtain ⟨r, hr⟩ := list_total (nat_total (K := K)) t
  unfold hset
  simp only
  rw [hr]
  rcases r with e | x <;> exact ⟨_, rfl⟩

theorem deMap_total {S T : Type} {c : Codec K S} (hc : Total c) (join : S → T) (t : Tree K) :
    ∃ r, c.deMap join t = .ok r := by
  obtain ⟨r, hr⟩ := hc t
  unfold deMap
  rw [hr]
  rcases r with e | x <;> exact ⟨_, rfl⟩

/-- Restoring fields never panics. -/
def FieldsTotal {T : Type} (f : Fields K T) : Prop := ∀ ts, ∃ r, f.de ts = .ok r

theorem nil_total : FieldsTotal (Fields.nil : Fields K Unit) := fun _ => ⟨_, rfl⟩

theorem cons_total {S T : Type} {c : Codec K S} {f : Fields K T} (hc : Total c) (hf : FieldsTotal f) :
    FieldsTotal (Fields.cons c f) := by
  rintro (_ | ⟨t, ts⟩)
  · exact ⟨_, rfl⟩
  · obtain ⟨r, hr⟩ := hc t
    obtain ⟨r', hr'⟩ := hf ts
    unfold Fields.cons
    simp only
    rw [hr, hr']
    rcases r with e | x
    · exact ⟨_, rfl⟩
    · rcases r' with e | xs <;> exact ⟨_, rfl⟩

theorem struct_total {S T : Type} {names : List String} {f : Fields K S} (hf : FieldsTotal f) {split : T → S}
    {join : S → T} : Total (struct names f split join) := by
  intro t
  unfold struct
  simp only
  split
  · exact ⟨_, rfl⟩
  · next ts _ =>
    obtain ⟨r, hr⟩ := hf ts
    rw [hr]
    rcases r with e | x <;> exact ⟨_, rfl⟩

/-- The bases of the crate without Chebyshev bases. -/
inductive DerivedBasis : {B : Type} → Codec K B → Prop
  | bias : DerivedBasis Codec.bias
  | fixedDense : DerivedBasis Codec.fixedDense
  | fixedSparse : DerivedBasis Codec.fixedSparse
  | polynomial : DerivedBasis Codec.polynomial
  | fourier : DerivedBasis Codec.fourier
  | kernels {κ : Type} {c : Codec K κ} : SavedKernel c → DerivedBasis (Codec.kernelBasis c)
  | tileCoding {H : Type} {c : Codec K H} : Total c → DerivedBasis (Codec.tileCoding c)
  | uniformGrid {c : Codec K (Equipartition K)} : Total c → DerivedBasis (Codec.uniformGrid c)
  | stack {B₁ B₂ : Type} {c₁ : Codec K B₁} {c₂ : Codec K B₂} :
      DerivedBasis c₁ → DerivedBasis c₂ → DerivedBasis (Codec.stack c₁ c₂)
  | l0 {B : Type} {c : Codec K B} : DerivedBasis c → DerivedBasis (Codec.l0 c)
  | l1 {B : Type} {c : Codec K B} : DerivedBasis c → DerivedBasis (Codec.l1 c)
  | l2 {B : Type} {c : Codec K B} : DerivedBasis c → DerivedBasis (Codec.l2 c)
  | linf {B : Type} {c : Codec K B} : DerivedBasis c → DerivedBasis (Codec.linf c)

theorem optimiser_total {O : Type} {c : Codec K O} (h : SavedOptimiser c) : Total c := by
  have hf := float_total (K := K)
  have hl := list_total hf
  cases h with
  | sgd => exact deMap_total hf _
  | isgd => exact deMap_total hf _
  | momentum => exact struct_total (cons_total hf (cons_total hf (cons_total hl nil_total)))
  | nag => exact struct_total (cons_total hf (cons_total hf (cons_total hl nil_total)))
  | adagrad => exact struct_total (cons_total hf (cons_total hl nil_total))
  | adam =>
    exact struct_total (cons_total hf (cons_total hf (cons_total hf (cons_total hf (cons_total hf
      (cons_total hl (cons_total hl nil_total)))))))
  | adamax =>
    exact struct_total (cons_total hf (cons_total hf (cons_total hf (cons_total hf
      (cons_total hl (cons_total hl nil_total))))))

theorem basis_total {B : Type} {c : Codec K B} (h : DerivedBasis c) : Total c := by
  have hf := float_total (K := K)
  have hn := nat_total (K := K)
  have hl := list_total hf
  induction h with
  | bias => exact deMap_total hf _
  | fixedDense => exact deMap_total hl _
  | fixedSparse =>
    intro t
    unfold fixedSparse
    simp only
    split
    · next t' =>
      obtain ⟨r, hr⟩ := hset_total t'
      rw [hr]
      rcases r with e | x <;> exact ⟨_, rfl⟩
    · exact ⟨_, rfl⟩
  | polynomial => exact struct_total (cons_total hn (cons_total (list_total (list_total hn)) nil_total))
  | fourier =>
    exact struct_total (cons_total hn (cons_total (list_total pair_total)
      (cons_total (list_total hl) nil_total)))
  | @kernels κ c hk =>
    have : Total c := by
      cases hk with
      | stationary => exact struct_total (cons_total hf (cons_total hl nil_total))
      | rationalQuadratic => exact struct_total (cons_total hf (cons_total hl (cons_total hf nil_total)))
    exact struct_total (cons_total (list_total (struct_total (cons_total hl (cons_total this nil_total))))
      nil_total)
  | tileCoding hc => exact struct_total (cons_total hc (cons_total hn (cons_total hn nil_total)))
  | uniformGrid hc => exact struct_total (cons_total hn (cons_total (list_total hc) nil_total))
  | stack _ _ h1 h2 => exact struct_total (cons_total h1 (cons_total h2 nil_total))
  | l0 _ h => exact deMap_total h _
  | l1 _ h => exact deMap_total h _
  | l2 _ h => exact deMap_total h _
  | linf _ h => exact deMap_total h _

/-- Without Chebyshev bases restoring an approximator never panics, whatever the data. Missing: Chebyshev
bases (`C135_chebyshev_panics_iff`), and that the result is one a constructor could have produced
(`C135_unvalidated`). -/
theorem C135_total_partial {B O : Type} {cb : Codec K B} (hb : DerivedBasis cb) {co : Codec K O}
    (ho : SavedOptimiser co) (t : Tree K) :
    ¬ Panics ((scalarLFA cb co).de t) ∧ ¬ Panics ((vectorLFA cb co).de t) ∧
    ¬ Panics ((features : Codec K (Features K)).de t) ∧ ¬ Panics ((error : Codec K Error).de t) := by
  have hl := list_total (float_total (K := K))
  have hno : ∀ {α : Type} {x : P α}, (∃ r, x = .ok r) → ¬ Panics x := by
    rintro α x ⟨r, rfl⟩ ⟨p, hp⟩
    cases hp
  refine ⟨hno ?_, hno ?_, hno ?_, hno ?_⟩
  · exact struct_total (cons_total (basis_total hb) (cons_total hl (cons_total (optimiser_total ho) nil_total))) t
  · exact struct_total (cons_total (basis_total hb) (cons_total (list_total hl)
      (cons_total (optimiser_total ho) nil_total))) t
  · unfold features
    simp only
    split
    · split
      · exact deMap_total hl _ _
      · split
        · exact deMap_total (struct_total (cons_total nat_total (cons_total hmap_total nil_total))) _ _
        · exact ⟨_, rfl⟩
    · exact ⟨_, rfl⟩
  · refine struct_total (cons_total ?_ (cons_total string_total nil_total)) t
    intro t
    unfold errorKind
    simp only
    split
    · split
      · exact ⟨_, rfl⟩
      · split
        · exact ⟨_, rfl⟩
        · split <;> exact ⟨_, rfl⟩
    · exact ⟨_, rfl⟩

theorem pair_inv {t : Tree K} {p : K × K} (h : pair.de t = .ok (.ok p)) : t = pair.ser p := by
  unfold pair at h
  simp only at h
  split at h
  · cases h; rfl
  · cases h

theorem list_inv {T : Type} {c : Codec K T} (hc : ∀ {t : Tree K} {x : T}, c.de t = .ok (.ok x) → t = c.ser x) :
    ∀ {ts : List (Tree K)} {xs : List T}, c.deList ts = .ok (.ok xs) → ts = xs.map c.ser
  | [], xs, h => by cases h; rfl
  | t :: ts, xs, h => by
    unfold deList at h
    rcases h1 : c.de t with p | r
    · rw [h1] at h; cases h
    · rw [h1] at h
      rcases r with e | x
      · cases h
      · rcases h2 : c.deList ts with p | r
        · rw [h2] at h; cases h
        · rw [h2] at h
          rcases r with e | ys
          · cases h
          · cases h
            rw [hc h1, list_inv hc h2]
            rfl

theorem float_inv {t : Tree K} {x : K} (h : float.de t = .ok (.ok x)) : t = .num x := by
  unfold float at h
  simp only at h
  split at h <;> cases h
  rfl

theorem nat_inv {t : Tree K} {n : Nat} (h : nat.de t = .ok (.ok n)) : t = .nat n := by
  unfold nat at h
  simp only at h
  split at h <;> cases h
  rfl

theorem floats_iff (t : Tree K) (xs : List K) : float.list.de t = .ok (.ok xs) ↔ t = .seq (xs.map .num) := by
  constructor
  · intro h
    unfold list at h
    simp only at h
    split at h
    · rw [list_inv (c := float) float_inv h]
      rfl
    · cases h
  · rintro rfl
    show float.deList _ = _
    induction xs with
    | nil => rfl
    | cons x xs ih => rw [List.map_cons, deList, ih]; rfl

/-- What numbers are read from: a number only from that number, an integer only from that integer, an array (weights, velocities) only from
the sequence of its elements, and dense features only from a variant `Dense` with such a sequence. Nothing is converted or guessed. -/
theorem C135_read_from (t : Tree K) (x : K) (n : Nat) (xs : List K) :
    (float.de t = .ok (.ok x) ↔ t = .num x) ∧ (nat.de t = .ok (.ok n) ↔ t = .nat n) ∧
    (float.list.de t = .ok (.ok xs) ↔ t = .seq (xs.map .num)) ∧
    (features.de t = .ok (.ok (.dense xs)) ↔ t = .variant "Dense" (.seq (xs.map .num))) := by
  refine ⟨⟨float_inv, by rintro rfl; rfl⟩, ⟨nat_inv, by rintro rfl; rfl⟩, floats_iff t xs, fun h => ?_, ?_⟩
  · unfold features at h
    simp only at h
    split at h
    · rename_i s u
      split_ifs at h with h1 h2
      · subst h1
        unfold deMap at h
        rcases h3 : float.list.de u with p | r
        · rw [h3] at h; cases h
        · rw [h3] at h
          rcases r with e | ys
          · cases h
          · cases h
            rw [(floats_iff u xs).1 h3]
      · unfold deMap at h
        rcases h3 : sparse.de u with p | r
        · rw [h3] at h; cases h
        · rw [h3] at h
          rcases r with e | ys <;> cases h
      · cases h
    · cases h
  · rintro rfl
    show float.list.deMap Features.dense _ = _
    rw [deMap, (floats_iff _ xs).2 rfl]
    rfl

theorem getField_inv {fs : List (String × Tree K)} {n : String} {t : Tree K} (h : getField fs n = .ok t) :
    fs.filter (fun e => e.1 = n) = [(n, t)] := by
  unfold getField at h
  split at h
  · cases h
  · next e he =>
    cases h
    have : e ∈ fs.filter (fun e => e.1 = n) := by rw [he]; exact List.mem_singleton_self e
    rw [he]
    have := of_decide_eq_true (List.mem_filter.1 this).2
    rw [← this]
  · cases h

/-- A Chebyshev basis panics on restoring, instead of returning an error, exactly when the data is well-formed
and its order exceeds 11. -/
theorem C135_chebyshev_panics_iff (t : Tree K) : Panics ((chebyshev : Codec K (Chebyshev K)).de t) ↔
    ∃ (n : Nat) (l : List (K × K)), 11 < n ∧ ((∃ rest, t = .seq (.nat n :: pair.list.ser l :: rest)) ∨
      t = .fields [("order", .nat n), ("limits", pair.list.ser l)] ∨
      t = .fields [("limits", pair.list.ser l), ("order", .nat n)]) := by
  have hst : Total (struct ["order", "limits"] (Fields.cons nat (Fields.cons (pair (K := K)).list Fields.nil))
      (fun x => x) (fun x => x)) :=
    struct_total (cons_total nat_total (cons_total (list_total pair_total) nil_total))
  constructor
  · rintro ⟨p, hp⟩
    unfold chebyshev at hp
    simp only at hp
    by_cases hk : knownFields t = true
    · rw [if_pos hk] at hp
      obtain ⟨r, hr⟩ := hst t
      rw [hr] at hp
      rcases r with e | s
      · cases hp
      · obtain ⟨n, l, ⟨⟩⟩ := s
        have hn : 11 < n := by
          by_contra hc
          obtain ⟨c, hc, -⟩ := (C26_orders n l).2 (not_lt.1 hc)
          have hp : (do let c ← Chebyshev.new n l; Except.ok (Except.ok c) :
            P (Except Chebyshev.DeError (Chebyshev K))) = .error p := hp
          rw [hc] at hp
          cases hp
        refine ⟨n, l, hn, ?_⟩
        -- what the fields must be
        have hfields : ∀ {ts : List (Tree K)},
            (Fields.cons nat (Fields.cons (pair (K := K)).list Fields.nil)).de ts = .ok (.ok (n, l, ())) →
            ∃ rest, ts = .nat n :: pair.list.ser l :: rest := by
          rintro (_ | ⟨t₁, _ | ⟨t₂, rest⟩⟩) h
          · cases h
          · cases t₁ <;> cases h
          · refine ⟨rest, ?_⟩
            obtain ⟨q, hq⟩ := list_total pair_total t₂
            unfold Fields.cons at h
            simp only at h
            rw [hq] at h
            cases t₁ with
            | nat m =>
              rcases q with e | q
              · cases h
              · cases h
                cases t₂ with
                | seq us =>
                  have : us = l.map pair.ser := list_inv (fun h => pair_inv h) hq
                  rw [this]
                  rfl
                | _ => cases hq
            | _ => cases h
        unfold struct at hr
        simp only at hr
        cases t with
        | seq ts =>
          simp only at hr
          split at hr
          · cases hr
          · next ts' he =>
            have : ts' = ts := by
              split at he
              · cases he
              · cases he; rfl
            subst this
            rcases hd : (Fields.cons nat (Fields.cons (pair (K := K)).list Fields.nil)).de ts' with p | q
            · rw [hd] at hr; cases hr
            rw [hd] at hr
            rcases q with e | q
            · cases hr
            cases hr
            obtain ⟨rest, hrest⟩ := hfields hd
            exact .inl ⟨rest, by rw [hrest]⟩
        | fields fs =>
          simp only at hr
          rcases ho : getField fs "order" with e | t₁
          · simp only [getFields, ho] at hr; cases hr
          · rcases hl : getField fs "limits" with e | t₂
            · simp only [getFields, ho, hl] at hr; cases hr
            · simp only [getFields, ho, hl] at hr
              rcases hd : (Fields.cons nat (Fields.cons (pair (K := K)).list Fields.nil)).de [t₁, t₂] with p | q
              · rw [hd] at hr; cases hr
              rw [hd] at hr
              rcases q with e | q
              · cases hr
              cases hr
              obtain ⟨rest, hrest⟩ := hfields hd
              cases hrest
              right
              have h1 := getField_inv ho
              have h2 := getField_inv hl
              have h3 : fs.filter (fun e => !decide (e.1 = "order")) = fs.filter fun e => e.1 = "limits" := by
                refine List.filter_congr fun e he => ?_
                simp only [knownFields, List.all_eq_true, decide_eq_true_eq] at hk
                rcases hk e he with h | h
                · simp [h]
                · simp [h]
              have h4 := List.filter_append_perm (fun e => decide (e.1 = "order")) fs
              rw [h3, h1, h2, List.singleton_append] at h4
              rcases List.perm_pair.1 h4.symm with rfl | rfl
              · exact .inl rfl
              · exact .inr rfl
        | _ => cases hr
    · rw [if_neg hk] at hp
      cases hp
  · rintro ⟨n, l, hn, h⟩
    refine ⟨Chebyshev.orderPanic, ?_⟩
    have hl := list_restores' (pair_restores (K := K)) l _ trivial (.refl _)
    have hnew := (C26_orders n l).1 hn
    have hfin : ∀ t : Tree K, knownFields t = true →
        (struct ["order", "limits"] (Fields.cons nat (Fields.cons (pair (K := K)).list Fields.nil))
          (fun x => x) (fun x => x)).de t = .ok (.ok (n, l, ())) → chebyshev.de t = .error Chebyshev.orderPanic := by
      intro t hk hs
      unfold chebyshev
      simp only
      rw [if_pos hk, hs]
      show (do let c ← Chebyshev.new n l; Except.ok (Except.ok c)) = _
      rw [hnew]
      rfl
    have hf : ∀ rest, (Fields.cons nat (Fields.cons (pair (K := K)).list Fields.nil)).de
        (.nat n :: pair.list.ser l :: rest) = .ok (.ok (n, l, ())) := by
      intro rest
      unfold Fields.cons
      simp only
      rw [hl]
      rfl
    rcases h with ⟨rest, rfl⟩ | rfl | rfl
    · refine hfin _ rfl ?_
      unfold struct
      simp only
      rw [if_neg (by simp)]
      simp only
      rw [hf]
      rfl
    · refine hfin _ (by simp [knownFields]) ?_
      unfold struct
      have : getFields [("order", Tree.nat n), ("limits", pair.list.ser l)] ["order", "limits"] =
        .ok [.nat n, pair.list.ser l] := getFields_of_mem (by simp) _ _ rfl (by simp)
      simp only
      rw [this]
      simp only
      rw [hf]
      rfl
    · refine hfin _ (by simp [knownFields]) ?_
      unfold struct
      have : getFields [("limits", pair.list.ser l), ("order", Tree.nat n)] ["order", "limits"] =
        .ok [.nat n, pair.list.ser l] := getFields_of_mem (by simp) _ _ rfl (by simp)
      simp only
      rw [this]
      simp only
      rw [hf]
      rfl

example : Panics ((chebyshev : Codec ℝ (Chebyshev ℝ)).de (.fields [("order", .nat 12), ("limits", .seq [])])) :=
  (C135_chebyshev_panics_iff _).2 ⟨12, [], by norm_num, .inr (.inl rfl)⟩

/-- Incomplete data is rejected: a sequence with fewer than the three fields of an approximator, naming its length, and
a map in which one of them is missing or occurs twice. -/
theorem C135_incomplete {B O : Type} (cb : Codec K B) (co : Codec K O) (ts : List (Tree K))
    (fs : List (String × Tree K)) :
    (ts.length < 3 → (scalarLFA cb co).de (.seq ts) = .ok (.error (.invalidLength ts.length)) ∧
      (vectorLFA cb co).de (.seq ts) = .ok (.error (.invalidLength ts.length))) ∧
    ((∃ n ∈ ["basis", "weights", "optimiser"], (fs.filter fun e => e.1 = n).length ≠ 1) →
      (∃ e, (scalarLFA cb co).de (.fields fs) = .ok (.error e)) ∧
      ∃ e, (vectorLFA cb co).de (.fields fs) = .ok (.error e)) := by
  have hg : ∀ ns : List String, (∃ n ∈ ns, (fs.filter fun e => e.1 = n).length ≠ 1) →
      ∃ e, getFields fs ns = .error e := by
    intro ns
    induction ns with
    | nil => rintro ⟨n, hn, -⟩; cases hn
    | cons m ns ih =>
      rintro ⟨n, hn, h⟩
      unfold getFields
      rcases hm : getField fs m with e | t
      · exact ⟨e, rfl⟩
      · rcases List.mem_cons.1 hn with rfl | hn
        · exfalso
          unfold getField at hm
          rcases hl : fs.filter (fun e => e.1 = n) with _ | ⟨a, _ | ⟨b, l⟩⟩
          · rw [hl] at hm; cases hm
          · rw [hl] at h; exact h rfl
          · rw [hl] at hm; cases hm
        · obtain ⟨e, he⟩ := ih ⟨n, hn, h⟩
          rw [he]
          exact ⟨e, rfl⟩
  refine ⟨fun h => ⟨?_, ?_⟩, fun h => ?_⟩
  · unfold scalarLFA lfa struct
    simp [h]
  · unfold vectorLFA lfa struct
    simp [h]
  · obtain ⟨e, he⟩ := hg _ h
    refine ⟨⟨e, ?_⟩, e, ?_⟩
    · unfold scalarLFA lfa struct
      simp only
      rw [he]
    · unfold vectorLFA lfa struct
      simp only
      rw [he]

/-- Nothing else is checked. Sparse features with an index beyond their dimension are accepted, and expanding
them panics; so is a polynomial basis without any feature, and Momentum with a velocity of any length. -/
theorem C135_unvalidated (a b x : K) (n : Nat) (xs : List K) :
    (∃ t φ, (features : Codec K (Features K)).de t = .ok (.ok φ) ∧ ¬ WF φ ∧ Panics φ.toDense) ∧
    (∃ t, (polynomial : Codec K Polynomial).de t = .ok (.ok ⟨n, []⟩)) ∧
    (∃ t, (momentum : Codec K (SGDMomentum K)).de t = .ok (.ok ⟨a, b, xs⟩)) := by
  refine ⟨⟨_, .sparse ⟨0, [(n, x)]⟩, C134_features _ _ (List.nodup_singleton n) (.refl _), ?_, ?_⟩, ?_, ?_⟩
  · rintro ⟨-, h⟩
    exact absurd (h (n, x) (List.mem_singleton_self _)) (Nat.not_lt_zero n)
  · exact ⟨.indexOutOfBounds, rfl⟩
  · exact ⟨_, C134_basis .polynomial _ _ trivial (.refl _)⟩
  · exact ⟨_, C134_optimiser .momentum _ _ trivial (.refl _)⟩

end

end Lfa

import Verif.Props.C101_C102
import Verif.Props.C103_C104

/-!
# C120: training a kernel approximator finds the interpolant

Exact arithmetic.
-/

set_option linter.unusedSectionVars false

namespace Lfa

open Spec

section
variable {B I : Type} [Space B] [Basis B I ℝ]

theorem predicts_of_predict {b : B} {x : I} {φ : Features ℝ} {n : Nat} {v : List ℝ} {y : ℝ}
    (hp : Basis.project b x = .ok (.ok φ)) (hf : Fits n φ) (hv : v.length = n)
    (h : predict b v x = .ok (.ok y)) : Predicts b v x y := by
  refine ⟨φ, hp, ?_⟩
  have h1 : predict b v x = .ok (.ok (Spec.inner φ v)) :=
    evaluate_eq (fa := LFA.mk b v ()) hp (dot_real hf.1 (hf.2.trans hv.symm))
  rw [h] at h1
  injection h1 with h1
  injection h1 with h1
  rw [h1, inner_eq]

theorem interpolant_of_cycle {O : Type} [Optimiser O ℝ] {b : B} {n : Nat} {xs : Nat → I}
    (hx : ∀ k, ∃ φ, Basis.project b (xs k) = .ok (.ok φ) ∧ Fits n φ)
    (hI : Interpolates b n (fun x => ∃ k, x = xs k)) {y : I → ℝ} {v : List ℝ} {o : O}
    (hv : v.length = n ∧ ∀ x, (∃ k, x = xs k) → predict b v x = .ok (.ok (y x)))
    {cycle : Nat → ScalarLFA B O ℝ} {qs : Nat → ℝ} (hs : Stream cycle xs (fun k => y (xs k)) qs)
    (hl : ∀ k, (cycle k).weights.length = n ∧ cycle k = LFA.mk b (cycle k).weights o)
    (hc : ∀ k, cycle k = cycle 0 ∧ qs k = y (xs k)) : (cycle 0).weights = v := by
  obtain ⟨u, -, hu⟩ := hI y
  rw [hu v hv]
  refine hu _ ⟨(hl 0).1, ?_⟩
  rintro x ⟨k, rfl⟩
  have h1 := hs.predicts k
  rw [(hc k).1, (hl 0).2, (hc k).2] at h1
  obtain ⟨φ, p1, p2⟩ := hx k
  have hd := dot_real p2.1 (p2.2.trans (hl 0).1.symm)
  rw [evaluate_eq (fa := LFA.mk b (cycle 0).weights o) p1 hd] at h1
  rw [← h1]
  exact evaluate_eq (fa := LFA.mk b (cycle 0).weights ()) p1 hd

/-- On inputs where exactly one weight vector fits any targets, cycling SGD with `lr ‖φ‖² < 2`
converges geometrically to that vector, at a rate that depends neither on the targets nor on the
start. -/
theorem C120_sgd (b : B) (n : Nat) (lr : ℝ) (hlr : 0 < lr) (N : Nat) (hN : 0 < N)
    (xs : Nat → I) (hxs : ∀ k, xs (k + N) = xs k)
    (hx : ∀ k, ∃ φ, Basis.project b (xs k) = .ok (.ok φ) ∧ Fits n φ ∧ lr * normSq φ < 2)
    (hI : Interpolates b n (fun x => ∃ k, x = xs k)) :
    ∃ r : ℝ, 0 ≤ r ∧ r < 1 ∧ ∀ y : I → ℝ, ∃ v : List ℝ,
      (v.length = n ∧ ∀ k, predict b v (xs k) = .ok (.ok (y (xs k)))) ∧
      ∀ (fas : Nat → ScalarLFA B (SGD ℝ) ℝ) (ps : Nat → ℝ) (w : List ℝ),
        Stream fas xs (fun k => y (xs k)) ps → w.length = n → fas 0 = LFA.mk b w (SGD.mk lr) →
        ∀ k, distSq n (fas k).weights v ≤ r ^ (k / N) * distSq n w v := by
  obtain ⟨r, r0, r1, hr⟩ := C103_sgd_cycle b n lr hlr N hN xs hxs hx
  have hx' : ∀ k, ∃ φ, Basis.project b (xs k) = .ok (.ok φ) ∧ Fits n φ := fun k => by
    obtain ⟨φ, p1, p2, -⟩ := hx k
    exact ⟨φ, p1, p2⟩
  refine ⟨r, r0, r1, fun y => ?_⟩
  obtain ⟨v, ⟨v1, v2⟩, v3⟩ := hI y
  refine ⟨v, ⟨v1, fun k => v2 _ ⟨k, rfl⟩⟩, fun fas ps w hs hw h0 k => ?_⟩
  obtain ⟨cycle, qs, c1, c2, c3, -, c5⟩ := hr (fun k => y (xs k)) (fun k => by rw [hxs])
    fas ps w hs hw h0
  obtain ⟨e1, -⟩ := c5 v fun k => by
    obtain ⟨φ, p1, p2⟩ := hx' k
    exact predicts_of_predict p1 p2 v1 (v2 _ ⟨k, rfl⟩)
  have hw0 := interpolant_of_cycle hx' hI ⟨v1, v2⟩ c1 (fun k => (c2 k).2) e1
  have := c3 k
  rwa [(e1 k).1, hw0] at this

/-- The same for ISGD with any positive learning rate. -/
theorem C120_isgd (b : B) (n : Nat) (lr : ℝ) (hlr : 0 < lr) (N : Nat) (hN : 0 < N)
    (xs : Nat → I) (hxs : ∀ k, xs (k + N) = xs k)
    (hx : ∀ k, ∃ φ, Basis.project b (xs k) = .ok (.ok φ) ∧ Fits n φ)
    (hI : Interpolates b n (fun x => ∃ k, x = xs k)) :
    ∃ r : ℝ, 0 ≤ r ∧ r < 1 ∧ ∀ y : I → ℝ, ∃ v : List ℝ,
      (v.length = n ∧ ∀ k, predict b v (xs k) = .ok (.ok (y (xs k)))) ∧
      ∀ (fas : Nat → ScalarLFA B (ISGD ℝ) ℝ) (ps : Nat → ℝ) (w : List ℝ),
        Stream fas xs (fun k => y (xs k)) ps → w.length = n → fas 0 = LFA.mk b w (ISGD.mk lr) →
        ∀ k, distSq n (fas k).weights v ≤ r ^ (k / N) * distSq n w v := by
  obtain ⟨r, r0, r1, hr⟩ := C104_isgd_cycle b n lr hlr N hN xs hxs hx
  refine ⟨r, r0, r1, fun y => ?_⟩
  obtain ⟨v, ⟨v1, v2⟩, v3⟩ := hI y
  refine ⟨v, ⟨v1, fun k => v2 _ ⟨k, rfl⟩⟩, fun fas ps w hs hw h0 k => ?_⟩
  obtain ⟨cycle, qs, c1, c2, c3, -, c5⟩ := hr (fun k => y (xs k)) (fun k => by rw [hxs])
    fas ps w hs hw h0
  obtain ⟨e1, -⟩ := c5 v fun k => by
    obtain ⟨φ, p1, p2⟩ := hx k
    exact predicts_of_predict p1 p2 v1 (v2 _ ⟨k, rfl⟩)
  have hw0 := interpolant_of_cycle hx hI ⟨v1, v2⟩ c1 (fun k => (c2 k).2) e1
  have := c3 k
  rwa [(e1 k).1, hw0] at this

end

/-- The `k`-th input when cycling through a list. -/
def cycled (cs : List (List ℝ)) (k : Nat) : List ℝ := cs.getD (k % cs.length) []

theorem cycled_mem {cs : List (List ℝ)} (h : cs ≠ []) (k : Nat) : cycled cs k ∈ cs := by
  unfold cycled
  rw [List.getD_eq_getElem _ _ (Nat.mod_lt _ (List.length_pos_iff.2 h))]
  exact List.getElem_mem _

theorem mem_cycled {cs : List (List ℝ)} {x : List ℝ} : (∃ k, x = cycled cs k) ∧ cs ≠ [] ↔ x ∈ cs := by
  constructor
  · rintro ⟨⟨k, rfl⟩, h⟩
    exact cycled_mem h k
  · intro h
    obtain ⟨i, hi, rfl⟩ := List.mem_iff_getElem.1 h
    refine ⟨⟨i, ?_⟩, List.ne_nil_of_mem h⟩
    unfold cycled
    rw [Nat.mod_eq_of_lt hi, List.getD_eq_getElem _ _ hi]

theorem kernel_features {κ : Type} [SliceKernel κ ℝ] (k : κ) (cs : List (List ℝ)) (x : List ℝ) :
    Basis.project (KernelBasis.homogeneous cs k) x
      = .ok (.ok (.dense (cs.map fun c => SliceKernel.kernel k x c))) ∧
    Fits cs.length (.dense (cs.map fun c => SliceKernel.kernel k x c)) := by
  refine ⟨?_, trivial, by simp [dim]⟩
  show Except.ok (Except.ok (Features.dense ((cs.map _).map _))) = _
  rw [List.map_map]
  rfl

theorem kernel_normSq {κ : Type} [SliceKernel κ ℝ] (k : κ) (cs : List (List ℝ)) (x : List ℝ) (v : ℝ)
    (hb : ∀ x y, |SliceKernel.kernel k x y| ≤ v) :
    normSq (.dense (cs.map fun c => SliceKernel.kernel k x c)) ≤ cs.length * v ^ 2 := by
  have hd : dim (.dense (cs.map fun c => SliceKernel.kernel k x c)) = cs.length := by simp [dim]
  rw [normSq, hd]
  have : ∀ i ∈ Finset.range cs.length,
      value (.dense (cs.map fun c => SliceKernel.kernel k x c)) i
        * value (.dense (cs.map fun c => SliceKernel.kernel k x c)) i ≤ v ^ 2 := by
    intro i hi
    have hi := Finset.mem_range.1 hi
    have e : value (.dense (cs.map fun c => SliceKernel.kernel k x c)) i
        = SliceKernel.kernel k x cs[i] := by
      show (cs.map fun c => SliceKernel.kernel k x c).getD i _ = _
      rw [List.getD_eq_getElem _ _ (by simpa using hi)]
      simp
    rw [e, ← sq, ← sq_abs]
    exact pow_le_pow_left₀ (abs_nonneg _) (hb _ _) 2
  have := Finset.sum_le_sum this
  simpa using this

/-- **C120.** An approximator over exponential, Matérn-3/2 or squared exponential kernels centred at
`N` distinct points, trained by cycling through these points with `0 < lr`, `lr N v² < 2`: the weights
converge geometrically to the one vector that reproduces the targets, whatever they are and wherever
training starts. -/
theorem C120_kernel_sgd {kind : StationaryKind}
    (hk : kind = .exponential ∨ kind = .matern32 ∨ kind = .expQuad) (k : Stationary kind ℝ)
    (hv : 0 < k.variance) (d : Nat) (hd : d ≤ k.lengthscales.length)
    (h0 : ∀ l ∈ k.lengthscales, l ≠ 0) (cs : List (List ℝ)) (hn : cs.Nodup) (hne : cs ≠ [])
    (hl : ∀ c ∈ cs, c.length = d) (lr : ℝ) (hlr : 0 < lr) (hs : lr * (cs.length * k.variance ^ 2) < 2) :
    ∃ r : ℝ, 0 ≤ r ∧ r < 1 ∧ ∀ y : List ℝ → ℝ, ∃ v : List ℝ,
      (v.length = cs.length ∧ ∀ c ∈ cs, predict (KernelBasis.homogeneous cs k) v c = .ok (.ok (y c))) ∧
      ∀ (fas : Nat → ScalarLFA (KernelBasis (Stationary kind ℝ) ℝ) (SGD ℝ) ℝ) (ps : Nat → ℝ)
        (w : List ℝ), Stream fas (cycled cs) (fun k => y (cycled cs k)) ps → w.length = cs.length →
        fas 0 = LFA.mk (KernelBasis.homogeneous cs k) w (SGD.mk lr) →
        ∀ t, distSq cs.length (fas t).weights v ≤ r ^ (t / cs.length) * distSq cs.length w v := by
  have hI := (C102_interpolation k d (C101_stationary hk k hv d hd h0) cs hn hl).2
  have hX : (fun x => x ∈ cs) = (fun x => ∃ k, x = cycled cs k) := by
    funext x
    rw [← mem_cycled]
    simp [hne]
  rw [hX] at hI
  have hb : ∀ x y, |SliceKernel.kernel k x y| ≤ k.variance := fun x y =>
    (C36_bounded_partial (by rcases hk with rfl | rfl | rfl <;> simp) k hv ⟨1, [], 1⟩ one_pos
      one_pos.le x y).1
  obtain ⟨r, r0, r1, hr⟩ := C120_sgd (KernelBasis.homogeneous cs k) cs.length lr hlr cs.length
    (List.length_pos_iff.2 hne) (cycled cs) (fun k => by unfold cycled; rw [Nat.add_mod_right])
    (fun t => ⟨_, (kernel_features k cs _).1, (kernel_features k cs _).2,
      lt_of_le_of_lt (mul_le_mul_of_nonneg_left (kernel_normSq k cs _ _ hb) hlr.le) hs⟩) hI
  refine ⟨r, r0, r1, fun y => ?_⟩
  obtain ⟨v, ⟨v1, v2⟩, v3⟩ := hr y
  refine ⟨v, ⟨v1, fun c hc => ?_⟩, v3⟩
  obtain ⟨⟨t, rfl⟩, -⟩ := mem_cycled.2 hc
  exact v2 t

/-- The same for ISGD with any positive learning rate. -/
theorem C120_kernel_isgd {kind : StationaryKind}
    (hk : kind = .exponential ∨ kind = .matern32 ∨ kind = .expQuad) (k : Stationary kind ℝ)
    (hv : 0 < k.variance) (d : Nat) (hd : d ≤ k.lengthscales.length)
    (h0 : ∀ l ∈ k.lengthscales, l ≠ 0) (cs : List (List ℝ)) (hn : cs.Nodup) (hne : cs ≠ [])
    (hl : ∀ c ∈ cs, c.length = d) (lr : ℝ) (hlr : 0 < lr) :
    ∃ r : ℝ, 0 ≤ r ∧ r < 1 ∧ ∀ y : List ℝ → ℝ, ∃ v : List ℝ,
      (v.length = cs.length ∧ ∀ c ∈ cs, predict (KernelBasis.homogeneous cs k) v c = .ok (.ok (y c))) ∧
      ∀ (fas : Nat → ScalarLFA (KernelBasis (Stationary kind ℝ) ℝ) (ISGD ℝ) ℝ) (ps : Nat → ℝ)
        (w : List ℝ), Stream fas (cycled cs) (fun k => y (cycled cs k)) ps → w.length = cs.length →
        fas 0 = LFA.mk (KernelBasis.homogeneous cs k) w (ISGD.mk lr) →
        ∀ t, distSq cs.length (fas t).weights v ≤ r ^ (t / cs.length) * distSq cs.length w v := by
  have hI := (C102_interpolation k d (C101_stationary hk k hv d hd h0) cs hn hl).2
  have hX : (fun x => x ∈ cs) = (fun x => ∃ k, x = cycled cs k) := by
    funext x
    rw [← mem_cycled]
    simp [hne]
  rw [hX] at hI
  obtain ⟨r, r0, r1, hr⟩ := C120_isgd (KernelBasis.homogeneous cs k) cs.length lr hlr cs.length
    (List.length_pos_iff.2 hne) (cycled cs) (fun k => by unfold cycled; rw [Nat.add_mod_right])
    (fun t => ⟨_, (kernel_features k cs _).1, (kernel_features k cs _).2⟩) hI
  refine ⟨r, r0, r1, fun y => ?_⟩
  obtain ⟨v, ⟨v1, v2⟩, v3⟩ := hr y
  refine ⟨v, ⟨v1, fun c hc => ?_⟩, v3⟩
  obtain ⟨⟨t, rfl⟩, -⟩ := mem_cycled.2 hc
  exact v2 t

/-- Such runs exist. -/
theorem C120_exists {κ : Type} [SliceKernel κ ℝ] (k : κ) (cs : List (List ℝ)) (w : List ℝ)
    (hw : w.length = cs.length) (y : List ℝ → ℝ) (lr : ℝ) :
    (∃ fas ps, Stream fas (cycled cs) (fun k => y (cycled cs k)) ps ∧ fas 0 =
      (LFA.mk (KernelBasis.homogeneous cs k) w (SGD.mk lr) : ScalarLFA _ (SGD ℝ) ℝ)) ∧
    (∃ fas ps, Stream fas (cycled cs) (fun k => y (cycled cs k)) ps ∧ fas 0 =
      (LFA.mk (KernelBasis.homogeneous cs k) w (ISGD.mk lr) : ScalarLFA _ (ISGD ℝ) ℝ)) :=
  C103_stream_exists (KernelBasis.homogeneous cs k) cs.length lr (cycled cs) _ w hw
    fun _ => ⟨_, kernel_features k cs _⟩

/-- Three points in the plane with the squared exponential kernel. -/
example : (([[0, 0], [1, 0], [0, 2]] : List (List ℝ)).Nodup ∧
    ∀ c ∈ ([[0, 0], [1, 0], [0, 2]] : List (List ℝ)), c.length = 2) ∧
    (1 / 2 : ℝ) * (([[0, 0], [1, 0], [0, 2]] : List (List ℝ)).length * 1 ^ 2) < 2 := by
  refine ⟨⟨by simp, by simp⟩, ?_⟩
  norm_num

end Lfa

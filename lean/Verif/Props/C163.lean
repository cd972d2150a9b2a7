import Verif.Proofs.LeastSquares
import Verif.Props.C103_C104
import Verif.Spec.Loss

/-!
# C163: cycling through a data set ends near the best fit

Exact arithmetic. The examples repeat with period `N`; the targets are arbitrary, so no weights need to reproduce them.
-/

set_option linter.unusedSectionVars false

namespace Lfa

open Spec

section
variable {B I O : Type} [Space B] [Basis B I ℝ] [Optimiser O ℝ]

/-- The squared error of known weights. -/
theorem squaredError_iff {b : B} {o : O} {n : Nat} {rate : Features ℝ → ℝ} {xs : Nat → I}
    (ht : TrainsBy b o n rate (fun x => ∃ k, xs k = x)) (φ : Nat → Features ℝ)
    (hφ : ∀ k, Basis.project b (xs k) = .ok (.ok (φ k)) ∧ Fits n (φ k)) (ys c : Nat → ℝ) (N : Nat)
    {v : List ℝ} (hv : v.length = n) (ℓ : ℝ) :
    SquaredError (LFA.mk b v o : ScalarLFA B O ℝ) xs ys c N ℓ ↔
      ℓ = Sweep.loss c (fun k => featurePoint n (φ k)) ys N (toPoint n v) := by
  have he : ∀ k, ScalarLFA.evaluate (LFA.mk b v o) (xs k) = .ok (.ok (Spec.inner (φ k) v)) := fun k =>
    (ht v (xs k) (φ k) 0 ⟨k, rfl⟩ hv (hφ k).1 (hφ k).2).choose_spec.1
  constructor
  · rintro ⟨ps, h1, rfl⟩
    refine Finset.sum_congr rfl fun k hk => ?_
    have := (h1 k (Finset.mem_range.1 hk)).symm.trans (he k)
    injection this with this
    injection this with this
    rw [this, point_inner (hφ k).2.2]
  · rintro rfl
    refine ⟨_, fun k _ => he k, Finset.sum_congr rfl fun k _ => ?_⟩
    rw [point_inner (hφ k).2.2]

theorem cyclic_error {b : B} {o : O} {n : Nat} {rate : Features ℝ → ℝ} {xs : Nat → I} {N : Nat}
    (hN : 0 < N) (hxs : ∀ k, xs (k + N) = xs k)
    (ht : TrainsBy b o n rate (fun x => ∃ k, xs k = x)) (φ : Nat → Features ℝ)
    (hφ : ∀ k, Basis.project b (xs k) = .ok (.ok (φ k)) ∧ Fits n (φ k))
    {lr : ℝ} (hlr : 0 < lr) {c : Nat → ℝ} (hc : ∀ k, rate (φ k) = lr * c k)
    (hr : ∀ k, 0 < rate (φ k) ∧ rate (φ k) * normSq (φ k) < 2) {R : ℝ} (hR : ∀ k, normSq (φ k) ≤ R)
    {τ : ℝ} (hτ : R * ∑ k ∈ Finset.range N, rate (φ k) = τ) (hτ1 : τ < 1) {ys : Nat → ℝ} (hy : ∀ k, ys (k + N) = ys k)
    {fas : Nat → ScalarLFA B O ℝ} {ps : Nat → ℝ} {w : List ℝ} (hs : Stream fas xs ys ps)
    (hw : w.length = n) (h0 : fas 0 = LFA.mk b w o) {ε : ℝ} (hε : 0 < ε) :
    ∃ K, ∀ k, K ≤ k → (∃ ℓ, SquaredError (fas k) xs ys c N ℓ) ∧
      ∀ v : List ℝ, v.length = n → ∀ ℓ ℓ', SquaredError (fas k) xs ys c N ℓ →
        SquaredError (LFA.mk b v o : ScalarLFA B O ℝ) xs ys c N ℓ' → ℓ ≤ (1 + (τ / (1 - τ)) ^ 2) * ℓ' + ε := by
  subst hτ
  have hper : ∀ k, φ (k + N) = φ k := fun k => by
    have := (hφ (k + N)).1.symm.trans ((hxs k).symm ▸ (hφ k).1)
    injection this with this
    injection this
  have hst : Sweep.Stable (fun k => rate (φ k)) (fun k => featurePoint n (φ k)) := fun k => by
    rw [point_normSq (hφ k).2.2]
    exact hr k
  obtain ⟨K, hK⟩ := Sweep.cyclic_loss hst hN (fun k => by simp only [hper]) (fun k => by simp only [hper])
    (R := R) (fun k => by rw [point_normSq (hφ k).2.2]; exact hR k) hτ1 hy (toPoint n w) (mul_pos hlr hε)
  have hloss : ∀ z, Sweep.loss (fun k => rate (φ k)) (fun k => featurePoint n (φ k)) ys N z
      = lr * Sweep.loss c (fun k => featurePoint n (φ k)) ys N z := fun z => by
    unfold Sweep.loss
    rw [Finset.mul_sum]
    exact Finset.sum_congr rfl fun k _ => by show rate (φ k) * _ = _; rw [hc]; ring
  refine ⟨K, fun k hk => ?_⟩
  obtain ⟨u, e1, e2, -, e4⟩ := stream_point ht φ hφ hs hw h0 k
  have e5 : ∀ c, Sweep.loss c (fun k => featurePoint n (φ k)) ys N (toPoint n u) = _ := fun c => congrArg _ e4
  rw [e1]
  refine ⟨⟨_, (squaredError_iff ht φ hφ ys c N e2 _).2 rfl⟩, fun v hv ℓ ℓ' h1 h2 => ?_⟩
  rw [squaredError_iff ht φ hφ ys c N e2] at h1
  rw [squaredError_iff ht φ hφ ys c N hv] at h2
  have := hK k hk (toPoint n v)
  rw [hloss, hloss, ← e5, ← h1, ← h2] at this
  refine le_of_mul_le_mul_left ?_ hlr
  linarith

end

section
variable {B I : Type} [Space B] [Basis B I ℝ]

/-- SGD cycling through `N` examples whose features have squared length at most `R`. With `τ = lr N R < 1` the squared error
on the examples ends below `1 + (τ / (1 - τ))²` times the least that any weights achieve. -/
theorem C163_sgd (b : B) (n : Nat) (lr : ℝ) (hlr : 0 < lr) (N : Nat) (hN : 0 < N) (R : ℝ)
    (xs : Nat → I) (hxs : ∀ k, xs (k + N) = xs k)
    (hx : ∀ k, ∃ φ, Basis.project b (xs k) = .ok (.ok φ) ∧ Fits n φ ∧ normSq φ ≤ R) (hτ : lr * N * R < 1)
    (ys : Nat → ℝ) (hy : ∀ k, ys (k + N) = ys k)
    (fas : Nat → ScalarLFA B (SGD ℝ) ℝ) (ps : Nat → ℝ) (w : List ℝ) (hs : Stream fas xs ys ps)
    (hw : w.length = n) (h0 : fas 0 = LFA.mk b w (SGD.mk lr)) (ε : ℝ) (hε : 0 < ε) :
    ∃ K, ∀ k, K ≤ k → (∃ ℓ, SquaredError (fas k) xs ys (fun _ => 1) N ℓ) ∧
      ∀ v : List ℝ, v.length = n → ∀ ℓ ℓ', SquaredError (fas k) xs ys (fun _ => 1) N ℓ →
        SquaredError (LFA.mk b v (SGD.mk lr) : ScalarLFA B (SGD ℝ) ℝ) xs ys (fun _ => 1) N ℓ' →
        ℓ ≤ (1 + (lr * N * R / (1 - lr * N * R)) ^ 2) * ℓ' + ε := by
  choose φ hφ using hx
  have hR0 : 0 ≤ R := (normSq_nonneg (φ 0)).trans (hφ 0).2.2
  have hN1 : (1 : ℝ) ≤ N := by exact_mod_cast hN
  refine cyclic_error hN hxs (sgd_trainsBy b lr n _) φ (fun k => ⟨(hφ k).1, (hφ k).2.1⟩) hlr (c := fun _ => 1)
    (fun k => (mul_one lr).symm) (fun k => ⟨hlr, ?_⟩) (fun k => (hφ k).2.2) ?_ hτ hy hs hw h0 hε
  · have h1 := mul_le_mul_of_nonneg_left (hφ k).2.2 hlr.le
    have h2 : lr * R * 1 ≤ lr * R * N := mul_le_mul_of_nonneg_left hN1 (mul_nonneg hlr.le hR0)
    linarith
  · rw [Finset.sum_const, Finset.card_range, nsmul_eq_mul]
    ring

/-- So small rates come as near to the least squared error as wanted, whatever the targets and the initial weights. -/
theorem C163_sgd_small (b : B) (n : Nat) (N : Nat) (hN : 0 < N) (R : ℝ)
    (xs : Nat → I) (hxs : ∀ k, xs (k + N) = xs k)
    (hx : ∀ k, ∃ φ, Basis.project b (xs k) = .ok (.ok φ) ∧ Fits n φ ∧ normSq φ ≤ R) (δ : ℝ) (hδ : 0 < δ) :
    ∃ lr₀ : ℝ, 0 < lr₀ ∧ ∀ lr, 0 < lr → lr ≤ lr₀ → ∀ ys : Nat → ℝ, (∀ k, ys (k + N) = ys k) →
      ∀ (fas : Nat → ScalarLFA B (SGD ℝ) ℝ) (ps : Nat → ℝ) (w : List ℝ), Stream fas xs ys ps →
      w.length = n → fas 0 = LFA.mk b w (SGD.mk lr) → ∀ ε, 0 < ε →
      ∃ K, ∀ k, K ≤ k → (∃ ℓ, SquaredError (fas k) xs ys (fun _ => 1) N ℓ) ∧
        ∀ v : List ℝ, v.length = n → ∀ ℓ ℓ', SquaredError (fas k) xs ys (fun _ => 1) N ℓ →
          SquaredError (LFA.mk b v (SGD.mk lr) : ScalarLFA B (SGD ℝ) ℝ) xs ys (fun _ => 1) N ℓ' →
          ℓ ≤ (1 + δ) * ℓ' + ε := by
  have hR0 : 0 ≤ R := by
    obtain ⟨φ, -, -, h⟩ := hx 0
    exact (normSq_nonneg φ).trans h
  have hN1 : (0 : ℝ) < N := by exact_mod_cast hN
  have hden : 0 < 2 * (N * (R + 1)) := by positivity
  refine ⟨min 1 δ / (2 * (N * (R + 1))), div_pos (lt_min one_pos hδ) hden, fun lr hlr hle ys hy fas ps w hs hw h0 ε hε => ?_⟩
  rw [le_div_iff₀ hden] at hle
  have hlN : 0 < lr * N := mul_pos hlr hN1
  have h1 : 2 * (lr * N * R) ≤ min 1 δ := by nlinarith
  have h2 := h1.trans (min_le_left _ _)
  have h3 := h1.trans (min_le_right _ _)
  have h4 : 0 ≤ lr * N * R := by positivity
  obtain ⟨K, hK⟩ := C163_sgd b n lr hlr N hN R xs hxs hx (by linarith) ys hy fas ps w hs hw h0 ε hε
  refine ⟨K, fun k hk => ⟨(hK k hk).1, fun v hv ℓ ℓ' hl hl' => ((hK k hk).2 v hv ℓ ℓ' hl hl').trans ?_⟩⟩
  have hℓ' : 0 ≤ ℓ' := by
    obtain ⟨qs, -, rfl⟩ := hl'
    exact Finset.sum_nonneg fun k _ => by positivity
  refine add_le_add (mul_le_mul_of_nonneg_right (add_le_add le_rfl ?_) hℓ') le_rfl
  generalize lr * N * R = τ at *
  have h5 : τ / (1 - τ) ≤ 2 * τ := by
    rw [div_le_iff₀ (by linarith)]
    nlinarith
  have h6 : 0 ≤ τ / (1 - τ) := div_nonneg h4 (by linarith)
  calc (τ / (1 - τ)) ^ 2 ≤ (2 * τ) ^ 2 := pow_le_pow_left₀ h6 h5 2
    _ ≤ δ := by nlinarith

/-- ISGD weighs the errors by `1 / (1 + lr ‖φ‖²)`. -/
theorem C163_isgd (b : B) (n : Nat) (lr : ℝ) (hlr : 0 < lr) (N : Nat) (hN : 0 < N) (R : ℝ)
    (xs : Nat → I) (hxs : ∀ k, xs (k + N) = xs k) (φ : Nat → Features ℝ)
    (hφ : ∀ k, Basis.project b (xs k) = .ok (.ok (φ k)) ∧ Fits n (φ k) ∧ normSq (φ k) ≤ R) (τ : ℝ)
    (hτ : ∑ k ∈ Finset.range N, lr * R / (1 + lr * normSq (φ k)) = τ) (hτ1 : τ < 1)
    (ys : Nat → ℝ) (hy : ∀ k, ys (k + N) = ys k)
    (fas : Nat → ScalarLFA B (ISGD ℝ) ℝ) (ps : Nat → ℝ) (w : List ℝ) (hs : Stream fas xs ys ps)
    (hw : w.length = n) (h0 : fas 0 = LFA.mk b w (ISGD.mk lr)) (ε : ℝ) (hε : 0 < ε) :
    ∃ K, ∀ k, K ≤ k → (∃ ℓ, SquaredError (fas k) xs ys (fun j => 1 / (1 + lr * normSq (φ j))) N ℓ) ∧
      ∀ v : List ℝ, v.length = n → ∀ ℓ ℓ',
        SquaredError (fas k) xs ys (fun j => 1 / (1 + lr * normSq (φ j))) N ℓ →
        SquaredError (LFA.mk b v (ISGD.mk lr) : ScalarLFA B (ISGD ℝ) ℝ) xs ys (fun j => 1 / (1 + lr * normSq (φ j))) N ℓ' →
        ℓ ≤ (1 + (τ / (1 - τ)) ^ 2) * ℓ' + ε := by
  have hd : ∀ k, 0 < 1 + lr * normSq (φ k) := fun k => by
    have := normSq_nonneg (φ k)
    positivity
  refine cyclic_error hN hxs (isgd_trainsBy b lr n _) φ (fun k => ⟨(hφ k).1, (hφ k).2.1⟩) hlr
    (fun k => by rw [mul_one_div]) (fun k => ⟨div_pos hlr (hd k), ?_⟩) (fun k => (hφ k).2.2) ?_ hτ1 hy hs hw h0 hε
  · rw [div_mul_eq_mul_div, div_lt_iff₀ (hd k)]
    have := mul_nonneg hlr.le (normSq_nonneg (φ k))
    linarith
  · rw [← hτ, Finset.mul_sum]
    exact Finset.sum_congr rfl fun k _ => by ring

end

/-- The hypotheses of `C163_sgd` on the inputs: the features `(1, x)` at `x = 1, -1, 1, -1, …` with `lr = 1/16` and
period `4`, so that the targets may be `1, 0, 2, 0, 1, …`, which no weights reproduce. -/
example (k : Nat) : (-1 : ℝ) ^ (k + 4) = (-1) ^ k ∧ (1 / 16 : ℝ) * (4 : ℕ) * 2 < 1 ∧
    ∃ φ, Basis.project line ((-1 : ℝ) ^ k) = .ok (.ok φ) ∧ Fits 2 φ ∧ normSq φ ≤ 2 := by
  refine ⟨by ring, by norm_num, _, (line_fits _).1, (line_fits _).2.1, ?_⟩
  rw [(line_fits _).2.2, ← pow_mul, mul_comm k, pow_mul]
  norm_num

end Lfa

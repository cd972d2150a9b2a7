import Verif.Proofs.Average
import Verif.Spec.Sampling
import Verif.Props.C103_C104

/-!
# C132–C133: training on examples drawn at random from a finite set

Exact arithmetic. The targets are arbitrary.
-/

set_option linter.unusedSectionVars false

namespace Lfa

open Spec Filter Topology

section
variable {B I O : Type} [Space B] [Basis B I ℝ] [Optimiser O ℝ] {N : Nat}

theorem average_avg (k : Nat) (g : List (Fin N) → ℝ) : average k g = Sweep.avg k g := by
  unfold average Sweep.avg
  rw [smul_eq_mul, div_eq_inv_mul]

theorem sampling_point {b : B} {o : O} {n : Nat} {rate : Features ℝ → ℝ} {x : Fin N → I}
    (ht : TrainsBy b o n rate (fun _ : I => True)) {φ : Fin N → Features ℝ}
    (hφ : ∀ j, Basis.project b (x j) = .ok (.ok (φ j)) ∧ Fits n (φ j)) {y : Fin N → ℝ}
    {fa : List (Fin N) → ScalarLFA B O ℝ} (hs : Sampling x y fa) {w : List ℝ} (hw : w.length = n)
    (h0 : fa [] = LFA.mk b w o) :
    (∀ l, fa l = LFA.mk b (fa l).weights o ∧ (fa l).weights.length = n) ∧
    Sweep.Draws (fun j => rate (φ j)) (fun j => featurePoint n (φ j)) y
      (fun l => toPoint n (fa l).weights) := by
  have key : ∀ l, fa l = LFA.mk b (fa l).weights o ∧ (fa l).weights.length = n := by
    intro l
    induction l using List.reverseRecOn with
    | nil => rw [h0]; exact ⟨rfl, hw⟩
    | append_singleton l j ih =>
      obtain ⟨w', -, s2, s3, s4⟩ := ht _ (x j) (φ j) (y j) trivial ih.2 (hφ j).1 (hφ j).2
      have hu := hs l j
      rw [ih.1] at hu
      have hu := hu.symm.trans s2
      simp only [Except.ok.injEq, Prod.mk.injEq, true_and] at hu
      rw [hu]
      exact ⟨rfl, s3⟩
  refine ⟨key, fun l j => ?_⟩
  have ih := key l
  obtain ⟨w', -, s2, s3, s4⟩ := ht _ (x j) (φ j) (y j) trivial ih.2 (hφ j).1 (hφ j).2
  have hu := hs l j
  rw [ih.1] at hu
  have hu := hu.symm.trans s2
  simp only [Except.ok.injEq, Prod.mk.injEq, true_and] at hu
  show toPoint n (fa (l ++ [j])).weights = _
  rw [hu]
  exact trains_point (hφ j).2.2 s4

theorem sqError_point {n : Nat} {φ : Fin N → Features ℝ} (hφ : ∀ j, Fits n (φ j)) (c : Fin N → ℝ)
    (y : Fin N → ℝ) (v : List ℝ) : sqError c φ y v =
      ∑ j, c j * (y j - inner ℝ (featurePoint n (φ j)) (toPoint n v)) ^ 2 := by
  unfold sqError
  refine Finset.sum_congr rfl fun j _ => ?_
  rw [point_inner (hφ j).2]

/-- Everything about runs with step sizes `rate φ`. -/
theorem sampling_all {b : B} {o : O} {n : Nat} {rate : Features ℝ → ℝ} (hN : 0 < N) {x : Fin N → I}
    (ht : TrainsBy b o n rate (fun _ : I => True)) {φ : Fin N → Features ℝ}
    (hφ : ∀ j, Basis.project b (x j) = .ok (.ok (φ j)) ∧ Fits n (φ j))
    (hr : ∀ j, 0 < rate (φ j) ∧ rate (φ j) * normSq (φ j) < 2) :
    ∃ r : ℝ, 0 < r ∧ r < 1 ∧ ∀ (y : Fin N → ℝ) (w : List ℝ), w.length = n → ∃ v, v.length = n ∧
      (∀ z, z.length = n → sqError (fun j => rate (φ j)) φ y v ≤ sqError (fun j => rate (φ j)) φ y z ∧
        (sqError (fun j => rate (φ j)) φ y z = sqError (fun j => rate (φ j)) φ y v →
          distSq n w z = distSq n w v + distSq n v z ∧ ∀ j, Spec.inner (φ j) z = Spec.inner (φ j) v)) ∧
      ∀ (fa : List (Fin N) → ScalarLFA B O ℝ), Sampling x y fa → fa [] = LFA.mk b w o →
        (∀ k, ∑ i ∈ Finset.range n, (average k (fun l => entry (fa l).weights i) - entry v i) ^ 2 ≤
          r ^ (2 * k) * distSq n w v) ∧
        ∃ C, ∀ k, average k (fun l => distSq n (fa l).weights v) ≤
            C * r ^ k + ((∑ j, (rate (φ j) * (y j - Spec.inner (φ j) v)) ^ 2 * normSq (φ j)) / N) / (1 - r ^ 2) ∧
          (∑ j, (rate (φ j) * (y j - Spec.inner (φ j) v)) ^ 2 * normSq (φ j)) / N - C * r ^ k ≤
            average (k + 1) (fun l => distSq n (fa l).weights v) := by
  set a : Fin N → ℝ := fun j => rate (φ j) with ha
  set f : Fin N → EuclideanSpace ℝ (Fin n) := fun j => featurePoint n (φ j) with hf
  have hst : ∀ j, 0 < a j ∧ a j * ‖f j‖ ^ 2 < 2 := fun j => by
    rw [hf]
    simp only
    rw [point_normSq (hφ j).2.2]
    exact hr j
  obtain ⟨r₀, p0, p1, hr₀⟩ := Sweep.mean_factor (a := a) (f := f) hN hst
  set r : ℝ := max r₀ (1 / 2) with hrd
  have hr0 : 0 < r := lt_of_lt_of_le (by norm_num) (le_max_right _ _)
  have hr1 : r < 1 := max_lt p1 (by norm_num)
  have hrr : ∀ u ∈ Sweep.U f, (N : ℝ)⁻¹ * ∑ j, ‖Sweep.lin (a j) (f j) u‖ ^ 2 ≤ r ^ 2 * ‖u‖ ^ 2 :=
    fun u hu => (hr₀ u hu).trans (mul_le_mul_of_nonneg_right
      (pow_le_pow_left₀ p0 (le_max_left _ _) 2) (sq_nonneg _))
  refine ⟨r, hr0, hr1, fun y w hw => ?_⟩
  obtain ⟨p, hp1, hp2⟩ := Sweep.exists_normal (a := a) (f := f) (fun j => (hst j).1) y (toPoint n w)
  have hpv : toPoint n (List.ofFn p.ofLp) = p := toPoint_ofFn p
  set v : List ℝ := List.ofFn p.ofLp with hv
  refine ⟨v, by simp [hv], fun z hz => ?_, fun fa hs h0 => ?_⟩
  · have he : sqError a φ y z = sqError a φ y v +
        ∑ j, a j * inner ℝ (f j) (toPoint n z - toPoint n v) ^ 2 := by
      rw [sqError_point fun j => (hφ j).2, sqError_point fun j => (hφ j).2, hpv]
      exact Sweep.normal_min hp2 (toPoint n z)
    have hnn : ∀ j, 0 ≤ a j * inner ℝ (f j) (toPoint n z - toPoint n v) ^ 2 := fun j =>
      mul_nonneg (hst j).1.le (sq_nonneg _)
    refine ⟨by rw [he]; linarith [Finset.sum_nonneg fun j (_ : j ∈ Finset.univ) => hnn j], fun hq => ?_⟩
    have h1 : ∑ j, a j * inner ℝ (f j) (toPoint n z - toPoint n v) ^ 2 = 0 := by linarith
    have h2 : ∀ j, inner ℝ (f j) (toPoint n z - toPoint n v) = 0 := fun j => by
      have := (Finset.sum_eq_zero_iff_of_nonneg fun j _ => hnn j).1 h1 j (Finset.mem_univ j)
      exact pow_eq_zero_iff two_ne_zero |>.1 ((mul_eq_zero.1 this).resolve_left (hst j).1.ne')
    constructor
    · have h3 := Sweep.orth_U h2 hp1
      rw [← point_distSq, ← point_distSq, ← point_distSq, ← sub_add_sub_cancel (toPoint n w) (toPoint n v),
        norm_add_sq_real]
      have h4 : inner ℝ (toPoint n w - toPoint n v) (toPoint n v - toPoint n z) = 0 := by
        rw [hpv, ← neg_sub, ← neg_sub (toPoint n z) p, inner_neg_neg]
        rw [hpv] at h3
        exact h3
      rw [h4]
      ring
    · intro j
      have := h2 j
      rw [inner_sub_right, hf] at this
      simp only at this
      rw [point_inner (hφ j).2.2, point_inner (hφ j).2.2] at this
      linarith
  · obtain ⟨hk, hd⟩ := sampling_point ht hφ hs hw h0
    have hm : toPoint n (fa []).weights - p ∈ Sweep.U f := by
      rw [h0, ← neg_sub]
      exact Submodule.neg_mem _ hp1
    have hw0 : toPoint n (fa []).weights = toPoint n w := by rw [h0]
    constructor
    · intro k
      have h1 := Sweep.mean_decay hd hp2 hm hN hr0.le hrr k
      have h2 := pow_le_pow_left₀ (norm_nonneg _) h1 2
      rw [mul_pow, ← pow_mul, mul_comm k 2] at h2
      simp only [hw0] at h2
      rw [← hpv, point_distSq] at h2
      refine le_trans (le_of_eq ?_) h2
      rw [EuclideanSpace.norm_sq_eq, Finset.sum_range]
      refine Finset.sum_congr rfl fun i _ => ?_
      rw [Real.norm_eq_abs, sq_abs, average_avg]
      congr 2
      have := Sweep.avg_map (N := N) (EuclideanSpace.proj (𝕜 := ℝ) i : EuclideanSpace ℝ (Fin n) →L[ℝ] ℝ).toLinearMap k
        fun l => toPoint n (fa l).weights
      exact this
    · obtain ⟨C, hC⟩ := Sweep.square_decay hd hp2 hm hN hr0 hr1 hrr
      refine ⟨C, fun k => ?_⟩
      have hfl : Sweep.floor a f y p =
          (∑ j, (rate (φ j) * (y j - Spec.inner (φ j) v)) ^ 2 * normSq (φ j)) / N := by
        unfold Sweep.floor
        rw [div_eq_inv_mul]
        congr 1
        refine Finset.sum_congr rfl fun j _ => ?_
        rw [← hpv, hf]
        simp only
        rw [point_inner (hφ j).2.2, point_normSq (hφ j).2.2]
      have := hC k
      rw [hfl] at this
      rw [← hpv] at this
      simp only [point_distSq] at this
      rw [average_avg, average_avg]
      exact this

end

/-- The step sizes of ISGD are stable. -/
theorem isgd_stable {lr : ℝ} (hlr : 0 < lr) (φ : Features ℝ) :
    0 < lr / (1 + lr * normSq φ) ∧ lr / (1 + lr * normSq φ) * normSq φ < 2 := by
  have hn := normSq_nonneg φ
  have hd : 0 < 1 + lr * normSq φ := by positivity
  refine ⟨div_pos hlr hd, ?_⟩
  rw [div_mul_eq_mul_div, div_lt_iff₀ hd]
  have := mul_nonneg hlr.le hn
  linarith

/-! ## C132 Mean weights -/

section
variable {B I : Type} [Space B] [Basis B I ℝ] {N : Nat}

/-- SGD on examples drawn at random with `lr ‖φ‖² < 2`: the mean weights converge geometrically to the
least-squares solution nearest to the initial weights. -/
theorem C132_sgd (b : B) (n : Nat) (lr : ℝ) (hlr : 0 < lr) (hN : 0 < N) (x : Fin N → I)
    (φ : Fin N → Features ℝ) (hφ : ∀ j, Basis.project b (x j) = .ok (.ok (φ j)) ∧ Fits n (φ j))
    (hs : ∀ j, lr * normSq (φ j) < 2) :
    ∃ r : ℝ, 0 < r ∧ r < 1 ∧ ∀ (y : Fin N → ℝ) (w : List ℝ), w.length = n → ∃ v, v.length = n ∧
      (∀ z, z.length = n → sqError (fun _ => 1) φ y v ≤ sqError (fun _ => 1) φ y z) ∧
      (∀ z, z.length = n → sqError (fun _ => 1) φ y z = sqError (fun _ => 1) φ y v →
        distSq n w v ≤ distSq n w z) ∧
      ∀ (fa : List (Fin N) → ScalarLFA B (SGD ℝ) ℝ), Sampling x y fa → fa [] = LFA.mk b w (SGD.mk lr) →
        ∀ k, ∑ i ∈ Finset.range n, (average k (fun l => entry (fa l).weights i) - entry v i) ^ 2 ≤
          r ^ (2 * k) * distSq n w v := by
  obtain ⟨r, r0, r1, H⟩ := sampling_all hN (sgd_trainsBy b lr n _) hφ fun j => ⟨hlr, hs j⟩
  refine ⟨r, r0, r1, fun y w hw => ?_⟩
  obtain ⟨v, v1, v2, v3⟩ := H y w hw
  have he : ∀ z, sqError (fun _ => lr) φ y z = lr * sqError (fun _ => 1) φ y z := fun z => by
    unfold sqError
    rw [Finset.mul_sum]
    exact Finset.sum_congr rfl fun j _ => by ring
  refine ⟨v, v1, fun z hz => ?_, fun z hz hq => ?_, fun fa h1 h2 => (v3 fa h1 h2).1⟩
  · have := (v2 z hz).1
    rw [he, he] at this
    exact le_of_mul_le_mul_left this hlr
  · have := ((v2 z hz).2 (by rw [he, he, hq])).1
    rw [this]
    linarith [distSq_nonneg n v z]

/-- ISGD, for every learning rate: the mean weights converge to the solution of a least-squares problem
that counts an example with features `φ` only `1 / (1 + lr ‖φ‖²)` times. -/
theorem C132_isgd (b : B) (n : Nat) (lr : ℝ) (hlr : 0 < lr) (hN : 0 < N) (x : Fin N → I)
    (φ : Fin N → Features ℝ) (hφ : ∀ j, Basis.project b (x j) = .ok (.ok (φ j)) ∧ Fits n (φ j)) :
    ∃ r : ℝ, 0 < r ∧ r < 1 ∧ ∀ (y : Fin N → ℝ) (w : List ℝ), w.length = n → ∃ v, v.length = n ∧
      (∀ z, z.length = n → sqError (fun j => 1 / (1 + lr * normSq (φ j))) φ y v ≤
        sqError (fun j => 1 / (1 + lr * normSq (φ j))) φ y z) ∧
      (∀ z, z.length = n → sqError (fun j => 1 / (1 + lr * normSq (φ j))) φ y z =
        sqError (fun j => 1 / (1 + lr * normSq (φ j))) φ y v → distSq n w v ≤ distSq n w z) ∧
      ∀ (fa : List (Fin N) → ScalarLFA B (ISGD ℝ) ℝ), Sampling x y fa → fa [] = LFA.mk b w (ISGD.mk lr) →
        ∀ k, ∑ i ∈ Finset.range n, (average k (fun l => entry (fa l).weights i) - entry v i) ^ 2 ≤
          r ^ (2 * k) * distSq n w v := by
  obtain ⟨r, r0, r1, H⟩ := sampling_all hN (isgd_trainsBy b lr n _) hφ fun j => isgd_stable hlr (φ j)
  refine ⟨r, r0, r1, fun y w hw => ?_⟩
  obtain ⟨v, v1, v2, v3⟩ := H y w hw
  have he : ∀ z, sqError (fun j => lr / (1 + lr * normSq (φ j))) φ y z =
      lr * sqError (fun j => 1 / (1 + lr * normSq (φ j))) φ y z := fun z => by
    unfold sqError
    rw [Finset.mul_sum]
    exact Finset.sum_congr rfl fun j _ => by ring
  refine ⟨v, v1, fun z hz => ?_, fun z hz hq => ?_, fun fa h1 h2 => (v3 fa h1 h2).1⟩
  · have := (v2 z hz).1
    rw [he, he] at this
    exact le_of_mul_le_mul_left this hlr
  · have := ((v2 z hz).2 (by rw [he, he, hq])).1
    rw [this]
    linarith [distSq_nonneg n v z]

/-! ## C133 Mean squared distance -/

/-- Weights of least squared error, and the nearest such weights to `w`. -/
def Nearest (n : Nat) (c : Fin N → ℝ) (φ : Fin N → Features ℝ) (y : Fin N → ℝ) (w v : List ℝ) : Prop :=
  v.length = n ∧ (∀ z, z.length = n → sqError c φ y v ≤ sqError c φ y z) ∧
    ∀ z, z.length = n → sqError c φ y z = sqError c φ y v → distSq n w v ≤ distSq n w z

/-- Some weights predict every target, as far as it can be predicted. -/
def Fittable (n : Nat) (φ : Fin N → Features ℝ) (y : Fin N → ℝ) : Prop :=
  ∃ z : List ℝ, z.length = n ∧ ∀ j, normSq (φ j) = 0 ∨ Spec.inner (φ j) z = y j

theorem inner_of_normSq {n : Nat} {φ : Features ℝ} (h : Fits n φ) (h0 : normSq φ = 0) (v : List ℝ) :
    Spec.inner φ v = 0 := by
  rw [← point_inner h.2, (norm_eq_zero.1 (pow_eq_zero_iff two_ne_zero |>.1 ((point_normSq h.2).trans h0))),
    inner_zero_left]

theorem sampling_square {O : Type} [Optimiser O ℝ] {b : B} {o : O} {n : Nat} {rate : Features ℝ → ℝ}
    (hN : 0 < N) {x : Fin N → I} (ht : TrainsBy b o n rate (fun _ : I => True)) {φ : Fin N → Features ℝ}
    (hφ : ∀ j, Basis.project b (x j) = .ok (.ok (φ j)) ∧ Fits n (φ j))
    (hr : ∀ j, 0 < rate (φ j) ∧ rate (φ j) * normSq (φ j) < 2) :
    ∃ r : ℝ, 0 < r ∧ r < 1 ∧ ∀ (y : Fin N → ℝ) (w v : List ℝ), w.length = n →
      Nearest n (fun j => rate (φ j)) φ y w v →
      ∀ (fa : List (Fin N) → ScalarLFA B O ℝ), Sampling x y fa → fa [] = LFA.mk b w o →
        ∀ S : ℝ, S = (∑ j, (rate (φ j) * (y j - Spec.inner (φ j) v)) ^ 2 * normSq (φ j)) / N →
        (∃ C, ∀ k, average k (fun l => distSq n (fa l).weights v) ≤ C * r ^ k + S / (1 - r ^ 2) ∧
          S - C * r ^ k ≤ average (k + 1) (fun l => distSq n (fa l).weights v)) ∧
        (Tendsto (fun k => average k (fun l => distSq n (fa l).weights v)) atTop (𝓝 0) ↔
          Fittable n φ y) := by
  obtain ⟨r, r0, r1, H⟩ := sampling_all hN ht hφ hr
  refine ⟨r, r0, r1, fun y w v hw hv fa hs h0 S hS => ?_⟩
  obtain ⟨v', v1, v2, v3⟩ := H y w hw
  have hq : sqError (fun j => rate (φ j)) φ y v = sqError (fun j => rate (φ j)) φ y v' :=
    le_antisymm (hv.2.1 v' v1) (v2 v hv.1).1
  have hd := ((v2 v hv.1).2 hq).1
  have hd' := hv.2.2 v' v1 hq.symm
  have hd0 : distSq n v' v = 0 := le_antisymm (by linarith) (distSq_nonneg _ _ _)
  have hvv : v' = v := by
    refine toPoint_injective v1 hv.1 (sub_eq_zero.1 (norm_eq_zero.1 ?_))
    exact pow_eq_zero_iff two_ne_zero |>.1 ((point_distSq v' v).trans hd0)
  subst hvv
  obtain ⟨C, hC⟩ := (v3 fa hs h0).2
  rw [← hS] at hC
  refine ⟨⟨C, hC⟩, ?_⟩
  have hpow : Tendsto (fun k => C * r ^ k) atTop (𝓝 0) := by
    simpa using (tendsto_pow_atTop_nhds_zero_of_lt_one r0.le r1).const_mul C
  have hn : (0 : ℝ) < N := by exact_mod_cast hN
  have hnn : ∀ j, 0 ≤ (rate (φ j) * (y j - Spec.inner (φ j) v')) ^ 2 * normSq (φ j) := fun j =>
    mul_nonneg (sq_nonneg _) (normSq_nonneg _)
  have hS0 : 0 ≤ S := by rw [hS]; exact div_nonneg (Finset.sum_nonneg fun j _ => hnn j) hn.le
  have hiff : S = 0 ↔ ∀ j, normSq (φ j) = 0 ∨ Spec.inner (φ j) v' = y j := by
    rw [hS, div_eq_zero_iff, or_iff_left hn.ne', Finset.sum_eq_zero_iff_of_nonneg fun j _ => hnn j]
    refine ⟨fun h j => ?_, fun h j _ => ?_⟩
    · rcases mul_eq_zero.1 (h j (Finset.mem_univ j)) with h | h
      · have := (mul_eq_zero.1 (pow_eq_zero_iff two_ne_zero |>.1 h)).resolve_left (hr j).1.ne'
        exact .inr (by linarith)
      · exact .inl h
    · rcases h j with h | h
      · rw [h, mul_zero]
      · rw [h]; ring
  constructor
  · intro h
    refine ⟨v', v1, hiff.1 (le_antisymm ?_ hS0)⟩
    have h1 : Tendsto (fun k => S - C * r ^ k) atTop (𝓝 S) := by simpa using hpow.const_sub S
    exact le_of_tendsto_of_tendsto h1 ((tendsto_add_atTop_iff_nat 1).2 h)
      (Eventually.of_forall fun k => (hC k).2)
  · rintro ⟨z, hz, hz'⟩
    have hS0 : S = 0 := hiff.2 fun j => by
      by_cases hj : normSq (φ j) = 0
      · exact .inl hj
      · refine .inr ?_
        -- the error of `z` is all on examples without features
        have h1 : ∀ j, rate (φ j) * (y j - Spec.inner (φ j) z) ^ 2 ≤
            rate (φ j) * (y j - Spec.inner (φ j) v') ^ 2 := fun j => by
          rcases hz' j with h | h
          · rw [inner_of_normSq (hφ j).2 h, inner_of_normSq (hφ j).2 h]
          · rw [h, sub_self]
            exact mul_le_mul_of_nonneg_left (by nlinarith [sq_nonneg (y j - Spec.inner (φ j) v')]) (hr j).1.le
        have h2 : sqError (fun j => rate (φ j)) φ y z ≤ sqError (fun j => rate (φ j)) φ y v' :=
          Finset.sum_le_sum fun j _ => h1 j
        have := ((v2 z hz).2 (le_antisymm h2 (v2 z hz).1)).2 j
        rw [← this]
        exact (hz' j).resolve_left hj
    rw [hS0] at hC
    refine squeeze_zero (fun k => ?_) (fun k => ?_) hpow
    · exact div_nonneg (Finset.sum_nonneg fun s _ => distSq_nonneg _ _ _) (by positivity)
    · simpa using (hC k).1

/-- SGD on examples drawn at random with `lr ‖φ‖² < 2`: the mean squared distance from the nearest
least-squares solution falls geometrically to a level of the order of `S`, the mean of
`lr² residual² ‖φ‖²`, and does not stay below `S`. It tends to 0 exactly when some weights fit all examples
with features. -/
theorem C133_sgd (b : B) (n : Nat) (lr : ℝ) (hlr : 0 < lr) (hN : 0 < N) (x : Fin N → I)
    (φ : Fin N → Features ℝ) (hφ : ∀ j, Basis.project b (x j) = .ok (.ok (φ j)) ∧ Fits n (φ j))
    (hs : ∀ j, lr * normSq (φ j) < 2) :
    ∃ r : ℝ, 0 < r ∧ r < 1 ∧ ∀ (y : Fin N → ℝ) (w v : List ℝ), w.length = n →
      Nearest n (fun _ => 1) φ y w v →
      ∀ (fa : List (Fin N) → ScalarLFA B (SGD ℝ) ℝ), Sampling x y fa → fa [] = LFA.mk b w (SGD.mk lr) →
        ∀ S : ℝ, S = (∑ j, (lr * (y j - Spec.inner (φ j) v)) ^ 2 * normSq (φ j)) / N →
        (∃ C, ∀ k, average k (fun l => distSq n (fa l).weights v) ≤ C * r ^ k + S / (1 - r ^ 2) ∧
          S - C * r ^ k ≤ average (k + 1) (fun l => distSq n (fa l).weights v)) ∧
        (Tendsto (fun k => average k (fun l => distSq n (fa l).weights v)) atTop (𝓝 0) ↔
          Fittable n φ y) := by
  obtain ⟨r, r0, r1, H⟩ := sampling_square hN (sgd_trainsBy b lr n _) hφ fun j => ⟨hlr, hs j⟩
  refine ⟨r, r0, r1, fun y w v hw hv => H y w v hw ?_⟩
  have he : ∀ z, sqError (fun _ => lr) φ y z = lr * sqError (fun _ => 1) φ y z := fun z => by
    unfold sqError
    rw [Finset.mul_sum]
    exact Finset.sum_congr rfl fun j _ => by ring
  refine ⟨hv.1, fun z hz => ?_, fun z hz hq => ?_⟩
  · rw [he, he]
    exact mul_le_mul_of_nonneg_left (hv.2.1 z hz) hlr.le
  · rw [he, he] at hq
    exact hv.2.2 z hz (mul_left_cancel₀ hlr.ne' hq)

/-- ISGD, for every learning rate. -/
theorem C133_isgd (b : B) (n : Nat) (lr : ℝ) (hlr : 0 < lr) (hN : 0 < N) (x : Fin N → I)
    (φ : Fin N → Features ℝ) (hφ : ∀ j, Basis.project b (x j) = .ok (.ok (φ j)) ∧ Fits n (φ j)) :
    ∃ r : ℝ, 0 < r ∧ r < 1 ∧ ∀ (y : Fin N → ℝ) (w v : List ℝ), w.length = n →
      Nearest n (fun j => lr / (1 + lr * normSq (φ j))) φ y w v →
      ∀ (fa : List (Fin N) → ScalarLFA B (ISGD ℝ) ℝ), Sampling x y fa → fa [] = LFA.mk b w (ISGD.mk lr) →
        ∀ S : ℝ, S = (∑ j, (lr / (1 + lr * normSq (φ j)) * (y j - Spec.inner (φ j) v)) ^ 2 * normSq (φ j)) / N →
        (∃ C, ∀ k, average k (fun l => distSq n (fa l).weights v) ≤ C * r ^ k + S / (1 - r ^ 2) ∧
          S - C * r ^ k ≤ average (k + 1) (fun l => distSq n (fa l).weights v)) ∧
        (Tendsto (fun k => average k (fun l => distSq n (fa l).weights v)) atTop (𝓝 0) ↔
          Fittable n φ y) :=
  sampling_square hN (isgd_trainsBy b lr n _) hφ fun j => isgd_stable hlr (φ j)

/-- Runs of random draws exist, from any weights. -/
theorem C132_sampling_exists (b : B) (n : Nat) (lr : ℝ) (x : Fin N → I) (y : Fin N → ℝ) (w : List ℝ)
    (hw : w.length = n) (hx : ∀ j, ∃ φ, Basis.project b (x j) = .ok (.ok φ) ∧ Fits n φ) :
    (∃ fa : List (Fin N) → ScalarLFA B (SGD ℝ) ℝ, Sampling x y fa ∧ fa [] = LFA.mk b w (SGD.mk lr)) ∧
    (∃ fa : List (Fin N) → ScalarLFA B (ISGD ℝ) ℝ, Sampling x y fa ∧ fa [] = LFA.mk b w (ISGD.mk lr)) := by
  choose φ hφ using hx
  have key : ∀ {O : Type} [Optimiser O ℝ] (o : O) (rate : Features ℝ → ℝ),
      TrainsBy b o n rate (fun _ : I => True) →
      ∃ fa : List (Fin N) → ScalarLFA B O ℝ, Sampling x y fa ∧ fa [] = LFA.mk b w o := by
    intro O _ o rate ht
    have step : ∀ (u : {u : List ℝ // u.length = n}) (j : Fin N), ∃ u' : {u : List ℝ // u.length = n},
        ScalarLFA.updateWith (LFA.mk b u.1 o) (x j) (fun _ p => y j - p) =
          .ok (.ok (), LFA.mk b u'.1 o) := fun u j => by
      obtain ⟨w', -, s2, s3, -⟩ := ht u.1 (x j) (φ j) (y j) trivial u.2 (hφ j).1 (hφ j).2
      exact ⟨⟨w', s3⟩, s2⟩
    choose nxt hn using step
    refine ⟨fun l => LFA.mk b (l.foldl nxt ⟨w, hw⟩).1 o, fun l j => ?_, rfl⟩
    simp only [List.foldl_append, List.foldl_cons, List.foldl_nil]
    exact hn _ j
  exact ⟨key _ _ (sgd_trainsBy b lr n _), key _ _ (isgd_trainsBy b lr n _)⟩

end

/-- The hypotheses of `C133_sgd`: the line through `x = 1` and `x = -1` with `lr = 1/4`. The targets can be
fitted, so the weights converge in mean square. -/
example : Fittable 2 (fun j : Fin 2 => .dense [1, if j = 0 then 1 else -1]) (fun j => if j = 0 then 3 else 5) := by
  refine ⟨[4, -1], rfl, fun j => .inr ?_⟩
  fin_cases j
  · show (1 : ℝ) * 4 + (1 * -1 + 0) = 3
    norm_num
  · show (1 : ℝ) * 4 + (-1 * -1 + 0) = 5
    norm_num

/-- Two targets for the same input cannot be fitted: the weights never settle. -/
example : ¬ Fittable 1 (fun _ : Fin 2 => .dense [1]) (fun j => if j = 0 then 3 else 5) := by
  rintro ⟨z, -, h⟩
  have hn : normSq (.dense [1]) ≠ 0 := by simp [normSq, dim, value]
  have h0 := (h 0).resolve_left hn
  have h1 := (h 1).resolve_left hn
  rw [h0] at h1
  norm_num at h1

end Lfa

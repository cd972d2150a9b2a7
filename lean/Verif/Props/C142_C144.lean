import Verif.Props.C141
import Verif.Props.C72_C79

/-!
# C142–C144: where training towards the approximator's own predictions converges

Exact arithmetic. C142: a uniform grid, transitions in any order. C143: any basis, transitions of a closed
trajectory drawn at random. C144: how good the limit of C143 is.
-/

set_option linter.unusedSectionVars false

namespace Lfa

open Spec Filter Topology

/-! ## C142 Tables -/

/-- `x` and `y` lie in the same partition in every coordinate. -/
def SameCell (ds : List (Equipartition ℝ)) (x y : List ℝ) : Prop :=
  ∀ (i : Nat) (d : Equipartition ℝ) (u v : ℝ), ds[i]? = some d → x[i]? = some u →
    y[i]? = some v → d.mapOnto u = d.mapOnto v

theorem one_hot_value (n k i : Nat) : value (.sparse ⟨n, [(k, (1 : ℝ))]⟩) i = if i = k then 1 else 0 := by
  unfold value
  simp only [List.find?_cons, List.find?_nil]
  by_cases h : k = i
  · simp [h]
  · rw [if_neg (Ne.symm h), beq_false_of_ne h]
    exact real_zero

theorem one_hot_inner {n k : Nat} (hk : k < n) (w : List ℝ) :
    Spec.inner (.sparse ⟨n, [(k, (1 : ℝ))]⟩) w = entry w k := by
  rw [inner_eq]
  show ∑ i ∈ Finset.range n, _ = _
  simp only [one_hot_value]
  rw [Finset.sum_eq_single k]
  · simp
  · intro i _ hi
    simp [hi]
  · intro h
    exact absurd (Finset.mem_range.2 hk) h

theorem one_hot_normSq {n k : Nat} (hk : k < n) : normSq (.sparse ⟨n, [(k, (1 : ℝ))]⟩) = 1 := by
  unfold normSq
  show ∑ i ∈ Finset.range n, _ = _
  simp only [one_hot_value]
  rw [Finset.sum_eq_single k]
  · simp
  · intro i _ hi
    simp [hi]
  · intro h
    exact absurd (Finset.mem_range.2 hk) h

theorem grid_bootstrap {O : Type} [Optimiser O ℝ] (ds : List (Equipartition ℝ)) (h : ∀ d ∈ ds, d.Lawful)
    (hds : ds ≠ []) {o : O} {rate : Features ℝ → ℝ} {α γ : ℝ}
    (ht : TrainsBy (UniformGrid.new ds) o (ds.map Equipartition.nPartitions).prod rate (fun _ : List ℝ => True))
    (hα : ∀ φ, normSq φ = 1 → rate φ = α) (h0α : 0 < α) (hα1 : α ≤ 1) (hγ : 0 ≤ γ) (hγ1 : γ < 1)
    (V : List ℝ → ℝ)
    (hV : ∀ x y, x.length = ds.length → y.length = ds.length → SameCell ds x y → V x = V y)
    (xs xs' : Nat → List ℝ) (rs : Nat → ℝ) (hl : ∀ k, (xs k).length = ds.length)
    (hl' : ∀ k, (xs' k).length = ds.length) (hc : ∀ k, V (xs k) = rs k + γ * V (xs' k))
    (hv : ∀ k m, ∃ j, m ≤ j ∧ SameCell ds (xs j) (xs' k))
    (w : List ℝ) (hw : w.length = (ds.map Equipartition.nPartitions).prod)
    (fas : Nat → ScalarLFA (UniformGrid ℝ) O ℝ) (h0 : fas 0 = LFA.mk (UniformGrid.new ds) w o)
    (hs : ∀ k, Bootstraps γ (fas k) (xs k) (rs k) (xs' k) (fas (k + 1)))
    (x : List ℝ) (hx : x.length = ds.length) (hi : ∀ m, ∃ j, m ≤ j ∧ SameCell ds (xs j) x) :
    ∃ p : Nat → ℝ, (∀ k, (fas k).evaluate x = .ok (.ok (p k))) ∧ Tendsto p atTop (𝓝 (V x)) := by
  classical
  set n := (ds.map Equipartition.nPartitions).prod with hn
  have cell : ∀ x : {x : List ℝ // x.length = ds.length}, ∃ k, Basis.project (UniformGrid.new ds) x.1 =
      .ok (.ok (.sparse ⟨n, [(k, (1 : ℝ))]⟩)) ∧ k < n ∧ Fits n (.sparse ⟨n, [(k, (1 : ℝ))]⟩) := by
    rintro ⟨x, hx⟩
    have := grid_fits ds h hds x (length_ne_nil hds hx)
    rw [real_one] at this
    exact this
  choose c c1 c2 c3 using cell
  have hcc : ∀ x y, SameCell ds x.1 y.1 ↔ c x = c y := by
    intro x y
    have e1 := C34_injective ds h hds x.1 y.1 x.2 y.2
    rw [c1 x, c1 y] at e1
    constructor
    · intro hsc
      have := e1.2 hsc
      injection this with this
      injection this with this
      injection this with this
      injection this with _ this
      injection this with this
      injection this
    · intro hsc
      exact e1.1 (by rw [hsc])
  set Vc : Nat → ℝ := fun i => if hex : ∃ x, c x = i then V hex.choose.1 else 0 with hVc
  have hVc' : ∀ x, V x.1 = Vc (c x) := by
    intro x
    have hex : ∃ y, c y = c x := ⟨x, rfl⟩
    show V x.1 = if hex : ∃ y, c y = c x then V hex.choose.1 else 0
    rw [dif_pos hex]
    exact hV _ _ x.2 hex.choose.2 ((hcc _ _).2 hex.choose_spec.symm)
  have key : ∀ k, ∃ v, fas k = LFA.mk (UniformGrid.new ds) v o ∧ v.length = n := by
    intro k
    induction k with
    | zero => exact ⟨w, h0, hw⟩
    | succ k ih =>
      obtain ⟨v, h1, h2⟩ := ih
      obtain ⟨w', s1, s2, -⟩ := bootstraps_iff ht h2 (c1 ⟨xs k, hl k⟩) (c3 ⟨xs k, hl k⟩)
        (c1 ⟨xs' k, hl' k⟩) (c3 ⟨xs' k, hl' k⟩) γ (rs k)
      have := hs k
      rw [h1] at this
      exact ⟨w', (s2 _).1 this, s1⟩
  choose v hvk hlv using key
  set s : Nat → Nat := fun k => c ⟨xs k, hl k⟩ with hsd
  set t : Nat → Nat := fun k => c ⟨xs' k, hl' k⟩ with htd
  have step : ∀ k i, entry (v (k + 1)) i =
      if i = s k then (1 - α) * entry (v k) i + α * (rs k + γ * entry (v k) (t k)) else entry (v k) i := by
    intro k i
    obtain ⟨w', s1, s2, s3, s4⟩ := bootstraps_iff ht (hlv k) (c1 ⟨xs k, hl k⟩) (c3 ⟨xs k, hl k⟩)
      (c1 ⟨xs' k, hl' k⟩) (c3 ⟨xs' k, hl' k⟩) γ (rs k)
    have := hs k
    rw [hvk k] at this
    have := (s2 _).1 this
    rw [hvk (k + 1)] at this
    injection this with h1 h2 h3
    by_cases hin : i < n
    · rw [h2, s4 i hin, hα _ (one_hot_normSq (c2 _)), one_hot_inner (c2 _), one_hot_inner (c2 _), one_hot_value]
      show entry (v k) i + α * (rs k + γ * entry (v k) (t k) - entry (v k) (s k)) * (if i = s k then 1 else 0) = _
      split_ifs with hik
      · rw [hik]
        ring
      · ring
    · have hne : i ≠ s k := fun hik => hin (hik ▸ c2 _)
      rw [if_neg hne, entry_real, entry_real, List.getD_eq_default _ _ (by rw [hlv]; omega),
        List.getD_eq_default _ _ (by rw [hlv]; omega)]
  set e : Nat → Nat → ℝ := fun k i => entry (v k) i - Vc i with he
  have het : Tendsto (fun k => e k (c ⟨x, hx⟩)) atTop (𝓝 0) := by
    refine Boot.table (s := s) (t := t) (n := n) h0α hα1 hγ hγ1 (fun k => c2 _) (fun k m => ?_) (fun k i => ?_)
      fun m => ?_
    · obtain ⟨j, hj, hj'⟩ := hv k m
      exact ⟨j, hj, (hcc ⟨xs j, hl j⟩ ⟨xs' k, hl' k⟩).1 hj'⟩
    · show entry (v (k + 1)) i - Vc i = if i = s k then (1 - α) * (entry (v k) i - Vc i)
        + α * γ * (entry (v k) (t k) - Vc (t k)) else entry (v k) i - Vc i
      rw [step]
      split_ifs with hik
      · have h1 : Vc (s k) = rs k + γ * Vc (t k) := by
          have := hc k
          rw [hVc' ⟨xs k, hl k⟩, hVc' ⟨xs' k, hl' k⟩] at this
          exact this
        rw [hik, h1]
        ring
      · rfl
    · obtain ⟨j, hj, hj'⟩ := hi m
      exact ⟨j, hj, (hcc ⟨xs j, hl j⟩ ⟨x, hx⟩).1 hj'⟩
  refine ⟨fun k => entry (v k) (c ⟨x, hx⟩), fun k => ?_, ?_⟩
  · show _ = Except.ok (Except.ok (entry (v k) (c ⟨x, hx⟩)))
    rw [hvk k, ← one_hot_inner (c2 ⟨x, hx⟩)]
    exact evaluate_eq (fa := LFA.mk (UniformGrid.new ds) (v k) o) (c1 ⟨x, hx⟩)
      (dot_real (c3 _).1 ((c3 _).2.trans (hlv k).symm))
  · have := het.add_const (Vc (c ⟨x, hx⟩))
    rw [zero_add] at this
    rw [hVc' ⟨x, hx⟩]
    exact this.congr fun k => sub_add_cancel _ _

/-- **C142.** SGD with `0 < lr ≤ 1` on a uniform grid, with `0 ≤ γ < 1`: if values `V`, constant on cells,
satisfy every transition, then, whatever the initial weights and the order of the transitions, as long as the
cells transitions lead to are trained again and again, every prediction in a cell that is trained again and
again converges to `V`. -/
theorem C142_sgd (ds : List (Equipartition ℝ)) (h : ∀ d ∈ ds, d.Lawful) (hds : ds ≠ []) (lr γ : ℝ)
    (hlr : 0 < lr) (hlr1 : lr ≤ 1) (hγ : 0 ≤ γ) (hγ1 : γ < 1) (V : List ℝ → ℝ)
    (hV : ∀ x y, x.length = ds.length → y.length = ds.length → SameCell ds x y → V x = V y)
    (xs xs' : Nat → List ℝ) (rs : Nat → ℝ) (hl : ∀ k, (xs k).length = ds.length)
    (hl' : ∀ k, (xs' k).length = ds.length) (hc : ∀ k, V (xs k) = rs k + γ * V (xs' k))
    (hv : ∀ k m, ∃ j, m ≤ j ∧ SameCell ds (xs j) (xs' k))
    (w : List ℝ) (hw : w.length = (ds.map Equipartition.nPartitions).prod)
    (fas : Nat → ScalarLFA (UniformGrid ℝ) (SGD ℝ) ℝ)
    (h0 : fas 0 = LFA.mk (UniformGrid.new ds) w (SGD.mk lr))
    (hs : ∀ k, Bootstraps γ (fas k) (xs k) (rs k) (xs' k) (fas (k + 1)))
    (x : List ℝ) (hx : x.length = ds.length) (hi : ∀ m, ∃ j, m ≤ j ∧ SameCell ds (xs j) x) :
    ∃ p : Nat → ℝ, (∀ k, (fas k).evaluate x = .ok (.ok (p k))) ∧ Tendsto p atTop (𝓝 (V x)) :=
  grid_bootstrap ds h hds (sgd_trainsBy _ lr _ _) (fun _ _ => rfl) hlr hlr1 hγ hγ1 V hV xs xs' rs hl hl' hc hv
    w hw fas h0 hs x hx hi

/-- **C142.** The same for ISGD with every positive learning rate. -/
theorem C142_isgd (ds : List (Equipartition ℝ)) (h : ∀ d ∈ ds, d.Lawful) (hds : ds ≠ []) (lr γ : ℝ)
    (hlr : 0 < lr) (hγ : 0 ≤ γ) (hγ1 : γ < 1) (V : List ℝ → ℝ)
    (hV : ∀ x y, x.length = ds.length → y.length = ds.length → SameCell ds x y → V x = V y)
    (xs xs' : Nat → List ℝ) (rs : Nat → ℝ) (hl : ∀ k, (xs k).length = ds.length)
    (hl' : ∀ k, (xs' k).length = ds.length) (hc : ∀ k, V (xs k) = rs k + γ * V (xs' k))
    (hv : ∀ k m, ∃ j, m ≤ j ∧ SameCell ds (xs j) (xs' k))
    (w : List ℝ) (hw : w.length = (ds.map Equipartition.nPartitions).prod)
    (fas : Nat → ScalarLFA (UniformGrid ℝ) (ISGD ℝ) ℝ)
    (h0 : fas 0 = LFA.mk (UniformGrid.new ds) w (ISGD.mk lr))
    (hs : ∀ k, Bootstraps γ (fas k) (xs k) (rs k) (xs' k) (fas (k + 1)))
    (x : List ℝ) (hx : x.length = ds.length) (hi : ∀ m, ∃ j, m ≤ j ∧ SameCell ds (xs j) x) :
    ∃ p : Nat → ℝ, (∀ k, (fas k).evaluate x = .ok (.ok (p k))) ∧ Tendsto p atTop (𝓝 (V x)) :=
  grid_bootstrap ds h hds (α := lr / (1 + lr)) (isgd_trainsBy _ lr _ _)
    (fun φ hφ => by rw [hφ, mul_one]) (div_pos hlr (by linarith)) (by rw [div_le_one (by linarith)]; linarith)
    hγ hγ1 V hV xs xs' rs hl hl' hc hv w hw fas h0 hs x hx hi

/-! ## C143 Closed trajectories, any basis -/

section
variable {B I O : Type} [Space B] [Basis B I ℝ] [Optimiser O ℝ] {N : Nat}

/-- At weights `v` the errors of the transitions `j → σ j` cancel along every feature. -/
def Balanced (n : Nat) (γ : ℝ) (φ : Fin N → Features ℝ) (r : Fin N → ℝ) (σ : Equiv.Perm (Fin N))
    (v : List ℝ) : Prop :=
  v.length = n ∧ ∀ i < n,
    ∑ j, (r j + γ * Spec.inner (φ (σ j)) v - Spec.inner (φ j) v) * value (φ j) i = 0

theorem balanced_point {n : Nat} {γ : ℝ} {φ : Fin N → Features ℝ} (hφ : ∀ j, Fits n (φ j)) {r : Fin N → ℝ}
    {σ : Equiv.Perm (Fin N)} {v : List ℝ} (hv : v.length = n) :
    Balanced n γ φ r σ v ↔ ∑ j, (r j + γ * inner ℝ (featurePoint n (φ (σ j))) (toPoint n v)
      - inner ℝ (featurePoint n (φ j)) (toPoint n v)) • featurePoint n (φ j) = 0 := by
  have e : ∀ j, r j + γ * inner ℝ (featurePoint n (φ (σ j))) (toPoint n v)
      - inner ℝ (featurePoint n (φ j)) (toPoint n v) =
      r j + γ * Spec.inner (φ (σ j)) v - Spec.inner (φ j) v := fun j => by
    rw [point_inner (hφ j).2, point_inner (hφ (σ j)).2]
  simp only [e]
  have e2 : ∀ i : Fin n, (∑ j, (r j + γ * Spec.inner (φ (σ j)) v - Spec.inner (φ j) v) •
      featurePoint n (φ j)).ofLp i =
      ∑ j, (r j + γ * Spec.inner (φ (σ j)) v - Spec.inner (φ j) v) * value (φ j) i := fun i => by
    have := map_sum (EuclideanSpace.proj (𝕜 := ℝ) i : EuclideanSpace ℝ (Fin n) →L[ℝ] ℝ)
      (fun j => (r j + γ * Spec.inner (φ (σ j)) v - Spec.inner (φ j) v) • featurePoint n (φ j)) Finset.univ
    exact this
  constructor
  · rintro ⟨-, h⟩
    ext i
    rw [e2]
    exact h i i.2
  · intro h
    refine ⟨hv, fun i hi => ?_⟩
    have := e2 ⟨i, hi⟩
    rw [h] at this
    exact this.symm

theorem boot_point {b : B} {o : O} {n : Nat} {α γ : ℝ} {x : Fin N → I} {σ : Equiv.Perm (Fin N)}
    (ht : TrainsBy b o n (fun _ => α) (fun _ : I => True)) {φ : Fin N → Features ℝ}
    (hφ : ∀ j, Basis.project b (x j) = .ok (.ok (φ j)) ∧ Fits n (φ j)) {r : Fin N → ℝ}
    {fa : List (Fin N) → ScalarLFA B O ℝ} (hs : BootSampling γ x r (fun j => x (σ j)) fa) {w : List ℝ}
    (hw : w.length = n) (h0 : fa [] = LFA.mk b w o) :
    ∀ l j, toPoint n (fa (l ++ [j])).weights = toPoint n (fa l).weights +
      (α * (r j + γ * inner ℝ (featurePoint n (φ (σ j))) (toPoint n (fa l).weights)
        - inner ℝ (featurePoint n (φ j)) (toPoint n (fa l).weights))) • featurePoint n (φ j) := by
  have key : ∀ l, fa l = LFA.mk b (fa l).weights o ∧ (fa l).weights.length = n := by
    intro l
    induction l using List.reverseRecOn with
    | nil => rw [h0]; exact ⟨rfl, hw⟩
    | append_singleton l j ih =>
      obtain ⟨w', s1, s2, -⟩ := bootstraps_iff ht ih.2 (hφ j).1 (hφ j).2 (hφ (σ j)).1 (hφ (σ j)).2 γ (r j)
      have hu := hs l j
      rw [ih.1] at hu
      rw [(s2 _).1 hu]
      exact ⟨rfl, s1⟩
  intro l j
  have ih := key l
  obtain ⟨w', s1, s2, -, s4⟩ := bootstraps_iff ht ih.2 (hφ j).1 (hφ j).2 (hφ (σ j)).1 (hφ (σ j)).2 γ (r j)
  have hu := hs l j
  rw [ih.1] at hu
  rw [(s2 _).1 hu, point_inner (hφ j).2.2, point_inner (hφ (σ j)).2.2]
  ext i
  exact s4 i i.2

end

section
variable {B I : Type} [Space B] [Basis B I ℝ] {N : Nat}

/-- **C143.** Transitions `x j → x (σ j)` of closed trajectories (every state is left as often as it is
entered), drawn at random. SGD with `lr ‖φ‖² (1 + γ)² < 2 (1 - γ)`: some weights `v` balance the errors, all
such weights give the same predictions, the mean weights converge to `v` geometrically, and the mean squared
distance falls to a level set by the errors that remain at `v`. -/
theorem C143_sgd (b : B) (n : Nat) (lr γ : ℝ) (hlr : 0 < lr) (hγ : 0 ≤ γ) (hγ1 : γ < 1) (hN : 0 < N)
    (x : Fin N → I) (σ : Equiv.Perm (Fin N)) (φ : Fin N → Features ℝ)
    (hφ : ∀ j, Basis.project b (x j) = .ok (.ok (φ j)) ∧ Fits n (φ j))
    (hs : ∀ j, lr * normSq (φ j) * (1 + γ) ^ 2 < 2 * (1 - γ)) :
    ∃ q : ℝ, 0 < q ∧ q < 1 ∧ ∀ (r : Fin N → ℝ) (w : List ℝ), w.length = n → ∃ v, Balanced n γ φ r σ v ∧
      (∀ z, Balanced n γ φ r σ z → ∀ j, Spec.inner (φ j) z = Spec.inner (φ j) v) ∧
      ∀ (fa : List (Fin N) → ScalarLFA B (SGD ℝ) ℝ), BootSampling γ x r (fun j => x (σ j)) fa →
        fa [] = LFA.mk b w (SGD.mk lr) →
        (∀ k, ∑ i ∈ Finset.range n, (average k (fun l => entry (fa l).weights i) - entry v i) ^ 2 ≤
          q ^ (2 * k) * distSq n w v) ∧
        ∃ C, ∀ k, average k (fun l => distSq n (fa l).weights v) ≤ C * q ^ k +
          ((∑ j, (lr * (r j + γ * Spec.inner (φ (σ j)) v - Spec.inner (φ j) v)) ^ 2 * normSq (φ j)) / N)
            / (1 - q ^ 2) := by
  set f : Fin N → EuclideanSpace ℝ (Fin n) := fun j => featurePoint n (φ j) with hf
  have hφ' : ∀ j, Fits n (φ j) := fun j => (hφ j).2
  obtain ⟨q, q0, q1, hq⟩ := Boot.factor (f := f) hN σ hlr hγ fun j => by
    rw [hf]
    simp only
    rw [point_normSq (hφ' j).2]
    exact hs j
  refine ⟨q, q0, q1, fun r w hw => ?_⟩
  obtain ⟨p, hp1, hp2⟩ := Boot.exists_balanced f σ hγ hγ1 r (toPoint n w)
  have hpv : toPoint n (List.ofFn p.ofLp) = p := toPoint_ofFn p
  set v : List ℝ := List.ofFn p.ofLp with hv
  have hvl : v.length = n := by simp [hv]
  refine ⟨v, (balanced_point hφ' hvl).2 (by rw [hpv]; exact hp2), fun z hz j => ?_, fun fa hfa h0 => ?_⟩
  · have hz2 := (balanced_point hφ' hz.1).1 hz
    have h1 : ∑ j, (inner ℝ (f j) (p - toPoint n z) - γ * inner ℝ (f (σ j)) (p - toPoint n z)) • f j = 0 := by
      rw [← sub_eq_zero.2 (hz2.trans hp2.symm), ← Finset.sum_sub_distrib]
      refine Finset.sum_congr rfl fun j _ => ?_
      rw [← sub_smul, inner_sub_right, inner_sub_right]
      congr 1
      ring
    have h2 := Boot.drift_zero σ hγ hγ1 h1 j
    rw [← hpv, inner_sub_right, hf] at h2
    simp only at h2
    rw [point_inner (hφ' j).2, point_inner (hφ' j).2] at h2
    linarith
  · have hd := boot_point (sgd_trainsBy b lr n _) hφ hfa hw h0
    set W : List (Fin N) → EuclideanSpace ℝ (Fin n) := fun l => toPoint n (fa l).weights with hW
    set c : Fin N → EuclideanSpace ℝ (Fin n) := fun j =>
      (lr * (r j + γ * inner ℝ (f (σ j)) p - inner ℝ (f j) p)) • f j with hc
    have hstep : ∀ l j, W (l ++ [j]) - p = Boot.lin lr γ (f j) (f (σ j)) (W l - p) + c j := by
      intro l j
      rw [Boot.lin_apply, hc]
      show toPoint n (fa (l ++ [j])).weights - p = _
      rw [hd l j, inner_sub_right, inner_sub_right]
      show W l + (lr * (r j + γ * inner ℝ (f (σ j)) (W l) - inner ℝ (f j) (W l))) • f j - p =
        W l - p - (lr * (inner ℝ (f j) (W l) - inner ℝ (f j) p - γ * (inner ℝ (f (σ j)) (W l) -
          inner ℝ (f (σ j)) p))) • f j + (lr * (r j + γ * inner ℝ (f (σ j)) p - inner ℝ (f j) p)) • f j
      module
    have hc0 : ∑ j, c j = 0 := by
      have := congrArg (fun u => lr • u) hp2
      simp only [Finset.smul_sum, smul_smul, smul_zero] at this
      exact this
    have hm : ∀ l, W l - p ∈ Sweep.U f := by
      intro l
      induction l using List.reverseRecOn with
      | nil =>
        show toPoint n (fa []).weights - p ∈ Sweep.U f
        rw [h0, ← neg_sub]
        exact Submodule.neg_mem _ hp1
      | append_singleton l j ih =>
        rw [hstep, Boot.lin_apply]
        exact Submodule.add_mem _ (Submodule.sub_mem _ ih (Submodule.smul_mem _ _ (Sweep.mem_U j)))
          (Submodule.smul_mem _ _ (Sweep.mem_U j))
    have hw0 : W [] = toPoint n w := by
      show toPoint n (fa []).weights = _
      rw [h0]
    constructor
    · intro k
      have h1 := Boot.affine_mean hN hstep hc0 hm q0.le hq k
      rw [Sweep.avg_sub_const hN] at h1
      have h2 := pow_le_pow_left₀ (norm_nonneg _) h1 2
      rw [mul_pow, ← pow_mul, mul_comm k 2, hw0, ← hpv, point_distSq] at h2
      refine le_trans (le_of_eq ?_) h2
      rw [EuclideanSpace.norm_sq_eq, Finset.sum_range]
      refine Finset.sum_congr rfl fun i _ => ?_
      rw [Real.norm_eq_abs, sq_abs, average_avg]
      congr 2
      exact Sweep.avg_map (N := N)
        (EuclideanSpace.proj (𝕜 := ℝ) i : EuclideanSpace ℝ (Fin n) →L[ℝ] ℝ).toLinearMap k W
    · obtain ⟨C, hC⟩ := Boot.affine_square hN hstep hc0 hm q0 q1 hq
      refine ⟨C, fun k => ?_⟩
      have h3 : (N : ℝ)⁻¹ * ∑ j, ‖c j‖ ^ 2 = (∑ j, (lr * (r j + γ * Spec.inner (φ (σ j)) v
          - Spec.inner (φ j) v)) ^ 2 * normSq (φ j)) / N := by
        rw [div_eq_inv_mul]
        congr 1
        refine Finset.sum_congr rfl fun j _ => ?_
        show ‖(lr * (r j + γ * inner ℝ (f (σ j)) p - inner ℝ (f j) p)) • f j‖ ^ 2 = _
        rw [norm_smul, mul_pow, Real.norm_eq_abs, sq_abs, ← hpv, hf]
        simp only
        rw [point_inner (hφ' j).2, point_inner (hφ' (σ j)).2, point_normSq (hφ' j).2]
      have h4 := hC k
      rw [h3, ← hpv] at h4
      rw [average_avg]
      refine le_trans (le_of_eq ?_) h4
      congr 1
      funext l
      exact (point_distSq _ _).symm

/-- Random bootstrapped runs exist, from any weights. -/
theorem C143_sampling_exists (b : B) (n : Nat) (lr γ : ℝ) (x x' : Fin N → I) (r : Fin N → ℝ) (w : List ℝ)
    (hw : w.length = n) (hx : ∀ j, ∃ φ, Basis.project b (x j) = .ok (.ok φ) ∧ Fits n φ)
    (hx' : ∀ j, ∃ φ, Basis.project b (x' j) = .ok (.ok φ) ∧ Fits n φ) :
    ∃ fa : List (Fin N) → ScalarLFA B (SGD ℝ) ℝ, BootSampling γ x r x' fa ∧
      fa [] = LFA.mk b w (SGD.mk lr) := by
  have step : ∀ (u : {u : List ℝ // u.length = n}) (j : Fin N), ∃ u' : {u : List ℝ // u.length = n},
      Bootstraps γ (LFA.mk b u.1 (SGD.mk lr)) (x j) (r j) (x' j) (LFA.mk b u'.1 (SGD.mk lr)) := fun u j => by
    obtain ⟨φ, p1, p2⟩ := hx j
    obtain ⟨ψ, p3, p4⟩ := hx' j
    obtain ⟨w', s1, s2, -⟩ := bootstraps_iff (sgd_trainsBy b lr n (fun _ => True)) u.2 p1 p2 p3 p4 γ (r j)
    exact ⟨⟨w', s1⟩, (s2 _).2 rfl⟩
  choose nxt hn using step
  refine ⟨fun l => LFA.mk b (l.foldl nxt ⟨w, hw⟩).1 (SGD.mk lr), fun l j => ?_, rfl⟩
  simp only [List.foldl_append, List.foldl_cons, List.foldl_nil]
  exact hn _ j

/-! ## C144 Quality of the limit -/

/-- **C144.** Let `V` be the exact values of the closed trajectories, `V j = r j + γ V (σ j)`. The predictions
at balanced weights are at most a factor `1 / (1 - γ²)` (in squared error) worse than those of the best
weights. -/
theorem C144_quality (n : Nat) (γ : ℝ) (φ : Fin N → Features ℝ) (hφ : ∀ j, Fits n (φ j)) (r : Fin N → ℝ)
    (σ : Equiv.Perm (Fin N)) (V : Fin N → ℝ) (hV : ∀ j, V j = r j + γ * V (σ j)) (v : List ℝ)
    (hv : Balanced n γ φ r σ v) (z : List ℝ) :
    (1 - γ ^ 2) * sqError (fun _ => 1) φ V v ≤ sqError (fun _ => 1) φ V z := by
  set d : Fin N → ℝ := fun j => Spec.inner (φ j) v - V j with hd
  set g : Fin N → ℝ := fun j => Spec.inner (φ j) v - Spec.inner (φ j) z with hg
  have h1 : ∑ j, (γ * d (σ j) - d j) * g j = 0 := by
    have h2 := (balanced_point hφ hv.1).1 hv
    have h3 := congrArg (fun u => inner ℝ u (toPoint n v - toPoint n z)) h2
    simp only [sum_inner, inner_zero_left, inner_smul_left, RCLike.conj_to_real, inner_sub_right,
      point_inner (hφ _).2, sub_zero, ← Finset.sum_sub_distrib] at h3
    rw [← h3]
    refine Finset.sum_congr rfl fun j _ => ?_
    have := hV j
    simp only [hd, hg]
    have h4 : r j = V j - γ * V (σ j) := by linarith
    rw [h4]
    ring
  have h2 : ∑ j, d (σ j) ^ 2 = ∑ j, d j ^ 2 := Equiv.sum_comp σ fun j => d j ^ 2
  have e1 : sqError (fun _ => 1) φ V v = ∑ j, d j ^ 2 := by
    unfold sqError
    exact Finset.sum_congr rfl fun j _ => by simp only [hd]; ring
  have e2 : sqError (fun _ => 1) φ V z = ∑ j, (d j - g j) ^ 2 := by
    unfold sqError
    exact Finset.sum_congr rfl fun j _ => by simp only [hd, hg]; ring
  rw [e1, e2]
  have e3 : ∑ j, (d j - g j) ^ 2 = ∑ j, d j ^ 2 + ∑ j, (g j - γ * d (σ j)) ^ 2 - γ ^ 2 * ∑ j, d (σ j) ^ 2
      + 2 * ∑ j, (γ * d (σ j) - d j) * g j := by
    simp only [Finset.mul_sum]
    rw [← Finset.sum_add_distrib, ← Finset.sum_sub_distrib, ← Finset.sum_add_distrib]
    exact Finset.sum_congr rfl fun j _ => by ring
  rw [e3, h1, h2]
  have := Finset.sum_nonneg fun j (_ : j ∈ Finset.univ) => sq_nonneg (g j - γ * d (σ j))
  linarith

/-- Exact values exist, and are unique. -/
theorem C144_values (γ : ℝ) (hγ : 0 ≤ γ) (hγ1 : γ < 1) (r : Fin N → ℝ) (σ : Equiv.Perm (Fin N)) :
    ∃! V : Fin N → ℝ, ∀ j, V j = r j + γ * V (σ j) := by
  have huniq : ∀ V : Fin N → ℝ, (∀ j, V j - γ * V (σ j) = 0) → V = 0 := by
    intro V h
    have h1 := Boot.drift σ hγ V
    simp only [h, mul_zero, Finset.sum_const_zero] at h1
    have h2 : ∑ j, V j ^ 2 = 0 := by
      refine le_antisymm ?_ (Finset.sum_nonneg fun _ _ => sq_nonneg _)
      by_contra hlt
      have := mul_pos (sub_pos.2 hγ1) (not_le.1 hlt)
      linarith
    funext j
    exact pow_eq_zero_iff two_ne_zero |>.1
      ((Finset.sum_eq_zero_iff_of_nonneg fun j _ => sq_nonneg _).1 h2 j (Finset.mem_univ j))
  let G : (Fin N → ℝ) →ₗ[ℝ] (Fin N → ℝ) :=
    { toFun := fun V j => V j - γ * V (σ j)
      map_add' := fun V U => by funext j; simp only [Pi.add_apply]; ring
      map_smul' := fun c V => by funext j; simp only [Pi.smul_apply, smul_eq_mul, RingHom.id_apply]; ring }
  have hinj : Function.Injective G := by
    rw [← LinearMap.ker_eq_bot, LinearMap.ker_eq_bot']
    exact fun V hV => huniq V fun j => congrFun hV j
  obtain ⟨V, hV⟩ := LinearMap.surjective_of_injective hinj r
  refine ⟨V, fun j => ?_, fun U hU => ?_⟩
  · have : V j - γ * V (σ j) = r j := congrFun hV j
    linarith
  · refine hinj ?_
    rw [hV]
    funext j
    have := hU j
    show U j - γ * U (σ j) = r j
    linarith

end

/-! ### Concrete cases -/

/-- Two cells of the unit interval, visited in turn, meet the hypotheses of C142: rewards 1 and 0, `γ = 1/2`,
values 4/3 and 2/3. -/
example : ∃ (V : List ℝ → ℝ) (xs xs' : Nat → List ℝ) (rs : Nat → ℝ),
    (∀ d ∈ [ofBounds 0 1 2], d.Lawful) ∧
    (∀ x y : List ℝ, x.length = 1 → y.length = 1 → SameCell [ofBounds 0 1 2] x y → V x = V y) ∧
    (∀ k, (xs k).length = 1 ∧ (xs' k).length = 1) ∧ (∀ k, V (xs k) = rs k + 1 / 2 * V (xs' k)) ∧
    (∀ k m, ∃ j, m ≤ j ∧ SameCell [ofBounds 0 1 2] (xs j) (xs' k)) ∧ rs 0 = 1 ∧ rs 1 = 0 := by
  have h0 : (ofBounds 0 1 2).mapOnto (1 / 4) = 0 := by
    show min 1 ⌊(2 : ℕ) * ((max 0 (min 1 (1 / 4 : ℝ)) - 0) / (1 - 0))⌋₊ = 0
    rw [min_eq_right (by norm_num : (1 / 4 : ℝ) ≤ 1), max_eq_right (by norm_num),
      show ((2 : ℕ) : ℝ) * ((1 / 4 - 0) / (1 - 0)) = 1 / 2 by norm_num]
    norm_num
  have h1 : (ofBounds 0 1 2).mapOnto (3 / 4) = 1 := by
    show min 1 ⌊(2 : ℕ) * ((max 0 (min 1 (3 / 4 : ℝ)) - 0) / (1 - 0))⌋₊ = 1
    rw [min_eq_right (by norm_num : (3 / 4 : ℝ) ≤ 1), max_eq_right (by norm_num),
      show ((2 : ℕ) : ℝ) * ((3 / 4 - 0) / (1 - 0)) = 3 / 2 by norm_num]
    norm_num
  refine ⟨fun x => if (ofBounds 0 1 2).mapOnto (x.getD 0 0) = 0 then 4 / 3 else 2 / 3,
    fun k => if k % 2 = 0 then [1 / 4] else [3 / 4], fun k => if k % 2 = 0 then [3 / 4] else [1 / 4],
    fun k => if k % 2 = 0 then 1 else 0, ?_, ?_, ?_, ?_, ?_, rfl, rfl⟩
  · intro d hd
    rw [List.mem_singleton] at hd
    subst hd
    exact ofBounds_lawful one_pos two_pos
  · intro x y hx hy hs
    obtain ⟨u, rfl⟩ := List.length_eq_one_iff.1 hx
    obtain ⟨v, rfl⟩ := List.length_eq_one_iff.1 hy
    have := hs 0 _ u v rfl rfl rfl
    simp only [List.getD_cons_zero]
    rw [this]
  · intro k
    dsimp only
    split_ifs <;> exact ⟨rfl, rfl⟩
  · intro k
    dsimp only
    rcases Nat.mod_two_eq_zero_or_one k with hk | hk
    · rw [if_pos hk, if_pos hk, if_pos hk]
      simp only [List.getD_cons_zero]
      rw [h0, h1]
      norm_num
    · have hk' : ¬ k % 2 = 0 := by omega
      rw [if_neg hk', if_neg hk', if_neg hk']
      simp only [List.getD_cons_zero]
      rw [h0, h1]
      norm_num
  · intro k m
    refine ⟨2 * m + (k + 1) % 2, by omega, ?_⟩
    have : (if (2 * m + (k + 1) % 2) % 2 = 0 then [(1 / 4 : ℝ)] else [3 / 4]) =
        if k % 2 = 0 then [3 / 4] else [1 / 4] := by
      rcases Nat.mod_two_eq_zero_or_one k with hk | hk
      · rw [if_neg (by omega), if_pos hk]
      · rw [if_pos (by omega), if_neg (by omega)]
    dsimp only
    rw [this]
    intro i d u v hd hu hv
    rw [hu] at hv
    cases hv
    rfl

/-- A cycle of two states that share one feature meets the hypotheses of C143 with `γ = 1/2`. -/
example : ∀ j : Fin 2, (1 / 16 : ℝ) * normSq (.dense [if j = 0 then 1 else 2]) * (1 + 1 / 2) ^ 2
    < 2 * (1 - 1 / 2) := by
  intro j
  fin_cases j <;> simp [normSq, dim, value] <;> norm_num

/-- The bound of C144 is not an equality between the two errors: with that feature, rewards 1 and 0 and
`γ = 1/2`, the balanced weight is 1/3; the best one is 8/15. -/
example : Balanced 1 (1 / 2) (fun j : Fin 2 => .dense [if j = 0 then 1 else 2]) (fun j => if j = 0 then 1 else 0)
    (Equiv.swap 0 1) [1 / 3] := by
  refine ⟨rfl, fun i hi => ?_⟩
  obtain rfl : i = 0 := by omega
  simp [Fin.sum_univ_two, Spec.inner, dim, value]
  norm_num

end Lfa

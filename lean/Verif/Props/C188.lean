import Verif.Props.C140
import Verif.Props.C181
import Verif.Props.C107_C108

/-!
# C188: training in double precision is nearly repeatable

Two runs of the same program need not agree to the last bit: a hash map iterates in a new order each time, and two machines may sum an
array in different orders. C140 shows when the results are the same. Here: under the conditions of C181 the results of any two runs
stay within a fixed distance of one another for ever.
-/

set_option linter.unusedSectionVars false

namespace Lfa

open Spec Machine XReal

variable {M M' : Machine}

/-- Exact training: rates `c t`, features `g t`, targets `y t`. -/
def Spec.ExactRun (n : Nat) (c : Nat → ℝ) (g : Nat → Nat → ℝ) (y : Nat → ℝ) (us : Nat → Nat → ℝ) : Prop :=
  ∀ t, ∀ i < n, us (t + 1) i = us t i + c t * (y t - ∑ j ∈ Finset.range n, g t j * us t j) * g t i

/-- The run that training in exact arithmetic gives. -/
noncomputable def exactWeights (n : Nat) (c : Nat → ℝ) (g : Nat → Nat → ℝ) (y : Nat → ℝ) (u : Nat → ℝ) : Nat → Nat → ℝ
  | 0 => u
  | t + 1 => fun i => exactWeights n c g y u t i +
      c t * (y t - ∑ j ∈ Finset.range n, g t j * exactWeights n c g y u t j) * g t i

theorem exactWeights_run (n : Nat) (c : Nat → ℝ) (g : Nat → Nat → ℝ) (y : Nat → ℝ) (u : Nat → ℝ) :
    ExactRun n c g y (exactWeights n c g y u) := fun _ _ _ => rfl

section Same
variable {K : Type} [Scalar K]

theorem fits_same {n : Nat} {φ ψ : Features K} (hs : Same φ ψ) (h : Fits n φ) : Fits n ψ := by
  cases hs with
  | dense da => exact h
  | @sparse d m₁ m₂ hp =>
    refine ⟨⟨?_, fun e he => h.1.2 e (hp.mem_iff.2 he)⟩, h.2⟩
    exact (hp.map Prod.fst).nodup_iff.1 h.1.1

theorem stored_same {φ ψ : Features K} (hs : Same φ ψ) (i : Nat) (a : K) : Stored ψ i a ↔ Stored φ i a := by
  cases hs with
  | dense da => exact Iff.rfl
  | @sparse d m₁ m₂ hp => exact hp.mem_iff.symm

theorem value_same {φ ψ : Features K} (hs : Same φ ψ) (hφ : KeysUnique φ) (hψ : KeysUnique ψ) (i : Nat) : value ψ i = value φ i := by
  by_cases h : ∃ a, Stored φ i a
  · obtain ⟨a, h⟩ := h
    rw [value_of_stored hφ h, value_of_stored hψ ((stored_same hs i a).2 h)]
  · have h : ∀ a, ¬ Stored φ i a := fun a ha => h ⟨a, ha⟩
    rw [value_of_not_stored h, value_of_not_stored fun a ha => h a ((stored_same hs i a).1 ha)]

end Same

theorem storedCount_same {φ ψ : Features (FP M)} (hs : Same φ ψ) : storedCount ψ = storedCount φ := by
  cases hs with
  | dense da => rfl
  | @sparse d m₁ m₂ hp => exact hp.length_eq.symm

theorem moderate_same {n k : Nat} {φ ψ : Features (FP M)} {y : FP M} (hs : Same φ ψ) (h : Moderate n k φ y) : Moderate n k ψ y :=
  ⟨h.size, by rw [storedCount_same hs]; exact h.count, fun i x hx => h.features i x ((stored_same hs i x).1 hx), h.target⟩

noncomputable section

/-- The bounds of C181 are far from overflow, and one rounding of the weights is within `E`. -/
theorem shadow_size {L : Nat} {N D ε η r W E : ℝ} (N0 : 0 ≤ N) (hN : N ≤ 2 ^ 222) (D0 : 0 ≤ D) (hD1 : D ≤ 2 ^ 190)
    (hε : roundoff ≤ ε) (hη : 0 ≤ η) (hηε : η ≤ ε) (r0 : 0 ≤ r) (Lpos : 0 < L) (hL : 4 * (L * ε) ≤ 1 - r)
    (hW : W = 2 * N + 10 * L * D / (1 - r)) (hE : E = 10 * L * (ε * (W + D) + η) / (1 - r)) :
    W + E ≤ 2 ^ 251 ∧ ε * (E + W) ≤ 2 * E := by
  have ε0 : 0 < ε := roundoff_pos.trans_le hε
  have L1 : (1 : ℝ) ≤ L := by exact_mod_cast Lpos
  have d : 0 < 1 - r := lt_of_lt_of_le (by positivity) hL
  have W0 : 0 ≤ W := by rw [hW]; positivity
  have E0 : 0 ≤ E := by rw [hE]; positivity
  have β0 : 0 ≤ ε * (W + D) + η := by positivity
  have hε1 : ε ≤ 1 / 4 := by nlinarith
  have ratio : L / (1 - r) ≤ 1 / (4 * ε) := by
    rw [div_le_div_iff₀ d (by positivity)]
    linarith
  constructor
  · have h1 : 1 / (4 * ε) ≤ 2 ^ 51 := by
      rw [div_le_iff₀ (by positivity)]
      have : (1 : ℝ) = 2 ^ 51 * (4 * roundoff) := by rw [roundoff]; norm_num
      nlinarith
    have h2 : W ≤ 2 * 2 ^ 222 + 10 * (2 ^ 51 * 2 ^ 190) := by
      have e : 10 * L * D / (1 - r) = 10 * (L / (1 - r) * D) := by ring
      rw [hW, e]
      have := mul_le_mul (ratio.trans h1) hD1 D0 (by positivity)
      linarith
    have h3 : E ≤ 3 * (W + D + 1) := by
      have e : E = 10 * (L / (1 - r) * (ε * (W + D) + η)) := by rw [hE]; ring
      rw [e]
      have h4 := mul_le_mul_of_nonneg_right ratio β0
      have h5 : 1 / (4 * ε) * (ε * (W + D) + η) ≤ 1 / 4 * (W + D + 1) := by
        rw [div_mul_eq_mul_div, div_le_iff₀ (by positivity)]
        nlinarith
      linarith
    have h6 : 4 * (2 * 2 ^ 222 + 10 * (2 ^ 51 * 2 ^ 190)) + 3 * (2 ^ 190 + 1) ≤ (2 : ℝ) ^ 251 := by norm_num
    linarith
  · have h6 : ε * W ≤ E := by
      rw [hE, le_div_iff₀ d]
      have a1 : ε * W * (1 - r) ≤ ε * W := mul_le_of_le_one_right (by positivity) (by linarith)
      have a2 : ε * W ≤ ε * (W + D) + η := by nlinarith
      nlinarith
    nlinarith

/-- A prediction with weights near `u`, at any input. -/
theorem eval_near (hM : M.rnd = binary64Format.rnd) {n k : Nat} {φ : Features (FP M)} {y : FP M} (hφ : Fits n φ)
    (hmod : Moderate n k φ y) {w : List (FP M)} (hw : w.length = n) {v : FP M} (hv : φ.dot w = .ok v)
    (hf : ∀ i < n, Spec.Finite (entry w i)) {u : Nat → ℝ} {W E ε : ℝ} (h1 : len n u ≤ W)
    (h2 : len n (fun i => real (entry w i) - u i) ≤ E) (hk : 2 * k * roundoff ≤ ε) (hb : W + E ≤ 2 ^ 252)
    (hε : ε * (E + W) ≤ 2 * E) (ε0 : 0 ≤ ε) :
    Spec.Finite v ∧ |real v - ∑ j ∈ Finset.range n, real (value φ j) * u j| ≤
      3 * (len n (fun i => real (value φ i)) * E) + 2 ^ (-1034 : ℤ) := by
  have hN : len n (fun i => real (entry w i)) ≤ E + W := by
    refine le_trans (le_of_eq (len_congr fun i _ => ?_))
      ((len_add_le n (fun i => real (entry w i) - u i) u).trans (add_le_add h2 h1))
    ring
  have h3 := dotColumn_bounded hM 1 hφ hw (by rw [dotColumn_one]; exact hv) (a := 100) (b := 252) (by norm_num) hmod.features
    (fun i hi => by
      obtain ⟨r, hr⟩ := hf i hi
      refine ⟨r, hr, le_trans ?_ (hN.trans (by linarith))⟩
      have := abs_le_len (fun i => real (entry w i)) hi
      rwa [is_real hr] at this) (hmod.count.1.trans (hmod.count.2.trans (by norm_num)))
  obtain ⟨z, hz, -⟩ := h3
  refine ⟨⟨z, hz⟩, ?_⟩
  have e1 : |z - exactDot φ w| ≤ predictionError φ w := dot_err hM hφ hw hv hz
  have e2 := predictionError_le hφ w hmod.count.1 hmod.count.2
  have e3 := count_tiny hmod.count.2
  have A0 := len_nonneg n fun i => real (value φ i)
  have e4 : |exactDot φ w - ∑ j ∈ Finset.range n, real (value φ j) * u j| ≤ len n (fun i => real (value φ i)) * E := by
    have e : exactDot φ w - ∑ j ∈ Finset.range n, real (value φ j) * u j =
        ∑ j ∈ Finset.range n, real (value φ j) * (real (entry w j) - u j) := by
      rw [exactDot, hφ.2, ← Finset.sum_sub_distrib]
      exact Finset.sum_congr rfl fun j _ => by ring
    rw [e]
    have hs := Finset.sum_mul_sq_le_sq_mul_sq (Finset.range n) (fun j => real (value φ j)) (fun j => real (entry w j) - u j)
    rw [← len_sq, ← len_sq, ← mul_pow] at hs
    exact (abs_le_of_sq_le_sq hs (mul_nonneg A0 (len_nonneg _ _))).trans (mul_le_mul_of_nonneg_left h2 A0)
  have h5 : 2 * k * roundoff * (len n (fun i => real (value φ i)) * len n (fun i => real (entry w i))) ≤
      ε * (len n (fun i => real (value φ i)) * (E + W)) :=
    mul_le_mul hk (mul_le_mul_of_nonneg_left hN A0) (mul_nonneg A0 (len_nonneg _ _)) ε0
  have h8 := mul_le_mul_of_nonneg_left hε A0
  rw [is_real hz]
  have e5 := abs_sub_le z (exactDot φ w) (∑ j ∈ Finset.range n, real (value φ j) * u j)
  linarith

section Single
variable {B I : Type} [Space B] [Basis B I (FP M)]

theorem sgd_any_trace {n : Nat} {fas : Nat → ScalarLFA B (SGD (FP M)) (FP M)} {xs : Nat → I} {ys : Nat → FP M}
    (hs : ∀ t, CanUpdateWith (fas t) (xs t) (fun p => ys t -. p) (fas (t + 1))) {φ : Nat → Features (FP M)}
    (hφ : ∀ t, Basis.project (fas 0).basis (xs t) = .ok (.ok (φ t)) ∧ Fits n (φ t)) (hn : (fas 0).weights.length = n) :
    ∀ t, ((fas t).basis = (fas 0).basis ∧ (fas t).optimiser = (fas 0).optimiser ∧ (fas t).weights.length = n) ∧
      ∃ (ψ : Features (FP M)) (v : FP M), Same (φ t) ψ ∧ ψ.dot (fas t).weights = .ok v ∧ ∀ i < n,
        (∀ a, Stored ψ i a → entry (fas (t + 1)).weights i =
          (entry (fas t).weights i +. (fas 0).optimiser.lr *. (ys t -. v) *. a)) ∧
        (¬ Active ψ i → entry (fas (t + 1)).weights i = entry (fas t).weights i) := by
  have step : ∀ t, ((fas t).basis = (fas 0).basis ∧ (fas t).optimiser = (fas 0).optimiser ∧ (fas t).weights.length = n) →
      ((fas (t + 1)).basis = (fas 0).basis ∧ (fas (t + 1)).optimiser = (fas 0).optimiser ∧ (fas (t + 1)).weights.length = n) ∧
      ∃ (ψ : Features (FP M)) (v : FP M), Same (φ t) ψ ∧ ψ.dot (fas t).weights = .ok v ∧ ∀ i < n,
        (∀ a, Stored ψ i a → entry (fas (t + 1)).weights i =
          (entry (fas t).weights i +. (fas 0).optimiser.lr *. (ys t -. v) *. a)) ∧
        (¬ Active ψ i → entry (fas (t + 1)).weights i = entry (fas t).weights i) := by
    rintro t ⟨hb, ho, hl⟩
    obtain ⟨φ', ψ, hp, hsame, v, o, w, hd, hst, e⟩ := hs t
    rw [hb, (hφ t).1] at hp
    cases hp
    obtain ⟨w', g1, g2, g3⟩ := sgd_scaled (fits_same hsame (hφ t).2) (fas t).optimiser (ys t -. v) hl
    rw [hst] at g1
    cases g1
    rw [e]
    refine ⟨⟨hb, ho, g2⟩, ψ, v, hsame, hd, fun i hi => ?_⟩
    rw [← ho]
    exact g3 i hi
  have inv : ∀ t, (fas t).basis = (fas 0).basis ∧ (fas t).optimiser = (fas 0).optimiser ∧ (fas t).weights.length = n := by
    intro t
    induction t with
    | zero => exact ⟨rfl, rfl, hn⟩
    | succ t ih => exact (step t ih).1
  exact fun t => ⟨inv t, (step t (inv t)).2⟩

theorem isgd_any_trace {n : Nat} {fas : Nat → ScalarLFA B (ISGD (FP M)) (FP M)} {xs : Nat → I} {ys : Nat → FP M}
    (hs : ∀ t, CanUpdateWith (fas t) (xs t) (fun p => ys t -. p) (fas (t + 1))) {φ : Nat → Features (FP M)}
    (hφ : ∀ t, Basis.project (fas 0).basis (xs t) = .ok (.ok (φ t)) ∧ Fits n (φ t)) (hn : (fas 0).weights.length = n) :
    ∀ t, ((fas t).basis = (fas 0).basis ∧ (fas t).optimiser = (fas 0).optimiser ∧ (fas t).weights.length = n) ∧
      ∃ (ψ : Features (FP M)) (v : FP M), Same (φ t) ψ ∧ ψ.dot (fas t).weights = .ok v ∧ ∀ i < n,
        (∀ a, Stored ψ i a → entry (fas (t + 1)).weights i =
          (entry (fas t).weights i +. (fas 0).optimiser.computeLr ψ *. (ys t -. v) *. a)) ∧
        (¬ Active ψ i → entry (fas (t + 1)).weights i = entry (fas t).weights i) := by
  have step : ∀ t, ((fas t).basis = (fas 0).basis ∧ (fas t).optimiser = (fas 0).optimiser ∧ (fas t).weights.length = n) →
      ((fas (t + 1)).basis = (fas 0).basis ∧ (fas (t + 1)).optimiser = (fas 0).optimiser ∧ (fas (t + 1)).weights.length = n) ∧
      ∃ (ψ : Features (FP M)) (v : FP M), Same (φ t) ψ ∧ ψ.dot (fas t).weights = .ok v ∧ ∀ i < n,
        (∀ a, Stored ψ i a → entry (fas (t + 1)).weights i =
          (entry (fas t).weights i +. (fas 0).optimiser.computeLr ψ *. (ys t -. v) *. a)) ∧
        (¬ Active ψ i → entry (fas (t + 1)).weights i = entry (fas t).weights i) := by
    rintro t ⟨hb, ho, hl⟩
    obtain ⟨φ', ψ, hp, hsame, v, o, w, hd, hst, e⟩ := hs t
    rw [hb, (hφ t).1] at hp
    cases hp
    obtain ⟨w', g1, g2, g3⟩ := isgd_scaled (fits_same hsame (hφ t).2) (fas t).optimiser (ys t -. v) hl
    rw [hst] at g1
    cases g1
    rw [e]
    refine ⟨⟨hb, ho, g2⟩, ψ, v, hsame, hd, fun i hi => ?_⟩
    rw [← ho]
    exact g3 i hi
  have inv : ∀ t, (fas t).basis = (fas 0).basis ∧ (fas t).optimiser = (fas 0).optimiser ∧ (fas t).weights.length = n := by
    intro t
    induction t with
    | zero => exact ⟨rfl, rfl, hn⟩
    | succ t ih => exact (step t ih).1
  exact fun t => ⟨inv t, (step t (inv t)).2⟩

/-- A list with given entries. -/
theorem entry_map_range {n : Nat} (u : Nat → ℝ) {i : Nat} (hi : i < n) : entry ((List.range n).map u) i = u i := by
  unfold entry
  rw [List.getD_eq_getElem?_getD, List.getElem?_map, List.getElem?_range hi]
  rfl

/-- Dense features with given entries. -/
def denseOf (n : Nat) (g : Nat → ℝ) : Features ℝ := .dense ((List.range n).map g)

theorem denseOf_fits (n : Nat) (g : Nat → ℝ) : Fits n (denseOf n g) := by
  refine ⟨trivial, ?_⟩
  show ((List.range n).map g).length = n
  rw [List.length_map, List.length_range]

theorem denseOf_value {n : Nat} (g : Nat → ℝ) {i : Nat} (hi : i < n) : value (denseOf n g) i = g i := entry_map_range g hi

theorem denseOf_normSq (n : Nat) (g : Nat → ℝ) : normSq (denseOf n g) = ∑ i ∈ Finset.range n, g i ^ 2 := by
  rw [normSq, (denseOf_fits n g).2]
  exact Finset.sum_congr rfl fun i hi => by rw [denseOf_value g (Finset.mem_range.1 hi), sq]

theorem denseOf_sqrt (n : Nat) (g : Nat → ℝ) : √(normSq (denseOf n g)) = len n g := by
  rw [denseOf_normSq]; rfl

theorem denseOf_inner (n : Nat) (g u : Nat → ℝ) :
    Spec.inner (denseOf n g) ((List.range n).map u) = ∑ j ∈ Finset.range n, g j * u j := by
  rw [inner_eq, (denseOf_fits n g).2]
  exact Finset.sum_congr rfl fun i hi => by
    rw [denseOf_value g (Finset.mem_range.1 hi), entry_map_range u (Finset.mem_range.1 hi)]

/-- SGD under the conditions of C181, each hash map iterating in any order at each call. For ever: the weights are finite and within
`E` of exact training, and whatever `evaluate` can return at an input with moderate features is finite and within `3 ‖φ‖ E` (up to
`2^-1034`) of the exact prediction. -/
theorem C188_sgd (hM : M.rnd = binary64Format.rnd) (n k L : Nat) (fas : Nat → ScalarLFA B (SGD (FP M)) (FP M)) (xs : Nat → I)
    (ys : Nat → FP M) (hs : ∀ t, CanUpdateWith (fas t) (xs t) (fun p => ys t -. p) (fas (t + 1)))
    (φ : Nat → Features (FP M)) (hφ : ∀ t, Basis.project (fas 0).basis (xs t) = .ok (.ok (φ t)) ∧ Fits n (φ t))
    (hn : (fas 0).weights.length = n) (hw : ∀ i < n, Bounded (2 ^ 100) (entry (fas 0).weights i))
    (l : ℝ) (hlr : Is (fas 0).optimiser.lr l) (l0 : 0 ≤ l) (l1 : l ≤ 2 ^ 100)
    (h2 : ∀ t, l * ∑ i ∈ Finset.range n, real (value (φ t) i) ^ 2 ≤ 2) (hmod : ∀ t, Moderate n k (φ t) (ys t))
    (D : ℝ) (hD : ∀ t, l * len n (fun i => real (value (φ t) i)) * |real (ys t)| ≤ D) (hD1 : D ≤ 2 ^ 190)
    (r : ℝ) (r0 : 0 ≤ r) (Lpos : 0 < L) (hr : Persistent n L (fun t i => real (value (φ t) i)) (fun _ => l) r)
    (hL : L * (8 * k + 11) * 2 ^ (-51 : ℤ) ≤ 1 - r) (us : Nat → Nat → ℝ)
    (hus : ExactRun n (fun _ => l) (fun t i => real (value (φ t) i)) (fun t => real (ys t)) us)
    (hu0 : ∀ i < n, us 0 i = real (entry (fas 0).weights i)) (W E : ℝ)
    (hW : W = 2 * len n (us 0) + 10 * L * D / (1 - r))
    (hE : E = 10 * L * ((8 * k + 11) * 2 ^ (-53 : ℤ) * (W + D) + 2 ^ (-800 : ℤ)) / (1 - r)) (t : Nat) :
    (∀ i < n, Spec.Finite (entry (fas t).weights i)) ∧ len n (us t) ≤ W ∧
    len n (fun i => real (entry (fas t).weights i) - us t i) ≤ E ∧
    ∀ (x : I) (χ : Features (FP M)) (y v : FP M), Basis.project (fas 0).basis x = .ok (.ok χ) → Fits n χ → Moderate n k χ y →
      CanEvaluate (fas t) x v → Spec.Finite v ∧
        |real v - ∑ j ∈ Finset.range n, real (value χ j) * us t j| ≤
          3 * (len n (fun i => real (value χ i)) * E) + 2 ^ (-1034 : ℤ) := by
  have run := sgd_any_trace hs hφ hn
  choose ψ v hsame hdot hstep using fun t => (run t).2
  have hval : ∀ t i, value (ψ t) i = value (φ t) i := fun t i =>
    value_same (hsame t) (keysUnique_of_wf (hφ t).2.1) (keysUnique_of_wf (fits_same (hsame t) (hφ t).2).1) i
  have hG : ∀ t, denseOf n (fun i => real (value (ψ t) i)) = denseOf n fun i => real (value (φ t) i) := fun t => by
    simp only [hval]
  choose qs hqs using fun t => dot_safe (denseOf_fits n fun i => real (value (φ t) i))
    (c := (List.range n).map (us t)) (by rw [List.length_map, List.length_range])
  obtain ⟨b1, -, b3, b4, -⟩ := sgd_shadow hM 1 n k L (fun t => (fas t).weights) (fun t => (List.range n).map (us t))
    (fas 0).optimiser.lr l ys v qs ψ (fun t => denseOf n fun i => real (value (φ t) i))
    (fun t => fits_same (hsame t) (hφ t).2) (fun t => denseOf_fits n _)
    (fun t i hi => by rw [denseOf_value _ hi, hval])
    (fun t => ⟨(run t).1.2.2, by rw [dotColumn_one]; exact hdot t, hstep t⟩)
    (fun t => ⟨by rw [List.length_map, List.length_range], hqs t⟩)
    (fun t i hi => by
      rw [entry_map_range _ hi, entry_map_range _ hi, denseOf_inner, denseOf_value _ hi]
      exact hus t i hi)
    (fun i hi => ⟨hw i hi, by rw [entry_map_range _ hi]; exact hu0 i hi⟩) hlr l0 l1
    (fun t => by rw [denseOf_normSq]; exact h2 t) (fun t => moderate_same (hsame t) (hmod t)) D
    (fun t => by rw [denseOf_sqrt]; exact hD t) hD1 r r0 Lpos
    (persistent_congr hr fun t i hi => (denseOf_value (fun i => real (value (φ t) i)) hi).symm) hL W E
    (by rw [hW, len_congr (n := n) (f := entry ((List.range n).map (us 0))) (g := us 0) fun i hi => entry_map_range _ hi]) hE t
  have c1 : len n (us t) ≤ W := by
    rwa [len_congr (n := n) (f := entry ((List.range n).map (us t))) (g := us t) fun i hi => entry_map_range _ hi] at b3
  have c2 : len n (fun i => real (entry (fas t).weights i) - us t i) ≤ E := by
    rwa [len_congr (n := n) (g := fun i => real (entry (fas t).weights i) - us t i) fun i hi => by
      rw [entry_map_range _ hi]] at b4
  refine ⟨b1, c1, c2, fun x χ y w hp hf hmodx he => ?_⟩
  have hu := roundoff_pos
  have k0 : (0 : ℝ) ≤ k := k.cast_nonneg
  have e53 : (2 : ℝ) ^ (-53 : ℤ) = roundoff := by rw [roundoff]
  have e51 : (2 : ℝ) ^ (-51 : ℤ) = 4 * roundoff := by rw [roundoff]; norm_num
  have hN0 : len n (us 0) ≤ 2 ^ 120 := by
    refine (len_le_of_bounded (hmod 0).size (c := 2 ^ 100) (by positivity) fun i hi => ?_).trans
      (le_of_eq (by rw [← pow_add]))
    obtain ⟨z, hz, h1⟩ := hw i hi
    rwa [hu0 i hi, is_real hz]
  rw [e53] at hE
  obtain ⟨s1, s2⟩ := shadow_size (len_nonneg n (us 0)) (hN0.trans (by norm_num))
    ((mul_nonneg (mul_nonneg l0 (len_nonneg _ _)) (abs_nonneg _)).trans (hD 0)) hD1
    (ε := (8 * k + 11) * roundoff) (η := 2 ^ (-800 : ℤ)) (by nlinarith) (by positivity)
    (tiny_rate (by linarith) (by norm_num)) r0 Lpos (by rw [e51] at hL; linarith) hW hE
  obtain ⟨χ', ω, hp', hsx, hdx⟩ := he
  rw [(run t).1.1, hp] at hp'
  cases hp'
  have hvx : ∀ i, value ω i = value χ i := fun i =>
    value_same hsx (keysUnique_of_wf hf.1) (keysUnique_of_wf (fits_same hsx hf).1) i
  have := eval_near hM (fits_same hsx hf) (moderate_same hsx hmodx) (run t).1.2.2 hdx b1 c1 c2
    (ε := (8 * k + 11) * roundoff) (by nlinarith) (s1.trans (by norm_num)) s2 (by positivity)
  simpa only [hvx] using this

/-- The same for ISGD. -/
theorem C188_isgd (hM : M.rnd = binary64Format.rnd) (n k L : Nat) (fas : Nat → ScalarLFA B (ISGD (FP M)) (FP M)) (xs : Nat → I)
    (ys : Nat → FP M) (hs : ∀ t, CanUpdateWith (fas t) (xs t) (fun p => ys t -. p) (fas (t + 1)))
    (φ : Nat → Features (FP M)) (hφ : ∀ t, Basis.project (fas 0).basis (xs t) = .ok (.ok (φ t)) ∧ Fits n (φ t))
    (hn : (fas 0).weights.length = n) (hw : ∀ i < n, Bounded (2 ^ 100) (entry (fas 0).weights i))
    (l : ℝ) (hlr : Is (fas 0).optimiser.lr l) (l0 : 0 ≤ l) (l1 : l ≤ 2 ^ 100) (c : Nat → ℝ)
    (hc : ∀ t, c t = l / (1 + l * ∑ i ∈ Finset.range n, real (value (φ t) i) ^ 2)) (hmod : ∀ t, Moderate n k (φ t) (ys t))
    (D : ℝ) (hD : ∀ t, c t * len n (fun i => real (value (φ t) i)) * |real (ys t)| ≤ D) (hD1 : D ≤ 2 ^ 190)
    (r : ℝ) (r0 : 0 ≤ r) (Lpos : 0 < L) (hr : Persistent n L (fun t i => real (value (φ t) i)) c r)
    (hL : L * (12 * k + 25) * 2 ^ (-51 : ℤ) ≤ 1 - r) (us : Nat → Nat → ℝ)
    (hus : ExactRun n c (fun t i => real (value (φ t) i)) (fun t => real (ys t)) us)
    (hu0 : ∀ i < n, us 0 i = real (entry (fas 0).weights i)) (W E : ℝ)
    (hW : W = 2 * len n (us 0) + 10 * L * D / (1 - r))
    (hE : E = 10 * L * ((12 * k + 25) * 2 ^ (-53 : ℤ) * (W + D) + 2 ^ (-500 : ℤ)) / (1 - r)) (t : Nat) :
    (∀ i < n, Spec.Finite (entry (fas t).weights i)) ∧ len n (us t) ≤ W ∧
    len n (fun i => real (entry (fas t).weights i) - us t i) ≤ E ∧
    ∀ (x : I) (χ : Features (FP M)) (y v : FP M), Basis.project (fas 0).basis x = .ok (.ok χ) → Fits n χ → Moderate n k χ y →
      CanEvaluate (fas t) x v → Spec.Finite v ∧
        |real v - ∑ j ∈ Finset.range n, real (value χ j) * us t j| ≤
          3 * (len n (fun i => real (value χ i)) * E) + 2 ^ (-1034 : ℤ) := by
  have run := isgd_any_trace hs hφ hn
  choose ψ v hsame hdot hstep using fun t => (run t).2
  have hval : ∀ t i, value (ψ t) i = value (φ t) i := fun t i =>
    value_same (hsame t) (keysUnique_of_wf (hφ t).2.1) (keysUnique_of_wf (fits_same (hsame t) (hφ t).2).1) i
  have hc' : ∀ t, c t = l / (1 + l * normSq (denseOf n fun i => real (value (φ t) i))) := fun t => by
    rw [denseOf_normSq]; exact hc t
  have hcf : c = fun t => l / (1 + l * normSq (denseOf n fun i => real (value (φ t) i))) := funext hc'
  choose qs hqs using fun t => dot_safe (denseOf_fits n fun i => real (value (φ t) i))
    (c := (List.range n).map (us t)) (by rw [List.length_map, List.length_range])
  obtain ⟨b1, -, b3, b4, -⟩ := isgd_shadow hM 1 n k L (fun t => (fas t).weights) (fun t => (List.range n).map (us t))
    (fas 0).optimiser l ys v qs ψ (fun t => denseOf n fun i => real (value (φ t) i))
    (fun t => fits_same (hsame t) (hφ t).2) (fun t => denseOf_fits n _)
    (fun t i hi => by rw [denseOf_value _ hi, hval])
    (fun t => ⟨(run t).1.2.2, by rw [dotColumn_one]; exact hdot t, hstep t⟩)
    (fun t => ⟨by rw [List.length_map, List.length_range], hqs t⟩)
    (fun t i hi => by
      rw [entry_map_range _ hi, entry_map_range _ hi, denseOf_inner, denseOf_value _ hi, ← hc' t]
      exact hus t i hi)
    (fun i hi => ⟨hw i hi, by rw [entry_map_range _ hi]; exact hu0 i hi⟩) hlr l0 l1
    (fun t => moderate_same (hsame t) (hmod t)) D
    (fun t => by rw [denseOf_sqrt, ← hc' t]; exact hD t) hD1 r r0 Lpos
    (by rw [← hcf]; exact persistent_congr hr fun t i hi => (denseOf_value (fun i => real (value (φ t) i)) hi).symm) hL W E
    (by rw [hW, len_congr (n := n) (f := entry ((List.range n).map (us 0))) (g := us 0) fun i hi => entry_map_range _ hi]) hE t
  have c1 : len n (us t) ≤ W := by
    rwa [len_congr (n := n) (f := entry ((List.range n).map (us t))) (g := us t) fun i hi => entry_map_range _ hi] at b3
  have c2 : len n (fun i => real (entry (fas t).weights i) - us t i) ≤ E := by
    rwa [len_congr (n := n) (g := fun i => real (entry (fas t).weights i) - us t i) fun i hi => by
      rw [entry_map_range _ hi]] at b4
  refine ⟨b1, c1, c2, fun x χ y w hp hf hmodx he => ?_⟩
  have hu := roundoff_pos
  have k0 : (0 : ℝ) ≤ k := k.cast_nonneg
  have e53 : (2 : ℝ) ^ (-53 : ℤ) = roundoff := by rw [roundoff]
  have e51 : (2 : ℝ) ^ (-51 : ℤ) = 4 * roundoff := by rw [roundoff]; norm_num
  have hN0 : len n (us 0) ≤ 2 ^ 120 := by
    refine (len_le_of_bounded (hmod 0).size (c := 2 ^ 100) (by positivity) fun i hi => ?_).trans
      (le_of_eq (by rw [← pow_add]))
    obtain ⟨z, hz, h1⟩ := hw i hi
    rwa [hu0 i hi, is_real hz]
  rw [e53] at hE
  have c0 : 0 ≤ c 0 := by
    have : 0 ≤ ∑ i ∈ Finset.range n, real (value (φ 0) i) ^ 2 := Finset.sum_nonneg fun _ _ => sq_nonneg _
    rw [hc]; positivity
  obtain ⟨s1, s2⟩ := shadow_size (len_nonneg n (us 0)) (hN0.trans (by norm_num))
    ((mul_nonneg (mul_nonneg c0 (len_nonneg _ _)) (abs_nonneg _)).trans (hD 0)) hD1
    (ε := (12 * k + 25) * roundoff) (η := 2 ^ (-500 : ℤ)) (by nlinarith) (by positivity)
    (tiny_rate (by linarith) (by norm_num)) r0 Lpos (by rw [e51] at hL; linarith) hW hE
  obtain ⟨χ', ω, hp', hsx, hdx⟩ := he
  rw [(run t).1.1, hp] at hp'
  cases hp'
  have hvx : ∀ i, value ω i = value χ i := fun i =>
    value_same hsx (keysUnique_of_wf hf.1) (keysUnique_of_wf (fits_same hsx hf).1) i
  have := eval_near hM (fits_same hsx hf) (moderate_same hsx hmodx) (run t).1.2.2 hdx b1 c1 c2
    (ε := (12 * k + 25) * roundoff) (by nlinarith) (s1.trans (by norm_num)) s2 (by positivity)
  simpa only [hvx] using this

end Single

section Two
variable {B B' I I' : Type} [Space B] [Basis B I (FP M)] [Space B'] [Basis B' I' (FP M')]

/-- Two runs near the same exact one are near one another. -/
theorem len_two {n : Nat} {f g u : Nat → ℝ} {E : ℝ} (h1 : len n (fun i => f i - u i) ≤ E) (h2 : len n (fun i => g i - u i) ≤ E) :
    len n (fun i => f i - g i) ≤ 2 * E := by
  have e : len n (fun i => u i - g i) = len n (fun i => g i - u i) := by
    unfold len
    congr 1
    exact Finset.sum_congr rfl fun i _ => by ring
  have := len_add_le n (fun i => f i - u i) (fun i => u i - g i)
  rw [len_congr (n := n) (g := fun i => f i - g i) fun i _ => by ring, e] at this
  linarith

/-- Two runs of SGD, on any two machines that round as f64 does, over any two bases whose features have the same values, with the same
rate, targets and initial weights, every hash map iterating in its own order at every call. For ever: the two weight vectors are within
`2 E` of one another, and whatever the two can predict at an input with the same moderate features is within `6 ‖φ‖ E` (up to `2^-1033`). -/
theorem C188_sgd_runs (hM : M.rnd = binary64Format.rnd) (hM' : M'.rnd = binary64Format.rnd) (n k L : Nat)
    (fas : Nat → ScalarLFA B (SGD (FP M)) (FP M)) (gas : Nat → ScalarLFA B' (SGD (FP M')) (FP M')) (xs : Nat → I) (xs' : Nat → I')
    (ys : Nat → FP M) (ys' : Nat → FP M') (hs : ∀ t, CanUpdateWith (fas t) (xs t) (fun p => ys t -. p) (fas (t + 1)))
    (hg : ∀ t, CanUpdateWith (gas t) (xs' t) (fun p => ys' t -. p) (gas (t + 1)))
    (φ : Nat → Features (FP M)) (φ' : Nat → Features (FP M'))
    (hφ : ∀ t, Basis.project (fas 0).basis (xs t) = .ok (.ok (φ t)) ∧ Fits n (φ t))
    (hφ' : ∀ t, Basis.project (gas 0).basis (xs' t) = .ok (.ok (φ' t)) ∧ Fits n (φ' t))
    (hv : ∀ t i, real (value (φ' t) i) = real (value (φ t) i)) (hy : ∀ t, real (ys' t) = real (ys t))
    (hn : (fas 0).weights.length = n) (hn' : (gas 0).weights.length = n)
    (hw : ∀ i < n, Bounded (2 ^ 100) (entry (fas 0).weights i)) (hw' : ∀ i < n, Bounded (2 ^ 100) (entry (gas 0).weights i))
    (hww : ∀ i < n, real (entry (gas 0).weights i) = real (entry (fas 0).weights i))
    (l : ℝ) (hlr : Is (fas 0).optimiser.lr l) (hlr' : Is (gas 0).optimiser.lr l) (l0 : 0 ≤ l) (l1 : l ≤ 2 ^ 100)
    (h2 : ∀ t, l * ∑ i ∈ Finset.range n, real (value (φ t) i) ^ 2 ≤ 2) (hmod : ∀ t, Moderate n k (φ t) (ys t))
    (hmod' : ∀ t, Moderate n k (φ' t) (ys' t))
    (D : ℝ) (hD : ∀ t, l * len n (fun i => real (value (φ t) i)) * |real (ys t)| ≤ D) (hD1 : D ≤ 2 ^ 190)
    (r : ℝ) (r0 : 0 ≤ r) (Lpos : 0 < L) (hr : Persistent n L (fun t i => real (value (φ t) i)) (fun _ => l) r)
    (hL : L * (8 * k + 11) * 2 ^ (-51 : ℤ) ≤ 1 - r) (W E : ℝ)
    (hW : W = 2 * len n (fun i => real (entry (fas 0).weights i)) + 10 * L * D / (1 - r))
    (hE : E = 10 * L * ((8 * k + 11) * 2 ^ (-53 : ℤ) * (W + D) + 2 ^ (-800 : ℤ)) / (1 - r)) (t : Nat) :
    (∀ i < n, Spec.Finite (entry (fas t).weights i) ∧ Spec.Finite (entry (gas t).weights i)) ∧
    len n (fun i => real (entry (fas t).weights i) - real (entry (gas t).weights i)) ≤ 2 * E ∧
    ∀ (x : I) (x' : I') (χ : Features (FP M)) (χ' : Features (FP M')) (y v : FP M) (y' v' : FP M'),
      Basis.project (fas 0).basis x = .ok (.ok χ) → Basis.project (gas 0).basis x' = .ok (.ok χ') → Fits n χ → Fits n χ' →
      (∀ i, real (value χ' i) = real (value χ i)) → Moderate n k χ y → Moderate n k χ' y' →
      CanEvaluate (fas t) x v → CanEvaluate (gas t) x' v' → Spec.Finite v ∧ Spec.Finite v' ∧
        |real v - real v'| ≤ 6 * (len n (fun i => real (value χ i)) * E) + 2 ^ (-1033 : ℤ) := by
  have hus := exactWeights_run n (fun _ => l) (fun t i => real (value (φ t) i)) (fun t => real (ys t))
    (fun i => real (entry (fas 0).weights i))
  obtain ⟨a1, -, a3, a4⟩ := C188_sgd hM n k L fas xs ys hs φ hφ hn hw l hlr l0 l1 h2 hmod D hD hD1 r r0 Lpos hr hL _ hus
    (fun i _ => rfl) W E hW hE t
  obtain ⟨b1, -, b3, b4⟩ := C188_sgd hM' n k L gas xs' ys' hg φ' hφ' hn' hw' l hlr' l0 l1 (by simp only [hv]; exact h2) hmod'
    D (by simp only [hv, hy]; exact hD) hD1 r r0 Lpos (by simp only [hv]; exact hr) hL _ (by simp only [hv, hy]; exact hus)
    (fun i hi => (hww i hi).symm) W E hW hE t
  refine ⟨fun i hi => ⟨a1 i hi, b1 i hi⟩, len_two a3 b3, fun x x' χ χ' y v y' v' hp hp' hf hf' hχ hm hm' he he' => ?_⟩
  obtain ⟨c1, c2⟩ := a4 x χ y v hp hf hm he
  obtain ⟨d1, d2⟩ := b4 x' χ' y' v' hp' hf' hm' he'
  simp only [hχ] at d2
  refine ⟨c1, d1, ?_⟩
  have e : (2 : ℝ) ^ (-1033 : ℤ) = 2 * 2 ^ (-1034 : ℤ) := by
    rw [show (-1033 : ℤ) = 1 + -1034 by norm_num, zpow_add₀ (by norm_num), zpow_one]
  have h := abs_sub_le (real v) (∑ j ∈ Finset.range n, real (value χ j) *
    exactWeights n (fun _ => l) (fun t i => real (value (φ t) i)) (fun t => real (ys t)) (fun i => real (entry (fas 0).weights i)) t j) (real v')
  rw [abs_sub_comm] at d2
  rw [e]
  exact (h.trans (add_le_add c2 d2)).trans (le_of_eq (by ring))

/-- The same for ISGD, whose rate depends on the order of the hash map too. -/
theorem C188_isgd_runs (hM : M.rnd = binary64Format.rnd) (hM' : M'.rnd = binary64Format.rnd) (n k L : Nat)
    (fas : Nat → ScalarLFA B (ISGD (FP M)) (FP M)) (gas : Nat → ScalarLFA B' (ISGD (FP M')) (FP M')) (xs : Nat → I) (xs' : Nat → I')
    (ys : Nat → FP M) (ys' : Nat → FP M') (hs : ∀ t, CanUpdateWith (fas t) (xs t) (fun p => ys t -. p) (fas (t + 1)))
    (hg : ∀ t, CanUpdateWith (gas t) (xs' t) (fun p => ys' t -. p) (gas (t + 1)))
    (φ : Nat → Features (FP M)) (φ' : Nat → Features (FP M'))
    (hφ : ∀ t, Basis.project (fas 0).basis (xs t) = .ok (.ok (φ t)) ∧ Fits n (φ t))
    (hφ' : ∀ t, Basis.project (gas 0).basis (xs' t) = .ok (.ok (φ' t)) ∧ Fits n (φ' t))
    (hv : ∀ t i, real (value (φ' t) i) = real (value (φ t) i)) (hy : ∀ t, real (ys' t) = real (ys t))
    (hn : (fas 0).weights.length = n) (hn' : (gas 0).weights.length = n)
    (hw : ∀ i < n, Bounded (2 ^ 100) (entry (fas 0).weights i)) (hw' : ∀ i < n, Bounded (2 ^ 100) (entry (gas 0).weights i))
    (hww : ∀ i < n, real (entry (gas 0).weights i) = real (entry (fas 0).weights i))
    (l : ℝ) (hlr : Is (fas 0).optimiser.lr l) (hlr' : Is (gas 0).optimiser.lr l) (l0 : 0 ≤ l) (l1 : l ≤ 2 ^ 100) (c : Nat → ℝ)
    (hc : ∀ t, c t = l / (1 + l * ∑ i ∈ Finset.range n, real (value (φ t) i) ^ 2)) (hmod : ∀ t, Moderate n k (φ t) (ys t))
    (hmod' : ∀ t, Moderate n k (φ' t) (ys' t))
    (D : ℝ) (hD : ∀ t, c t * len n (fun i => real (value (φ t) i)) * |real (ys t)| ≤ D) (hD1 : D ≤ 2 ^ 190)
    (r : ℝ) (r0 : 0 ≤ r) (Lpos : 0 < L) (hr : Persistent n L (fun t i => real (value (φ t) i)) c r)
    (hL : L * (12 * k + 25) * 2 ^ (-51 : ℤ) ≤ 1 - r) (W E : ℝ)
    (hW : W = 2 * len n (fun i => real (entry (fas 0).weights i)) + 10 * L * D / (1 - r))
    (hE : E = 10 * L * ((12 * k + 25) * 2 ^ (-53 : ℤ) * (W + D) + 2 ^ (-500 : ℤ)) / (1 - r)) (t : Nat) :
    (∀ i < n, Spec.Finite (entry (fas t).weights i) ∧ Spec.Finite (entry (gas t).weights i)) ∧
    len n (fun i => real (entry (fas t).weights i) - real (entry (gas t).weights i)) ≤ 2 * E ∧
    ∀ (x : I) (x' : I') (χ : Features (FP M)) (χ' : Features (FP M')) (y v : FP M) (y' v' : FP M'),
      Basis.project (fas 0).basis x = .ok (.ok χ) → Basis.project (gas 0).basis x' = .ok (.ok χ') → Fits n χ → Fits n χ' →
      (∀ i, real (value χ' i) = real (value χ i)) → Moderate n k χ y → Moderate n k χ' y' →
      CanEvaluate (fas t) x v → CanEvaluate (gas t) x' v' → Spec.Finite v ∧ Spec.Finite v' ∧
        |real v - real v'| ≤ 6 * (len n (fun i => real (value χ i)) * E) + 2 ^ (-1033 : ℤ) := by
  have hus := exactWeights_run n c (fun t i => real (value (φ t) i)) (fun t => real (ys t))
    (fun i => real (entry (fas 0).weights i))
  obtain ⟨a1, -, a3, a4⟩ := C188_isgd hM n k L fas xs ys hs φ hφ hn hw l hlr l0 l1 c hc hmod D hD hD1 r r0 Lpos hr hL _ hus
    (fun i _ => rfl) W E hW hE t
  obtain ⟨b1, -, b3, b4⟩ := C188_isgd hM' n k L gas xs' ys' hg φ' hφ' hn' hw' l hlr' l0 l1 c (by simp only [hv]; exact hc) hmod'
    D (by simp only [hv, hy]; exact hD) hD1 r r0 Lpos (by simp only [hv]; exact hr) hL _ (by simp only [hv, hy]; exact hus)
    (fun i hi => (hww i hi).symm) W E hW hE t
  refine ⟨fun i hi => ⟨a1 i hi, b1 i hi⟩, len_two a3 b3, fun x x' χ χ' y v y' v' hp hp' hf hf' hχ hm hm' he he' => ?_⟩
  obtain ⟨c1, c2⟩ := a4 x χ y v hp hf hm he
  obtain ⟨d1, d2⟩ := b4 x' χ' y' v' hp' hf' hm' he'
  simp only [hχ] at d2
  refine ⟨c1, d1, ?_⟩
  have e : (2 : ℝ) ^ (-1033 : ℤ) = 2 * 2 ^ (-1034 : ℤ) := by
    rw [show (-1033 : ℤ) = 1 + -1034 by norm_num, zpow_add₀ (by norm_num), zpow_one]
  have h := abs_sub_le (real v) (∑ j ∈ Finset.range n, real (value χ j) *
    exactWeights n c (fun t i => real (value (φ t) i)) (fun t => real (ys t)) (fun i => real (entry (fas 0).weights i)) t j) (real v')
  rw [abs_sub_comm] at d2
  rw [e]
  exact (h.trans (add_le_add c2 d2)).trans (le_of_eq (by ring))

end Two

section Example

/-- Three features in turn, then all three at once. -/
def Spec.inTurns (K : Type) [Scalar K] : Closure Nat K :=
  ⟨3, fun t => .ok (.ok (.sparse ⟨3, if t % 4 = 3 then [(0, Scalar.one), (1, Scalar.one), (2, Scalar.one)] else
    [(t % 4, Scalar.one)]⟩))⟩

def turnFeatures (K : Type) [Scalar K] (t : Nat) : Features K :=
  .sparse ⟨3, if t % 4 = 3 then [(0, Scalar.one), (1, Scalar.one), (2, Scalar.one)] else [(t % 4, Scalar.one)]⟩

theorem turn_fits (K : Type) [Scalar K] (t : Nat) : Fits 3 (turnFeatures K t) := by
  have h4 : t % 4 < 4 := Nat.mod_lt _ (by norm_num)
  unfold turnFeatures
  refine ⟨?_, rfl⟩
  split_ifs with h
  · refine ⟨?_, fun e he => ?_⟩
    · show [0, 1, 2].Nodup
      decide
    · rcases List.mem_cons.1 he with rfl | he
      · exact Nat.zero_lt_succ _
      rcases List.mem_cons.1 he with rfl | he
      · show 1 < 3
        norm_num
      · rw [List.mem_singleton] at he
        subst he
        show 2 < 3
        norm_num
  · refine ⟨List.nodup_singleton _, fun e he => ?_⟩
    rw [List.mem_singleton] at he
    subst he
    show t % 4 < 3
    omega

theorem turn_stored {t i : Nat} {a : FP M} (h : Stored (turnFeatures (FP M) t) i a) : a = Scalar.one := by
  unfold turnFeatures at h
  split_ifs at h
  · rcases List.mem_cons.1 h with h | h
    · exact (Prod.mk.inj h).2
    rcases List.mem_cons.1 h with h | h
    · exact (Prod.mk.inj h).2
    · exact (Prod.mk.inj (List.mem_singleton.1 h)).2
  · exact (Prod.mk.inj (List.mem_singleton.1 h)).2

theorem turn_value (t i : Nat) : real (value (turnFeatures (FP M) t) i) =
    if t % 4 = 3 then (if i < 3 then 1 else 0) else if i = t % 4 then 1 else 0 := by
  have h0 : real (Scalar.zero : FP M) = 0 := is_real val_zero
  have h1 : real (Scalar.one : FP M) = 1 := is_real val_one
  have hk := keysUnique_of_wf (turn_fits (FP M) t).1
  split_ifs with h hi hi
  · rw [value_of_stored hk (a := Scalar.one), h1]
    unfold turnFeatures
    rw [if_pos h]
    show (i, (Scalar.one : FP M)) ∈ _
    interval_cases i <;> simp
  · rw [value_of_not_stored, h0]
    intro a ha
    unfold turnFeatures at ha
    rw [if_pos h] at ha
    have ha : (i, a) ∈ [(0, (Scalar.one : FP M)), (1, Scalar.one), (2, Scalar.one)] := ha
    simp only [List.mem_cons, Prod.mk.injEq, List.not_mem_nil, or_false] at ha
    omega
  · rw [value_of_stored hk (a := Scalar.one), h1]
    unfold turnFeatures
    rw [if_neg h, hi]
    exact List.mem_singleton.2 rfl
  · rw [value_of_not_stored, h0]
    intro a ha
    unfold turnFeatures at ha
    rw [if_neg h] at ha
    exact hi (Prod.mk.inj (List.mem_singleton.1 ha)).1

theorem turn_sq (t : Nat) : ∑ i ∈ Finset.range 3, real (value (turnFeatures (FP M) t) i) ^ 2 ≤ 3 := by
  simp only [turn_value, Finset.sum_range_succ, Finset.sum_range_zero]
  split_ifs <;> norm_num

theorem turn_excited : Excited 3 4 (fun t i => real (value (turnFeatures (FP M) t) i)) (fun _ => 1 / 4) (1 / 4) := by
  intro s u
  have h4 : s % 4 < 4 := Nat.mod_lt _ (by norm_num)
  have sq := fun a : ℝ => sq_nonneg a
  have cases : s % 4 = 0 ∨ s % 4 = 1 ∨ s % 4 = 2 ∨ s % 4 = 3 := by omega
  simp only [turn_value]
  rcases cases with h | h | h | h
  · have h1 : (s + 1) % 4 = 1 := by omega
    have h2 : (s + 2) % 4 = 2 := by omega
    have h3 : (s + 3) % 4 = 3 := by omega
    simp [Finset.sum_range_succ, h, h1, h2, h3]
    nlinarith [sq (u 0 + u 1 + u 2)]
  · have h1 : (s + 1) % 4 = 2 := by omega
    have h2 : (s + 2) % 4 = 3 := by omega
    have h3 : (s + 3) % 4 = 0 := by omega
    simp [Finset.sum_range_succ, h, h1, h2, h3]
    nlinarith [sq (u 0 + u 1 + u 2)]
  · have h1 : (s + 1) % 4 = 3 := by omega
    have h2 : (s + 2) % 4 = 0 := by omega
    have h3 : (s + 3) % 4 = 1 := by omega
    simp [Finset.sum_range_succ, h, h1, h2, h3]
    nlinarith [sq (u 0 + u 1 + u 2)]
  · have h1 : (s + 1) % 4 = 0 := by omega
    have h2 : (s + 2) % 4 = 1 := by omega
    have h3 : (s + 3) % 4 = 2 := by omega
    simp [Finset.sum_range_succ, h, h1, h2, h3]
    nlinarith [sq (u 0 + u 1 + u 2)]

theorem turn_persistent : Persistent 3 4 (fun t i => real (value (turnFeatures (FP M) t) i)) (fun _ => 1 / 4) (127 / 128) := by
  intro s us hus
  have h := C181_excited 3 4 (by norm_num) (fun t i => real (value (turnFeatures (FP M) t) i)) (fun _ => 1 / 4) (fun _ => by norm_num)
    (fun t => by linarith [turn_sq (M := M) t]) (1 / 4) turn_excited s us hus
  refine h.trans (mul_le_mul_of_nonneg_right ?_ (len_nonneg _ _))
  rw [Real.sqrt_le_left (by norm_num)]
  norm_num

theorem turn_moderate (t : Nat) {Y : ℝ} (hY : Y ≤ 2 ^ 100) {y : FP M} (hy : Bounded Y y) : Moderate 3 3 (turnFeatures (FP M) t) y := by
  refine ⟨by norm_num, ⟨?_, by norm_num⟩, fun i x hx => ?_, bounded_mono hy hY⟩
  · unfold turnFeatures
    split_ifs
    · exact le_rfl
    · show 1 ≤ 3
      norm_num
  · rw [turn_stored hx]
    exact ⟨1, val_one, by rw [abs_one]; exact one_le_pow₀ (by norm_num)⟩

/-- A run in the sense of C181 is one of the runs allowed here. -/
theorem C188_stream {K B O I : Type} [Scalar K] [Space B] [Basis B I K] [Optimiser O K]
    {fas : Nat → ScalarLFA B O K} {xs : Nat → I} {ys ps : Nat → K} (hs : Stream fas xs ys ps) (t : Nat) :
    CanUpdateWith (fas t) (xs t) (fun p => ys t -. p) (fas (t + 1)) := by
  have h := hs.updates t
  unfold ScalarLFA.updateWith at h
  cases hp : Basis.project (K := K) (fas t).basis (xs t) with
  | error p =>
    rw [hp] at h
    cases h
  | ok r =>
    rw [hp] at h
    cases r with
    | error e => cases h
    | ok φ =>
      cases hd : φ.dot (fas t).weights with
      | error p =>
        simp only [P.ok_bind, hd] at h
        cases h
      | ok v =>
        cases hst : Optimiser.stepScaled (fas t).optimiser (fas t).weights φ (ys t -. v) with
        | error p =>
          simp only [P.ok_bind, hd, hst] at h
          cases h
        | ok r =>
          simp only [P.ok_bind, hd, hst] at h
          obtain ⟨r, o, w⟩ := r
          simp only [Except.ok.injEq, Prod.mk.injEq] at h
          obtain ⟨rfl, e⟩ := h
          exact ⟨φ, φ, hp, same_refl φ, v, o, w, hd, hst, e.symm⟩

/-- The hypotheses are met: three weights, three features in turn and then all at once, rate `1/4`, any targets up to `Y ≤ 2^100`. There
are such runs, and the weights of any two of them differ by at most `2^-23 Y + 2^-786` for ever. -/
theorem C188_example (hM : M.rnd = binary64Format.rnd) (lr : FP M) (hl : Is lr (1 / 4)) (ys : Nat → FP M) (Y : ℝ)
    (hY : Y ≤ 2 ^ 100) (hy : ∀ t, Bounded Y (ys t)) :
    let Run := fun fas : Nat → ScalarLFA (Closure Nat (FP M)) (SGD (FP M)) (FP M) =>
      fas 0 = LFA.mk (inTurns (FP M)) [Scalar.zero, Scalar.zero, Scalar.zero] ⟨lr⟩ ∧
      ∀ t, CanUpdateWith (fas t) t (fun p => ys t -. p) (fas (t + 1))
    (∃ fas, Run fas) ∧ ∀ fas gas, Run fas → Run gas → ∀ t,
      len 3 (fun i => real (entry (fas t).weights i) - real (entry (gas t).weights i)) ≤ 2 ^ (-23 : ℤ) * Y + 2 ^ (-786 : ℤ) := by
  intro Run
  have Y0 : 0 ≤ Y := by
    obtain ⟨r, -, h⟩ := hy 0
    exact (abs_nonneg r).trans h
  refine ⟨?_, ?_⟩
  · obtain ⟨fas, ps, hs, h0⟩ := stream_any (O := SGD (FP M)) (inTurns (FP M)) (n := 3) (fun t => t) ys
      (fun t => ⟨_, rfl, turn_fits (FP M) t⟩) [Scalar.zero, Scalar.zero, Scalar.zero] rfl ⟨lr⟩ trivial
    exact ⟨fas, h0, fun t => C188_stream hs t⟩
  · rintro fas gas ⟨f0, hf⟩ ⟨g0, hg⟩ t
    have zero : ∀ i < 3, entry ([Scalar.zero, Scalar.zero, Scalar.zero] : List (FP M)) i = Scalar.zero := fun i hi => by
      interval_cases i <;> rfl
    have bz : ∀ i < 3, Bounded (2 ^ 100) (entry ([Scalar.zero, Scalar.zero, Scalar.zero] : List (FP M)) i) := fun i hi => by
      rw [zero i hi]; exact bounded_zero (by positivity)
    have W0 : len 3 (fun i => real (entry ([Scalar.zero, Scalar.zero, Scalar.zero] : List (FP M)) i)) = 0 := by
      rw [len_congr (g := fun _ => 0) fun i hi => by rw [zero i hi, is_real val_zero], len_const 3 0 le_rfl, mul_zero]
    obtain ⟨-, h, -⟩ := C188_sgd_runs hM hM 3 3 4 fas gas (fun t => t) (fun t => t) ys ys hf hg (turnFeatures (FP M)) (turnFeatures (FP M))
      (fun t => ⟨by rw [f0]; rfl, turn_fits _ t⟩) (fun t => ⟨by rw [g0]; rfl, turn_fits _ t⟩) (fun _ _ => rfl) (fun _ => rfl)
      (by rw [f0]; rfl) (by rw [g0]; rfl) (by rw [f0]; exact bz) (by rw [g0]; exact bz) (by rw [f0, g0]; exact fun _ _ => rfl)
      (1 / 4) (by rw [f0]; exact hl) (by rw [g0]; exact hl) (by norm_num)
      ((by norm_num : (1 / 4 : ℝ) ≤ 1).trans (one_le_pow₀ (by norm_num))) (fun t => by linarith [turn_sq (M := M) t])
      (fun t => turn_moderate t hY (hy t)) (fun t => turn_moderate t hY (hy t)) (1 / 2 * Y)
      (fun t => by
        obtain ⟨r, hr, h⟩ := hy t
        rw [is_real hr]
        refine mul_le_mul ?_ h (abs_nonneg _) (by norm_num)
        have : len 3 (fun i => real (value (turnFeatures (FP M) t) i)) ≤ 2 := by
          refine abs_le_of_sq_le_sq' ?_ (by norm_num) |>.2
          rw [len_sq]
          linarith [turn_sq (M := M) t]
        linarith)
      (by
        have : (2 : ℝ) ^ 100 ≤ 2 ^ 190 := pow_le_pow_right₀ (by norm_num) (by norm_num)
        linarith) (127 / 128) (by norm_num) (by norm_num) turn_persistent (by norm_num) _ _ rfl rfl t
    refine h.trans ?_
    rw [f0]
    simp only [W0]
    have e1 : (2 : ℝ) ^ (-23 : ℤ) = 2 ^ 30 * 2 ^ (-53 : ℤ) := by norm_num
    have e2 : (2 : ℝ) ^ (-786 : ℤ) = 2 ^ 14 * 2 ^ (-800 : ℤ) := by
      rw [show (-786 : ℤ) = 14 + -800 by norm_num, zpow_add₀ (by norm_num)]
      norm_num
    rw [e1, e2]
    have p1 : (0 : ℝ) ≤ 2 ^ (-53 : ℤ) * Y := by positivity
    have p2 : (0 : ℝ) ≤ 2 ^ (-800 : ℤ) := by positivity
    generalize (2 : ℝ) ^ (-53 : ℤ) = a at *
    generalize (2 : ℝ) ^ (-800 : ℤ) = b at *
    push_cast
    refine (le_of_eq (b := 917683200 * (a * Y) + 10240 * b) (by ring)).trans ?_
    linarith

end Example

end

end Lfa

import Verif.Props.C157
import Verif.Props.C167

/-!
# C168: training on features computed in double precision follows training on the exact features

C157 compares two runs on the same activations. Here the run in `f64` projects its inputs with rounding (C96, C167), the
other run with the exact basis.
-/

set_option linter.unusedSectionVars false

namespace Lfa

open Spec Machine XReal

variable {M : Machine}

theorem abs_sum_mul_le_len (n : Nat) (f g : Nat → ℝ) : |∑ i ∈ Finset.range n, f i * g i| ≤ len n f * len n g := by
  have h := Finset.sum_mul_sq_le_sq_mul_sq (Finset.range n) f g
  rw [← len_sq, ← len_sq, ← mul_pow] at h
  exact abs_le_of_sq_le_sq h (mul_nonneg (len_nonneg _ _) (len_nonneg _ _))

theorem len_smul' {n : Nat} (c : ℝ) (f : Nat → ℝ) : len n (fun i => c * f i) = |c| * len n f := by
  unfold len
  simp only [mul_pow]
  rw [← Finset.mul_sum, Real.sqrt_mul (sq_nonneg c), Real.sqrt_sq_eq_abs]

theorem len_value {n : Nat} {ψ : Features ℝ} (h : Fits n ψ) : √(normSq ψ) = len n (fun i => value ψ i) := by
  unfold len
  rw [normSq, h.2]
  simp only [sq]

/-- What an error `δ` of the features (Euclidean length) adds to the weights `w` in one exact call with rate `l`. -/
noncomputable def Spec.featureError (n : Nat) (l δ : ℝ) (φ : Features (FP M)) (ψ : Features ℝ) (w : List (FP M)) (y : FP M) :
    ℝ :=
  l * (|real y - exactDot φ w| + √(normSq ψ) * len n fun i => real (entry w i)) * δ

/-- One exact step on two feature vectors. -/
theorem feature_step (n : Nat) (w φ ψ : Nat → ℝ) (y : ℝ) {l δ : ℝ} (h0 : 0 ≤ l) (h : len n (fun i => φ i - ψ i) ≤ δ) :
    len n (fun i => l * (y - ∑ j ∈ Finset.range n, φ j * w j) * φ i - l * (y - ∑ j ∈ Finset.range n, ψ j * w j) * ψ i) ≤
      l * (|y - ∑ j ∈ Finset.range n, φ j * w j| + len n ψ * len n w) * δ := by
  have d0 := (len_nonneg n fun i => φ i - ψ i).trans h
  set a := y - ∑ j ∈ Finset.range n, φ j * w j with ha
  set b := ∑ j ∈ Finset.range n, (φ j - ψ j) * w j with hb
  have e : ∀ i < n, l * a * φ i - l * (y - ∑ j ∈ Finset.range n, ψ j * w j) * ψ i =
      l * a * (φ i - ψ i) + (-(l * b)) * ψ i := fun i _ => by
    rw [ha, hb]
    simp only [sub_mul, Finset.sum_sub_distrib]
    ring
  rw [len_congr e]
  refine (len_add_le n _ _).trans ?_
  rw [len_smul', len_smul', abs_neg, abs_mul, abs_mul, abs_of_nonneg h0]
  have h1 : |b| ≤ δ * len n w := (abs_sum_mul_le_len n _ _).trans (mul_le_mul_of_nonneg_right h (len_nonneg _ _))
  have h2 := mul_le_mul_of_nonneg_left h (mul_nonneg h0 (abs_nonneg a))
  have h3 := mul_le_mul_of_nonneg_right (mul_le_mul_of_nonneg_left h1 h0) (len_nonneg n ψ)
  have e2 : l * (|a| + len n ψ * len n w) * δ = l * |a| * δ + l * (δ * len n w) * len n ψ := by ring
  rw [e2]
  linarith

/-- Two sequences of weights: `ws` moved by rounded calls with rate `c` and predictions `ps` within the usual error, `us` by exact
calls on nearby features. -/
theorem follow_sgd (hM : M.rnd = binary64Format.rnd) (n : Nat) (ws : Nat → List (FP M)) (us : Nat → List ℝ) {c : FP M} {l : ℝ}
    (ys ps : Nat → FP M) (φ : Nat → Features (FP M)) (ψ : Nat → Features ℝ) (hφ : ∀ k, Fits n (φ k)) (hψ : ∀ k, Fits n (ψ k))
    (hd : ∀ k r, Is (ps k) r → |r - exactDot (φ k) (ws k)| ≤ predictionError (φ k) (ws k))
    (hstep : ∀ k, ∀ i < n, (∀ a, Stored (φ k) i a → entry (ws (k + 1)) i = (entry (ws k) i +. c *. (ys k -. ps k) *. a)) ∧
      (¬ Active (φ k) i → entry (ws (k + 1)) i = entry (ws k) i))
    (hus : ∀ k, ∀ i < n, entry (us (k + 1)) i = entry (us k) i + l * (real (ys k) - Spec.inner (ψ k) (us k)) * value (ψ k) i)
    (δ : Nat → ℝ) (hv : ∀ k, len n (fun i => real (value (φ k) i) - value (ψ k) i) ≤ δ k)
    (hw : ∀ i < n, entry (us 0) i = real (entry (ws 0) i)) (hlr : l = real c) (h0 : 0 ≤ l)
    (h2 : ∀ k, l * normSq (ψ k) ≤ 2) (T : Nat) (hT : ∀ i < n, Finite (entry (ws T) i)) :
    len n (fun i => real (entry (ws T) i) - entry (us T) i) ≤
      ∑ t ∈ Finset.range T, (callError n c (φ t) (ws t) (ys t) (ps t) + featureError n l (δ t) (φ t) (ψ t) (ws t) (ys t)) := by
  induction T with
  | zero =>
    rw [Finset.range_zero, Finset.sum_empty]
    have : len n (fun i => real (entry (ws 0) i) - entry (us 0) i) = len n (fun _ => 0) :=
      len_congr fun i hi => by rw [hw i hi, sub_self]
    rw [this, len_const n 0 le_rfl, mul_zero]
  | succ T ih =>
    have ih := ih fun i hi => by
      obtain ⟨z, hz⟩ := hT i hi
      obtain ⟨ω, -, h1, -⟩ := sgd_event hM (⟨c⟩ : SGD (FP M)) (hφ T) (ys T -. ps T) i (hstep T i hi) hz
      exact ⟨ω, h1⟩
    have he := call_err hM (hφ T) (hd T) (hstep T) hT
    rw [Finset.sum_range_succ]
    have e1 : exactDot (φ T) (ws T) =
        ∑ j ∈ Finset.range n, real (value (φ T) j) * real (entry (ws T) j) := by
      unfold exactDot
      rw [(hφ T).2]
    have e2 : Spec.inner (ψ T) (us T) = ∑ j ∈ Finset.range n, value (ψ T) j * entry (us T) j := by
      rw [inner_eq, (hψ T).2]
    have hfe := feature_step n (fun i => real (entry (ws T) i)) (fun i => real (value (φ T) i))
      (fun i => value (ψ T) i) (real (ys T)) h0 (hv T)
    rw [← e1, ← len_value (hψ T)] at hfe
    have hex := exact_step n (fun i => real (entry (ws T) i) - entry (us T) i)
      (fun i => value (ψ T) i) h0 (by
        have := h2 T
        rw [normSq, (hψ T).2] at this
        simpa only [sq] using this)
    have key := (len_add_le n (fun i => real (entry (ws (T + 1)) i) -
      (real (entry (ws T) i) + real c * (real (ys T) - exactDot (φ T) (ws T)) *
        real (value (φ T) i))) (fun i => (l * (real (ys T) - exactDot (φ T) (ws T)) * real (value (φ T) i) -
        l * (real (ys T) - ∑ j ∈ Finset.range n, value (ψ T) j * real (entry (ws T) j)) * value (ψ T) i))).trans
      (add_le_add he hfe)
    have key2 := (len_add_le n _ _).trans (add_le_add (hex.trans ih) key)
    refine le_trans (le_of_eq (len_congr fun i hi => ?_)) key2
    rw [hus T i hi, ← hlr, e2]
    simp only [mul_sub, Finset.sum_sub_distrib]
    ring

/-- Two predictions from nearby weights and features. -/
theorem follow_prediction {n : Nat} {w : List (FP M)} {u : List ℝ} {φ : Features (FP M)} {ψ : Features ℝ} (hφ : Fits n φ)
    (hψ : Fits n ψ) {δ D p q : ℝ} (hv : len n (fun i => real (value φ i) - value ψ i) ≤ δ)
    (h : len n (fun i => real (entry w i) - entry u i) ≤ D) (e1 : |p - exactDot φ w| ≤ predictionError φ w)
    (hq : q = Spec.inner ψ u) :
    |p - q| ≤ √(normSq ψ) * D + predictionError φ w + δ * len n (fun i => real (entry w i)) := by
  have e3 : exactDot φ w - q = ∑ j ∈ Finset.range n, value ψ j *
      (real (entry w j) - entry u j) +
      ∑ j ∈ Finset.range n, (real (value φ j) - value ψ j) * real (entry w j) := by
    rw [hq, inner_eq, hψ.2, exactDot, hφ.2, ← Finset.sum_sub_distrib, ← Finset.sum_add_distrib]
    exact Finset.sum_congr rfl fun j hj => by ring
  have e4 := abs_sum_mul_le_len n (fun j => value ψ j)
    (fun j => real (entry w j) - entry u j)
  rw [← len_value hψ] at e4
  have e5 := (abs_sum_mul_le_len n (fun j => real (value φ j) - value ψ j)
    (fun j => real (entry w j))).trans (mul_le_mul_of_nonneg_right hv (len_nonneg _ _))
  have e6 := mul_le_mul_of_nonneg_left h (Real.sqrt_nonneg (normSq ψ))
  have e7 := abs_sub_le p (exactDot φ w) (q)
  have e8 := abs_add_le (∑ j ∈ Finset.range n, value ψ j * (real (entry w j) - entry u j))
    (∑ j ∈ Finset.range n, (real (value φ j) - value ψ j) * real (entry w j))
  rw [← e3] at e8
  linarith

section
variable {B B' I I' : Type} [Space B] [Basis B I (FP M)] [Space B'] [Basis B' I' ℝ]

/-- A run of SGD in exact arithmetic. -/
theorem exact_trace {n : Nat} {gas : Nat → ScalarLFA B' (SGD ℝ) ℝ} {xs' : Nat → I'} {ys qs : Nat → ℝ}
    (hg : Stream gas xs' ys qs) (hm : (gas 0).weights.length = n) {ψ : Nat → Features ℝ}
    (hψ : ∀ k, Basis.project (gas 0).basis (xs' k) = .ok (.ok (ψ k)) ∧ Fits n (ψ k)) (k : Nat) :
    ∀ i < n, entry (gas (k + 1)).weights i = entry (gas k).weights i
        + (gas 0).optimiser.lr * (ys k - Spec.inner (ψ k) (gas k).weights) * value (ψ k) i := by
  intro i hi
  obtain ⟨hb, ho, hl'⟩ := (sgd_trace hg hm hψ k).1
  have hp : Basis.project (gas k).basis (xs' k) = .ok (.ok (ψ k)) := by rw [hb]; exact (hψ k).1
  obtain ⟨w', -, g2, -, -, g5⟩ := sgd_update hp (by rw [hl']; exact (hψ k).2) (ys k)
  rw [hg.updates k] at g2
  simp only [Except.ok.injEq, Prod.mk.injEq, true_and] at g2
  rw [g2, ← ho]
  exact g5 i (by rw [hl']; exact hi)

/-- A run of SGD in `f64` (`fas`) on features `φ`, and a run in exact arithmetic (`gas`) on features `ψ` that differ from
them by at most `δ`. The distance of the weights after `T` calls is at most the sum of what rounding and the errors of the
features add in the single calls. -/
theorem C168_sgd (hM : M.rnd = binary64Format.rnd) (n : Nat)
    (fas : Nat → ScalarLFA B (SGD (FP M)) (FP M)) (gas : Nat → ScalarLFA B' (SGD ℝ) ℝ) (xs : Nat → I) (xs' : Nat → I')
    (ys ps : Nat → FP M) (qs : Nat → ℝ) (hs : Stream fas xs ys ps) (hg : Stream gas xs' (fun k => real (ys k)) qs)
    (φ : Nat → Features (FP M)) (ψ : Nat → Features ℝ)
    (hφ : ∀ k, Basis.project (fas 0).basis (xs k) = .ok (.ok (φ k)) ∧ Fits n (φ k))
    (hψ : ∀ k, Basis.project (gas 0).basis (xs' k) = .ok (.ok (ψ k)) ∧ Fits n (ψ k)) (δ : Nat → ℝ)
    (hv : ∀ k, len n (fun i => real (value (φ k) i) - value (ψ k) i) ≤ δ k)
    (hn : (fas 0).weights.length = n) (hm : (gas 0).weights.length = n)
    (hw : ∀ i < n, entry (gas 0).weights i = real (entry (fas 0).weights i))
    (hlr : (gas 0).optimiser.lr = real (fas 0).optimiser.lr) (h0 : 0 ≤ (gas 0).optimiser.lr)
    (h2 : ∀ k, (gas 0).optimiser.lr * normSq (ψ k) ≤ 2) (T : Nat)
    (hT : ∀ i < n, Finite (entry (fas T).weights i)) :
    len n (fun i => real (entry (fas T).weights i) - entry (gas T).weights i) ≤
      ∑ t ∈ Finset.range T, (callError n (fas 0).optimiser.lr (φ t) (fas t).weights (ys t) (ps t) +
        featureError n (gas 0).optimiser.lr (δ t) (φ t) (ψ t) (fas t).weights (ys t)) := by
  refine follow_sgd hM n (fun k => (fas k).weights) (fun k => (gas k).weights) ys ps φ ψ (fun k => (hφ k).2) (fun k => (hψ k).2)
    (fun k r hr => ?_) (fun k => (sgd_trace hs hn hφ k).2.2) (exact_trace hg hm hψ) δ hv hw hlr h0 h2 T hT
  obtain ⟨⟨-, -, hl⟩, hd, -⟩ := sgd_trace hs hn hφ k
  exact dot_err hM (hφ k).2 hl hd hr

/-- The predictions differ accordingly. -/
theorem C168_prediction (hM : M.rnd = binary64Format.rnd) (n : Nat)
    (fas : Nat → ScalarLFA B (SGD (FP M)) (FP M)) (gas : Nat → ScalarLFA B' (SGD ℝ) ℝ) (xs : Nat → I) (xs' : Nat → I')
    (ys ps : Nat → FP M) (qs : Nat → ℝ) (hs : Stream fas xs ys ps) (hg : Stream gas xs' (fun k => real (ys k)) qs)
    (φ : Nat → Features (FP M)) (ψ : Nat → Features ℝ)
    (hφ : ∀ k, Basis.project (fas 0).basis (xs k) = .ok (.ok (φ k)) ∧ Fits n (φ k))
    (hψ : ∀ k, Basis.project (gas 0).basis (xs' k) = .ok (.ok (ψ k)) ∧ Fits n (ψ k)) (δ : Nat → ℝ)
    (hv : ∀ k, len n (fun i => real (value (φ k) i) - value (ψ k) i) ≤ δ k)
    (hn : (fas 0).weights.length = n) (hm : (gas 0).weights.length = n)
    (hw : ∀ i < n, entry (gas 0).weights i = real (entry (fas 0).weights i))
    (hlr : (gas 0).optimiser.lr = real (fas 0).optimiser.lr) (h0 : 0 ≤ (gas 0).optimiser.lr)
    (h2 : ∀ k, (gas 0).optimiser.lr * normSq (ψ k) ≤ 2) (T : Nat)
    (hT : ∀ i < n, Finite (entry (fas T).weights i)) (hp : Finite (ps T)) :
    |real (ps T) - qs T| ≤ √(normSq (ψ T)) * ∑ t ∈ Finset.range T,
      (callError n (fas 0).optimiser.lr (φ t) (fas t).weights (ys t) (ps t) +
        featureError n (gas 0).optimiser.lr (δ t) (φ t) (ψ t) (fas t).weights (ys t)) +
      predictionError (φ T) (fas T).weights + δ T * len n (fun i => real (entry (fas T).weights i)) := by
  have h := C168_sgd hM n fas gas xs xs' ys ps qs hs hg φ ψ hφ hψ δ hv hn hm hw hlr h0 h2 T hT
  obtain ⟨⟨-, -, hl⟩, hd, -⟩ := sgd_trace hs hn hφ T
  obtain ⟨⟨-, -, hl'⟩, hd', -⟩ := sgd_trace hg hm hψ T
  obtain ⟨p, hp⟩ := hp
  rw [is_real hp]
  refine follow_prediction (hφ T).2 (hψ T).2 (hv T) h (dot_err hM (hφ T).2 hl hd hp) ?_
  have := dot_real (hψ T).2.1 (w := (gas T).weights) ((hψ T).2.2.trans hl'.symm)
  rw [hd'] at this
  injection this

end

/-! ## The shipped bases -/

theorem dense_near {es : List (List Nat)} {ys : List (FP M)} {f : List Nat → ℝ} {b : List Nat → ℝ} {δ : ℝ} (hδ : 0 ≤ δ)
    (h : List.Forall₂ (fun e y => ∃ r, Is y r ∧ |r - f e| ≤ b e) es ys) (hb : ∀ e ∈ es, b e ≤ δ) :
    Fits es.length (Features.dense ys) ∧ Fits es.length (Features.dense (es.map f)) ∧
    len es.length (fun i => real (value (Features.dense ys) i) - value (Features.dense (es.map f)) i) ≤ √es.length * δ := by
  have hl := h.length_eq
  refine ⟨⟨trivial, hl.symm⟩, ⟨trivial, List.length_map _⟩, ?_⟩
  rw [← len_const _ _ hδ]
  refine len_mono fun i hi => ?_
  have hi' : i < ys.length := hl ▸ hi
  obtain ⟨r, hr, he⟩ := (List.forall₂_iff_get.1 h).2 i hi hi'
  show |real (entry ys i) - entry (es.map f) i| ≤ δ
  have e1 : entry ys i = ys[i] := by simp [entry, hi']
  have e2 : entry (es.map f) i = f es[i] := by simp [entry, hi]
  rw [e1, e2]
  simp only [List.get_eq_getElem] at hr he
  rw [is_real hr]
  exact he.trans (hb _ (List.getElem_mem hi))

/-- Two runs on dense features `y` and `f e` no further apart than `δ` each, the exact ones in `[-1, 1]`. -/
theorem dense_run {B B' I I' : Type} [Space B] [Basis B I (FP M)] [Space B'] [Basis B' I' ℝ]
    (hM : M.rnd = binary64Format.rnd) {es : List (List Nat)}
    (fas : Nat → ScalarLFA B (SGD (FP M)) (FP M)) (gas : Nat → ScalarLFA B' (SGD ℝ) ℝ) (xs : Nat → I) (xs' : Nat → I')
    (ys ps : Nat → FP M) (qs : Nat → ℝ) (hs : Stream fas xs ys ps) (hg : Stream gas xs' (fun k => real (ys k)) qs)
    (zs : Nat → List (FP M)) (f : Nat → List Nat → ℝ) (b : List Nat → ℝ) {δ : ℝ} (hδ : 0 ≤ δ)
    (hφ : ∀ k, Basis.project (fas 0).basis (xs k) = .ok (.ok (.dense (zs k))))
    (hψ : ∀ k, Basis.project (gas 0).basis (xs' k) = .ok (.ok (.dense (es.map (f k)))))
    (h : ∀ k, List.Forall₂ (fun e y => ∃ r, Is y r ∧ |r - f k e| ≤ b e) es (zs k)) (hb : ∀ e ∈ es, b e ≤ δ)
    (hf : ∀ k, ∀ e ∈ es, |f k e| ≤ 1)
    (hn : (fas 0).weights.length = es.length) (hm : (gas 0).weights.length = es.length)
    (hw : ∀ i < es.length, entry (gas 0).weights i = real (entry (fas 0).weights i))
    (hlr : (gas 0).optimiser.lr = real (fas 0).optimiser.lr) (h0 : 0 ≤ (gas 0).optimiser.lr)
    (h2 : (gas 0).optimiser.lr * es.length ≤ 2) (T : Nat)
    (hT : ∀ i < es.length, Finite (entry (fas T).weights i)) :
    len es.length (fun i => real (entry (fas T).weights i) - entry (gas T).weights i) ≤
      ∑ t ∈ Finset.range T, (callError es.length (fas 0).optimiser.lr (.dense (zs t)) (fas t).weights (ys t) (ps t) +
        (gas 0).optimiser.lr * (|real (ys t) - exactDot (.dense (zs t)) (fas t).weights| +
          √es.length * len es.length fun i => real (entry (fas t).weights i)) * (√es.length * δ)) := by
  have hnorm : ∀ k, normSq (Features.dense (es.map (f k))) ≤ es.length := fun k => by
    have e : dim (Features.dense (es.map (f k))) = es.length := List.length_map _
    rw [normSq, e]
    calc ∑ i ∈ Finset.range es.length, value (Features.dense (es.map (f k))) i * value (Features.dense (es.map (f k))) i
        ≤ ∑ _i ∈ Finset.range es.length, (1 : ℝ) := Finset.sum_le_sum fun i hi => by
          have hi := Finset.mem_range.1 hi
          have e2 : value (Features.dense (es.map (f k))) i = f k es[i] := by
            show entry (es.map (f k)) i = _
            simp [entry, hi]
          have := hf k es[i] (List.getElem_mem hi)
          rw [e2, ← abs_mul_abs_self]
          exact mul_le_one₀ this (abs_nonneg _) this
      _ = es.length := by simp
  refine (C168_sgd hM es.length fas gas xs xs' ys ps qs hs hg (fun k => .dense (zs k)) (fun k => .dense (es.map (f k)))
    (fun k => ⟨hφ k, (dense_near hδ (h k) hb).1⟩) (fun k => ⟨hψ k, (dense_near hδ (h k) hb).2.1⟩) (fun _ => √es.length * δ)
    (fun k => (dense_near hδ (h k) hb).2.2) hn hm hw hlr h0
    (fun k => (mul_le_mul_of_nonneg_left (hnorm k) h0).trans h2) T hT).trans ?_
  refine Finset.sum_le_sum fun t _ => add_le_add_right ?_ _
  unfold featureError
  refine mul_le_mul_of_nonneg_right (mul_le_mul_of_nonneg_left (add_le_add_right ?_ _) h0)
    (mul_nonneg (Real.sqrt_nonneg _) hδ)
  exact mul_le_mul_of_nonneg_right (Real.sqrt_le_sqrt (hnorm t)) (len_nonneg _ _)

theorem choose_near {es : List (List Nat)} {Q : Nat → List Nat → FP M → Prop} {R : Nat → List (FP M) → Prop}
    {p d : Nat} (hes : MultiIndices p d es)
    (h : ∀ k, ∃ es zs, MultiIndices p d es ∧ R k zs ∧ List.Forall₂ (Q k) es zs) :
    ∃ zs : Nat → List (FP M), ∀ k, R k (zs k) ∧ List.Forall₂ (Q k) es (zs k) := by
  choose es' zs h1 h2 h3 using h
  refine ⟨zs, fun k => ⟨h2 k, ?_⟩⟩
  rw [C23_multi_indices_unique hes (h1 k)]
  exact h3 k

/-- Polynomial features of inputs in `[-1, 1]`. -/
theorem C168_polynomial (hM : M.rnd = binary64Format.rnd) (p d : Nat) (hd : 0 < d) (xs : Nat → Fin d → FP M)
    (hx : ∀ k j, InUnit (xs k j))
    (fas : Nat → ScalarLFA Polynomial (SGD (FP M)) (FP M)) (gas : Nat → ScalarLFA Polynomial (SGD ℝ) ℝ)
    (hb : (fas 0).basis = Polynomial.new d p) (hb' : (gas 0).basis = Polynomial.new d p)
    (ys ps : Nat → FP M) (qs : Nat → ℝ) (hs : Stream fas (fun k => List.ofFn (xs k)) ys ps)
    (hg : Stream gas (fun k => List.ofFn fun j => real (xs k j)) (fun k => real (ys k)) qs) (n : Nat)
    (hn' : n = (p + 1) ^ d - 1) (hn : (fas 0).weights.length = n) (hm : (gas 0).weights.length = n)
    (hw : ∀ i < n, entry (gas 0).weights i = real (entry (fas 0).weights i))
    (hlr : (gas 0).optimiser.lr = real (fas 0).optimiser.lr) (h0 : 0 ≤ (gas 0).optimiser.lr)
    (h2 : (gas 0).optimiser.lr * n ≤ 2) :
    ∃ φ : Nat → Features (FP M),
      (∀ k, Basis.project (Polynomial.new d p) (List.ofFn (xs k)) = .ok (.ok (φ k))) ∧
      ∀ T, (∀ i < n, Finite (entry (fas T).weights i)) →
        len n (fun i => real (entry (fas T).weights i) - entry (gas T).weights i) ≤
          ∑ t ∈ Finset.range T, (callError n (fas 0).optimiser.lr (φ t) (fas t).weights (ys t) (ps t) +
            (gas 0).optimiser.lr * (|real (ys t) - exactDot (φ t) (fas t).weights| +
              √n * len n fun i => real (entry (fas t).weights i)) * (√n * (p * d * 2 ^ (-52 : ℤ)))) := by
  have hes := computeCoefficients_spec p d hd
  have hlen : (computeCoefficients p d).length = n := by rw [length_computeCoefficients p d hd, hn']
  obtain ⟨zs, hz⟩ := choose_near hes fun k => C96_polynomial hM p d hd (xs k) (hx k)
  refine ⟨fun k => .dense (zs k), fun k => (hz k).1, fun T hT => ?_⟩
  subst hlen
  refine dense_run hM fas gas _ _ ys ps qs hs hg zs (fun k => monomial fun j => real (xs k j))
    (fun e => (e.sum : ℕ) * 2 ^ (-52 : ℤ)) (by positivity) (fun k => by rw [hb]; exact (hz k).1) (fun k => ?_)
    (fun k => (hz k).2.imp fun e y ⟨r, h1, _, h3⟩ => ⟨r, h1, h3⟩) (fun e he => ?_) (fun k e he => ?_)
    hn hm hw hlr h0 h2 T hT
  · obtain ⟨es', h1, h2⟩ := C24_monomials p d hd fun j => real (xs k j)
    rw [hb', h2, C23_multi_indices_unique h1 hes]
  · have h1 := sum_le_of_le (p := p) fun k hk => le_of_mem_computeCoefficients he k hk
    rw [length_of_mem_computeCoefficients he] at h1
    refine mul_le_mul_of_nonneg_right ?_ (by positivity)
    exact_mod_cast h1
  · unfold monomial
    rw [Finset.abs_prod]
    refine Finset.prod_le_one (fun j _ => abs_nonneg _) fun j _ => ?_
    rw [abs_pow]
    obtain ⟨r, h1, h2⟩ := hx k j
    have e2 : |real (xs k j)| ≤ 1 := by rw [is_real h1]; exact h2
    exact pow_le_one₀ (abs_nonneg _) e2

/-- Fourier features of inputs within the limits, with a `cos` accurate to `ε` before rounding. -/
theorem C168_fourier (hM : M.rnd = binary64Format.rnd) (ε : ℝ) (hε : ∀ r, |M.cos r - Real.cos r| ≤ ε) (p d : Nat)
    (hp : p ≤ 255) (hd : 0 < d) (hd' : d ≤ 2 ^ 40) (lo hi : Fin d → FP M) (xs : Nat → Fin d → FP M)
    (hx : ∀ k j, Within (xs k j) (lo j) (hi j))
    (fas : Nat → ScalarLFA (Fourier (FP M)) (SGD (FP M)) (FP M)) (gas : Nat → ScalarLFA (Fourier ℝ) (SGD ℝ) ℝ)
    (hb : (fas 0).basis = Fourier.new p (List.ofFn fun j => (lo j, hi j)))
    (hb' : (gas 0).basis = Fourier.new p (List.ofFn fun j => (real (lo j), real (hi j))))
    (ys ps : Nat → FP M) (qs : Nat → ℝ) (hs : Stream fas (fun k => List.ofFn (xs k)) ys ps)
    (hg : Stream gas (fun k => List.ofFn fun j => real (xs k j)) (fun k => real (ys k)) qs) (n : Nat)
    (hn' : n = (p + 1) ^ d - 1) (hn : (fas 0).weights.length = n) (hm : (gas 0).weights.length = n)
    (hw : ∀ i < n, entry (gas 0).weights i = real (entry (fas 0).weights i))
    (hlr : (gas 0).optimiser.lr = real (fas 0).optimiser.lr) (h0 : 0 ≤ (gas 0).optimiser.lr)
    (h2 : (gas 0).optimiser.lr * n ≤ 2) :
    ∃ φ : Nat → Features (FP M),
      (∀ k, Basis.project (Fourier.new p (List.ofFn fun j => (lo j, hi j))) (List.ofFn (xs k)) = .ok (.ok (φ k))) ∧
      ∀ T, (∀ i < n, Finite (entry (fas T).weights i)) →
        len n (fun i => real (entry (fas T).weights i) - entry (gas T).weights i) ≤
          ∑ t ∈ Finset.range T, (callError n (fas 0).optimiser.lr (φ t) (fas t).weights (ys t) (ps t) +
            (gas 0).optimiser.lr * (|real (ys t) - exactDot (φ t) (fas t).weights| +
              √n * len n fun i => real (entry (fas t).weights i)) *
                (√n * (ε + (2 + Real.pi * (2 * d + 6) * (p * d)) * roundoff))) := by
  have hes := computeCoefficients_spec p d hd
  have hu := roundoff_pos
  have hpi := Real.pi_pos
  have hε0 : 0 ≤ ε := (abs_nonneg _).trans (hε 0)
  have hlen : (computeCoefficients p d).length = n := by rw [length_computeCoefficients p d hd, hn']
  obtain ⟨zs, hz⟩ := choose_near hes fun k => C167_fourier hM ε hε p d hp hd hd' lo hi (xs k) (hx k)
  refine ⟨fun k => .dense (zs k), fun k => (hz k).1, fun T hT => ?_⟩
  subst hlen
  refine dense_run hM fas gas _ _ ys ps qs hs hg zs
    (fun k => fourierFeature (unit (fun j => real (lo j)) (fun j => real (hi j)) fun j => real (xs k j)))
    (fun e => ε + (2 + Real.pi * (2 * d + 6) * (e.sum : ℕ)) * roundoff) (by positivity)
    (fun k => by rw [hb]; exact (hz k).1) (fun k => ?_) (fun k => (hz k).2) (fun e he => ?_) (fun k e he => ?_)
    hn hm hw hlr h0 h2 T hT
  · obtain ⟨es', h1, h2⟩ := C28_features p d hd (fun j => real (lo j)) (fun j => real (hi j)) fun j => real (xs k j)
    rw [hb', h2, C23_multi_indices_unique h1 hes]
  · have h1 := sum_le_of_le (p := p) fun k hk => le_of_mem_computeCoefficients he k hk
    rw [length_of_mem_computeCoefficients he] at h1
    have h2 : ((e.sum : ℕ) : ℝ) ≤ p * d := by exact_mod_cast h1
    gcongr
  · unfold fourierFeature
    exact Real.abs_cos_le_one _

/-- Chebyshev features of inputs within the limits. -/
theorem C168_chebyshev (hM : M.rnd = binary64Format.rnd) (p d : Nat)
    (hp : p ≤ 11) (hd : 0 < d) (hd' : d ≤ 2 ^ 32) (lo hi : Fin d → FP M) (xs : Nat → Fin d → FP M)
    (hx : ∀ k j, Within (xs k j) (lo j) (hi j))
    (fas : Nat → ScalarLFA (Chebyshev (FP M)) (SGD (FP M)) (FP M)) (gas : Nat → ScalarLFA (Chebyshev ℝ) (SGD ℝ) ℝ)
    (hb : Chebyshev.new p (List.ofFn fun j => (lo j, hi j)) = .ok (fas 0).basis)
    (hb' : Chebyshev.new p (List.ofFn fun j => (real (lo j), real (hi j))) = .ok (gas 0).basis)
    (ys ps : Nat → FP M) (qs : Nat → ℝ) (hs : Stream fas (fun k => List.ofFn (xs k)) ys ps)
    (hg : Stream gas (fun k => List.ofFn fun j => real (xs k j)) (fun k => real (ys k)) qs) (n : Nat)
    (hn' : n = (p + 1) ^ d - 1) (hn : (fas 0).weights.length = n) (hm : (gas 0).weights.length = n)
    (hw : ∀ i < n, entry (gas 0).weights i = real (entry (fas 0).weights i))
    (hlr : (gas 0).optimiser.lr = real (fas 0).optimiser.lr) (h0 : 0 ≤ (gas 0).optimiser.lr)
    (h2 : (gas 0).optimiser.lr * n ≤ 2) :
    ∃ φ : Nat → Features (FP M),
      (∀ k, Basis.project (fas 0).basis (List.ofFn (xs k)) = .ok (.ok (φ k))) ∧
      ∀ T, (∀ i < n, Finite (entry (fas T).weights i)) →
        len n (fun i => real (entry (fas T).weights i) - entry (gas T).weights i) ≤
          ∑ t ∈ Finset.range T, (callError n (fas 0).optimiser.lr (φ t) (fas t).weights (ys t) (ps t) +
            (gas 0).optimiser.lr * (|real (ys t) - exactDot (φ t) (fas t).weights| +
              √n * len n fun i => real (entry (fas t).weights i)) *
                (√n * (d * (3 ^ p + 8 * p ^ 2 + 1) * 2 ^ (-52 : ℤ)))) := by
  have hes := computeCoefficients_spec p d hd
  have hlen : (computeCoefficients p d).length = n := by rw [length_computeCoefficients p d hd, hn']
  have hnear : ∀ k, ∃ es zs, MultiIndices p d es ∧ Basis.project (fas 0).basis (List.ofFn (xs k)) = .ok (.ok (.dense zs)) ∧
      List.Forall₂ (fun e y => ∃ r, Is y r ∧
        |r - chebProduct (unit (fun j => real (lo j)) (fun j => real (hi j)) fun j => real (xs k j)) e| ≤
          (e.map fun n : ℕ => (3 : ℝ) ^ n + 8 * (n : ℝ) ^ 2 + 1).sum * 2 ^ (-52 : ℤ)) es zs := fun k => by
    obtain ⟨es, c, zs, h1, h2, h3, h4⟩ := C167_chebyshev hM p d hp hd hd' lo hi (xs k) (hx k)
    rw [hb] at h2
    cases h2
    exact ⟨es, zs, h1, h3, h4⟩
  obtain ⟨zs, hz⟩ := choose_near hes hnear
  refine ⟨fun k => .dense (zs k), fun k => (hz k).1, fun T hT => ?_⟩
  subst hlen
  refine dense_run hM fas gas _ _ ys ps qs hs hg zs
    (fun k => chebProduct (unit (fun j => real (lo j)) (fun j => real (hi j)) fun j => real (xs k j)))
    (fun e => (e.map fun n : ℕ => (3 : ℝ) ^ n + 8 * (n : ℝ) ^ 2 + 1).sum * 2 ^ (-52 : ℤ)) (by positivity)
    (fun k => (hz k).1) (fun k => ?_) (fun k => (hz k).2) (fun e he => ?_) (fun k e he => ?_)
    hn hm hw hlr h0 h2 T hT
  · obtain ⟨es', c, h1, h2, h3⟩ :=
      C26_features p d hp hd (fun j => real (lo j)) (fun j => real (hi j)) fun j => real (xs k j)
    rw [hb'] at h2
    cases h2
    rw [h3, C23_multi_indices_unique h1 hes]
  · refine mul_le_mul_of_nonneg_right ?_ (by positivity)
    have h1 : ∀ v ∈ (e.map fun n : ℕ => (3 : ℝ) ^ n + 8 * (n : ℝ) ^ 2 + 1), v ≤ 3 ^ p + 8 * (p : ℝ) ^ 2 + 1 := by
      intro v hv
      obtain ⟨n, hn, rfl⟩ := List.mem_map.1 hv
      have hnp := le_of_mem_computeCoefficients he n hn
      have : (n : ℝ) ≤ p := by exact_mod_cast hnp
      have : (3 : ℝ) ^ n ≤ 3 ^ p := pow_le_pow_right₀ (by norm_num) hnp
      gcongr
    have := List.sum_le_card_nsmul _ _ h1
    rw [List.length_map, length_of_mem_computeCoefficients he, nsmul_eq_mul] at this
    exact this
  · obtain ⟨es', c, h1, h2, h3⟩ :=
      C26_features p d hp hd (fun j => real (lo j)) (fun j => real (hi j)) fun j => real (xs k j)
    have hlim : ∀ j, real (lo j) < real (hi j) ∧ real (lo j) ≤ real (xs k j) ∧ real (xs k j) ≤ real (hi j) := fun j => by
      obtain ⟨l1, l2, l3, -⟩ := rescale_err hM (hx k j)
      have l4 : 0 < real (hi j) - real (lo j) := sub_pos.2 l1
      rw [le_div_iff₀ l4, zero_mul] at l2
      rw [div_le_one l4] at l3
      exact ⟨l1, by linarith, by linarith⟩
    obtain ⟨c', fs, g1, g2, g3⟩ := C26_bounded p d hp hd (fun j => real (lo j)) (fun j => real (hi j))
      (fun j => real (xs k j)) (fun j => (hlim j).1) (fun j => (hlim j).2)
    rw [h2] at g1
    cases g1
    rw [h3] at g2
    cases g2
    rw [C23_multi_indices_unique h1 hes] at g3
    exact g3 _ (List.mem_map_of_mem he)

/-! ## A run that meets the hypotheses -/

/-- The feature is `c` in exact arithmetic and `1`, its rounding, in `f64`. -/
theorem C168_example (hM : M.rnd = binary64Format.rnd) (lr y : FP M) (l q c : ℝ) (hl : Is lr l) (hy : Is y q) (l0 : 0 ≤ l)
    (l1 : l ≤ 1 - 2 ^ (-51 : ℤ)) (bq : |q| ≤ 2 ^ (1000 : ℤ)) (hc : |1 - c| ≤ roundoff) :
    ∃ (fas : Nat → ScalarLFA (FixedSparse (FP M)) (SGD (FP M)) (FP M)) (gas : Nat → ScalarLFA (FixedDense ℝ) (SGD ℝ) ℝ)
      (ps : Nat → FP M) (qs : Nat → ℝ) (φ : Features (FP M)),
      fas 0 = LFA.mk ⟨1, [0]⟩ [Scalar.zero] ⟨lr⟩ ∧ gas 0 = LFA.mk ⟨[c]⟩ [0] ⟨l⟩ ∧
      Stream fas (fun _ => ()) (fun _ => y) ps ∧ Stream gas (fun _ => ()) (fun _ => q) qs ∧
      ∀ T, len 1 (fun i => real (entry (fas T).weights i) - entry (gas T).weights i) ≤
        ∑ t ∈ Finset.range T, (callError 1 lr φ (fas t).weights y (ps t) +
          featureError 1 l roundoff φ (.dense [c]) (fas t).weights y) := by
  have hp : Basis.project (⟨1, [0]⟩ : FixedSparse (FP M)) () =
      .ok (.ok (.sparse ⟨1, [(0, (Scalar.one : FP M))]⟩)) := rfl
  have hpr : Basis.project (⟨[c]⟩ : FixedDense ℝ) () = .ok (.ok (.dense [c])) := rfl
  have hf : Fits 1 (.sparse ⟨1, [(0, (Scalar.one : FP M))]⟩) := by
    refine ⟨⟨List.nodup_singleton _, fun e he => ?_⟩, rfl⟩
    rw [List.mem_singleton] at he
    subst he
    exact Nat.zero_lt_one
  have hf' : Fits 1 (.dense [c]) := ⟨trivial, rfl⟩
  obtain ⟨fas, ps, h0, hs, hfin, -⟩ := C105_cell hM (⟨1, [0]⟩ : FixedSparse (FP M)) () 1 0 Nat.zero_lt_one hp [Scalar.zero]
    rfl lr y l q 0 hl hy val_zero l0 l1 bq (by norm_num)
  obtain ⟨gas, qs, hg, hg0⟩ := stream_exists (O := SGD ℝ) (⟨[c]⟩ : FixedDense ℝ) (n := 1) (fun _ => ()) (fun _ => q)
    (fun _ => ⟨_, hpr, hf'⟩) [0] rfl ⟨l⟩ trivial
  have hφ : ∀ k : Nat, Basis.project (fas 0).basis () = .ok (.ok (.sparse ⟨1, [(0, (Scalar.one : FP M))]⟩)) ∧
      Fits 1 (.sparse ⟨1, [(0, (Scalar.one : FP M))]⟩) := fun _ => ⟨by rw [h0]; exact hp, hf⟩
  have hψ : ∀ k : Nat, Basis.project (gas 0).basis () = .ok (.ok (.dense [c])) ∧ Fits 1 (.dense [c]) :=
    fun _ => ⟨by rw [hg0]; exact hpr, hf'⟩
  have hn : (fas 0).weights.length = 1 := by rw [h0]; rfl
  have hu1 : roundoff ≤ 1 / 100 := by unfold roundoff; norm_num
  have hN : normSq (.dense [c]) = c * c := by
    rw [normSq]
    show ∑ i ∈ Finset.range 1, _ = _
    rw [Finset.sum_range_one]
    rfl
  refine ⟨fas, gas, ps, qs, .sparse ⟨1, [(0, (Scalar.one : FP M))]⟩, h0, hg0, hs, hg, fun T => ?_⟩
  have := C168_sgd hM 1 fas gas (fun _ => ()) (fun _ => ()) (fun _ => y) ps qs hs (by rw [is_real hy]; exact hg)
    (fun _ => .sparse ⟨1, [(0, (Scalar.one : FP M))]⟩) (fun _ => .dense [c]) hφ hψ (fun _ => roundoff)
    (fun _ => by
      unfold len
      rw [Finset.sum_range_one, Real.sqrt_sq_eq_abs]
      show |real (Scalar.one : FP M) - c| ≤ _
      rw [is_real val_one]
      exact hc)
    hn (by rw [hg0]; rfl) (fun i hi => by
      obtain rfl : i = 0 := by omega
      rw [h0, hg0]
      show (0 : ℝ) = real (Scalar.zero : FP M)
      rw [is_real val_zero]) (by rw [h0, hg0]; exact (is_real hl).symm) (by rw [hg0]; exact l0)
    (fun _ => by
      rw [hg0, hN]
      have h1 : (0 : ℝ) < 2 ^ (-51 : ℤ) := by positivity
      have h2 := abs_le.1 hc
      show l * (c * c) ≤ 2
      have h3 : c * c ≤ 2 := by nlinarith
      have h4 : l ≤ 1 := by linarith
      nlinarith [mul_self_nonneg c]) T (fun i hi => by
      obtain rfl : i = 0 := by omega
      obtain ⟨⟨-, -, hl⟩, hd, -⟩ := sgd_trace hs hn hφ T
      exact dot_finite hf hl hd (hfin T) ⟨_, List.mem_singleton.2 rfl⟩)
  simpa only [h0, hg0] using this

end Lfa

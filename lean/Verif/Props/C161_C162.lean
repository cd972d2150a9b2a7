import Verif.Proofs.NormErr
import Verif.Props.C157

/-!
# C161-C162: the implicit learning rate, training with it, and L2 normalisation in `f64`

`M` is any machine that rounds like `f64`; how sums are ordered is left open.
-/

set_option linter.unusedSectionVars false

namespace Lfa

open Spec Machine XReal

variable {M : Machine}

/-! ## C161 The implicit learning rate -/

theorem fold_squares (φ : Features (FP M)) : φ.fold Scalar.zero (fun acc x => acc +. x *. x) =
    φ.values.foldl (fun acc x => acc +. x *. x) Scalar.zero := by
  cases φ <;> rfl

/-- ISGD's effective learning rate in `f64` is within `(4 k + 14) 2^-53` of `lr / (1 + lr ‖φ‖²)`, `k` being the number of stored
activations, unless something overflows. -/
theorem C161_rate (hM : M.rnd = binary64Format.rnd) (o : ISGD (FP M)) {l : ℝ} (hl : Is o.lr l) (l0 : 0 ≤ l)
    (l1 : l ≤ 2 ^ 900) (φ : Features (FP M)) (h : WF φ) (hf : AllFinite φ) (hk : storedCount φ ≤ 2 ^ 40) (s : ℝ)
    (hs : s = ∑ i ∈ Finset.range (dim φ), real (value φ i) ^ 2) (hs1 : s ≤ 2 ^ 1020) (hs2 : l * s ≤ 2 ^ 1020) :
    ∃ c, Is (o.computeLr φ) c ∧
      |c - l / (1 + l * s)| ≤ (4 * storedCount φ + 14) * roundoff * (l / (1 + l * s)) + tiny := by
  have hu := roundoff_pos
  have ht := tiny_pos
  have hS : squares φ.values = s := by rw [squares_values h, hs]
  have hk' : φ.values.length ≤ 2 ^ 40 := by rwa [storedCount_values]
  obtain ⟨N, hN⟩ := squares_finite hM φ.values (values_finite hf) hk' (hS ▸ hs1)
  have e1 := squares_err' hM φ.values hk' hN
  have hK := length_roundoff' hk
  rw [hS, storedCount_values] at e1
  have s0 : 0 ≤ s := hS ▸ squares_nonneg _
  have K0 : 0 ≤ (storedCount φ : ℝ) * roundoff := by positivity
  have eK : (4 * (storedCount φ : ℝ) + 14) * roundoff = 4 * (storedCount φ * roundoff) + 14 * roundoff := by ring
  rw [eK]
  generalize (storedCount φ : ℝ) * roundoff = K at *
  have hu1 : roundoff ≤ 1 / 8192 := by norm_num [roundoff]
  have ht1 : tiny ≤ roundoff := zpow_le_zpow_right₀ (by norm_num) (by norm_num)
  have hlt : l * (2 ^ 41 * tiny) ≤ roundoff := by
    refine (mul_le_mul_of_nonneg_right l1 (by positivity)).trans ?_
    rw [← zpow_natCast (2 : ℝ) 900, ← zpow_natCast (2 : ℝ) 41, tiny, roundoff, ← zpow_add₀ (by norm_num),
      ← zpow_add₀ (by norm_num)]
    exact zpow_le_zpow_right₀ (by norm_num) (by norm_num)
  have e2 : |l * N - l * s| ≤ 2 * K * (l * s) + roundoff := by
    rw [← mul_sub, abs_mul, abs_of_nonneg l0]
    have := mul_le_mul_of_nonneg_left e1 l0
    linarith
  have ls0 : 0 ≤ l * s := mul_nonneg l0 s0
  have e3 : |l * N| ≤ 2 * (1 + l * s) := by
    have := abs_add_le (l * N - l * s) (l * s)
    rw [sub_add_cancel, abs_of_nonneg ls0] at this
    nlinarith
  have one : (1 : ℝ) ≤ 2 ^ 1020 := one_le_pow₀ (by norm_num)
  have two : (2 : ℝ) ^ 1022 = 4 * 2 ^ 1020 := by rw [show (4 : ℝ) = 2 ^ 2 by norm_num, ← pow_add]
  obtain ⟨p, hp, hp1⟩ := bounded_rnd (a := o.lr *. φ.fold Scalar.zero fun acc x => acc +. x *. x) (x := l * N)
    (c := 2 ^ 1022) (by rw [fold_squares, val_mul, hl, hN]; rfl) (by
      rw [two]
      generalize (2 : ℝ) ^ 1020 = X at *
      linarith only [e3, hs2, one]) (rnd_two_pow hM (by norm_num))
  have e4 : |p - l * N| ≤ roundoff * |l * N| + tiny := by
    obtain ⟨x, y, hx, hy, he⟩ := mul_err hM hp
    rw [fold_squares] at hy
    rwa [is_fun hx hl, is_fun hy hN] at he
  set D := 1 + l * s with hD
  have hD1 : 1 ≤ D := by linarith
  have e5 : |p - l * s| ≤ (2 * K + 4 * roundoff) * D := by
    have h1 := abs_sub_le p (l * N) (l * s)
    have h2 := mul_le_mul_of_nonneg_left e3 hu.le
    have h3 : 2 * K * (l * s) ≤ 2 * K * D := mul_le_mul_of_nonneg_left (by linarith) (by linarith)
    have h4 : roundoff * 1 ≤ roundoff * D := mul_le_mul_of_nonneg_left hD1 hu.le
    linarith
  obtain ⟨d, hd, -⟩ := bounded_rnd (a := Scalar.ofNat 1 +. o.lr *. φ.fold Scalar.zero fun acc x => acc +. x *. x)
    (x := 1 + p) (c := 2 ^ 1023) (by rw [val_add, val_ofNat_one, hp]; rfl) (by
      refine (abs_add_le _ _).trans ?_
      rw [abs_one, show (2 : ℝ) ^ 1023 = 2 * 2 ^ 1022 from pow_succ' 2 1022]
      have hY : (1 : ℝ) ≤ 2 ^ 1022 := one_le_pow₀ (by norm_num)
      generalize (2 : ℝ) ^ 1022 = Y at *
      linarith only [hp1, hY]) (rnd_two_pow hM (by norm_num))
  clear two hp1
  have e6 : |d - (1 + p)| ≤ roundoff * |1 + p| := by
    obtain ⟨x, y, hx, hy, he⟩ := add_err hM hd
    rwa [is_fun hx val_ofNat_one, is_fun hy hp] at he
  have e7 : |1 + p| ≤ 2 * D := by
    have h1 := abs_add_le (p - l * s) D
    have e : p - l * s + D = 1 + p := by rw [hD]; ring
    rw [e, abs_of_nonneg (by linarith : 0 ≤ D)] at h1
    nlinarith
  have e8 : |d - D| ≤ (2 * K + 6 * roundoff) * D := by
    have h1 := abs_sub_le d (1 + p) D
    have e : 1 + p - D = p - l * s := by rw [hD]; ring
    rw [e] at h1
    have h2 := mul_le_mul_of_nonneg_left e7 hu.le
    linarith
  have hd0 : 0 < d := by
    have := (abs_le.1 e8).1
    nlinarith
  have hd2 : 1 / 2 ≤ d := by
    have := (abs_le.1 e8).1
    nlinarith
  obtain ⟨c, hc, -⟩ := bounded_rnd (a := o.computeLr φ) (x := l / d) (c := 2 ^ 901) (by
      unfold ISGD.computeLr
      rw [val_div, hl, hd]
      show (M.round (if d = 0 then _ else .fin (l / d))).1 = _
      rw [if_neg hd0.ne']; rfl) (by
      rw [abs_div, abs_of_nonneg l0, abs_of_pos hd0, div_le_iff₀ hd0, show (2 : ℝ) ^ 901 = 2 ^ 900 * 2 from pow_succ 2 900]
      have : (0 : ℝ) < 2 ^ 900 := by positivity
      generalize (2 : ℝ) ^ 900 = Y at *
      nlinarith) (rnd_two_pow hM (by norm_num))
  have e9 := div_err hM hl hd hd0.ne' (show Is (o.lr /. _) c from hc)
  obtain ⟨-, e10⟩ := quotient_err (by linarith : 0 < D) e8 (by linarith) hu.le e9
  refine ⟨c, hc, e10.trans (le_of_eq ?_)⟩
  rw [abs_of_nonneg l0]
  ring

section
variable {B B' I : Type} [Space B] [Basis B I (FP M)] [Space B'] [Basis B' I ℝ]

/-- A run of ISGD, in any arithmetic. -/
theorem isgd_trace {K B I : Type} [Scalar K] [Space B] [Basis B I K] {n : Nat} {fas : Nat → ScalarLFA B (ISGD K) K}
    {xs : Nat → I} {ys ps : Nat → K} (hs : Stream fas xs ys ps) (hn : (fas 0).weights.length = n)
    {φ : Nat → Features K} (hφ : ∀ k, Basis.project (fas 0).basis (xs k) = .ok (.ok (φ k)) ∧ Fits n (φ k)) (k : Nat) :
    ((fas k).basis = (fas 0).basis ∧ (fas k).optimiser = (fas 0).optimiser ∧ (fas k).weights.length = n) ∧
    (φ k).dot (fas k).weights = .ok (ps k) ∧ ∀ i < n,
      (∀ a, Stored (φ k) i a → entry (fas (k + 1)).weights i =
        (entry (fas k).weights i +. (fas 0).optimiser.computeLr (φ k) *. (ys k -. ps k) *. a)) ∧
      (¬ Active (φ k) i → entry (fas (k + 1)).weights i = entry (fas k).weights i) := by
  have step : ∀ k, ((fas k).basis = (fas 0).basis ∧ (fas k).optimiser = (fas 0).optimiser ∧ (fas k).weights.length = n) →
      (φ k).dot (fas k).weights = .ok (ps k) ∧ ∃ w', fas (k + 1) = { fas k with weights := w' } ∧ w'.length = n ∧
        ∀ i < n, (∀ a, Stored (φ k) i a → entry w' i =
          (entry (fas k).weights i +. (fas 0).optimiser.computeLr (φ k) *. (ys k -. ps k) *. a)) ∧
        (¬ Active (φ k) i → entry w' i = entry (fas k).weights i) := by
    rintro k ⟨h1, h2, h3⟩
    have hp : Basis.project (fas k).basis (xs k) = .ok (.ok (φ k)) := by rw [h1]; exact (hφ k).1
    have hv : (φ k).dot (fas k).weights = .ok (ps k) := by
      have := hs.predicts k
      rw [scalar_evaluate_eq hp] at this
      obtain ⟨_, e1, e2⟩ := P.map_eq_ok.1 this
      cases e2
      exact e1
    obtain ⟨w', g1, g2, g3⟩ := isgd_scaled (hφ k).2 (fas k).optimiser (ys k -. ps k) h3
    have := updateWith_eq hp hv (fun _ v => ys k -. v) g1
    rw [hs.updates k] at this
    simp only [Except.ok.injEq, Prod.mk.injEq, true_and] at this
    rw [h2] at g3
    exact ⟨hv, w', this, g2, g3⟩
  have inv : ∀ k, (fas k).basis = (fas 0).basis ∧ (fas k).optimiser = (fas 0).optimiser ∧ (fas k).weights.length = n := by
    intro k
    induction k with
    | zero => exact ⟨rfl, rfl, hn⟩
    | succ k ih =>
      obtain ⟨-, w', e, hl, -⟩ := step k ih
      rw [e]
      exact ⟨ih.1, ih.2.1, hl⟩
  obtain ⟨h1, w', e, -, h2⟩ := step k (inv k)
  exact ⟨inv k, h1, by rw [e]; exact h2⟩

/-- What rounding can add to the weights in one call of ISGD with nominal rate `l`: as for SGD, plus the error of the rate. -/
noncomputable def Spec.implicitError (n : Nat) (l : ℝ) (c : FP M) (φ : Features (FP M)) (w : List (FP M)) (y v : FP M) : ℝ :=
  callError n c φ w y v +
    |real c - l / (1 + l * ∑ i ∈ Finset.range n, real (value φ i) ^ 2)| * |real y - exactDot φ w| *
      len n fun i => real (value φ i)

/-- Two sequences of weights: `ws` moved by rounded calls with rates `c` and predictions `ps` within the usual error, `us` by exact
calls of ISGD with nominal rate `r` on the same features. -/
theorem follow_isgd (hM : M.rnd = binary64Format.rnd) (n : Nat) (ws : Nat → List (FP M)) (us : Nat → List ℝ) (c : Nat → FP M) {r : ℝ}
    (ys ps : Nat → FP M) (φ : Nat → Features (FP M)) (ψ : Nat → Features ℝ) (hφ : ∀ k, Fits n (φ k)) (hψ : ∀ k, Fits n (ψ k))
    (hd : ∀ k r, Is (ps k) r → |r - exactDot (φ k) (ws k)| ≤ predictionError (φ k) (ws k))
    (hstep : ∀ k, ∀ i < n, (∀ a, Stored (φ k) i a → entry (ws (k + 1)) i = (entry (ws k) i +. c k *. (ys k -. ps k) *. a)) ∧
      (¬ Active (φ k) i → entry (ws (k + 1)) i = entry (ws k) i))
    (hus : ∀ k, ∀ i < n, entry (us (k + 1)) i = entry (us k) i +
      r / (1 + r * normSq (ψ k)) * (real (ys k) - Spec.inner (ψ k) (us k)) * value (ψ k) i)
    (hv : ∀ k, ∀ i < n, value (ψ k) i = real (value (φ k) i))
    (hw : ∀ i < n, entry (us 0) i = real (entry (ws 0) i)) (h0 : 0 ≤ r) (T : Nat) (hT : ∀ i < n, Finite (entry (ws T) i)) :
    len n (fun i => real (entry (ws T) i) - entry (us T) i) ≤
      ∑ t ∈ Finset.range T, implicitError n r (c t) (φ t) (ws t) (ys t) (ps t) := by
  induction T with
  | zero =>
    rw [Finset.range_zero, Finset.sum_empty]
    have : len n (fun i => real (entry (ws 0) i) - entry (us 0) i) = len n (fun _ => 0) :=
      len_congr fun i hi => by rw [hw i hi, sub_self]
    rw [this, len_const n 0 le_rfl, mul_zero]
  | succ T ih =>
    have ih := ih fun i hi => by
      obtain ⟨z, hz⟩ := hT i hi
      obtain ⟨ω, -, h1, -⟩ := sgd_event hM (⟨c T⟩ : SGD (FP M)) (hφ T) (ys T -. ps T) i (hstep T i hi) hz
      exact ⟨ω, h1⟩
    have hN : normSq (ψ T) = ∑ i ∈ Finset.range n, real (value (φ T) i) ^ 2 := by
      rw [normSq, (hψ T).2]
      exact Finset.sum_congr rfl fun i hi => by rw [hv T i (Finset.mem_range.1 hi), sq]
    have g6 := hus T
    rw [hN] at g6
    set l := r / (1 + r * ∑ i ∈ Finset.range n, real (value (φ T) i) ^ 2) with hldef
    have he := call_err hM (hφ T) (hd T) (hstep T) hT
    rw [Finset.sum_range_succ, add_comm (Finset.sum _ _)]
    have s0 : 0 ≤ ∑ i ∈ Finset.range n, real (value (φ T) i) ^ 2 := Finset.sum_nonneg fun _ _ => sq_nonneg _
    have e1 : exactDot (φ T) (ws T) = ∑ j ∈ Finset.range n, value (ψ T) j * real (entry (ws T) j) := by
      unfold exactDot
      rw [(hφ T).2]
      exact Finset.sum_congr rfl fun j hj => by rw [hv T j (Finset.mem_range.1 hj)]
    have e2 : Spec.inner (ψ T) (us T) = ∑ j ∈ Finset.range n, value (ψ T) j * entry (us T) j := by
      rw [inner_eq, (hψ T).2]
    have l0 : 0 ≤ l := by positivity
    have hex := exact_step n (fun i => real (entry (ws T) i) - entry (us T) i)
      (fun i => value (ψ T) i) l0 (by
        have e : ∑ i ∈ Finset.range n, value (ψ T) i ^ 2 = ∑ i ∈ Finset.range n, real (value (φ T) i) ^ 2 :=
          Finset.sum_congr rfl fun i hi => by rw [hv T i (Finset.mem_range.1 hi)]
        rw [e, hldef, div_mul_eq_mul_div, div_le_iff₀ (by positivity)]
        nlinarith [mul_nonneg h0 s0])
    have hrate : len n (fun i => (real (c T) - l) *
        (real (ys T) - exactDot (φ T) (ws T)) * real (value (φ T) i)) =
        |real (c T) - l| * |real (ys T) - exactDot (φ T) (ws T)| *
          len n fun i => real (value (φ T) i) := by
      rw [← abs_mul, ← len_abs n fun i => real (value (φ T) i), ← len_smul (abs_nonneg _), ← len_abs]
      exact len_congr fun i _ => by rw [abs_mul]
    have he2 := (len_add_le n (fun i => real (entry (ws (T + 1)) i) -
      (real (entry (ws T) i) + real (c T) *
        (real (ys T) - exactDot (φ T) (ws T)) * real (value (φ T) i)))
      (fun i => (real (c T) - l) *
        (real (ys T) - exactDot (φ T) (ws T)) * real (value (φ T) i))).trans (add_le_add he hrate.le)
    refine le_trans (le_of_eq (len_congr fun i hi => ?_)) ((len_add_le n _
      (fun i => (real (entry (ws T) i) - entry (us T) i) -
      l * (∑ j ∈ Finset.range n, value (ψ T) j * (real (entry (ws T) j) - entry (us T) j)) *
        value (ψ T) i)).trans (add_le_add he2 (hex.trans ih)))
    rw [g6 i hi, ← hv T i hi, e1, e2]
    simp only [mul_sub, Finset.sum_sub_distrib]
    ring

/-- A run of ISGD in exact arithmetic. -/
theorem exact_isgd_trace {n : Nat} {gas : Nat → ScalarLFA B' (ISGD ℝ) ℝ} {xs : Nat → I} {ys qs : Nat → ℝ}
    (hg : Stream gas xs ys qs) (hm : (gas 0).weights.length = n) {ψ : Nat → Features ℝ}
    (hψ : ∀ k, Basis.project (gas 0).basis (xs k) = .ok (.ok (ψ k)) ∧ Fits n (ψ k)) (k : Nat) :
    ∀ i < n, entry (gas (k + 1)).weights i = entry (gas k).weights i
        + (gas 0).optimiser.lr / (1 + (gas 0).optimiser.lr * normSq (ψ k)) *
          (ys k - Spec.inner (ψ k) (gas k).weights) * value (ψ k) i := by
  intro i hi
  obtain ⟨hb, ho, hl'⟩ := (isgd_trace hg hm hψ k).1
  have hp : Basis.project (gas k).basis (xs k) = .ok (.ok (ψ k)) := by rw [hb]; exact (hψ k).1
  obtain ⟨w', -, g2, -, -, g5⟩ := isgd_update hp (by rw [hl']; exact (hψ k).2) (ys k)
  rw [hg.updates k] at g2
  simp only [Except.ok.injEq, Prod.mk.injEq, true_and] at g2
  rw [g2, ← ho]
  exact g5 i (by rw [hl']; exact hi)

/-- A run of ISGD in `f64` and a run in exact arithmetic from the same weights, on the same activations and targets, with the
same nominal rate `lr ≥ 0`. As long as the weights stay finite, their distance after `T` calls is at most the sum of the errors
of the calls, however long the features are. -/
theorem C161_isgd (hM : M.rnd = binary64Format.rnd) (n : Nat)
    (fas : Nat → ScalarLFA B (ISGD (FP M)) (FP M)) (gas : Nat → ScalarLFA B' (ISGD ℝ) ℝ) (xs : Nat → I)
    (ys ps : Nat → FP M) (qs : Nat → ℝ) (hs : Stream fas xs ys ps) (hg : Stream gas xs (fun k => real (ys k)) qs)
    (φ : Nat → Features (FP M)) (ψ : Nat → Features ℝ)
    (hφ : ∀ k, Basis.project (fas 0).basis (xs k) = .ok (.ok (φ k)) ∧ Fits n (φ k))
    (hψ : ∀ k, Basis.project (gas 0).basis (xs k) = .ok (.ok (ψ k)) ∧ Fits n (ψ k))
    (hv : ∀ k, ∀ i < n, value (ψ k) i = real (value (φ k) i))
    (hn : (fas 0).weights.length = n) (hm : (gas 0).weights.length = n)
    (hw : ∀ i < n, entry (gas 0).weights i = real (entry (fas 0).weights i))
    (h0 : 0 ≤ (gas 0).optimiser.lr) (T : Nat) (hT : ∀ i < n, Finite (entry (fas T).weights i)) :
    len n (fun i => real (entry (fas T).weights i) - entry (gas T).weights i) ≤
      ∑ t ∈ Finset.range T, implicitError n (gas 0).optimiser.lr ((fas 0).optimiser.computeLr (φ t)) (φ t)
        (fas t).weights (ys t) (ps t) := by
  refine follow_isgd hM n (fun k => (fas k).weights) (fun k => (gas k).weights) (fun k => (fas 0).optimiser.computeLr (φ k)) ys ps
    φ ψ (fun k => (hφ k).2) (fun k => (hψ k).2) (fun k r hr => ?_) (fun k => (isgd_trace hs hn hφ k).2.2)
    (exact_isgd_trace hg hm hψ) hv hw h0 T hT
  obtain ⟨⟨-, -, hl⟩, hd, -⟩ := isgd_trace hs hn hφ k
  exact dot_err hM (hφ k).2 hl hd hr

end

/-- Uniform bounds: with at most `2^40` stored features of length at most 1, a nominal rate in `[0, 2]`, weights of length at most
`W` and errors of at most `E`, one call adds at most `((4 k + 1) W + (8 k + 38) E) 2^-53 + (4 k + 2 √n + 2 + E) 2^-1075`. -/
theorem C161_uniform (hM : M.rnd = binary64Format.rnd) (n : Nat) (o : ISGD (FP M)) (l : ℝ) (hl : Is o.lr l) (l0 : 0 < l)
    (l2 : l ≤ 2) (φ : Features (FP M)) (hf : Fits n φ) (hfin : AllFinite φ) (w : List (FP M)) (y v : FP M) (k : Nat)
    (hk : storedCount φ ≤ k) (hk2 : k ≤ 2 ^ 40)
    (hφ : ∑ i ∈ Finset.range n, real (value φ i) ^ 2 ≤ 1) (W E : ℝ) (hW0 : 0 ≤ W)
    (hW : ∑ i ∈ Finset.range n, real (entry w i) ^ 2 ≤ W ^ 2) (hE : |real y - real v| ≤ E)
    (hE' : |real y - exactDot φ w| ≤ E) :
    implicitError n l (o.computeLr φ) φ w y v ≤
      roundoff * ((4 * k + 1) * W + (8 * k + 38) * E) + tiny * (4 * k + 2 * √n + 2 + E) := by
  have hu := roundoff_pos
  have ht := tiny_pos
  have s0 : 0 ≤ ∑ i ∈ Finset.range n, real (value φ i) ^ 2 := Finset.sum_nonneg fun _ _ => sq_nonneg _
  have big : (2 : ℝ) ≤ 2 ^ 900 := le_self_pow₀ (by norm_num) (by norm_num)
  have big' : (2 : ℝ) ≤ 2 ^ 1020 := le_self_pow₀ (by norm_num) (by norm_num)
  obtain ⟨c, hc, he⟩ := C161_rate hM o hl l0.le (l2.trans big) φ hf.1 hfin (hk.trans hk2)
    (∑ i ∈ Finset.range n, real (value φ i) ^ 2) (by rw [hf.2]) (hφ.trans (one_le_two.trans big'))
    (le_trans (by nlinarith only [l0, l2, s0, hφ]) big')
  clear big big'
  obtain ⟨c0, c1⟩ := C91_isgd_rate o hl l0 φ hfin
  unfold NonNeg at c0
  unfold Le at c1
  rw [hc] at c0 c1
  rw [hl] at c1
  have c0 : 0 ≤ c := c0
  have c1 : c ≤ l := c1
  have h1 := C157_uniform n (o.computeLr φ) φ hf w y v k hk (hk2.trans (by norm_num)) (by rwa [is_real hc])
    (by rw [is_real hc]; linarith) hφ W E hW0 hW hE
  unfold implicitError
  rw [is_real hc]
  have lφ : len n (fun i => real (value φ i)) ≤ 1 := by
    unfold len; exact Real.sqrt_le_one.2 hφ
  have lφ0 := len_nonneg n (fun i => real (value φ i))
  have hE0 : 0 ≤ E := (abs_nonneg _).trans hE
  have hsk : (storedCount φ : ℝ) ≤ k := by exact_mod_cast hk
  have hq : l / (1 + l * ∑ i ∈ Finset.range n, real (value φ i) ^ 2) ≤ 2 := by
    rw [div_le_iff₀ (by positivity)]
    nlinarith [mul_nonneg l0.le s0]
  have hq0 : 0 ≤ l / (1 + l * ∑ i ∈ Finset.range n, real (value φ i) ^ 2) := by positivity
  generalize l / (1 + l * ∑ i ∈ Finset.range n, real (value φ i) ^ 2) = q at *
  have h2 : |c - q| ≤ (8 * k + 28) * roundoff + tiny := by
    refine he.trans (add_le_add ?_ le_rfl)
    have h3 : (4 * (storedCount φ : ℝ) + 14) * roundoff ≤ (4 * k + 14) * roundoff :=
      mul_le_mul_of_nonneg_right (by linarith) hu.le
    have h4 := mul_le_mul h3 hq hq0 (by positivity)
    linarith
  have h5 := mul_le_mul (mul_le_mul h2 hE' (abs_nonneg _) (by positivity)) lφ lφ0 (by positivity)
  linarith

/-- On one repeated input, ISGD makes bit for bit the run of SGD at the effective rate, in any arithmetic. -/
theorem C161_repeated {K B I : Type} [Scalar K] [Space B] [Basis B I K] (o : ISGD K) (fas : Nat → ScalarLFA B (SGD K) K) (x : I)
    (ys ps : Nat → K) (φ : Features K) (hp : Basis.project (fas 0).basis x = .ok (.ok φ))
    (hf : Fits (fas 0).weights.length φ) (hlr : (fas 0).optimiser.lr = o.computeLr φ) (hs : Stream fas (fun _ => x) ys ps) :
    Stream (fun k => LFA.mk (fas k).basis (fas k).weights o) (fun _ => x) ys ps := by
  have run := sgd_trace hs rfl (φ := fun _ => φ) fun _ => ⟨hp, hf⟩
  refine ⟨fun k => ?_, fun k => ?_⟩
  · obtain ⟨⟨hb, -, -⟩, hd, -⟩ := run k
    rw [scalar_evaluate_eq (φ := φ) (by show Basis.project (fas k).basis x = _; rw [hb]; exact hp), hd]
    rfl
  · obtain ⟨⟨hb, ho, hl⟩, hd, -⟩ := run k
    have hp' : Basis.project (fas k).basis x = .ok (.ok φ) := by rw [hb]; exact hp
    obtain ⟨w', g1, -, -⟩ := sgd_scaled hf (fas k).optimiser (ys k -. ps k) hl
    have g2 := updateWith_eq hp' hd (fun _ v => ys k -. v) g1
    rw [hs.updates k] at g2
    simp only [Except.ok.injEq, Prod.mk.injEq, true_and] at g2
    have g3 : Optimiser.stepScaled o (fas k).weights φ (ys k -. ps k) = .ok (.ok (), o, w') := by
      have e : (φ.scaledAddto ((fas k).optimiser.lr *. (ys k -. ps k)) (fas k).weights >>= fun w =>
        (.ok (.ok (), (fas k).optimiser, w) : P (Result Unit × SGD K × List K))) = .ok (.ok (), (fas k).optimiser, w') := g1
      show (φ.scaledAddto (o.computeLr φ *. (ys k -. ps k)) (fas k).weights >>= _) = _
      rw [ho, hlr] at e
      rcases hq : φ.scaledAddto (o.computeLr φ *. (ys k -. ps k)) (fas k).weights with _ | q <;> rw [hq] at e
      · cases e
      · injection e with e
        rw [Prod.mk.injEq, Prod.mk.injEq] at e
        rw [← e.2.2]
        rfl
    rw [updateWith_eq (fa := LFA.mk (fas k).basis (fas k).weights o) hp' hd (fun _ v => ys k -. v) g3, g2]

/-- The hypotheses are met: an approximator with one constant feature, trained by ISGD at any rate in `(0, 1 - 2^-51]` towards
any target of moderate size, has a run in `f64` with finite weights for ever and an exact run beside it. -/
theorem C161_example (hM : M.rnd = binary64Format.rnd) (lr y : FP M) (l q : ℝ) (hl : Is lr l) (hy : Is y q) (l0 : 0 < l)
    (l1 : l ≤ 1 - 2 ^ (-51 : ℤ)) (bq : |q| ≤ 2 ^ (1000 : ℤ)) :
    ∃ (fas : Nat → ScalarLFA (FixedSparse (FP M)) (ISGD (FP M)) (FP M)) (gas : Nat → ScalarLFA (FixedSparse ℝ) (ISGD ℝ) ℝ)
      (ps : Nat → FP M) (qs : Nat → ℝ) (φ : Features (FP M)),
      fas 0 = LFA.mk ⟨1, [0]⟩ [Scalar.zero] ⟨lr⟩ ∧ gas 0 = LFA.mk ⟨1, [0]⟩ [0] ⟨l⟩ ∧
      Stream fas (fun _ => ()) (fun _ => y) ps ∧ Stream gas (fun _ => ()) (fun _ => q) qs ∧
      (∀ T, ∀ i < 1, Finite (entry (fas T).weights i)) ∧
      ∀ T, len 1 (fun i => real (entry (fas T).weights i) - entry (gas T).weights i) ≤
        ∑ t ∈ Finset.range T, implicitError 1 l ((ISGD.mk lr).computeLr φ) φ (fas t).weights y (ps t) := by
  have hp : Basis.project (⟨1, [0]⟩ : FixedSparse (FP M)) () =
      .ok (.ok (.sparse ⟨1, [(0, (Scalar.one : FP M))]⟩)) := rfl
  have hpr : Basis.project (⟨1, [0]⟩ : FixedSparse ℝ) () =
      .ok (.ok (.sparse ⟨1, [(0, (Scalar.one : ℝ))]⟩)) := rfl
  have hf : ∀ {K : Type} [Scalar K], Fits 1 (.sparse ⟨1, [(0, (Scalar.one : K))]⟩) := fun {K} _ => by
    refine ⟨⟨List.nodup_singleton _, fun e he => ?_⟩, rfl⟩
    rw [List.mem_singleton] at he
    subst he
    exact Nat.zero_lt_one
  have hfin : AllFinite (.sparse ⟨1, [(0, (Scalar.one : FP M))]⟩) := fun i a ha => by
    have ha : (i, a) ∈ [(0, (Scalar.one : FP M))] := ha
    rw [List.mem_singleton] at ha
    cases ha
    exact ⟨1, val_one⟩
  obtain ⟨c0, c1⟩ := C91_isgd_rate (ISGD.mk lr) hl l0 _ hfin
  unfold Le at c1
  rw [hl] at c1
  obtain ⟨c, hc, c0, c1⟩ := fin_of_between c0 c1
  obtain ⟨fas, ps, h0, hs, hfps, -⟩ := C105_cell hM (⟨1, [0]⟩ : FixedSparse (FP M)) () 1 0 Nat.zero_lt_one hp [Scalar.zero]
    rfl _ y c q 0 hc hy val_zero c0 (c1.trans l1) bq (by norm_num)
  obtain ⟨gas, qs, hg, hg0⟩ := stream_exists (O := ISGD ℝ) (⟨1, [0]⟩ : FixedSparse ℝ) (n := 1) (fun _ => ()) (fun _ => q)
    (fun _ => ⟨_, hpr, hf⟩) [0] rfl ⟨l⟩ trivial
  have hn : (fas 0).weights.length = 1 := by rw [h0]; rfl
  have hφ : Basis.project (fas 0).basis () = .ok (.ok (.sparse ⟨1, [(0, (Scalar.one : FP M))]⟩)) := by rw [h0]; exact hp
  have hs' := C161_repeated (ISGD.mk lr) fas () (fun _ => y) ps _ hφ (by rw [hn]; exact hf) (by rw [h0]) hs
  have hfw : ∀ T, ∀ i < 1, Finite (entry (fas T).weights i) := by
    intro T i hi
    obtain rfl : i = 0 := by omega
    obtain ⟨⟨-, -, hl⟩, hd, -⟩ := sgd_trace hs hn (φ := fun _ => .sparse ⟨1, [(0, (Scalar.one : FP M))]⟩)
      (fun _ => ⟨hφ, hf⟩) T
    exact dot_finite hf hl hd (hfps T) ⟨_, List.mem_singleton.2 rfl⟩
  refine ⟨_, gas, ps, qs, .sparse ⟨1, [(0, (Scalar.one : FP M))]⟩, by rw [h0], hg0, hs', hg, hfw, fun T => ?_⟩
  have := C161_isgd hM 1 _ gas (fun _ => ()) (fun _ => y) ps qs hs' (by rw [is_real hy]; exact hg)
    (fun _ => .sparse ⟨1, [(0, (Scalar.one : FP M))]⟩) (fun _ => .sparse ⟨1, [(0, (Scalar.one : ℝ))]⟩)
    (fun _ => ⟨hφ, hf⟩) (fun _ => ⟨by rw [hg0]; exact hpr, hf⟩)
    (fun _ i hi => by
      obtain rfl : i = 0 := by omega
      show (Scalar.one : ℝ) = real (Scalar.one : FP M)
      rw [is_real val_one, real_one])
    hn (by rw [hg0]; rfl) (fun i hi => by
      obtain rfl : i = 0 := by omega
      rw [hg0]
      show (0 : ℝ) = real (entry (fas 0).weights 0)
      rw [h0]
      show (0 : ℝ) = real (Scalar.zero : FP M)
      rw [is_real val_zero]) (by rw [hg0]; exact l0.le) T (hfw T)
  rw [hg0] at this
  exact this

/-! ## C162 L2 normalisation -/

section
variable {B I : Type} [Space B] [Basis B I (FP M)]

theorem square_err {q t ε τ : ℝ} (he : |q - t| ≤ ε * |t| + τ) (h1 : |t| ≤ 1) (ε0 : 0 ≤ ε) (ε1 : ε ≤ 1 / 500) (t0 : 0 ≤ τ)
    (t1 : τ ≤ 1 / 8192) : |q ^ 2 - t ^ 2| ≤ (2 * ε + ε ^ 2) * |t ^ 2| + 4 * τ := by
  rw [abs_of_nonneg (sq_nonneg t)]
  have e8 : q ^ 2 - t ^ 2 = (q - t) * (q - t + 2 * t) := by ring
  have e9 : |q - t + 2 * t| ≤ |q - t| + 2 * |t| := by
    refine (abs_add_le _ _).trans (le_of_eq ?_)
    rw [abs_mul, abs_two]
  rw [e8, abs_mul, ← sq_abs t]
  have h0 := abs_nonneg t
  have h2 := mul_le_mul he (e9.trans (add_le_add he le_rfl)) (abs_nonneg _) (by positivity)
  refine h2.trans ?_
  generalize |t| = t at *
  have h3 : t * τ ≤ τ := by nlinarith
  have h4 : ε * t * τ ≤ 1 / 500 * τ := mul_le_mul_of_nonneg_right (by nlinarith) t0
  have h5 : τ * τ ≤ 1 / 8192 * τ := mul_le_mul_of_nonneg_right t1 t0
  nlinarith

/-- L2-normalised activations are within `(4 k + 10) 2^-53` of the exact ones, and their squares add up to 1 within
`(9 k + 22) 2^-53`, `k` being the number of stored activations. -/
theorem C162_l2 (hM : M.rnd = binary64Format.rnd) (b : B) (x : I) (φ : Features (FP M)) (h : WF φ)
    (hf : AllFinite φ) (hp : Basis.project b x = .ok (.ok φ)) (hk : storedCount φ ≤ 2 ^ 40) (s : ℝ)
    (hs : s = ∑ i ∈ Finset.range (dim φ), real (value φ i) ^ 2) (hs0 : 2 ^ (-900 : ℤ) ≤ s) (hs1 : s ≤ 2 ^ 1020) :
    ∃ g : FP M → FP M, Basis.project (L2Normaliser.mk b) x = .ok (.ok (mapValues g φ)) ∧
      (∀ i a, Stored φ i a → Finite (g a) ∧
        |real (g a) - real a / √s| ≤ (4 * storedCount φ + 10) * roundoff * (|real a| / √s) + tiny) ∧
      |∑ i ∈ Finset.range (dim φ), real (value (mapValues g φ) i) ^ 2 - 1| ≤ (9 * storedCount φ + 22) * roundoff := by
  have hu := roundoff_pos
  have ht := tiny_pos
  have hS : squares φ.values = s := by rw [squares_values h, hs]
  have hk' : φ.values.length ≤ 2 ^ 40 := by rwa [storedCount_values]
  obtain ⟨N, hN⟩ := squares_finite hM φ.values (values_finite hf) hk' (hS ▸ hs1)
  have e1 := squares_err' hM φ.values hk' hN
  have hK := length_roundoff' hk
  rw [hS, storedCount_values] at e1
  have sp : 0 < s := lt_of_lt_of_le (by positivity) hs0
  have K0 : 0 ≤ (storedCount φ : ℝ) * roundoff := by positivity
  have hu1 : roundoff ≤ 1 / 8192 := by norm_num [roundoff]
  have e2 : |N - s| ≤ (2 * (storedCount φ * roundoff) + roundoff) * s := by
    have := small_tiny s (-900) hs0 (by norm_num)
    linarith
  have N0 : 0 ≤ N := by
    have := (abs_le.1 e2).1
    nlinarith
  have N1 : N ≤ 2 * s := by
    have := (abs_le.1 e2).2
    nlinarith
  set r := √s with hr
  have rp : 0 < r := Real.sqrt_pos.2 sp
  have rr : r * r = s := Real.mul_self_sqrt sp.le
  have e3 : |√N - r| ≤ (2 * (storedCount φ * roundoff) + roundoff) * r := by
    have h1 : |√N - r| * r ≤ |N - s| := by
      have e : N - s = (√N - r) * (√N + r) := by
        rw [← rr]
        linear_combination -Real.mul_self_sqrt N0
      rw [e, abs_mul, abs_of_nonneg (by positivity : 0 ≤ √N + r)]
      exact mul_le_mul_of_nonneg_left (by linarith [Real.sqrt_nonneg N]) (abs_nonneg _)
    have h2 : |√N - r| * r ≤ ((2 * (storedCount φ * roundoff) + roundoff) * r) * r := by
      rw [mul_assoc, rr]; exact h1.trans e2
    exact le_of_mul_le_mul_right h2 rp
  have rbig : (2 : ℝ) ^ (-450 : ℤ) ≤ r := by
    refine Real.le_sqrt_of_sq_le ?_
    rw [← zpow_natCast, ← zpow_mul]
    exact hs0
  have ht2 : tiny ≤ roundoff * r := by
    refine le_trans ?_ (small_tiny r (-450) rbig (by norm_num))
    nlinarith
  obtain ⟨c, hc, -⟩ := bounded_rnd (a := l2Norm φ) (x := √N) (c := 2 ^ 511) (by
      unfold l2Norm
      rw [val_sqrt, hN]
      show (M.round (if N < 0 then _ else .fin (√N))).1 = _
      rw [if_neg (not_lt.2 N0)]; rfl) (by
      rw [abs_of_nonneg (Real.sqrt_nonneg _)]
      refine Real.sqrt_le_iff.2 ⟨by positivity, N1.trans ?_⟩
      rw [← pow_mul]
      refine (mul_le_mul_of_nonneg_left hs1 zero_le_two).trans ?_
      rw [← pow_succ']
      exact pow_le_pow_right₀ (by norm_num) (by norm_num)) (rnd_two_pow hM (by norm_num))
  have e4 := sqrt_err hM hN N0 (show Is (Scalar.sqrt _) c from hc)
  have e5 : √N ≤ 2 * r := by
    have := (abs_le.1 e3).2
    nlinarith
  have e6 : |c - r| ≤ (2 * (storedCount φ * roundoff) + 4 * roundoff) * r := by
    have h1 := abs_sub_le c (√N) r
    have h2 := mul_le_mul_of_nonneg_left e5 hu.le
    linarith
  have cp : 0 < c := by
    have := (abs_le.1 e6).1
    nlinarith
  have chalf : r / 2 ≤ c := by
    have := (abs_le.1 e6).1
    nlinarith
  have hle : ∀ a ∈ φ.values, |real a| ≤ r := fun a ha => by
    rw [hr]
    refine Real.le_sqrt_of_sq_le ?_
    rw [sq_abs, ← hS]
    exact sq_le_squares ha
  have main : ∀ a ∈ φ.values, Finite (a /. l2Norm φ) ∧
      |real (a /. l2Norm φ) - real a / r| ≤ (4 * storedCount φ + 10) * roundoff * (|real a| / r) + tiny := by
    intro a ha
    obtain ⟨q, hq⟩ := values_finite hf a ha
    have hq1 := hle a ha
    rw [is_real hq] at hq1 ⊢
    obtain ⟨z, hz, -⟩ := bounded_rnd (a := a /. l2Norm φ) (x := q / c) (c := 2 ^ 1) (by
      rw [val_div, hq, hc]
      show (M.round (if c = 0 then _ else .fin (q / c))).1 = _
      rw [if_neg cp.ne']; rfl) (by
      rw [abs_div, abs_of_pos cp, div_le_iff₀ cp]
      linarith) (rnd_two_pow hM (by norm_num))
    have e7 := div_err hM hq hc cp.ne' hz
    obtain ⟨-, e8⟩ := quotient_err rp e6 (by linarith) hu.le e7
    rw [is_real hz]
    exact ⟨⟨z, hz⟩, e8.trans (le_of_eq (by ring))⟩
  refine ⟨fun a => a /. l2Norm φ, by rw [l2_project hp, divideBy_eq h], fun i a hi =>
    main a ((mem_values_iff φ a).2 ⟨i, hi⟩), ?_⟩
  have hsum : ∑ i ∈ Finset.range (dim φ), real (value (mapValues (fun a => a /. l2Norm φ) φ) i) ^ 2 =
      (φ.values.map fun a => real (a /. l2Norm φ) ^ 2).sum := by
    have hd : dim (mapValues (fun a => a /. l2Norm φ) φ) = dim φ := by
      cases φ with
      | dense da => exact List.length_map ..
      | sparse sa => rfl
    rw [← hd, ← sum_values (mapValues_wf h) (fun r => r ^ 2) (by norm_num)]
    cases φ with
    | dense da =>
      show ((da.map _).map _).sum = _
      rw [List.map_map]; rfl
    | sparse sa =>
      show (((sa.activations.map _).map Prod.snd).map _).sum = ((sa.activations.map Prod.snd).map _).sum
      rw [List.map_map, List.map_map, List.map_map]; rfl
  have hone : (φ.values.map fun a => (real a / r) ^ 2).sum = 1 := by
    have : (φ.values.map fun a => (real a / r) ^ 2).sum = squares φ.values * s⁻¹ := by
      unfold squares
      rw [← List.sum_map_mul_right]
      congr 1
      refine List.map_congr_left fun a _ => ?_
      rw [div_pow, sq r, rr]; rfl
    rw [this, hS, mul_inv_cancel₀ sp.ne']
  have habs : (φ.values.map fun a => |(real a / r) ^ 2|).sum = 1 := by
    rw [← hone]
    congr 1
    exact List.map_congr_left fun a _ => abs_of_nonneg (sq_nonneg _)
  set K := (storedCount φ : ℝ) * roundoff with hKdef
  set ε := (4 * (storedCount φ : ℝ) + 10) * roundoff with hε
  have eε : ε = 4 * K + 10 * roundoff := by rw [hε, hKdef]; ring
  have ε0 : 0 ≤ ε := by rw [eε]; positivity
  have ε1 : ε ≤ 1 / 500 := by rw [eε]; linarith
  have htiny1 : tiny ≤ 1 / 8192 := le_trans (zpow_le_zpow_right₀ (by norm_num) (by norm_num)) hu1
  have herr : ∀ a ∈ φ.values, |real (a /. l2Norm φ) ^ 2 - (real a / r) ^ 2| ≤
      (2 * ε + ε ^ 2) * |(real a / r) ^ 2| + 4 * tiny := by
    intro a ha
    obtain ⟨-, he⟩ := main a ha
    have h1 : |real a| / r ≤ 1 := (div_le_one rp).2 (hle a ha)
    have e7 : |real a| / r = |real a / r| := by rw [abs_div, abs_of_pos rp]
    rw [e7] at he h1
    exact square_err he h1 ε0 ε1 ht.le htiny1
  have h1 := (list_err φ.values herr).1
  rw [hsum]
  rw [hone, habs, storedCount_values] at h1
  refine h1.trans ?_
  have hη : (storedCount φ : ℝ) * (4 * tiny) ≤ roundoff := by
    have hk1 : (storedCount φ : ℝ) ≤ 2 ^ 40 := by exact_mod_cast hk
    refine (mul_le_mul_of_nonneg_right hk1 (by positivity)).trans ?_
    have := small_tiny (1 / 2) (-1) (by norm_num) (by norm_num)
    linarith
  have e10 : (9 * (storedCount φ : ℝ) + 22) * roundoff = 9 * K + 22 * roundoff := by rw [hKdef]; ring
  rw [e10]
  have : ε ^ 2 ≤ 1 / 500 * ε := by nlinarith
  linarith

/-- Met, for example, by a pair of activations `1, 1`, whose exact normalised values `1 / √2` are not representable. -/
example (hM : M.rnd = binary64Format.rnd) (b : B) (x : I)
    (hp : Basis.project b x = .ok (.ok (.dense [(Scalar.one : FP M), Scalar.one]))) :
    ∃ g : FP M → FP M, Basis.project (L2Normaliser.mk b) x = .ok (.ok (.dense [g Scalar.one, g Scalar.one])) ∧
      |real (g Scalar.one) - 1 / √2| ≤ 18 * roundoff * (1 / √2) + tiny := by
  have h2 : (2 : ℝ) = ∑ i ∈ Finset.range (dim (.dense [(Scalar.one : FP M), Scalar.one])),
      real (value (.dense [(Scalar.one : FP M), Scalar.one]) i) ^ 2 := by
    show _ = ∑ i ∈ Finset.range 2, real (entry [(Scalar.one : FP M), Scalar.one] i) ^ 2
    rw [Finset.sum_range_succ, Finset.sum_range_one]
    show _ = real (Scalar.one : FP M) ^ 2 + real (Scalar.one : FP M) ^ 2
    rw [is_real val_one]
    norm_num
  obtain ⟨g, h, h1, -⟩ := C162_l2 hM b x (.dense [Scalar.one, Scalar.one]) trivial (fun i a ha => by
    have ha : [(Scalar.one : FP M), Scalar.one][i]? = some a := ha
    have := List.mem_of_getElem? ha
    simp only [List.mem_cons, List.not_mem_nil, or_false, or_self] at this
    exact ⟨1, this ▸ val_one⟩) hp (by show 2 ≤ _; norm_num) 2 h2
    ((zpow_le_one_of_nonpos₀ (by norm_num) (by norm_num)).trans one_le_two) (le_self_pow₀ (by norm_num) (by norm_num))
  refine ⟨g, h, ?_⟩
  have := (h1 0 Scalar.one rfl).2
  rw [is_real val_one, abs_one] at this
  have e : ((4 : ℝ) * (storedCount (.dense [(Scalar.one : FP M), Scalar.one]) : ℕ) + 10) = 18 := by
    show (4 : ℝ) * ((2 : ℕ) : ℝ) + 10 = 18
    norm_num
  rwa [e] at this

end

end Lfa

import Verif.Spec.Machine
import Verif.Proofs.Machine
import Verif.Proofs.Binary64
import Verif.Proofs.Poly

/-!
# C88: rescaling, Fourier and polynomial features under rounding

`M` is any floating-point system.
-/

set_option linter.unusedSectionVars false

namespace Lfa

open Spec Machine XReal

variable {M : Machine}

/-! ## Arithmetic -/

theorem is_unique {a : FP M} {r s : ℝ} (h : Is a r) (h' : Is a s) : r = s := by
  have := h.symm.trans h'
  injection this

/-- A number between 0 and `c`. -/
def Between (a : FP M) (c : ℝ) : Prop := ∃ r, Is a r ∧ 0 ≤ r ∧ r ≤ c

theorem between_rnd {a : FP M} {x c : ℝ} (h : a.1 = M.rnd x) (h0 : 0 ≤ x) (h1 : x ≤ c)
    (hc : M.rnd c = .fin c) : Between a c := by
  have l := rnd_nonneg (M := M) h0
  have u := M.rnd_mono h1
  rw [hc] at u
  obtain ⟨r, hr, l, u⟩ := fin_of_between l u
  exact ⟨r, h.trans hr, l, u⟩

theorem InUnit.mul {a b : FP M} (ha : InUnit a) (hb : InUnit b) : InUnit (a *. b) := by
  obtain ⟨r, hr, hr1⟩ := ha
  obtain ⟨s, hs, hs1⟩ := hb
  have h : |r * s| ≤ 1 := by
    rw [abs_mul]
    exact mul_le_one₀ hr1 (abs_nonneg s) hs1
  obtain ⟨q, hq, hq1⟩ := bounded_of_le (neg_one_le_rnd (M := M) (abs_le.1 h).1)
    (rnd_le_one (abs_le.1 h).2)
  refine ⟨q, ?_, hq1⟩
  show (a *. b).1 = _
  rw [val_mul, hr, hs]
  exact hq

theorem Between.mul {a b : FP M} (ha : Between a 1) (hb : Between b 1) : Between (a *. b) 1 := by
  obtain ⟨r, hr, hr0, hr1⟩ := ha
  obtain ⟨s, hs, hs0, hs1⟩ := hb
  exact between_rnd (by rw [val_mul, hr, hs]; rfl) (mul_nonneg hr0 hs0) (mul_le_one₀ hr1 hs0 hs1)
    M.rnd_one

theorem inUnit_one : InUnit (Scalar.one : FP M) := ⟨1, val_one, by simp⟩
theorem between_one : Between (Scalar.one : FP M) 1 := ⟨1, val_one, zero_le_one, le_refl _⟩

theorem lit_one : M.lit 1 = (Scalar.one : FP M) := fp_ext (M.rnd_one.trans val_one.symm)

theorem powi_closed {S : FP M → Prop} (h1 : S Scalar.one)
    (hm : ∀ a b, S a → S b → S (a *. b)) {a : FP M} (ha : S a) (n : Nat) :
    S (Scalar.powi a n) := by
  show S ((M.powTree n).eval M.mul (M.lit 1) a)
  induction M.powTree n with
  | one => show S (M.lit 1); rw [lit_one]; exact h1
  | base => exact ha
  | mul l r ihl ihr => exact hm _ _ ihl ihr

theorem product_closed {S : FP M → Prop} (h1 : S Scalar.one)
    (hm : ∀ a b, S a → S b → S (a *. b)) (l : List (FP M)) (h : ∀ a ∈ l, S a) :
    S (l.foldl (· *. ·) Scalar.one) := by
  have : ∀ z, S z → S (l.foldl (· *. ·) z) := by
    induction l with
    | nil => exact fun z hz => hz
    | cons a l ih =>
      intro z hz
      exact ih (fun b hb => h b (List.mem_cons_of_mem _ hb)) _
        (hm _ _ hz (h a (List.mem_cons_self ..)))
  exact this _ h1

/-! ## Rescaling -/

/-- A value within its limits is rescaled to a number between 0 and 1; the limits themselves are
mapped exactly to 0 and 1. -/
theorem C88_rescale (xs : List (FP M)) (limits : List (FP M × FP M)) (i : Nat) (x lo hi : FP M)
    (hx : xs[i]? = some x) (hl : limits[i]? = some (lo, hi)) (h : Within x lo hi) :
    ∃ u r, (rescale xs limits)[i]? = some u ∧ Is u r ∧ 0 ≤ r ∧ r ≤ 1 ∧
      (x = lo → r = 0) ∧ (x = hi → r = 1) := by
  obtain ⟨⟨l, hlo⟩, ⟨c, hhi⟩, h1, h2, d, hd, hd0⟩ := h
  have hxv : ∃ v, x.1 = .fin v ∧ l ≤ v ∧ v ≤ c := by
    refine fin_of_between ?_ ?_
    · rw [← hlo]; exact h1
    · rw [← hhi]; exact h2
  obtain ⟨v, hv, hlv, hvc⟩ := hxv
  have hdv : M.rnd (c + -l) = .fin d := by
    have := hd
    unfold Is at this
    rw [val_sub, hhi, hlo] at this
    exact this
  have hd1 : 0 ≤ d := by
    have := rnd_nonneg (M := M) (r := c + -l) (by linarith)
    rwa [hdv] at this
  have hnum : ∃ n, (x -. lo).1 = .fin n ∧ 0 ≤ n ∧ n ≤ d := by
    have e : (x -. lo).1 = M.rnd (v + -l) := by rw [val_sub, hv, hlo]; rfl
    refine fin_of_between ?_ ?_
    · rw [e]; exact rnd_nonneg (by linarith)
    · rw [e, ← hdv]; exact M.rnd_mono (by linarith)
  obtain ⟨n, hn, hn0, hnd⟩ := hnum
  have hq : ((x -. lo) /. (hi -. lo)).1 = M.rnd (n / d) := by
    rw [val_div, hn, show (hi -. lo).1 = .fin d from hd]
    show (M.round (if d = 0 then _ else _)).1 = _
    rw [if_neg hd0]; rfl
  obtain ⟨r, hr, hr0, hr1⟩ := between_rnd (a := (x -. lo) /. (hi -. lo)) hq (div_nonneg hn0 hd1)
    (div_le_one_of_le₀ hnd hd1) M.rnd_one
  refine ⟨_, r, ?_, hr, hr0, hr1, ?_, ?_⟩
  · have hz : (xs.zip limits)[i]? = some (x, (lo, hi)) := List.getElem?_zip_eq_some.2 ⟨hx, hl⟩
    rw [rescale, List.getElem?_map, hz]; rfl
  · rintro rfl
    have : (x -. x).1 = .fin 0 := by
      rw [val_sub, hv]
      show M.rnd (v + -v) = _
      rw [add_neg_cancel, rnd_zero]
    rw [hn] at this
    injection this with this
    rw [this, zero_div, rnd_zero] at hq
    exact is_unique hr hq
  · rintro rfl
    have : d = n := is_unique hd hn
    rw [← this, div_self hd0, M.rnd_one] at hq
    exact is_unique hr hq

/-! ## Polynomials -/

/-- Inputs in `[-1, 1]` give features in `[-1, 1]`; inputs in `[0, 1]` give features in `[0, 1]`. -/
theorem C88_polynomial (b : Polynomial) (xs : List (FP M)) :
    ∃ fs, Basis.project b xs = .ok (.ok (.dense fs)) ∧
      ((∀ x ∈ xs, InUnit x) → ∀ f ∈ fs, InUnit f) ∧
      ((∀ x ∈ xs, ∃ r, Is x r ∧ 0 ≤ r ∧ r ≤ 1) → ∀ f ∈ fs, ∃ r, Is f r ∧ 0 ≤ r ∧ r ≤ 1) := by
  refine ⟨_, rfl, fun h f hf => ?_, fun h f hf => ?_⟩
  all_goals
    obtain ⟨e, -, rfl⟩ := List.mem_map.1 hf
  · refine product_closed (S := InUnit) inUnit_one (fun a b => InUnit.mul) _ fun a ha => ?_
    obtain ⟨⟨v, k⟩, hvk, rfl⟩ := List.mem_map.1 ha
    exact powi_closed (S := InUnit) inUnit_one (fun a b => InUnit.mul)
      (h v (List.of_mem_zip hvk).1) k
  · refine product_closed (S := fun a => Between a 1) between_one (fun a b => Between.mul) _
      fun a ha => ?_
    obtain ⟨⟨v, k⟩, hvk, rfl⟩ := List.mem_map.1 ha
    exact powi_closed (S := fun a => Between a 1) between_one (fun a b => Between.mul)
      (h v (List.of_mem_zip hvk).1) k

/-! ## Fourier -/

theorem fourier_sum {N : Nat} (hN : ExactTo M N) (l : List (FP M × FP M)) (ks : List Nat)
    (h : l.map Prod.snd = ks.map fun k => (Scalar.ofNat k : FP M))
    (hv : ∀ p ∈ l, Between p.1 1) (z : FP M) (n : Nat) (hz : Between z n) (hs : n + ks.sum ≤ N) :
    Between (l.foldl (fun acc vc => acc +. vc.2 *. vc.1) z) ((n + ks.sum : Nat) : ℝ) := by
  induction l generalizing ks z n with
  | nil =>
    have : ks = [] := by
      cases ks with
      | nil => rfl
      | cons k ks => cases h
    subst this
    simpa using hz
  | cons p l ih =>
    cases ks with
    | nil => cases h
    | cons k ks =>
      rw [List.map_cons, List.map_cons] at h
      injection h with h1 h2
      rw [List.sum_cons] at hs ⊢
      have hk : (p.2).1 = .fin (k : ℝ) := by rw [h1, val_ofNat, hN k (by omega)]
      obtain ⟨v, hv', hv0, hv1⟩ := hv p (List.mem_cons_self ..)
      obtain ⟨t, ht, ht0, ht1⟩ : Between (p.2 *. p.1) (k : ℝ) :=
        between_rnd (by rw [val_mul, hk, hv']; rfl) (mul_nonneg (Nat.cast_nonneg k) hv0)
          (mul_le_of_le_one_right (Nat.cast_nonneg k) hv1) (hN k (by omega))
      obtain ⟨s, hs', hs0, hs1⟩ := hz
      have hacc : Between (z +. p.2 *. p.1) ((n + k : Nat) : ℝ) :=
        between_rnd (by rw [val_add, hs', ht]; rfl) (add_nonneg hs0 ht0)
          (by push_cast; linarith) (hN _ (by omega))
      have := ih ks h2 (fun q hq => hv q (List.mem_cons_of_mem _ hq)) _ (n + k) hacc (by omega)
      rw [show n + (k + ks.sum) = n + k + ks.sum by omega]
      exact this

theorem sum_le_of_le {p : Nat} : ∀ {e : List Nat}, (∀ k ∈ e, k ≤ p) → e.sum ≤ p * e.length
  | [], _ => by simp
  | k :: e, h => by
    have := sum_le_of_le (e := e) fun k hk => h k (List.mem_cons_of_mem _ hk)
    have hk := h k (List.mem_cons_self ..)
    rw [List.sum_cons, List.length_cons, Nat.mul_succ]
    omega

/-- For an input within the limits every Fourier feature is a finite number in `[-1, 1]`, provided
the machine represents the integers up to `4 * order * dimension` exactly. -/
theorem C88_fourier (p : Nat) (limits : List (FP M × FP M)) (xs : List (FP M))
    (hN : ExactTo M (4 * p * limits.length)) (hlen : xs.length = limits.length)
    (h : ∀ (i : Nat) (x lo hi : FP M), xs[i]? = some x → limits[i]? = some (lo, hi) → Within x lo hi) :
    ∃ fs, Basis.project (Fourier.new p limits) xs = .ok (.ok (.dense fs)) ∧
      ∀ f ∈ fs, InUnit f := by
  refine ⟨_, rfl, fun f hf => ?_⟩
  obtain ⟨cfs, hc, rfl⟩ := List.mem_map.1 hf
  obtain ⟨e, he, rfl⟩ := List.mem_map.1 hc
  have hel := length_of_mem_computeCoefficients he
  have hep := fun k hk => le_of_mem_computeCoefficients he k hk
  have hsum : e.sum ≤ p * limits.length := by
    have := sum_le_of_le (p := p) hep
    rwa [hel] at this
  have hne : 1 ≤ p * limits.length := by
    rcases Nat.eq_zero_or_pos limits.length with h0 | h0
    · rw [h0, computeCoefficients_zero] at he; cases he
    · rcases Nat.eq_zero_or_pos p with hp | hp
      · exfalso
        rw [computeCoefficients_pos _ _ h0, hp] at he
        have hl := length_cartesian limits.length 0
        rw [Nat.zero_add, Nat.one_pow] at hl
        rw [List.drop_eq_nil_of_le (by rw [hl])] at he
        cases he
      · exact Nat.mul_pos hp h0
  have hres : (rescale xs limits).length = limits.length := by
    simp [rescale, hlen]
  have hsnd : ((rescale xs limits).zip (e.map fun c => (Scalar.ofNat c : FP M))).map Prod.snd =
      e.map fun c => (Scalar.ofNat c : FP M) := by
    rw [List.map_snd_zip]
    rw [hres, List.length_map, hel]
  have hbet : ∀ q ∈ (rescale xs limits).zip (e.map fun c => (Scalar.ofNat c : FP M)),
      Between q.1 1 := by
    intro q hq
    have hq1 := (List.of_mem_zip hq).1
    obtain ⟨i, hi⟩ := List.mem_iff_getElem?.1 hq1
    have hil : i < limits.length := by
      rw [← hres]; exact (List.getElem?_eq_some_iff.1 hi).1
    obtain ⟨u, r, hu, hr, hr0, hr1, -⟩ := C88_rescale xs limits i xs[i] limits[i].1 limits[i].2
      (List.getElem?_eq_getElem (by omega)) (List.getElem?_eq_getElem hil)
      (h i _ _ _ (List.getElem?_eq_getElem (by omega)) (List.getElem?_eq_getElem hil))
    rw [hu] at hi
    injection hi with hi
    exact ⟨r, hi ▸ hr, hr0, hr1⟩
  obtain ⟨s, hs, hs0, hs1⟩ := fourier_sum (N := 4 * p * limits.length) hN _ e hsnd hbet Scalar.zero 0
    ⟨0, val_zero, le_refl _, by simp⟩ (by rw [Nat.zero_add, Nat.mul_assoc]; omega)
  rw [Nat.zero_add] at hs1
  have hpi : Between (Scalar.pi : FP M) ((4 : Nat) : ℝ) :=
    between_rnd (x := Real.pi) rfl Real.pi_pos.le (by push_cast; exact Real.pi_le_four)
      (hN 4 (by rw [Nat.mul_assoc]; omega))
  obtain ⟨q, hq, hq0, hq1⟩ := hpi
  have hle : q * s ≤ ((4 * p * limits.length : Nat) : ℝ) := by
    calc q * s ≤ ((4 : Nat) : ℝ) * (e.sum : ℝ) := mul_le_mul hq1 hs1 hs0 (by positivity)
      _ = ((4 * e.sum : Nat) : ℝ) := by push_cast; ring
      _ ≤ _ := by
        have : 4 * e.sum ≤ 4 * p * limits.length := by rw [Nat.mul_assoc]; omega
        exact_mod_cast this
  obtain ⟨t, ht, -⟩ : Between (Scalar.pi *. ((rescale xs limits).zip
      (e.map fun c => (Scalar.ofNat c : FP M))).foldl (fun acc vc => acc +. vc.2 *. vc.1)
        Scalar.zero) ((4 * p * limits.length : Nat) : ℝ) :=
    between_rnd (by rw [val_mul, hq, hs]; rfl) (mul_nonneg hq0 hs0) hle (hN _ (le_refl _))
  have hb := M.cos_bounded t
  obtain ⟨w, hw, hw1⟩ := bounded_of_le (neg_one_le_rnd (M := M) (abs_le.1 hb).1)
    (rnd_le_one (abs_le.1 hb).2)
  refine ⟨w, ?_, hw1⟩
  show (M.round (M.fcos ((Scalar.pi : FP M) *. _).1)).1 = _
  rw [show (Fourier.new p limits).limits = limits from rfl, ht]
  exact hw

/-- `f64` represents the integers up to `2 ^ 53` exactly, whatever the library functions do. -/
theorem C88_binary64 (hM : M.rnd = binary64Format.rnd) : ExactTo M (2 ^ 53) := by
  intro k hk
  have h := binary64Format.rnd_exact (m := (k : ℤ)) (e := 0) (by
      rw [abs_of_nonneg (by positivity)]
      exact_mod_cast hk) (by decide) (by
      rw [zpow_zero, mul_one, abs_of_nonneg (by positivity)]
      have h1 : ((k : ℤ) : ℝ) ≤ (2 : ℝ) ^ (53 : ℤ) := by
        have : (k : ℝ) ≤ ((2 ^ 53 : Nat) : ℝ) := by exact_mod_cast hk
        push_cast at this ⊢
        exact_mod_cast this
      exact lt_of_le_of_lt h1 (zpow_lt_zpow_right₀ (by norm_num) (by decide)))
  rw [zpow_zero, mul_one] at h
  rw [hM]
  exact_mod_cast h

/-- The hypothesis on the machine is met by `f64` for every order (a `u8`) and up to `2 ^ 43`
dimensions. -/
example (p d : Nat) (hp : p ≤ 255) (hd : d ≤ 2 ^ 43) : ExactTo binary64 (4 * p * d) := fun k hk =>
  C88_binary64 rfl k (hk.trans (by
    have := Nat.mul_le_mul (Nat.mul_le_mul_left 4 hp) hd
    omega))

/-- The hypothesis on inputs: 0 and 1 are within the limits `(0, 1)`. -/
example : Within (Scalar.zero : FP M) Scalar.zero Scalar.one := by
  refine ⟨⟨0, val_zero⟩, ⟨1, val_one⟩, ?_, ?_, 1, ?_, one_ne_zero⟩
  · unfold Le; rw [val_zero]; exact le_refl (0 : ℝ)
  · unfold Le; rw [val_zero, val_one]; exact zero_le_one' ℝ
  · unfold Is
    rw [val_sub, val_zero, val_one]
    show M.rnd (1 + -0) = _
    rw [neg_zero, add_zero, M.rnd_one]

end Lfa

import Verif.Props.C168
import Verif.Props.C89

/-!
# Rounding errors of kernels
-/

set_option linter.unusedSectionVars false

namespace Lfa

open Spec Machine XReal

variable {M : Machine}

theorem two_pow_le {m n : Nat} (h : m ≤ n) : (2 : ℝ) ^ m ≤ 2 ^ n := pow_le_pow_right₀ (by norm_num) h

theorem mul_two_pow_le {c : ℝ} {j m n : Nat} (hc : c ≤ 2 ^ j) (h : m + j ≤ n) : c * 2 ^ m ≤ 2 ^ n := by
  refine (mul_le_mul_of_nonneg_right hc (by positivity)).trans ?_
  rw [← pow_add, add_comm]
  exact two_pow_le h

/-- A rounded result that does not overflow. -/
theorem of_rnd (hM : M.rnd = binary64Format.rnd) {a : FP M} {x : ℝ} (h : a.1 = M.rnd x) (hx : |x| ≤ 2 ^ 1022) :
    ∃ z, Is a z ∧ |z - x| ≤ roundoff * |x| + tiny ∧ (0 ≤ x → 0 ≤ z) := by
  obtain ⟨z, hz, -⟩ := bounded_rnd h hx (rnd_two_pow hM (by norm_num))
  refine ⟨z, hz, rnd_err hM (h.symm.trans hz), fun h0 => ?_⟩
  have := rnd_nonneg (M := M) h0
  rw [← h, hz] at this
  exact this

theorem sum_map_range {α : Type} (L : List α) (f : α → ℝ) (d : α) :
    (L.map f).sum = ∑ i ∈ Finset.range L.length, f (L.getD i d) := by
  have : L.map f = List.ofFn fun i : Fin L.length => f (L.getD i d) := by
    refine List.ext_getElem (by simp) fun i h1 h2 => ?_
    simp only [List.length_map] at h1
    simp
  rw [this, List.sum_ofFn, Finset.sum_range]

/-- Euclidean lengths of two families over a list. -/
theorem list_len_sub {α : Type} (L : List α) (f g e : α → ℝ) (h : ∀ a ∈ L, |f a - g a| ≤ e a) :
    |√(L.map fun a => f a ^ 2).sum - √(L.map fun a => g a ^ 2).sum| ≤ √(L.map fun a => e a ^ 2).sum := by
  rcases L with _ | ⟨d, L'⟩
  · simp
  generalize hL : d :: L' = L at *
  have key : ∀ k : α → ℝ, √(L.map fun a => k a ^ 2).sum = len L.length fun i => k (L.getD i d) := fun k => by
    rw [sum_map_range L _ d]; rfl
  have hmem : ∀ i < L.length, L.getD i d ∈ L := fun i hi => by
    rw [List.getD_eq_getElem _ _ hi]; exact List.getElem_mem hi
  rw [key, key, key]
  have h1 : len L.length (fun i => f (L.getD i d) - g (L.getD i d)) ≤ len L.length fun i => e (L.getD i d) :=
    len_mono fun i hi => h _ (hmem i hi)
  have h2 := len_add_le L.length (fun i => f (L.getD i d) - g (L.getD i d)) (fun i => g (L.getD i d))
  have h3 := len_add_le L.length (fun i => g (L.getD i d) - f (L.getD i d)) (fun i => f (L.getD i d))
  simp only [sub_add_cancel] at h2 h3
  have h4 : len L.length (fun i => g (L.getD i d) - f (L.getD i d)) =
      len L.length (fun i => f (L.getD i d) - g (L.getD i d)) := by
    unfold len
    congr 1
    exact Finset.sum_congr rfl fun i _ => by ring
  rw [abs_le]
  constructor <;> linarith

theorem list_len_add {α : Type} (L : List α) (f g : α → ℝ) :
    √(L.map fun a => (f a + g a) ^ 2).sum ≤ √(L.map fun a => f a ^ 2).sum + √(L.map fun a => g a ^ 2).sum := by
  rcases L with _ | ⟨d, L'⟩
  · simp
  generalize d :: L' = L at *
  have key : ∀ k : α → ℝ, √(L.map fun a => k a ^ 2).sum = len L.length fun i => k (L.getD i d) := fun k => by
    rw [sum_map_range L _ d]; rfl
  rw [key, key, key]
  exact len_add_le _ _ _

/-- The exact scaled distance of two points. -/
noncomputable def Spec.exactDistance (ls x y : List (FP M)) : ℝ :=
  √(((x.zip y).zip ls).map fun q => ((real q.1.1 - real q.1.2) / real q.2) ^ 2).sum

theorem exactDistance_nonneg (ls x y : List (FP M)) : 0 ≤ exactDistance ls x y := Real.sqrt_nonneg _

theorem zip_scaled (ls x y : List (FP M)) :
    List.zipWith (fun d l => d /. l) (List.zipWith (fun a b => a -. b) x y) ls =
      ((x.zip y).zip ls).map fun q => (q.1.1 -. q.1.2) /. q.2 := by
  induction x generalizing y ls with
  | nil => simp
  | cons a x ih =>
    rcases y with _ | ⟨b, y⟩
    · simp
    rcases ls with _ | ⟨l, ls⟩
    · simp
    simp [ih]

theorem sqrt_sum_sq_smul {α : Type} (L : List α) (f : α → ℝ) {c : ℝ} (hc : 0 ≤ c) :
    √(L.map fun a => (c * f a) ^ 2).sum = c * √(L.map fun a => f a ^ 2).sum := by
  have : (L.map fun a => (c * f a) ^ 2).sum = c ^ 2 * (L.map fun a => f a ^ 2).sum := by
    rw [← List.sum_map_mul_left]
    simp only [mul_pow]
  rw [this, Real.sqrt_mul (sq_nonneg c), Real.sqrt_sq hc]

theorem sqrt_two_sided {s S g b : ℝ} (hS : 0 ≤ S) (hs : 0 ≤ s) (hg0 : 0 ≤ g) (hb : 0 ≤ b)
    (h : |s - S| ≤ g * S + b) : |√s - √S| ≤ g * √S + √b := by
  have a0 := Real.sqrt_nonneg s
  have a1 := Real.sqrt_nonneg S
  have a2 := Real.sqrt_nonneg b
  have q0 := Real.sq_sqrt hs
  have q1 := Real.sq_sqrt hS
  have q2 := Real.sq_sqrt hb
  obtain ⟨h1, h2⟩ := abs_le.1 h
  rw [abs_le]
  constructor
  · by_contra hc
    push Not at hc
    nlinarith [mul_nonneg hg0 a1, mul_nonneg a1 a2, mul_nonneg a0 a2, mul_nonneg a0 a1]
  · by_contra hc
    push Not at hc
    nlinarith [mul_nonneg hg0 a1, mul_nonneg a1 a2, mul_nonneg a0 a2, mul_nonneg a0 a1, mul_nonneg (mul_nonneg hg0 a1) a1, mul_nonneg (mul_nonneg hg0 a1) a2]

theorem fold_squares_nonneg : ∀ (l : List (FP M)), (∀ a ∈ l, Finite a) → ∀ z : FP M, .fin 0 ≤ z.1 →
    .fin 0 ≤ (l.foldl (fun acc x => acc +. x *. x) z).1
  | [], _, _, hz => hz
  | a :: l, h, z, hz => by
    obtain ⟨r, hr⟩ := h a List.mem_cons_self
    refine fold_squares_nonneg l (fun b hb => h b (List.mem_cons_of_mem _ hb)) _ (val_add_nonneg hz (sq_nonneg_of ?_))
    rw [hr]
    simp

/-- What underflow can add to a distance. -/
noncomputable def Spec.speck : ℝ := 2 ^ (-516 : ℤ)

theorem speck_pos : 0 < speck := by unfold speck; positivity

theorem speck_le : speck ≤ 1 / 2 ^ 100 * roundoff := by
  have : (1 : ℝ) / 2 ^ 100 = 2 ^ (-100 : ℤ) := by norm_num
  rw [this, roundoff, speck, ← zpow_add₀ (by norm_num)]
  exact zpow_le_zpow_right₀ (by norm_num) (by norm_num)

theorem tiny_le_speck : 2 ^ 21 * tiny ≤ 1 / 8 * speck := by
  have : (1 : ℝ) / 8 = 2 ^ (-3 : ℤ) := by norm_num
  rw [this, ← zpow_natCast (2 : ℝ) 21, tiny, speck, ← zpow_add₀ (by norm_num), ← zpow_add₀ (by norm_num)]
  exact zpow_le_zpow_right₀ (by norm_num) (by norm_num)

theorem sqrt_tiny : √(2 ^ 41 * tiny) ≤ 1 / 2 * speck := by
  refine Real.sqrt_le_iff.2 ⟨mul_nonneg (by norm_num) speck_pos.le, ?_⟩
  have : (1 : ℝ) / 2 = 2 ^ (-1 : ℤ) := by norm_num
  rw [this, ← zpow_natCast (2 : ℝ) 41, tiny, speck, sq, ← zpow_add₀ (by norm_num), ← zpow_add₀ (by norm_num),
    ← zpow_add₀ (by norm_num)]
  exact zpow_le_zpow_right₀ (by norm_num) (by norm_num)

/-- One coordinate. -/
theorem coordinate_err (hM : M.rnd = binary64Format.rnd) {a b l : FP M} {c : ℝ} (hl : Is l c) (hc : c ≠ 0)
    (hd : Finite (a -. b)) (hb : |(real a - real b) / c| ≤ 2 ^ 501) :
    ∃ z, Is ((a -. b) /. l) z ∧ |z - (real a - real b) / c| ≤ 3 * roundoff * |(real a - real b) / c| + tiny := by
  have hu := roundoff_pos
  have hu1 : roundoff ≤ 1 / 1000 := by norm_num [roundoff]
  obtain ⟨d, hd⟩ := hd
  obtain ⟨x, y, hx, hy, he⟩ := sub_err hM hd
  rw [is_real hx, is_real hy] at *
  set f := (x - y) / c with hf
  have h1 : |d / c - f| ≤ roundoff * |f| := by
    rw [hf, ← sub_div, abs_div, abs_div, ← mul_div_assoc]
    exact div_le_div_of_nonneg_right he (abs_nonneg c)
  have h2 : |d / c| ≤ (1 + roundoff) * |f| := by
    have := abs_add_le (d / c - f) f
    rw [sub_add_cancel] at this
    linarith
  obtain ⟨z, hz, h3, -⟩ := of_rnd hM (a := (a -. b) /. l) (x := d / c) (by
    rw [val_div, hd, hl]
    show (M.round (if c = 0 then _ else .fin (d / c))).1 = _
    rw [if_neg hc]; rfl) (by
      have h5 : (1 + roundoff) * |f| ≤ 2 * 2 ^ 501 := mul_le_mul (by linarith) hb (abs_nonneg _) (by norm_num)
      exact (h2.trans h5).trans (mul_two_pow_le (j := 1) (by norm_num) (by norm_num)))
  refine ⟨z, hz, ?_⟩
  have h4 := abs_sub_le z (d / c) f
  have h5 := mul_le_mul_of_nonneg_left h2 hu.le
  have h6 : roundoff * ((1 + roundoff) * |f|) ≤ 2 * roundoff * |f| := by
    have : roundoff * ((1 + roundoff) * |f|) = (1 + roundoff) * (roundoff * |f|) := by ring
    rw [this, mul_assoc]
    exact mul_le_mul_of_nonneg_right (by linarith) (by positivity)
  linarith

theorem distance_err (hM : M.rnd = binary64Format.rnd) (ls x y : List (FP M)) (hk : ls.length ≤ 2 ^ 40)
    (hl : ∀ l ∈ ls, ∃ c, Is l c ∧ c ≠ 0) (hd : ∀ q ∈ x.zip y, Finite (q.1 -. q.2)) (hr : exactDistance ls x y ≤ 2 ^ 500) :
    ∃ ρ, Is (sliceDistance ls x y) ρ ∧ 0 ≤ ρ ∧
      |ρ - exactDistance ls x y| ≤ (2 * ls.length + 6) * roundoff * exactDistance ls x y + speck := by
  have hu := roundoff_pos
  have hu1 : roundoff ≤ 1 / 100000 := by norm_num [roundoff]
  have ht := tiny_pos
  have hsp := speck_pos
  have r0 := exactDistance_nonneg ls x y
  set r := exactDistance ls x y with hrdef
  set L := (x.zip y).zip ls with hL
  let f : (FP M × FP M) × FP M → ℝ := fun q => (real q.1.1 - real q.1.2) / real q.2
  have hrf : r = √(L.map fun q => f q ^ 2).sum := rfl
  have hn : L.length ≤ ls.length := by rw [hL, List.length_zip]; exact min_le_right _ _
  have hfr : ∀ q ∈ L, |f q| ≤ r := fun q hq => by
    rw [hrf]
    refine Real.abs_le_sqrt (List.single_le_sum (l := L.map fun q => f q ^ 2) (fun v hv => ?_) _
      (List.mem_map.2 ⟨q, hq, rfl⟩))
    obtain ⟨q', -, rfl⟩ := List.mem_map.1 hv
    exact sq_nonneg _
  have hcoord : ∀ q ∈ L, ∃ z, Is ((q.1.1 -. q.1.2) /. q.2) z ∧ |z - f q| ≤ 3 * roundoff * |f q| + tiny := fun q hq => by
    obtain ⟨c, hc, hc0⟩ := hl q.2 (List.of_mem_zip hq).2
    have e : f q = (real q.1.1 - real q.1.2) / c := by show _ / real q.2 = _; rw [is_real hc]
    rw [e]
    refine coordinate_err hM hc hc0 (hd q.1 (List.of_mem_zip hq).1) ?_
    rw [← e]
    exact ((hfr q hq).trans hr).trans (two_pow_le (by norm_num))
  set zs := L.map fun q => (q.1.1 -. q.1.2) /. q.2 with hzs
  have hfin : ∀ a ∈ zs, Finite a := fun a ha => by
    obtain ⟨q, hq, rfl⟩ := List.mem_map.1 ha
    obtain ⟨z, hz, -⟩ := hcoord q hq
    exact ⟨z, hz⟩
  have hsq : squares zs = (L.map fun q => real ((q.1.1 -. q.1.2) /. q.2) ^ 2).sum := by
    rw [squares, hzs, List.map_map]; rfl
  have hlz : zs.length = L.length := List.length_map _
  have hzk : zs.length ≤ 2 ^ 40 := by rw [hlz]; exact hn.trans hk
  -- the exact norm of the rounded coordinates
  have hA : |√(squares zs) - r| ≤ 3 * roundoff * r + 2 ^ 20 * tiny := by
    rw [hsq, hrf]
    refine (list_len_sub L (fun q => real ((q.1.1 -. q.1.2) /. q.2)) f (fun q => 3 * roundoff * |f q| + tiny)
      fun q hq => ?_).trans ?_
    · obtain ⟨z, hz, he⟩ := hcoord q hq
      rw [is_real hz]; exact he
    · refine (list_len_add L _ _).trans (add_le_add ?_ ?_)
      · rw [sqrt_sum_sq_smul L (fun q => |f q|) (by positivity)]
        simp only [sq_abs]
        exact le_refl _
      · rw [List.map_const', List.sum_replicate, nsmul_eq_mul, Real.sqrt_mul (Nat.cast_nonneg _), Real.sqrt_sq ht.le]
        refine mul_le_mul_of_nonneg_right ?_ ht.le
        refine Real.sqrt_le_iff.2 ⟨by norm_num, ?_⟩
        have : (L.length : ℝ) ≤ 2 ^ 40 := by exact_mod_cast hn.trans hk
        exact this.trans (by norm_num)
  have htt := tiny_le_speck
  have hss := speck_le
  have hA1 : √(squares zs) ≤ 2 ^ 501 := by
    have h1 := (abs_le.1 hA).2
    have h2 : 3 * roundoff * r ≤ 1 / 100 * r := mul_le_mul_of_nonneg_right (by linarith) r0
    have h3 : 2 ^ 20 * tiny ≤ 1 := by linarith
    have h4 : 101 / 100 * r ≤ 101 / 100 * 2 ^ 500 := mul_le_mul_of_nonneg_left hr (by norm_num)
    have h5 : (101 : ℝ) / 100 * 2 ^ 500 + 1 ≤ 2 ^ 501 := by
      have h7 : (2 : ℝ) ^ 10 ≤ 2 ^ 500 := two_pow_le (by norm_num)
      have h8 : (2 : ℝ) ^ 501 = 2 * 2 ^ 500 := pow_succ' 2 500
      rw [h8]
      generalize (2 : ℝ) ^ 500 = a at h7
      linarith only [h7]
    have h6 : √(squares zs) ≤ 101 / 100 * r + 1 := by linarith only [h1, h2, h3]
    exact h6.trans ((add_le_add_left h4 1).trans h5)
  have hS1 : squares zs ≤ 2 ^ 1002 := by
    rw [← Real.sq_sqrt (squares_nonneg zs)]
    exact (pow_le_pow_left₀ (Real.sqrt_nonneg _) hA1 2).trans (by rw [← pow_mul])
  obtain ⟨s, hs⟩ := squares_finite hM zs hfin hzk (hS1.trans (two_pow_le (by norm_num)))
  have s0 : 0 ≤ s := by
    have := fold_squares_nonneg zs hfin Scalar.zero (by rw [val_zero]; exact le_refl (0 : ℝ))
    rw [hs] at this
    exact this
  have e1 := squares_err' hM zs hzk hs
  have hKb := length_roundoff' hzk
  have K0 : 0 ≤ (zs.length : ℝ) * roundoff := by positivity
  have e2 := sqrt_two_sided (squares_nonneg zs) s0 (g := 2 * (zs.length * roundoff)) (by positivity)
    (b := 2 ^ 41 * tiny) (by positivity) e1
  have hb := sqrt_tiny
  have a0 := Real.sqrt_nonneg (squares zs)
  set A := √(squares zs) with hAdef
  have hs1 : √s ≤ 2 ^ 503 := by
    have h1 := (abs_le.1 e2).2
    have h2 : 2 * (zs.length * roundoff) * A ≤ A := mul_le_of_le_one_left a0 (by linarith)
    have hb1 : √(2 ^ 41 * tiny) ≤ 1 := hb.trans (by linarith only [hss, hu1, hu])
    have h3 : √s ≤ 2 * A + 1 := by
      generalize √(2 ^ 41 * tiny) = β at h1 hb1
      linarith only [h1, h2, hb1]
    have h4 : (1 : ℝ) ≤ 2 ^ 501 := one_le_pow₀ (by norm_num)
    have h5 : 2 * A + 1 ≤ 3 * 2 ^ 501 := by
      generalize (2 : ℝ) ^ 501 = β at hA1 h4
      linarith only [hA1, h4]
    exact (h3.trans h5).trans (mul_two_pow_le (j := 2) (by norm_num) (by norm_num))
  have e : sliceDistance ls x y = Scalar.sqrt (zs.foldl (fun acc z => acc +. z *. z) Scalar.zero) := by
    unfold sliceDistance
    rw [zip_scaled]
  obtain ⟨ρ, hρ, e3, hρ0⟩ := of_rnd hM (a := sliceDistance ls x y) (x := √s) (by
    rw [e, val_sqrt, hs]
    show (M.round (if s < 0 then _ else .fin (√s))).1 = _
    rw [if_neg (not_lt.2 s0)]; rfl) (by
      rw [abs_of_nonneg (Real.sqrt_nonneg _)]
      exact hs1.trans (two_pow_le (by norm_num)))
  refine ⟨ρ, hρ, hρ0 (Real.sqrt_nonneg _), ?_⟩
  rw [abs_of_nonneg (Real.sqrt_nonneg _)] at e3
  have hKn : (zs.length : ℝ) * roundoff ≤ ls.length * roundoff := by
    refine mul_le_mul_of_nonneg_right ?_ hu.le
    rw [hlz]; exact_mod_cast hn
  have eK : (2 * (ls.length : ℝ) + 6) * roundoff = 2 * (ls.length * roundoff) + 6 * roundoff := by ring
  rw [eK]
  generalize (zs.length : ℝ) * roundoff = K at *
  generalize (ls.length : ℝ) * roundoff = N at *
  have ht2 : 2 ^ 20 * tiny ≤ 1 / 8 * speck := by linarith
  have ht3 : tiny ≤ 1 / 8 * speck := by linarith
  generalize hT : 2 ^ 20 * tiny = T at *
  have q1 : |√s - A| ≤ 2 * K * A + 1 / 2 * speck := e2.trans (by linarith)
  have q2 : A ≤ (1 + 3 * roundoff) * r + 1 / 8 * speck := by have := (abs_le.1 hA).2; linarith
  have q3 : √s ≤ (1 + 2 * K) * A + 1 / 2 * speck := by have := (abs_le.1 q1).2; linarith
  have q4 := abs_sub_le ρ (√s) r
  have q5 := abs_sub_le (√s) A r
  have q6 : 2 * K * A ≤ 2 * K * ((1 + 3 * roundoff) * r + 1 / 8 * speck) :=
    mul_le_mul_of_nonneg_left q2 (by positivity)
  have q7 : roundoff * √s ≤ roundoff * ((1 + 2 * K) * A + 1 / 2 * speck) := mul_le_mul_of_nonneg_left q3 hu.le
  have q8 : roundoff * ((1 + 2 * K) * A) ≤ 11 / 10 * (roundoff * A) := by
    have : roundoff * ((1 + 2 * K) * A) = (1 + 2 * K) * (roundoff * A) := by ring
    rw [this]
    exact mul_le_mul_of_nonneg_right (by linarith) (by positivity)
  have q9 : roundoff * A ≤ roundoff * ((1 + 3 * roundoff) * r + 1 / 8 * speck) := mul_le_mul_of_nonneg_left q2 hu.le
  have q10 : roundoff * (roundoff * r) ≤ 1 / 100 * (roundoff * r) := mul_le_mul_of_nonneg_right (by linarith) (by positivity)
  have q11 : K * (roundoff * r) ≤ 1 / 100 * (roundoff * r) := mul_le_mul_of_nonneg_right (by linarith) (by positivity)
  have q12 : K * speck ≤ 1 / 100 * speck := mul_le_mul_of_nonneg_right (by linarith) hsp.le
  have q13 : roundoff * speck ≤ 1 / 100 * speck := mul_le_mul_of_nonneg_right (by linarith) hsp.le
  have q14 : K * r ≤ N * r := mul_le_mul_of_nonneg_right hKn r0
  have x1 : 2 * K * ((1 + 3 * roundoff) * r + 1 / 8 * speck) = 2 * (K * r) + 6 * (K * (roundoff * r)) + 1 / 4 * (K * speck) := by
    ring
  have x2 : roundoff * ((1 + 3 * roundoff) * r + 1 / 8 * speck) =
      roundoff * r + 3 * (roundoff * (roundoff * r)) + 1 / 8 * (roundoff * speck) := by ring
  have x3 : roundoff * ((1 + 2 * K) * A + 1 / 2 * speck) = roundoff * ((1 + 2 * K) * A) + 1 / 2 * (roundoff * speck) := by ring
  have x4 : (2 * N + 6 * roundoff) * r = 2 * (N * r) + 6 * (roundoff * r) := by ring
  have x5 : 0 ≤ roundoff * r := by positivity
  rw [x4]
  rw [x1] at q6
  rw [x2] at q9
  rw [x3] at q7
  linarith

end Lfa

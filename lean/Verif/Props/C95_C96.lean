import Verif.Proofs.RoundErr
import Verif.Props.C23_C29
import Verif.Props.C87
import Verif.Props.C88

/-!
# C95-C96: accuracy of normalised and polynomial features in `f64`

`M` is any machine that rounds like `f64`; how `powi` multiplies is left open.
-/

set_option linter.unusedSectionVars false

namespace Lfa

open Spec Machine XReal

variable {M : Machine}

/-! ## C95 L1 normalisation -/

/-- Compound roundoff grows at most twice as fast as linearly, for a long time. -/
theorem compound {u : ℝ} (hu : 0 ≤ u) (k : ℕ) (hk : (k : ℝ) * u ≤ 1 / 2) :
    (1 + u) ^ k ≤ 1 + 2 * (k * u) := by
  induction k with
  | zero => simp
  | succ k ih =>
    push_cast at hk ⊢
    have := ih (by nlinarith)
    rw [pow_succ]
    have h1 := mul_le_mul_of_nonneg_right this (by linarith : 0 ≤ 1 + u)
    have h2 : (k : ℝ) * u * u ≤ 1 / 2 * u := mul_le_mul_of_nonneg_right (by linarith) hu
    nlinarith

theorem length_roundoff {k : ℕ} (hk : k ≤ 2 ^ 40) : (k : ℝ) * roundoff ≤ 1 / 2 := by
  have hk1 : (k : ℝ) ≤ 2 ^ 40 := by exact_mod_cast hk
  exact (mul_le_mul_of_nonneg_right hk1 roundoff_pos.le).trans (by norm_num [roundoff])

/-- Adding magnitudes does not overflow as long as their sum is below `2 ^ 1022`. -/
theorem sum_finite (hM : M.rnd = binary64Format.rnd) (l : List (FP M)) (hl : ∀ a ∈ l, Finite a)
    (hk : l.length ≤ 2 ^ 40) (hs : (l.map fun a => |real a|).sum ≤ 2 ^ 1022) :
    ∃ z, Is (l.foldl (fun acc x => acc +. Scalar.abs x) Scalar.zero) z ∧
      (1 - roundoff) ^ l.length * (l.map fun a => |real a|).sum ≤ z ∧
      z ≤ (1 + roundoff) ^ l.length * (l.map fun a => |real a|).sum := by
  have hu1 : roundoff ≤ 1 := by norm_num [roundoff]
  have hu := roundoff_pos
  induction l using List.reverseRecOn with
  | nil => exact ⟨0, val_zero, by simp, by simp⟩
  | append_singleton l a ih =>
    rw [List.length_append, List.length_singleton] at hk
    rw [List.map_append, List.sum_append, List.map_singleton, List.sum_singleton] at hs ⊢
    have h0 : 0 ≤ (l.map fun a => |real a|).sum := by
      refine List.sum_nonneg fun x hx => ?_
      obtain ⟨y, -, rfl⟩ := List.mem_map.1 hx
      exact abs_nonneg _
    obtain ⟨z, hz, zl, z1⟩ := ih (fun b hb => hl b (List.mem_append_left _ hb)) (by omega)
      (le_trans (le_add_of_nonneg_right (abs_nonneg _)) hs)
    obtain ⟨r, hr⟩ := hl a (List.mem_append_right _ List.mem_cons_self)
    rw [is_real hr] at hs ⊢
    have z0 : 0 ≤ z := le_trans (mul_nonneg (pow_nonneg (sub_nonneg.2 hu1) _) h0) zl
    rw [List.foldl_append, List.foldl_cons, List.foldl_nil, List.length_append, List.length_singleton]
    generalize (l.map fun a => |real a|).sum = S at *
    have hpow : (1 + roundoff) ^ l.length ≤ 2 := by
      have h1 := length_roundoff (k := l.length) (by omega)
      have h2 := compound hu.le _ h1
      generalize (l.length : ℝ) * roundoff = t at h1 h2
      linarith
    have hle : z + |r| ≤ (1 + roundoff) ^ l.length * (S + |r|) := by
      have : 1 ≤ (1 + roundoff) ^ l.length := one_le_pow₀ (by linarith)
      nlinarith [abs_nonneg r]
    have hbig : |z + abs r| ≤ 2 ^ 1023 := by
      rw [abs_of_nonneg (by positivity)]
      refine hle.trans ((mul_le_mul hpow hs (by positivity) (by norm_num)).trans_eq ?_)
      rw [← pow_succ']
    have hv : (l.foldl (fun acc x => acc +. Scalar.abs x) Scalar.zero +. Scalar.abs a).1 =
        M.rnd (z + |r|) := by
      rw [val_add, hz, val_abs, hr]; rfl
    obtain ⟨q, hq, -⟩ := bounded_rnd (c := 2 ^ 1023) hv hbig (rnd_two_pow hM (by norm_num))
    obtain ⟨x, y, hx, hy, he⟩ := add_err hM hq
    have ex : x = z := is_fun hx hz
    have ey : y = |r| := is_fun hy (by rw [Is, val_abs, hr]; rfl)
    subst ex ey
    have h2 := abs_le.1 he
    rw [abs_of_nonneg (by positivity : 0 ≤ x + |r|)] at h2
    refine ⟨q, hq, ?_, ?_⟩
    · have p1 : (1 - roundoff) ^ l.length ≤ 1 := pow_le_one₀ (sub_nonneg.2 hu1) (by linarith)
      have h3 : (1 - roundoff) ^ l.length * (S + |r|) ≤ x + |r| := by nlinarith [abs_nonneg r]
      have h4 := mul_le_mul_of_nonneg_left h3 (sub_nonneg.2 hu1)
      rw [pow_succ]
      nlinarith [h2.1]
    · rw [pow_succ]
      nlinarith [h2.2]

/-- A finite quotient is accurate to one unit roundoff, unless it underflows. -/
theorem div_err (hM : M.rnd = binary64Format.rnd) {a b : FP M} {x y z : ℝ} (hx : Is a x) (hy : Is b y)
    (h0 : y ≠ 0) (h : Is (a /. b) z) : |z - x / y| ≤ roundoff * |x / y| + tiny := by
  have e : (a /. b).1 = M.rnd (x / y) := by
    rw [val_div, hx, hy]
    show (M.round (if y = 0 then _ else .fin (x / y))).1 = _
    rw [if_neg h0]; rfl
  rw [h, hM] at e
  have e := (binary64Format.rnd_eq_fin e.symm).1
  have := binary64Format.nearest_rel (x / y)
  rwa [e] at this

theorem sum_values {φ : Features (FP M)} (h : WF φ) (f : ℝ → ℝ) (h0 : f 0 = 0) :
    (φ.values.map fun a => f (real a)).sum = ∑ i ∈ Finset.range (dim φ), f (real (value φ i)) := by
  cases φ with
  | dense da =>
    show (da.map fun a => f (real a)).sum = ∑ i ∈ Finset.range da.length, f (real (entry da i))
    clear h
    induction da with
    | nil => simp
    | cons a l ih =>
      rw [List.map_cons, List.sum_cons, ih, List.length_cons, Finset.sum_range_succ', add_comm]
      rfl
  | sparse sa =>
    have := sum_entries_eq (fun _ a => f a) (fun _ => h0) sa.dim
      (sa.activations.map fun e => (e.1, real e.2)) (HMap.nodupKeys_map real h.1) (by
        intro e he
        obtain ⟨e', he', rfl⟩ := List.mem_map.1 he
        exact h.2 e' he')
    rw [List.map_map] at this
    show ((sa.activations.map Prod.snd).map fun a => f (real a)).sum = _
    rw [List.map_map]
    refine this.trans (Finset.sum_congr rfl fun i _ => ?_)
    rw [value_sparse, HMap.get?_map]
    cases HMap.get? sa.activations i
    · show f 0 = f (real Scalar.zero)
      rw [real_zero']
    · rfl

section
variable {B I : Type} [Space B] [Basis B I (FP M)]

/-- The magnitudes of L1-normalised activations add up to 1 within `(k + 1) * 2 ^ -51`, `k` being the
number of stored activations. -/
theorem C95_l1 (hM : M.rnd = binary64Format.rnd) (b : B) (x : I) (φ : Features (FP M)) (h : WF φ)
    (hf : AllFinite φ) (hz : SomeNonZero φ) (hp : Basis.project b x = .ok (.ok φ))
    (hk : storedCount φ ≤ 2 ^ 40)
    (hs : ∑ i ∈ Finset.range (dim φ), |real (value φ i)| ≤ 2 ^ 1022) :
    ∃ ψ, Basis.project (L1Normaliser.mk b) x = .ok (.ok ψ) ∧
      |(∑ i ∈ Finset.range (dim ψ), |real (value ψ i)|) - 1| ≤
        (storedCount φ + 1) * 2 ^ (-51 : ℤ) := by
  refine ⟨mapValues (fun a => a /. l1Norm φ) φ, by rw [l1_project hp, divideBy_eq h], ?_⟩
  have hv : ∀ a ∈ φ.values, Finite a := fun a ha => by
    obtain ⟨i, hi⟩ := (mem_values_iff φ a).1 ha
    exact hf i a hi
  have hlen : φ.values.length = storedCount φ := by
    cases φ with
    | dense da => rfl
    | sparse sa => exact List.length_map ..
  have hsum : (φ.values.map fun a => |real a|).sum = ∑ i ∈ Finset.range (dim φ), |real (value φ i)| :=
    sum_values h (fun r => |r|) abs_zero
  obtain ⟨c, hc, c1, c2⟩ := sum_finite hM φ.values hv (hlen ▸ hk) (hsum ▸ hs)
  clear hs hsum
  have hin : ∀ i a, Stored φ i a → InUnit (a /. l1Norm φ) := fun i a ha =>
    (normalise_of hf hz (foldl_abs φ.values hv Scalar.zero (by
      rw [val_zero]; exact le_refl (0 : ℝ))).2 i a ha).1
  have hc' : Is (l1Norm φ) c := hc
  have hS : 0 < (φ.values.map fun a => |real a|).sum := by
    obtain ⟨i, a, r, hi, hr, h0⟩ := hz
    refine lt_of_lt_of_le (abs_pos.2 h0) ?_
    refine List.single_le_sum (l := φ.values.map fun a => |real a|) (fun y hy => ?_) _
      (List.mem_map.2 ⟨a, (mem_values_iff φ a).2 ⟨i, hi⟩, by rw [is_real hr]⟩)
    obtain ⟨y', -, rfl⟩ := List.mem_map.1 hy
    exact abs_nonneg _
  have hψ : ∑ i ∈ Finset.range (dim (mapValues (fun a => a /. l1Norm φ) φ)),
      |real (value (mapValues (fun a => a /. l1Norm φ) φ) i)| =
      (φ.values.map fun a => |real (a /. l1Norm φ)|).sum := by
    have hw : WF (mapValues (fun a => a /. l1Norm φ) φ) := by
      cases φ with
      | dense da => trivial
      | sparse sa =>
        refine ⟨HMap.nodupKeys_map (fun a => a /. l1Norm (.sparse sa)) h.1, fun e he => ?_⟩
        obtain ⟨e', he', rfl⟩ := List.mem_map.1 he
        exact h.2 e' he'
    rw [← sum_values hw (fun r => |r|) abs_zero]
    cases φ with
    | dense da =>
      show ((da.map _).map _).sum = _
      rw [List.map_map]; rfl
    | sparse sa =>
      show (((sa.activations.map _).map Prod.snd).map _).sum = ((sa.activations.map Prod.snd).map _).sum
      rw [List.map_map, List.map_map, List.map_map]; rfl
  rw [hψ]
  rw [hlen] at c1 c2
  have hu := roundoff_pos
  have ht := length_roundoff hk
  have hu1 : roundoff ≤ 1 / 2 := by norm_num [roundoff]
  have hp := compound hu.le _ ht
  have hb : 1 - (storedCount φ : ℝ) * roundoff ≤ (1 - roundoff) ^ storedCount φ := by
    have := one_add_mul_le_pow (a := -roundoff) (by linarith) (storedCount φ)
    rwa [mul_neg, ← sub_eq_add_neg, ← sub_eq_add_neg] at this
  have ht0 : 0 ≤ (storedCount φ : ℝ) * roundoff := by positivity
  generalize hS' : (φ.values.map fun a => |real a|).sum = S at *
  have c1 : (1 - (storedCount φ : ℝ) * roundoff) * S ≤ c :=
    (mul_le_mul_of_nonneg_right hb hS.le).trans c1
  have c2 : c ≤ (1 + 2 * ((storedCount φ : ℝ) * roundoff)) * S :=
    c2.trans (mul_le_mul_of_nonneg_right hp hS.le)
  have hc0 : 0 < c := lt_of_lt_of_le (mul_pos (by linarith) hS) c1
  have herr : ∀ a ∈ φ.values, |abs (real (a /. l1Norm φ)) - |real a| / c| ≤
      roundoff * |abs (real a) / c| + tiny := by
    intro a ha
    obtain ⟨i, hi⟩ := (mem_values_iff φ a).1 ha
    obtain ⟨r, hr⟩ := hf i a hi
    obtain ⟨q, hq, -⟩ := hin i a hi
    have := div_err hM hr hc' hc0.ne' hq
    rw [is_real hq, is_real hr]
    have e : |r| / c = |r / c| := by rw [abs_div, abs_of_pos hc0]
    rw [e, abs_abs]
    exact (abs_abs_sub_abs_le _ _).trans this
  have h1 := (list_err (f := fun a => |real (a /. l1Norm φ)|) (g := fun a => |real a| / c)
    φ.values herr).1
  have e1 : (φ.values.map fun a => |real a| / c).sum = S / c := by
    rw [← hS', div_eq_mul_inv, ← List.sum_map_mul_right]
    rfl
  have e2 : (φ.values.map fun a => |abs (real a) / c|).sum = S / c := by
    rw [← e1]
    congr 1
    refine List.map_congr_left fun a _ => abs_of_nonneg (by positivity)
  rw [e1, e2, hlen] at h1
  have hη : (storedCount φ : ℝ) * tiny ≤ roundoff := by
    have hk1 : (storedCount φ : ℝ) ≤ 2 ^ 40 := by exact_mod_cast hk
    refine (mul_le_mul_of_nonneg_right hk1 tiny_pos.le).trans ?_
    rw [← zpow_natCast (2 : ℝ) 40, tiny, roundoff, ← zpow_add₀ (by norm_num)]
    exact zpow_le_zpow_right₀ (by norm_num) (by norm_num)
  have e3 : (2 : ℝ) ^ (-51 : ℤ) = 4 * roundoff := by norm_num [roundoff]
  rw [e3]
  generalize (storedCount φ : ℝ) * tiny = T at *
  have d1 : S / c ≤ 1 + 2 * ((storedCount φ : ℝ) * roundoff) := by
    rw [div_le_iff₀ hc0]
    generalize (storedCount φ : ℝ) * roundoff = t at *
    nlinarith
  have d2 : 1 - 2 * ((storedCount φ : ℝ) * roundoff) ≤ S / c := by
    rw [le_div_iff₀ hc0]
    generalize (storedCount φ : ℝ) * roundoff = t at *
    nlinarith
  have d3 : |S / c - 1| ≤ 2 * ((storedCount φ : ℝ) * roundoff) := abs_le.2 ⟨by linarith, by linarith⟩
  have d4 := abs_sub_le (φ.values.map fun a => |real (a /. l1Norm φ)|).sum (S / c) 1
  have d5 : roundoff * (S / c) ≤ roundoff * 2 := mul_le_mul_of_nonneg_left (by
    refine d1.trans ?_
    generalize (storedCount φ : ℝ) * roundoff = t at *
    linarith) hu.le
  have d6 : (((storedCount φ : ℕ) : ℝ) + 1) * (4 * roundoff) =
    4 * ((storedCount φ : ℝ) * roundoff) + 4 * roundoff := by ring
  rw [d6]
  generalize (storedCount φ : ℝ) * roundoff = t at *
  generalize roundoff = u at *
  linarith

end

/-! ## C96 Polynomial features -/

/-- One multiplication of numbers in `[-1, 1]`. -/
theorem unit_mul_err (hM : M.rnd = binary64Format.rnd) {a b : FP M} {x y : ℝ} (ha : Is a x)
    (hb : Is b y) (hx : |x| ≤ 1) (hy : |y| ≤ 1) :
    ∃ z, Is (a *. b) z ∧ |z| ≤ 1 ∧ |z - x * y| ≤ 2 ^ (-52 : ℤ) := by
  obtain ⟨z, hz, hz1⟩ := InUnit.mul ⟨x, ha, hx⟩ ⟨y, hb, hy⟩
  refine ⟨z, hz, hz1, ?_⟩
  obtain ⟨x', y', hx', hy', he⟩ := mul_err hM hz
  rw [is_fun hx' ha, is_fun hy' hb] at he
  have h1 : |x * y| ≤ 1 := by rw [abs_mul]; exact mul_le_one₀ hx (abs_nonneg _) hy
  have h2 : roundoff * |x * y| ≤ roundoff := mul_le_of_le_one_right roundoff_pos.le h1
  have h3 : tiny ≤ roundoff := zpow_le_zpow_right₀ (by norm_num) (by norm_num)
  have h4 : (2 : ℝ) ^ (-52 : ℤ) = roundoff + roundoff := by norm_num [roundoff]
  rw [h4]
  exact he.trans (add_le_add h2 h3)

theorem unit_mul_sub {x y X Y : ℝ} (hx : |x| ≤ 1) (hY : |Y| ≤ 1) :
    |x * y - X * Y| ≤ |x - X| + |y - Y| := by
  have e : x * y - X * Y = x * (y - Y) + (x - X) * Y := by ring
  rw [e]
  refine (abs_add_le _ _).trans ?_
  rw [abs_mul, abs_mul]
  have h1 := mul_le_of_le_one_left (abs_nonneg (y - Y)) hx
  have h2 := mul_le_of_le_one_right (abs_nonneg (x - X)) hY
  linarith

theorem pow_err (hM : M.rnd = binary64Format.rnd) {a : FP M} {x : ℝ} (ha : Is a x) (hx : |x| ≤ 1) :
    ∀ t : PowTree, ∃ z, Is (t.eval M.mul (M.lit 1) a) z ∧ |z| ≤ 1 ∧
      |z - x ^ t.degree| ≤ ((t.degree - 1 : ℕ) : ℝ) * 2 ^ (-52 : ℤ)
  | .one => ⟨1, M.rnd_one, abs_one.le, by simp [PowTree.degree]⟩
  | .base => ⟨x, ha, hx, by simp [PowTree.degree]⟩
  | .mul l r => by
    obtain ⟨p, hp, p1, p2⟩ := pow_err hM ha hx l
    obtain ⟨q, hq, q1, q2⟩ := pow_err hM ha hx r
    show ∃ z, Is (M.mul (l.eval M.mul (M.lit 1) a) (r.eval M.mul (M.lit 1) a)) z ∧ |z| ≤ 1 ∧
      |z - x ^ (l.degree + r.degree)| ≤ ((l.degree + r.degree - 1 : ℕ) : ℝ) * 2 ^ (-52 : ℤ)
    rcases Nat.eq_zero_or_pos l.degree with hl | hl
    · rw [powTree_zero a l hl, one_mul_fp, hl, zero_add]
      exact ⟨q, hq, q1, q2⟩
    rcases Nat.eq_zero_or_pos r.degree with hr | hr
    · rw [powTree_zero a r hr, mul_one_fp, hr, add_zero]
      exact ⟨p, hp, p1, p2⟩
    obtain ⟨z, hz, z1, z2⟩ := unit_mul_err hM hp hq p1 q1
    refine ⟨z, hz, z1, ?_⟩
    have h1 := unit_mul_sub (y := q) (X := x ^ l.degree) p1 (Y := x ^ r.degree) (by
      rw [abs_pow]; exact pow_le_one₀ (abs_nonneg _) hx)
    have h2 := abs_sub_le z (p * q) (x ^ l.degree * x ^ r.degree)
    rw [pow_add]
    have e : ((l.degree + r.degree - 1 : ℕ) : ℝ) =
        ((l.degree - 1 : ℕ) : ℝ) + ((r.degree - 1 : ℕ) : ℝ) + 1 := by
      rw [show l.degree + r.degree - 1 = (l.degree - 1) + (r.degree - 1) + 1 by omega]
      push_cast; rfl
    rw [e]
    generalize (2 : ℝ) ^ (-52 : ℤ) = ε at *
    linarith

/-- The product of powers against the exact one. -/
theorem feature_err (hM : M.rnd = binary64Format.rnd) (l : List (FP M × Nat))
    (hl : ∀ p ∈ l, InUnit p.1) :
    ∃ z, Is (Polynomial.computeFeature l) z ∧ |z| ≤ 1 ∧
      |z - (l.map fun p => real p.1 ^ p.2).prod| ≤ ((l.map Prod.snd).sum : ℕ) * 2 ^ (-52 : ℤ) := by
  have key : ∀ (l : List (FP M × Nat)), (∀ p ∈ l, InUnit p.1) → ∀ (a : FP M) (x X E : ℝ), Is a x →
      |x| ≤ 1 → |x - X| ≤ E →
      ∃ z, Is ((l.map fun (v, e) => Scalar.powi v e).foldl (· *. ·) a) z ∧ |z| ≤ 1 ∧
        |z - X * (l.map fun p => real p.1 ^ p.2).prod| ≤
          E + ((l.map Prod.snd).sum : ℕ) * 2 ^ (-52 : ℤ) := by
    intro l
    induction l with
    | nil => intro _ a x X E ha hx hE; exact ⟨x, ha, hx, by simpa using hE⟩
    | cons p l ih =>
      intro hl a x X E ha hx hE
      obtain ⟨y, hy, hy1⟩ := hl p List.mem_cons_self
      obtain ⟨q, hq, q1, q2⟩ := pow_err hM hy hy1 (M.powTree p.2)
      rw [M.powTree_degree] at q2
      have hq : Is (Scalar.powi p.1 p.2) q := hq
      have hstep : ∃ z, Is (a *. Scalar.powi p.1 p.2) z ∧ |z| ≤ 1 ∧
          |z - X * y ^ p.2| ≤ E + p.2 * 2 ^ (-52 : ℤ) := by
        rcases Nat.eq_zero_or_pos p.2 with h0 | h0
        · have e : Scalar.powi p.1 p.2 = (Scalar.one : FP M) := by
            rw [← lit_one]
            exact powTree_zero _ _ (by rw [M.powTree_degree, h0])
          refine ⟨x, by rw [e, mul_one_scalar]; exact ha, hx, ?_⟩
          rw [h0]
          simpa using hE
        · obtain ⟨z, hz, z1, z2⟩ := unit_mul_err hM ha hq hx q1
          refine ⟨z, hz, z1, ?_⟩
          have h1 := unit_mul_sub (y := q) (X := X) hx (Y := y ^ p.2) (by
            rw [abs_pow]; exact pow_le_one₀ (abs_nonneg _) hy1)
          have h2 := abs_sub_le z (x * q) (X * y ^ p.2)
          have e : (p.2 : ℝ) = ((p.2 - 1 : ℕ) : ℝ) + 1 := by
            rw [Nat.cast_sub h0]; push_cast; ring
          rw [e]
          generalize (2 : ℝ) ^ (-52 : ℤ) = ε at *
          linarith
      obtain ⟨z, hz, z1, z2⟩ := hstep
      obtain ⟨r, hr, r1, r2⟩ := ih (fun p' h' => hl p' (List.mem_cons_of_mem _ h')) _ z _ _ hz z1 z2
      refine ⟨r, hr, r1, ?_⟩
      rw [List.map_cons, List.prod_cons, List.map_cons, List.sum_cons, is_real hy, ← mul_assoc]
      push_cast
      rw [add_mul, ← add_assoc]
      push_cast at r2
      exact r2
  obtain ⟨z, hz, z1, z2⟩ := key l hl Scalar.one 1 1 0 val_one abs_one.le (by simp)
  rw [one_mul, zero_add] at z2
  exact ⟨z, hz, z1, z2⟩

/-- Every polynomial feature of an input in `[-1, 1]^d` is in `[-1, 1]` and within `2 ^ -52` times its
total degree of the exact monomial. -/
theorem C96_polynomial (hM : M.rnd = binary64Format.rnd) (p d : Nat) (hd : 0 < d) (x : Fin d → FP M)
    (hx : ∀ j, InUnit (x j)) :
    ∃ es ys, MultiIndices p d es ∧
      Basis.project (Polynomial.new d p) (List.ofFn x) = .ok (.ok (.dense ys)) ∧
      List.Forall₂ (fun e y => ∃ r, Is y r ∧ |r| ≤ 1 ∧
        |r - monomial (fun j => real (x j)) e| ≤ (e.sum : ℕ) * 2 ^ (-52 : ℤ)) es ys := by
  refine ⟨computeCoefficients p d, _, computeCoefficients_spec p d hd, rfl, ?_⟩
  rw [List.forall₂_map_right_iff]
  change List.Forall₂ _ (computeCoefficients p d) (computeCoefficients p d)
  rw [List.forall₂_same]
  intro e he
  have hlen := length_of_mem_computeCoefficients he
  obtain ⟨z, hz, z1, z2⟩ := feature_err hM ((List.ofFn x).zip e) (fun q hq => by
    obtain ⟨j, hj⟩ := List.mem_ofFn.1 (List.of_mem_zip hq).1
    rw [← hj]; exact hx j)
  refine ⟨z, hz, z1, ?_⟩
  have e1 : ((List.ofFn x).zip e).map Prod.snd = e :=
    List.map_snd_zip (by rw [List.length_ofFn, hlen])
  have e2 : (((List.ofFn x).zip e).map fun q => real q.1 ^ q.2).prod =
      monomial (fun j => real (x j)) e := by
    unfold monomial
    rw [map_zip_ofFn x e hlen (fun a b => real a ^ b) 0, List.prod_ofFn]
  rw [e1, e2] at z2
  exact z2

/-- The hypotheses of `C95_l1` can be met: a constant feature. -/
example : ∃ b : Bias (FP M), ∃ φ, Basis.project b () = .ok (.ok φ) ∧ WF φ ∧ AllFinite φ ∧
    SomeNonZero φ ∧ storedCount φ ≤ 2 ^ 40 ∧
    ∑ i ∈ Finset.range (dim φ), |real (value φ i)| ≤ 2 ^ 1022 := by
  refine ⟨Bias.unit, .dense [Scalar.one], rfl, trivial, ?_, ⟨0, Scalar.one, 1, rfl, val_one, one_ne_zero⟩, ?_, ?_⟩
  · intro i a h
    have h : [(Scalar.one : FP M)][i]? = some a := h
    rcases i with _ | i
    · injection h with h
      exact ⟨1, h ▸ val_one⟩
    · simp at h
  · exact Nat.one_le_two_pow
  · have e : ∑ i ∈ Finset.range (dim (.dense [(Scalar.one : FP M)])),
        |real (value (.dense [(Scalar.one : FP M)]) i)| = |real (Scalar.one : FP M)| :=
      Finset.sum_range_one _
    rw [e, is_real val_one, abs_one]
    exact one_le_pow₀ one_le_two

/-- The hypotheses of `C96_polynomial` can be met: the corner `(1, 1)`. -/
example : ∀ j : Fin 2, InUnit ((fun _ => Scalar.one : Fin 2 → FP M) j) :=
  fun _ => ⟨1, val_one, abs_one.le⟩

end Lfa

import Verif.Spec.Machine
import Verif.Proofs.Machine
import Verif.Proofs.Binary64
import Verif.Props.C88

/-!
# C89: kernels under rounding

`M` is any floating-point system.
-/

set_option linter.unusedSectionVars false

namespace Lfa

open Spec Machine XReal

namespace XReal

theorem add_neg_swap (x y : XReal) : add y (neg x) = neg (add x (neg y)) := by
  cases x <;> cases y <;> simp [add, neg]

theorem infSign_neg {a : ℝ} (h : a ≠ 0) : infSign (-a) = neg (infSign a) := by
  unfold infSign
  rcases lt_or_gt_of_ne h with h | h
  · rw [if_pos (by linarith), if_neg (by linarith)]; rfl
  · rw [if_neg (by linarith), if_pos (by linarith)]; rfl

theorem neg_div' (x l : XReal) : div (neg x) l = neg (div x l) := by
  have nn : ∀ z : XReal, neg (neg z) = z := fun z => by cases z <;> simp [neg]
  rcases x with _ | _ | _ | a <;> rcases l with _ | _ | _ | b
  all_goals first | rfl | skip
  · exact (nn _).symm
  · show fin 0 = neg (fin 0); simp [neg]
  · show fin 0 = neg (fin 0); simp [neg]
  · show (if b = 0 then if -a = 0 then nan else infSign (-a) else fin (-a / b)) =
      neg (if b = 0 then if a = 0 then nan else infSign a else fin (a / b))
    by_cases hb : b = 0
    · by_cases ha : a = 0
      · simp [hb, ha, neg]
      · rw [if_pos hb, if_pos hb, if_neg ha, if_neg (neg_ne_zero.2 ha), infSign_neg ha]
    · rw [if_neg hb, if_neg hb, neg_div]; rfl

theorem neg_mul_self (x : XReal) : mul (neg x) (neg x) = mul x x := by
  cases x <;> simp [mul, neg]

theorem abs_neg' (x : XReal) : abs (neg x) = abs x := by
  cases x <;> simp [abs, neg]

theorem mul_one' (x : XReal) : mul x (fin 1) = x := by
  cases x <;> simp [mul, infSign]

theorem mul_nonneg' {a b : XReal} (h : fin 0 ≤ a) (h' : fin 0 ≤ b) (n : mul a b ≠ nan) :
    fin 0 ≤ mul a b := by
  rcases a with _ | _ | _ | a <;> rcases b with _ | _ | _ | b <;>
    first | exact absurd h id | exact absurd h' id | skip
  · trivial
  · have h' : 0 ≤ b := h'
    simp only [mul] at n ⊢
    split_ifs at n ⊢
    · exact absurd rfl n
    · rw [infSign, if_pos h']; trivial
  · have h : 0 ≤ a := h
    simp only [mul] at n ⊢
    split_ifs at n ⊢
    · exact absurd rfl n
    · rw [infSign, if_pos h]; trivial
  · exact mul_nonneg (a := a) (b := b) h h'

end XReal

variable {M : Machine}

/-! ## Symmetry -/

theorem sub_swap (a b : FP M) : (b -. a).1 = XReal.neg (a -. b).1 := by
  rw [val_sub, val_sub, add_neg_swap, round_neg]

theorem sq_swap (a b l : FP M) :
    ((b -. a) /. l) *. ((b -. a) /. l) = ((a -. b) /. l) *. ((a -. b) /. l) := by
  apply fp_ext
  have h : ((b -. a) /. l).1 = XReal.neg ((a -. b) /. l).1 := by
    rw [val_div, val_div, sub_swap, neg_div', round_neg]
  rw [val_mul, val_mul, h, neg_mul_self]

theorem fp_sliceDistance_fold : ∀ (x y ls : List (FP M)) (z : FP M),
    (List.zipWith (fun d l => d /. l) (List.zipWith (fun a b => a -. b) x y) ls).foldl
        (fun acc z => acc +. z *. z) z =
      (List.zipWith (fun d l => d /. l) (List.zipWith (fun a b => a -. b) y x) ls).foldl
        (fun acc z => acc +. z *. z) z
  | [], y, ls, z => by cases y <;> simp
  | x, [], ls, z => by cases x <;> simp
  | a :: x, b :: y, [], z => by simp
  | a :: x, b :: y, l :: ls, z => by
    simp only [List.zipWith_cons_cons, List.foldl_cons]
    rw [sq_swap b a l]
    exact fp_sliceDistance_fold x y ls _

theorem fp_sliceDistance_symm (ls x y : List (FP M)) : sliceDistance ls x y = sliceDistance ls y x := by
  unfold sliceDistance
  rw [fp_sliceDistance_fold x y ls Scalar.zero]

theorem fp_scalarDistance_symm (ls : List (FP M)) (x y : FP M) :
    scalarDistance ls x y = scalarDistance ls y x := by
  have : Scalar.abs (x -. y) = Scalar.abs (y -. x) :=
    fp_ext (by rw [val_abs, val_abs, sub_swap y x, abs_neg'])
  unfold scalarDistance
  rw [this]

/-- Every kernel is exactly symmetric, whatever its parameters and arguments. -/
theorem C89_symmetric {kind : StationaryKind} (k : Stationary kind (FP M))
    (q : RationalQuadratic (FP M)) (x y : List (FP M)) (s t : FP M) :
    SliceKernel.kernel k x y = SliceKernel.kernel k y x ∧
    ScalarKernel.kernel k s t = ScalarKernel.kernel k t s ∧
    SliceKernel.kernel q x y = SliceKernel.kernel q y x ∧
    ScalarKernel.kernel q s t = ScalarKernel.kernel q t s := by
  refine ⟨?_, ?_, ?_, ?_⟩
  · show k.kernelStationary _ = k.kernelStationary _; rw [fp_sliceDistance_symm]
  · show (scalarDistance _ s t >>= _) = (scalarDistance _ t s >>= _); rw [fp_scalarDistance_symm]
  · show q.kernelStationary _ = q.kernelStationary _; rw [fp_sliceDistance_symm]
  · show (scalarDistance _ s t >>= _) = (scalarDistance _ t s >>= _); rw [fp_scalarDistance_symm]

/-! ## Distances -/

/-- Neither zero nor NaN: a lengthscale one may divide by. -/
def Divisor (l : FP M) : Prop := l.1 ≠ .nan ∧ l.1 ≠ .fin 0

theorem zero_div_divisor {l : FP M} (h : Divisor l) {a : FP M} (ha : Is a 0) : Is (a /. l) 0 := by
  unfold Is
  rw [val_div, ha]
  rcases hv : l.1 with _ | _ | _ | c
  · exact absurd hv h.1
  · exact rnd_zero
  · exact rnd_zero
  · show (M.round (if c = 0 then _ else _)).1 = _
    rw [if_neg fun e => h.2 (by rw [hv, e]), zero_div, round_fin_zero]

theorem sub_self_fin {a : FP M} (h : Finite a) : Is (a -. a) 0 := by
  obtain ⟨r, hr⟩ := h
  unfold Is
  rw [val_sub, hr]
  show M.rnd (r + -r) = _
  rw [add_neg_cancel, rnd_zero]

theorem zero_mul_zero {a : FP M} (h : Is a 0) : Is (a *. a) 0 := by
  unfold Is
  rw [val_mul, h]
  show M.rnd (0 * 0) = _
  rw [zero_mul, rnd_zero]

theorem zero_add_zero {a b : FP M} (h : Is a 0) (h' : Is b 0) : Is (a +. b) 0 := by
  unfold Is
  rw [val_add, h, h']
  show M.rnd (0 + 0) = _
  rw [zero_add, rnd_zero]

theorem fp_sliceDistance_self (ls : List (FP M)) (hl : ∀ l ∈ ls, Divisor l) (x : List (FP M))
    (hx : ∀ a ∈ x, Finite a) : Is (sliceDistance ls x x) 0 := by
  have key : ∀ (x ls : List (FP M)) (z : FP M), (∀ a ∈ x, Finite a) → (∀ l ∈ ls, Divisor l) →
      Is z 0 → Is ((List.zipWith (fun d l => d /. l) (List.zipWith (fun a b => a -. b) x x) ls).foldl
        (fun acc z => acc +. z *. z) z) 0 := by
    intro x
    induction x with
    | nil => intro ls z _ _ hz; simpa using hz
    | cons a x ih =>
      intro ls z hx hl hz
      cases ls with
      | nil => simpa using hz
      | cons l ls =>
        simp only [List.zipWith_cons_cons, List.foldl_cons]
        exact ih ls _ (fun b hb => hx b (List.mem_cons_of_mem _ hb))
          (fun b hb => hl b (List.mem_cons_of_mem _ hb))
          (zero_add_zero hz (zero_mul_zero (zero_div_divisor (hl l (List.mem_cons_self ..))
            (sub_self_fin (hx a (List.mem_cons_self ..))))))
  have := key x ls Scalar.zero hx hl val_zero
  unfold Is at this ⊢
  unfold sliceDistance
  rw [val_sqrt, this]
  show (M.round (if (0 : ℝ) < 0 then _ else _)).1 = _
  rw [if_neg (lt_irrefl _), Real.sqrt_zero, round_fin_zero]

theorem neg_zero_is {a : FP M} (h : Is a 0) : Is (Scalar.neg a) 0 := by
  unfold Is
  rw [val_neg, h]
  show XReal.fin (-0) = _
  rw [neg_zero]

theorem exp_zero_is {a : FP M} (h : Is a 0) : Is (Scalar.exp a) 1 := by
  show (M.round (M.fexp a.1)).1 = _
  rw [h]
  show M.rnd (M.exp 0) = _
  rw [M.exp_zero, M.rnd_one]

theorem mul_is_one {v a : FP M} (h : Is a 1) : v *. a = v := by
  apply fp_ext
  rw [val_mul, h, mul_one', round_self]

theorem mul_is_zero {a b : FP M} (ha : Finite a) (h : Is b 0) : Is (a *. b) 0 := by
  obtain ⟨r, hr⟩ := ha
  unfold Is
  rw [val_mul, hr, h]
  show M.rnd (r * 0) = _
  rw [mul_zero, rnd_zero]

theorem one_add_zero {a b : FP M} (ha : Is a 1) (h : Is b 0) : Is (a +. b) 1 := by
  unfold Is
  rw [val_add, ha, h]
  show M.rnd (1 + 0) = _
  rw [add_zero, M.rnd_one]

theorem finite_ofNat {N n : Nat} (hN : ExactTo M N) (h : n ≤ N) :
    Is (Scalar.ofNat n : FP M) n := hN n h

theorem finite_sqrt_three (hN : ExactTo M 5) : Finite (Scalar.sqrt (Scalar.ofNat 3 : FP M)) := by
  have h3 : (Scalar.ofNat 3 : FP M).1 = .fin ((3 : Nat) : ℝ) := hN 3 (by norm_num)
  have hv : (Scalar.sqrt (Scalar.ofNat 3 : FP M)).1 = M.rnd (Real.sqrt ((3 : Nat) : ℝ)) := by
    rw [val_sqrt, h3]
    show (M.round (if ((3 : Nat) : ℝ) < 0 then _ else _)).1 = _
    rw [if_neg (by norm_num)]; rfl
  obtain ⟨r, hr, -⟩ := between_rnd hv (Real.sqrt_nonneg _)
    (c := ((2 : Nat) : ℝ)) (by
      rw [Real.sqrt_le_left (by norm_num)]
      norm_num) (hN 2 (by norm_num))
  exact ⟨r, hr⟩

theorem fp_stationary_peak (hN : ExactTo M 5) {kind : StationaryKind} (k : Stationary kind (FP M))
    {r : FP M} (hr : Is r 0) : k.kernelStationary r = k.variance := by
  have h3 := finite_sqrt_three hN
  have h3' : Finite (Scalar.neg (Scalar.sqrt (Scalar.ofNat 3 : FP M))) := by
    obtain ⟨s, hs⟩ := h3
    exact ⟨-s, by unfold Is; rw [val_neg, hs]; rfl⟩
  cases kind with
  | exponential => exact mul_is_one (exp_zero_is (neg_zero_is hr))
  | matern32 =>
    show k.variance *. _ *. _ = _
    rw [mul_is_one (exp_zero_is (mul_is_zero h3' hr)),
      mul_is_one (one_add_zero val_ofNat_one (mul_is_zero h3 hr))]
  | matern52 =>
    show k.variance *. _ *. _ = _
    rw [mul_is_one (exp_zero_is (mul_is_zero h3' hr)), mul_is_one]
    refine one_add_zero (one_add_zero val_ofNat_one (mul_is_zero h3 hr)) ?_
    have hd : Finite ((Scalar.ofNat 5 : FP M) /. Scalar.ofNat 3) := by
      have e : ((Scalar.ofNat 5 : FP M) /. Scalar.ofNat 3).1 =
          M.rnd (((5 : Nat) : ℝ) / ((3 : Nat) : ℝ)) := by
        rw [val_div, show (Scalar.ofNat 5 : FP M).1 = .fin ((5 : Nat) : ℝ) from hN 5 (by norm_num),
          show (Scalar.ofNat 3 : FP M).1 = .fin ((3 : Nat) : ℝ) from hN 3 (by norm_num)]
        show (M.round (if ((3 : Nat) : ℝ) = 0 then _ else _)).1 = _
        rw [if_neg (by norm_num)]; rfl
      obtain ⟨r, hr, -⟩ := between_rnd e (by positivity) (c := ((2 : Nat) : ℝ)) (by norm_num)
        (hN 2 (by norm_num))
      exact ⟨r, hr⟩
    exact mul_is_zero ⟨0, mul_is_zero hd hr⟩ hr
  | expQuad =>
    have hh : Finite (Scalar.neg (Scalar.sci 5 1 : FP M)) := by
      obtain ⟨h, hh, -⟩ : Between (Scalar.sci 5 1 : FP M) 1 :=
        between_rnd (val_sci 5 1) (by positivity) (by norm_num) M.rnd_one
      exact ⟨-h, by unfold Is; rw [val_neg, hh]; rfl⟩
    exact mul_is_one (exp_zero_is (mul_is_zero ⟨0, mul_is_zero hh hr⟩ hr))
  | cosine =>
    refine mul_is_one ?_
    show (M.round (M.fcos r.1)).1 = _
    rw [hr]
    show M.rnd (M.cos 0) = _
    rw [M.cos_zero, M.rnd_one]

/-- At a finite point every kernel equals its variance exactly. -/
theorem C89_peak (hN : ExactTo M 5) {kind : StationaryKind} (k : Stationary kind (FP M))
    (q : RationalQuadratic (FP M)) (hk : ∀ l ∈ k.lengthscales, Divisor l)
    (hq : ∀ l ∈ q.lengthscales, Divisor l) (hp : Finite q.power) (x : List (FP M))
    (hx : ∀ a ∈ x, Finite a) :
    SliceKernel.kernel k x x = k.variance ∧ SliceKernel.kernel q x x = q.variance := by
  refine ⟨fp_stationary_peak hN k (fp_sliceDistance_self _ hk x hx), ?_⟩
  have hr := fp_sliceDistance_self _ hq x hx
  show q.variance *. Scalar.exp _ = _
  refine mul_is_one (exp_zero_is (mul_is_zero ?_ ?_))
  · obtain ⟨p, hp⟩ := hp
    exact ⟨-p, by unfold Is; rw [val_neg, hp]; rfl⟩
  · have h2 : Divisor (Scalar.ofNat 2 : FP M) := by
      have : (Scalar.ofNat 2 : FP M).1 = .fin ((2 : Nat) : ℝ) := hN 2 (by norm_num)
      refine ⟨by rw [this]; simp, ?_⟩
      rw [this]
      intro h
      injection h with h
      norm_num at h
    have hd := zero_div_divisor h2 (zero_mul_zero hr)
    show (M.round (M.fln1p _)).1 = _
    rw [hd]
    show (M.round (if (0 : ℝ) = -1 then _ else if (0 : ℝ) < -1 then _ else _)).1 = _
    rw [if_neg (by norm_num), if_neg (by norm_num), M.ln1p_zero, round_fin_zero]

/-! ## Bounds -/

theorem sq_nonneg_of {a : FP M} (h : a.1 ≠ .nan) : .fin 0 ≤ (a *. a).1 := by
  rw [val_mul]
  refine round_nonneg ?_
  rcases hv : a.1 with _ | _ | _ | r
  · exact absurd hv h
  · trivial
  · trivial
  · exact mul_self_nonneg r

theorem div_ne_nan {a l : FP M} (ha : a.1 ≠ .nan) (hl : Divisor l) (hf : Finite l) :
    (a /. l).1 ≠ .nan := by
  obtain ⟨c, hc⟩ := hf
  have hc0 : c ≠ 0 := fun e => hl.2 (by rw [hc, e])
  rw [val_div, hc]
  refine round_ne_nan ?_
  rcases hv : a.1 with _ | _ | _ | r
  · exact absurd hv ha
  · simp only [XReal.div, infSign]; split_ifs <;> simp [XReal.neg]
  · simp only [XReal.div, infSign]; split_ifs <;> simp
  · simp only [XReal.div, if_neg hc0]; simp

theorem sub_ne_nan {a b : FP M} (ha : Finite a) (hb : Finite b) : (a -. b).1 ≠ .nan := by
  obtain ⟨r, hr⟩ := ha
  obtain ⟨s, hs⟩ := hb
  rw [val_sub, hr, hs]
  exact round_ne_nan (by simp [XReal.add, XReal.neg])

/-- Between finite points the distance is a number or `+∞`, never NaN. -/
theorem fp_sliceDistance_nonneg (ls : List (FP M)) (hl : ∀ l ∈ ls, Divisor l ∧ Finite l)
    (x y : List (FP M)) (hx : ∀ a ∈ x, Finite a) (hy : ∀ a ∈ y, Finite a) :
    NonNeg (sliceDistance ls x y) := by
  have key : ∀ (x y ls : List (FP M)) (z : FP M), (∀ a ∈ x, Finite a) → (∀ a ∈ y, Finite a) →
      (∀ l ∈ ls, Divisor l ∧ Finite l) → NonNeg z →
      NonNeg ((List.zipWith (fun d l => d /. l) (List.zipWith (fun a b => a -. b) x y) ls).foldl
        (fun acc z => acc +. z *. z) z) := by
    intro x
    induction x with
    | nil => intro y ls z _ _ _ hz; simpa using hz
    | cons a x ih =>
      intro y ls z hx hy hl hz
      cases y with
      | nil => simpa using hz
      | cons b y =>
        cases ls with
        | nil => simpa using hz
        | cons l ls =>
          simp only [List.zipWith_cons_cons, List.foldl_cons]
          refine ih y ls _ (fun b hb => hx b (List.mem_cons_of_mem _ hb))
            (fun b hb => hy b (List.mem_cons_of_mem _ hb))
            (fun b hb => hl b (List.mem_cons_of_mem _ hb)) (val_add_nonneg hz ?_)
          have hl' := hl l (List.mem_cons_self ..)
          exact sq_nonneg_of (div_ne_nan (sub_ne_nan (hx a (List.mem_cons_self ..))
            (hy b (List.mem_cons_self ..))) hl'.1 hl'.2)
  have := key x y ls Scalar.zero hx hy hl (by unfold NonNeg; rw [val_zero]; exact le_refl (0 : ℝ))
  unfold NonNeg at this ⊢
  unfold sliceDistance
  rw [val_sqrt]
  have h0 : XReal.sqrt (.fin 0) = .fin 0 := by
    show (if (0 : ℝ) < 0 then _ else _) = _
    rw [if_neg (lt_irrefl _), Real.sqrt_zero]
  have := round_mono (M := M) (sqrt_le_sqrt' (le_refl (0 : ℝ)) this)
  rwa [h0, round_fin_zero] at this

theorem neg_nonpos {a : FP M} (h : NonNeg a) : NonPos (Scalar.neg a) := by
  have := neg_le_neg h
  unfold NonPos
  rw [val_neg]
  simpa [XReal.neg] using this

theorem exp_bounds {a : FP M} (h : NonPos a) : Between (Scalar.exp a) 1 := by
  unfold NonPos at h
  have : (Scalar.exp a).1 = (M.round (M.fexp a.1)).1 := rfl
  rcases hv : a.1 with _ | _ | _ | r <;> rw [hv] at h this
  · exact absurd h id
  · exact ⟨0, this.trans rnd_zero, le_refl _, zero_le_one⟩
  · exact absurd h id
  · exact between_rnd this (M.exp_nonneg r) (M.exp_le_one h) M.rnd_one

theorem scaled_bounds {v a : FP M} (hv : Finite v) (h0 : NonNeg v) (ha : Between a 1) :
    NonNeg (v *. a) ∧ Le (v *. a) v := by
  obtain ⟨s, hs⟩ := hv
  obtain ⟨r, hr, hr0, hr1⟩ := ha
  unfold NonNeg Le at *
  rw [hs] at h0
  have h0 : 0 ≤ s := h0
  have e : (v *. a).1 = (M.round (.fin (s * r))).1 := by rw [val_mul, hs, hr]; rfl
  rw [e]
  refine ⟨round_nonneg (mul_nonneg h0 hr0 : (0 : ℝ) ≤ s * r), round_le ?_⟩
  rw [hs]
  exact mul_le_of_le_one_right h0 hr1

theorem mul_nonneg_nonpos {a b : FP M} (ha : NonPos a) (hb : NonNeg b) (n : (a *. b).1 ≠ .nan) :
    NonPos (a *. b) := by
  unfold NonPos NonNeg at *
  rw [val_mul] at n ⊢
  refine round_nonpos ?_
  rcases hav : a.1 with _ | _ | _ | r <;> rcases hbv : b.1 with _ | _ | _ | s <;>
    rw [hav, hbv] at n <;> rw [hav] at ha <;> rw [hbv] at hb <;>
    first | exact absurd ha id | exact absurd hb id | skip
  · trivial
  · have hb : 0 ≤ s := hb
    simp only [XReal.mul] at n ⊢
    split_ifs at n ⊢ with h0
    · exact absurd rfl n
    · rw [infSign, if_neg (by
        intro hc
        exact h0 (le_antisymm (by linarith) hb))]
      trivial
  · have ha : r ≤ 0 := ha
    simp only [XReal.mul] at n ⊢
    split_ifs at n ⊢ with h0
    · exact absurd rfl n
    · rw [infSign, if_neg (by
        intro hc
        exact h0 (le_antisymm ha hc))]
      trivial
  · exact mul_nonpos_of_nonpos_of_nonneg (a := r) (b := s) ha hb

/-- A non-zero number times anything but NaN is not NaN. -/
theorem mul_ne_nan {a b : FP M} (ha : a.1 ≠ .nan) (ha0 : a.1 ≠ .fin 0) (hb : b.1 ≠ .nan)
    (hb0 : Finite a ∨ b.1 ≠ .fin 0) : (a *. b).1 ≠ .nan := by
  rw [val_mul]
  refine round_ne_nan ?_
  rcases hav : a.1 with _ | _ | _ | r <;> rcases hbv : b.1 with _ | _ | _ | s <;>
    rw [hav] at ha ha0 <;> rw [hbv] at hb hb0 <;>
    first | exact absurd rfl ha | exact absurd rfl hb | skip
  all_goals simp only [XReal.mul, infSign]
  all_goals first | (intro h; cases h) | skip
  · rcases hb0 with ⟨c, hc⟩ | hb0
    · rw [hc] at hav; cases hav
    · rw [if_neg fun e => hb0 (by rw [e])]
      split_ifs <;> simp
  · rcases hb0 with ⟨c, hc⟩ | hb0
    · rw [hc] at hav; cases hav
    · rw [if_neg fun e => hb0 (by rw [e])]
      split_ifs <;> simp
  · rw [if_neg fun e => ha0 (by rw [e])]
    split_ifs <;> simp
  · rw [if_neg fun e => ha0 (by rw [e])]
    split_ifs <;> simp

/-- The exponential kernel between finite points lies between 0 and its variance, also when the
distance overflows. -/
theorem C89_exponential_bound (k : Stationary .exponential (FP M)) (hv : Finite k.variance)
    (h0 : NonNeg k.variance) (hl : ∀ l ∈ k.lengthscales, Divisor l ∧ Finite l)
    (x y : List (FP M)) (hx : ∀ a ∈ x, Finite a) (hy : ∀ a ∈ y, Finite a) :
    NonNeg (SliceKernel.kernel k x y) ∧ Le (SliceKernel.kernel k x y) k.variance :=
  scaled_bounds hv h0 (exp_bounds (neg_nonpos (fp_sliceDistance_nonneg _ hl x y hx hy)))

/-- The squared-exponential kernel, on machines that represent one half. -/
theorem C89_expQuad_bound (hh : M.rnd (1 / 2) = .fin (1 / 2)) (k : Stationary .expQuad (FP M))
    (hv : Finite k.variance) (h0 : NonNeg k.variance)
    (hl : ∀ l ∈ k.lengthscales, Divisor l ∧ Finite l)
    (x y : List (FP M)) (hx : ∀ a ∈ x, Finite a) (hy : ∀ a ∈ y, Finite a) :
    NonNeg (SliceKernel.kernel k x y) ∧ Le (SliceKernel.kernel k x y) k.variance := by
  refine scaled_bounds hv h0 (exp_bounds ?_)
  have hr := fp_sliceDistance_nonneg _ hl x y hx hy
  have hneg : Is (Scalar.neg (Scalar.sci 5 1 : FP M)) (-(1 / 2)) := by
    unfold Is
    rw [val_neg, val_sci]
    norm_num
    norm_num at hh
    rw [hh]
    rfl
  have hn0 : (Scalar.neg (Scalar.sci 5 1 : FP M)).1 ≠ .fin 0 := by
    rw [hneg]; intro h; injection h with h; norm_num at h
  have hnp : NonPos (Scalar.neg (Scalar.sci 5 1 : FP M)) := by
    unfold NonPos; rw [hneg]; show -(1 / 2 : ℝ) ≤ 0; norm_num
  have hnn : (sliceDistance k.lengthscales x y).1 ≠ .nan := ne_nan_right hr
  have h1n := mul_ne_nan (by rw [hneg]; simp) hn0 hnn (.inl ⟨_, hneg⟩)
  have h1 := mul_nonneg_nonpos hnp hr h1n
  refine mul_nonneg_nonpos h1 hr ?_
  -- the product is NaN only for `0 * ∞`, and a zero first factor forces a finite distance
  rw [val_mul]
  refine round_ne_nan ?_
  rw [val_mul, hneg]
  rcases hd : (sliceDistance k.lengthscales x y).1 with _ | _ | _ | d
  · exact absurd hd hnn
  · rw [NonNeg, hd] at hr; exact absurd hr id
  · simp only [XReal.mul, infSign]
    rw [if_neg (by norm_num), if_neg (by norm_num)]
    simp
  · simp only [XReal.mul]
    show XReal.mul (M.rnd _) _ ≠ _
    rcases hm : M.rnd (-(1 / 2) * d) with _ | _ | _ | m
    · exact absurd hm (M.rnd_ne_nan _)
    · have hdne : d ≠ 0 := by
        rintro rfl
        rw [mul_zero, rnd_zero] at hm
        cases hm
      simp only [XReal.mul, if_neg hdne, infSign]
      split_ifs <;> simp
    · have hdne : d ≠ 0 := by
        rintro rfl
        rw [mul_zero, rnd_zero] at hm
        cases hm
      simp only [XReal.mul, if_neg hdne, infSign]
      split_ifs <;> simp
    · simp [XReal.mul]

/-- The rational quadratic kernel with positive finite power. -/
theorem C89_rational_bound (hN : ExactTo M 2) (q : RationalQuadratic (FP M))
    (hv : Finite q.variance) (h0 : NonNeg q.variance) (p : ℝ) (hp : Is q.power p) (hp0 : 0 < p)
    (hl : ∀ l ∈ q.lengthscales, Divisor l ∧ Finite l)
    (x y : List (FP M)) (hx : ∀ a ∈ x, Finite a) (hy : ∀ a ∈ y, Finite a) :
    NonNeg (SliceKernel.kernel q x y) ∧ Le (SliceKernel.kernel q x y) q.variance := by
  refine scaled_bounds hv h0 (exp_bounds ?_)
  have hr := fp_sliceDistance_nonneg _ hl x y hx hy
  have hsq := sq_nonneg_of (ne_nan_right hr)
  have h2 : (Scalar.ofNat 2 : FP M).1 = .fin ((2 : Nat) : ℝ) := hN 2 (le_refl _)
  have hhalf : NonNeg ((sliceDistance q.lengthscales x y *. sliceDistance q.lengthscales x y) /.
      Scalar.ofNat 2) := by
    unfold NonNeg
    rw [val_div, h2]
    refine round_nonneg ?_
    rcases hs : (sliceDistance q.lengthscales x y *. sliceDistance q.lengthscales x y).1 with
      _ | _ | _ | s <;> rw [hs] at hsq
    · exact absurd hsq id
    · exact absurd hsq id
    · show _ ≤ infSign ((2 : Nat) : ℝ)
      rw [infSign, if_pos (by norm_num)]
      trivial
    · show _ ≤ (if ((2 : Nat) : ℝ) = 0 then _ else _)
      rw [if_neg (by norm_num)]
      have hsq : 0 ≤ s := hsq
      exact div_nonneg (a := s) hsq (by norm_num)
  have hln : NonNeg (Scalar.ln1p ((sliceDistance q.lengthscales x y *.
      sliceDistance q.lengthscales x y) /. Scalar.ofNat 2)) := by
    unfold NonNeg at hhalf ⊢
    show .fin 0 ≤ (M.round (M.fln1p _)).1
    refine round_nonneg ?_
    rcases hs : ((sliceDistance q.lengthscales x y *. sliceDistance q.lengthscales x y) /.
      Scalar.ofNat 2).1 with _ | _ | _ | s <;> rw [hs] at hhalf
    · exact absurd hhalf id
    · exact absurd hhalf id
    · trivial
    · have hhalf : 0 ≤ s := hhalf
      show _ ≤ (if s = -1 then _ else if s < -1 then _ else _)
      rw [if_neg (by linarith), if_neg (by linarith)]
      exact M.ln1p_nonneg hhalf
  have hneg : Is (Scalar.neg q.power) (-p) := by unfold Is; rw [val_neg, hp]; rfl
  refine mul_nonneg_nonpos ?_ hln (mul_ne_nan (by rw [hneg]; simp) ?_ (ne_nan_right hln)
    (.inl ⟨_, hneg⟩))
  · unfold NonPos; rw [hneg]; show -p ≤ 0; linarith
  · rw [hneg]; intro h; injection h with h; linarith

/-! ## Decay -/

/-- A larger distance never gives a larger exponential kernel, if the library's `exp` is monotone. -/
theorem C89_exponential_decay (he : ∀ {s t : ℝ}, s ≤ t → M.exp s ≤ M.exp t)
    (k : Stationary .exponential (FP M)) (hv : Finite k.variance) (h0 : NonNeg k.variance)
    (r r' : FP M) (hr : NonNeg r) (hrr : Le r r') :
    Le (k.kernelStationary r') (k.kernelStationary r) := by
  have hr' : NonNeg r' := le_trans' hr hrr
  obtain ⟨b, hb, hb0, -⟩ := exp_bounds (neg_nonpos hr)
  obtain ⟨b', hb', hb0', -⟩ := exp_bounds (neg_nonpos hr')
  have hle : b' ≤ b := by
    have : XReal.fin b' ≤ .fin b := by
      rw [← hb, ← hb']
      refine round_mono ?_
      have hneg := neg_le_neg hrr
      rw [← val_neg, ← val_neg] at hneg
      revert hneg
      have := neg_nonpos hr
      unfold NonPos at this
      revert this
      rcases (Scalar.neg r).1 with _ | _ | _ | s <;> rcases (Scalar.neg r').1 with _ | _ | _ | t <;>
        intro h1 h2 <;> first | exact absurd h1 id | exact absurd h2 id | skip
      · exact le_refl (0 : ℝ)
      · exact M.exp_nonneg s
      · exact he h2
    exact this
  obtain ⟨v, hv⟩ := hv
  unfold NonNeg at h0
  rw [hv] at h0
  have h0 : 0 ≤ v := h0
  show (k.variance *. Scalar.exp (Scalar.neg r')).1 ≤ (k.variance *. Scalar.exp (Scalar.neg r)).1
  rw [val_mul, val_mul, hv, hb, hb']
  exact round_mono (mul_le_mul_of_nonneg_left hle h0 : v * b' ≤ v * b)

/-- The hypotheses on machines are met by `f64`. -/
example : ExactTo binary64 5 ∧ binary64.rnd (1 / 2) = .fin (1 / 2) := by
  refine ⟨fun k hk => C88_binary64 rfl k (hk.trans (by norm_num)), ?_⟩
  have h := binary64Format.rnd_exact (m := 1) (e := -1) (by decide) (by decide) (by
    rw [Int.cast_one, one_mul, abs_of_pos (Format.two_zpow_pos _)]
    exact zpow_lt_zpow_right₀ (by norm_num) (by decide))
  have e : ((1 : ℤ) : ℝ) * 2 ^ (-1 : ℤ) = 1 / 2 := by norm_num
  rw [e] at h
  exact h

/-- The hypotheses on kernels: variance 1 and lengthscale 1. -/
example : Finite (Scalar.one : FP M) ∧ NonNeg (Scalar.one : FP M) ∧ Divisor (Scalar.one : FP M) := by
  refine ⟨⟨1, val_one⟩, ?_, ?_, ?_⟩
  · unfold NonNeg; rw [val_one]; exact zero_le_one' ℝ
  · rw [val_one]; simp
  · rw [val_one]; intro h; injection h with h; norm_num at h

end Lfa

import Verif.Proofs.RoundErr
import Verif.Props.C92
import Verif.Props.C72_C79
import Verif.Spec.Sequence
import Mathlib.Data.List.GetD

/-!
# C105: learning one cell of a table in `f64`

A projection with a single activation 1 (uniform grids, one-hot codings), trained by SGD towards a fixed
target in double precision.
-/

set_option linter.unusedSectionVars false

namespace Lfa

open Spec Machine XReal

/-! ## One weight, as reals -/

/-- The new weight. -/
noncomputable def cellStep (l q p : ℝ) : ℝ :=
  binary64Format.nearest (p + binary64Format.nearest (l * binary64Format.nearest (q + -p)))

theorem cellStep_neg (l q p : ℝ) : cellStep l (-q) (-p) = -cellStep l q p := by
  unfold cellStep
  rw [show -q + - -p = -(q + -p) by ring, Format.nearest_neg, mul_neg, Format.nearest_neg, ← neg_add,
    Format.nearest_neg]

theorem nearest_neg_rep {p : ℝ} (h : binary64Format.nearest p = p) :
    binary64Format.nearest (-p) = -p := by rw [Format.nearest_neg, h]

theorem cell_increment {l q p : ℝ} (hq : binary64Format.nearest q = q)
    (hp : binary64Format.nearest p = p) (l0 : 0 ≤ l) (l1 : l ≤ 1 - 2 ^ (-51 : ℤ)) (h : p ≤ q) :
    0 ≤ binary64Format.nearest (l * binary64Format.nearest (q + -p)) ∧
    binary64Format.nearest (l * binary64Format.nearest (q + -p)) ≤ q - p := by
  have hd : 0 ≤ q + -p := by linarith
  have he0 := binary64Format.nearest_nonneg hd
  refine ⟨binary64Format.nearest_nonneg (mul_nonneg l0 he0), ?_⟩
  have hu : roundoff = 2 ^ (-53 : ℤ) := rfl
  have hl1 : l ≤ 1 - 4 * roundoff := by
    rw [hu]
    refine l1.trans (le_of_eq ?_)
    norm_num
  have hle : l * binary64Format.nearest (q + -p) ≤ binary64Format.nearest (q + -p) := by
    have h1 : l ≤ 1 := by linarith [roundoff_pos]
    have := mul_le_mul_of_nonneg_right h1 he0
    linarith
  rcases lt_or_ge (q + -p) (2 ^ (-1021 : ℤ)) with hs | hs
  · -- the difference is exact
    have he : binary64Format.nearest (q + -p) = q + -p := by
      obtain ⟨m, hm⟩ := binary64Format.multiple hq
      obtain ⟨k, hk⟩ := binary64Format.multiple hp
      have e : q + -p = ((m - k : ℤ) : ℝ) * 2 ^ binary64Format.emin := by
        rw [hm, hk]; push_cast; ring
      rw [e]
      refine binary64Format.nearest_exact ?_ le_rfl
      have h0 := Format.two_zpow_pos binary64Format.emin
      have hmk : ((m - k : ℤ) : ℝ) < ((2 ^ 53 : ℤ) : ℝ) := by
        rw [e] at hs
        refine lt_of_mul_lt_mul_right (lt_of_lt_of_eq hs ?_) h0.le
        have : binary64Format.emin = -1074 := rfl
        rw [this, Format.zpow_nat, ← zpow_add₀ (by norm_num)]
        norm_num
      have hmk0 : (0 : ℝ) ≤ ((m - k : ℤ) : ℝ) := by
        rw [e] at hd
        exact nonneg_of_mul_nonneg_left hd h0
      rw [abs_of_nonneg (by exact_mod_cast hmk0)]
      exact (by exact_mod_cast hmk : m - k < 2 ^ 53).le
    have := binary64Format.nearest_mono hle
    rw [binary64Format.nearest_idem] at this
    rw [he] at this ⊢
    linarith
  · have h1 := binary64Format.nearest_add_rel hq (nearest_neg_rep hp)
    have h2 := binary64Format.nearest_rel (l * binary64Format.nearest (q + -p))
    have r1 : (2 : ℝ) ^ (-(binary64Format.p : ℤ)) = roundoff := rfl
    have r2 : (2 : ℝ) ^ (binary64Format.emin - 1) = tiny := rfl
    rw [r1] at h1 h2
    rw [r2] at h2
    rw [abs_of_nonneg hd] at h1
    rw [abs_of_nonneg (mul_nonneg l0 he0)] at h2
    have h1 := (abs_le.1 h1).2
    have h2 := (abs_le.1 h2).2
    have ht : tiny ≤ roundoff * (q + -p) := by
      refine le_trans ?_ (mul_le_mul_of_nonneg_left hs roundoff_pos.le)
      unfold tiny
      rw [hu, ← zpow_add₀ (by norm_num)]
      exact zpow_le_zpow_right₀ (by norm_num) (by norm_num)
    have hu1 : roundoff ≤ 1 / 1000 := by rw [hu]; norm_num
    have hu0 := roundoff_pos
    generalize binary64Format.nearest (l * binary64Format.nearest (q + -p)) = d at *
    generalize binary64Format.nearest (q + -p) = e at *
    generalize roundoff = u at *
    generalize tiny = t at *
    clear hs l1 hu
    have h3 : l * e ≤ (1 - 4 * u) * ((1 + u) * (q + -p)) :=
      mul_le_mul hl1 (by linarith) he0 (by linarith)
    have h4 : d ≤ (1 - 4 * u) * ((1 + u) * (q + -p)) * (1 + u) + u * (q + -p) := by
      have := mul_le_mul_of_nonneg_right h3 (by linarith : (0 : ℝ) ≤ 1 + u)
      linarith
    have h5 : (1 - 4 * u) * ((1 + u) * (q + -p)) * (1 + u) + u * (q + -p)
        = (q + -p) - (u + 7 * u ^ 2 + 4 * u ^ 3) * (q + -p) := by ring
    have h6 : 0 ≤ (u + 7 * u ^ 2 + 4 * u ^ 3) * (q + -p) := by positivity
    linarith

/-- The weight moves towards the target and does not pass it. -/
theorem cellStep_up {l q p : ℝ} (hq : binary64Format.nearest q = q)
    (hp : binary64Format.nearest p = p) (l0 : 0 ≤ l) (l1 : l ≤ 1 - 2 ^ (-51 : ℤ)) (h : p ≤ q) :
    p ≤ cellStep l q p ∧ cellStep l q p ≤ q := by
  obtain ⟨h1, h2⟩ := cell_increment hq hp l0 l1 h
  have a := binary64Format.nearest_mono (by linarith :
    p ≤ p + binary64Format.nearest (l * binary64Format.nearest (q + -p)))
  have b := binary64Format.nearest_mono (by linarith :
    p + binary64Format.nearest (l * binary64Format.nearest (q + -p)) ≤ q)
  rw [hp] at a
  rw [hq] at b
  exact ⟨a, b⟩

theorem cellStep_down {l q p : ℝ} (hq : binary64Format.nearest q = q)
    (hp : binary64Format.nearest p = p) (l0 : 0 ≤ l) (l1 : l ≤ 1 - 2 ^ (-51 : ℤ)) (h : q ≤ p) :
    q ≤ cellStep l q p ∧ cellStep l q p ≤ p := by
  have := cellStep_up (nearest_neg_rep hq) (nearest_neg_rep hp) l0 l1 (neg_le_neg h)
  rw [cellStep_neg] at this
  exact ⟨neg_le_neg_iff.1 this.2, neg_le_neg_iff.1 this.1⟩

/-- Where the weight stops moving. -/
theorem cellStep_stall {l q p : ℝ} (hq : binary64Format.nearest q = q)
    (hp : binary64Format.nearest p = p) (l0 : 0 ≤ l) (h : cellStep l q p = p) :
    l * |q - p| ≤ 2 * roundoff * |p| + 2 * tiny := by
  have h1 := binary64Format.nearest_add_rel hq (nearest_neg_rep hp)
  have h2 := binary64Format.nearest_rel (l * binary64Format.nearest (q + -p))
  have h3 := binary64Format.nearest_add_rel hp
    (binary64Format.nearest_idem (l * binary64Format.nearest (q + -p)))
  change |cellStep l q p - _| ≤ _ at h3
  rw [h] at h3
  have r1 : (2 : ℝ) ^ (-(binary64Format.p : ℤ)) = roundoff := rfl
  have r2 : (2 : ℝ) ^ (binary64Format.emin - 1) = tiny := rfl
  rw [r1] at h1 h2 h3
  rw [r2] at h2
  have hu1 : roundoff ≤ 1 / 1000 := by unfold roundoff; norm_num
  have hu0 := roundoff_pos
  have ht0 := tiny_pos
  generalize binary64Format.nearest (l * binary64Format.nearest (q + -p)) = d at *
  generalize binary64Format.nearest (q + -p) = e at *
  generalize roundoff = u at *
  generalize tiny = t at *
  -- the increment is within half a unit of the weight
  have hd : |d| ≤ u * (|p| + |d|) := by
    have e1 : |p - (p + d)| = |d| := by rw [sub_add_cancel_left, abs_neg]
    rw [e1] at h3
    exact h3.trans (mul_le_mul_of_nonneg_left (abs_add_le _ _) hu0.le)
  have hz : |q + -p| * (1 - u) ≤ |e| := by
    have := abs_sub_abs_le_abs_sub (q + -p) e
    rw [abs_sub_comm] at this
    linarith
  have hle : |l * e| * (1 - u) ≤ |d| + t := by
    have := abs_sub_abs_le_abs_sub (l * e) d
    rw [abs_sub_comm] at this
    linarith
  rw [abs_mul, abs_of_nonneg l0] at hle
  rw [show q - p = q + -p by ring]
  have h4 : l * |q + -p| * (1 - u) ≤ l * |e| := by
    have := mul_le_mul_of_nonneg_left hz l0
    linarith
  have h5 : l * |q + -p| * (1 - u) * (1 - u) ≤ |d| + t :=
    (mul_le_mul_of_nonneg_right h4 (by linarith)).trans hle
  have h6 : |d| * (1 - u) ≤ u * |p| := by linarith
  have hx : 0 ≤ l * |q + -p| := by positivity
  have h7 : l * |q + -p| * (1 - u) * (1 - u) * (1 - u) ≤ u * |p| + t := by
    have := mul_le_mul_of_nonneg_right h5 (by linarith : (0 : ℝ) ≤ 1 - u)
    have h8 : t * (1 - u) ≤ t := by nlinarith
    linarith
  have h9 : 1 / 2 ≤ (1 - u) * (1 - u) * (1 - u) := by
    have a1 : (9 / 10 : ℝ) ≤ 1 - u := by linarith
    have a2 : (9 / 10 : ℝ) * (9 / 10) ≤ (1 - u) * (1 - u) := by nlinarith
    nlinarith
  have h10 := mul_le_mul_of_nonneg_left h9 hx
  linarith

/-- Between the weight and the target no overflow can happen. -/
theorem nearest_abs_le {r : ℝ} {k : ℤ} (hk : binary64Format.emin ≤ k) (h : |r| ≤ 2 ^ k) :
    |binary64Format.nearest r| ≤ 2 ^ k := by
  have e : binary64Format.nearest (2 ^ k) = 2 ^ k := by
    have := binary64Format.nearest_exact (m := 1) (e := k) (by norm_num [binary64Format]) hk
    simpa using this
  rw [abs_le] at h ⊢
  have h1 := binary64Format.nearest_mono h.1
  have h2 := binary64Format.nearest_mono h.2
  rw [Format.nearest_neg, e] at h1
  rw [e] at h2
  exact ⟨h1, h2⟩

theorem rnd_of_le {r : ℝ} {k : ℤ} (hk : binary64Format.emin ≤ k) (hk' : k < binary64Format.emax)
    (h : |r| ≤ 2 ^ k) : binary64Format.rnd r = .fin (binary64Format.nearest r) :=
  binary64Format.rnd_of_lt ((nearest_abs_le hk h).trans_lt
    (zpow_lt_zpow_right₀ (by norm_num) hk'))

variable {M : Machine}

theorem fp_rep (hM : M.rnd = binary64Format.rnd) {a : FP M} {r : ℝ} (h : Is a r) :
    binary64Format.nearest r = r := by
  have := a.rep r h
  rw [hM] at this
  exact binary64Format.nearest_eq_of_rnd this

/-- The machine computes `cellStep`. -/
theorem cell_value (hM : M.rnd = binary64Format.rnd) {lr y w : FP M} {l q p : ℝ} (hl : Is lr l)
    (hy : Is y q) (hw : Is w p) (l0 : 0 ≤ l) (l1 : l ≤ 1 - 2 ^ (-51 : ℤ)) (bq : |q| ≤ 2 ^ (1000 : ℤ))
    (bp : |p| ≤ 2 ^ (1000 : ℤ)) :
    Is (w +. lr *. (y -. w) *. Scalar.one) (cellStep l q p) := by
  have hd : |q + -p| ≤ 2 ^ (1001 : ℤ) := by
    have := abs_add_le q (-p)
    rw [abs_neg] at this
    have e : (2 : ℝ) ^ (1001 : ℤ) = 2 ^ (1000 : ℤ) + 2 ^ (1000 : ℤ) := by
      rw [show (1001 : ℤ) = 1000 + 1 by norm_num, zpow_add₀ (by norm_num), zpow_one]; ring
    rw [e]
    exact this.trans (add_le_add bq bp)
  have e1 : Is (y -. w) (binary64Format.nearest (q + -p)) := by
    show (y -. w).1 = _
    rw [val_sub, hy, hw]
    show M.rnd (q + -p) = _
    rw [hM]
    exact rnd_of_le (k := 1001) (by norm_num [binary64Format]) (by norm_num [binary64Format]) hd
  have hd2 := nearest_abs_le (k := 1001) (by norm_num [binary64Format]) hd
  have hd3 : |l * binary64Format.nearest (q + -p)| ≤ 2 ^ (1001 : ℤ) := by
    rw [abs_mul, abs_of_nonneg l0]
    have h1 : l ≤ 1 := l1.trans (by linarith [Format.two_zpow_pos (-51)])
    have := mul_le_mul h1 hd2 (abs_nonneg _) zero_le_one
    rwa [one_mul] at this
  have e2 : Is (lr *. (y -. w)) (binary64Format.nearest (l * binary64Format.nearest (q + -p))) := by
    show (lr *. (y -. w)).1 = _
    rw [val_mul, hl, e1]
    show M.rnd _ = _
    rw [hM]
    exact rnd_of_le (k := 1001) (by norm_num [binary64Format]) (by norm_num [binary64Format]) hd3
  have hd4 := nearest_abs_le (k := 1001) (by norm_num [binary64Format]) hd3
  rw [mul_one_scalar]
  show (w +. lr *. (y -. w)).1 = _
  rw [val_add, hw, e2]
  show M.rnd _ = _
  rw [hM]
  refine rnd_of_le (k := 1002) (by norm_num [binary64Format]) (by norm_num [binary64Format]) ?_
  refine (abs_add_le _ _).trans ?_
  have e : (2 : ℝ) ^ (1002 : ℤ) = 2 ^ (1001 : ℤ) + 2 ^ (1001 : ℤ) := by
    rw [show (1002 : ℤ) = 1001 + 1 by norm_num, zpow_add₀ (by norm_num), zpow_one]; ring
  have e' : (2 : ℝ) ^ (1000 : ℤ) ≤ 2 ^ (1001 : ℤ) := zpow_le_zpow_right₀ (by norm_num) (by norm_num)
  rw [e]
  exact add_le_add (bp.trans e') hd4

/-! ## The approximator -/

section
variable {B I : Type} [Space B] [Basis B I (FP M)]

theorem onehot_dot {n k : Nat} (hk : k < n) {w : List (FP M)} (hw : w.length = n) :
    Features.dot (.sparse ⟨n, [(k, (Scalar.one : FP M))]⟩) w = .ok (entry w k) := by
  show Features.dotSparse _ w = _
  rw [dotSparse_ok (by simpa [hw] using hk)]
  show Except.ok (Scalar.zero +. entry w k *. Scalar.one) = _
  rw [mul_one_scalar]
  congr 1
  apply fp_ext
  rw [val_add, val_zero]
  conv_rhs => rw [← round_self (entry w k)]
  congr 2
  cases (entry w k).1 <;> simp [XReal.add]

theorem onehot_fits (n k : Nat) (hk : k < n) :
    Fits n (.sparse ⟨n, [(k, (Scalar.one : FP M))]⟩) := by
  refine ⟨⟨by simp, fun e he => ?_⟩, rfl⟩
  rw [List.mem_singleton.1 he]
  exact hk

/-- One training call on a cell. -/
theorem cell_update (hM : M.rnd = binary64Format.rnd) (b : B) (x : I) (n k : Nat) (hk : k < n)
    (hp : Basis.project b x = .ok (.ok (.sparse ⟨n, [(k, (Scalar.one : FP M))]⟩)))
    {w : List (FP M)} (hw : w.length = n) {lr y : FP M} {l q p : ℝ} (hl : Is lr l)
    (hy : Is y q) (hv : Is (entry w k) p) (l0 : 0 ≤ l) (l1 : l ≤ 1 - 2 ^ (-51 : ℤ))
    (bq : |q| ≤ 2 ^ (1000 : ℤ)) (bp : |p| ≤ 2 ^ (1000 : ℤ)) :
    ScalarLFA.evaluate (LFA.mk b w (SGD.mk lr)) x = .ok (.ok (entry w k)) ∧ ∃ w', w'.length = n ∧
      ScalarLFA.updateWith (LFA.mk b w (SGD.mk lr)) x (fun _ v => y -. v)
        = .ok (.ok (), LFA.mk b w' (SGD.mk lr)) ∧
      Is (entry w' k) (cellStep l q p) ∧ ∀ i, i ≠ k → entry w' i = entry w i := by
  have hd := onehot_dot hk hw
  refine ⟨evaluate_eq (fa := LFA.mk b w (SGD.mk lr)) hp hd, ?_⟩
  obtain ⟨w', h1, h2, h3⟩ := sgd_scaled (onehot_fits n k hk) (SGD.mk lr) (y -. entry w k) hw
  refine ⟨w', h2, updateWith_eq (fa := LFA.mk b w (SGD.mk lr)) hp hd _ h1, ?_, fun i hi => ?_⟩
  · rw [(h3 k hk).1 Scalar.one (List.mem_singleton.2 rfl)]
    exact cell_value hM hl hy hv l0 l1 bq bp
  · by_cases hin : i < n
    · refine (h3 i hin).2 ?_
      rintro ⟨a, ha⟩
      have := List.mem_singleton.1 ha
      injection this with this
      exact hi this
    · have hn := hw.trans h2.symm
      unfold entry
      simp [List.getElem?_eq_none (show w'.length ≤ i by omega),
        List.getElem?_eq_none (show w.length ≤ i by omega)]

/-- A non-increasing sequence of natural numbers is eventually constant. -/
theorem eventually_constant (g : Nat → Nat) (h : ∀ m, g (m + 1) ≤ g m) :
    ∃ m₀, ∀ m ≥ m₀, g m = g m₀ := by
  have anti : Antitone g := antitone_nat_of_succ_le h
  obtain ⟨m₀, hm₀⟩ : ∃ m₀, ∀ m, g m₀ ≤ g m := by
    obtain ⟨_, ⟨m₀, rfl⟩, hmin⟩ := WellFounded.has_min (r := (· < ·)) wellFounded_lt (Set.range g)
      ⟨g 0, 0, rfl⟩
    exact ⟨m₀, fun m => not_lt.1 (hmin _ ⟨m, rfl⟩)⟩
  exact ⟨m₀, fun m hm => le_antisymm (anti hm) (hm₀ m)⟩

/-- A cell trained towards the target `y` in double precision with `0 ≤ lr ≤ 1 - 2⁻⁵¹`. The prediction
moves monotonically towards the target and never passes it; after finitely many calls the approximator
no longer changes at all; the remaining error is a few units in the last place divided by the learning
rate; no other weight ever changes. -/
theorem C105_cell (hM : M.rnd = binary64Format.rnd) (b : B) (x : I) (n k : Nat) (hk : k < n)
    (hp : Basis.project b x = .ok (.ok (.sparse ⟨n, [(k, (Scalar.one : FP M))]⟩)))
    (w : List (FP M)) (hw : w.length = n) (lr y : FP M) (l q p : ℝ) (hl : Is lr l)
    (hy : Is y q) (hv : Is (entry w k) p) (l0 : 0 ≤ l) (l1 : l ≤ 1 - 2 ^ (-51 : ℤ))
    (bq : |q| ≤ 2 ^ (1000 : ℤ)) (bp : |p| ≤ 2 ^ (1000 : ℤ)) :
    ∃ (fas : Nat → ScalarLFA B (SGD (FP M)) (FP M)) (vs : Nat → FP M),
      fas 0 = LFA.mk b w (SGD.mk lr) ∧ Stream fas (fun _ => x) (fun _ => y) vs ∧
      (∀ m, Finite (vs m)) ∧
      (p ≤ q → ∀ m, Le (vs m) (vs (m + 1)) ∧ Le (vs m) y) ∧
      (q ≤ p → ∀ m, Le (vs (m + 1)) (vs m) ∧ Le y (vs m)) ∧
      (∀ m i, i ≠ k → entry (fas m).weights i = entry w i) ∧
      ∃ m₀, (∀ m ≥ m₀, fas m = fas m₀) ∧
        l * |q - real (vs m₀)| ≤ 2 * roundoff * |real (vs m₀)| + 2 * tiny := by
  have hq := fp_rep hM hy
  -- the reals
  let t : Nat → ℝ := fun m => m.rec p fun _ r => cellStep l q r
  have ht : ∀ m, t (m + 1) = cellStep l q (t m) := fun _ => rfl
  have trep : ∀ m, binary64Format.nearest (t m) = t m := by
    intro m
    cases m with
    | zero => exact fp_rep hM hv
    | succ m => exact binary64Format.nearest_idem _
  have tup : p ≤ q → ∀ m, t m ≤ t (m + 1) ∧ t m ≤ q ∧ p ≤ t m := by
    intro h m
    have hb : t m ≤ q ∧ p ≤ t m := by
      induction m with
      | zero => exact ⟨h, le_refl p⟩
      | succ m ih =>
        have := cellStep_up hq (trep m) l0 l1 ih.1
        exact ⟨this.2, ih.2.trans this.1⟩
    exact ⟨(cellStep_up hq (trep m) l0 l1 hb.1).1, hb⟩
  have tdown : q ≤ p → ∀ m, t (m + 1) ≤ t m ∧ q ≤ t m ∧ t m ≤ p := by
    intro h m
    have hb : q ≤ t m ∧ t m ≤ p := by
      induction m with
      | zero => exact ⟨h, le_refl p⟩
      | succ m ih =>
        have := cellStep_down hq (trep m) l0 l1 ih.1
        exact ⟨this.1, this.2.trans ih.2⟩
    exact ⟨(cellStep_down hq (trep m) l0 l1 hb.1).2, hb⟩
  have tb : ∀ m, |t m| ≤ 2 ^ (1000 : ℤ) := by
    intro m
    rw [abs_le] at bq bp ⊢
    rcases le_total p q with h | h
    · obtain ⟨-, a, b⟩ := tup h m
      exact ⟨bp.1.trans b, a.trans bq.2⟩
    · obtain ⟨-, a, b⟩ := tdown h m
      exact ⟨bq.1.trans a, b.trans bp.2⟩
  -- the weights
  have next : ∀ (u : {u : List (FP M) // u.length = n}), ∃ u' : {u : List (FP M) // u.length = n},
      ∀ r, Is (entry u.1 k) r → |r| ≤ 2 ^ (1000 : ℤ) →
      ScalarLFA.updateWith (LFA.mk b u.1 (SGD.mk lr)) x (fun _ v => y -. v)
        = .ok (.ok (), LFA.mk b u'.1 (SGD.mk lr)) ∧
      Is (entry u'.1 k) (cellStep l q r) ∧ ∀ i, i ≠ k → entry u'.1 i = entry u.1 i := by
    rintro ⟨u, hu⟩
    by_cases h : ∃ r, Is (entry u k) r ∧ |r| ≤ 2 ^ (1000 : ℤ)
    · obtain ⟨r, hr, hb⟩ := h
      obtain ⟨-, u', h1, h2, h3, h4⟩ := cell_update hM b x n k hk hp hu hl hy hr l0 l1 bq hb
      exact ⟨⟨u', h1⟩, fun r' hr' _ => by rw [is_fun hr' hr]; exact ⟨h2, h3, h4⟩⟩
    · exact ⟨⟨u, hu⟩, fun r hr hb => absurd ⟨r, hr, hb⟩ h⟩
  choose f hf using next
  let us : Nat → {u : List (FP M) // u.length = n} := fun m => m.rec ⟨w, hw⟩ fun _ u => f u
  have hus : ∀ m, us (m + 1) = f (us m) := fun _ => rfl
  have hval : ∀ m, Is (entry (us m).1 k) (t m) := by
    intro m
    induction m with
    | zero => exact hv
    | succ m ih => exact (hf (us m) _ ih (tb m)).2.1
  let fas : Nat → ScalarLFA B (SGD (FP M)) (FP M) := fun m => LFA.mk b (us m).1 (SGD.mk lr)
  have hoth : ∀ m i, i ≠ k → entry (us m).1 i = entry w i := by
    intro m i hi
    induction m with
    | zero => rfl
    | succ m ih => exact ((hf (us m) _ (hval m) (tb m)).2.2 i hi).trans ih
  have hle : ∀ {a c : FP M} {r s : ℝ}, Is a r → Is c s → r ≤ s → Le a c := by
    intro a c r s ha hc h
    show a.1 ≤ c.1
    rw [ha, hc]
    exact h
  refine ⟨fas, fun m => entry (us m).1 k, rfl, ⟨fun m => ?_, fun m => ?_⟩, fun m => ⟨_, hval m⟩,
    fun h m => ⟨hle (hval m) (hval (m + 1)) (tup h m).1, hle (hval m) hy (tup h m).2.1⟩,
    fun h m => ⟨hle (hval (m + 1)) (hval m) (tdown h m).1, hle hy (hval m) (tdown h m).2.1⟩,
    hoth, ?_⟩
  · exact (cell_update hM b x n k hk hp (us m).2 hl hy (hval m) l0 l1 bq (tb m)).1
  · exact (hf (us m) _ (hval m) (tb m)).1
  · -- eventually constant
    have hconst : ∃ m₀, ∀ m ≥ m₀, t m = t m₀ := by
      obtain ⟨c, hc⟩ := binary64Format.multiple hq
      have hm : ∀ m, ∃ z : ℤ, t m = z * 2 ^ binary64Format.emin := fun m =>
        binary64Format.multiple (trep m)
      choose z hz using hm
      have h0 := Format.two_zpow_pos binary64Format.emin
      have cmp : ∀ a b : ℤ, (a : ℝ) * 2 ^ binary64Format.emin ≤ b * 2 ^ binary64Format.emin → a ≤ b := by
        intro a b h
        exact_mod_cast le_of_mul_le_mul_right h h0
      rcases le_total p q with h | h
      · have h1 : ∀ m, z m ≤ z (m + 1) ∧ z m ≤ c := fun m =>
          ⟨cmp _ _ (by rw [← hz, ← hz]; exact (tup h m).1),
            cmp _ _ (by rw [← hz, ← hc]; exact (tup h m).2.1)⟩
        obtain ⟨m₀, h2⟩ := eventually_constant (fun m => (c - z m).toNat) fun m => by
          have := h1 m; have := h1 (m + 1); omega
        refine ⟨m₀, fun m hm => ?_⟩
        have := h2 m hm
        have a := h1 m; have b := h1 m₀
        rw [hz, hz, show z m = z m₀ by omega]
      · have h1 : ∀ m, z (m + 1) ≤ z m ∧ c ≤ z m := fun m =>
          ⟨cmp _ _ (by rw [← hz, ← hz]; exact (tdown h m).1),
            cmp _ _ (by rw [← hz, ← hc]; exact (tdown h m).2.1)⟩
        obtain ⟨m₀, h2⟩ := eventually_constant (fun m => (z m - c).toNat) fun m => by
          have := h1 m; have := h1 (m + 1); omega
        refine ⟨m₀, fun m hm => ?_⟩
        have := h2 m hm
        have a := h1 m; have b := h1 m₀
        rw [hz, hz, show z m = z m₀ by omega]
    obtain ⟨m₀, hm₀⟩ := hconst
    refine ⟨m₀, fun m hm => ?_, ?_⟩
    · have : (us m).1 = (us m₀).1 := by
        refine list_entries_eq (us m₀).2 (us m).2 fun i hi => ?_
        by_cases hik : i = k
        · subst hik
          apply fp_ext
          have := hval m
          rw [hm₀ m hm] at this
          exact this.trans (hval m₀).symm
        · rw [hoth m i hik, hoth m₀ i hik]
      show LFA.mk b (us m).1 _ = LFA.mk b (us m₀).1 _
      rw [this]
    · rw [is_real (hval m₀)]
      exact cellStep_stall hq (trep m₀) l0 ((ht m₀).symm.trans (hm₀ (m₀ + 1) (Nat.le_succ _)))

end

/-- In particular every cell of a uniform grid is learnt in this way. -/
theorem C105_grid (hM : M.rnd = binary64Format.rnd) (ds : List (Equipartition (FP M)))
    (h : ∀ d ∈ ds, d.Lawful) (hds : ds ≠ []) (x : List (FP M)) (hx : x ≠ []) (w : List (FP M))
    (hw : w.length = (ds.map Equipartition.nPartitions).prod) (hf : ∀ v ∈ w, ∃ r, Is v r ∧ |r| ≤ 2 ^ (1000 : ℤ))
    (lr y : FP M) (l q : ℝ) (hl : Is lr l) (l0 : 0 ≤ l) (l1 : l ≤ 1 - 2 ^ (-51 : ℤ)) (hy : Is y q)
    (bq : |q| ≤ 2 ^ (1000 : ℤ)) :
    ∃ (fas : Nat → ScalarLFA (UniformGrid (FP M)) (SGD (FP M)) (FP M)) (vs : Nat → FP M),
      fas 0 = LFA.mk (UniformGrid.new ds) w (SGD.mk lr) ∧
      Stream fas (fun _ => x) (fun _ => y) vs ∧
      (∀ m, Finite (vs m)) ∧
      ((∀ m, Le (vs m) (vs (m + 1)) ∧ Le (vs m) y) ∨ ∀ m, Le (vs (m + 1)) (vs m) ∧ Le y (vs m)) ∧
      ∃ m₀, (∀ m ≥ m₀, fas m = fas m₀) ∧
        l * |q - real (vs m₀)| ≤ 2 * roundoff * |real (vs m₀)| + 2 * tiny := by
  obtain ⟨k, hk, hp, -⟩ := C33_one_active ds h hds x hx
  obtain ⟨p, hv, bp⟩ := hf (entry w k) (by
    unfold entry
    rw [List.getD_eq_getElem _ _ (hw.symm ▸ hk)]
    exact List.getElem_mem _)
  obtain ⟨fas, vs, h0, h1, h2, h3, h4, -, h5⟩ := C105_cell hM (UniformGrid.new ds) x _ k hk hp w hw lr y
    l q p hl hy hv l0 l1 bq bp
  exact ⟨fas, vs, h0, h1, h2, (le_total p q).imp h3 h4, h5⟩

/-- With `lr = 1` the prediction can pass the target: from `-2⁵⁴` towards 3 it lands on 4. -/
theorem C105_overshoot : cellStep 1 3 (-2 ^ 54) = 4 := by
  have e1 : (3 : ℝ) + - -2 ^ 54 = 2 ^ 54 + 3 := by ring
  have hlog : Int.log 2 |((2 : ℝ) ^ 54 + 3)| = 54 := by
    have hpos : (0 : ℝ) < 2 ^ 54 + 3 := by positivity
    rw [abs_of_pos hpos]
    have l1 := (Int.zpow_le_iff_le_log (R := ℝ) (b := 2) (x := 54) (by norm_num) hpos).1 (by norm_num)
    have l2 := (Int.lt_zpow_iff_log_lt (R := ℝ) (b := 2) (x := 55) (by norm_num) hpos).1 (by norm_num)
    omega
  have h1 : binary64Format.nearest ((2 : ℝ) ^ 54 + 3) = 2 ^ 54 + 4 := by
    have hu : binary64Format.ulp ((2 : ℝ) ^ 54 + 3) = 2 := by
      unfold Format.ulp
      rw [hlog]
      rfl
    unfold Format.nearest
    rw [hu]
    have hq : ((2 : ℝ) ^ 54 + 3) / 2 ^ (2 : ℤ) = ((2 ^ 52 : ℤ) : ℝ) + 3 / 4 := by norm_num
    have hr : rne (((2 : ℝ) ^ 54 + 3) / 2 ^ (2 : ℤ)) = 2 ^ 52 + 1 := by
      rw [hq]
      unfold rne
      rw [Int.fract_intCast_add, Int.floor_intCast_add]
      norm_num
    rw [hr]
    norm_num
  have h2 : binary64Format.nearest ((2 : ℝ) ^ 54 + 4) = 2 ^ 54 + 4 := by
    rw [← h1, Format.nearest_idem]
  have h3 : binary64Format.nearest (4 : ℝ) = 4 := by
    have := binary64Format.nearest_exact (m := 1) (e := 2) (by norm_num [binary64Format])
      (by norm_num [binary64Format])
    norm_num at this
    exact this
  unfold cellStep
  rw [e1, h1, one_mul, h2, show -(2 : ℝ) ^ 54 + (2 ^ 54 + 4) = 4 by ring, h3]

/-- Some learning rates: 1/2 and 0. -/
example : (1 / 2 : ℝ) ≤ 1 - 2 ^ (-51 : ℤ) ∧ (0 : ℝ) ≤ 1 - 2 ^ (-51 : ℤ) := by norm_num

end Lfa

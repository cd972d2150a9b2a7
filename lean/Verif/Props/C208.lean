import Verif.Props.C187
import Verif.Props.C176
import Verif.Props.C72_C79

/-!
# C208: learning the values of the states of a chain in a table, in f64

The one-action case of C187, with a scalar approximator: train `x` towards `reward(x) + discount(x) * evaluate(next(x))`.
-/

set_option linter.unusedSectionVars false

namespace Lfa

open Spec Spec.Environment Machine Filter Topology

namespace Spec
variable {K B O I : Type} [Scalar K] [Space B] [Basis B I K] [Optimiser O K]

/-- A chain: from each input one reward, one discount and one next input. -/
structure Chain (X K : Type) where
  reward : X → K
  discount : X → K
  next : X → X

/-- One call: `let p' = fa.evaluate(next(x))?; fa.update_with(x, |_, p| reward(x) + discount(x) * p' - p)?` turns `fa` into `fa'`. -/
def Chain.Learns (c : Chain I K) (fa : ScalarLFA B O K) (x : I) (fa' : ScalarLFA B O K) : Prop :=
  ∃ p', fa.evaluate (c.next x) = .ok (.ok p') ∧
    fa.updateWith x (fun _ p => c.reward x +. c.discount x *. p' -. p) = .ok (.ok (), fa')

/-- The discounted sum of the rewards from `x` on, as real numbers, is `G`. -/
def Chain.Sum {X : Type} {M : Machine} (c : Chain X (FP M)) (x : X) (G : ℝ) : Prop :=
  HasSum (fun k => (∏ j ∈ Finset.range k, real (c.discount (c.next^[j] x))) * real (c.reward (c.next^[k] x))) G

/-- The chain as an environment in which actions make no difference. -/
def Chain.env {X : Type} (c : Chain X K) : Environment X K := ⟨fun x _ => c.reward x, fun x _ => c.discount x, fun x _ => c.next x⟩

/-- The chain stays among the inputs `X` and treats inputs of the same cell alike. -/
structure Chain.Respects (c : Chain I K) (b : B) (X : I → Prop) : Prop where
  closed : ∀ x, X x → X (c.next x)
  reward : ∀ x y, X x → X y → SameProjection (K := K) b x y → c.reward x = c.reward y
  discount : ∀ x y, X x → X y → SameProjection (K := K) b x y → c.discount x = c.discount y
  next : ∀ x y, X x → X y → SameProjection (K := K) b x y → SameProjection (K := K) b (c.next x) (c.next y)

end Spec

section
variable {K B O I : Type} [Scalar K] [Space B] [Basis B I K] [Optimiser O K]

/-- `update_with` is `evaluate` and then `update`. -/
theorem updateWith_split {fa fa' : ScalarLFA B O K} {x : I} {f : K → K} (h : fa.updateWith x (fun _ p => f p) = .ok (.ok (), fa')) :
    ∃ p, fa.evaluate x = .ok (.ok p) ∧ fa.update x (f p) = .ok (.ok (), fa') := by
  unfold ScalarLFA.updateWith at h
  unfold ScalarLFA.evaluate ScalarLFA.update
  cases hp : Basis.project (K := K) fa.basis x with
  | error e => rw [hp] at h; cases h
  | ok r =>
    rw [hp] at h
    cases r with
    | error e => cases h
    | ok φ =>
      change (φ.dot fa.weights >>= _) = _ at h
      cases hd : φ.dot fa.weights with
      | error e => rw [hd] at h; cases h
      | ok v =>
        rw [hd] at h
        refine ⟨v, ?_, h⟩
        show (φ.dot fa.weights >>= fun v => Except.ok (Except.ok v)) = _
        rw [hd]
        rfl

theorem chain_learns {c : Chain I K} {fa fa' : ScalarLFA B O K} {x : I} (hlt : ∀ a : K, Scalar.lt a a = false)
    (h : c.Learns fa x fa') : Spec.Learns c.env (oneOutput fa) x 0 (oneOutput fa') := by
  obtain ⟨p', h1, h2⟩ := h
  obtain ⟨p, h3, h4⟩ := updateWith_split (f := fun p => c.reward x +. c.discount x *. p' -. p) h2
  refine ⟨[p'], p', p, ?_, by simp, fun q hq => ?_, ?_, ?_⟩
  · rw [(C76_evaluate fa _).1]
    show (fa.evaluate (c.next x)).map _ = _
    rw [h1]; rfl
  · rw [List.mem_singleton.1 hq]; exact hlt _
  · rw [(C76_evaluate fa _).2]; exact h3
  · rw [(C76_update fa x _ (fun _ p => p)).2.1]
    show (fa.update x (c.reward x +. c.discount x *. p' -. p)).map _ = _
    rw [h4]; rfl

/-- Runs exist in any arithmetic. -/
theorem C208_runs [HasSize O] [Safe (K := K) O] (b : B) (n : Nat) (X : I → Prop) (c : Chain I K) (hb : IsTable (K := K) b n X)
    (hc : c.Respects b X) (xs : Nat → I) (hxs : ∀ t, X (xs t)) (w : List K) (hw : w.length = n) (o : O) (ho : HasSize.sized n o) :
    ∃ fas : Nat → ScalarLFA B O K, fas 0 = LFA.mk b w o ∧ ∀ t, c.Learns (fas t) (xs t) (fas (t + 1)) := by
  let Good : ScalarLFA B O K → Prop := fun fa => fa.basis = b ∧ fa.weights.length = n ∧ HasSize.sized n fa.optimiser
  have fit : ∀ x, X x → ∃ φ : Features K, Basis.project b x = .ok (.ok φ) ∧ Fits n φ := fun x hx => by
    obtain ⟨k, hk, hp⟩ := hb x hx
    refine ⟨_, hp, ⟨⟨List.nodup_singleton _, fun j hj => ?_⟩, rfl⟩⟩
    rw [List.mem_singleton.1 hj]
    exact hk
  have step : ∀ (t : Nat) (fa : {fa : ScalarLFA B O K // Good fa}), ∃ fa' : {fa : ScalarLFA B O K // Good fa},
      c.Learns fa.1 (xs t) fa'.1 := by
    rintro t ⟨fa, rfl, h2, h3⟩
    obtain ⟨φ, hp, hf⟩ := fit _ (hxs t)
    obtain ⟨ψ, hp', hf'⟩ := fit _ (hc.closed _ (hxs t))
    obtain ⟨v, hd⟩ := dot_exists hf h2
    obtain ⟨v', hd'⟩ := dot_exists hf' h2
    obtain ⟨o', w', e1, e2, e3⟩ := Safe.scaled (o := fa.optimiser) (c.reward (xs t) +. c.discount (xs t) *. v' -. v) h3 h2 hf
    exact ⟨⟨⟨fa.basis, w', o'⟩, rfl, e3, e2⟩, v', evaluate_eq hp' hd',
      updateWith_eq hp hd (fun _ v => c.reward (xs t) +. c.discount (xs t) *. v' -. v) e1⟩
  choose next hn using step
  let run : Nat → {fa : ScalarLFA B O K // Good fa} := fun k => Nat.rec ⟨⟨b, w, o⟩, rfl, hw, ho⟩ (fun k fa => next k fa) k
  exact ⟨fun k => (run k).1, rfl, fun k => hn k (run k)⟩

end

section
variable {M : Machine} {B I : Type} [Space B] [Basis B I (FP M)]

theorem chain_respects {c : Chain I (FP M)} {b : B} {X : I → Prop} (h : c.Respects b X) : Spec.Respects c.env b 1 X :=
  ⟨fun x _ hx _ => h.closed x hx, fun x y _ hx hy hs _ => h.reward x y hx hy hs, fun x y _ hx hy hs _ => h.discount x y hx hy hs,
    fun x y _ hx hy hs _ => h.next x y hx hy hs⟩

theorem chain_visits (c : Chain I (FP M)) (x : I) (acts : Nat → Nat) (k : Nat) : (mapEnv real c.env).visits x acts k = c.next^[k] x := by
  induction k with
  | zero => rfl
  | succ k ih =>
    rw [Function.iterate_succ_apply', ← ih]
    rfl

theorem chain_sum {c : Chain I (FP M)} {x : I} {q : ℝ} (h : Best (mapEnv real c.env) 1 x 0 q) : c.Sum x q := by
  obtain ⟨⟨acts, -, -, hs⟩, -⟩ := h
  unfold Collects at hs
  simp only [chain_visits] at hs
  exact hs

theorem fp_lt_self (a : FP M) : Scalar.lt a a = false := by
  show XReal.lt a.1 a.1 = false
  cases a.1 <;> simp [XReal.lt]

/-- **C208.** SGD. -/
theorem C208_sgd (hM : M.rnd = binary64Format.rnd) (b : B) (n : Nat) (X : I → Prop) (c : Chain I (FP M))
    (lr : FP M) (l γ V C : ℝ) (hlr : Is lr l) (hl0 : 0 < l) (hl1 : l ≤ 1)
    (hb : IsTable (K := FP M) b n X) (hc : c.Respects b X)
    (hγ : ∀ x, X x → Spec.Finite (c.discount x) ∧ 0 ≤ real (c.discount x) ∧ real (c.discount x) ≤ γ) (hγ1 : γ < 1)
    (hr : ∀ x, X x → Spec.Finite (c.reward x) ∧ |real (c.reward x)| ≤ (1 - γ) * V)
    (hu : 32 * roundoff ≤ l * (1 - γ)) (hC : 32 * roundoff * V + 16 * tiny ≤ l * (1 - γ) * C)
    (hVC : V + C ≤ 2 ^ 1000) (xs : Nat → I) (hxs : ∀ t, X (xs t)) (w : List (FP M)) (hw : w.length = n)
    (hw1 : ∀ a ∈ w, Spec.Finite a ∧ |real a| + V ≤ C) (fas : Nat → ScalarLFA B (SGD (FP M)) (FP M))
    (h0 : fas 0 = LFA.mk b w (SGD.mk lr)) (hs : ∀ t, c.Learns (fas t) (xs t) (fas (t + 1))) (x : I) (hx : X x) :
    ∃ (p : Nat → FP M) (G : ℝ), (∀ t, (fas t).evaluate x = .ok (.ok (p t))) ∧ c.Sum x G ∧ |G| ≤ V ∧
      (∀ t, Spec.Finite (p t) ∧ |real (p t) - G| ≤ C) ∧
      ((∀ t m, ∃ j, m ≤ j ∧ SameProjection (K := FP M) b (xs j) (c.next (xs t))) →
        (∀ m, ∃ j, m ≤ j ∧ SameProjection (K := FP M) b (xs j) x) →
        ∀ ε > 0, ∃ m, ∀ t, m ≤ t → |real (p t) - G| ≤ (32 * roundoff * V + 16 * tiny) / (l * (1 - γ)) + ε) := by
  obtain ⟨p, q, h1, h2, h3, h4, h5⟩ := (C187_sgd hM b n 1 X c.env lr l γ V C one_pos hlr hl0 hl1 hb (chain_respects hc)
    (fun x _ hx _ => hγ x hx) hγ1 (fun x _ hx _ => hr x hx) hu hC hVC xs (fun _ => 0) hxs (fun _ => one_pos) [w] rfl
    (fun col hcol => by rw [List.mem_singleton.1 hcol]; exact hw)
    (fun col hcol => by rw [List.mem_singleton.1 hcol]; exact hw1)
    (fun t => oneOutput (fas t)) (by rw [h0]; rfl) (fun t => chain_learns fp_lt_self (hs t))).1 x 0 hx one_pos
  refine ⟨p, q, fun t => ?_, chain_sum h2, h3, h4, fun g1 g2 => h5 ?_ ?_⟩
  · rw [← (C76_evaluate (fas t) x).2]
    exact h1 t
  · intro k a ha m
    obtain ⟨j, e1, e2⟩ := g1 k m
    exact ⟨j, e1, e2, by omega⟩
  · intro m
    obtain ⟨j, e1, e2⟩ := g2 m
    exact ⟨j, e1, e2, rfl⟩

/-- **C208.** ISGD. -/
theorem C208_isgd (hM : M.rnd = binary64Format.rnd) (b : B) (n : Nat) (X : I → Prop) (c : Chain I (FP M))
    (lr : FP M) (l γ V C : ℝ) (hlr : Is lr l) (hl0 : 0 < l) (hl1 : l ≤ 2 ^ 40)
    (hb : IsTable (K := FP M) b n X) (hc : c.Respects b X)
    (hγ : ∀ x, X x → Spec.Finite (c.discount x) ∧ 0 ≤ real (c.discount x) ∧ real (c.discount x) ≤ γ) (hγ1 : γ < 1)
    (hr : ∀ x, X x → Spec.Finite (c.reward x) ∧ |real (c.reward x)| ≤ (1 - γ) * V)
    (hu : 64 * roundoff ≤ l / (1 + l) * (1 - γ)) (hC : 64 * roundoff * V + 32 * tiny ≤ l / (1 + l) * (1 - γ) * C)
    (hVC : V + C ≤ 2 ^ 1000) (xs : Nat → I) (hxs : ∀ t, X (xs t)) (w : List (FP M)) (hw : w.length = n)
    (hw1 : ∀ a ∈ w, Spec.Finite a ∧ |real a| + V ≤ C) (fas : Nat → ScalarLFA B (ISGD (FP M)) (FP M))
    (h0 : fas 0 = LFA.mk b w (ISGD.mk lr)) (hs : ∀ t, c.Learns (fas t) (xs t) (fas (t + 1))) (x : I) (hx : X x) :
    ∃ (p : Nat → FP M) (G : ℝ), (∀ t, (fas t).evaluate x = .ok (.ok (p t))) ∧ c.Sum x G ∧ |G| ≤ V ∧
      (∀ t, Spec.Finite (p t) ∧ |real (p t) - G| ≤ C) ∧
      ((∀ t m, ∃ j, m ≤ j ∧ SameProjection (K := FP M) b (xs j) (c.next (xs t))) →
        (∀ m, ∃ j, m ≤ j ∧ SameProjection (K := FP M) b (xs j) x) →
        ∀ ε > 0, ∃ m, ∀ t, m ≤ t → |real (p t) - G| ≤ (64 * roundoff * V + 32 * tiny) / (l / (1 + l) * (1 - γ)) + ε) := by
  obtain ⟨p, q, h1, h2, h3, h4, h5⟩ := (C187_isgd hM b n 1 X c.env lr l γ V C one_pos hlr hl0 hl1 hb (chain_respects hc)
    (fun x _ hx _ => hγ x hx) hγ1 (fun x _ hx _ => hr x hx) hu hC hVC xs (fun _ => 0) hxs (fun _ => one_pos) [w] rfl
    (fun col hcol => by rw [List.mem_singleton.1 hcol]; exact hw)
    (fun col hcol => by rw [List.mem_singleton.1 hcol]; exact hw1)
    (fun t => oneOutput (fas t)) (by rw [h0]; rfl) (fun t => chain_learns fp_lt_self (hs t))).1 x 0 hx one_pos
  refine ⟨p, q, fun t => ?_, chain_sum h2, h3, h4, fun g1 g2 => h5 ?_ ?_⟩
  · rw [← (C76_evaluate (fas t) x).2]
    exact h1 t
  · intro k a ha m
    obtain ⟨j, e1, e2⟩ := g1 k m
    exact ⟨j, e1, e2, by omega⟩
  · intro m
    obtain ⟨j, e1, e2⟩ := g2 m
    exact ⟨j, e1, e2, rfl⟩

end

/-- The chain that goes to `1` from everywhere, with reward one and discount one half. -/
noncomputable def Spec.settling : Chain (List (FP binary64)) (FP binary64) :=
  ⟨fun _ => Scalar.one, fun _ => Scalar.sci 5 1, fun _ => [Scalar.one]⟩

/-- The hypotheses are met: a grid with two cells, the cells visited in turn, rate one half, weights zero. The run exists and the
prediction at `0` comes within `2^-44` of 2. -/
theorem C208_example :
    let b := UniformGrid.new [cutAtOne]
    let z : FP binary64 := Scalar.zero
    ∃ fas : Nat → ScalarLFA (UniformGrid (FP binary64)) (SGD (FP binary64)) (FP binary64),
      fas 0 = LFA.mk b [z, z] (SGD.mk (Scalar.sci 5 1)) ∧
      (∀ t, settling.Learns (fas t) (if t % 2 = 0 then [z] else [Scalar.one]) (fas (t + 1))) ∧
      ∃ p : Nat → FP binary64, (∀ t, (fas t).evaluate [z] = .ok (.ok (p t))) ∧ (∀ t, Spec.Finite (p t)) ∧
        ∃ m, ∀ t, m ≤ t → |real (p t) - 2| ≤ 2 ^ (-44 : ℤ) := by
  intro b z
  have hM : binary64.rnd = binary64Format.rnd := rfl
  have hb : IsTable (K := FP binary64) b 2 (fun x : List (FP binary64) => x.length = 1) :=
    C186_grid [cutAtOne] (by
      intro d hd
      rw [List.mem_singleton.1 hd]
      exact cutAtOne_lawful) (by simp)
  have hc : settling.Respects b (fun x : List (FP binary64) => x.length = 1) :=
    ⟨fun _ _ => rfl, fun _ _ _ _ _ => rfl, fun _ _ _ _ _ => rfl, fun _ _ _ _ _ => rfl⟩
  have hhalf : Is (Scalar.sci 5 1 : FP binary64) (1 / 2) := is_half hM
  have hone : Is (Scalar.one : FP binary64) 1 := val_one
  let xs : Nat → List (FP binary64) := fun t => if t % 2 = 0 then [z] else [Scalar.one]
  have hxs : ∀ t, (xs t).length = 1 := by
    intro t
    show (if t % 2 = 0 then [z] else [Scalar.one]).length = 1
    split_ifs <;> rfl
  have hγ : ∀ x : List (FP binary64), x.length = 1 → Spec.Finite (settling.discount x) ∧
      0 ≤ real (settling.discount x) ∧ real (settling.discount x) ≤ 1 / 2 := by
    intro x _
    show Spec.Finite (Scalar.sci 5 1 : FP binary64) ∧ 0 ≤ real (Scalar.sci 5 1 : FP binary64) ∧
      real (Scalar.sci 5 1 : FP binary64) ≤ 1 / 2
    rw [is_real hhalf]
    exact ⟨⟨_, hhalf⟩, by norm_num, le_rfl⟩
  have hr : ∀ x : List (FP binary64), x.length = 1 → Spec.Finite (settling.reward x) ∧
      |real (settling.reward x)| ≤ (1 - 1 / 2) * (2 : ℝ) := by
    intro x _
    refine ⟨⟨1, hone⟩, ?_⟩
    show |real (Scalar.one : FP binary64)| ≤ _
    rw [is_real hone]
    norm_num
  have u1 : roundoff = 2 ^ (-53 : ℤ) := rfl
  have t1 : tiny ≤ 2 ^ (-100 : ℤ) := by
    rw [tiny]
    exact zpow_le_zpow_right₀ (by norm_num) (by norm_num)
  have t0 := tiny_pos
  have hu : 32 * roundoff ≤ 1 / 2 * (1 - 1 / 2) := by
    rw [u1]
    norm_num
  have hC : 32 * roundoff * 2 + 16 * tiny ≤ 1 / 2 * (1 - 1 / 2) * 4 := by
    rw [u1]
    norm_num at t1 ⊢
    linarith
  have hVC : (2 : ℝ) + 4 ≤ 2 ^ 1000 := by
    have : (2 : ℝ) ^ 3 ≤ 2 ^ 1000 := pow_le_pow_right₀ (by norm_num) (by norm_num)
    have e : (2 : ℝ) ^ 3 = 8 := by norm_num
    rw [e] at this
    exact le_trans (by norm_num) this
  have hw : ∀ a ∈ [z, z], Spec.Finite a ∧ |real a| + 2 ≤ 4 := by
    intro a ha
    have : a = z := by simpa using ha
    rw [this]
    refine ⟨⟨0, val_zero⟩, ?_⟩
    rw [show real z = 0 from is_real val_zero]
    norm_num
  obtain ⟨fas, h0, hs⟩ := C208_runs (O := SGD (FP binary64)) b 2 _ settling hb hc xs hxs [z, z] rfl ⟨Scalar.sci 5 1⟩ trivial
  refine ⟨fas, h0, hs, ?_⟩
  obtain ⟨p, G, hp, hG, -, hfin, ht⟩ := C208_sgd hM b 2 _ settling (Scalar.sci 5 1) (1 / 2) (1 / 2) 2 4 hhalf
    (by norm_num) (by norm_num) hb hc hγ (by norm_num) hr hu hC hVC xs hxs [z, z] rfl hw fas h0 hs [z] rfl
  have hG2 : G = 2 := by
    have e : (fun k => (∏ j ∈ Finset.range k, real (settling.discount (settling.next^[j] [z]))) *
        real (settling.reward (settling.next^[k] [z]))) = fun k => (1 / 2 : ℝ) ^ k := by
      funext k
      show (∏ _j ∈ Finset.range k, real (Scalar.sci 5 1 : FP binary64)) * real (Scalar.one : FP binary64) = _
      rw [Finset.prod_const, Finset.card_range, is_real hhalf, is_real hone, mul_one]
    unfold Chain.Sum at hG
    rw [e] at hG
    exact hG.unique hasSum_geometric_two
  obtain ⟨m, hm⟩ := ht (fun t m => ⟨2 * m + 1, by omega, by
      have : xs (2 * m + 1) = [Scalar.one] := if_neg (by omega)
      rw [this]
      rfl⟩) (fun m => ⟨2 * m, by omega, by
      have : xs (2 * m) = [z] := if_pos (by omega)
      rw [this]
      rfl⟩) (2 ^ (-46 : ℤ)) (by positivity)
  refine ⟨p, hp, fun t => (hfin t).1, m, fun t hmt => ?_⟩
  have := hm t hmt
  rw [hG2] at this
  refine this.trans ?_
  rw [u1]
  norm_num at t1 ⊢
  linarith

end Lfa

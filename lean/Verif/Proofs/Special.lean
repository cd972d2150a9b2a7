import Verif.Spec.Special
import Mathlib.Tactic.SplitIfs

/-! # Lemmas about NaN and infinities -/

namespace Lfa

open Spec

theorem NotFinite.add {x y : XReal} (h : NotFinite x ∨ NotFinite y) : NotFinite (XReal.add x y) := by
  intro r
  cases x with
  | fin a =>
    cases y with
    | fin b => rcases h with h | h <;> exact absurd rfl (h _)
    | _ => intro hc; cases hc
  | _ => cases y <;> (intro hc; cases hc)

theorem infSign_notFinite (a : ℝ) : NotFinite (XReal.infSign a) := by
  intro r
  unfold XReal.infSign
  split_ifs <;> simp

theorem NotFinite.mul {a : ℝ} {y : XReal} (h : NotFinite y) : NotFinite (XReal.mul (.fin a) y) := by
  cases y with
  | fin b => exact absurd rfl (h b)
  | nan => intro r hc; cases hc
  | pinf =>
    show NotFinite (if a = 0 then .nan else XReal.infSign a)
    split_ifs
    · intro r hc; cases hc
    · exact infSign_notFinite _
  | ninf =>
    show NotFinite (if a = 0 then .nan else XReal.infSign (-a))
    split_ifs
    · intro r hc; cases hc
    · exact infSign_notFinite _

theorem NotFinite.cos {y : XReal} (h : NotFinite y) : XReal.cos y = .nan := by
  cases y with
  | fin r => exact absurd rfl (h r)
  | _ => rfl

end Lfa

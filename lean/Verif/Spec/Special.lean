import Verif.Model.Scalar

/-! # Specification vocabulary for special values -/

namespace Lfa.Spec

/-- Not a finite number: NaN or an infinity. -/
def NotFinite (x : XReal) : Prop := ∀ r, x ≠ .fin r

end Lfa.Spec

import Verif.Model.Serde

/-!
# Specification of saving and restoring
-/

namespace Lfa.Spec

variable {K : Type}

/-- `Reform t t'`: a format may turn the saved `t` into `t'`. Structs may lose their field names or have their
fields reordered, at every depth. -/
inductive Reform : Tree K → Tree K → Prop where
  | refl (t : Tree K) : Reform t t
  | seq (ts ts' : List (Tree K)) (hl : ts'.length = ts.length)
      (h : ∀ p ∈ ts.zip ts', Reform p.1 p.2) : Reform (.seq ts) (.seq ts')
  | unnamed (fs : List (String × Tree K)) (ts' : List (Tree K)) (hl : ts'.length = fs.length)
      (h : ∀ p ∈ (fs.map Prod.snd).zip ts', Reform p.1 p.2) : Reform (.fields fs) (.seq ts')
  | named (fs : List (String × Tree K)) (ts' : List (Tree K)) (hl : ts'.length = fs.length)
      (h : ∀ p ∈ (fs.map Prod.snd).zip ts', Reform p.1 p.2) (gs : List (String × Tree K))
      (hg : gs.Perm ((fs.map Prod.fst).zip ts')) : Reform (.fields fs) (.fields gs)
  | variant (name : String) (t t' : Tree K) (h : Reform t t') : Reform (.variant name t) (.variant name t')

/-- Every value that satisfies `I` is restored, whatever the format. -/
def Restores {T : Type} (c : Codec K T) (I : T → Prop) : Prop :=
  ∀ x t, I x → Reform (c.ser x) t → c.de t = .ok (.ok x)

end Lfa.Spec

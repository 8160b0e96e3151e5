import Verif.Model.Io
import Verif.Model.Strands

/-! # The same linking numbers -/

namespace Plc

open Plc.Cmp

/-- `pd_linking_number` of two different components is what it is of the components of the other diagram with these tags. -/
def SameLinks (pd pd' : Io.Pd) : Prop :=
  ∀ (i j i' j' : Nat) (A B A' B' : Comp), pd.comp[i]? = some A → pd.comp[j]? = some B → pd'.comp[i']? = some A' →
    pd'.comp[j']? = some B' → A.tag = A'.tag → B.tag = B'.tag → A.tag ≠ B.tag →
    Strands.linkingNumber pd'.cross pd'.edge pd'.comp i' j' = Strands.linkingNumber pd.cross pd.edge pd.comp i j

/-- All crossings have a sign. -/
def Signed (pd : Io.Pd) : Prop := ∀ x ∈ pd.cross, x.sign ≠ .unset

end Plc

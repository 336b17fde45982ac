import Verif.Model.LabelGroup
import Verif.Model.Encoder

/-!
# What label groups visit

The pairs that `LabelGroup::visit_values` passes to the visitor, in order.
-/

namespace Measured
variable {V : Type}

/-- `NoLabels`. core/src/label/group.rs:58-62 -/
def noLabelsVisit (_ : Unit) : Labels := []

/-- `ComposedGroup`. core/src/label/group.rs:120-125 -/
def composedVisit {G H : Type} (a : G → Labels) (b : H → Labels) (g : G × H) : Labels := a g.1 ++ b g.2

/-- `derive(LabelGroup)` with `LabelValue::visit` of the fields' values. The generated constants make structs with equal
label names fail to compile (names that are equal in `SHOUTY_SNAKE_CASE` already do).
derive/src/label_group/to_tokens.rs:20-29 -/
def derivedLabels (d : GroupDef V) (lv : V → LVal) (g : d.Group) : Labels :=
  (derivedVisit d g).map fun p => (p.1, lv p.2)

end Measured

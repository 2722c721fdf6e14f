import Verif.Model.Fields

/-! Mirror images of fields, for the theorems about stacks turned upside down. -/

namespace Fmmax.Spec

/-- The field components after the reflection `z → -z`, with a common sign: a polar vector `E` keeps its tangential components
and changes the sign of its normal component, an axial vector `H` does the opposite; here both are multiplied with -1. -/
def mirrored {α : Type} [Neg α] (F : Fields α) : Fields α where
  ex := -F.ex
  ey := -F.ey
  ez := F.ez
  hx := F.hx
  hy := F.hy
  hz := -F.hz

end Fmmax.Spec

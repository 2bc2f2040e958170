/-
Specification helper: texts written out in the property theorems.
-/
import Verif.Base
set_option autoImplicit false

namespace Parfu.Props
open Parfu

/-- The bytes of an ASCII text. -/
def asc (s : String) : Bytes := s.toList.map fun c => c.toNat.toUInt8

end Parfu.Props

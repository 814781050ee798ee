import Verif.Config.Model
import Verif.Json.OpsSpec

/-!
# What configurations should do
-/

namespace Verif.Config

open Verif.Json (Value lookup SortedKeys)

/-- The file as last read after one more call. -/
def nextFile (v : Value) : Op → Value
  | .update p => p.getD .null
  | _ => v

/-- The file as last read: null before the first update and after a file that could not be parsed. -/
def lastFile (ops : List Op) : Value := ops.foldl nextFile .null

/-- The section of a file with the given identifier; null if there is none. -/
def sectionOf (id : List Nat) : Value → Value
  | .obj m => (Verif.Json.valueAt id m).getD .null
  | _ => .null

/-- The file can be parsed as an object, or not at all. -/
def KeyValueFile : Op → Prop
  | .update none => True
  | .update (some (.obj m)) => SortedKeys m
  | .update (some .null) => True
  | .update _ => False
  | _ => True

/-- All objects parsed have their members in the order of `std::map` (every value of type `fly::Json` has, see
`Value.WF`). -/
def WellFormedFile : Op → Prop
  | .update (some (.obj m)) => SortedKeys m
  | _ => True

/-- The number of configuration objects someone holds. -/
def liveCount (s : Manager) : Nat := s.objs.countP (·.live)

end Verif.Config

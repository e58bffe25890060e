import Verif.SpecIo

/-!
# Specification: which oracle calls a run needs
-/

namespace Scuttle.Spec

/-- Number of messages that report a point, a solution, a candidate or an oracle call. -/
def numOf (k : Limited) (log : List LogEvent) : Nat := log.countP k.event

/-- Number of times that lower-bounding has started to harvest. -/
def harvests (log : List LogEvent) : Nat := log.countP fun
  | .routineStart x => x == "harvest"
  | _ => false

/-- Number of times that lower-bounding has moved its fence. -/
def fenceMoves (log : List LogEvent) : Nat := log.countP fun
  | .fence _ => true
  | _ => false

end Scuttle.Spec

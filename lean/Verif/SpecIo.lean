import Verif.SpecRun

/-!
# Specification of limits, interrupts, statistics and the log
-/

namespace Scuttle.Spec

open Scuttle

/-- What can be limited. -/
inductive Limited where
  | points
  | solutions
  | candidates
  | oracleCalls
  deriving DecidableEq, Repr

/-- The limit for it. -/
def Limited.limit : Limited → Limits → Option Nat
  | .points => Limits.pps
  | .solutions => Limits.sols
  | .candidates => Limits.candidates
  | .oracleCalls => Limits.oracleCalls

/-- How many have been counted. -/
def Limited.count : Limited → Stats → Nat
  | .points => Stats.nNonDominated
  | .solutions => Stats.nSolutions
  | .candidates => Stats.nCandidates
  | .oracleCalls => Stats.nOracleCalls

/-- The reason that is returned when the limit is reached. -/
def Limited.reason : Limited → Termination
  | .points => .ppLimit
  | .solutions => .solsLimit
  | .candidates => .candidatesLimit
  | .oracleCalls => .oracleCallsLimit

/-- Messages that report one of them. -/
def Limited.event : Limited → LogEvent → Bool
  | .points, .nonDominated _ => true
  | .solutions, .solution => true
  | .candidates, .candidate .. => true
  | .oracleCalls, .oracleCall _ => true
  | _, _ => false

/-- The interrupt flag stays set (nothing in the code clears it). -/
def Sticky (flag : Nat → Bool) : Prop := ∀ t t', t ≤ t' → flag t = true → flag t' = true

/-- Messages in which each start of a routine is followed by its end. -/
inductive Balanced : List LogEvent → Prop
  | nil : Balanced []
  | other (e : LogEvent) (h1 : ∀ x, e ≠ .routineStart x) (h2 : e ≠ .routineEnd) : Balanced [e]
  | wrap {es : List LogEvent} (x : String) (h : Balanced es) : Balanced (.routineStart x :: es ++ [.routineEnd])
  | append {es fs : List LogEvent} (h1 : Balanced es) (h2 : Balanced fs) : Balanced (es ++ fs)

/-- Messages with a given number of routines that have not ended, and no end without a start. -/
inductive Opened : Nat → List LogEvent → Prop
  | zero {es : List LogEvent} (h : Balanced es) : Opened 0 es
  | succ {d : Nat} {es fs : List LogEvent} (x : String) (h1 : Opened d es) (h2 : Balanced fs) :
      Opened (d + 1) (es ++ .routineStart x :: fs)

/-- The last messages of a call that reached a limit: the message that reports the last one, followed only by what belongs to
it, which is the end of the routine after a point and the point after a solution. -/
def EndsWith (k : Limited) (es : List LogEvent) : Prop :=
  ∃ es' x, k.event x = true ∧
    match k with
    | .points => es = es' ++ [x] ∨ es = es' ++ [x, .routineEnd]
    | .solutions => ∃ y, Limited.points.event y = true ∧ es = es' ++ [x, y]
    | _ => es = es' ++ [x]

/-- The candidates in the log, with the phase in which each was found. -/
def candidates (log : List LogEvent) : List (List Nat × Phase) :=
  log.filterMap fun
    | .candidate c ph => some (c, ph)
    | _ => none

/-- One internal cost vector is at least as good as the other in each objective and better in one. -/
def Improves (c b : List Nat) : Prop := List.Forall₂ (· ≤ ·) c b ∧ c ≠ b

/-- Each candidate of a minimization improves on the candidate before it; in particular, there is one before it. -/
structure MinimizationImproves (log : List LogEvent) : Prop where
  first : ∀ c, (candidates log)[0]? ≠ some (c, .minimization)
  next : ∀ i c, (candidates log)[i + 1]? = some (c, .minimization) →
    ∃ b ph, (candidates log)[i]? = some (b, ph) ∧ Improves c b

/-- External value of an internal cost: the offset is added, and the internal cost of an unweighted objective counts
literals. -/
def externalCost : Objective → Nat → Int
  | .weighted off .., c => c + off
  | .unweighted off w .., c => (c * w : Nat) + off
  | .constant off .., _ => off

/-- Each point that is reported has the costs of the last candidate before it. -/
def ReportsLast (objs : List Objective) (log : List LogEvent) : Prop :=
  ∀ pre p post, log = pre ++ .nonDominated p :: post →
    ∃ c ph, (candidates pre).getLast? = some (c, ph) ∧ p.costs = List.zipWith externalCost objs c

/-- The fences in the log. -/
def fences (log : List LogEvent) : List (List Nat) :=
  log.filterMap fun
    | .fence b => some b
    | _ => none

/-- One update of the fence: no bound decreases and at least one increases. -/
def Raises (b b' : List Nat) : Prop := List.Forall₂ (· ≤ ·) b b' ∧ b ≠ b'

/-- No bound is raised beyond the next value of the objective: whatever value above the old bound some assignment, feasible
or not, attains, the new bound is not above it. -/
def NoSkip (objs : List Objective) (b b' : List Nat) : Prop :=
  ∀ (i : Nat) (o : Objective) (x x' : Nat), objs[i]? = some o → b[i]? = some x → b'[i]? = some x' →
    ∀ t, externalCost o x < objValue o t → externalCost o x' ≤ objValue o t

/-- After an oracle call without solution in the main loop, in which one routine is open, the call ends or the fence is
updated. -/
def UnsatRaises (es : List LogEvent) : Prop :=
  ∀ a b, es = a ++ .oracleCall .unsat :: b → Opened 1 a →
    b = [] ∨ b = [.routineEnd] ∨ ∃ x b', b = .fence x :: b'

end Scuttle.Spec

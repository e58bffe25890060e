import Verif.SpecIo
import Verif.SpecPrepro
import Verif.Model.Cli

/-!
# Specification of the command line program
-/

namespace Scuttle.Spec

open Scuttle

/-! ## Options -/

/-- The number given on the command line for a limit. -/
def Limited.arg : Limited → LimitArgs → Nat
  | .points => LimitArgs.ppLimit
  | .solutions => LimitArgs.solLimit
  | .candidates => LimitArgs.candidateLimit
  | .oracleCalls => LimitArgs.oracleCallLimit

/-! ## File names -/

/-- File extensions for each kind of input. -/
def extensions : ParserKind → List String
  | .clausal => ["mcnf", "bicnf", "wcnf", "cnf", "dimacs"]
  | .pseudoBoolean => ["opb", "mopb", "pbmo"]

/-- File extensions of compressed files. -/
def compressions : List String := ["gz", "bz2", "xz"]

/-- The name consists of something, a dot and an extension without dots. -/
def HasExt (name stem ext : List Char) : Prop := stem ≠ [] ∧ '.' ∉ ext ∧ name = stem ++ '.' :: ext

/-- The name has this extension, possibly followed by that of a compressed file. -/
def HasFormatExt (name stem ext : List Char) : Prop :=
  (HasExt name stem ext ∧ ∀ c ∈ compressions, ext ≠ c.toList) ∨
  ∃ c ∈ compressions, ∃ inner, HasExt name inner c.toList ∧ HasExt inner stem ext

/-! ## Output of the logger -/

/-- Lines in which each start of a routine is followed by its end, with the same name. -/
inductive Nested : List LogLine → Prop
  | nil : Nested []
  | message (e : LogEvent) : Nested [.message e]
  | wrap {ls : List LogLine} (x : String) (h : Nested ls) : Nested (.routineStart x :: ls ++ [.routineEnd x])
  | append {ks ls : List LogLine} (h1 : Nested ks) (h2 : Nested ls) : Nested (ks ++ ls)

/-- The messages among the lines. -/
def lineMessages : List LogLine → List LogEvent
  | [] => []
  | .message e :: ls => e :: lineMessages ls
  | _ :: ls => lineMessages ls

/-- None of the lines is about a routine. -/
def OnlyMessages (ls : List LogLine) : Prop := ∀ l ∈ ls, ∃ e, l = .message e

/-- The options `b` ask for at least as much output as the options `a`. -/
structure AsksMore (a b : LogArgs) : Prop where
  verbosity : a.verbosity ≤ b.verbosity
  candidates : a.logCandidates = true → b.logCandidates = true
  solutions : a.logSolutions = true → b.logSolutions = true
  nonDom : a.logNonDom = true → b.logNonDom = true
  oracleCalls : a.logOracleCalls = true → b.logOracleCalls = true
  heurImprovements : a.logHeurImprovement = true → b.logHeurImprovement = true
  fence : a.logFence = true → b.logFence = true
  routines : a.logRoutines ≤ b.logRoutines
  boundPoints : a.logBoundPoints = true → b.logBoundPoints = true
  cores : a.logCores = true → b.logCores = true
  inprocessing : a.logInprocessing = true → b.logInprocessing = true

/-- The options ask for a message, either by the option for it or by the verbosity. -/
inductive AsksFor (a : LogArgs) (alg : Alg) : LogEvent → Prop
  | candidate (c p) : a.logCandidates = true ∨ 2 ≤ a.verbosity → AsksFor a alg (.candidate c p)
  | solution : a.logSolutions = true → AsksFor a alg .solution
  | nonDominated (p) : a.logNonDom = true ∨ 1 ≤ a.verbosity → AsksFor a alg (.nonDominated p)
  | oracleCall (r) : a.logOracleCalls = true ∨ 3 ≤ a.verbosity → AsksFor a alg (.oracleCall r)
  | heurImprovement (i x y) : a.logHeurImprovement = true ∨ 3 ≤ a.verbosity → AsksFor a alg (.heurImprovement i x y)
  | fence (f) : alg = .lowerBounding → a.logFence = true ∨ 2 ≤ a.verbosity → AsksFor a alg (.fence f)
  | ideal (p) : a.logBoundPoints = true ∨ 2 ≤ a.verbosity → AsksFor a alg (.ideal p)
  | core (w l r) : a.logCores = true ∨ 2 ≤ a.verbosity → AsksFor a alg (.core w l r)
  | coreExhaustion (x y) : a.logCores = true ∨ 2 ≤ a.verbosity → AsksFor a alg (.coreExhaustion x y)
  | inprocessing (x y z rs) : a.logInprocessing = true ∨ 1 ≤ a.verbosity → AsksFor a alg (.inprocessing x y z rs)

/-! ## The front that is printed -/

/-- Whatever values the variables without value get, the solution satisfies the constraints of the parsed instance and
violates soft clauses of these costs. -/
def PrintedSolution (p : Parsed) (costs : List Int) (x : Assignment) : Prop :=
  ∀ u, Extends u x → ParsedFeasible p u ∧ parsedCosts p u = costs

/-- Each printed point is non-dominated, none is printed twice, and there is a solution for each, all of them solutions of
these costs. -/
structure PrintedSound (p : Parsed) (front : ParetoFront Assignment) : Prop where
  costs : ∀ pt ∈ front, ParsedNonDominated p pt.costs
  once : (front.map NonDomPoint.costs).Nodup
  some : ∀ pt ∈ front, pt.sols ≠ []
  sols : ∀ pt ∈ front, ∀ x ∈ pt.sols, PrintedSolution p pt.costs x

/-- All non-dominated points are printed. -/
def PrintedAll (p : Parsed) (front : ParetoFront Assignment) : Prop :=
  ∀ v, ParsedNonDominated p v → v ∈ front.map NonDomPoint.costs

/-- No objective has the same value for all assignments that satisfy the constraints, unless that value is its offset. -/
def ParsedNotFlat (p : Parsed) : Prop := ∀ o ∈ p.objs,
  (∀ s t, ParsedFeasible p s → ParsedFeasible p t → softCost s o.softs = softCost t o.softs) →
  ∀ s, ParsedFeasible p s → softCost s o.softs = 0

/-- Objectives whose soft clauses all have the same weight have the weight one. -/
def ParsedUnitOne (p : Parsed) : Prop := ∀ o ∈ p.objs, ∀ w, o.softs ≠ [] → (∀ q ∈ o.softs, q.2 = w) → w = 1

end Scuttle.Spec

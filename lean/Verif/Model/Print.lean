import Verif.Model.Cli

/-!
# What the program prints

The text that `/repo/src/cli.rs` writes to the standard output: the Pareto front, statistics and messages of the logger.
Texts are lists of characters. Colours are left out, as they are if the output is not a terminal or colours are turned
off. How an assignment, a result of the oracle and a time are displayed is external (`rustsat`, `DurPrinter` over
`cpu_time`) and a parameter.
-/

namespace Scuttle

/-- A text. In Rust, these are strings in a buffer, `/repo/src/cli.rs:825`. -/
abbrev Text := List Char

/-- `{}` for `usize`, used in `/repo/src/cli.rs:981`. -/
def natText (n : Nat) : Text := Nat.toDigits 10 n

/-- `{}` for `isize`, used in `/repo/src/cli.rs:1356`. -/
def intText : Int → Text
  | .ofNat n => natText n
  | .negSucc n => '-' :: natText (n + 1)

/-- `VecPrinter`, `/repo/src/cli.rs:1336-1361`. -/
def vecText {α : Type} (disp : α → Text) (costs : List α) : Text :=
  (costs.foldl (fun (acc : Bool × Text) cost =>
    (false, acc.2 ++ (if acc.1 then [] else ", ".toList) ++ disp cost)) (true, "(".toList)).2 ++ ")".toList

/-- `start_block`, `/repo/src/cli.rs:1022-1028`. -/
def startBlock : Text := ">>>>>\n".toList

/-- `end_block`, `/repo/src/cli.rs:1030-1036`. -/
def endBlock : Text := "<<<<<\n".toList

/-- `print_non_dom`, `/repo/src/cli.rs:968-990`. -/
def nonDomText {S : Type} (printSolutions : Bool) (disp : S → Text) (p : NonDomPoint S) : Text :=
  startBlock ++ "Non-dominated Point".toList ++ ": costs: ".toList ++ vecText intText p.costs ++ "; n-sols: ".toList ++
    natText p.nSols ++ "\n".toList ++
    (if printSolutions then p.sols.foldl (fun buffer sol => buffer ++ "v ".toList ++ disp sol ++ "\n".toList) [] else []) ++
    endBlock

/-- `print_pareto_front`, `/repo/src/cli.rs:820-837`. -/
def frontText {S : Type} (printSolutions : Bool) (disp : S → Text) (front : ParetoFront S) : Text :=
  startBlock ++ "Discovered Pareto Front".toList ++ ": \n".toList ++
    front.foldl (fun buffer p => buffer ++ nonDomText printSolutions disp p) [] ++ endBlock

/-- `print_parameter`, `/repo/src/cli.rs:1010-1020`. -/
def paramText (name : String) (val : Text) : Text := name.toList ++ ": ".toList ++ val ++ "\n".toList

/-- `print_stats`, `/repo/src/cli.rs:839-859`. -/
def statsText (printStats : Bool) (stats : Stats) : Text :=
  if printStats then
    startBlock ++ "Solver Stats".toList ++ ": \n".toList ++
      paramText "n-solve-calls" (natText stats.nSolveCalls) ++ paramText "n-solutions" (natText stats.nSolutions) ++
      paramText "n-non-dominated" (natText stats.nNonDominated) ++ paramText "n-candidates" (natText stats.nCandidates) ++
      paramText "n-objectives" (natText stats.nObjs) ++ paramText "n-orig-clauses" (natText stats.nOrigClauses) ++ endBlock
  else []

/-- `Display` for `Phase`, `/repo/core/src/lib.rs:54-63`. -/
def Phase.text : Phase → Text
  | .outerLoop => "outer-loop".toList
  | .minimization => "minimization".toList
  | .enumeration => "enumeration".toList
  | .linsu => "linsu".toList

/-- What a line of the logger looks like, `/repo/src/cli.rs:1060-1307`: `result` displays a result of the oracle and `time`
is the time that is printed with the message. -/
def LogLine.text (result : SolverResult → Text) (time : Text) : LogLine → Text
  | .message (.candidate costs phase) => "candidate".toList ++ ": costs: ".toList ++ vecText natText costs ++
      "; phase: ".toList ++ phase.text ++ "; cpu-time: ".toList ++ time ++ "\n".toList
  | .message (.oracleCall res) => "oracle call".toList ++ ": result: ".toList ++ result res ++ "; cpu-time: ".toList ++ time ++
      "\n".toList
  | .message .solution => "solution".toList ++ ": cpu-time: ".toList ++ time ++ "\n".toList
  | .message (.nonDominated p) => "non-dominated point".toList ++ ": costs: ".toList ++ vecText intText p.costs ++
      "; n-sols: ".toList ++ natText p.nSols ++ "; cpu-time: ".toList ++ time ++ "\n".toList
  | .message (.heurImprovement obj apparent improved) => "heuristic objective improvement".toList ++ ": obj-idx: ".toList ++
      natText obj ++ "; apparent-cost: ".toList ++ natText apparent ++ "; improved-cost: ".toList ++ natText improved ++
      "; cpu-time: ".toList ++ time ++ "\n".toList
  | .message (.fence bounds) => "fence update".toList ++ ": ".toList ++ vecText natText bounds ++ "\n".toList
  | .message (.ideal costs) => "ideal point".toList ++ ": costs: ".toList ++ vecText natText costs ++ "; cpu-time: ".toList ++
      time ++ "\n".toList
  | .message (.core weight len redLen) => "extracted core".toList ++ ": weight: ".toList ++ natText weight ++
      "; original-len: ".toList ++ natText len ++ "; reduced-len: ".toList ++ natText redLen ++ "\n".toList
  | .message (.coreExhaustion exhausted weight) => "exhausted core".toList ++ ": exhausted: ".toList ++ natText exhausted ++
      "; weight: ".toList ++ natText weight ++ "\n".toList
  | .message (.inprocessing before after fixed ranges) => "inprocessing".toList ++ ": cls_before: ".toList ++ natText before ++
      "; cls_after: ".toList ++ natText after ++ "; fixed_lits: ".toList ++ natText fixed ++ "\n".toList ++
      "inprocessing".toList ++ ": obj_ranges_before: ".toList ++ vecText natText (ranges.map Prod.fst) ++
      "; obj_ranges_after: ".toList ++ vecText natText (ranges.map Prod.snd) ++ "\n".toList
  | .message (.routineStart desc) => ">>> routine start".toList ++ ": ".toList ++ desc.toList ++ "\n".toList
  | .message .routineEnd => "<<< routine end".toList ++ "; duration: ".toList ++ time ++ "\n".toList
  | .routineStart desc => ">>> routine start".toList ++ ": ".toList ++ desc.toList ++ "\n".toList
  | .routineEnd desc => "<<< routine end".toList ++ ": ".toList ++ desc.toList ++ "; duration: ".toList ++ time ++ "\n".toList

/-- The text of several lines of the logger with their times, `/repo/src/cli.rs:1054-1307`. -/
def logText (result : SolverResult → Text) (lines : List (LogLine × Text)) : Text :=
  lines.foldl (fun buffer l => buffer ++ l.1.text result l.2) []

end Scuttle

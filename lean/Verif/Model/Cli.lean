import Verif.Model.CoreBoost
import Verif.Model.Prepro

/-!
# The command line program

Models `/repo/src/main.rs` and `/repo/src/cli.rs`, for a build without the feature `maxpre`, without proof logging; what the
feature `sol-tightening` adds is included. Colours, the layout of messages and times are not modelled. Writing to the
terminal is assumed to succeed where the solver does not handle the failure.
-/

namespace Scuttle

/-! ## Options -/

/-- `none_if_zero!`, `/repo/src/cli.rs:28-36`. -/
def noneIfZero (n : Nat) : Option Nat := if n = 0 then none else some n

/-- `CoreBoostingArgs`, `/repo/src/cli.rs:144-164`; without the feature `maxpre`, `inprocessing` is always false. -/
structure CbArgs where
  coreBoosting : Bool := true
  rebaseEncodings : Bool := false
  resetAfterCb : Bool := false
  deriving DecidableEq, Repr

/-- `CoreBoostingArgs::parse`, `/repo/src/cli.rs:167-193`: options for core boosting and whether to store the clauses. -/
def CbArgs.parse (a : CbArgs) : Option CbOptions × Bool :=
  if a.coreBoosting = false then (none, false)
  else
    let after := if a.resetAfterCb then AfterCb.reset else AfterCb.nothing
    (some { rebase := a.rebaseEncodings, after := after }, a.resetAfterCb)

/-- `EnumOptionsArg`, `/repo/src/cli.rs:480-490`. -/
inductive EnumArg where
  | noEnum
  | solutions
  | paretoMCS
  deriving DecidableEq, Repr

/-- The options of `CliArgs` that become `KernelOptions`, `/repo/src/cli.rs:38-74`, `:196-205`; the defaults are those of `KernelOptions`. -/
structure KernelArgs where
  enumeration : EnumArg := .noEnum
  enumerationLimit : Nat := 0
  reserveEncodingVars : Bool := false
  solutionTightening : HeurImprWhen := .outerLoop
  solutionGuidedSearch : Bool := false
  coreTrimming : Bool := false
  coreMinimization : Bool := false
  coreExhaustion : Bool := false
  deriving DecidableEq, Repr

/-- `CliArgs::kernel_opts`, `/repo/src/cli.rs:77-98`. -/
def KernelArgs.kernelOpts (a : KernelArgs) (storeCnf : Bool) : KernelOptions where
  enumeration := match a.enumeration with
    | .noEnum => .noEnum
    | .solutions => .solutions (noneIfZero a.enumerationLimit)
    | .paretoMCS => .pmcss (noneIfZero a.enumerationLimit)
  reserveEncVars := a.reserveEncodingVars
  solutionTightening := a.solutionTightening
  solutionGuidedSearch := a.solutionGuidedSearch
  coreTrimming := a.coreTrimming
  coreMinimization := a.coreMinimization
  coreExhaustion := a.coreExhaustion
  storeCnf := storeCnf

/-- `LimitArgs`, `/repo/src/cli.rs:234-249`. -/
structure LimitArgs where
  ppLimit : Nat := 0
  solLimit : Nat := 0
  candidateLimit : Nat := 0
  oracleCallLimit : Nat := 0
  deriving DecidableEq, Repr

/-- `From<LimitArgs> for Limits`, `/repo/src/cli.rs:251-260`. -/
def LimitArgs.limits (a : LimitArgs) : Limits where
  pps := noneIfZero a.ppLimit
  sols := noneIfZero a.solLimit
  candidates := noneIfZero a.candidateLimit
  oracleCalls := noneIfZero a.oracleCallLimit

/-! ## File formats -/

/-- `FileFormat`, `/repo/core/src/prepro.rs:19-29`. -/
inductive FileFormat where
  | infer
  | dimacs
  | opb
  deriving DecidableEq, Repr

/-- Which parser is used: `clausal` or `pseudo_boolean`, `/repo/core/src/prepro.rs:92-139`. -/
inductive ParserKind where
  | clausal
  | pseudoBoolean
  deriving DecidableEq, Repr

/-- `Error`, `/repo/core/src/prepro.rs:48-53`. -/
inductive FormatError where
  | unknownExtension (ext : List Char)
  | noExtension
  deriving DecidableEq, Repr

/-- Splits a file name at its last dot: what comes before it, and after it. As `Path::file_stem` and `Path::extension` of
the standard library, called in `/repo/core/src/prepro.rs:63-67`: a name that has no dot, or only one at its start, has
no extension. The name is the last component of the path and not `..`. -/
def splitExt (name : List Char) : Option (List Char × List Char) :=
  if '.' ∈ name then
    let ext := (name.reverse.takeWhile (· ≠ '.')).reverse
    let stem := name.take (name.length - ext.length - 1)
    if stem = [] then none else some (stem, ext)
  else none

/-- `parse`, `/repo/core/src/prepro.rs:55-88`: the choice of the parser. -/
def parserFor (name : List Char) : FileFormat → Except FormatError ParserKind
  | .infer =>
    match splitExt name with
    | some (stem, ext) =>
      let choose (ext : List Char) : Except FormatError ParserKind :=
        if ext ∈ ["mcnf".toList, "bicnf".toList, "wcnf".toList, "cnf".toList, "dimacs".toList] then .ok .clausal
        else if ext ∈ ["opb".toList, "mopb".toList, "pbmo".toList] then .ok .pseudoBoolean
        else .error (.unknownExtension ext)
      if ext ∈ ["gz".toList, "bz2".toList, "xz".toList] then
        match splitExt stem with
        | some (_, ext) => choose ext
        | none => .error .noExtension
      else choose ext
    | none => .error .noExtension
  | .dimacs => .ok .clausal
  | .opb => .ok .pseudoBoolean

/-! ## The logger -/

/-- `LogArgs`, `/repo/src/cli.rs:276-320`, and `log_fence`, `:120-123`: what to log. -/
structure LogArgs where
  verbosity : Nat := 0
  logCandidates : Bool := false
  logSolutions : Bool := false
  logNonDom : Bool := false
  logOracleCalls : Bool := false
  logHeurImprovement : Bool := false
  logFence : Bool := false
  logRoutines : Nat := 0
  logBoundPoints : Bool := false
  logCores : Bool := false
  logInprocessing : Bool := false
  deriving DecidableEq, Repr

/-- `LoggerConfig`, `/repo/src/cli.rs:1040-1052`. -/
structure LoggerConfig where
  logCandidates : Bool
  logSolutions : Bool
  logNonDom : Bool
  logOracleCalls : Bool
  logHeurImprovement : Bool
  logFence : Bool
  logRoutines : Nat
  logBoundPoints : Bool
  logCores : Bool
  logInpro : Bool
  deriving DecidableEq, Repr

/-- `From<LogArgs> for LoggerConfig`, `/repo/src/cli.rs:322-339`, and the change for LowerBounding, `:676-679`. -/
def LogArgs.config (a : LogArgs) (alg : Alg) : LoggerConfig where
  logCandidates := a.logCandidates || decide (a.verbosity ≥ 2)
  logSolutions := a.logSolutions
  logNonDom := a.logNonDom || decide (a.verbosity ≥ 1)
  logOracleCalls := a.logOracleCalls || decide (a.verbosity ≥ 3)
  logHeurImprovement := a.logHeurImprovement || decide (a.verbosity ≥ 3)
  logFence := alg == .lowerBounding && (a.logFence || decide (a.verbosity ≥ 2))
  logRoutines := max a.logRoutines (a.verbosity * 2)
  logBoundPoints := a.logBoundPoints || decide (a.verbosity ≥ 2)
  logCores := a.logCores || decide (a.verbosity ≥ 2)
  logInpro := a.logInprocessing || decide (a.verbosity ≥ 1)

/-- A line printed by the logger: a message, or the start or end of a routine with its name. -/
inductive LogLine where
  | message (e : LogEvent)
  | routineStart (desc : String)
  | routineEnd (desc : String)
  deriving DecidableEq, Repr

/-- `CliLogger`, `/repo/src/cli.rs:1054-1058`: the routine stack, without times, and what was printed so far. -/
structure CliLogger where
  stack : List String := []
  out : List LogLine := []
  deriving DecidableEq, Repr

/-- `CliLogger::log_routine_start`, `/repo/src/cli.rs:1167-1179`. -/
def CliLogger.start (cfg : LoggerConfig) (desc : String) (l : CliLogger) : CliLogger :=
  let stack := desc :: l.stack
  { stack := stack, out := if cfg.logRoutines ≥ stack.length then l.out ++ [.routineStart desc] else l.out }

/-- `CliLogger::log_routine_end`, `/repo/src/cli.rs:1181-1200`; `none` is the panic of `expect`. -/
def CliLogger.finish (cfg : LoggerConfig) (l : CliLogger) : Option CliLogger :=
  match l.stack with
  | [] => none
  | desc :: stack =>
    some { stack := stack, out := if cfg.logRoutines > stack.length then l.out ++ [.routineEnd desc] else l.out }

/-- Which of the other messages are printed, `/repo/src/cli.rs:1061-1165`, `:1209-1307`. -/
def LoggerConfig.prints (cfg : LoggerConfig) : LogEvent → Bool
  | .candidate .. => cfg.logCandidates
  | .oracleCall _ => cfg.logOracleCalls
  | .solution => cfg.logSolutions
  | .nonDominated _ => cfg.logNonDom
  | .heurImprovement .. => cfg.logHeurImprovement
  | .fence _ => cfg.logFence
  | .ideal _ => cfg.logBoundPoints
  | .core .. => cfg.logCores
  | .coreExhaustion .. => cfg.logCores
  | .inprocessing .. => cfg.logInpro
  | .routineStart _ => false
  | .routineEnd => false

/-- What the logger does with a message, `/repo/src/cli.rs:1060-1307`; `none` is a panic. -/
def CliLogger.event (cfg : LoggerConfig) (l : CliLogger) : LogEvent → Option CliLogger
  | .routineStart desc => some (l.start cfg desc)
  | .routineEnd => l.finish cfg
  | e => some (if cfg.prints e then { l with out := l.out ++ [.message e] } else l)

/-- The logger receives several messages. -/
def CliLogger.run (cfg : LoggerConfig) : List LogEvent → CliLogger → Option CliLogger
  | [], l => some l
  | e :: es, l => (l.event cfg e).bind (CliLogger.run cfg es)

/-- `CliLogger::log_end_solve`, `/repo/src/cli.rs:1202-1207`. Nothing in `/repo` calls it. -/
def CliLogger.endSolve (cfg : LoggerConfig) : List String → List LogLine → List LogLine
  | [], out => out
  | desc :: stack, out =>
    CliLogger.endSolve cfg stack (if cfg.logRoutines > stack.length then out ++ [.routineEnd desc] else out)

/-! ## The driver -/

/-- What `sub_main` returns: `Ok` with the front printed and the warnings about early termination, or an error. -/
inductive Exit where
  | printed (warnings : List Termination) (front : ParetoFront Assignment)
  | failed
  | panicked
  | fuel
  deriving DecidableEq, Repr

/-- The options that the driver looks at, `Cli` in `/repo/src/cli.rs:501-523`, without file names and printing. -/
structure Cli where
  alg : Alg
  kernel : KernelArgs := {}
  cb : CbArgs := {}
  limits : LimitArgs := {}
  reindexing : Bool := false
  deriving DecidableEq, Repr

/-- Options handed to the solver, `Cli::init`, `/repo/src/cli.rs:577-581`. -/
def Cli.opts (c : Cli) : KernelOptions := c.kernel.kernelOpts c.cb.parse.2

section Driver

variable {P C D : Type} [UbEnc P] [UbEnc C] [TotDb D] [MergeEnc P C D]

/-- `handle_termination`, `/repo/src/main.rs:321-330`: the warnings and `Ok(Some(..))`, `Ok(None)`, or the error. -/
def handleTermination {α : Type} : Except Stop α → Except Stop (List Termination × Option α)
  | .ok a => .ok ([], some a)
  | .error (.terminated t) => .ok ([t], none)
  | .error e => .error e

/-- `run!` without `setup_alg` and `post_solve`, `/repo/src/main.rs:52-63`: warnings or error, and the solver afterwards. -/
def runAlg (D : Type) [TotDb D] [MergeEnc P C D] (alg : Alg) (fuel : Nat) (cb : Option CbOptions) (limits : Limits)
    (env : Env) (s : Slv P C) : Except Stop (List Termination) × Slv P C :=
  let solve (w : List Termination) (s : Slv P C) : Except Stop (List Termination) × Slv P C :=
    let r := alg.solve fuel limits env s
    match handleTermination r.1 with
    | .ok (w', _) => (.ok (w ++ w'), r.2)
    | .error e => (.error e, r.2)
  match cb with
  | none => solve [] s
  | some o =>
    let r := coreBoost D fuel o env s
    match handleTermination r.1 with
    | .error e => (.error e, r.2)
    | .ok (w, cont) => if cont.getD false then solve w r.2 else (.ok w, r.2)

/-- `post_solve`, `/repo/src/main.rs:266-319`: the front that is printed. -/
def postSolve (reindexer : Option Reindexer) (front : ParetoFront Assignment) : ParetoFront Assignment :=
  match reindexer with
  | some r => (front.convertSolutions (fun x _ => (r.convert x, ())) ()).1
  | none => front

/-- Solving an instance and printing the result: `/repo/src/main.rs:167-201` with `dispatch_options!`, `run!` and
`setup_alg` (`:205-231`). For core boosting with BiOptSat the encodings are the only ones there are. -/
def solveInstance (P C D : Type) [UbEnc P] [UbEnc C] [TotDb D] [MergeEnc P C D] (cli : Cli) (fuel : Nat) (env : Env)
    (inst : Instance) (reindexer : Option Reindexer) : Exit :=
  if cli.alg = .biOptSat ∧ inst.objs.length ≠ 2 then .failed
  else
    match (cli.alg.new inst defaultBlockingClause cli.opts : Option (Slv P C)) with
    | none => .panicked
    | some s =>
      let r := runAlg D cli.alg fuel cli.cb.parse.1 cli.limits.limits env s.attachLogger
      match r.1 with
      | .ok w => .printed w (postSolve reindexer r.2.front)
      | .error .panic => .panicked
      | .error .fuel => .fuel
      | .error _ => .failed

/-- `sub_main` on a parsed instance, `/repo/src/main.rs:133-203`. Parsing is external. -/
def subMain (P C D : Type) [UbEnc P] [UbEnc C] [TotDb D] [MergeEnc P C D] (enc : PbCon → Nat → List Clause × Nat)
    (cli : Cli) (fuel : Nat) (env : Env) (parsed : Parsed) : Exit :=
  match toClausal env.debug enc parsed with
  | none => .panicked
  | some inst =>
    if cli.reindexing then
      match reindexing inst with
      | none => .panicked
      | some (r, inst) => solveInstance P C D cli fuel env inst (some r)
    else solveInstance P C D cli fuel env inst none

end Driver

end Scuttle

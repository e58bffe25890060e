import Verif.Model.Enc

/-!
# The environment and the state of a solver

A solver runs against an environment: the SAT oracle, the interrupt flag and the logger. All three are functions of a
clock that ticks with each interaction, so that a theorem for all environments covers every oracle, every time of
interruption and every failure of the logger.
-/

namespace Scuttle

/-- Why a computation did not return a value. `terminated` and `error` are the cases of `MaybeTerminatedError`,
`/repo/core/src/termination.rs:92-101`; `panic` is a Rust panic; `fuel` means that the loop bound of the model was too
small, it does not exist in the code. -/
inductive Stop where
  | terminated (t : Termination)
  | error
  | panic
  | fuel
  deriving DecidableEq, Repr

/-- Answer of the SAT oracle: a model, a core (list of negated assumptions) or `Interrupted`. -/
inductive Answer where
  | sat (m : Asg)
  | unsat (core : List Lit)
  | interrupted

/-- What a solver interacts with. `oracle t limited clauses assumptions` is the answer to a query at time `t`; `limited`
tells whether a conflict limit is set in the oracle (`/repo/core/src/algs/coreguided.rs:596`, `:672`). `flag t` is the
value of `term_flag` (`/repo/core/src/algs.rs:196`) at time `t`, `logOk t` whether the logger succeeds at time `t`.
`debug` tells whether debug assertions are compiled in, `tighten` whether the feature `sol-tightening` is. `flip t clauses
frozen m l` is what `flip_lit(l)` of the oracle does at time `t` with the model `m`: nothing or a new model; `frozen` are
the variables of the objectives, which are frozen in the oracle (`/repo/core/src/algs.rs:289-295`, `:1000-1006`). -/
structure Env where
  oracle : Nat → Bool → List Clause → List Lit → Answer
  flag : Nat → Bool
  logOk : Nat → Bool
  debug : Bool
  tighten : Bool := false
  flip : Nat → List Clause → List Nat → Asg → Lit → Option Asg := fun _ _ _ _ _ => none

/-- State of the SAT oracle after the last operation: `solution()` and `core()` are only available after a matching
answer. -/
inductive OracleState where
  | input
  | sat (m : Asg)
  | unsat (core : List Lit)
  | unknown

/-- Messages to the logger, the methods of `WriteSolverLog` that the modelled code uses, `/repo/core/src/lib.rs:101-147`. -/
inductive LogEvent where
  | candidate (costs : List Nat) (phase : Phase)
  | oracleCall (result : SolverResult)
  | solution
  | nonDominated (p : NonDomPoint Assignment)
  | heurImprovement (obj apparent improved : Nat)
  | fence (bounds : List Nat)
  | routineStart (desc : String)
  | routineEnd
  | ideal (ideal : List Nat)
  | core (weight len redLen : Nat)
  | coreExhaustion (exhausted weight : Nat)
  | inprocessing (before after fixed : Nat) (ranges : List (Nat × Nat))
  deriving DecidableEq, Repr

/-- The logical part of `Kernel`, `/repo/core/src/algs.rs:171-205`: the clauses in the oracle and its state, whether a
conflict limit is set, the objectives, stored clauses, blocking clause generator, options and variable manager. -/
structure Kern where
  db : List Clause
  ostate : OracleState
  conflLimited : Bool
  objs : List Objective
  origCnf : Option (List Clause)
  bcg : Assignment → Clause
  opts : KernelOptions
  vm : VarManager

/-- The rest of `Kernel`: statistics, limits, the log written so far (`none` if no logger is attached) and the clock.
`calls` is a ghost field, the times at which the oracle answered. -/
structure Io where
  stats : Stats
  lims : Limits
  logger : Option (List LogEvent)
  tick : Nat
  calls : List Nat

/-- State of a solver: `PMinimal` (`/repo/core/src/algs/pminimal.rs:58-75`), `LowerBounding`
(`/repo/core/src/algs/lowerbounding.rs:53-72`) or `BiOptSat` (`/repo/core/src/algs/bioptsat.rs:48-64`). `fence` is
only used by `LowerBounding`. -/
structure Slv (P C : Type) where
  k : Kern
  io : Io
  encs : List (ObjEnc P C)
  front : ParetoFront Assignment
  fence : List (Nat × List Lit)

/-- Computations of the solver: the `?` operator on `MaybeTerminatedError`, `/repo/core/src/termination.rs:136-184`,
with state changes that persist on early exits. -/
def M (P C α : Type) := Env → Slv P C → Except Stop α × Slv P C

namespace M

variable {P C α β : Type}

/-- `Done(a)`. -/
@[inline] def pure (a : α) : M P C α := fun _ s => (.ok a, s)

/-- Sequencing with `?`: a computation that does not return ends the whole. -/
@[inline] def bind (c : M P C α) (f : α → M P C β) : M P C β := fun env s =>
  match c env s with
  | (.ok a, s') => f a env s'
  | (.error e, s') => (.error e, s')

instance : Monad (M P C) where
  pure := pure
  bind := bind

end M

section Primitives

variable {P C α β : Type}

/-- Ends the computation. -/
def stop (e : Stop) : M P C α := fun _ s => (.error e, s)

/-- Reads the state. -/
def getS : M P C (Slv P C) := fun _ s => (.ok s, s)

/-- Reads the environment's debug setting. -/
def isDebug : M P C Bool := fun env s => (.ok env.debug, s)

/-- Changes the state. -/
def modifyS (f : Slv P C → Slv P C) : M P C Unit := fun _ s => (.ok (), f s)

/-- `debug_assert!`. -/
def dbg (b : Bool) : M P C Unit := fun env s => if env.debug && !b then (.error .panic, s) else (.ok (), s)

/-- `unwrap`/`expect`/indexing: `none` panics. -/
def unwrap (o : Option α) : M P C α :=
  match o with
  | some a => M.pure a
  | none => stop .panic

/-- `?` on a `Result`: `none` is an error. -/
def orErr (o : Option α) : M P C α :=
  match o with
  | some a => M.pure a
  | none => stop .error

/-- Binds the result of a call without `?`, as in `match self.log_solution() { .. }`. Panics are not caught. -/
def attempt (c : M P C α) : M P C (Except Stop α) := fun env s =>
  match c env s with
  | (.ok a, s') => (.ok (.ok a), s')
  | (.error .panic, s') => (.error .panic, s')
  | (.error .fuel, s') => (.error .fuel, s')
  | (.error e, s') => (.ok (.error e), s')

/-- `?` applied to a stored result. -/
def ofExcept (r : Except Stop α) : M P C α := fun _ s => (r, s)

/-- `loop { .. }`: the body either continues (`inl`) or returns (`inr`). -/
def loopM (body : α → M P C (α ⊕ β)) : Nat → α → M P C β
  | 0, _ => stop .fuel
  | n + 1, a => M.bind (body a) fun
    | .inl a' => loopM body n a'
    | .inr b => M.pure b

end Primitives

end Scuttle

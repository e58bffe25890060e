import Verif.Model.LB
import Verif.Model.BOS

/-!
# The three solvers behind one interface
-/

namespace Scuttle

variable {P C : Type} [UbEnc P] [UbEnc C]

/-- The algorithms that implement `Solve`, `/repo/core/src/algs.rs:110-116`. -/
inductive Alg where
  | pMinimal
  | lowerBounding
  | biOptSat
  deriving DecidableEq, Repr

/-- `Solve::solve` of the three algorithms: `/repo/core/src/algs/pminimal.rs:92-95`,
`/repo/core/src/algs/lowerbounding.rs:88-91`, `/repo/core/src/algs/bioptsat.rs:81-84`. -/
def Alg.solve : Alg → Nat → Limits → M P C Unit
  | .pMinimal => pminSolve
  | .lowerBounding => lbSolve
  | .biOptSat => bosSolve

/-- Construction of the three solvers; for BiOptSat the number of objectives is asserted,
`/repo/core/src/algs/bioptsat.rs:213-216`. `none` is a panic. -/
def Alg.new (alg : Alg) (inst : Instance) (bcg : Assignment → Clause) (opts : KernelOptions) : Option (Slv P C) :=
  match alg with
  | .biOptSat => (Kern.new inst.clauses inst.objs inst.vm bcg opts).bind fun p => Slv.initBos p.1 p.2
  | _ => Slv.new inst bcg opts

/-- `KernelFunctions::attach_logger`, `/repo/core/src/algs.rs:330-332`: attaches a logger that has received nothing yet. -/
def Slv.attachLogger (s : Slv P C) : Slv P C := { s with io := { s.io with logger := some [] } }

/-- `KernelFunctions::detach_logger`, `/repo/core/src/algs.rs:334-336`. -/
def Slv.detachLogger (s : Slv P C) : Slv P C := { s with io := { s.io with logger := none } }

/-- Calls that a user makes on a solver, `/repo/core/src/algs.rs:110-136`. -/
inductive Call where
  | solve (fuel : Nat) (limits : Limits)
  | attachLogger
  | detachLogger

/-- Performs calls in turn, collecting the results of `solve`. -/
def Alg.calls (alg : Alg) (env : Env) : List Call → Slv P C → List (Except Stop Unit) × Slv P C
  | [], s => ([], s)
  | .solve fuel limits :: cs, s =>
    let r := alg.solve fuel limits env s
    let rs := alg.calls env cs r.2
    (r.1 :: rs.1, rs.2)
  | .attachLogger :: cs, s => alg.calls env cs s.attachLogger
  | .detachLogger :: cs, s => alg.calls env cs s.detachLogger

end Scuttle

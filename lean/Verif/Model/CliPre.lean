import Verif.Model.Cli

/-!
# The program with preprocessing

`prepro::max_pre` (`/repo/core/src/prepro.rs:142-202`) and the driver with the feature `maxpre` and the option
`--preprocessing` (`/repo/src/main.rs:133-203`, `:266-319`). MaxPre is external and a parameter.
-/

namespace Scuttle

/-- MaxPre as a parameter: `MaxPre::new` with `preprocess` and `prepro_instance` (`/repo/core/src/prepro.rs:169-175`), and
`reconstruct` (`/repo/src/main.rs:292-294`), which refers to the instance that was preprocessed. -/
structure PrePro where
  run : List Clause → List SoftObj → List Clause × List SoftObj
  reconstruct : List Clause → List SoftObj → Assignment → Assignment

/-- What MaxPre is given: the clauses of `constraints_to_clausal`, `/repo/core/src/prepro.rs:142-155`, `:168`. -/
def preClauses (enc : PbCon → Nat → List Clause × Nat) (p : Parsed) : List Clause :=
  (encodeConstraints enc p.constraints p.vm.nextVar).1

/-- `max_pre`, `/repo/core/src/prepro.rs:156-202`; `none` is a panic. -/
def maxPre (debug : Bool) (enc : PbCon → Nat → List Clause × Nat) (pre : PrePro) (p : Parsed) : Option Instance :=
  let r := pre.run (preClauses enc p) p.objs
  maxPreInstance debug r.1 r.2

/-- Solution reconstruction in `post_solve`, `/repo/src/main.rs:289-297`. -/
def Exit.reconstruct (f : Assignment → Assignment) : Exit → Exit
  | .printed w front => .printed w (front.convertSolutions (fun x _ => (f x, ())) ()).1
  | e => e

/-- `sub_main` after the instance is known, `/repo/src/main.rs:154-203`. -/
def solveReindexed (P C D : Type) [UbEnc P] [UbEnc C] [TotDb D] [MergeEnc P C D] (cli : Cli) (fuel : Nat) (env : Env)
    (inst : Instance) : Exit :=
  if cli.reindexing then
    match reindexing inst with
    | none => .panicked
    | some (r, inst) => solveInstance P C D cli fuel env inst (some r)
  else solveInstance P C D cli fuel env inst none

/-- `sub_main` with preprocessing and without proof logging, `/repo/src/main.rs:133-203`: the solutions are first converted
by the reindexer, then by MaxPre. -/
def subMainPre (P C D : Type) [UbEnc P] [UbEnc C] [TotDb D] [MergeEnc P C D] (enc : PbCon → Nat → List Clause × Nat)
    (pre : PrePro) (cli : Cli) (fuel : Nat) (env : Env) (parsed : Parsed) : Exit :=
  match maxPre env.debug enc pre parsed with
  | none => .panicked
  | some inst => (solveReindexed P C D cli fuel env inst).reconstruct
      (pre.reconstruct (preClauses enc parsed) parsed.objs)

end Scuttle

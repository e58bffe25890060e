import Verif.Model.Types

/-!
# What happens to an instance before it is given to a solver

Models `/repo/core/src/prepro.rs` without reading files and without proof logging, and the conversion of solutions in
`/repo/src/main.rs`.
-/

namespace Scuttle

/-! ## Parsed instances -/

/-- Kinds of pseudo-Boolean constraints of `rustsat`, `PbConstraint` in `/repo/core/src/prepro.rs:12`. -/
inductive PbRel where
  | ge
  | le
  | eq
  deriving DecidableEq, Repr

/-- `PbConstraint` of `rustsat`: a relation between a weighted sum of literals and a bound. Signed weights include both
ways of writing a constraint. -/
structure PbCon where
  rel : PbRel
  terms : List (Lit × Int)
  bound : Int
  deriving DecidableEq, Repr

/-- Conversion of a clause into a `PbConstraint` in `rustsat`, used in `/repo/core/src/prepro.rs:328`: at least one of
the literals. -/
def PbCon.ofClause (c : Clause) : PbCon := ⟨.ge, c.map fun l => (l, 1), 1⟩

/-- `rustsat::instances::Objective`, as seen through `into_soft_cls` in `/repo/core/src/prepro.rs:312`: soft clauses with
weights and an offset. -/
structure SoftObj where
  softs : List (Clause × Nat)
  offset : Int
  deriving DecidableEq, Repr

/-- `Parsed`, `/repo/core/src/types.rs:823-827`. -/
structure Parsed where
  constraints : List PbCon
  objs : List SoftObj
  vm : VarManager

/-! ## Relaxing soft clauses -/

/-- What `process_objective` changes, `/repo/core/src/prepro.rs:308-310`: constraints, the literals introduced for soft
clauses so far and the variable manager. -/
structure Relax where
  constrs : List PbCon
  blits : List (Clause × Lit)
  vm : VarManager

/-- Body of the closure in `process_objective`, `/repo/core/src/prepro.rs:314-330`; `none` is the failed debug
assertion. -/
def relaxSoft (debug : Bool) (cl : Clause) (w : Nat) (st : Relax) : Option ((Lit × Nat) × Relax) :=
  if debug && cl.isEmpty then none
  else match cl with
    | [l] => some ((l.not, w), st)
    | cl =>
      match mapGet cl st.blits with
      | some blit => some ((blit, w), st)
      | none =>
        let (v, vm) := st.vm.newVar
        let blit := Lit.pos v
        some ((blit, w), ⟨st.constrs ++ [PbCon.ofClause (cl ++ [blit])], mapInsert cl blit st.blits, vm⟩)

/-- The iterator over the soft clauses in `process_objective`, `/repo/core/src/prepro.rs:313-331`, run to its end as in
`Objective::new`. -/
def relaxSofts (debug : Bool) : List (Clause × Nat) → Relax → Option (List (Lit × Nat) × Relax)
  | [], st => some ([], st)
  | (cl, w) :: softs, st =>
    match relaxSoft debug cl w st with
    | none => none
    | some (t, st) =>
      match relaxSofts debug softs st with
      | none => none
      | some (ts, st) => some (t :: ts, st)

/-- `process_objective`, `/repo/core/src/prepro.rs:305-334`. -/
def processObjective (debug : Bool) (o : SoftObj) (idx : Nat) (st : Relax) : Option (Objective × Relax) :=
  match relaxSofts debug o.softs st with
  | none => none
  | some (ts, st) => some (Objective.new ts o.offset idx, st)

/-- The loop over the objectives in `to_clausal`, `/repo/core/src/prepro.rs:243-247`, starting with number `idx`. -/
def processObjectives (debug : Bool) : List SoftObj → Nat → Relax → Option (List Objective × Relax)
  | [], _, st => some ([], st)
  | o :: os, idx, st =>
    match processObjective debug o idx st with
    | none => none
    | some (o', st) =>
      match processObjectives debug os (idx + 1) st with
      | none => none
      | some (os', st) => some (o' :: os', st)

/-- The loop over the constraints in `to_clausal`, `/repo/core/src/prepro.rs:290-292`. `enc` stands for
`default_encode_pb_constraint` of `rustsat`, which is given the next free variable and returns clauses and the new next
free variable. -/
def encodeConstraints (enc : PbCon → Nat → List Clause × Nat) : List PbCon → Nat → List Clause × Nat
  | [], n => ([], n)
  | c :: cs, n =>
    let (cls, n) := enc c n
    let (rest, n) := encodeConstraints enc cs n
    (cls ++ rest, n)

/-- `to_clausal` without proof, `/repo/core/src/prepro.rs:231-303`; `none` is a panic. The variable `n` of
`encodeConstraints` is `next_var` of the variable manager. -/
def toClausal (debug : Bool) (enc : PbCon → Nat → List Clause × Nat) (p : Parsed) : Option Instance :=
  match processObjectives debug p.objs 0 ⟨p.constraints, [], p.vm⟩ with
  | none => none
  | some (objs, st) =>
    let (clauses, n) := encodeConstraints enc st.constrs st.vm.nextVar
    ({ st.vm with nextVar := n }.markMaxEncVar).map fun vm => ⟨clauses, objs, vm⟩

/-! ## Instances from MaxPre -/

/-- Largest variable in the clauses, `/repo/core/src/prepro.rs:190-192`. -/
def maxVarOf (cnf : List Clause) : Nat := cnf.foldl (fun m cl => cl.foldl (fun m l => max m l.var) m) 0

/-- Literals of an objective that MaxPre returned, `/repo/core/src/prepro.rs:181-184`; `none` is the failed debug
assertion or the index out of bounds. -/
def maxPreLits (debug : Bool) : List (Clause × Nat) → Option (List (Lit × Nat))
  | [] => some []
  | ([], _) :: _ => none
  | (l :: ls, w) :: softs =>
    if debug && !ls.isEmpty then none else (maxPreLits debug softs).map fun ts => (l.not, w) :: ts

/-- The objectives in `max_pre`, `/repo/core/src/prepro.rs:176-189`, starting with number `idx`. -/
def maxPreObjs (debug : Bool) : List SoftObj → Nat → Option (List Objective)
  | [], _ => some []
  | o :: os, idx =>
    match maxPreLits debug o.softs with
    | none => none
    | some ts => (maxPreObjs debug os (idx + 1)).map fun os' => Objective.new ts o.offset idx :: os'

/-- The end of `max_pre`, `/repo/core/src/prepro.rs:176-201`: the instance that is built from the result of MaxPre. -/
def maxPreInstance (debug : Bool) (cnf : List Clause) (objs : List SoftObj) : Option Instance :=
  match maxPreObjs debug objs 0 with
  | none => none
  | some objs => (VarManager.new (maxVarOf cnf) (maxVarOf cnf)).map fun vm => ⟨cnf, objs, vm⟩

/-! ## Reindexing -/

/-- Reindexes the literals of an objective from left to right, `/repo/core/src/prepro.rs:346`. -/
def reindexTerms : List (Lit × Nat) → Reindexer → List (Lit × Nat) × Reindexer
  | [], r => ([], r)
  | (l, w) :: ts, r =>
    let (l, r) := r.reindexLit l
    let (ts, r) := reindexTerms ts r
    ((l, w) :: ts, r)

/-- The loop over the objectives in `reindexing`, `/repo/core/src/prepro.rs:344-351`. -/
def reindexObjs : List Objective → Reindexer → List Objective × Reindexer
  | [], r => ([], r)
  | o :: os, r =>
    let (ts, r) := reindexTerms o.iter r
    let (os, r) := reindexObjs os r
    (Objective.new ts o.offset o.idx :: os, r)

/-- The loop over a clause in `reindexing`, `/repo/core/src/prepro.rs:353-355`. -/
def reindexClause : Clause → Reindexer → Clause × Reindexer
  | [], r => ([], r)
  | l :: c, r =>
    let (l, r) := r.reindexLit l
    let (c, r) := reindexClause c r
    (l :: c, r)

/-- The loop over the clauses in `reindexing`, `/repo/core/src/prepro.rs:352-356`. -/
def reindexClauses : List Clause → Reindexer → List Clause × Reindexer
  | [], r => ([], r)
  | c :: cs, r =>
    let (c, r) := reindexClause c r
    let (cs, r) := reindexClauses cs r
    (c :: cs, r)

/-- `reindexing`, `/repo/core/src/prepro.rs:336-360`; `none` is the `unwrap` of the largest variable. -/
def reindexing (inst : Instance) : Option (Reindexer × Instance) :=
  let (objs, r) := reindexObjs inst.objs (Reindexer.new inst.vm.maxOrigVar)
  let (clauses, r) := reindexClauses inst.clauses r
  match r.maxVar with
  | none => none
  | some v => (VarManager.new v v).map fun vm => (r, ⟨clauses, objs, vm⟩)

/-! ## Converting solutions back -/

/-- Conversion of a solution of the reindexed instance, `/repo/src/main.rs:279-284`. -/
def Reindexer.convert (r : Reindexer) (sol : Assignment) : Assignment :=
  (Assignment.ofLits (sol.toLits.filterMap r.reverseLit)).truncate r.oldMaxOrigVar

end Scuttle

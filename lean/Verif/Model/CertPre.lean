import Verif.Model.Prepro
import Verif.Model.Tracer

/-!
# Conversion to clauses with a proof

Models `to_clausal` (`/repo/core/src/prepro.rs:231-303`) with a path for the proof, and the first steps of a solver that
writes a proof. The certified encoders of `rustsat` are a parameter.
-/

namespace Scuttle

/-- What VeriPB reads from the line of a constraint in the file of `/repo/core/src/prepro.rs:262-269`: an equality is two
constraints. -/
def PbCon.lines (c : PbCon) : List (LbCon AnyVar) :=
  let ge := ⟨c.terms.map fun t => (t.2, toAxm t.1), c.bound⟩
  let le := ⟨c.terms.map fun t => (-t.2, toAxm t.1), -c.bound⟩
  match c.rel with
  | .ge => [ge]
  | .le => [le]
  | .eq => [ge, le]

/-- `n_constraints`, `/repo/core/src/prepro.rs:252-258`. -/
def nConstraints (cs : List PbCon) : Nat := cs.foldl (fun s c => if c.rel = .eq then s + 2 else s + 1) 0

/-- `init_proof`, `/repo/core/src/algs/proofs.rs:127-146`, without the order (`Model/ProofLog.lean`): the checker has
the constraints of the input file, the program counts on `n` of them. -/
def initProof (file : List PbCon) (n : Nat) : Pf AnyVar := ⟨(file.flatMap PbCon.lines).map some, [], n, 0⟩

/-- `pb::cert::default_encode_pb_constraint` of `rustsat`, used in `/repo/core/src/prepro.rs:280-285`: for a constraint, its
id, the next free variable and the proof it returns clauses with ids, the new next free variable and the longer proof. -/
abbrev CertPbEnc := PbCon → Nat → Nat → Pf AnyVar → List (Clause × Nat) × Nat × Pf AnyVar

/-- `Collector`, `/repo/core/src/prepro.rs:203-228`: clauses that have an id if they come from a certified encoder. -/
abbrev Collector := List (Clause × Option Nat)

/-- The loop over the constraints with a proof, `/repo/core/src/prepro.rs:277-287`. -/
def encodeCert (cert : CertPbEnc) : List PbCon → Nat → Nat → Collector → Pf AnyVar → Collector × Nat × Pf AnyVar
  | [], _, n, col, pf => (col, n, pf)
  | c :: cs, id, n, col, pf =>
    let (cls, n, pf) := cert c id n pf
    encodeCert cert cs (id + (1 + if c.rel = .eq then 1 else 0)) n (col ++ cls.map fun q => (q.1, some q.2)) pf

/-- `Instance`, `/repo/core/src/types.rs:829-836`, with the ids of the clauses. -/
structure IdInstance where
  clauses : Collector
  objs : List Objective
  vm : VarManager

/-- The instance without the ids, `/repo/core/src/algs.rs:98`. -/
def IdInstance.plain (i : IdInstance) : Instance := ⟨i.clauses.map Prod.fst, i.objs, i.vm⟩

/-- `to_clausal`, `/repo/core/src/prepro.rs:231-303`; `none` is a panic. `proof` tells whether there is a path for the
proof. -/
def toClausalProof (debug : Bool) (enc : PbCon → Nat → List Clause × Nat) (cert : CertPbEnc) (proof : Bool) (p : Parsed) :
    Option (Option (Pf AnyVar) × IdInstance) :=
  match processObjectives debug p.objs 0 ⟨p.constraints, [], p.vm⟩ with
  | none => none
  | some (objs, st) =>
    let (clauses, n, pf) :=
      if proof then
        let (clauses, n, pf) := encodeCert cert st.constrs 1 st.vm.nextVar [] (initProof st.constrs (nConstraints st.constrs))
        (clauses, n, some pf)
      else
        let (clauses, n) := encodeConstraints enc st.constrs st.vm.nextVar
        (clauses.map fun c => (c, none), n, none)
    ({ st.vm with nextVar := n }.markMaxEncVar).map fun vm => (pf, ⟨clauses, objs, vm⟩)

/-- `id.unwrap()` for each clause in `from_instance_cert`, `/repo/core/src/algs/proofs.rs:51-66`, `:92-106`; `none` is a
panic. -/
def unwrapIds : Collector → Option (List (Clause × Nat))
  | [] => some []
  | (_, none) :: _ => none
  | (c, some id) :: cs => (unwrapIds cs).map fun r => (c, id) :: r

/-- Start of a solver with a proof, `/repo/core/src/algs/proofs.rs:869-883`: the tracer is connected, then the clauses are
added with their ids; `none` is a panic. -/
def startCert (cfg : TracerCfg) (inst : IdInstance) (pf : Pf AnyVar) : Option TracedSolver :=
  match unwrapIds inst.clauses with
  | none => none
  | some cls => TracedSolver.run cfg (cls.map fun q => .cert q.1 q.2) ⟨[], .new pf⟩

/-- What happens before a solver is set up, `/repo/src/main.rs:143-173`. -/
inductive SetUp where
  /-- A run without proof. -/
  | plain (inst : Instance)
  /-- A run with proof: the solver after the clauses were added. -/
  | cert (inst : IdInstance) (s : TracedSolver)
  /-- An error. -/
  | failed
  | panicked

/-- Conversion, reindexing and setting up of a solver, `/repo/src/main.rs:143-173`, `:232-246`, without MaxPre: a run with
proof and reindexing is refused. -/
def setUpRun (cfg : TracerCfg) (enc : PbCon → Nat → List Clause × Nat) (cert : CertPbEnc) (proof reindex : Bool)
    (p : Parsed) : SetUp :=
  match toClausalProof cfg.debug enc cert proof p with
  | none => .panicked
  | some (pf, inst) =>
    if reindex then
      if proof then .failed
      else match reindexing inst.plain with
        | none => .panicked
        | some (_, inst) => .plain inst
    else match pf with
      | none => .plain inst.plain
      | some pf => match startCert cfg inst pf with
        | none => .panicked
        | some s => .cert inst s

end Scuttle

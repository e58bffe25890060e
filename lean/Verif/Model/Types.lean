import Verif.Basic

/-!
# Data types of the solver

Models `/repo/core/src/types.rs`, `/repo/core/src/options.rs`, `/repo/core/src/termination.rs` and the statistics in
`/repo/core/src/lib.rs`.
-/

namespace Scuttle

/-! ## Objectives -/

/-- An objective, `/repo/core/src/types.rs:224-246`. `reform_id` is only used for proof logging and left out. The hash
map of the weighted case is an association list. -/
inductive Objective where
  | weighted (offset : Int) (lits : List (Lit × Nat)) (idx : Nat) (lowerBound : Nat)
  | unweighted (offset : Int) (unitWeight : Nat) (lits : List Lit) (idx : Nat) (lowerBound : Nat)
  | constant (offset : Int) (idx : Nat) (lowerBound : Nat)
  deriving DecidableEq, Repr

/-- Insertion into a hash map: an existing value for the key is replaced (`HashMap::insert`, `collect` into a
`HashMap` in `/repo/core/src/types.rs:272`). -/
def mapInsert {α β} [DecidableEq α] (k : α) (v : β) : List (α × β) → List (α × β)
  | [] => [(k, v)]
  | (k', v') :: t => if k' = k then (k, v) :: t else (k', v') :: mapInsert k v t

/-- Collecting an iterator of pairs into a hash map (`/repo/core/src/types.rs:272`): later pairs replace earlier ones. -/
def mapCollect {α β} [DecidableEq α] (l : List (α × β)) : List (α × β) :=
  l.foldl (fun m p => mapInsert p.1 p.2 m) []

/-- `HashMap::get`. -/
def mapGet {α β} [DecidableEq α] (k : α) : List (α × β) → Option β
  | [] => none
  | (k', v) :: t => if k' = k then some v else mapGet k t

namespace Objective

/-- `Objective::new`, `/repo/core/src/types.rs:250-287`. -/
def new (lits : List (Lit × Nat)) (offset : Int) (idx : Nat) : Objective :=
  match lits with
  | [] => .constant offset idx 0
  | (_, unitWeight) :: _ =>
    if lits.any (fun p => p.2 != unitWeight) then
      .weighted offset (mapCollect lits) idx 0
    else
      .unweighted offset unitWeight (lits.map Prod.fst) idx 0

/-- `Objective::offset`, `/repo/core/src/types.rs:290-296`. -/
def offset : Objective → Int
  | .weighted o .. => o
  | .unweighted o .. => o
  | .constant o .. => o

/-- `Objective::unit_weight`, `/repo/core/src/types.rs:299-304`. -/
def unitWeight : Objective → Nat
  | .weighted .. => 1
  | .unweighted _ w .. => w
  | .constant .. => 1

/-- `Objective::iter` and `ObjIter::next`, `/repo/core/src/types.rs:307-313`, `:376-386`. -/
def iter : Objective → List (Lit × Nat)
  | .weighted _ lits .. => lits
  | .unweighted _ _ lits .. => lits.map fun l => (l, 1)
  | .constant .. => []

/-- `Objective::n_lits`, `/repo/core/src/types.rs:316-322`. -/
def nLits : Objective → Nat
  | .weighted _ lits .. => lits.length
  | .unweighted _ _ lits .. => lits.length
  | .constant .. => 0

/-- `Objective::idx`, `/repo/core/src/types.rs:325-331`. -/
def idx : Objective → Nat
  | .weighted _ _ i _ => i
  | .unweighted _ _ _ i _ => i
  | .constant _ i _ => i

/-- `Objective::set_lower_bound`, `/repo/core/src/types.rs:343-349`. -/
def setLowerBound (n : Nat) : Objective → Objective
  | .weighted o l i _ => .weighted o l i n
  | .unweighted o w l i _ => .unweighted o w l i n
  | .constant o i _ => .constant o i n

/-- `Objective::lower_bound`, `/repo/core/src/types.rs:352-358`. -/
def lowerBound : Objective → Nat
  | .weighted _ _ _ b => b
  | .unweighted _ _ _ _ b => b
  | .constant _ _ b => b

/-- `matches!(obj, Objective::Constant { .. })`, e.g. `/repo/core/src/algs.rs:256`. -/
def isConstant : Objective → Bool
  | .constant .. => true
  | _ => false

/-- The sum computed in `get_cost_with_heuristic_improvements`, `/repo/core/src/algs.rs:601-607`: weights of the
literals with value `True`. -/
def costOf (o : Objective) (sol : Assignment) : Nat :=
  (o.iter.map fun p => if sol.litValue p.1 = .tt then p.2 else 0).sum

end Objective

/-! ## Pareto front -/

/-- `NonDomPoint`, `/repo/core/src/types.rs:142-148`, generic in the solution type as in the code. -/
structure NonDomPoint (S : Type) where
  costs : List Int
  sols : List S
  deriving DecidableEq, Repr

/-- `NonDomPoint::new`, `/repo/core/src/types.rs:155-161`. -/
def NonDomPoint.new {S} (costs : List Int) : NonDomPoint S := ⟨costs, []⟩

/-- `NonDomPoint::add_sol`, `/repo/core/src/types.rs:164-166`. -/
def NonDomPoint.addSol {S} (p : NonDomPoint S) (s : S) : NonDomPoint S := { p with sols := p.sols ++ [s] }

/-- `NonDomPoint::n_sols`, `/repo/core/src/types.rs:169-171`. -/
def NonDomPoint.nSols {S} (p : NonDomPoint S) : Nat := p.sols.length

/-- `NonDomPoint::convert_solutions`, `/repo/core/src/types.rs:174-183`. The Rust closure is `FnMut`; here it threads a
state `σ` through the conversions. -/
def NonDomPoint.convertSolutions {S S2 σ} (conv : S → σ → S2 × σ) (p : NonDomPoint S) (st : σ) : NonDomPoint S2 × σ :=
  let r := p.sols.foldl (fun (acc : List S2 × σ) s => let q := conv s acc.2; (acc.1 ++ [q.1], q.2)) ([], st)
  (⟨p.costs, r.1⟩, r.2)

/-- `ParetoFront`, `/repo/core/src/types.rs:20-25`, is its list `ndoms`. -/
abbrev ParetoFront (S : Type) := List (NonDomPoint S)

/-- `ParetoFront::convert_solutions`, `/repo/core/src/types.rs:32-44`. -/
def ParetoFront.convertSolutions {S S2 σ} (conv : S → σ → S2 × σ) (f : ParetoFront S) (st : σ) : ParetoFront S2 × σ :=
  f.foldl (fun (acc : ParetoFront S2 × σ) p =>
    let q := p.convertSolutions conv acc.2; (acc.1 ++ [q.1], q.2)) ([], st)

/-- One step of the loop of `check_dominated`, `/repo/core/src/types.rs:107-119`; `none` is the early `return false`. -/
def checkDominatedStep (dom : Int) (c1 c2 : Int) : Option Int :=
  if c1 < c2 then
    if dom ≤ 0 then some (-1) else none
  else if c2 < c1 then
    if dom ≥ 0 then some 1 else none
  else some dom

/-- The loop of `check_dominated` over the zipped vectors. -/
def checkDominatedLoop : Int → List Int → List Int → Bool
  | dom, c1 :: t1, c2 :: t2 =>
    match checkDominatedStep dom c1 c2 with
    | none => false
    | some d => checkDominatedLoop d t1 t2
  | dom, _, _ => dom ≠ 0

/-- `check_dominated` in `ParetoFront::extend` (feature `check-non-dominance`), `/repo/core/src/types.rs:105-121`. -/
def checkDominated (c1 c2 : List Int) : Bool := checkDominatedLoop 0 c1 c2

/-- `ParetoFront::extend` with debug assertions and the feature `check-non-dominance`, `/repo/core/src/types.rs:99-132`;
`none` is the panic of an assertion. The costs to compare with (`cost_set`) are those of the points that were in the
front before, they are a list instead of a set. -/
def ParetoFront.extendChecked {S : Type} (f : ParetoFront S) (pts : List (NonDomPoint S)) : Option (ParetoFront S) :=
  let costSet := f.map NonDomPoint.costs
  pts.foldlM (fun (acc : ParetoFront S) (p : NonDomPoint S) =>
    if costSet.any (checkDominated p.costs) || costSet.contains p.costs then none else some (acc ++ [p])) f

/-! ## Variable manager -/

/-- `VarManager`, `/repo/core/src/types.rs:645-650`. -/
structure VarManager where
  nextVar : Nat
  maxOrigVar : Nat
  maxEncVar : Nat
  deriving DecidableEq, Repr

namespace VarManager

/-- `VarManager::new`, `/repo/core/src/types.rs:662-669`; `none` is the failed assertion. -/
def new (maxOrig maxEnc : Nat) : Option VarManager :=
  if maxEnc ≥ maxOrig then some ⟨maxEnc + 1, maxOrig, maxEnc⟩ else none

/-- `VarManager::default`, `/repo/core/src/types.rs:690-696`. -/
def default : VarManager := ⟨0, 0, 0⟩

/-- `VarManager::mark_max_orig_var`, `/repo/core/src/types.rs:671-674`; `none` is the underflow for `next_var = 0`. -/
def markMaxOrigVar (vm : VarManager) : Option VarManager :=
  if vm.nextVar = 0 then none
  else some { vm with maxOrigVar := vm.nextVar - 1, maxEncVar := max vm.maxEncVar (vm.nextVar - 1) }

/-- `VarManager::mark_max_enc_var`, `/repo/core/src/types.rs:676-678`. -/
def markMaxEncVar (vm : VarManager) : Option VarManager :=
  if vm.nextVar = 0 then none else some { vm with maxEncVar := vm.nextVar - 1 }

/-- `VarManager::new_var`, `/repo/core/src/types.rs:700-704`. -/
def newVar (vm : VarManager) : Nat × VarManager := (vm.nextVar, { vm with nextVar := vm.nextVar + 1 })

/-- `VarManager::max_var`, `/repo/core/src/types.rs:706-712`. -/
def maxVar (vm : VarManager) : Option Nat := if vm.nextVar = 0 then none else some (vm.nextVar - 1)

/-- `VarManager::increase_next_free`, `/repo/core/src/types.rs:714-720`. -/
def increaseNextFree (vm : VarManager) (v : Nat) : Bool × VarManager :=
  if v > vm.nextVar then (true, { vm with nextVar := v }) else (false, vm)

/-- `VarManager::combine`, `/repo/core/src/types.rs:722-726`. -/
def combine (vm other : VarManager) : VarManager :=
  if other.nextVar > vm.nextVar then { vm with nextVar := other.nextVar } else vm

/-- `VarManager::n_used`, `/repo/core/src/types.rs:728-730`. -/
def nUsed (vm : VarManager) : Nat := vm.nextVar

/-- `VarManager::forget_from`, `/repo/core/src/types.rs:732-734`. -/
def forgetFrom (vm : VarManager) (minVar : Nat) : VarManager := { vm with nextVar := min vm.nextVar minVar }

end VarManager

/-! ## Reindexer -/

/-- `Reindexer`, `/repo/core/src/types.rs:739-744`. -/
structure Reindexer where
  nextVar : Nat
  inMap : List (Nat × Nat)
  outMap : List Nat
  oldMaxOrigVar : Nat
  deriving DecidableEq, Repr

namespace Reindexer

/-- `Reindexer::new`, `/repo/core/src/types.rs:747-754`. -/
def new (oldMaxOrig : Nat) : Reindexer := ⟨0, [], [], oldMaxOrig⟩

/-- `Reindexer::new_var`, `/repo/core/src/types.rs:782-786`. -/
def newVar (r : Reindexer) : Nat × Reindexer := (r.nextVar, { r with nextVar := r.nextVar + 1 })

/-- `Reindexer::reindex`, `/repo/core/src/types.rs:762-771`. -/
def reindex (r : Reindexer) (inVar : Nat) : Nat × Reindexer :=
  match mapGet inVar r.inMap with
  | some v => (v, r)
  | none =>
    let (v, r') := r.newVar
    (v, { r' with inMap := mapInsert inVar v r'.inMap, outMap := r'.outMap ++ [inVar] })

/-- `Reindexer::reverse`, `/repo/core/src/types.rs:773-778`. -/
def reverse (r : Reindexer) (outVar : Nat) : Option Nat :=
  if outVar ≥ r.outMap.length then none else r.outMap[outVar]?

/-- `Reindexer::max_var`, `/repo/core/src/types.rs:788-794`. -/
def maxVar (r : Reindexer) : Option Nat := if r.nextVar = 0 then none else some (r.nextVar - 1)

/-- `Reindexer::increase_next_free`, `/repo/core/src/types.rs:796-802`. -/
def increaseNextFree (r : Reindexer) (v : Nat) : Bool × Reindexer :=
  if v > r.nextVar then (true, { r with nextVar := v }) else (false, r)

/-- `Reindexer::combine`, `/repo/core/src/types.rs:804-809`. -/
def combine (r other : Reindexer) : Reindexer :=
  let r := if other.nextVar > r.nextVar then { r with nextVar := other.nextVar } else r
  { r with inMap := other.inMap.foldl (fun m p => mapInsert p.1 p.2 m) r.inMap }

/-- `Reindexer::forget_from`, `/repo/core/src/types.rs:815-819`. -/
def forgetFrom (r : Reindexer) (minVar : Nat) : Reindexer :=
  { r with
    inMap := r.inMap.filter (fun p => p.2 < minVar)
    outMap := r.outMap.take (minVar + 1)
    nextVar := min r.nextVar minVar }

/-- `ReindexVars::reindex_lit` (provided method in `rustsat`), used in `/repo/core/src/prepro.rs:342`, `:350`. -/
def reindexLit (r : Reindexer) (l : Lit) : Lit × Reindexer :=
  let (v, r') := r.reindex l.var
  (⟨v, l.neg⟩, r')

/-- `ReindexVars::reverse_lit` (provided method in `rustsat`), used in `/repo/src/main.rs` `post_solve`. -/
def reverseLit (r : Reindexer) (l : Lit) : Option Lit := (r.reverse l.var).map fun v => ⟨v, l.neg⟩

end Reindexer

/-! ## Options, limits, statistics, early termination -/

/-- `EnumOptions`, `/repo/core/src/options.rs:60-69`. -/
inductive EnumOptions where
  | noEnum
  | solutions (limit : Option Nat)
  | pmcss (limit : Option Nat)
  deriving DecidableEq, Repr

/-- `Phase`, `/repo/core/src/lib.rs:42-52`. -/
inductive Phase where
  | outerLoop
  | minimization
  | enumeration
  | linsu
  deriving DecidableEq, Repr

/-- `HeurImprWhen`, `/repo/core/src/options.rs:106-115`. -/
inductive HeurImprWhen where
  | never
  | always
  | outerLoop
  deriving DecidableEq, Repr

/-- `HeurImprWhen::wanted`, `/repo/core/src/options.rs:119-128`. -/
def HeurImprWhen.wanted (w : HeurImprWhen) (p : Phase) : Bool :=
  if p = .enumeration then false
  else match w with
    | .never => false
    | .always => true
    | .outerLoop => p = .outerLoop

/-- `KernelOptions`, `/repo/core/src/options.rs:11-28`. -/
structure KernelOptions where
  enumeration : EnumOptions := .noEnum
  reserveEncVars : Bool := false
  solutionTightening : HeurImprWhen := .outerLoop
  solutionGuidedSearch : Bool := false
  coreTrimming : Bool := false
  coreMinimization : Bool := false
  coreExhaustion : Bool := false
  storeCnf : Bool := false
  deriving DecidableEq, Repr

/-- `Limits`, `/repo/core/src/options.rs:142-153`. -/
structure Limits where
  pps : Option Nat := none
  sols : Option Nat := none
  candidates : Option Nat := none
  oracleCalls : Option Nat := none
  deriving DecidableEq, Repr

/-- `Limits::none`, `/repo/core/src/options.rs:156-163`. -/
def Limits.none : Limits := ⟨.none, .none, .none, .none⟩

/-- `Stats`, `/repo/core/src/lib.rs:67-85`. -/
structure Stats where
  nSolveCalls : Nat := 0
  nSolutions : Nat := 0
  nNonDominated : Nat := 0
  nCandidates : Nat := 0
  nOracleCalls : Nat := 0
  nObjs : Nat := 0
  nRealObjs : Nat := 0
  nOrigClauses : Nat := 0
  deriving DecidableEq, Repr

/-- `Termination`, `/repo/core/src/termination.rs:9-21`. -/
inductive Termination where
  | ppLimit
  | solsLimit
  | candidatesLimit
  | oracleCallsLimit
  | interrupted
  deriving DecidableEq, Repr

/-- `SolverResult` of `rustsat`. -/
inductive SolverResult where
  | sat
  | unsat
  | interrupted
  deriving DecidableEq, Repr

/-- `Instance`, `/repo/core/src/types.rs:829-834`, without proof constraint ids. -/
structure Instance where
  clauses : List Clause
  objs : List Objective
  vm : VarManager

end Scuttle

import Verif.Model.Types

/-!
# Objective encodings

The interface of the incremental upper-bound encodings of `rustsat` (`pb::BoundUpperIncremental`,
`card::BoundUpperIncremental`), and the wrapper `ObjEncoding` of `/repo/core/src/types.rs:390-533`.
The encodings themselves (totalizer, generalized totalizer) are in `rustsat` and not in `/repo`, so they are a type
class here; the contract they are assumed to satisfy is `LawfulEnc` in `Verif/Proof/EncLaws.lean`.
-/

namespace Scuttle

/-- Interface of an incremental upper-bound encoding, as used in `/repo/core/src/types.rs:401-517`.
`encode e lo hi n` is `encode_ub_change(lo..hi, ..)` with `n` the next free variable: new state, clauses, new next free
variable. `enforce` is `enforce_ub` with `none` for `Err`. Running out of memory is not modelled. -/
class UbEnc (E : Type) where
  ofLits : List (Lit × Nat) → E
  reserve : E → Nat → E × Nat
  encode : E → Nat → Nat → Nat → E × List Clause × Nat
  enforce : E → Nat → Option (List Lit)
  nextHigher : E → Nat → Nat

/-- `ObjEncoding`, `/repo/core/src/types.rs:390-394`. -/
inductive ObjEnc (P C : Type) where
  | weighted (enc : P) (offset : Nat)
  | unweighted (enc : C) (offset : Nat)
  | constant

namespace ObjEnc

variable {P C : Type} [UbEnc P] [UbEnc C]

/-- `ObjEncoding::new_weighted`, `/repo/core/src/types.rs:401-411`. The second component is the next free variable. -/
def newWeighted (lits : List (Lit × Nat)) (reserve : Bool) (n : Nat) : ObjEnc P C × Nat :=
  let e : P := UbEnc.ofLits lits
  if reserve then
    let r := UbEnc.reserve e n
    (.weighted r.1 0, r.2)
  else (.weighted e 0, n)

/-- `ObjEncoding::new_unweighted`, `/repo/core/src/types.rs:419-429`. -/
def newUnweighted (lits : List Lit) (reserve : Bool) (n : Nat) : ObjEnc P C × Nat :=
  let e : C := UbEnc.ofLits (lits.map fun l => (l, 1))
  if reserve then
    let r := UbEnc.reserve e n
    (.unweighted r.1 0, r.2)
  else (.unweighted e 0, n)

/-- `ObjEncoding::offset`, `/repo/core/src/types.rs:434-440`. -/
def offset : ObjEnc P C → Nat
  | .weighted _ o => o
  | .unweighted _ o => o
  | .constant => 0

/-- `matches!(enc, ObjEncoding::Constant)`, `/repo/core/src/algs/pminimal.rs:625`. -/
def isConstant : ObjEnc P C → Bool
  | .constant => true
  | _ => false

/-- `ObjEncoding::next_higher`, `/repo/core/src/types.rs:449-455`; `none` is the underflow of `val - offset`. -/
def nextHigher (e : ObjEnc P C) (val : Nat) : Option Nat :=
  match e with
  | .weighted e o => if val < o then none else some (UbEnc.nextHigher e (val - o) + o)
  | .unweighted .. => some (val + 1)
  | .constant => some val

/-- `ObjEncoding::encode_ub_change`, `/repo/core/src/types.rs:458-496`. The bounds are clamped at 0 there, which is what
subtraction of natural numbers does. -/
def encodeUbChange (e : ObjEnc P C) (lo hi n : Nat) : ObjEnc P C × List Clause × Nat :=
  match e with
  | .weighted e o => let r := UbEnc.encode e (lo - o) (hi - o) n; (.weighted r.1 o, r.2.1, r.2.2)
  | .unweighted e o => let r := UbEnc.encode e (lo - o) (hi - o) n; (.unweighted r.1 o, r.2.1, r.2.2)
  | .constant => (.constant, [], n)

/-- `ObjEncoding::enforce_ub`, `/repo/core/src/types.rs:499-517`; `none` is `Err`. -/
def enforceUb (e : ObjEnc P C) (ub : Nat) : Option (List Lit) :=
  match e with
  | .weighted e o => if ub ≥ o then UbEnc.enforce e (ub - o) else none
  | .unweighted e o => if ub ≥ o then UbEnc.enforce e (ub - o) else none
  | .constant => some []

end ObjEnc

end Scuttle

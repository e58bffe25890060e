import Verif.Model.CertPre
import Verif.SpecPrepro
import Verif.SpecTracer
import Verif.SpecProofLog

/-!
# Specification of the conversion to clauses with a proof
-/

namespace Scuttle.Spec

open Scuttle

/-- Variables of the solver from `n` on are not used in the proof. -/
def UnusedFrom (n : Nat) (pf : Pf AnyVar) : Prop := ∀ d ∈ live pf.db, ∀ v, Mentions d (.solver v) → v < n

/-- The checker has the constraint under an id: its lines have this id and the following ones. -/
def HasId (pf : Pf AnyVar) (c : PbCon) (id : Nat) : Prop :=
  ∀ k d, c.lines[k]? = some d → pf.db.get (id + k) = some d

/-- The order of the proof does not depend on variables from `n` on. -/
def OrderBelow (ord : (AnyVar → Bool) → (AnyVar → Bool) → Prop) (n : Nat) : Prop :=
  ∀ a b : AnyVar → Bool, (∀ v, v < n → a (.solver v) = b (.solver v)) → ord a b

/-- What a certified encoder does for one constraint. It returns the clauses of the encoder without proof, writes correct
lines, keeps the constraints with other ids, and returns each clause with the id of a constraint that says the same. This
is a constraint it has derived or the given one, and a different one for each clause. -/
structure CertEncodes (ord : (AnyVar → Bool) → (AnyVar → Bool) → Prop) (enc : PbCon → Nat → List Clause × Nat)
    (c : PbCon) (id n : Nat) (pf : Pf AnyVar) (r : List (Clause × Nat) × Nat × Pf AnyVar) : Prop where
  clauses : r.1.map Prod.fst = (enc c n).1
  next : r.2.1 = (enc c n).2
  lines : ∃ new, r.2.2.steps = pf.steps ++ new ∧ Accepted ord pf.db new ∧
    r.2.2.db = new.foldl (fun db st => st.apply db) pf.db
  input : r.2.2.nInput = pf.nInput
  keeps : ∀ i d, pf.db.get i = some d → (i < id ∨ id + c.lines.length ≤ i) → r.2.2.db.get i = some d
  found : ∀ q ∈ r.1, ∃ con, r.2.2.db.get q.2 = some con ∧ con.Same (clauseCon q.1)
  own : ∀ q ∈ r.1, (id ≤ q.2 ∧ q.2 < id + c.lines.length) ∨ pf.nextId ≤ q.2
  nodup : (r.1.map Prod.snd).Nodup
  unused : UnusedFrom r.2.1 r.2.2

/-- What is assumed of `cert::default_encode_pb_constraint` of `rustsat`, for a constraint that the checker has under the
given id. -/
def GoodCertEncoding (enc : PbCon → Nat → List Clause × Nat) (cert : CertPbEnc) : Prop :=
  ∀ ord c id n pf, (∀ t ∈ c.terms, t.1.var < n) → UnusedFrom n pf → HasId pf c id → OrderBelow ord n →
    CertEncodes ord enc c id n pf (cert c id n pf)

end Scuttle.Spec

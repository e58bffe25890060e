import Verif.Proof.Basic
import Verif.Model.Enc

/-!
# Contract of the encodings

What is assumed of the totalizer and generalized totalizer encodings of `rustsat`. This is part of the trusted base;
`Verif/Proof/RefEnc.lean` shows that the contract can be met.
-/

namespace Scuttle

open Spec

/-- Two assignments agree on the variables below `n`. -/
def AgreeBelow (n : Nat) (m m' : Asg) : Prop := ∀ v, v < n → m v = m' v

/-- All variables of the clauses are below `n`. -/
def VarsBelow (n : Nat) (cs : List Clause) : Prop := ∀ c ∈ cs, ∀ l ∈ c, l.var < n

/-- All variables of the literals are below `n`. -/
def LitsBelow (n : Nat) (ls : List Lit) : Prop := ∀ l ∈ ls, l.var < n

/-- Contract of an incremental upper-bound encoding.

`val e m` is the value of the encoded sum under `m`, `maxVal e` its largest value. `Sound e m` holds if `m` satisfies
what the encoding has emitted so far, `Exact e m` if in addition its auxiliary variables have the values of the sums
that they stand for. `Ready e b` holds if the bound `b` has been encoded, `Below e n` if all variables of the encoding
are below `n`. Variables keep their meaning when more is encoded (`encode_exact_mono`). -/
class LawfulUbEnc (E : Type) [UbEnc E] where
  val : E → Asg → Nat
  maxVal : E → Nat
  Sound : E → Asg → Prop
  Exact : E → Asg → Prop
  Ready : E → Nat → Prop
  Below : E → Nat → Prop
  val_ofLits : ∀ l m, val (UbEnc.ofLits l) m = linear m l
  maxVal_ofLits : ∀ l, maxVal (UbEnc.ofLits l) = (l.map Prod.snd).sum
  sound_ofLits : ∀ l m, Sound (UbEnc.ofLits l) m
  exact_ofLits : ∀ l m, Exact (UbEnc.ofLits l) m
  below_ofLits : ∀ l n, (∀ p ∈ l, p.1.var < n) → Below (UbEnc.ofLits l) n
  below_mono : ∀ e n n', Below e n → n ≤ n' → Below e n'
  exact_local : ∀ e n m m', Below e n → AgreeBelow n m m' → Exact e m → Exact e m'
  val_local : ∀ e n m m', Below e n → AgreeBelow n m m' → val e m = val e m'
  reserve_next : ∀ e n, Below e n → n ≤ (UbEnc.reserve e n).2
  reserve_below : ∀ e n, Below e n → Below (UbEnc.reserve e n).1 (UbEnc.reserve e n).2
  reserve_val : ∀ e n m, val (UbEnc.reserve e n).1 m = val e m
  reserve_maxVal : ∀ e n, maxVal (UbEnc.reserve e n).1 = maxVal e
  reserve_sound : ∀ e n m, Sound e m → Sound (UbEnc.reserve e n).1 m
  reserve_exact : ∀ e n m, Below e n → Exact e m → ∃ m', AgreeBelow n m m' ∧ Exact (UbEnc.reserve e n).1 m'
  encode_next : ∀ e lo hi n, Below e n → n ≤ (UbEnc.encode e lo hi n).2.2
  encode_below : ∀ e lo hi n, Below e n → Below (UbEnc.encode e lo hi n).1 (UbEnc.encode e lo hi n).2.2
  encode_vars : ∀ e lo hi n, Below e n → VarsBelow (UbEnc.encode e lo hi n).2.2 (UbEnc.encode e lo hi n).2.1
  encode_val : ∀ e lo hi n m, val (UbEnc.encode e lo hi n).1 m = val e m
  encode_maxVal : ∀ e lo hi n, maxVal (UbEnc.encode e lo hi n).1 = maxVal e
  encode_sound : ∀ e lo hi n m, Below e n → Sound e m → cnfEval m (UbEnc.encode e lo hi n).2.1 = true →
    Sound (UbEnc.encode e lo hi n).1 m
  encode_exact : ∀ e lo hi n m, Below e n → Exact e m → ∃ m', AgreeBelow n m m' ∧
    cnfEval m' (UbEnc.encode e lo hi n).2.1 = true ∧ Exact (UbEnc.encode e lo hi n).1 m'
  encode_exact_mono : ∀ e lo hi n m, Exact (UbEnc.encode e lo hi n).1 m → Exact e m
  encode_ready : ∀ e lo hi n b, lo ≤ b → b < hi → Ready (UbEnc.encode e lo hi n).1 b
  encode_ready_mono : ∀ e lo hi n b, Ready e b → Ready (UbEnc.encode e lo hi n).1 b
  enforce_ok : ∀ e b n, Ready e b → Below e n → ∃ ls, UbEnc.enforce e b = some ls ∧ LitsBelow n ls
  enforce_sound : ∀ e b ls m, Ready e b → UbEnc.enforce e b = some ls → Sound e m → cubeEval m ls = true →
    val e m ≤ b
  enforce_exact : ∀ e b ls m, Ready e b → UbEnc.enforce e b = some ls → Exact e m → val e m ≤ b →
    cubeEval m ls = true
  enforce_max : ∀ e b, Ready e b → maxVal e ≤ b → UbEnc.enforce e b = some []
  nextHigher_lt : ∀ e b, b < maxVal e → b < UbEnc.nextHigher e b
  nextHigher_le : ∀ e b m, b < val e m → UbEnc.nextHigher e b ≤ val e m

end Scuttle

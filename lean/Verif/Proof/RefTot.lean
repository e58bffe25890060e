import Verif.Proof.TotLaws
import Verif.Proof.RefEnc

/-!
# A reference totalizer database

A database that meets the contracts `LawfulTotDb` and `LawfulMergeEnc`. It shows that the assumptions of the theorems on
core boosting can be met, and makes it possible to run the model. It does not model code of `/repo`.
-/

namespace Scuttle

open Spec

/-- Applies a limit. -/
def capAt (lim : Option Nat) (x : Nat) : Nat :=
  match lim with
  | none => x
  | some k => min k x

/-- Sums as trees: `add w off lim a b` is `w` times `a` with the first `off` outputs skipped and at most `lim` used,
plus `b`. -/
inductive TExp where
  | zero
  | leaf (l : Lit)
  | add (w off : Nat) (lim : Option Nat) (a b : TExp)
  deriving DecidableEq, Repr

namespace TExp

/-- Value under an assignment. -/
def val : TExp → Asg → Nat
  | .zero, _ => 0
  | .leaf l, m => if l.eval m = true then 1 else 0
  | .add w off lim a b, m => w * capAt lim (a.val m - off) + b.val m

/-- Number of outputs. -/
def maxV : TExp → Nat
  | .zero => 0
  | .leaf _ => 1
  | .add w off lim a b => w * capAt lim (a.maxV - off) + b.maxV

/-- Variables at the leaves. -/
def vars : TExp → List Nat
  | .zero => []
  | .leaf l => [l.var]
  | .add _ _ _ a b => a.vars ++ b.vars

/-- All weights are 1. -/
def unit : TExp → Bool
  | .zero => true
  | .leaf _ => true
  | .add w _ _ a b => w == 1 && a.unit && b.unit

theorem capAt_mono {lim : Option Nat} {x y : Nat} (h : x ≤ y) : capAt lim x ≤ capAt lim y := by
  cases lim with
  | none => exact h
  | some k => simp only [capAt]; omega

theorem val_le (e : TExp) (m : Asg) : e.val m ≤ e.maxV := by
  induction e with
  | zero => exact Nat.le_refl _
  | leaf l => simp only [val, maxV]; split <;> omega
  | add w off lim a b iha ihb =>
    simp only [val, maxV]
    exact Nat.add_le_add (Nat.mul_le_mul_left _ (capAt_mono (Nat.sub_le_sub_right iha _))) ihb

theorem val_congr (e : TExp) {m m' : Asg} (h : ∀ v ∈ e.vars, m v = m' v) : e.val m = e.val m' := by
  induction e with
  | zero => rfl
  | leaf l =>
    have : m l.var = m' l.var := h _ (by simp [vars])
    simp [val, Lit.eval, this]
  | add w off lim a b iha ihb =>
    simp only [vars, List.mem_append] at h
    simp only [val]
    rw [iha fun v hv => h v (.inl hv), ihb fun v hv => h v (.inr hv)]

/-- All variables at the leaves are below `n`. -/
def Below (e : TExp) (n : Nat) : Prop := ∀ v ∈ e.vars, v < n

/-- The sum of a list of literals with weights. -/
def ofLits : List (Lit × Nat) → TExp
  | [] => .zero
  | (l, w) :: ls => .add w 0 none (.leaf l) (ofLits ls)

theorem ofLits_val (ls : List (Lit × Nat)) (m : Asg) : (ofLits ls).val m = linear m ls := by
  induction ls with
  | nil => rfl
  | cons p ls ih =>
    obtain ⟨l, w⟩ := p
    simp only [ofLits, val, capAt, ih, linear, ← Lit.eval_iff]
    split <;> simp

theorem ofLits_maxV (ls : List (Lit × Nat)) : (ofLits ls).maxV = (ls.map Prod.snd).sum := by
  induction ls with
  | nil => rfl
  | cons p ls ih =>
    obtain ⟨l, w⟩ := p
    simp [ofLits, maxV, capAt, ih]

theorem ofLits_below (ls : List (Lit × Nat)) (n : Nat) (h : ∀ p ∈ ls, p.1.var < n) : (ofLits ls).Below n := by
  induction ls with
  | nil => intro v hv; simp [ofLits, vars] at hv
  | cons p ls ih =>
    obtain ⟨l, w⟩ := p
    intro v hv
    simp only [ofLits, vars, List.mem_append, List.mem_singleton] at hv
    rcases hv with rfl | hv
    · exact h (l, w) (by simp)
    · exact ih (fun p hp => h p (by simp [hp])) v hv

/-- Clauses over the variables `vs` that exclude the assignments for which `f` holds; `a` gives the values of variables
already decided. -/
def forbid (f : Asg → Bool) : List Nat → Asg → List Clause
  | [], a => if f a then [[]] else []
  | v :: vs, a =>
    (forbid f vs fun x => if x = v then false else a x).map (Lit.pos v :: ·) ++
      (forbid f vs fun x => if x = v then true else a x).map ((Lit.pos v).not :: ·)

/-- The assignment `a` overridden by `m` on `vs`. -/
def over (m : Asg) : List Nat → Asg → Asg
  | [], a => a
  | v :: vs, a => over m vs fun x => if x = v then m v else a x

theorem over_not_mem (m : Asg) (vs : List Nat) (a : Asg) (v : Nat) (h : a v = m v) : over m vs a v = m v := by
  induction vs generalizing a with
  | nil => exact h
  | cons w vs ih =>
    simp only [over]
    apply ih
    split
    · next he => rw [he]
    · exact h

theorem over_mem (m : Asg) (vs : List Nat) (a : Asg) (v : Nat) (h : v ∈ vs) : over m vs a v = m v := by
  induction vs generalizing a with
  | nil => simp at h
  | cons w vs ih =>
    simp only [over]
    rcases List.mem_cons.1 h with rfl | h
    · exact over_not_mem m vs _ v (by simp)
    · exact ih _ h

theorem forbid_eval (f : Asg → Bool) (m : Asg) (vs : List Nat) (a : Asg) :
    cnfEval m (forbid f vs a) = true ↔ f (over m vs a) = false := by
  induction vs generalizing a with
  | nil =>
    simp only [forbid, over]
    cases f a <;> simp [cnfEval, clauseEval]
  | cons v vs ih =>
    simp only [forbid, over]
    rw [cnfEval_append, cnfEval_map_cons, cnfEval_map_cons, Bool.or_eq_true, Bool.or_eq_true, ih, ih, Lit.eval_not,
      Lit.eval_pos]
    cases h : m v <;> simp

theorem forbid_vars (f : Asg → Bool) (n : Nat) (vs : List Nat) (a : Asg) (h : ∀ v ∈ vs, v < n) :
    VarsBelow n (forbid f vs a) := by
  induction vs generalizing a with
  | nil =>
    intro c hc
    simp only [forbid] at hc
    split at hc
    · simp only [List.mem_singleton] at hc; subst hc; simp
    · simp at hc
  | cons v vs ih =>
    have hv : v < n := h v (by simp)
    have ih' := fun a => ih a fun v hv => h v (by simp [hv])
    intro c hc
    simp only [forbid, List.mem_append, List.mem_map] at hc
    rcases hc with ⟨c', h1, rfl⟩ | ⟨c', h1, rfl⟩ <;> intro l hl <;> rcases List.mem_cons.1 hl with rfl | hl
    · simpa using hv
    · exact ih' _ c' h1 l hl
    · simpa using hv
    · exact ih' _ c' h1 l hl

/-- Clauses that say that the sum is at most `b`. -/
def atMost (e : TExp) (b : Nat) : List Clause := forbid (fun a => decide (b < e.val a)) e.vars fun _ => false

theorem atMost_eval (e : TExp) (m : Asg) (b : Nat) : cnfEval m (e.atMost b) = true ↔ e.val m ≤ b := by
  unfold atMost
  rw [forbid_eval, e.val_congr (m := over m e.vars fun _ => false) (m' := m) fun v hv => over_mem m _ _ v hv]
  simp

instance : RefSum TExp where
  ofLits := ofLits
  val := val
  maxV := maxV
  BelowS := Below
  atMost := atMost
  val_ofLits := ofLits_val
  maxV_ofLits := ofLits_maxV
  below_ofLits := ofLits_below
  below_mono _ _ _ h hn v hv := Nat.lt_of_lt_of_le (h v hv) hn
  val_local e _ _ _ h ha := e.val_congr fun v hv => ha v (h v hv)
  val_le := val_le
  atMost_eval := atMost_eval
  atMost_vars e n b h := forbid_vars _ n _ _ h

end TExp

/-- Output number `num` of the node `id`, which has the sum `sum`, its variable, and whether its clauses were emitted. -/
structure RefOut where
  id : Nat
  num : Nat
  var : Nat
  sum : TExp
  enc : Bool
  deriving DecidableEq

/-- Reference database: nodes, with a flag for those made by merging, and outputs. -/
structure RefTot where
  nodes : List (Bool × TExp)
  outs : List RefOut

namespace RefTot

/-- The sum at a node. -/
def exp (d : RefTot) (id : Nat) : TExp :=
  match d.nodes[id]? with
  | some p => p.2
  | none => .zero

/-- The sum of some connections. -/
def sumOf (d : RefTot) : List NodeCon → TExp
  | [] => .zero
  | c :: cs => .add c.weight c.offset c.limit (d.exp c.id) (d.sumOf cs)

/-- A variable that is not an output. -/
def fresh (outs : List RefOut) (n : Nat) : Nat := outs.foldr (fun p x => max x (p.var + 1)) n

/-- The output of a variable. -/
def owner (x : Nat) : List RefOut → Option RefOut
  | [] => none
  | p :: os => if p.var = x then some p else owner x os

/-- Adds a node. -/
def push (d : RefTot) (inner : Bool) (e : TExp) : RefTot := ⟨d.nodes ++ [(inner, e)], d.outs⟩

/-- What an output stands for. -/
def _root_.Scuttle.RefOut.key (p : RefOut) : Nat × Nat × TExp := (p.id, p.num, p.sum)

/-- The output is the given one, and the one that its variable belongs to. -/
def fits (outs : List RefOut) (key : Nat × Nat × TExp) (p : RefOut) : Bool :=
  decide (RefOut.key p = key) && decide ((owner p.var outs).map RefOut.key = some key)

/-- The output with the given number of a node. -/
def lookup (d : RefTot) (id i : Nat) : Option RefOut := d.outs.find? (fits d.outs (id, i, d.exp id))

/-- Marks the output `p` as emitted. -/
def markOne (p q : RefOut) : RefOut := if RefOut.key q = RefOut.key p ∧ q.var = p.var then { q with enc := true } else q

/-- Clauses for an output. -/
def outCls (d : RefTot) (id i x : Nat) : List Clause := ((d.exp id).atMost i).map (Lit.pos x :: ·)

instance : TotDb RefTot where
  empty := ⟨[], []⟩
  leaf d l := (d.push false (.leaf l), d.nodes.length)
  merge d cons := (d.push (decide (2 ≤ cons.length)) (d.sumOf cons), d.nodes.length)
  len d id := (d.exp id).maxV
  define d id i n :=
    match d.lookup id i with
    | some p =>
      if p.enc then (d, Lit.pos p.var, [], n) else (⟨d.nodes, d.outs.map (markOne p)⟩, Lit.pos p.var, d.outCls id i p.var, n)
    | none =>
      let x := fresh d.outs n
      (⟨d.nodes, ⟨id, i, x, d.exp id, true⟩ :: d.outs⟩, Lit.pos x, d.outCls id i x, x + 1)
  reserve d _ _ n := (d, n)
  resetVars d := ⟨d.nodes, []⟩

instance : TotSem RefTot where
  Node d id := id < d.nodes.length
  Inner d id := ∃ e, d.nodes[id]? = some (true, e)
  cnt d id m := (d.exp id).val m
  Sound d m := ∀ p ∈ d.outs, p.enc = true → p.num < p.sum.val m → m p.var = true
  Exact d m := ∀ p ∈ d.outs, m p.var = decide (p.num < p.sum.val m)
  Below d n := (∀ p ∈ d.nodes, p.2.Below n) ∧ ∀ p ∈ d.outs, p.var < n ∧ p.sum.Below n
  Inputs d n := ∀ p ∈ d.nodes, p.2.Below n
  Base d b := ∀ p ∈ d.outs, b ≤ p.var
  IsOut d id i l := id < d.nodes.length ∧ ∃ p, d.lookup id i = some p ∧ p.enc = true ∧ l = Lit.pos p.var

open TotSem

theorem owner_mem {x : Nat} {p : RefOut} {outs : List RefOut} (h : owner x outs = some p) : p ∈ outs ∧ p.var = x := by
  induction outs with
  | nil => simp [owner] at h
  | cons q outs ih =>
    simp only [owner] at h
    split at h
    · next hy =>
      simp only [Option.some.injEq] at h
      subst h
      exact ⟨by simp, hy⟩
    · exact ⟨List.mem_cons_of_mem _ (ih h).1, (ih h).2⟩

theorem lookup_some {d : RefTot} {id i : Nat} {p : RefOut} (h : d.lookup id i = some p) :
    p ∈ d.outs ∧ p.id = id ∧ p.num = i ∧ p.sum = d.exp id ∧ (owner p.var d.outs).map RefOut.key = some (id, i, d.exp id) := by
  have h1 := List.find?_some h
  simp only [fits, RefOut.key, Bool.and_eq_true, decide_eq_true_eq, Prod.mk.injEq] at h1
  exact ⟨List.mem_of_find?_eq_some h, h1.1.1, h1.1.2.1, h1.1.2.2, h1.2⟩

theorem markOne_var (p q : RefOut) : (markOne p q).var = q.var := by unfold markOne; split <;> rfl
theorem markOne_key (p q : RefOut) : (markOne p q).key = q.key := by unfold markOne; split <;> rfl
theorem markOne_num (p q : RefOut) : (markOne p q).num = q.num := by unfold markOne; split <;> rfl
theorem markOne_sum (p q : RefOut) : (markOne p q).sum = q.sum := by unfold markOne; split <;> rfl
theorem markOne_enc {p q : RefOut} (h : q.enc = true) : (markOne p q).enc = true := by
  unfold markOne
  split
  · rfl
  · exact h

/-- Changes of outputs that keep what they stand for. -/
theorem owner_map (f : RefOut → RefOut) (hf : ∀ q, (f q).var = q.var) (x : Nat) (outs : List RefOut) :
    owner x (outs.map f) = (owner x outs).map f := by
  induction outs with
  | nil => rfl
  | cons q outs ih =>
    simp only [List.map_cons, owner, hf]
    split
    · rfl
    · exact ih

theorem lookup_map (f : RefOut → RefOut) (hf : ∀ q, (f q).var = q.var) (hk : ∀ q, (f q).key = q.key) (d : RefTot) (id i : Nat) :
    lookup ⟨d.nodes, d.outs.map f⟩ id i = (d.lookup id i).map f := by
  unfold lookup
  simp only
  rw [List.find?_map]
  congr 2
  funext q
  simp only [fits, Function.comp_apply, hf, hk, owner_map f hf, Option.map_map]
  have : RefOut.key ∘ f = RefOut.key := by funext q; exact hk q
  rw [this]
  rfl

theorem lookup_new {d : RefTot} {id i x : Nat} {e : TExp} {b : Bool} {id' i' : Nat} (hx : ∀ p ∈ d.outs, p.var < x)
    {q : RefOut} (hne : (id, i, e) ≠ (id', i', d.exp id')) (h : d.lookup id' i' = some q) :
    lookup ⟨d.nodes, ⟨id, i, x, e, b⟩ :: d.outs⟩ id' i' = some q := by
  unfold lookup at h ⊢
  simp only
  have hexp : exp ⟨d.nodes, ⟨id, i, x, e, b⟩ :: d.outs⟩ id' = d.exp id' := rfl
  rw [hexp, List.find?_cons]
  have : fits (⟨id, i, x, e, b⟩ :: d.outs) (id', i', d.exp id') ⟨id, i, x, e, b⟩ = false := by
    simp only [fits, RefOut.key, Bool.and_eq_false_iff]
    exact .inl (decide_eq_false hne)
  rw [this]
  simp only
  rw [← h]
  clear h this
  have key : ∀ l : List RefOut, (∀ p ∈ l, p.var < x) →
      l.find? (fits (⟨id, i, x, e, b⟩ :: d.outs) (id', i', d.exp id')) = l.find? (fits d.outs (id', i', d.exp id')) := by
    intro l
    induction l with
    | nil => intro _; rfl
    | cons p l ih =>
      intro hl
      have hp : fits (⟨id, i, x, e, b⟩ :: d.outs) (id', i', d.exp id') p = fits d.outs (id', i', d.exp id') p := by
        have hv := hl p (by simp)
        have : owner p.var (⟨id, i, x, e, b⟩ :: d.outs) = owner p.var d.outs := by
          simp only [owner]
          rw [if_neg (by omega)]
        simp only [fits, this]
      rw [List.find?_cons, List.find?_cons, hp, ih fun q hq => hl q (by simp [hq])]
  exact key _ hx

theorem fresh_le (outs : List RefOut) (n : Nat) : n ≤ fresh outs n := by
  induction outs with
  | nil => exact Nat.le_refl _
  | cons p outs ih => simp only [fresh, List.foldr_cons] at ih ⊢; omega

theorem fresh_lt {outs : List RefOut} {n : Nat} {p : RefOut} (hp : p ∈ outs) : p.var < fresh outs n := by
  induction outs with
  | nil => simp at hp
  | cons q outs ih =>
    simp only [fresh, List.foldr_cons] at ih ⊢
    rcases List.mem_cons.1 hp with rfl | hp
    · omega
    · have := ih hp; omega

theorem fresh_eq {outs : List RefOut} {n : Nat} (h : ∀ p ∈ outs, p.var < n) : fresh outs n = n := by
  induction outs with
  | nil => rfl
  | cons q outs ih =>
    have h1 := h q (by simp)
    have h2 := ih fun p hp => h p (by simp [hp])
    simp only [fresh, List.foldr_cons] at h2 ⊢
    omega

theorem exp_push (d : RefTot) (b : Bool) (e : TExp) {id : Nat} (h : id < d.nodes.length) : (d.push b e).exp id = d.exp id := by
  simp only [exp, push, List.getElem?_append_left h]

theorem exp_push_new (d : RefTot) (b : Bool) (e : TExp) : (d.push b e).exp d.nodes.length = e := by
  simp [exp, push]

theorem exp_below {d : RefTot} {n : Nat} (h : ∀ p ∈ d.nodes, p.2.Below n) (id : Nat) : (d.exp id).Below n := by
  unfold exp
  split
  · next p hp => exact h p (List.mem_of_getElem? hp)
  · intro v hv; simp [TExp.vars] at hv

theorem sumOf_below {d : RefTot} {n : Nat} (h : ∀ p ∈ d.nodes, p.2.Below n) (cons : List NodeCon) : (d.sumOf cons).Below n := by
  induction cons with
  | nil => intro v hv; simp [sumOf, TExp.vars] at hv
  | cons c cons ih =>
    intro v hv
    simp only [sumOf, TExp.vars, List.mem_append] at hv
    rcases hv with hv | hv
    · exact exp_below h _ v hv
    · exact ih v hv

theorem push_below {d : RefTot} {n : Nat} {b : Bool} {e : TExp} (h : ∀ p ∈ d.nodes, p.2.Below n) (he : e.Below n) :
    ∀ p ∈ (d.push b e).nodes, p.2.Below n := by
  intro p hp
  rcases List.mem_append.1 hp with hp | hp
  · exact h p hp
  · simp only [List.mem_singleton] at hp; subst hp; exact he

theorem cap_eq (c : NodeCon) (x : Nat) : c.cap x = capAt c.limit x := rfl

theorem sumOf_val (d : RefTot) (cons : List NodeCon) (m : Asg) : (d.sumOf cons).val m = (cons.map (conVal d m)).sum := by
  induction cons with
  | nil => rfl
  | cons c cons ih =>
    simp only [sumOf, TExp.val, ih, List.map_cons, List.sum_cons, conVal, cap_eq]
    rfl

theorem sumOf_maxV (d : RefTot) (cons : List NodeCon) :
    (d.sumOf cons).maxV = (cons.map fun c => c.weight * conLen d c).sum := by
  induction cons with
  | nil => rfl
  | cons c cons ih =>
    simp only [sumOf, TExp.maxV, ih, List.map_cons, List.sum_cons, conLen, cap_eq]
    rfl

theorem push_step (d : RefTot) (b : Bool) (e : TExp) : DStep d (d.push b e) where
  node id h := by
    simp only [Node, push, List.length_append, List.length_singleton] at h ⊢
    omega
  inner id h := by
    obtain ⟨e', h⟩ := h
    refine ⟨e', ?_⟩
    have := (List.getElem?_eq_some_iff.1 h).1
    simp only [push]
    rw [List.getElem?_append_left this]
    exact h
  cnt id m h := by simp only [cnt]; rw [exp_push d b e h]
  len id h := by simp only [TotDb.len]; rw [exp_push d b e h]
  out id i l h := by
    obtain ⟨h1, p, h2, h3, h4⟩ := h
    refine ⟨?_, p, ?_, h3, h4⟩
    · simp only [push, List.length_append, List.length_singleton]
      omega
    · unfold lookup at h2 ⊢
      rw [exp_push d b e h1]
      exact h2

/-- What `define` does to a database. -/
inductive Defined (d : RefTot) (id i n : Nat) : RefTot × Lit × List Clause × Nat → Prop where
  | old (p : RefOut) (h : d.lookup id i = some p) (he : p.enc = true) : Defined d id i n (d, Lit.pos p.var, [], n)
  | held (p : RefOut) (h : d.lookup id i = some p) :
      Defined d id i n (⟨d.nodes, d.outs.map (markOne p)⟩, Lit.pos p.var, d.outCls id i p.var, n)
  | new (x : Nat) (hx : n ≤ x) (h : ∀ p ∈ d.outs, p.var < x) (heq : (∀ p ∈ d.outs, p.var < n) → x = n)
      (hn : d.lookup id i = none) :
      Defined d id i n (⟨d.nodes, ⟨id, i, x, d.exp id, true⟩ :: d.outs⟩, Lit.pos x, d.outCls id i x, x + 1)

theorem define_cases (d : RefTot) (id i n : Nat) : Defined d id i n (TotDb.define d id i n) := by
  simp only [TotDb.define]
  split
  · next p hp =>
    split
    · next he => exact .old p hp he
    · exact .held p hp
  · next hn => exact .new _ (fresh_le _ _) (fun p hp => fresh_lt hp) fresh_eq hn

theorem outCls_eval (d : RefTot) (id i x : Nat) (m : Asg) :
    cnfEval m (d.outCls id i x) = true ↔ (i < (d.exp id).val m → m x = true) := by
  unfold outCls
  rw [cnfEval_map_cons, Bool.or_eq_true, TExp.atMost_eval, Lit.eval_pos]
  constructor
  · rintro (h | h) hlt
    · exact h
    · omega
  · intro h
    by_cases hlt : i < (d.exp id).val m
    · exact .inl (h hlt)
    · exact .inr (by omega)

theorem outCls_vars {d : RefTot} {id i x n : Nat} (hx : x < n) (hd : ∀ p ∈ d.nodes, p.2.Below n) :
    VarsBelow n (d.outCls id i x) := by
  intro c hc l hl
  obtain ⟨c', h1, rfl⟩ := List.mem_map.1 hc
  rcases List.mem_cons.1 hl with rfl | hl
  · exact hx
  · exact RefSum.atMost_vars (d.exp id) n i (exp_below hd id) c' h1 l hl

theorem mem_mark {d : RefTot} {p q : RefOut} (h : q ∈ d.outs.map (markOne p)) :
    ∃ q' ∈ d.outs, q = markOne p q' := by
  obtain ⟨q', h1, h2⟩ := List.mem_map.1 h
  exact ⟨q', h1, h2.symm⟩

theorem exp_nodes {d d' : RefTot} (h : d'.nodes = d.nodes) (id : Nat) : d'.exp id = d.exp id := by
  unfold exp; rw [h]

theorem owner_cons {x : Nat} {p : RefOut} {outs : List RefOut} (h : x ≠ p.var) : owner x (p :: outs) = owner x outs := by
  simp only [owner]; rw [if_neg (Ne.symm h)]

theorem below_iff (d : RefTot) (n : Nat) :
    Below d n ↔ (∀ p ∈ d.nodes, p.2.Below n) ∧ ∀ p ∈ d.outs, p.var < n ∧ p.sum.Below n := Iff.rfl

instance : LawfulTotDb RefTot where
  inner_node d id h := by
    obtain ⟨e, h⟩ := h
    exact (List.getElem?_eq_some_iff.1 h).1
  cnt_le d id m _ := TExp.val_le _ _
  cnt_local d n id m m' hi _ ha := TExp.val_congr _ fun v hv => ha v (exp_below hi id v hv)
  exact_local d n m m' hb ha h := by
    intro p hp
    obtain ⟨h1, h2⟩ := hb.2 p hp
    rw [← ha _ h1, h p hp, TExp.val_congr p.sum fun v hv => ha v (h2 v hv)]
  below_mono d n n' h hn := ⟨fun p hp v hv => Nat.lt_of_lt_of_le (h.1 p hp v hv) hn, fun p hp =>
    ⟨Nat.lt_of_lt_of_le (h.2 p hp).1 hn, fun v hv => Nat.lt_of_lt_of_le ((h.2 p hp).2 v hv) hn⟩⟩
  out_node d id i l h := h.1
  out_below d n id i l hb h := by
    obtain ⟨-, p, h1, -, rfl⟩ := h
    exact (hb.2 _ (lookup_some h1).1).1
  out_base d b id i l hb _ h := by
    obtain ⟨-, p, h1, -, rfl⟩ := h
    exact hb _ (lookup_some h1).1
  out_inj d id i id' i' l _ _ h h' := by
    obtain ⟨-, p, h1, -, rfl⟩ := h
    obtain ⟨-, p', h1', -, hx⟩ := h'
    have hv : p.var = p'.var := by simpa [Lit.pos] using hx
    have a := (lookup_some h1).2.2.2.2
    have a' := (lookup_some h1').2.2.2.2
    rw [hv, a'] at a
    simp only [Option.some.injEq, Prod.mk.injEq] at a
    exact ⟨a.1.symm, a.2.1.symm⟩
  out_sound d id i l m h hs hc := by
    obtain ⟨-, p, h1, h2, rfl⟩ := h
    obtain ⟨h3, -, h5, h6, -⟩ := lookup_some h1
    rw [Lit.eval_pos]
    exact hs _ h3 h2 (by rw [h5, h6]; exact hc)
  out_exact d id i l m h hs hc := by
    obtain ⟨-, p, h1, h2, rfl⟩ := h
    obtain ⟨h3, -, h5, h6, -⟩ := lookup_some h1
    rw [Lit.eval_pos] at hc
    have := hs _ h3
    rw [hc, h5, h6] at this
    exact of_decide_eq_true this.symm
  empty_sound m p hp := by simp [TotDb.empty] at hp
  empty_exact m p hp := by simp [TotDb.empty] at hp
  empty_below n := ⟨fun p hp => by simp [TotDb.empty] at hp, fun p hp => by simp [TotDb.empty] at hp⟩
  empty_inputs n p hp := by simp [TotDb.empty] at hp
  empty_base n p hp := by simp [TotDb.empty] at hp
  leaf_step d l := push_step d _ _
  leaf_node d l := by simp [Node, TotDb.leaf, push]
  leaf_cnt d l m := by
    simp only [cnt, TotDb.leaf]
    rw [exp_push_new]; rfl
  leaf_len d l := by
    simp only [TotDb.len, TotDb.leaf]
    rw [exp_push_new]; rfl
  leaf_sound d l m h := h
  leaf_exact d l m h := h
  leaf_below d l n h hl := ⟨push_below h.1 (by intro v hv; simp [TExp.vars] at hv; omega), h.2⟩
  leaf_inputs d l n h hl := push_below h (by intro v hv; simp [TExp.vars] at hv; omega)
  leaf_base d l b h := h
  merge_step d cons := push_step d _ _
  merge_inner d cons h := ⟨d.sumOf cons, by simp [TotDb.merge, push, h]⟩
  merge_new d cons _ := by simp [Node, TotDb.merge]
  merge_cnt d cons m _ _ := by
    simp only [cnt, TotDb.merge]
    rw [exp_push_new, sumOf_val]
  merge_len d cons _ hc := by
    simp only [TotDb.len, TotDb.merge]
    rw [exp_push_new, sumOf_maxV]
    congr 1
    refine List.map_congr_left fun c hc' => ?_
    rw [(hc c hc').2.1, Nat.one_mul]
  merge_sound d cons m h := h
  merge_exact d cons m h := h
  merge_below d cons n h := ⟨push_below h.1 (sumOf_below h.1 _), h.2⟩
  merge_inputs d cons n h := push_below h (sumOf_below h _)
  merge_base d cons b h := h
  define_step d id i n := by
    have hd := define_cases d id i n
    generalize TotDb.define d id i n = r at hd ⊢
    cases hd with
    | old p h he => exact ⟨⟨fun _ h => h, fun _ h => h, fun _ _ _ => rfl, fun _ _ => rfl⟩, fun _ _ _ h => h⟩
    | held p h =>
      refine ⟨⟨fun _ h => h, fun _ h => h, fun _ _ _ => rfl, fun _ _ => rfl⟩, ?_⟩
      rintro id' i' l ⟨h1, q, h2, h3, rfl⟩
      refine ⟨h1, markOne p q, ?_, markOne_enc h3, by rw [markOne_var]⟩
      rw [lookup_map _ (markOne_var p) (markOne_key p), h2]
      rfl
    | new x hx h _ hn =>
      refine ⟨⟨fun _ h => h, fun _ h => h, fun _ _ _ => rfl, fun _ _ => rfl⟩, ?_⟩
      rintro id' i' l ⟨h1, q, h2, h3, rfl⟩
      refine ⟨h1, q, lookup_new h ?_ h2, h3, rfl⟩
      intro he
      simp only [Prod.mk.injEq] at he
      obtain ⟨rfl, rfl, -⟩ := he
      rw [hn] at h2
      simp at h2
  define_out d id i n hn _ := by
    have hd := define_cases d id i n
    generalize TotDb.define d id i n = r at hd ⊢
    cases hd with
    | old p h he => exact ⟨hn, p, h, he, rfl⟩
    | held p h =>
      refine ⟨hn, markOne p p, ?_, by simp [markOne], by rw [markOne_var]⟩
      rw [lookup_map _ (markOne_var p) (markOne_key p), h]
      rfl
    | new x hx h _ hl => exact ⟨hn, ⟨id, i, x, d.exp id, true⟩, by simp [lookup, fits, RefOut.key, owner, exp], rfl, rfl⟩
  define_next d id i n _ := by
    have hd := define_cases d id i n
    generalize TotDb.define d id i n = r at hd ⊢
    cases hd with
    | old p h he => exact Nat.le_refl _
    | held p h => exact Nat.le_refl _
    | new x hx h _ _ => exact Nat.le_succ_of_le hx
  define_below d id i n hb := by
    have hd := define_cases d id i n
    generalize TotDb.define d id i n = r at hd ⊢
    cases hd with
    | old p h he => exact hb
    | held p h =>
      refine ⟨hb.1, fun q hq => ?_⟩
      obtain ⟨q', h1, rfl⟩ := mem_mark hq
      rw [markOne_var, markOne_sum]
      exact hb.2 q' h1
    | new x hx h _ _ =>
      refine ⟨fun p hp v hv => ?_, fun p hp => ?_⟩
      · have := hb.1 p hp v hv
        simp only; omega
      · rcases List.mem_cons.1 hp with rfl | hp
        · refine ⟨by simp, fun v hv => ?_⟩
          have := exp_below hb.1 id v hv
          simp only; omega
        · obtain ⟨h1, h2⟩ := hb.2 p hp
          refine ⟨by simp only; omega, fun v hv => ?_⟩
          have := h2 v hv
          simp only; omega
  define_vars d id i n hb := by
    have hd := define_cases d id i n
    generalize TotDb.define d id i n = r at hd ⊢
    cases hd with
    | old p h he => intro c hc; simp at hc
    | held p h => exact outCls_vars (hb.2 p (lookup_some h).1).1 hb.1
    | new x hx h _ _ =>
      refine outCls_vars (by simp) fun p hp v hv => ?_
      have := hb.1 p hp v hv
      simp only; omega
  define_sound d id i n m hb hs hc := by
    revert hc
    have hd := define_cases d id i n
    generalize TotDb.define d id i n = r at hd ⊢
    cases hd with
    | old p h he => exact fun _ => hs
    | held p h =>
      intro hc q hq he hlt
      simp only at hc
      rw [outCls_eval] at hc
      obtain ⟨q', h1, rfl⟩ := mem_mark hq
      rw [markOne_var, markOne_num, markOne_sum] at *
      obtain ⟨-, g1, g2, g3, -⟩ := lookup_some h
      by_cases hk : RefOut.key q' = RefOut.key p ∧ q'.var = p.var
      · simp only [RefOut.key, Prod.mk.injEq] at hk
        rw [hk.2]
        apply hc
        rw [← g2, ← g3, ← hk.1.2.1, ← hk.1.2.2]
        exact hlt
      · unfold markOne at he
        rw [if_neg hk] at he
        exact hs q' h1 he hlt
    | new x hx h _ _ =>
      intro hc p hp he hlt
      simp only at hc
      rw [outCls_eval] at hc
      rcases List.mem_cons.1 hp with rfl | hp
      · exact hc hlt
      · exact hs p hp he hlt
  define_exact d id i n m hb he := by
    have hd := define_cases d id i n
    generalize TotDb.define d id i n = r at hd ⊢
    cases hd with
    | old p h _ => exact ⟨m, fun _ _ => rfl, by simp [cnfEval], he⟩
    | held p h =>
      obtain ⟨g0, g1, g2, g3, -⟩ := lookup_some h
      refine ⟨m, fun _ _ => rfl, ?_, ?_⟩
      · simp only
        rw [outCls_eval]
        intro hlt
        rw [he p g0, g2, g3]
        simpa using hlt
      · intro q hq
        obtain ⟨q', h1, rfl⟩ := mem_mark hq
        rw [markOne_var, markOne_num, markOne_sum]
        exact he q' h1
    | new x hx h _ _ =>
      let m' : Asg := fun v => if v = x then decide (i < (d.exp id).val m) else m v
      have ha : AgreeBelow n m m' := fun v hv => by simp only [m']; rw [if_neg (by omega)]
      have hv : (d.exp id).val m' = (d.exp id).val m :=
        (TExp.val_congr _ fun v hv => ha v (exp_below hb.1 id v hv)).symm
      refine ⟨m', ha, ?_, ?_⟩
      · simp only
        rw [outCls_eval, hv]
        intro hlt
        simp [m', hlt]
      · intro p hp
        rcases List.mem_cons.1 hp with rfl | hp
        · simp only [hv, m', if_true]
        · obtain ⟨h1, h2⟩ := hb.2 p hp
          rw [← ha _ h1, he p hp, TExp.val_congr p.sum fun v hv => ha v (h2 v hv)]
  define_inputs d id i n k h := by
    have hd := define_cases d id i n
    generalize TotDb.define d id i n = r at hd ⊢
    cases hd with
    | old p _ _ => exact h
    | held p _ => exact h
    | new x _ _ _ _ => exact h
  define_base d id i n b h hb hn := by
    have hd := define_cases d id i n
    generalize TotDb.define d id i n = r at hd ⊢
    cases hd with
    | old p _ _ => exact h
    | held p _ =>
      intro q hq
      obtain ⟨q', h1, rfl⟩ := mem_mark hq
      rw [markOne_var]
      exact h q' h1
    | new x hx _ _ _ =>
      intro p hp
      rcases List.mem_cons.1 hp with rfl | hp
      · exact Nat.le_trans hn hx
      · exact h p hp
  reserve_step d id i n := ⟨⟨fun _ h => h, fun _ h => h, fun _ _ _ => rfl, fun _ _ => rfl⟩, fun _ _ _ h => h⟩
  reserve_next d id i n _ := Nat.le_refl _
  reserve_below d id i n h := h
  reserve_sound d id i n m h := h
  reserve_exact d id i n m _ h := ⟨m, fun _ _ => rfl, h⟩
  reserve_inputs d id i n k h := h
  reserve_base d id i n b h _ _ := h
  reset_keep d := ⟨fun _ h => h, fun _ h => h, fun _ _ _ => rfl, fun _ _ => rfl⟩
  reset_sound d m p hp := by simp [TotDb.resetVars] at hp
  reset_exact d m p hp := by simp [TotDb.resetVars] at hp
  reset_below d n h := ⟨h, fun p hp => by simp [TotDb.resetVars] at hp⟩
  reset_inputs d n h := h

/-- Reference encodings over trees. -/
abbrev RefTree (k : Nat) := RefEncS TExp k

variable {k k' : Nat}

instance : MergeEnc (RefTree k) (RefTree k') RefTot where
  mergeThorough d cons :=
    match cons with
    | [c] =>
      if (d.exp c.id).unit then (d, c) else (d.push false (d.sumOf [c]), ⟨d.nodes.length, 0, 1, none⟩)
    | _ => (d.push false (d.sumOf cons), ⟨d.nodes.length, 0, 1, none⟩)
  isUnit d id := (d.exp id).unit
  totFromRaw id off d := ⟨.add 1 off none (d.exp id) .zero, []⟩
  gteFromRaw c d _ := ⟨.add c.weight c.offset c.limit (d.exp c.id) .zero, []⟩

/-- What `mergeThorough` does. -/
inductive Merged (d : RefTot) (cons : List NodeCon) : RefTot × NodeCon → Prop where
  | one (c : NodeCon) (h : cons = [c]) (hu : (d.exp c.id).unit = true) : Merged d cons (d, c)
  | many : Merged d cons (d.push false (d.sumOf cons), ⟨d.nodes.length, 0, 1, none⟩)

theorem merge_cases (d : RefTot) (cons : List NodeCon) :
    Merged d cons (MergeEnc.mergeThorough (RefTree k) (RefTree k') d cons) := by
  simp only [MergeEnc.mergeThorough]
  split
  · next c =>
    split
    · next hu => exact .one c rfl hu
    · exact .many
  · exact .many

instance : LawfulMergeEnc (RefTree k) (RefTree k') RefTot where
  MaxLeaf _ _ _ := True
  merge_keep d cons := by
    have hd := merge_cases (k := k) (k' := k') d cons
    generalize MergeEnc.mergeThorough (RefTree k) (RefTree k') d cons = r at hd ⊢
    cases hd with
    | one c h hu => exact ⟨fun _ h => h, fun _ h => h, fun _ _ _ => rfl, fun _ _ => rfl⟩
    | many => exact (push_step d _ _).toDKeep
  merge_sound d cons m h := by
    have hd := merge_cases (k := k) (k' := k') d cons
    generalize MergeEnc.mergeThorough (RefTree k) (RefTree k') d cons = r at hd ⊢
    cases hd with
    | one c _ hu => exact h
    | many => exact h
  merge_exact d cons m h := by
    have hd := merge_cases (k := k) (k' := k') d cons
    generalize MergeEnc.mergeThorough (RefTree k) (RefTree k') d cons = r at hd ⊢
    cases hd with
    | one c _ hu => exact h
    | many => exact h
  merge_below d cons n h := by
    have hd := merge_cases (k := k) (k' := k') d cons
    generalize MergeEnc.mergeThorough (RefTree k) (RefTree k') d cons = r at hd ⊢
    cases hd with
    | one c _ hu => exact h
    | many => exact ⟨push_below h.1 (sumOf_below h.1 _), h.2⟩
  merge_root d cons hne hc := by
    have hd := merge_cases (k := k) (k' := k') d cons
    generalize MergeEnc.mergeThorough (RefTree k) (RefTree k') d cons = r at hd ⊢
    cases hd with
    | one c h hu =>
      subst h
      obtain ⟨h1, h2, h3⟩ := hc c (by simp)
      refine ⟨h1, fun m => by simp, by simp, .inr ⟨rfl, rfl⟩, fun _ hf => ?_, fun _ _ => trivial⟩
      simp only [MergeEnc.isUnit] at hf
      rw [hu] at hf
      simp at hf
    | many =>
      refine ⟨by simp [Node, push], fun m => ?_, ?_, .inl rfl, fun _ _ => rfl, fun _ _ => trivial⟩
      · simp only [conVal, NodeCon.cap, cnt, Nat.one_mul, Nat.sub_zero]
        rw [exp_push_new, sumOf_val]
      · simp only [conLen, NodeCon.cap, TotDb.len, Nat.one_mul, Nat.sub_zero]
        rw [exp_push_new, sumOf_maxV]; rfl
  tot_val d id off m _ _ := by
    show 1 * capAt none ((d.exp id).val m - off) + 0 = _
    simp [capAt, cnt]
  tot_maxVal d id off _ _ := by
    show 1 * capAt none ((d.exp id).maxV - off) + 0 = _
    simp [capAt, TotDb.len]
  tot_sound d id off m _ := by intro p hp; simp [MergeEnc.totFromRaw] at hp
  tot_exact d id off m _ := by intro p hp; simp [MergeEnc.totFromRaw] at hp
  tot_below d id off n h := by
    refine ⟨?_, by intro p hp; simp [MergeEnc.totFromRaw] at hp⟩
    intro v hv
    simp only [MergeEnc.totFromRaw, TExp.vars, List.append_nil] at hv
    exact exp_below h.1 id v hv
  gte_val d c w m _ _ := by
    show c.weight * capAt c.limit ((d.exp c.id).val m - c.offset) + 0 = _
    rfl
  gte_maxVal d c w _ _ := by
    show c.weight * capAt c.limit ((d.exp c.id).maxV - c.offset) + 0 = _
    rfl
  gte_sound d c w m _ := by intro p hp; simp [MergeEnc.gteFromRaw] at hp
  gte_exact d c w m _ := by intro p hp; simp [MergeEnc.gteFromRaw] at hp
  gte_below d c w n h := by
    refine ⟨?_, by intro p hp; simp [MergeEnc.gteFromRaw] at hp⟩
    intro v hv
    simp only [MergeEnc.gteFromRaw, TExp.vars, List.append_nil] at hv
    exact exp_below h.1 c.id v hv

end RefTot
end Scuttle

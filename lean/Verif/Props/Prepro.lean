import Verif.Proof.RefPb
import Verif.Props.Solve

/-!
# C21: from soft clauses to objectives
-/

namespace Scuttle

open Spec

variable {p : Parsed} {enc : PbCon → Nat → List Clause × Nat} {debug : Bool} {inst : Instance}

theorem WeaklyDominates.trans {a b c : List Int} (h : WeaklyDominates a b) (h' : WeaklyDominates b c) :
    WeaklyDominates a c := by
  unfold WeaklyDominates at *
  induction h generalizing c with
  | nil => exact h'
  | cons h1 _ ih =>
    cases h' with
    | cons h2 h3 => exact .cons (h1.trans h2) (ih h3)

theorem WeaklyDominates.antisymm {a b : List Int} (h : WeaklyDominates a b) (h' : WeaklyDominates b a) : a = b := by
  unfold WeaklyDominates at *
  induction h with
  | nil => rfl
  | cons h1 _ ih =>
    cases h' with
    | cons h2 h3 => rw [le_antisymm h1 h2, ih h3]

/-- What `to_clausal` computes, in terms of the intermediate state. -/
theorem toClausal_data (hp : ParsedOK p) (g : GoodPbEncoding enc) (h : toClausal debug enc p = some inst) :
    ∃ st n, RInv p st ∧ List.Forall₂ (ObjFor st.blits) p.objs inst.objs ∧ st.vm.nextVar ≤ n ∧
      inst.vm = { st.vm with nextVar := n, maxEncVar := n - 1 } ∧
      (∀ c ∈ inst.clauses, ∀ l ∈ c, l.var < n) ∧
      (∀ s, (problem inst).Feasible s → ∀ c ∈ st.constrs, PbHolds s c) ∧
      (∀ s, (∀ c ∈ st.constrs, PbHolds s c) →
        ∃ t : Asg, (∀ v, v < st.vm.nextVar → t v = s v) ∧ (problem inst).Feasible t) := by
  unfold toClausal at h
  split at h
  · simp at h
  · next objs st hpo =>
    obtain ⟨hi, -, hf⟩ := processObjectives_spec (RInv.init hp) hp.softs hpo
    have hnx := hi.next
    have hv : ∀ c ∈ st.constrs, ∀ q ∈ c.terms, q.1.var < st.vm.nextVar := by
      intro c hc q hq
      rw [hi.cons] at hc
      rcases List.mem_append.1 hc with hc | hc
      · have := hp.cons c hc q hq; omega
      · obtain ⟨b, hb, rfl⟩ := List.mem_map.1 hc
        obtain ⟨l, hl, rfl⟩ := List.mem_map.1 hq
        simp only [List.mem_append, List.mem_singleton] at hl
        rcases hl with hl | rfl
        · have := hi.keys b hb l hl; simp only; omega
        · exact (hi.blit b hb).2.2
    obtain ⟨e1, e2, e3, e4⟩ := encodeConstraints_spec g st.constrs st.vm.nextVar hv
    simp only [VarManager.markMaxEncVar, Option.map_eq_some_iff] at h
    obtain ⟨vm, hvm, rfl⟩ := h
    rw [if_neg (by omega)] at hvm
    simp only [Option.some.injEq] at hvm
    exact ⟨st, _, hi, hf, e1, hvm.symm, e2, e3, e4⟩

/-- **C21.** `to_clausal` succeeds; in debug builds only if no soft clause is empty. -/
theorem toClausal_total (hp : ParsedOK p) (g : GoodPbEncoding enc)
    (h : debug = true → ∀ o ∈ p.objs, ∀ q ∈ o.softs, q.1 ≠ []) : ∃ inst, toClausal debug enc p = some inst := by
  unfold toClausal
  obtain ⟨⟨objs, st⟩, hr⟩ := Option.isSome_iff_exists.1 (processObjectives_some 0 ⟨p.constraints, [], p.vm⟩ h)
  rw [hr]
  simp only
  obtain ⟨hi, -, -⟩ := processObjectives_spec (RInv.init hp) hp.softs hr
  have hnx := hi.next
  have hm : ∀ (cs : List PbCon) n, n ≤ (encodeConstraints enc cs n).2 := by
    intro cs
    induction cs with
    | nil => intro n; exact le_refl _
    | cons c cs ih => intro n; exact (g.mono c n).trans (ih _)
  have := hm st.constrs st.vm.nextVar
  simp only [VarManager.markMaxEncVar]
  rw [if_neg (by omega)]
  exact ⟨_, rfl⟩

/-- **C21.** The instance is as the solvers need it: variables are managed, the original ones are kept, no objective
repeats a literal, and a common weight is one of the weights of the soft clauses. -/
theorem toClausal_wellFormed (hp : ParsedOK p) (g : GoodPbEncoding enc) (h : toClausal debug enc p = some inst) :
    WellFormed inst ∧ NoDupLits inst ∧ inst.vm.maxOrigVar = p.vm.maxOrigVar ∧
    ((∀ o ∈ p.objs, ∀ q ∈ o.softs, 0 < q.2) → PosUnit inst) := by
  obtain ⟨st, n, hi, hf, hn, hvm, hcl, -, -⟩ := toClausal_data hp g h
  have hnx := hi.next
  have hobj : ∀ o' ∈ inst.objs, ∃ o ∈ p.objs, ObjFor st.blits o o' := by
    intro o' ho'
    clear h
    generalize p.objs = os at hf
    generalize inst.objs = os' at hf ho'
    induction hf with
    | nil => simp at ho'
    | @cons a b as bs hab _ ih =>
      rcases List.mem_cons.1 ho' with rfl | h'
      · exact ⟨a, by simp, hab⟩
      · obtain ⟨o, ho, hh⟩ := ih h'
        exact ⟨o, by simp [ho], hh⟩
  have hback : ∀ (softs : List (Clause × Nat)) (ts : List (Lit × Nat)),
      List.Forall₂ (fun q t => t.2 = q.2 ∧ LitFor st.blits q.1 t.1) softs ts → ∀ t ∈ ts,
      ∃ q ∈ softs, t.2 = q.2 ∧ LitFor st.blits q.1 t.1 := by
    intro softs ts hf
    induction hf with
    | nil => simp
    | @cons a b as bs hab _ ih =>
      intro t ht
      rcases List.mem_cons.1 ht with rfl | h'
      · exact ⟨a, by simp, hab⟩
      · obtain ⟨q, hq, hh⟩ := ih t h'
        exact ⟨q, by simp [hq], hh⟩
  refine ⟨⟨?_, ?_, ?_, ?_⟩, ?_, ?_, ?_⟩
  · rw [hvm]; simp only; rw [hi.orig]; omega
  · rw [hvm]; simp only; omega
  · intro c hc l hl
    have := hcl c hc l hl
    rw [hvm]; simp only; omega
  · intro o' ho' l hl
    obtain ⟨o, ho, ts, idx, rfl, hts⟩ := hobj o' ho'
    rw [(objective_new_spec ts _ _ (litFor_nodup hi (hp.softs o ho) (hp.nodup o ho) hts)).2.1] at hl
    obtain ⟨t, ht, rfl⟩ := List.mem_map.1 hl
    obtain ⟨q, hq, -, hl⟩ := hback _ _ hts t ht
    rw [hvm]; simp only
    rcases hl with ⟨l', e1, e2⟩ | ⟨-, hm⟩
    · have := hp.softs o ho q hq l' (by simp [e1])
      simp only [e2, Lit.not]; omega
    · have := (hi.blit _ hm).2.2; simp only at this; omega
  · intro o' ho'
    obtain ⟨o, ho, ts, idx, rfl, hts⟩ := hobj o' ho'
    have hd := litFor_nodup hi (hp.softs o ho) (hp.nodup o ho) hts
    rw [(objective_new_spec ts _ _ hd).2.1]
    exact hd
  · rw [hvm]; exact hi.orig
  · intro hpos off w lits i lb ho'
    obtain ⟨o, ho, ts, idx, he, hts⟩ := hobj _ ho'
    obtain ⟨l, hl⟩ := objective_new_unit he.symm
    obtain ⟨q, hq, hw, -⟩ := hback _ _ hts _ hl
    simp only at hw
    rw [hw]
    exact hpos o ho q hq

/-- **C21.** A feasible assignment of the instance satisfies the hard constraints, and its costs are not better than
those of the soft clauses it violates. -/
theorem toClausal_sound (hp : ParsedOK p) (g : GoodPbEncoding enc) (h : toClausal debug enc p = some inst) {s : Asg}
    (hs : (problem inst).Feasible s) :
    ParsedFeasible p s ∧ WeaklyDominates (parsedCosts p s) ((problem inst).costs s) := by
  obtain ⟨st, n, hi, hf, -, -, -, hfe, -⟩ := toClausal_data hp g h
  have hall := hfe s hs
  rw [hi.cons] at hall
  refine ⟨fun c hc => hall c (by simp [hc]), ?_⟩
  have hb : ∀ q ∈ st.blits, ∃ l ∈ q.1 ++ [q.2], LitTrue s l := by
    intro q hq
    rw [← pbHolds_ofClause]
    exact hall _ (List.mem_append_right _ (List.mem_map.2 ⟨q, hq, rfl⟩))
  unfold WeaklyDominates parsedCosts Problem.costs problem
  simp only [List.map_map]
  have hv := hp.softs
  have hd := hp.nodup
  clear h hs hfe
  generalize p.objs = os at hf hv hd
  generalize inst.objs = os' at hf
  induction hf with
  | nil => exact .nil
  | @cons o o' os os' ho _ ih =>
    simp only [List.map_cons]
    refine .cons ?_ (ih (fun o ho => hv o (by simp [ho])) (fun o ho => hd o (by simp [ho])))
    obtain ⟨ts, idx, rfl, hts⟩ := ho
    simp only [Function.comp_apply]
    rw [(objective_new_spec ts _ _ (litFor_nodup hi (hv o (by simp)) (hd o (by simp)) hts)).1]
    have := softCost_le hts hb
    omega

/-- **C21.** Each assignment that satisfies the hard constraints is, on the original variables, a feasible assignment of
the instance whose costs are exactly those of the violated soft clauses. -/
theorem toClausal_complete (hp : ParsedOK p) (g : GoodPbEncoding enc) (h : toClausal debug enc p = some inst) {s : Asg}
    (hs : ParsedFeasible p s) :
    ∃ t, SameOrig inst s t ∧ (problem inst).Feasible t ∧ (problem inst).costs t = parsedCosts p s := by
  obtain ⟨st, n, hi, hf, -, hvm, -, -, hex⟩ := toClausal_data hp g h
  have hnx := hi.next
  have hall : ∀ c ∈ st.constrs, PbHolds (relaxAsg p st.blits s) c := by
    intro c hc
    rw [hi.cons] at hc
    rcases List.mem_append.1 hc with hc | hc
    · rw [pbHolds_agree (n := p.vm.maxOrigVar + 1) (relaxAsg_orig p st.blits s)]
      · exact hs c hc
      · intro q hq; have := hp.cons c hc q hq; omega
    · obtain ⟨q, hq, rfl⟩ := List.mem_map.1 hc
      rw [pbHolds_ofClause]
      by_cases hcl : ∃ l ∈ q.1, LitTrue s l
      · obtain ⟨l, hl, ht⟩ := satisfied_agree (relaxAsg_orig p st.blits s)
          (fun l hl => Nat.lt_succ_of_le (hi.keys q hq l hl)) hcl
        exact ⟨l, by simp [hl], ht⟩
      · exact ⟨q.2, by simp, (relaxAsg_blit hi s hq).2 hcl⟩
  obtain ⟨t, ht, hft⟩ := hex _ hall
  refine ⟨t, ?_, hft, ?_⟩
  · intro v hv
    rw [hvm] at hv
    simp only at hv
    rw [hi.orig] at hv
    rw [ht v (by omega), relaxAsg_orig _ _ _ _ (by omega)]
  · unfold parsedCosts Problem.costs problem
    simp only [List.map_map]
    have hv := hp.softs
    have hd := hp.nodup
    clear h hs hex hft
    generalize p.objs = os at hf hv hd
    generalize inst.objs = os' at hf
    induction hf with
    | nil => rfl
    | @cons o o' os os' ho _ ih =>
      simp only [List.map_cons]
      rw [ih (fun o ho => hv o (by simp [ho])) (fun o ho => hd o (by simp [ho]))]
      congr 1
      obtain ⟨ts, idx, rfl, hts⟩ := ho
      simp only [Function.comp_apply]
      rw [(objective_new_spec ts _ _ (litFor_nodup hi (hv o (by simp)) (hd o (by simp)) hts)).1,
        softCost_eq hi s (le_refl _) ht (hv o (by simp)) hts]

/-- **C21.** The Pareto front is the same before and after the conversion. -/
theorem toClausal_front (hp : ParsedOK p) (g : GoodPbEncoding enc) (h : toClausal debug enc p = some inst)
    (v : List Int) : (problem inst).NonDominated v ↔ ParsedNonDominated p v := by
  constructor
  · rintro ⟨s, ⟨hs, hopt⟩, rfl⟩
    obtain ⟨hps, hle⟩ := toClausal_sound hp g h hs
    obtain ⟨t, -, hft, hct⟩ := toClausal_complete hp g h hps
    have heq : parsedCosts p s = (problem inst).costs s := by
      by_contra hne
      exact hopt t hft ⟨by rw [hct]; exact hle, by rw [hct]; exact hne⟩
    refine ⟨s, hps, ?_, heq⟩
    intro u hu hdom
    obtain ⟨t, -, hft, hct⟩ := toClausal_complete hp g h hu
    apply hopt t hft
    rw [hct, ← heq]
    exact hdom
  · rintro ⟨s, hs, hopt, rfl⟩
    obtain ⟨t, -, hft, hct⟩ := toClausal_complete hp g h hs
    refine ⟨t, ⟨hft, ?_⟩, hct⟩
    intro u hu ⟨hd1, hd2⟩
    obtain ⟨hpu, hle⟩ := toClausal_sound hp g h hu
    rw [hct] at hd1 hd2
    apply hopt u hpu
    refine ⟨WeaklyDominates.trans hle hd1, fun he => hd2 ?_⟩
    rw [he] at hle
    exact WeaklyDominates.antisymm hd1 hle

/-- **C21.** The original variables determine the costs of Pareto-optimal assignments, which the enumeration of solutions
needs (C08). -/
theorem toClausal_origDetermines (hp : ParsedOK p) (g : GoodPbEncoding enc) (h : toClausal debug enc p = some inst) :
    OrigDetermines inst := by
  intro s t hs ht hst
  have hmo := (toClausal_wellFormed hp g h).2.2.1
  obtain ⟨hps, hles⟩ := toClausal_sound hp g h hs.1
  obtain ⟨-, hlet⟩ := toClausal_sound hp g h ht
  obtain ⟨u, -, hfu, hcu⟩ := toClausal_complete hp g h hps
  have heq : parsedCosts p s = (problem inst).costs s := by
    by_contra hne
    exact hs.2 u hfu ⟨by rw [hcu]; exact hles, by rw [hcu]; exact hne⟩
  have hsame : parsedCosts p t = parsedCosts p s := by
    unfold parsedCosts
    apply List.map_congr_left
    intro o ho
    have hv := hp.softs o ho
    congr 2
    generalize o.softs = softs at hv
    induction softs with
    | nil => rfl
    | cons q softs ih =>
      obtain ⟨cl, w⟩ := q
      simp only [softCost]
      rw [ih (fun q hq => hv q (by simp [hq]))]
      have := clauseTrue_agree (s := s) (t := t) (cl := cl) (n := p.vm.maxOrigVar + 1)
        (fun v hv => (hst v (by omega)).symm) (fun l hl => Nat.lt_succ_of_le (hv (cl, w) (by simp) l hl))
      simp only [this]
  rw [← heq, ← hsame]
  exact hlet

/-- The internal costs fit into `isize` if the weights of each objective do. -/
theorem toClausal_fits (hp : ParsedOK p) (g : GoodPbEncoding enc) (h : toClausal debug enc p = some inst)
    (hw : ∀ o ∈ p.objs, (o.softs.map Prod.snd).sum ≤ 2 ^ 63 - 1) : FitsIsize inst := by
  obtain ⟨st, n, hi, hf, -, -, -, -, -⟩ := toClausal_data hp g h
  intro s _ o' ho'
  have hv := hp.softs
  have hd := hp.nodup
  clear h
  generalize p.objs = os at hf hv hd hw
  generalize inst.objs = os' at hf ho'
  induction hf with
  | nil => simp at ho'
  | @cons o o1 os os' ho _ ih =>
    rcases List.mem_cons.1 ho' with rfl | h'
    · clear ih
      obtain ⟨ts, idx, rfl, hts⟩ := ho
      have hn := objective_new_spec ts o.offset idx (litFor_nodup hi (hv o (by simp)) (hd o (by simp)) hts)
      rw [hn.1, hn.2.2.1]
      have h1 := linear_le_softs s hts
      have h2 := hw o (by simp)
      omega
    · exact ih (fun o ho => hv o (List.mem_cons_of_mem _ ho)) (fun o ho => hd o (List.mem_cons_of_mem _ ho))
        (fun o ho => hw o (List.mem_cons_of_mem _ ho)) h'

/-- What a user has to guarantee so that the weights can be handled. -/
structure WeightsOK (p : Parsed) : Prop where
  pos : ∀ o ∈ p.objs, ∀ q ∈ o.softs, 0 < q.2
  fits : ∀ o ∈ p.objs, (o.softs.map Prod.snd).sum ≤ 2 ^ 63 - 1

theorem toClausal_posWeights (hp : ParsedOK p) (g : GoodPbEncoding enc) (h : toClausal debug enc p = some inst)
    (hpos : ∀ o ∈ p.objs, ∀ q ∈ o.softs, 0 < q.2) : PosWeights inst := by
  obtain ⟨st, n, hi, hf, -⟩ := toClausal_data hp g h
  have right : ∀ {α β : Type} {R : α → β → Prop} {l : List α} {l' : List β}, List.Forall₂ R l l' → ∀ b ∈ l',
      ∃ a ∈ l, R a b := by
    intro α β R l l' h
    induction h with
    | nil => simp
    | cons h _ ih => simpa using ⟨.inl h, fun b hb => .inr (ih b hb)⟩
  intro off lits i lb ho' t ht
  obtain ⟨o, ho, ts, idx, he, hts⟩ := right hf _ ho'
  obtain rfl := (objective_new_weights (litFor_nodup hi (hp.softs o ho) (hp.nodup o ho) hts) o.offset idx).1 _ _ _ _ he.symm
  obtain ⟨q, hq, hw, -⟩ := right hts _ ht
  rw [hw]
  exact hpos o ho q hq

/-- The converted instance is one the solvers can handle, with at most one solution per point or all of them. -/
theorem toClausal_setting (hp : ParsedOK p) (hw : WeightsOK p) (g : GoodPbEncoding enc)
    (h : toClausal debug enc p = some inst) {env : Env} (ho : CorrectOracle env) {opts : KernelOptions}
    (hen : ∀ l, opts.enumeration ≠ .pmcss l) : Setting inst defaultBlockingClause opts env where
  wf := (toClausal_wellFormed hp g h).1
  fits := toClausal_fits hp g h hw.fits
  unit := (toClausal_wellFormed hp g h).2.2.2 hw.pos
  enum := by
    generalize he : opts.enumeration = e
    cases e with
    | noEnum => exact .noEnum _
    | solutions l =>
      exact .solutions _ _ (default_goodBlocking (toClausal_wellFormed hp g h).1 (toClausal_origDetermines hp g h))
    | pmcss l => exact absurd he (hen l)
  oracle := ho
  tight _ := ⟨(toClausal_wellFormed hp g h).2.1, toClausal_posWeights hp g h hw.pos⟩

section Run

variable {P C : Type} [UbEnc P] [UbEnc C] [LawfulUbEnc P] [LawfulUbEnc C]
variable {env : Env} {s : Slv P C} {opts : KernelOptions} {limits : Limits}

/-- **C21, from the parsed instance to the front.** A completed run of any algorithm on the converted instance lists
exactly the cost vectors of the Pareto front of the parsed instance, and each solution listed satisfies the hard
constraints and violates soft clauses of exactly the listed costs. -/
theorem parsed_front_exact (alg : Alg) (hp : ParsedOK p) (hw : WeightsOK p) (g : GoodPbEncoding enc)
    (h : toClausal debug enc p = some inst) (ho : CorrectOracle env) (hen : ∀ l, opts.enumeration ≠ .pmcss l)
    (hl : LimitsFine env limits) (h0 : Started alg inst defaultBlockingClause opts s) (fuel : Nat)
    (hdone : (alg.solve fuel limits env s).1 = .ok ()) :
    (∀ v, v ∈ (alg.solve fuel limits env s).2.front.map NonDomPoint.costs ↔ ParsedNonDominated p v) ∧
    ∀ pt ∈ (alg.solve fuel limits env s).2.front, ∀ x ∈ pt.sols, ∃ t, ParsedFeasible p t ∧ parsedCosts p t = pt.costs ∧
      Restricts x t (p.vm.maxOrigVar + 1) := by
  have hs := toClausal_setting hp hw g h ho hen
  have hx : ExactFront inst (alg.solve fuel limits env s).2.front := by
    have hr := run_ok alg hs hl h0 fuel
    rw [hdone] at hr
    exact hr.exactFront hs.unit
  refine ⟨fun v => (hx.exact v).trans (toClausal_front hp g h v), ?_⟩
  intro pt hpt x hxx
  obtain ⟨t, ht, hc, hsh⟩ := (solutions_attain alg hs hl h0 fuel).attain pt hpt x hxx
  obtain ⟨hpt', hle⟩ := toClausal_sound hp g h ht
  obtain ⟨u, -, hfu, hcu⟩ := toClausal_complete hp g h hpt'
  refine ⟨t, hpt', ?_, ?_⟩
  · obtain ⟨s', hs', hcs⟩ := (hx.exact pt.costs).1 (List.mem_map.2 ⟨pt, hpt, rfl⟩)
    by_contra hne
    apply hs'.2 u hfu
    rw [hcu, hcs]
    exact ⟨by rw [← hc]; exact hle, hne⟩
  · rw [← (toClausal_wellFormed hp g h).2.2.1]
    exact hsh

end Run

/-- **Finding for C21.** A debug build panics on an empty soft clause (a release build handles it, `toClausal_total`). -/
theorem toClausal_empty_soft_panics (enc : PbCon → Nat → List Clause × Nat) :
    ∃ p : Parsed, ParsedOK p ∧ WeightsOK p ∧ toClausal true enc p = none :=
  ⟨⟨[], [⟨[([], 1)], 0⟩], ⟨1, 0, 0⟩⟩,
    ⟨rfl, by simp, by simp, by simp⟩, ⟨by simp, by simp⟩, rfl⟩

/-! ## C49: instances from MaxPre -/

theorem maxVarOf_spec (cnf : List Clause) (n : Nat) :
    (n ≤ maxVarOf cnf ↔ n = 0 ∨ ∃ c ∈ cnf, ∃ l ∈ c, n ≤ l.var) := by
  have h1 : ∀ (c : Clause) (m : Nat), (n ≤ c.foldl (fun m l => max m l.var) m ↔ n ≤ m ∨ ∃ l ∈ c, n ≤ l.var) := by
    intro c
    induction c with
    | nil => simp
    | cons l c ih =>
      intro m
      simp only [List.foldl_cons, ih, List.mem_cons, exists_eq_or_imp, le_max_iff, or_assoc]
  have h2 : ∀ (cnf : List Clause) (m : Nat),
      (n ≤ cnf.foldl (fun m cl => cl.foldl (fun m l => max m l.var) m) m ↔ n ≤ m ∨ ∃ c ∈ cnf, ∃ l ∈ c, n ≤ l.var) := by
    intro cnf
    induction cnf with
    | nil => simp
    | cons c cnf ih =>
      intro m
      simp only [List.foldl_cons, ih, h1, List.mem_cons, exists_eq_or_imp, or_assoc]
  unfold maxVarOf
  rw [h2]
  simp

/-- Literals of an objective that MaxPre returned. -/
theorem maxPreLits_spec (debug : Bool) (softs : List (Clause × Nat)) (h : ∀ q ∈ softs, ∃ l, q.1 = [l])
    (hd : (softs.map Prod.fst).Nodup) :
    ∃ ts, maxPreLits debug softs = some ts ∧ (∀ s, linear s ts = softCost s softs) ∧ (ts.map Prod.fst).Nodup ∧
      (∀ l, l ∈ ts.map Prod.fst ↔ [l.not] ∈ softs.map Prod.fst) := by
  induction softs with
  | nil => exact ⟨[], rfl, fun _ => rfl, by simp, by simp⟩
  | cons q softs ih =>
    obtain ⟨cl, w⟩ := q
    obtain ⟨l, hl⟩ := h (cl, w) (by simp)
    simp only at hl
    subst hl
    simp only [List.map_cons, List.nodup_cons] at hd
    obtain ⟨ts, h1, h2, h3, h4⟩ := ih (fun q hq => h q (by simp [hq])) hd.2
    refine ⟨(l.not, w) :: ts, by simp [maxPreLits, h1], fun s => ?_, ?_, ?_⟩
    · simp only [linear, softCost, h2, Lit.not_true_iff, List.mem_singleton, exists_eq_left]
      by_cases hs : LitTrue s l <;> simp [hs]
    · simp only [List.map_cons, List.nodup_cons]
      refine ⟨?_, h3⟩
      rw [h4, Lit.not_not]
      exact hd.1
    · intro l'
      simp only [List.map_cons, List.mem_cons, h4]
      constructor
      · rintro (rfl | h')
        · left; rw [Lit.not_not]
        · exact .inr h'
      · rintro (h' | h')
        · left
          simp only [List.cons.injEq, and_true] at h'
          rw [← h', Lit.not_not]
        · exact .inr h'

/-- **C49.** The instance built from the result of MaxPre has the clauses that MaxPre returned, and its objectives are the
weights of the violated soft clauses. -/
theorem maxPreInstance_spec (debug : Bool) (cnf : List Clause) (objs : List SoftObj) (h : UnitSofts objs) :
    ∃ inst, maxPreInstance debug cnf objs = some inst ∧ inst.clauses = cnf ∧ NoDupLits inst ∧
      (∀ s, (problem inst).costs s = objs.map fun o => o.offset + (softCost s o.softs : Int)) ∧
      (WellFormed inst ↔ ∀ o ∈ objs, ∀ q ∈ o.softs, ∀ l ∈ q.1, l.var = 0 ∨ ∃ c ∈ cnf, ∃ l' ∈ c, l.var ≤ l'.var) := by
  have key : ∀ (os : List SoftObj) (i : Nat), UnitSofts os → ∃ os', maxPreObjs debug os i = some os' ∧
      (∀ o' ∈ os', (objLits o').Nodup) ∧
      (∀ s, os'.map (fun o => objValue o s) = os.map fun o => o.offset + (softCost s o.softs : Int)) ∧
      ∀ l, (∃ o' ∈ os', l ∈ objLits o') ↔ ∃ o ∈ os, [l.not] ∈ o.softs.map Prod.fst := by
    intro os
    induction os with
    | nil => intro i _; exact ⟨[], rfl, by simp, by simp, by simp⟩
    | cons o os ih =>
      intro i hu
      obtain ⟨os', h1, h2, h3, h4⟩ := ih (i + 1) ⟨fun o ho => hu.unit o (by simp [ho]), fun o ho => hu.nodup o (by simp [ho])⟩
      obtain ⟨ts, t1, t2, t3, t4⟩ := maxPreLits_spec debug o.softs (hu.unit o (by simp)) (hu.nodup o (by simp))
      obtain ⟨n1, n2, -, -⟩ := objective_new_spec ts o.offset i t3
      refine ⟨Objective.new ts o.offset i :: os', by simp [maxPreObjs, t1, h1], ?_, ?_, ?_⟩
      · simp only [List.forall_mem_cons]
        exact ⟨by rw [n2]; exact t3, h2⟩
      · intro s
        simp only [List.map_cons, n1, t2, h3]
      · intro l
        simp only [List.mem_cons, exists_eq_or_imp, h4, n2, t4]
  obtain ⟨os', h1, h2, h3, h4⟩ := key objs 0 h
  refine ⟨⟨cnf, os', ⟨maxVarOf cnf + 1, maxVarOf cnf, maxVarOf cnf⟩⟩,
    by simp [maxPreInstance, h1, VarManager.new], rfl, h2, ?_, ?_⟩
  · intro s
    simp only [Problem.costs, problem, List.map_map]
    rw [← h3]
    rfl
  · have hcl : ∀ c ∈ cnf, ∀ l ∈ c, l.var ≤ maxVarOf cnf := by
      intro c hc l hl
      rw [maxVarOf_spec]
      exact .inr ⟨c, hc, l, hl, le_refl _⟩
    constructor
    · intro hwf o ho q hq l hl
      obtain ⟨l', hl'⟩ := h.unit o ho q hq
      rw [hl', List.mem_singleton] at hl
      subst hl
      obtain ⟨o', ho', hlo⟩ := (h4 l.not).2 ⟨o, ho, by rw [Lit.not_not, ← hl']; exact List.mem_map.2 ⟨q, hq, rfl⟩⟩
      have := hwf.objs o' ho' _ hlo
      rw [maxVarOf_spec] at this
      exact this
    · intro hv
      refine ⟨le_refl _, Nat.lt_succ_self _, hcl, ?_⟩
      intro o' ho' l hl
      obtain ⟨o, ho, hm⟩ := (h4 l).1 ⟨o', ho', hl⟩
      obtain ⟨q, hq, he⟩ := List.mem_map.1 hm
      have := hv o ho q hq l.not (by rw [he]; simp)
      rw [maxVarOf_spec]
      exact this

/-- The hypotheses of `maxPreInstance_spec` and both cases of well-formedness. -/
example : UnitSofts [⟨[([Lit.pos 0], 2), ([Lit.negOf 1], 3)], 4⟩] :=
  ⟨by rintro o ho q hq; simp only [List.mem_singleton] at ho; subst ho; simp at hq; rcases hq with rfl | rfl <;> simp,
    by decide⟩

/-- **Finding for C49 (latent).** The managed variables are those of the clauses only: an objective literal that occurs
in no clause has the number of the first variable of an encoding. -/
theorem maxPreInstance_counterexample : ∃ (cnf : List Clause) (objs : List SoftObj) (inst : Instance),
    UnitSofts objs ∧ maxPreInstance false cnf objs = some inst ∧
    (∃ o ∈ inst.objs, ∃ l ∈ objLits o, inst.vm.newVar.1 = l.var) ∧ ¬ WellFormed inst := by
  refine ⟨[[Lit.pos 0]], [⟨[([Lit.pos 1], 2)], 0⟩], ⟨[[Lit.pos 0]], [.unweighted 0 2 [Lit.negOf 1] 0 0], ⟨1, 0, 0⟩⟩,
    ⟨by simp, by decide⟩, rfl, by decide, fun h => ?_⟩
  have := h.objs (.unweighted 0 2 [Lit.negOf 1] 0 0) (by simp) (Lit.negOf 1) (by decide)
  simp [Lit.negOf] at this

/-! ## Example -/

/-- A parsed instance over four variables: a cardinality constraint, and two objectives that share a soft clause. -/
def Example.parsed : Parsed where
  constraints := [⟨.eq, [(Lit.pos 0, 1), (Lit.pos 1, 1), (Lit.pos 2, 1)], 2⟩, ⟨.le, [(Lit.pos 0, 2), (Lit.pos 3, 1)], 2⟩]
  objs := [⟨[([Lit.negOf 0, Lit.negOf 1], 2), ([Lit.pos 3], 1)], 1⟩,
    ⟨[([Lit.negOf 0, Lit.negOf 1], 3), ([Lit.pos 0], 3), ([], 3)], 0⟩]
  vm := ⟨4, 3, 3⟩

theorem Example.parsedOK : ParsedOK Example.parsed where
  vm := rfl
  cons := by decide
  softs := by decide
  nodup := by decide

theorem Example.weightsOK : WeightsOK Example.parsed := ⟨by decide, by decide⟩

/-- The conversion of the example: one shared literal for the soft clause of both objectives and one for the empty
clause. -/
example : ((toClausal false refPbEnc Example.parsed).map fun i => (i.objs, i.vm)) =
    some ([.weighted 1 [(Lit.pos 4, 2), (Lit.negOf 3, 1)] 0 0,
      .unweighted 0 3 [Lit.pos 4, Lit.negOf 0, Lit.pos 5] 1 0], ⟨6, 3, 5⟩) := by decide +kernel

/-- All hypotheses on the conversion are met by the example. -/
example : ∃ inst, ParsedOK Example.parsed ∧ WeightsOK Example.parsed ∧ GoodPbEncoding refPbEnc ∧
    toClausal false refPbEnc Example.parsed = some inst :=
  let ⟨inst, h⟩ := toClausal_total (debug := false) Example.parsedOK refPbEnc_good (by simp)
  ⟨inst, Example.parsedOK, Example.weightsOK, refPbEnc_good, h⟩

/-- Runs P-minimal on the converted example: both points of the front are found. -/
example : ((toClausal false refPbEnc Example.parsed).bind fun inst =>
    (Alg.pMinimal.new (P := RefEnc 1) (C := RefEnc 0) inst defaultBlockingClause {}).map fun s =>
      let r := Alg.pMinimal.solve 50 Limits.none (refEnv true) s
      (match r.1 with | .ok () => true | _ => false, r.2.front.map NonDomPoint.costs)) =
    some (true, [[1, 6], [2, 3]]) := by decide +kernel

end Scuttle

import Verif.SpecPre
import Verif.Props.Driver

/-!
# C58: the front printed with preprocessing
-/

namespace Scuttle

open Spec

variable {P C D : Type} [UbEnc P] [UbEnc C] [TotDb D] [MergeEnc P C D]
variable [LawfulUbEnc P] [LawfulUbEnc C] [LawfulTotDb D] [LawfulMergeEnc P C D] {env : Env} {s : Slv P C}
variable {env : Env} {cli : Cli} {p : Parsed} {enc : PbCon → Nat → List Clause × Nat} {pre : PrePro} {debug : Bool}

/-! ## The instance is that of a parsed instance -/

/-- The clause that a constraint is. -/
def clauseOf (c : PbCon) : Option Clause :=
  if c = PbCon.ofClause (c.terms.map Prod.fst) then some (c.terms.map Prod.fst) else none

theorem clauseOf_ofClause (cl : Clause) : clauseOf (PbCon.ofClause cl) = some cl := by
  have : (PbCon.ofClause cl).terms.map Prod.fst = cl := by simp [PbCon.ofClause, Function.comp_def]
  unfold clauseOf
  rw [this, if_pos rfl]

theorem clauseOf_some {c : PbCon} {cl : Clause} (h : clauseOf c = some cl) : c = PbCon.ofClause cl := by
  unfold clauseOf at h
  split at h
  · rename_i hc
    simp only [Option.some.injEq] at h
    rw [hc, h]
  · simp at h

/-- Encoding that takes clauses as they are. -/
def clauseEnc (enc : PbCon → Nat → List Clause × Nat) (c : PbCon) (n : Nat) : List Clause × Nat :=
  match clauseOf c with
  | some cl => ([cl], n)
  | none => enc c n

theorem clauseEnc_good (g : GoodPbEncoding enc) : GoodPbEncoding (clauseEnc enc) where
  mono c n := by
    unfold clauseEnc
    split
    · exact le_refl _
    · exact g.mono c n
  vars c n hv := by
    unfold clauseEnc
    split
    · rename_i cl hc
      intro cl' hcl l hl
      simp only [List.mem_singleton] at hcl
      subst hcl
      rw [clauseOf_some hc] at hv
      exact hv (l, 1) (List.mem_map.2 ⟨l, hl, rfl⟩)
    · exact g.vars c n hv
  sound c n hv s := by
    unfold clauseEnc
    split
    · rename_i cl hc
      intro h
      rw [clauseOf_some hc, pbHolds_ofClause]
      exact h cl (by simp)
    · exact g.sound c n hv s
  complete c n hv s := by
    unfold clauseEnc
    split
    · rename_i cl hc
      intro h
      rw [clauseOf_some hc, pbHolds_ofClause] at h
      exact ⟨s, fun _ _ => rfl, fun cl' hcl => by simp only [List.mem_singleton] at hcl; subst hcl; exact h⟩
    · exact g.complete c n hv s

theorem encodeConstraints_clauses (cnf : List Clause) (n : Nat) :
    encodeConstraints (clauseEnc enc) (cnf.map PbCon.ofClause) n = (cnf, n) := by
  induction cnf with
  | nil => rfl
  | cons cl cnf ih => simp [encodeConstraints, clauseEnc, clauseOf_ofClause, ih]

theorem relaxSofts_units (st : Relax) (softs : List (Clause × Nat)) (h : ∀ q ∈ softs, ∃ l, q.1 = [l]) :
    relaxSofts debug softs st = (maxPreLits debug softs).map fun ts => (ts, st) := by
  induction softs with
  | nil => rfl
  | cons q softs ih =>
    obtain ⟨cl, w⟩ := q
    obtain ⟨l, hl⟩ := h (cl, w) (by simp)
    simp only at hl
    subst hl
    have ih := ih fun q hq => h q (by simp [hq])
    cases hm : maxPreLits debug softs <;> simp [relaxSofts, relaxSoft, maxPreLits, ih, hm]

theorem processObjectives_units (st : Relax) (os : List SoftObj) (i : Nat)
    (h : ∀ o ∈ os, ∀ q ∈ o.softs, ∃ l, q.1 = [l]) :
    processObjectives debug os i st = (maxPreObjs debug os i).map fun os' => (os', st) := by
  induction os generalizing i with
  | nil => rfl
  | cons o os ih =>
    have ih := ih (i + 1) fun o ho => h o (by simp [ho])
    have hr := relaxSofts_units (debug := debug) st o.softs (h o (by simp))
    cases hm : maxPreLits debug o.softs with
    | none => simp [processObjectives, processObjective, maxPreObjs, hr, hm]
    | some ts =>
      cases hn : maxPreObjs debug os (i + 1) <;>
        simp [processObjectives, processObjective, maxPreObjs, hr, hm, hn, ih]

/-- The instance that `max_pre` builds is the one that `to_clausal` builds from the result of MaxPre. -/
theorem maxPreInstance_eq (cnf : List Clause) (objs : List SoftObj) (h : UnitSofts objs) :
    maxPreInstance debug cnf objs = toClausal debug (clauseEnc enc) (asParsed cnf objs (maxVarOf cnf)) := by
  unfold maxPreInstance toClausal asParsed
  simp only [processObjectives_units _ objs 0 h.unit]
  cases maxPreObjs debug objs 0 with
  | none => rfl
  | some os =>
    simp only [Option.map_some, encodeConstraints_clauses]
    simp [VarManager.new, VarManager.markMaxEncVar]

omit [LawfulUbEnc P] [LawfulUbEnc C] [LawfulTotDb D] [LawfulMergeEnc P C D] in
/-- The run is that on the result of MaxPre, with reconstruction of the solutions. -/
theorem subMainPre_eq (hk : PreKeeps pre (preClauses enc p) p.objs) (fuel : Nat) :
    subMainPre P C D enc pre cli fuel env p =
      (subMain P C D (clauseEnc enc) cli fuel env (preParsed enc pre p)).reconstruct
        (pre.reconstruct (preClauses enc p) p.objs) := by
  unfold subMainPre subMain maxPre preParsed
  simp only [maxPreInstance_eq (enc := enc) _ _ hk.units]
  generalize toClausal env.debug (clauseEnc enc) _ = i
  cases i <;> rfl

/-! ## The Pareto front is kept -/

/-- A solution has a completion. -/
theorem exists_extends (x : Assignment) : ∃ u, Extends u x := by
  refine ⟨fun v => x[v]? == some (TV.ofBool true), fun v b h => ?_⟩
  simp only [h]
  cases b <;> decide

/-- The values of an assignment on the variables up to `n`. -/
theorem exists_values (t : Asg) (n : Nat) : ∃ x : Assignment, ∀ u, Extends u x ↔ ∀ v, v ≤ n → u v = t v := by
  refine ⟨(List.range (n + 1)).map fun v => TV.ofBool (t v), fun u => ⟨fun h v hv => ?_, fun h v b hb => ?_⟩⟩
  · exact h v (t v) (by rw [List.getElem?_map, List.getElem?_range (by omega)]; rfl)
  · rw [List.getElem?_map] at hb
    by_cases hv : v < n + 1
    · rw [List.getElem?_range hv] at hb
      simp only [Option.map_some, Option.some.injEq] at hb
      rw [h v (by omega)]
      revert hb
      cases t v <;> cases b <;> simp [TV.ofBool]
    · rw [List.getElem?_eq_none (by simpa using hv)] at hb
      simp at hb

theorem asParsed_feasible (cnf : List Clause) (objs : List SoftObj) (n : Nat) (s : Asg) :
    ParsedFeasible (asParsed cnf objs n) s ↔ Satisfies s cnf := by
  unfold ParsedFeasible Satisfies asParsed
  simp only [List.forall_mem_map, pbHolds_ofClause]

/-- What MaxPre is given has the same solutions on the original variables. -/
theorem preClauses_spec (hp : ParsedOK p) (g : GoodPbEncoding enc) :
    (∀ s, Satisfies s (preClauses enc p) → ParsedFeasible p s) ∧
    (∀ s, ParsedFeasible p s → ∃ t, Satisfies t (preClauses enc p) ∧ parsedCosts p t = parsedCosts p s) := by
  have hv : ∀ c ∈ p.constraints, ∀ q ∈ c.terms, q.1.var < p.vm.nextVar := by
    intro c hc q hq
    have := hp.cons c hc q hq
    rw [hp.vm]
    omega
  obtain ⟨-, -, h3, h4⟩ := encodeConstraints_spec g p.constraints p.vm.nextVar hv
  refine ⟨fun s hs => h3 s hs, fun s hs => ?_⟩
  obtain ⟨t, ht, hsat⟩ := h4 s hs
  exact ⟨t, hsat, (parsed_agree hp fun v hv => ht v (by rw [hp.vm]; omega)).2⟩

section Front

variable (hp : ParsedOK p) (g : GoodPbEncoding enc) (hk : PreKeeps pre (preClauses enc p) p.objs)
include hp g hk

/-- A solution of the result has one of the parsed instance that is not worse. -/
theorem pre_sound (hr : ParsedOK (preParsed enc pre p)) {t : Asg} (ht : ParsedFeasible (preParsed enc pre p) t) :
    ∃ u, ParsedFeasible p u ∧ WeaklyDominates (parsedCosts p u) (parsedCosts (preParsed enc pre p) t) := by
  obtain ⟨x, hx⟩ := exists_values t (preParsed enc pre p).vm.maxOrigVar
  obtain ⟨u, hu⟩ := exists_extends (pre.reconstruct (preClauses enc p) p.objs x)
  obtain ⟨h1, h2⟩ := hk.sound x (parsedCosts (preParsed enc pre p) t) (fun t' ht' => by
    obtain ⟨e1, e2⟩ := parsed_agree hr ((hx t').1 ht')
    exact ⟨(asParsed_feasible _ _ _ t').1 (e1.2 ht), e2⟩) u hu
  exact ⟨u, (preClauses_spec hp g).1 u h1, h2⟩

/-- A solution of the parsed instance has one of the result that is not worse. -/
theorem pre_complete {s : Asg} (hs : ParsedFeasible p s) :
    ∃ t, ParsedFeasible (preParsed enc pre p) t ∧
      WeaklyDominates (parsedCosts (preParsed enc pre p) t) (parsedCosts p s) := by
  obtain ⟨u, hu, hc⟩ := (preClauses_spec hp g).2 s hs
  obtain ⟨t, ht, hd⟩ := hk.complete u hu
  exact ⟨t, (asParsed_feasible _ _ _ t).2 ht, by rw [← hc]; exact hd⟩

/-- **C58.** The result of MaxPre has the same Pareto front. -/
theorem preParsed_front (hr : ParsedOK (preParsed enc pre p)) (v : List Int) : ParsedNonDominated (preParsed enc pre p) v ↔ ParsedNonDominated p v := by
  have key : ∀ {a b : List Int}, WeaklyDominates a b → a ≠ b → Dominates a b := fun h1 h2 => ⟨h1, h2⟩
  constructor
  · rintro ⟨t, ht, hopt, rfl⟩
    obtain ⟨u, hu, hd⟩ := pre_sound hp g hk hr ht
    have heq : parsedCosts p u = parsedCosts (preParsed enc pre p) t := by
      by_contra hne
      obtain ⟨t', ht', hd'⟩ := pre_complete hp g hk hu
      refine hopt t' ht' (key (WeaklyDominates.trans hd' hd) fun he => hne ?_)
      rw [he] at hd'
      exact WeaklyDominates.antisymm hd hd'
    refine ⟨u, hu, fun s hs hdom => ?_, heq⟩
    obtain ⟨t', ht', hd'⟩ := pre_complete hp g hk hs
    rw [heq] at hdom
    refine hopt t' ht' (key (WeaklyDominates.trans hd' hdom.1) fun he => hdom.2 ?_)
    rw [he] at hd'
    exact WeaklyDominates.antisymm hdom.1 hd'
  · rintro ⟨s, hs, hopt, rfl⟩
    obtain ⟨t, ht, hd⟩ := pre_complete hp g hk hs
    have heq : parsedCosts (preParsed enc pre p) t = parsedCosts p s := by
      by_contra hne
      obtain ⟨u, hu, hd'⟩ := pre_sound hp g hk hr ht
      refine hopt u hu (key (WeaklyDominates.trans hd' hd) fun he => hne ?_)
      rw [he] at hd'
      exact WeaklyDominates.antisymm hd hd'
    refine ⟨t, ht, fun t' ht' hdom => ?_, heq⟩
    obtain ⟨u, hu, hd'⟩ := pre_sound hp g hk hr ht'
    rw [heq] at hdom
    refine hopt u hu (key (WeaklyDominates.trans hd' hdom.1) fun he => hdom.2 ?_)
    rw [he] at hd'
    exact WeaklyDominates.antisymm hdom.1 hd'

end Front

/-! ## What is printed -/

/-- **C58.** With preprocessing, whatever options are given and however the run ends, if a front is printed, its points are
non-dominated in the parsed instance, listed once, and its solutions satisfy the constraints and have these costs; if no
warning about early termination is printed, the front is complete. -/
theorem subMainPre_printed (hp : ParsedOK p) (g : GoodPbEncoding enc) (hk : PreKeeps pre (preClauses enc p) p.objs)
    (hs : ParsedSetting cli (preParsed enc pre p) env) {fuel : Nat} {w : List Termination}
    {front : ParetoFront Assignment} (h : subMainPre P C D enc pre cli fuel env p = .printed w front) :
    PrintedSound p front ∧ (w = [] → PrintedAll p front) := by
  rw [subMainPre_eq hk] at h
  cases he : subMain P C D (clauseEnc enc) cli fuel env (preParsed enc pre p) with
  | printed w' f0 =>
    rw [he] at h
    simp only [Exit.reconstruct, convertSolutions_map, Exit.printed.injEq] at h
    obtain ⟨rfl, rfl⟩ := h
    obtain ⟨hsound, hall⟩ := subMain_printed hs (clauseEnc_good g) he
    have hfront := preParsed_front hp g hk hs.ok
    refine ⟨⟨?_, ?_, ?_, ?_⟩, fun hw v hv => ?_⟩
    · intro pt hpt
      obtain ⟨q, hq, rfl⟩ := List.mem_map.1 hpt
      exact (hfront _).1 (hsound.costs q hq)
    · simpa [List.map_map, Function.comp_def] using hsound.once
    · intro pt hpt
      obtain ⟨q, hq, rfl⟩ := List.mem_map.1 hpt
      simpa using hsound.some q hq
    · intro pt hpt x hx u hxu
      obtain ⟨q, hq, rfl⟩ := List.mem_map.1 hpt
      obtain ⟨y, hy, rfl⟩ := List.mem_map.1 hx
      obtain ⟨h1, h2⟩ := hk.sound y q.costs (fun t ht => by
        obtain ⟨e1, e2⟩ := hsound.sols q hq y hy t ht
        exact ⟨(asParsed_feasible _ _ _ t).1 e1, e2⟩) u hxu
      have hu := (preClauses_spec hp g).1 u h1
      refine ⟨hu, ?_⟩
      obtain ⟨s, hs', hopt, hc⟩ := (hfront _).1 (hsound.costs q hq)
      by_contra hne
      exact hopt u hu ⟨by rw [hc]; exact h2, by rw [hc]; exact hne⟩
    · have := hall hw v ((hfront v).2 hv)
      simpa [List.map_map, Function.comp_def] using this
  | failed => rw [he] at h; simp [Exit.reconstruct] at h
  | panicked => rw [he] at h; simp [Exit.reconstruct] at h
  | fuel => rw [he] at h; simp [Exit.reconstruct] at h

/-- **C58.** With preprocessing a front is printed if the instance is feasible or core boosting is off, BiOptSat gets two
objectives, the result of MaxPre has a soft clause if reindexing is on, and writing messages succeeds. -/
theorem subMainPre_ends (g : GoodPbEncoding enc) (p : Parsed) (hp : ParsedOK p)
    (hk : PreKeeps pre (preClauses enc p) p.objs) (debug : Bool) : ∃ N, ∀ (cli : Cli) (env : Env) (fuel : Nat),
    env.debug = debug → ParsedSetting cli (preParsed enc pre p) env → (cli.alg = .biOptSat → p.objs.length = 2) →
    (cli.cb.coreBoosting = true → ∃ t, ParsedFeasible p t) →
    (cli.reindexing = true → ∃ o ∈ (preParsed enc pre p).objs, o.softs ≠ []) →
    (∀ t, env.logOk t = true) → N < fuel →
    ∃ w front, subMainPre P C D enc pre cli fuel env p = .printed w front := by
  obtain ⟨N, hN⟩ := subMain_ends (P := P) (C := C) (D := D) (clauseEnc_good g) (preParsed enc pre p) debug
  refine ⟨N, fun cli env fuel hdebug hs h2 hfe hre hlog hf => ?_⟩
  have hfe' : cli.cb.coreBoosting = true → ∃ t, ParsedFeasible (preParsed enc pre p) t := fun hb => by
    obtain ⟨s, hs'⟩ := hfe hb
    obtain ⟨t, ht, -⟩ := pre_complete hp g hk hs'
    exact ⟨t, ht⟩
  have hne : debug = true → ∀ o ∈ (preParsed enc pre p).objs, ∀ q ∈ o.softs, q.1 ≠ [] := fun _ o ho q hq => by
    obtain ⟨l, hl⟩ := hk.units.unit o ho q hq
    simp [hl]
  obtain ⟨w, front, h⟩ := hN cli env fuel hdebug hs (fun ha => hk.num.trans (h2 ha)) hfe' hre hne hlog hf
  rw [subMainPre_eq hk, h]
  exact ⟨_, _, rfl⟩

/-! ## Examples and findings -/

/-- The program with preprocessing, with the reference encodings. -/
def Example.mainPre (pre : PrePro) (cli : Cli) (debug : Bool) (p : Parsed) : Exit :=
  subMainPre (RefTot.RefTree 1) (RefTot.RefTree 0) RefTot (clauseEnc refPbEnc) pre cli 50 (refEnv debug) p

theorem Example.unitSofts {objs : List SoftObj} (h : ∀ o ∈ objs, ∀ q ∈ o.softs, q.1.length = 1)
    (h' : ∀ o ∈ objs, (o.softs.map Prod.fst).Nodup) : UnitSofts objs :=
  ⟨fun o ho q hq => List.length_eq_one_iff.1 (h o ho q hq), h'⟩

theorem WeaklyDominates.refl (a : List Int) : WeaklyDominates a a := by
  unfold WeaklyDominates
  induction a with
  | nil => exact .nil
  | cons x a ih => exact .cons (le_refl x) ih

/-- An instance over three variables. -/
def Example.preInst : Parsed := asParsed [[Lit.pos 0, Lit.pos 1], [Lit.pos 2]]
  [⟨[([Lit.negOf 0], 1)], 0⟩, ⟨[([Lit.negOf 1, Lit.negOf 2], 2)], 3⟩] 2

/-- Preprocessing that removes a variable with the only possible value, which is inserted when solutions are
reconstructed. -/
def Example.fixPre : PrePro where
  run _ _ := ([[Lit.pos 0, Lit.pos 1]], [⟨[([Lit.negOf 0], 1)], 0⟩, ⟨[([Lit.negOf 1], 2)], 3⟩])
  reconstruct _ _ x := [x.getD 0 .dc, x.getD 1 .dc, .tt]

theorem Example.fixPre_keeps :
    PreKeeps Example.fixPre (preClauses (clauseEnc refPbEnc) Example.preInst) Example.preInst.objs where
  units := Example.unitSofts (by decide) (by decide)
  num := rfl
  sound x v hx u hu := by
    have h2 : u 2 = true := hu 2 true rfl
    obtain ⟨h3, h4⟩ := hx (fun w => if w < 2 then u w else x[w]? == some (TV.ofBool true)) (by
      intro w b hb
      beta_reduce
      split
      · rename_i hw
        have : w = 0 ∨ w = 1 := by omega
        rcases this with rfl | rfl <;> refine hu _ b ?_ <;> simp [Example.fixPre, hb]
      · rw [hb]
        cases b <;> decide)
    rw [show preClauses (clauseEnc refPbEnc) Example.preInst = [[Lit.pos 0, Lit.pos 1], [Lit.pos 2]] by decide]
    simp only [Satisfies, Example.fixPre, List.mem_singleton, forall_eq, List.mem_cons, List.not_mem_nil, or_false,
      exists_eq_or_imp, exists_eq_left, LitTrue, Lit.pos, costsOf, List.map_cons, List.map_nil, softCost, Lit.negOf,
      forall_eq_or_imp] at h3 h4 ⊢
    subst h4
    refine ⟨⟨by simpa using h3, by simp [h2]⟩, ?_⟩
    simp [Example.preInst, asParsed, softCost, LitTrue, Lit.negOf, h2]
    exact WeaklyDominates.refl _
  complete u hu := by
    rw [show preClauses (clauseEnc refPbEnc) Example.preInst = [[Lit.pos 0, Lit.pos 1], [Lit.pos 2]] by decide] at hu
    refine ⟨u, fun c hc => hu c (by simp only [Example.fixPre, List.mem_singleton] at hc; simp [hc]), ?_⟩
    have h2 : u 2 = true := by simpa [LitTrue, Lit.pos] using hu [Lit.pos 2] (by simp)
    simp [Example.fixPre, Example.preInst, asParsed, costsOf, softCost, LitTrue, Lit.negOf, h2]
    exact WeaklyDominates.refl _

/-- The hypotheses of `subMainPre_printed` and `subMainPre_ends` are met for each algorithm, with core boosting. -/
example (alg : Alg) : ParsedOK Example.preInst ∧ GoodPbEncoding (clauseEnc refPbEnc) ∧
    PreKeeps Example.fixPre (preClauses (clauseEnc refPbEnc) Example.preInst) Example.preInst.objs ∧
    ParsedSetting { alg := alg } (preParsed (clauseEnc refPbEnc) Example.fixPre Example.preInst) (refEnv false) ∧
    ∃ t, ParsedFeasible Example.preInst t := by
  refine ⟨⟨rfl, by decide, by decide, by decide⟩, clauseEnc_good refPbEnc_good, Example.fixPre_keeps,
    ⟨⟨rfl, by decide, by decide, by decide⟩, ⟨by decide, by decide⟩, refEnv_correct false, refEnv_noDupCores false,
      by simp, by simp, fun _ _ o ho hall => ?_⟩, fun _ => true, by unfold ParsedFeasible; decide⟩
  have f1 : ParsedFeasible (preParsed (clauseEnc refPbEnc) Example.fixPre Example.preInst) (fun v => v == 0) := by
    unfold ParsedFeasible; decide
  have f2 : ParsedFeasible (preParsed (clauseEnc refPbEnc) Example.fixPre Example.preInst) (fun v => v == 1) := by
    unfold ParsedFeasible; decide
  have h := hall _ _ f1 f2
  simp only [preParsed, asParsed, Example.fixPre, List.mem_cons, List.not_mem_nil, or_false] at ho
  rcases ho with rfl | rfl
  · exact absurd h (by decide)
  · exact absurd h (by decide)

/-- What is printed for the example: the value of the removed variable is that of the reconstruction. -/
example : Example.mainPre Example.fixPre { alg := .biOptSat } false Example.preInst =
    .printed [] [⟨[0, 5], [[.ff, .tt, .tt]]⟩, ⟨[1, 3], [[.tt, .ff, .tt]]⟩] := by decide +kernel

/-- Preprocessing that does nothing. -/
def Example.idPre : PrePro := ⟨fun cnf objs => (cnf, objs), fun _ _ x => x⟩

theorem Example.idPre_keeps (cnf : List Clause) (objs : List SoftObj) (h : UnitSofts objs) :
    PreKeeps Example.idPre cnf objs where
  units := h
  num := rfl
  sound x v hx u hu := ⟨(hx u hu).1, by rw [← (hx u hu).2]; exact WeaklyDominates.refl _⟩
  complete u hu := ⟨u, hu, WeaklyDominates.refl _⟩

/-- **Finding for C58 (latent).** If MaxPre returns an objective with a variable that is higher than those of the clauses,
costs are printed that no solution has. Preprocessing that does nothing is enough. -/
theorem preprocess_unused_counterexample : ∃ (p : Parsed) (pre : PrePro) (front : ParetoFront Assignment), ParsedOK p ∧
    WeightsOK p ∧ PreKeeps pre (preClauses (clauseEnc refPbEnc) p) p.objs ∧
    (∀ debug, Example.mainPre pre { alg := .pMinimal } debug p = .printed [] front) ∧
    ∃ pt ∈ front, ∀ s, parsedCosts p s ≠ pt.costs := by
  refine ⟨⟨[PbCon.ofClause [Lit.pos 0]], [⟨[([Lit.negOf 1], 1), ([Lit.negOf 2], 1)], 0⟩,
    ⟨[([Lit.pos 1], 1), ([Lit.pos 2], 1)], 0⟩], ⟨3, 2, 2⟩⟩, Example.idPre, [⟨[0, 0], [[.tt]]⟩],
    ⟨rfl, by decide, by decide, by decide⟩, ⟨by decide, by decide⟩,
    Example.idPre_keeps _ _ (Example.unitSofts (by decide) (by decide)),
    fun debug => by cases debug <;> decide +kernel, _, List.mem_singleton_self _, fun s => ?_⟩
  simp only [parsedCosts, softCost, List.map_cons, List.map_nil, List.mem_singleton, exists_eq_left, LitTrue, Lit.pos,
    Lit.negOf]
  cases s 1 <;> cases s 2 <;> simp

/-- Preprocessing that adds a clause to remove some of the solutions of the same costs. -/
def Example.lessPre : PrePro := ⟨fun cnf objs => (cnf ++ [[Lit.pos 2]], objs), fun _ _ x => x⟩

/-- An instance with one variable that does not matter. -/
def Example.freeInst : Parsed := asParsed [[Lit.pos 0, Lit.pos 1], [Lit.pos 2, Lit.pos 0, Lit.pos 1]]
  [⟨[([Lit.negOf 0], 1)], 0⟩, ⟨[([Lit.negOf 1], 1)], 0⟩] 2

theorem Example.lessPre_keeps :
    PreKeeps Example.lessPre (preClauses (clauseEnc refPbEnc) Example.freeInst) Example.freeInst.objs where
  units := Example.unitSofts (by decide) (by decide)
  num := rfl
  sound x v hx u hu := ⟨fun c hc => (hx u hu).1 c (List.mem_append_left _ hc), by
    rw [← (hx u hu).2]; exact WeaklyDominates.refl _⟩
  complete u hu := by
    rw [show preClauses (clauseEnc refPbEnc) Example.freeInst = [[Lit.pos 0, Lit.pos 1],
      [Lit.pos 2, Lit.pos 0, Lit.pos 1]] by decide] at hu ⊢
    have h := hu _ (List.mem_cons_self ..)
    simp only [List.mem_cons, List.not_mem_nil, or_false, exists_eq_or_imp, exists_eq_left, LitTrue, Lit.pos] at h
    refine ⟨fun v => if v = 2 then true else u v, ?_, ?_⟩
    · simpa [Satisfies, Example.lessPre, LitTrue, Lit.pos] using h
    · simp [costsOf, Example.lessPre, Example.freeInst, asParsed, softCost, LitTrue, Lit.negOf]
      exact WeaklyDominates.refl _

/-- **Finding for C58.** With preprocessing, solution enumeration does not list all solutions of the parsed instance, also
if MaxPre behaves as it should. -/
theorem preprocess_enumeration_counterexample : ∃ (p : Parsed) (pre : PrePro), ParsedOK p ∧ WeightsOK p ∧
    PreKeeps pre (preClauses (clauseEnc refPbEnc) p) p.objs ∧ ∀ alg, ∃ front,
      Example.mainPre pre { alg := alg, kernel := { enumeration := .solutions } } false p = .printed [] front ∧
      ¬ PrintedSolutions p front := by
  have hs : ParsedFeasible Example.freeInst (fun v => v == 0) := by unfold ParsedFeasible; decide
  have hnd : ParsedNonDominated Example.freeInst (parsedCosts Example.freeInst (fun v => v == 0)) := by
    refine ⟨_, hs, fun t ht hd => ?_, rfl⟩
    have h : ∃ l ∈ [Lit.pos 0, Lit.pos 1], LitTrue t l := by
      rw [← pbHolds_ofClause]
      exact ht _ (List.mem_cons_self ..)
    simp only [List.mem_cons, List.not_mem_nil, or_false, exists_eq_or_imp, exists_eq_left, LitTrue, Lit.pos] at h
    obtain ⟨h1, h2⟩ := hd
    revert h1 h2
    simp only [parsedCosts, Example.freeInst, asParsed, List.map_cons, List.map_nil, softCost, LitTrue, Lit.negOf,
      List.mem_singleton, exists_eq_left, WeaklyDominates]
    revert h
    cases t 0 <;> cases t 1 <;> simp
  refine ⟨Example.freeInst, Example.lessPre, ⟨rfl, by decide, by decide, by decide⟩, ⟨by decide, by decide⟩,
    Example.lessPre_keeps, fun alg => ?_⟩
  have key : ∀ front : ParetoFront Assignment, (∀ pt ∈ front, ∀ x ∈ pt.sols, x[2]? = some TV.tt) →
      ¬ PrintedSolutions Example.freeInst front := by
    intro front hf hall
    obtain ⟨pt, hpt, x, hx, he⟩ := hall _ hs hnd
    exact absurd (he 2 true (hf pt hpt x hx)) (by decide)
  cases alg
  · exact ⟨[⟨[1, 0], [[.tt, .ff, .tt]]⟩, ⟨[0, 1], [[.ff, .tt, .tt]]⟩], by decide +kernel, key _ (by decide)⟩
  · exact ⟨[⟨[1, 0], [[.tt, .ff, .tt]]⟩, ⟨[0, 1], [[.ff, .tt, .tt]]⟩], by decide +kernel, key _ (by decide)⟩
  · exact ⟨[⟨[0, 1], [[.ff, .tt, .tt]]⟩, ⟨[1, 0], [[.tt, .ff, .tt]]⟩], by decide +kernel, key _ (by decide)⟩

end Scuttle

import Verif.Proof.PrintLines
import Verif.Props.Driver

/-!
# C67: the printed front can be read back
-/

set_option linter.unusedSectionVars false

namespace Scuttle

open Spec

variable {S : Type} {b : Bool} {disp : S → Text}

/-- C67: whatever other lines are printed before and after, the points with their costs and numbers of solutions, and if
asked for the solutions, can be read from the output. -/
theorem readFront_printed (hd : ∀ s, '\n' ∉ disp s) {before after : Text} (hb : QuietText before) (ha : QuietText after)
    (front : ParetoFront S) : readFront (before ++ frontText b disp front ++ after) =
      front.map fun p => { costs := p.costs, nSols := p.sols.length, sols := if b then p.sols.map disp else [] } := by
  obtain ⟨ls, h1, h2⟩ := quietText_lines hb (frontText b disp front ++ after)
  obtain ⟨ms, h3, h4⟩ := quietText_lines ha []
  rw [List.append_nil] at h4
  unfold readFront
  rw [List.append_assoc, h2, frontText_eq, linesOf_unlines (frontLines_oneLine hd front), h4, List.foldl_append,
    readLines_quiet h1, List.foldl_append, readLines_front, List.foldl_append, readLines_quiet h3,
    readLines_quiet (ls := linesOf []) (by intro l hl; simp only [linesOf, List.mem_singleton] at hl; subst hl; exact quietLine_marks.2.2.2),
    List.append_nil, List.reverse_reverse]
  rfl

/-- C67: fronts that are printed in the same way have the same costs and numbers of solutions, and if solutions are printed
and different ones look different, they are the same. -/
theorem frontText_injective (hd : ∀ s, '\n' ∉ disp s) {f g : ParetoFront S} (h : frontText b disp f = frontText b disp g) :
    (f.map fun p => (p.costs, p.sols.length)) = (g.map fun p => (p.costs, p.sols.length)) ∧
    ((∀ s t, disp s = disp t → s = t) → b = true → f = g) := by
  have hq : QuietText [] := ⟨.inl rfl, fun l hl => by
    simp only [linesOf, List.mem_singleton] at hl; subst hl; exact quietLine_marks.2.2.2⟩
  have h1 := readFront_printed (b := b) hd hq hq f
  rw [h, readFront_printed hd hq hq g] at h1
  constructor
  · have := congrArg (List.map fun r : ReadPoint => (r.costs, r.nSols)) h1
    rw [List.map_map, List.map_map] at this
    exact this.symm
  · rintro hi rfl
    have hinj : Function.Injective fun p : NonDomPoint S =>
        ({ costs := p.costs, nSols := p.sols.length, sols := if true then p.sols.map disp else [] } : ReadPoint) := by
      rintro ⟨c1, s1⟩ ⟨c2, s2⟩ he
      simp only [if_true, ReadPoint.mk.injEq] at he
      obtain ⟨rfl, -, he⟩ := he
      rw [List.map_injective_iff.2 (fun s t => hi s t) he]
    exact (List.map_injective_iff.2 hinj h1).symm

/-- C67: the statistics do not interfere with the front. -/
theorem statsText_quiet (b : Bool) (stats : Stats) : QuietText (statsText b stats) := by
  unfold statsText
  split
  · have h1 : startBlock = ">>>>>".toList ++ ['\n'] := by decide +kernel
    have h2 : endBlock = "<<<<<".toList ++ ['\n'] := by decide +kernel
    have h3 : "Solver Stats".toList ++ ": \n".toList = "Solver Stats: ".toList ++ ['\n'] := by decide +kernel
    have he : startBlock ++ "Solver Stats".toList ++ ": \n".toList ++
      paramText "n-solve-calls" (natText stats.nSolveCalls) ++ paramText "n-solutions" (natText stats.nSolutions) ++
      paramText "n-non-dominated" (natText stats.nNonDominated) ++ paramText "n-candidates" (natText stats.nCandidates) ++
      paramText "n-objectives" (natText stats.nObjs) ++ paramText "n-orig-clauses" (natText stats.nOrigClauses) ++ endBlock =
      unlines [">>>>>".toList, "Solver Stats: ".toList, "n-solve-calls".toList ++ ": ".toList ++ natText stats.nSolveCalls,
        "n-solutions".toList ++ ": ".toList ++ natText stats.nSolutions,
        "n-non-dominated".toList ++ ": ".toList ++ natText stats.nNonDominated,
        "n-candidates".toList ++ ": ".toList ++ natText stats.nCandidates,
        "n-objectives".toList ++ ": ".toList ++ natText stats.nObjs,
        "n-orig-clauses".toList ++ ": ".toList ++ natText stats.nOrigClauses, "<<<<<".toList] := by
      rw [List.append_assoc startBlock, h3]
      simp only [paramText, unlines_cons, unlines_nil, newline_toList, h1, h2, List.append_assoc, List.append_nil]
    rw [he]
    refine quietText_unlines ?_ ?_
    · intro l hl
      simp only [List.mem_cons, List.not_mem_nil, or_false] at hl
      rcases hl with rfl | rfl | rfl | rfl | rfl | rfl | rfl | rfl | rfl <;>
        first
        | decide +kernel
        | (simp only [oneLine_append, natText_oneLine]; decide +kernel)
    · intro l hl
      simp only [List.mem_cons, List.not_mem_nil, or_false] at hl
      have hn : ∀ {l : Text}, FirstChar 'n' l → QuietLine l := fun h => h.quiet (by decide) (by decide)
      rcases hl with rfl | rfl | rfl | rfl | rfl | rfl | rfl | rfl | rfl <;>
        first
        | (unfold QuietLine; decide +kernel)
        | (refine hn (FirstChar.append (FirstChar.append ?_ _) _); decide +kernel)
  · exact quietText_unlines (ls := []) (by simp) (by simp)

section Log

variable {result : SolverResult → Text} {lines : List (LogLine × Text)}

/-- C67: the messages of the logger do not interfere with the front. -/
theorem logText_quiet (hr : ∀ r, '\n' ∉ result r) (ht : ∀ l ∈ lines, '\n' ∉ l.2) (hn : ∀ l ∈ lines, '\n' ∉ l.1.desc.toList) :
    QuietText (logText result lines) := by
  obtain ⟨ls, h1, h2, h3, -⟩ := logText_lines hr ht hn
  rw [h1]
  exact quietText_unlines h2 h3

/-- C67: the points that are reported while solving can be read from the messages of the logger. -/
theorem readLog_printed (hr : ∀ r, '\n' ∉ result r) (ht : ∀ l ∈ lines, '\n' ∉ l.2)
    (hn : ∀ l ∈ lines, '\n' ∉ l.1.desc.toList) : readLog (logText result lines) =
      (lines.map Prod.fst).filterMap fun
        | .message (.nonDominated p) => some { costs := p.costs, nSols := p.sols.length }
        | _ => none := by
  obtain ⟨ls, h1, h2, -, h4⟩ := logText_lines hr ht hn
  have h5 := linesOf_unlines h2 []
  rw [List.append_nil] at h5
  have h6 : (linesOf []).filterMap (readPoint logHead) = [] := by decide +kernel
  unfold readLog
  rw [h1, h5, List.filterMap_append, h6, List.append_nil, h4]
  clear h1 h2 h4 h5 h6 hr ht hn ls
  induction lines with
  | nil => rfl
  | cons l lines ih =>
    rw [List.flatMap_cons, ih, List.map_cons]
    obtain ⟨l, t⟩ := l
    rcases l with e | d | d
    · cases e <;> rfl
    · rfl
    · rfl

end Log

section Main

variable {P C D : Type} [UbEnc P] [UbEnc C] [TotDb D] [MergeEnc P C D]
variable [LawfulUbEnc P] [LawfulUbEnc C] [LawfulTotDb D] [LawfulMergeEnc P C D] {env : Env} {cli : Cli} {p : Parsed}
variable {enc : PbCon → Nat → List Clause × Nat}

/-- C67: what is read from the output of the program: non-dominated points of the parsed instance, none twice, each with at
least one solution, and if no warning about early termination was printed, all of them. If solutions are printed, they
satisfy the constraints and have the costs of the point. -/
theorem subMain_read (hp : ParsedSetting cli p env) (g : GoodPbEncoding enc) {fuel : Nat} {w : List Termination}
    {front : ParetoFront Assignment} (h : subMain P C D enc cli fuel env p = .printed w front) {disp : Assignment → Text}
    (hd : ∀ s, '\n' ∉ disp s) {before after : Text} (hb : QuietText before) (ha : QuietText after) :
    let pts := readFront (before ++ frontText b disp front ++ after)
    (∀ r ∈ pts, ParsedNonDominated p r.costs ∧ 0 < r.nSols) ∧ (pts.map ReadPoint.costs).Nodup ∧
    (w = [] → ∀ v, ParsedNonDominated p v → v ∈ pts.map ReadPoint.costs) ∧
    (∀ r ∈ pts, b = true → r.sols.length = r.nSols ∧ ∀ t ∈ r.sols, ∃ x, disp x = t ∧ PrintedSolution p r.costs x) := by
  obtain ⟨h1, h2⟩ := subMain_printed hp g h
  intro pts
  have hpts : pts = front.map fun p =>
      { costs := p.costs, nSols := p.sols.length, sols := if b then p.sols.map disp else [] } :=
    readFront_printed hd hb ha front
  have hcosts : pts.map ReadPoint.costs = front.map NonDomPoint.costs := by
    rw [hpts, List.map_map]
    rfl
  refine ⟨fun r hr => ?_, ?_, fun hw v hv => ?_, fun r hr hbt => ?_⟩
  · rw [hpts] at hr
    obtain ⟨q, hq, rfl⟩ := List.mem_map.1 hr
    exact ⟨h1.costs q hq, List.length_pos_iff.2 (h1.some q hq)⟩
  · rw [hcosts]
    exact h1.once
  · rw [hcosts]
    exact h2 hw v hv
  · subst hbt
    rw [hpts] at hr
    obtain ⟨q, hq, rfl⟩ := List.mem_map.1 hr
    refine ⟨by simp, fun t ht => ?_⟩
    simp only [if_true] at ht
    obtain ⟨x, hx, rfl⟩ := List.mem_map.1 ht
    exact ⟨x, rfl, h1.sols q hq x hx⟩

end Main

/-! ## Examples -/

/-- How a solution is displayed in the examples. -/
def Example.solText (a : Assignment) : Text := a.map fun
  | .tt => '1'
  | .ff => '0'
  | .dc => '_'

theorem Example.solText_oneLine (a : Assignment) : '\n' ∉ Example.solText a := by
  unfold Example.solText
  rw [List.mem_map]
  rintro ⟨x, -, h⟩
  cases x <;> simp at h

/-- What is printed for two points with solutions, one of them with a negative cost. -/
example : frontText true Example.solText [⟨[-12, 30], [[.tt, .ff], [.ff, .tt]]⟩, ⟨[4, 0], [[.dc, .ff]]⟩] =
    (">>>>>\nDiscovered Pareto Front: \n>>>>>\nNon-dominated Point: costs: (-12, 30); n-sols: 2\nv 10\nv 01\n<<<<<\n" ++
      ">>>>>\nNon-dominated Point: costs: (4, 0); n-sols: 1\nv _0\n<<<<<\n<<<<<\n").toList := by decide +kernel

/-- And what is read from it. -/
example : readFront (statsText true {} ++
      frontText true Example.solText [⟨[-12, 30], [[.tt, .ff], [.ff, .tt]]⟩, ⟨[4, 0], [[.dc, .ff]]⟩] ++ []) =
    [⟨[-12, 30], 2, ["10".toList, "01".toList]⟩, ⟨[4, 0], 1, ["_0".toList]⟩] := by decide +kernel

/-- The hypotheses of the theorem about the program are met with messages of the logger before the front and statistics after
it. -/
example : (∃ w front, subMain (RefTot.RefTree 1) (RefTot.RefTree 0) RefTot refPbEnc { alg := .biOptSat } 50 (refEnv false)
      Example.parsed = .printed w front ∧
      readFront (logText (fun _ => "SAT".toList) [(.message (.candidate [1, 6] .linsu), "0.1s".toList),
        (.message (.nonDominated ⟨[1, 6], [[.tt]]⟩), "0.2s".toList), (.routineEnd "solve", "0.3s".toList)] ++
        frontText false Example.solText front ++ statsText true {}) = [⟨[1, 6], 1, []⟩, ⟨[2, 3], 1, []⟩]) ∧
    QuietText (logText (fun _ => "SAT".toList) [(.message (.candidate [1, 6] .linsu), "0.1s".toList),
        (.message (.nonDominated ⟨[1, 6], [[.tt]]⟩), "0.2s".toList), (.routineEnd "solve", "0.3s".toList)]) ∧
    QuietText (statsText true {}) :=
  ⟨⟨[], [⟨[1, 6], [[.ff, .tt, .tt, .tt]]⟩, ⟨[2, 3], [[.tt, .ff, .tt, .ff]]⟩], by decide +kernel, by decide +kernel⟩,
    logText_quiet (fun _ => by decide +kernel) (by decide +kernel) (by decide +kernel), statsText_quiet _ _⟩

/-- The points in the log of the example. -/
example : readLog (logText (fun _ => "SAT".toList) [(.message (.candidate [1, 6] .linsu), "0.1s".toList),
    (.message (.nonDominated ⟨[1, -6], [[.tt]]⟩), "0.2s".toList), (.routineEnd "solve", "0.3s".toList)]) = [⟨[1, -6], 1, []⟩] := by
  decide +kernel

end Scuttle

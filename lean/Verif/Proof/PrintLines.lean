import Verif.Proof.PrintText

/-!
# The lines of the front, the statistics and the log
-/

namespace Scuttle

open Spec

/-- What is read for a point. -/
def readOf {S : Type} (b : Bool) (disp : S → Text) (p : NonDomPoint S) : ReadPoint :=
  { costs := p.costs, nSols := p.nSols, sols := if b then p.sols.map disp else [] }

/-- The lines of a point. -/
def nonDomLines {S : Type} (b : Bool) (disp : S → Text) (p : NonDomPoint S) : List Text :=
  [">>>>>".toList, frontHead ++ ": costs: ".toList ++ vecText intText p.costs ++ "; n-sols: ".toList ++ natText p.nSols] ++
    (if b then p.sols.map fun s => "v ".toList ++ disp s else []) ++ ["<<<<<".toList]

theorem unlines_append (a b : List Text) : unlines (a ++ b) = unlines a ++ unlines b := by simp [unlines]

theorem unlines_nil : unlines [] = [] := rfl

theorem unlines_cons (l : Text) (ls : List Text) : unlines (l :: ls) = l ++ ['\n'] ++ unlines ls := by simp [unlines]

theorem foldl_text {α : Type} (f : α → Text) (l : List α) (acc : Text) :
    l.foldl (fun buffer x => buffer ++ f x) acc = acc ++ l.flatMap f := by
  induction l generalizing acc with
  | nil => simp
  | cons x l ih => rw [List.foldl_cons, ih]; simp

theorem flatMap_unlines {α : Type} (f : α → List Text) (l : List α) : (l.flatMap fun x => unlines (f x)) = unlines (l.flatMap f) := by
  induction l with
  | nil => rfl
  | cons x l ih => rw [List.flatMap_cons, ih, List.flatMap_cons, unlines_append]

variable {S : Type} {b : Bool} {disp : S → Text}

instance (l : Text) : Decidable (OneLine l) := inferInstanceAs (Decidable ('\n' ∉ l))

/-- The first character of a text. -/
def FirstChar (c : Char) (l : Text) : Prop := l.head? = some c

instance (c : Char) (l : Text) : Decidable (FirstChar c l) := inferInstanceAs (Decidable (l.head? = some c))

theorem FirstChar.append {c : Char} {a : Text} (h : FirstChar c a) (b : Text) : FirstChar c (a ++ b) := by
  unfold FirstChar at *
  rw [List.head?_append, h]
  rfl

theorem FirstChar.not_prefix {c d : Char} {a l : Text} (ha : FirstChar d a) (h : FirstChar c l) (hn : d ≠ c) :
    ¬ (a.isPrefixOf l = true) := by
  intro hp
  obtain ⟨t, rfl⟩ := List.isPrefixOf_iff_prefix.1 hp
  have := ha.append t
  unfold FirstChar at this h
  rw [this] at h
  exact hn (Option.some.inj h)

theorem frontHead_first : FirstChar 'N' frontHead := by decide +kernel

theorem logHead_first : FirstChar 'n' logHead := by decide +kernel

theorem solution_first : FirstChar 'v' "v ".toList := by decide +kernel

theorem newline_toList : "\n".toList = ['\n'] := by decide +kernel

theorem nonDomText_eq (p : NonDomPoint S) : nonDomText b disp p = unlines (nonDomLines b disp p) := by
  have hs : (p.sols.foldl (fun buffer sol => buffer ++ "v ".toList ++ disp sol ++ "\n".toList) []) =
      unlines (p.sols.map fun s => "v ".toList ++ disp s) := by
    have : (fun (buffer : Text) sol => buffer ++ "v ".toList ++ disp sol ++ "\n".toList) =
        fun buffer sol => buffer ++ ("v ".toList ++ disp sol ++ "\n".toList) := by
      funext a s
      simp
    rw [this, foldl_text, newline_toList]
    unfold unlines
    rw [List.flatMap_map, List.nil_append]
  unfold nonDomText nonDomLines
  have h1 : startBlock = ">>>>>".toList ++ ['\n'] := by decide +kernel
  have h2 : endBlock = "<<<<<".toList ++ ['\n'] := by decide +kernel
  rw [hs, unlines_append, unlines_append, unlines_cons, unlines_cons, unlines_nil, unlines_cons, unlines_nil, h1, h2,
    newline_toList]
  unfold frontHead
  cases b
  · rw [if_neg (by decide), if_neg (by decide), unlines_nil]
    simp only [List.append_assoc, List.append_nil]
  · rw [if_pos rfl, if_pos rfl]
    simp only [List.append_assoc, List.append_nil, List.nil_append]

/-- The lines of the front. -/
def frontLines (b : Bool) (disp : S → Text) (front : ParetoFront S) : List Text :=
  [">>>>>".toList, "Discovered Pareto Front: ".toList] ++ front.flatMap (nonDomLines b disp) ++ ["<<<<<".toList]

theorem frontText_eq (front : ParetoFront S) : frontText b disp front = unlines (frontLines b disp front) := by
  unfold frontText frontLines
  rw [foldl_text, unlines_append, unlines_append]
  have : (front.flatMap fun p => nonDomText b disp p) = unlines (front.flatMap (nonDomLines b disp)) := by
    rw [← flatMap_unlines]
    simp only [nonDomText_eq]
  have h1 : startBlock = ">>>>>".toList ++ ['\n'] := by decide +kernel
  have h2 : endBlock = "<<<<<".toList ++ ['\n'] := by decide +kernel
  have h3 : "Discovered Pareto Front: ".toList ++ ['\n'] = "Discovered Pareto Front".toList ++ ": \n".toList := by decide +kernel
  rw [this, unlines_cons, unlines_cons, unlines_nil, unlines_cons, unlines_nil, h1, h2, h3]
  simp only [List.append_assoc, List.append_nil, List.nil_append]

theorem nonDomLines_oneLine (hd : ∀ s, '\n' ∉ disp s) (p : NonDomPoint S) : ∀ l ∈ nonDomLines b disp p, OneLine l := by
  intro l hl
  unfold nonDomLines at hl
  rw [List.mem_append, List.mem_append] at hl
  rcases hl with (hl | hl) | hl
  · simp only [List.mem_cons, List.not_mem_nil, or_false] at hl
    rcases hl with rfl | rfl
    · decide +kernel
    · simp only [oneLine_append]
      exact ⟨⟨⟨⟨by decide +kernel, by decide +kernel⟩, vecText_oneLine intText_oneLine _⟩, by decide +kernel⟩,
        natText_oneLine _⟩
  · cases b with
    | false => simp at hl
    | true =>
      obtain ⟨s, -, rfl⟩ := List.mem_map.1 hl
      rw [oneLine_append]
      exact ⟨by decide +kernel, hd s⟩
  · rw [List.mem_singleton] at hl
    subst hl
    decide +kernel

theorem frontLines_oneLine (hd : ∀ s, '\n' ∉ disp s) (front : ParetoFront S) : ∀ l ∈ frontLines b disp front, OneLine l := by
  intro l hl
  unfold frontLines at hl
  rw [List.mem_append, List.mem_append] at hl
  rcases hl with (hl | hl) | hl
  · simp only [List.mem_cons, List.not_mem_nil, or_false] at hl
    rcases hl with rfl | rfl <;> decide +kernel
  · obtain ⟨p, -, hp⟩ := List.mem_flatMap.1 hl
    exact nonDomLines_oneLine hd p l hp
  · rw [List.mem_singleton] at hl
    subst hl
    decide +kernel

/-- Neither a point nor a solution of the front. -/
def QuietLine (l : Text) : Prop := ¬ (frontHead.isPrefixOf l = true) ∧ ¬ ("v ".toList.isPrefixOf l = true)

theorem readPoint_none {head l : Text} (h : ¬ (head.isPrefixOf l = true)) : readPoint head l = none := by
  unfold readPoint
  dsimp only
  rw [if_neg]
  intro h2
  rw [List.isPrefixOf_iff_prefix] at h h2
  exact h ((List.prefix_append _ _).trans h2)

theorem readLine_quiet {l : Text} (h : QuietLine l) (pts : List ReadPoint) : readLine pts l = pts := by
  unfold readLine
  rw [readPoint_none h.1]
  dsimp only
  rw [if_neg h.2]

theorem readLines_quiet {ls : List Text} (h : ∀ l ∈ ls, QuietLine l) (pts : List ReadPoint) : ls.foldl readLine pts = pts := by
  induction ls with
  | nil => rfl
  | cons l ls ih =>
    rw [List.foldl_cons, readLine_quiet (h l (by simp)), ih fun x hx => h x (by simp [hx])]

theorem readLine_sol (s : Text) (p : ReadPoint) (pts : List ReadPoint) :
    readLine (p :: pts) ("v ".toList ++ s) = { p with sols := p.sols ++ [s] } :: pts := by
  unfold readLine
  rw [readPoint_none (frontHead_first.not_prefix (solution_first.append s) (by decide))]
  dsimp only
  rw [if_pos (List.isPrefixOf_iff_prefix.2 (List.prefix_append _ _))]
  have : ("v ".toList ++ s).drop 2 = s := List.drop_left' (by decide +kernel)
  rw [this]

theorem readLines_sols (sols : List Text) (p : ReadPoint) (pts : List ReadPoint) :
    (sols.map fun s => "v ".toList ++ s).foldl readLine (p :: pts) = { p with sols := p.sols ++ sols } :: pts := by
  induction sols generalizing p with
  | nil => simp
  | cons s sols ih =>
    rw [List.map_cons, List.foldl_cons, readLine_sol, ih]
    simp

theorem quietLine_marks : QuietLine ">>>>>".toList ∧ QuietLine "<<<<<".toList ∧ QuietLine "Discovered Pareto Front: ".toList ∧
    QuietLine [] := by
  unfold QuietLine
  decide +kernel

theorem FirstChar.quiet {c : Char} {l : Text} (h : FirstChar c l) (h1 : 'N' ≠ c) (h2 : 'v' ≠ c) : QuietLine l :=
  ⟨frontHead_first.not_prefix h h1, solution_first.not_prefix h h2⟩

theorem FirstChar.noPoint {c : Char} {l : Text} (h : FirstChar c l) (h1 : 'n' ≠ c) : readPoint logHead l = none :=
  readPoint_none (logHead_first.not_prefix h h1)

theorem readLines_nonDom (p : NonDomPoint S) (pts : List ReadPoint) :
    (nonDomLines b disp p).foldl readLine pts = readOf b disp p :: pts := by
  unfold nonDomLines
  rw [List.foldl_append, List.foldl_append, List.foldl_cons (l := [_]), readLine_quiet quietLine_marks.1]
  have h := readPoint_text frontHead p.costs p.nSols (rest := []) (by simp)
  rw [List.append_nil] at h
  have h2 : readLine pts (frontHead ++ ": costs: ".toList ++ vecText intText p.costs ++ "; n-sols: ".toList ++ natText p.nSols) =
      { costs := p.costs, nSols := p.nSols } :: pts := by
    unfold readLine
    rw [h]
  have h3 : ∀ l, [l].foldl readLine pts = readLine pts l := fun _ => rfl
  rw [h3, h2, List.foldl_cons, List.foldl_nil, readLine_quiet quietLine_marks.2.1]
  cases b with
  | false => rfl
  | true =>
    have := readLines_sols (p.sols.map disp) { costs := p.costs, nSols := p.nSols } pts
    rw [List.map_map] at this
    exact this

theorem readLines_front (front : ParetoFront S) (pts : List ReadPoint) :
    (frontLines b disp front).foldl readLine pts = (front.map (readOf b disp)).reverse ++ pts := by
  unfold frontLines
  have h1 : [">>>>>".toList, "Discovered Pareto Front: ".toList].foldl readLine pts = pts := by
    rw [List.foldl_cons, List.foldl_cons, List.foldl_nil, readLine_quiet quietLine_marks.1, readLine_quiet quietLine_marks.2.2.1]
  rw [List.foldl_append, List.foldl_append, h1, List.foldl_cons, List.foldl_nil, readLine_quiet quietLine_marks.2.1]
  clear h1
  induction front generalizing pts with
  | nil => rfl
  | cons p front ih =>
    rw [List.flatMap_cons, List.foldl_append, readLines_nonDom, ih]
    simp

theorem quietText_lines {t : Text} (h : QuietText t) (u : Text) :
    ∃ ls, (∀ l ∈ ls, QuietLine l) ∧ linesOf (t ++ u) = ls ++ linesOf u := by
  rcases h.whole with rfl | hw
  · exact ⟨[], by simp, rfl⟩
  · obtain ⟨a, rfl⟩ := List.getLast?_eq_some_iff.1 hw
    refine ⟨linesOf a, fun l hl => h.quiet l ?_, ?_⟩
    · rw [linesOf_break]
      exact List.mem_append_left _ hl
    · rw [List.append_assoc, List.singleton_append, linesOf_break]

theorem quietText_unlines {ls : List Text} (h1 : ∀ l ∈ ls, OneLine l) (h2 : ∀ l ∈ ls, QuietLine l) : QuietText (unlines ls) := by
  constructor
  · rcases List.eq_nil_or_concat ls with rfl | ⟨a, l, rfl⟩
    · exact .inl rfl
    · refine .inr ?_
      rw [List.concat_eq_append, unlines_append]
      simp [unlines]
  · intro l hl
    have := linesOf_unlines h1 []
    rw [List.append_nil] at this
    rw [this, List.mem_append] at hl
    rcases hl with hl | hl
    · exact h2 l hl
    · simp only [linesOf, List.mem_singleton] at hl
      subst hl
      exact quietLine_marks.2.2.2

/-- The point that a line of the log is about. -/
def LogLine.point : LogLine → List ReadPoint
  | .message (.nonDominated p) => [{ costs := p.costs, nSols := p.nSols }]
  | _ => []

/-- The name of the routine that a line is about. -/
def LogLine.desc : LogLine → String
  | .message (.routineStart d) => d
  | .routineStart d => d
  | .routineEnd d => d
  | _ => ""

theorem phase_oneLine (p : Phase) : OneLine p.text := by cases p <;> decide +kernel

/-- The first character of a line of the log. -/
def LogLine.first : LogLine → Char
  | .message (.candidate ..) => 'c'
  | .message (.oracleCall ..) => 'o'
  | .message .solution => 's'
  | .message (.nonDominated _) => 'n'
  | .message (.heurImprovement ..) => 'h'
  | .message (.fence _) => 'f'
  | .message (.ideal _) => 'i'
  | .message (.core ..) => 'e'
  | .message (.coreExhaustion ..) => 'e'
  | .message (.inprocessing ..) => 'i'
  | .message (.routineStart _) => '>'
  | .message .routineEnd => '<'
  | .routineStart _ => '>'
  | .routineEnd _ => '<'

/-- The lines that a line of the logger is printed as. -/
theorem LogLine.lines {result : SolverResult → Text} {time : Text} (l : LogLine) (hr : ∀ r, '\n' ∉ result r)
    (ht : '\n' ∉ time) (hd : '\n' ∉ l.desc.toList) :
    ∃ ls, l.text result time = unlines ls ∧ (∀ x ∈ ls, OneLine x) ∧ (∀ x ∈ ls, QuietLine x) ∧
      ls.filterMap (readPoint logHead) = l.point := by
  have hN := natText_oneLine
  have hV := vecText_oneLine natText_oneLine
  have hI := vecText_oneLine intText_oneLine
  have hq : ∀ x, FirstChar l.first x → QuietLine x := fun x h => by
    refine h.quiet ?_ ?_ <;> rcases l with (_ | _) | _ | _ <;> simp [LogLine.first]
  have one : ∀ (x : Text), l.text result time = x ++ "\n".toList → OneLine x → FirstChar l.first x →
      [x].filterMap (readPoint logHead) = l.point →
      ∃ ls, l.text result time = unlines ls ∧ (∀ x ∈ ls, OneLine x) ∧ (∀ x ∈ ls, QuietLine x) ∧
        ls.filterMap (readPoint logHead) = l.point := by
    intro x h1 h2 h3 h4
    refine ⟨[x], ?_, ?_, ?_, h4⟩
    · rw [h1, newline_toList, unlines_cons, unlines_nil, List.append_nil]
    · intro y hy
      rw [List.mem_singleton.1 hy]
      exact h2
    · intro y hy
      rw [List.mem_singleton.1 hy]
      exact hq x h3
  have other : ∀ (x : Text), l.text result time = x ++ "\n".toList → OneLine x → FirstChar l.first x →
      'n' ≠ l.first → l.point = [] →
      ∃ ls, l.text result time = unlines ls ∧ (∀ x ∈ ls, OneLine x) ∧ (∀ x ∈ ls, QuietLine x) ∧
        ls.filterMap (readPoint logHead) = l.point := by
    intro x h1 h2 h3 h4 h5
    refine one x h1 h2 h3 ?_
    rw [List.filterMap_cons_none (h3.noPoint h4), h5]
    rfl
  clear hq
  have ht : OneLine time := ht
  have hr : ∀ r, OneLine (result r) := hr
  have hd : OneLine l.desc.toList := hd
  rcases l with e | d | d
  · cases e with
    | inprocessing before after fixed ranges =>
      have f1 : FirstChar 'i' ("inprocessing".toList ++ ": cls_before: ".toList ++ natText before ++
        "; cls_after: ".toList ++ natText after ++ "; fixed_lits: ".toList ++ natText fixed) := by
        repeat apply FirstChar.append
        decide +kernel
      have f2 : FirstChar 'i' ("inprocessing".toList ++
        ": obj_ranges_before: ".toList ++ vecText natText (ranges.map Prod.fst) ++
        "; obj_ranges_after: ".toList ++ vecText natText (ranges.map Prod.snd)) := by
        repeat apply FirstChar.append
        decide +kernel
      refine ⟨["inprocessing".toList ++ ": cls_before: ".toList ++ natText before ++
        "; cls_after: ".toList ++ natText after ++ "; fixed_lits: ".toList ++ natText fixed, "inprocessing".toList ++
        ": obj_ranges_before: ".toList ++ vecText natText (ranges.map Prod.fst) ++
        "; obj_ranges_after: ".toList ++ vecText natText (ranges.map Prod.snd)], ?_, ?_, ?_, ?_⟩
      · unfold LogLine.text
        rw [newline_toList, unlines_cons, unlines_cons, unlines_nil]
        simp only [List.append_assoc, List.append_nil]
      · intro x hx
        simp only [List.mem_cons, List.not_mem_nil, or_false] at hx
        rcases hx with rfl | rfl <;> simp only [oneLine_append, hN, hV] <;> decide +kernel
      · intro x hx
        simp only [List.mem_cons, List.not_mem_nil, or_false] at hx
        rcases hx with rfl | rfl
        · exact f1.quiet (by decide) (by decide)
        · exact f2.quiet (by decide) (by decide)
      · rw [List.filterMap_cons_none (f1.noPoint (by decide)), List.filterMap_cons_none (f2.noPoint (by decide))]
        rfl
    | nonDominated p =>
      refine one (logHead ++ ": costs: ".toList ++ vecText intText p.costs ++
        "; n-sols: ".toList ++ natText p.nSols ++ ("; cpu-time: ".toList ++ time)) ?_ ?_ ?_ ?_
      · unfold LogLine.text logHead
        simp only [List.append_assoc]
      · simp only [oneLine_append, hN, hI, ht]
        decide +kernel
      · repeat apply FirstChar.append
        dsimp only [LogLine.first]
        decide +kernel
      · rw [List.filterMap_cons_some (readPoint_text logHead p.costs p.nSols ?_)]
        · rfl
        · have : FirstChar ';' ("; cpu-time: ".toList ++ time) := by
            apply FirstChar.append
            decide +kernel
          intro x hx
          rw [this] at hx
          cases hx
          decide
    | routineStart d =>
      refine other _ rfl ?_ ?_ (by dsimp only [LogLine.first]; decide) rfl
      · simp only [oneLine_append]
        exact ⟨by decide +kernel, hd⟩
      · repeat apply FirstChar.append
        dsimp only [LogLine.first]
        decide +kernel
    | _ =>
      refine other _ rfl ?_ ?_ (by dsimp only [LogLine.first]; decide) rfl
      · simp only [oneLine_append, hN, hV, ht, hr, phase_oneLine]
        decide +kernel
      · repeat apply FirstChar.append
        dsimp only [LogLine.first]
        decide +kernel
  · refine other _ rfl ?_ ?_ (by dsimp only [LogLine.first]; decide) rfl
    · simp only [oneLine_append]
      exact ⟨by decide +kernel, hd⟩
    · repeat apply FirstChar.append
      dsimp only [LogLine.first]
      decide +kernel
  · refine other _ rfl ?_ ?_ (by dsimp only [LogLine.first]; decide) rfl
    · simp only [oneLine_append]
      exact ⟨⟨⟨by decide +kernel, hd⟩, by decide +kernel⟩, ht⟩
    · repeat apply FirstChar.append
      dsimp only [LogLine.first]
      decide +kernel

theorem logText_lines {result : SolverResult → Text} {lines : List (LogLine × Text)} (hr : ∀ r, '\n' ∉ result r)
    (ht : ∀ l ∈ lines, '\n' ∉ l.2) (hd : ∀ l ∈ lines, '\n' ∉ l.1.desc.toList) :
    ∃ ls, logText result lines = unlines ls ∧ (∀ x ∈ ls, OneLine x) ∧ (∀ x ∈ ls, QuietLine x) ∧
      ls.filterMap (readPoint logHead) = lines.flatMap fun l => l.1.point := by
  unfold logText
  rw [foldl_text, List.nil_append]
  induction lines with
  | nil => exact ⟨[], rfl, by simp, by simp, rfl⟩
  | cons l lines ih =>
    obtain ⟨ls, h1, h2, h3, h4⟩ := ih (fun x hx => ht x (by simp [hx])) fun x hx => hd x (by simp [hx])
    obtain ⟨ms, g1, g2, g3, g4⟩ := LogLine.lines l.1 hr (ht l (by simp)) (hd l (by simp))
    refine ⟨ms ++ ls, ?_, ?_, ?_, ?_⟩
    · rw [List.flatMap_cons, g1, h1, unlines_append]
    · intro x hx
      exact (List.mem_append.1 hx).elim (g2 x) (h2 x)
    · intro x hx
      exact (List.mem_append.1 hx).elim (g3 x) (h3 x)
    · rw [List.filterMap_append, g4, h4, List.flatMap_cons]

end Scuttle

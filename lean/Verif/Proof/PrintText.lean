import Verif.Model.Print
import Verif.SpecPrint
import Mathlib.Tactic.Conv

/-!
# Lines and numbers in printed texts
-/

namespace Scuttle

open Spec

/-- Lines put together to a text. -/
def unlines (ls : List Text) : Text := ls.flatMap (· ++ ['\n'])

/-- Without line breaks. -/
def OneLine (l : Text) : Prop := '\n' ∉ l

theorem oneLine_append {a b : Text} : OneLine (a ++ b) ↔ OneLine a ∧ OneLine b := by
  unfold OneLine
  rw [List.mem_append, not_or]

theorem oneLine_cons {c : Char} {b : Text} : OneLine (c :: b) ↔ c ≠ '\n' ∧ OneLine b := by
  unfold OneLine
  rw [List.mem_cons, not_or]
  exact and_congr_left fun _ => ne_comm

theorem oneLine_nil : OneLine [] := by simp [OneLine]

theorem linesOf_ne_nil (t : Text) : linesOf t ≠ [] := by
  cases t with
  | nil => simp [linesOf]
  | cons c cs =>
    unfold linesOf
    split
    · simp
    · split <;> simp

theorem linesOf_cons (c : Char) (cs : Text) : linesOf (c :: cs) =
    if c = '\n' then [] :: linesOf cs
    else
      match linesOf cs with
      | l :: ls => (c :: l) :: ls
      | [] => [[c]] := rfl

theorem linesOf_line {l : Text} (h : OneLine l) (t : Text) : linesOf (l ++ '\n' :: t) = l :: linesOf t := by
  induction l with
  | nil => simp [linesOf]
  | cons c cs ih =>
    obtain ⟨h1, h2⟩ := oneLine_cons.1 h
    rw [List.cons_append]
    rw [linesOf_cons, if_neg h1, ih h2]

theorem linesOf_unlines {ls : List Text} (h : ∀ l ∈ ls, OneLine l) (t : Text) :
    linesOf (unlines ls ++ t) = ls ++ linesOf t := by
  induction ls with
  | nil => rfl
  | cons l ls ih =>
    have : unlines (l :: ls) ++ t = l ++ '\n' :: (unlines ls ++ t) := by simp [unlines]
    rw [this, linesOf_line (h _ (by simp)), ih fun x hx => h x (by simp [hx]), List.cons_append]

theorem linesOf_break (a t : Text) : linesOf (a ++ '\n' :: t) = linesOf a ++ linesOf t := by
  induction a with
  | nil => simp [linesOf]
  | cons c cs ih =>
    rw [List.cons_append, linesOf_cons, linesOf_cons, ih]
    split
    · simp
    · have := linesOf_ne_nil cs
      cases hl : linesOf cs with
      | nil => exact absurd hl this
      | cons x xs => simp

theorem natText_digits {n : Nat} {c : Char} (h : c ∈ natText n) : c.isDigit = true :=
  Nat.isDigit_of_mem_toDigits (by decide) (by decide) h

theorem natText_ne_nil (n : Nat) : natText n ≠ [] := Nat.toDigits_ne_nil

theorem readNat_natText (n : Nat) : readNat (natText n) = n :=
  Nat.ofDigitChars_toDigits (by decide) (by decide)

theorem intText_chars {n : Int} {c : Char} (h : c ∈ intText n) : c.isDigit = true ∨ c = '-' := by
  cases n with
  | ofNat n => exact .inl (natText_digits h)
  | negSucc n =>
    rcases List.mem_cons.1 h with rfl | h
    · exact .inr rfl
    · exact .inl (natText_digits h)

theorem intText_ne_nil (n : Int) : intText n ≠ [] := by
  cases n with
  | ofNat n => exact natText_ne_nil n
  | negSucc n => simp [intText]

theorem readInt_intText (n : Int) : readInt (intText n) = n := by
  cases n with
  | ofNat n =>
    unfold intText
    dsimp only
    have h : ∀ cs, natText n ≠ '-' :: cs := fun cs he => by
      have := natText_digits (n := n) (c := '-') (by rw [he]; simp)
      simp at this
    unfold readInt
    split
    · rename_i cs he
      exact absurd he (h cs)
    · rw [readNat_natText]
      rfl
  | negSucc n =>
    show -((readNat (natText (n + 1)) : Nat) : Int) = _
    rw [readNat_natText]
    rfl

/-- The numbers after the first one. -/
def restText {α : Type} (disp : α → Text) (cs : List α) : Text := cs.flatMap fun c => ',' :: ' ' :: disp c

/-- The numbers between the parentheses. -/
def innerText {α : Type} (disp : α → Text) : List α → Text
  | [] => []
  | c :: cs => disp c ++ restText disp cs

theorem vecText_fold {α : Type} (disp : α → Text) (cs : List α) (acc : Text) :
    (cs.foldl (fun (acc : Bool × Text) cost =>
      (false, acc.2 ++ (if acc.1 then [] else ", ".toList) ++ disp cost)) (false, acc)) = (false, acc ++ restText disp cs) := by
  induction cs generalizing acc with
  | nil => simp [restText]
  | cons c cs ih =>
    rw [List.foldl_cons]
    refine (ih _).trans ?_
    simp [restText]

theorem vecText_eq {α : Type} (disp : α → Text) (cs : List α) : vecText disp cs = '(' :: (innerText disp cs ++ [')']) := by
  unfold vecText
  cases cs with
  | nil => rfl
  | cons c cs =>
    rw [List.foldl_cons, if_pos rfl]
    dsimp only
    rw [vecText_fold]
    simp [innerText]

theorem mem_innerText {α : Type} {disp : α → Text} {cs : List α} {x : Char} (h : x ∈ innerText disp cs) :
    (∃ c ∈ cs, x ∈ disp c) ∨ x = ',' ∨ x = ' ' := by
  cases cs with
  | nil => simp [innerText] at h
  | cons c cs =>
    simp only [innerText, restText, List.mem_append, List.mem_flatMap, List.mem_cons] at h
    rcases h with h | ⟨d, hd, h | h | h⟩
    · exact .inl ⟨c, by simp, h⟩
    · exact .inr (.inl h)
    · exact .inr (.inr h)
    · exact .inl ⟨d, by simp [hd], h⟩

theorem commaParts_rest {α : Type} {disp : α → Text} (hd : ∀ c, ',' ∉ disp c) (cs : List α) {d : Text} (h : ',' ∉ d) :
    commaParts (d ++ restText disp cs) = d :: cs.map fun c => ' ' :: disp c := by
  induction d with
  | nil =>
    induction cs with
    | nil => simp [restText, commaParts]
    | cons c cs ih =>
      have aux : ∀ (e : Text), ',' ∉ e → commaParts (e ++ restText disp cs) = e :: cs.map fun c => ' ' :: disp c := by
        intro e he
        induction e with
        | nil => exact ih
        | cons x e ih2 =>
          simp only [List.mem_cons, not_or] at he
          rw [List.cons_append]
          conv_lhs => unfold commaParts
          rw [if_neg (Ne.symm he.1), ih2 he.2]
      have : ([] : Text) ++ restText disp (c :: cs) = ',' :: ((' ' :: disp c) ++ restText disp cs) := by simp [restText]
      rw [this]
      conv_lhs => unfold commaParts
      rw [if_pos rfl, aux (' ' :: disp c) (by simp [hd c])]
      simp
  | cons x d ih =>
    simp only [List.mem_cons, not_or] at h
    rw [List.cons_append]
    conv_lhs => unfold commaParts
    rw [if_neg (Ne.symm h.1), ih h.2]

theorem intText_not_mem {c : Char} (h1 : c.isDigit = false) (h2 : c ≠ '-') (n : Int) : c ∉ intText n := fun h => by
  rcases intText_chars h with h | h
  · rw [h1] at h
    cases h
  · exact h2 h

theorem natText_not_mem {c : Char} (h1 : c.isDigit = false) (n : Nat) : c ∉ natText n := fun h => by
  rw [natText_digits h] at h1
  cases h1

theorem dropSpace_intText (n : Int) : (intText n).dropWhile (· = ' ') = intText n := by
  cases h : intText n with
  | nil => rfl
  | cons x xs =>
    have : x ≠ ' ' := fun he => intText_not_mem (c := ' ') (by decide) (by decide) n (by rw [h, he]; simp)
    rw [List.dropWhile_cons_of_neg (by simpa using this)]

theorem readInts_innerText (cs : List Int) : readInts (innerText intText cs) = cs := by
  cases cs with
  | nil => rfl
  | cons c cs =>
    unfold readInts
    rw [if_neg (by simp [innerText, intText_ne_nil])]
    unfold innerText
    rw [commaParts_rest (fun c => intText_not_mem (by decide) (by decide) c) cs (intText_not_mem (by decide) (by decide) c)]
    rw [List.map_cons, List.map_map, dropSpace_intText, readInt_intText]
    congr 1
    conv_rhs => rw [← List.map_id cs]
    apply List.map_congr_left
    intro x _
    show readInt ((' ' :: intText x).dropWhile (· = ' ')) = x
    rw [List.dropWhile_cons_of_pos (by simp), dropSpace_intText, readInt_intText]

theorem vecText_oneLine {α : Type} {disp : α → Text} (h : ∀ c, OneLine (disp c)) (cs : List α) : OneLine (vecText disp cs) := by
  rw [vecText_eq, oneLine_cons, oneLine_append]
  refine ⟨by decide, fun hm => ?_, by simp [OneLine]⟩
  rcases mem_innerText hm with ⟨c, -, hc⟩ | h | h
  · exact h c hc
  · cases h
  · cases h

theorem natText_oneLine (n : Nat) : OneLine (natText n) := natText_not_mem (by decide) n

theorem intText_oneLine (n : Int) : OneLine (intText n) := intText_not_mem (by decide) (by decide) n

/-- What comes after the head of a line about a point. -/
theorem readPoint_text (head : Text) (cs : List Int) (n : Nat) {rest : Text} (hr : ∀ x ∈ rest.head?, x.isDigit = false) :
    readPoint head (head ++ ": costs: ".toList ++ vecText intText cs ++ "; n-sols: ".toList ++ natText n ++ rest) =
      some { costs := cs, nSols := n } := by
  have he : head ++ ": costs: ".toList ++ vecText intText cs ++ "; n-sols: ".toList ++ natText n ++ rest =
      (head ++ ": costs: (".toList) ++ (innerText intText cs ++ ')' :: ("; n-sols: ".toList ++ (natText n ++ rest))) := by
    rw [vecText_eq]
    simp
  rw [he]
  unfold readPoint
  dsimp only
  rw [if_pos (by rw [List.isPrefixOf_iff_prefix]; exact List.prefix_append _ _), List.drop_left]
  have hin : ∀ x ∈ innerText intText cs, decide (x ≠ ')') = true := by
    intro x hx
    rw [decide_eq_true_eq]
    rintro rfl
    rcases mem_innerText hx with ⟨c, -, hc⟩ | h | h
    · exact intText_not_mem (by decide) (by decide) c hc
    · cases h
    · cases h
  rw [List.takeWhile_append_of_pos hin, List.takeWhile_cons_of_neg (by simp), List.append_nil, readInts_innerText,
    List.dropWhile_append_of_pos hin, List.dropWhile_cons_of_neg (by simp)]
  have hd : (')' :: ("; n-sols: ".toList ++ (natText n ++ rest))).drop ("); n-sols: ".toList.length) = natText n ++ rest := rfl
  rw [hd, List.takeWhile_append_of_pos fun x hx => natText_digits hx]
  have : rest.takeWhile Char.isDigit = [] := by
    cases rest with
    | nil => rfl
    | cons x xs => exact List.takeWhile_cons_of_neg (by simp [hr x (by simp)])
  rw [this, List.append_nil, readNat_natText]

end Scuttle

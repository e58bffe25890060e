import Mathlib.Data.Nat.Notation

/-!
# How the output is read

Specification for what is printed: how somebody else reads the points and solutions from the text. Nothing here refers
to the model.
-/

namespace Scuttle.Spec

/-- The lines of a text. -/
def linesOf : List Char → List (List Char)
  | [] => [[]]
  | c :: cs =>
    if c = '\n' then [] :: linesOf cs
    else
      match linesOf cs with
      | l :: ls => (c :: l) :: ls
      | [] => [[c]]

/-- A decimal number. -/
def readNat (cs : List Char) : Nat := cs.foldl (fun n c => 10 * n + (c.toNat - '0'.toNat)) 0

/-- A decimal number, maybe with a sign. -/
def readInt : List Char → Int
  | '-' :: cs => -(readNat cs : Int)
  | cs => readNat cs

/-- The parts of a text between commas. -/
def commaParts : List Char → List (List Char)
  | [] => [[]]
  | c :: cs =>
    if c = ',' then [] :: commaParts cs
    else
      match commaParts cs with
      | l :: ls => (c :: l) :: ls
      | [] => [[c]]

/-- Numbers separated by commas and spaces. -/
def readInts (cs : List Char) : List Int :=
  if cs = [] then [] else (commaParts cs).map fun part => readInt (part.dropWhile (· = ' '))

/-- A point as it is read from the output: costs, number of solutions, and the texts of the solutions. -/
structure ReadPoint where
  costs : List Int
  nSols : Nat
  sols : List (List Char) := []
  deriving DecidableEq, Repr

/-- A line about a point: `head: costs: (c, c, ...); n-sols: n`. -/
def readPoint (head : List Char) (line : List Char) : Option ReadPoint :=
  let start := head ++ ": costs: (".toList
  if start.isPrefixOf line then
    let rest := line.drop start.length
    let number := (rest.dropWhile (· ≠ ')')).drop ("); n-sols: ".toList.length)
    some { costs := readInts (rest.takeWhile (· ≠ ')')), nSols := readNat (number.takeWhile Char.isDigit) }
  else none

/-- How a point of the front is introduced in the output. -/
def frontHead : List Char := "Non-dominated Point".toList

/-- How a point is introduced in the log. -/
def logHead : List Char := "non-dominated point".toList

/-- Reads a line; the last point that was read comes first. -/
def readLine (pts : List ReadPoint) (line : List Char) : List ReadPoint :=
  match readPoint frontHead line with
  | some p => p :: pts
  | none =>
    if "v ".toList.isPrefixOf line then
      match pts with
      | p :: pts => { p with sols := p.sols ++ [line.drop 2] } :: pts
      | [] => []
    else pts

/-- Reads the front from the output. -/
def readFront (text : List Char) : List ReadPoint := ((linesOf text).foldl readLine []).reverse

/-- Reads the points from the messages of the logger. -/
def readLog (text : List Char) : List ReadPoint := (linesOf text).filterMap (readPoint logHead)

/-- A text of whole lines, none of which looks like a point or a solution of the front. -/
structure QuietText (text : List Char) : Prop where
  whole : text = [] ∨ text.getLast? = some '\n'
  quiet : ∀ line ∈ linesOf text, ¬ (frontHead.isPrefixOf line = true) ∧ ¬ ("v ".toList.isPrefixOf line = true)

end Scuttle.Spec

/-!
# JSON texts

A JSON value, and the text of a value as a list of tokens. The tokens are those of RFC 8259, so spaces and the spelling
of strings do not show. Numbers are integers or anything else.
-/
namespace LPG.Json

inductive Tok where
  | lbrace | rbrace | lbrack | rbrack | comma | colon | null
  | str (s : String)
  | num (i : Int)
  | real (lit : String)
  | bool (b : Bool)
deriving DecidableEq, Repr

inductive JVal where
  | null
  | bool (b : Bool)
  | num (i : Int)
  | real (lit : String)
  | str (s : String)
  | arr (l : List JVal)
  | obj (m : List (String × JVal))
deriving Repr

mutual
/-- The text of a value. -/
def text : JVal → List Tok
  | .null => [.null]
  | .bool b => [.bool b]
  | .num i => [.num i]
  | .real l => [.real l]
  | .str s => [.str s]
  | .arr l => .lbrack :: (textElems l ++ [.rbrack])
  | .obj m => .lbrace :: (textMembers m ++ [.rbrace])

/-- The elements of an array, with commas between them. -/
def textElems : List JVal → List Tok
  | [] => []
  | v :: vs => text v ++ textMore vs

/-- The further elements of an array. -/
def textMore : List JVal → List Tok
  | [] => []
  | v :: vs => .comma :: (text v ++ textMore vs)

/-- The members of an object, with commas between them. -/
def textMembers : List (String × JVal) → List Tok
  | [] => []
  | (k, v) :: ms => .str k :: .colon :: (text v ++ textMoreMembers ms)

/-- The further members of an object. -/
def textMoreMembers : List (String × JVal) → List Tok
  | [] => []
  | (k, v) :: ms => .comma :: .str k :: .colon :: (text v ++ textMoreMembers ms)
end

/-- A well-formed document. -/
def WellFormed (ts : List Tok) : Prop := ∃ v, ts = text v

end LPG.Json

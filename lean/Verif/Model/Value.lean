/-!
# Property values and their comparison (properties.go)
-/
namespace LPG

/-- Dynamic values stored in properties (`interface{}`), classified by what the code distinguishes:
`ComparePropertyValue` (properties.go:69-209) has cases for `string`, `int`, `[]string`, `[]int`,
`[]interface{}` and `WithNativeValue`; every other dynamic type (bool, float64, structs, maps, ...)
falls through to the panic and is `other`. `hashable` says whether the dynamic type may be used as a
Go map key. `native v` is a value implementing `WithNativeValue` whose `GetNativeValue()` is `v`
(properties.go:52-54).
Simplification: `GetNativeValue` is a pure function and unwrapping is finite; a value that returns
itself would make the Go code recurse forever. -/
inductive Value where
  | nil
  | int (i : Int)
  | str (s : String)
  | ints (l : List Int)
  | strs (l : List String)
  | list (l : List Value)
  | other (tag : Nat) (hashable : Bool)
  | native (v : Value)
deriving Repr

/-- properties.go:79-88: the `string` case. -/
def cmpStr (a b : String) : Int := if a = b then 0 else if a < b then -1 else 1

/-- properties.go:90-99: the `int` case. -/
def cmpInt (a b : Int) : Int := if a = b then 0 else if a < b then -1 else 1

/-- properties.go:102-120: `[]string` against `[]string`. The Go loop runs over the common indexes and
then compares the lengths. -/
def lexStr : List String → List String → Int
  | a :: as, b :: bs => if a < b then -1 else if b < a then 1 else lexStr as bs
  | [], [] => 0
  | [], _ :: _ => -1
  | _ :: _, [] => 1

/-- properties.go:142-160: `[]int` against `[]int`. -/
def lexInt : List Int → List Int → Int
  | a :: as, b :: bs => if a < b then -1 else if b < a then 1 else lexInt as bs
  | [], [] => 0
  | [], _ :: _ => -1
  | _ :: _, [] => 1

mutual
/-- properties.go:69-209, `ComparePropertyValue`. `none` is the panic at line 208 (raised here or by a
recursive call). Lines 201-206 call the function with swapped arguments, which lands in the
`[]string`/`[]int` against `[]interface{}` loops (121-139, 161-179); that call is inlined here. -/
def cmp : Value → Value → Option Int
  | .native v, b => cmp v b
  | a, .native v => cmp a v
  | .str a, .str b => some (cmpStr a b)
  | .int a, .int b => some (cmpInt a b)
  | .strs a, .strs b => some (lexStr a b)
  | .strs a, .list b => cmpSV a b
  | .ints a, .ints b => some (lexInt a b)
  | .ints a, .list b => cmpIV a b
  | .list a, .list b => cmpVV a b
  | .list a, .strs b => (cmpSV b a).map (fun x => -x)
  | .list a, .ints b => (cmpIV b a).map (fun x => -x)
  | _, _ => none
termination_by a b => sizeOf a + sizeOf b
/-- properties.go:122-138: the loop for `[]string` against `[]interface{}`. -/
def cmpSV : List String → List Value → Option Int
  | a :: as, b :: bs =>
    match cmp (.str a) b with
    | none => none
    | some r => if r = -1 then some (-1) else if r = 1 then some 1 else cmpSV as bs
  | [], [] => some 0
  | [], _ :: _ => some (-1)
  | _ :: _, [] => some 1
termination_by a b => sizeOf a + sizeOf b
/-- properties.go:162-178: the loop for `[]int` against `[]interface{}`. -/
def cmpIV : List Int → List Value → Option Int
  | a :: as, b :: bs =>
    match cmp (.int a) b with
    | none => none
    | some r => if r = -1 then some (-1) else if r = 1 then some 1 else cmpIV as bs
  | [], [] => some 0
  | [], _ :: _ => some (-1)
  | _ :: _, [] => some 1
termination_by a b => sizeOf a + sizeOf b
/-- properties.go:183-199: the loop for `[]interface{}` against `[]interface{}`. -/
def cmpVV : List Value → List Value → Option Int
  | a :: as, b :: bs =>
    match cmp a b with
    | none => none
    | some r => if r = -1 then some (-1) else if r = 1 then some 1 else cmpVV as bs
  | [], [] => some 0
  | [], _ :: _ => some (-1)
  | _ :: _, [] => some 1
termination_by a b => sizeOf a + sizeOf b
end

end LPG

import Verif.Proofs.Value
import Verif.Proofs.Filter
/-!
# C17 Filter functions, C18 ComparePropertyValue

`cmp a b` is `ComparePropertyValue(a, b)`, with `none` for the panic on incomparable values.
-/
namespace LPG

/-! ## C18 -/

/-- The result is -1, 0 or 1. -/
theorem C18_range (a b : Value) (r : Int) (h : cmp a b = some r) : r = -1 ∨ r = 0 ∨ r = 1 :=
  cmp_range a b r h

example : cmp (.list [.int 1, .native (.str "x")]) (.list [.int 1, .str "y"]) = some (-1) := by decide +kernel

/-- Swapping the arguments negates the result; in particular the comparison panics one way exactly when
it panics the other way. -/
theorem C18_antisymmetric (a b : Value) :
    (∀ r, cmp a b = some r ↔ cmp b a = some (-r)) ∧ (cmp a b = none ↔ cmp b a = none) := by
  have h := cmp_symm a b
  rw [h]
  cases cmp a b with
  | none => simp
  | some x => simp

example : cmp (.list [.int 1]) (.ints [1, 2]) = some (-1) ∧ cmp (.ints [1, 2]) (.list [.int 1]) = some 1 := by
  decide +kernel

/-- A value that is comparable to itself equals itself. -/
theorem C18_reflexive (a : Value) (r : Int) (h : cmp a a = some r) : r = 0 := by
  have h2 := cmp_symm a a
  rw [h] at h2
  simp at h2
  omega

/-- Values built from the documented types only: `int`, `string`, `[]int`, `[]string`, `[]interface{}`
with supported elements, and native wrappers around them (properties.go:56-68). -/
inductive Supported : Value → Prop
  | int (i) : Supported (.int i)
  | str (s) : Supported (.str s)
  | ints (l) : Supported (.ints l)
  | strs (l) : Supported (.strs l)
  | list (l) (h : ∀ v ∈ l, Supported v) : Supported (.list l)
  | native (v) (h : Supported v) : Supported (.native v)

/-- Every supported value is comparable to itself, and the result is 0. -/
theorem C18_reflexive_supported (a : Value) (h : Supported a) : cmp a a = some 0 := by
  have key : ∃ r, cmp a a = some r := by
    induction h with
    | int i => exact ⟨_, cmp_int_int i i⟩
    | str i => exact ⟨_, cmp_str_str i i⟩
    | ints l => exact ⟨_, cmp_ints_ints l l⟩
    | strs l => exact ⟨_, cmp_strs_strs l l⟩
    | native v _ ih => simpa using ih
    | list l _ ih =>
      rw [cmp_list_list]
      refine ⟨0, (cmpVV_zero l l).2 ⟨rfl, ?_⟩⟩
      intro i x y hx hy
      rw [hx] at hy; cases hy
      obtain ⟨r, hr⟩ := ih x (List.mem_of_getElem? hx)
      rw [hr, C18_reflexive x r hr]
  obtain ⟨r, hr⟩ := key
  rw [hr, C18_reflexive a r hr]

example : Supported (.list [.int 3, .native (.strs ["a", "b"]), .list [.ints [1]]]) := by
  refine .list _ ?_
  intro v hv
  simp at hv
  rcases hv with rfl | rfl | rfl
  · exact .int _
  · exact .native _ (.strs _)
  · refine .list _ ?_
    intro v hv
    simp at hv; subst hv; exact .ints _

/-- Transitivity: if the three comparisons are defined, `a ≤ b ≤ c` gives `a ≤ c`, and equality in the
result exactly when both steps are equalities (so `a < b ≤ c` and `a ≤ b < c` give `a < c`). -/
theorem C18_transitive (a b c : Value) (x y z : Int)
    (hab : cmp a b = some x) (hbc : cmp b c = some y) (hac : cmp a c = some z)
    (hx : x ≤ 0) (hy : y ≤ 0) : z ≤ 0 ∧ (z = 0 ↔ x = 0 ∧ y = 0) :=
  cmp_trans hab hbc hac hx hy

example : cmp (.strs ["a"]) (.list [.str "a", .int 1]) = some (-1) ∧
    cmp (.list [.str "a", .int 1]) (.native (.list [.str "b"])) = some (-1) ∧
    cmp (.strs ["a"]) (.native (.list [.str "b"])) = some (-1) := by decide +kernel

/-- The third comparison has to be assumed: comparability itself is not transitive. -/
theorem C18_comparability_not_transitive :
    ∃ a b c : Value, cmp a b = some 0 ∧ cmp b c = some 0 ∧ cmp a c = none :=
  ⟨.strs [], .list [], .ints [], by decide +kernel⟩

/-- Native wrappers are ignored. -/
theorem C18_native (a b : Value) : cmp (.native a) b = cmp a b ∧ cmp a (.native b) = cmp a b :=
  ⟨cmp_native_left a b, cmp_native_right a b⟩

/-- Integers are ordered by value. -/
theorem C18_int (a b : Int) :
    (cmp (.int a) (.int b) = some (-1) ↔ a < b) ∧ (cmp (.int a) (.int b) = some 0 ↔ a = b) ∧
    (cmp (.int a) (.int b) = some 1 ↔ b < a) := by
  rw [cmp_int_int]; unfold cmpInt
  split
  · simp; omega
  · split
    · simp; omega
    · simp; omega

/-- Strings are ordered by their order. -/
theorem C18_str (a b : String) :
    (cmp (.str a) (.str b) = some (-1) ↔ a < b) ∧ (cmp (.str a) (.str b) = some 0 ↔ a = b) ∧
    (cmp (.str a) (.str b) = some 1 ↔ b < a) := by
  rw [cmp_str_str]; unfold cmpStr
  rcases str_lt_or a b with h | h | h
  · have h1 : a ≠ b := fun e => String.lt_irrefl b (e ▸ h)
    simp [h, h1, String.lt_asymm h]
  · simp [h, String.lt_irrefl]
  · have h1 : a ≠ b := fun e => String.lt_irrefl b (e ▸ h)
    simp [h, h1, String.lt_asymm h]

/-- The elements of a slice, as values. -/
def sliceItems : Value → Option (List Value)
  | .strs l => some (l.map .str)
  | .ints l => some (l.map .int)
  | .list l => some l
  | _ => none

/-- Slices are compared lexicographically, element by element, and a proper prefix is smaller; this
holds for every mixture of slice types except `[]string` against `[]int`, which panics. -/
theorem C18_slices (a b : Value) (la lb : List Value)
    (ha : sliceItems a = some la) (hb : sliceItems b = some lb)
    (h1 : ¬ ((∃ l, a = .strs l) ∧ ∃ l, b = .ints l)) (h2 : ¬ ((∃ l, a = .ints l) ∧ ∃ l, b = .strs l)) :
    (cmp a b = some 0 ↔ la.length = lb.length ∧
      ∀ (i : Nat) (x y : Value), la[i]? = some x → lb[i]? = some y → cmp x y = some 0) ∧
    (cmp a b = some (-1) ↔ ∃ k : Nat, k ≤ la.length ∧ k ≤ lb.length ∧
      (∀ (i : Nat) (x y : Value), i < k → la[i]? = some x → lb[i]? = some y → cmp x y = some 0) ∧
      ((k = la.length ∧ k < lb.length) ∨
        ∃ x y, la[k]? = some x ∧ lb[k]? = some y ∧ cmp x y = some (-1))) := by
  have ha' : elems a = some la := by cases a <;> simpa [sliceItems, elems] using ha
  have hb' : elems b = some lb := by cases b <;> simpa [sliceItems, elems] using hb
  have hm : ¬ mixed a b := by
    intro hm
    cases a <;> cases b <;> simp [mixed] at hm
    · exact h2 ⟨⟨_, rfl⟩, _, rfl⟩
    · exact h1 ⟨⟨_, rfl⟩, _, rfl⟩
  rw [cmp_elems_eq ha' hb' hm]
  exact ⟨cmpVV_zero la lb, cmpVV_neg la lb⟩

/-- `[]string` and `[]int` are never comparable, and a slice is never comparable to a scalar; nil and
values of unsupported types are comparable to nothing. -/
theorem C18_incomparable (l : List String) (m : List Int) (i : Int) (s : String) (b : Value) (t : Nat) (h : Bool) :
    cmp (.strs l) (.ints m) = none ∧ cmp (.int i) (.str s) = none ∧
    cmp .nil b = none ∧ cmp (.other t h) b = none := by
  refine ⟨by simp [cmp], by simp [cmp], ?_, ?_⟩
  · rw [← cmp_strip_right]
    have := strip_ne b
    cases hb : strip b <;> first | exact absurd hb (this _) | simp [cmp]
  · rw [← cmp_strip_right]
    have := strip_ne b
    cases hb : strip b <;> first | exact absurd hb (this _) | simp [cmp]

/-! ## C17 -/

/-- The node filter is total and accepts exactly the nodes that have every label of `S`, and for every
required property a value that compares equal. -/
theorem C17_node (S : List String) (req : AMap String Value) (labels : List String) (props : AMap String Value) :
    nodeFilter S req labels props = true ↔
      (∀ l, l ∈ S → l ∈ labels) ∧
      (∀ k v, (k, v) ∈ req → ∃ pv, props.get k = some pv ∧ cmp v pv = some 0) :=
  nodeFilter_iff S req labels props

/-- The edge filter accepts exactly the edges whose label is in `S` (any label if `S` is empty), and
whose properties match. -/
theorem C17_edge (S : List String) (req : AMap String Value) (label : String) (props : AMap String Value) :
    edgeFilter S req label props = true ↔
      (S = [] ∨ label ∈ S) ∧
      (∀ k v, (k, v) ∈ req → ∃ pv, props.get k = some pv ∧ cmp v pv = some 0) :=
  edgeFilter_iff S req label props

example : nodeFilter ["A"] [("k", .int 1)] ["B", "A"] [("z", .nil), ("k", .native (.int 1))] = true ∧
    nodeFilter ["A"] [("k", .int 1)] ["A"] [("k", .str "1")] = false ∧
    nodeFilter [] [("k", .nil)] ["A"] [] = false ∧
    edgeFilter ["A", "B"] [] "B" [] = true := by decide +kernel

end LPG

import Verif.Spec.JsonShape
/-! What the model of `encoding/json` accepts and reads. -/
namespace LPG.Json

/-! ## Names -/

/-- a small letter of ASCII -/
def Lower (d : Char) : Prop := 97 ≤ d.toNat ∧ d.toNat ≤ 122

instance (d : Char) : Decidable (Lower d) := inferInstanceAs (Decidable (_ ∧ _))

theorem toLower_eq (c : Char) {d : Char} (hd : Lower d) : c.toLower = d ↔ c = d ∨ c = d.toUpper := by
  obtain ⟨h1, h2⟩ := hd
  simp only [Char.toLower, Char.toUpper, Char.toNat] at *
  have hA : 'A'.val.toNat = 65 := rfl
  have hZ : 'Z'.val.toNat = 90 := rfl
  have ha : 'a'.val.toNat = 97 := rfl
  have hz : 'z'.val.toNat = 122 := rfl
  have e1 : ('a'.val - 'A'.val).toNat = 32 := rfl
  have e2 : ('A'.val - 'a'.val).toNat = 4294967264 := rfl
  have hc : c.val.toNat < 4294967296 := c.val.toNat_lt
  rw [dif_pos (show 'a'.val ≤ d.val ∧ d.val ≤ 'z'.val by
    rw [UInt32.le_iff_toNat_le, UInt32.le_iff_toNat_le]; omega)]
  split <;> rename_i h <;> rw [ge_iff_le, UInt32.le_iff_toNat_le, UInt32.le_iff_toNat_le] at h <;>
    simp only [Char.ext_iff, ← UInt32.toNat_inj, UInt32.toNat_add, e1, e2] <;> omega

theorem foldChar_eq (c : Char) {d : Char} (hd : Lower d) : foldChar c = d ↔ SameLetter c d := by
  have hd' := hd
  obtain ⟨h1, h2⟩ := hd'
  have hup : d.toUpper.toNat < 128 := by
    have e2 : ('A'.val - 'a'.val).toNat = 4294967264 := rfl
    simp only [Char.toUpper, Char.toNat] at *
    split
    · simp only [UInt32.toNat_add, e2]; omega
    · omega
  unfold foldChar SameLetter
  split
  · subst_vars
    have n1 : 'ſ' ≠ d := by rintro rfl; revert h2; decide
    have n2 : 'ſ' ≠ d.toUpper := by intro h; rw [← h] at hup; revert hup; decide
    have n3 : 'ſ' ≠ '\u212a' := by decide
    simp only [n1, n2, n3, false_or, true_and, false_and, or_false, eq_comm]
  · split
    · subst_vars
      have n1 : '\u212a' ≠ d := by rintro rfl; revert h2; decide
      have n2 : '\u212a' ≠ d.toUpper := by intro h; rw [← h] at hup; revert hup; decide
      have n3 : '\u212a' ≠ 'ſ' := by decide
      simp only [n1, n2, n3, false_or, true_and, false_and, eq_comm]
    · rename_i g1 g2
      rw [toLower_eq c hd]
      simp only [g1, g2, false_and, or_false]

theorem map_fold : ∀ {k f : List Char}, (∀ d ∈ f, Lower d) → (k.map foldChar = f ↔ List.Forall₂ SameLetter k f)
  | [], [], _ => by simp
  | [], _ :: _, _ => by simp
  | _ :: _, [], _ => by simp
  | c :: k, d :: f, h => by
    rw [List.map_cons, List.cons.injEq, List.forall₂_cons, foldChar_eq c (h d (by simp)),
      map_fold (fun d hd => h d (by simp [hd]))]

/-- The names of the fields. -/
def fields : List String := ["n", "labels", "properties", "edges", "from", "to", "label"]

theorem fieldIs_iff {f : String} (hf : f ∈ fields) (k : String) : fieldIs f k = true ↔ Names f k := by
  have : ∀ f ∈ fields, ∀ d ∈ f.toList, Lower d := by decide
  unfold fieldIs Names
  rw [decide_eq_true_iff, map_fold (this f hf)]

theorem fieldIs_inj {f g k : String} (h1 : fieldIs f k = true) (h2 : fieldIs g k = true) : f = g := by
  unfold fieldIs at h1 h2
  rw [decide_eq_true_iff] at h1 h2
  exact String.toList_inj.1 (h1.symm.trans h2)

/-! ## Types -/

theorem toInt_iff (old : Int) (v : JVal) : toInt old v ≠ none ↔ IsInt v := by
  cases v <;> simp [toInt, IsInt]

theorem toStr_iff (old : String) (v : JVal) : toStr old v ≠ none ↔ IsText v := by
  cases v <;> simp [toStr, IsText]

theorem toRawMap_iff (old : AMap String JVal) (v : JVal) : toRawMap old v ≠ none ↔ IsMap v := by
  cases v <;> simp [toRawMap, IsMap]

theorem toAll_iff {α : Type} {f : JVal → Option α} {T : JVal → Prop} (h : ∀ v, f v ≠ none ↔ T v) :
    ∀ vs : List JVal, toAll f vs ≠ none ↔ ∀ x ∈ vs, T x
  | [] => by simp [toAll]
  | v :: vs => by
    rw [List.forall_mem_cons, ← h v, ← toAll_iff h vs, toAll]
    cases f v <;> cases toAll f vs <;> simp

theorem toSlice_iff {α : Type} {f : JVal → Option α} {T : JVal → Prop} (h : ∀ v, f v ≠ none ↔ T v) (v : JVal) :
    toSlice f v ≠ none ↔ ListOf T v := by
  cases v <;> simp [toSlice, ListOf]
  exact toAll_iff h _

theorem toOutEdgeFields_iff : ∀ (ms : List (String × JVal)) (x : OutEdge), toOutEdgeFields x ms ≠ none ↔
    ∀ p ∈ ms, ∀ q ∈ [("to", IsInt), ("label", IsText), ("properties", IsMap)], Names q.1 p.1 → q.2 p.2
  | [], x => by simp [toOutEdgeFields]
  | (k, v) :: ms, x => by
    rw [List.forall_mem_cons, toOutEdgeFields]
    have ih := fun x => toOutEdgeFields_iff ms x
    simp only [List.forall_mem_cons, List.not_mem_nil, false_imp_iff, implies_true, and_true] at ih ⊢
    simp only [← fieldIs_iff (show "to" ∈ fields by decide) k, ← fieldIs_iff (show "label" ∈ fields by decide) k,
      ← fieldIs_iff (show "properties" ∈ fields by decide) k]
    have hi := toInt_iff x.to v
    have ht := toStr_iff x.label v
    have hm := toRawMap_iff x.properties v
    have d1 : fieldIs "to" k = true → fieldIs "label" k = true → False := fun a b => absurd (fieldIs_inj a b) (by decide)
    have d2 : fieldIs "to" k = true → fieldIs "properties" k = true → False := fun a b => absurd (fieldIs_inj a b) (by decide)
    have d3 : fieldIs "label" k = true → fieldIs "properties" k = true → False :=
      fun a b => absurd (fieldIs_inj a b) (by decide)
    split
    · split <;> grind
    · split
      · split <;> grind
      · split
        · split <;> grind
        · grind

theorem toOutEdgeInto_iff (old : OutEdge) (v : JVal) : toOutEdgeInto old v ≠ none ↔ OutEdgeShape v := by
  cases v <;> simp [toOutEdgeInto, OutEdgeShape, ObjOf]
  simpa using toOutEdgeFields_iff _ _

theorem toElems_iff {α : Type} {zero : α} {f : α → JVal → Option α} {T : JVal → Prop} (h : ∀ x v, f x v ≠ none ↔ T v) :
    ∀ (vs : List JVal) (old : List α), toElems zero f old vs ≠ none ↔ ∀ x ∈ vs, T x
  | [], old => by simp [toElems]
  | v :: vs, old => by
    rw [List.forall_mem_cons, ← h (old.headD zero) v, ← toElems_iff h vs old.tail, toElems]
    cases f (old.headD zero) v <;> cases toElems zero f old.tail vs <;> simp

theorem toSliceInto_iff {α : Type} {zero : α} {f : α → JVal → Option α} {T : JVal → Prop} (h : ∀ x v, f x v ≠ none ↔ T v)
    (old : List α × List α) (v : JVal) : toSliceInto zero f old v ≠ none ↔ ListOf T v := by
  cases v with
  | arr vs =>
    cases vs with
    | nil => simp [toSliceInto, ListOf]
    | cons v vs =>
      rw [toSliceInto, toElems_iff h]
      simp [ListOf]
  | _ => simp [toSliceInto, ListOf]

theorem toFullEdgeFields_iff : ∀ (ms : List (String × JVal)) (x : FullEdge), toFullEdgeFields x ms ≠ none ↔
    ∀ p ∈ ms, ∀ q ∈ [("from", IsInt), ("to", IsInt), ("label", IsText), ("properties", IsMap)], Names q.1 p.1 → q.2 p.2
  | [], x => by simp [toFullEdgeFields]
  | (k, v) :: ms, x => by
    rw [List.forall_mem_cons, toFullEdgeFields]
    have ih := fun x => toFullEdgeFields_iff ms x
    simp only [List.forall_mem_cons, List.not_mem_nil, false_imp_iff, implies_true, and_true] at ih ⊢
    simp only [← fieldIs_iff (show "to" ∈ fields by decide) k, ← fieldIs_iff (show "label" ∈ fields by decide) k,
      ← fieldIs_iff (show "properties" ∈ fields by decide) k, ← fieldIs_iff (show "from" ∈ fields by decide) k]
    have hj := toInt_iff x.from v
    have hi := toInt_iff x.to v
    have ht := toStr_iff x.label v
    have hm := toRawMap_iff x.properties v
    have d : ∀ {f g : String}, f ≠ g → fieldIs f k = true → fieldIs g k = true → False :=
      fun h a b => h (fieldIs_inj a b)
    have d1 := d (f := "to") (g := "label") (by decide)
    have d2 := d (f := "to") (g := "properties") (by decide)
    have d3 := d (f := "label") (g := "properties") (by decide)
    have d4 := d (f := "from") (g := "to") (by decide)
    have d5 := d (f := "from") (g := "label") (by decide)
    have d6 := d (f := "from") (g := "properties") (by decide)
    split
    · split <;> grind
    · split
      · split <;> grind
      · split
        · split <;> grind
        · split
          · split <;> grind
          · grind

theorem toFullEdge_iff (v : JVal) : toFullEdge v ≠ none ↔ EdgeShape v := by
  cases v <;> simp [toFullEdge, EdgeShape, ObjOf]
  simpa using toFullEdgeFields_iff _ _

theorem toNodeFields_iff : ∀ (ms : List (String × JVal)) (x : NodeVar), toNodeFields x ms ≠ none ↔
    ∀ p ∈ ms, ∀ q ∈ [("n", IsInt), ("labels", ListOf IsText), ("properties", IsMap), ("edges", ListOf OutEdgeShape)],
      Names q.1 p.1 → q.2 p.2
  | [], x => by simp [toNodeFields]
  | (k, v) :: ms, x => by
    rw [List.forall_mem_cons, toNodeFields]
    have ih := fun x => toNodeFields_iff ms x
    simp only [List.forall_mem_cons, List.not_mem_nil, false_imp_iff, implies_true, and_true] at ih ⊢
    simp only [← fieldIs_iff (show "n" ∈ fields by decide) k, ← fieldIs_iff (show "labels" ∈ fields by decide) k,
      ← fieldIs_iff (show "properties" ∈ fields by decide) k, ← fieldIs_iff (show "edges" ∈ fields by decide) k]
    have hi := toInt_iff x.node.n v
    have ht := toSliceInto_iff (zero := "") toStr_iff (x.node.labels, x.labelsRest) v
    have hm := toRawMap_iff x.node.properties v
    have he := toSliceInto_iff (zero := {}) toOutEdgeInto_iff (x.node.edges, x.edgesRest) v
    have d : ∀ {f g : String}, f ≠ g → fieldIs f k = true → fieldIs g k = true → False :=
      fun h a b => h (fieldIs_inj a b)
    have d1 := d (f := "n") (g := "labels") (by decide)
    have d2 := d (f := "n") (g := "properties") (by decide)
    have d3 := d (f := "n") (g := "edges") (by decide)
    have d4 := d (f := "labels") (g := "properties") (by decide)
    have d5 := d (f := "labels") (g := "edges") (by decide)
    have d6 := d (f := "properties") (g := "edges") (by decide)
    split
    · split <;> grind
    · split
      · split <;> grind
      · split
        · split <;> grind
        · split
          · split <;> grind
          · grind

theorem toNode_iff (v : JVal) : toNode v ≠ none ↔ NodeShape v := by
  cases v <;> simp [toNode, NodeShape, ObjOf]
  simpa using toNodeFields_iff _ _

/-- The documents are those of the right types. -/
theorem document_iff : ∀ (ms : List (String × JVal)), (∃ N E, Document ms N E) ↔ Shape ms
  | [] => ⟨fun _ => by simp [Shape], fun _ => ⟨[], [], .nil⟩⟩
  | (k, v) :: ms => by
    have ih := document_iff ms
    have hcons : Shape ((k, v) :: ms) ↔ ((k = "nodes" → ListOf NodeShape v) ∧ (k = "edges" → ListOf EdgeShape v) ∧
        (k ≠ "nodes" → k ≠ "edges" → Skips v)) ∧ Shape ms := by
      unfold Shape; rw [List.forall_mem_cons]
    rw [hcons, ← ih, ← toSlice_iff toNode_iff, ← toSlice_iff toFullEdge_iff]
    constructor
    · rintro ⟨N, E, h⟩
      cases h with
      | nodes h1 h2 => exact ⟨⟨fun _ => by rw [h1]; simp, fun h => absurd h (by decide), fun h => absurd rfl h⟩, _, _, h2⟩
      | edges h1 h2 => exact ⟨⟨fun h => absurd h (by decide), fun _ => by rw [h1]; simp, fun _ h => absurd rfl h⟩, _, _, h2⟩
      | other h1 h2 h3 h4 => exact ⟨⟨fun h => absurd h h1, fun h => absurd h h2, fun _ _ => h3⟩, _, _, h4⟩
    · rintro ⟨⟨h1, h2, h3⟩, N, E, h4⟩
      by_cases hn : k = "nodes"
      · subst hn
        obtain ⟨ns, h5⟩ := Option.ne_none_iff_exists'.1 (h1 rfl)
        exact ⟨_, _, .nodes h5 h4⟩
      · by_cases he : k = "edges"
        · subst he
          obtain ⟨es, h5⟩ := Option.ne_none_iff_exists'.1 (h2 rfl)
          exact ⟨_, _, .edges h5 h4⟩
        · exact ⟨_, _, .other hn he (h3 hn he) h4⟩

end LPG.Json

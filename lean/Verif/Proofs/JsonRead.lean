import Verif.Proofs.JsonShape
import Verif.Proofs.Base
/-! What is read from the fields of an object. -/
namespace LPG.Json

/-! ## Values -/

theorem last_read {α : Type} {into : α → JVal → Option α} {R : JVal → α → Prop}
    (h0 : ∀ x y, into x .null = some y → y = x) (h1 : ∀ x v y, v ≠ .null → into x v = some y → R v y) :
    ∀ {vs : List JVal} {x y : α}, vs.foldlM into x = some y → LastRead x R vs y
  | [], x, y, h => .inl ⟨by simp, by cases h; rfl⟩
  | v :: vs, x, y, h => by
    rw [List.foldlM_cons] at h
    obtain ⟨z, hz, h⟩ := Option.bind_eq_some_iff.1 h
    rcases last_read h0 h1 h with ⟨h2, rfl⟩ | ⟨a, w, b, rfl, h2, h3, h4⟩
    · by_cases hv : v = .null
      · subst hv
        exact .inl ⟨by simpa using h2, h0 _ _ hz⟩
      · exact .inr ⟨[], v, vs, rfl, hv, h2, h1 _ _ _ hv hz⟩
    · exact .inr ⟨v :: a, w, b, rfl, h2, h3, h4⟩

theorem toInt_last : ∀ {vs : List JVal} {x i : Int}, vs.foldlM toInt x = some i → LastRead x IntRead vs i :=
  last_read (fun x i h => by cases h; rfl) (fun x v i hv h => by cases v <;> simp_all [toInt, IntRead])

theorem toStr_last : ∀ {vs : List JVal} {x i : String}, vs.foldlM toStr x = some i → LastRead x TextRead vs i :=
  last_read (fun x i h => by cases h; rfl) (fun x v i hv h => by cases v <;> simp_all [toStr, TextRead])

theorem toStr_read {v : JVal} {s : String} (h : toStr "" v = some s) : OrNull "" TextRead v s := by
  cases v <;> simp_all [toStr, OrNull, TextRead]

theorem toAll_read {α : Type} {f : JVal → Option α} {R : JVal → α → Prop} (h : ∀ v x, f v = some x → R v x) :
    ∀ {vs : List JVal} {l : List α}, toAll f vs = some l → List.Forall₂ R vs l
  | [], l, hl => by cases hl; exact .nil
  | v :: vs, l, hl => by
    rw [toAll] at hl
    split at hl
    · rename_i x xs h1 h2
      cases hl
      exact .cons (h v x h1) (toAll_read h h2)
    · cases hl

theorem toSlice_read {α : Type} {f : JVal → Option α} {R : JVal → α → Prop} (h : ∀ v x, f v = some x → R v x) {v : JVal}
    {l : List α} (hl : toSlice f v = some l) : OrNull [] (ListRead R) v l := by
  cases v <;> simp [toSlice] at hl
  · exact Or.inl ⟨rfl, hl⟩
  · exact Or.inr ⟨by simp, _, rfl, toAll_read h hl⟩

/-! ## Slices -/

theorem toElems_spec {α : Type} {zero : α} {f : α → JVal → Option α} : ∀ {vs : List JVal} {old xs r : List α},
    toElems zero f old vs = some (xs, r) → xs.length = vs.length ∧ r = old.drop vs.length ∧
      ∀ (j : Nat) (v : JVal) (x : α), vs[j]? = some v → xs[j]? = some x → f (old.getD j zero) v = some x
  | [], old, xs, r, h => by cases h; simp
  | v :: vs, old, xs, r, h => by
    rw [toElems] at h
    split at h
    · rename_i x xs' r' h1 h2
      cases h
      obtain ⟨k1, k2, k3⟩ := toElems_spec h2
      refine ⟨by simp [k1], ?_, fun j w y hw hy => ?_⟩
      · rw [k2]; cases old <;> simp
      · cases j with
        | zero =>
          simp only [List.getElem?_cons_zero, Option.some.injEq] at hw hy
          subst hw hy
          cases old <;> simpa using h1
        | succ j =>
          rw [List.getElem?_cons_succ] at hw hy
          have := k3 j w y hw hy
          cases old <;> simpa using this
    · cases h

/-- What the memory of a slice holds after the arrays `As` were read into it. -/
structure Mem {α : Type} (zero : α) (f : α → JVal → Option α) (As : List (List JVal)) (p : List α × List α) : Prop where
  nonempty : [] ∉ As
  length : p.1.length = (As.getLast?.getD []).length
  fits : ∀ A ∈ As, A.length ≤ (p.1 ++ p.2).length
  holds : ∀ (j : Nat) (x : α), (p.1 ++ p.2)[j]? = some x → (As.filterMap (fun A => A[j]?)).foldlM f zero = some x

theorem Mem.nil {α : Type} {zero : α} {f : α → JVal → Option α} : Mem zero f [] ([], []) :=
  ⟨by simp, rfl, by simp, by simp⟩

theorem Mem.next {α : Type} {zero : α} {f : α → JVal → Option α} {As : List (List JVal)} {p q : List α × List α} {A : List JVal}
    (m : Mem zero f As p) (hA : A ≠ []) (h : toElems zero f (p.1 ++ p.2) A = some q) : Mem zero f (As ++ [A]) q := by
  obtain ⟨xs, r⟩ := q
  obtain ⟨k1, rfl, k3⟩ := toElems_spec h
  refine ⟨?_, by simp [k1], fun B hB => ?_, fun j x hx => ?_⟩
  · intro h
    rcases List.mem_append.1 h with h | h
    · exact m.nonempty h
    · exact hA (List.mem_singleton.1 h).symm
  · simp only [List.length_append, List.length_drop, k1]
    rcases List.mem_append.1 hB with hB | hB
    · have := m.fits B hB
      simp only [List.length_append] at this
      omega
    · rw [List.mem_singleton.1 hB]; omega
  · rw [List.filterMap_append, List.foldlM_append]
    dsimp only at hx
    by_cases hj : j < A.length
    · have hxs : xs[j]? = some x := by rw [List.getElem?_append_left (by omega)] at hx; exact hx
      have hv : A[j]? = some A[j] := List.getElem?_eq_getElem hj
      have hold : (As.filterMap (fun A => A[j]?)).foldlM f zero = some ((p.1 ++ p.2).getD j zero) := by
        cases hm : (p.1 ++ p.2)[j]? with
        | some y => rw [List.getD_eq_getElem?_getD, hm]; exact m.holds j y hm
        | none =>
          have hl : (p.1 ++ p.2).length ≤ j := List.getElem?_eq_none_iff.1 hm
          have : As.filterMap (fun A => A[j]?) = [] := by
            rw [List.filterMap_eq_nil_iff]
            intro B hB
            have := m.fits B hB
            exact List.getElem?_eq_none (by omega)
          rw [this, List.getD_eq_getElem?_getD, hm]
          rfl
      rw [hold]
      have := k3 j _ x hv hxs
      rw [List.getD_eq_getElem?_getD] at this
      simp [hv, this]
    · have h1 : A[j]? = none := List.getElem?_eq_none (by omega)
      have h2 : (p.1 ++ p.2)[j]? = some x := by
        rw [List.getElem?_append_right (by omega), List.getElem?_drop, k1] at hx
        rwa [show A.length + (j - A.length) = j by omega] at hx
      rw [m.holds j x h2]
      simp [h1]

theorem Mem.all {α : Type} {zero : α} {f : α → JVal → Option α} : ∀ {vs : List JVal} {As : List (List JVal)} {p q : List α × List α},
    Mem zero f As p → vs.foldlM (toSliceInto zero f) p = some q → ∃ a As', As.map JVal.arr ++ vs = a ++ As'.map JVal.arr ∧
      (a = [] ∨ a.getLast? = some .null ∨ a.getLast? = some (.arr [])) ∧ Mem zero f As' q
  | [], As, p, q, m, h => by cases h; exact ⟨[], As, by simp, .inl rfl, m⟩
  | v :: vs, As, p, q, m, h => by
    rw [List.foldlM_cons] at h
    obtain ⟨z, hz, h'⟩ := Option.bind_eq_some_iff.1 h
    clear h
    have reset : z = ([], []) → (v = .null ∨ v = .arr []) → ∃ a As', As.map JVal.arr ++ v :: vs = a ++ As'.map JVal.arr ∧
        (a = [] ∨ a.getLast? = some .null ∨ a.getLast? = some (.arr [])) ∧ Mem zero f As' q := by
      rintro rfl hv
      obtain ⟨a, As', h1, h2, h3⟩ := Mem.all .nil h'
      rw [List.map_nil, List.nil_append] at h1
      refine ⟨As.map JVal.arr ++ v :: a, As', by simp [h1], .inr ?_, h3⟩
      rw [List.getLast?_append, List.getLast?_cons]
      rcases h2 with rfl | h2 | h2
      · rcases hv with rfl | rfl <;> simp
      · simp [h2]
      · simp [h2]
    cases v with
    | null => cases hz; exact reset rfl (.inl rfl)
    | arr A =>
      cases A with
      | nil => cases hz; exact reset rfl (.inr rfl)
      | cons w A =>
        obtain ⟨a, As', h1, h2, h3⟩ := Mem.all (m.next (List.cons_ne_nil w A) hz) h'
        exact ⟨a, As', by rw [← h1]; simp, h2, h3⟩
    | _ => cases hz

theorem toSliceInto_read {α : Type} {zero : α} {f : α → JVal → Option α} {R : List JVal → α → Prop}
    (hR : ∀ vs x, vs.foldlM f zero = some x → R vs x) {vs : List JVal} {q : List α × List α}
    (h : vs.foldlM (toSliceInto zero f) ([], []) = some q) : ListsRead R vs q.1 := by
  obtain ⟨a, As, h1, h2, h3⟩ := Mem.all .nil h
  refine ⟨a, As, by simpa using h1, h2, h3.nonempty, h3.length, fun j x hx => hR _ _ (h3.holds j x ?_)⟩
  rw [List.getElem?_append_left (List.getElem?_eq_some_iff.1 hx).1]
  exact hx

theorem fold_read : ∀ (ms : List (String × JVal)) (old : AMap String JVal), (AMap.keys old).Nodup →
    (AMap.keys (ms.foldl (fun m p => AMap.set m p.1 p.2) old)).Nodup ∧
    ∀ k j, AMap.get (ms.foldl (fun m p => AMap.set m p.1 p.2) old) k = some j ↔
      (∃ a b, ms = a ++ (k, j) :: b ∧ ∀ p ∈ b, p.1 ≠ k) ∨ ((∀ p ∈ ms, p.1 ≠ k) ∧ AMap.get old k = some j)
  | [], old, hn => ⟨hn, by simp⟩
  | (k', j') :: ms, old, hn => by
    obtain ⟨h1, h2⟩ := fold_read ms (AMap.set old k' j') (AMap.nodup_set hn _ _)
    refine ⟨h1, fun k j => (h2 k j).trans ?_⟩
    rw [AMap.get_set]
    constructor
    · rintro (⟨a, b, rfl, h3⟩ | ⟨h3, h4⟩)
      · exact Or.inl ⟨(k', j') :: a, b, rfl, h3⟩
      · split at h4
        · rename_i hk; subst hk; cases h4
          exact Or.inl ⟨[], ms, rfl, h3⟩
        · rename_i hk
          refine Or.inr ⟨fun p hp => ?_, h4⟩
          rcases List.mem_cons.1 hp with rfl | hp
          · exact fun h => hk h.symm
          · exact h3 p hp
    · rintro (⟨a, b, h3, h4⟩ | ⟨h3, h4⟩)
      · cases a with
        | nil =>
          rw [List.nil_append] at h3
          cases h3
          exact Or.inr ⟨h4, by simp⟩
        | cons p a =>
          rw [List.cons_append] at h3
          cases h3
          exact Or.inl ⟨a, b, rfl, h4⟩
      · refine Or.inr ⟨fun p hp => h3 p (by simp [hp]), ?_⟩
        rw [if_neg (fun h => h3 _ (List.mem_cons_self) h.symm)]
        exact h4

theorem toRawMap_all : ∀ {vs : List JVal} {old m : AMap String JVal}, (AMap.keys old).Nodup →
    vs.foldlM toRawMap old = some m → (AMap.keys m).Nodup ∧ ∃ (a : List JVal) (os : List (List (String × JVal))), vs = a ++ os.map .obj ∧
      (a = [] ∨ a.getLast? = some .null) ∧
      ∀ k j, (k, j) ∈ m ↔ (∃ c d, os.flatten = c ++ (k, j) :: d ∧ ∀ p ∈ d, p.1 ≠ k) ∨
        (a = [] ∧ (∀ p ∈ os.flatten, p.1 ≠ k) ∧ (k, j) ∈ old)
  | [], old, m, hn, h => by
    cases h
    exact ⟨hn, [], [], rfl, .inl rfl, by simp⟩
  | v :: vs, old, m, hn, h => by
    rw [List.foldlM_cons] at h
    obtain ⟨z, hz, h⟩ := Option.bind_eq_some_iff.1 h
    have hzn : (AMap.keys z).Nodup := by
      cases v <;> simp [toRawMap] at hz
      · subst hz; simp [AMap.keys]
      · rw [← hz]; exact (fold_read _ _ hn).1
    obtain ⟨h1, a, os, rfl, h2, h3⟩ := toRawMap_all hzn h
    refine ⟨h1, ?_⟩
    rcases h2 with rfl | h2
    · cases v with
      | null =>
        simp [toRawMap] at hz
        subst hz
        exact ⟨[.null], os, rfl, .inr rfl, by simpa using h3⟩
      | obj ms =>
        simp only [toRawMap, Option.some.injEq] at hz
        refine ⟨[], ms :: os, rfl, .inl rfl, fun k j => ?_⟩
        have hf := (fold_read ms old hn).2 k j
        rw [hz] at hf
        have hzm : (k, j) ∈ z ↔ AMap.get z k = some j := ⟨AMap.get_of_mem hzn, AMap.mem_of_get⟩
        have hom : (k, j) ∈ old ↔ AMap.get old k = some j := ⟨AMap.get_of_mem hn, AMap.mem_of_get⟩
        rw [h3, hzm, hf, hom]
        simp only [List.nil_append, true_and, List.flatten_cons, List.mem_append]
        constructor
        · rintro (⟨c, d, h4, h5⟩ | ⟨h4, ⟨c, d, h5, h6⟩ | ⟨h5, h6⟩⟩)
          · exact .inl ⟨ms ++ c, d, by rw [h4, List.append_assoc], h5⟩
          · refine .inl ⟨c, d ++ os.flatten, by rw [h5]; simp, fun p hp => ?_⟩
            rcases List.mem_append.1 hp with hp | hp
            · exact h6 p hp
            · exact h4 p hp
          · exact .inr ⟨fun p hp => hp.elim (h5 p) (h4 p), h6⟩
        · rintro (⟨c, d, h4, h5⟩ | ⟨h4, h5⟩)
          · rcases List.append_eq_append_iff.1 h4 with ⟨e, h6, h7⟩ | ⟨e, h6, h7⟩
            · exact .inl ⟨e, d, h7, h5⟩
            · cases e with
              | nil =>
                rw [List.nil_append] at h7
                exact .inl ⟨[], d, h7.symm, h5⟩
              | cons p e =>
                rw [List.cons_append] at h7
                obtain ⟨rfl, rfl⟩ := List.cons.inj h7
                exact .inr ⟨fun p hp => h5 p (List.mem_append_right _ hp), .inl ⟨c, e, h6, fun p hp => h5 p (List.mem_append_left _ hp)⟩⟩
          · exact .inr ⟨fun p hp => h4 p (.inr hp), .inr ⟨fun p hp => h4 p (.inl hp), h5⟩⟩
      | _ => simp [toRawMap] at hz
    · have ha : a ≠ [] := by rintro rfl; cases h2
      refine ⟨v :: a, os, rfl, .inr ?_, fun k j => (h3 k j).trans (by simp [ha])⟩
      rw [List.getLast?_cons, h2]; rfl

theorem toRawMap_read {vs : List JVal} {m : AMap String JVal} (h : vs.foldlM toRawMap [] = some m) : MapsRead vs m := by
  obtain ⟨_, a, os, h1, h2, h3⟩ := toRawMap_all (by simp [AMap.keys]) h
  exact ⟨a, os, h1, h2, fun k j => (h3 k j).trans (by simp)⟩

/-! ## Fields -/

/-- A function that reads the members of an object one by one. -/
structure Reader (σ : Type) where
  read : σ → List (String × JVal) → Option σ
  nil : ∀ x, read x [] = some x
  append : ∀ a b x, read x (a ++ b) = (read x a).bind (fun x => read x b)

/-- How a reader treats the field `f`, whose value is `get`. -/
structure Reader.Field {σ α : Type} (r : Reader σ) (f : String) (get : σ → α) (into : α → JVal → Option α) : Prop where
  own : ∀ x y k v, Names f k → r.read x [(k, v)] = some y → into (get x) v = some (get y)
  others : ∀ x y k v, ¬ Names f k → r.read x [(k, v)] = some y → get y = get x

namespace Reader
variable {σ α : Type} {r : Reader σ} {f : String} {get : σ → α} {into : α → JVal → Option α}

theorem Field.fold (h : r.Field f get into) : ∀ {ms : List (String × JVal)} {x y : σ}, r.read x ms = some y →
    (valuesOf f ms).foldlM into (get x) = some (get y)
  | [], x, y, hr => by rw [r.nil] at hr; cases hr; rfl
  | (k, v) :: ms, x, y, hr => by
    rw [show (k, v) :: ms = [(k, v)] ++ ms from rfl, r.append] at hr
    obtain ⟨z, h1, h2⟩ := Option.bind_eq_some_iff.1 hr
    have ih := h.fold h2
    by_cases hk : Names f k
    · rw [show valuesOf f ((k, v) :: ms) = v :: valuesOf f ms by simp [valuesOf, hk], List.foldlM_cons,
        h.own x z k v hk h1]
      exact ih
    · rw [show valuesOf f ((k, v) :: ms) = valuesOf f ms by simp [valuesOf, hk], ← h.others x z k v hk h1]
      exact ih
end Reader

def outEdgeReader : Reader OutEdge where
  read := toOutEdgeFields
  nil := fun _ => rfl
  append := by
    intro a b
    induction a with
    | nil => intro x; rfl
    | cons p a ih =>
      intro x
      simp only [List.cons_append, toOutEdgeFields]
      repeat' split
      all_goals first | rfl | exact ih _

def fullEdgeReader : Reader FullEdge where
  read := toFullEdgeFields
  nil := fun _ => rfl
  append := by
    intro a b
    induction a with
    | nil => intro x; rfl
    | cons p a ih =>
      intro x
      simp only [List.cons_append, toFullEdgeFields]
      repeat' split
      all_goals first | rfl | exact ih _

def nodeReader : Reader NodeVar where
  read := toNodeFields
  nil := fun _ => rfl
  append := by
    intro a b
    induction a with
    | nil => intro x; rfl
    | cons p a ih =>
      intro x
      simp only [List.cons_append, toNodeFields]
      repeat' split
      all_goals first | rfl | exact ih _

theorem other_name {f g k : String} (h : fieldIs f k = true) (hne : f ≠ g) : ¬ fieldIs g k = true :=
  fun h' => hne (fieldIs_inj h h')

theorem outEdge_field {α : Type} {f : String} {get : OutEdge → α} {into : α → JVal → Option α} (hf : f ∈ fields)
    (h1 : ∀ x y k v, fieldIs f k = true → toOutEdgeFields x [(k, v)] = some y → into (get x) v = some (get y))
    (h2 : ∀ x y k v, ¬ fieldIs f k = true → toOutEdgeFields x [(k, v)] = some y → get y = get x) :
    outEdgeReader.Field f get into :=
  ⟨fun x y k v h => h1 x y k v ((fieldIs_iff hf k).2 h), fun x y k v h => h2 x y k v (fun h' => h ((fieldIs_iff hf k).1 h'))⟩

theorem fullEdge_field {α : Type} {f : String} {get : FullEdge → α} {into : α → JVal → Option α} (hf : f ∈ fields)
    (h1 : ∀ x y k v, fieldIs f k = true → toFullEdgeFields x [(k, v)] = some y → into (get x) v = some (get y))
    (h2 : ∀ x y k v, ¬ fieldIs f k = true → toFullEdgeFields x [(k, v)] = some y → get y = get x) :
    fullEdgeReader.Field f get into :=
  ⟨fun x y k v h => h1 x y k v ((fieldIs_iff hf k).2 h), fun x y k v h => h2 x y k v (fun h' => h ((fieldIs_iff hf k).1 h'))⟩

theorem node_field {α : Type} {f : String} {get : NodeVar → α} {into : α → JVal → Option α} (hf : f ∈ fields)
    (h1 : ∀ x y k v, fieldIs f k = true → toNodeFields x [(k, v)] = some y → into (get x) v = some (get y))
    (h2 : ∀ x y k v, ¬ fieldIs f k = true → toNodeFields x [(k, v)] = some y → get y = get x) :
    nodeReader.Field f get into :=
  ⟨fun x y k v h => h1 x y k v ((fieldIs_iff hf k).2 h), fun x y k v h => h2 x y k v (fun h' => h ((fieldIs_iff hf k).1 h'))⟩

/-- closes the cases of the fields -/
macro "field_case" n:ident : tactic => `(tactic| (
  intro x y k v hk hr
  simp only [$n:ident] at hr
  repeat' split at hr
  all_goals first
    | (cases hr; done)
    | (cases hr; simp_all; done)
    | (cases hr; assumption)
    | (exfalso; exact absurd (fieldIs_inj hk (by assumption)) (by decide))))

theorem outEdge_to : outEdgeReader.Field "to" OutEdge.to toInt :=
  outEdge_field (by decide) (by field_case toOutEdgeFields) (by field_case toOutEdgeFields)

theorem outEdge_label : outEdgeReader.Field "label" OutEdge.label toStr :=
  outEdge_field (by decide) (by field_case toOutEdgeFields) (by field_case toOutEdgeFields)

theorem outEdge_properties : outEdgeReader.Field "properties" OutEdge.properties toRawMap :=
  outEdge_field (by decide) (by field_case toOutEdgeFields) (by field_case toOutEdgeFields)

theorem fullEdge_from : fullEdgeReader.Field "from" FullEdge.from toInt :=
  fullEdge_field (by decide) (by field_case toFullEdgeFields) (by field_case toFullEdgeFields)

theorem fullEdge_to : fullEdgeReader.Field "to" FullEdge.to toInt :=
  fullEdge_field (by decide) (by field_case toFullEdgeFields) (by field_case toFullEdgeFields)

theorem fullEdge_label : fullEdgeReader.Field "label" FullEdge.label toStr :=
  fullEdge_field (by decide) (by field_case toFullEdgeFields) (by field_case toFullEdgeFields)

theorem fullEdge_properties : fullEdgeReader.Field "properties" FullEdge.properties toRawMap :=
  fullEdge_field (by decide) (by field_case toFullEdgeFields) (by field_case toFullEdgeFields)

theorem node_n : nodeReader.Field "n" (fun x => x.node.n) toInt :=
  node_field (by decide) (by field_case toNodeFields) (by field_case toNodeFields)

theorem node_labels : nodeReader.Field "labels" (fun x => (x.node.labels, x.labelsRest)) (toSliceInto "" toStr) :=
  node_field (by decide) (by field_case toNodeFields) (by field_case toNodeFields)

theorem node_properties : nodeReader.Field "properties" (fun x => x.node.properties) toRawMap :=
  node_field (by decide) (by field_case toNodeFields) (by field_case toNodeFields)

theorem node_edges : nodeReader.Field "edges" (fun x => (x.node.edges, x.edgesRest)) (toSliceInto {} toOutEdgeInto) :=
  node_field (by decide) (by field_case toNodeFields) (by field_case toNodeFields)

theorem toOutEdge_members : ∀ {vs : List JVal} {x y : OutEdge}, vs.foldlM toOutEdgeInto x = some y →
    outEdgeReader.read x (membersOf vs) = some y
  | [], x, y, h => by cases h; rfl
  | v :: vs, x, y, h => by
    rw [List.foldlM_cons] at h
    obtain ⟨z, hz, h⟩ := Option.bind_eq_some_iff.1 h
    have ih := toOutEdge_members h
    cases v with
    | null => cases hz; exact ih
    | obj ms =>
      rw [membersOf, outEdgeReader.append, show outEdgeReader.read x ms = some z from hz]
      exact ih
    | _ => cases hz

theorem toOutEdge_read {vs : List JVal} {x : OutEdge} (h : vs.foldlM toOutEdgeInto {} = some x) : OutEdgesRead vs x :=
  have h := toOutEdge_members h
  ⟨toInt_last (outEdge_to.fold (x := {}) h), toStr_last (outEdge_label.fold (x := {}) h),
    toRawMap_read (outEdge_properties.fold (x := {}) h)⟩

theorem toFullEdge_read {v : JVal} {x : FullEdge} (h : toFullEdge v = some x) : OrNull {} EdgeRead v x := by
  cases v <;> simp [toFullEdge] at h
  · exact Or.inl ⟨rfl, h.symm⟩
  · exact Or.inr ⟨by simp, _, rfl, toInt_last (fullEdge_from.fold (x := {}) h),
      toInt_last (fullEdge_to.fold (x := {}) h),
      toStr_last (fullEdge_label.fold (x := {}) h), toRawMap_read (fullEdge_properties.fold (x := {}) h)⟩

theorem toNode_read {v : JVal} {x : DocNode} (h : toNode v = some x) : OrNull {} NodeRead v x := by
  cases v <;> simp [toNode] at h
  · exact Or.inl ⟨rfl, h.symm⟩
  · obtain ⟨x, h, rfl⟩ := h
    exact Or.inr ⟨by simp, _, rfl, toInt_last (node_n.fold (x := {}) h),
      toSliceInto_read (fun _ _ => toStr_last) (node_labels.fold (x := {}) h),
      toRawMap_read (node_properties.fold (x := {}) h),
      toSliceInto_read (fun _ _ => toOutEdge_read) (node_edges.fold (x := {}) h)⟩

end LPG.Json

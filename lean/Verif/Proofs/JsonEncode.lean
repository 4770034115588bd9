import Verif.Proofs.JsonDecode
import Batteries.Data.List.Basic
/-! `Encode` writes the text of a document, and what that document says. -/
namespace LPG.Json
open State

/-- the marshaler in use -/
def Codec.mar (c : Codec) (k : String) (v : Value) : Option (String × JVal) :=
  match c.marshaler with
  | none => some (k, c.marshal v)
  | some f => f k v

theorem andThen_ok {a b : Out} {ts : List Tok} (h : Out.andThen a b = (ts, true)) :
    ∃ t1 t2, a = (t1, true) ∧ b = (t2, true) ∧ ts = t1 ++ t2 := by
  obtain ⟨a1, a2⟩ := a
  obtain ⟨b1, b2⟩ := b
  unfold Out.andThen at h
  cases a2 with
  | false => simp at h
  | true => simp at h; exact ⟨a1, b1, rfl, by simp [h.2], h.1.symm⟩

theorem andThen_true {a b : Out} (h1 : a.2 = true) (h2 : b.2 = true) : (Out.andThen a b).2 = true := by
  unfold Out.andThen; rw [if_pos h1]; exact h2

theorem emit_ok {ts t : List Tok} (h : emit t = (ts, true)) : ts = t := by
  unfold emit at h; cases h; rfl

/-! ## Properties -/

theorem marshalProperties_some {c : Codec} : ∀ {ps : Props} {ret raw : AMap String JVal},
    marshalProperties c ps ret = some raw → (AMap.keys ret).Nodup →
    (AMap.keys raw).Nodup ∧
    (∀ k' j, AMap.get raw k' = some j → AMap.get ret k' = some j ∨ ∃ k v, (k, v) ∈ ps ∧ c.mar k v = some (k', j)) ∧
    (∀ k', AMap.get ret k' ≠ none → AMap.get raw k' ≠ none) ∧
    (∀ k v k' j, (k, v) ∈ ps → c.mar k v = some (k', j) → k' ≠ "" → AMap.get raw k' ≠ none)
  | [], ret, raw, h, hn => by
    cases h
    exact ⟨hn, fun k j h => Or.inl h, fun k h => h, by simp⟩
  | (k0, v0) :: ps, ret, raw, h, hn => by
    have main : ∀ k1 j1, c.mar k0 v0 = some (k1, j1) → marshalProperties c ps (ret.set k1 j1) = some raw →
        (AMap.keys raw).Nodup ∧
        (∀ k' j, AMap.get raw k' = some j → AMap.get ret k' = some j ∨
          ∃ k v, (k, v) ∈ (k0, v0) :: ps ∧ c.mar k v = some (k', j)) ∧
        (∀ k', AMap.get ret k' ≠ none → AMap.get raw k' ≠ none) ∧
        (∀ k v k' j, (k, v) ∈ (k0, v0) :: ps → c.mar k v = some (k', j) → k' ≠ "" → AMap.get raw k' ≠ none) := by
      intro k1 j1 h1 h2
      obtain ⟨g1, g2, g3, g4⟩ := marshalProperties_some h2 (AMap.nodup_set hn _ _)
      refine ⟨g1, ?_, ?_, ?_⟩
      · intro k' j hk
        rcases g2 k' j hk with h3 | ⟨k, v, h3, h4⟩
        · rw [AMap.get_set] at h3
          split at h3
          · rename_i e; subst e
            obtain rfl := Option.some.inj h3
            exact Or.inr ⟨k0, v0, by simp, h1⟩
          · exact Or.inl h3
        · exact Or.inr ⟨k, v, by simp [h3], h4⟩
      · intro k' hne
        apply g3
        rw [AMap.get_set]
        split
        · simp
        · exact hne
      · intro k v k' j hm hu hne
        rcases List.mem_cons.1 hm with h | h
        · cases h
          rw [h1] at hu; cases hu
          apply g3
          rw [AMap.get_set]; simp
        · exact g4 k v k' j h hu hne
    rw [marshalProperties] at h
    cases hc : c.marshaler with
    | none =>
      simp only [hc] at h
      exact main _ _ (by simp [Codec.mar, hc]) h
    | some f =>
      simp only [hc] at h
      have hm : c.mar k0 v0 = f k0 v0 := by simp [Codec.mar, hc]
      cases hf : f k0 v0 with
      | none => simp only [hf] at h; cases h
      | some x =>
        obtain ⟨k1, j1⟩ := x
        simp only [hf] at h
        rw [hf] at hm
        split at h
        · exact main _ _ hm h
        · rename_i hk
          have hk : k1 = "" := Decidable.not_not.1 hk
          obtain ⟨g1, g2, g3, g4⟩ := marshalProperties_some h hn
          refine ⟨g1, ?_, g3, ?_⟩
          · intro k' j hk
            rcases g2 k' j hk with h | ⟨k, v, h, h'⟩
            · exact Or.inl h
            · exact Or.inr ⟨k, v, by simp [h], h'⟩
          · intro k v k' j hm' hu hne
            rcases List.mem_cons.1 hm' with h | h
            · cases h
              rw [hm] at hu; cases hu
              exact absurd hk hne
            · exact g4 k v k' j h hu hne

theorem marshalProperties_ok {c : Codec} : ∀ {ps : Props} {ret : AMap String JVal},
    (∀ k v, (k, v) ∈ ps → c.mar k v ≠ none) → marshalProperties c ps ret ≠ none
  | [], ret, h => by rw [marshalProperties]; simp
  | (k0, v0) :: ps, ret, h => by
    have ih : ∀ r, marshalProperties c ps r ≠ none := fun r => marshalProperties_ok (fun k v hk => h k v (by simp [hk]))
    have h0 := h k0 v0 (by simp)
    rw [marshalProperties]
    cases hc : c.marshaler with
    | none => exact ih _
    | some f =>
      simp only [Codec.mar, hc] at h0
      cases hf : f k0 v0 with
      | none => exact absurd hf h0
      | some x =>
        simp only [hf]
        split
        · exact ih _
        · exact ih _

/-- The map read from an object with distinct keys is the object. -/
theorem fold_set {β : Type} : ∀ {ps old : AMap String β}, (AMap.keys (old ++ ps)).Nodup →
    ps.foldl (fun m p => AMap.set m p.1 p.2) old = old ++ ps
  | [], old, h => by simp
  | (k, v) :: ps, old, h => by
    rw [List.foldl_cons, AMap.set_fresh, fold_set]
    · simp
    · simpa using h
    · simp only [AMap.keys, List.map_append, List.map_cons, List.nodup_append, List.mem_cons] at h
      exact fun hk => h.2.2 _ hk k (Or.inl rfl) rfl

/-! ## Edges -/

/-- The number of a node in the document. -/
def num (m : AMap Nat Nat) (n : Nat) : Int := ((m.get n).getD 0 : Nat)

/-- The document has `ps` for the properties of the node or edge. -/
def PropsDoc (c : Codec) (ps : Props) (raw : AMap String JVal) : Prop := marshalProperties c ps [] = some raw

def EdgeDoc (c : Codec) (s : State) (m : AMap Nat Nat) (e : Nat) (d : FullEdge) : Prop :=
  d.from = num m (s.eFrom e) ∧ d.to = num m (s.eTo e) ∧ d.label = s.eLabel e ∧ PropsDoc c (s.eProps e) d.properties

def OutDoc (c : Codec) (s : State) (m : AMap Nat Nat) (e : Nat) (d : OutEdge) : Prop :=
  d.to = num m (s.eTo e) ∧ d.label = s.eLabel e ∧ PropsDoc c (s.eProps e) d.properties

theorem rawMap {c : Codec} {ps : Props} {raw : AMap String JVal} (h : PropsDoc c ps raw) :
    toRawMap [] (.obj raw) = some raw := by
  have := (marshalProperties_some h (by simp [AMap.keys])).1
  rw [toRawMap, fold_set (by simpa using this)]
  simp

theorem encodeEdge_full {c : Codec} {s : State} {m : AMap Nat Nat} {e : Nat} {ts : List Tok}
    (h : encodeEdge c s m true e = (ts, true)) : ∃ v d, ts = text v ∧ toFullEdge v = some d ∧ EdgeDoc c s m e d := by
  unfold encodeEdge edgeValue at h
  cases hp : marshalProperties c (s.eProps e) [] with
  | none => simp [hp] at h
  | some raw =>
    simp only [hp] at h
    refine ⟨_, { «from» := num m (s.eFrom e), «to» := num m (s.eTo e), label := s.eLabel e, properties := raw },
      emit_ok h, ?_, rfl, rfl, rfl, hp⟩
    have h1 : fieldIs "from" "from" = true := by decide
    have h2 : fieldIs "from" "to" = false := by decide
    have h3 : fieldIs "to" "to" = true := by decide
    have h4 : fieldIs "from" "label" = false := by decide
    have h5 : fieldIs "to" "label" = false := by decide
    have h6 : fieldIs "label" "label" = true := by decide
    have h7 : fieldIs "from" "properties" = false := by decide
    have h8 : fieldIs "to" "properties" = false := by decide
    have h9 : fieldIs "label" "properties" = false := by decide
    have h10 : fieldIs "properties" "properties" = true := by decide
    have hr := rawMap hp
    by_cases hl : s.eLabel e = "" <;> by_cases hq : raw = [] <;>
      simp [hl, hq, toFullEdge, toFullEdgeFields, h1, h2, h3, h4, h5, h6, h7, h8, h9, h10, toInt, toStr, num, hr,
        List.length_pos_iff]

theorem encodeEdge_out {c : Codec} {s : State} {m : AMap Nat Nat} {e : Nat} {ts : List Tok}
    (h : encodeEdge c s m false e = (ts, true)) : ∃ v d, ts = text v ∧ toOutEdgeInto {} v = some d ∧ OutDoc c s m e d := by
  unfold encodeEdge edgeValue at h
  cases hp : marshalProperties c (s.eProps e) [] with
  | none => simp [hp] at h
  | some raw =>
    simp only [hp] at h
    refine ⟨_, { «to» := num m (s.eTo e), label := s.eLabel e, properties := raw },
      emit_ok h, ?_, rfl, rfl, hp⟩
    have h3 : fieldIs "to" "to" = true := by decide
    have h5 : fieldIs "to" "label" = false := by decide
    have h6 : fieldIs "label" "label" = true := by decide
    have h8 : fieldIs "to" "properties" = false := by decide
    have h9 : fieldIs "label" "properties" = false := by decide
    have h10 : fieldIs "properties" "properties" = true := by decide
    have hr := rawMap hp
    by_cases hl : s.eLabel e = "" <;> by_cases hq : raw = [] <;>
      simp [hl, hq, toOutEdgeInto, toOutEdgeFields, h3, h5, h6, h8, h9, h10, toInt, toStr, num, hr, List.length_pos_iff]

theorem encodeEdge_true {c : Codec} {s : State} {m : AMap Nat Nat} {b : Bool} {e : Nat}
    (h : ∀ k v, (k, v) ∈ s.eProps e → c.mar k v ≠ none) : (encodeEdge c s m b e).2 = true := by
  unfold encodeEdge edgeValue
  cases hp : marshalProperties c (s.eProps e) [] with
  | none => exact absurd hp (marshalProperties_ok h)
  | some raw => rfl

theorem toAll_snd {α : Type} {f : JVal → Option α} : ∀ {vs : List JVal} {ds : List α}, List.Forall₂ (fun v d => f v = some d) vs ds →
    toAll f vs = some ds
  | [], _, .nil => rfl
  | v :: vs, _, .cons h t => by rw [toAll, h, toAll_snd t]

theorem writeOutgoing_more {c : Codec} {s : State} {m : AMap Nat Nat} : ∀ {es : List Nat} {ts : List Tok},
    writeOutgoing c s m false es = (ts, true) → ∃ vs ds, ts = textMore vs ++ [.rbrack] ∧ toAll (toOutEdgeInto {}) vs = some ds ∧
      List.Forall₂ (OutDoc c s m) es ds
  | [], ts, h => by
    rw [writeOutgoing] at h
    exact ⟨[], [], emit_ok h, rfl, .nil⟩
  | e :: es, ts, h => by
    rw [writeOutgoing] at h
    obtain ⟨t1, t2, h1, h2, rfl⟩ := andThen_ok h
    obtain ⟨t3, t4, h3, h4, rfl⟩ := andThen_ok h2
    obtain ⟨v, d, rfl, k1, k2⟩ := encodeEdge_out h3
    obtain ⟨vs, ds, rfl, k3, k4⟩ := writeOutgoing_more h4
    refine ⟨v :: vs, d :: ds, ?_, by rw [toAll, k1, k3], .cons k2 k4⟩
    rw [emit_ok h1]; simp [textMore]

theorem writeOutgoing_first {c : Codec} {s : State} {m : AMap Nat Nat} {es : List Nat} {ts : List Tok}
    (h : writeOutgoing c s m true es = (ts, true)) :
    ∃ vs ds, ts = textMoreMembers (if vs = [] then [] else [("edges", JVal.arr vs)]) ∧ toAll (toOutEdgeInto {}) vs = some ds ∧
      List.Forall₂ (OutDoc c s m) es ds := by
  cases es with
  | nil =>
    rw [writeOutgoing] at h
    exact ⟨[], [], by simpa [textMoreMembers] using emit_ok h, rfl, .nil⟩
  | cons e es =>
    rw [writeOutgoing] at h
    obtain ⟨t1, t2, h1, h2, rfl⟩ := andThen_ok h
    obtain ⟨t3, t4, h3, h4, rfl⟩ := andThen_ok h2
    obtain ⟨v, d, rfl, k1, k2⟩ := encodeEdge_out h3
    obtain ⟨vs, ds, rfl, k3, k4⟩ := writeOutgoing_more h4
    refine ⟨v :: vs, d :: ds, ?_, by rw [toAll, k1, k3], .cons k2 k4⟩
    rw [emit_ok h1]; simp [textMoreMembers, text, textElems]

theorem writeOutgoing_true {c : Codec} {s : State} {m : AMap Nat Nat} : ∀ {es : List Nat} {b : Bool},
    (∀ e ∈ es, ∀ k v, (k, v) ∈ s.eProps e → c.mar k v ≠ none) → (writeOutgoing c s m b es).2 = true
  | [], b, h => by cases b <;> rfl
  | e :: es, b, h => by
    rw [writeOutgoing]
    refine andThen_true (by cases b <;> rfl) (andThen_true (encodeEdge_true (h e (by simp))) ?_)
    exact writeOutgoing_true (fun e he => h e (by simp [he]))

theorem writeEdges_ok {c : Codec} {s : State} {m : AMap Nat Nat} : ∀ {es : List Nat} {first : Bool} {ts : List Tok},
    writeEdges c s m first es = (ts, true) → ∃ vs ds, ts = (if first then textElems vs else textMore vs) ∧
      toAll toFullEdge vs = some ds ∧ List.Forall₂ (EdgeDoc c s m) es ds
  | [], first, ts, h => by
    rw [writeEdges] at h
    exact ⟨[], [], by cases first <;> simpa [textElems, textMore] using emit_ok h, rfl, .nil⟩
  | e :: es, first, ts, h => by
    rw [writeEdges] at h
    obtain ⟨t1, t2, h1, h2, rfl⟩ := andThen_ok h
    obtain ⟨t3, t4, h3, h4, rfl⟩ := andThen_ok h2
    obtain ⟨v, d, rfl, k1, k2⟩ := encodeEdge_full h3
    obtain ⟨vs, ds, rfl, k3, k4⟩ := writeEdges_ok h4
    refine ⟨v :: vs, d :: ds, ?_, by rw [toAll, k1, k3], .cons k2 k4⟩
    cases first
    · rw [emit_ok h1]; simp [textMore]
    · rw [emit_ok h1]; simp [textElems]

theorem writeEdges_true {c : Codec} {s : State} {m : AMap Nat Nat} : ∀ {es : List Nat} {b : Bool},
    (∀ e ∈ es, ∀ k v, (k, v) ∈ s.eProps e → c.mar k v ≠ none) → (writeEdges c s m b es).2 = true
  | [], b, h => by cases b <;> rfl
  | e :: es, b, h => by
    rw [writeEdges]
    refine andThen_true (by cases b <;> rfl) (andThen_true (encodeEdge_true (h e (by simp))) ?_)
    exact writeEdges_true (fun e he => h e (by simp [he]))

/-! ## Nodes -/

/-- What the document says about node `n` with number `ix`. -/
structure NodeDoc (c : Codec) (s : State) (m : AMap Nat Nat) (n ix : Nat) (d : DocNode) : Prop where
  nr : d.n = ix
  labels : d.labels = s.nLabels n
  props : PropsDoc c (s.nProps n) d.properties
  sep : c.separately = true → d.edges = []
  emb : c.separately = false → ∃ es, s.nodeEdges n .outgoing = some es ∧ List.Forall₂ (OutDoc c s m) es d.edges

theorem toAll_str (ls : List String) : toAll (toStr "") (ls.map .str) = some ls := by
  induction ls with
  | nil => rfl
  | cons l ls ih => rw [List.map_cons, toAll, ih]; rfl

theorem toElems_nil {α : Type} {zero : α} {f : α → JVal → Option α} : ∀ {vs : List JVal} {ds : List α},
    toAll (f zero) vs = some ds → toElems zero f [] vs = some (ds, [])
  | [], ds, h => by cases h; rfl
  | v :: vs, ds, h => by
    rw [toAll] at h
    split at h
    · rename_i d ds' h1 h2
      cases h
      have := toElems_nil h2
      simp [toElems, h1, this]
    · cases h

theorem toSliceInto_nil {α : Type} {zero : α} {f : α → JVal → Option α} {vs : List JVal} {ds : List α}
    (h : toAll (f zero) vs = some ds) : toSliceInto zero f ([], []) (.arr vs) = some (ds, []) := by
  cases vs with
  | nil => cases h; rfl
  | cons v vs => exact toElems_nil h

theorem textMoreMembers_append : ∀ (a b : List (String × JVal)), textMoreMembers (a ++ b) = textMoreMembers a ++ textMoreMembers b
  | [], b => by simp [textMoreMembers]
  | (k, v) :: a, b => by simp [textMoreMembers, textMoreMembers_append a b]

theorem toNode_members {ix : Nat} {ls : List String} {raw : AMap String JVal} {vs : List JVal} {ds : List OutEdge}
    {A B C : List (String × JVal)}
    (hA : A = if ls.length > 0 then [("labels", .arr (ls.map .str))] else [])
    (hB : B = [("properties", .obj raw)] ∨ B = [] ∧ raw = [])
    (hC : C = if vs = [] then [] else [("edges", .arr vs)])
    (hr : toRawMap [] (.obj raw) = some raw) (hv : toAll (toOutEdgeInto {}) vs = some ds) :
    toNode (.obj (("n", .num ix) :: (A ++ (B ++ C)))) = some { n := ix, labels := ls, properties := raw, edges := ds } := by
  have h1 : fieldIs "n" "n" = true := by decide
  have h2 : fieldIs "n" "labels" = false := by decide
  have h3 : fieldIs "labels" "labels" = true := by decide
  have h4 : fieldIs "n" "properties" = false := by decide
  have h5 : fieldIs "labels" "properties" = false := by decide
  have h6 : fieldIs "properties" "properties" = true := by decide
  have h7 : fieldIs "n" "edges" = false := by decide
  have h8 : fieldIs "labels" "edges" = false := by decide
  have h9 : fieldIs "properties" "edges" = false := by decide
  have h10 : fieldIs "edges" "edges" = true := by decide
  have hC' : ∀ x : NodeVar, x.node.edges = [] → x.edgesRest = [] →
      toNodeFields x C = some { x with node := { x.node with edges := ds } } := by
    intro x hx hx'
    by_cases hvs : vs = []
    · subst hvs
      cases hv
      rw [hC, if_pos rfl, toNodeFields]
      obtain ⟨⟨_, _, _, _⟩, _, _⟩ := x; cases hx; rfl
    · rw [hC, if_neg hvs]
      obtain ⟨⟨_, _, _, _⟩, _, _⟩ := x
      cases hx
      cases hx'
      simp [toNodeFields, h7, h8, h9, h10, toSliceInto_nil hv]
  have hB' : ∀ x : NodeVar, x.node.edges = [] → x.edgesRest = [] → x.node.properties = [] →
      toNodeFields x (B ++ C) = some { x with node := { x.node with properties := raw, edges := ds } } := by
    intro x hx hx' hp
    rcases hB with rfl | ⟨rfl, rfl⟩
    · rw [List.cons_append, List.nil_append, toNodeFields]
      simp only [h4, h5, h6, hp, hr, if_true, Bool.false_eq_true, if_false]
      exact hC' _ hx hx'
    · rw [List.nil_append, hC' x hx hx']
      obtain ⟨⟨_, _, _, _⟩, _, _⟩ := x; cases hp; rfl
  rw [toNode, toNodeFields]
  simp only [h1, if_true, toInt]
  by_cases hl : ls.length > 0
  · rw [hA, if_pos hl, List.cons_append, List.nil_append, toNodeFields]
    simp only [h2, h3, if_true, Bool.false_eq_true, if_false, toSliceInto_nil (f := toStr) (toAll_str ls)]
    rw [hB' _ rfl rfl rfl]
    rfl
  · have : ls = [] := by
      cases ls with
      | nil => rfl
      | cons a b => exact absurd (Nat.succ_pos _) hl
    rw [hA, if_neg hl, List.nil_append, hB' _ rfl rfl rfl, this]
    rfl

theorem writeNode_ok {c : Codec} {s : State} {m : AMap Nat Nat} {n ix : Nat} {es : List Nat} {ts : List Tok}
    (he : s.nodeEdges n .outgoing = some es) (h : writeNode c s m n ix es = (ts, true)) :
    ∃ v d, ts = text v ∧ toNode v = some d ∧ NodeDoc c s m n ix d := by
  unfold writeNode at h
  obtain ⟨t1, t2, h1, h2, rfl⟩ := andThen_ok h
  obtain ⟨t3, t4, h3, h4, rfl⟩ := andThen_ok h2
  obtain ⟨t5, t6, h5, h6, rfl⟩ := andThen_ok h4
  obtain rfl := emit_ok h1
  have hA : t3 = textMoreMembers (if (s.nLabels n).length > 0 then [("labels", .arr ((s.nLabels n).map .str))] else []) := by
    split at h3
    · rename_i hl; rw [emit_ok h3, if_pos hl]; simp [textMoreMembers]
    · rename_i hl; rw [emit_ok h3, if_neg hl]; simp [textMoreMembers]
  have hB : ∃ raw B, t5 = textMoreMembers B ∧ PropsDoc c (s.nProps n) raw ∧ (B = [("properties", .obj raw)] ∨ B = [] ∧ raw = []) := by
    split at h5
    · obtain ⟨t7, t8, h7, h8, rfl⟩ := andThen_ok h5
      obtain rfl := emit_ok h7
      cases hp : marshalProperties c (s.nProps n) [] with
      | none => rw [hp] at h8; simp at h8
      | some raw =>
        rw [hp] at h8
        simp only at h8
        exact ⟨raw, _, by rw [emit_ok h8]; simp [textMoreMembers], hp, Or.inl rfl⟩
    · rename_i hl
      refine ⟨[], [], by rw [emit_ok h5]; simp [textMoreMembers], ?_, Or.inr ⟨rfl, rfl⟩⟩
      have : s.nProps n = [] := by
        cases hh : s.nProps n with
        | nil => rfl
        | cons a b => rw [hh] at hl; exact absurd (Nat.succ_pos _) hl
      rw [PropsDoc, this, marshalProperties]
  obtain ⟨raw, B, rfl, hraw, hB⟩ := hB
  have hC : ∃ vs ds, t6 = textMoreMembers (if vs = [] then [] else [("edges", JVal.arr vs)]) ++ [.rbrace] ∧
      toAll (toOutEdgeInto {}) vs = some ds ∧ (c.separately = true → ds = []) ∧ (c.separately = false → List.Forall₂ (OutDoc c s m) es ds) := by
    cases hs : c.separately with
    | true =>
      rw [hs, if_pos rfl] at h6
      exact ⟨[], [], by rw [emit_ok h6]; simp [textMoreMembers], rfl, fun _ => rfl, by simp⟩
    | false =>
      rw [hs, if_neg (by simp)] at h6
      obtain ⟨t7, t8, h7, h8, rfl⟩ := andThen_ok h6
      obtain ⟨vs, ds, rfl, k1, k2⟩ := writeOutgoing_first h7
      exact ⟨vs, ds, by rw [emit_ok h8], k1, by simp, fun _ => k2⟩
  obtain ⟨vs, ds, rfl, k1, k2, k3⟩ := hC
  refine ⟨_, _, ?_, toNode_members (ix := ix) (raw := raw) rfl hB rfl (rawMap hraw) k1, rfl, rfl, hraw, k2,
    fun h => ⟨es, he, k3 h⟩⟩
  rw [hA]
  simp only [text, textMembers, textMoreMembers_append, List.cons_append, List.append_assoc, List.nil_append]

theorem writeNode_true {c : Codec} {s : State} {m : AMap Nat Nat} {n ix : Nat} {es : List Nat}
    (hp : ∀ k v, (k, v) ∈ s.nProps n → c.mar k v ≠ none)
    (h : ∀ e ∈ es, ∀ k v, (k, v) ∈ s.eProps e → c.mar k v ≠ none) : (writeNode c s m n ix es).2 = true := by
  unfold writeNode
  refine andThen_true rfl (andThen_true (by split <;> rfl) (andThen_true ?_ ?_))
  · split
    · refine andThen_true rfl ?_
      cases hm : marshalProperties c (s.nProps n) [] with
      | none => exact absurd hm (marshalProperties_ok hp)
      | some raw => rfl
    · rfl
  · split
    · rfl
    · exact andThen_true (writeOutgoing_true h) rfl

theorem writeNodes_ok {c : Codec} {s : State} {m : AMap Nat Nat} : ∀ {ns : AMap Nat Nat} {first : Bool} {ts : List Tok},
    writeNodes c s m first ns = some (ts, true) → ∃ vs ds, ts = (if first then textElems vs else textMore vs) ∧
      toAll toNode vs = some ds ∧ List.Forall₂ (fun p d => NodeDoc c s m p.1 p.2 d) ns ds
  | [], first, ts, h => by
    rw [writeNodes] at h
    exact ⟨[], [], by cases first <;> simpa [textElems, textMore] using emit_ok (Option.some.inj h), rfl, .nil⟩
  | (n, ix) :: ns, first, ts, h => by
    rw [writeNodes] at h
    cases he : s.nodeEdges n .outgoing with
    | none => simp [he] at h
    | some es =>
      cases hr : writeNodes c s m false ns with
      | none => simp [he, hr] at h
      | some o =>
        simp only [he, hr] at h
        obtain ⟨t1, t2, h1, h2, rfl⟩ := andThen_ok (Option.some.inj h)
        obtain ⟨t3, t4, h3, h4, rfl⟩ := andThen_ok h2
        obtain ⟨v, d, rfl, k1, k2⟩ := writeNode_ok he h3
        subst h4
        obtain ⟨vs, ds, rfl, k3, k4⟩ := writeNodes_ok hr
        refine ⟨v :: vs, d :: ds, ?_, by rw [toAll, k1, k3], .cons k2 k4⟩
        cases first
        · rw [emit_ok h1]; simp [textMore]
        · rw [emit_ok h1]; simp [textElems]

theorem writeNodes_true {c : Codec} {s : State} {m : AMap Nat Nat} : ∀ {ns : AMap Nat Nat} {first : Bool},
    (∀ p ∈ ns, (∀ k v, (k, v) ∈ s.nProps p.1 → c.mar k v ≠ none) ∧ ∃ es, s.nodeEdges p.1 .outgoing = some es ∧
      ∀ e ∈ es, ∀ k v, (k, v) ∈ s.eProps e → c.mar k v ≠ none) → ∃ ts, writeNodes c s m first ns = some (ts, true)
  | [], first, h => ⟨[], rfl⟩
  | (n, ix) :: ns, first, h => by
    obtain ⟨h1, es, h2, h3⟩ := h (n, ix) (by simp)
    obtain ⟨ts, h4⟩ := writeNodes_true (c := c) (m := m) (first := false) (ns := ns) (fun p hp => h p (List.mem_cons_of_mem _ hp))
    rw [writeNodes]
    simp only at h1 h2
    simp only [h2, h4]
    have : (Out.andThen (if first then emit [] else emit [.comma])
        (Out.andThen (writeNode c s m n ix es) (ts, true))).2 = true :=
      andThen_true (by cases first <;> rfl) (andThen_true (writeNode_true h1 h3) rfl)
    exact ⟨_, congrArg some (Prod.ext rfl this)⟩

/-! ## The document -/

theorem number_eq : ∀ {ns : List Nat} {i : Nat} {m : AMap Nat Nat}, ns.Nodup → (∀ n ∈ ns, n ∉ m.map Prod.fst) →
    number i ns m = m ++ ns.zipIdx i
  | [], i, m, _, _ => by simp [number]
  | n :: ns, i, m, hn, hd => by
    have h1 := List.nodup_cons.1 hn
    rw [number, AMap.set_fresh (hd n (by simp)), number_eq h1.2]
    · simp [List.zipIdx_cons]
    · intro x hx hm
      simp only [List.map_append, List.map_cons, List.map_nil, List.mem_append, List.mem_singleton] at hm
      rcases hm with hm | rfl
      · exact hd x (by simp [hx]) hm
      · exact h1.1 hx

/-- What `Encode` writes, if it returns without an error. -/
theorem encode_ok {c : Codec} {order : AMap Nat Nat → AMap Nat Nat} {s : State} {ts : List Tok}
    (h : encode c order s = some (ts, true)) :
    ∃ ns es, s.getNodes = some ns ∧ (if c.separately then s.getEdges else some []) = some es ∧
      ((number 0 ns [] = [] ∧ c.separately = true ∧ ∃ r, ts = .lbrace :: .comma :: r) ∨
       (number 0 ns [] = [] ∧ c.separately = false ∧ ts = text (.obj [])) ∨
       (number 0 ns [] ≠ [] ∧ ∃ ms N E, ts = text (.obj ms) ∧ Document ms N E ∧
        List.Forall₂ (fun p d => NodeDoc c s (number 0 ns []) p.1 p.2 d) (order (number 0 ns [])) N ∧
        (c.separately = true → List.Forall₂ (EdgeDoc c s (number 0 ns [])) es E) ∧ (c.separately = false → E = []))) := by
  unfold encode at h
  cases hn : s.getNodes with
  | none => simp [hn] at h
  | some ns =>
    simp only [hn] at h
    cases hw : writeNodes c s (number 0 ns []) true (order (number 0 ns [])) with
    | none => simp [hw] at h
    | some o =>
      cases he : (if c.separately then s.getEdges else some []) with
      | none => rw [hw, he] at h; cases h
      | some es =>
        rw [hw, he] at h
        simp only at h
        refine ⟨ns, es, rfl, rfl, ?_⟩
        obtain ⟨t1, t2, h1, h2, rfl⟩ := andThen_ok (Option.some.inj h)
        obtain ⟨t3, t4, h3, h4, rfl⟩ := andThen_ok h2
        obtain ⟨t5, t6, h5, h6, rfl⟩ := andThen_ok h4
        obtain rfl := emit_ok h1
        obtain rfl := emit_ok h6
        by_cases hm : number 0 ns [] = []
        · have hl : ¬ (number 0 ns []).length > 0 := by simp [hm]
          rw [if_neg hl] at h3
          obtain rfl := emit_ok h3
          by_cases hs : c.separately = true
          · left
            rw [if_pos hs] at h5
            obtain ⟨t7, t8, h7, h8, rfl⟩ := andThen_ok h5
            obtain rfl := emit_ok h7
            exact ⟨hm, hs, _, rfl⟩
          · right; left
            rw [if_neg hs] at h5
            obtain rfl := emit_ok h5
            exact ⟨hm, by simpa using hs, rfl⟩
        · right; right
          refine ⟨hm, ?_⟩
          have hl : (number 0 ns []).length > 0 := List.length_pos_iff.2 hm
          rw [if_pos hl] at h3
          obtain ⟨t7, t8, h7, h8, rfl⟩ := andThen_ok h3
          obtain ⟨t9, t10, h9, h10, rfl⟩ := andThen_ok h8
          subst h9
          obtain ⟨vs, ds, rfl, k1, k2⟩ := writeNodes_ok hw
          obtain rfl := emit_ok h7
          obtain rfl := emit_ok h10
          by_cases hs : c.separately = true
          · rw [if_pos hs] at h5
            obtain ⟨u1, u2, g1, g2, rfl⟩ := andThen_ok h5
            obtain ⟨u3, u4, g3, g4, rfl⟩ := andThen_ok g2
            obtain rfl := emit_ok g1
            obtain rfl := emit_ok g4
            obtain ⟨ws, E, rfl, j1, j2⟩ := writeEdges_ok g3
            refine ⟨[("nodes", .arr vs), ("edges", .arr ws)], ds, E, ?_, ?_, k2, fun _ => j2, fun h => by simp [hs] at h⟩
            · simp [text, textMembers, textMoreMembers]
            · have := Document.nodes (v := .arr vs) (ns := ds) k1 (Document.edges (v := .arr ws) j1 .nil)
              simpa using this
          · rw [if_neg hs] at h5
            obtain rfl := emit_ok h5
            refine ⟨[("nodes", .arr vs)], ds, [], ?_, ?_, k2, fun h => absurd h hs, fun _ => rfl⟩
            · simp [text, textMembers, textMoreMembers]
            · have := Document.nodes (v := .arr vs) (ns := ds) k1 .nil
              simpa using this

theorem encode_true {c : Codec} {order : AMap Nat Nat → AMap Nat Nat} {s : State} {ns es : List Nat}
    (hn : s.getNodes = some ns) (he : (if c.separately then s.getEdges else some []) = some es)
    (h1 : ∀ p ∈ order (number 0 ns []), (∀ k v, (k, v) ∈ s.nProps p.1 → c.mar k v ≠ none) ∧
      ∃ es, s.nodeEdges p.1 .outgoing = some es ∧ ∀ e ∈ es, ∀ k v, (k, v) ∈ s.eProps e → c.mar k v ≠ none)
    (h2 : ∀ e ∈ es, ∀ k v, (k, v) ∈ s.eProps e → c.mar k v ≠ none) : ∃ ts, encode c order s = some (ts, true) := by
  unfold encode
  obtain ⟨ts, h3⟩ := writeNodes_true (m := number 0 ns []) (first := true) h1
  rw [hn]
  dsimp only
  rw [h3, he]
  refine ⟨_, congrArg some (Prod.ext rfl (andThen_true rfl (andThen_true ?_ (andThen_true ?_ rfl))))⟩
  · split
    · rfl
    · rfl
  · split
    · exact andThen_true rfl (andThen_true (writeEdges_true h2) rfl)
    · rfl

end LPG.Json

import Verif.Model.Lookup
import Verif.Props.C50All
/-!
# C63: looking up a value in an index; C14: what a search can yield after every history
-/
namespace LPG
open State

/-- The value without one wrapper, as Go compares it with `==` (a map key of type `interface{}`). -/
def bareValue : Value → Value
  | .native v => v
  | v => v

theorem bareValue_eq (v : Value) : bareValue v = unwrap1 v := by cases v <;> rfl

theorem hkey_inj : ∀ {v w : Value} {k : HKey}, hkey v = some k → hkey w = some k → v = w
  | .native v, w, k => by
    intro h1 h2
    simp only [hkey, Option.map_eq_some_iff] at h1
    obtain ⟨k1, h1, rfl⟩ := h1
    cases w with
    | native w =>
      simp only [hkey, Option.map_eq_some_iff] at h2
      obtain ⟨k2, h2, h3⟩ := h2
      cases h3
      rw [hkey_inj h1 h2]
    | other t b => cases b <;> simp [hkey] at h2
    | _ => simp [hkey] at h2
  | .nil, w, k => by
    intro h1 h2
    cases w with
    | other t b => cases b <;> simp [hkey] at h1 h2; subst h1; cases h2
    | native w => simp [hkey] at h1 h2; subst h1; obtain ⟨_, _, h⟩ := h2; cases h
    | _ => simp [hkey] at h1 h2 <;> subst h1 <;> cases h2 <;> rfl
  | .int i, w, k => by
    intro h1 h2
    cases w with
    | other t b => cases b <;> simp [hkey] at h1 h2; subst h1; cases h2
    | native w => simp [hkey] at h1 h2; subst h1; obtain ⟨_, _, h⟩ := h2; cases h
    | _ => simp [hkey] at h1 h2 <;> subst h1 <;> cases h2 <;> rfl
  | .str i, w, k => by
    intro h1 h2
    cases w with
    | other t b => cases b <;> simp [hkey] at h1 h2; subst h1; cases h2
    | native w => simp [hkey] at h1 h2; subst h1; obtain ⟨_, _, h⟩ := h2; cases h
    | _ => simp [hkey] at h1 h2 <;> subst h1 <;> cases h2 <;> rfl
  | .other t b, w, k => by
    intro h1 h2
    cases b <;> simp [hkey] at h1
    subst h1
    cases w with
    | other t b => cases b <;> simp [hkey] at h2; subst h2; rfl
    | native w => simp [hkey] at h2
    | _ => simp [hkey] at h2
  | .ints _, _, _ => by simp [hkey]
  | .strs _, _, _ => by simp [hkey]
  | .list _, _, _ => by simp [hkey]

/-- the panic of a Go map for a key that is not comparable -/
theorem HashIx.find_none {ix : HashIx} {v : Value} : ix.find v = none ↔ ix.init = true ∧ hkey (unwrap1 v) = none := by
  unfold HashIx.find
  cases hi : ix.init <;> simp
  cases hk : hkey (unwrap1 v) with
  | none => simp
  | some k => cases hg : AMap.get ix.values k <;> simp [hg]

theorem BRep.find_exact {t : SetTree} {val : Nat → Option Value} {v : Value} {xs : List Nat} {m : Int} (h : BRep t val)
    (hf : SetTree.find t v = some (xs, m)) : ∀ id ∈ xs, ∃ w, val id = some w ∧ ser v = ser w := by
  unfold SetTree.find at hf
  split at hf
  · cases hf
  · cases hf; simp
  · rename_i s hg
    simp only [Option.some.injEq, Prod.mk.injEq] at hf
    obtain ⟨h1, h2⟩ := hf
    obtain ⟨hdef, e0, h0, hk, rfl⟩ := get_some hg
    rw [((h.ok e0 h0).1).items] at h1
    subst h1
    intro id hx
    obtain ⟨w, hw, hl⟩ := h.sound e0 h0 id hx
    refine ⟨w, hw, ((cmp_ser hk).1.1 rfl).trans ?_⟩
    rcases hl with rfl | hl
    · rfl
    · exact ((cmp_ser hl).1.1 rfl).symm

theorem ser_same {v w : Value} (h : ser v = ser w) (r : Int) (hr : cmp v w = some r) : r = 0 :=
  (cmp_ser hr).1.2 h

/-- what a lookup in a btree yields -/
theorem btree_find {t : SetTree} {val P : Nat → Option Value} {v : Value} {xs : List Nat} {m : Int} (r : BRep t val)
    (hval : ∀ x v, val x = some v → P x = some v) (hf : SetTree.find t v = some (xs, m)) :
    m = xs.length ∧ xs.Nodup ∧ (∀ n ∈ xs, n ∈ SetTree.valueItr t ∧ ∃ w, P n = some w ∧ ∀ c, cmp v w = some c → c = 0) ∧
      ∀ n ∈ SetTree.valueItr t, ∀ w, P n = some w → cmp v w = some 0 → n ∈ xs := by
  obtain ⟨h1, h2, h3, h4⟩ := r.find hf
  refine ⟨h2.symm, h1, ?_, ?_⟩
  · intro n hn
    obtain ⟨w, hw, hser⟩ := r.find_exact hf n hn
    exact ⟨(r.mem n).2 ⟨w, hw⟩, w, hval n w hw, ser_same hser⟩
  · intro n hn w hw hc
    obtain ⟨w', hw'⟩ := (r.mem n).1 hn
    have := hval n w' hw'
    rw [hw] at this; cases this
    exact h4 n w hw' hc

/-- what a lookup in a hash index yields -/
theorem hash_find {t : HashIx} {val P : Nat → Option Value} {v : Value} {xs : List Nat} {m : Int} (r : IRep (.hash t) val)
    (hval : ∀ x v, val x = some v → P x = some v) (hf : t.find v = some (xs, m)) :
    m = xs.length ∧ xs.Nodup ∧
      ∀ n, n ∈ xs ↔ n ∈ t.valueItr ∧ ∃ w, P n = some w ∧ bareValue w = bareValue v := by
  obtain ⟨h1, h2, h3⟩ := HRep.find r hf
  refine ⟨h2.symm, h1, fun n => ?_⟩
  rw [h3]
  have hm : n ∈ t.valueItr ↔ ∃ v, val n = some v := r.mem n
  constructor
  · rintro ⟨w, hw, hk⟩
    refine ⟨hm.2 ⟨w, hw⟩, w, hval n w hw, ?_⟩
    have hr : HRep t val := r
    obtain ⟨k, fs, c, d1, _⟩ := hr.full n w hw
    rw [bareValue_eq, bareValue_eq]
    exact hkey_inj d1 (hk ▸ d1)
  · rintro ⟨hn, w, hw, hb⟩
    obtain ⟨w', hw'⟩ := hm.1 hn
    have := hval n w' hw'
    rw [hw] at this; cases this
    exact ⟨w, hw', by rw [← bareValue_eq, ← bareValue_eq, hb]⟩

/-! ## C63 -/

/-- Without an index there is no iterator. -/
theorem C63_none (ops : List Op) (s : State) (hs : run ops = some s) (k : String) (v : Value) :
    (nodeIndexType ops k = none → s.nodesByValue k v = some none) ∧
    (edgeIndexType ops k = none → s.edgesByValue k v = some none) := by
  constructor
  · intro h
    have := (nodeIx_type_run hs k).trans h
    simp only [Indexes.kind, Option.map_eq_none_iff] at this
    simp [State.nodesByValue, this]
  · intro h
    have := (edgeIx_type_run hs k).trans h
    simp only [Indexes.kind, Option.map_eq_none_iff] at this
    simp [State.edgesByValue, this]

theorem kind_hash {ixs : Indexes} {k : String} (h : ixs.kind k = some .hash) :
    ∃ t, AMap.get ixs k = some (.hash t) := by
  simp only [Indexes.kind, Option.map_eq_some_iff] at h
  obtain ⟨ix, h1, h2⟩ := h
  cases ix with
  | btree t => cases h2
  | hash t => exact ⟨t, h1⟩

/-- C63 for a btree index on nodes, after every history: if the lookup returns, it yields each node once and its size
is exact; every node of the index whose value compares equal is found, and no node whose value compares otherwise. -/
theorem C63_btree (ops : List Op) (hv : Spec.ValidHistory ops) (k : String) (hk : nodeIndexType ops k = some .btree)
    (s : State) (hs : run ops = some s) (v : Value) (r : Option (List Nat × Int)) (hf : s.nodesByValue k v = some r) :
    ∃ all xs, s.getNodesWithProperty k = some all ∧ r = some (xs, (xs.length : Int)) ∧ xs.Nodup ∧
      (∀ n ∈ xs, n ∈ all ∧ ∃ w, s.nodeProperty n k = some w ∧ ∀ c, cmp v w = some c → c = 0) ∧
      ∀ n ∈ all, ∀ w, s.nodeProperty n k = some w → cmp v w = some 0 → n ∈ xs := by
  obtain ⟨t, hg⟩ := kind_btree ((nodeIx_type_run hs k).trans hk)
  obtain ⟨val, rep, hval⟩ := nodeSub_run hv hs k _ hg
  simp only [State.nodesByValue, hg, Option.map_eq_some_iff] at hf
  obtain ⟨⟨xs, m⟩, h1, rfl⟩ := hf
  obtain ⟨rfl, h2, h3, h4⟩ := btree_find rep hval h1
  exact ⟨SetTree.valueItr t, xs, by simp [State.getNodesWithProperty, hg, Index.valueItr], rfl, h2, h3, h4⟩

/-- C63 for a btree index on edges. -/
theorem C63_btree_edges (ops : List Op) (hv : Spec.ValidHistory ops) (k : String)
    (hk : edgeIndexType ops k = some .btree) (s : State) (hs : run ops = some s) (v : Value)
    (r : Option (List Nat × Int)) (hf : s.edgesByValue k v = some r) :
    ∃ all xs, s.getEdgesWithProperty k = some all ∧ r = some (xs, (xs.length : Int)) ∧ xs.Nodup ∧
      (∀ e ∈ xs, e ∈ all ∧ ∃ w, s.edgeProperty e k = some w ∧ ∀ c, cmp v w = some c → c = 0) ∧
      ∀ e ∈ all, ∀ w, s.edgeProperty e k = some w → cmp v w = some 0 → e ∈ xs := by
  obtain ⟨t, hg⟩ := kind_btree ((edgeIx_type_run hs k).trans hk)
  obtain ⟨val, rep, hval⟩ := edgeSub_run hv hs k _ hg
  have rep : BRep t val := rep
  simp only [State.edgesByValue, hg, Option.map_eq_some_iff] at hf
  obtain ⟨⟨xs, m⟩, h1, rfl⟩ := hf
  obtain ⟨rfl, h2, h3, h4⟩ := btree_find rep hval h1
  exact ⟨SetTree.valueItr t, xs, by simp [State.getEdgesWithProperty, hg, Index.valueItr], rfl, h2, h3, h4⟩

/-- C63 for a hash index on nodes, after every history: the nodes of the index whose value is the same, up to one
wrapper on either side. -/
theorem C63_hash (ops : List Op) (hv : Spec.ValidHistory ops) (k : String) (hk : nodeIndexType ops k = some .hash)
    (s : State) (hs : run ops = some s) (v : Value) (r : Option (List Nat × Int)) (hf : s.nodesByValue k v = some r) :
    ∃ all xs, s.getNodesWithProperty k = some all ∧ r = some (xs, (xs.length : Int)) ∧ xs.Nodup ∧
      ∀ n, n ∈ xs ↔ n ∈ all ∧ ∃ w, s.nodeProperty n k = some w ∧ bareValue w = bareValue v := by
  obtain ⟨t, hg⟩ := kind_hash ((nodeIx_type_run hs k).trans hk)
  obtain ⟨val, rep, hval⟩ := nodeSub_run hv hs k _ hg
  simp only [State.nodesByValue, hg, Option.map_eq_some_iff] at hf
  obtain ⟨⟨xs, m⟩, h1, rfl⟩ := hf
  obtain ⟨rfl, h2, h3⟩ := hash_find rep hval h1
  exact ⟨t.valueItr, xs, by simp [State.getNodesWithProperty, hg, Index.valueItr], rfl, h2, h3⟩

/-- C63 for a hash index on edges, after every history: if the lookup returns, it yields each edge once, its size is
exact, and every edge it yields is in the index and has the value, up to one wrapper on either side. -/
theorem C63_hash_edges (ops : List Op) (hv : Spec.ValidHistory ops) (k : String)
    (hk : edgeIndexType ops k = some .hash) (s : State) (hs : run ops = some s) (v : Value)
    (r : Option (List Nat × Int)) (hf : s.edgesByValue k v = some r) :
    ∃ all xs, s.getEdgesWithProperty k = some all ∧ r = some (xs, (xs.length : Int)) ∧ xs.Nodup ∧
      ∀ e ∈ xs, e ∈ all ∧ ∃ w, s.edgeProperty e k = some w ∧ bareValue w = bareValue v := by
  obtain ⟨t, hg⟩ := kind_hash ((edgeIx_type_run hs k).trans hk)
  obtain ⟨val, ⟨O, rep, _⟩, hval⟩ := edgeSub_run hv hs k _ hg
  simp only [State.edgesByValue, hg, Option.map_eq_some_iff] at hf
  obtain ⟨⟨xs, m⟩, h1, rfl⟩ := hf
  have h1 := without_find rep (show t.find v = some (xs, m) from h1)
  obtain ⟨rfl, h2, h3⟩ := hash_find (t := t.without O) rep hval h1
  refine ⟨t.valueItr, xs, by simp [State.getEdgesWithProperty, hg, Index.valueItr], rfl, h2, fun e he => ?_⟩
  obtain ⟨h4, h5⟩ := (h3 e).1 he
  refine ⟨?_, h5⟩
  simp only [HashIx.valueItr, HashIx.without, List.mem_map] at h4 ⊢
  obtain ⟨p, hp, rfl⟩ := h4
  exact ⟨p, (List.mem_filter.1 hp).1, rfl⟩

/-- Two edges are given the label of others and removed, and the list of all edges then has the edge 7 twice. -/
def twiceOps : List Op :=
  [.newNode [] [], .newEdge 0 0 "A" [], .newEdge 0 0 "B" [], .newEdge 0 0 "B" [], .newEdge 0 0 "B" [],
   .newEdge 0 0 "C" [], .newEdge 0 0 "C" [], .setEdgeLabel 1 "B", .removeEdge 1, .setEdgeLabel 6 "B", .removeEdge 6,
   .newEdge 0 0 "B" [("q", .int 7)]]

/-- **GetEdges can yield an edge twice**, and a hash index made then has it twice. -/
theorem C04_twice_false : Spec.ValidHistory twiceOps ∧
    (run twiceOps).bind State.getEdges = some [1, 7, 5, 7] ∧
    (run (twiceOps ++ [.addEdgeIndex "q" .hash])).bind (fun s => s.getEdgesWithProperty "q") = some [7, 7] := by
  decide +kernel

/-- **The converse of `C63_hash_edges` is false** for a hash index made over such a list: after its node is detached the
edge 7 is in the index and has the value 7, and a lookup of 7 does not find it. Also the index goes on listing the edge
after its property is removed. -/
theorem C63_hash_edges_false :
    Spec.ValidHistory (twiceOps ++ [.addEdgeIndex "q" .hash, .detach 0]) ∧
    (run (twiceOps ++ [.addEdgeIndex "q" .hash, .detach 0])).bind (fun s => s.getEdgesWithProperty "q") = some [7] ∧
    (run (twiceOps ++ [.addEdgeIndex "q" .hash, .detach 0])).bind (fun s => s.edgeProperty 7 "q") = some (.int 7) ∧
    (run (twiceOps ++ [.addEdgeIndex "q" .hash, .detach 0])).bind (fun s => s.edgesByValue "q" (.int 7)) =
      some (some ([], 0)) ∧
    Spec.ValidHistory (twiceOps ++ [.addEdgeIndex "q" .hash, .removeEdgeProp 7 "q"]) ∧
    (run (twiceOps ++ [.addEdgeIndex "q" .hash, .removeEdgeProp 7 "q"])).bind
      (fun s => s.getEdgesWithProperty "q") = some [7] ∧
    (run (twiceOps ++ [.addEdgeIndex "q" .hash, .removeEdgeProp 7 "q"])).bind
      (fun s => s.edgeProperty 7 "q") = none :=
  ⟨by decide +kernel, by decide +kernel, by rfl, by decide +kernel, by decide +kernel, by decide +kernel, by rfl⟩

/-- C63 for a hash index on edges, with the converse, which is false in general (`C63_hash_edges_false`). Missing:
histories in which the index was created after an edge was removed that was
filed under a label it no longer had (not `EdgeIndexSafe`). The edges of the index are those
with the property and those that `Edge.Remove` left there (`C13_left`). -/
theorem C63_hash_edges_partial (ops : List Op) (hv : Spec.ValidHistory ops) (hi : EdgeIndexSafe ops) (k : String)
    (hk : edgeIndexType ops k = some .hash) (s : State) (hs : run ops = some s) (v : Value)
    (r : Option (List Nat × Int)) (hf : s.edgesByValue k v = some r) :
    ∃ all xs, s.getEdgesWithProperty k = some all ∧ r = some (xs, (xs.length : Int)) ∧ xs.Nodup ∧
      ∀ e, e ∈ xs ↔ e ∈ all ∧ ∃ w, s.edgeProperty e k = some w ∧ bareValue w = bareValue v := by
  obtain ⟨t, hg⟩ := kind_hash ((edgeIx_type_run hs k).trans hk)
  have h0 : LeftRep State.new Spec.new (fun _ => []) :=
    ⟨by intro k ix h; simp [State.new, AMap.get] at h, by simp, by simp, by simp, by simp⟩
  have h := LeftRep.runFrom (K := []) Core.init (fun _ => AEx.init (g := fun _ => ""))
    (by intro k; simp [State.new, AMap.get]) h0 hv hi hs
  have rep := h.ix k _ hg
  simp only [State.edgesByValue, hg, Option.map_eq_some_iff] at hf
  obtain ⟨⟨xs, m⟩, h1, rfl⟩ := hf
  obtain ⟨rfl, h2, h3⟩ := hash_find (P := fun e => AMap.get (s.eProps e) k) rep (by
    intro x v hx
    simp only [State.evalL] at hx
    split at hx
    · exact hx
    · cases hx) h1
  exact ⟨t.valueItr, xs, by simp [State.getEdgesWithProperty, hg, Index.valueItr], rfl, h2, h3⟩

/-- A value that compares with `int`s or `string`s. -/
def Value.scalar : Value → Bool
  | .int _ => true
  | .str _ => true
  | .native v => v.scalar
  | _ => false

theorem scalar_strip : ∀ v : Value, (strip v).scalar = v.scalar
  | .native v => by simp [strip, Value.scalar, scalar_strip v]
  | .nil => rfl
  | .int _ => rfl
  | .str _ => rfl
  | .ints _ => rfl
  | .strs _ => rfl
  | .list _ => rfl
  | .other _ _ => rfl

theorem scalar_cmp {v w e : Value} (hv : v.scalar = true) (h : cmp v w ≠ none) (hl : Like w e) : cmp v e ≠ none := by
  rcases hl with rfl | hl
  · exact h
  · have cs : ∀ a b, cmp a b = cmp (strip a) (strip b) := fun a b => by rw [cmp_strip_left, cmp_strip_right]
    rw [cs] at h hl ⊢
    have hs : (strip v).scalar = true := by rw [scalar_strip]; exact hv
    have ha := strip_ne v
    revert hs h hl ha
    generalize strip v = a
    have hb := strip_ne w
    have he := strip_ne e
    revert hb he
    generalize strip w = b
    generalize strip e = c
    intro hb he h hl hs ha
    cases a <;> simp only [Value.scalar, Bool.false_eq_true] at hs
    · cases b <;> simp only [cmp, ne_eq, not_true_eq_false] at h
      · cases c <;> simp [cmp] at hl ⊢
        exact absurd rfl (he _)
      · exact absurd rfl (hb _)
    · cases b <;> simp only [cmp, ne_eq, not_true_eq_false] at h
      · cases c <;> simp [cmp] at hl ⊢
        exact absurd rfl (he _)
      · exact absurd rfl (hb _)
    · exact absurd rfl (ha _)

theorem btree_find_ne {t : SetTree} {val P : Nat → Option Value} {v : Value} (rep : BRep t val)
    (hval : ∀ x v, val x = some v → P x = some v) (hsc : v.scalar = true)
    (hall : ∀ n ∈ SetTree.valueItr t, ∀ w, P n = some w → cmp v w ≠ none) : SetTree.find t v ≠ none := by
  have hgn : SetTree.get t v ≠ none := by
    unfold SetTree.get
    rw [if_neg]
    · simp
    · rw [List.any_eq_true]
      rintro ⟨e, he, hx⟩
      have hne := (rep.ok e he).2
      obtain ⟨p, hp⟩ := List.exists_mem_of_ne_nil _ hne
      have hid : p.1 ∈ AMap.keys e.2 := List.mem_map.2 ⟨p, hp, rfl⟩
      obtain ⟨w, hw, hl⟩ := rep.sound e he p.1 hid
      have := scalar_cmp hsc (hall p.1 ((rep.mem _).2 ⟨w, hw⟩) w (hval _ w hw)) hl
      simp at hx
      exact this hx
  simp only [SetTree.find]
  cases h : SetTree.get t v with
  | none => exact absurd h hgn
  | some o => cases o <;> simp

/-- When the lookup returns. Btree: if the value asked for is an int or a string (or wraps one) and compares with every
value in the index. Hash: if the value can be a map key. -/
theorem C63_returns (ops : List Op) (hv : Spec.ValidHistory ops) (k : String) (s : State) (hs : run ops = some s)
    (v : Value) :
    (nodeIndexType ops k = some .btree → v.scalar = true →
      (∀ all, s.getNodesWithProperty k = some all → ∀ n ∈ all, ∀ w, s.nodeProperty n k = some w → cmp v w ≠ none) →
      s.nodesByValue k v ≠ none) ∧
    (nodeIndexType ops k = some .hash → hkey (bareValue v) ≠ none → s.nodesByValue k v ≠ none) := by
  constructor
  · intro hk hsc hall
    obtain ⟨t, hg⟩ := kind_btree ((nodeIx_type_run hs k).trans hk)
    obtain ⟨val, rep, hval⟩ := nodeSub_run hv hs k _ hg
    have hall := hall (SetTree.valueItr t) (by simp [State.getNodesWithProperty, hg, Index.valueItr])
    have := btree_find_ne rep hval hsc hall
    simpa [State.nodesByValue, hg, Index.find] using this
  · intro hk hh
    obtain ⟨t, hg⟩ := kind_hash ((nodeIx_type_run hs k).trans hk)
    simp only [State.nodesByValue, hg, Index.find]
    intro h
    rw [Option.map_eq_none_iff, HashIx.find_none] at h
    exact hh (by rw [bareValue_eq]; exact h.2)

/-- The same for edges. -/
theorem C63_returns_edges (ops : List Op) (hv : Spec.ValidHistory ops) (k : String) (s : State) (hs : run ops = some s)
    (v : Value) :
    (edgeIndexType ops k = some .btree → v.scalar = true →
      (∀ all, s.getEdgesWithProperty k = some all → ∀ e ∈ all, ∀ w, s.edgeProperty e k = some w → cmp v w ≠ none) →
      s.edgesByValue k v ≠ none) ∧
    (edgeIndexType ops k = some .hash → hkey (bareValue v) ≠ none → s.edgesByValue k v ≠ none) := by
  constructor
  · intro hk hsc hall
    obtain ⟨t, hg⟩ := kind_btree ((edgeIx_type_run hs k).trans hk)
    obtain ⟨val, rep, hval⟩ := edgeSub_run hv hs k _ hg
    have hall := hall (SetTree.valueItr t) (by simp [State.getEdgesWithProperty, hg, Index.valueItr])
    have := btree_find_ne rep hval hsc hall
    simpa [State.edgesByValue, hg, Index.find] using this
  · intro hk hh
    obtain ⟨t, hg⟩ := kind_hash ((edgeIx_type_run hs k).trans hk)
    simp only [State.edgesByValue, hg, Index.find]
    intro h
    rw [Option.map_eq_none_iff, HashIx.find_none] at h
    exact hh (by rw [bareValue_eq]; exact h.2)

example : (run messyOps).bind (fun s => s.nodesByValue "p" (.int 5)) = some (some ([0], 1)) ∧
    (run messyOps).bind (fun s => s.nodesByValue "p" (.int 7)) = some (some ([2], 1)) ∧
    (run messyOps).bind (fun s => s.nodesByValue "p" (.int 6)) = some (some ([], 0)) ∧
    (run messyOps).bind (fun s => s.nodesByValue "p" (.str "")) = none ∧
    (run messyOps).bind (fun s => s.nodesByValue "z" (.str "")) = some none ∧
    (run messyOps).bind (fun s => s.edgesByValue "q" (.str "b")) = some (some ([5], 1)) := by decide +kernel

/-! ## C14 -/

/-- FindNodes with a non-empty set of labels, after every history and for all values: if it returns, no node comes
twice, and every node that comes has the labels and the properties. -/
theorem C14_sound (ops : List Op) (hv : Spec.ValidHistory ops) (ls : List String) (hls : ls ≠ [])
    (req : AMap String Value) (s : State) (hs : run ops = some s) (ns : List Nat) (hf : s.findNodes ls req = some ns) :
    ns.Nodup ∧ ∀ n ∈ ns, (∀ l ∈ ls, l ∈ s.nLabels n) ∧
      ∀ k v, (k, v) ∈ req → ∃ w, s.nodeProperty n k = some w ∧ cmp v w = some 0 := by
  obtain ⟨ns0, h0, h0p⟩ := C10 ops hv s hs ls hls
  obtain ⟨xs, m, e1, _, e3, _⟩ := NodeMap.allLabels_nonempty s.byLabel (LblRep.run hv hs).ok s.nLabels ls hls
  have hlen : ¬ ls.length = 0 := by rw [List.length_eq_zero_iff]; exact hls
  have hxs : xs = ns0 := by simpa [State.getNodesWithAllLabels, e1] using h0
  subst hxs
  have c := Core.run hv hs
  have fin : ∀ ys : List Nat, ys.Nodup →
      (ys.filter (fun n => nodeFilter ls req (s.nLabels n) (s.nProps n))).Nodup ∧
      ∀ n ∈ ys.filter (fun n => nodeFilter ls req (s.nLabels n) (s.nProps n)), (∀ l ∈ ls, l ∈ s.nLabels n) ∧
      ∀ k v, (k, v) ∈ req → ∃ w, s.nodeProperty n k = some w ∧ cmp v w = some 0 := by
    intro ys hy
    refine ⟨hy.filter _, fun n hn => ?_⟩
    exact (nodeFilter_iff _ _ _ _).1 (List.mem_filter.1 hn).2
  unfold State.findNodes at hf
  rw [if_neg (fun h => hlen h.1), if_neg hlen, e1] at hf
  split at hf
  · rename_i bl its hbl hits
    cases hbl
    obtain ⟨p1, p2⟩ := propIters_mem hits
    have hm : m ≠ -1 := by omega
    rcases choose_cases hf with ⟨_, rfl⟩ | ⟨b, hb, rfl⟩ | ⟨_, hm', _⟩
    · exact fin _ (h0p.nodup_iff.2 (c.nNodup.filter _))
    · rcases (minIter_spec its none).1 b hb with hb | hb
      · obtain ⟨k, v, ix, q1, q2, q3⟩ := p1 b hb
        obtain ⟨val, rep, _⟩ := nodeSub_run hv hs k ix q2
        obtain ⟨r1, r2, r3, r4⟩ := rep.find (xs := b.1) (m := b.2) q3
        exact fin _ r1
      · cases hb
    · exact absurd hm' hm
  · cases hf

end LPG

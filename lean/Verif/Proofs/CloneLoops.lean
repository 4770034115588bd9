import Verif.Proofs.Clone
/-! The loops of `CopyGraph` and `CopySubgraph`. -/
namespace LPG
open State
namespace World

variable {U L : Prop} {Pn Pe : String → Value → Prop} {f : String → Value → Value} {s t : Nat}
  {W0 : World} {ω0 : WSpec}

theorem copyNodes_nil (W : World) (m : AMap Nat Nat) : copyNodes t f W none m = some (W, m) := by rw [copyNodes]

theorem copyNodes_cons (W : World) (m : AMap Nat Nat) (n : Nat) : copyNodes t f W (some n) m =
    (W.cloneNode t n f).bind (fun r => copyNodes t f r.1 (W.heap.nptr.next n) (m.set n r.2)) := by
  conv => lhs; rw [copyNodes]
  rfl

/-- The loop over the nodes follows the list of the source. -/
theorem copyNodes_spec (hst : s ≠ t)
    {D : Nat → Prop} (hD : ∀ n, D n → W0.N s n) (hP : ∀ n, D n → ∀ k v, (ω0 s).nprop n k = some v → Pn k (f k v)) :
    ∀ (fuel : Nat) (o : Option Nat) (post pre : List Nat) {W : World} {ω : WSpec} {m : AMap Nat Nat},
    walk W0.heap.nptr.next fuel o = some post → (pre ++ post).Nodup → (∀ n ∈ post, D n) →
    m.map Prod.fst = pre → Copying U L Pn Pe f s t W0 ω0 W ω m [] →
    (U → copyNodes t f W o m ≠ none) ∧ ∀ r, copyNodes t f W o m = some r →
      ∃ ω', Copying U L Pn Pe f s t W0 ω0 r.1 ω' r.2 [] ∧ r.2.map Prod.fst = pre ++ post
  | fuel, none, post, pre, W, ω, m, hw, _, _, hm, c => by
    rw [walk_none] at hw
    cases hw
    rw [copyNodes_nil]
    refine ⟨by simp, fun r h => ?_⟩
    cases h
    exact ⟨ω, c, by rw [hm]; simp⟩
  | 0, some n, post, pre, W, ω, m, hw, _, _, hm, c => by cases hw
  | fuel + 1, some n, post, pre, W, ω, m, hw, hnd, hl, hm, c => by
    rw [walk_succ] at hw
    obtain ⟨post, hw1, rfl⟩ := Option.map_eq_some_iff.1 hw
    rw [copyNodes_cons]
    have hmem : D n := hl n (by simp)
    have hnot : n ∉ m.map Prod.fst := by
      rw [hm]
      rw [List.nodup_append] at hnd
      intro h
      exact hnd.2.2 n h n (by simp) rfl
    obtain ⟨k1, k2⟩ := c.node (hP n hmem) (hD n hmem) hnot
    have hnext : W.heap.nptr.next n = W0.heap.nptr.next n := ((c.frame s hst).1.node n (hD n hmem)).1
    rw [hnext]
    have hnd' : ((pre ++ [n]) ++ post).Nodup := by simpa using hnd
    have hl' : ∀ x ∈ post, D x := fun x hx => hl x (by simp [hx])
    refine ⟨fun hU => ?_, fun r h => ?_⟩
    · cases hc : W.cloneNode t n f with
      | none => exact absurd hc (k1 hU)
      | some q =>
        obtain ⟨ω', c'⟩ := k2 q hc
        rw [← AMap.set_fresh (v := q.2) hnot] at c'
        simp only [Option.bind_some]
        exact (copyNodes_spec hst hD hP fuel _ post (pre ++ [n]) hw1 hnd' hl' (by rw [AMap.set_fresh hnot]; simp [hm]) c').1 hU
    · cases hc : W.cloneNode t n f with
      | none => rw [hc] at h; cases h
      | some q =>
        obtain ⟨ω', c'⟩ := k2 q hc
        rw [← AMap.set_fresh (v := q.2) hnot] at c'
        rw [hc, Option.bind_some] at h
        have := (copyNodes_spec hst hD hP fuel _ post (pre ++ [n]) hw1 hnd' hl' (by rw [AMap.set_fresh hnot]; simp [hm]) c').2 r h
        simpa using this

/-- The loop over the edges copies each edge whose ends have been copied. -/
theorem copyEdges_spec {D : Nat → Prop} (hD : ∀ e, D e → W0.E s e)
    (hP : ∀ e, D e → ∀ k v, (ω0 s).eprop e k = some v → Pe k (f k v)) {m : AMap Nat Nat} :
    ∀ (xs : List Nat) {W : World} {ω : WSpec} {es : List Nat}, (∀ e ∈ xs, D e) →
    Copying U L Pn Pe f s t W0 ω0 W ω m es →
    (U → copyEdges t f m W xs ≠ none) ∧ ∀ W', copyEdges t f m W xs = some W' →
      ∃ ω', Copying U L Pn Pe f s t W0 ω0 W' ω' m
        (es ++ xs.filter (fun e => (ω0 s).src e ∈ m.map Prod.fst ∧ (ω0 s).dst e ∈ m.map Prod.fst))
  | [], W, ω, es, _, c => ⟨by simp [copyEdges], fun W' h => by cases h; exact ⟨ω, by simpa using c⟩⟩
  | e :: xs, W, ω, es, hx, c => by
    have he := hx e (by simp)
    have hat := c.src.eattr e (hD e he)
    have f1 : W.heap.eFrom e = (ω0 s).src e := hat.1
    have f2 : W.heap.eTo e = (ω0 s).dst e := hat.2.1
    have hx' : ∀ e ∈ xs, D e := fun e he => hx e (by simp [he])
    simp only [copyEdges, f1, f2]
    by_cases h1 : (ω0 s).src e ∈ m.map Prod.fst
    · by_cases h2 : (ω0 s).dst e ∈ m.map Prod.fst
      · have g1 : (AMap.get m ((ω0 s).src e)).isNone = false := by
          cases hg : AMap.get m ((ω0 s).src e) with
          | none => exact absurd h1 (AMap.get_none_keys.1 hg)
          | some _ => rfl
        have g2 : (AMap.get m ((ω0 s).dst e)).isNone = false := by
          cases hg : AMap.get m ((ω0 s).dst e) with
          | none => exact absurd h2 (AMap.get_none_keys.1 hg)
          | some _ => rfl
        obtain ⟨k1, k2⟩ := c.edge (hP e he) (hD e he) h1 h2
        rw [g1, g2]
        simp only [Bool.false_eq_true, if_false]
        rw [List.filter_cons_of_pos (by simp only [decide_eq_true_eq]; exact ⟨h1, h2⟩)]
        cases hc : W.copyEdge e t f m with
        | none => exact ⟨fun hU => absurd hc (k1 hU), by simp⟩
        | some q =>
          obtain ⟨ω', c'⟩ := k2 q hc
          have := copyEdges_spec hD hP xs hx' c'
          simp only [List.append_assoc, List.cons_append, List.nil_append] at this
          exact this
      · have g2 : (AMap.get m ((ω0 s).dst e)).isNone = true := by rw [AMap.get_none_keys.2 h2]; rfl
        rw [g2, List.filter_cons_of_neg (by simp only [decide_eq_true_eq]; exact fun h => h2 h.2)]
        simp only [if_true, ite_self]
        exact copyEdges_spec hD hP xs hx' c
    · have g1 : (AMap.get m ((ω0 s).src e)).isNone = true := by rw [AMap.get_none_keys.2 h1]; rfl
      rw [g1, List.filter_cons_of_neg (by simp only [decide_eq_true_eq]; exact fun h => h1 h.1)]
      simp only [if_true]
      exact copyEdges_spec hD hP xs hx' c

/-- What a graph enumerates belongs to it. -/
theorem listed_nodes {W : World} (i : Inv W) {g : Nat} {ns : List Nat} (h : (W.view g).getNodes = some ns) : ∀ n ∈ ns, W.N g n :=
  walk_in (fun x hx => ((i.closed g).link x hx).1) (i.closed g).head h

theorem listed_edges {W : World} (i : Inv W) {g : Nat} {es : List Nat} (h : (W.view g).getEdges = some es) : ∀ e ∈ es, W.E g e :=
  EdgeMap.enum_in (i.closed g).sl0 (i.closed g).all h

/-- `CopyGraph` between two graphs: what the source lists is copied. -/
theorem copyGraph_listed (hst : s ≠ t)
    {ns es : List Nat} (hn : (W0.view s).getNodes = some ns) (he : (W0.view s).getEdges = some es)
    (hPn : ∀ n ∈ ns, ∀ k v, (ω0 s).nprop n k = some v → Pn k (f k v))
    (hPe : ∀ e ∈ es, ∀ k v, (ω0 s).eprop e k = some v → Pe k (f k v))
    (c : Copying U L Pn Pe f s t W0 ω0 W0 ω0 [] []) :
    (U → copyGraph W0 s t f ≠ none) ∧ ∀ r, copyGraph W0 s t f = some r →
      ∃ ω', Copying U L Pn Pe f s t W0 ω0 r.1 ω' r.2 (es.filter (fun e => (ω0 s).src e ∈ ns ∧ (ω0 s).dst e ∈ ns)) ∧
        r.2.map Prod.fst = ns := by
  have hw : walk W0.heap.nptr.next W0.heap.idBase (W0.root s).allNodes.head = some ns := hn
  unfold copyGraph
  obtain ⟨k1, k2⟩ := copyNodes_spec hst (listed_nodes c.rep.inv hn) hPn _ _ ns [] hw (by simpa using walk_nodup hw) (fun _ h => h) rfl c
  cases hc : copyNodes t f W0 (W0.root s).allNodes.head [] with
  | none => exact ⟨fun hU => absurd hc (k1 hU), fun r h => by simp at h⟩
  | some q =>
    obtain ⟨ω1, c1, hk⟩ := k2 q hc
    simp only [List.nil_append] at hk
    have h1 : (q.1.view s).getEdges = some es := (c1.same c.rep.inv hst).getEdges.trans he
    obtain ⟨j1, j2⟩ := copyEdges_spec (listed_edges c.rep.inv he) hPe es (fun _ h => h) c1
    simp only [Option.bind_eq_bind, Option.bind_some, h1]
    cases he : copyEdges t f q.2 q.1 es with
    | none => exact ⟨fun hU => absurd he (j1 hU), fun r h => by simp at h⟩
    | some W' =>
      refine ⟨by simp, fun r h => ?_⟩
      simp at h
      subst h
      obtain ⟨ω', c'⟩ := j2 W' he
      rw [hk] at c'
      exact ⟨ω', by simpa using c', hk⟩

/-- If the edges of the source cannot be enumerated, `CopyGraph` does not return. -/
theorem copyGraph_stuck (hst : s ≠ t) {ns : List Nat} (hn : (W0.view s).getNodes = some ns) (he : (W0.view s).getEdges = none)
    (hPn : ∀ n ∈ ns, ∀ k v, (ω0 s).nprop n k = some v → Pn k (f k v)) (c : Copying U L Pn Pe f s t W0 ω0 W0 ω0 [] []) :
    copyGraph W0 s t f = none := by
  have hw : walk W0.heap.nptr.next W0.heap.idBase (W0.root s).allNodes.head = some ns := hn
  unfold copyGraph
  obtain ⟨_, k2⟩ := copyNodes_spec hst (listed_nodes c.rep.inv hn) hPn _ _ ns [] hw (by simpa using walk_nodup hw) (fun _ h => h) rfl c
  cases hc : copyNodes t f W0 (W0.root s).allNodes.head [] with
  | none => rfl
  | some q =>
    obtain ⟨ω1, c1, _⟩ := k2 q hc
    have h1 : (q.1.view s).getEdges = none := (c1.same c.rep.inv hst).getEdges.trans he
    simp [h1]

/-- `CopyGraph` between two graphs whose lists are right. -/
theorem copyGraph_spec (hst : s ≠ t) {d : ListFlags} {Rs : Nat → String} (ls : Lists W0 ω0 d Rs s)
    (hPn : ∀ n ∈ (ω0 s).nodes, ∀ k v, (ω0 s).nprop n k = some v → Pn k (f k v))
    (hPe : ∀ e ∈ (ω0 s).edges, ∀ k v, (ω0 s).eprop e k = some v → Pe k (f k v))
    (c : Copying U L Pn Pe f s t W0 ω0 W0 ω0 [] []) :
    (U → copyGraph W0 s t f ≠ none) ∧ ∀ r, copyGraph W0 s t f = some r →
      ∃ ω' es, Copying U L Pn Pe f s t W0 ω0 r.1 ω' r.2 es ∧ r.2.map Prod.fst = (ω0 s).nodes ∧ es.Perm (ω0 s).edges := by
  have hc := c.rep.core s
  obtain ⟨es, h1, h2⟩ := ls.edges.getEdges hc
  have hsub : ∀ e ∈ es, e ∈ (ω0 s).edges := fun e he => h2.mem_iff.1 he
  obtain ⟨k1, k2⟩ := copyGraph_listed hst (ls.nodes.getNodes hc) h1 hPn (fun e he => hPe e (hsub e he)) c
  refine ⟨k1, fun r h => ?_⟩
  obtain ⟨ω', c', hk⟩ := k2 r h
  rw [List.filter_eq_self.2 (fun e he => by simpa using hc.ends e (hsub e he))] at c'
  exact ⟨ω', es, c', hk, h2⟩

/-! ## CopySubgraph -/

theorem copySubgraph_eq (st : World × AMap Nat Nat) (n : Nat) : copySubgraph t f st n =
    if (st.2.get n).isSome then some st
    else (st.1.copyNode n t f).bind (fun r => (r.1.heap.nodeEdges n .outgoing).bind (fun es =>
      es.foldlM (fun st e => (copySubgraph t f st (st.1.heap.eTo e)).bind
        (fun st => (st.1.copyEdge e t f st.2).bind (fun r => some (r.1, st.2)))) (r.1, st.2.set n r.2))) := by
  conv => lhs; rw [copySubgraph]
  rfl

/-- What `CopySubgraph` adds when it is called with node `n`. -/
structure SubResult (σs : Spec) (stop : List Nat) (n : Nat) (m m2 : List (Nat × Nat)) (es2 : List Nat) : Prop where
  here : n ∈ (m ++ m2).map Prod.fst
  reach : ∀ p ∈ m2, σs.ReachOff stop n p.1
  nodup : es2.Nodup
  edges : ∀ e, e ∈ es2 ↔ e ∈ σs.edges ∧ σs.src e ∈ m2.map Prod.fst
  targets : ∀ e ∈ es2, σs.dst e ∈ (m ++ m2).map Prod.fst

/-- The state of the loop of `CopySubgraph` at node `n`: the edges `done` of `n` have been followed. -/
structure SubLoop (σs : Spec) (stop : List Nat) (n : Nat) (m m1 : List (Nat × Nat)) (es1 done : List Nat) : Prop where
  here : n ∈ m1.map Prod.fst
  reach : ∀ p ∈ m1, σs.ReachOff stop n p.1
  nodup : es1.Nodup
  edges : ∀ e, e ∈ es1 ↔ e ∈ σs.edges ∧ σs.src e ∈ m1.map Prod.fst ∧ (σs.src e = n → e ∈ done)
  targets : ∀ e ∈ es1, σs.dst e ∈ (m ++ m1).map Prod.fst

theorem _root_.LPG.Spec.ReachOff.start {σ : Spec} {stop : List Nat} {a b : Nat} (h : σ.ReachOff stop a b) : a ∉ stop := by
  induction h with
  | refl h => exact h
  | tail _ _ _ _ ih => exact ih

theorem _root_.LPG.Spec.ReachOff.trans {σ : Spec} {stop : List Nat} {a b c : Nat} (h1 : σ.ReachOff stop a b)
    (h2 : σ.ReachOff stop b c) : σ.ReachOff stop a c := by
  induction h2 with
  | refl => exact h1
  | tail _ he hs hd ih => exact .tail ih he hs hd

/-- Nothing is in the way. -/
theorem _root_.LPG.Spec.reachOff_nil {σ : Spec} {a b : Nat} : σ.ReachOff [] a b ↔ σ.Reach a b := by
  constructor
  · intro h
    induction h with
    | refl => exact .refl
    | tail _ he hs _ ih => exact .tail ih he hs
  · intro h
    induction h with
    | refl => exact .refl (by simp)
    | tail _ he hs ih => exact .tail ih he hs (by simp)

theorem SubLoop.next {σs : Spec} {stop : List Nat} {n e : Nat} {m m1 m2 : List (Nat × Nat)} {es1 es2 done : List Nat}
    (l : SubLoop σs stop n m m1 es1 done) (r : SubResult σs stop (σs.dst e) (m ++ m1) m2 es2) (he : e ∈ σs.edges)
    (hs : σs.src e = n) (hd : e ∉ done) (hk : ((m ++ m1 ++ m2).map Prod.fst).Nodup) :
    SubLoop σs stop n m (m1 ++ m2) (es1 ++ es2 ++ [e]) (done ++ [e]) := by
  have dis : ∀ x ∈ m1.map Prod.fst, x ∉ m2.map Prod.fst := by
    intro x h1 h2
    rw [List.map_append, List.nodup_append] at hk
    exact hk.2.2 x (by rw [List.map_append]; exact List.mem_append_right _ h1) x h2 rfl
  have hn2 : n ∉ m2.map Prod.fst := dis n l.here
  refine ⟨by rw [List.map_append]; exact List.mem_append_left _ l.here, ?_, ?_, ?_, ?_⟩
  · intro p hp
    rcases List.mem_append.1 hp with hp | hp
    · exact l.reach p hp
    · obtain ⟨q, hq, hqn⟩ := List.mem_map.1 l.here
      exact (Spec.ReachOff.tail (.refl (l.reach q hq).start) he hs (r.reach p hp).start).trans (r.reach p hp)
  · rw [List.nodup_append, List.nodup_append]
    refine ⟨⟨l.nodup, r.nodup, ?_⟩, by simp, ?_⟩
    · rintro a ha b hb rfl
      exact dis _ ((l.edges a).1 ha).2.1 ((r.edges a).1 hb).2
    · intro a ha b hb
      simp at hb; subst hb
      rintro rfl
      rcases List.mem_append.1 ha with ha | ha
      · exact hd (((l.edges a).1 ha).2.2 hs)
      · have := ((r.edges a).1 ha).2
        rw [hs] at this; exact hn2 this
  · intro x
    simp only [List.mem_append, List.mem_singleton, List.map_append, l.edges, r.edges]
    constructor
    · rintro ((⟨h1, h2, h3⟩ | ⟨h1, h2⟩) | rfl)
      · exact ⟨h1, Or.inl h2, fun h => Or.inl (h3 h)⟩
      · exact ⟨h1, Or.inr h2, fun h => absurd (h ▸ h2) hn2⟩
      · exact ⟨he, Or.inl (hs ▸ l.here), fun _ => Or.inr rfl⟩
    · rintro ⟨h1, h2 | h2, h3⟩
      · by_cases hxn : σs.src x = n
        · rcases h3 hxn with h | h
          · exact Or.inl (Or.inl ⟨h1, h2, fun _ => h⟩)
          · exact Or.inr h
        · exact Or.inl (Or.inl ⟨h1, h2, fun h => absurd h hxn⟩)
      · exact Or.inl (Or.inr ⟨h1, h2⟩)
  · intro x hx
    rcases List.mem_append.1 hx with hx | hx
    · rcases List.mem_append.1 hx with hx | hx
      · have := l.targets x hx
        rw [← List.append_assoc, List.map_append]
        exact List.mem_append_left _ this
      · rw [← List.append_assoc]; exact r.targets x hx
    · simp at hx; subst hx
      rw [← List.append_assoc]; exact r.here

/-- nodes of the source that are not copied yet -/
def unseen (σs : Spec) (m : List (Nat × Nat)) : Nat := (σs.nodes.filter (fun n => n ∉ m.map Prod.fst)).length

theorem unseen_lt {σs : Spec} {m m' : List (Nat × Nat)} {n : Nat} (hn : n ∈ σs.nodes) (h1 : n ∉ m.map Prod.fst)
    (h2 : n ∈ m'.map Prod.fst) (h3 : ∀ x ∈ m.map Prod.fst, x ∈ m'.map Prod.fst) : unseen σs m' < unseen σs m := by
  have key : ∀ (l : List Nat), (l.filter (fun n => n ∉ m'.map Prod.fst)).length ≤ (l.filter (fun n => n ∉ m.map Prod.fst)).length ∧
      (n ∈ l → (l.filter (fun n => n ∉ m'.map Prod.fst)).length < (l.filter (fun n => n ∉ m.map Prod.fst)).length) := by
    intro l
    induction l with
    | nil => simp
    | cons a l ih =>
      simp only [List.filter_cons, decide_eq_true_eq]
      by_cases ha' : a ∈ m'.map Prod.fst
      · by_cases ha : a ∈ m.map Prod.fst
        · simp only [ha, ha', not_true, if_false]
          refine ⟨ih.1, fun h => ?_⟩
          rcases List.mem_cons.1 h with rfl | h
          · exact absurd ha h1
          · exact ih.2 h
        · simp only [ha, ha', not_true, not_false_iff, if_false, if_true, List.length_cons]
          have := ih.1
          exact ⟨by omega, fun _ => by omega⟩
      · have ha : a ∉ m.map Prod.fst := fun h => ha' (h3 a h)
        simp only [ha, ha', not_false_iff, if_true, List.length_cons]
        refine ⟨by have := ih.1; omega, fun h => ?_⟩
        rcases List.mem_cons.1 h with rfl | h
        · exact absurd h2 ha'
        · have := ih.2 h; omega
  exact (key σs.nodes).2 hn

theorem copySubgraph_into {m0 : List (Nat × Nat)} (r0 : Rep W0 ω0)
    (hPn : ∀ n ∈ (ω0 s).nodes, ∀ k v, (ω0 s).nprop n k = some v → Pn k (f k v))
    (hPe : ∀ e ∈ (ω0 s).edges, ∀ k v, (ω0 s).eprop e k = some v → Pe k (f k v))
    (hends : ∀ e ∈ (ω0 s).edges, (ω0 s).dst e ∈ (ω0 s).nodes) :
    ∀ (k : Nat) {W : World} {ω : WSpec} {m : AMap Nat Nat} {es : List Nat} {n : Nat}, unseen (ω0 s) (m0 ++ m) < k →
    n ∈ (ω0 s).nodes → CopyingInto m0 U L Pn Pe f s t W0 ω0 W ω m es →
    (U → copySubgraph t f (W, m0 ++ m) n ≠ none) ∧ ∀ r, copySubgraph t f (W, m0 ++ m) n = some r →
      ∃ ω' m2 es2, r.2 = m0 ++ m ++ m2 ∧ CopyingInto m0 U L Pn Pe f s t W0 ω0 r.1 ω' (m ++ m2) (es ++ es2) ∧
        SubResult (ω0 s) (m0.map Prod.fst) n (m0 ++ m) m2 es2 := by
  intro k
  induction k with
  | zero => intro W ω m es n h; omega
  | succ k ih =>
    intro W ω m es n hk hn c
    rw [copySubgraph_eq]
    by_cases hg : (AMap.get (m0 ++ m) n).isSome = true
    · simp only [hg, if_true]
      refine ⟨by simp, fun r h => ?_⟩
      cases h
      refine ⟨ω, [], [], by simp, by simpa using c, ?_, by simp, by simp, by simp, by simp⟩
      refine Decidable.byContradiction fun h => ?_
      simp only [List.append_nil] at h
      rw [AMap.get_none_keys.2 h] at hg
      cases hg
    · simp only [hg]
      have hnot : n ∉ (m0 ++ m).map Prod.fst := by
        apply AMap.get_none_keys.1
        cases h : AMap.get (m0 ++ m) n with
        | none => rfl
        | some _ => rw [h] at hg; simp at hg
      obtain ⟨k1, k2⟩ := c.node (hPn n hn) (r0.ownN s n hn) hnot
      simp only [copyNode, Bool.false_eq_true, if_false]
      cases hc : W.cloneNode t n f with
      | none => exact ⟨fun hU => absurd hc (k1 hU), by simp⟩
      | some q =>
        obtain ⟨ω1, c1⟩ := k2 q hc
        obtain ⟨xs, hx, hxn, hxm⟩ := c1.srcOut hn
        simp only [Option.bind_some, hx, AMap.set_fresh hnot]
        -- the loop
        have loop : ∀ (todo done : List Nat) {W : World} {ω : WSpec} {m1 : List (Nat × Nat)} {es1 : List Nat}, xs = done ++ todo →
            CopyingInto m0 U L Pn Pe f s t W0 ω0 W ω (m ++ m1) (es ++ es1) →
            SubLoop (ω0 s) (m0.map Prod.fst) n (m0 ++ m) m1 es1 done →
            (U → todo.foldlM (fun st e => (copySubgraph t f st (st.1.heap.eTo e)).bind
              (fun st => (st.1.copyEdge e t f st.2).bind (fun r => some (r.1, st.2)))) (W, m0 ++ m ++ m1) ≠ none) ∧
            ∀ r, todo.foldlM (fun st e => (copySubgraph t f st (st.1.heap.eTo e)).bind
              (fun st => (st.1.copyEdge e t f st.2).bind (fun r => some (r.1, st.2)))) (W, m0 ++ m ++ m1) = some r →
              ∃ ω' m2 es2, r.2 = m0 ++ m ++ m2 ∧ CopyingInto m0 U L Pn Pe f s t W0 ω0 r.1 ω' (m ++ m2) (es ++ es2) ∧
                SubLoop (ω0 s) (m0.map Prod.fst) n (m0 ++ m) m2 es2 xs := by
          intro todo
          induction todo with
          | nil =>
            intro done W ω m1 es1 hd c l
            simp only [List.foldlM_nil]
            refine ⟨by simp, fun r h => ?_⟩
            simp at h; subst h
            refine ⟨ω, m1, es1, by simp, c, ?_⟩
            simp at hd; rw [hd]; exact l
          | cons e todo ih2 =>
            intro done W ω m1 es1 hd c l
            have hex : e ∈ xs := by rw [hd]; simp
            obtain ⟨he, hes⟩ := (hxm e).1 hex
            have hed : e ∉ done := by
              rw [hd, List.nodup_append] at hxn
              intro h; exact hxn.2.2 e h e (by simp) rfl
            obtain ⟨q1, q2, q3, _⟩ := c.srcEdge he
            have hto : W.heap.eTo e = (ω0 s).dst e := ((c.rep.core s).eattr e q1).2.1.trans q3
            have hlt : unseen (ω0 s) (m0 ++ (m ++ m1)) < k := by
              have := unseen_lt (m := m0 ++ m) (m' := m0 ++ (m ++ m1)) hn hnot
                (by rw [← List.append_assoc, List.map_append]; exact List.mem_append_right _ l.here)
                (fun x hx => by rw [← List.append_assoc, List.map_append]; exact List.mem_append_left _ hx)
              omega
            simp only [List.foldlM_cons, hto, Option.bind_eq_bind]
            obtain ⟨j1, j2⟩ := ih hlt (hends e he) c
            rw [← List.append_assoc] at j1 j2
            cases hr : copySubgraph t f (W, m0 ++ m ++ m1) ((ω0 s).dst e) with
            | none => exact ⟨fun hU => absurd hr (j1 hU), by simp⟩
            | some st =>
              obtain ⟨ω2, m2, es2, p1, p2, p3⟩ := j2 st hr
              obtain ⟨W2, mm⟩ := st
              simp only at p1 p2
              subst p1
              simp only [Option.bind_some]
              have hsrc : (ω0 s).src e ∈ (m ++ m1 ++ m2).map Prod.fst := by
                rw [hes, List.map_append, List.map_append]
                exact List.mem_append_left _ (List.mem_append_right _ l.here)
              have e1 : m0 ++ (m ++ m1 ++ m2) = m0 ++ m ++ m1 ++ m2 := by simp
              obtain ⟨i1, i2⟩ := p2.edge (hPe e he) (r0.ownE s e he) hsrc (by rw [e1]; exact p3.here)
              rw [e1] at i1 i2
              cases hce : W2.copyEdge e t f (m0 ++ m ++ m1 ++ m2) with
              | none => exact ⟨fun hU => absurd hce (i1 hU), by simp⟩
              | some w =>
                obtain ⟨ω3, c3⟩ := i2 w hce
                simp only [Option.bind_some]
                have l3 := l.next p3 he hes hed (by rw [← e1]; exact p2.keys)
                have e2 : es ++ es1 ++ es2 ++ [e] = es ++ (es1 ++ es2 ++ [e]) := by simp
                rw [List.append_assoc] at c3
                rw [List.append_assoc (m0 ++ m)]
                rw [e2] at c3
                exact ih2 (done ++ [e]) (by rw [hd]; simp) c3 l3
        have l0 : SubLoop (ω0 s) (m0.map Prod.fst) n (m0 ++ m) [(n, q.2)] [] [] := by
          refine ⟨by simp, ?_, by simp, ?_, by simp⟩
          · intro p hp; simp at hp; subst hp
            exact .refl fun h => hnot (by rw [List.map_append]; exact List.mem_append_left _ h)
          · intro e; simp
        obtain ⟨u1, u2⟩ := loop xs [] (m1 := [(n, q.2)]) (es1 := []) rfl (by simpa using c1) l0
        refine ⟨u1, fun r h => ?_⟩
        obtain ⟨ω', m2, es2, p1, p2, p3⟩ := u2 r h
        refine ⟨ω', m2, es2, p1, p2, ⟨?_, p3.reach, p3.nodup, fun e => ?_, p3.targets⟩⟩
        · rw [List.map_append]; exact List.mem_append_right _ p3.here
        · rw [p3.edges e]
          exact ⟨fun h => ⟨h.1, h.2.1⟩, fun h => ⟨h.1, h.2, fun hs => (hxm e).2 ⟨h.1, hs⟩⟩⟩

theorem copySubgraph_spec (r0 : Rep W0 ω0)
    (hPn : ∀ n ∈ (ω0 s).nodes, ∀ k v, (ω0 s).nprop n k = some v → Pn k (f k v))
    (hPe : ∀ e ∈ (ω0 s).edges, ∀ k v, (ω0 s).eprop e k = some v → Pe k (f k v))
    (hends : ∀ e ∈ (ω0 s).edges, (ω0 s).dst e ∈ (ω0 s).nodes) :
    ∀ (k : Nat) {W : World} {ω : WSpec} {m : AMap Nat Nat} {es : List Nat} {n : Nat}, unseen (ω0 s) m < k →
    n ∈ (ω0 s).nodes → Copying U L Pn Pe f s t W0 ω0 W ω m es →
    (U → copySubgraph t f (W, m) n ≠ none) ∧ ∀ r, copySubgraph t f (W, m) n = some r →
      ∃ ω' m2 es2, r.2 = m ++ m2 ∧ Copying U L Pn Pe f s t W0 ω0 r.1 ω' r.2 (es ++ es2) ∧
        SubResult (ω0 s) [] n m m2 es2 := by
  intro k W ω m es n hk hn c
  obtain ⟨h1, h2⟩ := copySubgraph_into (m0 := []) r0 hPn hPe hends k hk hn c
  refine ⟨h1, fun r h => ?_⟩
  obtain ⟨ω', m2, es2, p1, p2, p3⟩ := h2 r h
  simp only [List.nil_append] at p1 p3
  exact ⟨ω', m2, es2, p1, by rw [p1]; exact p2, p3⟩

end World

/-! ## Graphs without property indexes -/

def NoIx (s : State) : Prop := s.nodeIx = [] ∧ s.edgeIx = []

theorem Indexes.remove_nil {k : String} {v : Value} {id : Nat} : Indexes.remove [] k v id = some [] := rfl
theorem Indexes.add_nil {k : String} {v : Value} {id : Nat} : Indexes.add [] k v id = some [] := rfl

theorem Indexes.addAll_nil {id : Nat} : ∀ {ps : Props}, Indexes.addAll id ps [] = some []
  | [] => rfl
  | (k, v) :: ps => by rw [Indexes.addAll, Indexes.add_nil]; exact Indexes.addAll_nil

theorem Indexes.removeAll_nil {id : Nat} : ∀ {ps : Props}, Indexes.removeAll id ps [] = some []
  | [] => rfl
  | (k, v) :: ps => by rw [Indexes.removeAll, Indexes.remove_nil]; exact Indexes.removeAll_nil

theorem NoIx.detachEdges : ∀ {es : List Nat} {s s' : State}, NoIx s → s.detachEdges es = some s' → NoIx s'
  | [], s, s', h, he => by cases he; exact h
  | e :: es, s, s', h, he => by
    rw [State.detachEdges] at he
    split at he
    · cases he
    · rename_i s1 h1
      refine NoIx.detachEdges ?_ he
      unfold State.detachEdge at h1
      simp only at h1
      have h2 : ((s.disconnect e).dropEdge e).edgeIx = [] := h.2
      rw [h2, Indexes.removeAll_nil] at h1
      cases h1
      exact ⟨h.1, rfl⟩

theorem NoIx.detachNode {s s' : State} {n : Nat} (h : NoIx s) (hs : s.detachNode n = some s') : NoIx s' := by
  unfold State.detachNode at hs
  split at hs
  · cases hs
  · split at hs
    · cases hs
    · rename_i s1 h1
      have k1 := h.detachEdges h1
      simp only at hs
      split at hs
      · cases hs
      · split at hs
        · cases hs
        · rename_i s2 h2
          cases hs
          have k2 := NoIx.detachEdges (s := { s1 with incoming := upd s1.incoming n EdgeMap.empty }) k1 h2
          exact ⟨k2.1, k2.2⟩

theorem NoIx.step {s s' : State} {op : Op} (h : NoIx s) (hs : LPG.step s op = some s')
    (hn : ∀ k ty, op ≠ .addNodeIndex k ty) (he : ∀ k ty, op ≠ .addEdgeIndex k ty) : NoIx s' := by
  obtain ⟨h1, h2⟩ := h
  cases op with
  | newNode ls ps =>
    obtain ⟨ixs, hix, rfl⟩ := newNode_frame hs
    rw [h1, Indexes.addAll_nil] at hix; cases hix
    exact ⟨rfl, h2⟩
  | newEdge a b l ps =>
    obtain ⟨_, _, _, _, _, _, g7, _, _, _, _, hix⟩ := newEdge_frame hs
    rw [h2, Indexes.addAll_nil] at hix
    exact ⟨by rw [g7]; exact h1, (Option.some.inj hix).symm⟩
  | setLabels n ls => cases hs; exact ⟨h1, h2⟩
  | setNodeProp n k v =>
    simp only [LPG.step, State.setNodeProp, h1] at hs
    cases hg : AMap.get (s.nProps n) k <;> simp only [hg, Indexes.remove_nil, Indexes.add_nil] at hs <;> cases hs <;> exact ⟨rfl, h2⟩
  | removeNodeProp n k =>
    simp only [LPG.step, State.removeNodeProp, h1] at hs
    split at hs
    · cases hs; exact ⟨h1, h2⟩
    · rw [Indexes.remove_nil] at hs; cases hs; exact ⟨rfl, h2⟩
  | detach n => exact NoIx.detachNode ⟨h1, h2⟩ hs
  | detachRemove n =>
    simp only [LPG.step, State.detachRemoveNode] at hs
    split at hs
    · cases hs
    · rename_i s1 hd
      obtain ⟨k1, k2⟩ := NoIx.detachNode ⟨h1, h2⟩ hd
      rw [k1, Indexes.removeAll_nil] at hs
      cases hs; exact ⟨rfl, k2⟩
  | setEdgeLabel e l =>
    simp only [LPG.step, State.setEdgeLabel] at hs
    split at hs
    · cases hs; exact ⟨h1, h2⟩
    · obtain ⟨_, _, _, _, rfl⟩ := connect_frame hs
      exact ⟨h1, h2⟩
  | setEdgeProp n k v =>
    simp only [LPG.step, State.setEdgeProp, h2] at hs
    cases hg : AMap.get (s.eProps n) k <;> simp only [hg, Indexes.remove_nil, Indexes.add_nil] at hs <;> cases hs <;> exact ⟨h1, rfl⟩
  | removeEdgeProp n k =>
    simp only [LPG.step, State.removeEdgeProp, h2] at hs
    split at hs
    · cases hs; exact ⟨h1, h2⟩
    · rw [Indexes.remove_nil] at hs; cases hs; exact ⟨h1, rfl⟩
  | removeEdge e => cases hs; exact ⟨h1, h2⟩
  | addNodeIndex k ty => exact absurd rfl (hn k ty)
  | addEdgeIndex k ty => exact absurd rfl (he k ty)

namespace World

/-- No property index was added to graph `t`. -/
def NoIndex (t : Nat) (ops : List (Nat × Op)) : Prop :=
  ∀ op, (t, op) ∈ ops → (∀ k ty, op ≠ .addNodeIndex k ty) ∧ ∀ k ty, op ≠ .addEdgeIndex k ty

theorem noIx {t : Nat} : ∀ {ops : List (Nat × Op)} {W W' : World} {ω : WSpec}, Rep W ω → NoIx (W.view t) → ω.ValidFrom ops →
    NoIndex t ops → World.runFrom W ops = some W' → NoIx (W'.view t)
  | [], W, W', ω, _, h, _, _, hr => by cases hr; exact h
  | (g, op) :: ops, W, W', ω, r, h, hv, hi, hr => by
    rw [World.runFrom] at hr
    split at hr
    · cases hr
    · rename_i W1 b h1
      obtain ⟨_, r1, hs, ag⟩ := r.step hv.1 h1
      refine noIx (ops := ops) (ω := ω.step g op) r1 ?_ hv.2 (fun op h => hi op (by simp [h])) hr
      by_cases hg : g = t
      · subst hg
        exact h.step hs (hi op (by simp)).1 (hi op (by simp)).2
      · have a := ag t (Ne.symm hg)
        exact ⟨by rw [a.nodeIx]; exact h.1, by rw [a.edgeIx]; exact h.2⟩

theorem AllSafe.nil (P : String → Value → Prop) : AllSafe P [] := by
  intro k ix h; simp [AMap.get] at h

theorem cleanFrom_prefix {k : Nat} {more : List (Nat × Op)} : ∀ {ops : List (Nat × Op)} {ω : WSpec} {d : ListFlags} {R : Nat → String},
    ω.CleanFrom k d R (ops ++ more) → ω.CleanFrom k d R ops
  | [], _, _, _, _ => trivial
  | (g, op) :: ops, ω, d, R, h => ⟨h.1, cleanFrom_prefix h.2⟩

end World
end LPG

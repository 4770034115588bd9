import Verif.Proofs.CloneLoops
import Verif.Model.RecoverCopy
import Verif.Props.C74
/-! Copying under `recover`: apart from the indexes of the target, a copy that panicked is a copy that has come so far. -/
namespace LPG
open State
namespace World

/-- The world without the property indexes of graph `t`. -/
def bareAt (W : World) (t : Nat) : World :=
  { W with heap := W.heap.bare, root := upd W.root t { W.root t with nodeIx := [], edgeIx := [] } }

theorem view_bareAt (W : World) (t : Nat) : (W.bareAt t).view t = (W.view t).bare := by
  simp [view, bareAt, State.bare]

theorem view_bareAt_other (W : World) {t g : Nat} (h : g ≠ t) : (W.bareAt t).view g = W.view g := by
  simp [view, bareAt, State.bare, upd_other _ _ h]

theorem store_bareAt (W : World) (t : Nat) (s : State) : (W.bareAt t).store t s.bare = (W.store t s).bareAt t := by
  have h : ∀ a b c : Root, upd (upd W.root t a) t c = upd (upd W.root t b) t c := by
    intro a b c
    funext x
    by_cases h : x = t
    · subst h; simp
    · simp [upd_other _ _ h]
  simp only [store, bareAt, upd_same, State.bare]
  exact congrArg (fun r => ({ heap := _, root := r, nodeGraph := _, isEdge := _ } : World)) (h _ _ _)

/-- Every node is copied, whether the index panics or not. -/
theorem tryCloneNode_bare (o : MapOrder) (W : World) (t n : Nat) (f : String → Value → Value) :
    (W.bareAt t).cloneNode t n f = some ((W.tryCloneNode o t n f).1.bareAt t, (W.tryCloneNode o t n f).2.1) := by
  unfold cloneNode
  have h1 : (W.bareAt t).heap.nLabels = W.heap.nLabels := rfl
  have h2 : (W.bareAt t).heap.nProps = W.heap.nProps := rfl
  rw [view_bareAt, h1, h2, bare_newNode]
  simp only [tryCloneNode]
  rw [← store_bareAt]
  rfl

theorem tryCloneEdge_bare {o : MapOrder} {W : World} {t a b e : Nat} {f : String → Value → Value} (ha : W.nodeGraph a = some t)
    (hb : W.nodeGraph b = some t) :
    (∃ r, W.tryCloneEdge o t (some a) (some b) e f = some r ∧
      (W.bareAt t).cloneEdge t (some a) (some b) e f = some (r.1.bareAt t, r.2.1)) ∨
    (W.view t).bare.newEdge a b (W.heap.eLabel e) (cloneProps f (W.heap.eProps e)) = none ∧
      W.tryCloneEdge o t (some a) (some b) e f =
        if (W.view t).NilEdge then some (W.store t (W.view t).leftNewEdge, 0, true) else none := by
  unfold tryCloneEdge cloneEdge
  have h0 : (W.bareAt t).nodeGraph = W.nodeGraph := rfl
  have h1 : (W.bareAt t).heap.eLabel = W.heap.eLabel := rfl
  have h2 : (W.bareAt t).heap.eProps = W.heap.eProps := rfl
  simp only [h0, ha, hb, ne_eq, not_true, if_false, view_bareAt, h1, h2]
  cases h : (W.view t).tryNewEdge a b (W.heap.eLabel e) (cloneProps f (W.heap.eProps e)) with
  | none => exact .inr ⟨bare_newEdge_none h, rfl⟩
  | some r =>
    left
    rw [bare_newEdge h]
    refine ⟨_, rfl, ?_⟩
    simp only
    rw [← store_bareAt]
    rfl

/-! ## The start -/

theorem Core_bare {s : State} {σ : Spec} (h : Core s σ) : Core s.bare σ :=
  ⟨h.next, h.nNodup, h.eNodup, h.nLt, h.eLt, h.disj, h.labels, h.nprops, h.eattr, h.eprops, h.ends, h.out, h.inc, h.count⟩

theorem Rep.bareAt {W : World} {ω : WSpec} (r : Rep W ω) (t : Nat) : Rep (W.bareAt t) ω := by
  refine ⟨⟨fun g => ?_, r.inv.nodeLt, r.inv.edgeLt, r.inv.known⟩, fun g => ?_, r.ownN, r.ownE⟩
  · have c := r.inv.closed g
    by_cases h : g = t
    · subst h
      rw [view_bareAt]
      exact ⟨c.head, c.tail, c.link, c.ends, c.maps, c.all, c.sl0, c.sl1, c.sl2, c.lbl, (fun k ix h => nomatch h), (fun k ix h => nomatch h)⟩
    · rw [view_bareAt_other W h]; exact c
  · by_cases h : g = t
    · subst h; rw [view_bareAt]; exact Core_bare (r.core g)
    · rw [view_bareAt_other W h]; exact r.core g

theorem Ordered.bareAt {W : World} {ω : WSpec} (r : Ordered W ω) (t : Nat) : Ordered (W.bareAt t) ω := by
  refine ⟨fun g => ?_, fun g => ?_, fun g => ?_⟩
  · by_cases h : g = t
    · subst h; rw [view_bareAt]; exact r.nodes g
    · rw [view_bareAt_other W h]; exact r.nodes g
  · by_cases h : g = t
    · subst h; rw [view_bareAt]; exact r.edges g
    · rw [view_bareAt_other W h]; exact r.edges g
  · have k := r.kept g
    by_cases h : g = t
    · subst h; rw [view_bareAt]; exact ⟨k.labels, k.nprops, k.eattr, k.eprops⟩
    · rw [view_bareAt_other W h]; exact ⟨k.labels, k.nprops, k.eattr, k.eprops⟩

/-- no condition on values -/
abbrev anyValue : String → Value → Prop := fun _ _ => True

/-- The start of a copy, without the indexes of the target. -/
theorem bareStart {ops : List (Nat × Op)} {W : World} (hv : WSpec.ValidHistory ops) (hr : World.run ops = some W) (s t : Nat)
    (f : String → Value → Value) {m0 : List (Nat × Nat)} (hk : (m0.map Prod.fst).Nodup)
    (hm : ∀ p ∈ m0, p.2 ∈ (WSpec.run ops t).nodes) :
    CopyingInto m0 ((W.view t).getEdges ≠ none) (WSpec.Clean t (ops ++ [(t, .newNode [] [])])) anyValue anyValue f s t
      (W.bareAt t) (WSpec.run ops) (W.bareAt t) (WSpec.run ops) [] [] := by
  have r := Rep.init.runFrom hv hr
  have o := Ordered.init.runFrom Rep.init hv hr
  refine CopyingInto.start (r.bareAt t) (o.bareAt t) (fun ht => ?_) (fun _ => ?_) (fun h => ?_) hk hm
  · obtain ⟨d, R, l, hm⟩ := Rep.init.lists (Lists.init t) hv (cleanFrom_prefix ht) hr
    refine ⟨d, R, ⟨?_, ?_⟩, (((hm _).1 ht).1 rfl).1⟩
    · have := l.nodes
      rw [view_bareAt]; exact ⟨this.vis, this.good, this.bad⟩
    · have := l.edges
      rw [view_bareAt]; exact this
  · rw [view_bareAt]
    exact ⟨(fun k ix h => nomatch h), (fun k ix h => nomatch h)⟩
  · rw [view_bareAt]; exact h

/-! ## The end -/

section
variable {m0 : List (Nat × Nat)} {U L : Prop} {f : String → Value → Value} {s t : Nat} {W0 : World} {ω0 : WSpec}

/-- The world that a copy leaves which has come so far: apart from the indexes of the target it is a state of the copy, or an edge
was lost to a nil pointer. -/
inductive Left (m0 : List (Nat × Nat)) (U L : Prop) (f : String → Value → Value) (s t : Nat) (W0 : World) (ω0 : WSpec) :
    World → WSpec → List (Nat × Nat) → List Nat → Prop
  | made {W : World} {ω : WSpec} {m : List (Nat × Nat)} {es : List Nat} :
      CopyingInto m0 U L anyValue anyValue f s t W0 ω0 (W.bareAt t) ω m es → Left m0 U L f s t W0 ω0 W ω m es
  | lost {W : World} {ω : WSpec} {m : List (Nat × Nat)} {es : List Nat} :
      CopyingInto m0 U L anyValue anyValue f s t W0 ω0 (W.bareAt t) ω m es → (W.view t).NilEdge →
      Left m0 U L f s t W0 ω0 (W.store t (W.view t).leftNewEdge) ω m es

/-- An edge whose ends have copies. -/
theorem tryCopyEdge_left (o : MapOrder) {W : World} {ω : WSpec} {m : List (Nat × Nat)} {es : List Nat}
    (c : CopyingInto m0 U L anyValue anyValue f s t W0 ω0 (W.bareAt t) ω m es) {e : Nat} (he : W0.E s e)
    (h1 : (ω0 s).src e ∈ m.map Prod.fst) (h2 : (ω0 s).dst e ∈ (m0 ++ m).map Prod.fst) :
    ∃ r, W.tryCopyEdge o e t f (m0 ++ m) = some r ∧
      ((∃ ω', CopyingInto m0 U L anyValue anyValue f s t W0 ω0 (r.1.bareAt t) ω' m (es ++ [e])) ∨
        r.2.2 = true ∧ ¬ U ∧ Left m0 U L f s t W0 ω0 r.1 ω m es) := by
  have hat := c.src.eattr e he
  have inT : ∀ p ∈ m0 ++ m, p.2 ∈ (ω t).nodes := fun p hp => by
    rw [c.copy.nodes]
    rcases List.mem_append.1 hp with hp | hp
    · exact List.mem_append_left _ (c.given p hp)
    · exact List.mem_append_right _ (List.mem_map_of_mem hp)
  have hce := (c.edge (fun _ _ _ => trivial) he h1 h2).2
  obtain ⟨⟨a0, a⟩, hma, ha⟩ := List.mem_map.1 h1
  obtain ⟨⟨b0, b⟩, hmb, hb⟩ := List.mem_map.1 h2
  simp only at ha hb
  subst ha hb
  have ga : AMap.get (m0 ++ m) (W.heap.eFrom e) = some a := by
    rw [show W.heap.eFrom e = (ω0 s).src e from hat.1]; exact AMap.get_of_mem c.keys (List.mem_append_right _ hma)
  have gb : AMap.get (m0 ++ m) (W.heap.eTo e) = some b := by
    rw [show W.heap.eTo e = (ω0 s).dst e from hat.2.1]; exact AMap.get_of_mem c.keys hmb
  have ia := inT _ (List.mem_append_right _ hma)
  have ib := inT _ hmb
  have qa : W.nodeGraph a = some t := c.rep.ownN t a ia
  have qb : W.nodeGraph b = some t := c.rep.ownN t b ib
  unfold tryCopyEdge
  rw [ga, gb]
  rcases tryCloneEdge_bare (o := o) (e := e) (f := f) qa qb with ⟨r, g1, g2⟩ | ⟨g1, g2⟩
  · refine ⟨r, g1, .inl (hce (r.1.bareAt t, r.2.1) ?_)⟩
    unfold copyEdge
    have e1 : (W.bareAt t).heap.eFrom = W.heap.eFrom := rfl
    have e2 : (W.bareAt t).heap.eTo = W.heap.eTo := rfl
    rw [e1, e2, ga, gb]
    exact g2
  · have hnil : (W.view t).NilEdge := by
      have hm : (W.view t).AllMono := by
        have := c.ordered.edges t
        rw [view_bareAt] at this
        exact this
      refine (nilEdge_iff hm).1 (Classical.byContradiction fun hne => ?_)
      have ct : Core (W.view t).bare (ω t) := by
        have := c.rep.core t
        rw [view_bareAt] at this
        exact this
      obtain ⟨hval, -⟩ := cloneEdge_step c.rep c.src (t := t) (f := f) (a := a) (b := b) he ia ib
      obtain ⟨s', hs'⟩ := ct.newEdge_total (Pe := anyValue) hne (fun k ix h => nomatch h) hval (fun _ _ _ => trivial)
      have hs'' : (W.view t).bare.newEdge a b (W.heap.eLabel e) (cloneProps f (W.heap.eProps e)) = some s' := hs'
      rw [g1] at hs''
      cases hs''
    rw [if_pos hnil] at g2
    refine ⟨_, g2, .inr ⟨rfl, fun hU => ?_, .lost c hnil⟩⟩
    have := c.ends hU
    rw [view_bareAt] at this
    have hm : (W.view t).AllMono := by
      have := c.ordered.edges t
      rw [view_bareAt] at this
      exact this
    exact absurd ((nilEdge_iff hm).2 hnil) this

theorem tryCopyNodes_nil (o : MapOrder) (W : World) (m : AMap Nat Nat) : tryCopyNodes o t f W none m = some (W, m, false) := by
  rw [tryCopyNodes]

theorem tryCopyNodes_cons (o : MapOrder) (W : World) (m : AMap Nat Nat) (n : Nat) : tryCopyNodes o t f W (some n) m =
    if (W.tryCloneNode o t n f).2.2 then some ((W.tryCloneNode o t n f).1, m, true)
    else tryCopyNodes o t f (W.tryCloneNode o t n f).1 (W.heap.nptr.next n) (m.set n (W.tryCloneNode o t n f).2.1) := by
  conv => lhs; rw [tryCopyNodes]

/-- The loop over the nodes. -/
theorem tryCopyNodes_left (o : MapOrder) (hst : s ≠ t) :
    ∀ (fuel : Nat) (x : Option Nat) (post pre : List Nat) {W : World} {ω : WSpec} {m : AMap Nat Nat},
    walk W0.heap.nptr.next fuel x = some post → (pre ++ post).Nodup → (∀ n ∈ post, W0.N s n) →
    m.map Prod.fst = pre → CopyingInto [] U L anyValue anyValue f s t W0 ω0 (W.bareAt t) ω m [] →
    ∃ r, tryCopyNodes o t f W x m = some r ∧ ∃ ω' m', CopyingInto [] U L anyValue anyValue f s t W0 ω0 (r.1.bareAt t) ω' m' [] ∧
      (r.2.2 = false → m' = r.2.1 ∧ m'.map Prod.fst = pre ++ post) ∧
      (r.2.2 = true → m'.map Prod.fst <+: pre ++ post ∧ ∃ p, m' = r.2.1 ++ [p])
  | fuel, none, post, pre, W, ω, m, hw, _, _, hm, c => by
    rw [walk_none] at hw
    cases hw
    exact ⟨_, tryCopyNodes_nil o W m, ω, m, c, fun _ => ⟨rfl, by rw [hm]; simp⟩, (fun h => nomatch h)⟩
  | 0, some n, post, pre, W, ω, m, hw, _, _, hm, c => by cases hw
  | fuel + 1, some n, post, pre, W, ω, m, hw, hnd, hl, hm, c => by
    rw [walk_succ] at hw
    obtain ⟨post, hw1, rfl⟩ := Option.map_eq_some_iff.1 hw
    rw [tryCopyNodes_cons]
    have hmem : W0.N s n := hl n (by simp)
    have hnot : n ∉ m.map Prod.fst := by
      rw [hm]
      rw [List.nodup_append] at hnd
      intro h
      exact hnd.2.2 n h n (by simp) rfl
    obtain ⟨-, k2⟩ := c.node (fun _ _ _ => trivial) hmem hnot
    have hnext : W.heap.nptr.next n = W0.heap.nptr.next n := ((c.frame s hst).1.node n hmem).1
    obtain ⟨ω', c'⟩ := k2 _ (tryCloneNode_bare o W t n f)
    simp only at c'
    rw [hnext]
    split
    · refine ⟨_, rfl, ω', _, c', (fun h => nomatch h), fun _ => ⟨?_, _, rfl⟩⟩
      simp only [List.map_append, List.map_cons, List.map_nil, hm]
      exact ⟨post, by simp⟩
    · rw [← AMap.set_fresh (v := (W.tryCloneNode o t n f).2.1) hnot] at c'
      obtain ⟨r, h1, ω2, m2, h2, h3, h4⟩ := tryCopyNodes_left o hst fuel _ post (pre ++ [n]) hw1 (by simpa using hnd)
        (fun x hx => hl x (by simp [hx])) (by rw [AMap.set_fresh hnot]; simp [hm]) c'
      refine ⟨r, h1, ω2, m2, h2, ?_, ?_⟩
      · simpa using h3
      · simpa using h4

/-- The loop over the edges. -/
theorem tryCopyEdges_left (o : MapOrder) {m : AMap Nat Nat} :
    ∀ (xs : List Nat) {W : World} {ω : WSpec} {es : List Nat}, (∀ e ∈ xs, W0.E s e) →
    CopyingInto [] U L anyValue anyValue f s t W0 ω0 (W.bareAt t) ω m es →
    ∃ r, tryCopyEdges o t f m W xs = some r ∧ ∃ ω' es', Left [] U L f s t W0 ω0 r.1 ω' m (es ++ es') ∧
      (r.2 = false → es' = xs.filter (fun e => (ω0 s).src e ∈ m.map Prod.fst ∧ (ω0 s).dst e ∈ m.map Prod.fst) ∧
        CopyingInto [] U L anyValue anyValue f s t W0 ω0 (r.1.bareAt t) ω' m (es ++ es')) ∧
      es' <+: xs.filter (fun e => (ω0 s).src e ∈ m.map Prod.fst ∧ (ω0 s).dst e ∈ m.map Prod.fst) ∧ (r.2 = true → U → es' ≠ [])
  | [], W, ω, es, _, c => ⟨_, rfl, ω, [], .made (by simpa using c), fun _ => ⟨rfl, by simpa using c⟩, by simp, (fun h => nomatch h)⟩
  | e :: xs, W, ω, es, hx, c => by
    have he := hx e (by simp)
    have hat := c.src.eattr e he
    have f1 : W.heap.eFrom e = (ω0 s).src e := hat.1
    have f2 : W.heap.eTo e = (ω0 s).dst e := hat.2.1
    have hx' : ∀ e ∈ xs, W0.E s e := fun e he => hx e (by simp [he])
    simp only [tryCopyEdges, f1, f2]
    by_cases h1 : (ω0 s).src e ∈ m.map Prod.fst
    · by_cases h2 : (ω0 s).dst e ∈ m.map Prod.fst
      · have g1 : (AMap.get m ((ω0 s).src e)).isNone = false := by
          cases hg : AMap.get m ((ω0 s).src e) with
          | none => exact absurd h1 (AMap.get_none_keys.1 hg)
          | some _ => rfl
        have g2 : (AMap.get m ((ω0 s).dst e)).isNone = false := by
          cases hg : AMap.get m ((ω0 s).dst e) with
          | none => exact absurd h2 (AMap.get_none_keys.1 hg)
          | some _ => rfl
        rw [g1, g2]
        simp only [Bool.false_eq_true, if_false]
        rw [List.filter_cons_of_pos (by simp only [decide_eq_true_eq]; exact ⟨h1, h2⟩)]
        obtain ⟨r, k1, k2⟩ := tryCopyEdge_left o c he h1 h2
        simp only [List.nil_append] at k1
        rw [k1]
        simp only
        by_cases hb : r.2.2 = true
        · rw [if_pos hb]
          rcases k2 with ⟨ω', c'⟩ | ⟨-, hU, c'⟩
          · exact ⟨_, rfl, ω', [e], .made c', (fun h => nomatch h), ⟨_, rfl⟩, by simp⟩
          · exact ⟨_, rfl, ω, [], by simpa using c', (fun h => nomatch h), by simp, fun _ h => absurd h hU⟩
        · rw [if_neg hb]
          rcases k2 with ⟨ω', c'⟩ | ⟨h, -⟩
          · obtain ⟨r2, j1, ω2, es2, j2, j3, j4, -⟩ := tryCopyEdges_left o xs hx' c'
            refine ⟨r2, j1, ω2, e :: es2, ?_, fun h => ⟨?_, ?_⟩, ?_, by simp⟩
            · simpa using j2
            · rw [(j3 h).1]
            · simpa using (j3 h).2
            · obtain ⟨y, hy⟩ := j4
              exact ⟨y, by rw [← hy]; rfl⟩
          · exact absurd h hb
      · have g2 : (AMap.get m ((ω0 s).dst e)).isNone = true := by rw [AMap.get_none_keys.2 h2]; rfl
        rw [g2, List.filter_cons_of_neg (by simp only [decide_eq_true_eq]; exact fun h => h2 h.2)]
        simp only [if_true, ite_self]
        exact tryCopyEdges_left o xs hx' c
    · have g1 : (AMap.get m ((ω0 s).src e)).isNone = true := by rw [AMap.get_none_keys.2 h1]; rfl
      rw [g1, List.filter_cons_of_neg (by simp only [decide_eq_true_eq]; exact fun h => h1 h.1)]
      simp only [if_true]
      exact tryCopyEdges_left o xs hx' c

/-! ## CopySubgraph -/

/-- The body of the loop over the outgoing edges. -/
def trySubStep (o : MapOrder) (t : Nat) (f : String → Value → Value) (a : (World × AMap Nat Nat) × Bool) (e : Nat) :
    Option ((World × AMap Nat Nat) × Bool) :=
  if a.2 then some a
  else (tryCopySubgraph o t f a.1 (a.1.1.heap.eTo e)).bind (fun b =>
    if b.2 then some b else (b.1.1.tryCopyEdge o e t f b.1.2).bind (fun r => some ((r.1, b.1.2), r.2.2)))

theorem tryCopySubgraph_eq (o : MapOrder) (st : World × AMap Nat Nat) (n : Nat) : tryCopySubgraph o t f st n =
    if (st.2.get n).isSome then some (st, false)
    else if (st.1.tryCloneNode o t n f).2.2 then some (((st.1.tryCloneNode o t n f).1, st.2), true)
    else ((st.1.tryCloneNode o t n f).1.heap.nodeEdges n .outgoing).bind (fun es =>
      es.foldlM (trySubStep o t f) (((st.1.tryCloneNode o t n f).1, st.2.set n (st.1.tryCloneNode o t n f).2.1), false)) := by
  conv => lhs; rw [tryCopySubgraph]
  rfl

theorem trySubStep_stopped (o : MapOrder) (st : World × AMap Nat Nat) : ∀ es : List Nat,
    es.foldlM (trySubStep o t f) (st, true) = some (st, true)
  | [] => rfl
  | e :: es => by
    have : trySubStep o t f (st, true) e = some (st, true) := by simp [trySubStep]
    simp only [List.foldlM_cons, this, Option.bind_eq_bind, Option.bind_some]
    exact trySubStep_stopped o st es

/-- What a call of `CopySubgraph` with node `n` has added when it panics. -/
structure SubPart (σs : Spec) (stop : List Nat) (n : Nat) (m2 : List (Nat × Nat)) (es2 : List Nat) : Prop where
  reach : ∀ p ∈ m2, σs.ReachOff stop n p.1
  nodup : es2.Nodup
  edges : ∀ e ∈ es2, e ∈ σs.edges ∧ σs.src e ∈ m2.map Prod.fst

theorem SubLoop.part {σs : Spec} {stop : List Nat} {n : Nat} {m m1 : List (Nat × Nat)} {es1 done : List Nat}
    (l : SubLoop σs stop n m m1 es1 done) : SubPart σs stop n m1 es1 :=
  ⟨l.reach, l.nodup, fun e he => ⟨((l.edges e).1 he).1, ((l.edges e).1 he).2.1⟩⟩

theorem SubLoop.broke {σs : Spec} {stop : List Nat} {n e : Nat} {m m1 m2 : List (Nat × Nat)} {es1 es2 done : List Nat}
    (l : SubLoop σs stop n m m1 es1 done) (r : SubPart σs stop (σs.dst e) m2 es2) (he : e ∈ σs.edges)
    (hs : σs.src e = n) (hk : ((m ++ m1 ++ m2).map Prod.fst).Nodup) : SubPart σs stop n (m1 ++ m2) (es1 ++ es2) := by
  have dis : ∀ x ∈ m1.map Prod.fst, x ∉ m2.map Prod.fst := by
    intro x h1 h2
    rw [List.map_append, List.nodup_append] at hk
    exact hk.2.2 x (by rw [List.map_append]; exact List.mem_append_right _ h1) x h2 rfl
  refine ⟨?_, ?_, ?_⟩
  · intro p hp
    rcases List.mem_append.1 hp with hp | hp
    · exact l.reach p hp
    · obtain ⟨q, hq, hqn⟩ := List.mem_map.1 l.here
      exact (Spec.ReachOff.tail (.refl (l.reach q hq).start) he hs (r.reach p hp).start).trans (r.reach p hp)
  · rw [List.nodup_append]
    refine ⟨l.nodup, r.nodup, ?_⟩
    rintro a ha b hb rfl
    exact dis _ ((l.edges a).1 ha).2.1 (r.edges a hb).2
  · intro x hx
    rw [List.map_append]
    rcases List.mem_append.1 hx with hx | hx
    · exact ⟨((l.edges x).1 hx).1, List.mem_append_left _ ((l.edges x).1 hx).2.1⟩
    · exact ⟨(r.edges x hx).1, List.mem_append_right _ (r.edges x hx).2⟩

theorem Left.keys {W : World} {ω : WSpec} {m : List (Nat × Nat)} {es : List Nat} (h : Left m0 U L f s t W0 ω0 W ω m es) :
    ((m0 ++ m).map Prod.fst).Nodup := by
  cases h with
  | made c => exact c.keys
  | lost c => exact c.keys

theorem tryCopySubgraph_left (o : MapOrder) (r0 : Rep W0 ω0) (hends : ∀ e ∈ (ω0 s).edges, (ω0 s).dst e ∈ (ω0 s).nodes) :
    ∀ (k : Nat) {W : World} {ω : WSpec} {m : AMap Nat Nat} {es : List Nat} {n : Nat}, unseen (ω0 s) (m0 ++ m) < k →
    n ∈ (ω0 s).nodes → CopyingInto m0 U L anyValue anyValue f s t W0 ω0 (W.bareAt t) ω m es →
    ∃ r, tryCopySubgraph o t f (W, m0 ++ m) n = some r ∧ ∃ ω' m2 es2,
      (r.2 = false → r.1.2 = m0 ++ m ++ m2 ∧
        CopyingInto m0 U L anyValue anyValue f s t W0 ω0 (r.1.1.bareAt t) ω' (m ++ m2) (es ++ es2) ∧
        SubResult (ω0 s) (m0.map Prod.fst) n (m0 ++ m) m2 es2) ∧
      (r.2 = true → Left m0 U L f s t W0 ω0 r.1.1 ω' (m ++ m2) (es ++ es2) ∧ SubPart (ω0 s) (m0.map Prod.fst) n m2 es2 ∧
        ∃ m3, r.1.2 = m0 ++ m ++ m3 ∧ ((∃ p, m2 = m3 ++ [p]) ∨ m3 = m2 ∧ (U → es2 ≠ []))) := by
  intro k
  induction k with
  | zero => intro W ω m es n h; omega
  | succ k ih =>
    intro W ω m es n hk hn c
    rw [tryCopySubgraph_eq]
    by_cases hg : (AMap.get (m0 ++ m) n).isSome = true
    · simp only [hg, if_true]
      refine ⟨_, rfl, ω, [], [], fun _ => ⟨by simp, by simpa using c, ?_, by simp, by simp, by simp, by simp⟩, (fun h => nomatch h)⟩
      refine Decidable.byContradiction fun h => ?_
      simp only [List.append_nil] at h
      rw [AMap.get_none_keys.2 h] at hg
      cases hg
    · simp only [hg]
      have hnot : n ∉ (m0 ++ m).map Prod.fst := by
        apply AMap.get_none_keys.1
        cases h : AMap.get (m0 ++ m) n with
        | none => rfl
        | some _ => rw [h] at hg; simp at hg
      obtain ⟨-, k2⟩ := c.node (fun _ _ _ => trivial) (r0.ownN s n hn) hnot
      obtain ⟨ω1, c1⟩ := k2 _ (tryCloneNode_bare o W t n f)
      simp only [Bool.false_eq_true, if_false] at c1 ⊢
      generalize W.tryCloneNode o t n f = q at c1 ⊢
      have hstart : (ω0 s).ReachOff (m0.map Prod.fst) n n :=
        .refl fun h => hnot (by rw [List.map_append]; exact List.mem_append_left _ h)
      by_cases hb : q.2.2 = true
      · rw [if_pos hb]
        refine ⟨_, rfl, ω1, [(n, q.2.1)], [], (fun h => nomatch h), fun _ => ⟨.made (by simpa using c1), ⟨?_, by simp, by simp⟩, [], by simp, .inl ⟨_, rfl⟩⟩⟩
        intro p hp; simp at hp; subst hp
        exact hstart
      · rw [if_neg hb]
        obtain ⟨xs, hx, hxn, hxm⟩ := c1.srcOut hn
        have hx' : q.1.heap.nodeEdges n .outgoing = some xs := hx
        simp only [hx', Option.bind_some, AMap.set_fresh hnot]
        -- the loop
        have loop : ∀ (todo done : List Nat) {W : World} {ω : WSpec} {m1 : List (Nat × Nat)} {es1 : List Nat}, xs = done ++ todo →
            CopyingInto m0 U L anyValue anyValue f s t W0 ω0 (W.bareAt t) ω (m ++ m1) (es ++ es1) →
            SubLoop (ω0 s) (m0.map Prod.fst) n (m0 ++ m) m1 es1 done →
            ∃ r, todo.foldlM (trySubStep o t f) ((W, m0 ++ m ++ m1), false) = some r ∧ ∃ ω' m2 es2,
              (r.2 = false → r.1.2 = m0 ++ m ++ m2 ∧
                CopyingInto m0 U L anyValue anyValue f s t W0 ω0 (r.1.1.bareAt t) ω' (m ++ m2) (es ++ es2) ∧
                SubLoop (ω0 s) (m0.map Prod.fst) n (m0 ++ m) m2 es2 xs) ∧
              (r.2 = true → Left m0 U L f s t W0 ω0 r.1.1 ω' (m ++ m2) (es ++ es2) ∧
                SubPart (ω0 s) (m0.map Prod.fst) n m2 es2 ∧ ∃ m3, r.1.2 = m0 ++ m ++ m3 ∧ ((∃ p, m2 = m3 ++ [p]) ∨ m3 = m2 ∧ (U → es2 ≠ []))) := by
          intro todo
          induction todo with
          | nil =>
            intro done W ω m1 es1 hd c l
            refine ⟨_, rfl, ω, m1, es1, fun _ => ⟨rfl, c, ?_⟩, (fun h => nomatch h)⟩
            simp at hd; rw [hd]; exact l
          | cons e todo ih2 =>
            intro done W ω m1 es1 hd c l
            have hex : e ∈ xs := by rw [hd]; simp
            obtain ⟨he, hes⟩ := (hxm e).1 hex
            have hed : e ∉ done := by
              rw [hd, List.nodup_append] at hxn
              intro h; exact hxn.2.2 e h e (by simp) rfl
            obtain ⟨q1, q2, q3, _⟩ := c.srcEdge he
            have hto : W.heap.eTo e = (ω0 s).dst e := ((c.rep.core s).eattr e q1).2.1.trans q3
            have hlt : unseen (ω0 s) (m0 ++ (m ++ m1)) < k := by
              have := unseen_lt (m := m0 ++ m) (m' := m0 ++ (m ++ m1)) hn hnot
                (by rw [← List.append_assoc, List.map_append]; exact List.mem_append_right _ l.here)
                (fun x hx => by rw [← List.append_assoc, List.map_append]; exact List.mem_append_left _ hx)
              omega
            obtain ⟨r, j1, ω2, m2, es2, j2, j3⟩ := ih hlt (hends e he) c
            rw [← List.append_assoc] at j1 j2 j3
            obtain ⟨⟨W2, mm⟩, b⟩ := r
            simp only [List.foldlM_cons, trySubStep, hto, Bool.false_eq_true, if_false, Option.bind_eq_bind]
            rw [j1]
            simp only [Option.bind_some]
            cases b with
            | true =>
              obtain ⟨p1, p2, m3, p3, p4⟩ := j3 rfl
              simp only at p1 p3
              simp only [if_true, Option.bind_some]
              refine ⟨_, trySubStep_stopped o _ todo, ω2, m1 ++ m2, es1 ++ es2, (fun h => nomatch h), fun _ => ⟨?_, ?_, m1 ++ m3, ?_, ?_⟩⟩
              · simpa using p1
              · exact l.broke p2 he hes (by have := p1.keys; simpa using this)
              · rw [p3]; simp
              · rcases p4 with ⟨p, hp⟩ | ⟨hp, hU⟩
                · exact .inl ⟨p, by rw [hp]; simp⟩
                · exact .inr ⟨by rw [hp], fun h => by simp [hU h]⟩
            | false =>
              obtain ⟨p1, p2, p3⟩ := j2 rfl
              simp only at p1 p2
              subst p1
              simp only [Bool.false_eq_true, if_false]
              have hsrc : (ω0 s).src e ∈ (m ++ m1 ++ m2).map Prod.fst := by
                rw [hes, List.map_append, List.map_append]
                exact List.mem_append_left _ (List.mem_append_right _ l.here)
              have e1 : m0 ++ (m ++ m1 ++ m2) = m0 ++ m ++ m1 ++ m2 := by simp
              obtain ⟨w, i1, i2⟩ := tryCopyEdge_left o p2 (r0.ownE s e he) hsrc (by rw [e1]; exact p3.here)
              rw [e1] at i1
              rw [i1]
              simp only [Option.bind_some]
              have l3 := l.next p3 he hes hed (by rw [← e1]; exact p2.keys)
              obtain ⟨W3, e3, b3⟩ := w
              simp only at i2 ⊢
              have e2 : es ++ es1 ++ es2 ++ [e] = es ++ (es1 ++ es2 ++ [e]) := by simp
              rcases i2 with ⟨ω3, c3⟩ | ⟨hb3, hU, c3⟩
              · rw [List.append_assoc, e2] at c3
                rw [List.append_assoc (m0 ++ m)]
                cases b3 with
                | false => exact ih2 (done ++ [e]) (by rw [hd]; simp) c3 l3
                | true =>
                  exact ⟨_, trySubStep_stopped o _ todo, ω3, m1 ++ m2, es1 ++ es2 ++ [e], (fun h => nomatch h),
                    fun _ => ⟨.made c3, l3.part, m1 ++ m2, rfl, .inr ⟨rfl, by simp⟩⟩⟩
              · subst hb3
                refine ⟨_, trySubStep_stopped o _ todo, ω2, m1 ++ m2, es1 ++ es2, (fun h => nomatch h),
                    fun _ => ⟨?_, ?_, m1 ++ m2, by simp, .inr ⟨rfl, fun h => absurd h hU⟩⟩⟩
                · simpa using c3
                · have p4 : SubPart (ω0 s) (m0.map Prod.fst) ((ω0 s).dst e) m2 es2 :=
                    ⟨p3.reach, p3.nodup, fun x hx => (p3.edges x).1 hx⟩
                  exact l.broke p4 he hes (by rw [← e1]; exact p2.keys)
        have l0 : SubLoop (ω0 s) (m0.map Prod.fst) n (m0 ++ m) [(n, q.2.1)] [] [] := by
          refine ⟨by simp, ?_, by simp, ?_, by simp⟩
          · intro p hp; simp at hp; subst hp
            exact hstart
          · intro e; simp
        obtain ⟨r, u0, ω', m2, es2, u1, u2⟩ := loop xs [] (m1 := [(n, q.2.1)]) (es1 := []) rfl (by simpa using c1) l0
        refine ⟨r, u0, ω', m2, es2, fun h => ?_, u2⟩
        obtain ⟨p1, p2, p3⟩ := u1 h
        refine ⟨p1, p2, ⟨?_, p3.reach, p3.nodup, fun e => ?_, p3.targets⟩⟩
        · rw [List.map_append]; exact List.mem_append_right _ p3.here
        · rw [p3.edges e]
          exact ⟨fun h => ⟨h.1, h.2.1⟩, fun h => ⟨h.1, h.2, fun hs => (hxm e).2 ⟨h.1, hs⟩⟩⟩

end
end World
end LPG

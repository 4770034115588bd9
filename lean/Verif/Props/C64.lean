import Verif.Spec.CopyF
import Verif.Props.C37C38
import Verif.Props.C01Exact
import Verif.Props.C07Exact
import Verif.Props.C01Listing
/-!
# C64: CopyGraphf
-/
namespace LPG
namespace CopyF
variable {ω : Type} {src : ω → State} {c : Funcs ω}

theorem nodes_nil (w : ω) (m : AMap Nat Nat) : nodes src c w none m = some (w, m) := by rw [nodes]

theorem nodes_cons (w : ω) (m : AMap Nat Nat) (n : Nat) : nodes src c w (some n) m =
    (c.node n m w).bind (fun r => nodes src c r.1 ((src w).nptr.next n) (enter m n r.2)) := by
  conv => lhs; rw [nodes]
  rfl

variable {I : ω → Prop} {ns0 es0 : List Nat} {s : State}

theorem enter_fresh {m : AMap Nat Nat} {n : Nat} (h : n ∉ m.map Prod.fst) (n' : Nat) : enter m n (some n') = m ++ [(n, n')] :=
  AMap.set_fresh h

theorem nodes_spec (k : Keeps I ns0 es0 s src c) : ∀ (fuel : Nat) (o : Option Nat) (ns : List Nat) {w : ω} {m : AMap Nat Nat},
    walk s.nptr.next fuel o = some ns → ns.Nodup → (∀ n ∈ ns, n ∈ ns0) → (∀ n ∈ ns, n ∉ m.map Prod.fst) → I w →
    nodes src c w o m = askNodes c ns m w
  | fuel, none, ns, w, m, hw, _, _, _, _ => by
    rw [walk_none] at hw
    cases hw
    rw [nodes_nil, askNodes]
  | 0, some n, ns, w, m, hw, _, _, _, _ => by cases hw
  | fuel + 1, some n, ns, w, m, hw, hnd, hl, hm, hI => by
    rw [walk_succ] at hw
    obtain ⟨ns, hw1, rfl⟩ := Option.map_eq_some_iff.1 hw
    rw [List.nodup_cons] at hnd
    rw [nodes_cons, askNodes, (k.same w hI).next n (hl n (by simp))]
    cases hc : c.node n m w with
    | none => rfl
    | some r =>
      obtain ⟨w', o⟩ := r
      have hI' := k.node n m w w' o hI hc
      have hl' : ∀ n ∈ ns, n ∈ ns0 := fun x hx => hl x (by simp [hx])
      rw [Option.bind_some]
      cases o with
      | none => exact nodes_spec k fuel _ ns hw1 hnd.2 hl' (fun x hx => hm x (by simp [hx])) hI'
      | some n' =>
        dsimp only
        rw [enter_fresh (hm n (by simp))]
        refine nodes_spec k fuel _ ns hw1 hnd.2 hl' (fun x hx => ?_) hI'
        simp only [List.map_append, List.map_cons, List.map_nil, List.mem_append, List.mem_singleton, not_or]
        exact ⟨hm x (by simp [hx]), fun h => hnd.1 (h ▸ hx)⟩

theorem isNone_iff {m : AMap Nat Nat} {n : Nat} : (AMap.get m n).isNone = true ↔ n ∉ m.map Prod.fst := by
  rw [Option.isNone_iff_eq_none]
  exact AMap.get_none_keys

theorem askNodes_keeps (k : Keeps I ns0 es0 s src c) : ∀ (ns : List Nat) {m m' : AMap Nat Nat} {w w' : ω},
    askNodes c ns m w = some (w', m') → I w → I w'
  | [], m, m', w, w', h, hI => by cases h; exact hI
  | n :: ns, m, m', w, w', h, hI => by
    rw [askNodes] at h
    cases hc : c.node n m w with
    | none => rw [hc] at h; cases h
    | some r =>
      obtain ⟨w1, o⟩ := r
      rw [hc] at h
      cases o with
      | none => exact askNodes_keeps k ns h (k.node n m w w1 _ hI hc)
      | some n' => exact askNodes_keeps k ns h (k.node n m w w1 _ hI hc)

theorem edges_spec (k : Keeps I ns0 es0 s src c) {m : AMap Nat Nat} : ∀ (es : List Nat) {w : ω}, (∀ e ∈ es, e ∈ es0) → I w →
    edges src c m w es = askEdges c m (es.filter (fun e => s.eFrom e ∈ m.map Prod.fst ∧ s.eTo e ∈ m.map Prod.fst)) w
  | [], w, _, _ => rfl
  | e :: es, w, hl, hI => by
    have hl' : ∀ e ∈ es, e ∈ es0 := fun x hx => hl x (by simp [hx])
    obtain ⟨h1, h2⟩ := (k.same w hI).ends e (hl e (by simp))
    rw [edges, h1, h2]
    by_cases ha : s.eFrom e ∈ m.map Prod.fst
    · rw [if_neg (fun h => isNone_iff.1 h ha)]
      by_cases hb : s.eTo e ∈ m.map Prod.fst
      · rw [if_neg (fun h => isNone_iff.1 h hb), List.filter_cons_of_pos (by simp only [decide_eq_true_eq]; exact ⟨ha, hb⟩), askEdges]
        cases hc : c.edge e m w with
        | none => rfl
        | some w' => exact edges_spec k es hl' (k.edge e m w w' hI hc)
      · rw [if_pos (isNone_iff.2 hb), List.filter_cons_of_neg (by simp only [decide_eq_true_eq]; exact fun h => hb h.2)]
        exact edges_spec k es hl' hI
    · rw [if_pos (isNone_iff.2 ha), List.filter_cons_of_neg (by simp only [decide_eq_true_eq]; exact fun h => ha h.1)]
      exact edges_spec k es hl' hI

theorem askNodes_picked {pick : Nat → Bool} (hp : ∀ n m w w' o, c.node n m w = some (w', o) → o.isSome = pick n) :
    ∀ (ns : List Nat) {m m' : AMap Nat Nat} {w w' : ω}, askNodes c ns m w = some (w', m') →
      m'.map Prod.fst = m.map Prod.fst ++ ns.filter pick
  | [], m, m', w, w', h => by cases h; simp
  | n :: ns, m, m', w, w', h => by
    rw [askNodes] at h
    cases hc : c.node n m w with
    | none => rw [hc] at h; cases h
    | some r =>
      obtain ⟨w1, o⟩ := r
      rw [hc] at h
      have := hp n m w w1 o hc
      cases o with
      | none =>
        rw [List.filter_cons_of_neg (by rw [← this]; simp)]
        exact askNodes_picked hp ns h
      | some n' =>
        rw [List.filter_cons_of_pos (by rw [← this]; rfl), askNodes_picked hp ns h]
        simp

end CopyF

open CopyF

/-- `CopyGraphf` for functions that leave the source alone, after any history: it asks for a copy of every node that
`GetNodes` shows (C01), once and in that order, and then, with the finished map, for a copy of every edge that `GetEdges`
shows and whose two ends have copies, once; it returns the map. -/
theorem C64_calls {ops : List Op} {s : State} (hv : Spec.ValidHistory ops) (hr : run ops = some s) {es : List Nat}
    (he : s.getEdges = some es) {ω : Type} {I : ω → Prop} {src : ω → State} {c : Funcs ω} {w : ω}
    (k : Keeps I (listingAfter ops).nodes es s src c) (hI : I w) :
    copyGraphf src c w = ask c (Spec.run ops).src (Spec.run ops).dst (listingAfter ops).nodes es w := by
  have kept := KeptOn.run hv hr
  have e1 : s.eFrom = (Spec.run ops).src := funext fun e => (kept.eattr e trivial).1
  have e2 : s.eTo = (Spec.run ops).dst := funext fun e => (kept.eattr e trivial).2.1
  have hw : walk s.nptr.next s.idBase s.allNodes.head = some (listingAfter ops).nodes := C01_listing ops hv s hr
  unfold copyGraphf ask
  rw [(k.same w hI).head, nodes_spec k _ _ _ hw (walk_nodup hw) (fun _ h => h) (by simp) hI]
  cases ha : askNodes c (listingAfter ops).nodes [] w with
  | none => rfl
  | some r =>
    obtain ⟨w1, m⟩ := r
    have hI1 := askNodes_keeps k _ ha hI
    simp only [Option.bind_eq_bind, Option.bind_some, (k.same w1 hI1).edges, he, edges_spec k es (fun _ h => h) hI1, e1, e2]
    cases askEdges c m _ w1 <;> rfl

/-- If the edges of the source cannot be enumerated (C04), `CopyGraphf` does not return. -/
theorem C64_stuck {ops : List Op} {s : State} (hv : Spec.ValidHistory ops) (hr : run ops = some s) (he : s.getEdges = none)
    {ω : Type} {I : ω → Prop} {src : ω → State} {c : Funcs ω} {w : ω} (k : Keeps I (listingAfter ops).nodes [] s src c) (hI : I w) :
    copyGraphf src c w = none := by
  have hw : walk s.nptr.next s.idBase s.allNodes.head = some (listingAfter ops).nodes := C01_listing ops hv s hr
  unfold copyGraphf
  rw [(k.same w hI).head, nodes_spec k _ _ _ hw (walk_nodup hw) (fun _ h => h) (by simp) hI]
  cases ha : askNodes c (listingAfter ops).nodes [] w with
  | none => rfl
  | some r =>
    obtain ⟨w1, m⟩ := r
    simp [(k.same w1 (askNodes_keeps k _ ha hI)).edges, he]

/-- Under the conditions of C01 and C04 the calls are for all nodes of the graph, in the order of creation, and for all its
edges between copied nodes.
Partial: the history does not spoil the list of nodes (C01) or of edges (C04). -/
theorem C64_calls_partial {ops : List Op} {s : State} (hv : Spec.ValidHistory ops) (hr : run ops = some s) (hn : ListOk ops)
    (he : FiledOk ops) : ∃ es, s.getEdges = some es ∧ es.Perm (Spec.run ops).edges ∧
      ∀ {ω : Type} {I : ω → Prop} {src : ω → State} {c : Funcs ω} {w : ω}, Keeps I (Spec.run ops).nodes es s src c → I w →
        copyGraphf src c w = ask c (Spec.run ops).src (Spec.run ops).dst (Spec.run ops).nodes es w := by
  obtain ⟨_, es, h2, h3⟩ := C04_filed_partial ops hv he s hr
  refine ⟨es, h2, h3, ?_⟩
  intro ω I src c w k hI
  have h1 : (listingAfter ops).nodes = (Spec.run ops).nodes :=
    Option.some.inj ((C01_listing ops hv s hr).symm.trans (C01_safe_partial ops hv hn s hr))
  rw [← h1] at k ⊢
  exact C64_calls hv hr h2 k hI

/-- `CopyGraphf` when the answer of `copyNodeFunc` is a node exactly for the nodes that `pick` chooses: these are the keys of
the map, and `copyEdgeFunc` is asked exactly about the edges between them.
Partial: the history does not spoil the list of nodes (C01) or of edges (C04). -/
theorem C64_picked_partial {ops : List Op} {s : State} (hv : Spec.ValidHistory ops) (hr : run ops = some s) (hn : ListOk ops)
    (he : FiledOk ops) {es : List Nat} (hes : s.getEdges = some es) {ω : Type} {I : ω → Prop} {src : ω → State} {c : Funcs ω}
    {w w' : ω} {m : AMap Nat Nat} (k : Keeps I (Spec.run ops).nodes es s src c) (hI : I w) {pick : Nat → Bool}
    (hp : ∀ n m w w' o, c.node n m w = some (w', o) → o.isSome = pick n) (h : copyGraphf src c w = some (w', m)) :
    m.map Prod.fst = (Spec.run ops).nodes.filter pick ∧ ∃ w1 es,
      askNodes c (Spec.run ops).nodes [] w = some (w1, m) ∧ askEdges c m es w1 = some w' ∧
      es.Perm ((Spec.run ops).edges.filter (fun e => pick ((Spec.run ops).src e) && pick ((Spec.run ops).dst e))) := by
  obtain ⟨es', h2, h3, ho⟩ := C64_calls_partial hv hr hn he
  rw [hes] at h2
  cases h2
  rw [ho k hI, ask] at h
  cases ha : askNodes c (Spec.run ops).nodes [] w with
  | none => rw [ha] at h; cases h
  | some r =>
    obtain ⟨w1, m1⟩ := r
    rw [ha] at h
    dsimp only at h
    cases hb : askEdges c m1 (es.filter (fun e => (Spec.run ops).src e ∈ m1.map Prod.fst ∧
        (Spec.run ops).dst e ∈ m1.map Prod.fst)) w1 with
    | none => rw [hb] at h; cases h
    | some w2 =>
      rw [hb] at h
      cases h
      have hk := askNodes_picked hp _ ha
      simp only [List.map_nil, List.nil_append] at hk
      refine ⟨hk, w1, _, rfl, hb, ?_⟩
      have hends := (Core.run hv hr).ends
      rw [List.filter_congr (q := fun e => pick ((Spec.run ops).src e) && pick ((Spec.run ops).dst e))]
      · exact h3.filter _
      · intro e hx
        obtain ⟨e1, e2⟩ := hends e (h3.mem_iff.1 hx)
        rw [hk, Bool.eq_iff_iff]
        simp [List.mem_filter, e1, e2]

namespace World
open CopyF
variable {U L : Prop} {Pn Pe : String → Value → Prop} {f : String → Value → Value} {s t : Nat}
  {W0 : World} {ω0 : WSpec} {keep keepEdge : Nat → Bool}

/-- The loop over the nodes, with functions that copy the nodes that `keep` accepts. -/
theorem cloneF_nodes (hst : s ≠ t) {D : Nat → Prop} (hD : ∀ n, D n → W0.N s n)
    (hP : ∀ n, D n → ∀ k v, (ω0 s).nprop n k = some v → Pn k (f k v)) :
    ∀ (fuel : Nat) (o : Option Nat) (post pre : List Nat) {W : World} {ω : WSpec} {m : AMap Nat Nat},
    walk W0.heap.nptr.next fuel o = some post → (pre ++ post).Nodup → (∀ n ∈ post, D n) →
    m.map Prod.fst = pre.filter keep → Copying U L Pn Pe f s t W0 ω0 W ω m [] →
    (U → CopyF.nodes (fun W => W.view s) (cloneFuncs t f keep keepEdge) W o m ≠ none) ∧
    ∀ r, CopyF.nodes (fun W => W.view s) (cloneFuncs t f keep keepEdge) W o m = some r →
      ∃ ω', Copying U L Pn Pe f s t W0 ω0 r.1 ω' r.2 [] ∧ r.2.map Prod.fst = (pre ++ post).filter keep
  | fuel, none, post, pre, W, ω, m, hw, _, _, hm, c => by
    rw [walk_none] at hw
    cases hw
    rw [nodes_nil]
    refine ⟨by simp, fun r h => ?_⟩
    cases h
    exact ⟨ω, c, by rw [hm]; simp⟩
  | 0, some n, post, pre, W, ω, m, hw, _, _, hm, c => by cases hw
  | fuel + 1, some n, post, pre, W, ω, m, hw, hnd, hl, hm, c => by
    rw [walk_succ] at hw
    obtain ⟨post, hw1, rfl⟩ := Option.map_eq_some_iff.1 hw
    rw [nodes_cons]
    have hmem : D n := hl n (by simp)
    have hnot : n ∉ m.map Prod.fst := by
      rw [hm]
      rw [List.nodup_append] at hnd
      intro h
      exact hnd.2.2 n (List.mem_filter.1 h).1 n (by simp) rfl
    obtain ⟨k1, k2⟩ := c.node (hP n hmem) (hD n hmem) hnot
    have hnext : (W.view s).nptr.next n = W0.heap.nptr.next n := ((c.frame s hst).1.node n (hD n hmem)).1
    rw [hnext]
    have hnd' : ((pre ++ [n]) ++ post).Nodup := by simpa using hnd
    have hl' : ∀ x ∈ post, D x := fun x hx => hl x (by simp [hx])
    cases hk : keep n with
    | false =>
      have := cloneF_nodes hst hD hP fuel _ post (pre ++ [n]) hw1 hnd' hl' (by simp [hm, hk]) c
      simpa [cloneFuncs, hk, enter] using this
    | true =>
      simp only [cloneFuncs, hk, if_true]
      cases hc : W.cloneNode t n f with
      | none => exact ⟨fun hU => absurd hc (k1 hU), by simp⟩
      | some q =>
        obtain ⟨ω', c'⟩ := k2 q hc
        simp only [Option.map_some, Option.bind_some, enter_fresh hnot]
        have := cloneF_nodes hst hD hP fuel _ post (pre ++ [n]) hw1 hnd' hl' (by simp [hm, hk]) c'
        simpa [cloneFuncs] using this

/-- The loop over the edges, with functions that copy the edges that `keepEdge` accepts. -/
theorem cloneF_edges {D : Nat → Prop} (hD : ∀ e, D e → W0.E s e) (hP : ∀ e, D e → ∀ k v, (ω0 s).eprop e k = some v → Pe k (f k v)) {m : AMap Nat Nat} :
    ∀ (xs : List Nat) {W : World} {ω : WSpec} {es : List Nat}, (∀ e ∈ xs, D e) →
    Copying U L Pn Pe f s t W0 ω0 W ω m es →
    (U → CopyF.edges (fun W => W.view s) (cloneFuncs t f keep keepEdge) m W xs ≠ none) ∧
    ∀ W', CopyF.edges (fun W => W.view s) (cloneFuncs t f keep keepEdge) m W xs = some W' →
      ∃ ω', Copying U L Pn Pe f s t W0 ω0 W' ω' m
        (es ++ xs.filter (fun e => ((ω0 s).src e ∈ m.map Prod.fst ∧ (ω0 s).dst e ∈ m.map Prod.fst) ∧ keepEdge e = true))
  | [], W, ω, es, _, c => ⟨by simp [CopyF.edges], fun W' h => by cases h; exact ⟨ω, by simpa using c⟩⟩
  | e :: xs, W, ω, es, hx, c => by
    have he := hx e (by simp)
    have hat := c.src.eattr e (hD e he)
    have f1 : (W.view s).eFrom e = (ω0 s).src e := hat.1
    have f2 : (W.view s).eTo e = (ω0 s).dst e := hat.2.1
    have hx' : ∀ e ∈ xs, D e := fun e he => hx e (by simp [he])
    simp only [CopyF.edges, f1, f2]
    by_cases h1 : (ω0 s).src e ∈ m.map Prod.fst
    · rw [if_neg (fun h => isNone_iff.1 h h1)]
      by_cases h2 : (ω0 s).dst e ∈ m.map Prod.fst
      · rw [if_neg (fun h => isNone_iff.1 h h2)]
        cases hk : keepEdge e with
        | false =>
          rw [List.filter_cons_of_neg (by simp [hk])]
          simp only [cloneFuncs, hk]
          exact cloneF_edges hD hP xs hx' c
        | true =>
          obtain ⟨k1, k2⟩ := c.edge (hP e he) (hD e he) h1 h2
          rw [List.filter_cons_of_pos (by simp only [decide_eq_true_eq]; exact ⟨⟨h1, h2⟩, hk⟩)]
          simp only [cloneFuncs, hk, if_true]
          cases hc : W.copyEdge e t f m with
          | none => exact ⟨fun hU => absurd hc (k1 hU), by simp⟩
          | some q =>
            obtain ⟨ω', c'⟩ := k2 q hc
            have := cloneF_edges hD hP xs hx' c'
            simp only [List.append_assoc, List.cons_append, List.nil_append] at this
            exact this
      · rw [if_pos (isNone_iff.2 h2), List.filter_cons_of_neg (by simp only [decide_eq_true_eq]; exact fun h => h2 h.1.2)]
        exact cloneF_edges hD hP xs hx' c
    · rw [if_pos (isNone_iff.2 h1), List.filter_cons_of_neg (by simp only [decide_eq_true_eq]; exact fun h => h1 h.1.1)]
      exact cloneF_edges hD hP xs hx' c

end World

open World CopyF

/-- `CopyGraphf` with the functions of `CopyGraph`, except that they return nil for the nodes that `keep` rejects and do
nothing for the edges that `keepEdge` rejects, between two graphs of a program, spoiled or not: the target afterwards holds
its old content and one faithful copy of each chosen node that `GetNodes` of the source shows (`worldListing`) and of each
chosen edge that `GetEdges` shows between chosen nodes, and nothing else; the result is the map from the chosen nodes to
their copies; all other graphs, the source included, give the answers that they gave; and the call returns if the values
given to properties with an index in the target suit the index and the target can enumerate its edges (C49). -/
theorem C64_filter {ops : List (Nat × Op)} {W : World} (hv : WSpec.ValidHistory ops) (hr : World.run ops = some W)
    {s t : Nat} (hst : s ≠ t) {es : List Nat} (he : (W.view s).getEdges = some es) (f : String → Value → Value)
    (keep keepEdge : Nat → Bool) :
    let ns := (WSpec.listing s ops).nodes
    (CopyIndexableOn ns es s t f ops → (W.view t).getEdges ≠ none →
      copyGraphf (fun W => W.view s) (cloneFuncs t f keep keepEdge) W ≠ none) ∧
    ∀ W' m, copyGraphf (fun W => W.view s) (cloneFuncs t f keep keepEdge) W = some (W', m) →
    ∃ σ', Copied ops t W W' σ' m ∧ m.map Prod.fst = ns.filter keep ∧
      CopyOf f (WSpec.run ops s) (WSpec.run ops t) σ' m (es.filter (fun e =>
        ((WSpec.run ops s).src e ∈ ns.filter keep ∧ (WSpec.run ops s).dst e ∈ ns.filter keep) ∧ keepEdge e = true)) := by
  intro ns
  have c0 := copyStart hv hr ns es s t f
  have hn := worldListing hv hr s
  have hw : walk W.heap.nptr.next W.heap.idBase (W.root s).allNodes.head = some ns := hn
  obtain ⟨k1, k2⟩ := cloneF_nodes (keep := keep) (keepEdge := keepEdge) hst (listed_nodes c0.rep.inv hn) copyNodeValue _ _ _ [] hw
    (by simpa using walk_nodup hw) (fun _ h => h) rfl c0
  unfold copyGraphf
  have hhead : (W.view s).allNodes.head = (W.root s).allNodes.head := rfl
  rw [hhead]
  cases hn : CopyF.nodes (fun W => W.view s) (cloneFuncs t f keep keepEdge) W (W.root s).allNodes.head [] with
  | none => exact ⟨fun h1 h2 => absurd hn (k1 ⟨h1, h2⟩), fun W' m h => by simp at h⟩
  | some q =>
    obtain ⟨ω1, c1, hk⟩ := k2 q hn
    simp only [List.nil_append] at hk
    have h1 : (q.1.view s).getEdges = some es := (c1.same c0.rep.inv hst).getEdges.trans he
    obtain ⟨j1, j2⟩ := cloneF_edges (keep := keep) (keepEdge := keepEdge) (listed_edges c0.rep.inv he) copyEdgeValue es
      (fun _ h => h) c1
    simp only [Option.bind_eq_bind, Option.bind_some, h1]
    cases he : CopyF.edges (fun W => W.view s) (cloneFuncs t f keep keepEdge) q.2 q.1 es with
    | none => exact ⟨fun h1 h2 => absurd he (j1 ⟨h1, h2⟩), fun W' m h => by simp at h⟩
    | some W2 =>
      refine ⟨by simp, fun W' m h => ?_⟩
      simp at h
      obtain ⟨rfl, rfl⟩ := h
      obtain ⟨ω', c⟩ := j2 W2 he
      simp only [List.nil_append, hk] at c
      exact ⟨ω' t, c.copied hv hr, hk, c.copy⟩

/-- The same for a source that is not spoiled: the chosen nodes of the graph and the chosen edges between them are copied.
Partial: the source is not spoiled by C01/C04. -/
theorem C64_filter_partial {ops : List (Nat × Op)} {W : World} (hv : WSpec.ValidHistory ops) (hr : World.run ops = some W)
    {s t : Nat} (hst : s ≠ t) (hs : WSpec.Clean s ops) (f : String → Value → Value) (keep keepEdge : Nat → Bool) :
    (CopyIndexable s t f ops → (W.view t).getEdges ≠ none →
      copyGraphf (fun W => W.view s) (cloneFuncs t f keep keepEdge) W ≠ none) ∧
    ∀ W' m, copyGraphf (fun W => W.view s) (cloneFuncs t f keep keepEdge) W = some (W', m) →
    ∃ σ' es, Copied ops t W W' σ' m ∧ CopyOf f (WSpec.run ops s) (WSpec.run ops t) σ' m es ∧
      m.map Prod.fst = (WSpec.run ops s).nodes.filter keep ∧
      es.Perm ((WSpec.run ops s).edges.filter (fun e =>
        keep ((WSpec.run ops s).src e) && keep ((WSpec.run ops s).dst e) && keepEdge e)) := by
  have hsh := C51_partial hv hr hs
  obtain ⟨es, he1, he2⟩ := hsh.edges
  have hns : (WSpec.listing s ops).nodes = (WSpec.run ops s).nodes :=
    Option.some.inj ((worldListing hv hr s).symm.trans hsh.nodes)
  obtain ⟨k1, k2⟩ := C64_filter hv hr hst he1 f keep keepEdge
  rw [hns] at k1 k2
  refine ⟨fun hi ht => k1 ?_ ht, fun W' m h => ?_⟩
  · have : ∀ {P : Nat → Prop}, (∃ e ∈ es, P e) ↔ ∃ e ∈ (WSpec.run ops s).edges, P e := by
      intro P
      exact ⟨fun ⟨e, h1, h2⟩ => ⟨e, he2.mem_iff.1 h1, h2⟩, fun ⟨e, h1, h2⟩ => ⟨e, he2.mem_iff.2 h1, h2⟩⟩
    simpa only [CopyIndexable, CopyIndexableOn, this] using hi
  · obtain ⟨σ', h1, h2, h3⟩ := k2 W' m h
    refine ⟨σ', _, h1, h3, h2, ?_⟩
    rw [List.filter_congr (q := fun e => keep ((WSpec.run ops s).src e) && keep ((WSpec.run ops s).dst e) && keepEdge e)]
    · exact he2.filter _
    · intro e hx
      obtain ⟨e1, e2⟩ := hsh.closed e (he2.mem_iff.1 hx)
      rw [Bool.eq_iff_iff]
      simp [List.mem_filter, e1, e2, Bool.and_eq_true]

theorem copyNodes_sub {s t : Nat} {f : String → Value → Value} (W : World) (o : Option Nat) (m : AMap Nat Nat)
    (r : World × AMap Nat Nat) : copyNodes t f W o m = some r →
      CopyF.nodes (fun W => W.view s) (cloneFuncs t f (fun _ => true) (fun _ => true)) W o m = some r := by
  refine copyNodes.partial_correctness t f (fun W o m r =>
    CopyF.nodes (fun W => W.view s) (cloneFuncs t f (fun _ => true) (fun _ => true)) W o m = some r) ?_ W o m r
  intro g hg W o m r h
  cases o with
  | none => rw [nodes_nil]; exact h
  | some n =>
    rw [nodes_cons]
    obtain ⟨q, h1, h2⟩ := Option.bind_eq_some_iff.1 h
    have := hg _ _ _ _ h2
    have hv : (W.view s).nptr.next n = W.heap.nptr.next n := rfl
    simpa [cloneFuncs, h1, enter, hv] using this

theorem nodes_sub {s t : Nat} {f : String → Value → Value} (W : World) (o : Option Nat) (m : AMap Nat Nat)
    (r : World × AMap Nat Nat) :
    CopyF.nodes (fun W => W.view s) (cloneFuncs t f (fun _ => true) (fun _ => true)) W o m = some r →
      copyNodes t f W o m = some r := by
  refine CopyF.nodes.partial_correctness (fun W => W.view s) (cloneFuncs t f (fun _ => true) (fun _ => true))
    (fun W o m r => copyNodes t f W o m = some r) ?_ W o m r
  intro g hg W o m r h
  rw [copyNodes.eq_def]
  cases o with
  | none => exact h
  | some n =>
    obtain ⟨q, h1, h2⟩ := Option.bind_eq_some_iff.1 h
    have := hg _ _ _ _ h2
    simp only [cloneFuncs, if_true] at h1
    obtain ⟨q', h1', rfl⟩ := Option.map_eq_some_iff.1 h1
    simp only [h1', Option.bind_eq_bind, Option.bind_some]
    exact this

theorem copyEdges_eq {s t : Nat} {f : String → Value → Value} {m : AMap Nat Nat} : ∀ (es : List Nat) (W : World),
    CopyF.edges (fun W => W.view s) (cloneFuncs t f (fun _ => true) (fun _ => true)) m W es = copyEdges t f m W es
  | [], W => rfl
  | e :: es, W => by
    have h1 : (W.view s).eFrom e = W.heap.eFrom e := rfl
    have h2 : (W.view s).eTo e = W.heap.eTo e := rfl
    rw [CopyF.edges, copyEdges]
    rw [h1, h2, copyEdges_eq es W]
    simp only [cloneFuncs, if_true]
    cases W.copyEdge e t f m with
    | none => rfl
    | some r =>
      have := copyEdges_eq (s := s) (f := f) (t := t) (m := m) es r.1
      simp only [Option.map_some]
      rw [← this]
      rfl

/-- `CopyGraph` is `CopyGraphf` with functions that copy everything (clone.go:22-29). -/
theorem copyGraph_eq (W : World) (s t : Nat) (f : String → Value → Value) :
    W.copyGraph s t f = copyGraphf (fun W => W.view s) (cloneFuncs t f (fun _ => true) (fun _ => true)) W := by
  have h : copyNodes t f W (W.root s).allNodes.head [] =
      CopyF.nodes (fun W => W.view s) (cloneFuncs t f (fun _ => true) (fun _ => true)) W (W.root s).allNodes.head [] :=
    Option.ext (fun r => ⟨copyNodes_sub W _ _ r, nodes_sub W _ _ r⟩)
  have hh : (W.view s).allNodes.head = (W.root s).allNodes.head := rfl
  rw [World.copyGraph, copyGraphf, hh, h]
  simp only [copyEdges_eq]

/-- Functions that write down the calls, give the copy of node `n` the number `n + 100`, and do not copy node 2. -/
def loggedFuncs : Funcs (List Nat) :=
  { node := fun n _ w => some (w ++ [n], if n = 2 then none else some (n + 100))
    edge := fun e _ w => some (w ++ [1000 + e]) }

/-- The hypotheses of `C64_calls` and `C64_picked_partial` hold for it, whatever the graph is. -/
example (ns es : List Nat) (s : State) : Keeps (fun _ => True) ns es s (fun _ => s) loggedFuncs ∧
    ∀ n m w w' o, loggedFuncs.node n m w = some (w', o) → o.isSome = (n != 2) := by
  refine ⟨⟨fun _ _ => ⟨rfl, fun _ _ => rfl, rfl, fun _ _ => ⟨rfl, rfl⟩⟩, fun _ _ _ _ _ _ _ => trivial,
    fun _ _ _ _ _ _ => trivial⟩, fun n m w w' o h => ?_⟩
  simp only [loggedFuncs, Option.some.injEq, Prod.mk.injEq] at h
  rw [← h.2]
  by_cases hn : n = 2 <;> simp [hn]

/-- A graph for them: of the four edges only the self-loop of node 1 and the edge from it to node 0 are asked for. -/
def pickedOps : List Op :=
  [.newNode ["A"] [], .newNode ["B"] [], .newNode [] [], .newEdge 0 2 "e" [], .newEdge 2 1 "e" [], .newEdge 1 0 "f" [],
   .newEdge 1 1 "g" []]

example : Spec.ValidHistory pickedOps ∧ run pickedOps ≠ none ∧ ListOk pickedOps ∧ FiledOk pickedOps ∧
    (Spec.run pickedOps).nodes = [0, 1, 2] ∧ (Spec.run pickedOps).edges.filter (fun e =>
      ((Spec.run pickedOps).src e != 2) && ((Spec.run pickedOps).dst e != 2)) = [5, 6] := by
  decide +kernel

/-- Copying the example of C37 without node 2: its four edges are left out, the edge from 9 to 3 is copied. -/
example : WSpec.ValidHistory copyOps ∧ World.run copyOps ≠ none ∧ WSpec.Clean 0 copyOps ∧
    WSpec.Clean 1 (copyOps ++ [(1, .newNode [] [])]) ∧
    (WSpec.run copyOps 0).nodes.filter (fun n => n != 2) = [0, 3, 9] ∧
    ((WSpec.run copyOps 0).edges.filter (fun e => ((WSpec.run copyOps 0).src e != 2) &&
      ((WSpec.run copyOps 0).dst e != 2) && true)).length = 1 := by
  decide +kernel

end LPG

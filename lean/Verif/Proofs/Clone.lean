import Verif.Proofs.WorldListing
import Verif.Model.Clone
import Verif.Spec.Clone
/-! Copying: every copy made is one call of `NewNode` or `NewEdge`. -/
namespace LPG
open State

/-! ## Lists and maps -/

theorem eraseDups_nodup : ∀ {l : List String}, l.Nodup → l.eraseDups = l
  | [], _ => by simp
  | a :: l, h => by
    obtain ⟨h1, h2⟩ := List.nodup_cons.1 h
    rw [List.eraseDups_cons]
    have : l.filter (fun b => !b == a) = l := by
      apply List.filter_eq_self.2
      intro x hx
      have : x ≠ a := by rintro rfl; exact h1 hx
      simpa using this
    rw [this, eraseDups_nodup h2]

theorem AMap.set_fresh {α β : Type} [DecidableEq α] {k : α} {v : β} : ∀ {m : AMap α β}, k ∉ m.map Prod.fst →
    AMap.set m k v = m ++ [(k, v)]
  | [], _ => rfl
  | (a, b) :: m, h => by
    simp only [List.map_cons, List.mem_cons, not_or] at h
    rw [AMap.set, if_neg (Ne.symm h.1), AMap.set_fresh h.2]; rfl

theorem AMap.get_none_keys {α β : Type} [DecidableEq α] {k : α} : ∀ {m : AMap α β}, AMap.get m k = none ↔ k ∉ m.map Prod.fst
  | [] => by simp [AMap.get]
  | (a, b) :: m => by
    simp only [AMap.get, List.map_cons, List.mem_cons, not_or]
    by_cases h : a = k
    · simp [h]
    · rw [if_neg h, AMap.get_none_keys]; simp [Ne.symm h]

theorem cloneProps_get (f : String → Value → Value) (k : String) : ∀ (ps : Props),
    (cloneProps f ps).get k = (AMap.get ps k).map (f k)
  | [] => rfl
  | (a, b) :: ps => by
    have ih := cloneProps_get f k ps
    simp only [cloneProps, List.map_cons, AMap.get] at ih ⊢
    by_cases h : a = k
    · subst h; simp
    · simp only [if_neg h]; exact ih

theorem cloneProps_keys (f : String → Value → Value) (ps : Props) : AMap.keys (cloneProps f ps) = AMap.keys ps := by
  simp [AMap.keys, cloneProps]

/-! ## The steps -/

namespace World

/-- `cloneNode` is a call of `NewNode`. -/
theorem cloneNode_step {W : World} {ω : WSpec} (r : Rep W ω) {N E : Nat → Prop} {τ : Spec} (c : KeptOn N E W.heap τ) {t n : Nat}
    {f : String → Value → Value} (hn : N n) :
    let ls := W.heap.nLabels n
    let ps := cloneProps f (W.heap.nProps n)
    (ω t).Valid (.newNode ls ps) ∧ (∀ l, l ∈ ls ↔ l ∈ τ.labels n) ∧
    (∀ k, AMap.get ps k = (τ.nprop n k).map (f k)) ∧
    (∀ W' n', W.cloneNode t n f = some (W', n') →
      W.step t (.newNode ls ps) = some (W', false) ∧ n' = (ω t).next) := by
  intro ls ps
  have hl := c.labels n hn
  have hp := c.nprops n hn
  refine ⟨?_, hl.2, fun k => ?_, fun W' n' h => ?_⟩
  · show (AMap.keys (cloneProps f (W.heap.nProps n))).Nodup
    rw [cloneProps_keys]; exact hp.1
  · show AMap.get (cloneProps f (W.heap.nProps n)) k = _
    rw [cloneProps_get]
    congr 1
    exact hp.2 k
  · unfold cloneNode at h
    split at h
    · cases h
    · rename_i s1 h1
      cases h
      refine ⟨?_, (r.core t).next⟩
      unfold World.step
      simp only [World.target, foreign]
      have : LPG.step (W.view t) (.newNode ls ps) = some s1 := by
        show (W.view t).newNode (newStringSet ls) ps = some s1
        unfold newStringSet
        rw [show ls.eraseDups = ls from eraseDups_nodup hl.1]; exact h1
      rw [this]
      rfl

/-- `cloneEdge` between nodes of the target is a call of `NewEdge`. -/
theorem cloneEdge_step {W : World} {ω : WSpec} (r : Rep W ω) {N E : Nat → Prop} {τ : Spec} (c : KeptOn N E W.heap τ) {t e a b : Nat}
    {f : String → Value → Value} (he : E e) (ha : a ∈ (ω t).nodes) (hb : b ∈ (ω t).nodes) :
    let ps := cloneProps f (W.heap.eProps e)
    let op := Op.newEdge a b (W.heap.eLabel e) ps
    (ω t).Valid op ∧ W.heap.eLabel e = τ.label e ∧
    (∀ k, AMap.get ps k = (τ.eprop e k).map (f k)) ∧
    (∀ W' e', W.cloneEdge t (some a) (some b) e f = some (W', e') →
      W.step t op = some (W', false) ∧ e' = (ω t).next) := by
  intro ps op
  have hp := c.eprops e he
  refine ⟨⟨ha, hb, ?_⟩, (c.eattr e he).2.2, fun k => ?_, fun W' n' h => ?_⟩
  · show (AMap.keys (cloneProps f (W.heap.eProps e))).Nodup
    rw [cloneProps_keys]; exact hp.1
  · show AMap.get (cloneProps f (W.heap.eProps e)) k = _
    rw [cloneProps_get]
    congr 1
    exact hp.2 k
  · have ga : W.nodeGraph a = some t := r.ownN t a ha
    have gb : W.nodeGraph b = some t := r.ownN t b hb
    unfold cloneEdge at h
    simp only [ga, gb, ne_eq, not_true, if_false] at h
    split at h
    · cases h
    · rename_i s1 h1
      cases h
      refine ⟨?_, (r.core t).next⟩
      unfold World.step
      simp only [World.target, foreign, op, ga, gb, ne_eq, not_true, decide_false, Bool.or_self, Bool.false_eq_true, if_false]
      have : LPG.step (W.view t) (.newEdge a b (W.heap.eLabel e) ps) = some s1 := h1
      rw [this]
      rfl

/-! ## The invariant -/

/-- The state of a copy from graph `s` to graph `t` that started in `W0`: the nodes in `m` and the edges in `es` have been
copied, and the nodes of `m0` were in the map from the start. `U`: the indexes of the target accept the values, and its edges can be enumerated. `L`: the lists of the target are
not spoiled. -/
structure CopyingInto (m0 : List (Nat × Nat)) (U L : Prop) (Pn Pe : String → Value → Prop) (f : String → Value → Value) (s t : Nat)
    (W0 : World) (ω0 : WSpec) (W : World) (ω : WSpec) (m : List (Nat × Nat)) (es : List Nat) : Prop where
  rep : Rep W ω
  lists : L → Ready W ω t
  ordered : Ordered W ω
  shown : ∀ v, Showing W0 ω0 t v → Showing W ω t ((m.map Prod.snd).foldl Listing.create v)
  src : KeptOn (W0.N s) (W0.E s) W.heap (ω0 s)
  copy : CopyInto m0 f (ω0 s) (ω0 t) (ω t) m es
  others : ∀ g, g ≠ t → ω g = { ω0 g with next := (ω g).next }
  keep : ∀ g, g ≠ t → ∀ d R, Lists W0 ω0 d R g → Lists W ω d R g
  frame : ∀ g, g ≠ t → Agree (W0.N g) (W0.E g) (W0.view g) (W.view g) ∧ (∀ x, W.N g x ↔ W0.N g x) ∧ (∀ x, W.E g x ↔ W0.E g x)
  base : W0.heap.idBase ≤ W.heap.idBase
  keys : ((m0 ++ m).map Prod.fst).Nodup
  given : ∀ p ∈ m0, p.2 ∈ (ω0 t).nodes
  fresh : ∀ p ∈ m, p.2 ∉ (ω0 t).nodes
  safe : U → AllSafe Pn (W.view t).nodeIx ∧ AllSafe Pe (W.view t).edgeIx
  ends : U → (W.view t).getEdges ≠ none
  below : (∀ x, W0.N s x → x < W0.heap.idBase) ∧ ∀ x, W0.E s x → x < W0.heap.idBase

variable {m0 : List (Nat × Nat)} {U L : Prop} {Pn Pe : String → Value → Prop} {f : String → Value → Value} {s t : Nat}
  {W0 : World} {ω0 : WSpec} {W : World} {ω : WSpec} {m : List (Nat × Nat)} {es : List Nat}

theorem CopyingInto.start (r : Rep W0 ω0) (o : Ordered W0 ω0) (l : L → Ready W0 ω0 t)
    (safe : U → AllSafe Pn (W0.view t).nodeIx ∧ AllSafe Pe (W0.view t).edgeIx) (ends : U → (W0.view t).getEdges ≠ none) (keys : (m0.map Prod.fst).Nodup) (given : ∀ p ∈ m0, p.2 ∈ (ω0 t).nodes) :
    CopyingInto m0 U L Pn Pe f s t W0 ω0 W0 ω0 [] [] :=
  ⟨r, l, o, fun _ h => h, ⟨(o.kept s).labels, (o.kept s).nprops, (o.kept s).eattr, (o.kept s).eprops⟩,
    ⟨by simp, by simp, by simp, ⟨[], by simp, .nil⟩, fun _ _ => ⟨rfl, rfl⟩, fun _ _ => ⟨rfl, rfl, rfl, rfl⟩⟩,
    fun _ _ => rfl, fun _ _ _ _ h => h, fun _ _ => ⟨Agree.refl, fun _ => Iff.rfl, fun _ => Iff.rfl⟩, Nat.le_refl _, by simpa using keys, given, by simp,
    safe, ends, fun x hx => r.inv.nodeLt x s hx, fun x hx => r.inv.edgeLt x (edge_of hx).1⟩

/-- The enumeration of the nodes of the target. -/
theorem CopyingInto.getNodes (c : CopyingInto m0 U L Pn Pe f s t W0 ω0 W ω m es) {v : Listing} (h : Showing W0 ω0 t v) :
    (W.view t).getNodes = some ((m.map Prod.snd).foldl Listing.create v).nodes :=
  (c.shown v h).shows.getNodes (c.rep.core t)

/-- What every new node and every new edge keep. -/
theorem CopyingInto.grow (c : CopyingInto m0 U L Pn Pe f s t W0 ω0 W ω m es) {op : Op} {W' : World} {b : Bool}
    (hop : (∃ ls ps, op = .newNode ls ps) ∨ ∃ a b lb ps, op = .newEdge a b lb ps) (hv : (ω t).Valid op)
    (hs : W.step t op = some (W', b)) : Ordered W' (ω.step t op) ∧ KeptOn (W0.N s) (W0.E s) W'.heap (ω0 s) ∧
      (U → (W'.view t).getEdges ≠ none) := by
  obtain ⟨_, _, hs', _⟩ := c.rep.step hv hs
  have k : KeptOn (W0.N s) (W0.E s) (W.view t) (ω0 s) := ⟨c.src.labels, c.src.nprops, c.src.eattr, c.src.eprops⟩
  have k' := k.grow (fun x hx => Nat.lt_of_lt_of_le (c.below.1 x hx) c.base) (fun x hx => Nat.lt_of_lt_of_le (c.below.2 x hx) c.base)
    hop hs'
  exact ⟨c.ordered.step c.rep hv hs, ⟨k'.labels, k'.nprops, k'.eattr, k'.eprops⟩,
    fun hU => getEdges_grow (c.ordered.edges t) hop hs' (c.ends hU)⟩

/-- The nodes of the source are as at the start. -/
theorem CopyingInto.srcNode (c : CopyingInto m0 U L Pn Pe f s t W0 ω0 W ω m es) {n : Nat} (hn : n ∈ (ω0 s).nodes) :
    n ∈ (ω s).nodes ∧ (ω s).labels n = (ω0 s).labels n ∧ (ω s).nprop n = (ω0 s).nprop n := by
  by_cases h : s = t
  · subst h
    rw [c.copy.nodes]
    exact ⟨by simp [hn], c.copy.oldNode n hn⟩
  · rw [c.others s h]; exact ⟨hn, rfl, rfl⟩

/-- The edges of the source are as at the start. -/
theorem CopyingInto.srcEdge (c : CopyingInto m0 U L Pn Pe f s t W0 ω0 W ω m es) {e : Nat} (he : e ∈ (ω0 s).edges) :
    e ∈ (ω s).edges ∧ (ω s).src e = (ω0 s).src e ∧ (ω s).dst e = (ω0 s).dst e ∧ (ω s).label e = (ω0 s).label e ∧
    (ω s).eprop e = (ω0 s).eprop e := by
  by_cases h : s = t
  · subst h
    obtain ⟨es', h1, _⟩ := c.copy.edges
    rw [h1]
    exact ⟨by simp [he], c.copy.oldEdge e he⟩
  · rw [c.others s h]; exact ⟨he, rfl, rfl, rfl, rfl⟩

theorem forall2_right {α β : Type} {P : α → β → Prop} : ∀ {xs : List α} {ys : List β}, List.Forall₂ P xs ys →
    ∀ y ∈ ys, ∃ x ∈ xs, P x y
  | _, _, .nil, y, hy => by cases hy
  | _, _, .cons (a := a) h t, y, hy => by
    rcases List.mem_cons.1 hy with rfl | hy
    · exact ⟨a, by simp, h⟩
    · obtain ⟨x, hx, hp⟩ := forall2_right t y hy
      exact ⟨x, by simp [hx], hp⟩

theorem forall2_imp {α β : Type} {P Q : α → β → Prop} : ∀ {xs : List α} {ys : List β}, List.Forall₂ P xs ys →
    (∀ x y, y ∈ ys → P x y → Q x y) → List.Forall₂ Q xs ys
  | _, _, .nil, _ => .nil
  | _, _, .cons h t, hi => .cons (hi _ _ (by simp) h) (forall2_imp t (fun x y hy hp => hi x y (by simp [hy]) hp))

theorem forall2_snoc {α β : Type} {P : α → β → Prop} {a : α} {b : β} (h : P a b) : ∀ {xs : List α} {ys : List β},
    List.Forall₂ P xs ys → List.Forall₂ P (xs ++ [a]) (ys ++ [b])
  | _, _, .nil => .cons h .nil
  | _, _, .cons h' t => .cons h' (forall2_snoc h t)

/-- What the outgoing edges of a node of the source are during the copy. -/
theorem CopyingInto.srcOut (c : CopyingInto m0 U L Pn Pe f s t W0 ω0 W ω m es) {n : Nat} (hn : n ∈ (ω0 s).nodes) :
    ∃ xs, W.heap.nodeEdges n .outgoing = some xs ∧ xs.Nodup ∧ ∀ e, e ∈ xs ↔ e ∈ (ω0 s).edges ∧ (ω0 s).src e = n := by
  obtain ⟨xs, h1, h2⟩ := (c.rep.core s).out_enum (c.srcNode hn).1
  refine ⟨xs, h1, h2.nodup_iff.2 ((c.rep.core s).eNodup.filter _), fun e => ?_⟩
  rw [h2.mem_iff]
  simp only [List.mem_filter, decide_eq_true_eq]
  constructor
  · rintro ⟨he, hs⟩
    by_cases h : s = t
    · subst h
      obtain ⟨es', h3, h4⟩ := c.copy.edges
      rw [h3] at he
      rcases List.mem_append.1 he with he | he
      · exact ⟨he, by rw [← (c.copy.oldEdge e he).1]; exact hs⟩
      · obtain ⟨x, _, hx⟩ := forall2_right h4 e he
        have := c.fresh _ hx.src
        rw [hs] at this
        exact absurd hn this
    · rw [c.others s h] at he hs
      exact ⟨he, hs⟩
  · rintro ⟨he, hs⟩
    obtain ⟨h3, h4, _⟩ := c.srcEdge he
    exact ⟨h3, by rw [h4]; exact hs⟩

theorem CopyingInto.frame_step (c : CopyingInto m0 U L Pn Pe f s t W0 ω0 W ω m es) {W' : World} {g : Nat} (hg : g ≠ t)
    (ag : Agree (W.N g) (W.E g) (W.view g) (W'.view g)) (ow : (∀ x, W'.N g x ↔ W.N g x) ∧ (∀ x, W'.E g x ↔ W.E g x)) :
    Agree (W0.N g) (W0.E g) (W0.view g) (W'.view g) ∧ (∀ x, W'.N g x ↔ W0.N g x) ∧ (∀ x, W'.E g x ↔ W0.E g x) :=
  have ⟨a, n, e⟩ := c.frame g hg
  ⟨a.trans ag (fun x hx => (n x).2 hx) (fun x hx => (e x).2 hx), fun x => (ow.1 x).trans (n x), fun x => (ow.2 x).trans (e x)⟩

/-- The queries of the other graphs have the answers they had at the start, whatever happened to the graphs before. -/
theorem CopyingInto.same (c : CopyingInto m0 U L Pn Pe f s t W0 ω0 W ω m es) (i : Inv W0) {g : Nat} (hg : g ≠ t) :
    SameAnswers (W0.N g) (W0.E g) (W0.view g) (W.view g) :=
  (c.frame g hg).1.answers (i.closed g) (fun x hx => i.nodeLt x g hx) (fun x hx => i.edgeLt x (edge_of hx).1) c.base

/-- One node is copied. -/
theorem CopyingInto.node (c : CopyingInto m0 U L Pn Pe f s t W0 ω0 W ω m es)
    {n : Nat} (hP : ∀ k v, (ω0 s).nprop n k = some v → Pn k (f k v)) (hn : W0.N s n) (hm : n ∉ (m0 ++ m).map Prod.fst) :
    (U → W.cloneNode t n f ≠ none) ∧ ∀ r, W.cloneNode t n f = some r →
      ∃ ω', CopyingInto m0 U L Pn Pe f s t W0 ω0 r.1 ω' (m ++ [(n, r.2)]) es := by
  obtain ⟨hv, hl, hp, hst⟩ := cloneNode_step c.rep c.src (t := t) (f := f) hn
  have mem_get : ∀ k v, (k, v) ∈ cloneProps f (W.heap.nProps n) → Pn k v := by
    intro k v hkv
    obtain ⟨⟨k', v0⟩, h1, h2⟩ := List.mem_map.1 hkv
    cases h2
    refine hP k' v0 ?_
    have h3 := c.src.nprops n hn
    rw [← h3.2 k']
    exact AMap.get_of_mem h3.1 h1
  refine ⟨fun hU => ?_, ?_⟩
  · obtain ⟨ixs, h1, _⟩ := (c.safe hU).1.addAll (id := (W.view t).idBase) mem_get
    unfold cloneNode State.newNode
    simp only
    rw [h1]
    simp
  · rintro ⟨W', n'⟩ h
    obtain ⟨hst, rfl⟩ := hst W' n' h
    obtain ⟨_, r', hs', ag⟩ := c.rep.step hv hst
    have ct := c.rep.core t
    have e1 : (ω.step t (.newNode (W.heap.nLabels n) (cloneProps f (W.heap.nProps n)))) t =
        (ω t).step (.newNode (W.heap.nLabels n) (cloneProps f (W.heap.nProps n))) := by
      simp only [WSpec.step, if_true]
    have hnx : ∀ x ∈ (ω t).nodes, x ≠ (ω t).next := fun x hx => Nat.ne_of_lt (ct.nLt x hx)
    have inT : ∀ p ∈ m, p.2 ∈ (ω t).nodes := fun p hp => by
      rw [c.copy.nodes]; exact List.mem_append_right _ (List.mem_map_of_mem hp)
    obtain ⟨g1, g2, g3⟩ := c.grow (.inl ⟨_, _, rfl⟩) hv hst
    refine ⟨_, r', fun hL => (c.lists hL).newNode c.rep hv hst, g1, fun v hw => ?_, g2, ?_, ?_, ?_, ?_, ?_, ?_, c.given, ?_, ?_, g3,
      c.below⟩
    · have := (c.shown v hw).step c.rep hv hst
      simpa [Listing.step] using this
    · rw [e1]
      refine ⟨?_, ?_, ?_, ?_, ?_, c.copy.oldEdge⟩
      · simp only [Spec.step, c.copy.nodes, List.map_append, List.map_cons, List.map_nil, List.append_assoc]
      · intro p hp l
        rcases List.mem_append.1 hp with hp | hp
        · simp only [Spec.step, upd_other _ _ (hnx _ (inT p hp))]; exact c.copy.labels p hp l
        · simp at hp; subst hp
          simp only [Spec.step, upd_same, hl l]
      · intro p hp' k
        rcases List.mem_append.1 hp' with hp' | hp'
        · simp only [Spec.step, upd_other _ _ (hnx _ (inT p hp'))]; exact c.copy.nprop p hp' k
        · simp at hp'; subst hp'
          simp only [Spec.step, upd_same]
          rw [hp k]
      · obtain ⟨es', h1, h2⟩ := c.copy.edges
        exact ⟨es', h1, forall2_imp h2 (fun x y _ hx => ⟨List.mem_append_left _ hx.src, by rw [← List.append_assoc]; exact List.mem_append_left _ hx.dst,
          hx.label, hx.eprop⟩)⟩
      · intro x hx
        have : x ∈ (ω t).nodes := by rw [c.copy.nodes]; simp [hx]
        simp only [Spec.step, upd_other _ _ (hnx x this)]
        exact c.copy.oldNode x hx
    · intro g hg
      simp only [WSpec.step, if_neg hg]
      rw [c.others g hg]
    · exact fun g hg d R l => (c.keep g hg d R l).other c.rep hg (ag g hg)
    · exact fun g hg => c.frame_step hg (ag g hg) (c.rep.owned hv hst g hg)
    · exact Nat.le_trans c.base (c.rep.base_le hv hst)
    · rw [← List.append_assoc, List.map_append, List.nodup_append]
      refine ⟨c.keys, by simp, ?_⟩
      intro a ha b hb
      simp at hb; subst hb
      rintro rfl; exact hm ha
    · intro p hp
      rcases List.mem_append.1 hp with hp | hp
      · exact c.fresh p hp
      · simp at hp; subst hp
        intro hx
        exact hnx (ω t).next (by rw [c.copy.nodes]; simp [hx]) rfl
    · intro hU
      obtain ⟨ixs, h1, h2⟩ := newNode_frame hs'
      obtain ⟨ixs', h3, h4⟩ := (c.safe hU).1.addAll (id := (W.view t).idBase) mem_get
      rw [h3] at h1; cases h1
      rw [h2]
      exact ⟨h4, (c.safe hU).2⟩

/-- One edge is copied. -/
theorem CopyingInto.edge (c : CopyingInto m0 U L Pn Pe f s t W0 ω0 W ω m es)
    {e : Nat} (hP : ∀ k v, (ω0 s).eprop e k = some v → Pe k (f k v)) (he : W0.E s e)
    (h1 : (ω0 s).src e ∈ m.map Prod.fst) (h2 : (ω0 s).dst e ∈ (m0 ++ m).map Prod.fst) :
    (U → W.copyEdge e t f (m0 ++ m) ≠ none) ∧ ∀ r, W.copyEdge e t f (m0 ++ m) = some r →
      ∃ ω', CopyingInto m0 U L Pn Pe f s t W0 ω0 r.1 ω' m (es ++ [e]) := by
  have hat := c.src.eattr e he
  have inT : ∀ p ∈ m0 ++ m, p.2 ∈ (ω t).nodes := fun p hp => by
    rw [c.copy.nodes]
    rcases List.mem_append.1 hp with hp | hp
    · exact List.mem_append_left _ (c.given p hp)
    · exact List.mem_append_right _ (List.mem_map_of_mem hp)
  obtain ⟨⟨a0, a⟩, hma, ha⟩ := List.mem_map.1 h1
  obtain ⟨⟨b0, b⟩, hmb, hb⟩ := List.mem_map.1 h2
  simp only at ha hb
  subst ha hb
  have ga : AMap.get (m0 ++ m) (W.heap.eFrom e) = some a := by
    rw [hat.1]; exact AMap.get_of_mem c.keys (List.mem_append_right _ hma)
  have gb : AMap.get (m0 ++ m) (W.heap.eTo e) = some b := by
    rw [hat.2.1]; exact AMap.get_of_mem c.keys hmb
  obtain ⟨hv, hl, hp, hst⟩ := cloneEdge_step c.rep c.src (t := t) (f := f) (a := a) (b := b) he (inT _ (List.mem_append_right _ hma)) (inT _ hmb)
  have mem_get : ∀ k v, (k, v) ∈ cloneProps f (W.heap.eProps e) → Pe k v := by
    intro k v hkv
    obtain ⟨⟨k', v0⟩, h1, h2⟩ := List.mem_map.1 hkv
    cases h2
    refine hP k' v0 ?_
    have h3 := c.src.eprops e he
    rw [← h3.2 k']
    exact AMap.get_of_mem h3.1 h1
  have ct := c.rep.core t
  unfold copyEdge
  rw [ga, gb]
  refine ⟨fun hU => ?_, ?_⟩
  · obtain ⟨s', h⟩ := ct.newEdge_total (c.ends hU) (c.safe hU).2 hv mem_get
    have qa : W.nodeGraph a = some t := c.rep.ownN t a (inT _ (List.mem_append_right _ hma))
    have qb : W.nodeGraph b = some t := c.rep.ownN t b (inT _ hmb)
    unfold cloneEdge
    simp only [qa, qb, ne_eq, not_true, if_false]
    rw [h]
    simp
  · rintro ⟨W', e'⟩ h
    obtain ⟨hst, rfl⟩ := hst W' e' h
    obtain ⟨_, r', hs', ag⟩ := c.rep.step hv hst
    have e1 : (ω.step t (.newEdge a b (W.heap.eLabel e) (cloneProps f (W.heap.eProps e)))) t =
        (ω t).step (.newEdge a b (W.heap.eLabel e) (cloneProps f (W.heap.eProps e))) := by
      simp only [WSpec.step, if_true]
    have hnx : ∀ x ∈ (ω t).edges, x ≠ (ω t).next := fun x hx => Nat.ne_of_lt (ct.eLt x hx)
    obtain ⟨g1, g2, g3⟩ := c.grow (.inr ⟨_, _, _, _, rfl⟩) hv hst
    refine ⟨_, r', fun hL => (c.lists hL).newEdge c.rep hv hst, g1, fun v hw => ?_, g2, ?_, ?_, ?_, ?_, ?_, c.keys, c.given, c.fresh, ?_, g3,
      c.below⟩
    · have := (c.shown v hw).step c.rep hv hst
      simpa [Listing.step] using this
    · rw [e1]
      obtain ⟨es', q1, q2⟩ := c.copy.edges
      refine ⟨c.copy.nodes, c.copy.labels, c.copy.nprop, ⟨es' ++ [(ω t).next], ?_, ?_⟩, c.copy.oldNode, ?_⟩
      · simp only [Spec.step, q1, List.append_assoc]
      · refine forall2_snoc ?_ (forall2_imp q2 (fun x y hy hx => ?_))
        · refine ⟨?_, ?_, ?_, fun k => ?_⟩
          · simp only [Spec.step, upd_same]; exact hma
          · simp only [Spec.step, upd_same]; exact hmb
          · simp only [Spec.step, upd_same]; rw [hl]
          · simp only [Spec.step, upd_same]; rw [hp k]
        · have hy' : y ∈ (ω t).edges := by rw [q1]; simp [hy]
          refine ⟨?_, ?_, ?_, fun k => ?_⟩
          · simp only [Spec.step, upd_other _ _ (hnx y hy')]; exact hx.src
          · simp only [Spec.step, upd_other _ _ (hnx y hy')]; exact hx.dst
          · simp only [Spec.step, upd_other _ _ (hnx y hy')]; exact hx.label
          · simp only [Spec.step, upd_other _ _ (hnx y hy')]; exact hx.eprop k
      · intro x hx
        have : x ∈ (ω t).edges := by rw [q1]; simp [hx]
        simp only [Spec.step, upd_other _ _ (hnx x this)]
        exact c.copy.oldEdge x hx
    · intro g hg
      simp only [WSpec.step, if_neg hg]
      rw [c.others g hg]
    · exact fun g hg d R l => (c.keep g hg d R l).other c.rep hg (ag g hg)
    · exact fun g hg => c.frame_step hg (ag g hg) (c.rep.owned hv hst g hg)
    · exact Nat.le_trans c.base (c.rep.base_le hv hst)
    · intro hU
      obtain ⟨_, _, _, _, _, _, g7, _, _, _, _, hix⟩ := newEdge_frame hs'
      obtain ⟨ixs', h3, h4⟩ := (c.safe hU).2.addAll (id := (W.view t).idBase) mem_get
      rw [h3] at hix; cases hix
      exact ⟨by rw [g7]; exact (c.safe hU).1, h4⟩

/-! ## Copying with an empty map -/

abbrev Copying (U L : Prop) (Pn Pe : String → Value → Prop) (f : String → Value → Value) (s t : Nat)
    (W0 : World) (ω0 : WSpec) (W : World) (ω : WSpec) (m : List (Nat × Nat)) (es : List Nat) : Prop :=
  CopyingInto [] U L Pn Pe f s t W0 ω0 W ω m es

theorem Copying.start (r : Rep W0 ω0) (o : Ordered W0 ω0) (l : L → Ready W0 ω0 t)
    (safe : U → AllSafe Pn (W0.view t).nodeIx ∧ AllSafe Pe (W0.view t).edgeIx) (ends : U → (W0.view t).getEdges ≠ none) :
    Copying U L Pn Pe f s t W0 ω0 W0 ω0 [] [] := CopyingInto.start r o l safe ends (by simp) (by simp)

theorem Copying.keys (c : Copying U L Pn Pe f s t W0 ω0 W ω m es) : (m.map Prod.fst).Nodup := CopyingInto.keys c

theorem Copying.node (c : Copying U L Pn Pe f s t W0 ω0 W ω m es)
    {n : Nat} (hP : ∀ k v, (ω0 s).nprop n k = some v → Pn k (f k v)) (hn : W0.N s n) (hm : n ∉ m.map Prod.fst) :
    (U → W.cloneNode t n f ≠ none) ∧ ∀ r, W.cloneNode t n f = some r →
      ∃ ω', Copying U L Pn Pe f s t W0 ω0 r.1 ω' (m ++ [(n, r.2)]) es := CopyingInto.node c hP hn hm

theorem Copying.edge (c : Copying U L Pn Pe f s t W0 ω0 W ω m es)
    {e : Nat} (hP : ∀ k v, (ω0 s).eprop e k = some v → Pe k (f k v)) (he : W0.E s e)
    (h1 : (ω0 s).src e ∈ m.map Prod.fst) (h2 : (ω0 s).dst e ∈ m.map Prod.fst) :
    (U → W.copyEdge e t f m ≠ none) ∧ ∀ r, W.copyEdge e t f m = some r →
      ∃ ω', Copying U L Pn Pe f s t W0 ω0 r.1 ω' m (es ++ [e]) := CopyingInto.edge c hP he h1 h2

end World
end LPG

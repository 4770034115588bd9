import Verif.Proofs.WorldCore
import Verif.Proofs.Listing
import Verif.Proofs.EdgeMono
import Verif.Proofs.Mono
import Verif.Proofs.Total
/-! What holds for every graph of a program, whatever happened to its lists. -/
namespace LPG
open State

theorem Core.holds {s : State} {σ : Spec} (c : Core s σ) : Holds s σ :=
  ⟨c.count, c.labels, fun n hn k => (c.nprops n hn).2 k, fun e he => ⟨(c.eattr e he).1, (c.eattr e he).2.1⟩,
    fun e he => (c.eattr e he).2.2, fun e he k => (c.eprops e he).2 k, fun n hn => c.out_enum hn, fun n hn => c.inc_enum hn,
    ⟨c.nNodup, c.eNodup⟩, c.ends⟩

/-! ## Labels, properties and ends stay, also of removed nodes and edges -/

/-- The nodes `N` and edges `E`, removed or not, have the attributes of the abstract graph. -/
structure KeptOn (N E : Nat → Prop) (s : State) (σ : Spec) : Prop where
  labels : ∀ n, N n → (s.nLabels n).Nodup ∧ ∀ l, l ∈ s.nLabels n ↔ l ∈ σ.labels n
  nprops : ∀ n, N n → (AMap.keys (s.nProps n)).Nodup ∧ ∀ k, (s.nProps n).get k = σ.nprop n k
  eattr : ∀ e, E e → s.eFrom e = σ.src e ∧ s.eTo e = σ.dst e ∧ s.eLabel e = σ.label e
  eprops : ∀ e, E e → (AMap.keys (s.eProps e)).Nodup ∧ ∀ k, (s.eProps e).get k = σ.eprop e k

theorem KeptOn.step {N E : Nat → Prop} {s s' : State} {σ : Spec} {op : Op} (h : KeptOn N E s σ) (hx : s.idBase = σ.next)
    (hv : σ.Valid op) (hs : LPG.step s op = some s') :
    KeptOn (fun x => N x ∨ op.freshN s x) (fun x => E x ∨ op.freshE s x) s' (σ.step op) := by
  obtain ⟨h1, h2, h3, h4⟩ := h
  cases op with
  | newNode ls ps =>
    obtain ⟨ixs, _, rfl⟩ := newNode_frame hs
    refine ⟨fun n hn => ?_, fun n hn => ?_, fun e he => ?_, fun e he => ?_⟩
    · simp only [Spec.step, upd_apply, hx]; split
      · exact eraseDups_spec ls
      · rename_i hne
        exact h1 n (hn.resolve_right (fun hf => hne (by rw [← hx]; exact hf)))
    · simp only [Spec.step, upd_apply, hx]; split
      · exact ⟨hv, fun _ => rfl⟩
      · rename_i hne
        exact h2 n (hn.resolve_right (fun hf => hne (by rw [← hx]; exact hf)))
    · exact h3 e (he.resolve_right (fun h => h))
    · exact h4 e (he.resolve_right (fun h => h))
  | newEdge a b l ps =>
    obtain ⟨_, _, _, e1, e2, _, _, e3, e4, e5, e6, _⟩ := newEdge_frame hs
    refine ⟨fun n hn => ?_, fun n hn => ?_, fun e he => ?_, fun e he => ?_⟩
    · rw [e1]; exact h1 n (hn.resolve_right (fun h => h))
    · rw [e2]; exact h2 n (hn.resolve_right (fun h => h))
    · rw [e4, e5, e6]
      simp only [Spec.step, upd_apply, hx]; split
      · exact ⟨rfl, rfl, rfl⟩
      · rename_i hne
        exact h3 e (he.resolve_right (fun hf => hne (by rw [← hx]; exact hf)))
    · rw [e3]
      simp only [Spec.step, upd_apply, hx]; split
      · exact ⟨hv.2.2, fun _ => rfl⟩
      · rename_i hne
        exact h4 e (he.resolve_right (fun hf => hne (by rw [← hx]; exact hf)))
  | setLabels n ls =>
    cases hs
    refine ⟨fun m hm => ?_, fun m hm => h2 m (hm.resolve_right (fun h => h)), fun e he => h3 e (he.resolve_right (fun h => h)),
      fun e he => h4 e (he.resolve_right (fun h => h))⟩
    simp only [State.setLabels, Spec.step, upd_apply]; split
    · exact ⟨hv.2, fun _ => Iff.rfl⟩
    · exact h1 m (hm.resolve_right (fun h => h))
  | setNodeProp n k v =>
    obtain ⟨ixs, rfl⟩ := setNodeProp_frame hs
    refine ⟨fun m hm => h1 m (hm.resolve_right (fun h => h)), fun m hm => ?_, fun e he => h3 e (he.resolve_right (fun h => h)),
      fun e he => h4 e (he.resolve_right (fun h => h))⟩
    have hk := h2 m (hm.resolve_right (fun h => h))
    simp only [Spec.step, upd_apply]; split
    · rename_i he; subst he
      refine ⟨AMap.nodup_set hk.1 _ _, fun k' => ?_⟩
      rw [AMap.get_set, upd_apply]; split
      · rfl
      · exact hk.2 k'
    · exact hk
  | removeNodeProp n k =>
    obtain ⟨ixs, rfl⟩ := removeNodeProp_frame hs
    refine ⟨fun m hm => h1 m (hm.resolve_right (fun h => h)), fun m hm => ?_, fun e he => h3 e (he.resolve_right (fun h => h)),
      fun e he => h4 e (he.resolve_right (fun h => h))⟩
    have hk := h2 m (hm.resolve_right (fun h => h))
    simp only [Spec.step, upd_apply]; split
    · rename_i he; subst he
      refine ⟨AMap.nodup_del hk.1 _, fun k' => ?_⟩
      rw [AMap.get_del, upd_apply]; split
      · rfl
      · exact hk.2 k'
    · exact hk
  | setEdgeProp n k v =>
    obtain ⟨ixs, rfl⟩ := setEdgeProp_frame hs
    refine ⟨fun m hm => h1 m (hm.resolve_right (fun h => h)), fun m hm => h2 m (hm.resolve_right (fun h => h)),
      fun e he => h3 e (he.resolve_right (fun h => h)), fun m hm => ?_⟩
    have hk := h4 m (hm.resolve_right (fun h => h))
    simp only [Spec.step, upd_apply]; split
    · rename_i he; subst he
      refine ⟨AMap.nodup_set hk.1 _ _, fun k' => ?_⟩
      rw [AMap.get_set, upd_apply]; split
      · rfl
      · exact hk.2 k'
    · exact hk
  | removeEdgeProp n k =>
    obtain ⟨ixs, rfl⟩ := removeEdgeProp_frame hs
    refine ⟨fun m hm => h1 m (hm.resolve_right (fun h => h)), fun m hm => h2 m (hm.resolve_right (fun h => h)),
      fun e he => h3 e (he.resolve_right (fun h => h)), fun m hm => ?_⟩
    have hk := h4 m (hm.resolve_right (fun h => h))
    simp only [Spec.step, upd_apply]; split
    · rename_i he; subst he
      refine ⟨AMap.nodup_del hk.1 _, fun k' => ?_⟩
      rw [AMap.get_del, upd_apply]; split
      · rfl
      · exact hk.2 k'
    · exact hk
  | setEdgeLabel e l =>
    have key : ∀ x, E x → s'.eFrom x = σ.src x ∧ s'.eTo x = σ.dst x ∧ s'.eLabel x = (upd σ.label e l) x := by
      intro x hx
      obtain ⟨g1, g2, g3⟩ := h3 x hx
      simp only [LPG.step, State.setEdgeLabel] at hs
      split at hs
      · rename_i hl
        cases hs
        refine ⟨g1, g2, ?_⟩
        rw [upd_apply]; split
        · rename_i he; subst he; exact hl.symm
        · exact g3
      · obtain ⟨_, _, _, _, rfl⟩ := connect_frame hs
        refine ⟨g1, g2, ?_⟩
        show upd s.eLabel e l x = _
        rw [upd_apply, upd_apply]; split
        · rfl
        · exact g3
    have rest : s'.nLabels = s.nLabels ∧ s'.nProps = s.nProps ∧ s'.eProps = s.eProps := by
      simp only [LPG.step, State.setEdgeLabel] at hs
      split at hs
      · cases hs; exact ⟨rfl, rfl, rfl⟩
      · obtain ⟨_, _, _, _, rfl⟩ := connect_frame hs; exact ⟨rfl, rfl, rfl⟩
    obtain ⟨r1, r2, r3⟩ := rest
    refine ⟨fun m hm => ?_, fun m hm => ?_, fun x hx => key x (hx.resolve_right (fun h => h)), fun m hm => ?_⟩
    · rw [r1]; exact h1 m (hm.resolve_right (fun h => h))
    · rw [r2]; exact h2 m (hm.resolve_right (fun h => h))
    · rw [r3]; exact h4 m (hm.resolve_right (fun h => h))
  | detach n =>
    obtain ⟨_, _, _, _, _, _, _, rfl⟩ := detachNode_frame hs
    exact ⟨fun m hm => h1 m (hm.resolve_right (fun h => h)), fun m hm => h2 m (hm.resolve_right (fun h => h)),
      fun e he => h3 e (he.resolve_right (fun h => h)), fun e he => h4 e (he.resolve_right (fun h => h))⟩
  | detachRemove n =>
    simp only [LPG.step, State.detachRemoveNode] at hs
    split at hs
    · cases hs
    · rename_i s1 hd
      obtain ⟨_, _, _, _, _, _, _, rfl⟩ := detachNode_frame hd
      split at hs
      · cases hs
      · cases hs
        exact ⟨fun m hm => h1 m (hm.resolve_right (fun h => h)), fun m hm => h2 m (hm.resolve_right (fun h => h)),
          fun e he => h3 e (he.resolve_right (fun h => h)), fun e he => h4 e (he.resolve_right (fun h => h))⟩
  | removeEdge e =>
    cases hs
    exact ⟨fun m hm => h1 m (hm.resolve_right (fun h => h)), fun m hm => h2 m (hm.resolve_right (fun h => h)),
      fun e he => h3 e (he.resolve_right (fun h => h)), fun e he => h4 e (he.resolve_right (fun h => h))⟩
  | addNodeIndex k t =>
    obtain ⟨ixs, rfl⟩ := addNodeIndex_frame hs
    exact ⟨fun m hm => h1 m (hm.resolve_right (fun h => h)), fun m hm => h2 m (hm.resolve_right (fun h => h)),
      fun e he => h3 e (he.resolve_right (fun h => h)), fun e he => h4 e (he.resolve_right (fun h => h))⟩
  | addEdgeIndex k t =>
    obtain ⟨ixs, rfl⟩ := addEdgeIndex_frame hs
    exact ⟨fun m hm => h1 m (hm.resolve_right (fun h => h)), fun m hm => h2 m (hm.resolve_right (fun h => h)),
      fun e he => h3 e (he.resolve_right (fun h => h)), fun e he => h4 e (he.resolve_right (fun h => h))⟩

/-- New nodes and edges change nothing about the others. -/
theorem KeptOn.grow {N E : Nat → Prop} {s s' : State} {σ : Spec} {op : Op} (h : KeptOn N E s σ) (hN : ∀ n, N n → n < s.idBase)
    (hE : ∀ e, E e → e < s.idBase) (hop : (∃ ls ps, op = .newNode ls ps) ∨ ∃ a b lb ps, op = .newEdge a b lb ps)
    (hs : LPG.step s op = some s') : KeptOn N E s' σ := by
  rcases hop with ⟨ls, ps, rfl⟩ | ⟨a, b, lb, ps, rfl⟩
  · obtain ⟨ixs, _, rfl⟩ := newNode_frame hs
    refine ⟨fun n hn => ?_, fun n hn => ?_, h.eattr, h.eprops⟩
    · simp only [upd_other _ _ (Nat.ne_of_lt (hN n hn))]; exact h.labels n hn
    · simp only [upd_other _ _ (Nat.ne_of_lt (hN n hn))]; exact h.nprops n hn
  · obtain ⟨_, _, _, e1, e2, _, _, e3, e4, e5, e6, _⟩ := newEdge_frame hs
    refine ⟨fun n hn => ?_, fun n hn => ?_, fun e he => ?_, fun e he => ?_⟩
    · rw [e1]; exact h.labels n hn
    · rw [e2]; exact h.nprops n hn
    · rw [e4, e5, e6]
      simp only [upd_other _ _ (Nat.ne_of_lt (hE e he))]; exact h.eattr e he
    · rw [e3]
      simp only [upd_other _ _ (Nat.ne_of_lt (hE e he))]; exact h.eprops e he

/-- In a graph of its own all nodes and edges keep their attributes. -/
theorem KeptOn.runFrom {ops : List Op} : ∀ {s s' : State} {σ : Spec}, KeptOn (fun _ => True) (fun _ => True) s σ → Core s σ →
    σ.ValidFrom ops → LPG.runFrom s ops = some s' → KeptOn (fun _ => True) (fun _ => True) s' (σ.runFrom ops) := by
  induction ops with
  | nil => intro s s' σ h _ _ hs; cases hs; exact h
  | cons op ops ih =>
    intro s s' σ h c hv hs
    rw [LPG.runFrom] at hs
    split at hs
    · cases hs
    · rename_i s1 h1
      have k := h.step c.next hv.1 h1
      exact ih ⟨fun n _ => k.labels n (.inl trivial), fun n _ => k.nprops n (.inl trivial), fun n _ => k.eattr n (.inl trivial),
        fun n _ => k.eprops n (.inl trivial)⟩ (c.step hv.1 h1) hv.2 hs

theorem KeptOn.run {ops : List Op} {s : State} (hv : Spec.ValidHistory ops) (hs : LPG.run ops = some s) :
    KeptOn (fun _ => True) (fun _ => True) s (Spec.run ops) :=
  KeptOn.runFrom (s := State.new) (σ := Spec.new) ⟨fun _ _ => ⟨List.nodup_nil, fun _ => Iff.rfl⟩, fun _ _ => ⟨List.nodup_nil, fun _ => rfl⟩,
    fun _ _ => ⟨rfl, rfl, rfl⟩, fun _ _ => ⟨List.nodup_nil, fun _ => rfl⟩⟩ Core.init hv hs

/-! ## Agreement -/

theorem NShows.agree {P Q : NPtr} {l : NList} {N : List Nat} {b b' : Nat} {v : Listing} (h : NShows P l N b v) (hb : b ≤ b')
    (hr : ∀ n ∈ v.removed, Q.next n = P.next n) (hl : ∀ n ∈ N, Q.next n = P.next n ∧ Q.prev n = P.prev n) :
    NShows Q l N b' v := by
  obtain ⟨g1, g2, ⟨pr, g3, g4⟩, g5, g6, g7, g8, g9, g10, g11⟩ := h
  have up : ∀ {t : Nat}, Aside N b v.removed t → Aside N b' v.removed t :=
    fun ht => ⟨Nat.lt_of_lt_of_le ht.lt hb, ht.gone, ht.hidden⟩
  have seg : ∀ {pr : Option Nat} {c : List Nat}, (∀ x ∈ c, x ∈ N) → Seg P.slot pr c none → Seg Q.slot pr c none :=
    fun hc hs => Seg.congr (fun x hx => by
      obtain ⟨e1, e2⟩ := hl x (hc x hx)
      simp only [NPtr.slot, e1, e2]) hs
  have hsh : ∀ x ∈ v.shown, x ∈ N := fun x hx => g6.subset (by simp [hx])
  have hlo : ∀ c ∈ v.lost, ∀ x ∈ c, x ∈ N := fun c hc x hx => g6.subset (List.mem_append_right _ (List.mem_flatten.2 ⟨c, hc, hx⟩))
  refine ⟨g1, LinksTo.congr hr g2, ⟨pr, seg hsh g3, ?_⟩, ?_, g6, fun n hn => ⟨(g7 n hn).1, Nat.lt_of_lt_of_le (g7 n hn).2 hb⟩, g8,
    g9, g10, ?_⟩
  · split at g4
    · rename_i ha; rw [if_pos ha]; exact g4
    · rename_i ha
      obtain ⟨t, k1, k2⟩ := g4
      rw [if_neg ha]
      exact ⟨t, k1, up k2⟩
  · intro d hd
    obtain ⟨t, k1, k2⟩ := g5 d hd
    exact ⟨t, seg (hlo d hd) k1, up k2⟩
  · intro ho
    obtain ⟨d, ds, t, k1, k2, k3, k4⟩ := g11 ho
    exact ⟨d, ds, t, k1, seg (hlo d (by rw [k1]; simp)) k2, up k3, k4⟩

theorem KeptOn.agree {N E : Nat → Prop} {s s' : State} {σ : Spec} {m : Nat} (h : KeptOn N E s σ) (a : Agree N E s s') :
    KeptOn N E s' { σ with next := m } := by
  refine ⟨fun n hn => ?_, fun n hn => ?_, fun e he => ?_, fun e he => ?_⟩
  · rw [(a.node n hn).2.2.1]; exact h.labels n hn
  · rw [(a.node n hn).2.2.2.1]; exact h.nprops n hn
  · obtain ⟨g1, g2, g3, _⟩ := a.edge e he; rw [g1, g2, g3]; exact h.eattr e he
  · rw [(a.edge e he).2.2.2.1]; exact h.eprops e he

namespace World

/-- The lists of each graph go from smaller to greater ids, and nodes and edges keep their attributes. -/
structure Ordered (W : World) (ω : WSpec) : Prop where
  nodes : ∀ g, Mono (W.view g).nptr (W.view g).allNodes (W.view g).idBase
  edges : ∀ g, (W.view g).AllMono
  kept : ∀ g, KeptOn (W.N g) (W.E g) (W.view g) (ω g)

theorem Ordered.init : Ordered World.new WSpec.new := by
  refine ⟨fun _ => Mono.init, fun _ => EMono.init, fun g => ?_⟩
  have hN : ∀ x, ¬ (World.new.N g) x := fun x h => by simp [N, World.new] at h
  have hE : ∀ x, ¬ (World.new.E g) x := fun x h => by simp [E, edgeGraph, World.new] at h
  exact ⟨fun n h => absurd h (hN n), fun n h => absurd h (hN n), fun n h => absurd h (hE n), fun n h => absurd h (hE n)⟩

theorem Ordered.step {W W' : World} {ω : WSpec} (o : Ordered W ω) (r : Rep W ω) {g : Nat} {op : Op} {b : Bool}
    (hv : (ω g).Valid op) (hs : W.step g op = some (W', b)) : Ordered W' (ω.step g op) := by
  obtain ⟨_, r', hs1, ag⟩ := r.step hv hs
  have hb := r.base_le hv hs
  have n1 := (o.nodes g).step (r.core g) hv hs1
  have e1 := (o.edges g).step hs1
  refine ⟨fun h => ?_, fun h => ?_, fun h => ?_⟩
  · by_cases hh : h = g
    · subst hh; exact n1
    · have a := ag h hh
      have o1 := o.nodes h
      have hb : (W.view h).idBase ≤ (W'.view h).idBase := hb
      exact ⟨fun x hx => Nat.lt_of_lt_of_le (o1.head x (by rw [← a.allNodes]; exact hx)) hb,
        fun x hx => Nat.lt_of_lt_of_le (o1.tail x (by rw [← a.allNodes]; exact hx)) hb, n1.next, n1.prev⟩
  · by_cases hh : h = g
    · subst hh; exact e1
    · have a := ag h hh
      have o1 := o.edges h
      have hb : (W.view h).idBase ≤ (W'.view h).idBase := hb
      refine ⟨e1.slot, fun p hp => (o1.lists p (by rw [← a.allEdges]; exact hp)).le hb,
        fun x hx => Nat.lt_of_lt_of_le (o1.only x (by rw [← a.allEdges]; exact hx)) hb⟩
  · by_cases hh : h = g
    · subst hh
      have k := (o.kept h).step (r.core h).next hv hs1
      have e : (ω.step h op) h = (ω h).step op := by simp only [WSpec.step, if_true]
      rw [e]
      obtain ⟨ht, hf⟩ := r.target hv
      obtain ⟨t, ht', ⟨hf', _, _⟩ | ⟨_, hbf, s, hs', rfl⟩⟩ := step_cases hs
      · rw [ht] at ht'; cases ht'; rw [hf] at hf'; cases hf'
      · rw [ht] at ht'; cases ht'
        obtain ⟨w1, w2⟩ := owners r.inv hf hs' h
        refine ⟨fun n hn => k.labels n ?_, fun n hn => k.nprops n ?_, fun n hn => k.eattr n ?_, fun n hn => k.eprops n ?_⟩
        · exact ((w1 n).1 hn).imp_right And.right
        · exact ((w1 n).1 hn).imp_right And.right
        · exact ((w2 n).1 hn).imp_right And.right
        · exact ((w2 n).1 hn).imp_right And.right
    · have e : (ω.step g op) h = { ω h with next := ((ω g).step op).next } := by simp only [WSpec.step, if_neg hh]
      have k := (o.kept h).agree (m := ((ω g).step op).next) (ag h hh)
      rw [e]
      obtain ⟨w1, w2⟩ := r.owned hv hs h hh
      exact ⟨fun n hn => k.labels n ((w1 n).1 hn), fun n hn => k.nprops n ((w1 n).1 hn), fun n hn => k.eattr n ((w2 n).1 hn),
        fun n hn => k.eprops n ((w2 n).1 hn)⟩

/-- What the enumeration of the nodes of graph `g` shows. -/
structure Showing (W : World) (ω : WSpec) (g : Nat) (v : Listing) : Prop where
  shows : NShows (W.view g).nptr (W.view g).allNodes (ω g).nodes (ω g).next v
  own : ∀ n ∈ v.removed, W.N g n

theorem Showing.init (g : Nat) : Showing World.new WSpec.new g Listing.empty := ⟨NShows.init, by simp [Listing.empty]⟩

theorem listing_removed {σ : Spec} {v : Listing} {op : Op} (hv : σ.Valid op) :
    ∀ n ∈ (v.step σ op).removed, n ∈ v.removed ∨ n ∈ σ.nodes := by
  intro n hn
  cases op with
  | newNode ls ps =>
    simp only [Listing.step, Listing.create] at hn
    split at hn
    · exact Or.inl hn
    · split at hn
      · exact Or.inl hn
      · split at hn <;> exact Or.inl hn
  | detachRemove m =>
    simp only [Listing.step, Listing.remove] at hn
    have hm : m ∈ σ.nodes := hv
    split at hn
    · split at hn
      · simp only [List.mem_append, List.mem_singleton] at hn
        rcases hn with hn | rfl
        · exact Or.inl hn
        · exact Or.inr hm
      · exact Or.inl hn
    · split at hn
      · simp only at hn
        split at hn
        · simp only [List.mem_append, List.mem_singleton] at hn
          rcases hn with hn | rfl
          · exact Or.inl hn
          · exact Or.inr hm
        · exact Or.inl hn
      · split at hn <;> exact Or.inl hn
  | _ => exact Or.inl hn

theorem Showing.step {W W' : World} {ω : WSpec} {k : Nat} {v : Listing} (h : Showing W ω k v) (r : Rep W ω) {g : Nat} {op : Op}
    {b : Bool} (hv : (ω g).Valid op) (hs : W.step g op = some (W', b)) :
    Showing W' (ω.step g op) k (if g = k then v.step (ω g) op else v) := by
  obtain ⟨_, r', hs1, ag⟩ := r.step hv hs
  by_cases hg : g = k
  · subst hg
    rw [if_pos rfl]
    have e : (ω.step g op) g = (ω g).step op := by simp only [WSpec.step, if_true]
    refine ⟨by rw [e]; exact NShows.step (r.core g) h.shows hv hs1, fun n hn => ?_⟩
    have hN : W.N g n := by
      rcases listing_removed hv n hn with h1 | h1
      · exact h.own n h1
      · exact r.ownN g n h1
    obtain ⟨ht, hf⟩ := r.target hv
    obtain ⟨t, ht', ⟨hf', _, _⟩ | ⟨_, hbf, s, hs', rfl⟩⟩ := step_cases hs
    · rw [ht] at ht'; cases ht'; rw [hf] at hf'; cases hf'
    · rw [ht] at ht'; cases ht'
      exact ((owners r.inv hf hs' g).1 n).2 (Or.inl hN)
  · rw [if_neg hg]
    have a := ag k (Ne.symm hg)
    have e : (ω.step g op) k = { ω k with next := ((ω g).step op).next } := by simp only [WSpec.step, if_neg (Ne.symm hg)]
    refine ⟨?_, fun n hn => ((r.owned hv hs k (Ne.symm hg)).1 n).2 (h.own n hn)⟩
    rw [e, a.allNodes]
    refine h.shows.agree ?_ (fun n hn => (a.node n (h.own n hn)).1)
      (fun n hn => ⟨(a.node n (r.ownN k n hn)).1, (a.node n (r.ownN k n hn)).2.1⟩)
    have h1 : (ω k).next = (ω g).next := (r.core k).next.symm.trans (r.core g).next
    rw [spec_step_next]; omega

theorem Ordered.runFrom : ∀ {ops : List (Nat × Op)} {W W' : World} {ω : WSpec}, Ordered W ω → Rep W ω → ω.ValidFrom ops →
    World.runFrom W ops = some W' → Ordered W' (ω.runFrom ops)
  | [], W, W', ω, o, _, _, h => by cases h; exact o
  | (g, op) :: ops, W, W', ω, o, r, hv, h => by
    rw [World.runFrom] at h
    split at h
    · cases h
    · rename_i W1 b h1
      exact Ordered.runFrom (ops := ops) (ω := ω.step g op) (o.step r hv.1 h1) (r.step hv.1 h1).2.1 hv.2 h

theorem Showing.runFrom {k : Nat} : ∀ {ops : List (Nat × Op)} {W W' : World} {ω : WSpec} {v : Listing}, Showing W ω k v → Rep W ω →
    ω.ValidFrom ops → World.runFrom W ops = some W' → Showing W' (ω.runFrom ops) k (ω.listingFrom k v ops)
  | [], W, W', ω, v, o, _, _, h => by cases h; exact o
  | (g, op) :: ops, W, W', ω, v, o, r, hv, h => by
    rw [World.runFrom] at h
    split at h
    · cases h
    · rename_i W1 b h1
      exact Showing.runFrom (ops := ops) (ω := ω.step g op) (o.step r hv.1 h1) (r.step hv.1 h1).2.1 hv.2 h

end World
end LPG

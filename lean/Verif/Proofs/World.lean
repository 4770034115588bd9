import Verif.Proofs.Closed
import Verif.Proofs.NodeList
import Verif.Proofs.Adj

/-! Two states that agree on the objects of a graph answer the queries of the graph alike. -/
namespace LPG
open State

/-! ## Walks and fuel -/

theorem walk_none (next : Nat → Option Nat) (f : Nat) : walk next f none = some [] := by cases f <;> rfl

theorem walk_succ (next : Nat → Option Nat) (f x : Nat) :
    walk next (f + 1) (some x) = (walk next f (next x)).map (fun xs => x :: xs) := by
  rw [walk]; cases walk next f (next x) <;> rfl

theorem walk_enough {next : Nat → Option Nat} : ∀ {f f' : Nat} {o : Option Nat} {xs : List Nat},
    walk next f o = some xs → xs.length ≤ f' → walk next f' o = some xs
  | _, _, none, xs, h, _ => by rw [walk_none] at h ⊢; exact h
  | 0, _, some _, _, h, _ => by simp [walk] at h
  | f + 1, f', some x, xs, h, hl => by
    rw [walk_succ] at h
    obtain ⟨ys, h1, rfl⟩ := Option.map_eq_some_iff.1 h
    cases f' with
    | zero => simp at hl
    | succ f' => rw [walk_succ, walk_enough h1 (by simpa using hl)]; rfl

theorem walk_length {next : Nat → Option Nat} : ∀ {f : Nat} {o : Option Nat} {xs : List Nat},
    walk next f o = some xs → xs.length ≤ f
  | _, none, xs, h => by rw [walk_none] at h; cases h; simp
  | 0, some _, _, h => by simp [walk] at h
  | f + 1, some x, xs, h => by
    rw [walk_succ] at h
    obtain ⟨ys, h1, rfl⟩ := Option.map_eq_some_iff.1 h
    have := walk_length h1
    simp; omega

theorem walk_unique {next : Nat → Option Nat} {f f' : Nat} {o : Option Nat} {xs ys : List Nat}
    (h1 : walk next f o = some xs) (h2 : walk next f' o = some ys) : xs = ys := by
  have a := walk_enough h1 (f' := max f f') (by have := walk_length h1; omega)
  have b := walk_enough h2 (f' := max f f') (by have := walk_length h2; omega)
  rw [a] at b; exact Option.some.inj b

theorem walk_suffix {next : Nat → Option Nat} : ∀ {f : Nat} {o : Option Nat} {xs : List Nat} {y : Nat},
    walk next f o = some xs → y ∈ xs → ∃ f2 zs, walk next f2 (some y) = some zs ∧ zs.length ≤ xs.length
  | _, none, xs, y, h, hy => by rw [walk_none] at h; cases h; cases hy
  | 0, some _, _, _, h, _ => by simp [walk] at h
  | f + 1, some x, xs, y, h, hy => by
    have h0 := h
    rw [walk_succ] at h
    obtain ⟨ys, h1, rfl⟩ := Option.map_eq_some_iff.1 h
    rcases List.mem_cons.1 hy with rfl | hy
    · exact ⟨f + 1, _, h0, Nat.le_refl _⟩
    · obtain ⟨f2, zs, a, b⟩ := walk_suffix h1 hy
      exact ⟨f2, zs, a, by simp; omega⟩

theorem walk_nodup {next : Nat → Option Nat} : ∀ {f : Nat} {o : Option Nat} {xs : List Nat},
    walk next f o = some xs → xs.Nodup
  | _, none, xs, h => by rw [walk_none] at h; cases h; simp
  | 0, some _, _, h => by simp [walk] at h
  | f + 1, some x, xs, h => by
    have h0 := h
    rw [walk_succ] at h
    obtain ⟨ys, h1, rfl⟩ := Option.map_eq_some_iff.1 h
    refine List.nodup_cons.2 ⟨fun hy => ?_, walk_nodup h1⟩
    obtain ⟨f2, zs, a, b⟩ := walk_suffix h1 hy
    have := walk_unique h0 a
    subst this
    simp at b; omega

/-- Enough fuel is enough. -/
theorem walk_fuel {P : Nat → Prop} {next : Nat → Option Nat} {b f f' : Nat} {o : Option Nat}
    (h : ∀ x, P x → PIn P (next x)) (ho : PIn P o) (hb : ∀ x, P x → x < b) (h1 : b ≤ f) (h2 : b ≤ f') :
    walk next f o = walk next f' o := by
  have half : ∀ {f f' : Nat} {xs : List Nat}, b ≤ f' → walk next f o = some xs → walk next f' o = some xs := by
    intro f f' xs h2 hw
    refine walk_enough hw (Nat.le_trans (perm_sublist_length (walk_nodup hw) ?_) h2)
    exact fun x hx => hb x (walk_in h ho hw x hx)
  cases hw : walk next f o with
  | some xs => exact (half h2 hw).symm
  | none =>
    cases hw' : walk next f' o with
    | none => rfl
    | some xs => rw [half h1 hw'] at hw; cases hw

theorem walk_congr {P : Nat → Prop} {next next' : Nat → Option Nat} (h : ∀ x, P x → PIn P (next x))
    (he : ∀ x, P x → next' x = next x) : ∀ {f : Nat} {o : Option Nat}, PIn P o → walk next' f o = walk next f o
  | _, none, _ => by rw [walk_none, walk_none]
  | 0, some _, _ => rfl
  | f + 1, some x, ho => by
    have hx := ho x rfl
    rw [walk_succ, walk_succ, he x hx, walk_congr h he (h x hx)]

theorem walk_agree {P : Nat → Prop} {next next' : Nat → Option Nat} {b f f' : Nat} {o : Option Nat}
    (h : ∀ x, P x → PIn P (next x)) (he : ∀ x, P x → next' x = next x) (ho : PIn P o) (hb : ∀ x, P x → x < b)
    (h1 : b ≤ f) (h2 : b ≤ f') : walk next' f' o = walk next f o :=
  (walk_congr h he ho).trans (walk_fuel h ho hb h2 h1)

/-! ## Edge maps -/

theorem concatOpt_congr {α : Type} {l : List α} {f g : α → Option (List Nat)} (h : ∀ x ∈ l, f x = g x) :
    concatOpt (l.map f) = concatOpt (l.map g) := by
  rw [List.map_congr_left h]

section maps
variable {E : Nat → Prop} {P P' : Slot} {lf lf' : Nat → String} {m : EdgeMap} {b f f' : Nat}

theorem EdgeMap.enum_agree (h : SlotIn E P) (hm : EMIn E m) (he : ∀ x, E x → P' x = P x) (hb : ∀ x, E x → x < b)
    (h1 : b ≤ f) (h2 : b ≤ f') : m.enum P' f' = m.enum P f := by
  unfold EdgeMap.enum
  split
  · rfl
  · split
    · rfl
    · refine concatOpt_congr (fun p hp => ?_)
      exact walk_agree (fun x hx => (h x hx).1) (fun x hx => by rw [he x hx]) (hm.2 p.1 p.2 hp).1 hb h1 h2

theorem EdgeMap.enumLabel_agree (h : SlotIn E P) (hm : EMIn E m) (he : ∀ x, E x → P' x = P x)
    (hl : ∀ x, E x → lf' x = lf x) (hb : ∀ x, E x → x < b)
    (h1 : b ≤ f) (h2 : b ≤ f') (l : String) : m.enumLabel P' lf' f' l = m.enumLabel P lf f l := by
  unfold EdgeMap.enumLabel
  cases hg : m.lists.get l with
  | none =>
    simp only
    cases ho : m.only with
    | none => rfl
    | some o => simp only [hl o (hm.1 o ho)]
  | some el =>
    simp only
    rw [walk_agree (next' := fun x => (P' x).next) (next := fun x => (P x).next) (f' := f') (f := f)
      (fun x hx => (h x hx).1) (fun x hx => by rw [he x hx]) (hm.get hg).1 hb h1 h2]
    cases ho : m.only with
    | none => rfl
    | some o => simp only [hl o (hm.1 o ho)]

theorem EdgeMap.enumAny_agree (h : SlotIn E P) (hm : EMIn E m) (he : ∀ x, E x → P' x = P x)
    (hl : ∀ x, E x → lf' x = lf x) (hb : ∀ x, E x → x < b)
    (h1 : b ≤ f) (h2 : b ≤ f') (ls : List String) : m.enumAny P' lf' f' ls = m.enumAny P lf f ls := by
  unfold EdgeMap.enumAny
  split
  · rfl
  · split
    · cases ho : m.only with
      | none => rfl
      | some o => simp only [hl o (hm.1 o ho)]
    · exact concatOpt_congr (fun l _ => EdgeMap.enumLabel_agree h hm he hl hb h1 h2 l)

theorem EdgeMap.anySize_agree (hm : EMIn E m) (hl : ∀ x, E x → lf' x = lf x) (ls : List String) :
    m.anySize lf' ls = m.anySize lf ls := by
  unfold EdgeMap.anySize
  split
  · rfl
  · split
    · cases ho : m.only with
      | none => rfl
      | some o => simp only [hl o (hm.1 o ho)]
    · rfl

theorem EdgeMap.enumAny_in (h : SlotIn E P) (hm : EMIn E m) {ls : List String} {xs : List Nat}
    (he : m.enumAny P lf f ls = some xs) : ∀ x ∈ xs, E x := by
  unfold EdgeMap.enumAny at he
  split at he
  · cases he; simp
  · rename_i n0
    split at he
    · cases ho : m.only with
      | none => rw [ho] at he; cases he
      | some o =>
        rw [ho] at he
        simp only at he
        split at he
        · cases he; intro x hx; simp at hx; subst hx; exact hm.1 _ ho
        · cases he; simp
    · rename_i n1
      intro x hx
      obtain ⟨ys, a, c⟩ := concatOpt_mem he x hx
      obtain ⟨l, _, hw⟩ := List.mem_map.1 a
      unfold EdgeMap.enumLabel at hw
      simp only [n0, n1, if_false] at hw
      cases hg : m.lists.get l with
      | none => rw [hg] at hw; cases hw; cases c
      | some el =>
        rw [hg] at hw
        exact walk_in (fun e he => (h e he).1) (hm.get hg).1 hw x c

end maps

/-! ## Agreement -/

/-- The root of the graph and the fields of its nodes `N` and edges `E` are the same in both states. -/
structure Agree (N E : Nat → Prop) (s s' : State) : Prop where
  allNodes : s'.allNodes = s.allNodes
  allEdges : s'.allEdges = s.allEdges
  byLabel : s'.byLabel = s.byLabel
  nodeIx : s'.nodeIx = s.nodeIx
  edgeIx : s'.edgeIx = s.edgeIx
  node : ∀ x, N x → s'.nptr.next x = s.nptr.next x ∧ s'.nptr.prev x = s.nptr.prev x ∧ s'.nLabels x = s.nLabels x ∧
    s'.nProps x = s.nProps x ∧ s'.incoming x = s.incoming x ∧ s'.outgoing x = s.outgoing x
  edge : ∀ x, E x → s'.eFrom x = s.eFrom x ∧ s'.eTo x = s.eTo x ∧ s'.eLabel x = s.eLabel x ∧
    s'.eProps x = s.eProps x ∧ s'.slot0 x = s.slot0 x ∧ s'.slot1 x = s.slot1 x ∧ s'.slot2 x = s.slot2 x

theorem Agree.refl {N E : Nat → Prop} {s : State} : Agree N E s s :=
  ⟨rfl, rfl, rfl, rfl, rfl, fun _ _ => ⟨rfl, rfl, rfl, rfl, rfl, rfl⟩, fun _ _ => ⟨rfl, rfl, rfl, rfl, rfl, rfl, rfl⟩⟩

theorem Agree.trans {N E N' E' : Nat → Prop} {a b c : State} (h1 : Agree N E a b) (h2 : Agree N' E' b c)
    (hN : ∀ x, N x → N' x) (hE : ∀ x, E x → E' x) : Agree N E a c := by
  refine ⟨h2.allNodes.trans h1.allNodes, h2.allEdges.trans h1.allEdges, h2.byLabel.trans h1.byLabel,
    h2.nodeIx.trans h1.nodeIx, h2.edgeIx.trans h1.edgeIx, fun x hx => ?_, fun x hx => ?_⟩
  · obtain ⟨p1, p2, p3, p4, p5, p6⟩ := h1.node x hx
    obtain ⟨q1, q2, q3, q4, q5, q6⟩ := h2.node x (hN x hx)
    exact ⟨q1.trans p1, q2.trans p2, q3.trans p3, q4.trans p4, q5.trans p5, q6.trans p6⟩
  · obtain ⟨p1, p2, p3, p4, p5, p6, p7⟩ := h1.edge x hx
    obtain ⟨q1, q2, q3, q4, q5, q6, q7⟩ := h2.edge x (hE x hx)
    exact ⟨q1.trans p1, q2.trans p2, q3.trans p3, q4.trans p4, q5.trans p5, q6.trans p6, q7.trans p7⟩

theorem Agree.closed {N E : Nat → Prop} {s s' : State} (a : Agree N E s s') (c : Closed N E s) : Closed N E s' := by
  have sl0 : SlotIn E s'.slot0 := fun e he => by rw [(a.edge e he).2.2.2.2.1]; exact c.sl0 e he
  have sl1 : SlotIn E s'.slot1 := fun e he => by rw [(a.edge e he).2.2.2.2.2.1]; exact c.sl1 e he
  have sl2 : SlotIn E s'.slot2 := fun e he => by rw [(a.edge e he).2.2.2.2.2.2]; exact c.sl2 e he
  refine ⟨by rw [a.allNodes]; exact c.head, by rw [a.allNodes]; exact c.tail, ?_, ?_, ?_, by rw [a.allEdges]; exact c.all,
    sl0, sl1, sl2, by rw [a.byLabel]; exact c.lbl, by rw [a.nodeIx]; exact c.nix, by rw [a.edgeIx]; exact c.eix⟩
  · intro x hx; rw [(a.node x hx).1, (a.node x hx).2.1]; exact c.link x hx
  · intro x hx; rw [(a.edge x hx).1, (a.edge x hx).2.1]; exact c.ends x hx
  · intro x hx; rw [(a.node x hx).2.2.2.2.1, (a.node x hx).2.2.2.2.2]; exact c.maps x hx

/-- The answers to the queries of a graph with nodes `N` and edges `E`: everything the API reports about it. -/
structure SameAnswers (N E : Nat → Prop) (s s' : State) : Prop where
  getNodes : s'.getNodes = s.getNodes
  getEdges : s'.getEdges = s.getEdges
  numNodes : s'.numNodes = s.numNodes
  numEdges : s'.numEdges = s.numEdges
  withAnyLabel : ∀ ls, s'.getEdgesWithAnyLabel ls = s.getEdgesWithAnyLabel ls
  withAllLabels : ∀ ls, s'.getNodesWithAllLabels ls = s.getNodesWithAllLabels ls
  nodesWithProperty : ∀ k, s'.getNodesWithProperty k = s.getNodesWithProperty k
  edgesWithProperty : ∀ k, s'.getEdgesWithProperty k = s.getEdgesWithProperty k
  findNodes : ∀ ls ps, s'.findNodes ls ps = s.findNodes ls ps
  findEdges : ∀ ls ps, s'.findEdges ls ps = s.findEdges ls ps
  labels : ∀ n, N n → s'.nodeGetLabels n = s.nodeGetLabels n
  nodeProperty : ∀ n, N n → ∀ k, s'.nodeProperty n k = s.nodeProperty n k
  nodeEdges : ∀ n, N n → ∀ d, s'.nodeEdges n d = s.nodeEdges n d
  nodeEdgesWithLabel : ∀ n, N n → ∀ l d, s'.nodeEdgesWithLabel n l d = s.nodeEdgesWithLabel n l d
  nodeEdgesWithAnyLabel : ∀ n, N n → ∀ ls d, s'.nodeEdgesWithAnyLabel n ls d = s.nodeEdgesWithAnyLabel n ls d
  ends : ∀ e, E e → s'.edgeGetFrom e = s.edgeGetFrom e ∧ s'.edgeGetTo e = s.edgeGetTo e
  edgeLabel : ∀ e, E e → s'.edgeGetLabel e = s.edgeGetLabel e
  edgeProperty : ∀ e, E e → ∀ k, s'.edgeProperty e k = s.edgeProperty e k

theorem minSet_in {N : Nat → Prop} {nm : NodeMap} (h : nm.In N) : ∀ {ls : List String} {best : Option (FSet Nat)} {fs : FSet Nat},
    (∀ b, best = some b → ∀ p ∈ b, N p.2) → nm.minSet ls best = some (some fs) → ∀ p ∈ fs, N p.2
  | [], best, fs, hb, hm => by simp [NodeMap.minSet] at hm; exact hb fs hm
  | l :: ls, best, fs, hb, hm => by
    rw [NodeMap.minSet] at hm
    split at hm
    · cases hm
    · rename_i s hg
      have hs := h l s (AMap.mem_of_get hg)
      split at hm
      · exact minSet_in h (fun b e => by cases e; exact hs) hm
      · rename_i b0
        refine minSet_in h (fun b e => ?_) hm
        cases e
        split
        · exact hs
        · exact hb b0 rfl

theorem allLabels_agree {N : Nat → Prop} {nm : NodeMap} (h : nm.In N) {f f' : Nat → List String} (he : ∀ x, N x → f' x = f x)
    (ls : List String) : nm.allLabels f' ls = nm.allLabels f ls := by
  unfold NodeMap.allLabels
  split
  · rfl
  · rfl
  · rename_i s hm
    have hs := minSet_in h (by simp) hm
    congr 2
    apply List.filter_congr
    intro x hx
    obtain ⟨p, hp, rfl⟩ := List.mem_map.1 hx
    rw [he _ (hs p hp)]

theorem allLabels_in {N : Nat → Prop} {nm : NodeMap} (h : nm.In N) {f : Nat → List String} {ls : List String}
    {r : List Nat × Int} (hr : nm.allLabels f ls = some r) : ∀ x ∈ r.1, N x := by
  unfold NodeMap.allLabels at hr
  split at hr
  · cases hr; simp
  · cases hr
  · rename_i s hm
    have hs := minSet_in h (by simp) hm
    cases hr
    intro x hx
    obtain ⟨p, hp, rfl⟩ := List.mem_map.1 (List.mem_filter.1 hx).1
    exact hs p hp

theorem Index.find_in {N : Nat → Prop} {ix : Index} (h : ix.In N) {v : Value} {r : List Nat × Int}
    (hr : ix.find v = some r) : ∀ x ∈ r.1, N x := by
  cases ix with
  | btree t =>
    unfold Index.find SetTree.find at hr
    simp only at hr
    split at hr
    · cases hr
    · cases hr; simp
    · rename_i s hg
      cases hr
      obtain ⟨e, he, rfl⟩ := get_mem hg
      intro x hx
      obtain ⟨p, hp, rfl⟩ := List.mem_map.1 hx
      exact h e he p hp
  | hash t =>
    unfold Index.find HashIx.find at hr
    simp only at hr
    split at hr
    · cases hr; simp
    · split at hr
      · cases hr
      · split at hr
        · cases hr; simp
        · cases hr
          intro x hx
          obtain ⟨c, _, hc⟩ := List.mem_filterMap.1 hx
          exact h _ (AMap.mem_of_get hc)

theorem propIters_in {N : Nat → Prop} {ixs : Indexes} (h : ixs.In N) : ∀ {ps : AMap String Value} {rs : List (List Nat × Int)},
    propIters ixs ps = some rs → ∀ r ∈ rs, ∀ x ∈ r.1, N x
  | [], rs, hr => by simp [propIters] at hr; subst hr; simp
  | (k, v) :: ps, rs, hr => by
    rw [propIters] at hr
    split at hr
    · exact propIters_in h hr
    · rename_i ix hg
      split at hr
      · rename_i r rs' h1 h2
        cases hr
        intro q hq
        rcases List.mem_cons.1 hq with rfl | hq
        · exact Index.find_in (h k ix (AMap.mem_of_get hg)) h1
        · exact propIters_in h h2 q hq
      · cases hr

theorem minIter_in {N : Nat → Prop} : ∀ {rs : List (List Nat × Int)} {best : Option (List Nat × Int)} {r : List Nat × Int},
    (∀ r ∈ rs, ∀ x ∈ r.1, N x) → (∀ b, best = some b → ∀ x ∈ b.1, N x) → minIter rs best = some r → ∀ x ∈ r.1, N x
  | [], best, r, _, hb, hr => by simp [minIter] at hr; exact hb r hr
  | q :: rs, none, r, h, hb, hr => by
    have h' : ∀ r ∈ rs, ∀ x ∈ r.1, N x := fun r hr => h r (by simp [hr])
    simp only [minIter] at hr
    split at hr
    · exact minIter_in h' hb hr
    · exact minIter_in h' (fun b e => by cases e; exact h q (by simp)) hr
  | q :: rs, some b0, r, h, hb, hr => by
    have h' : ∀ r ∈ rs, ∀ x ∈ r.1, N x := fun r hr => h r (by simp [hr])
    simp only [minIter] at hr
    split at hr
    · exact minIter_in h' hb hr
    · refine minIter_in h' (fun b e => ?_) hr
      cases e
      split
      · exact h q (by simp)
      · exact hb b0 rfl

theorem choose_agree {N : Nat → Prop} {bl : List Nat × Int} {best : Option (List Nat × Int)} {f f' : Nat → Bool}
    {all : Option (List Nat)} (h1 : ∀ x ∈ bl.1, N x) (h2 : ∀ b, best = some b → ∀ x ∈ b.1, N x)
    (he : ∀ x, N x → f' x = f x) : choose bl best f' all = choose bl best f all := by
  have e1 : bl.1.filter f' = bl.1.filter f := List.filter_congr (fun x hx => he x (h1 x hx))
  cases best with
  | none => simp only [choose, e1]
  | some b =>
    have e2 : b.1.filter f' = b.1.filter f := List.filter_congr (fun x hx => he x (h2 b rfl x hx))
    simp only [choose, e1, e2]

theorem Agree.answers {N E : Nat → Prop} {s s' : State} (a : Agree N E s s') (c : Closed N E s)
    (hN : ∀ x, N x → x < s.idBase) (hE : ∀ x, E x → x < s.idBase) (hb : s.idBase ≤ s'.idBase) :
    SameAnswers N E s s' := by
  have e0 : ∀ x, E x → s'.slot0 x = s.slot0 x := fun x hx => (a.edge x hx).2.2.2.2.1
  have e1 : ∀ x, E x → s'.slot1 x = s.slot1 x := fun x hx => (a.edge x hx).2.2.2.2.2.1
  have e2 : ∀ x, E x → s'.slot2 x = s.slot2 x := fun x hx => (a.edge x hx).2.2.2.2.2.2
  have el : ∀ x, E x → s'.eLabel x = s.eLabel x := fun x hx => (a.edge x hx).2.2.1
  have nl : ∀ x, N x → s'.nLabels x = s.nLabels x := fun x hx => (a.node x hx).2.2.1
  have np : ∀ x, N x → s'.nProps x = s.nProps x := fun x hx => (a.node x hx).2.2.2.1
  have ni : ∀ x, N x → s'.incoming x = s.incoming x := fun x hx => (a.node x hx).2.2.2.2.1
  have no : ∀ x, N x → s'.outgoing x = s.outgoing x := fun x hx => (a.node x hx).2.2.2.2.2
  have ep : ∀ x, E x → s'.eProps x = s.eProps x := fun x hx => (a.edge x hx).2.2.2.1
  have gn : s'.getNodes = s.getNodes := by
    unfold State.getNodes
    rw [a.allNodes]
    exact walk_agree (fun x hx => (c.link x hx).1) (fun x hx => (a.node x hx).1) c.head hN (Nat.le_refl _) hb
  have ge : s'.getEdges = s.getEdges := by
    unfold State.getEdges
    rw [a.allEdges]
    exact EdgeMap.enum_agree c.sl0 c.all e0 hE (Nat.le_refl _) hb
  have ga : ∀ ls, s'.getEdgesWithAnyLabel ls = s.getEdgesWithAnyLabel ls := by
    intro ls
    unfold State.getEdgesWithAnyLabel
    rw [a.allEdges]
    exact EdgeMap.enumAny_agree c.sl0 c.all e0 el hE (Nat.le_refl _) hb ls
  have al : ∀ ls, s'.byLabel.allLabels s'.nLabels ls = s.byLabel.allLabels s.nLabels ls := by
    intro ls; rw [a.byLabel]; exact allLabels_agree c.lbl nl ls
  have i1 : ∀ n, N n → (s'.incoming n).enum s'.slot2 s'.idBase = (s.incoming n).enum s.slot2 s.idBase := by
    intro n hn; rw [ni n hn]; exact EdgeMap.enum_agree c.sl2 (c.maps n hn).1 e2 hE (Nat.le_refl _) hb
  have o1 : ∀ n, N n → (s'.outgoing n).enum s'.slot1 s'.idBase = (s.outgoing n).enum s.slot1 s.idBase := by
    intro n hn; rw [no n hn]; exact EdgeMap.enum_agree c.sl1 (c.maps n hn).2 e1 hE (Nat.le_refl _) hb
  have i2 : ∀ n, N n → ∀ l, (s'.incoming n).enumLabel s'.slot2 s'.eLabel s'.idBase l =
      (s.incoming n).enumLabel s.slot2 s.eLabel s.idBase l := by
    intro n hn l; rw [ni n hn]; exact EdgeMap.enumLabel_agree c.sl2 (c.maps n hn).1 e2 el hE (Nat.le_refl _) hb l
  have o2 : ∀ n, N n → ∀ l, (s'.outgoing n).enumLabel s'.slot1 s'.eLabel s'.idBase l =
      (s.outgoing n).enumLabel s.slot1 s.eLabel s.idBase l := by
    intro n hn l; rw [no n hn]; exact EdgeMap.enumLabel_agree c.sl1 (c.maps n hn).2 e1 el hE (Nat.le_refl _) hb l
  have i3 : ∀ n, N n → ∀ ls, s'.nodeEdgesAny1 (s'.incoming n) s'.slot2 ls = s.nodeEdgesAny1 (s.incoming n) s.slot2 ls := by
    intro n hn ls
    unfold State.nodeEdgesAny1
    rw [i1 n hn, ni n hn, EdgeMap.enumAny_agree c.sl2 (c.maps n hn).1 e2 el hE (Nat.le_refl _) hb ls]
  have o3 : ∀ n, N n → ∀ ls, s'.nodeEdgesAny1 (s'.outgoing n) s'.slot1 ls = s.nodeEdgesAny1 (s.outgoing n) s.slot1 ls := by
    intro n hn ls
    unfold State.nodeEdgesAny1
    rw [o1 n hn, no n hn, EdgeMap.enumAny_agree c.sl1 (c.maps n hn).2 e1 el hE (Nat.le_refl _) hb ls]
  have inN : ∀ ns, s.getNodes = some ns → ∀ x ∈ ns, N x := fun ns h => walk_in (fun x hx => (c.link x hx).1) c.head h
  have inE : ∀ es, s.getEdges = some es → ∀ x ∈ es, E x := fun es h => EdgeMap.enum_in c.sl0 c.all h
  refine ⟨gn, ge, by simp [State.numNodes, a.allNodes], by simp [State.numEdges, a.allEdges], ga, ?_, ?_, ?_, ?_, ?_,
    fun n hn => nl n hn, ?_, ?_, ?_, ?_, fun e he => ⟨(a.edge e he).1, (a.edge e he).2.1⟩, fun e he => el e he, ?_⟩
  · intro ls; unfold State.getNodesWithAllLabels; rw [al]
  · intro k
    unfold State.getNodesWithProperty
    rw [a.nodeIx, gn]
    split
    · rfl
    · cases hg : s.getNodes with
      | none => rfl
      | some ns =>
        simp only [Option.map_some, Option.some.injEq]
        exact List.filter_congr (fun x hx => by unfold State.nodeProperty; rw [np x (inN ns hg x hx)])
  · intro k
    unfold State.getEdgesWithProperty
    rw [a.edgeIx, ge]
    split
    · rfl
    · cases hg : s.getEdges with
      | none => rfl
      | some ns =>
        simp only [Option.map_some, Option.some.injEq]
        exact List.filter_congr (fun x hx => by unfold State.edgeProperty; rw [ep x (inE ns hg x hx)])
  · intro ls ps
    unfold State.findNodes
    rw [gn, al, a.nodeIx]
    split
    · rfl
    · split
      · rfl
      · cases hA : s.byLabel.allLabels s.nLabels ls with
        | none => rfl
        | some bl =>
          cases hB : propIters s.nodeIx ps with
          | none => rfl
          | some its =>
            exact choose_agree (allLabels_in c.lbl hA)
              (fun b hb => minIter_in (propIters_in c.nix hB) (by simp) hb)
              (fun x hx => by rw [nl x hx, np x hx])
  · intro ls ps
    unfold State.findEdges
    rw [ge, ga, a.edgeIx, a.allEdges, EdgeMap.anySize_agree c.all el]
    split
    · rfl
    · split
      · rfl
      · cases hA : s.getEdgesWithAnyLabel ls with
        | none => rfl
        | some es =>
          cases hB : propIters s.edgeIx ps with
          | none => rfl
          | some its =>
            exact choose_agree (EdgeMap.enumAny_in c.sl0 c.all hA)
              (fun b hb => minIter_in (propIters_in c.eix hB) (by simp) hb)
              (fun x hx => by rw [el x hx, ep x hx])
  · intro n hn k; unfold State.nodeProperty; rw [np n hn]
  · intro n hn d
    cases d <;> simp only [State.nodeEdges, i1 n hn, o1 n hn]
  · intro n hn l d
    cases d <;> simp only [State.nodeEdgesWithLabel, i2 n hn, o2 n hn]
  · intro n hn ls d
    cases d <;> simp only [State.nodeEdgesWithAnyLabel, i3 n hn, o3 n hn]
  · intro e he k; unfold State.edgeProperty; rw [ep e he]

/-! ## Ids and ends -/

/-- An operation moves the allocation counter by one if it creates an object, and never changes the ends of an
existing edge. -/
theorem step_alloc {s s' : State} {op : Op} (hs : LPG.step s op = some s') :
    (∀ x, x ≠ s.idBase → s'.eFrom x = s.eFrom x ∧ s'.eTo x = s.eTo x) ∧
    s'.idBase = s.idBase + (match op with | .newNode _ _ => 1 | .newEdge _ _ _ _ => 1 | _ => 0) ∧
    (∀ a b l ps, op = .newEdge a b l ps → s'.eFrom s.idBase = a ∧ s'.eTo s.idBase = b) := by
  have conn : ∀ {a b : State} {e : Nat}, a.connect e = some b → b.eFrom = a.eFrom ∧ b.eTo = a.eTo ∧ b.idBase = a.idBase := by
    intro a b e h
    obtain ⟨_, _, _, _, rfl⟩ := connect_frame h
    exact ⟨rfl, rfl, rfl⟩
  have det : ∀ {a b : State} {e : Nat}, a.detachNode e = some b → b.eFrom = a.eFrom ∧ b.eTo = a.eTo ∧ b.idBase = a.idBase := by
    intro a b e h
    obtain ⟨_, _, _, _, _, _, _, rfl⟩ := detachNode_frame h
    exact ⟨rfl, rfl, rfl⟩
  have dn : ∀ x, x ≠ s.idBase → s.eFrom x = s.eFrom x ∧ s.eTo x = s.eTo x := fun _ _ => ⟨rfl, rfl⟩
  cases op with
  | newNode ls ps => obtain ⟨_, _, rfl⟩ := newNode_frame hs; exact ⟨dn, rfl, by simp⟩
  | newEdge a b l ps =>
    simp only [LPG.step, newEdge_eq] at hs
    split at hs
    · cases hs
    · split at hs
      · cases hs
      · rename_i s1 h1
        obtain ⟨c1, c2, c3⟩ := conn h1
        split at hs
        · cases hs
        · cases hs
          refine ⟨fun x hx => ?_, c3, ?_⟩
          · simp only [c1, c2]
            exact ⟨upd_other _ _ hx, upd_other _ _ hx⟩
          · intro a' b' l' ps' e
            cases e
            simp only [c1, c2]
            exact ⟨upd_same _ _ _, upd_same _ _ _⟩
  | setLabels n ls => cases hs; exact ⟨dn, rfl, by simp⟩
  | setNodeProp n k v => obtain ⟨_, rfl⟩ := setNodeProp_frame hs; exact ⟨dn, rfl, by simp⟩
  | removeNodeProp n k =>
    simp only [LPG.step, State.removeNodeProp] at hs
    split at hs
    · cases hs; exact ⟨dn, rfl, by simp⟩
    · split at hs
      · cases hs
      · cases hs; exact ⟨dn, rfl, by simp⟩
  | detach n =>
    obtain ⟨c1, c2, c3⟩ := det hs
    exact ⟨fun x _ => by rw [c1, c2]; exact ⟨rfl, rfl⟩, c3, by simp⟩
  | detachRemove n =>
    simp only [LPG.step, State.detachRemoveNode] at hs
    split at hs
    · cases hs
    · rename_i s1 h1
      obtain ⟨c1, c2, c3⟩ := det h1
      split at hs
      · cases hs
      · cases hs
        exact ⟨fun x _ => by simp only [c1, c2]; exact ⟨trivial, trivial⟩, c3, by simp⟩
  | setEdgeLabel e l =>
    simp only [LPG.step, State.setEdgeLabel] at hs
    split at hs
    · cases hs; exact ⟨dn, rfl, by simp⟩
    · obtain ⟨c1, c2, c3⟩ := conn hs
      exact ⟨fun x _ => by rw [c1, c2]; exact ⟨rfl, rfl⟩, c3, by simp⟩
  | setEdgeProp e k v => obtain ⟨_, rfl⟩ := setEdgeProp_frame hs; exact ⟨dn, rfl, by simp⟩
  | removeEdgeProp e k =>
    simp only [LPG.step, State.removeEdgeProp] at hs
    split at hs
    · cases hs; exact ⟨dn, rfl, by simp⟩
    · split at hs
      · cases hs
      · cases hs; exact ⟨dn, rfl, by simp⟩
  | removeEdge e => cases hs; exact ⟨dn, rfl, by simp⟩
  | addNodeIndex k t => obtain ⟨_, rfl⟩ := addNodeIndex_frame hs; exact ⟨dn, rfl, by simp⟩
  | addEdgeIndex k t => obtain ⟨_, rfl⟩ := addEdgeIndex_frame hs; exact ⟨dn, rfl, by simp⟩

end LPG

namespace LPG
namespace World
open State

/-! ## The invariant of several graphs -/

/-- the nodes of graph `g`, removed ones included -/
def N (W : World) (g : Nat) : Nat → Prop := fun x => W.nodeGraph x = some g
/-- the edges of graph `g`, removed ones included -/
def E (W : World) (g : Nat) : Nat → Prop := fun x => W.edgeGraph x = some g

/-- Every graph is closed: nothing reachable from its root or from one of its nodes or edges belongs to another
graph. -/
structure Inv (W : World) : Prop where
  closed : ∀ g, Closed (W.N g) (W.E g) (W.view g)
  nodeLt : ∀ x g, W.nodeGraph x = some g → x < W.heap.idBase
  edgeLt : ∀ x, W.isEdge x = true → x < W.heap.idBase
  known : ∀ e, W.isEdge e = true → ∃ g, W.nodeGraph (W.heap.eFrom e) = some g

theorem Inv.init : Inv World.new := by
  refine ⟨fun g => ?_, by simp [World.new], by simp [World.new], by simp [World.new]⟩
  have hN : ∀ x, ¬ (World.new.N g) x := fun x h => by simp [N, World.new] at h
  have hE : ∀ x, ¬ (World.new.E g) x := fun x h => by simp [E, edgeGraph, World.new] at h
  constructor
  · intro x hx; simp [view, World.new, Root.new] at hx
  · intro x hx; simp [view, World.new, Root.new] at hx
  · exact fun x hx => absurd hx (hN x)
  · exact fun x hx => absurd hx (hE x)
  · exact fun x hx => absurd hx (hN x)
  · exact ⟨fun x hx => by simp [view, World.new, Root.new, EdgeMap.empty] at hx,
      fun k l hl => by simp [view, World.new, Root.new, EdgeMap.empty] at hl⟩
  · exact fun x hx => absurd hx (hE x)
  · exact fun x hx => absurd hx (hE x)
  · exact fun x hx => absurd hx (hE x)
  · intro l s hs; simp [view, World.new, Root.new, NodeMap.empty] at hs
  · intro l s hs; simp [view, World.new, Root.new] at hs
  · intro l s hs; simp [view, World.new, Root.new] at hs

theorem edge_of {W : World} {x g : Nat} (h : W.edgeGraph x = some g) :
    W.isEdge x = true ∧ W.nodeGraph (W.heap.eFrom x) = some g := by
  unfold edgeGraph at h
  split at h
  · exact ⟨by assumption, h⟩
  · cases h

theorem Inv.eLt {W : World} (i : Inv W) {x g : Nat} (h : W.E g x) : x < W.heap.idBase := i.edgeLt x (edge_of h).1

/-- The handles of a call belong to the graph it acts on. -/
theorem args_in {W : World} {g t : Nat} {op : Op} (ht : W.target g op = some t) (hf : W.foreign t op = false) :
    op.ArgsIn (W.N t) (W.E t) := by
  cases op <;> simp only [target, Option.some.injEq] at ht <;> simp only [Op.ArgsIn] <;> try exact ht
  simp [foreign] at hf
  exact hf

/-- What a successful call does to the tables of owners. -/
theorem owners {W : World} (i : Inv W) {t : Nat} {op : Op} {s : State} (hf : W.foreign t op = false)
    (hs : LPG.step (W.view t) op = some s) (g : Nat) :
    (∀ x, ((W.alloc t op).store t s).N g x ↔ W.N g x ∨ (g = t ∧ op.freshN (W.view t) x)) ∧
    (∀ x, ((W.alloc t op).store t s).E g x ↔ W.E g x ∨ (g = t ∧ op.freshE (W.view t) x)) := by
  obtain ⟨h1, h2, h3⟩ := step_alloc hs
  have base : (W.view t).idBase = W.heap.idBase := rfl
  have vf : (W.view t).eFrom = W.heap.eFrom := rfl
  rw [base, vf] at h1
  have old : ∀ x, W.isEdge x = true → s.eFrom x = W.heap.eFrom x := fun x hx => (h1 x (by have := i.edgeLt x hx; omega)).1
  have hFree : W.isEdge W.heap.idBase = false := by
    cases hi : W.isEdge W.heap.idBase with
    | false => rfl
    | true => have := i.edgeLt _ hi; omega
  cases op with
  | newNode ls ps =>
    refine ⟨fun x => ?_, fun x => ?_⟩
    · simp only [N, store, alloc, Op.freshN, base]
      by_cases hx : x = W.heap.idBase
      · subst hx
        rw [upd_same]
        constructor
        · intro h; exact Or.inr ⟨(Option.some.inj h).symm, rfl⟩
        · rintro (h | ⟨h, _⟩)
          · have := i.nodeLt _ _ h; omega
          · rw [h]
      · rw [upd_other _ _ hx]; simp [hx]
    · simp only [E, edgeGraph, store, alloc, Op.freshE, and_false, or_false]
      by_cases hx : W.isEdge x = true
      · simp only [hx, if_true]
        obtain ⟨g', hg'⟩ := i.known x hx
        rw [old x hx, upd_other _ _ (by have := i.nodeLt _ _ hg'; omega)]
      · simp [hx]
  | newEdge a b l ps =>
    have hf' : W.nodeGraph a = some t := by simp [foreign] at hf; exact hf.1
    refine ⟨fun x => by simp [N, store, alloc, Op.freshN], fun x => ?_⟩
    simp only [E, edgeGraph, store, alloc, Op.freshE, base]
    by_cases hx : x = W.heap.idBase
    · subst hx
      have : s.eFrom W.heap.idBase = a := (h3 _ _ _ _ rfl).1
      simp [upd_same, hFree, this, hf']
      exact eq_comm
    · simp only [upd_other _ _ hx]
      by_cases hi : W.isEdge x = true
      · simp [hi, old x hi, hx]
      · simp [hi, hx]
  | _ =>
    refine ⟨fun x => by simp [N, store, alloc, Op.freshN], fun x => ?_⟩
    simp only [E, edgeGraph, store, alloc, Op.freshE, and_false, or_false]
    by_cases hi : W.isEdge x = true
    · simp [hi, old x hi]
    · simp [hi]

theorem view_store {W : World} {t : Nat} {op : Op} {s : State} : ((W.alloc t op).store t s).view t = s := by
  simp only [view, store, upd_same]

theorem disjN {W : World} {g t x : Nat} (h : W.N g x) (hn : g ≠ t) : ¬ W.N t x := by
  intro h'; unfold N at h h'; rw [h] at h'; exact hn (Option.some.inj h')

theorem disjE {W : World} {g t x : Nat} (h : W.E g x) (hn : g ≠ t) : ¬ W.E t x := by
  intro h'; unfold E at h h'; rw [h] at h'; exact hn (Option.some.inj h')

/-- A call on graph `t` leaves the root of every other graph and the fields of its nodes and edges alone. -/
theorem others {W : World} (i : Inv W) {t : Nat} {op : Op} {s : State}
    (ha : op.ArgsIn (W.N t) (W.E t))
    (hs : LPG.step (W.view t) op = some s) {g : Nat} (hg : g ≠ t) :
    Agree (W.N g) (W.E g) (W.view g) (((W.alloc t op).store t s).view g) := by
  have hc := (i.closed t).step ha hs
  have hr : ((W.alloc t op).store t s).root g = W.root g := by
    cases op <;> simp only [store, alloc, upd_other _ _ hg]
  have hh : ((W.alloc t op).store t s).heap = s := rfl
  refine ⟨by simp only [view, hr], by simp only [view, hr], by simp only [view, hr], by simp only [view, hr],
    by simp only [view, hr], fun x hx => ?_, fun x hx => ?_⟩
  · refine hc.2.node x ?_
    rintro (h | h)
    · exact disjN hx hg h
    · have := i.nodeLt _ _ hx
      cases op <;> simp only [Op.freshN, view] at h <;> omega
  · refine hc.2.edge x ?_
    rintro (h | h)
    · exact disjE hx hg h
    · have := i.eLt hx
      cases op <;> simp only [Op.freshE, view] at h <;> omega

theorem Inv.call {W : World} (i : Inv W) {t : Nat} {op : Op} {s : State}
    (hf : W.foreign t op = false) (ha : op.ArgsIn (W.N t) (W.E t))
    (hs : LPG.step (W.view t) op = some s) : Inv ((W.alloc t op).store t s) := by
  obtain ⟨h1, h2, h3⟩ := step_alloc hs
  have base : (W.view t).idBase = W.heap.idBase := rfl
  have vf : (W.view t).eFrom = W.heap.eFrom := rfl
  rw [base, vf] at h1
  rw [base] at h2
  have hbase : ((W.alloc t op).store t s).heap.idBase = s.idBase := rfl
  have old : ∀ x, W.isEdge x = true → s.eFrom x = W.heap.eFrom x := fun x hx => (h1 x (by have := i.edgeLt x hx; omega)).1
  refine ⟨fun g => ?_, fun x g hx => ?_, fun x hx => ?_, fun x hx => ?_⟩
  · obtain ⟨o1, o2⟩ := owners i hf hs g
    by_cases hg : g = t
    · subst hg
      have hc := ((i.closed g).step ha hs).1
      rw [view_store]
      have e1 : ((W.alloc g op).store g s).N g = fun x => W.N g x ∨ op.freshN (W.view g) x := by
        funext x; exact propext ((o1 x).trans (by simp))
      have e2 : ((W.alloc g op).store g s).E g = fun x => W.E g x ∨ op.freshE (W.view g) x := by
        funext x; exact propext ((o2 x).trans (by simp))
      rw [e1, e2]; exact hc
    · have e1 : ((W.alloc t op).store t s).N g = W.N g := by
        funext x; exact propext ((o1 x).trans (by simp [hg]))
      have e2 : ((W.alloc t op).store t s).E g = W.E g := by
        funext x; exact propext ((o2 x).trans (by simp [hg]))
      rw [e1, e2]
      exact (others i ha hs hg).closed (i.closed g)
  · rcases ((owners i hf hs g).1 x).1 hx with h | ⟨_, h⟩
    · have := i.nodeLt _ _ h; rw [hbase, h2]; omega
    · rw [hbase, h2]
      cases op <;> simp only [Op.freshN, view] at h
      subst h; simp
  · rw [hbase, h2]
    cases op with
    | newEdge a b l ps =>
      simp only [store, alloc] at hx
      by_cases h : x = W.heap.idBase
      · subst h; simp
      · rw [upd_other _ _ h] at hx; have := i.edgeLt x hx; simp; omega
    | _ => have := i.edgeLt x hx; omega
  · cases op with
    | newEdge a b l ps =>
      simp only [store, alloc] at hx ⊢
      by_cases h : x = W.heap.idBase
      · subst h
        have : s.eFrom W.heap.idBase = a := (h3 _ _ _ _ rfl).1
        rw [this]
        exact ⟨t, ha.1⟩
      · rw [upd_other _ _ h] at hx; rw [old x hx]; exact i.known x hx
    | newNode ls ps =>
      simp only [store, alloc] at hx ⊢
      rw [old x hx]
      obtain ⟨g, hg⟩ := i.known x hx
      rw [upd_other _ _ (by have := i.nodeLt _ _ hg; omega)]
      exact ⟨g, hg⟩
    | _ =>
      simp only [store, alloc] at hx ⊢
      rw [old x hx]; exact i.known x hx

/-- The cases of a call. -/
theorem step_cases {W W' : World} {g : Nat} {op : Op} {b : Bool} (h : W.step g op = some (W', b)) :
    ∃ t, W.target g op = some t ∧ ((W.foreign t op = true ∧ b = true ∧ W' = W) ∨
      (W.foreign t op = false ∧ b = false ∧ ∃ s, LPG.step (W.view t) op = some s ∧ W' = (W.alloc t op).store t s)) := by
  unfold step at h
  split at h
  · cases h
  · rename_i t ht
    refine ⟨t, ht, ?_⟩
    split at h
    · rename_i hf
      cases h; exact Or.inl ⟨hf, rfl, rfl⟩
    · rename_i hf
      split at h
      · cases h
      · rename_i s hs
        cases h
        exact Or.inr ⟨by simpa using hf, rfl, s, hs, rfl⟩

theorem Inv.step {W W' : World} {g : Nat} {op : Op} {b : Bool} (i : Inv W) (h : W.step g op = some (W', b)) : Inv W' := by
  obtain ⟨t, ht, ⟨_, _, rfl⟩ | ⟨hf, _, s, hs, rfl⟩⟩ := step_cases h
  · exact i
  · exact i.call hf (args_in ht hf) hs

theorem Inv.runFrom : ∀ {ops : List (Nat × Op)} {W W' : World}, Inv W → World.runFrom W ops = some W' → Inv W'
  | [], W, W', i, h => by cases h; exact i
  | (g, op) :: ops, W, W', i, h => by
    rw [World.runFrom] at h
    split at h
    · cases h
    · rename_i W1 b h1
      exact Inv.runFrom (i.step h1) h

end World
end LPG

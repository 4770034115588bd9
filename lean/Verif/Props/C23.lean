import Verif.Proofs.Iter
import Verif.Props.C12C16
/-!
# C23: iterators
-/
namespace LPG
open State

/-! ## Combinators, for every underlying iterator -/

/-- `NodeSlice`/`EdgeSlice` return the items that the iterator yields, and return at all exactly if it yields finitely
many items. -/
theorem C23_slice {α : Type} (i : Itr α) (xs : List α) : i.m.collect i.s [] = some xs ↔ i.Yields xs := by
  constructor
  · intro h
    obtain ⟨ys, h1, h2⟩ := Produces.of_collect h
    simp only [List.nil_append] at h1
    rw [h1]; exact h2
  · intro h; exact Produces.collect_acc h []

/-- A filtered iterator yields exactly the accepted items, in order, and keeps a right `MaxSize`. -/
theorem C23_filter {α : Type} (i : Itr α) (xs : List α) (p : α → Bool) (h : i.Yields xs) :
    (i.filter p).Yields (xs.filter p) ∧ (i.Bounded xs → (i.filter p).Bounded (xs.filter p)) := by
  refine ⟨h.filter p, ?_⟩
  rintro (hb | hb)
  · exact Or.inl hb
  · refine Or.inr ?_
    show _ ≤ i.size
    have := List.length_filter_le p xs
    omega

/-- `MultiIterator` yields the concatenation of any number of iterators of any kinds. -/
theorem C23_multi {α : Type} (its : List (Itr α)) (xss : List (List α)) (hl : its.length = xss.length)
    (h : ∀ (i : Nat) (h1 : i < its.length) (h2 : i < xss.length), (its[i]).Yields (xss[i])) :
    (Itr.multi its).Yields xss.flatten ∧ (Itr.multi its).Bounded xss.flatten :=
  ⟨Itr.multi_yields hl h, Or.inl rfl⟩

/-- The unique iterator yields every item once, at its first occurrence. -/
theorem C23_unique {α : Type} [DecidableEq α] (i : Itr α) (xs : List α) (h : i.Yields xs) :
    i.unique.Yields (firstOccs xs) ∧ (firstOccs xs).Nodup ∧ (firstOccs xs).Sublist xs ∧ (∀ x, x ∈ firstOccs xs ↔ x ∈ xs) ∧
    (i.Bounded xs → i.unique.Bounded (firstOccs xs)) := by
  obtain ⟨h1, h2, h3⟩ := firstOccs_spec xs
  refine ⟨h.unique, h1, h2, h3, ?_⟩
  rintro (hb | hb)
  · exact Or.inl hb
  · refine Or.inr ?_
    show _ ≤ i.size
    have := h2.length_le
    omega

/-- An iterator that changes the items of another one yields the changed items, has the same `MaxSize`, and keeps a
right one right. -/
theorem C23_proc {α β : Type} (i : Itr α) (f : α → Option β) (xs : List α) (ys : List β) (h : i.Yields xs)
    (hf : xs.map f = ys.map some) :
    (⟨i.σ, i.m.proc f, i.s⟩ : Itr β).Yields ys ∧ (⟨i.σ, i.m.proc f, i.s⟩ : Itr β).size = i.size ∧
      (i.Bounded xs → (⟨i.σ, i.m.proc f, i.s⟩ : Itr β).Bounded ys) := by
  refine ⟨Produces.proc h hf, rfl, ?_⟩
  have hl : ys.length = xs.length := by
    have := congrArg List.length hf
    simpa using this.symm
  rintro (hb | hb)
  · exact Or.inl hb
  · refine Or.inr ?_
    rw [hl]
    exact hb

example {i : Itr Nat} (h : i.Yields [1, 2]) :
    (⟨i.σ, i.m.proc fun n => if n < 5 then some (n * 10) else none, i.s⟩ : Itr Nat).Yields [10, 20] :=
  (C23_proc i _ _ _ h (by decide)).1

example : firstOccs [1, 2, 1, 3, 2] = [1, 2, 3] := by decide

theorem two_yields {i1 i2 : Itr Nat} {xs ys : List Nat} (h1 : i1.Yields xs) (h2 : i2.Yields ys) :
    (Itr.multi [i1, i2]).Yields (xs ++ ys) := by
  have := Itr.multi_yields (its := [i1, i2]) (xss := [xs, ys]) rfl (by
    intro i a b
    match i with
    | 0 => exact h1
    | 1 => exact h2
    | n + 2 => simp at a; omega)
  simpa using this

/-- three list iterators, the second one empty -/
example : ((Itr.multi [Itr.list [1, 2] 2, Itr.empty, Itr.list [2, 3, 2] 3]).unique).Yields [1, 2, 3] := by
  have := (C23_multi [Itr.list [1, 2] 2, Itr.empty, Itr.list [2, 3, 2] 3] [[1, 2], [], [2, 3, 2]] rfl (by
    intro i a b
    match i with
    | 0 => exact Itr.list_yields _ _
    | 1 => exact Itr.empty_yields
    | 2 => exact Itr.list_yields _ _
    | n + 3 => simp at a; omega)).1
  exact this.unique

/-! ## The iterators handed out by nodes -/

theorem EMRep.iter_size {P : Slot} {f : Nat → String} {em : EdgeMap} {xs : List Nat} (h : EMRep P f em xs) :
    (em.iter P).size = xs.length := by
  have hn := h.n
  unfold EdgeMap.iter
  split
  · rename_i h0; rw [← hn, h0]; rfl
  · split
    · rename_i h1; rw [← hn, h1]; rfl
    · rw [← hn]; split <;> rfl

theorem EMRep.iterLabel_size {P : Slot} {f : Nat → String} {em : EdgeMap} {xs : List Nat} (h : EMRep P f em xs) (l : String)
    {i : Itr Nat} (hi : em.iterLabel P f l = some i) : i.size = (xs.filter (fun x => f x = l)).length := by
  have hn := h.n
  unfold EdgeMap.iterLabel at hi
  simp only at hi
  by_cases h0 : em.n = 0
  · rw [if_pos h0] at hi; cases hi
    have : xs = [] := List.length_eq_zero_iff.1 (by omega)
    subst this; rfl
  · rw [if_neg h0] at hi
    by_cases h1 : em.n = 1
    · rw [if_pos h1] at hi
      match xs, h, hn with
      | [], _, hn => simp at hn; omega
      | a :: b :: _, _, hn => simp at hn; omega
      | [o], h, _ =>
        have ho : em.only = some o := by simpa using h.only
        have hs := h.small (by simp)
        rw [ho] at hi
        simp only at hi
        by_cases hl : l = f o
        · rw [if_pos hl] at hi; cases hi; simp [hl]; rfl
        · rw [if_neg hl] at hi; cases hi; simp [Ne.symm hl, hs]; rfl
    · rw [if_neg h1] at hi
      cases hi
      have h2 : 2 ≤ xs.length := by omega
      cases hg : em.lists.get l with
      | none => simp only; rw [h.getNone h2 l hg]; rfl
      | some el => simp only; exact (h.getSome h2 l el hg).2.n

theorem EMRep.iterAny_size {P : Slot} {f : Nat → String} {em : EdgeMap} {xs : List Nat} (h : EMRep P f em xs)
    {ls : List String} {fuel : Nat} {i : Itr Nat} {ys : List Nat} (hi : em.iterAny P f ls = some i)
    (hy : em.enumAny P f fuel ls = some ys) : i.Bounded ys := by
  unfold EdgeMap.iterAny at hi
  unfold EdgeMap.enumAny at hy
  by_cases h0 : em.n = 0
  · rw [if_pos h0] at hi hy; cases hi; cases hy; exact Or.inr (Int.le_refl 0)
  · rw [if_neg h0] at hi hy
    by_cases h1 : em.n = 1
    · rw [if_pos h1] at hi hy
      cases ho : em.only with
      | none => rw [ho] at hi; cases hi
      | some o =>
        rw [ho] at hi hy
        simp only at hi hy
        split at hi <;> rename_i hl
        · rw [if_pos hl] at hy; cases hi; cases hy; exact Or.inr (Int.le_refl 1)
        · rw [if_neg hl] at hy; cases hi; cases hy; exact Or.inr (Int.le_refl 0)
    · rw [if_neg h1] at hi; cases hi; exact Or.inl rfl

/-- `node.GetEdges(dir)`, every direction and every history: the object yields the list of `nodeEdges` (described by
C05), and `MaxSize` is exactly its length. -/
theorem C23_nodeEdges (ops : List Op) (hv : Spec.ValidHistory ops) (s : State) (hs : run ops = some s) (n : Nat)
    (hn : n ∈ (Spec.run ops).nodes) (dir : Dir) :
    ∃ xs, s.nodeEdges n dir = some xs ∧ (s.nodeEdgesItr n dir).Yields xs ∧ (s.nodeEdgesItr n dir).size = xs.length := by
  have c := Core.run hv hs
  obtain ⟨xi, p1, r1⟩ := c.inc n hn
  obtain ⟨yi, e1, q1⟩ := r1.enum (c.fuel p1)
  obtain ⟨xo, p2, r2⟩ := c.out n hn
  obtain ⟨yo, e2, q2⟩ := r2.enum (c.fuel p2)
  cases dir with
  | incoming => exact ⟨yi, e1, EdgeMap.iter_yields e1, by rw [q1.length_eq]; exact r1.iter_size⟩
  | outgoing => exact ⟨yo, e2, EdgeMap.iter_yields e2, by rw [q2.length_eq]; exact r2.iter_size⟩
  | any =>
    refine ⟨yi ++ yo, by simp [State.nodeEdges, e1, e2, cat2],
      (two_yields (EdgeMap.iter_yields e1) (EdgeMap.iter_yields e2)).withSize _, ?_⟩
    show ((s.incoming n).iter s.slot2).size + ((s.outgoing n).iter s.slot1).size = _
    rw [r1.iter_size, r2.iter_size, List.length_append, q1.length_eq, q2.length_eq]
    omega

/-- `node.GetEdgesWithLabel(dir, l)`, every direction and every history. -/
theorem C23_nodeEdgesWithLabel (ops : List Op) (hv : Spec.ValidHistory ops) (s : State) (hs : run ops = some s) (n : Nat)
    (hn : n ∈ (Spec.run ops).nodes) (l : String) (dir : Dir) :
    ∃ xs i, s.nodeEdgesWithLabel n l dir = some xs ∧ s.nodeEdgesWithLabelItr n l dir = some i ∧ i.Yields xs ∧
      i.size = xs.length := by
  have c := Core.run hv hs
  obtain ⟨xi, p1, r1⟩ := c.inc n hn
  have e1 := r1.enumLabel l (c.fuel p1)
  obtain ⟨i1, t1, y1⟩ := EdgeMap.iterLabel_yields e1
  have z1 := r1.iterLabel_size l t1
  obtain ⟨xo, p2, r2⟩ := c.out n hn
  have e2 := r2.enumLabel l (c.fuel p2)
  obtain ⟨i2, t2, y2⟩ := EdgeMap.iterLabel_yields e2
  have z2 := r2.iterLabel_size l t2
  cases dir with
  | incoming => exact ⟨_, i1, e1, t1, y1, z1⟩
  | outgoing => exact ⟨_, i2, e2, t2, y2, z2⟩
  | any =>
    refine ⟨_, bothItr i1 i2, by simp only [State.nodeEdgesWithLabel, e1, e2, cat2],
      by simp only [State.nodeEdgesWithLabelItr, t1, t2, bothOpt], (two_yields y1 y2).withSize _, ?_⟩
    show i1.size + i2.size = _
    rw [z1, z2, List.length_append]
    omega

theorem any1_spec {s : State} {em : EdgeMap} {P : Slot} {xs : List Nat} {ls : List String} (h : EMRep P s.eLabel em xs)
    (hls : ls.Nodup) (hf : xs.length ≤ s.idBase) :
    ∃ ys i, s.nodeEdgesAny1 em P ls = some ys ∧ s.any1Itr em P ls = some i ∧ i.Yields ys ∧ i.Bounded ys := by
  unfold State.nodeEdgesAny1 State.any1Itr
  split
  · obtain ⟨ys, h1, h2⟩ := h.enum hf
    exact ⟨ys, _, h1, rfl, EdgeMap.iter_yields h1, Or.inr (by rw [h.iter_size, h2.length_eq]; exact Int.le_refl _)⟩
  · obtain ⟨ys, h1, _⟩ := h.enumAny hls hf
    obtain ⟨i, h2, h3⟩ := EdgeMap.iterAny_yields h1
    exact ⟨ys, i, h1, h2, h3, h.iterAny_size h2 h1⟩

/-- `node.GetEdgesWithAnyLabel(dir, S)`: the object yields the list of `nodeEdgesWithAnyLabel` (described by C06) in
every direction. `MaxSize` is right for one direction. Missing: `MaxSize` for `AnyEdge`, see `C23_false`. -/
theorem C23_nodeEdgesWithAnyLabel_partial (ops : List Op) (hv : Spec.ValidHistory ops) (s : State)
    (hs : run ops = some s) (n : Nat) (hn : n ∈ (Spec.run ops).nodes) (ls : List String) (hls : ls.Nodup) (dir : Dir) :
    ∃ xs i, s.nodeEdgesWithAnyLabel n ls dir = some xs ∧ s.nodeEdgesWithAnyLabelItr n ls dir = some i ∧ i.Yields xs ∧
      (dir ≠ .any → i.Bounded xs) := by
  have c := Core.run hv hs
  obtain ⟨xi, p1, r1⟩ := c.inc n hn
  obtain ⟨yi, i1, e1, t1, y1, z1⟩ := any1_spec r1 hls (c.fuel p1)
  obtain ⟨xo, p2, r2⟩ := c.out n hn
  obtain ⟨yo, i2, e2, t2, y2, z2⟩ := any1_spec r2 hls (c.fuel p2)
  cases dir with
  | incoming => exact ⟨yi, i1, e1, t1, y1, fun _ => z1⟩
  | outgoing => exact ⟨yo, i2, e2, t2, y2, fun _ => z2⟩
  | any =>
    exact ⟨yi ++ yo, bothItr i1 i2, by simp only [State.nodeEdgesWithAnyLabel, e1, e2, cat2],
      by simp only [State.nodeEdgesWithAnyLabelItr, t1, t2, bothOpt], (two_yields y1 y2).withSize _, fun h => absurd rfl h⟩

/-- node 0 with two outgoing edges to node 1 and one incoming edge -/
def sizeOps : List Op := [.newNode [] [], .newNode [] [], .newEdge 1 0 "a" [], .newEdge 0 1 "a" [], .newEdge 0 1 "a" []]

/-- The `MaxSize` part of C23 is false: `GetEdgesWithAnyLabel(AnyEdge, {"a"})` yields three edges and reports 1 + -1 = 0;
with two incoming edges it reports -2. -/
theorem C23_false_witness : Spec.ValidHistory sizeOps ∧
    (run sizeOps).bind (fun s => s.nodeEdgesWithAnyLabel 0 ["a"] .any) = some [2, 3, 4] ∧
    (run sizeOps).bind (fun s => (s.nodeEdgesWithAnyLabelItr 0 ["a"] .any).map Itr.size) = some 0 ∧
    (run (sizeOps ++ [.newEdge 1 0 "a" []])).bind (fun s => (s.nodeEdgesWithAnyLabelItr 0 ["a"] .any).map Itr.size) =
      some (-2) := by decide +kernel

theorem C23_false : ¬ ∀ (ops : List Op), Spec.ValidHistory ops → ∀ (s : State), run ops = some s →
    ∀ n ∈ (Spec.run ops).nodes, ∀ (ls : List String), ls.Nodup → ∀ (dir : Dir) (xs : List Nat) (i : Itr Nat),
    s.nodeEdgesWithAnyLabel n ls dir = some xs → s.nodeEdgesWithAnyLabelItr n ls dir = some i → i.Bounded xs := by
  intro h
  obtain ⟨h1, h2, h3, _⟩ := C23_false_witness
  have hm : 0 ∈ (Spec.run sizeOps).nodes := by decide +kernel
  cases hr : run sizeOps with
  | none => rw [hr] at h2; cases h2
  | some s =>
    rw [hr] at h2 h3
    simp only [Option.bind_some, Option.map_eq_some_iff] at h2 h3
    obtain ⟨i, hi, hsz⟩ := h3
    have := h sizeOps h1 s hr 0 hm ["a"] (by decide) .any [2, 3, 4] i h2 hi
    rcases this with hb | hb
    · rw [hsz] at hb; cases hb
    · rw [hsz] at hb; simp at hb

/-! ## The iterators handed out by the graph -/

/-- `GetNodes`. -/
theorem C23_getNodes_partial (ops : List Op) (hv : Spec.ValidHistory ops) (hc : ListOk ops) (s : State)
    (hs : run ops = some s) :
    ∃ xs, s.getNodes = some xs ∧ s.getNodesItr.Yields xs ∧ s.getNodesItr.size = xs.length := by
  have h1 := C01_safe_partial ops hv hc s hs
  exact ⟨_, h1, Itr.chain_yields h1, C02 ops hv s hs⟩

/-- `GetNodes` after any history: the object yields the list of `getNodes`. -/
theorem C23_getNodes (ops : List Op) (hv : Spec.ValidHistory ops) (s : State) (hs : run ops = some s) :
    ∃ xs, s.getNodes = some xs ∧ s.getNodesItr.Yields xs := by
  obtain ⟨xs, h1, _⟩ := C01_order_partial ops hv s hs
  exact ⟨xs, h1, Itr.chain_yields h1⟩

/-- `MaxSize` of `GetNodes` is wrong after the history of `C01_false_removed`: one node is yielded, 0 reported. -/
theorem C23_getNodes_false :
    Spec.ValidHistory [.newNode [] [], .detachRemove 0, .newNode [] [], .detachRemove 1] ∧
    (run [.newNode [] [], .detachRemove 0, .newNode [] [], .detachRemove 1]).bind State.getNodes = some [1] ∧
    (run [.newNode [] [], .detachRemove 0, .newNode [] [], .detachRemove 1]).map (fun s => s.getNodesItr.size) = some 0 := by
  decide +kernel

/-- `GetEdges`. -/
theorem C23_getEdges_partial (ops : List Op) (hv : Spec.ValidHistory ops) (hc : FiledOk ops) (s : State)
    (hs : run ops = some s) :
    ∃ xs, s.getEdges = some xs ∧ s.getEdgesItr.Yields xs ∧ s.getEdgesItr.size = xs.length := by
  have c := Core.run hv hs
  have h := filed_run hv hc hs
  obtain ⟨g, xs, hp, hr, _⟩ := h
  obtain ⟨ys, h1, h2⟩ := hr.enum (fuel := s.idBase) (by rw [hp.length_eq]; exact c.edges_length)
  exact ⟨ys, h1, EdgeMap.iter_yields h1, by rw [h2.length_eq]; exact hr.iter_size⟩

theorem EdgeMap.iterAny_congr {P : Slot} {f g : Nat → String} {em : EdgeMap} {ls : List String} (h : em.n ≠ 1) :
    em.iterAny P f ls = em.iterAny P g ls := by
  unfold EdgeMap.iterAny
  rw [if_neg h, if_neg h]

/-- `Graph.GetEdgesWithAnyLabel`. -/
theorem C23_getEdgesWithAnyLabel_partial (ops : List Op) (hv : Spec.ValidHistory ops) (hc : FiledOk ops) (s : State)
    (hs : run ops = some s) (ls : List String) (hls : ls.Nodup) :
    ∃ xs i, s.getEdgesWithAnyLabel ls = some xs ∧ s.getEdgesWithAnyLabelItr ls = some i ∧ i.Yields xs ∧ i.Bounded xs := by
  have c := Core.run hv hs
  have h : AEx _ s (Spec.run ops) := AEx.runFrom Core.init AEx.init hv hc hs
  by_cases hl : (Spec.run ops).edges.length ≤ 1
  · obtain ⟨xs, hp, hr⟩ := h.any (g' := s.eLabel) hl
    obtain ⟨ys, h1, _⟩ := hr.enumAny (fuel := s.idBase) hls (by rw [hp.length_eq]; exact c.edges_length)
    obtain ⟨i, h2, h3⟩ := EdgeMap.iterAny_yields h1
    exact ⟨ys, i, h1, h2, h3, hr.iterAny_size h2 h1⟩
  · obtain ⟨xs, hp, hr⟩ := h
    have hn : s.allEdges.n ≠ 1 := by rw [hr.n, hp.length_eq]; omega
    obtain ⟨ys, h1, _⟩ := hr.enumAny (fuel := s.idBase) hls (by rw [hp.length_eq]; exact c.edges_length)
    obtain ⟨i, h2, h3⟩ := EdgeMap.iterAny_yields h1
    refine ⟨ys, i, ?_, ?_, h3, hr.iterAny_size h2 h1⟩
    · rw [← h1]; exact EdgeMap.enumAny_congr hn
    · rw [← h2]; exact EdgeMap.iterAny_congr hn

/-- `GetNodesWithAllLabels`, every history and every non-empty set. -/
theorem C23_getNodesWithAllLabels (ops : List Op) (hv : Spec.ValidHistory ops) (s : State) (hs : run ops = some s)
    (ls : List String) (hls : ls ≠ []) :
    ∃ xs i, s.getNodesWithAllLabels ls = some xs ∧ s.getNodesWithAllLabelsItr ls = some i ∧ i.Yields xs ∧ i.Bounded xs := by
  obtain ⟨ns, h0, _⟩ := C10 ops hv s hs ls hls
  refine ⟨ns, ?_⟩
  unfold State.getNodesWithAllLabels NodeMap.allLabels at h0
  unfold State.getNodesWithAllLabels State.getNodesWithAllLabelsItr NodeMap.allLabels NodeMap.allLabelsIter
  cases hm : s.byLabel.minSet ls none with
  | none =>
    rw [hm] at h0; cases h0
    exact ⟨Itr.empty, rfl, rfl, Itr.empty_yields, Or.inr (Int.le_refl 0)⟩
  | some o =>
    cases o with
    | none => rw [hm] at h0; cases h0
    | some fs =>
      rw [hm] at h0; cases h0
      refine ⟨_, rfl, rfl, ((Itr.list_yields _ _).withSize _).filter _, Or.inr ?_⟩
      show ((fs.items.filter (fun n => ls.all (fun l => (s.nLabels n).contains l))).length : Int) ≤ (fs.length : Int)
      have := List.length_filter_le (fun n => ls.all (fun l => (s.nLabels n).contains l)) fs.items
      have e : fs.items.length = fs.length := by simp [FSet.items]
      omega

/-! ## Property indexes -/

theorem valueGen_produces {n : Int} : ∀ (t : SetTree), GenProduces (Machine.list n) SetTree.valueGen t (SetTree.valueItr t)
  | [] => .done rfl
  | e :: t => by
    have : SetTree.valueItr (e :: t) = FSet.items e.2 ++ SetTree.valueItr t := by simp [SetTree.valueItr]
    rw [this]
    exact .more rfl (Produces.list n _ _) (valueGen_produces t)

theorem IRep.valueIter {ix : Index} {val : Nat → Option Value} (h : IRep ix val) :
    ix.valueIter.Yields ix.valueItr ∧ ix.valueIter.Bounded ix.valueItr := by
  cases ix with
  | btree t => exact ⟨GenProduces.func (valueGen_produces t) none (Or.inl rfl), Or.inl rfl⟩
  | hash x =>
    unfold Index.valueIter
    simp only
    split
    · rename_i hi
      have : x.valueItr = [] := by
        apply List.eq_nil_iff_forall_not_mem.2
        intro id hid
        obtain ⟨v, hv⟩ := (HRep.mem h id).1 hid
        rw [HRep.init h (by simpa using hi) id] at hv; cases hv
      show Itr.Yields _ x.valueItr ∧ Itr.Bounded _ x.valueItr
      rw [this]
      exact ⟨Itr.empty_yields, Or.inr (Int.le_refl 0)⟩
    · refine ⟨Itr.list_yields _ _, Or.inr ?_⟩
      show ((x.elements.map Prod.snd).length : Int) ≤ (x.elements.length : Int)
      rw [List.length_map]; exact Int.le_refl _

theorem IRep.findIter {ix : Index} {val : Nat → Option Value} (h : IRep ix val) {v : Value} {xs : List Nat} {m : Int}
    (hf : ix.find v = some (xs, m)) : ∃ i, ix.findIter v = some i ∧ i.Yields xs ∧ i.size = m ∧ i.Bounded xs := by
  cases ix with
  | btree t =>
    simp only [Index.find, SetTree.find] at hf
    simp only [Index.findIter]
    cases hg : SetTree.get t v with
    | none => rw [hg] at hf; cases hf
    | some o =>
      rw [hg] at hf
      cases o with
      | none => cases hf; exact ⟨_, rfl, Itr.empty_yields, rfl, Or.inr (Int.le_refl 0)⟩
      | some fs =>
        cases hf
        refine ⟨_, rfl, (Itr.list_yields _ _).withSize _, rfl, Or.inr ?_⟩
        show ((FSet.items fs).length : Int) ≤ (fs.length : Int)
        simp [FSet.items]
  | hash x =>
    have hle := (HRep.find h hf).2.1
    simp only [Index.find, HashIx.find] at hf
    simp only [Index.findIter]
    split at hf
    · rename_i hi; cases hf; rw [if_pos hi]; exact ⟨_, rfl, Itr.empty_yields, rfl, Or.inr (Int.le_refl 0)⟩
    · rename_i hi
      rw [if_neg hi]
      cases hk : hkey (unwrap1 v) with
      | none => rw [hk] at hf; cases hf
      | some k =>
        rw [hk] at hf
        simp only at hf ⊢
        cases hg : x.values.get k with
        | none => rw [hg] at hf; cases hf; exact ⟨_, rfl, Itr.empty_yields, rfl, Or.inr (Int.le_refl 0)⟩
        | some fs =>
          rw [hg] at hf
          simp only [Option.some.injEq, Prod.mk.injEq] at hf
          obtain ⟨rfl, rfl⟩ := hf
          refine ⟨_, rfl, ?_, rfl, Or.inr (Int.le_of_eq hle)⟩
          refine Produces.withSize (Produces.proc (Produces.list _ _ _) ?_) _
          have hall : ∀ c ∈ fs.items, AMap.get x.elements c ≠ none := by
            intro c hc
            unfold FSet.items at hc
            obtain ⟨⟨id, c'⟩, hp, rfl⟩ := List.mem_map.1 hc
            rw [(HRep.sets h k fs id c' hg (AMap.get_of_mem (HRep.keysN h k fs hg) hp)).1]
            simp
          revert hall
          generalize fs.items = cs
          intro hall
          induction cs with
          | nil => rfl
          | cons c cs ih =>
            cases hc : AMap.get x.elements c with
            | none => exact absurd hc (hall c (by simp))
            | some y =>
              rw [List.filterMap_cons_some hc, List.map_cons, List.map_cons, hc,
                ih (fun c hc => hall c (by simp [hc]))]

/-- `GetNodesWithProperty`, with and without an index. -/
theorem C23_getNodesWithProperty_partial (ops : List Op) (hv : Spec.ValidHistory ops) (hc : ListOk ops)
    (hi : NodeIndexSafe ops) (s : State) (hs : run ops = some s) (k : String) :
    ∃ xs, s.getNodesWithProperty k = some xs ∧ (s.getNodesWithPropertyItr k).Yields xs ∧
      (s.getNodesWithPropertyItr k).Bounded xs := by
  unfold State.getNodesWithProperty State.getNodesWithPropertyItr
  cases hix : AMap.get s.nodeIx k with
  | some ix =>
    have r := (nodeIx_run hv hi hs k ix hix).valueIter
    exact ⟨_, rfl, r.1, r.2⟩
  | none =>
    obtain ⟨xs, h1, h2, h3⟩ := C23_getNodes_partial ops hv hc s hs
    obtain ⟨h4, h5⟩ := C23_filter _ _ (fun n => (s.nodeProperty n k).isSome) h2
    exact ⟨_, by rw [h1]; rfl, h4, h5 (Or.inr (Int.le_of_eq h3.symm))⟩

/-- `GetEdgesWithProperty`, with and without an index. -/
theorem C23_getEdgesWithProperty_partial (ops : List Op) (hv : Spec.ValidHistory ops) (hc : FiledOk ops)
    (hi : EdgeIndexIntact ops) (s : State) (hs : run ops = some s) (k : String) :
    ∃ xs, s.getEdgesWithProperty k = some xs ∧ (s.getEdgesWithPropertyItr k).Yields xs ∧
      (s.getEdgesWithPropertyItr k).Bounded xs := by
  unfold State.getEdgesWithProperty State.getEdgesWithPropertyItr
  cases hix : AMap.get s.edgeIx k with
  | some ix =>
    have r := (edgeIx_run hv hi hs k ix hix).valueIter
    exact ⟨_, rfl, r.1, r.2⟩
  | none =>
    obtain ⟨xs, h1, h2, h3⟩ := C23_getEdges_partial ops hv hc s hs
    obtain ⟨h4, h5⟩ := C23_filter _ _ (fun e => (s.edgeProperty e k).isSome) h2
    exact ⟨_, by rw [h1]; rfl, h4, h5 (Or.inr (Int.le_of_eq h3.symm))⟩

/-- The iterator that a lookup of a value in an index returns, which `FindNodes` and `FindEdges` choose from by its size: it yields
what the lookup finds, and its size is their number. -/
theorem C23_find_partial (ops : List Op) (hv : Spec.ValidHistory ops) (s : State) (hs : run ops = some s) (k : String) (v : Value)
    (ix : Index) (xs : List Nat) (m : Int) (hf : ix.find v = some (xs, m))
    (hix : (NodeIndexSafe ops ∧ AMap.get s.nodeIx k = some ix) ∨ (EdgeIndexIntact ops ∧ AMap.get s.edgeIx k = some ix)) :
    ∃ i, ix.findIter v = some i ∧ i.Yields xs ∧ xs.Nodup ∧ i.size = xs.length := by
  rcases hix with ⟨hi, h⟩ | ⟨hi, h⟩
  · have r := nodeIx_run hv hi hs k ix h
    obtain ⟨i, h1, h2, h3, _⟩ := r.findIter hf
    obtain ⟨g1, g2, _⟩ := r.find hf
    exact ⟨i, h1, h2, g1, h3.trans g2.symm⟩
  · have r := edgeIx_run hv hi hs k ix h
    obtain ⟨i, h1, h2, h3, _⟩ := r.findIter hf
    obtain ⟨g1, g2, _⟩ := r.find hf
    exact ⟨i, h1, h2, g1, h3.trans g2.symm⟩

example : (run indexOps).bind (fun s => (AMap.get s.nodeIx "h").bind (fun ix => ix.find (.int 1))) ≠ none := by decide +kernel

/-- the hypotheses of the theorems above: a history with labelled edges, an index, a removal -/
example : Spec.ValidHistory demoOps ∧ ListOk demoOps ∧ NodeIndexSafe demoOps ∧
    FiledOk demoOps ∧ EdgeIndexIntact demoOps := by decide +kernel

end LPG

import Verif.Proofs.Sets
import Verif.Props.C10C11
/-!
# C20, C21: NodeSet and EdgeSet; C46: NodeMap.Iterator
-/
namespace LPG

/-- `NodeSet`/`EdgeSet` over any objects: what it holds is right if no two different objects among the arguments have
the same id. -/
theorem RefSet.run_rep (ops : List SetOp) (hid : ∀ o ∈ ops, ∀ o' ∈ ops, o.ref.id = o'.ref.id → o.ref = o'.ref) :
    FastSet.Rep (RefSet.run ops) ((OSet.run ops).map (fun x => (x.id, x))) ∧ ∀ x ∈ OSet.run ops, ∃ o ∈ ops, o.ref = x := by
  have key : ∀ (rest : List SetOp), (∀ o ∈ rest, o ∈ ops) → ∀ (f : RefSet) (s : List Ref),
      FastSet.Rep f (s.map (fun x => (x.id, x))) → (∀ x ∈ s, ∃ o ∈ ops, o.ref = x) →
      FastSet.Rep (rest.foldl RefSet.step f) ((rest.foldl OSet.step s).map (fun x => (x.id, x))) ∧
        ∀ x ∈ rest.foldl OSet.step s, ∃ o ∈ ops, o.ref = x := by
    intro rest
    induction rest with
    | nil => intro _ f s h1 h2; exact ⟨h1, h2⟩
    | cons op rest ih =>
      intro hsub f s h1 h2
      have hop := hsub op (by simp)
      have hmem : ∀ x ∈ s, x.id = op.ref.id ↔ x = op.ref := by
        intro x hx
        obtain ⟨o, ho, rfl⟩ := h2 x hx
        exact ⟨fun h => hid o ho op hop h, fun h => by rw [h]⟩
      have hget : ∀ t : List Ref, (∀ x ∈ t, x.id = op.ref.id ↔ x = op.ref) →
          AMap.get (t.map (fun x => (x.id, x))) op.ref.id = if op.ref ∈ t then some op.ref else none := by
        intro t
        induction t with
        | nil => intro _; rfl
        | cons y t iht =>
          intro ht
          have hy := ht y (by simp)
          simp only [List.map_cons, AMap.get, List.mem_cons]
          by_cases hxy : y = op.ref
          · simp [hxy]
          · have hne : ¬ y.id = op.ref.id := fun h => hxy (hy.1 h)
            simp only [hne, if_false, iht (fun x hx => ht x (by simp [hx])), Ne.symm hxy, false_or]
      rw [List.foldl_cons, List.foldl_cons]
      apply ih (fun o ho => hsub o (by simp [ho]))
      · cases op with
        | add x =>
          have := (h1.add x.id x).1
          simp only [RefSet.step, RefSet.add, OSet.step]
          have hg := hget s hmem
          simp only [SetOp.ref] at hg
          unfold FSet.add at this
          rw [hg] at this
          by_cases hx : x ∈ s
          · simpa [hx] using this
          · simpa [hx] using this
        | remove x =>
          have := (h1.remove x.id).1
          simp only [RefSet.step, RefSet.remove, OSet.step]
          have hdel : ∀ t : List Ref, (∀ y ∈ t, y.id = x.id ↔ y = x) →
              AMap.del (t.map (fun x => (x.id, x))) x.id = (t.filter (· ≠ x)).map (fun x => (x.id, x)) := by
            intro t
            induction t with
            | nil => intro _; rfl
            | cons y t iht =>
              intro ht
              have hy := ht y (by simp)
              simp only [List.map_cons, AMap.del, List.filter_cons]
              by_cases hxy : y = x
              · simp [hxy, iht (fun z hz => ht z (by simp [hz]))]
              · have hne : ¬ y.id = x.id := fun h => hxy (hy.1 h)
                simp [hne, hxy, iht (fun z hz => ht z (by simp [hz]))]
          unfold FSet.remove at this
          rw [hdel s hmem] at this
          exact this
      · intro y hy
        cases op with
        | add x =>
          simp only [OSet.step] at hy
          split at hy
          · exact h2 y hy
          · rcases List.mem_append.1 hy with hy | hy
            · exact h2 y hy
            · simp at hy; subst hy; exact ⟨_, hop, rfl⟩
        | remove x => exact h2 y (List.mem_filter.1 hy).1
  exact key ops (fun _ h => h) _ _ FastSet.Rep.new (by simp)

/-- After any sequence of `Add` and `Remove` of nodes (edges) of one graph `g`, the set is the insertion ordered set
of these nodes: `Slice` lists it in order, `Len` is its length, `Has` is membership. -/
theorem C20 (g : Nat) (ops : List SetOp) (hg : ∀ o ∈ ops, o.ref.graph = g) :
    (RefSet.run ops).slice = OSet.run ops ∧ (OSet.run ops).Nodup ∧ (RefSet.run ops).len = (OSet.run ops).length ∧
      ∀ x : Ref, x.graph = g → ((RefSet.run ops).has x = true ↔ x ∈ OSet.run ops) := by
  obtain ⟨h1, h2⟩ := RefSet.run_rep ops (by
    intro o ho o' ho' hid
    have a := hg o ho
    have b := hg o' ho'
    cases hx : o.ref; cases hy : o'.ref
    rw [hx] at a hid; rw [hy] at b hid
    simp_all)
  refine ⟨?_, ?_, ?_, ?_⟩
  · have := h1.items
    simpa [RefSet.slice, Function.comp_def] using this
  · have := h1.keys
    simp only [AMap.keys, List.map_map] at this
    exact (List.pairwise_map.1 this).imp (fun h e => h (by rw [e]))
  · have := h1.size
    simpa [RefSet.len] using this
  · intro x hx
    unfold RefSet.has
    rw [h1.has, Option.isSome_iff_exists, ← AMap.mem_keys]
    simp only [AMap.keys, List.map_map, List.mem_map, Function.comp]
    constructor
    · rintro ⟨y, hy, hid⟩
      obtain ⟨o, ho, rfl⟩ := h2 y hy
      have a := hg o ho
      have : o.ref = x := by
        cases hz : o.ref; cases x
        rw [hz] at a hid; simp_all
      rw [← this]; exact hy
    · intro h; exact ⟨x, h, rfl⟩

/-- `get` of the set below finds the node under its id. -/
theorem C20_get (g : Nat) (ops : List SetOp) (hg : ∀ o ∈ ops, o.ref.graph = g) (x : Ref) (hx : x.graph = g) :
    FastSet.get (RefSet.run ops) x.id = if x ∈ OSet.run ops then some x else none := by
  obtain ⟨h1, h2⟩ := RefSet.run_rep ops (by
    intro o ho o' ho' hid
    have a := hg o ho
    have b := hg o' ho'
    cases hx : o.ref; cases hy : o'.ref
    rw [hx] at a hid; rw [hy] at b hid
    simp_all)
  rw [h1.get]
  have hm : ∀ y ∈ OSet.run ops, y.graph = g := by
    intro y hy
    obtain ⟨o, ho, rfl⟩ := h2 y hy
    exact hg o ho
  revert hm
  generalize OSet.run ops = l
  intro hm
  induction l with
  | nil => rfl
  | cons y l ih =>
    have ih := ih (fun z hz => hm z (List.mem_cons_of_mem _ hz))
    have hy := hm y (List.mem_cons_self ..)
    rw [List.map_cons]
    simp only [AMap.get]
    split
    · rename_i he
      have : y = x := by cases y; cases x; simp_all
      simp [this]
    · rename_i he
      rw [ih]
      have : x ≠ y := fun e => he (by rw [e])
      simp [this]

/-- Membership is what the last call for the object says. -/
theorem OSet.mem_run_append (ops : List SetOp) (op : SetOp) (x : Ref) :
    x ∈ OSet.run (ops ++ [op]) ↔ (op = .add x ∨ (x ∈ OSet.run ops ∧ op ≠ .remove x)) := by
  simp only [OSet.run, List.foldl_append, List.foldl_cons, List.foldl_nil]
  cases op with
  | add y =>
    simp only [OSet.step]
    split
    · simp; intro h; subst h; assumption
    · simp only [List.mem_append, List.mem_singleton, SetOp.add.injEq, reduceCtorEq, ne_eq, not_false_iff, and_true]
      grind
  | remove y => simp [OSet.step]; grind

example : (RefSet.run [.add ⟨0, 3⟩, .add ⟨0, 1⟩, .add ⟨0, 3⟩, .add ⟨0, 7⟩, .remove ⟨0, 3⟩, .add ⟨0, 3⟩]).slice =
    [⟨0, 1⟩, ⟨0, 7⟩, ⟨0, 3⟩] := by decide

/-- The full property C21: a set of nodes of several graphs. -/
def C21_statement (ops : List SetOp) : Prop :=
  (RefSet.run ops).slice = OSet.run ops ∧ ∀ x : Ref, (RefSet.run ops).has x = true ↔ x ∈ OSet.run ops

/-- C21 is false: the set confuses nodes of different graphs that have the same id. -/
theorem C21_false : ¬ ∀ ops, C21_statement ops := by
  intro h
  have := ((h [.add ⟨0, 0⟩]).2 ⟨1, 0⟩).1 (by decide)
  revert this; decide

/-- The collision loses and removes members: adding a node of another graph is swallowed, and removing it
removes the other node. -/
theorem C21_false_collision : (RefSet.run [.add ⟨0, 0⟩, .add ⟨1, 0⟩]).slice = [⟨0, 0⟩] ∧
    (RefSet.run [.add ⟨0, 0⟩, .remove ⟨1, 0⟩]).slice = [] := by decide

/-- With several graphs the set is right as long as different arguments have different ids. Missing: arguments with
colliding ids (`C21_false`). -/
theorem C21_partial (ops : List SetOp)
    (hid : ∀ o ∈ ops, ∀ o' ∈ ops, o.ref.id = o'.ref.id → o.ref = o'.ref) :
    (RefSet.run ops).slice = OSet.run ops ∧ (RefSet.run ops).len = (OSet.run ops).length ∧
    ∀ o ∈ ops, ((RefSet.run ops).has o.ref = true ↔ o.ref ∈ OSet.run ops) := by
  obtain ⟨h1, h2⟩ := RefSet.run_rep ops hid
  refine ⟨?_, ?_, ?_⟩
  · have := h1.items
    simpa [RefSet.slice, Function.comp_def] using this
  · have := h1.size
    simpa [RefSet.len] using this
  · intro o ho
    unfold RefSet.has
    rw [h1.has, Option.isSome_iff_exists, ← AMap.mem_keys]
    simp only [AMap.keys, List.map_map, List.mem_map, Function.comp]
    constructor
    · rintro ⟨y, hy, hid'⟩
      obtain ⟨o', ho', rfl⟩ := h2 y hy
      rw [← hid o' ho' o ho hid']; exact hy
    · intro h; exact ⟨_, h, rfl⟩

example : (RefSet.run [.add ⟨0, 0⟩, .add ⟨1, 4⟩, .remove ⟨0, 0⟩, .add ⟨0, 2⟩]).slice = [⟨1, 4⟩, ⟨0, 2⟩] := by decide

/-! ## C46 -/

/-- The full property C46 for the label index of a graph after a history. -/
def C46_statement (ops : List Op) : Prop :=
  ∀ s, run ops = some s → ∃ ns, s.byLabel.iterator s.nLabels = some ns ∧ ns.Perm (Spec.run ops).nodes

/-- `NodeMap.Iterator` lists every node once, if labels are never cleared. Missing: `SetLabels` with the empty set on a
node with labels, for which it is false (`C46_false`). -/
theorem C46_partial (ops : List Op) (hv : Spec.ValidHistory ops) (hc : NoLabelClearing ops) : C46_statement ops := by
  intro s hs
  have c := Core.run hv hs
  have r := LblExact.runFrom Core.init LblExact.init hv hc hs
  have hget : ∀ l t, (l, t) ∈ s.byLabel.m → s.byLabel.m.get l = some t :=
    fun l t h => AMap.get_of_mem r.ok.keys h
  obtain ⟨xs, h1, h2, h3⟩ := NodeMap.iterLabels_spec s.nLabels (· ∈ (Spec.run ops).nodes) s.byLabel.m [] r.ok.keys (by
    intro l t h
    refine ⟨r.ok.nonempty l t (hget l t h), r.ok.sets l t (hget l t h), ?_⟩
    intro n
    have := r.mem n l
    unfold NodeMap.members at this
    rw [hget l t h] at this
    exact this)
  refine ⟨xs ++ s.byLabel.nolabels.items, by simp only [NodeMap.iterator, h1], ?_⟩
  have hno := r.ok.nolabels
  have hnd : (xs ++ s.byLabel.nolabels.items).Nodup := by
    rw [List.nodup_append]
    refine ⟨h2, by rw [hno.items]; exact hno.nodup, ?_⟩
    rintro a ha b hb rfl
    rw [hno.items, r.nolab] at hb
    rw [h3] at ha
    obtain ⟨l, _, hl⟩ := ha.2.1
    rw [hb.2] at hl; cases hl
  rw [List.perm_ext_iff_of_nodup hnd c.nNodup]
  intro n
  rw [List.mem_append, h3, hno.items, r.nolab]
  constructor
  · rintro (h | h)
    · exact h.1
    · exact h.1
  · intro hn
    cases hl : s.nLabels n with
    | nil => exact Or.inr ⟨hn, rfl⟩
    | cons l ls =>
      refine Or.inl ⟨hn, ⟨l, ?_, by simp⟩, by simp⟩
      have := (r.mem n l).2 ⟨hn, by rw [hl]; simp⟩
      unfold NodeMap.members at this
      rw [AMap.mem_keys]
      cases hg : s.byLabel.m.get l with
      | none => rw [hg] at this; cases this
      | some t => exact ⟨t, rfl⟩

/-- `IsEmpty` tells whether no node of the map has a label. -/
theorem C46_isEmpty_partial (ops : List Op) (hv : Spec.ValidHistory ops) (hc : NoLabelClearing ops) (s : State)
    (hs : run ops = some s) : s.byLabel.isEmpty = true ↔ ∀ n ∈ (Spec.run ops).nodes, (Spec.run ops).labels n = [] := by
  have c := Core.run hv hs
  have r := LblExact.runFrom Core.init LblExact.init hv hc hs
  have h1 : s.byLabel.isEmpty = true ↔ s.byLabel.m = [] := by
    unfold NodeMap.isEmpty
    split
    · rename_i h; simpa using List.length_eq_zero_iff.1 h
    · rename_i h; simpa using fun h' => h (by rw [h']; rfl)
  rw [h1]
  have hlab : ∀ n ∈ (Spec.run ops).nodes, ((Spec.run ops).labels n = [] ↔ s.nLabels n = []) := by
    intro n hn
    have := (c.labels n hn).2
    constructor
    · intro h0
      exact List.eq_nil_iff_forall_not_mem.2 fun l hl => by rw [this l, h0] at hl; cases hl
    · intro h0
      exact List.eq_nil_iff_forall_not_mem.2 fun l hl => by rw [← this l, h0] at hl; cases hl
  constructor
  · intro h n hn
    rw [hlab n hn]
    cases hl : s.nLabels n with
    | nil => rfl
    | cons l ls =>
      have := (r.mem n l).2 ⟨hn, by rw [hl]; simp⟩
      unfold NodeMap.members at this
      rw [h] at this
      cases this
  · intro h
    cases hm : s.byLabel.m with
    | nil => rfl
    | cons a m =>
      obtain ⟨l, t⟩ := a
      have hg : s.byLabel.m.get l = some t := AMap.get_of_mem r.ok.keys (by rw [hm]; simp)
      have hne := r.ok.nonempty l t hg
      cases t with
      | nil => exact absurd rfl hne
      | cons x t =>
        have : x.1 ∈ s.byLabel.members l := by
          unfold NodeMap.members
          rw [hg]
          simp [AMap.keys]
        obtain ⟨g1, g2⟩ := (r.mem x.1 l).1 this
        rw [(hlab x.1 g1).1 (h x.1 g1)] at g2
        cases g2

/-- So `IsEmpty` is true of a map that has only nodes without labels. -/
theorem C46_isEmpty_false : ¬ ∀ ops, Spec.ValidHistory ops → NoLabelClearing ops → ∀ s, run ops = some s →
    (s.byLabel.isEmpty = true ↔ (Spec.run ops).nodes = []) := by
  intro h
  have w : Spec.ValidHistory [.newNode [] []] ∧ NoLabelClearing [.newNode [] []] ∧
    (run [.newNode [] []]).map (fun s => s.byLabel.isEmpty) = some true ∧ (Spec.run [.newNode [] []]).nodes = [0] := by
    decide +kernel
  obtain ⟨h1, h2, h3, h4⟩ := w
  obtain ⟨s, hs, h3⟩ := Option.map_eq_some_iff.1 h3
  have := (h _ h1 h2 s hs).1 h3
  rw [h4] at this
  cases this

def mapOps : List Op :=
  [.newNode ["A", "B"] [], .newNode [] [], .newNode ["B", "C", "A"] [], .newNode ["C"] [], .setLabels 1 ["A", "D"],
   .setLabels 3 ["B", "D"], .newNode [] [], .detachRemove 0, .setLabels 4 []]

example : Spec.ValidHistory mapOps ∧ NoLabelClearing mapOps ∧
    (run mapOps).bind (fun s => s.byLabel.iterator s.nLabels) = some [2, 1, 3, 4] := by decide +kernel

/-- C46 is false: a node whose labels were cleared is listed several times. -/
theorem C46_false : ¬ ∀ ops, Spec.ValidHistory ops → C46_statement ops := by
  intro h
  have w : Spec.ValidHistory [.newNode ["A", "B"] [], .setLabels 0 []] ∧
    (run [.newNode ["A", "B"] [], .setLabels 0 []]).bind (fun s => s.byLabel.iterator s.nLabels) = some [0, 0, 0] ∧
    (Spec.run [.newNode ["A", "B"] [], .setLabels 0 []]).nodes = [0] := by decide +kernel
  revert w
  generalize ([.newNode ["A", "B"] [], .setLabels 0 []] : List Op) = ops
  rintro ⟨h1, h2, h3⟩
  cases hr : run ops with
  | none => rw [hr] at h2; cases h2
  | some s =>
    obtain ⟨ns, h4, h5⟩ := h ops h1 s hr
    rw [hr] at h2
    simp only [Option.bind_some] at h2
    rw [h2] at h4; cases h4
    rw [h3] at h5
    have := h5.length_eq
    simp at this

/-- A removed node can still be listed, if its labels were cleared before. -/
theorem C46_false_removed : Spec.ValidHistory [.newNode ["A"] [], .setLabels 0 [], .detachRemove 0] ∧
    (run [.newNode ["A"] [], .setLabels 0 [], .detachRemove 0]).bind (fun s => s.byLabel.iterator s.nLabels) = some [0] ∧
    (Spec.run [.newNode ["A"] [], .setLabels 0 [], .detachRemove 0]).nodes = [] := by decide +kernel

end LPG

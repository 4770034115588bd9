import Verif.Props.C46Left
import Verif.Spec.NodeMapAlone
/-!
# C71: a NodeMap kept by the caller
-/
namespace LPG

/-- The map has the nodes where the filing says. -/
structure FiledAs (nm : NodeMap) (f : Filing) : Prop where
  ok : nm.Ok
  mem : ∀ n l, n ∈ nm.members l ↔ l ∈ f.under n
  nodup : ∀ n, (f.under n).Nodup
  nolab : ∀ n, n ∈ AMap.keys nm.nolabels ↔ f.bare n = true

theorem FiledAs.empty : FiledAs NodeMap.empty { under := fun _ => [], bare := fun _ => false } :=
  ⟨NodeMap.Ok.empty, by simp [NodeMap.members_empty], by simp, by simp [NodeMap.empty, AMap.keys]⟩

theorem FiledAs.call {m : MapState} {f : Filing} (h : FiledAs m.nm f) (c : MapCall) :
    FiledAs (m.call c).nm (f.call m.labels c) ∧ (m.call c).labels = c.relabels m.labels := by
  cases c with
  | setLabels n ls => exact ⟨h, rfl⟩
  | add n =>
    refine ⟨?_, rfl⟩
    simp only [MapState.call, Filing.call]
    by_cases hl : m.labels n = []
    · rw [if_pos hl]
      refine ⟨h.ok.add _ _, fun x l => ?_, h.nodup, fun x => ?_⟩
      · rw [NodeMap.mem_add, h.mem, hl]; simp
      · rw [NodeMap.mem_nolabels_add, h.nolab, hl]
        simp only [upd_apply]
        by_cases hx : x = n <;> simp [hx]
    · rw [if_neg hl]
      refine ⟨h.ok.add _ _, fun x l => ?_, fun x => ?_, fun x => ?_⟩
      · rw [NodeMap.mem_add, h.mem]
        simp only [upd_apply]
        by_cases hx : x = n
        · subst hx; simp [List.mem_eraseDups]
        · simp [hx]
      · simp only [upd_apply]
        split
        · exact (eraseDups_spec _).1
        · exact h.nodup x
      · rw [NodeMap.mem_nolabels_add, h.nolab]; simp [hl]
  | remove n =>
    refine ⟨?_, rfl⟩
    simp only [MapState.call, Filing.call]
    by_cases hl : m.labels n = []
    · rw [if_pos hl]
      refine ⟨h.ok.remove _ _, fun x l => ?_, h.nodup, fun x => ?_⟩
      · rw [NodeMap.mem_remove, h.mem, hl]; simp
      · rw [NodeMap.mem_nolabels_remove, h.nolab, hl]
        simp only [upd_apply]
        by_cases hx : x = n <;> simp [hx]
    · rw [if_neg hl]
      refine ⟨h.ok.remove _ _, fun x l => ?_, fun x => ?_, fun x => ?_⟩
      · rw [NodeMap.mem_remove, h.mem]
        simp only [upd_apply]
        by_cases hx : x = n
        · subst hx; simp
        · simp [hx]
      · simp only [upd_apply]
        split
        · exact (h.nodup n).filter _
        · exact h.nodup x
      · rw [NodeMap.mem_nolabels_remove, h.nolab]; simp [hl]
  | replace n old new =>
    refine ⟨?_, rfl⟩
    simp only [MapState.call, Filing.call]
    by_cases hn : new = []
    · rw [if_pos hn]
      subst hn
      by_cases ho : old = []
      · rw [if_pos ho]
        refine ⟨h.ok.replace _ _ _, fun x l => ?_, h.nodup, fun x => ?_⟩
        · rw [NodeMap.mem_replace, h.mem]; simp
        · rw [NodeMap.mem_nolabels_replace, h.nolab]; simp [ho]
      · rw [if_neg ho]
        refine ⟨h.ok.replace _ _ _, fun x l => ?_, h.nodup, fun x => ?_⟩
        · rw [NodeMap.mem_replace, h.mem]; simp
        · rw [NodeMap.mem_nolabels_replace, h.nolab]
          simp only [upd_apply]
          by_cases hx : x = n <;> simp [hx, ho]
    · rw [if_neg hn]
      refine ⟨h.ok.replace _ _ _, fun x l => ?_, fun x => ?_, fun x => ?_⟩
      · rw [NodeMap.mem_replace, h.mem]
        simp only [upd_apply]
        by_cases hx : x = n
        · subst hx
          simp only [if_true, List.mem_eraseDups, List.mem_append, List.mem_filter, decide_eq_true_eq, hn, false_or, true_and]
        · simp [hx]
      · simp only [upd_apply]
        split
        · exact (eraseDups_spec _).1
        · exact h.nodup x
      · rw [NodeMap.mem_nolabels_replace, h.nolab]
        by_cases ho : old = []
        · simp only [ho, if_true, upd_apply]
          by_cases hx : x = n <;> simp [hx, hn]
        · simp [ho, hn]

theorem FiledAs.calls : ∀ {cs : List MapCall} {m : MapState} {f : Filing}, FiledAs m.nm f →
    FiledAs (m.calls cs).nm (f.calls m.labels cs) ∧ (m.calls cs).labels = MapCall.relabelsAll m.labels cs
  | [], _, _, h => ⟨h, rfl⟩
  | c :: cs, m, f, h => by
    obtain ⟨h1, h2⟩ := h.call c
    have h3 := FiledAs.calls (cs := cs) h1
    rw [h2] at h3
    exact h3

/-- how often the iteration yields a node that is filed so -/
theorem FiledAs.iterator {nm : NodeMap} {f : Filing} (r : FiledAs nm f) (labels : Nat → List String) :
    ∃ ns, nm.iterator labels = some ns ∧ ∀ n,
      ns.count n ≤ ((f.under n).filter (fun l => l ∉ labels n)).length +
        (if ∃ l ∈ f.under n, l ∈ labels n then 1 else 0) + (if f.bare n then 1 else 0) ∧
      (labels n ≠ [] → (∀ l ∈ labels n, l ∈ f.under n) → 1 + (if f.bare n then 1 else 0) ≤ ns.count n) ∧
      ((∀ a ∈ labels n, ∀ b ∈ labels n, a = b) → ns.count n = (f.under n).length + if f.bare n then 1 else 0) := by
  have hget : ∀ l t, (l, t) ∈ nm.m → nm.m.get l = some t := fun l t h => AMap.get_of_mem r.ok.keys h
  have hm : ∀ l t, (l, t) ∈ nm.m → t ≠ [] ∧ FSet.Ok t :=
    fun l t h => ⟨r.ok.nonempty l t (hget l t h), r.ok.sets l t (hget l t h)⟩
  have hmem : ∀ n l t, (l, t) ∈ nm.m → (n ∈ AMap.keys t ↔ l ∈ f.under n) := by
    intro n l t h
    have := r.mem n l
    unfold NodeMap.members at this
    rw [hget l t h] at this
    exact this
  have hkey : ∀ n l, l ∈ f.under n → ∃ t, (l, t) ∈ nm.m := by
    intro n l hl
    have := (r.mem n l).2 hl
    unfold NodeMap.members at this
    cases hg : nm.m.get l with
    | none => rw [hg] at this; cases this
    | some t => exact ⟨t, AMap.get_mem hg⟩
  have hlen : ∀ (n : Nat) (q : String → Prop) [DecidablePred q],
      (nm.m.filter (fun p => n ∈ AMap.keys p.2 ∧ q p.1)).length = ((f.under n).filter (fun l => q l)).length := by
    intro n q _
    rw [← List.length_map (f := Prod.fst)]
    apply List.Perm.length_eq
    rw [List.perm_ext_iff_of_nodup (List.Nodup.sublist (List.filter_sublist.map _) r.ok.keys) ((r.nodup n).filter _)]
    intro l
    simp only [List.mem_map, List.mem_filter, decide_eq_true_eq]
    constructor
    · rintro ⟨⟨l', t⟩, ⟨g1, g2, g3⟩, rfl⟩
      exact ⟨(hmem n l' t g1).1 g2, g3⟩
    · rintro ⟨g1, g2⟩
      obtain ⟨t, ht⟩ := hkey n l g1
      exact ⟨(l, t), ⟨ht, (hmem n l t ht).2 g1, g2⟩, rfl⟩
  obtain ⟨xs, h0, _⟩ := iterLabels_count labels 0 nm.m [] hm
  refine ⟨xs ++ nm.nolabels.items, by simp only [NodeMap.iterator, h0], fun n => ?_⟩
  obtain ⟨ys, h1, h2, h3, h4⟩ := iterLabels_count labels n nm.m [] hm
  rw [h0] at h1; cases h1
  have hno : nm.nolabels.items.count n = if f.bare n then 1 else 0 := by
    rw [r.ok.nolabels.items, (r.ok.nolabels.nodup : List.Nodup _).count]
    simp only [r.nolab]
  rw [List.count_append, hno]
  refine ⟨?_, fun hl hs => ?_, fun hl => ?_⟩
  · rw [hlen n (fun l => l ∉ labels n)] at h2
    have : (if (∃ l ∈ ([] : List String), l ∈ labels n) ∨ ∀ p ∈ nm.m, p.1 ∈ labels n → n ∉ AMap.keys p.2 then 0 else 1) ≤
        (if ∃ l ∈ f.under n, l ∈ labels n then 1 else 0) := by
      by_cases hx : ∃ l ∈ f.under n, l ∈ labels n
      · rw [if_pos hx]; split <;> omega
      · rw [if_neg hx, if_pos]
        · exact Or.inr fun p hp h hk => hx ⟨p.1, (hmem n p.1 p.2 hp).1 hk, h⟩
    omega
  · obtain ⟨l, hl⟩ := List.exists_mem_of_ne_nil _ hl
    obtain ⟨t, ht⟩ := hkey n l (hs l hl)
    have := h3 (by simp) (fun p hp h => (hmem n p.1 p.2 hp).2 (hs _ h)) ⟨(l, t), ht, hl⟩
    omega
  · rw [h4 hl (by simpa using r.ok.keys)]
    have := hlen n (fun _ => True)
    simp only [and_true, decide_true, List.filter_true] at this
    rw [this]

theorem isEmpty_iff {nm : NodeMap} (r : nm.Ok) : nm.isEmpty = true ↔ ∀ n l, n ∉ nm.members l := by
  have h1 : nm.isEmpty = true ↔ nm.m = [] := by
    unfold NodeMap.isEmpty
    split
    · rename_i h; simpa using List.length_eq_zero_iff.1 h
    · rename_i h; simpa using fun h' => h (by rw [h']; rfl)
  rw [h1]
  constructor
  · intro h n l hm
    unfold NodeMap.members at hm
    rw [h] at hm; cases hm
  · intro h
    cases hm : nm.m with
    | nil => rfl
    | cons a m =>
      obtain ⟨l, t⟩ := a
      have hg : nm.m.get l = some t := AMap.get_of_mem r.keys (by rw [hm]; simp)
      cases t with
      | nil => exact absurd rfl (r.nonempty l _ hg)
      | cons x t =>
        refine absurd ?_ (h x.1 l)
        unfold NodeMap.members
        rw [hg]
        simp [AMap.keys]

/-- After any calls on a new map, in any order and with any arguments: `IteratorAllLabels` for a non-empty set of labels yields
nodes that have all of them and are filed under one of them, each once, among them all that are filed under all of them;
`Iterator` returns, and how often it yields a node is known, exactly if the node has at most one label; and `IsEmpty` says
whether no node is filed under a label. -/
theorem C71_calls (labels : Nat → List String) (cs : List MapCall) :
    (∀ ls, ls ≠ [] → ∃ xs k, ((MapState.new labels).calls cs).nm.allLabels (MapCall.relabelsAll labels cs) ls = some (xs, k) ∧
      xs.Nodup ∧ (xs.length : Int) ≤ k ∧
      (∀ n ∈ xs, (∀ l ∈ ls, l ∈ MapCall.relabelsAll labels cs n) ∧ ∃ l ∈ ls, l ∈ (filedBy labels cs).under n) ∧
      ∀ n, (∀ l ∈ ls, l ∈ MapCall.relabelsAll labels cs n ∧ l ∈ (filedBy labels cs).under n) → n ∈ xs) ∧
    (∃ ns, ((MapState.new labels).calls cs).nm.iterator (MapCall.relabelsAll labels cs) = some ns ∧ ∀ n,
      ns.count n ≤ (((filedBy labels cs).under n).filter (fun l => l ∉ MapCall.relabelsAll labels cs n)).length +
        (if ∃ l ∈ (filedBy labels cs).under n, l ∈ MapCall.relabelsAll labels cs n then 1 else 0) +
        (if (filedBy labels cs).bare n then 1 else 0) ∧
      (MapCall.relabelsAll labels cs n ≠ [] → (∀ l ∈ MapCall.relabelsAll labels cs n, l ∈ (filedBy labels cs).under n) →
        1 + (if (filedBy labels cs).bare n then 1 else 0) ≤ ns.count n) ∧
      ((∀ a ∈ MapCall.relabelsAll labels cs n, ∀ b ∈ MapCall.relabelsAll labels cs n, a = b) →
        ns.count n = ((filedBy labels cs).under n).length + if (filedBy labels cs).bare n then 1 else 0)) ∧
    (((MapState.new labels).calls cs).nm.isEmpty = true ↔ ∀ n, (filedBy labels cs).under n = []) := by
  obtain ⟨r, hl⟩ := FiledAs.calls (cs := cs) (m := MapState.new labels) FiledAs.empty
  change FiledAs _ (filedBy labels cs) at r
  refine ⟨fun ls hls => ?_, r.iterator _, ?_⟩
  · obtain ⟨xs, k, h1, h2, h3, h4, h5, h6⟩ := NodeMap.allLabels_nonempty _ r.ok (MapCall.relabelsAll labels cs) ls hls
    refine ⟨xs, k, h1, h2, h3, fun n hn => ⟨h4 n hn, ?_⟩, fun n hn => h6 n fun l hl => ⟨(hn l hl).1, (r.mem n l).2 (hn l hl).2⟩⟩
    obtain ⟨l, g1, g2⟩ := h5 n hn
    exact ⟨l, g1, (r.mem n l).1 g2⟩
  · rw [isEmpty_iff r.ok]
    simp only [r.mem, List.eq_nil_iff_forall_not_mem]

/-! ## The property -/

/-- The full property C71: after any valid use of a new map its iterators list its nodes, each once, those with the labels asked
for, and `IsEmpty` says whether there is none. -/
def C71_statement (labels : Nat → List String) (us : List MapUse) : Prop :=
  let m := (MapState.new labels).calls (MapSpec.allCalls ⟨[], labels⟩ us)
  let σ := MapSpec.run ⟨[], labels⟩ us
  (∃ ns, m.nm.iterator m.labels = some ns ∧ ns.Perm σ.nodes) ∧
  (∀ ls, ls ≠ [] → ∃ ns k, m.nm.allLabels m.labels ls = some (ns, k) ∧
    ns.Perm (σ.nodes.filter (fun n => ∀ l ∈ ls, l ∈ σ.labels n))) ∧
  (m.nm.isEmpty = true ↔ σ.nodes = [])

theorem MapState.calls_append {m : MapState} : ∀ {cs ds : List MapCall}, m.calls (cs ++ ds) = (m.calls cs).calls ds := by
  intro cs
  induction cs generalizing m with
  | nil => intro ds; rfl
  | cons c cs ih => intro ds; exact ih (m := m.call c)

/-- each node of the map is filed under its labels -/
structure MapRep (m : MapState) (σ : MapSpec) : Prop where
  ok : m.nm.Ok
  labels : m.labels = σ.labels
  nodup : σ.nodes.Nodup
  mem : ∀ n l, n ∈ m.nm.members l ↔ n ∈ σ.nodes ∧ l ∈ σ.labels n
  nolab : ∀ n, n ∈ AMap.keys m.nm.nolabels ↔ n ∈ σ.nodes ∧ σ.labels n = []

theorem MapRep.step {m : MapState} {σ : MapSpec} {u : MapUse} (h : MapRep m σ)
    (hc : match u with | .relabel n ls => ls = [] → σ.labels n = [] | _ => True) (hv : σ.Valid u) :
    MapRep (m.calls (σ.asCalls u)) (σ.step u) := by
  cases u with
  | put n =>
    simp only [MapSpec.Valid] at hv
    refine ⟨h.ok.add _ _, h.labels, ?_, fun x l => ?_, fun x => ?_⟩
    · rw [MapSpec.step, List.nodup_append]
      refine ⟨h.nodup, by simp, ?_⟩
      intro a ha b hb hab
      rw [List.mem_singleton.1 hb] at hab
      exact hv (hab ▸ ha)
    · simp only [MapSpec.asCalls, MapState.calls, MapState.call, MapSpec.step, List.mem_append, List.mem_singleton]
      rw [NodeMap.mem_add, h.mem, h.labels]
      by_cases hx : x = n
      · subst hx; simp
      · simp [hx]
    · simp only [MapSpec.asCalls, MapState.calls, MapState.call, MapSpec.step, List.mem_append, List.mem_singleton]
      rw [NodeMap.mem_nolabels_add, h.nolab, h.labels]
      by_cases hx : x = n
      · subst hx; simp
      · simp [hx]
  | drop n =>
    refine ⟨h.ok.remove _ _, h.labels, h.nodup.filter _, fun x l => ?_, fun x => ?_⟩
    · simp only [MapSpec.asCalls, MapState.calls, MapState.call, MapSpec.step, List.mem_filter]
      rw [NodeMap.mem_remove, h.mem, h.labels]
      by_cases hx : x = n
      · subst hx; simp
      · simp [hx]
    · simp only [MapSpec.asCalls, MapState.calls, MapState.call, MapSpec.step, List.mem_filter]
      rw [NodeMap.mem_nolabels_remove, h.nolab, h.labels]
      by_cases hx : x = n
      · subst hx; simp
      · simp [hx]
  | relabel n ls =>
    simp only [MapSpec.Valid] at hv
    refine ⟨h.ok.replace _ _ _, ?_, h.nodup, fun x l => ?_, fun x => ?_⟩
    · simp only [MapSpec.asCalls, MapState.calls, MapState.call, MapSpec.step, h.labels]
    · simp only [MapSpec.asCalls, MapState.calls, MapState.call, MapSpec.step]
      rw [NodeMap.mem_replace, h.mem]
      simp only [upd_apply]
      by_cases hx : x = n
      · subst hx
        simp only [hv, if_true, true_and]
        by_cases hl : ls = []
        · simp [hl, hc hl]
        · simp only [hl, false_or]; grind
      · simp [hx]
    · simp only [MapSpec.asCalls, MapState.calls, MapState.call, MapSpec.step]
      rw [NodeMap.mem_nolabels_replace, h.nolab]
      simp only [upd_apply]
      by_cases hx : x = n
      · subst hx
        simp only [hv, if_true, true_and]
        by_cases hl : ls = []
        · simp [hl, hc hl]
        · simp [hl]
      · simp [hx]
  | label n ls =>
    simp only [MapSpec.Valid] at hv
    refine ⟨h.ok, ?_, h.nodup, fun x l => ?_, fun x => ?_⟩
    · simp only [MapSpec.asCalls, MapState.calls, MapState.call, MapSpec.step, h.labels]
    · simp only [MapSpec.asCalls, MapState.calls, MapState.call, MapSpec.step]
      rw [h.mem]
      simp only [upd_apply]
      by_cases hx : x = n
      · subst hx; simp [hv]
      · simp [hx]
    · simp only [MapSpec.asCalls, MapState.calls, MapState.call, MapSpec.step]
      rw [h.nolab]
      simp only [upd_apply]
      by_cases hx : x = n
      · subst hx; simp [hv]
      · simp [hx]

theorem MapRep.run : ∀ {us : List MapUse} {m : MapState} {σ : MapSpec}, MapRep m σ → σ.ValidFrom us → σ.NoClearing us →
    MapRep (m.calls (σ.allCalls us)) (σ.run us)
  | [], _, _, h, _, _ => h
  | u :: us, m, σ, h, hv, hc => by
    rw [MapSpec.allCalls, MapState.calls_append]
    exact MapRep.run (h.step hc.1 hv.1) hv.2 hc.2

/-- C71 holds if no node of the map loses all its labels, except that `IsEmpty` only looks at the nodes with labels. Missing:
`Replace` with no new labels, for which it is false (`C71_false`). -/
theorem C71_partial (labels : Nat → List String) (us : List MapUse) (hv : MapSpec.ValidFrom ⟨[], labels⟩ us)
    (hc : MapSpec.NoClearing ⟨[], labels⟩ us) :
    let m := (MapState.new labels).calls (MapSpec.allCalls ⟨[], labels⟩ us)
    let σ := MapSpec.run ⟨[], labels⟩ us
    (∃ ns, m.nm.iterator m.labels = some ns ∧ ns.Perm σ.nodes) ∧
    (∀ ls, ls ≠ [] → ∃ ns k, m.nm.allLabels m.labels ls = some (ns, k) ∧
      ns.Perm (σ.nodes.filter (fun n => ∀ l ∈ ls, l ∈ σ.labels n))) ∧
    (m.nm.isEmpty = true ↔ ∀ n ∈ σ.nodes, σ.labels n = []) := by
  intro m σ
  have r : MapRep m σ := MapRep.run (m := MapState.new labels) (σ := ⟨[], labels⟩)
    ⟨NodeMap.Ok.empty, rfl, by simp, by simp [MapState.new, NodeMap.members_empty],
      by simp [MapState.new, NodeMap.empty, AMap.keys]⟩ hv hc
  have f : FiledAs m.nm ⟨fun n => if n ∈ σ.nodes then (σ.labels n).eraseDups else [],
      fun n => decide (n ∈ σ.nodes ∧ σ.labels n = [])⟩ := by
    refine ⟨r.ok, fun n l => ?_, fun n => ?_, fun n => ?_⟩
    · rw [r.mem]
      by_cases hn : n ∈ σ.nodes <;> simp [hn]
    · dsimp only
      split
      · exact (eraseDups_spec _).1
      · simp
    · rw [r.nolab]; simp
  refine ⟨?_, fun ls hls => ?_, ?_⟩
  · obtain ⟨ns, h1, h2⟩ := f.iterator m.labels
    refine ⟨ns, h1, List.perm_iff_count.2 fun n => ?_⟩
    rw [(r.nodup : List.Nodup _).count]
    obtain ⟨g1, g2, g3⟩ := h2 n
    rw [r.labels] at g1 g2 g3
    dsimp only at g1 g2 g3
    by_cases hn : n ∈ σ.nodes
    · simp only [hn, if_true, true_and] at g1 g2 g3 ⊢
      by_cases hl : σ.labels n = []
      · have := g3 (by simp [hl])
        simpa [hl] using this
      · have g2 := g2 hl (by simp)
        have hz : ((σ.labels n).eraseDups.filter (fun l => l ∉ σ.labels n)).length = 0 := by
          rw [List.length_eq_zero_iff, List.filter_eq_nil_iff]
          intro l hl'
          simpa using List.mem_eraseDups.1 hl'
        rw [hz] at g1
        simp only [hl, decide_false, Bool.false_eq_true, if_false, Nat.add_zero] at g1 g2
        have : (if ∃ l ∈ (σ.labels n).eraseDups, l ∈ σ.labels n then 1 else 0) ≤ 1 := by split <;> omega
        omega
    · simp only [hn, if_false, false_and] at g1 ⊢
      simpa using g1
  · obtain ⟨xs, k, h1, h2, h3, h4, h5, h6⟩ := NodeMap.allLabels_nonempty _ r.ok m.labels ls hls
    refine ⟨xs, k, h1, (List.perm_ext_iff_of_nodup h2 (r.nodup.filter _)).2 fun n => ?_⟩
    rw [List.mem_filter]
    simp only [decide_eq_true_eq]
    rw [r.labels] at h4 h6
    constructor
    · intro hn
      obtain ⟨l, _, g2⟩ := h5 n hn
      exact ⟨((r.mem n l).1 g2).1, h4 n hn⟩
    · rintro ⟨hn, hl⟩
      exact h6 n fun l hm => ⟨hl l hm, (r.mem n l).2 ⟨hn, hl l hm⟩⟩
  · rw [isEmpty_iff r.ok]
    simp only [r.mem, List.eq_nil_iff_forall_not_mem]
    grind

/-- nodes that come and go, with and without labels -/
def mapUse : List MapUse :=
  [.put 0, .put 1, .label 2 ["A"], .put 2, .put 3, .relabel 0 ["B", "A"], .drop 1, .label 1 ["B"], .relabel 3 ["A", "C"], .drop 2,
   .put 1]

def mapLabels (n : Nat) : List String := if n = 0 then [] else if n = 3 then ["A"] else ["B", "C"]

example : MapSpec.ValidFrom ⟨[], mapLabels⟩ mapUse ∧ MapSpec.NoClearing ⟨[], mapLabels⟩ mapUse ∧
    (let m := (MapState.new mapLabels).calls (MapSpec.allCalls ⟨[], mapLabels⟩ mapUse)
     m.nm.iterator m.labels = some [0, 1, 3] ∧ m.nm.allLabels m.labels ["B"] = some ([0, 1], 2) ∧
     m.nm.allLabels m.labels ["A", "C"] = some ([3], 1)) := by decide +kernel

/-- **C71 is false**: `Replace` with no new labels leaves the node under the old ones, so it is listed twice; and when it was taken
out and has one of these labels again, it is still found. A map with a node without labels only is said to be empty. -/
theorem C71_false :
    (let us : List MapUse := [.put 1, .relabel 1 []]
     let m := (MapState.new (fun _ => ["A"])).calls (MapSpec.allCalls ⟨[], fun _ => ["A"]⟩ us)
     MapSpec.ValidFrom ⟨[], fun _ => ["A"]⟩ us ∧ m.nm.iterator m.labels = some [1, 1]) ∧
    (let us : List MapUse := [.put 1, .relabel 1 [], .drop 1, .label 1 ["A"]]
     let m := (MapState.new (fun _ => ["A"])).calls (MapSpec.allCalls ⟨[], fun _ => ["A"]⟩ us)
     MapSpec.ValidFrom ⟨[], fun _ => ["A"]⟩ us ∧ m.nm.allLabels m.labels ["A"] = some ([1], 1)) ∧
    (let m := (MapState.new (fun _ => [])).calls (MapSpec.allCalls ⟨[], fun _ => []⟩ [.put 1])
     m.nm.isEmpty = true ∧ m.nm.iterator m.labels = some [1]) := by decide +kernel

/-- `Add` twice with other labels in between files the node under both; `Remove` then takes it out of the new ones only -/
example : (let cs : List MapCall := [.add 1, .setLabels 1 ["B"], .add 1]
    let m := (MapState.new (fun _ => ["A"])).calls cs
    m.nm.iterator m.labels = some [1, 1] ∧ (filedBy (fun _ => ["A"]) cs).under 1 = ["A", "B"] ∧
    (m.call (.remove 1)).nm.iterator m.labels = some [1] ∧
    (filedBy (fun _ => ["A"]) (cs ++ [.remove 1])).under 1 = ["A"]) := by decide +kernel

end LPG

import Verif.Props.C30Starts
/-!
# C29, C30 and C33 for names of edge items that are bound or used twice
-/
namespace LPG
open Pat

/-- A name is used by two node items only if it is bound. Names of edge items may be used twice. -/
def UniqueNodeNames (symbols : Symbols) (p : Pattern) : Prop :=
  ∀ i, i < p.length → ∀ j, j < p.length → i % 2 = 0 ∧ j % 2 = 0 ∧ i ≠ j → (itemAt p i).name = (itemAt p j).name →
    (itemAt p i).name ≠ "" → (AMap.get symbols (itemAt p i).name).isSome

set_option synthInstance.maxSize 1000 in
instance (symbols : Symbols) (p : Pattern) : Decidable (UniqueNodeNames symbols p) := by
  unfold UniqueNodeNames; infer_instance

theorem UniqueNames.nodes {symbols : Symbols} {p : Pattern} (h : UniqueNames symbols p) : UniqueNodeNames symbols p :=
  fun i hi j hj hij => h i hi j hj hij.2.2

namespace Pat

theorem get_filter_key {α : Type} {P : String → Bool} {name : String} : ∀ {m : AMap String α},
    AMap.get (m.filter fun kv => P kv.1) name = if P name then AMap.get m name else none
  | [] => by simp [AMap.get]
  | (k, v) :: m => by
    have ih := get_filter_key (P := P) (name := name) (m := m)
    by_cases hk : k = name
    · subst hk
      by_cases hP : P k
      · rw [List.filter_cons_of_pos (by simpa using hP)]
        simp [AMap.get, hP]
      · rw [List.filter_cons_of_neg (by simpa using hP), ih]
        simp [hP]
    · by_cases hP : P k
      · rw [List.filter_cons_of_pos (by simpa using hP)]
        simp only [AMap.get, if_neg hk, ih]
      · rw [List.filter_cons_of_neg (by simpa using hP), ih]
        simp only [AMap.get, if_neg hk]

section
variable {σ : Spec} {symbols : Symbols} {p : Pattern}

theorem nodeSymbols_get {name : String} : AMap.get (nodeSymbols symbols p) name =
    if (List.range p.length).all fun i => decide (i % 2 = 1 → (itemAt p i).name ≠ name) then AMap.get symbols name else none :=
  get_filter_key (P := fun name => (List.range p.length).all fun i => decide (i % 2 = 1 → (itemAt p i).name ≠ name))

theorem nodeSymbols_edge {i : Nat} (hi : i < p.length) (ho : i % 2 = 1) : AMap.get (nodeSymbols symbols p) (itemAt p i).name = none := by
  rw [nodeSymbols_get, if_neg]
  intro h
  have := List.all_eq_true.1 h i (List.mem_range.2 hi)
  simp [ho] at this

theorem nodeSymbols_node (kinds : ∀ i j, i < p.length → j < p.length → i % 2 = 0 → j % 2 = 1 → (itemAt p i).name = (itemAt p j).name →
    (itemAt p i).name = "") {i : Nat} (hi : i < p.length) (he : i % 2 = 0) (hne : (itemAt p i).name ≠ "") :
    AMap.get (nodeSymbols symbols p) (itemAt p i).name = AMap.get symbols (itemAt p i).name := by
  rw [nodeSymbols_get, if_pos]
  rw [List.all_eq_true]
  intro j hj
  simp only [decide_eq_true_eq]
  intro ho heq
  exact hne (kinds i j hi (List.mem_range.1 hj) he ho heq.symm)

theorem UniqueNodeNames.agree (h : UniqueNodeNames symbols p) (hp : PatternSound σ symbols p) (M : Match) :
    NodesAgree (nodeSymbols symbols p) p M := by
  intro i j hi hj he he' heq hne hfree
  by_cases hij : i = j
  · rw [hij]
  · have := h i hi j hj ⟨he, he', hij⟩ heq hne
    rw [nodeSymbols_node hp.kinds hi he hne] at hfree
    rw [hfree] at this
    cases this

theorem oneEdge_sound {k : Nat} (hk : k < p.length) (h : PatternSound σ symbols p) : PatternSound σ symbols (oneEdge p k) := by
  have hitem : ∀ i, (itemAt (oneEdge p k) i).name = (itemAt p i).name ∧ (itemAt (oneEdge p k) i).labels = (itemAt p i).labels ∧
      (itemAt (oneEdge p k) i).props = (itemAt p i).props := by
    intro i; rw [oneEdge_at hk]; split
    · rename_i e; rw [e]; exact ⟨rfl, rfl, rfl⟩
    · exact ⟨rfl, rfl, rfl⟩
  constructor
  · rw [oneEdge_length]; exact h.odd
  · intro i; rw [oneEdge_length, (hitem i).2.1]; exact h.labels i
  · intro i; rw [oneEdge_length, (hitem i).1]; exact h.bound i
  · intro i j; rw [oneEdge_length, (hitem i).1, (hitem j).1]; exact h.kinds i j
  · intro i; rw [oneEdge_length, (hitem i).1]; exact h.boundEdges i
  · intro i; rw [oneEdge_length, (hitem i).2.2]; exact h.flat i
  · exact h.flatNodes
  · exact h.flatEdges

theorem oneEdge_name {k i : Nat} (hk : k < p.length) : (itemAt (oneEdge p k) i).name = (itemAt p i).name := by
  rw [oneEdge_at hk]; split
  · rename_i e; rw [e]
  · rfl

theorem nodeSymbols_oneEdge {k : Nat} (hk : k < p.length) : nodeSymbols symbols (oneEdge p k) = nodeSymbols symbols p := by
  unfold nodeSymbols
  rw [oneEdge_length]
  simp only [oneEdge_name hk]

end

/-- the conditions of a search that begins with items of the graph -/
theorem fair_of {σ : Spec} {symbols : Symbols} {p : Pattern} (hp : PatternSound σ symbols p) {xs : List Nat} {index : Nat}
    (hlt : index < p.length) (hst : StartOk p index) (hlive : ∀ x ∈ xs, if index % 2 = 0 then x ∈ σ.nodes else x ∈ σ.edges) :
    Admissible σ symbols p xs index ∧ Fair σ (nodeSymbols symbols p) p xs index := by
  have bound : ∀ i, i < p.length → i % 2 = 0 → (itemAt p i).name ≠ "" → ∀ sym, AMap.get symbols (itemAt p i).name = some sym →
      sym.edges = none ∧ sym.nodes.isSome := by
    intro i hi he hn sym hg
    obtain ⟨a, ys, b, _⟩ := hp.bound i hi he hn sym hg
    exact ⟨a, by rw [b]; rfl⟩
  have bound' : ∀ i, i < p.length → i % 2 = 0 → (itemAt p i).name ≠ "" → ∀ sym,
      AMap.get (nodeSymbols symbols p) (itemAt p i).name = some sym → sym.edges = none ∧ sym.nodes.isSome := by
    intro i hi he hn sym hg
    rw [nodeSymbols_node hp.kinds hi he hn] at hg
    exact bound i hi he hn sym hg
  have l0 : index % 2 = 0 → ∀ x ∈ xs, x ∈ σ.nodes := fun he x hx => by have := hlive x hx; rwa [if_pos he] at this
  have l1 : index % 2 = 1 → ∀ x ∈ xs, x ∈ σ.edges := fun ho x hx => by have := hlive x hx; rwa [if_neg (by omega)] at this
  exact ⟨⟨hp.odd, hlt, hp.labels, bound, hp.kinds, fun ho => (hst ho).1, l0, l1⟩,
    ⟨⟨hp.odd, hlt, hp.labels, bound', hp.kinds, fun ho => (hst ho).1, l0, l1⟩, fun i hi ho _ => nodeSymbols_edge hi ho,
      fun ho => (hst ho).2⟩⟩

/-- the start that is chosen -/
theorem chosen_fair {ops : List Op} (hv : Spec.ValidHistory ops) {s : State} (hs : run ops = some s)
    {symbols : Symbols} {p : Pattern} (hp : PatternSound (Spec.run ops) symbols p) {itr : Option (List Nat)} {index : Nat}
    (h : getFastestElement s symbols p = some (itr, index)) (hh : StartRight ops symbols p index) :
    ∃ xs, itr = some xs ∧ xs.Nodup ∧ Starters (Spec.run ops) symbols p index xs := by
  obtain ⟨hlt, sz, h1, h2⟩ := getFastest_spec h
  unfold Starters
  by_cases he : index % 2 = 0
  · rw [if_pos he] at h1
    obtain ⟨xs, x1, x2, x3, x4⟩ := node_start hv hs hp hh hlt he h1
    exact ⟨xs, x1, x2, by rw [if_pos he]; exact ⟨x3, x4⟩⟩
  · rw [if_neg he] at h1
    obtain ⟨xs, x1, x2, x3, x4⟩ := edge_start_sound hv hs hp hh hlt (by omega) h1 h2
    exact ⟨xs, x1, x2, by rw [if_neg he]; exact ⟨x3, x4⟩⟩

end Pat

/-- a search from the start that is chosen, if what it begins with is in the graph, whatever the names -/
theorem Pat.bindings_any (ops : List Op) (hv : Spec.ValidHistory ops) (s : State)
    (hs : run ops = some s) (symbols : Symbols) (p : Pattern) (hp : PatternSound (Spec.run ops) symbols p) (index : Nat)
    (xs : List Nat) (hc : getFastestElement s symbols p = some (some xs, index)) (hnd : xs.Nodup)
    (hlive : ∀ x ∈ xs, if index % 2 = 0 then x ∈ (Spec.run ops).nodes else x ∈ (Spec.run ops).edges) :
    (index % 2 = 1 ∧ itemDir (itemAt p index) = .any →
      (Pattern.run s symbols p = none ∧
        ∃ e ∈ xs, (Spec.run ops).EdgeMatches (itemAt p index).labels (itemAt p index).props e) ∨
      (Pattern.run s symbols p = some (none, []) ∧
        ∀ e ∈ xs, ¬ (Spec.run ops).EdgeMatches (itemAt p index).labels (itemAt p index).props e)) ∧
    (¬ (index % 2 = 1 ∧ itemDir (itemAt p index) = .any) →
      (Pattern.run s symbols p = none ∧ ∃ M, Matches (Spec.run ops) (nodeSymbols symbols p) (sought p index) M ∧
        StartsIn xs index M ∧ ¬ Glues (Spec.run ops).ends (sought p index) index M) ∨
      (∃ rs : List Answer, Pattern.run s symbols p = some (none, rs.map (·.2)) ∧
        (∀ M ∈ rs.map (·.1), Matches (Spec.run ops) (nodeSymbols symbols p) (sought p index) M ∧ StartsIn xs index M ∧
          Respected (Spec.run ops) (nodeSymbols symbols p) (sought p index) index M) ∧
        (∀ M, Matches (Spec.run ops) (nodeSymbols symbols p) (sought p index) M → StartsIn xs index M →
          NodesAgree (nodeSymbols symbols p) (sought p index) M → M ∈ rs.map (·.1) ∧
            (rs.map (·.1)).count M = 2 ^ Match.loops (Spec.run ops) (sought p index) M ∧
            Glues (Spec.run ops).ends (sought p index) index M) ∧
        (∀ r ∈ rs, SymbolsShow (Spec.run ops).ends index (sought p index) r.1 r.2.2 ∧
          (p.length ≠ 1 → ∃ a b, Visits (Spec.run ops).ends r.2.1 a (Match.shown index r.1) b ∧
          ShownFrom (Spec.run ops).ends p index r.1 a ∧ ShownTo p index r.1 b) ∧
          (PathShows (Spec.run ops).ends r.1 r.2.1 ↔ Whole (sought p index) index r.1)))) := by
  have hlt := (getFastest_spec hc).1
  by_cases hn : index % 2 = 1 ∧ itemDir (itemAt p index) = .any
  · refine ⟨fun _ => ?_, fun h => absurd hn h⟩
    rw [undirected_run hv hs hp.odd hc hlt hn.1 hn.2 (fun e he => by have := hlive e he; rwa [if_neg (by omega)] at this)]
    by_cases hex : ∃ e ∈ xs, (Spec.run ops).EdgeMatches (itemAt p index).labels (itemAt p index).props e
    · exact .inl ⟨by rw [if_pos hex], hex⟩
    · exact .inr ⟨by rw [if_neg hex], fun e he hm => hex ⟨e, he, hm⟩⟩
  · have key : Pattern.run s symbols p = Pattern.run s symbols (sought p index) ∧
        PatternSound (Spec.run ops) symbols (sought p index) ∧ getFastestElement s symbols (sought p index) = some (some xs, index) ∧
        StartOk (sought p index) index ∧ (sought p index).length = p.length ∧
        nodeSymbols symbols (sought p index) = nodeSymbols symbols p := by
      unfold sought
      by_cases ho : index % 2 = 1
      · rw [if_pos ho]
        have hd : itemDir (itemAt p index) ≠ .any := fun hd => hn ⟨ho, hd⟩
        refine ⟨(C30_start_bounds hp.odd ⟨_, hc⟩ ho).1, oneEdge_sound hlt hp,
          (fastest_oneEdge hlt ho (chosen_single hc ho)).trans hc, fun _ => ⟨by rw [oneEdge_dir hlt]; exact hd, ?_, ?_⟩,
          oneEdge_length, nodeSymbols_oneEdge hlt⟩
        · rw [oneEdge_at hlt, if_pos rfl]
        · rw [oneEdge_at hlt, if_pos rfl]; exact Int.le_refl _
      · rw [if_neg ho]
        exact ⟨rfl, hp, hc, fun h => absurd h ho, rfl, rfl⟩
    obtain ⟨k1, k2, k3, k4, k6, k7⟩ := key
    obtain ⟨A, F⟩ := fair_of k2 (getFastest_spec k3).1 k4 hlive
    refine ⟨fun h => absurd h hn, fun _ => ?_⟩
    rw [k1, ← k7]
    unfold Pattern.run
    rw [k3]
    rcases answers_fair hv hs A F (fun i hi he hne => nodeSymbols_node k2.kinds hi he hne) with
      ⟨rs, h1, h2, h3, h4, h5, h6⟩ | ⟨h1, h2⟩
    · right
      refine ⟨rs, h1, fun M hM => ?_, fun M hM hI hN => ⟨h3 M hM hI hN, h5 M hM hI hN hnd, ?_⟩, fun r hr => ?_⟩
      · obtain ⟨r, hr, rfl⟩ := List.mem_map.1 hM
        exact ⟨(h2 r hr).1, (h2 r hr).2.1, h6 r hr⟩
      · obtain ⟨r, hr, rfl⟩ := List.mem_map.1 (h3 M hM hI hN)
        exact (h2 r hr).2.2.2.1
      · obtain ⟨_, _, a2, _, a3, a4⟩ := h2 r hr
        simp only [k6, sought_shown hlt] at a3
        exact ⟨a2, a3, a4⟩
    · exact .inl ⟨h1, h2⟩

/-- a search from the start that is chosen, if what it begins with is in the graph -/
theorem Pat.bindings_from (ops : List Op) (hv : Spec.ValidHistory ops) (s : State)
    (hs : run ops = some s) (symbols : Symbols) (p : Pattern) (hp : PatternSound (Spec.run ops) symbols p) (index : Nat)
    (xs : List Nat) (hc : getFastestElement s symbols p = some (some xs, index)) (hnd : xs.Nodup)
    (hlive : ∀ x ∈ xs, if index % 2 = 0 then x ∈ (Spec.run ops).nodes else x ∈ (Spec.run ops).edges)
    (hu : UniqueNodeNames symbols p) :
    (index % 2 = 1 ∧ itemDir (itemAt p index) = .any →
      (Pattern.run s symbols p = none ∧
        ∃ e ∈ xs, (Spec.run ops).EdgeMatches (itemAt p index).labels (itemAt p index).props e) ∨
      (Pattern.run s symbols p = some (none, []) ∧
        ∀ e ∈ xs, ¬ (Spec.run ops).EdgeMatches (itemAt p index).labels (itemAt p index).props e)) ∧
    (¬ (index % 2 = 1 ∧ itemDir (itemAt p index) = .any) →
      (Pattern.run s symbols p = none ∧ ∃ M, Matches (Spec.run ops) (nodeSymbols symbols p) (sought p index) M ∧
        StartsIn xs index M ∧ ¬ Glues (Spec.run ops).ends (sought p index) index M) ∨
      (∃ rs : List Answer, Pattern.run s symbols p = some (none, rs.map (·.2)) ∧
        (∀ M, M ∈ rs.map (·.1) ↔ Matches (Spec.run ops) (nodeSymbols symbols p) (sought p index) M ∧ StartsIn xs index M) ∧
        (∀ M ∈ rs.map (·.1), (rs.map (·.1)).count M = 2 ^ Match.loops (Spec.run ops) (sought p index) M) ∧
        (∀ M, Matches (Spec.run ops) (nodeSymbols symbols p) (sought p index) M → StartsIn xs index M →
          Glues (Spec.run ops).ends (sought p index) index M) ∧
        (∀ r ∈ rs, SymbolsShow (Spec.run ops).ends index (sought p index) r.1 r.2.2 ∧
          (p.length ≠ 1 → ∃ a b, Visits (Spec.run ops).ends r.2.1 a (Match.shown index r.1) b ∧
          ShownFrom (Spec.run ops).ends p index r.1 a ∧ ShownTo p index r.1 b) ∧
          (PathShows (Spec.run ops).ends r.1 r.2.1 ↔ Whole (sought p index) index r.1)))) := by
  obtain ⟨h1, h2⟩ := bindings_any ops hv s hs symbols p hp index xs hc hnd hlive
  refine ⟨h1, fun hn => ?_⟩
  have hlt := (getFastest_spec hc).1
  have hagree : ∀ M, NodesAgree (nodeSymbols symbols p) (sought p index) M := by
    intro M
    unfold sought
    split
    · rw [← nodeSymbols_oneEdge hlt]
      refine UniqueNodeNames.agree (fun i hi j hj => ?_) (oneEdge_sound hlt hp) M
      rw [oneEdge_length] at hi hj
      rw [oneEdge_name hlt, oneEdge_name hlt]
      exact hu i hi j hj
    · exact UniqueNodeNames.agree hu hp M
  rcases h2 hn with h | ⟨rs, k1, k2, k3, k4⟩
  · exact .inl h
  · refine .inr ⟨rs, k1, fun M => ⟨fun h => ⟨(k2 M h).1, (k2 M h).2.1⟩, fun h => (k3 M h.1 h.2 (hagree M)).1⟩,
      fun M h => (k3 M (k2 M h).1 (k2 M h).2.1 (hagree M)).2.1, fun M hM hI => (k3 M hM hI (hagree M)).2.2, k4⟩

/-- a search from the start that is chosen -/
theorem Pat.bindings (ops : List Op) (hv : Spec.ValidHistory ops) (s : State)
    (hs : run ops = some s) (symbols : Symbols) (p : Pattern) (hp : PatternSound (Spec.run ops) symbols p) (index : Nat)
    (hc : Chosen s symbols p index)
    (hh : StartRight ops symbols p index) (hu : UniqueNodeNames symbols p) :
    ∃ xs, getFastestElement s symbols p = some (some xs, index) ∧ Starters (Spec.run ops) symbols p index xs ∧
    (index % 2 = 1 ∧ itemDir (itemAt p index) = .any →
      (Pattern.run s symbols p = none ∧
        ∃ e ∈ xs, (Spec.run ops).EdgeMatches (itemAt p index).labels (itemAt p index).props e) ∨
      (Pattern.run s symbols p = some (none, []) ∧
        ∀ e ∈ xs, ¬ (Spec.run ops).EdgeMatches (itemAt p index).labels (itemAt p index).props e)) ∧
    (¬ (index % 2 = 1 ∧ itemDir (itemAt p index) = .any) →
      (Pattern.run s symbols p = none ∧ ∃ M, Matches (Spec.run ops) (nodeSymbols symbols p) (sought p index) M ∧
        StartsIn xs index M ∧ ¬ Glues (Spec.run ops).ends (sought p index) index M) ∨
      (∃ rs : List Answer, Pattern.run s symbols p = some (none, rs.map (·.2)) ∧
        (∀ M, M ∈ rs.map (·.1) ↔ Matches (Spec.run ops) (nodeSymbols symbols p) (sought p index) M ∧ StartsIn xs index M) ∧
        (∀ M ∈ rs.map (·.1), (rs.map (·.1)).count M = 2 ^ Match.loops (Spec.run ops) (sought p index) M) ∧
        (∀ M, Matches (Spec.run ops) (nodeSymbols symbols p) (sought p index) M → StartsIn xs index M →
          Glues (Spec.run ops).ends (sought p index) index M) ∧
        (∀ r ∈ rs, SymbolsShow (Spec.run ops).ends index (sought p index) r.1 r.2.2 ∧
          (p.length ≠ 1 → ∃ a b, Visits (Spec.run ops).ends r.2.1 a (Match.shown index r.1) b ∧
          ShownFrom (Spec.run ops).ends p index r.1 a ∧ ShownTo p index r.1 b) ∧
          (PathShows (Spec.run ops).ends r.1 r.2.1 ↔ Whole (sought p index) index r.1)))) := by
  obtain ⟨itr, hc⟩ := hc
  obtain ⟨xs, rfl, hnd, hst⟩ := chosen_fair hv hs hp hc hh
  refine ⟨xs, hc, hst, bindings_from ops hv s hs symbols p hp index xs hc hnd (fun x hx => ?_) hu⟩
  unfold Starters at hst
  split
  · rw [if_pos (by assumption)] at hst; exact hst.1 x hx
  · rw [if_neg (by assumption)] at hst; exact hst.1 x hx

/-- C29, C30, C32 and C33 for every start and every binding, if no free name is used by two node items. The names of edge items
are as if they were free, except where the search starts: there it begins with all edges that satisfy the item, or with the
edges that the name is bound to. A search that starts at an undirected edge item panics if one of these edges satisfies the
item, and reports nothing otherwise. Every other search panics exactly if there is a match that begins with one of the starters
and whose edges do not fit together; otherwise it reports exactly the matches that begin with one of the starters, once, or
`2 ^ k` times if the match has loops at `k` undirected items for one edge. Missing: free names that are used by two node
items (`C33_repeated_partial`). -/
theorem C30_bindings_partial (ops : List Op) (hv : Spec.ValidHistory ops) (s : State)
    (hs : run ops = some s) (symbols : Symbols) (p : Pattern) (hp : PatternSound (Spec.run ops) symbols p) (index : Nat)
    (hc : Chosen s symbols p index)
    (hh : StartRight ops symbols p index) (hu : UniqueNodeNames symbols p) :
    ∃ xs, Starters (Spec.run ops) symbols p index xs ∧
    (index % 2 = 1 ∧ itemDir (itemAt p index) = .any →
      (Pattern.run s symbols p = none ∧
        ∃ e ∈ xs, (Spec.run ops).EdgeMatches (itemAt p index).labels (itemAt p index).props e) ∨
      (Pattern.run s symbols p = some (none, []) ∧
        ∀ e ∈ xs, ¬ (Spec.run ops).EdgeMatches (itemAt p index).labels (itemAt p index).props e)) ∧
    (¬ (index % 2 = 1 ∧ itemDir (itemAt p index) = .any) →
      (Pattern.run s symbols p = none ∧ ∃ M, Matches (Spec.run ops) (nodeSymbols symbols p) (sought p index) M ∧
        StartsIn xs index M ∧ ¬ Glues (Spec.run ops).ends (sought p index) index M) ∨
      (∃ rs : List Answer, Pattern.run s symbols p = some (none, rs.map (·.2)) ∧
        (∀ M, M ∈ rs.map (·.1) ↔ Matches (Spec.run ops) (nodeSymbols symbols p) (sought p index) M ∧ StartsIn xs index M) ∧
        (∀ M ∈ rs.map (·.1), (rs.map (·.1)).count M = 2 ^ Match.loops (Spec.run ops) (sought p index) M) ∧
        (∀ M, Matches (Spec.run ops) (nodeSymbols symbols p) (sought p index) M → StartsIn xs index M →
          Glues (Spec.run ops).ends (sought p index) index M) ∧
        (∀ r ∈ rs, SymbolsShow (Spec.run ops).ends index (sought p index) r.1 r.2.2 ∧
          (p.length ≠ 1 → ∃ a b, Visits (Spec.run ops).ends r.2.1 a (Match.shown index r.1) b ∧
          ShownFrom (Spec.run ops).ends p index r.1 a ∧ ShownTo p index r.1 b) ∧
          (PathShows (Spec.run ops).ends r.1 r.2.1 ↔ Whole (sought p index) index r.1)))) := by
  obtain ⟨xs, _, h⟩ := bindings ops hv s hs symbols p hp index hc hh hu
  exact ⟨xs, h⟩

/-- A search that starts at a directed edge item without labels and properties, whose name is bound to edges: the reports are for
the matches in which this item is one of these edges. -/
theorem C33_edge_start_partial (ops : List Op) (hv : Spec.ValidHistory ops) (s : State)
    (hs : run ops = some s) (symbols : Symbols) (p : Pattern) (hp : PatternSound (Spec.run ops) symbols p) (index : Nat)
    (hc : Chosen s symbols p index)
    (hh : StartRight ops symbols p index) (hu : UniqueNodeNames symbols p) (ho : index % 2 = 1)
    (hd : itemDir (itemAt p index) ≠ .any) (hl : (itemAt p index).labels = []) (hpr : (itemAt p index).props = [])
    (hne : (itemAt p index).name ≠ "") (sym : Sym) (hg : AMap.get symbols (itemAt p index).name = some sym) (ys : List Nat)
    (hys : sym.edges = some ys) :
    (Pattern.run s symbols p = none ∧ ∃ M, Matches (Spec.run ops) (nodeSymbols symbols p) (sought p index) M ∧
      ¬ Glues (Spec.run ops).ends (sought p index) index M) ∨
    (∃ rs : List Answer, Pattern.run s symbols p = some (none, rs.map (·.2)) ∧
      (∀ r ∈ rs, SymbolsShow (Spec.run ops).ends index (sought p index) r.1 r.2.2) ∧
      ∀ M, M ∈ rs.map (·.1) ↔ Matches (Spec.run ops) (nodeSymbols symbols p) (sought p index) M ∧
        ∃ e ∈ ys, M[index]? = some (.trail [e])) := by
  obtain ⟨xs, hx, _, _, h⟩ := bindings ops hv s hs symbols p hp index hc hh hu
  obtain ⟨hlt, sz, h1, h2⟩ := getFastest_spec hx
  have hxs : xs = ys := by
    rw [if_neg (by omega)] at h1
    unfold Item.estimateEdgeSize at h1
    split at h1
    · simp only [Option.some.injEq, Prod.mk.injEq] at h1
      exact absurd h1.2.symm h2
    · split at h1
      · cases h1
      rw [hl, hpr] at h1
      have hlen : (itemAt p index).name.length > 0 := by
        apply Nat.pos_of_ne_zero
        intro h0
        exact hne (String.ext (List.eq_nil_of_length_eq_zero (by simpa using h0)))
      simp only [List.length_nil, gt_iff_lt, Nat.lt_irrefl, if_false, State.propIters, pickSmallerEdges, pickSymbol, if_pos hlen,
        hg, hys, Option.some.injEq, Prod.mk.injEq] at h1
      exact h1.1.symm
  subst hxs
  rcases h (fun hn => hd hn.2) with ⟨a, M, b, _, c⟩ | ⟨rs, a, b, _, _, d⟩
  · exact .inl ⟨a, M, b, c⟩
  · refine .inr ⟨rs, a, fun r hr => (d r hr).1, fun M => (b M).trans ⟨fun ⟨hM, hI⟩ => ⟨hM, ?_⟩, fun ⟨hM, e, he, hMe⟩ => ⟨hM, ?_⟩⟩⟩
    · have hm := hM.2 index (by unfold sought; rw [if_pos ho, oneEdge_length]; exact hlt)
      rw [if_neg (by omega)] at hm
      obtain ⟨_, es, _, _, m2, _, m3, _, _, _, m4, _⟩ := hm
      unfold StartsIn at hI
      rw [m2] at hI ⊢
      have hitem : (itemAt (sought p index) index).max = 1 := by
        unfold sought; rw [if_pos ho, oneEdge_at hlt, if_pos rfl]
      have hl1 : es.length = 1 := by
        unfold LengthOk at m4
        have : es.length ≠ 0 := by simpa using m3
        omega
      obtain ⟨e, rfl⟩ := List.length_eq_one_iff.1 hl1
      exact ⟨e, hI e (by simp), rfl⟩
    · unfold StartsIn
      rw [hMe]
      intro e' he'
      rw [List.mem_singleton.1 he']
      exact he

/-- A name of an edge item bound to one edge. -/
def boundSymbols : Symbols := [("e", { edges := some [3] })]

/-- The search starts at the edge item, and the other edge is not reported. -/
example : UniqueNodeNames boundSymbols [{}, { name := "e" }, {}] ∧
    (run rowOps).bind (fun s => (getFastestElement s boundSymbols [{}, { name := "e" }, {}]).map (·.2)) = some 1 ∧
    (run rowOps).bind (fun s => (Pattern.run s boundSymbols [{}, { name := "e" }, {}]).map (fun o => o.2.map (·.1))) =
      some [{ path := [⟨3, false⟩] }] := by decide +kernel

theorem boundSymbols_ok : PatternSound (Spec.run rowOps) boundSymbols [{}, { name := "e" }, {}] := by
  have hname : ∀ i, i < 3 → i % 2 = 0 → (itemAt [{}, { name := "e" }, {}] i).name = "" := by decide
  have hodd : ∀ i, i < 3 → i % 2 = 1 → i = 1 := by decide
  refine ⟨by decide, by decide, fun i hi he hn => absurd (hname i hi he) hn, fun i j hi _ he _ _ => hname i hi he,
    fun i hi ho _ sym hg xs hxs => ?_, fun i hi k v hk => ?_, fun n _ => (flat_run rowOps_ok.2).1 n,
    fun e _ => (flat_run rowOps_ok.2).2 e⟩
  · obtain rfl := hodd i hi ho
    cases hg
    cases hxs
    exact ⟨by decide, by decide +kernel⟩
  · have hprops : ∀ i, i < 3 → (itemAt [{}, { name := "e" }, {}] i).props.length = 0 := by decide
    rw [List.eq_nil_of_length_eq_zero (hprops i hi)] at hk
    cases hk

/-- Two edge items with the same name: it is not enforced that they are the same edge. -/
example : UniqueNodeNames [] [{}, { name := "e" }, {}, { name := "e" }, {}] ∧
    ¬ UniqueNames [] [{}, { name := "e" }, {}, { name := "e" }, {}] ∧
    (run rowOps).bind (fun s => (Pattern.run s [] [{}, { name := "e" }, {}, { name := "e" }, {}]).map (fun o => o.2.map (·.1))) =
      some [{ path := [⟨3, false⟩, ⟨4, false⟩] }] := by decide +kernel

end LPG

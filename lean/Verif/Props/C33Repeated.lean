import Verif.Props.C29Bound
/-!
# C33 for free names that are used by several node items
-/
namespace LPG
open Pat

/-- C29, C30, C32 and C33 for every start and every binding, also if a free name is used by several node items. All matches that
respect the names are reported, as often as if the names were different. What is reported besides them is limited: for
every second use of a name, the values of the items up to the first use (in the order of the search: from the start to the right,
then to the left of the start) can be continued to the second use so that the name is respected. Missing: which of these are
reported; it depends on the order in which the edges of a node are listed. -/
theorem C33_repeated_partial (ops : List Op) (hv : Spec.ValidHistory ops) (s : State)
    (hs : run ops = some s) (symbols : Symbols) (p : Pattern) (hp : PatternSound (Spec.run ops) symbols p) (index : Nat)
    (hc : Chosen s symbols p index) (hh : StartRight ops symbols p index)
    (hd : ¬ (index % 2 = 1 ∧ itemDir (itemAt p index) = .any)) :
    ∃ xs, Starters (Spec.run ops) symbols p index xs ∧
      ((Pattern.run s symbols p = none ∧ ∃ M, Matches (Spec.run ops) (nodeSymbols symbols p) (sought p index) M ∧
        StartsIn xs index M ∧ ¬ Glues (Spec.run ops).ends (sought p index) index M) ∨
      (∃ rs : List Answer, Pattern.run s symbols p = some (none, rs.map (·.2)) ∧
        (∀ M ∈ rs.map (·.1), Matches (Spec.run ops) (nodeSymbols symbols p) (sought p index) M ∧ StartsIn xs index M ∧
          Respected (Spec.run ops) (nodeSymbols symbols p) (sought p index) index M) ∧
        (∀ M, Matches (Spec.run ops) (nodeSymbols symbols p) (sought p index) M → StartsIn xs index M →
          NodesAgree (nodeSymbols symbols p) (sought p index) M → M ∈ rs.map (·.1) ∧
            (rs.map (·.1)).count M = 2 ^ Match.loops (Spec.run ops) (sought p index) M ∧
            Glues (Spec.run ops).ends (sought p index) index M) ∧
        (∀ r ∈ rs, SymbolsShow (Spec.run ops).ends index (sought p index) r.1 r.2.2 ∧
          (p.length ≠ 1 → ∃ a b, Visits (Spec.run ops).ends r.2.1 a (Match.shown index r.1) b ∧
          ShownFrom (Spec.run ops).ends p index r.1 a ∧ ShownTo p index r.1 b) ∧
          (PathShows (Spec.run ops).ends r.1 r.2.1 ↔ Whole (sought p index) index r.1)))) := by
  obtain ⟨itr, hc⟩ := hc
  obtain ⟨xs, rfl, hnd, hst⟩ := chosen_fair hv hs hp hc hh
  refine ⟨xs, hst, (bindings_any ops hv s hs symbols p hp index xs hc hnd (fun x hx => ?_)).2 hd⟩
  unfold Starters at hst
  split
  · rw [if_pos (by assumption)] at hst; exact hst.1 x hx
  · rw [if_neg (by assumption)] at hst; exact hst.1 x hx

/-- `(a)-[e]-(a)` with a free name: every report of a search that starts at the first node is for a node at which some trail
that satisfies `e` begins and ends, and every report of a search that starts at the edge is for such a trail. -/
theorem C33_pair_partial (ops : List Op) (hv : Spec.ValidHistory ops) (s : State)
    (hs : run ops = some s) (symbols : Symbols) (a b e : Item) (hp : PatternSound (Spec.run ops) symbols [a, e, b]) (index : Nat)
    (hc : Chosen s symbols [a, e, b] index) (hh : StartRight ops symbols [a, e, b] index)
    (hd : ¬ (index = 1 ∧ itemDir e = .any)) (hname : a.name = b.name) (hne : a.name ≠ "") (hfree : AMap.get symbols a.name = none)
    (out : List (Path × AMap String Res)) (hr : Pattern.run s symbols [a, e, b] = some (none, out)) :
    ∃ rs : List Answer, out = rs.map (·.2) ∧ ∀ M ∈ rs.map (·.1), ∃ x es y, M = [.node x, .trail es, .node y] ∧
      (index = 0 → ∃ es', EdgeFits (Spec.run ops) (nodeSymbols symbols [a, e, b]) e x es' x) ∧
      (index = 2 → ∃ es', EdgeFits (Spec.run ops) (nodeSymbols symbols [a, e, b]) e y es' y) ∧
      (index = 1 → x = y) := by
  have hlt : index < 3 := by obtain ⟨_, h⟩ := hc; exact (getFastest_spec h).1
  have hd' : ¬ (index % 2 = 1 ∧ itemDir (itemAt [a, e, b] index) = .any) := by
    rintro ⟨h1, h2⟩
    have : index = 1 := by omega
    subst this
    exact hd ⟨rfl, h2⟩
  obtain ⟨xs, _, h⟩ := C33_repeated_partial ops hv s hs symbols _ hp index hc hh hd'
  rcases h with ⟨h, _⟩ | ⟨rs, h1, h2, _⟩
  · rw [h] at hr; cases hr
  rw [h1] at hr
  simp only [Option.some.injEq, Prod.mk.injEq, true_and] at hr
  refine ⟨rs, hr.symm, fun M hM => ?_⟩
  obtain ⟨⟨ml, mf⟩, _, mr⟩ := h2 M hM
  have hfree' : AMap.get (nodeSymbols symbols [a, e, b]) a.name = none := by
    exact (nodeSymbols_node (i := 0) hp.kinds (by simp) (by decide) hne).trans hfree
  have hsl : (sought [a, e, b] index).length = 3 := by
    unfold sought; split
    · rw [oneEdge_length]; rfl
    · rfl
  have hitem : ∀ i, (itemAt (sought [a, e, b] index) i).name = (itemAt [a, e, b] i).name := by
    intro i; unfold sought; split
    · exact oneEdge_name (by simpa using hlt)
    · rfl
  have use : ∀ i j, (i = 0 ∧ j = 2 ∧ index = 0) ∨ (i = 2 ∧ j = 0 ∧ index ≠ 0) →
      NextUse (nodeSymbols symbols [a, e, b]) (sought [a, e, b] index) index i j := by
    intro i j h
    have hkind : e.name ≠ a.name := fun h => hne (hp.kinds 0 1 (by simp) (by simp) (by decide) (by decide) h.symm)
    constructor
    · rw [hsl]; omega
    · rw [hsl]; omega
    · unfold UpTo; split <;> omega
    · rw [hitem, hitem]
      rcases h with ⟨rfl, rfl, _⟩ | ⟨rfl, rfl, _⟩
      · exact hname
      · exact hname.symm
    · rw [hitem]
      rcases h with ⟨rfl, rfl, _⟩ | ⟨rfl, rfl, _⟩
      · exact hname ▸ hne
      · exact hne
    · rw [hitem]
      rcases h with ⟨rfl, rfl, _⟩ | ⟨rfl, rfl, _⟩
      · show AMap.get _ b.name = none
        rw [← hname]; exact hfree'
      · exact hfree'
    · intro k hk hu hn hkj
      rw [hsl] at hk
      rw [hitem, hitem]
      have hk1 : k = 1 := by
        have : k ≠ i := fun h => hn (h ▸ UpTo.refl)
        omega
      subst hk1
      rcases h with ⟨rfl, rfl, _⟩ | ⟨rfl, rfl, _⟩
      · show e.name ≠ b.name
        rw [← hname]; exact hkind
      · exact hkind
  have f0 := mf 0 (by rw [hsl]; decide)
  have f1 := mf 1 (by rw [hsl]; decide)
  rw [if_pos rfl] at f0
  rw [if_neg (by decide)] at f1
  obtain ⟨x, es, y, m0, m1, m2, fe⟩ := f1
  have m0 : M[0]? = some (.node x) := m0
  have m2 : M[2]? = some (.node y) := m2
  have hM' : M = [.node x, .trail es, .node y] := by
    rw [hsl] at ml
    match M, ml with
    | [u, v, w], _ => simp at m0 m1 m2; rw [m0, m1, m2]
  refine ⟨x, es, y, hM', fun h => ?_, fun h => ?_, fun h => ?_⟩
  · subst h
    obtain ⟨P, _, p1, p2, p3⟩ := mr 0 2 (use 0 2 (.inl ⟨rfl, rfl, rfl⟩))
    have q1 := p2 1 (by rw [hsl]; decide) (by unfold UpTo; decide)
    unfold ItemFits at q1
    rw [if_neg (by decide)] at q1
    obtain ⟨x', es', y', r0, _, r2, r3⟩ := q1
    have r0 : P[0]? = some (.node x') := r0
    have r2 : P[2]? = some (.node y') := r2
    rw [p1 0 (by rw [hsl]; decide) UpTo.refl] at r0 p3
    rw [p3, m0] at r2
    rw [m0] at r0
    cases r0; cases r2
    exact ⟨es', r3⟩
  · subst h
    obtain ⟨P, _, p1, p2, p3⟩ := mr 2 0 (use 2 0 (.inr ⟨rfl, rfl, by decide⟩))
    have q1 := p2 1 (by rw [hsl]; decide) (by unfold UpTo; decide)
    unfold ItemFits at q1
    rw [if_neg (by decide)] at q1
    obtain ⟨x', es', y', r0, _, r2, r3⟩ := q1
    have r0 : P[0]? = some (.node x') := r0
    have r2 : P[2]? = some (.node y') := r2
    rw [p1 2 (by rw [hsl]; decide) UpTo.refl] at r2 p3
    rw [p3, m2] at r0
    rw [m2] at r2
    cases r0; cases r2
    exact ⟨es', r3⟩
  · subst h
    obtain ⟨P, _, p1, p2, p3⟩ := mr 2 0 (use 2 0 (.inr ⟨rfl, rfl, by decide⟩))
    have q1 := p2 1 (by rw [hsl]; decide) (by unfold UpTo; decide)
    unfold ItemFits at q1
    rw [if_neg (by decide)] at q1
    obtain ⟨x', es', y', r0, r1, r2, r3⟩ := q1
    have r0 : P[0]? = some (.node x') := r0
    have r2 : P[2]? = some (.node y') := r2
    rw [p1 2 (by rw [hsl]; decide) UpTo.refl] at r2 p3
    rw [p1 1 (by rw [hsl]; decide) (by unfold UpTo; decide), m1] at r1
    rw [p3, m2] at r0
    rw [m2] at r2
    cases r0; cases r2; cases r1
    have hit : itemAt (sought [a, e, b] 1) 1 = { e with min := 1, max := 1 } := by
      unfold sought
      rw [if_pos (by decide), oneEdge_at (by simp), if_pos rfl]
      rfl
    rw [hit] at r3 fe
    have hdir : itemDir { e with min := 1, max := 1 } ≠ .any := fun h => hd ⟨rfl, h⟩
    obtain ⟨hes, _, _, j1, _⟩ := fe
    obtain ⟨_, _, _, j2, _⟩ := r3
    cases es with
    | nil => exact absurd rfl hes
    | cons e0 es =>
      obtain ⟨c1, a1, _⟩ := j1
      obtain ⟨c2, a2, _⟩ := j2
      unfold Along at a1 a2
      cases hdd : itemDir { e with min := 1, max := 1 } with
      | any => exact absurd hdd hdir
      | incoming => rw [hdd] at a1 a2; exact a1.1.symm.trans a2.1
      | outgoing => rw [hdd] at a1 a2; exact a1.1.symm.trans a2.1

/-- Two nodes with the label `A`, and only one of them has a loop. -/
def oneLoopOps : List Op :=
  [.newNode ["A"] [], .newNode ["A"] [], .newNode [] [], .newNode [] [], .newEdge 0 0 "x" [], .newEdge 0 1 "x" [],
   .newEdge 1 2 "x" [], .newEdge 1 0 "x" []]

/-- The search starts at the first node; the node without a loop is not reported, the other edge of the node with the loop is. -/
example : Spec.ValidHistory oneLoopOps ∧
    (run oneLoopOps).bind (fun s => Pattern.run s [] [{ name := "a", labels := ["A"] }, {}, { name := "a" }]) =
    some (none, [({ path := [⟨4, false⟩] }, [("a", .node 0)]), ({ path := [⟨5, false⟩] }, [("a", .node 0)])]) ∧
    ((run oneLoopOps).bind (fun s => (getFastestElement s [] [{ name := "a", labels := ["A"] }, {}, { name := "a" }]))).map (·.2) =
      some 0 := by
  decide +kernel

/-- Fewer edges than nodes: the search starts at the edge, and the name is respected. -/
example :
    (run [.newNode [] [], .newNode [] [], .newNode [] [], .newEdge 0 0 "x" [], .newEdge 0 1 "x" []]).bind
      (fun s => Pattern.run s [] [{ name := "a" }, {}, { name := "a" }]) =
      some (none, [({ path := [⟨3, false⟩] }, [("a", .node 0)])]) ∧
    ((run [.newNode [] [], .newNode [] [], .newNode [] [], .newEdge 0 0 "x" [], .newEdge 0 1 "x" []]).bind
      (fun s => getFastestElement s [] [{ name := "a" }, {}, { name := "a" }])).map (·.2) = some 1 := by
  decide +kernel

/-- The conditions hold, and the name is used again. -/
example : PatternSound (Spec.run oneLoopOps) [] [{ name := "a", labels := ["A"] }, {}, { name := "a" }] ∧
    StartRight oneLoopOps [] [{ name := "a", labels := ["A"] }, {}, { name := "a" }] 0 ∧
    NextUse [] [{ name := "a", labels := ["A"] }, {}, { name := "a" }] 0 0 2 := by
  refine ⟨(PatternOk.free_symbols (by decide +kernel) (by decide) (by decide) (by decide) (by decide +kernel)).sound,
    ⟨fun _ h => absurd h (by decide), fun _ ⟨_, h, _⟩ => by simp [itemAt] at h, fun h => absurd h (by decide), fun h => absurd h (by decide)⟩, by decide, by decide, ⟨by unfold UpTo; decide, by decide⟩, rfl, by decide, rfl, ?_⟩
  intro k hk hu hn hkj
  unfold UpTo at hn
  have hk : k < 3 := hk
  have : k = 1 := by simp at hn; omega
  subst this
  decide

end LPG

import Verif.Props.C53
import Verif.Props.C29Bound
/-!
# C53 for every start: which nodes `FindNodes` and `GetTailNodes` return

They return the ends of the reported paths, which are not always the ends of the matches (C32).
-/
namespace LPG
open Pat

/-- The node at which the path of a report begins; see `ShownFrom`. -/
def PathFrom (g : Ends) (pat : Pattern) (start : Nat) (M : Match) (n : Nat) : Prop :=
  if pat.length = 1 then M[0]? = some (.node n) else ShownFrom g pat start M n

/-- The node at which it ends. -/
def PathTo (pat : Pattern) (start : Nat) (M : Match) (n : Nat) : Prop :=
  if pat.length = 1 then M[0]? = some (.node n) else ShownTo pat start M n

/-- the ends of a path with edges -/
theorem Visits.ends {g : Ends} {q : Path} {a b : Nat} {es : List Nat} (h : Visits g q a es b) (hes : es ≠ []) :
    q.getNode g 0 = some a ∧ q.getNode g ((q.numNodes : Int) - 1) = some b := by
  obtain ⟨v1, v2, v3⟩ := h
  have hne : q.path ≠ [] := by
    intro h0
    rw [h0] at v2
    exact hes v2.symm
  constructor
  · match q, v1, hne with
    | { only := none, path := pe :: es }, _, _ =>
      have := v3.1
      simp [Path.getNode, Path.first, this]
  · have hlast := Linked.last v3 hne
    have hpos := List.length_pos_iff.2 hne
    have hn : q.numNodes = q.path.length + 1 := by
      unfold Path.numNodes Path.numEdges
      rw [v1]
      simp only
      rw [if_neg (by omega)]
    unfold Path.getNode
    rw [hn]
    rw [if_neg (by omega), if_neg (by omega)]
    have : (((q.path.length + 1 : Nat) : Int) - 1 - 1).toNat = q.path.length - 1 := by omega
    rw [this]
    exact hlast

section
variable {σ : Spec} {symbols : Symbols} {p : Pattern} {index : Nat} {M : Match}

theorem shown_live (hM : Matches σ symbols p M) {e : Nat} (he : e ∈ Match.shown index M) : e ∈ σ.edges := by
  unfold Match.shown at he
  obtain ⟨i, hi, he⟩ := List.mem_flatMap.1 he
  cases hv : M[i]? with
  | none => rw [hv] at he; simp [Val.shown] at he
  | some v =>
    have hin := Matches.edges_live hM (e := e)
    cases v with
    | node n => rw [hv] at he; simp [Val.shown] at he
    | trail es =>
      rw [hv] at he
      have hes : e ∈ es := by
        simp only [Val.shown] at he
        split at he
        · rw [Option.mem_toList] at he
          exact List.mem_of_getLast? he
        · exact he
      have hm := hM.2 i (by rw [← hM.1]; exact List.mem_range.1 hi)
      split at hm
      · obtain ⟨n, hn, _⟩ := hm
        rw [hv] at hn; cases hn
      · obtain ⟨a, es', b, _, h3, _, h4⟩ := hm
        rw [hv] at h3; cases h3
        exact (h4.2.2.1 e hes).1

theorem shown_ne (hM : Matches σ symbols p M) (hodd : p.length % 2 = 1) (hone : p.length ≠ 1) : Match.shown index M ≠ [] := by
  intro h0
  unfold Match.shown at h0
  rw [List.flatMap_eq_nil_iff] at h0
  have hl := hM.1
  have := h0 1 (by rw [List.mem_range]; omega)
  have hm := hM.2 1 (by omega)
  rw [if_neg (by decide)] at hm
  obtain ⟨a, es, b, _, h3, _, h4⟩ := hm
  rw [h3] at this
  have hne := h4.1
  simp only [Val.shown] at this
  split at this
  · rw [List.getLast?_eq_some_getLast hne] at this
    simp at this
  · exact hne this

theorem along_unique {g : Ends} {d : State.Dir} {a a' e b : Nat} (h : Along g d a e b) (h' : Along g d a' e b) : a = a' := by
  cases d <;> simp only [Along] at h h' <;> omega

theorem shownTo_unique {n n' : Nat} (h : ShownTo p index M n) (h' : ShownTo p index M n') : n = n' := by
  unfold ShownTo at h h'
  rw [h] at h'
  simpa using h'

end

/-- the ends of all reports -/
theorem report_pathEnds {ops : List Op} (hv : Spec.ValidHistory ops) {s : State} (hs : run ops = some s) {symbols : Symbols}
    {p p' : Pattern} {index : Nat} (hlen : p'.length = p.length) (hodd : p.length % 2 = 1) {rs : List Answer}
    (h : ∀ r ∈ rs, Matches (Spec.run ops) symbols p' r.1 ∧
      (p.length ≠ 1 → ∃ a b, Visits (Spec.run ops).ends r.2.1 a (Match.shown index r.1) b ∧
        ShownFrom (Spec.run ops).ends p index r.1 a ∧ ShownTo p index r.1 b) ∧
      (p.length = 1 → PathShows (Spec.run ops).ends r.1 r.2.1)) :
    (∃ ns, getHeadNodes s.ends ((rs.map (·.2)).map (·.1)) [] = some ns ∧ ns.Nodup ∧
      ∀ n, n ∈ ns ↔ ∃ M ∈ rs.map (·.1), PathFrom (Spec.run ops).ends p index M n) ∧
    ∃ ns, getTailNodes s.ends ((rs.map (·.2)).map (·.1)) [] = some ns ∧ ns.Nodup ∧
      ∀ n, n ∈ ns ↔ ∃ M ∈ rs.map (·.1), PathTo p index M n := by
  have hends : ∀ r ∈ rs, ∃ a b, (∀ n, PathFrom (Spec.run ops).ends p index r.1 n ↔ n = a) ∧ (∀ n, PathTo p index r.1 n ↔ n = b) ∧
      r.2.1.getNode s.ends 0 = some a ∧ r.2.1.getNode s.ends ((r.2.1.numNodes : Int) - 1) = some b := by
    intro r hr
    obtain ⟨hM, h2, h1⟩ := h r hr
    by_cases hone : p.length = 1
    · obtain ⟨a, b, w1, w2, w3, _⟩ := h1 hone
      have hl : r.1.length = 1 := by rw [hM.1, hlen, hone]
      have hab : a = b := by
        match hr1 : r.1, hl with
        | [x], _ =>
          rw [hr1] at w1 w2
          rw [List.head?_cons, Option.some.injEq] at w1
          simp only [List.getLast?_singleton, Option.some.injEq] at w2
          rw [w1] at w2
          cases w2
          rfl
      subst hab
      rw [List.head?_eq_getElem?] at w1
      refine ⟨a, a, ?_, ?_, ?_⟩
      · intro n; unfold PathFrom; rw [if_pos hone, w1]; simp [eq_comm]
      · intro n; unfold PathTo; rw [if_pos hone, w1]; simp [eq_comm]
      · rw [w3 hl]; exact ⟨rfl, rfl⟩
    · obtain ⟨a, b, ⟨v1, v2, v3⟩, w1, w2⟩ := h2 hone
      have hreal : Visits s.ends r.2.1 a (Match.shown index r.1) b := by
        refine ⟨v1, v2, (linked_congr fun pe hpe => ?_).2 v3⟩
        have hlive : pe.edge ∈ (Spec.run ops).edges := shown_live hM (v2 ▸ List.mem_map_of_mem hpe)
        have := (Core.run hv hs).eattr pe.edge hlive
        exact ⟨this.1, this.2.1⟩
      have hne := shown_ne (index := index) hM (by rw [hlen]; exact hodd) (by rw [hlen]; exact hone)
      obtain ⟨e1, e2⟩ := Visits.ends hreal hne
      refine ⟨a, b, ?_, ?_, e1, e2⟩
      · intro n
        unfold PathFrom
        rw [if_neg hone]
        refine ⟨fun hn => ?_, fun hn => hn ▸ w1⟩
        obtain ⟨x, es, y, k1, k2, k3, k4, k5, k6⟩ := hn
        obtain ⟨x', es', y', g1, g2, g3, g4, g5, g6⟩ := w1
        rw [k1] at g1; rw [k2] at g2; rw [k3] at g3
        cases g1; cases g2; cases g3
        rcases Nat.lt_trichotomy index 1 with hi | hi | hi
        · rw [k4 (by omega), g4 (by omega)]
        · rw [k5 hi, g5 hi]
        · have hm := hM.2 1 (by omega)
          rw [if_neg (by decide)] at hm
          obtain ⟨_, es', _, _, q3, _, q4⟩ := hm
          rw [k2] at q3; cases q3
          have hl := List.getLast?_eq_some_getLast q4.1
          exact along_unique (k6 hi _ hl) (g6 hi _ hl)
      · intro n
        unfold PathTo
        rw [if_neg hone]
        exact ⟨fun hn => shownTo_unique hn w2, fun hn => hn ▸ w2⟩
  rw [List.map_map]
  constructor
  · obtain ⟨ns, h1, h2, h3⟩ := heads_spec s.ends (ps := rs.map ((·.1) ∘ (·.2))) (ret := [])
      (fun q => (q.getNode s.ends 0).getD 0) (fun q hq => by
        obtain ⟨r, hr, rfl⟩ := List.mem_map.1 hq
        obtain ⟨a, b, _, _, e, _⟩ := hends r hr
        simp [e]) List.nodup_nil
    refine ⟨ns, h1, h2, fun n => ?_⟩
    rw [h3]
    constructor
    · rintro (hn | ⟨q, hq, rfl⟩)
      · simp at hn
      · obtain ⟨r, hr, rfl⟩ := List.mem_map.1 hq
        obtain ⟨a, b, e1, _, e, _⟩ := hends r hr
        exact ⟨r.1, List.mem_map_of_mem hr, by simp [e1, e]⟩
    · rintro ⟨M, hM, hn⟩
      obtain ⟨r, hr, rfl⟩ := List.mem_map.1 hM
      obtain ⟨a, b, e1, _, e, _⟩ := hends r hr
      exact Or.inr ⟨r.2.1, List.mem_map.2 ⟨r, hr, rfl⟩, by simp [e, (e1 n).1 hn]⟩
  · obtain ⟨ns, h1, h2, h3⟩ := tails_spec s.ends (ps := rs.map ((·.1) ∘ (·.2))) (ret := [])
      (fun q => (q.getNode s.ends ((q.numNodes : Int) - 1)).getD 0) (fun q hq => by
        obtain ⟨r, hr, rfl⟩ := List.mem_map.1 hq
        obtain ⟨a, b, _, _, _, e⟩ := hends r hr
        simp [e]) List.nodup_nil
    refine ⟨ns, h1, h2, fun n => ?_⟩
    rw [h3]
    constructor
    · rintro (hn | ⟨q, hq, rfl⟩)
      · simp at hn
      · obtain ⟨r, hr, rfl⟩ := List.mem_map.1 hq
        obtain ⟨a, b, _, e1, _, e⟩ := hends r hr
        exact ⟨r.1, List.mem_map_of_mem hr, by simp [e1, e]⟩
    · rintro ⟨M, hM, hn⟩
      obtain ⟨r, hr, rfl⟩ := List.mem_map.1 hM
      obtain ⟨a, b, _, e1, _, e⟩ := hends r hr
      exact Or.inr ⟨r.2.1, List.mem_map.2 ⟨r, hr, rfl⟩, by simp [e, (e1 n).1 hn]⟩

/-- C53 for every start and every binding, if no free name is used by two node items: `FindNodes` and `FindPaths` panic together,
for the reasons of C30; otherwise `FindNodes` returns the nodes at which the paths for the matches begin, once each, and
`GetTailNodes` those at which they end. The path of a match that was found from `index` begins and ends where the match does,
except if the first trail is before the start (then it begins before the last edge of this trail), or the start is the first or the
last edge item and it is from right to left (then it begins or ends at the other end of this edge). The matches are those of
C30: the bounds and the name of an edge item at which the search starts are not looked at. Missing: free names that are used
by two node items. -/
theorem C53_exact_partial (ops : List Op) (hv : Spec.ValidHistory ops) (s : State) (hs : run ops = some s)
    (symbols : Symbols) (p : Pattern) (hp : PatternSound (Spec.run ops) symbols p) (index : Nat) (hc : Chosen s symbols p index)
    (hh : StartRight ops symbols p index) (hu : UniqueNodeNames symbols p) :
    ∃ xs, Starters (Spec.run ops) symbols p index xs ∧
      ((Pattern.findNodes s symbols p = none ∧ Pattern.findPaths s symbols p = none ∧
        ((index % 2 = 1 ∧ itemDir (itemAt p index) = .any) ∨
          ∃ M, Matches (Spec.run ops) (nodeSymbols symbols p) (sought p index) M ∧ StartsIn xs index M ∧
            ¬ Glues (Spec.run ops).ends (sought p index) index M)) ∨
      ∃ out ns ns', Pattern.findNodes s symbols p = some (none, ns) ∧ Pattern.findPaths s symbols p = some (none, out) ∧
        getTailNodes s.ends (out.map (·.1)) [] = some ns' ∧ ns.Nodup ∧ ns'.Nodup ∧
        (index % 2 = 1 ∧ itemDir (itemAt p index) = .any → ns = [] ∧ ns' = []) ∧
        (¬ (index % 2 = 1 ∧ itemDir (itemAt p index) = .any) →
          (∀ n, n ∈ ns ↔ ∃ M, (Matches (Spec.run ops) (nodeSymbols symbols p) (sought p index) M ∧ StartsIn xs index M) ∧
            PathFrom (Spec.run ops).ends p index M n) ∧
          ∀ n, n ∈ ns' ↔ ∃ M, (Matches (Spec.run ops) (nodeSymbols symbols p) (sought p index) M ∧ StartsIn xs index M) ∧
            PathTo p index M n)) := by
  obtain ⟨xs, h0, h1, h2⟩ := C30_bindings_partial ops hv s hs symbols p hp index hc hh hu
  refine ⟨xs, h0, ?_⟩
  by_cases hd : index % 2 = 1 ∧ itemDir (itemAt p index) = .any
  · rcases h1 hd with ⟨hr, _⟩ | ⟨hr, _⟩
    · exact .inl ⟨by simp only [Pattern.findNodes, hr], hr, .inl hd⟩
    · exact .inr ⟨[], [], [], by simp only [Pattern.findNodes, hr]; rfl, hr, rfl, List.nodup_nil, List.nodup_nil,
        fun _ => ⟨rfl, rfl⟩, fun h => absurd hd h⟩
  · have hlt : index < p.length := by
      obtain ⟨itr, hc⟩ := hc
      exact (getFastest_spec hc).1
    rcases h2 hd with ⟨hr, hM⟩ | ⟨rs, hr, a1, _, _, a4⟩
    · exact .inl ⟨by simp only [Pattern.findNodes, hr], hr, .inr hM⟩
    · obtain ⟨⟨ns, b1, b2, b3⟩, ns', c1, c2, c3⟩ := report_pathEnds hv hs (symbols := nodeSymbols symbols p) (p' := sought p index)
        (index := index) sought_length hp.odd (rs := rs) (fun r hr => ⟨((a1 r.1).1 (List.mem_map_of_mem hr)).1, (a4 r hr).2.1, fun hone =>
          (a4 r hr).2.2.2 ⟨fun i _ hi => by omega, fun ho => by omega⟩⟩)
      refine .inr ⟨_, ns, ns', ?_, hr, c1, b2, c2, fun h => absurd h hd, fun _ => ⟨fun n => ?_, fun n => ?_⟩⟩
      · simp only [Pattern.findNodes, hr]
        rw [b1]
        rfl
      · rw [b3]
        exact exists_congr (fun M => and_congr (a1 M) Iff.rfl)
      · rw [c3]
        exact exists_congr (fun M => and_congr (a1 M) Iff.rfl)

/-- A trail of two edges before the start: `FindNodes` returns the node in the middle of the trail. -/
example : (run lineOps).bind (fun s => (getFastestElement s [] earlyTrail).map (·.2)) = some 2 ∧
    UniqueNodeNames [] earlyTrail ∧ PathFrom (Spec.run lineOps).ends earlyTrail 2 [.node 1, .trail [5, 6], .node 3] 2 ∧
    PathTo earlyTrail 2 [.node 1, .trail [5, 6], .node 3] 3 := by
  refine ⟨by decide +kernel, by decide, ?_, by unfold PathTo ShownTo; rw [if_neg (by decide), if_neg (by decide)]; rfl⟩
  unfold PathFrom
  rw [if_neg (by decide)]
  refine ⟨1, [5, 6], 3, rfl, rfl, rfl, fun h => (by cases h), fun h => (by cases h), fun _ e he => ?_⟩
  simp only [List.getLast?_cons_cons, List.getLast?_singleton, Option.mem_def, Option.some.injEq] at he
  subst he
  exact ⟨by decide +kernel, by decide +kernel⟩

end LPG

import Verif.Props.C29C33
import Verif.Proofs.PatternGlue
import Verif.Proofs.PatternTwice
/-!
# C30, C32 exactly: when a search panics while it assembles a path, and which paths it reports
-/
namespace LPG
open Pat

section
variable {ops : List Op} (hv : Spec.ValidHistory ops) {s : State} (hs : run ops = some s)
variable {symbols : Symbols} {p : Pattern} {xs : List Nat} {index : Nat}
include hv hs

/-- a search from some of the items for a start: reports, or a panic; names of edge items are not looked at -/
theorem Pat.answers_fair {symbols' : Symbols} (A : Admissible (Spec.run ops) symbols p xs index)
    (E : Fair (Spec.run ops) symbols' p xs index)
    (hsame : ∀ i, i < p.length → i % 2 = 0 → (itemAt p i).name ≠ "" →
      AMap.get symbols' (itemAt p i).name = AMap.get symbols (itemAt p i).name) :
    (∃ rs : List Answer, Pat.runFrom s symbols p (some xs) index = some (none, rs.map (·.2)) ∧
      (∀ r ∈ rs, Matches (Spec.run ops) symbols' p r.1 ∧ StartsIn xs index r.1 ∧ SymbolsShow (Spec.run ops).ends index p r.1 r.2.2 ∧
        Glues (Spec.run ops).ends p index r.1 ∧
        (p.length ≠ 1 → ∃ a b, Visits (Spec.run ops).ends r.2.1 a (Match.shown index r.1) b ∧
          ShownFrom (Spec.run ops).ends p index r.1 a ∧ ShownTo p index r.1 b) ∧
        (PathShows (Spec.run ops).ends r.1 r.2.1 ↔ Whole p index r.1)) ∧
      (∀ M, Matches (Spec.run ops) symbols' p M → StartsIn xs index M → NodesAgree symbols' p M → M ∈ rs.map (·.1)) ∧
      (NoTwice (Spec.run ops) p → xs.Nodup → (rs.map (·.1)).Nodup) ∧
      (∀ M, Matches (Spec.run ops) symbols' p M → StartsIn xs index M → NodesAgree symbols' p M → xs.Nodup →
        (rs.map (·.1)).count M = 2 ^ Match.loops (Spec.run ops) p M) ∧
      (∀ r ∈ rs, Respected (Spec.run ops) symbols' p index r.1)) ∨
    (Pat.runFrom s symbols p (some xs) index = none ∧
      ∃ M, Matches (Spec.run ops) symbols' p M ∧ StartsIn xs index M ∧ ¬ Glues (Spec.run ops).ends p index M) := by
  have hodd := E.odd
  have hlt := E.lt
  have hsingle : ∀ M : Match, p.length = 1 → Glues (Spec.run ops).ends p index M := fun M h =>
    ⟨fun i _ _ _ h3 hi => by omega, fun ho => by omega⟩
  rcases run_cases hv hs A with ⟨os, ⟨h1, h0'⟩, h2, h3, h4, h5⟩ | ⟨h1, ρ, h2, G, h3⟩
  · left
    have h0 := fun ρ hρ => (h0' ρ hρ).1
    refine ⟨os.map (fun ρ => (matchOf index p.length ρ, reportOf s (thePlan p xs index) ρ)), ?_, ?_, ?_, ?_, ?_, ?_⟩
    · rw [h1, List.map_map]; rfl
    · intro r hr
      obtain ⟨ρ, hρ, rfl⟩ := List.mem_map.1 hr
      have G := (h2 ρ hρ).2.congr hsame
      obtain ⟨q, hq⟩ := Option.ne_none_iff_exists'.1 (h0 ρ hρ)
      have hr1 : (reportOf s (thePlan p xs index) ρ).1 = q := by simp only [reportOf, hq, Option.getD_some]
      refine ⟨good_matches E G, good_startsIn E G, good_symbols E G, ?_, fun hone => ?_, ?_⟩
      · by_cases hone : p.length = 1
        · exact hsingle _ hone
        · apply Classical.byContradiction
          intro hg
          exact h0 ρ hρ ((path_exact hv hs E G hone).2 hg)
      · obtain ⟨k1, k2⟩ := path_exact hv hs E G hone
        by_cases hg : Glues (Spec.run ops).ends p index (matchOf index p.length ρ)
        · obtain ⟨q', A, B, _, _, x1, x2, x3, x4⟩ := k1 hg
          rw [hq, Option.some.injEq] at x1
          subst x1
          exact ⟨A, B, by rw [hr1]; exact x2, x3.shownFrom E.directed, x4.shownTo (by omega) hodd E.directed⟩
        · exact absurd (k2 hg) (h0 ρ hρ)
      · dsimp only
        rw [hr1]
        exact path_whole hv hs E G hq
    · intro M hM hI hN
      obtain ⟨g1, g2, g3⟩ := match_good E hM hI
      have g2 := g2.congr (fun i hi he hne => (hsame i hi he hne).symm)
      rw [List.map_map]
      exact List.mem_map.2 ⟨_, h3 _ g1 g2 (nodes_agree A.lt hsame hM hN), g3⟩
    · intro hx hn
      rw [List.map_map]
      refine List.Pairwise.map _ (R := fun ρ ρ' => ρ ≠ ρ' ∧ ρ ∈ os ∧ ρ' ∈ os) ?_ ?_
      · rintro ρ ρ' ⟨hne, hm, hm'⟩ heq
        exact hne (good_inj (h2 ρ hm).2 (h2 ρ' hm').2 (h2 ρ hm).1 (h2 ρ' hm').1 heq)
      · exact (List.Pairwise.and_mem.1 (h4 hx hn)).imp (fun ⟨a, b, c⟩ => ⟨c, a, b⟩)
    · intro M hM hI hN hn
      obtain ⟨g1, g2, g3⟩ := match_good E hM hI
      have g2 := g2.congr (fun i hi he hne => (hsame i hi he hne).symm)
      have ha := nodes_agree (xs := xs) A.lt hsame hM hN
      have hmem := h3 _ g1 g2 ha
      have h6 := h5 _ hmem ha hn
      rw [g3] at h6
      rw [List.map_map, ← h6, ← times_count]
      conv => lhs; rw [← g3]
      exact times_map (f := matchOf index p.length) (fun ρ hρ heq => good_inj (h2 ρ hρ).2 g2 (h2 ρ hρ).1 g1 heq)
    · intro r hr
      obtain ⟨ρ, hρ, rfl⟩ := List.mem_map.1 hr
      exact sound_respected hv hs A E hsame (h0' ρ hρ).2
  · right
    have G := G.congr hsame
    refine ⟨h1, _, good_matches E G, good_startsIn E G, fun hg => ?_⟩
    have hone : p.length ≠ 1 := by
      intro hone
      have hi : index = 0 := by omega
      subst hi
      obtain ⟨q, hq, _⟩ := path_shows hv hs E G ⟨fun i hi => by omega, fun h => by omega⟩
      rw [hq] at h3; cases h3
    obtain ⟨q, _, _, _, _, x1, _⟩ := (path_exact hv hs E G hone).1 hg
    rw [h3] at x1; cases x1

/-- a search from a right start: reports, or a panic -/
theorem Pat.answers_cases (E : Exact (Spec.run ops) symbols p xs index) :
    (∃ rs : List Answer, Pat.runFrom s symbols p (some xs) index = some (none, rs.map (·.2)) ∧
      (∀ r ∈ rs, Matches (Spec.run ops) symbols p r.1 ∧ SymbolsShow (Spec.run ops).ends index p r.1 r.2.2 ∧
        Glues (Spec.run ops).ends p index r.1 ∧
        (p.length ≠ 1 → ∃ a b, Visits (Spec.run ops).ends r.2.1 a (Match.shown index r.1) b ∧
          ShownFrom (Spec.run ops).ends p index r.1 a ∧ ShownTo p index r.1 b) ∧
        (PathShows (Spec.run ops).ends r.1 r.2.1 ↔ Whole p index r.1)) ∧
      (∀ M, Matches (Spec.run ops) symbols p M → NamesAgree symbols p M → M ∈ rs.map (·.1)) ∧
      (NoTwice (Spec.run ops) p → xs.Nodup → (rs.map (·.1)).Nodup) ∧
      (∀ M, Matches (Spec.run ops) symbols p M → NamesAgree symbols p M → xs.Nodup →
        (rs.map (·.1)).count M = 2 ^ Match.loops (Spec.run ops) p M)) ∨
    (Pat.runFrom s symbols p (some xs) index = none ∧
      ∃ M, Matches (Spec.run ops) symbols p M ∧ ¬ Glues (Spec.run ops).ends p index M) := by
  rcases answers_fair hv hs E.toAdmissible E.toFair (fun _ _ _ _ => rfl) with ⟨rs, h1, h2, h3, h4, h5, _⟩ | ⟨h1, M, h2, _, h3⟩
  · exact .inl ⟨rs, h1, fun r hr => ⟨(h2 r hr).1, (h2 r hr).2.2⟩, fun M hM hN => h3 M hM (E.startsIn hM) (NamesAgree.nodes hN), h4,
      fun M hM hN => h5 M hM (E.startsIn hM) (NamesAgree.nodes hN)⟩
  · exact .inr ⟨h1, M, h2, h3⟩

end

/-- A search from a right start panics if there is a match, with names that agree, whose edges do not fit together in the path
that is assembled for the report. -/
theorem C30_panics (ops : List Op) (hv : Spec.ValidHistory ops) (s : State) (hs : run ops = some s)
    (symbols : Symbols) (p : Pattern) (hp : PatternOk (Spec.run ops) symbols p) (index : Nat) (hc : Chosen s symbols p index)
    (hh : StartRight ops symbols p index)
    (hst : StartOk p index) (M : Match) (hM : Matches (Spec.run ops) symbols p M) (hN : NamesAgree symbols p M)
    (hg : ¬ Glues (Spec.run ops).ends p index M) : Pattern.run s symbols p = none := by
  obtain ⟨itr, hc⟩ := hc
  obtain ⟨xs, rfl, hn, E⟩ := chosen_exact hv hs hp hc hh hst
  unfold Pattern.run
  rw [hc]
  rcases answers_cases hv hs E with ⟨rs, h1, h2, h3, _⟩ | ⟨h1, _⟩
  · obtain ⟨r, hr, rfl⟩ := List.mem_map.1 (h3 M hM hN)
    exact absurd (h2 r hr).2.2.1 hg
  · exact h1

/-- Without repeated names a search from a right start panics exactly then. -/
theorem C30_panics_iff (ops : List Op) (hv : Spec.ValidHistory ops) (s : State) (hs : run ops = some s)
    (symbols : Symbols) (p : Pattern) (hp : PatternOk (Spec.run ops) symbols p) (index : Nat) (hc : Chosen s symbols p index)
    (hh : StartRight ops symbols p index)
    (hst : StartOk p index) (hu : UniqueNames symbols p) :
    Pattern.run s symbols p = none ↔ ∃ M, Matches (Spec.run ops) symbols p M ∧ ¬ Glues (Spec.run ops).ends p index M := by
  refine ⟨fun h => ?_, fun ⟨M, hM, hg⟩ => C30_panics ops hv s hs symbols p hp index hc hh hst M hM (hu.agree M) hg⟩
  obtain ⟨itr, hc⟩ := hc
  obtain ⟨xs, rfl, hn, E⟩ := chosen_exact hv hs hp hc hh hst
  unfold Pattern.run at h
  rw [hc] at h
  rcases answers_cases hv hs E with ⟨rs, h1, _⟩ | ⟨_, h2⟩
  · have h : Pat.runFrom s symbols p (some xs) index = none := h
    rw [h1] at h; cases h
  · exact h2

/-- C30 and C32 for a search from a right start, if the edges of all matches fit together: the search ends without an error,
every match that respects the names is reported, once, or twice for every undirected one-edge item at which it has a loop
(`2 ^ loops`), and the path of a report consists of the last edges of the trails before the
start and of the trails after it. It is the path of the match exactly if the trails before the start are single edges, and the
edge at which the search starts does not point to the left, unless it is a loop. -/
theorem C32_exact_partial (ops : List Op) (hv : Spec.ValidHistory ops) (s : State)
    (hs : run ops = some s) (symbols : Symbols) (p : Pattern) (hp : PatternOk (Spec.run ops) symbols p) (index : Nat)
    (hc : Chosen s symbols p index)
    (hh : StartRight ops symbols p index) (hst : StartOk p index)
    (hg : ∀ M, Matches (Spec.run ops) symbols p M → Glues (Spec.run ops).ends p index M) :
    ∃ rs : List Answer, Pattern.run s symbols p = some (none, rs.map (·.2)) ∧
      (∀ r ∈ rs, Matches (Spec.run ops) symbols p r.1 ∧ SymbolsShow (Spec.run ops).ends index p r.1 r.2.2 ∧
        (p.length ≠ 1 → ∃ a b, Visits (Spec.run ops).ends r.2.1 a (Match.shown index r.1) b ∧
          ShownFrom (Spec.run ops).ends p index r.1 a ∧ ShownTo p index r.1 b) ∧
        (PathShows (Spec.run ops).ends r.1 r.2.1 ↔ Whole p index r.1)) ∧
      (∀ M, Matches (Spec.run ops) symbols p M → NamesAgree symbols p M →
        (rs.map (·.1)).count M = 2 ^ Match.loops (Spec.run ops) p M) ∧
      (NoTwice (Spec.run ops) p → (rs.map (·.1)).Nodup) := by
  obtain ⟨itr, hc⟩ := hc
  obtain ⟨xs, rfl, hn, E⟩ := chosen_exact hv hs hp hc hh hst
  unfold Pattern.run
  rw [hc]
  rcases answers_cases hv hs E with ⟨rs, h1, h2, _, h4, h5⟩ | ⟨_, M, hM, hng⟩
  · exact ⟨rs, h1, fun r hr => ⟨(h2 r hr).1, (h2 r hr).2.1, (h2 r hr).2.2.2⟩, fun M a b => h5 M a b hn, fun h => h4 h hn⟩
  · exact absurd (hg M hM) hng

/-- The same for every search that does not panic. -/
theorem C32_ran_partial (ops : List Op) (hv : Spec.ValidHistory ops) (s : State)
    (hs : run ops = some s) (symbols : Symbols) (p : Pattern) (hp : PatternOk (Spec.run ops) symbols p) (index : Nat)
    (hc : Chosen s symbols p index)
    (hh : StartRight ops symbols p index) (hst : StartOk p index) (e : Option Err) (out : List (Path × AMap String Res))
    (hr : Pattern.run s symbols p = some (e, out)) :
    e = none ∧ ∃ rs : List Answer, out = rs.map (·.2) ∧
      (∀ r ∈ rs, Matches (Spec.run ops) symbols p r.1 ∧ SymbolsShow (Spec.run ops).ends index p r.1 r.2.2 ∧
        (p.length ≠ 1 → ∃ a b, Visits (Spec.run ops).ends r.2.1 a (Match.shown index r.1) b ∧
          ShownFrom (Spec.run ops).ends p index r.1 a ∧ ShownTo p index r.1 b) ∧
        (PathShows (Spec.run ops).ends r.1 r.2.1 ↔ Whole p index r.1)) ∧
      (∀ M, Matches (Spec.run ops) symbols p M → NamesAgree symbols p M →
        (rs.map (·.1)).count M = 2 ^ Match.loops (Spec.run ops) p M) ∧
      (NoTwice (Spec.run ops) p → (rs.map (·.1)).Nodup) := by
  obtain ⟨itr, hc⟩ := hc
  obtain ⟨xs, rfl, hn, E⟩ := chosen_exact hv hs hp hc hh hst
  unfold Pattern.run at hr
  rw [hc] at hr
  have hr : Pat.runFrom s symbols p (some xs) index = some (e, out) := hr
  rcases answers_cases hv hs E with ⟨rs, h1, h2, _, h4, h5⟩ | ⟨h1, _⟩
  · rw [h1] at hr
    simp only [Option.some.injEq, Prod.mk.injEq] at hr
    exact ⟨hr.1.symm, rs, hr.2.symm, fun r hr => ⟨(h2 r hr).1, (h2 r hr).2.1, (h2 r hr).2.2.2⟩, fun M a b => h5 M a b hn, fun h => h4 h hn⟩
  · rw [h1] at hr; cases hr

/-- Three edges in a row, and an edge against them. -/
def lineOps : List Op :=
  [.newNode [] [], .newNode [] [], .newNode [] [], .newNode ["X"] [], .newEdge 0 1 "x" [], .newEdge 1 2 "y" [],
   .newEdge 2 3 "y" [], .newEdge 2 1 "z" []]

/-- An edge and then a trail of one to three edges to a node with a rare label. -/
def lateTrail : Pattern := [{}, { labels := ["x"] }, {}, { labels := ["y"], min := 1, max := 3 }, { labels := ["X"] }]

/-- A trail of one or two edges to a node with a rare label. -/
def earlyTrail : Pattern := [{ name := "a" }, { labels := ["x", "y"], min := 2, max := 2 }, { labels := ["X"] }]

theorem lineOps_ok : Spec.ValidHistory lineOps ∧ StartsRight lineOps ∧ (∀ op ∈ lineOps, FlatOp op) :=
  ⟨by decide +kernel, ⟨by decide +kernel, by decide +kernel, by decide +kernel, by decide +kernel⟩, by decide +kernel⟩

theorem lateTrail_ok : PatternOk (Spec.run lineOps) [] lateTrail :=
  PatternOk.free_symbols lineOps_ok.2.2 (by decide) (by decide) (by decide) (by decide +kernel)

/-- The search starts at the last node. -/
example : (run lineOps).bind (fun s => (getFastestElement s [] lateTrail).map (·.2)) = some 4 ∧ StartOk lateTrail 4 ∧
    UniqueNames [] lateTrail := ⟨by decide +kernel, fun h => (by cases h), by decide⟩

/-- There is a match, and the last edge of its trail does not begin at the node before the trail. -/
theorem lateTrail_gap : ¬ Glues (Spec.run lineOps).ends lateTrail 4 [.node 0, .trail [4], .node 1, .trail [5, 6], .node 3] := by
  intro h
  have h1 := h.1 3 1 [5, 6] 3 (by decide) (by decide) rfl rfl rfl 6 (by decide)
  have h2 : (Spec.run lineOps).ends.src 6 = 1 := h1.1
  exact absurd h2 (by decide +kernel)

/-- items without properties and bound names -/
theorem node_fits_plain {σ : Spec} {q : Item} {n : Nat} (h : q.props = []) (h1 : n ∈ σ.nodes) (h2 : ∀ l ∈ q.labels, l ∈ σ.labels n) :
    NodeFits σ [] q n :=
  ⟨h1, ⟨h2, by rw [h]; intro k v hk; cases hk⟩, fun _ sym hs => (by cases hs)⟩

theorem edge_fits_plain {σ : Spec} {q : Item} {a b : Nat} {es : List Nat} (h : q.props = []) (h1 : es ≠ []) (h2 : es.Nodup)
    (h3 : ∀ e ∈ es, e ∈ σ.edges ∧ (q.labels = [] ∨ σ.label e ∈ q.labels)) (h4 : Joins σ.ends (itemDir q) a es b)
    (h5 : LengthOk q.min q.max es.length) : EdgeFits σ [] q a es b :=
  ⟨h1, h2, fun e he => ⟨(h3 e he).1, (h3 e he).2, by rw [h]; intro k v hk; cases hk⟩, h4, h5, fun _ sym hs => (by cases hs)⟩

theorem lateTrail_match : Matches (Spec.run lineOps) [] lateTrail [.node 0, .trail [4], .node 1, .trail [5, 6], .node 3] := by
  refine ⟨rfl, fun i hi => ?_⟩
  have hi : i < 5 := hi
  rcases (show i = 0 ∨ i = 1 ∨ i = 2 ∨ i = 3 ∨ i = 4 by omega) with rfl | rfl | rfl | rfl | rfl
  · exact ⟨0, rfl, node_fits_plain rfl (by decide +kernel) (by decide +kernel)⟩
  · exact ⟨0, [4], 1, rfl, rfl, rfl, edge_fits_plain rfl (by decide) (by decide) (by decide +kernel)
      ⟨1, ⟨by decide +kernel, by decide +kernel⟩, rfl⟩ ⟨Or.inr (by decide), Or.inr (by decide)⟩⟩
  · exact ⟨1, rfl, node_fits_plain rfl (by decide +kernel) (by decide +kernel)⟩
  · exact ⟨1, [5, 6], 3, rfl, rfl, rfl, edge_fits_plain rfl (by decide) (by decide) (by decide +kernel)
      ⟨2, ⟨by decide +kernel, by decide +kernel⟩, 3, ⟨by decide +kernel, by decide +kernel⟩, rfl⟩
      ⟨Or.inr (by decide), Or.inr (by decide)⟩⟩
  · exact ⟨3, rfl, node_fits_plain rfl (by decide +kernel) (by decide +kernel)⟩

theorem earlyTrail_match : Matches (Spec.run lineOps) [] earlyTrail [.node 1, .trail [5, 6], .node 3] := by
  refine ⟨rfl, fun i hi => ?_⟩
  have hi : i < 3 := hi
  rcases (show i = 0 ∨ i = 1 ∨ i = 2 by omega) with rfl | rfl | rfl
  · exact ⟨1, rfl, node_fits_plain rfl (by decide +kernel) (by decide +kernel)⟩
  · exact ⟨1, [5, 6], 3, rfl, rfl, rfl, edge_fits_plain rfl (by decide) (by decide) (by decide +kernel)
      ⟨2, ⟨by decide +kernel, by decide +kernel⟩, 3, ⟨by decide +kernel, by decide +kernel⟩, rfl⟩
      ⟨Or.inr (by decide), Or.inr (by decide)⟩⟩
  · exact ⟨3, rfl, node_fits_plain rfl (by decide +kernel) (by decide +kernel)⟩

/-- C30 fails: a search with a trail between its first edge and its start panics. -/
theorem C30_false_trail : ¬ ∀ ops, Spec.ValidHistory ops → C30_statement ops := by
  intro h
  have w : (run lineOps).bind (fun s => (getFastestElement s [] lateTrail).map (·.2)) = some 4 := by decide +kernel
  obtain ⟨s, hs, w⟩ := Option.bind_eq_some_iff.1 w
  obtain ⟨⟨itr, i⟩, hi, w⟩ := Option.map_eq_some_iff.1 w
  have w : i = 4 := w
  subst w
  have hnone := C30_panics lineOps lineOps_ok.1 s hs [] lateTrail lateTrail_ok 4 ⟨itr, hi⟩ (lineOps_ok.2.1.at _ _ _) (fun h => (by cases h))
    _ lateTrail_match (UniqueNames.agree (by decide) _) lateTrail_gap
  obtain ⟨rs, h4, _⟩ := h lineOps lineOps_ok.1 s hs [] lateTrail (by decide)
  rw [hnone] at h4
  cases h4

/-- Two edges from one node. -/
def forkOps : List Op :=
  [.newNode [] [], .newNode [] [], .newNode [] [], .newEdge 0 1 "x" [], .newEdge 0 2 "y" []]

/-- C30 fails: a search that starts at an edge from right to left panics, if there are other edges. -/
theorem C30_false_left : ¬ ∀ ops, Spec.ValidHistory ops → C30_statement ops := by
  intro h
  have w : Spec.ValidHistory forkOps ∧ (run forkOps).isSome ∧ (run forkOps).bind (fun s => (Pattern.run s []
      [{}, { toLeft := true }, {}, {}, {}]).map (fun o => o.2.length)) = none := by
    decide +kernel
  obtain ⟨s, hs⟩ := Option.isSome_iff_exists.1 w.2.1
  obtain ⟨rs, h4, _⟩ := h forkOps w.1 s hs [] [{}, { toLeft := true }, {}, {}, {}] (by decide)
  have h3 := w.2.2
  rw [hs, Option.bind_some, h4] at h3
  cases h3

theorem earlyTrail_ok : PatternOk (Spec.run lineOps) [] earlyTrail ∧ StartOk earlyTrail 2 ∧
    ∀ M, Glues (Spec.run lineOps).ends earlyTrail 2 M :=
  ⟨PatternOk.free_symbols lineOps_ok.2.2 (by decide) (by decide) (by decide) (by decide +kernel), fun h => (by cases h),
    fun M => ⟨fun i _ _ _ h3 hi => by omega, fun h => (by cases h)⟩⟩

/-- What is left of the trail `5, 6` to the last node. -/
example : Match.shown 2 [.node 1, .trail [5, 6], .node 3] = [6] ∧ ¬ Whole earlyTrail 2 [.node 1, .trail [5, 6], .node 3] :=
  ⟨by decide, fun h => absurd (h.1 1 [5, 6] (by decide) rfl) (by decide)⟩

/-- C32 fails: of a trail before the start only one edge is in the path. -/
theorem C32_false_trail : ¬ ∀ ops, Spec.ValidHistory ops → C32_statement ops := by
  intro h
  have w : (run lineOps).bind (fun s => (getFastestElement s [] earlyTrail).map (·.2)) = some 2 := by decide +kernel
  obtain ⟨s, hs, w⟩ := Option.bind_eq_some_iff.1 w
  obtain ⟨⟨itr, i⟩, hi, w⟩ := Option.map_eq_some_iff.1 w
  have w : i = 2 := w
  subst w
  obtain ⟨hp, hst, hg⟩ := earlyTrail_ok
  obtain ⟨rs, r1, r2, r3, _⟩ := C32_exact_partial lineOps lineOps_ok.1 s hs [] earlyTrail hp 2 ⟨itr, hi⟩ (lineOps_ok.2.1.at _ _ _) hst
    (fun M _ => hg M)
  obtain ⟨r, hr, hrM⟩ := List.mem_map.1 (List.count_pos_iff.1 (by rw [r3 _ earlyTrail_match (UniqueNames.agree (by decide) _)]; exact Nat.pow_pos (by decide)))
  obtain ⟨_, _, hv, _⟩ := r2 r hr
  obtain ⟨_, _, ⟨_, hpath, _⟩, _⟩ := hv (by decide)
  rw [hrM] at hpath
  obtain ⟨M, start, ⟨hl, hM⟩, hS, a, b, p1, p2, _, p4⟩ := h lineOps lineOps_ok.1 s hs _ _ _ _ r1 r.2 (List.mem_map.2 ⟨r, hr, rfl⟩)
  obtain ⟨_, hedges, _⟩ := p4 (by rw [hl]; decide)
  rw [hpath] at hedges
  have m1 := hM 1 (by decide)
  rw [if_neg (by decide)] at m1
  obtain ⟨_, es, _, _, m1, _, _, _, _, _, ⟨hmin, _⟩, _⟩ := m1
  have m0 := hM 0 (by decide)
  have m2 := hM 2 (by decide)
  rw [if_pos (by decide)] at m0 m2
  obtain ⟨n0, m0, _⟩ := m0
  obtain ⟨n2, m2, _⟩ := m2
  have hl : M.length = 3 := hl
  match M, hl with
  | [x, y, z], _ =>
    simp only [List.getElem?_cons_zero, List.getElem?_cons_succ, Option.some.injEq] at m0 m1 m2
    subst m0; subst m1; subst m2
    have hlen := congrArg List.length hedges
    rw [show Match.shown 2 [.node 1, .trail [5, 6], .node 3] = [6] by decide] at hlen
    simp [Match.edges] at hlen
    have hmin : (2 : Int) = -1 ∨ (2 : Int) ≤ es.length := hmin
    omega

end LPG

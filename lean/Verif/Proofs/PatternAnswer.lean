import Verif.Proofs.PatternStart
/-!
# What a search reports
-/
namespace LPG
namespace Pat
open VPath

/-- A report and the match that it is for. -/
abbrev Answer := Match × Path × AMap String Res

theorem asgOf_node {g : Ends} {index : Nat} {M : Match} {i n : Nat} (h : M[i]? = some (.node n)) :
    asgOf g index M i = some (.node n) := by
  unfold asgOf
  rw [h]

section
variable {ops : List Op} (hv : Spec.ValidHistory ops) {s : State} (hs : run ops = some s)
variable {symbols : Symbols} {p : Pattern} {xs : List Nat} {index : Nat}

theorem NamesAgree.nodes {M : Match} (h : NamesAgree symbols p M) : NodesAgree symbols p M :=
  fun i j hi hj _ _ => h i j hi hj

theorem nodes_agree {σ : Spec} {symbols' : Symbols} (hlt : index < p.length)
    (hsame : ∀ i, i < p.length → i % 2 = 0 → (itemAt p i).name ≠ "" →
      AMap.get symbols' (itemAt p i).name = AMap.get symbols (itemAt p i).name) {M : Match} (h : Matches σ symbols' p M)
    (hn : NodesAgree symbols' p M) : Agree symbols (stepsOf p xs index) (asgOf σ.ends index M) := by
  intro st hst st' hst' hnode hnode' heq hne hfree
  obtain ⟨i, hi, rfl⟩ := (mem_stepsOf hlt).1 hst
  obtain ⟨j, hj, rfl⟩ := (mem_stepsOf hlt).1 hst'
  have hi2 := isNode_stepOf.1 hnode
  have hj2 := isNode_stepOf.1 hnode'
  rw [stepOf_item] at heq hne hfree
  rw [stepOf_item] at heq
  have hm := hn i j hi hj hi2 hj2 heq hne (by rw [hsame i hi hi2 hne]; exact hfree)
  have h1 := h.2 i hi
  have h2 := h.2 j hj
  rw [if_pos hi2] at h1
  rw [if_pos hj2] at h2
  obtain ⟨n, h1, _⟩ := h1
  obtain ⟨m, h2, _⟩ := h2
  rw [stepOf_ix, stepOf_ix, asgOf_node h1, asgOf_node h2]
  rw [h1, h2] at hm
  cases hm
  rfl

theorem names_agree {σ : Spec} (A : Admissible σ symbols p xs index) {M : Match} (h : Matches σ symbols p M)
    (hn : NamesAgree symbols p M) : Agree symbols (stepsOf p xs index) (asgOf σ.ends index M) :=
  nodes_agree A.lt (fun _ _ _ _ => rfl) h (NamesAgree.nodes hn)

theorem Good.congr {σ : Spec} {symbols' : Symbols} {ρ : Asg}
    (hsame : ∀ i, i < p.length → i % 2 = 0 → (itemAt p i).name ≠ "" →
      AMap.get symbols' (itemAt p i).name = AMap.get symbols (itemAt p i).name) (G : Good σ symbols p xs index ρ) :
    Good σ symbols' p xs index ρ := by
  refine ⟨fun i hi he => ?_, G.edge⟩
  obtain ⟨n, h1, h2, h3⟩ := G.node i hi he
  exact ⟨n, h1, node_fits_congr (hsame i hi he) h2, h3⟩

include hv hs

/-- A search from a right start ends without an error. Every report is for a match; every match that respects the names is
reported; and no match is reported twice if there are no loops at undirected edge items. -/
theorem answers (E : Exact (Spec.run ops) symbols p xs index) (hp : PathSafe p index) :
    ∃ rs : List Answer, runFrom s symbols p (some xs) index = some (none, rs.map (·.2)) ∧
      (∀ r ∈ rs, Matches (Spec.run ops) symbols p r.1 ∧ SymbolsShow (Spec.run ops).ends index p r.1 r.2.2 ∧
        (PathOk p index → PathShows (Spec.run ops).ends r.1 r.2.1)) ∧
      (∀ M, Matches (Spec.run ops) symbols p M → NamesAgree symbols p M → M ∈ rs.map (·.1)) ∧
      (NoTwice (Spec.run ops) p → xs.Nodup → (rs.map (·.1)).Nodup) := by
  obtain ⟨os, h1, h2, h3, h4⟩ := run_spec hv hs E.toAdmissible (fun ρ G => path_safe hv hs E.toFair G hp)
  refine ⟨os.map (fun ρ => (matchOf index p.length ρ, reportOf s (thePlan p xs index) ρ)), ?_, ?_, ?_, ?_⟩
  · rw [h1, List.map_map]; rfl
  · intro r hr
    obtain ⟨ρ, hρ, rfl⟩ := List.mem_map.1 hr
    obtain ⟨_, G⟩ := h2 ρ hρ
    refine ⟨good_matches E.toFair G, ?_, fun hpo => ?_⟩
    · exact good_symbols E.toFair G
    · obtain ⟨q, q1, q2⟩ := path_shows hv hs E.toFair G hpo
      simp only [reportOf, q1, Option.getD_some]
      exact q2
  · intro M hM hN
    obtain ⟨g1, g2, g3⟩ := match_good E.toFair hM (E.startsIn hM)
    rw [List.map_map]
    exact List.mem_map.2 ⟨_, h3 _ g1 g2 (names_agree E.toAdmissible hM hN), g3⟩
  · intro hx hn
    rw [List.map_map]
    refine List.Pairwise.map _ (R := fun ρ ρ' => ρ ≠ ρ' ∧ ρ ∈ os ∧ ρ' ∈ os) ?_ ?_
    · rintro ρ ρ' ⟨hne, hm, hm'⟩ heq
      exact hne (good_inj (h2 ρ hm).2 (h2 ρ' hm').2 (h2 ρ hm).1 (h2 ρ' hm').1 heq)
    · exact (List.Pairwise.and_mem.1 (h4 hx hn)).imp (fun ⟨a, b, c⟩ => ⟨c, a, b⟩)

end
end Pat
end LPG

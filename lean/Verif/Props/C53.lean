import Verif.Model.Accumulator
import Verif.Props.C29C33
/-!
# C53: what callers of a pattern get
-/
namespace LPG
open Pat

theorem mem_addKey {α : Type} [DecidableEq α] {ret : List α} {x y : α} : y ∈ addKey ret x ↔ y ∈ ret ∨ y = x := by
  unfold addKey
  split
  · rename_i h
    exact ⟨Or.inl, fun h' => h'.elim id (fun e => e ▸ h)⟩
  · rw [List.mem_append, List.mem_singleton]

theorem nodup_addKey {α : Type} [DecidableEq α] {ret : List α} (h : ret.Nodup) (x : α) : (addKey ret x).Nodup := by
  unfold addKey
  split
  · exact h
  · rename_i hx
    rw [List.nodup_append]
    refine ⟨h, by simp, fun a ha b hb => ?_⟩
    rw [List.mem_singleton] at hb
    exact fun he => hx (hb ▸ he ▸ ha)

/-- the nodes of the paths, once each -/
theorem heads_spec (g : Ends) : ∀ {ps : List Path} {ret : List Nat} (f : Path → Nat), (∀ p ∈ ps, p.getNode g 0 = some (f p)) →
    ret.Nodup → ∃ ns, getHeadNodes g ps ret = some ns ∧ ns.Nodup ∧ ∀ n, n ∈ ns ↔ n ∈ ret ∨ ∃ p ∈ ps, f p = n
  | [], ret, f, _, hn => ⟨ret, rfl, hn, fun n => by simp⟩
  | p :: ps, ret, f, hf, hn => by
    obtain ⟨ns, h1, h2, h3⟩ := heads_spec g (ps := ps) f (fun q hq => hf q (List.mem_cons_of_mem _ hq)) (nodup_addKey hn (f p))
    refine ⟨ns, ?_, h2, fun n => ?_⟩
    · rw [getHeadNodes, hf p (List.mem_cons_self ..)]
      exact h1
    · rw [h3, mem_addKey]
      simp only [List.mem_cons, exists_eq_or_imp, or_assoc, eq_comm (a := n)]

theorem tails_spec (g : Ends) : ∀ {ps : List Path} {ret : List Nat} (f : Path → Nat),
    (∀ p ∈ ps, p.getNode g ((p.numNodes : Int) - 1) = some (f p)) →
    ret.Nodup → ∃ ns, getTailNodes g ps ret = some ns ∧ ns.Nodup ∧ ∀ n, n ∈ ns ↔ n ∈ ret ∨ ∃ p ∈ ps, f p = n
  | [], ret, f, _, hn => ⟨ret, rfl, hn, fun n => by simp⟩
  | p :: ps, ret, f, hf, hn => by
    obtain ⟨ns, h1, h2, h3⟩ := tails_spec g (ps := ps) f (fun q hq => hf q (List.mem_cons_of_mem _ hq)) (nodup_addKey hn (f p))
    refine ⟨ns, ?_, h2, fun n => ?_⟩
    · rw [getTailNodes, hf p (List.mem_cons_self ..)]
      exact h1
    · rw [h3, mem_addKey]
      simp only [List.mem_cons, exists_eq_or_imp, or_assoc, eq_comm (a := n)]

theorem Linked.last {g : Ends} : ∀ {es : List PathElement} {a b : Nat}, Linked g a es b → es ≠ [] →
    (es[es.length - 1]?).map (fun e => e.getTargetNode g) = some b
  | [], _, _, _, h => absurd rfl h
  | [pe], a, b, h, _ => by
    obtain ⟨_, h⟩ := h
    have h : pe.getTargetNode g = b := h
    simp [h]
  | pe :: pe' :: es, a, b, h, _ => by
    have := Linked.last h.2 (by simp)
    simpa using this

/-- the ends of a path that shows a match -/
theorem PathShows.ends {σ : Spec} {symbols : Symbols} {p : Pattern} {M : Match} {g : Ends} {q : Path} (hM : Matches σ symbols p M)
    (hp : p.length % 2 = 1) (h : PathShows g M q) :
    ∃ a b, M.head? = some (.node a) ∧ M.getLast? = some (.node b) ∧ q.getNode g 0 = some a ∧
      q.getNode g ((q.numNodes : Int) - 1) = some b := by
  obtain ⟨a, b, h1, h2, h3, h4⟩ := h
  refine ⟨a, b, h1, h2, ?_⟩
  by_cases hl : M.length = 1
  · rw [h3 hl]
    have : a = b := by
      match M, hl with
      | [x], _ =>
        rw [List.head?_cons, Option.some.injEq] at h1
        simp only [List.getLast?_singleton, Option.some.injEq] at h2
        rw [h1] at h2
        cases h2
        rfl
    subst this
    exact ⟨rfl, rfl⟩
  · obtain ⟨v1, v2, v3⟩ := h4 hl
    have hne : q.path ≠ [] := by
      intro h0
      rw [h0] at v2
      have hlen := hM.1
      have hm1 := hM.2 1 (by omega)
      rw [if_neg (by decide)] at hm1
      obtain ⟨a', es, b', m0, m1, m2, f, _⟩ := hm1
      have : ∀ (M : Match) (i : Nat), M[i]? = some (.trail es) → es ≠ [] → Match.edges M ≠ [] := by
        intro M
        induction M with
        | nil => intro i hi; simp at hi
        | cons x M ih =>
          intro i hi hes
          cases i with
          | zero =>
            simp only [List.getElem?_cons_zero, Option.some.injEq] at hi
            subst hi
            simp [Match.edges, hes]
          | succ i =>
            rw [List.getElem?_cons_succ] at hi
            cases x with
            | node n => exact ih i hi hes
            | trail es' => simp [Match.edges, ih i hi hes]
      exact this M 1 m1 f v2.symm
    constructor
    · match q, v1, hne with
      | { only := none, path := pe :: es }, _, _ =>
        have := v3.1
        simp [Path.getNode, Path.first, this]
    · have hlast := Linked.last v3 hne
      have hpos := List.length_pos_iff.2 hne
      have hn : q.numNodes = q.path.length + 1 := by
        unfold Path.numNodes Path.numEdges
        rw [v1]
        simp only
        rw [if_neg (by omega)]
      unfold Path.getNode
      rw [hn]
      rw [if_neg (by omega), if_neg (by omega)]
      have : (((q.path.length + 1 : Nat) : Int) - 1 - 1).toNat = q.path.length - 1 := by omega
      rw [this]
      exact hlast

/-- The first nodes of the matches, and the last ones. -/
def Heads (σ : Spec) (symbols : Symbols) (p : Pattern) (ns : List Nat) : Prop :=
  ns.Nodup ∧ ∀ n, n ∈ ns ↔ ∃ M, Matches σ symbols p M ∧ M.head? = some (.node n)

def Tails (σ : Spec) (symbols : Symbols) (p : Pattern) (ns : List Nat) : Prop :=
  ns.Nodup ∧ ∀ n, n ∈ ns ↔ ∃ M, Matches σ symbols p M ∧ M.getLast? = some (.node n)

/-- C53 for one history: `FindNodes` returns the nodes at which the matches begin, once each, and the tail nodes of what
`FindPaths` returns are the nodes at which they end. Names are not repeated. -/
def C53_statement (ops : List Op) : Prop :=
  ∀ s, run ops = some s → ∀ symbols p, p.length % 2 = 1 → UniqueNames symbols p →
    (∃ ns, Pattern.findNodes s symbols p = some (none, ns) ∧ Heads (Spec.run ops) symbols p ns) ∧
    ∃ out ns, Pattern.findPaths s symbols p = some (none, out) ∧ getTailNodes s.ends (out.map (·.1)) [] = some ns ∧
      Tails (Spec.run ops) symbols p ns

theorem Match.edges_mem : ∀ {M : Match} {e : Nat}, e ∈ Match.edges M → ∃ (i : Nat) (es : List Nat), M[i]? = some (Val.trail es) ∧ e ∈ es
  | [], e, h => by simp [Match.edges] at h
  | .node _ :: M, e, h => by
    obtain ⟨i, es, h1, h2⟩ := Match.edges_mem (M := M) h
    exact ⟨i + 1, es, by simpa using h1, h2⟩
  | .trail es :: M, e, h => by
    rw [Match.edges, List.mem_append] at h
    rcases h with h | h
    · exact ⟨0, es, rfl, h⟩
    · obtain ⟨i, es, h1, h2⟩ := Match.edges_mem (M := M) h
      exact ⟨i + 1, es, by simpa using h1, h2⟩

theorem Matches.edges_live {σ : Spec} {symbols : Symbols} {p : Pattern} {M : Match} (h : Matches σ symbols p M) {e : Nat}
    (he : e ∈ Match.edges M) : e ∈ σ.edges := by
  obtain ⟨i, es, h1, h2⟩ := Match.edges_mem he
  have hi : i < p.length := by
    rw [← h.1]
    exact (List.getElem?_eq_some_iff.1 h1).1
  have := h.2 i hi
  split at this
  · obtain ⟨n, hn, _⟩ := this
    rw [h1] at hn
    cases hn
  · obtain ⟨a, es', b, _, h3, _, h4⟩ := this
    rw [h1] at h3
    cases h3
    exact (h4.2.2.1 e h2).1

/-- the ends that the code reads are those of the abstract graph -/
theorem PathShows.real {ops : List Op} (hv : Spec.ValidHistory ops) {s : State} (hs : run ops = some s) {symbols : Symbols}
    {p : Pattern} {M : Match} {q : Path} (hM : Matches (Spec.run ops) symbols p M) (h : PathShows (Spec.run ops).ends M q) :
    PathShows s.ends M q := by
  obtain ⟨a, b, h1, h2, h3, h4⟩ := h
  refine ⟨a, b, h1, h2, h3, fun hl => ?_⟩
  obtain ⟨v1, v2, v3⟩ := h4 hl
  refine ⟨v1, v2, (linked_congr fun pe hpe => ?_).2 v3⟩
  have hlive : pe.edge ∈ (Spec.run ops).edges := hM.edges_live (v2 ▸ List.mem_map_of_mem hpe)
  have := (Core.run hv hs).eattr pe.edge hlive
  exact ⟨this.1, this.2.1⟩

/-- the ends of all reports -/
theorem report_ends {ops : List Op} (hv : Spec.ValidHistory ops) {s : State} (hs : run ops = some s) {symbols : Symbols}
    {p : Pattern} (hodd : p.length % 2 = 1) {rs : List Answer}
    (h : ∀ r ∈ rs, Matches (Spec.run ops) symbols p r.1 ∧ PathShows (Spec.run ops).ends r.1 r.2.1)
    (hall : ∀ M, Matches (Spec.run ops) symbols p M → M ∈ rs.map (·.1)) :
    (∃ ns, getHeadNodes s.ends ((rs.map (·.2)).map (·.1)) [] = some ns ∧ Heads (Spec.run ops) symbols p ns) ∧
    ∃ ns, getTailNodes s.ends ((rs.map (·.2)).map (·.1)) [] = some ns ∧ Tails (Spec.run ops) symbols p ns := by
  have hends : ∀ r ∈ rs, ∃ a b, r.1.head? = some (.node a) ∧ r.1.getLast? = some (.node b) ∧
      r.2.1.getNode s.ends 0 = some a ∧ r.2.1.getNode s.ends ((r.2.1.numNodes : Int) - 1) = some b :=
    fun r hr => PathShows.ends (h r hr).1 hodd (PathShows.real hv hs (h r hr).1 (h r hr).2)
  rw [List.map_map]
  constructor
  · obtain ⟨ns, h1, h2, h3⟩ := heads_spec s.ends (ps := rs.map ((·.1) ∘ (·.2))) (ret := [])
      (fun q => (q.getNode s.ends 0).getD 0) (fun q hq => by
        obtain ⟨r, hr, rfl⟩ := List.mem_map.1 hq
        obtain ⟨a, b, _, _, e, _⟩ := hends r hr
        simp [e]) List.nodup_nil
    refine ⟨ns, h1, h2, fun n => ?_⟩
    rw [h3]
    constructor
    · rintro (hn | ⟨q, hq, rfl⟩)
      · simp at hn
      · obtain ⟨r, hr, rfl⟩ := List.mem_map.1 hq
        obtain ⟨a, b, e1, _, e, _⟩ := hends r hr
        exact ⟨r.1, (h r hr).1, by simp [e1, e]⟩
    · rintro ⟨M, hM, hn⟩
      obtain ⟨r, hr, rfl⟩ := List.mem_map.1 (hall M hM)
      obtain ⟨a, b, e1, _, e, _⟩ := hends r hr
      rw [e1] at hn
      cases hn
      exact Or.inr ⟨r.2.1, List.mem_map.2 ⟨r, hr, rfl⟩, by simp [e]⟩
  · obtain ⟨ns, h1, h2, h3⟩ := tails_spec s.ends (ps := rs.map ((·.1) ∘ (·.2))) (ret := [])
      (fun q => (q.getNode s.ends ((q.numNodes : Int) - 1)).getD 0) (fun q hq => by
        obtain ⟨r, hr, rfl⟩ := List.mem_map.1 hq
        obtain ⟨a, b, _, _, _, e⟩ := hends r hr
        simp [e]) List.nodup_nil
    refine ⟨ns, h1, h2, fun n => ?_⟩
    rw [h3]
    constructor
    · rintro (hn | ⟨q, hq, rfl⟩)
      · simp at hn
      · obtain ⟨r, hr, rfl⟩ := List.mem_map.1 hq
        obtain ⟨a, b, _, e1, _, e⟩ := hends r hr
        exact ⟨r.1, (h r hr).1, by simp [e1, e]⟩
    · rintro ⟨M, hM, hn⟩
      obtain ⟨r, hr, rfl⟩ := List.mem_map.1 (hall M hM)
      obtain ⟨a, b, _, e1, _, e⟩ := hends r hr
      rw [e1] at hn
      cases hn
      exact Or.inr ⟨r.2.1, List.mem_map.2 ⟨r, hr, rfl⟩, by simp [e]⟩

/-- C53 if the items before the start are for one edge and the start is a node item or an edge item from left to right.
Missing: the other starts, for which the reported paths are wrong (C32, `C53_false`). -/
theorem C53_partial (ops : List Op) (hv : Spec.ValidHistory ops) (s : State) (hs : run ops = some s)
    (symbols : Symbols) (p : Pattern) (hp : PatternOk (Spec.run ops) symbols p) (index : Nat) (hc : Chosen s symbols p index)
    (hh : StartRight ops symbols p index)
    (hst : StartOk p index) (hpath : PathOk p index) (hu : UniqueNames symbols p) :
    (∃ ns, Pattern.findNodes s symbols p = some (none, ns) ∧ Heads (Spec.run ops) symbols p ns) ∧
    ∃ out ns, Pattern.findPaths s symbols p = some (none, out) ∧ getTailNodes s.ends (out.map (·.1)) [] = some ns ∧
      Tails (Spec.run ops) symbols p ns := by
  obtain ⟨rs, h1, h2, h3, _⟩ := planned hv hs hp hc hh hst hpath.safe
  obtain ⟨⟨ns, a1, a2⟩, ns', b1, b2⟩ := report_ends hv hs hp.odd (rs := rs)
    (fun r hr => ⟨(h2 r hr).1, (h2 r hr).2.2 hpath⟩) (fun M hM => h3 M hM (hu.agree M))
  refine ⟨⟨ns, ?_, a2⟩, _, ns', h1, b1, b2⟩
  simp only [Pattern.findNodes, h1]
  rw [a1]
  rfl

/-- Patterns of single edges from left to right, whatever the planner chooses. -/
theorem C53_oneWay_partial (ops : List Op) (hv : Spec.ValidHistory ops) (hh : StartsRight ops) (s : State)
    (hs : run ops = some s) (symbols : Symbols) (p : Pattern) (hp : PatternOk (Spec.run ops) symbols p) (ho : OneWay p)
    (hu : UniqueNames symbols p)
    (hix : ∀ q ∈ p, State.propIters s.nodeIx q.props ≠ none ∧ State.propIters s.edgeIx q.props ≠ none) :
    (∃ ns, Pattern.findNodes s symbols p = some (none, ns) ∧ Heads (Spec.run ops) symbols p ns) ∧
    ∃ out ns, Pattern.findPaths s symbols p = some (none, out) ∧ getTailNodes s.ends (out.map (·.1)) [] = some ns ∧
      Tails (Spec.run ops) symbols p ns := by
  have hne : p ≠ [] := by intro h0; have := hp.odd; rw [h0] at this; simp at this
  obtain ⟨itr, index, hc⟩ := chosen_of hv hh hs (symbols := symbols) hne hix
  have hlt := (getFastest_spec hc).1
  exact C53_partial ops hv s hs symbols p hp index ⟨itr, hc⟩ (hh.at symbols p index) (ho.startOk hlt) (ho.pathOk hlt) hu

example : (run searchOps).bind (fun s => Pattern.findNodes s [] searchPattern) = some (none, [0, 3]) := by decide +kernel

/-- C53 fails: if the search starts at an edge item from right to left, `FindNodes` returns the nodes at which the matches
end. In the row of three nodes, no edge leads to the node 0, and `FindNodes` for "a node that an edge leads to" returns it. -/
theorem C53_false : ¬ ∀ ops, Spec.ValidHistory ops → C53_statement ops := by
  intro h
  have w : Spec.ValidHistory rowOps ∧
      (run rowOps).bind (fun s => Pattern.findNodes s [] [{}, { toLeft := true }, {}]) = some (none, [0, 1]) ∧
      (∀ e, e ∈ (Spec.run rowOps).edges → (Spec.run rowOps).dst e ≠ 0) := by
    decide +kernel
  obtain ⟨h1, h2, h0⟩ := w
  obtain ⟨s, hs, h2⟩ := Option.bind_eq_some_iff.1 h2
  obtain ⟨⟨ns, h3, _, h4⟩, _⟩ := h rowOps h1 s hs [] [{}, { toLeft := true }, {}] (by decide) (by decide)
  rw [h2] at h3
  cases h3
  obtain ⟨M, ⟨_, hM⟩, hn⟩ := (h4 0).1 (by simp)
  have hm1 := hM 1 (by decide)
  rw [if_neg (by decide)] at hm1
  obtain ⟨a, es, b, m0, m1, m2, f1, _, f3, f4, _⟩ := hm1
  rw [List.head?_eq_getElem?, m0] at hn
  cases hn
  cases es with
  | nil => exact f1 rfl
  | cons e es =>
    obtain ⟨c, hal, _⟩ := f4
    exact h0 e (f3 e (by simp)).1 hal.1

/-! ### The names of a pattern -/

theorem getSymbolNames_aux (p : Pattern) : ∀ (ret : List String), ret.Nodup →
    (p.foldl (fun ret q => if q.name.length > 0 then addKey ret q.name else ret) ret).Nodup ∧
    ∀ name, name ∈ p.foldl (fun ret q => if q.name.length > 0 then addKey ret q.name else ret) ret ↔
      name ∈ ret ∨ name ≠ "" ∧ ∃ q ∈ p, q.name = name := by
  induction p with
  | nil => intro ret h; exact ⟨h, fun name => by simp⟩
  | cons q p ih =>
    intro ret h
    rw [List.foldl_cons]
    split
    · rename_i hl
      obtain ⟨h1, h2⟩ := ih _ (nodup_addKey h q.name)
      refine ⟨h1, fun name => ?_⟩
      rw [h2, mem_addKey]
      have : q.name ≠ "" := by intro h0; rw [h0] at hl; simp at hl
      grind
    · rename_i hl
      obtain ⟨h1, h2⟩ := ih _ h
      refine ⟨h1, fun name => ?_⟩
      rw [h2]
      have : q.name = "" := by
        rw [← String.length_eq_zero_iff]
        omega
      grind

/-- `GetSymbolNames` returns the names of the items, without the empty one. -/
theorem C53_names (p : Pattern) : p.getSymbolNames.Nodup ∧
    ∀ name, name ∈ p.getSymbolNames ↔ name ≠ "" ∧ ∃ q ∈ p, q.name = name := by
  obtain ⟨h1, h2⟩ := getSymbolNames_aux p [] List.nodup_nil
  exact ⟨h1, fun name => by rw [Pattern.getSymbolNames, h2]; simp⟩

example : Pattern.getSymbolNames [{ name := "a" }, {}, { name := "b" }, {}, { name := "a" }] = ["a", "b"] := by decide +kernel

/-! ### The items of a symbol -/

/-- The nodes among the items, and the edges, also those of paths. -/
def itemNodes : SymItem → List Nat
  | .node n => [n]
  | _ => []

def itemEdges : SymItem → List Nat
  | .edge e => [e]
  | .path p => p.path.map (·.edge)
  | _ => []

theorem addKeys {ret : List Nat} : ∀ (es : List PathElement), ret.Nodup →
    (es.foldl (fun es x => addKey es x.edge) ret).Nodup ∧
    ∀ e, e ∈ es.foldl (fun es x => addKey es x.edge) ret ↔ e ∈ ret ∨ e ∈ es.map (·.edge) := by
  intro es
  induction es generalizing ret with
  | nil => intro h; exact ⟨h, fun e => by simp⟩
  | cons x es ih =>
    intro h
    obtain ⟨h1, h2⟩ := ih (nodup_addKey h x.edge)
    refine ⟨h1, fun e => ?_⟩
    rw [List.foldl_cons, h2, mem_addKey]
    grind

theorem Sym.add_spec (p : Sym) (x : SymItem) (hn : (p.nodes.getD []).Nodup) (he : (p.edges.getD []).Nodup) :
    ((p.add x).nodes.getD []).Nodup ∧ ((p.add x).edges.getD []).Nodup ∧
    (∀ n, n ∈ (p.add x).nodes.getD [] ↔ n ∈ p.nodes.getD [] ∨ n ∈ itemNodes x) ∧
    (∀ e, e ∈ (p.add x).edges.getD [] ↔ e ∈ p.edges.getD [] ∨ e ∈ itemEdges x) := by
  cases x with
  | node n =>
    refine ⟨nodup_addKey hn n, he, fun m => ?_, fun e => ?_⟩
    · simp [Sym.add, Sym.addNode, mem_addKey, itemNodes]
    · simp [Sym.add, Sym.addNode, itemEdges]
  | edge e =>
    refine ⟨hn, nodup_addKey he e, fun m => ?_, fun e => ?_⟩
    · simp [Sym.add, itemNodes]
    · simp [Sym.add, mem_addKey, itemEdges]
  | path q =>
    have := addKeys q.path he
    refine ⟨hn, this.1, fun m => ?_, fun e => ?_⟩
    · simp [Sym.add, Sym.addPath, itemNodes]
    · exact this.2 e
  | other =>
    refine ⟨hn, he, fun m => ?_, fun e => ?_⟩ <;> simp [Sym.add, itemNodes, itemEdges]

theorem Sym.adds_spec (xs : List SymItem) : ∀ (p : Sym), (p.nodes.getD []).Nodup → (p.edges.getD []).Nodup →
    ((xs.foldl Sym.add p).nodes.getD []).Nodup ∧ ((xs.foldl Sym.add p).edges.getD []).Nodup ∧
    (∀ n, n ∈ (xs.foldl Sym.add p).nodes.getD [] ↔ n ∈ p.nodes.getD [] ∨ ∃ x ∈ xs, n ∈ itemNodes x) ∧
    (∀ e, e ∈ (xs.foldl Sym.add p).edges.getD [] ↔ e ∈ p.edges.getD [] ∨ ∃ x ∈ xs, e ∈ itemEdges x) := by
  induction xs with
  | nil => intro p hn he; exact ⟨hn, he, fun n => by simp, fun e => by simp⟩
  | cons x xs ih =>
    intro p hn he
    obtain ⟨a1, a2, a3, a4⟩ := Sym.add_spec p x hn he
    obtain ⟨b1, b2, b3, b4⟩ := ih (p.add x) a1 a2
    refine ⟨b1, b2, fun n => ?_, fun e => ?_⟩
    · rw [List.foldl_cons, b3, a3]; grind
    · rw [List.foldl_cons, b4, a4]; grind

theorem Sym.adds_nil (xs : List SymItem) : ∀ (p : Sym),
    ((xs.foldl Sym.add p).nodes.isSome ↔ p.nodes.isSome ∨ ∃ n, .node n ∈ xs) ∧
    ((xs.foldl Sym.add p).edges.isSome ↔ p.edges.isSome ∨ (∃ e, .edge e ∈ xs) ∨ ∃ q, .path q ∈ xs) := by
  induction xs with
  | nil => intro p; simp
  | cons x xs ih =>
    intro p
    rw [List.foldl_cons, (ih _).1, (ih _).2]
    cases x <;> simp [Sym.add, Sym.addNode, Sym.addPath]

/-- A symbol to which no node was added has no slice of nodes, and one to which neither an edge nor a path was added has no
path of edges; one to which a path without edges was added has one without edges. -/
theorem C53_symbol_nil (xs : List SymItem) :
    ((xs.foldl Sym.add {}).nodeSlice = none ↔ ∀ n, .node n ∉ xs) ∧
    ((xs.foldl Sym.add {}).edgeSlice = none ↔ (∀ e, .edge e ∉ xs) ∧ ∀ q, .path q ∉ xs) := by
  obtain ⟨h1, h2⟩ := Sym.adds_nil xs {}
  constructor
  · have : ∀ o : Option (List Nat), o = none ↔ ¬ o.isSome := by intro o; cases o <;> simp
    rw [Sym.nodeSlice, this, h1]; simp
  · have : ∀ o : Option (List Nat), (o.map (fun es => ({ path := es.map (fun e => ⟨e, false⟩) } : Path))) = none ↔
        ¬ o.isSome := by intro o; cases o <;> simp
    rw [Sym.edgeSlice, this, h2]; simp

example : ([.edge 5, .other].foldl Sym.add {}).nodeSlice = none ∧
    (([.path {}].foldl Sym.add {}).edgeSlice.map (·.path)) = some [] := by decide +kernel

/-- What a symbol returns after any additions: `NodeSlice` the nodes that were added and `EdgeSlice` the edges that were added
alone or in paths, once each and forward. -/
theorem C53_symbol (xs : List SymItem) :
    (((xs.foldl Sym.add {}).nodeSlice.getD []).Nodup ∧
      ∀ n, n ∈ (xs.foldl Sym.add {}).nodeSlice.getD [] ↔ ∃ x ∈ xs, n ∈ itemNodes x) ∧
    ((((xs.foldl Sym.add {}).edgeSlice.getD {}).path.map (·.edge)).Nodup ∧
      ∀ pe, pe ∈ ((xs.foldl Sym.add {}).edgeSlice.getD {}).path ↔ pe.reverse = false ∧ ∃ x ∈ xs, pe.edge ∈ itemEdges x) := by
  obtain ⟨b1, b2, b3, b4⟩ := Sym.adds_spec xs {} (by simp) (by simp)
  have hp : ((xs.foldl Sym.add {}).edgeSlice.getD {}).path =
      ((xs.foldl Sym.add {}).edges.getD []).map (fun e => ⟨e, false⟩) := by
    unfold Sym.edgeSlice
    cases (xs.foldl Sym.add {}).edges <;> rfl
  refine ⟨⟨b1, fun n => ?_⟩, ?_, fun pe => ?_⟩
  · have := b3 n
    simpa [Sym.nodeSlice] using this
  · rw [hp, List.map_map]
    have : ((fun x : PathElement => x.edge) ∘ fun e => (⟨e, false⟩ : PathElement)) = id := rfl
    rw [this, List.map_id]
    exact b2
  · rw [hp, List.mem_map]
    constructor
    · rintro ⟨e, he, rfl⟩
      have := (b4 e).1 he
      exact ⟨rfl, by simpa using this⟩
    · rintro ⟨h1, h2⟩
      refine ⟨pe.edge, (b4 pe.edge).2 (Or.inr h2), ?_⟩
      cases pe
      simp_all

example : (([.edge 5, .path { path := [⟨4, true⟩, ⟨5, false⟩] }, .node 1].foldl Sym.add {}).edgeSlice.map (·.path) =
    some [⟨5, false⟩, ⟨4, false⟩]) := by decide +kernel

end LPG

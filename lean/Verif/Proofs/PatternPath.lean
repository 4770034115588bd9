import Verif.Proofs.PatternReport
/-!
# The path of a report
-/
namespace LPG
namespace Pat
open VPath

theorem linked_append {g : Ends} : ∀ {xs ys : List PathElement} {a b : Nat},
    Linked g a (xs ++ ys) b ↔ ∃ c, Linked g a xs c ∧ Linked g c ys b
  | [], ys, a, b => by simp [Linked]
  | x :: xs, ys, a, b => by
    simp only [List.cons_append, Linked, linked_append (xs := xs)]
    constructor
    · rintro ⟨h1, c, h2, h3⟩; exact ⟨c, ⟨h1, h2⟩, h3⟩
    · rintro ⟨c, ⟨h1, h2⟩, h3⟩; exact ⟨h1, c, h2, h3⟩

theorem linked_congr {g g' : Ends} : ∀ {es : List PathElement} {a b : Nat},
    (∀ pe ∈ es, g.src pe.edge = g'.src pe.edge ∧ g.dst pe.edge = g'.dst pe.edge) → (Linked g a es b ↔ Linked g' a es b)
  | [], a, b, _ => Iff.rfl
  | pe :: es, a, b, h => by
    have ih := fun a => linked_congr (es := es) (a := a) (b := b) (fun pe' h' => h pe' (by simp [h']))
    obtain ⟨h1, h2⟩ := h pe (by simp)
    simp only [Linked, ih]
    unfold PathElement.getSourceNode PathElement.getTargetNode
    rw [h1, h2]

theorem linked_last {g : Ends} : ∀ {es : List PathElement} {a b : Nat}, Linked g a es b → es ≠ [] →
    es.getLast?.map (fun pe => pe.getTargetNode g) = some b
  | [], _, _, _, h => absurd rfl h
  | [pe], a, b, h, _ => by
    have := h.2
    simp only [Linked] at this
    simp [this]
  | pe :: pe' :: es, a, b, h, _ => by
    rw [List.getLast?_cons_cons]
    exact linked_last h.2 (by simp)

theorem last_append {g : Ends} {xs ys : List PathElement} (h : ys ≠ []) :
    (xs ++ ys).getLast?.map (fun pe => pe.getTargetNode g) = ys.getLast?.map (fun pe => pe.getTargetNode g) := by
  rw [List.getLast?_append]
  obtain ⟨l, hl⟩ : ∃ l, ys.getLast? = some l := ⟨_, List.getLast?_eq_some_getLast h⟩
  rw [hl]; rfl

theorem linked_ok {g : Ends} : ∀ {es : List PathElement} {a b : Nat}, Linked g a es b → Path.linked g (some a) es = true
  | [], _, _, _ => rfl
  | pe :: es, a, b, ⟨h1, h2⟩ => by
    unfold Path.linked
    rw [if_neg (by simp [h1])]
    exact linked_ok h2

theorem numNodes_of {es : List PathElement} : ({ path := es } : Path).numNodes = if es = [] then 0 else es.length + 1 := by
  unfold Path.numNodes Path.numEdges
  simp

theorem append_ok {g : Ends} {xs ys : List PathElement} {b c : Nat} (h1 : xs ≠ [] → xs.getLast?.map (fun pe => pe.getTargetNode g) = some b)
    (h2 : Linked g b ys c) : ({ path := xs } : Path).append g ys = .ok { path := xs ++ ys } := by
  unfold Path.append
  cases ys with
  | nil => simp
  | cons y ys =>
    by_cases hx : xs = []
    · subst hx
      simp [numNodes_of]
    · have hl : ({ path := xs } : Path).last g = some b := h1 hx
      have hn : ({ path := xs } : Path).numNodes ≠ 0 := by rw [numNodes_of, if_neg hx]; omega
      simp only
      rw [if_neg hn, hl, if_neg (by simp [h2.1]), linked_ok h2]
      rfl

theorem appendPath_ok {g : Ends} {xs ys : List PathElement} {b c : Nat} (h1 : xs ≠ [] → xs.getLast?.map (fun pe => pe.getTargetNode g) = some b)
    (h2 : Linked g b ys c) : ({ path := xs } : Path).appendPath g { path := ys } = .ok ({ path := xs ++ ys }, { path := ys }) := by
  unfold Path.appendPath
  by_cases hx : xs = []
  · subst hx
    simp [numNodes_of]
  · have hpos : 0 < xs.length := List.length_pos_iff.2 hx
    simp only
    rw [if_neg (by rw [numNodes_of, if_neg hx]; omega), if_neg (by rw [numNodes_of, if_neg hx]; omega)]
    by_cases hy : ys = []
    · subst hy
      rw [if_pos (by simp [numNodes_of])]
      simp
    · have hpos : 0 < ys.length := List.length_pos_iff.2 hy
      rw [if_neg (by rw [numNodes_of, if_neg hy]; omega), if_neg (by rw [numNodes_of, if_neg hy]; omega), append_ok h1 h2]

/-- the values of consecutive items, from the node `a` to the node `b`, with the steps of the paths -/
def Chain (g : Ends) : Nat → List (Option Res) → Nat → List PathElement → Prop
  | a, [], b, es => a = b ∧ es = []
  | a, some (.node n) :: rs, b, es => n = a ∧ Chain g a rs b es
  | a, some (.path q) :: rs, b, es => q.only = none ∧ ∃ c es', Linked g a q.path c ∧ q.path ≠ [] ∧ Chain g c rs b es' ∧
      es = q.path ++ es'
  | _, none :: _, _, _ => False

theorem chain_linked {g : Ends} : ∀ {rs : List (Option Res)} {a b : Nat} {es : List PathElement}, Chain g a rs b es → Linked g a es b
  | [], a, b, es, ⟨h1, h2⟩ => by subst h2; exact h1
  | some (.node n) :: rs, a, b, es, h => chain_linked h.2
  | some (.path q) :: rs, a, b, es, ⟨_, c, es', h1, _, h2, h3⟩ => by
    rw [h3, linked_append]; exact ⟨c, h1, chain_linked h2⟩
  | none :: _, _, _, _, h => h.elim

theorem appendPaths_chain {g : Ends} : ∀ {rs : List (Option Res)} {a b : Nat} {es xs : List PathElement}, Chain g a rs b es →
    (xs ≠ [] → xs.getLast?.map (fun pe => pe.getTargetNode g) = some a) →
    appendPaths g rs { path := xs } = some { path := xs ++ es }
  | [], a, b, es, xs, ⟨h1, h2⟩, _ => by subst h2; simp [appendPaths]
  | some (.node n) :: rs, a, b, es, xs, h, hx => by
    simp only [appendPaths]
    exact appendPaths_chain h.2 hx
  | some (.path q) :: rs, a, b, es, xs, ⟨h0, c, es', h1, h2, h3, h4⟩, hx => by
    simp only [appendPaths]
    have hq : q = { path := q.path } := by cases q; simp only at h0; rw [h0]
    rw [hq, appendPath_ok hx h1]
    simp only
    rw [appendPaths_chain h3 (fun _ => ?_), h4, List.append_assoc]
    rw [last_append h2]
    exact linked_last h1 h2
  | none :: _, _, _, _, _, h, _ => h.elim

def turn (pe : PathElement) : PathElement := ⟨pe.edge, !pe.reverse⟩

theorem turn_source {g : Ends} {pe : PathElement} : (turn pe).getSourceNode g = pe.getTargetNode g := by
  unfold turn PathElement.getSourceNode PathElement.getTargetNode
  cases pe.reverse <;> rfl

theorem turn_target {g : Ends} {pe : PathElement} : (turn pe).getTargetNode g = pe.getSourceNode g := by
  unfold turn PathElement.getSourceNode PathElement.getTargetNode
  cases pe.reverse <;> rfl

/-- the same for paths of one step that are read backwards -/
def BChain (g : Ends) : Nat → List (Option Res) → Nat → List PathElement → Prop
  | a, [], b, es => a = b ∧ es = []
  | a, some (.node n) :: rs, b, es => n = a ∧ BChain g a rs b es
  | a, some (.path q) :: rs, b, es => q.only = none ∧ ∃ pe es', q.path = [pe] ∧ pe.getTargetNode g = a ∧
      BChain g (pe.getSourceNode g) rs b es' ∧ es = turn pe :: es'
  | _, none :: _, _, _ => False

theorem bchain_linked {g : Ends} : ∀ {rs : List (Option Res)} {a b : Nat} {es : List PathElement}, BChain g a rs b es → Linked g a es b
  | [], a, b, es, ⟨h1, h2⟩ => by subst h2; exact h1
  | some (.node n) :: rs, a, b, es, h => bchain_linked h.2
  | some (.path q) :: rs, a, b, es, ⟨_, pe, es', h1, h2, h3, h4⟩ => by
    rw [h4]
    exact ⟨by rw [turn_source]; exact h2, by rw [turn_target]; exact bchain_linked h3⟩
  | none :: _, _, _, _, h => h.elim

theorem appendReversed_chain {g : Ends} : ∀ {rs : List (Option Res)} {a b : Nat} {es xs : List PathElement}, BChain g a rs b es →
    (xs ≠ [] → xs.getLast?.map (fun pe => pe.getTargetNode g) = some a) →
    appendReversed g rs { path := xs } = some { path := xs ++ es } ∧
      (xs ++ es ≠ [] → (xs ++ es).getLast?.map (fun pe => pe.getTargetNode g) = some b)
  | [], a, b, es, xs, ⟨h1, h2⟩, hx => by subst h2; subst h1; simpa [appendReversed] using hx
  | some (.node n) :: rs, a, b, es, xs, h, hx => by
    simp only [appendReversed]
    exact appendReversed_chain h.2 hx
  | some (.path q) :: rs, a, b, es, xs, ⟨h0, pe, es', h1, h2, h3, h4⟩, hx => by
    simp only [appendReversed]
    rw [h1]
    simp only
    have hl : Linked g a [turn pe] (pe.getSourceNode g) := ⟨by rw [turn_source]; exact h2, turn_target⟩
    have := append_ok hx hl
    unfold turn at this
    rw [this]
    simp only
    have ih := appendReversed_chain (xs := xs ++ [turn pe]) h3 (fun _ => by
      rw [last_append (by simp)]
      exact linked_last hl (by simp))
    rw [h4]
    unfold turn at ih ⊢
    simpa using ih
  | none :: _, _, _, _, _, h, _ => h.elim

/-! ## The values of an assignment -/

theorem match_edges_append : ∀ {M M' : Match}, Match.edges (M ++ M') = Match.edges M ++ Match.edges M'
  | [], M' => rfl
  | .node _ :: M, M' => by simp only [List.cons_append, Match.edges]; exact match_edges_append
  | .trail es :: M, M' => by simp only [List.cons_append, Match.edges, List.append_assoc]; rw [match_edges_append]

/-- the values of the items from `i` on -/
def segment (index : Nat) (ρ : Asg) (i m : Nat) : Match := (List.range' i m).map (fun j => valOf index j (ρ j))

section
variable {ops : List Op} (hv : Spec.ValidHistory ops) {s : State} (hs : run ops = some s)
variable {symbols : Symbols} {p : Pattern} {xs : List Nat} {index : Nat} {ρ : Asg}
include hv hs

theorem leg_linked {q : Item} {d : State.Dir} {a : Nat} {es : List PathElement} (h : IsLeg (Spec.run ops) q d a es) :
    Linked s.ends a es (endOf (Spec.run ops).ends a es) := by
  have L := legsOf_ok hv hs
  rw [linked_congr (g' := (Spec.run ops).ends) (fun pe hpe => L.ends _ (h.2.2.1 pe hpe).1)]
  exact rides_linked h.2.2.2.1

theorem fwd_chain (E : Fair (Spec.run ops) symbols p xs index) (G : Good (Spec.run ops) symbols p xs index ρ) :
    ∀ (m i a : Nat), i + m = p.length → index ≤ i → (i % 2 = 1 → index < i ∧ ρ (i - 1) = some (.node a)) →
      (i % 2 = 0 → ρ i = some (.node a)) →
      ∃ b es, Chain s.ends a ((List.range' i m).map ρ) b es ∧ ρ (p.length - 1) = some (.node b) ∧
        es.map (·.edge) = Match.edges (segment index ρ i m) ∧ ∀ pe ∈ es, pe.edge ∈ (Spec.run ops).edges
  | 0, i, a, hm, hi, h1, h2 => by
    have hodd := E.odd
    refine ⟨a, [], ⟨rfl, rfl⟩, ?_, rfl, by simp⟩
    rw [show p.length - 1 = i - 1 by omega]
    exact (h1 (by omega)).2
  | m + 1, i, a, hm, hi, h1, h2 => by
    have hodd := E.odd
    unfold segment
    rw [List.range'_succ, List.map_cons, List.map_cons]
    by_cases he : i % 2 = 0
    · have hri := h2 he
      have hnext : i + 1 + m = p.length := by omega
      by_cases hlast : i + 1 < p.length
      · obtain ⟨b, es, k1, k2, k3, k4⟩ := fwd_chain E G m (i + 1) a hnext (by omega)
          (fun _ => ⟨by omega, by rw [show i + 1 - 1 = i by omega]; exact hri⟩) (fun h => by omega)
        refine ⟨b, es, ?_, k2, ?_, k4⟩
        · rw [hri]; exact ⟨rfl, k1⟩
        · rw [hri]; exact k3
      · have : m = 0 := by omega
        subst this
        refine ⟨a, [], ?_, ?_, ?_, by simp⟩
        · rw [hri]; exact ⟨rfl, rfl, rfl⟩
        · rw [show p.length - 1 = i by omega]; exact hri
        · rw [hri]; rfl
    · obtain ⟨hlt, hra⟩ := h1 (by omega)
      obtain ⟨a', ps, b', q1, q2, q3, q4, _, _⟩ := G.edge i (by omega) (by omega)
      rw [hra, Option.some.injEq, Res.node.injEq] at q1
      subst q1
      obtain ⟨w1, w2⟩ := q4 hlt
      obtain ⟨b, es, k1, k2, k3, k4⟩ := fwd_chain E G m (i + 1) b' (by omega) (by omega) (fun h => by omega) (fun _ => q3)
      refine ⟨b, ps ++ es, ?_, k2, ?_, ?_⟩
      · rw [q2]
        refine ⟨rfl, b', es, ?_, w1.1, k1, rfl⟩
        rw [← w2]; exact leg_linked hv hs w1
      · rw [q2]
        simp only [valOf, Match.edges, List.map_append]
        rw [if_neg (by omega), k3]
        rfl
      · intro pe hpe
        rcases List.mem_append.1 hpe with h | h
        · exact (w1.2.2.1 pe h).1
        · exact k4 pe h

theorem bwd_chain (E : Fair (Spec.run ops) symbols p xs index) (G : Good (Spec.run ops) symbols p xs index ρ) :
    ∀ (m i a : Nat), i + m = index → (∀ j, i ≤ j → j < index → j % 2 = 1 → (itemAt p j).max = 1) →
      (i % 2 = 1 → ρ (i - 1) = some (.node a)) → (i % 2 = 0 → ρ i = some (.node a)) →
      ∃ b es, BChain s.ends a ((List.range' i m).map ρ) b es ∧ ρ (if index % 2 = 0 then index else index - 1) = some (.node b) ∧
        es.map (·.edge) = Match.edges (segment index ρ i m) ∧ ∀ pe ∈ es, pe.edge ∈ (Spec.run ops).edges
  | 0, i, a, hm, _, h1, h2 => by
    refine ⟨a, [], ⟨rfl, rfl⟩, ?_, rfl, by simp⟩
    have : i = index := by omega
    subst this
    by_cases h : i % 2 = 0
    · rw [if_pos h]; exact h2 h
    · rw [if_neg h]; exact h1 (by omega)
  | m + 1, i, a, hm, hmax, h1, h2 => by
    have hodd := E.odd
    have hlt := E.lt
    unfold segment
    rw [List.range'_succ, List.map_cons, List.map_cons]
    by_cases he : i % 2 = 0
    · have hri := h2 he
      obtain ⟨b, es, k1, k2, k3, k4⟩ := bwd_chain E G m (i + 1) a (by omega) (fun j hj => hmax j (by omega))
        (fun _ => by rw [show i + 1 - 1 = i by omega]; exact hri) (fun h => by omega)
      refine ⟨b, es, ?_, k2, ?_, k4⟩
      · rw [hri]; exact ⟨rfl, k1⟩
      · rw [hri]; exact k3
    · have hra := h1 (by omega)
      obtain ⟨a', ps, b', q1, q2, q3, _, q4, _⟩ := G.edge i (by omega) (by omega)
      rw [hra, Option.some.injEq, Res.node.injEq] at q1
      subst q1
      obtain ⟨w1, w2⟩ := q4 (by omega)
      have hlen : ps.length = 1 := by
        have hl := w1.2.2.2.2
        unfold LengthOk at hl
        have h1 := hmax i (by omega) (by omega) (by omega)
        have : ps.length ≠ 0 := by simpa using w1.1
        omega
      obtain ⟨pe, rfl⟩ := List.length_eq_one_iff.1 hlen
      obtain ⟨b, es, k1, k2, k3, k4⟩ := bwd_chain E G m (i + 1) b' (by omega) (fun j hj => hmax j (by omega))
        (fun h => by omega) (fun _ => q3)
      have hl := leg_linked hv hs w1
      rw [w2] at hl
      refine ⟨b, turn pe :: es, ?_, k2, ?_, ?_⟩
      · rw [q2]
        refine ⟨rfl, pe, es, rfl, hl.2, ?_, rfl⟩
        rw [hl.1]; exact k1
      · rw [q2]
        simp only [valOf, Match.edges, List.map_cons, List.map_nil]
        rw [if_pos (by omega), k3]
        rfl
      · intro pe' hpe
        rcases List.mem_cons.1 hpe with rfl | h
        · exact (w1.2.2.1 pe (by simp)).1
        · exact k4 pe' h

omit hv hs in
/-- the values of the steps of a plan -/
theorem plan_values (h : index < p.length) :
    (thePlan p xs index).steps.map (fun st => ρ st.ix) =
      (List.range' index (p.length - index)).map ρ ++ (List.range index).reverse.map ρ := by
  unfold thePlan stepsOf order
  simp only [List.map_map, Function.comp_def, stepOf_ix]
  rw [show p.length - index = (p.length - (index + 1)) + 1 by omega, List.range'_succ]
  simp

omit hv hs in
theorem take_values (h : index < p.length) :
    ((thePlan p xs index).steps.map (fun st => ρ st.ix)).take ((thePlan p xs index).nForward + 1) =
      (List.range' index (p.length - index)).map ρ := by
  rw [plan_values h, List.take_append_of_le_length (by simp [thePlan]; omega), List.take_of_length_le (by simp [thePlan]; omega)]

omit hv hs in
theorem drop_values (h : index < p.length) :
    (((thePlan p xs index).steps.map (fun st => ρ st.ix)).drop (thePlan p xs index).nForward).reverse =
      (List.range index).map ρ ++ [ρ (p.length - 1)] := by
  rw [plan_values h, List.drop_append_of_le_length (by simp [thePlan]; omega)]
  have hd : ((List.range' index (p.length - index)).map ρ).drop (thePlan p xs index).nForward = [ρ (p.length - 1)] := by
    rw [← List.map_drop, List.drop_range']
    have e1 : index + (thePlan p xs index).nForward * 1 = p.length - 1 := by simp [thePlan]; omega
    have e2 : p.length - index - (thePlan p xs index).nForward = 1 := by simp [thePlan]; omega
    rw [e1, e2]
    rfl
  rw [hd, List.reverse_append, ← List.map_reverse, List.reverse_reverse]
  rfl

omit hv hs in
theorem appendReversed_node {g : Ends} : ∀ (rs : List (Option Res)) (q : Path) (n : Nat),
    appendReversed g (rs ++ [some (.node n)]) q = appendReversed g rs q
  | [], q, n => rfl
  | none :: rs, q, n => by simp only [List.cons_append, appendReversed]; exact appendReversed_node rs q n
  | some (.node _) :: rs, q, n => by simp only [List.cons_append, appendReversed]; exact appendReversed_node rs q n
  | some (.path w) :: rs, q, n => by
    simp only [List.cons_append, appendReversed]
    cases w.path with
    | nil => rfl
    | cons pe _ =>
      simp only
      cases q.append g [⟨pe.edge, !pe.reverse⟩] with
      | error _ => rfl
      | ok q' => exact appendReversed_node rs q' n

omit hv hs in
theorem currentPath_of {g : Ends} (hlt : index < p.length) (hone : p.length ≠ 1) {b : Nat} (hb : ρ (p.length - 1) = some (.node b))
    {out rev q : Path} (h1 : appendPaths g ((List.range' index (p.length - index)).map ρ) {} = some out)
    (h2 : appendReversed g ((List.range index).map ρ) {} = some rev) (h3 : rev.appendPath g out = .ok (q, out)) :
    currentPath g (thePlan p xs index) ρ = some q := by
  unfold currentPath
  simp only
  rw [take_values hlt, drop_values hlt, hb, appendReversed_node, h1, h2]
  simp only
  rw [h3]
  simp only
  have hlen : ((thePlan p xs index).steps.map (fun st => ρ st.ix)).length ≠ 1 := by
    rw [plan_values hlt]; simp; omega
  generalize (thePlan p xs index).steps.map (fun st => ρ st.ix) = rs at hlen
  split
  · simp at hlen
  · simp at hlen
  · simp at hlen
  · rfl

/-- the forward part -/
theorem out_path (E : Fair (Spec.run ops) symbols p xs index) (G : Good (Spec.run ops) symbols p xs index ρ)
    (hleft : index % 2 = 1 → itemDir (itemAt p index) = .outgoing) :
    ∃ a b es, ρ (if index % 2 = 0 then index else index - 1) = some (.node a) ∧
      Chain s.ends a ((List.range' index (p.length - index)).map ρ) b es ∧ ρ (p.length - 1) = some (.node b) ∧
      es.map (·.edge) = Match.edges (segment index ρ index (p.length - index)) ∧ ∀ pe ∈ es, pe.edge ∈ (Spec.run ops).edges := by
  have hlt := E.lt
  have hodd := E.odd
  by_cases he : index % 2 = 0
  · obtain ⟨a, ha, _⟩ := G.node index hlt he
    rw [if_pos he]
    obtain ⟨b, es, h⟩ := fwd_chain hv hs E G (p.length - index) index a (by omega) (by omega) (fun h => by omega) (fun _ => ha)
    exact ⟨a, b, es, ha, h⟩
  · rw [if_neg he]
    obtain ⟨a, ps, b', q1, q2, q3, _, _, q4⟩ := G.edge index hlt (by omega)
    obtain ⟨e, y1, rfl, y3, y4⟩ := q4 rfl
    rw [hleft (by omega)] at y4
    have hl := E.edges (by omega) e y1
    have L := legsOf_ok hv hs
    obtain ⟨b, es, k1, k2, k3, k4⟩ := fwd_chain hv hs E G (p.length - (index + 1)) (index + 1) b' (by omega) (by omega)
      (fun h => by omega) (fun _ => q3)
    refine ⟨a, b, ⟨e, false⟩ :: es, q1, ?_, k2, ?_, ?_⟩
    · rw [show p.length - index = (p.length - (index + 1)) + 1 by omega, List.range'_succ, List.map_cons, q2]
      refine ⟨rfl, b', es, ⟨?_, ?_⟩, by simp, k1, rfl⟩
      · exact (L.ends e hl).1.trans y4.1
      · exact (L.ends e hl).2.trans y4.2
    · unfold segment
      rw [show p.length - index = (p.length - (index + 1)) + 1 by omega, List.range'_succ, List.map_cons, List.map_cons, q2]
      simp only [valOf, Match.edges, List.map_cons, List.map_nil]
      rw [if_neg (by omega), k3]
      rfl
    · intro pe' hpe
      rcases List.mem_cons.1 hpe with rfl | h
      · exact hl
      · exact k4 pe' h

/-- Where the path of a report is the matched path: fixed lengths to the left of the start, and a start that is not an edge
that points to the left. -/
structure PathOk (p : Pattern) (index : Nat) : Prop where
  fixed : ∀ i, i < index → i % 2 = 1 → (itemAt p i).max = 1
  start : index % 2 = 1 → itemDir (itemAt p index) = .outgoing

theorem path_shows (E : Fair (Spec.run ops) symbols p xs index) (G : Good (Spec.run ops) symbols p xs index ρ)
    (hp : PathOk p index) :
    ∃ q, currentPath s.ends (thePlan p xs index) ρ = some q ∧
      PathShows (Spec.run ops).ends (matchOf index p.length ρ) q := by
  have hlt := E.lt
  have hodd := E.odd
  have L := legsOf_ok hv hs
  obtain ⟨c, b, es, o1, o2, o3, o4, o5⟩ := out_path hv hs E G hp.start
  obtain ⟨a, ha, _⟩ := G.node 0 (by omega) rfl
  obtain ⟨c', es', b1, b2, b3, b4⟩ := bwd_chain hv hs E G index 0 a (by omega) (fun j _ hj ho => hp.fixed j hj ho)
    (fun h => by omega) (fun _ => ha)
  rw [o1, Option.some.injEq, Res.node.injEq] at b2
  subst b2
  have hM : ∀ i, i < p.length → (matchOf index p.length ρ)[i]? = some (valOf index i (ρ i)) := fun i hi => matchOf_get hi
  have hhead : (matchOf index p.length ρ).head? = some (.node a) := by
    rw [List.head?_eq_getElem?, hM 0 (by omega), ha]; rfl
  have htail : (matchOf index p.length ρ).getLast? = some (.node b) := by
    rw [List.getLast?_eq_getElem?, matchOf_length, hM _ (by omega), o3]; rfl
  by_cases hone : p.length = 1
  · refine ⟨{ only := some a }, ?_, a, b, hhead, htail, fun _ => rfl, fun h => absurd (matchOf_length.trans hone) h⟩
    have hi : index = 0 := by omega
    subst hi
    have hrs := plan_values (xs := xs) (ρ := ρ) hlt
    rw [hone] at hrs
    unfold currentPath
    simp only
    rw [hrs]
    simp [ha]
  · have hrev := (appendReversed_chain (xs := []) b1 (by simp))
    have hfw := appendPaths_chain (xs := []) o2 (by simp)
    simp only [List.nil_append] at hrev hfw
    refine ⟨{ path := es' ++ es }, ?_, a, b, hhead, htail, fun h => ?_, fun _ => ⟨rfl, ?_, ?_⟩⟩
    · refine currentPath_of hlt hone o3 hfw ?_ (appendPath_ok (b := c) hrev.2 (chain_linked o2))
      rw [List.range_eq_range']; exact hrev.1
    · rw [matchOf_length] at h; exact absurd h hone
    · have hsplit : matchOf index p.length ρ = segment index ρ 0 index ++ segment index ρ index (p.length - index) := by
        unfold matchOf segment
        rw [← List.map_append, List.range_eq_range']
        congr 1
        have := List.range'_append_1 (s := 0) (m := index) (n := p.length - index)
        rw [Nat.zero_add, show index + (p.length - index) = p.length by omega] at this
        exact this.symm
      rw [hsplit, match_edges_append, List.map_append, b3, o4]
    · rw [linked_congr (g' := s.ends) (fun pe hpe => by
        rcases List.mem_append.1 hpe with h | h
        · exact ⟨(L.ends _ (b4 pe h)).1.symm, (L.ends _ (b4 pe h)).2.symm⟩
        · exact ⟨(L.ends _ (o5 pe h)).1.symm, (L.ends _ (o5 pe h)).2.symm⟩), linked_append]
      exact ⟨c, bchain_linked b1, chain_linked o2⟩

/-- Where building the path of a report does not panic. -/
structure PathSafe (p : Pattern) (index : Nat) : Prop where
  fixed : ∀ i, 3 ≤ i → i < index → i % 2 = 1 → (itemAt p i).max = 1
  start : index % 2 = 1 → itemDir (itemAt p index) = .outgoing ∨ p.length = 3

theorem path_safe (E : Fair (Spec.run ops) symbols p xs index) (G : Good (Spec.run ops) symbols p xs index ρ)
    (hp : PathSafe p index) : currentPath s.ends (thePlan p xs index) ρ ≠ none := by
  have hlt := E.lt
  have hodd := E.odd
  by_cases hst : index % 2 = 1 → itemDir (itemAt p index) = .outgoing
  · by_cases hone : p.length = 1
    · obtain ⟨q, hq, _⟩ := path_shows hv hs E G ⟨fun i hi => by omega, hst⟩
      rw [hq]; simp
    obtain ⟨c, b, es, o1, o2, o3, o4, o5⟩ := out_path hv hs E G hst
    have hfw : appendPaths s.ends ((List.range' index (p.length - index)).map ρ) {} = some { path := es } := by
      simpa using appendPaths_chain (xs := []) o2 (by simp)
    suffices hrev : ∃ es', appendReversed s.ends ((List.range index).map ρ) {} = some { path := es' } ∧
        (es' ≠ [] → es'.getLast?.map (fun pe => pe.getTargetNode s.ends) = some c) by
      obtain ⟨es', r1, r2⟩ := hrev
      rw [currentPath_of hlt hone o3 hfw r1 (appendPath_ok r2 (chain_linked o2))]
      simp
    obtain ⟨a, ha, _⟩ := G.node 0 (by omega) rfl
    by_cases h2 : index < 2
    · refine ⟨[], ?_, by simp⟩
      rcases (show index = 0 ∨ index = 1 by omega) with rfl | rfl
      · rfl
      · simp [ha, appendReversed]
    · obtain ⟨a', ps, b', q1, q2, q3, _, q4, _⟩ := G.edge 1 (by omega) (by omega)
      obtain ⟨w1, w2⟩ := q4 (by omega)
      obtain ⟨c', es', b1, b2, b3, b4⟩ := bwd_chain hv hs E G (index - 2) 2 b' (by omega)
        (fun j hj hj' ho => hp.fixed j (by omega) hj' ho) (fun h => by omega) (fun _ => q3)
      rw [o1, Option.some.injEq, Res.node.injEq] at b2
      subst b2
      have hl := leg_linked hv hs w1
      cases hps : ps with
      | nil => exact absurd hps w1.1
      | cons pe rest =>
        rw [hps] at hl q2
        have hr := appendReversed_chain (xs := [turn pe]) b1 (fun _ => by simp [turn_target, hl.1])
        refine ⟨_, ?_, hr.2⟩
        have hsp : (List.range index).map ρ = ρ 0 :: ρ 1 :: (List.range' 2 (index - 2)).map ρ := by
          rw [List.range_eq_range', show index = (index - 2) + 1 + 1 by omega, List.range'_succ, List.range'_succ]
          simp
        rw [hsp, ha, q2]
        simp only [appendReversed]
        have happ : ({} : Path).append s.ends [⟨pe.edge, !pe.reverse⟩] = .ok { path := [turn pe] } := by
          rfl
        rw [happ]
        exact hr.1
  · have ho : index % 2 = 1 := by
      apply Classical.byContradiction; intro h; exact hst (fun h' => absurd h' h)
    have hlen : p.length = 3 := by
      rcases hp.start ho with h | h
      · exact absurd (fun _ => h) hst
      · exact h
    have hi : index = 1 := by omega
    subst hi
    obtain ⟨a, ps, b, q1, q2, q3, _⟩ := G.edge 1 (by omega) (by omega)
    simp only [Nat.sub_self] at q1
    have h1 : appendPaths s.ends ((List.range' 1 (p.length - 1)).map ρ) {} = some { path := ps } := by
      rw [hlen]
      simp only [Nat.add_one_sub_one, List.range'_succ, List.range'_zero, List.map_cons, List.map_nil, q2, q3]
      simp only [appendPaths]
      have : ({} : Path).appendPath s.ends { path := ps } = .ok ({ path := ps }, { path := ps }) := by
        unfold Path.appendPath
        simp only
        rw [if_pos (by decide)]
      rw [this]
    have h2 : appendReversed s.ends ((List.range 1).map ρ) {} = some {} := by
      simp [List.range_succ, q1, appendReversed]
    have h3 : ({} : Path).appendPath s.ends { path := ps } = .ok ({ path := ps }, { path := ps }) := by
      unfold Path.appendPath
      simp only
      rw [if_pos (by decide)]
    rw [currentPath_of hlt (by omega) (by rw [hlen]; exact q3) h1 h2 h3]
    simp

end

end Pat
end LPG

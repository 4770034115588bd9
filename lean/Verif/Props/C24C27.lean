import Verif.Proofs.Path
import Verif.Proofs.Adj
import Verif.Spec.Graph
/-!
# C24-C27: paths

`Path.Built g p`: `p` is a path object that a program can get hold of. `visits` is the list of nodes of a path.
-/
namespace LPG
open Path

variable {g : Ends}

/-- A graph with three edges 10: 1→2, 11: 2→3, 12: 5→6. -/
def demoEnds : Ends := ⟨fun e => if e = 10 then 1 else if e = 11 then 2 else 5, fun e => if e = 10 then 2 else if e = 11 then 3 else 6⟩

deriving instance DecidableEq for Except

def fwd (e : Nat) : PathElement := ⟨e, false⟩

/-! ## C24 -/

/-- The counts: nothing for the empty path, one node and no edges for a single node, and otherwise one node more than
edges. -/
theorem C24_counts {p : Path} (h : Built g p) :
    (p.isEmpty = true ∧ p.numNodes = 0 ∧ p.numEdges = 0) ∨
    (p.isEmpty = false ∧ (∃ n, p.only = some n ∧ p.visits g = [n]) ∧ p.numNodes = 1 ∧ p.numEdges = 0) ∨
    (p.isEmpty = false ∧ p.only = none ∧ 0 < p.numEdges ∧ p.numNodes = p.numEdges + 1) := by
  rcases h.wf.cases with rfl | ⟨n, rfl⟩ | ⟨e, es, rfl⟩
  · exact Or.inl ⟨rfl, rfl, rfl⟩
  · exact Or.inr (Or.inl ⟨rfl, ⟨n, rfl, rfl⟩, rfl, rfl⟩)
  · exact Or.inr (Or.inr ⟨rfl, rfl, by simp [numEdges], by simp [numNodes, numEdges]⟩)

/-- `GetNode(i)` is the `i`th visited node and panics for every other index; there are `NumNodes` of them; `First` is
`GetNode(0)` and `Last` is `GetNode(NumNodes-1)`. -/
theorem C24_nodes {p : Path} (h : Built g p) :
    (∀ i : Nat, p.getNode g i = (p.visits g)[i]?) ∧ (∀ i : Int, i < 0 → p.getNode g i = none) ∧
    p.numNodes = (p.visits g).length ∧ p.first g = p.getNode g 0 ∧
    (p.numNodes ≠ 0 → p.last g = p.getNode g (p.numNodes - 1 : Nat)) := by
  have hn : ∀ i : Nat, p.getNode g i = (p.visits g)[i]? := by
    intro i
    rcases h.wf.cases with rfl | ⟨n, rfl⟩ | ⟨e, es, rfl⟩
    · cases i <;> simp [getNode, first, visits]
    · cases i with
      | zero => simp [getNode, first, visits]
      | succ i => simp [getNode, visits]; omega
    · cases i with
      | zero => simp [getNode, first, visits]
      | succ i =>
        have h1 : ((i + 1 : Nat) : Int) ≠ 0 := by omega
        have h2 : ¬ ((i + 1 : Nat) : Int) - 1 < 0 := by omega
        have h3 : (((i + 1 : Nat) : Int) - 1).toNat = i := by omega
        simp only [getNode, if_neg h1, if_neg h2, h3, visits]
        rw [List.getElem?_cons_succ, List.getElem?_map]
  refine ⟨hn, fun i hi => ?_, visits_length, ?_, fun h0 => ?_⟩
  · simp only [getNode, if_neg (show ¬ i = 0 by omega), if_pos (show i - 1 < 0 by omega)]
  · rw [show (0 : Int) = ((0 : Nat) : Int) from rfl, hn, first_eq, List.head?_eq_getElem?]
  · rw [hn, last_eq, List.getLast?_eq_getElem?, visits_length (g := g)]

/-- `GetEdge(i)` is the edge of the `i`th step, nil behind the last one. -/
theorem C24_edges {p : Path} (h : Built g p) (i : Nat) : p.getEdge i = some ((p.path[i]?).map (·.edge)) := by
  rcases h.wf.cases with rfl | ⟨n, rfl⟩ | ⟨e, es, rfl⟩
  · simp [getEdge]
  · simp [getEdge]
  · simp only [getEdge]
    split
    · rw [if_neg (by omega)]; simp
    · rename_i hi
      rw [List.getElem?_eq_none (by omega)]; rfl

/-- `GetEdge` with a negative number panics, unless the path is only a node: then the answer is nil for every number. -/
theorem C24_edges_negative {p : Path} (i : Int) (hi : i < 0) : (p.only = none → p.getEdge i = none) ∧
    (p.only ≠ none → p.getEdge i = some none) := by
  constructor
  · intro h
    rw [getEdge, h]
    simp only [if_pos (show i < (p.path.length : Int) by omega), if_pos hi]
  · intro h
    obtain ⟨n, hn⟩ := Option.ne_none_iff_exists'.1 h
    rw [getEdge, hn]

example : getEdge {} (-1) = none ∧ getEdge { only := some 3 } (-1) = some none :=
  ⟨(C24_edges_negative _ (by decide)).1 rfl, (C24_edges_negative _ (by decide)).2 (by simp)⟩

/-- In a connected path the `i`th step leads from the `i`th node to the next one. -/
theorem C24_steps {p : Path} (hc : Connected g p.path) (ho : p.only = none) (i : Nat) (hi : i < p.path.length) :
    (p.visits g)[i]? = some (p.path[i].getSourceNode g) ∧ (p.visits g)[i + 1]? = some (p.path[i].getTargetNode g) := by
  obtain ⟨o, es⟩ := p
  simp only at ho hi hc ⊢
  subst ho
  cases es with
  | nil => simp at hi
  | cons e es =>
    have h2 : ((Path.visits g { only := none, path := e :: es }))[i + 1]? = some ((e :: es)[i].getTargetNode g) := by
      simp only [visits, List.getElem?_cons_succ, List.getElem?_map, List.getElem?_eq_getElem hi, Option.map_some]
    refine ⟨?_, h2⟩
    cases i with
    | zero => simp [visits]
    | succ i =>
      have := hc i hi
      simp only [visits, List.getElem?_cons_succ, List.getElem?_map,
        List.getElem?_eq_getElem (show i < (e :: es).length by omega), Option.map_some, this]

/-- `Append` on a path that is not empty: it panics unless the first step begins at the last node and the steps are
connected, and otherwise the steps are added at the end. -/
theorem C24_append {p : Path} (h : Built g p) (hp : p.visits g ≠ []) (e : PathElement) (es : List PathElement) :
    (p.last g = some (e.getSourceNode g) ∧ Connected g (e :: es) →
      p.append g (e :: es) = .ok { only := none, path := p.path ++ e :: es }) ∧
    (¬ (p.last g = some (e.getSourceNode g) ∧ Connected g (e :: es)) → ∃ q, p.append g (e :: es) = .error q) := by
  have h0 : p.numNodes ≠ 0 := by rw [visits_length (g := g)]; simpa using hp
  have hl := linked_iff (g := g) (es := e :: es) (l := p.last g)
  simp only [List.head?_cons, Option.mem_def, Option.some.injEq, forall_eq'] at hl
  constructor
  · rintro ⟨h1, h2⟩
    simp only [append, if_neg h0, h1]
    rw [if_neg (by simp), if_pos]
    rw [h1] at hl
    exact hl.2 ⟨rfl, h2⟩
  · intro hn
    simp only [append, if_neg h0]
    split
    · exact ⟨_, rfl⟩
    · rw [if_neg]
      · exact ⟨_, rfl⟩
      · intro hh
        obtain ⟨a, b⟩ := hl.1 hh
        exact hn ⟨a.symm, b⟩

/-- `Append` with nothing to append does nothing. -/
theorem C24_append_nil (p : Path) : p.append g [] = .ok p := rfl

/-- `Append` on the empty path takes the steps without a check. -/
theorem C24_append_empty {p : Path} (h : Built g p) (hp : p.visits g = []) (es : List PathElement) :
    p.append g es = .ok { only := none, path := es } := by
  rcases h.wf.cases with rfl | ⟨n, rfl⟩ | ⟨e, es, rfl⟩
  · cases es <;> rfl
  · simp [visits] at hp
  · simp [visits] at hp

/-- The paths built by `Append` and the functions that make a path from a path. -/
inductive ByAppend (g : Ends) : Path → Prop
  | zero : ByAppend g {}
  | node (n : Nat) : ByAppend g { only := some n, path := [] }
  | append {p q : Path} {es : List PathElement} : ByAppend g p → p.append g es = .ok q → ByAppend g q
  | slice {p q : Path} {s e : Int} : ByAppend g p → p.slice g s e = some q → ByAppend g q
  | removeLast {p : Path} (s : State) : ByAppend g p → ByAppend g (p.removeLast s).2
  | removeFirst {p : Path} (s : State) : ByAppend g p → ByAppend g (p.removeFirst s).2

/-- C24 is false: on the empty path `Append` accepts two steps that have no node in common. -/
theorem C24_false : ∃ p, ByAppend demoEnds p ∧ ¬ Connected demoEnds p.path :=
  ⟨{ only := none, path := [fwd 10, fwd 12] }, .append (es := [fwd 10, fwd 12]) .zero rfl, fun h => by
    have := h 0 (by simp)
    revert this
    decide⟩

/-- The same with the condition that only a connected list is appended to the empty path; a single step is connected. -/
inductive ByCheckedAppend (g : Ends) : Path → Prop
  | zero : ByCheckedAppend g {}
  | node (n : Nat) : ByCheckedAppend g { only := some n, path := [] }
  | append {p q : Path} {es : List PathElement} : ByCheckedAppend g p → (p.visits g = [] → Connected g es) →
      p.append g es = .ok q → ByCheckedAppend g q
  | slice {p q : Path} {s e : Int} : ByCheckedAppend g p → p.slice g s e = some q → ByCheckedAppend g q
  | removeLast {p : Path} (s : State) : ByCheckedAppend g p → ByCheckedAppend g (p.removeLast s).2
  | removeFirst {p : Path} (s : State) : ByCheckedAppend g p → ByCheckedAppend g (p.removeFirst s).2

theorem ByCheckedAppend.built {p : Path} (h : ByCheckedAppend g p) : Built g p := by
  induction h with
  | zero => exact .zero
  | node n => exact .node (n := some n) rfl
  | append _ _ h ih => exact .append ih h
  | slice _ h ih => exact .slice ih h
  | removeLast s _ ih => exact .removeLast s ih
  | removeFirst s _ ih => exact .removeFirst s ih

theorem slice_infix {p q : Path} {s e : Int} (h : p.slice g s e = some q) : q.path <:+: p.path := by
  unfold Path.slice at h
  split at h
  · cases h
  · split at h
    · cases h; exact List.nil_infix
    · split at h
      · cases h
      · simp only at h
        generalize (if e > (p.numNodes : Int) ∨ e = -1 then (p.numNodes : Int) else e) = e' at h
        split at h
        · cases h
        · split at h
          · split at h
            · cases h
            · obtain ⟨x, _, rfl⟩ := Option.map_eq_some_iff.1 h
              exact List.nil_infix
          · split at h
            · cases h; exact List.nil_infix
            · split at h
              · cases h
              · cases h
                exact (List.take_prefix _ _).isInfix.trans (List.drop_suffix _ _).isInfix

/-- Consecutive steps of a path built by `Append` are connected. Missing: a list appended to the empty path is not
checked, see `C24_false`. -/
theorem C24_connected_partial {p : Path} (h : ByCheckedAppend g p) : Connected g p.path := by
  induction h with
  | zero => exact connected_nil
  | node n => exact connected_nil
  | append hp hc ha ih =>
    rename_i p q es
    by_cases h0 : p.visits g = []
    · rw [C24_append_empty hp.built h0] at ha
      cases ha
      exact hc h0
    · cases es with
      | nil => cases ha; exact ih
      | cons e es =>
        obtain ⟨h1, h2⟩ := C24_append hp.built h0 e es
        by_cases hh : p.last g = some (e.getSourceNode g) ∧ Connected g (e :: es)
        · rw [h1 hh] at ha
          cases ha
          refine connected_append.2 ⟨ih, hh.2, fun x hx y hy => ?_⟩
          simp only [List.head?_cons, Option.mem_def, Option.some.injEq] at hy
          subst hy
          have hl := hh.1
          cases ho : p.only with
          | some n => have := hp.built.wf (by simp [ho]); rw [this] at hx; cases hx
          | none =>
            simp only [Path.last, ho] at hl
            rw [Option.mem_def.1 hx] at hl
            exact Option.some.inj hl
        · obtain ⟨q', hq⟩ := h2 hh
          rw [hq] at ha; cases ha
  | slice _ h ih => exact connected_sub (slice_infix h) ih
  | removeLast s _ ih =>
    rename_i p _
    unfold Path.removeLast
    split
    · exact ih
    · split
      · exact ih
      · exact connected_sub (List.dropLast_prefix _).isInfix ih
  | removeFirst s _ ih =>
    rename_i p _
    unfold Path.removeFirst
    split
    · exact ih
    · split
      · exact ih
      · rename_i hp
        rw [hp] at ih
        exact connected_sub (List.suffix_cons _ _).isInfix ih

/-- a path of three nodes built by two calls, and a call that panics -/
example : ({} : Path).append demoEnds [fwd 10] = .ok { path := [fwd 10] } ∧
    Path.append demoEnds { path := [fwd 10] } [fwd 11] = .ok { path := [fwd 10, fwd 11] } ∧
    Path.append demoEnds { path := [fwd 10] } [fwd 12] = .error { path := [fwd 10] } ∧
    Path.visits demoEnds { path := [fwd 10, fwd 11] } = [1, 2, 3] ∧
    Path.visits demoEnds { path := [⟨11, true⟩, ⟨10, true⟩] } = [3, 2, 1] := by decide

/-! ## C25 -/

/-- What `AppendPath` should do. -/
def AppendPathRight (g : Ends) (p q : Path) : Prop :=
  match p.join g q with
  | some r => p.appendPath g q = .ok (r, q)
  | none => ∃ p', p.appendPath g q = .error (p', q)

/-- C25 is false, in five ways: a single node appended to the empty path is dropped; a single node followed by the
empty path is dropped; a single node followed by itself is dropped; a single node followed by a path that begins
elsewhere is accepted; a path followed by a single node elsewhere is accepted, and the argument loses its node. -/
theorem C25_false :
    ¬ AppendPathRight demoEnds {} { only := some 1 } ∧
    ¬ AppendPathRight demoEnds { only := some 1 } {} ∧
    ¬ AppendPathRight demoEnds { only := some 1 } { only := some 1 } ∧
    ¬ AppendPathRight demoEnds { only := some 7 } { path := [fwd 10] } ∧
    ¬ AppendPathRight demoEnds { path := [fwd 10] } { only := some 7 } := by
  refine ⟨?_, ?_, ?_, ?_, ?_⟩
  · show ¬ (Path.appendPath demoEnds {} { only := some 1 } = .ok ({ only := some 1 }, { only := some 1 })); decide
  · show ¬ (Path.appendPath demoEnds { only := some 1 } {} = .ok ({ only := some 1 }, {})); decide
  · show ¬ (Path.appendPath demoEnds { only := some 1 } { only := some 1 } = .ok ({ only := some 1 }, { only := some 1 })); decide
  · rintro ⟨p', h⟩
    have : Path.appendPath demoEnds { only := some 7 } { path := [fwd 10] } = .ok ({ path := [fwd 10] }, { path := [fwd 10] }) := by decide
    rw [this] at h; cases h
  · rintro ⟨p', h⟩
    have : Path.appendPath demoEnds { path := [fwd 10] } { only := some 7 } = .ok ({ path := [fwd 10] }, {}) := by decide
    rw [this] at h; cases h

/-- `AppendPath` concatenates, panics when the paths are disconnected, and leaves its argument alone, if the argument is
not a single node, and a receiver that is a single node gets a path that begins there. Missing: the other cases, see
`C25_false`. -/
theorem C25_partial {p q : Path} (hp : Built g p) (hq : Built g q) (cq : Connected g q.path) (hs : q.only = none)
    (h1 : p.only ≠ none → q.first g = p.only) : AppendPathRight g p q := by
  unfold AppendPathRight
  rcases hp.wf.cases with rfl | ⟨n, rfl⟩ | ⟨e, es, rfl⟩
  · rcases hq.wf.cases with rfl | ⟨m, rfl⟩ | ⟨f, fs, rfl⟩
    · rfl
    · cases hs
    · rfl
  · rcases hq.wf.cases with rfl | ⟨m, rfl⟩ | ⟨f, fs, rfl⟩
    · have := h1 (by simp); simp [Path.first] at this
    · cases hs
    · have := h1 (by simp)
      simp only [Path.first, List.head?_cons, Option.map_some] at this
      simp only [join, visits, List.getLast?_singleton, List.head?_cons, this]
      rfl
  · rcases hq.wf.cases with rfl | ⟨m, rfl⟩ | ⟨f, fs, rfl⟩
    · simp [join, visits, appendPath, numNodes, numEdges]
    · cases hs
    · have hv : Path.visits g { only := none, path := e :: es } ≠ [] := by simp [visits]
      have hw : Path.visits g { only := none, path := f :: fs } ≠ [] := by simp [visits]
      obtain ⟨a, b⟩ := C24_append (p := { only := none, path := e :: es }) hp hv f fs
      have hap : Path.appendPath g { only := none, path := e :: es } { only := none, path := f :: fs } =
          match Path.append g { only := none, path := e :: es } (f :: fs) with
          | .ok p => .ok (p, { only := none, path := f :: fs })
          | .error p => .error (p, { only := none, path := f :: fs }) := by
        simp [appendPath, numNodes, numEdges]
        rfl
      have hh : (Path.visits g { only := none, path := f :: fs }).head? = some (f.getSourceNode g) := by simp [visits]
      rw [last_eq] at a b
      simp only [join, if_neg hv, if_neg hw, hh]
      split
      · rename_i r hr
        split at hr
        · rename_i hc
          cases hr
          rw [hap, a ⟨hc, cq⟩]
          rfl
        · cases hr
      · rename_i hr
        split at hr
        · cases hr
        · rename_i hc
          obtain ⟨x, hx⟩ := b (fun h => hc h.1)
          exact ⟨x, by rw [hap, hx]⟩

example : AppendPathRight demoEnds { only := some 1 } { path := [fwd 10, fwd 11] } ∧
    Path.join demoEnds { path := [fwd 10] } { path := [fwd 11] } = some { path := [fwd 10, fwd 11] } ∧
    Path.join demoEnds { path := [fwd 10] } { path := [fwd 12] } = none := by
  refine ⟨C25_partial (.node (n := some 1) rfl) (.elements [fwd 10, fwd 11]) ?_ rfl (by decide), by decide, by decide⟩
  rw [connected_cons]; exact ⟨by decide, connected_single _⟩

/-! ## C26 -/

/-- `Slice(s,e)` for `0 ≤ s < e ≤ NumNodes` with at least two nodes, or with the last node only: the nodes `s` to `e-1`
and the steps between them. Missing: `Slice(s,s+1)` for a node that is not the last one, see `C26_slice_false`. -/
theorem C26_slice_partial {p : Path} (h : Built g p) (hc : Connected g p.path) {s e : Nat} (hse : s < e)
    (he : e ≤ p.numNodes) (h2 : s + 2 ≤ e ∨ s + 1 = p.numNodes) :
    ∃ q, p.slice g s e = some q ∧ q.visits g = ((p.visits g).drop s).take (e - s) ∧
      q.path = (p.path.drop s).take (e - s - 1) := by
  have h0 : p.numNodes ≠ 0 := by omega
  have hl := visits_length (g := g) (p := p)
  by_cases hs : s + 1 = p.numNodes
  · have hee : e = s + 1 := by omega
    subst hee
    refine ⟨{ only := p.last g, path := [] }, ?_, ?_, by simp⟩
    · unfold Path.slice
      have hE : (if ((s + 1 : Nat) : Int) > (p.numNodes : Int) ∨ ((s + 1 : Nat) : Int) = -1 then (p.numNodes : Int)
          else ((s + 1 : Nat) : Int)) = ((s + 1 : Nat) : Int) := if_neg (by omega)
      rw [if_neg h0, if_neg (by omega), if_neg (by omega)]
      simp only [hE]
      rw [if_neg (by omega), if_neg (by omega), if_pos (by omega)]
    · rw [last_eq, List.getLast?_eq_getElem?, ← hl, show p.numNodes - 1 = s by omega]
      have hs' : s < (p.visits g).length := by omega
      rw [List.getElem?_eq_getElem hs', List.drop_eq_getElem_cons hs', show s + 1 - s = 0 + 1 by omega,
        List.take_succ_cons, List.take_zero]
      rfl
  · have h3 : s + 2 ≤ e := by omega
    have ho : p.only = none := by
      cases ho : p.only with
      | none => rfl
      | some n => simp [numNodes, ho] at he; omega
    have hn : p.numNodes = p.path.length + 1 := by
      unfold numNodes at h0 ⊢
      rw [ho] at h0 ⊢
      simp only [numEdges] at h0 ⊢
      by_cases hh : p.path.length = 0
      · simp [hh] at h0
      · exact if_neg hh
    refine ⟨{ only := none, path := (p.path.drop s).take (e - s - 1) }, ?_, ?_, rfl⟩
    · unfold Path.slice
      have hE : (if (e : Int) > (p.numNodes : Int) ∨ (e : Int) = -1 then (p.numNodes : Int) else (e : Int)) = (e : Int) :=
        if_neg (by omega)
      rw [if_neg h0, if_neg (by omega), if_neg (by omega)]
      simp only [hE]
      rw [if_neg (by omega), if_neg (by omega), if_neg (by omega), if_neg (by omega)]
      simp only [Int.toNat_natCast, Option.some.injEq, Path.mk.injEq, true_and]
      congr 1
      omega
    · rw [visits_drop hc (by omega) (by omega)]
      rw [show e - s - 1 + 1 = e - s by omega]
      congr 2
      obtain ⟨o, es⟩ := p
      simp only at ho
      rw [ho]

/-- An end index beyond the path, and -1, stand for the end of the path. -/
theorem C26_slice_clamp {p : Path} {s e : Int} (he : e > p.numNodes ∨ e = -1) :
    p.slice g s e = p.slice g s p.numNodes := by
  unfold Path.slice
  by_cases h0 : p.numNodes = 0
  · rw [if_pos h0, if_pos h0]
  · have e1 : (if e > (p.numNodes : Int) ∨ e = -1 then (p.numNodes : Int) else e) = p.numNodes := if_pos he
    have e2 : (if (p.numNodes : Int) > (p.numNodes : Int) ∨ (p.numNodes : Int) = -1 then (p.numNodes : Int)
        else (p.numNodes : Int)) = p.numNodes := by split <;> rfl
    simp only [e1, e2]
    rw [if_neg h0, if_neg h0, if_neg (show ¬ (s = 0 ∧ e = 0) by omega),
      if_neg (show ¬ (s = 0 ∧ (p.numNodes : Int) = 0) by omega)]

/-- C26 is false: `Slice(0,1)` of a path with one edge is the empty path, not its first node. -/
theorem C26_slice_false : Path.numNodes { path := [fwd 10] } = 2 ∧
    Path.slice demoEnds { path := [fwd 10] } 0 1 = some {} ∧
    Path.visits demoEnds ({} : Path) ≠ ((Path.visits demoEnds { path := [fwd 10] }).drop 0).take (1 - 0) := by decide

/-- `HasPrefix(es)` on a path with edges: the steps `es` are the first steps of the path. Missing: on the empty path and
on a single node it is false even for the empty list, see `C26_hasPrefix_false`. -/
theorem C26_hasPrefix_partial {p : Path} (hp : 2 ≤ p.numNodes) (es : List PathElement) :
    p.hasPrefix es = true ↔ es <+: p.path := by
  have loop : ∀ (xs ys : List PathElement), xs.length ≤ ys.length → (prefixLoop xs ys = true ↔ xs <+: ys) := by
    intro xs
    induction xs with
    | nil => intro ys _; simp [prefixLoop]
    | cons x xs ih =>
      intro ys hy
      cases ys with
      | nil => simp at hy
      | cons y ys =>
        rw [prefixLoop, List.cons_prefix_cons]
        split
        · rename_i hne; simp; intro h; exact absurd h hne
        · rename_i hne
          simp only [ne_eq, Decidable.not_not] at hne
          rw [ih ys (by simpa using hy)]
          simp [hne]
  unfold hasPrefix
  rw [if_neg (by omega)]
  split
  · rename_i h0; simp [List.length_eq_zero_iff.1 h0]
  · split
    · rename_i h1
      simp only [Bool.false_eq_true, false_iff]
      intro h
      have := h.length_le
      simp only [numEdges] at h1; omega
    · rename_i h1
      exact loop _ _ (by simp only [numEdges] at h1; omega)

theorem C26_hasPrefix_false : Path.hasPrefix {} [] = false ∧ Path.hasPrefix { only := some 1 } [] = false ∧
    ([] : List PathElement) <+: [] := by decide

/-- `HasPrefixPath(q)` holds exactly when `q` is an initial segment of the path. -/
theorem C26_hasPrefixPath {p q : Path} (hp : Built g p) (hq : Built g q) :
    p.hasPrefixPath g q = true ↔ q.InitialSegment g p := by
  rcases hp.wf.cases with rfl | ⟨n, rfl⟩ | ⟨e, es, rfl⟩ <;>
  rcases hq.wf.cases with rfl | ⟨m, rfl⟩ | ⟨f, fs, rfl⟩
  · simp [hasPrefixPath, numNodes, numEdges, InitialSegment, visits]
  · simp [hasPrefixPath, numNodes, numEdges, InitialSegment, visits]
  · simp [hasPrefixPath, numNodes, numEdges, InitialSegment, visits]
  · simp [hasPrefixPath, numNodes, numEdges, InitialSegment, visits]
  · simp [hasPrefixPath, numNodes, InitialSegment, visits]; exact eq_comm
  · simp [hasPrefixPath, numNodes, numEdges, InitialSegment]
  · simp [hasPrefixPath, numNodes, numEdges, InitialSegment, visits]
  · simp [hasPrefixPath, numNodes, numEdges, InitialSegment, visits, Path.first]; exact eq_comm
  · have h1 : Path.hasPrefixPath g { only := none, path := e :: es } { only := none, path := f :: fs } =
        Path.hasPrefix { only := none, path := e :: es } (f :: fs) := by
      simp [hasPrefixPath, numNodes, numEdges]
    rw [h1, C26_hasPrefix_partial (by simp [numNodes, numEdges])]
    refine ⟨fun h => ⟨?_, h⟩, fun h => h.2⟩
    obtain ⟨r, hr⟩ := h
    simp only [List.cons_append, List.cons.injEq] at hr
    obtain ⟨rfl, rfl⟩ := hr
    simp only [visits, List.map_cons, List.map_append, List.cons_prefix_cons, true_and]
    exact List.prefix_append _ _

example : Path.slice demoEnds { path := [fwd 10, fwd 11] } 1 3 = some { path := [fwd 11] } ∧
    Path.slice demoEnds { path := [fwd 10, fwd 11] } 2 (-1) = some { only := some 3 } ∧
    Path.hasPrefixPath demoEnds { path := [fwd 10, fwd 11] } { only := some 1 } = true ∧
    Path.hasPrefixPath demoEnds { path := [fwd 10, fwd 11] } { path := [fwd 11] } = false := by decide

/-! ## C27 -/

/-- `RemoveLast` and `RemoveFirst` drop a step; a single node becomes the empty path. Missing: the graph loses the edge,
and a path with one edge becomes empty instead of a single node, see `C27_false`. -/
theorem C27_partial {p : Path} (h : Built g p) (s : State) :
    (p.removeLast s).2.path = p.path.dropLast ∧ (p.removeFirst s).2.path = p.path.tail ∧
    (p.removeLast s).2.only = none ∧ (p.removeFirst s).2.only = none ∧
    (p.numEdges ≠ 1 → (p.removeLast s).2.visits g = (p.visits g).dropLast) ∧
    (p.numEdges ≠ 1 → Connected g p.path → (p.removeFirst s).2.visits g = (p.visits g).tail) ∧
    (p.path = [] → (p.removeLast s).1 = s ∧ (p.removeFirst s).1 = s) := by
  rcases h.wf.cases with rfl | ⟨n, rfl⟩ | ⟨e, es, rfl⟩
  · simp [Path.removeLast, Path.removeFirst, visits]
  · simp [Path.removeLast, Path.removeFirst, visits]
  · have hl : (e :: es).getLast? = some ((e :: es).getLast (by simp)) := List.getLast?_eq_some_getLast (by simp)
    have h1 : Path.removeLast s { only := none, path := e :: es } =
        (s.removeEdge ((e :: es).getLast (by simp)).edge, { only := none, path := (e :: es).dropLast }) := by
      simp only [Path.removeLast, hl]
    have h2 : Path.removeFirst s { only := none, path := e :: es } = (s.removeEdge e.edge, { only := none, path := es }) := rfl
    rw [h1, h2]
    refine ⟨rfl, rfl, rfl, rfl, fun hn => ?_, fun hn hc => ?_, fun hn => by cases hn⟩
    · cases es with
      | nil => simp [numEdges] at hn
      | cons f fs => simp [visits, List.map_dropLast]
    · cases es with
      | nil => simp [numEdges] at hn
      | cons f fs =>
        have := (connected_cons.1 hc).1
        simp [visits, this]

/-- Both remove the edge from the graph, as a call of `Edge.Remove` does. -/
theorem C27_removes_edge {p : Path} (s : State) (hp : p.only = none) :
    (∀ e, p.path.getLast? = some e → step s (.removeEdge e.edge) = some (p.removeLast s).1) ∧
    (∀ e, p.path.head? = some e → step s (.removeEdge e.edge) = some (p.removeFirst s).1) := by
  constructor
  · intro e he
    simp only [Path.removeLast, hp, he]
    rfl
  · intro e he
    cases hpp : p.path with
    | nil => rw [hpp] at he; cases he
    | cons f fs =>
      rw [hpp] at he; cases he
      simp only [Path.removeFirst, hp, hpp]
      rfl

/-- two nodes and the edge 2 between them -/
def edgeOps : List Op := [.newNode [] [], .newNode [] [], .newEdge 0 1 "e" []]

/-- C27 is false: `RemoveLast` and `RemoveFirst` delete the edge from the graph, a path with one edge becomes empty
instead of its source node, and `PopFromPath` does not move the cursor. -/
theorem C27_false : Spec.ValidHistory edgeOps ∧
    (run edgeOps).bind (fun s => s.getEdges) = some [2] ∧
    (run edgeOps).bind (fun s => (Path.removeLast s { path := [fwd 2] }).1.getEdges) = some [] ∧
    (run edgeOps).bind (fun s => (Path.removeFirst s { path := [fwd 2] }).1.getEdges) = some [] ∧
    (run edgeOps).map (fun s => (Path.removeLast s { path := [fwd 2] }).2) = some {} ∧
    ((run edgeOps).bind (fun s => Cursor.popFromPath s { node := some 1, path := some { path := [fwd 2] } })).bind
      (fun r => r.2.node) = some 1 := by decide +kernel

/-- `PopFromPath` leaves the cursor where it is, on every path. It drops the last edge from the path and removes it from
the graph, as a call of `Edge.Remove` does. -/
theorem C27_pop {s s' : State} {c c' : Cursor} (h : c.popFromPath s = some (s', c')) : c'.node = c.node ∧
    ∃ p p', c.getPath = some p ∧ c'.getPath = some p' ∧ (p.only = none → p'.only = none ∧ p'.path = p.path.dropLast ∧
      ∀ e, p.path.getLast? = some e → step s (.removeEdge e.edge) = some s') := by
  unfold Cursor.popFromPath at h
  split at h
  · cases h
  · rename_i p hp
    cases h
    refine ⟨rfl, p, _, hp, rfl, fun ho => ?_⟩
    refine ⟨?_, ?_, fun e he => (C27_removes_edge s ho).1 e he⟩ <;> simp only [Path.removeLast, ho] <;>
      split <;> rename_i hl
    · exact ho
    · rfl
    · rw [List.getLast?_eq_none_iff.1 hl]; rfl
    · rfl

example : ((run edgeOps).bind (fun s => Cursor.popFromPath s { node := some 1, path := some { path := [fwd 2] } })).bind
    (fun r => r.1.getEdges) = some [] := by decide +kernel

example : (run edgeOps).map (fun s => (Path.removeLast s { path := [fwd 10, fwd 2] }).2) = some { path := [fwd 10] } := by
  decide +kernel

end LPG

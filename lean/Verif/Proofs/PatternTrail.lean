import Verif.Proofs.Times
import Verif.Spec.Pattern
import Verif.Props.C28
import Verif.Props.C12C16
/-!
# The trails found for an edge item
-/
namespace LPG
open Pat VPath

/-- The steps lead away from `v` one after the other in direction `d`, with the marks that the search puts on them. -/
def Rides (g : Ends) (d : State.Dir) : Nat → List PathElement → Prop
  | _, [] => True
  | v, pe :: es => Leads g d pe.edge v ∧ Oriented g (some v) pe ∧ Rides g d (pe.getTargetNode g) es

/-- where the steps end -/
def endOf (g : Ends) : Nat → List PathElement → Nat
  | v, [] => v
  | _, pe :: es => endOf g (pe.getTargetNode g) es

theorem rides_iff {g : Ends} {d : State.Dir} : ∀ {es : List PathElement} {v : Nat},
    Rides g d v es ↔ (∀ pe ∈ es.head?, Leads g d pe.edge v ∧ Oriented g (some v) pe) ∧
      ∀ i (h : i + 1 < es.length), Leads g d es[i + 1].edge (es[i].getTargetNode g) ∧
        Oriented g (some (es[i].getTargetNode g)) es[i + 1]
  | [], v => by simp [Rides]
  | pe :: es, v => by
    rw [Rides, rides_iff (es := es)]
    constructor
    · rintro ⟨h1, h2, h3, h4⟩
      refine ⟨fun x hx => ?_, fun i h => ?_⟩
      · simp only [List.head?_cons, Option.mem_def, Option.some.injEq] at hx
        subst hx; exact ⟨h1, h2⟩
      · cases i with
        | zero =>
          cases es with
          | nil => simp at h
          | cons x xs => exact h3 x rfl
        | succ i => exact h4 i (by simpa using h)
    · rintro ⟨h1, h2⟩
      refine ⟨(h1 pe rfl).1, (h1 pe rfl).2, fun x hx => ?_, fun i h => ?_⟩
      · cases es with
        | nil => cases hx
        | cons y ys =>
          simp only [List.head?_cons, Option.mem_def, Option.some.injEq] at hx
          subst hx
          exact h2 0 (by simp)
      · exact h2 (i + 1) (by simpa using h)

theorem trail_rides {g : Ends} {live : List Nat} {f : Nat → Bool} {d : State.Dir} {v : Nat} {first : List Nat}
    (hf : ∀ e, e ∈ first ↔ e ∈ live ∧ f e = true ∧ Leads g d e v) {es : List PathElement} :
    IsTrail g live f d (some v) first es ↔
      es ≠ [] ∧ (es.map (·.edge)).Nodup ∧ (∀ pe ∈ es, pe.edge ∈ live ∧ f pe.edge = true) ∧ Rides g d v es := by
  unfold IsTrail
  rw [rides_iff]
  constructor
  · rintro ⟨h1, h2, h3, h4⟩
    refine ⟨h1, h2, fun pe hpe => ?_, fun pe hpe => ?_, fun i h => ⟨(h4 i h).2.2.1, (h4 i h).2.2.2⟩⟩
    · obtain ⟨i, hi, rfl⟩ := List.getElem_of_mem hpe
      cases i with
      | zero =>
        have := (hf _).1 (h3 es[0] (by simp [List.head?_eq_getElem?, List.getElem?_eq_getElem hi])).1
        exact ⟨this.1, this.2.1⟩
      | succ i => exact ⟨(h4 i hi).1, (h4 i hi).2.1⟩
    · obtain ⟨a, b⟩ := h3 pe hpe
      exact ⟨((hf _).1 a).2.2, b⟩
  · rintro ⟨h1, h2, h3, h4, h5⟩
    refine ⟨h1, h2, fun pe hpe => ⟨(hf _).2 ?_, (h4 pe hpe).2⟩, fun i h => ?_⟩
    · obtain ⟨a, b⟩ := h3 pe (List.mem_of_mem_head? hpe)
      exact ⟨a, b, (h4 pe hpe).1⟩
    · obtain ⟨a, b⟩ := h3 es[i + 1] (List.getElem_mem _)
      exact ⟨a, b, h5 i h⟩

theorem rides_linked {g : Ends} {d : State.Dir} : ∀ {es : List PathElement} {v : Nat}, Rides g d v es →
    Linked g v es (endOf g v es)
  | [], v, _ => rfl
  | pe :: es, v, ⟨h1, h2, h3⟩ => by
    refine ⟨?_, rides_linked h3⟩
    have := orient_source (g := g) h1
    rwa [← oriented_unique h2] at this

theorem along_of_step {g : Ends} {d : State.Dir} {v : Nat} {pe : PathElement} (h1 : Leads g d pe.edge v)
    (h2 : Oriented g (some v) pe) : Along g d v pe.edge (pe.getTargetNode g) := by
  unfold Oriented at h2
  unfold PathElement.getTargetNode
  cases d <;> simp only [Leads, Along] at h1 ⊢ <;> simp only [Option.some.injEq] at h2 <;> grind

theorem step_of_along {g : Ends} {d : State.Dir} {v e w : Nat} (h : Along g d v e w) :
    Leads g d e v ∧ (orient g (some v) e).getTargetNode g = w := by
  unfold orient PathElement.getTargetNode
  cases d <;> simp only [Leads, Along] at h ⊢ <;> simp only [Option.some.injEq] <;> grind

theorem rides_joins {g : Ends} {d : State.Dir} : ∀ {es : List PathElement} {v : Nat}, Rides g d v es →
    Joins g d v (es.map (·.edge)) (endOf g v es)
  | [], v, _ => rfl
  | _ :: _, _, ⟨h1, h2, h3⟩ => ⟨_, along_of_step h1 h2, rides_joins h3⟩

/-- the marks are determined by the edges and the node where they start -/
def ride (g : Ends) : Nat → List Nat → List PathElement
  | _, [] => []
  | v, e :: es => orient g (some v) e :: ride g ((orient g (some v) e).getTargetNode g) es

theorem ride_edges {g : Ends} : ∀ {es : List Nat} {v : Nat}, (ride g v es).map (·.edge) = es
  | [], v => rfl
  | e :: es, v => by simp only [ride, List.map_cons, ride_edges (es := es)]; rfl

theorem rides_unique {g : Ends} {d : State.Dir} : ∀ {es : List PathElement} {v : Nat}, Rides g d v es →
    es = ride g v (es.map (·.edge))
  | [], v, _ => rfl
  | pe :: es, v, ⟨_, h2, h3⟩ => by
    simp only [List.map_cons, ride]
    rw [← oriented_unique h2, ← rides_unique h3]

theorem rides_ride {g : Ends} {d : State.Dir} : ∀ {es : List Nat} {v w : Nat}, Joins g d v es w →
    Rides g d v (ride g v es) ∧ endOf g v (ride g v es) = w
  | [], v, w, h => ⟨trivial, h⟩
  | e :: es, v, w, ⟨c, h1, h2⟩ => by
    obtain ⟨a, b⟩ := step_of_along h1
    obtain ⟨k1, k2⟩ := rides_ride h2
    simp only [ride, Rides, endOf, b]
    exact ⟨⟨a, orient_oriented, k1⟩, k2⟩

theorem ride_ne {g : Ends} {v : Nat} {es : List Nat} (h : es ≠ []) : ride g v es ≠ [] := by
  cases es with
  | nil => exact absurd rfl h
  | cons => simp [ride]

theorem ride_length {g : Ends} {v : Nat} {es : List Nat} : (ride g v es).length = es.length := by
  have := congrArg List.length (ride_edges (g := g) (v := v) (es := es))
  simpa using this

/-! ## Reversal -/

/-- the same edges, read from the other side -/
def flipDir : State.Dir → State.Dir
  | .outgoing => .incoming
  | .incoming => .outgoing
  | .any => .any

theorem along_flip {g : Ends} {d : State.Dir} {a e b : Nat} : Along g (flipDir d) b e a ↔ Along g d a e b := by
  cases d <;> simp only [flipDir, Along] <;> grind

theorem joins_append {g : Ends} {d : State.Dir} : ∀ {xs ys : List Nat} {a b : Nat},
    Joins g d a (xs ++ ys) b ↔ ∃ c, Joins g d a xs c ∧ Joins g d c ys b
  | [], ys, a, b => by simp [Joins]
  | x :: xs, ys, a, b => by
    simp only [List.cons_append, Joins, joins_append]
    constructor
    · rintro ⟨c, h1, e, h2, h3⟩; exact ⟨e, ⟨c, h1, h2⟩, h3⟩
    · rintro ⟨e, ⟨c, h1, h2⟩, h3⟩; exact ⟨c, h1, e, h2, h3⟩

theorem joins_reverse {g : Ends} {d : State.Dir} : ∀ {xs : List Nat} {a b : Nat},
    Joins g (flipDir d) b xs.reverse a ↔ Joins g d a xs b
  | [], a, b => by simp [Joins, eq_comm]
  | x :: xs, a, b => by
    rw [List.reverse_cons, joins_append]
    simp only [Joins]
    constructor
    · rintro ⟨c, h1, e, h2, rfl⟩
      exact ⟨c, along_flip.1 h2, joins_reverse.1 h1⟩
    · rintro ⟨c, h1, h2⟩
      exact ⟨c, joins_reverse.2 h2, a, along_flip.2 h1, rfl⟩

theorem joins_congr {g g' : Ends} {d : State.Dir} : ∀ {es : List Nat} {a b : Nat},
    (∀ e ∈ es, g.src e = g'.src e ∧ g.dst e = g'.dst e) → (Joins g d a es b ↔ Joins g' d a es b)
  | [], a, b, _ => Iff.rfl
  | e :: es, a, b, h => by
    obtain ⟨h1, h2⟩ := h e (by simp)
    simp only [Joins]
    have : ∀ c, Joins g d c es b ↔ Joins g' d c es b := fun c => joins_congr (fun x hx => h x (by simp [hx]))
    simp only [this]
    have : ∀ c, Along g d a e c ↔ Along g' d a e c := by
      intro c; unfold Along; rw [h1, h2]
    simp only [this]

theorem joins_live {σ : Spec} {d : State.Dir} (hends : ∀ e ∈ σ.edges, σ.src e ∈ σ.nodes ∧ σ.dst e ∈ σ.nodes) :
    ∀ {es : List Nat} {a b : Nat}, Joins σ.ends d a es b → es ≠ [] → (∀ e ∈ es, e ∈ σ.edges) → a ∈ σ.nodes ∧ b ∈ σ.nodes
  | [], _, _, _, h, _ => absurd rfl h
  | e :: es, a, b, ⟨c, h1, h2⟩, _, hl => by
    obtain ⟨k1, k2⟩ := hends e (hl e (by simp))
    have hac : a ∈ σ.nodes ∧ c ∈ σ.nodes := by
      unfold Along at h1
      cases d <;> simp only [Spec.ends] at h1 <;> grind
    cases es with
    | nil => exact ⟨hac.1, h2 ▸ hac.2⟩
    | cons e' es => exact ⟨hac.1, (joins_live hends h2 (by simp) (fun e he => hl e (by simp [he]))).2⟩

/-! ## The legs -/

/-- the trails that the search should find for the item from the node `n` in direction `d` -/
def IsLeg (σ : Spec) (p : Item) (d : State.Dir) (n : Nat) (es : List PathElement) : Prop :=
  es ≠ [] ∧ (es.map (·.edge)).Nodup ∧ (∀ pe ∈ es, pe.edge ∈ σ.edges ∧ σ.EdgeMatches p.labels p.props pe.edge) ∧
  Rides σ.ends d n es ∧ LengthOk p.min p.max es.length

/-- no edge that satisfies the item begins and ends at the same node -/
def NoLoop (σ : Spec) (p : Item) : Prop := ∀ e ∈ σ.edges, σ.EdgeMatches p.labels p.props e → σ.src e ≠ σ.dst e

/-- the body of the loops of `iterateConnectedEdges.Run` -/
def visitLeg (s : State) (symbols : Symbols) (st : Step) (next : Run → Out) (es : List PathElement) (r : Run) : Out :=
  if st.item.min = 1 ∧ st.item.max = 1 then visit symbols st next (.path { path := es }) r
  else (visitVar s symbols st next (some (none, r)) { path := es }).2

theorem forEach_map {α β : Type} (f : α → β) (body : β → Run → Out) : ∀ (xs : List α) (r : Run),
    forEach (fun x => body (f x)) xs r = forEach body (xs.map f) r
  | [], r => rfl
  | x :: xs, r => by
    simp only [forEach, List.map_cons]
    cases body (f x) r with
    | none => rfl
    | some o =>
      obtain ⟨e, r'⟩ := o
      cases e with
      | none => exact forEach_map f body xs r'
      | some e => rfl

theorem runStop_visitVar (s : State) (symbols : Symbols) (st : Step) (next : Run → Out) : ∀ (ps : List Path) (r : Run),
    (runStop (visitVar s symbols st next) (some (none, r)) ps).2 =
      forEach (fun p r => (visitVar s symbols st next (some (none, r)) p).2) ps r
  | [], r => rfl
  | p :: ps, r => by
    simp only [runStop, forEach]
    cases hv : visitVar s symbols st next (some (none, r)) p with
    | mk b o =>
      unfold visitVar at hv
      simp only at hv
      split at hv
      · cases hv; rfl
      · cases hv; rfl
      · cases hv
        simp only [if_true]
        exact runStop_visitVar s symbols st next ps _

theorem any_spec {ops : List Op} (hv : Spec.ValidHistory ops) {s : State} (hs : run ops = some s) {n : Nat}
    (hn : n ∈ (Spec.run ops).nodes) (p : Item) (hl : p.labels.Nodup) (d : State.Dir) :
    ∃ es, s.nodeEdgesWithAnyLabel n p.labels d = some es ∧
      (∀ e, e ∈ es.filter (p.edgeOk s) ↔ e ∈ (Spec.run ops).edges ∧
        (Spec.run ops).EdgeMatches p.labels p.props e ∧ Leads (Spec.run ops).ends d e n) ∧
      ((d = .any → NoLoop (Spec.run ops) p) → (es.filter (p.edgeOk s)).Nodup) ∧
      (∀ e ∈ es.filter (p.edgeOk s), times e (es.filter (p.edgeOk s)) =
        if d = .any ∧ (Spec.run ops).src e = (Spec.run ops).dst e then 2 else 1) := by
  have c := Core.run hv hs
  obtain ⟨outs, ins, h1, h2, h3, h4, h5⟩ := C06_any ops hv s hs n hn p.labels hl
  have hok : ∀ e ∈ (Spec.run ops).edges, (p.edgeOk s e = true ↔ (Spec.run ops).EdgeMatches p.labels p.props e) :=
    fun e he => edgeFilter_spec c he p.labels p.props
  have no : outs.Nodup := h4.nodup_iff.2 (c.eNodup.filter _)
  have ni : ins.Nodup := h5.nodup_iff.2 (c.eNodup.filter _)
  have mo : ∀ e, e ∈ outs ↔ e ∈ (Spec.run ops).edges ∧ (Spec.run ops).src e = n ∧
      (p.labels = [] ∨ (Spec.run ops).label e ∈ p.labels) := by
    intro e; rw [h4.mem_iff, List.mem_filter, decide_eq_true_eq]
  have mi : ∀ e, e ∈ ins ↔ e ∈ (Spec.run ops).edges ∧ (Spec.run ops).dst e = n ∧
      (p.labels = [] ∨ (Spec.run ops).label e ∈ p.labels) := by
    intro e; rw [h5.mem_iff, List.mem_filter, decide_eq_true_eq]
  cases d
  · refine ⟨ins, h2, fun e => ?_, fun _ => ni.filter _, fun e he => by rw [times_nodup (ni.filter _) he]; simp⟩
    rw [List.mem_filter, mi]
    constructor
    · rintro ⟨⟨a, b, _⟩, h⟩; exact ⟨a, (hok e a).1 h, b⟩
    · rintro ⟨a, b, h⟩; exact ⟨⟨a, h, b.1⟩, (hok e a).2 b⟩
  · refine ⟨ins ++ outs, h3, fun e => ?_, fun h => ?_, fun e he => ?_⟩
    · rw [List.mem_filter, List.mem_append, mi, mo]
      constructor
      · rintro ⟨⟨a, b, _⟩ | ⟨a, b, _⟩, h⟩
        · exact ⟨a, (hok e a).1 h, Or.inr b⟩
        · exact ⟨a, (hok e a).1 h, Or.inl b⟩
      · rintro ⟨a, b, h | h⟩
        · exact ⟨Or.inr ⟨a, h, b.1⟩, (hok e a).2 b⟩
        · exact ⟨Or.inl ⟨a, h, b.1⟩, (hok e a).2 b⟩
    · rw [List.filter_append, List.nodup_append]
      refine ⟨ni.filter _, no.filter _, ?_⟩
      rintro x hx y hy rfl
      rw [List.mem_filter, mi] at hx
      rw [List.mem_filter, mo] at hy
      exact h rfl x hx.1.1 ((hok x hx.1.1).1 hx.2) (hy.1.2.1.trans hx.1.2.1.symm)
    · rw [List.filter_append] at he ⊢
      rw [times_append]
      have ti : times e (ins.filter (p.edgeOk s)) = if (Spec.run ops).dst e = n then 1 else 0 := by
        split
        · rename_i hd
          refine times_nodup (ni.filter _) (List.mem_filter.2 ⟨(mi e).2 ?_, ?_⟩)
          · rcases List.mem_append.1 he with he | he
            · exact (mi e).1 (List.mem_filter.1 he).1
            · have := (mo e).1 (List.mem_filter.1 he).1; exact ⟨this.1, hd, this.2.2⟩
          · rcases List.mem_append.1 he with he | he <;> exact (List.mem_filter.1 he).2
        · rename_i hd
          exact times_zero (fun h => hd ((mi e).1 (List.mem_filter.1 h).1).2.1)
      have to' : times e (outs.filter (p.edgeOk s)) = if (Spec.run ops).src e = n then 1 else 0 := by
        split
        · rename_i hd
          refine times_nodup (no.filter _) (List.mem_filter.2 ⟨(mo e).2 ?_, ?_⟩)
          · rcases List.mem_append.1 he with he | he
            · have := (mi e).1 (List.mem_filter.1 he).1; exact ⟨this.1, hd, this.2.2⟩
            · exact (mo e).1 (List.mem_filter.1 he).1
          · rcases List.mem_append.1 he with he | he <;> exact (List.mem_filter.1 he).2
        · rename_i hd
          exact times_zero (fun h => hd ((mo e).1 (List.mem_filter.1 h).1).2.1)
      rw [ti, to']
      have hor : (Spec.run ops).dst e = n ∨ (Spec.run ops).src e = n := by
        rcases List.mem_append.1 he with he | he
        · exact .inl ((mi e).1 (List.mem_filter.1 he).1).2.1
        · exact .inr ((mo e).1 (List.mem_filter.1 he).1).2.1
      by_cases h1 : (Spec.run ops).dst e = n <;> by_cases h2 : (Spec.run ops).src e = n <;> simp [h1, h2] <;> grind
  · refine ⟨outs, h1, fun e => ?_, fun _ => no.filter _, fun e he => by rw [times_nodup (no.filter _) he]; simp⟩
    rw [List.mem_filter, mo]
    constructor
    · rintro ⟨⟨a, b, _⟩, h⟩; exact ⟨a, (hok e a).1 h, b⟩
    · rintro ⟨a, b, h⟩; exact ⟨⟨a, h, b.1⟩, (hok e a).2 b⟩

theorem lengthOk_one {min max : Int} {n : Nat} (h : min = 1 ∧ max = 1) : LengthOk min max n ↔ n = 1 := by
  unfold LengthOk
  obtain ⟨rfl, rfl⟩ := h
  omega

theorem orient_congr {g g' : Ends} {v : Option Nat} {e : Nat} (h : g.src e = g'.src e ∧ g.dst e = g'.dst e) :
    orient g v e = orient g' v e := by
  unfold orient; rw [h.1, h.2]

/-- a leg that is found twice: a loop at an undirected item for one edge -/
def FoundTwice (σ : Spec) (p : Item) (d : State.Dir) (es : List PathElement) : Prop :=
  d = .any ∧ (p.min = 1 ∧ p.max = 1) ∧ ∀ pe ∈ es, σ.src pe.edge = σ.dst pe.edge

instance (σ : Spec) (p : Item) (d : State.Dir) (es : List PathElement) : Decidable (FoundTwice σ p d es) := by
  unfold FoundTwice; infer_instance

theorem legs_exist {ops : List Op} (hv : Spec.ValidHistory ops) {s : State} (hs : run ops = some s) (p : Item)
    (hl : p.labels.Nodup) (d : State.Dir) (n : Nat) (hn : n ∈ (Spec.run ops).nodes) :
    ∃ T : List (List PathElement), (∀ es, es ∈ T ↔ IsLeg (Spec.run ops) p d n es) ∧
      ((d = .any → p.min = 1 ∧ p.max = 1 → NoLoop (Spec.run ops) p) → T.Nodup) ∧
      (∀ es ∈ T, times es T = if FoundTwice (Spec.run ops) p d es then 2 else 1) ∧
      ∀ (symbols : Symbols) (st : Step) (source : Nat) (next : Run → Out) (r : Run), st.item = p →
        r.result source = some (.node n) →
        runConnEdges s symbols st source d next r = forEach (visitLeg s symbols st next) T r := by
  have c := Core.run hv hs
  obtain ⟨es, h1, h2, h3, h3'⟩ := any_spec hv hs hn p hl d
  have hends : ∀ e ∈ (Spec.run ops).edges, s.ends.src e = (Spec.run ops).ends.src e ∧
      s.ends.dst e = (Spec.run ops).ends.dst e := fun e he => ⟨(c.eattr e he).1, (c.eattr e he).2.1⟩
  by_cases hfix : p.min = 1 ∧ p.max = 1
  · refine ⟨(es.filter (p.edgeOk s)).map (fun e => [orient s.ends (some n) e]), fun t => ?_, fun h => ?_, ?_, ?_⟩
    · rw [List.mem_map]
      constructor
      · rintro ⟨e, he, rfl⟩
        obtain ⟨a, b, l⟩ := (h2 e).1 he
        rw [orient_congr (hends e a)]
        refine ⟨by simp, by simp, fun pe hpe => ?_, ⟨l, orient_oriented, trivial⟩, (lengthOk_one hfix).2 rfl⟩
        rw [List.mem_singleton.1 hpe]
        exact ⟨a, b⟩
      · rintro ⟨k1, k2, k3, k4, k5⟩
        obtain ⟨pe, rfl⟩ := List.length_eq_one_iff.1 ((lengthOk_one hfix).1 k5)
        obtain ⟨a, b⟩ := k3 pe (by simp)
        refine ⟨pe.edge, (h2 _).2 ⟨a, b, k4.1⟩, ?_⟩
        rw [orient_congr (hends _ a), ← oriented_unique k4.2.1]
    · refine List.Pairwise.map _ (fun a b h' hab => h' ?_) (h3 (fun hd => h hd hfix))
      simpa [orient] using congrArg (List.map (·.edge)) hab
    · intro t ht
      obtain ⟨e, he, rfl⟩ := List.mem_map.1 ht
      rw [times_map (f := fun e => [orient s.ends (some n) e])
        (fun y _ h => by simpa [orient] using congrArg (List.map (·.edge)) h), h3' e he]
      have : FoundTwice (Spec.run ops) p d [orient s.ends (some n) e] ↔
          d = .any ∧ (Spec.run ops).src e = (Spec.run ops).dst e := by
        unfold FoundTwice
        simp [hfix, orient]
      simp only [this]
    · intro symbols st source next r hst hr
      subst hst
      unfold runConnEdges
      simp only [hr, h1, if_pos hfix]
      rw [← forEach_map]
      congr 1
      funext e r
      exact (if_pos hfix).symm
  · obtain ⟨T, t1, t2, t3⟩ := C28 ops hv s hs (some n) (es.filter (p.edgeOk s)) (fun e he => ((h2 e).1 he).1) (p.edgeOk s)
      d p.min p.max
    have hok : ∀ e ∈ (Spec.run ops).edges, (p.edgeOk s e = true ↔ (Spec.run ops).EdgeMatches p.labels p.props e) :=
      fun e he => edgeFilter_spec c he p.labels p.props
    refine ⟨T, fun t => ?_, fun _ => t1, fun t ht => ?_, ?_⟩
    · rw [t2, trail_rides (fun e => by
        rw [h2]
        constructor
        · rintro ⟨a, b, l⟩; exact ⟨a, (hok e a).2 b, l⟩
        · rintro ⟨a, b, l⟩; exact ⟨a, (hok e a).1 b, l⟩)]
      unfold IsLeg
      constructor
      · rintro ⟨⟨a, b, l, m⟩, k⟩; exact ⟨a, b, fun pe hpe => ⟨(l pe hpe).1, (hok _ (l pe hpe).1).1 (l pe hpe).2⟩, m, k⟩
      · rintro ⟨a, b, l, m, k⟩; exact ⟨⟨a, b, fun pe hpe => ⟨(l pe hpe).1, (hok _ (l pe hpe).1).2 (l pe hpe).2⟩, m⟩, k⟩
    · rw [times_nodup t1 ht, if_neg (fun h => hfix h.2.1)]
    · intro symbols st source next r hst hr
      subst hst
      unfold runConnEdges
      simp only [hr, h1, if_neg hfix]
      rw [t3]
      simp only
      rw [runStop_visitVar, ← forEach_map]
      congr 1
      funext e r
      exact (if_neg hfix).symm

end LPG

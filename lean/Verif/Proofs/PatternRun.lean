import Verif.Proofs.PatternTrail
/-!
# What a run of a plan reports

`enum` lists the assignments of values to the steps of a plan, without regard to names. A run reports some of them, and at
least those that give the same value to node items of the same name.
-/
namespace LPG
namespace Pat
open VPath

/-- the values of the items, by their index -/
abbrev Asg := Nat → Option Res

abbrev LegFun := Item → State.Dir → Nat → List (List PathElement)

structure LegsOk (s : State) (σ : Spec) (legs : LegFun) : Prop where
  mem : ∀ p d n es, es ∈ legs p d n → n ∈ σ.nodes ∧ IsLeg σ p d n es
  run : ∀ p, p.labels.Nodup → ∀ d n, n ∈ σ.nodes → ∀ (symbols : Symbols) (st : Step) (source : Nat) (next : Run → Out)
    (r : Run), st.item = p → r.result source = some (.node n) →
    runConnEdges s symbols st source d next r = forEach (visitLeg s symbols st next) (legs p d n) r
  ends : ∀ e ∈ σ.edges, s.ends.src e = σ.ends.src e ∧ s.ends.dst e = σ.ends.dst e
  live : ∀ e ∈ σ.edges, σ.src e ∈ σ.nodes ∧ σ.dst e ∈ σ.nodes

/-- the symbol of the name, if bound, has the node -/
def inSymbol (symbols : Symbols) (p : Item) (n : Nat) : Bool :=
  if p.name = "" then true
  else match AMap.get symbols p.name with
    | none => true
    | some sym => match sym.nodes with
      | none => false
      | some xs => xs.contains n

/-- the end of the path, seen from a node step -/
def endVal (g : Ends) (use : Use) (p : Path) : Option Nat :=
  match use with
  | .toNode => p.path.getLast?.map (fun pe => g.dst pe.edge)
  | .fromNode => p.path.getLast?.map (fun pe => g.src pe.edge)
  | .anyNode => p.path.getLast?.map (fun pe => pe.getTargetNode g)

section
variable (s : State) (symbols : Symbols) (legs : LegFun)

/-- the values of a step, given the values of the earlier ones -/
def vals (st : Step) (ρ : Asg) : List Res :=
  match st.proc with
  | .nodes none => []
  | .nodes (some ns) => (ns.filter (fun n => st.item.nodeOk s n && inSymbol symbols st.item n)).map Res.node
  | .edges none => []
  | .edges (some es) => (es.filter (st.item.edgeOk s)).map (fun e => .path { path := [⟨e, false⟩] })
  | .connEdges src d =>
    match ρ src with
    | some (.node n) => (legs st.item d n).map (fun es => .path { path := es })
    | _ => []
  | .connNodes src use _ =>
    match ρ src with
    | some (.path p) =>
      match endVal s.ends use p with
      | some n => if st.item.nodeOk s n && inSymbol symbols st.item n then [.node n] else []
      | none => []
    | _ => []

/-- the assignments that extend `ρ` to the steps -/
def enum : List Step → Asg → List Asg
  | [], ρ => [ρ]
  | st :: sts, ρ => (vals s symbols legs st ρ).flatMap (fun v => enum sts (upd ρ st.ix (some v)))

/-- the steps have values that are allowed -/
def Done (ρ : Asg) (done : List Step) : Prop := ∀ st ∈ done, ∃ v, ρ st.ix = some v ∧ v ∈ vals s symbols legs st ρ

end

def isNode (st : Step) : Prop :=
  match st.proc with
  | .nodes _ => True
  | .connNodes .. => True
  | _ => False

/-- node items with the same unbound name have the same value -/
def Agree (symbols : Symbols) (all : List Step) (ρ : Asg) : Prop :=
  ∀ st ∈ all, ∀ st' ∈ all, isNode st → isNode st' → st.item.name = st'.item.name → st.item.name ≠ "" →
    AMap.get symbols st.item.name = none → ρ st.ix = ρ st'.ix

/-- the edge step for which `variablePathNode` is set when the next step is run -/
def pendAfter (st : Step) : Option Nat :=
  match st.proc with
  | .connEdges .. => if st.item.min = 1 ∧ st.item.max = 1 then none else some st.ix
  | _ => none

def pendVal (g : Ends) (pend : Option Nat) (ρ : Asg) : Option Nat :=
  match pend with
  | none => none
  | some j => match ρ j with
    | some (.path p) => p.last g
    | _ => none

def useOf : State.Dir → Use
  | .outgoing => .toNode
  | .incoming => .fromNode
  | .any => .anyNode

/-- the step from which a node step takes its path -/
def Source (done : List Step) (src : Nat) (use : Use) (pn : Option Nat) (st' : Step) : Prop :=
  st' ∈ done ∧ st'.ix = src ∧
  ((∃ src2 d, st'.proc = .connEdges src2 d ∧ useOf d = use ∧ (use = .anyNode → pn = some src2)) ∨
    (∃ itr, st'.proc = .edges itr ∧ use ≠ .anyNode))

def SrcOk (σ : Spec) (done : List Step) (st : Step) : Prop :=
  match st.proc with
  | .nodes itr => ∃ ns, itr = some ns ∧ ∀ n ∈ ns, n ∈ σ.nodes
  | .edges itr => ∃ es, itr = some es ∧ ∀ e ∈ es, e ∈ σ.edges
  | .connEdges src _ => st.item.labels.Nodup ∧ ∃ st' ∈ done, st'.ix = src ∧ isNode st'
  | .connNodes src use pn => ∃ st', Source done src use pn st'

theorem Source.mono {done done' : List Step} {src : Nat} {use : Use} {pn : Option Nat} {st' : Step}
    (h : Source done src use pn st') (hd : ∀ x ∈ done, x ∈ done') : Source done' src use pn st' :=
  ⟨hd _ h.1, h.2⟩

theorem SrcOk.mono {σ : Spec} {done done' : List Step} {st : Step} (h : SrcOk σ done st)
    (hd : ∀ x ∈ done, x ∈ done') : SrcOk σ done' st := by
  unfold SrcOk at h ⊢
  cases hp : st.proc with
  | nodes itr => rw [hp] at h; exact h
  | edges itr => rw [hp] at h; exact h
  | connEdges src d =>
    rw [hp] at h
    obtain ⟨h1, st', h2, h3⟩ := h
    exact ⟨h1, st', hd _ h2, h3⟩
  | connNodes src use pn =>
    rw [hp] at h
    obtain ⟨st', h1⟩ := h
    exact ⟨st', h1.mono hd⟩

structure StepOk (σ : Spec) (symbols : Symbols) (done : List Step) (pend : Option Nat) (st : Step) : Prop where
  fresh : ∀ st' ∈ done, st'.ix ≠ st.ix
  src : SrcOk σ done st
  first : ∀ itr, st.proc = .nodes itr ∨ st.proc = .edges itr → done = [] ∧ pend = none
  conn : ∀ src d, st.proc = .connEdges src d → pend = none
  node : ∀ src use pn, st.proc = .connNodes src use pn → ∃ st', Source done src use pn st' ∧ pend = pendAfter st'
  names : isNode st → st.item.name ≠ "" → (∀ st' ∈ done, st'.item.name = st.item.name → isNode st') ∧
    ∀ sym, AMap.get symbols st.item.name = some sym → sym.edges = none ∧ sym.nodes.isSome

/-- the steps can be run one after the other -/
def WF (σ : Spec) (symbols : Symbols) : List Step → Option Nat → List Step → Prop
  | _, pend, [] => pend = none
  | done, pend, st :: sts => StepOk σ symbols done pend st ∧ WF σ symbols (done ++ [st]) (pendAfter st) sts

section
variable {s : State} {σ : Spec} {symbols : Symbols} {legs : LegFun}

theorem enum_frame : ∀ {sts : List Step} {ρ x : Asg}, x ∈ enum s symbols legs sts ρ → ∀ i, (∀ st ∈ sts, st.ix ≠ i) →
    x i = ρ i
  | [], ρ, x, h, i, _ => by
    rw [enum, List.mem_singleton] at h
    rw [h]
  | st :: sts, ρ, x, h, i, hi => by
    rw [enum, List.mem_flatMap] at h
    obtain ⟨v, _, h2⟩ := h
    rw [enum_frame h2 i (fun st' h' => hi st' (by simp [h'])), upd_other _ _ (Ne.symm (hi st (by simp)))]

theorem WF.later : ∀ {sts done : List Step} {pend : Option Nat}, WF σ symbols done pend sts →
    ∀ st ∈ done, ∀ st' ∈ sts, st'.ix ≠ st.ix
  | [], _, _, _, _, _, _, h => by simp at h
  | x :: sts, done, pend, h, st, hst, st', hst' => by
    obtain ⟨h1, h2⟩ := h
    rcases List.mem_cons.1 hst' with rfl | h'
    · exact (h1.fresh st hst).symm
    · exact h2.later st (by simp [hst]) st' h'

/-! ## Values of the earlier steps -/

theorem last_of_ne {g : Ends} {es : List PathElement} (h : es ≠ []) :
    ({ path := es } : Path).last g = es.getLast?.map (fun pe => pe.getTargetNode g) := rfl

theorem endOf_last {g : Ends} : ∀ {es : List PathElement} {v : Nat}, es ≠ [] →
    es.getLast?.map (fun pe => pe.getTargetNode g) = some (endOf g v es)
  | [], _, h => absurd rfl h
  | [pe], v, _ => rfl
  | pe :: pe' :: es, v, _ => by
    rw [List.getLast?_cons_cons, endOf]
    exact endOf_last (by simp)

theorem rides_last {g : Ends} {d : State.Dir} : ∀ {es : List PathElement} {v : Nat}, Rides g d v es → ∀ l, es.getLast? = some l →
    ∃ w, Leads g d l.edge w ∧ Oriented g (some w) l
  | [], _, _, _, h => by simp at h
  | [pe], v, h, l, hl => by
    simp only [List.getLast?_singleton, Option.some.injEq] at hl
    subst hl
    exact ⟨v, h.1, h.2.1⟩
  | pe :: pe' :: es, v, h, l, hl => by
    rw [List.getLast?_cons_cons] at hl
    exact rides_last h.2.2 l hl

theorem step_target {g : Ends} {d : State.Dir} {w : Nat} {l : PathElement} (h1 : Leads g d l.edge w)
    (h2 : Oriented g (some w) l) :
    (d = .outgoing → l.getTargetNode g = g.dst l.edge) ∧ (d = .incoming → l.getTargetNode g = g.src l.edge) := by
  unfold Oriented at h2
  unfold PathElement.getTargetNode
  cases d <;> simp only [Leads] at h1 <;> simp only [Option.some.injEq] at h2 <;> grind

theorem target_congr {g g' : Ends} {pe : PathElement} (h : g.src pe.edge = g'.src pe.edge ∧ g.dst pe.edge = g'.dst pe.edge) :
    pe.getTargetNode g = pe.getTargetNode g' := by
  unfold PathElement.getTargetNode; rw [h.1, h.2]

/-- for a leg the end seen from the node step is the last node of the path -/
theorem endVal_leg (L : LegsOk s σ legs) {p : Item} {d : State.Dir} {n : Nat} {es : List PathElement}
    (h : es ∈ legs p d n) :
    endVal s.ends (useOf d) { path := es } = some (endOf σ.ends n es) ∧
      ({ path := es } : Path).last s.ends = some (endOf σ.ends n es) ∧ endOf σ.ends n es ∈ σ.nodes := by
  obtain ⟨_, h1, h2, h3, h4, h5⟩ := L.mem _ _ _ _ h
  obtain ⟨l, hl⟩ : ∃ l, es.getLast? = some l := ⟨_, List.getLast?_eq_some_getLast h1⟩
  have hle := L.ends l.edge (h3 l (List.mem_of_getLast? hl)).1
  have hlast := endOf_last (g := σ.ends) (v := n) h1
  rw [hl, Option.map_some, Option.some.injEq] at hlast
  obtain ⟨w, k1, k2⟩ := rides_last h4 l hl
  obtain ⟨t1, t2⟩ := step_target k1 k2
  refine ⟨?_, ?_, ?_⟩
  · unfold endVal
    cases d <;> simp only [useOf, hl, Option.map_some, Option.some.injEq]
    · rw [hle.1, ← t2 rfl, hlast]
    · rw [target_congr hle, hlast]
    · rw [hle.2, ← t1 rfl, hlast]
  · rw [last_of_ne h1, hl, Option.map_some, target_congr hle, hlast]
  · rw [← hlast]
    unfold PathElement.getTargetNode
    have := L.live l.edge (h3 l (List.mem_of_getLast? hl)).1
    split
    · exact this.1
    · exact this.2

/-- the value of a source step, seen from a node step -/
theorem source_val (L : LegsOk s σ legs) {ρ : Asg} {done : List Step} (hg : ∀ st ∈ done, SrcOk σ done st)
    (hd : Done s symbols legs ρ done) {src : Nat} {use : Use} {pn : Option Nat} {st' : Step}
    (h : Source done src use pn st') :
    ∃ es n l, ρ src = some (.path { path := es }) ∧ es.getLast? = some l ∧ endVal s.ends use { path := es } = some n ∧
      n ∈ σ.nodes ∧ (pendAfter st' ≠ none → ({ path := es } : Path).last s.ends = some n) ∧
      (pendAfter st' = none → ∀ r : Run, (∀ st ∈ done, r.result st.ix = ρ st.ix) → endNode s use pn r l.edge = some n) := by
  obtain ⟨h1, h2, h3⟩ := h
  obtain ⟨v, k1, k2⟩ := hd st' h1
  have hsrc := hg st' h1
  rw [h2] at k1
  rcases h3 with ⟨src2, d, hp, hu, hany⟩ | ⟨itr, hp, hu⟩
  · unfold vals at k2
    rw [hp] at k2
    simp only at k2
    cases hr : ρ src2 with
    | none => rw [hr] at k2; simp at k2
    | some w =>
      rw [hr] at k2
      cases w with
      | path p => simp at k2
      | node n =>
        simp only [List.mem_map] at k2
        obtain ⟨es, he, rfl⟩ := k2
        obtain ⟨e1, e2, e3⟩ := endVal_leg L he
        obtain ⟨_, g1, g2, g3, g4, g5⟩ := L.mem _ _ _ _ he
        obtain ⟨l, hl⟩ : ∃ l, es.getLast? = some l := ⟨_, List.getLast?_eq_some_getLast g1⟩
        refine ⟨es, _, l, k1, hl, hu ▸ e1, e3, fun _ => e2, fun hpn r hrr => ?_⟩
        have hfix : st'.item.min = 1 ∧ st'.item.max = 1 := by
          unfold pendAfter at hpn
          rw [hp] at hpn
          simp only at hpn
          split at hpn
          · assumption
          · cases hpn
        obtain ⟨pe, rfl⟩ := List.length_eq_one_iff.1 ((lengthOk_one hfix).1 g5)
        simp only [List.getLast?_singleton, Option.some.injEq] at hl
        subst hl
        unfold endVal at e1
        unfold endNode
        subst hu
        cases d with
        | incoming => exact e1
        | outgoing => exact e1
        | any =>
          simp only [useOf]
          rw [hany rfl]
          simp only
          have : r.result src2 = some (.node n) := by
            unfold SrcOk at hsrc
            rw [hp] at hsrc
            obtain ⟨_, st2, m1, m2, _⟩ := hsrc
            rw [← m2, hrr st2 m1, m2, hr]
          rw [this]
          simp only [useOf, List.getLast?_singleton, Option.map_some] at e1
          rw [← e1]
          have hle := L.ends pe.edge (g3 pe (by simp)).1
          have k := g4.2.1
          have kl := g4.1
          unfold Oriented at k
          unfold PathElement.getTargetNode
          simp only [Leads, Option.some.injEq] at k kl ⊢
          have a1 : s.eFrom pe.edge = σ.ends.src pe.edge := hle.1
          have a2 : s.eTo pe.edge = σ.ends.dst pe.edge := hle.2
          rw [show s.ends.src = s.eFrom from rfl, show s.ends.dst = s.eTo from rfl, a1, a2]
          grind
  · unfold SrcOk at hsrc
    rw [hp] at hsrc
    obtain ⟨es, rfl, hes⟩ := hsrc
    unfold vals at k2
    rw [hp] at k2
    simp only [List.mem_map, List.mem_filter] at k2
    obtain ⟨e, ⟨he, _⟩, rfl⟩ := k2
    have hle := L.ends e (hes e he)
    have hlv := L.live e (hes e he)
    have hnone : pendAfter st' = none := by unfold pendAfter; rw [hp]
    cases use with
    | anyNode => exact absurd rfl hu
    | toNode =>
      refine ⟨_, s.eTo e, ⟨e, false⟩, k1, rfl, rfl, ?_, fun h => absurd hnone h, fun _ r _ => rfl⟩
      rw [show s.eTo e = σ.dst e from hle.2]; exact hlv.2
    | fromNode =>
      refine ⟨_, s.eFrom e, ⟨e, false⟩, k1, rfl, rfl, ?_, fun h => absurd hnone h, fun _ r _ => rfl⟩
      rw [show s.eFrom e = σ.src e from hle.1]; exact hlv.1

theorem node_val (L : LegsOk s σ legs) {ρ : Asg} {done : List Step} (hg : ∀ st ∈ done, SrcOk σ done st)
    (hd : Done s symbols legs ρ done) {st : Step} (h : st ∈ done) (hn : isNode st) :
    ∃ n, ρ st.ix = some (.node n) ∧ n ∈ σ.nodes := by
  obtain ⟨v, k1, k2⟩ := hd st h
  have hsrc := hg st h
  unfold isNode at hn
  unfold SrcOk at hsrc
  unfold vals at k2
  cases hp : st.proc with
  | edges itr => rw [hp] at hn; exact hn.elim
  | connEdges a b => rw [hp] at hn; exact hn.elim
  | nodes itr =>
    rw [hp] at hsrc k2
    obtain ⟨ns, rfl, hns⟩ := hsrc
    simp only [List.mem_map, List.mem_filter] at k2
    obtain ⟨n, ⟨h1, _⟩, rfl⟩ := k2
    exact ⟨n, k1, hns n h1⟩
  | connNodes src use pn =>
    rw [hp] at hsrc k2
    obtain ⟨st', h'⟩ := hsrc
    obtain ⟨es, n, l, e1, _, e3, e4, _⟩ := source_val L hg hd h'
    simp only [e1, e3] at k2
    split at k2
    · rw [List.mem_singleton.1 k2] at k1
      exact ⟨n, k1, e4⟩
    · simp at k2

/-! ## Names -/

/-- the local symbols are values of steps with that name -/
def LocVal (symbols : Symbols) (done : List Step) (ρ : Asg) (locals : Symbols) : Prop :=
  ∀ a sym, AMap.get locals a = some sym → a ≠ "" ∧ AMap.get symbols a = none ∧
    ∃ st ∈ done, st.item.name = a ∧ sym = Sym.ofRes (ρ st.ix)

theorem length_zero_iff {a : String} : a.length = 0 ↔ a = "" := String.length_eq_zero_iff

/-- the answer of `isConstrainedNodes` in a node step -/
theorem constrained (L : LegsOk s σ legs) {ρ : Asg} {done : List Step} (hg : ∀ st ∈ done, SrcOk σ done st)
    (hd : Done s symbols legs ρ done) {pend : Option Nat} {st : Step} (h : StepOk σ symbols done pend st) (hn : isNode st)
    {locals : Symbols} (hl : LocVal symbols done ρ locals) :
    (AMap.get locals st.item.name = none ∧ ∃ c, st.item.isConstrainedNodes symbols locals = .ok c ∧
      ∀ n, allows c n = inSymbol symbols st.item n) ∨
    (∃ st' ∈ done, isNode st' ∧ st'.item.name = st.item.name ∧ st.item.name ≠ "" ∧ AMap.get symbols st.item.name = none ∧
      ∃ m, ρ st'.ix = some (.node m) ∧ st.item.isConstrainedNodes symbols locals = .ok (some [m])) := by
  unfold Item.isConstrainedNodes inSymbol
  by_cases hname : st.item.name = ""
  · left
    refine ⟨?_, none, by simp [hname], fun n => by simp [hname, allows]⟩
    cases hx : AMap.get locals st.item.name with
    | none => rfl
    | some sym => exact absurd hname (hl _ _ hx).1
  · obtain ⟨h1, h2⟩ := h.names hn hname
    simp only [length_zero_iff, if_neg hname]
    cases hx : AMap.get locals st.item.name with
    | some sym =>
      right
      obtain ⟨_, a2, st', a3, a4, a5⟩ := hl _ _ hx
      obtain ⟨m, b1, _⟩ := node_val L hg hd a3 (h1 st' a3 a4)
      refine ⟨st', a3, h1 st' a3 a4, a4, hname, a2, m, b1, ?_⟩
      rw [a5, b1]; rfl
    | none =>
      left
      refine ⟨rfl, ?_⟩
      cases hy : AMap.get symbols st.item.name with
      | none => exact ⟨none, rfl, fun n => rfl⟩
      | some sym =>
        obtain ⟨b1, b2⟩ := h2 sym hy
        obtain ⟨xs, hxs⟩ := Option.isSome_iff_exists.1 b2
        exact ⟨some xs, by simp [b1, hxs], fun n => by simp [hxs, allows]⟩

theorem record_result (st : Step) (r : Run) : (record symbols st r).result = r.result := by
  unfold record; split
  · rfl
  · split <;> rfl

theorem record_out (st : Step) (r : Run) : (record symbols st r).out = r.out := by
  unfold record; split
  · rfl
  · split <;> rfl

theorem record_vnode (st : Step) (r : Run) : (record symbols st r).vnode = r.vnode := by
  unfold record; split
  · rfl
  · split <;> rfl

theorem reset_result (st : Step) (r : Run) : (reset symbols st r).result = r.result := by
  unfold reset; split
  · rfl
  · split <;> rfl

theorem reset_out (st : Step) (r : Run) : (reset symbols st r).out = r.out := by
  unfold reset; split
  · rfl
  · split <;> rfl

theorem reset_vnode (st : Step) (r : Run) : (reset symbols st r).vnode = r.vnode := by
  unfold reset; split
  · rfl
  · split <;> rfl

theorem record_val {done : List Step} {ρ : Asg} {st : Step} {v : Res} {r : Run} (hf : ∀ st' ∈ done, st'.ix ≠ st.ix)
    (h : LocVal symbols done ρ r.locals) :
    LocVal symbols (done ++ [st]) (upd ρ st.ix (some v))
      (record symbols st { r with result := upd r.result st.ix (some v) }).locals := by
  have old : LocVal symbols (done ++ [st]) (upd ρ st.ix (some v)) r.locals := by
    intro a sym ha
    obtain ⟨h1, h2, st', h3, h4, h5⟩ := h a sym ha
    exact ⟨h1, h2, st', by simp [h3], h4, by rw [upd_other _ _ (hf st' h3)]; exact h5⟩
  unfold record
  split
  · exact old
  · rename_i hname
    split
    · exact old
    · rename_i hsym
      intro a sym ha
      simp only [AMap.get_set] at ha
      split at ha
      · rename_i heq
        subst heq
        cases ha
        refine ⟨fun h => hname (length_zero_iff.2 h), by simpa using hsym, st, by simp, rfl, ?_⟩
        simp
      · exact old a sym ha

theorem reset_val {done : List Step} {ρ : Asg} {st : Step} {v : Res} {r : Run} (hf : ∀ st' ∈ done, st'.ix ≠ st.ix)
    (h : LocVal symbols (done ++ [st]) (upd ρ st.ix (some v)) r.locals) : LocVal symbols done ρ (reset symbols st r).locals := by
  have old : ∀ a, a ≠ st.item.name ∨ a = "" ∨ AMap.get symbols a ≠ none → ∀ sym, AMap.get r.locals a = some sym → a ≠ "" ∧
      AMap.get symbols a = none ∧ ∃ st ∈ done, st.item.name = a ∧ sym = Sym.ofRes (ρ st.ix) := by
    intro a hne sym ha
    obtain ⟨h1, h2, st', h3, h4, h5⟩ := h a sym ha
    rcases List.mem_append.1 h3 with h3 | h3
    · exact ⟨h1, h2, st', h3, h4, by rw [upd_other _ _ (hf st' h3)] at h5; exact h5⟩
    · rw [List.mem_singleton.1 h3] at h4
      rcases hne with hne | hne | hne
      · exact absurd h4.symm hne
      · exact absurd hne h1
      · exact absurd h2 hne
  unfold reset
  split
  · rename_i hname
    rw [length_zero_iff] at hname
    intro a sym ha
    refine old a ?_ sym ha
    by_cases h : a = ""
    · exact Or.inr (Or.inl h)
    · left; rw [hname]; exact h
  · split
    · rename_i hsym
      intro a sym ha
      refine old a ?_ sym ha
      by_cases h : a = st.item.name
      · subst h; right; right; intro hh; rw [hh] at hsym; simp at hsym
      · exact Or.inl h
    · intro a sym ha
      simp only [AMap.get_del] at ha
      split at ha
      · cases ha
      · rename_i hne
        exact old a (Or.inl hne) sym ha

/-! ## Names that are used twice -/

/-- `j` is the first step after `i` with the same free name -/
structure Follows (symbols : Symbols) (all pre : List Step) (i : Step) (mid : List Step) (j : Step) : Prop where
  pre : (pre ++ i :: (mid ++ [j])) <+: all
  node : isNode i ∧ isNode j
  name : i.item.name = j.item.name
  ne : j.item.name ≠ ""
  free : AMap.get symbols j.item.name = none
  mid : ∀ st ∈ mid, st.item.name ≠ j.item.name

/-- some values of the steps up to `j`, the same as those of `ρ` up to `i`, respect the name -/
def Wit (s : State) (symbols : Symbols) (legs : LegFun) (ρ : Asg) (pre : List Step) (i : Step) (mid : List Step) (j : Step) : Prop :=
  ∃ y : Asg, (∀ st ∈ pre ++ [i], y st.ix = ρ st.ix) ∧ Done s symbols legs y (pre ++ i :: (mid ++ [j])) ∧ y j.ix = y i.ix

/-- where a name was not respected, it was before -/
def Sound (s : State) (symbols : Symbols) (legs : LegFun) (all done : List Step) (ρ : Asg) : Prop :=
  ∀ pre i mid j, Follows symbols all pre i mid j → (pre ++ i :: (mid ++ [j])) <+: done → Wit s symbols legs ρ pre i mid j

/-- the value of the last step with a name is known, or the name was respected before -/
def LocLast (s : State) (symbols : Symbols) (legs : LegFun) (all done : List Step) (ρ : Asg) (locals : Symbols) : Prop :=
  ∀ pre i rest, done = pre ++ i :: rest → isNode i → i.item.name ≠ "" → AMap.get symbols i.item.name = none →
    (∀ st ∈ rest, st.item.name ≠ i.item.name) →
    AMap.get locals i.item.name = some (Sym.ofRes (ρ i.ix)) ∨ ∀ mid j, Follows symbols all pre i mid j → Wit s symbols legs ρ pre i mid j

structure LocOk (s : State) (symbols : Symbols) (legs : LegFun) (all done : List Step) (ρ : Asg) (locals : Symbols) : Prop where
  val : LocVal symbols done ρ locals
  last : LocLast s symbols legs all done ρ locals
  sound : Sound s symbols legs all done ρ

/-- the step may have the value -/
def Accepted (s : State) (symbols : Symbols) (legs : LegFun) (all done : List Step) (ρ : Asg) (st : Step) (v : Res) : Prop :=
  ∀ pre i mid, done = pre ++ i :: mid → Follows symbols all pre i mid st → Wit s symbols legs (upd ρ st.ix (some v)) pre i mid st

theorem Wit.congr {ρ ρ' : Asg} {pre mid : List Step} {i j : Step} (h : Wit s symbols legs ρ pre i mid j)
    (he : ∀ st ∈ pre ++ [i], ρ st.ix = ρ' st.ix) : Wit s symbols legs ρ' pre i mid j := by
  obtain ⟨y, h1, h2, h3⟩ := h
  exact ⟨y, fun st hst => (h1 st hst).trans (he st hst), h2, h3⟩

theorem first_unique {α : Type} {P : α → Prop} : ∀ {a b u v : List α} {x y : α}, a ++ x :: u = b ++ y :: v → (∀ z ∈ a, ¬ P z) →
    (∀ z ∈ b, ¬ P z) → P x → P y → a = b ∧ x = y
  | [], [], _, _, _, _, h, _, _, _, _ => ⟨rfl, by cases h; rfl⟩
  | [], b0 :: b, _, _, _, _, h, _, hb, hx, _ => by
    cases h; exact absurd hx (hb _ (by simp))
  | a0 :: a, [], _, _, _, _, h, ha, _, _, hy => by
    cases h; exact absurd hy (ha _ (by simp))
  | a0 :: a, b0 :: b, u, v, x, y, h, ha, hb, hx, hy => by
    simp only [List.cons_append, List.cons.injEq] at h
    obtain ⟨h1, h2⟩ := first_unique h.2 (fun z hz => ha z (by simp [hz])) (fun z hz => hb z (by simp [hz])) hx hy
    exact ⟨by rw [h.1, h1], h2⟩

/-- the steps after the last one with a name -/
theorem snoc_split {α : Type} {done pre rest : List α} {st i : α} (h : done ++ [st] = pre ++ i :: rest) :
    (rest = [] ∧ pre = done ∧ i = st) ∨ ∃ rest', rest = rest' ++ [st] ∧ done = pre ++ i :: rest' := by
  rcases List.eq_nil_or_concat rest with rfl | ⟨rest', x, rfl⟩
  · left
    have := List.append_inj' h rfl
    exact ⟨rfl, this.1.symm, by simpa using this.2.symm⟩
  · right
    have h' : done ++ [st] = (pre ++ i :: rest') ++ [x] := by rw [h]; simp
    have := List.append_inj' h' rfl
    obtain ⟨a, b⟩ := this
    cases b
    exact ⟨rest', by simp, a⟩

theorem record_loc {all done : List Step} {ρ : Asg} {st : Step} {v : Res} {r : Run} (hf : ∀ st' ∈ done, st'.ix ≠ st.ix)
    (ha : Accepted s symbols legs all done ρ st v) (h : LocOk s symbols legs all done ρ r.locals) :
    LocOk s symbols legs all (done ++ [st]) (upd ρ st.ix (some v))
      (record symbols st { r with result := upd r.result st.ix (some v) }).locals := by
  have same : ∀ {pre : List Step} {i : Step} {rest : List Step}, done = pre ++ i :: rest → ∀ st' ∈ pre ++ [i],
      ρ st'.ix = upd ρ st.ix (some v) st'.ix := by
    intro pre i rest hd st' h'
    rw [upd_other _ _ (hf st' _)]
    rw [hd]
    rcases List.mem_append.1 h' with h' | h'
    · simp [h']
    · rw [List.mem_singleton.1 h']; simp
  refine ⟨record_val hf h.val, ?_, ?_⟩
  · intro pre i rest hd hn hne hfr hrest
    rcases snoc_split hd with ⟨rfl, rfl, rfl⟩ | ⟨rest', rfl, hd'⟩
    · left
      unfold record
      rw [if_neg (fun h => hne (length_zero_iff.1 h)), hfr]
      simp [AMap.get_set]
    · have hst := hrest st (by simp)
      have hi : i.ix ≠ st.ix := hf i (by rw [hd']; simp)
      rcases h.last pre i rest' hd' hn hne hfr (fun x hx => hrest x (by simp [hx])) with h1 | h1
      · left
        rw [upd_other _ _ hi]
        unfold record
        split
        · exact h1
        · split
          · exact h1
          · simp only [AMap.get_set, if_neg (Ne.symm hst)]
            exact h1
      · right
        intro mid j hF
        exact (h1 mid j hF).congr (same hd')
  · intro pre i mid j hF hpre
    obtain ⟨t, ht⟩ := hpre
    rcases List.eq_nil_or_concat t with rfl | ⟨t', x, rfl⟩
    · have h' : (pre ++ i :: mid) ++ [j] = done ++ [st] := by rw [← ht]; simp
      obtain ⟨a, b⟩ := List.append_inj' h' rfl
      cases b
      exact ha pre i mid a.symm hF
    · have h' : (pre ++ i :: (mid ++ [j]) ++ t') ++ [x] = done ++ [st] := by rw [← ht]; simp
      obtain ⟨a, b⟩ := List.append_inj' h' rfl
      exact (h.sound pre i mid j hF ⟨t', a⟩).congr (same (rest := mid ++ [j] ++ t') (by rw [← a]; simp))

theorem reset_loc {all done : List Step} {ρ : Asg} {st : Step} {v : Res} {r : Run} (hf : ∀ st' ∈ done, st'.ix ≠ st.ix)
    (hall : (done ++ [st]) <+: all)
    (h : LocOk s symbols legs all (done ++ [st]) (upd ρ st.ix (some v)) r.locals) :
    LocOk s symbols legs all done ρ (reset symbols st r).locals := by
  have same : ∀ {pre : List Step} {i : Step} {rest : List Step}, done = pre ++ i :: rest → ∀ st' ∈ pre ++ [i],
      upd ρ st.ix (some v) st'.ix = ρ st'.ix := by
    intro pre i rest hd st' h'
    rw [upd_other _ _ (hf st' _)]
    rw [hd]
    rcases List.mem_append.1 h' with h' | h'
    · simp [h']
    · rw [List.mem_singleton.1 h']; simp
  refine ⟨reset_val hf h.val, ?_, ?_⟩
  · intro pre i rest hd hn hne hfr hrest
    by_cases hst : st.item.name = i.item.name
    · right
      intro mid j hF
      have hmid : mid = rest ∧ j = st := by
        obtain ⟨t, ht⟩ := hF.pre
        obtain ⟨t', ht'⟩ := hall
        have heq : mid ++ j :: t = rest ++ st :: t' := by
          have : pre ++ i :: (mid ++ j :: t) = pre ++ i :: (rest ++ st :: t') := by
            rw [hd] at ht'
            simp only [List.append_assoc, List.cons_append, List.nil_append] at ht ht'
            rw [ht, ht']
          simpa using this
        exact first_unique (P := fun x : Step => x.item.name = i.item.name) heq (fun z hz => by rw [hF.name]; exact hF.mid z hz)
          hrest hF.name.symm hst
      obtain ⟨rfl, rfl⟩ := hmid
      exact (h.sound pre i mid j hF ⟨[], by rw [hd]; simp⟩).congr (same hd)
    · rcases h.last pre i (rest ++ [st]) (by rw [hd]; simp) hn hne hfr (fun x hx => by
        rcases List.mem_append.1 hx with hx | hx
        · exact hrest x hx
        · rw [List.mem_singleton.1 hx]; exact hst) with h1 | h1
      · left
        rw [upd_other _ _ (hf i (by rw [hd]; simp))] at h1
        unfold reset
        split
        · exact h1
        · split
          · exact h1
          · simp only [AMap.get_del]
            rw [if_neg (Ne.symm hst)]
            exact h1
      · right
        intro mid j hF
        exact (h1 mid j hF).congr (same hd)
  · intro pre i mid j hF hpre
    obtain ⟨t, ht⟩ := hpre
    exact (h.sound pre i mid j hF ⟨t ++ [st], by rw [← ht]; simp⟩).congr (same (rest := mid ++ [j] ++ t) (by rw [← ht]; simp))

/-! ## What is reported -/

/-- Run after the steps `done` with the values `ρ`, `K` reports some of the assignments in `up`, and those that satisfy
`Ag` as often as they are in `up`; all of them are sound. It returns no error and leaves the values of the earlier steps as they are. It panics if it comes to an
assignment for which there is no report (`bad`). -/
def Emits (s : State) (symbols : Symbols) (legs : LegFun) (all : List Step) (rep : Asg → Path × AMap String Res) (bad Ag : Asg → Prop) (K : Run → Out) (done : List Step)
    (ρ : Asg) (vn : Option Nat) (up : List Asg) : Prop :=
  ∀ r : Run, (∀ st ∈ done, r.result st.ix = ρ st.ix) → LocOk s symbols legs all done ρ r.locals → r.vnode = vn →
    (∃ (r' : Run) (o : List Asg), (K r = some (none, r') ∧ ∀ x ∈ o, ¬ bad x ∧ Sound s symbols legs all all x) ∧ r'.out = r.out ++ o.map rep ∧ o.Sublist up ∧
      (∀ x, Ag x → times x o = times x up) ∧
      (∀ st ∈ done, r'.result st.ix = ρ st.ix) ∧ LocOk s symbols legs all done ρ r'.locals ∧ r'.vnode = vn) ∨
    (K r = none ∧ ∃ x ∈ up, bad x)

variable {rep : Asg → Path × AMap String Res} {bad Ag : Asg → Prop} {all : List Step}

theorem Emits.forEach {α : Type} {body : α → Run → Out} {done : List Step} {ρ : Asg} {vn : Option Nat} {f : α → List Asg} :
    ∀ {xs : List α}, (∀ x ∈ xs, Emits s symbols legs all rep bad Ag (body x) done ρ vn (f x)) →
    Emits s symbols legs all rep bad Ag (Pat.forEach body xs) done ρ vn (xs.flatMap f)
  | [], _ => fun r h1 h2 h3 => .inl ⟨r, [], ⟨rfl, by simp⟩, by simp, by simp, by simp, h1, h2, h3⟩
  | x :: xs, h => fun r h1 h2 h3 => by
    rcases h x (by simp) r h1 h2 h3 with ⟨r1, o1, ⟨a1, a0⟩, a2, a3, a4, a5, a6, a7⟩ | ⟨a1, y, hy, hb⟩
    rotate_left
    · exact .inr ⟨by rw [Pat.forEach, a1], y, by rw [List.flatMap_cons]; exact List.mem_append_left _ hy, hb⟩
    rcases Emits.forEach (fun y hy => h y (List.mem_cons_of_mem _ hy)) r1 a5 a6 a7 with
      ⟨r2, o2, ⟨b1, b0⟩, b2, b3, b4, b5, b6, b7⟩ | ⟨b1, y, hy, hb⟩
    rotate_left
    · exact .inr ⟨by rw [Pat.forEach, a1]; exact b1, y, by rw [List.flatMap_cons]; exact List.mem_append_right _ hy, hb⟩
    refine .inl ⟨r2, o1 ++ o2, ⟨by rw [Pat.forEach, a1]; exact b1, ?_⟩, by rw [b2, a2]; simp, ?_, ?_, b5, b6, b7⟩
    · intro y hy
      rcases List.mem_append.1 hy with hy | hy
      · exact a0 y hy
      · exact b0 y hy
    · rw [List.flatMap_cons]; exact a3.append b3
    · intro y hag
      rw [List.flatMap_cons, times_append, times_append, a4 y hag, b4 y hag]

theorem Emits.visit {next : Run → Out} {done : List Step} {ρ : Asg} {st : Step} {v : Res} {up : List Asg}
    (hf : ∀ st' ∈ done, st'.ix ≠ st.ix) (hall : (done ++ [st]) <+: all) (ha : Accepted s symbols legs all done ρ st v)
    (h : Emits s symbols legs all rep bad Ag next (done ++ [st]) (upd ρ st.ix (some v)) none up) :
    Emits s symbols legs all rep bad Ag (visit symbols st next v) done ρ none up := by
  intro r h1 h2 h3
  rcases h (record symbols st { r with result := upd r.result st.ix (some v) })
    (by
      intro st' hst'
      rw [record_result]
      rcases List.mem_append.1 hst' with h' | h'
      · exact (upd_other _ _ (hf st' h')).trans ((h1 st' h').trans (upd_other _ _ (hf st' h')).symm)
      · rw [List.mem_singleton.1 h']; simp)
    (record_loc hf ha h2) (by rw [record_vnode]; exact h3) with ⟨r', o, ⟨a1, a0⟩, a2, a3, a4, a5, a6, a7⟩ | ⟨a1, a2⟩
  rotate_left
  · exact .inr ⟨by simp only [Pat.visit, a1], a2⟩
  refine .inl ⟨reset symbols st r', o, ⟨by simp only [Pat.visit, a1], a0⟩, by rw [reset_out, a2, record_out], a3, a4, ?_,
    reset_loc hf hall a6, by rw [reset_vnode, a7]⟩
  intro st' hst'
  rw [reset_result, a5 st' (by simp [hst']), upd_other _ _ (hf st' hst')]

theorem Emits.visitLeg {next : Run → Out} {done : List Step} {ρ : Asg} {st : Step} {es : List PathElement} {up : List Asg}
    {src : Nat} {d : State.Dir} (hp : st.proc = .connEdges src d) (hf : ∀ st' ∈ done, st'.ix ≠ st.ix)
    (hall : (done ++ [st]) <+: all)
    (h : Emits s symbols legs all rep bad Ag next (done ++ [st]) (upd ρ st.ix (some (.path { path := es })))
      (pendVal s.ends (pendAfter st) (upd ρ st.ix (some (.path { path := es })))) up) :
    Emits s symbols legs all rep bad Ag (LPG.visitLeg s symbols st next es) done ρ none up := by
  have ha : Accepted s symbols legs all done ρ st (.path { path := es }) := by
    intro pre i mid _ hF
    have := hF.node.2
    unfold isNode at this
    rw [hp] at this
    exact this.elim
  by_cases hfix : st.item.min = 1 ∧ st.item.max = 1
  · have e1 : LPG.visitLeg s symbols st next es = Pat.visit symbols st next (.path { path := es }) := by
      funext r; exact if_pos hfix
    rw [e1]
    refine Emits.visit hf hall ha ?_
    have : pendAfter st = none := by unfold pendAfter; rw [hp]; exact if_pos hfix
    rw [this] at h
    exact h
  · intro r h1 h2 h3
    have hpv : pendVal s.ends (pendAfter st) (upd ρ st.ix (some (.path { path := es }))) =
        ({ path := es } : Path).last s.ends := by
      have : pendAfter st = some st.ix := by unfold pendAfter; rw [hp]; exact if_neg hfix
      rw [this]
      simp [pendVal]
    rw [hpv] at h
    rcases
      h { record symbols st { r with result := upd r.result st.ix (some (.path { path := es })) } with
          vnode := ({ path := es } : Path).last s.ends }
      (by
        intro st' hst'
        simp only
        rw [record_result]
        rcases List.mem_append.1 hst' with h' | h'
        · exact (upd_other _ _ (hf st' h')).trans ((h1 st' h').trans (upd_other _ _ (hf st' h')).symm)
        · rw [List.mem_singleton.1 h']; simp)
      (record_loc hf ha h2) rfl with ⟨r', o, ⟨a1, a0⟩, a2, a3, a4, a5, a6, a7⟩ | ⟨a1, a2⟩
    rotate_left
    · refine .inr ⟨?_, a2⟩
      unfold LPG.visitLeg visitVar
      rw [if_neg hfix]
      simp only [a1]
    refine .inl ⟨reset symbols st { r' with vnode := none }, o, ⟨?_, a0⟩, by rw [reset_out]; simp only [a2, record_out], a3, a4, ?_,
      reset_loc (r := { r' with vnode := none }) hf hall a6, by rw [reset_vnode]⟩
    · unfold LPG.visitLeg visitVar
      rw [if_neg hfix]
      simp only [a1]
    · intro st' hst'
      rw [reset_result]
      simp only
      rw [a5 st' (by simp [hst']), upd_other _ _ (hf st' hst')]

end

/-! ## The steps -/

section
variable {s : State} {σ : Spec} {symbols : Symbols} {legs : LegFun} {plan : Plan}

/-- what is reported for an assignment -/
def reportOf (s : State) (plan : Plan) (ρ : Asg) : Path × AMap String Res :=
  ((currentPath s.ends plan ρ).getD {}, captureSymbols ρ plan.steps [])

theorem currentPath_congr {g : Ends} {ρ ρ' : Asg} (h : ∀ st ∈ plan.steps, ρ st.ix = ρ' st.ix) :
    currentPath g plan ρ = currentPath g plan ρ' := by
  unfold currentPath
  rw [List.map_congr_left (g := fun st => ρ' st.ix) h]

theorem captureSymbols_congr {ρ ρ' : Asg} : ∀ {sts : List Step} (ret : AMap String Res), (∀ st ∈ sts, ρ st.ix = ρ' st.ix) →
    captureSymbols ρ sts ret = captureSymbols ρ' sts ret
  | [], _, _ => rfl
  | st :: sts, ret, h => by
    have h1 := h st (by simp)
    have ih := fun ret => captureSymbols_congr (sts := sts) ret (fun st' h' => h st' (by simp [h']))
    unfold captureSymbols
    rw [h1]
    simp only [ih]

theorem Emits.store {ρ : Asg} {Ag : Asg → Prop} :
    Emits s symbols legs plan.steps (reportOf s plan) (fun ρ => currentPath s.ends plan ρ = none) Ag (storeResult s plan) plan.steps ρ none
      [ρ] := by
  intro r h1 h2 h3
  cases hp : currentPath s.ends plan ρ with
  | none =>
    have e1 : currentPath s.ends plan r.result = none := by rw [currentPath_congr h1, hp]
    exact .inr ⟨by unfold storeResult; rw [e1], ρ, by simp, hp⟩
  | some p =>
  have e1 : currentPath s.ends plan r.result = some p := by rw [currentPath_congr h1, hp]
  refine .inl ⟨{ r with out := r.out ++ [(p, captureSymbols r.result plan.steps [])] }, [ρ], ⟨?_, by simp only [List.mem_singleton, forall_eq]; exact ⟨by simp [hp], h2.sound⟩⟩, ?_,
    List.Sublist.refl _, ?_, h1, h2, h3⟩
  · unfold storeResult; rw [e1]
  · simp only [List.map_cons, List.map_nil, reportOf, hp, Option.getD_some]
    rw [captureSymbols_congr [] h1]
  · intro x _; rfl

theorem vals_dep {done : List Step} {st : Step} (hs : SrcOk σ done st) {ρ ρ' : Asg} (h : ∀ st' ∈ done, ρ st'.ix = ρ' st'.ix) :
    vals s symbols legs st ρ = vals s symbols legs st ρ' := by
  unfold SrcOk at hs
  unfold vals
  cases hp : st.proc with
  | nodes itr => cases itr <;> rfl
  | edges itr => cases itr <;> rfl
  | connEdges src d =>
    rw [hp] at hs
    obtain ⟨_, st', h1, h2, _⟩ := hs
    simp only
    rw [← h2, h st' h1]
  | connNodes src use pn =>
    rw [hp] at hs
    obtain ⟨st', h1, h2, _⟩ := hs
    simp only
    rw [← h2, h st' h1]

theorem Done.snoc {ρ : Asg} {done : List Step} {st : Step} {v : Res} (hg : ∀ st ∈ done, SrcOk σ done st)
    (hst : SrcOk σ done st) (hf : ∀ st' ∈ done, st'.ix ≠ st.ix) (hd : Done s symbols legs ρ done)
    (hv : v ∈ vals s symbols legs st ρ) : Done s symbols legs (upd ρ st.ix (some v)) (done ++ [st]) := by
  have hsame : ∀ st' ∈ done, ρ st'.ix = upd ρ st.ix (some v) st'.ix := fun st' h' => (upd_other _ _ (hf st' h')).symm
  intro st' hst'
  rcases List.mem_append.1 hst' with h' | h'
  · obtain ⟨w, h1, h2⟩ := hd st' h'
    exact ⟨w, by rw [← hsame st' h']; exact h1, by rw [← vals_dep (hg st' h') hsame]; exact h2⟩
  · rw [List.mem_singleton.1 h']
    exact ⟨v, by simp, by rw [← vals_dep hst hsame]; exact hv⟩

theorem good_snoc {done : List Step} {st : Step} (hg : ∀ st ∈ done, SrcOk σ done st) (hst : SrcOk σ done st) :
    ∀ st' ∈ done ++ [st], SrcOk σ (done ++ [st]) st' := by
  intro st' hst'
  rcases List.mem_append.1 hst' with h' | h'
  · exact (hg st' h').mono (fun x hx => by simp [hx])
  · rw [List.mem_singleton.1 h']; exact hst.mono (fun x hx => by simp [hx])

theorem accepted_same {done pre mid : List Step} {ρ : Asg} {st i : Step} {v : Res} (hf : ∀ st' ∈ done, st'.ix ≠ st.ix)
    (hd : done = pre ++ i :: mid) : ∀ st' ∈ pre ++ [i], ρ st'.ix = upd ρ st.ix (some v) st'.ix := by
  intro st' h'
  rw [upd_other _ _ (hf st' _)]
  rw [hd]
  rcases List.mem_append.1 h' with h' | h'
  · simp [h']
  · rw [List.mem_singleton.1 h']; simp

/-- the node found by a node step -/
theorem Emits.checkNode (L : LegsOk s σ legs) {next : Run → Out} {done sts : List Step} {ρ : Asg} {pend : Option Nat} {st : Step}
    {n : Nat} (hg : ∀ st ∈ done, SrcOk σ done st) (hd : Done s symbols legs ρ done) (hst : StepOk σ symbols done pend st)
    (hval : st.item.nodeOk s n = true → inSymbol symbols st.item n = true → Res.node n ∈ vals s symbols legs st ρ)
    (hw : WF σ symbols (done ++ [st]) none sts) (hn : isNode st) (hall : (done ++ [st]) <+: all) {rep : Asg → Path × AMap String Res}
    (hnext : st.item.nodeOk s n = true → inSymbol symbols st.item n = true →
      Emits s symbols legs all rep bad (Agree symbols (done ++ st :: sts)) next (done ++ [st]) (upd ρ st.ix (some (.node n))) none
        (enum s symbols legs sts (upd ρ st.ix (some (.node n))))) :
    Emits s symbols legs all rep bad (Agree symbols (done ++ st :: sts)) (checkNode s symbols st next n) done ρ none
      (if st.item.nodeOk s n && inSymbol symbols st.item n then enum s symbols legs sts (upd ρ st.ix (some (.node n)))
       else []) := by
  intro r h1 h2 h3
  unfold Pat.checkNode
  by_cases hok : st.item.nodeOk s n = true
  · rw [if_pos hok]
    simp only [hok, Bool.true_and]
    rcases constrained L hg hd hst hn h2.val with ⟨hloc, c, hc, hin⟩ | ⟨st', a1, a2, a3, a4, a5, m, a6, a7⟩
    · have ha : Accepted s symbols legs all done ρ st (.node n) := by
        intro pre i mid hdd hF
        rcases h2.last pre i mid hdd hF.node.1 (hF.name ▸ hF.ne) (hF.name ▸ hF.free) (fun x hx => hF.name ▸ hF.mid x hx) with k | k
        · rw [hF.name, hloc] at k; cases k
        · exact (k mid st hF).congr (accepted_same hst.fresh hdd)
      rw [hc]
      have hb := hin n
      cases c with
      | none =>
        simp only [allows] at hb ⊢
        rw [if_pos hb.symm]
        exact Emits.visit hst.fresh hall ha (hnext hok hb.symm) r h1 h2 h3
      | some xs =>
        simp only [allows] at hb ⊢
        rw [hb]
        by_cases hx : inSymbol symbols st.item n = true
        · rw [if_pos hx, if_pos hx]
          exact Emits.visit hst.fresh hall ha (hnext hok hx) r h1 h2 h3
        · rw [if_neg hx, if_neg hx]
          exact .inl ⟨r, [], ⟨rfl, by simp⟩, by simp, by simp, by simp, h1, h2, h3⟩
    · rw [a7]
      simp only
      have hx : inSymbol symbols st.item n = true := by
        unfold inSymbol; rw [if_neg a4, a5]
      rw [if_pos hx]
      by_cases hmn : m = n
      · subst hmn
        have ha : Accepted s symbols legs all done ρ st (.node m) := by
          intro pre i mid hdd hF
          rcases h2.last pre i mid hdd hF.node.1 (hF.name ▸ hF.ne) (hF.name ▸ hF.free) (fun x hx => hF.name ▸ hF.mid x hx) with k | k
          · have hi : i ∈ done := by rw [hdd]; simp
            have hix := hst.fresh i hi
            obtain ⟨m', b1, _⟩ := node_val L hg hd hi hF.node.1
            have hmm : m' = m := by
              rw [hF.name, b1] at k
              unfold Item.isConstrainedNodes at a7
              rw [if_neg (fun h => a4 (length_zero_iff.1 h)), k] at a7
              simpa [Sym.ofRes] using a7
            refine ⟨upd ρ st.ix (some (.node m)), fun _ _ => rfl, ?_, ?_⟩
            · have := hd.snoc hg hst.src hst.fresh (v := .node m) (hval hok hx)
              rw [hdd] at this
              simpa using this
            · rw [upd_other _ _ hix, b1, hmm]; simp
          · exact (k mid st hF).congr (accepted_same hst.fresh hdd)
        simp only [List.contains_cons, BEq.rfl, Bool.true_or, if_true]
        exact Emits.visit hst.fresh hall ha (hnext hok hx) r h1 h2 h3
      · have : ([m] : List Nat).contains n = false := by
          simp only [List.contains_cons, List.contains_nil, Bool.or_false, beq_eq_false_iff_ne]
          exact Ne.symm hmn
        rw [this]
        refine .inl ⟨r, [], ⟨by simp, by simp⟩, by simp, by simp, fun x hag => (times_zero (fun hx' => ?_)).symm, h1, h2, h3⟩
        have e1 : x st.ix = some (.node n) := by
          rw [enum_frame hx' st.ix (fun st2 h2 => hw.later st (by simp) st2 h2)]; simp
        have e2 : x st'.ix = some (.node m) := by
          rw [enum_frame hx' st'.ix (fun st2 h2 => hw.later st' (by simp [a1]) st2 h2),
            upd_other _ _ (hst.fresh st' a1), a6]
        have := hag st' (by simp [a1]) st (by simp) a2 hn a3 (by rw [a3]; exact a4) (by rw [a3]; exact a5)
        rw [e1, e2] at this
        simp only [Option.some.injEq, Res.node.injEq] at this
        exact hmn this
  · rw [if_neg hok]
    simp only [Bool.not_eq_true] at hok
    simp only [hok, Bool.false_and]
    exact .inl ⟨r, [], ⟨rfl, by simp⟩, by simp, by simp, by simp, h1, h2, h3⟩

theorem getEdge_last {es : List PathElement} {l : PathElement} (h : es.getLast? = some l) :
    ({ path := es } : Path).getEdge ((({ path := es } : Path).numEdges : Int) - 1) = some (some l.edge) := by
  have hpos : 0 < es.length := by
    cases es with
    | nil => simp at h
    | cons => simp
  unfold Path.getEdge Path.numEdges
  simp only
  rw [if_pos (by omega), if_neg (by omega)]
  rw [List.getLast?_eq_getElem?] at h
  rw [show ((es.length : Int) - 1).toNat = es.length - 1 by omega, h]
  rfl

theorem emits_steps (L : LegsOk s σ legs) :
    ∀ (sts done : List Step) (pend : Option Nat) (ρ : Asg), WF σ symbols done pend sts → plan.steps = done ++ sts →
      (∀ st ∈ done, SrcOk σ done st) → Done s symbols legs ρ done →
      Emits s symbols legs plan.steps (reportOf s plan) (fun ρ => currentPath s.ends plan ρ = none) (Agree symbols plan.steps)
        (runSteps s symbols plan sts) done ρ
        (pendVal s.ends pend ρ) (enum s symbols legs sts ρ)
  | [], done, pend, ρ, hw, hpl, hg, hd => by
    have : pend = none := hw
    subst this
    rw [List.append_nil] at hpl
    rw [← hpl] at hd ⊢
    exact Emits.store
  | st :: sts, done, pend, ρ, ⟨hst, hw⟩, hpl, hg, hd => by
    have hpl' : plan.steps = (done ++ [st]) ++ sts := by rw [hpl]; simp
    have ih := fun v (hv : v ∈ vals s symbols legs st ρ) => emits_steps L sts (done ++ [st]) (pendAfter st)
      (upd ρ st.ix (some v)) hw hpl' (good_snoc hg hst.src) (hd.snoc hg hst.src hst.fresh hv)
    have hsrc := hst.src
    unfold SrcOk at hsrc
    have hall : (done ++ [st]) <+: plan.steps := ⟨sts, hpl'.symm⟩
    have hrun : runSteps s symbols plan (st :: sts) = fun r => runStep s symbols st (runSteps s symbols plan sts) r := by
      funext r; rw [runSteps]
    rw [hrun, enum]
    unfold runStep
    cases hp : st.proc with
    | nodes itr =>
      rw [hp] at hsrc
      obtain ⟨ns, rfl, hns⟩ := hsrc
      obtain ⟨hdn, hpn⟩ := hst.first _ (Or.inl hp)
      have hpa : pendAfter st = none := by unfold pendAfter; rw [hp]
      have hvals : vals s symbols legs st ρ =
          (ns.filter (fun n => st.item.nodeOk s n && inSymbol symbols st.item n)).map Res.node := by
        unfold vals; rw [hp]
      rw [hvals] at ih ⊢
      rw [hpa] at ih
      subst hpn
      simp only
      have hn : isNode st := by unfold isNode; rw [hp]; trivial
      intro r h1 h2 h3
      dsimp only
      unfold runNodes
      rcases constrained L hg hd hst hn h2.val with ⟨_, c, hc, hin⟩ | ⟨st', a1, _⟩
      · rw [hc]
        simp only
        rw [List.filter_filter]
        have hfil : (fun a => allows c a && st.item.nodeOk s a) =
            (fun n => st.item.nodeOk s n && inSymbol symbols st.item n) := by
          funext n; rw [hin n, Bool.and_comm]
        rw [hfil, forEach_map Res.node (fun v r => visit symbols st (runSteps s symbols plan sts) v r)]
        exact Emits.forEach (f := fun v => enum s symbols legs sts (upd ρ st.ix (some v)))
          (fun v hv => Emits.visit hst.fresh hall (fun pre i mid h _ => by rw [hdn] at h; simp at h) (ih v hv)) r h1 h2 h3
      · rw [hdn] at a1; simp at a1
    | edges itr =>
      rw [hp] at hsrc
      obtain ⟨es, rfl, hes⟩ := hsrc
      obtain ⟨hdn, hpn⟩ := hst.first _ (Or.inr hp)
      have hpa : pendAfter st = none := by unfold pendAfter; rw [hp]
      have hvals : vals s symbols legs st ρ = (es.filter (st.item.edgeOk s)).map (fun e => .path { path := [⟨e, false⟩] }) := by
        unfold vals; rw [hp]
      rw [hvals] at ih ⊢
      rw [hpa] at ih
      subst hpn
      simp only
      intro r h1 h2 h3
      dsimp only
      unfold runEdges
      simp only
      rw [forEach_map (fun e => Res.path { path := [⟨e, false⟩] })
        (fun v r => visit symbols st (runSteps s symbols plan sts) v r)]
      exact Emits.forEach (f := fun v => enum s symbols legs sts (upd ρ st.ix (some v)))
        (fun v hv => Emits.visit hst.fresh hall (fun pre i mid h _ => by rw [hdn] at h; simp at h) (ih v hv)) r h1 h2 h3
    | connEdges src d =>
      rw [hp] at hsrc
      obtain ⟨hlab, st', a1, a2, a3⟩ := hsrc
      have hpn := hst.conn _ _ hp
      subst hpn
      obtain ⟨n, b1, b2⟩ := node_val L hg hd a1 a3
      rw [a2] at b1
      have hvals : vals s symbols legs st ρ = (legs st.item d n).map (fun es => .path { path := es }) := by
        unfold vals; rw [hp]; simp only [b1]
      rw [hvals] at ih ⊢
      simp only
      intro r h1 h2 h3
      dsimp only
      rw [L.run st.item hlab d n b2 symbols st src _ r rfl (by rw [← a2, h1 st' a1, a2, b1]), List.flatMap_map]
      exact Emits.forEach (f := fun es => enum s symbols legs sts (upd ρ st.ix (some (.path { path := es }))))
        (fun es hes => Emits.visitLeg hp hst.fresh hall (ih _ (List.mem_map_of_mem hes))) r h1 h2 h3
    | connNodes src use pn =>
      obtain ⟨st', hsr, hpend⟩ := hst.node _ _ _ hp
      obtain ⟨es, n, l, e1, e2, e3, e4, e5, e6⟩ := source_val L hg hd hsr
      have hpa : pendAfter st = none := by unfold pendAfter; rw [hp]
      have hvals : vals s symbols legs st ρ =
          if st.item.nodeOk s n && inSymbol symbols st.item n then [.node n] else [] := by
        unfold vals; rw [hp]; simp only [e1, e3]
      have hn : isNode st := by unfold isNode; rw [hp]; trivial
      rw [hpa] at hw
      have key := Emits.checkNode (n := n) (all := plan.steps) L hg hd hst (fun k1 k2 => by rw [hvals, k1, k2]; simp) hw hn hall (rep := reportOf s plan)
        (bad := fun ρ => currentPath s.ends plan ρ = none)
        (next := runSteps s symbols plan sts) (fun k1 k2 => by
          have := ih (.node n) (by rw [hvals, k1, k2]; simp)
          rw [hpa] at this
          rw [← hpl]
          exact this)
      rw [← hpl] at key
      have hup : (if st.item.nodeOk s n && inSymbol symbols st.item n then
            enum s symbols legs sts (upd ρ st.ix (some (.node n))) else []) =
          (vals s symbols legs st ρ).flatMap (fun v => enum s symbols legs sts (upd ρ st.ix (some v))) := by
        rw [hvals]
        split <;> simp
      rw [hup] at key
      simp only
      intro r h1 h2 h3
      dsimp only
      have hres : r.result src = some (.path { path := es }) := by
        rw [← hsr.2.1, h1 st' hsr.1, hsr.2.1, e1]
      unfold runConnNodes
      rw [hres]
      simp only
      rw [getEdge_last e2]
      simp only
      by_cases hpn : pendAfter st' = none
      · rw [hpn] at hpend
        subst hpend
        have h3' : r.vnode = none := h3
        rw [h3']
        simp only
        rw [e6 hpn r h1]
        simp only
        exact key r h1 h2 h3
      · have hpv : pendVal s.ends pend ρ = some n := by
          obtain ⟨j, hj⟩ := Option.ne_none_iff_exists'.1 hpn
          have : j = src := by
            unfold pendAfter at hj
            split at hj
            · split at hj
              · cases hj
              · cases hj; exact hsr.2.1
            · cases hj
          subst this
          rw [hpend, hj]
          simp only [pendVal, e1]
          exact e5 hpn
        rw [hpv] at h3 ⊢
        rw [h3]
        simp only
        rcases key { r with vnode := none } h1 h2 rfl with ⟨r', o, ⟨a1, a0⟩, a2, a3, a4, a5, a6, a7⟩ | ⟨a1, a2⟩
        · rw [a1]
          exact .inl ⟨{ r' with vnode := some n }, o, ⟨rfl, a0⟩, a2, a3, a4, a5, a6, rfl⟩
        · rw [a1]
          exact .inr ⟨rfl, a2⟩

end
end Pat
end LPG

import Verif.Proofs.PatternPlan
/-!
# Assignments and matches
-/
namespace LPG
namespace Pat
open VPath

/-! ## The legs of a graph -/

section
variable {ops : List Op} (hv : Spec.ValidHistory ops) {s : State} (hs : run ops = some s)
include hv hs

open Classical in
noncomputable def legsOf : LegFun := fun p d n =>
  if h : p.labels.Nodup ∧ n ∈ (Spec.run ops).nodes then Classical.choose (legs_exist hv hs p h.1 d n h.2) else []

theorem legsOf_spec {p : Item} (hl : p.labels.Nodup) (d : State.Dir) {n : Nat} (hn : n ∈ (Spec.run ops).nodes) :
    (∀ es, es ∈ legsOf hv hs p d n ↔ IsLeg (Spec.run ops) p d n es) ∧
      ((d = .any → p.min = 1 ∧ p.max = 1 → NoLoop (Spec.run ops) p) → (legsOf hv hs p d n).Nodup) ∧
      (∀ es ∈ legsOf hv hs p d n, times es (legsOf hv hs p d n) = if FoundTwice (Spec.run ops) p d es then 2 else 1) ∧
      ∀ (symbols : Symbols) (st : Step) (source : Nat) (next : Run → Out) (r : Run), st.item = p →
        r.result source = some (.node n) →
        runConnEdges s symbols st source d next r = forEach (visitLeg s symbols st next) (legsOf hv hs p d n) r := by
  have h : p.labels.Nodup ∧ n ∈ (Spec.run ops).nodes := ⟨hl, hn⟩
  unfold legsOf
  rw [dif_pos h]
  exact Classical.choose_spec (legs_exist hv hs p h.1 d n h.2)

theorem legsOf_ok : LegsOk s (Spec.run ops) (legsOf hv hs) := by
  have c := Core.run hv hs
  refine ⟨fun p d n es he => ?_, fun p hl d n hn => (legsOf_spec hv hs hl d hn).2.2.2,
    fun e he => ⟨(c.eattr e he).1, (c.eattr e he).2.1⟩, fun e he => c.ends e he⟩
  by_cases h : p.labels.Nodup ∧ n ∈ (Spec.run ops).nodes
  · exact ⟨h.2, ((legsOf_spec hv hs h.1 d h.2).1 es).1 he⟩
  · unfold legsOf at he
    rw [dif_neg h] at he
    simp at he

end

/-! ## What the values of the items are -/

theorem inSymbol_iff {symbols : Symbols} {p : Item} {n : Nat} : inSymbol symbols p n = true ↔
    (p.name ≠ "" → ∀ sym, AMap.get symbols p.name = some sym → ∃ xs, sym.nodes = some xs ∧ n ∈ xs) := by
  unfold inSymbol
  by_cases h : p.name = ""
  · simp [h]
  · rw [if_neg h]
    cases hg : AMap.get symbols p.name with
    | none => simp
    | some sym =>
      cases hn : sym.nodes with
      | none => simp [h, hn]
      | some xs => simp [h, hn]

/-- the value of an edge item and those of its neighbours -/
def Leg (σ : Spec) (xs : List Nat) (index i : Nat) (p : Item) (a : Nat) (es : List PathElement) (b : Nat) : Prop :=
  (index < i → IsLeg σ p (itemDir p) a es ∧ endOf σ.ends a es = b) ∧
  (i < index → IsLeg σ p (flipDir (itemDir p)) b es ∧ endOf σ.ends b es = a) ∧
  (i = index → ∃ e ∈ xs, es = [⟨e, false⟩] ∧ σ.EdgeMatches p.labels p.props e ∧ Along σ.ends (itemDir p) a e b)

/-- the values of an assignment fit the items -/
structure Good (σ : Spec) (symbols : Symbols) (p : Pattern) (xs : List Nat) (index : Nat) (ρ : Asg) : Prop where
  node : ∀ i, i < p.length → i % 2 = 0 → ∃ n, ρ i = some (.node n) ∧ NodeFits σ symbols (itemAt p i) n ∧ (i = index → n ∈ xs)
  edge : ∀ i, i < p.length → i % 2 = 1 → ∃ a es b, ρ (i - 1) = some (.node a) ∧ ρ i = some (.path { path := es }) ∧
    ρ (i + 1) = some (.node b) ∧ Leg σ xs index i (itemAt p i) a es b

/-- the values of an assignment fit those items -/
structure GoodOn (S : Nat → Prop) (σ : Spec) (symbols : Symbols) (p : Pattern) (xs : List Nat) (index : Nat) (ρ : Asg) : Prop where
  node : ∀ i, i < p.length → S i → i % 2 = 0 → ∃ n, ρ i = some (.node n) ∧ NodeFits σ symbols (itemAt p i) n ∧ (i = index → n ∈ xs)
  edge : ∀ i, i < p.length → S i → i % 2 = 1 → ∃ a es b, ρ (i - 1) = some (.node a) ∧ ρ i = some (.path { path := es }) ∧
    ρ (i + 1) = some (.node b) ∧ Leg σ xs index i (itemAt p i) a es b

/-- the items visited by a search up to some node item -/
structure Visited (S : Nat → Prop) (index : Nat) : Prop where
  start : S index
  fwd : ∀ i, index < i → S i → S (i - 1)
  back : ∀ i, i < index → S i → S (i + 1)
  fwdEdge : ∀ i, i % 2 = 1 → index ≤ i → S i → S (i + 1)
  backEdge : ∀ i, i % 2 = 1 → i < index → S i → S (i - 1)

def stepsOf (p : Pattern) (xs : List Nat) (index : Nat) : List Step := (order index p.length).map (stepOf p (some xs) index)

section
variable {σ : Spec} {symbols : Symbols} {p : Pattern} {xs : List Nat} {index : Nat} {s : State} {legs : LegFun}

theorem mem_stepsOf (h : index < p.length) {st : Step} :
    st ∈ stepsOf p xs index ↔ ∃ i, i < p.length ∧ st = stepOf p (some xs) index i := by
  unfold stepsOf
  rw [List.mem_map]
  constructor
  · rintro ⟨i, h1, rfl⟩; exact ⟨i, (mem_order h).1 h1, rfl⟩
  · rintro ⟨i, h1, rfl⟩; exact ⟨i, (mem_order h).2 h1, rfl⟩

theorem WF.srcOk : ∀ {sts done : List Step} {pend : Option Nat}, WF σ symbols done pend sts →
    (∀ st ∈ done, SrcOk σ done st) → ∀ st ∈ done ++ sts, SrcOk σ (done ++ sts) st
  | [], done, _, _, h, st, hst => by simpa using h st (by simpa using hst)
  | st :: sts, done, pend, ⟨h1, h2⟩, h, st', hst' => by
    have := WF.srcOk h2 (good_snoc h h1.src) st' (by simpa using hst')
    simpa using this

/-- the same for the steps visited so far -/
theorem WF.srcOk_prefix : ∀ {l t done : List Step} {pend : Option Nat}, WF σ symbols done pend (l ++ t) →
    (∀ st ∈ done, SrcOk σ done st) → ∀ st ∈ done ++ l, SrcOk σ (done ++ l) st
  | [], _, done, _, _, h, st, hst => by simpa using h st (by simpa using hst)
  | st :: l, t, done, pend, ⟨h1, h2⟩, h, st', hst' => by
    have := WF.srcOk_prefix h2 (good_snoc h h1.src) st' (by simpa using hst')
    simpa using this

/-! the values of the steps -/

theorem vals_fwd_edge {i a : Nat} {ρ : Asg} (h : index < i) (ho : i % 2 = 1) (ha : ρ (i - 1) = some (.node a)) :
    vals s symbols legs (stepOf p (some xs) index i) ρ =
      (legs (itemAt p i) (itemDir (itemAt p i)) a).map (fun es => .path { path := es }) := by
  unfold vals
  rw [fwd_proc h, if_pos ho]
  simp only [ha, stepOf_item]

theorem vals_back_edge {i b : Nat} {ρ : Asg} (h : i < index) (ho : i % 2 = 1) (hb : ρ (i + 1) = some (.node b)) :
    vals s symbols legs (stepOf p (some xs) index i) ρ =
      (legs (itemAt p i) (flipDir (itemDir (itemAt p i))) b).map (fun es => .path { path := es }) := by
  unfold vals
  rw [back_proc h, if_pos ho]
  simp only [hb, stepOf_item]

theorem vals_start_edge {ρ : Asg} (ho : index % 2 = 1) :
    vals s symbols legs (stepOf p (some xs) index index) ρ =
      (xs.filter ((itemAt p index).edgeOk s)).map (fun e => .path { path := [⟨e, false⟩] }) := by
  unfold vals
  rw [start_proc, if_neg (by omega)]
  simp only [stepOf_item]

theorem vals_start_node {ρ : Asg} (ho : index % 2 = 0) :
    vals s symbols legs (stepOf p (some xs) index index) ρ =
      (xs.filter (fun n => (itemAt p index).nodeOk s n && inSymbol symbols (itemAt p index) n)).map Res.node := by
  unfold vals
  rw [start_proc, if_pos ho]
  simp only [stepOf_item]

theorem vals_fwd_node {i n : Nat} {q : Path} {ρ : Asg} (h : index < i) (ho : i % 2 = 0) (ha : ρ (i - 1) = some (.path q))
    (he : endVal s.ends (useOf (itemDir (itemAt p (i - 1)))) q = some n) :
    vals s symbols legs (stepOf p (some xs) index i) ρ =
      if (itemAt p i).nodeOk s n && inSymbol symbols (itemAt p i) n then [.node n] else [] := by
  unfold vals
  rw [fwd_proc h, if_neg (by omega)]
  simp only [ha, he, stepOf_item]

theorem vals_back_node {i n : Nat} {q : Path} {ρ : Asg} (h : i < index) (ho : i % 2 = 0) (ha : ρ (i + 1) = some (.path q))
    (he : endVal s.ends (useOf (flipDir (itemDir (itemAt p (i + 1))))) q = some n) :
    vals s symbols legs (stepOf p (some xs) index i) ρ =
      if (itemAt p i).nodeOk s n && inSymbol symbols (itemAt p i) n then [.node n] else [] := by
  unfold vals
  rw [back_proc h, if_neg (by omega)]
  simp only [ha, he, stepOf_item]

/-- the end of an edge in a direction -/
def tipOf (σ : Spec) (d : State.Dir) (e : Nat) : Nat :=
  match d with
  | .outgoing => σ.dst e
  | _ => σ.src e

theorem endVal_fwd (L : LegsOk s σ legs) {d : State.Dir} (hd : d ≠ .any) {e : Nat} (he : e ∈ σ.edges) {b : Nat} :
    endVal s.ends (useOf d) { path := [⟨e, false⟩] } = some b ↔
      b = tipOf σ d e := by
  have h := L.ends e he
  have h1 : s.ends.src e = σ.src e := h.1
  have h2 : s.ends.dst e = σ.dst e := h.2
  cases d with
  | any => exact absurd rfl hd
  | incoming => simp [useOf, endVal, h1, eq_comm, tipOf]
  | outgoing => simp [useOf, endVal, h2, eq_comm, tipOf]

end

section
variable {ops : List Op} (hv : Spec.ValidHistory ops) {s : State} (hs : run ops = some s)
variable {symbols : Symbols} {p : Pattern} {xs : List Nat} {index : Nat}
include hv hs

theorem fits_iff {q : Item} {n : Nat} (hn : n ∈ (Spec.run ops).nodes) :
    (q.nodeOk s n && inSymbol symbols q n) = true ↔ NodeFits (Spec.run ops) symbols q n := by
  have c := Core.run hv hs
  rw [Bool.and_eq_true, inSymbol_iff]
  unfold NodeFits
  have : q.nodeOk s n = true ↔ (Spec.run ops).NodeMatches q.labels q.props n := nodeFilter_spec c hn q.labels q.props
  rw [this]
  exact ⟨fun h => ⟨hn, h.1, h.2⟩, fun h => ⟨h.2.1, h.2.2⟩⟩

theorem done_goodOn (A : Admissible (Spec.run ops) symbols p xs index) {S : Nat → Prop} (V : Visited S index) {ρ : Asg}
    (hval : ∀ i, i < p.length → S i → ∃ v, ρ i = some v ∧ v ∈ vals s symbols (legsOf hv hs) (stepOf p (some xs) index i) ρ)
    (hnode : ∀ i, i < p.length → S i → i % 2 = 0 → ∃ n, ρ i = some (.node n) ∧ n ∈ (Spec.run ops).nodes)
    (hstart : index % 2 = 1 → ¬ S (index - 1) → ∀ e, ρ index = some (.path { path := [⟨e, false⟩] }) →
      ρ (index - 1) = some (.node (tipOf (Spec.run ops) (flipDir (itemDir (itemAt p index))) e))) :
    GoodOn S (Spec.run ops) symbols p xs index ρ := by
  have L := legsOf_ok hv hs
  have c := Core.run hv hs
  have hlt := A.lt
  have hodd := A.odd
  have hedgeF : ∀ i, i < p.length → S i → i % 2 = 1 → index < i → ∃ a es b, ρ (i - 1) = some (.node a) ∧
      ρ i = some (.path { path := es }) ∧ ρ (i + 1) = some (.node b) ∧
      es ∈ legsOf hv hs (itemAt p i) (itemDir (itemAt p i)) a := by
    intro i hi hS ho h
    obtain ⟨a, ha, _⟩ := hnode (i - 1) (by omega) (V.fwd i h hS) (by omega)
    obtain ⟨b, hb, _⟩ := hnode (i + 1) (by omega) (V.fwdEdge i ho (by omega) hS) (by omega)
    obtain ⟨v, hv1, hv2⟩ := hval i hi hS
    rw [vals_fwd_edge h ho ha, List.mem_map] at hv2
    obtain ⟨es, h1, rfl⟩ := hv2
    exact ⟨a, es, b, ha, hv1, hb, h1⟩
  have hedgeB : ∀ i, i < p.length → S i → i % 2 = 1 → i < index → ∃ a es b, ρ (i - 1) = some (.node a) ∧
      ρ i = some (.path { path := es }) ∧ ρ (i + 1) = some (.node b) ∧
      es ∈ legsOf hv hs (itemAt p i) (flipDir (itemDir (itemAt p i))) b := by
    intro i hi hS ho h
    obtain ⟨a, ha, _⟩ := hnode (i - 1) (by omega) (V.backEdge i ho h hS) (by omega)
    obtain ⟨b, hb, _⟩ := hnode (i + 1) (by omega) (V.back i h hS) (by omega)
    obtain ⟨v, hv1, hv2⟩ := hval i hi hS
    rw [vals_back_edge h ho hb, List.mem_map] at hv2
    obtain ⟨es, h1, rfl⟩ := hv2
    exact ⟨a, es, b, ha, hv1, hb, h1⟩
  have hedgeS : index % 2 = 1 → ∃ e ∈ xs, ρ index = some (.path { path := [⟨e, false⟩] }) ∧ e ∈ (Spec.run ops).edges ∧
      (Spec.run ops).EdgeMatches (itemAt p index).labels (itemAt p index).props e := by
    intro ho
    obtain ⟨v, hv1, hv2⟩ := hval index hlt V.start
    rw [vals_start_edge ho, List.mem_map] at hv2
    obtain ⟨e, h1, rfl⟩ := hv2
    obtain ⟨h2, h3⟩ := List.mem_filter.1 h1
    have hl := A.edges ho e h2
    exact ⟨e, h2, hv1, hl, (edgeFilter_spec c hl _ _).1 h3⟩
  -- a node found by following a leg
  have hfwd : ∀ i, i < p.length → S i → i % 2 = 0 → index < i → ∀ es n, ρ (i - 1) = some (.path { path := es }) →
      endVal s.ends (useOf (itemDir (itemAt p (i - 1)))) { path := es } = some n → ρ i = some (.node n) ∧
        ((itemAt p i).nodeOk s n && inSymbol symbols (itemAt p i) n) = true := by
    intro i hi hS he h es n h1 h2
    obtain ⟨v, hv1, hv2⟩ := hval i hi hS
    rw [vals_fwd_node h he h1 h2] at hv2
    split at hv2
    · rw [List.mem_singleton.1 hv2] at hv1; exact ⟨hv1, by assumption⟩
    · simp at hv2
  have hback : ∀ i, i < p.length → S i → i % 2 = 0 → i < index → ∀ es n, ρ (i + 1) = some (.path { path := es }) →
      endVal s.ends (useOf (flipDir (itemDir (itemAt p (i + 1))))) { path := es } = some n → ρ i = some (.node n) ∧
        ((itemAt p i).nodeOk s n && inSymbol symbols (itemAt p i) n) = true := by
    intro i hi hS he h es n h1 h2
    obtain ⟨v, hv1, hv2⟩ := hval i hi hS
    rw [vals_back_node h he h1 h2] at hv2
    split at hv2
    · rw [List.mem_singleton.1 hv2] at hv1; exact ⟨hv1, by assumption⟩
    · simp at hv2
  constructor
  · intro i hi hS he
    obtain ⟨n, hn, hn'⟩ := hnode i hi hS he
    refine ⟨n, hn, ?_⟩
    rcases Nat.lt_trichotomy i index with h | h | h
    · refine ⟨(fits_iff hv hs hn').1 ?_, fun h => by omega⟩
      by_cases hx : i + 1 < index
      · obtain ⟨a, es, b, k1, k2, k3, k7⟩ := hedgeB (i + 1) (by omega) (V.back i h hS) (by omega) hx
        obtain ⟨m1, m2, m3⟩ := endVal_leg L k7
        obtain ⟨z1, z2⟩ := hback i hi hS he h es _ k2 m1
        rw [hn, Option.some.injEq, Res.node.injEq] at z1
        rw [z1]; exact z2
      · have hx' : i + 1 = index := by omega
        obtain ⟨e, y1, y2, y3, y4⟩ := hedgeS (by omega)
        have hdir := A.directed (by omega)
        rw [← hx'] at hdir y2
        obtain ⟨z1, z2⟩ := hback i hi hS he h _ _ y2 ((endVal_fwd L (mt flip_any.1 hdir) y3).2 rfl)
        rw [hn, Option.some.injEq, Res.node.injEq] at z1
        rw [z1]; exact z2
    · subst h
      obtain ⟨v, hv1, hv2⟩ := hval i hi hS
      rw [vals_start_node he, List.mem_map] at hv2
      obtain ⟨m, h1, rfl⟩ := hv2
      obtain ⟨h2, h3⟩ := List.mem_filter.1 h1
      rw [hn, Option.some.injEq, Res.node.injEq] at hv1
      rw [hv1]
      exact ⟨(fits_iff hv hs (hv1 ▸ hn')).1 h3, fun _ => h2⟩
    · refine ⟨(fits_iff hv hs hn').1 ?_, fun h => by omega⟩
      by_cases hx : index < i - 1
      · obtain ⟨a, es, b, k1, k2, k3, k6⟩ := hedgeF (i - 1) (by omega) (V.fwd i h hS) (by omega) hx
        obtain ⟨m1, m2, m3⟩ := endVal_leg L k6
        obtain ⟨z1, z2⟩ := hfwd i hi hS he h es _ k2 m1
        rw [hn, Option.some.injEq, Res.node.injEq] at z1
        rw [z1]; exact z2
      · have hx' : i - 1 = index := by omega
        obtain ⟨e, y1, y2, y3, y4⟩ := hedgeS (by omega)
        have hdir := A.directed (by omega)
        rw [← hx'] at hdir y2
        obtain ⟨z1, z2⟩ := hfwd i hi hS he h _ _ y2 ((endVal_fwd L hdir y3).2 rfl)
        rw [hn, Option.some.injEq, Res.node.injEq] at z1
        rw [z1]; exact z2
  · intro i hi hS ho
    rcases Nat.lt_trichotomy i index with h | h | h
    · obtain ⟨a, es, b, k1, k2, k3, k7⟩ := hedgeB i hi hS ho h
      refine ⟨a, es, b, k1, k2, k3, fun h' => by omega, fun _ => ?_, fun h' => by omega⟩
      obtain ⟨m1, m2, m3⟩ := endVal_leg L k7
      have e1 : i - 1 + 1 = i := by omega
      obtain ⟨z1, z2⟩ := hback (i - 1) (by omega) (V.backEdge i ho h hS) (by omega) (by omega) es _ (by rw [e1]; exact k2)
        (by rw [e1]; exact m1)
      rw [k1, Option.some.injEq, Res.node.injEq] at z1
      exact ⟨(L.mem _ _ _ _ k7).2, z1.symm⟩
    · subst h
      obtain ⟨e, y1, k2, y3, y4⟩ := hedgeS ho
      have hdir := A.directed ho
      have e1 : i - 1 + 1 = i := by omega
      obtain ⟨z1, _⟩ := hfwd (i + 1) (by omega) (V.fwdEdge i ho (Nat.le_refl _) hS) (by omega) (by omega) _ _ k2
        ((endVal_fwd L hdir y3).2 rfl)
      have w1 : ρ (i - 1) = some (.node (tipOf (Spec.run ops) (flipDir (itemDir (itemAt p i))) e)) := by
        by_cases hSS : S (i - 1)
        · obtain ⟨w1, _⟩ := hback (i - 1) (by omega) hSS (by omega) (by omega) _ _ (by rw [e1]; exact k2)
            (by rw [e1]; exact (endVal_fwd L (mt flip_any.1 hdir) y3).2 rfl)
          exact w1
        · exact hstart ho hSS e k2
      refine ⟨_, _, _, w1, k2, z1, fun h => by omega, fun h => by omega, fun _ => ⟨e, y1, rfl, y4, ?_⟩⟩
      cases hdd : itemDir (itemAt p i) with
      | any => exact absurd hdd hdir
      | incoming => exact ⟨rfl, rfl⟩
      | outgoing => exact ⟨rfl, rfl⟩
    · obtain ⟨a, es, b, k1, k2, k3, k6⟩ := hedgeF i hi hS ho h
      refine ⟨a, es, b, k1, k2, k3, fun _ => ?_, fun h' => by omega, fun h' => by omega⟩
      obtain ⟨m1, m2, m3⟩ := endVal_leg L k6
      obtain ⟨z1, z2⟩ := hfwd (i + 1) (by omega) (V.fwdEdge i ho (by omega) hS) (by omega) (by omega) es _ k2 m1
      rw [k3, Option.some.injEq, Res.node.injEq] at z1
      exact ⟨(L.mem _ _ _ _ k6).2, z1.symm⟩

theorem done_good (A : Admissible (Spec.run ops) symbols p xs index) {ρ : Asg}
    (hd : Done s symbols (legsOf hv hs) ρ (stepsOf p xs index)) : Good (Spec.run ops) symbols p xs index ρ := by
  have hg : ∀ st ∈ stepsOf p xs index, SrcOk (Spec.run ops) (stepsOf p xs index) st := by
    have := (show WF (Spec.run ops) symbols [] none (stepsOf p xs index) from plan_wf A).srcOk (by simp)
    rw [List.nil_append] at this
    exact this
  have G := done_goodOn hv hs A (S := fun _ => True) (ρ := ρ)
    ⟨trivial, fun _ _ _ => trivial, fun _ _ _ => trivial, fun _ _ _ _ => trivial, fun _ _ _ _ => trivial⟩
    (fun i hi _ => by simpa using hd _ ((mem_stepsOf A.lt).2 ⟨i, hi, rfl⟩))
    (fun i hi _ he => by
      simpa using node_val (legsOf_ok hv hs) hg hd ((mem_stepsOf A.lt).2 ⟨i, hi, rfl⟩) (isNode_stepOf.2 he))
    (fun _ h => absurd trivial h)
  exact ⟨fun i hi he => G.node i hi trivial he, fun i hi ho => G.edge i hi trivial ho⟩

theorem good_done (A : Admissible (Spec.run ops) symbols p xs index) {ρ : Asg}
    (G : Good (Spec.run ops) symbols p xs index ρ) : Done s symbols (legsOf hv hs) ρ (stepsOf p xs index) := by
  have L := legsOf_ok hv hs
  have c := Core.run hv hs
  have hlt := A.lt
  have hodd := A.odd
  intro st hst
  obtain ⟨i, hi, rfl⟩ := (mem_stepsOf A.lt).1 hst
  rw [stepOf_ix]
  by_cases he : i % 2 = 0
  · obtain ⟨n, h1, h2, h3⟩ := G.node i hi he
    refine ⟨_, h1, ?_⟩
    have hok := (fits_iff hv hs h2.1).2 h2
    rcases Nat.lt_trichotomy i index with h | h | h
    · obtain ⟨a, es, b, k1, k2, k3, k4, k5, k6⟩ := G.edge (i + 1) (by omega) (by omega)
      rw [show i + 1 - 1 = i by omega, h1, Option.some.injEq, Res.node.injEq] at k1
      subst k1
      have hev : endVal s.ends (useOf (flipDir (itemDir (itemAt p (i + 1))))) { path := es } = some n := by
        by_cases hx : i + 1 < index
        · obtain ⟨y1, y2⟩ := k5 hx
          obtain ⟨b', q1, q2, _⟩ := G.node (i + 1 + 1) (by omega) (by omega)
          rw [k3, Option.some.injEq, Res.node.injEq] at q1
          rw [← y2]
          exact (endVal_leg L (((legsOf_spec hv hs (A.labels (i + 1) (by omega) (by omega)) _ (q1 ▸ q2.1)).1 es).2 y1)).1
        · have hx' : i + 1 = index := by omega
          obtain ⟨e, y1, rfl, y3, y4⟩ := k6 hx'
          have hdir := A.directed (by omega)
          have hl := A.edges (by omega) e y1
          rw [← hx'] at hdir
          refine (endVal_fwd L (mt flip_any.1 hdir) hl).2 ?_
          cases hdd : itemDir (itemAt p (i + 1)) with
          | any => exact absurd hdd hdir
          | incoming => rw [hdd] at y4; exact y4.1.symm
          | outgoing => rw [hdd] at y4; exact y4.1.symm
      rw [vals_back_node h he k2 hev, if_pos hok]
      simp
    · subst h
      rw [vals_start_node he, List.mem_map]
      exact ⟨n, List.mem_filter.2 ⟨h3 rfl, hok⟩, rfl⟩
    · obtain ⟨a, es, b, k1, k2, k3, k4, k5, k6⟩ := G.edge (i - 1) (by omega) (by omega)
      rw [show i - 1 + 1 = i by omega, h1, Option.some.injEq, Res.node.injEq] at k3
      subst k3
      have hev : endVal s.ends (useOf (itemDir (itemAt p (i - 1)))) { path := es } = some n := by
        by_cases hx : index < i - 1
        · obtain ⟨y1, y2⟩ := k4 hx
          obtain ⟨b', q1, q2, _⟩ := G.node (i - 1 - 1) (by omega) (by omega)
          rw [k1, Option.some.injEq, Res.node.injEq] at q1
          rw [← y2]
          exact (endVal_leg L (((legsOf_spec hv hs (A.labels (i - 1) (by omega) (by omega)) _ (q1 ▸ q2.1)).1 es).2 y1)).1
        · have hx' : i - 1 = index := by omega
          obtain ⟨e, y1, rfl, y3, y4⟩ := k6 hx'
          have hdir := A.directed (by omega)
          have hl := A.edges (by omega) e y1
          rw [← hx'] at hdir
          refine (endVal_fwd L hdir hl).2 ?_
          cases hdd : itemDir (itemAt p (i - 1)) with
          | any => exact absurd hdd hdir
          | incoming => rw [hdd] at y4; exact y4.2.symm
          | outgoing => rw [hdd] at y4; exact y4.2.symm
      rw [vals_fwd_node h he k2 hev, if_pos hok]
      simp
  · have ho : i % 2 = 1 := by omega
    obtain ⟨a, es, b, k1, k2, k3, k4, k5, k6⟩ := G.edge i hi ho
    obtain ⟨a', q1, q2, _⟩ := G.node (i - 1) (by omega) (by omega)
    obtain ⟨b', r1, r2, _⟩ := G.node (i + 1) (by omega) (by omega)
    rw [k1, Option.some.injEq, Res.node.injEq] at q1
    rw [k3, Option.some.injEq, Res.node.injEq] at r1
    refine ⟨_, k2, ?_⟩
    rcases Nat.lt_trichotomy i index with h | h | h
    · rw [vals_back_edge h ho k3, List.mem_map]
      exact ⟨es, ((legsOf_spec hv hs (A.labels i hi ho) _ (r1 ▸ r2.1)).1 es).2 (k5 h).1, rfl⟩
    · subst h
      obtain ⟨e, y1, rfl, y3, y4⟩ := k6 rfl
      rw [vals_start_edge ho, List.mem_map]
      exact ⟨e, List.mem_filter.2 ⟨y1, (edgeFilter_spec c (A.edges ho e y1) _ _).2 y3⟩, rfl⟩
    · rw [vals_fwd_edge h ho k1, List.mem_map]
      exact ⟨es, ((legsOf_spec hv hs (A.labels i hi ho) _ (q1 ▸ q2.1)).1 es).2 (k4 h).1, rfl⟩

/-- the assignments to the items of a pattern are the good ones -/
theorem enum_good (A : Admissible (Spec.run ops) symbols p xs index) {ρ : Asg} :
    ρ ∈ enum s symbols (legsOf hv hs) (stepsOf p xs index) (fun _ => none) ↔
      (∀ i, p.length ≤ i → ρ i = none) ∧ Good (Spec.run ops) symbols p xs index ρ := by
  rw [enum_mem (show WF (Spec.run ops) symbols [] none (stepsOf p xs index) from plan_wf A)]
  have hoff : (∀ i, (∀ st ∈ stepsOf p xs index, st.ix ≠ i) → ρ i = none) ↔ ∀ i, p.length ≤ i → ρ i = none := by
    constructor
    · intro h i hi
      refine h i (fun st hst => ?_)
      obtain ⟨j, hj, rfl⟩ := (mem_stepsOf A.lt).1 hst
      rw [stepOf_ix]; omega
    · intro h i hi
      refine h i (Nat.le_of_not_lt (fun hlt => ?_))
      exact hi _ ((mem_stepsOf A.lt).2 ⟨i, hlt, rfl⟩) stepOf_ix
  rw [hoff]
  exact ⟨fun h => ⟨h.1, done_good hv hs A h.2⟩, fun h => ⟨h.1, good_done hv hs A h.2⟩⟩

end

end Pat
end LPG

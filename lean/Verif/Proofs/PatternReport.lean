import Verif.Proofs.PatternMatch
/-!
# Reports and matches
-/
namespace LPG
namespace Pat
open VPath

/-- the value of an item, as a match has it -/
def valOf (index i : Nat) : Option Res → Val
  | some (.node n) => .node n
  | some (.path p) => .trail (if i < index then (p.path.map (·.edge)).reverse else p.path.map (·.edge))
  | none => .node 0

/-- the match of an assignment -/
def matchOf (index len : Nat) (ρ : Asg) : Match := (List.range len).map (fun i => valOf index i (ρ i))

theorem matchOf_get {index len : Nat} {ρ : Asg} {i : Nat} (h : i < len) :
    (matchOf index len ρ)[i]? = some (valOf index i (ρ i)) := by
  unfold matchOf
  rw [List.getElem?_map, List.getElem?_range h]
  rfl

theorem matchOf_length {index len : Nat} {ρ : Asg} : (matchOf index len ρ).length = len := by simp [matchOf]

/-- What is needed for a plan to find matches only, and all matches that begin with one of the items of the start. -/
structure Fair (σ : Spec) (symbols : Symbols) (p : Pattern) (xs : List Nat) (index : Nat) : Prop
    extends Admissible σ symbols p xs index where
  free : ∀ i, i < p.length → i % 2 = 1 → (itemAt p i).name ≠ "" → AMap.get symbols (itemAt p i).name = none
  one : index % 2 = 1 → (itemAt p index).max = 1 ∧ (itemAt p index).min ≤ 1

/-- What is needed for a plan to find all matches and nothing else. -/
structure Exact (σ : Spec) (symbols : Symbols) (p : Pattern) (xs : List Nat) (index : Nat) : Prop
    extends Fair σ symbols p xs index where
  allNodes : index % 2 = 0 → ∀ n, NodeFits σ symbols (itemAt p index) n → n ∈ xs
  allEdges : index % 2 = 1 → ∀ e ∈ σ.edges, σ.EdgeMatches (itemAt p index).labels (itemAt p index).props e → e ∈ xs

section
variable {σ : Spec} {symbols : Symbols} {p : Pattern} {xs : List Nat} {index : Nat}

theorem leg_fits (E : Fair σ symbols p xs index) {i a b : Nat} {es : List PathElement} (hi : i < p.length) (ho : i % 2 = 1)
    (h : Leg σ xs index i (itemAt p i) a es b) :
    EdgeFits σ symbols (itemAt p i) a (if i < index then (es.map (·.edge)).reverse else es.map (·.edge)) b := by
  obtain ⟨h1, h2, h3⟩ := h
  have hname : (itemAt p i).name ≠ "" → ∀ sym, AMap.get symbols (itemAt p i).name = some sym →
      ∃ ys, sym.edges = some ys ∧ ∀ e ∈ (if i < index then (es.map (·.edge)).reverse else es.map (·.edge)), e ∈ ys := by
    intro hn sym hsym
    rw [E.free i hi ho hn] at hsym
    cases hsym
  rcases Nat.lt_trichotomy i index with hlt | heq | hgt
  · obtain ⟨⟨k1, k2, k3, k4, k5⟩, k6⟩ := h2 hlt
    rw [if_pos hlt] at hname ⊢
    refine ⟨by simpa using k1, ?_, ?_, ?_, by simpa using k5, hname⟩
    · unfold List.Nodup at k2 ⊢
      rw [List.pairwise_reverse]
      exact k2.imp (fun h h' => h h'.symm)
    · intro e he
      rw [List.mem_reverse, List.mem_map] at he
      obtain ⟨pe, hpe, rfl⟩ := he
      exact k3 pe hpe
    · rw [← joins_reverse, List.reverse_reverse, ← k6]
      exact rides_joins k4
  · obtain ⟨e, k1, rfl, k2, k3⟩ := h3 heq
    rw [if_neg (by omega)] at hname ⊢
    subst heq
    have hone := E.one ho
    refine ⟨by simp, by simp, ?_, ⟨b, k3, rfl⟩, ?_, hname⟩
    · intro e' he'
      rw [List.mem_map] at he'
      obtain ⟨pe, hpe, rfl⟩ := he'
      rw [List.mem_singleton.1 hpe]
      exact ⟨E.edges ho e k1, k2⟩
    · unfold LengthOk
      simp only [List.map_cons, List.map_nil, List.length_singleton]
      omega
  · obtain ⟨⟨k1, k2, k3, k4, k5⟩, k6⟩ := h1 hgt
    rw [if_neg (by omega)] at hname ⊢
    refine ⟨by simpa using k1, k2, ?_, ?_, by simpa using k5, hname⟩
    · intro e he
      rw [List.mem_map] at he
      obtain ⟨pe, hpe, rfl⟩ := he
      exact k3 pe hpe
    · rw [← k6]; exact rides_joins k4

theorem node_fits_congr {symbols' : Symbols} {q : Item} {n : Nat}
    (h : q.name ≠ "" → AMap.get symbols' q.name = AMap.get symbols q.name) (hf : NodeFits σ symbols q n) :
    NodeFits σ symbols' q n :=
  ⟨hf.1, hf.2.1, fun hne sym hg => hf.2.2 hne sym (by rw [← h hne]; exact hg)⟩

theorem goodOn_matches {S : Nat → Prop} (E : Fair σ symbols p xs index) {ρ : Asg} (G : GoodOn S σ symbols p xs index ρ) :
    ∀ i, i < p.length → S i → ItemFits σ symbols p (matchOf index p.length ρ) i := by
  have hodd := E.odd
  intro i hi hS
  unfold ItemFits
  split
  · rename_i he
    obtain ⟨n, h1, h2, _⟩ := G.node i hi hS he
    exact ⟨n, by rw [matchOf_get hi, h1]; rfl, h2⟩
  · rename_i he
    obtain ⟨a, es, b, h1, h2, h3, h4⟩ := G.edge i hi hS (by omega)
    refine ⟨a, _, b, by rw [matchOf_get (by omega), h1]; rfl, by rw [matchOf_get hi, h2]; rfl,
      by rw [matchOf_get (by omega), h3]; rfl, leg_fits E hi (by omega) h4⟩

theorem good_matches (E : Fair σ symbols p xs index) {ρ : Asg} (G : Good σ symbols p xs index ρ) :
    Matches σ symbols p (matchOf index p.length ρ) := by
  have hodd := E.odd
  refine ⟨matchOf_length, fun i hi => ?_⟩
  split
  · rename_i he
    obtain ⟨n, h1, h2, _⟩ := G.node i hi he
    exact ⟨n, by rw [matchOf_get hi, h1]; rfl, h2⟩
  · rename_i he
    obtain ⟨a, es, b, h1, h2, h3, h4⟩ := G.edge i hi (by omega)
    refine ⟨a, _, b, by rw [matchOf_get (by omega), h1]; rfl, by rw [matchOf_get hi, h2]; rfl,
      by rw [matchOf_get (by omega), h3]; rfl, leg_fits E hi (by omega) h4⟩

/-! ## Every match has an assignment -/

def nodeAt (M : Match) (i : Nat) : Nat :=
  match M[i]? with
  | some (.node n) => n
  | _ => 0

/-- the marks on the edges of a trail -/
def marksOf (g : Ends) (index : Nat) (M : Match) (i : Nat) (es : List Nat) : List PathElement :=
  if index < i then ride g (nodeAt M (i - 1)) es
  else if i < index then ride g (nodeAt M (i + 1)) es.reverse
  else es.map (fun e => ⟨e, false⟩)

/-- the assignment of a match -/
def asgOf (g : Ends) (index : Nat) (M : Match) : Asg := fun i =>
  match M[i]? with
  | none => none
  | some (.node n) => some (.node n)
  | some (.trail es) => some (.path { path := marksOf g index M i es })

theorem marks_edges {g : Ends} {index : Nat} {M : Match} {i : Nat} {es : List Nat} :
    (if i < index then ((marksOf g index M i es).map (·.edge)).reverse else (marksOf g index M i es).map (·.edge)) = es := by
  unfold marksOf
  rcases Nat.lt_trichotomy i index with h | h | h
  · rw [if_pos h, if_neg (by omega), if_pos h, ride_edges, List.reverse_reverse]
  · rw [if_neg (by omega), if_neg (by omega), if_neg (by omega), List.map_map]
    exact List.map_id es
  · rw [if_neg (by omega), if_pos h, ride_edges]

theorem valOf_asgOf {g : Ends} {index : Nat} {M : Match} {i : Nat} (h : i < M.length) :
    M[i]? = some (valOf index i (asgOf g index M i)) := by
  unfold asgOf
  have hm := List.getElem?_eq_getElem h
  rw [hm]
  cases hx : M[i] with
  | node n => rfl
  | trail es => simp only [valOf]; rw [marks_edges]

theorem matchOf_asgOf {g : Ends} {index : Nat} {M : Match} : matchOf index M.length (asgOf g index M) = M := by
  apply List.ext_getElem?
  intro i
  by_cases h : i < M.length
  · rw [matchOf_get h, ← valOf_asgOf h]
  · rw [List.getElem?_eq_none (by rw [matchOf_length]; omega), List.getElem?_eq_none (by omega)]

theorem Exact.startsIn (E : Exact σ symbols p xs index) {M : Match} (h : Matches σ symbols p M) : StartsIn xs index M := by
  have := h.2 index E.lt
  unfold StartsIn
  split at this
  · rename_i he
    obtain ⟨n, h1, h2⟩ := this
    rw [h1]
    exact E.allNodes he n h2
  · obtain ⟨a, es, b, _, h2, _, _, _, h3, _⟩ := this
    rw [h2]
    exact fun e he => E.allEdges (by omega) e (h3 e he).1 (h3 e he).2

theorem good_startsIn (E : Fair σ symbols p xs index) {ρ : Asg} (G : Good σ symbols p xs index ρ) :
    StartsIn xs index (matchOf index p.length ρ) := by
  unfold StartsIn
  rw [matchOf_get E.lt]
  by_cases he : index % 2 = 0
  · obtain ⟨n, h1, _, h2⟩ := G.node index E.lt he
    rw [h1]
    exact h2 rfl
  · obtain ⟨a, es, b, _, h1, _, _, _, h2⟩ := G.edge index E.lt (by omega)
    obtain ⟨e, k1, rfl, _⟩ := h2 rfl
    rw [h1]
    simpa [valOf] using k1

theorem match_good (E : Fair σ symbols p xs index) {M : Match} (h : Matches σ symbols p M) (hin : StartsIn xs index M) :
    (∀ i, p.length ≤ i → asgOf σ.ends index M i = none) ∧ Good σ symbols p xs index (asgOf σ.ends index M) ∧
      matchOf index p.length (asgOf σ.ends index M) = M := by
  obtain ⟨hlen, h⟩ := h
  refine ⟨fun i hi => ?_, ⟨fun i hi he => ?_, fun i hi ho => ?_⟩, by rw [← hlen]; exact matchOf_asgOf⟩
  · unfold asgOf; rw [List.getElem?_eq_none (by omega)]
  · have := h i hi
    rw [if_pos he] at this
    obtain ⟨n, h1, h2⟩ := this
    refine ⟨n, by unfold asgOf; rw [h1], h2, fun hx => ?_⟩
    subst hx
    unfold StartsIn at hin
    rw [h1] at hin
    exact hin
  · have := h i hi
    rw [if_neg (by omega)] at this
    obtain ⟨a, es, b, h1, h2, h3, k1, k2, k3, k4, k5, _⟩ := this
    refine ⟨a, marksOf σ.ends index M i es, b, by unfold asgOf; rw [h1], by unfold asgOf; rw [h2],
      by unfold asgOf; rw [h3], fun hx => ?_, fun hx => ?_, fun hx => ?_⟩
    · unfold marksOf nodeAt
      rw [if_pos hx, h1]
      simp only
      obtain ⟨r1, r2⟩ := rides_ride k4
      refine ⟨⟨ride_ne k1, by rw [ride_edges]; exact k2, fun pe hpe => k3 _ ?_, r1, by rw [ride_length]; exact k5⟩, r2⟩
      rw [← ride_edges (g := σ.ends) (v := a) (es := es)]
      exact List.mem_map_of_mem hpe
    · unfold marksOf nodeAt
      rw [if_neg (by omega), if_pos hx, h3]
      simp only
      obtain ⟨r1, r2⟩ := rides_ride (joins_reverse.2 k4)
      refine ⟨⟨ride_ne (by simpa using k1), ?_, fun pe hpe => k3 _ ?_, r1, ?_⟩, r2⟩
      · rw [ride_edges]
        unfold List.Nodup at k2 ⊢
        rw [List.pairwise_reverse]
        exact k2.imp (fun h h' => h h'.symm)
      · rw [← List.mem_reverse, ← ride_edges (g := σ.ends) (v := b) (es := es.reverse)]
        exact List.mem_map_of_mem hpe
      · rw [ride_length, List.length_reverse]; exact k5
    · subst hx
      obtain ⟨o1, o2⟩ := E.one ho
      have hl : es.length = 1 := by
        unfold LengthOk at k5
        have : es.length ≠ 0 := by simpa using k1
        omega
      obtain ⟨e, rfl⟩ := List.length_eq_one_iff.1 hl
      obtain ⟨q1, q2⟩ := k3 e (by simp)
      have hxe : e ∈ xs := by
        unfold StartsIn at hin
        rw [h2] at hin
        exact hin e (by simp)
      refine ⟨e, hxe, ?_, q2, ?_⟩
      · unfold marksOf
        rw [if_neg (by omega), if_neg (by omega)]
        rfl
      · obtain ⟨c, c1, c2⟩ := k4
        have : c = b := c2
        rw [← this]; exact c1

/-! ## A match has one assignment -/

theorem map_edge_singleton {es : List PathElement} {e : Nat} : es.map (·.edge) = [e] → ∃ pe, es = [pe] ∧ pe.edge = e := by
  intro h
  cases es with
  | nil => simp at h
  | cons pe es =>
    cases es with
    | nil => simp only [List.map_cons, List.map_nil, List.cons.injEq, and_true] at h; exact ⟨pe, rfl, h⟩
    | cons => simp at h

theorem good_inj {ρ ρ' : Asg} (G : Good σ symbols p xs index ρ)
    (G' : Good σ symbols p xs index ρ') (h0 : ∀ i, p.length ≤ i → ρ i = none) (h0' : ∀ i, p.length ≤ i → ρ' i = none)
    (h : matchOf index p.length ρ = matchOf index p.length ρ') : ρ = ρ' := by
  have hval : ∀ i, i < p.length → valOf index i (ρ i) = valOf index i (ρ' i) := by
    intro i hi
    have := matchOf_get (index := index) (ρ := ρ) hi
    rw [h, matchOf_get hi, Option.some.injEq] at this
    exact this.symm
  have hnode : ∀ i, i < p.length → i % 2 = 0 → ρ i = ρ' i := by
    intro i hi he
    obtain ⟨n, h1, _⟩ := G.node i hi he
    obtain ⟨n', h1', _⟩ := G'.node i hi he
    have := hval i hi
    rw [h1, h1'] at this
    simp only [valOf, Val.node.injEq] at this
    rw [h1, h1', this]
  funext i
  by_cases hi : i < p.length
  · by_cases he : i % 2 = 0
    · exact hnode i hi he
    · obtain ⟨a, es, b, h1, h2, h3, k1, k2, k3⟩ := G.edge i hi (by omega)
      obtain ⟨a', es', b', h1', h2', h3', k1', k2', k3'⟩ := G'.edge i hi (by omega)
      have hv := hval i hi
      rw [h2, h2'] at hv ⊢
      simp only [valOf, Val.trail.injEq] at hv
      have ha : a = a' := by
        have := hnode (i - 1) (by omega) (by omega)
        rw [h1, h1'] at this
        simpa using this
      subst ha
      suffices hes : es = es' by rw [hes]
      rcases Nat.lt_trichotomy i index with hlt | heq | hgt
      · have hb : b = b' := by
          by_cases hlast : i + 1 < p.length
          · have := hnode (i + 1) hlast (by omega)
            rw [h3, h3'] at this
            simpa using this
          · have := h0 (i + 1) (by omega)
            rw [h3] at this; cases this
        subst hb
        rw [if_pos hlt, if_pos hlt, List.reverse_inj] at hv
        rw [rides_unique (k2 hlt).1.2.2.2.1, rides_unique (k2' hlt).1.2.2.2.1, hv]
      · obtain ⟨e, _, rfl, _⟩ := k3 heq
        obtain ⟨e', _, rfl, _⟩ := k3' heq
        rw [if_neg (by omega), if_neg (by omega)] at hv
        simp only [List.map_cons, List.map_nil, List.cons.injEq, and_true] at hv
        rw [hv]
      · rw [if_neg (by omega), if_neg (by omega)] at hv
        rw [rides_unique (k1 hgt).1.2.2.2.1, rides_unique (k1' hgt).1.2.2.2.1, hv]
  · rw [h0 i (by omega), h0' i (by omega)]

/-! ## The symbols -/

theorem capture_spec {ρ : Asg} : ∀ {sts : List Step} (ret : AMap String Res), (∀ st ∈ sts, (ρ st.ix).isSome) → ∀ name,
    (∀ v, AMap.get (captureSymbols ρ sts ret) name = some v →
      AMap.get ret name = some v ∨ name ≠ "" ∧ ∃ st ∈ sts, st.item.name = name ∧ ρ st.ix = some v) ∧
    ((AMap.get ret name).isSome ∨ (name ≠ "" ∧ ∃ st ∈ sts, st.item.name = name) →
      (AMap.get (captureSymbols ρ sts ret) name).isSome)
  | [], ret, _, name => ⟨fun v h => Or.inl h, by
      rintro (h | ⟨_, st, h, _⟩)
      · exact h
      · simp at h⟩
  | st :: sts, ret, hsome, name => by
    obtain ⟨v0, hv0⟩ := Option.isSome_iff_exists.1 (hsome st (by simp))
    have ih := fun ret => capture_spec (sts := sts) ret (fun st' h' => hsome st' (by simp [h'])) name
    unfold captureSymbols
    by_cases hlen : st.item.name.length > 0
    · have hne : st.item.name ≠ "" := by
        intro h; rw [h] at hlen; simp at hlen
      rw [if_pos hlen, hv0]
      cases hg : AMap.get ret st.item.name with
      | some w =>
        simp only
        obtain ⟨a, b⟩ := ih ret
        refine ⟨fun v h => ?_, fun h => b ?_⟩
        · rcases a v h with h | ⟨h1, st', h2, h3⟩
          · exact Or.inl h
          · exact Or.inr ⟨h1, st', by simp [h2], h3⟩
        · rcases h with h | ⟨h1, st', h2, h3⟩
          · exact Or.inl h
          · rcases List.mem_cons.1 h2 with rfl | h2
            · left; rw [← h3, hg]; rfl
            · exact Or.inr ⟨h1, st', h2, h3⟩
      | none =>
        simp only
        obtain ⟨a, b⟩ := ih (AMap.set ret st.item.name v0)
        refine ⟨fun v h => ?_, fun h => b ?_⟩
        · rcases a v h with h | ⟨h1, st', h2, h3⟩
          · rw [AMap.get_set] at h
            split at h
            · rename_i heq
              right
              refine ⟨by rw [heq]; exact hne, st, by simp, heq.symm, by rw [hv0]; exact h⟩
            · exact Or.inl h
          · exact Or.inr ⟨h1, st', by simp [h2], h3⟩
        · rw [AMap.get_set]
          split
          · left; rfl
          · rename_i hneq
            rcases h with h | ⟨h1, st', h2, h3⟩
            · exact Or.inl h
            · rcases List.mem_cons.1 h2 with rfl | h2
              · exact absurd h3.symm hneq
              · exact Or.inr ⟨h1, st', h2, h3⟩
    · have hem : st.item.name = "" := by
        have : st.item.name.length = 0 := by omega
        exact String.length_eq_zero_iff.1 this
      rw [if_neg hlen]
      obtain ⟨a, b⟩ := ih ret
      refine ⟨fun v h => ?_, fun h => b ?_⟩
      · rcases a v h with h | ⟨h1, st', h2, h3⟩
        · exact Or.inl h
        · exact Or.inr ⟨h1, st', by simp [h2], h3⟩
      · rcases h with h | ⟨h1, st', h2, h3⟩
        · exact Or.inl h
        · rcases List.mem_cons.1 h2 with rfl | h2
          · exact absurd (h3.symm.trans hem) h1
          · exact Or.inr ⟨h1, st', h2, h3⟩

theorem good_shows (E : Fair σ symbols p xs index) {ρ : Asg} (G : Good σ symbols p xs index ρ) {i : Nat} (hi : i < p.length)
    {v : Res} (hv : ρ i = some v) : ItemShows σ.ends index (matchOf index p.length ρ) i v := by
  have hodd := E.odd
  by_cases he : i % 2 = 0
  · obtain ⟨n, h1, _⟩ := G.node i hi he
    left
    rw [h1, Option.some.injEq] at hv
    exact ⟨n, by rw [matchOf_get hi, h1]; rfl, hv.symm⟩
  · obtain ⟨a, es, b, h1, h2, h3, k1, k2, k3⟩ := G.edge i hi (by omega)
    right
    rw [h2, Option.some.injEq] at hv
    refine ⟨a, _, b, _, by rw [matchOf_get (by omega), h1]; rfl, by rw [matchOf_get hi, h2]; rfl,
      by rw [matchOf_get (by omega), h3]; rfl, hv.symm, fun h => ?_, fun h => ?_, fun h => ?_⟩
    · obtain ⟨q1, q2⟩ := k1 h
      exact ⟨rfl, by rw [if_neg (by omega)], by rw [← q2]; exact rides_linked q1.2.2.2.1⟩
    · obtain ⟨q1, q2⟩ := k2 h
      exact ⟨rfl, by rw [if_pos h, List.reverse_reverse], by rw [← q2]; exact rides_linked q1.2.2.2.1⟩
    · obtain ⟨e, _, rfl, _⟩ := k3 h
      rw [if_neg (by omega)]
      rfl

theorem good_some {ρ : Asg} (G : Good σ symbols p xs index ρ) {i : Nat} (hi : i < p.length) : (ρ i).isSome := by
  by_cases he : i % 2 = 0
  · obtain ⟨n, h1, _⟩ := G.node i hi he
    rw [h1]; rfl
  · obtain ⟨a, es, b, h1, h2, _⟩ := G.edge i hi (by omega)
    rw [h2]; rfl

theorem good_symbols (E : Fair σ symbols p xs index) {ρ : Asg} (G : Good σ symbols p xs index ρ) :
    SymbolsShow σ.ends index p (matchOf index p.length ρ) (captureSymbols ρ (stepsOf p xs index) []) := by
  intro name
  obtain ⟨a, b⟩ := capture_spec (ρ := ρ) (sts := stepsOf p xs index) [] (fun st hst => by
    obtain ⟨i, hi, rfl⟩ := (mem_stepsOf E.lt).1 hst
    rw [stepOf_ix]; exact good_some G hi) name
  refine ⟨fun v hv => ?_, fun ⟨i, hi, hn⟩ hne => b (Or.inr ⟨hne, _, (mem_stepsOf E.lt).2 ⟨i, hi, rfl⟩, by
    rw [stepOf_item]; exact hn⟩)⟩
  rcases a v hv with h | ⟨hne, st, hst, hn, hv'⟩
  · cases h
  · obtain ⟨i, hi, rfl⟩ := (mem_stepsOf E.lt).1 hst
    rw [stepOf_item] at hn
    rw [stepOf_ix] at hv'
    exact ⟨hne, i, hi, hn, good_shows E G hi hv'⟩

end

/-! ## A run -/

/-- no match of an item with the ends of its edge exchanged -/
def NoTwice (σ : Spec) (p : Pattern) : Prop :=
  ∀ i, i < p.length → i % 2 = 1 → itemDir (itemAt p i) = .any → (itemAt p i).min = 1 ∧ (itemAt p i).max = 1 → NoLoop σ (itemAt p i)

theorem map_nodup {α β : Type} {f : α → β} (hf : ∀ a b, f a = f b → a = b) {l : List α} (h : l.Nodup) : (l.map f).Nodup :=
  List.Pairwise.map f (fun a b hab h' => hab (hf a b h')) h

section
variable {ops : List Op} (hv : Spec.ValidHistory ops) {s : State} (hs : run ops = some s)
variable {symbols : Symbols} {p : Pattern} {xs : List Nat} {index : Nat}
include hv hs

theorem legs_nodup (hx : NoTwice (Spec.run ops) p) {i : Nat} (hi : i < p.length) (ho : i % 2 = 1) {d : State.Dir} {n : Nat}
    (hd : d = itemDir (itemAt p i) ∨ d = flipDir (itemDir (itemAt p i))) : (legsOf hv hs (itemAt p i) d n).Nodup := by
  by_cases h : (itemAt p i).labels.Nodup ∧ n ∈ (Spec.run ops).nodes
  · refine (legsOf_spec hv hs h.1 d h.2).2.1 (fun ha hm => hx i hi ho ?_ hm)
    rcases hd with hd | hd
    · rw [← hd]; exact ha
    · rw [hd] at ha; exact flip_any.1 ha
  · unfold legsOf
    rw [dif_neg h]
    simp

theorem steps_nodup (A : Admissible (Spec.run ops) symbols p xs index) (hx : NoTwice (Spec.run ops) p) (hn : xs.Nodup) :
    (enum s symbols (legsOf hv hs) (stepsOf p xs index) (fun _ => none)).Nodup := by
  refine enum_nodup (show WF (Spec.run ops) symbols [] none (stepsOf p xs index) from plan_wf A) (fun st hst ρ => ?_)
  obtain ⟨i, hi, rfl⟩ := (mem_stepsOf A.lt).1 hst
  unfold vals
  rcases Nat.lt_trichotomy i index with h | h | h
  · rw [back_proc h]
    by_cases ho : i % 2 = 1
    · rw [if_pos ho]
      simp only
      split
      · rw [stepOf_item]
        exact map_nodup (fun a b h => by simpa using h) (legs_nodup hv hs hx hi ho (Or.inr rfl))
      · simp
    · rw [if_neg ho]
      simp only
      split
      · split
        · split <;> simp
        · simp
      · simp
  · subst h
    rw [start_proc]
    by_cases ho : i % 2 = 0
    · rw [if_pos ho]
      exact map_nodup (fun a b h => by simpa using h) (hn.filter _)
    · rw [if_neg ho]
      exact map_nodup (fun a b h => by simpa using h) (hn.filter _)
  · rw [fwd_proc h]
    by_cases ho : i % 2 = 1
    · rw [if_pos ho]
      simp only
      split
      · rw [stepOf_item]
        exact map_nodup (fun a b h => by simpa using h) (legs_nodup hv hs hx hi ho (Or.inl rfl))
      · simp
    · rw [if_neg ho]
      simp only
      split
      · split
        · split <;> simp
        · simp
      · simp

theorem legs_times {i n : Nat} {d : State.Dir} {es : List PathElement}
    (hd : d = itemDir (itemAt p i) ∨ d = flipDir (itemDir (itemAt p i))) (he : es ∈ legsOf hv hs (itemAt p i) d n) :
    times es (legsOf hv hs (itemAt p i) d n) =
      if (itemDir (itemAt p i) = .any ∧ (itemAt p i).min = 1 ∧ (itemAt p i).max = 1) ∧
        ∀ e ∈ es.map PathElement.edge, (Spec.run ops).src e = (Spec.run ops).dst e then 2 else 1 := by
  by_cases h : (itemAt p i).labels.Nodup ∧ n ∈ (Spec.run ops).nodes
  · rw [(legsOf_spec hv hs h.1 d h.2).2.2.1 es he]
    have hda : d = .any ↔ itemDir (itemAt p i) = .any := by
      rcases hd with hd | hd
      · rw [hd]
      · rw [hd, flip_any]
    have : FoundTwice (Spec.run ops) (itemAt p i) d es ↔
        (itemDir (itemAt p i) = .any ∧ (itemAt p i).min = 1 ∧ (itemAt p i).max = 1) ∧
          ∀ e ∈ es.map (·.edge), (Spec.run ops).src e = (Spec.run ops).dst e := by
      unfold FoundTwice
      rw [hda]
      simp only [List.mem_map, forall_exists_index, and_imp, forall_apply_eq_imp_iff₂]
      grind
    simp only [this]
  · unfold legsOf at he
    rw [dif_neg h] at he
    simp at he

/-- how often an assignment is found -/
theorem steps_times (A : Admissible (Spec.run ops) symbols p xs index) (hn : xs.Nodup) {ρ : Asg}
    (h0 : ∀ i, p.length ≤ i → ρ i = none) (G : Good (Spec.run ops) symbols p xs index ρ) :
    times ρ (enum s symbols (legsOf hv hs) (stepsOf p xs index) (fun _ => none)) =
      2 ^ Match.loops (Spec.run ops) p (matchOf index p.length ρ) := by
  have hw := show WF (Spec.run ops) symbols [] none (stepsOf p xs index) from plan_wf A
  have hmem := (enum_good hv hs A).2 ⟨h0, G⟩
  have hdone := ((enum_mem hw).1 hmem).2
  rw [enum_times (tw := fun st => loopAt (Spec.run ops) p (matchOf index p.length ρ) st.ix) hw (fun st hst => ?_) hmem]
  · unfold stepsOf Match.loops
    rw [List.countP_map, ← countP_order A.lt]
    congr 2
    funext i
    simp only [Function.comp_apply, stepOf_ix]
  · obtain ⟨v, hv1, hv2⟩ := hdone st hst
    obtain ⟨i, hi, rfl⟩ := (mem_stepsOf A.lt).1 hst
    rw [hv1, times_map (fun _ _ h => by simpa using h)]
    rw [stepOf_ix] at hv1 ⊢
    have one : (vals s symbols (legsOf hv hs) (stepOf p (some xs) index i) ρ).Nodup →
        loopAt (Spec.run ops) p (matchOf index p.length ρ) i = false →
        times v (vals s symbols (legsOf hv hs) (stepOf p (some xs) index i) ρ) =
          if loopAt (Spec.run ops) p (matchOf index p.length ρ) i then 2 else 1 := by
      intro k1 k2
      rw [times_nodup k1 hv2, k2]
      rfl
    have leg : ∀ (d : State.Dir) (n : Nat), i % 2 = 1 → (d = itemDir (itemAt p i) ∨ d = flipDir (itemDir (itemAt p i))) →
        vals s symbols (legsOf hv hs) (stepOf p (some xs) index i) ρ =
          (legsOf hv hs (itemAt p i) d n).map (fun es => .path { path := es }) →
        times v (vals s symbols (legsOf hv hs) (stepOf p (some xs) index i) ρ) =
          if loopAt (Spec.run ops) p (matchOf index p.length ρ) i then 2 else 1 := by
      intro d n ho hd hvals
      rw [hvals] at hv2 ⊢
      obtain ⟨es, he, rfl⟩ := List.mem_map.1 hv2
      rw [times_map (f := fun es => Res.path { path := es }) (fun _ _ h => by simpa using h), legs_times hv hs hd he]
      have : loopAt (Spec.run ops) p (matchOf index p.length ρ) i = true ↔
          (itemDir (itemAt p i) = .any ∧ (itemAt p i).min = 1 ∧ (itemAt p i).max = 1) ∧
            ∀ e ∈ es.map (·.edge), (Spec.run ops).src e = (Spec.run ops).dst e := by
        unfold loopAt
        rw [matchOf_get hi, hv1]
        unfold valOf Val.loops
        simp only [Bool.and_eq_true, decide_eq_true_eq, List.all_eq_true, ho, true_and]
        refine and_congr Iff.rfl ?_
        split
        · simp only [List.mem_reverse]
        · rfl
      by_cases hl : loopAt (Spec.run ops) p (matchOf index p.length ρ) i = true
      · rw [if_pos hl, if_pos (this.1 hl)]
      · rw [if_neg hl, if_neg (fun h => hl (this.2 h))]
    by_cases ho : i % 2 = 1
    · obtain ⟨a, es, b, k1, k2, k3, _⟩ := G.edge i hi ho
      rcases Nat.lt_trichotomy i index with h | h | h
      · exact leg _ b ho (.inr rfl) (vals_back_edge h ho k3)
      · subst h
        refine one ?_ ?_
        · rw [vals_start_edge ho]
          exact map_nodup (fun a b h => by simpa using h) (hn.filter _)
        · unfold loopAt
          rw [decide_eq_false (fun h => A.directed ho h.2.1)]
          rfl
      · exact leg _ a ho (.inl rfl) (vals_fwd_edge h ho k1)
    · refine one ?_ ?_
      · unfold vals
        rcases Nat.lt_trichotomy i index with h | h | h
        · rw [back_proc h, if_neg ho]
          simp only
          split
          · split
            · split <;> simp
            · simp
          · simp
        · subst h
          rw [start_proc, if_pos (by omega)]
          exact map_nodup (fun a b h => by simpa using h) (hn.filter _)
        · rw [fwd_proc h, if_neg ho]
          simp only
          split
          · split
            · split <;> simp
            · simp
          · simp
      · unfold loopAt
        rw [decide_eq_false (fun h => ho h.1)]
        rfl

/-- the plan of a pattern -/
def thePlan (p : Pattern) (xs : List Nat) (index : Nat) : Plan :=
  { steps := stepsOf p xs index, nForward := p.length - (index + 1) }

/-- A search ends without an error, or it panics because there is no path for some assignment. -/
theorem run_cases (A : Admissible (Spec.run ops) symbols p xs index) :
    (∃ os : List Asg,
      (runFrom s symbols p (some xs) index = some (none, os.map (reportOf s (thePlan p xs index))) ∧
        ∀ ρ ∈ os, currentPath s.ends (thePlan p xs index) ρ ≠ none ∧
          Sound s symbols (legsOf hv hs) (stepsOf p xs index) (stepsOf p xs index) ρ) ∧
      (∀ ρ ∈ os, (∀ i, p.length ≤ i → ρ i = none) ∧ Good (Spec.run ops) symbols p xs index ρ) ∧
      (∀ ρ, (∀ i, p.length ≤ i → ρ i = none) → Good (Spec.run ops) symbols p xs index ρ →
        Agree symbols (stepsOf p xs index) ρ → ρ ∈ os) ∧
      (NoTwice (Spec.run ops) p → xs.Nodup → os.Nodup) ∧
      (∀ ρ ∈ os, Agree symbols (stepsOf p xs index) ρ → xs.Nodup →
        times ρ os = 2 ^ Match.loops (Spec.run ops) p (matchOf index p.length ρ))) ∨
    (runFrom s symbols p (some xs) index = none ∧ ∃ ρ, (∀ i, p.length ≤ i → ρ i = none) ∧
      Good (Spec.run ops) symbols p xs index ρ ∧ currentPath s.ends (thePlan p xs index) ρ = none) := by
  have hE := emits_steps (plan := thePlan p xs index) (legsOf_ok hv hs)
    (stepsOf p xs index) [] none (fun _ => none) (show WF (Spec.run ops) symbols [] none (stepsOf p xs index) from plan_wf A)
    rfl (by simp) (fun _ h => by simp at h)
  have hloc : LocOk s symbols (legsOf hv hs) (thePlan p xs index).steps [] (fun _ => none) ({} : Run).locals := by
    refine ⟨fun name sym h => ?_, fun pre i rest h => ?_, fun pre i mid j _ h => ?_⟩
    · cases h
    · simp at h
    · have := List.prefix_nil.1 h
      simp at this
  rcases hE {} (by simp) hloc rfl with ⟨r', o, ⟨h1, h0⟩, h2, h3, h4, _⟩ | ⟨h1, ρ, h2, h3⟩
  · refine .inl ⟨o, ⟨?_, h0⟩, fun ρ hρ => (enum_good hv hs A).1 (h3.subset hρ),
      fun ρ k1 k2 k3 => times_pos.1 (by rw [h4 ρ k3]; exact times_pos.2 ((enum_good hv hs A).2 ⟨k1, k2⟩)),
      fun k1 k2 => h3.nodup (steps_nodup hv hs A k1 k2), fun ρ hρ k1 k2 => ?_⟩
    rotate_left
    · obtain ⟨g1, g2⟩ := (enum_good hv hs A).1 (h3.subset hρ)
      rw [h4 ρ k1, steps_times hv hs A k2 g1 g2]
    unfold runFrom
    rw [planFrom_eq A.odd A.lt]
    simp only
    unfold Plan.run
    have : runSteps s symbols (thePlan p xs index) (thePlan p xs index).steps {} = some (none, r') := h1
    unfold thePlan stepsOf at this
    simp only at this
    rw [this]
    simp only [h2]
    rfl
  · obtain ⟨g1, g2⟩ := (enum_good hv hs A).1 h2
    refine .inr ⟨?_, ρ, g1, g2, h3⟩
    unfold runFrom
    rw [planFrom_eq A.odd A.lt]
    simp only
    unfold Plan.run
    have : runSteps s symbols (thePlan p xs index) (thePlan p xs index).steps {} = none := h1
    unfold thePlan stepsOf at this
    simp only at this
    rw [this]

theorem run_spec (A : Admissible (Spec.run ops) symbols p xs index)
    (hpath : ∀ ρ, Good (Spec.run ops) symbols p xs index ρ → currentPath s.ends (thePlan p xs index) ρ ≠ none) :
    ∃ os : List Asg,
      runFrom s symbols p (some xs) index = some (none, os.map (reportOf s (thePlan p xs index))) ∧
      (∀ ρ ∈ os, (∀ i, p.length ≤ i → ρ i = none) ∧ Good (Spec.run ops) symbols p xs index ρ) ∧
      (∀ ρ, (∀ i, p.length ≤ i → ρ i = none) → Good (Spec.run ops) symbols p xs index ρ →
        Agree symbols (stepsOf p xs index) ρ → ρ ∈ os) ∧
      (NoTwice (Spec.run ops) p → xs.Nodup → os.Nodup) := by
  rcases run_cases hv hs A with ⟨os, h1, h2, h3, h4, _⟩ | ⟨_, ρ, _, h2, h3⟩
  · exact ⟨os, h1.1, h2, h3, h4⟩
  · exact absurd h3 (hpath ρ h2)

end

end Pat
end LPG

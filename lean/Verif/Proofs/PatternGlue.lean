import Verif.Proofs.PatternPath
/-!
# When the pieces of a report fit together
-/
namespace LPG
namespace Pat
open VPath

def IsLinked (g : Ends) (es : List PathElement) : Prop := ∃ a b, Linked g a es b

theorem linked_start {g : Ends} {es : List PathElement} {a b a' b' : Nat} (h : Linked g a es b) (h' : Linked g a' es b')
    (hne : es ≠ []) : a = a' := by
  cases es with
  | nil => exact absurd rfl hne
  | cons x xs => exact h.1.symm.trans h'.1

theorem linked_end {g : Ends} {es : List PathElement} {a b a' b' : Nat} (h : Linked g a es b) (h' : Linked g a' es b')
    (hne : es ≠ []) : b = b' := by
  have h1 := linked_last h hne
  rw [linked_last h' hne, Option.some.injEq] at h1
  exact h1.symm

theorem IsLinked.left {g : Ends} {xs ys : List PathElement} (h : IsLinked g (xs ++ ys)) : IsLinked g xs := by
  obtain ⟨a, b, h⟩ := h
  obtain ⟨c, h1, _⟩ := linked_append.1 h
  exact ⟨a, c, h1⟩

theorem IsLinked.right {g : Ends} {xs ys : List PathElement} (h : IsLinked g (xs ++ ys)) : IsLinked g ys := by
  obtain ⟨a, b, h⟩ := h
  obtain ⟨c, _, h1⟩ := linked_append.1 h
  exact ⟨c, b, h1⟩

/-- appending a connected sequence of steps works if and only if the result is connected -/
theorem append_glue {g : Ends} {xs ys : List PathElement} (hx : IsLinked g xs) (hy : IsLinked g ys) :
    (IsLinked g (xs ++ ys) → ({ path := xs } : Path).append g ys = .ok { path := xs ++ ys }) ∧
      (¬ IsLinked g (xs ++ ys) → ∃ q, ({ path := xs } : Path).append g ys = .error q) := by
  constructor
  · rintro ⟨a, b, h⟩
    obtain ⟨c, h1, h2⟩ := linked_append.1 h
    exact append_ok (linked_last h1) h2
  · intro hn
    have hxne : xs ≠ [] := by rintro rfl; exact hn hy
    cases ys with
    | nil => rw [List.append_nil] at hn; exact absurd hx hn
    | cons y ys =>
      obtain ⟨a, b, h1⟩ := hx
      obtain ⟨c, d, h2⟩ := hy
      have hl : ({ path := xs } : Path).last g = some b := linked_last h1 hxne
      have hne : b ≠ c := by rintro rfl; exact hn ⟨a, d, linked_append.2 ⟨b, h1, h2⟩⟩
      have h0 : ({ path := xs } : Path).numNodes ≠ 0 := by rw [numNodes_of, if_neg hxne]; omega
      unfold Path.append
      simp only
      rw [if_neg h0, hl, if_pos (by rw [h2.1]; simp [hne])]
      exact ⟨_, rfl⟩

theorem appendPath_glue {g : Ends} {xs ys : List PathElement} (hx : IsLinked g xs) (hy : IsLinked g ys) :
    (IsLinked g (xs ++ ys) → ({ path := xs } : Path).appendPath g { path := ys } = .ok ({ path := xs ++ ys }, { path := ys })) ∧
      (¬ IsLinked g (xs ++ ys) → ∃ q, ({ path := xs } : Path).appendPath g { path := ys } = .error q) := by
  constructor
  · rintro ⟨a, b, h⟩
    obtain ⟨c, h1, h2⟩ := linked_append.1 h
    exact appendPath_ok (linked_last h1) h2
  · intro hn
    have hxne : xs ≠ [] := by rintro rfl; exact hn hy
    have hyne : ys ≠ [] := by rintro rfl; rw [List.append_nil] at hn; exact hn hx
    obtain ⟨q, hq⟩ := (append_glue hx hy).2 hn
    have p1 : 0 < xs.length := List.length_pos_iff.2 hxne
    have p2 : 0 < ys.length := List.length_pos_iff.2 hyne
    unfold Path.appendPath
    simp only
    rw [if_neg (by rw [numNodes_of, if_neg hxne]; omega), if_neg (by rw [numNodes_of, if_neg hxne]; omega),
      if_neg (by rw [numNodes_of, if_neg hyne]; omega), if_neg (by rw [numNodes_of, if_neg hyne]; omega), hq]
    exact ⟨_, rfl⟩

/-- what a value adds to the path -/
def piece (left : Bool) : Option Res → List PathElement
  | some (.path q) => if left then (q.path.head?.map turn).toList else q.path
  | _ => []

/-- the paths are sequences of connected steps -/
def PathsOk (g : Ends) (rs : List (Option Res)) : Prop :=
  ∀ q, some (Res.path q) ∈ rs → q.only = none ∧ q.path ≠ [] ∧ IsLinked g q.path

theorem appendPaths_glue {g : Ends} : ∀ {rs : List (Option Res)} {xs : List PathElement}, PathsOk g rs → IsLinked g xs →
    (IsLinked g (xs ++ rs.flatMap (piece false)) →
      appendPaths g rs { path := xs } = some { path := xs ++ rs.flatMap (piece false) }) ∧
    (¬ IsLinked g (xs ++ rs.flatMap (piece false)) → appendPaths g rs { path := xs } = none)
  | [], xs, _, hx => by simp [appendPaths, hx]
  | none :: rs, xs, h, hx => by
    simp only [appendPaths, List.flatMap_cons, piece, List.nil_append]
    exact appendPaths_glue (fun q hq => h q (by simp [hq])) hx
  | some (.node _) :: rs, xs, h, hx => by
    simp only [appendPaths, List.flatMap_cons, piece, List.nil_append]
    exact appendPaths_glue (fun q hq => h q (by simp [hq])) hx
  | some (.path q) :: rs, xs, h, hx => by
    obtain ⟨h0, h1, h2⟩ := h q (by simp)
    have hq : q = { path := q.path } := by cases q; simp only at h0; rw [h0]
    have hp : piece false (some (.path q)) = q.path := by simp [piece]
    simp only [appendPaths, List.flatMap_cons, hp]
    rw [← List.append_assoc]
    obtain ⟨k1, k2⟩ := appendPath_glue hx h2
    by_cases hl : IsLinked g (xs ++ q.path)
    · have := k1 hl
      rw [← hq] at this
      rw [this]
      exact appendPaths_glue (fun q' hq' => h q' (by simp [hq'])) hl
    · obtain ⟨w, hw⟩ := k2 hl
      rw [← hq] at hw
      rw [hw]
      exact ⟨fun h => absurd h.left hl, fun _ => rfl⟩

theorem appendReversed_glue {g : Ends} : ∀ {rs : List (Option Res)} {xs : List PathElement}, PathsOk g rs → IsLinked g xs →
    (IsLinked g (xs ++ rs.flatMap (piece true)) →
      appendReversed g rs { path := xs } = some { path := xs ++ rs.flatMap (piece true) }) ∧
    (¬ IsLinked g (xs ++ rs.flatMap (piece true)) → appendReversed g rs { path := xs } = none)
  | [], xs, _, hx => by simp [appendReversed, hx]
  | none :: rs, xs, h, hx => by
    simp only [appendReversed, List.flatMap_cons, piece, List.nil_append]
    exact appendReversed_glue (fun q hq => h q (by simp [hq])) hx
  | some (.node _) :: rs, xs, h, hx => by
    simp only [appendReversed, List.flatMap_cons, piece, List.nil_append]
    exact appendReversed_glue (fun q hq => h q (by simp [hq])) hx
  | some (.path q) :: rs, xs, h, hx => by
    obtain ⟨h0, h1, h2⟩ := h q (by simp)
    cases hq : q.path with
    | nil => exact absurd hq h1
    | cons pe rest =>
      have hp : piece true (some (.path q)) = [turn pe] := by simp [piece, hq]
      simp only [appendReversed, List.flatMap_cons, hp, hq]
      rw [← List.append_assoc]
      obtain ⟨k1, k2⟩ := append_glue hx (show IsLinked g [turn pe] from ⟨_, _, rfl, rfl⟩)
      unfold turn at k1 k2
      by_cases hl : IsLinked g (xs ++ [turn pe])
      · rw [k1 hl]
        exact appendReversed_glue (fun q' hq' => h q' (by simp [hq'])) hl
      · obtain ⟨w, hw⟩ := k2 hl
        rw [hw]
        exact ⟨fun h => absurd h.left hl, fun _ => rfl⟩

theorem flatMap_same {α β : Type} {f f' : α → List β} : ∀ {l : List α}, (∀ x ∈ l, f x = f' x) → l.flatMap f = l.flatMap f'
  | [], _ => rfl
  | x :: l, h => by
    rw [List.flatMap_cons, List.flatMap_cons, h x (by simp), flatMap_same (fun y hy => h y (by simp [hy]))]

/-- the steps of the path of an assignment -/
def pieces (index len : Nat) (ρ : Asg) : List PathElement :=
  (List.range len).flatMap (fun i => piece (decide (i < index)) (ρ i))

theorem pieces_split {index len : Nat} (h : index ≤ len) (ρ : Asg) :
    pieces index len ρ = ((List.range index).map ρ).flatMap (piece true) ++
      ((List.range' index (len - index)).map ρ).flatMap (piece false) := by
  unfold pieces
  have hr : List.range len = List.range index ++ List.range' index (len - index) := by
    have := List.range'_append_1 (s := 0) (m := index) (n := len - index)
    rw [Nat.zero_add, show index + (len - index) = len by omega] at this
    rw [List.range_eq_range', List.range_eq_range']
    exact this.symm
  rw [hr, List.flatMap_append, List.flatMap_map, List.flatMap_map]
  congr 1
  · refine flatMap_same (fun i hi => ?_)
    rw [List.mem_range] at hi
    simp [hi]
  · refine flatMap_same (fun i hi => ?_)
    rw [List.mem_range'_1] at hi
    rw [decide_eq_false (by omega)]

/-- the path is there if and only if the pieces fit together, and then it consists of the pieces -/
theorem currentPath_glue {g : Ends} {p : Pattern} {xs : List Nat} {index : Nat} {ρ : Asg} (hlt : index < p.length)
    (hone : p.length ≠ 1) {b : Nat} (hb : ρ (p.length - 1) = some (.node b))
    (h : ∀ i, i < p.length → ∀ q, ρ i = some (.path q) → q.only = none ∧ q.path ≠ [] ∧ IsLinked g q.path) :
    (IsLinked g (pieces index p.length ρ) →
      currentPath g (thePlan p xs index) ρ = some { path := pieces index p.length ρ }) ∧
    (¬ IsLinked g (pieces index p.length ρ) → currentPath g (thePlan p xs index) ρ = none) := by
  have hL : PathsOk g ((List.range index).map ρ) := by
    intro q hq
    obtain ⟨i, hi, he⟩ := List.mem_map.1 hq
    rw [List.mem_range] at hi
    exact h i (by omega) q he
  have hR : PathsOk g ((List.range' index (p.length - index)).map ρ) := by
    intro q hq
    obtain ⟨i, hi, he⟩ := List.mem_map.1 hq
    rw [List.mem_range'_1] at hi
    exact h i (by omega) q he
  have hnil : IsLinked g [] := ⟨0, 0, rfl⟩
  obtain ⟨l1, l2⟩ := appendReversed_glue hL hnil
  obtain ⟨r1, r2⟩ := appendPaths_glue hR hnil
  simp only [List.nil_append] at l1 l2 r1 r2
  rw [pieces_split (Nat.le_of_lt hlt)]
  generalize hLp : ((List.range index).map ρ).flatMap (piece true) = A at *
  generalize hRp : ((List.range' index (p.length - index)).map ρ).flatMap (piece false) = B at *
  constructor
  · intro hg
    exact currentPath_of hlt hone hb (r1 hg.right) (l1 hg.left) ((appendPath_glue hg.left hg.right).1 hg)
  · intro hg
    have hcur : currentPath g (thePlan p xs index) ρ =
        match appendPaths g ((List.range' index (p.length - index)).map ρ) {}, appendReversed g ((List.range index).map ρ) {} with
        | some out, some rev =>
          match rev.appendPath g out with
          | .error _ => none
          | .ok (p, _) => some p
        | _, _ => none := by
      unfold currentPath
      simp only
      rw [take_values hlt, drop_values hlt, hb, appendReversed_node]
      have hlen : ((thePlan p xs index).steps.map (fun st => ρ st.ix)).length ≠ 1 := by
        rw [plan_values hlt]; simp; omega
      generalize (thePlan p xs index).steps.map (fun st => ρ st.ix) = rs at hlen
      split
      · simp at hlen
      · simp at hlen
      · simp at hlen
      · rfl
    rw [hcur]
    by_cases hA : IsLinked g A
    · by_cases hB : IsLinked g B
      · rw [r1 hB, l1 hA]
        obtain ⟨w, hw⟩ := (appendPath_glue hA hB).2 hg
        simp only [hw]
      · rw [r2 hB]
    · rw [l2 hA]
      cases appendPaths g ((List.range' index (p.length - index)).map ρ) {} <;> rfl

/-! ## Sequences of connected pieces -/

theorem linked_flatMap {g : Ends} {F : Nat → List PathElement} {A B : Nat → Nat} : ∀ {K : Nat},
    (∀ k, k < K → F k ≠ [] ∧ Linked g (A k) (F k) (B k)) →
    ((∀ k, k + 1 < K → B k = A (k + 1)) → 0 < K → Linked g (A 0) ((List.range K).flatMap F) (B (K - 1))) ∧
    (IsLinked g ((List.range K).flatMap F) → ∀ k, k + 1 < K → B k = A (k + 1))
  | 0, _ => ⟨fun _ h => absurd h (by omega), fun _ k h => absurd h (by omega)⟩
  | K + 1, h => by
    obtain ⟨ih1, ih2⟩ := linked_flatMap (K := K) (fun k hk => h k (by omega))
    obtain ⟨hne, hl⟩ := h K (by omega)
    rw [List.range_succ, List.flatMap_append]
    simp only [List.flatMap_cons, List.flatMap_nil, List.append_nil, Nat.add_sub_cancel]
    constructor
    · intro hg _
      by_cases h0 : K = 0
      · subst h0; simpa using hl
      · refine linked_append.2 ⟨B (K - 1), ih1 (fun k hk => hg k (by omega)) (by omega), ?_⟩
        rw [hg (K - 1) (by omega), show K - 1 + 1 = K by omega]
        exact hl
    · intro hg k hk
      have hpre := ih2 hg.left
      by_cases hk' : k + 1 < K
      · exact hpre k hk'
      · have hkK : k + 1 = K := by omega
        obtain ⟨a, b, hab⟩ := hg
        obtain ⟨c, c1, c2⟩ := linked_append.1 hab
        have hpl := ih1 hpre (by omega)
        have hne' : (List.range K).flatMap F ≠ [] := by
          intro hnil
          rw [List.flatMap_eq_nil_iff] at hnil
          exact (h 0 (by omega)).1 (hnil 0 (by simp; omega))
        have e1 := linked_end c1 hpl hne'
        have e2 := linked_start c2 hl hne
        rw [show k = K - 1 by omega, ← e1, e2, show K - 1 + 1 = K by omega]

theorem odd_flatMap {f : Nat → List PathElement} (h : ∀ i, i % 2 = 0 → f i = []) : ∀ K,
    (List.range (2 * K + 1)).flatMap f = (List.range K).flatMap (fun k => f (2 * k + 1))
  | 0 => by simp [List.range_succ, h 0 rfl]
  | K + 1 => by
    rw [show 2 * (K + 1) + 1 = (2 * K + 1) + 1 + 1 by omega, List.range_succ, List.range_succ, List.flatMap_append,
      List.flatMap_append, odd_flatMap h K, List.range_succ, List.flatMap_append]
    simp [h (2 * K + 1 + 1) (by omega)]

/-! ## The pieces of an assignment -/

section
variable {ops : List Op} (hv : Spec.ValidHistory ops) {s : State} (hs : run ops = some s)
variable {symbols : Symbols} {p : Pattern} {xs : List Nat} {index : Nat} {ρ : Asg}

theorem along_left {g : Ends} {d : State.Dir} {a a' e b : Nat} (h : Along g d a e b) (h' : Along g d a' e b) : a = a' := by
  cases d <;> simp only [Along] at h h' <;> omega

theorem along_flip {g : Ends} {d : State.Dir} {a e b : Nat} (h : Along g (flipDir d) a e b) : Along g d b e a := by
  cases d <;> simp only [Along, flipDir] at h ⊢ <;> omega

/-- the values around an edge item, and the ends of its piece -/
def PieceEnds (g : Ends) (p : Pattern) (index : Nat) (M : Match) (i A B : Nat) : Prop :=
  ∃ n es m, M[i - 1]? = some (.node n) ∧ M[i]? = some (.trail es) ∧ M[i + 1]? = some (.node m) ∧
    (index < i → A = n ∧ B = m) ∧
    (i < index → B = m ∧ (A = n ↔ ∀ e ∈ es.getLast?, Along g (itemDir (itemAt p i)) n e m) ∧
      ∀ e ∈ es.getLast?, Along g (itemDir (itemAt p i)) A e m) ∧
    (i = index → (itemDir (itemAt p i) = .outgoing → A = n ∧ B = m) ∧ (itemDir (itemAt p i) = .incoming → A = m ∧ B = n))

include hv hs

theorem piece_ends (E : Fair (Spec.run ops) symbols p xs index) (G : Good (Spec.run ops) symbols p xs index ρ) {i : Nat}
    (hi : i < p.length) (ho : i % 2 = 1) :
    ∃ A B, piece (decide (i < index)) (ρ i) ≠ [] ∧ Linked s.ends A (piece (decide (i < index)) (ρ i)) B ∧
      PieceEnds (Spec.run ops).ends p index (matchOf index p.length ρ) i A B := by
  have L := legsOf_ok hv hs
  have hodd := E.odd
  obtain ⟨n, ps, m, q1, q2, q3, c1, c2, c3⟩ := G.edge i hi ho
  have m1 : (matchOf index p.length ρ)[i - 1]? = some (.node n) := by
    rw [matchOf_get (by omega), q1]; rfl
  have m3 : (matchOf index p.length ρ)[i + 1]? = some (.node m) := by
    rw [matchOf_get (by omega), q3]; rfl
  have m2 := matchOf_get (index := index) (ρ := ρ) hi
  rw [q2] at m2 ⊢
  rcases Nat.lt_trichotomy i index with hlt | heq | hgt
  · obtain ⟨w1, w2⟩ := c2 hlt
    have hl := leg_linked hv hs w1
    cases hps : ps with
    | nil => exact absurd hps w1.1
    | cons pe rest =>
      subst hps
      have hp : piece (decide (i < index)) (some (.path { path := pe :: rest })) = [turn pe] := by simp [piece, hlt]
      rw [hp]
      simp only [valOf, if_pos hlt] at m2
      obtain ⟨e1, e2⟩ := L.ends pe.edge (w1.2.2.1 pe (by simp)).1
      have ht : pe.getTargetNode s.ends = pe.getTargetNode (Spec.run ops).ends := by
        unfold PathElement.getTargetNode; rw [e1, e2]
      have hal := along_flip (along_of_step w1.2.2.2.1.1 w1.2.2.2.1.2.1)
      rw [← ht] at hal
      refine ⟨pe.getTargetNode s.ends, m, by simp, ⟨turn_source, by rw [turn_target]; exact hl.1⟩,
        n, _, m, m1, m2, m3, fun h => by omega, fun _ => ⟨rfl, ?_, ?_⟩, fun h => by omega⟩
      all_goals have hlast : ((pe :: rest).map (·.edge)).reverse.getLast? = some pe.edge := by simp
      all_goals rw [hlast]
      · constructor
        · rintro h e he
          simp only [Option.mem_def, Option.some.injEq] at he
          rw [← he, ← h]; exact hal
        · intro h
          exact along_left hal (h _ rfl)
      · intro e he
        simp only [Option.mem_def, Option.some.injEq] at he
        rw [← he]; exact hal
  · subst heq
    obtain ⟨e, y1, rfl, y3, y4⟩ := c3 rfl
    have hlive := E.edges ho e y1
    obtain ⟨e1, e2⟩ := L.ends e hlive
    have hp : piece (decide (i < i)) (some (.path { path := [⟨e, false⟩] })) = [⟨e, false⟩] := by simp [piece]
    rw [hp]
    refine ⟨s.ends.src e, s.ends.dst e, by simp, ⟨rfl, rfl⟩, n, _, m, m1, m2, m3, fun h => by omega, fun h => by omega,
      fun _ => ⟨fun hd => ?_, fun hd => ?_⟩⟩
    · rw [hd] at y4; rw [e1, e2]; exact y4
    · rw [hd] at y4; rw [e1, e2]; exact ⟨y4.2, y4.1⟩
  · obtain ⟨w1, w2⟩ := c1 hgt
    have hl := leg_linked hv hs w1
    rw [w2] at hl
    have hp : piece (decide (i < index)) (some (.path { path := ps })) = ps := by
      simp [piece]; omega
    rw [hp]
    exact ⟨n, m, w1.1, hl, n, _, m, m1, m2, m3, fun _ => ⟨rfl, rfl⟩, fun h => by omega, fun h => by omega⟩

/-- when the pieces fit together -/
theorem linked_iff (E : Fair (Spec.run ops) symbols p xs index) (G : Good (Spec.run ops) symbols p xs index ρ)
    (hone : p.length ≠ 1) :
    (IsLinked s.ends (pieces index p.length ρ) ↔ Glues (Spec.run ops).ends p index (matchOf index p.length ρ)) ∧
    (IsLinked s.ends (pieces index p.length ρ) → ∃ A B A' B',
      PieceEnds (Spec.run ops).ends p index (matchOf index p.length ρ) 1 A A' ∧
      PieceEnds (Spec.run ops).ends p index (matchOf index p.length ρ) (p.length - 2) B' B ∧
      Linked s.ends A (pieces index p.length ρ) B) := by
  have hodd := E.odd
  have hlt := E.lt
  obtain ⟨K, hK⟩ : ∃ K, p.length = 2 * K + 1 := ⟨p.length / 2, by omega⟩
  have hK0 : 0 < K := by omega
  have heven : ∀ i, i % 2 = 0 → (fun i => piece (decide (i < index)) (if i < p.length then ρ i else none)) i = [] := by
    intro i hi
    simp only
    split
    · rename_i h
      obtain ⟨n, hn, _⟩ := G.node i h hi
      rw [hn]; rfl
    · rfl
  have hpieces : pieces index p.length ρ = (List.range K).flatMap (fun k => piece (decide (2 * k + 1 < index)) (ρ (2 * k + 1))) := by
    have h1 : pieces index p.length ρ =
        (List.range (2 * K + 1)).flatMap (fun i => piece (decide (i < index)) (if i < p.length then ρ i else none)) := by
      unfold pieces
      rw [hK]
      refine flatMap_same (fun i hi => ?_)
      rw [List.mem_range] at hi
      rw [if_pos hi]
    rw [h1, odd_flatMap heven]
    refine flatMap_same (fun k hk => ?_)
    rw [List.mem_range] at hk
    rw [if_pos (by omega)]
  have hex : ∀ k, ∃ AB : Nat × Nat, k < K → piece (decide (2 * k + 1 < index)) (ρ (2 * k + 1)) ≠ [] ∧
      Linked s.ends AB.1 (piece (decide (2 * k + 1 < index)) (ρ (2 * k + 1))) AB.2 ∧
      PieceEnds (Spec.run ops).ends p index (matchOf index p.length ρ) (2 * k + 1) AB.1 AB.2 := by
    intro k
    by_cases hk : k < K
    · obtain ⟨A, B, h⟩ := piece_ends hv hs E G (i := 2 * k + 1) (by omega) (by omega)
      exact ⟨(A, B), fun _ => h⟩
    · exact ⟨(0, 0), fun h => absurd h hk⟩
  obtain ⟨AB, hAB⟩ := Classical.axiomOfChoice hex
  obtain ⟨f1, f2⟩ := linked_flatMap (g := s.ends) (F := fun k => piece (decide (2 * k + 1 < index)) (ρ (2 * k + 1)))
    (A := fun k => (AB k).1) (B := fun k => (AB k).2) (K := K) (fun k hk => ⟨(hAB k hk).1, (hAB k hk).2.1⟩)
  rw [← hpieces] at f1 f2
  have hstart : index % 2 = 1 → itemDir (itemAt p index) = .outgoing ∨ itemDir (itemAt p index) = .incoming := by
    intro ho
    have := E.directed ho
    cases h : itemDir (itemAt p index) with
    | outgoing => exact Or.inl rfl
    | incoming => exact Or.inr rfl
    | any => exact absurd h this
  have hends := fun k hk => (hAB k hk).2.2
  have hglue : (∀ k, k + 1 < K → (AB k).2 = (AB (k + 1)).1) ↔ Glues (Spec.run ops).ends p index (matchOf index p.length ρ) := by
    constructor
    · intro h
      refine ⟨fun i a es b hi hlt' hma hme hmb => ?_, fun ho hd hlen => ?_⟩
      · have hio : i % 2 = 1 := by
          apply Classical.byContradiction
          intro hne
          obtain ⟨n, hn, _⟩ := G.node i (by omega) (by omega)
          rw [matchOf_get (by omega), hn] at hme
          cases hme
        obtain ⟨k, rfl⟩ : ∃ k, i = 2 * (k + 1) + 1 := ⟨(i - 3) / 2, by omega⟩
        obtain ⟨n, es', m, a1, a2, a3, _, a5, _⟩ := hends (k + 1) (by omega)
        obtain ⟨n', es'', m', b1, b2, b3, _, b5, _⟩ := hends k (by omega)
        rw [hma] at a1; rw [hme] at a2; rw [hmb] at a3
        simp only [Option.some.injEq, Val.node.injEq, Val.trail.injEq] at a1 a2 a3
        subst a1; subst a2; subst a3
        rw [show 2 * k + 1 + 1 = 2 * (k + 1) + 1 - 1 by omega, hma] at b3
        simp only [Option.some.injEq, Val.node.injEq] at b3
        refine (a5 hlt').2.1.1 ?_
        rw [← h k (by omega), (b5 (by omega)).1, b3]
      · obtain ⟨k, rfl⟩ : ∃ k, index = 2 * k + 1 := ⟨index / 2, by omega⟩
        obtain ⟨n, es', m, a1, a2, a3, _, _, a6⟩ := hends k (by omega)
        obtain ⟨x1, x2⟩ := (a6 rfl).2 hd
        suffices n = m by rw [a1, a3, this]
        by_cases hk : k + 1 < K
        · obtain ⟨n', es'', m', b1, b2, b3, b4, _, _⟩ := hends (k + 1) hk
          rw [show 2 * (k + 1) + 1 - 1 = 2 * k + 1 + 1 by omega, a3] at b1
          simp only [Option.some.injEq, Val.node.injEq] at b1
          have := h k hk
          rw [x2, (b4 (by omega)).1, ← b1] at this
          exact this
        · obtain ⟨k', rfl⟩ : ∃ k', k = k' + 1 := ⟨k - 1, by omega⟩
          obtain ⟨n', es'', m', b1, b2, b3, _, b5, _⟩ := hends k' (by omega)
          rw [show 2 * k' + 1 + 1 = 2 * (k' + 1) + 1 - 1 by omega, a1] at b3
          simp only [Option.some.injEq, Val.node.injEq] at b3
          have := h k' (by omega)
          rw [x1, (b5 (by omega)).1, ← b3] at this
          exact this
    · rintro ⟨h1, h2⟩ k hk
      obtain ⟨n, es, m, a1, a2, a3, a4, a5, a6⟩ := hends k (by omega)
      obtain ⟨n', es', m', b1, b2, b3, b4, b5, b6⟩ := hends (k + 1) hk
      have hmid : m = n' := by
        rw [show 2 * (k + 1) + 1 - 1 = 2 * k + 1 + 1 by omega, a3] at b1
        simpa using b1
      subst hmid
      have hloop : index % 2 = 1 → itemDir (itemAt p index) = .incoming → ∀ x y,
          ∀ i, i = index → (matchOf index p.length ρ)[i - 1]? = some (.node x) →
            (matchOf index p.length ρ)[i + 1]? = some (.node y) → x = y := by
        intro ho hd x y i hi hx hy
        rw [hi] at hx hy
        have := h2 ho hd (by omega)
        rw [hx, hy] at this
        simpa using this
      rcases Nat.lt_trichotomy (2 * k + 1) index with hl | he | hg
      · rw [(a5 hl).1]
        rcases Nat.lt_trichotomy (2 * (k + 1) + 1) index with hl' | he' | hg'
        · exact ((b5 hl').2.1.2 (h1 _ _ _ _ (by omega) hl' b1 b2 b3)).symm
        · rcases hstart (by omega) with hd | hd
          · rw [((b6 he').1 (by rw [he']; exact hd)).1]
          · rw [((b6 he').2 (by rw [he']; exact hd)).1]
            exact hloop (by omega) hd _ _ _ he' b1 b3
        · rw [(b4 hg').1]
      · rw [(b4 (by omega)).1]
        rcases hstart (by omega) with hd | hd
        · rw [((a6 he).1 (by rw [he]; exact hd)).2]
        · rw [((a6 he).2 (by rw [he]; exact hd)).2]
          exact hloop (by omega) hd _ _ _ he a1 a3
      · rw [(a4 hg).2, (b4 (by omega)).1]
  refine ⟨⟨fun h => hglue.1 (f2 h), fun h => ⟨_, _, f1 (hglue.2 h) hK0⟩⟩, fun h => ?_⟩
  refine ⟨_, _, _, (AB (K - 1)).1, hends 0 hK0, ?_, f1 (f2 h) hK0⟩
  have := hends (K - 1) (by omega)
  rw [show 2 * (K - 1) + 1 = p.length - 2 by omega] at this
  exact this

/-- the edges of the pieces -/
theorem pieces_edges (E : Fair (Spec.run ops) symbols p xs index) (G : Good (Spec.run ops) symbols p xs index ρ) :
    (pieces index p.length ρ).map (·.edge) = Match.shown index (matchOf index p.length ρ) ∧
      ∀ pe ∈ pieces index p.length ρ, pe.edge ∈ (Spec.run ops).edges := by
  unfold pieces Match.shown
  rw [List.map_flatMap, matchOf_length]
  constructor
  · refine flatMap_same (fun i hi => ?_)
    rw [List.mem_range] at hi
    rw [matchOf_get hi]
    by_cases he : i % 2 = 0
    · obtain ⟨n, hn, _⟩ := G.node i hi he
      rw [hn]; rfl
    · obtain ⟨n, ps, m, q1, q2, q3, _⟩ := G.edge i hi (by omega)
      rw [q2]
      by_cases hlt : i < index
      · simp only [piece, valOf, Val.shown, hlt, decide_true, if_true]
        cases ps <;> simp [turn]
      · simp [piece, valOf, Val.shown, hlt]
  · intro pe hpe
    obtain ⟨i, hi, hm⟩ := List.mem_flatMap.1 hpe
    rw [List.mem_range] at hi
    by_cases he : i % 2 = 0
    · obtain ⟨n, hn, _⟩ := G.node i hi he
      rw [hn] at hm; cases hm
    · obtain ⟨n, ps, m, q1, q2, q3, c1, c2, c3⟩ := G.edge i hi (by omega)
      have hall : ∀ pe ∈ ps, pe.edge ∈ (Spec.run ops).edges := by
        intro pe hpe
        rcases Nat.lt_trichotomy i index with hl | rfl | hg
        · exact ((c2 hl).1.2.2.1 pe hpe).1
        · obtain ⟨e, y1, rfl, _⟩ := c3 rfl
          simp only [List.mem_singleton] at hpe
          subst hpe
          exact E.edges (by omega) e y1
        · exact ((c1 hg).1.2.2.1 pe hpe).1
      rw [q2] at hm
      simp only [piece] at hm
      split at hm
      · cases hps : ps with
        | nil => rw [hps] at hm; simp at hm
        | cons x rest =>
          rw [hps] at hm
          simp only [List.head?_cons, Option.map_some, Option.toList_some, List.mem_singleton] at hm
          subst hm
          exact hall x (by rw [hps]; simp)
      · exact hall pe hm

/-- Exactly when a report has a path, and which. -/
theorem path_exact (E : Fair (Spec.run ops) symbols p xs index) (G : Good (Spec.run ops) symbols p xs index ρ)
    (hone : p.length ≠ 1) :
    (Glues (Spec.run ops).ends p index (matchOf index p.length ρ) → ∃ q A B A' B',
      currentPath s.ends (thePlan p xs index) ρ = some q ∧
      Visits (Spec.run ops).ends q A (Match.shown index (matchOf index p.length ρ)) B ∧
      PieceEnds (Spec.run ops).ends p index (matchOf index p.length ρ) 1 A A' ∧
      PieceEnds (Spec.run ops).ends p index (matchOf index p.length ρ) (p.length - 2) B' B) ∧
    (¬ Glues (Spec.run ops).ends p index (matchOf index p.length ρ) → currentPath s.ends (thePlan p xs index) ρ = none) := by
  have hlt := E.lt
  have hodd := E.odd
  have L := legsOf_ok hv hs
  obtain ⟨b, hb, _⟩ := G.node (p.length - 1) (by omega) (by omega)
  obtain ⟨h1, h2⟩ := linked_iff hv hs E G hone
  obtain ⟨e1, e2⟩ := pieces_edges hv hs E G
  obtain ⟨k1, k2⟩ := currentPath_glue (g := s.ends) (xs := xs) hlt hone hb (fun i hi q hq => by
    have hio : i % 2 = 1 := by
      apply Classical.byContradiction
      intro hne
      obtain ⟨n, hn, _⟩ := G.node i hi (by omega)
      rw [hn] at hq; cases hq
    obtain ⟨n, ps, m, q1, q2, q3, c1, c2, c3⟩ := G.edge i hi hio
    rw [q2, Option.some.injEq, Res.path.injEq] at hq
    subst hq
    refine ⟨rfl, ?_⟩
    rcases Nat.lt_trichotomy i index with hl | he | hg
    · exact ⟨(c2 hl).1.1, _, _, leg_linked hv hs (c2 hl).1⟩
    · obtain ⟨e, y1, rfl, _⟩ := c3 he
      exact ⟨by simp, _, _, rfl, rfl⟩
    · exact ⟨(c1 hg).1.1, _, _, leg_linked hv hs (c1 hg).1⟩)
  refine ⟨fun h => ?_, fun h => k2 (fun h' => h (h1.1 h'))⟩
  obtain ⟨A, B, A', B', w1, w2, w3⟩ := h2 (h1.2 h)
  refine ⟨_, A, B, A', B', k1 (h1.2 h), ⟨rfl, e1, ?_⟩, w1, w2⟩
  rw [linked_congr (g' := s.ends) (fun pe hpe => ⟨(L.ends _ (e2 pe hpe)).1.symm, (L.ends _ (e2 pe hpe)).2.symm⟩)]
  exact w3

omit hv hs in
theorem PieceEnds.shownFrom {g : Ends} {M : Match} {A B : Nat} (h : PieceEnds g p index M 1 A B)
    (hd : index % 2 = 1 → itemDir (itemAt p index) ≠ .any) : ShownFrom g p index M A := by
  obtain ⟨n, es, m, h1, h2, h3, h4, h5, h6⟩ := h
  refine ⟨n, es, m, h1, h2, h3, fun h0 => (h4 (by omega)).1, fun h0 => ?_, fun h0 => (h5 h0).2.2⟩
  have hd := hd (by omega)
  rw [h0] at hd
  cases hd' : itemDir (itemAt p 1) with
  | any => exact absurd hd' hd
  | outgoing => exact (((h6 h0.symm).1 hd').1)
  | incoming => exact (((h6 h0.symm).2 hd').1)

omit hv hs in
theorem PieceEnds.shownTo {g : Ends} {M : Match} {A B : Nat} (h : PieceEnds g p index M (p.length - 2) A B) (hl : 3 ≤ p.length)
    (hodd : p.length % 2 = 1) (hd : index % 2 = 1 → itemDir (itemAt p index) ≠ .any) : ShownTo p index M B := by
  obtain ⟨n, es, m, h1, h2, h3, h4, h5, h6⟩ := h
  rw [show p.length - 2 - 1 = p.length - 3 by omega] at h1
  rw [show p.length - 2 + 1 = p.length - 1 by omega] at h3
  unfold ShownTo
  rcases Nat.lt_trichotomy (p.length - 2) index with h | h | h
  · rw [if_neg (by omega), h3, (h5 h).1]
  · have hd := hd (by omega)
    rw [← h] at hd ⊢
    cases hd' : itemDir (itemAt p (p.length - 2)) with
    | any => exact absurd hd' hd
    | outgoing => rw [if_neg (by simp), h3, ((h6 h).1 hd').2]
    | incoming => rw [if_pos ⟨rfl, rfl⟩, h1, ((h6 h).2 hd').2]
  · rw [if_neg (by omega), h3, (h4 h).2]

omit hv hs in
theorem whole_glues {σ : Spec} {M : Match} (hM : Matches σ symbols p M) (hlt : index < p.length) (hw : Whole p index M) :
    Glues σ.ends p index M := by
  refine ⟨fun i a es b h3 hi ha he hb e hl => ?_, fun ho hd _ => hw.2 ho hd⟩
  have := hM.2 i (by omega)
  split at this
  · obtain ⟨n, hn, _⟩ := this
    rw [he] at hn; cases hn
  · obtain ⟨a', es', b', k1, k2, k3, f⟩ := this
    rw [ha] at k1; rw [he] at k2; rw [hb] at k3
    cases k1; cases k2; cases k3
    obtain ⟨x, rfl⟩ := List.length_eq_one_iff.1 (hw.1 i es hi he)
    simp only [List.getLast?_singleton, Option.mem_def, Option.some.injEq] at hl
    subst hl
    obtain ⟨c, c1, c2⟩ := f.2.2.2.1
    cases c2
    exact c1

omit hv hs in
/-- all edges, as in `Match.shown` -/
theorem edges_flatMap : ∀ {M : Match}, Match.edges M = (List.range M.length).flatMap fun i => Val.shown false M[i]?
  | [] => rfl
  | .node n :: M => by
    rw [Match.edges, edges_flatMap (M := M), List.length_cons, List.range_succ_eq_map, List.flatMap_cons, List.flatMap_map]
    simp [Val.shown]
  | .trail es :: M => by
    rw [Match.edges, edges_flatMap (M := M), List.length_cons, List.range_succ_eq_map, List.flatMap_cons, List.flatMap_map]
    simp [Val.shown]

omit hv hs in
theorem flatMap_tight {α β : Type} {f f' : α → List β} : ∀ {l : List α}, (∀ x ∈ l, (f x).length ≤ (f' x).length) →
    (l.flatMap f).length ≤ (l.flatMap f').length ∧
      ((l.flatMap f').length ≤ (l.flatMap f).length → ∀ x ∈ l, (f x).length = (f' x).length)
  | [], _ => by simp
  | x :: l, h => by
    obtain ⟨h1, h2⟩ := flatMap_tight (l := l) (fun y hy => h y (by simp [hy]))
    have h3 := h x (by simp)
    simp only [List.flatMap_cons, List.length_append]
    refine ⟨by omega, fun h4 y hy => ?_⟩
    rcases List.mem_cons.1 hy with rfl | hy
    · omega
    · exact h2 (by omega) y hy

/-- Exactly which reports have the matched path. -/
theorem path_whole (E : Fair (Spec.run ops) symbols p xs index) (G : Good (Spec.run ops) symbols p xs index ρ) {q : Path}
    (hq : currentPath s.ends (thePlan p xs index) ρ = some q) :
    PathShows (Spec.run ops).ends (matchOf index p.length ρ) q ↔ Whole p index (matchOf index p.length ρ) := by
  have hlt := E.lt
  have hodd := E.odd
  have hM := good_matches E G
  have hstart : index % 2 = 1 → itemDir (itemAt p index) = .outgoing ∨ itemDir (itemAt p index) = .incoming := by
    intro ho
    have := E.directed ho
    cases h : itemDir (itemAt p index) with
    | outgoing => exact Or.inl rfl
    | incoming => exact Or.inr rfl
    | any => exact absurd h this
  by_cases hone : p.length = 1
  · have hi : index = 0 := by omega
    subst hi
    refine ⟨fun _ => ⟨fun i _ hi => by omega, fun h => by omega⟩, fun _ => ?_⟩
    obtain ⟨q', h1, h2⟩ := path_shows hv hs E G ⟨fun i hi => by omega, fun h => by omega⟩
    rw [hq, Option.some.injEq] at h1
    rw [h1]; exact h2
  obtain ⟨k1, k2⟩ := path_exact hv hs E G hone
  have hglue : Glues (Spec.run ops).ends p index (matchOf index p.length ρ) := by
    apply Classical.byContradiction
    intro h
    rw [k2 h] at hq; cases hq
  obtain ⟨q', A, B, A', B', x1, ⟨v1, v2, v3⟩, eA, eB⟩ := k1 hglue
  rw [hq, Option.some.injEq] at x1
  subst x1
  generalize hMe : matchOf index p.length ρ = M at *
  have hlen : M.length = p.length := hM.1
  have hval : ∀ i, i < p.length → i % 2 = 1 → ∃ a es b, M[i - 1]? = some (.node a) ∧ M[i]? = some (.trail es) ∧
      M[i + 1]? = some (.node b) ∧ es ≠ [] ∧ Joins (Spec.run ops).ends (itemDir (itemAt p i)) a es b := by
    intro i hi ho
    have := hM.2 i hi
    rw [if_neg (by omega)] at this
    obtain ⟨a, es, b, m1, m2, m3, f⟩ := this
    exact ⟨a, es, b, m1, m2, m3, f.1, f.2.2.2.1⟩
  have hvalE : ∀ i, i < p.length → i % 2 = 0 → ∃ n, M[i]? = some (.node n) := by
    intro i hi he
    have := hM.2 i hi
    rw [if_pos he] at this
    obtain ⟨n, hn, _⟩ := this
    exact ⟨n, hn⟩
  obtain ⟨na, esa, ma, a1, a2, a3, a4, a5, a6⟩ := eA
  obtain ⟨nb, esb, mb, b1, b2, b3, b4, b5, b6⟩ := eB
  have hb3 : M[p.length - 1]? = some (.node mb) := by
    rw [show p.length - 1 = p.length - 2 + 1 by omega]; exact b3
  constructor
  · rintro ⟨a, b, w1, w2, _, w4⟩
    obtain ⟨_, w5, w6⟩ := w4 (by omega)
    have hpne : q.path ≠ [] := by
      intro h0
      rw [h0] at w5
      obtain ⟨_, es, _, _, m2, _, m4, _⟩ := hval 1 (by omega) (by omega)
      have hnil : Match.edges M = [] := w5.symm
      rw [edges_flatMap, List.flatMap_eq_nil_iff] at hnil
      have := hnil 1 (by simp; omega)
      rw [m2] at this
      exact m4 this
    refine ⟨fun i es hi he => ?_, fun ho hd => ?_⟩
    · have heq : Match.shown index M = Match.edges M := v2.symm.trans w5
      rw [edges_flatMap] at heq
      unfold Match.shown at heq
      have := (flatMap_tight (l := List.range M.length)
        (f := fun i => Val.shown (decide (i < index)) M[i]?) (f' := fun i => Val.shown false M[i]?) (fun x _ => by
            cases M[x]? with
            | none => simp [Val.shown]
            | some v =>
              cases v with
              | node => simp [Val.shown]
              | trail es =>
                simp only [Val.shown]
                split
                · cases h : es.getLast? with
                  | none => simp
                  | some e =>
                    have : es ≠ [] := by rintro rfl; simp at h
                    have := List.length_pos_iff.2 this
                    simp; omega
                · simp)).2 (by rw [heq]; exact Nat.le_refl _) i (by simp; omega)
      rw [he] at this
      simp only [Val.shown, hi, decide_true, if_true, Bool.false_eq_true, if_false] at this
      have hne : es ≠ [] := by
        rintro rfl
        have hio : i % 2 = 1 := by
          apply Classical.byContradiction
          intro h
          obtain ⟨n, hn⟩ := hvalE i (by omega) (by omega)
          rw [he] at hn; cases hn
        obtain ⟨_, es, _, _, m2, _, m4, _⟩ := hval i (by omega) hio
        rw [he] at m2
        cases m2
        exact m4 rfl
      rw [List.getLast?_eq_some_getLast hne] at this
      simpa using this.symm
    · by_cases h3 : p.length = 3
      · have hi1 : index = 1 := by omega
        subst hi1
        have hA := linked_start v3 w6 hpne
        rw [List.head?_eq_getElem?] at w1
        have : M[1 - 1]? = some (.node a) := w1
        rw [a1] at this
        cases this
        rw [a1, a3, ← ((a6 rfl).2 hd).1, hA]
      · exact hglue.2 ho hd h3
  · intro hw
    refine ⟨na, mb, ?_, ?_, fun h => absurd h (by omega), fun _ => ⟨v1, ?_, ?_⟩⟩
    · rw [List.head?_eq_getElem?]; exact a1
    · rw [List.getLast?_eq_getElem?, hlen]; exact hb3
    · rw [v2, edges_flatMap]
      unfold Match.shown
      refine flatMap_same (fun i hi => ?_)
      cases hm : M[i]? with
      | none => rfl
      | some v =>
        cases v with
        | node n => rfl
        | trail es =>
          by_cases hlt' : i < index
          · obtain ⟨x, rfl⟩ := List.length_eq_one_iff.1 (hw.1 i es hlt' hm)
            simp [Val.shown]
          · simp [Val.shown, hlt']
    · have hA : A = na := by
        rcases Nat.lt_trichotomy 1 index with h | h | h
        · refine (a5 h).2.1.2 (fun e he => ?_)
          obtain ⟨a, es, b, m1, m2, m3, _, m5⟩ := hval 1 (by omega) (by omega)
          rw [a1] at m1; rw [a2] at m2; rw [a3] at m3
          cases m1; cases m2; cases m3
          obtain ⟨x, rfl⟩ := List.length_eq_one_iff.1 (hw.1 1 _ h a2)
          simp only [List.getLast?_singleton, Option.mem_def, Option.some.injEq] at he
          subst he
          obtain ⟨c, c1, c2⟩ := m5
          cases c2
          exact c1
        · rcases hstart (by omega) with hd | hd
          · exact ((a6 h).1 (by rw [h]; exact hd)).1
          · have := hw.2 (by omega) hd
            rw [← h] at this
            rw [a1, a3] at this
            rw [((a6 h).2 (by rw [h]; exact hd)).1]
            simpa using this.symm
        · exact (a4 h).1
      have hB : B = mb := by
        rcases Nat.lt_trichotomy (p.length - 2) index with h | h | h
        · exact (b5 h).1
        · rcases hstart (by omega) with hd | hd
          · exact ((b6 h).1 (by rw [h]; exact hd)).2
          · have := hw.2 (by omega) hd
            rw [← h] at this
            rw [b1, b3] at this
            rw [((b6 h).2 (by rw [h]; exact hd)).2]
            simpa using this
        · exact (b4 h).2
      rw [← hA, ← hB]; exact v3

end
end Pat
end LPG

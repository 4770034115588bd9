import Verif.Spec.Path

namespace LPG
namespace Path
variable {g : Ends}

theorem WF.steps {p : Path} (h : p.WF) {e : PathElement} {es : List PathElement} (hp : p.path = e :: es) : p.only = none := by
  cases ho : p.only with
  | none => rfl
  | some n => have := h (by simp [ho]); rw [hp] at this; cases this

/-- The three kinds of paths. -/
theorem WF.cases {p : Path} (h : p.WF) :
    p = {} ∨ (∃ n, p = { only := some n, path := [] }) ∨ (∃ e es, p = { only := none, path := e :: es }) := by
  obtain ⟨o, es⟩ := p
  cases o with
  | some n => have := h (by simp); exact Or.inr (Or.inl ⟨n, by simp_all⟩)
  | none =>
    cases es with
    | nil => exact Or.inl rfl
    | cons e es => exact Or.inr (Or.inr ⟨e, es, rfl⟩)

theorem append_wf {p : Path} (h : p.WF) {es : List PathElement} :
    (∀ q, p.append g es = .ok q → q.WF) ∧ (∀ q, p.append g es = .error q → q.WF) := by
  cases es with
  | nil => exact ⟨fun q hq => by cases hq; exact h, fun q hq => by cases hq⟩
  | cons e es =>
    unfold append
    simp only
    split
    · rename_i h0
      refine ⟨fun q hq => ?_, fun q hq => by cases hq⟩
      cases hq
      intro ho
      unfold numNodes at h0
      cases hpo : p.only with
      | none => exact absurd hpo ho
      | some n => rw [hpo] at h0; cases h0
    · split
      · exact ⟨fun q hq => (by cases hq), fun q hq => by cases hq; exact h⟩
      · split
        · exact ⟨fun q hq => by cases hq; intro ho; exact absurd rfl ho, fun q hq => by cases hq⟩
        · exact ⟨fun q hq => (by cases hq), fun q hq => by cases hq; intro ho; cases ho rfl⟩

theorem WF.noOnly {p : Path} : ({ p with only := none } : Path).WF := by intro h; cases h rfl

theorem app_wf {p q : Path} (hp : p.WF) (hq : q.WF) {r : Except (Path × Path) (Path × Path)}
    (hr : r = match p.append g q.path with
      | .ok p => .ok (p, q)
      | .error p => .error (p, q)) :
    (∀ p' q', r = .ok (p', q') → p'.WF ∧ q'.WF) ∧ (∀ p' q', r = .error (p', q') → p'.WF ∧ q'.WF) := by
  have a := append_wf (g := g) hp (es := q.path)
  split at hr
  · rename_i p1 h1
    exact ⟨fun p' q' h => by rw [hr] at h; cases h; exact ⟨a.1 _ h1, hq⟩, fun p' q' h => by rw [hr] at h; cases h⟩
  · rename_i p1 h1
    exact ⟨fun p' q' h => (by rw [hr] at h; cases h), fun p' q' h => by rw [hr] at h; cases h; exact ⟨a.2 _ h1, hq⟩⟩

theorem appendPath_wf {p q : Path} (hp : p.WF) (hq : q.WF) :
    (∀ p' q', p.appendPath g q = .ok (p', q') → p'.WF ∧ q'.WF) ∧
    (∀ p' q', p.appendPath g q = .error (p', q') → p'.WF ∧ q'.WF) := by
  unfold appendPath
  simp only
  split
  · rename_i h0
    refine ⟨fun p' q' h => ?_, fun p' q' h => by cases h⟩
    cases h
    refine ⟨fun ho => ?_, hq⟩
    unfold numNodes at h0
    cases hpo : p.only with
    | none => exact absurd hpo ho
    | some n => rw [hpo] at h0; cases h0
  · split
    · exact app_wf WF.noOnly hq rfl
    · split
      · exact ⟨fun p' q' h => by cases h; exact ⟨hp, hq⟩, fun p' q' h => by cases h⟩
      · split
        · exact app_wf hp WF.noOnly rfl
        · exact app_wf hp hq rfl

theorem slice_wf {p q : Path} {s e : Int} (h : p.slice g s e = some q) : q.WF := by
  unfold slice at h
  split at h
  · cases h
  · split at h
    · cases h; exact fun _ => rfl
    · split at h
      · cases h
      · simp only at h
        generalize (if e > (p.numNodes : Int) ∨ e = -1 then (p.numNodes : Int) else e) = e' at h
        split at h
        · cases h
        · split at h
          · split at h
            · cases h
            · obtain ⟨x, _, rfl⟩ := Option.map_eq_some_iff.1 h
              exact fun _ => rfl
          · split at h
            · cases h; exact fun _ => rfl
            · split at h
              · cases h
              · cases h; intro ho; cases ho rfl

theorem Built.wf {p : Path} (h : Built g p) : p.WF := by
  induction h with
  | zero => intro _; rfl
  | elements es => intro ho; cases ho rfl
  | node h =>
    rename_i n p
    cases n with
    | none => cases h
    | some n => cases h; intro _; rfl
  | clone _ ih => exact ih
  | setOnlyNode n _ _ => intro _; rfl
  | clear _ _ => intro _; rfl
  | append _ h ih => exact (append_wf ih).1 _ h
  | appendPanic _ h ih => exact (append_wf ih).2 _ h
  | appendPath _ _ h i1 i2 => exact ((appendPath_wf i1 i2).1 _ _ h).1
  | appendPathArg _ _ h i1 i2 => exact ((appendPath_wf i1 i2).1 _ _ h).2
  | appendPathPanic _ _ h i1 i2 => exact ((appendPath_wf i1 i2).2 _ _ h).1
  | appendPathPanicArg _ _ h i1 i2 => exact ((appendPath_wf i1 i2).2 _ _ h).2
  | slice _ h _ => exact slice_wf h
  | removeLast s _ ih =>
    rename_i p _
    unfold Path.removeLast
    split
    · exact WF.noOnly
    · rename_i h; split
      · exact ih
      · intro ho; exact absurd h ho
  | removeFirst s _ ih =>
    rename_i p _
    unfold Path.removeFirst
    split
    · exact WF.noOnly
    · rename_i h; split
      · exact ih
      · intro ho; exact absurd h ho

/-! ## connectivity -/

theorem connected_nil : Connected g [] := fun _ h => by simp at h
theorem connected_single (e : PathElement) : Connected g [e] := fun _ h => by simp at h

theorem connected_cons {e f : PathElement} {es : List PathElement} :
    Connected g (e :: f :: es) ↔ e.getTargetNode g = f.getSourceNode g ∧ Connected g (f :: es) := by
  constructor
  · intro h
    refine ⟨h 0 (by simp), fun i hi => ?_⟩
    have := h (i + 1) (by simp at hi ⊢; omega)
    simpa using this
  · rintro ⟨h1, h2⟩ i hi
    cases i with
    | zero => exact h1
    | succ i =>
      have := h2 i (by simp at hi ⊢; omega)
      simpa using this

theorem connected_append : ∀ {xs ys : List PathElement}, Connected g (xs ++ ys) ↔
    Connected g xs ∧ Connected g ys ∧
      ∀ x ∈ xs.getLast?, ∀ y ∈ ys.head?, x.getTargetNode g = y.getSourceNode g
  | [], ys => by simp [connected_nil]
  | [x], [] => by simp [connected_nil]
  | [x], y :: ys => by
    simp [connected_cons, connected_single]
    exact and_comm
  | x :: x' :: xs, ys => by
    have := connected_append (xs := x' :: xs) (ys := ys)
    simp only [List.cons_append, connected_cons] at this ⊢
    rw [this, List.getLast?_cons_cons]
    exact and_assoc.symm

theorem connected_sub {xs es : List PathElement} (h : xs <:+: es) (hc : Connected g es) : Connected g xs := by
  obtain ⟨a, b, rfl⟩ := h
  exact ((connected_append.1 ((connected_append.1 hc).1)).2.1)

theorem linked_iff : ∀ {es : List PathElement} {l : Option Nat}, linked g l es = true ↔
    (∀ e ∈ es.head?, some (e.getSourceNode g) = l) ∧ Connected g es
  | [], l => by simp [linked, connected_nil]
  | [e], l => by
    simp only [linked, connected_single]
    split <;> simp_all
  | e :: f :: es, l => by
    rw [linked, connected_cons]
    have ih := linked_iff (es := f :: es) (l := some (e.getTargetNode g))
    split
    · simp_all
    · rename_i h
      rw [ih]
      simp only [ne_eq, Decidable.not_not] at h
      simp [h]
      intro _
      exact eq_comm

/-! ## accessors -/

theorem visits_length {p : Path} : p.numNodes = (p.visits g).length := by
  obtain ⟨o, es⟩ := p
  cases o <;> cases es <;> simp [numNodes, numEdges, visits]

theorem first_eq {p : Path} : p.first g = (p.visits g).head? := by
  obtain ⟨o, es⟩ := p
  cases o <;> cases es <;> simp [first, visits]

theorem last_eq {p : Path} : p.last g = (p.visits g).getLast? := by
  obtain ⟨o, es⟩ := p
  cases o with
  | some n => cases es <;> simp [last, visits]
  | none =>
    cases es with
    | nil => simp [last, visits]
    | cons e es =>
      simp only [last, visits, List.map_cons, List.getLast?_cons_cons]
      rw [← List.map_cons (f := fun x : PathElement => x.getTargetNode g), List.getLast?_map]

theorem visits_drop {es : List PathElement} (hc : Connected g es) {k m : Nat} (hk : k < es.length) (hm : 0 < m) :
    Path.visits g { only := none, path := (es.drop k).take m } =
      ((Path.visits g { only := none, path := es }).drop k).take (m + 1) := by
  obtain ⟨m, rfl⟩ : ∃ m', m = m' + 1 := ⟨m - 1, by omega⟩
  cases es with
  | nil => simp at hk
  | cons e0 es0 =>
    have h1 : (e0 :: es0).drop k = (e0 :: es0)[k] :: (e0 :: es0).drop (k + 1) := by
      rw [List.drop_eq_getElem_cons hk]
    simp only [visits, h1, List.take_succ_cons]
    have h2 : List.drop k (e0.getSourceNode g :: List.map (fun x => x.getTargetNode g) (e0 :: es0)) =
        (e0 :: es0)[k].getSourceNode g :: List.map (fun x => x.getTargetNode g) ((e0 :: es0).drop k) := by
      cases k with
      | zero => simp
      | succ k =>
        have hk' : k < (e0 :: es0).length := by omega
        have hh := hc k hk
        simp only [List.drop_succ_cons]
        rw [← hh, ← List.map_drop, List.drop_eq_getElem_cons hk', List.map_cons, List.drop_succ_cons]
    rw [h2, h1]
    simp [List.map_take]

end Path
end LPG

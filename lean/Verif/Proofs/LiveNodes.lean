import Verif.Proofs.NodeListExact
import Verif.Spec.Live

namespace LPG
open State

/-- The nodes of the abstract graph are in the order of their ids. -/
structure Spec.Sorted (σ : Spec) : Prop where
  sorted : σ.nodes.Pairwise (· < ·)
  lt : ∀ n ∈ σ.nodes, n < σ.next

theorem Spec.Sorted.init : Spec.new.Sorted := ⟨List.Pairwise.nil, by simp [Spec.new]⟩

theorem Spec.Sorted.step {σ : Spec} (h : σ.Sorted) (op : Op) : (σ.step op).Sorted := by
  cases op with
  | newNode ls ps =>
    constructor
    · simp only [Spec.step, List.pairwise_append, List.pairwise_singleton, List.mem_singleton, forall_eq]
      exact ⟨h.sorted, trivial, h.lt⟩
    · intro n hn
      simp only [Spec.step, List.mem_append, List.mem_singleton] at hn ⊢
      rcases hn with hn | rfl
      · exact Nat.lt_succ_of_lt (h.lt n hn)
      · exact Nat.lt_succ_self _
  | newEdge a b l ps => exact ⟨h.sorted, fun n hn => Nat.lt_succ_of_lt (h.lt n hn)⟩
  | detachRemove n => exact ⟨h.sorted.filter _, fun n hn => h.lt n ((List.mem_filter.1 hn).1)⟩
  | _ => exact ⟨h.sorted, h.lt⟩

theorem Spec.Sorted.runFrom {ops : List Op} : ∀ {σ : Spec}, σ.Sorted → (σ.runFrom ops).Sorted := by
  induction ops with
  | nil => exact fun h => h
  | cons op ops ih => intro σ h; exact ih (h.step op)

/-- Between two calls: `Y` are the nodes visited, `K` the nodes that must be visited. -/
structure NodesInv (σ : Spec) (it : NodeIt) (Y K : List Nat) : Prop where
  keep : ∀ y ∈ K, y ∈ σ.nodes ∨ y ∈ Y
  ended : it.next = none → ∀ y ∈ K, y ∈ Y
  before : ∀ x, it.next = some x → x ∈ σ.nodes ∧ (∀ y ∈ Y, y < x) ∧ (∀ y ∈ K, y < x → y ∈ Y) ∧
    ∀ y ∈ σ.nodes, y < x → y ∈ Y

theorem NodesInv.init {s : State} {σ : Spec} {pr : Option Nat} (h : NVis s.nptr s.allNodes σ.nodes pr) (hs : σ.Sorted) :
    NodesInv σ s.openNodes [] σ.nodes := by
  refine ⟨fun y hy => .inl hy, ?_, ?_⟩
  · intro hn
    simp only [State.openNodes, h.head] at hn
    cases hq : σ.nodes with
    | nil => simp
    | cons a as => rw [hq] at hn; simp at hn
  · intro x hx
    simp only [State.openNodes, h.head] at hx
    have hso := hs.sorted
    cases hq : σ.nodes with
    | nil => rw [hq] at hx; simp at hx
    | cons a as =>
      rw [hq] at hx hso
      simp only [List.head?_cons, Option.some.injEq] at hx
      subst hx
      have hge : ∀ y ∈ a :: as, ¬ y < a := fun y hy hlt => by
        rcases List.mem_cons.1 hy with rfl | hy
        · omega
        · have := (List.pairwise_cons.1 hso).1 y hy; omega
      exact ⟨by simp, by simp, fun y hy hlt => absurd hlt (hge y hy), fun y hy hlt => absurd hlt (hge y hy)⟩

/-- The pointer of a live node leads to the next live node. -/
theorem NRep.next_of {P : NPtr} {l : NList} {as bs : List Nat} {x : Nat} {d : Bool} (h : NRep P l (as ++ x :: bs) d) :
    P.next x = bs.head? := by
  have hs := h.seg
  rw [seg_append] at hs
  simpa [NPtr.slot] using hs.2.2.1

theorem NVis.next_of {P : NPtr} {l : NList} {as bs : List Nat} {x : Nat} {pr : Option Nat} (h : NVis P l (as ++ x :: bs) pr) :
    P.next x = bs.head? := by
  have hs := h.seg
  rw [seg_append] at hs
  simpa [NPtr.slot] using hs.2.2.1

theorem NRep.vis {P : NPtr} {l : NList} {xs : List Nat} {d : Bool} (h : NRep P l xs d) : NVis P l xs none :=
  ⟨h.head, h.seg⟩

/-- A call of `Next` that yields a node. -/
theorem NodesInv.item {s : State} {σ : Spec} {it : NodeIt} {Y K : List Nat} {pr : Option Nat} (hi : NodesInv σ it Y K)
    (h : NVis s.nptr s.allNodes σ.nodes pr) (hs : σ.Sorted) {x : Nat} (hx : it.next = some x) :
    NodesInv σ ⟨some x, s.nptr.next x⟩ (Y ++ [x]) (K ++ σ.nodes) := by
  obtain ⟨hxn, hY, hK, hB⟩ := hi.before x hx
  obtain ⟨as, bs, hsp⟩ := List.append_of_mem hxn
  have hnx := NVis.next_of (hsp ▸ h)
  have hso := hs.sorted
  rw [hsp, List.pairwise_append] at hso
  have hbs := List.pairwise_cons.1 hso.2.1
  have live : ∀ y ∈ σ.nodes, y ≤ x ∨ y ∈ bs := by
    intro y hy
    rw [hsp, List.mem_append, List.mem_cons] at hy
    rcases hy with hy | rfl | hy
    · exact .inl (Nat.le_of_lt (hso.2.2 y hy x (by simp)))
    · exact .inl (Nat.le_refl _)
    · exact .inr hy
  have seen : ∀ y ∈ K ++ σ.nodes, y ≤ x → y ∈ Y ++ [x] := by
    intro y hy hle
    rcases Nat.lt_or_eq_of_le hle with hlt | rfl
    · rcases List.mem_append.1 hy with hy | hy
      · exact List.mem_append_left _ (hK y hy hlt)
      · exact List.mem_append_left _ (hB y hy hlt)
    · simp
  have alive : ∀ y ∈ K ++ σ.nodes, y ∈ σ.nodes ∨ y ∈ Y := by
    intro y hy
    rcases List.mem_append.1 hy with hy | hy
    · exact hi.keep y hy
    · exact .inl hy
  have rest : ∀ y ∈ K ++ σ.nodes, y ∈ Y ++ [x] ∨ y ∈ bs := by
    intro y hy
    rcases alive y hy with h1 | h1
    · rcases live y h1 with h2 | h2
      · exact .inl (seen y hy h2)
      · exact .inr h2
    · exact .inl (List.mem_append_left _ h1)
  refine ⟨fun y hy => (alive y hy).imp_right (List.mem_append_left _), ?_, ?_⟩
  · intro hn y hy
    simp only [hnx] at hn
    cases bs with
    | nil => exact (rest y hy).elim id (fun h => by simp at h)
    | cons b bs => simp at hn
  · intro z hz
    simp only [hnx] at hz
    cases bs with
    | nil => simp at hz
    | cons b bs =>
      simp only [List.head?_cons, Option.some.injEq] at hz
      subst hz
      have hxb := hbs.1 b (by simp)
      have key : ∀ y ∈ K ++ σ.nodes, y < b → y ∈ Y ++ [x] := by
        intro y hy hlt
        rcases rest y hy with h1 | h1
        · exact h1
        · rcases List.mem_cons.1 h1 with rfl | h1
          · omega
          · have := (List.pairwise_cons.1 hbs.2).1 y h1; omega
      refine ⟨by rw [hsp]; simp, ?_, key, fun y hy => key y (List.mem_append_right _ hy)⟩
      intro y hy
      rcases List.mem_append.1 hy with hy | hy
      · exact Nat.lt_trans (hY y hy) hxb
      · simp only [List.mem_singleton] at hy; omega

/-- An operation between two calls of `Next`. -/
theorem NodesInv.did {σ : Spec} {it : NodeIt} {Y K : List Nat} (hi : NodesInv σ it Y K) (hs : σ.Sorted) {op : Op}
    (hr : ∀ n, op = .detachRemove n → n ∈ Y) : NodesInv (σ.step op) it Y K := by
  have keep : ∀ y ∈ σ.nodes, y ∈ (σ.step op).nodes ∨ y ∈ Y := by
    intro y hy
    cases op with
    | newNode ls ps => exact .inl (List.mem_append_left _ hy)
    | detachRemove n =>
      by_cases h : y = n
      · exact .inr (h ▸ hr n rfl)
      · exact .inl (List.mem_filter.2 ⟨hy, by simpa using h⟩)
    | _ => exact .inl hy
  have new : ∀ y ∈ (σ.step op).nodes, y ∈ σ.nodes ∨ y = σ.next := by
    intro y hy
    cases op with
    | newNode ls ps =>
      rcases List.mem_append.1 hy with hy | hy
      · exact .inl hy
      · exact .inr (by simpa using hy)
    | detachRemove n => exact .inl ((List.mem_filter.1 hy).1)
    | _ => exact .inl hy
  refine ⟨?_, hi.ended, ?_⟩
  · intro y hy
    rcases hi.keep y hy with h | h
    · exact keep y h
    · exact .inr h
  · intro x hx
    obtain ⟨h1, h2, h3, h4⟩ := hi.before x hx
    refine ⟨?_, h2, h3, ?_⟩
    · rcases keep x h1 with h | h
      · exact h
      · exact absurd (h2 x h) (Nat.lt_irrefl _)
    · intro y hy hlt
      rcases new y hy with h | h
      · exact h4 y h hlt
      · have := hs.lt x h1; omega

theorem Spec.runFrom_cons (σ : Spec) (op : Op) (ops : List Op) : σ.runFrom (op :: ops) = (σ.step op).runFrom ops := rfl

/-- The log of a program that starts in the middle of a loop. -/
theorem nodes_live {evs : List Event} : ∀ {s s' : State} {σ : Spec} {f : ListFlags} {it it' : NodeIt} {Y K : List Nat}
    {log : List Seen}, Core s σ → NOk s σ f → σ.Sorted → NodesInv σ it Y K →
    Y.Pairwise (· < ·) → live step NodeIt.adv s it evs = some (log, s', it') → σ.ValidFrom (Seen.ops log) →
    σ.ListOkFrom f (Seen.ops log) → RemovesVisited Y log →
    (Y ++ Seen.visited log).Pairwise (· < ·) ∧
    (∀ p x q, log = p ++ .item x :: q → x ∈ (σ.runFrom (Seen.ops p)).nodes) ∧
    (∀ p q, log = p ++ .last :: q → ∀ n ∈ K, n ∈ Y ++ Seen.visited p) ∧
    (∀ p x q r, log = p ++ .item x :: q ++ .last :: r →
      ∀ n ∈ (σ.runFrom (Seen.ops p)).nodes, n ∈ Y ++ Seen.visited (p ++ .item x :: q)) := by
  induction evs with
  | nil =>
    intro s s' σ f it it' Y K log c h hso hi hY hl hv hd hr
    simp only [live, Option.some.injEq, Prod.mk.injEq] at hl
    obtain ⟨rfl, -⟩ := hl
    exact ⟨by simpa [Seen.visited] using hY, by simp, by simp, by simp⟩
  | cons ev evs ih =>
    intro s s' σ f it it' Y K log c h hso hi hY hl hv hd hr
    cases ev with
    | next =>
      simp only [live, NodeIt.adv] at hl
      cases hx : it.next with
      | none =>
        simp only [hx] at hl
        cases hl2 : live step NodeIt.adv s { current := none, next := none } evs with
        | none => rw [hl2] at hl; cases hl
        | some z =>
          obtain ⟨log2, z2⟩ := z
          rw [hl2] at hl
          simp only [Option.some.injEq, Prod.mk.injEq] at hl
          obtain ⟨rfl, rfl⟩ := hl
          have hi2 : NodesInv σ { current := none, next := none } Y K := ⟨hi.keep, fun _ => hi.ended hx, by simp⟩
          obtain ⟨h1, h2, h3, h4⟩ := ih c h hso hi2 hY hl2 hv hd hr
          refine ⟨h1, ?_, ?_, ?_⟩
          · intro p x q hq
            cases p with
            | nil => simp at hq
            | cons a p => simp only [List.cons_append, List.cons.injEq] at hq; rw [← hq.1]; exact h2 p x q hq.2
          · intro p q hq
            cases p with
            | nil => intro n hn; exact List.mem_append_left _ (hi.ended hx n hn)
            | cons a p => simp only [List.cons_append, List.cons.injEq] at hq; rw [← hq.1]; exact h3 p q hq.2
          · intro p x q r hq
            cases p with
            | nil => simp at hq
            | cons a p => simp only [List.cons_append, List.cons.injEq] at hq; rw [← hq.1]; exact h4 p x q r hq.2
      | some x =>
        simp only [hx] at hl
        cases hl2 : live step NodeIt.adv s { current := some x, next := s.nptr.next x } evs with
        | none => rw [hl2] at hl; cases hl
        | some z =>
          obtain ⟨log2, z2⟩ := z
          rw [hl2] at hl
          simp only [Option.some.injEq, Prod.mk.injEq] at hl
          obtain ⟨rfl, rfl⟩ := hl
          obtain ⟨hx1, hx2, -, -⟩ := hi.before x hx
          have hY2 : (Y ++ [x]).Pairwise (· < ·) := by
            rw [List.pairwise_append]
            refine ⟨hY, List.pairwise_singleton _ _, ?_⟩
            intro a ha b hb
            simp only [List.mem_singleton] at hb
            exact hb ▸ hx2 a ha
          obtain ⟨pr, hvis, -⟩ := h.vis
          obtain ⟨h1, h2, h3, h4⟩ := ih c h hso (hi.item hvis hso hx) hY2 hl2 hv hd hr
          have sh : ∀ p, Y ++ Seen.visited (.item x :: p) = Y ++ [x] ++ Seen.visited p := by simp [Seen.visited]
          refine ⟨by rw [sh]; exact h1, ?_, ?_, ?_⟩
          · intro p y q hq
            cases p with
            | nil =>
              simp only [List.nil_append, List.cons.injEq, Seen.item.injEq] at hq
              rw [← hq.1]; exact hx1
            | cons a p => simp only [List.cons_append, List.cons.injEq] at hq; rw [← hq.1]; exact h2 p y q hq.2
          · intro p q hq
            cases p with
            | nil => simp at hq
            | cons a p =>
              simp only [List.cons_append, List.cons.injEq] at hq
              rw [← hq.1]
              intro n hn
              rw [sh]; exact h3 p q hq.2 n (List.mem_append_left _ hn)
          · intro p y q r hq
            cases p with
            | nil =>
              simp only [List.nil_append, List.cons_append, List.cons.injEq, Seen.item.injEq] at hq
              intro n hn
              rw [← hq.1, List.nil_append, sh]; exact h3 q r hq.2 n (List.mem_append_right _ hn)
            | cons a p =>
              simp only [List.cons_append, List.cons.injEq] at hq
              rw [← hq.1]
              intro n hn
              rw [List.cons_append, sh]; exact h4 p y q r (by simpa using hq.2) n hn
    | op o =>
      simp only [live] at hl
      cases hs1 : step s o with
      | none => rw [hs1] at hl; cases hl
      | some s1 =>
        simp only [hs1] at hl
        cases hl2 : live step NodeIt.adv s1 it evs with
        | none => rw [hl2] at hl; cases hl
        | some z =>
          obtain ⟨log2, z2⟩ := z
          rw [hl2] at hl
          simp only [Option.some.injEq, Prod.mk.injEq] at hl
          obtain ⟨rfl, rfl⟩ := hl
          have hr2 : (∀ n, o = .detachRemove n → n ∈ Y) ∧ RemovesVisited Y log2 := by
            cases o with
            | detachRemove n => exact ⟨fun m hm => by cases hm; exact hr.1, hr.2⟩
            | _ => exact ⟨fun m hm => (by cases hm), hr⟩
          obtain ⟨h1, h2, h3, h4⟩ := ih (c.step hv.1 hs1) (h.step c hv.1 hs1 hd.1) (hso.step o)
            (hi.did hso hr2.1) hY hl2 hv.2 hd.2 hr2.2
          refine ⟨h1, ?_, ?_, ?_⟩
          · intro p x q hq
            cases p with
            | nil => simp at hq
            | cons a p => simp only [List.cons_append, List.cons.injEq] at hq; rw [← hq.1]; exact h2 p x q hq.2
          · intro p q hq
            cases p with
            | nil => simp at hq
            | cons a p => simp only [List.cons_append, List.cons.injEq] at hq; rw [← hq.1]; exact h3 p q hq.2
          · intro p x q r hq
            cases p with
            | nil => simp at hq
            | cons a p => simp only [List.cons_append, List.cons.injEq] at hq; rw [← hq.1]; exact h4 p x q r hq.2

/-- Removing every node in a loop removes the nodes one after the other. -/
theorem forNodes_drain {xs : List Nat} : ∀ {s s' : State} {σ : Spec} {it : NodeIt}, Core s σ → σ.nodes = xs →
    (∀ as z bs, xs = as ++ z :: bs → s.nptr.next z = bs.head?) → (∀ x, xs.head? = some x → ∀ p ∈ xs, s.nptr.prev x ≠ some p) →
    it.next = xs.head? → runFrom s (xs.map .detachRemove) = some s' →
    forNodes (fun n => [.detachRemove n]) s it = some s' := by
  induction xs with
  | nil =>
    intro s s' σ it c hx hn hp hi hs
    simp only [List.map_nil, runFrom, Option.some.injEq] at hs
    subst hs
    rw [forNodes]
    simp only [List.head?_nil] at hi
    simp only [NodeIt.adv, hi]
  | cons x xs ih =>
    intro s s' σ it c hx hn hp hi hs
    simp only [List.map_cons, runFrom] at hs
    cases h1 : step s (.detachRemove x) with
    | none => rw [h1] at hs; cases hs
    | some s1 =>
      simp only [h1] at hs
      simp only [List.head?_cons] at hi
      have hv : σ.Valid (.detachRemove x) := by simp [Spec.Valid, hx]
      have hnd := c.nNodup
      rw [hx] at hnd
      have hxx : ∀ y ∈ xs, y ≠ x := fun y hy e => (List.nodup_cons.1 hnd).1 (e ▸ hy)
      have hx2 : (σ.step (.detachRemove x)).nodes = xs := by
        simp only [Spec.step, hx]
        rw [List.filter_cons_of_neg (by simp), List.filter_eq_self]
        intro y hy
        simpa using hxx y hy
      have hnx : s.nptr.next x = xs.head? := hn [] x xs rfl
      have hpx := hp x rfl
      obtain ⟨e1, -⟩ := step_nodeList h1
      rw [forNodes]
      simp only [NodeIt.adv, hi, runFrom, h1]
      refine ih (c.step hv h1) hx2 ?_ ?_ (by simp [hnx]) hs
      · intro as z bs hz
        rw [e1, NList.remove_next, if_neg (hpx z (by simp [hz]))]
        exact hn (x :: as) z bs (by rw [hz]; rfl)
      · intro y hy p hpm
        rw [e1, NList.remove_prev, if_pos (hnx.trans hy)]
        exact hpx p (List.mem_cons_of_mem _ hpm)

/-- A loop that is not at the last node, and creates a node in each round, goes on. -/
theorem nodes_grow {ls : List String} {k : Nat} : ∀ {s : State} {σ : Spec} {f : ListFlags} {it : NodeIt} {as bs : List Nat} {x y : Nat},
    Core s σ → NOk s σ f → f.gone = false → σ.nodes = as ++ x :: y :: bs → it.next = some x →
    ∃ log z, live step NodeIt.adv s it ((List.replicate k [Event.next, .op (.newNode ls [])]).flatten) = some (log, z) ∧
      (Seen.visited log).length = k ∧ Seen.last ∉ log := by
  induction k with
  | zero => intro s σ f it as bs x y c h hg hn hi; exact ⟨[], _, rfl, rfl, by simp⟩
  | succ k ih =>
    intro s σ f it as bs x y c h hg hn hi
    have hnx : s.nptr.next x = some y := by
      obtain ⟨pr, hvis, -⟩ := h.vis
      rw [hn] at hvis
      exact hvis.next_of
    obtain ⟨s1, hs1⟩ : ∃ s1, step s (.newNode ls []) = some s1 := ⟨_, rfl⟩
    have hv : σ.Valid (.newNode ls []) := by simp [Spec.Valid, AMap.keys]
    have hn2 : (σ.step (.newNode ls [])).nodes = (as ++ [x]) ++ y :: (bs ++ [σ.next]) := by
      simp [Spec.step, hn]
    obtain ⟨c1, cs, hcs⟩ : ∃ c1 cs, bs ++ [σ.next] = c1 :: cs := by cases bs <;> simp
    rw [hcs] at hn2
    obtain ⟨log, z, h1, h2, h3⟩ := ih (it := ⟨some x, some y⟩) (c.step hv hs1)
      (h.step c hv hs1 (.inl hg)) rfl hn2 rfl
    refine ⟨.item x :: .did (.newNode ls []) :: log, z, ?_, by simp [Seen.visited, h2], by simp [h3]⟩
    simp only [List.replicate_succ, List.flatten_cons, List.cons_append, List.nil_append, live, NodeIt.adv, hi, hnx, hs1, h1]

end LPG

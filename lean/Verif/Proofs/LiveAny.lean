import Verif.Proofs.LiveNodes
import Verif.Proofs.Mono

namespace LPG
open State

/-! ## Two facts about the list of nodes that hold in every history -/

/-- A live node is pointed to by the node it points back to, and nothing follows `tail`. -/
structure NLinked (P : NPtr) (l : NList) (σ : Spec) : Prop where
  back : ∀ n ∈ σ.nodes, ∀ p, P.prev n = some p → P.next p = some n
  tail : ∀ t, l.tail = some t → P.next t = none

theorem NLinked.init : NLinked State.new.nptr State.new.allNodes Spec.new := by
  constructor <;> simp [State.new, Spec.new]

theorem NList.add_next (P : NPtr) (l : NList) (b x : Nat) :
    (l.add P b).1.next x = if l.tail = some x then some b else P.next x := by
  cases ht : l.tail with
  | none => simp [NList.add, ht]
  | some t => simp only [NList.add, ht, upd_apply, Option.some.injEq]; grind

theorem NList.add_prev (P : NPtr) (l : NList) (b x : Nat) :
    (l.add P b).1.prev x = if x = b then l.tail else P.prev x := by
  cases ht : l.tail with
  | none => simp [NList.add, ht, upd_apply]
  | some t => simp [NList.add, ht, upd_apply]

/-- Operations that neither create nor remove a node. -/
theorem nodeList_frame {s s' : State} {op : Op} (hs : LPG.step s op = some s') (h1 : op.creates = false)
    (h2 : ∀ n, op ≠ .detachRemove n) : s'.nptr = s.nptr ∧ s'.allNodes = s.allNodes := by
  have h := step_nodeList hs
  cases op with
  | newNode ls ps => cases h1
  | detachRemove n => exact absurd rfl (h2 n)
  | _ => exact h

theorem Spec.step_nodes {σ : Spec} {op : Op} (h1 : op.creates = false) (h2 : ∀ n, op ≠ .detachRemove n) :
    (σ.step op).nodes = σ.nodes := by
  cases op with
  | newNode ls ps => cases h1
  | detachRemove n => exact absurd rfl (h2 n)
  | _ => rfl

theorem NLinked.step {s s' : State} {σ : Spec} {op : Op} (h : NLinked s.nptr s.allNodes σ) (c : Core s σ)
    (m : Mono s.nptr s.allNodes s.idBase) (hv : σ.Valid op) (hs : LPG.step s op = some s') :
    NLinked s'.nptr s'.allNodes (σ.step op) := by
  by_cases h1 : op.creates = true
  · cases op with
    | newNode ls ps =>
      obtain ⟨e1, e2⟩ := step_nodeList hs
      have hb := c.next
      constructor
      · intro n hn p hp
        rw [e1, NList.add_prev] at hp
        rw [e1, NList.add_next]
        simp only [Spec.step, List.mem_append, List.mem_singleton] at hn
        by_cases hnb : n = s.idBase
        · rw [if_pos hnb] at hp
          rw [if_pos hp, hnb]
        · rw [if_neg hnb] at hp
          have hp : s.nptr.prev n = some p := by rw [← hp]; exact (upd_other _ _ hnb).symm
          have hnn : n ∈ σ.nodes := hn.resolve_right (by rw [← hb]; exact hnb)
          have h3 := h.back n hnn p hp
          have hpt : s.allNodes.tail ≠ some p := fun ht => by rw [h.tail p ht] at h3; cases h3
          have hpb : p ≠ s.idBase := by have := m.prev n p hp; have := c.nLt n hnn; omega
          rw [if_neg hpt]
          show upd s.nptr.next s.idBase none p = some n
          rw [upd_other _ _ hpb]; exact h3
      · intro t ht
        rw [e2] at ht
        have ht' : t = s.idBase := by simpa [NList.add, eq_comm] using ht
        subst ht'
        have : s.allNodes.tail ≠ some s.idBase := fun ht => Nat.lt_irrefl _ (m.tail _ ht)
        rw [e1, NList.add_next, if_neg this]
        exact upd_same _ _ _
    | _ => cases h1
  · simp only [Bool.not_eq_true] at h1
    by_cases h2 : ∃ n, op = .detachRemove n
    · obtain ⟨x, rfl⟩ := h2
      obtain ⟨e1, e2⟩ := step_nodeList hs
      have hpx : ∀ p, s.nptr.prev x = some p → p ≠ x := fun p hp => Nat.ne_of_lt (m.prev x p hp)
      have hx : x ∈ σ.nodes := hv
      constructor
      · intro n hn p hp
        obtain ⟨hnn, hnx⟩ := List.mem_filter.1 (show n ∈ σ.nodes.filter _ from hn)
        have hnx : n ≠ x := by simpa using hnx
        rw [e1, NList.remove_prev] at hp
        rw [e1, NList.remove_next]
        by_cases h3 : s.nptr.next x = some n
        · rw [if_pos h3] at hp
          rw [if_pos hp]; exact h3
        · rw [if_neg h3] at hp
          have h4 := h.back n hnn p hp
          have h5 : s.nptr.prev x ≠ some p := fun h5 => by
            have h6 := h.back x hx p h5
            rw [h4] at h6
            exact hnx (Option.some.inj h6)
          rw [if_neg h5]; exact h4
      · intro t ht
        rw [e2, NList.remove_tail] at ht
        rw [e1, NList.remove_next]
        by_cases h3 : s.nptr.next x = none
        · rw [if_pos h3] at ht
          have : x = t := Option.some.inj ht
          subst this
          rw [if_neg (fun h4 => hpx x h4 rfl)]; exact h3
        · rw [if_neg h3] at ht
          have h4 := h.tail t ht
          rw [if_neg (fun h5 => by rw [h.back x hx t h5] at h4; cases h4)]; exact h4
    · have h3 := nodeList_frame hs h1 (fun n hn => h2 ⟨n, hn⟩)
      have h4 := Spec.step_nodes (σ := σ) h1 (fun n hn => h2 ⟨n, hn⟩)
      rw [h3.1, h3.2]
      exact ⟨by rw [h4]; exact h.back, h.tail⟩

theorem NLinked.runFrom {ops : List Op} : ∀ {s s' : State} {σ : Spec}, Core s σ → Mono s.nptr s.allNodes s.idBase →
    NLinked s.nptr s.allNodes σ → σ.ValidFrom ops → LPG.runFrom s ops = some s' →
    NLinked s'.nptr s'.allNodes (σ.runFrom ops) := by
  induction ops with
  | nil => intro s s' σ _ _ h _ hs; simp [LPG.runFrom] at hs; subst hs; exact h
  | cons op ops ih =>
    intro s s' σ c m h hv hs
    rw [LPG.runFrom] at hs
    split at hs
    · cases hs
    · rename_i s1 h1
      exact ih (c.step hv.1 h1) (m.step c hv.1 h1) (h.step c m hv.1 h1) hv.2 hs

/-! ## What can still be reached -/

/-- `K` are the nodes that an iterator would have met when it was made, `A` those and the nodes created since. A node of `K`,
removed or not, points past none of the nodes of `K` that still exist. -/
structure NReach (P : NPtr) (σ : Spec) (K A : List Nat) : Prop where
  sub : ∀ y ∈ K, y ∈ A
  lt : ∀ n ∈ A, n < σ.next
  late : ∀ z ∈ A, z ∉ K → ∀ y ∈ K, y < z
  close : ∀ z ∈ A, ∀ w, P.next z = some w → w ∈ A
  link : ∀ z ∈ K, ∀ w, P.next z = some w → ∀ y ∈ K, y ∈ σ.nodes → y ≤ z ∨ w ≤ y
  stop : ∀ z ∈ K, P.next z = none → ∀ y ∈ K, y ∈ σ.nodes → y ≤ z

theorem walk_next {next : Nat → Option Nat} : ∀ {f : Nat} {o : Option Nat} {xs : List Nat}, walk next f o = some xs →
    o = xs.head? ∧ ∀ as z bs, xs = as ++ z :: bs → next z = bs.head? := by
  intro f
  induction f with
  | zero =>
    intro o xs h
    cases o with
    | none => simp [walk] at h; subst h; simp
    | some x => simp [walk] at h
  | succ f ih =>
    intro o xs h
    cases o with
    | none => simp [walk] at h; subst h; simp
    | some x =>
      rw [walk] at h
      split at h
      · cases h
      · rename_i ys hy
        cases h
        obtain ⟨h1, h2⟩ := ih hy
        refine ⟨rfl, ?_⟩
        intro as z bs hz
        cases as with
        | nil => simp only [List.nil_append, List.cons.injEq] at hz; rw [← hz.1, ← hz.2]; exact h1
        | cons a as => simp only [List.cons_append, List.cons.injEq] at hz; exact h2 as z bs hz.2

theorem NReach.init {s : State} {σ : Spec} {ns : List Nat} (c : Core s σ) (m : Mono s.nptr s.allNodes s.idBase)
    (h : s.getNodes = some ns) : NReach s.nptr σ ns ns := by
  obtain ⟨xs, h1, h2, h3⟩ := m.getNodes
  rw [h] at h1; cases h1
  obtain ⟨-, h4⟩ := walk_next h
  have key : ∀ z ∈ ns, ∃ as bs, ns = as ++ z :: bs ∧ s.nptr.next z = bs.head? ∧ (∀ y ∈ ns, y ≤ z ∨ y ∈ bs) ∧
      bs.Pairwise (· < ·) := by
    intro z hz
    obtain ⟨as, bs, hsp⟩ := List.append_of_mem hz
    refine ⟨as, bs, hsp, h4 as z bs hsp, ?_, ?_⟩
    · intro y hy
      rw [hsp, List.pairwise_append] at h2
      rw [hsp, List.mem_append, List.mem_cons] at hy
      rcases hy with hy | rfl | hy
      · exact .inl (Nat.le_of_lt (h2.2.2 y hy z (by simp)))
      · exact .inl (Nat.le_refl _)
      · exact .inr hy
    · rw [hsp, List.pairwise_append] at h2
      exact (List.pairwise_cons.1 h2.2.1).2
  refine ⟨fun _ h => h, fun n hn => c.next ▸ h3 n hn, fun z h1 h2 => absurd h1 h2, ?_, ?_, ?_⟩
  · intro z hz w hw
    obtain ⟨as, bs, hsp, h5, -⟩ := key z hz
    rw [h5] at hw
    rw [hsp]
    simp [List.mem_of_head? hw]
  · intro z hz w hw y hy _
    obtain ⟨as, bs, hsp, h5, h6, h7⟩ := key z hz
    rw [h5] at hw
    refine (h6 y hy).imp_right fun hyb => ?_
    cases bs with
    | nil => simp at hyb
    | cons b bs =>
      simp only [List.head?_cons, Option.some.injEq] at hw
      subst hw
      rcases List.mem_cons.1 hyb with rfl | hyb
      · exact Nat.le_refl _
      · exact Nat.le_of_lt ((List.pairwise_cons.1 h7).1 y hyb)
  · intro z hz hw y hy _
    obtain ⟨as, bs, hsp, h5, h6, -⟩ := key z hz
    rw [h5] at hw
    have := List.head?_eq_none_iff.1 hw
    subst this
    exact (h6 y hy).resolve_right (by simp)

theorem NReach.step {s s' : State} {σ : Spec} {op : Op} {K A : List Nat} (g : NReach s.nptr σ K A) (c : Core s σ)
    (m : Mono s.nptr s.allNodes s.idBase) (l : NLinked s.nptr s.allNodes σ)
    (hv : σ.Valid op) (hs : LPG.step s op = some s') :
    NReach s'.nptr (σ.step op) K (if op.creates then A ++ [σ.next] else A) := by
  by_cases h1 : op.creates = true
  · rw [if_pos h1]
    cases op with
    | newNode ls ps =>
      obtain ⟨e1, e2⟩ := step_nodeList hs
      have hb := c.next
      have nx : ∀ z, z ≠ s.idBase → s'.nptr.next z = if s.allNodes.tail = some z then some s.idBase else s.nptr.next z := by
        intro z hz
        rw [e1, NList.add_next]
        show (if s.allNodes.tail = some z then some s.idBase else upd s.nptr.next s.idBase none z) = _
        rw [upd_other _ _ hz]
      have nb : s'.nptr.next s.idBase = none := by
        have : s.allNodes.tail ≠ some s.idBase := fun ht => Nat.lt_irrefl _ (m.tail _ ht)
        rw [e1, NList.add_next, if_neg this]
        exact upd_same _ _ _
      have ne : ∀ z ∈ A, z ≠ s.idBase := fun z hz => by have := g.lt z hz; omega
      have old : ∀ y ∈ K, y ∈ (σ.step (.newNode ls ps)).nodes → y ∈ σ.nodes := by
        intro y hy hyn
        simp only [Spec.step, List.mem_append, List.mem_singleton] at hyn
        exact hyn.resolve_right (fun e => ne y (g.sub y hy) (by rw [hb]; exact e))
      refine ⟨fun y hy => List.mem_append_left _ (g.sub y hy), ?_, ?_, ?_, ?_, ?_⟩
      · intro n hn
        simp only [List.mem_append, List.mem_singleton] at hn
        show n < σ.next + 1
        rcases hn with hn | rfl
        · exact Nat.lt_succ_of_lt (g.lt n hn)
        · exact Nat.lt_succ_self _
      · intro z hz hzk y hy
        simp only [List.mem_append, List.mem_singleton] at hz
        rcases hz with hz | rfl
        · exact g.late z hz hzk y hy
        · exact g.lt y (g.sub y hy)
      · intro z hz w hw
        simp only [List.mem_append, List.mem_singleton] at hz ⊢
        rcases hz with hz | rfl
        · rw [nx z (ne z hz)] at hw
          split at hw
          · exact .inr (by rw [← hb]; exact (Option.some.inj hw).symm)
          · exact .inl (g.close z hz w hw)
        · rw [← hb, nb] at hw; cases hw
      · intro z hz w hw y hy hyn
        rw [nx z (ne z (g.sub z hz))] at hw
        split at hw
        · rename_i ht
          exact .inl (g.stop z hz (l.tail z ht) y hy (old y hy hyn))
        · exact g.link z hz w hw y hy (old y hy hyn)
      · intro z hz hw y hy hyn
        rw [nx z (ne z (g.sub z hz))] at hw
        split at hw
        · cases hw
        · exact g.stop z hz hw y hy (old y hy hyn)
    | _ => cases h1
  · rw [if_neg h1]
    simp only [Bool.not_eq_true] at h1
    have hle : σ.next ≤ (σ.step op).next := Spec.next_mono
    by_cases h2 : ∃ n, op = .detachRemove n
    · obtain ⟨x, rfl⟩ := h2
      obtain ⟨e1, e2⟩ := step_nodeList hs
      have hx : x ∈ σ.nodes := hv
      have sub : ∀ y ∈ (σ.step (.detachRemove x)).nodes, y ∈ σ.nodes ∧ y ≠ x := by
        intro y hy
        obtain ⟨h3, h4⟩ := List.mem_filter.1 (show y ∈ σ.nodes.filter _ from hy)
        exact ⟨h3, by simpa using h4⟩
      -- nodes of `K` that come after a node before `x` come after `x`
      have via : ∀ z ∈ K, s.nptr.prev x = some z → ∀ y ∈ K, y ∈ σ.nodes → y ≤ z ∨ x ≤ y := fun z hz hp =>
        g.link z hz x (l.back x hx z hp)
      have inA : ∀ z ∈ A, s.nptr.prev x = some z → x ∈ A := fun z hz hp => g.close z hz x (l.back x hx z hp)
      refine ⟨g.sub, fun n hn => Nat.lt_of_lt_of_le (g.lt n hn) hle, g.late, ?_, ?_, ?_⟩
      · intro z hz w hw
        rw [e1, NList.remove_next] at hw
        split at hw
        · rename_i hp; exact g.close x (inA z hz hp) w hw
        · exact g.close z hz w hw
      · intro z hz w hw y hy hyn
        obtain ⟨h3, h4⟩ := sub y hyn
        rw [e1, NList.remove_next] at hw
        split at hw
        · rename_i hp
          rcases via z hz hp y hy h3 with h5 | h5
          · exact .inl h5
          · by_cases hxk : x ∈ K
            · rcases g.link x hxk w hw y hy h3 with h6 | h6
              · omega
              · exact .inr h6
            · have := g.late x (inA z (g.sub z hz) hp) hxk y hy; omega
        · exact g.link z hz w hw y hy h3
      · intro z hz hw y hy hyn
        obtain ⟨h3, h4⟩ := sub y hyn
        rw [e1, NList.remove_next] at hw
        split at hw
        · rename_i hp
          rcases via z hz hp y hy h3 with h5 | h5
          · exact h5
          · by_cases hxk : x ∈ K
            · have := g.stop x hxk hw y hy h3; omega
            · have := g.late x (inA z (g.sub z hz) hp) hxk y hy; omega
        · exact g.stop z hz hw y hy h3
    · have h3 := (nodeList_frame hs h1 (fun n hn => h2 ⟨n, hn⟩)).1
      have h4 := Spec.step_nodes (σ := σ) h1 (fun n hn => h2 ⟨n, hn⟩)
      rw [h3]
      refine ⟨g.sub, fun n hn => Nat.lt_of_lt_of_le (g.lt n hn) hle, g.late, g.close, ?_, ?_⟩
      · intro z hz w hw y hy hyn; exact g.link z hz w hw y hy (h4 ▸ hyn)
      · intro z hz hw y hy hyn; exact g.stop z hz hw y hy (h4 ▸ hyn)

/-- Between two calls of `Next`, when any node may be removed. -/
structure AnyInv (σ : Spec) (it : NodeIt) (K A Y : List Nat) : Prop where
  ended : it.next = none → ∀ y ∈ K, y ∈ σ.nodes → y ∈ Y
  before : ∀ x, it.next = some x → x ∈ A ∧ (∀ y ∈ Y, y < x) ∧ ∀ y ∈ K, y ∈ σ.nodes → y < x → y ∈ Y

theorem AnyInv.init {s : State} {σ : Spec} {ns : List Nat} (m : Mono s.nptr s.allNodes s.idBase)
    (h : s.getNodes = some ns) : AnyInv σ s.openNodes ns ns [] := by
  obtain ⟨xs, h1, h2, -⟩ := m.getNodes
  rw [h] at h1; cases h1
  obtain ⟨h3, -⟩ := walk_next h
  constructor
  · intro hn y hy _
    have : s.allNodes.head = none := hn
    rw [h3] at this
    rw [List.head?_eq_none_iff.1 this] at hy
    simp at hy
  · intro x hx
    have hx : s.allNodes.head = some x := hx
    rw [h3] at hx
    refine ⟨List.mem_of_head? hx, by simp, ?_⟩
    intro y hy _ hlt
    cases ns with
    | nil => simp at hy
    | cons a as =>
      simp only [List.head?_cons, Option.some.injEq] at hx
      subst hx
      rcases List.mem_cons.1 hy with rfl | hy
      · omega
      · have := (List.pairwise_cons.1 h2).1 y hy; omega

theorem AnyInv.item {s : State} {σ : Spec} {it : NodeIt} {K A Y : List Nat} (hi : AnyInv σ it K A Y)
    (g : NReach s.nptr σ K A) (m : Mono s.nptr s.allNodes s.idBase) {x : Nat} (hx : it.next = some x) :
    AnyInv σ ⟨some x, s.nptr.next x⟩ K A (Y ++ [x]) := by
  obtain ⟨hxA, hY, hK⟩ := hi.before x hx
  have le : ∀ y ∈ K, y ∈ σ.nodes → y ≤ x → y ∈ Y ++ [x] := by
    intro y hy hyn hle
    rcases Nat.lt_or_eq_of_le hle with hlt | rfl
    · exact List.mem_append_left _ (hK y hy hyn hlt)
    · simp
  constructor
  · intro hn y hy hyn
    by_cases hxk : x ∈ K
    · exact le y hy hyn (g.stop x hxk hn y hy hyn)
    · exact le y hy hyn (Nat.le_of_lt (g.late x hxA hxk y hy))
  · intro w hw
    have h1 := (m.next x w hw).1
    refine ⟨g.close x hxA w hw, ?_, ?_⟩
    · intro y hy
      rcases List.mem_append.1 hy with hy | hy
      · exact Nat.lt_trans (hY y hy) h1
      · simp only [List.mem_singleton] at hy; omega
    · intro y hy hyn hlt
      by_cases hxk : x ∈ K
      · rcases g.link x hxk w hw y hy hyn with h2 | h2
        · exact le y hy hyn h2
        · omega
      · exact le y hy hyn (Nat.le_of_lt (g.late x hxA hxk y hy))

theorem AnyInv.did {P : NPtr} {σ : Spec} {it : NodeIt} {K A Y : List Nat} (hi : AnyInv σ it K A Y)
    (g : NReach P σ K A) (op : Op) : AnyInv (σ.step op) it K (if op.creates then A ++ [σ.next] else A) Y := by
  have old : ∀ y ∈ K, y ∈ (σ.step op).nodes → y ∈ σ.nodes := by
    intro y hK hy
    cases op with
    | newNode ls ps =>
      rcases List.mem_append.1 hy with hy | hy
      · exact hy
      · simp only [List.mem_singleton] at hy
        have := g.lt y (g.sub y hK); omega
    | detachRemove n => exact (List.mem_filter.1 hy).1
    | _ => exact hy
  constructor
  · intro hn y hy hyn; exact hi.ended hn y hy (old y hy hyn)
  · intro x hx
    obtain ⟨h1, h2, h3⟩ := hi.before x hx
    refine ⟨?_, h2, fun y hy hyn => h3 y hy (old y hy hyn)⟩
    split
    · exact List.mem_append_left _ h1
    · exact h1

/-- The log of a program that starts in the middle of a loop, and may remove any node. -/
theorem nodes_live_any {evs : List Event} : ∀ {s s' : State} {σ : Spec} {it it' : NodeIt} {K A Y : List Nat}
    {log : List Seen}, Core s σ → Mono s.nptr s.allNodes s.idBase → NLinked s.nptr s.allNodes σ → NReach s.nptr σ K A →
    AnyInv σ it K A Y → Y.Pairwise (· < ·) → live step NodeIt.adv s it evs = some (log, s', it') →
    σ.ValidFrom (Seen.ops log) →
    (Y ++ Seen.visited log).Pairwise (· < ·) ∧
    (∀ p x q, log = p ++ .item x :: q → x ∈ A ∨ ∃ p1 p2, p = p1 ++ p2 ∧ x ∈ (σ.runFrom (Seen.ops p1)).nodes) ∧
    (∀ p q, log = p ++ .last :: q → ∀ n ∈ K, n ∈ (σ.runFrom (Seen.ops p)).nodes → n ∈ Y ++ Seen.visited p) := by
  induction evs with
  | nil =>
    intro s s' σ it it' K A Y log c m l g hi hY hl hv
    simp only [live, Option.some.injEq, Prod.mk.injEq] at hl
    obtain ⟨rfl, -⟩ := hl
    exact ⟨by simpa [Seen.visited] using hY, by simp, by simp⟩
  | cons ev evs ih =>
    intro s s' σ it it' K A Y log c m l g hi hY hl hv
    cases ev with
    | next =>
      simp only [live, NodeIt.adv] at hl
      cases hx : it.next with
      | none =>
        simp only [hx] at hl
        cases hl2 : live step NodeIt.adv s { current := none, next := none } evs with
        | none => rw [hl2] at hl; cases hl
        | some z =>
          obtain ⟨log2, z2⟩ := z
          rw [hl2] at hl
          simp only [Option.some.injEq, Prod.mk.injEq] at hl
          obtain ⟨rfl, rfl⟩ := hl
          have hi2 : AnyInv σ { current := none, next := none } K A Y := ⟨fun _ => hi.ended hx, by simp⟩
          obtain ⟨h1, h2, h3⟩ := ih c m l g hi2 hY hl2 hv
          refine ⟨h1, ?_, ?_⟩
          · intro p x q hq
            cases p with
            | nil => simp at hq
            | cons a p =>
              simp only [List.cons_append, List.cons.injEq] at hq
              rcases h2 p x q hq.2 with h4 | ⟨p1, p2, rfl, h4⟩
              · exact .inl h4
              · exact .inr ⟨a :: p1, p2, rfl, by rw [← hq.1]; exact h4⟩
          · intro p q hq
            cases p with
            | nil => intro n hn hnn; exact List.mem_append_left _ (hi.ended hx n hn hnn)
            | cons a p => simp only [List.cons_append, List.cons.injEq] at hq; rw [← hq.1]; exact h3 p q hq.2
      | some x =>
        simp only [hx] at hl
        cases hl2 : live step NodeIt.adv s { current := some x, next := s.nptr.next x } evs with
        | none => rw [hl2] at hl; cases hl
        | some z =>
          obtain ⟨log2, z2⟩ := z
          rw [hl2] at hl
          simp only [Option.some.injEq, Prod.mk.injEq] at hl
          obtain ⟨rfl, rfl⟩ := hl
          obtain ⟨hx1, hx2, -⟩ := hi.before x hx
          have hY2 : (Y ++ [x]).Pairwise (· < ·) := by
            rw [List.pairwise_append]
            refine ⟨hY, List.pairwise_singleton _ _, ?_⟩
            intro a ha b hb
            simp only [List.mem_singleton] at hb
            exact hb ▸ hx2 a ha
          obtain ⟨h1, h2, h3⟩ := ih c m l g (hi.item g m hx) hY2 hl2 hv
          have sh : ∀ p, Y ++ Seen.visited (.item x :: p) = Y ++ [x] ++ Seen.visited p := by simp [Seen.visited]
          refine ⟨by rw [sh]; exact h1, ?_, ?_⟩
          · intro p y q hq
            cases p with
            | nil =>
              simp only [List.nil_append, List.cons.injEq, Seen.item.injEq] at hq
              rw [← hq.1]; exact .inl hx1
            | cons a p =>
              simp only [List.cons_append, List.cons.injEq] at hq
              rcases h2 p y q hq.2 with h4 | ⟨p1, p2, rfl, h4⟩
              · exact .inl h4
              · exact .inr ⟨a :: p1, p2, rfl, by rw [← hq.1]; exact h4⟩
          · intro p q hq
            cases p with
            | nil => simp at hq
            | cons a p =>
              simp only [List.cons_append, List.cons.injEq] at hq
              rw [← hq.1]
              intro n hn hnn
              rw [sh]; exact h3 p q hq.2 n hn hnn
    | op o =>
      simp only [live] at hl
      cases hs1 : step s o with
      | none => rw [hs1] at hl; cases hl
      | some s1 =>
        simp only [hs1] at hl
        cases hl2 : live step NodeIt.adv s1 it evs with
        | none => rw [hl2] at hl; cases hl
        | some z =>
          obtain ⟨log2, z2⟩ := z
          rw [hl2] at hl
          simp only [Option.some.injEq, Prod.mk.injEq] at hl
          obtain ⟨rfl, rfl⟩ := hl
          obtain ⟨h1, h2, h3⟩ := ih (c.step hv.1 hs1) (m.step c hv.1 hs1) (l.step c m hv.1 hs1)
            (g.step c m l hv.1 hs1) (hi.did g o) hY hl2 hv.2
          refine ⟨h1, ?_, ?_⟩
          · intro p x q hq
            cases p with
            | nil => simp at hq
            | cons a p =>
              simp only [List.cons_append, List.cons.injEq] at hq
              rcases h2 p x q hq.2 with h4 | ⟨p1, p2, rfl, h4⟩
              · split at h4
                · rename_i hcr
                  rcases List.mem_append.1 h4 with h4 | h4
                  · exact .inl h4
                  · refine .inr ⟨[a], p, rfl, ?_⟩
                    rw [← hq.1]
                    simp only [List.mem_singleton] at h4
                    subst h4
                    cases o with
                    | newNode ls ps => simp [Seen.ops, Spec.runFrom, Spec.step]
                    | _ => cases hcr
                · exact .inl h4
              · exact .inr ⟨a :: p1, p2, rfl, by rw [← hq.1]; exact h4⟩
          · intro p q hq
            cases p with
            | nil => simp at hq
            | cons a p => simp only [List.cons_append, List.cons.injEq] at hq; rw [← hq.1]; exact h3 p q hq.2

end LPG

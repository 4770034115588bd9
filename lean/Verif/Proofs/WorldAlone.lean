import Verif.Proofs.RenameWorld
import Verif.Spec.AloneCalls
/-!
# Each graph of a program with several graphs is the graph of its own calls, renamed
-/
namespace LPG
open State

namespace Owners

/-- The number, among all objects, of object `k` of graph `g`. -/
def pos (g : Nat) : Owners → Nat → Nat
  | [], k => k
  | (h, _) :: w, k => if h = g then (match k with | 0 => 0 | k + 1 => pos g w k + 1) else pos g w k + 1

/-- how many objects graph `g` has -/
def cnt (w : Owners) (g : Nat) : Nat := w.countP (fun p => p.1 = g)

variable {g : Nat}

theorem rank_zero (w : Owners) : w.rank g 0 = 0 := by simp [rank]

theorem rank_cons (h : Nat) (b : Bool) (w : Owners) (x : Nat) :
    rank ((h, b) :: w) g (x + 1) = if h = g then w.rank g x + 1 else w.rank g x := by
  have hc : (w.take x).countP (fun p => p.1 ≠ g) ≤ x :=
    Nat.le_trans List.countP_le_length (by simp)
  simp only [rank, List.take_succ_cons, List.countP_cons]
  by_cases e : h = g
  · simp only [e, ne_eq, not_true_eq_false, decide_false, Bool.false_eq_true, if_false, if_true, Nat.add_zero]
    have : (w.take x).countP (fun p => decide (¬ p.1 = g)) ≤ x := hc
    omega
  · simp only [ne_eq, e, not_false_eq_true, decide_true, if_true, if_false]
    omega

theorem pos_cons_own (b : Bool) (w : Owners) (k : Nat) : pos g ((g, b) :: w) (k + 1) = pos g w k + 1 := by simp [pos]

theorem pos_cons_own0 (b : Bool) (w : Owners) : pos g ((g, b) :: w) 0 = 0 := by simp [pos]

theorem pos_cons_other {h : Nat} (hn : h ≠ g) (b : Bool) (w : Owners) (k : Nat) : pos g ((h, b) :: w) k = pos g w k + 1 := by simp [pos, hn]

theorem rank_pos : ∀ (w : Owners) (k : Nat), w.rank g (pos g w k) = k
  | [], k => by simp [pos, rank]
  | (h, b) :: w, k => by
    by_cases e : h = g
    · obtain rfl := e.symm
      cases k with
      | zero => rw [pos_cons_own0, rank_zero]
      | succ k => rw [pos_cons_own, rank_cons, if_pos rfl, rank_pos w k]
    · rw [pos_cons_other e, rank_cons, if_neg e, rank_pos w k]

theorem pos_inj (w : Owners) : Function.Injective (pos g w) := fun a b h => by
  rw [← rank_pos w a, h, rank_pos]

theorem pos_rank : ∀ {w : Owners} {x : Nat} {b : Bool}, w[x]? = some (g, b) → pos g w (w.rank g x) = x
  | [], x, b, h => by simp at h
  | (h', b') :: w, 0, b, h => by
    have : h' = g := by simp at h; exact h.1
    obtain rfl := this.symm
    rw [rank_zero, pos_cons_own0]
  | (h', b') :: w, x + 1, b, h => by
    have hw : w[x]? = some (g, b) := by simpa using h
    clear h
    rw [rank_cons]
    by_cases e : h' = g
    · obtain rfl := e.symm; rw [if_pos rfl, pos_cons_own, pos_rank hw]
    · rw [if_neg e, pos_cons_other e, pos_rank hw]

theorem le_pos : ∀ (w : Owners) (k : Nat), k ≤ pos g w k
  | [], k => by simp [pos]
  | (h, b) :: w, k => by
    by_cases e : h = g
    · obtain rfl := e.symm
      cases k with
      | zero => omega
      | succ k => rw [pos_cons_own]; have := le_pos w k; omega
    · rw [pos_cons_other e]; have := le_pos w k; omega

theorem cnt_cons (h : Nat) (b : Bool) (w : Owners) : cnt ((h, b) :: w) g = if h = g then cnt w g + 1 else cnt w g := by
  unfold cnt
  rw [List.countP_cons]
  by_cases e : h = g <;> simp [e]

theorem pos_owner : ∀ {w : Owners} {k : Nat}, pos g w k < w.length → k < cnt w g ∧ ∃ b, w[pos g w k]? = some (g, b)
  | [], k, h => by simp at h
  | (h', b) :: w, k, h => by
    rw [cnt_cons]
    by_cases e : h' = g
    · obtain rfl := e.symm
      rw [if_pos rfl]
      cases k with
      | zero => exact ⟨by omega, b, by rw [pos_cons_own0]; rfl⟩
      | succ k =>
        rw [pos_cons_own] at h ⊢
        obtain ⟨h1, b', h2⟩ := pos_owner (w := w) (k := k) (by simpa using h)
        exact ⟨by omega, b', by simpa using h2⟩
    · rw [if_neg e]
      rw [pos_cons_other e] at h ⊢
      obtain ⟨h1, b', h2⟩ := pos_owner (w := w) (k := k) (by simpa using h)
      exact ⟨h1, b', by simpa using h2⟩

theorem pos_append_lt : ∀ {w v : Owners} {k : Nat}, pos g (w ++ v) k < w.length → k < cnt w g
  | [], v, k, h => by simp at h
  | (h', b) :: w, v, k, h => by
    rw [cnt_cons]
    by_cases e : h' = g
    · obtain rfl := e.symm
      rw [if_pos rfl]
      cases k with
      | zero => omega
      | succ k =>
        rw [List.cons_append, pos_cons_own] at h
        have := pos_append_lt (w := w) (v := v) (k := k) (by simpa using h)
        omega
    · rw [if_neg e]
      rw [List.cons_append, pos_cons_other e] at h
      exact pos_append_lt (w := w) (v := v) (k := k) (by simpa using h)

theorem pos_append : ∀ (w v : Owners) (k : Nat), pos g (w ++ v) (cnt w g + k) = w.length + pos g v k
  | [], v, k => by simp [cnt]
  | (h, b) :: w, v, k => by
    rw [cnt_cons]
    by_cases e : h = g
    · obtain rfl := e.symm
      rw [if_pos rfl, show cnt w g + 1 + k = (cnt w g + k) + 1 by omega, List.cons_append, pos_cons_own, pos_append w v k]
      simp; omega
    · rw [if_neg e, List.cons_append, pos_cons_other e, pos_append w v k]
      simp; omega

theorem cnt_le (w : Owners) : cnt w g ≤ w.length := List.countP_le_length

theorem rank_append {w v : Owners} {x : Nat} (h : x ≤ w.length) : (w ++ v).rank g x = w.rank g x := by
  unfold rank
  rw [List.take_append_of_le_length h]

theorem after_length (w : Owners) (h : Nat) (op : Op) : (w.after h op).length = w.length + (if op.allocs then 1 else 0) := by
  cases op <;> simp [after, Op.allocs]

theorem after_append (w : Owners) (h : Nat) (op : Op) : ∃ v, w.after h op = w ++ v ∧ ∀ p ∈ v, p.1 = h := by
  cases op with
  | newNode ls ps => exact ⟨[(h, false)], rfl, by simp⟩
  | newEdge a b l ps => exact ⟨[(h, true)], rfl, by simp⟩
  | _ => exact ⟨[], by simp [after], by simp⟩

theorem after_cnt (w : Owners) (h : Nat) (op : Op) : (w.after h op).cnt g = cnt w g + if h = g then (if op.allocs then 1 else 0) else 0 := by
  cases op <;> simp [after, Op.allocs, cnt, List.countP_append, List.countP_cons]

theorem after_get {w : Owners} {h : Nat} {op : Op} {x : Nat} {p : Nat × Bool} (hg : w[x]? = some p) : (w.after h op)[x]? = some p := by
  obtain ⟨v, hv, _⟩ := after_append w h op
  rw [hv, List.getElem?_append_left (List.getElem?_eq_some_iff.1 hg).1]
  exact hg

theorem runFrom_append : ∀ (ops : List (Nat × Op)) (w : Owners), ∃ v, w.runFrom ops = w ++ v
  | [], w => ⟨[], by simp [runFrom]⟩
  | (h, op) :: ops, w => by
    obtain ⟨v, hv⟩ := runFrom_append ops (w.after h op)
    obtain ⟨v', hv', _⟩ := after_append w h op
    exact ⟨v' ++ v, by rw [runFrom, hv, hv', List.append_assoc]⟩

/-- what a call adds to the owners -/
theorem after_iff (w : Owners) (h : Nat) (op : Op) (s : State) (hs : s.idBase = w.length) (x g : Nat) :
    ((w.after h op)[x]? = some (g, false) ↔ w[x]? = some (g, false) ∨ (g = h ∧ op.freshN s x)) ∧
    ((w.after h op)[x]? = some (g, true) ↔ w[x]? = some (g, true) ∨ (g = h ∧ op.freshE s x)) := by
  have key : ∀ (p q : Nat × Bool), (w ++ [p])[x]? = some q ↔ w[x]? = some q ∨ (q = p ∧ x = w.length) := by
    intro p q
    rcases Nat.lt_trichotomy x w.length with h | h | h
    · rw [List.getElem?_append_left h]
      constructor
      · exact Or.inl
      · rintro (h' | ⟨_, h'⟩)
        · exact h'
        · omega
    · subst h
      simp [eq_comm]
    · rw [List.getElem?_eq_none (by simp; omega), List.getElem?_eq_none (by omega)]
      simp; omega
  cases op <;> simp [after, Op.freshN, Op.freshE, key, hs]

end Owners

/-! ## Handles -/

theorem Op.ren_ren {f r : Nat → Nat} {op : Op} (h : ∀ p ∈ op.handles, f (r p.1) = p.1) : (op.ren r).ren f = op := by
  cases op <;> simp only [Op.handles, List.mem_cons, List.not_mem_nil, or_false, forall_eq_or_imp, forall_eq] at h <;>
    simp only [Op.ren, h]

theorem Op.args_of_handles {N E : Nat → Prop} {op : Op} (h : ∀ p ∈ op.handles, if p.2 then E p.1 else N p.1) : op.ArgsIn N E := by
  cases op <;> simp only [Op.handles, List.mem_cons, List.not_mem_nil, or_false, forall_eq_or_imp, forall_eq] at h <;>
    simp only [Op.ArgsIn] <;> simpa using h

theorem Op.ren_allocs (f : Nat → Nat) (op : Op) : (op.ren f).allocs = op.allocs := by cases op <;> rfl

/-! ## The owners of a world -/

namespace World

/-- The graphs of the nodes and edges of the world are those of the table. -/
structure Table (W : World) (w : Owners) : Prop where
  inv : Inv W
  base : W.heap.idBase = w.length
  node : ∀ x g, W.nodeGraph x = some g ↔ w[x]? = some (g, false)
  edge : ∀ x g, W.edgeGraph x = some g ↔ w[x]? = some (g, true)

theorem Table.init : Table World.new [] :=
  ⟨Inv.init, rfl, fun x g => by simp [World.new], fun x g => by simp [World.new, edgeGraph]⟩

variable {W W' : World} {w : Owners} {g h : Nat} {op : Op}

theorem Table.args (o : Table W w) (hh : ∀ p ∈ op.handles, w[p.1]? = some (h, p.2)) : op.ArgsIn (W.N h) (W.E h) := by
  refine Op.args_of_handles (fun p hp => ?_)
  have := hh p hp
  obtain ⟨x, b⟩ := p
  cases b
  · exact (o.node x h).2 this
  · exact (o.edge x h).2 this

theorem Table.target (o : Table W w) (hh : ∀ p ∈ op.handles, w[p.1]? = some (h, p.2)) :
    W.target h op = some h ∧ W.foreign h op = false := by
  have := o.args hh
  cases op <;> simp only [Op.ArgsIn, N, E] at this <;> simp [World.target, foreign, this]

theorem Table.step_eq (o : Table W w) (hh : ∀ p ∈ op.handles, w[p.1]? = some (h, p.2)) :
    W.step h op = (LPG.step (W.view h) op).map (fun s => ((W.alloc h op).store h s, false)) := by
  obtain ⟨h1, h2⟩ := o.target hh
  rw [World.step, h1]
  simp only [h2, Bool.false_eq_true, if_false]
  cases LPG.step (W.view h) op <;> rfl

theorem Table.call (o : Table W w) (hh : ∀ p ∈ op.handles, w[p.1]? = some (h, p.2)) {s : State} (hs : LPG.step (W.view h) op = some s) :
    Table ((W.alloc h op).store h s) (w.after h op) := by
  have hf := (o.target hh).2
  refine ⟨o.inv.call hf (o.args hh) hs, ?_, fun x g => ?_, fun x g => ?_⟩
  · rw [base_call hs, Owners.after_length, ← o.base]
  · rw [(Owners.after_iff w h op (W.view h) o.base x g).1, ← o.node]
    exact (owners o.inv hf hs g).1 x
  · rw [(Owners.after_iff w h op (W.view h) o.base x g).2, ← o.edge]
    exact (owners o.inv hf hs g).2 x

/-- Graph `g` of the world is the graph `s` with its objects renamed. `F`: the owners in the end. -/
structure Along (F : Owners) (W : World) (w : Owners) (g : Nat) (s : State) : Prop where
  ren : Ren (W.N g) (W.E g) (Owners.pos g F) s (W.view g)
  base : s.idBase = w.cnt g

theorem Along.below (o : Table W w) {F v : Owners} (hF : F = w ++ v) {s : State} (a : Along F W w g s) :
    Below (W.N g) (W.E g) (Owners.pos g F) s (W.view g) := by
  subst hF
  refine ⟨fun x hx => ?_, fun x hx => ?_, fun x hx => o.inv.nodeLt _ _ hx, fun x hx => o.inv.eLt hx⟩
  · rw [a.base]; exact Owners.pos_append_lt (List.getElem?_eq_some_iff.1 ((o.node _ _).1 hx)).1
  · rw [a.base]; exact Owners.pos_append_lt (List.getElem?_eq_some_iff.1 ((o.edge _ _).1 hx)).1

/-- the names of the objects of the table -/
theorem pos_rank_of {F v : Owners} (hF : F = w ++ v) {x : Nat} {b : Bool} (h : w[x]? = some (g, b)) : Owners.pos g F (w.rank g x) = x := by
  subst hF
  have hl := (List.getElem?_eq_some_iff.1 h).1
  rw [← Owners.rank_append (v := v) (Nat.le_of_lt hl)]
  exact Owners.pos_rank (b := b) (by rw [List.getElem?_append_left hl]; exact h)

/-- the object that a call creates -/
theorem pos_next {F v : Owners} (hF : F = w.after g op ++ v) (ha : op.allocs = true) : Owners.pos g F (w.cnt g) = w.length := by
  have key : ∀ b : Bool, Owners.pos g (w ++ [(g, b)] ++ v) (w.cnt g) = w.length := by
    intro b
    have := Owners.pos_append (g := g) w ([(g, b)] ++ v) 0
    rw [Nat.add_zero] at this
    rw [List.append_assoc, this, List.singleton_append, Owners.pos_cons_own0]
    rfl
  subst hF
  cases op <;> first | exact key _ | cases ha

/-- A call on the graph. -/
theorem Along.own (o : Table W w) {F v : Owners} (hF : F = w.after g op ++ v) {s : State} (a : Along F W w g s)
    (hh : ∀ p ∈ op.handles, w[p.1]? = some (g, p.2)) :
    ORel (fun s' t' => Along F ((W.alloc g op).store g t') (w.after g op) g s') (LPG.step s (op.ren (w.rank g))) (LPG.step (W.view g) op) := by
  obtain ⟨v', hv', _⟩ := Owners.after_append w g op
  have hF' : F = w ++ (v' ++ v) := by rw [hF, hv', List.append_assoc]
  have back : (op.ren (w.rank g)).ren (Owners.pos g F) = op := Op.ren_ren (fun p hp => pos_rank_of hF' (hh p hp))
  have hnew : (W.view g).newId ((op.ren (w.rank g)).ren (Owners.pos g F)) = (s.newId (op.ren (w.rank g))).map (Owners.pos g F) := by
    rw [back]
    have hb : (W.view g).idBase = w.length := o.base
    have hp : op.allocs = true → Owners.pos g F s.idBase = w.length := fun h => by rw [a.base]; exact pos_next hF h
    cases op <;> first | rfl | exact congrArg some (hb.trans (hp rfl).symm)
  have key := a.ren.step (op := op.ren (w.rank g)) (Owners.pos_inj F) (o.inv.closed g) (a.below o hF') (by rw [back]; exact o.args hh) hnew
  rw [back] at key
  rcases key.elim with ⟨e1, e2⟩ | ⟨s', t', e1, e2, r⟩
  · rw [e1, e2]; exact .none
  · rw [e1, e2]
    refine .some ⟨?_, ?_⟩
    · obtain ⟨o1, o2⟩ := owners o.inv (o.target hh).2 e2 g
      have q1 : ((W.alloc g op).store g t').N g = fun x => W.N g x ∨ op.freshN (W.view g) x := by
        funext x; exact propext ((o1 x).trans (by simp))
      have q2 : ((W.alloc g op).store g t').E g = fun x => W.E g x ∨ op.freshE (W.view g) x := by
        funext x; exact propext ((o2 x).trans (by simp))
      rw [view_store, q1, q2]
      exact r
    · rw [(step_alloc e1).2.1, Owners.after_cnt, if_pos rfl, a.base]
      cases op <;> rfl

/-- A call on another graph. -/
theorem Along.other (o : Table W w) {F : Owners} {s t' : State} (a : Along F W w g s) (hn : g ≠ h)
    (hh : ∀ p ∈ op.handles, w[p.1]? = some (h, p.2)) (hs : LPG.step (W.view h) op = some t') :
    Along F ((W.alloc h op).store h t') (w.after h op) g s := by
  obtain ⟨o1, o2⟩ := owners o.inv (o.target hh).2 hs g
  have q1 : ((W.alloc h op).store h t').N g = W.N g := by
    funext x; exact propext ((o1 x).trans (by simp [hn]))
  have q2 : ((W.alloc h op).store h t').E g = W.E g := by
    funext x; exact propext ((o2 x).trans (by simp [hn]))
  refine ⟨?_, ?_⟩
  · rw [q1, q2]
    exact a.ren.agree (others o.inv (o.args hh) hs hn)
  · rw [a.base, Owners.after_cnt, if_neg (Ne.symm hn), Nat.add_zero]

theorem Along.init (F : Owners) (g : Nat) : Along F World.new [] g State.new := by
  have hN : ∀ x, ¬ (World.new.N g) x := fun x h => by simp [World.N, World.new] at h
  have hE : ∀ x, ¬ (World.new.E g) x := fun x h => by simp [World.E, edgeGraph, World.new] at h
  exact ⟨⟨rfl, rfl, rfl, rfl, rfl, fun x h => absurd h (hN _), fun x h => absurd h (hN _), fun x h => absurd h (hN _),
    fun x h => absurd h (hN _), fun x h => absurd h (hN _), fun x h => absurd h (hN _), fun x h => absurd h (hE _),
    fun x h => absurd h (hE _), fun x h => absurd h (hE _), fun x h => absurd h (hE _), fun x h => absurd h (hE _),
    fun x h => absurd h (hE _), fun x h => absurd h (hE _)⟩, rfl⟩

theorem Along.run : ∀ {ops : List (Nat × Op)} {W W' : World} {w : Owners} {s : State}, Table W w → w.OkFrom ops →
    Along (w.runFrom ops) W w g s → World.runFrom W ops = some W' →
    ∃ s', LPG.runFrom s (w.aloneFrom g ops) = some s' ∧ Along (w.runFrom ops) W' (w.runFrom ops) g s' ∧ Table W' (w.runFrom ops)
  | [], W, W', w, s, o, _, a, hr => by cases hr; exact ⟨s, rfl, a, o⟩
  | (h, op) :: ops, W, W', w, s, o, hk, a, hr => by
    rw [World.runFrom, o.step_eq hk.1] at hr
    cases hs : LPG.step (W.view h) op with
    | none => rw [hs] at hr; cases hr
    | some t' =>
      rw [hs] at hr
      simp only [Option.map_some] at hr
      obtain ⟨v, hv⟩ := Owners.runFrom_append ops (w.after h op)
      rw [Owners.runFrom] at a ⊢
      rw [Owners.aloneFrom]
      by_cases hg : h = g
      · obtain rfl := hg.symm
        have b := Along.own o hv a hk.1
        rcases b.elim with ⟨_, e2⟩ | ⟨s1, t1, h1, e2, b⟩
        · rw [e2] at hs; cases hs
        · rw [e2] at hs
          cases Option.some.inj hs
          obtain ⟨s', h2, h3⟩ := Along.run (o.call hk.1 e2) hk.2 b hr
          refine ⟨s', ?_, h3⟩
          simp only [if_true, List.singleton_append, LPG.runFrom, h1]
          exact h2
      · have b := Along.other o a (Ne.symm hg) hk.1 hs
        obtain ⟨s', h2, h3⟩ := Along.run (o.call hk.1 hs) hk.2 b hr
        exact ⟨s', by simpa [hg] using h2, h3⟩

theorem Along.returns : ∀ {ops : List (Nat × Op)} {W : World} {w : Owners} {s : Nat → State}, Table W w → w.OkFrom ops →
    (∀ g, Along (w.runFrom ops) W w g (s g)) → (∀ g, LPG.runFrom (s g) (w.aloneFrom g ops) ≠ none) → World.runFrom W ops ≠ none
  | [], W, w, s, o, _, a, hr => by simp [World.runFrom]
  | (h, op) :: ops, W, w, s, o, hk, a, hr => by
    rw [World.runFrom, o.step_eq hk.1]
    obtain ⟨v, hv⟩ := Owners.runFrom_append ops (w.after h op)
    rw [Owners.runFrom] at a
    have b := Along.own o hv (a h) hk.1
    have hh := hr h
    simp only [Owners.aloneFrom, if_true, List.singleton_append, LPG.runFrom] at hh
    rcases b.elim with ⟨h1, _⟩ | ⟨s1, t', h1, hs, b⟩
    · rw [h1] at hh; exact absurd rfl hh
    · rw [h1] at hh
      rw [hs]
      refine Along.returns (s := upd s h s1) (o.call hk.1 hs) hk.2 (fun g => ?_) (fun g => ?_)
      · by_cases hg : g = h
        · subst hg; rw [upd_same]; exact b
        · rw [upd_other _ _ hg]; exact Along.other o (a g) hg hk.1 hs
      · by_cases hg : g = h
        · subst hg; rw [upd_same]; exact hh
        · rw [upd_other _ _ hg]
          have := hr g
          rw [Owners.aloneFrom, if_neg (Ne.symm hg), List.nil_append] at this
          exact this

end World
end LPG

import Verif.Proofs.LivePropsScanEdges
import Verif.Proofs.EdgeMono
import Verif.Proofs.IndexKind
/-!
# Every call of Next returns
-/
namespace LPG
open State

theorem Happened.ops {evs : List Event} {log : List Seen} (h : Happened evs log) : Seen.ops log = Event.ops evs := by
  induction h with
  | nil => rfl
  | item x _ ih => exact ih
  | last _ ih => exact ih
  | did o _ ih => exact congrArg (o :: ·) ih

section
variable {S ι : Type} {stp : S → Op → Option S} {adv : S → ι → Option (Option Nat × ι)} {R : S → List Op → Option S}

theorem live_happened (h0 : ∀ s, R s [] = some s) (h1 : ∀ s s' o os, stp s o = some s' → R s (o :: os) = R s' os) :
    ∀ {evs : List Event} {s : S} {it : ι} {log : List Seen} {s' : S} {it' : ι}, live stp adv s it evs = some (log, s', it') →
      Happened evs log ∧ R s (Event.ops evs) = some s' := by
  intro evs
  induction evs with
  | nil => intro s it log s' it' h; cases h; exact ⟨.nil, h0 _⟩
  | cons ev evs ih =>
    intro s it log s' it' h
    cases ev with
    | next =>
      simp only [live] at h
      split at h
      · cases h
      · rename_i r it1 ha
        split at h
        · cases h
        · rename_i log1 z hl
          cases h
          obtain ⟨h2, h3⟩ := ih hl
          refine ⟨?_, h3⟩
          cases r with
          | none => exact .last h2
          | some x => exact .item x h2
    | op o =>
      simp only [live] at h
      split at h
      · cases h
      · rename_i s1 hs
        split at h
        · cases h
        · rename_i log1 z hl
          cases h
          obtain ⟨h2, h3⟩ := ih hl
          exact ⟨.did o h2, (h1 _ _ _ _ hs).trans h3⟩

theorem live_returns (I : S → ι → List Op → Prop) (h0 : ∀ s, R s [] = some s)
    (h1 : ∀ s s' o os, R s (o :: os) = some s' → ∃ s1, stp s o = some s1 ∧ R s1 os = some s')
    (hstep : ∀ s it o os s1, I s it (o :: os) → stp s o = some s1 → I s1 it os)
    (hadv : ∀ s it os, I s it os → ∃ r it', adv s it = some (r, it') ∧ I s it' os) :
    ∀ {evs : List Event} {s : S} {it : ι} {s' : S}, I s it (Event.ops evs) → R s (Event.ops evs) = some s' →
      ∃ log it', live stp adv s it evs = some (log, s', it') := by
  intro evs
  induction evs with
  | nil => intro s it s' _ h; cases (h0 s).symm.trans h; exact ⟨[], it, rfl⟩
  | cons ev evs ih =>
    intro s it s' hi h
    cases ev with
    | next =>
      obtain ⟨r, it1, h2, h3⟩ := hadv s it _ hi
      obtain ⟨log, it', h4⟩ := ih (s := s) h3 h
      exact ⟨_, it', by simp only [live, h2, h4]; rfl⟩
    | op o =>
      obtain ⟨s1, h2, h3⟩ := h1 s s' o _ h
      obtain ⟨log, it', h4⟩ := ih (hstep _ _ _ _ _ hi h2) h3
      exact ⟨_, it', by simp only [live, h2, h4]; rfl⟩
end

/-! ## The runs of the three models -/

theorem runFrom_cons_ok {s s' : State} {o : Op} {os : List Op} (h : LPG.step s o = some s') : LPG.runFrom s (o :: os) = LPG.runFrom s' os := by
  simp only [LPG.runFrom, h]

theorem runFrom_cons_inv {s s' : State} {o : Op} {os : List Op} (h : LPG.runFrom s (o :: os) = some s') :
    ∃ s1, LPG.step s o = some s1 ∧ LPG.runFrom s1 os = some s' := by
  simp only [LPG.runFrom] at h
  split at h
  · cases h
  · exact ⟨_, by assumption, h⟩

theorem HState.runFrom_cons_ok {s s' : HState} {o : Op} {os : List Op} (h : s.step o = some s') : s.runFrom (o :: os) = s'.runFrom os := by
  simp only [HState.runFrom, h]

theorem HState.runFrom_cons_inv {s s' : HState} {o : Op} {os : List Op} (h : s.runFrom (o :: os) = some s') :
    ∃ s1, s.step o = some s1 ∧ s1.runFrom os = some s' := by
  simp only [HState.runFrom] at h
  split at h
  · cases h
  · exact ⟨_, by assumption, h⟩

theorem LState.runFrom_cons_ok {s s' : LState} {o : Op} {os : List Op} (h : s.step o = some s') : s.runFrom (o :: os) = s'.runFrom os := by
  simp only [LState.runFrom, h]

theorem LState.runFrom_cons_inv {s s' : LState} {o : Op} {os : List Op} (h : s.runFrom (o :: os) = some s') :
    ∃ s1, s.step o = some s1 ∧ s1.runFrom os = some s' := by
  simp only [LState.runFrom] at h
  split at h
  · cases h
  · exact ⟨_, by assumption, h⟩

/-! ## Pointers to edges: also the lists that a map has given up lead only to edges that exist -/

structure HMono (P : Slot) (h : HMap) (b : Nat) : Prop where
  slot : SMono P b
  ells : ∀ a, LMono (h.ell a) b
  only : ∀ x, h.only = some x → x < b

namespace HMono
variable {P P' : Slot} {h h' : HMap} {b b' e : Nat} {label : Nat → String}

theorem le (m : HMono P h b) (hb : b ≤ b') : HMono P h b' :=
  ⟨m.slot.le hb, fun a => (m.ells a).le hb, fun x e => Nat.lt_of_lt_of_le (m.only x e) hb⟩

theorem lmono_empty : LMono { head := none, tail := none, n := 0 } b := ⟨(fun _ h => nomatch h), (fun _ h => nomatch h)⟩

theorem doAdd {l : String} (m : HMono P h b) (ht : ∀ a, AMap.get (h.labelMap h.gen) l = some a → ∀ x, (h.ell a).tail = some x → x < e)
    (he : e < b) : HMono (h.doAdd P l e).1 (h.doAdd P l e).2 b := by
  unfold HMap.doAdd
  split
  · obtain ⟨h1, h2⟩ := EList.add_mono (l := { head := none, tail := none, n := 0 }) m.slot (by simp) (by simp) he
    refine ⟨h1, fun a => ?_, m.only⟩
    simp only [upd_apply]
    split
    · exact h2
    · exact m.ells a
  · rename_i a hg
    obtain ⟨h1, h2⟩ := EList.add_mono m.slot (ht a hg) (m.ells a).head he
    refine ⟨h1, fun a => ?_, m.only⟩
    simp only [upd_apply]
    split
    · exact h2
    · exact m.ells a

theorem doAdd_tails {l : String} (m : ∀ a x, (h.ell a).tail = some x → x < b) (he : e < b) :
    ∀ a x, ((h.doAdd P l e).2.ell a).tail = some x → x < b := by
  have key : ∀ (L : EList) x, (L.add P e).2.tail = some x → x < b := by
    intro L x hx
    unfold EList.add at hx
    split at hx <;> cases hx <;> exact he
  unfold HMap.doAdd
  split
  all_goals
    intro a x hx
    simp only [upd_apply] at hx
    split at hx
    · exact key _ x hx
    · exact m a x hx

theorem add (m : HMono P h b) (ha : h.add P label b = some (P', h')) : HMono P' h' (b + 1) := by
  have m' := m.le (Nat.le_succ b)
  unfold HMap.add at ha
  split at ha
  · cases ha
    exact ⟨m'.slot, m'.ells, fun x hx => by cases hx; omega⟩
  · split at ha
    · split at ha
      · cases ha
      · rename_i o ho
        have hob := m.only o ho
        cases ha
        have m0 : HMono P h.lazyInit (b + 1) := ⟨m'.slot, m'.ells, m'.only⟩
        have m1 := doAdd (l := label o) m0 (by intro a hg; simp [HMap.lazyInit, upd_apply] at hg) (show o < b + 1 by omega)
        have ht := doAdd_tails (P := P) (h := h.lazyInit) (l := label o) (b := b) (fun a => (m.ells a).tail) hob
        have m2 : HMono (h.lazyInit.doAdd P (label o) o).1 { (h.lazyInit.doAdd P (label o) o).2 with only := none } (b + 1) :=
          ⟨m1.slot, m1.ells, fun _ h => nomatch h⟩
        have m3 := doAdd (l := label b) m2 (fun a _ => ht a) (Nat.lt_succ_self b)
        exact ⟨m3.slot, m3.ells, m3.only⟩
    · cases ha
      have m3 := doAdd (l := label b) m' (fun a _ => (m.ells a).tail) (Nat.lt_succ_self b)
      exact ⟨m3.slot, m3.ells, m3.only⟩

theorem shrink (m : HMono P h b) : HMono P h.shrink b := by
  unfold HMap.shrink
  split
  · split
    · exact ⟨m.slot, m.ells, m.only⟩
    · exact ⟨m.slot, m.ells, (m.ells _).head⟩
  · exact m

theorem dropEmpty {l : String} {a : Nat} (m : HMono P h b) : HMono P (h.dropEmpty l a) b := by
  unfold HMap.dropEmpty
  split
  · exact ⟨m.slot, m.ells, m.only⟩
  · exact m

theorem remove (m : HMono P h b) : HMono (h.remove P label e).1 (h.remove P label e).2 b := by
  unfold HMap.remove
  split
  · exact m
  · split
    · split
      · exact m
      · exact ⟨m.slot, m.ells, fun _ h => nomatch h⟩
    · split
      · exact m
      · rename_i a hg
        obtain ⟨h1, h2⟩ := EList.remove_mono (e := e) m.slot (m.ells a)
        have m1 : HMono ((h.ell a).remove P e).1 { h with ell := upd h.ell a ((h.ell a).remove P e).2 } b := by
          refine ⟨h1, fun a' => ?_, m.only⟩
          simp only [upd_apply]
          split
          · exact h2
          · exact m.ells a'
        have m2 := m1.dropEmpty (l := label e) (a := a)
        exact shrink ⟨m2.slot, m2.ells, m2.only⟩
end HMono

namespace HState

/-- the edges of the graph -/
def AllMono (h : HState) : Prop := HMono h.base.slot0 h.allEdges h.base.idBase

theorem connect_all {h h' : HState} {e : Nat} (hs : h.connect e = some h') :
    h'.allEdges = h.allEdges ∧ h'.base.slot0 = h.base.slot0 ∧ h'.base.idBase = h.base.idBase := by
  unfold HState.connect at hs
  split at hs
  · cases hs
  · dsimp only at hs
    split at hs
    · cases hs
    · cases hs; exact ⟨rfl, rfl, rfl⟩

theorem AllMono.congr {h h' : HState} (m : h.AllMono)
    (e : h'.allEdges = h.allEdges ∧ h'.base.slot0 = h.base.slot0 ∧ h'.base.idBase = h.base.idBase) : h'.AllMono := by
  unfold AllMono
  rw [e.1, e.2.1, e.2.2]
  exact m

theorem AllMono.new : HState.new.AllMono :=
  ⟨⟨(fun _ _ h => nomatch h), (fun _ _ h => nomatch h)⟩, fun _ => HMono.lmono_empty, (fun _ h => nomatch h)⟩

theorem AllMono.drop {h : HState} {e : Nat} (m : h.AllMono) : ((h.disconnect e).dropEdge e).AllMono :=
  HMono.remove (P := h.base.slot0) (h := h.allEdges) m

theorem AllMono.detachEdge {h h' : HState} {e : Nat} (m : h.AllMono) (hs : h.detachEdge e = some h') : h'.AllMono := by
  unfold HState.detachEdge at hs
  dsimp only at hs
  split at hs
  · cases hs
  · cases hs; exact (m.drop (e := e))

theorem AllMono.detachEdges {es : List Nat} : ∀ {h h' : HState}, h.AllMono → h.detachEdges es = some h' → h'.AllMono := by
  induction es with
  | nil => intro h h' m hs; cases hs; exact m
  | cons e es ih =>
    intro h h' m hs
    rw [HState.detachEdges] at hs
    split at hs
    · cases hs
    · exact ih (m.detachEdge (by assumption)) hs

theorem AllMono.detachNode {h h' : HState} {n : Nat} (m : h.AllMono) (hs : h.detachNode n = some h') : h'.AllMono := by
  unfold HState.detachNode at hs
  split at hs
  · cases hs
  · split at hs
    · cases hs
    · rename_i h1 e1
      have m1 := m.detachEdges e1
      dsimp only at hs
      split at hs
      · cases hs
      · split at hs
        · cases hs
        · rename_i h2 e2
          cases hs
          have m2 := AllMono.detachEdges (h := { h1 with incoming := upd h1.incoming n (h1.incoming n).clear }) m1 e2
          exact m2

theorem AllMono.step {h h' : HState} {op : Op} (m : h.AllMono) (hs : h.step op = some h') : h'.AllMono := by
  have base : ∀ {f : Option State}, (∀ b, f = some b → b.slot0 = h.base.slot0 ∧ b.idBase = h.base.idBase) →
      f.map (fun b => { h with base := b }) = some h' → h'.AllMono := by
    intro f hf hs
    obtain ⟨b, h1, rfl⟩ := Option.map_eq_some_iff.1 hs
    exact m.congr ⟨rfl, hf b h1⟩
  cases op with
  | newNode ls ps =>
    simp only [HState.step, HState.newNode] at hs
    split at hs
    · cases hs
    · rename_i b hb
      cases hs
      obtain ⟨ixs, _, rfl⟩ := newNode_frame hb
      exact m.le (Nat.le_succ _)
  | newEdge a b l ps =>
    simp only [HState.step, HState.newEdge] at hs
    split at hs
    · cases hs
    · rename_i p0 em ha
      split at hs
      · cases hs
      · rename_i h1 hc
        obtain ⟨c1, c2, c3⟩ := connect_all hc
        split at hs
        · cases hs
        · cases hs
          have m0 : HMono (upd h.base.slot0 h.base.idBase ⟨none, none⟩) h.allEdges h.base.idBase := by
            refine ⟨⟨?_, ?_⟩, m.ells, m.only⟩
            · intro x y e
              simp only [upd_apply] at e
              split at e
              · cases e
              · exact m.slot.next x y e
            · intro x y e
              simp only [upd_apply] at e
              split at e
              · cases e
              · exact m.slot.prev x y e
          unfold AllMono
          dsimp only
          rw [c1, c2, c3]
          exact m0.add ha
  | detach n => exact m.detachNode hs
  | detachRemove n =>
    simp only [HState.step, HState.detachRemoveNode] at hs
    split at hs
    · cases hs
    · rename_i h1 e1
      have m1 := m.detachNode e1
      split at hs
      · cases hs
      · cases hs; exact m1
  | setEdgeLabel e l =>
    simp only [HState.step, HState.setEdgeLabel] at hs
    split at hs
    · cases hs; exact m
    · have c := connect_all hs
      exact m.congr c
  | removeEdge e => cases hs; exact m.drop
  | addEdgeIndex k t =>
    simp only [HState.step, HState.addEdgeIndex] at hs
    split at hs
    · cases hs; exact m
    · split at hs
      · cases hs
      · split at hs
        · cases hs
        · cases hs; exact m
  | setLabels n ls => exact base (f := LPG.step h.base (.setLabels n ls)) (fun b hb => by cases hb; exact ⟨rfl, rfl⟩) hs
  | setNodeProp n k v => exact base (f := LPG.step h.base (.setNodeProp n k v)) (fun b hb => by obtain ⟨ixs, rfl⟩ := setNodeProp_frame hb; exact ⟨rfl, rfl⟩) hs
  | removeNodeProp n k => exact base (f := LPG.step h.base (.removeNodeProp n k)) (fun b hb => by obtain ⟨ixs, rfl⟩ := removeNodeProp_frame hb; exact ⟨rfl, rfl⟩) hs
  | setEdgeProp n k v => exact base (f := LPG.step h.base (.setEdgeProp n k v)) (fun b hb => by obtain ⟨ixs, rfl⟩ := setEdgeProp_frame hb; exact ⟨rfl, rfl⟩) hs
  | removeEdgeProp n k => exact base (f := LPG.step h.base (.removeEdgeProp n k)) (fun b hb => by obtain ⟨ixs, rfl⟩ := removeEdgeProp_frame hb; exact ⟨rfl, rfl⟩) hs
  | addNodeIndex k t => exact base (f := LPG.step h.base (.addNodeIndex k t)) (fun b hb => by obtain ⟨ixs, rfl⟩ := addNodeIndex_frame hb; exact ⟨rfl, rfl⟩) hs

theorem AllMono.runFrom {ops : List Op} : ∀ {h h' : HState}, h.AllMono → h.runFrom ops = some h' → h'.AllMono := by
  induction ops with
  | nil => intro h h' m hs; cases hs; exact m
  | cons op ops ih =>
    intro h h' m hs
    obtain ⟨h1, e1, e2⟩ := HState.runFrom_cons_inv hs
    exact ih (m.step e1) e2

end HState

/-! ## `Next` of an iterator over edges -/

/-- not the iterator over a single nil edge -/
def EdgeIt.Real : EdgeIt → Prop
  | .single e _ => e ≠ none
  | _ => True

/-- the number of lists that start with this one -/
def listsFrom : List Nat → Option Nat → Nat
  | _, none => 0
  | [], some _ => 1
  | x :: xs, some a => if x = a then xs.length + 1 else listsFrom xs (some a)

theorem listsFrom_le (l : List Nat) (a : Option Nat) : listsFrom l a ≤ l.length + 1 := by
  induction l with
  | nil => cases a <;> simp [listsFrom]
  | cons x xs ih =>
    cases a with
    | none => simp [listsFrom]
    | some a => simp only [listsFrom, List.length_cons]; split <;> omega

theorem listsFrom_succ {l : List Nat} (hn : l.Nodup) (a : Nat) : listsFrom l (succIn l a) < listsFrom l (some a) := by
  induction l with
  | nil => simp [succIn, listsFrom]
  | cons x xs ih =>
    simp only [succIn, listsFrom]
    obtain ⟨h1, h2⟩ := List.nodup_cons.1 hn
    split
    · cases xs with
      | nil => simp [listsFrom]
      | cons y ys =>
        have : x ≠ y := by rintro rfl; simp at h1
        simp [listsFrom, this]
    · cases hs : succIn xs a with
      | none =>
        rw [hs] at ih
        simpa [listsFrom] using ih h2
      | some y =>
        rw [hs] at ih
        have hy : y ∈ xs := by
          clear ih hn h1 h2
          induction xs with
          | nil => cases hs
          | cons z zs ih =>
            simp only [succIn] at hs
            split at hs
            · exact List.mem_cons_of_mem _ (List.mem_of_head? hs)
            · exact List.mem_cons_of_mem _ (ih hs)
        have : x ≠ y := by rintro rfl; exact h1 hy
        simp only [listsFrom, this, if_false]
        exact ih h2

/-- the number of edges that an iterator over all edges has left is at most this -/
def EdgeIt.left (h : HMap) (b : Nat) : EdgeIt → Nat
  | .all g nxt next => listsFrom (h.order g) nxt * b + (match next with | none => 0 | some x => b - x)
  | .single _ done => if done then 0 else 1
  | _ => 0

/-- the edge that the iterator is about to yield exists -/
def EdgeIt.Lt (b : Nat) : EdgeIt → Prop
  | .all _ _ (some x) => x < b
  | _ => True

theorem EdgeIt.Lt.le {b b' : Nat} {it : EdgeIt} (h : it.Lt b) (hb : b ≤ b') : it.Lt b' := by
  cases it with
  | all g a n => cases n with
    | none => trivial
    | some x => exact Nat.lt_of_lt_of_le h hb
  | _ => trivial

theorem allNext_returns {P : Slot} {h : HMap} {b g : Nat} (hn : (h.order g).Nodup) (m : HMono P h b) :
    ∀ {fuel : Nat} {nxt next : Option Nat}, listsFrom (h.order g) nxt ≤ fuel → (EdgeIt.all g nxt next).Lt b →
      (∃ x it', h.allNext P g fuel nxt next = some (some x, it') ∧ it'.Real ∧ it'.Lt b ∧
        it'.left h b < (EdgeIt.all g nxt next).left h b ∧ ∃ a n, it' = .all g a n) ∨
      (∃ it', h.allNext P g fuel nxt next = some (none, it') ∧ it'.Real ∧ it'.Lt b ∧ ∃ a n, it' = .all g a n) := by
  intro fuel
  induction fuel with
  | zero =>
    intro nxt next hl hx
    cases next with
    | some x =>
      refine .inl ⟨x, _, rfl, trivial, ?_, ?_, _, _, rfl⟩
      · cases hp : (P x).next with
        | none => trivial
        | some y => exact (m.slot.next x y hp).2
      · have hx : x < b := hx
        cases hp : (P x).next with
        | none => simp only [EdgeIt.left]; omega
        | some y => have := m.slot.next x y hp; simp only [EdgeIt.left]; omega
    | none =>
      cases nxt with
      | none => exact .inr ⟨_, rfl, trivial, trivial, _, _, rfl⟩
      | some a =>
        exfalso
        have := listsFrom_succ hn a
        omega
  | succ fuel ih =>
    intro nxt next hl hx
    cases next with
    | some x =>
      refine .inl ⟨x, _, rfl, trivial, ?_, ?_, _, _, rfl⟩
      · cases hp : (P x).next with
        | none => trivial
        | some y => exact (m.slot.next x y hp).2
      · have hx : x < b := hx
        cases hp : (P x).next with
        | none => simp only [EdgeIt.left]; omega
        | some y => have := m.slot.next x y hp; simp only [EdgeIt.left]; omega
    | none =>
      cases nxt with
      | none => exact .inr ⟨_, rfl, trivial, trivial, _, _, rfl⟩
      | some a =>
        have h1 := listsFrom_succ hn a
        have hlt : (EdgeIt.all g (succIn (h.order g) a) (h.ell a).head).Lt b := by
          cases hh : (h.ell a).head with
          | none => trivial
          | some x => exact (m.ells a).head x hh
        have hle : (EdgeIt.all g (succIn (h.order g) a) (h.ell a).head).left h b ≤ (EdgeIt.all g (some a) none).left h b := by
          have h2 : (listsFrom (h.order g) (succIn (h.order g) a) + 1) * b ≤ listsFrom (h.order g) (some a) * b :=
            Nat.mul_le_mul_right b h1
          rw [Nat.add_mul] at h2
          simp only [EdgeIt.left]
          split <;> omega
        rcases ih (nxt := succIn (h.order g) a) (next := (h.ell a).head) (by omega) hlt with ⟨x, it', h2, h3, h4, h5, h6⟩ | ⟨it', h2, h3, h4, h5⟩
        · exact .inl ⟨x, it', h2, h3, h4, by omega, h6⟩
        · exact .inr ⟨it', h2, h3, h4, h5⟩

/-- an iterator over one of the edge maps returns -/
theorem HMap.adv_returns {P : Slot} {h : HMap} {it : EdgeIt} (w : h.Wf) (hr : it.Real) :
    ∃ r it', h.adv P it = some (r, it') ∧ it'.Real := by
  have hall : ∀ (g fuel : Nat) (nxt next : Option Nat), listsFrom (h.order g) nxt ≤ fuel →
      ∃ r it', h.allNext P g fuel nxt next = some (r, it') ∧ it'.Real := by
    intro g fuel
    induction fuel with
    | zero =>
      intro nxt next hl
      cases next with
      | some x => exact ⟨_, _, rfl, trivial⟩
      | none =>
        cases nxt with
        | none => exact ⟨_, _, rfl, trivial⟩
        | some a => exfalso; have := listsFrom_succ (w.ord g) a; omega
    | succ fuel ih =>
      intro nxt next hl
      cases next with
      | some x => exact ⟨_, _, rfl, trivial⟩
      | none =>
        cases nxt with
        | none => exact ⟨_, _, rfl, trivial⟩
        | some a =>
          have := listsFrom_succ (w.ord g) a
          exact ih _ _ (by omega)
  have hany : ∀ (g : Nat) (ls : List String), (h.anyNext P g ls).2.Real := by
    intro g ls
    induction ls with
    | nil => trivial
    | cons l ls ih =>
      simp only [HMap.anyNext]
      split
      · exact ih
      · split
        · exact ih
        · trivial
  cases it with
  | empty => exact ⟨_, _, rfl, trivial⟩
  | single e d =>
    cases d with
    | true => exact ⟨none, .single e true, rfl, hr⟩
    | false =>
      cases e with
      | none => exact absurd rfl hr
      | some x => exact ⟨some x, .single (some x) true, rfl, hr⟩
  | all g nxt next => exact hall g _ nxt next (listsFrom_le _ _)
  | list n => cases n <;> exact ⟨_, _, rfl, trivial⟩
  | any g ls cur =>
    rcases cur with _ | _ | x
    · exact ⟨_, _, rfl, hany g ls⟩
    · exact ⟨_, _, rfl, hany g ls⟩
    · exact ⟨_, _, rfl, trivial⟩

/-- the iterator over all edges, which `GetEdges` returns -/
def EdgeIt.OfAll : EdgeIt → Prop
  | .empty | .single _ _ | .all _ _ _ => True
  | _ => False

theorem adv_left {h : HState} {it : EdgeIt} (w : h.Wf) (m : h.AllMono) (ho : it.OfAll) (hr : it.Real) (hl : it.Lt h.base.idBase) :
    (∃ x it', h.adv .all it = some (some x, it') ∧ it'.OfAll ∧ it'.Real ∧ it'.Lt h.base.idBase ∧
      it'.left h.allEdges h.base.idBase < it.left h.allEdges h.base.idBase) ∨
    (∃ it', h.adv .all it = some (none, it') ∧ it'.OfAll ∧ it'.Real ∧ it'.Lt h.base.idBase) := by
  cases it with
  | empty => exact .inr ⟨_, rfl, trivial, trivial, trivial⟩
  | single e d =>
    cases d with
    | true => exact .inr ⟨.single e true, rfl, trivial, hr, trivial⟩
    | false =>
      cases e with
      | none => exact absurd rfl hr
      | some x => exact .inl ⟨x, .single (some x) true, rfl, trivial, hr, trivial, by simp [EdgeIt.left]⟩
  | all g nxt next =>
    rcases allNext_returns (w.all.ord g) m (listsFrom_le _ nxt) hl with ⟨x, it', h2, h3, h4, h5, a, n, rfl⟩ | ⟨it', h2, h3, h4, a, n, rfl⟩
    · exact .inl ⟨x, _, h2, trivial, h3, h4, h5⟩
    · exact .inr ⟨_, h2, trivial, h3, h4⟩
  | list n => exact ho.elim
  | any g ls cur => exact ho.elim

theorem scanEdges_returns {k : String} {h : HState} (w : h.Wf) (m : h.AllMono) : ∀ {f : Nat} {it : EdgeIt}, it.OfAll → it.Real →
    it.Lt h.base.idBase → it.left h.allEdges h.base.idBase < f →
    ∃ r it', scanEdges k h f it = some (r, it') ∧ it'.OfAll ∧ it'.Real ∧ it'.Lt h.base.idBase := by
  intro f
  induction f with
  | zero => intro it _ _ _ hf; omega
  | succ f ih =>
    intro it ho hr hl hf
    rcases adv_left w m ho hr hl with ⟨x, it', h1, h2, h3, h4, h5⟩ | ⟨it', h1, h2, h3, h4⟩
    · simp only [scanEdges, h1]
      split
      · exact ⟨_, _, rfl, h2, h3, h4⟩
      · exact ih h2 h3 h4 (by omega)
    · simp only [scanEdges, h1]
      exact ⟨_, _, rfl, h2, h3, h4⟩

theorem left_fuel (h : HState) (it : EdgeIt) : it.left h.allEdges h.base.idBase < scanFuel h it := by
  cases it with
  | all g nxt next =>
    have h1 := listsFrom_le (h.allEdges.order g) nxt
    have h2 := Nat.mul_le_mul_right h.base.idBase h1
    simp only [EdgeIt.left, scanFuel]
    rw [Nat.add_mul] at h2 ⊢
    split <;> omega
  | single e d => simp only [EdgeIt.left, scanFuel]; split <;> omega
  | _ => simp [EdgeIt.left, scanFuel]

theorem scanNodes_returns {k : String} {s : State} (hm : Mono s.nptr s.allNodes s.idBase) : ∀ {f : Nat} {it : NodeIt},
    (∀ x, it.next = some x → x < s.idBase ∧ s.idBase - x < f) → 0 < f →
    ∃ r it', scanNodes k s f it = some (r, it') ∧ ∀ x, it'.next = some x → x < s.idBase := by
  intro f
  induction f with
  | zero => intro it _ h; omega
  | succ f ih =>
    intro it hi _
    cases hn : it.next with
    | none => simp only [scanNodes, NodeIt.adv, hn]; exact ⟨_, _, rfl, by simp⟩
    | some x =>
      obtain ⟨h1, h2⟩ := hi x hn
      simp only [scanNodes, NodeIt.adv, hn]
      split
      · exact ⟨_, _, rfl, fun y hy => (hm.next x y hy).2⟩
      · refine ih (fun y hy => ?_) (by omega)
        have := hm.next x y hy
        omega

theorem hashCells_kind {ixs : Indexes} {k : String} : hashCells ixs k ≠ none ↔ ixs.kind k = some .hash := by
  unfold hashCells Indexes.kind
  cases AMap.get ixs k with
  | none => simp
  | some ix => cases ix <;> simp [Index.kind]

end LPG

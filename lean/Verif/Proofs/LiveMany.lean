import Verif.Spec.LiveMany
import Verif.Proofs.LiveReturns
/-!
# Programs with several iterators, seen by one of them
-/
namespace LPG

section
variable {S ι κ : Type} {stp : S → Op → Option S} {mk : S → κ → Option ι} {adv : S → ι → Option (Option Nat × ι)}

theorem liveMany_only {i : Nat} {evs : List (Ev κ)} : ∀ {s s' : S} {its its' : List ι} {it : ι} {log : List Saw},
    liveMany stp mk adv s its evs = some (log, s', its') → its[i]? = some it →
    ∃ it', its'[i]? = some it' ∧ live stp adv s it (Ev.only i evs) = some (Saw.only i log, s', it') := by
  induction evs with
  | nil => intro s s' its its' it log h hi; cases h; exact ⟨it, hi, rfl⟩
  | cons ev evs ih =>
    intro s s' its its' it log h hi
    cases ev with
    | make c =>
      simp only [liveMany] at h
      split at h
      · cases h
      · split at h
        · cases h
        · rename_i log1 z h1
          cases h
          have hlt : i < its.length := (List.getElem?_eq_some_iff.1 hi).1
          obtain ⟨it', h2, h3⟩ := ih h1 ((List.getElem?_append_left hlt).trans hi)
          exact ⟨it', h2, h3⟩
    | next j =>
      simp only [liveMany] at h
      split at h
      · cases h
      · rename_i jt hj
        split at h
        · cases h
        · rename_i r jt' ha
          split at h
          · cases h
          · rename_i log1 z h1
            cases h
            have hlt : j < its.length := (List.getElem?_eq_some_iff.1 hj).1
            by_cases hji : j = i
            · subst hji
              cases hj.symm.trans hi
              obtain ⟨it', h2, h3⟩ := ih h1 (it := jt') (by rw [List.getElem?_set_self hlt])
              refine ⟨it', h2, ?_⟩
              cases r <;> simp only [Ev.only, Saw.only, if_true, live, ha, h3]
            · obtain ⟨it', h2, h3⟩ := ih h1 (it := it) (by rw [List.getElem?_set_ne hji]; exact hi)
              refine ⟨it', h2, ?_⟩
              cases r <;> simp only [Ev.only, Saw.only, hji, if_false, h3]
    | op o =>
      simp only [liveMany] at h
      split at h
      · cases h
      · rename_i s1 hs
        split at h
        · cases h
        · rename_i log1 z h1
          cases h
          obtain ⟨it', h2, h3⟩ := ih h1 hi
          exact ⟨it', h2, by simp only [Ev.only, Saw.only, live, hs, h3]⟩

theorem liveMany_split {c : κ} {evs2 : List (Ev κ)} {evs1 : List (Ev κ)} : ∀ {s s' : S} {its its' : List ι} {log : List Saw},
    liveMany stp mk adv s its (evs1 ++ .make c :: evs2) = some (log, s', its') →
    ∃ log1 s1 its1 it log2, liveMany stp mk adv s its evs1 = some (log1, s1, its1) ∧ mk s1 c = some it ∧
      liveMany stp mk adv s1 (its1 ++ [it]) evs2 = some (log2, s', its') ∧ log = log1 ++ .made :: log2 := by
  induction evs1 with
  | nil =>
    intro s s' its its' log h
    simp only [List.nil_append, liveMany] at h
    split at h
    · cases h
    · rename_i it hm
      split at h
      · cases h
      · rename_i log2 z h1
        cases h
        exact ⟨[], s, its, it, log2, rfl, hm, h1, rfl⟩
  | cons ev evs1 ih =>
    intro s s' its its' log h
    cases ev with
    | make c' =>
      simp only [List.cons_append, liveMany] at h
      split at h
      · cases h
      · rename_i jt hj
        split at h
        · cases h
        · rename_i log2 z h1
          cases h
          obtain ⟨l1, s1, its1, it, l2, a1, a2, a3, a4⟩ := ih h1
          exact ⟨.made :: l1, s1, its1, it, l2, by simp only [liveMany, hj, a1], a2, a3, by rw [a4]; rfl⟩
    | next j =>
      simp only [List.cons_append, liveMany] at h
      split at h
      · cases h
      · rename_i jt hj
        split at h
        · cases h
        · rename_i r jt' ha
          split at h
          · cases h
          · rename_i log2 z h1
            cases h
            obtain ⟨l1, s1, its1, it, l2, a1, a2, a3, a4⟩ := ih h1
            exact ⟨_ :: l1, s1, its1, it, l2, by simp only [liveMany, hj, ha, a1]; rfl, a2, a3, by rw [a4]; rfl⟩
    | op o =>
      simp only [List.cons_append, liveMany] at h
      split at h
      · cases h
      · rename_i t hs
        split at h
        · cases h
        · rename_i log2 z h1
          cases h
          obtain ⟨l1, s1, its1, it, l2, a1, a2, a3, a4⟩ := ih h1
          exact ⟨.did o :: l1, s1, its1, it, l2, by simp only [liveMany, hs, a1], a2, a3, by rw [a4]; rfl⟩

theorem liveMany_ops {R : S → List Op → Option S} (h0 : ∀ s, R s [] = some s)
    (h1 : ∀ s s' o os, stp s o = some s' → R s (o :: os) = R s' os) {evs : List (Ev κ)} :
    ∀ {s s' : S} {its its' : List ι} {log : List Saw}, liveMany stp mk adv s its evs = some (log, s', its') →
      R s (Ev.ops evs) = some s' ∧ its'.length = its.length + Ev.makes evs := by
  induction evs with
  | nil => intro s s' its its' log h; cases h; exact ⟨h0 _, rfl⟩
  | cons ev evs ih =>
    intro s s' its its' log h
    cases ev with
    | make c =>
      simp only [liveMany] at h
      split at h
      · cases h
      · split at h
        · cases h
        · rename_i hl
          cases h
          obtain ⟨a1, a2⟩ := ih hl
          exact ⟨a1, by rw [a2]; simp [Ev.makes]; omega⟩
    | next j =>
      simp only [liveMany] at h
      split at h
      · cases h
      · split at h
        · cases h
        · split at h
          · cases h
          · rename_i hl
            cases h
            obtain ⟨a1, a2⟩ := ih hl
            exact ⟨a1, by rw [a2]; simp [Ev.makes]⟩
    | op o =>
      simp only [liveMany] at h
      split at h
      · cases h
      · rename_i hs
        split at h
        · cases h
        · rename_i hl
          cases h
          obtain ⟨a1, a2⟩ := ih hl
          exact ⟨(h1 _ _ _ _ hs).trans a1, by rw [a2]; simp [Ev.makes]⟩
end

/-- The same loop on another model of the graph. -/
theorem live_sim {S T ι ν : Type} {stp : S → Op → Option S} {adv : S → ι → Option (Option Nat × ι)} {stp' : T → Op → Option T}
    {adv' : T → ν → Option (Option Nat × ν)} (W : S → Prop) (φ : S → T) (j : ν → ι)
    (hs : ∀ s o s', W s → stp s o = some s' → stp' (φ s) o = some (φ s') ∧ W s')
    (ha : ∀ s (it : ν) r it', W s → adv s (j it) = some (r, it') → ∃ jt, it' = j jt ∧ adv' (φ s) it = some (r, jt)) {evs : List Event} :
    ∀ {s s' : S} {it : ν} {it' : ι} {log : List Seen}, W s → live stp adv s (j it) evs = some (log, s', it') →
      ∃ jt, it' = j jt ∧ live stp' adv' (φ s) it evs = some (log, φ s', jt) := by
  induction evs with
  | nil => intro s s' it it' log _ h; cases h; exact ⟨it, rfl, rfl⟩
  | cons ev evs ih =>
    intro s s' it it' log w h
    cases ev with
    | next =>
      simp only [live] at h
      split at h
      · cases h
      · rename_i r it1 h1
        obtain ⟨jt, rfl, h2⟩ := ha s it r it1 w h1
        split at h
        · cases h
        · rename_i hl
          cases h
          obtain ⟨jt', h3, h4⟩ := ih w hl
          exact ⟨jt', h3, by simp only [live, h2, h4]⟩
    | op o =>
      simp only [live] at h
      split at h
      · cases h
      · rename_i s1 h1
        obtain ⟨h2, w1⟩ := hs s o s1 w h1
        split at h
        · cases h
        · rename_i hl
          cases h
          obtain ⟨jt', h3, h4⟩ := ih w1 hl
          exact ⟨jt', h3, by simp only [live, h2, h4]⟩

namespace FState

theorem runFrom_cons_ok {s s' : FState} {o : Op} {os : List Op} (h : s.step o = some s') : s.runFrom (o :: os) = s'.runFrom os := by
  simp only [FState.runFrom, h]

theorem step_h {f f' : FState} {o : Op} (h : f.step o = some f') : f.h.step o = some f'.h := by
  unfold FState.step at h
  split at h
  · cases h
  · rename_i h1; cases h; exact h1

theorem step_s {f f' : FState} {o : Op} (w : f.h.Wf) (h : f.step o = some f') : LPG.step f.h.abs o = some f'.h.abs ∧ f'.h.Wf := by
  rcases (HState.step_abs w o).cases with ⟨b1, -⟩ | ⟨x, b1, b2, w1⟩
  · rw [step_h h] at b1; cases b1
  · rw [step_h h] at b1; cases b1; exact ⟨b2, w1⟩

/-- the model with the label index -/
def lab (f : FState) : LState := ⟨f.h.abs, f.lbl⟩

theorem lblStep_base (h : HState) (l : LMap) (o : Op) : (LState.mk h.base l).lblStep o = (LState.mk h.abs l).lblStep o := by
  cases o <;> rfl

theorem step_lab {f f' : FState} {o : Op} (w : f.h.Wf) (h : f.step o = some f') : f.lab.step o = some f'.lab ∧ f'.h.Wf := by
  obtain ⟨h1, w1⟩ := step_s w h
  refine ⟨?_, w1⟩
  have h2 : f'.lbl = (LState.mk f.h.base f.lbl).lblStep o := by
    unfold FState.step at h
    split at h
    · cases h
    · cases h; rfl
  unfold LState.step lab
  dsimp only
  rw [h1, h2, lblStep_base]

theorem runFrom_all {ops : List Op} : ∀ {f f' : FState}, f.h.Wf → f.runFrom ops = some f' →
    f.h.runFrom ops = some f'.h ∧ LPG.runFrom f.h.abs ops = some f'.h.abs ∧ f.lab.runFrom ops = some f'.lab ∧ f'.h.Wf := by
  induction ops with
  | nil => intro f f' w h; cases h; exact ⟨rfl, rfl, rfl, w⟩
  | cons o ops ih =>
    intro f f' w h
    simp only [FState.runFrom] at h
    split at h
    · cases h
    · rename_i f1 h1
      obtain ⟨a1, w1⟩ := step_s w h1
      obtain ⟨b1, b2, b3, b4⟩ := ih w1 h
      refine ⟨?_, ?_, ?_, b4⟩
      · simp only [HState.runFrom, step_h h1, b1]
      · simp only [LPG.runFrom, a1, b2]
      · simp only [LState.runFrom, (step_lab w h1).1, b3]

theorem run_all {ops : List Op} {f : FState} (h : FState.run ops = some f) :
    HState.run ops = some f.h ∧ LPG.run ops = some f.h.abs ∧ LState.run ops = some f.lab ∧ f.h.Wf :=
  runFrom_all (f := FState.new) HState.Wf.new h

theorem scanNodes_base (k : String) (h : HState) (n : Nat) : ∀ it, scanNodes k h.base n it = scanNodes k h.abs n it := by
  induction n with
  | zero => intro it; rfl
  | succ n ih =>
    intro it
    simp only [scanNodes, ih]
    rfl

section
variable {f f' : FState} {it' : AnyIt} {evs : List Event} {log : List Seen} {k : String}

theorem sim_nodes {it : NodeIt} (w : f.h.Wf) (hl : live FState.step FState.adv f (.nodes it) evs = some (log, f', it')) :
    ∃ jt, it' = .nodes jt ∧ live LPG.step NodeIt.adv f.h.abs it evs = some (log, f'.h.abs, jt) :=
  live_sim (fun f => f.h.Wf) (fun f => f.h.abs) AnyIt.nodes (fun f o f' w h => step_s w h)
    (by
      intro f it r it' w h
      obtain ⟨⟨a, b⟩, h1, h2⟩ := Option.map_eq_some_iff.1 h
      cases h2
      exact ⟨b, rfl, h1⟩) w hl

theorem sim_labels {ls : List String} {it : LblIt} (w : f.h.Wf)
    (hl : live FState.step FState.adv f (.labels ls it) evs = some (log, f', it')) :
    ∃ jt, it' = .labels ls jt ∧ live LState.step (LState.advLabels ls) f.lab it evs = some (log, f'.lab, jt) :=
  live_sim (fun f => f.h.Wf) FState.lab (AnyIt.labels ls) (fun f o f' w h => step_lab w h)
    (by
      intro f it r it' w h
      obtain ⟨⟨a, b⟩, h1, h2⟩ := Option.map_eq_some_iff.1 h
      cases h2
      exact ⟨b, rfl, by cases it <;> exact h1⟩) w hl

theorem sim_edges {m : Sel} {it : EdgeIt} (hl : live FState.step FState.adv f (.edges m it) evs = some (log, f', it')) :
    ∃ jt, it' = .edges m jt ∧ live HState.step (HState.adv m) f.h it evs = some (log, f'.h, jt) :=
  live_sim (fun _ => True) FState.h (AnyIt.edges m) (fun f o f' w h => ⟨step_h h, trivial⟩)
    (by
      intro f it r it' w h
      obtain ⟨⟨a, b⟩, h1, h2⟩ := Option.map_eq_some_iff.1 h
      cases h2
      exact ⟨b, rfl, h1⟩) trivial hl

theorem sim_both {its : List (Sel × EdgeIt)} (hl : live FState.step FState.adv f (.both its) evs = some (log, f', it')) :
    ∃ jt, it' = .both jt ∧ live HState.step HState.advMulti f.h its evs = some (log, f'.h, jt) :=
  live_sim (fun _ => True) FState.h AnyIt.both (fun f o f' w h => ⟨step_h h, trivial⟩)
    (by
      intro f it r it' w h
      obtain ⟨⟨a, b⟩, h1, h2⟩ := Option.map_eq_some_iff.1 h
      cases h2
      exact ⟨b, rfl, h1⟩) trivial hl

theorem sim_nodeScan {it : NodeIt} (w : f.h.Wf) (hl : live FState.step FState.adv f (.nodeScan k it) evs = some (log, f', it')) :
    ∃ jt, it' = .nodeScan k jt ∧
      live LPG.step (fun s it => scanNodes k s (s.idBase + 1) it) f.h.abs it evs = some (log, f'.h.abs, jt) :=
  live_sim (fun f => f.h.Wf) (fun f => f.h.abs) (AnyIt.nodeScan k) (fun f o f' w h => step_s w h)
    (by
      intro f it r it' w h
      obtain ⟨⟨a, b⟩, h1, h2⟩ := Option.map_eq_some_iff.1 h
      cases h2
      rw [scanNodes_base] at h1
      exact ⟨b, rfl, h1⟩) w hl

theorem sim_nodeCells {it : Option (Nat × Nat)} (w : f.h.Wf)
    (hl : live FState.step FState.adv f (.nodeCells k it) evs = some (log, f', it')) :
    ∃ jt, it' = .nodeCells k jt ∧ live LPG.step (advCells State.nodeIx k) f.h.abs it evs = some (log, f'.h.abs, jt) :=
  live_sim (fun f => f.h.Wf) (fun f => f.h.abs) (AnyIt.nodeCells k) (fun f o f' w h => step_s w h)
    (by
      intro f it r it' w h
      obtain ⟨⟨a, b⟩, h1, h2⟩ := Option.map_eq_some_iff.1 h
      cases h2
      exact ⟨b, rfl, by cases it <;> exact h1⟩) w hl

theorem sim_edgeCells {it : Option (Nat × Nat)} (w : f.h.Wf)
    (hl : live FState.step FState.adv f (.edgeCells k it) evs = some (log, f', it')) :
    ∃ jt, it' = .edgeCells k jt ∧ live LPG.step (advCells State.edgeIx k) f.h.abs it evs = some (log, f'.h.abs, jt) :=
  live_sim (fun f => f.h.Wf) (fun f => f.h.abs) (AnyIt.edgeCells k) (fun f o f' w h => step_s w h)
    (by
      intro f it r it' w h
      obtain ⟨⟨a, b⟩, h1, h2⟩ := Option.map_eq_some_iff.1 h
      cases h2
      exact ⟨b, rfl, by cases it <;> exact h1⟩) w hl

theorem sim_edgeScan {it : EdgeIt} (hl : live FState.step FState.adv f (.edgeScan k it) evs = some (log, f', it')) :
    ∃ jt, it' = .edgeScan k jt ∧
      live HState.step (fun h it => scanEdges k h (scanFuel h it) it) f.h it evs = some (log, f'.h, jt) :=
  live_sim (fun _ => True) FState.h (AnyIt.edgeScan k) (fun f o f' w h => ⟨step_h h, trivial⟩)
    (by
      intro f it r it' w h
      obtain ⟨⟨a, b⟩, h1, h2⟩ := Option.map_eq_some_iff.1 h
      cases h2
      exact ⟨b, rfl, h1⟩) trivial hl
end

/-- The program with one iterator of the separate models, where the iterator ends as it does here. -/
theorem oneLoop {ops : List Op} {f f' : FState} {c : Source} {it it' : AnyIt} {evs : List Event} {log : List Seen}
    (hr : FState.run ops = some f) (hm : f.make c = some it) (hl : live FState.step FState.adv f it evs = some (log, f', it')) :
    OneLoop ops evs log c := by
  obtain ⟨r1, r2, r3, w⟩ := run_all hr
  cases c with
  | nodes =>
    cases hm
    obtain ⟨jt, -, h1⟩ := sim_nodes w hl
    exact ⟨_, _, jt, r2, h1⟩
  | labels ls =>
    obtain ⟨lt, hm2, rfl⟩ := Option.map_eq_some_iff.1 hm
    obtain ⟨jt, -, h1⟩ := sim_labels w hl
    have hm3 : f.lab.openLabels ls = some lt := hm2
    exact ⟨_, f'.lab, jt, r3, by rw [LState.liveLabels, hm3]; exact h1⟩
  | edges m k =>
    obtain ⟨lt, hm2, rfl⟩ := Option.map_eq_some_iff.1 hm
    obtain ⟨jt, -, h1⟩ := sim_edges hl
    exact ⟨_, f'.h, jt, r1, by rw [HState.liveEdges, hm2]; exact h1⟩
  | both n k =>
    obtain ⟨lt, hm2, rfl⟩ := Option.map_eq_some_iff.1 hm
    obtain ⟨jt, -, h1⟩ := sim_both hl
    exact ⟨_, f'.h, jt, r1, by rw [HState.liveBoth, hm2]; exact h1⟩
  | nodeProp k =>
    simp only [FState.make] at hm
    refine ⟨f.h.abs, f'.h.abs, r2, ?_⟩
    split at hm
    · rename_i hg
      cases hm
      obtain ⟨jt, -, h1⟩ := sim_nodeScan w hl
      have hg : AMap.get f.h.abs.nodeIx k = none := hg
      exact .inr ⟨jt, by rw [State.liveNodeScan, hg]; exact h1⟩
    · obtain ⟨l, hc, rfl⟩ := Option.map_eq_some_iff.1 hm
      obtain ⟨jt, -, h1⟩ := sim_nodeCells w hl
      have hc : hashCells (State.nodeIx f.h.abs) k = some l := hc
      exact .inl ⟨jt, by rw [State.liveNodeHash, liveCells, hc]; exact h1⟩
  | edgeProp k =>
    simp only [FState.make] at hm
    split at hm
    · rename_i hg
      obtain ⟨lt, hm2, rfl⟩ := Option.map_eq_some_iff.1 hm
      obtain ⟨jt, -, h1⟩ := sim_edgeScan hl
      exact .inr ⟨f.h, f'.h, jt, r1, by rw [HState.liveEdgeScan, hg, hm2]; exact h1⟩
    · obtain ⟨l, hc, rfl⟩ := Option.map_eq_some_iff.1 hm
      obtain ⟨jt, -, h1⟩ := sim_edgeCells w hl
      have hc : hashCells (State.edgeIx f.h.abs) k = some l := hc
      exact .inl ⟨f.h.abs, f'.h.abs, jt, r2, by rw [State.liveEdgeHash, liveCells, hc]; exact h1⟩

end FState

theorem Event.ops_append (e1 e2 : List Event) : Event.ops (e1 ++ e2) = Event.ops e1 ++ Event.ops e2 := by
  induction e1 with
  | nil => rfl
  | cons e e1 ih => cases e <;> simp [Event.ops, ih]

theorem Ev.ops_only {κ : Type} (i : Nat) (evs : List (Ev κ)) : Event.ops (Ev.only i evs) = Ev.ops evs := by
  induction evs with
  | nil => rfl
  | cons e evs ih =>
    cases e with
    | make c => exact ih
    | next j => simp only [Ev.only, Ev.ops]; split <;> exact ih
    | op o => simp only [Ev.only, Ev.ops, Event.ops, ih]

/-- If the program returns with a further call of `Next`, then that call returns. -/
theorem live_next {S ι : Type} {stp : S → Op → Option S} {adv : S → ι → Option (Option Nat × ι)} {evs : List Event} :
    ∀ {s s' : S} {it it' : ι} {log : List Seen}, live stp adv s it evs = some (log, s', it') →
      live stp adv s it (evs ++ [.next]) ≠ none → adv s' it' ≠ none := by
  induction evs with
  | nil =>
    intro s s' it it' log h h1 h2
    cases h
    exact h1 (by simp only [List.nil_append, live, h2])
  | cons ev evs ih =>
    intro s s' it it' log h h1
    cases ev with
    | next =>
      simp only [live] at h
      split at h
      · cases h
      · rename_i r it1 ha
        split at h
        · cases h
        · rename_i hl
          cases h
          refine ih hl (fun h2 => h1 ?_)
          simp only [List.cons_append, live, ha, h2]
    | op o =>
      simp only [live] at h
      split at h
      · cases h
      · rename_i s1 ha
        split at h
        · cases h
        · rename_i hl
          cases h
          refine ih hl (fun h2 => h1 ?_)
          simp only [List.cons_append, live, ha, h2]

end LPG

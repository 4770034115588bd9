import Verif.Proofs.LivePropsScan
import Verif.Proofs.LiveBoth
import Verif.Proofs.LiveEach
/-!
# Loops over the edges with a property, without an index
-/
namespace LPG
open HState

variable {k : String} {σ : Spec} {h : HState} {l l' : List Seen} {it : EdgeIt} {R W : List Nat} {q : String → Prop}

theorem eprop_iff (c : Core h.abs σ) {x : Nat} (hx : x ∈ σ.edges) : (h.base.edgeProperty x k).isSome = true ↔ σ.eprop x k ≠ none := by
  have := (c.eprops x hx).2 k
  rw [State.edgeProperty, show h.base.eProps x = h.abs.eProps x from rfl, this]
  cases σ.eprop x k <;> simp

theorem scanEdges_sim {f : Nat} (c : Core h.abs σ) : ∀ {it it' : EdgeIt} {r : Option Nat} {evs : List Event}
    {log l : List Seen} {z : HState × EdgeIt}, scanEdges k h f it = some (r, it') →
    live HState.step (HState.adv .all) h it' evs = some (log, z) →
    Thin (fun σ x => x ∈ σ.edges) (fun σ x => σ.eprop x k ≠ none) σ log l →
    ∃ evs' log', live HState.step (HState.adv .all) h it evs' = some (log', z) ∧
      Thin (fun σ x => x ∈ σ.edges) (fun σ x => σ.eprop x k ≠ none) σ log'
        ((match r with | some x => Seen.item x | none => Seen.last) :: l) := by
  induction f with
  | zero => intro it it' r evs log l z hs; cases hs
  | succ f ih =>
    intro it it' r evs log l z hs hl ht
    rw [scanEdges] at hs
    split at hs
    · cases hs
    · rename_i it1 ha
      cases hs
      exact ⟨.next :: evs, .last :: log, by simp only [live, ha, hl], .last ht⟩
    · rename_i x it1 ha
      split at hs
      · rename_i hp
        cases hs
        exact ⟨.next :: evs, .item x :: log, by simp only [live, ha, hl], .item (fun hx => (eprop_iff c hx).1 hp) ht⟩
      · rename_i hp
        obtain ⟨evs', log', h1, h2⟩ := ih hs hl ht
        exact ⟨.next :: evs', .item x :: log', by simp only [live, ha, h1], .skip (fun hx h0 => hp ((eprop_iff c hx).2 h0)) h2⟩

/-- A loop over the edges with the property is a loop over all edges that skips some. -/
theorem scanEdges_live {evs : List Event} : ∀ {h : HState} {σ : Spec} {it : EdgeIt} {log : List Seen} {z : HState × EdgeIt},
    Core h.abs σ → h.Wf →
    live HState.step (fun h it => scanEdges k h (scanFuel h it) it) h it evs = some (log, z) → σ.ValidFrom (Seen.ops log) →
    ∃ evs' log', live HState.step (HState.adv .all) h it evs' = some (log', z) ∧
      Thin (fun σ x => x ∈ σ.edges) (fun σ x => σ.eprop x k ≠ none) σ log' log := by
  induction evs with
  | nil => intro h σ it log z c w hl _; cases hl; exact ⟨[], [], rfl, .nil _⟩
  | cons ev evs ih =>
    intro h σ it log z c w hl hv
    cases ev with
    | next =>
      simp only [live] at hl
      split at hl
      · cases hl
      · rename_i r it1 ha
        split at hl
        · cases hl
        · rename_i log1 z1 hl1
          cases hl
          have hv1 : σ.ValidFrom (Seen.ops log1) := by cases r <;> exact hv
          obtain ⟨evs', log', h1, h2⟩ := ih c w hl1 hv1
          exact scanEdges_sim c ha h1 h2
    | op o =>
      simp only [live] at hl
      split at hl
      · cases hl
      · rename_i s1 hs1
        split at hl
        · cases hl
        · rename_i log1 z1 hl1
          cases hl
          obtain ⟨w1, c1⟩ : s1.Wf ∧ Core s1.abs (σ.step o) := by
            rcases (step_abs w o).cases with ⟨h2, -⟩ | ⟨y, h2, h4, w1⟩
            · rw [hs1] at h2; cases h2
            · rw [hs1] at h2; cases h2
              exact ⟨w1, c.step hv.1 h4⟩
          obtain ⟨evs', log', h1, h2⟩ := ih c1 w1 hl1 hv.2
          exact ⟨.op o :: evs', .did o :: log', by simp only [live, hs1, h1], .did h2⟩

theorem Gentle_all_mono {Y Y' : List Nat} {op : Op} (hY : ∀ y ∈ Y', y ∈ Y) (hg : σ.Gentle .all .all Y' op) : σ.Gentle .all .all Y op := by
  refine ⟨fun e he h1 h2 => hY e (hg.1 e he h1 h2), ?_⟩
  cases op <;> first | trivial | exact .inl rfl

theorem Thin.gentle {A P : Spec → Nat → Prop} (h : Thin A P σ l l') : ∀ {Y Y' : List Nat}, (∀ y ∈ Y', y ∈ Y) →
    σ.GentleFrom .all .all Y' l' → σ.GentleFrom .all .all Y l := by
  induction h with
  | nil => intro _ _ _ _; trivial
  | skip _ _ ih => intro Y Y' hY hr; exact ih (fun y hy => List.mem_append_left _ (hY y hy)) hr
  | item _ _ ih =>
    intro Y Y' hY hr
    refine ih (fun y hy => ?_) hr
    rcases List.mem_append.1 hy with hy | hy
    · exact List.mem_append_left _ (hY y hy)
    · exact List.mem_append_right _ hy
  | last _ ih => intro Y Y' hY hr; exact ih hY hr
  | did _ ih => intro Y Y' hY hr; exact ⟨Gentle_all_mono hY hr.1, ih hY hr.2⟩

/-! ## `Next` returns -/

theorem EdgesInv.mem (hi : EdgesInv .all R q h σ it W) : ∀ x ∈ W, x ∈ σ.edges := by
  obtain ⟨xs, f, h1, h2⟩ := hi
  exact fun x hx => ((h2 x).1 (h1.sub x hx)).1

theorem EdgesInv.length (c : Core h.abs σ) (hi : EdgesInv .all R q h σ it W) : W.length ≤ h.base.idBase := by
  have := List.Subperm.length_le (List.subperm_of_subset hi.nodup (l₂ := List.range h.base.idBase)
    (fun y hy => List.mem_range.2 (by rw [show h.base.idBase = h.abs.idBase from rfl, c.next]; exact c.eLt y (hi.mem y hy))))
  simpa using this

theorem scanFuel_ge (h : HState) (it : EdgeIt) : ∃ f, scanFuel h it = f + 1 ∧ h.base.idBase ≤ f := by
  cases it with
  | all g a b =>
    refine ⟨((h.allEdges.order g).length + 2) * h.base.idBase + 1, rfl, ?_⟩
    have := Nat.le_mul_of_pos_left h.base.idBase (show 0 < (h.allEdges.order g).length + 2 by omega)
    omega
  | _ => exact ⟨h.base.idBase + 1, rfl, by omega⟩

/-- One call of `Next`: it goes to the first edge with the property among those that are left. -/
theorem scanEdges_next (c : Core h.abs σ) {f : Nat} : ∀ {it : EdgeIt} {W : List Nat}, EdgesInv .all R q h σ it W → W.length ≤ f →
    (∃ x W1 it', scanEdges k h (f + 1) it = some (some x, it') ∧ EdgesInv .all R q h σ it' W1 ∧ x ∈ W ∧ x ∉ W1 ∧ σ.eprop x k ≠ none ∧
      W1.length < W.length ∧ W.filter (fun y => (σ.eprop y k).isSome) = x :: W1.filter (fun y => (σ.eprop y k).isSome)) ∨
    (∃ it', scanEdges k h (f + 1) it = some (none, it') ∧ W.filter (fun y => (σ.eprop y k).isSome) = []) := by
  induction f with
  | zero =>
    intro it W hi hl
    have : W = [] := List.length_eq_zero_iff.1 (by omega)
    subst this
    obtain ⟨it1, h1, h2⟩ := hi.adv
    exact .inr ⟨it1, by rw [scanEdges, h1]; rfl, rfl⟩
  | succ f ih =>
    intro it W hi hl
    obtain ⟨it1, h1, h2⟩ := hi.adv
    cases W with
    | nil => exact .inr ⟨it1, by rw [scanEdges, h1]; rfl, rfl⟩
    | cons x W =>
      have hx := hi.mem x (by simp)
      have hn := (List.nodup_cons.1 hi.nodup).1
      by_cases hp : σ.eprop x k = none
      · have hb : ¬ (h.base.edgeProperty x k).isSome = true := fun hh => (eprop_iff c hx).1 hh hp
        have he : scanEdges k h (f + 1 + 1) it = scanEdges k h (f + 1) it1 := by
          rw [scanEdges, h1]
          simp only [List.head?_cons, hb, Bool.false_eq_true, if_false]
        have hf : (x :: W).filter (fun y => (σ.eprop y k).isSome) = W.filter (fun y => (σ.eprop y k).isSome) := by
          simp [hp]
        rw [he, hf]
        rcases ih h2 (by simp at hl; exact hl) with ⟨y, W1, it', a1, a2, a3, a4, a5, a6, a7⟩ | ⟨it', a1, a2⟩
        · exact .inl ⟨y, W1, it', a1, a2, by simp at a3; simp [a3], a4, a5, by simp at a6 ⊢; omega, a7⟩
        · exact .inr ⟨it', a1, a2⟩
      · have hb : (h.base.edgeProperty x k).isSome = true := (eprop_iff c hx).2 hp
        refine .inl ⟨x, W, it1, ?_, h2, by simp, hn, hp, by simp, ?_⟩
        · rw [scanEdges, h1]
          simp only [List.head?_cons, hb, if_true]
        · have : (σ.eprop x k).isSome = true := by cases h0 : σ.eprop x k <;> simp_all
          simp [this]

/-- A loop that calls one operation in each round, which keeps the other edges and their properties. -/
theorem scanEdges_each {op : Nat → Op} {Q : HState → Spec → Prop}
    (hop : ∀ h σ it W x, Core h.abs σ → h.Wf → Q h σ → EdgesInv .all R q h σ it W → x ∈ σ.edges → σ.eprop x k ≠ none → x ∉ W →
      ∃ h1, h.step (op x) = some h1 ∧ σ.Valid (op x) ∧ Q h1 (σ.step (op x)) ∧ EdgesInv .all R q h1 (σ.step (op x)) it W ∧
        ∀ y ∈ W, (σ.step (op x)).eprop y k = σ.eprop y k) (n : Nat) :
    ∀ {h : HState} {σ : Spec} {it : EdgeIt} {W : List Nat}, W.length ≤ n → Core h.abs σ → h.Wf → Q h σ → EdgesInv .all R q h σ it W →
      σ.ValidFrom ((W.filter (fun y => (σ.eprop y k).isSome)).map op) ∧ ∃ h' it',
      live HState.step (fun h it => scanEdges k h (scanFuel h it) it) h it (eachEvents op (W.filter (fun y => (σ.eprop y k).isSome)))
        = some (eachLog op (W.filter (fun y => (σ.eprop y k).isSome)), h', it') ∧
      HState.runFrom h ((W.filter (fun y => (σ.eprop y k).isSome)).map op) = some h' := by
  induction n with
  | zero =>
    intro h σ it W hl c w hq hi
    have : W = [] := List.length_eq_zero_iff.1 (by omega)
    subst this
    obtain ⟨f, hfu, hfl⟩ := scanFuel_ge h it
    rcases scanEdges_next (k := k) c hi (Nat.le_trans (hi.length c) hfl) with ⟨y, W1, it', -, -, a3, -⟩ | ⟨it', a1, a2⟩
    · simp at a3
    · exact ⟨trivial, h, it', by simp only [List.filter_nil, eachEvents, eachLog, live, hfu, a1], rfl⟩
  | succ n ih =>
    intro h σ it W hl c w hq hi
    obtain ⟨f, hfu, hfl⟩ := scanFuel_ge h it
    rcases scanEdges_next (k := k) c hi (Nat.le_trans (hi.length c) hfl) with ⟨y, W1, it1, a1, a2, a3, a4, a5, a6, a7⟩ | ⟨it', a1, a2⟩
    · obtain ⟨h1, b1, b2, b3, b4, b5⟩ := hop h σ it1 W1 y c w hq a2 (hi.mem y a3) a5 a4
      obtain ⟨w1, c1⟩ : h1.Wf ∧ Core h1.abs (σ.step (op y)) := by
        rcases (step_abs w (op y)).cases with ⟨h2, -⟩ | ⟨y, h2, h4, w1⟩
        · rw [b1] at h2; cases h2
        · rw [b1] at h2; cases h2
          exact ⟨w1, c.step b2 h4⟩
      obtain ⟨d1, h', it', d2, d3⟩ := ih (W := W1) (by omega) c1 w1 b3 b4
      have hf : W1.filter (fun z => ((σ.step (op y)).eprop z k).isSome) = W1.filter (fun z => (σ.eprop z k).isSome) :=
        List.filter_congr (fun z hz => by rw [b5 z hz])
      rw [hf] at d1 d2 d3
      rw [a7]
      refine ⟨⟨b2, d1⟩, h', it', ?_, ?_⟩
      · simp only [eachEvents, eachLog, live, hfu, a1, b1, d2]
      · simp only [List.map_cons, HState.runFrom, b1, d3]
    · rw [a2]
      exact ⟨trivial, h, it', by simp only [eachEvents, eachLog, live, hfu, a1], rfl⟩

end LPG

import Verif.Proofs.LiveEdgesRun
/-! A loop over the edges of a node, in both directions. -/
namespace LPG
open HState

variable {h h' : HState} {σ : Spec} {n : Nat} {k : Want} {m : Sel} {W W1 W2 Y : List Nat} {its : List (Sel × EdgeIt)}

theorem Spec.NoSelfFrom.now : ∀ {ops : List Op} {σ : Spec}, σ.NoSelfFrom n ops → σ.NoSelf n
  | [], _, h => h
  | _ :: _, _, h => h.1

/-- One call. -/
theorem EdgesInv.gentle {it : EdgeIt} {op : Op} (c : Core h.abs σ) (w : h.Wf) (hm : m ≠ .all) (hlt : m.Lt σ.next)
    (hi : EdgesInv m [] (fun l => k.has m l = true) h σ it W) (hWY : ∀ x ∈ W, x ∉ Y) (hY : ∀ y ∈ Y, y < σ.next)
    (hv : σ.Valid op) (hs : h.step op = some h') (hg : σ.Gentle m k Y op) :
    ∃ W', (∀ x ∈ W, x ∈ W') ∧ (∀ x ∈ W', x ∉ Y) ∧ EdgesInv m [] (fun l => k.has m l = true) h' (σ.step op) it W' := by
  have hnW : ∀ e ∈ σ.edges, (k.has m (σ.label e) = true → σ.At m e → e ∈ Y) → e ∉ W := by
    intro e he hh heW
    have hs := hi.alive c (.inr rfl) heW
    exact hWY e heW (hh hs.2.2 hs.2.1)
  obtain ⟨W', b1, b2, b3⟩ := hi.step (R' := []) c w hlt (by simp) (by simp) (.inr rfl) hv hs
    (fun e he hat hd => ⟨by simp, hnW e he fun hh _ => hg.1 e he ⟨he, hat, hh⟩ hd⟩)
    (by
      rintro e l rfl hne hat
      refine .inr ⟨hm, by simp, hnW e hv ?_⟩
      intro hh _
      have := hg.2
      simp only [Spec.LabelsGently] at this
      rcases this with h3 | h3 | h3 | h3
      · exact absurd h3 hm
      · exact absurd h3 hne
      · exact absurd hat h3
      · exact h3.1.resolve_left (by rw [hh]; simp))
  refine ⟨W', b1, ?_, b3⟩
  intro x hx hxY
  rcases b2 x hx with h3 | rfl | ⟨l, rfl, h3, h4, h5, h6⟩
  · exact hWY x h3 hxY
  · exact Nat.lt_irrefl _ (hY _ hxY)
  · have := hg.2
    simp only [Spec.LabelsGently] at this
    rcases this with h7 | h7 | h7 | h7
    · exact h3 h7
    · exact h4 h7
    · exact h7 h5
    · exact h7.2.elim (fun h8 => by rw [h6] at h8; cases h8) (fun h8 => h8 hxY)

/-- The iterators that are left, and the edges that each will yield. -/
def BothInv (n : Nat) (k : Want) (h : HState) (σ : Spec) (its : List (Sel × EdgeIt)) (W1 W2 : List Nat) : Prop :=
  (∃ a b, its = [(.inc n, a), (.out n, b)] ∧ EdgesInv (.inc n) [] (fun l => k.has (.inc n) l = true) h σ a W1 ∧
    EdgesInv (.out n) [] (fun l => k.has (.out n) l = true) h σ b W2) ∨
  (∃ b, its = [(.out n, b)] ∧ W1 = [] ∧ EdgesInv (.out n) [] (fun l => k.has (.out n) l = true) h σ b W2) ∨
  (its = [] ∧ W1 = [] ∧ W2 = [])

theorem EdgesInv.adv {R : List Nat} {q : String → Prop} {it : EdgeIt} (hi : EdgesInv m R q h σ it W) :
    ∃ it', h.adv m it = some (W.head?, it') ∧ EdgesInv m R q h σ it' W.tail := by
  obtain ⟨xs, f, h1, h2⟩ := hi
  obtain ⟨it1, h3, h4⟩ := h1.adv
  exact ⟨it1, h3, xs, f, h4, h2⟩

theorem EdgesInv.nodup {R : List Nat} {q : String → Prop} {it : EdgeIt} (hi : EdgesInv m R q h σ it W) : W.Nodup := by
  obtain ⟨xs, f, h1, h2⟩ := hi
  exact h1.nodup

theorem BothInv.adv (hb : BothInv n k h σ its W1 W2) : ∃ o its', HState.advMulti h its = some (o, its') ∧
    ((∃ x W, o = some x ∧ W1 = x :: W ∧ BothInv n k h σ its' W W2) ∨
     (∃ x W, o = some x ∧ W1 = [] ∧ W2 = x :: W ∧ BothInv n k h σ its' [] W) ∨
     (o = none ∧ W1 = [] ∧ W2 = [] ∧ BothInv n k h σ its' [] [])) := by
  have one : ∀ {b}, EdgesInv (.out n) [] (fun l => k.has (.out n) l = true) h σ b W2 → ∃ o its',
      HState.advMulti h [(.out n, b)] = some (o, its') ∧
      ((∃ x W, o = some x ∧ W2 = x :: W ∧ BothInv n k h σ its' [] W) ∨ (o = none ∧ W2 = [] ∧ BothInv n k h σ its' [] [])) := by
    intro b h2
    obtain ⟨it, h3, h4⟩ := h2.adv
    cases W2 with
    | nil =>
      refine ⟨none, [], ?_, .inr ⟨rfl, rfl, .inr (.inr ⟨rfl, rfl, rfl⟩)⟩⟩
      simp only [advMulti, h3, List.head?_nil]
    | cons x W =>
      refine ⟨some x, [(.out n, it)], ?_, .inl ⟨x, W, rfl, rfl, .inr (.inl ⟨it, rfl, rfl, h4⟩)⟩⟩
      simp only [advMulti, h3, List.head?_cons]
  rcases hb with ⟨a, b, rfl, h1, h2⟩ | ⟨b, rfl, rfl, h2⟩ | ⟨rfl, rfl, rfl⟩
  · obtain ⟨it, h3, h4⟩ := h1.adv
    cases W1 with
    | nil =>
      obtain ⟨o, its', h5, h6⟩ := one h2
      refine ⟨o, its', ?_, .inr ?_⟩
      · rw [advMulti, h3]; exact h5
      · rcases h6 with ⟨x, W, h6, h7, h8⟩ | ⟨h6, h7, h8⟩
        · exact .inl ⟨x, W, h6, rfl, h7, h8⟩
        · exact .inr ⟨h6, rfl, h7, h8⟩
    | cons x W =>
      refine ⟨some x, [(.inc n, it), (.out n, b)], ?_, .inl ⟨x, W, rfl, rfl, .inl ⟨it, b, rfl, h4, h2⟩⟩⟩
      rw [advMulti, h3]; rfl
  · obtain ⟨o, its', h5, h6⟩ := one h2
    refine ⟨o, its', h5, .inr ?_⟩
    rcases h6 with ⟨x, W, h6, h7, h8⟩ | ⟨h6, h7, h8⟩
    · exact .inl ⟨x, W, h6, rfl, h7, h8⟩
    · exact .inr ⟨h6, rfl, h7, h8⟩
  · exact ⟨none, [], rfl, .inr (.inr ⟨rfl, rfl, rfl, .inr (.inr ⟨rfl, rfl, rfl⟩)⟩)⟩

theorem BothInv.alive (c : Core h.abs σ) (hb : BothInv n k h σ its W1 W2) :
    (∀ x ∈ W1, σ.Sought (.inc n) k x) ∧ (∀ x ∈ W2, σ.Sought (.out n) k x) ∧ W1.Nodup ∧ W2.Nodup := by
  rcases hb with ⟨a, b, rfl, h1, h2⟩ | ⟨b, rfl, rfl, h2⟩ | ⟨rfl, rfl, rfl⟩
  · exact ⟨fun x hx => h1.alive c (.inr rfl) hx, fun x hx => h2.alive c (.inr rfl) hx, h1.nodup, h2.nodup⟩
  · exact ⟨by simp, fun x hx => h2.alive c (.inr rfl) hx, List.nodup_nil, h2.nodup⟩
  · exact ⟨by simp, by simp, List.nodup_nil, List.nodup_nil⟩

theorem BothInv.gentle {op : Op} (c : Core h.abs σ) (w : h.Wf) (hlt : n < σ.next)
    (hb : BothInv n k h σ its W1 W2) (h1 : ∀ x ∈ W1, x ∉ Y) (h2 : ∀ x ∈ W2, x ∉ Y) (hY : ∀ y ∈ Y, y < σ.next)
    (hv : σ.Valid op) (hs : h.step op = some h') (hg1 : σ.Gentle (.inc n) k Y op) (hg2 : σ.Gentle (.out n) k Y op) :
    ∃ W1' W2', (∀ x ∈ W1, x ∈ W1') ∧ (∀ x ∈ W2, x ∈ W2') ∧ (∀ x ∈ W1', x ∉ Y) ∧ (∀ x ∈ W2', x ∉ Y) ∧
      BothInv n k h' (σ.step op) its W1' W2' := by
  rcases hb with ⟨a, b, rfl, h3, h4⟩ | ⟨b, rfl, rfl, h4⟩ | ⟨rfl, rfl, rfl⟩
  · obtain ⟨W1', a1, a2, a3⟩ := h3.gentle (m := .inc n) c w (by simp) hlt h1 hY hv hs hg1
    obtain ⟨W2', b1, b2, b3⟩ := h4.gentle (m := .out n) c w (by simp) hlt h2 hY hv hs hg2
    exact ⟨W1', W2', a1, b1, a2, b2, .inl ⟨a, b, rfl, a3, b3⟩⟩
  · obtain ⟨W2', b1, b2, b3⟩ := h4.gentle (m := .out n) c w (by simp) hlt h2 hY hv hs hg2
    exact ⟨[], W2', fun _ h => h, b1, by simp, b2, .inr (.inl ⟨b, rfl, rfl, b3⟩)⟩
  · exact ⟨[], [], fun _ h => h, fun _ h => h, by simp, by simp, .inr (.inr ⟨rfl, rfl, rfl⟩)⟩

theorem both_live : ∀ {evs : List Event} {h h' : HState} {σ : Spec} {its its' : List (Sel × EdgeIt)} {Y W1 W2 : List Nat}
    {K : Nat → Prop} {log : List Seen}, Core h.abs σ → h.Wf → n < σ.next → BothInv n k h σ its W1 W2 → Y.Nodup →
    (∀ x ∈ W1, x ∉ Y) → (∀ x ∈ W2, x ∉ Y) → (∀ x, K x → x ∈ Y ∨ x ∈ W1 ∨ x ∈ W2) → (∀ y ∈ Y, y < σ.next) →
    live HState.step HState.advMulti h its evs = some (log, h', its') → σ.ValidFrom (Seen.ops log) →
    σ.NoSelfFrom n (Seen.ops log) → σ.GentleFrom (.inc n) k Y log → σ.GentleFrom (.out n) k Y log →
    (Y ++ Seen.visited log).Nodup ∧
      (∀ p x r, log = p ++ .item x :: r → (σ.runFrom (Seen.ops p)).SoughtBoth n k x) ∧
      (∀ p r, log = p ++ .last :: r → ∀ e, K e → e ∈ Y ++ Seen.visited p) := by
  intro evs
  induction evs with
  | nil =>
    intro h h' σ its its' Y W1 W2 K log c w hm hi hY h1Y h2Y hK hlt hl hv hn hg1 hg2
    simp only [live, Option.some.injEq, Prod.mk.injEq] at hl
    obtain ⟨rfl, -⟩ := hl
    exact ⟨by simpa [Seen.visited] using hY, fun p x r h => by simp at h, fun p r h => by simp at h⟩
  | cons ev evs ih =>
    intro h h' σ its its' Y W1 W2 K log c w hm hi hY h1Y h2Y hK hlt hl hv hn hg1 hg2
    cases ev with
    | next =>
      obtain ⟨o, its1, ha, hcases⟩ := hi.adv
      simp only [live, ha] at hl
      split at hl
      · cases hl
      · rename_i log1 z h1
        simp only [Option.some.injEq, Prod.mk.injEq] at hl
        obtain ⟨rfl, rfl⟩ := hl
        obtain ⟨l1, l2, l3, l4⟩ := hi.alive c
        have item : ∀ {x W1' W2'}, o = some x → BothInv n k h σ its1 W1' W2' → σ.SoughtBoth n k x → x ∉ Y →
            (∀ y ∈ W1', y ∉ Y ∧ y ≠ x) → (∀ y ∈ W2', y ∉ Y ∧ y ≠ x) → (∀ y, K y → y ∈ Y ∨ y = x ∨ y ∈ W1' ∨ y ∈ W2') →
            (Y ++ Seen.visited (.item x :: log1)).Nodup ∧
            (∀ p x' r, .item x :: log1 = p ++ .item x' :: r → (σ.runFrom (Seen.ops p)).SoughtBoth n k x') ∧
            (∀ p r, .item x :: log1 = p ++ .last :: r → ∀ e, K e → e ∈ Y ++ Seen.visited p) := by
          intro x W1' W2' ho hb hal hxY q1 q2 q3
          subst ho
          have := ih (K := K) (Y := Y ++ [x]) c w hm hb
            (by rw [List.nodup_append]; exact ⟨hY, by simp, fun a haY b hb => by simp at hb; subst hb; rintro rfl; exact hxY haY⟩)
            (fun y hy => by simp [q1 y hy]) (fun y hy => by simp [q2 y hy])
            (fun y hy => by
              rcases q3 y hy with h | h | h
              · exact .inl (by simp [h])
              · exact .inl (by simp [h])
              · exact .inr h)
            (by
              intro y hy
              rw [List.mem_append, List.mem_singleton] at hy
              rcases hy with hy | rfl
              · exact hlt y hy
              · exact hal.elim (fun h => c.eLt _ h.1) (fun h => c.eLt _ h.1))
            h1 hv hn hg1 hg2
          obtain ⟨a1, a2, a3⟩ := this
          refine ⟨by simpa [Seen.visited] using a1, ?_, ?_⟩
          · intro p y r hp
            cases p with
            | nil =>
              simp only [List.nil_append, List.cons.injEq, Seen.item.injEq] at hp
              obtain ⟨rfl, -⟩ := hp
              exact hal
            | cons z p =>
              simp only [List.cons_append, List.cons.injEq] at hp
              obtain ⟨rfl, hp⟩ := hp
              exact a2 p y r hp
          · intro p r hp e he
            cases p with
            | nil => simp at hp
            | cons z p =>
              simp only [List.cons_append, List.cons.injEq] at hp
              obtain ⟨rfl, hp⟩ := hp
              simpa [Seen.visited] using a3 p r hp e he
        rcases hcases with ⟨x, W, rfl, rfl, hb⟩ | ⟨x, W, rfl, rfl, rfl, hb⟩ | ⟨rfl, rfl, rfl, hb⟩
        · have hx := l1 x (by simp)
          refine item rfl hb (.inl hx) (h1Y x (by simp)) ?_ ?_ ?_
          · intro y hy
            exact ⟨h1Y y (by simp [hy]), fun e => (List.nodup_cons.1 l3).1 (e ▸ hy)⟩
          · intro y hy
            refine ⟨h2Y y hy, ?_⟩
            rintro rfl
            have hy2 := l2 y hy
            exact hn.now y hx.1 ⟨hy2.2.1, hx.2.1⟩
          · intro y hy
            have := hK y hy
            simp only [List.mem_cons] at this
            grind
        · have hx := l2 x (by simp)
          refine item rfl hb (.inr hx) (h2Y x (by simp)) (by simp) ?_ ?_
          · intro y hy
            exact ⟨h2Y y (by simp [hy]), fun e => (List.nodup_cons.1 l4).1 (e ▸ hy)⟩
          · intro y hy
            have := hK y hy
            simp only [List.mem_cons] at this
            grind
        · obtain ⟨a1, a2, a3⟩ := ih (K := K) c w hm hb hY (by simp) (by simp) hK hlt h1 hv hn hg1 hg2
          refine ⟨a1, ?_, ?_⟩
          · intro p x r hp
            cases p with
            | nil => simp at hp
            | cons y p =>
              simp only [List.cons_append, List.cons.injEq] at hp
              obtain ⟨rfl, hp⟩ := hp
              exact a2 p x r hp
          · intro p r hp e he
            cases p with
            | nil => simpa [Seen.visited] using hK e he
            | cons y p =>
              simp only [List.cons_append, List.cons.injEq] at hp
              obtain ⟨rfl, hp⟩ := hp
              exact a3 p r hp e he
    | op o =>
      simp only [live] at hl
      split at hl
      · cases hl
      · rename_i h1 hs
        split at hl
        · cases hl
        · rename_i log1 z hl1
          simp only [Option.some.injEq, Prod.mk.injEq] at hl
          obtain ⟨rfl, rfl⟩ := hl
          obtain ⟨hv1, hv2⟩ := hv
          obtain ⟨w1, c1⟩ : h1.Wf ∧ Core h1.abs (σ.step o) := by
            rcases (step_abs w o).cases with ⟨h2, -⟩ | ⟨x, h2, h3, w1⟩
            · rw [hs] at h2; cases h2
            · rw [hs] at h2; cases h2
              exact ⟨w1, c.step hv1 h3⟩
          obtain ⟨W1', W2', b1, b2, b3, b4, b5⟩ := hi.gentle c w hm h1Y h2Y hlt hv1 hs hg1.1 hg2.1
          have hle := next_le_step σ o
          obtain ⟨a1, a2, a3⟩ := ih (K := K) c1 w1 (Nat.lt_of_lt_of_le hm hle) b5 hY b3 b4
            (fun x hx => (hK x hx).imp_right (fun h => h.imp (b1 x) (b2 x)))
            (fun y hy => Nat.lt_of_lt_of_le (hlt y hy) hle) hl1 hv2 hn.2 hg1.2 hg2.2
          refine ⟨a1, ?_, ?_⟩
          · intro p y r hp
            cases p with
            | nil => simp at hp
            | cons z p =>
              simp only [List.cons_append, List.cons.injEq] at hp
              obtain ⟨rfl, hp⟩ := hp
              exact a2 p y r hp
          · intro p r hp e he
            cases p with
            | nil => simp at hp
            | cons z p =>
              simp only [List.cons_append, List.cons.injEq] at hp
              obtain ⟨rfl, hp⟩ := hp
              exact a3 p r hp e he

end LPG

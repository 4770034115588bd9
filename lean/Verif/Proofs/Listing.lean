import Verif.Spec.Listing
import Verif.Proofs.LiveAny
/-!
# The chains of nodes behind `GetNodes`, for every history

The invariant behind `Verif.Spec.Listing`: the pointers of the nodes that are shown, of the nodes in lost chains
and of the tail.
-/
namespace LPG
open State

theorem seg_prev {P : Slot} {as bs : List Nat} {e : Nat} {pr nx : Option Nat} (h : Seg P pr (as ++ e :: bs) nx) :
    (P e).prev = as.getLast?.or pr := (seg_append.1 h).2.1

theorem seg_next {P : Slot} {as bs : List Nat} {e : Nat} {pr nx : Option Nat} (h : Seg P pr (as ++ e :: bs) nx) :
    (P e).next = bs.head?.or nx := (seg_append.1 h).2.2.1

/-- Taking a node out of a chain by relinking its neighbours. -/
theorem seg_relink {P Q : Slot} {e : Nat} {bs : List Nat} : ∀ {as : List Nat} {pr : Option Nat},
    Seg P pr (as ++ e :: bs) none → (as ++ e :: bs).Nodup → (∀ x ∈ as ++ bs, pr ≠ some x) →
    (∀ x ∈ as ++ bs, (Q x).prev = if (P e).next = some x then (P e).prev else (P x).prev) →
    (∀ x ∈ as ++ bs, (Q x).next = if (P e).prev = some x then (P e).next else (P x).next) →
    Seg Q pr (as ++ bs) none
  | [], pr, h, hn, hpr, hq1, hq2 => by
    obtain ⟨h1, h2, h3⟩ := h
    simp only [List.nil_append] at hn hpr hq1 hq2 ⊢
    cases bs with
    | nil => trivial
    | cons b bs =>
      simp only [List.head?_cons, Option.some_or] at h2
      obtain ⟨_, h4, h5⟩ := h3
      refine ⟨by rw [hq1 b (by simp), if_pos h2, h1], ?_, ?_⟩
      · rw [hq2 b (by simp), h1, if_neg (hpr b (by simp)), h4]
      · refine Seg.congr ?_ h5
        intro x hx
        have e1 := hq1 x (by simp [hx])
        have e2 := hq2 x (by simp [hx])
        have hxb : b ≠ x := by
          rintro rfl
          exact (List.nodup_cons.1 (List.nodup_cons.1 hn).2).1 hx
        rw [h2, if_neg (by simpa using hxb)] at e1
        rw [h1, if_neg (hpr x (by simp [hx]))] at e2
        cases hQ : Q x; cases hP : P x
        rw [hQ, hP] at e1 e2
        simp_all
  | a :: as, pr, h, hn, hpr, hq1, hq2 => by
    have hp := seg_prev h
    have hx := seg_next h
    obtain ⟨h1, h2, h3⟩ := h
    have hn' := List.nodup_cons.1 hn
    refine ⟨?_, ?_, seg_relink h3 hn'.2 ?_ (fun x hx => hq1 x (by simp at hx ⊢; grind))
      (fun x hx => hq2 x (by simp at hx ⊢; grind))⟩
    · rw [hq1 a (by simp), if_neg, h1]
      rw [hx, Option.or_none]
      intro he
      exact hn'.1 (by simp [List.mem_of_head? he])
    · rw [hq2 a (by simp)]
      cases as with
      | nil =>
        simp at hp
        rw [if_pos hp, hx]; rfl
      | cons c cs =>
        rw [if_neg, h2]
        · rfl
        · rw [hp]
          intro he
          have hm : a ∈ c :: cs := by
            rw [List.getLast?_cons_cons] at he
            cases hl : (c :: cs).getLast? with
            | none => simp at hl
            | some z =>
              rw [hl] at he
              simp at he
              subst he
              exact List.mem_of_getLast? hl
          exact hn'.1 (List.mem_append_left _ hm)
    · intro x hx he
      simp at he
      subst he
      exact hn'.1 (by simp at hx ⊢; grind)

/-- the node after each node -/
def LinksTo (next : Nat → Option Nat) : List Nat → Option Nat → Prop
  | [], _ => True
  | x :: xs, o => next x = xs.head?.or o ∧ LinksTo next xs o

theorem LinksTo.congr {f g : Nat → Option Nat} {o : Option Nat} : ∀ {xs : List Nat}, (∀ x ∈ xs, g x = f x) →
    LinksTo f xs o → LinksTo g xs o
  | [], _, _ => trivial
  | x :: xs, h, hl => ⟨by rw [h x (by simp), hl.1], LinksTo.congr (fun y hy => h y (by simp [hy])) hl.2⟩

theorem linksTo_snoc {f : Nat → Option Nat} {o : Option Nat} {n : Nat} : ∀ {xs : List Nat},
    LinksTo f (xs ++ [n]) o ↔ LinksTo f xs (some n) ∧ f n = o
  | [] => by simp [LinksTo]
  | x :: xs => by
    simp only [List.cons_append, LinksTo, linksTo_snoc, and_assoc]
    cases xs <;> simp

theorem linksTo_walk {P : NPtr} {ys : List Nat} {pr : Option Nat} (hs : Seg P.slot pr ys none) :
    ∀ {xs : List Nat} {fuel : Nat}, LinksTo P.next xs ys.head? → (xs ++ ys).length ≤ fuel →
    walk P.next fuel (xs ++ ys).head? = some (xs ++ ys)
  | [], fuel, _, hf => walk_seg (P := P.slot) hs (by simpa using hf)
  | x :: xs, fuel, h, hf => by
    cases fuel with
    | zero => simp at hf
    | succ f =>
      have ih := linksTo_walk hs (fuel := f) h.2 (by simp at hf ⊢; omega)
      have hx : P.next x = (xs ++ ys).head? := by
        rw [h.1]; cases xs <;> simp
      simp only [List.cons_append, List.head?_cons, walk, hx, ih]

/-- a removed node that is not shown -/
structure Aside (N : List Nat) (b : Nat) (R : List Nat) (t : Nat) : Prop where
  lt : t < b
  gone : t ∉ N
  hidden : t ∉ R

/-- The pointers of a graph with the live nodes `N` are as `v` says; the ids are below `b`. -/
structure NShows (P : NPtr) (l : NList) (N : List Nat) (b : Nat) (v : Listing) : Prop where
  head : l.head = v.nodes.head?
  links : LinksTo P.next v.removed v.shown.head?
  chain : ∃ pr, Seg P.slot pr v.shown none ∧
    if v.attached then pr = v.removed.getLast? else ∃ t, pr = some t ∧ Aside N b v.removed t
  lost : ∀ c ∈ v.lost, ∃ t, Seg P.slot (some t) c none ∧ Aside N b v.removed t
  live : (v.shown ++ v.lost.flatten).Perm N
  gone : ∀ n ∈ v.removed, n ∉ N ∧ n < b
  nodup : v.removed.Nodup
  fresh : v.begun = false → v = Listing.empty ∧ l.tail = none
  opened : v.begun = true → v.isOpen = true → v.nodes ≠ [] ∧ l.tail = v.nodes.getLast?
  closed : v.isOpen = false → ∃ c cs t, v.lost = c :: cs ∧ Seg P.slot (some t) c none ∧ Aside N b v.removed t ∧
    l.tail = (t :: c).getLast? ∧ (v.nodes = [] → c = [])

theorem NShows.init : NShows State.new.nptr State.new.allNodes [] State.new.idBase Listing.empty where
  head := rfl
  links := trivial
  chain := ⟨none, trivial, rfl⟩
  lost := by simp [Listing.empty]
  live := by simp [Listing.empty]
  gone := by simp [Listing.empty]
  nodup := by simp [Listing.empty]
  fresh := fun _ => ⟨rfl, rfl⟩
  opened := by simp [Listing.empty]
  closed := by simp [Listing.empty]

theorem NShows.nodes_nodup {P : NPtr} {l : NList} {N : List Nat} {b : Nat} {v : Listing} (h : NShows P l N b v)
    (hN : N.Nodup) : v.nodes.Nodup := by
  have h1 := h.live.nodup_iff.2 hN
  rw [List.nodup_append] at h1
  unfold Listing.nodes
  rw [List.nodup_append]
  refine ⟨h.nodup, h1.1, ?_⟩
  rintro a ha c hc rfl
  exact (h.gone a ha).1 (h.live.subset (by simp [hc]))

/-- `GetNodes` yields what the description shows. -/
theorem NShows.getNodes {s : State} {σ : Spec} {v : Listing} (c : Core s σ)
    (h : NShows s.nptr s.allNodes σ.nodes σ.next v) : s.getNodes = some v.nodes := by
  obtain ⟨pr, hs, _⟩ := h.chain
  unfold State.getNodes
  rw [h.head]
  refine linksTo_walk hs h.links ?_
  refine perm_sublist_length (h.nodes_nodup c.nNodup) ?_
  intro x hx
  rw [c.next]
  rcases List.mem_append.1 hx with hx | hx
  · exact (h.gone x hx).2
  · exact c.nLt x (h.live.subset (by simp [hx]))

/-- Putting a node behind the end of a chain. -/
theorem seg_extend {P Q : Slot} {b : Nat} {tail : Option Nat} : ∀ {c : List Nat} {pr : Option Nat},
    Seg P pr c none → c.Nodup → tail = c.getLast?.or pr → (∀ y ∈ c, (Q y).prev = (P y).prev) →
    (∀ y ∈ c, (Q y).next = if tail = some y then some b else (P y).next) → (Q b).prev = tail → (Q b).next = none →
    Seg Q pr (c ++ [b]) none
  | [], pr, _, _, ht, _, _, h1, h2 => by
    simp at ht
    exact ⟨by rw [h1, ht], by simp [h2], trivial⟩
  | y :: c, pr, h, hn, ht, hq1, hq2, h1, h2 => by
    have hn' := List.nodup_cons.1 hn
    obtain ⟨g1, g2, g3⟩ := h
    have ht' : tail = c.getLast?.or (some y) := by
      rw [ht, List.getLast?_cons]; cases c.getLast? <;> simp
    refine ⟨by rw [hq1 y (by simp), g1], ?_, seg_extend g3 hn'.2 ht' (fun x hx => hq1 x (by simp [hx]))
      (fun x hx => hq2 x (by simp [hx])) h1 h2⟩
    rw [hq2 y (by simp)]
    cases c with
    | nil => simp at ht'; simp [ht']
    | cons z c =>
      rw [if_neg, g2]
      · rfl
      · rw [ht']
        intro he
        cases hl : (z :: c).getLast? with
        | none => simp at hl
        | some w =>
          rw [hl] at he
          simp at he
          subst he
          exact hn'.1 (List.mem_of_getLast? hl)

theorem seg_same {P Q : NPtr} {c : List Nat} {pr nx : Option Nat} (h : Seg P.slot pr c nx)
    (h1 : ∀ y ∈ c, Q.prev y = P.prev y) (h2 : ∀ y ∈ c, Q.next y = P.next y) : Seg Q.slot pr c nx :=
  Seg.congr (fun y hy => by simp [NPtr.slot, h1 y hy, h2 y hy]) h

theorem linksTo_set {f g : Nat → Option Nat} {o o' tail : Option Nat} : ∀ {xs : List Nat}, LinksTo f xs o → xs.Nodup →
    tail = xs.getLast? → (∀ y ∈ xs, g y = if tail = some y then o' else f y) → LinksTo g xs o'
  | [], _, _, _, _ => trivial
  | [x], _, _, ht, hg => by
    simp at ht
    exact ⟨by rw [hg x (by simp), if_pos ht]; rfl, trivial⟩
  | x :: y :: xs, h, hn, ht, hg => by
    have hn' := List.nodup_cons.1 hn
    have ht' : tail = (y :: xs).getLast? := by rw [ht, List.getLast?_cons_cons]
    refine ⟨?_, linksTo_set h.2 hn'.2 ht' (fun z hz => hg z (List.mem_cons_of_mem _ hz))⟩
    rw [hg x (by simp), if_neg, h.1]
    · rfl
    · rw [ht']
      intro he
      exact hn'.1 (List.mem_of_getLast? he)

theorem NShows.create {P Q : NPtr} {l l' : NList} {N : List Nat} {b : Nat} {v : Listing} (h : NShows P l N b v)
    (hN : N.Nodup) (hlt : ∀ n ∈ N, n < b)
    (hnext : ∀ y, Q.next y = if l.tail = some y then some b else if y = b then none else P.next y)
    (hprev : ∀ y, Q.prev y = if y = b then l.tail else P.prev y)
    (hhead : l'.head = l.head.or (some b)) (htail : l'.tail = some b) :
    NShows Q l' (N ++ [b]) (b + 1) (v.create b) := by
  have hnd := h.live.nodup_iff.2 hN
  have hshow : ∀ y ∈ v.shown, y ∈ N := fun y hy => h.live.subset (by simp [hy])
  have hlost : ∀ c ∈ v.lost, ∀ y ∈ c, y ∈ N := fun c hc y hy => h.live.subset (by simp; exact .inr ⟨c, hc, hy⟩)
  have hb : b ∉ N := fun hh => Nat.lt_irrefl _ (hlt b hh)
  have aside : ∀ {t : Nat}, Aside N b v.removed t → Aside (N ++ [b]) (b + 1) v.removed t := by
    intro t ht
    refine ⟨Nat.lt_succ_of_lt ht.lt, ?_, ht.hidden⟩
    have := ht.lt
    simp [ht.gone]
    omega
  have hgone : ∀ n ∈ v.removed, n ∉ N ++ [b] ∧ n < b + 1 := by
    intro n hn
    obtain ⟨h1, h2⟩ := h.gone n hn
    refine ⟨?_, Nat.lt_succ_of_lt h2⟩
    simp [h1]; omega
  -- chains that do not end in the tail stay as they are
  have keep : ∀ {c : List Nat} {pr : Option Nat}, Seg P.slot pr c none → (∀ y ∈ c, y < b) → (∀ y ∈ c, l.tail ≠ some y) →
      Seg Q.slot pr c none := by
    intro c pr hs h1 h2
    refine seg_same hs (fun y hy => ?_) (fun y hy => ?_)
    · rw [hprev, if_neg (Nat.ne_of_lt (h1 y hy))]
    · rw [hnext, if_neg (h2 y hy), if_neg (Nat.ne_of_lt (h1 y hy))]
  have htb : l.tail ≠ some b → Q.next b = none := by
    intro hh; rw [hnext, if_neg hh, if_pos rfl]
  have lostKeep : ∀ c ∈ v.lost, (∀ y ∈ c, l.tail ≠ some y) →
      ∃ t, Seg Q.slot (some t) c none ∧ Aside (N ++ [b]) (b + 1) v.removed t := by
    intro c hc ht
    obtain ⟨t, h1, h2⟩ := h.lost c hc
    exact ⟨t, keep h1 (fun y hy => hlt y (hlost c hc y hy)) ht, aside h2⟩
  unfold Listing.create
  split
  · rename_i hnil
    obtain ⟨hr, hs⟩ := List.append_eq_nil_iff.1 hnil
    have hh : l.head = none := by rw [h.head, hnil]; rfl
    cases hbg : v.begun with
    | false =>
      obtain ⟨hv, ht⟩ := h.fresh hbg
      subst hv
      refine ⟨by rw [hhead, hh]; rfl, trivial, ⟨none, ⟨?_, ?_, trivial⟩, rfl⟩, by simp [Listing.empty],
        ?_, by simp [Listing.empty], by simp [Listing.empty], by simp, ?_, by simp⟩
      · simp [NPtr.slot, hprev, ht]
      · simp [NPtr.slot, htb (by rw [ht]; simp)]
      · have := h.live
        simp [Listing.empty] at this ⊢
        simp [this]
      · intro _ _
        exact ⟨by simp [Listing.nodes], by rw [htail]; simp [Listing.nodes]⟩
    | true =>
      have ho : v.isOpen = false := by
        cases ho : v.isOpen with
        | false => rfl
        | true => exact absurd hnil (h.opened hbg ho).1
      obtain ⟨c, cs, t, hc, _, hta, ht, hc0⟩ := h.closed ho
      have hc0 := hc0 hnil
      subst hc0
      simp at ht
      have htN : t ≠ b := Nat.ne_of_lt hta.lt
      refine ⟨by rw [hhead, hh]; simp [Listing.nodes, hr], by rw [hr]; trivial,
        ⟨some t, ⟨?_, ?_, trivial⟩, by simp; exact aside hta⟩, ?_, ?_, by simp [hr], by simp [hr], by simp, ?_, by simp⟩
      · simp [NPtr.slot, hprev, ht]
      · simp [NPtr.slot, htb (by rw [ht]; simpa using htN)]
      · intro c' hc'
        refine lostKeep c' hc' (fun y hy => ?_)
        rw [ht]
        intro he
        simp at he
        subst he
        exact hta.gone (hlost c' hc' _ hy)
      · have := h.live
        rw [hs] at this
        simp only [List.nil_append] at this
        exact (List.perm_append_comm (l₁ := [b])).trans (this.append_right [b])
      · intro _ _
        exact ⟨by simp [Listing.nodes], by rw [htail]; simp [Listing.nodes, hr]⟩
  · rename_i hne
    have hbg : v.begun = true := by
      cases hbg : v.begun with
      | true => rfl
      | false => rw [(h.fresh hbg).1] at hne; exact absurd rfl hne
    have hhd : l.head.or (some b) = v.nodes.head? := by
      rw [h.head]
      cases hq : v.nodes with
      | nil => exact absurd hq hne
      | cons a as => rfl
    split
    · rename_i ho
      obtain ⟨_, ht⟩ := h.opened hbg ho
      have htm : ∀ y, l.tail = some y → y ∈ v.nodes := fun y hy => List.mem_of_getLast? (ht ▸ hy)
      have htb' : l.tail ≠ some b := by
        intro hh
        rcases List.mem_append.1 (htm b hh) with hm | hm
        · exact Nat.lt_irrefl _ (h.gone b hm).2
        · exact hb (hshow b hm)
      have htl : ∀ c ∈ v.lost, ∀ y ∈ c, l.tail ≠ some y := by
        intro c hc y hy hh
        rcases List.mem_append.1 (htm y hh) with hm | hm
        · exact (h.gone y hm).1 (hlost c hc y hy)
        · rw [List.nodup_append] at hnd
          exact hnd.2.2 y hm y (by simp; exact ⟨c, hc, hy⟩) rfl
      refine ⟨?_, ?_, ?_, fun c hc => lostKeep c hc (htl c hc), ?_, hgone, h.nodup, by simp [hbg], ?_, by simp [ho]⟩
      · rw [hhead, hhd]
        simp only [Listing.nodes, ← List.append_assoc]
        rw [List.head?_append (l := v.removed ++ v.shown)]
        have : (v.removed ++ v.shown).head? ≠ none := by simpa [Listing.nodes] using hne
        cases hq : (v.removed ++ v.shown).head? with
        | none => exact absurd hq this
        | some z => rfl
      · by_cases hs : v.shown = []
        · have ht' : l.tail = v.removed.getLast? := by rw [ht, Listing.nodes, hs, List.append_nil]
          have := linksTo_set (g := Q.next) (o' := some b) h.links h.nodup ht' (fun y hy => by
            rw [hnext, if_neg (c := y = b) (Nat.ne_of_lt (h.gone y hy).2)])
          simpa [hs] using this
        · have ht' : (v.shown ++ [b]).head? = v.shown.head? := by
            cases hq : v.shown with
            | nil => exact absurd hq hs
            | cons z zs => rfl
          simp only [ht']
          refine LinksTo.congr (fun y hy => ?_) h.links
          rw [hnext, if_neg, if_neg (Nat.ne_of_lt (h.gone y hy).2)]
          intro hh
          have hl : v.shown.getLast? = some y := by
            rw [ht, Listing.nodes, List.getLast?_append] at hh
            cases hq : v.shown.getLast? with
            | none => exact absurd (List.getLast?_eq_none_iff.1 hq) hs
            | some z => rw [hq] at hh; exact hh
          exact (h.gone y hy).1 (hshow y (List.mem_of_getLast? hl))
      · obtain ⟨pr, hsg, hpr⟩ := h.chain
        have ext : ∀ {pr : Option Nat}, Seg P.slot pr v.shown none → l.tail = v.shown.getLast?.or pr →
            Seg Q.slot pr (v.shown ++ [b]) none := by
          intro pr hsg hl
          refine seg_extend hsg (List.nodup_append.1 hnd).1 hl (fun y hy => ?_) (fun y hy => ?_) ?_ ?_
          · simp [NPtr.slot, hprev, Nat.ne_of_lt (hlt y (hshow y hy))]
          · simp [NPtr.slot, hnext, Nat.ne_of_lt (hlt y (hshow y hy))]
          · simp [NPtr.slot, hprev]
          · simp [NPtr.slot, htb htb']
        by_cases hs : v.shown = []
        · refine ⟨v.removed.getLast?, ext (by rw [hs]; trivial) ?_, by simp [hs]⟩
          rw [ht, Listing.nodes, List.getLast?_append]
        · refine ⟨pr, ext hsg ?_, ?_⟩
          · rw [ht, Listing.nodes, List.getLast?_append]
            cases hq : v.shown.getLast? with
            | none => exact absurd (List.getLast?_eq_none_iff.1 hq) hs
            | some z => rfl
          · have he : v.shown.isEmpty = false := by
              cases hq : v.shown with
              | nil => exact absurd hq hs
              | cons z zs => rfl
            simp only [he, Bool.or_false]
            split at hpr
            · rename_i ha; rw [if_pos ha]; exact hpr
            · rename_i ha
              obtain ⟨t, h1, h2⟩ := hpr
              rw [if_neg ha]
              exact ⟨t, h1, aside h2⟩
      · have := h.live.append_right [b]
        refine List.Perm.trans ?_ this
        simp only [List.append_assoc]
        exact List.Perm.append_left _ List.perm_append_comm
      · intro _ _
        exact ⟨by simp [Listing.nodes], by rw [htail]; simp [Listing.nodes, ← List.append_assoc]⟩
    · rename_i ho
      have ho : v.isOpen = false := by simpa using ho
      obtain ⟨c, cs, t, hc, hsc, hta, ht, hc0⟩ := h.closed ho
      simp only [hc]
      have hcN : ∀ y ∈ c, y ∈ N := hlost c (by simp [hc])
      have htm : ∀ y, l.tail = some y → y = t ∨ y ∈ c := fun y hy => by
        have := List.mem_of_getLast? (ht ▸ hy)
        simpa using this
      have htb' : l.tail ≠ some b := by
        intro hh
        rcases htm b hh with rfl | hm
        · exact Nat.lt_irrefl _ hta.lt
        · exact hb (hcN b hm)
      have hndf := hnd
      rw [hc, List.nodup_append, List.flatten_cons, List.nodup_append] at hndf
      obtain ⟨_, ⟨hndc, _, hcd⟩, hsd⟩ := hndf
      have htl : ∀ d ∈ cs, ∀ y ∈ d, l.tail ≠ some y := by
        intro d hd y hy hh
        rcases htm y hh with rfl | hm
        · exact hta.gone (hlost d (by simp [hc, hd]) _ hy)
        · exact hcd y hm y (by simp; exact ⟨d, hd, hy⟩) rfl
      have hts : ∀ y ∈ v.shown, l.tail ≠ some y := by
        intro y hy hh
        rcases htm y hh with rfl | hm
        · exact hta.gone (hshow _ hy)
        · exact hsd y hy y (by simp [hm]) rfl
      have hext : Seg Q.slot (some t) (c ++ [b]) none := by
        refine seg_extend hsc hndc ?_ (fun y hy => ?_) (fun y hy => ?_) ?_ ?_ (tail := l.tail)
        · rw [ht, List.getLast?_cons]; cases c.getLast? <;> simp
        · simp [NPtr.slot, hprev, Nat.ne_of_lt (hlt y (hcN y hy))]
        · simp [NPtr.slot, hnext, Nat.ne_of_lt (hlt y (hcN y hy))]
        · simp [NPtr.slot, hprev]
        · simp [NPtr.slot, htb htb']
      refine ⟨by rw [hhead, hhd]; rfl, ?_, ?_, ?_, ?_, hgone, h.nodup, by simp [hbg], by simp [ho], ?_⟩
      · refine LinksTo.congr (fun y hy => ?_) h.links
        rw [hnext, if_neg, if_neg (Nat.ne_of_lt (h.gone y hy).2)]
        intro hh
        rcases htm y hh with rfl | hm
        · exact hta.hidden hy
        · exact (h.gone y hy).1 (hcN y hm)
      · obtain ⟨pr, hsg, hpr⟩ := h.chain
        refine ⟨pr, keep hsg (fun y hy => hlt y (hshow y hy)) hts, ?_⟩
        simp only
        split at hpr
        · rename_i ha; simp only [ha]; exact hpr
        · rename_i ha
          obtain ⟨t, h1, h2⟩ := hpr
          rw [if_neg ha]
          exact ⟨t, h1, aside h2⟩
      · intro d hd
        rcases List.mem_cons.1 hd with rfl | hd
        · exact ⟨t, hext, aside hta⟩
        · exact lostKeep d (by simp [hc, hd]) (htl d hd)
      · have := h.live.append_right [b]
        refine List.Perm.trans ?_ this
        rw [hc]
        simp only [List.flatten_cons, List.append_assoc]
        exact List.Perm.append_left _ (List.Perm.append_left _ List.perm_append_comm)
      · intro _
        exact ⟨c ++ [b], cs, t, rfl, hext, aside hta, by rw [htail, ← List.cons_append, List.getLast?_append]; rfl, fun hh => absurd hh hne⟩

theorem flatten_unique {L : List (List Nat)} (h : L.flatten.Nodup) : ∀ {c d : List Nat} {y : Nat}, c ∈ L → d ∈ L → y ∈ c →
    y ∈ d → c = d := by
  induction L with
  | nil => simp
  | cons a L ih =>
    rw [List.flatten_cons, List.nodup_append] at h
    intro c d y hc hd hy hy'
    rcases List.mem_cons.1 hc with rfl | hc' <;> rcases List.mem_cons.1 hd with rfl | hd'
    · rfl
    · exact absurd rfl (h.2.2 y hy y (by simp; exact ⟨d, hd', hy'⟩))
    · exact absurd rfl (h.2.2 y hy' y (by simp; exact ⟨c, hc', hy⟩))
    · exact ih h.2.1 hc' hd' hy hy'

theorem filter_self {c : List Nat} {n : Nat} (h : n ∉ c) : c.filter (· ≠ n) = c := by
  rw [List.filter_eq_self]
  intro x hx
  have : x ≠ n := by rintro rfl; exact h hx
  simpa using this

theorem filter_mid {as bs : List Nat} {n : Nat} (h : (as ++ n :: bs).Nodup) : (as ++ n :: bs).filter (· ≠ n) = as ++ bs := by
  rw [List.nodup_append] at h
  have h1 : n ∉ as := fun hh => h.2.2 n hh n (by simp) rfl
  have h2 : n ∉ bs := (List.nodup_cons.1 h.2.1).1
  rw [List.filter_append, List.filter_cons_of_neg (by simp), filter_self h1, filter_self h2]

theorem getLast_filter {c : List Nat} {n : Nat} (h : c.getLast? ≠ some n) : (c.filter (· ≠ n)).getLast? = c.getLast? := by
  rcases List.eq_nil_or_concat c with rfl | ⟨ys, z, rfl⟩
  · rfl
  · have hz : z ≠ n := by simpa using h
    simp [List.filter_append, hz]

theorem getLast_mid {as bs : List Nat} {n : Nat} (h : (as ++ n :: bs).Nodup) : (as ++ n :: bs).getLast? = some n ↔ bs = [] := by
  rw [List.getLast?_append, List.getLast?_cons]
  cases hb : bs.getLast? with
  | none => simp [List.getLast?_eq_none_iff.1 hb]
  | some z =>
    have hz : z ∈ bs := List.mem_of_getLast? hb
    have : z ≠ n := by
      rintro rfl
      exact (List.nodup_cons.1 (List.nodup_append.1 h).2.1).1 hz
    have hb' : bs ≠ [] := by rintro rfl; simp at hz
    simp [this, hb']

/-- What relinking the neighbours of `n` does to a chain. -/
theorem seg_without {P Q : NPtr} {n : Nat} {c : List Nat} {pr : Option Nat} (hs : Seg P.slot pr c none) (hn : c.Nodup)
    (hpr : ∀ y ∈ c, pr ≠ some y)
    (hnext : ∀ y, Q.next y = if P.prev n = some y then P.next n else P.next y)
    (hprev : ∀ y, Q.prev y = if P.next n = some y then P.prev n else P.prev y)
    (hout : n ∉ c → ∀ y ∈ c, P.prev n ≠ some y ∧ P.next n ≠ some y) : Seg Q.slot pr (c.filter (· ≠ n)) none := by
  by_cases hc : n ∈ c
  · obtain ⟨as, bs, rfl⟩ := List.append_of_mem hc
    rw [filter_mid hn]
    refine seg_relink hs hn (fun y hy => hpr y (by simp at hy ⊢; grind)) ?_ ?_
    · intro y _; show Q.prev y = _; rw [hprev]; congr
    · intro y _; show Q.next y = _; rw [hnext]; congr
  · rw [filter_self hc]
    refine seg_same hs (fun y hy => ?_) (fun y hy => ?_)
    · rw [hprev, if_neg (hout hc y hy).2]
    · rw [hnext, if_neg (hout hc y hy).1]

theorem NShows.remove {P Q : NPtr} {l l' : NList} {N : List Nat} {b : Nat} {v : Listing} {n : Nat} (h : NShows P l N b v)
    (hN : N.Nodup) (hlt : ∀ n ∈ N, n < b) (hn : n ∈ N)
    (hnext : ∀ y, Q.next y = if P.prev n = some y then P.next n else P.next y)
    (hprev : ∀ y, Q.prev y = if P.next n = some y then P.prev n else P.prev y)
    (hhead : l'.head = if P.prev n = none then P.next n else l.head)
    (htail : l'.tail = if P.next n = none then some n else l.tail) :
    NShows Q l' (N.filter (· ≠ n)) b (v.remove n) := by
  have hnd := h.live.nodup_iff.2 hN
  have hshow : ∀ y ∈ v.shown, y ∈ N := fun y hy => h.live.subset (by simp [hy])
  have hlost : ∀ c ∈ v.lost, ∀ y ∈ c, y ∈ N := fun c hc y hy => h.live.subset (by simp; exact .inr ⟨c, hc, hy⟩)
  obtain ⟨hnds, hndl, hdis⟩ := List.nodup_append.1 hnd
  have hnr : n ∉ v.removed := fun hh => (h.gone n hh).1 hn
  have aside : ∀ {t : Nat}, Aside N b v.removed t → Aside (N.filter (· ≠ n)) b v.removed t :=
    fun ht => ⟨ht.lt, fun hh => ht.gone (List.mem_filter.1 hh).1, ht.hidden⟩
  have aside' : ∀ {t : Nat}, Aside N b v.removed t → Aside (N.filter (· ≠ n)) b (v.removed ++ [n]) t := by
    intro t ht
    refine ⟨ht.lt, fun hh => ht.gone (List.mem_filter.1 hh).1, ?_⟩
    have : t ≠ n := by rintro rfl; exact ht.gone hn
    simp [ht.hidden, this]
  have asideN : Aside (N.filter (· ≠ n)) b v.removed n := ⟨hlt n hn, by simp, hnr⟩
  have hgone : ∀ m ∈ v.removed, m ∉ N.filter (· ≠ n) ∧ m < b :=
    fun m hm => ⟨fun hh => (h.gone m hm).1 (List.mem_filter.1 hh).1, (h.gone m hm).2⟩
  have hgone' : ∀ m ∈ v.removed ++ [n], m ∉ N.filter (· ≠ n) ∧ m < b := by
    intro m hm
    rcases List.mem_append.1 hm with hm | hm
    · exact hgone m hm
    · simp at hm; subst hm; exact ⟨by simp, hlt _ hn⟩
  have hnd' : (v.removed ++ [n]).Nodup := by
    rw [List.nodup_append]
    refine ⟨h.nodup, by simp, ?_⟩
    rintro a ha c hc rfl
    simp at hc; subst hc; exact hnr ha
  have hlive := h.live.filter (· ≠ n)
  rw [List.filter_append, List.filter_flatten] at hlive
  have hbg : v.begun = true := by
    cases hbg : v.begun with
    | true => rfl
    | false =>
      rw [(h.fresh hbg).1] at h
      have := h.live.symm.subset hn
      simp [Listing.empty] at this
  obtain ⟨pr, hsg, hpr⟩ := h.chain
  have hprN : ∀ y ∈ N, pr ≠ some y := by
    intro y hy he
    split at hpr
    · rw [hpr] at he
      exact (h.gone y (List.mem_of_getLast? he)).1 hy
    · obtain ⟨t, h1, h2⟩ := hpr
      rw [h1] at he
      simp at he
      subst he
      exact h2.gone hy
  by_cases hns : n ∈ v.shown
  · obtain ⟨as, bs, hsp⟩ := List.append_of_mem hns
    have hnl : ∀ c ∈ v.lost, n ∉ c := fun c hc hh => hdis n hns n (by simp; exact ⟨c, hc, hh⟩) rfl
    have hrest : v.lost.map (·.filter (· ≠ n)) = v.lost := by
      conv => rhs; rw [← List.map_id v.lost]
      exact List.map_congr_left (fun c hc => filter_self (hnl c hc))
    rw [hrest] at hlive
    have hsg0 := hsg
    rw [hsp] at hsg hnds
    have hp : P.prev n = as.getLast?.or pr := seg_prev hsg
    have hx : P.next n = bs.head? := by have := seg_next hsg; simpa [NPtr.slot] using this
    have hfil : v.shown.filter (· ≠ n) = as ++ bs := by rw [hsp, filter_mid hnds]
    rw [hfil] at hlive
    have hnabs : ∀ y ∈ as ++ bs, y ∈ v.shown := fun y hy => by rw [hsp]; simp at hy ⊢; grind
    have hpin : ∀ y, P.prev n = some y → y ∈ as ∨ (as = [] ∧ pr = some y) := by
      intro y hy
      rw [hp] at hy
      cases hq : as.getLast? with
      | none => rw [hq] at hy; exact .inr ⟨List.getLast?_eq_none_iff.1 hq, hy⟩
      | some z => rw [hq] at hy; simp at hy; subst hy; exact .inl (List.mem_of_getLast? hq)
    have hxin : ∀ y, P.next n = some y → y ∈ bs := fun y hy => List.mem_of_head? (hx ▸ hy)
    have hrel : Seg Q.slot pr (as ++ bs) none := by
      have := seg_without (Q := Q) (n := n) hsg hnds (fun y hy => hprN y (hshow y (by rw [hsp]; exact hy))) hnext hprev
        (fun hc => absurd (by simp) hc)
      rwa [filter_mid hnds] at this
    have lostKeep : ∀ {c : List Nat} {t : Nat}, c ∈ v.lost → Seg P.slot (some t) c none → Seg Q.slot (some t) c none := by
      intro c t hc hs
      have hno : ∀ y ∈ c, y ∉ v.shown := fun y hy hh => hdis y hh y (by simp; exact ⟨c, hc, hy⟩) rfl
      refine seg_same hs (fun y hy => ?_) (fun y hy => ?_)
      · rw [hprev, if_neg (fun hh => hno y hy (hnabs y (by simp [hxin y hh])))]
      · rw [hnext, if_neg]
        intro hh
        rcases hpin y hh with hm | ⟨_, hm⟩
        · exact hno y hy (hnabs y (by simp [hm]))
        · exact hprN y (hlost c hc y hy) hm
    have hbeg : v.shown.head? = some n ↔ as = [] := by
      rw [hsp]
      cases as with
      | nil => simp
      | cons a as =>
        have : a ≠ n := by rintro rfl; simp at hnds
        simp [this]
    have hkeep : v.keeps n = true ↔ as = [] ∧ v.attached = false := by
      simp [Listing.keeps, hbeg]
    have hlast : v.shown.getLast? = some n ↔ bs = [] := by rw [hsp]; exact getLast_mid hnds
    have chain' : ∀ {R : List Nat}, (v.attached = true → R = v.removed) →
        (∀ {t : Nat}, Aside N b v.removed t → Aside (N.filter (· ≠ n)) b R t) →
        if v.attached = true then pr = R.getLast? else ∃ t, pr = some t ∧ Aside (N.filter (· ≠ n)) b R t := by
      intro R hR hA
      split at hpr
      · rename_i ha; rw [if_pos ha, hR ha]; exact hpr
      · rename_i ha
        obtain ⟨t, h1, h2⟩ := hpr
        rw [if_neg ha]
        exact ⟨t, h1, hA h2⟩
    -- the part of the list that is shown although it was removed
    have hlk : v.keeps n = false → LinksTo Q.next v.removed (as ++ bs).head? := by
      intro hk
      by_cases has : as = []
      · have hat : v.attached = true := by
          cases hat : v.attached with
          | true => rfl
          | false => rw [hkeep.2 ⟨has, hat⟩] at hk; cases hk
        rw [if_pos hat] at hpr
        have hp' : P.prev n = v.removed.getLast? := by rw [hp, has, hpr]; rfl
        refine linksTo_set h.links h.nodup hp' (fun y _ => ?_)
        rw [hnext, hx, has, List.nil_append]
      · have : (as ++ bs).head? = v.shown.head? := by
          rw [hsp]; cases as with
          | nil => exact absurd rfl has
          | cons a as => rfl
        rw [this]
        refine LinksTo.congr (fun y hy => ?_) h.links
        rw [hnext, if_neg]
        intro hh
        rcases hpin y hh with hm | ⟨hm, _⟩
        · exact (h.gone y hy).1 (hshow y (hnabs y (by simp [hm])))
        · exact has hm
    have hlk' : v.keeps n = true → LinksTo Q.next (v.removed ++ [n]) bs.head? := by
      intro hk
      obtain ⟨has, hat⟩ := hkeep.1 hk
      rw [linksTo_snoc]
      rw [if_neg (by simp [hat])] at hpr
      obtain ⟨t, h1, h2⟩ := hpr
      have hp' : P.prev n = some t := by rw [hp, has, h1]; rfl
      have hsn : v.shown.head? = some n := hbeg.2 has
      refine ⟨?_, ?_⟩
      · rw [← hsn]
        refine LinksTo.congr (fun y hy => ?_) h.links
        rw [hnext, if_neg]
        rw [hp']
        intro hh
        simp at hh
        subst hh
        exact h2.hidden hy
      · rw [hnext, if_neg, hx]
        rw [hp']
        intro hh
        simp at hh
        subst hh
        exact h2.gone hn
    have hhd : v.keeps n = false → l'.head = (v.removed ++ (as ++ bs)).head? := by
      intro hk
      rw [hhead]
      by_cases h0 : P.prev n = none
      · rw [if_pos h0, hx]
        have has : as = [] := by
          rw [hp] at h0
          cases hq : as.getLast? with
          | none => exact List.getLast?_eq_none_iff.1 hq
          | some z => rw [hq] at h0; cases h0
        have hat : v.attached = true := by
          cases hat : v.attached with
          | true => rfl
          | false => rw [hkeep.2 ⟨has, hat⟩] at hk; cases hk
        rw [if_pos hat] at hpr
        rw [hp, has, hpr] at h0
        have hr : v.removed = [] := List.getLast?_eq_none_iff.1 (by simpa using h0)
        rw [hr, has]; rfl
      · rw [if_neg h0, h.head, Listing.nodes, hsp]
        cases hr : v.removed with
        | cons z zs => rfl
        | nil =>
          cases as with
          | cons a as => rfl
          | nil =>
            exfalso
            split at hpr
            · rw [hr] at hpr
              exact h0 (by rw [hp, hpr]; rfl)
            · rename_i hat
              have := hkeep.2 ⟨rfl, by simpa using hat⟩
              rw [this] at hk; cases hk
    have hhd' : v.keeps n = true → l'.head = ((v.removed ++ [n]) ++ bs).head? := by
      intro hk
      obtain ⟨has, hat⟩ := hkeep.1 hk
      rw [if_neg (by simp [hat])] at hpr
      obtain ⟨t, h1, h2⟩ := hpr
      have hp' : P.prev n = some t := by rw [hp, has, h1]; rfl
      rw [hhead, if_neg (by rw [hp']; simp), h.head, Listing.nodes, hsp, has]
      simp
    have lost' : ∀ {R : List Nat}, (∀ {t : Nat}, Aside N b v.removed t → Aside (N.filter (· ≠ n)) b R t) →
        ∀ c ∈ v.lost, ∃ t, Seg Q.slot (some t) c none ∧ Aside (N.filter (· ≠ n)) b R t := by
      intro R hA c hc
      obtain ⟨t, h1, h2⟩ := h.lost c hc
      exact ⟨t, lostKeep hc h1, hA h2⟩
    unfold Listing.remove
    dsimp only
    by_cases hb : bs = []
    · subst hb
      have htn : l'.tail = some n := by rw [htail, if_pos (by rw [hx]; rfl)]
      rw [if_pos (hlast.2 rfl)]
      cases hk : v.keeps n with
      | true =>
        obtain ⟨has, hat⟩ := hkeep.1 hk
        subst has
        simp only [if_true]
        refine ⟨?_, ?_, ⟨pr, trivial, chain' (by simp [hat]) aside'⟩, lost' aside', ?_, hgone', hnd', by simp [hbg], ?_, by simp⟩
        · rw [hhd' hk]; simp [Listing.nodes]
        · exact hlk' hk
        · simpa using hlive
        · intro _ _
          exact ⟨by simp [Listing.nodes], by rw [htn]; simp [Listing.nodes]⟩
      | false =>
        simp only [Bool.false_eq_true, if_false]
        rw [hfil]
        refine ⟨hhd hk, hlk hk, ⟨pr, hrel, chain' (fun _ => rfl) aside⟩, ?_, ?_, hgone, h.nodup, by simp [hbg], by simp, ?_⟩
        · intro c hc
          rcases List.mem_cons.1 hc with rfl | hc
          · exact ⟨n, trivial, asideN⟩
          · exact lost' aside c hc
        · simpa using hlive
        · intro _
          exact ⟨[], v.lost, n, rfl, trivial, asideN, by rw [htn]; rfl, fun _ => rfl⟩
    · rw [if_neg (fun hh => hb (hlast.1 hh)), if_pos hns]
      have htn : l'.tail = l.tail := by
        rw [htail, if_neg]
        rw [hx]
        simpa using hb
      have hlastb : ∀ zs : List Nat, (zs ++ bs).getLast? = bs.getLast? := by
        intro zs
        rw [List.getLast?_append]
        cases hq : bs.getLast? with
        | none => exact absurd (List.getLast?_eq_none_iff.1 hq) hb
        | some z => rfl
      have hold : v.nodes.getLast? = bs.getLast? := by
        have : v.nodes = (v.removed ++ as ++ [n]) ++ bs := by simp [Listing.nodes, hsp]
        rw [this, hlastb]
      rw [hfil]
      cases hk : v.keeps n with
      | true =>
        obtain ⟨has, hat⟩ := hkeep.1 hk
        subst has
        simp only [if_true, List.nil_append] at hrel ⊢
        refine ⟨hhd' hk, hlk' hk, ⟨pr, hrel, chain' (by simp [hat]) aside'⟩, lost' aside', ?_, hgone', hnd', by simp [hbg], ?_, ?_⟩
        · simpa using hlive
        · intro _ ho
          refine ⟨by simp [Listing.nodes], ?_⟩
          rw [htn, (h.opened hbg ho).2, hold]
          exact (hlastb _).symm
        · intro ho
          obtain ⟨c, cs, t, hc, h1, h2, h3, _⟩ := h.closed ho
          exact ⟨c, cs, t, hc, lostKeep (by simp [hc]) h1, aside' h2, by rw [htn, h3], fun hh => by simp [Listing.nodes] at hh⟩
      | false =>
        simp only [Bool.false_eq_true, if_false]
        refine ⟨hhd hk, hlk hk, ⟨pr, hrel, chain' (fun _ => rfl) aside⟩, lost' aside, ?_, hgone, h.nodup, by simp [hbg], ?_, ?_⟩
        · simpa using hlive
        · intro _ ho
          refine ⟨by simp [Listing.nodes, hb], ?_⟩
          rw [htn, (h.opened hbg ho).2, hold, Listing.nodes, ← List.append_assoc, hlastb]
        · intro ho
          obtain ⟨c, cs, t, hc, h1, h2, h3, _⟩ := h.closed ho
          exact ⟨c, cs, t, hc, lostKeep (by simp [hc]) h1, aside h2, by rw [htn, h3], fun hh => by simp [Listing.nodes, hb] at hh⟩
  · have hfil : v.shown.filter (· ≠ n) = v.shown := filter_self hns
    rw [hfil] at hlive
    -- the chain of the node
    have hmem : ∃ c ∈ v.lost, n ∈ c := by
      have := h.live.symm.subset hn
      simpa [hns] using this
    have main : ∀ c0 ∈ v.lost, n ∈ c0 → ∃ as bs, c0 = as ++ n :: bs ∧ P.next n = bs.head? ∧ P.prev n ≠ none ∧
        (∀ y, P.next n = some y → y ∈ c0) ∧ ∀ y, P.prev n = some y → y ∈ c0 ∨ Aside N b v.removed y := by
      intro c0 hc0 hn0
      obtain ⟨t, hs, ht⟩ := h.lost c0 hc0
      obtain ⟨as, bs, rfl⟩ := List.append_of_mem hn0
      have hx : P.next n = bs.head? := by have := seg_next hs; simpa [NPtr.slot] using this
      have hp : P.prev n = as.getLast?.or (some t) := seg_prev hs
      refine ⟨as, bs, rfl, hx, ?_, fun y hy => by simp [List.mem_of_head? (hx ▸ hy)], ?_⟩
      · rw [hp]; cases as.getLast? <;> simp
      · intro y hy
        rw [hp] at hy
        cases hq : as.getLast? with
        | none => rw [hq] at hy; simp at hy; subst hy; exact .inr ht
        | some z => rw [hq] at hy; simp at hy; subst hy; exact .inl (by simp [List.mem_of_getLast? hq])
    obtain ⟨c0, hc0, hn0⟩ := hmem
    obtain ⟨as, bs, hsp, hx, hp0, hxin, hpin⟩ := main c0 hc0 hn0
    have hc0s : ∀ y ∈ c0, y ∉ v.shown := fun y hy hh => hdis y hh y (by simp; exact ⟨c0, hc0, hy⟩) rfl
    have hndc : ∀ c ∈ v.lost, c.Nodup := fun c hc => List.Sublist.nodup (List.sublist_flatten_of_mem hc) hndl
    have hlk : LinksTo Q.next v.removed v.shown.head? := by
      refine LinksTo.congr (fun y hy => ?_) h.links
      rw [hnext, if_neg]
      intro hh
      rcases hpin y hh with hm | hm
      · exact (h.gone y hy).1 (hlost c0 hc0 y hm)
      · exact hm.hidden hy
    have hrel : Seg Q.slot pr v.shown none := by
      refine seg_same hsg (fun y hy => ?_) (fun y hy => ?_)
      · rw [hprev, if_neg (fun hh => hc0s y (hxin y hh) hy)]
      · rw [hnext, if_neg]
        intro hh
        rcases hpin y hh with hm | hm
        · exact hc0s y hm hy
        · exact hm.gone (hshow y hy)
    have hchain : if v.attached = true then pr = v.removed.getLast? else ∃ t, pr = some t ∧
        Aside (N.filter (· ≠ n)) b v.removed t := by
      split at hpr
      · rename_i ha; rw [if_pos ha]; exact hpr
      · rename_i ha
        obtain ⟨t, h1, h2⟩ := hpr
        rw [if_neg ha]
        exact ⟨t, h1, aside h2⟩
    have lostKeep : ∀ {c : List Nat} {t : Nat}, c ∈ v.lost → Aside N b v.removed t → Seg P.slot (some t) c none →
        Seg Q.slot (some t) (c.filter (· ≠ n)) none := by
      intro c t hc ht hs
      refine seg_without hs (hndc c hc) ?_ hnext hprev ?_
      · intro y hy he
        simp at he
        subst he
        exact ht.gone (hlost c hc _ hy)
      · intro hnc y hy
        have hno : y ∉ c0 := fun hh => hnc (flatten_unique hndl hc hc0 hy hh ▸ hn0)
        refine ⟨fun hh => ?_, fun hh => hno (hxin y hh)⟩
        rcases hpin y hh with hm | hm
        · exact hno hm
        · exact hm.gone (hlost c hc y hy)
    have lost' : ∀ c ∈ v.lost.map (·.filter (· ≠ n)), ∃ t, Seg Q.slot (some t) c none ∧
        Aside (N.filter (· ≠ n)) b v.removed t := by
      intro c hc
      obtain ⟨d, hd, rfl⟩ := List.mem_map.1 hc
      obtain ⟨t, h1, h2⟩ := h.lost d hd
      exact ⟨t, lostKeep hd h2 h1, aside h2⟩
    have hhd : l'.head = l.head := by rw [hhead, if_neg hp0]
    have hlast : v.lost.any (·.getLast? = some n) = true ↔ bs = [] := by
      rw [List.any_eq_true]
      constructor
      · rintro ⟨c, hc, hl⟩
        have hl : c.getLast? = some n := by simpa using hl
        have := flatten_unique hndl hc hc0 (List.mem_of_getLast? hl) hn0
        rw [this, hsp] at hl
        rw [hsp] at hc0
        exact (getLast_mid (hndc _ hc0)).1 hl
      · rintro rfl
        exact ⟨c0, hc0, by simp [hsp]⟩
    unfold Listing.remove
    dsimp only
    rw [if_neg (fun hh => hns (List.mem_of_getLast? hh)), if_neg hns]
    by_cases hb : bs = []
    · rw [if_pos (hlast.2 hb)]
      have htn : l'.tail = some n := by rw [htail, if_pos (by rw [hx, hb]; rfl)]
      refine ⟨by rw [hhd, h.head]; rfl, hlk, ⟨pr, hrel, hchain⟩, ?_, by simpa using hlive, hgone, h.nodup, by simp [hbg], by simp, ?_⟩
      · intro c hc
        rcases List.mem_cons.1 hc with rfl | hc
        · exact ⟨n, trivial, asideN⟩
        · exact lost' c hc
      · intro _
        exact ⟨[], _, n, rfl, trivial, asideN, by rw [htn]; rfl, fun _ => rfl⟩
    · rw [if_neg (fun hh => hb (hlast.1 hh))]
      have htn : l'.tail = l.tail := by
        rw [htail, if_neg]
        rw [hx]
        simpa using hb
      refine ⟨by rw [hhd, h.head]; rfl, hlk, ⟨pr, hrel, hchain⟩, lost', by simpa using hlive, hgone, h.nodup, by simp [hbg],
        fun h1 h2 => ⟨(h.opened h1 h2).1, by rw [htn]; exact (h.opened h1 h2).2⟩, ?_⟩
      intro ho
      obtain ⟨c, cs, t, hc, h1, h2, h3, h4⟩ := h.closed ho
      have hcl : c.getLast? ≠ some n := fun hh => hb (hlast.1 (List.any_eq_true.2 ⟨c, by simp [hc], by simpa using hh⟩))
      refine ⟨c.filter (· ≠ n), cs.map (·.filter (· ≠ n)), t, by simp [hc], lostKeep (by simp [hc]) h2 h1, aside h2, ?_, ?_⟩
      · rw [htn, h3, List.getLast?_cons, List.getLast?_cons, getLast_filter hcl]
      · intro hh; rw [h4 hh]; rfl


theorem NShows.step {s s' : State} {σ : Spec} {v : Listing} {op : Op} (c : Core s σ)
    (h : NShows s.nptr s.allNodes σ.nodes σ.next v) (hv : σ.Valid op) (hs : LPG.step s op = some s') :
    NShows s'.nptr s'.allNodes (σ.step op).nodes (σ.step op).next (v.step σ op) := by
  have hN := step_nodeList hs
  have hnx := c.next
  cases op with
  | newNode ls ps =>
    simp only at hN
    have hr := h.create (Q := s'.nptr) (l' := s'.allNodes) c.nNodup c.nLt ?_ ?_ ?_ ?_
    · exact hr
    · intro y; rw [hN.1, NList.add_next, hnx]; dsimp only; rw [upd_apply]
    · intro y; rw [hN.1, NList.add_prev, hnx]
      by_cases hy : y = σ.next
      · rw [if_pos hy, if_pos hy]
      · rw [if_neg hy, if_neg hy]; exact upd_other _ _ hy
    · rw [hN.2, hnx]
      cases hq : s.allNodes.head <;> simp [NList.add, hq]
    · rw [hN.2, hnx]; rfl
  | detachRemove n =>
    simp only at hN
    refine h.remove (Q := s'.nptr) (l' := s'.allNodes) c.nNodup c.nLt hv ?_ ?_ ?_ ?_
    · intro y; rw [hN.1, NList.remove_next]
    · intro y; rw [hN.1, NList.remove_prev]
    · rw [hN.2]
      cases hp : s.nptr.prev n with
      | some p => rw [NList.remove_head hp]; rfl
      | none => cases hq : s.nptr.next n <;> simp [NList.remove, hp, hq]
    · rw [hN.2, NList.remove_tail]
  | newEdge a b l ps =>
    obtain ⟨h1, h2⟩ := hN
    rw [h1, h2]
    obtain ⟨g1, g2, ⟨pr, g3, g4⟩, g5, g6, g7, g8, g9, g10, g11⟩ := h
    have up : ∀ {t : Nat}, Aside σ.nodes σ.next v.removed t → Aside σ.nodes (σ.next + 1) v.removed t :=
      fun ht => ⟨Nat.lt_succ_of_lt ht.lt, ht.gone, ht.hidden⟩
    refine ⟨g1, g2, ⟨pr, g3, ?_⟩, ?_, g6, fun n hn => ⟨(g7 n hn).1, Nat.lt_succ_of_lt (g7 n hn).2⟩, g8, g9, g10, ?_⟩
    · show if v.attached = true then _ else _
      split at g4
      · rename_i ha; rw [if_pos ha]; exact g4
      · rename_i ha
        obtain ⟨t, k1, k2⟩ := g4
        rw [if_neg ha]
        exact ⟨t, k1, up k2⟩
    · intro d hd
      obtain ⟨t, k1, k2⟩ := g5 d hd
      exact ⟨t, k1, up k2⟩
    · intro ho
      obtain ⟨d, ds, t, k1, k2, k3, k4⟩ := g11 ho
      exact ⟨d, ds, t, k1, k2, up k3, k4⟩
  | _ =>
    obtain ⟨h1, h2⟩ := hN
    rw [h1, h2]
    exact h

theorem NShows.runFrom {ops : List Op} : ∀ {s s' : State} {σ : Spec} {v : Listing}, Core s σ →
    NShows s.nptr s.allNodes σ.nodes σ.next v → σ.ValidFrom ops → LPG.runFrom s ops = some s' →
    NShows s'.nptr s'.allNodes (σ.runFrom ops).nodes (σ.runFrom ops).next (v.from_ σ ops) := by
  induction ops with
  | nil => intro s s' σ v _ h _ hs; simp [LPG.runFrom] at hs; subst hs; exact h
  | cons op ops ih =>
    intro s s' σ v c h hv hs
    rw [LPG.runFrom] at hs
    split at hs
    · cases hs
    · rename_i s1 h1
      exact ih (c.step hv.1 h1) (h.step c hv.1 h1) hv.2 hs

end LPG

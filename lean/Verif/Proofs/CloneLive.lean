import Verif.Model.CloneLive
import Verif.Proofs.CloneLoops
import Verif.Spec.CopyF
/-! The loops of copying, with the iterators as they are. -/
namespace LPG

namespace EdgeMap
variable {P P' : Slot} {em : EdgeMap}

/-- what an iterator yields, if nothing changes meanwhile -/
inductive Yields (P : Slot) (em : EdgeMap) : MapIt → List Nat → Prop
  | done {it it' : MapIt} : em.mapNext P it = some (none, it') → Yields P em it []
  | step {it it' : MapIt} {x : Nat} {xs : List Nat} : em.mapNext P it = some (some x, it') → Yields P em it' xs →
      Yields P em it (x :: xs)

/-- the element at a position, nil behind the last -/
def elemAt (em : EdgeMap) (j : Nat) : Option Nat := if j < em.lists.length then some j else none

theorem elemAt_lt {j : Nat} (h : j < em.lists.length) : em.elemAt j = some j := if_pos h
theorem elemAt_ge {j : Nat} (h : em.lists.length ≤ j) : em.elemAt j = none := if_neg (by omega)

theorem listAfter_eq (i : Nat) : em.listAfter i = em.elemAt (i + 1) := rfl

theorem nextOfAll_succ {k j : Nat} (h : j < em.lists.length) :
    em.nextOfAll P (k + 1) (some j) none = em.nextOfAll P k (em.elemAt (j + 1)) (em.lists[j]).2.head := by
  rw [nextOfAll, List.getElem?_eq_getElem h]
  rfl

theorem nextOfAll_fuel : ∀ (k k' : Nat) {j : Nat} {nx : Option Nat}, em.lists.length - j ≤ k → em.lists.length - j ≤ k' →
    em.nextOfAll P k (em.elemAt j) nx = em.nextOfAll P k' (em.elemAt j) nx
  | k, k', j, some x, _, _ => by cases k <;> cases k' <;> simp [nextOfAll]
  | k, k', j, none, h, h' => by
    by_cases hj : j < em.lists.length
    · rw [elemAt_lt hj]
      obtain ⟨k, rfl⟩ : ∃ i, k = i + 1 := ⟨k - 1, by omega⟩
      obtain ⟨k', rfl⟩ : ∃ i, k' = i + 1 := ⟨k' - 1, by omega⟩
      rw [nextOfAll_succ hj, nextOfAll_succ hj]
      exact nextOfAll_fuel k k' (by omega) (by omega)
    · rw [elemAt_ge (by omega)]
      cases k <;> cases k' <;> simp [nextOfAll]

/-- the iterator goes to the next list -/
theorem mapNext_list {j : Nat} (h : j < em.lists.length) :
    em.mapNext P (.all (em.elemAt j) none) = em.mapNext P (.all (em.elemAt (j + 1)) (em.lists[j]).2.head) := by
  rw [mapNext, mapNext, elemAt_lt h]
  obtain ⟨k, hk⟩ : ∃ k, em.lists.length = k + 1 := ⟨em.lists.length - 1, by omega⟩
  rw [hk, nextOfAll_succ h]
  exact nextOfAll_fuel _ _ (by omega) (by omega)

theorem mapNext_some (nl : Option Nat) (x : Nat) : em.mapNext P (.all nl (some x)) = some (some x, .all nl (P x).next) := by
  rw [mapNext]; cases em.lists.length <;> simp [nextOfAll]

theorem mapNext_end : em.mapNext P (.all none none) = some (none, .all none none) := by
  rw [mapNext]; cases em.lists.length <;> simp [nextOfAll]

theorem Yields.same {it it' : MapIt} {xs : List Nat} (h : em.mapNext P it = em.mapNext P it') (y : Yields P em it xs) :
    Yields P em it' xs := by
  cases y with
  | done a => exact .done (h ▸ a)
  | step a b => exact .step (h ▸ a) b

theorem all_yields {fuel : Nat} : ∀ (d j : Nat), em.lists.length - j = d → ∀ (f : Nat) (nx : Option Nat) (xs ys : List Nat),
    walk (fun x => (P x).next) f nx = some xs →
    concatOpt ((em.lists.drop j).map (fun p => walk (fun x => (P x).next) fuel p.2.head)) = some ys →
    Yields P em (.all (em.elemAt j) nx) (xs ++ ys) := by
  intro d
  induction d with
  | zero =>
    intro j hj f
    induction f with
    | zero =>
      intro nx xs ys hw hc
      cases nx with
      | some x => cases hw
      | none =>
        rw [walk_none] at hw
        cases hw
        rw [List.drop_eq_nil_of_le (by omega)] at hc
        cases hc
        rw [elemAt_ge (by omega)]
        exact .done mapNext_end
    | succ f ih =>
      intro nx xs ys hw hc
      cases nx with
      | some x =>
        rw [walk_succ] at hw
        obtain ⟨xs', h1, rfl⟩ := Option.map_eq_some_iff.1 hw
        exact .step (mapNext_some _ _) (ih _ _ _ h1 hc)
      | none =>
        rw [walk_none] at hw
        exact ih none xs ys (by rw [walk_none]; exact hw) hc
  | succ d ihd =>
    intro j hj f
    have hlt : j < em.lists.length := by omega
    induction f with
    | zero =>
      intro nx xs ys hw hc
      cases nx with
      | some x => cases hw
      | none =>
        rw [walk_none] at hw
        cases hw
        rw [List.drop_eq_getElem_cons hlt, List.map_cons] at hc
        cases hA : walk (fun x => (P x).next) fuel (em.lists[j]).2.head with
        | none => rw [hA] at hc; cases hc
        | some as =>
          rw [hA, concatOpt] at hc
          cases hB : concatOpt ((em.lists.drop (j + 1)).map (fun p => walk (fun x => (P x).next) fuel p.2.head)) with
          | none => rw [hB] at hc; cases hc
          | some bs =>
            rw [hB] at hc
            cases hc
            exact (ihd (j + 1) (by omega) _ _ _ _ hA hB).same (mapNext_list hlt).symm
    | succ f ih =>
      intro nx xs ys hw hc
      cases nx with
      | some x =>
        rw [walk_succ] at hw
        obtain ⟨xs', h1, rfl⟩ := Option.map_eq_some_iff.1 hw
        exact .step (mapNext_some _ _) (ih _ _ _ h1 hc)
      | none =>
        rw [walk_none] at hw
        exact ih none xs ys (by rw [walk_none]; exact hw) hc

/-- the iterator yields what the list of `enum` has -/
theorem enum_yields {fuel : Nat} {xs : List Nat} (h : em.enum P fuel = some xs) : Yields P em em.mapIterator xs := by
  unfold enum at h
  unfold mapIterator
  split at h
  · rename_i h0
    cases h
    rw [if_pos h0]
    exact .done rfl
  · rename_i h0
    rw [if_neg h0]
    split at h
    · rename_i h1
      rw [if_pos h1]
      obtain ⟨e, he, rfl⟩ := Option.map_eq_some_iff.1 h
      rw [he]
      exact .step (x := e) rfl (.done rfl)
    · rename_i h1
      rw [if_neg h1]
      cases hl : em.lists with
      | nil =>
        rw [hl] at h
        cases h
        exact .done mapNext_end
      | cons p ps =>
        have hlt : 0 < em.lists.length := by rw [hl]; simp
        have y := all_yields (P := P) (em := em) (fuel := fuel) _ 0 rfl 0 none [] xs rfl (by rw [List.drop_zero]; exact h)
        have hp : (em.lists[0]).2.head = p.2.head := by simp [hl]
        have e := mapNext_list (P := P) hlt
        rw [hp] at e
        exact y.same e

theorem nextOfAll_congr {x : Nat} (hx : P' x = P x) : ∀ {k : Nat} {nl nx : Option Nat} {it : MapIt},
    em.nextOfAll P k nl nx = some (some x, it) → em.nextOfAll P' k nl nx = some (some x, it)
  | k, nl, some y, it, h => by
    have e : ∀ Q : Slot, em.nextOfAll Q k nl (some y) = some (some y, .all nl (Q y).next) := by intro Q; cases k <;> simp [nextOfAll]
    rw [e] at h ⊢
    cases h
    rw [hx]
  | k, none, none, it, h => by cases k <;> simp [nextOfAll] at h
  | 0, some i, none, it, h => by simp [nextOfAll] at h
  | k + 1, some i, none, it, h => by
    rw [nextOfAll] at h ⊢
    split at h
    · cases h
    · rename_i p hp
      exact nextOfAll_congr hx h

theorem nextOfAll_congr_none : ∀ {k : Nat} {nl nx : Option Nat} {it : MapIt},
    em.nextOfAll P k nl nx = some (none, it) → em.nextOfAll P' k nl nx = some (none, it)
  | k, nl, some y, it, h => by cases k <;> simp [nextOfAll] at h
  | k, none, none, it, h => by cases k <;> simpa [nextOfAll] using h
  | 0, some i, none, it, h => by simp [nextOfAll] at h
  | k + 1, some i, none, it, h => by
    rw [nextOfAll] at h ⊢
    split at h
    · cases h
    · rename_i p hp
      exact nextOfAll_congr_none h

/-- only the links of the edge that is yielded are read -/
theorem mapNext_congr {x : Nat} {it it' : MapIt} (hx : P' x = P x) (a : em.mapNext P it = some (some x, it')) :
    em.mapNext P' it = some (some x, it') := by
  cases it with
  | empty => exact a
  | single e d => exact a
  | all nl nx => exact nextOfAll_congr hx a

theorem mapNext_congr_none {it it' : MapIt} (a : em.mapNext P it = some (none, it')) : em.mapNext P' it = some (none, it') := by
  cases it with
  | empty => exact a
  | single e d => exact a
  | all nl nx => exact nextOfAll_congr_none a

theorem walk_kept {next next' : Nat → Option Nat} : ∀ {f f' : Nat} {o : Option Nat} {xs : List Nat}, f ≤ f' →
    walk next f o = some xs → (∀ x ∈ xs, next' x = next x) → walk next' f' o = some xs
  | f, f', none, xs, _, h, _ => by rw [walk_none] at h ⊢; exact h
  | 0, f', some x, xs, _, h, _ => by cases h
  | f + 1, f', some x, xs, hf, h, he => by
    obtain ⟨f', rfl⟩ : ∃ i, f' = i + 1 := ⟨f' - 1, by omega⟩
    rw [walk_succ] at h ⊢
    obtain ⟨ys, h1, rfl⟩ := Option.map_eq_some_iff.1 h
    rw [he x (by simp), walk_kept (by omega) h1 (fun z hz => he z (by simp [hz]))]
    rfl

theorem concat_kept {f f' : Nat} (hf : f ≤ f') : ∀ {ls : AMap String EList} {xs : List Nat},
    concatOpt (ls.map (fun p => walk (fun x => (P x).next) f p.2.head)) = some xs → (∀ x ∈ xs, P' x = P x) →
    concatOpt (ls.map (fun p => walk (fun x => (P' x).next) f' p.2.head)) = some xs
  | [], xs, h, _ => h
  | p :: ls, xs, h, he => by
    rw [List.map_cons] at h ⊢
    cases hA : walk (fun x => (P x).next) f p.2.head with
    | none => rw [hA] at h; cases h
    | some as =>
      rw [hA, concatOpt] at h
      cases hB : concatOpt (ls.map (fun p => walk (fun x => (P x).next) f p.2.head)) with
      | none => rw [hB] at h; cases h
      | some bs =>
        rw [hB] at h
        cases h
        rw [walk_kept hf hA (fun x hx => by rw [he x (by simp [hx])]), concatOpt,
          concat_kept hf hB (fun x hx => he x (by simp [hx]))]

theorem enum_kept {f f' : Nat} (hf : f ≤ f') {xs : List Nat} (h : em.enum P f = some xs) (he : ∀ x ∈ xs, P' x = P x) :
    em.enum P' f' = some xs := by
  unfold enum at h ⊢
  split at h
  · rename_i h0; rw [if_pos h0]; exact h
  · rename_i h0
    rw [if_neg h0]
    split at h
    · rename_i h1; rw [if_pos h1]; exact h
    · rename_i h1; rw [if_neg h1]; exact concat_kept hf h he

/-- the pointers of an iterator stay in a set -/
def ItIn (E : Nat → Prop) : MapIt → Prop
  | .empty => True
  | .single e _ => PIn E e
  | .all _ nx => PIn E nx

theorem mapIterator_in {E : Nat → Prop} (h : EMIn E em) : ItIn E em.mapIterator := by
  unfold mapIterator
  split
  · trivial
  · split
    · exact h.1
    · split
      · exact PIn.none
      · rename_i p ps hl
        exact (h.2 p.1 p.2 (by rw [hl]; simp)).1

theorem nextOfAll_in {E : Nat → Prop} (hs : SlotIn E P) (h : EMIn E em) {o : Option Nat} : ∀ {k : Nat} {nl nx : Option Nat}
    {it : MapIt}, PIn E nx → em.nextOfAll P k nl nx = some (o, it) → PIn E o ∧ ItIn E it
  | k, nl, some y, it, hn, hx => by
    have e : em.nextOfAll P k nl (some y) = some (some y, .all nl (P y).next) := by cases k <;> simp [nextOfAll]
    rw [e] at hx
    cases hx
    exact ⟨hn, (hs y (hn y rfl)).1⟩
  | k, none, none, it, hn, hx => by
    have e : em.nextOfAll P k none none = some (none, .all none none) := by cases k <;> simp [nextOfAll]
    rw [e] at hx
    cases hx
    exact ⟨PIn.none, PIn.none⟩
  | 0, some i, none, it, hn, hx => by simp [nextOfAll] at hx
  | k + 1, some i, none, it, hn, hx => by
    rw [nextOfAll] at hx
    split at hx
    · cases hx
    · rename_i p hp
      exact nextOfAll_in hs h (h.2 p.1 p.2 (List.mem_of_getElem? hp)).1 hx

theorem mapNext_in {E : Nat → Prop} (hs : SlotIn E P) (h : EMIn E em) {it it' : MapIt} {o : Option Nat} (hi : ItIn E it)
    (hx : em.mapNext P it = some (o, it')) : PIn E o ∧ ItIn E it' := by
  cases it with
  | empty => cases hx; exact ⟨PIn.none, trivial⟩
  | single e d =>
    rw [mapNext] at hx
    split at hx
    · cases hx; exact ⟨PIn.none, hi⟩
    · obtain ⟨x, h1, h2⟩ := Option.map_eq_some_iff.1 hx
      cases h2
      subst h1
      exact ⟨hi, hi⟩
  | all nl nx => exact nextOfAll_in hs h hi hx

/-- if the iterator comes to its end, the lists do -/
theorem yields_all : ∀ (zs : List Nat) (d j : Nat), em.lists.length - j = d → ∀ {nx : Option Nat},
    Yields P em (.all (em.elemAt j) nx) zs → ∃ f xs ys, walk (fun x => (P x).next) f nx = some xs ∧
      concatOpt ((em.lists.drop j).map (fun p => walk (fun x => (P x).next) f p.2.head)) = some ys
  | zs, d, j, hd, some x, y => by
    cases y with
    | done a => rw [mapNext_some] at a; cases a
    | @step _ _ _ zs' a y' =>
      rw [mapNext_some] at a
      cases a
      obtain ⟨f, xs, ys, h1, h2⟩ := yields_all zs' d j hd y'
      exact ⟨f + 1, x :: xs, ys, by rw [walk_succ, h1]; rfl, concat_kept (by omega) h2 (fun _ _ => rfl)⟩
  | zs, 0, j, hd, none, y => ⟨0, [], [], rfl, by rw [List.drop_eq_nil_of_le (by omega)]; rfl⟩
  | zs, d + 1, j, hd, none, y => by
    have hlt : j < em.lists.length := by omega
    obtain ⟨f, xs, ys, h1, h2⟩ := yields_all zs d (j + 1) (by omega) (y.same (mapNext_list hlt))
    exact ⟨f, [], xs ++ ys, walk_none _ _, by rw [List.drop_eq_getElem_cons hlt, List.map_cons, h1, concatOpt, h2]⟩
termination_by zs d => (zs.length, d)

theorem yields_enum {E : Nat → Prop} {b : Nat} (hs : SlotIn E P) (h : EMIn E em) (hb : ∀ x, E x → x < b) {zs : List Nat}
    (y : Yields P em em.mapIterator zs) : em.enum P b ≠ none := by
  unfold mapIterator at y
  unfold enum
  split at y
  · rename_i h0; rw [if_pos h0]; simp
  · rename_i h0
    rw [if_neg h0]
    split at y
    · rename_i h1
      rw [if_pos h1]
      cases ho : em.only with
      | some e => simp
      | none =>
        rw [ho] at y
        cases y with
        | done a => simp [mapNext] at a
        | step a _ => simp [mapNext] at a
    · rename_i h1
      rw [if_neg h1]
      have y0 : Yields P em (.all (em.elemAt 0) none) zs := by
        cases hl : em.lists with
        | nil =>
          rw [hl] at y
          rw [elemAt_ge (by rw [hl]; simp)]
          exact y
        | cons p ps =>
          have hlt : 0 < em.lists.length := by rw [hl]; simp
          have e := mapNext_list (P := P) hlt
          have hp : (em.lists[0]).2.head = p.2.head := by simp [hl]
          rw [hp] at e
          rw [hl] at y
          exact y.same e.symm
      obtain ⟨f, xs, ys, _, h2⟩ := yields_all zs _ 0 rfl y0
      rw [List.drop_zero] at h2
      have h3 := concat_kept (P' := P) (Nat.le_max_left f b) h2 (fun _ _ => rfl)
      have e : ∀ p ∈ em.lists, walk (fun x => (P x).next) b p.2.head = walk (fun x => (P x).next) (max f b) p.2.head :=
        fun p hp => walk_fuel (fun x hx => (hs x hx).1) (h.2 p.1 p.2 hp).1 hb (Nat.le_refl _) (Nat.le_max_right _ _)
      rw [concatOpt_congr e, h3]
      simp

end EdgeMap

namespace CopyF
variable {ω : Type} {src : ω → State} {c : Funcs ω} {I : ω → Prop} {E : Nat → Prop} {P : Slot} {em : EdgeMap} {m : AMap Nat Nat}

/-- The functions leave the edges `E` of the source as they are. -/
structure Leaves (I : ω → Prop) (E : Nat → Prop) (P : Slot) (em : EdgeMap) (src : ω → State) (c : Funcs ω) (m : AMap Nat Nat) :
    Prop where
  same : ∀ w, I w → (src w).allEdges = em ∧ ∀ e, E e → (src w).slot0 e = P e
  edge : ∀ e w w', E e → I w → (m.get ((src w).eFrom e)).isNone = false → (m.get ((src w).eTo e)).isNone = false →
    c.edge e m w = some w' → I w'

/-- The loop over the edges does what it does with a list. -/
theorem edgesLive_same (k : Leaves I E P em src c m) : ∀ (ys : List Nat) {it : MapIt} {w : ω}, (∀ e ∈ ys, E e) →
    EdgeMap.Yields P em it ys → I w → edgesLive src c m w it = edges src c m w ys
  | [], it, w, _, y, hI => by
    cases y with
    | done a =>
      obtain ⟨h1, _⟩ := k.same w hI
      rw [edgesLive, h1, EdgeMap.mapNext_congr_none a]
      rfl
  | e :: ys, it, w, hE, y, hI => by
    cases y with
    | @step _ it' _ _ a y' =>
      have hE' : ∀ e ∈ ys, E e := fun x hx => hE x (by simp [hx])
      obtain ⟨h1, h2⟩ := k.same w hI
      rw [edgesLive, h1, EdgeMap.mapNext_congr (h2 e (hE e (by simp))) a, edges]
      simp only [Option.bind_eq_bind, Option.bind_some]
      rw [edgesLive_same k ys hE' y' hI]
      by_cases ha : (m.get ((src w).eFrom e)).isNone
      · rw [if_pos ha, if_pos ha]
      · rw [if_neg ha, if_neg ha]
        by_cases hb : (m.get ((src w).eTo e)).isNone
        · rw [if_pos hb, if_pos hb]
        · rw [if_neg hb, if_neg hb]
          cases hc : c.edge e m w with
          | none => rfl
          | some w' =>
            exact edgesLive_same k ys hE' y' (k.edge e w w' (hE e (by simp)) hI (Bool.eq_false_iff.2 ha) (Bool.eq_false_iff.2 hb) hc)

/-- If the loop returns, the iterator comes to its end. -/
theorem edgesLive_ends (k : Leaves I E P em src c m) (hs : SlotIn E P) (hm : EMIn E em) {w r : ω} {it : MapIt}
    (h : edgesLive src c m w it = some r) : I w → EdgeMap.ItIn E it → ∃ zs, EdgeMap.Yields P em it zs := by
  refine edgesLive.partial_correctness src c m (motive := fun w it _ => I w → EdgeMap.ItIn E it →
    ∃ zs, EdgeMap.Yields P em it zs) ?_ w it r h
  intro g ih w it r h hI hi
  obtain ⟨h1, h2⟩ := k.same w hI
  obtain ⟨⟨o, it'⟩, a, h⟩ := Option.bind_eq_some_iff.1 h
  rw [h1] at a
  cases o with
  | none => exact ⟨[], .done (EdgeMap.mapNext_congr_none a)⟩
  | some e =>
    have hsw : SlotIn E (src w).slot0 := fun x hx => by rw [h2 x hx]; exact hs x hx
    obtain ⟨e1, e2⟩ := EdgeMap.mapNext_in hsw hm hi a
    have he : E e := e1 e rfl
    have a' := EdgeMap.mapNext_congr (P' := P) (h2 e he).symm a
    dsimp only at h
    suffices hz : ∃ zs, EdgeMap.Yields P em it' zs by
      obtain ⟨zs, hz⟩ := hz
      exact ⟨e :: zs, .step a' hz⟩
    split at h
    · exact ih _ _ _ h hI e2
    · rename_i ha
      split at h
      · exact ih _ _ _ h hI e2
      · rename_i hb
        obtain ⟨w', hc, h⟩ := Option.bind_eq_some_iff.1 h
        exact ih _ _ _ h (k.edge e w w' he hI (Bool.eq_false_iff.2 ha) (Bool.eq_false_iff.2 hb) hc) e2

end CopyF

namespace World
variable {t : Nat} {f : String → Value → Value}

theorem copySubgraphLive_eq (st : World × AMap Nat Nat) (n : Nat) : copySubgraphLive t f st n =
    if (st.2.get n).isSome then some st
    else (st.1.copyNode n t f).bind (fun r =>
      copyOutLive t f (r.1, st.2.set n r.2) n (r.1.heap.outgoing n).mapIterator) := by
  conv => lhs; rw [copySubgraphLive]
  rfl

theorem copyOutLive_none {st : World × AMap Nat Nat} {n : Nat} {it it' : MapIt}
    (h : (st.1.heap.outgoing n).mapNext st.1.heap.slot1 it = some (none, it')) : copyOutLive t f st n it = some st := by
  rw [copyOutLive, h]
  rfl

theorem copyOutLive_some {st : World × AMap Nat Nat} {n e : Nat} {it it' : MapIt}
    (h : (st.1.heap.outgoing n).mapNext st.1.heap.slot1 it = some (some e, it')) : copyOutLive t f st n it =
    (copySubgraphLive t f st (st.1.heap.eTo e)).bind (fun st => (st.1.copyEdge e t f st.2).bind (fun r =>
      copyOutLive t f (r.1, st.2) n it')) := by
  rw [copyOutLive, h]
  rfl

/-- the new edges -/
def Newer (W0 W : World) (x : Nat) : Prop := W0.heap.idBase ≤ x ∧ W.isEdge x = true

/-- What the copies leave of the objects that were there before: the outgoing edges of the old nodes are untouched, because
the new edges leave new nodes. -/
structure Behind (W0 : World) (m0 : AMap Nat Nat) (W : World) (m : AMap Nat Nat) : Prop where
  base : W0.heap.idBase ≤ W.heap.idBase
  bound : ∀ x, W.isEdge x = true → x < W.heap.idBase
  out : ∀ n, n < W0.heap.idBase → W.heap.outgoing n = W0.heap.outgoing n
  edge : ∀ e, e < W0.heap.idBase → W.heap.slot1 e = W0.heap.slot1 e ∧ W.heap.eFrom e = W0.heap.eFrom e ∧
    W.heap.eTo e = W0.heap.eTo e
  maps : ∀ n, W0.heap.idBase ≤ n → n < W.heap.idBase → W.isEdge n = false → EMIn (Newer W0 W) (W.heap.outgoing n)
  links : SlotIn (Newer W0 W) W.heap.slot1
  fresh : ∀ n v, AMap.get m0 n = none → AMap.get m n = some v →
    W0.heap.idBase ≤ v ∧ v < W.heap.idBase ∧ W.isEdge v = false

theorem Behind.start {W : World} (h : ∀ x, W.isEdge x = true → x < W.heap.idBase) (m : AMap Nat Nat) : Behind W m W m :=
  ⟨Nat.le_refl _, h, fun _ _ => rfl, fun _ _ => ⟨rfl, rfl, rfl⟩, fun n h1 h2 => by omega,
    fun e he => absurd (h e he.2) (by have := he.1; omega), fun n v h h' => by rw [h] at h'; cases h'⟩

theorem EMIn.mono {E F : Nat → Prop} (h : ∀ x, E x → F x) {m : EdgeMap} (hm : EMIn E m) : EMIn F m :=
  ⟨hm.1.mono h, fun l el hl => ⟨(hm.2 l el hl).1.mono h, (hm.2 l el hl).2.mono h⟩⟩

variable {W0 W : World} {m0 m : AMap Nat Nat}

/-- a node is copied -/
theorem Behind.node (b : Behind W0 m0 W m) {n : Nat} {r : World × Nat} (h : W.cloneNode t n f = some r) :
    Behind W0 m0 r.1 (m.set n r.2) := by
  have hb := b.base
  have hno : W.isEdge W.heap.idBase = false := by
    cases hx : W.isEdge W.heap.idBase with
    | false => rfl
    | true => exact absurd (b.bound _ hx) (Nat.lt_irrefl _)
  unfold cloneNode at h
  split at h
  · cases h
  · rename_i s hs
    cases h
    unfold State.newNode at hs
    simp only at hs
    split at hs
    · cases hs
    · cases hs
      refine ⟨Nat.le_succ_of_le b.base, fun x hx => Nat.lt_succ_of_lt (b.bound x hx), fun k hk => ?_, b.edge,
        fun k h1 h2 h3 => ?_, b.links, fun k v h1 h2 => ?_⟩
      · show upd W.heap.outgoing W.heap.idBase EdgeMap.empty k = _
        rw [upd_other _ _ (by omega)]
        exact b.out k hk
      · show EMIn _ (upd W.heap.outgoing W.heap.idBase EdgeMap.empty k)
        rw [upd_apply]
        split
        · exact ⟨PIn.none, by simp [EdgeMap.empty]⟩
        · have h4 : k < W.heap.idBase + 1 := h2
          exact b.maps k h1 (by omega) h3
      · rw [AMap.get_set] at h2
        show _ ∧ v < W.heap.idBase + 1 ∧ W.isEdge v = false
        split at h2
        · cases h2
          exact ⟨hb, Nat.lt_succ_self _, hno⟩
        · obtain ⟨p1, p2, p3⟩ := b.fresh k v h1 h2
          exact ⟨p1, by omega, p3⟩

/-- an edge is copied that leaves a copied node -/
theorem Behind.copyEdge (b : Behind W0 m0 W m) {e : Nat} {r : World × Nat} (hf : AMap.get m0 (W.heap.eFrom e) = none)
    (h : W.copyEdge e t f m = some r) : Behind W0 m0 r.1 m := by
  have hb := b.base
  unfold World.copyEdge cloneEdge at h
  cases ha : AMap.get m (W.heap.eFrom e) with
  | none => rw [ha] at h; cases h
  | some a =>
    rw [ha] at h
    cases hd : AMap.get m (W.heap.eTo e) with
    | none => rw [hd] at h; cases h
    | some d =>
      rw [hd] at h
      dsimp only at h
      split at h
      · cases h
      split at h
      · cases h
      split at h
      · cases h
      rename_i s hs
      cases h
      obtain ⟨a1, a2, a3⟩ := b.fresh _ _ hf ha
      unfold State.newEdge at hs
      simp only at hs
      split at hs
      · cases hs
      rename_i p0 em0 h0
      split at hs
      · cases hs
      rename_i s2 hs2
      split at hs
      · cases hs
      cases hs
      unfold State.connect at hs2
      simp only [upd_same] at hs2
      split at hs2
      · cases hs2
      rename_i p2 im h2
      split at hs2
      · cases hs2
      rename_i p1 om h1
      cases hs2
      let N : Nat → Prop := fun x => W0.heap.idBase ≤ x ∧ upd W.isEdge W.heap.idBase true x = true
      have hsub : ∀ x, Newer W0 W x → N x := fun x hx => ⟨hx.1, by
        rw [upd_apply]; split
        · rfl
        · exact hx.2⟩
      have hnew : N W.heap.idBase := ⟨hb, upd_same ..⟩
      have hold : ∀ x, N x → x ≠ W.heap.idBase → Newer W0 W x := fun x hx hn => ⟨hx.1, by
        have := hx.2; rwa [upd_other _ _ hn] at this⟩
      have sl : SlotIn N (upd W.heap.slot1 W.heap.idBase ⟨none, none⟩) := by
        intro x hx
        rw [upd_apply]
        split
        · exact ⟨PIn.none, PIn.none⟩
        · rename_i hn
          have := b.links x (hold x hx hn)
          exact ⟨this.1.mono hsub, this.2.mono hsub⟩
      obtain ⟨q1, q2, q3⟩ := EdgeMap.add_in sl (EMIn.mono hsub (b.maps a a1 a2 a3)) hnew h1
      have hoff : ∀ x, x < W0.heap.idBase → ¬ N x := fun x hx hn => by have := hn.1; omega
      refine ⟨Nat.le_succ_of_le hb, fun x hx => ?_, fun k hk => ?_, fun x hx => ⟨?_, ?_, ?_⟩, fun k k1 k2 k3 => ?_, q1,
        fun k v k1 k2 => ?_⟩
      · have hx' : upd W.isEdge W.heap.idBase true x = true := hx
        show x < W.heap.idBase + 1
        rw [upd_apply] at hx'
        split at hx'
        · omega
        · have := b.bound x hx'; omega
      · show upd W.heap.outgoing a om k = _
        rw [upd_other _ _ (by omega)]
        exact b.out k hk
      · show p1 x = _
        rw [q2 x (hoff x hx), upd_other _ _ (by omega)]
        exact (b.edge x hx).1
      · show upd W.heap.eFrom W.heap.idBase a x = _
        rw [upd_other _ _ (by omega)]
        exact (b.edge x hx).2.1
      · show upd W.heap.eTo W.heap.idBase d x = _
        rw [upd_other _ _ (by omega)]
        exact (b.edge x hx).2.2
      · show EMIn N (upd W.heap.outgoing a om k)
        have k2' : k < W.heap.idBase + 1 := k2
        have k3' : upd W.isEdge W.heap.idBase true k = false := k3
        rw [upd_apply] at k3'
        split at k3'
        · cases k3'
        · rename_i hne
          rw [upd_apply]
          split
          · exact q3
          · exact EMIn.mono hsub (b.maps k k1 (by omega) k3')
      · obtain ⟨p1', p2', p3'⟩ := b.fresh k v k1 k2
        show _ ∧ v < W.heap.idBase + 1 ∧ upd W.isEdge W.heap.idBase true v = false
        exact ⟨p1', by omega, by rw [upd_other _ _ (by omega)]; exact p3'⟩

/-- What is known of the source before the copy. -/
structure Roots (W0 : World) (ns : List Nat) : Prop where
  lt : ∀ n ∈ ns, n < W0.heap.idBase
  edges : ∀ n ∈ ns, ∃ xs, W0.heap.nodeEdges n .outgoing = some xs ∧ ∀ e ∈ xs, e < W0.heap.idBase ∧ W0.heap.eFrom e = n ∧
    W0.heap.eTo e ∈ ns

/-- how many nodes are not yet in the map -/
def left (ns : List Nat) (m : AMap Nat Nat) : Nat := (ns.filter (fun n => (AMap.get m n).isNone)).length

/-- nothing leaves the map -/
def Grows (m m' : AMap Nat Nat) : Prop := ∀ n, (AMap.get m n).isSome → (AMap.get m' n).isSome

theorem Grows.left {ns : List Nat} {m m' : AMap Nat Nat} (g : Grows m m') : left ns m' ≤ left ns m := by
  unfold World.left
  rw [← List.countP_eq_length_filter, ← List.countP_eq_length_filter]
  refine List.countP_mono_left (fun x _ h => ?_)
  cases hx : AMap.get m x with
  | none => rfl
  | some v =>
    have := g x (by rw [hx]; rfl)
    simp only [Option.isNone_iff_eq_none] at h
    rw [h] at this
    cases this

theorem left_set {ns : List Nat} {m : AMap Nat Nat} {n v : Nat} (hn : n ∈ ns) (h : AMap.get m n = none) :
    left ns (AMap.set m n v) < left ns m := by
  unfold World.left
  induction ns with
  | nil => cases hn
  | cons a ns ih =>
    have mono : (ns.filter (fun x => (AMap.get (AMap.set m n v) x).isNone)).length ≤
        (ns.filter (fun x => (AMap.get m x).isNone)).length := by
      rw [← List.countP_eq_length_filter, ← List.countP_eq_length_filter]
      refine List.countP_mono_left (fun x _ hx => ?_)
      rw [AMap.get_set] at hx
      split at hx
      · cases hx
      · exact hx
    by_cases han : a = n
    · subst han
      rw [List.filter_cons_of_neg (by rw [AMap.get_set, if_pos rfl]; simp), List.filter_cons_of_pos (by rw [h]; rfl)]
      simp only [List.length_cons]
      omega
    · have hn' : n ∈ ns := by
        rcases List.mem_cons.1 hn with h' | h'
        · exact absurd h'.symm han
        · exact h'
      have ih := ih hn'
      have e : AMap.get (AMap.set m n v) a = AMap.get m a := by rw [AMap.get_set, if_neg (fun h => han h)]
      by_cases hg : (AMap.get m a).isNone
      · rw [List.filter_cons_of_pos (by rw [e]; exact hg), List.filter_cons_of_pos (a := a) hg]
        simp only [List.length_cons]
        omega
      · rw [List.filter_cons_of_neg (by rw [e]; exact hg), List.filter_cons_of_neg (a := a) hg]
        exact ih

/-- The edges may be listed before the loop: `CopySubgraph` with its iterators does the same. -/
theorem copySubgraphLive_same {ns : List Nat} (o : Roots W0 ns) : ∀ (k : Nat) {W : World} {m : AMap Nat Nat} {n : Nat},
    left ns m < k → n ∈ ns → Behind W0 m0 W m → Grows m0 m →
    copySubgraphLive t f (W, m) n = copySubgraph t f (W, m) n ∧
    ∀ r, copySubgraph t f (W, m) n = some r → Behind W0 m0 r.1 r.2 ∧ Grows m r.2 := by
  intro k
  induction k with
  | zero => intro W m n h; omega
  | succ k ih =>
    intro W m n hk hn b g
    rw [copySubgraphLive_eq, copySubgraph_eq]
    by_cases hm : (AMap.get m n).isSome
    · rw [if_pos hm, if_pos hm]
      exact ⟨rfl, fun r h => by cases h; exact ⟨b, fun _ h => h⟩⟩
    · rw [if_neg hm, if_neg hm]
      have hm' : AMap.get m n = none := by simpa using hm
      have hm0 : AMap.get m0 n = none := by
        cases h : AMap.get m0 n with
        | none => rfl
        | some v => exact absurd (g n (by rw [h]; rfl)) hm
      cases hc : W.copyNode n t f with
      | none => exact ⟨rfl, fun r h => by cases h⟩
      | some q =>
        simp only [Option.bind_some]
        have b1 : Behind W0 m0 q.1 (AMap.set m n q.2) := b.node hc
        obtain ⟨xs, hx, hxs⟩ := o.edges n hn
        have hlt := o.lt n hn
        have hx0 : (W0.heap.outgoing n).enum W0.heap.slot1 W0.heap.idBase = some xs := hx
        have y0 := EdgeMap.enum_yields hx0
        have hq : q.1.heap.nodeEdges n .outgoing = some xs := by
          show (q.1.heap.outgoing n).enum q.1.heap.slot1 q.1.heap.idBase = some xs
          rw [b1.out n hlt]
          exact EdgeMap.enum_kept b1.base hx0 (fun e he => (b1.edge e (hxs e he).1).1)
        rw [hq, b1.out n hlt]
        simp only [Option.bind_some]
        have gset : Grows m (AMap.set m n q.2) := fun x hx => by
          rw [AMap.get_set]; split
          · rfl
          · exact hx
        have loop : ∀ (ys : List Nat) (it : MapIt) (W1 : World) (m1 : AMap Nat Nat), (∀ e ∈ ys, e ∈ xs) →
            EdgeMap.Yields W0.heap.slot1 (W0.heap.outgoing n) it ys → Behind W0 m0 W1 m1 → Grows (AMap.set m n q.2) m1 →
            copyOutLive t f (W1, m1) n it = ys.foldlM (fun st e => (copySubgraph t f st (st.1.heap.eTo e)).bind
              (fun st => (st.1.copyEdge e t f st.2).bind (fun r => some (r.1, st.2)))) (W1, m1) ∧
            ∀ r, ys.foldlM (fun st e => (copySubgraph t f st (st.1.heap.eTo e)).bind
              (fun st => (st.1.copyEdge e t f st.2).bind (fun r => some (r.1, st.2)))) (W1, m1) = some r →
              Behind W0 m0 r.1 r.2 ∧ Grows m1 r.2 := by
          intro ys
          induction ys with
          | nil =>
            intro it W1 m1 _ y b1 g1
            cases y with
            | done a =>
              exact ⟨copyOutLive_none (st := (W1, m1)) (by rw [b1.out n hlt]; exact EdgeMap.mapNext_congr_none a),
                fun r h => by cases h; exact ⟨b1, fun _ h => h⟩⟩
          | cons e ys ihy =>
            intro it W1 m1 hys y b1 g1
            cases y with
            | step a y' =>
              obtain ⟨e1, e2, e3⟩ := hxs e (hys e (by simp))
              have hto : W1.heap.eTo e = W0.heap.eTo e := (b1.edge e e1).2.2
              rw [copyOutLive_some (st := (W1, m1)) (by
                rw [b1.out n hlt]; exact EdgeMap.mapNext_congr (b1.edge e e1).1 a)]
              have hless : left ns m1 < k := by
                have h1 := g1.left (ns := ns)
                have h2 := left_set (v := q.2) hn hm'
                omega
              have gm : Grows m0 m1 := fun x hx => g1 x (gset x (g x hx))
              obtain ⟨i1, i2⟩ := ih (n := W1.heap.eTo e) hless (by rw [hto]; exact e3) b1 gm
              rw [List.foldlM_cons]
              simp only
              rw [i1]
              cases hs : copySubgraph t f (W1, m1) (W1.heap.eTo e) with
              | none => exact ⟨rfl, fun r h => by cases h⟩
              | some st =>
                obtain ⟨W2, m2⟩ := st
                obtain ⟨b2, g2⟩ := i2 _ hs
                simp only [Option.bind_some]
                cases hce : W2.copyEdge e t f m2 with
                | none => exact ⟨rfl, fun r h => by cases h⟩
                | some w =>
                  have b3 := Behind.copyEdge (e := e) b2 (by rw [(b2.edge e e1).2.1, e2]; exact hm0) hce
                  obtain ⟨j1, j2⟩ := ihy _ w.1 m2 (fun z hz => hys z (by simp [hz])) y' b3 (fun x hx => g2 x (g1 x hx))
                  refine ⟨j1, fun r h => ?_⟩
                  obtain ⟨j3, j4⟩ := j2 r h
                  exact ⟨j3, fun x hx => j4 x (g2 x hx)⟩
        obtain ⟨l1, l2⟩ := loop xs _ q.1 _ (fun _ h => h) y0 b1 (fun _ h => h)
        refine ⟨l1, fun r h => ?_⟩
        obtain ⟨l3, l4⟩ := l2 r h
        exact ⟨l3, fun x hx => l4 x (gset x hx)⟩

end World
end LPG

import Verif.Model.Lists
import Verif.Proofs.Base

namespace LPG

/-- `Seg P prev xs nxt`: the edges `xs` are chained by the `prev`/`next` pointers of the slot `P`, the first
one having `prev` as its predecessor and the last one `nxt` as its successor. -/
def Seg (P : Slot) : Option Nat → List Nat → Option Nat → Prop
  | _, [], _ => True
  | prev, x :: xs, nxt => (P x).prev = prev ∧ (P x).next = xs.head?.or nxt ∧ Seg P (some x) xs nxt

/-- `l` is a well-formed doubly linked list with the elements `xs`. -/
structure DLL (P : Slot) (l : EList) (xs : List Nat) : Prop where
  head : l.head = xs.head?
  tail : l.tail = xs.getLast?
  n : l.n = xs.length
  seg : Seg P none xs none

theorem Seg.congr {P Q : Slot} {xs : List Nat} {nxt : Option Nat} :
    ∀ {prev}, (∀ x ∈ xs, Q x = P x) → Seg P prev xs nxt → Seg Q prev xs nxt := by
  induction xs with
  | nil => intros; trivial
  | cons x xs ih =>
    intro prev h hl
    obtain ⟨h1, h2, h3⟩ := hl
    have hx := h x (by simp)
    exact ⟨by rw [hx, h1], by rw [hx, h2], ih (fun y hy => h y (by simp [hy])) h3⟩

theorem DLL.congr {P Q : Slot} {l : EList} {xs : List Nat} (h : ∀ x ∈ xs, Q x = P x) (d : DLL P l xs) : DLL Q l xs :=
  ⟨d.head, d.tail, d.n, d.seg.congr h⟩

theorem seg_append {P : Slot} {ys : List Nat} {nxt : Option Nat} : ∀ {xs : List Nat} {prev : Option Nat},
    Seg P prev (xs ++ ys) nxt ↔ Seg P prev xs (ys.head?.or nxt) ∧ Seg P (xs.getLast?.or prev) ys nxt := by
  intro xs
  induction xs with
  | nil => intro prev; simp [Seg]
  | cons x xs ih =>
    intro prev
    simp only [List.cons_append, Seg, ih]
    have e1 : (xs ++ ys).head?.or nxt = xs.head?.or (ys.head?.or nxt) := by
      cases xs <;> simp
    have e2 : xs.getLast?.or (some x) = (x :: xs).getLast?.or prev := by
      rw [List.getLast?_cons]; cases xs.getLast? <;> simp
    rw [e1, e2]
    grind

theorem seg_setNext {P : Slot} {xs : List Nat} {t : Nat} {prev nxt nxt' : Option Nat}
    (hn : t ∉ xs) (h : Seg P prev (xs ++ [t]) nxt) :
    Seg (upd P t { P t with next := nxt' }) prev (xs ++ [t]) nxt' := by
  rw [seg_append] at h ⊢
  obtain ⟨h1, h2⟩ := h
  refine ⟨?_, ?_⟩
  · apply Seg.congr (P := P)
    · intro x hx; apply upd_other; rintro rfl; exact hn hx
    · simpa using h1
  · simp only [Seg, List.head?_nil, upd_same] at h2 ⊢
    exact ⟨h2.1, by simp, trivial⟩

theorem seg_setPrev {P : Slot} {ys : List Nat} {y : Nat} {prev prev' nxt : Option Nat}
    (hn : y ∉ ys) (h : Seg P prev (y :: ys) nxt) :
    Seg (upd P y { P y with prev := prev' }) prev' (y :: ys) nxt := by
  obtain ⟨_, h2, h3⟩ := h
  refine ⟨by simp, by simpa using h2, ?_⟩
  apply Seg.congr (P := P) _ h3
  intro x hx; apply upd_other; rintro rfl; exact hn hx

theorem EList.add_spec {P : Slot} {l : EList} {xs : List Nat} {e : Nat} (hd : DLL P l xs) (hn : xs.Nodup)
    (he : e ∉ xs) :
    DLL (l.add P e).1 (l.add P e).2 (xs ++ [e]) ∧ ∀ x, x ∉ xs → x ≠ e → (l.add P e).1 x = P x := by
  obtain ⟨hh, ht, hnn, hs⟩ := hd
  rcases List.eq_nil_or_concat xs with rfl | ⟨ys, t, rfl⟩
  · simp only [List.head?_nil, List.getLast?_nil] at hh ht
    constructor
    · constructor
      · simp [EList.add, hh]
      · simp [EList.add]
      · simp at hnn; simp [EList.add, hnn]
      · simp [EList.add, ht, Seg]
    · intro x _ hx
      simp [EList.add, ht, upd_apply, hx]
  · simp only [List.concat_eq_append] at *
    have ht' : l.tail = some t := by simpa using ht
    have het : e ≠ t := by rintro rfl; simp at he
    have hey : e ∉ ys := by intro h; exact he (by simp [h])
    have hty : t ∉ ys := by
      rw [List.nodup_append] at hn
      intro h; exact hn.2.2 t h t (by simp) rfl
    constructor
    · constructor
      · have : (ys ++ [t]).head? ≠ none := by simp
        cases hq : (ys ++ [t]).head? with
        | none => exact absurd hq this
        | some h =>
          rw [hq] at hh
          simp [EList.add, hh]
          cases ys <;> simpa using hq.symm
      · simp [EList.add]
      · simp [EList.add, hnn]; omega
      · rw [seg_append]
        constructor
        · have key := seg_setNext (nxt' := some e) hty hs
          have key2 := Seg.congr (Q := (l.add P e).1) (P := upd P t { P t with next := some e }) ?_ key
          · simpa using key2
          · intro x hx
            have hxe : x ≠ e := by rintro rfl; exact he hx
            by_cases hxt : x = t
            · subst hxt; simp [EList.add, ht', upd_apply, hxe]
            · simp [EList.add, ht', upd_apply, hxe, hxt]
        · simp [EList.add, ht', Seg, upd_apply, het]
    · intro x hx hxe
      have hxt : x ≠ t := by rintro rfl; simp at hx
      simp [EList.add, ht', upd_apply, hxe, hxt]

theorem EList.remove_spec {P : Slot} {l : EList} {as bs : List Nat} {e : Nat}
    (hd : DLL P l (as ++ e :: bs)) (hn : (as ++ e :: bs).Nodup) :
    DLL (l.remove P e).1 (l.remove P e).2 (as ++ bs) ∧
    ∀ x, x ∉ as ++ e :: bs → (l.remove P e).1 x = P x := by
  obtain ⟨hh, ht, hnn, hs⟩ := hd
  rw [List.nodup_append] at hn
  obtain ⟨hna, hnb, hdis⟩ := hn
  simp only [List.nodup_cons] at hnb
  have hea : e ∉ as := fun h => hdis e h e (by simp) rfl
  rw [seg_append] at hs
  obtain ⟨hsa, hpe, hne, hsb⟩ := hs
  simp only [List.head?_cons, Option.some_or, Option.or_none] at hsa hne hpe
  rcases List.eq_nil_or_concat as with rfl | ⟨as', p, rfl⟩
  · have hpe' : (P e).prev = none := by simpa using hpe
    cases bs with
    | nil =>
      have hne' : (P e).next = none := by simpa using hne
      refine ⟨⟨?_, ?_, ?_, ?_⟩, ?_⟩
      · simp [EList.remove, hpe', hne']
      · simp [EList.remove, hpe', hne']
      · simp [EList.remove, hpe', hne', hnn]
      · simp [Seg]
      · intro x hx
        simp at hx
        simp [EList.remove, hpe', hne', upd_apply, hx]
    | cons b bs =>
      have hne' : (P e).next = some b := by simpa using hne
      have hbe : b ≠ e := by rintro rfl; simp at hnb
      have hbb : b ∉ bs := (List.nodup_cons.1 hnb.2).1
      refine ⟨⟨?_, ?_, ?_, ?_⟩, ?_⟩
      · simp [EList.remove, hpe', hne']
      · simp [EList.remove, hpe', hne']; rw [ht]; simp
      · simp [EList.remove, hpe', hne', hnn]
      · have key := seg_setPrev (prev' := none) hbb hsb
        refine Seg.congr ?_ key
        intro x hx
        have hxe : x ≠ e := by rintro rfl; exact hnb.1 hx
        by_cases hxb : x = b
        · subst hxb; simp [EList.remove, hpe', hne', upd_apply, hxe]
        · simp [EList.remove, hpe', hne', upd_apply, hxe, hxb]
      · intro x hx
        simp at hx
        simp [EList.remove, hpe', hne', upd_apply, hx]
  · simp only [List.concat_eq_append] at *
    have hpe' : (P e).prev = some p := by simpa using hpe
    have hpe2 : p ≠ e := by rintro rfl; simp at hea
    have hpa : p ∉ as' := by
      rw [List.nodup_append] at hna
      intro h; exact hna.2.2 p h p (by simp) rfl
    have hpb : p ∉ bs := fun h => hdis p (by simp) p (by simp [h]) rfl
    cases bs with
    | nil =>
      have hne' : (P e).next = none := by simpa using hne
      refine ⟨⟨?_, ?_, ?_, ?_⟩, ?_⟩
      · simp [EList.remove, hpe', hne', upd_apply, hpe2.symm]; rw [hh]; cases as' <;> simp
      · simp [EList.remove, hpe', hne', upd_apply, hpe2.symm]
      · simp [EList.remove, hpe', hne', upd_apply, hpe2.symm]; rw [hnn]; simp; omega
      · have key := seg_setNext (nxt' := none) hpa hsa
        simp only [List.append_nil]
        refine Seg.congr ?_ key
        intro x hx
        have hxe : x ≠ e := by rintro rfl; exact hea hx
        by_cases hxp : x = p
        · subst hxp; simp [EList.remove, hpe', hne', upd_apply, hpe2.symm, hxe]
        · simp [EList.remove, hpe', hne', upd_apply, hpe2.symm, hxe, hxp]
      · intro x hx
        simp at hx
        simp [EList.remove, hpe', hne', upd_apply, hpe2.symm, hx]
    | cons b bs =>
      have hne' : (P e).next = some b := by simpa using hne
      have hbe : b ≠ e := by rintro rfl; simp at hnb
      have hbp : b ≠ p := by rintro rfl; simp at hpb
      have hbb : b ∉ bs := (List.nodup_cons.1 hnb.2).1
      have hba : b ∉ as' := fun h => hdis b (by simp [h]) b (by simp) rfl
      refine ⟨⟨?_, ?_, ?_, ?_⟩, ?_⟩
      · simp [EList.remove, hpe', hne', upd_apply, hpe2.symm, hbe.symm]; rw [hh]; cases as' <;> simp
      · simp [EList.remove, hpe', hne', upd_apply, hpe2.symm, hbe.symm]; rw [ht]; simp
      · simp [EList.remove, hpe', hne', upd_apply, hpe2.symm, hbe.symm]; rw [hnn]; simp; omega
      · rw [seg_append]
        constructor
        · have key := seg_setNext (nxt' := some b) hpa hsa
          simp only [List.head?_cons, Option.some_or]
          refine Seg.congr ?_ key
          intro x hx
          have hxe : x ≠ e := by rintro rfl; exact hea hx
          have hxb : x ≠ b := by rintro rfl; exact hdis x hx x (by simp) rfl
          by_cases hxp : x = p
          · subst hxp; simp [EList.remove, hpe', hne', upd_apply, hpe2.symm, hxe, hxb]
          · simp [EList.remove, hpe', hne', upd_apply, hpe2.symm, hxe, hxp, hxb]
        · have key := seg_setPrev (prev' := some p) hbb hsb
          simp only [List.getLast?_append, List.getLast?_singleton, Option.some_or]
          refine Seg.congr ?_ key
          intro x hx
          have hxe : x ≠ e := by rintro rfl; exact hnb.1 hx
          have hxp : x ≠ p := by rintro rfl; exact hpb hx
          by_cases hxb : x = b
          · subst hxb; simp [EList.remove, hpe', hne', upd_apply, hpe2.symm, hxe, hxp]
          · simp [EList.remove, hpe', hne', upd_apply, hpe2.symm, hxe, hxp, hxb]
      · intro x hx
        simp at hx
        simp [EList.remove, hpe', hne', upd_apply, hpe2.symm, hx]

theorem walk_seg {P : Slot} {xs : List Nat} : ∀ {prev : Option Nat} {fuel : Nat}, Seg P prev xs none → xs.length ≤ fuel →
    walk (fun x => (P x).next) fuel xs.head? = some xs := by
  induction xs with
  | nil => intro prev fuel _ _; cases fuel <;> simp [walk]
  | cons x xs ih =>
    intro prev fuel h hf
    obtain ⟨_, h2, h3⟩ := h
    cases fuel with
    | zero => simp at hf
    | succ fuel =>
      have := ih (fuel := fuel) h3 (by simpa using hf)
      simp only [Option.or_none] at h2
      simp [walk, h2, this]

theorem DLL.walk {P : Slot} {l : EList} {xs : List Nat} {fuel : Nat} (h : DLL P l xs) (hf : xs.length ≤ fuel) :
    LPG.walk (fun x => (P x).next) fuel l.head = some xs := by
  rw [h.head]; exact walk_seg h.seg hf

end LPG

import Verif.Proofs.JsonRound
import Verif.Proofs.JsonRead
/-! Which texts `Decode` accepts, and what it makes of any text. -/
namespace LPG.Json
open State

/-! ## Acceptance -/

/-- The members before the next one, with the commas. `first`: there is nothing before them. -/
def memText (first : Bool) (ms : List (String × JVal)) : List Tok := if first then textMembers ms else textMoreMembers ms

/-- The rest of a text that is accepted: the other members, or an odd key. -/
def Accepted (first : Bool) (ts : List Tok) : Prop :=
  (∃ ms rest, Shape ms ∧ ts = memText first ms ++ .rbrace :: rest) ∨
  (∃ ms k r, Shape ms ∧ ts = memText first ms ++ (if first && ms.isEmpty then [] else [.comma]) ++ .str k :: r ∧
    k ≠ "nodes" ∧ k ≠ "edges" ∧ ∀ v r', Skips v → r ≠ .colon :: (text v ++ r'))

theorem Accepted.cons {first : Bool} {k : String} {v : JVal} {r : List Tok} (h : Accepted false r)
    (hs : (k = "nodes" → ListOf NodeShape v) ∧ (k = "edges" → ListOf EdgeShape v) ∧
      (k ≠ "nodes" → k ≠ "edges" → Skips v)) :
    Accepted first ((if first then [] else [.comma]) ++ .str k :: .colon :: (text v ++ r)) := by
  rcases h with ⟨ms, rest, h1, rfl⟩ | ⟨ms, k', r', h1, rfl, h2⟩
  · refine Or.inl ⟨(k, v) :: ms, rest, ?_, ?_⟩
    · exact List.forall_mem_cons.2 ⟨hs, h1⟩
    · cases first <;> simp [memText, textMembers, textMoreMembers]
  · refine Or.inr ⟨(k, v) :: ms, k', r', ?_, ?_, h2⟩
    · exact List.forall_mem_cons.2 ⟨hs, h1⟩
    · cases first <;> simp [memText, textMembers, textMoreMembers]

/-- The next token in front of a member. -/
theorem key_token {first : Bool} {ts : List Tok} {t : GoTok} {d : Decoder}
    (h : token (if first then .objectStart else .objectComma) [.topValue] ts = some (t, d)) :
    (t = .rbrace ∧ ∃ r, ts = .rbrace :: r) ∨
    ∃ k r, t = .str k ∧ ts = (if first then [] else [.comma]) ++ .str k :: r ∧ d = ⟨r, .objectColon, [.topValue]⟩ := by
  cases first
  · cases ts with
    | nil => simp [token] at h
    | cons a ts =>
      cases a <;> simp [token, TState.valueAllowed] at h
      · exact Or.inl ⟨h.1.symm, _, rfl⟩
      · cases ts with
        | nil => simp [token] at h
        | cons a ts =>
          cases a <;> simp [token, TState.valueAllowed] at h
          exact Or.inr ⟨_, _, h.1.symm, rfl, h.2.symm⟩
  · cases ts with
    | nil => simp [token] at h
    | cons a ts =>
      cases a <;> simp [token, TState.valueAllowed] at h
      · exact Or.inl ⟨h.1.symm, _, rfl⟩
      · exact Or.inr ⟨_, _, h.1.symm, rfl, h.2.symm⟩

theorem value_sound {r : List Tok} {v : JVal} {d : Decoder}
    (h : Decoder.value ⟨r, .objectColon, [.topValue]⟩ = some (v, d)) :
    ∃ q, r = .colon :: (text v ++ q) ∧ d = ⟨q, .objectComma, [.topValue]⟩ := by
  cases r with
  | nil => simp [Decoder.value] at h
  | cons a r =>
    cases a <;> simp [Decoder.value, TState.valueAllowed] at h
    split at h
    · rename_i w q hq
      cases h
      exact ⟨q, by rw [readValue_sound hq], rfl⟩
    · cases h

/-- More rounds do no harm. -/
theorem loop_succ {c : Codec} : ∀ {f D : Nat} {d : Decoder} {l l' : Load}, decodeLoop c f D d l = some (none, l') →
    decodeLoop c (f + 1) D d l = some (none, l') := by
  intro f
  induction f with
  | zero => intro D d l l' h; simp [decodeLoop] at h
  | succ f ih =>
    intro D d l l' h
    rw [decodeLoop] at h ⊢
    revert h
    repeat' split
    all_goals first
      | exact fun h => h
      | exact fun h => ih h

theorem loop_more {c : Codec} {f D : Nat} {d : Decoder} {l l' : Load} (j : Nat)
    (h : decodeLoop c f D d l = some (none, l')) : decodeLoop c (f + j) D d l = some (none, l') := by
  induction j with
  | zero => exact h
  | succ j ih => exact loop_succ ih

theorem loop_accepted {c : Codec} : ∀ (f : Nat) (first : Bool) (ts : List Tok) (l l' : Load),
    decodeLoop c f 0 ⟨ts, if first then .objectStart else .objectComma, [.topValue]⟩ l = some (none, l') →
    Accepted first ts := by
  intro f
  induction f using Nat.strongRecOn with
  | _ f ih =>
    intro first ts l l' h
    cases f with
    | zero => simp [decodeLoop] at h
    | succ f =>
      rw [decodeLoop] at h
      split at h
      · cases h
      · rename_i t d ht
        rcases key_token ht with ⟨rfl, r, rfl⟩ | ⟨k, r, rfl, rfl, rfl⟩
        · exact Or.inl ⟨[], r, by simp [Shape], by cases first <;> simp [memText, textMembers, textMoreMembers]⟩
        · simp only [if_true] at h
          by_cases hn : k = "nodes"
          · simp only [if_pos hn] at h
            split at h
            · cases h
            · rename_i v d hv
              obtain ⟨q, rfl, rfl⟩ := value_sound hv
              split at h
              · cases h
              · rename_i ns hns
                split at h
                · exact (ih f (by omega) false _ _ _ h).cons
                    ⟨fun _ => (toSlice_iff toNode_iff v).1 (by rw [hns]; simp), fun he => absurd (hn.symm.trans he) (by decide),
                      fun hc => absurd hn hc⟩
                · rename_i hx
                  exact absurd h (hx _)
          · simp only [if_neg hn] at h
            by_cases he : k = "edges"
            · simp only [if_pos he] at h
              split at h
              · cases h
              · rename_i v d hv
                obtain ⟨q, rfl, rfl⟩ := value_sound hv
                split at h
                · cases h
                · rename_i es hes
                  split at h
                  · exact (ih f (by omega) false _ _ _ h).cons
                      ⟨fun hc => absurd hc hn, fun _ => (toSlice_iff toFullEdge_iff v).1 (by rw [hes]; simp),
                        fun _ hc => absurd he hc⟩
                  · rename_i hx
                    exact absurd h (hx _)
            · simp only [if_neg he] at h
              by_cases hodd : ∃ v q, Skips v ∧ r = .colon :: (text v ++ q)
              · obtain ⟨v, q, hl, rfl⟩ := hodd
                obtain ⟨j, j1, j2⟩ := skip_value c v 1 0 .objectValue [.topValue] q l rfl hl
                have e : Decoder.token ⟨.colon :: (text v ++ q), .objectColon, [.topValue]⟩ =
                    Decoder.token ⟨text v ++ q, .objectValue, [.topValue]⟩ := by simp [Decoder.token, token]
                rw [decodeLoop_congr e] at h
                have h' := loop_more j h
                rw [j2] at h'
                exact (ih f (by omega) false q l l' h').cons ⟨fun hc => absurd hc hn, fun hc => absurd hc he, fun _ _ => hl⟩
              · refine Or.inr ⟨[], k, r, by simp [Shape], ?_, hn, he, fun v r' h1 h2 => hodd ⟨v, r', h1, h2⟩⟩
                cases first <;> simp [memText, textMembers, textMoreMembers]

theorem decode_accepted {c : Codec} {s s' : State} {ts : List Tok} (h : decode c s ts = some (none, s')) :
    (∃ ms rest, Shape ms ∧ ts = text (.obj ms) ++ rest) ∨ OddKey ts := by
  unfold decode at h
  split at h
  · cases h
  · rename_i d ht
    have : ∃ r, ts = .lbrace :: r ∧ d = ⟨r, .objectStart, [.topValue]⟩ := by
      cases ts with
      | nil => simp [Decoder.token, token] at ht
      | cons a ts =>
        cases a <;> simp [Decoder.token, token, TState.valueAllowed] at ht
        exact ⟨_, rfl, ht.symm⟩
    obtain ⟨r, rfl, rfl⟩ := this
    obtain ⟨⟨err, l⟩, h1, h2⟩ := Option.map_eq_some_iff.1 h
    cases h2
    rcases loop_accepted _ true r _ _ h1 with ⟨ms, rest, h3, rfl⟩ | ⟨ms, k, q, h3, rfl, h4⟩
    · exact Or.inl ⟨ms, rest, h3, by simp [text, memText]⟩
    · exact Or.inr ⟨ms, k, q, h3, by simp [memText], h4⟩
  · cases h

/-- A text begins with the text of at most one value. -/
theorem text_inj {v w : JVal} {r q : List Tok} (h : text v ++ r = text w ++ q) : v = w ∧ r = q := by
  have h1 := readValue_text v (2 * (text v).length + 2 * (text w).length) r (by omega)
  have h2 := readValue_text w (2 * (text v).length + 2 * (text w).length) q (by omega)
  rw [h, h2] at h1
  cases h1
  exact ⟨rfl, rfl⟩

theorem elementsOf_cons {key k : String} {v : JVal} {ms : List (String × JVal)} (h : k ≠ key) :
    elementsOf key ((k, v) :: ms) = elementsOf key ms := by
  cases v <;> simp [elementsOf, h]

theorem elementsOf_slice {α : Type} {f : JVal → Option α} {R : JVal → α → Prop} (h : ∀ v x, f v = some x → R v x)
    {key : String} {v : JVal} {l m : List α} {ms : List (String × JVal)} (hl : toSlice f v = some l)
    (hm : List.Forall₂ R (elementsOf key ms) m) : List.Forall₂ R (elementsOf key ((key, v) :: ms)) (l ++ m) := by
  rcases toSlice_read h hl with ⟨rfl, rfl⟩ | ⟨_, vs, rfl, h2⟩
  · simpa [elementsOf] using hm
  · simp only [elementsOf, if_true]
    exact List.rel_append h2 hm

theorem document_read {ms : List (String × JVal)} {N : List DocNode} {E : List FullEdge} (h : Document ms N E) :
    List.Forall₂ (OrNull {} NodeRead) (elementsOf "nodes" ms) N ∧ List.Forall₂ (OrNull {} EdgeRead) (elementsOf "edges" ms) E := by
  induction h with
  | nil => exact ⟨.nil, .nil⟩
  | nodes h1 h2 ih =>
    exact ⟨elementsOf_slice (fun _ _ => toNode_read) h1 ih.1, by rw [elementsOf_cons (by decide)]; exact ih.2⟩
  | edges h1 h2 ih =>
    exact ⟨by rw [elementsOf_cons (by decide)]; exact ih.1, elementsOf_slice (fun _ _ => toFullEdge_read) h1 ih.2⟩
  | other h1 h2 h3 h4 ih => exact ⟨by rw [elementsOf_cons h1]; exact ih.1, by rw [elementsOf_cons h2]; exact ih.2⟩

/-- The unknown keys of a document are followed by their values. -/
theorem notOdd_members {ms : List (String × JVal)} :
    ∀ {ms' : List (String × JVal)} {first : Bool} {rest r : List Tok} {k : String},
    (∀ p ∈ ms, p.1 ≠ "nodes" → p.1 ≠ "edges" → Skips p.2) →
    memText first ms ++ .rbrace :: rest = memText first ms' ++ (if first && ms'.isEmpty then [] else [.comma]) ++ .str k :: r →
    k ≠ "nodes" → k ≠ "edges" → ∃ v r', Skips v ∧ r = .colon :: (text v ++ r') := by
  induction ms with
  | nil =>
    intro ms' first rest r k _ h _ _
    exfalso
    cases ms' with
    | nil => cases first <;> simp [memText, textMembers, textMoreMembers] at h
    | cons p ms' => cases first <;> simp [memText, textMembers, textMoreMembers] at h
  | cons p ms ih =>
    obtain ⟨k0, v0⟩ := p
    intro ms' first rest r k hs h hn he
    cases ms' with
    | nil =>
      have : k0 = k ∧ .colon :: (text v0 ++ (textMoreMembers ms ++ .rbrace :: rest)) = r := by
        cases first <;> simpa [memText, textMembers, textMoreMembers] using h
      obtain ⟨rfl, rfl⟩ := this
      exact ⟨v0, _, hs (k0, v0) List.mem_cons_self hn he, rfl⟩
    | cons p' ms' =>
      obtain ⟨k1, v1⟩ := p'
      have : text v0 ++ (textMoreMembers ms ++ .rbrace :: rest) = text v1 ++ (textMoreMembers ms' ++ [.comma] ++ .str k :: r) := by
        cases first <;> simp [memText, textMembers, textMoreMembers] at h <;> simpa using h.2
      obtain ⟨_, h2⟩ := text_inj this
      exact ih (ms' := ms') (first := false) (fun p hp => hs p (by simp [hp])) (by simpa [memText] using h2) hn he

theorem notOdd {ms : List (String × JVal)} {rest : List Tok}
    (hs : ∀ p ∈ ms, p.1 ≠ "nodes" → p.1 ≠ "edges" → Skips p.2) : ¬ OddKey (text (.obj ms) ++ rest) := by
  rintro ⟨ms', k, r, _, h, hn, he, hodd⟩
  obtain ⟨v, r', h1, h2⟩ := notOdd_members (ms := ms) (ms' := ms') (first := true) (rest := rest) hs
    (by simpa [memText, text] using h) hn he
  exact hodd v r' h1 h2

/-! ## Any text -/

theorem token_suffix : ∀ {ts : List Tok} {st : TState} {stack : List TState} {t : GoTok} {d : Decoder},
    token st stack ts = some (t, d) → d.toks <:+ ts
  | [], st, stack, t, d, h => by cases h
  | .colon :: r, st, stack, t, d, h => by
    rw [token] at h
    split at h
    · exact (token_suffix h).trans (List.suffix_cons _ _)
    · cases h
  | .comma :: r, st, stack, t, d, h => by
    rw [token] at h
    split at h
    · exact (token_suffix h).trans (List.suffix_cons _ _)
    · split at h
      · exact (token_suffix h).trans (List.suffix_cons _ _)
      · cases h
  | .lbrack :: r, st, stack, t, d, h | .lbrace :: r, st, stack, t, d, h | .null :: r, st, stack, t, d, h
  | .num _ :: r, st, stack, t, d, h | .real _ :: r, st, stack, t, d, h | .bool _ :: r, st, stack, t, d, h => by
    simp only [token] at h
    split at h
    · cases h; exact List.suffix_cons _ _
    · cases h
  | .str _ :: r, st, stack, t, d, h => by
    simp only [token] at h
    split at h
    · cases h; exact List.suffix_cons _ _
    · split at h
      · cases h; exact List.suffix_cons _ _
      · cases h
  | .rbrack :: r, st, stack, t, d, h | .rbrace :: r, st, stack, t, d, h => by
    simp only [token] at h
    split at h
    · split at h
      · cases h; exact List.suffix_cons _ _
      · cases h
    · cases h

theorem value_infix {d d' : Decoder} {v : JVal} (h : d.value = some (v, d')) :
    ∃ a, d.toks = a ++ text v ++ d'.toks := by
  have read : ∀ {st : TState} {ts : List Tok} {stack : List TState},
      (if st.valueAllowed then
        match readValue (2 * ts.length) ts with
        | some (v, r) => some (v, (⟨r, st.valueEnd, stack⟩ : Decoder))
        | none => none
      else none) = some (v, d') → ts = text v ++ d'.toks := by
    intro st ts stack h
    split at h
    · split at h
      · rename_i w r hr
        cases h
        exact readValue_sound hr
      · cases h
    · cases h
  unfold Decoder.value at h
  simp only at h
  split at h
  · rename_i r h1 h2
    exact ⟨[.comma], by rw [h2, read h]; simp⟩
  · cases h
  · rename_i r h1 h2
    exact ⟨[.colon], by rw [h2, read h]; simp⟩
  · cases h
  · exact ⟨[], by rw [List.nil_append]; exact read h⟩

theorem elem_infix : ∀ {vs : List JVal} {v : JVal}, v ∈ vs → ∃ a b, textMore vs = a ++ text v ++ b
  | w :: vs, v, h => by
    rcases List.mem_cons.1 h with rfl | h
    · exact ⟨[.comma], textMore vs, by simp [textMore]⟩
    · obtain ⟨a, b, hab⟩ := elem_infix h
      exact ⟨.comma :: text w ++ a, b, by simp [textMore, hab]⟩

theorem arr_infix {vs : List JVal} {v : JVal} (h : v ∈ vs) : ∃ a b, text (.arr vs) = a ++ text v ++ b := by
  cases vs with
  | nil => cases h
  | cons w vs =>
    rcases List.mem_cons.1 h with rfl | h
    · exact ⟨[.lbrack], textMore vs ++ [.rbrack], by simp [text, textElems]⟩
    · obtain ⟨a, b, hab⟩ := elem_infix h
      exact ⟨.lbrack :: (text w ++ a), b ++ [.rbrack], by simp [text, textElems, hab]⟩

theorem mem_forall₂ {α β : Type} {R : α → β → Prop} : ∀ {l : List α} {m : List β}, List.Forall₂ R l m → ∀ {y}, y ∈ m →
    ∃ x ∈ l, R x y
  | _, _, .cons h t, y, hy => by
    rcases List.mem_cons.1 hy with rfl | hy
    · exact ⟨_, by simp, h⟩
    · obtain ⟨x, h1, h2⟩ := mem_forall₂ t hy
      exact ⟨x, by simp [h1], h2⟩

/-- What was read from a list in the text is in the text. -/
theorem slice_infix {α : Type} {f : JVal → Option α} {R : JVal → α → Prop} (h : ∀ v x, f v = some x → R v x)
    {ts a b : List Tok} {v : JVal} {l : List α} (ht : ts = a ++ text v ++ b) (hl : toSlice f v = some l) {x : α} (hx : x ∈ l) :
    ∃ a v b, ts = a ++ text v ++ b ∧ R v x := by
  rcases toSlice_read h hl with ⟨_, rfl⟩ | ⟨_, vs, rfl, h2⟩
  · cases hx
  · obtain ⟨w, h3, h4⟩ := mem_forall₂ h2 hx
    obtain ⟨a', b', h5⟩ := arr_infix h3
    exact ⟨a ++ a', w, b' ++ b, by rw [ht, h5]; simp, h4⟩

variable {c : Codec} {U Ln Le : Prop} {Pn Pe : String → Value → Prop} {R : List Nat} {s0 : State} {σ0 : Spec}

/-- What the rest of `Decode` does with the text `ts`, whatever it is. -/
def AnyRest (c : Codec) (U Ln Le : Prop) (Pn Pe : String → Value → Prop) (R : List Nat) (s0 : State) (σ0 : Spec) (ts : List Tok)
    (r : Outcome) : Prop :=
  (U → r ≠ none) ∧ ∀ err l', r = some (err, l') → ∃ P' Q' σ', Loading c U Ln Le Pn Pe R s0 σ0 P' Q' l' σ' ∧
    (∀ p ∈ P', NodeIn ts p.1) ∧ ∀ q ∈ Q', EdgeIn ts q.1

theorem AnyRest.stop {ts : List Tok} {P : List (DocNode × Nat)} {Q : List (FullEdge × Nat)} {l : Load} {σ : Spec}
    {err : Option Err} (h : Loading c U Ln Le Pn Pe R s0 σ0 P Q l σ) (hP : ∀ p ∈ P, NodeIn ts p.1) (hQ : ∀ q ∈ Q, EdgeIn ts q.1) :
    AnyRest c U Ln Le Pn Pe R s0 σ0 ts (some (err, l)) := by
  refine ⟨fun _ hh => (by cases hh), fun err l' hh => ?_⟩
  cases hh
  exact ⟨P, Q, σ, h, hP, hQ⟩

theorem Part.any {ts : List Tok} {P : List (DocNode × Nat)} {Q : List (FullEdge × Nat)} {q E : List FullEdge}
    {N : List DocNode} {r : Outcome} {g : Load → Outcome} (h : Part c U Ln Le Pn Pe R s0 σ0 P Q q N E r)
    (hP : ∀ p ∈ P, NodeIn ts p.1) (hQ : ∀ q ∈ Q, EdgeIn ts q.1) (hq : ∀ e ∈ q, EdgeIn ts e) (hN : ∀ x ∈ N, NodeIn ts x)
    (hE : ∀ e ∈ E, EdgeIn ts e)
    (hg : ∀ P' Q' l' σ', Loading c U Ln Le Pn Pe R s0 σ0 P' Q' l' σ' → (∀ p ∈ P', NodeIn ts p.1) → (∀ q ∈ Q', EdgeIn ts q.1) →
      (∀ e ∈ l'.queue, EdgeIn ts e) → AnyRest c U Ln Le Pn Pe R s0 σ0 ts (g l')) :
    AnyRest c U Ln Le Pn Pe R s0 σ0 ts (match (generalizing := false) r with | some (none, l') => g l' | r => r) := by
  obtain ⟨h1, h2⟩ := h
  cases r with
  | none => exact ⟨h1, fun err l' hh => by cases hh⟩
  | some x =>
    obtain ⟨err, l1⟩ := x
    obtain ⟨P1, Q1, σ1, k1, kp, k2, k3, k4, k5⟩ := h2 err l1 rfl
    have hP1 : ∀ p ∈ P1, NodeIn ts p.1 := by
      intro p hp
      rcases List.mem_append.1 (k4.subset (List.mem_map_of_mem hp)) with h | h
      · obtain ⟨p', h3, h4⟩ := List.mem_map.1 h
        rw [← h4]; exact hP p' h3
      · exact hN _ h
    have hall : ∀ e ∈ Q1.map Prod.fst ++ l1.queue, EdgeIn ts e := by
      intro e he
      rcases List.mem_append.1 (k5.subset he) with h | h
      · rcases List.mem_append.1 h with h | h
        · obtain ⟨q', h3, h4⟩ := List.mem_map.1 h
          rw [← h4]; exact hQ q' h3
        · exact hq e h
      · exact hE e h
    have hQ1 : ∀ q ∈ Q1, EdgeIn ts q.1 := fun q hq => hall _ (List.mem_append_left _ (List.mem_map_of_mem hq))
    cases err with
    | some x => exact AnyRest.stop k1 hP1 hQ1
    | none => exact hg P1 Q1 l1 σ1 k1 hP1 hQ1 (fun e he => hall e (List.mem_append_right _ he))

theorem loop_any {ts : List Tok} : ∀ (f D : Nat) (d : Decoder) {P : List (DocNode × Nat)} {Q : List (FullEdge × Nat)}
    {l : Load} {σ : Spec}, Loading c U Ln Le Pn Pe R s0 σ0 P Q l σ → (∀ p ∈ P, NodeIn ts p.1) → (∀ q ∈ Q, EdgeIn ts q.1) →
    (∀ e ∈ l.queue, EdgeIn ts e) → d.toks <:+ ts → AnyRest c U Ln Le Pn Pe R s0 σ0 ts (decodeLoop c f D d l)
  | 0, D, d, P, Q, l, σ, h, hP, hQ, hq, hs => AnyRest.stop h hP hQ
  | f + 1, D, d, P, Q, l, σ, h, hP, hQ, hq, hs => by
    rw [decodeLoop]
    split
    · exact AnyRest.stop h hP hQ
    · rename_i t d1 ht
      have hs1 : d1.toks <:+ ts := (token_suffix ht).trans hs
      have again : ∀ D', AnyRest c U Ln Le Pn Pe R s0 σ0 ts (decodeLoop c f D' d1 l) := fun D' => loop_any f D' d1 h hP hQ hq hs1
      split
      · split
        · split
          · split
            · exact AnyRest.stop h hP hQ
            · rename_i v d2 hv
              obtain ⟨a, ha⟩ := value_infix hv
              obtain ⟨b, hb⟩ := hs1
              rw [ha] at hb
              have hs2 : d2.toks <:+ ts := ⟨b ++ (a ++ text v), by rw [← hb]; simp⟩
              split
              · exact AnyRest.stop h hP hQ
              · rename_i ns hns
                have hN : ∀ x ∈ ns, NodeIn ts x := fun x hx =>
                  slice_infix (a := b ++ a) (b := d2.toks) (fun _ _ => toNode_read) (by rw [← hb]; simp) hns hx
                exact (h.nodes ns).any (g := fun l => decodeLoop c f 0 d2 l) hP hQ hq hN
                  (fun e he => by
                    obtain ⟨x, h1, h2⟩ := List.mem_flatMap.1 he
                    exact Or.inr ⟨x, hN x h1, by simpa [embedded] using h2⟩)
                  (fun P' Q' l' σ' h' hP' hQ' hq' => loop_any f 0 d2 h' hP' hQ' hq' hs2)
          · split
            · split
              · exact AnyRest.stop h hP hQ
              · rename_i v d2 hv
                obtain ⟨a, ha⟩ := value_infix hv
                obtain ⟨b, hb⟩ := hs1
                rw [ha] at hb
                have hs2 : d2.toks <:+ ts := ⟨b ++ (a ++ text v), by rw [← hb]; simp⟩
                split
                · exact AnyRest.stop h hP hQ
                · rename_i es hes
                  exact (h.edges es).any (g := fun l => decodeLoop c f 0 d2 l) hP hQ hq (by simp)
                    (fun e he => Or.inl (slice_infix (a := b ++ a) (b := d2.toks) (fun _ _ => toFullEdge_read)
                      (by rw [← hb]; simp) hes he))
                    (fun P' Q' l' σ' h' hP' hQ' hq' => loop_any f 0 d2 h' hP' hQ' hq' hs2)
            · exact again 1
        · obtain ⟨k1, k2⟩ := Loading.queue l.queue h
          refine ⟨k1, fun err l' hh => ?_⟩
          obtain ⟨P', Q', σ', m1, m2, m3, m4, m5⟩ := k2 err l' hh
          refine ⟨P', Q', σ', m1, fun p hp => ?_, fun q' hq' => ?_⟩
          · obtain ⟨p', h3, h4⟩ := List.mem_map.1 (m4.subset (List.mem_map_of_mem hp))
            rw [← h4]; exact hP p' h3
          · rcases List.mem_append.1 (m5.subset (List.mem_map_of_mem hq')) with h | h
            · obtain ⟨q', h3, h4⟩ := List.mem_map.1 h
              rw [← h4]; exact hQ q' h3
            · exact hq _ h
        · exact again 0
      · split
        · exact again _
        · exact again _
        · exact again _

theorem decode_any {ts : List Tok} (h : Loading c U Ln Le Pn Pe R s0 σ0 [] [] { s := s0 } σ0) :
    (U → decode c s0 ts ≠ none) ∧ ∀ err s', decode c s0 ts = some (err, s') →
      ∃ P Q l σ', l.s = s' ∧ Loading c U Ln Le Pn Pe R s0 σ0 P Q l σ' ∧ (∀ p ∈ P, NodeIn ts p.1) ∧ ∀ q ∈ Q, EdgeIn ts q.1 := by
  unfold decode
  split
  · refine ⟨fun _ h => (by cases h), fun err s' hh => ?_⟩
    cases hh
    exact ⟨[], [], _, _, rfl, h, by simp, by simp⟩
  · rename_i d ht
    have := loop_any (ts := ts) (ts.length + 1) 0 d h (by simp) (by simp) (by simp) (token_suffix ht)
    refine ⟨fun hU hn => this.1 hU (by simpa using hn), fun err s' hh => ?_⟩
    obtain ⟨⟨err', l⟩, h1, h2⟩ := Option.map_eq_some_iff.1 hh
    cases h2
    obtain ⟨P, Q, σ', k1, k2, k3⟩ := this.2 _ _ h1
    exact ⟨P, Q, l, σ', rfl, k1, k2, k3⟩
  · refine ⟨fun _ h => (by cases h), fun err s' hh => ?_⟩
    cases hh
    exact ⟨[], [], _, _, rfl, h, by simp, by simp⟩

end LPG.Json

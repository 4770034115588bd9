import Verif.Proofs.JsonLoad
/-! `Decode` reads the members of the document one by one. -/
namespace LPG.Json
open State

variable {c : Codec} {U Ln Le : Prop} {Pn Pe : String → Value → Prop} {R : List Nat} {s0 : State} {σ0 : Spec}
  {P : List (DocNode × Nat)} {Q : List (FullEdge × Nat)} {l : Load} {σ : Spec}

/-- What the rest of `Decode` does, if the document has the nodes `N` and the edges `E`. -/
def Rest (c : Codec) (U Ln Le : Prop) (Pn Pe : String → Value → Prop) (R : List Nat) (s0 : State) (σ0 : Spec)
    (N : List DocNode) (E : List FullEdge) (r : Outcome) : Prop :=
  (U → r ≠ none) ∧ ∀ err l', r = some (err, l') → ∃ P' Q' σ', Loading c U Ln Le Pn Pe R s0 σ0 P' Q' l' σ' ∧
    (err = none → P'.map Prod.fst = N ∧ (Q'.map Prod.fst).Perm E) ∧
    (∀ x, err = some x → Wrong c.unm N E x) ∧ P'.map Prod.fst <+: N ∧ (Q'.map Prod.fst).Subperm E

theorem PropsFine.perm {unm : String → JVal → Option (String × Value)} {N : List DocNode} {E F : List FullEdge}
    (h : E.Perm F) : PropsFine unm N E → PropsFine unm N F :=
  fun ⟨h1, h2⟩ => ⟨h1, fun e he => h2 e (h.mem_iff.2 he)⟩

theorem Wrong.perm {unm : String → JVal → Option (String × Value)} {N : List DocNode} {E F : List FullEdge} {x : Err}
    (h : E.Perm F) : Wrong unm N E x → Wrong unm N F x := by
  rintro (⟨rfl, h1⟩ | ⟨e, he, h1⟩ | ⟨e, he, h1⟩)
  · exact Or.inl ⟨rfl, fun h2 => h1 (h2.perm h.symm)⟩
  · exact Or.inr (Or.inl ⟨e, h.mem_iff.1 he, h1⟩)
  · exact Or.inr (Or.inr ⟨e, h.mem_iff.1 he, h1⟩)

theorem Rest.perm {N : List DocNode} {E F : List FullEdge} {r : Outcome} (hp : E.Perm F)
    (h : Rest c U Ln Le Pn Pe R s0 σ0 N E r) : Rest c U Ln Le Pn Pe R s0 σ0 N F r := by
  refine ⟨h.1, fun err l' hh => ?_⟩
  obtain ⟨P', Q', σ', k1, k2, k3, k4, k5⟩ := h.2 err l' hh
  exact ⟨P', Q', σ', k1, fun he => ⟨(k2 he).1, (k2 he).2.trans hp⟩, fun x hx => (k3 x hx).perm hp, k4, k5.trans hp.subperm⟩

theorem Part.rest {N M : List DocNode} {E F : List FullEdge} {r : Outcome} {g : Load → Outcome}
    (h : Part c U Ln Le Pn Pe R s0 σ0 P Q l.queue N E r)
    (hg : ∀ P' Q' l' σ', Loading c U Ln Le Pn Pe R s0 σ0 P' Q' l' σ' →
      Rest c U Ln Le Pn Pe R s0 σ0 (P'.map Prod.fst ++ M) (Q'.map Prod.fst ++ l'.queue ++ F) (g l')) :
    Rest c U Ln Le Pn Pe R s0 σ0 (P.map Prod.fst ++ (N ++ M)) (Q.map Prod.fst ++ l.queue ++ (E ++ F))
      (match (generalizing := false) r with | some (none, l') => g l' | r => r) := by
  obtain ⟨h1, h2⟩ := h
  cases r with
  | none => exact ⟨h1, fun err l' hh => by cases hh⟩
  | some x =>
    obtain ⟨err, l1⟩ := x
    obtain ⟨P1, Q1, σ1, k1, kp, k2, k3, k4, k5⟩ := h2 err l1 rfl
    cases err with
    | some x =>
      refine ⟨fun _ hh => (by cases hh), fun err l' hh => ?_⟩
      cases hh
      refine ⟨P1, Q1, σ1, k1, fun h => (by cases h), fun y hy => Or.inl ⟨(k3 y hy).1, fun hf => (k3 y hy).2 ?_⟩, ?_, ?_⟩
      · exact (PropsFine.append.1 (PropsFine.append.1 hf).2).1
      · rw [← List.append_assoc]; exact k4.trans (List.prefix_append _ _)
      · rw [← List.append_assoc]
        exact ((List.sublist_append_left _ _).subperm.trans k5).trans (List.sublist_append_left _ _).subperm
    | none =>
      obtain ⟨p1, p2⟩ := k2 rfl
      have := hg P1 Q1 l1 σ1 k1
      rw [p1, List.append_assoc] at this
      refine this.perm ?_
      rw [← List.append_assoc]
      exact p2.append_right F

theorem Loading.queue : ∀ (es : List FullEdge) {Q : List (FullEdge × Nat)} {l : Load} {σ : Spec},
    Loading c U Ln Le Pn Pe R s0 σ0 P Q l σ →
    Rest c U Ln Le Pn Pe R s0 σ0 (P.map Prod.fst) (Q.map Prod.fst ++ es) (addQueue c es l)
  | [], Q, l, σ, h => by
    rw [addQueue]
    refine ⟨fun _ hh => (by cases hh), fun err l' hh => ?_⟩
    cases hh
    exact ⟨P, Q, σ, h, fun _ => ⟨rfl, by simp⟩, fun x hx => (by cases hx), List.prefix_refl _, by simp only [List.append_nil]; exact List.Subperm.refl _⟩
  | e :: es, Q, l, σ, h => by
    rw [addQueue]
    cases hf : l.nodeMap.get e.from with
    | none =>
      simp only
      refine ⟨fun _ hh => (by cases hh), fun err l' hh => ?_⟩
      cases hh
      refine ⟨P, Q, σ, h, fun h => (by cases h), fun x hx => Or.inr (Or.inl ⟨e, by simp, by cases hx; rfl, ?_⟩),
          List.prefix_refl _, (List.sublist_append_left _ _).subperm⟩
      intro n hn
      obtain ⟨p, h1, rfl⟩ := List.mem_map.1 hn
      exact h.known _ hf p h1
    | some a =>
      cases hg : l.nodeMap.get e.to with
      | none =>
        simp only
        refine ⟨fun _ hh => (by cases hh), fun err l' hh => ?_⟩
        cases hh
        refine ⟨P, Q, σ, h, fun h => (by cases h), fun x hx => Or.inr (Or.inr ⟨e, by simp, by cases hx; rfl, ?_⟩),
          List.prefix_refl _, (List.sublist_append_left _ _).subperm⟩
        intro n hn
        obtain ⟨p, h1, rfl⟩ := List.mem_map.1 hn
        exact h.known _ hg p h1
      | some b =>
        simp only
        obtain ⟨h1, h2⟩ := h.addsEdge (h.found _ _ hf) (h.found _ _ hg)
        cases hr : addEdge c l a b e.label e.properties with
        | none => exact ⟨fun hU => absurd hr (h1 hU), fun err l' hh => by cases hh⟩
        | some x =>
          obtain ⟨err, l1⟩ := x
          obtain ⟨k1, k2, k3⟩ := h2 err l1 hr
          rcases k3 with ⟨rfl, k3, x, σ', k4⟩ | ⟨rfl, rfl, p, hp, k3⟩
          · simp only
            have := Loading.queue es k4
            simpa using this
          · simp only
            refine ⟨fun _ hh => (by cases hh), fun err l' hh => ?_⟩
            cases hh
            refine ⟨P, Q, σ, h, fun h => (by cases h), fun x hx => Or.inl ⟨by cases hx; rfl, fun hf => ?_⟩,
              List.prefix_refl _, (List.sublist_append_left _ _).subperm⟩
            exact hf.2 e (by simp) p hp k3

/-- The decoder in front of the members `ms` of the document. -/
inductive At (rest : List Tok) : List (String × JVal) → Decoder → Prop
  | start (ms : List (String × JVal)) : At rest ms ⟨textMembers ms ++ .rbrace :: rest, .objectStart, [.topValue]⟩
  | more (ms : List (String × JVal)) : At rest ms ⟨textMoreMembers ms ++ .rbrace :: rest, .objectComma, [.topValue]⟩

theorem At.end {rest : List Tok} {d : Decoder} (h : At rest [] d) :
    d.token = some (.rbrace, ⟨rest, .topValue, []⟩) := by
  cases h <;> rfl

theorem At.key {rest : List Tok} {d : Decoder} {k : String} {v : JVal} {ms : List (String × JVal)}
    (h : At rest ((k, v) :: ms) d) :
    d.token = some (.str k, ⟨.colon :: (text v ++ (textMoreMembers ms ++ .rbrace :: rest)), .objectColon, [.topValue]⟩) ∧
    (text v ++ (textMoreMembers ms ++ .rbrace :: rest)).length + 2 ≤ d.toks.length := by
  cases h
  · constructor
    · simp only [textMembers, List.cons_append, List.append_assoc, Decoder.token, token, true_or, if_true]
    · simp [textMembers]
  · constructor
    · simp [textMoreMembers, Decoder.token, token]
    · simp [textMoreMembers]

theorem value_text (v : JVal) (ms : List (String × JVal)) (rest : List Tok) :
    Decoder.value ⟨.colon :: (text v ++ (textMoreMembers ms ++ .rbrace :: rest)), .objectColon, [.topValue]⟩ =
      some (v, ⟨textMoreMembers ms ++ .rbrace :: rest, .objectComma, [.topValue]⟩) := by
  simp only [Decoder.value, TState.valueAllowed, if_true]
  rw [readValue_text v _ _ (by simp only [List.length_append]; omega)]
  rfl

/-- The loop sees a decoder only through the next token. -/
theorem decodeLoop_congr {d d' : Decoder} (h : d.token = d'.token) (f D : Nat) (l : Load) :
    decodeLoop c f D d l = decodeLoop c f D d' l := by
  cases f with
  | zero => rfl
  | succ f => rw [decodeLoop, decodeLoop, h]

theorem skip_open {f D : Nat} {d d' : Decoder} {l : Load}
    (h : d.token = some (.lbrace, d') ∨ d.token = some (.lbrack, d')) :
    decodeLoop c (f + 1) D d l = decodeLoop c f (if D = 0 then 0 else D + 1) d' l := by
  by_cases hD : D = 0
  · subst hD
    rcases h with h | h <;> rw [decodeLoop, h] <;> rfl
  · rcases h with h | h <;> rw [decodeLoop, h] <;> simp only [if_neg hD]

theorem skip_close {f D : Nat} {d d' : Decoder} {l : Load} {t : GoTok}
    (h : d.token = some (t, d')) (ht : t = .scalar ∨ t = .rbrack ∨ (t = .rbrace ∧ D ≠ 0)) :
    decodeLoop c (f + 1) D d l = decodeLoop c f (D - 1) d' l := by
  rw [decodeLoop, h]
  by_cases hD : D = 0
  · subst hD
    rcases ht with rfl | rfl | ⟨rfl, hn⟩
    · rfl
    · rfl
    · exact absurd rfl hn
  · rcases ht with rfl | rfl | ⟨rfl, -⟩ <;> simp only [if_neg hD]

theorem skip_text {f D D' : Nat} {d d' : Decoder} {l : Load} {s : String}
    (h : d.token = some (.str s, d')) (hs : skimText D s = some D') :
    decodeLoop c (f + 1) D d l = decodeLoop c f D' d' l := by
  rw [decodeLoop, h]
  rw [skimText] at hs
  by_cases hD : D = 0
  · simp only [if_pos hD] at hs ⊢
    split at hs
    · cases hs
    · rename_i hn
      cases hs
      rw [if_neg (fun e => hn (.inl e)), if_neg (fun e => hn (.inr e))]
  · simp only [if_neg hD] at hs ⊢
    cases hs
    rfl

mutual
/-- How the loop skips a value inside the value of an unknown key. -/
theorem skip_value (c : Codec) : ∀ (v : JVal) (D D' : Nat) (st : TState) (stack : List TState) (r : List Tok) (l : Load),
    st.valueAllowed = true → skim D v = some D' → ∃ k, k ≤ (text v).length ∧ ∀ f,
      decodeLoop c (f + k) D ⟨text v ++ r, st, stack⟩ l = decodeLoop c f D' ⟨r, st.valueEnd, stack⟩ l
  | .null, D, D', st, stack, r, l, hs, hl => ⟨1, by simp [text], fun f => by
      cases hl; exact skip_close (t := .scalar) (by simp [Decoder.token, text, token, hs]) (.inl rfl)⟩
  | .bool _, D, D', st, stack, r, l, hs, hl => ⟨1, by simp [text], fun f => by
      cases hl; exact skip_close (t := .scalar) (by simp [Decoder.token, text, token, hs]) (.inl rfl)⟩
  | .num _, D, D', st, stack, r, l, hs, hl => ⟨1, by simp [text], fun f => by
      cases hl; exact skip_close (t := .scalar) (by simp [Decoder.token, text, token, hs]) (.inl rfl)⟩
  | .real _, D, D', st, stack, r, l, hs, hl => ⟨1, by simp [text], fun f => by
      cases hl; exact skip_close (t := .scalar) (by simp [Decoder.token, text, token, hs]) (.inl rfl)⟩
  | .str s, D, D', st, stack, r, l, hs, hl => ⟨1, by simp [text], fun f =>
      skip_text (by
        have h1 : ¬ (st = .objectStart ∨ st = .objectKey) := by rintro (rfl | rfl) <;> simp [TState.valueAllowed] at hs
        simp only [Decoder.token, text, List.cons_append, List.nil_append, token, if_neg h1, hs, if_true]) hl⟩
  | .arr vs, D, D', st, stack, r, l, hs, hl => by
    rw [skim] at hl
    obtain ⟨D1, h1, h2⟩ := Option.map_eq_some_iff.1 hl
    obtain ⟨k, hk, h⟩ := skip_elems c vs _ D1 (st :: stack) (.rbrack :: r) l h1
    obtain ⟨st', hst', h⟩ := h
    refine ⟨1 + k + 1, by simp only [text, List.length_cons, List.length_append, List.length_nil]; omega, fun f => ?_⟩
    have e1 : f + (1 + k + 1) = (f + 1) + k + 1 := by omega
    rw [e1, skip_open (d' := ⟨textElems vs ++ .rbrack :: r, .arrayStart, st :: stack⟩)
      (Or.inr (by simp [Decoder.token, text, token, hs])), h,
      skip_close (t := .rbrack) (d' := ⟨r, st.valueEnd, stack⟩)
        (by simp only [Decoder.token, token]; rw [if_pos hst']) (.inr (.inl rfl)), h2]
  | .obj ms, D, D', st, stack, r, l, hs, hl => by
    rw [skim] at hl
    obtain ⟨D1, h1, h2⟩ := Option.bind_eq_some_iff.1 hl
    have hD1 : D1 ≠ 0 := by rintro rfl; simp at h2
    rw [if_neg hD1] at h2
    cases h2
    obtain ⟨k, hk, st', hst', h⟩ := skip_members c ms _ D1 (st :: stack) (.rbrace :: r) l h1
    have hst' : st' = .objectStart ∨ st' = .objectComma := hst'.imp_left And.left
    refine ⟨1 + k + 1, by simp only [text, List.length_cons, List.length_append, List.length_nil]; omega, fun f => ?_⟩
    have e1 : f + (1 + k + 1) = (f + 1) + k + 1 := by omega
    rw [e1, skip_open (d' := ⟨textMembers ms ++ .rbrace :: r, .objectStart, st :: stack⟩)
      (Or.inl (by simp [Decoder.token, text, token, hs])), h,
      skip_close (t := .rbrace) (d' := ⟨r, st.valueEnd, stack⟩)
        (by simp only [Decoder.token, token]; rw [if_pos hst']) (.inr (.inr ⟨rfl, hD1⟩))]

theorem skip_elems (c : Codec) : ∀ (vs : List JVal) (D D' : Nat) (stack : List TState) (r : List Tok) (l : Load),
    skimElems D vs = some D' → ∃ k, k ≤ (textElems vs).length ∧ ∃ st, (st = .arrayStart ∨ st = .arrayComma) ∧ ∀ f,
      decodeLoop c (f + k) D ⟨textElems vs ++ r, .arrayStart, stack⟩ l = decodeLoop c f D' ⟨r, st, stack⟩ l
  | [], D, D', stack, r, l, hD => ⟨0, Nat.zero_le _, .arrayStart, Or.inl rfl, fun f => by cases hD; rfl⟩
  | v :: vs, D, D', stack, r, l, hD => by
    rw [skimElems] at hD
    obtain ⟨D1, d1, d2⟩ := Option.bind_eq_some_iff.1 hD
    obtain ⟨k1, h1, g1⟩ := skip_value c v D D1 .arrayStart stack (textMore vs ++ r) l rfl d1
    obtain ⟨k2, h2, g2⟩ := skip_more c vs D1 D' stack r l d2
    refine ⟨k2 + k1, by simp only [textElems, List.length_append]; omega, .arrayComma, Or.inr rfl, fun f => ?_⟩
    rw [textElems, List.append_assoc, ← Nat.add_assoc, g1]
    simp only [TState.valueEnd]
    rw [g2]

theorem skip_more (c : Codec) : ∀ (vs : List JVal) (D D' : Nat) (stack : List TState) (r : List Tok) (l : Load),
    skimElems D vs = some D' → ∃ k, k ≤ (textMore vs).length ∧ ∀ f,
      decodeLoop c (f + k) D ⟨textMore vs ++ r, .arrayComma, stack⟩ l = decodeLoop c f D' ⟨r, .arrayComma, stack⟩ l
  | [], D, D', stack, r, l, hD => ⟨0, Nat.zero_le _, fun f => by cases hD; rfl⟩
  | v :: vs, D, D', stack, r, l, hD => by
    rw [skimElems] at hD
    obtain ⟨D1, d1, d2⟩ := Option.bind_eq_some_iff.1 hD
    obtain ⟨k1, h1, g1⟩ := skip_value c v D D1 .arrayValue stack (textMore vs ++ r) l rfl d1
    obtain ⟨k2, h2, g2⟩ := skip_more c vs D1 D' stack r l d2
    refine ⟨k2 + k1, by simp only [textMore, List.length_append, List.length_cons]; omega, fun f => ?_⟩
    have e : Decoder.token ⟨textMore (v :: vs) ++ r, .arrayComma, stack⟩ =
        Decoder.token ⟨text v ++ (textMore vs ++ r), .arrayValue, stack⟩ := by
      simp [Decoder.token, textMore, token]
    rw [decodeLoop_congr e, ← Nat.add_assoc, g1]
    simp only [TState.valueEnd]
    rw [g2]

theorem skip_members (c : Codec) : ∀ (ms : List (String × JVal)) (D D' : Nat) (stack : List TState) (r : List Tok) (l : Load),
    skimMembers D ms = some D' → ∃ k, k ≤ (textMembers ms).length ∧ ∃ st, ((st = .objectStart ∧ ms = []) ∨ st = .objectComma) ∧ ∀ f,
      decodeLoop c (f + k) D ⟨textMembers ms ++ r, .objectStart, stack⟩ l = decodeLoop c f D' ⟨r, st, stack⟩ l
  | [], D, D', stack, r, l, hD => ⟨0, Nat.zero_le _, .objectStart, Or.inl ⟨rfl, rfl⟩, fun f => by cases hD; rfl⟩
  | (k, v) :: ms, D, D', stack, r, l, hD => by
    rw [skimMembers] at hD
    obtain ⟨D0, d0, hD⟩ := Option.bind_eq_some_iff.1 hD
    obtain ⟨D1, d1, d2⟩ := Option.bind_eq_some_iff.1 hD
    obtain ⟨k1, h1, g1⟩ := skip_value c v D0 D1 .objectValue stack (textMoreMembers ms ++ r) l rfl d1
    obtain ⟨k2, h2, g2⟩ := skip_moreMembers c ms D1 D' stack r l d2
    refine ⟨k2 + k1 + 1, by simp only [textMembers, List.length_append, List.length_cons]; omega, .objectComma, Or.inr rfl,
      fun f => ?_⟩
    have e1 : f + (k2 + k1 + 1) = (f + k2 + k1) + 1 := by omega
    have e : Decoder.token ⟨.colon :: (text v ++ (textMoreMembers ms ++ r)), .objectColon, stack⟩ =
        Decoder.token ⟨text v ++ (textMoreMembers ms ++ r), .objectValue, stack⟩ := by
      simp [Decoder.token, token]
    rw [e1, skip_text (d' := ⟨.colon :: (text v ++ (textMoreMembers ms ++ r)), .objectColon, stack⟩)
      (by simp [Decoder.token, textMembers, token]) d0, decodeLoop_congr e, g1]
    simp only [TState.valueEnd]
    rw [g2]

theorem skip_moreMembers (c : Codec) : ∀ (ms : List (String × JVal)) (D D' : Nat) (stack : List TState) (r : List Tok) (l : Load),
    skimMembers D ms = some D' → ∃ k, k ≤ (textMoreMembers ms).length ∧ ∀ f,
      decodeLoop c (f + k) D ⟨textMoreMembers ms ++ r, .objectComma, stack⟩ l = decodeLoop c f D' ⟨r, .objectComma, stack⟩ l
  | [], D, D', stack, r, l, hD => ⟨0, Nat.zero_le _, fun f => by cases hD; rfl⟩
  | (k, v) :: ms, D, D', stack, r, l, hD => by
    rw [skimMembers] at hD
    obtain ⟨D0, d0, hD⟩ := Option.bind_eq_some_iff.1 hD
    obtain ⟨D1, d1, d2⟩ := Option.bind_eq_some_iff.1 hD
    obtain ⟨k1, h1, g1⟩ := skip_value c v D0 D1 .objectValue stack (textMoreMembers ms ++ r) l rfl d1
    obtain ⟨k2, h2, g2⟩ := skip_moreMembers c ms D1 D' stack r l d2
    refine ⟨k2 + k1 + 1, by simp only [textMoreMembers, List.length_append, List.length_cons]; omega, fun f => ?_⟩
    have e1 : f + (k2 + k1 + 1) = (f + k2 + k1) + 1 := by omega
    have e : Decoder.token ⟨.colon :: (text v ++ (textMoreMembers ms ++ r)), .objectColon, stack⟩ =
        Decoder.token ⟨text v ++ (textMoreMembers ms ++ r), .objectValue, stack⟩ := by
      simp [Decoder.token, token]
    rw [e1, skip_text (d' := ⟨.colon :: (text v ++ (textMoreMembers ms ++ r)), .objectColon, stack⟩)
      (by simp [Decoder.token, textMoreMembers, token]) d0, decodeLoop_congr e, g1]
    simp only [TState.valueEnd]
    rw [g2]
end

mutual
/-- As long as the count stays above 0. -/
theorem skim_leaves : ∀ (v : JVal) (D : Nat), 1 ≤ D → leaves v ≤ D → skim D v = some (D - leaves v)
  | .null, D, hD, hl => rfl
  | .bool _, D, hD, hl => rfl
  | .num _, D, hD, hl => rfl
  | .real _, D, hD, hl => rfl
  | .str s, D, hD, hl => by rw [skim, skimText, if_neg (by omega)]; rfl
  | .arr vs, D, hD, hl => by
    rw [leaves] at hl ⊢
    rw [skim, if_neg (by omega), skim_leavesElems vs (D + 1) (by omega)]
    simp only [Option.map_some, Option.some.injEq]; omega
  | .obj ms, D, hD, hl => by
    rw [leaves] at hl ⊢
    rw [skim, if_neg (by omega), skim_leavesMembers ms (D + 1) (by omega)]
    rw [Option.bind_some, if_neg (by omega)]
    simp only [Option.some.injEq]; omega

theorem skim_leavesElems : ∀ (vs : List JVal) (D : Nat), leavesElems vs + 1 ≤ D → skimElems D vs = some (D - leavesElems vs)
  | [], D, hD => rfl
  | v :: vs, D, hD => by
    rw [leavesElems] at hD ⊢
    rw [skimElems, skim_leaves v D (by omega) (by omega), Option.bind_some, skim_leavesElems vs _ (by omega), Nat.sub_sub]

theorem skim_leavesMembers : ∀ (ms : List (String × JVal)) (D : Nat), leavesMembers ms + 1 ≤ D →
    skimMembers D ms = some (D - leavesMembers ms)
  | [], D, hD => rfl
  | (k, v) :: ms, D, hD => by
    rw [leavesMembers] at hD ⊢
    rw [skimMembers, skimText, if_neg (by omega), Option.bind_some, skim_leaves v _ (by omega) (by omega), Option.bind_some,
      skim_leavesMembers ms _ (by omega), Nat.sub_sub, Nat.sub_sub, Nat.add_assoc]
end

/-- Values with exactly one key or value without parts in them. -/
theorem skips_leaves {v : JVal} (h : leaves v = 1) : Skips v := by
  rw [Skips, skim_leaves v 1 (Nat.le_refl _) (Nat.le_of_eq h), h]

/-- Lists of values without parts, and not the texts `nodes` and `edges`. -/
theorem skips_list {vs : List JVal} (hne : vs ≠ [])
    (h : ∀ v ∈ vs, (∀ l, v ≠ .arr l) ∧ (∀ m, v ≠ .obj m) ∧ v ≠ .str "nodes" ∧ v ≠ .str "edges") : Skips (.arr vs) := by
  have one : ∀ v ∈ vs, ∀ D, D ≤ 2 → ∃ D', skim D v = some D' ∧ D' ≤ 1 := by
    intro v hv D hD
    obtain ⟨h1, h2, h3, h4⟩ := h v hv
    cases v with
    | arr l => exact absurd rfl (h1 l)
    | obj m => exact absurd rfl (h2 m)
    | str s =>
      rw [skim, skimText]
      split
      · rw [if_neg (by rintro (rfl | rfl) <;> simp at h3 h4)]; exact ⟨1, rfl, Nat.le_refl _⟩
      · exact ⟨D - 1, rfl, by omega⟩
    | _ => exact ⟨D - 1, rfl, by omega⟩
  have all : ∀ (ws : List JVal), (∀ v ∈ ws, v ∈ vs) → ∀ D, D ≤ 1 → ∃ D', skimElems D ws = some D' ∧ D' ≤ 1 := by
    intro ws
    induction ws with
    | nil => intro _ D hD; exact ⟨D, rfl, hD⟩
    | cons w ws ih =>
      intro hw D hD
      obtain ⟨D1, a1, a2⟩ := one w (hw w (by simp)) D (by omega)
      obtain ⟨D2, b1, b2⟩ := ih (fun v hv => hw v (by simp [hv])) D1 a2
      exact ⟨D2, by rw [skimElems, a1, Option.bind_some, b1], b2⟩
  cases vs with
  | nil => exact absurd rfl hne
  | cons v ws =>
    obtain ⟨D1, a1, a2⟩ := one v (by simp) 2 (Nat.le_refl _)
    obtain ⟨D2, b1, b2⟩ := all ws (fun x hx => by simp [hx]) D1 a2
    rw [Skips, skim, if_neg (by omega), skimElems, show (1 + 1 : Nat) = 2 from rfl, a1, Option.bind_some, b1]
    simp only [Option.map_some, Option.some.injEq]; omega

theorem embedded_append (a b : List DocNode) : embedded (a ++ b) = embedded a ++ embedded b := by
  simp [embedded]

theorem Loading.members {rest : List Tok} {ms : List (String × JVal)} {N : List DocNode} {E : List FullEdge}
    (hd : Document ms N E) : ∀ {d : Decoder} {f : Nat} {P : List (DocNode × Nat)} {Q : List (FullEdge × Nat)}
      {l : Load} {σ : Spec}, Loading c U Ln Le Pn Pe R s0 σ0 P Q l σ → At rest ms d → d.toks.length ≤ f →
    Rest c U Ln Le Pn Pe R s0 σ0 (P.map Prod.fst ++ N) (Q.map Prod.fst ++ l.queue ++ (embedded N ++ E)) (decodeLoop c f 0 d l) := by
  induction hd with
  | nil =>
    intro d f P Q l σ h ha hf
    cases f with
    | zero => cases ha <;> simp [textMembers, textMoreMembers] at hf
    | succ f =>
      simp only [decodeLoop, ha.end, if_true]
      simpa [embedded] using Loading.queue l.queue h
  | @nodes v ns N E ms hv hd ih =>
    intro d f P Q l σ h ha hf
    cases f with
    | zero => have := ha.key.2; omega
    | succ f =>
      have h2 := ha.key.2
      simp only [decodeLoop, ha.key.1, if_true, value_text, hv]
      have := (h.nodes ns).rest (M := N) (F := embedded N ++ E) (g := fun l => decodeLoop c f 0 _ l)
        (fun P' Q' l' σ' h' => ih h' (.more ms) (by
          simp only [List.length_append] at h2 ⊢
          have := text_pos v; omega))
      rw [embedded_append, List.append_assoc (embedded ns)]
      exact this
  | @edges v es N E ms hv hd ih =>
    intro d f P Q l σ h ha hf
    cases f with
    | zero => have := ha.key.2; omega
    | succ f =>
      have h2 := ha.key.2
      have hne : ¬ "edges" = "nodes" := by decide
      simp only [decodeLoop, ha.key.1, if_true, if_neg hne, value_text, hv]
      have := (h.edges es).rest (M := N) (F := embedded N ++ E) (g := fun l => decodeLoop c f 0 _ l)
        (fun P' Q' l' σ' h' => ih h' (.more ms) (by
          simp only [List.length_append] at h2 ⊢
          have := text_pos v; omega))
      refine Rest.perm ?_ this
      refine List.Perm.append_left _ ?_
      rw [← List.append_assoc, ← List.append_assoc]
      exact List.Perm.append_right _ List.perm_append_comm
  | @other k v N E ms h1 h2 hs hd ih =>
    intro d f P Q l σ h ha hf
    have hk := ha.key.2
    have := text_pos v
    simp only [List.length_append] at hk
    obtain ⟨j, j1, j2⟩ := skip_value c v 1 0 .objectValue [.topValue] (textMoreMembers ms ++ .rbrace :: rest) l rfl hs
    obtain ⟨g, rfl⟩ : ∃ g, f = g + j + 1 := ⟨f - j - 1, by omega⟩
    have e : Decoder.token ⟨.colon :: (text v ++ (textMoreMembers ms ++ .rbrace :: rest)), .objectColon, [.topValue]⟩ =
        Decoder.token ⟨text v ++ (textMoreMembers ms ++ .rbrace :: rest), .objectValue, [.topValue]⟩ := by
      simp [Decoder.token, token]
    have : decodeLoop c (g + j + 1) 0 d l =
        decodeLoop c g 0 ⟨textMoreMembers ms ++ .rbrace :: rest, .objectComma, [.topValue]⟩ l := by
      rw [decodeLoop, ha.key.1]
      simp only [if_true, if_neg h1, if_neg h2]
      rw [decodeLoop_congr e, j2]
      rfl
    rw [this]
    exact ih h (.more ms) (by simp only [List.length_append]; omega)

theorem decode_text {ms : List (String × JVal)} {N : List DocNode} {E : List FullEdge} {rest : List Tok}
    (hd : Document ms N E) (h : Loading c U Ln Le Pn Pe R s0 σ0 [] [] { s := s0 } σ0) :
    (U → decode c s0 (text (.obj ms) ++ rest) ≠ none) ∧
    ∀ err s', decode c s0 (text (.obj ms) ++ rest) = some (err, s') →
      ∃ P Q l σ', l.s = s' ∧ Loading c U Ln Le Pn Pe R s0 σ0 P Q l σ' ∧
        (err = none → P.map Prod.fst = N ∧ (Q.map Prod.fst).Perm (embedded N ++ E)) ∧
        (∀ x, err = some x → Wrong c.unm N (embedded N ++ E) x) ∧
        P.map Prod.fst <+: N ∧ (Q.map Prod.fst).Subperm (embedded N ++ E) := by
  have := h.members (rest := rest) (f := (text (.obj ms) ++ rest).length + 1) hd (.start ms) (by simp [text]; omega)
  simp only [List.map_nil, List.nil_append] at this
  have he : decode c s0 (text (.obj ms) ++ rest) =
      (decodeLoop c ((text (.obj ms) ++ rest).length + 1) 0
        ⟨textMembers ms ++ .rbrace :: rest, .objectStart, [.topValue]⟩ { s := s0 }).map (fun r => (r.1, r.2.s)) := by
    simp [decode, text, Decoder.token, token, TState.valueAllowed]
  rw [he]
  refine ⟨fun hU hn => this.1 hU (by simpa using hn), fun err s' hh => ?_⟩
  obtain ⟨⟨err', l⟩, h1, h2⟩ := Option.map_eq_some_iff.1 hh
  cases h2
  obtain ⟨P, Q, σ', k1, k2, k3⟩ := this.2 _ _ h1
  exact ⟨P, Q, l, σ', rfl, k1, k2, k3⟩

end LPG.Json

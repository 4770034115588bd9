import Verif.Proofs.JsonAccept
/-! What `Decode` makes of a key it does not know. -/
namespace LPG.Json
open State

variable {c : Codec}

theorem loop_stable : ∀ {f D : Nat} {d : Decoder} {l : Load} {r : Outcome}, decodeLoop c f D d l = r →
    (∀ l', r ≠ some (some .stuck, l')) → decodeLoop c (f + 1) D d l = r := by
  intro f
  induction f with
  | zero => intro D d l r h hr; exact absurd h.symm (hr l)
  | succ f ih =>
    intro D d l r h hr
    rw [decodeLoop] at h ⊢
    revert h
    repeat' split
    all_goals first
      | exact fun h => h
      | exact fun h => ih h hr

/-- The loop ends with `r`. -/
def Ends (c : Codec) (D : Nat) (d : Decoder) (l : Load) (r : Outcome) : Prop := ∃ f0, ∀ f, decodeLoop c (f + f0) D d l = r

theorem Ends.unique {D : Nat} {d : Decoder} {l : Load} {r r' : Outcome} (h : Ends c D d l r) (h' : Ends c D d l r') : r = r' := by
  obtain ⟨f, hf⟩ := h
  obtain ⟨g, hg⟩ := h'
  rw [← hf g, ← hg f, Nat.add_comm]

theorem Ends.intro {D f : Nat} {d : Decoder} {l : Load} (h : d.toks.length < f) : Ends c D d l (decodeLoop c f D d l) := by
  refine ⟨f, fun g => ?_⟩
  induction g with
  | zero => rw [Nat.zero_add]
  | succ g ih =>
    rw [show g + 1 + f = (g + f) + 1 by omega]
    exact loop_stable ih (decodeLoop_notStuck c f D d l h)

/-- One round. -/
theorem Ends.step {D D' : Nat} {d d' : Decoder} {l l' : Load} (k : Nat)
    (h : ∀ f, decodeLoop c (f + k) D d l = decodeLoop c f D' d' l') {r : Outcome} : Ends c D d l r ↔ Ends c D' d' l' r := by
  constructor
  · rintro ⟨f0, h0⟩
    refine ⟨f0, fun f => ?_⟩
    rw [← h, show f + f0 + k = (f + k) + f0 by omega]
    exact h0 _
  · rintro ⟨f0, h0⟩
    refine ⟨f0 + k, fun f => ?_⟩
    rw [← Nat.add_assoc, h]
    exact h0 _

theorem value_colon (v : JVal) (r : List Tok) (stack : List TState) : Decoder.value ⟨.colon :: (text v ++ r), .objectColon, stack⟩ =
    some (v, ⟨r, .objectComma, stack⟩) := by
  simp only [Decoder.value, TState.valueAllowed, if_true]
  rw [readValue_text v _ _ (by simp only [List.length_append]; omega)]
  rfl

/-- The state in front of a member. -/
def here (first : Bool) : TState := if first then .objectStart else .objectComma

/-- A member. -/
def member (first : Bool) (k : String) (v : JVal) (r : List Tok) : List Tok :=
  (if first then [] else [.comma]) ++ .str k :: .colon :: (text v ++ r)

theorem member_token (first : Bool) (k : String) (v : JVal) (r : List Tok) (stack : List TState) :
    Decoder.token ⟨member first k v r, here first, stack⟩ = some (.str k, ⟨.colon :: (text v ++ r), .objectColon, stack⟩) := by
  cases first <;> simp [member, here, Decoder.token, token]

/-- What is left of an outcome to do. -/
def thenLoop (c : Codec) (f : Nat) (d : Decoder) : Outcome → Outcome
  | some (none, l) => decodeLoop c f 0 d l
  | r => r

theorem loop_nodes (first : Bool) (v : JVal) (r : List Tok) (stack : List TState) (f : Nat) (l : Load) :
    decodeLoop c (f + 1) 0 ⟨member first "nodes" v r, here first, stack⟩ l =
      match toSlice toNode v with
      | none => some (some .input, l)
      | some ns => thenLoop c f ⟨r, .objectComma, stack⟩ (addNodes c ns l) := by
  rw [decodeLoop, member_token]
  simp only [if_true, value_colon]
  cases toSlice toNode v with
  | none => rfl
  | some ns =>
    dsimp only
    cases h : addNodes c ns l with
    | none => rfl
    | some x =>
      obtain ⟨e, l'⟩ := x
      cases e <;> rfl

theorem loop_edges (first : Bool) (v : JVal) (r : List Tok) (stack : List TState) (f : Nat) (l : Load) :
    decodeLoop c (f + 1) 0 ⟨member first "edges" v r, here first, stack⟩ l =
      match toSlice toFullEdge v with
      | none => some (some .input, l)
      | some es => thenLoop c f ⟨r, .objectComma, stack⟩ (addEdges c es l) := by
  rw [decodeLoop, member_token]
  simp only [if_true, value_colon, if_neg (show ¬ "edges" = "nodes" by decide)]
  cases toSlice toFullEdge v with
  | none => rfl
  | some es =>
    dsimp only
    cases h : addEdges c es l with
    | none => rfl
    | some x =>
      obtain ⟨e, l'⟩ := x
      cases e <;> rfl

/-- An unknown key: the loop is in front of the value. -/
theorem loop_other {k : String} (h1 : k ≠ "nodes") (h2 : k ≠ "edges") (first : Bool) (v : JVal) (r : List Tok) (stack : List TState)
    (f : Nat) (l : Load) :
    decodeLoop c (f + 1) 0 ⟨member first k v r, here first, stack⟩ l = decodeLoop c f 1 ⟨text v ++ r, .objectValue, stack⟩ l := by
  have e : Decoder.token ⟨.colon :: (text v ++ r), .objectColon, stack⟩ = Decoder.token ⟨text v ++ r, .objectValue, stack⟩ := by
    simp [Decoder.token, token]
  rw [decodeLoop, member_token]
  simp only [if_true, if_neg h1, if_neg h2]
  exact decodeLoop_congr e _ _ _

theorem Ends.skip {k : String} {v : JVal} (h1 : k ≠ "nodes") (h2 : k ≠ "edges") (hl : Skips v) {first : Bool} {r : List Tok}
    {stack : List TState} {l : Load} {x : Outcome} :
    Ends c 0 ⟨member first k v r, here first, stack⟩ l x ↔ Ends c 0 ⟨r, .objectComma, stack⟩ l x := by
  obtain ⟨j, -, hj⟩ := skip_value c v 1 0 .objectValue stack r l rfl hl
  refine Ends.step (j + 1) fun f => ?_
  rw [← Nat.add_assoc, loop_other h1 h2, hj]
  rfl

theorem Ends.then {d d' : Decoder} {l : Load} {x : Outcome} (o : Outcome)
    (h : ∀ f, decodeLoop c (f + 1) 0 d l = thenLoop c f d' o) :
    Ends c 0 d l x ↔ (∃ l', o = some (none, l') ∧ Ends c 0 d' l' x) ∨ ((∀ l', o ≠ some (none, l')) ∧ x = o) := by
  have other : (∀ l', o ≠ some (none, l')) → ∀ f, thenLoop c f d' o = o := by
    intro ho f
    match o with
    | none => rfl
    | some (none, l') => exact absurd rfl (ho l')
    | some (some e, l') => rfl
  constructor
  · intro hx
    by_cases ho : ∃ l', o = some (none, l')
    · obtain ⟨l', rfl⟩ := ho
      exact .inl ⟨l', rfl, (Ends.step 1 h).1 hx⟩
    · have ho : ∀ l', o ≠ some (none, l') := fun l' e => ho ⟨l', e⟩
      obtain ⟨f0, h0⟩ := hx
      refine .inr ⟨ho, ?_⟩
      rw [← h0 1, Nat.add_comm, h, other ho]
  · rintro (⟨l', rfl, h1⟩ | ⟨ho, rfl⟩)
    · exact (Ends.step 1 h).2 h1
    · exact ⟨1, fun f => by rw [h, other ho]⟩

theorem Ends.err {d : Decoder} {l : Load} {x o : Outcome} (h : ∀ f, decodeLoop c (f + 1) 0 d l = o) : Ends c 0 d l x ↔ x = o := by
  constructor
  · rintro ⟨f0, h0⟩; rw [← h0 1, Nat.add_comm, h]
  · rintro rfl; exact ⟨1, h⟩

/-- The members of a text, and what follows them. -/
def members : Bool → List (String × JVal) → (Bool → List Tok) → List Tok
  | first, [], X => X first
  | first, (k, v) :: ms, X => member first k v (members false ms X)

/-- What `Decode` does depends on what follows the members only through what the loop does with it. -/
theorem Ends.members {X Y : Bool → List Tok} {S S' : List TState} (hXY : ∀ b b' l x, Ends c 0 ⟨X b, here b, S⟩ l x ↔
    Ends c 0 ⟨Y b', here b', S'⟩ l x) : ∀ (ms : List (String × JVal)) (b b' : Bool) (l : Load) (x : Outcome), Plain ms →
    (Ends c 0 ⟨Json.members b ms X, here b, S⟩ l x ↔ Ends c 0 ⟨Json.members b' ms Y, here b', S'⟩ l x)
  | [], b, b', l, x, _ => hXY b b' l x
  | (k, v) :: ms, b, b', l, x, hp => by
    have ih := fun l x => Ends.members hXY ms false false l x (fun p h => hp p (by simp [h]))
    have hv := hp (k, v) (by simp)
    rw [Json.members, Json.members]
    by_cases h1 : k = "nodes"
    · subst h1
      cases hn : toSlice toNode v with
      | none => rw [Ends.err (o := some (some .input, l)) (fun f => by rw [loop_nodes, hn]),
          Ends.err (o := some (some .input, l)) (fun f => by rw [loop_nodes, hn])]
      | some ns =>
        rw [Ends.then (addNodes c ns l) (fun f => by rw [loop_nodes, hn]), Ends.then (addNodes c ns l) (fun f => by rw [loop_nodes, hn])]
        exact or_congr (exists_congr fun l' => and_congr_right fun _ => ih l' x) Iff.rfl
    · by_cases h2 : k = "edges"
      · subst h2
        cases hn : toSlice toFullEdge v with
        | none => rw [Ends.err (o := some (some .input, l)) (fun f => by rw [loop_edges, hn]),
            Ends.err (o := some (some .input, l)) (fun f => by rw [loop_edges, hn])]
        | some ns =>
          rw [Ends.then (addEdges c ns l) (fun f => by rw [loop_edges, hn]),
            Ends.then (addEdges c ns l) (fun f => by rw [loop_edges, hn])]
          exact or_congr (exists_congr fun l' => and_congr_right fun _ => ih l' x) Iff.rfl
      · rw [Ends.skip h1 h2 (hv h1 h2), Ends.skip h1 h2 (hv h1 h2)]
        exact ih l x

theorem Ends.congr {d d' : Decoder} (h : d.token = d'.token) {D : Nat} {l : Load} {x : Outcome} :
    Ends c D d l x ↔ Ends c D d' l x := Ends.step 0 fun f => decodeLoop_congr h f D l

theorem decode_eq (s : State) {ts ts' : List Tok} (h : ∀ l x, Ends c 0 ⟨ts, .objectStart, [.topValue]⟩ l x →
    Ends c 0 ⟨ts', .objectStart, [.topValue]⟩ l x) : decode c s (.lbrace :: ts) = decode c s (.lbrace :: ts') := by
  have he : ∀ ts, decode c s (.lbrace :: ts) =
      (decodeLoop c (ts.length + 2) 0 ⟨ts, .objectStart, [.topValue]⟩ { s := s }).map (fun r => (r.1, r.2.s)) := by
    intro ts
    simp [decode, Decoder.token, token, TState.valueAllowed]
  rw [he, he]
  congr 1
  exact (h _ _ (Ends.intro (c := c) (f := ts.length + 2) (by simp))).unique (Ends.intro (by simp))

theorem more_members (ms : List (String × JVal)) (X : List Tok) :
    textMoreMembers ms ++ X = members false ms (fun _ => X) := by
  induction ms with
  | nil => rfl
  | cons p ms ih => simp [textMoreMembers, members, member, ← ih]

theorem members_text (ms : List (String × JVal)) (r : List Tok) :
    text (.obj ms) ++ r = .lbrace :: members true ms (fun _ => .rbrace :: r) := by
  cases ms with
  | nil => simp [text, textMembers, members]
  | cons p ms => simp [text, textMembers, members, member, ← more_members]

theorem members_append (ms ms' : List (String × JVal)) (X : Bool → List Tok) (b : Bool) :
    members b (ms ++ ms') X = members b ms (fun b => members b ms' X) := by
  induction ms generalizing b with
  | nil => rfl
  | cons p ms ih => simp [members, ih]

theorem textMembers_append {ms : List (String × JVal)} (h : ms ≠ []) (ms' : List (String × JVal)) :
    textMembers (ms ++ ms') = textMembers ms ++ textMoreMembers ms' := by
  have more : ∀ ms, textMoreMembers (ms ++ ms') = textMoreMembers ms ++ textMoreMembers ms' := by
    intro ms
    induction ms with
    | nil => rfl
    | cons p ms ih => simp [textMoreMembers, ih]
  cases ms with
  | nil => exact absurd rfl h
  | cons p ms => simp [textMembers, more]

/-- A brace between members ends the document, whatever is around it. -/
theorem Ends.brace {b b' : Bool} {r r' : List Tok} {t t' : TState} {S S' : List TState} {l : Load} {x : Outcome} :
    Ends c 0 ⟨.rbrace :: r, here b, t :: S⟩ l x ↔ Ends c 0 ⟨.rbrace :: r', here b', t' :: S'⟩ l x := by
  have tok : ∀ (b : Bool) (r : List Tok) (t : TState) (S : List TState),
      Decoder.token ⟨.rbrace :: r, here b, t :: S⟩ = some (.rbrace, ⟨r, t.valueEnd, S⟩) := by
    intro b r t S
    cases b <;> simp [Decoder.token, token, here]
  rw [Ends.err (o := addQueue c l.queue l) (fun f => by rw [decodeLoop, tok]; rfl),
    Ends.err (o := addQueue c l.queue l) (fun f => by rw [decodeLoop, tok]; rfl)]

/-- In the value of an unknown key the count comes to 0 after the members `os`. -/
theorem Ends.nested {k : String} (h1 : k ≠ "nodes") (h2 : k ≠ "edges") {os os' : List (String × JVal)}
    (ho : skimMembers 2 os = some 0) {b : Bool} {t : TState} {S : List TState} {R : List Tok} {l : Load} {x : Outcome} :
    Ends c 0 ⟨member b k (.obj (os ++ os')) R, here b, t :: S⟩ l x ↔
      Ends c 0 ⟨Json.members false os' (fun _ => .rbrace :: R), here false, .objectValue :: t :: S⟩ l x := by
  have hne : os ≠ [] := by rintro rfl; simp [skimMembers] at ho
  obtain ⟨j, -, st, hst, hj⟩ := skip_members c os 2 0 (.objectValue :: t :: S) (textMoreMembers os' ++ .rbrace :: R) l ho
  have hst : st = .objectComma := hst.resolve_left fun h => hne h.2
  subst hst
  rw [← more_members]
  refine Ends.step (j + 1 + 1) fun f => ?_
  rw [← Nat.add_assoc, loop_other h1 h2, ← Nat.add_assoc, skip_open (d' := ⟨textMembers os ++ (textMoreMembers os' ++ .rbrace :: R),
    .objectStart, .objectValue :: t :: S⟩) (.inl (by simp [Decoder.token, text, token, TState.valueAllowed, textMembers_append hne]))]
  exact hj f

/-- Members at the end of which the count is 0 again. -/
theorem Ends.swallow {os : List (String × JVal)} (ho : skimMembers 0 os = some 0) {b : Bool} {X : List Tok} {S : List TState}
    {l : Load} {x : Outcome} :
    Ends c 0 ⟨Json.members b os (fun _ => X), here b, S⟩ l x ↔ Ends c 0 ⟨X, here (b && os.isEmpty), S⟩ l x := by
  cases b with
  | false =>
    obtain ⟨j, -, hj⟩ := skip_moreMembers c os 0 0 S X l ho
    rw [← more_members]
    exact Ends.step j hj
  | true =>
    obtain ⟨j, -, st, hst, hj⟩ := skip_members c os 0 0 S X l ho
    cases os with
    | nil => exact Iff.rfl
    | cons p os =>
      have hst : st = .objectComma := hst.resolve_left fun h => nomatch h.2
      subst hst
      have e : Json.members true (p :: os) (fun _ => X) = textMembers (p :: os) ++ X := by
        simp [textMembers, Json.members, member, ← more_members]
      rw [e]
      exact Ends.step j hj

/-- Whether there was a member before. -/
theorem Ends.first (ms : List (String × JVal)) {b b' : Bool} {r : List Tok} {t : TState} {S : List TState} {l : Load} {x : Outcome} :
    Ends c 0 ⟨Json.members b ms (fun _ => .rbrace :: r), here b, t :: S⟩ l x ↔
      Ends c 0 ⟨Json.members b' ms (fun _ => .rbrace :: r), here b', t :: S⟩ l x := by
  cases ms with
  | nil => exact Ends.brace
  | cons p ms =>
    obtain ⟨k, v⟩ := p
    exact Ends.congr (by rw [Json.members, Json.members, member_token, member_token])

/-- Members that make no difference. -/
theorem decode_swallow (s : State) {ms os : List (String × JVal)} (hm : Plain ms) (ho : skimMembers 0 os = some 0)
    (ms' : List (String × JVal)) (r : List Tok) :
    decode c s (text (.obj (ms ++ (os ++ ms'))) ++ r) = decode c s (text (.obj (ms ++ ms')) ++ r) := by
  by_cases hne : os = []
  · rw [hne, List.nil_append]
  · have e : ∀ b, Json.members b (os ++ ms') (fun _ => .rbrace :: r) =
        Json.members b os (fun _ => Json.members false ms' (fun _ => .rbrace :: r)) := by
      intro b
      rw [members_append]
      cases os with
      | nil => exact absurd rfl hne
      | cons p os =>
        have : ∀ (os : List (String × JVal)) (F : Bool → List Tok),
            Json.members false os F = Json.members false os (fun _ => F false) := by
          intro os F
          induction os with
          | nil => rfl
          | cons p os ih => rw [Json.members, Json.members, ih]
        rw [Json.members, Json.members, this]
    rw [members_text, members_text, members_append, members_append]
    refine decode_eq s fun l x => (Ends.members (X := fun b => Json.members b (os ++ ms') (fun _ => .rbrace :: r))
      (Y := fun b => Json.members b ms' (fun _ => .rbrace :: r)) (fun b b' l x => ?_) ms true true l x hm).1
    rw [e, Ends.swallow ho, show os.isEmpty = false by simp [hne], Bool.and_false]
    exact Ends.first ms'

/-- The document seems to end inside the value of an unknown key. -/
theorem decode_nested (s : State) {k : String} (h1 : k ≠ "nodes") (h2 : k ≠ "edges") {ms os os' : List (String × JVal)}
    (hm : Plain ms) (hp : Plain os') (ho : skimMembers 2 os = some 0) (R : List Tok) :
    decode c s (.lbrace :: members true ms (fun b => member b k (.obj (os ++ os')) R)) =
      decode c s (text (.obj (ms ++ os'))) := by
  rw [← List.append_nil (text _), members_text, members_append]
  refine decode_eq s fun l x => (Ends.members (X := fun b => member b k (.obj (os ++ os')) R)
    (Y := fun b => Json.members b os' (fun _ => [.rbrace])) (fun b b' l x => ?_) ms true true l x hm).1
  rw [Ends.nested h1 h2 ho]
  exact Ends.members (fun b b' l x => Ends.brace) os' false b' l x hp

end LPG.Json

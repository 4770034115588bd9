import Verif.Model.Json
/-! Reading is the inverse of writing. -/
namespace LPG.Json

/-- the first token of a value -/
def Starts : Tok → Prop
  | .rbrace | .rbrack | .comma | .colon => False
  | _ => True

theorem text_starts (v : JVal) : ∃ t ts, text v = t :: ts ∧ Starts t := by
  cases v <;> simp only [text] <;> exact ⟨_, _, rfl, trivial⟩

theorem text_pos (v : JVal) : 0 < (text v).length := by
  obtain ⟨t, ts, h, _⟩ := text_starts v
  rw [h]; simp

def NoComma (r : List Tok) : Prop := ∀ q, r ≠ .comma :: q

theorem readArr {f : Nat} {ts : List Tok} {t : Tok} (ht : t ≠ .rbrack) :
    readValue (f + 1) (.lbrack :: t :: ts) =
      match readElems f (t :: ts) with
      | some (vs, .rbrack :: r) => some (.arr vs, r)
      | _ => none := by
  rw [readValue]
  · rfl
  · intro r h
    cases h
    exact ht rfl

theorem readObj {f : Nat} {ts : List Tok} {t : Tok} (ht : t ≠ .rbrace) :
    readValue (f + 1) (.lbrace :: t :: ts) =
      match readMembers f (t :: ts) with
      | some (ms, .rbrace :: r) => some (.obj ms, r)
      | _ => none := by
  rw [readValue]
  · rfl
  · intro r h
    cases h
    exact ht rfl

mutual
theorem readValue_text : ∀ (v : JVal) (f : Nat) (r : List Tok), 2 * (text v).length ≤ f →
    readValue f (text v ++ r) = some (v, r)
  | .null, 0, r, h | .bool _, 0, r, h | .num _, 0, r, h | .real _, 0, r, h | .str _, 0, r, h | .arr _, 0, r, h
  | .obj _, 0, r, h => by simp [text] at h
  | .null, f + 1, r, h | .bool _, f + 1, r, h | .num _, f + 1, r, h | .real _, f + 1, r, h | .str _, f + 1, r, h => by
    simp [text, readValue]
  | .arr [], f + 1, r, h => by simp [text, textElems, readValue]
  | .obj [], f + 1, r, h => by simp [text, textMembers, readValue]
  | .arr (v :: vs), f + 1, r, h => by
    obtain ⟨t, ts, h1, h2⟩ := text_starts v
    have hl : 2 * (text v ++ textMore vs).length + 1 ≤ f := by
      simp only [text, textElems, List.length_cons, List.length_append, List.length_nil] at h ⊢; omega
    have := readElems_text v vs f (.rbrack :: r) hl (by intro q hq; cases hq)
    simp only [text, textElems, List.cons_append, List.append_assoc, List.nil_append] at this ⊢
    rw [h1] at this ⊢
    simp only [List.cons_append] at this ⊢
    rw [readArr (by rintro rfl; exact h2), this]
  | .obj ((k, v) :: ms), f + 1, r, h => by
    have hl : 2 * (text v ++ textMoreMembers ms).length + 1 ≤ f := by
      simp only [text, textMembers, List.length_cons, List.length_append, List.length_nil] at h ⊢; omega
    have := readMembers_text k v ms f (.rbrace :: r) hl (by intro q hq; cases hq)
    simp only [text, textMembers, List.cons_append, List.append_assoc, List.nil_append] at this ⊢
    rw [readObj (by simp), this]

theorem readElems_text : ∀ (v : JVal) (vs : List JVal) (f : Nat) (r : List Tok), 2 * (text v ++ textMore vs).length + 1 ≤ f →
    NoComma r → readElems f (text v ++ textMore vs ++ r) = some (v :: vs, r)
  | v, vs, 0, r, h, hr => by omega
  | v, [], f + 1, r, h, hr => by
    simp only [textMore, List.append_nil] at h ⊢
    rw [readElems, readValue_text v f r (by omega)]
    cases r with
    | nil => rfl
    | cons t r =>
      cases t <;> first | rfl | exact absurd rfl (hr r)
  | v, w :: vs, f + 1, r, h, hr => by
    simp only [textMore, List.append_assoc, List.cons_append, List.length_append, List.length_cons] at h ⊢
    rw [readElems, readValue_text v f _ (by omega)]
    have := readElems_text w vs f r (by simp only [List.length_append]; omega) hr
    rw [List.append_assoc] at this
    simp only [this]

theorem readMembers_text : ∀ (k : String) (v : JVal) (ms : List (String × JVal)) (f : Nat) (r : List Tok),
    2 * (text v ++ textMoreMembers ms).length + 1 ≤ f → NoComma r →
    readMembers f (.str k :: .colon :: (text v ++ textMoreMembers ms ++ r)) = some ((k, v) :: ms, r)
  | k, v, ms, 0, r, h, hr => by omega
  | k, v, [], f + 1, r, h, hr => by
    simp only [textMoreMembers, List.append_nil] at h ⊢
    rw [readMembers, readValue_text v f r (by omega)]
    cases r with
    | nil => rfl
    | cons t r =>
      cases t <;> first | rfl | exact absurd rfl (hr r)
  | k, v, (k', w) :: ms, f + 1, r, h, hr => by
    simp only [textMoreMembers, List.append_assoc, List.cons_append, List.length_append, List.length_cons] at h ⊢
    rw [readMembers, readValue_text v f _ (by omega)]
    have := readMembers_text k' w ms f r (by simp only [List.length_append]; omega) hr
    rw [List.append_assoc] at this
    simp only [this]
end

/-- What is read is what stands there. -/
theorem read_sound : ∀ (f : Nat),
    (∀ ts v r, readValue f ts = some (v, r) → ts = text v ++ r) ∧
    (∀ ts vs r, readElems f ts = some (vs, r) → ∃ v vs', vs = v :: vs' ∧ ts = text v ++ textMore vs' ++ r) ∧
    (∀ ts ms r, readMembers f ts = some (ms, r) → ∃ k v ms', ms = (k, v) :: ms' ∧
      ts = .str k :: .colon :: (text v ++ textMoreMembers ms' ++ r))
  | 0 => by simp [readValue, readElems, readMembers]
  | f + 1 => by
    obtain ⟨ih1, ih2, ih3⟩ := read_sound f
    refine ⟨fun ts v r h => ?_, fun ts vs r h => ?_, fun ts ms r h => ?_⟩
    · cases ts with
      | nil => simp [readValue] at h
      | cons t ts =>
        cases t with
        | rbrace | rbrack | comma | colon => simp [readValue] at h
        | null | str | num | real | bool =>
          simp only [readValue, Option.some.injEq, Prod.mk.injEq] at h
          obtain ⟨rfl, rfl⟩ := h
          simp [text]
        | lbrack =>
          by_cases hb : ∃ q, ts = .rbrack :: q
          · obtain ⟨q, rfl⟩ := hb
            simp only [readValue, Option.some.injEq, Prod.mk.injEq] at h
            obtain ⟨rfl, rfl⟩ := h
            simp [text, textElems]
          · rw [readValue] at h
            · split at h
              · rename_i h1
                simp only [Option.some.injEq, Prod.mk.injEq] at h
                obtain ⟨rfl, rfl⟩ := h
                obtain ⟨v, vs', rfl, h2⟩ := ih2 _ _ _ h1
                simp [text, textElems, h2]
              · cases h
            · exact fun q hq => hb ⟨q, hq⟩
        | lbrace =>
          by_cases hb : ∃ q, ts = .rbrace :: q
          · obtain ⟨q, rfl⟩ := hb
            simp only [readValue, Option.some.injEq, Prod.mk.injEq] at h
            obtain ⟨rfl, rfl⟩ := h
            simp [text, textMembers]
          · rw [readValue] at h
            · split at h
              · rename_i h1
                simp only [Option.some.injEq, Prod.mk.injEq] at h
                obtain ⟨rfl, rfl⟩ := h
                obtain ⟨k, v, vs', rfl, h2⟩ := ih3 _ _ _ h1
                simp [text, textMembers, h2]
              · cases h
            · exact fun q hq => hb ⟨q, hq⟩
    · rw [readElems] at h
      split at h
      · rename_i v r1 h1
        split at h
        · rename_i vs' r2 h2
          simp only [Option.some.injEq, Prod.mk.injEq] at h
          obtain ⟨rfl, rfl⟩ := h
          obtain ⟨w, ws, rfl, h3⟩ := ih2 _ _ _ h2
          exact ⟨v, w :: ws, rfl, by rw [ih1 _ _ _ h1, h3]; simp [textMore]⟩
        · cases h
      · rename_i v r1 _ h1
        simp only [Option.some.injEq, Prod.mk.injEq] at h
        obtain ⟨rfl, rfl⟩ := h
        exact ⟨v, [], rfl, by rw [ih1 _ _ _ h1]; simp [textMore]⟩
      · cases h
    · match ts, h with
      | .str k :: .colon :: ts, h =>
        rw [readMembers] at h
        split at h
        · rename_i v r1 h1
          split at h
          · rename_i vs' r2 h2
            simp only [Option.some.injEq, Prod.mk.injEq] at h
            obtain ⟨rfl, rfl⟩ := h
            obtain ⟨k', w, ws, rfl, h3⟩ := ih3 _ _ _ h2
            exact ⟨k, v, (k', w) :: ws, rfl, by rw [ih1 _ _ _ h1, h3]; simp [textMoreMembers]⟩
          · cases h
        · rename_i v r1 _ h1
          simp only [Option.some.injEq, Prod.mk.injEq] at h
          obtain ⟨rfl, rfl⟩ := h
          exact ⟨k, v, [], rfl, by rw [ih1 _ _ _ h1]; simp [textMoreMembers]⟩
        · cases h

theorem readValue_sound {f : Nat} {ts : List Tok} {v : JVal} {r : List Tok} (h : readValue f ts = some (v, r)) :
    ts = text v ++ r := (read_sound f).1 ts v r h

end LPG.Json

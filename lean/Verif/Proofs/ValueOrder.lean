import Verif.Proofs.Value
import Mathlib.Data.List.Lex
import Mathlib.Data.Prod.Lex
import Mathlib.Data.String.Basic
/-!
# A total order behind ComparePropertyValue

Every value is written as a list of tokens, ordered lexicographically. Where the comparison of two values is defined, it is
the comparison of their lists.
-/
namespace LPG

abbrev Tok := Lex (Nat × Lex (Int × String))

def tok (n : Nat) (i : Int) (s : String) : Tok := toLex (n, toLex (i, s))

theorem tok_lt {n m : Nat} {i j : Int} {s t : String} :
    tok n i s < tok m j t ↔ n < m ∨ n = m ∧ (i < j ∨ i = j ∧ s < t) := by
  simp [tok, Prod.Lex.lt_iff]

mutual
/-- the tokens of a value; native wrappers are left out -/
def ser : Value → List Tok
  | .nil => [tok 1 0 ""]
  | .int i => [tok 2 i ""]
  | .str s => [tok 3 0 s]
  | .ints l => tok 4 0 "" :: (l.map (fun i => tok 2 i "") ++ [tok 0 0 ""])
  | .strs l => tok 4 0 "" :: (l.map (fun s => tok 3 0 s) ++ [tok 0 0 ""])
  | .list l => tok 4 0 "" :: (serL l ++ [tok 0 0 ""])
  | .other t h => [tok 5 (2 * t + if h then 1 else 0) ""]
  | .native v => ser v
def serL : List Value → List Tok
  | [] => []
  | v :: vs => ser v ++ serL vs
end

theorem ser_strip : ∀ v, ser (strip v) = ser v
  | .native v => by simp [strip, ser, ser_strip v]
  | .nil => rfl
  | .int _ => rfl
  | .str _ => rfl
  | .ints _ => rfl
  | .strs _ => rfl
  | .list _ => rfl
  | .other _ _ => rfl

theorem serL_int : ∀ l : List Int, serL (l.map .int) = l.map (fun i => tok 2 i "")
  | [] => by simp [serL]
  | i :: l => by simp [serL, ser, serL_int l]

theorem serL_str : ∀ l : List String, serL (l.map .str) = l.map (fun s => tok 3 0 s)
  | [] => by simp [serL]
  | i :: l => by simp [serL, ser, serL_str l]

theorem ser_elems {v : Value} {l : List Value} (h : elems v = some l) : ser v = tok 4 0 "" :: (serL l ++ [tok 0 0 ""]) := by
  cases v <;> simp [elems] at h <;> subst h <;> simp [ser, serL_int, serL_str]

/-- the tokens of a value begin above the end of a list -/
theorem ser_head : ∀ v : Value, ∃ n i s l, ser v = tok n i s :: l ∧ 0 < n
  | .native v => by simpa [ser] using ser_head v
  | .nil => ⟨1, 0, "", _, by simp only [ser]; rfl, by decide⟩
  | .int i => ⟨2, i, "", _, by simp only [ser]; rfl, by decide⟩
  | .str s => ⟨3, 0, s, _, by simp only [ser]; rfl, by decide⟩
  | .ints _ => ⟨4, 0, "", _, by simp only [ser]; rfl, by decide⟩
  | .strs _ => ⟨4, 0, "", _, by simp only [ser]; rfl, by decide⟩
  | .list _ => ⟨4, 0, "", _, by simp only [ser]; rfl, by decide⟩
  | .other t h => ⟨5, _, "", _, by simp only [ser]; rfl, by decide⟩

/-- what the tokens say about a comparison -/
def SerOK (o : Option Int) (a b : List Tok) : Prop :=
  (o = some 0 → a = b) ∧ (o = some (-1) → ∀ u w, a ++ u < b ++ w) ∧ (o = some 1 → ∀ u w, b ++ u < a ++ w)

theorem append_lt_append (s : List Tok) {u w : List Tok} (h : u < w) : s ++ u < s ++ w := by
  induction s with
  | nil => exact h
  | cons a s ih => exact List.Lex.cons ih

theorem cmpVV_ser : ∀ (a b : List Value), (∀ x ∈ a, ∀ y ∈ b, SerOK (cmp x y) (ser x) (ser y)) →
    SerOK (cmpVV a b) (serL a ++ [tok 0 0 ""]) (serL b ++ [tok 0 0 ""])
  | [], [], _ => by simp [cmpVV, SerOK, serL]
  | [], y :: bs, _ => by
    obtain ⟨n, i, s, l, h1, h2⟩ := ser_head y
    simp only [cmpVV, SerOK, serL, h1]
    refine ⟨by simp, fun _ u w => ?_, by simp⟩
    exact List.Lex.rel (tok_lt.2 (Or.inl h2))
  | x :: as, [], _ => by
    obtain ⟨n, i, s, l, h1, h2⟩ := ser_head x
    simp only [cmpVV, SerOK, serL, h1]
    refine ⟨by simp, by simp, fun _ u w => ?_⟩
    exact List.Lex.rel (tok_lt.2 (Or.inl h2))
  | x :: as, y :: bs, h => by
    have hxy := h x (by simp) y (by simp)
    have ih := cmpVV_ser as bs (fun x hx y hy => h x (by simp [hx]) y (by simp [hy]))
    rw [cmpVV]
    cases hc : cmp x y with
    | none => simp [SerOK]
    | some r =>
      rw [hc] at hxy
      have hr := cmp_range _ _ _ hc
      dsimp only
      split
      · rename_i h1
        subst h1
        refine ⟨by simp, fun _ u w => ?_, by simp⟩
        have := hxy.2.1 rfl (serL as ++ [tok 0 0 ""] ++ u) (serL bs ++ [tok 0 0 ""] ++ w)
        simpa [serL] using this
      · split
        · rename_i h1
          subst h1
          refine ⟨by simp, by simp, fun _ u w => ?_⟩
          have := hxy.2.2 rfl (serL bs ++ [tok 0 0 ""] ++ u) (serL as ++ [tok 0 0 ""] ++ w)
          simpa [serL] using this
        · have h0 : r = 0 := by omega
          subst h0
          have he := hxy.1 rfl
          refine ⟨fun h0 => ?_, fun h0 u w => ?_, fun h0 u w => ?_⟩
          · have := ih.1 h0
            simp only [serL, he, List.append_assoc, this]
          · have := append_lt_append (ser x) (ih.2.1 h0 u w)
            rw [serL, serL, ← he]
            simpa using this
          · have := append_lt_append (ser x) (ih.2.2 h0 u w)
            rw [serL, serL, ← he]
            simpa using this

theorem cmpStr_ser (a b : String) : SerOK (some (cmpStr a b)) (ser (.str a)) (ser (.str b)) := by
  have hb : a < b → ∀ u w : List Tok, [tok 3 0 a] ++ u < [tok 3 0 b] ++ w := fun h u w =>
    List.Lex.rel (tok_lt.2 (Or.inr ⟨rfl, Or.inr ⟨rfl, h⟩⟩))
  have hb' : b < a → ∀ u w : List Tok, [tok 3 0 b] ++ u < [tok 3 0 a] ++ w := fun h u w =>
    List.Lex.rel (tok_lt.2 (Or.inr ⟨rfl, Or.inr ⟨rfl, h⟩⟩))
  simp only [SerOK, ser, cmpStr, Option.some.injEq]
  rcases str_lt_or a b with h | h | h
  · have h1 : a ≠ b := fun e => String.lt_irrefl b (e ▸ h)
    simp only [h1, h, if_true, if_false]
    exact ⟨by simp, fun _ => hb h, by simp⟩
  · subst h; simp
  · have h1 : a ≠ b := fun e => String.lt_irrefl b (e ▸ h)
    simp only [h1, String.lt_asymm h, if_false]
    exact ⟨by simp, by simp, fun _ => hb' h⟩

theorem cmpInt_ser (a b : Int) : SerOK (some (cmpInt a b)) (ser (.int a)) (ser (.int b)) := by
  have hb : a < b → ∀ u w : List Tok, [tok 2 a ""] ++ u < [tok 2 b ""] ++ w := fun h u w =>
    List.Lex.rel (tok_lt.2 (Or.inr ⟨rfl, Or.inl h⟩))
  have hb' : b < a → ∀ u w : List Tok, [tok 2 b ""] ++ u < [tok 2 a ""] ++ w := fun h u w =>
    List.Lex.rel (tok_lt.2 (Or.inr ⟨rfl, Or.inl h⟩))
  simp only [SerOK, ser, cmpInt, Option.some.injEq]
  by_cases h : a = b
  · subst h; simp
  · by_cases h2 : a < b
    · simp only [h, h2, if_true, if_false]; exact ⟨by simp, fun _ => hb h2, by simp⟩
    · simp only [h, h2, if_false]; exact ⟨by simp, by simp, fun _ => hb' (by omega)⟩

theorem cmp_ser_aux : ∀ (n : Nat) (a b : Value), sizeOf a + sizeOf b ≤ n → SerOK (cmp a b) (ser a) (ser b) := by
  intro n
  induction n with
  | zero => intro a b h; cases a <;> simp at h
  | succ n ih =>
    intro a b hn
    rw [← cmp_strip_left, ← cmp_strip_right, ← ser_strip a, ← ser_strip b]
    have sa := strip_size a
    have sb := strip_size b
    have na := strip_ne a
    have nb := strip_ne b
    generalize strip a = a' at *
    generalize strip b = b' at *
    have lists : ∀ la lb, elems a' = some la → elems b' = some lb → SerOK (cmp a' b') (ser a') (ser b') := by
      intro la lb ha hb
      have hl := cmpVV_ser la lb (fun x hx y hy => ih x y (by
        have := elems_size ha x hx; have := elems_size hb y hy; omega))
      rw [ser_elems ha, ser_elems hb]
      cases hc : cmp a' b' with
      | none => simp [SerOK]
      | some r =>
        rw [cmp_elems ha hb hc] at hl
        refine ⟨fun h => by rw [hl.1 h], fun h u w => ?_, fun h u w => ?_⟩
        · exact List.Lex.cons (hl.2.1 h u w)
        · exact List.Lex.cons (hl.2.2 h u w)
    have none' : cmp a' b' = none → SerOK (cmp a' b') (ser a') (ser b') := by intro h; rw [h]; simp [SerOK]
    cases a' <;> cases b' <;>
      first
      | exact absurd rfl (na _)
      | exact absurd rfl (nb _)
      | exact lists _ _ rfl rfl
      | (rw [cmp_str_str]; exact cmpStr_ser _ _)
      | (rw [cmp_int_int]; exact cmpInt_ser _ _)
      | exact none' (by simp [cmp])

theorem cmp_ser {a b : Value} {r : Int} (h : cmp a b = some r) :
    (r = 0 ↔ ser a = ser b) ∧ (r = -1 ↔ ser a < ser b) ∧ (r = 1 ↔ ser b < ser a) := by
  have hk := cmp_ser_aux _ a b (Nat.le_refl _)
  rw [h] at hk
  have h0 : r = 0 → ser a = ser b := fun e => hk.1 (by rw [e])
  have h1 : r = -1 → ser a < ser b := fun e => by simpa using hk.2.1 (by rw [e]) [] []
  have h2 : r = 1 → ser b < ser a := fun e => by simpa using hk.2.2 (by rw [e]) [] []
  have hr := cmp_range _ _ _ h
  refine ⟨⟨h0, fun e => ?_⟩, ⟨h1, fun e => ?_⟩, ⟨h2, fun e => ?_⟩⟩
  · rcases hr with h | h | h
    · exact absurd e (ne_of_lt (h1 h))
    · exact h
    · exact absurd e.symm (ne_of_lt (h2 h))
  · rcases hr with h | h | h
    · exact h
    · exact absurd (h0 h) (ne_of_lt e)
    · exact absurd (h2 h) (lt_asymm e)
  · rcases hr with h | h | h
    · exact absurd (h1 h) (lt_asymm e)
    · exact absurd (h0 h).symm (ne_of_lt e)
    · exact h

end LPG

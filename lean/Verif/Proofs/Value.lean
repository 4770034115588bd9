import Verif.Model.Value

namespace LPG

@[simp] theorem cmp_native_left (v b : Value) : cmp (.native v) b = cmp v b := by
  rw [cmp.eq_def]

@[simp] theorem cmp_native_right : ∀ (a v : Value), cmp a (.native v) = cmp a v
  | .native w, v => by simp [cmp_native_right w v]
  | .nil, v => by rw [cmp.eq_def]
  | .int _, v => by rw [cmp.eq_def]
  | .str _, v => by rw [cmp.eq_def]
  | .ints _, v => by rw [cmp.eq_def]
  | .strs _, v => by rw [cmp.eq_def]
  | .list _, v => by rw [cmp.eq_def]
  | .other _ _, v => by rw [cmp.eq_def]

/-- all levels of `WithNativeValue` removed -/
def strip : Value → Value
  | .native v => strip v
  | v => v

theorem cmp_strip_left : ∀ a b, cmp (strip a) b = cmp a b
  | .native v, b => by simp [strip, cmp_strip_left v b]
  | .nil, _ => rfl
  | .int _, _ => rfl
  | .str _, _ => rfl
  | .ints _, _ => rfl
  | .strs _, _ => rfl
  | .list _, _ => rfl
  | .other _ _, _ => rfl

theorem cmp_strip_right : ∀ a b, cmp a (strip b) = cmp a b
  | a, .native v => by simp [strip, cmp_strip_right a v]
  | _, .nil => rfl
  | _, .int _ => rfl
  | _, .str _ => rfl
  | _, .ints _ => rfl
  | _, .strs _ => rfl
  | _, .list _ => rfl
  | _, .other _ _ => rfl

theorem strip_ne : ∀ a v, strip a ≠ .native v
  | .native w, v => by simp only [strip]; exact strip_ne w v
  | .nil, _ => by simp [strip]
  | .int _, _ => by simp [strip]
  | .str _, _ => by simp [strip]
  | .ints _, _ => by simp [strip]
  | .strs _, _ => by simp [strip]
  | .list _, _ => by simp [strip]
  | .other _ _, _ => by simp [strip]

theorem strip_size : ∀ a, sizeOf (strip a) ≤ sizeOf a
  | .native w => by simp only [strip]; have := strip_size w; simp; omega
  | .nil => by simp [strip]
  | .int _ => by simp [strip]
  | .str _ => by simp [strip]
  | .ints _ => by simp [strip]
  | .strs _ => by simp [strip]
  | .list _ => by simp [strip]
  | .other _ _ => by simp [strip]

theorem str_lt_or (a b : String) : a < b ∨ a = b ∨ b < a := by
  by_cases h : a < b
  · exact Or.inl h
  · by_cases h2 : b < a
    · exact Or.inr (Or.inr h2)
    · exact Or.inr (Or.inl (String.le_antisymm h2 h))

theorem cmpStr_symm (a b : String) : cmpStr b a = - cmpStr a b := by
  unfold cmpStr
  rcases str_lt_or a b with h | h | h
  · have h1 : a ≠ b := fun e => String.lt_irrefl b (e ▸ h)
    simp [h, h1, Ne.symm h1, String.lt_asymm h]
  · simp [h]
  · have h1 : a ≠ b := fun e => String.lt_irrefl b (e ▸ h)
    simp [h, h1, Ne.symm h1, String.lt_asymm h]

theorem cmpInt_symm (a b : Int) : cmpInt b a = - cmpInt a b := by
  unfold cmpInt; split <;> split <;> (try split) <;> (try split) <;> omega

theorem lexStr_symm : ∀ a b : List String, lexStr b a = - lexStr a b
  | [], [] => rfl
  | [], _ :: _ => rfl
  | _ :: _, [] => rfl
  | a :: as, b :: bs => by
    simp only [lexStr]
    rcases str_lt_or a b with h | h | h
    · simp [h, String.lt_asymm h]
    · subst h; simp [String.lt_irrefl, lexStr_symm as bs]
    · simp [h, String.lt_asymm h]

theorem lexInt_symm : ∀ a b : List Int, lexInt b a = - lexInt a b
  | [], [] => rfl
  | [], _ :: _ => rfl
  | _ :: _, [] => rfl
  | a :: as, b :: bs => by
    simp only [lexInt]
    have := lexInt_symm as bs
    split <;> split <;> (try split) <;> omega

theorem cmpStr_range (a b : String) : cmpStr a b = -1 ∨ cmpStr a b = 0 ∨ cmpStr a b = 1 := by
  unfold cmpStr; split <;> (try split) <;> simp

theorem cmpInt_range (a b : Int) : cmpInt a b = -1 ∨ cmpInt a b = 0 ∨ cmpInt a b = 1 := by
  unfold cmpInt; split <;> (try split) <;> simp

theorem lexStr_range : ∀ a b : List String, lexStr a b = -1 ∨ lexStr a b = 0 ∨ lexStr a b = 1
  | [], [] => by simp [lexStr]
  | [], _ :: _ => by simp [lexStr]
  | _ :: _, [] => by simp [lexStr]
  | a :: as, b :: bs => by
    simp only [lexStr]; split <;> (try split) <;> simp [lexStr_range as bs]

theorem lexInt_range : ∀ a b : List Int, lexInt a b = -1 ∨ lexInt a b = 0 ∨ lexInt a b = 1
  | [], [] => by simp [lexInt]
  | [], _ :: _ => by simp [lexInt]
  | _ :: _, [] => by simp [lexInt]
  | a :: as, b :: bs => by
    simp only [lexInt]; split <;> (try split) <;> simp [lexInt_range as bs]

theorem cmpVV_range : ∀ (a b : List Value) (r : Int), cmpVV a b = some r → r = -1 ∨ r = 0 ∨ r = 1
  | [], [], r, h => by simp [cmpVV] at h; omega
  | [], _ :: _, r, h => by simp [cmpVV] at h; omega
  | _ :: _, [], r, h => by simp [cmpVV] at h; omega
  | a :: as, b :: bs, r, h => by
    rw [cmpVV] at h
    split at h
    · cases h
    · split at h
      · simp at h; omega
      · split at h
        · simp at h; omega
        · exact cmpVV_range as bs r h

theorem cmp_str_str (a b : String) : cmp (.str a) (.str b) = some (cmpStr a b) := by rw [cmp.eq_def]
theorem cmp_int_int (a b : Int) : cmp (.int a) (.int b) = some (cmpInt a b) := by rw [cmp.eq_def]
theorem cmp_strs_strs (a b) : cmp (.strs a) (.strs b) = some (lexStr a b) := by rw [cmp.eq_def]
theorem cmp_strs_list (a b) : cmp (.strs a) (.list b) = cmpSV a b := by rw [cmp.eq_def]
theorem cmp_ints_ints (a b) : cmp (.ints a) (.ints b) = some (lexInt a b) := by rw [cmp.eq_def]
theorem cmp_ints_list (a b) : cmp (.ints a) (.list b) = cmpIV a b := by rw [cmp.eq_def]
theorem cmp_list_list (a b) : cmp (.list a) (.list b) = cmpVV a b := by rw [cmp.eq_def]
theorem cmp_list_strs (a b) : cmp (.list a) (.strs b) = (cmpSV b a).map (fun x => -x) := by
  rw [cmp.eq_def]
theorem cmp_list_ints (a b) : cmp (.list a) (.ints b) = (cmpIV b a).map (fun x => -x) := by
  rw [cmp.eq_def]

theorem cmpSV_eq : ∀ (a : List String) (b : List Value), cmpSV a b = cmpVV (a.map .str) b
  | [], [] => by simp [cmpSV, cmpVV]
  | [], _ :: _ => by simp [cmpSV, cmpVV]
  | _ :: _, [] => by simp [cmpSV, cmpVV]
  | a :: as, b :: bs => by
    simp only [List.map_cons, cmpSV, cmpVV, cmpSV_eq as bs]

theorem cmpIV_eq : ∀ (a : List Int) (b : List Value), cmpIV a b = cmpVV (a.map .int) b
  | [], [] => by simp [cmpIV, cmpVV]
  | [], _ :: _ => by simp [cmpIV, cmpVV]
  | _ :: _, [] => by simp [cmpIV, cmpVV]
  | a :: as, b :: bs => by
    simp only [List.map_cons, cmpIV, cmpVV, cmpIV_eq as bs]

theorem lexStr_eq : ∀ (a b : List String), cmpVV (a.map .str) (b.map .str) = some (lexStr a b)
  | [], [] => by simp [lexStr, cmpVV]
  | [], _ :: _ => by simp [lexStr, cmpVV]
  | _ :: _, [] => by simp [lexStr, cmpVV]
  | a :: as, b :: bs => by
    simp only [List.map_cons, cmpVV, lexStr, lexStr_eq as bs, cmp_str_str, cmpStr]
    rcases str_lt_or a b with h | h | h
    · have h1 : a ≠ b := fun e => String.lt_irrefl b (e ▸ h)
      simp [h, h1]
    · subst h; simp [String.lt_irrefl]
    · have h1 : a ≠ b := fun e => String.lt_irrefl b (e ▸ h)
      simp [h, h1, String.lt_asymm h]

theorem lexInt_eq : ∀ (a b : List Int), cmpVV (a.map .int) (b.map .int) = some (lexInt a b)
  | [], [] => by simp [lexInt, cmpVV]
  | [], _ :: _ => by simp [lexInt, cmpVV]
  | _ :: _, [] => by simp [lexInt, cmpVV]
  | a :: as, b :: bs => by
    simp only [List.map_cons, cmpVV, lexInt, lexInt_eq as bs, cmp_int_int, cmpInt]
    by_cases h : a = b
    · simp [h]
    · by_cases h2 : a < b
      · simp [h, h2]
      · have : b < a := by omega
        simp [h, h2, this]

/-- symmetry of the element loop from symmetry of the elements -/
theorem cmpVV_symm_of : ∀ (a b : List Value),
    (∀ x ∈ a, ∀ y ∈ b, cmp y x = (cmp x y).map (fun r => -r)) →
    cmpVV b a = (cmpVV a b).map (fun r => -r)
  | [], [], _ => by simp [cmpVV]
  | [], _ :: _, _ => by simp [cmpVV]
  | _ :: _, [], _ => by simp [cmpVV]
  | a :: as, b :: bs, h => by
    have h0 := h a (by simp) b (by simp)
    have h1 := cmpVV_symm_of as bs (fun x hx y hy => h x (by simp [hx]) y (by simp [hy]))
    rw [cmpVV, cmpVV, h0]
    cases hc : cmp a b with
    | none => simp
    | some r =>
      simp only [Option.map_some]
      by_cases e1 : r = -1
      · subst e1; simp
      · by_cases e2 : r = 1
        · subst e2; simp
        · have e3 : ¬ (-r = -1) := by omega
          have e4 : ¬ (-r = 1) := by omega
          simp [e1, e2, e3, e4, h1]

theorem cmp_symm_aux : ∀ (n : Nat) (a b : Value), sizeOf a + sizeOf b ≤ n →
    cmp b a = (cmp a b).map (fun r => -r) := by
  intro n
  induction n with
  | zero =>
    intro a b h
    cases a <;> simp at h
  | succ n ih =>
    intro a b h
    have hl : ∀ as bs : List Value, a = .list as → b = .list bs → cmpVV bs as = (cmpVV as bs).map (fun r => -r) := by
      intro as bs ha hb
      subst ha; subst hb
      apply cmpVV_symm_of
      intro x hx y hy
      apply ih
      have h1 := List.sizeOf_lt_of_mem hx
      have h2 := List.sizeOf_lt_of_mem hy
      simp at h
      omega
    cases a with
    | native v =>
      simp only [cmp_native_left, cmp_native_right]
      apply ih; simp at h; omega
    | nil => cases b with
      | native w => simp only [cmp_native_left, cmp_native_right]; apply ih; simp at h ⊢; omega
      | _ => simp [cmp]
    | other t hh => cases b with
      | native w => simp only [cmp_native_left, cmp_native_right]; apply ih; simp at h ⊢; omega
      | _ => simp [cmp]
    | int i => cases b with
      | native w => simp only [cmp_native_left, cmp_native_right]; apply ih; simp at h ⊢; omega
      | int j => simp [cmp_int_int, cmpInt_symm i j]
      | _ => simp [cmp]
    | str i => cases b with
      | native w => simp only [cmp_native_left, cmp_native_right]; apply ih; simp at h ⊢; omega
      | str j => simp [cmp_str_str, cmpStr_symm i j]
      | _ => simp [cmp]
    | strs i => cases b with
      | native w => simp only [cmp_native_left, cmp_native_right]; apply ih; simp at h ⊢; omega
      | strs j => simp [cmp_strs_strs, lexStr_symm i j]
      | list j => simp [cmp_list_strs, cmp_strs_list]
      | _ => simp [cmp]
    | ints i => cases b with
      | native w => simp only [cmp_native_left, cmp_native_right]; apply ih; simp at h ⊢; omega
      | ints j => simp [cmp_ints_ints, lexInt_symm i j]
      | list j => simp [cmp_list_ints, cmp_ints_list]
      | _ => simp [cmp]
    | list i => cases b with
      | native w => simp only [cmp_native_left, cmp_native_right]; apply ih; simp at h ⊢; omega
      | ints j => cases hx : cmpIV j i <;> simp [cmp_list_ints, cmp_ints_list, hx]
      | strs j => cases hx : cmpSV j i <;> simp [cmp_list_strs, cmp_strs_list, hx]
      | list j => simp only [cmp_list_list]; exact hl i j rfl rfl
      | _ => simp [cmp]

theorem cmp_symm (a b : Value) : cmp b a = (cmp a b).map (fun r => -r) :=
  cmp_symm_aux _ a b (Nat.le_refl _)

theorem cmp_range (a b : Value) (r : Int) (h : cmp a b = some r) : r = -1 ∨ r = 0 ∨ r = 1 := by
  rw [← cmp_strip_left, ← cmp_strip_right] at h
  have ha := strip_ne a
  have hb := strip_ne b
  generalize strip a = a' at *
  generalize strip b = b' at *
  cases a' <;> cases b' <;>
      first
      | (exact absurd rfl (ha _))
      | (exact absurd rfl (hb _))
      | (simp [cmp] at h; done)
      | (simp only [cmp_str_str, cmp_int_int, cmp_strs_strs, cmp_ints_ints, Option.some.injEq] at h
         subst h
         first | exact cmpStr_range _ _ | exact cmpInt_range _ _ | exact lexStr_range _ _ | exact lexInt_range _ _)
      | (simp only [cmp_list_list] at h; exact cmpVV_range _ _ _ h)
      | (simp only [cmp_strs_list, cmpSV_eq] at h; exact cmpVV_range _ _ _ h)
      | (simp only [cmp_ints_list, cmpIV_eq] at h; exact cmpVV_range _ _ _ h)
      | (simp only [cmp_list_strs, cmp_list_ints, cmpSV_eq, cmpIV_eq, Option.map_eq_some_iff] at h
         obtain ⟨q, hq, rfl⟩ := h
         rcases cmpVV_range _ _ _ hq with h | h | h <;> subst h <;> simp)

/-- the elements of a slice value -/
def elems : Value → Option (List Value)
  | .strs l => some (l.map .str)
  | .ints l => some (l.map .int)
  | .list l => some l
  | _ => none

theorem neg_map_some {o : Option Int} {x : Int} : o.map (fun r => -r) = some x ↔ o = some (-x) := by
  cases o with
  | none => simp
  | some y => simp; omega

theorem cmp_elems {a b : Value} {la lb : List Value} {x : Int}
    (ha : elems a = some la) (hb : elems b = some lb) (h : cmp a b = some x) : cmpVV la lb = some x := by
  cases a <;> simp [elems] at ha <;> cases b <;> simp [elems] at hb <;> subst ha <;> subst hb
  · simpa [cmp_ints_ints, lexInt_eq] using h
  · simp [cmp] at h
  · simpa [cmp_ints_list, cmpIV_eq] using h
  · simp [cmp] at h
  · simpa [cmp_strs_strs, lexStr_eq] using h
  · simpa [cmp_strs_list, cmpSV_eq] using h
  · rename_i la l
    rw [cmp_list_ints, cmpIV_eq, neg_map_some] at h
    rw [cmpVV_symm_of (l.map .int) la (fun x _ y _ => cmp_symm x y), h]; simp
  · rename_i la l
    rw [cmp_list_strs, cmpSV_eq, neg_map_some] at h
    rw [cmpVV_symm_of (l.map .str) la (fun x _ y _ => cmp_symm x y), h]; simp
  · simpa [cmp_list_list] using h

theorem elems_size {a : Value} {la : List Value} (h : elems a = some la) : ∀ x ∈ la, sizeOf x < sizeOf a := by
  cases a <;> simp [elems] at h <;> subst h <;> intro x hx
  · simp at hx; obtain ⟨i, hi, rfl⟩ := hx
    have := List.sizeOf_lt_of_mem hi; simp at this ⊢; omega
  · simp at hx; obtain ⟨i, hi, rfl⟩ := hx
    have := List.sizeOf_lt_of_mem hi; simp at this ⊢; omega
  · have := List.sizeOf_lt_of_mem hx; simp; omega

/-- what transitivity says about three results -/
def TransOK (x y z : Int) : Prop := x ≤ 0 → y ≤ 0 → z ≤ 0 ∧ (z = 0 ↔ x = 0 ∧ y = 0)

theorem cmpVV_trans_of : ∀ (a b c : List Value),
    (∀ u ∈ a, ∀ v ∈ b, ∀ w ∈ c, ∀ x y z, cmp u v = some x → cmp v w = some y → cmp u w = some z → TransOK x y z) →
    ∀ x y z, cmpVV a b = some x → cmpVV b c = some y → cmpVV a c = some z → TransOK x y z
  | [], [], [], _, x, y, z, h1, h2, h3 => by simp [cmpVV] at h1 h2 h3; unfold TransOK; intro _ _; omega
  | [], [], _ :: _, _, x, y, z, h1, h2, h3 => by simp [cmpVV] at h1 h2 h3; unfold TransOK; intro _ _; omega
  | [], _ :: _, [], _, x, y, z, h1, h2, h3 => by simp [cmpVV] at h1 h2 h3; unfold TransOK; intro _ _; omega
  | [], _ :: _, _ :: _, _, x, y, z, h1, h2, h3 => by simp [cmpVV] at h1 h3; unfold TransOK; intro _ _; omega
  | _ :: _, [], [], _, x, y, z, h1, h2, h3 => by simp [cmpVV] at h1 h2 h3; unfold TransOK; intro _ _; omega
  | _ :: _, [], _ :: _, _, x, y, z, h1, h2, h3 => by simp [cmpVV] at h1 h2; unfold TransOK; intro _ _; omega
  | _ :: _, _ :: _, [], _, x, y, z, h1, h2, h3 => by simp [cmpVV] at h2 h3; unfold TransOK; intro _ _; omega
  | a :: as, b :: bs, c :: cs, h, x, y, z, h1, h2, h3 => by
    have ih := cmpVV_trans_of as bs cs (fun u hu v hv w hw => h u (by simp [hu]) v (by simp [hv]) w (by simp [hw]))
    rw [cmpVV] at h1 h2 h3
    cases hab : cmp a b with
    | none => simp [hab] at h1
    | some p =>
    cases hbc : cmp b c with
    | none => simp [hbc] at h2
    | some q =>
    cases hac : cmp a c with
    | none => simp [hac] at h3
    | some r =>
    have ht := h a (by simp) b (by simp) c (by simp) p q r hab hbc hac
    simp only [hab, hbc, hac] at h1 h2 h3
    have rp := cmp_range _ _ _ hab
    have rq := cmp_range _ _ _ hbc
    have rr := cmp_range _ _ _ hac
    unfold TransOK at ht
    by_cases p1 : p = -1
    · simp [p1] at h1
      by_cases q1 : q = 1
      · simp [q1] at h2; unfold TransOK; intro _ _; omega
      · have : r = -1 := by omega
        simp [this] at h3; unfold TransOK; intro _ _; omega
    · by_cases p2 : p = 1
      · simp [p2] at h1; unfold TransOK; intro _ _; omega
      · have p0 : p = 0 := by omega
        simp [p0] at h1
        by_cases q1 : q = -1
        · have : r = -1 := by omega
          simp [this] at h3; simp [q1] at h2; unfold TransOK; intro _ _; omega
        · by_cases q2 : q = 1
          · simp [q2] at h2; unfold TransOK; intro _ _; omega
          · have q0 : q = 0 := by omega
            -- r = 0 : use symmetric instance
            have r0 : r = 0 := by omega
            simp [q0] at h2
            simp [r0] at h3
            exact ih x y z h1 h2 h3

theorem cmp_trans_aux : ∀ (n : Nat) (a b c : Value), sizeOf a + sizeOf b + sizeOf c ≤ n →
    ∀ x y z, cmp a b = some x → cmp b c = some y → cmp a c = some z → TransOK x y z := by
  intro n
  induction n with
  | zero => intro a b c h; cases a <;> simp at h
  | succ n ih =>
    intro a b c h x y z h1 h2 h3
    rw [← cmp_strip_left, ← cmp_strip_right] at h1 h2 h3
    have hs : sizeOf (strip a) + sizeOf (strip b) + sizeOf (strip c) ≤ n + 1 := by
      have := strip_size a; have := strip_size b; have := strip_size c; omega
    have ha := strip_ne a
    have hb := strip_ne b
    have hc := strip_ne c
    generalize strip a = a' at *
    generalize strip b = b' at *
    generalize strip c = c' at *
    have hl : ∀ la lb lc, elems a' = some la → elems b' = some lb → elems c' = some lc → TransOK x y z := by
      intro la lb lc ea eb ec
      refine cmpVV_trans_of la lb lc ?_ x y z (cmp_elems ea eb h1) (cmp_elems eb ec h2) (cmp_elems ea ec h3)
      intro u hu v hv w hw x y z h1 h2 h3
      have := elems_size ea u hu
      have := elems_size eb v hv
      have := elems_size ec w hw
      exact ih u v w (by omega) x y z h1 h2 h3
    clear ih h hs
    cases a' <;> cases b' <;>
      first
      | (exact absurd rfl (ha _))
      | (exact absurd rfl (hb _))
      | (simp [cmp] at h1; done)
      | (cases c' <;>
        first
        | (exact absurd rfl (hc _))
        | (simp [cmp] at h2; done)
        | (simp [cmp] at h3; done)
        | exact hl _ _ _ rfl rfl rfl
        | (simp only [cmp_int_int, cmpInt, Option.some.injEq] at h1 h2 h3
           unfold TransOK
           split at h1 <;> split at h2 <;> split at h3 <;> (try split at h1) <;> (try split at h2) <;> (try split at h3) <;> omega)
        | skip)
    rename_i a b c
    simp only [cmp_str_str, cmpStr, Option.some.injEq] at h1 h2 h3
    unfold TransOK
    rcases str_lt_or a b with h | h | h <;> rcases str_lt_or b c with h' | h' | h'
    all_goals first
      | (have e1 : a ≠ b := fun e => String.lt_irrefl b (e ▸ h)
         simp [e1, String.lt_asymm h] at h1; omega)
      | (have e1 : b ≠ c := fun e => String.lt_irrefl c (e ▸ h')
         simp [e1, String.lt_asymm h'] at h2; omega)
      | skip
    · have h'' := String.lt_trans h h'
      have e1 : a ≠ b := fun e => String.lt_irrefl b (e ▸ h)
      have e2 : a ≠ c := fun e => String.lt_irrefl c (e ▸ h'')
      simp [h, e1] at h1; simp [h'', e2] at h3; omega
    · subst h'
      have e1 : a ≠ b := fun e => String.lt_irrefl b (e ▸ h)
      simp [h, e1] at h1 h3; omega
    · subst h
      have e1 : a ≠ c := fun e => String.lt_irrefl c (e ▸ h')
      simp [h', e1] at h2 h3; simp at h1; omega
    · subst h; subst h'; simp at h1 h2 h3; omega

theorem cmp_trans {a b c : Value} {x y z : Int} (h1 : cmp a b = some x) (h2 : cmp b c = some y)
    (h3 : cmp a c = some z) : TransOK x y z := cmp_trans_aux _ a b c (Nat.le_refl _) x y z h1 h2 h3

end LPG
namespace LPG

/-- one is `[]string` and the other `[]int` -/
def mixed : Value → Value → Prop
  | .strs _, .ints _ => True
  | .ints _, .strs _ => True
  | _, _ => False

theorem cmp_elems_eq {a b : Value} {la lb : List Value}
    (ha : elems a = some la) (hb : elems b = some lb) (hm : ¬ mixed a b) : cmp a b = cmpVV la lb := by
  cases a <;> simp [elems] at ha <;> cases b <;> simp [elems] at hb <;> subst ha <;> subst hb
  · simp [cmp_ints_ints, lexInt_eq]
  · simp [mixed] at hm
  · simp [cmp_ints_list, cmpIV_eq]
  · simp [mixed] at hm
  · simp [cmp_strs_strs, lexStr_eq]
  · simp [cmp_strs_list, cmpSV_eq]
  · rename_i la l
    rw [cmp_list_ints, cmpIV_eq, cmpVV_symm_of (l.map .int) la (fun x _ y _ => cmp_symm x y)]
  · rename_i la l
    rw [cmp_list_strs, cmpSV_eq, cmpVV_symm_of (l.map .str) la (fun x _ y _ => cmp_symm x y)]
  · simp [cmp_list_list]

theorem cmpVV_zero : ∀ a b : List Value, cmpVV a b = some 0 ↔
    a.length = b.length ∧ ∀ (i : Nat) (x y : Value), a[i]? = some x → b[i]? = some y → cmp x y = some 0
  | [], [] => by simp [cmpVV]
  | [], _ :: _ => by simp [cmpVV]
  | _ :: _, [] => by simp [cmpVV]
  | a :: as, b :: bs => by
    rw [cmpVV]
    have ih := cmpVV_zero as bs
    constructor
    · intro h
      cases hc : cmp a b with
      | none => simp [hc] at h
      | some r =>
        simp only [hc] at h
        have hr := cmp_range _ _ _ hc
        split at h
        · simp at h
        · split at h
          · simp at h
          · have h0 : r = 0 := by omega
            subst h0
            rw [ih] at h
            refine ⟨by simp [h.1], ?_⟩
            intro i x y hx hy
            cases i with
            | zero => simp at hx hy; subst hx; subst hy; exact hc
            | succ i => exact h.2 i x y (by simpa using hx) (by simpa using hy)
    · intro ⟨h1, h2⟩
      have hc := h2 0 a b (by simp) (by simp)
      simp only [hc]
      simp only [Int.reduceNeg, show ¬ ((0:Int) = -1) by decide, show ¬ ((0:Int) = 1) by decide, if_false]
      rw [ih]
      refine ⟨by simpa using h1, ?_⟩
      intro i x y hx hy
      exact h2 (i+1) x y (by simpa using hx) (by simpa using hy)

theorem cmpVV_neg : ∀ a b : List Value, cmpVV a b = some (-1) ↔
    ∃ k : Nat, k ≤ a.length ∧ k ≤ b.length ∧
      (∀ (i : Nat) (x y : Value), i < k → a[i]? = some x → b[i]? = some y → cmp x y = some 0) ∧
      ((k = a.length ∧ k < b.length) ∨
        ∃ x y, a[k]? = some x ∧ b[k]? = some y ∧ cmp x y = some (-1))
  | [], [] => by simp [cmpVV]
  | [], _ :: _ => by simp [cmpVV]
  | _ :: _, [] => by simp [cmpVV]
  | a :: as, b :: bs => by
    rw [cmpVV]
    have ih := cmpVV_neg as bs
    constructor
    · intro h
      cases hc : cmp a b with
      | none => simp [hc] at h
      | some r =>
        simp only [hc] at h
        have hr := cmp_range _ _ _ hc
        split at h
        · rename_i hr1; subst hr1
          exact ⟨0, by simp, by simp, by simp, Or.inr ⟨a, b, by simp, by simp, hc⟩⟩
        · split at h
          · simp at h
          · have h0 : r = 0 := by omega
            subst h0
            rw [ih] at h
            obtain ⟨k, h1, h2, h3, h4⟩ := h
            refine ⟨k+1, by simpa using h1, by simpa using h2, ?_, ?_⟩
            · intro i x y hi hx hy
              cases i with
              | zero => simp at hx hy; subst hx; subst hy; exact hc
              | succ i => exact h3 i x y (by omega) (by simpa using hx) (by simpa using hy)
            · simpa using h4
    · intro ⟨k, h1, h2, h3, h4⟩
      cases k with
      | zero =>
        have h4' : cmp a b = some (-1) := by simpa using h4
        simp [h4']
      | succ k =>
        have hc := h3 0 a b (by omega) (by simp) (by simp)
        simp only [hc, Int.reduceNeg, show ¬ ((0:Int) = -1) by decide, show ¬ ((0:Int) = 1) by decide, if_false]
        rw [ih]
        refine ⟨k, by simpa using h1, by simpa using h2, ?_, by simpa using h4⟩
        intro i x y hi hx hy
        exact h3 (i+1) x y (by omega) (by simpa using hx) (by simpa using hy)

end LPG

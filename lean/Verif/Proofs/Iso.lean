import Verif.Model.Iso
import Verif.Spec.Iso
import Verif.Proofs.Base
import Verif.Proofs.Core

namespace LPG
namespace Iso

/-! ## the odometer -/

/-- the digits fit -/
def Valid : List (List Nat) → List Nat → Prop
  | [], [] => True
  | c :: cs, i :: is => i < c.length ∧ Valid cs is
  | _, _ => False

def val : List (List Nat) → List Nat → Nat
  | c :: cs, i :: is => i + c.length * val cs is
  | _, _ => 0

def size : List (List Nat) → Nat
  | [] => 1
  | c :: cs => c.length * size cs

theorem val_lt : ∀ {cs is}, Valid cs is → val cs is < size cs
  | [], [], _ => by simp [val, size]
  | c :: cs, i :: is, ⟨h1, h2⟩ => by
    have := val_lt h2
    simp only [val, size]
    calc i + c.length * val cs is < c.length + c.length * val cs is := by omega
      _ = c.length * (val cs is + 1) := by rw [Nat.mul_add]; omega
      _ ≤ c.length * size cs := Nat.mul_le_mul_left _ this
  | [], _ :: _, h => h.elim
  | _ :: _, [], h => h.elim

theorem val_inj : ∀ {cs is js}, Valid cs is → Valid cs js → val cs is = val cs js → is = js
  | [], [], [], _, _, _ => rfl
  | c :: cs, i :: is, j :: js, ⟨h1, h2⟩, ⟨h3, h4⟩, h => by
    simp only [val] at h
    have hi : i = j := by
      have := congrArg (· % c.length) h
      simpa [Nat.add_mul_mod_self_left, Nat.mod_eq_of_lt h1, Nat.mod_eq_of_lt h3] using this
    subst hi
    have hc : 0 < c.length := by omega
    have : val cs is = val cs js := Nat.eq_of_mul_eq_mul_left hc (by omega)
    rw [val_inj h2 h4 this]
  | [], _ :: _, _, h, _, _ => h.elim
  | [], [], _ :: _, _, h, _ => h.elim
  | _ :: _, [], _, h, _, _ => h.elim
  | _ :: _, _ :: _, [], _, h, _ => h.elim

theorem next_spec : ∀ {cs is}, Valid cs is →
    ((next cs is).2 = true → Valid cs (next cs is).1 ∧ val cs (next cs is).1 = val cs is + 1) ∧
    ((next cs is).2 = false → ∀ js, Valid cs js → val cs js ≤ val cs is)
  | [], [], _ => by
    refine ⟨by simp [next], fun _ js h => ?_⟩
    cases js with
    | nil => exact Nat.le_refl _
    | cons => exact h.elim
  | c :: cs, i :: is, ⟨h1, h2⟩ => by
    obtain ⟨k1, k2⟩ := next_spec h2
    rw [next]
    split
    · rename_i h
      refine ⟨fun _ => ⟨⟨h, h2⟩, by simp only [val]; omega⟩, by simp⟩
    · rename_i h
      have hi : i + 1 = c.length := by omega
      refine ⟨fun ht => ?_, fun hf js hj => ?_⟩
      · obtain ⟨a, b⟩ := k1 ht
        refine ⟨⟨by omega, a⟩, ?_⟩
        simp only [val, b, Nat.mul_add]
        omega
      · cases js with
        | nil => exact hj.elim
        | cons j js =>
          obtain ⟨a, b⟩ := hj
          have := k2 hf js b
          simp only [val]
          have := Nat.mul_le_mul_left c.length this
          omega
  | [], _ :: _, h => h.elim
  | _ :: _, [], h => h.elim

theorem valid_zero : ∀ {cs : List (List Nat)} {n : Nat}, n = cs.length → (∀ c ∈ cs, c ≠ []) → Valid cs (List.replicate n 0)
  | [], n, hn, _ => by simp at hn; subst hn; trivial
  | c :: cs, 0, hn, _ => by simp at hn
  | c :: cs, n + 1, hn, h =>
    ⟨List.length_pos_iff.2 (h c (by simp)), valid_zero (by simpa using hn) (fun c hc => h c (by simp [hc]))⟩

theorem val_zero : ∀ {cs : List (List Nat)} {n : Nat}, val cs (List.replicate n 0) = 0
  | [], n => by cases n <;> rfl
  | c :: cs, 0 => rfl
  | c :: cs, n + 1 => by
    rw [List.replicate_succ, val, val_zero]
    simp

/-! ## the candidates -/

theorem fill_ok {cancelled nodeEq ns2} : ∀ {ns k cs}, fill cancelled nodeEq ns2 ns k = .ok cs →
    cs = ns.map (fun n => ns2.filter (fun n2 => nodeEq n n2)) ∧ ∀ c ∈ cs, c ≠ []
  | [], k, cs, h => by simp only [fill, Except.ok.injEq] at h; subst h; simp
  | n :: ns, k, cs, h => by
    simp only [fill] at h
    split at h
    · cases h
    · rename_i hne
      split at h
      · cases h
      · cases hf : fill cancelled nodeEq ns2 ns (k + 1) with
        | error r => rw [hf] at h; cases h
        | ok cs' =>
          rw [hf] at h
          simp only [Except.ok.injEq] at h
          subst h
          obtain ⟨a, b⟩ := fill_ok hf
          refine ⟨by rw [a]; rfl, fun c hc => ?_⟩
          rcases List.mem_cons.1 hc with rfl | hc
          · rintro h0; rw [h0] at hne; exact hne rfl
          · exact b c hc

theorem fill_error {cancelled nodeEq ns2} : ∀ {ns k r}, fill cancelled nodeEq ns2 ns k = .error r →
    (r = .ok false ∧ ∃ n ∈ ns, ∀ n2 ∈ ns2, nodeEq n n2 = false) ∨ (r = .error () ∧ ∃ j, cancelled j = true)
  | [], k, r, h => by simp [fill] at h
  | n :: ns, k, r, h => by
    simp only [fill] at h
    split at h
    · rename_i h0
      left
      simp only [Except.error.injEq] at h
      refine ⟨h.symm, n, by simp, fun n2 hn2 => ?_⟩
      have := List.length_eq_zero_iff.1 h0
      rw [List.filter_eq_nil_iff] at this
      simpa using this n2 hn2
    · split at h
      · rename_i hc
        simp only [Except.error.injEq] at h
        exact Or.inr ⟨h.symm, k, hc⟩
      · cases hf : fill cancelled nodeEq ns2 ns (k + 1) with
        | error r' =>
          rw [hf] at h
          simp only [Except.error.injEq] at h
          subst h
          rcases fill_error hf with ⟨a, m, b, c⟩ | h
          · exact Or.inl ⟨a, m, by simp [b], c⟩
          · exact Or.inr h
        | ok cs' => rw [hf] at h; cases h

/-! ## the mapping -/

theorem set_fresh {m : AMap Nat Nat} {a b : Nat} (h : a ∉ m.map Prod.fst) : m.set a b = m ++ [(a, b)] := by
  induction m with
  | nil => rfl
  | cons x m ih =>
    obtain ⟨k, v⟩ := x
    simp only [List.map_cons, List.mem_cons, not_or] at h
    rw [AMap.set, if_neg (fun e => h.1 e.symm), ih h.2]; rfl

/-- `m` maps the nodes to candidates -/
def Picks (ns2 : List Nat) (nodeEq : Nat → Nat → Bool) (ns : List Nat) (m : AMap Nat Nat) : Prop :=
  m.map Prod.fst = ns ∧ ∀ p ∈ m, p.2 ∈ ns2 ∧ nodeEq p.1 p.2 = true

theorem build_some {ns2 : List Nat} {nodeEq : Nat → Nat → Bool} : ∀ {ns : List Nat} {m0 : AMap Nat Nat} {is : List Nat}, ns.Nodup →
    (∀ n ∈ ns, n ∉ m0.map Prod.fst) → Valid (ns.map (fun n => ns2.filter (fun n2 => nodeEq n n2))) is →
    ∃ m, build m0 ns (ns.map (fun n => ns2.filter (fun n2 => nodeEq n n2))) is = some (m0 ++ m) ∧
      Picks ns2 nodeEq ns m
  | [], m0, [], _, _, _ => ⟨[], by simp [build], rfl, by simp⟩
  | n :: ns, m0, i :: is, hn, hd, ⟨h1, h2⟩ => by
    obtain ⟨hn1, hn2⟩ := List.nodup_cons.1 hn
    simp only at h1
    have hget : (ns2.filter (fun n2 => nodeEq n n2))[i]? = some ((ns2.filter (fun n2 => nodeEq n n2))[i]) :=
      List.getElem?_eq_getElem h1
    have hmem := List.getElem_mem h1
    generalize (ns2.filter (fun n2 => nodeEq n n2))[i] = x at hget hmem
    rw [List.mem_filter] at hmem
    obtain ⟨m, b1, b2, b3⟩ := build_some (ns2 := ns2) (nodeEq := nodeEq) (m0 := m0 ++ [(n, x)]) hn2 (fun n' hn' => by
      simp only [List.map_append, List.map_cons, List.map_nil, List.mem_append, List.mem_singleton, not_or]
      exact ⟨hd n' (by simp [hn']), fun e => hn1 (e ▸ hn')⟩) h2
    refine ⟨(n, x) :: m, ?_, by simp [b2], fun p hp => ?_⟩
    · simp only [List.map_cons, build, hget]
      rw [set_fresh (hd n (by simp)), b1]
      simp
    · rcases List.mem_cons.1 hp with rfl | hp
      · exact hmem
      · exact b3 p hp
  | [], _, _ :: _, _, _, h => h.elim
  | _ :: _, _, [], _, _, h => h.elim

theorem build_pick {ns2 : List Nat} {nodeEq : Nat → Nat → Bool} {f : Nat → Nat} : ∀ {ns : List Nat} {m0 : AMap Nat Nat}, ns.Nodup →
    (∀ n ∈ ns, n ∉ m0.map Prod.fst) → (∀ n ∈ ns, f n ∈ ns2 ∧ nodeEq n (f n) = true) →
    ∃ is, Valid (ns.map (fun n => ns2.filter (fun n2 => nodeEq n n2))) is ∧
      build m0 ns (ns.map (fun n => ns2.filter (fun n2 => nodeEq n n2))) is = some (m0 ++ ns.map (fun n => (n, f n)))
  | [], m0, _, _, _ => ⟨[], trivial, by simp [build]⟩
  | n :: ns, m0, hn, hd, hf => by
    obtain ⟨hn1, hn2⟩ := List.nodup_cons.1 hn
    obtain ⟨is, v, b⟩ := build_pick (ns2 := ns2) (nodeEq := nodeEq) (f := f) (m0 := m0 ++ [(n, f n)]) hn2 (fun n' hn' => by
      simp only [List.map_append, List.map_cons, List.map_nil, List.mem_append, List.mem_singleton, not_or]
      exact ⟨hd n' (by simp [hn']), fun e => hn1 (e ▸ hn')⟩) (fun n' hn' => hf n' (by simp [hn']))
    have hmem : f n ∈ ns2.filter (fun n2 => nodeEq n n2) := List.mem_filter.2 (hf n (by simp))
    obtain ⟨i, hi, hx⟩ := List.getElem_of_mem hmem
    refine ⟨i :: is, ⟨hi, v⟩, ?_⟩
    simp only [List.map_cons, build, List.getElem?_eq_getElem hi, hx]
    rw [set_fresh (hd n (by simp)), b]
    simp

/-! ## the search -/

theorem search_spec {cancelled s1 s2 edgeEq ns cs} {R : List Nat → Bool}
    (hR : ∀ is, Valid cs is → ∃ m, build [] ns cs is = some m ∧ isIsomorphism s1 s2 edgeEq m m = some (R is)) :
    ∀ (d : Nat) (is : List Nat) (k : Nat), Valid cs is → size cs ≤ val cs is + d →
    ∃ r, search cancelled s1 s2 edgeEq ns cs is k = some r ∧
      (r = .ok true ∧ (∃ js, Valid cs js ∧ R js = true) ∨
       r = .ok false ∧ (∀ js, Valid cs js → val cs is ≤ val cs js → R js = false) ∨
       r = .error () ∧ ∃ j, cancelled j = true) := by
  intro d
  induction d with
  | zero => intro is k hv hd; exact absurd (val_lt hv) (by omega)
  | succ d ih =>
    intro is k hv hd
    obtain ⟨m, h1, h2⟩ := hR is hv
    rw [search]
    simp only [h1, h2]
    cases hr : R is with
    | true => exact ⟨_, rfl, Or.inl ⟨rfl, is, hv, hr⟩⟩
    | false =>
      simp only
      obtain ⟨n1, n2⟩ := next_spec hv
      split
      · rename_i hf
        refine ⟨_, rfl, Or.inr (Or.inl ⟨rfl, fun js hj hle => ?_⟩)⟩
        rw [← val_inj hv hj (Nat.le_antisymm hle (n2 hf js hj))]
        exact hr
      · rename_i ht
        obtain ⟨v, e⟩ := n1 (by simpa using ht)
        split
        · rename_i hc
          exact ⟨_, rfl, Or.inr (Or.inr ⟨rfl, k, hc⟩)⟩
        · obtain ⟨r, a, b⟩ := ih _ (k + 1) v (by omega)
          refine ⟨r, a, ?_⟩
          rcases b with b | ⟨b1, b2⟩ | b
          · exact Or.inl b
          · refine Or.inr (Or.inl ⟨b1, fun js hj hle => ?_⟩)
            by_cases he : val cs is = val cs js
            · rw [← val_inj hv hj he]; exact hr
            · exact b2 js hj (by omega)
          · exact Or.inr (Or.inr b)

/-- what the check of one mapping says -/
theorem isIso_spec {s1 s2 : State} {edgeEq : Nat → Nat → Bool} {m : AMap Nat Nat} : ∀ {rest : AMap Nat Nat},
    (∀ p ∈ rest, (∃ o1, s1.nodeEdges p.1 .outgoing = some o1) ∧ ∃ o2, s2.nodeEdges p.2 .outgoing = some o2) →
    ∃ b, isIsomorphism s1 s2 edgeEq m rest = some b ∧
      (b = true ↔ ∀ p ∈ rest, ∀ o1 o2, s1.nodeEdges p.1 .outgoing = some o1 → s2.nodeEdges p.2 .outgoing = some o2 →
        o1.length = o2.length ∧ ∀ e1 ∈ o1, ∃ e2 ∈ o2, m.get (s1.eTo e1) = some (s2.eTo e2) ∧ edgeEq e1 e2 = true)
  | [], _ => ⟨true, rfl, by simp⟩
  | (n1, n2) :: rest, h => by
    obtain ⟨⟨o1, h1⟩, o2, h2⟩ := h (n1, n2) (by simp)
    obtain ⟨b, hb, hb'⟩ := isIso_spec (rest := rest) (fun p hp => h p (by simp [hp]))
    simp only at h1 h2
    have hall : o1.all (found s1 s2 edgeEq m o2) = true ↔
        ∀ e1 ∈ o1, ∃ e2 ∈ o2, m.get (s1.eTo e1) = some (s2.eTo e2) ∧ edgeEq e1 e2 = true := by
      simp [List.all_eq_true, found, List.any_eq_true]
    simp only [isIsomorphism, h1, h2]
    split
    · rename_i hlen
      refine ⟨false, rfl, by simp, fun hh => absurd (hh (n1, n2) (by simp) o1 o2 h1 h2).1 hlen⟩
    · rename_i hlen
      split
      · rename_i ha
        refine ⟨b, hb, hb'.trans ⟨fun hh p hp a1 a2 e1 e2 => ?_, fun hh p hp => hh p (by simp [hp])⟩⟩
        rcases List.mem_cons.1 hp with rfl | hp
        · simp only at e1 e2
          rw [h1] at e1; rw [h2] at e2; cases e1; cases e2
          exact ⟨by omega, hall.1 ha⟩
        · exact hh p hp a1 a2 e1 e2
      · rename_i ha
        exact ⟨false, rfl, by simp, fun hh => absurd (hall.2 (hh (n1, n2) (by simp) o1 o2 h1 h2).2) ha⟩

theorem search_last {cancelled s1 s2 edgeEq ns cs is k} {m : AMap Nat Nat} (h1 : build [] ns cs is = some m)
    (h2 : isIsomorphism s1 s2 edgeEq m m = some false) (h3 : (next cs is).2 = false) :
    search cancelled s1 s2 edgeEq ns cs is k = some (.ok false) := by
  rw [search]
  simp only [h1, h2, h3, if_true]

theorem get_of_mem {m : AMap Nat Nat} (hn : (m.map Prod.fst).Nodup) {a b : Nat} (h : (a, b) ∈ m) : m.get a = some b := by
  induction m with
  | nil => cases h
  | cons x m ih =>
    obtain ⟨k, v⟩ := x
    simp only [List.map_cons] at hn
    obtain ⟨n1, n2⟩ := List.nodup_cons.1 hn
    rw [AMap.get]
    rcases List.mem_cons.1 h with h | h
    · cases h; rw [if_pos rfl]
    · rw [if_neg, ih n2 h]
      rintro rfl
      exact n1 (List.mem_map.2 ⟨_, h, rfl⟩)

theorem get_graph {ns : List Nat} {f : Nat → Nat} {a : Nat} : AMap.get (ns.map (fun n => (n, f n))) a =
    if a ∈ ns then some (f a) else none := by
  induction ns with
  | nil => rfl
  | cons n ns ih =>
    simp only [List.map_cons, AMap.get, ih, List.mem_cons]
    by_cases h : n = a
    · subst h; simp
    · have : ¬ a = n := fun e => h e.symm
      simp [h, this]

end Iso
end LPG

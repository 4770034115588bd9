import Verif.Model.StringTable
/-!
# What a table of counted strings is

`σ i` says which string the index `i` stands for and how many references to it are held. Indexes are chosen by the
table (`ret`).
-/
namespace LPG

abbrev TabSpec := Nat → Option (String × Nat)

/-- the string is held -/
def TabSpec.Held (σ : TabSpec) (s : String) : Prop := ∃ i c, σ i = some (s, c)

/-- the effect of a call that returned `ret` -/
def TabSpec.step (σ : TabSpec) (ret : Nat) : TabOp → TabSpec
  | .alloc s =>
    match σ ret with
    | some (_, c) => upd σ ret (some (s, c + 1))
    | none => upd σ ret (some (s, 1))
  | .free i =>
    match σ i with
    | some (s, c) => upd σ i (if c = 1 then none else some (s, c - 1))
    | none => σ

/-- The returned index is allowed: the index of the string if it is held, otherwise an index not in use. -/
def TabSpec.Legal (σ : TabSpec) (ret : Nat) : TabOp → Prop
  | .alloc s => (∀ i c, σ i = some (s, c) → ret = i) ∧ (¬ σ.Held s → σ ret = none)
  | .free _ => True

/-- The caller only frees references that it holds. -/
def TabSpec.Valid (σ : TabSpec) : TabOp → Prop
  | .alloc _ => True
  | .free i => σ i ≠ none

/-- Run the table together with the specification. `Reach t σ`: the table is in state `t` and the references held
by the callers are `σ`. -/
inductive Reach : StrTable → TabSpec → Prop
  | init : Reach StrTable.init (fun _ => none)
  | step {t t' : StrTable} {σ : TabSpec} {op : TabOp} {ret : Nat} : Reach t σ → σ.Valid op → t.step op = some (t', ret) →
      Reach t' (σ.step ret op)

end LPG

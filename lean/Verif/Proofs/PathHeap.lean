import Verif.Spec.PathHeap
import Verif.Proofs.Base
/-!
# Paths on the heap behave like values
-/
namespace LPG
namespace PathHeap

def Fits (h : Heap) (sl : Slice) : Prop :=
  sl.len ≤ sl.cap ∧ (0 < sl.cap → sl.arr < h.next ∧ sl.off + sl.cap ≤ (h.arrays sl.arr).length)

def Apart (a b : Slice) : Prop := a.cap = 0 ∨ b.cap = 0 ∨ a.arr ≠ b.arr

theorem Apart.symm {a b : Slice} (h : Apart a b) : Apart b a := by
  rcases h with h | h | h
  · exact Or.inr (Or.inl h)
  · exact Or.inl h
  · exact Or.inr (Or.inr (Ne.symm h))

/-- a slice within another one -/
def Within (a b : Slice) : Prop :=
  a.len ≤ a.cap ∧ (0 < a.cap → a.arr = b.arr ∧ b.off ≤ a.off ∧ a.off + a.cap ≤ b.off + b.cap)

theorem Within.fits {h : Heap} {a b : Slice} (hw : Within a b) (hf : Fits h b) : Fits h a := by
  refine ⟨hw.1, fun hc => ?_⟩
  obtain ⟨h1, h2, h3⟩ := hw.2 hc
  obtain ⟨h4, h5⟩ := hf.2 (by omega)
  rw [h1]
  exact ⟨h4, by omega⟩

theorem Within.apart {a b c : Slice} (hw : Within a b) (ha : Apart b c) : Apart a c := by
  by_cases hc : 0 < a.cap
  · obtain ⟨h1, h2, h3⟩ := hw.2 hc
    rcases ha with h | h | h
    · omega
    · exact Or.inr (Or.inl h)
    · exact Or.inr (Or.inr (by rw [h1]; exact h))
  · exact Or.inl (by omega)

theorem read_congr {h h' : Heap} {sl : Slice} (hf : sl.len ≤ sl.cap)
    (he : 0 < sl.cap → h'.arrays sl.arr = h.arrays sl.arr) : h'.read sl = h.read sl := by
  unfold Heap.read
  by_cases hc : 0 < sl.cap
  · rw [he hc]
  · have : sl.len = 0 := by omega
    rw [this, List.take_zero, List.take_zero]

theorem read_length {h : Heap} {sl : Slice} (hf : Fits h sl) : (h.read sl).length = sl.len := by
  unfold Heap.read
  rw [List.length_take, List.length_drop]
  by_cases hc : 0 < sl.cap
  · have := (hf.2 hc).2
    have := hf.1
    omega
  · have := hf.1
    omega

section alloc
variable {h : Heap} {es : List PathElement} {cap : Nat}

theorem alloc_objs : (h.alloc es cap).1.objs = h.objs := rfl
theorem alloc_slices : (h.alloc es cap).1.slices = h.slices := rfl

theorem alloc_read {sl : Slice} (hf : Fits h sl) : (h.alloc es cap).1.read sl = h.read sl := by
  refine read_congr hf.1 (fun hc => ?_)
  have := (hf.2 hc).1
  show upd h.arrays h.next _ sl.arr = _
  rw [upd_other _ _ (by omega)]

theorem alloc_fits {sl : Slice} (hf : Fits h sl) : Fits (h.alloc es cap).1 sl := by
  refine ⟨hf.1, fun hc => ?_⟩
  obtain ⟨h1, h2⟩ := hf.2 hc
  refine ⟨Nat.lt_succ_of_lt h1, ?_⟩
  show _ ≤ (upd h.arrays h.next _ sl.arr).length
  rw [upd_other _ _ (by omega)]
  exact h2

theorem alloc_new_read : (h.alloc es cap).1.read (h.alloc es cap).2 = es := by
  show ((upd h.arrays h.next _ h.next).drop 0).take es.length = es
  rw [upd_same, List.drop_zero, List.take_left]

theorem alloc_new_fits : Fits (h.alloc es cap).1 (h.alloc es cap).2 := by
  refine ⟨Nat.le_max_right _ _, fun _ => ⟨Nat.lt_succ_self _, ?_⟩⟩
  show 0 + Nat.max cap es.length ≤ (upd h.arrays h.next _ h.next).length
  rw [upd_same, List.length_append, List.length_replicate]
  show 0 + max cap es.length ≤ _
  omega

theorem alloc_new_apart {sl : Slice} (hf : Fits h sl) : Apart (h.alloc es cap).2 sl := by
  by_cases hc : 0 < sl.cap
  · have := (hf.2 hc).1
    exact Or.inr (Or.inr (show h.next ≠ sl.arr by omega))
  · exact Or.inr (Or.inl (by omega))

end alloc

theorem write_length {xs : List PathElement} {i : Nat} {es : List PathElement} (h : i + es.length ≤ xs.length) :
    (write xs i es).length = xs.length := by
  unfold write
  simp only [List.length_append, List.length_take, List.length_drop]
  omega

/-- the part before the place of writing is as it was -/
theorem write_before {xs : List PathElement} {i : Nat} {es : List PathElement} {o n : Nat} (h : o + n ≤ i) (hi : i ≤ xs.length) :
    ((write xs i es).drop o).take n = (xs.drop o).take n := by
  unfold write
  rw [List.append_assoc, List.drop_append_of_le_length (by rw [List.length_take]; omega),
    List.take_append_of_le_length (by rw [List.length_drop, List.length_take]; omega), List.drop_take, List.take_take]
  congr 1
  omega

theorem write_end {xs : List PathElement} {i : Nat} {es : List PathElement} {o n : Nat} (h : o + n = i) (hi : i + es.length ≤ xs.length) :
    ((write xs i es).drop o).take (n + es.length) = (xs.drop o).take n ++ es := by
  unfold write
  rw [List.append_assoc, List.drop_append_of_le_length (by rw [List.length_take]; omega)]
  have h1 : (xs.take i).drop o = (xs.drop o).take n := by
    rw [List.drop_take]; congr 1; omega
  have h2 : ((xs.drop o).take n).length = n := by
    rw [List.length_take, List.length_drop]; omega
  rw [h1, ← List.append_assoc]
  exact List.take_left' (by rw [List.length_append, h2])

section append
variable {grow : Nat → Nat → Nat} {h : Heap} {sl : Slice} {es : List PathElement}

theorem append_objs : (h.append grow sl es).1.objs = h.objs := by
  unfold Heap.append; split <;> rfl

theorem append_slices : (h.append grow sl es).1.slices = h.slices := by
  unfold Heap.append; split <;> rfl

theorem append_read (hf : Fits h sl) (hne : es ≠ []) : (h.append grow sl es).1.read (h.append grow sl es).2 = h.read sl ++ es := by
  unfold Heap.append
  split
  · rename_i hle
    have hpos := List.length_pos_iff.2 hne
    have := hf.2 (by omega)
    show ((upd h.arrays sl.arr _ sl.arr).drop sl.off).take (sl.len + es.length) = _
    rw [upd_same, write_end rfl (by omega)]
    rfl
  · exact alloc_new_read

theorem append_fits (hf : Fits h sl) (hne : es ≠ []) : Fits (h.append grow sl es).1 (h.append grow sl es).2 := by
  unfold Heap.append
  split
  · rename_i hle
    have hpos := List.length_pos_iff.2 hne
    refine ⟨hle, fun hc => ?_⟩
    have := hf.2 (by omega)
    refine ⟨this.1, ?_⟩
    show sl.off + sl.cap ≤ (upd h.arrays sl.arr _ sl.arr).length
    rw [upd_same, write_length (by omega)]
    exact this.2
  · exact alloc_new_fits

theorem append_other_read {sl' : Slice} (hf' : Fits h sl') (ha : Apart sl sl') (hne : es ≠ []) :
    (h.append grow sl es).1.read sl' = h.read sl' := by
  have hpos := List.length_pos_iff.2 hne
  unfold Heap.append
  split
  · refine read_congr hf'.1 (fun hc => ?_)
    show upd h.arrays sl.arr _ sl'.arr = _
    rw [upd_other]
    rcases ha with ha | ha | ha
    · omega
    · omega
    · exact Ne.symm ha
  · exact alloc_read hf'

theorem append_other_fits {sl' : Slice} (hf : Fits h sl) (hf' : Fits h sl') (hne : es ≠ []) :
    Fits (h.append grow sl es).1 sl' := by
  have hpos := List.length_pos_iff.2 hne
  unfold Heap.append
  split
  · rename_i hle
    have := hf.2 (by omega)
    refine ⟨hf'.1, fun hc => ⟨(hf'.2 hc).1, ?_⟩⟩
    show sl'.off + sl'.cap ≤ (upd h.arrays sl.arr _ sl'.arr).length
    by_cases he : sl'.arr = sl.arr
    · rw [he, upd_same, write_length (by omega), ← he]
      exact (hf'.2 hc).2
    · rw [upd_other _ _ he]
      exact (hf'.2 hc).2
  · exact alloc_fits hf'

theorem append_new_apart {sl' : Slice} (hf' : Fits h sl') (ha : Apart sl sl') :
    Apart (h.append grow sl es).2 sl' := by
  unfold Heap.append
  split
  · rcases ha with ha | ha | ha
    · exact Or.inl ha
    · exact Or.inr (Or.inl ha)
    · exact Or.inr (Or.inr ha)
  · exact alloc_new_apart hf'

end append

/-! ## The heap and the values -/

theorem obj_setObj {h : Heap} {p : Nat} {o : Obj} (i : Nat) :
    (h.setObj p o).obj i = if i = p ∧ p < h.objs.length then o else h.obj i := by
  unfold Heap.obj Heap.setObj
  simp only [List.getD_eq_getElem?_getD, List.getElem?_set]
  grind

theorem obj_newObj {h : Heap} {o : Obj} (i : Nat) :
    (h.newObj o).obj i = if i = h.objs.length then o else h.obj i := by
  unfold Heap.obj Heap.newObj
  simp only [List.getD_eq_getElem?_getD, List.getElem?_append]
  grind

theorem path_set {w : PVals} {p : Nat} {v : Path} (i : Nat) :
    (w.set p v).path i = if i = p ∧ p < w.paths.length then v else w.path i := by
  unfold PVals.path PVals.set
  simp only [List.getD_eq_getElem?_getD, List.getElem?_set]
  grind

theorem path_new {w : PVals} {v : Path} (i : Nat) :
    (w.new v).path i = if i = w.paths.length then v else w.path i := by
  unfold PVals.path PVals.new
  simp only [List.getD_eq_getElem?_getD, List.getElem?_append]
  grind

theorem obj_beyond {h : Heap} {i : Nat} (hi : ¬ i < h.objs.length) : h.obj i = {} := by
  unfold Heap.obj
  simp only [List.getD_eq_getElem?_getD]
  grind

theorem sliceAt_beyond {h : Heap} {i : Nat} (hi : ¬ i < h.slices.length) : h.sliceAt i = {} := by
  unfold Heap.sliceAt
  simp only [List.getD_eq_getElem?_getD]
  grind

theorem fits_empty {h : Heap} : Fits h {} := ⟨Nat.le_refl _, fun hc => absurd hc (Nat.lt_irrefl 0)⟩

theorem apart_empty {sl : Slice} : Apart {} sl := Or.inl rfl

/-- Nothing is shared, and the paths are the values `w`. -/
structure Sep (h : Heap) (given : List Nat) (w : PVals) : Prop where
  fits : ∀ i, Fits h (h.obj i).path
  sfits : ∀ v, Fits h (h.sliceAt v)
  apart : ∀ i j, i ≠ j → Apart (h.obj i).path (h.obj j).path
  sapart : ∀ v u, v ≠ u → Apart (h.sliceAt v) (h.sliceAt u)
  mixed : ∀ v, v ∉ given → ∀ i, Apart (h.sliceAt v) (h.obj i).path
  len : h.objs.length = w.paths.length
  slen : h.slices.length = w.slices.length
  value : ∀ i, h.value (h.obj i) = w.path i
  svalue : ∀ v, v ∉ given → h.read (h.sliceAt v) = w.slice v

variable {h : Heap} {given : List Nat} {w : PVals}

theorem Sep.init : Sep {} [] {} where
  fits _ := fits_empty
  sfits _ := fits_empty
  apart _ _ _ := apart_empty
  sapart _ _ _ := apart_empty
  mixed _ _ _ := apart_empty
  len := rfl
  slen := rfl
  value _ := rfl
  svalue _ _ := rfl

/-- the object `p` gets a slice within its old one -/
theorem Sep.shrink (hr : Sep h given w) {p : Nat} {o : Obj} {v : Path} (hw : Within o.path (h.obj p).path)
    (hv : h.value o = v) : Sep (h.setObj p o) given (w.set p v) where
  fits i := by
    rw [obj_setObj]
    split
    · exact hw.fits (hr.fits p)
    · exact hr.fits i
  sfits := hr.sfits
  apart i j hij := by
    rw [obj_setObj, obj_setObj]
    split
    · rename_i h1
      rw [if_neg (fun h2 => hij (h1.1.trans h2.1.symm))]
      exact hw.apart (h1.1 ▸ hr.apart i j hij)
    · split
      · rename_i h2
        exact (hw.apart (h2.1 ▸ hr.apart j i (Ne.symm hij))).symm
      · exact hr.apart i j hij
  sapart := hr.sapart
  mixed u hu i := by
    rw [obj_setObj]
    split
    · exact (hw.apart (hr.mixed u hu p).symm).symm
    · exact hr.mixed u hu i
  len := by
    show (h.objs.set p o).length = (w.paths.set p v).length
    rw [List.length_set, List.length_set]; exact hr.len
  slen := hr.slen
  value i := by
    rw [obj_setObj, path_set, ← hr.len]
    split
    · exact hv
    · exact hr.value i
  svalue := hr.svalue

/-- memory that nobody has -/
theorem Sep.alloc (hr : Sep h given w) (es : List PathElement) (cap : Nat) : Sep (h.alloc es cap).1 given w where
  fits i := alloc_fits (hr.fits i)
  sfits v := alloc_fits (hr.sfits v)
  apart := hr.apart
  sapart := hr.sapart
  mixed := hr.mixed
  len := hr.len
  slen := hr.slen
  value i := by
    rw [← hr.value i]
    show (⟨_, _⟩ : Path) = ⟨_, _⟩
    rw [show (h.alloc es cap).1.obj i = h.obj i from rfl, alloc_read (hr.fits i)]
  svalue v hv := (alloc_read (hr.sfits v)).trans (hr.svalue v hv)

/-- a new object with a slice that nobody has -/
theorem Sep.newObj (hr : Sep h given w) {o : Obj} {v : Path} (hf : Fits h o.path)
    (ha : ∀ i, Apart o.path (h.obj i).path) (hs : ∀ u, u ∉ given → Apart o.path (h.sliceAt u))
    (hv : h.value o = v) : Sep (h.newObj o) given (w.new v) where
  fits i := by
    rw [obj_newObj]
    split
    · exact hf
    · exact hr.fits i
  sfits := hr.sfits
  apart i j hij := by
    rw [obj_newObj, obj_newObj]
    split
    · rename_i h1
      rw [if_neg (fun h2 => hij (h1.trans h2.symm))]
      exact ha j
    · split
      · exact (ha i).symm
      · exact hr.apart i j hij
  sapart := hr.sapart
  mixed u hu i := by
    rw [obj_newObj]
    split
    · exact (hs u hu).symm
    · exact hr.mixed u hu i
  len := by
    show (h.objs ++ [o]).length = (w.paths ++ [v]).length
    rw [List.length_append, List.length_append, hr.len]; rfl
  slen := hr.slen
  value i := by
    rw [obj_newObj, path_new, ← hr.len]
    split
    · exact hv
    · exact hr.value i
  svalue := hr.svalue

/-- an existing object gets a slice that nobody else has -/
theorem Sep.setObj (hr : Sep h given w) {p : Nat} {o : Obj} {v : Path} (hf : Fits h o.path)
    (ha : ∀ i, i ≠ p → Apart o.path (h.obj i).path) (hs : ∀ u, u ∉ given → Apart o.path (h.sliceAt u))
    (hv : h.value o = v) : Sep (h.setObj p o) given (w.set p v) where
  fits i := by
    rw [obj_setObj]
    split
    · exact hf
    · exact hr.fits i
  sfits := hr.sfits
  apart i j hij := by
    rw [obj_setObj, obj_setObj]
    split
    · rename_i h1
      rw [if_neg (fun h2 => hij (h1.1.trans h2.1.symm))]
      exact ha j (fun h2 => hij (h1.1.trans h2.symm))
    · split
      · rename_i h2
        exact (ha i (fun h1 => hij (h1.trans h2.1.symm))).symm
      · exact hr.apart i j hij
  sapart := hr.sapart
  mixed u hu i := by
    rw [obj_setObj]
    split
    · exact (hs u hu).symm
    · exact hr.mixed u hu i
  len := by
    show (h.objs.set p o).length = (w.paths.set p v).length
    rw [List.length_set, List.length_set]; exact hr.len
  slen := hr.slen
  value i := by
    rw [obj_setObj, path_set, ← hr.len]
    split
    · exact hv
    · exact hr.value i
  svalue := hr.svalue

theorem Sep.fresh (hr : Sep h given w) (es : List PathElement) (cap : Nat) (only : Option Nat) :
    Sep ((h.alloc es cap).1.newObj { only := only, path := (h.alloc es cap).2 }) given (w.new { only := only, path := es }) := by
  refine (hr.alloc es cap).newObj alloc_new_fits (fun i => alloc_new_apart (hr.fits i))
    (fun u _ => alloc_new_apart (hr.sfits u)) ?_
  show (⟨_, _⟩ : Path) = ⟨_, _⟩
  rw [alloc_new_read]

theorem Sep.refresh (hr : Sep h given w) (p : Nat) (es : List PathElement) (cap : Nat) (only : Option Nat) :
    Sep ((h.alloc es cap).1.setObj p { only := only, path := (h.alloc es cap).2 }) given (w.set p { only := only, path := es }) := by
  refine (hr.alloc es cap).setObj alloc_new_fits (fun i _ => alloc_new_apart (hr.fits i))
    (fun u _ => alloc_new_apart (hr.sfits u)) ?_
  show (⟨_, _⟩ : Path) = ⟨_, _⟩
  rw [alloc_new_read]

theorem value_only (o : Obj) : (h.value o).only = o.only := rfl
theorem value_path (o : Obj) : (h.value o).path = h.read o.path := rfl

theorem within_self (hf : Fits h s) : Within s s := ⟨hf.1, fun _ => ⟨rfl, Nat.le_refl _, Nat.le_refl _⟩⟩

/-- `append` to the slice of object `p` -/
theorem Sep.extend (grow : Nat → Nat → Nat) (hr : Sep h given w) (p : Nat) {es : List PathElement} (hne : es ≠ []) (hp : p < h.objs.length) :
    Sep ((h.append grow (h.obj p).path es).1.setObj p { only := none, path := (h.append grow (h.obj p).path es).2 }) given
      (w.set p { only := none, path := (w.path p).path ++ es }) := by
  have ho : ∀ i, (h.append grow (h.obj p).path es).1.obj i = h.obj i := fun i => by
    unfold Heap.obj; rw [append_objs]
  have hsl : ∀ i, (h.append grow (h.obj p).path es).1.sliceAt i = h.sliceAt i := fun i => by
    unfold Heap.sliceAt; rw [append_slices]
  have hpl : p < (h.append grow (h.obj p).path es).1.objs.length := by rw [append_objs]; exact hp
  constructor
  · intro i
    rw [obj_setObj]
    split
    · exact append_fits (hr.fits p) hne
    · rw [ho]
      exact append_other_fits (hr.fits p) (hr.fits i) hne
  · intro v
    show Fits _ ((h.append grow (h.obj p).path es).1.sliceAt v)
    rw [hsl]
    exact append_other_fits (hr.fits p) (hr.sfits v) hne
  · intro i j hij
    rw [obj_setObj, obj_setObj, ho, ho]
    split
    · rename_i h1
      rw [if_neg (fun h2 => hij (h1.1.trans h2.1.symm))]
      exact append_new_apart (hr.fits j) (h1.1 ▸ hr.apart i j hij)
    · split
      · rename_i h2
        exact (append_new_apart (hr.fits i) (h2.1 ▸ hr.apart j i (Ne.symm hij))).symm
      · exact hr.apart i j hij
  · intro v u hvu
    show Apart ((h.append grow (h.obj p).path es).1.sliceAt v) ((h.append grow (h.obj p).path es).1.sliceAt u)
    rw [hsl, hsl]
    exact hr.sapart v u hvu
  · intro u hu i
    show Apart ((h.append grow (h.obj p).path es).1.sliceAt u) _
    rw [hsl, obj_setObj, ho]
    split
    · exact (append_new_apart (hr.sfits u) (hr.mixed u hu p).symm).symm
    · exact hr.mixed u hu i
  · show ((h.append grow (h.obj p).path es).1.objs.set p _).length = (w.paths.set p _).length
    rw [List.length_set, List.length_set, append_objs]; exact hr.len
  · show (h.append grow (h.obj p).path es).1.slices.length = _
    rw [append_slices]; exact hr.slen
  · intro i
    rw [obj_setObj, path_set, ← hr.len, append_objs]
    split
    · show (⟨_, _⟩ : Path) = ⟨_, _⟩
      rw [← hr.value p, value_path]
      congr 1
      exact append_read (hr.fits p) hne
    · rename_i h1
      rw [ho, ← hr.value i]
      show (⟨_, _⟩ : Path) = ⟨_, _⟩
      congr 1
      exact append_other_read (hr.fits i) (hr.apart p i (fun h2 => h1 ⟨h2.symm, hp⟩)) hne
  · intro v hv
    show (h.append grow (h.obj p).path es).1.read ((h.append grow (h.obj p).path es).1.sliceAt v) = _
    rw [hsl]
    exact (append_other_read (hr.sfits v) (hr.mixed v hv p).symm hne).trans (hr.svalue v hv)

theorem set_path (w : PVals) (p : Nat) : w.set p (w.path p) = w := by
  unfold PVals.set PVals.path
  by_cases hp : p < w.paths.length
  · simp [hp]
  · rw [List.set_eq_of_length_le (by omega)]

theorem set_set (w : PVals) (p : Nat) (a b : Path) : (w.set p a).set p b = w.set p b := by
  unfold PVals.set
  simp only [List.set_set]

theorem Sep.appendObj (g : Ends) (grow : Nat → Nat → Nat) (hr : Sep h given w) (p : Nat) (es : List PathElement) (hp : p < h.objs.length) :
    Sep (appendObj g grow h p es) given (w.set p (PVals.left ((w.path p).append g es))) := by
  have hsame : Sep h given (w.set p (w.path p)) := by
    rw [set_path]; exact hr
  unfold PathHeap.appendObj Path.append
  simp only [hr.value p]
  cases es with
  | nil => exact hsame
  | cons e es' =>
    simp only
    split
    · have := hr.refresh p (e :: es') 0 (h.obj p).only
      rw [show (h.obj p).only = (w.path p).only from by rw [← hr.value p]; rfl] at this ⊢
      exact this
    · split
      · exact hsame
      · split
        · exact hr.extend grow p (fun h => by cases h) hp
        · refine hr.shrink (within_self (hr.fits p)) ?_
          rw [← hr.value p]; rfl

theorem left_appendPath (g : Ends) (p q : Path) : PVals.left (p.appendPath g q) =
    if p.numNodes = 0 then ({ p with path := q.path }, q)
    else if p.numNodes = 1 then (PVals.left ({ p with only := none }.append g q.path), q)
    else if q.numNodes = 0 then (p, q)
    else if q.numNodes = 1 then (PVals.left (p.append g q.path), { q with only := none })
    else (PVals.left (p.append g q.path), q) := by
  unfold Path.appendPath
  split
  · rfl
  · split
    · cases hc : Path.append g { p with only := none } q.path <;> simp only [hc] <;> rfl
    · split
      · rfl
      · split
        · cases hc : Path.append g p q.path <;> simp only [hc] <;> rfl
        · cases hc : Path.append g p q.path <;> simp only [hc] <;> rfl

theorem Sep.appendPathObj (g : Ends) (grow : Nat → Nat → Nat) (hr : Sep h given w) (p q : Nat) (hp : p < h.objs.length)
    (hq : q < h.objs.length) :
    Sep (appendPathObj g grow h p q) given
      ((w.set q (PVals.left ((w.path p).appendPath g (w.path q))).2).set p (PVals.left ((w.path p).appendPath g (w.path q))).1) := by
  have hpath : ∀ i, h.read (h.obj i).path = (w.path i).path := fun i => by rw [← hr.value i]; rfl
  have honly : ∀ i, (h.obj i).only = (w.path i).only := fun i => by rw [← hr.value i]; rfl
  have hdrop : ∀ i, Sep (h.setObj i { (h.obj i) with only := none }) given (w.set i { w.path i with only := none }) := fun i => by
    refine hr.shrink (within_self (hr.fits i)) ?_
    rw [← hr.value i]; rfl
  have hread : ∀ i j, i < h.objs.length →
      (h.setObj i { (h.obj i) with only := none }).read ((h.setObj i { (h.obj i) with only := none }).obj j).path
        = (w.path j).path := fun i j hi => by
    rw [← hpath j, obj_setObj]
    split
    · rename_i h1
      rw [h1.1]; rfl
    · rfl
  have hl : ∀ i (o : Obj), (h.setObj i o).objs.length = h.objs.length := fun i o => List.length_set
  unfold PathHeap.appendPathObj
  simp only [hr.value, left_appendPath]
  split
  · rw [hpath q]
    have := hr.refresh p (w.path q).path 0 (h.obj p).only
    rw [honly] at this
    simp only [PVals.left, set_path]
    rw [show (h.alloc (w.path q).path 0).1.obj p = h.obj p from rfl, honly]
    exact this
  · split
    · simp only [set_path]
      rw [hread p q hp]
      have := (hdrop p).appendObj g grow p (w.path q).path (by rw [hl]; exact hp)
      rw [set_set, path_set, if_pos ⟨rfl, hr.len ▸ hp⟩] at this
      exact this
    · split
      · simp only [PVals.left, set_path]
        exact hr
      · split
        · rename_i h0 h1 h2 h3
          have hpq : p ≠ q := fun he => h1 (he ▸ h3)
          rw [hread q q hq]
          have := (hdrop q).appendObj g grow p (w.path q).path (by rw [hl]; exact hp)
          rw [path_set, if_neg (fun h => hpq h.1)] at this
          exact this
        · simp only [set_path]
          rw [hpath q]
          exact hr.appendObj g grow p _ hp

theorem sliceAt_snoc {h : Heap} {sl : Slice} (i : Nat) :
    ({ h with slices := h.slices ++ [sl] } : Heap).sliceAt i = if i = h.slices.length then sl else h.sliceAt i := by
  unfold Heap.sliceAt
  simp only [List.getD_eq_getElem?_getD, List.getElem?_append]
  grind

theorem slice_snoc {w : PVals} {es : List PathElement} (i : Nat) :
    ({ w with slices := w.slices ++ [es] } : PVals).slice i = if i = w.slices.length then es else w.slice i := by
  unfold PVals.slice
  simp only [List.getD_eq_getElem?_getD, List.getElem?_append]
  grind

/-- `given` with the slices that a call gives away -/
def gives (given : List Nat) : POp → List Nat
  | .fromSlice v _ => v :: given
  | _ => given

def OwnCall (given : List Nat) : POp → Prop
  | .fromSlice v _ => v ∉ given
  | .writeSlice v _ _ => v ∉ given
  | _ => True

theorem ownSlices_cons {given : List Nat} {op : POp} {ops : List POp} (h : OwnSlices given (op :: ops)) :
    OwnCall given op ∧ OwnSlices (gives given op) ops := by
  cases op <;> first | exact h | exact ⟨trivial, h⟩

theorem Sep.makeSlice (hr : Sep h given w) (es : List PathElement) (cap : Nat) :
    Sep { (h.alloc es cap).1 with slices := (h.alloc es cap).1.slices ++ [(h.alloc es cap).2] } given
      { w with slices := w.slices ++ [es] } := by
  have ha := hr.alloc es cap
  constructor
  · exact ha.fits
  · intro v
    rw [sliceAt_snoc]
    split
    · exact alloc_new_fits
    · exact ha.sfits v
  · exact ha.apart
  · intro v u hvu
    rw [sliceAt_snoc, sliceAt_snoc]
    split
    · rename_i h1
      rw [if_neg (fun h2 => hvu (h1.trans h2.symm))]
      exact alloc_new_apart (hr.sfits u)
    · split
      · exact (alloc_new_apart (hr.sfits v)).symm
      · exact hr.sapart v u hvu
  · intro v hv i
    rw [sliceAt_snoc]
    split
    · exact alloc_new_apart (hr.fits i)
    · exact ha.mixed v hv i
  · exact ha.len
  · show (_ ++ [_]).length = (_ ++ [_]).length
    rw [List.length_append, List.length_append, ha.slen]; rfl
  · exact ha.value
  · intro v hv
    rw [sliceAt_snoc, slice_snoc, ← ha.slen]
    split
    · exact alloc_new_read
    · exact ha.svalue v hv

theorem write_one {xs : List PathElement} {o i n : Nat} {e : PathElement} (hi : i < n) (hl : o + n ≤ xs.length) :
    ((write xs (o + i) [e]).drop o).take n = ((xs.drop o).take n).set i e := by
  apply List.ext_getElem?
  intro j
  unfold write
  simp only [List.getElem?_take, List.getElem?_drop, List.getElem?_set, List.getElem?_append, List.length_take, List.length_append,
    List.length_drop, List.length_cons, List.length_nil]
  grind

theorem slice_set {w : PVals} {v : Nat} {es : List PathElement} (i : Nat) :
    ({ w with slices := w.slices.set v es } : PVals).slice i = if i = v ∧ v < w.slices.length then es else w.slice i := by
  unfold PVals.slice
  simp only [List.getD_eq_getElem?_getD, List.getElem?_set]
  grind

theorem Sep.writeSlice (hr : Sep h given w) {v i : Nat} (e : PathElement) (hv : v ∉ given) (hi : i < (h.sliceAt v).len) :
    Sep { h with arrays := upd h.arrays (h.sliceAt v).arr (write (h.arrays (h.sliceAt v).arr) ((h.sliceAt v).off + i) [e]) } given
      { w with slices := w.slices.set v ((w.slice v).set i e) } := by
  have hf := hr.sfits v
  have hc : 0 < (h.sliceAt v).cap := by have := hf.1; omega
  obtain ⟨h1, h2⟩ := hf.2 hc
  have hlen := hf.1
  have hvl : v < h.slices.length := by
    by_cases hvl : v < h.slices.length
    · exact hvl
    · rw [sliceAt_beyond hvl] at hi
      exact absurd hi (Nat.not_lt_zero i)
  have fitsAll : ∀ sl, Fits h sl → Fits { h with arrays := upd h.arrays (h.sliceAt v).arr (write (h.arrays (h.sliceAt v).arr) ((h.sliceAt v).off + i) [e]) } sl := by
    intro sl hs
    refine ⟨hs.1, fun hc' => ⟨(hs.2 hc').1, ?_⟩⟩
    show _ ≤ (upd h.arrays _ _ sl.arr).length
    by_cases he : sl.arr = (h.sliceAt v).arr
    · rw [he, upd_same, write_length (by simp only [List.length_cons, List.length_nil]; omega), ← he]
      exact (hs.2 hc').2
    · rw [upd_other _ _ he]
      exact (hs.2 hc').2
  have readAll : ∀ sl, Fits h sl → Apart (h.sliceAt v) sl →
      ({ h with arrays := upd h.arrays (h.sliceAt v).arr (write (h.arrays (h.sliceAt v).arr) ((h.sliceAt v).off + i) [e]) } : Heap).read sl
        = h.read sl := by
    intro sl hs ha
    refine read_congr hs.1 (fun hc' => ?_)
    show upd h.arrays _ _ sl.arr = _
    rw [upd_other]
    rcases ha with ha | ha | ha
    · omega
    · omega
    · exact Ne.symm ha
  constructor
  · exact fun j => fitsAll _ (hr.fits j)
  · exact fun u => fitsAll _ (hr.sfits u)
  · exact hr.apart
  · exact hr.sapart
  · exact hr.mixed
  · exact hr.len
  · show _ = (w.slices.set v _).length
    rw [List.length_set]; exact hr.slen
  · intro j
    refine Eq.trans ?_ (hr.value j)
    show (⟨_, _⟩ : Path) = ⟨_, _⟩
    congr 1
    exact readAll _ (hr.fits j) (hr.mixed v hv j)
  · intro u hu
    rw [slice_set]
    by_cases huv : u = v
    · subst huv
      rw [if_pos ⟨rfl, hr.slen ▸ hvl⟩, ← hr.svalue u hv]
      show ((upd h.arrays (h.sliceAt u).arr _ (h.sliceAt u).arr).drop (h.sliceAt u).off).take (h.sliceAt u).len = _
      rw [upd_same, write_one hi (by omega)]
      rfl
    · rw [if_neg (fun h => huv h.1)]
      exact (readAll _ (hr.sfits u) (hr.sapart v u (Ne.symm huv))).trans (hr.svalue u hu)

theorem Sep.fromSlice (hr : Sep h given w) {v n : Nat} (hv : v ∉ given) (hn : n ≤ (h.sliceAt v).len) :
    Sep (h.newObj { path := { h.sliceAt v with len := n } }) (v :: given)
      (w.new (Path.newPathFromElements ((w.slice v).take n))) := by
  have hw : Within { h.sliceAt v with len := n } (h.sliceAt v) :=
    ⟨Nat.le_trans hn (hr.sfits v).1, fun _ => ⟨rfl, Nat.le_refl _, Nat.le_refl _⟩⟩
  have hr' : Sep h (v :: given) w := { hr with
    mixed := fun u hu => hr.mixed u (fun h => hu (List.mem_cons_of_mem _ h))
    svalue := fun u hu => hr.svalue u (fun h => hu (List.mem_cons_of_mem _ h)) }
  refine hr'.newObj (hw.fits (hr.sfits v)) (fun i => hw.apart (hr.mixed v hv i))
    (fun u hu => hw.apart (hr.sapart v u (fun he => hu (he ▸ List.mem_cons_self)))) ?_
  show (⟨_, _⟩ : Path) = ⟨_, _⟩
  rw [← hr.svalue v hv]
  congr 1
  unfold Heap.read
  rw [List.take_take, Nat.min_eq_left hn]

theorem Sep.more (hr : Sep h given w) (v : Nat) : Sep h (v :: given) w := { hr with
    mixed := fun u hu => hr.mixed u (fun h => hu (List.mem_cons_of_mem _ h))
    svalue := fun u hu => hr.svalue u (fun h => hu (List.mem_cons_of_mem _ h)) }

theorem Sep.step (g : Ends) (grow : Nat → Nat → Nat) (hr : Sep h given w) {op : POp} (ho : OwnCall given op) :
    Sep (step g grow h op) (gives given op) (PVals.step g w op) := by
  have hpath : ∀ i, h.read (h.obj i).path = (w.path i).path := fun i => by rw [← hr.value i]; rfl
  have honly : ∀ i, (h.obj i).only = (w.path i).only := fun i => by rw [← hr.value i]; rfl
  cases op with
  | makeSlice es cap => exact hr.makeSlice es cap
  | writeSlice v i e =>
    unfold PathHeap.step PVals.step
    simp only
    split
    · rename_i hi
      exact hr.writeSlice e ho hi
    · rename_i hi
      have hno : (w.slice v).set i e = w.slice v :=
        List.set_eq_of_length_le (by rw [← hr.svalue v ho, read_length (hr.sfits v)]; omega)
      rw [hno]
      have : ({ w with slices := w.slices.set v (w.slice v) } : PVals) = w := by
        unfold PVals.slice
        by_cases hp : v < w.slices.length
        · simp [hp]
        · rw [List.set_eq_of_length_le (by omega)]
      rw [this]
      exact hr
  | fromSlice v n =>
    unfold PathHeap.step PVals.step gives
    have hl : (w.slice v).length = (h.sliceAt v).len := by rw [← hr.svalue v ho, read_length (hr.sfits v)]
    simp only [hl]
    split
    · rename_i hn
      exact hr.fromSlice ho hn
    · exact hr.more v
  | fromElements es => exact hr.fresh es 0 none
  | fromNode n =>
    exact hr.newObj fits_empty (fun _ => apart_empty) (fun _ _ => apart_empty) rfl
  | clone p =>
    unfold PathHeap.step PVals.step gives
    simp only [hr.len, hpath, honly]
    split
    · exact hr.fresh _ 0 _
    · exact hr
  | setOnlyNode p n =>
    exact hr.setObj fits_empty (fun _ _ => apart_empty) (fun _ _ => apart_empty) rfl
  | clear p =>
    exact hr.setObj fits_empty (fun _ _ => apart_empty) (fun _ _ => apart_empty) rfl
  | append p es =>
    unfold PathHeap.step PVals.step gives
    simp only
    split
    · rename_i hp
      exact hr.appendObj g grow p es hp
    · rename_i hp
      have : w.set p (PVals.left ((w.path p).append g es)) = w := by
        unfold PVals.set
        rw [List.set_eq_of_length_le (by rw [← hr.len]; omega)]
      rw [this]
      exact hr
  | appendPath p q =>
    unfold PathHeap.step PVals.step gives
    simp only [hr.len]
    split
    · rename_i hp
      exact hr.appendPathObj g grow p q (hr.len ▸ hp.1) (hr.len ▸ hp.2)
    · exact hr
  | slice p s e =>
    unfold PathHeap.step PVals.step gives
    simp only [hr.value]
    cases (w.path p).slice g s e with
    | none => exact hr
    | some v => exact hr.fresh v.path 0 v.only
  | removeLast p =>
    unfold PathHeap.step PVals.step gives
    simp only [honly]
    cases (w.path p).only with
    | some n =>
      refine hr.shrink (within_self (hr.fits p)) ?_
      rw [← hr.value p]; rfl
    | none =>
      refine hr.shrink ⟨Nat.le_trans (Nat.sub_le _ _) (hr.fits p).1, fun _ => ⟨rfl, Nat.le_refl _, Nat.le_refl _⟩⟩ ?_
      show (⟨_, _⟩ : Path) = ⟨_, _⟩
      rw [← hpath, List.dropLast_eq_take, read_length (hr.fits p)]
      congr 1
      unfold Heap.read
      rw [List.take_take, Nat.min_eq_left (Nat.sub_le _ _)]
  | removeFirst p =>
    unfold PathHeap.step PVals.step gives
    simp only [honly]
    cases honly' : (w.path p).only with
    | some n =>
      refine hr.shrink (within_self (hr.fits p)) ?_
      rw [← hr.value p]; rfl
    | none =>
      simp only
      have hsame : (⟨none, (w.path p).path⟩ : Path) = w.path p := by rw [← honly']
      have hlen := (hr.fits p).1
      split
      · refine hr.shrink ⟨Nat.sub_le_sub_right hlen 1, fun hc => ⟨rfl, Nat.le_succ _, ?_⟩⟩ ?_
        · show (h.obj p).path.off + 1 + ((h.obj p).path.cap - 1) ≤ _
          omega
        · show (⟨_, _⟩ : Path) = ⟨_, _⟩
          rw [← hpath]
          congr 1
          unfold Heap.read
          rw [← List.drop_one, List.drop_take, List.drop_drop]
      · rename_i h0
        have hnil : (w.path p).path = [] := by
          rw [← hpath]
          exact List.eq_nil_of_length_eq_zero (by rw [read_length (hr.fits p)]; omega)
        rw [hnil, List.tail_nil, ← hnil]
        have : w.set p (w.path p) = w := set_path w p
        rw [hsame, this]
        exact hr

theorem Sep.run (g : Ends) (grow : Nat → Nat → Nat) {ops : List POp} : ∀ {h : Heap} {given : List Nat} {w : PVals}, Sep h given w →
    OwnSlices given ops → ∃ given', Sep (ops.foldl (PathHeap.step g grow) h) given' (ops.foldl (PVals.step g) w) := by
  induction ops with
  | nil => exact fun hr _ => ⟨_, hr⟩
  | cons op ops ih =>
    intro h given w hr ho
    obtain ⟨h1, h2⟩ := ownSlices_cons ho
    exact ih (hr.step g grow h1) h2

end PathHeap
end LPG

import Mathlib.Logic.Function.Basic

/-!
C92: the lists of a manifest as Go slices.  `AppendPeriod`, `AppendAdaptationSet`, `AppendRepresentation` and
`AppendSubRepresentation` (`/repo/mpd/parents.go` 21-24, 40-43, 56-59, 69-72) call `append`, which writes into the array behind the
slice when there is room.  `Clone` (`/repo/mpd/mpd.go` 132-136, 400-404, `/repo/mpd/period.go` 178-182) gives each list an array of its own; a copy of the struct
(`c := *m`) does not.
-/
namespace Verif.Slices

/-- Arrays of pointers, those from `next` on not yet in use. -/
structure Mem where
  arr : Nat → List Nat
  next : Nat

/-- A slice that begins at the beginning of its array; its capacity is the length of the array. -/
structure Sl where
  at' : Nat
  len : Nat

/-- The members of a slice. -/
def Sl.list (s : Sl) (m : Mem) : List Nat := (m.arr s.at').take s.len

/-- `append(s, x)` of Go for one member; `g` is the room that a new array has beyond the members. -/
def append (g : Nat → Nat) (m : Mem) (s : Sl) (x : Nat) : Mem × Sl :=
  if s.len < (m.arr s.at').length then
    ({ m with arr := Function.update m.arr s.at' ((m.arr s.at').set s.len x) }, ⟨s.at', s.len + 1⟩)
  else
    (⟨Function.update m.arr m.next ((m.arr s.at').take s.len ++ x :: List.replicate (g s.len) 0), m.next + 1⟩, ⟨m.next, s.len + 1⟩)

/-- A program with any number of lists (the `Periods`, `AdaptationSets`, `Representations` and `SubRepresentations` of its
manifests), each known by a number. -/
structure Prog where
  mem : Mem
  var : Nat → Sl

/-- One call of an `Append…` function: `o` is the list and `x` the new member.  The parent pointer is left out (see C13). -/
def push (g : Nat → Nat) (p : Prog) (o x : Nat) : Prog :=
  ⟨(append g p.mem (p.var o) x).1, Function.update p.var o (append g p.mem (p.var o) x).2⟩

/-- Many calls, in any order. -/
def pushes (g : Nat → Nat) (p : Prog) (l : List (Nat × Nat)) : Prog := l.foldl (fun p c => push g p c.1 c.2) p

/-- What is in a list. -/
def Prog.list (p : Prog) (o : Nat) : List Nat := (p.var o).list p.mem

/-! ### Specification -/

/-- The members that are added to the list `o`, in their order. -/
def added (o : Nat) (l : List (Nat × Nat)) : List Nat := (l.filter fun c => c.1 == o).map (·.2)

/-- The slice uses its whole array. -/
def Full (p : Prog) (o : Nat) : Prop := (p.var o).len = (p.mem.arr (p.var o).at').length

/-- Slices are inside their arrays, and two lists have different arrays, or no room in the one that they share (such as
lists without members). -/
structure Apart (p : Prog) : Prop where
  used : ∀ o, (p.var o).at' < p.mem.next
  fits : ∀ o, (p.var o).len ≤ (p.mem.arr (p.var o).at').length
  own : ∀ o o', o ≠ o' → (p.var o).at' = (p.var o').at' → Full p o ∧ Full p o'

/-! ### Proof -/

theorem take_set_end {l : List Nat} {n : Nat} (h : n < l.length) (x : Nat) : (l.set n x).take (n + 1) = l.take n ++ [x] := by
  rw [List.take_set, List.take_add_one, List.getElem?_eq_getElem h]
  simp only [Option.toList_some]
  rw [List.set_append_right _ _ (by simp; omega)]
  simp [Nat.min_eq_left (Nat.le_of_lt h)]

theorem push_apart (g : Nat → Nat) {p : Prog} (h : Apart p) (o x : Nat) : Apart (push g p o x) ∧
    (push g p o x).list o = p.list o ++ [x] ∧ ∀ o', o' ≠ o → (push g p o x).list o' = p.list o' := by
  obtain ⟨h1, h2, h3⟩ := h
  by_cases hl : (p.var o).len < (p.mem.arr (p.var o).at').length
  · have hne : ∀ o', o' ≠ o → (p.var o').at' ≠ (p.var o).at' := fun o' ho e => by
      have := (h3 o' o ho e).2
      unfold Full at this
      omega
    have ev : ∀ o', o' ≠ o → (push g p o x).var o' = p.var o' := fun o' ho => Function.update_of_ne ho _ _
    have eo : (push g p o x).var o = ⟨(p.var o).at', (p.var o).len + 1⟩ := by simp [push, append, hl]
    have em : (push g p o x).mem = { p.mem with arr := Function.update p.mem.arr (p.var o).at' ((p.mem.arr (p.var o).at').set (p.var o).len x) } := by
      simp [push, append, hl]
    have ea : ∀ i, ((push g p o x).mem.arr i).length = (p.mem.arr i).length := fun i => by
      rw [em]
      by_cases e : i = (p.var o).at'
      · subst e; simp
      · simp [Function.update_of_ne e]
    have en : (push g p o x).mem.next = p.mem.next := by rw [em]
    refine ⟨⟨fun q => ?_, fun q => ?_, fun q q' hq e => ?_⟩, ?_, fun o' ho => ?_⟩
    · rw [en]
      by_cases e : q = o
      · subst e; rw [eo]; exact h1 _
      · rw [ev q e]; exact h1 _
    · rw [ea]
      by_cases e : q = o
      · subst e; rw [eo]; exact hl
      · rw [ev q e]; exact h2 _
    · have hq1 : q ≠ o := by
        intro e1; subst e1
        rw [eo, ev q' (Ne.symm hq)] at e
        exact hne q' (Ne.symm hq) e.symm
      have hq2 : q' ≠ o := by
        intro e1; subst e1
        rw [eo, ev q hq1] at e
        exact hne q hq1 e
      rw [ev q hq1, ev q' hq2] at e
      have := h3 q q' hq e
      unfold Full at this ⊢
      rw [ev q hq1, ev q' hq2, ea, ea]
      exact this
    · unfold Prog.list Sl.list
      rw [eo, em]
      simp only [Function.update_self]
      exact take_set_end hl x
    · unfold Prog.list Sl.list
      rw [ev o' ho, em]
      simp only [Function.update_of_ne (hne o' ho)]
  · have ev : ∀ o', o' ≠ o → (push g p o x).var o' = p.var o' := fun o' ho => Function.update_of_ne ho _ _
    have eo : (push g p o x).var o = ⟨p.mem.next, (p.var o).len + 1⟩ := by simp [push, append, hl]
    have em : (push g p o x).mem = ⟨Function.update p.mem.arr p.mem.next ((p.mem.arr (p.var o).at').take (p.var o).len ++
        x :: List.replicate (g (p.var o).len) 0), p.mem.next + 1⟩ := by simp [push, append, hl]
    have ea : ∀ i, i < p.mem.next → (push g p o x).mem.arr i = p.mem.arr i := fun i hi => by
      rw [em]; exact Function.update_of_ne (by omega) _ _
    have en : (push g p o x).mem.next = p.mem.next + 1 := by rw [em]
    have hlen : ((p.mem.arr (p.var o).at').take (p.var o).len).length = (p.var o).len := by
      have := h2 o; simp; omega
    refine ⟨⟨fun q => ?_, fun q => ?_, fun q q' hq e => ?_⟩, ?_, fun o' ho => ?_⟩
    · rw [en]
      by_cases e : q = o
      · subst e; rw [eo]; exact Nat.lt_succ_self _
      · rw [ev q e]; have := h1 q; omega
    · by_cases e : q = o
      · subst e; rw [eo, em]; simp only [Function.update_self, List.length_append, hlen, List.length_cons]; omega
      · rw [ev q e, ea _ (h1 q)]; exact h2 _
    · have hq1 : q ≠ o := by
        intro e1; subst e1
        rw [eo, ev q' (Ne.symm hq)] at e
        have := h1 q'; dsimp only at e; omega
      have hq2 : q' ≠ o := by
        intro e1; subst e1
        rw [eo, ev q hq1] at e
        have := h1 q; dsimp only at e; omega
      rw [ev q hq1, ev q' hq2] at e
      have := h3 q q' hq e
      unfold Full at this ⊢
      rw [ev q hq1, ev q' hq2, ea _ (h1 q), ea _ (h1 q')]
      exact this
    · unfold Prog.list Sl.list
      rw [eo, em]
      simp only [Function.update_self]
      rw [List.take_append]
      simp [hlen, List.take_take]
    · unfold Prog.list Sl.list
      rw [ev o' ho, ea _ (h1 o')]

/-- **C92**: when no two lists share an array with room, each list has at the end what it had and what was added to it, in this
order, whatever was added to the others in between. -/
theorem C92_apart (g : Nat → Nat) : ∀ (l : List (Nat × Nat)) (p : Prog), Apart p → ∀ o,
    (pushes g p l).list o = p.list o ++ added o l
  | [], p, _, o => by simp [pushes, added]
  | (q, x) :: l, p, h, o => by
    obtain ⟨a1, a2, a3⟩ := push_apart g h q x
    have ih := C92_apart g l (push g p q x) a1 o
    simp only [pushes, List.foldl_cons] at ih ⊢
    rw [ih]
    by_cases e : q = o
    · subst e; rw [a2]; simp [added]
    · rw [a3 o (Ne.symm e)]; simp [added, e]

/-- What `deepcopy` (a library that is not part of the repository) is taken to do with the lists in `os`: each gets a new array with
the same number of members; `f` gives the copies of members, and `t o` is the list that the copy of `o` becomes. -/
def cloneLists (f : Nat → Nat) (t : Nat → Nat) : List Nat → Prog → Prog
  | [], p => p
  | o :: os, p => cloneLists f t os
      ⟨⟨Function.update p.mem.arr p.mem.next ((p.list o).map f), p.mem.next + 1⟩, Function.update p.var (t o) ⟨p.mem.next, (p.list o).length⟩⟩

/-- **C92**: after `Clone` the lists are still apart, so that `C92_apart` holds of the original and the clone. -/
theorem C92_clone (f t : Nat → Nat) : ∀ (os : List Nat) (p : Prog), Apart p → Apart (cloneLists f t os p)
  | [], _, h => h
  | o :: os, p, h => by
    refine C92_clone f t os _ ?_
    obtain ⟨h1, h2, h3⟩ := h
    have ea : ∀ i (l : List Nat), i < p.mem.next → Function.update p.mem.arr p.mem.next l i = p.mem.arr i := fun i l hi =>
      Function.update_of_ne (by omega) _ _
    refine ⟨fun q => ?_, fun q => ?_, fun q q' hq e => ?_⟩
    · by_cases e : q = t o
      · subst e; simp
      · simp only [Function.update_of_ne e]; have := h1 q; omega
    · by_cases e : q = t o
      · subst e; simp
      · simp only [Function.update_of_ne e, ea _ _ (h1 q)]; exact h2 q
    · by_cases e1 : q = t o
      · subst e1
        simp only [Function.update_self, Function.update_of_ne (Ne.symm hq)] at e
        have := h1 q'; omega
      · by_cases e2 : q' = t o
        · subst e2
          simp only [Function.update_self, Function.update_of_ne hq] at e
          have := h1 q; omega
        · simp only [Function.update_of_ne e1, Function.update_of_ne e2] at e
          have := h3 q q' hq e
          unfold Full at this ⊢
          simp only [Function.update_of_ne e1, Function.update_of_ne e2, ea _ _ (h1 q), ea _ _ (h1 q')]
          exact this

/-- A clone has copies of the members, and the other lists have what they had. -/
theorem C92_clone_list (f t : Nat → Nat) (o : Nat) (p : Prog) (h : Apart p) :
    (cloneLists f t [o] p).list (t o) = (p.list o).map f ∧ ∀ q, q ≠ t o → (cloneLists f t [o] p).list q = p.list q := by
  constructor
  · simp only [cloneLists]
    rw [Prog.list, Sl.list]
    simp only [Function.update_self]
    rw [List.take_of_length_le (by simp)]
  · intro q hq
    simp only [cloneLists]
    rw [Prog.list, Sl.list]
    simp only [Function.update_of_ne hq]
    rw [Function.update_of_ne (by have := h.used q; omega)]
    rfl

/-- **C92**: two lists that share an array with room (a struct was copied) disturb each other: what is added to the one is
replaced by what is added to the other. -/
theorem C92_shared (g : Nat → Nat) (p : Prog) (o o' : Nat) (ho : o ≠ o') (hs : p.var o = p.var o')
    (hr : (p.var o).len < (p.mem.arr (p.var o).at').length) (x y : Nat) :
    (pushes g p [(o, x), (o', y)]).list o = p.list o ++ [y] := by
  have hr' : (p.var o').len < (p.mem.arr (p.var o').at').length := by rw [← hs]; exact hr
  simp only [pushes, List.foldl_cons, List.foldl_nil, Prog.list, Sl.list, push, append, if_pos hr, Function.update_of_ne (Ne.symm ho)]
  rw [hs]
  simp only [Function.update_self, List.length_set, if_pos hr', Function.update_of_ne ho, List.set_set]
  rw [← hs]
  exact take_set_end hr y

/-- **C92** is false of copied structs: a manifest with three periods, in an array for four as `append` makes it, is copied; a
period is added to each; both have the last one. -/
theorem C92_copy_refuted :
    let p : Prog := pushes (fun n => if n = 2 then 1 else 0) ⟨⟨fun _ => [], 1⟩, fun _ => ⟨0, 0⟩⟩ [(0, 1), (0, 2), (0, 3)]
    let c : Prog := ⟨p.mem, Function.update p.var 1 (p.var 0)⟩
    let r := pushes (fun _ => 0) c [(0, 10), (1, 20)]
    r.list 0 = [1, 2, 3, 20] ∧ r.list 1 = [1, 2, 3, 20] := by decide

/-- Lists at the beginning: all empty. -/
theorem start_apart : Apart ⟨⟨fun _ => [], 1⟩, fun _ => ⟨0, 0⟩⟩ := ⟨fun _ => by simp, fun _ => by simp, fun _ _ _ _ => by simp [Full]⟩

/-- The same with `Clone`. -/
example :
    let p : Prog := pushes (fun n => if n = 2 then 1 else 0) ⟨⟨fun _ => [], 1⟩, fun _ => ⟨0, 0⟩⟩ [(0, 1), (0, 2), (0, 3)]
    let r := pushes (fun _ => 0) (cloneLists (· + 100) (· + 1) [0] p) [(0, 10), (1, 20)]
    r.list 0 = [1, 2, 3, 10] ∧ r.list 1 = [101, 102, 103, 20] := by decide

end Verif.Slices

import Verif.Piped
import Verif.KRfl
import Mathlib.Logic.Function.Basic

/-!
C91: what a program may keep of the tokens it was given.  The bytes of a token are in the buffer of the decoder (`d.buf`,
`/repo/xml/xml.go` 205), which the next call of `Token` writes to; `CopyToken` (`/repo/xml/xml.go` 116-130) copies them.  The
attributes of a start element are in a list that a decoder made with `NewTokenDecoder` shares with the reader of tokens below it.
-/
namespace Verif.Shared

open Verif Verif.Xml

/-! ### The buffer -/

/-- Memory: arrays of bytes, those from `next` on not yet in use, and a `bytes.Buffer` (`d.buf`): the array it uses at the moment
and how much of it.  `bytes.Buffer` is from the standard library; the model has what its documentation says. -/
structure Mem where
  arr : Nat → Bytes
  next : Nat
  cur : Nat
  len : Nat

/-- The ways in which the decoder changes the buffer (`Reset`, `WriteByte` and `Truncate`; `/repo/xml/xml.go` 651-657, 708-714,
751-812, 908-917, 1031-1173, 1238-1274). `WriteString` (1150) is a sequence of `WriteByte`. -/
inductive Op where
  | reset
  | put (b : UInt8)
  | trunc (n : Nat)

/-- One change.  A byte is written into the array if there is room, and otherwise into a new one that has all the bytes so far;
`g` is the room that a new array has beyond that. -/
def step (g : Nat → Nat) (m : Mem) : Op → Mem
  | .reset => { m with len := 0 }
  | .trunc n => { m with len := min n m.len }
  | .put b =>
    if m.len < (m.arr m.cur).length then
      { m with arr := Function.update m.arr m.cur ((m.arr m.cur).set m.len b), len := m.len + 1 }
    else
      { arr := Function.update m.arr m.next ((m.arr m.cur).take m.len ++ b :: List.replicate (g m.len) 0)
        next := m.next + 1
        cur := m.next
        len := m.len + 1 }

/-- Several changes. -/
def steps (g : Nat → Nat) (m : Mem) (ops : List Op) : Mem := ops.foldl (step g) m

/-- The first `n` bytes of an array: the slice in a token. -/
structure Slice where
  at' : Nat
  n : Nat

/-- The bytes that one sees in a slice. -/
def Slice.bytes (s : Slice) (m : Mem) : Bytes := (m.arr s.at').take s.n

/-- A call of `Token`: what it does with the buffer, and how many bytes of the buffer it returns (`data[0:len(data)-trunc]`, such
as in `/repo/xml/xml.go` 663-664, 725-726, 815, 1178-1179). -/
structure Call where
  ops : List Op
  n : Nat

/-- The call. -/
def call (g : Nat → Nat) (m : Mem) (c : Call) : Mem × Slice :=
  (steps g m c.ops, ⟨(steps g m c.ops).cur, min c.n (steps g m c.ops).len⟩)

/-- `bytes.Clone`, as in `CopyToken` (`/repo/xml/xml.go` 87, 94, 103-105, 113, 116-130). -/
def clone (m : Mem) (s : Slice) : Mem × Slice :=
  ({ m with arr := Function.update m.arr m.next (s.bytes m), next := m.next + 1 }, ⟨m.next, (s.bytes m).length⟩)

/-- A program that reads tokens and keeps them. -/
def keeps (g : Nat → Nat) : Mem → List Call → Mem × List Slice
  | m, [] => (m, [])
  | m, c :: cs => ((keeps g (call g m c).1 cs).1, (call g m c).2 :: (keeps g (call g m c).1 cs).2)

/-- A program that reads tokens and keeps copies. -/
def copiesOf (g : Nat → Nat) : Mem → List Call → Mem × List Slice
  | m, [] => (m, [])
  | m, c :: cs =>
    let k := clone (call g m c).1 (call g m c).2
    ((copiesOf g k.1 cs).1, k.2 :: (copiesOf g k.1 cs).2)

/-! ### Specification: values instead of memory -/

/-- A change of the text in the buffer. -/
def Op.on (b : Bytes) : Op → Bytes
  | .reset => []
  | .put c => b ++ [c]
  | .trunc n => b.take n

/-- The texts of the tokens, if texts were values that nobody can change; `b` is what was in the buffer. -/
def texts : Bytes → List Call → List Bytes
  | _, [] => []
  | b, c :: cs => (c.ops.foldl Op.on b).take c.n :: texts (c.ops.foldl Op.on b) cs

/-- The text in the buffer. -/
def content (m : Mem) : Bytes := (m.arr m.cur).take m.len

/-- The buffer has an array, and uses no more than there is. -/
structure Ok (m : Mem) : Prop where
  used : m.cur < m.next
  room : m.len ≤ (m.arr m.cur).length

/-! ### Proof -/

theorem step_ok (g : Nat → Nat) {m : Mem} (h : Ok m) (o : Op) : Ok (step g m o) := by
  obtain ⟨h1, h2⟩ := h
  cases o with
  | reset => exact ⟨h1, by simp [step]⟩
  | trunc n => exact ⟨h1, by simp only [step]; omega⟩
  | put b =>
    simp only [step]
    split
    · exact ⟨h1, by simp; omega⟩
    · exact ⟨by simp, by simp; omega⟩

theorem step_content (g : Nat → Nat) {m : Mem} (h : Ok m) (o : Op) : content (step g m o) = o.on (content m) := by
  obtain ⟨h1, h2⟩ := h
  cases o with
  | reset => simp [content, step, Op.on]
  | trunc n => simp [content, step, Op.on, List.take_take]
  | put b =>
    simp only [step]
    split
    · rename_i hl
      simp only [content, Function.update_self, Op.on]
      rw [List.take_set]
      rw [List.take_add_one, List.getElem?_eq_getElem hl]
      simp only [Option.toList_some]
      rw [List.set_append_right _ _ (by simp; omega)]
      simp [Nat.min_eq_left (Nat.le_of_lt hl)]
    · simp only [content, Function.update_self, Op.on]
      rw [List.take_append]
      have : (List.take m.len (m.arr m.cur)).length = m.len := by simp; omega
      simp [this, List.take_take]

/-- Other arrays do not change. -/
theorem step_frame (g : Nat → Nat) {m : Mem} (o : Op) (i : Nat) (h1 : i ≠ m.cur) (h2 : i < m.next) :
    (step g m o).arr i = m.arr i ∧ i ≠ (step g m o).cur ∧ i < (step g m o).next := by
  cases o with
  | reset => exact ⟨rfl, h1, h2⟩
  | trunc n => exact ⟨rfl, h1, h2⟩
  | put b =>
    simp only [step]
    split
    · exact ⟨Function.update_of_ne h1 _ _, h1, h2⟩
    · exact ⟨Function.update_of_ne (by omega) _ _, by dsimp only; omega, by dsimp only; omega⟩

theorem steps_all (g : Nat → Nat) : ∀ (ops : List Op) (m : Mem), Ok m → Ok (steps g m ops) ∧
    content (steps g m ops) = ops.foldl Op.on (content m) ∧ ∀ i, i ≠ m.cur → i < m.next →
      (steps g m ops).arr i = m.arr i ∧ i ≠ (steps g m ops).cur ∧ i < (steps g m ops).next
  | [], m, h => ⟨h, rfl, fun i h1 h2 => ⟨rfl, h1, h2⟩⟩
  | o :: ops, m, h => by
    obtain ⟨a1, a2, a3⟩ := steps_all g ops (step g m o) (step_ok g h o)
    refine ⟨a1, ?_, fun i h1 h2 => ?_⟩
    · have := step_content g h o
      simp only [steps, List.foldl_cons] at a2 ⊢
      rw [a2, this]
    · obtain ⟨b1, b2, b3⟩ := step_frame g o i h1 h2
      obtain ⟨c1, c2, c3⟩ := a3 i b2 b3
      exact ⟨c1.trans b1, c2, c3⟩

/-- **C91**: a token that is looked at before the next call has its text. -/
theorem C91_at_once (g : Nat → Nat) (m : Mem) (h : Ok m) (c : Call) :
    (call g m c).2.bytes (call g m c).1 = (c.ops.foldl Op.on (content m)).take c.n := by
  obtain ⟨a1, a2, -⟩ := steps_all g c.ops m h
  rw [← a2]
  simp only [call, Slice.bytes, content, List.take_take]

theorem clone_all {m : Mem} (h : Ok m) (s : Slice) : Ok (clone m s).1 ∧ content (clone m s).1 = content m ∧
    (clone m s).2.bytes (clone m s).1 = s.bytes m ∧ (clone m s).2.at' ≠ (clone m s).1.cur ∧ (clone m s).2.at' < (clone m s).1.next ∧
    ∀ i, i ≠ m.cur → i < m.next → (clone m s).1.arr i = m.arr i ∧ i ≠ (clone m s).1.cur ∧ i < (clone m s).1.next := by
  obtain ⟨h1, h2⟩ := h
  have e : ∀ i, i < m.next → (clone m s).1.arr i = m.arr i := fun i hi => Function.update_of_ne (by omega) _ _
  refine ⟨⟨by simp only [clone]; omega, ?_⟩, ?_, ?_, by simp only [clone]; omega, by simp [clone], fun i h3 h4 => ⟨e i h4, h3, by simp only [clone]; omega⟩⟩
  · rw [show (clone m s).1.cur = m.cur from rfl, e _ h1]; exact h2
  · unfold content; rw [show (clone m s).1.cur = m.cur from rfl, e _ h1]; rfl
  · simp only [clone, Function.update_self, Slice.bytes]; exact List.take_length

theorem copies_frame (g : Nat → Nat) : ∀ (cs : List Call) (m : Mem), Ok m → ∀ i, i ≠ m.cur → i < m.next →
    (copiesOf g m cs).1.arr i = m.arr i
  | [], m, h, i, h1, h2 => rfl
  | c :: cs, m, h, i, h1, h2 => by
    obtain ⟨a1, -, a3⟩ := steps_all g c.ops m h
    obtain ⟨b1, b2, b3⟩ := a3 i h1 h2
    obtain ⟨c1, -, -, -, -, c6⟩ := clone_all a1 (call g m c).2
    obtain ⟨d1, d2, d3⟩ := c6 i b2 b3
    simp only [copiesOf]
    exact (copies_frame g cs _ c1 i d2 d3).trans (d1.trans b1)

/-- **C91**: copies keep their texts: whatever the decoder does afterwards, at the end all of them are the texts of the tokens. -/
theorem C91_copies (g : Nat → Nat) : ∀ (cs : List Call) (m : Mem), Ok m →
    (copiesOf g m cs).2.map (·.bytes (copiesOf g m cs).1) = texts (content m) cs
  | [], m, h => rfl
  | c :: cs, m, h => by
    obtain ⟨a1, a2, -⟩ := steps_all g c.ops m h
    obtain ⟨c1, c2, c3, c4, c5, -⟩ := clone_all a1 (call g m c).2
    have ih := C91_copies g cs (clone (steps g m c.ops) (call g m c).2).1 c1
    simp only [copiesOf, List.map_cons, texts]
    refine congrArg₂ _ ?_ ?_
    · rw [← C91_at_once g m h c]
      have := copies_frame g cs _ c1 _ c4 c5
      refine Eq.trans ?_ c3
      exact congrArg (List.take _) this
    · rw [c2, a2] at ih
      exact ih

theorem puts_on (b : Bytes) : ∀ l : Bytes, (l.map Op.put).foldl Op.on b = b ++ l
  | [] => by simp
  | c :: l => by simp [Op.on, puts_on (b ++ [c]) l]

/-- **C91**: whatever the texts of the tokens are, a program that keeps copies has them all at the end. -/
theorem C91_collected (g : Nat → Nat) (ts : List Bytes) (m : Mem) (h : Ok m) :
    let r := copiesOf g m (ts.map fun t => ⟨.reset :: t.map .put, t.length⟩)
    r.2.map (·.bytes r.1) = ts := by
  intro r
  refine (C91_copies g _ m h).trans ?_
  generalize content m = b
  induction ts generalizing b with
  | nil => rfl
  | cons t ts ih => simp [texts, Op.on, puts_on, ih]

/-- The program may also keep what it has copied before, and other memory. -/
theorem C91_others (g : Nat → Nat) (ops : List Op) (m : Mem) (h : Ok m) (s : Slice) (h1 : s.at' ≠ m.cur) (h2 : s.at' < m.next) :
    s.bytes (steps g m ops) = s.bytes m := by
  unfold Slice.bytes
  rw [((steps_all g ops m h).2.2 _ h1 h2).1]

theorem puts_head (g : Nat → Nat) (b : UInt8) : ∀ (l : Bytes) (m : Mem) (i : Nat), Ok m → i < m.next → (m.arr i).head? = some b →
    (i = m.cur → 0 < m.len) → ((steps g m (l.map .put)).arr i).head? = some b
  | [], m, i, _, _, h, _ => h
  | c :: l, m, i, hk, hi, h, hl => by
    simp only [List.map_cons, steps, List.foldl_cons]
    refine puts_head g b l (step g m (.put c)) i (step_ok g hk _) ?_ ?_ ?_
    · simp only [step]; split <;> dsimp only <;> omega
    · by_cases e : i = m.cur
      · subst e
        simp only [step]
        split
        · simp only [Function.update_self]
          rw [List.head?_eq_getElem?, List.getElem?_set_ne (by have := hl rfl; omega), ← List.head?_eq_getElem?]
          exact h
        · simp only [Function.update_of_ne (show m.cur ≠ m.next by omega)]
          exact h
      · rw [(step_frame g _ i e hi).1]; exact h
    · intro _
      simp only [step]
      split <;> simp

/-- **C91**: a token that is kept without a copy is lost as soon as the next one is read: its first byte is the first byte of
the next text. -/
theorem C91_lost (g : Nat → Nat) (m : Mem) (h : Ok m) (c : Call) (hc : (call g m c).2.bytes (call g m c).1 ≠ []) (b : UInt8) (l : Bytes) (n : Nat) :
    ((call g m c).2.bytes (call g (call g m c).1 ⟨.reset :: .put b :: l.map .put, n⟩).1).head? = some b := by
  obtain ⟨a1, -, -⟩ := steps_all g c.ops m h
  generalize hm : steps g m c.ops = m1 at a1
  have e1 : (call g m c).1 = m1 := hm
  have e2 : (call g m c).2 = ⟨m1.cur, min c.n m1.len⟩ := by rw [call, hm]
  rw [e1, e2] at hc
  rw [e1, e2]
  have hne : m1.arr m1.cur ≠ [] := by intro e; simp [Slice.bytes, e] at hc
  have hn : min c.n m1.len ≠ 0 := by intro e; simp [Slice.bytes, e] at hc
  have hpos : 0 < (m1.arr m1.cur).length := List.length_pos_iff.2 hne
  have hst : step g (step g m1 .reset) (.put b) =
      { m1 with arr := Function.update m1.arr m1.cur ((m1.arr m1.cur).set 0 b), len := 1 } := by
    simp only [step, hpos, if_true]
  have := puts_head g b l (step g (step g m1 .reset) (.put b)) m1.cur (step_ok g (step_ok g a1 _) _) (by rw [hst]; exact a1.used)
    (by
      rw [hst]
      simp only [Function.update_self]
      rw [List.head?_eq_getElem?, List.getElem?_set_self hpos]) (by rw [hst]; simp)
  simp only [Slice.bytes, call, steps, List.foldl_cons] at this ⊢
  rw [List.head?_take, if_neg hn]
  exact this

/-- A decoder at the beginning: the buffer has no room. -/
def Mem.new : Mem := ⟨fun _ => [], 1, 0, 0⟩

theorem new_ok : Ok Mem.new := ⟨by decide, by decide⟩

/-- Two calls that return the texts `ad` and `bc`, the second after removing a byte of what was written. -/
def twoCalls : List Call := [⟨[.reset, .put ch%'a', .put ch%'d'], 2⟩, ⟨[.reset, .put ch%'b', .put ch%'c', .put ch%'!', .trunc 2], 2⟩]

/-- With copies both texts are there. -/
example : (copiesOf (fun _ => 8) Mem.new twoCalls).2.map (·.bytes (copiesOf (fun _ => 8) Mem.new twoCalls).1) =
    [b!"ad", b!"bc"] := C91_copies _ _ _ new_ok

/-- The first text, kept while `bc` is read, begins with `b`. -/
example : ((call (fun _ => 8) Mem.new ⟨[.reset, .put ch%'a', .put ch%'d'], 2⟩).2.bytes
    (call (fun _ => 8) (call (fun _ => 8) Mem.new ⟨[.reset, .put ch%'a', .put ch%'d'], 2⟩).1 ⟨.reset :: .put ch%'b' :: (b!"c").map .put, 2⟩).1).head? =
      some ch%'b' :=
  C91_lost _ _ new_ok _ (by decide +kernel) _ _ _

/-- **C91** is false of tokens that are not copied: the first text has become the second. -/
theorem C91_kept_refuted : (keeps (fun _ => 8) Mem.new twoCalls).2.map (·.bytes (keeps (fun _ => 8) Mem.new twoCalls).1) =
    [b!"bc", b!"bc"] := by decide +kernel

/-! ### Attributes -/

/-- Lists of attributes in memory. -/
abbrev Heap := Nat → List Attr

/-- A token as a Go value: a start element refers to its attributes. -/
inductive Ref where
  | start (n : Name) (attrs : Nat)
  | other (t : Token)

/-- The token that one sees. -/
def Ref.see (h : Heap) : Ref → Token
  | .start n i => .startElement n (h i)
  | .other t => t

/-- The results of `Token` of a decoder that reads the tokens of a `TokenReader` (`/repo/xml/xml.go` 300-369, 588-591), and the memory
afterwards: the names of attributes are translated in place (`d.translate(&t1.Attr[i].Name, false)`, 357-359); the name of the
element is in the copy `t1`.  After the tokens the reader returns `fin`.  The second case of a start element does not occur
(`cook_start`).  As in `Piped.run`, the decoder is strict and not inside `UnmarshalXML`. -/
def pass (fin : XErr) : List Ref → NsMap → List Stk → Heap → List Ref × XErr × Heap
  | [], _, stk, h => ([], Piped.rawErr fin stk, h)
  | .start n i :: l, ns, stk, h =>
    match cook (.startElement n (h i)) ns stk with
    | .ok (.startElement n' as, ns', stk') =>
      let r := pass fin l ns' stk' (Function.update h i as)
      (.start n' i :: r.1, r.2)
    | .ok (t, ns', stk') =>
      let r := pass fin l ns' stk' h
      (.other t :: r.1, r.2)
    | .error e => ([], e, h)
  | .other t :: l, ns, stk, h =>
    match cook t ns stk with
    | .ok (t', ns', stk') =>
      let r := pass fin l ns' stk' h
      (.other t' :: r.1, r.2)
    | .error e => ([], e, h)

/-- The lists of attributes of some tokens. -/
def heads : List Ref → List Nat
  | [] => []
  | .start _ i :: l => i :: heads l
  | .other _ :: l => heads l

/-- `CopyToken` for all tokens (`/repo/xml/xml.go` 64-68, 116-130): new lists from `k` on. -/
def copyAll : List Ref → Nat → Heap → List Ref × Heap
  | [], _, h => ([], h)
  | .start n i :: l, k, h => let r := copyAll l (k + 1) (Function.update h k (h i)); (.start n k :: r.1, r.2)
  | .other t :: l, k, h => let r := copyAll l k h; (.other t :: r.1, r.2)

/-- What a reader with tokens that are values gives (`Piped.newTokenDecoder`). -/
def pure (fin : XErr) (ts : List Token) (ns : NsMap) (stk : List Stk) : List (Option Token) × XErr :=
  Piped.run (ts.map fun t => ⟨some t, none⟩) fin ns stk

theorem pass_frame (fin : XErr) : ∀ (l : List Ref) (ns : NsMap) (stk : List Stk) (h : Heap) (i : Nat), i ∉ heads l →
    (pass fin l ns stk h).2.2 i = h i
  | [], ns, stk, h, i, _ => rfl
  | .start n j :: l, ns, stk, h, i, hi => by
    simp only [heads, List.mem_cons, not_or] at hi
    simp only [pass]
    split
    · rw [pass_frame fin l _ _ _ i hi.2, Function.update_of_ne hi.1]
    · exact pass_frame fin l _ _ _ i hi.2
    · rfl
  | .other t :: l, ns, stk, h, i, hi => by
    simp only [heads] at hi
    simp only [pass]
    split
    · exact pass_frame fin l _ _ _ i hi
    · rfl

theorem pass_heads (fin : XErr) : ∀ (l : List Ref) (ns : NsMap) (stk : List Stk) (h : Heap), ∀ i ∈ heads (pass fin l ns stk h).1,
    i ∈ heads l
  | [], ns, stk, h => by simp [pass, heads]
  | .start n j :: l, ns, stk, h => by
    intro i hi
    simp only [pass] at hi
    simp only [heads, List.mem_cons]
    split at hi
    · simp only [heads, List.mem_cons] at hi
      exact hi.imp id (pass_heads fin l _ _ _ i)
    · simp only [heads] at hi
      exact .inr (pass_heads fin l _ _ _ i hi)
    · simp [heads] at hi
  | .other t :: l, ns, stk, h => by
    intro i hi
    simp only [pass] at hi
    simp only [heads]
    split at hi
    · simp only [heads] at hi
      exact pass_heads fin l _ _ _ i hi
    · simp [heads] at hi

theorem cook_start {n : Name} {as : List Attr} {ns : NsMap} {stk : List Stk} {t : Token} {ns' : NsMap} {stk' : List Stk}
    (h : cook (.startElement n as) ns stk = .ok (t, ns', stk')) : ∃ n' as', t = .startElement n' as' := by
  simp only [cook] at h
  split at h
  · cases h
  · injection h with h
    injection h with h _
    exact ⟨_, _, h.symm⟩

/-- **C91**: tokens that are read for the first time, and whose attributes are not shared, are those of a reader of values, also
when all of them are kept to the end. -/
theorem C91_first (fin : XErr) : ∀ (l : List Ref) (ns : NsMap) (stk : List Stk) (h : Heap), (heads l).Nodup →
    ((pass fin l ns stk h).1.map fun r => some (r.see (pass fin l ns stk h).2.2), (pass fin l ns stk h).2.1) =
      pure fin (l.map (·.see h)) ns stk
  | [], ns, stk, h, _ => rfl
  | .start n j :: l, ns, stk, h, hd => by
    simp only [heads, List.nodup_cons] at hd
    have see_eq : ∀ as, l.map (·.see (Function.update h j as)) = l.map (·.see h) := by
      intro as
      refine List.map_congr_left fun r hr => ?_
      cases r with
      | other t => rfl
      | start n' i =>
        have : i ≠ j := by
          intro e
          subst e
          refine hd.1 ?_
          clear hd
          induction l with
          | nil => simp at hr
          | cons x l ih =>
            simp only [List.mem_cons] at hr
            rcases hr with rfl | hr
            · simp [heads]
            · cases x <;> simp [heads, ih hr]
        simp [Ref.see, Function.update_of_ne this]
    show _ = Piped.run (⟨some (.startElement n (h j)), none⟩ :: (l.map (·.see h)).map fun t => ⟨some t, none⟩) fin ns stk
    simp only [pass, Piped.run]
    cases hc : cook (.startElement n (h j)) ns stk with
    | error e => rfl
    | ok r =>
      obtain ⟨t, ns', stk'⟩ := r
      obtain ⟨n', as', rfl⟩ := cook_start hc
      dsimp only
      have ih := C91_first fin l ns' stk' (Function.update h j as') hd.2
      rw [see_eq] at ih
      simp only [pure] at ih
      rw [← ih]
      simp only [List.map_cons, Ref.see, Prod.mk.injEq, List.cons.injEq, and_true, Option.some.injEq, Token.startElement.injEq, true_and]
      rw [pass_frame fin l _ _ _ j hd.1, Function.update_self]
  | .other t :: l, ns, stk, h, hd => by
    simp only [heads] at hd
    show _ = Piped.run (⟨some t, none⟩ :: (l.map (·.see h)).map fun t => ⟨some t, none⟩) fin ns stk
    simp only [pass, Piped.run]
    cases hc : cook t ns stk with
    | error e => rfl
    | ok r =>
      obtain ⟨t', ns', stk'⟩ := r
      dsimp only
      have ih := C91_first fin l ns' stk' h hd
      simp only [pure] at ih
      rw [← ih]
      rfl

/-- All lists of the tokens are below `k`. -/
def Below (k : Nat) (l : List Ref) : Prop := ∀ i ∈ heads l, i < k

theorem copyAll_all : ∀ (l : List Ref) (k : Nat) (h : Heap), Below k l →
    (∀ i, i < k → (copyAll l k h).2 i = h i) ∧ (∀ i ∈ heads (copyAll l k h).1, k ≤ i) ∧ (heads (copyAll l k h).1).Nodup ∧
      (copyAll l k h).1.map (·.see (copyAll l k h).2) = l.map (·.see h)
  | [], k, h, _ => ⟨fun _ _ => rfl, by simp [copyAll, heads], by simp [copyAll, heads], rfl⟩
  | .start n j :: l, k, h, hb => by
    have hj : j < k := hb j (by simp [heads])
    have hl : Below k l := fun i hi => hb i (by simp [heads, hi])
    obtain ⟨a1, a2, a3, a4⟩ := copyAll_all l (k + 1) (Function.update h k (h j)) fun i hi => by have := hl i hi; omega
    have e : l.map (·.see (Function.update h k (h j))) = l.map (·.see h) := by
      clear a1 a2 a3 a4 hb
      induction l with
      | nil => rfl
      | cons x l ih =>
        have hl' : Below k l := fun i hi => hl i (by cases x <;> simp [heads, hi])
        simp only [List.map_cons, ih hl']
        cases x with
        | other t => rfl
        | start n' i =>
          have : i ≠ k := by have := hl i (by simp [heads]); omega
          simp [Ref.see, Function.update_of_ne this]
    simp only [copyAll, heads, List.map_cons, List.nodup_cons, List.mem_cons]
    refine ⟨fun i hi => ?_, ?_, ⟨fun hk => ?_, a3⟩, ?_⟩
    · rw [a1 i (by omega), Function.update_of_ne (by omega)]
    · rintro i (rfl | hi)
      · exact Nat.le_refl _
      · have := a2 i hi; omega
    · have := a2 k hk; omega
    · rw [a4, e]
      simp only [Ref.see, a1 k (by omega), Function.update_self]
  | .other t :: l, k, h, hb => by
    obtain ⟨a1, a2, a3, a4⟩ := copyAll_all l k h hb
    simp only [copyAll, heads, List.map_cons]
    exact ⟨a1, a2, a3, by rw [a4]; rfl⟩

/-- **C91**: a reader that gives copies of its tokens can give them again and again: each time the decoder returns what it
returns for values, and the tokens of the reader stay as they are. -/
theorem C91_again (fin : XErr) (l : List Ref) (k : Nat) (h : Heap) (hb : Below k l) (ns : NsMap) (stk : List Stk) :
    let c := copyAll l k h
    let r := pass fin c.1 ns stk c.2
    (r.1.map fun x => some (x.see r.2.2), r.2.1) = pure fin (l.map (·.see h)) ns stk ∧
      l.map (·.see r.2.2) = l.map (·.see h) := by
  obtain ⟨a1, a2, a3, a4⟩ := copyAll_all l k h hb
  refine ⟨by rw [C91_first fin _ ns stk _ a3, a4], ?_⟩
  have e : ∀ i, i < k → (pass fin (copyAll l k h).1 ns stk (copyAll l k h).2).2.2 i = h i := fun i hi => by
    rw [pass_frame fin _ _ _ _ i (fun hm => by have := a2 i hm; omega), a1 i hi]
  generalize (pass fin (copyAll l k h).1 ns stk (copyAll l k h).2).2.2 = h' at e
  clear a1 a2 a3 a4
  induction l with
  | nil => rfl
  | cons x l ih =>
    simp only [List.map_cons, ih fun i hi => hb i (by cases x <;> simp [heads, hi])]
    cases x with
    | other t => rfl
    | start n i => simp only [Ref.see, e i (hb i (by simp [heads]))]

/-- A reader with the tokens of `<x:a xmlns:x="u"></x:a>`. -/
def source : List Ref := [.start ⟨b!"x", b!"a"⟩ 0, .other (.endElement ⟨b!"x", b!"a"⟩)]

/-- Its attributes. -/
def sourceHeap : Heap := fun _ => [⟨⟨b!"xmlns", b!"x"⟩, b!"u"⟩]

/-- The tokens of a first and a second reading of the same tokens. -/
def firstRead : List Token := let r := pass .eof source (fun _ => none) [] sourceHeap; r.1.map (·.see r.2.2)
def secondRead : List Token :=
  let r := pass .eof source (fun _ => none) [] (pass .eof source (fun _ => none) [] sourceHeap).2.2
  r.1.map (·.see r.2.2)

/-- **C91** is false of a reader that gives the same tokens again: the first decoder has changed the name of the declaration, so
that the second does not see it and leaves the prefix in the name. -/
theorem C91_again_refuted : firstRead = [.startElement ⟨b!"u", b!"a"⟩ [⟨⟨xmlnsURL, b!"x"⟩, b!"u"⟩], .endElement ⟨b!"u", b!"a"⟩] ∧
    secondRead = [.startElement ⟨b!"x", b!"a"⟩ [⟨⟨xmlnsURL, b!"x"⟩, b!"u"⟩], .endElement ⟨b!"x", b!"a"⟩] := by
  constructor <;> decide +kernel

/-- The first reading is that of values. -/
example : (heads source).Nodup ∧ firstRead.map some = (pure .eof (source.map (·.see sourceHeap)) (fun _ => none) []).1 := by
  constructor <;> decide +kernel

/-- With copies, both are the same. -/
example : Below 1 source ∧ pure .eof (source.map (·.see sourceHeap)) (fun _ => none) [] =
    ([some (.startElement ⟨b!"u", b!"a"⟩ [⟨⟨xmlnsURL, b!"x"⟩, b!"u"⟩]), some (.endElement ⟨b!"u", b!"a"⟩)], .eof) := by
  constructor
  · intro i hi; simp [source, heads] at hi; omega
  · decide +kernel

end Verif.Shared

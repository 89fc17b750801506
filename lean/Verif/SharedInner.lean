import Verif.SharedRaw

/-!
C93: raw content (`,innerxml`) in fields of type `[]byte`.  While an element with such a field is read, the decoder writes all
input to the buffer `d.saved` (`/repo/xml/xml.go` 206, 950-963); the field becomes a slice of that buffer
(`/repo/xml/read.go` 522-528, 571-575, 619-625), so that elements inside each other have slices of the same array.
-/
namespace Verif.Shared

open Verif

/-! ### The code -/

/-- A part of an array, from `lo` to `hi`. -/
structure Part where
  at' : Nat
  lo : Nat
  hi : Nat

/-- Its bytes. -/
def Part.bytes (s : Part) (m : Mem) : Bytes := ((m.arr s.at').take s.hi).drop s.lo

/-- What happens to `d.saved`. -/
inductive Act where
  /-- `d.saved = new(bytes.Buffer)` (`/repo/xml/read.go` 524-526). -/
  | fresh
  /-- A byte is read (`/repo/xml/xml.go` 958-960). -/
  | get (b : UInt8)
  /-- `saveXMLData = d.saved.Bytes()[i:j]` (`/repo/xml/read.go` 571-572).  `j` is `savedOffset`, at most the length of the buffer. -/
  | field (i j : Nat)

/-- A run of the decoder: the memory and the fields that were set, in their order.  The memory is that of `Shared`, with `d.saved`
as its buffer; when `d.saved` is nil nothing is written, which is a run without `get`. -/
def acts (g : Nat → Nat) : Mem → List Act → Mem × List Part
  | m, [] => (m, [])
  | m, .fresh :: l => acts g ⟨Function.update m.arr m.next [], m.next + 1, m.next, 0⟩ l
  | m, .get b :: l => acts g (step g m (.put b)) l
  | m, .field i j :: l => ((acts g m l).1, ⟨m.cur, i, min j m.len⟩ :: (acts g m l).2)

/-- `append(s, x)` by the program, for a slice with room (the capacity of `d.saved.Bytes()[i:j]` reaches to the end of the array). -/
def appendPart (m : Mem) (s : Part) (x : UInt8) : Mem × Part :=
  if s.hi < (m.arr s.at').length then
    ({ m with arr := Function.update m.arr s.at' ((m.arr s.at').set s.hi x) }, ⟨s.at', s.lo, s.hi + 1⟩)
  else
    (⟨Function.update m.arr m.next (s.bytes m ++ [x]), m.next + 1, m.cur, m.len⟩, ⟨m.next, 0, (s.bytes m).length + 1⟩)

/-! ### Specification -/

/-- The values of the fields, if bytes were values: `b` is what was saved. -/
def fields : Bytes → List Act → List Bytes
  | _, [] => []
  | _, .fresh :: l => fields [] l
  | b, .get c :: l => fields (b ++ [c]) l
  | b, .field i j :: l => (b.take j).drop i :: fields b l

/-! ### Proof -/

/-- The part is not in the way of what will be written. -/
structure Safe (m : Mem) (s : Part) : Prop where
  used : s.at' < m.next
  old : s.at' = m.cur → s.hi ≤ m.len

theorem safe_put (g : Nat → Nat) {m : Mem} {s : Part} (h : Safe m s) (b : UInt8) :
    Safe (step g m (.put b)) s ∧ s.bytes (step g m (.put b)) = s.bytes m := by
  obtain ⟨h1, h2⟩ := h
  simp only [step]
  split
  · refine ⟨⟨h1, fun e => by have := h2 e; dsimp only; omega⟩, ?_⟩
    unfold Part.bytes
    by_cases e : s.at' = m.cur
    · have := h2 e
      simp only [e, Function.update_self]
      rw [List.take_set, List.set_eq_of_length_le (by simp; omega)]
    · simp only [Function.update_of_ne e]
  · refine ⟨⟨by dsimp only; omega, fun e => by dsimp only at e; omega⟩, ?_⟩
    unfold Part.bytes
    simp only [Function.update_of_ne (show s.at' ≠ m.next by omega)]

theorem fresh_ok (m : Mem) : Ok ⟨Function.update m.arr m.next [], m.next + 1, m.next, 0⟩ := ⟨Nat.lt_succ_self _, Nat.zero_le _⟩

theorem acts_safe (g : Nat → Nat) : ∀ (l : List Act) (m : Mem) (s : Part), Safe m s → s.bytes (acts g m l).1 = s.bytes m
  | [], m, s, _ => rfl
  | .fresh :: l, m, s, h => by
    have hu := h.used
    simp only [acts]
    rw [acts_safe g l _ s ⟨by dsimp only; omega, fun e => by dsimp only at e; omega⟩]
    unfold Part.bytes
    simp only [Function.update_of_ne (show s.at' ≠ m.next by omega)]
  | .get b :: l, m, s, h => by
    simp only [acts]
    rw [acts_safe g l _ s (safe_put g h b).1, (safe_put g h b).2]
  | .field i j :: l, m, s, h => acts_safe g l m s h

/-- **C93**: the fields have at the end of reading the raw content of their elements, whatever was read and saved after them and
however the buffer grew. -/
theorem C93_kept (g : Nat → Nat) : ∀ (l : List Act) (m : Mem), Ok m →
    (acts g m l).2.map (·.bytes (acts g m l).1) = fields (content m) l
  | [], _, _ => rfl
  | .fresh :: l, m, _ => by
    have := C93_kept g l _ (fresh_ok m)
    rw [show content ⟨Function.update m.arr m.next [], m.next + 1, m.next, 0⟩ = [] by simp [content]] at this
    exact this
  | .get b :: l, m, h => by
    have := C93_kept g l _ (step_ok g h (.put b))
    rw [content_put g h] at this
    exact this
  | .field i j :: l, m, h => by
    have ih := C93_kept g l m h
    simp only [acts, fields, List.map_cons]
    rw [ih, acts_safe g l m ⟨m.cur, i, min j m.len⟩ ⟨h.used, fun _ => Nat.min_le_right _ _⟩]
    simp only [Part.bytes, content, List.take_take]

/-- **C93**: appending to the raw content of an inner element changes that of the element around it: the first byte after the
inner content is replaced. -/
theorem C93_append (m : Mem) (inner outer : Part) (ha : inner.at' = outer.at') (h1 : inner.hi < outer.hi) (h2 : outer.lo ≤ inner.hi)
    (h3 : outer.hi ≤ (m.arr outer.at').length) (x : UInt8) :
    outer.bytes (appendPart m inner x).1 = (outer.bytes m).set (inner.hi - outer.lo) x := by
  unfold appendPart Part.bytes
  rw [if_pos (by rw [ha]; omega), ha]
  simp only [Function.update_self]
  rw [List.take_set, List.drop_set, if_neg (by omega)]

/-- Appending to a field leaves those alone that end before it, or are in other arrays. -/
theorem C93_append_others (m : Mem) (s t : Part) (ht : t.at' < m.next) (h : t.at' ≠ s.at' ∨ t.hi ≤ s.hi) (x : UInt8) :
    t.bytes (appendPart m s x).1 = t.bytes m := by
  unfold appendPart
  split
  · unfold Part.bytes
    by_cases e : t.at' = s.at'
    · have : t.hi ≤ s.hi := h.resolve_left (fun k => k e)
      simp only [e, Function.update_self]
      rw [List.take_set, List.set_eq_of_length_le (by simp; omega)]
    · simp only [Function.update_of_ne e]
  · unfold Part.bytes
    simp only [Function.update_of_ne (show t.at' ≠ m.next by omega)]

/-- Reading `<b/>y</a>` inside an element `a`, where `a` and `b` have such fields: that of `b` is empty. -/
def nested : List Act := .fresh :: (b!"<b/>").map .get ++ .field 4 4 :: (b!"y</a>").map .get ++ [.field 0 5]

/-- Both fields are right, however the buffer grows. -/
example (g : Nat → Nat) : (acts g Mem.new nested).2.map (·.bytes (acts g Mem.new nested).1) = [[], b!"<b/>y"] :=
  C93_kept _ _ _ new_ok

/-- The memory after appending `!` to the first field. -/
def nestedMem : Mem :=
  let r := acts (fun _ => 63) Mem.new nested
  match r.2 with
  | [] => r.1
  | s :: _ => (appendPart r.1 s (ch%'!')).1

/-- The two fields share an array, and the inner one ends inside the outer one, as in `C93_append`. -/
example : (acts (fun _ => 63) Mem.new nested).2.map (fun s => (s.at', s.lo, s.hi)) = [(2, 4, 4), (2, 0, 5)] := by decide +kernel

/-- **C93** is false of fields that the program changes: `b.Raw = append(b.Raw, '!')` replaces the `y` in the raw content of `a`. -/
theorem C93_append_refuted : (acts (fun _ => 63) Mem.new nested).2.map (·.bytes nestedMem) = [[], b!"<b/>!"] := by
  decide +kernel

end Verif.Shared

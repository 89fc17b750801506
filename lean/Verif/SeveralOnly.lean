import Verif.Several
import Verif.Reused

/-!
C95 for all inputs: what calls of `Decode` on one decoder take from the input, exactly.
-/
namespace Verif.Several

open Verif.Xml Verif.Bind

/-! ### What is said -/

/-- The elements of a list of tokens that lie side by side, up to a rest, have the values `vs` of the types `ss`: each is complete, what
is between them has no start tag, and each is read on its own. -/
inductive Row (io : FloatIO) : List Sch → List PTok → List Val → Prop
  | nil (ts : List PTok) : Row io [] ts []
  | cons {s : Sch} {ss : List Sch} {pre post : List PTok} {v : Val} {vs : List Val} (n : Name) (as : List Attr) (b a : Bytes)
      (kids : List XTree) (en : Name) (eb ea : Bytes) : (∀ p ∈ pre, notStart p = true) → (XTree.elem n as b a kids en eb ea).Ok →
      readT io false 0 s s.zero (.elem n as b a kids en eb ea) = .ok v → Row io ss post vs →
      Row io (s :: ss) (pre ++ ((XTree.elem n as b a kids en eb ea).flat ++ post)) (v :: vs)

/-! ### One call -/

theorem decode_elem (io : FloatIO) (fin : RErr) (s : Sch) (pre post : List PTok) (n : Name) (as : List Attr) (b a : Bytes)
    (kids : List XTree) (en : Name) (eb ea : Bytes) (hpre : ∀ p ∈ pre, notStart p = true) (hok : (XTree.elem n as b a kids en eb ea).Ok) :
    decode io fin s (pre ++ ((XTree.elem n as b a kids en eb ea).flat ++ post)) =
      match readT io false 0 s s.zero (.elem n as b a kids en eb ea) with
      | .ok v => .ok (v, post)
      | .error e => .error e := by
  unfold decode
  rw [findStart_append _ _ hpre]
  simp only [XTree.flat, List.cons_append, List.append_assoc, List.nil_append, findStart]
  rw [(place_spec io _ n as a kids en eb ea post (content_spec io _ en eb ea post kids hok) s).2 0 _ s.zero b
    (by simp; omega) (by decide)]
  cases readT io false 0 s s.zero (.elem n as b a kids en eb ea) <;> rfl

theorem decode_takes (io : FloatIO) (fin : RErr) (s : Sch) (ts ts' : List PTok) (v : Val) (h : decode io fin s ts = .ok (v, ts')) :
    ∃ pre n as b a kids en eb ea, (∀ p ∈ pre, notStart p = true) ∧ (XTree.elem n as b a kids en eb ea).Ok ∧
      ts = pre ++ ((XTree.elem n as b a kids en eb ea).flat ++ ts') ∧
      readT io false 0 s s.zero (.elem n as b a kids en eb ea) = .ok v := by
  have h0 := h
  unfold decode at h
  split at h
  · cases h
  · rename_i n as a l hf
    obtain ⟨pre, b, hpre, hl⟩ := findStart_some _ _ _ _ _ hf
    obtain ⟨kids, en, eb, ea, hok, rfl⟩ :=
      skip_trees _ l ts' (Nat.lt_succ_self _) ((ok_skip io _ _).2.1 _ _ _ _ _ _ _ _ _ h)
    have hts : ts = pre ++ ((XTree.elem n as b a kids en eb ea).flat ++ ts') := by rw [hl]; simp [XTree.flat]
    refine ⟨pre, n, as, b, a, kids, en, eb, ea, hpre, hok, hts, ?_⟩
    rw [hts, decode_elem io fin s pre ts' n as b a kids en eb ea hpre hok] at h0
    split at h0
    · rename_i w hw
      injection h0 with h0
      injection h0 with h0 _
      rw [hw, h0]
    · cases h0

theorem decodes_row (io : FloatIO) (fin : RErr) : ∀ (ss : List Sch) (ts : List PTok) (vs : List Val),
    decodes io fin ss ts = .ok vs ↔ Row io ss ts vs
  | [], ts, vs => by
    constructor
    · intro h
      simp only [decodes, Except.ok.injEq] at h
      subst h; exact .nil ts
    · intro h; cases h; rfl
  | s :: ss, ts, vs => by
    constructor
    · intro h
      unfold decodes at h
      split at h
      · cases h
      · rename_i v ts' hd
        split at h
        · cases h
        · rename_i l hl
          injection h with h
          subst h
          obtain ⟨pre, n, as, b, a, kids, en, eb, ea, hpre, hok, rfl, hr⟩ := decode_takes io fin s ts ts' v hd
          exact .cons n as b a kids en eb ea hpre hok hr ((decodes_row io fin ss ts' l).1 hl)
    · intro h
      cases h with
      | cons n as b a kids en eb ea hpre hok hr hrow =>
        unfold decodes
        rw [decode_elem io fin s _ _ n as b a kids en eb ea hpre hok, hr]
        dsimp only
        rw [(decodes_row io fin ss _ _).2 hrow]

/-! ### The theorems -/

/-- C95, for all inputs: calls of `Decode` succeed exactly if the input begins with as many complete elements side by side, and the values
are those of the elements, each read on its own. -/
theorem C95_iff (io : FloatIO) (ss : List Sch) (input : Bytes) (vs : List Val) :
    decodeAll io ss input = .ok vs ↔ Row io ss (docTokens input) vs := decodes_row io _ ss _ vs

theorem row_length {io : FloatIO} {ss : List Sch} {ts : List PTok} {vs : List Val} (h : Row io ss ts vs) :
    vs.length = ss.length ∧ 2 * ss.length ≤ ts.length := by
  induction h with
  | nil ts => simp
  | cons n as b a kids en eb ea hpre hok hr _ ih =>
    simp only [XTree.flat, List.length_cons, List.length_append, List.length_nil]
    omega

/-- C95, the end of a loop: not more calls succeed than there are bytes in the input (and one), so that a program that calls `Decode` until
it returns an error comes to an end, whatever the input is (`.hang` is among the errors: a single call that does not return, C25). -/
theorem C95_loop (io : FloatIO) (ss : List Sch) (input : Bytes) (hn : input.length + 1 < ss.length) :
    ∃ e, decodeAll io ss input = .error e := by
  cases h : decodeAll io ss input with
  | error e => exact ⟨e, rfl⟩
  | ok vs =>
    have h1 := (row_length ((C95_iff io ss input vs).1 h)).2
    have h2 : ∀ (k : Nat) (d : Dec), (stream k d).1.length ≤ k := by
      intro k
      induction k with
      | zero => intro d; exact Nat.le_refl _
      | succ k ih =>
        intro d
        rw [stream]
        cases token d with
        | error e => exact Nat.zero_le _
        | ok q => exact Nat.succ_le_succ (ih _)
    have h3 : (docTokens input).length ≤ 2 * input.length + 2 := h2 _ _
    omega

/-- Values that were read stay the same however many calls follow. -/
theorem C95_prefix (io : FloatIO) (ss ss' : List Sch) (input : Bytes) (vs : List Val) (h : decodeAll io (ss ++ ss') input = .ok vs) :
    decodeAll io ss input = .ok (vs.take ss.length) := by
  rw [C95_iff] at h ⊢
  generalize docTokens input = ts at h
  induction ss generalizing ts vs with
  | nil => simp; exact .nil ts
  | cons s ss ih =>
    cases h with
    | cons n as b a kids en eb ea hpre hok hr hrow => exact .cons n as b a kids en eb ea hpre hok hr (ih _ _ hrow)

/-! ### Cases -/

/-- Two elements. -/
example (io : FloatIO) (vs : List Val) (h : eachAlone io [(tMPD.sch, exDoc), (tMPD.sch, nextDoc)] = .ok vs) :
    Row io [tMPD.sch, tMPD.sch] (docTokens (exDoc ++ nextDoc)) vs := by
  rw [← C95_iff, ← h]
  have := C95_each io [(tMPD.sch, exDoc), (tMPD.sch, nextDoc)] [] (by simp [ex_whole, next_whole])
  simpa using this

/-- No element. -/
example (io : FloatIO) : ∃ e, decodeAll io [tMPD.sch, tMPD.sch] [] = .error e := C95_loop io _ [] (by decide)

end Verif.Several

import Verif.WriteIO

/-!
C34 and C36: the count is what the destination has accepted, success means that everything was delivered, and strings and
streams agree.
-/
namespace Verif.WriteIO

open Verif.Xml Verif.Bind

theorem accepted_append (a b : List DCall) : accepted (a ++ b) = accepted a ++ accepted b := by
  simp [accepted, List.flatMap_append]

/-- No call failed. -/
def Clean (log : List DCall) : Prop := ∀ c ∈ log, c.err = none

/-- The calls in a list are those of the destination, from one state to another. -/
def Trace {σ : Type} (d : Dest σ) : σ → List DCall → σ → Prop
  | s, [], t => s = t
  | s, c :: l, t => (d.write s c.offered).2 = (c.n, c.err) ∧ Trace d (d.write s c.offered).1 l t

theorem trace_append {σ : Type} {d : Dest σ} (l : List DCall) : ∀ {s t : σ}, Trace d s l t → ∀ p,
    Trace d s (l ++ [⟨p, (d.write t p).2.1, (d.write t p).2.2⟩]) (d.write t p).1 := by
  induction l with
  | nil => intro s t h p; cases h; exact ⟨rfl, rfl⟩
  | cons c l ih => intro s t h p; exact ⟨h.1, ih h.2 p⟩

/-- The log is the history of the destination, and the count is the number of bytes it accepted. -/
def SinkOk {σ : Type} (d : Dest σ) (s0 : σ) (sk : Sink σ) : Prop :=
  Trace d s0 sk.log sk.st ∧ sk.n = (accepted sk.log).length

/-- The state of buffer and destination after `prod` has been produced. -/
structure Inv {σ : Type} (d : Dest σ) (s0 : σ) (prod : Bytes) (s : Buf × Sink σ) : Prop where
  n : SinkOk d s0 s.2
  good : s.1.err = none → Clean s.2.log ∧ accepted s.2.log ++ s.1.buf = prod ∧ s.1.buf.length ≤ bufSize
  bad : s.1.err ≠ none → accepted s.2.log <+: prod ∧ ∃ l c e, s.2.log = l ++ [c] ∧ Clean l ∧ c.err = some e ∧
    s.1.err = some (.dest e)

section
variable {σ : Type} {d : Dest σ} {s0 : σ}

theorem cw_spec (hd : d.Lawful) (sk : Sink σ) (p : Bytes) (hn : SinkOk d s0 sk) :
    SinkOk d s0 (cwWrite d sk p).1 ∧
      (accepted (cwWrite d sk p).1.log) = accepted sk.log ++ p.take (cwWrite d sk p).2.1 ∧
      ((cwWrite d sk p).2.2 = none → (cwWrite d sk p).2.1 = p.length ∧
        (Clean sk.log → Clean (cwWrite d sk p).1.log)) ∧
      (∀ x, (cwWrite d sk p).2.2 = some x → ∃ c e, (cwWrite d sk p).1.log = sk.log ++ [c] ∧ c.err = some e ∧ x = .dest e) := by
  have hle := hd.le sk.st p
  have hsh := hd.short sk.st p
  unfold cwWrite
  dsimp only
  refine ⟨?_, ?_, ?_, ?_⟩
  · refine ⟨trace_append _ hn.1 p, ?_⟩
    dsimp only
    rw [accepted_append, List.length_append, hn.2]
    simp [accepted, List.length_take, Nat.min_eq_left hle]
  · rw [accepted_append]
    simp [accepted]
  · intro h
    rw [Option.map_eq_none_iff] at h
    refine ⟨?_, ?_⟩
    · by_contra hc
      exact hsh (by omega) h
    · intro hcl c hc
      rcases List.mem_append.mp hc with hc | hc
      · exact hcl c hc
      · rw [List.mem_singleton] at hc
        rw [hc]; exact h
  · intro x hx
    rw [Option.map_eq_some_iff] at hx
    obtain ⟨e, he, rfl⟩ := hx
    exact ⟨_, e, rfl, he, rfl⟩

theorem flush_err {s : Buf × Sink σ} (h : s.1.err ≠ none) : flush d s = s := by
  unfold flush; rw [if_pos h]

theorem inv_flush (hd : d.Lawful) {prod : Bytes} {s : Buf × Sink σ} (h : Inv d s0 prod s) : Inv d s0 prod (flush d s) ∧
    ((flush d s).1.err = none → (flush d s).1.buf = []) := by
  unfold flush
  split
  · exact ⟨h, fun hc => absurd hc (by assumption)⟩
  · rename_i he
    simp only [ne_eq, not_not] at he
    split
    · rename_i hb
      exact ⟨h, fun _ => hb⟩
    · obtain ⟨hcl, hp, hl⟩ := h.good he
      obtain ⟨c1, c2, c3, c4⟩ := cw_spec hd s.2 s.1.buf h.n
      have hns : ¬ ((cwWrite d s.2 s.1.buf).2.1 < s.1.buf.length ∧ (cwWrite d s.2 s.1.buf).2.2 = none) := by
        rintro ⟨a, b⟩
        have := (c3 b).1
        omega
      dsimp only
      rw [if_neg hns]
      split
      · rename_i hx
        obtain ⟨x, hx'⟩ := Option.ne_none_iff_exists'.mp hx
        obtain ⟨c, e, hlog, hce, hxe⟩ := c4 x hx'
        refine ⟨⟨c1, fun hc => absurd hc hx, fun _ => ⟨?_, s.2.log, c, e, hlog, hcl, hce, by rw [hx', hxe]⟩⟩,
          fun hc => absurd hc hx⟩
        dsimp only
        rw [c2, ← hp]
        exact (List.prefix_append_right_inj _).mpr (List.take_prefix _ _)
      · rename_i hx
        simp only [ne_eq, not_not] at hx
        obtain ⟨h1, h2⟩ := c3 hx
        refine ⟨⟨c1, fun _ => ⟨h2 hcl, ?_, by simp⟩, fun hc => absurd rfl hc⟩, fun _ => rfl⟩
        dsimp only
        rw [c2, h1, List.take_length, List.append_nil, hp]

theorem inv_mono {prod : Bytes} {s : Buf × Sink σ} (h : Inv d s0 prod s) (he : s.1.err ≠ none) (p : Bytes) :
    Inv d s0 (prod ++ p) s :=
  ⟨h.n, fun hc => absurd hc he, fun _ => ⟨(h.bad he).1.trans (List.prefix_append _ _), (h.bad he).2⟩⟩

theorem inv_byte (hd : d.Lawful) {prod : Bytes} {s : Buf × Sink σ} (h : Inv d s0 prod s) (c : UInt8) :
    Inv d s0 (prod ++ [c]) (wByte d s c) := by
  unfold wByte
  split
  · rename_i he
    exact inv_mono h he _
  · rename_i he
    simp only [ne_eq, not_not] at he
    have key : ∀ t : Buf × Sink σ, Inv d s0 prod t → (t.1.err = none → t.1.buf.length < bufSize) →
        Inv d s0 (prod ++ [c]) (if t.1.err ≠ none then t else (⟨t.1.buf ++ [c], none⟩, t.2)) := by
      intro t ht hlt
      split
      · exact inv_mono ht (by assumption) _
      · rename_i hte
        simp only [ne_eq, not_not] at hte
        obtain ⟨g1, g2, g3⟩ := ht.good hte
        refine ⟨ht.n, fun _ => ⟨g1, ?_, ?_⟩, fun hc => absurd rfl hc⟩
        · dsimp only
          rw [← List.append_assoc, g2]
        · have := hlt hte
          simp only [List.length_append, List.length_cons, List.length_nil]
          omega
    dsimp only
    split
    · refine key _ (inv_flush hd h).1 (fun hh => ?_)
      rw [(inv_flush hd h).2 hh]
      decide
    · exact key _ h (fun _ => by omega)

/-- What a loop leaves. -/
def LoopOk (d : Dest σ) (s0 : σ) (prod p : Bytes) (r : (Buf × Sink σ) × Bytes) : Prop :=
  (r.1.1.err = none → ∃ q, p = q ++ r.2 ∧ Inv d s0 (prod ++ q) r.1 ∧ r.2.length ≤ bufSize - r.1.1.buf.length) ∧
    (r.1.1.err ≠ none → Inv d s0 (prod ++ p) r.1)

theorem loopOk_cut {prod a b : Bytes} {r : (Buf × Sink σ) × Bytes} (h : LoopOk d s0 (prod ++ a) b r) :
    LoopOk d s0 prod (a ++ b) r := by
  refine ⟨fun hn => ?_, fun hn => ?_⟩
  · obtain ⟨q, h1, h2, h3⟩ := h.1 hn
    exact ⟨a ++ q, by rw [h1, List.append_assoc], by rwa [← List.append_assoc], h3⟩
  · rw [← List.append_assoc]
    exact h.2 hn

theorem loop_err (direct : Bool) (f : Nat) (p : Bytes) (s : Buf × Sink σ) (h : s.1.err ≠ none) :
    wLoop d direct f p s = (s, p) := by
  cases f with
  | zero => rfl
  | succ f => unfold wLoop; rw [if_neg (fun hc => h hc.2)]

theorem inv_loop (hd : d.Lawful) (direct : Bool) : ∀ (f : Nat) (p prod : Bytes) (s : Buf × Sink σ), Inv d s0 prod s →
    p.length + (if s.1.buf.length = bufSize then 1 else 0) < f → LoopOk d s0 prod p (wLoop d direct f p s) := by
  intro f
  induction f with
  | zero => intro p prod s _ hf; omega
  | succ f ih =>
    intro p prod s hi hf
    unfold wLoop
    split
    · rename_i hc
      obtain ⟨hav, he⟩ := hc
      obtain ⟨g1, g2, g3⟩ := hi.good he
      split
      · rename_i hb
        obtain ⟨-, hb⟩ := hb
        obtain ⟨c1, c2, c3, c4⟩ := cw_spec hd s.2 p hi.n
        have hle : (cwWrite d s.2 p).2.1 ≤ p.length := hd.le _ _
        dsimp only
        rw [hb, List.append_nil] at g2
        rcases hx : (cwWrite d s.2 p).2.2 with _ | x
        · obtain ⟨h1, h2⟩ := c3 hx
          rw [h1, List.drop_length]
          have := ih [] (prod ++ p) (⟨[], none⟩, (cwWrite d s.2 p).1)
            ⟨c1, fun _ => ⟨h2 g1, by dsimp only; rw [c2, h1, List.take_length, List.append_nil, g2], by simp⟩,
              fun hc => absurd rfl hc⟩
            (by
              have hne : ¬ (([] : Bytes).length = bufSize) := by decide
              dsimp only
              rw [if_neg hne]
              have : 0 < p.length := by omega
              simp only [List.length_nil]
              omega)
          simpa using loopOk_cut this
        · obtain ⟨c, e, hlog, hce, hxe⟩ := c4 x hx
          rw [loop_err _ _ _ _ (by simp)]
          refine ⟨fun hc => by simp at hc, fun _ => ⟨c1, fun hc => by simp at hc, fun _ => ⟨?_, s.2.log, c, e, hlog, g1, hce, ?_⟩⟩⟩
          · dsimp only
            rw [c2, ← g2]
            exact (List.prefix_append_right_inj _).mpr (List.take_prefix _ _)
          · rw [hxe]
      · have hi2 : Inv d s0 (prod ++ p.take (bufSize - s.1.buf.length))
            ((⟨s.1.buf ++ p.take (bufSize - s.1.buf.length), none⟩, s.2) : Buf × Sink σ) := by
          refine ⟨hi.n, fun _ => ⟨g1, ?_, ?_⟩, fun hc => absurd rfl hc⟩
          · dsimp only
            rw [← List.append_assoc, g2]
          · simp only [List.length_append, List.length_take]
            omega
        obtain ⟨hi3, hbuf⟩ := inv_flush hd hi2
        have hcut : LoopOk d s0 (prod ++ p.take (bufSize - s.1.buf.length)) (p.drop (bufSize - s.1.buf.length))
            (wLoop d direct f (p.drop (bufSize - s.1.buf.length))
              (flush d (⟨s.1.buf ++ p.take (bufSize - s.1.buf.length), none⟩, s.2))) := by
          by_cases hfe : (flush d (⟨s.1.buf ++ p.take (bufSize - s.1.buf.length), none⟩, s.2)).1.err = none
          · refine ih _ _ _ hi3 ?_
            rw [hbuf hfe, if_neg (by decide), List.length_drop]
            split at hf <;> omega
          · rw [loop_err _ _ _ _ hfe]
            exact ⟨fun hc => absurd hc hfe, fun _ => inv_mono hi3 hfe _⟩
        have := loopOk_cut hcut
        rwa [List.take_append_drop] at this
    · rename_i hc
      by_cases he : s.1.err = none
      · refine ⟨fun _ => ⟨[], rfl, by rwa [List.append_nil], ?_⟩, fun hn => absurd he hn⟩
        dsimp only
        by_contra hlt
        exact hc ⟨by omega, he⟩
      · exact ⟨fun hn => absurd hn he, fun _ => inv_mono hi he _⟩

theorem inv_bytes (hd : d.Lawful) (direct : Bool) {prod : Bytes} {s : Buf × Sink σ} (h : Inv d s0 prod s) (p : Bytes) :
    Inv d s0 (prod ++ p) (wBytes d direct p s) := by
  have hl := inv_loop hd direct (p.length + 2) p prod s h (by split <;> omega)
  unfold wBytes
  dsimp only
  split
  · exact hl.2 (by assumption)
  · rename_i he
    simp only [ne_eq, not_not] at he
    obtain ⟨q, h1, h2, h3⟩ := hl.1 he
    obtain ⟨g1, g2, g3⟩ := h2.good he
    rw [List.take_of_length_le h3]
    refine ⟨h2.n, fun _ => ⟨g1, ?_, ?_⟩, fun hc => absurd rfl hc⟩
    · dsimp only
      rw [← List.append_assoc, g2, List.append_assoc, ← h1]
    · simp only [List.length_append]
      omega

theorem inv_op (hd : d.Lawful) {prod : Bytes} {s : Buf × Sink σ} (h : Inv d s0 prod s) (o : WOp) :
    Inv d s0 (prod ++ o.data) (bufOp d o s) := by
  cases o with
  | bytes b => exact inv_bytes hd true h b
  | string b => exact inv_bytes hd false h b
  | byte c => exact inv_byte hd h c

/-! ### Cutting strings -/

theorem wByte_err {s : Buf × Sink σ} (h : s.1.err ≠ none) (c : UInt8) : wByte d s c = s := by
  unfold wByte; rw [if_pos h]

theorem wByte_fold_err {s : Buf × Sink σ} (h : s.1.err ≠ none) (l : Bytes) : l.foldl (wByte d) s = s := by
  induction l with
  | nil => rfl
  | cons c l ih => rw [List.foldl_cons, wByte_err h, ih]

theorem wByte_fits : ∀ (l : Bytes) (b : Bytes) (sk : Sink σ), l.length ≤ bufSize - b.length →
    l.foldl (wByte d) ((⟨b, none⟩, sk) : Buf × Sink σ) = (⟨b ++ l, none⟩, sk) := by
  intro l
  induction l with
  | nil => intro b sk _; simp
  | cons c l ih =>
    intro b sk h
    simp only [List.length_cons] at h
    rw [List.foldl_cons]
    have : wByte d ((⟨b, none⟩, sk) : Buf × Sink σ) c = (⟨b ++ [c], none⟩, sk) := by
      have hlt : ¬ bufSize ≤ b.length := by omega
      unfold wByte
      simp only [ne_eq, not_true_eq_false, if_false, if_neg hlt]
    rw [this, ih _ _ (by simp only [List.length_append, List.length_cons, List.length_nil]; omega), List.append_assoc]
    rfl

theorem flush_buf {b : Bytes} {sk : Sink σ} (h : (flush d ((⟨b, none⟩, sk) : Buf × Sink σ)).1.err = none) :
    (flush d ((⟨b, none⟩, sk) : Buf × Sink σ)).1 = ⟨[], none⟩ := by
  unfold flush at h ⊢
  simp only [ne_eq, not_true_eq_false, if_false] at h ⊢
  by_cases hb : b = []
  · simp [hb]
  · simp only [if_neg hb] at h ⊢
    generalize (if (cwWrite d sk b).2.1 < List.length b ∧ (cwWrite d sk b).2.2 = none then some IOErr.shortWrite
      else (cwWrite d sk b).2.2) = x at h ⊢
    cases x <;> simp_all

theorem wByte_full {b : Bytes} {sk : Sink σ} (hb : b.length = bufSize) (c : UInt8) (l : Bytes) :
    (c :: l).foldl (wByte d) ((⟨b, none⟩, sk) : Buf × Sink σ) =
      (c :: l).foldl (wByte d) (flush d (⟨b, none⟩, sk)) := by
  rw [List.foldl_cons, List.foldl_cons]
  congr 1
  by_cases hf : (flush d ((⟨b, none⟩, sk) : Buf × Sink σ)).1.err = none
  · have h1 := flush_buf hf
    unfold wByte
    have h0 : ¬ bufSize ≤ ([] : Bytes).length := by decide
    simp only [ne_eq, not_true_eq_false, if_false, hb, le_refl, if_true, h1, if_neg h0]
  · rw [wByte_err hf]
    unfold wByte
    simp only [ne_eq, not_true_eq_false, if_false, hb, le_refl, if_true]
    rw [if_pos hf]

theorem wString_loop : ∀ (f : Nat) (p : Bytes) (s : Buf × Sink σ), s.1.buf.length ≤ bufSize →
    p.length + (if s.1.buf.length = bufSize then 1 else 0) < f →
    (if (wLoop d false f p s).1.1.err ≠ none then (wLoop d false f p s).1
      else (⟨(wLoop d false f p s).1.1.buf ++ (wLoop d false f p s).2.take (bufSize - (wLoop d false f p s).1.1.buf.length), none⟩,
        (wLoop d false f p s).1.2)) = p.foldl (wByte d) s := by
  intro f
  induction f with
  | zero => intro p s _ hf; omega
  | succ f ih =>
    intro p s hs hf
    obtain ⟨⟨b, e⟩, sk⟩ := s
    unfold wLoop
    by_cases he : e = none
    · subst he
      by_cases hlt : bufSize - b.length < p.length
      · simp only [hlt, true_and, Bool.false_eq_true, false_and, if_false, if_true]
        dsimp only at hs hf
        have e1 : p.foldl (wByte d) ((⟨b, none⟩, sk) : Buf × Sink σ) =
            (p.drop (bufSize - b.length)).foldl (wByte d) (⟨b ++ p.take (bufSize - b.length), none⟩, sk) := by
          conv_lhs => rw [← List.take_append_drop (bufSize - b.length) p]
          rw [List.foldl_append, wByte_fits _ _ _ (by rw [List.length_take]; omega)]
        have hfull : (b ++ p.take (bufSize - b.length)).length = bufSize := by
          rw [List.length_append, List.length_take]; omega
        rw [e1]
        rcases hdrop : p.drop (bufSize - b.length) with _ | ⟨c, l⟩
        · have := congrArg List.length hdrop
          rw [List.length_drop, List.length_nil] at this
          omega
        · rw [wByte_full hfull]
          have hdl : (c :: l).length = p.length - (bufSize - b.length) := by rw [← hdrop, List.length_drop]
          by_cases hfe : (flush d ((⟨b ++ p.take (bufSize - b.length), none⟩, sk) : Buf × Sink σ)).1.err = none
          · have h1 := flush_buf hfe
            refine ih _ _ (by rw [h1]; simp) ?_
            rw [h1, if_neg (by decide), hdl]
            split at hf <;> omega
          · rw [loop_err _ _ _ _ hfe, wByte_fold_err hfe, if_pos hfe]
      · rw [if_neg (show ¬ (bufSize - (((⟨b, none⟩, sk) : Buf × Sink σ).1.buf).length < p.length ∧
          (((⟨b, none⟩, sk) : Buf × Sink σ).1.err) = none) from fun h => hlt h.1)]
        rw [if_neg (by simp)]
        dsimp only
        rw [wByte_fits _ _ _ (by omega), List.take_of_length_le (by omega)]
    · have hc : ¬ (bufSize - b.length < p.length ∧ e = none) := fun h => he h.2
      simp only [if_neg hc]
      rw [if_pos he, wByte_fold_err he]

/-- `WriteString` is `WriteByte` for each byte. -/
theorem wString_bytes (p : Bytes) (s : Buf × Sink σ) (hs : s.1.buf.length ≤ bufSize) :
    wBytes d false p s = p.foldl (wByte d) s :=
  wString_loop (p.length + 2) p s hs (by split <;> omega)

theorem wByte_length {s : Buf × Sink σ} (hs : s.1.buf.length ≤ bufSize) (c : UInt8) :
    (wByte d s c).1.buf.length ≤ bufSize := by
  obtain ⟨⟨b, e⟩, sk⟩ := s
  unfold wByte
  split
  · exact hs
  · rename_i he
    simp only [ne_eq, not_not] at he
    dsimp only at he hs ⊢
    subst he
    by_cases hb : bufSize ≤ b.length
    · rw [if_pos hb]
      by_cases hf : (flush d ((⟨b, none⟩, sk) : Buf × Sink σ)).1.err = none
      · rw [if_neg (by simpa using hf), flush_buf hf]
        show ([c] : Bytes).length ≤ bufSize
        exact Nat.le_of_ble_eq_true rfl
      · rw [if_pos hf]
        unfold flush at hf ⊢
        simp only [ne_eq, not_true_eq_false, if_false] at hf ⊢
        by_cases hn : b = []
        · simp [hn]
        · simp only [if_neg hn] at hf ⊢
          generalize (if (cwWrite d sk b).2.1 < List.length b ∧ (cwWrite d sk b).2.2 = none then some IOErr.shortWrite
            else (cwWrite d sk b).2.2) = x at hf ⊢
          cases x
          · simp at hf
          · simp only [reduceCtorEq, not_false_eq_true, if_true, List.length_drop]; omega
    · rw [if_neg hb]
      simp
      omega

theorem wByte_fold_length (p : Bytes) : ∀ {s : Buf × Sink σ}, s.1.buf.length ≤ bufSize →
    (p.foldl (wByte d) s).1.buf.length ≤ bufSize := by
  induction p with
  | nil => intro s h; exact h
  | cons c p ih => intro s h; exact ih (wByte_length h c)

/-- Cutting a string that is written in two makes no difference, for any destination. -/
theorem wString_append (a b : Bytes) (s : Buf × Sink σ) (hs : s.1.buf.length ≤ bufSize) :
    wBytes d false (a ++ b) s = wBytes d false b (wBytes d false a s) := by
  rw [wString_bytes _ _ hs, wString_bytes a s hs, wString_bytes _ _ (wByte_fold_length a hs), List.foldl_append]

/-! ### The printer -/

/-- The printer, its buffer and the destination after `prod` has been produced. -/
structure PInv (d : Dest σ) (s0 : σ) (prod : Bytes) (s : Enc × Sink σ) : Prop where
  closed : s.1.closed = false
  err : s.1.err = s.1.w.err
  inv : Inv d s0 prod (s.1.w, s.2)

theorem pinv_op (hd : d.Lawful) {prod : Bytes} {s : Enc × Sink σ} (h : PInv d s0 prod s) (o : WOp) :
    PInv d s0 (prod ++ o.data) (prOp d s o) ∧ (prOp d s o).1.pr = s.1.pr := by
  unfold prOp
  have hc : ¬ (s.1.closed = true ∧ s.1.err = none) := by rw [h.closed]; simp
  simp only [if_neg hc]
  split
  · exact ⟨⟨h.closed, rfl, inv_op hd h.inv o⟩, rfl⟩
  · rename_i he
    exact ⟨⟨h.closed, h.err, inv_mono h.inv (by rw [← h.err]; exact he) _⟩, rfl⟩

theorem pinv_ops (hd : d.Lawful) (l : List WOp) : ∀ {prod : Bytes} {s : Enc × Sink σ}, PInv d s0 prod s →
    PInv d s0 (prod ++ opsData l) (prOps d s l) ∧ (prOps d s l).1.pr = s.1.pr := by
  induction l with
  | nil => intro prod s h; exact ⟨by simpa [opsData, prOps] using h, rfl⟩
  | cons o l ih =>
    intro prod s h
    obtain ⟨h1, h2⟩ := pinv_op hd h o
    obtain ⟨h3, h4⟩ := ih h1
    have : prOps d s (o :: l) = prOps d (prOp d s o) l := rfl
    rw [this]
    refine ⟨?_, by rw [h4, h2]⟩
    have e : opsData (o :: l) = o.data ++ opsData l := rfl
    rw [e, ← List.append_assoc]
    exact h3

/-! ### What is written for a piece of output -/

theorem opsData_append (a b : List WOp) : opsData (a ++ b) = opsData a ++ opsData b := by
  simp [opsData, List.flatMap_append]

theorem escOps_data (mk : Bytes → WOp) (hmk : ∀ b, (mk b).data = b) (f : Nat × Bytes → Option Bytes)
    (l : List (Nat × Bytes)) : ∀ pend, opsData (escOps mk f l pend) = pend ++ l.flatMap fun p => (f p).getD p.2 := by
  induction l with
  | nil => intro pend; simp [escOps, opsData, hmk]
  | cons p l ih =>
    intro pend
    unfold escOps
    rcases hf : f p with _ | e
    · rw [ih]
      simp [hf]
    · have : opsData (mk pend :: .bytes e :: escOps mk f l []) = pend ++ (e ++ opsData (escOps mk f l [])) := by
        simp only [opsData, List.flatMap_cons, hmk]; rfl
      dsimp only
      rw [this, ih]
      simp [hf]

theorem textEsc_eq (nl : Bool) (p : Nat × Bytes) : (textEsc nl p).getD p.2 = escTextRune nl p := by
  unfold textEsc escTextRune escDefault
  by_cases h1 : p.1 = 34
  · simp [h1]
  by_cases h2 : p.1 = 39
  · simp [h2]
  by_cases h3 : p.1 = 38
  · simp [h3]
  by_cases h4 : p.1 = 60
  · simp [h4]
  by_cases h5 : p.1 = 62
  · simp [h5]
  by_cases h6 : p.1 = 13
  · simp [h6]
  by_cases h7 : p.1 = 10
  · cases nl <;> simp [h7]
  simp only [h1, h2, h3, h4, h5, h6, h7, false_or, if_false]
  split <;> rfl

theorem stringEsc_eq (p : Nat × Bytes) : (stringEsc p).getD p.2 = escStringRune p := by
  unfold stringEsc escStringRune escDefault
  by_cases h1 : p.1 = 34
  · simp [h1]
  by_cases h2 : p.1 = 39
  · simp [h2]
  by_cases h3 : p.1 = 38
  · simp [h3]
  by_cases h4 : p.1 = 60
  · simp [h4]
  by_cases h5 : p.1 = 62
  · simp [h5]
  by_cases h6 : p.1 = 13
  · simp [h6]
  by_cases h7 : p.1 = 10
  · simp [h7]
  by_cases h8 : p.1 = 9
  · simp [h8]
  simp only [h1, h2, h3, h4, h5, h6, h7, h8, false_or, if_false]
  split <;> rfl

theorem escString_data (b : Bytes) : opsData (escOps .string stringEsc (Utf8.runes b) []) = escapeString b := by
  rw [escOps_data _ (fun _ => rfl)]
  simp [escapeString, stringEsc_eq]

theorem escText_data (b : Bytes) : opsData (escOps .bytes (textEsc false) (Utf8.runes b) []) = escapeText false b := by
  rw [escOps_data _ (fun _ => rfl)]
  simp [escapeText, textEsc_eq]

theorem attrOps_data (a : TagAttr) : opsData (attrOps a) = attrBytes a := by
  unfold attrOps attrBytes
  rw [opsData_append, opsData_append, escString_data]
  simp [opsData, WOp.data]

theorem outOps_data (o : Out) : opsData (outOps o) = o.bytes := by
  cases o with
  | start q attrs =>
    unfold outOps Out.bytes
    rw [opsData_append, opsData_append]
    have : opsData (attrs.flatMap attrOps) = attrs.flatMap attrBytes := by
      induction attrs with
      | nil => rfl
      | cons a l ih => rw [List.flatMap_cons, List.flatMap_cons, opsData_append, ih, attrOps_data]
    rw [this]
    simp [opsData, WOp.data]
  | stop q => simp [outOps, Out.bytes, opsData, WOp.data]
  | text b => exact escText_data b
  | str b => exact escString_data b
  | raw b => simp [outOps, Out.bytes, opsData, WOp.data]
  | inner b => simp [outOps, Out.bytes, opsData, WOp.data]

theorem outsOps_data (l : List Out) : opsData (l.flatMap outOps) = outBytes l := by
  induction l with
  | nil => rfl
  | cons o l ih => rw [List.flatMap_cons, opsData_append, ih, outOps_data]; rfl

/-! ### What a sequence of calls produces -/

/-- One call, without a destination. -/
def pureCall (p : Printer) : Call → Printer × Bytes × Option Stop
  | .start n attrs =>
    match writeStart p n attrs with
    | .error e => (p, [], some (.err (.enc e)))
    | .ok (p, o) => (p, outBytes o, none)
  | .stop n =>
    match writeEnd p n with
    | .error e => (p, [], some (.err (.enc e)))
    | .ok (p, o) => (p, outBytes o, none)
  | .text b => (p, escapeText false b, none)
  | .str b => (p, escapeString b, none)
  | .raw b => (p, b, none)
  | .check => (p, [], none)
  | .fail e => (p, [], some (failStop e))

/-- A sequence of calls, without a destination. -/
def pureRun (p : Printer) : List Call → Printer × Bytes × Option Stop
  | [] => (p, [], none)
  | c :: l =>
    match pureCall p c with
    | (p1, b, some e) => (p1, b, some e)
    | (p1, b, none) => ((pureRun p1 l).1, b ++ (pureRun p1 l).2.1, (pureRun p1 l).2.2)

/-- A call does what it does without a destination, or is ended by the destination's error. -/
theorem exec_spec (hd : d.Lawful) {prod : Bytes} {s : Enc × Sink σ} (h : PInv d s0 prod s) (c : Call) :
    PInv d s0 (prod ++ (pureCall s.1.pr c).2.1) (exec d s c).1 ∧ (exec d s c).1.1.pr = (pureCall s.1.pr c).1 ∧
      ((exec d s c).2 = (pureCall s.1.pr c).2.2 ∨
        ∃ e, (exec d s c).1.1.err = some e ∧ (exec d s c).2 = some (.err e)) := by
  have hpr : ∀ p : Printer, PInv d s0 prod (({ s.1 with pr := p }, s.2) : Enc × Sink σ) := fun p => ⟨h.closed, h.err, h.inv⟩
  cases c with
  | start n attrs =>
    rcases hw : writeStart s.1.pr n attrs with e | ⟨p, o⟩
    · simp only [exec, pureCall, hw]
      exact ⟨by simpa using h, trivial, Or.inl trivial⟩
    · simp only [exec, pureCall, hw]
      obtain ⟨h1, h2⟩ := pinv_ops hd (o.flatMap outOps) (hpr p)
      rw [outsOps_data] at h1
      exact ⟨h1, h2, Or.inl trivial⟩
  | stop n =>
    rcases hw : writeEnd s.1.pr n with e | ⟨p, o⟩
    · simp only [exec, pureCall, hw]
      exact ⟨by simpa using h, trivial, Or.inl trivial⟩
    · simp only [exec, pureCall, hw]
      obtain ⟨h1, h2⟩ := pinv_ops hd (o.flatMap outOps) (hpr p)
      rw [outsOps_data] at h1
      exact ⟨h1, h2, Or.inl trivial⟩
  | text b =>
    simp only [exec, pureCall]
    obtain ⟨h1, h2⟩ := pinv_ops hd (outOps (.text b)) h
    rw [outOps_data] at h1
    refine ⟨h1, h2, ?_⟩
    rcases (prOps d s (outOps (.text b))).1.err with _ | e
    · exact Or.inl rfl
    · exact Or.inr ⟨e, rfl, rfl⟩
  | str b =>
    obtain ⟨h1, h2⟩ := pinv_ops hd (outOps (.str b)) h
    rw [outOps_data] at h1
    exact ⟨h1, h2, Or.inl rfl⟩
  | raw b =>
    obtain ⟨h1, h2⟩ := pinv_ops hd (outOps (.inner b)) h
    rw [outOps_data] at h1
    exact ⟨h1, h2, Or.inl rfl⟩
  | check =>
    simp only [exec, pureCall]
    obtain ⟨h1, h2⟩ := pinv_op hd h (.bytes [])
    refine ⟨h1, h2, ?_⟩
    rcases (prOp d s (.bytes [])).1.err with _ | e
    · exact Or.inl rfl
    · exact Or.inr ⟨e, rfl, rfl⟩
  | fail e => exact ⟨by simpa [pureCall, exec] using h, rfl, Or.inl rfl⟩

theorem pinv_mono {prod : Bytes} {s : Enc × Sink σ} (h : PInv d s0 prod s) (he : s.1.err ≠ none) (p : Bytes) :
    PInv d s0 (prod ++ p) s :=
  ⟨h.closed, h.err, inv_mono h.inv (by rw [← h.err]; exact he) _⟩

/-- A sequence of calls does what it does without a destination, or is ended by the destination's error. -/
theorem run_spec (hd : d.Lawful) (l : List Call) : ∀ {prod : Bytes} {s : Enc × Sink σ}, PInv d s0 prod s →
    PInv d s0 (prod ++ (pureRun s.1.pr l).2.1) (run d s l).1 ∧
      ((run d s l).2 = (pureRun s.1.pr l).2.2 ∨
        ∃ e, (run d s l).1.1.err = some e ∧ (run d s l).2 = some (.err e)) := by
  induction l with
  | nil => intro prod s h; exact ⟨by simpa [pureRun, run] using h, Or.inl rfl⟩
  | cons c l ih =>
    intro prod s h
    obtain ⟨h1, h2, h3⟩ := exec_spec hd h c
    unfold run pureRun
    rcases hp : pureCall s.1.pr c with ⟨p1, b, x⟩
    rcases he : exec d s c with ⟨s1, y⟩
    rw [hp, he] at h1 h2 h3
    dsimp only at h1 h2 h3
    rcases h3 with h3 | ⟨e, h3, h4⟩
    · subst h3
      rcases y with _ | y
      · dsimp only
        have := ih h1
        rw [h2] at this
        rwa [List.append_assoc] at this
      · exact ⟨h1, Or.inl rfl⟩
    · subst h4
      rcases x with _ | x
      · refine ⟨?_, Or.inr ⟨e, h3, rfl⟩⟩
        dsimp only
        rw [← List.append_assoc]
        exact pinv_mono h1 (by rw [h3]; simp) _
      · exact ⟨h1, Or.inr ⟨e, h3, rfl⟩⟩

end

end Verif.WriteIO

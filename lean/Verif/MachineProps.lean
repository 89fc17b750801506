import Verif.MachineSim
import Verif.KRfl

/-!
C64: positions.  The decoder as a machine returns the tokens of `Verif.XmlToken`; `InputOffset` and `InputPos` are the
position of the end of the last token; the line in a syntax error is the line the decoder has come to, and what follows that
line has no influence on the error.  C65: what is kept for `,innerxml` is the input between two tokens.
-/
namespace Verif.Machine

open Verif.Xml Verif.Utf8

/-! ### Specification -/

/-- The line, from 1, in which a text ends. -/
def lineOf (c : Bytes) : Int := 1 + (c.count ch%'\n' : Nat)

/-- The column, from 1, at which a text ends: one more than the number of bytes after its last line feed. -/
def colOf (c : Bytes) : Int := 1 + ((c.reverse.takeWhile (· != ch%'\n')).length : Nat)

/-- Calls of `Token` on the machine, at most `k`, until one fails: the tokens, the error and the machine after that. -/
def reads (n : Nat) : Nat → M → List Token × Option MErr × M
  | 0, m => ([], none, m)
  | k + 1, m =>
    match m.token n with
    | (.error e, m') => ([], some e, m')
    | (.ok t, m') => (t :: (reads n k m').1, (reads n k m').2)

/-- The same with the functions of `Verif.XmlToken`. -/
def tokens : Nat → Dec → List Token × Except XErr Dec
  | 0, d => ([], .ok d)
  | k + 1, d =>
    match token d with
    | .error e => ([], .error e)
    | .ok (t, d') => (t :: (tokens k d').1, (tokens k d').2)

/-! ### One token -/

/-- The machine that has read `c`. -/
def mk (c : Bytes) (d : Dec) (md : Mode) (sv : Option Bytes) : M := ⟨st c d.raw.rest md sv, d.raw.toClose, d.ns, d.stk⟩

theorem new_mk (doc : Bytes) : M.new doc = mk [] (Dec.new doc) .fresh none := by
  unfold M.new mk
  rw [new_st]
  rfl

theorem errAt_eof {l : Int} {e : XErr} : errAt l e = .eof ↔ e = .eof := by
  cases e <;> simp [errAt]

theorem token_sim (n : Nat) (c : Bytes) (d : Dec) (md : Mode) (sv : Option Bytes) (hn : d.raw.rest.length < n)
    (hc : Calm md d.raw.rest) :
    match token d with
    | .ok (t, d') => ∃ m md', d.raw.rest = m ++ d'.raw.rest ∧ Calm md' d'.raw.rest ∧
        (mk c d md sv).token n = (.ok t, mk (c ++ m) d' md' (sv.map (· ++ m)))
    | .error e => ∃ m r md' m', d.raw.rest = m ++ r ∧
        (mk c d md sv).token n = (.error (errAt (1 + lf (c ++ m)) e), m') ∧ m'.d = st (c ++ m) r md' (sv.map (· ++ m)) := by
  have h := sim_rawToken n d.raw.toClose md c d.raw.rest hn hc sv
  unfold token M.token
  simp only [mk]
  cases hr : rawToken d.raw with
  | error e =>
    have hr' : rawToken ⟨d.raw.rest, d.raw.toClose⟩ = .error e := hr
    rw [hr'] at h
    obtain ⟨m, r, md', h1, h2⟩ := h
    rw [h2]
    refine ⟨m, r, md', ⟨st (c ++ m) r md' (sv.map (· ++ m)), d.raw.toClose, d.ns, d.stk⟩, h1, ?_, rfl⟩
    dsimp only
    rw [st_line, Prod.mk.injEq]
    refine ⟨?_, rfl⟩
    by_cases h3 : e = .eof ∧ d.stk ≠ []
    · rw [if_pos h3]; exact congrArg _ (if_pos ⟨errAt_eof.2 h3.1, h3.2⟩)
    · rw [if_neg h3]; exact congrArg _ (if_neg fun h4 => h3 ⟨errAt_eof.1 h4.1, h4.2⟩)
  | ok q =>
    obtain ⟨t, raw⟩ := q
    have hr' : rawToken ⟨d.raw.rest, d.raw.toClose⟩ = .ok (t, raw) := hr
    rw [hr'] at h
    obtain ⟨m, md', h1, h2, h3⟩ := h
    rw [h3]
    dsimp only
    cases hk : cook t d.ns d.stk with
    | error e =>
      refine ⟨m, raw.rest, md', ⟨st (c ++ m) raw.rest md' (sv.map (· ++ m)), raw.toClose, d.ns, d.stk⟩, h1, ?_, rfl⟩
      dsimp only
      rw [st_line]
    | ok q2 =>
      obtain ⟨t', ns', stk'⟩ := q2
      exact ⟨m, md', h1, h2, rfl⟩

/-! ### Many tokens -/

theorem reads_sim (n k : Nat) (c : Bytes) (d : Dec) (md : Mode) (sv : Option Bytes) (hn : d.raw.rest.length < n)
    (hc : Calm md d.raw.rest) :
    match tokens k d with
    | (ts, .ok d') => ∃ m md', d.raw.rest = m ++ d'.raw.rest ∧ Calm md' d'.raw.rest ∧
        reads n k (mk c d md sv) = (ts, none, mk (c ++ m) d' md' (sv.map (· ++ m)))
    | (ts, .error e) => ∃ m r md' m', d.raw.rest = m ++ r ∧
        reads n k (mk c d md sv) = (ts, some (errAt (1 + lf (c ++ m)) e), m') ∧
        m'.d = st (c ++ m) r md' (sv.map (· ++ m)) := by
  induction k generalizing c d md sv with
  | zero => exact ⟨[], md, rfl, hc, by rw [map_nil, List.append_nil]; rfl⟩
  | succ k ih =>
    have h := token_sim n c d md sv hn hc
    rw [tokens, reads]
    cases ht : token d with
    | error e =>
      rw [ht] at h
      obtain ⟨m, r, md', m', h1, h2, h3⟩ := h
      rw [h2]
      exact ⟨m, r, md', m', h1, rfl, h3⟩
    | ok q =>
      obtain ⟨t, d1⟩ := q
      rw [ht] at h
      obtain ⟨m, md', h1, h2, h3⟩ := h
      rw [h3]
      dsimp only
      have h4 := ih (c ++ m) d1 md' (sv.map (· ++ m)) (by rw [h1, List.length_append] at hn; omega) h2
      cases hk : tokens k d1 with
      | mk ts res =>
        rw [hk] at h4
        cases res with
        | ok d2 =>
          obtain ⟨m2, md2, h5, h6, h7⟩ := h4
          refine ⟨m ++ m2, md2, by rw [h1, h5, List.append_assoc], h6, ?_⟩
          rw [h7, map_map, List.append_assoc]
        | error e =>
          obtain ⟨m2, r2, md2, m2', h5, h7, h8⟩ := h4
          refine ⟨m ++ m2, r2, md2, m2', by rw [h1, h5, List.append_assoc], ?_, ?_⟩
          · rw [h7, List.append_assoc]
          · rw [h8, map_map, List.append_assoc]

/-! ### Positions -/

theorem lineStart_le (c : Bytes) : (c.reverse.takeWhile (· != ch%'\n')).length ≤ c.length := by
  have := (List.takeWhile_sublist (l := c.reverse) (· != ch%'\n')).length_le
  rwa [List.length_reverse] at this

theorem st_pos (c s : Bytes) (md : Mode) (sv : Option Bytes) (h : Calm md s) :
    (st c s md sv).inputPos = (lineOf c, colOf c) := by
  have e : (c.length : Int) - (lineStart c : Int) + 1 = colOf c := by
    unfold lineStart colOf
    have := lineStart_le c
    omega
  have key : (st c s md sv).linestart = lineStart c := by
    unfold st
    cases s with
    | nil => rfl
    | cons b r =>
      dsimp only
      split
      · next hm =>
        have : b ≠ ch%'\n' := fun hb => h hm (by rw [hb]; rfl)
        dsimp only
        rw [lineStart_snoc, if_neg this]
      · rfl
  unfold D.inputPos
  rw [st_line, st_offset, key, e]
  rfl

/-- C64: calls of `Token` return the tokens of `Verif.XmlToken`; after them `InputOffset` is the number of bytes they are made
of, and `InputPos` the line and column where the next one begins. -/
theorem C64_positions (n k : Nat) (doc : Bytes) (ts : List Token) (d' : Dec) (hn : doc.length < n)
    (h : tokens k (Dec.new doc) = (ts, .ok d')) :
    ∃ m' off, reads n k (M.new doc) = (ts, none, m') ∧ off ≤ doc.length ∧ d'.raw.rest = doc.drop off ∧
      m'.d.inputOffset = (off : Nat) ∧ m'.d.inputPos = (lineOf (doc.take off), colOf (doc.take off)) := by
  have hs := reads_sim n k [] (Dec.new doc) .fresh none hn (calm_fresh _)
  rw [h] at hs
  obtain ⟨m, md, h1, h2, h3⟩ := hs
  have h1' : doc = m ++ d'.raw.rest := h1
  refine ⟨_, m.length, by rw [new_mk]; exact h3, ?_, ?_, ?_, ?_⟩
  · rw [h1', List.length_append]; omega
  · conv => rhs; rw [h1', List.drop_left]
  · exact st_offset _ _ _ _
  · rw [show doc.take m.length = m by conv => lhs; rw [h1', List.take_left]]
    exact st_pos _ _ _ _ h2

/-- C64: an error is that of `Verif.XmlToken`; a syntax error has the line at which the decoder is, after the bytes it has
read. -/
theorem C64_line (n k : Nat) (doc : Bytes) (ts : List Token) (e : XErr) (hn : doc.length < n)
    (h : tokens k (Dec.new doc) = (ts, .error e)) :
    ∃ m' off, reads n k (M.new doc) = (ts, some (errAt (lineOf (doc.take off)) e), m') ∧ off ≤ doc.length ∧
      m'.d.inputOffset = (off : Nat) := by
  have hs := reads_sim n k [] (Dec.new doc) .fresh none hn (calm_fresh _)
  rw [h] at hs
  obtain ⟨m, r, md, m', h1, h3, h4⟩ := hs
  have h1' : doc = m ++ r := h1
  refine ⟨m', m.length, ?_, ?_, ?_⟩
  · rw [show doc.take m.length = m by conv => lhs; rw [h1', List.take_left], new_mk, h3]
    rfl
  · rw [h1', List.length_append]; omega
  · rw [h4]; exact st_offset _ _ _ _

theorem lineOf_take_le (doc : Bytes) (off : Nat) : 1 ≤ lineOf (doc.take off) ∧ lineOf (doc.take off) ≤ lineOf doc := by
  unfold lineOf
  have := (List.take_sublist off doc).count_le ch%'\n'
  omega

/-- C64: the line in a syntax error is a line of the document. -/
theorem C64_line_range (n k : Nat) (doc : Bytes) (ts : List Token) (msg : String) (N : Int) (m' : M) (hn : doc.length < n)
    (h : reads n k (M.new doc) = (ts, some (.syntaxError msg N), m')) : 1 ≤ N ∧ N ≤ lineOf doc := by
  cases ht : tokens k (Dec.new doc) with
  | mk ts' res =>
    cases res with
    | ok d' =>
      obtain ⟨m1, off, h1, _⟩ := C64_positions n k doc ts' d' hn ht
      rw [h] at h1
      simp at h1
    | error e =>
      obtain ⟨m1, off, h1, _⟩ := C64_line n k doc ts' e hn ht
      rw [h] at h1
      simp only [Prod.mk.injEq, Option.some.injEq] at h1
      cases e with
      | eof => simp [errAt] at h1
      | other s => simp [errAt] at h1
      | syntaxError s =>
        simp only [errAt, MErr.syntaxError.injEq] at h1
        rw [h1.2.1.2]
        exact lineOf_take_le doc off

/-! ### What comes after the line of an error -/

theorem getc_eof (d : D) (h : d.eof = true) : d.getc = (none, d) := by
  unfold D.getc
  rw [if_pos h]

theorem run_eof {α : Type} (p : Prog α) (d : D) (h : d.eof = true) : (p.run d).2.eof = true := by
  induction p generalizing d with
  | ret a => exact h
  | getc k ih => rw [Prog.run, getc_eof d h]; exact ih _ _ h
  | ungetc b k ih => exact ih _ h
  | fail e => exact h

theorem count_inp (d : D) (b : UInt8) : (d.count b).inp = d.inp := by
  unfold D.count; split <;> rfl

theorem run_length {α : Type} (p : Prog α) (d : D) : (p.run d).2.inp.length ≤ d.inp.length := by
  induction p generalizing d with
  | ret a => exact Nat.le_refl _
  | getc k ih =>
    rw [Prog.run]
    refine Nat.le_trans (ih _ _) ?_
    unfold D.getc
    split
    · exact Nat.le_refl _
    · split
      · rw [count_inp]; exact Nat.le_refl _
      · split
        · simp
        · next hi => rw [count_inp, hi]; simp
  | ungetc b k ih => exact ih _
  | fail e => exact Nat.le_refl _

/-- The state with another input to come. -/
def D.with (d : D) (s : Bytes) : D := { d with inp := s }

theorem count_with (d : D) (b : UInt8) (s : Bytes) : (d.with s).count b = (d.count b).with s := by
  unfold D.count D.with; split <;> rfl

/-- A piece of the decoder that has not read beyond `a` does the same whatever comes after. -/
theorem run_local {α : Type} (p : Prog α) (d : D) (a b b' : Bytes) (h : d.inp = a ++ b)
    (he : (p.run d).2.eof = false) (hl : b.length ≤ (p.run d).2.inp.length) :
    ∃ a', (p.run d).2.inp = a' ++ b ∧ p.run (d.with (a ++ b')) = ((p.run d).1, (p.run d).2.with (a' ++ b')) := by
  induction p generalizing d a with
  | ret x => exact ⟨a, h, rfl⟩
  | getc k ih =>
    rw [Prog.run] at he hl ⊢
    have h0 : d.eof = false := by
      cases hd : d.eof with
      | false => rfl
      | true =>
        rw [getc_eof d hd] at he
        rw [run_eof _ _ hd] at he
        cases he
    rw [Prog.run]
    cases hn : d.nextByte with
    | some x =>
      have e1 : d.getc = (some x, { d with nextByte := none }.count x) := by
        unfold D.getc; rw [h0, hn]; rfl
      have e2 : (d.with (a ++ b')).getc = (some x, ({ d with nextByte := none }.count x).with (a ++ b')) := by
        rw [← count_with]
        cases d
        dsimp only at h0 hn h
        subst h0 hn
        rfl
      rw [e1] at he hl ⊢
      rw [e2]
      exact ih _ _ a (by rw [count_inp]; exact h) he hl
    | none =>
      cases a with
      | nil =>
        exfalso
        cases hb : b with
        | nil =>
          have e1 : d.getc = (none, { d with eof := true }) := by
            unfold D.getc; rw [h0, hn, h, hb]; rfl
          rw [e1, run_eof _ _ rfl] at he
          cases he
        | cons x r =>
          have e1 : d.getc = (some x, { d with inp := r, saved := d.saved.map (· ++ [x]) }.count x) := by
            unfold D.getc; rw [h0, hn, h, hb]; rfl
          rw [e1] at hl
          have := run_length (k (some x)) ({ d with inp := r, saved := d.saved.map (· ++ [x]) }.count x)
          rw [count_inp] at this
          rw [hb] at hl
          simp only [List.length_cons] at hl
          have h2 : ({ d with inp := r, saved := d.saved.map (· ++ [x]) } : D).inp.length = r.length := rfl
          omega
      | cons x a =>
        have e1 : d.getc = (some x, { d with inp := a ++ b, saved := d.saved.map (· ++ [x]) }.count x) := by
          unfold D.getc; rw [h0, hn, h]; rfl
        have e2 : (d.with (x :: a ++ b')).getc =
            (some x, ({ d with inp := a ++ b, saved := d.saved.map (· ++ [x]) }.count x).with (a ++ b')) := by
          rw [← count_with]
          cases d
          dsimp only at h0 hn h
          subst h0 hn
          rfl
        rw [e1] at he hl ⊢
        rw [e2]
        exact ih _ _ a (by rw [count_inp]) he hl
  | ungetc x k ih =>
    rw [Prog.run] at he hl ⊢
    rw [Prog.run]
    exact ih _ a h he hl
  | fail e => exact ⟨a, h, rfl⟩

/-- The machine with another input to come. -/
def M.with (m : M) (s : Bytes) : M := { m with d := m.d.with s }

theorem token_d (n : Nat) (m : M) : (m.token n).2.d = ((rawTokenP n m.toClose).run m.d).2 := by
  unfold M.token
  split
  · next h => rw [h]
  · next h =>
    rw [h]
    split <;> rfl

theorem token_local (n : Nat) (m : M) (a b b' : Bytes) (h : m.d.inp = a ++ b) (he : (m.token n).2.d.eof = false)
    (hl : b.length ≤ (m.token n).2.d.inp.length) :
    ∃ a', (m.token n).2.d.inp = a' ++ b ∧ (m.with (a ++ b')).token n = ((m.token n).1, (m.token n).2.with (a' ++ b')) := by
  rw [token_d] at he hl ⊢
  obtain ⟨a', h1, h2⟩ := run_local _ _ a b b' h he hl
  refine ⟨a', h1, ?_⟩
  have h3 : (m.with (a ++ b')).token n = match ((rawTokenP n m.toClose).run m.d).1 with
      | .error e => (.error (if e = .eof ∧ m.stk ≠ [] then errAt ((rawTokenP n m.toClose).run m.d).2.line unexpectedEOF else e),
          { m with d := ((rawTokenP n m.toClose).run m.d).2.with (a' ++ b') })
      | .ok (t, c) =>
        match cook t m.ns m.stk with
        | .error e => (.error (errAt ((rawTokenP n m.toClose).run m.d).2.line e),
            { m with d := ((rawTokenP n m.toClose).run m.d).2.with (a' ++ b'), toClose := c })
        | .ok (t', ns, stk) => (.ok t', ⟨((rawTokenP n m.toClose).run m.d).2.with (a' ++ b'), c, ns, stk⟩) := by
    unfold M.token
    rw [show (m.with (a ++ b')).toClose = m.toClose from rfl, show (m.with (a ++ b')).d = m.d.with (a ++ b') from rfl, h2]
    cases ((rawTokenP n m.toClose).run m.d).1 <;> rfl
  rw [h3]
  unfold M.token
  cases hr : (rawTokenP n m.toClose).run m.d with
  | mk res d =>
    cases res with
    | error e => rfl
    | ok q =>
      obtain ⟨t, c⟩ := q
      dsimp only
      cases cook t m.ns m.stk with
      | error e => rfl
      | ok q2 => rfl

theorem token_eof (n : Nat) (m : M) (h : m.d.eof = true) : (m.token n).2.d.eof = true := by
  rw [token_d]; exact run_eof _ _ h

theorem token_length (n : Nat) (m : M) : (m.token n).2.d.inp.length ≤ m.d.inp.length := by
  rw [token_d]; exact run_length _ _

theorem reads_succ_snd (n k : Nat) (m : M) : (reads n (k + 1) m).2.2 =
    match m.token n with
    | (.error _, m') => m'
    | (.ok _, m') => (reads n k m').2.2 := by
  rw [reads]
  cases m.token n with
  | mk res m' => cases res <;> rfl

theorem reads_eof (n k : Nat) (m : M) (h : m.d.eof = true) : (reads n k m).2.2.d.eof = true := by
  induction k generalizing m with
  | zero => exact h
  | succ k ih =>
    rw [reads_succ_snd]
    have := token_eof n m h
    split
    · next hm => rw [hm] at this; exact this
    · next hm => rw [hm] at this; exact ih _ this

theorem reads_length (n k : Nat) (m : M) : (reads n k m).2.2.d.inp.length ≤ m.d.inp.length := by
  induction k generalizing m with
  | zero => exact Nat.le_refl _
  | succ k ih =>
    rw [reads_succ_snd]
    have := token_length n m
    split
    · next hm => rw [hm] at this; exact this
    · next hm => rw [hm] at this; exact Nat.le_trans (ih _) this

theorem reads_local (n k : Nat) (m : M) (a b b' : Bytes) (h : m.d.inp = a ++ b) (he : (reads n k m).2.2.d.eof = false)
    (hl : b.length ≤ (reads n k m).2.2.d.inp.length) :
    ∃ a', (reads n k m).2.2.d.inp = a' ++ b ∧
      reads n k (m.with (a ++ b')) = ((reads n k m).1, (reads n k m).2.1, (reads n k m).2.2.with (a' ++ b')) := by
  induction k generalizing m a with
  | zero => exact ⟨a, h, rfl⟩
  | succ k ih =>
    have hlen := reads_length n k (m.token n).2
    have he1 : (m.token n).2.d.eof = false := by
      cases hd : (m.token n).2.d.eof with
      | false => rfl
      | true =>
        rw [reads_succ_snd] at he
        have h2 := reads_eof n k _ hd
        split at he
        · next hm => rw [hm] at hd; rw [hd] at he; cases he
        · next hm => rw [hm] at h2; rw [h2] at he; cases he
    have hl1 : b.length ≤ (m.token n).2.d.inp.length := by
      rw [reads_succ_snd] at hl
      split at hl
      · next hm => rw [hm]; exact hl
      · next hm => rw [hm] at hlen ⊢; exact Nat.le_trans hl hlen
    obtain ⟨a1, h1, h2⟩ := token_local n m a b b' h he1 hl1
    rw [reads, reads] at *
    rw [h2]
    cases ht : m.token n with
    | mk res m1 =>
      rw [ht] at h1 h2
      cases res with
      | error e => exact ⟨a1, h1, rfl⟩
      | ok t =>
        rw [ht] at he hl
        obtain ⟨a2, h3, h4⟩ := ih m1 a1 h1 he hl
        refine ⟨a2, h3, ?_⟩
        dsimp only
        rw [h4]

/-- C64: nothing after the line given in a syntax error has an influence on it: a document with the same lines up to that one
has the same error, after the same tokens. -/
theorem C64_local (n k : Nat) (a b b' : Bytes) (ts : List Token) (msg : String) (N : Int) (m' : M)
    (hn : (a ++ b).length < n) (ha : N ≤ a.count ch%'\n')
    (h : reads n k (M.new (a ++ b)) = (ts, some (.syntaxError msg N), m')) :
    ∃ m2, reads n k (M.new (a ++ b')) = (ts, some (.syntaxError msg N), m2) := by
  cases ht : tokens k (Dec.new (a ++ b)) with
  | mk ts' res =>
    cases res with
    | ok d' =>
      obtain ⟨m1, off, h1, _⟩ := C64_positions n k _ ts' d' hn ht
      rw [h] at h1
      simp at h1
    | error e =>
      have hs := reads_sim n k [] (Dec.new (a ++ b)) .fresh none hn (calm_fresh _)
      rw [ht] at hs
      obtain ⟨m, r, md, m1, h1, h3, h4⟩ := hs
      rw [← new_mk, h] at h3
      simp only [Prod.mk.injEq, Option.some.injEq] at h3
      obtain ⟨-, h5, rfl⟩ := h3
      have hN : N = 1 + lf m := by
        cases e with
        | eof => simp [errAt] at h5
        | other s => simp [errAt] at h5
        | syntaxError s =>
          simp only [errAt, MErr.syntaxError.injEq] at h5
          exact h5.2
      have hdoc : a ++ b = m ++ r := h1
      have hlt : lf m < lf a := by
        have : lf a = a.count ch%'\n' := rfl
        omega
      -- the bytes read, and the one put back, are in `a`
      have key : m'.d.eof = false ∧ b.length ≤ m'.d.inp.length := by
        rw [h4]
        have hpre : m.length < a.length := by
          rcases Nat.lt_or_ge m.length a.length with h6 | h6
          · exact h6
          · exfalso
            obtain ⟨x, hx⟩ : a <+: m := List.prefix_of_prefix_length_le ⟨b, rfl⟩ ⟨r, hdoc.symm⟩ h6
            rw [← hx, lf_append] at hlt
            omega
        have hlen : a.length + b.length = m.length + r.length := by
          rw [← List.length_append, hdoc, List.length_append]
        unfold st
        cases r with
        | nil => simp at hlen; omega
        | cons x r =>
          simp only [List.length_cons] at hlen
          dsimp only
          split
          · exact ⟨rfl, by dsimp only; omega⟩
          · exact ⟨rfl, by simp only [List.length_cons]; omega⟩
      have hl := reads_local n k (M.new (a ++ b)) a b b' rfl (by rw [h]; exact key.1) (by rw [h]; exact key.2)
      obtain ⟨a', _, h7⟩ := hl
      rw [h] at h7
      exact ⟨_, h7⟩

/-- The end tag on the third line does not match: the error is on line 3, whatever follows. -/
example : (reads 100 9 (M.new (b!"<a>\n<b>\n</c>\n</a>"))).2.1 = some (.syntaxError "element closed by another" 3) := by
  krfl

/-- After `<a>`, a line feed and `<b/>`, the decoder is at offset 8, line 2, column 5. -/
example : (reads 100 3 (M.new (b!"<a>\n<b/></a>"))).2.2.d.inputOffset = 8 ∧
    (reads 100 3 (M.new (b!"<a>\n<b/></a>"))).2.2.d.inputPos = (2, 5) := by
  constructor <;> krfl

/-- The lines of a document. -/
def linesOf (doc : Bytes) : List Bytes := doc.splitOn ch%'\n'

/-- C64, first form: the line given for an illegal character is the line it is in. -/
def C64_char_statement : Prop := ∀ (n k : Nat) (doc : Bytes) (ts : List Token) (N : Nat) (m' : M), doc.length < n →
  reads n k (M.new doc) = (ts, some (.syntaxError "illegal character code" N), m') →
  ∃ l, (linesOf doc)[N - 1]? = some l ∧ ∃ p ∈ runes l, inCharRange p.1 = false

/-- False: the characters of a text are checked when the whole text has been read, so the line given is the one where the text
ends.  Here the character U+0001 is on line 1, and the error on line 3. -/
theorem C64_char_refuted : ¬ C64_char_statement := by
  intro h
  have := h 100 9 [60, 97, 62, 1, 10, 10, 60, 47, 97, 62] [.startElement ⟨[], b!"a"⟩ []] 3
    (reads 100 9 (M.new [60, 97, 62, 1, 10, 10, 60, 47, 97, 62])).2.2 (by decide) (by krfl)
  revert this
  decide +kernel

/-! ### C65: saved input -/

/-- `Unmarshal` begins to keep the input of an element with a field `,innerxml` (`/repo/xml/read.go` 524-529), unless it
already does so for an outer element. -/
def M.save (m : M) : M := { m with d := { m.d with saved := some (m.d.saved.getD []) } }

/-- `d.saved.Bytes()[from:to]` (`/repo/xml/read.go` 572). -/
def M.slice (m : M) (i j : Int) : Bytes := ((m.d.saved.getD []).take j.toNat).drop i.toNat

theorem rawToken_start {s : Bytes} {tc : Option Name} {nm : Name} {as : List Attr} {raw : Raw}
    (h : rawToken ⟨s, tc⟩ = .ok (.startElement nm as, raw)) :
    ∃ b r, tc = none ∧ s = ch%'<' :: b :: r ∧ b ≠ ch%'/' ∧ b ≠ ch%'?' ∧ b ≠ ch%'!' ∧
      startTag (b :: r) = .ok (.startElement nm as, raw) := by
  unfold rawToken at h
  cases tc with
  | some x => simp at h
  | none =>
    dsimp only at h
    cases s with
    | nil => simp at h
    | cons x s =>
      dsimp only at h
      split at h
      · split at h <;> simp at h
      · next hx =>
        cases s with
        | nil => simp at h
        | cons b r =>
          dsimp only at h
          split at h
          · unfold endTag at h
            repeat' split at h
            all_goals simp at h
          split at h
          · unfold piTag at h
            repeat' split at h
            all_goals simp at h
          split at h
          · unfold bangTag at h
            repeat' split at h
            all_goals simp at h
          · next h1 h2 h3 => exact ⟨b, r, rfl, by rw [Decidable.not_not.1 hx], h1, h2, h3, h⟩

theorem sim_rawToken_start (n : Nat) (tc : Option Name) (md : Mode) (c s : Bytes) (hn : s.length < n) {nm : Name}
    {as : List Attr} {raw : Raw} (h : rawToken ⟨s, tc⟩ = .ok (.startElement nm as, raw)) :
    Sim (rawTokenP n tc) md c s (.ok ((.startElement nm as, raw.toClose), raw.rest)) Fresh := by
  obtain ⟨b, r, rfl, rfl, h1, h2, h3, h4⟩ := rawToken_start h
  refine .get ?_
  dsimp only
  rw [if_neg (by simp)]
  refine .must_peek (by rw [if_neg h1, if_neg h2, if_neg h3]) ?_
  have := sim_startTag n .pending (c ++ [ch%'<']) (b :: r) (by simp at hn ⊢; omega)
  rw [h4] at this
  exact this

theorem cook_start {t : Token} {ns : NsMap} {stk : List Stk} {nm : Name} {as : List Attr} {x : NsMap × List Stk}
    (h : cook t ns stk = .ok (.startElement nm as, x)) : ∃ nm' as', t = .startElement nm' as' := by
  unfold cook at h
  split at h
  · exact ⟨_, _, rfl⟩
  · split at h <;> simp at h
  · next h1 h2 =>
    simp only [Except.ok.injEq, Prod.mk.injEq] at h
    exact absurd h.1 (h1 _ _)

theorem tokens_snoc (k : Nat) (d d' : Dec) (ts : List Token) (t : Token) (h : tokens k d = (ts ++ [t], .ok d')) :
    ∃ j d1, k = j + 1 ∧ tokens j d = (ts, .ok d1) ∧ token d1 = .ok (t, d') := by
  induction k generalizing d ts with
  | zero => simp [tokens] at h
  | succ k ih =>
    rw [tokens] at h
    cases ht : token d with
    | error e => rw [ht] at h; simp at h
    | ok q =>
      obtain ⟨t1, d2⟩ := q
      rw [ht] at h
      simp only [Prod.mk.injEq] at h
      cases ts with
      | nil =>
        simp only [List.nil_append, List.cons.injEq] at h
        obtain ⟨⟨rfl, h1⟩, h2⟩ := h
        cases k with
        | zero =>
          simp only [tokens, Except.ok.injEq] at h2
          subst h2
          exact ⟨0, d, rfl, rfl, ht⟩
        | succ k =>
          exfalso
          rw [tokens] at h1 h2
          split at h1
          · next he => rw [he] at h2; simp at h2
          · simp at h1
      | cons t0 ts =>
        simp only [List.cons_append, List.cons.injEq] at h
        obtain ⟨⟨rfl, h1⟩, h2⟩ := h
        obtain ⟨j, d1, rfl, h3, h4⟩ := ih d2 ts (by rw [← h1, ← h2])
        exact ⟨j + 1, d1, rfl, by rw [tokens, ht]; simp only [h3], h4⟩

theorem reads_add (n j k : Nat) (m m1 : M) (ts : List Token) (h : reads n j m = (ts, none, m1)) :
    reads n (j + k) m = (ts ++ (reads n k m1).1, (reads n k m1).2) := by
  induction j generalizing m ts with
  | zero =>
    simp only [reads, Prod.mk.injEq, true_and] at h
    obtain ⟨rfl, rfl⟩ := h
    rw [Nat.zero_add]
    rfl
  | succ j ih =>
    rw [reads] at h
    rw [Nat.add_right_comm, reads]
    cases ht : m.token n with
    | mk res m2 =>
      rw [ht] at h
      cases res with
      | error e => simp at h
      | ok t =>
        simp only [Prod.mk.injEq] at h
        obtain ⟨h1, h2⟩ := h
        subst h1
        have := ih m2 (reads n j m2).1 (by rw [← h2])
        dsimp only
        rw [this]
        rfl

/-- After a start element nothing has been put back. -/
theorem reads_start (n k : Nat) (doc : Bytes) (ts : List Token) (nm : Name) (as : List Attr) (d' : Dec) (hn : doc.length < n)
    (h : tokens k (Dec.new doc) = (ts ++ [.startElement nm as], .ok d')) :
    ∃ c, doc = c ++ d'.raw.rest ∧
      reads n k (M.new doc) = (ts ++ [.startElement nm as], none, mk c d' .fresh none) := by
  obtain ⟨j, d1, rfl, h1, h2⟩ := tokens_snoc _ _ _ _ _ h
  have hs := reads_sim n j [] (Dec.new doc) .fresh none hn (calm_fresh _)
  rw [h1] at hs
  obtain ⟨c, md, h3, h4, h5⟩ := hs
  rw [List.nil_append, Option.map_none] at h5
  have h3' : doc = c ++ d1.raw.rest := h3
  rw [new_mk, reads_add n j 1 _ _ _ h5]
  have hn1 : d1.raw.rest.length < n := by rw [h3', List.length_append] at hn; omega
  unfold token at h2
  cases hr : rawToken d1.raw with
  | error e => rw [hr] at h2; simp at h2
  | ok q =>
    obtain ⟨t, raw⟩ := q
    rw [hr] at h2
    dsimp only at h2
    cases hk : cook t d1.ns d1.stk with
    | error e => rw [hk] at h2; simp at h2
    | ok q2 =>
      obtain ⟨t', x⟩ := q2
      rw [hk] at h2
      simp only [Except.ok.injEq, Prod.mk.injEq] at h2
      obtain ⟨rfl, h2⟩ := h2
      obtain ⟨nm', as', rfl⟩ := cook_start hk
      have hr' : rawToken ⟨d1.raw.rest, d1.raw.toClose⟩ = .ok (.startElement nm' as', raw) := hr
      obtain ⟨m, md', h6, h7, h8⟩ := sim_rawToken_start n d1.raw.toClose md c d1.raw.rest hn1 hr' none
      cases h7
      refine ⟨c ++ m, ?_, ?_⟩
      · rw [← h2, List.append_assoc, ← h6]; exact h3'
      · have : (mk c d1 md none).token n = (.ok (.startElement nm as), mk (c ++ m) d' .fresh none) := by
          unfold M.token
          simp only [mk]
          rw [h8]
          dsimp only
          rw [hk, ← h2]
          rfl
        simp only [reads]
        rw [this]

theorem save_mk (c : Bytes) (d : Dec) : (mk c d .fresh none).save = mk c d .fresh (some []) := by
  unfold M.save mk
  simp only [st_fresh]
  rfl

theorem st_saved (c s : Bytes) (md : Mode) (v : Bytes) : ∃ p, (st c s md (some v)).saved = some (v ++ p) ∧
    (st c s md (some v)).savedOffset = (v.length : Nat) := by
  unfold st D.savedOffset
  cases s with
  | nil => exact ⟨[], by simp⟩
  | cons b r =>
    dsimp only
    split
    · exact ⟨[b], by simp⟩
    · exact ⟨[], by simp⟩

/-- C65: after a start element the decoder begins to keep its input; `i` tokens later it is at one place, `k` tokens after that
at another.  The bytes kept between the two values of `savedOffset` are the input between the two places: none is lost,
counted twice or taken from a token put back. -/
theorem C65_saved (n j i k : Nat) (doc : Bytes) (ts ts1 ts2 : List Token) (nm : Name) (as : List Attr) (d d1 d2 : Dec)
    (hn : doc.length < n) (h : tokens j (Dec.new doc) = (ts ++ [.startElement nm as], .ok d))
    (h1 : tokens i d = (ts1, .ok d1)) (h2 : tokens k d1 = (ts2, .ok d2)) :
    ∃ m m1 m2, reads n j (M.new doc) = (ts ++ [.startElement nm as], none, m) ∧ reads n i m.save = (ts1, none, m1) ∧
      reads n k m1 = (ts2, none, m2) ∧ d1.raw.rest = m2.slice m1.d.savedOffset m2.d.savedOffset ++ d2.raw.rest ∧
      (i = 0 → m1.d.savedOffset = 0) := by
  obtain ⟨c, hc, h3⟩ := reads_start n j doc ts nm as d hn h
  have hn0 : d.raw.rest.length < n := by rw [hc, List.length_append] at hn; omega
  have s1 := reads_sim n i c d .fresh (some []) hn0 (calm_fresh _)
  rw [h1] at s1
  obtain ⟨p1, md1, e1, c1, r1⟩ := s1
  have hn1 : d1.raw.rest.length < n := by rw [e1, List.length_append] at hn0; omega
  have s2 := reads_sim n k (c ++ p1) d1 md1 (some p1) hn1 c1
  rw [h2] at s2
  obtain ⟨p2, md2, e2, c2, r2⟩ := s2
  refine ⟨_, _, _, h3, by rw [save_mk]; exact r1, r2, ?_, ?_⟩
  · obtain ⟨x1, a1, b1⟩ := st_saved (c ++ p1) d1.raw.rest md1 p1
    obtain ⟨x2, a2, b2⟩ := st_saved (c ++ p1 ++ p2) d2.raw.rest md2 (p1 ++ p2)
    unfold M.slice mk
    simp only [Option.map_some]
    rw [b1, b2, a2]
    simp only [Option.getD_some, Int.toNat_natCast]
    rw [List.take_left, List.drop_left]
    exact e2
  · intro hi
    subst hi
    simp only [tokens, Prod.mk.injEq, Except.ok.injEq] at h1
    have : p1 = [] := by
      rw [h1.2] at e1
      exact List.append_left_eq_self.1 e1.symm
    subst this
    obtain ⟨x1, a1, b1⟩ := st_saved (c ++ []) d1.raw.rest md1 []
    exact b1

/-- `<x>a&gt;<b/>c</x>`: what is kept from the start tag of `x` to its end tag. -/
example : let m := (reads 100 1 (M.new (b!"<x>a&gt;<b/>c</x>"))).2.2.save
    let m2 := (reads 100 4 m).2.2
    m2.slice m.d.savedOffset m2.d.savedOffset = (b!"a&gt;<b/>c") := by
  decide +kernel

end Verif.Machine

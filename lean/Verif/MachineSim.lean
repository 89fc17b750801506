import Verif.Machine
import Verif.Local

/-!
The machine of `Verif.Machine` does what the functions of `Verif.XmlText` and `Verif.XmlToken` say, and keeps count of
lines, offsets and saved input.
-/
namespace Verif.Machine

open Verif.Xml Verif.Utf8

/-- The number of line feeds. -/
def lf (c : Bytes) : Nat := c.count ch%'\n'

/-- The number of bytes up to the last line feed: where the line begins in which a text ends. -/
def lineStart (c : Bytes) : Nat := c.length - (c.reverse.takeWhile (· != ch%'\n')).length

theorem lf_append (a b : Bytes) : lf (a ++ b) = lf a + lf b := List.count_append

theorem lf_snoc (c : Bytes) (b : UInt8) : lf (c ++ [b]) = if b = ch%'\n' then lf c + 1 else lf c := by
  unfold lf
  rw [List.count_append, List.count_singleton]
  by_cases h : b = ch%'\n'
  · simp [h]
  · simp [h]

theorem lineStart_snoc (c : Bytes) (b : UInt8) :
    lineStart (c ++ [b]) = if b = ch%'\n' then c.length + 1 else lineStart c := by
  unfold lineStart
  rw [List.reverse_append, List.length_append]
  by_cases h : b = ch%'\n'
  · simp [h]
  · have : (b != ch%'\n') = true := by simpa using h
    simp [h, this]

/-- Whether a byte has been put back, or the end of the input was met. -/
inductive Mode where
  | fresh
  | pending
  | eof
  deriving DecidableEq

/-- The state in which `c` has been read and `s` is to come. -/
def st (c s : Bytes) (md : Mode) (sv : Option Bytes) : D :=
  match s with
  | b :: r =>
    if md = .pending then ⟨r, some b, 1 + lf c, lineStart (c ++ [b]), c.length, sv.map (· ++ [b]), false⟩
    else ⟨b :: r, none, 1 + lf c, lineStart c, c.length, sv, false⟩
  | [] => ⟨[], none, 1 + lf c, lineStart c, c.length, sv, decide (md = .eof)⟩

theorem st_line (c s : Bytes) (md : Mode) (sv : Option Bytes) : (st c s md sv).line = 1 + lf c := by
  unfold st
  cases s with
  | nil => rfl
  | cons b r => dsimp only; split <;> rfl

theorem st_offset (c s : Bytes) (md : Mode) (sv : Option Bytes) : (st c s md sv).offset = c.length := by
  unfold st
  cases s with
  | nil => rfl
  | cons b r => dsimp only; split <;> rfl

theorem st_fresh (c s : Bytes) (sv : Option Bytes) :
    st c s .fresh sv = ⟨s, none, 1 + lf c, lineStart c, c.length, sv, false⟩ := by
  unfold st
  cases s <;> simp

theorem new_st (doc : Bytes) : D.new doc = st [] doc .fresh none := by rw [st_fresh]; rfl

theorem count_st (c r : Bytes) (b : UInt8) (ls : Int) (sv : Option Bytes) (h : ls = lineStart c ∨ ls = lineStart (c ++ [b])) :
    (⟨r, none, 1 + lf c, ls, c.length, sv, false⟩ : D).count b = st (c ++ [b]) r .fresh sv := by
  rw [st_fresh, lf_snoc, lineStart_snoc]
  unfold D.count
  rw [lineStart_snoc] at h
  by_cases hb : b = ch%'\n'
  · simp [hb, Int.add_assoc]
  · simp only [hb, if_false] at h ⊢
    have : ls = lineStart c := h.elim id id
    simp [this]

theorem getc_cons (c r : Bytes) (b : UInt8) (md : Mode) (sv : Option Bytes) :
    (st c (b :: r) md sv).getc = (some b, st (c ++ [b]) r .fresh (sv.map (· ++ [b]))) := by
  by_cases h : md = .pending
  · subst h
    simp only [st, if_true, D.getc, Bool.false_eq_true, if_false]
    rw [count_st _ _ _ _ _ (.inr rfl)]
    rfl
  · simp only [st, if_neg h, D.getc, Bool.false_eq_true, if_false]
    rw [count_st _ _ _ _ _ (.inl rfl)]
    rfl

theorem getc_nil (c : Bytes) (md : Mode) (sv : Option Bytes) :
    (st c [] md sv).getc = (none, st c [] .eof sv) := by
  by_cases h : md = .eof
  · subst h; rfl
  · simp [st, D.getc, h]

theorem ungetc_st (c r : Bytes) (b : UInt8) (sv : Option Bytes) :
    (st (c ++ [b]) r .fresh (sv.map (· ++ [b]))).ungetc b = st c (b :: r) .pending sv := by
  rw [st_fresh]
  simp only [st, if_true, D.ungetc, lf_snoc]
  by_cases hb : b = ch%'\n'
  · simp [hb, ← Int.add_assoc]
  · simp [hb]

/-- What is expected of a run from `c`, `s` when the functions say `res`. -/
def Good {α : Type} (c s : Bytes) (sv : Option Bytes) (post : Mode → Bytes → Prop) (res : Except XErr (α × Bytes))
    (out : Except MErr α × D) : Prop :=
  match res with
  | .ok (x, r) => ∃ m md, s = m ++ r ∧ post md r ∧ out = (.ok x, st (c ++ m) r md (sv.map (· ++ m)))
  | .error e => ∃ m r md, s = m ++ r ∧
      out = (.error (errAt (1 + lf (c ++ m)) e), st (c ++ m) r md (sv.map (· ++ m)))

/-- The program does what the functions say (`res`). -/
def Sim {α : Type} (p : Prog α) (md : Mode) (c s : Bytes) (res : Except XErr (α × Bytes)) (post : Mode → Bytes → Prop) :
    Prop :=
  ∀ sv, Good c s sv post res (p.run (st c s md sv))

/-- No condition on how a byte was left. -/
def Any : Mode → Bytes → Prop := fun _ _ => True

/-- A byte that was put back is not a line feed. -/
def Calm : Mode → Bytes → Prop := fun md r => md = .pending → r.head? ≠ some ch%'\n'

theorem map_nil (sv : Option Bytes) : sv.map (· ++ []) = sv := by cases sv <;> simp

theorem map_map (sv : Option Bytes) (a b : Bytes) : (sv.map (· ++ a)).map (· ++ b) = sv.map (· ++ (a ++ b)) := by
  cases sv <;> simp

section
variable {α β : Type} {md : Mode} {c s : Bytes} {post : Mode → Bytes → Prop}

theorem Sim.ret (x : α) (h : post md s) : Sim (.ret x) md c s (.ok (x, s)) post := by
  intro sv
  exact ⟨[], md, rfl, h, by rw [map_nil, List.append_nil]; rfl⟩

theorem Sim.fail (e : XErr) : Sim (.fail e : Prog α) md c s (.error e) post := by
  intro sv
  exact ⟨[], s, md, rfl, by rw [map_nil, List.append_nil, Prog.run, st_line]⟩

theorem good_shift {b : UInt8} {r : Bytes} {sv : Option Bytes} {res : Except XErr (α × Bytes)} {out : Except MErr α × D}
    (h : Good (c ++ [b]) r (sv.map (· ++ [b])) post res out) : Good c (b :: r) sv post res out := by
  have e : ∀ m, c ++ [b] ++ m = c ++ b :: m := by simp
  cases res with
  | ok p =>
    obtain ⟨x, r'⟩ := p
    obtain ⟨m, md', h1, h2, h3⟩ := h
    refine ⟨b :: m, md', by rw [h1]; rfl, h2, ?_⟩
    rw [h3, map_map, e]
    rfl
  | error er =>
    obtain ⟨m, r', md', h1, h3⟩ := h
    refine ⟨b :: m, r', md', by rw [h1]; rfl, ?_⟩
    rw [h3, map_map, e]
    rfl

theorem Sim.get {k : Option UInt8 → Prog α} {b : UInt8} {r : Bytes} {res : Except XErr (α × Bytes)}
    (h : Sim (k (some b)) .fresh (c ++ [b]) r res post) : Sim (.getc k) md c (b :: r) res post := by
  intro sv
  rw [Prog.run, getc_cons]
  exact good_shift (h _)

theorem Sim.end {k : Option UInt8 → Prog α} {res : Except XErr (α × Bytes)}
    (h : Sim (k none) .eof c [] res post) : Sim (.getc k) md c [] res post := by
  intro sv
  rw [Prog.run, getc_nil]
  exact h _

theorem Sim.peek {k : Option UInt8 → Prog α} {k' : Prog α} {b : UInt8} {r : Bytes} {res : Except XErr (α × Bytes)}
    (hk : k (some b) = .ungetc b k') (h : Sim k' .pending c (b :: r) res post) : Sim (.getc k) md c (b :: r) res post := by
  intro sv
  rw [Prog.run, getc_cons]
  dsimp only
  rw [hk, Prog.run, ungetc_st]
  exact h _

theorem Sim.must {k : UInt8 → Prog α} {b : UInt8} {r : Bytes} {res : Except XErr (α × Bytes)}
    (h : Sim (k b) .fresh (c ++ [b]) r res post) : Sim (must k) md c (b :: r) res post := .get h

theorem Sim.must_nil {k : UInt8 → Prog α} : Sim (Machine.must k) md c [] (.error unexpectedEOF) post := .end (.fail _)

theorem Sim.must_peek {k : UInt8 → Prog α} {k' : Prog α} {b : UInt8} {r : Bytes} {res : Except XErr (α × Bytes)}
    (hk : k b = .ungetc b k') (h : Sim k' .pending c (b :: r) res post) : Sim (Machine.must k) md c (b :: r) res post :=
  .peek hk h

theorem run_bind (p : Prog α) (k : α → Prog β) (d : D) :
    (p.bind k).run d = match p.run d with
      | (.ok x, d') => (k x).run d'
      | (.error e, d') => (.error e, d') := by
  induction p generalizing d with
  | ret a => rfl
  | getc f ih => exact ih _ _
  | ungetc b f ih => exact ih _
  | fail e => rfl

theorem Sim.bind_ok {p : Prog α} {k : α → Prog β} {x : α} {r : Bytes} {pre : Mode → Bytes → Prop}
    {res : Except XErr (β × Bytes)} (h : Sim p md c s (.ok (x, r)) pre)
    (h2 : ∀ m md', s = m ++ r → pre md' r → Sim (k x) md' (c ++ m) r res post) : Sim (p.bind k) md c s res post := by
  intro sv
  obtain ⟨m, md', h3, hp, h4⟩ := h sv
  rw [run_bind, h4]
  dsimp only
  have h5 := h2 m md' h3 hp (sv.map (· ++ m))
  cases res with
  | ok q =>
    obtain ⟨y, r'⟩ := q
    obtain ⟨m', md'', h6, h7, h8⟩ := h5
    refine ⟨m ++ m', md'', by rw [h3, h6, List.append_assoc], h7, ?_⟩
    rw [h8, map_map, List.append_assoc]
  | error e =>
    obtain ⟨m', r', md'', h6, h8⟩ := h5
    refine ⟨m ++ m', r', md'', by rw [h3, h6, List.append_assoc], ?_⟩
    rw [h8, map_map, List.append_assoc]

theorem Sim.bind_err {p : Prog α} {k : α → Prog β} {e : XErr} {pre : Mode → Bytes → Prop}
    (h : Sim p md c s (.error e) pre) : Sim (p.bind k) md c s (.error e) post := by
  intro sv
  obtain ⟨m, r, md', h3, h4⟩ := h sv
  rw [run_bind, h4]
  exact ⟨m, r, md', h3, rfl⟩

end

/-! ### Names and white space -/

theorem sim_space (n : Nat) (md : Mode) (c s : Bytes) (hn : s.length < n) :
    Sim (spaceP n) md c s (.ok ((), skipSpace s)) Any := by
  induction s generalizing n md c with
  | nil =>
    obtain ⟨n, rfl⟩ : ∃ k, n = k + 1 := ⟨n - 1, by simp at hn; omega⟩
    exact .end (.ret _ trivial)
  | cons b r ih =>
    obtain ⟨n, rfl⟩ : ∃ k, n = k + 1 := ⟨n - 1, by simp at hn; omega⟩
    unfold skipSpace
    rw [List.dropWhile_cons]
    by_cases h : isSpace b = true
    · rw [if_pos h]
      refine .get ?_
      dsimp only
      rw [if_pos h]
      exact ih n _ _ (by simpa using hn)
    · rw [if_neg h]
      exact .peek (by dsimp only; rw [if_neg h]) (.ret _ trivial)

theorem skipSpace_length (s : Bytes) : (skipSpace s).length ≤ s.length :=
  (List.dropWhile_sublist _).length_le

theorem sim_nameLoop (n : Nat) (buf : Bytes) (md : Mode) (c s : Bytes) (hn : s.length < n) :
    Sim (nameLoopP n buf) md c s (match s.dropWhile nameOrHigh with
      | [] => .error unexpectedEOF
      | r => .ok (buf ++ s.takeWhile nameOrHigh, r)) Any := by
  induction s generalizing n md c buf with
  | nil =>
    obtain ⟨n, rfl⟩ : ∃ k, n = k + 1 := ⟨n - 1, by simp at hn; omega⟩
    exact .must_nil
  | cons b r ih =>
    obtain ⟨n, rfl⟩ : ∃ k, n = k + 1 := ⟨n - 1, by simp at hn; omega⟩
    rw [List.dropWhile_cons, List.takeWhile_cons]
    by_cases h : nameOrHigh b = true
    · rw [if_pos h, if_pos h]
      refine .must ?_
      rw [if_pos h]
      have := ih n (buf ++ [b]) .fresh (c ++ [b]) (by simpa using hn)
      rw [List.append_assoc] at this
      exact this
    · rw [if_neg h, if_neg h, List.append_nil]
      exact .must_peek (by rw [if_neg h]) (.ret _ trivial)

/-- `readName` as the machine returns it. -/
def readNameR (s : Bytes) : Except XErr (Option Bytes × Bytes) :=
  match readName s with
  | .error e => .error e
  | .ok (nm, r) => .ok (if nm = [] then none else some nm, r)

theorem sim_readName (n : Nat) (md : Mode) (c s : Bytes) (hn : s.length < n) :
    Sim (readNameP n) md c s (readNameR s) Any := by
  unfold readNameR readName
  cases s with
  | nil => exact .must_nil
  | cons b r =>
    rw [List.dropWhile_cons, List.takeWhile_cons]
    by_cases h : nameOrHigh b = true
    · rw [if_pos h, if_pos h]
      refine .must ?_
      rw [if_pos h]
      have := sim_nameLoop n [b] .fresh (c ++ [b]) r (by simp at hn; omega)
      cases hd : r.dropWhile nameOrHigh with
      | nil => rw [hd] at this; exact .bind_err this
      | cons x y =>
        rw [hd] at this
        exact .bind_ok this fun m md' _ _ => .ret _ trivial
    · rw [if_neg h, if_neg h]
      exact .must_peek (k' := .ret none) (by rw [if_neg h]) (.ret _ trivial)

theorem readName_rest {s nm r : Bytes} (h : readName s = .ok (nm, r)) : r.length ≤ s.length ∧ r ≠ [] := by
  unfold readName at h
  split at h
  · cases h
  · next hne =>
    injection h with h
    injection h with h1 h2
    subst h2
    exact ⟨(List.dropWhile_sublist _).length_le, fun h => hne h⟩

/-- `name` as the machine returns it. -/
def nameR (s : Bytes) : Except XErr (Option Bytes × Bytes) :=
  match readName s with
  | .error e => .error e
  | .ok ([], r) => .ok (none, r)
  | .ok (nm, r) => if isName nm then .ok (some nm, r) else .error (.syntaxError "invalid XML name: ")

theorem sim_name (n : Nat) (md : Mode) (c s : Bytes) (hn : s.length < n) : Sim (nameP n) md c s (nameR s) Any := by
  have h := sim_readName n md c s hn
  unfold readNameR at h
  unfold nameR
  cases hr : readName s with
  | error e => rw [hr] at h; exact .bind_err h
  | ok p =>
    obtain ⟨nm, r⟩ := p
    rw [hr] at h
    cases nm with
    | nil => exact .bind_ok h fun m md' _ _ => .ret _ trivial
    | cons x y =>
      refine .bind_ok h fun m md' _ _ => ?_
      rw [if_neg (by simp)]
      dsimp only
      by_cases hi : isName (x :: y) = true
      · rw [if_pos hi, if_pos hi]; exact .ret _ trivial
      · rw [if_neg hi, if_neg hi]; exact .fail _

theorem nameR_eq (s : Bytes) : readXmlName s = match nameR s with
    | .error e => .error e
    | .ok (none, _) => .ok none
    | .ok (some nm, r) => .ok (some (nm, r)) := by
  unfold readXmlName nameR
  cases hr : readName s with
  | error e => rfl
  | ok p =>
    obtain ⟨nm, r⟩ := p
    cases nm with
    | nil => rfl
    | cons x y =>
      dsimp only
      by_cases hi : isName (x :: y) = true
      · rw [if_pos hi, if_pos hi]
      · rw [if_neg hi, if_neg hi]

theorem sim_nsname (n : Nat) (md : Mode) (c s : Bytes) (hn : s.length < n) :
    match nsname s with
    | .error e => Sim (nsnameP n) md c s (.error e) Any
    | .ok none => ∃ r, Sim (nsnameP n) md c s (.ok (none, r)) Any
    | .ok (some (nm, r)) => Sim (nsnameP n) md c s (.ok (some nm, r)) Any ∧ r.length ≤ s.length := by
  have h := sim_name n md c s hn
  unfold nsname
  rw [nameR_eq]
  cases hr : nameR s with
  | error e => rw [hr] at h; exact .bind_err h
  | ok p =>
    obtain ⟨o, r⟩ := p
    rw [hr] at h
    cases o with
    | none => exact ⟨r, .bind_ok h fun m md' _ _ => .ret _ trivial⟩
    | some nm =>
      dsimp only
      cases hs : splitName nm with
      | none => exact ⟨r, .bind_ok h fun m md' _ _ => by dsimp only; rw [hs]; exact .ret _ trivial⟩
      | some x =>
        refine ⟨.bind_ok h fun m md' _ _ => by dsimp only; rw [hs]; exact .ret _ trivial, ?_⟩
        obtain ⟨m, _, hm, _⟩ := h none
        rw [hm, List.length_append]
        omega

/-! ### References and text -/

/-- `numRef` with the digits read so far. -/
def numRefR (hex : Bool) (buf s : Bytes) : Except XErr (Bytes × Bytes) :=
  match s.dropWhile (isRefDigit hex) with
  | [] => .error unexpectedEOF
  | b :: r =>
    if b ≠ ch%';' then .error badEntity
    else if buf ++ s.takeWhile (isRefDigit hex) ≠ [] ∧ refVal hex (buf ++ s.takeWhile (isRefDigit hex)) ≤ 0x10FFFF then
      .ok (encodeRune (refVal hex (buf ++ s.takeWhile (isRefDigit hex))), r)
    else .error badEntity

theorem sim_num (hex : Bool) (n : Nat) (buf : Bytes) (md : Mode) (c s : Bytes) (hn : s.length ≤ n) :
    Sim (must (numRefP hex n buf)) md c s (numRefR hex buf s) Any := by
  induction s generalizing n buf md c with
  | nil => exact .must_nil
  | cons b r ih =>
    obtain ⟨n, rfl⟩ : ∃ k, n = k + 1 := ⟨n - 1, by simp at hn; omega⟩
    unfold numRefR
    rw [List.dropWhile_cons, List.takeWhile_cons]
    by_cases h : isRefDigit hex b = true
    · rw [if_pos h, if_pos h]
      refine .must ?_
      rw [numRefP, if_pos h]
      have := ih n (buf ++ [b]) .fresh (c ++ [b]) (by simpa using hn)
      unfold numRefR at this
      rw [List.append_assoc] at this
      exact this
    · rw [if_neg h, if_neg h, List.append_nil]
      dsimp only
      by_cases hb : b ≠ ch%';'
      · rw [if_pos hb]
        exact .must_peek (by rw [numRefP, if_neg h, if_pos hb]) (.fail _)
      · rw [if_neg hb]
        refine .must ?_
        rw [numRefP, if_neg h, if_neg hb]
        split
        · exact .ret _ trivial
        · exact .fail _

theorem Sim.must_congr {α : Type} {k k' : UInt8 → Prog α} {b : UInt8} {md : Mode} {c r : Bytes}
    {res : Except XErr (α × Bytes)} {post : Mode → Bytes → Prop} (hk : k b = k' b)
    (h : Sim (Machine.must k') md c (b :: r) res post) : Sim (Machine.must k) md c (b :: r) res post := by
  intro sv
  have := h sv
  unfold Machine.must at this ⊢
  rw [Prog.run, getc_cons] at this ⊢
  dsimp only at this ⊢
  rw [hk]
  exact this

theorem numRefR_nil (hex : Bool) (s : Bytes) : numRefR hex [] s = numRef hex s := by
  unfold numRefR numRef
  rfl

theorem sim_nameRef (n : Nat) (md : Mode) (c s : Bytes) (hn : s.length < n) :
    Sim (nameRefP n) md c s (nameRef s) Any := by
  have h := sim_readName n md c s hn
  unfold readNameR at h
  unfold nameRef
  cases hr : readName s with
  | error e => rw [hr] at h; exact .bind_err h
  | ok p =>
    obtain ⟨nm, r⟩ := p
    rw [hr] at h
    dsimp only at h
    refine .bind_ok h fun m md' _ _ => ?_
    have e : (if nm = [] then none else some nm).getD [] = nm := by
      by_cases hnm : nm = [] <;> simp [hnm]
    cases r with
    | nil => exact .must_nil
    | cons b r =>
      dsimp only
      by_cases hb : b ≠ ch%';'
      · rw [if_pos hb]
        exact .must_peek (by rw [if_pos hb]) (.fail _)
      · rw [if_neg hb]
        refine .must ?_
        rw [if_neg hb, e]
        by_cases hi : isName nm = true
        · rw [if_pos hi, if_pos hi]
          cases entity nm with
          | none => exact .fail _
          | some x => exact .ret _ trivial
        · rw [if_neg hi, if_neg hi]; exact .fail _

theorem sim_entityRef (n : Nat) (md : Mode) (c s : Bytes) (hn : s.length < n) :
    Sim (entityRefP n) md c s (entityRef s) Any := by
  match s, hn with
  | [], _ => exact .must_nil
  | [b], hn =>
    rw [entityRef]
    by_cases hb : b = ch%'#'
    · rw [if_pos hb]
      refine .must ?_
      rw [if_pos hb]
      exact .must_nil
    · rw [if_neg hb]
      exact .must_peek (by rw [if_neg hb]) (sim_nameRef n _ _ _ hn)
  | b :: x :: r, hn =>
    rw [entityRef]
    by_cases hb : b = ch%'#'
    · rw [if_pos hb]
      refine .must ?_
      rw [if_pos hb]
      by_cases hx : x = ch%'x'
      · rw [if_pos hx]
        refine .must ?_
        rw [if_pos hx, ← numRefR_nil]
        exact sim_num true n [] _ _ r (by simp at hn; omega)
      · rw [if_neg hx, ← numRefR_nil]
        exact .must_congr (by rw [if_neg hx]) (sim_num false n [] _ _ (x :: r) (by simp at hn ⊢; omega))
    · rw [if_neg hb]
      exact .must_peek (by rw [if_neg hb]) (sim_nameRef n _ _ _ hn)

theorem Sim.length {α : Type} {p : Prog α} {md : Mode} {c s r : Bytes} {x : α} {post : Mode → Bytes → Prop}
    (h : Sim p md c s (.ok (x, r)) post) : r.length ≤ s.length := by
  obtain ⟨m, _, hm, _⟩ := h none
  rw [hm, List.length_append]
  omega

theorem calm_of_ne {md : Mode} {b : UInt8} {r : Bytes} (h : b ≠ ch%'\n') : Calm md (b :: r) := by
  intro _ h'
  exact h (Option.some.inj h')

theorem calm_fresh (r : Bytes) : Calm .fresh r := by intro h; cases h

theorem calm_eof (r : Bytes) : Calm .eof r := by intro h; cases h

theorem sim_textLoop (N n : Nat) (q : Option UInt8) (cd : Bool) (b0 b1 : UInt8) (buf : Bytes) (md : Mode) (c s : Bytes)
    (hN : s.length < N) (hn : s.length < n) :
    Sim (textLoopP n q cd b0 b1 buf) md c s (textLoop N q cd b0 b1 buf s) Calm := by
  induction N generalizing n b0 b1 buf md c s with
  | zero => omega
  | succ N ih =>
    obtain ⟨n, rfl⟩ : ∃ k, n = k + 1 := ⟨n - 1, by omega⟩
    cases s with
    | nil =>
      rw [textLoop, textLoopP]
      refine .end ?_
      dsimp only
      split
      · exact .fail _
      · exact .ret _ (calm_eof _)
    | cons b r =>
      have hN' : r.length < N := by simp at hN; omega
      have hn' : r.length < n := by simp at hn; omega
      rw [textLoop, textLoopP]
      by_cases h1 : q = none ∧ b0 = ch%']' ∧ b1 = ch%']' ∧ b = ch%'>'
      · rw [if_pos h1]
        refine .get ?_
        dsimp only
        rw [if_pos h1]
        split
        · exact .ret _ (calm_fresh _)
        · exact .fail _
      rw [if_neg h1]
      by_cases h2 : b = ch%'<' ∧ cd = false
      · rw [if_pos h2]
        by_cases hq : q ≠ none
        · rw [if_pos hq]
          refine .get ?_
          dsimp only
          rw [if_neg h1, if_pos h2, if_pos hq]
          exact .fail _
        · rw [if_neg hq, if_neg hq]
          have hk : (Prog.ungetc ch%'<' (.ret buf) : Prog Bytes) = .ungetc b (.ret buf) := by rw [h2.1]
          have hb : b ≠ ch%'\n' := by rw [h2.1]; decide
          refine .peek (k' := .ret buf) (by dsimp only; rw [if_neg h1, if_pos h2, ← hk]) ?_
          exact .ret _ (calm_of_ne hb)
      rw [if_neg h2]
      by_cases h3 : b = ch%'>' ∧ cd = false ∧ q = none
      · rw [if_pos h3]
        refine .peek (k' := .ret buf) (by dsimp only; rw [if_neg h1, if_neg h2, if_pos h3]; rw [h3.1]) ?_
        exact .ret _ (calm_of_ne (by rw [h3.1]; decide))
      rw [if_neg h3]
      refine .get ?_
      dsimp only
      rw [if_neg h1, if_neg h2, if_neg h3]
      by_cases h4 : q = some b
      · rw [if_pos h4, if_pos h4]; exact .ret _ (calm_fresh _)
      rw [if_neg h4, if_neg h4]
      by_cases h5 : b = ch%'&' ∧ cd = false
      · rw [if_pos h5, if_pos h5]
        have h := sim_entityRef n .fresh (c ++ [b]) r hn'
        cases he : entityRef r with
        | error e => rw [he] at h; exact .bind_err h
        | ok p =>
          obtain ⟨t, r'⟩ := p
          rw [he] at h
          have := h.length
          exact .bind_ok h fun m md' _ _ => ih n 0 0 (buf ++ t) md' _ r' (by omega) (by omega)
      · rw [if_neg h5, if_neg h5]
        exact ih n b1 b _ _ _ r hN' hn'

theorem sim_text (n : Nat) (q : Option UInt8) (cd : Bool) (md : Mode) (c s : Bytes) (hn : s.length < n) :
    Sim (textP n q cd) md c s (text q cd s) Calm := by
  have h := sim_textLoop (s.length + 1) n q cd 0 0 [] md c s (by omega) hn
  unfold text
  cases hr : textLoop (s.length + 1) q cd 0 0 [] s with
  | error e => rw [hr] at h; exact .bind_err h
  | ok p =>
    obtain ⟨data, r⟩ := p
    rw [hr] at h
    refine .bind_ok h fun m md' _ hp => ?_
    dsimp only
    cases checkChars (runes data) with
    | some e => exact .fail _
    | none => exact .ret _ hp

/-! ### Tags -/

theorem sim_attrval (n : Nat) (md : Mode) (c s : Bytes) (hn : s.length < n) :
    Sim (attrvalP n) md c s (attrval s) Any := by
  cases s with
  | nil => exact .must_nil
  | cons b r =>
    refine .must ?_
    rw [attrval]
    split
    · intro sv
      have h := sim_text n (some b) false .fresh (c ++ [b]) r (by simp at hn; omega) sv
      cases hr : text (some b) false r with
      | error e => rw [hr] at h; exact h
      | ok p =>
        rw [hr] at h
        obtain ⟨m, md', h1, _, h3⟩ := h
        exact ⟨m, md', h1, trivial, h3⟩
    · exact .fail _

theorem sim_attr (n : Nat) (md : Mode) (c s : Bytes) (hn : s.length < n) :
    Sim (attrP n) md c s (readAttr s) Any := by
  have h := sim_nsname n md c s hn
  unfold readAttr
  cases hr : nsname s with
  | error e => rw [hr] at h; exact .bind_err h
  | ok o =>
    rw [hr] at h
    match o, h with
    | none, ⟨r, h⟩ => exact .bind_ok h fun m md' _ _ => .fail _
    | some (nm, r), ⟨h, hl⟩ =>
      refine .bind_ok h fun m md' _ _ => ?_
      dsimp only
      refine .bind_ok (sim_space n md' _ r (by omega)) fun m2 md2 _ _ => ?_
      have hl2 := skipSpace_length r
      cases hs : skipSpace r with
      | nil => exact .must_nil
      | cons b r1 =>
        rw [hs] at hl2
        refine .must ?_
        dsimp only
        split
        · exact .fail _
        · have h3 := skipSpace_length r1
          simp at hl2
          refine .bind_ok (sim_space n _ _ r1 (by omega)) fun m3 md3 _ _ => ?_
          have h4 := sim_attrval n md3 (c ++ m ++ m2 ++ [b] ++ m3) (skipSpace r1) (by omega)
          cases ha : attrval (skipSpace r1) with
          | error e => rw [ha] at h4; exact .bind_err h4
          | ok p =>
            obtain ⟨v, r2⟩ := p
            rw [ha] at h4
            exact .bind_ok h4 fun m4 md4 _ _ => .ret _ trivial

/-- No byte is put back. -/
def Fresh : Mode → Bytes → Prop := fun md _ => md = .fresh

theorem sim_attrs (N n : Nat) (acc : List Attr) (md : Mode) (c s : Bytes) (hN : s.length < N) (hn : s.length < n) :
    match attrLoop N acc s with
    | .error e => Sim (attrsP n acc) md c s (.error e) Fresh
    | .ok (as, em, r) => Sim (attrsP n acc) md c s (.ok ((as, em), r)) Fresh := by
  induction N generalizing n acc md c s with
  | zero => omega
  | succ N ih =>
    obtain ⟨n, rfl⟩ : ∃ k, n = k + 1 := ⟨n - 1, by omega⟩
    have hl := skipSpace_length s
    have hsp := sim_space (n + 1) md c s hn
    rw [attrLoop, attrsP]
    cases hs : skipSpace s with
    | nil =>
      rw [hs] at hsp
      exact .bind_ok hsp fun m md' _ _ => .must_nil
    | cons b r =>
      rw [hs] at hsp hl
      simp only [List.length_cons] at hl
      dsimp only
      by_cases h1 : b = ch%'/'
      · rw [if_pos h1]
        cases r with
        | nil =>
          refine .bind_ok hsp fun m md' _ _ => .must ?_
          rw [if_pos h1]
          exact .must_nil
        | cons x r' =>
          dsimp only
          by_cases h2 : x ≠ ch%'>'
          · rw [if_pos h2]
            refine .bind_ok hsp fun m md' _ _ => .must ?_
            rw [if_pos h1]
            refine .must ?_
            rw [if_pos h2]
            exact .fail _
          · rw [if_neg h2]
            refine .bind_ok hsp fun m md' _ _ => .must ?_
            rw [if_pos h1]
            refine .must ?_
            rw [if_neg h2]
            exact .ret _ rfl
      · rw [if_neg h1]
        by_cases h2 : b = ch%'>'
        · rw [if_pos h2]
          refine .bind_ok hsp fun m md' _ _ => .must ?_
          rw [if_neg h1, if_pos h2]
          exact .ret _ rfl
        · rw [if_neg h2]
          have hk : ∀ acc, (if b = ch%'/' then must fun c => if c ≠ ch%'>' then .fail (.syntaxError "expected /> in element")
                else .ret (acc, true)
              else if b = ch%'>' then .ret (acc, false)
              else .ungetc b ((attrP (n + 1)).bind fun a => attrsP n (acc ++ [a])) : Prog (List Attr × Bool)) =
              .ungetc b ((attrP (n + 1)).bind fun a => attrsP n (acc ++ [a])) := by
            intro acc
            rw [if_neg h1, if_neg h2]
          cases ha : readAttr (b :: r) with
          | error e =>
            refine .bind_ok hsp fun m md' _ _ => .must_peek (hk _) ?_
            have h3 := sim_attr (n + 1) .pending (c ++ m) (b :: r) (by simp; omega)
            rw [ha] at h3
            exact .bind_err h3
          | ok p =>
            obtain ⟨a, r'⟩ := p
            dsimp only
            have hlen : r'.length < (b :: r).length := by
              obtain ⟨q, hq, hs', _⟩ := readAttr_local _ _ _ ha
              rw [hs', List.length_append]
              have := List.length_pos_iff.2 hq
              omega
            simp only [List.length_cons] at hlen
            have h4 := fun md c => ih n (acc ++ [a]) md c r' (by omega) (by omega)
            cases hrec : attrLoop N (acc ++ [a]) r' with
            | error e =>
              simp only [hrec] at h4
              refine .bind_ok hsp fun m md' _ _ => .must_peek (hk _) ?_
              have h3 := sim_attr (n + 1) .pending (c ++ m) (b :: r) (by simp; omega)
              rw [ha] at h3
              exact .bind_ok h3 fun m2 md2 _ _ => h4 _ _
            | ok q =>
              obtain ⟨as, em, r2⟩ := q
              simp only [hrec] at h4
              refine .bind_ok hsp fun m md' _ _ => .must_peek (hk _) ?_
              have h3 := sim_attr (n + 1) .pending (c ++ m) (b :: r) (by simp; omega)
              rw [ha] at h3
              exact .bind_ok h3 fun m2 md2 _ _ => h4 _ _

theorem sim_pi (n : Nat) (b0 : UInt8) (buf : Bytes) (md : Mode) (c s : Bytes) (hn : s.length < n) :
    Sim (piP n b0 buf) md c s (piLoop b0 buf s) Fresh := by
  induction s generalizing n b0 buf md c with
  | nil =>
    obtain ⟨n, rfl⟩ : ∃ k, n = k + 1 := ⟨n - 1, by omega⟩
    exact .must_nil
  | cons b r ih =>
    obtain ⟨n, rfl⟩ : ∃ k, n = k + 1 := ⟨n - 1, by omega⟩
    refine .must ?_
    rw [piLoop]
    split
    · exact .ret _ rfl
    · exact ih n b _ _ _ (by simpa using hn)

theorem sim_comment (n : Nat) (b0 b1 : UInt8) (buf : Bytes) (md : Mode) (c s : Bytes) (hn : s.length < n) :
    Sim (commentP n b0 b1 buf) md c s (commentLoop b0 b1 buf s) Fresh := by
  induction s generalizing n b0 b1 buf md c with
  | nil =>
    obtain ⟨n, rfl⟩ : ∃ k, n = k + 1 := ⟨n - 1, by omega⟩
    exact .must_nil
  | cons b r ih =>
    obtain ⟨n, rfl⟩ : ∃ k, n = k + 1 := ⟨n - 1, by omega⟩
    refine .must ?_
    rw [commentLoop]
    split
    · split
      · exact .fail _
      · exact .ret _ rfl
    · exact ih n b1 b _ _ _ (by simpa using hn)

theorem sim_skipComment (n : Nat) (b0 b1 : UInt8) (md : Mode) (c s : Bytes) (hn : s.length < n) :
    match skipComment b0 b1 s with
    | .error e => Sim (skipCommentP n b0 b1) md c s (.error e) Fresh
    | .ok r => Sim (skipCommentP n b0 b1) md c s (.ok ((), r)) Fresh := by
  induction s generalizing n b0 b1 md c with
  | nil =>
    obtain ⟨n, rfl⟩ : ∃ k, n = k + 1 := ⟨n - 1, by omega⟩
    exact .must_nil
  | cons b r ih =>
    obtain ⟨n, rfl⟩ : ∃ k, n = k + 1 := ⟨n - 1, by omega⟩
    rw [skipComment, skipCommentP]
    by_cases h : b0 = ch%'-' ∧ b1 = ch%'-' ∧ b = ch%'>'
    · rw [if_pos h]
      refine .must ?_
      rw [if_pos h]
      exact .ret _ rfl
    · rw [if_neg h]
      have := ih n b1 b .fresh (c ++ [b]) (by simpa using hn)
      cases hr : skipComment b1 b r with
      | error e =>
        rw [hr] at this
        refine .must ?_
        rw [if_neg h]
        exact this
      | ok r' =>
        rw [hr] at this
        refine .must ?_
        rw [if_neg h]
        exact this

theorem sim_dirLt (md : Mode) (c s : Bytes) :
    match dirLt s with
    | .eof => Sim dirLtP md c s (.error unexpectedEOF) Fresh
    | .notComment w r => ∃ x r', r = x :: r' ∧ r'.length < s.length ∧ Sim dirLtP md c s (.ok (some (w, x), r')) Fresh
    | .comment r => Sim dirLtP md c s (.ok (none, r)) Fresh ∧ r.length < s.length := by
  cases s with
  | nil => exact .must_nil
  | cons a s =>
    unfold dirLt dirLtP
    dsimp only
    by_cases h1 : a ≠ ch%'!'
    · rw [if_pos h1]
      refine ⟨a, s, rfl, by simp, .must ?_⟩
      rw [if_pos h1]
      exact .ret _ rfl
    rw [if_neg h1]
    cases s with
    | nil =>
      refine .must ?_
      rw [if_neg h1]
      exact .must_nil
    | cons b t =>
      dsimp only
      by_cases h2 : b ≠ ch%'-'
      · rw [if_pos h2]
        refine ⟨b, t, rfl, by simp; omega, .must ?_⟩
        rw [if_neg h1]
        refine .must ?_
        rw [if_pos h2]
        exact .ret _ rfl
      rw [if_neg h2]
      cases t with
      | nil =>
        refine .must ?_
        rw [if_neg h1]
        refine .must ?_
        rw [if_neg h2]
        exact .must_nil
      | cons x u =>
        dsimp only
        by_cases h3 : x ≠ ch%'-'
        · rw [if_pos h3]
          refine ⟨x, u, rfl, by simp; omega, .must ?_⟩
          rw [if_neg h1]
          refine .must ?_
          rw [if_neg h2]
          refine .must ?_
          rw [if_pos h3]
          exact .ret _ rfl
        · rw [if_neg h3]
          refine ⟨.must ?_, by simp; omega⟩
          rw [if_neg h1]
          refine .must ?_
          rw [if_neg h2]
          refine .must ?_
          rw [if_neg h3]
          exact .ret _ rfl

/-- What the directive loop does with a byte (`/repo/xml/xml.go` 763-812). -/
def dirH (n : Nat) (inq : UInt8) (depth : Int) (buf : Bytes) (b : UInt8) : Prog Bytes :=
  if b = inq then dirP n none 0 depth (buf ++ [b])
  else if inq ≠ 0 then dirP n none inq depth (buf ++ [b])
  else if b = ch%'\'' ∨ b = ch%'"' then dirP n none b depth (buf ++ [b])
  else if b = ch%'>' then dirP n none inq (depth - 1) (buf ++ [b])
  else if b = ch%'<' then
    dirLtP.bind fun
      | some (w, c) => dirP n (some c) inq (depth + 1) (buf ++ [b] ++ w)
      | none => (skipCommentP n 0 0).bind fun _ => dirP n none inq depth (buf ++ [ch%' '])
  else dirP n none inq depth (buf ++ [b])

theorem dirP_some (n : Nat) (b inq : UInt8) (depth : Int) (buf : Bytes) :
    dirP (n + 1) (some b) inq depth buf = dirH n inq depth buf b := rfl

theorem dirP_none (n : Nat) (inq : UInt8) (depth : Int) (buf : Bytes) :
    dirP (n + 1) none inq depth buf = must fun b =>
      if inq = 0 ∧ b = ch%'>' ∧ depth = 0 then .ret buf else dirH n inq depth buf b := rfl

/-- The same in the functions of `Verif.XmlToken`. -/
def dirF (N : Nat) (inq : UInt8) (depth : Int) (buf : Bytes) (b : UInt8) (r : Bytes) : Except XErr (Bytes × Bytes) :=
  if b = inq then dirLoop N false 0 depth (buf ++ [b]) r
  else if inq ≠ 0 then dirLoop N false inq depth (buf ++ [b]) r
  else if b = ch%'\'' ∨ b = ch%'"' then dirLoop N false b depth (buf ++ [b]) r
  else if b = ch%'>' then dirLoop N false inq (depth - 1) (buf ++ [b]) r
  else if b = ch%'<' then
    match dirLt r with
    | .eof => .error unexpectedEOF
    | .notComment w r' => dirLoop N true inq (depth + 1) (buf ++ [b] ++ w) r'
    | .comment r' =>
      match skipComment 0 0 r' with
      | .error e => .error e
      | .ok r'' => dirLoop N false inq depth (buf ++ [ch%' ']) r''
  else dirLoop N false inq depth (buf ++ [b]) r

theorem dirLoop_cons (N : Nat) (handle : Bool) (inq : UInt8) (depth : Int) (buf : Bytes) (b : UInt8) (r : Bytes) :
    dirLoop (N + 1) handle inq depth buf (b :: r) =
      if handle = false ∧ inq = 0 ∧ b = ch%'>' ∧ depth = 0 then .ok (buf, r) else dirF N inq depth buf b r := by
  rw [dirLoop]
  rfl

theorem sim_dir (N : Nat) : ∀ (n : Nat) (inq : UInt8) (depth : Int) (buf : Bytes) (md : Mode) (c s : Bytes),
    s.length < N → s.length < n →
    Sim (dirP n none inq depth buf) md c s (dirLoop N false inq depth buf s) Fresh ∧
    (∀ b r, s = b :: r → Sim (dirP n (some b) inq depth buf) md c r (dirLoop N true inq depth buf s) Fresh) := by
  induction N with
  | zero => intros; omega
  | succ N ih =>
    intro n inq depth buf md c s hN hn
    obtain ⟨n, rfl⟩ : ∃ k, n = k + 1 := ⟨n - 1, by omega⟩
    have key : ∀ b r md c, s = b :: r → Sim (dirH n inq depth buf b) md c r (dirF N inq depth buf b r) Fresh := by
      intro b r md c hs
      subst hs
      have hN' : r.length < N := by simpa using hN
      have hn' : r.length < n := by simpa using hn
      unfold dirH dirF
      split
      · exact (ih n _ _ _ _ _ _ hN' hn').1
      split
      · exact (ih n _ _ _ _ _ _ hN' hn').1
      split
      · exact (ih n _ _ _ _ _ _ hN' hn').1
      split
      · exact (ih n _ _ _ _ _ _ hN' hn').1
      split
      · have h := sim_dirLt md c r
        cases hd : dirLt r with
        | eof => rw [hd] at h; exact .bind_err h
        | notComment w r' =>
          rw [hd] at h
          obtain ⟨x, r2, h1, h2, h3⟩ := h
          refine .bind_ok h3 fun m md' _ _ => ?_
          dsimp only
          rw [h1]
          exact (ih n _ _ _ _ _ (x :: r2) (by simp; omega) (by simp; omega)).2 x r2 rfl
        | comment r' =>
          rw [hd] at h
          obtain ⟨h1, h2⟩ := h
          refine .bind_ok h1 fun m md' _ _ => ?_
          dsimp only
          have h4 := sim_skipComment n 0 0 md' (c ++ m) r' (by omega)
          cases hk : skipComment 0 0 r' with
          | error e => rw [hk] at h4; exact .bind_err h4
          | ok r3 =>
            rw [hk] at h4
            have := h4.length
            exact .bind_ok h4 fun m2 md2 _ _ => (ih n _ _ _ _ _ _ (by omega) (by omega)).1
      · exact (ih n _ _ _ _ _ _ hN' hn').1
    constructor
    · cases s with
      | nil => exact .must_nil
      | cons b r =>
        rw [dirP_none, dirLoop_cons]
        refine .must ?_
        by_cases h : inq = 0 ∧ b = ch%'>' ∧ depth = 0
        · rw [if_pos h, if_pos ⟨rfl, h⟩]; exact .ret _ rfl
        · rw [if_neg h, if_neg (fun h' => h h'.2)]
          exact key b r _ _ rfl
    · intro b r hs
      rw [dirP_some, hs, dirLoop_cons, if_neg (by simp)]
      exact key b r _ _ hs

/-! ### Tokens -/

/-- What `rawToken` says, in the form the machine returns it. -/
def rawR (res : Except XErr (Token × Raw)) : Except XErr ((Token × Option Name) × Bytes) :=
  match res with
  | .error e => .error e
  | .ok (t, raw) => .ok ((t, raw.toClose), raw.rest)

theorem Sim.weaken {α : Type} {p : Prog α} {md : Mode} {c s : Bytes} {res : Except XErr (α × Bytes)}
    {post post' : Mode → Bytes → Prop} (h : Sim p md c s res post) (hp : ∀ md r, post md r → post' md r) :
    Sim p md c s res post' := by
  intro sv
  have h := h sv
  cases res with
  | error e => exact h
  | ok q =>
    obtain ⟨m, md', h1, h2, h3⟩ := h
    exact ⟨m, md', h1, hp _ _ h2, h3⟩

theorem sim_endTag (n : Nat) (md : Mode) (c s : Bytes) (hn : s.length < n) :
    Sim (endTagP n) md c s (rawR (endTag s)) Fresh := by
  have h := sim_nsname n md c s hn
  unfold endTag
  cases hr : nsname s with
  | error e => rw [hr] at h; exact .bind_err h
  | ok o =>
    rw [hr] at h
    match o, h with
    | none, ⟨r, h⟩ => exact .bind_ok h fun m md' _ _ => .fail _
    | some (nm, r), ⟨h, hl⟩ =>
      refine .bind_ok h fun m md' _ _ => ?_
      dsimp only
      refine .bind_ok (sim_space n md' _ r (by omega)) fun m2 md2 _ _ => ?_
      cases hs : skipSpace r with
      | nil => exact .must_nil
      | cons b r1 =>
        refine .must ?_
        dsimp only
        by_cases hb : b ≠ ch%'>'
        · rw [if_pos hb, if_pos hb]; exact .fail _
        · rw [if_neg hb, if_neg hb]; exact .ret _ rfl

theorem sim_piTag (n : Nat) (md : Mode) (c s : Bytes) (hn : s.length < n) :
    Sim (piTagP n) md c s (rawR (piTag s)) Fresh := by
  have h := sim_name n md c s hn
  unfold piTag
  rw [nameR_eq]
  cases hr : nameR s with
  | error e => rw [hr] at h; exact .bind_err h
  | ok o =>
    rw [hr] at h
    have hl := h.length
    match o, h with
    | (none, r), h => exact .bind_ok h fun m md' _ _ => .fail _
    | (some nm, r), h =>
      refine .bind_ok h fun m md' _ _ => ?_
      dsimp only at hl ⊢
      refine .bind_ok (sim_space n md' _ r (by omega)) fun m2 md2 _ _ => ?_
      have h3 := skipSpace_length r
      have h4 := sim_pi n 0 [] md2 (c ++ m ++ m2) (skipSpace r) (by omega)
      cases hp : piLoop 0 [] (skipSpace r) with
      | error e => rw [hp] at h4; exact .bind_err h4
      | ok q =>
        obtain ⟨data, r2⟩ := q
        rw [hp] at h4
        refine .bind_ok h4 fun m3 md3 _ hf => ?_
        dsimp only
        cases checkXmlDecl nm data with
        | some e => exact .fail _
        | none => exact .ret _ hf

theorem sim_cdataOpen (p : Bytes) (md : Mode) (c s : Bytes) :
    match cdataOpen p s with
    | .error e => Sim (cdataOpenP p) md c s (.error e) Any
    | .ok r => Sim (cdataOpenP p) md c s (.ok ((), r)) Any := by
  induction p generalizing md c s with
  | nil => rw [cdataOpen]; exact .ret _ trivial
  | cons x p ih =>
    cases s with
    | nil => exact .must_nil
    | cons b s =>
      rw [cdataOpen, cdataOpenP]
      by_cases h : b ≠ x
      · rw [if_pos h]
        refine .must ?_
        rw [if_pos h]
        exact .fail _
      · rw [if_neg h]
        have := ih .fresh (c ++ [b]) s
        cases hr : cdataOpen p s with
        | error e => rw [hr] at this; refine .must ?_; rw [if_neg h]; exact this
        | ok r => rw [hr] at this; refine .must ?_; rw [if_neg h]; exact this

theorem fresh_calm (md : Mode) (r : Bytes) (h : Fresh md r) : Calm md r := by
  cases h
  exact calm_fresh r

theorem sim_bangTag (n : Nat) (md : Mode) (c s : Bytes) (hn : s.length < n) :
    Sim (bangTagP n) md c s (rawR (bangTag s)) Calm := by
  cases s with
  | nil => exact .must_nil
  | cons b r =>
    have hn' : r.length < n := by simp at hn; omega
    refine .must ?_
    unfold bangTag
    dsimp only
    by_cases h1 : b = ch%'-'
    · rw [if_pos h1, if_pos h1]
      cases r with
      | nil => exact .must_nil
      | cons x r1 =>
        refine .must ?_
        dsimp only
        by_cases h2 : x ≠ ch%'-'
        · rw [if_pos h2, if_pos h2]; exact .fail _
        · rw [if_neg h2, if_neg h2]
          have h := sim_comment n 0 0 [] .fresh (c ++ [b] ++ [x]) r1 (by simp at hn'; omega)
          cases hr : commentLoop 0 0 [] r1 with
          | error e => rw [hr] at h; exact .bind_err h
          | ok q =>
            obtain ⟨d, r2⟩ := q
            rw [hr] at h
            exact .bind_ok h fun m md' _ hf => .ret _ (fresh_calm _ _ hf)
    · rw [if_neg h1, if_neg h1]
      by_cases h2 : b = ch%'['
      · rw [if_pos h2, if_pos h2]
        have h := sim_cdataOpen b!"CDATA[" .fresh (c ++ [b]) r
        cases hr : cdataOpen b!"CDATA[" r with
        | error e => rw [hr] at h; exact .bind_err h
        | ok r1 =>
          rw [hr] at h
          have hl := h.length
          refine .bind_ok h fun m md' _ _ => ?_
          dsimp only
          have h3 := sim_text n none true md' (c ++ [b] ++ m) r1 (by omega)
          cases ht : text none true r1 with
          | error e => rw [ht] at h3; exact .bind_err h3
          | ok q =>
            obtain ⟨d, r2⟩ := q
            rw [ht] at h3
            exact .bind_ok h3 fun m md' _ hf => .ret _ hf
      · rw [if_neg h2, if_neg h2]
        have h := (sim_dir (r.length + 1) n 0 0 [b] .fresh (c ++ [b]) r (by omega) hn').1
        cases hr : dirLoop (r.length + 1) false 0 0 [b] r with
        | error e => rw [hr] at h; exact .bind_err h
        | ok q =>
          obtain ⟨d, r2⟩ := q
          rw [hr] at h
          exact .bind_ok h fun m md' _ hf => .ret _ (fresh_calm _ _ hf)

theorem sim_startTag (n : Nat) (md : Mode) (c s : Bytes) (hn : s.length < n) :
    Sim (startTagP n) md c s (rawR (startTag s)) Fresh := by
  have h := sim_nsname n md c s hn
  unfold startTag
  cases hr : nsname s with
  | error e => rw [hr] at h; exact .bind_err h
  | ok o =>
    rw [hr] at h
    match o, h with
    | none, ⟨r, h⟩ => exact .bind_ok h fun m md' _ _ => .fail _
    | some (nm, r), ⟨h, hl⟩ =>
      refine .bind_ok h fun m md' _ _ => ?_
      dsimp only
      have h2 := sim_attrs (r.length + 1) n [] md' (c ++ m) r (by omega) (by omega)
      cases ha : attrLoop (r.length + 1) [] r with
      | error e => rw [ha] at h2; exact .bind_err h2
      | ok q =>
        obtain ⟨as, em, r2⟩ := q
        rw [ha] at h2
        exact .bind_ok h2 fun m md' _ hf => .ret _ hf

/-- `rawToken` of the machine is `rawToken` of `Verif.XmlToken`. -/
theorem sim_rawToken (n : Nat) (tc : Option Name) (md : Mode) (c s : Bytes) (hn : s.length < n) (hc : Calm md s) :
    Sim (rawTokenP n tc) md c s (rawR (rawToken ⟨s, tc⟩)) Calm := by
  unfold rawTokenP rawToken
  cases tc with
  | some nm => exact .ret _ hc
  | none =>
    dsimp only
    cases s with
    | nil => exact .end (.fail _)
    | cons b r =>
      have hn' : r.length < n := by simp at hn; omega
      dsimp only
      by_cases h1 : b ≠ ch%'<'
      · rw [if_pos h1]
        refine .peek (by dsimp only; rw [if_pos h1]) ?_
        have h := sim_text n none false .pending c (b :: r) hn
        cases ht : text none false (b :: r) with
        | error e => rw [ht] at h; exact .bind_err h
        | ok q =>
          obtain ⟨d, r2⟩ := q
          rw [ht] at h
          exact .bind_ok h fun m md' _ hf => .ret _ hf
      · rw [if_neg h1]
        refine .get ?_
        dsimp only
        rw [if_neg h1]
        cases r with
        | nil => exact .must_nil
        | cons x r1 =>
          have hn2 : r1.length < n := by simp at hn'; omega
          dsimp only
          by_cases h2 : x = ch%'/'
          · rw [if_pos h2]
            refine .must ?_
            rw [if_pos h2]
            exact (sim_endTag n _ _ _ hn2).weaken fresh_calm
          rw [if_neg h2]
          by_cases h3 : x = ch%'?'
          · rw [if_pos h3]
            refine .must ?_
            rw [if_neg h2, if_pos h3]
            exact (sim_piTag n _ _ _ hn2).weaken fresh_calm
          rw [if_neg h3]
          by_cases h4 : x = ch%'!'
          · rw [if_pos h4]
            refine .must ?_
            rw [if_neg h2, if_neg h3, if_pos h4]
            exact sim_bangTag n _ _ _ hn2
          · rw [if_neg h4]
            refine .must_peek (by rw [if_neg h2, if_neg h3, if_neg h4]) ?_
            exact (sim_startTag n _ _ _ hn').weaken fresh_calm

end Verif.Machine

import Verif.XmlToken

/-!
C37: the table of names of the decoder (`/repo/xml/xml.go` 170-172, 219-242, 1234-1250).
-/
namespace Verif.Xml

/-- A Go string as an object: where its bytes are stored, and the bytes. -/
structure GoStr where
  addr : Nat
  data : Bytes
  deriving DecidableEq, Repr

/-- `nameIntern` (`/repo/xml/xml.go` 219-221): a map from contents to strings, nil or as a list of entries, and the address
of the next string to be allocated. -/
structure Interned where
  table : Option (List (Bytes × GoStr))
  next : Nat
  deriving DecidableEq, Repr

/-- `maxInternEntries` (`/repo/xml/xml.go` 223-227). -/
def maxInternEntries : Nat := 1024

/-- The number of entries. -/
def Interned.size (t : Interned) : Nat := (t.table.getD []).length

/-- The state in a new decoder (`/repo/xml/xml.go` 243-258). -/
def Interned.empty (next : Nat) : Interned := ⟨none, next⟩

/-- `m[string(b)]`. -/
def find (b : Bytes) : List (Bytes × GoStr) → Option GoStr
  | [] => none
  | (k, s) :: l => if k = b then some s else find b l

/-- `internBytes` (`/repo/xml/xml.go` 229-242).  A Go string never changes, and `string(b)` copies; so the string is its
bytes at a new address. -/
def internBytes (t : Interned) (b : Bytes) : GoStr × Interned :=
  let m := t.table.getD []
  match find b m with
  | some s => (s, ⟨some m, t.next⟩)
  | none =>
    let s : GoStr := ⟨t.next, b⟩
    if m.length < maxInternEntries then (s, ⟨some ((b, s) :: m), t.next + 1⟩) else (s, ⟨some m, t.next + 1⟩)

/-- Interns a sequence of names. -/
def internAll : Interned → List Bytes → List GoStr × Interned
  | t, [] => ([], t)
  | t, b :: l => ((internBytes t b).1 :: (internAll (internBytes t b).2 l).1, (internAll (internBytes t b).2 l).2)

/-- `name` (`/repo/xml/xml.go` 1234-1250) with the table. -/
def readXmlNameI (t : Interned) (s : Bytes) : Except XErr (Option (GoStr × Bytes)) × Interned :=
  match readName s with
  | .error e => (.error e, t)
  | .ok ([], _) => (.ok none, t)
  | .ok (nm, r) =>
    if isName nm then (.ok (some ((internBytes t nm).1, r)), (internBytes t nm).2)
    else (.error (.syntaxError "invalid XML name: "), t)

/-! ### Properties -/

/-- Each entry holds a string with the contents it is filed under, allocated earlier; no contents are filed twice. -/
structure InternOk (t : Interned) : Prop where
  same : ∀ p ∈ t.table.getD [], p.2.data = p.1 ∧ p.2.addr < t.next
  nodup : ((t.table.getD []).map Prod.fst).Nodup
  small : t.size ≤ maxInternEntries

theorem internOk_empty (n : Nat) : InternOk (.empty n) := ⟨by simp [Interned.empty], by simp [Interned.empty], by
  simp [Interned.empty, Interned.size, maxInternEntries]⟩

theorem find_some {b : Bytes} : ∀ {m : List (Bytes × GoStr)} {s : GoStr}, find b m = some s → (b, s) ∈ m
  | (k, s') :: l, s, h => by
    simp only [find] at h
    split at h
    · rename_i hk
      injection h with h
      subst hk; subst h
      simp
    · exact List.mem_cons_of_mem _ (find_some h)

theorem find_none {b : Bytes} : ∀ {m : List (Bytes × GoStr)}, find b m = none → b ∉ m.map Prod.fst
  | [], _ => by simp
  | (k, s') :: l, h => by
    simp only [find] at h
    split at h
    · cases h
    · rename_i hk
      simp only [List.map_cons, List.mem_cons, not_or]
      exact ⟨fun h' => hk h'.symm, find_none h⟩

theorem find_mem {b : Bytes} {s : GoStr} : ∀ {m : List (Bytes × GoStr)}, (m.map Prod.fst).Nodup → (b, s) ∈ m →
    find b m = some s
  | (k, s') :: l, hn, h => by
    simp only [List.map_cons, List.nodup_cons] at hn
    simp only [find]
    rcases List.mem_cons.1 h with h | h
    · injection h with h1 h2
      subst h1; subst h2
      rw [if_pos rfl]
    · have hk : k ≠ b := by
        rintro rfl
        exact hn.1 (List.mem_map.2 ⟨_, h, rfl⟩)
      rw [if_neg hk]
      exact find_mem hn.2 h

theorem internBytes_ok (t : Interned) (b : Bytes) (h : InternOk t) :
    (internBytes t b).1.data = b ∧ InternOk (internBytes t b).2 ∧ t.next ≤ (internBytes t b).2.next ∧
    (∀ p ∈ t.table.getD [], p ∈ (internBytes t b).2.table.getD []) := by
  unfold internBytes
  dsimp only
  split
  · rename_i s hs
    have := h.same _ (find_some hs)
    exact ⟨this.1, ⟨h.same, h.nodup, h.small⟩, Nat.le_refl _, fun p hp => hp⟩
  · rename_i hn
    split
    · rename_i hlt
      refine ⟨rfl, ⟨?_, ?_, ?_⟩, by simp, fun p hp => List.mem_cons_of_mem _ hp⟩
      · intro p hp
        simp only [Option.getD_some, List.mem_cons] at hp
        rcases hp with rfl | hp
        · exact ⟨rfl, Nat.lt_succ_self _⟩
        · exact ⟨(h.same p hp).1, Nat.lt_succ_of_lt (h.same p hp).2⟩
      · simp only [Option.getD_some, List.map_cons, List.nodup_cons]
        exact ⟨find_none hn, h.nodup⟩
      · simp only [Interned.size, Option.getD_some, List.length_cons]
        omega
    · refine ⟨rfl, ⟨?_, h.nodup, h.small⟩, by simp, fun p hp => hp⟩
      intro p hp
      exact ⟨(h.same p hp).1, Nat.lt_succ_of_lt (h.same p hp).2⟩

theorem internBytes_hit (t : Interned) (b : Bytes) (s : GoStr) (h : find b (t.table.getD []) = some s) :
    internBytes t b = (s, ⟨some (t.table.getD []), t.next⟩) := by
  unfold internBytes
  dsimp only
  rw [h]

/-- A full table is not changed, and the name is still returned. -/
theorem internBytes_full (t : Interned) (b : Bytes) (h : t.size = maxInternEntries) :
    (internBytes t b).2.table = some (t.table.getD []) := by
  unfold internBytes
  dsimp only
  split
  · rfl
  · rw [if_neg (by unfold Interned.size at h; omega)]

/-- C37: for any sequence of names, each name read is the name in the input, and the table stays within its bound at
every point of the sequence. -/
theorem C37_transparent (n : Nat) (l : List Bytes) :
    (internAll (.empty n) l).1.map GoStr.data = l ∧
    ∀ k, (internAll (.empty n) (l.take k)).2.size ≤ maxInternEntries := by
  have key : ∀ (l : List Bytes) (t : Interned), InternOk t →
      (internAll t l).1.map GoStr.data = l ∧ InternOk (internAll t l).2 := by
    intro l
    induction l with
    | nil => intro t h; exact ⟨rfl, h⟩
    | cons b l ih =>
      intro t h
      obtain ⟨h1, h2, -⟩ := internBytes_ok t b h
      obtain ⟨h3, h4⟩ := ih _ h2
      simp only [internAll, List.map_cons, h1, h3]
      exact ⟨trivial, h4⟩
  exact ⟨(key l _ (internOk_empty n)).1, fun k => (key (l.take k) _ (internOk_empty n)).2.small⟩

theorem internAll_mem (l : List Bytes) : ∀ (t : Interned), InternOk t → ∀ p ∈ t.table.getD [],
    p ∈ (internAll t l).2.table.getD [] := by
  induction l with
  | nil => intro t _ p hp; exact hp
  | cons b l ih =>
    intro t h p hp
    obtain ⟨-, h2, -, h4⟩ := internBytes_ok t b h
    exact ih _ h2 p (h4 p hp)

theorem internAll_ok (l : List Bytes) : ∀ (t : Interned), InternOk t → InternOk (internAll t l).2 := by
  induction l with
  | nil => intro t h; exact h
  | cons b l ih => intro t h; exact ih _ (internBytes_ok t b h).2.1

/-- C37: while the table is not full, a name that was read before is not allocated again: the string is the same object. -/
theorem C37_shared (n : Nat) (l m : List Bytes) (b : Bytes) (hroom : (internAll (.empty n) l).2.size < maxInternEntries) :
    let t := (internAll (.empty n) l).2
    let u := (internAll (internBytes t b).2 m).2
    (internBytes u b).1 = (internBytes t b).1 ∧ (internBytes u b).2.next = u.next := by
  intro t u
  have ht : InternOk t := internAll_ok l _ (internOk_empty n)
  obtain ⟨-, h2, -, -⟩ := internBytes_ok t b ht
  have hu : InternOk u := internAll_ok m _ h2
  have hin : (b, (internBytes t b).1) ∈ (internBytes t b).2.table.getD [] := by
    unfold internBytes
    dsimp only
    split
    · rename_i s hs
      exact find_some hs
    · rw [if_pos (by exact hroom)]
      exact List.mem_cons_self
  have hf := find_mem hu.nodup (internAll_mem m _ h2 _ hin)
  have : internBytes u b = ((internBytes t b).1, ⟨some (u.table.getD []), u.next⟩) := by
    exact internBytes_hit _ _ _ hf
  rw [this]
  exact ⟨rfl, rfl⟩

/-- What `name` returns, without where the string is stored. -/
def forget : Except XErr (Option (GoStr × Bytes)) → Except XErr (Option (Bytes × Bytes))
  | .error e => .error e
  | .ok none => .ok none
  | .ok (some (s, r)) => .ok (some (s.data, r))

/-- C37: `name` with the table returns what `readXmlName`, used in the model of the tokenizer, returns. -/
theorem C37_name (t : Interned) (h : InternOk t) (s : Bytes) :
    forget (readXmlNameI t s).1 = readXmlName s ∧ InternOk (readXmlNameI t s).2 := by
  unfold readXmlNameI readXmlName
  cases hr : readName s with
  | error e => exact ⟨rfl, h⟩
  | ok p =>
    obtain ⟨nm, r⟩ := p
    cases nm with
    | nil => exact ⟨rfl, h⟩
    | cons b nm =>
      dsimp only
      split
      · obtain ⟨h1, h2, -⟩ := internBytes_ok t (b :: nm) h
        simp only [forget, h1]
        exact ⟨trivial, h2⟩
      · exact ⟨rfl, h⟩

/-- Two names, the second one twice: the table holds two entries and the third string is the second object. -/
example : internAll (.empty 7) [b!"MPD", b!"Period", b!"Period"] =
    ([⟨7, b!"MPD"⟩, ⟨8, b!"Period"⟩, ⟨8, b!"Period"⟩],
      ⟨some [(b!"Period", ⟨8, b!"Period"⟩), (b!"MPD", ⟨7, b!"MPD"⟩)], 9⟩) := by decide

end Verif.Xml

import Verif.XmlToken
import Verif.XmlTextProps

/-!
C25 (reading makes progress, except in one state where it never ends), C26 (tokens are nested), C27 (namespace
scoping of the decoder).
-/
namespace Verif.Xml

open Verif.Utf8

/-! ### C25: every token consumes input, except at a raw `>` -/

theorem textLoop_le (n : Nat) (q : Option UInt8) (cd : Bool) (b0 b1 : UInt8) (buf s d r : Bytes)
    (h : textLoop n q cd b0 b1 buf s = .ok (d, r)) : r.length ≤ s.length := by
  induction n generalizing b0 b1 buf s with
  | zero => cases h
  | succ n ih =>
    match s with
    | [] =>
      simp only [textLoop] at h
      split at h
      · cases h
      · injection h with h; injection h with _ h; subst h; simp
    | b :: s =>
      simp only [textLoop] at h
      split at h
      · split at h
        · injection h with h; injection h with _ h; subst h; simp
        · cases h
      split at h
      · split at h
        · cases h
        · injection h with h; injection h with _ h; subst h; simp
      split at h
      · injection h with h; injection h with _ h; subst h; simp
      split at h
      · injection h with h; injection h with _ h; subst h; simp
      split at h
      · split at h
        · cases h
        · rename_i t r' he
          have h1 := entityRef_lt _ _ _ he
          have h2 := ih _ _ _ _ h
          simp; omega
      · have := ih _ _ _ _ h
        simp; omega

theorem text_le (q : Option UInt8) (cd : Bool) (s d r : Bytes) (h : text q cd s = .ok (d, r)) : r.length ≤ s.length := by
  unfold text at h
  split at h
  · cases h
  · rename_i d' r' he
    split at h
    · cases h
    · injection h with h; injection h with _ h; subst h
      exact textLoop_le _ _ _ _ _ _ _ _ _ he

/-- Character data that starts with neither `<` nor `>` consumes at least one byte. -/
theorem text_lt (b : UInt8) (s d r : Bytes) (h1 : b ≠ ch%'<') (h2 : b ≠ ch%'>') (h : text none false (b :: s) = .ok (d, r)) :
    r.length < (b :: s).length := by
  unfold text at h
  split at h
  · cases h
  · rename_i d' r' he
    split at h
    · cases h
    · injection h with h; injection h with _ h; subst h
      simp only [textLoop] at he
      rw [if_neg (by simp [h2]), if_neg (by simp [h1]), if_neg (by simp [h2]), if_neg (by simp)] at he
      split at he
      · split at he
        · cases he
        · rename_i t r'' hr
          have e1 := entityRef_lt _ _ _ hr
          have e2 := textLoop_le _ _ _ _ _ _ _ _ _ he
          simp; omega
      · have e2 := textLoop_le _ _ _ _ _ _ _ _ _ he
        simp; omega

/-- At a raw `>` the text is empty and nothing is consumed. -/
theorem text_gt (s : Bytes) : text none false (ch%'>' :: s) = .ok ([], ch%'>' :: s) := rfl

theorem readName_eq (s nm r : Bytes) (h : readName s = .ok (nm, r)) : nm ++ r = s := by
  unfold readName at h
  split at h
  · cases h
  · injection h with h; injection h with h1 h2
    rw [← h1, ← h2]
    exact List.takeWhile_append_dropWhile

theorem readXmlName_eq (s nm r : Bytes) (h : readXmlName s = .ok (some (nm, r))) :
    nm ++ r = s ∧ nm ≠ [] ∧ isName nm = true := by
  unfold readXmlName at h
  split at h
  · cases h
  · cases h
  · rename_i nm' r' hne he
    split at h
    · rename_i hn
      injection h with h; injection h with h; injection h with h1 h2
      subst h1; subst h2
      exact ⟨readName_eq _ _ _ he, hne, hn⟩
    · cases h

theorem nsname_lt (s : Bytes) (n : Name) (r : Bytes) (h : nsname s = .ok (some (n, r))) : r.length < s.length := by
  unfold nsname at h
  split at h
  · cases h
  · cases h
  · rename_i nm r' he
    have h1 := readXmlName_eq _ _ _ he
    split at h
    · cases h
    · injection h with h; injection h with h; injection h with h2 h3
      subst h3
      rw [← h1.1, List.length_append]
      have := List.length_pos_iff.mpr h1.2.1
      omega

theorem skipSpace_le (s : Bytes) : (skipSpace s).length ≤ s.length := (List.dropWhile_sublist _).length_le

theorem attrval_le (s d r : Bytes) (h : attrval s = .ok (d, r)) : r.length ≤ s.length := by
  unfold attrval at h
  split at h
  · cases h
  · split at h
    · have := text_le _ _ _ _ _ h
      simp; omega
    · cases h

theorem readAttr_lt (s : Bytes) (a : Attr) (r : Bytes) (h : readAttr s = .ok (a, r)) : r.length < s.length := by
  unfold readAttr at h
  split at h
  · cases h
  · cases h
  · rename_i n r' he
    have h1 := nsname_lt _ _ _ he
    split at h
    · cases h
    · rename_i b r1 hs
      have h2 := skipSpace_le r'
      rw [hs] at h2
      simp at h2
      split at h
      · cases h
      · split at h
        · cases h
        · rename_i v r2 hv
          have h3 := attrval_le _ _ _ hv
          have h4 := skipSpace_le r1
          injection h with h; injection h with _ h; subst h
          omega

theorem attrLoop_lt (n : Nat) (acc : List Attr) (s : Bytes) (as : List Attr) (e : Bool) (r : Bytes)
    (h : attrLoop n acc s = .ok (as, e, r)) : r.length < s.length := by
  induction n generalizing acc s with
  | zero => cases h
  | succ n ih =>
    simp only [attrLoop] at h
    have hs := skipSpace_le s
    split at h
    · cases h
    · rename_i b r1 he
      rw [he] at hs
      simp at hs
      split at h
      · split at h
        · cases h
        · split at h
          · cases h
          · injection h with h; injection h with _ h; injection h with _ h; subst h
            simp at hs; omega
      split at h
      · injection h with h; injection h with _ h; injection h with _ h; subst h
        omega
      · split at h
        · cases h
        · rename_i a r' ha
          have h1 := readAttr_lt _ _ _ ha
          have h2 := ih _ _ h
          simp at h1; omega

theorem piLoop_le (b0 : UInt8) (buf s d r : Bytes) (h : piLoop b0 buf s = .ok (d, r)) : r.length ≤ s.length := by
  induction s generalizing b0 buf with
  | nil => cases h
  | cons b s ih =>
    simp only [piLoop] at h
    split at h
    · injection h with h; injection h with _ h; subst h; simp
    · have := ih _ _ h; simp; omega

theorem commentLoop_le (b0 b1 : UInt8) (buf s d r : Bytes) (h : commentLoop b0 b1 buf s = .ok (d, r)) :
    r.length ≤ s.length := by
  induction s generalizing b0 b1 buf with
  | nil => cases h
  | cons b s ih =>
    simp only [commentLoop] at h
    split at h
    · split at h
      · cases h
      · injection h with h; injection h with _ h; subst h; simp
    · have := ih _ _ _ h; simp; omega

theorem skipComment_le (b0 b1 : UInt8) (s r : Bytes) (h : skipComment b0 b1 s = .ok r) : r.length ≤ s.length := by
  induction s generalizing b0 b1 with
  | nil => cases h
  | cons b s ih =>
    simp only [skipComment] at h
    split at h
    · injection h with h; subst h; simp
    · have := ih _ _ h; simp; omega

theorem dirLt_notComment (s w r : Bytes) (h : dirLt s = .notComment w r) : r.length ≤ s.length := by
  unfold dirLt at h
  split at h
  · cases h
  · split at h
    · injection h with _ h; subst h; simp
    · split at h
      · cases h
      · split at h
        · injection h with _ h; subst h; simp
        · split at h
          · cases h
          · split at h
            · injection h with _ h; subst h; simp
            · cases h

theorem dirLt_comment (s r : Bytes) (h : dirLt s = .comment r) : r.length ≤ s.length := by
  unfold dirLt at h
  split at h
  · cases h
  · split at h
    · cases h
    · split at h
      · cases h
      · split at h
        · cases h
        · split at h
          · cases h
          · split at h
            · cases h
            · injection h with h; subst h; simp; omega

theorem dirLoop_le (n : Nat) (hd : Bool) (inq : UInt8) (depth : Int) (buf s d r : Bytes)
    (h : dirLoop n hd inq depth buf s = .ok (d, r)) : r.length ≤ s.length := by
  induction n generalizing hd inq depth buf s with
  | zero => cases h
  | succ n ih =>
    match s with
    | [] => cases h
    | b :: s =>
      simp only [dirLoop] at h
      split at h
      · injection h with h; injection h with _ h; subst h; simp
      split at h
      · have := ih _ _ _ _ _ h; simp; omega
      split at h
      · have := ih _ _ _ _ _ h; simp; omega
      split at h
      · have := ih _ _ _ _ _ h; simp; omega
      split at h
      · have := ih _ _ _ _ _ h; simp; omega
      split at h
      · split at h
        · cases h
        · rename_i w r' he
          have h1 := dirLt_notComment _ _ _ he
          have h2 := ih _ _ _ _ _ h
          simp; omega
        · rename_i r' he
          have h1 := dirLt_comment _ _ he
          split at h
          · cases h
          · rename_i r'' hs
            have h2 := skipComment_le _ _ _ _ hs
            have h3 := ih _ _ _ _ _ h
            simp; omega
      · have := ih _ _ _ _ _ h; simp; omega

/-- The fuel of the directive loop suffices: more fuel gives the same result. -/
theorem dirLoop_fuel (n m : Nat) (hd : Bool) (inq : UInt8) (depth : Int) (buf s : Bytes)
    (h1 : s.length < n) (h2 : s.length < m) : dirLoop n hd inq depth buf s = dirLoop m hd inq depth buf s := by
  induction n generalizing m hd inq depth buf s with
  | zero => omega
  | succ n ih =>
    cases m with
    | zero => omega
    | succ m =>
      match s with
      | [] => rfl
      | b :: s =>
        simp at h1 h2
        simp only [dirLoop]
        split
        · rfl
        split
        · exact ih _ _ _ _ _ _ (by omega) (by omega)
        split
        · exact ih _ _ _ _ _ _ (by omega) (by omega)
        split
        · exact ih _ _ _ _ _ _ (by omega) (by omega)
        split
        · exact ih _ _ _ _ _ _ (by omega) (by omega)
        split
        · split
          · rfl
          · rename_i w r' he
            have h1 := dirLt_notComment _ _ _ he
            exact ih _ _ _ _ _ _ (by omega) (by omega)
          · rename_i r' he
            have h1 := dirLt_comment _ _ he
            split
            · rfl
            · rename_i r'' hs
              have h2 := skipComment_le _ _ _ _ hs
              exact ih _ _ _ _ _ _ (by omega) (by omega)
        · exact ih _ _ _ _ _ _ (by omega) (by omega)

/-- The fuel of the attribute loop suffices: more fuel gives the same result. -/
theorem attrLoop_fuel (n m : Nat) (acc : List Attr) (s : Bytes) (h1 : s.length < n) (h2 : s.length < m) :
    attrLoop n acc s = attrLoop m acc s := by
  induction n generalizing m acc s with
  | zero => omega
  | succ n ih =>
    cases m with
    | zero => omega
    | succ m =>
      simp only [attrLoop]
      have hs := skipSpace_le s
      split
      · rfl
      · rename_i b r1 he
        rw [he] at hs
        split
        · rfl
        split
        · rfl
        · split
          · rfl
          · rename_i a r' ha
            have := readAttr_lt _ _ _ ha
            exact ih _ _ _ (by omega) (by omega)

theorem cdataOpen_le (p s r : Bytes) (h : cdataOpen p s = .ok r) : r.length ≤ s.length := by
  induction p generalizing s with
  | nil => injection h with h; subst h; simp
  | cons c p ih =>
    match s with
    | [] => cases h
    | b :: s =>
      simp only [cdataOpen] at h
      split at h
      · cases h
      · have := ih _ h; simp; omega

/-- What is left to read, counting the end of a self-closing element. -/
def Raw.size (st : Raw) : Nat := 2 * st.rest.length + (if st.toClose.isSome then 1 else 0)

/-- A decoder state at a raw `>` in character data. -/
def Stuck (st : Raw) : Prop := st.toClose = none ∧ ∃ r, st.rest = ch%'>' :: r

theorem size_le (st : Raw) : st.size ≤ 2 * st.rest.length + 1 := by unfold Raw.size; split <;> omega

theorem size_none (r : Bytes) : Raw.size ⟨r, none⟩ = 2 * r.length := rfl

theorem endTag_le (s : Bytes) (t : Token) (st : Raw) (h : endTag s = .ok (t, st)) : st.size ≤ 2 * s.length := by
  unfold endTag at h
  split at h
  · cases h
  · cases h
  · rename_i n r he
    have h1 := nsname_lt _ _ _ he
    split at h
    · cases h
    · rename_i b r1 hs
      have h2 := skipSpace_le r
      rw [hs] at h2
      simp at h2
      split at h
      · cases h
      · injection h with h; injection h with _ h; subst h
        rw [size_none]; omega

theorem piTag_le (s : Bytes) (t : Token) (st : Raw) (h : piTag s = .ok (t, st)) : st.size ≤ 2 * s.length := by
  unfold piTag at h
  split at h
  · cases h
  · cases h
  · rename_i n r he
    have h1 := readXmlName_eq _ _ _ he
    have h1' := congrArg List.length h1.1
    rw [List.length_append] at h1'
    split at h
    · cases h
    · rename_i d r1 hs
      have h2 := piLoop_le _ _ _ _ _ hs
      have h3 := skipSpace_le r
      split at h
      · cases h
      · injection h with h; injection h with _ h; subst h
        rw [size_none]; omega

theorem bangTag_le (s : Bytes) (t : Token) (st : Raw) (h : bangTag s = .ok (t, st)) : st.size ≤ 2 * s.length := by
  unfold bangTag at h
  split at h
  · cases h
  · split at h
    · split at h
      · cases h
      · split at h
        · cases h
        · split at h
          · cases h
          · rename_i d r2 hs
            have h2 := commentLoop_le _ _ _ _ _ _ hs
            injection h with h; injection h with _ h; subst h
            rw [size_none]; simp; omega
    · split at h
      · split at h
        · cases h
        · rename_i r1 hs
          have h2 := cdataOpen_le _ _ _ hs
          split at h
          · cases h
          · rename_i d r2 ht
            have h3 := text_le _ _ _ _ _ ht
            injection h with h; injection h with _ h; subst h
            rw [size_none]; simp; omega
      · split at h
        · cases h
        · rename_i d r2 hs
          have h2 := dirLoop_le _ _ _ _ _ _ _ _ hs
          injection h with h; injection h with _ h; subst h
          rw [size_none]; simp; omega

theorem startTag_le (s : Bytes) (t : Token) (st : Raw) (h : startTag s = .ok (t, st)) : st.size ≤ 2 * s.length := by
  unfold startTag at h
  split at h
  · cases h
  · cases h
  · rename_i n r he
    have h1 := nsname_lt _ _ _ he
    split at h
    · cases h
    · rename_i as e r' hs
      have h2 := attrLoop_lt _ _ _ _ _ _ hs
      injection h with h; injection h with _ h; subst h
      have := size_le ⟨r', if e then some n else none⟩
      dsimp only at this
      omega

/-- Each token makes what is left smaller, unless the decoder is stuck at a raw `>`. -/
theorem rawToken_progress (st st' : Raw) (t : Token) (h : rawToken st = .ok (t, st')) :
    st'.size < st.size ∨ (Stuck st ∧ st' = st ∧ t = .charData []) := by
  obtain ⟨rest, tc⟩ := st
  unfold rawToken at h
  dsimp only at h
  split at h
  · injection h with h; injection h with _ h; subst h
    left
    show _ < 2 * rest.length + 1
    rw [size_none]; omega
  · split at h
    · cases h
    · rename_i b r
      rw [size_none]
      split at h
      · rename_i hb
        by_cases hg : b = ch%'>'
        · right
          subst hg
          rw [text_gt] at h
          injection h with h; injection h with h1 h2
          exact ⟨⟨rfl, r, rfl⟩, h2.symm, h1.symm⟩
        · left
          split at h
          · cases h
          · rename_i d r' ht
            have := text_lt _ _ _ _ hb hg ht
            injection h with h; injection h with _ h; subst h
            rw [size_none]; omega
      · left
        split at h
        · cases h
        · rename_i _ c r1
          have hl : (b :: c :: r1).length = r1.length + 2 := rfl
          rw [hl]
          split at h
          · have := endTag_le _ _ _ h; omega
          split at h
          · have := piTag_le _ _ _ h; omega
          split at h
          · have := bangTag_le _ _ _ h; omega
          · have := startTag_le _ _ _ h; simp at this; omega

theorem rawToken_stuck (st : Raw) (h : Stuck st) : rawToken st = .ok (.charData [], st) := by
  obtain ⟨rest, tc⟩ := st
  obtain ⟨h1, r, h2⟩ := h
  dsimp only at h1 h2
  subst h1; subst h2
  rfl

/-- The state after `n` raw tokens; an error ends reading. -/
def runRaw : Nat → Raw → Except XErr Raw
  | 0, st => .ok st
  | n + 1, st =>
    match rawToken st with
    | .error e => .error e
    | .ok (_, st') => runRaw n st'

/-- Reading to the end of a document, as a decoder loop that stops at the first error or EOF, ends. -/
def Ends (s : Bytes) : Prop := ∃ n e, runRaw n ⟨s, none⟩ = .error e

theorem runRaw_stuck (st : Raw) (h : Stuck st) (n : Nat) : runRaw n st = .ok st := by
  induction n with
  | zero => rfl
  | succ n ih => simp only [runRaw, rawToken_stuck st h, ih]

theorem runRaw_cases (k : Nat) (st : Raw) (hk : st.size < k) :
    (∃ n, n ≤ k ∧ ∃ e, runRaw n st = .error e) ∨ (∃ n, n ≤ k ∧ ∃ st', runRaw n st = .ok st' ∧ Stuck st') := by
  induction k generalizing st with
  | zero => omega
  | succ k ih =>
    cases hr : rawToken st with
    | error e => exact Or.inl ⟨1, by omega, e, by simp [runRaw, hr]⟩
    | ok p =>
      obtain ⟨t, st'⟩ := p
      rcases rawToken_progress st st' t hr with h | ⟨h, h2, _⟩
      · rcases ih st' (by omega) with ⟨n, hn, e, he⟩ | ⟨n, hn, s2, he, h2⟩
        · exact Or.inl ⟨n + 1, by omega, e, by simp [runRaw, hr, he]⟩
        · exact Or.inr ⟨n + 1, by omega, s2, by simp [runRaw, hr, he], h2⟩
      · exact Or.inr ⟨0, by omega, st, rfl, h⟩

theorem runRaw_add (a b : Nat) (st : Raw) :
    runRaw (a + b) st = match runRaw a st with | .error e => .error e | .ok st' => runRaw b st' := by
  induction a generalizing st with
  | zero => simp [runRaw]
  | succ a ih =>
    rw [Nat.succ_add]
    simp only [runRaw]
    cases rawToken st with
    | error e => rfl
    | ok p => exact ih p.2

/-- C25, exactly when reading ends: it ends for a document iff the decoder never arrives at a raw `>` in character
data, and then after at most `2 * length + 1` tokens. -/
theorem C25_ends_iff (s : Bytes) : Ends s ↔ ∀ n st, runRaw n ⟨s, none⟩ = .ok st → ¬ Stuck st := by
  constructor
  · rintro ⟨n, e, hn⟩ m st hm hs
    have h1 := runRaw_add m n ⟨s, none⟩
    rw [hm] at h1
    dsimp only at h1
    rw [runRaw_stuck st hs] at h1
    have h2 := runRaw_add n m ⟨s, none⟩
    rw [hn, Nat.add_comm, h1] at h2
    cases h2
  · intro h
    rcases runRaw_cases (Raw.size ⟨s, none⟩ + 1) ⟨s, none⟩ (by omega) with ⟨n, _, e, he⟩ | ⟨n, _, st, he, hs⟩
    · exact ⟨n, e, he⟩
    · exact absurd hs (h n st he)

/-- C25: the bound on the number of tokens. -/
theorem C25_bound (s : Bytes) (h : Ends s) : ∃ n e, n ≤ 2 * s.length + 1 ∧ runRaw n ⟨s, none⟩ = .error e := by
  rcases runRaw_cases (Raw.size ⟨s, none⟩ + 1) ⟨s, none⟩ (by omega) with ⟨n, hn, e, he⟩ | ⟨n, _, st, he, hs⟩
  · exact ⟨n, e, hn, he⟩
  · exact absurd hs ((C25_ends_iff s).1 h n st he)

/-- C25 is false: reading never ends on the well-formed document `<a>1 > 0</a>`. -/
theorem C25_refuted : ¬ Ends b!"<a>1 > 0</a>" := by
  rw [C25_ends_iff]
  intro h
  exact h 2 ⟨b!"> 0</a>", none⟩ (by decide +kernel) ⟨rfl, _, rfl⟩

/-- Documents are read to an end in the usual case. -/
example : Ends b!"<a x='1'>1 &gt; 0<b/></a>" := ⟨7, .eof, by decide +kernel⟩

end Verif.Xml

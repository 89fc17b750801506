import Verif.GrammarLex
import Verif.KRfl

/-!
The decoder on XML declarations and document type declarations, for C54.
-/
namespace Verif.Grammar

open Verif.Xml Verif.Utf8

/-! ### Searching for a part of the declaration -/

theorem index_some : ∀ (s p : Bytes) (k : Nat), index s p = some k → p <+: s.drop k
  | [], p, k, h => by
    unfold index at h
    split at h
    · rename_i hp; subst hp; exact List.nil_prefix
    · cases h
  | b :: t, p, k, h => by
    unfold index at h
    split at h
    · rename_i hp
      cases h
      exact List.isPrefixOf_iff_prefix.1 hp
    · cases hi : index t p with
      | none => rw [hi] at h; cases h
      | some j =>
        rw [hi] at h
        cases h
        exact index_some t p j hi

/-- A pattern with a byte that is not in the text is not found. -/
theorem index_absent {s p : Bytes} {x : UInt8} (hp : x ∈ p) (hs : x ∉ s) : index s p = none := by
  cases h : index s p with
  | none => rfl
  | some k => exact absurd (List.mem_of_mem_drop ((index_some s p k h).subset hp)) hs

theorem loop_absent {n : Nat} {s p : Bytes} {x : UInt8} (hp : x ∈ p) (hs : x ∉ s) : procInstLoop n p s = none := by
  cases n with
  | zero => rfl
  | succ n =>
    unfold procInstLoop
    rw [index_absent hp hs]
    simp

theorem unique_split {x : UInt8} : ∀ {a s1 b s2 : Bytes}, x ∉ a → x ∉ s1 → a ++ x :: b = s1 ++ x :: s2 → a = s1 ∧ b = s2
  | [], [], b, s2, _, _, h => by injection h with _ h; exact ⟨rfl, h⟩
  | [], c :: s1, b, s2, _, h2, h => by injection h with h _; exact absurd (h ▸ List.mem_cons_self) h2
  | c :: a, [], b, s2, h1, _, h => by injection h with h _; exact absurd (h ▸ List.mem_cons_self) h1
  | c :: a, d :: s1, b, s2, h1, h2, h => by
    injection h with h h'
    subst h
    obtain ⟨e, e'⟩ := unique_split (fun hm => h1 (List.mem_cons_of_mem _ hm)) (fun hm => h2 (List.mem_cons_of_mem _ hm)) h'
    exact ⟨by rw [e], e'⟩

/-- A pattern with a byte that is once in the text is found at that byte. -/
theorem index_unique {x : UInt8} {a b s1 s2 : Bytes} {k : Nat} (ha : x ∉ a) (h1 : x ∉ s1) (h2 : x ∉ s2)
    (h : index (s1 ++ x :: s2) (a ++ x :: b) = some k) : ∃ r, s2 = b ++ r ∧ (s1 ++ x :: s2).drop ((a ++ x :: b).length + k) = r := by
  obtain ⟨r, hr⟩ := index_some _ _ _ h
  have e : s1 ++ x :: s2 = ((s1 ++ x :: s2).take k ++ a) ++ x :: (b ++ r) := by
    conv_lhs => rw [← List.take_append_drop k (s1 ++ x :: s2), ← hr]
    simp
  have hk : x ∉ (s1 ++ x :: s2).take k ++ a := by
    intro hm
    rcases List.mem_append.1 hm with hm | hm
    · have hc : (s1 ++ x :: s2).count x = 1 := by
        simp [List.count_append, List.count_eq_zero_of_not_mem h1, List.count_eq_zero_of_not_mem h2]
      rw [e] at hc
      have := List.count_pos_iff.2 hm
      simp only [List.count_append, List.count_cons_self] at hc
      omega
    · exact ha hm
  obtain ⟨_, e'⟩ := unique_split h1 hk e
  refine ⟨r, e', ?_⟩
  rw [Nat.add_comm, ← List.drop_drop, ← hr, List.drop_left]

/-- The quotes. -/
def quoteByte (b : Bool) : UInt8 := if b then ch%'\'' else ch%'"'

theorem quoteOf_eq (b : Bool) : quoteOf b = [quoteByte b] := by cases b <;> rfl

theorem takeWhile_quote (q : UInt8) (v r : Bytes) (h : q ∉ v) : (v ++ q :: r).takeWhile (· != q) = v := by
  rw [List.takeWhile_append_of_pos (by
    intro a ha
    simp only [bne_iff_ne]
    rintro rfl
    exact h ha)]
  simp

/-- `procInst` finds the value of a part, or nothing if there is white space at its equals sign. -/
theorem procInst_part (p : Part) (hp : p.Ok) (x : UInt8) (a b v pre post : Bytes) (ha : x ∉ a) (hx : isSpace x = false)
    (hx2 : x ≠ ch%'=') (hxq : x ≠ ch%'\'' ∧ x ≠ ch%'"') (hxb : x ∉ b) (hv : x ∉ v ∧ quoteByte p.quote ∉ v) (hpre : x ∉ pre) (hpost : x ∉ post) :
    procInst (a ++ x :: b) (pre ++ (p.body (a ++ x :: b) v ++ post)) = [] ∨
    procInst (a ++ x :: b) (pre ++ (p.body (a ++ x :: b) v ++ post)) = v := by
  obtain ⟨_, _, he1, he2⟩ := hp
  have hsp : ∀ {s : Bytes}, IsS s → x ∉ s := fun hs hm => by rw [isS_mem hs x hm] at hx; cases hx
  have hq : x ≠ quoteByte p.quote := by unfold quoteByte; split <;> [exact hxq.1; exact hxq.2]
  have e : pre ++ (p.body (a ++ x :: b) v ++ post) =
      (pre ++ a) ++ x :: (b ++ (p.eq1 ++ ch%'=' :: (p.eq2 ++ quoteByte p.quote :: (v ++ quoteByte p.quote :: post)))) := by
    simp [Part.body, quoteOf_eq]
  have e' : (a ++ x :: b) ++ [ch%'='] = a ++ x :: (b ++ [ch%'=']) := by simp
  unfold procInst
  rw [e, e']
  generalize hn : (List.length _ + 1) = n
  obtain ⟨n, rfl⟩ : ∃ m, n = m + 1 := ⟨_, hn.symm⟩
  unfold procInstLoop
  rw [if_neg (by simp)]
  have hrest : x ∉ b ++ (p.eq1 ++ ch%'=' :: (p.eq2 ++ quoteByte p.quote :: (v ++ quoteByte p.quote :: post))) := by
    simp [hxb, hsp he1, hsp he2, hx2, hq, hv.1, hpost]
  cases hi : index ((pre ++ a) ++ x :: (b ++ (p.eq1 ++ ch%'=' :: (p.eq2 ++ quoteByte p.quote :: (v ++ quoteByte p.quote :: post)))))
      (a ++ x :: (b ++ [ch%'='])) with
  | none => exact Or.inl rfl
  | some k =>
    obtain ⟨r, h1, h2⟩ := index_unique ha (by simp [hpre, ha]) hrest hi
    dsimp only
    rw [h2]
    rw [List.append_assoc, List.append_cancel_left_eq] at h1
    cases h3 : p.eq1 with
    | cons c s =>
      rw [h3] at h1
      injection h1 with h1 _
      have := isS_mem he1 c (by simp [h3])
      rw [h1] at this
      exact absurd this (by decide)
    | nil =>
      rw [h3] at h1
      simp only [List.nil_append, List.cons_append, List.cons.injEq, true_and] at h1
      subst h1
      cases h4 : p.eq2 with
      | nil =>
        right
        have hqq : quoteByte p.quote = ch%'\'' ∨ quoteByte p.quote = ch%'"' := by unfold quoteByte; split <;> simp
        simp only [List.nil_append]
        rw [if_pos hqq]
        dsimp only
        rw [if_pos (by simp), takeWhile_quote _ _ _ hv.2]
      | cons c s =>
        left
        have hc := isS_mem he2 c (by simp [h4])
        simp only [List.cons_append]
        rw [if_neg (by rintro (rfl | rfl) <;> exact absurd hc (by decide)), loop_absent (x := x) (by simp) (by
          have : x ∉ s := fun hm => hsp he2 (by simp [h4, hm])
          simp [this, hq, hv.1, hpost])]

theorem utfName_ok (u t f : Bool) : isUtf8Name (utfName u t f) = true ∧ (∀ x ∈ [ch%'v', ch%'c', ch%'?', ch%'\'', ch%'"'], x ∉ utfName u t f) := by
  cases u <;> cases t <;> cases f <;> decide +kernel

theorem space_ne {s : Bytes} (h : IsS s) {x : UInt8} (hx : isSpace x = false) : x ∉ s := fun hm => by
  rw [isS_mem h x hm] at hx; cases hx

theorem not_mem_body (p : Part) (hp : p.Ok) (n v : Bytes) (x : UInt8) (hx : isSpace x = false) (h1 : x ≠ ch%'=') (h2 : x ≠ ch%'\'') (h3 : x ≠ ch%'"')
    (hn : x ∉ n) (hv : x ∉ v) : x ∉ p.body n v := by
  obtain ⟨_, _, he1, he2⟩ := hp
  have hq : x ∉ quoteOf p.quote := by unfold quoteOf; split <;> simpa
  simp [Part.body, hn, hv, space_ne he1 hx, space_ne he2 hx, hq, h1]

theorem not_mem_tail (d : Decl) (h : d.Ok) (x : UInt8) (hx : x = ch%'v' ∨ x = ch%'?') : x ∉ d.tail := by
  have h1 : isSpace x = false ∧ x ≠ ch%'=' ∧ x ≠ ch%'\'' ∧ x ≠ ch%'"' ∧ x ∉ b!"encoding" ∧ x ∉ b!"standalone" ∧ x ∉ b!"yes" ∧ x ∉ b!"no" := by
    rcases hx with rfl | rfl <;> decide +kernel
  obtain ⟨a1, a2, a3, a4, a5, a6, a7, a8⟩ := h1
  unfold Decl.tail
  simp only [List.mem_append, not_or]
  refine ⟨?_, ?_, space_ne h.gap a1⟩
  · have he := h.encoding
    rcases hd : d.encoding with _ | ⟨p, u, t, f⟩
    · simp
    · have := he _ (by rw [hd]; rfl)
      dsimp only at this ⊢
      rw [List.mem_append, not_or]
      refine ⟨space_ne this.2.1 a1, not_mem_body p this _ _ x a1 a2 a3 a4 a5 ?_⟩
      exact (utfName_ok u t f).2 x (by rcases hx with rfl | rfl <;> simp)
  · have he := h.standalone
    rcases hd : d.standalone with _ | ⟨p, y⟩
    · simp
    · have := he _ (by rw [hd]; rfl)
      dsimp only at this ⊢
      rw [List.mem_append, not_or]
      refine ⟨space_ne this.2.1 a1, not_mem_body p this _ _ x a1 a2 a3 a4 a6 ?_⟩
      split <;> assumption

theorem decl_version (d : Decl) (h : d.Ok) : procInst (b!"version") d.data = [] ∨ procInst (b!"version") d.data = b!"1.0" := by
  have := procInst_part d.version h.version (ch%'v') [] (b!"ersion") (b!"1.0") [] d.tail (by simp) (by decide) (by decide) (by decide)
    (by decide) ⟨by decide, by unfold quoteByte; split <;> decide⟩ (by simp) (not_mem_tail d h _ (Or.inl rfl))
  exact this

theorem decl_encoding (d : Decl) (h : d.Ok) : procInst (b!"encoding") d.data = [] ∨ isUtf8Name (procInst (b!"encoding") d.data) = true := by
  have hv : ch%'c' ∉ d.version.body (b!"version") (b!"1.0") :=
    not_mem_body _ h.version _ _ _ (by decide) (by decide) (by decide) (by decide) (by decide) (by decide)
  have hs : ch%'c' ∉ (match d.standalone with
      | none => []
      | some (p, y) => p.gap ++ p.body (b!"standalone") (if y then b!"yes" else b!"no")) ++ d.gap := by
    rw [List.mem_append, not_or]
    refine ⟨?_, space_ne h.gap (by decide)⟩
    have he := h.standalone
    rcases hd : d.standalone with _ | ⟨p, y⟩
    · simp
    · have := he _ (by rw [hd]; rfl)
      dsimp only at this ⊢
      rw [List.mem_append, not_or]
      refine ⟨space_ne this.2.1 (by decide), not_mem_body p this _ _ _ (by decide) (by decide) (by decide) (by decide) (by decide) ?_⟩
      split <;> decide
  have he := h.encoding
  unfold Decl.data Decl.tail
  rcases hd : d.encoding with _ | ⟨p, u, t, f⟩
  · left
    dsimp only
    rw [List.nil_append]
    unfold procInst
    rw [loop_absent (x := ch%'c') (by decide) (by rw [List.mem_append, not_or]; exact ⟨hv, hs⟩)]
  · have hp := he _ (by rw [hd]; rfl)
    dsimp only at hp ⊢
    generalize (match d.standalone with
      | none => []
      | some (p, y) => p.gap ++ p.body (b!"standalone") (if y then b!"yes" else b!"no")) ++ d.gap = post at hs ⊢
    obtain ⟨n1, n2⟩ := utfName_ok u t f
    have := procInst_part p hp (ch%'c') (b!"en") (b!"oding") (utfName u t f) (d.version.body (b!"version") (b!"1.0") ++ p.gap) post (by decide)
      (by decide) (by decide) (by decide) (by decide)
      ⟨n2 _ (by simp), n2 _ (by unfold quoteByte; split <;> simp)⟩
      (by rw [List.mem_append, not_or]; exact ⟨hv, space_ne hp.2.1 (by decide)⟩) hs
    rw [show b!"en" ++ ch%'c' :: b!"oding" = b!"encoding" from rfl] at this
    simp only [List.append_assoc] at this ⊢
    rcases this with this | this
    · exact Or.inl this
    · right; rw [this]; exact n1

theorem decl_check (d : Decl) (h : d.Ok) : checkXmlDecl (b!"xml") d.data = none := by
  unfold checkXmlDecl
  rw [if_pos rfl, if_neg (by rcases decl_version d h with e | e <;> simp [e]),
    if_neg (by rcases decl_encoding d h with e | e <;> simp [e])]

theorem rawToken_decl (d : Decl) (h : d.Ok) (r : Bytes) : rawToken ⟨d.src ++ r, none⟩ = .ok (.procInst (b!"xml") d.data, ⟨r, none⟩) := by
  obtain ⟨g1, g2, _⟩ := h.version
  cases hg : d.version.gap with
  | nil => exact absurd hg g1
  | cons c g =>
    have e : d.src ++ r = ch%'<' :: ch%'?' :: (b!"xml" ++ c :: (g ++ (d.data ++ (b!"?>" ++ r)))) := by
      simp [Decl.src, hg]
    unfold rawToken
    simp only [e]
    rw [if_neg (by simp), if_neg (by decide), if_pos trivial]
    unfold piTag
    rw [readXmlName_spec (b!"xml") c _ (by decide +kernel) (space_not c (isS_mem g2 c (by simp [hg])))]
    dsimp only
    have hk : skipSpace (c :: (g ++ (d.data ++ (b!"?>" ++ r)))) = d.data ++ (b!"?>" ++ r) := by
      rw [show c :: (g ++ (d.data ++ (b!"?>" ++ r))) = d.version.gap ++ (d.data ++ (b!"?>" ++ r)) by rw [hg]; rfl, skipSpace_s g2]
      exact skipSpace_cons (ch%'v') _ (by decide)
    have hq : ¬ (b!"?>") <:+: (0 :: d.data) := by
      intro hi
      have : ch%'?' ∈ (0 :: d.data) := hi.subset (by decide)
      rcases List.mem_cons.1 this with hm | hm
      · exact absurd hm (by decide)
      · rcases List.mem_append.1 hm with hm | hm
        · exact not_mem_body _ h.version _ _ (ch%'?') (by decide) (by decide) (by decide) (by decide) (by decide) (by decide) hm
        · exact not_mem_tail d h _ (Or.inr rfl) hm
    rw [hk, piLoop_spec d.data 0 [] r hq]
    dsimp only
    rw [List.nil_append, decl_check d h]

/-! ### The document type declaration -/

/-- A byte without a meaning of its own in a directive. -/
def plainByte (b : UInt8) : Bool := b != ch%'\'' && b != ch%'"' && b != ch%'<' && b != ch%'>'

theorem plain_ne {b : UInt8} (h : plainByte b = true) : b ≠ ch%'\'' ∧ b ≠ ch%'"' ∧ b ≠ ch%'<' ∧ b ≠ ch%'>' := by
  simp only [plainByte, Bool.and_eq_true, bne_iff_ne] at h
  tauto

/-! ### The decoder on directives -/

/-- The directive loop with fuel for all of the input. -/
def dl (inq : UInt8) (k : Int) (buf s : Bytes) : Except XErr (Bytes × Bytes) := dirLoop (s.length + 1) false inq k buf s

theorem skipComment_le : ∀ (s : Bytes) (b0 b1 : UInt8) (r : Bytes), skipComment b0 b1 s = .ok r → r.length ≤ s.length
  | [], _, _, _, h => by cases h
  | b :: s, b0, b1, r, h => by
    rw [skipComment] at h
    split at h
    · injection h with h; subst h; simp
    · have := skipComment_le s _ _ _ h
      simp; omega

/-- A directive is not longer than its source. -/
theorem dirLoop_size (n : Nat) : ∀ (hd : Bool) (inq : UInt8) (k : Int) (buf s d r : Bytes), dirLoop n hd inq k buf s = .ok (d, r) →
    d.length + r.length + 1 ≤ buf.length + s.length := by
  induction n with
  | zero => intro hd inq k buf s d r h; cases h
  | succ n ih =>
    intro hd inq k buf s d r h
    cases s with
    | nil => cases h
    | cons b s =>
      simp only [dirLoop] at h
      split at h
      · injection h with h; injection h with h1 h2; subst h1; subst h2; simp; omega
      split at h
      · have := ih _ _ _ _ _ _ _ h; simp at this ⊢; omega
      split at h
      · have := ih _ _ _ _ _ _ _ h; simp at this ⊢; omega
      split at h
      · have := ih _ _ _ _ _ _ _ h; simp at this ⊢; omega
      split at h
      · have := ih _ _ _ _ _ _ _ h; simp at this ⊢; omega
      split at h
      · split at h
        · cases h
        · rename_i w r' hw
          have := ih _ _ _ _ _ _ _ h
          have hl : w.length + r'.length = s.length := by
            unfold dirLt at hw
            repeat' split at hw
            all_goals first
              | (cases hw; simp; done)
              | (cases hw; simp; omega)
              | cases hw
          simp at this ⊢; omega
        · rename_i r' hw
          split at h
          · cases h
          · rename_i r'' hk
            have := ih _ _ _ _ _ _ _ h
            have hl : r'.length + 3 = s.length := by
              unfold dirLt at hw
              repeat' split at hw
              all_goals first
                | cases hw; simp
                | cases hw
            have := skipComment_le _ _ _ _ hk
            simp at *; omega
      · have := ih _ _ _ _ _ _ _ h; simp at this ⊢; omega

theorem dirLoop_handle (n : Nat) (inq : UInt8) (k : Int) (hk : k ≠ 0) (buf s : Bytes) :
    dirLoop n true inq k buf s = dirLoop n false inq k buf s := by
  cases n with
  | zero => rfl
  | succ n =>
    cases s with
    | nil => rfl
    | cons b s =>
      simp [dirLoop, hk]

theorem dl_step (n : Nat) (inq : UInt8) (k : Int) (buf s : Bytes) (h : s.length < n) : dirLoop n false inq k buf s = dl inq k buf s :=
  dirLoop_fuel _ _ _ _ _ _ _ h (by omega)

theorem dl_char (b : UInt8) (hb : plainByte b = true) (k : Int) (buf s : Bytes) : dl 0 k buf (b :: s) = dl 0 k (buf ++ [b]) s := by
  have hn := plain_ne hb
  rw [dl, List.length_cons, dirLoop, if_neg (by tauto)]
  by_cases h0 : b = 0
  · rw [if_pos h0]; rfl
  · rw [if_neg h0, if_neg (by simp), if_neg (by tauto), if_neg hn.2.2.2, if_neg hn.2.2.1]; rfl

theorem dl_quote {b : UInt8} (hb : b = ch%'\'' ∨ b = ch%'"') (k : Int) (buf s : Bytes) : dl 0 k buf (b :: s) = dl b k (buf ++ [b]) s := by
  have h0 : b ≠ 0 ∧ b ≠ ch%'>' := by rcases hb with rfl | rfl <;> decide
  rw [dl, List.length_cons, dirLoop, if_neg (by tauto), if_neg h0.1, if_neg (by simp), if_pos hb]
  rfl

theorem dl_inq {q : UInt8} (hq : q = ch%'\'' ∨ q = ch%'"') (b : UInt8) (k : Int) (buf s : Bytes) :
    dl q k buf (b :: s) = dl (if b = q then 0 else q) k (buf ++ [b]) s := by
  have h0 : q ≠ 0 := by rcases hq with rfl | rfl <;> decide
  rw [dl, List.length_cons, dirLoop, if_neg (by tauto)]
  by_cases hb : b = q
  · rw [if_pos hb, if_pos hb]; rfl
  · rw [if_neg hb, if_neg hb, if_pos h0]; rfl

theorem dl_end (buf s : Bytes) : dl 0 0 buf (ch%'>' :: s) = .ok (buf, s) := by
  rw [dl, List.length_cons, dirLoop, if_pos (by simp)]

theorem dl_close (k : Nat) (buf s : Bytes) : dl 0 (k + 1 : Nat) buf (ch%'>' :: s) = dl 0 k (buf ++ [ch%'>']) s := by
  rw [dl, List.length_cons, dirLoop, if_neg (by simp; omega), if_neg (by decide), if_neg (by simp), if_neg (by decide), if_pos rfl]
  rw [show ((k + 1 : Nat) : Int) - 1 = k by omega]
  rfl

/-- A bracket that does not begin a comment. -/
theorem dl_open (k : Nat) (buf s : Bytes) (h : ¬ (b!"!--") <+: s) : dl 0 k buf (ch%'<' :: s) = dl 0 (k + 1 : Nat) (buf ++ [ch%'<']) s := by
  have hk : ((k + 1 : Nat) : Int) ≠ 0 := by omega
  have e : ((k : Int) + 1) = ((k + 1 : Nat) : Int) := by omega
  rw [dl, List.length_cons, dirLoop, if_neg (by simp), if_neg (by decide), if_neg (by simp), if_neg (by decide), if_neg (by decide), if_pos rfl, e]
  cases s with
  | nil => rfl
  | cons a s =>
    unfold dirLt
    dsimp only
    by_cases ha : a = ch%'!'
    · subst ha
      rw [if_neg (by simp), dl_char _ (by decide)]
      cases s with
      | nil => rfl
      | cons b s =>
        dsimp only
        by_cases hb : b = ch%'-'
        · subst hb
          rw [if_neg (by simp), dl_char _ (by decide)]
          cases s with
          | nil => rfl
          | cons c s =>
            dsimp only
            by_cases hc : c = ch%'-'
            · subst hc; exact absurd (by simp) h
            · rw [if_pos hc]
              dsimp only
              rw [dirLoop_handle _ _ _ hk, dl_step _ _ _ _ _ (by simp)]
              simp
        · rw [if_pos hb]
          dsimp only
          rw [dirLoop_handle _ _ _ hk, dl_step _ _ _ _ _ (by simp)]
    · rw [if_pos ha]
      dsimp only
      rw [dirLoop_handle _ _ _ hk, dl_step _ _ _ _ _ (by simp), List.append_nil]

theorem skipComment_spec : ∀ (s : Bytes) (b0 b1 : UInt8) (r : Bytes), ¬ (b!"--") <:+: ([b0, b1] ++ s) → ¬ (b!"-") <:+ ([b0, b1] ++ s) →
    skipComment b0 b1 (s ++ (b!"-->" ++ r)) = .ok r
  | [], b0, b1, r, h, h' => by
    rw [List.nil_append, show (b!"-->" ++ r) = ch%'-' :: ch%'-' :: ch%'>' :: r from rfl]
    have h1 : b1 ≠ ch%'-' := by rintro rfl; exact h' ⟨[b0], rfl⟩
    rw [skipComment, if_neg (fun h => h1 h.2.1), skipComment, if_neg (fun h => h1 h.1), skipComment, if_pos ⟨rfl, rfl, rfl⟩]
  | b :: s, b0, b1, r, h, h' => by
    have e : [b0, b1] ++ b :: s = b0 :: ([b1, b] ++ s) := rfl
    have ih := skipComment_spec s b1 b r (fun hc => h (by
      rw [e]; exact hc.trans (List.suffix_cons ..).isInfix)) (fun hc => h' (by
      rw [e]; exact hc.trans (List.suffix_cons ..)))
    rw [List.cons_append, skipComment, if_neg, ih]
    rintro ⟨rfl, rfl, _⟩
    exact h ⟨[], b :: s, rfl⟩

/-- With `k` angle brackets open, the decoder gets over `s` and keeps `t`. -/
def Through (k : Nat) (s t : Bytes) : Prop := ∀ buf r : Bytes, dl 0 k buf (s ++ r) = dl 0 k (buf ++ t) r

theorem through_append {k : Nat} {s t s' t' : Bytes} (h : Through k s t) (h' : Through k s' t') : Through k (s ++ s') (t ++ t') := by
  intro buf r
  rw [List.append_assoc, h, h', List.append_assoc]

theorem through_nil (k : Nat) : Through k [] [] := by intro buf r; simp

theorem through_bare (k : Nat) : ∀ (s : Bytes), (∀ b ∈ s, plainByte b = true) → Through k s s
  | [], _ => through_nil k
  | b :: s, h => by
    intro buf r
    rw [List.cons_append, dl_char b (h b (by simp)), through_bare k s (fun x hx => h x (by simp [hx]))]
    simp

theorem dl_quoted {q : UInt8} (hq : q = ch%'\'' ∨ q = ch%'"') (k : Int) : ∀ (s : Bytes), q ∉ s → ∀ buf r : Bytes,
    dl q k buf (s ++ q :: r) = dl 0 k (buf ++ (s ++ [q])) r
  | [], _, buf, r => by rw [List.nil_append, dl_inq hq, if_pos rfl]; rfl
  | b :: s, h, buf, r => by
    have hb : b ≠ q := fun e => h (by simp [e])
    rw [List.cons_append, dl_inq hq, if_neg hb, dl_quoted hq k s (fun hm => h (by simp [hm]))]
    simp

theorem through_literal (k : Nat) (l : Literal) (h : l.Ok) : Through k l.src l.src := by
  have hq : quoteByte l.quote = ch%'\'' ∨ quoteByte l.quote = ch%'"' := by
    unfold quoteByte; split <;> decide
  have e : l.src = quoteByte l.quote :: (l.text ++ [quoteByte l.quote]) := by simp [Literal.src, quoteOf_eq]
  intro buf r
  rw [e, List.cons_append, dl_quote hq, List.append_assoc, List.singleton_append,
    dl_quoted hq _ _ (fun hm => h.2 _ hm (by simp [quoteOf_eq]))]
  simp

theorem through_comment (k : Nat) (c : Bytes) (h : (Node.comment c).Ok) : Through k (Node.comment c).src (b!" ") := by
  simp only [Node.Ok] at h
  intro buf r
  have e : (Node.comment c).src ++ r = ch%'<' :: (b!"!--" ++ (c ++ (b!"-->" ++ r))) := by simp [Node.src]
  rw [e, dl, List.length_cons, dirLoop, if_neg (by simp), if_neg (by decide), if_neg (by simp), if_neg (by decide), if_neg (by decide), if_pos rfl]
  have hl : dirLt (b!"!--" ++ (c ++ (b!"-->" ++ r))) = .comment (c ++ (b!"-->" ++ r)) := rfl
  rw [hl]
  dsimp only
  rw [skipComment_spec c 0 0 r (fun hc => h.1 (infix_cons_ne (by decide) (infix_cons_ne (by decide) hc)))
    (fun hc => h.2 (suffix_cons_ne (by decide) (suffix_cons_ne (by decide) hc)))]
  dsimp only
  exact dl_step _ _ _ _ _ (by simp; omega)

/-- Something between angle brackets. -/
theorem through_angle (k : Nat) (s t : Bytes) (hc : ∀ r, ¬ (b!"!--") <+: (s ++ ch%'>' :: r)) (h : Through (k + 1) s t) :
    Through k (ch%'<' :: (s ++ b!">")) (ch%'<' :: (t ++ b!">")) := by
  intro buf r
  have e : ch%'<' :: (s ++ b!">") ++ r = ch%'<' :: (s ++ ch%'>' :: r) := by simp
  rw [e, dl_open _ _ _ (hc r), h, dl_close]
  simp

theorem bare_plain {b : UInt8} (h : Bare b) : plainByte b = true := by
  simp only [plainByte, Bool.and_eq_true, bne_iff_ne]
  unfold Bare at h
  tauto

theorem plain_space {s : Bytes} (h : IsS s) : ∀ b ∈ s, plainByte b = true := by
  intro b hb
  have := isS_mem h b hb
  have key : ∀ n : Fin 256, isSpace (UInt8.ofNat n.val) = true → plainByte (UInt8.ofNat n.val) = true := by decide +kernel
  have k := key ⟨b.toNat, b.toNat_lt⟩
  simp only [UInt8.ofNat_toNat] at k
  exact k this

theorem plain_name {n : Name} (h : IsQName n) : ∀ b ∈ qname n, plainByte b = true := by
  have key : ∀ n : Fin 256, nameOrHigh (UInt8.ofNat n.val) = true → plainByte (UInt8.ofNat n.val) = true := by decide +kernel
  have key' : ∀ b : UInt8, nameOrHigh b = true → plainByte b = true := fun b hb => by
    have k := key ⟨b.toNat, b.toNat_lt⟩
    simp only [UInt8.ofNat_toNat] at k
    exact k hb
  obtain ⟨h1, h2⟩ := h
  intro b hb
  unfold qname at hb
  split at hb
  · exact key' b (isName_bytes h2.1 b hb)
  · rename_i hs
    rcases List.mem_append.1 hb with hb | hb
    · rcases h1 with h1 | h1
      · exact absurd h1 hs
      · exact key' b (isName_bytes h1.1 b hb)
    · rcases List.mem_cons.1 hb with rfl | hb
      · decide
      · exact key' b (isName_bytes h2.1 b hb)

theorem name_plain {s : Bytes} (h : isName s = true) : ∀ b ∈ s, plainByte b = true := by
  have key : ∀ n : Fin 256, nameOrHigh (UInt8.ofNat n.val) = true → plainByte (UInt8.ofNat n.val) = true := by decide +kernel
  intro b hb
  have k := key ⟨b.toNat, b.toNat_lt⟩
  simp only [UInt8.ofNat_toNat] at k
  exact k (isName_bytes h b hb)

theorem through_pieces (k : Nat) : ∀ (ps : List Piece), (∀ p ∈ ps, p.Ok) → Through k (ps.flatMap Piece.src) (ps.flatMap Piece.src)
  | [], _ => through_nil k
  | p :: ps, h => by
    rw [List.flatMap_cons]
    refine through_append ?_ (through_pieces k ps fun x hx => h x (by simp [hx]))
    have hp := h p (by simp)
    cases p with
    | bare s => exact through_bare k s fun b hb => bare_plain (hp.2 b hb)
    | lit l => exact through_literal k l hp

theorem through_item (k : Nat) (x : SubItem) (h : x.Ok) (hp : x.Plain) : ∃ t, Through k x.src t := by
  cases x with
  | space s => exact ⟨_, through_bare k s (plain_space h)⟩
  | peRef n => exact ⟨_, through_append (through_bare k _ (by decide)) (through_append (through_bare k n (name_plain h.1)) (through_bare k _ (by decide)))⟩
  | decl kind gap ps =>
    have e : (SubItem.decl kind gap ps).src = ch%'<' :: (ch%'!' :: (kind.src ++ (gap ++ ps.flatMap Piece.src)) ++ b!">") := by simp [SubItem.src]
    rw [e]
    exact ⟨_, through_angle k _ _ (by intro r; cases kind <;> simp [DeclKind.src])
      (through_append (s := b!"!") (through_bare _ _ (by decide)) (through_append (through_bare _ kind.src (by cases kind <;> decide))
        (through_append (through_bare _ _ (plain_space h.1.2)) (through_pieces _ ps h.2))))⟩
  | comment c => exact ⟨_, through_comment k c h⟩
  | pi t g d =>
    have h' := h
    simp only [SubItem.Ok, Node.Ok] at h'
    have e : (SubItem.pi t g d).src = ch%'<' :: (ch%'?' :: (t ++ (g ++ (d ++ b!"?"))) ++ b!">") := by simp [SubItem.src, Node.src]
    rw [e]
    refine ⟨_, through_angle k _ _ (by intro r; simp) (through_append (s := b!"?") (through_bare _ _ (by decide)) (through_append (through_bare _ t (name_plain h'.1))
        (through_append (through_bare _ _ (plain_space h'.2.2.1)) (through_append (through_bare _ d fun b hb => bare_plain (hp b hb)) (through_bare _ _ (by decide))))))⟩

theorem through_items (k : Nat) : ∀ (l : List SubItem), (∀ x ∈ l, x.Ok) → (∀ x ∈ l, x.Plain) → ∃ t, Through k (l.flatMap SubItem.src) t
  | [], _, _ => ⟨_, through_nil k⟩
  | x :: l, h, hp => by
    obtain ⟨t, ht⟩ := through_item k x (h x (by simp)) (hp x (by simp))
    obtain ⟨u, hu⟩ := through_items k l (fun y hy => h y (by simp [hy])) (fun y hy => hp y (by simp [hy]))
    exact ⟨t ++ u, by rw [List.flatMap_cons]; exact through_append ht hu⟩

theorem rawToken_doctype (d : Doctype) (h : d.Ok) (hp : ∀ x ∈ d.subset, ∀ y ∈ x.1, y.Plain) (r : Bytes) :
    ∃ t, rawToken ⟨d.src ++ r, none⟩ = .ok (.directive t, ⟨r, none⟩) := by
  have hs : ∀ {s : Bytes}, IsS s → Through 0 s s := fun h => through_bare 0 _ (plain_space h)
  have hin : ∃ t, Through 0 d.inner t := by
    unfold Doctype.inner
    have hsub := h.subset
    rcases hd : d.subset with _ | ⟨l, g⟩
    · exact ⟨_, through_nil 0⟩
    · obtain ⟨a1, a2⟩ := hsub _ (by rw [hd]; rfl)
      obtain ⟨t, ht⟩ := through_items 0 l a1 (hp _ (by rw [hd]; rfl))
      exact ⟨_, through_append (through_bare 0 _ (by decide)) (through_append ht (through_append (through_bare 0 _ (by decide)) (hs a2)))⟩
  obtain ⟨ti, hin⟩ := hin
  have hpass : ∃ t, Through 0 (b!"OCTYPE" ++ (d.gap ++ (qname d.name ++ d.tail))) t := by
    unfold Doctype.tail
    have he := h.ext
    rcases hd : d.ext with _ | ⟨g, _ | ⟨g1, p⟩, g', l⟩
    · exact ⟨_, through_append (through_bare 0 _ (by decide)) (through_append (hs h.gap.2) (through_append (through_bare 0 _ (plain_name h.name))
        (through_append (through_nil 0) (through_append (hs h.last) hin))))⟩
    · obtain ⟨⟨_, a1⟩, _, ⟨_, a2⟩, a3⟩ := he _ (by rw [hd]; rfl)
      exact ⟨_, through_append (through_bare 0 _ (by decide)) (through_append (hs h.gap.2) (through_append (through_bare 0 _ (plain_name h.name))
        (through_append (through_append (hs a1) (through_append (through_bare 0 _ (by decide)) (through_append (hs a2) (through_literal 0 l a3))))
          (through_append (hs h.last) hin))))⟩
    · obtain ⟨⟨_, a1⟩, a4, ⟨_, a2⟩, a3⟩ := he _ (by rw [hd]; rfl)
      obtain ⟨⟨_, a5⟩, a6⟩ := a4 _ rfl
      exact ⟨_, through_append (through_bare 0 _ (by decide)) (through_append (hs h.gap.2) (through_append (through_bare 0 _ (plain_name h.name))
        (through_append (through_append (hs a1) (through_append (through_bare 0 _ (by decide)) (through_append (hs a5) (through_append (through_literal 0 p a6)
          (through_append (hs a2) (through_literal 0 l a3)))))) (through_append (hs h.last) hin))))⟩
  obtain ⟨t, ht⟩ := hpass
  have e : d.src ++ r = ch%'<' :: ch%'!' :: ch%'D' :: ((b!"OCTYPE" ++ (d.gap ++ (qname d.name ++ d.tail))) ++ ch%'>' :: r) := by
    simp [Doctype.src]
  refine ⟨ch%'D' :: t, ?_⟩
  unfold rawToken
  simp only [e]
  rw [if_neg (by simp), if_neg (by decide), if_neg (by decide), if_pos trivial]
  unfold bangTag
  dsimp only
  rw [if_neg (by decide), if_neg (by decide)]
  have hd := ht (b!"D") (ch%'>' :: r)
  rw [show ((0 : Nat) : Int) = 0 from rfl, dl_end] at hd
  unfold dl at hd
  rw [hd]
  rfl

end Verif.Grammar

import Verif.XmlTokenProps

/-!
A token depends only on the bytes it consumes and, for tokens other than tags, on the byte after them.  Each lemma gives
the bytes `p` consumed and says that the same result is obtained from `p` followed by anything else.
-/
namespace Verif.Xml

open Verif.Utf8

/-- Two inputs start with the same byte, or are both at their end. -/
def SameHead (r r' : Bytes) : Prop := r.head? = r'.head?

theorem sameHead_cons (b : UInt8) (r r' : Bytes) : SameHead (b :: r) (b :: r') := rfl

theorem sameHead_append (p r r' : Bytes) (h : p ≠ []) : SameHead (p ++ r) (p ++ r') := by
  cases p with
  | nil => exact absurd rfl h
  | cons b p => rfl

theorem span_local (f : UInt8 → Bool) (s r' : Bytes) (h : SameHead (s.dropWhile f) r') :
    (s.takeWhile f ++ r').takeWhile f = s.takeWhile f ∧ (s.takeWhile f ++ r').dropWhile f = r' := by
  induction s with
  | nil =>
    simp only [List.dropWhile_nil, SameHead, List.head?_nil] at h
    cases r' with
    | nil => exact ⟨rfl, rfl⟩
    | cons b r' => simp at h
  | cons b s ih =>
    simp only [List.takeWhile_cons, List.dropWhile_cons] at h ⊢
    cases hb : f b with
    | true =>
      rw [hb] at h
      simp only [if_true] at h ⊢
      obtain ⟨h1, h2⟩ := ih h
      simp [hb, h1, h2]
    | false =>
      rw [hb] at h
      cases r' with
      | nil => simp [SameHead] at h
      | cons c r' =>
        simp only [SameHead, Bool.false_eq_true, if_false, List.head?_cons, Option.some.injEq] at h
        subst h
        simp [hb]

theorem readName_local (s nm r : Bytes) (h : readName s = .ok (nm, r)) :
    s = nm ++ r ∧ ∀ r', SameHead r r' → readName (nm ++ r') = .ok (nm, r') := by
  refine ⟨(readName_eq _ _ _ h).symm, fun r' hr => ?_⟩
  unfold readName at h
  split at h
  · cases h
  · rename_i hne
    injection h with h; injection h with h1 h2
    subst h1
    subst h2
    obtain ⟨k1, k2⟩ := span_local nameOrHigh s r' hr
    unfold readName
    rw [k1, k2]
    cases r' with
    | nil =>
      exfalso
      apply hne
      unfold SameHead at hr
      cases hd : s.dropWhile nameOrHigh with
      | nil => rfl
      | cons b t => rw [hd] at hr; simp at hr
    | cons c r' => rfl

theorem readXmlName_local (s nm r : Bytes) (h : readXmlName s = .ok (some (nm, r))) :
    s = nm ++ r ∧ ∀ r', SameHead r r' → readXmlName (nm ++ r') = .ok (some (nm, r')) := by
  unfold readXmlName at h
  split at h
  · cases h
  · cases h
  · rename_i nm' r0 hne he
    split at h
    · rename_i hn
      injection h with h; injection h with h; injection h with h1 h2
      subst h1; subst h2
      obtain ⟨k1, k2⟩ := readName_local _ _ _ he
      refine ⟨k1, fun r' hr => ?_⟩
      unfold readXmlName
      rw [k2 r' hr]
      cases nm' with
      | nil => exact absurd rfl hne
      | cons b t => dsimp only; rw [if_pos hn]
    · cases h

theorem nsname_local (s : Bytes) (n : Name) (r : Bytes) (h : nsname s = .ok (some (n, r))) :
    ∃ p, p ≠ [] ∧ s = p ++ r ∧ ∀ r', SameHead r r' → nsname (p ++ r') = .ok (some (n, r')) := by
  have hlt := nsname_lt _ _ _ h
  unfold nsname at h
  split at h
  · cases h
  · cases h
  · rename_i nm r0 he
    split at h
    · cases h
    · rename_i n' hs
      injection h with h; injection h with h; injection h with h1 h2
      subst h1; subst h2
      obtain ⟨k1, k2⟩ := readXmlName_local _ _ _ he
      refine ⟨nm, ?_, k1, fun r' hr => ?_⟩
      · rintro rfl
        rw [k1] at hlt
        simp at hlt
      · unfold nsname
        rw [k2 r' hr]
        dsimp only
        rw [hs]

theorem numRef_local (hex : Bool) (s t r : Bytes) (h : numRef hex s = .ok (t, r)) :
    ∃ p, s = p ++ r ∧ ∀ r', numRef hex (p ++ r') = .ok (t, r') := by
  unfold numRef at h
  split at h
  · cases h
  · rename_i b r0 hd
    split at h
    · cases h
    · rename_i hb
      split at h
      · rename_i hc
        injection h with h; injection h with h1 h2
        subst h1; subst h2
        refine ⟨s.takeWhile (isRefDigit hex) ++ [b], ?_, fun r' => ?_⟩
        · have := List.takeWhile_append_dropWhile (p := isRefDigit hex) (l := s)
          rw [hd] at this
          rw [List.append_assoc]
          exact this.symm
        · obtain ⟨k1, k2⟩ := span_local (isRefDigit hex) s (b :: r') (by rw [hd]; rfl)
          unfold numRef
          rw [show s.takeWhile (isRefDigit hex) ++ [b] ++ r' = s.takeWhile (isRefDigit hex) ++ b :: r' by simp]
          rw [k1, k2]
          dsimp only
          rw [if_neg hb, if_pos hc]
      · cases h

theorem nameRef_local (s t r : Bytes) (h : nameRef s = .ok (t, r)) :
    ∃ p, p ≠ [] ∧ s = p ++ r ∧ ∀ r', nameRef (p ++ r') = .ok (t, r') := by
  unfold nameRef at h
  split at h
  · cases h
  · cases h
  · rename_i nm b r0 he
    split at h
    · cases h
    · rename_i hb
      split at h
      · rename_i hn
        split at h
        · rename_i c hc
          injection h with h; injection h with h1 h2
          subst h1; subst h2
          obtain ⟨k1, k2⟩ := readName_local _ _ _ he
          refine ⟨nm ++ [b], by simp, by rw [k1]; simp, fun r' => ?_⟩
          unfold nameRef
          rw [show nm ++ [b] ++ r' = nm ++ b :: r' by simp, k2 (b :: r') rfl]
          dsimp only
          rw [if_neg hb, if_pos hn, hc]
        · cases h
      · cases h

theorem entityRef_name (b : UInt8) (r : Bytes) (h : b ≠ ch%'#') : entityRef (b :: r) = nameRef (b :: r) := by
  cases r with
  | nil => simp only [entityRef]; rw [if_neg h]
  | cons c r => simp only [entityRef]; rw [if_neg h]

theorem entityRef_local (s t r : Bytes) (h : entityRef s = .ok (t, r)) :
    ∃ p, s = p ++ r ∧ ∀ r', entityRef (p ++ r') = .ok (t, r') := by
  match s, h with
  | [], h => cases h
  | b :: s, h =>
    by_cases hb : b = ch%'#'
    · cases s with
      | nil => simp only [entityRef] at h; rw [if_pos hb] at h; cases h
      | cons c s =>
        simp only [entityRef] at h
        rw [if_pos hb] at h
        split at h
        · rename_i hc
          obtain ⟨p, rfl, hp⟩ := numRef_local _ _ _ _ h
          refine ⟨b :: c :: p, rfl, fun r' => ?_⟩
          simp only [List.cons_append, entityRef]
          rw [if_pos hb, if_pos hc, hp]
        · rename_i hc
          obtain ⟨p, h1, hp⟩ := numRef_local _ _ _ _ h
          cases p with
          | nil =>
            exfalso
            have hx := hp []
            simp only [List.nil_append, numRef] at hx
            cases hx
          | cons c' p =>
            simp only [List.cons_append, List.cons.injEq] at h1
            obtain ⟨rfl, rfl⟩ := h1
            refine ⟨b :: c :: p, rfl, fun r' => ?_⟩
            simp only [List.cons_append, entityRef]
            rw [if_pos hb, if_neg hc]
            exact hp r'
    · rw [entityRef_name _ _ hb] at h
      obtain ⟨p, hne, h1, hp⟩ := nameRef_local _ _ _ h
      cases p with
      | nil => exact absurd rfl hne
      | cons b' p =>
        simp only [List.cons_append, List.cons.injEq] at h1
        obtain ⟨rfl, rfl⟩ := h1
        refine ⟨b :: p, rfl, fun r' => ?_⟩
        rw [List.cons_append, entityRef_name _ _ hb]
        exact hp r'

theorem textLoop_local (n : Nat) (q : Option UInt8) (cd : Bool) (b0 b1 : UInt8) (buf s d r : Bytes)
    (h : textLoop n q cd b0 b1 buf s = .ok (d, r)) :
    ∃ p, s = p ++ r ∧ ∀ r' m, SameHead r r' → p.length < m → textLoop m q cd b0 b1 buf (p ++ r') = .ok (d, r') := by
  induction n generalizing b0 b1 buf s with
  | zero => cases h
  | succ n ih =>
    match s with
    | [] =>
      simp only [textLoop] at h
      split at h
      · cases h
      · rename_i hcd
        injection h with h; injection h with h1 h2
        subst h1; subst h2
        refine ⟨[], rfl, fun r' m hr hm => ?_⟩
        cases r' with
        | nil =>
          obtain ⟨m, rfl⟩ : ∃ j, m = j + 1 := ⟨m - 1, by simp at hm; omega⟩
          simp only [List.append_nil, textLoop]
          rw [if_neg hcd]
        | cons c r' => simp [SameHead] at hr
    | b :: s =>
      simp only [textLoop] at h
      split at h
      · rename_i hc
        split at h
        · rename_i hcd
          injection h with h; injection h with h1 h2
          subst h1; subst h2
          refine ⟨[b], rfl, fun r' m hr hm => ?_⟩
          obtain ⟨m, rfl⟩ : ∃ j, m = j + 1 := ⟨m - 1, by simp at hm; omega⟩
          simp only [List.cons_append, List.nil_append, textLoop]
          rw [if_pos hc, if_pos hcd]
        · cases h
      rename_i c1
      split at h
      · rename_i c2
        split at h
        · cases h
        · rename_i hq
          injection h with h; injection h with h1 h2
          subst h1; subst h2
          refine ⟨[], rfl, fun r' m hr hm => ?_⟩
          obtain ⟨m, rfl⟩ : ∃ j, m = j + 1 := ⟨m - 1, by simp at hm; omega⟩
          cases r' with
          | nil => simp [SameHead] at hr
          | cons b' r' =>
            simp only [SameHead, List.head?_cons, Option.some.injEq] at hr
            subst hr
            simp only [List.nil_append, textLoop]
            rw [if_neg c1, if_pos c2, if_neg hq]
      rename_i c2
      split at h
      · rename_i c3
        injection h with h; injection h with h1 h2
        subst h1; subst h2
        refine ⟨[], rfl, fun r' m hr hm => ?_⟩
        obtain ⟨m, rfl⟩ : ∃ j, m = j + 1 := ⟨m - 1, by simp at hm; omega⟩
        cases r' with
        | nil => simp [SameHead] at hr
        | cons b' r' =>
          simp only [SameHead, List.head?_cons, Option.some.injEq] at hr
          subst hr
          simp only [List.nil_append, textLoop]
          rw [if_neg c1, if_neg c2, if_pos c3]
      rename_i c3
      split at h
      · rename_i c4
        injection h with h; injection h with h1 h2
        subst h1; subst h2
        refine ⟨[b], rfl, fun r' m hr hm => ?_⟩
        obtain ⟨m, rfl⟩ : ∃ j, m = j + 1 := ⟨m - 1, by simp at hm; omega⟩
        simp only [List.cons_append, List.nil_append, textLoop]
        rw [if_neg c1, if_neg c2, if_neg c3, if_pos c4]
      rename_i c4
      split at h
      · rename_i c5
        split at h
        · cases h
        · rename_i t r1 he
          obtain ⟨p1, k1, k2⟩ := entityRef_local _ _ _ he
          obtain ⟨p2, k3, k4⟩ := ih _ _ _ _ h
          refine ⟨b :: (p1 ++ p2), by rw [k1, k3]; simp, fun r' m hr hm => ?_⟩
          obtain ⟨m, rfl⟩ : ∃ j, m = j + 1 := ⟨m - 1, by simp at hm; omega⟩
          simp only [List.length_cons, List.length_append] at hm
          simp only [List.cons_append, textLoop]
          rw [if_neg c1, if_neg c2, if_neg c3, if_neg c4, if_pos c5, List.append_assoc, k2]
          exact k4 r' m hr (by omega)
      rename_i c5
      obtain ⟨p2, k3, k4⟩ := ih _ _ _ _ h
      refine ⟨b :: p2, by rw [k3]; simp, fun r' m hr hm => ?_⟩
      obtain ⟨m, rfl⟩ : ∃ j, m = j + 1 := ⟨m - 1, by simp at hm; omega⟩
      simp only [List.length_cons] at hm
      simp only [List.cons_append, textLoop]
      rw [if_neg c1, if_neg c2, if_neg c3, if_neg c4, if_neg c5]
      exact k4 r' m hr (by omega)

theorem text_local (q : Option UInt8) (cd : Bool) (s d r : Bytes) (h : text q cd s = .ok (d, r)) :
    ∃ p, s = p ++ r ∧ ∀ r', SameHead r r' → text q cd (p ++ r') = .ok (d, r') := by
  unfold text at h
  split at h
  · cases h
  · rename_i data r0 ht
    split at h
    · cases h
    · rename_i hc
      injection h with h; injection h with h1 h2
      subst h1; subst h2
      obtain ⟨p, k1, k2⟩ := textLoop_local _ _ _ _ _ _ _ _ _ ht
      refine ⟨p, k1, fun r' hr => ?_⟩
      unfold text
      rw [k2 r' _ hr (by simp; omega)]
      dsimp only
      rw [hc]

theorem skipSpace_local (s : Bytes) :
    ∃ p, s = p ++ skipSpace s ∧ ∀ r', SameHead (skipSpace s) r' → skipSpace (p ++ r') = r' :=
  ⟨s.takeWhile isSpace, List.takeWhile_append_dropWhile.symm, fun r' hr => (span_local isSpace s r' hr).2⟩

theorem attrval_local (s d r : Bytes) (h : attrval s = .ok (d, r)) :
    ∃ p, p ≠ [] ∧ s = p ++ r ∧ ∀ r', SameHead r r' → attrval (p ++ r') = .ok (d, r') := by
  match s, h with
  | [], h => cases h
  | b :: s, h =>
    simp only [attrval] at h
    split at h
    · rename_i hb
      obtain ⟨p, rfl, hp⟩ := text_local _ _ _ _ _ h
      refine ⟨b :: p, by simp, rfl, fun r' hr => ?_⟩
      simp only [List.cons_append, attrval]
      rw [if_pos hb]
      exact hp r' hr
    · cases h

theorem readAttr_local (s : Bytes) (a : Attr) (r : Bytes) (h : readAttr s = .ok (a, r)) :
    ∃ p, p ≠ [] ∧ s = p ++ r ∧ ∀ r', SameHead r r' → readAttr (p ++ r') = .ok (a, r') := by
  unfold readAttr at h
  split at h
  · cases h
  · cases h
  · rename_i n r0 he
    obtain ⟨p0, hne0, e0, l0⟩ := nsname_local _ _ _ he
    obtain ⟨p1, e1, l1⟩ := skipSpace_local r0
    split at h
    · cases h
    · rename_i b r1 hs
      rw [hs] at e1 l1
      split at h
      · cases h
      · rename_i hb
        obtain ⟨p2, e2, l2⟩ := skipSpace_local r1
        split at h
        · cases h
        · rename_i v r2 hv
          injection h with h; injection h with h1 h2
          subst h1; subst h2
          obtain ⟨p3, hne3, e3, l3⟩ := attrval_local _ _ _ hv
          rw [e3] at e2 l2
          refine ⟨p0 ++ (p1 ++ (b :: (p2 ++ p3))), by simp [hne0], by rw [e0, e1, e2]; simp, fun r' hr => ?_⟩
          unfold readAttr
          have x0 : SameHead r0 (p1 ++ (b :: (p2 ++ (p3 ++ r')))) := by
            rw [e1]
            cases p1 <;> rfl
          simp only [List.append_assoc, List.cons_append]
          rw [l0 _ x0]
          dsimp only
          rw [l1 _ (sameHead_cons _ _ _)]
          dsimp only
          rw [if_neg hb, l2 _ (sameHead_append _ _ _ hne3), l3 _ hr]

theorem attrLoop_local (n : Nat) (acc : List Attr) (s : Bytes) (as : List Attr) (e : Bool) (r : Bytes)
    (h : attrLoop n acc s = .ok (as, e, r)) :
    ∃ p, p ≠ [] ∧ s = p ++ r ∧ ∀ r' m, p.length < m → attrLoop m acc (p ++ r') = .ok (as, e, r') := by
  induction n generalizing acc s with
  | zero => cases h
  | succ n ih =>
    simp only [attrLoop] at h
    obtain ⟨p0, e0, l0⟩ := skipSpace_local s
    split at h
    · cases h
    · rename_i b r0 hs
      rw [hs] at e0 l0
      split at h
      · rename_i hb
        split at h
        · cases h
        · rename_i c r1
          split at h
          · cases h
          · rename_i hc
            injection h with h; injection h with h1 h2; injection h2 with h2 h3
            subst h1; subst h2; subst h3
            refine ⟨p0 ++ [b, c], by simp, by rw [e0]; simp, fun r' m hm => ?_⟩
            obtain ⟨m, rfl⟩ : ∃ j, m = j + 1 := ⟨m - 1, by simp at hm; omega⟩
            simp only [attrLoop, List.append_assoc, List.cons_append, List.nil_append]
            rw [l0 _ (sameHead_cons _ _ _)]
            dsimp only
            rw [if_pos hb, if_neg hc]
      rename_i hb
      split at h
      · rename_i hc
        injection h with h; injection h with h1 h2; injection h2 with h2 h3
        subst h1; subst h2; subst h3
        refine ⟨p0 ++ [b], by simp, by rw [e0]; simp, fun r' m hm => ?_⟩
        obtain ⟨m, rfl⟩ : ∃ j, m = j + 1 := ⟨m - 1, by simp at hm; omega⟩
        simp only [attrLoop, List.append_assoc, List.cons_append, List.nil_append]
        rw [l0 _ (sameHead_cons _ _ _)]
        dsimp only
        rw [if_neg hb, if_pos hc]
      rename_i hc
      split at h
      · cases h
      · rename_i a r1 ha
        obtain ⟨p1, hne1, e1, l1⟩ := readAttr_local _ _ _ ha
        obtain ⟨p2, hne2, e2, l2⟩ := ih _ _ h
        refine ⟨p0 ++ (p1 ++ p2), by simp [hne1], by rw [e0, e1, e2]; simp, fun r' m hm => ?_⟩
        obtain ⟨m, rfl⟩ : ∃ j, m = j + 1 := ⟨m - 1, by simp at hm; omega⟩
        simp only [List.length_append] at hm
        have hl1 : 0 < p1.length := List.length_pos_iff.2 hne1
        cases p1 with
        | nil => exact absurd rfl hne1
        | cons b' p1 =>
          simp only [List.cons_append, List.cons.injEq] at e1
          obtain ⟨rfl, -⟩ := e1
          simp only [attrLoop, List.append_assoc]
          rw [l0 _ (by exact sameHead_cons _ _ _)]
          simp only [List.cons_append]
          rw [if_neg hb, if_neg hc]
          rw [e2] at l1
          have := l1 (p2 ++ r') (sameHead_append _ _ _ hne2)
          simp only [List.cons_append] at this
          rw [this]
          simp only [List.length_cons] at hm
          exact l2 r' m (by omega)

theorem piLoop_local (b0 : UInt8) (buf s d r : Bytes) (h : piLoop b0 buf s = .ok (d, r)) :
    ∃ p, p ≠ [] ∧ s = p ++ r ∧ ∀ r', piLoop b0 buf (p ++ r') = .ok (d, r') := by
  induction s generalizing b0 buf with
  | nil => cases h
  | cons b s ih =>
    simp only [piLoop] at h
    split at h
    · rename_i hb
      injection h with h; injection h with h1 h2
      subst h1; subst h2
      refine ⟨[b], by simp, rfl, fun r' => ?_⟩
      simp only [List.cons_append, List.nil_append, piLoop]
      rw [if_pos hb]
    · rename_i hb
      obtain ⟨p, -, e, l⟩ := ih _ _ h
      refine ⟨b :: p, by simp, by rw [e]; rfl, fun r' => ?_⟩
      simp only [List.cons_append, piLoop]
      rw [if_neg hb]
      exact l r'

theorem commentLoop_local (b0 b1 : UInt8) (buf s d r : Bytes) (h : commentLoop b0 b1 buf s = .ok (d, r)) :
    ∃ p, s = p ++ r ∧ ∀ r', commentLoop b0 b1 buf (p ++ r') = .ok (d, r') := by
  induction s generalizing b0 b1 buf with
  | nil => cases h
  | cons b s ih =>
    simp only [commentLoop] at h
    split at h
    · rename_i hb
      split at h
      · cases h
      · rename_i hc
        injection h with h; injection h with h1 h2
        subst h1; subst h2
        refine ⟨[b], rfl, fun r' => ?_⟩
        simp only [List.cons_append, List.nil_append, commentLoop]
        rw [if_pos hb, if_neg hc]
    · rename_i hb
      obtain ⟨p, e, l⟩ := ih _ _ _ h
      refine ⟨b :: p, by rw [e]; rfl, fun r' => ?_⟩
      simp only [List.cons_append, commentLoop]
      rw [if_neg hb]
      exact l r'

theorem skipComment_local (b0 b1 : UInt8) (s r : Bytes) (h : skipComment b0 b1 s = .ok r) :
    ∃ p, s = p ++ r ∧ ∀ r', skipComment b0 b1 (p ++ r') = .ok r' := by
  induction s generalizing b0 b1 with
  | nil => cases h
  | cons b s ih =>
    simp only [skipComment] at h
    split at h
    · rename_i hb
      injection h with h
      subst h
      refine ⟨[b], rfl, fun r' => ?_⟩
      simp only [List.cons_append, List.nil_append, skipComment]
      rw [if_pos hb]
    · rename_i hb
      obtain ⟨p, e, l⟩ := ih _ _ h
      refine ⟨b :: p, by rw [e]; rfl, fun r' => ?_⟩
      simp only [List.cons_append, skipComment]
      rw [if_neg hb]
      exact l r'

theorem dirLt_notComment_local (s w r : Bytes) (h : dirLt s = .notComment w r) :
    ∃ p, s = p ++ r ∧ ∀ r', SameHead r r' → dirLt (p ++ r') = .notComment w r' := by
  unfold dirLt at h
  split at h
  · cases h
  · rename_i a s
    split at h
    · rename_i ha
      injection h with h1 h2; subst h1; subst h2
      refine ⟨[], rfl, fun r' hr => ?_⟩
      cases r' with
      | nil => simp [SameHead] at hr
      | cons c r' =>
        simp only [SameHead, List.head?_cons, Option.some.injEq] at hr
        subst hr
        simp only [List.nil_append, dirLt]
        rw [if_pos ha]
    · rename_i ha
      split at h
      · cases h
      · rename_i b t
        split at h
        · rename_i hb
          injection h with h1 h2; subst h1; subst h2
          refine ⟨[a], rfl, fun r' hr => ?_⟩
          cases r' with
          | nil => simp [SameHead] at hr
          | cons c r' =>
            simp only [SameHead, List.head?_cons, Option.some.injEq] at hr
            subst hr
            simp only [List.cons_append, List.nil_append, dirLt]
            rw [if_neg ha, if_pos hb]
        · rename_i hb
          split at h
          · cases h
          · rename_i c u
            split at h
            · rename_i hc
              injection h with h1 h2; subst h1; subst h2
              refine ⟨[a, b], rfl, fun r' hr => ?_⟩
              cases r' with
              | nil => simp [SameHead] at hr
              | cons c' r' =>
                simp only [SameHead, List.head?_cons, Option.some.injEq] at hr
                subst hr
                simp only [List.cons_append, List.nil_append, dirLt]
                rw [if_neg ha, if_neg hb, if_pos hc]
            · cases h

theorem dirLt_comment_local (s r : Bytes) (h : dirLt s = .comment r) :
    ∃ p, s = p ++ r ∧ ∀ r', dirLt (p ++ r') = .comment r' := by
  unfold dirLt at h
  split at h
  · cases h
  · rename_i a s
    split at h
    · cases h
    · rename_i ha
      split at h
      · cases h
      · rename_i b t
        split at h
        · cases h
        · rename_i hb
          split at h
          · cases h
          · rename_i c u
            split at h
            · cases h
            · rename_i hc
              injection h with h; subst h
              refine ⟨[a, b, c], rfl, fun r' => ?_⟩
              simp only [List.cons_append, List.nil_append, dirLt]
              rw [if_neg ha, if_neg hb, if_neg hc]

theorem dirLoop_local (n : Nat) (hd : Bool) (inq : UInt8) (depth : Int) (buf s d r : Bytes)
    (h : dirLoop n hd inq depth buf s = .ok (d, r)) :
    ∃ p, p ≠ [] ∧ s = p ++ r ∧ ∀ r' m, p.length < m → dirLoop m hd inq depth buf (p ++ r') = .ok (d, r') := by
  induction n generalizing hd inq depth buf s with
  | zero => cases h
  | succ n ih =>
    match s with
    | [] => cases h
    | b :: s =>
      simp only [dirLoop] at h
      split at h
      · rename_i c1
        injection h with h; injection h with h1 h2
        subst h1; subst h2
        refine ⟨[b], by simp, rfl, fun r' m hm => ?_⟩
        obtain ⟨m, rfl⟩ : ∃ j, m = j + 1 := ⟨m - 1, by simp at hm; omega⟩
        simp only [List.cons_append, List.nil_append, dirLoop]
        rw [if_pos c1]
      rename_i c1
      split at h
      · rename_i c2
        obtain ⟨p, -, e, l⟩ := ih _ _ _ _ _ h
        refine ⟨b :: p, by simp, by rw [e]; rfl, fun r' m hm => ?_⟩
        obtain ⟨m, rfl⟩ : ∃ j, m = j + 1 := ⟨m - 1, by simp at hm; omega⟩
        simp only [List.length_cons] at hm
        simp only [List.cons_append, dirLoop]
        rw [if_neg c1, if_pos c2]
        exact l r' m (by omega)
      rename_i c2
      split at h
      · rename_i c3
        obtain ⟨p, -, e, l⟩ := ih _ _ _ _ _ h
        refine ⟨b :: p, by simp, by rw [e]; rfl, fun r' m hm => ?_⟩
        obtain ⟨m, rfl⟩ : ∃ j, m = j + 1 := ⟨m - 1, by simp at hm; omega⟩
        simp only [List.length_cons] at hm
        simp only [List.cons_append, dirLoop]
        rw [if_neg c1, if_neg c2, if_pos c3]
        exact l r' m (by omega)
      rename_i c3
      split at h
      · rename_i c4
        obtain ⟨p, -, e, l⟩ := ih _ _ _ _ _ h
        refine ⟨b :: p, by simp, by rw [e]; rfl, fun r' m hm => ?_⟩
        obtain ⟨m, rfl⟩ : ∃ j, m = j + 1 := ⟨m - 1, by simp at hm; omega⟩
        simp only [List.length_cons] at hm
        simp only [List.cons_append, dirLoop]
        rw [if_neg c1, if_neg c2, if_neg c3, if_pos c4]
        exact l r' m (by omega)
      rename_i c4
      split at h
      · rename_i c5
        obtain ⟨p, -, e, l⟩ := ih _ _ _ _ _ h
        refine ⟨b :: p, by simp, by rw [e]; rfl, fun r' m hm => ?_⟩
        obtain ⟨m, rfl⟩ : ∃ j, m = j + 1 := ⟨m - 1, by simp at hm; omega⟩
        simp only [List.length_cons] at hm
        simp only [List.cons_append, dirLoop]
        rw [if_neg c1, if_neg c2, if_neg c3, if_neg c4, if_pos c5]
        exact l r' m (by omega)
      rename_i c5
      split at h
      · rename_i c6
        split at h
        · cases h
        · rename_i w r1 he
          obtain ⟨p1, e1, l1⟩ := dirLt_notComment_local _ _ _ he
          obtain ⟨p, hne, e, l⟩ := ih _ _ _ _ _ h
          refine ⟨b :: (p1 ++ p), by simp, by rw [e1, e]; simp, fun r' m hm => ?_⟩
          obtain ⟨m, rfl⟩ : ∃ j, m = j + 1 := ⟨m - 1, by simp at hm; omega⟩
          simp only [List.length_cons, List.length_append] at hm
          rw [e] at l1
          simp only [List.cons_append, List.append_assoc, dirLoop]
          rw [if_neg c1, if_neg c2, if_neg c3, if_neg c4, if_neg c5, if_pos c6, l1 _ (sameHead_append _ _ _ hne)]
          simpa using l r' m (by omega)
        · rename_i r1 he
          obtain ⟨p1, e1, l1⟩ := dirLt_comment_local _ _ he
          split at h
          · cases h
          · rename_i r2 hs
            obtain ⟨p2, e2, l2⟩ := skipComment_local _ _ _ _ hs
            obtain ⟨p, hne, e, l⟩ := ih _ _ _ _ _ h
            refine ⟨b :: (p1 ++ (p2 ++ p)), by simp, by rw [e1, e2, e]; simp, fun r' m hm => ?_⟩
            obtain ⟨m, rfl⟩ : ∃ j, m = j + 1 := ⟨m - 1, by simp at hm; omega⟩
            simp only [List.length_cons, List.length_append] at hm
            simp only [List.cons_append, List.append_assoc, dirLoop]
            rw [if_neg c1, if_neg c2, if_neg c3, if_neg c4, if_neg c5, if_pos c6, l1]
            dsimp only
            rw [l2]
            exact l r' m (by omega)
      rename_i c6
      obtain ⟨p, -, e, l⟩ := ih _ _ _ _ _ h
      refine ⟨b :: p, by simp, by rw [e]; rfl, fun r' m hm => ?_⟩
      obtain ⟨m, rfl⟩ : ∃ j, m = j + 1 := ⟨m - 1, by simp at hm; omega⟩
      simp only [List.length_cons] at hm
      simp only [List.cons_append, dirLoop]
      rw [if_neg c1, if_neg c2, if_neg c3, if_neg c4, if_neg c5, if_neg c6]
      exact l r' m (by omega)

theorem cdataOpen_local (w s r : Bytes) (h : cdataOpen w s = .ok r) :
    s = w ++ r ∧ ∀ r', cdataOpen w (w ++ r') = .ok r' := by
  induction w generalizing s with
  | nil =>
    simp only [cdataOpen] at h
    injection h with h
    exact ⟨h, fun _ => rfl⟩
  | cons c w ih =>
    cases s with
    | nil => cases h
    | cons b s =>
      simp only [cdataOpen] at h
      split at h
      · cases h
      · rename_i hb
        obtain ⟨e, l⟩ := ih _ h
        refine ⟨?_, fun r' => ?_⟩
        · rw [Decidable.not_not.1 hb, e]; rfl
        · simp only [List.cons_append, cdataOpen]
          rw [if_neg (by simp)]
          exact l r'

/-! ### Tokens -/

/-- A start tag or an end tag. -/
def Token.isTag : Token → Bool
  | .startElement _ _ => true
  | .endElement _ => true
  | _ => false

/-- The bytes a function reads, and what it may depend on: nothing else for a tag, the next byte for other tokens. -/
def LocalTag (f : Bytes → Except XErr (Token × Raw)) : Prop :=
  ∀ s t st, f s = .ok (t, st) → ∃ p, s = p ++ st.rest ∧
    ∀ r', (SameHead st.rest r' ∨ t.isTag = true) → f (p ++ r') = .ok (t, ⟨r', st.toClose⟩)

theorem endTag_local : LocalTag endTag := by
  intro s t st h
  unfold endTag at h
  split at h
  · cases h
  · cases h
  · rename_i n r0 he
    obtain ⟨p0, hne0, e0, l0⟩ := nsname_local _ _ _ he
    obtain ⟨p1, e1, l1⟩ := skipSpace_local r0
    split at h
    · cases h
    · rename_i b r1 hs
      rw [hs] at e1 l1
      split at h
      · cases h
      · rename_i hb
        injection h with h; injection h with h1 h2
        subst h1; subst h2
        refine ⟨p0 ++ (p1 ++ [b]), by rw [e0, e1]; simp, fun r' _ => ?_⟩
        unfold endTag
        simp only [List.append_assoc, List.cons_append, List.nil_append]
        rw [l0 (p1 ++ b :: r') (by rw [e1]; cases p1 <;> rfl)]
        dsimp only
        rw [l1 _ (sameHead_cons _ _ _)]
        dsimp only
        rw [if_neg hb]

theorem piTag_local : LocalTag piTag := by
  intro s t st h
  unfold piTag at h
  split at h
  · cases h
  · cases h
  · rename_i n r0 he
    obtain ⟨e0, l0⟩ := readXmlName_local _ _ _ he
    obtain ⟨p1, e1, l1⟩ := skipSpace_local r0
    split at h
    · cases h
    · rename_i data r1 hp
      obtain ⟨p2, hne2, e2, l2⟩ := piLoop_local _ _ _ _ _ hp
      split at h
      · cases h
      · rename_i hc
        injection h with h; injection h with h1 h2
        subst h1; subst h2
        rw [e2] at e1 l1
        refine ⟨n ++ (p1 ++ p2), by rw [e0, e1]; simp, fun r' _ => ?_⟩
        unfold piTag
        simp only [List.append_assoc]
        rw [l0 (p1 ++ (p2 ++ r')) (by
          rw [e1, ← List.append_assoc, ← List.append_assoc]
          exact sameHead_append _ _ _ (by simp [hne2]))]
        dsimp only
        rw [l1 _ (sameHead_append _ _ _ hne2), l2]
        dsimp only
        rw [hc]

theorem bangTag_local : LocalTag bangTag := by
  intro s t st h
  match s, h with
  | [], h => cases h
  | b :: r, h =>
    simp only [bangTag] at h
    split at h
    · rename_i hb
      split at h
      · cases h
      · rename_i c r1
        split at h
        · cases h
        · rename_i hc
          split at h
          · cases h
          · rename_i d r2 he
            injection h with h; injection h with h1 h2
            subst h1; subst h2
            obtain ⟨p, e, l⟩ := commentLoop_local _ _ _ _ _ _ he
            refine ⟨b :: c :: p, by rw [e]; rfl, fun r' _ => ?_⟩
            simp only [List.cons_append, bangTag]
            rw [if_pos hb, if_neg hc, l]
    rename_i hb
    split at h
    · rename_i hc
      split at h
      · cases h
      · rename_i r1 ho
        obtain ⟨e0, l0⟩ := cdataOpen_local _ _ _ ho
        split at h
        · cases h
        · rename_i d r2 he
          injection h with h; injection h with h1 h2
          subst h1; subst h2
          obtain ⟨p, e, l⟩ := text_local _ _ _ _ _ he
          refine ⟨b :: (b!"CDATA[" ++ p), by rw [e0, e]; simp, fun r' hr => ?_⟩
          rcases hr with hr | hr
          · simp only [List.cons_append, List.append_assoc, bangTag]
            rw [if_neg hb, if_pos hc]
            have := l0 (p ++ r')
            simp only [List.cons_append] at this
            rw [this]
            dsimp only
            rw [l r' hr]
          · cases hr
    · rename_i hc
      split at h
      · cases h
      · rename_i d r2 he
        injection h with h; injection h with h1 h2
        subst h1; subst h2
        obtain ⟨p, -, e, l⟩ := dirLoop_local _ _ _ _ _ _ _ _ he
        refine ⟨b :: p, by rw [e]; rfl, fun r' _ => ?_⟩
        simp only [List.cons_append, bangTag]
        rw [if_neg hb, if_neg hc, l r' _ (by simp; omega)]

theorem startTag_local : LocalTag startTag := by
  intro s t st h
  unfold startTag at h
  split at h
  · cases h
  · cases h
  · rename_i n r0 he
    obtain ⟨p0, hne0, e0, l0⟩ := nsname_local _ _ _ he
    split at h
    · cases h
    · rename_i as e r1 ha
      obtain ⟨p1, hne1, e1, l1⟩ := attrLoop_local _ _ _ _ _ _ ha
      injection h with h; injection h with h1 h2
      subst h1; subst h2
      refine ⟨p0 ++ p1, by rw [e0, e1]; simp, fun r' _ => ?_⟩
      unfold startTag
      rw [List.append_assoc, l0 _ (by rw [e1]; exact sameHead_append _ _ _ hne1)]
      dsimp only
      rw [l1 r' _ (by simp; omega)]

theorem startTag_ne (s : Bytes) (t : Token) (st : Raw) (h : startTag s = .ok (t, st)) : st.rest.length < s.length := by
  unfold startTag at h
  split at h
  · cases h
  · cases h
  · rename_i n r0 he
    have h1 := nsname_lt _ _ _ he
    split at h
    · cases h
    · rename_i as e r1 ha
      have h2 := attrLoop_lt _ _ _ _ _ _ ha
      injection h with h; injection h with h3 h4
      subst h4
      dsimp only
      omega

/-- A token depends on the bytes it consumes only, and on the byte after them if it is not a tag. -/
theorem rawToken_local (st : Raw) (t : Token) (st' : Raw) (h : rawToken st = .ok (t, st')) :
    ∃ p, st.rest = p ++ st'.rest ∧
      ∀ r', (SameHead st'.rest r' ∨ t.isTag = true) → rawToken ⟨p ++ r', st.toClose⟩ = .ok (t, ⟨r', st'.toClose⟩) := by
  obtain ⟨rest, tc⟩ := st
  cases tc with
  | some n =>
    simp only [rawToken] at h
    injection h with h; injection h with h1 h2
    subst h1; subst h2
    exact ⟨[], rfl, fun r' _ => rfl⟩
  | none =>
    match rest, h with
    | [], h => cases h
    | b :: r, h =>
      simp only [rawToken] at h
      split at h
      · rename_i hb
        split at h
        · cases h
        · rename_i d r1 ht
          injection h with h; injection h with h1 h2
          subst h1; subst h2
          obtain ⟨p, e, l⟩ := text_local _ _ _ _ _ ht
          refine ⟨p, e, fun r' hr => ?_⟩
          rcases hr with hr | hr
          · cases p with
            | nil =>
              simp only [List.nil_append] at e
              dsimp only at hr
              rw [← e] at hr
              cases r' with
              | nil => simp [SameHead] at hr
              | cons c r' =>
                simp only [SameHead, List.head?_cons, Option.some.injEq] at hr
                subst hr
                have := l (b :: r') (by rw [← e]; rfl)
                simp only [List.nil_append] at this ⊢
                simp only [rawToken]
                rw [if_pos hb, this]
            | cons c p =>
              simp only [List.cons_append, List.cons.injEq] at e
              obtain ⟨rfl, -⟩ := e
              have := l r' hr
              simp only [List.cons_append] at this ⊢
              simp only [rawToken]
              rw [if_pos hb, this]
          · cases hr
      · rename_i hb
        split at h
        · cases h
        · rename_i c r1
          split at h
          · rename_i c1
            obtain ⟨p, e, l⟩ := endTag_local _ _ _ h
            refine ⟨b :: c :: p, by rw [e]; rfl, fun r' hr => ?_⟩
            simp only [List.cons_append, rawToken]
            rw [if_neg hb, if_pos c1]
            exact l r' hr
          rename_i c1
          split at h
          · rename_i c2
            obtain ⟨p, e, l⟩ := piTag_local _ _ _ h
            refine ⟨b :: c :: p, by rw [e]; rfl, fun r' hr => ?_⟩
            simp only [List.cons_append, rawToken]
            rw [if_neg hb, if_neg c1, if_pos c2]
            exact l r' hr
          rename_i c2
          split at h
          · rename_i c3
            obtain ⟨p, e, l⟩ := bangTag_local _ _ _ h
            refine ⟨b :: c :: p, by rw [e]; rfl, fun r' hr => ?_⟩
            simp only [List.cons_append, rawToken]
            rw [if_neg hb, if_neg c1, if_neg c2, if_pos c3]
            exact l r' hr
          · rename_i c3
            have hlt := startTag_ne _ _ _ h
            obtain ⟨p, e, l⟩ := startTag_local _ _ _ h
            cases p with
            | nil => rw [e] at hlt; simp at hlt
            | cons c' p =>
              simp only [List.cons_append, List.cons.injEq] at e
              obtain ⟨rfl, rfl⟩ := e
              refine ⟨b :: c :: p, rfl, fun r' hr => ?_⟩
              simp only [List.cons_append, rawToken]
              rw [if_neg hb, if_neg c1, if_neg c2, if_neg c3]
              exact l r' hr

end Verif.Xml

import Verif.Guard
import Verif.EncTokStream
import Verif.EncodeOk

/-!
C76: what a `MarshalXML` method can write.  It cannot close the elements around its value, it has to close those it opens, and the marks that
see to this change nothing in what is written.
-/
namespace Verif.Guard

open Verif.Xml Verif.EncTok

/-! ### Marks do not matter for namespaces -/

/-- A stack without marks. -/
def erase (els : List Elem) : List Elem := els.filter (· ≠ mark)

/-- The namespace part without marks. -/
def eraseNs (ns : Ns) : Ns := { ns with els := erase ns.els }

theorem erase_cons {e : Elem} (h : e.name ≠ []) (els : List Elem) : erase (e :: els) = e :: erase els := by
  have : e ≠ mark := by rintro rfl; exact h rfl
  simp [erase, this]

theorem erase_mark (els : List Elem) : erase (mark :: els) = erase els := by simp [erase]

theorem mget_nil (k : Bytes) : mget [] k = [] := rfl

theorem any_erase (q : Bytes) (l : List Elem) :
    (erase l).any (fun d => mget d.prefixToNS q != []) = l.any (fun d => mget d.prefixToNS q != []) := by
  induction l with
  | nil => rfl
  | cons e l ih =>
    by_cases he : e = mark
    · subst he
      rw [erase_mark, List.any_cons, ih]
      rfl
    · have : erase (e :: l) = e :: erase l := by simp [erase, he]
      rw [this, List.any_cons, List.any_cons, ih]

theorem getPrefixLoop_erase (uri : Bytes) : ∀ (els deeper : List Elem),
    getPrefixLoop uri (erase deeper) (erase els) = getPrefixLoop uri deeper els
  | [], _ => rfl
  | e :: els, deeper => by
    have ih := getPrefixLoop_erase uri els (e :: deeper)
    by_cases he : e = mark
    · subst he
      rw [erase_mark] at ih ⊢
      rw [ih]
      rfl
    · have h1 : ∀ l, erase (e :: l) = e :: erase l := fun l => by simp [erase, he]
      rw [h1] at ih ⊢
      rw [getPrefixLoop, getPrefixLoop, ih, any_erase]

theorem getPrefix_erase (els : List Elem) (uri : Bytes) : getPrefix (erase els) uri = getPrefix els uri := by
  unfold getPrefix
  have := getPrefixLoop_erase uri els []
  rw [← this]
  rfl

/-- The innermost entry is an element. -/
def TopElem (ns : Ns) : Prop := ∃ e els, ns.els = e :: els ∧ e.name ≠ []

theorem createPrefix_erase {ns : Ns} (h : TopElem ns) (uri pref : Bytes) :
    createPrefix (eraseNs ns) uri pref = (eraseNs (createPrefix ns uri pref).1, (createPrefix ns uri pref).2) := by
  obtain ⟨e, els, h1, h2⟩ := h
  obtain ⟨seq, els'⟩ := ns
  subst h1
  unfold createPrefix
  rw [show (eraseNs ⟨seq, e :: els⟩).els = erase (e :: els) from rfl, getPrefix_erase]
  split
  · rfl
  · rw [erase_cons h2]
    dsimp only
    unfold eraseNs
    dsimp only
    rw [erase_cons (by exact h2)]

theorem createPrefix_topElem {ns : Ns} (h : TopElem ns) (uri pref : Bytes) : TopElem (createPrefix ns uri pref).1 := by
  obtain ⟨e, els, h1, h2⟩ := h
  obtain ⟨seq, els'⟩ := ns
  subst h1
  unfold createPrefix
  split
  · exact ⟨e, els, rfl, h2⟩
  · exact ⟨_, els, rfl, h2⟩

theorem setPre_erase {ns : Ns} (h : TopElem ns) (p : Bytes) : setPre (eraseNs ns) p = eraseNs (setPre ns p) := by
  obtain ⟨e, els, h1, h2⟩ := h
  obtain ⟨seq, els'⟩ := ns
  subst h1
  unfold setPre eraseNs
  dsimp only
  rw [erase_cons h2, erase_cons (by exact h2)]

theorem setPre_topElem {ns : Ns} (h : TopElem ns) (p : Bytes) : TopElem (setPre ns p) := by
  obtain ⟨e, els, h1, h2⟩ := h
  unfold setPre
  rw [h1]
  exact ⟨_, els, rfl, h2⟩

theorem topPre_erase {ns : Ns} (h : TopElem ns) : topPre (eraseNs ns) = topPre ns := by
  obtain ⟨e, els, h1, h2⟩ := h
  obtain ⟨seq, els'⟩ := ns
  subst h1
  unfold topPre eraseNs
  dsimp only
  rw [erase_cons h2]

theorem ancestorDefault_erase (els : List Elem) {uri : Bytes} (h : uri ≠ []) : ancestorDefault (erase els) uri = ancestorDefault els uri := by
  unfold ancestorDefault
  induction els with
  | nil => rfl
  | cons e l ih =>
    by_cases he : e = mark
    · subst he
      rw [erase_mark, List.any_cons, ih]
      have : (mark.xmlns == uri) = false := by
        simp only [mark, beq_eq_false_iff_ne]
        exact fun e => h e.symm
      rw [this]
      simp
    · have : erase (e :: l) = e :: erase l := by simp [erase, he]
      rw [this, List.any_cons, List.any_cons, ih]

theorem placeElement_erase (seq : Nat) (els : List Elem) (e : Elem) (attrs : List Attr) (he : e.name ≠ []) :
    placeElement seq (erase els) e attrs = (eraseNs (placeElement seq els e attrs).1, (placeElement seq els e attrs).2) ∧
    TopElem (placeElement seq els e attrs).1 := by
  have hc : ∀ f : Elem, f.name ≠ [] → (⟨seq, f :: erase els⟩ : Ns) = eraseNs ⟨seq, f :: els⟩ := by
    intro f hf
    unfold eraseNs
    rw [erase_cons hf]
  have ht : ∀ f : Elem, f.name ≠ [] → TopElem ⟨seq, f :: els⟩ := fun f hf => ⟨f, els, rfl, hf⟩
  unfold placeElement
  split
  · exact ⟨by rw [hc e he], ht e he⟩
  rename_i hx
  split
  · exact ⟨by rw [hc e he], ht e he⟩
  split
  · exact ⟨by rw [hc e he], ht e he⟩
  rw [ancestorDefault_erase els hx]
  split
  · exact ⟨by rw [hc e he], ht e he⟩
  cases ownPrefix attrs e.xmlns with
  | some a =>
    dsimp only
    rw [hc e he, createPrefix_erase (ht e he), setPre_erase (createPrefix_topElem (ht e he) _ _)]
    exact ⟨rfl, setPre_topElem (createPrefix_topElem (ht e he) _ _) _⟩
  | none =>
    dsimp only
    rw [← erase_cons he, getPrefix_erase]
    refine ⟨?_, ht _ (by exact he)⟩
    rw [hc _ (by exact he)]

theorem nameTag_erase {ns : Ns} (h : TopElem ns) (d : Bool) (x n : Bytes) :
    nameTag (eraseNs ns) d x n = (eraseNs (nameTag ns d x n).1, (nameTag ns d x n).2) ∧ TopElem (nameTag ns d x n).1 := by
  unfold nameTag
  rw [topPre_erase h]
  split
  · split
    · dsimp only
      rw [createPrefix_erase h, setPre_erase (createPrefix_topElem h _ _)]
      exact ⟨rfl, setPre_topElem (createPrefix_topElem h _ _) _⟩
    · exact ⟨rfl, h⟩
  · split
    · exact ⟨rfl, h⟩
    · exact ⟨rfl, h⟩

theorem writeAttr_erase {ns : Ns} (h : TopElem ns) (a : Attr) :
    writeAttr (eraseNs ns) a = (eraseNs (writeAttr ns a).1, (writeAttr ns a).2) ∧ TopElem (writeAttr ns a).1 := by
  unfold writeAttr
  dsimp only
  split
  · exact ⟨rfl, h⟩
  split
  · rw [createPrefix_erase h]
    exact ⟨rfl, createPrefix_topElem h _ _⟩
  split
  · rw [createPrefix_erase h]
    exact ⟨rfl, createPrefix_topElem h _ _⟩
  · exact ⟨rfl, h⟩

theorem writeAttrs_erase : ∀ (l : List Attr) {ns : Ns}, TopElem ns →
    writeAttrs (eraseNs ns) l = (eraseNs (writeAttrs ns l).1, (writeAttrs ns l).2)
  | [], _, _ => rfl
  | a :: l, ns, h => by
    obtain ⟨h1, h2⟩ := writeAttr_erase h a
    rw [writeAttrs, writeAttrs, h1]
    dsimp only
    rw [writeAttrs_erase l h2]

theorem nsStart_erase (ns : Ns) (n : Name) (attrs : List Attr) (ns' : Ns) (q : Bytes) (tas : List TagAttr) (h : nsStart ns n attrs = .ok (ns', q, tas)) :
    nsStart (eraseNs ns) n attrs = .ok (eraseNs ns', q, tas) := by
  unfold nsStart at h ⊢
  split at h
  · cases h
  rename_i hn
  rw [if_neg hn]
  have he : (newElement n).name ≠ [] := splitPrefixed_snd_ne hn
  obtain ⟨a1, a2⟩ := placeElement_erase ns.seq ns.els (newElement n) attrs he
  obtain ⟨b1, b2⟩ := nameTag_erase a2 (placeElement ns.seq ns.els (newElement n) attrs).2 (newElement n).xmlns (newElement n).name
  dsimp only at h ⊢
  rw [show (eraseNs ns).els = erase ns.els from rfl, show (eraseNs ns).seq = ns.seq from rfl, a1]
  dsimp only
  rw [b1]
  dsimp only
  rw [writeAttrs_erase attrs b2]
  injection h with h
  injection h with h1 h2
  injection h2 with h2 h3
  subst h1; subst h2; subst h3
  rfl

theorem nsEnd_parts {ns ns' : Ns} {n : Name} {q : Bytes} (h : nsEnd ns n = .ok (ns', q)) :
    ∃ e, e.name ≠ [] ∧ ns.els = e :: ns'.els ∧ ns'.seq = ns.seq ∧ n.space = e.xmlns ∧ (splitPrefixed n.loc).2 = e.name ∧
      ∀ els, nsEnd ⟨ns.seq, e :: els⟩ n = .ok (⟨ns.seq, els⟩, q) := by
  obtain ⟨seq, els⟩ := ns
  unfold nsEnd at h
  split at h
  · cases h
  rename_i h0
  dsimp only at h
  split at h
  · cases h
  rename_i e els
  split at h
  · cases h
  rename_i h1
  split at h
  · cases h
  rename_i h2
  split at h
  · cases h
  rename_i h3
  split at h
  · cases h
  rename_i h4
  injection h with h
  injection h with h5 h6
  subst h5; subst h6
  refine ⟨e, h1, rfl, rfl, Classical.not_not.1 h4, Classical.not_not.1 h3, fun els' => ?_⟩
  unfold nsEnd
  rw [if_neg h0]
  dsimp only
  rw [if_neg h1, if_neg h2, if_neg h3, if_neg h4]

/-! ### One step -/

/-- What a step does to the stack. -/
inductive Moves : List Elem → Op → List Elem → Prop where
  | same (els) (o) : (∀ os l, nesting os ((tokens [(true, o)]).map bare ++ l) = nesting os l) → Moves els o els
  | push (els) (n attrs e) : e.name ≠ [] → (⟨e.xmlns, e.name⟩ : Name) = ⟨n.space, (splitPrefixed n.loc).2⟩ → Moves els (.tok (.startElement n attrs)) (e :: els)
  | pop (els) (n e) : e.name ≠ [] → (⟨e.xmlns, e.name⟩ : Name) = ⟨n.space, (splitPrefixed n.loc).2⟩ → Moves (e :: els) (.tok (.endElement n)) els

theorem apply_step (buffered : Bool) (p p' : Printer) (o : Op) (b : Bytes) (h : apply buffered p o = .ok (p', b)) :
    Moves p.ns.els o p'.ns.els ∧ apply buffered (unmarked p) o = .ok (unmarked p', b) := by
  have skip : (∀ os l, nesting os ((tokens [(true, o)]).map bare ++ l) = nesting os l) → p' = p → apply buffered (unmarked p) o = .ok (unmarked p, b) →
      Moves p.ns.els o p'.ns.els ∧ apply buffered (unmarked p) o = .ok (unmarked p', b) := by
    rintro h1 rfl h2
    exact ⟨.same _ _ h1, h2⟩
  cases o with
  | text nl b' =>
    injection h with h; injection h with h1 h2
    subst h1; subst h2
    exact ⟨.same _ _ fun os l => rfl, rfl⟩
  | raw b' =>
    injection h with h; injection h with h1 h2
    subst h1; subst h2
    exact ⟨.same _ _ fun os l => rfl, rfl⟩
  | tok t =>
    cases t with
    | startElement n attrs =>
      simp only [apply, encodeToken, written, writeStart] at h ⊢
      split at h
      · cases h
      rename_i p2 o h2
      split at h2
      · cases h2
      rename_i ns q tas h3
      injection h2 with h2
      injection h2 with h2 h2'
      injection h with h
      injection h with h h'
      subst h; subst h'; subst h2; subst h2'
      obtain ⟨e, k1, k2, k3⟩ := nsStart_pushed h3
      have hn : n.loc ≠ [] := by
        intro hn
        unfold nsStart at h3
        rw [if_pos hn] at h3
        cases h3
      constructor
      · dsimp only
        rw [k1]
        refine .push _ _ _ _ ?_ ?_
        · rw [k2]; exact splitPrefixed_snd_ne hn
        · rw [k2, k3]; rfl
      · rw [show (unmarked p).ns = eraseNs p.ns from rfl, nsStart_erase _ _ _ _ _ _ h3]
        rfl
    | endElement n =>
      simp only [apply, encodeToken, written, writeEnd] at h ⊢
      split at h
      · cases h
      rename_i p2 o h2
      split at h2
      · cases h2
      rename_i ns q h3
      injection h2 with h2
      injection h2 with h2 h2'
      injection h with h
      injection h with h h'
      subst h; subst h'; subst h2; subst h2'
      obtain ⟨e, k1, k2, k3, k4, k5, k6⟩ := nsEnd_parts h3
      constructor
      · dsimp only
        rw [k2]
        exact .pop _ _ _ k1 (by rw [k4, k5])
      · have : (unmarked p).ns = ⟨p.ns.seq, e :: erase ns.els⟩ := by
          unfold unmarked
          rw [← erase_cons k1, ← k2]
          rfl
        rw [this, k6]
        dsimp only
        rw [← k3]
        rfl
    | charData b' =>
      exact skip (fun os l => by cases os <;> rfl) (by injection h with h; injection h with h _; exact h.symm)
        (by injection h with h; injection h with h1 h2; subst h2; rfl)
    | comment c =>
      refine skip (fun os l => by cases os <;> rfl) ?_ ?_ <;> simp only [apply, encodeToken] at h ⊢ <;> split at h
      all_goals first
        | (cases h; done)
        | skip
      · injection h with h; injection h with h _; exact h.symm
      · rename_i hc; rw [if_neg hc]; injection h with h; injection h with _ h; rw [h]
    | procInst a c =>
      refine skip (fun os l => by cases os <;> rfl) ?_ ?_ <;> simp only [apply, encodeToken] at h ⊢ <;> split at h
      all_goals first
        | cases h
        | skip
      all_goals
        rename_i h1
        split at h
        · cases h
        rename_i h2
        split at h
        · cases h
        rename_i h3
        injection h with h; injection h with h h'
      · exact h.symm
      · rw [if_neg h1, if_neg h2, if_neg h3, h']
    | directive d =>
      refine skip (fun os l => by cases os <;> rfl) ?_ ?_ <;> simp only [apply, encodeToken] at h ⊢ <;> split at h
      all_goals first
        | (cases h; done)
        | skip
      · injection h with h; injection h with h _; exact h.symm
      · rename_i hc; rw [if_neg hc]; injection h with h; injection h with _ h; rw [h]

/-! ### Programs -/

/-- The names of the elements of a stack, without marks. -/
def names (els : List Elem) : List Name := (erase els).map fun e => ⟨e.xmlns, e.name⟩

/-- The number of marks. -/
def marks (els : List Elem) : Nat := els.countP (· = mark)

theorem marks_cons {e : Elem} (h : e.name ≠ []) (els : List Elem) : marks (e :: els) = marks els := by
  have : e ≠ mark := by rintro rfl; exact h rfl
  simp [marks, this]

theorem marks_mark (els : List Elem) : marks (mark :: els) = marks els + 1 := by simp [marks]

theorem names_cons {e : Elem} (h : e.name ≠ []) (els : List Elem) : names (e :: els) = ⟨e.xmlns, e.name⟩ :: names els := by
  simp [names, erase_cons h]

/-- A step above a mark. -/
theorem moves_above {els els' : List Elem} {o : Op} (h : Moves els o els') {a rest : List Elem} (he : els = a ++ mark :: rest) :
    ∃ a', els' = a' ++ mark :: rest ∧ marks a' = marks a ∧ ∀ l, nesting (names a) ((tokens [(true, o)]).map bare ++ l) = nesting (names a') l := by
  cases h with
  | same _ _ h1 => exact ⟨a, he, rfl, fun l => h1 _ _⟩
  | push _ n attrs e h1 h2 =>
    refine ⟨e :: a, by rw [he]; rfl, marks_cons h1 a, fun l => ?_⟩
    rw [names_cons h1, h2]
    rfl
  | pop _ n e h1 h2 =>
    cases a with
    | nil =>
      injection he with he _
      exact absurd (by rw [he]; rfl) h1
    | cons f a =>
      injection he with he he'
      subst he
      refine ⟨a, he', (marks_cons h1 a).symm, fun l => ?_⟩
      rw [names_cons h1, h2]
      simp [tokens, bare, nesting]

theorem tokens_append (l l' : List (Bool × Op)) : tokens (l ++ l') = tokens l ++ tokens l' := by simp [tokens]

theorem tokens_flag (b : Bool) (o : Op) : tokens [(b, o)] = tokens [(true, o)] := rfl

theorem writes_append : ∀ (l l' : List (Bool × Op)) (p p' p'' : Printer) (b b' : Bytes), writes p l = .ok (p', b) → writes p' l' = .ok (p'', b') →
    writes p (l ++ l') = .ok (p'', b ++ b')
  | [], l', p, p', p'', b, b', h, h' => by
    injection h with h; injection h with h1 h2
    subst h1; subst h2
    simpa using h'
  | (f, o) :: l, l', p, p', p'', b, b', h, h' => by
    rw [writes] at h
    rw [List.cons_append, writes]
    split at h
    · cases h
    rename_i p1 b1 e1
    split at h
    · cases h
    rename_i p2 b2 e2
    injection h with h; injection h with h1 h2
    subst h1; subst h2
    rw [writes_append l l' _ _ _ _ _ e2 h']
    simp

theorem nesting_more : ∀ (ts : List Token) (st more st' : List Name), nesting st ts = some st' → ∀ rest,
    nesting (st ++ more) (ts ++ rest) = nesting (st' ++ more) rest
  | [], st, more, st', h, rest => by
    injection h with h
    subst h
    rfl
  | t :: ts, st, more, st', h, rest => by
    have ih := fun st h => nesting_more ts st more st' h rest
    cases t with
    | startElement n as => exact ih _ h
    | endElement n =>
      cases st with
      | nil => cases h
      | cons o st =>
        simp only [nesting] at h
        split at h
        · rename_i ho
          simp only [List.cons_append, nesting, if_pos ho]
          exact ih _ h
        · cases h
    | charData => simp only [List.cons_append, nesting] at h ⊢; exact ih _ h
    | comment => simp only [List.cons_append, nesting] at h ⊢; exact ih _ h
    | procInst => simp only [List.cons_append, nesting] at h ⊢; exact ih _ h
    | directive => simp only [List.cons_append, nesting] at h ⊢; exact ih _ h

/-- What a program has done: the steps, the bytes, and the same without marks. -/
structure Did (s s' : S) (l : List (Bool × Op)) (w : Bytes) : Prop where
  log : s'.log = s.log ++ l
  out : s'.out = s.out ++ w
  plain : writes (unmarked s.p) l = .ok (unmarked s'.p, w)

theorem did_nil (s : S) : Did s s [] [] := ⟨by simp, by simp, rfl⟩

theorem did_trans {s s1 s2 : S} {l l' : List (Bool × Op)} {w w' : Bytes} (h : Did s s1 l w) (h' : Did s1 s2 l' w') : Did s s2 (l ++ l') (w ++ w') :=
  ⟨by rw [h'.log, h.log, List.append_assoc], by rw [h'.out, h.out, List.append_assoc], writes_append _ _ _ _ _ _ _ h.plain h'.plain⟩

theorem unmarked_push (s : S) : unmarked (s.withEls (mark :: s.els)).p = unmarked s.p := by
  unfold unmarked S.withEls S.els
  dsimp only
  rw [show (mark :: s.p.ns.els).filter (· ≠ mark) = s.p.ns.els.filter (· ≠ mark) from erase_mark _]

/-- The main induction: a program running above a mark. -/
theorem run_above : ∀ (u : User) (s : S) (a rest : List Elem), s.els = a ++ mark :: rest →
    ∃ a' l w, (run u s).2.els = a' ++ mark :: rest ∧ Did s (run u s).2 l w ∧ marks a ≤ marks a' ∧
      (swallows u s → marks a < marks a') ∧ nesting (names a) ((tokens l).map bare) = some (names a')
  | .done b, s, a, rest, h => ⟨a, [], [], h, did_nil s, Nat.le_refl _, fun h => h.elim, by simp [tokens, nesting]⟩
  | .op buffered o k, s, a, rest, h => by
    rw [run, swallows]
    cases ha : apply buffered s.p o with
    | error e => exact run_above (k false) s a rest h
    | ok r =>
      obtain ⟨p, b⟩ := r
      dsimp only
      obtain ⟨h1, h2⟩ := apply_step _ _ _ _ _ ha
      obtain ⟨a1, k1, k2, k3⟩ := moves_above h1 h
      obtain ⟨a2, l, w, g1, g2, g3, g4, g5⟩ := run_above (k true) ⟨p, s.out ++ b, s.log ++ [(buffered, o)]⟩ a1 rest k1
      refine ⟨a2, [(buffered, o)] ++ l, b ++ w, g1, did_trans ⟨rfl, rfl, ?_⟩ g2, by omega, fun hs => by have := g4 hs; omega, ?_⟩
      · simp only [writes, h2, List.append_nil]
      · rw [tokens_append, List.map_append, tokens_flag, k3, g5]
  | .nested u k, s, a, rest, h => by
    rw [run, swallows]
    obtain ⟨a1, l, w, g1, g2, g3, g4, g5⟩ := run_above u (s.withEls (mark :: s.els)) [] s.els rfl
    have hd : Did s (run u (s.withEls (mark :: s.els))).2 l w := ⟨g2.log, g2.out, by rw [← unmarked_push s]; exact g2.plain⟩
    unfold marshalInterface
    generalize run u (s.withEls (mark :: s.els)) = r at *
    obtain ⟨ok, s1⟩ := r
    dsimp only at *
    -- The call fails: everything above stays
    have fail : leave (s.els.length + 1) ok s1 = (false, s1) → ∃ a' l' w', (run (k false) s1).2.els = a' ++ mark :: rest ∧ Did s (run (k false) s1).2 l' w' ∧
        marks a < marks a' ∧ nesting (names a) ((tokens l').map bare) = some (names a') := by
      intro _
      obtain ⟨a2, l2, w2, f1, f2, f3, _, f5⟩ := run_above (k false) s1 (a1 ++ mark :: a) rest (by rw [g1, h]; simp)
      have hm : marks (a1 ++ mark :: a) = marks a1 + marks a + 1 := by
        unfold marks
        rw [List.countP_append]
        have := marks_mark a
        unfold marks at this
        omega
      refine ⟨a2, l ++ l2, w ++ w2, f1, did_trans hd f2, by omega, ?_⟩
      have hn : names (a1 ++ mark :: a) = names a1 ++ names a := by
        unfold names
        rw [show erase (a1 ++ mark :: a) = erase a1 ++ erase a by unfold erase; rw [List.filter_append]; exact congrArg (_ ++ ·) (erase_mark a), List.map_append]
      rw [tokens_append, List.map_append, show names a = [] ++ names a from rfl, nesting_more _ [] _ _ (show nesting [] _ = some (names a1) from g5), ← hn, f5]
    unfold leave at fail ⊢
    split
    · rename_i hok
      rw [if_pos hok] at fail
      obtain ⟨a', l', w', f1, f2, f3, f4⟩ := fail rfl
      exact ⟨a', l', w', f1, f2, by omega, fun _ => f3, f4⟩
    · rename_i hok
      rw [if_neg hok] at fail
      split
      · rename_i hlen
        rw [if_pos hlen] at fail
        obtain ⟨a', l', w', f1, f2, f3, f4⟩ := fail rfl
        exact ⟨a', l', w', f1, f2, by omega, fun _ => f3, f4⟩
      · rename_i hlen
        dsimp only
        have ha1 : a1 = [] := by
          rw [g1, List.length_append, List.length_cons] at hlen
          exact List.length_eq_zero_iff.1 (by omega)
        subst ha1
        have hdrop : s1.els.drop (s1.els.length - (s.els.length + 1 - 1)) = s.els := by
          rw [g1, List.nil_append, List.length_cons, show s.els.length + 1 - (s.els.length + 1 - 1) = 1 by omega]
          rfl
        rw [hdrop]
        have hu : unmarked (s1.withEls s.els).p = unmarked s1.p := by
          unfold unmarked S.withEls
          dsimp only
          rw [show s1.p.ns.els = mark :: s.els from g1]
          rw [show (mark :: s.els).filter (· ≠ mark) = s.els.filter (· ≠ mark) from erase_mark _]
        have hd' : Did s (s1.withEls s.els) l w := ⟨hd.log, hd.out, by rw [hu]; exact hd.plain⟩
        obtain ⟨a2, l2, w2, f1, f2, f3, f4, f5⟩ := run_above (k true) (s1.withEls s.els) a rest h
        refine ⟨a2, l ++ l2, w ++ w2, f1, did_trans hd' f2, f3, ?_, ?_⟩
        · rintro (hs | hs)
          · cases hs
          · exact f4 hs
        · rw [tokens_append, List.map_append]
          rw [show names a = [] ++ names a from rfl, nesting_more _ [] _ _ (show nesting [] _ = some [] from g5)]
          exact f5

/-! ### Properties -/

/-- C76: whatever the method does, with or without an error, the elements that were open before it are still open afterwards, in the same state. -/
theorem C76_below (u : User) (s : S) : ∃ above, (marshalInterface u s).2.els = above ++ s.els := by
  obtain ⟨a, l, w, h1, _⟩ := run_above u (s.withEls (mark :: s.els)) [] s.els rfl
  unfold marshalInterface leave
  dsimp only
  split
  · exact ⟨a ++ [mark], by rw [h1]; simp⟩
  split
  · exact ⟨a ++ [mark], by rw [h1]; simp⟩
  rename_i hlen
  rw [h1, List.length_append, List.length_cons] at hlen
  have ha : a = [] := List.length_eq_zero_iff.1 (by omega)
  subst ha
  refine ⟨[], ?_⟩
  show List.drop _ _ = _
  rw [h1, List.nil_append, List.length_cons, show s.els.length + 1 - (s.els.length + 1 - 1) = 1 by omega]
  rfl

theorem interface_ok {u : User} {s : S} (h : (marshalInterface u s).1 = true) :
    (run u (s.withEls (mark :: s.els))).1 = true ∧ (run u (s.withEls (mark :: s.els))).2.els = mark :: s.els ∧
      (marshalInterface u s).2 = (run u (s.withEls (mark :: s.els))).2.withEls s.els := by
  obtain ⟨a, l, w, h1, _⟩ := run_above u (s.withEls (mark :: s.els)) [] s.els rfl
  unfold marshalInterface leave at h ⊢
  dsimp only at h ⊢
  split at h
  · cases h
  rename_i hok
  rw [if_neg hok]
  split at h
  · cases h
  rename_i hlen
  rw [if_neg hlen]
  rw [h1, List.length_append, List.length_cons] at hlen
  have ha : a = [] := List.length_eq_zero_iff.1 (by omega)
  subst ha
  refine ⟨by simpa using hok, h1, ?_⟩
  dsimp only
  rw [h1, List.nil_append, List.length_cons, show s.els.length + 1 - (s.els.length + 1 - 1) = 1 by omega]
  rfl

/-- C76: if `marshalInterface` succeeds, then the stack is as before; the start and end elements that the method, and the methods it calls, wrote match
each other; and the bytes are those that the same steps write without any methods and marks. -/
theorem C76_complete (u : User) (s : S) (h : (marshalInterface u s).1 = true) :
    (marshalInterface u s).2.els = s.els ∧
    ∃ l w, (marshalInterface u s).2.log = s.log ++ l ∧ (marshalInterface u s).2.out = s.out ++ w ∧ nesting [] ((tokens l).map bare) = some [] ∧
      writes (unmarked s.p) l = .ok (unmarked (marshalInterface u s).2.p, w) := by
  obtain ⟨h1, h2, h3⟩ := interface_ok h
  obtain ⟨a, l, w, g1, g2, _, _, g5⟩ := run_above u (s.withEls (mark :: s.els)) [] s.els rfl
  have ha : a = [] := by
    rw [h2] at g1
    have := congrArg List.length g1
    simp only [List.length_append, List.length_cons] at this
    exact List.length_eq_zero_iff.1 (by omega)
  subst ha
  rw [h3]
  refine ⟨rfl, l, w, g2.log, g2.out, g5, ?_⟩
  have hp := g2.plain
  rw [unmarked_push] at hp
  rw [hp]
  congr 2
  generalize (run u (s.withEls (mark :: s.els))).2 = s1 at h2
  unfold unmarked S.withEls
  dsimp only
  rw [show s1.p.ns.els = mark :: s.els from h2,
    show (mark :: s.els).filter (· ≠ mark) = s.els.filter (· ≠ mark) from erase_mark _]

/-- C76: `marshalInterface` succeeds exactly if the method returns no error and has closed what it opened. -/
theorem C76_iff (u : User) (s : S) :
    (marshalInterface u s).1 = true ↔ (run u (s.withEls (mark :: s.els))).1 = true ∧ (run u (s.withEls (mark :: s.els))).2.els = mark :: s.els := by
  refine ⟨fun h => ⟨(interface_ok h).1, (interface_ok h).2.1⟩, fun ⟨h1, h2⟩ => ?_⟩
  unfold marshalInterface leave
  dsimp only
  rw [if_neg (by simp [h1]), if_neg (by rw [h2]; simp)]

/-- C76: a method that goes on after an `EncodeElement` that has failed makes `marshalInterface` fail, whatever it returns. -/
theorem C76_swallow (u : User) (s : S) (h : swallows u (s.withEls (mark :: s.els))) : (marshalInterface u s).1 = false := by
  cases hb : (marshalInterface u s).1 with
  | false => rfl
  | true =>
    obtain ⟨_, h2, _⟩ := interface_ok hb
    obtain ⟨a, l, w, g1, _, _, g4, _⟩ := run_above u (s.withEls (mark :: s.els)) [] s.els rfl
    rw [h2] at g1
    have := congrArg List.length g1
    simp only [List.length_append, List.length_cons] at this
    have ha : a = [] := List.length_eq_zero_iff.1 (by omega)
    subst ha
    exact absurd (g4 h) (by simp)

theorem bare_plain {t : Token} (h : PlainTok t) : bare t = t := by
  cases t with
  | startElement n as =>
    obtain ⟨sp, lc⟩ := n
    simp only [bare, splitPrefixed_nc h.2.1]
  | endElement n =>
    obtain ⟨sp, lc⟩ := n
    simp only [bare, splitPrefixed_nc h.2]
  | _ => rfl

theorem plain_flag {t : Token} (h : PlainTok t) (b b' : Bool) (p : Printer) : encodeToken b p t = encodeToken b' p t := by
  cases t with
  | procInst x y =>
    have hx : x ≠ b!"xml" := fun e => by
      have := h.2.2.2.2 e
      cases this
    simp [encodeToken, hx]
  | _ => rfl

theorem writes_tokens (buffered : Bytes → Bool) : ∀ (l : List (Bool × Op)) (p p' : Printer) (out w : Bytes), (∀ x ∈ l, ∃ t, x.2 = .tok t ∧ PlainTok t) →
    writes p l = .ok (p', w) → encodeTokens buffered p out (tokens l) = .ok (p', out ++ w)
  | [], p, p', out, w, _, h => by
    injection h with h; injection h with h1 h2
    subst h1; subst h2
    simp [tokens, encodeTokens]
  | (b, o) :: l, p, p', out, w, hl, h => by
    obtain ⟨t, ht, hp⟩ := hl (b, o) (by simp)
    dsimp only at ht
    subst ht
    rw [writes] at h
    split at h
    · cases h
    rename_i p1 b1 e1
    split at h
    · cases h
    rename_i p2 b2 e2
    injection h with h; injection h with h1 h2
    subst h1; subst h2
    rw [show tokens ((b, Op.tok t) :: l) = t :: tokens l from rfl, encodeTokens, plain_flag hp _ b, show encodeToken b p t = apply b p (.tok t) from rfl, e1]
    dsimp only
    rw [writes_tokens buffered l p1 p2 _ b2 (fun x hx => hl x (by simp [hx])) e2, List.append_assoc]

/-- C76: a document written by methods is read back as the tokens they wrote, if these are tokens that can be read back at all (as in C63). -/
theorem C76_read (u : User) (h : (marshalInterface u ⟨Printer.new [] [], [], []⟩).1 = true)
    (hp : ∀ x ∈ (marshalInterface u ⟨Printer.new [] [], [], []⟩).2.log, ∃ t, x.2 = .tok t ∧ PlainTok t)
    (ha : TextApart (tokens (marshalInterface u ⟨Printer.new [] [], [], []⟩).2.log)) :
    ∀ k, (tokens (marshalInterface u ⟨Printer.new [] [], [], []⟩).2.log).length < k →
      tokRun k (Dec.new (marshalInterface u ⟨Printer.new [] [], [], []⟩).2.out) = (tokens (marshalInterface u ⟨Printer.new [] [], [], []⟩).2.log, some .eof) := by
  obtain ⟨_, l, w, h1, h2, h3, h4⟩ := C76_complete u _ h
  rw [List.nil_append] at h1 h2
  rw [h1] at hp ha ⊢
  rw [h2]
  have hm : (tokens l).map bare = tokens l := by
    conv => rhs; rw [← List.map_id (tokens l)]
    refine List.map_congr_left fun t ht => ?_
    unfold tokens at ht
    obtain ⟨x, hx, hxt⟩ := List.mem_filterMap.1 ht
    obtain ⟨t', ht', hp'⟩ := hp x hx
    rw [ht'] at hxt
    injection hxt with hxt
    subst hxt
    exact bare_plain hp'
  rw [hm] at h3
  have hpl : ∀ t ∈ tokens l, PlainTok t := by
    intro t ht
    unfold tokens at ht
    obtain ⟨x, hx, hxt⟩ := List.mem_filterMap.1 ht
    obtain ⟨t', ht', hp'⟩ := hp x hx
    rw [ht'] at hxt
    injection hxt with hxt
    subst hxt
    exact hp'
  obtain ⟨p, doc, e1, _, e3⟩ := C63_exact (fun _ => false) rfl (tokens l) hpl ha h3
  have e2 := writes_tokens (fun _ => false) l _ _ [] w hp h4
  rw [show unmarked (Printer.new [] []) = Printer.new [] [] from rfl, e1] at e2
  injection e2 with e2
  injection e2 with _ e2
  rw [List.nil_append] at e2
  subst e2
  exact e3

/-! ### Examples -/

/-- A method that writes an element with text, and in it the value of another method. -/
def exInner : User := .op true (.tok (.startElement ⟨[], b!"b"⟩ [])) fun _ => .op true (.tok (.endElement ⟨[], b!"b"⟩)) fun ok => .done ok

/-- The outer method; it also tries to close an element it has not opened, and goes on. -/
def exOuter : User :=
  .op false (.tok (.startElement ⟨[], b!"a"⟩ [⟨⟨[], b!"x"⟩, b!"1"⟩])) fun _ => .op true (.tok (.endElement ⟨[], b!"z"⟩)) fun _ =>
    .nested exInner fun _ => .op true (.tok (.charData (b!"t"))) fun _ => .op true (.tok (.endElement ⟨[], b!"a"⟩)) fun ok => .done ok

/-- A fresh encoder. -/
def fresh : S := ⟨Printer.new [] [], [], []⟩

example : (marshalInterface exOuter fresh).1 = true ∧ (marshalInterface exOuter fresh).2.out = b!"<a x=\"1\"><b></b>t</a>" ∧
    tokens (marshalInterface exOuter fresh).2.log = [.startElement ⟨[], b!"a"⟩ [⟨⟨[], b!"x"⟩, b!"1"⟩], .startElement ⟨[], b!"b"⟩ [], .endElement ⟨[], b!"b"⟩,
      .charData (b!"t"), .endElement ⟨[], b!"a"⟩] := by
  decide +kernel

/-- A method that closes the element around its value. -/
def exClose : User := .op true (.tok (.endElement ⟨[], b!"a"⟩)) fun ok => .done ok

/-- `<a>` and then the method that closes it: refused. -/
example : (run (.op false (.tok (.startElement ⟨[], b!"a"⟩ [])) fun _ => .nested exClose fun ok => .done ok) fresh).1 = false := by decide +kernel

/-- A method that goes on after a failure. -/
example : swallows (.nested (.done false) fun _ => .done true) (fresh.withEls (mark :: fresh.els)) := Or.inl (by decide +kernel)

/-! ### What is not so -/

/-- An encoder cannot be used any more after a `MarshalXML` that fails: `<a>`, a failing method, and the end of `a` is refused although `a` is open. -/
theorem C76_after_refuted : ¬ ∀ (s : S) (u : User) (b : Bool) (o : Op), (∃ r, apply b s.p o = .ok r) → ∃ r, apply b (marshalInterface u s).2.p o = .ok r := by
  intro h
  obtain ⟨r, hr⟩ := h (run (.op false (.tok (.startElement ⟨[], b!"a"⟩ [])) fun ok => .done ok) fresh).2 (.done false) true (.tok (.endElement ⟨[], b!"a"⟩))
    ⟨_, rfl⟩
  have : apply true (marshalInterface (.done false) (run (.op false (.tok (.startElement ⟨[], b!"a"⟩ [])) fun ok => .done ok) fresh).2).2.p
      (.tok (.endElement ⟨[], b!"a"⟩)) = .error (.printer .noStart) := by decide +kernel
  rw [this] at hr
  cases hr

end Verif.Guard

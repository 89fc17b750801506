import Verif.XmlResolve
import Verif.MpdRoundTrip

/-!
C39: when the encoder succeeds.  It fails only on an element without name or with a prefix of its own that it does not use.
-/
namespace Verif.Xml

/-- A name whose prefix, if it has one, is used as it is. -/
def NameFine (n : Name) : Prop :=
  n.loc ≠ [] ∧ ((splitPrefixed n.loc).1 = [] ∨ (NCName (splitPrefixed n.loc).1 ∧ startsXml (splitPrefixed n.loc).1 = false))

mutual
/-- All elements have such names. -/
def ItemFine : Item → Prop
  | .elem n _ kids => NameFine n ∧ ItemsFine kids
  | _ => True
/-- The same for several items. -/
def ItemsFine : List Item → Prop
  | [] => True
  | i :: l => ItemFine i ∧ ItemsFine l
end

theorem itemsFine_append : ∀ {a b : List Item}, ItemsFine a → ItemsFine b → ItemsFine (a ++ b)
  | [], b, _, h => h
  | i :: a, b, h, h' => by
    simp only [List.cons_append, ItemsFine] at h ⊢
    exact ⟨h.1, itemsFine_append h.2 h'⟩

theorem writeAttr_same (ns : Ns) (h : ns.els ≠ []) (a : Attr) : SameTop ns.els (writeAttr ns a).1.els := by
  unfold writeAttr
  split
  · exact .refl h
  dsimp only
  split
  · exact createPrefix_same ns h _ _
  split
  · exact createPrefix_same ns h _ _
  · exact .refl h

theorem writeAttrs_same : ∀ (attrs : List Attr) (ns : Ns), ns.els ≠ [] → SameTop ns.els (writeAttrs ns attrs).1.els
  | [], ns, h => .refl h
  | a :: l, ns, h => by
    have h1 := writeAttr_same ns h a
    simp only [writeAttrs]
    exact h1.trans (writeAttrs_same l _ h1.ne)

theorem splitPrefixed_snd_ne {s : Bytes} (h : s ≠ []) : (splitPrefixed s).2 ≠ [] := by
  unfold splitPrefixed
  split
  · exact h
  · split
    · exact h
    · rename_i h'
      simp only [not_or] at h'
      exact h'.2

/-- The new element on the stack: its prefix is that of its name, if that has one. -/
structure Pushed (els els' : List Elem) (e : Elem) : Prop where
  ex : ∃ e', els' = e' :: els ∧ e'.name = e.name ∧ e'.xmlns = e.xmlns ∧ (e.pre = [] ∨ e'.pre = e.pre)
  fresh : e.pre ≠ [] → ∀ e' l, els' = e' :: l → e'.prefixToNS = []

theorem placeElement_pushed (seq : Nat) (els : List Elem) (n : Name) (attrs : List Attr) :
    Pushed els (placeElement seq els (newElement n) attrs).1.els (newElement n) := by
  have base : Pushed els (newElement n :: els) (newElement n) :=
    ⟨⟨_, rfl, rfl, rfl, Or.inr rfl⟩, fun _ e' l h => by injection h with h _; subst h; rfl⟩
  unfold placeElement
  split
  · exact base
  split
  · exact base
  split
  · exact base
  rename_i hpre
  have hpre : (newElement n).pre = [] := Classical.not_not.1 hpre
  split
  · exact base
  split
  · rename_i a _
    dsimp only
    refine ⟨?_, fun h => absurd hpre h⟩
    obtain ⟨f, fs, f', h1, h2, h3, h4, h5⟩ := createPrefix_same ⟨seq, newElement n :: els⟩ (by simp) a.value a.name.loc
    injection h1 with h1 h1'
    subst h1; subst h1'
    unfold setPre
    rw [h2]
    exact ⟨_, rfl, h4, h5, Or.inl hpre⟩
  · exact ⟨⟨_, rfl, rfl, rfl, Or.inl hpre⟩, fun h => absurd hpre h⟩

theorem nameTag_pushed (els : List Elem) (ns : Ns) (d : Bool) (e : Elem) (hp : Pushed els ns.els e)
    (hn : e.pre = [] ∨ (NCName e.pre ∧ startsXml e.pre = false)) :
    ∃ e', (nameTag ns d e.xmlns e.name).1.els = e' :: els ∧ e'.name = e.name ∧ e'.xmlns = e.xmlns ∧
      (e.pre = [] ∨ e'.pre = e.pre) := by
  obtain ⟨⟨e', h1, h2, h3, h4⟩, hfresh⟩ := hp
  have htop : topPre ns = e'.pre := by unfold topPre; rw [h1]
  unfold nameTag
  split
  · split
    · dsimp only
      have hne' : ns.els ≠ [] := by rw [h1]; simp
      obtain ⟨f, fs, f', a1, a2, a3, a4, a5⟩ := createPrefix_same ns hne' e.xmlns (topPre ns)
      rw [h1] at a1
      injection a1 with a1 a1'
      subst a1; subst a1'
      unfold setPre
      rw [a2]
      refine ⟨_, rfl, a4.trans h2, a5.trans h3, ?_⟩
      dsimp only
      by_cases hpe : e.pre = []
      · exact Or.inl hpe
      · right
        have hnc := hn.resolve_left hpe
        have hpre := h4.resolve_left hpe
        rw [htop, hpre]
        unfold createPrefix
        split
        · rename_i hc
          exact hc.2.resolve_right hpe
        · rw [h1]
          dsimp only
          have hf := hfresh hpe _ _ h1
          rw [pickPrefix_preferred _ _ _ hnc.1 hnc.2 (by rw [hf]; rfl)]
          unfold uniquePrefix
          rw [if_neg (by rw [hf]; simp [mget])]
    · exact ⟨e', h1, h2, h3, h4⟩
  · split
    · exact ⟨e', h1, h2, h3, h4⟩
    · exact ⟨e', h1, h2, h3, h4⟩

/-- A start tag can be written, and the end tag after it. -/
theorem nsStart_fine (ns : Ns) (n : Name) (attrs : List Attr) (h : NameFine n) :
    ∃ ns' q tas e, nsStart ns n attrs = .ok (ns', q, tas) ∧ ns'.els = e :: ns.els ∧ e.name = (splitPrefixed n.loc).2 ∧
      e.xmlns = n.space ∧ ((splitPrefixed n.loc).1 = [] ∨ e.pre = (splitPrefixed n.loc).1) := by
  unfold nsStart
  rw [if_neg h.1]
  dsimp only
  obtain ⟨e', h1, h2, h3, h4⟩ := nameTag_pushed ns.els _ (placeElement ns.seq ns.els (newElement n) attrs).2 _
    (placeElement_pushed ns.seq ns.els n attrs) h.2
  obtain ⟨f, fs, f', a1, a2, a3, a4, a5⟩ := writeAttrs_same attrs (nameTag (placeElement ns.seq ns.els (newElement n) attrs).1
    (placeElement ns.seq ns.els (newElement n) attrs).2 (newElement n).xmlns (newElement n).name).1 (by rw [h1]; simp)
  rw [h1] at a1
  injection a1 with a1 a1'
  subst a1; subst a1'
  exact ⟨_, _, _, f', rfl, a2, a4.trans h2, a5.trans h3, h4.imp_right a3.trans⟩

theorem nsEnd_fine (ns : Ns) (n : Name) (e : Elem) (els : List Elem) (hn : n.loc ≠ []) (h : ns.els = e :: els)
    (h1 : e.name = (splitPrefixed n.loc).2) (h2 : e.xmlns = n.space)
    (h3 : (splitPrefixed n.loc).1 = [] ∨ e.pre = (splitPrefixed n.loc).1) :
    nsEnd ns n = .ok ({ ns with els := els }, joinPrefixed e.pre e.name) := by
  unfold nsEnd
  rw [if_neg hn, h]
  dsimp only
  rw [if_neg (by rw [h1]; exact splitPrefixed_snd_ne hn), if_neg, if_neg (by rw [h1]; simp), if_neg (by rw [h2]; simp)]
  rintro ⟨g1, _, g3⟩
  rcases h3 with h3 | h3
  · exact g1 h3
  · exact g3 h3.symm

mutual
theorem encItem_fine : ∀ (i : Item) (p : Printer), ItemFine i → ∃ p' o, encItem p i = .ok (p', o) ∧ p'.ns.els = p.ns.els
  | .elem n attrs kids, p, h => by
    simp only [ItemFine] at h
    obtain ⟨ns1, q, tas, e, e1, e2, e3, e4, e5⟩ := nsStart_fine p.ns n attrs h.1
    simp only [encItem, writeStart, e1]
    obtain ⟨p2, o2, k1, k2⟩ := encItems_fine kids ⟨ns1, (writeIndent p.ind 1).1⟩ h.2
    rw [k1]
    simp only [writeEnd]
    rw [nsEnd_fine p2.ns n e p.ns.els h.1.1 (by rw [k2]; exact e2) e3 e4 e5]
    exact ⟨_, _, rfl, rfl⟩
  | .text b, p, _ => by simp [encItem]
  | .str b, p, _ => by simp [encItem]
  | .raw b, p, _ => by simp [encItem]
theorem encItems_fine : ∀ (l : List Item) (p : Printer), ItemsFine l → ∃ p' o, encItems p l = .ok (p', o) ∧ p'.ns.els = p.ns.els
  | [], p, _ => by simp [encItems]
  | i :: l, p, h => by
    simp only [ItemsFine] at h
    obtain ⟨p1, o1, h1, h2⟩ := encItem_fine i p h.1
    obtain ⟨p2, o2, h3, h4⟩ := encItems_fine l p1 h.2
    simp only [encItems, h1, h3]
    exact ⟨_, _, rfl, h4.trans h2⟩
end

theorem encode_fine (pre indent : Bytes) (items : List Item) (h : ItemsFine items) : ∃ doc, encode pre indent items = .ok doc := by
  obtain ⟨p, o, h1, _⟩ := encItems_fine items (Printer.new pre indent) h
  unfold encode
  rw [h1]
  exact ⟨_, rfl⟩

end Verif.Xml

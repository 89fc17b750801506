import Verif.XmlLex

/-!
C28: what the printer writes for a tree of elements is a well-formed document that the decoder accepts.
-/
namespace Verif.Xml

open Verif.Utf8

/-! ### Specification -/

/-- A local name with an optional prefix, as used in field tags and by `XMLName` and `Attr`. -/
def QLocal (s : Bytes) : Prop := NCName s ∨ ∃ p l, NCName p ∧ NCName l ∧ s = p ++ ch%':' :: l

/-- An attribute the printer can write: its name is a name (an empty one is skipped), and a prefix declaration is not
empty. -/
def AttrOk (a : Attr) : Prop := a.name.loc = [] ∨ (QLocal a.name.loc ∧ (a.name.space = xmlnsURL → a.value ≠ []))

mutual
/-- All names in a tree are names, and `innerxml` is well-formed content and the only content of its element. -/
def ItemOk : Item → Prop
  | .elem n attrs kids => QLocal n.loc ∧ (∀ a ∈ attrs, AttrOk a) ∧ ((∃ b, kids = [.raw b] ∧ Chunk b) ∨ ItemsOk kids)
  | .raw _ => False
  | _ => True
/-- All names in a list of trees are names. -/
def ItemsOk : List Item → Prop
  | [] => True
  | i :: l => ItemOk i ∧ ItemsOk l
end

/-- The tokens outside of all elements; an element is represented by its start. -/
def topLevel : Nat → List Token → List Token
  | _, [] => []
  | 0, .startElement n as :: l => .startElement n as :: topLevel 1 l
  | d + 1, .startElement _ _ :: l => topLevel (d + 2) l
  | 0, .endElement _ :: l => topLevel 0 l
  | d + 1, .endElement _ :: l => topLevel d l
  | 0, t :: l => t :: topLevel 0 l
  | d + 1, _ :: l => topLevel (d + 1) l

/-- A well-formed document for the decoder: it returns the tokens `ts` and then the end of the file, start and end
elements match, and there is one element at the top, surrounded only by white space. -/
def WellFormedDoc (doc : Bytes) (ts : List Token) : Prop :=
  (∀ k, ts.length < k → tokRun k (Dec.new doc) = (ts, some .eof)) ∧ nesting [] ts = some [] ∧
    ∃ ws n as, IsWs ws ∧ topLevel 0 ts = flush ws ++ [.startElement n as]

/-! ### Prefixes -/

/-- All recorded prefixes are names without colon that do not begin with `xml`. -/
def PfxOk (els : List Elem) : Prop :=
  ∀ e ∈ els, ∀ u p, (u, p) ∈ e.nsToPrefix → NCName p ∧ startsXml p = false

theorem mget_mem (m : List (Bytes × Bytes)) (k : Bytes) (h : mget m k ≠ []) : (k, mget m k) ∈ m := by
  unfold mget at h ⊢
  induction m with
  | nil => simp at h
  | cons x m ih =>
    obtain ⟨a, b⟩ := x
    rw [List.lookup_cons] at h ⊢
    by_cases hk : k = a
    · subst hk; simp
    · rw [show (k == a) = false by simpa using hk] at h ⊢
      exact List.mem_cons_of_mem _ (ih h)

theorem mget_nil (k : Bytes) : mget [] k = [] := rfl

theorem mget_cons (a b k : Bytes) (m : List (Bytes × Bytes)) : mget ((a, b) :: m) k = if k = a then b else mget m k := by
  unfold mget
  rw [List.lookup_cons]
  by_cases hk : k = a
  · subst hk; simp
  · rw [show (k == a) = false by simpa using hk, if_neg hk]

theorem getPrefixLoop_cases (uri : Bytes) (deeper els : List Elem) :
    getPrefixLoop uri deeper els = [] ∨ ∃ e ∈ els, (uri, getPrefixLoop uri deeper els) ∈ e.nsToPrefix := by
  induction els generalizing deeper with
  | nil => exact Or.inl rfl
  | cons e els ih =>
    simp only [getPrefixLoop]
    split
    · rename_i h
      split
      · exact Or.inl rfl
      · exact Or.inr ⟨e, by simp, mget_mem _ _ h⟩
    · rcases ih (e :: deeper) with h | ⟨x, hx, h⟩
      · exact Or.inl h
      · exact Or.inr ⟨x, by simp [hx], h⟩

theorem startsXml_xmlns : startsXml xmlnsPrefix = true := by decide
theorem nc_xml : NCName xmlPrefix := by decide +kernel
theorem nc_xmlns : NCName xmlnsPrefix := by decide +kernel

theorem getPrefix_ok (els : List Elem) (h : PfxOk els) (uri : Bytes) (hne : getPrefix els uri ≠ []) :
    NCName (getPrefix els uri) ∧ (uri ≠ xmlnsURL → getPrefix els uri ≠ xmlnsPrefix) := by
  unfold getPrefix at hne ⊢
  split
  · exact ⟨nc_xml, fun _ => by decide⟩
  split
  · exact ⟨nc_xmlns, fun h => absurd ‹uri = xmlnsURL› h⟩
  · rename_i h1 h2
    rw [if_neg h1, if_neg h2] at hne
    rcases getPrefixLoop_cases uri [] els with h3 | ⟨e, he, hm⟩
    · exact absurd h3 hne
    · have := h e he _ _ hm
      refine ⟨this.1, fun _ hx => ?_⟩
      rw [hx, startsXml_xmlns] at this
      exact absurd this.2 (by decide)

theorem startsXml_underscore (p : Bytes) : startsXml (ch%'_' :: p) = false := by
  unfold startsXml
  rw [List.take_succ_cons, List.map_cons]
  simp

theorem pickPrefix_ok (e : Elem) (uri preferred : Bytes) :
    NCName (pickPrefix e uri preferred) ∧ startsXml (pickPrefix e uri preferred) = false := by
  unfold pickPrefix
  dsimp only
  generalize afterSlash _ = p
  have h1 : NCName (if p = [] ∨ isName p = false ∨ ch%':' ∈ p then b!"_" else p) := by
    split
    · decide +kernel
    · rename_i h
      simp only [not_or, Bool.not_eq_false] at h
      exact ⟨h.2.1, h.2.2⟩
  generalize (if p = [] ∨ isName p = false ∨ ch%':' ∈ p then b!"_" else p) = q at h1
  split
  · exact ⟨⟨isName_append (s := [ch%'_']) underscore_first (isName_split h1.1), by simp [h1.2]⟩, startsXml_underscore q⟩
  · rename_i h; exact ⟨h1, by simpa using h⟩

theorem formatUint_nameBytes (n : Nat) : ∀ b ∈ Strconv.formatUint n, isDigit b = true :=
  Strconv.formatUint_digits n

theorem digit_name (b : UInt8) (h : isDigit b = true) : isNameByte b = true ∧ b ≠ ch%':' := by
  unfold isDigit at h
  simp at h
  constructor
  · unfold isNameByte; simp; omega
  · rintro rfl; revert h; decide

theorem startsXml_suffix (p d : Bytes) (hp : startsXml p = false) (hne : p ≠ []) : startsXml (p ++ ch%'_' :: d) = false := by
  unfold startsXml at hp ⊢
  match p, hne with
  | [a], _ =>
    cases d <;> simp
  | [a, b], _ => simp
  | a :: b :: c :: t, _ => simpa using hp

theorem freeId_eq (m : List (Bytes × Bytes)) (p : Bytes) (k s : Nat) :
    ∃ t, (freeId m p k s).1 = p ++ ch%'_' :: Strconv.formatUint t := by
  induction k generalizing s with
  | zero => exact ⟨s, rfl⟩
  | succ k ih =>
    simp only [freeId]
    split
    · exact ⟨s, rfl⟩
    · exact ih (s + 1)

theorem uniquePrefix_ok (e : Elem) (seq : Nat) (p : Bytes) (hp : NCName p) (hx : startsXml p = false) :
    NCName (uniquePrefix e seq p).1 ∧ startsXml (uniquePrefix e seq p).1 = false := by
  unfold uniquePrefix
  split
  · obtain ⟨t, ht⟩ := freeId_eq e.prefixToNS p e.prefixToNS.length (seq + 1)
    rw [ht]
    have hd := formatUint_nameBytes t
    refine ⟨⟨isName_append hp.1 (tail_ascii _ ?_), ?_⟩, startsXml_suffix _ _ hx (isName_ne hp.1)⟩
    · intro b hb
      rcases List.mem_cons.1 hb with rfl | hb
      · decide
      · exact (digit_name b (hd b hb)).1
    · intro hm
      rcases List.mem_append.1 hm with hm | hm
      · exact hp.2 hm
      · rcases List.mem_cons.1 hm with hm | hm
        · exact absurd hm (by decide)
        · exact (digit_name _ (hd _ hm)).2 rfl
  · exact ⟨hp, hx⟩

/-- Only the prefix tables of the innermost element differ. -/
structure SameTop (els els' : List Elem) : Prop where
  ex : ∃ e es e', els = e :: es ∧ els' = e' :: es ∧ e'.pre = e.pre ∧ e'.name = e.name ∧ e'.xmlns = e.xmlns

theorem SameTop.refl {els : List Elem} (h : els ≠ []) : SameTop els els := by
  cases els with
  | nil => exact absurd rfl h
  | cons e es => exact ⟨e, es, e, rfl, rfl, rfl, rfl, rfl⟩

theorem SameTop.trans {a b c : List Elem} (h1 : SameTop a b) (h2 : SameTop b c) : SameTop a c := by
  obtain ⟨e, es, e', rfl, rfl, p1, p2, p3⟩ := h1
  obtain ⟨f, fs, f', hf, rfl, q1, q2, q3⟩ := h2
  injection hf with h1 h2
  subst h1; subst h2
  exact ⟨e, es, f', rfl, rfl, q1.trans p1, q2.trans p2, q3.trans p3⟩

theorem SameTop.ne {a b : List Elem} (h : SameTop a b) : b ≠ [] := by
  obtain ⟨e, es, e', rfl, rfl, _⟩ := h; simp

theorem createPrefix_same (ns : Ns) (h : ns.els ≠ []) (uri pref : Bytes) : SameTop ns.els (createPrefix ns uri pref).1.els := by
  unfold createPrefix
  split
  · exact .refl h
  · split
    · rename_i he; exact absurd he h
    · rename_i e els he
      rw [he]
      exact ⟨e, els, _, rfl, rfl, rfl, rfl, rfl⟩

theorem createPrefix_ok (ns : Ns) (h : ns.els ≠ []) (hp : PfxOk ns.els) (uri pref : Bytes) :
    PfxOk (createPrefix ns uri pref).1.els ∧ NCName (createPrefix ns uri pref).2.1 ∧
      (uri ≠ xmlnsURL → (createPrefix ns uri pref).2.1 ≠ xmlnsPrefix) := by
  unfold createPrefix
  split
  · rename_i hc
    have := getPrefix_ok ns.els hp uri hc.1
    exact ⟨hp, this.1, this.2⟩
  · split
    · rename_i he; exact absurd he h
    · rename_i e els he
      dsimp only
      have h1 := pickPrefix_ok e uri pref
      have h2 := uniquePrefix_ok e ns.seq _ h1.1 h1.2
      generalize uniquePrefix e ns.seq (pickPrefix e uri pref) = u at h2
      refine ⟨?_, h2.1, fun _ hx => ?_⟩
      · intro f hf
        rcases List.mem_cons.1 hf with rfl | hf
        · intro u' p' hm
          unfold recordPrefix at hm
          dsimp only at hm
          split at hm
          · rcases List.mem_cons.1 hm with hm | hm
            · injection hm with _ hm; subst hm; exact h2
            · exact hp e (by rw [he]; simp) _ _ hm
          · exact hp e (by rw [he]; simp) _ _ hm
        · exact hp f (by rw [he]; simp [hf])
      · rw [hx, startsXml_xmlns] at h2
        exact absurd h2.2 (by decide)

/-! ### Start tags -/

theorem splitPrefixed_nc {l : Bytes} (hl : NCName l) : splitPrefixed l = ([], l) := by
  unfold splitPrefixed
  rw [dropWhile_all _ _ (takeWhile_colon hl.2)]

theorem splitPrefixed_join {p l : Bytes} (hp : NCName p) (hl : NCName l) : splitPrefixed (p ++ ch%':' :: l) = (p, l) := by
  unfold splitPrefixed
  have h1 := takeWhile_colon hp.2
  rw [List.dropWhile_append_of_pos h1, List.takeWhile_append_of_pos h1, List.dropWhile_cons_of_neg (by simp),
    List.takeWhile_cons_of_neg (by simp)]
  dsimp only
  rw [List.append_nil, if_neg (by simp [isName_ne hp.1, isName_ne hl.1])]

theorem splitPrefixed_q {s : Bytes} (h : QLocal s) :
    NCName (splitPrefixed s).2 ∧ ((splitPrefixed s).1 = [] ∨ NCName (splitPrefixed s).1) := by
  rcases h with h | ⟨p, l, hp, hl, rfl⟩
  · rw [splitPrefixed_nc h]; exact ⟨h, Or.inl rfl⟩
  · rw [splitPrefixed_join hp hl]; exact ⟨hl, Or.inr hp⟩

theorem qlocal_ne {s : Bytes} (h : QLocal s) : s ≠ [] := by
  rcases h with h | ⟨p, l, hp, hl, rfl⟩
  · exact isName_ne h.1
  · simp

/-- A written attribute whose name is a name, and which is not an empty prefix declaration. -/
def TagAttrOk (a : TagAttr) : Prop := WrittenName a.name (nameOf a.name) ∧ ¬ BadDecl (attrOf a)

theorem clean_eq_nil {s : Bytes} (h : clean s = []) : s = [] := by
  have h1 := (pending_raw (b := []) ⟨by simp, xmlText_nil⟩)
  have h2 := pending_str s
  have := h2.empty.1 h
  unfold escapeString at this
  cases hr : runes s with
  | nil =>
    have := runes_flatten s
    rw [hr] at this
    exact this.symm
  | cons p l =>
    rw [hr, List.flatMap_cons] at this
    have hne := escStringRune_ne s p (by rw [hr]; simp)
    simp [hne] at this

theorem tagAttr_join {p l v : Bytes} (hp : NCName p) (hl : NCName l) (h : p = xmlnsPrefix → v ≠ []) :
    TagAttrOk ⟨p ++ ch%':' :: l, v⟩ := by
  have hw := written_join hp hl
  refine ⟨written_ok hw, ?_⟩
  unfold BadDecl attrOf
  dsimp only
  rw [written_nameOf hw]
  rintro ⟨h1, h2 | h2⟩
  · exact h h1 (clean_eq_nil h2)
  · exact isName_ne hl.1 h2

theorem tagAttr_nc {l v : Bytes} (hl : NCName l) : TagAttrOk ⟨l, v⟩ := by
  have hw := written_nc hl
  refine ⟨written_ok hw, ?_⟩
  unfold BadDecl attrOf
  dsimp only
  rw [written_nameOf hw]
  rintro ⟨h1, _⟩
  simp [xmlnsPrefix] at h1

theorem tagAttr_xmlns {p v : Bytes} (hp : NCName p) (hv : v ≠ []) : TagAttrOk ⟨xmlnsName p, v⟩ :=
  tagAttr_join nc_xmlns hp (fun _ => hv)

/-- What the attribute loop preserves and writes. -/
structure StartInv (ns ns' : Ns) (l : List TagAttr) : Prop where
  same : SameTop ns.els ns'.els
  pfx : PfxOk ns'.els
  ok : ∀ a ∈ l, TagAttrOk a

theorem writeAttr_inv (ns : Ns) (h : ns.els ≠ []) (hp : PfxOk ns.els) (a : Attr) (ha : AttrOk a) :
    StartInv ns (writeAttr ns a).1 (writeAttr ns a).2 := by
  unfold writeAttr
  split
  · exact ⟨.refl h, hp, by simp⟩
  rename_i hne
  rcases ha with ha | ⟨hq, hv⟩
  · exact absurd ha hne
  have hsp := splitPrefixed_q hq
  dsimp only
  split
  · rename_i hx
    have hc := createPrefix_ok ns h hp a.value (splitPrefixed a.name.loc).2
    refine ⟨createPrefix_same ns h _ _, hc.1, ?_⟩
    intro b hb
    simp at hb
    subst hb
    exact tagAttr_xmlns hsp.1 (hv hx)
  split
  · rename_i hx hs
    have hc := createPrefix_ok ns h hp a.name.space (splitPrefixed a.name.loc).1
    refine ⟨createPrefix_same ns h _ _, hc.1, ?_⟩
    intro b hb
    rcases List.mem_append.1 hb with hb | hb
    · split at hb
      · simp at hb; subst hb; exact tagAttr_xmlns hc.2.1 hs
      · simp at hb
    · simp at hb; subst hb
      exact tagAttr_join hc.2.1 hsp.1 (fun he => absurd he (hc.2.2 hx))
  · refine ⟨.refl h, hp, ?_⟩
    intro b hb
    simp at hb
    subst hb
    exact tagAttr_nc hsp.1

theorem writeAttrs_inv (attrs : List Attr) (ns : Ns) (h : ns.els ≠ []) (hp : PfxOk ns.els) (ha : ∀ a ∈ attrs, AttrOk a) :
    StartInv ns (writeAttrs ns attrs).1 (writeAttrs ns attrs).2 := by
  induction attrs generalizing ns with
  | nil => exact ⟨.refl h, hp, by simp [writeAttrs]⟩
  | cons a l ih =>
    have h1 := writeAttr_inv ns h hp a (ha a (by simp))
    have h2 := ih (writeAttr ns a).1 h1.same.ne h1.pfx (fun x hx => ha x (by simp [hx]))
    simp only [writeAttrs]
    refine ⟨h1.same.trans h2.same, h2.pfx, ?_⟩
    intro b hb
    rcases List.mem_append.1 hb with hb | hb
    · exact h1.ok b hb
    · exact h2.ok b hb

/-- The element has been pushed on the stack `els`, possibly with another prefix. -/
structure Placed (els els' : List Elem) (e : Elem) : Prop where
  ex : ∃ e', els' = e' :: els ∧ e'.name = e.name ∧ e'.xmlns = e.xmlns ∧ (e'.pre = [] ∨ NCName e'.pre)
  pfx : PfxOk els'

theorem pfx_push (els : List Elem) (e : Elem) (h : PfxOk els) (he : e.nsToPrefix = []) : PfxOk (e :: els) := by
  intro f hf
  rcases List.mem_cons.1 hf with rfl | hf
  · rw [he]; intro u p hm; simp at hm
  · exact h f hf

theorem pfx_setPre (ns : Ns) (p : Bytes) (h : PfxOk ns.els) : PfxOk (setPre ns p).els := by
  unfold setPre
  split
  · exact h
  · rename_i e els he
    intro f hf
    rcases List.mem_cons.1 hf with rfl | hf
    · exact h e (by rw [he]; simp)
    · exact h f (by rw [he]; simp [hf])

theorem placed_setPre {els : List Elem} {ns : Ns} {e : Elem} {p : Bytes} (hs : SameTop (e :: els) ns.els) (hp : PfxOk ns.els)
    (hn : NCName p) : Placed els (setPre ns p).els e := by
  refine ⟨?_, pfx_setPre ns p hp⟩
  obtain ⟨f, fs, f', h1, h2, _, h4, h5⟩ := hs
  injection h1 with h1 h1'
  subst h1; subst h1'
  unfold setPre
  rw [h2]
  exact ⟨_, rfl, h4, h5, Or.inr hn⟩

theorem placeElement_placed (seq : Nat) (els : List Elem) (e : Elem) (attrs : List Attr) (hp : PfxOk els)
    (he : e.nsToPrefix = []) (hpre : e.pre = [] ∨ NCName e.pre) : Placed els (placeElement seq els e attrs).1.els e := by
  have hpush := pfx_push els e hp he
  unfold placeElement
  repeat' split
  all_goals first
    | exact ⟨⟨e, rfl, rfl, rfl, hpre⟩, hpush⟩
    | skip
  · rename_i a _
    dsimp only
    have hc := createPrefix_ok ⟨seq, e :: els⟩ (by simp) hpush a.value a.name.loc
    exact placed_setPre (createPrefix_same ⟨seq, e :: els⟩ (by simp) _ _) hc.1 hc.2.1
  · dsimp only
    refine ⟨⟨_, rfl, rfl, rfl, ?_⟩, pfx_push els _ hp he⟩
    by_cases hg : getPrefix (e :: els) e.xmlns = []
    · exact Or.inl hg
    · exact Or.inr (getPrefix_ok _ hpush _ hg).1

/-- What a start tag looks like. -/
structure StartTag (els els' : List Elem) (n : Name) (q : Bytes) (tas : List TagAttr) : Prop where
  ex : ∃ e', els' = e' :: els ∧ e'.name = (splitPrefixed n.loc).2 ∧ e'.xmlns = n.space ∧
    (e'.pre = [] ∨ NCName e'.pre) ∧ q = joinPrefixed e'.pre e'.name
  pfx : PfxOk els'
  ok : ∀ a ∈ tas, TagAttrOk a

theorem nameTag_tag (els : List Elem) (ns : Ns) (d : Bool) (e : Elem) (hpl : Placed els ns.els e) :
    Placed els (nameTag ns d e.xmlns e.name).1.els e ∧
    (nameTag ns d e.xmlns e.name).2.1 = joinPrefixed (topPre (nameTag ns d e.xmlns e.name).1) e.name ∧
    ∀ a ∈ (nameTag ns d e.xmlns e.name).2.2, TagAttrOk a := by
  obtain ⟨⟨e', h1, h2, h3, h4⟩, hp⟩ := hpl
  have hpl' : Placed els ns.els e := ⟨⟨e', h1, h2, h3, h4⟩, hp⟩
  have htop : topPre ns = e'.pre := by unfold topPre; rw [h1]
  unfold nameTag
  split
  · rename_i hne
    split
    · rename_i hx
      dsimp only
      have hne' : ns.els ≠ [] := by rw [h1]; simp
      have hc := createPrefix_ok ns hne' hp e.xmlns (topPre ns)
      have hs := createPrefix_same ns hne' e.xmlns (topPre ns)
      have hpc : Placed els (setPre (createPrefix ns e.xmlns (topPre ns)).1 (createPrefix ns e.xmlns (topPre ns)).2.1).els e := by
        rw [h1] at hs
        have := placed_setPre (p := (createPrefix ns e.xmlns (topPre ns)).2.1) hs hc.1 hc.2.1
        obtain ⟨⟨f, a1, a2, a3, a4⟩, a5⟩ := this
        exact ⟨⟨f, a1, a2.trans h2, a3.trans h3, a4⟩, a5⟩
      refine ⟨hpc, ?_, ?_⟩
      · have : topPre (setPre (createPrefix ns e.xmlns (topPre ns)).1 (createPrefix ns e.xmlns (topPre ns)).2.1) =
            (createPrefix ns e.xmlns (topPre ns)).2.1 := by
          obtain ⟨f, fs, f', a1, a2, _⟩ := hs
          generalize (createPrefix ns e.xmlns (topPre ns)) = c at *
          unfold setPre topPre
          rw [a2]
        rw [this]
        unfold joinPrefixed
        rw [if_neg (isName_ne hc.2.1.1)]
      · intro a ha
        split at ha
        · simp at ha; subst ha; exact tagAttr_xmlns hc.2.1 hx.1
        · simp at ha
    · refine ⟨hpl', ?_, by simp⟩
      unfold joinPrefixed
      dsimp only
      rw [if_neg hne]
  · rename_i hne
    have hne : topPre ns = [] := Classical.not_not.1 hne
    split
    · refine ⟨hpl', ?_, ?_⟩
      · unfold joinPrefixed; dsimp only; rw [if_pos hne]
      · intro a ha
        dsimp only at ha
        split at ha
        · simp at ha
        · simp at ha; subst ha; exact tagAttr_nc nc_xmlns
    · refine ⟨hpl', ?_, by simp⟩
      unfold joinPrefixed; dsimp only; rw [if_pos hne]

theorem nsStart_tag (ns ns' : Ns) (n : Name) (attrs : List Attr) (q : Bytes) (tas : List TagAttr) (hp : PfxOk ns.els)
    (hn : QLocal n.loc) (ha : ∀ a ∈ attrs, AttrOk a) (h : nsStart ns n attrs = .ok (ns', q, tas)) :
    StartTag ns.els ns'.els n q tas := by
  unfold nsStart at h
  rw [if_neg (qlocal_ne hn)] at h
  dsimp only at h
  injection h with h
  injection h with h1 h
  injection h with h2 h3
  have hpl := placeElement_placed ns.seq ns.els (newElement n) attrs hp rfl (splitPrefixed_q hn).2
  generalize placeElement ns.seq ns.els (newElement n) attrs = pl at *
  have hnt := nameTag_tag ns.els pl.1 pl.2 (newElement n) hpl
  generalize nameTag pl.1 pl.2 (newElement n).xmlns (newElement n).name = nt at *
  obtain ⟨⟨⟨e', b1, b2, b3, b4⟩, b5⟩, hq, hta⟩ := hnt
  have hat := writeAttrs_inv attrs nt.1 (by rw [b1]; simp) b5 ha
  generalize writeAttrs nt.1 attrs = aa at *
  subst h1; subst h2; subst h3
  obtain ⟨f, fs, f', c1, c2, c3, c4, c5⟩ := hat.same
  rw [b1] at c1
  injection c1 with c1 c1'
  subst c1; subst c1'
  refine ⟨⟨f', c2, c4.trans b2, c5.trans b3, ?_, ?_⟩, hat.pfx, ?_⟩
  · rw [c3]; exact b4
  · rw [hq, c3, c4]
    unfold topPre
    rw [b1]
    dsimp only
    rw [b2]
  · intro a hm
    rcases List.mem_append.1 hm with hm | hm
    · exact hta a hm
    · exact hat.ok a hm

theorem nsEnd_tag (ns ns' : Ns) (n : Name) (q : Bytes) (h : nsEnd ns n = .ok (ns', q)) :
    ∃ e, ns.els = e :: ns'.els ∧ q = joinPrefixed e.pre e.name := by
  unfold nsEnd at h
  split at h
  · cases h
  split at h
  · cases h
  · rename_i e els he
    dsimp only at h
    repeat' split at h
    all_goals first
      | cases h
      | skip
    rw [he]
    exact ⟨e, rfl, rfl⟩

/-! ### Tokens of lists of pieces -/

/-- The tokens of a list of pieces, and the text at its end that is not yet complete. -/
def lexL : Bytes → List Out → List Token × Bytes
  | acc, [] => ([], acc)
  | acc, .start q as :: l => (flush acc ++ .startElement (nameOf q) (as.map attrOf) :: (lexL [] l).1, (lexL [] l).2)
  | acc, .stop q :: l => (flush acc ++ .endElement (nameOf q) :: (lexL [] l).1, (lexL [] l).2)
  | acc, .text b :: l => lexL (acc ++ clean b) l
  | acc, .str b :: l => lexL (acc ++ clean b) l
  | acc, .raw b :: l => lexL (acc ++ b) l
  | acc, .inner b :: l => (flush acc ++ chunkToks b ++ (lexL [] l).1, (lexL [] l).2)

theorem lexOuts_lexL (acc : Bytes) (l : List Out) : lexOuts acc l = (lexL acc l).1 ++ flush (lexL acc l).2 := by
  induction l generalizing acc with
  | nil => rfl
  | cons o l ih => cases o <;> simp [lexOuts, lexL, ih]

theorem lexL_append (acc : Bytes) (a b : List Out) :
    lexL acc (a ++ b) = ((lexL acc a).1 ++ (lexL (lexL acc a).2 b).1, (lexL (lexL acc a).2 b).2) := by
  induction a generalizing acc with
  | nil => rfl
  | cons o a ih => cases o <;> simp [lexL, ih]

/-- The meaning of a list of raw tokens all of which are accepted. -/
def specRun : List Open → List Token → Option (List Token × List Open)
  | os, [] => some ([], os)
  | os, t :: l =>
    match specToken os t with
    | none => none
    | some (t', os') =>
      match specRun os' l with
      | none => none
      | some (ts, os'') => some (t' :: ts, os'')

theorem specRun_append (os os1 os2 : List Open) (a b ta tb : List Token) (ha : specRun os a = some (ta, os1))
    (hb : specRun os1 b = some (tb, os2)) : specRun os (a ++ b) = some (ta ++ tb, os2) := by
  induction a generalizing os ta with
  | nil => injection ha with ha; injection ha with h1 h2; subst h1; subst h2; exact hb
  | cons t a ih =>
    simp only [specRun, List.cons_append] at ha ⊢
    split at ha
    · cases ha
    · rename_i t' os' ht
      split at ha
      · cases ha
      · rename_i ts os'' hr
        injection ha with ha
        injection ha with h1 h2
        subst h1; subst h2
        rw [ih os' ts hr]
        rfl

theorem specRun_flush (os : List Open) (acc : Bytes) : specRun os (flush acc) = some (flush acc, os) := by
  unfold flush
  split <;> rfl

/-- A whole number of elements: accepted wherever it stands, and nothing of it is at the outer level. -/
structure Whole (ts : List Token) : Prop where
  spec : ∀ os, ∃ ts', specRun os ts = some (ts', os)
  inner : ∀ d os ts' l, specRun os ts = some (ts', os) → topLevel (d + 1) (ts' ++ l) = topLevel (d + 1) l

theorem specToken_chars (os : List Open) (b : Bytes) : specToken os (.charData b) = some (.charData b, os) := rfl

theorem whole_nil : Whole [] := by
  refine ⟨fun os => ⟨[], rfl⟩, ?_⟩
  intro d os ts' l h
  injection h with h; injection h with h _; subst h; rfl

theorem whole_flush (acc : Bytes) : Whole (flush acc) := by
  refine ⟨fun os => ⟨_, specRun_flush os acc⟩, ?_⟩
  intro d os ts' l h
  rw [specRun_flush] at h
  injection h with h; injection h with h _; subst h
  unfold flush
  split
  · rfl
  · rw [List.cons_append, List.nil_append, topLevel.eq_def]

theorem whole_append {a b : List Token} (ha : Whole a) (hb : Whole b) : Whole (a ++ b) := by
  refine ⟨fun os => ?_, ?_⟩
  · obtain ⟨ta, h1⟩ := ha.spec os
    obtain ⟨tb, h2⟩ := hb.spec os
    exact ⟨_, specRun_append os os os a b ta tb h1 h2⟩
  · intro d os ts' l h
    obtain ⟨ta, h1⟩ := ha.spec os
    obtain ⟨tb, h2⟩ := hb.spec os
    rw [specRun_append os os os a b ta tb h1 h2] at h
    injection h with h; injection h with h _; subst h
    rw [List.append_assoc, ha.inner d os ta _ h1, hb.inner d os tb _ h2]

/-- The meaning of one element. -/
theorem specRun_elem (os : List Open) (n : Name) (as : List Attr) (ts : List Token) (hb : ∀ a ∈ as, ¬ BadDecl a)
    (h : Whole ts) : ∃ n' as' ts', specRun (⟨n, as.filterMap declOf⟩ :: os) ts = some (ts', ⟨n, as.filterMap declOf⟩ :: os) ∧
      specRun os (.startElement n as :: (ts ++ [.endElement n])) =
        some (.startElement n' as' :: (ts' ++ [.endElement n']), os) := by
  obtain ⟨ts', hts⟩ := h.spec (⟨n, as.filterMap declOf⟩ :: os)
  refine ⟨resolveElement (⟨n, as.filterMap declOf⟩ :: os) n,
    as.map fun a => ⟨resolveAttr (⟨n, as.filterMap declOf⟩ :: os) a.name, a.value⟩, ts', hts, ?_⟩
  have hend : specRun (⟨n, as.filterMap declOf⟩ :: os) [.endElement n] =
      some ([.endElement (resolveElement (⟨n, as.filterMap declOf⟩ :: os) n)], os) := by
    simp [specRun, specToken]
  simp only [specRun, specToken]
  rw [if_neg (by rintro ⟨a, ha, hba⟩; exact hb a ha hba)]
  dsimp only
  rw [specRun_append _ _ _ _ _ _ _ hts hend]

theorem whole_elem (n : Name) (as : List Attr) (ts : List Token) (hb : ∀ a ∈ as, ¬ BadDecl a) (h : Whole ts) :
    Whole (.startElement n as :: (ts ++ [.endElement n])) := by
  refine ⟨fun os => ?_, ?_⟩
  · obtain ⟨n', as', ts', _, h2⟩ := specRun_elem os n as ts hb h
    exact ⟨_, h2⟩
  · intro d os ts'' l hs
    obtain ⟨n', as', ts', h1, h2⟩ := specRun_elem os n as ts hb h
    rw [h2] at hs
    injection hs with hs; injection hs with hs _; subst hs
    simp only [List.cons_append, List.append_assoc, List.nil_append]
    rw [topLevel, h.inner (d + 1) _ ts' _ h1, topLevel]

theorem chain_append : ∀ (a b : List Out) (acc : Bytes), Chain acc a → Chain (lexL acc a).2 b → Chain acc (a ++ b)
  | [], _, _, _, h => h
  | .start _ _ :: a, b, _, h, h' => chain_append a b [] h h'
  | .stop _ :: a, b, _, h, h' => chain_append a b [] h h'
  | .text _ :: a, b, _, h, h' => chain_append a b _ h h'
  | .str _ :: a, b, _, h, h' => chain_append a b _ h h'
  | .raw _ :: a, b, _, h, h' => chain_append a b _ h h'
  | .inner _ :: a, b, _, h, h' => by
    obtain ⟨h1, ⟨x, hx⟩, h2⟩ := h
    refine ⟨h1, ⟨x ++ outBytes b, ?_⟩, chain_append a b [] h2 h'⟩
    unfold outBytes at hx ⊢
    exact (List.flatMap_append ..).trans (by rw [hx]; rfl)

/-! ### Content written as it is -/

theorem nest_spec (ts : List Token) : ∀ (st st' : List Name) (pre : List Open) (os : List Open), pre.map (·.name) = st →
    nesting st ts = some st' → (∀ n as, Token.startElement n as ∈ ts → ∀ a ∈ as, ¬ BadDecl a) →
    ∃ ts' pre', pre'.map (·.name) = st' ∧ specRun (pre ++ os) ts = some (ts', pre' ++ os) ∧
      ∀ d l, topLevel (d + 1 + st.length) (ts' ++ l) = topLevel (d + 1 + st'.length) l := by
  induction ts with
  | nil =>
    intro st st' pre os h1 h2 _
    injection h2 with h2
    subst h2
    exact ⟨[], pre, h1, rfl, fun _ _ => rfl⟩
  | cons t ts ih =>
    intro st st' pre os h1 h2 h3
    have h3' : ∀ n as, Token.startElement n as ∈ ts → ∀ a ∈ as, ¬ BadDecl a := fun n as h => h3 n as (by simp [h])
    have other : nesting st ts = some st' → specToken (pre ++ os) t = some (t, pre ++ os) →
        (∀ d l, topLevel (d + 1) (t :: l) = topLevel (d + 1) l) →
        ∃ ts' pre', pre'.map (·.name) = st' ∧ specRun (pre ++ os) (t :: ts) = some (ts', pre' ++ os) ∧
          ∀ d l, topLevel (d + 1 + st.length) (ts' ++ l) = topLevel (d + 1 + st'.length) l := by
      intro k1 k2 k3
      obtain ⟨ts', pre', e1, e2, e3⟩ := ih st st' pre os h1 k1 h3'
      refine ⟨t :: ts', pre', e1, by simp only [specRun, k2, e2], fun d l => ?_⟩
      rw [List.cons_append, show d + 1 + st.length = d + st.length + 1 by omega, k3,
        show d + st.length + 1 = d + 1 + st.length by omega, e3]
    cases t with
    | startElement n as =>
      simp only [nesting] at h2
      obtain ⟨ts', pre', e1, e2, e3⟩ := ih (n :: st) st' (⟨n, as.filterMap declOf⟩ :: pre) os (by simp [h1]) h2 h3'
      refine ⟨.startElement (resolveElement (⟨n, as.filterMap declOf⟩ :: (pre ++ os)) n)
        (as.map fun a => ⟨resolveAttr (⟨n, as.filterMap declOf⟩ :: (pre ++ os)) a.name, a.value⟩) :: ts', pre', e1, ?_, ?_⟩
      · simp only [specRun, specToken]
        rw [if_neg (by rintro ⟨a, ha, hb⟩; exact h3 n as (by simp) a ha hb)]
        dsimp only
        rw [List.cons_append] at e2
        rw [e2]
      · intro d l
        rw [List.cons_append, show d + 1 + st.length = d + st.length + 1 by omega, topLevel]
        have := e3 d l
        rw [List.length_cons] at this
        rw [← this]
        congr 1; omega
    | endElement n =>
      cases st with
      | nil => simp [nesting] at h2
      | cons o st =>
        simp only [nesting] at h2
        split at h2
        · rename_i ho
          cases pre with
          | nil => simp at h1
          | cons p pre =>
            simp only [List.map_cons, List.cons.injEq] at h1
            obtain ⟨ts', pre', e1, e2, e3⟩ := ih st st' pre os h1.2 h2 h3'
            refine ⟨.endElement (resolveElement (p :: (pre ++ os)) n) :: ts', pre', e1, ?_, ?_⟩
            · simp only [List.cons_append, specRun, specToken]
              rw [if_pos (by rw [h1.1, ho])]
              dsimp only
              rw [e2]
            · intro d l
              rw [List.cons_append, List.length_cons, show d + 1 + (st.length + 1) = d + st.length + 1 + 1 by omega, topLevel,
                ← e3]
              congr 1; omega
        · cases h2
    | charData b => exact other (by simpa [nesting] using h2) rfl (fun d l => by rw [topLevel.eq_def])
    | comment b => exact other (by simpa [nesting] using h2) rfl (fun d l => by rw [topLevel.eq_def])
    | procInst a b => exact other (by simpa [nesting] using h2) rfl (fun d l => by rw [topLevel.eq_def])
    | directive b => exact other (by simpa [nesting] using h2) rfl (fun d l => by rw [topLevel.eq_def])

theorem chunk_whole {b : Bytes} (h : Chunk b) : Whole (chunkToks b) := by
  refine ⟨fun os => ?_, ?_⟩
  · obtain ⟨ts', pre', e1, e2, _⟩ := nest_spec _ [] [] [] os rfl h.nest h.decl
    have : pre' = [] := List.map_eq_nil_iff.1 e1
    subst this
    exact ⟨ts', e2⟩
  · intro d os ts'' l hs
    obtain ⟨ts', pre', e1, e2, e3⟩ := nest_spec _ [] [] [] os rfl h.nest h.decl
    rw [List.nil_append, hs] at e2
    injection e2 with e2; injection e2 with e2 _
    subst e2
    exact e3 d l

/-! ### The printer -/

/-- The indentation strings are white space. -/
def WsInd (i : Ind) : Prop := IsWs i.pre ∧ IsWs i.indent

theorem isWs_append {a b : Bytes} (ha : IsWs a) (hb : IsWs b) : IsWs (a ++ b) := by
  intro x hx
  rcases List.mem_append.1 hx with hx | hx
  · exact ha x hx
  · exact hb x hx

theorem isWs_replicate (n : Nat) (b : Bytes) (h : IsWs b) : IsWs (List.replicate n b).flatten := by
  induction n with
  | zero => intro x hx; simp at hx
  | succ n ih => rw [List.replicate_succ, List.flatten_cons]; exact isWs_append h ih

theorem indentOut_ws (i : Ind) (d : Int) (h : WsInd i) : WsInd (indentOut i d).1 ∧ IsWs (indentOut i d).2 := by
  refine ⟨h, ?_⟩
  unfold indentOut
  refine isWs_append (isWs_append ?_ h.1) (isWs_replicate _ _ h.2)
  split
  · intro x hx; simp at hx; exact Or.inr (Or.inr hx)
  · intro x hx; simp at hx

theorem writeIndent_ws (i : Ind) (d : Int) (h : WsInd i) : WsInd (writeIndent i d).1 ∧ IsWs (writeIndent i d).2 := by
  have hnil : IsWs [] := fun x hx => by simp at hx
  unfold writeIndent
  split
  · exact ⟨h, hnil⟩
  split
  · split
    · exact ⟨h, hnil⟩
    · exact indentOut_ws _ d h
  · exact indentOut_ws _ d h

/-- What printing items does: the element stack is unchanged, and the pieces are whole elements. -/
structure Printed (p p' : Printer) (o : List Out) : Prop where
  els : p'.ns.els = p.ns.els
  ws : WsInd p'.ind
  ok : ∀ x ∈ o, OutOk x
  chain : ∀ acc, Chain acc o
  whole : ∀ acc, Whole (lexL acc o).1

theorem join_written {pre name : Bytes} (h1 : pre = [] ∨ NCName pre) (h2 : NCName name) :
    WrittenName (joinPrefixed pre name) ⟨pre, name⟩ := by
  unfold joinPrefixed
  rcases h1 with rfl | h1
  · rw [if_pos rfl]; exact written_nc h2
  · rw [if_neg (isName_ne h1.1)]; exact written_join h1 h2

/-- Nothing is written before the end tag of an element without elements. -/
theorem indent_end (i : Ind) : (writeIndent (writeIndent i 1).1 (-1)).2 = [] := by
  by_cases h : i.pre = [] ∧ i.indent = []
  · have h1 : ∀ d, writeIndent i d = (i, []) := fun d => by unfold writeIndent; rw [if_pos h]
    rw [h1, h1]
  · have h1 : writeIndent i 1 = indentOut i 1 := by
      unfold writeIndent; rw [if_neg h, if_neg (by decide)]
    rw [h1]
    unfold writeIndent indentOut
    dsimp only
    rw [if_neg h, if_pos (by decide), if_pos (by simp)]

/-- The pieces of the content of an element. -/
structure PrintedIn (p p' : Printer) (o : List Out) : Prop where
  els : p'.ns.els = p.ns.els
  ws : WsInd p'.ind
  ok : ∀ x ∈ o, OutOk x
  chain : ∀ q, Chain [] (o ++ [.raw (writeIndent p'.ind (-1)).2, .stop q])
  whole : Whole ((lexL [] o).1 ++ flush ((lexL [] o).2 ++ (writeIndent p'.ind (-1)).2))

mutual
theorem encItem_printed (i : Item) (p p' : Printer) (o : List Out) (hp : PfxOk p.ns.els) (hw : WsInd p.ind)
    (hi : ItemOk i) (h : encItem p i = .ok (p', o)) : Printed p p' o := by
  cases i with
  | elem n attrs kids =>
    unfold ItemOk at hi
    obtain ⟨hn, ha, hk⟩ := hi
    unfold encItem writeStart at h
    cases h1 : nsStart p.ns n attrs with
    | error e => rw [h1] at h; cases h
    | ok r =>
      obtain ⟨ns1, q, tas⟩ := r
      rw [h1] at h
      dsimp only at h
      have hst := nsStart_tag _ _ _ _ _ _ hp hn ha h1
      have hw1 := writeIndent_ws p.ind 1 hw
      cases h2 : encItems ⟨ns1, (writeIndent p.ind 1).1⟩ kids with
      | error e => rw [h2] at h; cases h
      | ok r =>
        obtain ⟨p2, o2⟩ := r
        rw [h2] at h
        dsimp only at h
        have hk2 := kids_printed kids p.ind ns1 _ _ hst.pfx hw1.1 hk h2
        unfold writeEnd at h
        cases h3 : nsEnd p2.ns n with
        | error e => rw [h3] at h; cases h
        | ok r =>
          obtain ⟨ns3, q3⟩ := r
          rw [h3] at h
          dsimp only at h
          injection h with h
          injection h with h4 h5
          subst h4; subst h5
          obtain ⟨e, e1, e2⟩ := nsEnd_tag _ _ _ _ h3
          obtain ⟨e', f1, f2, f3, f4, f5⟩ := hst.ex
          have hels := hk2.els
          dsimp only at hels
          rw [e1, f1] at hels
          injection hels with g1 g2
          subst g1
          have hqq : q3 = q := by rw [e2, f5]
          subst hqq
          have hwn : WrittenName q3 ⟨e.pre, e.name⟩ := by
            rw [f5]; exact join_written f4 (by rw [f2]; exact (splitPrefixed_q hn).1)
          have hw3 := writeIndent_ws p2.ind (-1) hk2.ws
          refine ⟨g2, hw3.1, ?_, fun acc => hk2.chain q3, ?_⟩
          · intro x hx
            simp only [List.mem_append, List.mem_cons, List.not_mem_nil, or_false] at hx
            rcases hx with (((rfl | rfl) | hx) | (rfl | rfl))
            · exact isWs_plain hw1.2
            · exact ⟨written_ok hwn, fun a ha => (hst.ok a ha).1⟩
            · exact hk2.ok x hx
            · exact isWs_plain hw3.2
            · exact written_ok hwn
          · intro acc
            rw [List.append_assoc, lexL_append, lexL_append]
            simp only [lexL, List.append_nil]
            have := whole_append (whole_flush (acc ++ (writeIndent p.ind 1).2))
              (whole_elem (nameOf q3) (tas.map attrOf)
                ((lexL [] o2).1 ++ flush ((lexL [] o2).2 ++ (writeIndent p2.ind (-1)).2))
                (by
                  intro b hb
                  obtain ⟨a, ha', rfl⟩ := List.mem_map.1 hb
                  exact (hst.ok a ha').2)
                hk2.whole)
            simpa using this
  | text b =>
    injection h with h; injection h with h1 h2; subst h1; subst h2
    exact ⟨rfl, hw, by simp [OutOk], fun acc => trivial, fun acc => whole_nil⟩
  | str b =>
    injection h with h; injection h with h1 h2; subst h1; subst h2
    exact ⟨rfl, hw, by simp [OutOk], fun acc => trivial, fun acc => whole_nil⟩
  | raw b =>
    injection h with h; injection h with h1 h2; subst h1; subst h2
    exact absurd hi (by simp [ItemOk])
theorem kids_printed (l : List Item) (i : Ind) (ns : Ns) (p' : Printer) (o : List Out) (hp : PfxOk ns.els)
    (hw : WsInd (writeIndent i 1).1) (hk : (∃ b, l = [.raw b] ∧ Chunk b) ∨ ItemsOk l)
    (h : encItems ⟨ns, (writeIndent i 1).1⟩ l = .ok (p', o)) : PrintedIn ⟨ns, (writeIndent i 1).1⟩ p' o := by
  rcases hk with ⟨b, rfl, hb⟩ | hk
  · simp only [encItems, encItem, List.append_nil] at h
    injection h with h; injection h with h1 h2; subst h1; subst h2
    refine ⟨rfl, hw, by simpa [OutOk] using hb, fun q => ⟨rfl, ⟨ch%'/' :: (q ++ [ch%'>']), ?_⟩, trivial⟩, ?_⟩
    · dsimp only
      rw [indent_end]
      simp [outBytes, Out.bytes]
    · dsimp only
      rw [indent_end]
      simpa [lexL, flush] using chunk_whole hb
  · have := encItems_printed l _ _ _ hp hw hk h
    exact ⟨this.els, this.ws, this.ok, fun q => chain_append _ _ _ (this.chain []) trivial,
      whole_append (this.whole []) (whole_flush _)⟩
theorem encItems_printed (l : List Item) (p p' : Printer) (o : List Out) (hp : PfxOk p.ns.els) (hw : WsInd p.ind)
    (hi : ItemsOk l) (h : encItems p l = .ok (p', o)) : Printed p p' o := by
  cases l with
  | nil =>
    injection h with h; injection h with h1 h2; subst h1; subst h2
    exact ⟨rfl, hw, by simp, fun acc => trivial, fun acc => whole_nil⟩
  | cons i l =>
    unfold ItemsOk at hi
    unfold encItems at h
    cases h1 : encItem p i with
    | error e => rw [h1] at h; cases h
    | ok r =>
      obtain ⟨p1, o1⟩ := r
      rw [h1] at h
      dsimp only at h
      have hi1 := encItem_printed i _ _ _ hp hw hi.1 h1
      cases h2 : encItems p1 l with
      | error e => rw [h2] at h; cases h
      | ok r =>
        obtain ⟨p2, o2⟩ := r
        rw [h2] at h
        dsimp only at h
        injection h with h
        injection h with h3 h4
        subst h3; subst h4
        have hi2 := encItems_printed l _ _ _ (by rw [hi1.els]; exact hp) hi1.ws hi.2 h2
        refine ⟨hi2.els.trans hi1.els, hi2.ws, ?_, fun acc => chain_append _ _ _ (hi1.chain _) (hi2.chain _), ?_⟩
        · intro x hx
          rcases List.mem_append.1 hx with hx | hx
          · exact hi1.ok x hx
          · exact hi2.ok x hx
        · intro acc
          rw [lexL_append]
          exact whole_append (hi1.whole acc) (hi2.whole _)
end

/-! ### Reading the whole document -/

theorem tokRun_steps (ts : List Token) (d : Dec) (os os' : List Open) (hrel : Rel d.ns d.stk os) (hc : RawColonFree d.raw)
    (st : Raw) (hst : RawSteps d.raw ts st) (ts' : List Token) (hs : specRun os ts = some (ts', os'))
    (k : Nat) : ∃ d', d'.raw = st ∧ Rel d'.ns d'.stk os' ∧ RawColonFree st ∧
      tokRun (ts.length + k) d = (ts' ++ (tokRun k d').1, (tokRun k d').2) := by
  induction ts generalizing d os ts' with
  | nil =>
    cases hst
    injection hs with hs
    injection hs with h1 h2
    subst h1; subst h2
    exact ⟨d, rfl, hrel, hc, by simp⟩
  | cons t ts ih =>
    cases hst with
    | cons _ st1 _ _ _ hr hst =>
      simp only [specRun] at hs
      split at hs
      · cases hs
      · rename_i t' os1 ht
        split at hs
        · cases hs
        · rename_i ts1 os2 hrun
          injection hs with hs
          injection hs with h1 h2
          subst h1; subst h2
          have hcf := rawToken_colonFree _ _ _ hc hr
          have hck := cook_spec hrel t hcf.1
          cases hk : cook t d.ns d.stk with
          | error e => rw [hk, ht] at hck; exact absurd hck id
          | ok q =>
            obtain ⟨t'', ns', stk'⟩ := q
            rw [hk, ht] at hck
            dsimp only at hck
            obtain ⟨rfl, hrel'⟩ := hck
            obtain ⟨d', e1, e2, e3, e4⟩ := ih ⟨st1, ns', stk'⟩ os1 hrel' hcf.2 hst ts1 hrun
            refine ⟨d', e1, e2, e3, ?_⟩
            rw [List.length_cons, show ts.length + 1 + k = (ts.length + k) + 1 by omega]
            simp only [tokRun, token, hr, hk]
            rw [e4]
            simp

theorem rawToken_eof : rawToken ⟨[], none⟩ = .error .eof := rfl

theorem specRun_length (os os' : List Open) (ts ts' : List Token) (h : specRun os ts = some (ts', os')) :
    ts'.length = ts.length := by
  induction ts generalizing os os' ts' with
  | nil => injection h with h; injection h with h _; subst h; rfl
  | cons t ts ih =>
    simp only [specRun] at h
    split at h
    · cases h
    · split at h
      · cases h
      · rename_i hr
        injection h with h
        injection h with h _
        subst h
        simp [ih _ _ _ hr]

/-- The decoder on a document whose raw tokens are all accepted. -/
theorem tokRun_doc (doc : Bytes) (ts ts' : List Token) (hst : RawSteps ⟨doc, none⟩ ts ⟨[], none⟩)
    (hs : specRun [] ts = some (ts', [])) (k : Nat) (hk : ts'.length < k) :
    tokRun k (Dec.new doc) = (ts', some .eof) := by
  have hl := specRun_length _ _ _ _ hs
  obtain ⟨m, rfl⟩ : ∃ m, k = ts.length + (m + 1) := ⟨k - ts.length - 1, by omega⟩
  obtain ⟨d', e1, e2, _, e4⟩ := tokRun_steps ts (Dec.new doc) [] [] .nil (rawColonFree_new doc) ⟨[], none⟩ hst ts' hs (m + 1)
  have hstk : d'.stk = [] := by
    generalize h0 : ([] : List Open) = os at e2
    generalize d'.stk = stk at e2 ⊢
    generalize d'.ns = m at e2
    cases e2 with
    | nil => rfl
    | cons => cases h0
  have : tokRun (m + 1) d' = ([], some .eof) := by
    simp only [tokRun, token, e1, rawToken_eof, hstk]
    simp
  rw [e4, this]
  simp

/-- C28: whatever tree of elements is printed, with any prefix and indentation made of white space: if the printer
succeeds, the decoder reads the output to its end, start and end tags match, and there is one root element. -/
theorem C28_wellformed (pre indent : Bytes) (hpre : IsWs pre) (hind : IsWs indent) (n : Name) (attrs : List Attr)
    (kids : List Item) (hi : ItemOk (.elem n attrs kids)) (doc : Bytes)
    (h : encode pre indent [.elem n attrs kids] = .ok doc) : ∃ ts, WellFormedDoc doc ts := by
  unfold encode at h
  cases h1 : encItems (Printer.new pre indent) [.elem n attrs kids] with
  | error e => rw [h1] at h; cases h
  | ok r =>
    obtain ⟨p', o⟩ := r
    rw [h1] at h
    injection h with h
    subst h
    have hpr := encItems_printed [.elem n attrs kids] (Printer.new pre indent) p' o
      (by intro e he; simp [Printer.new] at he) ⟨hpre, hind⟩ ⟨hi, trivial⟩ h1
    have hsteps := lex_pieces o hpr.ok (hpr.chain []) [] (Or.inl rfl)
    rw [List.append_nil, lexOuts_lexL] at hsteps
    obtain ⟨ts', hts⟩ := (whole_append (hpr.whole []) (whole_flush (lexL [] o).2)).spec []
    refine ⟨ts', fun k hk => tokRun_doc _ _ _ hsteps hts k hk, ?_, ?_⟩
    · have hrun := tokRun_doc _ _ _ hsteps hts (ts'.length + 1) (by omega)
      have := C26_eof_closed (outBytes o) (ts'.length + 1) (by rw [hrun])
      rw [hrun] at this
      exact this
    · -- the shape of the output
      unfold ItemOk at hi
      obtain ⟨hn, ha, hk⟩ := hi
      unfold encItems encItem writeStart at h1
      cases hq : nsStart (Printer.new pre indent).ns n attrs with
      | error e => rw [hq] at h1; cases h1
      | ok r =>
        obtain ⟨ns1, q, tas⟩ := r
        rw [hq] at h1
        dsimp only at h1
        have hp0 : PfxOk (Printer.new pre indent).ns.els := by intro e he; simp [Printer.new] at he
        have hst := nsStart_tag _ _ _ _ _ _ hp0 hn ha hq
        have hw1 := writeIndent_ws (Printer.new pre indent).ind 1 ⟨hpre, hind⟩
        cases h2 : encItems ⟨ns1, (writeIndent (Printer.new pre indent).ind 1).1⟩ kids with
        | error e => rw [h2] at h1; cases h1
        | ok r =>
          obtain ⟨p2, o2⟩ := r
          rw [h2] at h1
          dsimp only at h1
          have hk2 := kids_printed kids (Printer.new pre indent).ind ns1 _ _ hst.pfx hw1.1 hk h2
          unfold writeEnd at h1
          cases h3 : nsEnd p2.ns n with
          | error e => rw [h3] at h1; cases h1
          | ok r =>
            obtain ⟨ns3, q3⟩ := r
            rw [h3] at h1
            dsimp only [encItems] at h1
            injection h1 with h1
            injection h1 with _ h5
            subst h5
            obtain ⟨e, e1, e2⟩ := nsEnd_tag _ _ _ _ h3
            obtain ⟨e', f1, f2, f3, f4, f5⟩ := hst.ex
            have hels := hk2.els
            dsimp only at hels
            rw [e1, f1] at hels
            injection hels with g1 g2
            subst g1
            have hqq : q3 = q := by rw [e2, f5]
            subst hqq
            have hlex : (lexL [] (([Out.raw (writeIndent (Printer.new pre indent).ind 1).2, .start q3 tas] ++ o2 ++
                [.raw (writeIndent p2.ind (-1)).2, .stop q3]) ++ [])) =
                (flush (writeIndent (Printer.new pre indent).ind 1).2 ++
                  .startElement (nameOf q3) (tas.map attrOf) ::
                    (((lexL [] o2).1 ++ flush ((lexL [] o2).2 ++ (writeIndent p2.ind (-1)).2)) ++
                      [.endElement (nameOf q3)]), []) := by
              rw [List.append_nil, List.append_assoc, lexL_append, lexL_append]
              simp [lexL]
            rw [hlex] at hts
            dsimp only at hts
            rw [show flush [] = [] from rfl, List.append_nil] at hts
            have hwk := hk2.whole
            obtain ⟨n', as', ts2, g3, g4⟩ := specRun_elem [] (nameOf q3) (tas.map attrOf) _
              (by
                intro b hb
                obtain ⟨a, ha', rfl⟩ := List.mem_map.1 hb
                exact (hst.ok a ha').2) hwk
            rw [specRun_append [] [] [] _ _ _ _ (specRun_flush [] _) g4] at hts
            injection hts with hts
            injection hts with hts _
            subst hts
            refine ⟨_, n', as', hw1.2, ?_⟩
            have htop : ∀ l, topLevel 0 (flush (writeIndent (Printer.new pre indent).ind 1).2 ++ l) =
                flush (writeIndent (Printer.new pre indent).ind 1).2 ++ topLevel 0 l := by
              intro l
              unfold flush
              split
              · rfl
              · simp [topLevel]
            rw [htop, topLevel, hwk.inner 0 _ ts2 _ g3, topLevel, topLevel]

/-- A tree with namespaces, attributes that need escaping and nested elements. -/
example : ∃ doc ts, encode [] b!"  " [.elem ⟨[], b!"MPD"⟩ [⟨⟨[], b!"xmlns"⟩, b!"urn:mpeg:dash:schema:mpd:2011"⟩,
      ⟨⟨b!"http://www.w3.org/1999/xlink", b!"xlink:href"⟩, b!"a\"<b>&"⟩]
    [.elem ⟨b!"urn:mpeg:cenc:2013", b!"cenc:pssh"⟩ [] [.text b!"A<B"]]] = .ok doc ∧ WellFormedDoc doc ts := by
  have hx : ∀ s : Bytes, NCName s → QLocal s := fun s h => Or.inl h
  have h := C28_wellformed [] b!"  " (by intro x hx; simp at hx) (by intro x hx; revert x; decide)
    ⟨[], b!"MPD"⟩ [⟨⟨[], b!"xmlns"⟩, b!"urn:mpeg:dash:schema:mpd:2011"⟩,
      ⟨⟨b!"http://www.w3.org/1999/xlink", b!"xlink:href"⟩, b!"a\"<b>&"⟩]
    [.elem ⟨b!"urn:mpeg:cenc:2013", b!"cenc:pssh"⟩ [] [.text b!"A<B"]]
    ⟨Or.inl (by decide +kernel), by
      intro a ha
      simp only [List.mem_cons, List.not_mem_nil, or_false] at ha
      rcases ha with rfl | rfl
      · exact Or.inr ⟨Or.inl (by decide +kernel), fun h => absurd h (by decide)⟩
      · exact Or.inr ⟨Or.inr ⟨b!"xlink", b!"href", by decide +kernel, by decide +kernel, rfl⟩, fun h => absurd h (by decide)⟩,
      Or.inr ⟨⟨Or.inr ⟨b!"cenc", b!"pssh", by decide +kernel, by decide +kernel, rfl⟩, by simp, Or.inr ⟨trivial, trivial⟩⟩, trivial⟩⟩
  cases he : encode [] b!"  " [.elem ⟨[], b!"MPD"⟩ [⟨⟨[], b!"xmlns"⟩, b!"urn:mpeg:dash:schema:mpd:2011"⟩,
      ⟨⟨b!"http://www.w3.org/1999/xlink", b!"xlink:href"⟩, b!"a\"<b>&"⟩]
    [.elem ⟨b!"urn:mpeg:cenc:2013", b!"cenc:pssh"⟩ [] [.text b!"A<B"]]] with
  | error e =>
    have : (encode [] b!"  " [.elem ⟨[], b!"MPD"⟩ [⟨⟨[], b!"xmlns"⟩, b!"urn:mpeg:dash:schema:mpd:2011"⟩,
      ⟨⟨b!"http://www.w3.org/1999/xlink", b!"xlink:href"⟩, b!"a\"<b>&"⟩]
      [.elem ⟨b!"urn:mpeg:cenc:2013", b!"cenc:pssh"⟩ [] [.text b!"A<B"]]]).isOk = true := by decide +kernel
    rw [he] at this
    cases this
  | ok doc => obtain ⟨ts, hts⟩ := h doc he; exact ⟨doc, ts, rfl, hts⟩

end Verif.Xml

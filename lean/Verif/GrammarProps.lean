import Verif.GrammarDecl
import Verif.Chunk
import Verif.Sees
import Verif.KRfl

/-!
C54: a well-formed document is read as XML 1.0 and Namespaces in XML 1.0 say.  The decoder finds the elements, attributes and
texts of the document with the names and values that these give them, whatever the spelling.
-/
namespace Verif.Grammar

open Verif.Xml Verif.Utf8 Verif.Bind

/-! ### What the decoder has read -/

mutual
/-- Puts what a tree of tokens says before other content. -/
def treeInfo : XTree → List Info → List Info
  | .elem n as _ _ kids _ _ _, l => .elem n as (treesInfo kids) :: l
  | .leaf t _ _, l => addChars (tokData t) l
/-- What a list of trees says. -/
def treesInfo : List XTree → List Info
  | [] => []
  | t :: l => treeInfo t (treesInfo l)
end

/-! ### Steps of the decoder -/

/-- A raw token that may appear is a token. -/
theorem token_ok {d : Dec} {os os' : List Open} {t0 t : Token} {raw' : Raw} (hd : At d os) (hr : rawToken d.raw = .ok (t0, raw'))
    (hs : specToken os t0 = some (t, os')) : ∃ d', token d = .ok (t, d') ∧ d'.raw = raw' ∧ At d' os' := by
  have hcf := rawToken_colonFree _ _ _ hd.colon hr
  have hk := cook_spec hd.rel t0 hcf.1
  rw [hs] at hk
  cases hc : cook t0 d.ns d.stk with
  | error e => rw [hc] at hk; exact absurd hk id
  | ok q =>
    obtain ⟨t', ns', stk'⟩ := q
    rw [hc] at hk
    obtain ⟨rfl, hk⟩ := hk
    refine ⟨⟨raw', ns', stk'⟩, ?_, rfl, hk, hcf.2⟩
    unfold token
    rw [hr]
    dsimp only
    rw [hc]

theorem reads_append {d d1 d2 : Dec} {a b : List PTok} (h : Reads d a d1) (h' : Reads d1 b d2) : Reads d (a ++ b) d2 := by
  induction h with
  | nil d => exact h'
  | cons d e _ t l h1 _ ih => exact .cons _ _ _ _ _ h1 (ih h')

theorem token_raw {d d' : Dec} {t : Token} (h : token d = .ok (t, d')) : ∃ t0, rawToken d.raw = .ok (t0, d'.raw) := by
  unfold token at h
  split at h
  · cases h
  · rename_i t0 raw' hr
    split at h
    · cases h
    · injection h with h; injection h with _ h
      subst h
      exact ⟨t0, hr⟩

theorem reads_stuck {d d' : Dec} {l : List PTok} (h : Reads d l d') (hs : Stuck d.raw) : Stuck d'.raw := by
  induction h with
  | nil d => exact hs
  | cons d e _ t l h1 _ ih =>
    obtain ⟨t0, hr⟩ := token_raw h1
    rw [rawToken_stuck _ hs] at hr
    injection hr with hr; injection hr with _ hr
    exact ih (hr ▸ hs)

theorem reads_size {d d' : Dec} {l : List PTok} (h : Reads d l d') (hs : ¬ Stuck d'.raw) : l.length + d'.raw.size ≤ d.raw.size := by
  induction h with
  | nil d => simp
  | cons d e f t l h1 h2 ih =>
    obtain ⟨t0, hr⟩ := token_raw h1
    have := ih hs
    rcases rawToken_progress _ _ _ hr with hp | ⟨hst, he, _⟩
    · simp only [List.length_cons]; omega
    · exact absurd (reads_stuck h2 (he ▸ hst)) hs

theorem reads_stream {d d' : Dec} {l : List PTok} (h : Reads d l d') : ∀ k, l.length ≤ k → ∃ post, (stream k d).1 = l ++ post := by
  induction h with
  | nil d => intro k _; exact ⟨_, rfl⟩
  | cons d e f t l h1 h2 ih =>
    intro k hk
    cases k with
    | zero => simp at hk
    | succ k =>
      obtain ⟨post, hp⟩ := ih k (by simpa using hk)
      refine ⟨post, ?_⟩
      simp only [stream, h1, hp, List.cons_append]

/-! ### Content -/

theorem resolves_addChars (os : List Open) (b : Bytes) (l : List Info) : resolves os (addChars b l) = addChars b (resolves os l) := by
  unfold addChars
  split
  · rfl
  · cases l with
    | nil => simp [resolves, Info.resolve]
    | cons x l => cases x <;> simp [resolves, Info.resolve]

theorem src_lt (x : Node) (h : x.isText = false) : ∃ r, x.src = ch%'<' :: r := by
  cases x with
  | text t => cases h
  | elem => exact ⟨_, by rw [Node.src]⟩
  | cdata => exact ⟨_, by rw [Node.src]; rfl⟩
  | comment => exact ⟨_, by rw [Node.src]; rfl⟩
  | pi => exact ⟨_, by rw [Node.src]; rfl⟩

theorem apart_ends (x : Node) (l : List Node) (h : Apart (x :: l)) (rest : Bytes) (hr : EndsText rest) (hx : x.isText = true) :
    EndsText (srcs l ++ rest) := by
  cases l with
  | nil => rw [srcs]; exact hr
  | cons y l =>
    simp only [Apart] at h
    obtain ⟨r, e⟩ := src_lt y (by
      cases hy : y.isText with
      | false => rfl
      | true => exact absurd ⟨hx, hy⟩ h.1)
    rw [srcs, e]
    exact Or.inr ⟨_, rfl⟩

theorem apart_tail {x : Node} {l : List Node} (h : Apart (x :: l)) : Apart l := by
  cases l with
  | nil => trivial
  | cons y l => exact h.2

/-- A token that is neither a start tag nor an end tag. -/
theorem leaf_read {d : Dec} {os : List Open} {t : Token} {r : Bytes} (hd : At d os) (hr : rawToken d.raw = .ok (t, ⟨r, none⟩))
    (hl : Token.isLeaf t = true) : ∃ d', Reads d (XTree.leaf t d.raw.rest r).flat d' ∧ d'.raw = ⟨r, none⟩ ∧ At d' os := by
  obtain ⟨d', h1, h2, h3⟩ := token_ok (t := t) (os' := os) hd hr (by cases t <;> first | rfl | cases hl)
  refine ⟨d', ?_, h2, h3⟩
  have := Reads.cons d d' d' t [] h1 (.nil _)
  rw [h2] at this
  exact this

theorem good_decls (as : List Att) (h : ∀ a ∈ as, a.Ok) : ¬ ∃ a ∈ as.map Att.attr, BadDecl a := by
  rintro ⟨a, ha, hb⟩
  obtain ⟨x, hx, rfl⟩ := List.mem_map.1 ha
  obtain ⟨_, _, h3, _, _, _, _, h8⟩ := h x hx
  rcases hb.2 with hv | hv
  · exact h8 hb.1 hv
  · have := h3.2.1
    rw [show x.name.loc = [] from hv] at this
    exact absurd this (by decide)

mutual
theorem node_read : ∀ (x : Node) (d : Dec) (os : List Open) (rest : Bytes), x.Ok → x.Usual → At d os → d.raw = ⟨x.src ++ rest, none⟩ →
    (x.isText = true → EndsText rest) →
    ∃ (t : XTree) (d' : Dec), Reads d t.flat d' ∧ t.Ok ∧ d'.raw = ⟨rest, none⟩ ∧ At d' os ∧ (isLeafT t = !x.isElem) ∧
      ∀ l, treeInfo t (resolves os l) = resolves os (x.info l)
  | .text t, d, os, rest, h, hu, hd, hraw, he => by
    simp only [Node.Ok] at h
    simp only [Node.Usual] at hu
    obtain ⟨d', h1, h2, h3⟩ := leaf_read hd (by rw [hraw, Node.src]; exact rawToken_txt t h hu rest (he rfl)) rfl
    exact ⟨_, d', h1, rfl, h2, h3, rfl, fun l => by simp only [treeInfo, Node.info, tokData, resolves_addChars]⟩
  | .cdata b, d, os, rest, h, hu, hd, hraw, he => by
    obtain ⟨d', h1, h2, h3⟩ := leaf_read hd (by rw [hraw]; exact rawToken_cdata b rest h) rfl
    exact ⟨_, d', h1, rfl, h2, h3, rfl, fun l => by simp only [treeInfo, Node.info, tokData, resolves_addChars]⟩
  | .comment b, d, os, rest, h, hu, hd, hraw, he => by
    obtain ⟨d', h1, h2, h3⟩ := leaf_read hd (by rw [hraw]; exact rawToken_comment b rest h) rfl
    exact ⟨_, d', h1, rfl, h2, h3, rfl, fun l => by simp only [treeInfo, Node.info, tokData]; rfl⟩
  | .pi tg gap data, d, os, rest, h, hu, hd, hraw, he => by
    obtain ⟨d', h1, h2, h3⟩ := leaf_read hd (by rw [hraw]; exact rawToken_pi tg gap data rest h) rfl
    exact ⟨_, d', h1, rfl, h2, h3, rfl, fun l => by simp only [treeInfo, Node.info, tokData]; rfl⟩
  | .elem n as gap empty kids gap', d, os, rest, h, hu, hd, hraw, he => by
    simp only [Node.Ok] at h
    simp only [Node.Usual] at hu
    obtain ⟨h1, h2, h3, h4, h5, h6, h7⟩ := h
    have key : ∀ (tail : Bytes), d.raw = ⟨ch%'<' :: (qname n ++ (as.flatMap Att.src ++ (gap ++ ((if empty then b!"/>" else b!">") ++ tail)))), none⟩ →
        ∃ d1, token d = .ok (.startElement (resolveElement (⟨n, (as.map Att.attr).filterMap declOf⟩ :: os) n)
          ((as.map Att.attr).map fun a => ⟨resolveAttr (⟨n, (as.map Att.attr).filterMap declOf⟩ :: os) a.name, a.value⟩), d1) ∧
          d1.raw = ⟨tail, if empty then some n else none⟩ ∧ At d1 (⟨n, (as.map Att.attr).filterMap declOf⟩ :: os) := by
      intro tail ht
      exact token_ok hd (by rw [ht]; exact rawToken_startTag n as gap empty h1 h2 hu.1 h3 tail)
        (by simp only [specToken]; rw [if_neg (good_decls as h2)])
    have fin : ∀ (d2 : Dec) (raw2 : Raw), At d2 (⟨n, (as.map Att.attr).filterMap declOf⟩ :: os) → d2.raw = raw2 →
        rawToken raw2 = .ok (.endElement n, ⟨rest, none⟩) →
        ∃ d', token d2 = .ok (.endElement (resolveElement (⟨n, (as.map Att.attr).filterMap declOf⟩ :: os) n), d') ∧ d'.raw = ⟨rest, none⟩ ∧
          At d' os := by
      intro d2 raw2 h1 h2 h3
      exact token_ok h1 (by rw [h2]; exact h3) (by simp [specToken])
    cases empty with
    | true =>
      have hk := h5 rfl
      subst hk
      obtain ⟨d1, e1, e2, e3⟩ := key rest (by rw [hraw, Node.src]; simp)
      obtain ⟨d2, g1, g2, g3⟩ := fin d1 _ e3 e2 rfl
      refine ⟨.elem (resolveElement (⟨n, (as.map Att.attr).filterMap declOf⟩ :: os) n)
        ((as.map Att.attr).map fun a => ⟨resolveAttr (⟨n, (as.map Att.attr).filterMap declOf⟩ :: os) a.name, a.value⟩)
        d.raw.rest d1.raw.rest [] (resolveElement (⟨n, (as.map Att.attr).filterMap declOf⟩ :: os) n) d1.raw.rest d2.raw.rest, d2, ?_, trivial, g2, g3, rfl, fun l => ?_⟩
      · simp only [XTree.flat, flats, List.nil_append]
        exact .cons _ _ _ _ _ e1 (.cons _ _ _ _ _ g1 (.nil _))
      · simp only [treeInfo, Node.info, resolves, Info.resolve, treesInfo, infos]
    | false =>
      obtain ⟨d1, e1, e2, e3⟩ := key (srcs kids ++ (b!"</" ++ (qname n ++ (gap' ++ (b!">" ++ rest))))) (by rw [hraw, Node.src]; simp)
      obtain ⟨ts, d2, f1, f2, f3, f4, _, f6⟩ := nodes_read kids d1 _ (b!"</" ++ (qname n ++ (gap' ++ (b!">" ++ rest)))) h7 hu.2 h6 e3
        (by rw [e2]; rfl) (Or.inr ⟨_, rfl⟩)
      obtain ⟨d3, g1, g2, g3⟩ := fin d2 _ f4 f3 (rawToken_endTag n gap' h1 h4 rest)
      refine ⟨.elem (resolveElement (⟨n, (as.map Att.attr).filterMap declOf⟩ :: os) n)
        ((as.map Att.attr).map fun a => ⟨resolveAttr (⟨n, (as.map Att.attr).filterMap declOf⟩ :: os) a.name, a.value⟩)
        d.raw.rest d1.raw.rest ts (resolveElement (⟨n, (as.map Att.attr).filterMap declOf⟩ :: os) n) d2.raw.rest d3.raw.rest, d3, ?_, f2, g2, g3, rfl, fun l => ?_⟩
      · simp only [XTree.flat]
        exact .cons _ _ _ _ _ e1 (reads_append f1 (.cons _ _ _ _ _ g1 (.nil _)))
      · simp only [treeInfo, Node.info, resolves, Info.resolve, f6]
theorem nodes_read : ∀ (l : List Node) (d : Dec) (os : List Open) (rest : Bytes), Oks l → Usuals l → Apart l → At d os →
    d.raw = ⟨srcs l ++ rest, none⟩ → EndsText rest →
    ∃ (ts : List XTree) (d' : Dec), Reads d (flats ts) d' ∧ Bind.Oks ts ∧ d'.raw = ⟨rest, none⟩ ∧ At d' os ∧
      ((∀ x ∈ l, x.isElem = false) → ∀ t ∈ ts, isLeafT t = true) ∧ treesInfo ts = resolves os (infos l)
  | [], d, os, rest, _, _, _, hd, hraw, _ => ⟨[], d, .nil _, trivial, by rw [hraw, srcs]; rfl, hd, by simp, rfl⟩
  | x :: l, d, os, rest, h, hu, ha, hd, hraw, he => by
    simp only [Oks] at h
    simp only [Usuals] at hu
    obtain ⟨t, d1, a1, a2, a3, a4, a5, a6⟩ := node_read x d os (srcs l ++ rest) h.1 hu.1 hd (by rw [hraw, srcs, List.append_assoc])
      (fun hx => apart_ends x l ha rest he hx)
    obtain ⟨ts, d2, b1, b2, b3, b4, b5, b6⟩ := nodes_read l d1 os rest h.2 hu.2 (apart_tail ha) a4 a3 he
    refine ⟨t :: ts, d2, ?_, ⟨a2, b2⟩, b3, b4, ?_, ?_⟩
    · rw [flats]; exact reads_append a1 b1
    · intro hx y hy
      rcases List.mem_cons.1 hy with rfl | hy
      · rw [a5, hx x (by simp)]; rfl
      · exact b5 (fun z hz => hx z (by simp [hz])) y hy
    · rw [treesInfo, infos, b6, a6]
end

/-! ### Documents -/

theorem misc_elem {x : Node} (h : Misc x) : x.isElem = false := by
  cases x <;> first | rfl | exact absurd h id

theorem misc_usual {x : Node} (h : Misc x) : x.Usual := by
  cases x with
  | elem => exact absurd h id
  | text t =>
    obtain ⟨h1, h2⟩ := h
    simp only [Node.Usual]
    intro l hl hm
    simp only [Txt.lits, h1, List.map_nil, List.mem_singleton] at hl
    subst hl
    exact absurd (h2 _ hm) (by decide)
  | cdata => exact absurd h id
  | comment => trivial
  | pi => trivial

theorem misc_usuals : ∀ l : List Node, (∀ x ∈ l, Misc x) → Usuals l
  | [], _ => trivial
  | x :: l, h => ⟨misc_usual (h x (by simp)), misc_usuals l fun y hy => h y (by simp [hy])⟩

theorem misc_stuck (l : List Node) (h : Oks l) (hm : ∀ x ∈ l, Misc x) : ¬ Stuck ⟨srcs l, none⟩ := by
  rintro ⟨_, r, e⟩
  dsimp only at e
  cases l with
  | nil => simp [srcs] at e
  | cons x l =>
    rw [srcs] at e
    by_cases hx : x.isText = true
    · cases x with
      | text t =>
        have hu := misc_usual (hm _ (List.mem_cons_self ..))
        simp only [Node.Usual] at hu
        obtain ⟨b, s, e1, _, e3⟩ := text_head t h.1 hu
        rw [Node.src, e1] at e
        injection e with e _
        exact e3 e
      | _ => cases hx
    · obtain ⟨r', e'⟩ := src_lt x (by simpa using hx)
      rw [e'] at e
      injection e with e _
      exact absurd e (by decide)

/-- A byte order mark in front of what is before the root element. -/
def markNodes : List Node → List Node
  | .text t :: l => .text ⟨byteOrderMark ++ t.first, t.more⟩ :: l
  | l => .text ⟨byteOrderMark, []⟩ :: l

theorem mark_txt (s : Bytes) (hs : IsS s) (hx : IsXmlText s) : (Txt.mk (byteOrderMark ++ s) []).InContent ∧ ch%'>' ∉ byteOrderMark ++ s := by
  have h : ∀ {x : UInt8}, isSpace x = false → x ∉ byteOrderMark → x ∉ byteOrderMark ++ s := fun h1 h2 => by
    rw [List.mem_append, not_or]; exact ⟨h2, space_ne hs h1⟩
  refine ⟨⟨by simp [Txt.src, byteOrderMark], ?_, by simp⟩, h (by decide) (by decide)⟩
  intro l hl
  simp only [Txt.lits, List.map_nil, List.mem_singleton] at hl
  subst hl
  refine ⟨xmlText_append (by unfold IsXmlText IsXmlChar; decide +kernel) hx, fun b hb => ⟨?_, ?_⟩, fun hi => ?_⟩
  · rintro rfl; exact h (by decide) (by decide) hb
  · rintro rfl; exact h (by decide) (by decide) hb
  · exact h (x := ch%']') (by decide) (by decide) (hi.subset (by decide))

theorem mark_nodes (l : List Node) (h : Oks l) (ha : Apart l) (hm : ∀ x ∈ l, Misc x) :
    srcs (markNodes l) = byteOrderMark ++ srcs l ∧ Oks (markNodes l) ∧ Apart (markNodes l) ∧ Usuals (markNodes l) ∧
      ∀ x ∈ markNodes l, x.isElem = false := by
  have hu := misc_usuals l hm
  have he : ∀ x ∈ l, x.isElem = false := fun x hx => misc_elem (hm x hx)
  have hx0 : IsXmlText ([] : Bytes) := by unfold IsXmlText; decide
  have hm0 := mark_txt [] (by simp [IsS]) hx0
  rw [List.append_nil] at hm0
  have other : (∀ x r, l = x :: r → x.isText = false) → markNodes l = .text ⟨byteOrderMark, []⟩ :: l →
      srcs (markNodes l) = byteOrderMark ++ srcs l ∧ Oks (markNodes l) ∧ Apart (markNodes l) ∧ Usuals (markNodes l) ∧
        ∀ x ∈ markNodes l, x.isElem = false := fun hne e => by
    rw [e]
    refine ⟨by simp [srcs, Node.src, Txt.src], ⟨by rw [Node.Ok]; exact hm0.1, h⟩, ?_, ⟨?_, hu⟩, ?_⟩
    · cases l with
      | nil => trivial
      | cons x r => exact ⟨fun hc => by rw [hne x r rfl] at hc; exact absurd hc.2 (by simp), ha⟩
    · simp only [Node.Usual, Txt.lits, List.map_nil, List.mem_singleton, forall_eq]
      exact hm0.2
    · intro x hx
      rcases List.mem_cons.1 hx with rfl | hx
      · rfl
      · exact he x hx
  cases l with
  | nil => exact other (by simp) rfl
  | cons x r =>
    cases x with
    | text t =>
      obtain ⟨t1, t2⟩ := hm _ List.mem_cons_self
      have hx : IsXmlText t.first := by
        have := h.1
        rw [Node.Ok] at this
        exact (this.2.1 t.first (by simp [Txt.lits])).1
      have hc := mark_txt t.first t2 hx
      have e : markNodes (.text t :: r) = .text ⟨byteOrderMark ++ t.first, []⟩ :: r := by rw [markNodes, t1]
      rw [e]
      refine ⟨?_, ⟨by rw [Node.Ok]; exact hc.1, h.2⟩, ?_, ⟨?_, hu.2⟩, ?_⟩
      · simp [srcs, Node.src, Txt.src, t1]
      · cases r with
        | nil => trivial
        | cons y r => exact ⟨fun hc => ha.1 ⟨rfl, hc.2⟩, ha.2⟩
      · simp only [Node.Usual, Txt.lits, List.map_nil, List.mem_singleton, forall_eq]
        exact hc.2
      · intro x hx
        rcases List.mem_cons.1 hx with rfl | hx
        · rfl
        · exact he x (List.mem_cons_of_mem _ hx)
    | elem => exact other (by rintro x r' ⟨⟩; rfl) rfl
    | cdata => exact other (by rintro x r' ⟨⟩; rfl) rfl
    | comment => exact other (by rintro x r' ⟨⟩; rfl) rfl
    | pi => exact other (by rintro x r' ⟨⟩; rfl) rfl

/-- The decoder reads what is before the root element. -/
theorem prolog_read (d : Doc) (h : d.Ok) (hp : d.Plain) : ∃ (ps : List PTok) (d1 : Dec), Reads (Dec.new d.src) ps d1 ∧ (∀ p ∈ ps, notStart p = true) ∧
    d1.raw = ⟨d.root.src ++ srcs d.after, none⟩ ∧ At d1 [] := by
  obtain ⟨hd, ⟨hb1, hb2, hb3⟩, ht, ⟨_, hr2⟩, _⟩ := h
  obtain ⟨bom, decl, before, doctype, root, after⟩ := d
  dsimp only at *
  have hroot : ∃ r, root.src = ch%'<' :: r := src_lt root (by cases root <;> first | rfl | cases hr2)
  have hends : EndsText (root.src ++ srcs after) := by
    obtain ⟨r, e⟩ := hroot
    rw [e]; exact Or.inr ⟨_, rfl⟩
  have hat : ∀ s, At (Dec.new s) [] := fun s => ⟨.nil, rawColonFree_new s⟩
  have nodes : ∀ (l : List Node) (e : Dec) (rest : Bytes), Oks l → Usuals l → Apart l → (∀ x ∈ l, x.isElem = false) → At e [] →
      e.raw = ⟨srcs l ++ rest, none⟩ → EndsText rest →
      ∃ (ps : List PTok) (e' : Dec), Reads e ps e' ∧ (∀ p ∈ ps, notStart p = true) ∧ e'.raw = ⟨rest, none⟩ ∧ At e' [] := by
    intro l e rest h1 h2 h3 h4 h5 h6 h7
    obtain ⟨ts, d2, b1, b2, b3, b4, b5, _⟩ := nodes_read l e [] rest h1 h2 h3 h5 h6 h7
    exact ⟨flats ts, d2, b1, fun p hp => leafT_notStart ts b2 (b5 h4) p hp, b3, b4⟩
  -- What is after the declaration and its white space
  generalize hrest : doctypeSrc doctype ++ (root.src ++ srcs after) = rest
  have hrends : EndsText rest := by
    rw [← hrest]
    rcases doctype with _ | ⟨x, l⟩
    · exact hends
    · exact Or.inr ⟨_, rfl⟩
  have first : ∃ (ps : List PTok) (e : Dec), Reads (Dec.new (Doc.src ⟨bom, decl, before, doctype, root, after⟩)) ps e ∧ (∀ p ∈ ps, notStart p = true) ∧
      e.raw = ⟨rest, none⟩ ∧ At e [] := by
    have hsrc : Doc.src ⟨bom, decl, before, doctype, root, after⟩ = (if bom then byteOrderMark else []) ++ (declSrc decl ++ (srcs before ++ rest)) := by rw [← hrest]; rfl
    rw [hsrc]
    cases decl with
    | none =>
      cases bom with
      | false => exact nodes before _ rest hb1 (misc_usuals _ hb3) hb2 (fun x hx => misc_elem (hb3 x hx)) (hat _) rfl hrends
      | true =>
        obtain ⟨m1, m2, m3, m4, m5⟩ := mark_nodes before hb1 hb2 hb3
        refine nodes (markNodes before) _ rest m2 m4 m3 m5 (hat _) ?_ hrends
        rw [m1, List.append_assoc]; rfl
    | some x =>
      have hx := hd x rfl
      have step : ∀ e : Dec, At e [] → e.raw = ⟨x.src ++ (srcs before ++ rest), none⟩ →
          ∃ (ps : List PTok) (e' : Dec), Reads e ps e' ∧ (∀ p ∈ ps, notStart p = true) ∧ e'.raw = ⟨rest, none⟩ ∧ At e' [] := by
        intro e he hr
        obtain ⟨d1, h1, h2, h3⟩ := leaf_read he (by rw [hr]; exact rawToken_decl x hx _) rfl
        obtain ⟨ps, d2, g1, g2, g3, g4⟩ := nodes before d1 rest hb1 (misc_usuals _ hb3) hb2 (fun x hx => misc_elem (hb3 x hx)) h3 h2 hrends
        refine ⟨_, d2, reads_append h1 g1, ?_, g3, g4⟩
        intro p hp
        rcases List.mem_append.1 hp with hp | hp
        · simp only [XTree.flat, List.mem_singleton] at hp; subst hp; rfl
        · exact g2 p hp
      cases bom with
      | false => exact step _ (hat _) rfl
      | true =>
        have hm := mark_txt [] (by simp [IsS]) (by unfold IsXmlText; decide)
        rw [List.append_nil] at hm
        have hraw := rawToken_txt ⟨byteOrderMark, []⟩ hm.1 (by simp only [Txt.lits, List.map_nil, List.mem_singleton, forall_eq]; exact hm.2)
          (x.src ++ (srcs before ++ rest)) (Or.inr ⟨_, rfl⟩)
        obtain ⟨d1, h1, h2, h3⟩ := leaf_read (hat (byteOrderMark ++ (x.src ++ (srcs before ++ rest)))) (by
          rw [show (Txt.mk byteOrderMark []).src = byteOrderMark by simp [Txt.src]] at hraw; exact hraw) rfl
        obtain ⟨ps, d2, g1, g2, g3, g4⟩ := step d1 h3 h2
        refine ⟨_, d2, reads_append h1 g1, ?_, g3, g4⟩
        intro p hp
        rcases List.mem_append.1 hp with hp | hp
        · simp only [XTree.flat, List.mem_singleton] at hp; subst hp; rfl
        · exact g2 p hp
  obtain ⟨ps, e, a1, a2, a3, a4⟩ := first
  rcases doctype with _ | ⟨x, l⟩
  · rw [← hrest] at a3
    exact ⟨ps, e, a1, a2, a3, a4⟩
  · obtain ⟨t1, t2, t3, t4⟩ := ht _ rfl
    dsimp only at t1 t2 t3 t4
    obtain ⟨td, htd⟩ := rawToken_doctype x t1 (hp _ rfl) (srcs l ++ (root.src ++ srcs after))
    obtain ⟨d1, h1, h2, h3⟩ := leaf_read a4 (by
      rw [a3, ← hrest]; rw [doctypeSrc, List.append_assoc]; exact htd) rfl
    obtain ⟨qs, d2, g1, g2, g3, g4⟩ := nodes l d1 _ t2 (misc_usuals _ t4) t3 (fun x hx => misc_elem (t4 x hx)) h3 h2 hends
    refine ⟨_, d2, reads_append a1 (reads_append h1 g1), ?_, g3, g4⟩
    intro p hp
    rcases List.mem_append.1 hp with hp | hp
    · exact a2 p hp
    rcases List.mem_append.1 hp with hp | hp
    · simp only [XTree.flat, List.mem_singleton] at hp; subst hp; rfl
    · exact g2 p hp

/-- C54: the decoder finds the root element, whatever is declared in the internal subset, as it is spelled. -/
theorem C54_root (d : Doc) (h : d.Ok) (hp : d.Plain) (hu : d.root.Usual) :
    ∃ t, IsDoc d.src t ∧ treeInfo t [] = resolves [] (d.root.info []) := by
  obtain ⟨ps, d1, a1, a2, a3, a4⟩ := prolog_read d h hp
  obtain ⟨_, _, _, ⟨hr1, hr2⟩, ⟨ha1, _, ha3⟩⟩ := h
  obtain ⟨t, d3, c1, c2, c3, c4, c5, c6⟩ := node_read d.root d1 [] (srcs d.after) hr1 hu a4 a3 (by
    intro ht
    cases hr : d.root <;> rw [hr] at hr2 ht <;> first | (cases hr2; done) | (cases ht; done))
  have hreads := reads_append a1 c1
  have hsize := reads_size hreads (by rw [c3]; exact misc_stuck d.after ha1 ha3)
  obtain ⟨post, hpost⟩ := reads_stream hreads (2 * d.src.length + 2) (by
    have : (Dec.new d.src).raw.size = 2 * d.src.length := rfl
    omega)
  refine ⟨t, ⟨c2, ?_, ps, post, a2, ?_⟩, c6 []⟩
  · rw [hr2] at c5
    cases t with
    | leaf => cases c5
    | elem n as b a kids en eb ea => exact ⟨n, as, b, a, kids, en, eb, ea, rfl⟩
  · unfold docTokens
    rw [hpost]
    simp

/-- C54: in a well-formed document, the root element the decoder finds says what the document says.  Not covered: literal `>` in
text, at which the decoder does not come to an end (`C54_refuted`, C25); literal white space other than spaces in attribute
values, which the decoder does not replace by spaces (`C54_spaces_refuted`); processing instructions with quotes or angle brackets in the internal subset
(`C54_subset_refuted`); and attributes (`C54_defaults_refuted`) and entities (`C54_entities_refuted`) declared there. -/
theorem C54_wellformed_partial (d : Doc) (h : d.Ok) (hu : d.Usual) :
    ∃ t, IsDoc d.src t ∧ treeInfo t [] = resolves [] (d.root.info []) :=
  C54_root d h hu.plain hu.root

theorem usual_of (d : Doc) (h : d.root.Usual) (hd : d.doctype = none := by rfl) : d.Usual :=
  ⟨h, by simp [Doc.Plain, hd], by simp [hd]⟩

/-! ### A document -/

/-- An example: a byte order mark, `<?xml …?>`, a comment, `<!DOCTYPE …>`, and an element with a namespace declared by a reference, an empty element with odd
spacing and single quotes, a CDATA section, references, and a carriage return. -/
def exRoot : Node :=
  .elem ⟨b!"p", b!"a"⟩
    [⟨b!" ", ⟨b!"xmlns", b!"p"⟩, [], [], ch%'"', ⟨b!"u", [(.hex (b!"3A"), b!"n")]⟩⟩, ⟨b!"\n ", ⟨[], b!"x"⟩, b!" ", b!" ", ch%'\'', ⟨b!"\"", [(.amp, b!"")]⟩⟩]
    (b!" ") false
    [.text ⟨b!"1\r\n", [(.lt, b!"2")]⟩, .cdata (b!"<&>"), .comment (b!" no "), .elem ⟨[], b!"b"⟩ [] (b!" ") true [] [],
      .pi (b!"q") (b!" ") (b!"d"), .text ⟨b!"", [(.dec (b!"233"), b!"\r")]⟩]
    (b!" ")

/-- An internal subset. -/
def exSubset : List SubItem :=
  [.space (b!"\n"), .decl .element (b!" ") [.bare (b!"a (#PCDATA)")], .comment (b!" it's > "), .decl .entity (b!" ") [.bare (b!"e "), .lit ⟨false, b!"<b>]>"⟩],
    .pi (b!"p") (b!" ") (b!"]")]

/-- The example document. -/
def exDoc54 : Doc :=
  { bom := true
    decl := some ⟨⟨b!" ", [], [], true⟩, some (⟨b!"\n ", b!" ", b!"\t", false⟩, true, false, true), some (⟨b!" ", [], [], true⟩, true), b!" "⟩
    before := [.text ⟨b!"\n", []⟩, .comment (b!"c")]
    doctype := some (⟨b!" ", ⟨b!"p", b!"a"⟩, some (b!" ", some (b!" ", ⟨true, b!"a\">"⟩), b!" ", ⟨false, b!"it's"⟩), b!" ", some (exSubset, b!" ")⟩, [.text ⟨b!"\n", []⟩])
    root := exRoot
    after := [.text ⟨b!"\n", []⟩] }

example : exDoc54.src = byteOrderMark ++
    b!"<?xml version='1.0'\n encoding =\t\"UtF-8\" standalone='yes' ?>\n<!--c--><!DOCTYPE p:a PUBLIC 'a\">' \"it's\" [\n<!ELEMENT a (#PCDATA)><!-- it's > --><!ENTITY e \"<b>]>\"><?p ]?>] >\n<p:a xmlns:p=\"u&#x3A;n\"\n x = '\"&amp;' >1\r\n&lt;2<![CDATA[<&>]]><!-- no --><b /><?q d?>&#233;\r</p:a >\n" := by
  decide +kernel

instance (b : Bytes) : Decidable (IsS b) := by unfold IsS; infer_instance
instance (n : Nat) : Decidable (IsXmlChar n) := by unfold IsXmlChar; infer_instance
instance (b : Bytes) : Decidable (IsXmlText b) := by unfold IsXmlText; infer_instance
instance (b : UInt8) : Decidable (IsDigit b) := by unfold IsDigit; infer_instance
instance (b : UInt8) : Decidable (IsHex b) := by unfold IsHex; infer_instance
instance (r : Ref) : Decidable r.Ok := by cases r <;> unfold Ref.Ok <;> infer_instance
instance (t : Txt) : Decidable t.InContent := by unfold Txt.InContent; infer_instance
instance (q : UInt8) (t : Txt) : Decidable (t.InQuotes q) := by unfold Txt.InQuotes; infer_instance
instance (s : Bytes) : Decidable (IsNCName s) := by unfold IsNCName; infer_instance
instance (n : Name) : Decidable (IsQName n) := by unfold IsQName; infer_instance
instance (p : Part) : Decidable p.Ok := by unfold Part.Ok; infer_instance
instance (l : Literal) : Decidable l.Ok := by unfold Literal.Ok; infer_instance
instance (b : UInt8) : Decidable (Bare b) := by unfold Bare; infer_instance
instance (p : Piece) : Decidable p.Ok := by cases p <;> unfold Piece.Ok <;> infer_instance
instance (x : SubItem) : Decidable x.Plain := by cases x <;> unfold SubItem.Plain <;> infer_instance
instance (x : SubItem) : Decidable x.Inert := by unfold SubItem.Inert; split <;> infer_instance
instance (a : Att) : Decidable a.Ok := by unfold Att.Ok; infer_instance

theorem exSubset_ok : ∀ y ∈ exSubset, y.Ok := by
  intro y hy
  simp only [exSubset, List.mem_cons, List.not_mem_nil, or_false] at hy
  rcases hy with rfl | rfl | rfl | rfl | rfl
  · simp only [SubItem.Ok]; decide +kernel
  · exact ⟨by decide +kernel, by decide +kernel⟩
  · simp only [SubItem.Ok, Node.Ok]; decide +kernel
  · exact ⟨by decide +kernel, by decide +kernel⟩
  · simp only [SubItem.Ok, Node.Ok]
    refine ⟨by decide +kernel, by decide +kernel, by decide +kernel, by simp, by decide +kernel, ?_⟩
    intro b d' h
    injection h with h _
    subst h
    decide

theorem exDoc54_ok : exDoc54.Ok ∧ exDoc54.Usual := by
  refine ⟨⟨?_, ?_, ?_, ?_, ?_⟩, ?_⟩
  · rintro x ⟨⟩
    exact ⟨by decide +kernel, by rintro x ⟨⟩; decide +kernel, by rintro x ⟨⟩; decide +kernel, by decide +kernel⟩
  · refine ⟨⟨?_, ?_, trivial⟩, ?_, ?_⟩
    · simp only [Node.Ok]; decide +kernel
    · simp only [Node.Ok]; decide +kernel
    · simp [exDoc54, Apart, Node.isText]
    · simp [exDoc54, Misc, IsS]
  · rintro x ⟨⟩
    refine ⟨⟨by decide +kernel, by decide +kernel, ?_, by decide +kernel, by rintro x ⟨⟩; exact ⟨exSubset_ok, by decide +kernel⟩⟩, ⟨?_, trivial⟩, trivial, ?_⟩
    · rintro x ⟨⟩
      refine ⟨by decide +kernel, ?_, by decide +kernel, by decide +kernel⟩
      rintro y ⟨⟩
      decide +kernel
    · simp only [Node.Ok]; decide +kernel
    · simp [Misc, IsS]
  · refine ⟨?_, rfl⟩
    simp only [exDoc54, exRoot, Node.Ok, Oks, Apart, Node.isText]
    refine ⟨by decide +kernel, by decide +kernel, by decide +kernel, by decide +kernel, by simp, by simp, by decide +kernel, by decide +kernel,
      by decide +kernel, by refine ⟨?_, ?_, ?_, ?_, ?_, ?_, ?_⟩ <;> first | trivial | simp | decide +kernel, ⟨by decide +kernel, by decide +kernel, by decide +kernel, by simp, by decide +kernel, ?_⟩,
      by decide +kernel, trivial⟩
    intro b d' h
    injection h with h _
    subst h
    decide
  · refine ⟨⟨?_, trivial⟩, trivial, ?_⟩
    · simp only [Node.Ok]; decide +kernel
    · simp [exDoc54, Misc, IsS]
  · refine ⟨?_, ?_, ?_⟩
    · simp only [exDoc54, exRoot, Node.Usual, Usuals]
      decide +kernel
    · rintro x ⟨⟩ y ⟨⟩
      decide +kernel
    · rintro x ⟨⟩ y ⟨⟩
      decide +kernel

example : resolves [] (exDoc54.root.info []) = [.elem ⟨b!"u:n", b!"a"⟩ [⟨⟨b!"http://www.w3.org/2000/xmlns/", b!"p"⟩, b!"u:n"⟩, ⟨⟨[], b!"x"⟩, b!"\"&"⟩]
    [.chars (b!"1\n<2<&>"), .elem ⟨[], b!"b"⟩ [] [], .chars ([0xC3, 0xA9] ++ b!"\n")]] := by
  krfl

/-! ### What is not so -/

/-- The document `<a>></a>`. -/
def gtDoc : Doc := { root := .elem ⟨[], b!"a"⟩ [] [] false [.text ⟨b!">", []⟩] [] }

/-- The document `<a b="1	2"/>`, with a tab. -/
def tabDoc : Doc := { root := .elem ⟨[], b!"a"⟩ [⟨b!" ", ⟨[], b!"b"⟩, [], [], ch%'"', ⟨b!"1\t2", []⟩⟩] [] true [] [] }

/-- Well-formed documents that the decoder does not read as XML says. -/
theorem C54_refuted : ¬ ∀ d : Doc, d.Ok → ∃ t, IsDoc d.src t ∧ treeInfo t [] = resolves [] (d.root.info []) := by
  intro hall
  obtain ⟨t, ⟨_, ⟨n, as, b, a, kids, en, eb, ea, rfl⟩, pre, post, _, e⟩, _⟩ := hall gtDoc (by
    refine ⟨by simp [gtDoc], ⟨trivial, trivial, by simp [gtDoc]⟩, by simp [gtDoc], ⟨?_, rfl⟩, ⟨trivial, trivial, by simp [gtDoc]⟩⟩
    simp only [gtDoc, Node.Ok, Oks, Apart]
    decide +kernel)
  have h : ∀ p ∈ docTokens gtDoc.src, p.tok = .startElement ⟨[], b!"a"⟩ [] ∨ p.tok = .charData [] := by decide +kernel
  rw [e] at h
  have := h ⟨.endElement en, eb, ea⟩ (by simp [XTree.flat])
  simp at this

/-- The white space of attribute values is not replaced by spaces. -/
theorem C54_spaces_refuted : ¬ ∀ d : Doc, d.Ok → ∀ t, IsDoc d.src t → treeInfo t [] = resolves [] (d.root.info []) := by
  intro hall
  have hok : tabDoc.Ok := by
    refine ⟨by simp [tabDoc], ⟨trivial, trivial, by simp [tabDoc]⟩, by simp [tabDoc], ⟨?_, rfl⟩, ⟨trivial, trivial, by simp [tabDoc]⟩⟩
    simp only [tabDoc, Node.Ok, Oks, Apart]
    decide +kernel
  have h := hall tabDoc hok (.elem ⟨[], b!"a"⟩ [⟨⟨[], b!"b"⟩, b!"1\t2"⟩] tabDoc.src [] [] ⟨[], b!"a"⟩ [] []) (by
    refine ⟨trivial, ⟨_, _, _, _, _, _, _, _, rfl⟩, [], [], by simp, ?_⟩
    krfl)
  simp only [treeInfo, tabDoc, Node.info, resolves, Info.resolve, List.cons.injEq, Info.elem.injEq, List.map_cons, Attr.mk.injEq] at h
  exact absurd h.1.2.1.1.2 (by decide +kernel)

/-- The document `<!DOCTYPE a[<?p '?>]><a/>`. -/
def quoteDoc : Doc :=
  { doctype := some (⟨b!" ", ⟨[], b!"a"⟩, none, [], some ([.pi (b!"p") (b!" ") (b!"'")], [])⟩, []), root := .elem ⟨[], b!"a"⟩ [] [] true [] [] }

/-- In a document type declaration, processing instructions are not seen as such. -/
theorem C54_subset_refuted : ¬ ∀ d : Doc, d.Ok → d.root.Usual → ∃ t, IsDoc d.src t := by
  intro hall
  obtain ⟨t, ⟨_, ⟨n, as, b, a, kids, en, eb, ea, rfl⟩, pre, post, _, e⟩⟩ := hall quoteDoc (by
    refine ⟨by simp [quoteDoc], ⟨trivial, trivial, by simp [quoteDoc]⟩, ?_, ⟨?_, rfl⟩, ⟨trivial, trivial, by simp [quoteDoc]⟩⟩
    · rintro x ⟨⟩
      refine ⟨⟨by decide +kernel, by decide +kernel, by simp, by decide +kernel, ?_⟩, trivial, trivial, by simp⟩
      rintro x ⟨⟩
      refine ⟨?_, by decide +kernel⟩
      intro y hy
      simp only [List.mem_singleton] at hy
      subst hy
      simp only [SubItem.Ok, Node.Ok]
      refine ⟨by decide +kernel, by decide +kernel, by decide +kernel, by simp, by decide +kernel, ?_⟩
      intro b d' h
      injection h with h _
      subst h
      decide
    · simp only [quoteDoc, Node.Ok, Oks, Apart]
      decide +kernel) (by simp [quoteDoc, Node.Usual, Usuals])
  have h : docTokens quoteDoc.src = [] := by krfl
  rw [h] at e
  simp [XTree.flat] at e

/-- A default value declared in the internal subset is not given to the element: XML says `x="1"`. -/
theorem C54_defaults_refuted :
    ∃ t, IsDoc (b!"<!DOCTYPE a [<!ATTLIST a x CDATA \"1\">]><a/>") t ∧ treeInfo t [] = [.elem ⟨[], b!"a"⟩ [] []] := by
  obtain ⟨t, h1, h2⟩ := C54_root
    { doctype := some (⟨b!" ", ⟨[], b!"a"⟩, none, b!" ", some ([.decl .attlist (b!" ") [.bare (b!"a x CDATA "), .lit ⟨false, b!"1"⟩]], [])⟩, []),
      root := .elem ⟨[], b!"a"⟩ [] [] true [] [] }
    (by
      refine ⟨by simp, ⟨trivial, trivial, by simp⟩, ?_, ⟨?_, rfl⟩, ⟨trivial, trivial, by simp⟩⟩
      · rintro x ⟨⟩
        refine ⟨⟨by decide +kernel, by decide +kernel, by simp, by decide +kernel, ?_⟩, trivial, trivial, by simp⟩
        rintro x ⟨⟩
        refine ⟨?_, by decide +kernel⟩
        intro y hy
        simp only [List.mem_singleton] at hy
        subst hy
        exact ⟨by decide +kernel, by decide +kernel⟩
      · simp only [Node.Ok, Oks, Apart]
        decide +kernel)
    (by rintro x ⟨⟩ y ⟨⟩; decide +kernel) (by simp [Node.Usual, Usuals])
  refine ⟨t, ?_, ?_⟩
  · convert h1 using 1
    krfl
  · rw [h2]; krfl

/-- Entities declared in the internal subset are not known. -/
theorem C54_entities_refuted : ¬ ∃ t, IsDoc (b!"<!DOCTYPE a [<!ENTITY e \"x\">]><a>&e;</a>") t := by
  rintro ⟨t, ⟨_, ⟨n, as, b, a, kids, en, eb, ea, rfl⟩, pre, post, _, e⟩⟩
  have h : ∀ p ∈ docTokens (b!"<!DOCTYPE a [<!ENTITY e \"x\">]><a>&e;</a>"), ∀ n, p.tok ≠ .endElement n := by
    have h : (docTokens (b!"<!DOCTYPE a [<!ENTITY e \"x\">]><a>&e;</a>")).map PTok.tok =
      [.directive (b!"DOCTYPE a [<!ENTITY e \"x\">]"), .startElement ⟨[], b!"a"⟩ []] := by krfl
    intro p hp n hn
    have := List.mem_map_of_mem (f := PTok.tok) hp
    rw [h, hn] at this
    simp at this
  rw [e] at h
  exact h ⟨.endElement en, eb, ea⟩ (by simp [XTree.flat]) en rfl

end Verif.Grammar

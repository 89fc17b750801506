import Verif.NsKept

/-!
C30, C38 and C42: a manifest that is written and read is the same, whatever the indentation.
-/
namespace Verif.Bind

open Verif.Xml

/-- `xml.Header` (`/repo/xml/marshal.go` 24). -/
def xmlHeader : Bytes := b!"<?xml version=\"1.0\" encoding=\"UTF-8\"?>\n"

/-- Errors of writing. -/
inductive WErr where
  | marshal (e : MErr)
  | encode (e : EncErr)
  deriving DecidableEq, Repr

/-- The bytes that `WriteXML` (`/repo/mpd/io.go` 59-78) sends to a writer that accepts everything.  The prefix of lines is
empty. -/
def writeDoc (io : FloatIO) (s : Sch) (v : Val) (indent : Bytes) (hdr : Bool) : Except WErr Bytes :=
  match marshal io s v with
  | .error e => .error (.marshal e)
  | .ok items =>
    match encode [] indent items with
    | .error e => .error (.encode e)
    | .ok doc => .ok ((if hdr then xmlHeader else []) ++ doc)

/-! ### The header -/

theorem header_tokens (r : Bytes) : token (Dec.new (xmlHeader ++ ch%'<' :: r)) =
    .ok (.procInst (b!"xml") (b!"version=\"1.0\" encoding=\"UTF-8\""), ⟨⟨ch%'\n' :: ch%'<' :: r, none⟩, fun _ => none, []⟩) := by
  krfl

theorem newline_token (r : Bytes) : token ⟨⟨ch%'\n' :: ch%'<' :: r, none⟩, fun _ => none, []⟩ =
    .ok (.charData [ch%'\n'], Dec.new (ch%'<' :: r)) := by
  krfl

theorem tok_start {doc : Bytes} {k : Nat} {n : Name} {as : List Attr} {l : List Token} {e : Option XErr}
    (h : tokRun k (Dec.new doc) = (.startElement n as :: l, e)) : ∃ r, doc = ch%'<' :: r := by
  cases k with
  | zero => simp [tokRun] at h
  | succ k =>
    simp only [tokRun] at h
    cases doc with
    | nil => simp [token, Dec.new, rawToken] at h
    | cons b r =>
      by_cases hb : b = ch%'<'
      · exact ⟨r, by rw [hb]⟩
      · exfalso
        have : ∀ e t d, token (Dec.new (b :: r)) = e → e = .ok (t, d) → ∀ n as, t ≠ .startElement n as := by
          intro e t d he hok n as ht
          subst ht
          rw [hok] at he
          unfold token Dec.new rawToken at he
          dsimp only at he
          rw [if_pos hb] at he
          split at he
          · cases he
          · rename_i t' raw' hr
            split at hr
            · cases hr
            · injection hr with hr
              injection hr with hr _
              subst hr
              simp [cook] at he
        split at h
        · simp at h
        · rename_i t d ht
          injection h with h _
          injection h with h _
          exact this _ t d ht rfl n as h

theorem stream_before : ∀ (k : Nat) (d : Dec), (stream k d).1.map (·.before) = rests (stream k d).1.length d.raw
  | 0, d => rfl
  | k + 1, d => by
    simp only [stream]
    cases ht : token d with
    | error e => rfl
    | ok p =>
      obtain ⟨t, d'⟩ := p
      dsimp only [List.map_cons, List.length_cons]
      unfold token at ht
      split at ht
      · cases ht
      rename_i t0 raw' hr
      split at ht
      · cases ht
      injection ht with ht; injection ht with _ ht
      subst ht
      rw [rests, hr]
      dsimp only
      rw [List.map_cons, stream_before k]

theorem stream_adj : ∀ (k : Nat) (d : Dec), Adj (stream k d).1 ∧ ∀ p l, (stream k d).1 = p :: l → p.before = d.raw.rest
  | 0, d => ⟨by intro l1 p q l2 e; simp [stream] at e, by intro p l h; simp [stream] at h⟩
  | k + 1, d => by
    simp only [stream]
    cases ht : token d with
    | error e => exact ⟨by intro l1 p q l2 e; simp at e, by intro p l h; simp at h⟩
    | ok x =>
      obtain ⟨t, d'⟩ := x
      obtain ⟨h1, h2⟩ := stream_adj k d'
      refine ⟨?_, ?_⟩
      · intro l1 p q l2 e
        dsimp only at e
        cases l1 with
        | nil =>
          injection e with e1 e2
          subst e1
          exact (h2 q l2 e2).symm
        | cons y l1 =>
          injection e with e1 e2
          exact h1 l1 p q l2 e2
      · intro p l h
        injection h with h _
        subst h
        rfl

/-- The tokens of a document with or without a header. -/
theorem doc_tokens {doc : Bytes} {l : List Token} {n : Name} {as : List Attr}
    (h : ∀ k, (Token.startElement n as :: l).length < k → tokRun k (Dec.new doc) = (.startElement n as :: l, some .eof))
    (hdr : Bool) : ∃ hd rest, (∀ p ∈ hd, notStart p = true) ∧
      docTokens ((if hdr then xmlHeader else []) ++ doc) = hd ++ rest ∧ rest.map (·.tok) = .startElement n as :: l ∧
      rest.map (·.before) = rests rest.length ⟨doc, none⟩ ∧ Adj rest := by
  have hk := h _ (Nat.lt_succ_self _)
  obtain ⟨r, rfl⟩ := tok_start hk
  rw [stream_tokRun] at hk
  injection hk with h1 h2
  cases hdr with
  | false =>
    refine ⟨[], _, by simp, ?_, h1, stream_before _ _, (stream_adj _ _).1⟩
    simp only [Bool.false_eq_true, if_false, List.nil_append, docTokens]
    rw [docTokens_eq _ _ _ h2]
  | true =>
    have hs : stream (((Token.startElement n as :: l).length + 1) + 2) (Dec.new (xmlHeader ++ ch%'<' :: r)) =
        (⟨.procInst (b!"xml") (b!"version=\"1.0\" encoding=\"UTF-8\""), xmlHeader ++ ch%'<' :: r, ch%'\n' :: ch%'<' :: r⟩ ::
          ⟨.charData [ch%'\n'], ch%'\n' :: ch%'<' :: r, ch%'<' :: r⟩ ::
          (stream ((Token.startElement n as :: l).length + 1) (Dec.new (ch%'<' :: r))).1,
          (stream ((Token.startElement n as :: l).length + 1) (Dec.new (ch%'<' :: r))).2) := by
      rw [stream, header_tokens]
      dsimp only
      rw [stream, newline_token]
      rfl
    refine ⟨[⟨.procInst (b!"xml") (b!"version=\"1.0\" encoding=\"UTF-8\""), xmlHeader ++ ch%'<' :: r, ch%'\n' :: ch%'<' :: r⟩,
      ⟨.charData [ch%'\n'], ch%'\n' :: ch%'<' :: r, ch%'<' :: r⟩], _, ?_, ?_, h1, stream_before _ _, (stream_adj _ _).1⟩
    · intro p hp
      simp only [List.mem_cons, List.not_mem_nil, or_false] at hp
      rcases hp with rfl | rfl <;> rfl
    · simp only [if_true, docTokens]
      rw [docTokens_eq _ _ .eof (by rw [hs]; exact h2), hs]
      rfl

theorem nodeTokens_start (indent : Bytes) (n : Name) (as : List Attr) (kids : List Node) :
    ∃ l, nodeTokens [] indent (.elem n as kids) = .startElement n as :: l := by
  have h : (writeIndent (Printer.new [] indent).ind 1).2 = [] := by
    unfold writeIndent Printer.new indentOut
    dsimp only
    split <;> simp
  unfold nodeTokens linear
  simp only [mergeL, h, flush, List.append_nil, if_true, List.nil_append]
  exact ⟨_, rfl⟩

/-! ### Documents -/

/-- A written element is read as a tree that shows it, with or without a header. -/
theorem doc_read (indent : Bytes) (hind : IsWs indent) (i : Item) (hok : ItemOk i) (n : Name) (as : List Attr)
    (kids : List Node) (h : resolve Env.empty i = some (.elem n as kids)) (hdr : Bool) :
    ∃ doc, encode [] indent [i] = .ok doc ∧ ∃ t, IsDoc ((if hdr then xmlHeader else []) ++ doc) t ∧
      Sees (indent == []) (.elem n as kids) t := by
  cases i with
  | text b => simp [resolve] at h
  | str b => simp [resolve] at h
  | raw b => simp [resolve] at h
  | elem n' as' kids' =>
    obtain ⟨doc, he, ht, hmk⟩ := names_marks [] indent (by simp [IsWs]) hind n' as' kids' hok _ h
    obtain ⟨l, hl⟩ := nodeTokens_start indent n as kids
    rw [hl] at ht
    obtain ⟨hd, rest, h1, h2, h3, h4, h5⟩ := doc_tokens ht hdr
    refine ⟨doc, he, ?_⟩
    have hlen : (nodeTokens [] indent (.elem n as kids)).length = rest.length := by rw [hl, ← h3]; simp
    have := sees_doc [] indent (by simp [IsWs]) hind n as kids _ hd rest h1 h2 (by rw [hl]; exact h3)
      (resolve_bal _ _ _ hok h) h5 (by rw [h4, ← hlen]; exact hmk)
    simpa [plainI, Printer.new] using this

/-! ### The manifest -/

theorem resolves_single {env : Env} {items : List Item} {x : Node} (h : resolves env items = some [x]) :
    ∃ i, items = [i] ∧ resolve env i = some x := by
  cases items with
  | nil => simp [resolves] at h
  | cons i l =>
    simp only [resolves] at h
    split at h
    · cases h
    · rename_i x' hx
      split at h
      · cases h
      · rename_i xs hxs
        injection h with h
        injection h with h1 h2
        subst h1; subst h2
        cases l with
        | nil => exact ⟨i, rfl, hx⟩
        | cons j l =>
          simp only [resolves] at hxs
          split at hxs
          · cases hxs
          · split at hxs
            · cases hxs
            · simp at hxs

/-- A value has one value that every document written for it is read as, up to white space around character data that is
together with elements.  The conditions on the type are checked for that of the manifest (`mpd_back`). -/
theorem sch_back (io : FloatIO) (s : Sch) (A : Pairs) (L : List Bytes) (hst : isStruct s = true) (hok : s.ok = true)
    (hrt : s.rt L = true) (hns : s.nsRt A [] none false = true) (hAL : ∀ x ∈ A, x.1 ∉ L) (hh : hgt s < maxDepth)
    (X : Pairs) (hX : extOk A X L = true) (v : Val) (ht : Typed s v) (hc : Canon io none s v)
    (hn : NsOk X [] [] none s v) :
    ∃ w, Back s v w ∧ ∀ indent, IsWs indent → ∀ hdr,
      ∃ doc w', writeDoc io s v indent hdr = .ok doc ∧ unmarshalDoc io s doc = .ok w' ∧
        Loose s w w' ∧ (indent = [] ∨ NoMix s v → w' = w) := by
  obtain ⟨tn, xn, hs⟩ := struct_eta s hst
  have hna : s.noAttr = true := by rw [hs]; rfl
  obtain ⟨items, hm⟩ := marshalV_ok io L s _ _ _ hrt hna ht (canon_whole _ _ _ hc)
  obtain ⟨hio, xs, hr, hd⟩ := keptV io A X L hX hAL s [] [] none false [] v Env.empty items hns hrt hna ht hc hn (by simp)
    ⟨by simp [From, Env.empty], by simp, fun _ => rfl, Or.inl rfl⟩ hm
  have hone : One io L s := by
    rw [hs] at hrt hok ⊢
    exact struct_back io L _ _ _ _ hrt hok
  have hnil : v.isNil = false := by
    rw [hs] at ht
    cases v <;> first | rfl | simp [Typed] at ht
  obtain ⟨n, as, kids, rfl, _, w, hb, hread⟩ := hone none v [] Env.empty items xs ht hc hnil (by simp)
    (fun _ => ⟨_, _, _, _, hs⟩) hm hr hd
  refine ⟨w, hb, ?_⟩
  intro indent hind hdr
  obtain ⟨i, rfl, hi⟩ := resolves_single hr
  obtain ⟨doc, he, t, hdoc, hsees⟩ := doc_read indent hind i hio.1 n as kids hi hdr
  obtain ⟨w', hnear, hread⟩ := hread _ t hsees false 0 (Or.inr (by rw [hs]; rfl)) (by omega)
  refine ⟨(if hdr then xmlHeader else []) ++ doc, w', ?_, ?_, hnear.1, fun h => hnear.2 (h.imp_left fun h => by simp [h])⟩
  · unfold writeDoc marshal
    rw [hm]
    dsimp only
    rw [he]
  · rw [unmarshalDoc_tree io _ _ t hdoc]
    exact hread

/-- A manifest has one value that every document written for it is read as, up to white space around character data that is
together with elements. -/
theorem mpd_back (io : FloatIO) (X : Pairs) (hX : extOk mpdPairs X mpdLocs = true) (v : Val)
    (ht : Typed tMPD.sch v) (hc : Canon io none tMPD.sch v) (hn : NsOk X [] [] none tMPD.sch v) :
    ∃ w, Back tMPD.sch v w ∧ ∀ indent, IsWs indent → ∀ hdr,
      ∃ doc w', writeDoc io tMPD.sch v indent hdr = .ok doc ∧ unmarshalDoc io tMPD.sch doc = .ok w' ∧
        Loose tMPD.sch w w' ∧ (indent = [] ∨ NoMix tMPD.sch v → w' = w) := by
  refine sch_back io tMPD.sch mpdPairs mpdLocs (by decide +kernel) mpd_ok mpd_rt mpd_ns ?_ mpd_hgt X hX v ht hc hn
  intro x hx
  have := List.all_eq_true.1 mpd_pairs x hx
  simpa using this

/-- **C30**, in part: a manifest that is written, with or without a header and with any indentation by white space, is read
as the same manifest (`Returned`): what is read is what is read without indentation (`Back`), up to white space around
character data that is together with elements.  This is proved for values that the format can represent: `Canon` (texts
without characters that XML forbids, no nil in lists, numbers and durations whose text is read back, well-formed content in `innerxml` fields), and
`NsOk` (prefixes of the attributes of `any,attr` fields are not those of the tags and stand for one namespace).
`C48_refuted` shows a value outside. -/
theorem C30_roundtrip_partial (io : FloatIO) (indent : Bytes) (hind : IsWs indent) (hdr : Bool) (X : Pairs)
    (hX : extOk mpdPairs X mpdLocs = true) (v : Val) (ht : Typed tMPD.sch v)
    (hc : Canon io none tMPD.sch v) (hn : NsOk X [] [] none tMPD.sch v) :
    ∃ doc w, writeDoc io tMPD.sch v indent hdr = .ok doc ∧ unmarshalDoc io tMPD.sch doc = .ok w ∧
      Returned indent tMPD.sch v w := by
  obtain ⟨w, hb, h⟩ := mpd_back io X hX v ht hc hn
  obtain ⟨doc, w', h1, h2, h3, h4⟩ := h indent hind hdr
  exact ⟨doc, w', h1, h2, w, hb, h3, h4⟩

/-- **C38**, in part: the header makes no difference to what is read, and the indentation only adds white space around
character data that is together with elements.  Such white space is added: `C38_refuted`. -/
theorem C38_indent_partial (io : FloatIO) (X : Pairs) (hX : extOk mpdPairs X mpdLocs = true) (v : Val)
    (ht : Typed tMPD.sch v) (hc : Canon io none tMPD.sch v) (hn : NsOk X [] [] none tMPD.sch v) :
    ∃ w, (∀ hdr, ∃ doc, writeDoc io tMPD.sch v [] hdr = .ok doc ∧ unmarshalDoc io tMPD.sch doc = .ok w) ∧
      ∀ indent, IsWs indent → ∀ hdr, ∃ doc w', writeDoc io tMPD.sch v indent hdr = .ok doc ∧
        unmarshalDoc io tMPD.sch doc = .ok w' ∧ Loose tMPD.sch w w' := by
  obtain ⟨w, _, h⟩ := mpd_back io X hX v ht hc hn
  refine ⟨w, fun hdr => ?_, fun indent hind hdr => ?_⟩
  · obtain ⟨doc, w', h1, h2, _, h4⟩ := h [] (by simp [IsWs]) hdr
    rw [h4 (Or.inl rfl)] at h2
    exact ⟨doc, h1, h2⟩
  · obtain ⟨doc, w', h1, h2, h3, _⟩ := h indent hind hdr
    exact ⟨doc, w', h1, h2, h3⟩

/-- **C38**, in part: if nowhere character data is together with elements, the indentation and the header make no difference
to what is read. -/
theorem C38_same_partial (io : FloatIO) (X : Pairs) (hX : extOk mpdPairs X mpdLocs = true) (v : Val)
    (ht : Typed tMPD.sch v) (hc : Canon io none tMPD.sch v) (hmix : NoMix tMPD.sch v) (hn : NsOk X [] [] none tMPD.sch v) :
    ∃ w, ∀ indent, IsWs indent → ∀ hdr,
      ∃ doc, writeDoc io tMPD.sch v indent hdr = .ok doc ∧ unmarshalDoc io tMPD.sch doc = .ok w := by
  obtain ⟨w, _, h⟩ := mpd_back io X hX v ht hc hn
  refine ⟨w, fun indent hind hdr => ?_⟩
  obtain ⟨doc, w', h1, h2, _, h4⟩ := h indent hind hdr
  rw [h4 (Or.inr hmix)] at h2
  exact ⟨doc, h1, h2⟩

end Verif.Bind

import Verif.EncTokProps
import Verif.XmlResolveProps

/-!
C63: a document written token by token with `EncodeToken`, and what the decoder reads from it.
-/
namespace Verif.EncTok

open Verif.Xml Verif.Grammar

/-! ### Specification -/

/-- An open element: what is in scope in it, the name it was given, the prefix it is written with, and its expanded name. -/
structure Frame where
  env : Env
  name : Name
  pre : Bytes
  res : Name

/-- What is in scope. -/
def scope : List Frame → Env
  | [] => Env.empty
  | f :: _ => f.env

/-- A token that can be written and read: names are names, and comments, processing instructions and directives are as C62
says.  The XML declaration may only be the first token. -/
def TokOk (first : Bool) : Token → Prop
  | .startElement n attrs => QLocal n.loc ∧ ∀ a ∈ attrs, AttrOk a
  | .endElement n => QLocal n.loc
  | .charData _ => True
  | .comment c => ¬ (b!"--") <:+: c ∧ ¬ (b!"-") <:+ c
  | .procInst t i => isName t = true ∧ ¬ (b!"?>") <:+: i ∧ (∀ c s, i = c :: s → isSpace c = false) ∧ checkXmlDecl t i = none ∧
      (t = b!"xml" → first = true)
  | .directive d => ∃ c s, d = c :: s ∧ c ≠ ch%'-' ∧ c ≠ ch%'[' ∧ DirText 0 s ∧ DirText 0 d

/-- All tokens can be written. -/
def ToksOk : Bool → List Token → Prop
  | _, [] => True
  | first, t :: l => TokOk first t ∧ ToksOk false l

/-- An end element that closes the open element `f`: the same namespace and local name, and if it has a prefix and the
element was written with one, the same. -/
def Closes (f : Frame) (n : Name) : Prop :=
  n.space = f.name.space ∧ (splitPrefixed n.loc).2 = (splitPrefixed f.name.loc).2 ∧
    ((splitPrefixed n.loc).1 = [] ∨ f.pre = [] ∨ (splitPrefixed n.loc).1 = f.pre)

instance (f : Frame) (n : Name) : Decidable (Closes f n) := by unfold Closes; infer_instance

/-- What one token says, given the open elements: the open elements afterwards, and what is to be read. -/
def readTok (i : Ind) (fs : List Frame) : Token → Option (Ind × List Frame × List Lin)
  | .startElement n attrs =>
    match placeSpec (scope fs) n attrs with
    | none => none
    | some pl =>
      match attrsSpec pl.bs attrs with
      | none => none
      | some (bs, as) =>
        if defaultsOk pl.given attrs = false then none
        else
          let d := dfltIn (scope fs) n attrs pl.pre
          let res : Name := ⟨if n.space = [] then d else n.space, (splitPrefixed n.loc).2⟩
          some ((writeIndent i 1).1, ⟨⟨bs, pl.given, d⟩, n, pl.pre, res⟩ :: fs,
            [.chars (writeIndent i 1).2, .tok (.startElement res ((pl.decls ++ as).map SAttr.res))])
  | .endElement n =>
    match fs with
    | [] => none
    | f :: fs => if Closes f n then some ((writeIndent i (-1)).1, fs, [.chars (writeIndent i (-1)).2, .tok (.endElement f.res)]) else none
  | .charData b => some (i, fs, [.chars (clean b)])
  | t => some (i, fs, [.tok t])

/-- What a list of tokens says. -/
def readToks (i : Ind) (fs : List Frame) : List Token → Option (List Frame × List Lin)
  | [] => some (fs, [])
  | t :: l =>
    match readTok i fs t with
    | none => none
    | some (i', fs', o) =>
      match readToks i' fs' l with
      | none => none
      | some (fs'', os) => some (fs'', o ++ os)

/-- The tokens the decoder returns: adjacent text is joined. -/
def joined (l : List Lin) : List Token := (mergeL [] l).1 ++ flush (mergeL [] l).2

/-! ### Proof -/

/-- The printer and the decoder agree with the specification about the open elements. -/
inductive Frames : List Elem → List Open → List Frame → Prop where
  | nil : Frames [] [] []
  | cons {els : List Elem} {os : List Open} {fs : List Frame} {e : Elem} {o : Open} {f : Frame} :
      EnvInv (e :: els) (o :: os) f.env → e.pre = f.pre → e.xmlns = f.name.space → e.name = (splitPrefixed f.name.loc).2 →
      o.name = ⟨f.pre, (splitPrefixed f.name.loc).2⟩ → resolveElement (o :: os) o.name = f.res →
      WrittenName (joinPrefixed e.pre e.name) o.name → Frames els os fs → Frames (e :: els) (o :: os) (f :: fs)

theorem Frames.env {els : List Elem} {os : List Open} {fs : List Frame} (h : Frames els os fs) : EnvInv els os (scope fs) := by
  cases h with
  | nil => exact envInv_empty
  | cons h => exact h

theorem markup {w d x m b : Bytes} {t t' : Token} {os os' : List Open} {raw ts : List Token} (hp : Pending w d) (hx : PlainText x)
    (hm : ∃ u, m = ch%'<' :: u) (ht : ∀ r, rawToken ⟨m ++ r, none⟩ = .ok (t, ⟨r, none⟩)) (hs : specToken os t = some (t', os'))
    (hr : RawSteps ⟨[] ++ b, none⟩ raw ⟨[], none⟩) (hsp : specRun os' raw = some (ts, [])) :
    ∃ raw', RawSteps ⟨w ++ ((x ++ m) ++ b), none⟩ raw' ⟨[], none⟩ ∧ specRun os raw' = some (flush (d ++ x) ++ t' :: ts, []) := by
  obtain ⟨u, rfl⟩ := hm
  refine ⟨flush (d ++ x) ++ t :: raw, ?_, ?_⟩
  · have := rawSteps_flush (pending_append hp (pending_raw hx)) ((ch%'<' :: u) ++ b) (Or.inr ⟨_, rfl⟩) _ _ (.cons _ _ _ _ _ (ht b) hr)
    simpa using this
  · refine specRun_append _ _ _ _ _ _ _ (specRun_flush os _) ?_
    simp only [specRun, hs, hsp]

theorem plain_nil : PlainText [] := ⟨by simp, by unfold IsXmlText; intro p hp; simp [Verif.Utf8.runes_nil] at hp⟩

theorem stream (buffered : Bytes → Bool) (hb : buffered [] = false) : ∀ (ts : List Token) (first : Bool) (p : Printer) (out : Bytes)
    (os : List Open) (fs : List Frame) (w d : Bytes) (l : List Lin), Frames p.ns.els os fs → WsInd p.ind → Pending w d →
    (first = true → out = []) → ToksOk first ts → readToks p.ind fs ts = some ([], l) →
    ∃ p' b raw, encodeTokens buffered p out ts = .ok (p', out ++ b) ∧ p'.ns.els = [] ∧ RawSteps ⟨w ++ b, none⟩ raw ⟨[], none⟩ ∧
      specRun os raw = some ((mergeL d l).1 ++ flush (mergeL d l).2, [])
  | [], first, p, out, os, fs, w, d, l, hf, hw, hp, hfo, hok, h => by
    injection h with h
    injection h with h1 h2
    subst h1; subst h2
    cases hf' : p.ns.els with
    | cons e els => rw [hf'] at hf; cases hf
    | nil =>
      rw [hf'] at hf
      cases hf
      refine ⟨p, [], flush d, by simp [encodeTokens], hf', ?_, ?_⟩
      · have := rawSteps_flush hp [] (Or.inl rfl) [] _ (.nil _)
        simpa using this
      · simpa [mergeL] using specRun_flush [] d
  | t :: ts, first, p, out, os, fs, w, d, l, hf, hw, hp, hfo, hok, h => by
    obtain ⟨hok1, hok2⟩ := hok
    unfold readToks at h
    split at h
    · cases h
    rename_i i' fs' o ht
    split at h
    · cases h
    rename_i fs'' os2 hts
    injection h with h
    injection h with h1 h2
    subst h1; subst h2
    -- a token that is neither text nor a tag
    have other : ∀ m : Bytes, encodeToken (buffered out) p t = .ok (p, m) → (∃ u, m = ch%'<' :: u) →
        (∀ r, rawToken ⟨m ++ r, none⟩ = .ok (t, ⟨r, none⟩)) → specToken os t = some (t, os) →
        i' = p.ind ∧ fs' = fs ∧ o = [.tok t] →
        ∃ p' b raw, encodeTokens buffered p out (t :: ts) = .ok (p', out ++ b) ∧ p'.ns.els = [] ∧ RawSteps ⟨w ++ b, none⟩ raw ⟨[], none⟩ ∧
          specRun os raw = some ((mergeL d (o ++ os2)).1 ++ flush (mergeL d (o ++ os2)).2, []) := by
      rintro m h1 h2 h3 h4 ⟨rfl, rfl, rfl⟩
      obtain ⟨p', b, raw, e1, e2, e3, e4⟩ := stream buffered hb ts false p (out ++ m) os fs' [] [] os2 hf hw pending_nil (by simp) hok2 hts
      obtain ⟨raw', e5, e6⟩ := markup hp plain_nil h2 h3 h4 e3 e4
      refine ⟨p', m ++ b, raw', ?_, e2, by simpa using e5, ?_⟩
      · simp only [encodeTokens, h1]
        rw [e1, List.append_assoc]
      · rw [e6]
        simp [mergeL]
    cases t with
    | startElement n attrs =>
      obtain ⟨hn, ha⟩ := hok1
      simp only [readTok] at ht
      split at ht
      · cases ht
      rename_i pl h1
      split at ht
      · cases ht
      rename_i bs as h2
      split at ht
      · cases ht
      rename_i h3
      injection ht with ht
      injection ht with t1 ht
      injection ht with t2 t3
      subst t1; subst t2; subst t3
      obtain ⟨ns1, q, tas, hst, hs⟩ := start_spec hf.env hn ha h1 h2 (by simpa using h3)
      obtain ⟨e, e1, e2, e3, e4⟩ := hs.top
      have htag := nsStart_tag _ _ _ _ _ _ (tab_pfx hf.env.tab) hn ha hst
      have hq : q = joinPrefixed e.pre e.name := by
        obtain ⟨e', k1, k2, k3, k4, k5⟩ := htag.ex
        rw [e1] at k1
        injection k1 with k1 _
        rw [k5, ← k1]
      have hnq := written_nameOf hs.nm
      have hopen : (⟨nameOf q, (tas.map attrOf).filterMap declOf⟩ : Open) =
          ⟨⟨pl.pre, (splitPrefixed n.loc).2⟩, declsOf (pl.decls ++ as)⟩ := by
        rw [hnq, hs.raw]; rfl
      have hws := writeIndent_ws p.ind 1 hw
      have hfr : Frames ns1.els (⟨⟨pl.pre, (splitPrefixed n.loc).2⟩, declsOf (pl.decls ++ as)⟩ :: os)
          (⟨⟨bs, pl.given, dfltIn (scope fs) n attrs pl.pre⟩, n, pl.pre,
            ⟨if n.space = [] then dfltIn (scope fs) n attrs pl.pre else n.space, (splitPrefixed n.loc).2⟩⟩ :: fs) := by
        have hinv := hs.inv
        rw [e1] at hinv ⊢
        exact .cons hinv e2 e3 e4 rfl hs.elem (hq ▸ hs.nm) hf
      obtain ⟨p', b, raw, f1, f2, f3, f4⟩ := stream buffered hb ts false ⟨ns1, (writeIndent p.ind 1).1⟩
        (out ++ ((writeIndent p.ind 1).2 ++ (Out.start q tas).bytes)) _ _ [] [] os2 hfr hws.1 pending_nil (by simp) hok2 hts
      obtain ⟨raw', f5, f6⟩ := markup (t := .startElement (nameOf q) (tas.map attrOf))
        (t' := .startElement ⟨if n.space = [] then dfltIn (scope fs) n attrs pl.pre else n.space, (splitPrefixed n.loc).2⟩
          ((pl.decls ++ as).map SAttr.res)) (os := os) hp (isWs_plain hws.2) ⟨_, rfl⟩
        (rawToken_start q tas ⟨written_ok hs.nm, fun a ha => (htag.ok a ha).1⟩) (by
          simp only [specToken]
          rw [if_neg (by rintro ⟨a, ha', hba⟩; exact hs.bad a ha' hba), hopen, hnq, hs.elem, hs.attr]) f3 f4
      refine ⟨p', ((writeIndent p.ind 1).2 ++ (Out.start q tas).bytes) ++ b, raw', ?_, f2, f5, ?_⟩
      · simp only [encodeTokens, encodeToken, written, writeStart, hst]
        simp only [outBytes, List.flatMap_cons, List.flatMap_nil, List.append_nil, Out.bytes] at f1 ⊢
        rw [f1, List.append_assoc]
      · rw [f6]
        simp [mergeL]
    | endElement n =>
      simp only [readTok] at ht
      split at ht
      · cases ht
      rename_i f fs
      split at ht
      · rename_i hc
        injection ht with ht
        injection ht with t1 ht
        injection ht with t2 t3
        subst t1; subst t2; subst t3
        cases he : p.ns.els with
        | nil => rw [he] at hf; cases hf
        | cons e els =>
          rw [he] at hf
          cases hf with
          | @cons _ os _ _ o _ hinv a1 a2 a3 a4 a5 a6 hfs =>
          obtain ⟨c1, c2, c3⟩ := hc
          have hend : nsEnd p.ns n = .ok ({ p.ns with els := els }, joinPrefixed e.pre e.name) := by
            unfold nsEnd
            rw [if_neg (qlocal_ne hok1), he]
            dsimp only
            rw [if_neg (by rw [a3, ← c2]; exact isName_ne (splitPrefixed_q hok1).1.1), if_neg (by
              rintro ⟨x, y, z⟩
              rw [a1] at y z
              rcases c3 with c3 | c3 | c3
              · exact x c3
              · exact y c3
              · exact z c3), if_neg (by simp [a3, c2]), if_neg (by simp [a2, c1])]
          have hws := writeIndent_ws p.ind (-1) hw
          have hnq := written_nameOf a6
          obtain ⟨p', b, raw, f1, f2, f3, f4⟩ := stream buffered hb ts false ⟨{ p.ns with els := els }, (writeIndent p.ind (-1)).1⟩
            (out ++ ((writeIndent p.ind (-1)).2 ++ (Out.stop (joinPrefixed e.pre e.name)).bytes)) _ _ [] [] os2 hfs hws.1 pending_nil
            (by simp) hok2 hts
          obtain ⟨raw', f5, f6⟩ := markup (t := .endElement (nameOf (joinPrefixed e.pre e.name)))
            (t' := .endElement f.res) (os := o :: os) hp (isWs_plain hws.2) ⟨_, rfl⟩
            (rawToken_stop _ (written_ok a6)) (by
              simp only [specToken]
              rw [hnq, if_pos rfl, a5]) f3 f4
          refine ⟨p', ((writeIndent p.ind (-1)).2 ++ (Out.stop (joinPrefixed e.pre e.name)).bytes) ++ b, raw', ?_, f2, f5, ?_⟩
          · simp only [encodeTokens, encodeToken, written, writeEnd, hend]
            simp only [outBytes, List.flatMap_cons, List.flatMap_nil, List.append_nil, Out.bytes] at f1 ⊢
            rw [f1, List.append_assoc]
          · rw [f6]
            simp [mergeL]
      · cases ht
    | charData c =>
      simp only [readTok] at ht
      injection ht with ht
      injection ht with t1 ht
      injection ht with t2 t3
      subst t1; subst t2; subst t3
      obtain ⟨p', b, raw, f1, f2, f3, f4⟩ := stream buffered hb ts false p (out ++ escapeText false c) os fs _ _ os2 hf hw
        (pending_append hp (pending_text false c)) (by simp) hok2 hts
      refine ⟨p', escapeText false c ++ b, raw, ?_, f2, by simpa using f3, ?_⟩
      · simp only [encodeTokens, encodeToken]
        rw [f1, List.append_assoc]
      · rw [f4]
        simp [mergeL]
    | comment c =>
      injection ht with ht
      injection ht with t1 ht
      injection ht with t2 t3
      have hacc := (C62_comment (buffered out) p c).1.2 (fun hi => hok1.1 (List.IsInfix.trans ⟨[], b!">", rfl⟩ hi))
      obtain ⟨⟨p1, m⟩, hr⟩ := hacc
      obtain ⟨h1, h2⟩ := (C62_comment (buffered out) p c).2 p1 m hr
      subst h1
      refine other m hr ?_ (fun r => (h2 r).2 hok1) rfl ⟨t1.symm, t2.symm, t3.symm⟩
      simp only [encodeToken] at hr
      split at hr
      · cases hr
      · injection hr with hr; injection hr with _ hr; exact ⟨_, hr.symm⟩
    | procInst tg i =>
      injection ht with ht
      injection ht with t1 ht
      injection ht with t2 t3
      obtain ⟨o1, o2, o3, o4, o5⟩ := hok1
      have hacc := (C62_procInst (buffered out) p tg i).1.2 ⟨o1, o2, fun hx => by rw [hfo (o5 hx)]; exact hb⟩
      obtain ⟨⟨p1, m⟩, hr⟩ := hacc
      obtain ⟨h1, h2⟩ := (C62_procInst (buffered out) p tg i).2 p1 m hr
      subst h1
      refine other m hr ?_ (fun r => (h2 r).2 ⟨o3, o4⟩) rfl ⟨t1.symm, t2.symm, t3.symm⟩
      simp only [encodeToken] at hr
      split at hr
      · cases hr
      split at hr
      · cases hr
      split at hr
      · cases hr
      · injection hr with hr; injection hr with _ hr; exact ⟨_, hr.symm⟩
    | directive dr =>
      injection ht with ht
      injection ht with t1 ht
      injection ht with t2 t3
      obtain ⟨c, s, o1, o2, o3, o4, o5⟩ := hok1
      have hacc := (C62_directive (buffered out) p dr).1 o5
      obtain ⟨⟨p1, m⟩, hr⟩ := hacc
      obtain ⟨h1, h2⟩ := (C62_directive (buffered out) p dr).2.2 p1 m hr
      subst h1
      refine other m hr ?_ (fun r => (h2 r).2 ⟨c, s, o1, o2, o3, o4⟩) rfl ⟨t1.symm, t2.symm, t3.symm⟩
      simp only [encodeToken] at hr
      split at hr
      · cases hr
      · injection hr with hr; injection hr with _ hr; exact ⟨_, hr.symm⟩

/-- C63: a list of tokens in which start and end elements match, prefixes and namespaces correspond one to one on every path,
and the default namespace is not changed inside an element relying on it, is accepted by `EncodeToken` one after the other, in
whatever state the buffer is, and `Close` finds no open element.  The decoder reads from the output exactly what the tokens
say: every element and attribute with the namespace it was given, comments, processing instructions and directives as they
are, and text with its characters, adjacent text as one token. -/
theorem C63_stream (buffered : Bytes → Bool) (hb : buffered [] = false) (pre indent : Bytes) (hpre : IsWs pre) (hind : IsWs indent)
    (ts : List Token) (hok : ToksOk true ts) (l : List Lin) (h : readToks (Printer.new pre indent).ind [] ts = some ([], l)) :
    ∃ p doc, encodeTokens buffered (Printer.new pre indent) [] ts = .ok (p, doc) ∧ closeOk p = true ∧
      ∀ k, (joined l).length < k → tokRun k (Dec.new doc) = (joined l, some .eof) := by
  obtain ⟨p', b, raw, h1, h2, h3, h4⟩ := stream buffered hb ts true (Printer.new pre indent) [] [] [] [] [] l .nil ⟨hpre, hind⟩ pending_nil
    (fun _ => rfl) hok h
  refine ⟨p', b, h1, by simp [closeOk, h2], fun k hk => ?_⟩
  exact tokRun_doc b raw _ (by simpa using h3) h4 k hk

/-! ### Tokens without namespaces -/

/-- A token that says nothing about namespaces, with text of characters that XML allows. -/
def PlainTok : Token → Prop
  | .startElement n attrs => n.space = [] ∧ NCName n.loc ∧ n.loc ≠ xmlnsPrefix ∧
      ∀ a ∈ attrs, a.name.space = [] ∧ NCName a.name.loc ∧ a.name.loc ≠ xmlnsPrefix ∧ clean a.value = a.value
  | .endElement n => n.space = [] ∧ NCName n.loc
  | .charData b => b ≠ [] ∧ clean b = b
  | t => TokOk false t

/-- No two adjacent tokens are text. -/
def TextApart : List Token → Prop
  | .charData _ :: .charData c :: l => False ∧ TextApart (.charData c :: l)
  | _ :: l => TextApart l
  | [] => True

/-- The frame of an element without namespace. -/
def bareFrame (n : Name) : Frame := ⟨Env.empty, n, [], n⟩

theorem scope_bare (st : List Name) : scope (st.map bareFrame) = Env.empty := by
  cases st <;> rfl

theorem attrsSpec_plain : ∀ (attrs : List Attr), (∀ a ∈ attrs, a.name.space = [] ∧ NCName a.name.loc ∧ a.name.loc ≠ xmlnsPrefix ∧ clean a.value = a.value) →
    ∃ ss, attrsSpec [] attrs = some ([], ss) ∧ ss.map SAttr.res = attrs
  | [], _ => ⟨[], rfl, rfl⟩
  | a :: l, h => by
    obtain ⟨h1, h2, h3, h4⟩ := h a (by simp)
    obtain ⟨ss, e1, e2⟩ := attrsSpec_plain l (fun x hx => h x (by simp [hx]))
    refine ⟨⟨[], a.name.loc, [], a.value⟩ :: ss, ?_, ?_⟩
    · unfold attrsSpec attrSpec
      dsimp only
      rw [if_neg (isName_ne h2.1), h1, if_neg (by decide), if_neg (by simp), splitPrefixed_nc h2, if_neg (by simp [h3])]
      dsimp only
      rw [e1]
      rfl
    · rw [List.map_cons, e2]
      obtain ⟨⟨sp, lc⟩, v⟩ := a
      dsimp only at h1 h4
      simp [SAttr.res, h1, h4]

theorem ownDefaults_plain (attrs : List Attr) (h : ∀ a ∈ attrs, a.name.loc ≠ xmlnsPrefix) : ownDefaults attrs = [] := by
  unfold ownDefaults
  rw [List.filterMap_eq_nil_iff]
  intro a ha
  rw [if_neg]
  intro e
  exact h a ha (by rw [e])

theorem readToks_plain (i : Ind) (hi : i.pre = [] ∧ i.indent = []) : ∀ (ts : List Token) (st st' : List Name), (∀ t ∈ ts, PlainTok t) →
    (∀ n ∈ st, NCName n.loc ∧ n.space = []) → nesting st ts = some st' →
    ∃ l, readToks i (st.map bareFrame) ts = some (st'.map bareFrame, l) ∧ ToksOk false ts ∧
      ∀ acc, (acc ≠ [] → ∀ c l', ts ≠ .charData c :: l') → TextApart ts →
        (mergeL acc l).1 ++ flush (mergeL acc l).2 = flush acc ++ ts
  | [], st, st', _, _, h => by
    injection h with h
    subst h
    exact ⟨[], rfl, trivial, fun acc _ _ => by simp [mergeL]⟩
  | t :: ts, st, st', hp, hst, h => by
    have hp' : ∀ t ∈ ts, PlainTok t := fun x hx => hp x (by simp [hx])
    have ht := hp t (by simp)
    have hwi : ∀ d, writeIndent i d = (i, []) := fun d => by unfold writeIndent; rw [if_pos hi]
    have hapart : TextApart (t :: ts) → TextApart ts := by
      intro ha
      cases t <;> try exact ha
      cases ts with
      | nil => trivial
      | cons u ts =>
        cases u <;> first
          | exact ha.2
          | exact ha
    have other : nesting st ts = some st' → TokOk false t → readTok i (st.map bareFrame) t = some (i, st.map bareFrame, [.tok t]) →
        ∃ l, readToks i (st.map bareFrame) (t :: ts) = some (st'.map bareFrame, l) ∧ ToksOk false (t :: ts) ∧
          ∀ acc, (acc ≠ [] → ∀ c l', t :: ts ≠ .charData c :: l') → TextApart (t :: ts) →
            (mergeL acc l).1 ++ flush (mergeL acc l).2 = flush acc ++ (t :: ts) := by
      intro k1 k2 k3
      obtain ⟨l, e1, e2, e3⟩ := readToks_plain i hi ts st st' hp' hst k1
      refine ⟨.tok t :: l, ?_, ⟨k2, e2⟩, fun acc _ ha => ?_⟩
      · unfold readToks
        rw [k3]
        dsimp only
        rw [e1]
        rfl
      · have := e3 [] (by simp) (hapart ha)
        simp only [mergeL, List.append_assoc, List.cons_append]
        rw [this]
        rfl
    cases t with
    | startElement n attrs =>
      obtain ⟨h1, h2, h3, h4⟩ := ht
      simp only [nesting] at h
      obtain ⟨l, e1, e2, e3⟩ := readToks_plain i hi ts (n :: st) st' hp' (by
        intro m hm
        rcases List.mem_cons.1 hm with rfl | hm
        · exact ⟨h2, h1⟩
        · exact hst m hm) h
      obtain ⟨ss, a1, a2⟩ := attrsSpec_plain attrs h4
      have hod := ownDefaults_plain attrs (fun a ha => (h4 a ha).2.2.1)
      have hpl : placeSpec Env.empty n attrs = some ⟨[], [], [], none⟩ := by
        unfold placeSpec
        dsimp only
        rw [splitPrefixed_nc h2, if_neg h3, if_pos h1, if_pos rfl]
        rfl
      have hdf : dfltIn Env.empty n attrs [] = [] := by
        unfold dfltIn
        rw [hod]
        simp [h1, Env.empty]
      have hn : (⟨[], n.loc⟩ : Name) = n := by rw [← h1]
      refine ⟨.chars [] :: .tok (.startElement n attrs) :: l, ?_, ⟨⟨Or.inl h2, fun a ha => Or.inr ⟨Or.inl (h4 a ha).2.1, fun hx => ?_⟩⟩, e2⟩,
        fun acc _ ha => ?_⟩
      · unfold readToks readTok
        simp only [scope_bare, hpl, a1, hwi, hdf, splitPrefixed_nc h2, h1]
        rw [if_neg (by simp [defaultsOk, hod])]
        simp only [if_pos, hn, List.nil_append, a2]
        rw [List.map_cons] at e1
        unfold bareFrame at e1
        unfold bareFrame Env.empty
        unfold Env.empty at e1
        rw [e1]
        rfl
      · rw [(h4 a ha).1] at hx
        exact absurd hx (by decide)
      · have := e3 [] (by simp) (hapart ha)
        simp only [mergeL, List.append_assoc, List.cons_append, List.append_nil]
        rw [this]
        rfl
    | endElement n =>
      obtain ⟨h1, h2⟩ := ht
      cases st with
      | nil => simp [nesting] at h
      | cons o st =>
        simp only [nesting] at h
        split at h
        · rename_i ho
          subst ho
          obtain ⟨l, e1, e2, e3⟩ := readToks_plain i hi ts st st' hp' (fun m hm => hst m (by simp [hm])) h
          refine ⟨.chars [] :: .tok (.endElement o) :: l, ?_, ⟨Or.inl h2, e2⟩, fun acc _ ha => ?_⟩
          · unfold readToks readTok
            simp only [List.map_cons, hwi]
            rw [if_pos (by simp [Closes, bareFrame])]
            dsimp only
            rw [e1]
            rfl
          · have := e3 [] (by simp) (hapart ha)
            simp only [mergeL, List.append_assoc, List.cons_append, List.append_nil]
            rw [this]
            rfl
        · cases h
    | charData b =>
      obtain ⟨h1, h2⟩ := ht
      obtain ⟨l, e1, e2, e3⟩ := readToks_plain i hi ts st st' hp' hst (by simpa [nesting] using h)
      refine ⟨.chars b :: l, ?_, ⟨trivial, e2⟩, fun acc hacc ha => ?_⟩
      · unfold readToks readTok
        simp only [h2]
        rw [e1]
        rfl
      · have hn : acc = [] := by
          by_contra hne
          exact hacc hne b ts rfl
        subst hn
        have := e3 b (fun _ c l' he => by subst he; exact ha.1) (hapart ha)
        simp only [mergeL, List.nil_append]
        rw [this]
        simp [flush, h1]
    | comment c => exact other (by simpa [nesting] using h) ht rfl
    | procInst a b => exact other (by simpa [nesting] using h) ht rfl
    | directive b => exact other (by simpa [nesting] using h) ht rfl

/-- C63: tokens without namespaces, in which start and end elements match, written without indentation come back exactly as
they were.  Text must consist of characters that XML allows, and no two adjacent tokens may be text. -/
theorem C63_exact (buffered : Bytes → Bool) (hb : buffered [] = false) (ts : List Token) (hp : ∀ t ∈ ts, PlainTok t) (ha : TextApart ts)
    (hn : nesting [] ts = some []) :
    ∃ p doc, encodeTokens buffered (Printer.new [] []) [] ts = .ok (p, doc) ∧ closeOk p = true ∧
      ∀ k, ts.length < k → tokRun k (Dec.new doc) = (ts, some .eof) := by
  obtain ⟨l, h1, h2, h3⟩ := readToks_plain (Printer.new [] []).ind ⟨rfl, rfl⟩ ts [] [] hp (by simp) hn
  have h4 : joined l = ts := by
    exact h3 [] (by simp) ha
  have hok : ToksOk true ts := by
    cases ts with
    | nil => trivial
    | cons t ts =>
      refine ⟨?_, h2.2⟩
      have := h2.1
      cases t <;> try exact this
      exact ⟨this.1, this.2.1, this.2.2.1, this.2.2.2.1, fun _ => rfl⟩
  obtain ⟨p, doc, e1, e2, e3⟩ := C63_stream buffered hb [] [] (by intro x hx; simp at hx) (by intro x hx; simp at hx) ts hok l h1
  rw [h4] at e3
  exact ⟨p, doc, e1, e2, e3⟩

/-! ### Matching -/

/-- A tag with the local name after the prefix. -/
def strip : Token → Token
  | .startElement n attrs => .startElement ⟨n.space, (splitPrefixed n.loc).2⟩ attrs
  | .endElement n => .endElement ⟨n.space, (splitPrefixed n.loc).2⟩
  | t => t

theorem writeAttrs_top : ∀ (attrs : List Attr) (ns : Ns), ns.els ≠ [] → SameTop ns.els (writeAttrs ns attrs).1.els
  | [], ns, h => .refl h
  | a :: l, ns, h => by
    have h1 : SameTop ns.els (writeAttr ns a).1.els := by
      unfold writeAttr
      dsimp only
      repeat' split
      all_goals first
        | exact .refl h
        | exact createPrefix_same ns h _ _
    exact h1.trans (writeAttrs_top l _ h1.ne)

/-- The element has been pushed. -/
def Pushed (els els' : List Elem) (e : Elem) : Prop := ∃ e', els' = e' :: els ∧ e'.name = e.name ∧ e'.xmlns = e.xmlns

theorem pushed_same {els els1 els2 : List Elem} {e : Elem} (h : Pushed els els1 e) (hs : SameTop els1 els2) : Pushed els els2 e := by
  obtain ⟨e', rfl, h2, h3⟩ := h
  obtain ⟨f, fs, f', g1, g2, _, g4, g5⟩ := hs
  injection g1 with g1 g1'
  subst g1; subst g1'
  exact ⟨f', g2, g4.trans h2, g5.trans h3⟩

theorem pushed_setPre {els : List Elem} {ns : Ns} {e : Elem} (h : Pushed els ns.els e) (p : Bytes) : Pushed els (setPre ns p).els e := by
  obtain ⟨e', h1, h2, h3⟩ := h
  unfold setPre
  rw [h1]
  exact ⟨_, rfl, h2, h3⟩

theorem placeElement_pushed (seq : Nat) (els : List Elem) (e : Elem) (attrs : List Attr) : Pushed els (placeElement seq els e attrs).1.els e := by
  unfold placeElement
  repeat' split
  all_goals first
    | exact ⟨e, rfl, rfl, rfl⟩
    | exact ⟨_, rfl, rfl, rfl⟩
    | skip
  dsimp only
  exact pushed_setPre (pushed_same ⟨e, rfl, rfl, rfl⟩ (createPrefix_same ⟨seq, e :: els⟩ (by simp) _ _)) _

theorem nameTag_pushed {els : List Elem} {e : Elem} (ns : Ns) (d : Bool) (x n : Bytes) (h : Pushed els ns.els e) :
    Pushed els (nameTag ns d x n).1.els e := by
  have hne : ns.els ≠ [] := by obtain ⟨e', h1, _⟩ := h; rw [h1]; simp
  unfold nameTag
  repeat' split
  all_goals first
    | exact h
    | skip
  all_goals
    dsimp only
    exact pushed_setPre (pushed_same h (createPrefix_same ns hne _ _)) _

theorem nsStart_pushed {ns ns' : Ns} {n : Name} {attrs : List Attr} {q : Bytes} {tas : List TagAttr} (h : nsStart ns n attrs = .ok (ns', q, tas)) :
    Pushed ns.els ns'.els (newElement n) := by
  unfold nsStart at h
  split at h
  · cases h
  dsimp only at h
  injection h with h
  injection h with h1 _
  subst h1
  have hp := nameTag_pushed _ (placeElement ns.seq ns.els (newElement n) attrs).2 (newElement n).xmlns (newElement n).name
    (placeElement_pushed ns.seq ns.els (newElement n) attrs)
  refine pushed_same hp (writeAttrs_top attrs _ ?_)
  obtain ⟨e', h1, _⟩ := hp
  rw [h1]; simp

/-- The names of the open elements. -/
def openNames (p : Printer) : List Name := p.ns.els.map fun e => ⟨e.xmlns, e.name⟩

theorem nested_of (buffered : Bytes → Bool) : ∀ (ts : List Token) (p p' : Printer) (out doc : Bytes),
    encodeTokens buffered p out ts = .ok (p', doc) → nesting (openNames p) (ts.map strip) = some (openNames p')
  | [], p, p', out, doc, h => by
    injection h with h
    injection h with h _
    subst h
    rfl
  | t :: ts, p, p', out, doc, h => by
    unfold encodeTokens at h
    split at h
    · cases h
    rename_i p1 b h1
    have ih := nested_of buffered ts p1 p' _ doc h
    rw [List.map_cons]
    have same : p1 = p → (∀ os l, nesting os (strip t :: l) = nesting os l) → nesting (openNames p) (strip t :: ts.map strip) = some (openNames p') := by
      rintro rfl h2
      rw [h2, ih]
    cases t with
    | startElement n attrs =>
      simp only [strip, nesting]
      simp only [encodeToken, written, writeStart] at h1
      split at h1
      · cases h1
      rename_i p2 o h2
      split at h2
      · cases h2
      rename_i ns q tas h3
      injection h2 with h2
      injection h2 with h2 _
      injection h1 with h1
      injection h1 with h1 _
      subst h1; subst h2
      obtain ⟨e, k1, k2, k3⟩ := nsStart_pushed h3
      rw [← ih]
      unfold openNames
      rw [k1, List.map_cons, k2, k3]
      rfl
    | endElement n =>
      simp only [encodeToken, written, writeEnd] at h1
      split at h1
      · cases h1
      rename_i p2 o h2
      split at h2
      · cases h2
      rename_i ns q h3
      injection h2 with h2
      injection h2 with h2 _
      injection h1 with h1
      injection h1 with h1 _
      subst h1; subst h2
      unfold nsEnd at h3
      split at h3
      · cases h3
      split at h3
      · cases h3
      rename_i e els he
      dsimp only at h3
      split at h3
      · cases h3
      split at h3
      · cases h3
      split at h3
      · cases h3
      rename_i k1
      split at h3
      · cases h3
      rename_i k2
      injection h3 with h3
      injection h3 with h3 _
      subst h3
      simp only [strip]
      unfold openNames at ih ⊢
      rw [he, List.map_cons]
      simp only [nesting]
      rw [if_pos (by rw [Classical.not_not.1 k1, Classical.not_not.1 k2])]
      exact ih
    | charData b =>
      injection h1 with h1; injection h1 with h1 _
      exact same h1.symm (fun os l => by cases os <;> rfl)
    | comment c =>
      exact same ((C62_comment _ _ _).2 _ _ h1).1 (fun os l => by cases os <;> rfl)
    | procInst a b =>
      exact same ((C62_procInst _ _ _ _).2 _ _ h1).1 (fun os l => by cases os <;> rfl)
    | directive b =>
      exact same ((C62_directive _ _ _).2.2 _ _ h1).1 (fun os l => by cases os <;> rfl)

/-- C63: whatever tokens are given, if `EncodeToken` accepts them all, then every end element among them has the namespace and
local name of the innermost start element still open, and `Close` returns no error exactly if none is left open. -/
theorem C63_matched (buffered : Bytes → Bool) (pre indent : Bytes) (ts : List Token) (p : Printer) (doc : Bytes)
    (h : encodeTokens buffered (Printer.new pre indent) [] ts = .ok (p, doc)) :
    ∃ left, nesting [] (ts.map strip) = some left ∧ (closeOk p = true ↔ left = []) := by
  refine ⟨openNames p, nested_of buffered ts _ p [] doc h, ?_⟩
  unfold closeOk openNames
  simp

/-! ### Examples -/

/-- An XML declaration, a comment, a directive, elements with and without namespace, a prefixed attribute, and text. -/
def exTokens : List Token :=
  [.procInst (b!"xml") (b!"version=\"1.0\""), .comment (b!" a "), .directive (b!"DOCTYPE MPD"),
    .startElement ⟨b!"urn:mpeg:dash:schema:mpd:2011", b!"MPD"⟩ [⟨⟨b!"urn:x", b!"x:a"⟩, b!"1<2"⟩],
    .startElement ⟨[], b!"Title"⟩ [], .charData (b!"a&"), .charData (b!"b"), .endElement ⟨[], b!"Title"⟩,
    .endElement ⟨b!"urn:mpeg:dash:schema:mpd:2011", b!"MPD"⟩]

/-- What they say. -/
def exRead : List Token :=
  [.procInst (b!"xml") (b!"version=\"1.0\""), .comment (b!" a "), .directive (b!"DOCTYPE MPD"),
    .startElement ⟨b!"urn:mpeg:dash:schema:mpd:2011", b!"MPD"⟩ [⟨⟨[], b!"xmlns"⟩, b!"urn:mpeg:dash:schema:mpd:2011"⟩,
      ⟨⟨xmlnsURL, b!"x"⟩, b!"urn:x"⟩, ⟨⟨b!"urn:x", b!"a"⟩, b!"1<2"⟩],
    .startElement ⟨b!"urn:mpeg:dash:schema:mpd:2011", b!"Title"⟩ [], .charData (b!"a&b"),
    .endElement ⟨b!"urn:mpeg:dash:schema:mpd:2011", b!"Title"⟩, .endElement ⟨b!"urn:mpeg:dash:schema:mpd:2011", b!"MPD"⟩]

theorem exTokens_ok : ToksOk true exTokens := by
  have h : ∀ s, NCName s → QLocal s := fun s hs => Or.inl hs
  refine ⟨⟨by decide +kernel, by decide, ?_, by decide +kernel, fun _ => rfl⟩, ⟨by decide, by decide⟩,
    ⟨_, _, rfl, by decide, by decide, (dirScan_iff _ [] 0 (by decide)).1.1 (by decide +kernel), (dirScan_iff _ [] 0 (by decide)).1.1 (by decide +kernel)⟩,
    ⟨h _ (by decide +kernel), ?_⟩, ⟨h _ (by decide +kernel), by simp⟩, trivial, trivial, h _ (by decide +kernel), h _ (by decide +kernel), trivial⟩
  · rintro c s ⟨⟩; decide
  · intro a ha
    rw [List.mem_singleton.1 ha]
    exact Or.inr ⟨Or.inr ⟨b!"x", b!"a", by decide +kernel, by decide +kernel, rfl⟩, by decide⟩

example : ∃ l, readToks (Printer.new [] []).ind [] exTokens = some ([], l) ∧ joined l = exRead := ⟨_, rfl, by decide +kernel⟩

/-- The tokens of `<a b="1">x<!--c--></a>`. -/
example : (∀ t ∈ ([.startElement ⟨[], b!"a"⟩ [⟨⟨[], b!"b"⟩, b!"1"⟩], .charData (b!"x"), .comment (b!"c"), .endElement ⟨[], b!"a"⟩] : List Token), PlainTok t) ∧
    TextApart [.startElement ⟨[], b!"a"⟩ [⟨⟨[], b!"b"⟩, b!"1"⟩], .charData (b!"x"), .comment (b!"c"), .endElement ⟨[], b!"a"⟩] ∧
    nesting [] [.startElement ⟨[], b!"a"⟩ [⟨⟨[], b!"b"⟩, b!"1"⟩], .charData (b!"x"), .comment (b!"c"), .endElement ⟨[], b!"a"⟩] = some [] := by
  refine ⟨?_, trivial, by decide⟩
  intro t ht
  simp only [List.mem_cons, List.not_mem_nil, or_false] at ht
  rcases ht with rfl | rfl | rfl | rfl
  · refine ⟨rfl, by decide +kernel, by decide, ?_⟩
    intro a ha
    rw [List.mem_singleton.1 ha]
    exact ⟨rfl, by decide +kernel, by decide, by decide +kernel⟩
  · exact ⟨by decide, by decide +kernel⟩
  · exact ⟨by decide, by decide⟩
  · exact ⟨rfl, by decide +kernel⟩

/-- The start element `b` inside `a` must be closed before `a`. -/
example : encodeTokens (fun _ => true) (Printer.new [] []) [] [.startElement ⟨[], b!"a"⟩ [], .startElement ⟨[], b!"b"⟩ [], .endElement ⟨[], b!"a"⟩] =
    .error (.printer .nameMismatch) := by decide +kernel

end Verif.EncTok

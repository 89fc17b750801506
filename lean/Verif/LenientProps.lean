import Verif.Lenient
import Verif.XmlNsProps
import Verif.XmlLex
import Verif.GrammarLex
import Verif.NotEof

/-!
C79: what a decoder that is not strict makes of its input, on bytes.
-/
namespace Verif.Lenient

open Verif.Xml Verif.Utf8

/-! ### Strict documents are read the same -/

theorem numRef_ok (c : Cfg) {hex : Bool} {pre s : Bytes} {x : Bytes × Bytes} (h : Xml.numRef hex s = .ok x) : numRef c hex pre s = .ok x := by
  unfold Xml.numRef at h
  unfold numRef
  split at h
  · cases h
  · rename_i b r hd
    simp only [hd]
    by_cases h1 : b ≠ ch%';'
    · rw [if_pos h1] at h; cases h
    · rw [if_neg h1] at h ⊢
      split at h
      · rename_i h2
        rw [if_pos h2]
        exact h
      · cases h

theorem nameRef_ok (c : Cfg) {s : Bytes} {x : Bytes × Bytes} (h : Xml.nameRef s = .ok x) : nameRef c s = .ok x := by
  unfold Xml.nameRef at h
  unfold nameRef
  split at h
  · cases h
  · cases h
  · rename_i nm b r hd
    simp only [hd]
    by_cases h1 : b ≠ ch%';'
    · rw [if_pos h1] at h; cases h
    · rw [if_neg h1] at h ⊢
      by_cases h2 : isName nm = true
      · rw [if_pos h2] at h ⊢
        split at h
        · rename_i e
          simp only [e]
          exact h
        · cases h
      · rw [if_neg h2] at h; cases h

theorem entityRef_ok (c : Cfg) {s : Bytes} {x : Bytes × Bytes} (h : Xml.entityRef s = .ok x) : entityRef c s = .ok x := by
  match s, h with
  | [], h => cases h
  | [b], h =>
    unfold Xml.entityRef at h
    unfold entityRef
    dsimp only at h ⊢
    split at h
    · cases h
    · rename_i h1
      rw [if_neg h1]
      exact nameRef_ok c h
  | b :: y :: r, h =>
    unfold Xml.entityRef at h
    unfold entityRef
    dsimp only at h ⊢
    by_cases h1 : b = ch%'#'
    · rw [if_pos h1] at h ⊢
      by_cases h2 : y = ch%'x'
      · rw [if_pos h2] at h ⊢
        exact numRef_ok c h
      · rw [if_neg h2] at h ⊢
        exact numRef_ok c h
    · rw [if_neg h1] at h ⊢
      exact nameRef_ok c h

theorem textLoop_ok (c : Cfg) {n : Nat} {q : Option UInt8} {cd : Bool} {b0 b1 : UInt8} {buf s : Bytes} {x : Bytes × Bytes}
    (h : Xml.textLoop n q cd b0 b1 buf s = .ok x) : textLoop c n q cd b0 b1 buf s = .ok x := by
  induction n generalizing b0 b1 buf s with
  | zero => cases h
  | succ n ih =>
    cases s with
    | nil => exact h
    | cons b r =>
      unfold Xml.textLoop at h
      unfold textLoop
      by_cases h1 : q = none ∧ b0 = ch%']' ∧ b1 = ch%']' ∧ b = ch%'>'
      · rw [if_pos h1] at h ⊢; exact h
      rw [if_neg h1] at h ⊢
      by_cases h2 : b = ch%'<' ∧ cd = false
      · rw [if_pos h2] at h ⊢; exact h
      rw [if_neg h2] at h ⊢
      by_cases h3 : b = ch%'>' ∧ cd = false ∧ q = none
      · rw [if_pos h3] at h ⊢; exact h
      rw [if_neg h3] at h ⊢
      by_cases h4 : q = some b
      · rw [if_pos h4] at h ⊢; exact h
      rw [if_neg h4] at h ⊢
      by_cases h5 : b = ch%'&' ∧ cd = false
      · rw [if_pos h5] at h ⊢
        cases he : Xml.entityRef r with
        | error e => rw [he] at h; cases h
        | ok p =>
          rw [he] at h
          rw [entityRef_ok c he]
          exact ih h
      · rw [if_neg h5] at h ⊢
        exact ih h

theorem text_ok (c : Cfg) {q : Option UInt8} {cd : Bool} {s : Bytes} {x : Bytes × Bytes} (h : Xml.text q cd s = .ok x) :
    text c q cd s = .ok x := by
  unfold Xml.text at h
  unfold text
  cases he : Xml.textLoop (s.length + 1) q cd 0 0 [] s with
  | error e => rw [he] at h; cases h
  | ok p =>
    rw [he] at h
    rw [textLoop_ok c he]
    exact h

theorem attrval_ok (c : Cfg) {s : Bytes} {x : Bytes × Bytes} (h : Xml.attrval s = .ok x) : attrval c s = .ok x := by
  cases s with
  | nil => cases h
  | cons b r =>
    unfold Xml.attrval at h
    unfold attrval
    dsimp only at h ⊢
    split at h
    · rename_i h1
      rw [if_pos h1]
      exact text_ok c h
    · cases h

theorem readAttr_ok (c : Cfg) {s : Bytes} {x : Attr × Bytes} (h : Xml.readAttr s = .ok x) : readAttr c s = .ok x := by
  unfold Xml.readAttr at h
  unfold readAttr
  split at h
  · cases h
  · cases h
  · rename_i n r hn
    simp only [hn]
    split at h
    · cases h
    · rename_i b r1 hs
      simp only [hs]
      by_cases h1 : b ≠ ch%'='
      · rw [if_pos h1] at h; cases h
      · rw [if_neg h1] at h ⊢
        cases he : Xml.attrval (skipSpace r1) with
        | error e => rw [he] at h; cases h
        | ok p =>
          rw [he] at h
          rw [attrval_ok c he]
          exact h

theorem attrLoop_ok (c : Cfg) {n : Nat} {acc as : List Attr} {s r : Bytes} {e : Bool} (h : Xml.attrLoop n acc s = .ok (as, e, r)) :
    attrLoop c n acc s = .ok (as, e, r, none) := by
  induction n generalizing acc s with
  | zero => cases h
  | succ n ih =>
    unfold Xml.attrLoop at h
    unfold attrLoop
    cases hs : skipSpace s with
    | nil => rw [hs] at h; cases h
    | cons b t =>
      rw [hs] at h
      dsimp only at h ⊢
      by_cases h1 : b = ch%'/'
      · rw [if_pos h1] at h ⊢
        cases t with
        | nil => cases h
        | cons x t =>
          dsimp only at h ⊢
          by_cases h2 : x ≠ ch%'>'
          · rw [if_pos h2] at h; cases h
          · rw [if_neg h2] at h ⊢
            cases h
            rfl
      · rw [if_neg h1] at h ⊢
        by_cases h2 : b = ch%'>'
        · rw [if_pos h2] at h ⊢
          cases h
          rfl
        · rw [if_neg h2] at h ⊢
          cases he : Xml.readAttr (b :: t) with
          | error e => rw [he] at h; cases h
          | ok p =>
            rw [he] at h
            rw [readAttr_ok c he]
            exact ih h

theorem startTag_ok (c : Cfg) {s : Bytes} {t : Token} {r : Raw} (h : Xml.startTag s = .ok (t, r)) : startTag c s = .ok (t, ofRaw r) := by
  unfold Xml.startTag at h
  unfold startTag
  split at h
  · cases h
  · cases h
  · rename_i n r0 hn
    simp only [hn]
    cases he : Xml.attrLoop (r0.length + 1) [] r0 with
    | error e => rw [he] at h; cases h
    | ok p =>
      obtain ⟨as, e, r'⟩ := p
      rw [he] at h
      rw [attrLoop_ok c he]
      cases h
      rfl

theorem bangTag_ok (c : Cfg) {s : Bytes} {t : Token} {r : Raw} (h : Xml.bangTag s = .ok (t, r)) : bangTag c s = .ok (t, ofRaw r) := by
  cases s with
  | nil => cases h
  | cons b s =>
    unfold bangTag
    dsimp only
    by_cases h1 : b = ch%'['
    · rw [if_pos h1]
      unfold Xml.bangTag at h
      dsimp only at h
      rw [if_neg (by rw [h1]; decide), if_pos h1] at h
      cases hc : cdataOpen b!"CDATA[" s with
      | error e => rw [hc] at h; cases h
      | ok r1 =>
        rw [hc] at h
        dsimp only at h ⊢
        cases ht : Xml.text none true r1 with
        | error e => rw [ht] at h; cases h
        | ok p =>
          rw [ht] at h
          rw [text_ok c ht]
          cases h
          rfl
    · rw [if_neg h1, h]
      rfl

theorem rawToken_ok (c : Cfg) {s r : Raw} {t : Token} (h : Xml.rawToken s = .ok (t, r)) : rawToken c (ofRaw s) = .ok (t, ofRaw r) := by
  unfold Xml.rawToken at h
  unfold rawToken ofRaw
  dsimp only
  cases hc : s.toClose with
  | some n =>
    rw [hc] at h
    cases h
    rfl
  | none =>
    rw [hc] at h
    dsimp only at h ⊢
    cases hr : s.rest with
    | nil => rw [hr] at h; cases h
    | cons b r0 =>
      rw [hr] at h
      dsimp only at h ⊢
      by_cases h1 : b ≠ ch%'<'
      · rw [if_pos h1] at h ⊢
        cases ht : Xml.text none false (b :: r0) with
        | error e => rw [ht] at h; cases h
        | ok p =>
          rw [ht] at h
          rw [text_ok c ht]
          cases h
          rfl
      · rw [if_neg h1] at h ⊢
        cases r0 with
        | nil => cases h
        | cons x r1 =>
          dsimp only at h ⊢
          by_cases h2 : x = ch%'/'
          · rw [if_pos h2] at h ⊢
            rw [h]; rfl
          rw [if_neg h2] at h ⊢
          by_cases h3 : x = ch%'?'
          · rw [if_pos h3] at h ⊢
            rw [h]; rfl
          rw [if_neg h3] at h ⊢
          by_cases h4 : x = ch%'!'
          · rw [if_pos h4] at h ⊢
            exact bangTag_ok c h
          rw [if_neg h4] at h ⊢
          exact startTag_ok c h

/-- A strict decoder as a decoder with settings. -/
def ofDec (d : Dec) : D := ⟨ofRaw d.raw, d.ns, d.stk, none⟩

/-- The elements that are open, without the records of namespaces. -/
def opens : List Stk → List Name
  | [] => []
  | .start n :: l => n :: opens l
  | .ns _ _ :: l => opens l

theorem opens_pushNs {as : List Attr} {ns ns' : NsMap} {stk stk' : List Stk} (h : pushNs as ns stk = .ok (ns', stk')) : opens stk' = opens stk := by
  induction as generalizing ns stk with
  | nil =>
    cases h
    rfl
  | cons a as ih =>
    unfold pushNs at h
    split at h
    · split at h
      · cases h
      · split at h
        · cases h
        · rw [ih h]; rfl
    · split at h
      · rw [ih h]; rfl
      · exact ih h

theorem opens_popNs (ns : NsMap) (stk : List Stk) : opens (popNs ns stk).2 = opens stk := by
  induction stk generalizing ns with
  | nil => rfl
  | cons x stk ih =>
    cases x with
    | start n => rfl
    | ns k old =>
      unfold popNs
      rw [ih]
      rfl

/-- An element closed by `AutoClose`. -/
def auto (c : Cfg) (l : Bytes) : Bool := c.auto.any fun a => c.fold a l

/-- An element closed by `AutoClose` is empty in the document: its end comes right after its start. -/
def Quiet (c : Cfg) : List Token → Prop
  | [] => True
  | .startElement n _ :: l => (auto c n.loc = true → ∃ m l', l = .endElement m :: l') ∧ Quiet c l
  | _ :: l => Quiet c l

/-- What is kept while reading: only the innermost element can be one closed by `AutoClose`, and then its end is next. -/
def Calm (c : Cfg) (stk : List Stk) (ts : List Token) : Prop :=
  match opens stk with
  | [] => True
  | m :: r => (∀ x ∈ r, auto c x.loc = false) ∧ (auto c m.loc = true → ∃ n l, ts = .endElement n :: l)

theorem after_ok {c : Cfg} (hf : ∀ x, c.fold x x = true) {d : Dec} {t t' : Token} {raw : Raw} {ns : NsMap} {stk : List Stk} {ts : List Token}
    (h : cook t d.ns d.stk = .ok (t', ns, stk)) (hc : Calm c d.stk (t' :: ts)) (hq : Quiet c (t' :: ts)) :
    finish c (ofDec { d with raw := raw }) t = .ok (t', ofDec ⟨raw, ns, stk⟩) ∧ Calm c stk ts ∧ Quiet c ts := by
  have calm_of : (∀ x ∈ opens stk, auto c x.loc = false) → Calm c stk ts := by
    intro hx
    unfold Calm
    split
    · trivial
    · rename_i m r e
      rw [e] at hx
      exact ⟨fun x hm => hx x (by simp [hm]), fun ha => by rw [hx m (by simp)] at ha; cases ha⟩
  cases t with
  | startElement n as =>
    unfold Xml.cook at h
    dsimp only at h
    cases hp : pushNs as d.ns d.stk with
    | error e => rw [hp] at h; cases h
    | ok p =>
      obtain ⟨ns', stk'⟩ := p
      rw [hp] at h
      cases h
      have hnone : ∀ x ∈ opens d.stk, auto c x.loc = false := by
        unfold Calm at hc
        split at hc
        · rename_i e; rw [e]; simp
        · rename_i m r e
          rw [e]
          intro x hx
          simp only [List.mem_cons] at hx
          rcases hx with rfl | hx
          · cases ha : auto c x.loc with
            | false => rfl
            | true =>
              obtain ⟨_, _, e⟩ := hc.2 ha
              cases e
          · exact hc.1 x hx
      refine ⟨?_, ?_, hq.2⟩
      · have ha : Loose.autoClose c.toCfg d.stk (.startElement n as) = none := by
          unfold Loose.autoClose
          split
          · rename_i m r e
            have := hnone m (by rw [e]; simp [opens])
            rw [if_neg]
            unfold auto at this
            rw [this]; simp
          · rfl
        unfold finish Loose.token.after D.view ofDec
        dsimp only
        rw [ha]
        simp only [Loose.cook, hp, ite_self]
        rfl
      · unfold Calm
        simp only [opens]
        rw [opens_pushNs hp]
        refine ⟨hnone, fun ha => hq.1 ?_⟩
        rw [Loose.translate_loc]
        exact ha
  | endElement n =>
    unfold Xml.cook at h
    dsimp only at h
    cases hp : Xml.popElement d.ns d.stk n with
    | error e => rw [hp] at h; cases h
    | ok p =>
      obtain ⟨n', ns', stk'⟩ := p
      rw [hp] at h
      cases h
      unfold Xml.popElement at hp
      split at hp
      · rename_i m stk0 hstk
        by_cases h1 : m.loc ≠ n.loc
        · rw [if_pos h1] at hp; cases hp
        rw [if_neg h1] at hp
        by_cases h2 : m.space ≠ n.space
        · rw [if_pos h2] at hp; cases hp
        rw [if_neg h2] at hp
        injection hp with hp
        simp only [Prod.mk.injEq] at hp
        obtain ⟨rfl, hp⟩ := hp
        obtain ⟨rfl, rfl⟩ : (popNs d.ns stk0).1 = ns ∧ (popNs d.ns stk0).2 = stk := by rw [hp]; exact ⟨rfl, rfl⟩
        refine ⟨?_, ?_, hq⟩
        · have ha : Loose.autoClose c.toCfg d.stk (.endElement n) = none := by
            unfold Loose.autoClose
            rw [hstk]
            dsimp only
            have : m.loc = n.loc := by simpa using h1
            split
            · rw [if_pos]
              rw [this]
              exact hf _
            · rfl
          unfold finish Loose.token.after D.view ofDec
          dsimp only
          rw [ha]
          simp only [Loose.cook, Loose.popElement, hstk, ite_self]
          rw [if_neg h1, if_neg h2]
          rfl
        · apply calm_of
          rw [opens_popNs]
          unfold Calm at hc
          rw [hstk] at hc
          exact hc.1
      · cases hp
  | charData b =>
    cases h
    exact plain c hc hq (by intro n as e; cases e) (by intro n e; cases e)
  | comment b =>
    cases h
    exact plain c hc hq (by intro n as e; cases e) (by intro n e; cases e)
  | procInst b b' =>
    cases h
    exact plain c hc hq (by intro n as e; cases e) (by intro n e; cases e)
  | directive b =>
    cases h
    exact plain c hc hq (by intro n as e; cases e) (by intro n e; cases e)
where
  plain (c : Cfg) {d : Dec} {raw : Raw} {t : Token} {ts : List Token} (hc : Calm c d.stk (t :: ts)) (hq : Quiet c (t :: ts))
      (h1 : ∀ n as, t ≠ .startElement n as) (h2 : ∀ n, t ≠ .endElement n) :
      finish c (ofDec { d with raw := raw }) t = .ok (t, ofDec ⟨raw, d.ns, d.stk⟩) ∧ Calm c d.stk ts ∧ Quiet c ts := by
    have hnone : ∀ x ∈ opens d.stk, auto c x.loc = false := by
      unfold Calm at hc
      split at hc
      · rename_i e; rw [e]; simp
      · rename_i m r e
        rw [e]
        intro x hx
        simp only [List.mem_cons] at hx
        rcases hx with rfl | hx
        · cases ha : auto c x.loc with
          | false => rfl
          | true =>
            obtain ⟨n, _, e⟩ := hc.2 ha
            injection e with e _
            exact absurd e (h2 n)
        · exact hc.1 x hx
    have ha : Loose.autoClose c.toCfg d.stk t = none := by
      unfold Loose.autoClose
      split
      · rename_i m r e
        have := hnone m (by rw [e]; simp [opens])
        rw [if_neg]
        unfold auto at this
        rw [this]; simp
      · rfl
    refine ⟨?_, ?_, ?_⟩
    · unfold finish Loose.token.after D.view ofDec
      dsimp only
      rw [ha]
      cases t with
      | startElement n as => exact absurd rfl (h1 n as)
      | endElement n => exact absurd rfl (h2 n)
      | _ => simp only [Loose.cook, ite_self]; rfl
    · unfold Calm
      split
      · trivial
      · rename_i m r e
        rw [e] at hnone
        exact ⟨fun x hm => hnone x (by simp [hm]), fun ha => by rw [hnone m (by simp)] at ha; cases ha⟩
    · cases t with
      | startElement n as => exact absurd rfl (h1 n as)
      | _ => exact hq

theorem run_ok {c : Cfg} (hf : ∀ x, c.fold x x = true) (n : Nat) (d : Dec) {ts : List Token} {e : Option XErr} (h : tokRun n d = (ts, e))
    (he : e = none ∨ e = some .eof) (hc : Calm c d.stk ts) (hq : Quiet c ts) : run c n (ofDec d) = (ts, e) := by
  induction n generalizing d ts with
  | zero => exact h
  | succ n ih =>
    unfold tokRun at h
    unfold run
    cases ht : Xml.token d with
    | error x =>
      rw [ht] at h
      cases h
      have hx : x = .eof := by
        rcases he with he | he
        · cases he
        · injection he
      subst hx
      have : token c (ofDec d) = .error .eof := by
        obtain ⟨h1, h2⟩ := (token_eof_iff d).mp ht
        unfold token ofDec ofRaw
        rw [h1, h2]
        rfl
      rw [this]
    | ok p =>
      obtain ⟨t, d'⟩ := p
      rw [ht] at h
      cases h
      unfold Xml.token at ht
      cases hr : Xml.rawToken d.raw with
      | error y => rw [hr] at ht; cases ht
      | ok p =>
        obtain ⟨u, raw'⟩ := p
        rw [hr] at ht
        dsimp only at ht
        cases hk : Xml.cook u d.ns d.stk with
        | error y => rw [hk] at ht; cases ht
        | ok p =>
          obtain ⟨t', ns', stk'⟩ := p
          rw [hk] at ht
          cases ht
          obtain ⟨h1, h2, h3⟩ := after_ok hf (raw := raw') hk hc hq
          have : token c (ofDec d) = .ok (t, ofDec ⟨raw', ns', stk'⟩) := by
            unfold token
            simp only [ofDec] at h1 ⊢
            rw [rawToken_ok c hr]
            exact h1
          rw [this]
          dsimp only
          rw [ih ⟨raw', ns', stk'⟩ rfl h2 h3]

/-! ### With `Strict` set and no `Entity` map, the decoder is the one of `Xml` -/

section
variable {c : Cfg} (hc : c.strict = true) (he : ∀ x, c.ent x = none)
include hc

theorem bad_strict (t r : Bytes) : bad c t r = .error badEntity := by
  unfold bad
  rw [if_pos hc]

theorem numRef_strict (hex : Bool) (pre s : Bytes) : numRef c hex pre s = Xml.numRef hex s := by
  unfold numRef Xml.numRef
  simp only [bad_strict hc]
  rfl

include he

theorem nameRef_strict (s : Bytes) : nameRef c s = Xml.nameRef s := by
  unfold nameRef Xml.nameRef
  simp only [bad_strict hc, he]
  rfl

theorem entityRef_strict (s : Bytes) : entityRef c s = Xml.entityRef s := by
  unfold entityRef Xml.entityRef
  simp only [nameRef_strict hc he, numRef_strict hc]
  rfl

theorem textLoop_strict (n : Nat) (q : Option UInt8) (cd : Bool) (b0 b1 : UInt8) (buf s : Bytes) :
    textLoop c n q cd b0 b1 buf s = Xml.textLoop n q cd b0 b1 buf s := by
  induction n generalizing b0 b1 buf s with
  | zero => rfl
  | succ n ih =>
    cases s with
    | nil => rfl
    | cons b r =>
      unfold textLoop Xml.textLoop
      simp only [entityRef_strict hc he, ih]
      rfl

theorem text_strict (q : Option UInt8) (cd : Bool) (s : Bytes) : text c q cd s = Xml.text q cd s := by
  unfold text Xml.text
  rw [textLoop_strict hc he]
  rfl

theorem readAttr_strict (s : Bytes) : readAttr c s = Xml.readAttr s := by
  have ha : ∀ s, attrval c s = Xml.attrval s := by
    intro s
    unfold attrval Xml.attrval
    simp only [text_strict hc he, hc, if_true]
    rfl
  unfold readAttr Xml.readAttr
  simp only [ha, hc, if_true]
  rfl

theorem attrLoop_strict (n : Nat) (acc : List Attr) (s : Bytes) :
    attrLoop c n acc s = (Xml.attrLoop n acc s).map fun x => (x.1, x.2.1, x.2.2, none) := by
  induction n generalizing acc s with
  | zero => rfl
  | succ n ih =>
    unfold attrLoop Xml.attrLoop
    cases hs : skipSpace s with
    | nil => simp [hc, Except.map]
    | cons b r =>
      dsimp only
      by_cases h1 : b = ch%'/'
      · rw [if_pos h1, if_pos h1]
        cases r with
        | nil => rfl
        | cons x r =>
          dsimp only
          by_cases h2 : x ≠ ch%'>'
          · rw [if_pos h2, if_pos h2]; rfl
          · rw [if_neg h2, if_neg h2]; rfl
      · rw [if_neg h1, if_neg h1]
        by_cases h2 : b = ch%'>'
        · rw [if_pos h2, if_pos h2]; rfl
        · rw [if_neg h2, if_neg h2, readAttr_strict hc he]
          cases Xml.readAttr (b :: r) with
          | error e => rfl
          | ok p => exact ih _ _

theorem rawToken_strict (s : Raw) : rawToken c (ofRaw s) = lift (Xml.rawToken s) := by
  cases hr : Xml.rawToken s with
  | ok p =>
    obtain ⟨t, r⟩ := p
    exact rawToken_ok c hr
  | error e =>
    unfold Xml.rawToken at hr
    unfold rawToken ofRaw
    dsimp only
    cases ht : s.toClose with
    | some n => rw [ht] at hr; cases hr
    | none =>
      rw [ht] at hr
      dsimp only at hr ⊢
      cases hs : s.rest with
      | nil => rw [hs] at hr; cases hr; rfl
      | cons b r =>
        rw [hs] at hr
        dsimp only at hr ⊢
        by_cases h1 : b ≠ ch%'<'
        · rw [if_pos h1] at hr ⊢
          rw [text_strict hc he]
          cases hx : Xml.text none false (b :: r) with
          | error e => rw [hx] at hr; cases hr; rfl
          | ok p => rw [hx] at hr; cases hr
        · rw [if_neg h1] at hr ⊢
          cases r with
          | nil => cases hr; rfl
          | cons x r1 =>
            dsimp only at hr ⊢
            by_cases h2 : x = ch%'/'
            · rw [if_pos h2] at hr ⊢
              rw [hr]
            rw [if_neg h2] at hr ⊢
            by_cases h3 : x = ch%'?'
            · rw [if_pos h3] at hr ⊢
              rw [hr]
            rw [if_neg h3] at hr ⊢
            by_cases h4 : x = ch%'!'
            · rw [if_pos h4] at hr ⊢
              cases r1 with
              | nil => cases hr; rfl
              | cons y r2 =>
                unfold bangTag
                dsimp only
                by_cases h5 : y = ch%'['
                · rw [if_pos h5]
                  unfold Xml.bangTag at hr
                  dsimp only at hr
                  rw [if_neg (by rw [h5]; decide), if_pos h5] at hr
                  cases hq : cdataOpen b!"CDATA[" r2 with
                  | error e => rw [hq] at hr; cases hr; rfl
                  | ok r3 =>
                    rw [hq] at hr
                    dsimp only at hr ⊢
                    rw [text_strict hc he]
                    cases hx : Xml.text none true r3 with
                    | error e => rw [hx] at hr; cases hr; rfl
                    | ok p => rw [hx] at hr; cases hr
                · rw [if_neg h5, hr]
            rw [if_neg h4] at hr ⊢
            unfold Xml.startTag at hr
            unfold startTag
            split at hr
            · rename_i hn; simp only [hn]; cases hr; rfl
            · rename_i hn; simp only [hn]; cases hr; rfl
            · rename_i n r0 hn
              simp only [hn]
              rw [attrLoop_strict hc he]
              cases hx : Xml.attrLoop (r0.length + 1) [] r0 with
              | error e => rw [hx] at hr; cases hr; rfl
              | ok p => rw [hx] at hr; cases hr

end

theorem finish_strict {c : Cfg} (hc : c.strict = true) (d : Dec) (raw : Raw) (t : Token) :
    finish c (ofDec { d with raw := raw }) t =
      match Xml.cook t d.ns d.stk with
      | .error e => .error e
      | .ok (t', ns', stk') => .ok (t', ofDec ⟨raw, ns', stk'⟩) := by
  unfold finish Loose.token.after
  rw [if_pos hc]
  cases t with
  | startElement n as =>
    unfold Loose.cook Xml.cook D.view ofDec
    dsimp only
    cases pushNs as d.ns d.stk with
    | error e => rfl
    | ok p => rfl
  | endElement n =>
    unfold Loose.cook Xml.cook Loose.popElement Xml.popElement D.view ofDec
    dsimp only
    cases hs : d.stk with
    | nil => rfl
    | cons x stk =>
      cases x with
      | ns k v => rfl
      | start m =>
        dsimp only
        by_cases h1 : m.loc ≠ n.loc
        · rw [if_pos h1, if_pos hc, if_pos h1]
        · rw [if_neg h1, if_neg h1]
          by_cases h2 : m.space ≠ n.space
          · rw [if_pos h2, if_pos h2]
          · rw [if_neg h2, if_neg h2]
            rfl
  | _ => rfl

theorem run_strict {c : Cfg} (hc : c.strict = true) (he : ∀ x, c.ent x = none) (n : Nat) (d : Dec) : run c n (ofDec d) = tokRun n d := by
  induction n generalizing d with
  | zero => rfl
  | succ n ih =>
    have ht : token c (ofDec d) = match Xml.token d with
        | .error e => .error e
        | .ok (t, d') => .ok (t, ofDec d') := by
      unfold token Xml.token
      rw [show (ofDec d).next = none from rfl]
      dsimp only
      rw [show (ofDec d).raw = ofRaw d.raw from rfl, rawToken_strict hc he]
      cases Xml.rawToken d.raw with
      | error e => rfl
      | ok p =>
        obtain ⟨t, r⟩ := p
        dsimp only [lift]
        have := finish_strict hc d r t
        simp only [ofDec] at this ⊢
        rw [this]
        cases Xml.cook t d.ns d.stk with
        | error e => rfl
        | ok p => rfl
    unfold run tokRun
    rw [ht]
    cases Xml.token d with
    | error e => rfl
    | ok p =>
      obtain ⟨t, d'⟩ := p
      dsimp only
      rw [ih]

/-! ### Properties: what a strict decoder accepts -/

/-- C79, a correct document is read the same with every setting: if a strict decoder reads a document to its end (or its first tokens), then so does
a decoder with any value of `Strict`, any `Entity` map and any `AutoClose`, with the same tokens, provided that the elements that `AutoClose` names
are empty in the document. -/
theorem C79_strict {c : Cfg} (hf : ∀ x, c.fold x x = true) (n : Nat) (s : Bytes) {ts : List Token} {e : Option XErr}
    (h : tokRun n (Dec.new s) = (ts, e)) (he : e = none ∨ e = some .eof) (hq : Quiet c ts) : run c n (D.new s) = (ts, e) :=
  run_ok hf n (Dec.new s) h he trivial hq

/-- C79, a strict decoder without an `Entity` map is the decoder of `Unmarshal`, with the same errors. -/
theorem C79_default {c : Cfg} (hc : c.strict = true) (he : ∀ x, c.ent x = none) (n : Nat) (s : Bytes) :
    run c n (D.new s) = tokRun n (Dec.new s) := run_strict hc he n (Dec.new s)

/-! ### References -/

/-- A piece of text. -/
inductive Piece where
  /-- an ordinary byte -/
  | plain (b : UInt8)
  /-- `&name;` -/
  | named (nm : Bytes)
  /-- `&name` without a semicolon, and the byte after it -/
  | cut (nm : Bytes) (b : UInt8)
  /-- `&#...;` or `&#x...;` -/
  | num (hex : Bool) (ds : Bytes)

/-- A piece as it is in the document. -/
def Piece.src : Piece → Bytes
  | .plain b => [b]
  | .named nm => ch%'&' :: nm ++ [ch%';']
  | .cut nm b => ch%'&' :: nm ++ [b]
  | .num hex ds => (if hex then b!"&#x" else b!"&#") ++ ds ++ [ch%';']

/-- The five names every parser knows. -/
def std : List (Bytes × Bytes) :=
  [((b!"lt"), (b!"<")), ((b!"gt"), (b!">")), ((b!"amp"), (b!"&")), ((b!"apos"), (b!"'")), ((b!"quot"), (b!"\""))]

/-- What a piece means: the standard names, then the names of the `Entity` map, numbers of characters; anything else means nothing. -/
def Piece.val (ent : Bytes → Option Bytes) : Piece → Option Bytes
  | .plain b => some [b]
  | .named nm => if isName nm then (std.lookup nm).or (ent nm) else none
  | .cut _ _ => none
  | .num hex ds => if ds ≠ [] ∧ refVal hex ds ≤ 0x10FFFF then some (encodeRune (refVal hex ds)) else none

/-- A byte that stands for itself in text (`q = none`) or between quotes `q`. -/
def Ordinary (q : Option UInt8) (b : UInt8) : Prop :=
  b ≠ ch%'<' ∧ b ≠ ch%'>' ∧ b ≠ ch%'&' ∧ b ≠ ch%'\r' ∧ q ≠ some b

/-- The pieces are what they say. -/
def Piece.Ok (q : Option UInt8) : Piece → Prop
  | .plain b => Ordinary q b
  | .named nm => ∀ x ∈ nm, nameOrHigh x = true
  | .cut nm b => (∀ x ∈ nm, nameOrHigh x = true) ∧ Ordinary q b ∧ nameOrHigh b = false ∧ b ≠ ch%';' ∧ (nm = [] → b ≠ ch%'#')
  | .num hex ds => ∀ x ∈ ds, isRefDigit hex x = true

theorem entity_std (nm : Bytes) : (entity nm).map encodeRune = std.lookup nm := by
  unfold entity std
  by_cases h1 : nm = b!"lt"
  · subst h1; rfl
  by_cases h2 : nm = b!"gt"
  · subst h2; rfl
  by_cases h3 : nm = b!"amp"
  · subst h3; rfl
  by_cases h4 : nm = b!"apos"
  · subst h4; rfl
  by_cases h5 : nm = b!"quot"
  · subst h5; rfl
  rw [if_neg h1, if_neg h2, if_neg h3, if_neg h4, if_neg h5]
  simp only [List.lookup_cons, List.lookup_nil]
  rw [show (nm == b!"lt") = false by simpa using h1, show (nm == b!"gt") = false by simpa using h2,
    show (nm == b!"amp") = false by simpa using h3, show (nm == b!"apos") = false by simpa using h4,
    show (nm == b!"quot") = false by simpa using h5]
  rfl

/-- What is made of a reference that means nothing, or of its value. -/
def meaning (c : Cfg) (t : Bytes) (v : Option Bytes) (r : Bytes) : Except XErr (Bytes × Bytes) :=
  match v with
  | some v => .ok (v, r)
  | none => if c.strict then .error badEntity else .ok (t, r)

theorem entityRef_cons (c : Cfg) (nm : Bytes) (b : UInt8) (r : Bytes) (h : ∀ x ∈ nm, nameOrHigh x = true) (hb : nm = [] → b ≠ ch%'#') :
    entityRef c (nm ++ b :: r) = nameRef c (nm ++ b :: r) := by
  match nm, r with
  | [], [] =>
    simp only [List.nil_append, entityRef]
    rw [if_neg (hb rfl)]
  | [], y :: r =>
    simp only [List.nil_append, entityRef]
    rw [if_neg (hb rfl)]
  | [x], r =>
    simp only [List.cons_append, List.nil_append, entityRef]
    rw [if_neg]
    rintro rfl
    exact absurd (h (ch%'#') (by simp)) (by decide)
  | x :: y :: nm, r =>
    simp only [List.cons_append, entityRef]
    rw [if_neg]
    rintro rfl
    exact absurd (h (ch%'#') (by simp)) (by decide)

theorem ref_named (c : Cfg) (nm r : Bytes) (h : ∀ x ∈ nm, nameOrHigh x = true) :
    entityRef c (nm ++ ch%';' :: r) = meaning c (Piece.named nm).src ((Piece.named nm).val c.ent) r := by
  rw [entityRef_cons c nm _ r h (fun _ => by decide)]
  unfold nameRef
  rw [readName_append nm r _ h (by decide)]
  dsimp only
  rw [if_neg (by simp)]
  simp only [Piece.val, Piece.src]
  cases hn : isName nm with
  | false => simp only [Bool.false_eq_true, if_false]; rfl
  | true =>
    simp only [if_true]
    rw [← entity_std]
    cases entity nm with
    | some x => rfl
    | none =>
      simp only [Option.map_none, Option.none_or]
      cases c.ent nm with
      | some t => rfl
      | none => rfl

theorem ref_cut (c : Cfg) (nm : Bytes) (b : UInt8) (r : Bytes) (h : ∀ x ∈ nm, nameOrHigh x = true) (hb : nameOrHigh b = false)
    (hs : b ≠ ch%';') (hh : nm = [] → b ≠ ch%'#') :
    entityRef c (nm ++ b :: r) = meaning c (ch%'&' :: nm) none (b :: r) := by
  rw [entityRef_cons c nm b r h hh]
  unfold nameRef
  rw [readName_append nm r _ h hb]
  dsimp only
  rw [if_pos hs]
  rfl

theorem ref_num (c : Cfg) (hex : Bool) (ds r : Bytes) (h : ∀ x ∈ ds, isRefDigit hex x = true) :
    entityRef c ((if hex then b!"#x" else b!"#") ++ ds ++ ch%';' :: r) = meaning c (Piece.num hex ds).src ((Piece.num hex ds).val c.ent) r := by
  obtain ⟨h1, h2⟩ := Grammar.dropWhile_append_stop (isRefDigit hex) ds (ch%';') r h (by cases hex <;> decide)
  have key : ∀ pre, pre = (if hex then b!"&#x" else b!"&#") → numRef c hex pre (ds ++ ch%';' :: r) =
      meaning c (Piece.num hex ds).src ((Piece.num hex ds).val c.ent) r := by
    intro pre hp
    unfold numRef
    simp only [h1, h2]
    rw [if_neg (by simp)]
    simp only [Piece.val, Piece.src]
    split
    · rfl
    · rw [hp]; rfl
  cases hex with
  | true =>
    simp only [if_true, List.cons_append, List.nil_append]
    unfold entityRef
    dsimp only
    rw [if_pos rfl, if_pos rfl]
    exact key _ rfl
  | false =>
    simp only [Bool.false_eq_true, if_false, List.cons_append, List.nil_append]
    cases ds with
    | nil =>
      simp only [List.nil_append]
      unfold entityRef
      dsimp only
      rw [if_pos rfl, if_neg (by decide)]
      exact key _ rfl
    | cons d ds =>
      simp only [List.cons_append]
      unfold entityRef
      dsimp only
      rw [if_pos rfl, if_neg]
      · exact key _ rfl
      · rintro rfl
        exact absurd (h (ch%'x') (by simp)) (by decide)

/-- What the text loop makes of a piece `s` with the meaning `v`: its meaning, or in strict mode an error, or the piece as it stands. -/
def meant (c : Cfg) (s : Bytes) (v : Option Bytes) : Option Bytes :=
  match v with
  | some v => some v
  | none => if c.strict then none else some s

/-- What the text loop makes of a piece. -/
def Piece.out (c : Cfg) (p : Piece) : Option Bytes := meant c p.src (p.val c.ent)

theorem loop_plain (c : Cfg) {q : Option UInt8} {b : UInt8} (h : Ordinary q b) (n : Nat) (b0 b1 : UInt8) (hb1 : b1 ≠ ch%'\r') (buf r : Bytes) :
    textLoop c (n + 1) q false b0 b1 buf (b :: r) = textLoop c n q false b1 b (buf ++ [b]) r := by
  obtain ⟨h1, h2, h3, h4, h5⟩ := h
  rw [textLoop]
  rw [if_neg (by simp [h2]), if_neg (by simp [h1]), if_neg (by simp [h2]), if_neg h5, if_neg (by simp [h3])]
  simp [putByte, h4, hb1]

theorem loop_ref (c : Cfg) {q : Option UInt8} (hq : q ≠ some ch%'&') (n : Nat) (b0 b1 : UInt8) (buf r : Bytes) :
    textLoop c (n + 1) q false b0 b1 buf (ch%'&' :: r) =
      match entityRef c r with
      | .error e => .error e
      | .ok (t, r') => textLoop c n q false 0 0 (buf ++ t) r' := by
  rw [textLoop]
  rw [if_neg (by simp), if_neg (by simp), if_neg (by simp), if_neg hq, if_pos (by simp)]
  rfl

theorem loop_piece (c : Cfg) {q : Option UInt8} (hq : q ≠ some ch%'&') {p : Piece} (h : p.Ok q) (n : Nat) (hn : p.src.length ≤ n) (b0 b1 : UInt8)
    (hb1 : b1 ≠ ch%'\r') (buf r : Bytes) :
    (p.out c = none → textLoop c n q false b0 b1 buf (p.src ++ r) = .error badEntity) ∧
    ∀ v, p.out c = some v → ∃ m x y, n ≤ m + p.src.length ∧ y ≠ ch%'\r' ∧
      textLoop c n q false b0 b1 buf (p.src ++ r) = textLoop c m q false x y (buf ++ v) r := by
  have refs : ∀ s v, (∀ r, entityRef c (s ++ r) = meaning c (ch%'&' :: s) v r) → n ≥ s.length + 1 →
      (meant c (ch%'&' :: s) v = none →
        textLoop c n q false b0 b1 buf (ch%'&' :: (s ++ r)) = .error badEntity) ∧
      ∀ w, meant c (ch%'&' :: s) v = some w →
        ∃ m x y, n ≤ m + (s.length + 1) ∧ y ≠ ch%'\r' ∧
          textLoop c n q false b0 b1 buf (ch%'&' :: (s ++ r)) = textLoop c m q false x y (buf ++ w) r := by
    intro s v hs hn
    obtain ⟨n, rfl⟩ : ∃ k, n = k + 1 := ⟨n - 1, by omega⟩
    rw [loop_ref c hq, hs]
    unfold meaning meant
    cases v with
    | some v =>
      refine ⟨nofun, fun w hw => ?_⟩
      cases hw
      exact ⟨n, 0, 0, by omega, by decide, rfl⟩
    | none =>
      dsimp only
      cases hc : c.strict with
      | true => exact ⟨fun _ => rfl, nofun⟩
      | false =>
        refine ⟨nofun, fun w hw => ?_⟩
        cases hw
        exact ⟨n, 0, 0, by omega, by decide, rfl⟩
  cases p with
  | plain b =>
    obtain ⟨n, rfl⟩ : ∃ k, n = k + 1 := ⟨n - 1, by simp [Piece.src] at hn; omega⟩
    refine ⟨nofun, fun v hv => ?_⟩
    cases hv
    refine ⟨n, b1, b, by simp [Piece.src], h.2.2.2.1, ?_⟩
    exact loop_plain c h n b0 b1 hb1 buf r
  | named nm =>
    have hh : nm ++ [ch%';'] ++ r = nm ++ ch%';' :: r := by simp
    have := refs (nm ++ [ch%';']) ((Piece.named nm).val c.ent) (fun r => by
      rw [show nm ++ [ch%';'] ++ r = nm ++ ch%';' :: r by simp, ref_named c nm r h]; rfl) (by simpa [Piece.src] using hn)
    refine ⟨this.1, fun v hv => ?_⟩
    obtain ⟨m, x, y, k1, k2, k3⟩ := this.2 v hv
    exact ⟨m, x, y, by simpa [Piece.src] using k1, k2, k3⟩
  | num hex ds =>
    have e : (Piece.num hex ds).src = ch%'&' :: ((if hex then b!"#x" else b!"#") ++ ds ++ [ch%';']) := by cases hex <;> rfl
    have := refs ((if hex then b!"#x" else b!"#") ++ ds ++ [ch%';']) ((Piece.num hex ds).val c.ent) (fun r => by
      rw [← e, ← ref_num c hex ds r h]; simp) (by rw [e] at hn; simpa using hn)
    unfold Piece.out
    rw [e]
    refine ⟨this.1, fun v hv => ?_⟩
    obtain ⟨m, x, y, k1, k2, k3⟩ := this.2 v hv
    exact ⟨m, x, y, by simpa using k1, k2, k3⟩
  | cut nm b =>
    obtain ⟨h1, h2, h3, h4, h5⟩ := h
    obtain ⟨n, rfl⟩ : ∃ k, n = k + 2 := ⟨n - 2, by simp [Piece.src] at hn; omega⟩
    have e : (Piece.cut nm b).src ++ r = ch%'&' :: (nm ++ b :: r) := by simp [Piece.src]
    rw [e, loop_ref c hq, ref_cut c nm b r h1 h3 h4 h5]
    unfold meaning Piece.out Piece.val meant
    dsimp only
    cases hc : c.strict with
    | true => exact ⟨fun _ => rfl, nofun⟩
    | false =>
      refine ⟨nofun, fun w hw => ?_⟩
      cases hw
      refine ⟨n, 0, b, by simp [Piece.src], h2.2.2.2.1, ?_⟩
      simp only [Bool.false_eq_true, if_false]
      rw [loop_plain c h2 n 0 0 (by decide)]
      simp [Piece.src]

/-- The end of a text: a tag, or the closing quote. -/
def stop : Option UInt8 → Bytes → Bytes
  | none, r => ch%'<' :: r
  | some q, r => q :: r

/-- What is left after a text: the tag stays, the quote does not. -/
def left : Option UInt8 → Bytes → Bytes
  | none, r => ch%'<' :: r
  | some _, r => r

theorem loop_stop (c : Cfg) (q : Option UInt8) (hq : q ≠ some ch%'<') (n : Nat) (b0 b1 : UInt8) (buf r : Bytes) :
    textLoop c (n + 1) q false b0 b1 buf (stop q r) = .ok (buf, left q r) := by
  cases q with
  | none =>
    unfold stop
    rw [textLoop]
    rw [if_neg (by simp), if_pos (by simp), if_neg (by simp)]
    rfl
  | some x =>
    have hx : x ≠ ch%'<' := by rintro rfl; exact hq rfl
    unfold stop
    rw [textLoop]
    rw [if_neg (by simp), if_neg (by simp [hx]), if_neg (by simp), if_pos rfl]
    rfl

theorem loop_pieces (c : Cfg) {q : Option UInt8} (hq : q ≠ some ch%'&') (hq' : q ≠ some ch%'<') (ps : List Piece) (h : ∀ p ∈ ps, p.Ok q) (n : Nat)
    (hn : (ps.flatMap Piece.src).length < n) (b0 b1 : UInt8) (hb1 : b1 ≠ ch%'\r') (buf r : Bytes) :
    ((∃ p ∈ ps, p.out c = none) → textLoop c n q false b0 b1 buf (ps.flatMap Piece.src ++ stop q r) = .error badEntity) ∧
    ((∀ p ∈ ps, p.out c ≠ none) → textLoop c n q false b0 b1 buf (ps.flatMap Piece.src ++ stop q r) =
      .ok (buf ++ ps.flatMap fun p => (p.out c).getD [], left q r)) := by
  induction ps generalizing n b0 b1 buf with
  | nil =>
    refine ⟨by rintro ⟨p, hp, _⟩; simp at hp, fun _ => ?_⟩
    obtain ⟨n, rfl⟩ : ∃ k, n = k + 1 := ⟨n - 1, by simp at hn; omega⟩
    simpa using loop_stop c q hq' n b0 b1 buf r
  | cons p ps ih =>
    simp only [List.flatMap_cons, List.length_append, List.append_assoc] at hn ⊢
    obtain ⟨h1, h2⟩ := loop_piece c hq (h p (by simp)) n (by omega) b0 b1 hb1 buf (ps.flatMap Piece.src ++ stop q r)
    cases ho : p.out c with
    | none =>
      refine ⟨fun _ => h1 ho, fun hx => absurd ho (hx p (by simp))⟩
    | some v =>
      obtain ⟨m, x, y, k1, k2, k3⟩ := h2 v ho
      obtain ⟨i1, i2⟩ := ih (fun p hp => h p (by simp [hp])) m (by omega) x y k2 (buf ++ v)
      rw [k3]
      refine ⟨?_, fun hx => ?_⟩
      · rintro ⟨p', hp, hx⟩
        simp only [List.mem_cons] at hp
        rcases hp with rfl | hp
        · rw [ho] at hx; cases hx
        · exact i1 ⟨p', hp, hx⟩
      · rw [i2 fun p hp => hx p (by simp [hp])]
        simp

/-! ### Properties: references -/

/-- C79, references: in a text or a quoted value, a reference is replaced by what it means (a standard name, a name of the `Entity` map, the number of
a character), whatever the settings; in a decoder that is not strict, a reference that means nothing stays as it is, and in both modes nothing else
is changed. -/
theorem C79_references (c : Cfg) {q : Option UInt8} (hq : q = none ∨ q = some ch%'"' ∨ q = some ch%'\'') (ps : List Piece) (h : ∀ p ∈ ps, p.Ok q)
    (hm : c.strict = false ∨ ∀ p ∈ ps, p.val c.ent ≠ none) (r : Bytes)
    (hl : checkChars (runes (ps.flatMap fun p => (p.val c.ent).getD p.src)) = none) :
    text c q false (ps.flatMap Piece.src ++ stop q r) = .ok (ps.flatMap fun p => (p.val c.ent).getD p.src, left q r) := by
  have hq1 : q ≠ some ch%'&' := by rcases hq with rfl | rfl | rfl <;> decide
  have hq2 : q ≠ some ch%'<' := by rcases hq with rfl | rfl | rfl <;> decide
  have ho : ∀ p ∈ ps, p.out c = some ((p.val c.ent).getD p.src) := by
    intro p hp
    unfold Piece.out meant
    cases hv : p.val c.ent with
    | some v => rfl
    | none =>
      rcases hm with hm | hm
      · simp [hm]
      · exact absurd hv (hm p hp)
  have := (loop_pieces c hq1 hq2 ps h ((ps.flatMap Piece.src ++ stop q r).length + 1) (by simp; omega) 0 0 (by decide) [] r).2
    (fun p hp => by rw [ho p hp]; simp)
  unfold text
  rw [this]
  have e : (ps.flatMap fun p => (p.out c).getD []) = ps.flatMap fun p => (p.val c.ent).getD p.src := by
    clear this hl
    induction ps with
    | nil => rfl
    | cons p ps ih =>
      simp only [List.flatMap_cons]
      rw [ho p (by simp), ih (fun p hp => h p (by simp [hp])) (by
        rcases hm with hm | hm
        · exact .inl hm
        · exact .inr fun p hp => hm p (by simp [hp])) (fun p hp => ho p (by simp [hp]))]
      rfl
  rw [List.nil_append, e]
  dsimp only
  rw [hl]

/-- C79, references in strict mode: one that means nothing is an error. -/
theorem C79_unknown (c : Cfg) (hc : c.strict = true) {q : Option UInt8} (hq : q = none ∨ q = some ch%'"' ∨ q = some ch%'\'') (ps : List Piece)
    (h : ∀ p ∈ ps, p.Ok q) (hm : ∃ p ∈ ps, p.val c.ent = none) (r : Bytes) :
    text c q false (ps.flatMap Piece.src ++ stop q r) = .error badEntity := by
  have hq1 : q ≠ some ch%'&' := by rcases hq with rfl | rfl | rfl <;> decide
  have hq2 : q ≠ some ch%'<' := by rcases hq with rfl | rfl | rfl <;> decide
  obtain ⟨p, hp, hv⟩ := hm
  unfold text
  rw [(loop_pieces c hq1 hq2 ps h _ (by simp; omega) 0 0 (by decide) [] r).1 ⟨p, hp, by unfold Piece.out; rw [hv]; simp [meant, hc]⟩]

/-! ### Attributes -/

/-- What a value without quotes can be made of, in HTML 4. -/
def valChars : Bytes := b!"abcdefghijklmnopqrstuvwxyzABCDEFGHIJKLMNOPQRSTUVWXYZ0123456789_:-"

theorem isValByte_iff (b : UInt8) : isValByte b = true ↔ b ∈ valChars := by
  have h : ∀ n : Fin 256, isValByte (UInt8.ofNat n.val) = decide (UInt8.ofNat n.val ∈ valChars) := by decide +kernel
  have := h ⟨b.toNat, b.toNat_lt⟩
  simp only [UInt8.ofNat_toNat] at this
  rw [this, decide_eq_true_iff]

/-- C79, a value without quotes: the bytes up to the first one that cannot be in such a value, which is left. -/
theorem C79_unquoted (c : Cfg) (hc : c.strict = false) {q : Bytes} {n : Name} (hn : WrittenName q n) (v : Bytes) (hv : ∀ x ∈ v, x ∈ valChars)
    (b : UInt8) (hb : b ∉ valChars) (hs : v = [] → isSpace b = false ∧ b ≠ ch%'"' ∧ b ≠ ch%'\'') (r : Bytes) :
    readAttr c (q ++ ch%'=' :: (v ++ b :: r)) = .ok (⟨n, v⟩, b :: r) := by
  simp only [← isValByte_iff, Bool.not_eq_true] at hv hb
  have hval : ∀ x, isValByte x = true → isSpace x = false ∧ x ≠ ch%'"' ∧ x ≠ ch%'\'' := by
    intro x hx
    refine ⟨?_, ?_, ?_⟩
    · cases hsp : isSpace x with
      | false => rfl
      | true =>
        simp only [isSpace, Bool.or_eq_true, beq_iff_eq] at hsp
        rcases hsp with ((rfl | rfl) | rfl) | rfl <;> exact absurd hx (by decide)
    · rintro rfl; exact absurd hx (by decide)
    · rintro rfl; exact absurd hx (by decide)
  unfold readAttr
  rw [nsname_written hn _ _ (by decide)]
  dsimp only
  rw [skipSpace_cons _ _ (by decide)]
  dsimp only
  rw [if_neg (by simp)]
  obtain ⟨k1, k2⟩ := Grammar.dropWhile_append_stop isValByte v b r hv hb
  have : ∃ x t, v ++ b :: r = x :: t ∧ isSpace x = false ∧ x ≠ ch%'"' ∧ x ≠ ch%'\'' := by
    cases v with
    | nil => exact ⟨b, r, rfl, hs rfl⟩
    | cons x v => exact ⟨x, v ++ b :: r, rfl, hval x (hv x (by simp))⟩
  obtain ⟨x, t, e, e1, e2, e3⟩ := this
  rw [e] at k1 k2 ⊢
  rw [skipSpace_cons _ _ e1]
  unfold attrval
  dsimp only
  rw [if_neg (by simp [e2, e3]), if_neg (by simp [hc]), k1, k2]

theorem attr_bare (c : Cfg) (hc : c.strict = false) {q : Bytes} {n : Name} (hn : WrittenName q n) (b : UInt8) (hb : nameOrHigh b = false)
    (hs : isSpace b = false) (he : b ≠ ch%'=') (r : Bytes) : readAttr c (q ++ b :: r) = .ok (⟨n, n.loc⟩, r) := by
  unfold readAttr
  rw [nsname_written hn _ _ hb]
  dsimp only
  rw [skipSpace_cons _ _ hs]
  dsimp only
  rw [if_pos he, if_neg (by simp [hc])]

theorem loop_bare (c : Cfg) (hc : c.strict = false) {q : Bytes} {n : Name} (hn : WrittenName q n) (b : UInt8) (hb : nameOrHigh b = false)
    (hs : isSpace b = false) (he : b ≠ ch%'=') (k : Nat) (acc : List Attr) (r : Bytes) :
    attrLoop c (k + 1) acc (ch%' ' :: (q ++ b :: r)) = attrLoop c k (acc ++ [⟨n, n.loc⟩]) r := by
  obtain ⟨x, t, e, hx⟩ : ∃ x t, q = x :: t ∧ nameOrHigh x = true := by
    cases q with
    | nil => exact absurd hn.1 (by decide)
    | cons x t => exact ⟨x, t, rfl, isName_bytes hn.1 x (by simp)⟩
  have hsp : isSpace x = false := by
    cases hsp : isSpace x with
    | false => rfl
    | true =>
      simp only [isSpace, Bool.or_eq_true, beq_iff_eq] at hsp
      rcases hsp with ((rfl | rfl) | rfl) | rfl <;> exact absurd hx (by decide)
  have ha := attr_bare c hc hn b hb hs he r
  rw [e] at ha ⊢
  rw [attrLoop]
  rw [show skipSpace (ch%' ' :: (x :: t ++ b :: r)) = x :: (t ++ b :: r) from by
    rw [skipSpace, List.dropWhile_cons_of_pos (by decide)]
    exact skipSpace_cons _ _ hsp]
  dsimp only
  rw [if_neg (by rintro rfl; exact absurd hx (by decide)), if_neg (by rintro rfl; exact absurd hx (by decide))]
  rw [List.cons_append] at ha
  rw [ha]

theorem loop_close (c : Cfg) (k : Nat) (acc : List Attr) (r : Bytes) : attrLoop c (k + 1) acc (ch%'>' :: r) = .ok (acc, false, r, none) := by
  rw [attrLoop]
  rw [skipSpace_cons _ _ (by decide)]
  rfl

/-- C79, refuted: an attribute without a value takes the byte after it, so `<e a/>` is not an empty element: the start element is returned, but
no end is due, for every name `e` and `a` and everything after it. -/
theorem C79_bare_empty_refuted (c : Cfg) (hc : c.strict = false) {e a : Bytes} {n m : Name} (he : WrittenName e n) (ha : WrittenName a m) (r : Bytes) :
    startTag c (e ++ ch%' ' :: (a ++ ch%'/' :: (ch%'>' :: r))) = .ok (.startElement n [⟨m, m.loc⟩], ⟨r, none, none⟩) := by
  unfold startTag
  rw [nsname_written he _ _ (by decide)]
  dsimp only
  rw [show (ch%' ' :: (a ++ ch%'/' :: (ch%'>' :: r))).length + 1 = (a.length + r.length + 2) + 2 by simp; omega]
  rw [loop_bare c hc ha _ (by decide) (by decide) (by decide), loop_close]
  rfl

/-- C79, refuted: `<e a>` before another tag, as in `<e a></e>`, is an error, for every name `e` and `a` and everything after it: the `>` is taken as
the byte after the attribute name and the tag that follows is read as an attribute. -/
theorem C79_bare_tag_refuted (c : Cfg) (hc : c.strict = false) {e a : Bytes} {n m : Name} (he : WrittenName e n) (ha : WrittenName a m) (r : Bytes) :
    startTag c (e ++ ch%' ' :: (a ++ ch%'>' :: (ch%'<' :: r))) = .error (.syntaxError "expected attribute name in element") := by
  unfold startTag
  rw [nsname_written he _ _ (by decide)]
  dsimp only
  rw [show (ch%' ' :: (a ++ ch%'>' :: (ch%'<' :: r))).length + 1 = (a.length + r.length + 2) + 2 by simp; omega]
  rw [loop_bare c hc ha _ (by decide) (by decide) (by decide)]
  rw [attrLoop]
  rw [skipSpace_cons _ _ (by decide)]
  rfl

/-- What was to be expected: the attribute ends with its name, and the tag with its `>`. -/
def BareOk (c : Cfg) : Prop :=
  ∀ (e a : Bytes) (n m : Name) (r : Bytes), WrittenName e n → WrittenName a m →
    startTag c (e ++ ch%' ' :: (a ++ ch%'>' :: r)) = .ok (.startElement n [⟨m, m.loc⟩], ⟨r, none, none⟩)

theorem written_a : WrittenName (b!"a") ⟨[], b!"a"⟩ := ⟨by decide +kernel, by decide⟩

/-- C79, refuted: a decoder that is not strict does not read an element with an attribute that has no value. -/
theorem C79_bare_refuted (c : Cfg) (hc : c.strict = false) : ¬ BareOk c := by
  intro h
  have := h (b!"a") (b!"a") _ _ (ch%'<' :: []) written_a written_a
  rw [C79_bare_tag_refuted c hc written_a written_a] at this
  cases this

/-- C79, partial: what does work is an element at the very end of the input, which is what the tests of the package look at; `BareOk` is what is
missing. -/
theorem C79_bare_partial (c : Cfg) (hc : c.strict = false) {e a : Bytes} {n m : Name} (he : WrittenName e n) (ha : WrittenName a m) :
    startTag c (e ++ ch%' ' :: (a ++ [ch%'>'])) = .ok (.startElement n [⟨m, m.loc⟩], ⟨[], none, some unexpectedEOF⟩) := by
  unfold startTag
  rw [nsname_written he _ _ (by decide)]
  dsimp only
  rw [show (ch%' ' :: (a ++ [ch%'>'])).length + 1 = (a.length + 1) + 2 by simp]
  rw [loop_bare c hc ha _ (by decide) (by decide) (by decide)]
  rw [attrLoop]
  simp [skipSpace, hc]

/-- C79, refuted: the first byte of what follows an attribute without a value is lost, whatever it is. -/
theorem C79_bare_next_refuted (c : Cfg) (hc : c.strict = false) {a : Bytes} {m : Name} (ha : WrittenName a m) (sp : Bytes)
    (hsp : ∀ x ∈ sp, isSpace x = true) (x : UInt8) (hx : isSpace x = false) (he : x ≠ ch%'=') (r : Bytes) :
    readAttr c (a ++ ch%' ' :: (sp ++ x :: r)) = .ok (⟨m, m.loc⟩, r) := by
  unfold readAttr
  rw [nsname_written ha _ _ (by decide)]
  dsimp only
  have : skipSpace (ch%' ' :: (sp ++ x :: r)) = x :: r := by
    rw [skipSpace, List.dropWhile_cons_of_pos (by decide)]
    exact (Grammar.dropWhile_append_stop isSpace sp x r hsp hx).1
  rw [this]
  dsimp only
  rw [if_pos he, if_neg (by simp [hc])]

/-- C79, an input that ends inside a tag: without an attribute it is an error, after an attribute the start element is returned and the error comes
next. -/
theorem C79_cut (c : Cfg) {e : Bytes} {n : Name} (he : WrittenName e n) :
    startTag c (e ++ b!" ") = .error unexpectedEOF ∧
    ∀ (a v : Bytes) (m : Name), c.strict = false → WrittenName a m → v ≠ [] → (∀ x ∈ v, x ∈ valChars) →
      startTag c (e ++ ch%' ' :: (a ++ ch%'=' :: (v ++ b!" "))) = .ok (.startElement n [⟨m, v⟩], ⟨[], none, some unexpectedEOF⟩) := by
  constructor
  · unfold startTag
    rw [nsname_written he _ _ (by decide)]
    dsimp only
    rw [attrLoop]
    rfl
  · intro a v m hc ha hv hx
    unfold startTag
    rw [nsname_written he _ _ (by decide)]
    dsimp only
    obtain ⟨x, t, hq, hn⟩ : ∃ x t, a = x :: t ∧ nameOrHigh x = true := by
      cases a with
      | nil => exact absurd ha.1 (by decide)
      | cons x t => exact ⟨x, t, rfl, isName_bytes ha.1 x (by simp)⟩
    have hsp : isSpace x = false := by
      cases hsp : isSpace x with
      | false => rfl
      | true =>
        simp only [isSpace, Bool.or_eq_true, beq_iff_eq] at hsp
        rcases hsp with ((rfl | rfl) | rfl) | rfl <;> exact absurd hn (by decide)
    have := C79_unquoted c hc ha v hx (ch%' ') (by decide +kernel) (fun h => absurd h hv) []
    rw [attrLoop]
    rw [show skipSpace (ch%' ' :: (a ++ ch%'=' :: (v ++ b!" "))) = a ++ ch%'=' :: (v ++ b!" ") from by
      rw [hq, skipSpace, List.dropWhile_cons_of_pos (by decide)]
      exact skipSpace_cons _ _ hsp]
    rw [hq, List.cons_append] at this ⊢
    dsimp only
    rw [if_neg (by rintro rfl; exact absurd hn (by decide)), if_neg (by rintro rfl; exact absurd hn (by decide)), this]
    dsimp only
    rw [List.length_cons, attrLoop]
    simp [skipSpace, hc, isSpace]

/-! ### Nesting -/

theorem after_inp (c : Loose.Cfg) (s : Loose.L) (t : Token) (i : List (Token × Bool)) (f : XErr) :
    Loose.token.after c { s with inp := i, fin := f } t =
      match Loose.token.after c s t with
      | .error e => .error e
      | .ok (t', s') => .ok (t', { s' with inp := i, fin := f }) := by
  have hcook : ∀ (s : Loose.L) (t : Token), Loose.cook c { s with inp := i, fin := f } t =
      match Loose.cook c s t with
      | .error e => .error e
      | .ok (t', s') => .ok (t', { s' with inp := i, fin := f }) := by
    intro s t
    cases t with
    | startElement n as =>
      unfold Loose.cook
      dsimp only
      cases pushNs as s.ns s.stk with
      | error e => rfl
      | ok p => rfl
    | endElement n =>
      unfold Loose.cook Loose.popElement
      dsimp only
      cases hs : s.stk with
      | nil => rfl
      | cons x stk =>
        cases x with
        | ns k v => rfl
        | start m =>
          dsimp only
          by_cases h1 : m.loc ≠ n.loc
          · rw [if_pos h1, if_pos h1]
            cases c.strict <;> rfl
          · rw [if_neg h1, if_neg h1]
            by_cases h2 : m.space ≠ n.space
            · rw [if_pos h2, if_pos h2]
            · rw [if_neg h2, if_neg h2]
    | _ => rfl
  unfold Loose.token.after
  cases hs : c.strict with
  | true => exact hcook s t
  | false =>
    simp only [Bool.false_eq_true, if_false]
    cases ha : Loose.autoClose c s.stk t with
    | none => exact hcook s t
    | some m => exact hcook { s with next := some t } (.endElement m)

/-- A decoder on bytes seen as one on tokens, with the tokens `i` still to come. -/
def D.seen (d : D) (i : List (Token × Bool)) : Loose.L := ⟨d.stk, d.ns, i, .eof, d.next, d.raw.toClose⟩

theorem finish_seen {c : Cfg} {d d' : D} {t t' : Token} (h : finish c d t = .ok (t', d')) (i : List (Token × Bool)) :
    Loose.token.after c.toCfg (d.seen i) t = .ok (t', d'.seen i) := by
  have := after_inp c.toCfg d.view t i .eof
  rw [show ({ d.view with inp := i, fin := .eof } : Loose.L) = d.seen i from rfl] at this
  rw [this]
  unfold finish at h
  cases ha : Loose.token.after c.toCfg d.view t with
  | error e => rw [ha] at h; cases h
  | ok p =>
    rw [ha] at h
    cases h
    rfl

theorem rawToken_seen {c : Cfg} {s s' : LRaw} {t : Token} (h : rawToken c s = .ok (t, s')) :
    (∃ n, s.toClose = some n ∧ t = .endElement n ∧ s'.toClose = none) ∨
    (s.toClose = none ∧ ((∃ n as, t = .startElement n as ∧ s'.toClose = some n) ∨ s'.toClose = none)) := by
  unfold rawToken at h
  split at h
  · cases h
  · cases ht : s.toClose with
    | some n =>
      rw [ht] at h
      cases h
      exact .inl ⟨n, rfl, rfl, rfl⟩
    | none =>
      refine .inr ⟨rfl, ?_⟩
      rw [ht] at h
      dsimp only at h
      have hlift : ∀ x : Except XErr (Token × Raw), (∀ t r, x = .ok (t, r) → r.toClose = none) → lift x = .ok (t, s') → s'.toClose = none := by
        intro x hx h
        cases x with
        | error e => cases h
        | ok p =>
          cases h
          exact hx _ _ rfl
      split at h
      · cases h
      · split at h
        · split at h
          · cases h
          · cases h
            exact .inr rfl
        · split at h
          · cases h
          · split at h
            · refine .inr (hlift _ ?_ h)
              intro t r he
              unfold endTag at he
              split at he
              · cases he
              · cases he
              · split at he
                · cases he
                · split at he
                  · cases he
                  · cases he; rfl
            · split at h
              · refine .inr (hlift _ ?_ h)
                intro t r he
                unfold piTag at he
                split at he
                · cases he
                · cases he
                · split at he
                  · cases he
                  · split at he
                    · cases he
                    · cases he; rfl
              · split at h
                · unfold bangTag at h
                  split at h
                  · cases h
                  · split at h
                    · split at h
                      · cases h
                      · split at h
                        · cases h
                        · cases h
                          exact .inr rfl
                    · rename_i b r hb
                      refine .inr (hlift _ ?_ h)
                      intro t r he
                      unfold Xml.bangTag at he
                      dsimp only at he
                      rw [if_neg hb] at he
                      split at he
                      · split at he
                        · cases he
                        · split at he
                          · cases he
                          · split at he
                            · cases he
                            · cases he; rfl
                      · split at he
                        · cases he
                        · cases he; rfl
                · unfold startTag at h
                  split at h
                  · cases h
                  · cases h
                  · split at h
                    · cases h
                    · rename_i n r0 hn _ attrs empty r' e he
                      cases h
                      cases empty with
                      | true => exact .inl ⟨n, attrs, rfl, rfl⟩
                      | false => exact .inr rfl

theorem token_seen {c : Cfg} {d d' : D} {t : Token} (h : token c d = .ok (t, d')) :
    ∃ l, ∀ i, Loose.token c.toCfg (d.seen (l ++ i)) = .ok (t, d'.seen i) := by
  unfold token at h
  cases hn : d.next with
  | some u =>
    rw [hn] at h
    refine ⟨[], fun i => ?_⟩
    unfold Loose.token
    rw [show (d.seen ([] ++ i)).next = some u from hn]
    exact finish_seen h i
  | none =>
    rw [hn] at h
    dsimp only at h
    cases hr : rawToken c d.raw with
    | error e => rw [hr] at h; cases h
    | ok p =>
      obtain ⟨u, raw'⟩ := p
      rw [hr] at h
      dsimp only at h
      have key : ∀ l, (∀ i, Loose.raw (d.seen (l ++ i)) = .ok (u, D.seen ⟨raw', d.ns, d.stk, none⟩ i)) →
          ∃ l, ∀ i, Loose.token c.toCfg (d.seen (l ++ i)) = .ok (t, d'.seen i) := by
        intro l hl
        refine ⟨l, fun i => ?_⟩
        unfold Loose.token
        rw [show (d.seen (l ++ i)).next = none from hn]
        dsimp only
        rw [hl i]
        dsimp only
        exact finish_seen h i
      rcases rawToken_seen hr with ⟨n, h1, rfl, h3⟩ | ⟨h1, ⟨n, as, rfl, h3⟩ | h3⟩
      · refine key [] fun i => ?_
        unfold Loose.raw D.seen
        dsimp only
        rw [h1, h3, hn]
        rfl
      · refine key [(.startElement n as, true)] fun i => ?_
        unfold Loose.raw D.seen
        dsimp only
        rw [h1, h3, hn]
        rfl
      · refine key [(u, false)] fun i => ?_
        unfold Loose.raw D.seen
        dsimp only
        rw [h1, h3, hn]
        cases u <;> rfl

theorem run_seen (c : Cfg) (n : Nat) (d : D) : ∃ i s, Loose.Run c.toCfg (d.seen i) (run c n d).1 s := by
  induction n generalizing d with
  | zero => exact ⟨[], _, .nil _⟩
  | succ n ih =>
    unfold run
    cases ht : token c d with
    | error e => exact ⟨[], _, .nil _⟩
    | ok p =>
      obtain ⟨t, d'⟩ := p
      obtain ⟨i, s, hr⟩ := ih d'
      obtain ⟨l, hl⟩ := token_seen ht
      exact ⟨l ++ i, s, .cons (hl i) hr⟩

/-- C79, proper nesting on any bytes: whatever the settings and whatever the input, every end element that `Token` returns has the local name of the
innermost element that is open. -/
theorem C79_nested (c : Cfg) (n : Nat) (s : Bytes) : ∃ op, Loose.nest [] ((run c n (D.new s)).1.map Loose.sk) = some op := by
  obtain ⟨i, l, h⟩ := run_seen c n (D.new s)
  exact (Loose.C75_balanced (inp := i) (fin := .eof) h).1

/-! ### Examples -/

/-- A decoder as for HTML, with one entity. -/
def html : Cfg := ⟨⟨false, [b!"br"], fun a b => a == b⟩, fun n => if n = b!"nbsp" then some [0xC2, 0xA0] else none⟩

example : run html 9 (D.new b!"<p>a<br></br>&lt;</p>") =
    ([.startElement ⟨[], b!"p"⟩ [], .charData b!"a", .startElement ⟨[], b!"br"⟩ [], .endElement ⟨[], b!"br"⟩, .charData b!"<",
      .endElement ⟨[], b!"p"⟩], some .eof) := by decide +kernel

/-- `C79_strict` applied to a document. -/
example : run html 9 (D.new b!"<p>a<br></br>&lt;</p>") =
    ([.startElement ⟨[], b!"p"⟩ [], .charData b!"a", .startElement ⟨[], b!"br"⟩ [], .endElement ⟨[], b!"br"⟩, .charData b!"<",
      .endElement ⟨[], b!"p"⟩], some .eof) :=
  C79_strict (fun x => by simp [html]) 9 _ (by decide +kernel) (.inr rfl)
    ⟨fun h => absurd h (by decide), fun _ => ⟨_, _, rfl⟩, trivial⟩

/-- Without the end tag, the element is closed before what follows. -/
example : run html 9 (D.new b!"<p>a<br>b</p>") =
    ([.startElement ⟨[], b!"p"⟩ [], .charData b!"a", .startElement ⟨[], b!"br"⟩ [], .endElement ⟨[], b!"br"⟩, .charData b!"b",
      .endElement ⟨[], b!"p"⟩], some .eof) := by decide +kernel

/-- `x&nbsp;&foo;&bar y&#65;&#;` -/
def pieces : List Piece := [.plain (ch%'x'), .named b!"nbsp", .named b!"foo", .cut b!"bar" (ch%' '), .plain (ch%'y'), .num false b!"65", .num false []]

example : text html none false (b!"x&nbsp;&foo;&bar y&#65;&#;</p>") = .ok (b!"x" ++ [0xC2, 0xA0] ++ b!"&foo;&bar yA&#;", b!"</p>") :=
  C79_references html (.inl rfl) pieces (by
    intro p hp
    simp only [pieces, List.mem_cons, List.not_mem_nil, or_false] at hp
    rcases hp with rfl | rfl | rfl | rfl | rfl | rfl | rfl <;> simp only [Piece.Ok, Ordinary] <;> decide) (.inl rfl) b!"/p>"
    (by decide +kernel)

example : text { html with strict := true } none false (b!"x&nbsp;&foo;</p>") = .error badEntity :=
  C79_unknown { html with strict := true } rfl (.inl rfl) [.plain (ch%'x'), .named b!"nbsp", .named b!"foo"] (by
    intro p hp
    simp only [List.mem_cons, List.not_mem_nil, or_false] at hp
    rcases hp with rfl | rfl | rfl <;> simp only [Piece.Ok, Ordinary] <;> decide)
    ⟨.named b!"foo", by simp, by decide +kernel⟩ b!"/p>"

example : run html 9 (D.new b!"<a b=c d='e'>x</a>") =
    ([.startElement ⟨[], b!"a"⟩ [⟨⟨[], b!"b"⟩, b!"c"⟩, ⟨⟨[], b!"d"⟩, b!"e"⟩], .charData b!"x", .endElement ⟨[], b!"a"⟩], some .eof) := by
  decide +kernel

/-- The case of the tests of the package: the input ends with the tag. -/
example : run html 9 (D.new b!"<p nowrap>") =
    ([.startElement ⟨[], b!"p"⟩ [⟨⟨[], b!"nowrap"⟩, b!"nowrap"⟩]], some unexpectedEOF) := by decide +kernel

/-- The same with content: an error. -/
example : run html 9 (D.new b!"<p nowrap></p>") = ([], some (.syntaxError "expected attribute name in element")) := by decide +kernel

/-- The text of an element is read as an attribute, without an error. -/
example : run html 9 (D.new b!"<p nowrap>x y></p>") =
    ([.startElement ⟨[], b!"p"⟩ [⟨⟨[], b!"nowrap"⟩, b!"nowrap"⟩, ⟨⟨[], b!"x"⟩, b!"x"⟩], .endElement ⟨[], b!"p"⟩], some .eof) := by
  decide +kernel

/-- The first byte of the next attribute is lost. -/
example : run html 1 (D.new b!"<a b href='u'>") = ([.startElement ⟨[], b!"a"⟩ [⟨⟨[], b!"b"⟩, b!"b"⟩, ⟨⟨[], b!"ref"⟩, b!"u"⟩]], none) := by
  decide +kernel

/-- An empty element is not closed. -/
example : run html 9 (D.new b!"<i><input x/></i>") =
    ([.startElement ⟨[], b!"i"⟩ [], .startElement ⟨[], b!"input"⟩ [⟨⟨[], b!"x"⟩, b!"x"⟩], .endElement ⟨[], b!"input"⟩, .endElement ⟨[], b!"i"⟩],
      some .eof) := by decide +kernel

end Verif.Lenient

import Verif.Build
import Verif.Layout
import Verif.Misc

/-!
C60: the exact text that is written for a manifest made with the constructors.
-/
namespace Verif.Written

open Verif Verif.Xml Verif.Bind Verif.Utf8

/-! ### Specification: the text -/

/-- A byte of an attribute value. -/
def attrByte (b : UInt8) : Bytes :=
  if b = ch%'"' then b!"&#34;" else if b = ch%'\'' then b!"&#39;" else if b = ch%'&' then b!"&amp;"
  else if b = ch%'<' then b!"&lt;" else if b = ch%'>' then b!"&gt;" else if b = ch%'\t' then b!"&#x9;"
  else if b = ch%'\n' then b!"&#xA;" else if b = ch%'\r' then b!"&#xD;" else [b]

/-- A byte of character data: tabs and newlines stay. -/
def textByte (b : UInt8) : Bytes := if b = ch%'\t' ∨ b = ch%'\n' then [b] else attrByte b

/-- ` name="value"`; what XML cannot carry is replaced by U+FFFD. -/
def att (n v : Bytes) : Bytes := b!" " ++ n ++ b!"=\"" ++ (clean v).flatMap attrByte ++ b!"\""

/-- The same, left out for an empty value. -/
def opt (n v : Bytes) : Bytes := if v = [] then [] else att n v

/-- ` name="number"`. -/
def num (n : Bytes) (k : Nat) : Bytes := b!" " ++ n ++ b!"=\"" ++ Strconv.formatUint k ++ b!"\""

/-- The same, left out for zero. -/
def optNum (n : Bytes) (k : Nat) : Bytes := if k = 0 then [] else num n k

/-- A duration; left out if there is none. -/
def optDur (n : Bytes) : Option Int → Bytes
  | none => []
  | some d => b!" " ++ n ++ b!"=\"" ++ (Duration.goString d).getD [] ++ b!"\""

/-- What a representation is made from. -/
inductive RepKind where
  | plain
  | audio (rate : Int)
  | video (frameRate : Bytes) (width height : Int)

/-- A representation: the arguments of its constructor, its base URLs, and the arguments of `SetSegmentBase` if it is called. -/
structure RepD where
  id : Bytes
  codec : Bytes
  mimeType : Bytes
  bandwidth : Int
  kind : RepKind
  baseURLs : List Bytes
  seg : Option (Nat × Nat × Bool)

/-- An adaptation set. -/
structure SetD where
  contentType : Bytes
  mimeType : Bytes
  segmentAlignment : Bool
  startWithSAP : Nat
  roles : List Bytes
  reps : List RepD

/-- A period. -/
structure PeriodD where
  id : Bytes
  start : Option Int
  dur : Option Int
  sets : List SetD

/-- A manifest. -/
structure MpdD where
  typ : Bytes
  profiles : Bytes
  dur : Option Int
  minBuffer : Option Int
  baseURLs : List Bytes
  periods : List PeriodD

def baseText (u : Bytes) : Bytes := b!"<BaseURL>" ++ (clean u).flatMap textByte ++ b!"</BaseURL>"

def roleText (v : Bytes) : Bytes := b!"<Role schemeIdUri=\"urn:mpeg:dash:role:2011\"" ++ opt (b!"value") v ++ b!"></Role>"

/-- Byte ranges; sizes are uint32 and wrap around. -/
def segText : Option (Nat × Nat × Bool) → Bytes
  | none => []
  | some (i, x, e) =>
    b!"<SegmentBase indexRange=\"" ++ Strconv.formatUint i ++ b!"-" ++ Strconv.formatUint ((i + x + (2 ^ 32 - 1)) % 2 ^ 32) ++
      b!"\"" ++ (if e then b!" indexRangeExact=\"true\"" else []) ++ b!"><Initialization range=\"0-" ++
      Strconv.formatUint ((i + (2 ^ 32 - 1)) % 2 ^ 32) ++ b!"\"></Initialization></SegmentBase>"

def repText (r : RepD) : Bytes :=
  b!"<Representation" ++ att (b!"id") r.id ++ num (b!"bandwidth") (r.bandwidth % 2 ^ 32).toNat ++
    (match r.kind with
      | .plain => []
      | .audio a => b!" audioSamplingRate=\"" ++ Strconv.formatInt a ++ b!"\""
      | .video f w h => optNum (b!"width") (w % 2 ^ 32).toNat ++ optNum (b!"height") (h % 2 ^ 32).toNat ++ opt (b!"frameRate") f) ++
    opt (b!"mimeType") r.mimeType ++ opt (b!"codecs") r.codec ++ b!">" ++ r.baseURLs.flatMap baseText ++ segText r.seg ++
    b!"</Representation>"

def setText (a : SetD) : Bytes :=
  b!"<AdaptationSet" ++ opt (b!"contentType") a.contentType ++ (if a.segmentAlignment then b!" segmentAlignment=\"true\"" else []) ++
    opt (b!"mimeType") a.mimeType ++ optNum (b!"startWithSAP") a.startWithSAP ++ b!">" ++ a.roles.flatMap roleText ++
    a.reps.flatMap repText ++ b!"</AdaptationSet>"

def periodText (p : PeriodD) : Bytes :=
  b!"<Period" ++ opt (b!"id") p.id ++ optDur (b!"start") p.start ++ optDur (b!"duration") p.dur ++ b!">" ++
    p.sets.flatMap setText ++ b!"</Period>"

def mpdText (m : MpdD) : Bytes :=
  b!"<MPD xmlns=\"urn:mpeg:dash:schema:mpd:2011\"" ++ att (b!"profiles") m.profiles ++ att (b!"type") m.typ ++
    optDur (b!"mediaPresentationDuration") m.dur ++ optDur (b!"minBufferTime") m.minBuffer ++ b!">" ++
    m.baseURLs.flatMap baseText ++ m.periods.flatMap periodText ++ b!"</MPD>"

/-! ### Model: the manifest -/

/-- `SetSegmentBase` (`/repo/mpd/mpd.go` 471-483). -/
def setSegmentBase (initSize sidxSize : Nat) (exact_ : Bool) (r : Val) : Val :=
  let b := tSegmentBaseType.sch
  let x := Misc.setSegmentBase initSize sidxSize exact_
  let v := assign b .attr (b!"indexRange") (.str x.indexRange) (assign b .elem (b!"Initialization")
    (.ptr (some (assign tURLType.sch .attr (b!"range") (.str (x.initRange.getD [])) tURLType.sch.zero))) b.zero)
  assign tRepresentationType.sch .elem (b!"SegmentBase")
    (.ptr (some (if exact_ then assign b .attr (b!"indexRangeExact") (.bool true) v else v))) r

/-- `x.F = append(x.F, &v)` for each of a list. -/
def pushAll (s : Sch) (loc : Bytes) (l : List Val) (w : Val) : Val := l.foldl (fun w v => push s loc v w) w

/-- A pointer to a duration, or nil. -/
def durPtr (d : Option Int) : Val := .ptr (d.map .int)

/-- The calls that make a representation. -/
def repVal (r : RepD) : Val :=
  let v := match r.kind with
    | .plain => newRepresentationWithID r.id r.codec r.mimeType r.bandwidth
    | .audio a => newAudioRepresentation r.id r.codec r.mimeType r.bandwidth a
    | .video f w h => newVideoRepresentation r.id r.codec r.mimeType f r.bandwidth w h
  let v := pushAll tRepresentationType.sch (b!"BaseURL") (r.baseURLs.map newBaseURL) v
  match r.seg with
  | none => v
  | some (i, x, e) => setSegmentBase i x e v

/-- The calls that make an adaptation set. -/
def setVal (a : SetD) : Val :=
  (a.reps.map repVal).foldl appendRepresentation (pushAll tAdaptationSetType.sch (b!"Role") (a.roles.map newRole)
    (newAdaptationSetWithParams a.contentType a.mimeType a.segmentAlignment a.startWithSAP))

/-- The calls that make a period. -/
def periodVal (p : PeriodD) : Val :=
  (p.sets.map setVal).foldl appendAdaptationSet (assign tPeriod.sch .attr (b!"id") (.str p.id)
    (assign tPeriod.sch .attr (b!"start") (durPtr p.start) (assign tPeriod.sch .attr (b!"duration") (durPtr p.dur) newPeriod)))

/-- The calls that make a manifest. -/
def mpdVal (m : MpdD) : Val :=
  (m.periods.map periodVal).foldl appendPeriod (pushAll tMPD.sch (b!"BaseURL") (m.baseURLs.map newBaseURL)
    (assign tMPD.sch .attr (b!"profiles") (.str m.profiles) (assign tMPD.sch .attr (b!"mediaPresentationDuration") (durPtr m.dur)
      (assign tMPD.sch .attr (b!"minBufferTime") (durPtr m.minBuffer) (newMPD m.typ)))))

/-! ### Escaping -/

theorem attrByte_high (b : UInt8) (h : 0x80 ≤ b.toNat) : attrByte b = [b] := by
  unfold attrByte
  have : ∀ c : UInt8, c.toNat < 0x80 → b ≠ c := fun c hc e => by subst e; omega
  rw [if_neg (this _ (by decide)), if_neg (this _ (by decide)), if_neg (this _ (by decide)), if_neg (this _ (by decide)),
    if_neg (this _ (by decide)), if_neg (this _ (by decide)), if_neg (this _ (by decide)), if_neg (this _ (by decide))]

theorem flat_high (f : UInt8 → Bytes) (hf : ∀ b : UInt8, 0x80 ≤ b.toNat → f b = [b]) (c : Bytes) (h : ∀ b ∈ c, 0x80 ≤ b.toNat) :
    c.flatMap f = c := by
  induction c with
  | nil => rfl
  | cons b c ih => rw [List.flatMap_cons, hf b (h b (by simp)), ih fun x hx => h x (by simp [hx])]; rfl

theorem textByte_high (b : UInt8) (h : 0x80 ≤ b.toNat) : textByte b = [b] := by
  unfold textByte; split
  · rfl
  · exact attrByte_high b h

/-- One rune: for ASCII all of them, the rest is not escaped. -/
theorem esc_rune (f : UInt8 → Bytes) (g : Nat × Bytes → Bytes) (hf : ∀ b : UInt8, 0x80 ≤ b.toNat → f b = [b])
    (hl : ∀ b : UInt8, b.toNat < 0x80 → g (b.toNat, [b]) = (cleanRune (b.toNat, [b])).flatMap f)
    (hg : ∀ p : Nat × Bytes, 0x80 ≤ p.1 → g p = escDefault p.1 p.2) (s : Bytes) (p : Nat × Bytes) (hp : p ∈ runes s) :
    g p = (cleanRune p).flatMap f := by
  by_cases h : p.1 < 0x80
  · obtain ⟨b, h1, h2⟩ := rune_ascii s p hp h
    have : p = (b.toNat, [b]) := Prod.ext h2.symm h1
    rw [this]
    exact hl b (by omega)
  · rw [hg p (by omega)]
    unfold escDefault cleanRune
    by_cases hc : IsXmlChar p.1 ∧ ¬ (p.1 = 0xFFFD ∧ p.2.length = 1)
    · rw [if_pos hc, if_neg]
      · rcases runes_mem s p hp with ⟨h1, c, h2, _⟩ | ⟨h1, h2⟩
        · exact absurd ⟨h1, by rw [h2]; rfl⟩ hc.2
        · exact (flat_high f hf _ (chunk_high h1 h2 (by omega))).symm
      · rintro (h1 | h1)
        · rw [(inCharRange_iff _).2 hc.1] at h1; cases h1
        · exact hc.2 h1
    · rw [if_neg hc, if_pos]
      · exact (flat_high f hf _ (by decide)).symm
      · by_cases h1 : IsXmlChar p.1
        · right
          by_contra h2
          exact hc ⟨h1, h2⟩
        · left
          cases h2 : inCharRange p.1
          · rfl
          · exact absurd ((inCharRange_iff _).1 h2) h1

/-- A statement on bytes, from its finite table. -/
theorem byte_table {P : UInt8 → Prop} (h : ∀ n : Fin 256, P (UInt8.ofNat n.val)) (b : UInt8) : P b := by
  have := h ⟨b.toNat, b.toNat_lt⟩
  simpa using this

theorem escapeString_eq (s : Bytes) : escapeString s = (clean s).flatMap attrByte := by
  unfold escapeString clean
  rw [List.flatMap_assoc]
  refine Xml.flatMap_congr _ _ _ fun p hp => esc_rune attrByte escStringRune attrByte_high ?_ ?_ s p hp
  · exact byte_table (by decide +kernel)
  · intro p h
    unfold escStringRune
    rw [if_neg (by omega), if_neg (by omega), if_neg (by omega), if_neg (by omega), if_neg (by omega), if_neg (by omega),
      if_neg (by omega), if_neg (by omega)]

theorem escapeText_eq (s : Bytes) : escapeText false s = (clean s).flatMap textByte := by
  unfold escapeText clean
  rw [List.flatMap_assoc]
  refine Xml.flatMap_congr _ _ _ fun p hp => esc_rune textByte (escTextRune false) textByte_high ?_ ?_ s p hp
  · exact byte_table (by decide +kernel)
  · intro p h
    unfold escTextRune
    rw [if_neg (by omega), if_neg (by omega), if_neg (by omega), if_neg (by omega), if_neg (by omega), if_neg (by omega),
      if_neg (by omega)]

/-- Digits, signs, letters, dots: nothing to escape. -/
theorem escapeString_self (s : Bytes) (h : ∀ b ∈ s, Graphic b ∧ attrByte b = [b]) : escapeString s = s := by
  rw [escapeString_eq, graphic_clean s fun b hb => (h b hb).1]
  induction s with
  | nil => rfl
  | cons b s ih => rw [List.flatMap_cons, (h b (by simp)).2, ih fun x hx => h x (by simp [hx])]; rfl

/-! ### Printing items without namespaces -/

/-- A name without a colon. -/
def Plain (n : Name) : Prop := n.space = [] ∧ n.loc ≠ [] ∧ ch%':' ∉ n.loc

instance (n : Name) : Decidable (Plain n) := by unfold Plain; infer_instance

mutual
/-- All names are plain. -/
def PlainItem : Item → Prop
  | .elem n as kids => Plain n ∧ (∀ a ∈ as, Plain a.name) ∧ PlainItems kids
  | _ => True
def PlainItems : List Item → Prop
  | [] => True
  | x :: l => PlainItem x ∧ PlainItems l
end

def attrText (a : Attr) : Bytes := b!" " ++ a.name.loc ++ b!"=\"" ++ escapeString a.value ++ b!"\""

mutual
/-- The text of an item. -/
def itemText : Item → Bytes
  | .elem n as kids => b!"<" ++ n.loc ++ as.flatMap attrText ++ b!">" ++ itemsText kids ++ b!"</" ++ n.loc ++ b!">"
  | .text b => escapeText false b
  | .str b => escapeString b
  | .raw b => b
def itemsText : List Item → Bytes
  | [] => []
  | x :: l => itemText x ++ itemsText l
end

theorem writeAttrs_plain (ns : Ns) : ∀ as : List Attr, (∀ a ∈ as, Plain a.name) →
    writeAttrs ns as = (ns, as.map fun a => ⟨a.name.loc, a.value⟩)
  | [], _ => rfl
  | a :: l, h => by
    obtain ⟨h1, h2, h3⟩ := h a (by simp)
    have e : writeAttr ns a = (ns, [⟨a.name.loc, a.value⟩]) := by
      unfold writeAttr
      rw [if_neg h2, splitPrefixed_colonless h3, h1]
      rfl
    simp only [writeAttrs, e, writeAttrs_plain ns l fun x hx => h x (by simp [hx])]
    rfl

mutual
theorem encItem_plain : ∀ (x : Item) (p : Printer), p.ind.pre = [] ∧ p.ind.indent = [] → PlainItem x →
    ∃ o, encItem p x = .ok (p, o) ∧ outBytes o = itemText x
  | .elem n as kids, p, hp, h => by
    obtain ⟨⟨h1, h2, h3⟩, ha, hk⟩ := h
    have hs : writeStart p n as = .ok (⟨⟨p.ns.seq, ⟨[], [], n.loc, [], []⟩ :: p.ns.els⟩, p.ind⟩,
        [.raw [], .start n.loc (as.map fun a => ⟨a.name.loc, a.value⟩)]) := by
      simp only [writeStart, nsStart, h2, if_false, newElement, splitPrefixed_colonless h3, h1, placeElement, if_true, nameTag,
        topPre, ne_eq, not_true_eq_false, writeAttrs_plain _ as ha, writeIndent_flat _ _ hp, List.nil_append]
    obtain ⟨o, ho1, ho2⟩ := encItems_plain kids ⟨⟨p.ns.seq, ⟨[], [], n.loc, [], []⟩ :: p.ns.els⟩, p.ind⟩ hp hk
    have he : writeEnd ⟨⟨p.ns.seq, ⟨[], [], n.loc, [], []⟩ :: p.ns.els⟩, p.ind⟩ n = .ok (p, [.raw [], .stop n.loc]) := by
      simp only [writeEnd, nsEnd, h2, if_false, splitPrefixed_colonless h3, ne_eq, not_true_eq_false, false_and, h1,
        joinPrefixed, if_true, writeIndent_flat _ _ hp]
    refine ⟨[.raw [], .start n.loc (as.map fun a => ⟨a.name.loc, a.value⟩)] ++ o ++ [.raw [], .stop n.loc], ?_, ?_⟩
    · simp only [encItem, hs, ho1, he]
    · simp only [outBytes] at ho2
      simp only [outBytes, List.flatMap_append, ho2, itemText, List.flatMap_cons, List.flatMap_nil, Out.bytes, List.nil_append,
        List.append_nil, List.flatMap_map]
      have : (fun a : Attr => attrBytes ⟨a.name.loc, a.value⟩) = attrText := by
        funext a
        simp [attrBytes, attrText]
      rw [this]
      simp
  | .text b, p, _, _ => ⟨[.text b], rfl, by simp [outBytes, Out.bytes, itemText]⟩
  | .str b, p, _, _ => ⟨[.str b], rfl, by simp [outBytes, Out.bytes, itemText]⟩
  | .raw b, p, _, _ => ⟨[.inner b], rfl, by simp [outBytes, Out.bytes, itemText]⟩
theorem encItems_plain : ∀ (l : List Item) (p : Printer), p.ind.pre = [] ∧ p.ind.indent = [] → PlainItems l →
    ∃ o, encItems p l = .ok (p, o) ∧ outBytes o = itemsText l
  | [], p, _, _ => ⟨[], rfl, rfl⟩
  | x :: l, p, hp, h => by
    obtain ⟨o1, h1, h2⟩ := encItem_plain x p hp h.1
    obtain ⟨o2, h3, h4⟩ := encItems_plain l p hp h.2
    refine ⟨o1 ++ o2, by simp only [encItems, h1, h3], ?_⟩
    simp only [outBytes, List.flatMap_append, itemsText] at h2 h4 ⊢
    rw [h2, h4]
end

theorem encode_plain (l : List Item) (h : PlainItems l) : encode [] [] l = .ok (itemsText l) := by
  obtain ⟨o, h1, h2⟩ := encItems_plain l (Printer.new [] []) ⟨rfl, rfl⟩ h
  unfold encode
  rw [h1]
  simp only [h2]

theorem plainItems_append (a b : List Item) : PlainItems (a ++ b) ↔ PlainItems a ∧ PlainItems b := by
  induction a with
  | nil => simp [PlainItems]
  | cons x a ih => simp [PlainItems, ih, and_assoc]

theorem itemsText_append (a b : List Item) : itemsText (a ++ b) = itemsText a ++ itemsText b := by
  induction a with
  | nil => rfl
  | cons x a ih => simp [itemsText, ih]

theorem itemsText_map {α : Type} (f : α → Item) (g : α → Bytes) (l : List α) (h : ∀ x ∈ l, itemText (f x) = g x) :
    itemsText (l.map f) = l.flatMap g := by
  induction l with
  | nil => rfl
  | cons x l ih => simp [itemsText, h x (by simp), ih fun y hy => h y (by simp [hy])]

theorem plainItems_map {α : Type} (f : α → Item) (l : List α) (h : ∀ x ∈ l, PlainItem (f x)) : PlainItems (l.map f) := by
  induction l with
  | nil => trivial
  | cons x l ih => exact ⟨h x (by simp), ih fun y hy => h y (by simp [hy])⟩

/-! ### Marshalling, field by field -/

/-- What the fields of a struct give. -/
def results (io : FloatIO) (ns : Bytes) : List FInfo → List Sch → List Val → List (Except MErr (List Item))
  | fi :: fis, s :: ss, v :: vs => fieldItems io fi s v (marshalV io ns (some fi) s v) :: results io ns fis ss vs
  | _, _, _ => []

theorem marshalFields_results (io : FloatIO) (ns : Bytes) : ∀ (fis : List FInfo) (ss : List Sch) (vs : List Val),
    marshalFields io ns fis ss vs = concatM (results io ns fis ss vs)
  | fi :: fis, s :: ss, v :: vs => by
    simp only [marshalFields, results, marshalFields_results io ns fis ss vs]
    cases fieldItems io fi s v (marshalV io ns (some fi) s v)
    · simp only [concatM]
    · simp only [concatM]
      cases concatM (results io ns fis ss vs) <;> rfl
  | [], _, _ => by simp [marshalFields, results, concatM]
  | _ :: _, [], _ => by simp [marshalFields, results, concatM]
  | _ :: _, _ :: _, [] => by simp [marshalFields, results, concatM]

/-- The attributes that the fields of a struct give. -/
def attrResults (io : FloatIO) : List FInfo → List Sch → List Val → List (Except MErr (List Attr))
  | fi :: fis, s :: ss, v :: vs =>
    (if fi.mode = .attr ∨ fi.mode = .anyAttr then
      if fi.omitE ∧ (isEmpty s v ∨ v.isAbsent) then .ok [] else marshalAttr io s ⟨fi.xmlns, joinPrefixed fi.pre fi.loc⟩ v
    else .ok []) :: attrResults io fis ss vs
  | _, _, _ => []

theorem concatM_skip {ε α : Type} (l : List (Except ε (List α))) : concatM (.ok [] :: l) = concatM l := by
  simp only [concatM]
  cases concatM l <;> rfl

theorem marshalAttrs_results (io : FloatIO) : ∀ (fis : List FInfo) (ss : List Sch) (vs : List Val),
    marshalAttrs io fis ss vs = concatM (attrResults io fis ss vs)
  | fi :: fis, s :: ss, v :: vs => by
    simp only [marshalAttrs, attrResults, marshalAttrs_results io fis ss vs]
    split_ifs
    · rw [concatM_skip]
    · cases marshalAttr io s ⟨fi.xmlns, joinPrefixed fi.pre fi.loc⟩ v
      · simp only [concatM]
      · simp only [concatM]
        cases concatM (attrResults io fis ss vs) <;> rfl
    · rw [concatM_skip]
  | [], _, _ => by simp [marshalAttrs, attrResults, concatM]
  | _ :: _, [], _ => by simp [marshalAttrs, attrResults, concatM]
  | _ :: _, _ :: _, [] => by simp [marshalAttrs, attrResults, concatM]

theorem concatM_map {ε α β : Type} (f : α → Except ε (List β)) (g : α → β) (l : List α) (h : ∀ x ∈ l, f x = .ok [g x]) :
    concatM (l.map f) = .ok (l.map g) := by
  induction l with
  | nil => rfl
  | cons x l ih =>
    simp only [List.map_cons, concatM, h x (by simp), ih fun y hy => h y (by simp [hy])]
    rfl

/-- The fields of a value. -/
def fieldsOf : Val → List Val
  | .struct _ vs => vs
  | _ => []

def nameOf : Val → Name
  | .struct n _ => n
  | _ => ⟨[], []⟩

def isStructV : Val → Bool
  | .struct _ _ => true
  | _ => false

theorem struct_eta : ∀ v : Val, isStructV v = true → v = .struct (nameOf v) (fieldsOf v)
  | .struct _ _, _ => rfl
  | .str _, h | .bool _, h | .int _, h | .uint _, h | .float _, h | .ptr _, h | .slice _, h | .attr _, h | .name _, h
  | .absent, h => by simp [isStructV] at h

def Sch.xmlname : Sch → Option FInfo
  | .struct _ xn _ _ => xn
  | _ => none

def Sch.tname : Sch → Bytes
  | .struct tn _ _ _ => tn
  | _ => []

/-- Marshalling a struct. -/
theorem marshalV_struct {io ns fi s v n as kids} (hs : s.isRecord = true) (hv : isStructV v = true)
    (hn : startName (Sch.xmlname s) (nameOf v) fi (Sch.tname s) = n) (hr : resetNs ns (Sch.xmlname s) n = [])
    (ha : marshalAttrs io s.infos s.subs (fieldsOf v) = .ok as)
    (hk : marshalFields io n.space s.infos s.subs (fieldsOf v) = .ok kids) :
    marshalV io ns fi s v = .ok [.elem n as kids] := by
  rw [struct_eta v hv]
  cases s <;> simp only [Sch.isRecord, Bool.false_eq_true] at hs
  simp only [Sch.infos, Sch.subs, Sch.xmlname, Sch.tname] at *
  simp only [marshalV, ha, hn, hk, hr, List.append_nil]

theorem push_fold (s : Sch) (loc : Bytes) (xn : Name) : ∀ (l : List Val) (vs l0 : List Val), vs[locate s .elem loc]? = some (.slice l0) →
    l.foldl (fun w v => push s loc v w) (.struct xn vs) =
      .struct xn (vs.set (locate s .elem loc) (.slice (l0 ++ l.map fun v => .ptr (some v))))
  | [], vs, l0, h => by
    obtain ⟨h1, h2⟩ := List.getElem?_eq_some_iff.1 h
    simp [← h2]
  | v :: l, vs, l0, h => by
    obtain ⟨h1, h2⟩ := List.getElem?_eq_some_iff.1 h
    have : push s loc v (.struct xn vs) = .struct xn (vs.set (locate s .elem loc) (.slice (l0 ++ [.ptr (some v)]))) := by
      simp only [push, h]
    rw [List.foldl_cons, this, push_fold s loc xn l _ (l0 ++ [.ptr (some v)]) (by simp [h1])]
    simp

theorem pushAll_eq {s : Sch} {loc : Bytes} {w : Val} (l : List Val) (hw : isStructV w = true)
    (h : (fieldsOf w)[locate s .elem loc]? = some (.slice [])) :
    l.foldl (fun w v => push s loc v w) w =
      .struct (nameOf w) ((fieldsOf w).set (locate s .elem loc) (.slice (l.map fun v => .ptr (some v)))) := by
  conv_lhs => rw [struct_eta w hw]
  rw [push_fold s loc _ l _ [] h]
  rfl

/-- A list of pointers to structs in a field. -/
theorem marshalV_list {α : Type} (io : FloatIO) (ns : Bytes) (fi : FInfo) (s : Sch) (f : α → Val) (g : α → Item) (l : List α)
    (ho : fi.omitE = false) (h : ∀ x ∈ l, marshalV io ns (some fi) s (f x) = .ok [g x]) :
    marshalV io ns (some fi) (.slice (.ptr s)) (.slice ((l.map f).map fun v => .ptr (some v))) = .ok (l.map g) := by
  simp only [marshalV, List.map_map]
  refine concatM_map _ g l fun x hx => ?_
  simp only [Function.comp, omits, ho, Bool.false_and, Bool.false_eq_true, if_false, marshalV]
  exact h x hx

/-! ### The items -/

def item (n : Bytes) (as : List Attr) (kids : List Item) : Item := .elem ⟨[], n⟩ as kids

def a1 (n v : Bytes) : List Attr := [⟨⟨[], n⟩, v⟩]

def aOpt (n v : Bytes) : List Attr := if v = [] then [] else a1 n v

def aNum (n : Bytes) (k : Nat) : List Attr := if k = 0 then [] else a1 n (Strconv.formatUint k)

def aDur (n : Bytes) : Option Int → List Attr
  | none => []
  | some d => a1 n ((Duration.goString d).getD [])

def baseItem (u : Bytes) : Item := item (b!"BaseURL") [] [.text u]

def roleItem (v : Bytes) : Item :=
  item (b!"Role") (a1 (b!"schemeIdUri") (b!"urn:mpeg:dash:role:2011") ++ aOpt (b!"value") v) []

theorem base_marshal (io : FloatIO) (ns : Bytes) (fi : FInfo) (u : Bytes) (h : fi = fBase) :
    marshalV io ns (some fi) tBaseURLType.sch (newBaseURL u) = .ok [baseItem u] := by
  subst h
  krfl

theorem role_marshal (io : FloatIO) (ns : Bytes) (v : Bytes) :
    marshalV io ns (some fRole) tDescriptorType.sch (newRole v) = .ok [roleItem v] := by
  cases v with
  | nil => krfl
  | cons b v => krfl

def segItems : Option (Nat × Nat × Bool) → List Item
  | none => []
  | some (i, x, e) =>
    [item (b!"SegmentBase") (a1 (b!"indexRange") (Misc.setSegmentBase i x e).indexRange ++
        (if e then a1 (b!"indexRangeExact") (b!"true") else []))
      [item (b!"Initialization") (a1 (b!"range") ((b!"0-") ++ Strconv.formatUint (u32 (i + (2^32 - 1))))) []]]

def repAttrs (r : RepD) : List Attr :=
  a1 (b!"id") r.id ++ a1 (b!"bandwidth") (Strconv.formatUint (toU32 r.bandwidth)) ++
    (match r.kind with
      | .plain => []
      | .audio a => a1 (b!"audioSamplingRate") (Strconv.formatInt a)
      | .video f w h => aNum (b!"width") (toU32 w) ++ aNum (b!"height") (toU32 h) ++ aOpt (b!"frameRate") f) ++
    aOpt (b!"mimeType") r.mimeType ++ aOpt (b!"codecs") r.codec

def repItem (r : RepD) : Item := item (b!"Representation") (repAttrs r) (r.baseURLs.map baseItem ++ segItems r.seg)

/-- The value that `repVal` gives. -/
def repStruct (r : RepD) (l : List Val) : Val :=
  let v := match r.kind with
    | .plain => newRepresentationWithID r.id r.codec r.mimeType r.bandwidth
    | .audio a => newAudioRepresentation r.id r.codec r.mimeType r.bandwidth a
    | .video f w h => newVideoRepresentation r.id r.codec r.mimeType f r.bandwidth w h
  let v : Val := .struct (nameOf v) ((fieldsOf v).set (locate tRepresentationType.sch .elem (b!"BaseURL")) (.slice l))
  match r.seg with
  | none => v
  | some (i, x, e) => setSegmentBase i x e v

theorem repVal_eq (r : RepD) : repVal r = repStruct r ((r.baseURLs.map newBaseURL).map fun v => .ptr (some v)) := by
  unfold repVal repStruct pushAll
  dsimp only
  rw [pushAll_eq]
  · cases r.kind <;> krfl
  · cases r.kind <;> krfl

theorem rep_attrs (io : FloatIO) (r : RepD) (l : List Val) :
    marshalAttrs io tRepresentationType.sch.infos tRepresentationType.sch.subs (fieldsOf (repStruct r l)) = .ok (repAttrs r) := by
  obtain ⟨id, codec, mt, bw, kind, bs, seg⟩ := r
  cases kind with
  | plain =>
    unfold repStruct repAttrs newRepresentationWithID
    dsimp only
    generalize toU32 bw = bw
    rcases seg with _ | ⟨i, x, e⟩ <;> cases codec <;> cases mt <;> krfl
  | audio a =>
    unfold repStruct repAttrs newAudioRepresentation newRepresentationWithID
    dsimp only
    generalize toU32 bw = bw
    rcases seg with _ | ⟨i, x, e⟩ <;> cases codec <;> cases mt <;> krfl
  | video f w h =>
    unfold repStruct repAttrs newVideoRepresentation newRepresentationWithID
    dsimp only
    generalize toU32 bw = bw
    generalize toU32 w = w
    generalize toU32 h = h
    rcases seg with _ | ⟨i, x, e⟩ <;> cases codec <;> cases mt <;> cases f <;> cases w <;> cases h <;> krfl

/-- All fields give nothing but one. -/
theorem concatM_one {ε α : Type} (x : Except ε (List α)) : ∀ (n i : Nat), i < n →
    concatM ((List.replicate n (.ok [])).set i x) = x
  | 0, _, h => by omega
  | n + 1, 0, _ => by
    simp only [List.replicate_succ, List.set_cons_zero]
    have : concatM (List.replicate n (Except.ok (ε := ε) ([] : List α))) = .ok [] := by
      clear * -
      induction n with
      | zero => rfl
      | succ n ih => rw [List.replicate_succ, concatM_skip, ih]
    cases x <;> simp [concatM, this]
  | n + 1, i + 1, h => by
    rw [List.replicate_succ, List.set_cons_succ, concatM_skip, concatM_one x n i (by omega)]

/-- All fields give nothing but two. -/
theorem concatM_two {ε α : Type} (a b : List α) : ∀ (n i j : Nat), i < j → j < n →
    concatM (((List.replicate n (Except.ok (ε := ε) [])).set i (.ok a)).set j (.ok b)) = .ok (a ++ b)
  | 0, _, _, _, h => by omega
  | n + 1, 0, j + 1, _, h => by
    simp only [List.replicate_succ, List.set_cons_zero, List.set_cons_succ]
    simp only [concatM, concatM_one _ n j (by omega)]
  | n + 1, i + 1, j + 1, hi, h => by
    simp only [List.replicate_succ, List.set_cons_succ, concatM_skip]
    exact concatM_two a b n i j (by omega) (by omega)
  | _ + 1, _, 0, h, _ => by omega

theorem rep_results (io : FloatIO) (r : RepD) (l : List Val) :
    results io [] tRepresentationType.sch.infos tRepresentationType.sch.subs (fieldsOf (repStruct r l)) =
      ((List.replicate tRepresentationType.sch.infos.length (.ok [])).set (locate tRepresentationType.sch .elem (b!"BaseURL"))
        (marshalV io [] (some fBase) (.slice (.ptr tBaseURLType.sch)) (.slice l))).set
          (locate tRepresentationType.sch .elem (b!"SegmentBase")) (.ok (segItems r.seg)) := by
  obtain ⟨id, codec, mt, bw, kind, bs, seg⟩ := r
  unfold segItems repStruct setSegmentBase Misc.setSegmentBase
  rcases seg with _ | ⟨i, x, e⟩
  · cases kind <;> krfl
  · obtain ⟨d, ds, hd, -⟩ := Strconv.formatUint_head i
    dsimp only
    rw [hd]
    generalize Strconv.formatUint (u32 (u32 (i + x) + (2 ^ 32 - 1))) = y
    generalize Strconv.formatUint (u32 (i + (2 ^ 32 - 1))) = z
    cases kind <;> cases e <;> krfl

theorem rep_marshal (io : FloatIO) (r : RepD) :
    marshalV io [] (some fRep) tRepresentationType.sch (repVal r) = .ok [repItem r] := by
  rw [repVal_eq]
  refine marshalV_struct (by decide +kernel) ?_ ?_ (by krfl) (rep_attrs io r _) ?_
  · unfold repStruct setSegmentBase
    rcases r.seg with _ | ⟨i, x, e⟩ <;> rfl
  · unfold repStruct setSegmentBase
    obtain ⟨id, codec, mt, bw, kind, bs, seg⟩ := r
    rcases seg with _ | ⟨i, x, e⟩ <;> cases kind <;> krfl
  · rw [marshalFields_results, rep_results, marshalV_list io [] fBase tBaseURLType.sch newBaseURL baseItem r.baseURLs (by krfl)
      fun u _ => base_marshal io [] fBase u rfl]
    exact concatM_two _ _ _ _ _ (by decide +kernel) (by decide +kernel)

/-! ### Adaptation sets -/

def setAttrs (a : SetD) : List Attr :=
  aOpt (b!"contentType") a.contentType ++ (if a.segmentAlignment then a1 (b!"segmentAlignment") (b!"true") else []) ++
    aOpt (b!"mimeType") a.mimeType ++ aNum (b!"startWithSAP") a.startWithSAP

def setItem (a : SetD) : Item := item (b!"AdaptationSet") (setAttrs a) (a.roles.map roleItem ++ a.reps.map repItem)

/-- The value that `setVal` gives. -/
def setStruct (a : SetD) (roles reps : List Val) : Val :=
  let v := newAdaptationSetWithParams a.contentType a.mimeType a.segmentAlignment a.startWithSAP
  .struct (nameOf v) (((fieldsOf v).set (locate tAdaptationSetType.sch .elem (b!"Role")) (.slice roles)).set
    (locate tAdaptationSetType.sch .elem (b!"Representation")) (.slice reps))

theorem setVal_eq (a : SetD) : setVal a = setStruct a ((a.roles.map newRole).map fun v => .ptr (some v))
    ((a.reps.map repVal).map fun v => .ptr (some v)) := by
  unfold setVal pushAll
  rw [pushAll_eq _ (by krfl) (by krfl)]
  exact pushAll_eq (s := tAdaptationSetType.sch) (loc := b!"Representation") _ rfl (by krfl)

theorem set_attrs (io : FloatIO) (a : SetD) (l m : List Val) :
    marshalAttrs io tAdaptationSetType.sch.infos tAdaptationSetType.sch.subs (fieldsOf (setStruct a l m)) = .ok (setAttrs a) := by
  obtain ⟨ct, mt, al, sap, roles, reps⟩ := a
  cases ct <;> cases mt <;> cases al <;> cases sap <;> krfl

theorem set_results (io : FloatIO) (a : SetD) (l m : List Val) :
    results io [] tAdaptationSetType.sch.infos tAdaptationSetType.sch.subs (fieldsOf (setStruct a l m)) =
      ((List.replicate tAdaptationSetType.sch.infos.length (.ok [])).set (locate tAdaptationSetType.sch .elem (b!"Role"))
        (marshalV io [] (some fRole) (.slice (.ptr tDescriptorType.sch)) (.slice l))).set
          (locate tAdaptationSetType.sch .elem (b!"Representation"))
            (marshalV io [] (some fRep) (.slice (.ptr tRepresentationType.sch)) (.slice m)) := by
  obtain ⟨ct, mt, al, sap, roles, reps⟩ := a
  krfl

theorem set_marshal (io : FloatIO) (a : SetD) :
    marshalV io [] (some fSet) tAdaptationSetType.sch (setVal a) = .ok [setItem a] := by
  rw [setVal_eq]
  refine marshalV_struct (by decide +kernel) rfl (by krfl) (by krfl) (set_attrs io a _ _) ?_
  rw [marshalFields_results, set_results, marshalV_list io [] fRole tDescriptorType.sch newRole roleItem a.roles (by krfl)
      fun v _ => role_marshal io [] v,
    marshalV_list io [] fRep tRepresentationType.sch repVal repItem a.reps (by krfl) fun r _ => rep_marshal io r]
  exact concatM_two _ _ _ _ _ (by decide +kernel) (by decide +kernel)

/-! ### Periods and manifests -/

def periodAttrs (p : PeriodD) : List Attr := aOpt (b!"id") p.id ++ (aDur (b!"start") p.start ++ aDur (b!"duration") p.dur)

def periodItem (p : PeriodD) : Item := item (b!"Period") (periodAttrs p) (p.sets.map setItem)

/-- The value that `periodVal` gives. -/
def periodStruct (p : PeriodD) (l : List Val) : Val :=
  let v := assign tPeriod.sch .attr (b!"id") (.str p.id) (assign tPeriod.sch .attr (b!"start") (durPtr p.start)
    (assign tPeriod.sch .attr (b!"duration") (durPtr p.dur) newPeriod))
  .struct (nameOf v) ((fieldsOf v).set (locate tPeriod.sch .elem (b!"AdaptationSet")) (.slice l))

theorem periodVal_eq (p : PeriodD) : periodVal p = periodStruct p ((p.sets.map setVal).map fun v => .ptr (some v)) := by
  unfold periodVal
  exact pushAll_eq (s := tPeriod.sch) (loc := b!"AdaptationSet") _ (by krfl) (by krfl)

/-- A duration as an attribute. -/
def durAttr (io : FloatIO) (n : Bytes) (d : Option Int) : Except MErr (List Attr) :=
  marshalAttr io (.ptr (.simple .duration)) ⟨[], n⟩ (durPtr d)

theorem durAttr_eq (io : FloatIO) (n : Bytes) (d : Option Int) (h : ∀ x ∈ d, IsI64 x) : durAttr io n d = .ok (aDur n d) := by
  cases d with
  | none => rfl
  | some d =>
    obtain ⟨s, hs, -⟩ := Duration.C02_string_total d (h d rfl)
    simp [durAttr, durPtr, marshalAttr, simpleAttr, hs, aDur, a1]

theorem period_attrs (io : FloatIO) (p : PeriodD) (l : List Val) :
    attrResults io tPeriod.sch.infos tPeriod.sch.subs (fieldsOf (periodStruct p l)) =
      (((List.replicate tPeriod.sch.infos.length (.ok [])).set (locate tPeriod.sch .attr (b!"id")) (.ok (aOpt (b!"id") p.id))).set
        (locate tPeriod.sch .attr (b!"start")) (durAttr io (b!"start") p.start)).set
          (locate tPeriod.sch .attr (b!"duration")) (durAttr io (b!"duration") p.dur) := by
  obtain ⟨id, st, du, sets⟩ := p
  cases id <;> krfl

/-- All fields give nothing but three. -/
theorem concatM_three {ε α : Type} (a b c : List α) : ∀ (n i j k : Nat), i < j → j < k → k < n →
    concatM ((((List.replicate n (Except.ok (ε := ε) [])).set i (.ok a)).set j (.ok b)).set k (.ok c)) = .ok (a ++ (b ++ c))
  | 0, _, _, _, _, _, h => by omega
  | n + 1, 0, j + 1, k + 1, _, hj, h => by
    simp only [List.replicate_succ, List.set_cons_zero, List.set_cons_succ]
    simp only [concatM, concatM_two b c n j k (by omega) (by omega)]
  | n + 1, i + 1, j + 1, k + 1, hi, hj, h => by
    simp only [List.replicate_succ, List.set_cons_succ, concatM_skip]
    exact concatM_three a b c n i j k (by omega) (by omega) (by omega)
  | _ + 1, _, 0, _, h, _, _ => by omega
  | _ + 1, _, _ + 1, 0, _, h, _ => by omega

theorem period_results (io : FloatIO) (p : PeriodD) (l : List Val) :
    results io [] tPeriod.sch.infos tPeriod.sch.subs (fieldsOf (periodStruct p l)) =
      (List.replicate tPeriod.sch.infos.length (.ok [])).set (locate tPeriod.sch .elem (b!"AdaptationSet"))
        (marshalV io [] (some fSet) (.slice (.ptr tAdaptationSetType.sch)) (.slice l)) := by
  obtain ⟨id, st, du, sets⟩ := p
  krfl

/-- Durations are `int64`. -/
def PeriodD.Ok (p : PeriodD) : Prop := (∀ x ∈ p.start, IsI64 x) ∧ ∀ x ∈ p.dur, IsI64 x

theorem period_marshal (io : FloatIO) (p : PeriodD) (h : p.Ok) :
    marshalV io [] (some fPeriod) tPeriod.sch (periodVal p) = .ok [periodItem p] := by
  rw [periodVal_eq]
  refine marshalV_struct (by decide +kernel) rfl (by krfl) (by krfl) ?_ ?_
  · rw [marshalAttrs_results, period_attrs, durAttr_eq io _ _ h.1, durAttr_eq io _ _ h.2]
    exact concatM_three _ _ _ _ _ _ _ (by decide +kernel) (by decide +kernel) (by decide +kernel)
  · rw [marshalFields_results, period_results, marshalV_list io [] fSet tAdaptationSetType.sch setVal setItem p.sets (by krfl)
      fun a _ => set_marshal io a]
    exact concatM_one _ _ _ (by decide +kernel)

def mpdAttrs (m : MpdD) : List Attr :=
  (a1 (b!"xmlns") (b!"urn:mpeg:dash:schema:mpd:2011") ++ a1 (b!"profiles") m.profiles ++ a1 (b!"type") m.typ) ++
    (aDur (b!"mediaPresentationDuration") m.dur ++ aDur (b!"minBufferTime") m.minBuffer)

def mpdItem (m : MpdD) : Item := item (b!"MPD") (mpdAttrs m) (m.baseURLs.map baseItem ++ m.periods.map periodItem)

/-- The value that `mpdVal` gives. -/
def mpdStruct (m : MpdD) (bs ps : List Val) : Val :=
  let v := assign tMPD.sch .attr (b!"profiles") (.str m.profiles) (assign tMPD.sch .attr (b!"mediaPresentationDuration") (durPtr m.dur)
      (assign tMPD.sch .attr (b!"minBufferTime") (durPtr m.minBuffer) (newMPD m.typ)))
  .struct (nameOf v) (((fieldsOf v).set (locate tMPD.sch .elem (b!"BaseURL")) (.slice bs)).set
    (locate tMPD.sch .elem (b!"Period")) (.slice ps))

theorem mpdVal_eq (m : MpdD) : mpdVal m = mpdStruct m ((m.baseURLs.map newBaseURL).map fun v => .ptr (some v))
    ((m.periods.map periodVal).map fun v => .ptr (some v)) := by
  unfold mpdVal pushAll
  rw [pushAll_eq _ (by krfl) (by krfl)]
  exact pushAll_eq (s := tMPD.sch) (loc := b!"Period") _ rfl (by krfl)

theorem mpd_attrs (io : FloatIO) (m : MpdD) (l k : List Val) :
    attrResults io tMPD.sch.infos tMPD.sch.subs (fieldsOf (mpdStruct m l k)) =
      .ok (a1 (b!"xmlns") (b!"urn:mpeg:dash:schema:mpd:2011")) :: .ok [] :: .ok [] :: .ok (a1 (b!"profiles") m.profiles) ::
        .ok (a1 (b!"type") m.typ) :: ((List.replicate (tMPD.sch.infos.length - 5) (.ok [])).set
        (locate tMPD.sch .attr (b!"mediaPresentationDuration") - 5) (durAttr io (b!"mediaPresentationDuration") m.dur)).set
          (locate tMPD.sch .attr (b!"minBufferTime") - 5) (durAttr io (b!"minBufferTime") m.minBuffer) := by
  obtain ⟨typ, prof, du, mb, bs, ps⟩ := m
  krfl

theorem mpd_results (io : FloatIO) (m : MpdD) (l k : List Val) :
    results io [] tMPD.sch.infos tMPD.sch.subs (fieldsOf (mpdStruct m l k)) =
      ((List.replicate tMPD.sch.infos.length (.ok [])).set (locate tMPD.sch .elem (b!"BaseURL"))
        (marshalV io [] (some fBase) (.slice (.ptr tBaseURLType.sch)) (.slice l))).set
          (locate tMPD.sch .elem (b!"Period"))
            (marshalV io [] (some fPeriod) (.slice (.ptr tPeriod.sch)) (.slice k)) := by
  obtain ⟨typ, prof, du, mb, bs, ps⟩ := m
  krfl

/-- Durations are `int64`. -/
def MpdD.Ok (m : MpdD) : Prop := (∀ x ∈ m.dur, IsI64 x) ∧ (∀ x ∈ m.minBuffer, IsI64 x) ∧ ∀ p ∈ m.periods, p.Ok

theorem mpd_marshal (io : FloatIO) (m : MpdD) (h : m.Ok) : marshal io tMPD.sch (mpdVal m) = .ok [mpdItem m] := by
  rw [mpdVal_eq]
  refine marshalV_struct (by decide +kernel) rfl (by krfl) (by krfl) ?_ ?_
  · rw [marshalAttrs_results, mpd_attrs, durAttr_eq io _ _ h.1, durAttr_eq io _ _ h.2.1]
    have := concatM_two (ε := MErr) (aDur (b!"mediaPresentationDuration") m.dur) (aDur (b!"minBufferTime") m.minBuffer)
      (tMPD.sch.infos.length - 5) (locate tMPD.sch .attr (b!"mediaPresentationDuration") - 5)
      (locate tMPD.sch .attr (b!"minBufferTime") - 5) (by decide +kernel) (by decide +kernel)
    simp only [concatM, this]
    rfl
  · rw [marshalFields_results, mpd_results, marshalV_list io [] fBase tBaseURLType.sch newBaseURL baseItem m.baseURLs (by krfl)
      fun u _ => base_marshal io [] fBase u rfl,
      marshalV_list io [] fPeriod tPeriod.sch periodVal periodItem m.periods (by krfl) fun p hp => period_marshal io p (h.2.2 p hp)]
    exact concatM_two _ _ _ _ _ (by decide +kernel) (by decide +kernel)

end Verif.Written

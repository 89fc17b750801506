import Verif.RtLeaf

/-!
What of a value reaches the document: text without the characters that XML forbids, and no nil in lists.  The document of a
value is the document of the tidied value.
-/
namespace Verif.Bind

open Verif.Xml Verif.Utf8

/-! ### Escaped text -/

theorem cleaned_same (p : Nat × Bytes) (h : IsXmlChar p.1) (h2 : p.1 ≠ 0xFFFD) : cleaned p = p := by
  unfold cleaned
  rw [if_pos ⟨h, fun e => h2 e.1⟩]

theorem cleanRune_cleaned (p : Nat × Bytes) : cleanRune (cleaned p) = cleanRune p := by
  rw [← cleaned_snd p]
  have := cleaned_ok p
  generalize cleaned p = q at this ⊢
  unfold cleanRune
  rw [if_pos this]

/-- Whether a rune is one of those escaped by name does not change. -/
theorem cleaned_code (p : Nat × Bytes) (c : Nat) (hc : IsXmlChar c) (hf : c ≠ 0xFFFD) : (cleaned p).1 = c ↔ p.1 = c := by
  constructor
  · intro h
    unfold cleaned at h
    split at h
    · exact h
    · exact absurd h.symm hf
  · intro h
    rw [cleaned_same p (by rw [h]; exact hc) (by rw [h]; exact hf), h]

theorem escText_cleaned (nl : Bool) (p : Nat × Bytes) : escTextRune nl (cleaned p) = escTextRune nl p := by
  have e := escDefault_eq
  unfold escTextRune
  simp only [cleaned_code p (c := 34) (by decide) (by decide), cleaned_code p (c := 39) (by decide) (by decide),
    cleaned_code p (c := 38) (by decide) (by decide), cleaned_code p (c := 60) (by decide) (by decide),
    cleaned_code p (c := 62) (by decide) (by decide), cleaned_code p (c := 10) (by decide) (by decide),
    cleaned_code p (c := 13) (by decide) (by decide), e, Prod.mk.eta, cleanRune_cleaned]
  by_cases h : p.1 = 10
  · rw [cleaned_same p (by rw [h]; decide) (by rw [h]; decide)]
  · simp only [h, if_false]

theorem escString_cleaned (p : Nat × Bytes) : escStringRune (cleaned p) = escStringRune p := by
  have e := escDefault_eq
  unfold escStringRune
  simp only [cleaned_code p (c := 34) (by decide) (by decide), cleaned_code p (c := 39) (by decide) (by decide),
    cleaned_code p (c := 38) (by decide) (by decide), cleaned_code p (c := 60) (by decide) (by decide),
    cleaned_code p (c := 62) (by decide) (by decide), cleaned_code p (c := 10) (by decide) (by decide),
    cleaned_code p (c := 9) (by decide) (by decide),
    cleaned_code p (c := 13) (by decide) (by decide), e, Prod.mk.eta, cleanRune_cleaned]

/-- The text written for a string is that of the string without forbidden characters. -/
theorem escapeText_clean (nl : Bool) (s : Bytes) : escapeText nl (clean s) = escapeText nl s := by
  unfold escapeText
  rw [runes_clean, List.flatMap_map]
  simp only [escText_cleaned]

theorem escapeString_clean (s : Bytes) : escapeString (clean s) = escapeString s := by
  unfold escapeString
  rw [runes_clean, List.flatMap_map]
  simp only [escString_cleaned]

theorem clean_idem (s : Bytes) : clean (clean s) = clean s := clean_of_xmlText _ (xmlText_clean s)

theorem clean_nil (s : Bytes) : clean s = [] ↔ s = [] := by
  constructor
  · intro h
    have h1 := runes_clean s
    rw [h] at h1
    have h2 : runes s = [] := by
      have : (runes s).map cleaned = [] := by rw [← h1]; rfl
      exact List.map_eq_nil_iff.1 this
    have := runes_flatten s
    rw [h2] at this
    exact this.symm
  · rintro rfl; rfl

/-! ### Items with the same bytes -/

/-- A name that declares a namespace. -/
def declName (n : Name) : Bool := n.space == xmlnsURL || (n.space == [] && n.loc == xmlnsPrefix)

/-- Attributes with the same name and the same escaped value; the value of a declaration is the same. -/
def AttrSim (a b : Attr) : Prop :=
  a.name = b.name ∧ escapeString a.value = escapeString b.value ∧ (declName a.name = true → a.value = b.value)

theorem AttrSim.refl (a : Attr) : AttrSim a a := ⟨rfl, rfl, fun _ => rfl⟩

mutual
/-- Items that differ in characters that are not written. -/
def ItemSim : Item → Item → Prop
  | .elem n as ks, .elem m bs ls => n = m ∧ List.Forall₂ AttrSim as bs ∧ ItemsSim ks ls
  | .text a, .text b => escapeText false a = escapeText false b
  | .str a, .str b => escapeString a = escapeString b
  | .raw a, .raw b => a = b
  | _, _ => False
/-- The same for lists. -/
def ItemsSim : List Item → List Item → Prop
  | [], [] => True
  | i :: l, j :: m => ItemSim i j ∧ ItemsSim l m
  | _, _ => False
end

theorem itemsSim_append : ∀ (a b c d : List Item), ItemsSim a b → ItemsSim c d → ItemsSim (a ++ c) (b ++ d)
  | [], [], _, _, _, h => h
  | [], _ :: _, _, _, h, _ => by simp [ItemsSim] at h
  | _ :: _, [], _, _, h, _ => by simp [ItemsSim] at h
  | i :: a, j :: b, c, d, h, h' => by
    simp only [ItemsSim] at h
    simp only [List.cons_append, ItemsSim]
    exact ⟨h.1, itemsSim_append a b c d h.2 h'⟩

theorem ownDefault_sim (u : Bytes) : ∀ {as bs : List Attr}, List.Forall₂ AttrSim as bs → ownDefault as u = ownDefault bs u
  | _, _, .nil => rfl
  | a :: as, b :: bs, .cons h t => by
    have ih := ownDefault_sim u t
    unfold ownDefault at ih ⊢
    rw [List.any_cons, List.any_cons, ih, h.1]
    by_cases hd : declName a.name = true
    · rw [h.2.2 hd]
    · have : (b.name.space == [] && b.name.loc == xmlnsPrefix) = false := by
        rw [← h.1]
        cases hx : (a.name.space == [] && a.name.loc == xmlnsPrefix)
        · rfl
        · exact absurd (by unfold declName; rw [hx]; simp) hd
      rw [this, Bool.false_and, Bool.false_and]

theorem ownPrefix_sim (u : Bytes) : ∀ {as bs : List Attr}, List.Forall₂ AttrSim as bs →
    (ownPrefix as u = none ∧ ownPrefix bs u = none) ∨ ∃ a, ownPrefix as u = some a ∧ ownPrefix bs u = some a
  | _, _, .nil => Or.inl ⟨rfl, rfl⟩
  | a :: as, b :: bs, .cons h t => by
    have ih := ownPrefix_sim u t
    unfold ownPrefix at ih ⊢
    rw [List.find?_cons, List.find?_cons]
    by_cases hd : declName a.name = true
    · have hab : a = b := by
        cases a; cases b
        simp only [Attr.mk.injEq]
        exact ⟨h.1, h.2.2 hd⟩
      subst hab
      split
      · exact Or.inr ⟨a, rfl, rfl⟩
      · exact ih
    · have h1 : (a.name.space == xmlnsURL) = false := by
        cases hx : (a.name.space == xmlnsURL)
        · rfl
        · exact absurd (by unfold declName; rw [hx]; simp) hd
      rw [← h.1, h1]
      simpa using ih

theorem placeElement_sim (seq : Nat) (els : List Elem) (e : Elem) {as bs : List Attr} (h : List.Forall₂ AttrSim as bs) :
    placeElement seq els e as = placeElement seq els e bs := by
  unfold placeElement
  rw [ownDefault_sim _ h]
  rcases ownPrefix_sim e.xmlns h with ⟨h1, h2⟩ | ⟨a, h1, h2⟩ <;> rw [h1, h2]

theorem writeAttr_sim (ns : Ns) {a b : Attr} (h : AttrSim a b) : (writeAttr ns a).1 = (writeAttr ns b).1 ∧
    (writeAttr ns a).2.flatMap attrBytes = (writeAttr ns b).2.flatMap attrBytes := by
  obtain ⟨n, x⟩ := a
  obtain ⟨m, y⟩ := b
  obtain ⟨h1, h2, h3⟩ := h
  dsimp only at h1 h2 h3
  subst h1
  unfold writeAttr
  dsimp only
  by_cases h0 : n.loc = []
  · simp only [if_pos h0]; exact ⟨trivial, trivial⟩
  simp only [if_neg h0]
  by_cases hx : n.space = xmlnsURL
  · have : x = y := h3 (by unfold declName; rw [hx]; simp)
    subst this
    exact ⟨rfl, rfl⟩
  simp only [if_neg hx]
  by_cases hs : n.space ≠ []
  · simp only [if_pos hs]
    refine ⟨trivial, ?_⟩
    rw [List.flatMap_append, List.flatMap_append]
    simp only [List.flatMap_cons, List.flatMap_nil, attrBytes, h2]
  · simp only [if_neg hs]
    refine ⟨trivial, ?_⟩
    simp only [List.flatMap_cons, List.flatMap_nil, attrBytes, h2]

theorem writeAttrs_sim : ∀ {as bs : List Attr} (ns : Ns), List.Forall₂ AttrSim as bs →
    (writeAttrs ns as).1 = (writeAttrs ns bs).1 ∧
    (writeAttrs ns as).2.flatMap attrBytes = (writeAttrs ns bs).2.flatMap attrBytes
  | _, _, _, .nil => ⟨rfl, rfl⟩
  | a :: as, b :: bs, ns, .cons h t => by
    obtain ⟨h1, h2⟩ := writeAttr_sim ns h
    simp only [writeAttrs]
    rw [h1]
    obtain ⟨h3, h4⟩ := writeAttrs_sim (writeAttr ns b).1 t
    refine ⟨h3, ?_⟩
    rw [List.flatMap_append, List.flatMap_append, h2, h4]

/-- What is seen of the printer. -/
def seen (r : Except EncErr (Printer × List Out)) : Except EncErr (Printer × Bytes) :=
  match r with
  | .error e => .error e
  | .ok (p, o) => .ok (p, outBytes o)

theorem outBytes_append (a b : List Out) : outBytes (a ++ b) = outBytes a ++ outBytes b := by
  unfold outBytes; rw [List.flatMap_append]

theorem writeStart_sim (p : Printer) (n : Name) {as bs : List Attr} (h : List.Forall₂ AttrSim as bs) :
    seen (writeStart p n as) = seen (writeStart p n bs) := by
  unfold writeStart nsStart
  by_cases hn : n.loc = []
  · simp only [if_pos hn]
  · simp only [if_neg hn]
    rw [placeElement_sim _ _ _ h]
    generalize hpl : placeElement p.ns.seq p.ns.els (newElement n) bs = pl
    generalize hnt : nameTag pl.1 pl.2 (newElement n).xmlns (newElement n).name = nt
    obtain ⟨h1, h2⟩ := writeAttrs_sim nt.1 h
    simp only [seen]
    rw [h1]
    simp only [outBytes, List.flatMap_cons, List.flatMap_nil, Out.bytes, List.flatMap_append, h2]

theorem seen_bind {r r' : Except EncErr (Printer × List Out)} (h : seen r = seen r') :
    (∃ e, r = .error e ∧ r' = .error e) ∨ ∃ p o o', r = .ok (p, o) ∧ r' = .ok (p, o') ∧ outBytes o = outBytes o' := by
  cases r with
  | error e =>
    cases r' with
    | error e' => simp only [seen, Except.error.injEq] at h; subst h; exact Or.inl ⟨e, rfl, rfl⟩
    | ok x => simp [seen] at h
  | ok x =>
    cases r' with
    | error e' => simp [seen] at h
    | ok y =>
      obtain ⟨p, o⟩ := x
      obtain ⟨p', o'⟩ := y
      simp only [seen, Except.ok.injEq, Prod.mk.injEq] at h
      obtain ⟨rfl, h⟩ := h
      exact Or.inr ⟨p, o, o', rfl, rfl, h⟩

mutual
theorem encItem_sim : ∀ (p : Printer) (i j : Item), ItemSim i j → seen (encItem p i) = seen (encItem p j)
  | p, .elem n as ks, j, h => by
    cases j with
    | elem m bs ls =>
      simp only [ItemSim] at h
      obtain ⟨rfl, h1, h2⟩ := h
      simp only [encItem]
      rcases seen_bind (writeStart_sim p n h1) with ⟨e, e1, e2⟩ | ⟨p1, o, o', e1, e2, e3⟩
      · rw [e1, e2]
      · rw [e1, e2]
        dsimp only
        rcases seen_bind (encItems_sim p1 ks ls h2) with ⟨e, f1, f2⟩ | ⟨p2, q, q', f1, f2, f3⟩
        · rw [f1, f2]
        · rw [f1, f2]
          dsimp only
          cases writeEnd p2 n with
          | error e => rfl
          | ok x => simp only [seen, outBytes_append, e3, f3]
    | _ => simp only [ItemSim] at h
  | p, .text b, j, h => by
    cases j with
    | text c => simp only [ItemSim] at h; simp [encItem, seen, outBytes, Out.bytes, h]
    | _ => simp only [ItemSim] at h
  | p, .str b, j, h => by
    cases j with
    | str c => simp only [ItemSim] at h; simp [encItem, seen, outBytes, Out.bytes, h]
    | _ => simp only [ItemSim] at h
  | p, .raw b, j, h => by
    cases j with
    | raw c => simp only [ItemSim] at h; rw [h]
    | _ => simp only [ItemSim] at h
theorem encItems_sim : ∀ (p : Printer) (l m : List Item), ItemsSim l m → seen (encItems p l) = seen (encItems p m)
  | p, [], m, h => by
    cases m with
    | nil => rfl
    | cons _ _ => simp only [ItemsSim] at h
  | p, i :: l, m, h => by
    cases m with
    | nil => simp only [ItemsSim] at h
    | cons j m =>
      simp only [ItemsSim] at h
      simp only [encItems]
      rcases seen_bind (encItem_sim p i j h.1) with ⟨e, e1, e2⟩ | ⟨p1, o, o', e1, e2, e3⟩
      · rw [e1, e2]
      · rw [e1, e2]
        dsimp only
        rcases seen_bind (encItems_sim p1 l m h.2) with ⟨e, f1, f2⟩ | ⟨p2, q, q', f1, f2, f3⟩
        · rw [f1, f2]
        · rw [f1, f2]
          simp only [seen, outBytes_append, e3, f3]
end

theorem encode_sim (pre indent : Bytes) (l m : List Item) (h : ItemsSim l m) : encode pre indent l = encode pre indent m := by
  unfold encode
  rcases seen_bind (encItems_sim (Printer.new pre indent) l m h) with ⟨e, f1, f2⟩ | ⟨p2, q, q', f1, f2, f3⟩
  · rw [f1, f2]
  · rw [f1, f2]
    dsimp only
    rw [f3]

/-! ### Tidied values -/

/-- An attribute without forbidden characters; declarations are left as they are. -/
def tidyAttr (a : Attr) : Attr := if declName a.name then a else ⟨a.name, clean a.value⟩

/-- Fields that are left as they are: `innerxml`, and an attribute that declares a namespace. -/
def keeps (fi : FInfo) : Bool :=
  fi.mode == .innerxml || (fi.mode == .attr && declName ⟨fi.xmlns, joinPrefixed fi.pre fi.loc⟩)

mutual
/-- What of a value reaches the document: strings without forbidden characters, lists without members that are not written
(nil pointers), no pointers to those. -/
def tidy : Sch → Val → Val
  | .simple .str, .str b => .str (clean b)
  | .ptr s, .ptr (some v) => if (tidy s v).isNil then .ptr none else .ptr (some (tidy s v))
  | .slice s, .slice l => .slice ((l.map (tidy s)).filter fun v => !v.isNil)
  | .attr, .attr a => .attr (tidyAttr a)
  | .struct _ _ infos subs, .struct xv vs => .struct xv (tidies infos subs vs)
  | _, v => v
/-- The same for all fields. -/
def tidies : List FInfo → List Sch → List Val → List Val
  | fi :: fis, s :: ss, v :: vs => (if keeps fi then v else tidy s v) :: tidies fis ss vs
  | _, _, vs => vs
end

mutual
/-- No pointers to pointers, and an `any,attr` field has no name of its own. -/
def Sch.onePtr : Sch → Bool
  | .ptr (.ptr _) => false
  | .ptr s => s.onePtr
  | .slice s => s.onePtr
  | .struct _ _ infos subs =>
    infos.all (fun f => f.mode != .anyAttr || !declName ⟨f.xmlns, joinPrefixed f.pre f.loc⟩) && onePtrs subs
  | _ => true
/-- The same for several types. -/
def onePtrs : List Sch → Bool
  | [] => true
  | s :: l => s.onePtr && onePtrs l
end

theorem mpd_onePtr : tMPD.sch.onePtr = true := by decide +kernel

/-- Results that are related, or the same error. -/
def Rel {α β ε : Type} (R : α → β → Prop) : Except ε α → Except ε β → Prop
  | .ok a, .ok b => R a b
  | .error e, .error e' => e = e'
  | _, _ => False

theorem attrSim_tidy (a : Attr) : AttrSim a (tidyAttr a) := by
  unfold tidyAttr
  split
  · exact .refl a
  · rename_i h
    exact ⟨rfl, (escapeString_clean _).symm, fun hd => absurd hd h⟩

theorem forall2_append {α β : Type} {R : α → β → Prop} : ∀ {a : List α} {b : List β} {c : List α} {d : List β},
    List.Forall₂ R a b → List.Forall₂ R c d → List.Forall₂ R (a ++ c) (b ++ d)
  | _, _, _, _, .nil, h => h
  | _, _, _, _, .cons h t, h' => .cons h (forall2_append t h')

theorem isNil_slice (l : List Val) : (Val.slice l).isNil = l.isEmpty := by cases l <;> rfl

/-- The lists of results for the members of a list and for the members that are left. -/
theorem concatM_tidy {α ε : Type} (R : List α → List α → Prop) (h0 : R [] []) (happ : ∀ a b c d, R a b → R c d → R (a ++ c) (b ++ d))
    (f g : Val → Except ε (List α)) (t : Val → Val) : ∀ (l : List Val),
    (∀ v ∈ l, (t v).isNil = true → f v = .ok []) →
    (∀ v ∈ l, (t v).isNil = false → Rel R (f v) (g (t v))) →
    Rel R (concatM (l.map f)) (concatM (((l.map t).filter fun v => !v.isNil).map g))
  | [], _, _ => by simpa [concatM, Rel] using h0
  | v :: l, h1, h2 => by
    have ih := concatM_tidy R h0 happ f g t l (fun v hv => h1 v (by simp [hv])) (fun v hv => h2 v (by simp [hv]))
    rw [List.map_cons, List.map_cons]
    cases hn : (t v).isNil with
    | true =>
      rw [List.filter_cons_of_neg (by simp [hn]), h1 v (by simp) hn]
      simp only [concatM]
      revert ih
      cases concatM (l.map f) with
      | error e => exact fun ih => ih
      | ok a => exact fun ih => ih
    | false =>
      rw [List.filter_cons_of_pos (by simp [hn]), List.map_cons]
      have := h2 v (by simp) hn
      revert this ih
      cases f v with
      | error e =>
        cases g (t v) with
        | error e' => exact fun _ h => h
        | ok b => exact fun _ h => h.elim
      | ok a =>
        cases g (t v) with
        | error e' => exact fun _ h => h.elim
        | ok b =>
          simp only [concatM]
          cases concatM (l.map f) with
          | error e =>
            cases concatM (((l.map t).filter fun v => !v.isNil).map g) with
            | error e' => exact fun h _ => h
            | ok b => exact fun h _ => h.elim
          | ok a' =>
            cases concatM (((l.map t).filter fun v => !v.isNil).map g) with
            | error e' => exact fun h _ => h.elim
            | ok b' => exact fun h h' => happ _ _ _ _ h' h

theorem concatM_nils {α ε : Type} (f : Val → Except ε (List α)) : ∀ (l : List Val), (∀ v ∈ l, f v = .ok []) →
    concatM (l.map f) = .ok []
  | [], _ => rfl
  | v :: l, h => by
    rw [List.map_cons, h v (by simp), concatM, concatM_nils f l (fun v hv => h v (by simp [hv]))]
    rfl

theorem filter_nil_iff (t : Val → Val) (l : List Val) :
    (Val.slice ((l.map t).filter fun v => !v.isNil)).isNil = true ↔ ∀ v ∈ l, (t v).isNil = true := by
  rw [isNil_slice, List.isEmpty_iff, List.filter_eq_nil_iff]
  constructor
  · intro h v hv
    have := h (t v) (List.mem_map.2 ⟨v, hv, rfl⟩)
    simpa using this
  · intro h v hv
    obtain ⟨u, hu, rfl⟩ := List.mem_map.1 hv
    simp [h u hu]

theorem kind_val {k : Kind} {v : Val} (h : KindOk k v) : v.isNil = false ∧
    ((k = .str ∧ ∃ b, v = .str b) ∨ (k ≠ .str ∧ tidy (.simple k) v = v)) := by
  cases k <;> cases v <;> simp [KindOk, Val.isNil, tidy] at h ⊢

/-- What is tidied to nil gives no attributes. -/
theorem attr_nil (io : FloatIO) (n : Name) : ∀ (s : Sch) (v : Val), s.onePtr = true → Typed s v → (tidy s v).isNil = true →
    marshalAttr io s n v = .ok []
  | .simple k, v, _, ht, hn => by
    simp only [Typed] at ht
    rcases (kind_val ht).2 with ⟨rfl, b, rfl⟩ | ⟨_, h⟩
    · simp [tidy, Val.isNil] at hn
    · rw [h, (kind_val ht).1] at hn; cases hn
  | .ptr s, v, hf, ht, hn => by
    cases v with
    | ptr o =>
      cases o with
      | none => simp [marshalAttr]
      | some v =>
        simp only [Typed] at ht
        simp only [tidy] at hn
        have hn' : (tidy s v).isNil = true := by
          cases h : (tidy s v).isNil
          · rw [h] at hn; simp [Val.isNil] at hn
          · rfl
        cases s with
        | ptr s => simp [Sch.onePtr] at hf
        | simple k =>
          have ih := attr_nil io n (.simple k) v rfl ht hn'
          simpa only [marshalAttr] using ih
        | slice s =>
          have ih := attr_nil io n (.slice s) v (by simpa [Sch.onePtr] using hf) ht hn'
          simpa only [marshalAttr] using ih
        | name => cases v <;> simp_all [Typed, tidy, Val.isNil]
        | attr => cases v <;> simp_all [Typed, tidy, Val.isNil]
        | struct _ _ _ _ => cases v <;> simp_all [Typed, tidy, Val.isNil]
        | bad e => simp [Typed] at ht
    | _ => simp [Typed] at ht
  | .slice s, v, hf, ht, hn => by
    cases v with
    | slice l =>
      simp only [Typed] at ht
      simp only [tidy] at hn
      rw [filter_nil_iff] at hn
      simp only [marshalAttr]
      exact concatM_nils _ l fun v hv => attr_nil io n s v (by simpa [Sch.onePtr] using hf) (ht v hv) (hn v hv)
    | _ => simp [Typed] at ht
  | .name, v, _, ht, hn => by cases v <;> simp_all [Typed, tidy, Val.isNil]
  | .attr, v, _, ht, hn => by cases v <;> simp_all [Typed, tidy, Val.isNil]
  | .struct _ _ _ _, v, _, ht, hn => by cases v <;> simp_all [Typed, tidy, Val.isNil]
  | .bad e, v, _, ht, _ => by simp [Typed] at ht

theorem simple_refl {α ε : Type} {R : α → α → Prop} (h : ∀ a, R a a) (r : Except ε α) : Rel R r r := by
  cases r with
  | error e => rfl
  | ok a => exact h a

theorem forall2_refl (l : List Attr) : List.Forall₂ AttrSim l l := by
  induction l with
  | nil => exact .nil
  | cons a l ih => exact .cons (.refl a) ih

/-- The attributes of a tidied value. -/
theorem attr_tidy (io : FloatIO) (n : Name) (hd : declName n = false) : ∀ (s : Sch) (v : Val), s.onePtr = true → Typed s v →
    (tidy s v).isNil = false → Rel (List.Forall₂ AttrSim) (marshalAttr io s n v) (marshalAttr io s n (tidy s v))
  | .simple k, v, _, ht, hn => by
    simp only [Typed] at ht
    rcases (kind_val ht).2 with ⟨rfl, b, rfl⟩ | ⟨_, h⟩
    · simp only [tidy, marshalAttr, simpleAttr, marshalSimple, Rel]
      exact .cons ⟨rfl, (escapeString_clean b).symm, fun h => by rw [hd] at h; cases h⟩ .nil
    · rw [h]; exact simple_refl forall2_refl _
  | .ptr s, v, hf, ht, hn => by
    cases v with
    | ptr o =>
      cases o with
      | none => simp [tidy, Val.isNil] at hn
      | some v =>
        simp only [Typed] at ht
        simp only [tidy] at hn ⊢
        have hn' : (tidy s v).isNil = false := by
          cases h : (tidy s v).isNil
          · rfl
          · rw [h] at hn; simp [Val.isNil] at hn
        rw [hn'] at hn ⊢
        simp only [Bool.false_eq_true, if_false] at hn ⊢
        cases s with
        | ptr s => simp [Sch.onePtr] at hf
        | simple k =>
          have ih := attr_tidy io n hd (.simple k) v rfl ht hn'
          simpa only [marshalAttr] using ih
        | slice s =>
          have ih := attr_tidy io n hd (.slice s) v (by simpa [Sch.onePtr] using hf) ht hn'
          simpa only [marshalAttr] using ih
        | attr =>
          cases v with
          | attr a => simp only [marshalAttr, tidy, Rel]; exact .cons (attrSim_tidy a) .nil
          | _ => simp [Typed] at ht
        | name =>
          cases v with
          | name a => simp only [marshalAttr, tidy, Rel]
          | _ => simp [Typed] at ht
        | struct _ _ _ _ =>
          cases v with
          | struct _ _ => simp only [marshalAttr, tidy, Rel]
          | _ => simp [Typed] at ht
        | bad e => simp [Typed] at ht
    | _ => simp [Typed] at ht
  | .slice s, v, hf, ht, hn => by
    have hf : s.onePtr = true := by simpa [Sch.onePtr] using hf
    cases v with
    | slice l =>
      simp only [Typed] at ht
      simp only [tidy, marshalAttr]
      exact concatM_tidy _ .nil (fun _ _ _ _ => forall2_append) _ _ (tidy s) l
        (fun v hv h => attr_nil io n s v hf (ht v hv) h) (fun v hv h => attr_tidy io n hd s v hf (ht v hv) h)
    | _ => simp [Typed] at ht
  | .name, v, _, ht, hn => by
    cases v with
    | name a => simp only [marshalAttr, tidy, Rel]
    | _ => simp [Typed] at ht
  | .attr, v, _, ht, hn => by
    cases v with
    | attr a => simp only [marshalAttr, tidy, Rel]; exact .cons (attrSim_tidy a) .nil
    | _ => simp [Typed] at ht
  | .struct _ _ _ _, v, _, ht, hn => by
    cases v with
    | struct _ _ => simp only [marshalAttr, tidy, Rel]
    | _ => simp [Typed] at ht
  | .bad e, v, _, ht, _ => by simp [Typed] at ht

theorem isEmpty_nil (s : Sch) (v : Val) (h : v.isNil = true) : isEmpty s v = true := by
  cases v with
  | ptr o => cases o with
    | none => cases s <;> first | rfl | (rename_i k; cases k <;> rfl)
    | some _ => simp [Val.isNil] at h
  | slice l => cases l with
    | nil => cases s <;> first | rfl | (rename_i k; cases k <;> rfl)
    | cons _ _ => simp [Val.isNil] at h
  | _ => simp [Val.isNil] at h

theorem isEmpty_tidy : ∀ (s : Sch) (v : Val), Typed s v → (tidy s v).isNil = false →
    isEmpty s (tidy s v) = isEmpty s v
  | .simple k, v, ht, hn => by
    simp only [Typed] at ht
    rcases (kind_val ht).2 with ⟨rfl, b, rfl⟩ | ⟨_, h⟩
    · simp only [tidy, isEmpty]
      rw [Bool.eq_iff_iff, beq_iff_eq, beq_iff_eq]
      exact clean_nil b
    · rw [h]
  | .ptr s, v, ht, hn => by
    cases v with
    | ptr o =>
      cases o with
      | none => simp [tidy, Val.isNil] at hn
      | some v =>
        simp only [tidy] at hn ⊢
        split at hn
        · simp [Val.isNil] at hn
        · rename_i h; simp only [if_neg h, isEmpty, Option.isNone]
    | _ => simp [Typed] at ht
  | .slice s, v, ht, hn => by
    cases v with
    | slice l =>
      simp only [tidy] at hn ⊢
      rw [isNil_slice] at hn
      simp only [isEmpty]
      rw [hn]
      cases l with
      | nil => simp at hn
      | cons _ _ => rfl
    | _ => simp [Typed] at ht
  | .name, v, ht, hn => by cases v <;> simp_all [Typed, tidy]
  | .attr, v, ht, hn => by cases v <;> simp_all [Typed, tidy, isEmpty]
  | .struct _ _ _ _, v, ht, hn => by cases v <;> simp_all [Typed, tidy, isEmpty]
  | .bad e, v, ht, _ => by simp [Typed] at ht

theorem tidy_absent : ∀ (s : Sch) (v : Val), (tidy s v).isAbsent = v.isAbsent
  | .simple k, v => by cases k <;> cases v <;> rfl
  | .ptr s, v => by
    cases v with
    | ptr o => cases o with
      | none => rfl
      | some v => simp only [tidy]; split <;> rfl
    | _ => rfl
  | .slice s, v => by cases v <;> rfl
  | .attr, v => by cases v <;> rfl
  | .struct _ _ _ _, v => by cases v <;> rfl
  | .name, v => by cases v <;> rfl
  | .bad _, v => by cases v <;> rfl

theorem tidy_nil_of_nil : ∀ (s : Sch) (v : Val), v.isNil = true → (tidy s v).isNil = true := by
  intro s v h
  cases v with
  | ptr o => cases o with
    | none => cases s <;> first | rfl | (rename_i k; cases k <;> rfl)
    | some _ => simp [Val.isNil] at h
  | slice l => cases l with
    | nil => cases s <;> first | rfl | (rename_i k; cases k <;> rfl)
    | cons _ _ => simp [Val.isNil] at h
  | _ => simp [Val.isNil] at h

theorem tidies_get : ∀ (infos : List FInfo) (subs : List Sch) (vs : List Val) (i : Nat) (w : Val),
    (tidies infos subs vs)[i]? = some w → ∃ v, vs[i]? = some v ∧ v.isAbsent = w.isAbsent
  | [], subs, vs, i, w, h => ⟨w, by simpa [tidies] using h, rfl⟩
  | fi :: fis, [], vs, i, w, h => ⟨w, by simpa [tidies] using h, rfl⟩
  | fi :: fis, s :: ss, [], i, w, h => ⟨w, by simpa [tidies] using h, rfl⟩
  | fi :: fis, s :: ss, v :: vs, 0, w, h => by
    simp only [tidies, List.getElem?_cons_zero, Option.some.injEq] at h
    refine ⟨v, rfl, ?_⟩
    rw [← h]
    split
    · rfl
    · exact (tidy_absent s v).symm
  | fi :: fis, s :: ss, v :: vs, i + 1, w, h => by
    simp only [tidies, List.getElem?_cons_succ] at h ⊢
    exact tidies_get fis ss vs i w h

mutual
theorem tidy_typed : ∀ (s : Sch) (v : Val), Typed s v → Typed s (tidy s v)
  | .simple k, v, ht => by
    simp only [Typed] at ht ⊢
    rcases (kind_val ht).2 with ⟨rfl, b, rfl⟩ | ⟨_, h⟩
    · simp [tidy, KindOk]
    · rw [h]; exact ht
  | .ptr s, v, ht => by
    cases v with
    | ptr o =>
      cases o with
      | none => simpa [tidy] using ht
      | some v =>
        simp only [tidy]
        simp only [Typed] at ht
        split
        · simp only [Typed]
        · simp only [Typed]; exact tidy_typed s v ht
    | _ => simp [Typed] at ht
  | .slice s, v, ht => by
    cases v with
    | slice l =>
      simp only [tidy, Typed] at ht ⊢
      intro v hv
      obtain ⟨u, hu, rfl⟩ := List.mem_map.1 (List.mem_of_mem_filter hv)
      exact tidy_typed s u (ht u hu)
    | _ => simp [Typed] at ht
  | .name, v, ht => by cases v <;> simp_all [Typed, tidy]
  | .attr, v, ht => by cases v <;> simp_all [Typed, tidy]
  | .struct tn xn infos subs, v, ht => by
    cases v with
    | struct xv vs =>
      simp only [tidy, Typed] at ht ⊢
      refine ⟨?_, tidies_typed infos subs vs ht.2⟩
      intro i j fi fj vi vj h1 h2 h3 h4
      obtain ⟨ui, e1, e2⟩ := tidies_get infos subs vs i vi h3
      obtain ⟨uj, f1, f2⟩ := tidies_get infos subs vs j vj h4
      rw [← e2, ← f2]
      exact ht.1 i j fi fj ui uj h1 h2 e1 f1
    | _ => simp [Typed] at ht
  | .bad e, v, ht => by simp [Typed] at ht
theorem tidies_typed : ∀ (infos : List FInfo) (subs : List Sch) (vs : List Val), Typeds subs vs →
    Typeds subs (tidies infos subs vs)
  | [], subs, vs, h => by simpa [tidies] using h
  | fi :: fis, [], vs, h => by simpa [tidies] using h
  | fi :: fis, s :: ss, [], h => by simpa [tidies] using h
  | fi :: fis, s :: ss, v :: vs, h => by
    simp only [Typeds, tidies] at h ⊢
    refine ⟨?_, tidies_typed fis ss vs h.2⟩
    split
    · exact h.1
    · rw [tidy_absent]
      exact h.1.imp_right (tidy_typed s v)
end

/-! ### The items of a tidied value -/

theorem marshal_nil (io : FloatIO) (ns : Bytes) (fi : Option FInfo) : ∀ (s : Sch) (v : Val), Typed s v →
    (tidy s v).isNil = true → marshalV io ns fi s v = .ok []
  | .simple k, v, ht, hn => by
    simp only [Typed] at ht
    rcases (kind_val ht).2 with ⟨rfl, b, rfl⟩ | ⟨_, h⟩
    · simp [tidy, Val.isNil] at hn
    · rw [h, (kind_val ht).1] at hn; cases hn
  | .ptr s, v, ht, hn => by
    cases v with
    | ptr o =>
      cases o with
      | none => simp [marshalV]
      | some v =>
        simp only [Typed] at ht
        simp only [tidy] at hn
        have hn' : (tidy s v).isNil = true := by
          cases h : (tidy s v).isNil
          · rw [h] at hn; simp [Val.isNil] at hn
          · rfl
        simp only [marshalV]
        exact marshal_nil io ns fi s v ht hn'
    | _ => simp [Typed] at ht
  | .slice s, v, ht, hn => by
    cases v with
    | slice l =>
      simp only [Typed] at ht
      simp only [tidy] at hn
      rw [filter_nil_iff] at hn
      simp only [marshalV]
      refine concatM_nils _ l fun v hv => ?_
      rw [marshal_nil io ns fi s v (ht v hv) (hn v hv)]
      split <;> rfl
    | _ => simp [Typed] at ht
  | .name, v, ht, hn => by cases v <;> simp_all [Typed, tidy, Val.isNil]
  | .attr, v, ht, hn => by cases v <;> simp_all [Typed, tidy, Val.isNil]
  | .struct _ _ _ _, v, ht, hn => by cases v <;> simp_all [Typed, tidy, Val.isNil]
  | .bad e, v, ht, _ => by simp [Typed] at ht

theorem charText_nil (io : FloatIO) : ∀ (s : Sch) (v : Val), Typed s v → (tidy s v).isNil = true → charText io s v = []
  | .simple k, v, ht, hn => by
    simp only [Typed] at ht
    rcases (kind_val ht).2 with ⟨rfl, b, rfl⟩ | ⟨_, h⟩
    · simp [tidy, Val.isNil] at hn
    · rw [h, (kind_val ht).1] at hn; cases hn
  | .ptr s, v, ht, hn => by
    cases v with
    | ptr o =>
      cases o with
      | none => rfl
      | some v =>
        simp only [Typed] at ht
        simp only [tidy] at hn
        have hn' : (tidy s v).isNil = true := by
          cases h : (tidy s v).isNil
          · rw [h] at hn; simp [Val.isNil] at hn
          · rfl
        simp only [charText]
        exact charText_nil io s v ht hn'
    | _ => simp [Typed] at ht
  | .slice s, v, ht, hn => by cases v <;> simp [charText]
  | .name, v, ht, hn => by cases v <;> simp [charText]
  | .attr, v, ht, hn => by cases v <;> simp [charText]
  | .struct _ _ _ _, v, ht, hn => by cases v <;> simp [charText]
  | .bad e, v, ht, _ => by simp [Typed] at ht

mutual
theorem itemSim_refl : ∀ i : Item, ItemSim i i
  | .elem n as ks => by simp only [ItemSim]; exact ⟨trivial, forall2_refl as, itemsSim_refl ks⟩
  | .text b => by simp only [ItemSim]
  | .str b => by simp only [ItemSim]
  | .raw b => by simp only [ItemSim]
theorem itemsSim_refl : ∀ l : List Item, ItemsSim l l
  | [] => by simp only [ItemsSim]
  | i :: l => by simp only [ItemsSim]; exact ⟨itemSim_refl i, itemsSim_refl l⟩
end

theorem charText_tidy (io : FloatIO) : ∀ (s : Sch) (v : Val), Typed s v → ItemsSim (charText io s v) (charText io s (tidy s v))
  | .simple k, v, ht => by
    simp only [Typed] at ht
    rcases (kind_val ht).2 with ⟨rfl, b, rfl⟩ | ⟨_, h⟩
    · simp only [tidy, charText, marshalSimple, ItemsSim, ItemSim]
      exact ⟨(escapeText_clean false b).symm, trivial⟩
    · rw [h]; exact itemsSim_refl _
  | .ptr s, v, ht => by
    cases v with
    | ptr o =>
      cases o with
      | none => exact itemsSim_refl _
      | some v =>
        simp only [Typed] at ht
        simp only [tidy]
        split
        · rename_i h
          simp only [charText]
          rw [charText_nil io s v ht h]
          exact itemsSim_refl _
        · simp only [charText]
          exact charText_tidy io s v ht
    | _ => simp [Typed] at ht
  | .slice s, v, ht => by cases v <;> simp [charText, ItemsSim]
  | .name, v, ht => by cases v <;> simp [charText, ItemsSim]
  | .attr, v, ht => by cases v <;> simp [charText, ItemsSim]
  | .struct _ _ _ _, v, ht => by cases v <;> simp [charText, ItemsSim]
  | .bad e, v, ht => by simp [Typed] at ht

theorem keeps_attr (fi : FInfo) (hm : fi.mode = .attr ∨ fi.mode = .anyAttr)
    (h2 : fi.mode = .anyAttr → declName ⟨fi.xmlns, joinPrefixed fi.pre fi.loc⟩ = false) (hk : keeps fi = false) :
    declName ⟨fi.xmlns, joinPrefixed fi.pre fi.loc⟩ = false := by
  rcases hm with hm | hm
  · unfold keeps at hk
    rw [hm] at hk
    simpa using hk
  · exact h2 hm

theorem attrs_tidy (io : FloatIO) : ∀ (infos : List FInfo) (subs : List Sch) (vs : List Val), onePtrs subs = true →
    (∀ f ∈ infos, f.mode = .anyAttr → declName ⟨f.xmlns, joinPrefixed f.pre f.loc⟩ = false) → Typeds subs vs →
    Rel (List.Forall₂ AttrSim) (marshalAttrs io infos subs vs) (marshalAttrs io infos subs (tidies infos subs vs))
  | [], subs, vs, _, _, _ => by simp only [marshalAttrs, tidies, Rel]; exact .nil
  | fi :: fis, [], vs, _, _, _ => by simp only [marshalAttrs, tidies, Rel]; exact .nil
  | fi :: fis, s :: ss, [], _, _, _ => by simp only [marshalAttrs, tidies, Rel]; exact .nil
  | fi :: fis, s :: ss, v :: vs, hf, hd, ht => by
    simp only [onePtrs, Bool.and_eq_true] at hf
    simp only [Typeds] at ht
    have ih := attrs_tidy io fis ss vs hf.2 (fun f hfm => hd f (by simp [hfm])) ht.2
    simp only [tidies, marshalAttrs]
    by_cases hm : fi.mode = .attr ∨ fi.mode = .anyAttr
    swap
    · simp only [if_neg hm]; exact ih
    simp only [if_pos hm]
    have glue : ∀ r r' : Except MErr (List Attr), Rel (List.Forall₂ AttrSim) r r' →
        Rel (List.Forall₂ AttrSim)
          (match r with
            | .error e => .error e
            | .ok a => match marshalAttrs io fis ss vs with
              | .error e => .error e
              | .ok b => .ok (a ++ b))
          (match r' with
            | .error e => .error e
            | .ok a => match marshalAttrs io fis ss (tidies fis ss vs) with
              | .error e => .error e
              | .ok b => .ok (a ++ b)) := by
      intro r r' h
      cases r with
      | error e =>
        cases r' with
        | error e' => exact h
        | ok b => exact h.elim
      | ok a =>
        cases r' with
        | error e' => exact h.elim
        | ok b =>
          dsimp only
          revert ih
          cases marshalAttrs io fis ss vs with
          | error e =>
            cases marshalAttrs io fis ss (tidies fis ss vs) with
            | error e' => exact fun ih => ih
            | ok b => exact fun ih => ih.elim
          | ok a' =>
            cases marshalAttrs io fis ss (tidies fis ss vs) with
            | error e' => exact fun ih => ih.elim
            | ok b' => exact fun ih => forall2_append h ih
    have skip : ∀ r' : Except MErr (List Attr), r' = .ok [] →
        Rel (List.Forall₂ AttrSim)
          (match r' with
            | .error e => .error e
            | .ok a => match marshalAttrs io fis ss vs with
              | .error e => .error e
              | .ok b => .ok (a ++ b)) (marshalAttrs io fis ss (tidies fis ss vs)) := by
      rintro r' rfl
      have := glue (.ok []) (.ok []) .nil
      revert this
      dsimp only
      cases marshalAttrs io fis ss (tidies fis ss vs) <;> exact fun h => h
    cases hk : keeps fi with
    | true =>
      simp only [if_true]
      split
      · exact ih
      · exact glue _ _ (simple_refl forall2_refl _)
    | false =>
      simp only [Bool.false_eq_true, if_false]
      have hdn := keeps_attr fi hm (hd fi (by simp)) hk
      rw [tidy_absent]
      rcases ht.1 with ha | ht1
      · have hv : v = .absent := by cases v <;> first | rfl | (simp [Val.isAbsent] at ha)
        subst hv
        have : tidy s .absent = .absent := by cases s <;> first | rfl | (rename_i k; cases k <;> rfl)
        rw [this]
        split
        · exact ih
        · exact glue _ _ (simple_refl forall2_refl _)
      · have hab := typed_present s v ht1
        simp only [hab, Bool.false_eq_true, or_false]
        cases hn : (tidy s v).isNil with
        | true =>
          have h1 := attr_nil io ⟨fi.xmlns, joinPrefixed fi.pre fi.loc⟩ s v hf.1 ht1 hn
          have h2 : marshalAttr io s ⟨fi.xmlns, joinPrefixed fi.pre fi.loc⟩ (tidy s v) = .ok [] ∧ isEmpty s (tidy s v) = true := by
            refine ⟨?_, isEmpty_nil s _ hn⟩
            exact attr_nil io _ s _ hf.1 (tidy_typed s v ht1) (tidy_nil_of_nil s _ hn)
          rw [h1, h2.1]
          by_cases ho : fi.omitE = true ∧ isEmpty s v = true
          · rw [if_pos ho, if_pos ⟨ho.1, h2.2⟩]; exact ih
          · rw [if_neg ho]
            by_cases ho' : fi.omitE = true ∧ isEmpty s (tidy s v) = true
            · rw [if_pos ho']; exact skip _ rfl
            · rw [if_neg ho']; exact glue _ _ (show Rel (List.Forall₂ AttrSim) (.ok []) (.ok []) from .nil)
        | false =>
          rw [isEmpty_tidy s v ht1 hn]
          split
          · exact ih
          · exact glue _ _ (attr_tidy io _ hdn s v hf.1 ht1 hn)

theorem omits_nil (fi : Option FInfo) (s : Sch) (v : Val) (r : Except MErr (List Item)) (h : r = .ok []) :
    (if omits fi s v then .ok [] else r) = .ok [] := by
  rw [h]; split <;> rfl

theorem omits_tidy (fi : Option FInfo) (s : Sch) (v : Val) (ht : Typed s v) (hn : (tidy s v).isNil = false) :
    omits fi s (tidy s v) = omits fi s v := by
  unfold omits
  rw [isEmpty_tidy s v ht hn]

mutual
theorem marshal_tidy (io : FloatIO) : ∀ (s : Sch) (v : Val) (ns : Bytes) (fi : Option FInfo), s.onePtr = true → Typed s v →
    (tidy s v).isNil = false → Rel ItemsSim (marshalV io ns fi s v) (marshalV io ns fi s (tidy s v))
  | .simple k, v, ns, fi, _, ht, hn => by
    simp only [Typed] at ht
    rcases (kind_val ht).2 with ⟨rfl, b, rfl⟩ | ⟨_, h⟩
    · simp only [tidy, marshalV, marshalSimple, Rel, ItemsSim, ItemSim]
      exact ⟨⟨trivial, .nil, (escapeString_clean b).symm, trivial⟩, trivial⟩
    · rw [h]; exact simple_refl itemsSim_refl _
  | .ptr s, v, ns, fi, hf, ht, hn => by
    cases v with
    | ptr o =>
      cases o with
      | none => simp [tidy, Val.isNil] at hn
      | some v =>
        simp only [Typed] at ht
        simp only [tidy] at hn ⊢
        have hn' : (tidy s v).isNil = false := by
          cases h : (tidy s v).isNil
          · rfl
          · rw [h] at hn; simp [Val.isNil] at hn
        rw [hn']
        simp only [Bool.false_eq_true, if_false, marshalV]
        have hf' : s.onePtr = true := by
          cases s with
          | ptr s => simp [Sch.onePtr] at hf
          | _ => simpa [Sch.onePtr] using hf
        exact marshal_tidy io s v ns fi hf' ht hn'
    | _ => simp [Typed] at ht
  | .slice s, v, ns, fi, hf, ht, hn => by
    have hf : s.onePtr = true := by simpa [Sch.onePtr] using hf
    cases v with
    | slice l =>
      simp only [Typed] at ht
      simp only [tidy, marshalV]
      refine concatM_tidy ItemsSim (by simp only [ItemsSim]) itemsSim_append _ _ (tidy s) l ?_ ?_
      · intro v hv h
        exact omits_nil fi s v _ (marshal_nil io ns fi s v (ht v hv) h)
      · intro v hv h
        rw [omits_tidy fi s v (ht v hv) h]
        split
        · exact itemsSim_refl []
        · exact marshal_tidy io s v ns fi hf (ht v hv) h
    | _ => simp [Typed] at ht
  | .name, v, ns, fi, _, ht, hn => by
    cases v with
    | name a => simp only [marshalV, tidy, Rel]
    | _ => simp [Typed] at ht
  | .attr, v, ns, fi, _, ht, hn => by
    cases v with
    | attr a => simp only [marshalV, tidy, Rel]
    | _ => simp [Typed] at ht
  | .struct tn xn infos subs, v, ns, fi, hf, ht, hn => by
    cases v with
    | struct xv vs =>
      simp only [Sch.onePtr, Bool.and_eq_true, List.all_eq_true, Bool.or_eq_true, bne_iff_ne, Bool.not_eq_true'] at hf
      simp only [Typed] at ht
      simp only [tidy, marshalV]
      have ha := attrs_tidy io infos subs vs hf.2
        (fun f hfm hm => (hf.1 f hfm).resolve_left (fun h => h hm)) ht.2
      have hk := fields_tidy io infos subs vs (startName xn xv fi tn).space hf.2 ht.2
      revert ha
      cases marshalAttrs io infos subs vs with
      | error e =>
        cases marshalAttrs io infos subs (tidies infos subs vs) with
        | error e' => exact fun h => h
        | ok b => exact fun h => h.elim
      | ok a =>
        cases marshalAttrs io infos subs (tidies infos subs vs) with
        | error e' => exact fun h => h.elim
        | ok b =>
          intro ha
          dsimp only
          revert hk
          cases marshalFields io (startName xn xv fi tn).space infos subs vs with
          | error e =>
            cases marshalFields io (startName xn xv fi tn).space infos subs (tidies infos subs vs) with
            | error e' => exact fun h => h
            | ok b => exact fun h => h.elim
          | ok a' =>
            cases marshalFields io (startName xn xv fi tn).space infos subs (tidies infos subs vs) with
            | error e' => exact fun h => h.elim
            | ok b' =>
              intro hk
              simp only [Rel, ItemsSim, ItemSim]
              exact ⟨⟨trivial, forall2_append ha (forall2_refl _), hk⟩, trivial⟩
    | _ => simp [Typed] at ht
  | .bad e, v, ns, fi, _, ht, _ => by simp [Typed] at ht
theorem fields_tidy (io : FloatIO) : ∀ (infos : List FInfo) (subs : List Sch) (vs : List Val) (ns : Bytes), onePtrs subs = true →
    Typeds subs vs → Rel ItemsSim (marshalFields io ns infos subs vs) (marshalFields io ns infos subs (tidies infos subs vs))
  | [], subs, vs, _, _, _ => by simp only [marshalFields, Rel, ItemsSim]
  | fi :: fis, [], vs, _, _, _ => by simp only [marshalFields, Rel, ItemsSim]
  | fi :: fis, s :: ss, [], _, _, _ => by simp only [marshalFields, tidies, Rel, ItemsSim]
  | fi :: fis, s :: ss, v :: vs, ns, hf, ht => by
    simp only [onePtrs, Bool.and_eq_true] at hf
    simp only [Typeds] at ht
    have ih := fields_tidy io fis ss vs ns hf.2 ht.2
    simp only [tidies, marshalFields]
    have hone : Rel ItemsSim (fieldItems io fi s v (marshalV io ns (some fi) s v))
        (fieldItems io fi s (if keeps fi then v else tidy s v)
          (marshalV io ns (some fi) s (if keeps fi then v else tidy s v))) := by
      cases hk : keeps fi with
      | true => simp only [if_true]; exact simple_refl itemsSim_refl _
      | false =>
        simp only [Bool.false_eq_true, if_false]
        unfold fieldItems
        rw [tidy_absent]
        by_cases h1 : fi.mode = .attr ∨ fi.mode = .anyAttr ∨ v.isAbsent = true
        · rw [if_pos h1, if_pos h1]; exact itemsSim_refl []
        rw [if_neg h1, if_neg h1]
        have ht1 : Typed s v := ht.1.resolve_left fun h => h1 (Or.inr (Or.inr h))
        by_cases h2 : fi.mode = .chardata
        · rw [if_pos h2, if_pos h2]; exact charText_tidy io s v ht1
        rw [if_neg h2, if_neg h2]
        by_cases h3 : fi.mode = .innerxml
        · unfold keeps at hk; rw [h3] at hk; simp at hk
        rw [if_neg h3, if_neg h3]
        cases hn : (tidy s v).isNil with
        | true =>
          rw [omits_nil (some fi) s v _ (marshal_nil io ns (some fi) s v ht1 hn),
            omits_nil (some fi) s _ _ (marshal_nil io ns (some fi) s _ (tidy_typed s v ht1) (tidy_nil_of_nil s _ hn))]
          exact itemsSim_refl []
        | false =>
          rw [omits_tidy (some fi) s v ht1 hn]
          split
          · exact itemsSim_refl []
          · exact marshal_tidy io s v ns (some fi) hf.1 ht1 hn
    revert hone
    generalize fieldItems io fi s v (marshalV io ns (some fi) s v) = r
    generalize fieldItems io fi s (if keeps fi then v else tidy s v)
          (marshalV io ns (some fi) s (if keeps fi then v else tidy s v)) = r'
    cases r with
    | error e =>
      cases r' with
      | error e' => exact fun h => h
      | ok b => exact fun h => h.elim
    | ok a =>
      cases r' with
      | error e' => exact fun h => h.elim
      | ok b =>
        intro h
        dsimp only
        revert ih
        cases marshalFields io ns fis ss vs with
        | error e =>
          cases marshalFields io ns fis ss (tidies fis ss vs) with
          | error e' => exact fun ih => ih
          | ok b => exact fun ih => ih.elim
        | ok a' =>
          cases marshalFields io ns fis ss (tidies fis ss vs) with
          | error e' => exact fun ih => ih.elim
          | ok b' => exact fun ih => itemsSim_append _ _ _ _ h ih
end

/-- The document of a value is the document of the tidied value. -/
theorem writeDoc_tidy (io : FloatIO) (s : Sch) (v : Val) (indent : Bytes) (hdr : Bool) (hf : s.onePtr = true) (ht : Typed s v) :
    writeDoc io s (tidy s v) indent hdr = writeDoc io s v indent hdr := by
  unfold writeDoc marshal
  cases hn : (tidy s v).isNil with
  | true =>
    rw [marshal_nil io [] none s v ht hn, marshal_nil io [] none s _ (tidy_typed s v ht) (tidy_nil_of_nil s _ hn)]
  | false =>
    have h := marshal_tidy io s v [] none hf ht hn
    revert h
    cases marshalV io [] none s v with
    | error e =>
      cases marshalV io [] none s (tidy s v) with
      | error e' => intro h; simp only [Rel] at h; rw [h]
      | ok b => exact fun h => h.elim
    | ok a =>
      cases marshalV io [] none s (tidy s v) with
      | error e' => exact fun h => h.elim
      | ok b =>
        intro h
        dsimp only
        rw [encode_sim [] indent a b h]

end Verif.Bind

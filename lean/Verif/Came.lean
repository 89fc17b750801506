import Verif.DecText
import Verif.RtAttrs
import Verif.NsSpec
import Verif.MarshalOk
import Verif.Chunk

/-!
What is the case for every value that was read from a document, whatever the document: strings consist of XML characters,
captured element names are those of the field they are in, captured attributes belong to no other field, and lists have no
nil members.
-/
namespace Verif.Bind

open Verif.Xml

/-- A string of XML characters. -/
def LeafCame : Kind → Val → Prop
  | .str, .str b => clean b = b
  | _, _ => True

/-- A captured element name: of an element that the field accepts, or none. -/
def NameCame (fi xn : Option FInfo) (xv : Name) : Prop :=
  tagless xn = true → xv.loc = [] ∨
    (LocOk xv ∧ ∀ f, fi = some f → xv.loc = f.loc ∧ (f.xmlns = [] ∨ xv.space = f.xmlns))

/-- The name in the tag of an `XMLName` is that of the field. -/
def TagSuits (fi xn : Option FInfo) : Prop := ∀ x f, xn = some x → fi = some f → x.loc ≠ [] → x.loc = f.loc

instance (fi xn : Option FInfo) : Decidable (TagSuits fi xn) := by
  cases fi with
  | none => exact isTrue (by rintro x f _ h; cases h)
  | some f =>
    cases xn with
    | none => exact isTrue (by rintro x f h; cases h)
    | some x =>
      exact decidable_of_iff (x.loc ≠ [] → x.loc = f.loc)
        ⟨fun h y g hy hg => by injection hy with hy; injection hg with hg; subst hy; subst hg; exact h, fun h => h x f rfl rfl⟩

/-- A property of what may be between the tags of an element; it holds for nothing. -/
structure Cont where
  ok : Bytes → Prop
  nil : ok []

/-- The value of an `innerxml` field, if any, has the property. -/
def InnerCame (P : Cont) (v : Val) : Prop := ∀ b, v = .str b → P.ok b

mutual
/-- A value as it comes from reading. -/
def Came (P : Cont) (fi : Option FInfo) : Sch → Val → Prop
  | .simple k, v => LeafCame k v
  | .ptr s, .ptr (some v) => v.isNil = false ∧ Came P fi s v
  | .slice s, .slice l => ∀ v ∈ l, v.isNil = false ∧ Came P fi s v
  | .attr, .attr a => LocOk a.name ∧ clean a.value = a.value
  | .struct _ xn infos subs, .struct xv vs => (TagSuits fi xn ∧ NameCame fi xn xv) ∧ AnyOk infos vs ∧ Cames P infos subs vs
  | _, _ => True
/-- The same for all fields; `innerxml` fields hold content. -/
def Cames (P : Cont) : List FInfo → List Sch → List Val → Prop
  | fi :: fis, s :: ss, v :: vs =>
    ((fi.mode ≠ .innerxml → Came P (some fi) s v) ∧ (fi.mode = .innerxml → InnerCame P v)) ∧ Cames P fis ss vs
  | _, _, _ => True
end

/-- `Came` for a value that is about to be read: its name does not matter. -/
def Inner (P : Cont) (fi : Option FInfo) : Sch → Val → Prop
  | .struct _ _ infos subs, .struct _ vs => AnyOk infos vs ∧ Cames P infos subs vs
  | s, v => Came P fi s v

variable {P : Cont}

theorem came_inner {fi : Option FInfo} {s : Sch} {v : Val} (h : Came P fi s v) : Inner P fi s v := by
  unfold Inner
  split
  · simp only [Came] at h; exact h.2
  · exact h

/-- A field that is a struct, not a pointer, has a type with its name. -/
def directOk (f : FInfo) : Sch → Bool
  | .struct _ xn _ _ => decide (TagSuits (some f) xn)
  | _ => true

mutual
/-- All fields that are structs have types with their names. -/
def Sch.zrt : Sch → Bool
  | .ptr s => s.zrt
  | .slice s => s.zrt
  | .struct _ _ infos subs => (infos.zip subs).all (fun p => directOk p.1 p.2) && zrts subs
  | _ => true
/-- The same for several types. -/
def zrts : List Sch → Bool
  | [] => true
  | s :: l => s.zrt && zrts l
end

theorem came_absent (fi : Option FInfo) (s : Sch) : Came P fi s .absent := by
  cases s with
  | simple k => cases k <;> simp [Came, LeafCame]
  | _ => simp [Came]

theorem cames_get : ∀ (F : List FInfo) (S : List Sch) (vs : List Val), Cames P F S vs →
    ∀ (i : Nat) (f : FInfo) (s : Sch) (v : Val), F[i]? = some f → S[i]? = some s → vs[i]? = some v →
      (f.mode ≠ .innerxml → Came P (some f) s v) ∧ (f.mode = .innerxml → InnerCame P v)
  | [], _, _, _, i, f, s, v, h, _, _ => by simp at h
  | _ :: _, [], _, _, i, f, s, v, _, h, _ => by simp at h
  | _ :: _, _ :: _, [], _, i, f, s, v, _, _, h => by simp at h
  | _ :: F, _ :: S, _ :: vs, hc, i, f, s, v, h1, h2, h3 => by
    simp only [Cames] at hc
    cases i with
    | zero => simp at h1 h2 h3; subst h1; subst h2; subst h3; exact hc.1
    | succ i => simp at h1 h2 h3; exact cames_get F S vs hc.2 i f s v h1 h2 h3

theorem cames_of_get : ∀ (F : List FInfo) (S : List Sch) (vs : List Val),
    (∀ (i : Nat) (f : FInfo) (s : Sch) (v : Val), F[i]? = some f → S[i]? = some s → vs[i]? = some v →
      (f.mode ≠ .innerxml → Came P (some f) s v) ∧ (f.mode = .innerxml → InnerCame P v)) → Cames P F S vs
  | [], S, vs, _ => by simp [Cames]
  | _ :: _, [], vs, _ => by simp [Cames]
  | _ :: _, _ :: _, [], _ => by simp [Cames]
  | f :: F, s :: S, v :: vs, h => by
    simp only [Cames]
    exact ⟨h 0 f s v rfl rfl rfl, cames_of_get F S vs fun i f s v h1 h2 h3 =>
      h (i + 1) f s v (by simpa using h1) (by simpa using h2) (by simpa using h3)⟩

/-- The attributes captured in field `i` belong to no other field. -/
def AnyAt (F : List FInfo) (i : Nat) (f : FInfo) (v : Val) : Prop :=
  f.mode = .anyAttr → ∀ l, v = .slice l → ∀ a, .attr a ∈ l → attrField F a.name = some i

/-- What is the case for a field. -/
def FieldCame (P : Cont) (F : List FInfo) (i : Nat) (f : FInfo) (s : Sch) (v : Val) : Prop :=
  ((f.mode ≠ .innerxml → Came P (some f) s v) ∧ (f.mode = .innerxml → InnerCame P v)) ∧ AnyAt F i f v

/-- What is the case for all fields. -/
def Got (P : Cont) (F : List FInfo) (S : List Sch) (vs : List Val) : Prop :=
  ∀ (i : Nat) (f : FInfo) (s : Sch) (v : Val), F[i]? = some f → S[i]? = some s → vs[i]? = some v → FieldCame P F i f s v

theorem got_iff (F : List FInfo) (S : List Sch) (vs : List Val) (h : Fields F S vs) : Got P F S vs ↔ AnyOk F vs ∧ Cames P F S vs := by
  constructor
  · intro hg
    refine ⟨?_, cames_of_get F S vs fun i f s v h1 h2 h3 => (hg i f s v h1 h2 h3).1⟩
    intro i f l h1 h2 h3 a ha
    obtain ⟨s, hs⟩ := get_of_lt (l := S) (i := i) (by have := h.len; have := lt_of_get h1; omega)
    exact (hg i f s _ h1 hs h3).2 h2 l rfl a ha
  · rintro ⟨h1, h2⟩ i f s v g1 g2 g3
    exact ⟨cames_get F S vs h2 i f s v g1 g2 g3, fun hm l hl a ha => h1 i f l g1 hm (by rw [g3, hl]) a ha⟩

/-! ### Zero values -/

theorem fieldRt_inner {f : FInfo} {s : Sch} (h : fieldRt f s = true) (hm : f.mode = .innerxml) : s = .simple .str := by
  unfold fieldRt at h
  rw [hm] at h
  dsimp only at h
  split at h
  · rfl
  · simp at h

theorem innerCame_zero {f : FInfo} {s : Sch} (h : fieldRt f s = true) (hm : f.mode = .innerxml) : InnerCame P s.zero := by
  rw [fieldRt_inner h hm]
  intro b hb
  injection hb with hb
  subst hb
  exact P.nil

theorem innerCame_absent : InnerCame P .absent := by
  intro b hb; cases hb

theorem fieldRt_isAttr {f : FInfo} {s : Sch} (h : fieldRt f s = true) : s.isAttr = false := by
  cases s <;> first | rfl | (unfold fieldRt at h; cases hm : f.mode <;> simp [hm, attrShape, elemShape, oneShape] at h)

mutual
theorem zero_inner (L : List Bytes) : ∀ (s : Sch) (fi : Option FInfo), s.rt L = true → s.zrt = true → s.isAttr = false →
    Inner P fi s s.zero
  | .simple k, fi, _, _, _ => by
    cases k <;> simp only [Inner, Came, Sch.zero, Kind.zero, LeafCame]
    krfl
  | .ptr s, fi, _, _, _ => by simp [Inner, Came, Sch.zero]
  | .slice s, fi, _, _, _ => by simp [Inner, Came, Sch.zero]
  | .name, fi, _, _, _ => by simp [Inner, Came, Sch.zero]
  | .attr, fi, _, _, h => by simp [Sch.isAttr] at h
  | .bad e, fi, _, _, _ => by simp [Inner, Came, Sch.zero]
  | .struct tn xn F S, fi, h, hz, _ => by
    simp only [Sch.rt, Bool.and_eq_true] at h
    simp only [Sch.zrt, Bool.and_eq_true, List.all_eq_true] at hz
    have hs := StructRt.of h.1.1
    simp only [Inner, Sch.zero]
    refine ⟨?_, cames_of_get _ _ _ fun i f s v h1 h2 h3 => ?_⟩
    · intro i f l h1 h2 h3 a ha
      obtain ⟨f', s', g1, g2, g3⟩ := zeros_get F S i _ h3
      rw [h1] at g1; injection g1 with g1; subst g1
      rw [fieldRt_any (hs.rt i f s' h1 g2) h2] at g3
      split at g3
      · simp only [Sch.zero, Val.slice.injEq] at g3
        subst g3; simp at ha
      · cases g3
    · obtain ⟨f', s', g1, g2, g3⟩ := zeros_get F S i _ h3
      rw [h1] at g1; injection g1 with g1; subst g1
      rw [h2] at g2; injection g2 with g2; subst g2
      split at g3
      · rw [g3]
        refine ⟨fun _ => ?_, fun hm => innerCame_zero (hs.rt i f s h1 h2) hm⟩
        have := zeros_inner L S h.2 hz.2 s (List.mem_of_getElem? h2) (some f) (fieldRt_isAttr (hs.rt i f s h1 h2))
        have hd := hz.1 (f, s) (zip_get h1 h2)
        revert this hd
        cases s with
        | struct tn' xn' F' S' =>
          intro this hd
          simp only [Inner, Sch.zero, Came, directOk, decide_eq_true_eq] at this hd ⊢
          exact ⟨⟨hd, fun _ => Or.inl rfl⟩, this⟩
        | _ => exact fun this _ => this
      · rw [g3]; exact ⟨fun _ => came_absent _ _, fun _ => innerCame_absent⟩
theorem zeros_inner (L : List Bytes) : ∀ (S : List Sch), rts L S = true → zrts S = true → ∀ s ∈ S, ∀ (fi : Option FInfo),
    s.isAttr = false → Inner P fi s s.zero
  | [], _, _, s, hs => by simp at hs
  | t :: S, h, hz, s, hs => by
    simp only [rts, zrts, Bool.and_eq_true] at h hz
    intro fi hi
    rcases List.mem_cons.1 hs with e | hs
    · rw [e] at hi ⊢
      exact zero_inner L t fi h.1 hz.1 hi
    · exact zeros_inner L S h.2 hz.2 s hs fi hi
end

theorem zero_came {L : List Bytes} {s : Sch} (f : FInfo) (hr : s.rt L = true) (hz : s.zrt = true) (ha : s.isAttr = false)
    (hd : directOk f s = true) : Came P (some f) s s.zero := by
  have := zero_inner (P := P) L s (some f) hr hz ha
  revert this hd
  cases s with
  | struct tn' xn' F' S' =>
    intro hd this
    simp only [Inner, Sch.zero, Came, directOk, decide_eq_true_eq] at this hd ⊢
    exact ⟨⟨hd, fun _ => Or.inl rfl⟩, this⟩
  | _ => exact fun _ this => this

/-- The conditions on the types of fields. -/
structure Rts (L : List Bytes) (F : List FInfo) (S : List Sch) : Prop where
  rt : rts L S = true
  z : zrts S = true
  direct : ∀ (i : Nat) (f : FInfo) (s : Sch), F[i]? = some f → S[i]? = some s → directOk f s = true

theorem Rts.of {L : List Bytes} {tn : Bytes} {xn : Option FInfo} {F : List FInfo} {S : List Sch}
    (hr : (Sch.struct tn xn F S).rt L = true) (hz : (Sch.struct tn xn F S).zrt = true) : StructRt xn F S ∧ Rts L F S := by
  simp only [Sch.rt, Bool.and_eq_true] at hr
  simp only [Sch.zrt, Bool.and_eq_true, List.all_eq_true] at hz
  exact ⟨StructRt.of hr.1.1, hr.2, hz.2, fun i f s h1 h2 => hz.1 (f, s) (zip_get h1 h2)⟩

theorem rts_get (L : List Bytes) : ∀ (S : List Sch), rts L S = true → ∀ (i : Nat) (s : Sch), S[i]? = some s → s.rt L = true
  | [], _, i, s, h => by simp at h
  | t :: S, hr, i, s, h => by
    simp only [rts, Bool.and_eq_true] at hr
    cases i with
    | zero => simp at h; subst h; exact hr.1
    | succ i => simp at h; exact rts_get L S hr.2 i s h

theorem zrts_get : ∀ (S : List Sch), zrts S = true → ∀ (i : Nat) (s : Sch), S[i]? = some s → s.zrt = true
  | [], _, i, s, h => by simp at h
  | t :: S, hr, i, s, h => by
    simp only [zrts, Bool.and_eq_true] at hr
    cases i with
    | zero => simp at h; subst h; exact hr.1
    | succ i => simp at h; exact zrts_get S hr.2 i s h

theorem field_zero {L : List Bytes} {xn : Option FInfo} {F : List FInfo} {S : List Sch} (hs : StructRt xn F S)
    (hr : Rts L F S) (i : Nat) (f : FInfo) (s : Sch) (h1 : F[i]? = some f) (h2 : S[i]? = some s) :
    FieldCame P F i f s s.zero := by
  refine ⟨⟨fun _ => zero_came f (rts_get L S hr.rt i s h2) (zrts_get S hr.z i s h2) (fieldRt_isAttr (hs.rt i f s h1 h2))
    (hr.direct i f s h1 h2), innerCame_zero (hs.rt i f s h1 h2)⟩, ?_⟩
  intro hm l hl a ha
  rw [fieldRt_any (hs.rt i f s h1 h2) hm] at hl
  simp only [Sch.zero, Val.slice.injEq] at hl
  subst hl; simp at ha

theorem field_absent (F : List FInfo) (i : Nat) (f : FInfo) (s : Sch) : FieldCame P F i f s .absent :=
  ⟨⟨fun _ => came_absent _ _, fun _ => innerCame_absent⟩, fun _ l hl => by cases hl⟩

/-! ### Updates -/

theorem updField_got {L : List Bytes} {xn : Option FInfo} {F : List FInfo} {S : List Sch} {vs vs' : List Val}
    (hs : StructRt xn F S) (hr : Rts L F S) (hf : Fields F S vs) (hg : Got P F S vs) (i : Nat)
    (g : Sch → Val → Except RErr Val)
    (hgg : ∀ f s v w, F[i]? = some f → S[i]? = some s → s.ok = true → Typed s v → FieldCame P F i f s v → g s v = .ok w →
      FieldCame P F i f s w)
    (h : updField F S vs i g = .ok vs') : Got P F S vs' := by
  unfold updField at h
  split at h
  · rename_i s v hsi hv
    have hi : i < vs.length := by rw [← initGroup_length F S vs i]; exact lt_of_get hv
    obtain ⟨hF, s', v', h1, h2, h3, h4⟩ := initGroup_fields hf i hi
    rw [hsi] at h1; injection h1 with h1; subst h1
    rw [hv] at h2; injection h2 with h2; subst h2
    have hg' : Got P F S (initGroup F S vs i) := by
      intro j f s w g1 g2 g3
      have hj : j < vs.length := by rw [← initGroup_length F S vs i]; exact lt_of_get g3
      obtain ⟨fj, sj, vj, a1, a2, a3, _⟩ := hf.at hj
      obtain ⟨fi, si, vi, b1, b2, b3, _⟩ := hf.at hi
      rw [initGroup_get hf i j fi fj vi vj sj b1 b3 a1 a3 a2] at g3
      rw [g1] at a1; injection a1 with a1; subst a1
      rw [g2] at a2; injection a2 with a2; subst a2
      injection g3 with g3
      rw [← g3]
      split
      · exact field_zero hs hr j f s g1 g2
      · exact hg j f s vj g1 g2 a3
    split at h
    · rename_i w hw
      injection h with h; subst h
      intro j f s1 x g1 g2 g3
      rw [List.getElem?_set] at g3
      split at g3
      · rename_i hij; subst hij
        rw [if_pos (by rw [initGroup_length]; exact hi)] at g3
        injection g3 with g3; subst g3
        rw [hsi] at g2; injection g2 with g2; subst g2
        exact hgg f s v w g1 hsi h4 h3 (hg' i f s v g1 hsi hv) hw
      · exact hg' j f s1 x g1 g2 g3
    · cases h
  · cases h

theorem copySimple_came (io : FloatIO) (k : Kind) (src : Bytes) (v : Val) (hsrc : clean src = src)
    (h : copySimple io k src = .ok v) : LeafCame k v ∧ v.isNil = false := by
  cases k <;> simp only [copySimple] at h
  · injection h with h; subst h; exact ⟨hsrc, rfl⟩
  all_goals
    split at h
    · injection h with h; subst h; exact ⟨trivial, rfl⟩
    · split at h
      · injection h with h; subst h; exact ⟨trivial, rfl⟩
      · cases h

theorem readSimpleAttr_came (io : FloatIO) (k : Kind) (src : Bytes) (v : Val) (hsrc : clean src = src)
    (h : readSimpleAttr io k src = .ok v) : LeafCame k v ∧ v.isNil = false := by
  unfold readSimpleAttr at h
  split at h
  · split at h
    · injection h with h; subst h; exact ⟨trivial, rfl⟩
    · cases h
  · split at h
    · injection h with h; subst h; exact ⟨trivial, rfl⟩
    · split at h
      · injection h with h; subst h; exact ⟨trivial, rfl⟩
      · cases h
  · exact copySimple_came io _ _ _ hsrc h

/-- An attribute field after reading an attribute. -/
theorem readAttr_came (io : FloatIO) (fi : Option FInfo) (a : Attr) (ha : clean a.value = a.value) (s : Sch)
    (hs : attrShape s = true) (v w : Val) (hv : Came P fi s v) (h : readAttr io s v a = .ok w) : Came P fi s w := by
  unfold attrShape at hs
  split at hs
  · simp only [readAttr] at h
    simp only [Came]
    exact (readSimpleAttr_came io _ _ _ ha h).1
  · rename_i k
    rw [readAttr_ptr io _ v a rfl] at h
    obtain ⟨x, hx, rfl⟩ := wrapPtr_ok h
    simp only [readAttr] at hx
    simp only [Came]
    exact (readSimpleAttr_came io _ _ _ ha hx).symm
  · rename_i k
    rw [readAttr_ptr io _ v a rfl] at h
    obtain ⟨x, hx, rfl⟩ := wrapPtr_ok h
    have hd : ∃ l, v.deref (.slice (.simple k)) = .slice l → ∀ u ∈ l, u.isNil = false ∧ LeafCame k u := ⟨[], by simp⟩
    have key : ∀ u, Came P fi (.slice (.simple k)) u → readAttr io (.slice (.simple k)) u a = .ok x →
        x.isNil = false ∧ Came P fi (.slice (.simple k)) x := by
      intro u hu hx
      cases u with
      | slice l =>
        rw [readAttr_slice] at hx
        obtain ⟨y, hy, rfl⟩ := wrapSlice_ok hx
        simp only [readAttr] at hy
        have := readSimpleAttr_came io _ _ _ ha hy
        refine ⟨by cases l <;> rfl, ?_⟩
        simp only [Came] at hu ⊢
        intro z hz
        rcases List.mem_append.1 hz with hz | hz
        · exact hu z hz
        · simp at hz; subst hz; exact this.symm
      | _ => simp [readAttr] at hx
    simp only [Came]
    refine key _ ?_ hx
    cases v with
    | ptr o =>
      cases o with
      | none => simp [Val.deref, Sch.zero, Came]
      | some u => simp only [Came] at hv; exact hv.2
    | _ => simp [Val.deref, Sch.zero, Came]
  · cases hs

theorem findIdx_get {α} {p : α → Bool} {l : List α} {i : Nat} (h : l.findIdx? p = some i) : ∃ a, l[i]? = some a ∧ p a = true := by
  rw [List.findIdx?_eq_some_iff_getElem] at h
  obtain ⟨h1, h2, _⟩ := h
  exact ⟨l[i], by simp [h1], h2⟩

theorem attrField_mode {F : List FInfo} {n : Name} {i : Nat} (h : attrField F n = some i) :
    ∃ f, F[i]? = some f ∧ (f.mode = .attr ∨ f.mode = .anyAttr) := by
  unfold attrField at h
  split at h
  · rename_i j hj
    injection h with h; subst h
    obtain ⟨f, h1, h2⟩ := findIdx_get hj
    simp only [Bool.and_eq_true, beq_iff_eq] at h2
    exact ⟨f, h1, Or.inl h2.1.1⟩
  · split at h
    · rename_i j hj
      injection h with h; subst h
      obtain ⟨f, h1, h2⟩ := findIdx_get hj
      simp only [Bool.and_eq_true, beq_iff_eq] at h2
      exact ⟨f, h1, Or.inl h2.1.1⟩
    · obtain ⟨f, h1, h2⟩ := findIdx_get h
      exact ⟨f, h1, Or.inr (by simpa using h2)⟩

theorem readAttrs_got (io : FloatIO) {L : List Bytes} {xn : Option FInfo} {F : List FInfo} {S : List Sch}
    (hs : StructRt xn F S) (hr : Rts L F S) : ∀ (as : List Attr) {vs vs' : List Val},
    (∀ a ∈ as, LocOk a.name ∧ IsXmlText a.value) → Fields F S vs → Got P F S vs → readAttrs io F S vs as = .ok vs' →
    Got P F S vs'
  | [], vs, vs', _, _, hg, h => by simp only [readAttrs] at h; injection h with h; subst h; exact hg
  | a :: as, vs, vs', ha, hf, hg, h => by
    have hcl := clean_of_xmlText _ (ha a (by simp)).2
    simp only [readAttrs] at h
    split at h
    · exact readAttrs_got io hs hr as (fun b hb => ha b (by simp [hb])) hf hg h
    · rename_i i hi
      split at h
      · cases h
      · rename_i vs1 hu
        refine readAttrs_got io hs hr as (fun b hb => ha b (by simp [hb]))
          (updField_fields hf _ _ (fun s v w hs hv hw => readAttr_typed io a s v w hs hv hw) hu) ?_ h
        refine updField_got hs hr hf hg i _ (fun f s v w h1 h2 hok hty hfc hw => ?_) hu
        obtain ⟨f', g1, g2⟩ := attrField_mode hi
        rw [h1] at g1; injection g1 with g1; subst g1
        have hrt := hs.rt i f s h1 h2
        rcases g2 with g2 | g2
        · refine ⟨⟨fun hm => readAttr_came io _ a hcl s (fieldRt_attr hrt g2).1 v w (hfc.1.1 hm) hw,
            fun hm => by rw [g2] at hm; cases hm⟩, ?_⟩
          intro hm; rw [g2] at hm; cases hm
        · have hsl := fieldRt_any hrt g2
          subst hsl
          have hcv := hfc.1.1 (by simp [g2])
          obtain ⟨l, rfl, hl⟩ := slice_typed hty
          rw [readAttr_slice] at hw
          obtain ⟨y, hy, rfl⟩ := wrapSlice_ok hw
          simp only [readAttr] at hy
          injection hy with hy; subst hy
          refine ⟨⟨fun _ => ?_, fun hm => by rw [g2] at hm; cases hm⟩, ?_⟩
          · simp only [Came] at hcv ⊢
            intro z hz
            rcases List.mem_append.1 hz with hz | hz
            · exact hcv z hz
            · simp at hz; subst hz
              simp only [Came]
              exact ⟨rfl, (ha a (by simp)).1, hcl⟩
          · intro hm l' hl' b hb
            injection hl' with hl'; subst hl'
            rcases List.mem_append.1 hb with hb | hb
            · exact hfc.2 hm l rfl b hb
            · simp at hb; subst hb; exact hi

theorem modeField_get {F : List FInfo} {m : Mode} {i : Nat} (h : modeField F m = some i) : ∃ f, F[i]? = some f ∧ f.mode = m := by
  obtain ⟨f, h1, h2⟩ := findIdx_get h
  exact ⟨f, h1, by simpa using h2⟩

theorem finishStruct_got (io : FloatIO) {L : List Bytes} {xn : Option FInfo} {F : List FInfo} {S : List Sch}
    (hs : StructRt xn F S) (hr : Rts L F S) {vs vs' : List Val} (data inner : Bytes) (hd : IsXmlText data) (hi : P.ok inner)
    (hf : Fields F S vs) (hg : Got P F S vs) (h : finishStruct io F S vs data inner = .ok vs') : Got P F S vs' := by
  unfold finishStruct at h
  dsimp only at h
  have h1 : ∀ ws, (match modeField F .chardata with
    | none => (.ok vs : Except RErr (List Val))
    | some i => updField F S vs i (fun s _ => copyValue io s data)) = .ok ws → Fields F S ws ∧ Got P F S ws := by
    intro ws hw
    split at hw
    · injection hw with hw; subst hw; exact ⟨hf, hg⟩
    · rename_i i hi
      refine ⟨updField_fields hf _ _ (fun s v w hs _ hw => copyValue_typed io s data w hs hw) hw, ?_⟩
      obtain ⟨f', g1, g2⟩ := modeField_get hi
      refine updField_got hs hr hf hg i _ (fun f s v w h1 h2 _ _ hfc hw => ?_) hw
      rw [h1] at g1; injection g1 with g1; subst g1
      have := fieldRt_chars (hs.rt i f s h1 h2) g2
      subst this
      simp only [copyValue, copySimple] at hw
      injection hw with hw; subst hw
      refine ⟨⟨fun _ => ?_, fun hm => by rw [g2] at hm; cases hm⟩, fun hm => by rw [g2] at hm; cases hm⟩
      simp only [Came]
      exact clean_of_xmlText _ hd
  split at h
  · cases h
  · rename_i ws hw
    obtain ⟨hF, hG⟩ := h1 ws hw
    split at h
    · injection h with h; subst h; exact hG
    · rename_i i hmi
      obtain ⟨f', g1, g2⟩ := modeField_get hmi
      refine updField_got hs hr hF hG i _ (fun f s v w h1 h2 _ _ hfc hw => ?_) h
      rw [h1] at g1; injection g1 with g1; subst g1
      refine ⟨⟨fun hm => absurd g2 hm, fun _ => ?_⟩, fun hm => by rw [g2] at hm; cases hm⟩
      rw [fieldRt_inner (hs.rt i f s h1 h2) g2] at hw
      dsimp only at hw
      injection hw with hw
      subst hw
      intro b hb
      injection hb with hb
      subst hb
      exact hi

/-! ### Elements -/

theorem noAttr_isAttr {s : Sch} (h : s.noAttr = true) : s.isAttr = false := by
  cases s <;> simp_all [Sch.noAttr, Sch.isAttr]

theorem deref_inner {L : List Bytes} (fi : Option FInfo) (s : Sch) (v : Val) (hr : s.rt L = true) (hz : s.zrt = true)
    (ha : s.isAttr = false) (h : Inner P fi (.ptr s) v) : Inner P fi s (v.deref s) := by
  unfold Val.deref
  split
  · simp only [Inner, Came] at h; exact came_inner h.2
  · exact zero_inner L s fi hr hz ha

theorem place_came (fi : Option FInfo) {L : List Bytes} (f : Nat → Sch → Val → Except RErr Val)
    (hf : ∀ d s v w, s.ok = true → s.rt L = true → s.zrt = true → Typed s v → Inner P fi s v → f d s v = .ok w → Came P fi s w ∧ w.isNil = false) :
    ∀ (s : Sch) (top : Bool) (d : Nat) (v w : Val), s.ok = true → s.rt L = true → s.zrt = true → s.noAttr = true → Typed s v →
    Inner P fi s v → place f top d s v = .ok w → Came P fi s w ∧ w.isNil = false
  | .ptr s, top, d, v, w, hs, hr, hz, hn, hv, hc, h => by
    cases top with
    | false => simp only [place] at h; exact hf d _ v w hs hr hz hv hc h
    | true =>
      simp only [place] at h
      split at h
      · cases h
      · obtain ⟨x, hx, rfl⟩ := wrapPtr_ok h
        simp only [Sch.ok] at hs
        simp only [Sch.rt] at hr
        simp only [Sch.zrt] at hz
        simp only [Sch.noAttr] at hn
        have := place_came fi f hf s false d _ x hs hr hz hn (deref_typed s v hs hv)
          (deref_inner fi s v hr hz (noAttr_isAttr hn) hc) hx
        refine ⟨?_, rfl⟩
        simp only [Came]
        exact this.symm
  | .slice s, top, d, v, w, hs, hr, hz, hn, hv, hc, h => by
    obtain ⟨l, rfl, hl⟩ := slice_typed hv
    simp only [Sch.ok] at hs
    simp only [Sch.rt] at hr
    simp only [Sch.zrt] at hz
    simp only [Sch.noAttr] at hn
    have hx : ∃ x, place f true (d + 1) s s.zero = .ok x ∧ w = .slice (l ++ [x]) := by
      cases top with
      | false => simp only [place] at h; exact wrapSlice_ok h
      | true =>
        simp only [place] at h
        split at h
        · cases h
        · exact wrapSlice_ok h
    obtain ⟨x, hx, rfl⟩ := hx
    have := place_came fi f hf s true (d + 1) _ x hs hr hz hn (zero_typed s hs)
      (zero_inner L s fi hr hz (noAttr_isAttr hn)) hx
    refine ⟨?_, by cases l <;> rfl⟩
    simp only [Inner, Came] at hc ⊢
    intro z hz
    rcases List.mem_append.1 hz with hz | hz
    · exact hc z hz
    · simp at hz; subst hz; exact this.symm
  | .simple k, top, d, v, w, hs, hr, hz, hn, hv, hc, h => by
    cases top with
    | false => simp only [place] at h; exact hf d _ v w hs hr hz hv hc h
    | true =>
      simp only [place] at h
      split at h
      · cases h
      · exact hf d _ v w hs hr hz hv hc h
  | .name, top, d, v, w, hs, hr, hz, hn, hv, hc, h => by simp [Sch.rt] at hr
  | .attr, top, d, v, w, hs, hr, hz, hn, hv, hc, h => by simp [Sch.noAttr] at hn
  | .struct .., top, d, v, w, hs, hr, hz, hn, hv, hc, h => by
    cases top with
    | false => simp only [place] at h; exact hf d _ v w hs hr hz hv hc h
    | true =>
      simp only [place] at h
      split at h
      · cases h
      · exact hf d _ v w hs hr hz hv hc h
  | .bad _, top, d, v, w, hs, hr, hz, hn, hv, hc, h => by simp [Sch.ok] at hs

/-- The name of an element that goes to a field. -/
def Suits (fi : Option FInfo) (n : Name) : Prop := ∀ f, fi = some f → n.loc = f.loc ∧ (f.xmlns = [] ∨ n.space = f.xmlns)

theorem elemField_suits {F : List FInfo} {n : Name} {i : Nat} (h : elemField F n = some i) :
    ∃ f, F[i]? = some f ∧ f.mode = .elem ∧ Suits (some f) n := by
  obtain ⟨f, h1, h2⟩ := findIdx_get h
  simp only [Bool.and_eq_true, Bool.or_eq_true, beq_iff_eq] at h2
  refine ⟨f, h1, h2.1.1, ?_⟩
  rintro g hg
  injection hg with hg; subst hg
  exact ⟨h2.2.symm, h2.1.2.imp_right Eq.symm⟩

theorem readBody_came (io : FloatIO) {L : List Bytes} (fi : Option FInfo) (n : Name) (as : List Attr) (data inner : Bytes)
    (rk : Nat → List FInfo → List Sch → List Val → Except RErr (List Val))
    (hn : LocOk n) (hm : Suits fi n) (has : ∀ a ∈ as, LocOk a.name ∧ IsXmlText a.value) (hd : IsXmlText data) (hin : P.ok inner)
    (hrk : ∀ d xn F S vs vs', StructRt xn F S → Rts L F S → Fields F S vs → Got P F S vs → rk d F S vs = .ok vs' →
      Fields F S vs' ∧ Got P F S vs')
    (d : Nat) (s : Sch) (v w : Val) (hs : s.ok = true) (hr : s.rt L = true) (hz : s.zrt = true) (hv : Typed s v)
    (hc : Inner P fi s v) (h : readBody io n as data inner rk d s v = .ok w) : Came P fi s w ∧ w.isNil = false := by
  cases s with
  | simple k =>
    simp only [readBody] at h
    simp only [Came]
    exact copySimple_came io k data w (clean_of_xmlText _ hd) h
  | struct tn xn F S =>
    obtain ⟨xv, vs, rfl, hf⟩ := struct_fields hs hv
    obtain ⟨hst, hrs⟩ := Rts.of hr hz
    simp only [Inner] at hc
    have hg := (got_iff F S vs hf).2 hc
    simp only [readBody] at h
    split at h
    · cases h
    rename_i hcheck
    split at h
    · cases h
    split at h
    · cases h
    split at h
    · cases h
    · rename_i vs1 ha _ vs2 hk _ vs3 hfin
      injection h with h; subst h
      have f1 := readAttrs_fields io as hf ha
      have g1 := readAttrs_got io hst hrs as has hf hg ha
      obtain ⟨f2, g2⟩ := hrk d xn F S vs1 vs2 hst hrs f1 g1 hk
      have f3 := finishStruct_fields io _ _ f2 hfin
      have g3 := finishStruct_got io hst hrs _ _ hd hin f2 g2 hfin
      refine ⟨?_, rfl⟩
      simp only [Came]
      refine ⟨⟨?_, ?_⟩, (got_iff F S vs3 f3).1 g3⟩
      · intro x f hx hfi hne
        subst hx
        simp only [checkName] at hcheck
        split at hcheck
        · cases hcheck
        · rename_i hb
          rw [← (hm f hfi).1]
          exact Classical.not_not.1 fun hb' => hb ⟨hne, hb'⟩
      intro ht
      cases xn with
      | none => simp [tagless] at ht
      | some x =>
        right
        simp only [Option.isSome_some, if_true]
        exact ⟨hn, hm⟩
  | _ => simp [readBody] at h

mutual
/-- What is read from a document is as described by `Came`. -/
theorem readT_came (io : FloatIO) (L : List Bytes) : ∀ (t : XTree) (fi : Option FInfo) (top : Bool) (d : Nat) (s : Sch)
    (v w : Val), t.Clean → (∀ c ∈ t.contents, P.ok c) → (∀ n as b a kids en eb ea, t = .elem n as b a kids en eb ea → Suits fi n) → s.ok = true →
    s.rt L = true → s.zrt = true → s.noAttr = true → Typed s v → Inner P fi s v → readT io top d s v t = .ok w → Came P fi s w ∧ w.isNil = false
  | .leaf _ _ _, fi, top, d, s, v, w, _, _, _, _, _, _, _, _, _, h => by simp [readT] at h
  | .elem n as b a kids en eb ea, fi, top, d, s, v, w, ht, hch, hm, hs, hr, hz, hn, hv, hc, h => by
    rw [readT] at h
    simp only [XTree.Clean, TokClean] at ht
    simp only [XTree.contents, List.mem_cons, forall_eq_or_imp] at hch
    refine place_came fi (L := L) _ (fun d s v w hs hr hz hv hc h => ?_) s top d v w hs hr hz hn hv hc h
    refine readBody_came io (L := L) fi n as _ _ _ ht.1.1 (hm _ _ _ _ _ _ _ _ rfl) ht.1.2 (dataOf_clean kids ht.2) hch.1 ?_
      d s v w hs hr hz hv hc h
    intro d xn F S vs vs' hst hrs hf hg hk
    exact ⟨readKids_fields io kids d F S vs vs' hf hk, readKids_got io L kids d xn F S vs vs' ht.2 hch.2 hst hrs hf hg hk⟩
theorem readKids_got (io : FloatIO) (L : List Bytes) : ∀ (l : List XTree) (d : Nat) (xn : Option FInfo) (F : List FInfo)
    (S : List Sch) (vs vs' : List Val), Cleans l → (∀ c ∈ contentsL l, P.ok c) → StructRt xn F S → Rts L F S → Fields F S vs → Got P F S vs →
    readKids io d F S vs l = .ok vs' → Got P F S vs'
  | [], d, xn, F, S, vs, vs', _, _, _, _, hf, hg, h => by simp only [readKids] at h; injection h with h; subst h; exact hg
  | .leaf _ _ _ :: l, d, xn, F, S, vs, vs', hl, hch, hst, hrs, hf, hg, h => by
    simp only [readKids] at h
    simp only [Cleans] at hl
    simp only [contentsL, XTree.contents, List.nil_append] at hch
    exact readKids_got io L l d xn F S vs vs' hl.2 hch hst hrs hf hg h
  | .elem n as b a kids en eb ea :: l, d, xn, F, S, vs, vs', hl, hch, hst, hrs, hf, hg, h => by
    simp only [readKids] at h
    simp only [Cleans] at hl
    simp only [contentsL, List.forall_mem_append] at hch
    split at h
    · exact readKids_got io L l d xn F S vs vs' hl.2 hch.2 hst hrs hf hg h
    · rename_i i hi
      split at h
      · cases h
      · rename_i vs1 hu
        refine readKids_got io L l d xn F S vs1 vs' hl.2 hch.2 hst hrs
          (updField_fields hf _ _ (fun s v w hs hv hw => readT_typed io _ _ _ s v w hs hv hw) hu) ?_ h
        obtain ⟨f', g1, g2, g3⟩ := elemField_suits hi
        refine updField_got hst hrs hf hg i _ (fun f s v w h1 h2 hok hty hfc hw => ?_) hu
        rw [h1] at g1; injection g1 with g1; subst g1
        refine ⟨⟨fun _ => ?_, fun hm => by rw [g2] at hm; cases hm⟩, fun hm => by rw [g2] at hm; cases hm⟩
        refine (readT_came io L (.elem n as b a kids en eb ea) (some f) true (d + 1) s v w hl.1 hch.1 ?_ hok
          (rts_get L S hrs.rt i s h2) (zrts_get S hrs.z i s h2) (elemShape_noAttr (fieldRt_elem (hst.rt i f s h1 h2) g2).1) hty
          (came_inner (hfc.1.1 (by simp [g2]))) hw).1
        rintro n' _ _ _ _ _ _ _ he
        injection he with he; subst he
        exact g3
end

theorem isDoc_came (io : FloatIO) (L : List Bytes) (s : Sch) (doc : Bytes) (t : XTree) (v : Val) (hs : s.ok = true)
    (hr : s.rt L = true) (hz : s.zrt = true) (hn : s.noAttr = true) (ht : IsDoc doc t) (hp : ∀ c ∈ t.contents, P.ok c)
    (h : unmarshalDoc io s doc = .ok v) : Came P none s v := by
  rw [unmarshalDoc_tree io s doc t ht] at h
  exact (readT_came io L t none false 0 s s.zero v (isDoc_clean doc t ht) hp (fun _ _ _ _ _ _ _ _ _ f hf => by cases hf) hs hr hz hn
    (zero_typed s hs) (zero_inner L s none hr hz (noAttr_isAttr hn)) h).1

/-- Well-formed content. -/
def wfCont : Cont := ⟨Chunk, chunk_nil⟩

theorem unmarshalDoc_came (io : FloatIO) (L : List Bytes) (s : Sch) (doc : Bytes) (v : Val) (hs : s.ok = true)
    (hr : s.rt L = true) (hz : s.zrt = true) (hn : s.noAttr = true) (h : unmarshalDoc io s doc = .ok v) : Came wfCont none s v := by
  obtain ⟨t, ht⟩ := unmarshalDoc_ok io s doc v h
  exact isDoc_came io L s doc t v hs hr hz hn ht (chunks_contents t (isDoc_chunks doc t ht)) h

end Verif.Bind

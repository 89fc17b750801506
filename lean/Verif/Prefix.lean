import Verif.Spelling

/-!
C56: namespace prefixes are only abbreviations.  Two well-formed documents whose elements and attributes have the same expanded
names and values are unmarshalled alike, whatever the prefixes and wherever the namespaces are declared, except for fields that
record the declarations themselves.
-/
namespace Verif.Grammar

open Verif.Xml hiding readAttr
open Verif.Utf8 Verif.Bind

/-! ### Specification -/

/-- The namespace of the attributes `xmlns:…`. -/
def xmlnsURL : Bytes := b!"http://www.w3.org/2000/xmlns/"

/-- An attribute that declares a namespace. -/
def isDecl (a : Attr) : Bool := a.name.space == xmlnsURL || a.name == ⟨[], b!"xmlns"⟩

mutual
/-- Content without the declarations of namespaces. -/
def Info.undecl : Info → Info
  | .elem n as kids => .elem n (as.filter fun a => !isDecl a) (undecls kids)
  | .chars b => .chars b
/-- The same for a list. -/
def undecls : List Info → List Info
  | [] => []
  | x :: l => x.undecl :: undecls l
end

mutual
/-- The prefixes declared. -/
def Info.prefixes : Info → List Bytes
  | .elem _ as kids => (as.filterMap fun a => if a.name.space = xmlnsURL then some a.name.loc else none) ++ prefixess kids
  | .chars _ => []
/-- The same for a list. -/
def prefixess : List Info → List Bytes
  | [] => []
  | x :: l => x.prefixes ++ prefixess l
end

/-- A list of attributes without declarations. -/
def noDecls : Val → Val
  | .slice l => .slice (l.filter fun v => match v with
    | .attr a => !isDecl a
    | _ => true)
  | v => v

mutual
/-- A value without what depends on the spelling: `innerxml` fields and the field `xmlns` are emptied, and declarations are
removed from `any,attr` fields. -/
def gist : Sch → Val → Val
  | .ptr s, .ptr (some v) => .ptr (some (gist s v))
  | .slice s, .slice l => .slice (l.map (gist s))
  | .struct _ _ infos subs, .struct n vs => .struct n (gists infos subs vs)
  | _, v => v
/-- The same for the fields of a struct. -/
def gists : List FInfo → List Sch → List Val → List Val
  | fi :: fis, s :: ss, v :: vs =>
    (if fi.mode = .innerxml then blank v
     else if fi.mode = .anyAttr then noDecls v
     else if fi.mode = .attr ∧ fi.xmlns = [] ∧ fi.loc = b!"xmlns" then blank v
     else gist s v) :: gists fis ss vs
  | _, _, vs => vs
end

mutual
/-- The local names of the attributes of a type. -/
def attrLocs : Sch → List Bytes
  | .ptr s => attrLocs s
  | .slice s => attrLocs s
  | .struct _ _ infos subs => (infos.filter fun fi => fi.mode == .attr).map (·.loc) ++ attrLocss subs
  | _ => []
/-- The same for fields. -/
def attrLocss : List Sch → List Bytes
  | [] => []
  | s :: ss => attrLocs s ++ attrLocss ss
end

/-- Fields that record declarations can take them. -/
def recOk (fi : FInfo) (s : Sch) : Bool :=
  (fi.mode != .anyAttr || (match s with
    | .slice .attr => fi.grp == none
    | _ => false)) &&
  (!(fi.mode == .attr && fi.xmlns == [] && fi.loc == b!"xmlns") || (match s with
    | .simple .str => fi.grp == none
    | _ => false))

mutual
/-- Fields that record declarations can take them, everywhere in a type. -/
def recsOk : Sch → Bool
  | .ptr s => recsOk s
  | .slice s => recsOk s
  | .struct _ _ infos subs => recssOk infos subs
  | _ => true
/-- The same for fields. -/
def recssOk : List FInfo → List Sch → Bool
  | fi :: fis, s :: ss => recOk fi s && recsOk s && recssOk fis ss
  | _, _ => true
end

/-! ### Fields -/

/-- What is left of a field. -/
def gistF (fi : FInfo) (s : Sch) (v : Val) : Val :=
  if fi.mode = .innerxml then blank v
  else if fi.mode = .anyAttr then noDecls v
  else if fi.mode = .attr ∧ fi.xmlns = [] ∧ fi.loc = b!"xmlns" then blank v
  else gist s v

theorem gists_cons (fi : FInfo) (fis : List FInfo) (s : Sch) (ss : List Sch) (v : Val) (vs : List Val) :
    gists (fi :: fis) (s :: ss) (v :: vs) = gistF fi s v :: gists fis ss vs := by rw [gists]; rfl

theorem blank_zero (s : Sch) : blank s.zero = s.zero := by
  cases s <;> simp only [Sch.zero, blank]
  rename_i k
  cases k <;> rfl

theorem noDecls_zero (s : Sch) : noDecls s.zero = s.zero := by
  cases s <;> simp only [Sch.zero, noDecls, List.filter_nil]
  rename_i k
  cases k <;> rfl

mutual
theorem gist_zero : ∀ s : Sch, gist s s.zero = s.zero
  | .simple k => by cases k <;> simp [Sch.zero, Kind.zero, gist]
  | .ptr s => by simp [Sch.zero, gist]
  | .slice s => by simp [Sch.zero, gist]
  | .name => by simp [Sch.zero, gist]
  | .attr => by simp [Sch.zero, gist]
  | .struct tn xn infos subs => by simp only [Sch.zero, gist, gists_zero infos subs]
  | .bad e => by simp [Sch.zero, gist]
theorem gists_zero : ∀ (infos : List FInfo) (subs : List Sch), gists infos subs (zeros infos subs) = zeros infos subs
  | fi :: fis, s :: ss => by
    simp only [zeros, gists, gists_zero fis ss, List.cons.injEq, and_true]
    have ha : gist s .absent = .absent := by cases s <;> rfl
    have h1 := gist_zero s
    have h2 := blank_zero s
    have h3 := noDecls_zero s
    by_cases hg : fi.grp = none
    · simp only [hg, if_true, h1, h2, h3, ite_self]
    · simp only [hg, if_false, ha, blank, noDecls, ite_self]
  | [], _ => by simp [zeros, gists]
  | _ :: _, [] => by simp [zeros, gists]
end

theorem gistF_zero (fi : FInfo) (s : Sch) : gistF fi s s.zero = s.zero := by
  unfold gistF
  simp only [gist_zero, blank_zero, noDecls_zero, ite_self]

theorem gistF_absent (fi : FInfo) (s : Sch) (v : Val) : (gistF fi s v).isAbsent = v.isAbsent := by
  unfold gistF
  split
  · cases v <;> rfl
  split
  · cases v <;> rfl
  split
  · cases v <;> rfl
  · cases s <;> cases v <;> first | rfl | (rename_i o; cases o <;> rfl)

theorem gist_deref (s : Sch) (v : Val) : Val.deref s (gist (.ptr s) v) = gist s (Val.deref s v) := by
  cases v with
  | ptr o => cases o with
    | none => simp [gist, Val.deref, gist_zero]
    | some w => simp [gist, Val.deref]
  | _ => simp [gist, Val.deref, gist_zero]

theorem gists_get : ∀ (infos : List FInfo) (subs : List Sch) (vs : List Val) (i : Nat) (fi : FInfo) (s : Sch),
    infos[i]? = some fi → subs[i]? = some s → (gists infos subs vs)[i]? = (vs[i]?).map (gistF fi s)
  | _ :: _, _ :: _, v :: vs, 0, fi, s, h1, h2 => by
    simp only [List.getElem?_cons_zero, Option.some.injEq] at h1 h2
    subst h1; subst h2
    rw [gists_cons]; rfl
  | f :: fis, s0 :: ss, v :: vs, i + 1, fi, s, h1, h2 => by
    simp only [List.getElem?_cons_succ] at h1 h2
    rw [gists_cons]
    simp only [List.getElem?_cons_succ]
    exact gists_get fis ss vs i fi s h1 h2
  | [], _, vs, i, fi, s, h1, h2 => by simp at h1
  | _ :: _, [], vs, i, fi, s, h1, h2 => by simp at h2
  | _ :: _, _ :: _, [], i, fi, s, h1, h2 => by simp [gists]

theorem gists_set : ∀ (infos : List FInfo) (subs : List Sch) (vs : List Val) (i : Nat) (fi : FInfo) (s : Sch) (w : Val),
    infos[i]? = some fi → subs[i]? = some s → gists infos subs (vs.set i w) = (gists infos subs vs).set i (gistF fi s w)
  | _ :: _, _ :: _, v :: vs, 0, fi, s, w, h1, h2 => by
    simp only [List.getElem?_cons_zero, Option.some.injEq] at h1 h2
    subst h1; subst h2
    simp only [List.set_cons_zero, gists_cons]
  | f :: fis, s0 :: ss, v :: vs, i + 1, fi, s, w, h1, h2 => by
    simp only [List.getElem?_cons_succ] at h1 h2
    simp only [gists_cons, List.set_cons_succ]
    rw [gists_set fis ss vs i fi s w h1 h2]
  | [], _, vs, i, fi, s, w, h1, h2 => by simp at h1
  | _ :: _, [], vs, i, fi, s, w, h1, h2 => by simp at h2
  | _ :: _, _ :: _, [], i, fi, s, w, h1, h2 => by simp [gists]

theorem gists_alloc (g : Option Nat) : ∀ (infos : List FInfo) (subs : List Sch) (vs : List Val),
    gists infos subs (initGroup.allocGroup g infos subs vs) = initGroup.allocGroup g infos subs (gists infos subs vs)
  | fi :: fis, s :: ss, v :: vs => by
    simp only [initGroup.allocGroup, gists_cons, gists_alloc g fis ss vs, List.cons.injEq, and_true]
    split
    · exact gistF_zero fi s
    · rfl
  | [], _, vs => by simp [gists, initGroup.allocGroup]
  | _ :: _, [], vs => by simp [gists, initGroup.allocGroup]
  | _ :: _, _ :: _, [] => by simp [gists, initGroup.allocGroup]

theorem gists_init (infos : List FInfo) (subs : List Sch) (vs : List Val) (i : Nat) (s : Sch) (hs : subs[i]? = some s) :
    gists infos subs (initGroup infos subs vs i) = initGroup infos subs (gists infos subs vs) i := by
  unfold initGroup
  cases hi : infos[i]? with
  | none => cases vs[i]? <;> cases (gists infos subs vs)[i]? <;> rfl
  | some fi =>
    rw [gists_get infos subs vs i fi s hi hs]
    cases hv : vs[i]? with
    | none => rfl
    | some v =>
      simp only [Option.map_some]
      rw [gistF_absent]
      split
      · exact gists_alloc ..
      · rfl

/-- The same step on fields that are alike. -/
theorem gist_updField {infos : List FInfo} {subs : List Sch} {vs ws : List Val} (i : Nat) (f g : Sch → Val → Except RErr Val) (fi : FInfo)
    (hi : infos[i]? = some fi) (hv : Fields infos subs vs) (hw : Fields infos subs ws) (e : gists infos subs vs = gists infos subs ws)
    (h : ∀ s, subs[i]? = some s → s.ok = true → ∀ v w, Typed s v → Typed s w → gistF fi s v = gistF fi s w →
      mapOk (gistF fi s) (f s v) = mapOk (gistF fi s) (g s w)) :
    mapOk (gists infos subs) (updField infos subs vs i f) = mapOk (gists infos subs) (updField infos subs ws i g) := by
  have hlt : i < vs.length := by rw [hv.len_vs, ← hv.len]; exact lt_of_get hi
  have hlt' : i < ws.length := by rw [hw.len_vs, ← hw.len]; exact lt_of_get hi
  obtain ⟨_, s, v, h1, h2, h3, h4⟩ := initGroup_fields hv i hlt
  obtain ⟨_, s', w, h1', h2', h3', h4'⟩ := initGroup_fields hw i hlt'
  rw [h1] at h1'; injection h1' with h1'; subst h1'
  have e1 : gists infos subs (initGroup infos subs vs i) = gists infos subs (initGroup infos subs ws i) := by
    rw [gists_init _ _ _ _ s h1, gists_init _ _ _ _ s h1, e]
  have e2 : gistF fi s v = gistF fi s w := by
    have a := gists_get infos subs (initGroup infos subs vs i) i fi s hi h1
    have b := gists_get infos subs (initGroup infos subs ws i) i fi s hi h1
    rw [e1, b, h2, h2'] at a
    simpa using a.symm
  have := h s h1 h4 v w h3 h3' e2
  unfold updField
  rw [h1, h2, h2']
  dsimp only
  cases hf : f s v with
  | error e0 =>
    rw [hf] at this
    cases hg : g s w with
    | error e1 => rw [hg] at this; simp only [mapOk, Except.error.injEq] at this ⊢; exact this
    | ok w' => rw [hg] at this; cases this
  | ok v' =>
    rw [hf] at this
    cases hg : g s w with
    | error e1 => rw [hg] at this; cases this
    | ok w' =>
      rw [hg] at this
      simp only [mapOk, Except.ok.injEq] at this ⊢
      rw [gists_set _ _ _ i fi s _ hi h1, gists_set _ _ _ i fi s _ hi h1, e1, this]

/-- A step that leaves nothing behind. -/
theorem gist_updField_drop {infos : List FInfo} {subs : List Sch} {vs : List Val} (i : Nat) (f : Sch → Val → Except RErr Val) (fi : FInfo)
    (hi : infos[i]? = some fi) (hv : Fields infos subs vs) (hg : fi.grp = none)
    (h : ∀ s, subs[i]? = some s → s.ok = true → ∀ v, Typed s v → ∃ w, f s v = .ok w ∧ gistF fi s w = gistF fi s v) :
    ∃ vs', updField infos subs vs i f = .ok vs' ∧ gists infos subs vs' = gists infos subs vs := by
  have hlt : i < vs.length := by rw [hv.len_vs, ← hv.len]; exact lt_of_get hi
  obtain ⟨fi', s, v, h1, h2, h3, _⟩ := hv.at hlt
  rw [hi] at h1; injection h1 with h1; subst h1
  have hpres := (hv.uni i i fi fi v v hi hi h3 h3).2 hg
  have hin : initGroup infos subs vs i = vs := by
    unfold initGroup
    rw [h3, hi]
    simp [hpres]
  obtain ⟨_, s', v', g1, g2, g3, g4⟩ := initGroup_fields hv i hlt
  rw [hin, h3] at g2; injection g2 with g2; subst g2
  rw [h2] at g1; injection g1 with g1; subst g1
  obtain ⟨w, hw, ew⟩ := h s h2 g4 v g3
  refine ⟨vs.set i w, ?_, ?_⟩
  · unfold updField
    rw [hin, h2, h3]
    dsimp only
    rw [hw]
  · rw [gists_set _ _ _ i fi s _ hi h2, ew]
    have := gists_get infos subs vs i fi s hi h2
    rw [h3, Option.map_some] at this
    apply List.ext_getElem?
    intro j
    by_cases hj : i = j
    · subst hj
      rw [List.getElem?_set_self (lt_of_get this), this]
    · rw [List.getElem?_set_ne hj]

/-! ### Attributes -/

theorem recss_get : ∀ (infos : List FInfo) (subs : List Sch) (i : Nat) (fi : FInfo) (s : Sch), recssOk infos subs = true →
    infos[i]? = some fi → subs[i]? = some s → recOk fi s = true ∧ recsOk s = true
  | f :: fis, s0 :: ss, 0, fi, s, h, h1, h2 => by
    simp only [List.getElem?_cons_zero, Option.some.injEq] at h1 h2
    subst h1; subst h2
    simp only [recssOk, Bool.and_eq_true] at h
    exact h.1
  | f :: fis, s0 :: ss, i + 1, fi, s, h, h1, h2 => by
    simp only [List.getElem?_cons_succ] at h1 h2
    simp only [recssOk, Bool.and_eq_true] at h
    exact recss_get fis ss i fi s h.2 h1 h2
  | [], _, i, fi, s, _, h1, h2 => by simp at h1
  | _ :: _, [], i, fi, s, _, h1, h2 => by simp at h2

theorem attrLocss_get : ∀ (subs : List Sch) (i : Nat) (s : Sch), subs[i]? = some s → ∀ x ∈ attrLocs s, x ∈ attrLocss subs
  | s0 :: ss, 0, s, h, x, hx => by
    simp only [List.getElem?_cons_zero, Option.some.injEq] at h
    subst h
    simp [attrLocss, hx]
  | s0 :: ss, i + 1, s, h, x, hx => by
    simp only [List.getElem?_cons_succ] at h
    simp only [attrLocss, List.mem_append]
    exact .inr (attrLocss_get ss i s h x hx)
  | [], i, s, h, x, hx => by simp at h

theorem recOk_any {fi : FInfo} {s : Sch} (h : recOk fi s = true) (hm : fi.mode = .anyAttr) : s = .slice .attr ∧ fi.grp = none := by
  unfold recOk at h
  simp only [hm, Bool.and_eq_true, bne_self_eq_false, Bool.false_or] at h
  obtain ⟨h, _⟩ := h
  split at h
  · exact ⟨rfl, by simpa using h⟩
  · cases h

theorem recOk_xmlns {fi : FInfo} {s : Sch} (h : recOk fi s = true) (hm : fi.mode = .attr ∧ fi.xmlns = [] ∧ fi.loc = b!"xmlns") :
    s = .simple .str ∧ fi.grp = none := by
  unfold recOk at h
  obtain ⟨h1, h2, h3⟩ := hm
  rw [h1, h2, h3] at h
  simp only [Bool.and_eq_true] at h
  obtain ⟨_, h⟩ := h
  split at h
  · exact ⟨rfl, by simpa using h⟩
  · simp at h

theorem gist_simple (k : Kind) (v : Val) : gist (.simple k) v = v := by cases v <;> rfl

theorem gist_readAttr (io : FloatIO) (a : Attr) : ∀ (s : Sch) (v : Val), mapOk (gist s) (readAttr io s v a) = readAttr io s (gist s v) a
  | .simple k, v => by
    simp only [readAttr]
    exact mapOk_id _ (gist_simple k) _
  | .ptr s, v => by
    by_cases hs : s.isPtr = true
    · cases s <;> first | (cases hs; done) | (cases v <;> simp [readAttr, mapOk])
    · have hs : s.isPtr = false := by simpa using hs
      rw [readAttr_ptr io s v a hs, readAttr_ptr io s _ a hs, gist_deref, ← gist_readAttr io a s]
      cases readAttr io s (Val.deref s v) a with
      | error e => rfl
      | ok w => simp [wrapPtr, mapOk, gist]
  | .slice s, v => by
    cases v with
    | slice l =>
      have := gist_readAttr io a s s.zero
      rw [gist_zero] at this
      simp only [gist]
      rw [readAttr_slice, readAttr_slice]
      conv => rhs; rw [← this]
      cases readAttr io s s.zero a with
      | error e => rfl
      | ok w => simp [wrapSlice, mapOk, gist]
    | _ => simp [readAttr, mapOk, gist]
  | .name, v => by cases v <;> simp [readAttr, mapOk]
  | .attr, v => by cases v <;> simp [readAttr, mapOk, gist]
  | .struct .., v => by cases v <;> simp [readAttr, mapOk]
  | .bad e, v => by cases v <;> simp [readAttr, mapOk]

/-- The same attribute read into fields that are alike. -/
theorem gistF_readAttr (io : FloatIO) (a : Attr) (fi : FInfo) (s : Sch) (v w : Val) (hm : fi.mode ≠ .innerxml) (hr : recOk fi s = true)
    (hv : Typed s v) (hw : Typed s w) (e : gistF fi s v = gistF fi s w) :
    mapOk (gistF fi s) (readAttr io s v a) = mapOk (gistF fi s) (readAttr io s w a) := by
  by_cases h1 : fi.mode = .anyAttr
  · obtain ⟨rfl, _⟩ := recOk_any hr h1
    obtain ⟨l, rfl, _⟩ := slice_typed hv
    obtain ⟨m, rfl, _⟩ := slice_typed hw
    unfold gistF at e ⊢
    simp only [h1, if_true, if_false, noDecls, Val.slice.injEq, reduceCtorEq] at e
    simp only [readAttr, mapOk, h1, if_true, if_false, noDecls, List.filter_append, e, reduceCtorEq]
  · by_cases h2 : fi.mode = .attr ∧ fi.xmlns = [] ∧ fi.loc = b!"xmlns"
    · obtain ⟨rfl, _⟩ := recOk_xmlns hr h2
      simp only [readAttr]
    · have : ∀ v, gistF fi s v = gist s v := fun v => by
        unfold gistF
        rw [if_neg hm, if_neg h1, if_neg h2]
      rw [this, this] at e
      have hf : gistF fi s = gist s := funext this
      rw [hf, gist_readAttr, gist_readAttr, e]

theorem attrKey_spec {infos : List FInfo} {n : Name} {i : Nat} (h : attrKey infos n = some i) :
    ∃ fi, infos[i]? = some fi ∧ fi.mode = .attr ∧ fi.xmlns = n.space ∧ fi.loc = n.loc := by
  obtain ⟨fi, h1, h2⟩ := findIdx_some h
  simp only [Bool.and_eq_true, beq_iff_eq] at h2
  exact ⟨fi, h1, h2.1.1, h2.1.2, h2.2⟩

/-- What a struct has to meet: the names of its attributes are in `L`. -/
structure GoodF (L : List Bytes) (infos : List FInfo) (subs : List Sch) : Prop where
  rec_ok : recssOk infos subs = true
  own : ∀ fi ∈ infos, fi.mode = .attr → fi.loc ∈ L
  sub : ∀ x ∈ attrLocss subs, x ∈ L

/-- The field that a declaration goes to records declarations. -/
theorem decl_field {L : List Bytes} {infos : List FInfo} {subs : List Sch} (hg : GoodF L infos subs) (a : Attr) (hd : isDecl a = true)
    (hp : a.name.space = xmlnsURL → a.name.loc ∉ L) {i : Nat} (h : attrField infos a.name = some i) :
    ∃ fi, infos[i]? = some fi ∧ (fi.mode = .anyAttr ∨ (fi.mode = .attr ∧ fi.xmlns = [] ∧ fi.loc = b!"xmlns")) := by
  have key : ∀ sp j, (sp = a.name.space ∨ sp = []) → attrKey infos ⟨sp, a.name.loc⟩ = some j →
      ∃ fi, infos[j]? = some fi ∧ (fi.mode = .attr ∧ fi.xmlns = [] ∧ fi.loc = b!"xmlns") := by
    intro sp j hsp hk
    obtain ⟨fi, h1, h2, h3, h4⟩ := attrKey_spec hk
    by_cases hs : a.name.space = xmlnsURL
    · exact absurd (h4 ▸ hg.own fi (List.mem_of_getElem? h1) h2) (hp hs)
    · unfold isDecl at hd
      have hn : a.name = ⟨[], b!"xmlns"⟩ := by simpa [hs] using hd
      rw [hn] at hsp h4
      refine ⟨fi, h1, h2, ?_, h4⟩
      rw [h3]
      rcases hsp with rfl | rfl <;> rfl
  unfold attrField at h
  split at h
  · rename_i j hj
    injection h with h; subst h
    obtain ⟨fi, h1, h2⟩ := key a.name.space j (.inl rfl) hj
    exact ⟨fi, h1, .inr h2⟩
  · split at h
    · rename_i j hj
      injection h with h; subst h
      obtain ⟨fi, h1, h2⟩ := key [] j (.inr rfl) hj
      exact ⟨fi, h1, .inr h2⟩
    · obtain ⟨fi, h1, h2⟩ := findIdx_some h
      exact ⟨fi, h1, .inl (by simpa using h2)⟩

/-- A declaration leaves nothing behind. -/
theorem decl_drop (io : FloatIO) {L : List Bytes} {infos : List FInfo} {subs : List Sch} (hg : GoodF L infos subs) (a : Attr)
    (hd : isDecl a = true) (hp : a.name.space = xmlnsURL → a.name.loc ∉ L) {vs : List Val} (hv : Fields infos subs vs) {i : Nat}
    (h : attrField infos a.name = some i) :
    ∃ vs', updField infos subs vs i (fun s v => readAttr io s v a) = .ok vs' ∧ gists infos subs vs' = gists infos subs vs := by
  obtain ⟨fi, hi, hm⟩ := decl_field hg a hd hp h
  have hlt : i < subs.length := by rw [← hv.len]; exact lt_of_get hi
  obtain ⟨s, hs⟩ := get_of_lt hlt
  have hr := (recss_get infos subs i fi s hg.rec_ok hi hs).1
  have hgrp : fi.grp = none := by
    rcases hm with hm | hm
    · exact (recOk_any hr hm).2
    · exact (recOk_xmlns hr hm).2
  refine gist_updField_drop i _ fi hi hv hgrp ?_
  intro s' hs' _ v hv'
  rw [hs] at hs'; injection hs' with hs'; subst hs'
  rcases hm with hm | hm
  · obtain ⟨rfl, _⟩ := recOk_any hr hm
    obtain ⟨l, rfl, _⟩ := slice_typed hv'
    refine ⟨.slice (l ++ [.attr a]), rfl, ?_⟩
    simp [gistF, hm, noDecls, hd]
  · obtain ⟨rfl, _⟩ := recOk_xmlns hr hm
    refine ⟨.str a.value, by rfl, ?_⟩
    cases v <;> simp [Typed, KindOk] at hv'
    simp [gistF, hm.1, hm.2.1, hm.2.2, blank]

theorem gist_readAttrs (io : FloatIO) {L : List Bytes} {infos : List FInfo} {subs : List Sch} (hg : GoodF L infos subs) :
    ∀ (as : List Attr), (∀ a ∈ as, a.name.space = xmlnsURL → a.name.loc ∉ L) → ∀ (vs ws : List Val), Fields infos subs vs →
    Fields infos subs ws → gists infos subs vs = gists infos subs ws →
    mapOk (gists infos subs) (readAttrs io infos subs vs as) =
      mapOk (gists infos subs) (readAttrs io infos subs ws (as.filter fun a => !isDecl a))
  | [], _, vs, ws, _, _, e => by simp only [List.filter_nil, readAttrs, mapOk, e]
  | a :: as, hp, vs, ws, hv, hw, e => by
    have hp' : ∀ a ∈ as, a.name.space = xmlnsURL → a.name.loc ∉ L := fun b hb => hp b (List.mem_cons_of_mem _ hb)
    have ih := gist_readAttrs io hg as hp'
    have typ : ∀ s v w, s.ok = true → Typed s v → readAttr io s v a = .ok w → Typed s w :=
      fun s v w hs hv hw => readAttr_typed io a s v w hs hv hw
    cases hd : isDecl a with
    | true =>
      rw [List.filter_cons_of_neg (by simp [hd])]
      simp only [readAttrs]
      cases hf : attrField infos a.name with
      | none => exact ih vs ws hv hw e
      | some i =>
        obtain ⟨vs', h1, h2⟩ := decl_drop io hg a hd (hp a List.mem_cons_self) hv hf
        dsimp only
        rw [h1]
        exact ih vs' ws (updField_fields hv i _ typ h1) hw (h2.trans e)
    | false =>
      rw [List.filter_cons_of_pos (by simp [hd])]
      simp only [readAttrs]
      cases hf : attrField infos a.name with
      | none => exact ih vs ws hv hw e
      | some i =>
        obtain ⟨fi, hi, hm⟩ := attrField_mode hf
        have := gist_updField i (fun s v => readAttr io s v a) (fun s v => readAttr io s v a) fi hi hv hw e (by
          intro s hs _ v w hv hw e
          exact gistF_readAttr io a fi s v w hm (recss_get infos subs i fi s hg.rec_ok hi hs).1 hv hw e)
        dsimp only
        cases hu : updField infos subs vs i fun s v => readAttr io s v a with
        | error e0 =>
          rw [hu] at this
          cases hu' : updField infos subs ws i fun s v => readAttr io s v a with
          | error e1 => rw [hu'] at this; simpa [mapOk] using this
          | ok ws' => rw [hu'] at this; cases this
        | ok vs' =>
          rw [hu] at this
          cases hu' : updField infos subs ws i fun s v => readAttr io s v a with
          | error e1 => rw [hu'] at this; cases this
          | ok ws' =>
            rw [hu'] at this
            simp only [mapOk, Except.ok.injEq] at this
            exact ih vs' ws' (updField_fields hv i _ typ hu) (updField_fields hw i _ typ hu') this

/-! ### Elements -/

/-- What a type has to meet. -/
structure Good (L : List Bytes) (s : Sch) : Prop where
  ok : s.ok = true
  rec_ok : recsOk s = true
  locs : ∀ x ∈ attrLocs s, x ∈ L

theorem Good.ptr {L : List Bytes} {s : Sch} (h : Good L (.ptr s)) : Good L s :=
  ⟨by simpa [Sch.ok] using h.ok, by simpa [recsOk] using h.rec_ok, fun x hx => h.locs x (by simpa [attrLocs] using hx)⟩

theorem Good.slice {L : List Bytes} {s : Sch} (h : Good L (.slice s)) : Good L s :=
  ⟨by simpa [Sch.ok] using h.ok, by simpa [recsOk] using h.rec_ok, fun x hx => h.locs x (by simpa [attrLocs] using hx)⟩

theorem Good.fields {L : List Bytes} {tn : Bytes} {xn : Option FInfo} {infos : List FInfo} {subs : List Sch}
    (h : Good L (.struct tn xn infos subs)) : GoodF L infos subs := by
  refine ⟨by simpa [recsOk] using h.rec_ok, fun fi hf hm => h.locs _ ?_, fun x hx => h.locs _ ?_⟩
  · simp only [attrLocs, List.mem_append, List.mem_map, List.mem_filter]
    exact .inl ⟨fi, ⟨hf, by simp [hm]⟩, rfl⟩
  · simp only [attrLocs, List.mem_append]
    exact .inr hx

theorem mapOk_wrapPtr (s : Sch) (x : Except RErr Val) : mapOk (gist (.ptr s)) (wrapPtr x) = wrapPtr (mapOk (gist s) x) := by
  cases x with
  | error e => rfl
  | ok w => simp [wrapPtr, mapOk, gist]

theorem mapOk_wrapSlice (s : Sch) (l : List Val) (x : Except RErr Val) :
    mapOk (gist (.slice s)) (wrapSlice l x) = wrapSlice (l.map (gist s)) (mapOk (gist s) x) := by
  cases x with
  | error e => rfl
  | ok w => simp [wrapSlice, mapOk, gist]

/-- Two ways to read that give the same on values that are alike. -/
def Alike (L : List Bytes) (f g : Nat → Sch → Val → Except RErr Val) : Prop :=
  ∀ s d v w, Good L s → Typed s v → Typed s w → gist s v = gist s w → mapOk (gist s) (f d s v) = mapOk (gist s) (g d s w)

theorem gist_place {L : List Bytes} {f g : Nat → Sch → Val → Except RErr Val} (h : Alike L f g) : ∀ (s : Sch) (top : Bool) (d : Nat)
    (v w : Val), Good L s → Typed s v → Typed s w → gist s v = gist s w → mapOk (gist s) (place f top d s v) = mapOk (gist s) (place g top d s w)
  | .ptr s, true, d, v, w, hg, hv, hw, e => by
    have hs := hg.ptr
    simp only [place]
    split
    · rfl
    · rw [mapOk_wrapPtr, mapOk_wrapPtr, gist_place h s false d _ _ hs (deref_typed s v hs.ok hv) (deref_typed s w hs.ok hw)]
      rw [← gist_deref, ← gist_deref, e]
  | .ptr s, false, d, v, w, hg, hv, hw, e => by
    simp only [place]; exact h _ _ _ _ hg hv hw e
  | .slice s, top, d, v, w, hg, hv, hw, e => by
    obtain ⟨l, rfl, _⟩ := slice_typed hv
    obtain ⟨m, rfl, _⟩ := slice_typed hw
    have hs := hg.slice
    simp only [gist, Val.slice.injEq] at e
    have hz := gist_place h s true (d + 1) s.zero s.zero hs (zero_typed s hs.ok) (zero_typed s hs.ok) rfl
    have key : mapOk (gist (.slice s)) (wrapSlice l (place f true (d + 1) s s.zero)) =
        mapOk (gist (.slice s)) (wrapSlice m (place g true (d + 1) s s.zero)) := by
      rw [mapOk_wrapSlice, mapOk_wrapSlice, e, hz]
    cases top with
    | true =>
      simp only [place]
      split
      · rfl
      · exact key
    | false => simp only [place]; exact key
  | .simple k, top, d, v, w, hg, hv, hw, e => by
    have := h _ d _ _ hg hv hw e
    cases top <;> simp only [place] <;> first | exact this | (split; rfl; exact this)
  | .name, top, d, v, w, hg, hv, hw, e => by
    have := h _ d _ _ hg hv hw e
    cases top <;> simp only [place] <;> first | exact this | (split; rfl; exact this)
  | .attr, top, d, v, w, hg, hv, hw, e => by
    have := h _ d _ _ hg hv hw e
    cases top <;> simp only [place] <;> first | exact this | (split; rfl; exact this)
  | .struct tn xn infos subs, top, d, v, w, hg, hv, hw, e => by
    have := h _ d _ _ hg hv hw e
    cases top <;> simp only [place] <;> first | exact this | (split; rfl; exact this)
  | .bad e0, top, d, v, w, hg, hv, hw, e => by
    have := h _ d _ _ hg hv hw e
    cases top <;> simp only [place] <;> first | exact this | (split; rfl; exact this)

/-- Equal results: both fail alike, or both succeed. -/
theorem mapOk_cases {α β : Type} {f : α → β} {x y : Except RErr α} (h : mapOk f x = mapOk f y) :
    (∃ e, x = .error e ∧ y = .error e) ∨ ∃ a b, x = .ok a ∧ y = .ok b ∧ f a = f b := by
  cases x with
  | error e =>
    cases y with
    | error e' => simp only [mapOk, Except.error.injEq] at h; subst h; exact .inl ⟨e, rfl, rfl⟩
    | ok b => cases h
  | ok a =>
    cases y with
    | error e' => cases h
    | ok b => simp only [mapOk, Except.ok.injEq] at h; exact .inr ⟨a, b, rfl, rfl, h⟩

theorem gist_finish (io : FloatIO) {infos : List FInfo} {subs : List Sch} {vs ws : List Val} (data inner : Bytes)
    (hv : Fields infos subs vs) (hw : Fields infos subs ws) (e : gists infos subs vs = gists infos subs ws) :
    mapOk (gists infos subs) (finishStruct io infos subs vs data inner) = mapOk (gists infos subs) (finishStruct io infos subs ws data inner) := by
  have key : ∀ vs' ws', Fields infos subs vs' → Fields infos subs ws' → gists infos subs vs' = gists infos subs ws' →
      mapOk (gists infos subs) (match modeField infos .innerxml with
        | none => .ok vs'
        | some i => updField infos subs vs' i fun s v =>
          match s with
          | .simple .str => .ok (.str inner)
          | _ => .ok v) =
      mapOk (gists infos subs) (match modeField infos .innerxml with
        | none => .ok ws'
        | some i => updField infos subs ws' i fun s v =>
          match s with
          | .simple .str => .ok (.str inner)
          | _ => .ok v) := by
    intro vs' ws' hv hw e
    cases hx : modeField infos .innerxml with
    | none => simp only [mapOk, e]
    | some i =>
      obtain ⟨fi, hi, hm⟩ := modeField_mode hx
      dsimp only
      refine gist_updField i _ _ fi hi hv hw e ?_
      intro s _ _ v w _ _ e
      cases s with
      | simple k => cases k <;> first | rfl | (simp only [mapOk, e])
      | _ => simp only [mapOk, e]
  unfold finishStruct
  dsimp only
  cases hc : modeField infos .chardata with
  | none => exact key vs ws hv hw e
  | some i =>
    obtain ⟨fi, hi, hm⟩ := modeField_mode hc
    have := gist_updField i (fun s _ => copyValue io s data) (fun s _ => copyValue io s data) fi hi hv hw e (fun _ _ _ _ _ _ _ _ => rfl)
    dsimp only
    rcases mapOk_cases this with ⟨e0, h1, h2⟩ | ⟨vs', ws', h1, h2, h3⟩
    · rw [h1, h2]
    · rw [h1, h2]
      have typ : ∀ s v w, s.ok = true → Typed s v → copyValue io s data = .ok w → Typed s w :=
        fun s v w hs _ hw => copyValue_typed io s data w hs hw
      exact key vs' ws' (updField_fields hv i _ typ h1) (updField_fields hw i _ typ h2) h3

theorem gist_body (io : FloatIO) {L : List Bytes} (n : Name) (as : List Attr) (hp : ∀ a ∈ as, a.name.space = xmlnsURL → a.name.loc ∉ L)
    (data inner : Bytes) (rk rk' : Nat → List FInfo → List Sch → List Val → Except RErr (List Val))
    (hk : ∀ d infos subs vs vs', Fields infos subs vs → rk d infos subs vs = .ok vs' → Fields infos subs vs')
    (hk' : ∀ d infos subs vs vs', Fields infos subs vs → rk' d infos subs vs = .ok vs' → Fields infos subs vs')
    (h : ∀ d infos subs vs ws, GoodF L infos subs → Fields infos subs vs → Fields infos subs ws → gists infos subs vs = gists infos subs ws →
      mapOk (gists infos subs) (rk d infos subs vs) = mapOk (gists infos subs) (rk' d infos subs ws)) :
    Alike L (readBody io n as data inner rk) (readBody io n (as.filter fun a => !isDecl a) data inner rk') := by
  intro s d v w hg hv hw e
  cases s with
  | simple k => simp only [readBody]
  | struct tn xn infos subs =>
    obtain ⟨xv, vs, rfl, fv⟩ := struct_fields hg.ok hv
    obtain ⟨xw, ws, rfl, fw⟩ := struct_fields hg.ok hw
    simp only [gist, Val.struct.injEq] at e
    obtain ⟨rfl, e⟩ := e
    simp only [readBody]
    cases checkName xn n with
    | error e => rfl
    | ok u =>
      dsimp only
      rcases mapOk_cases (gist_readAttrs io hg.fields as hp vs ws fv fw e) with ⟨e0, h1, h2⟩ | ⟨v1, w1, h1, h2, h3⟩
      · rw [h1, h2]
      rw [h1, h2]
      have f1 := readAttrs_fields io as fv h1
      have g1 := readAttrs_fields io _ fw h2
      dsimp only
      rcases mapOk_cases (h d infos subs v1 w1 hg.fields f1 g1 h3) with ⟨e0, h4, h5⟩ | ⟨v2, w2, h4, h5, h6⟩
      · rw [h4, h5]
      rw [h4, h5]
      have f2 := hk d infos subs v1 v2 f1 h4
      have g2 := hk' d infos subs w1 w2 g1 h5
      dsimp only
      rcases mapOk_cases (gist_finish io data inner f2 g2 h6) with ⟨e0, h7, h8⟩ | ⟨v3, w3, h7, h8, h9⟩
      · rw [h7, h8]
      rw [h7, h8]
      simp only [mapOk, gist, h9]
  | bad e0 => have := hg.ok; simp [Sch.ok] at this
  | _ => simp [readBody, mapOk]

theorem dataOf_undecls : ∀ l : List Info, dataOf (plains (undecls l)) = dataOf (plains l)
  | [] => rfl
  | .elem .. :: l => by simp only [undecls, Info.undecl, plains, plain, dataOf, dataOf_undecls l]
  | .chars b :: l => by simp only [undecls, Info.undecl, plains, plain, dataOf, dataOf_undecls l]

mutual
/-- What is read from an element does not depend on declarations. -/
theorem gist_readT (io : FloatIO) {L : List Bytes} : ∀ (x : Info), (∀ p ∈ x.prefixes, p ∉ L) → ∀ (top : Bool) (d : Nat) (s : Sch) (v w : Val),
    Good L s → Typed s v → Typed s w → gist s v = gist s w →
    mapOk (gist s) (readT io top d s v (plain x)) = mapOk (gist s) (readT io top d s w (plain x.undecl))
  | .chars b, _, top, d, s, v, w, _, _, _, _ => by simp only [Info.undecl, plain, readT]
  | .elem n as kids, hp, top, d, s, v, w, hg, hv, hw, e => by
    simp only [Info.prefixes, List.mem_append] at hp
    simp only [Info.undecl, plain, readT, dataOf_undecls]
    refine gist_place (gist_body io n as ?_ _ _ _ _ ?_ ?_ ?_) s top d v w hg hv hw e
    · intro a ha hs
      refine hp _ (.inl ?_)
      rw [List.mem_filterMap]
      exact ⟨a, ha, by rw [if_pos hs]⟩
    · exact fun d infos subs vs vs' hf h => readKids_fields io _ d infos subs vs vs' hf h
    · exact fun d infos subs vs vs' hf h => readKids_fields io _ d infos subs vs vs' hf h
    · exact fun d infos subs vs ws hg hv hw e => gist_readKids io kids (fun p h => hp p (.inr h)) d infos subs vs ws hg hv hw e
theorem gist_readKids (io : FloatIO) {L : List Bytes} : ∀ (l : List Info), (∀ p ∈ prefixess l, p ∉ L) → ∀ (d : Nat) (infos : List FInfo)
    (subs : List Sch) (vs ws : List Val), GoodF L infos subs → Fields infos subs vs → Fields infos subs ws →
    gists infos subs vs = gists infos subs ws →
    mapOk (gists infos subs) (readKids io d infos subs vs (plains l)) = mapOk (gists infos subs) (readKids io d infos subs ws (plains (undecls l)))
  | [], _, d, infos, subs, vs, ws, _, _, _, e => by simp only [undecls, plains, readKids, mapOk, e]
  | .chars b :: l, hp, d, infos, subs, vs, ws, hg, hv, hw, e => by
    simp only [prefixess, List.mem_append] at hp
    simp only [undecls, Info.undecl, plains, plain, readKids]
    exact gist_readKids io l (fun p h => hp p (.inr h)) d infos subs vs ws hg hv hw e
  | .elem n as kids :: l, hp, d, infos, subs, vs, ws, hg, hv, hw, e => by
    simp only [prefixess, List.mem_append] at hp
    have ih := gist_readKids io l (fun p h => hp p (.inr h)) d infos subs
    have ht := gist_readT io (.elem n as kids) (fun p h => hp p (.inl h)) true (d + 1)
    simp only [undecls, Info.undecl, plains, plain, readKids] at ht ⊢
    cases hf : elemField infos n with
    | none => exact ih vs ws hg hv hw e
    | some i =>
      obtain ⟨fi, h1, h2⟩ := findIdx_some hf
      have hm : fi.mode = .elem := by
        simp only [Bool.and_eq_true, beq_iff_eq] at h2
        exact h2.1.1
      have hgF : ∀ s, gistF fi s = gist s := fun s => funext fun v => by simp [gistF, hm]
      dsimp only
      have := gist_updField i (fun s v => readT io true (d + 1) s v (.elem n as [] [] (plains kids) n [] []))
        (fun s v => readT io true (d + 1) s v (.elem n (as.filter fun a => !isDecl a) [] [] (plains (undecls kids)) n [] [])) fi h1 hv hw e (by
          intro s hs hok v w hv hw e
          rw [hgF] at e ⊢
          exact ht s v w ⟨hok, (recss_get infos subs i fi s hg.rec_ok h1 hs).2, fun x hx => hg.sub x (attrLocss_get subs i s hs x hx)⟩ hv hw e)
      rcases mapOk_cases this with ⟨e0, h3, h4⟩ | ⟨vs', ws', h3, h4, h5⟩
      · rw [h3, h4]
      · rw [h3, h4]
        refine ih vs' ws' hg (updField_fields hv i _ ?_ h3) (updField_fields hw i _ ?_ h4) h5
        · exact fun s v w hs hv hw => readT_typed io _ true (d + 1) s v w hs hv hw
        · exact fun s v w hs hv hw => readT_typed io _ true (d + 1) s v w hs hv hw
end

/-! ### Documents -/

mutual
theorem gist_outline : ∀ (s : Sch) (v : Val), recsOk s = true → gist s (outline s v) = gist s v
  | .ptr s, v, h => by
    cases v with
    | ptr o => cases o with
      | none => rfl
      | some w => simp only [outline, gist, gist_outline s w (by simpa [recsOk] using h)]
    | _ => rfl
  | .slice s, v, h => by
    cases v with
    | slice l =>
      simp only [outline, gist, List.map_map, Val.slice.injEq]
      exact List.map_congr_left fun w _ => gist_outline s w (by simpa [recsOk] using h)
    | _ => rfl
  | .struct tn xn infos subs, v, h => by
    cases v with
    | struct n vs => simp only [outline, gist, gists_outlines infos subs vs (by simpa [recsOk] using h)]
    | _ => rfl
  | .simple k, v, _ => by rw [outline_simple]
  | .name, v, _ => by cases v <;> rfl
  | .attr, v, _ => by cases v <;> rfl
  | .bad e, v, _ => by cases v <;> rfl
theorem gists_outlines : ∀ (infos : List FInfo) (subs : List Sch) (vs : List Val), recssOk infos subs = true →
    gists infos subs (outlines infos subs vs) = gists infos subs vs
  | fi :: fis, s :: ss, v :: vs, h => by
    simp only [recssOk, Bool.and_eq_true] at h
    rw [outlines, gists_cons, gists_cons, gists_outlines fis ss vs h.2]
    have ih := gist_outline s v h.1.2
    congr 1
    unfold gistF
    by_cases h0 : fi.mode = .innerxml
    · simp only [h0, if_true]; cases v <;> rfl
    · simp only [h0, if_false]
      by_cases h1 : fi.mode = .anyAttr
      · obtain ⟨rfl, _⟩ := recOk_any h.1.1 h1
        have : ∀ v, outline (.slice .attr) v = v := fun v => outline_noInner _ v rfl
        rw [this]
      · by_cases h2 : fi.mode = .attr ∧ fi.xmlns = [] ∧ fi.loc = b!"xmlns"
        · obtain ⟨rfl, _⟩ := recOk_xmlns h.1.1 h2
          rw [outline_simple]
        · rw [if_neg h1, if_neg h2, if_neg h1, if_neg h2, ih]
  | [], _, vs, _ => by simp [outlines]
  | _ :: _, [], vs, _ => by simp [outlines]
  | _ :: _, _ :: _, [], _ => by simp [outlines]
end

theorem mapOk_comp {α β γ : Type} (f : β → γ) (g : α → β) (x : Except RErr α) : mapOk f (mapOk g x) = mapOk (fun a => f (g a)) x := by
  cases x <;> rfl

/-- Two documents have the same expanded names, attributes and content, apart from the declarations of namespaces. -/
def SameNames (d d' : Doc) : Prop := undecls (resolves [] (d.root.info [])) = undecls (resolves [] (d'.root.info []))

/-- The prefixes a document declares. -/
def Doc.prefixes (d : Doc) : List Bytes := prefixess (resolves [] (d.root.info []))

/-- Reading a document, apart from what records declarations, is reading its content without declarations. -/
theorem gist_root (io : FloatIO) (s : Sch) (hs : s.ok = true) (hr : recsOk s = true) (d : Doc) (h : d.Ok) (hu : d.Usual)
    (hp : ∀ p ∈ d.prefixes, p ∉ attrLocs s) : mapOk (gist s) (unmarshalDoc io s d.src) =
      mapOk (gist s) (match undecls (resolves [] (d.root.info [])) with
        | x :: _ => readT io false 0 s s.zero (plain x)
        | [] => .error .unknownType) := by
  obtain ⟨t, h1, h2⟩ := C54_wellformed_partial d h hu
  have e : mapOk (gist s) (unmarshalDoc io s d.src) = mapOk (gist s) (mapOk (outline s) (unmarshalDoc io s d.src)) := by
    rw [mapOk_comp]
    congr 1
    exact funext fun v => (gist_outline s v hr).symm
  rw [e, outline_root io s d.src t h1, h2]
  unfold Doc.prefixes at hp
  cases hx : resolves [] (d.root.info []) with
  | nil => rfl
  | cons x l =>
    rw [hx] at hp
    simp only [prefixess, List.mem_append] at hp
    simp only [undecls]
    exact gist_readT io x (fun p h => hp p (.inl h)) false 0 s s.zero s.zero ⟨hs, hr, fun _ h => h⟩ (zero_typed s hs) (zero_typed s hs) rfl

/-- C56, for well-formed documents as C54 has them (`Usual`) and prefixes that are not the local name of an attribute of the type:
the result of unmarshalling, apart from what records the declarations themselves, depends only on expanded names, attributes
and content, not on prefixes and not on where they are declared.  Missing: prefixes like `id`, for which the claim is false
(`C56_refuted`). -/
theorem C56_prefixes_partial (io : FloatIO) (s : Sch) (hs : s.ok = true) (hr : recsOk s = true) (d d' : Doc) (h : d.Ok) (h' : d'.Ok)
    (hu : d.Usual) (hu' : d'.Usual) (hp : ∀ p ∈ d.prefixes, p ∉ attrLocs s) (hp' : ∀ p ∈ d'.prefixes, p ∉ attrLocs s)
    (hn : SameNames d d') : mapOk (gist s) (unmarshalDoc io s d.src) = mapOk (gist s) (unmarshalDoc io s d'.src) := by
  rw [gist_root io s hs hr d h hu hp, gist_root io s hs hr d' h' hu' hp', hn]

/-- The types of manifests record declarations in fields that can take them. -/
theorem mpd_recs : recsOk tMPD.sch = true := by decide +kernel

/-- The prefixes in use with manifests are not names of attributes. -/
theorem mpd_prefixes : ∀ p ∈ [b!"scte35", b!"scte214", b!"xlink", b!"cenc", b!"xsi", b!"mspr", b!"dolby", b!"dvb", b!"mpd", b!"m", b!"q"],
    p ∉ attrLocs tMPD.sch := by decide +kernel

/-- C56 for manifests. -/
theorem C56_manifests_partial (io : FloatIO) (d d' : Doc) (h : d.Ok) (h' : d'.Ok) (hu : d.Usual) (hu' : d'.Usual)
    (hp : ∀ p ∈ d.prefixes, p ∉ attrLocs tMPD.sch) (hp' : ∀ p ∈ d'.prefixes, p ∉ attrLocs tMPD.sch) (hn : SameNames d d') :
    mapOk (gist tMPD.sch) (unmarshalDoc io tMPD.sch d.src) = mapOk (gist tMPD.sch) (unmarshalDoc io tMPD.sch d'.src) :=
  C56_prefixes_partial io _ mpd_ok mpd_recs d d' h h' hu hu' hp hp' hn

/-! ### Two manifests -/

/-- The attribute `n="v"`. -/
def att (sp n v : Bytes) : Att := ⟨b!" ", ⟨sp, n⟩, [], [], ch%'"', ⟨v, []⟩⟩

/-- A manifest with a default namespace. -/
def defaultDoc : Doc :=
  { root := .elem ⟨[], b!"MPD"⟩ [att [] (b!"xmlns") (b!"urn:m"), att [] (b!"id") (b!"a")] [] false
      [.elem ⟨[], b!"Period"⟩ [att [] (b!"id") (b!"p")] [] true [] []] [] }

/-- The same with prefixes, declared in two places. -/
def prefixDoc : Doc :=
  { root := .elem ⟨b!"m", b!"MPD"⟩ [att [] (b!"id") (b!"a"), att (b!"xmlns") (b!"m") (b!"urn:m")] [] false
      [.elem ⟨b!"q", b!"Period"⟩ [att (b!"xmlns") (b!"q") (b!"urn:m"), att [] (b!"id") (b!"p")] [] true [] []] [] }

/-- A prefix named like an attribute. -/
def idDoc : Doc := { root := .elem ⟨[], b!"MPD"⟩ [att (b!"xmlns") (b!"id") (b!"urn:x")] [] true [] [] }

/-- Another prefix. -/
def qDoc : Doc := { root := .elem ⟨[], b!"MPD"⟩ [att (b!"xmlns") (b!"q") (b!"urn:x")] [] true [] [] }

example : defaultDoc.src = b!"<MPD xmlns=\"urn:m\" id=\"a\"><Period id=\"p\"/></MPD>" ∧
    prefixDoc.src = b!"<m:MPD id=\"a\" xmlns:m=\"urn:m\"><q:Period xmlns:q=\"urn:m\" id=\"p\"/></m:MPD>" ∧
    idDoc.src = b!"<MPD xmlns:id=\"urn:x\"/>" ∧ qDoc.src = b!"<MPD xmlns:q=\"urn:x\"/>" := by
  decide +kernel

theorem defaultDoc_ok : defaultDoc.Ok ∧ defaultDoc.Usual := by
  refine ⟨⟨by simp [defaultDoc], ⟨trivial, trivial, by simp [defaultDoc]⟩, by simp [defaultDoc], ⟨?_, rfl⟩, ⟨trivial, trivial, by simp [defaultDoc]⟩⟩, ?_⟩
  · simp only [defaultDoc, Node.Ok, Oks, Apart]
    decide +kernel
  · refine usual_of _ ?_
    simp only [defaultDoc, Node.Usual, Usuals]
    decide +kernel

theorem prefixDoc_ok : prefixDoc.Ok ∧ prefixDoc.Usual := by
  refine ⟨⟨by simp [prefixDoc], ⟨trivial, trivial, by simp [prefixDoc]⟩, by simp [prefixDoc], ⟨?_, rfl⟩, ⟨trivial, trivial, by simp [prefixDoc]⟩⟩, ?_⟩
  · simp only [prefixDoc, Node.Ok, Oks, Apart]
    decide +kernel
  · refine usual_of _ ?_
    simp only [prefixDoc, Node.Usual, Usuals]
    decide +kernel

theorem idDoc_ok : idDoc.Ok ∧ idDoc.Usual := by
  refine ⟨⟨by simp [idDoc], ⟨trivial, trivial, by simp [idDoc]⟩, by simp [idDoc], ⟨?_, rfl⟩, ⟨trivial, trivial, by simp [idDoc]⟩⟩, ?_⟩
  · simp only [idDoc, Node.Ok, Oks, Apart]
    decide +kernel
  · refine usual_of _ ?_
    simp only [idDoc, Node.Usual, Usuals]
    decide +kernel

theorem qDoc_ok : qDoc.Ok ∧ qDoc.Usual := by
  refine ⟨⟨by simp [qDoc], ⟨trivial, trivial, by simp [qDoc]⟩, by simp [qDoc], ⟨?_, rfl⟩, ⟨trivial, trivial, by simp [qDoc]⟩⟩, ?_⟩
  · simp only [qDoc, Node.Ok, Oks, Apart]
    decide +kernel
  · refine usual_of _ ?_
    simp only [qDoc, Node.Usual, Usuals]
    decide +kernel

/-- Whether a result is a value. -/
def isOk {α : Type} : Except RErr α → Bool
  | .ok _ => true
  | .error _ => false

/-- Both are read, with the same result apart from the field `xmlns`; the hypotheses of C56 hold. -/
example (io : FloatIO) : isOk (unmarshalDoc io tMPD.sch defaultDoc.src) = true ∧ prefixDoc.prefixes = [b!"m", b!"q"] ∧
    mapOk (gist tMPD.sch) (unmarshalDoc io tMPD.sch defaultDoc.src) = mapOk (gist tMPD.sch) (unmarshalDoc io tMPD.sch prefixDoc.src) := by
  refine ⟨by krfl, by decide +kernel, C56_manifests_partial io _ _ defaultDoc_ok.1 prefixDoc_ok.1 defaultDoc_ok.2 prefixDoc_ok.2 ?_ ?_ ?_⟩
  · have : defaultDoc.prefixes = [] := by decide +kernel
    rw [this]; simp
  · have : prefixDoc.prefixes = [b!"m", b!"q"] := by decide +kernel
    rw [this]
    exact fun p hp => mpd_prefixes p (by revert p; decide +kernel)
  · unfold SameNames; krfl

/-- Whether the result is a struct with a string field of value `p`. -/
def hasStr (p : Bytes) : Except RErr Val → Bool
  | .ok (.struct _ vs) => vs.any fun v => match v with
    | .str x => x == p
    | _ => false
  | _ => false

/-- C56 does not hold for all prefixes: the declaration of a prefix `id` is read as the attribute `id`
(`/repo/xml/read.go` 477-500 ignores the namespace of an attribute). -/
theorem C56_refuted (io : FloatIO) : ¬ ∀ (d d' : Doc), d.Ok → d'.Ok → d.Usual → d'.Usual → SameNames d d' →
    mapOk (gist tMPD.sch) (unmarshalDoc io tMPD.sch d.src) = mapOk (gist tMPD.sch) (unmarshalDoc io tMPD.sch d'.src) := by
  intro h
  have := h idDoc qDoc idDoc_ok.1 qDoc_ok.1 idDoc_ok.2 qDoc_ok.2 (by unfold SameNames; krfl)
  have h1 : hasStr (b!"urn:x") (mapOk (gist tMPD.sch) (unmarshalDoc io tMPD.sch idDoc.src)) = true := by krfl
  have h2 : hasStr (b!"urn:x") (mapOk (gist tMPD.sch) (unmarshalDoc io tMPD.sch qDoc.src)) = false := by krfl
  rw [this, h2] at h1
  cases h1

end Verif.Grammar

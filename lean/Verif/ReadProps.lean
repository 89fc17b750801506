import Verif.Typed
import Mathlib.Data.List.Perm.Basic
import Mathlib.Logic.Relation
import Verif.MpdSchema
import Verif.KRfl

/-!
C31 (unknown content is ignored), C32 (the order of attributes does not matter) and C33 (the order of elements matters only
within a list).

An edit is made to the attributes and the content of one element, anywhere in the document (`Anywhere`).  Two documents are
read alike (`Agree`) if one is read successfully with a value exactly if the other one is, with the same value; which error
is returned for a document that cannot be read may change.
-/
namespace Verif.Bind

open Verif.Xml

/-- The same successful results. -/
def Agree {α} (x y : Except RErr α) : Prop := ∀ v, x = .ok v ↔ y = .ok v

theorem Agree.refl {α} (x : Except RErr α) : Agree x x := fun _ => Iff.rfl
theorem Agree.symm {α} {x y : Except RErr α} (h : Agree x y) : Agree y x := fun v => (h v).symm
theorem Agree.trans {α} {x y z : Except RErr α} (h : Agree x y) (h' : Agree y z) : Agree x z := fun v => (h v).trans (h' v)

/-- One step after another. -/
def andThen {α β} (x : Except RErr α) (f : α → Except RErr β) : Except RErr β :=
  match x with
  | .error e => .error e
  | .ok a => f a

theorem andThen_ok {α β} {x : Except RErr α} {f : α → Except RErr β} {b : β} :
    andThen x f = .ok b ↔ ∃ a, x = .ok a ∧ f a = .ok b := by
  cases x <;> simp [andThen]

/-- The type inside pointers and lists. -/
def core : Bool → Sch → Sch
  | true, .ptr s => core false s
  | _, .slice s => core true s
  | _, s => s

/-- One change to the attributes and the content of an element that is read into a value of the given type, which is neither
a pointer nor a list. -/
def Change := Sch → List Attr × List XTree → List Attr × List XTree → Prop

/-- The fields of a type. -/
def fieldsOf : Sch → List FInfo
  | .struct _ _ infos _ => infos
  | _ => []

/-- One change anywhere in an element that is read as a value of type `s` (`top` as in `place`).  The element changed and
those around it have no `innerxml` field, and their positions in the input are arbitrary. -/
inductive Anywhere (R : Change) : Bool → Sch → XTree → XTree → Prop
  | here {top s n as as' b a b' a' kids kids' en en' eb ea eb' ea'} :
      modeField (fieldsOf (core top s)) .innerxml = none → R (core top s) (as, kids) (as', kids') →
      Anywhere R top s (.elem n as b a kids en eb ea) (.elem n as' b' a' kids' en' eb' ea')
  | inside {top s tn xn infos subs n as b a b' a' l k k' r en en' eb ea eb' ea' i s'} :
      core top s = .struct tn xn infos subs → modeField infos .innerxml = none →
      (∃ m as1 b1 a1 kids1 en1 eb1 ea1 as2 b2 a2 kids2 en2 eb2 ea2, k = .elem m as1 b1 a1 kids1 en1 eb1 ea1 ∧
        k' = .elem m as2 b2 a2 kids2 en2 eb2 ea2 ∧ elemField infos m = some i) →
      subs[i]? = some s' → Anywhere R true s' k k' →
      Anywhere R top s (.elem n as b a (l ++ k :: r) en eb ea) (.elem n as b' a' (l ++ k' :: r) en' eb' ea')

/-- A change that does not change the fields that are read. -/
def Harmless (io : FloatIO) (R : Change) : Prop :=
  (∀ k as kids as' kids', R (.simple k) (as, kids) (as', kids') → dataOf kids = dataOf kids') ∧
  ∀ tn xn infos subs as kids as' kids', R (.struct tn xn infos subs) (as, kids) (as', kids') → ∀ d vs,
    Fields infos subs vs →
    Agree (andThen (readAttrs io infos subs vs as) fun vs1 => readKids io d infos subs vs1 kids)
      (andThen (readAttrs io infos subs vs as') fun vs1 => readKids io d infos subs vs1 kids') ∧
    (modeField infos .chardata ≠ none → dataOf kids = dataOf kids')

theorem agree_wrapPtr {x y : Except RErr Val} (h : Agree x y) : Agree (wrapPtr x) (wrapPtr y) := by
  intro v
  constructor <;> intro hv <;> obtain ⟨w, hw, rfl⟩ := wrapPtr_ok hv
  · rw [(h w).1 hw]; rfl
  · rw [(h w).2 hw]; rfl

theorem agree_wrapSlice {l : List Val} {x y : Except RErr Val} (h : Agree x y) :
    Agree (wrapSlice l x) (wrapSlice l y) := by
  intro v
  constructor <;> intro hv <;> obtain ⟨w, hw, rfl⟩ := wrapSlice_ok hv
  · rw [(h w).1 hw]; rfl
  · rw [(h w).2 hw]; rfl

theorem place_agree (f g : Nat → Sch → Val → Except RErr Val) : ∀ (s : Sch) (top : Bool) (d : Nat) (v : Val),
    s.ok = true → Typed s v →
    (∀ d v, Typed (core top s) v → Agree (f d (core top s) v) (g d (core top s) v)) →
    Agree (place f top d s v) (place g top d s v)
  | .ptr s, true, d, v, hs, hv, h => by
    simp only [place]
    split
    · exact Agree.refl _
    · simp only [Sch.ok] at hs
      exact agree_wrapPtr (place_agree f g s false d _ hs (deref_typed s v hs hv) (by simpa [core] using h))
  | .ptr s, false, d, v, hs, hv, h => by simp only [place]; exact h d v hv
  | .slice s, top, d, v, hs, hv, h => by
    obtain ⟨l, rfl, hl⟩ := slice_typed hv
    simp only [Sch.ok] at hs
    have := agree_wrapSlice (l := l) (place_agree f g s true (d + 1) _ hs (zero_typed s hs) (by
      cases top <;> simpa [core] using h))
    cases top with
    | false => simpa only [place] using this
    | true =>
      simp only [place]
      split
      · exact Agree.refl _
      · exact this
  | .simple k, top, d, v, hs, hv, h => by
    cases top with
    | false => simp only [place]; exact h d v hv
    | true =>
      simp only [place]
      split
      · exact Agree.refl _
      · exact h d v hv
  | .name, top, d, v, hs, hv, h => by
    cases top with
    | false => simp only [place]; exact h d v hv
    | true =>
      simp only [place]
      split
      · exact Agree.refl _
      · exact h d v hv
  | .attr, top, d, v, hs, hv, h => by
    cases top with
    | false => simp only [place]; exact h d v hv
    | true =>
      simp only [place]
      split
      · exact Agree.refl _
      · exact h d v hv
  | .struct .., top, d, v, hs, hv, h => by
    cases top with
    | false => simp only [place]; exact h d v hv
    | true =>
      simp only [place]
      split
      · exact Agree.refl _
      · exact h d v hv
  | .bad _, top, d, v, hs, hv, h => by simp [Sch.ok] at hs

theorem core_ok : ∀ (s : Sch) (top : Bool), s.ok = true → (core top s).ok = true
  | .ptr s, true, h => by simp only [core]; exact core_ok s false (by simpa [Sch.ok] using h)
  | .ptr s, false, h => by simpa only [core] using h
  | .slice s, top, h => by
    have := core_ok s true (by simpa [Sch.ok] using h)
    cases top <;> simpa only [core] using this
  | .simple _, top, h => by cases top <;> simpa only [core] using h
  | .name, top, h => by cases top <;> simpa only [core] using h
  | .attr, top, h => by cases top <;> simpa only [core] using h
  | .struct .., top, h => by cases top <;> simpa only [core] using h
  | .bad _, top, h => by cases top <;> simpa only [core] using h

theorem readKids_append (io : FloatIO) (d : Nat) (infos : List FInfo) (subs : List Sch) (r : List XTree) :
    ∀ (l : List XTree) (vs : List Val), readKids io d infos subs vs (l ++ r) =
      match readKids io d infos subs vs l with
      | .error e => .error e
      | .ok vs1 => readKids io d infos subs vs1 r
  | [], vs => by simp [readKids]
  | .leaf _ _ _ :: l, vs => by simp only [List.cons_append, readKids]; exact readKids_append io d infos subs r l vs
  | .elem .. :: l, vs => by
    simp only [List.cons_append, readKids]
    split
    · exact readKids_append io d infos subs r l vs
    · split
      · rfl
      · exact readKids_append io d infos subs r l _

theorem dataOf_append : ∀ (l r : List XTree), dataOf (l ++ r) = dataOf l ++ dataOf r
  | [], r => rfl
  | .leaf _ _ _ :: l, r => by simp [dataOf, dataOf_append l r]
  | .elem .. :: l, r => by simp [dataOf, dataOf_append l r]

theorem finishStruct_inner (io : FloatIO) (infos : List FInfo) (subs : List Sch) (vs : List Val) (data data' inner inner' : Bytes)
    (h : modeField infos .innerxml = none) (hd : modeField infos .chardata ≠ none → data = data') :
    finishStruct io infos subs vs data inner = finishStruct io infos subs vs data' inner' := by
  unfold finishStruct
  rw [h]
  cases hc : modeField infos .chardata with
  | none => rfl
  | some i => rw [hd (by simp [hc])]

/-- The value of a struct agrees if its attributes and elements do. -/
theorem readBody_agree (io : FloatIO) (n : Name) (as as' : List Attr) (data data' inner inner' : Bytes)
    (rk rk' : Nat → List FInfo → List Sch → List Val → Except RErr (List Val)) (d : Nat) (tn : Bytes) (xn : Option FInfo)
    (infos : List FInfo) (subs : List Sch) (xv : Name) (vs : List Val)
    (hin : modeField infos .innerxml = none) (hdat : modeField infos .chardata ≠ none → data = data')
    (h : Agree (andThen (readAttrs io infos subs vs as) fun vs1 => rk d infos subs vs1)
      (andThen (readAttrs io infos subs vs as') fun vs1 => rk' d infos subs vs1)) :
    Agree (readBody io n as data inner rk d (.struct tn xn infos subs) (.struct xv vs))
      (readBody io n as' data' inner' rk' d (.struct tn xn infos subs) (.struct xv vs)) := by
  have e : ∀ (as : List Attr) (data inner : Bytes) (rk : Nat → List FInfo → List Sch → List Val → Except RErr (List Val))
      (w : Val), readBody io n as data inner rk d (.struct tn xn infos subs) (.struct xv vs) = .ok w ↔
      checkName xn n = .ok () ∧ ∃ vs2, (andThen (readAttrs io infos subs vs as) fun vs1 => rk d infos subs vs1) = .ok vs2 ∧
        ∃ vs3, finishStruct io infos subs vs2 data inner = .ok vs3 ∧ w = .struct (if xn.isSome then n else xv) vs3 := by
    intro as data inner rk w
    simp only [readBody]
    constructor
    · intro h
      split at h
      · cases h
      split at h
      · cases h
      split at h
      · cases h
      split at h
      · cases h
      · rename_i hn _ _ ha _ _ hk _ vs3 hfin
        injection h with h
        exact ⟨hn, _, andThen_ok.2 ⟨_, ha, hk⟩, vs3, hfin, h.symm⟩
    · rintro ⟨h1, vs2, h2, vs3, h3, h4⟩
      obtain ⟨vs1, ha, hk⟩ := andThen_ok.1 h2
      simp only [h1, ha, hk, h3, h4]
  intro w
  rw [e, e]
  constructor
  · rintro ⟨h1, vs2, h2, vs3, h3, h4⟩
    exact ⟨h1, vs2, (h vs2).1 h2, vs3, by rw [← h3]; exact (finishStruct_inner io infos subs vs2 _ _ _ _ hin hdat).symm, h4⟩
  · rintro ⟨h1, vs2, h2, vs3, h3, h4⟩
    exact ⟨h1, vs2, (h vs2).2 h2, vs3, by rw [← h3]; exact finishStruct_inner io infos subs vs2 _ _ _ _ hin hdat, h4⟩

theorem updField_agree {infos : List FInfo} {subs : List Sch} {vs : List Val} (hf : Fields infos subs vs) (i : Nat)
    (s : Sch) (hs : subs[i]? = some s) (g h : Sch → Val → Except RErr Val)
    (hg : ∀ v, Typed s v → Agree (g s v) (h s v)) :
    Agree (updField infos subs vs i g) (updField infos subs vs i h) := by
  have hi : i < vs.length := by rw [hf.len_vs]; exact lt_of_get hs
  obtain ⟨_, s', v, h1, h2, h3, _⟩ := initGroup_fields hf i hi
  rw [hs] at h1; injection h1 with h1; subst h1
  intro ws
  unfold updField
  rw [hs, h2]
  dsimp only
  have ha := hg v h3
  constructor
  · intro hh
    split at hh
    · rename_i w hw
      rw [(ha w).1 hw]; exact hh
    · cases hh
  · intro hh
    split at hh
    · rename_i w hw
      rw [(ha w).2 hw]; exact hh
    · cases hh

/-- A harmless change anywhere in a document does not change what is read. -/
theorem anywhere_agree (io : FloatIO) (R : Change) (hR : Harmless io R) {top : Bool} {s : Sch} {t t' : XTree}
    (h : Anywhere R top s t t') : s.ok = true → ∀ d v, Typed s v → Agree (readT io top d s v t) (readT io top d s v t') := by
  induction h with
  | @here top s n as as' b a b' a' kids kids' en en' eb ea eb' ea' hin hr =>
    intro hs d v hv
    rw [readT, readT]
    refine place_agree _ _ s top d v hs hv fun d v hv => ?_
    have hcs := core_ok s top hs
    revert hin hr hcs hv
    generalize core top s = c
    intro hin hr hv hcs
    cases c with
    | simple k =>
      simp only [readBody]
      rw [hR.1 k as kids as' kids' hr]; exact Agree.refl _
    | struct tn xn infos subs =>
      obtain ⟨xv, vs, rfl, hf⟩ := struct_fields hcs hv
      have := hR.2 tn xn infos subs as kids as' kids' hr d vs hf
      exact readBody_agree io n as as' _ _ _ _ _ _ d tn xn infos subs xv vs hin this.2 this.1
    | _ => simp only [readBody]; exact Agree.refl _
  | @inside top s tn xn infos subs n as b a b' a' l k k' r en en' eb ea eb' ea' i s' hc hin hk hi _ ih =>
    intro hs d v hv
    rw [readT, readT]
    refine place_agree _ _ s top d v hs hv fun d v hv => ?_
    rw [hc] at hv ⊢
    have hcs := core_ok s top hs
    rw [hc] at hcs
    obtain ⟨xv, vs, rfl, hf⟩ := struct_fields hcs hv
    obtain ⟨m, as1, b1, a1, kids1, en1, eb1, ea1, as2, b2, a2, kids2, en2, eb2, ea2, rfl, rfl, hm⟩ := hk
    refine readBody_agree io n as as _ _ _ _ _ _ d tn xn infos subs xv vs hin (fun _ => ?_) ?_
    · rw [dataOf_append, dataOf_append]; rfl
    · cases ha : readAttrs io infos subs vs as with
      | error e => exact Agree.refl _
      | ok vs1 =>
        have hf1 := readAttrs_fields io as hf ha
        simp only [andThen]
        rw [readKids_append, readKids_append]
        cases hl : readKids io d infos subs vs1 l with
        | error e => exact Agree.refl _
        | ok vs2 =>
          have hf2 := readKids_fields io l d infos subs vs1 vs2 hf1 hl
          dsimp only
          simp only [readKids, hm]
          have hs' : s'.ok = true := oks_get _ hf.ok _ _ hi
          have hu := updField_agree hf2 i s' hi (fun s v => readT io true (d + 1) s v (.elem m as1 b1 a1 kids1 en1 eb1 ea1))
            (fun s v => readT io true (d + 1) s v (.elem m as2 b2 a2 kids2 en2 eb2 ea2))
            (fun v hv => ih hs' (d + 1) v hv)
          intro ws
          constructor
          · intro hh
            split at hh
            · cases hh
            · rename_i vs3 h3
              rw [(hu vs3).1 h3]; exact hh
          · intro hh
            split at hh
            · cases hh
            · rename_i vs3 h3
              rw [(hu vs3).2 h3]; exact hh

mutual
/-- A tree without positions, except that the raw content of every element is kept. -/
def bare : XTree → XTree
  | .elem n as _ a kids en eb _ => .elem n as [] (a.take (a.length - eb.length)) (bares kids) en [] []
  | .leaf t _ _ => .leaf t [] []
/-- Trees without positions. -/
def bares : List XTree → List XTree
  | [] => []
  | t :: l => bare t :: bares l
end

theorem dataOf_bares : ∀ l : List XTree, dataOf (bares l) = dataOf l
  | [] => rfl
  | .leaf t b a :: l => by simp only [bares, bare, dataOf, dataOf_bares l]
  | .elem .. :: l => by simp only [bares, bare, dataOf, dataOf_bares l]

mutual
theorem readT_bare (io : FloatIO) : ∀ (t : XTree) (top : Bool) (d : Nat) (s : Sch) (v : Val),
    readT io top d s v (bare t) = readT io top d s v t
  | .leaf _ _ _, top, d, s, v => by simp only [bare, readT]
  | .elem n as b a kids en eb ea, top, d, s, v => by
    simp only [bare, readT, dataOf_bares, List.length_nil, Nat.sub_zero, List.take_length]
    simp only [readKids_bares io kids]
theorem readKids_bares (io : FloatIO) : ∀ (l : List XTree) (d : Nat) (infos : List FInfo) (subs : List Sch) (vs : List Val),
    readKids io d infos subs vs (bares l) = readKids io d infos subs vs l
  | [], d, infos, subs, vs => by simp only [bares]
  | .leaf _ _ _ :: l, d, infos, subs, vs => by simp only [bares, bare, readKids, readKids_bares io l]
  | .elem n as b a kids en eb ea :: l, d, infos, subs, vs => by
    have h := fun s v => readT_bare io (.elem n as b a kids en eb ea) true (d + 1) s v
    simp only [bare] at h
    simp only [bares, bare, readKids, h, readKids_bares io l]
end

/-- Documents whose root elements differ by harmless changes are read alike. -/
theorem anywhere_docs (io : FloatIO) (R : Change) (hR : Harmless io R) (s : Sch) (hs : s.ok = true) (doc doc' : Bytes)
    (t t' : XTree) (h1 : IsDoc doc t) (h2 : IsDoc doc' t') (h : Relation.EqvGen (Anywhere R false s) (bare t) (bare t')) :
    Agree (unmarshalDoc io s doc) (unmarshalDoc io s doc') := by
  rw [unmarshalDoc_tree io s doc t h1, unmarshalDoc_tree io s doc' t' h2]
  clear h1 h2
  unfold readRoot
  rw [← readT_bare io t, ← readT_bare io t']
  generalize bare t = x at h ⊢
  generalize bare t' = y at h ⊢
  induction h with
  | rel x y h => exact anywhere_agree io R hR h hs 0 _ (zero_typed s hs)
  | refl x => exact Agree.refl _
  | symm x y _ ih => exact ih.symm
  | trans x y z _ _ ih1 ih2 => exact ih1.trans ih2

/-! ### Updates of different fields commute -/

/-- The value of field `k` after its embedded pointer has been set, if it was nil. -/
def cur (subs : List Sch) (vs : List Val) (k : Nat) : Option Val :=
  match subs[k]?, vs[k]? with
  | some s, some v => some (if v.isAbsent then s.zero else v)
  | _, _ => none

/-- Two fields behind the same embedded pointer, or both behind none. -/
def sameGrp (infos : List FInfo) (i k : Nat) : Bool :=
  match infos[i]?, infos[k]? with
  | some a, some b => decide (a.grp = b.grp)
  | _, _ => false

theorem initGroup_cur {infos : List FInfo} {subs : List Sch} {vs : List Val} (hf : Fields infos subs vs) {i : Nat}
    (hi : i < vs.length) (k : Nat) :
    (initGroup infos subs vs i)[k]? = if sameGrp infos i k then cur subs vs k else vs[k]? := by
  by_cases hk : k < vs.length
  · obtain ⟨fi, si, vi, a1, a2, a3, _⟩ := hf.at hi
    obtain ⟨fk, sk, vk, b1, b2, b3, _⟩ := hf.at hk
    rw [initGroup_get hf i k fi fk vi vk sk a1 a3 b1 b3 b2]
    have hu := (hf.uni i k fi fk vi vk a1 b1 a3 b3).1
    simp only [sameGrp, a1, b1, cur, b2, b3, decide_eq_true_eq]
    by_cases hg : fi.grp = fk.grp
    · rw [if_pos hg, ← hu hg]
      simp [hg]
    · rw [if_neg hg, if_neg (by rintro ⟨_, h⟩; exact hg h.symm)]
  · have h1 : (initGroup infos subs vs i)[k]? = none := List.getElem?_eq_none (by rw [initGroup_length]; omega)
    have h2 : vs[k]? = none := List.getElem?_eq_none (by omega)
    have h3 : cur subs vs k = none := by unfold cur; rw [h2]; split <;> simp_all
    rw [h1, h2, h3]; simp

theorem sameGrp_refl {infos : List FInfo} {i : Nat} (h : i < infos.length) : sameGrp infos i i = true := by
  obtain ⟨a, ha⟩ := get_of_lt h
  simp [sameGrp, ha]

theorem updField_iff {infos : List FInfo} {subs : List Sch} {vs vs' : List Val} (hf : Fields infos subs vs) (i : Nat)
    (g : Sch → Val → Except RErr Val) :
    updField infos subs vs i g = .ok vs' ↔ ∃ s v w, subs[i]? = some s ∧ cur subs vs i = some v ∧ g s v = .ok w ∧
      ∀ k, vs'[k]? = if k = i then some w else if sameGrp infos i k then cur subs vs k else vs[k]? := by
  by_cases hi : i < vs.length
  · obtain ⟨fi, si, vi, a1, a2, a3, _⟩ := hf.at hi
    have hc := initGroup_cur hf hi i
    rw [if_pos (sameGrp_refl (lt_of_get a1))] at hc
    obtain ⟨v, hv⟩ : ∃ v, cur subs vs i = some v := by simp [cur, a2, a3]
    rw [hv] at hc
    unfold updField
    rw [a2, hc]
    dsimp only
    have hset : ∀ (w : Val) (k : Nat), ((initGroup infos subs vs i).set i w)[k]? =
        if k = i then some w else if sameGrp infos i k then cur subs vs k else vs[k]? := by
      intro w k
      rw [List.getElem?_set]
      by_cases hk : i = k
      · subst hk; simp [initGroup_length, hi]
      · rw [if_neg hk, if_neg (fun h => hk h.symm), initGroup_cur hf hi k]
    constructor
    · intro h
      split at h
      · rename_i w hw
        injection h with h; subst h
        exact ⟨si, v, w, rfl, hv, hw, hset w⟩
      · cases h
    · rintro ⟨s, v', w, h1, h2, h3, h4⟩
      injection h1 with h1; subst h1
      rw [hv] at h2; injection h2 with h2; subst h2
      rw [h3]
      dsimp only
      congr 1
      refine List.ext_getElem? fun k => ?_
      rw [hset, h4]
  · constructor
    · intro h
      unfold updField at h
      rw [List.getElem?_eq_none (by rw [← hf.len_vs]; omega)] at h
      simp at h
    · rintro ⟨s, v, w, h1, _⟩
      exact absurd (lt_of_get h1) (by rw [← hf.len_vs]; exact hi)

theorem updField_comm_aux {infos : List FInfo} {subs : List Sch} {vs v1 ws : List Val} (hf : Fields infos subs vs)
    {i j : Nat} (hij : i ≠ j) (g h : Sch → Val → Except RErr Val)
    (hg : ∀ s v w, s.ok = true → Typed s v → g s v = .ok w → Typed s w)
    (hh : ∀ s v w, s.ok = true → Typed s v → h s v = .ok w → Typed s w)
    (h1 : updField infos subs vs i g = .ok v1) (h2 : updField infos subs v1 j h = .ok ws) :
    ∃ v2, updField infos subs vs j h = .ok v2 ∧ updField infos subs v2 i g = .ok ws := by
  have hf1 := updField_fields hf i g hg h1
  obtain ⟨si, vi, wi, a1, a2, a3, a4⟩ := (updField_iff hf i g).1 h1
  obtain ⟨sj, vj, wj, b1, b2, b3, b4⟩ := (updField_iff hf1 j h).1 h2
  have pres : ∀ (us : List Val) (k : Nat) (x : Val), Fields infos subs us → cur subs us k = some x → x.isAbsent = false := by
    intro us k x hu hx
    unfold cur at hx
    split at hx
    · rename_i s v hs hv
      injection hx with hx; subst hx
      split
      · exact oks_zero _ hu.ok _ _ hs
      · simp_all
    · cases hx
  have hwi : wi.isAbsent = false := by
    have hi : i < vs.length := by rw [hf.len_vs]; exact lt_of_get a1
    obtain ⟨_, s', v', c1, c2, c3, c4⟩ := initGroup_fields hf i hi
    rw [a1] at c1; injection c1 with c1; subst c1
    have hc := initGroup_cur hf hi i
    rw [if_pos (sameGrp_refl (by rw [hf.len]; exact lt_of_get a1)), c2, a2] at hc
    injection hc with hc; subst hc
    exact typed_present _ _ (hg si v' wi c4 c3 a3)
  -- the current value of another field is not changed by an update
  have curne : ∀ k, k ≠ i → cur subs v1 k = cur subs vs k := by
    intro k hk
    have hak := a4 k
    rw [if_neg hk] at hak
    by_cases hs : sameGrp infos i k = true
    · rw [if_pos hs] at hak
      cases hc : cur subs vs k with
      | none =>
        rw [hc] at hak
        unfold cur; rw [hak]; split <;> simp_all
      | some x =>
        have hx := pres vs k x hf hc
        rw [hc] at hak
        unfold cur at hc ⊢
        rw [hak]
        cases hsk : subs[k]? with
        | none => rw [hsk] at hc; simp at hc
        | some s => simp [hx]
    · rw [if_neg hs] at hak
      unfold cur; rw [hak]
  have curi : cur subs v1 i = some wi := by
    unfold cur; rw [a1, a4 i, if_pos rfl]; simp [hwi]
  have hvj : cur subs vs j = some vj := by rw [← curne j (Ne.symm hij)]; exact b2
  -- the other order
  have hj : j < vs.length := by rw [hf.len_vs]; exact lt_of_get b1
  obtain ⟨v2, hv2⟩ : ∃ v2, updField infos subs vs j h = .ok v2 := by
    refine ⟨(initGroup infos subs vs j).set j wj, (updField_iff hf j h).2 ⟨sj, vj, wj, b1, hvj, b3, fun k => ?_⟩⟩
    rw [List.getElem?_set]
    by_cases hk : j = k
    · subst hk; simp [initGroup_length, hj]
    · rw [if_neg hk, if_neg (fun h => hk h.symm), initGroup_cur hf hj k]
  refine ⟨v2, hv2, ?_⟩
  have hf2 := updField_fields hf j h hh hv2
  obtain ⟨sj', vj', wj', d1, d2, d3, d4⟩ := (updField_iff hf j h).1 hv2
  rw [b1] at d1; injection d1 with d1; subst d1
  rw [hvj] at d2; injection d2 with d2; subst d2
  rw [b3] at d3; injection d3 with d3; subst d3
  have hwj : wj.isAbsent = false := by
    obtain ⟨_, s', v', c1, c2, c3, c4⟩ := initGroup_fields hf j hj
    rw [b1] at c1; injection c1 with c1; subst c1
    have hc := initGroup_cur hf hj j
    rw [if_pos (sameGrp_refl (by rw [hf.len]; exact lt_of_get b1)), c2, hvj] at hc
    injection hc with hc; subst hc
    exact typed_present _ _ (hh sj v' wj c4 c3 b3)
  have curne2 : ∀ k, k ≠ j → cur subs v2 k = cur subs vs k := by
    intro k hk
    have hak := d4 k
    rw [if_neg hk] at hak
    by_cases hs : sameGrp infos j k = true
    · rw [if_pos hs] at hak
      cases hc : cur subs vs k with
      | none =>
        rw [hc] at hak
        unfold cur; rw [hak]; split <;> simp_all
      | some x =>
        have hx := pres vs k x hf hc
        rw [hc] at hak
        unfold cur at hc ⊢
        rw [hak]
        cases hsk : subs[k]? with
        | none => rw [hsk] at hc; simp at hc
        | some s => simp [hx]
    · rw [if_neg hs] at hak
      unfold cur; rw [hak]
  have curj : cur subs v2 j = some wj := by
    unfold cur; rw [b1, d4 j, if_pos rfl]; simp [hwj]
  refine (updField_iff hf2 i g).2 ⟨si, vi, wi, a1, by rw [curne2 i hij]; exact a2, a3, fun k => ?_⟩
  rw [b4 k]
  by_cases hki : k = i
  · subst hki
    rw [if_neg hij, if_pos rfl]
    split
    · exact curi
    · rw [a4 k, if_pos rfl]
  · rw [if_neg hki]
    by_cases hkj : k = j
    · subst hkj
      rw [if_pos rfl]
      split
      · exact curj.symm
      · rw [d4 k, if_pos rfl]
    · rw [if_neg hkj, curne k hki, curne2 k hkj, a4 k, d4 k, if_neg hki, if_neg hkj]
      split <;> split <;> rfl

/-! ### C32: the order of attributes -/

/-- A field takes attributes with a name: the local names are equal and the namespaces are equal, or the field has none. -/
def AttrMatch (fi : FInfo) (n : Name) : Prop := fi.mode = .attr ∧ fi.loc = n.loc ∧ (fi.xmlns = n.space ∨ fi.xmlns = [])

/-- A field takes elements with a name. -/
def ElemMatch (fi : FInfo) (n : Name) : Prop := fi.mode = .elem ∧ fi.loc = n.loc ∧ (fi.xmlns = n.space ∨ fi.xmlns = [])

/-- Two attributes that cannot go to the same field: their local names differ, and one of them is taken by a field of its own
unless there is no `any,attr` field. -/
def Apart (infos : List FInfo) (a b : Attr) : Prop :=
  a.name.loc ≠ b.name.loc ∧
    ((∀ fi ∈ infos, fi.mode ≠ .anyAttr) ∨ (∃ fi ∈ infos, AttrMatch fi a.name) ∨ (∃ fi ∈ infos, AttrMatch fi b.name))

theorem attrKey_some {infos : List FInfo} {n : Name} {i : Nat} (h : attrKey infos n = some i) :
    ∃ fi, infos[i]? = some fi ∧ fi.mode = .attr ∧ fi.xmlns = n.space ∧ fi.loc = n.loc := by
  unfold attrKey at h
  obtain ⟨hi, hp, _⟩ := List.findIdx?_eq_some_iff_getElem.1 h
  refine ⟨infos[i], by simp [hi], ?_⟩
  simpa [Bool.and_eq_true, and_assoc] using hp

theorem attrKey_none {infos : List FInfo} {n : Name} : attrKey infos n = none ↔
    ∀ fi ∈ infos, ¬ (fi.mode = .attr ∧ fi.xmlns = n.space ∧ fi.loc = n.loc) := by
  unfold attrKey
  rw [List.findIdx?_eq_none_iff]
  simp [and_assoc]

/-- The field of an attribute: one that takes it, or the `any,attr` field if there is none. -/
theorem attrField_some {infos : List FInfo} {n : Name} {i : Nat} (h : attrField infos n = some i) :
    ∃ fi, infos[i]? = some fi ∧ (AttrMatch fi n ∨ (fi.mode = .anyAttr ∧ ∀ f ∈ infos, ¬ AttrMatch f n)) := by
  unfold attrField at h
  split at h
  · rename_i j hj
    injection h with h; subst h
    obtain ⟨fi, h1, h2, h3, h4⟩ := attrKey_some hj
    exact ⟨fi, h1, Or.inl ⟨h2, h4, Or.inl h3⟩⟩
  · rename_i hn
    split at h
    · rename_i j hj
      injection h with h; subst h
      obtain ⟨fi, h1, h2, h3, h4⟩ := attrKey_some hj
      exact ⟨fi, h1, Or.inl ⟨h2, h4, Or.inr h3⟩⟩
    · rename_i hn2
      obtain ⟨hi, hp, _⟩ := List.findIdx?_eq_some_iff_getElem.1 h
      refine ⟨infos[i], by simp [hi], Or.inr ⟨by simpa using hp, ?_⟩⟩
      rintro f hf ⟨m1, m2, m3 | m3⟩
      · exact attrKey_none.1 hn f hf ⟨m1, m3, m2⟩
      · exact attrKey_none.1 hn2 f hf ⟨m1, m3, m2⟩

theorem attrField_none {infos : List FInfo} {n : Name} : attrField infos n = none ↔
    ∀ fi ∈ infos, fi.mode ≠ .anyAttr ∧ ¬ AttrMatch fi n := by
  constructor
  · intro h fi hfi
    unfold attrField at h
    split at h
    · cases h
    · rename_i hn
      split at h
      · cases h
      · rename_i hn2
        rw [List.findIdx?_eq_none_iff] at h
        refine ⟨by simpa using h fi hfi, ?_⟩
        rintro ⟨m1, m2, m3 | m3⟩
        · exact attrKey_none.1 hn fi hfi ⟨m1, m3, m2⟩
        · exact attrKey_none.1 hn2 fi hfi ⟨m1, m3, m2⟩
  · intro h
    cases hf : attrField infos n with
    | none => rfl
    | some i =>
      obtain ⟨fi, h1, h2⟩ := attrField_some hf
      have hm := h fi (List.mem_of_getElem? h1)
      rcases h2 with h2 | h2
      · exact absurd h2 hm.2
      · exact absurd h2.1 hm.1

theorem apart_fields {infos : List FInfo} {a b : Attr} (h : Apart infos a b) {i j : Nat}
    (hi : attrField infos a.name = some i) (hj : attrField infos b.name = some j) : i ≠ j := by
  rintro rfl
  obtain ⟨fi, h1, h2⟩ := attrField_some hi
  obtain ⟨fj, h3, h4⟩ := attrField_some hj
  rw [h1] at h3; injection h3 with h3; subst h3
  rcases h2 with h2 | ⟨h2, h2'⟩ <;> rcases h4 with h4 | ⟨h4, h4'⟩
  · exact h.1 (h2.2.1.symm.trans h4.2.1)
  · rw [h2.1] at h4; cases h4
  · rw [h4.1] at h2; cases h2
  · rcases h.2 with hn | ⟨f, hf, hm⟩ | ⟨f, hf, hm⟩
    · exact hn fi (List.mem_of_getElem? h1) h2
    · exact h2' f hf hm
    · exact h4' f hf hm

theorem readAttrs_cons (io : FloatIO) (infos : List FInfo) (subs : List Sch) (vs : List Val) (a : Attr) (l : List Attr) :
    readAttrs io infos subs vs (a :: l) =
      match attrField infos a.name with
      | none => readAttrs io infos subs vs l
      | some i => andThen (updField infos subs vs i fun s v => readAttr io s v a) fun vs' => readAttrs io infos subs vs' l := by
  rw [readAttrs]
  cases attrField infos a.name with
  | none => rfl
  | some i =>
    dsimp only [andThen]
    cases updField infos subs vs i fun s v => readAttr io s v a <;> rfl

theorem readAttrs_swap (io : FloatIO) {infos : List FInfo} {subs : List Sch} {vs : List Val} (hf : Fields infos subs vs)
    (a b : Attr) (h : Apart infos a b) (l : List Attr) :
    Agree (readAttrs io infos subs vs (a :: b :: l)) (readAttrs io infos subs vs (b :: a :: l)) := by
  simp only [readAttrs_cons]
  cases ha : attrField infos a.name with
  | none => cases hb : attrField infos b.name <;> exact Agree.refl _
  | some i =>
    cases hb : attrField infos b.name with
    | none => exact Agree.refl _
    | some j =>
      have hij := apart_fields h ha hb
      intro ws
      constructor
      · intro hh
        obtain ⟨v1, h1, hh⟩ := andThen_ok.1 hh
        obtain ⟨v2, h2, hh⟩ := andThen_ok.1 hh
        obtain ⟨v3, h3, h4⟩ := updField_comm_aux hf hij _ _ (fun s v w hs hv hw => readAttr_typed io a s v w hs hv hw)
          (fun s v w hs hv hw => readAttr_typed io b s v w hs hv hw) h1 h2
        exact andThen_ok.2 ⟨v3, h3, andThen_ok.2 ⟨v2, h4, hh⟩⟩
      · intro hh
        obtain ⟨v1, h1, hh⟩ := andThen_ok.1 hh
        obtain ⟨v2, h2, hh⟩ := andThen_ok.1 hh
        obtain ⟨v3, h3, h4⟩ := updField_comm_aux hf hij.symm _ _ (fun s v w hs hv hw => readAttr_typed io b s v w hs hv hw)
          (fun s v w hs hv hw => readAttr_typed io a s v w hs hv hw) h1 h2
        exact andThen_ok.2 ⟨v3, h3, andThen_ok.2 ⟨v2, h4, hh⟩⟩

theorem apart_symm {infos : List FInfo} {a b : Attr} (h : Apart infos a b) : Apart infos b a :=
  ⟨Ne.symm h.1, h.2.imp id Or.symm⟩

theorem readAttrs_perm (io : FloatIO) {infos : List FInfo} {subs : List Sch} {as as' : List Attr} (h : as.Perm as') :
    as.Pairwise (Apart infos) → ∀ {vs : List Val}, Fields infos subs vs →
      Agree (readAttrs io infos subs vs as) (readAttrs io infos subs vs as') := by
  induction h with
  | nil => intro _ vs _; exact Agree.refl _
  | cons a _ ih =>
    intro hp vs hf
    rw [List.pairwise_cons] at hp
    simp only [readAttrs_cons]
    split
    · exact ih hp.2 hf
    · intro ws
      constructor
      · intro hh
        obtain ⟨v1, h1, hh⟩ := andThen_ok.1 hh
        have hf1 := updField_fields hf _ _ (fun s v w hs hv hw => readAttr_typed io a s v w hs hv hw) h1
        exact andThen_ok.2 ⟨v1, h1, (ih hp.2 hf1 ws).1 hh⟩
      · intro hh
        obtain ⟨v1, h1, hh⟩ := andThen_ok.1 hh
        have hf1 := updField_fields hf _ _ (fun s v w hs hv hw => readAttr_typed io a s v w hs hv hw) h1
        exact andThen_ok.2 ⟨v1, h1, (ih hp.2 hf1 ws).2 hh⟩
  | swap a b l =>
    intro hp vs hf
    rw [List.pairwise_cons] at hp
    exact readAttrs_swap io hf b a (hp.1 a (by simp)) l
  | trans h1 _ ih1 ih2 =>
    intro hp vs hf
    exact (ih1 hp hf).trans (ih2 ((h1.pairwise_iff (fun h => apart_symm h)).1 hp) hf)

/-- The attributes of an element in another order. -/
def Reorder : Change := fun c x y => x.2 = y.2 ∧ x.1.Perm y.1 ∧ x.1.Pairwise (Apart (fieldsOf c))

theorem reorder_harmless (io : FloatIO) : Harmless io Reorder := by
  refine ⟨?_, ?_⟩
  · rintro k as kids as' kids' ⟨h, _, _⟩; dsimp only at h; rw [h]
  · rintro tn xn infos subs as kids as' kids' ⟨h1, h2, h3⟩ d vs hf
    dsimp only [fieldsOf] at h1 h2 h3
    subst h1
    refine ⟨?_, fun _ => rfl⟩
    have := readAttrs_perm io h2 h3 hf
    intro ws
    rw [andThen_ok, andThen_ok]
    exact exists_congr fun v1 => and_congr_left fun _ => this v1

/-- **C32**: permuting the attributes of elements, with names that go to different fields, does not change what is read. -/
theorem C32_attribute_order (io : FloatIO) (s : Sch) (hs : s.ok = true) (doc doc' : Bytes) (t t' : XTree)
    (h1 : IsDoc doc t) (h2 : IsDoc doc' t') (h : Relation.EqvGen (Anywhere Reorder false s) (bare t) (bare t')) :
    Agree (unmarshalDoc io s doc) (unmarshalDoc io s doc') :=
  anywhere_docs io Reorder (reorder_harmless io) s hs doc doc' t t' h1 h2 h

/-! ### C33: the order of elements -/

/-- Two pieces of content whose order does not matter: not both are text, and if both are elements, no field takes both. -/
def Independent (infos : List FInfo) : XTree → XTree → Prop
  | .leaf _ _ _, .leaf _ _ _ => False
  | .elem n _ _ _ _ _ _ _, .elem m _ _ _ _ _ _ _ => ∀ fi ∈ infos, ¬ (ElemMatch fi n ∧ ElemMatch fi m)
  | _, _ => True

/-- Two neighbouring pieces of content in the other order. -/
inductive Swap : Change
  | swap {c as l r x y} : Independent (fieldsOf c) x y → Swap c (as, l ++ x :: y :: r) (as, l ++ y :: x :: r)

theorem elemField_some {infos : List FInfo} {n : Name} {i : Nat} (h : elemField infos n = some i) :
    ∃ fi, infos[i]? = some fi ∧ ElemMatch fi n := by
  unfold elemField at h
  obtain ⟨hi, hp, _⟩ := List.findIdx?_eq_some_iff_getElem.1 h
  refine ⟨infos[i], by simp [hi], ?_⟩
  simp only [Bool.and_eq_true, Bool.or_eq_true, beq_iff_eq] at hp
  exact ⟨hp.1.1, hp.2, hp.1.2.symm⟩

theorem elemField_none {infos : List FInfo} {n : Name} : elemField infos n = none ↔ ∀ fi ∈ infos, ¬ ElemMatch fi n := by
  unfold elemField
  rw [List.findIdx?_eq_none_iff]
  refine forall_congr' fun fi => forall_congr' fun _ => ?_
  unfold ElemMatch
  rw [← Bool.not_eq_true, not_iff_not]
  simp only [Bool.and_eq_true, Bool.or_eq_true, beq_iff_eq]
  tauto

theorem readKids_cons (io : FloatIO) (d : Nat) (infos : List FInfo) (subs : List Sch) (vs : List Val) (n : Name)
    (as : List Attr) (b a : Bytes) (kids : List XTree) (en : Name) (eb ea : Bytes) (l : List XTree) :
    readKids io d infos subs vs (.elem n as b a kids en eb ea :: l) =
      match elemField infos n with
      | none => readKids io d infos subs vs l
      | some i => andThen (updField infos subs vs i fun s v => readT io true (d + 1) s v (.elem n as b a kids en eb ea))
          fun vs' => readKids io d infos subs vs' l := by
  rw [readKids]
  cases elemField infos n with
  | none => rfl
  | some i =>
    dsimp only [andThen]
    cases updField infos subs vs i fun s v => readT io true (d + 1) s v (.elem n as b a kids en eb ea) <;> rfl

theorem readKids_swap (io : FloatIO) (d : Nat) {infos : List FInfo} {subs : List Sch} {vs : List Val}
    (hf : Fields infos subs vs) (x y : XTree) (h : Independent infos x y) (l : List XTree) :
    Agree (readKids io d infos subs vs (x :: y :: l)) (readKids io d infos subs vs (y :: x :: l)) := by
  cases x with
  | leaf t b a =>
    cases y with
    | leaf t' b' a' => exact absurd h id
    | elem n as b a kids en eb ea =>
      simp only [readKids]
      exact Agree.refl _
  | elem n as b a kids en eb ea =>
    cases y with
    | leaf t' b' a' => simp only [readKids]; exact Agree.refl _
    | elem n' as' b' a' kids' en' eb' ea' =>
      simp only [readKids_cons]
      cases hi : elemField infos n with
      | none => cases hj : elemField infos n' <;> exact Agree.refl _
      | some i =>
        cases hj : elemField infos n' with
        | none => exact Agree.refl _
        | some j =>
          have hij : i ≠ j := by
            rintro rfl
            obtain ⟨fi, h1, h2⟩ := elemField_some hi
            obtain ⟨fj, h3, h4⟩ := elemField_some hj
            rw [h1] at h3; injection h3 with h3; subst h3
            exact h fi (List.mem_of_getElem? h1) ⟨h2, h4⟩
          intro ws
          constructor
          · intro hh
            obtain ⟨v1, h1, hh⟩ := andThen_ok.1 hh
            obtain ⟨v2, h2, hh⟩ := andThen_ok.1 hh
            obtain ⟨v3, h3, h4⟩ := updField_comm_aux hf hij _ _ (fun s v w hs hv hw => readT_typed io _ _ _ s v w hs hv hw)
              (fun s v w hs hv hw => readT_typed io _ _ _ s v w hs hv hw) h1 h2
            exact andThen_ok.2 ⟨v3, h3, andThen_ok.2 ⟨v2, h4, hh⟩⟩
          · intro hh
            obtain ⟨v1, h1, hh⟩ := andThen_ok.1 hh
            obtain ⟨v2, h2, hh⟩ := andThen_ok.1 hh
            obtain ⟨v3, h3, h4⟩ := updField_comm_aux hf hij.symm _ _
              (fun s v w hs hv hw => readT_typed io _ _ _ s v w hs hv hw)
              (fun s v w hs hv hw => readT_typed io _ _ _ s v w hs hv hw) h1 h2
            exact andThen_ok.2 ⟨v3, h3, andThen_ok.2 ⟨v2, h4, hh⟩⟩

theorem dataOf_swap {infos : List FInfo} {x y : XTree} (h : Independent infos x y) (l r : List XTree) :
    dataOf (l ++ x :: y :: r) = dataOf (l ++ y :: x :: r) := by
  rw [dataOf_append, dataOf_append]
  cases x <;> cases y <;> first | rfl | exact absurd h id

theorem swap_harmless (io : FloatIO) : Harmless io Swap := by
  refine ⟨?_, ?_⟩
  · rintro k as kids as' kids' h
    cases h with
    | swap h => exact dataOf_swap h _ _
  · rintro tn xn infos subs as kids as' kids' h d vs hf
    cases h with
    | @swap _ _ l r x y h =>
      refine ⟨?_, fun _ => dataOf_swap h _ _⟩
      intro ws
      rw [andThen_ok, andThen_ok]
      refine exists_congr fun v1 => and_congr_right fun h1 => ?_
      have hf1 := readAttrs_fields io as hf h1
      rw [readKids_append, readKids_append]
      cases hl : readKids io d infos subs v1 l with
      | error e => exact Iff.rfl
      | ok v2 => exact readKids_swap io d (readKids_fields io l d infos subs v1 v2 hf1 hl) x y h r ws

/-- **C33**: interleaving the children of elements differently, without changing the order of those that go to the same field,
does not change what is read. -/
theorem C33_interleaving (io : FloatIO) (s : Sch) (hs : s.ok = true) (doc doc' : Bytes) (t t' : XTree)
    (h1 : IsDoc doc t) (h2 : IsDoc doc' t') (h : Relation.EqvGen (Anywhere Swap false s) (bare t) (bare t')) :
    Agree (unmarshalDoc io s doc) (unmarshalDoc io s doc') :=
  anywhere_docs io Swap (swap_harmless io) s hs doc doc' t t' h1 h2 h

/-- The elements that go to field `i`, in document order. -/
def goingTo (infos : List FInfo) (i : Nat) : List XTree → List XTree
  | [] => []
  | .leaf _ _ _ :: l => goingTo infos i l
  | .elem n as b a kids en eb ea :: l =>
    if elemField infos n = some i then .elem n as b a kids en eb ea :: goingTo infos i l else goingTo infos i l

/-- The list in a field; the field is empty if it lies behind a nil embedded pointer. -/
def listAt (vs : List Val) (i : Nat) : List Val :=
  match vs[i]? with
  | some (.slice l) => l
  | _ => []

theorem cur_listAt {infos : List FInfo} {subs : List Sch} {vs : List Val} (hf : Fields infos subs vs) {i : Nat} {s : Sch}
    (hs : subs[i]? = some (.slice s)) : cur subs vs i = some (.slice (listAt vs i)) := by
  obtain ⟨v, hv⟩ := get_of_lt (l := vs) (i := i) (by rw [hf.len_vs]; exact lt_of_get hs)
  unfold cur listAt
  rw [hs, hv]
  dsimp only
  rcases typeds_get _ _ hf.typ i _ v hs hv with h | h
  · rw [if_pos h]
    cases v <;> first | rfl | (simp [Val.isAbsent] at h)
  · obtain ⟨l, rfl, _⟩ := slice_typed h
    rfl

/-- **C33**: repeated elements appear in the list in document order, each read on its own, after what was there. -/
theorem C33_list_order (io : FloatIO) (d : Nat) (infos : List FInfo) (subs : List Sch) (i : Nat) (s : Sch)
    (hs : subs[i]? = some (.slice s)) : ∀ (kids : List XTree) (vs vs' : List Val), Fields infos subs vs →
    readKids io d infos subs vs kids = .ok vs' →
    ∃ ws, listAt vs' i = listAt vs i ++ ws ∧
      List.Forall₂ (fun t w => readT io true (d + 2) s s.zero t = .ok w) (goingTo infos i kids) ws
  | [], vs, vs', hf, h => by
    simp only [readKids] at h; injection h with h; subst h
    exact ⟨[], by simp, List.Forall₂.nil⟩
  | .leaf _ _ _ :: l, vs, vs', hf, h => by
    simp only [readKids] at h
    simp only [goingTo]
    exact C33_list_order io d infos subs i s hs l vs vs' hf h
  | .elem n as b a kids en eb ea :: l, vs, vs', hf, h => by
    rw [readKids_cons] at h
    simp only [goingTo]
    cases hj : elemField infos n with
    | none =>
      rw [hj] at h
      rw [if_neg (by simp)]
      exact C33_list_order io d infos subs i s hs l vs vs' hf h
    | some j =>
      rw [hj] at h
      dsimp only at h
      obtain ⟨v1, h1, h2⟩ := andThen_ok.1 h
      have hf1 := updField_fields hf _ _ (fun s v w hs hv hw => readT_typed io _ _ _ s v w hs hv hw) h1
      obtain ⟨ws, e1, e2⟩ := C33_list_order io d infos subs i s hs l v1 vs' hf1 h2
      obtain ⟨sj, vj, wj, a1, a2, a3, a4⟩ := (updField_iff hf j _).1 h1
      by_cases hij : j = i
      · subst hij
        rw [if_pos rfl]
        rw [hs] at a1; injection a1 with a1; subst a1
        rw [cur_listAt hf hs] at a2; injection a2 with a2; subst a2
        rw [readT] at a3
        simp only [place] at a3
        split at a3
        · cases a3
        · obtain ⟨w, hw, rfl⟩ := wrapSlice_ok a3
          have hl : listAt v1 j = listAt vs j ++ [w] := by
            rw [listAt, a4 j, if_pos rfl]
          refine ⟨w :: ws, by rw [e1, hl]; simp, List.Forall₂.cons ?_ e2⟩
          rw [readT]; exact hw
      · rw [if_neg (by simpa using hij)]
        have hl : listAt v1 i = listAt vs i := by
          have hk := a4 i
          rw [if_neg (fun h => hij h.symm)] at hk
          by_cases hg : sameGrp infos j i = true
          · rw [if_pos hg, cur_listAt hf hs] at hk
            rw [listAt, hk]
          · rw [if_neg hg] at hk
            rw [listAt, hk]; rfl
        exact ⟨ws, by rw [e1, hl], e2⟩

/-! ### C31: unknown content -/

/-- An insertion of something that no field takes. -/
inductive Insert : Change
  | attr {c l r a kids} : (∀ fi ∈ fieldsOf c, fi.mode ≠ .anyAttr ∧ ¬ AttrMatch fi a.name) →
      Insert c (l ++ r, kids) (l ++ a :: r, kids)
  | elem {c as l r n as1 b a kids en eb ea} : (∀ fi ∈ fieldsOf c, ¬ ElemMatch fi n) →
      Insert c (as, l ++ r) (as, l ++ .elem n as1 b a kids en eb ea :: r)
  | comment {c as l r x b a} : Insert c (as, l ++ r) (as, l ++ .leaf (.comment x) b a :: r)
  | procInst {c as l r x y b a} : Insert c (as, l ++ r) (as, l ++ .leaf (.procInst x y) b a :: r)
  | directive {c as l r x b a} : Insert c (as, l ++ r) (as, l ++ .leaf (.directive x) b a :: r)
  | text {tn xn infos subs as l r x b a} : (∀ fi ∈ infos, fi.mode ≠ .chardata) →
      Insert (.struct tn xn infos subs) (as, l ++ r) (as, l ++ .leaf (.charData x) b a :: r)
  | split {c as l r x y b a b' a' b'' a''} : Insert c (as, l ++ .leaf (.charData (x ++ y)) b a :: r)
      (as, l ++ .leaf (.charData x) b' a' :: .leaf (.charData y) b'' a'' :: r)

theorem readAttrs_append (io : FloatIO) (infos : List FInfo) (subs : List Sch) (r : List Attr) :
    ∀ (l : List Attr) (vs : List Val), readAttrs io infos subs vs (l ++ r) =
      andThen (readAttrs io infos subs vs l) fun vs1 => readAttrs io infos subs vs1 r
  | [], vs => by simp [readAttrs, andThen]
  | a :: l, vs => by
    simp only [List.cons_append, readAttrs]
    split
    · exact readAttrs_append io infos subs r l vs
    · split
      · rfl
      · exact readAttrs_append io infos subs r l _

theorem modeField_none {infos : List FInfo} {m : Mode} : modeField infos m = none ↔ ∀ fi ∈ infos, fi.mode ≠ m := by
  unfold modeField
  rw [List.findIdx?_eq_none_iff]
  simp

theorem insert_harmless (io : FloatIO) : Harmless io Insert := by
  have same : ∀ {α} {x y : Except RErr α}, x = y → Agree x y := fun h => h ▸ Agree.refl _
  refine ⟨?_, ?_⟩
  · rintro k as kids as' kids' h
    cases h <;> simp [dataOf_append, dataOf, tokData]
  · rintro tn xn infos subs as kids as' kids' h d vs hf
    cases h with
    | @attr _ l r a kids h =>
      refine ⟨same ?_, fun _ => rfl⟩
      have : ∀ vs1, readAttrs io infos subs vs1 (a :: r) = readAttrs io infos subs vs1 r := by
        intro vs1; rw [readAttrs, (attrField_none (infos := infos)).2 h]
      simp only [readAttrs_append, this]
    | elem h =>
      refine ⟨same ?_, fun _ => by simp [dataOf_append, dataOf]⟩
      simp only [readKids_append, readKids, (elemField_none (infos := infos)).2 h]
    | comment => exact ⟨same (by simp only [readKids_append, readKids]), fun _ => by simp [dataOf_append, dataOf, tokData]⟩
    | procInst => exact ⟨same (by simp only [readKids_append, readKids]), fun _ => by simp [dataOf_append, dataOf, tokData]⟩
    | directive => exact ⟨same (by simp only [readKids_append, readKids]), fun _ => by simp [dataOf_append, dataOf, tokData]⟩
    | text h =>
      exact ⟨same (by simp only [readKids_append, readKids]), fun hc => absurd (modeField_none.2 h) hc⟩
    | split => exact ⟨same (by simp only [readKids_append, readKids]), fun _ => by simp [dataOf_append, dataOf, tokData]⟩

/-- **C31**: inserting (or removing) attributes and elements that no field takes, comments, processing instructions and
directives anywhere, and text where no field takes text, does not change what is read. -/
theorem C31_unknown_ignored (io : FloatIO) (s : Sch) (hs : s.ok = true) (doc doc' : Bytes) (t t' : XTree)
    (h1 : IsDoc doc t) (h2 : IsDoc doc' t') (h : Relation.EqvGen (Anywhere Insert false s) (bare t) (bare t')) :
    Agree (unmarshalDoc io s doc) (unmarshalDoc io s doc') :=
  anywhere_docs io Insert (insert_harmless io) s hs doc doc' t t' h1 h2 h

/-! ### Manifests -/

/-- What the decoder needs to know about the types of a manifest. -/
theorem mpd_ok : tMPD.sch.ok = true := by decide +kernel

/-- A start tag and an end tag with what is between them, for the examples. -/
def tagged (doc : Bytes) (n : Bytes) (as : List Attr) (i j k l : Nat) (kids : List XTree) : XTree :=
  .elem ⟨[], n⟩ as (doc.drop i) (doc.drop j) kids ⟨[], n⟩ (doc.drop k) (doc.drop l)

/-- A document and its tree. -/
def exDoc : Bytes := b!"<MPD id='a' type='b'><Period id='p'/><BaseURL>u</BaseURL></MPD>"
def exTree : XTree := tagged exDoc (b!"MPD") [⟨⟨[], b!"id"⟩, b!"a"⟩, ⟨⟨[], b!"type"⟩, b!"b"⟩] 0 21 57 63
  [tagged exDoc (b!"Period") [⟨⟨[], b!"id"⟩, b!"p"⟩] 21 37 37 37 [],
   tagged exDoc (b!"BaseURL") [] 37 46 47 57 [.leaf (.charData (b!"u")) (exDoc.drop 46) (exDoc.drop 47)]]

theorem exDoc_is : IsDoc exDoc exTree :=
  ⟨by simp [exTree, tagged, XTree.Ok, Oks, Token.isLeaf], ⟨_, _, _, _, _, _, _, _, rfl⟩, [], [], by simp, by decide +kernel⟩

/-- No field of `MPD` takes the raw content or attributes without a field of their own. -/
theorem mpd_fields : modeField (fieldsOf (core false tMPD.sch)) .innerxml = none ∧
    (∀ fi ∈ fieldsOf (core false tMPD.sch), fi.mode ≠ .anyAttr) ∧
    (∀ fi ∈ fieldsOf (core false tMPD.sch), fi.mode ≠ .chardata) ∧
    (∀ fi ∈ fieldsOf (core false tMPD.sch), ¬ (fi.loc = b!"Period" ∧ fi.loc = b!"BaseURL")) ∧
    (∀ fi ∈ fieldsOf (core false tMPD.sch), fi.mode = .attr → fi.loc ≠ b!"new") ∧
    (∀ fi ∈ fieldsOf (core false tMPD.sch), fi.mode = .elem → fi.loc ≠ b!"New") := by decide +kernel

/-- The attributes in another order. -/
def exDoc32 : Bytes := b!"<MPD type='b' id='a'><Period id='p'/><BaseURL>u</BaseURL></MPD>"
def exTree32 : XTree := tagged exDoc32 (b!"MPD") [⟨⟨[], b!"type"⟩, b!"b"⟩, ⟨⟨[], b!"id"⟩, b!"a"⟩] 0 21 57 63
  [tagged exDoc32 (b!"Period") [⟨⟨[], b!"id"⟩, b!"p"⟩] 21 37 37 37 [],
   tagged exDoc32 (b!"BaseURL") [] 37 46 47 57 [.leaf (.charData (b!"u")) (exDoc32.drop 46) (exDoc32.drop 47)]]

example (io : FloatIO) : Agree (unmarshalDoc io tMPD.sch exDoc) (unmarshalDoc io tMPD.sch exDoc32) := by
  refine C32_attribute_order io _ mpd_ok exDoc exDoc32 exTree exTree32 exDoc_is
    ⟨by simp [exTree32, tagged, XTree.Ok, Oks, Token.isLeaf], ⟨_, _, _, _, _, _, _, _, rfl⟩, [], [], by simp, by decide +kernel⟩ ?_
  refine .rel _ _ (.here mpd_fields.1 ⟨by krfl, List.Perm.swap .., ?_⟩)
  exact List.pairwise_pair.2 ⟨by decide, Or.inl mpd_fields.2.1⟩

/-- The elements in another order. -/
def exDoc33 : Bytes := b!"<MPD id='a' type='b'><BaseURL>u</BaseURL><Period id='p'/></MPD>"
def exTree33 : XTree := tagged exDoc33 (b!"MPD") [⟨⟨[], b!"id"⟩, b!"a"⟩, ⟨⟨[], b!"type"⟩, b!"b"⟩] 0 21 57 63
  [tagged exDoc33 (b!"BaseURL") [] 21 30 31 41 [.leaf (.charData (b!"u")) (exDoc33.drop 30) (exDoc33.drop 31)],
   tagged exDoc33 (b!"Period") [⟨⟨[], b!"id"⟩, b!"p"⟩] 41 57 57 57 []]

example (io : FloatIO) : Agree (unmarshalDoc io tMPD.sch exDoc) (unmarshalDoc io tMPD.sch exDoc33) := by
  refine C33_interleaving io _ mpd_ok exDoc exDoc33 exTree exTree33 exDoc_is
    ⟨by simp [exTree33, tagged, XTree.Ok, Oks, Token.isLeaf], ⟨_, _, _, _, _, _, _, _, rfl⟩, [], [], by simp, by decide +kernel⟩ ?_
  have hx : bare exTree33 = .elem ⟨[], b!"MPD"⟩ [⟨⟨[], b!"id"⟩, b!"a"⟩, ⟨⟨[], b!"type"⟩, b!"b"⟩] []
      (exDoc33.drop 21 |>.take 36) ([] ++ bare (tagged exDoc (b!"BaseURL") [] 37 46 47 57
        [.leaf (.charData (b!"u")) (exDoc.drop 46) (exDoc.drop 47)]) ::
        bare (tagged exDoc (b!"Period") [⟨⟨[], b!"id"⟩, b!"p"⟩] 21 37 37 37 []) :: []) ⟨[], b!"MPD"⟩ [] [] := by krfl
  rw [hx]
  refine .rel _ _ (.here mpd_fields.1 (.swap (l := []) ?_))
  intro fi hfi hm
  exact mpd_fields.2.2.2.1 fi hfi ⟨hm.1.2.1, hm.2.2.1⟩

/-- An attribute and an element that are not in the schema, and a comment. -/
def exDoc31 : Bytes :=
  b!"<MPD id='a' new='n' type='b'><Period id='p'/><New x='y'>z<q/></New><BaseURL><!--c-->u</BaseURL></MPD>"
def exTree31 : XTree := tagged exDoc31 (b!"MPD")
  [⟨⟨[], b!"id"⟩, b!"a"⟩, ⟨⟨[], b!"new"⟩, b!"n"⟩, ⟨⟨[], b!"type"⟩, b!"b"⟩] 0 29 95 101
  [tagged exDoc31 (b!"Period") [⟨⟨[], b!"id"⟩, b!"p"⟩] 29 45 45 45 [],
   tagged exDoc31 (b!"New") [⟨⟨[], b!"x"⟩, b!"y"⟩] 45 56 61 67
     [.leaf (.charData (b!"z")) (exDoc31.drop 56) (exDoc31.drop 57), tagged exDoc31 (b!"q") [] 57 61 61 61 []],
   tagged exDoc31 (b!"BaseURL") [] 67 76 85 95
     [.leaf (.comment (b!"c")) (exDoc31.drop 76) (exDoc31.drop 84), .leaf (.charData (b!"u")) (exDoc31.drop 84) (exDoc31.drop 85)]]

/-- The types of the fields of a type. -/
def subsOf : Sch → List Sch
  | .struct _ _ _ subs => subs
  | _ => []

/-- Whether a type is a struct. -/
def isStruct : Sch → Bool
  | .struct .. => true
  | _ => false

theorem struct_eta (s : Sch) (h : isStruct s = true) : ∃ tn xn, s = .struct tn xn (fieldsOf s) (subsOf s) := by
  cases s <;> first | exact ⟨_, _, rfl⟩ | cases h

example (io : FloatIO) : Agree (unmarshalDoc io tMPD.sch exDoc) (unmarshalDoc io tMPD.sch exDoc31) := by
  refine C31_unknown_ignored io _ mpd_ok exDoc exDoc31 exTree exTree31 exDoc_is
    ⟨by simp [exTree31, tagged, XTree.Ok, Oks, Token.isLeaf], ⟨_, _, _, _, _, _, _, _, rfl⟩, [], [], by simp, by decide +kernel⟩ ?_
  have e0 : bare exTree = .elem ⟨[], b!"MPD"⟩ ([⟨⟨[], b!"id"⟩, b!"a"⟩] ++ [⟨⟨[], b!"type"⟩, b!"b"⟩]) []
      (exDoc.drop 21 |>.take 36)
      ([bare (tagged exDoc (b!"Period") [⟨⟨[], b!"id"⟩, b!"p"⟩] 21 37 37 37 [])] ++
        [.elem ⟨[], b!"BaseURL"⟩ [] [] (b!"u") ([] ++ [.leaf (.charData (b!"u")) [] []]) ⟨[], b!"BaseURL"⟩ [] []])
      ⟨[], b!"MPD"⟩ [] [] := by krfl
  have e3 : bare exTree31 = .elem ⟨[], b!"MPD"⟩
      ([⟨⟨[], b!"id"⟩, b!"a"⟩] ++ ⟨⟨[], b!"new"⟩, b!"n"⟩ :: [⟨⟨[], b!"type"⟩, b!"b"⟩]) [] (exDoc31.drop 29 |>.take 66)
      ([bare (tagged exDoc (b!"Period") [⟨⟨[], b!"id"⟩, b!"p"⟩] 21 37 37 37 [])] ++
        .elem ⟨[], b!"New"⟩ [⟨⟨[], b!"x"⟩, b!"y"⟩] [] (b!"z<q/>")
          [.leaf (.charData (b!"z")) [] [], .elem ⟨[], b!"q"⟩ [] [] [] [] ⟨[], b!"q"⟩ [] []] ⟨[], b!"New"⟩ [] [] ::
        [.elem ⟨[], b!"BaseURL"⟩ [] [] (b!"<!--c-->u") ([] ++ .leaf (.comment (b!"c")) [] [] ::
          [.leaf (.charData (b!"u")) [] []]) ⟨[], b!"BaseURL"⟩ [] []])
      ⟨[], b!"MPD"⟩ [] [] := by krfl
  rw [e0, e3]
  obtain ⟨tn, xn, hst⟩ := struct_eta (core false tMPD.sch) (by decide +kernel)
  obtain ⟨i, hi⟩ := Option.isSome_iff_exists.1
    (by decide +kernel : (elemField (fieldsOf (core false tMPD.sch)) ⟨[], b!"BaseURL"⟩).isSome = true)
  have hi2 : (elemField (fieldsOf (core false tMPD.sch)) ⟨[], b!"BaseURL"⟩).getD 0 = i := by rw [hi]; rfl
  have hsub : (subsOf (core false tMPD.sch))[i]?.isSome = true := by rw [← hi2]; decide +kernel
  obtain ⟨s', hs'⟩ := Option.isSome_iff_exists.1 hsub
  have hin : (((subsOf (core false tMPD.sch))[i]?.map fun s => modeField (fieldsOf (core true s)) .innerxml) = some none) := by
    rw [← hi2]; decide +kernel
  rw [hs'] at hin
  have s1 : Anywhere Insert false tMPD.sch (.elem ⟨[], b!"MPD"⟩ ([⟨⟨[], b!"id"⟩, b!"a"⟩] ++ [⟨⟨[], b!"type"⟩, b!"b"⟩]) []
      (exDoc.drop 21 |>.take 36)
      ([bare (tagged exDoc (b!"Period") [⟨⟨[], b!"id"⟩, b!"p"⟩] 21 37 37 37 [])] ++
        [.elem ⟨[], b!"BaseURL"⟩ [] [] (b!"u") ([] ++ [.leaf (.charData (b!"u")) [] []]) ⟨[], b!"BaseURL"⟩ [] []])
      ⟨[], b!"MPD"⟩ [] []) _ :=
    .here (as' := [⟨⟨[], b!"id"⟩, b!"a"⟩] ++ ⟨⟨[], b!"new"⟩, b!"n"⟩ :: [⟨⟨[], b!"type"⟩, b!"b"⟩]) (b' := []) (a' := [])
      (en' := ⟨[], []⟩) (eb' := []) (ea' := []) mpd_fields.1
      (.attr fun fi hfi => ⟨mpd_fields.2.1 fi hfi, fun h => mpd_fields.2.2.2.2.1 fi hfi h.1 h.2.1⟩)
  have s2 := Anywhere.here (R := Insert) (top := false) (s := tMPD.sch) (n := ⟨[], b!"MPD"⟩)
    (as := [⟨⟨[], b!"id"⟩, b!"a"⟩] ++ ⟨⟨[], b!"new"⟩, b!"n"⟩ :: [⟨⟨[], b!"type"⟩, b!"b"⟩])
    (b := []) (a := []) (en := ⟨[], []⟩) (eb := []) (ea := []) (b' := []) (a' := []) (en' := ⟨[], []⟩) (eb' := []) (ea' := [])
    mpd_fields.1 (Insert.elem
      (l := [bare (tagged exDoc (b!"Period") [⟨⟨[], b!"id"⟩, b!"p"⟩] 21 37 37 37 [])])
      (r := [.elem ⟨[], b!"BaseURL"⟩ [] [] (b!"u") ([] ++ [.leaf (.charData (b!"u")) [] []]) ⟨[], b!"BaseURL"⟩ [] []])
      (n := ⟨[], b!"New"⟩) (as1 := [⟨⟨[], b!"x"⟩, b!"y"⟩]) (b := []) (a := b!"z<q/>")
      (kids := [.leaf (.charData (b!"z")) [] [], .elem ⟨[], b!"q"⟩ [] [] [] [] ⟨[], b!"q"⟩ [] []]) (en := ⟨[], b!"New"⟩)
      (eb := []) (ea := []) fun fi hfi h => mpd_fields.2.2.2.2.2 fi hfi h.1 h.2.1)
  have s3 : Anywhere Insert true s'
      (.elem ⟨[], b!"BaseURL"⟩ [] [] (b!"u") ([] ++ [.leaf (.charData (b!"u")) [] []]) ⟨[], b!"BaseURL"⟩ [] [])
      (.elem ⟨[], b!"BaseURL"⟩ [] [] (b!"<!--c-->u") ([] ++ .leaf (.comment (b!"c")) [] [] ::
          [.leaf (.charData (b!"u")) [] []]) ⟨[], b!"BaseURL"⟩ [] []) := .here (by simpa using hin) .comment
  exact .trans _ _ _ (.rel _ _ s1) (.trans _ _ _ (.rel _ _ s2) (.rel _ _
    (.inside (l := [bare (tagged exDoc (b!"Period") [⟨⟨[], b!"id"⟩, b!"p"⟩] 21 37 37 37 []), .elem ⟨[], b!"New"⟩ _ _ _ _ _ _ _])
      hst mpd_fields.1 ⟨_, _, _, _, _, _, _, _, _, _, _, _, _, _, _, rfl, rfl, hi⟩ hs' s3)))

/-- The attribute `id` of a manifest that has been read. -/
def readId : Except RErr Val → Option Bytes
  | .ok (.struct _ vs) =>
    match (fieldsOf tMPD.sch).findIdx? (fun fi => fi.loc == b!"id") with
    | some i =>
      match vs[i]? with
      | some (.str b) => some b
      | _ => none
    | none => none
  | _ => none

/-- **C31** does not hold for attributes of other namespaces: a field without a namespace takes attributes of any namespace,
and the declaration of a prefix as well.  The attributes `x:id` and `xmlns:id` overwrite the attribute `id`. -/
theorem C31_foreign_refuted (io : FloatIO) :
    readId (unmarshalDoc io tMPD.sch (b!"<MPD id='a'></MPD>")) = some (b!"a") ∧
    readId (unmarshalDoc io tMPD.sch (b!"<MPD id='a' xmlns:x='urn:x' x:id='b'></MPD>")) = some (b!"b") ∧
    readId (unmarshalDoc io tMPD.sch (b!"<MPD id='a' xmlns:id='urn:id'></MPD>")) = some (b!"urn:id") := by
  refine ⟨?_, ?_, ?_⟩ <;> krfl

end Verif.Bind

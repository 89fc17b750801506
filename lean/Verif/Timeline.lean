import Verif.SaysProps
import Verif.ReadIO
import Verif.PeriodProps
import Verif.Build

/-!
C70: from the bytes of a manifest to its timeline.  The starts, durations and types of periods that `GetStart`, `GetDuration` and
`GetType` return after `MPDFromBytes` are those that the attributes in the document define, and they survive writing and reading.

The document is taken as its tree of elements (`IsDoc`); an attribute or element belongs to a field by its local name, in whatever
namespace it is (`/repo/xml/read.go` 440-465, 700-725 with tags without a namespace).
-/
namespace Verif.Bind

open Verif.Xml Verif.Period Verif.PeriodSpec Verif.FloatText

/-! ### Times in a document, in a value and in memory -/

/-- What the timeline of a manifest depends on. -/
structure Times where
  typ : Option Bytes
  mpDur : Option Int
  minUpd : Option Int
  periods : List Entry
  deriving DecidableEq

/-- The presentation is static: no type, or the type `static`. -/
def Times.static (T : Times) : Bool :=
  match T.typ with
  | none => true
  | some t => t == b!"static"

/-- The text of an attribute of an element: of attributes with the same local name the last counts. -/
def attrText (name : Bytes) : XTree → Option Bytes
  | .elem _ as _ _ _ _ _ _ => (as.filter fun a => decide (a.name.loc = name)).getLast?.map (·.value)
  | .leaf _ _ _ => none

/-- The elements with a local name in an element. -/
def kidsNamed (name : Bytes) : XTree → List XTree
  | .elem _ _ _ _ kids _ _ _ => kids.filter fun t =>
    match t with
    | .elem n _ _ _ _ _ _ _ => decide (n.loc = name)
    | .leaf _ _ _ => false
  | .leaf _ _ _ => []

/-- The duration in the text of an attribute. -/
def durText (a : Duration.Arch) : Option Bytes → Option Int
  | none => none
  | some x =>
    match Duration.parse a x with
    | .ok d => some d
    | .error _ => none

/-- The times in a document. -/
def docTimes (a : Duration.Arch) (t : XTree) : Times where
  typ := attrText b!"type" t
  mpDur := durText a (attrText b!"mediaPresentationDuration" t)
  minUpd := durText a (attrText b!"minimumUpdatePeriod" t)
  periods := (kidsNamed b!"Period" t).map fun p => (durText a (attrText b!"start" p), durText a (attrText b!"duration" p))

/-- The attribute is missing or holds a duration. -/
def DurOk (a : Duration.Arch) (o : Option Bytes) : Prop := ∀ x, o = some x → ∃ d, Duration.parse a x = .ok d

/-- The field for an attribute. -/
def attrVal (name : Bytes) : Sch × Val → Option Val
  | (.struct _ _ infos _, .struct _ vs) =>
    match infos.findIdx? (fun f => f.mode == .attr && f.loc == name) with
    | none => none
    | some i => vs[i]?
  | _ => none

/-- A pointer to a duration. -/
def asDur : Option Val → Option Int
  | some (.ptr (some (.int d))) => some d
  | _ => none

/-- A pointer to a string. -/
def asStr : Option Val → Option Bytes
  | some (.ptr (some (.str s))) => some s
  | _ => none

/-- The times in a manifest. -/
def valTimes (v : Val) : Times where
  typ := asStr (attrVal b!"type" (tMPD.sch, v))
  mpDur := asDur (attrVal b!"mediaPresentationDuration" (tMPD.sch, v))
  minUpd := asDur (attrVal b!"minimumUpdatePeriod" (tMPD.sch, v))
  periods := (entries b!"Period" (tMPD.sch, v)).map fun p => (asDur (attrVal b!"start" p), asDur (attrVal b!"duration" p))

/-- The times in memory. -/
def heapTimes (h : Heap) (m : Addr) : Times where
  typ := (h.mpd m).typ
  mpDur := (h.mpd m).mpDur
  minUpd := (h.mpd m).minUpd
  periods := Period.entries h m

/-- The allocation also stores the times, and each period is a new object. -/
def Alloc.Timed (al : Alloc) : Prop := ∀ v, heapTimes (al v).1 (al v).2 = valTimes v ∧ ((al v).1.mpd (al v).2).periods.Nodup

/-! ### The timeline in memory -/

theorem same_times {h h' : Heap} (s : Same h h') (m : Addr) : heapTimes h' m = heapTimes h m := by
  unfold heapTimes Period.entries
  rw [s.mpd]
  congr 1
  refine List.map_congr_left fun p _ => ?_
  have h1 : (h'.period p).start = (h.period p).start := by
    have := congrArg PeriodObj.start (s.period p); exact this
  have h2 : (h'.period p).dur = (h.period p).dur := by
    have := congrArg PeriodObj.dur (s.period p); exact this
  rw [h1, h2]

/-- The answers about the `i`-th period, at address `p`, are those that follow from the times `T`. -/
structure Timeline (T : Times) (h : Heap) (i : Nat) (p : Addr) : Prop where
  start : ∃ r, (∀ k, i < k → getStart h k p = some r) ∧ (∀ v, r = .ok v ↔ StartIs T.static T.periods i v) ∧
    ∀ e, r = .error e → e.is .unknownStart = true
  dur : ∀ v, getDuration h p = .ok v ↔ DurIs T.static T.mpDur T.periods i v
  typ : getType h p = .ok (typeSpec (hasStart T.periods[i]?) (decide (0 < i) && hasDur T.periods[i-1]?) (hasDur T.periods[i]?)
    T.minUpd.isSome (hasStart T.periods[i+1]?) (T.typ == some b!"dynamic"))

theorem timeline (h : Heap) (m : Addr) (hl : WellLinked h m) (hnd : (h.mpd m).periods.Nodup) (i p : Nat)
    (hp : (h.mpd m).periods[i]? = some p) : Timeline (heapTimes h m) h i p := by
  have e := entries_get h m i p hp
  refine ⟨C07_start_rule h m hl hnd i p hp, (C10_duration_rule h m hl hnd i p hp).1, ?_⟩
  rw [(C11_classification h m hl hnd i p hp).1]
  have h1 : hasStart (heapTimes h m).periods[i]? = (h.period p).start.isSome := by
    show hasStart (Period.entries h m)[i]? = _
    rw [e]
    cases (h.period p).start <;> rfl
  have h2 : hasDur (heapTimes h m).periods[i]? = (h.period p).dur.isSome := by
    show hasDur (Period.entries h m)[i]? = _
    rw [e]
    cases (h.period p).dur <;> rfl
  rw [h1, h2]
  rfl

/-! ### Reading attributes and lists, whatever else is in the element -/

/-- What reading a struct does to fields for attributes and to lists. -/
theorem struct_read (io : FloatIO) (tn : Bytes) (xn : Option FInfo) (F : List FInfo) (S : List Sch) (hs : StructRt xn F S)
    (hok : oks S = true) (top : Bool) (d : Nat) (hd : d < maxDepth) (n : Name) (as : List Attr) (b a : Bytes) (kids : List XTree)
    (en : Name) (eb ea : Bytes) (w : Val)
    (h : readT io top d (.struct tn xn F S) (Sch.struct tn xn F S).zero (.elem n as b a kids en eb ea) = .ok w) :
    ∃ xv ws, w = .struct xv ws ∧
      (∀ (i : Nat) (f : FInfo) (s : Sch), F[i]? = some f → S[i]? = some s → f.mode = .attr → f.grp = none →
        ∃ x, ws[i]? = some x ∧ AttrSays io s (attrsFor f as) x) ∧
      (∀ (i : Nat) (f : FInfo) (s : Sch), F[i]? = some f → S[i]? = some s → f.mode = .elem → f.grp = none →
        ∃ x, ws[i]? = some x ∧ runAt s s.zero ((kidsFor f kids).map (rk io d)) = .ok x) := by
  have hsok : (Sch.struct tn xn F S).ok = true := by simp [Sch.ok, hs.len, hok]
  have hz := zero_typed _ hsok
  simp only [Sch.zero] at hz
  obtain ⟨_, _, hz1, hf0⟩ := struct_fields hsok hz
  injection hz1 with _ hz1; subst hz1
  simp only [readT] at h
  rw [place_plain _ top d _ _ rfl hd] at h
  obtain ⟨_, ws, h1, rfl⟩ := (readBody_iff io n as kids (a.take (a.length - eb.length)) d tn xn F S ⟨[], []⟩ (zeros F S) w).1 h
  obtain ⟨hl, hw⟩ := (runOps_iff _ _ hf0 (structOps_ok io d F S as kids _ hs.len)).1 h1
  refine ⟨_, ws, rfl, fun i f s hi hsi hm hg => ?_, fun i f s hi hsi hm hg => ?_⟩
  · obtain ⟨x, h1, h2⟩ := hw i f s hi hsi
    rw [if_pos (Or.inl hg)] at h2
    rw [opsAt_struct io d hs hi, hm] at h1
    exact ⟨x, h2, (run_attrs io s (fieldRt_attr (hs.rt i f s hi hsi) hm).1 _ x).1 h1⟩
  · obtain ⟨x, h1, h2⟩ := hw i f s hi hsi
    rw [if_pos (Or.inl hg)] at h2
    rw [opsAt_struct io d hs hi, hm] at h1
    exact ⟨x, h2, h1⟩

/-- Elements read into a list. -/
theorem list_read (io : FloatIO) (d : Nat) (hd : d + 1 < maxDepth) (s : Sch) : ∀ (ts : List XTree) (acc : List Val) (w : Val),
    (∀ t ∈ ts, isLeafT t = false) → runAt (.slice s) (.slice acc) (ts.map (rk io d)) = .ok w →
      ∃ l, w = .slice (acc ++ l) ∧ List.Forall₂ (fun t v => readT io true (d + 1 + 1) s s.zero t = .ok v) ts l
  | [], acc, w, _, h => by
    simp only [List.map_nil, runAt] at h
    injection h with h
    exact ⟨[], by simp [h], .nil⟩
  | t :: ts, acc, w, hl, h => by
    have hd' : ¬ maxDepth ≤ d + 1 := by omega
    have step : rk io d t (.slice s) (.slice acc) = wrapSlice acc (readT io true (d + 1 + 1) s s.zero t) := by
      have := hl t (by simp)
      cases t with
      | leaf _ _ _ => cases this
      | elem n as b a kids en eb ea => simp only [rk, readT, place, if_neg hd']
    simp only [List.map_cons, runAt, step] at h
    cases hr : readT io true (d + 1 + 1) s s.zero t with
    | error e => rw [hr] at h; cases h
    | ok x =>
      rw [hr] at h
      simp only [wrapSlice] at h
      obtain ⟨l, rfl, h2⟩ := list_read io d hd s ts (acc ++ [x]) w (fun t ht => hl t (by simp [ht])) h
      exact ⟨x :: l, by simp, .cons hr h2⟩

/-- The type of the field for an attribute: a pointer to a simple kind, with a tag without namespace, not behind a pointer. -/
def attrKind (name : Bytes) : Sch → Option Kind
  | .struct _ _ infos subs =>
    match infos.findIdx? (fun f => f.mode == .attr && f.loc == name) with
    | none => none
    | some i =>
      match infos[i]?, subs[i]? with
      | some f, some (.ptr (.simple k)) => if f.xmlns = [] ∧ f.grp = none then some k else none
      | _, _ => none
  | _ => none

/-- The type of the entries of the list for elements. -/
def listOf (name : Bytes) : Sch → Option Sch
  | .struct _ _ infos subs =>
    match infos.findIdx? (fun f => f.mode == .elem && f.loc == name) with
    | none => none
    | some i =>
      match infos[i]?, subs[i]? with
      | some f, some (.slice (.ptr s)) => if f.xmlns = [] ∧ f.grp = none then some s else none
      | _, _ => none
  | _ => none

theorem forall₂_last {α β} {R : α → β → Prop} : ∀ {l : List α} {m : List β}, List.Forall₂ R l m →
    (l.getLast? = none ∧ m.getLast? = none) ∨ ∃ a b, l.getLast? = some a ∧ m.getLast? = some b ∧ R a b
  | _, _, .nil => Or.inl ⟨rfl, rfl⟩
  | _, _, .cons (l₁ := l) (l₂ := m) (a := a) (b := b) h t => by
    right
    rcases forall₂_last t with ⟨h1, h2⟩ | ⟨x, y, h1, h2, h3⟩
    · refine ⟨a, b, ?_, ?_, h⟩
      · rw [List.getLast?_eq_none_iff.1 h1]; rfl
      · rw [List.getLast?_eq_none_iff.1 h2]; rfl
    · exact ⟨x, y, by simp [List.getLast?_cons, h1], by simp [List.getLast?_cons, h2], h3⟩

/-- What is read for an attribute. -/
theorem attr_read (io : FloatIO) (L : List Bytes) (s : Sch) (hr : s.rt L = true) (hok : s.ok = true) (top : Bool) (d : Nat)
    (hd : d < maxDepth) (t : XTree) (v : Val) (h : readT io top d s s.zero t = .ok v) (ht : isLeafT t = false) (name : Bytes)
    (k : Kind) (hk : attrKind name s = some k) :
    (attrText name t = none ∧ attrVal name (s, v) = some (.ptr none)) ∨
    ∃ x w, attrText name t = some x ∧ readSimpleAttr io k x = .ok w ∧ attrVal name (s, v) = some (.ptr (some w)) := by
  cases t with
  | leaf _ _ _ => cases ht
  | elem n as b a kids en eb ea =>
  unfold attrKind at hk
  split at hk
  case h_2 => cases hk
  case h_1 tn xn F S =>
  simp only [Sch.rt, Bool.and_eq_true] at hr
  simp only [Sch.ok, Bool.and_eq_true] at hok
  obtain ⟨xv, ws, rfl, h1, -⟩ := struct_read io tn xn F S (StructRt.of hr.1.1) hok.2 top d hd n as b a kids en eb ea v h
  split at hk
  · cases hk
  · rename_i i hi
    split at hk
    · rename_i f k' hf hsi
      split_ifs at hk with hc
      injection hk with hk; subst hk
      have hfp : (f.mode == .attr && f.loc == name) = true := by
        obtain ⟨hlt, h2, -⟩ := List.findIdx?_eq_some_iff_getElem.1 hi
        rw [List.getElem?_eq_getElem hlt] at hf
        injection hf with hf
        rw [← hf]; exact h2
      simp only [Bool.and_eq_true, beq_iff_eq] at hfp
      obtain ⟨x, hx, hsay⟩ := h1 i f _ hf hsi hfp.1 hc.2
      have hv : attrVal name (.struct tn xn F S, .struct xv ws) = some x := by
        simp only [attrVal, hi, hx]
      rw [hv]
      obtain ⟨us, hus, rfl⟩ := hsay
      have hat : attrsFor f as = as.filter fun a => decide (a.name.loc = name) := by
        unfold attrsFor
        refine List.filter_congr fun a _ => decide_eq_decide.2 ?_
        rw [hfp.2, hc.1]
        exact ⟨fun h => h.1.symm, fun h => ⟨h.symm, Or.inr rfl⟩⟩
      rw [hat] at hus
      rcases forall₂_last hus with ⟨e1, e2⟩ | ⟨at', u, e1, e2, e3⟩
      · exact Or.inl ⟨by simp only [attrText, e1]; rfl, by rw [e2]⟩
      · exact Or.inr ⟨at'.value, u, by simp only [attrText, e1]; rfl, e3, by rw [e2]⟩
    · cases hk

/-- What is read for elements of a list. -/
theorem elems_read (io : FloatIO) (L : List Bytes) (s : Sch) (hr : s.rt L = true) (hok : s.ok = true) (top : Bool) (d : Nat)
    (hd : d + 2 < maxDepth) (t : XTree) (v : Val) (h : readT io top d s s.zero t = .ok v) (ht : isLeafT t = false) (name : Bytes)
    (s' : Sch) (hk : listOf name s = some s') :
    List.Forall₂ (fun u p => isLeafT u = false ∧ p.1 = s' ∧ readT io false (d + 2) s' s'.zero u = .ok p.2) (kidsNamed name t)
      (entries name (s, v)) := by
  cases t with
  | leaf _ _ _ => cases ht
  | elem n as b a kids en eb ea =>
  unfold listOf at hk
  split at hk
  case h_2 => cases hk
  case h_1 tn xn F S =>
  simp only [Sch.rt, Bool.and_eq_true] at hr
  simp only [Sch.ok, Bool.and_eq_true] at hok
  obtain ⟨xv, ws, rfl, -, h1⟩ := struct_read io tn xn F S (StructRt.of hr.1.1) hok.2 top d (by omega) n as b a kids en eb ea v h
  split at hk
  · cases hk
  · rename_i i hi
    split at hk
    · rename_i f k' hf hsi
      split_ifs at hk with hc
      injection hk with hk; subst hk
      have hfp : (f.mode == .elem && f.loc == name) = true := by
        obtain ⟨hlt, h2, -⟩ := List.findIdx?_eq_some_iff_getElem.1 hi
        rw [List.getElem?_eq_getElem hlt] at hf
        injection hf with hf
        rw [← hf]; exact h2
      simp only [Bool.and_eq_true, beq_iff_eq] at hfp
      obtain ⟨x, hx, hrun⟩ := h1 i f _ hf hsi hfp.1 hc.2
      have hat : kidsFor f kids = kidsNamed name (.elem n as b a kids en eb ea) := by
        unfold kidsFor kidsNamed
        refine List.filter_congr fun u _ => ?_
        cases u with
        | leaf _ _ _ => rfl
        | elem m _ _ _ _ _ _ _ =>
          refine decide_eq_decide.2 ?_
          rw [hfp.2, hc.1]
          exact ⟨fun h => h.1.symm, fun h => ⟨h.symm, Or.inr rfl⟩⟩
      have hleaf : ∀ t ∈ kidsFor f kids, isLeafT t = false := fun t ht => kidsFor_elems ht
      obtain ⟨l, rfl, hl⟩ := list_read io d (by omega) _ _ _ _ hleaf hrun
      rw [hat] at hl hleaf
      have he : entries name (.struct tn xn F S, .struct xv ws) = l.map fun v => (k', v.deref k') := by
        simp only [entries, hi, hx, hsi, List.nil_append]
      rw [he, List.forall₂_map_right_iff]
      have h3 : List.Forall₂ (fun t v => isLeafT t = false ∧ readT io true (d + 1 + 1) (.ptr k') (Sch.ptr k').zero t = .ok v)
          (kidsNamed name (.elem n as b a kids en eb ea)) l := by
        rw [forall₂_get] at hl ⊢
        exact ⟨hl.1, fun j a b ha hb => ⟨hleaf a (List.mem_of_getElem? ha), hl.2 j a b ha hb⟩⟩
      refine h3.imp fun u w hu => ⟨hu.1, rfl, ?_⟩
      have h2 := hu.2
      have hd2 : ¬ maxDepth ≤ d + 1 + 1 := by omega
      cases u with
      | leaf _ _ _ => cases hu.1
      | elem n' as' b' a' kids' en' eb' ea' =>
        have e : readT io true (d + 1 + 1) (.ptr k') (Sch.ptr k').zero (.elem n' as' b' a' kids' en' eb' ea') =
            wrapPtr (readT io false (d + 1 + 1) k' k'.zero (.elem n' as' b' a' kids' en' eb' ea')) := by
          simp only [readT, place, if_neg hd2, Sch.zero, Val.deref]
        rw [e] at h2
        cases hr2 : readT io false (d + 1 + 1) k' k'.zero (.elem n' as' b' a' kids' en' eb' ea') with
        | error e => rw [hr2] at h2; cases h2
        | ok y =>
          rw [hr2] at h2
          injection h2 with h2; subst h2
          rfl
    · cases hk

/-! ### C70: from the document -/

theorem kind_facts : attrKind b!"type" tMPD.sch = some .str ∧ attrKind b!"mediaPresentationDuration" tMPD.sch = some .duration ∧
    attrKind b!"minimumUpdatePeriod" tMPD.sch = some .duration ∧ attrKind b!"start" tPeriod.sch = some .duration ∧
    attrKind b!"duration" tPeriod.sch = some .duration := by decide +kernel

theorem list_facts : listOf b!"Period" tMPD.sch = some tPeriod.sch := by krfl

theorem period_facts : tPeriod.sch.rt mpdLocs = true ∧ tPeriod.sch.ok = true := by decide +kernel

theorem dur_read (io : FloatIO) (L : List Bytes) (s : Sch) (hr : s.rt L = true) (hok : s.ok = true) (top : Bool) (d : Nat)
    (hd : d < maxDepth) (t : XTree) (v : Val) (h : readT io top d s s.zero t = .ok v) (ht : isLeafT t = false) (name : Bytes)
    (hk : attrKind name s = some .duration) :
    asDur (attrVal name (s, v)) = durText io.arch (attrText name t) ∧ DurOk io.arch (attrText name t) := by
  rcases attr_read io L s hr hok top d hd t v h ht name _ hk with ⟨h1, h2⟩ | ⟨x, w, h1, h2, h3⟩
  · rw [h1, h2]
    exact ⟨rfl, fun x hx => by cases hx⟩
  · simp only [readSimpleAttr] at h2
    cases hp : Duration.parse io.arch x with
    | error e => rw [hp] at h2; cases h2
    | ok n =>
      rw [hp] at h2
      injection h2 with h2; subst h2
      rw [h1, h3]
      refine ⟨by simp only [durText, hp, asDur], fun y hy => ?_⟩
      injection hy with hy; subst hy
      exact ⟨n, hp⟩

/-- The times of a manifest that is read are those in the document, and all durations in them could be read. -/
theorem valTimes_doc (io : FloatIO) (doc : Bytes) (t : XTree) (ht : IsDoc doc t) (v : Val)
    (h : unmarshalDoc io tMPD.sch doc = .ok v) :
    valTimes v = docTimes io.arch t ∧ DurOk io.arch (attrText b!"mediaPresentationDuration" t) ∧
      DurOk io.arch (attrText b!"minimumUpdatePeriod" t) ∧
      ∀ p ∈ kidsNamed b!"Period" t, DurOk io.arch (attrText b!"start" p) ∧ DurOk io.arch (attrText b!"duration" p) := by
  rw [unmarshalDoc_tree io _ doc t ht] at h
  unfold readRoot at h
  have hm : (0 : Nat) + 2 < maxDepth := by decide
  have hleaf : isLeafT t = false := by
    obtain ⟨_, ⟨n, as, b, a, kids, en, eb, ea, rfl⟩, _⟩ := ht
    rfl
  obtain ⟨k1, k2, k3, k4, k5⟩ := kind_facts
  have d1 := dur_read io mpdLocs _ mpd_rt mpd_ok false 0 (by omega) t v h hleaf _ k2
  have d2 := dur_read io mpdLocs _ mpd_rt mpd_ok false 0 (by omega) t v h hleaf _ k3
  have d3 : asStr (attrVal b!"type" (tMPD.sch, v)) = attrText b!"type" t := by
    rcases attr_read io mpdLocs _ mpd_rt mpd_ok false 0 (by omega) t v h hleaf _ _ k1 with ⟨h1, h2⟩ | ⟨x, w, h1, h2, h3⟩
    · rw [h1, h2]; rfl
    · simp only [readSimpleAttr, copySimple] at h2
      injection h2 with h2; subst h2
      rw [h1, h3]; rfl
  have d4 := elems_read io mpdLocs _ mpd_rt mpd_ok false 0 hm t v h hleaf _ _ list_facts
  have d5 : ∀ u p, (isLeafT u = false ∧ p.1 = tPeriod.sch ∧ readT io false (0 + 2) tPeriod.sch tPeriod.sch.zero u = .ok p.2) →
      (asDur (attrVal b!"start" p), asDur (attrVal b!"duration" p)) =
        (durText io.arch (attrText b!"start" u), durText io.arch (attrText b!"duration" u)) ∧
      DurOk io.arch (attrText b!"start" u) ∧ DurOk io.arch (attrText b!"duration" u) := by
    rintro u ⟨ps, pv⟩ ⟨hu, rfl, hp⟩
    have e1 := dur_read io mpdLocs _ period_facts.1 period_facts.2 false (0 + 2) hm u pv hp hu _ k4
    have e2 := dur_read io mpdLocs _ period_facts.1 period_facts.2 false (0 + 2) hm u pv hp hu _ k5
    exact ⟨by rw [e1.1, e2.1], e1.2, e2.2⟩
  refine ⟨?_, d1.2, d2.2, ?_⟩
  · unfold valTimes docTimes
    rw [d1.1, d2.1, d3]
    congr 1
    have := d4.imp d5
    rw [forall₂_get] at this
    refine List.ext_getElem? fun i => ?_
    rw [List.getElem?_map, List.getElem?_map]
    cases h1 : (kidsNamed b!"Period" t)[i]? with
    | none =>
      have h2 : (entries b!"Period" (tMPD.sch, v))[i]? = none := by
        rw [List.getElem?_eq_none_iff] at h1 ⊢
        omega
      rw [h2]; rfl
    | some u =>
      obtain ⟨p, hp⟩ := get_of_lt (l := entries b!"Period" (tMPD.sch, v)) (i := i) (by
        rw [this.1]; exact lt_of_get h1)
      rw [hp]
      simp only [Option.map_some]
      rw [(this.2 i u p h1 hp).1]
  · intro p hp
    obtain ⟨i, hi⟩ := List.mem_iff_getElem?.1 hp
    have := d4.imp d5
    rw [forall₂_get] at this
    obtain ⟨q, hq⟩ := get_of_lt (l := entries b!"Period" (tMPD.sch, v)) (i := i) (by
        rw [this.1]; exact lt_of_get hi)
    exact (this.2 i p q hi hq).2

/-- C70: when `MPDFromBytes` returns a manifest, it has as many periods as the root element has elements `Period`, in their order,
and start, duration and type of each, as `GetStart`, `GetDuration` and `GetType` return them, are those that
ISO/IEC 23009-1 and the comments in the code derive from the attributes in the document.  All durations in these attributes could
be read. -/
theorem C70_document (io : FloatIO) (al : Alloc) (hal : al.Good) (hti : al.Timed) (h0 : Heap) (data : Bytes) (m : Addr)
    (h : (mpdFromBytes io al h0 data).mpd = some m) :
    ∃ t, IsDoc data t ∧ heapTimes (mpdFromBytes io al h0 data).heap m = docTimes io.arch t ∧
      (((mpdFromBytes io al h0 data).heap.mpd m).periods.length = (kidsNamed b!"Period" t).length) ∧
      (∀ i p, ((mpdFromBytes io al h0 data).heap.mpd m).periods[i]? = some p →
        Timeline (docTimes io.arch t) (mpdFromBytes io al h0 data).heap i p) ∧
      DurOk io.arch (attrText b!"mediaPresentationDuration" t) ∧ DurOk io.arch (attrText b!"minimumUpdatePeriod" t) ∧
      ∀ p ∈ kidsNamed b!"Period" t, DurOk io.arch (attrText b!"start" p) ∧ DurOk io.arch (attrText b!"duration" p) := by
  cases hu : unmarshalDoc io tMPD.sch data with
  | error e => simp [mpdFromBytes, hu] at h
  | ok v =>
    have hr : mpdFromBytes io al h0 data = ⟨some (al v).2, none, mpdSetParents (al v).1 (al v).2⟩ := by
      simp only [mpdFromBytes, hu]
    rw [hr] at h ⊢
    injection h with h; subst h
    dsimp only
    obtain ⟨t, ht⟩ := unmarshalDoc_ok io _ data v hu
    obtain ⟨e1, e2⟩ := valTimes_doc io data t ht v hu
    have hsame := (C13_setParents (al v).1 (al v).2).1
    have hT : heapTimes (mpdSetParents (al v).1 (al v).2) (al v).2 = docTimes io.arch t := by
      rw [same_times hsame, (hti v).1, e1]
    refine ⟨t, ht, hT, ?_, fun i p hp => ?_, e2⟩
    · have := congrArg (fun T => T.periods.length) hT
      simpa [heapTimes, Period.entries, docTimes] using this
    · rw [← hT]
      refine timeline _ _ ?_ ?_ i p hp
      · exact (setParents_linked _ _ (hal v).2).period
      · rw [show ((mpdSetParents (al v).1 (al v).2).mpd (al v).2).periods = ((al v).1.mpd (al v).2).periods by rw [hsame.mpd]]
        exact (hti v).2

/-! ### C70: writing and reading -/

/-- What is left of an optional duration after writing and reading it. -/
def DurBack : Option Int → Option Int → Prop
  | none, none => True
  | some i, some j => SameDur i j
  | _, _ => False

/-- What is left of the times of a manifest after writing and reading it. -/
structure TimesBack (T U : Times) : Prop where
  typ : U.typ = T.typ
  mpDur : DurBack T.mpDur U.mpDur
  minUpd : DurBack T.minUpd U.minUpd
  periods : List.Forall₂ (fun p q => DurBack p.1 q.1 ∧ DurBack p.2 q.2) T.periods U.periods

/-- A whole number of seconds, or nothing. -/
def WholeSec (o : Option Int) : Prop := ∀ i, o = some i → i % 1000000000 = 0

/-- All durations are whole numbers of seconds. -/
def Times.Whole (T : Times) : Prop :=
  WholeSec T.mpDur ∧ WholeSec T.minUpd ∧ ∀ p ∈ T.periods, WholeSec p.1 ∧ WholeSec p.2

theorem durBack_whole {o o' : Option Int} (h : DurBack o o') (hw : WholeSec o) : o' = o := by
  cases o with
  | none =>
    cases o' with
    | none => rfl
    | some j => cases h
  | some i =>
    cases o' with
    | none => cases h
    | some j =>
      obtain ⟨h64, h0, -, h1⟩ := h
      have hi := hw i rfl
      obtain ⟨_, _, _, h1⟩ := h1 (by unfold IsI64 at h64; omega)
      obtain ⟨n, rfl⟩ := Int.eq_ofNat_of_zero_le h0
      have hn : n % 1000000000 = 0 := by omega
      have hwr : Duration.writtenNanos n = n := by
        unfold Duration.writtenNanos Duration.msNanos
        split_ifs <;> omega
      simp only [Int.toNat_natCast, hwr] at h1
      rw [h1 hn]

theorem timesBack_whole {T U : Times} (h : TimesBack T U) (hw : T.Whole) : U = T := by
  obtain ⟨t1, t2, t3, t4⟩ := T
  obtain ⟨u1, u2, u3, u4⟩ := U
  obtain ⟨h1, h2, h3, h4⟩ := h
  obtain ⟨w1, w2, w3⟩ := hw
  dsimp only at *
  rw [h1, durBack_whole h2 w1, durBack_whole h3 w2]
  congr 1
  rw [forall₂_get] at h4
  refine List.ext_getElem? fun i => ?_
  cases hi : t4[i]? with
  | none => rw [List.getElem?_eq_none_iff] at hi ⊢; omega
  | some p =>
    obtain ⟨q, hq⟩ := get_of_lt (l := u4) (i := i) (by rw [h4.1]; exact lt_of_get hi)
    obtain ⟨k1, k2⟩ := h4.2 i p q hi hq
    obtain ⟨w4, w5⟩ := w3 p (List.mem_of_getElem? hi)
    rw [hq, show q = p from Prod.ext (durBack_whole k1 w4) (durBack_whole k2 w5)]

theorem backs_get : ∀ (ss : List Sch) (vs ws : List Val), Backs ss vs ws → ∀ (i : Nat) (s : Sch), ss[i]? = some s →
    ∃ v w, vs[i]? = some v ∧ ws[i]? = some w ∧ Back s v w
  | [], _, _, _, i, s, hi => by simp at hi
  | s :: ss, v :: vs, w :: ws, h, i, s', hi => by
    simp only [Backs] at h
    cases i with
    | zero => simp at hi; subst hi; exact ⟨v, w, rfl, rfl, h.1⟩
    | succ i => simpa using backs_get ss vs ws h.2 i s' (by simpa using hi)
  | _ :: _, [], _, h, _, _, _ => by simp [Backs] at h
  | _ :: _, _ :: _, [], h, _, _, _ => by simp [Backs] at h

theorem looses_get (mix : Bool) : ∀ (fs : List FInfo) (ss : List Sch) (vs ws : List Val), Looses mix fs ss vs ws →
    ∀ (i : Nat) (f : FInfo) (s : Sch), fs[i]? = some f → ss[i]? = some s →
    ∃ v w, vs[i]? = some v ∧ ws[i]? = some w ∧ (Loose s v w ∨ (mix = true ∧ f.mode = .chardata ∧ SameText v w))
  | [], _, _, _, _, i, f, s, hi, _ => by simp at hi
  | _ :: _, [], _, _, _, i, f, s, _, hi => by simp at hi
  | f :: fs, s :: ss, v :: vs, w :: ws, h, i, f', s', hf, hi => by
    simp only [Looses] at h
    cases i with
    | zero => simp at hi hf; subst hi; subst hf; exact ⟨v, w, rfl, rfl, h.1⟩
    | succ i => simpa using looses_get mix fs ss vs ws h.2 i f' s' (by simpa using hf) (by simpa using hi)
  | _ :: _, _ :: _, [], _, h, _, _, _, _, _ => by simp [Looses] at h
  | _ :: _, _ :: _, _ :: _, [], h, _, _, _, _, _ => by simp [Looses] at h

/-- The field that `attrKind` finds. -/
theorem attrKind_field {name : Bytes} {s : Sch} {k : Kind} (hk : attrKind name s = some k) :
    ∃ tn xn F S i f, s = .struct tn xn F S ∧ F.findIdx? (fun f => f.mode == .attr && f.loc == name) = some i ∧
      F[i]? = some f ∧ S[i]? = some (.ptr (.simple k)) ∧ f.mode = .attr := by
  unfold attrKind at hk
  split at hk
  case h_2 => cases hk
  case h_1 tn xn F S =>
  split at hk
  · cases hk
  · rename_i i hi
    split at hk
    · rename_i f k' hf hsi
      split_ifs at hk with hc
      injection hk with hk; subst hk
      have hfp : (f.mode == .attr && f.loc == name) = true := by
        obtain ⟨hlt, h2, -⟩ := List.findIdx?_eq_some_iff_getElem.1 hi
        rw [List.getElem?_eq_getElem hlt] at hf
        injection hf with hf
        rw [← hf]; exact h2
      simp only [Bool.and_eq_true, beq_iff_eq] at hfp
      exact ⟨tn, xn, F, S, i, f, rfl, hi, hf, hsi, hfp.1⟩
    · cases hk

/-- The field that `listOf` finds. -/
theorem listOf_field {name : Bytes} {s s' : Sch} (hk : listOf name s = some s') :
    ∃ tn xn F S i f, s = .struct tn xn F S ∧ F.findIdx? (fun f => f.mode == .elem && f.loc == name) = some i ∧
      F[i]? = some f ∧ S[i]? = some (.slice (.ptr s')) ∧ f.mode = .elem := by
  unfold listOf at hk
  split at hk
  case h_2 => cases hk
  case h_1 tn xn F S =>
  split at hk
  · cases hk
  · rename_i i hi
    split at hk
    · rename_i f k' hf hsi
      split_ifs at hk with hc
      injection hk with hk; subst hk
      have hfp : (f.mode == .elem && f.loc == name) = true := by
        obtain ⟨hlt, h2, -⟩ := List.findIdx?_eq_some_iff_getElem.1 hi
        rw [List.getElem?_eq_getElem hlt] at hf
        injection hf with hf
        rw [← hf]; exact h2
      simp only [Bool.and_eq_true, beq_iff_eq] at hfp
      exact ⟨tn, xn, F, S, i, f, rfl, hi, hf, hsi, hfp.1⟩
    · cases hk

/-- What is left of a struct in a list; a nil pointer counts as a new struct. -/
def KeptVal (s : Sch) (v w : Val) : Prop := (v = s.zero ∧ w = s.zero) ∨ ∃ u, Back s v u ∧ Loose s u w

theorem back_ptr {s : Sch} {a b : Val} (h : Back (.ptr s) a b) :
    (a = .ptr none ∧ b = .ptr none) ∨ ∃ x y, a = .ptr (some x) ∧ b = .ptr (some y) ∧ Back s x y := by
  cases a with
  | ptr o =>
    cases b with
    | ptr o' =>
      cases o with
      | none =>
        cases o' with
        | none => exact Or.inl ⟨rfl, rfl⟩
        | some y => simp [Back] at h
      | some x =>
        cases o' with
        | none => simp [Back] at h
        | some y => exact Or.inr ⟨x, y, rfl, rfl, by simpa [Back] using h⟩
    | _ => cases o <;> simp [Back] at h
  | _ => simp [Back] at h

theorem back_slice {s : Sch} (hs : s.isAttr = false) {a b : Val} (h : Back (.slice s) a b) :
    ∃ l m, a = .slice l ∧ b = .slice m ∧ List.Forall₂ (Back s) l m := by
  cases a with
  | slice l =>
    cases b with
    | slice m => exact ⟨l, m, rfl, rfl, by simpa [Back, hs] using h⟩
    | _ => simp [Back] at h
  | _ => simp [Back] at h

theorem back_struct {tn xn F S} {a b : Val} (h : Back (.struct tn xn F S) a b) :
    ∃ xv vs xw ws, a = .struct xv vs ∧ b = .struct xw ws ∧ Backs S vs ws := by
  cases a with
  | struct xv vs =>
    cases b with
    | struct xw ws =>
      simp only [Back] at h
      exact ⟨xv, vs, xw, ws, rfl, rfl, h.2⟩
    | _ => simp [Back] at h
  | _ => simp [Back] at h

theorem loose_none {s : Sch} {c : Val} (h : Loose (.ptr s) (.ptr none) c) : c = .ptr none := by
  cases c with
  | ptr o =>
    cases o with
    | none => rfl
    | some z => simp [Loose] at h
  | _ => simp [Loose] at h

theorem loose_some {s : Sch} {y c : Val} (h : Loose (.ptr s) (.ptr (some y)) c) : ∃ z, c = .ptr (some z) ∧ Loose s y z := by
  cases c with
  | ptr o =>
    cases o with
    | none => simp [Loose] at h
    | some z => exact ⟨z, rfl, by simpa [Loose] using h⟩
  | _ => simp [Loose] at h

theorem loose_slice {s : Sch} {m : List Val} {c : Val} (h : Loose (.slice s) (.slice m) c) :
    ∃ n, c = .slice n ∧ List.Forall₂ (Loose s) m n := by
  cases c with
  | slice n => exact ⟨n, rfl, by simpa [Loose] using h⟩
  | _ => simp [Loose] at h

theorem loose_struct {tn xn F S} {xu : Name} {us : List Val} {c : Val} (h : Loose (.struct tn xn F S) (.struct xu us) c) :
    ∃ xw ws, c = .struct xw ws ∧ Looses (hasElems F us) F S us ws := by
  cases c with
  | struct xw ws =>
    simp only [Loose] at h
    exact ⟨xw, ws, rfl, h.2⟩
  | _ => simp [Loose] at h

theorem kept_attr {name : Bytes} {s : Sch} {k : Kind} (hk : attrKind name s = some k) {v u w : Val} (h1 : Back s v u)
    (h2 : Loose s u w) : (attrVal name (s, v) = some (.ptr none) ∧ attrVal name (s, w) = some (.ptr none)) ∨
    ∃ x y, attrVal name (s, v) = some (.ptr (some x)) ∧ attrVal name (s, w) = some (.ptr (some y)) ∧ SameLeaf k x y := by
  obtain ⟨tn, xn, F, S, i, f, rfl, hi, hf, hsi, hm⟩ := attrKind_field hk
  obtain ⟨xv, vs, xu, us, rfl, rfl, g1⟩ := back_struct h1
  obtain ⟨xw, ws, rfl, g2⟩ := loose_struct h2
  obtain ⟨a, b, e1, e2, e3⟩ := backs_get S vs us g1 i _ hsi
  obtain ⟨b', c, e4, e5, e6⟩ := looses_get _ F S us ws g2 i f _ hf hsi
  rw [e2] at e4; injection e4 with e4; subst e4
  have e7 : Loose (.ptr (.simple k)) b c := by
    rcases e6 with h | ⟨_, h, _⟩
    · exact h
    · rw [hm] at h; cases h
  simp only [attrVal, hi, e1, e5]
  rcases back_ptr e3 with ⟨rfl, rfl⟩ | ⟨x, y, rfl, rfl, e8⟩
  · rw [loose_none e7]; exact Or.inl ⟨rfl, rfl⟩
  · obtain ⟨z, rfl, e9⟩ := loose_some e7
    have : y = z := by simpa [Loose] using e9
    subst this
    exact Or.inr ⟨x, y, rfl, rfl, by simpa [Back] using e8⟩

theorem kept_dur {name : Bytes} {s : Sch} (hk : attrKind name s = some .duration) (hz : asDur (attrVal name (s, s.zero)) = none)
    {v w : Val} (h : KeptVal s v w) : DurBack (asDur (attrVal name (s, v))) (asDur (attrVal name (s, w))) := by
  rcases h with ⟨rfl, rfl⟩ | ⟨u, h1, h2⟩
  · rw [hz]; trivial
  rcases kept_attr hk h1 h2 with ⟨e1, e2⟩ | ⟨x, y, e1, e2, e3⟩
  · rw [e1, e2]; trivial
  · rw [e1, e2]
    cases x <;> cases y <;> simp only [SameLeaf] at e3 <;> first | exact e3 | trivial

theorem kept_list {name : Bytes} {s s' : Sch} (hk : listOf name s = some s') {v u w : Val} (h1 : Back s v u) (h2 : Loose s u w) :
    List.Forall₂ (fun p q => p.1 = s' ∧ q.1 = s' ∧ KeptVal s' p.2 q.2) (entries name (s, v)) (entries name (s, w)) := by
  obtain ⟨tn, xn, F, S, i, f, rfl, hi, hf, hsi, hm⟩ := listOf_field hk
  obtain ⟨xv, vs, xu, us, rfl, rfl, g1⟩ := back_struct h1
  obtain ⟨xw, ws, rfl, g2⟩ := loose_struct h2
  obtain ⟨a, b, e1, e2, e3⟩ := backs_get S vs us g1 i _ hsi
  obtain ⟨b', c, e4, e5, e6⟩ := looses_get _ F S us ws g2 i f _ hf hsi
  rw [e2] at e4; injection e4 with e4; subst e4
  have e7 : Loose (.slice (.ptr s')) b c := by
    rcases e6 with h | ⟨_, h, _⟩
    · exact h
    · rw [hm] at h; cases h
  obtain ⟨l, m, rfl, rfl, e8⟩ := back_slice rfl e3
  obtain ⟨n, rfl, e9⟩ := loose_slice e7
  simp only [entries, hi, e1, e5, hsi]
  rw [List.forall₂_map_left_iff, List.forall₂_map_right_iff]
  rw [forall₂_get] at e8 e9 ⊢
  refine ⟨by omega, fun j x z hx hz => ⟨rfl, rfl, ?_⟩⟩
  obtain ⟨y, hy⟩ := get_of_lt (l := m) (i := j) (by rw [e8.1]; exact lt_of_get hx)
  have k1 := e8.2 j x y hx hy
  have k2 := e9.2 j y z hy hz
  rcases back_ptr k1 with ⟨rfl, rfl⟩ | ⟨x, y, rfl, rfl, k3⟩
  · rw [loose_none k2]; exact Or.inl ⟨rfl, rfl⟩
  · obtain ⟨z, rfl, k4⟩ := loose_some k2
    exact Or.inr ⟨y, k3, k4⟩

theorem zero_facts : asDur (attrVal b!"start" (tPeriod.sch, tPeriod.sch.zero)) = none ∧
    asDur (attrVal b!"duration" (tPeriod.sch, tPeriod.sch.zero)) = none ∧
    asDur (attrVal b!"mediaPresentationDuration" (tMPD.sch, tMPD.sch.zero)) = none ∧
    asDur (attrVal b!"minimumUpdatePeriod" (tMPD.sch, tMPD.sch.zero)) = none := by decide +kernel

/-- The times of a manifest that is written and read. -/
theorem valTimes_back {v u w : Val} (h1 : Back tMPD.sch v u) (h2 : Loose tMPD.sch u w) : TimesBack (valTimes v) (valTimes w) := by
  obtain ⟨k1, k2, k3, k4, k5⟩ := kind_facts
  obtain ⟨z1, z2, z3, z4⟩ := zero_facts
  refine ⟨?_, kept_dur k2 z3 (Or.inr ⟨u, h1, h2⟩), kept_dur k3 z4 (Or.inr ⟨u, h1, h2⟩), ?_⟩
  · unfold valTimes
    dsimp only
    rcases kept_attr k1 h1 h2 with ⟨e1, e2⟩ | ⟨x, y, e1, e2, e3⟩
    · rw [e1, e2]
    · have : x = y := by simpa only [SameLeaf] using e3
      rw [e1, e2, this]
  · unfold valTimes
    dsimp only
    rw [List.forall₂_map_left_iff, List.forall₂_map_right_iff]
    refine (kept_list list_facts h1 h2).imp fun p q hpq => ?_
    obtain ⟨ps, pv⟩ := p
    obtain ⟨qs, qv⟩ := q
    obtain ⟨rfl, rfl, hk⟩ := hpq
    exact ⟨kept_dur k4 z1 hk, kept_dur k5 z2 hk⟩

theorem durBack_some {o o' : Option Int} (h : DurBack o o') : o'.isSome = o.isSome := by
  cases o <;> cases o' <;> first | rfl | cases h

theorem timesBack_bits {T U : Times} (h : TimesBack T U) (i : Nat) :
    hasStart U.periods[i]? = hasStart T.periods[i]? ∧ hasDur U.periods[i]? = hasDur T.periods[i]? := by
  have h4 := forall₂_get.1 h.periods
  cases hi : T.periods[i]? with
  | none =>
    have : U.periods[i]? = none := by rw [List.getElem?_eq_none_iff] at hi ⊢; omega
    rw [this]; exact ⟨rfl, rfl⟩
  | some p =>
    obtain ⟨q, hq⟩ := get_of_lt (l := U.periods) (i := i) (by rw [h4.1]; exact lt_of_get hi)
    obtain ⟨k1, k2⟩ := h4.2 i p q hi hq
    rw [hq]
    obtain ⟨a, b⟩ := p
    obtain ⟨a', b'⟩ := q
    dsimp only at k1 k2
    have e1 := durBack_some k1
    have e2 := durBack_some k2
    cases a <;> cases a' <;> simp only [Option.isSome_none, Option.isSome_some, Bool.true_eq_false, Bool.false_eq_true] at e1 <;>
      cases b <;> cases b' <;> simp only [Option.isSome_none, Option.isSome_some, Bool.true_eq_false, Bool.false_eq_true] at e2 <;>
      exact ⟨rfl, rfl⟩

/-- The timeline of a manifest in memory, as an allocation stores it. -/
theorem C70_stored (al : Alloc) (hal : al.Good) (hti : al.Timed) (v : Val) (i p : Nat)
    (hp : ((mpdSetParents (al v).1 (al v).2).mpd (al v).2).periods[i]? = some p) :
    Timeline (valTimes v) (mpdSetParents (al v).1 (al v).2) i p := by
  have hsame := (C13_setParents (al v).1 (al v).2).1
  rw [← (hti v).1, ← same_times hsame]
  refine timeline _ _ (setParents_linked _ _ (hal v).2).period ?_ i p hp
  rw [show ((mpdSetParents (al v).1 (al v).2).mpd (al v).2).periods = ((al v).1.mpd (al v).2).periods by rw [hsame.mpd]]
  exact (hti v).2

/-- C70: a manifest that is written, with or without a header and with any indentation, and read with `MPDFromBytes` has the same
timeline.  Types of periods are the same; durations are rounded as C06 says; if all durations are whole numbers of
seconds, then starts and durations of all periods are the same as in the manifest that was written (`C70_stored`).  The conditions on the
manifest are those of C30. -/
theorem C70_written (io : FloatIO) (hio : GoFloats io) (al : Alloc) (hal : al.Good) (hti : al.Timed) (h0 : Heap)
    (indent : Bytes) (hind : IsWs indent) (hdr : Bool) (X : Pairs) (hX : extOk mpdPairs X mpdLocs = true) (v : Val)
    (ht : Typed tMPD.sch v) (hc : Fine none tMPD.sch v) (hn : NsOk X [] [] none tMPD.sch v) :
    ∃ doc m h, writeDoc io tMPD.sch v indent hdr = .ok doc ∧ mpdFromBytes io al h0 doc = ⟨some m, none, h⟩ ∧
      TimesBack (valTimes v) (heapTimes h m) ∧
      (∀ i p, (h.mpd m).periods[i]? = some p → getType h p = .ok (typeSpec (hasStart (valTimes v).periods[i]?)
        (decide (0 < i) && hasDur (valTimes v).periods[i-1]?) (hasDur (valTimes v).periods[i]?) (valTimes v).minUpd.isSome
        (hasStart (valTimes v).periods[i+1]?) ((valTimes v).typ == some b!"dynamic"))) ∧
      ((valTimes v).Whole → ∀ i p, (h.mpd m).periods[i]? = some p → Timeline (valTimes v) h i p) := by
  obtain ⟨doc, w, h1, h2, u, h3, h4, -⟩ := C30_values_partial io hio indent hind hdr X hX v ht hc hn
  have hb := valTimes_back h3 h4
  have hr : mpdFromBytes io al h0 doc = ⟨some (al w).2, none, mpdSetParents (al w).1 (al w).2⟩ := by
    simp only [mpdFromBytes, h2]
  have hst := C70_stored al hal hti w
  have hT : heapTimes (mpdSetParents (al w).1 (al w).2) (al w).2 = valTimes w := by
    rw [same_times (C13_setParents (al w).1 (al w).2).1, (hti w).1]
  refine ⟨doc, _, _, h1, hr, by rw [hT]; exact hb, fun i p hp => ?_, fun hw i p hp => ?_⟩
  · rw [(hst i p hp).typ, (timesBack_bits hb i).1, (timesBack_bits hb i).2, (timesBack_bits hb (i - 1)).2,
      (timesBack_bits hb (i + 1)).1, durBack_some hb.minUpd, hb.typ]
  · have := hst i p hp
    rwa [timesBack_whole hb hw] at this

/-- C70 for manifests built from new structs, in particular with the constructors (C58). -/
theorem C70_built (io : FloatIO) (hio : GoFloats io) (al : Alloc) (hal : al.Good) (hti : al.Timed) (h0 : Heap) (v : Val)
    (hv : Built none tMPD.sch v) (hw : (valTimes v).Whole) (indent : Bytes) (hind : IsWs indent) (hdr : Bool) :
    ∃ doc m h, writeDoc io tMPD.sch v indent hdr = .ok doc ∧ mpdFromBytes io al h0 doc = ⟨some m, none, h⟩ ∧
      heapTimes h m = valTimes v ∧ ∀ i p, (h.mpd m).periods[i]? = some p → Timeline (valTimes v) h i p := by
  obtain ⟨doc, m, h, h1, h2, h3, -, h4⟩ := C70_written io hio al hal hti h0 indent hind hdr [] vodVal_ok.2.2.2.2 v hv.sound.ty
    hv.sound.fine hv.ns
  exact ⟨doc, m, h, h1, h2, timesBack_whole h3 hw, h4 hw⟩

/-! ### An allocation, and a manifest -/

/-- Objects numbered by their positions, as in `numbered`, with the times. -/
def timed : Alloc := fun v =>
  let T := valTimes v
  let n := (numbered v).1
  ({ n with
      mpd := fun a => { n.mpd a with typ := T.typ, mpDur := T.mpDur, minUpd := T.minUpd }
      period := fun p => { n.period p with start := (T.periods[p]?.getD (none, none)).1, dur := (T.periods[p]?.getD (none, none)).2 } }, 0)

theorem timed_good : timed.Good := by
  intro v
  obtain ⟨h1, h2⟩ := numbered_good v
  exact ⟨h1, ⟨h2.aset, h2.rep, h2.sub⟩⟩

theorem timed_timed : timed.Timed := by
  intro v
  refine ⟨?_, ?_⟩
  · unfold heapTimes
    congr 1
    have hlen : (entries b!"Period" (tMPD.sch, v)).length = (valTimes v).periods.length := by simp [valTimes]
    refine List.ext_getElem? fun i => ?_
    show _ = (valTimes v).periods[i]?
    generalize hE : (valTimes v).periods = E at hlen ⊢
    simp only [Period.entries, timed, numbered, List.getElem?_map, hE]
    rw [hlen]
    by_cases hi : i < E.length
    · rw [List.getElem?_range hi]
      simp only [Option.map_some, List.getElem?_eq_getElem hi, Option.getD_some]
    · rw [List.getElem?_eq_none (by simpa using hi), List.getElem?_eq_none (l := E) (by simpa using hi)]
      rfl
  · simp only [timed, numbered]
    exact List.nodup_range

/-- Two periods; the second begins where the first ends and lasts to the end of the presentation. -/
@[irreducible] def timeDoc : Bytes :=
  b!"<MPD type='static' mediaPresentationDuration='PT1M'><Period start='PT5S' duration='PT10S'/><Period/><Period x:start='PT20S' start='PT30S'/></MPD>"

-- C70 on a document: the starts of the periods are 5 s, 15 s and 30 s; the last lasts 30 s; the second has no duration.
example (io : FloatIO) (h0 : Heap) : (mpdFromBytes io timed h0 timeDoc).mpd = some 0 ∧
    heapTimes (mpdFromBytes io timed h0 timeDoc).heap 0 =
      ⟨some (b!"static"), some 60000000000, none, [(some 5000000000, some 10000000000), (none, none), (some 30000000000, none)]⟩ ∧
    getStart (mpdFromBytes io timed h0 timeDoc).heap 3 1 = some (.ok 15000000000) ∧
    getDuration (mpdFromBytes io timed h0 timeDoc).heap 2 = .ok 30000000000 ∧
    getDuration (mpdFromBytes io timed h0 timeDoc).heap 1 = .error .unknownDur := by
  refine ⟨?_, ?_, ?_, ?_, ?_⟩ <;> krfl

/-- The value of this document. -/
@[irreducible] def timeVal : Val := valOf twoIO timeDoc

theorem timeVal_def : timeVal = valOf twoIO timeDoc := by unfold timeVal; rfl

theorem timeVal_ok : timeVal.isAbsent = false ∧ fineValB none tMPD.sch timeVal = true ∧
    nsB [] [] [] none tMPD.sch timeVal = true := by
  rw [timeVal_def]
  decide +kernel

theorem timeVal_times : valTimes timeVal =
    ⟨some (b!"static"), some 60000000000, none, [(some 5000000000, some 10000000000), (none, none), (some 30000000000, none)]⟩ := by
  rw [timeVal_def]
  decide +kernel

-- C70 on this manifest, written with indentation and read.
example (io : FloatIO) (hio : GoFloats io) (h0 : Heap) : ∃ doc m h, writeDoc io tMPD.sch timeVal [ch%' '] true = .ok doc ∧
    mpdFromBytes io timed h0 doc = ⟨some m, none, h⟩ ∧
    ∀ i p, (h.mpd m).periods[i]? = some p → Timeline (valTimes timeVal) h i p := by
  have ht : Typed tMPD.sch timeVal := by
    have h := timeVal_ok.1
    rw [timeVal_def] at h ⊢
    exact unmarshalDoc_typed twoIO _ _ _ mpd_ok (valOf_ok twoIO _ h)
  obtain ⟨doc, m, h, h1, h2, -, -, h3⟩ := C70_written io hio timed timed_good timed_timed h0 [ch%' '] (by simp [IsWs]) true []
    vodVal_ok.2.2.2.2 timeVal ht (fineValB_sound _ _ _ timeVal_ok.2.1) (nsB_sound _ _ _ _ _ _ timeVal_ok.2.2)
  refine ⟨doc, m, h, h1, h2, h3 ?_⟩
  rw [timeVal_times]
  refine ⟨?_, ?_, ?_⟩
  · intro i hi
    injection hi with hi; subst hi; rfl
  · intro i hi; cases hi
  · intro p hp
    simp only [List.mem_cons, List.not_mem_nil, or_false] at hp
    rcases hp with rfl | rfl | rfl <;> refine ⟨?_, ?_⟩ <;> intro i hi <;> simp at hi <;> subst hi <;> rfl

end Verif.Bind

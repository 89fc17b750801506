import Verif.ReadWrite

/-!
C58: manifests built with the constructors of the library and by assigning fields are written and read back.
-/
namespace Verif.Bind

open Verif Verif.Xml Verif.FloatText

/-! ### Specification: values that a program builds -/

/-- A new value of a struct type in a field `fi`, `&T{}`, can be written under the name that the field expects, has no nil
embedded pointer, and takes its name from tags. -/
def newOk (fi : Option FInfo) (s : Sch) : Bool :=
  s.ok && fineValB fi s s.zero && (xnames s s.zero).isEmpty && (foreign s s.zero).isEmpty

/-- `SCTE35Namespace` (`/repo/mpd/scte35.go` 66). -/
def scte35NS : Bytes := b!"http://www.scte.org/schemas/35"

/-- The value with its `XMLName` set. -/
def Val.withName (n : Name) : Val → Val
  | .struct _ vs => .struct n vs
  | v => v

/-- The names in a value whose types take their names from `XMLName` are in the namespace of SCTE-35. -/
def ScteNames (l : List Name) : Prop := ∀ n ∈ l, n.space = scte35NS ∧ n.loc ≠ []

/-- The same for a new value with a name, `&T{XMLName: xv}`, of a type that takes its name from there: the name is in
the namespace of SCTE-35 and is the one that the field expects. -/
def namedOk (fi : Option FInfo) (s : Sch) (xv : Name) : Bool :=
  s.ok && fineValB fi s (s.zero.withName xv) && (foreign s (s.zero.withName xv)).isEmpty &&
    xnames s (s.zero.withName xv) == [xv] && xv.space == scte35NS && xv.loc != []

/-- Values that are built from `&T{}` by assigning to fields and appending to lists. -/
inductive Built : Option FInfo → Sch → Val → Prop
  | leaf {fi k v} : KindOk k v → LeafFine k v → Built fi (.simple k) v
  | ptr {fi s v} : Built fi s v → v.isNil = false → Built fi (.ptr s) (.ptr (some v))
  | new {fi tn xn infos subs} : newOk fi (.struct tn xn infos subs) = true →
      Built fi (.struct tn xn infos subs) (Sch.struct tn xn infos subs).zero
  | named {fi tn xn infos subs} (xv : Name) : namedOk fi (.struct tn xn infos subs) xv = true →
      Built fi (.struct tn xn infos subs) ((Sch.struct tn xn infos subs).zero.withName xv)
  | set {fi tn xn infos subs xv vs f s v} (i : Nat) : Built fi (.struct tn xn infos subs) (.struct xv vs) →
      infos[i]? = some f → subs[i]? = some s → f.mode ≠ .innerxml → f.mode ≠ .anyAttr → Built (some f) s v →
      Built fi (.struct tn xn infos subs) (.struct xv (vs.set i v))
  | append {fi tn xn infos subs xv vs f s l v} (i : Nat) : Built fi (.struct tn xn infos subs) (.struct xv vs) →
      infos[i]? = some f → subs[i]? = some (.slice s) → f.mode ≠ .innerxml → f.mode ≠ .anyAttr →
      vs[i]? = some (.slice l) → Built (some f) s v → v.isNil = false →
      Built fi (.struct tn xn infos subs) (.struct xv (vs.set i (.slice (l ++ [v]))))

/-! ### Proof -/

/-- What C30 asks for. -/
structure Sound (fi : Option FInfo) (s : Sch) (v : Val) : Prop where
  ty : Typed s v
  fine : Fine fi s v
  xn : ScteNames (xnames s v)
  fo : foreign s v = []

theorem fines_set : ∀ (infos : List FInfo) (subs : List Sch) (vs : List Val) (i : Nat) (f : FInfo) (s : Sch) (v : Val),
    Fines infos subs vs → infos[i]? = some f → subs[i]? = some s → f.mode ≠ .innerxml → v.isAbsent = false →
    Fine (some f) s v → Fines infos subs (vs.set i v)
  | fi :: fis, s :: ss, w :: vs, i, f, s', v, h, h1, h2, hm, ha, hf => by
    cases i with
    | zero =>
      simp at h1 h2; subst h1; subst h2
      simp only [List.set_cons_zero, Fines] at h ⊢
      exact ⟨ha, ⟨fun _ => hf, fun e => absurd e hm⟩, h.2.2⟩
    | succ i =>
      simp at h1 h2
      simp only [List.set_cons_succ, Fines] at h ⊢
      exact ⟨h.1, h.2.1, fines_set fis ss vs i f s' v h.2.2 h1 h2 hm ha hf⟩
  | [], _, _, i, _, _, _, _, h1, _, _, _, _ => by simp at h1
  | _ :: _, [], _, i, _, _, _, _, _, h2, _, _, _ => by simp at h2
  | _ :: _, _ :: _, [], i, _, _, _, h, _, _, _, _, _ => by simp [Fines] at h

theorem fines_get : ∀ (infos : List FInfo) (subs : List Sch) (vs : List Val) (i : Nat) (f : FInfo) (s : Sch) (v : Val),
    Fines infos subs vs → infos[i]? = some f → subs[i]? = some s → vs[i]? = some v → f.mode ≠ .innerxml → Fine (some f) s v
  | fi :: fis, s :: ss, w :: vs, i, f, s', v, h, h1, h2, h3, hm => by
    simp only [Fines] at h
    cases i with
    | zero =>
      simp at h1 h2 h3; subst h1; subst h2; subst h3
      exact h.2.1.1 hm
    | succ i =>
      simp at h1 h2 h3
      exact fines_get fis ss vs i f s' v h.2.2 h1 h2 h3 hm
  | [], _, _, i, _, _, _, _, h1, _, _, _ => by simp at h1
  | _ :: _, [], _, i, _, _, _, _, _, h2, _, _ => by simp at h2
  | _ :: _, _ :: _, [], i, _, _, _, _, _, _, h3, _ => by simp at h3

theorem fines_present : ∀ (infos : List FInfo) (subs : List Sch) (vs : List Val), Fines infos subs vs →
    ∀ v ∈ vs, v.isAbsent = false
  | fi :: fis, s :: ss, w :: vs, h, v, hv => by
    simp only [Fines] at h
    rcases List.mem_cons.mp hv with rfl | hv
    · exact h.1
    · exact fines_present fis ss vs h.2.2 v hv
  | _, _, [], _, v, hv => by simp at hv
  | [], _, _ :: _, h, _, _ => by simp [Fines] at h
  | _ :: _, [], _ :: _, h, _, _ => by simp [Fines] at h

theorem uniform_present (infos : List FInfo) (vs : List Val) (h : ∀ v ∈ vs, v.isAbsent = false) : Uniform infos vs :=
  fun i j _ _ vi vj _ _ hi hj => by
    have a := h vi (List.mem_of_getElem? hi)
    have b := h vj (List.mem_of_getElem? hj)
    exact ⟨fun _ => by rw [a, b], fun _ => a⟩

theorem typeds_set : ∀ (subs : List Sch) (vs : List Val) (i : Nat) (s : Sch) (v : Val), Typeds subs vs → subs[i]? = some s →
    Typed s v → Typeds subs (vs.set i v)
  | s :: ss, w :: vs, i, s', v, h, h1, hv => by
    cases i with
    | zero =>
      simp at h1; subst h1
      simp only [List.set_cons_zero, Typeds] at h ⊢
      exact ⟨.inr hv, h.2⟩
    | succ i =>
      simp at h1
      simp only [List.set_cons_succ, Typeds] at h ⊢
      exact ⟨h.1, typeds_set ss vs i s' v h.2 h1 hv⟩
  | [], _, i, _, _, _, h1, _ => by simp at h1
  | _ :: _, [], i, _, _, h, _, _ => by simp [Typeds] at h

theorem scteNames_append (l m : List Name) : ScteNames (l ++ m) ↔ ScteNames l ∧ ScteNames m := by
  simp only [ScteNames, List.mem_append]
  exact ⟨fun h => ⟨fun n hn => h n (.inl hn), fun n hn => h n (.inr hn)⟩, fun h n hn => hn.elim (h.1 n) (h.2 n)⟩

theorem scteNames_nil : ScteNames [] := fun _ h => by cases h

theorem scteNames_flatMap {α : Type} (f : α → List Name) (l : List α) :
    ScteNames (l.flatMap f) ↔ ∀ a ∈ l, ScteNames (f a) := by
  simp only [ScteNames, List.mem_flatMap]
  exact ⟨fun h a ha n hn => h n ⟨a, ha, hn⟩, fun h n ⟨a, ha, hn⟩ => h a ha n hn⟩

theorem xnamess_set : ∀ (subs : List Sch) (vs : List Val) (i : Nat) (s : Sch) (v : Val), ScteNames (xnamess subs vs) →
    subs[i]? = some s → ScteNames (xnames s v) → ScteNames (xnamess subs (vs.set i v))
  | s :: ss, w :: vs, i, s', v, h, h1, hv => by
    simp only [xnamess, scteNames_append] at h
    cases i with
    | zero => simp at h1; subst h1; simp only [List.set_cons_zero, xnamess, scteNames_append]; exact ⟨hv, h.2⟩
    | succ i =>
      simp at h1
      simp only [List.set_cons_succ, xnamess, scteNames_append]
      exact ⟨h.1, xnamess_set ss vs i s' v h.2 h1 hv⟩
  | [], _, i, _, _, _, h1, _ => by simp at h1
  | _ :: _, [], i, _, _, _, _, _ => by simpa [xnamess] using scteNames_nil

theorem xnamess_get : ∀ (subs : List Sch) (vs : List Val) (i : Nat) (s : Sch) (v : Val), ScteNames (xnamess subs vs) →
    subs[i]? = some s → vs[i]? = some v → ScteNames (xnames s v)
  | s :: ss, w :: vs, i, s', v, h, h1, h2 => by
    simp only [xnamess, scteNames_append] at h
    cases i with
    | zero => simp at h1 h2; subst h1; subst h2; exact h.1
    | succ i => simp at h1 h2; exact xnamess_get ss vs i s' v h.2 h1 h2
  | [], _, i, _, _, _, h1, _ => by simp at h1
  | _ :: _, [], i, _, _, _, _, h2 => by simp at h2

theorem foreigns_set : ∀ (subs : List Sch) (vs : List Val) (i : Nat) (s : Sch) (v : Val), foreigns subs vs = [] →
    subs[i]? = some s → foreign s v = [] → foreigns subs (vs.set i v) = []
  | s :: ss, w :: vs, i, s', v, h, h1, hv => by
    simp only [foreigns, List.append_eq_nil_iff] at h
    cases i with
    | zero => simp at h1; subst h1; simp [foreigns, hv, h.2]
    | succ i => simp at h1; simp [foreigns, h.1, foreigns_set ss vs i s' v h.2 h1 hv]
  | [], _, i, _, _, _, h1, _ => by simp at h1
  | _ :: _, [], i, _, _, _, _, _ => by simp [foreigns]

/-- Assigning a field. -/
theorem Sound.set {fi tn xn infos subs xv vs f s v} (i : Nat) (h : Sound fi (.struct tn xn infos subs) (.struct xv vs))
    (h1 : infos[i]? = some f) (h2 : subs[i]? = some s) (hm : f.mode ≠ .innerxml) (ha : f.mode ≠ .anyAttr)
    (hv : Sound (some f) s v) : Sound fi (.struct tn xn infos subs) (.struct xv (vs.set i v)) := by
  have hty := h.ty
  have hfi := h.fine
  have hxn := h.xn
  have hfo := h.fo
  simp only [Typed] at hty
  simp only [Fine] at hfi
  simp only [xnames, scteNames_append] at hxn
  simp only [foreign] at hfo
  have hF := fines_set infos subs vs i f s v hfi.2.2 h1 h2 hm (typed_present s v hv.ty) hv.fine
  refine ⟨?_, ?_, ?_, ?_⟩
  · simp only [Typed]
    exact ⟨uniform_present _ _ (fines_present _ _ _ hF), typeds_set subs vs i s v hty.2 h2 hv.ty⟩
  · simp only [Fine]
    refine ⟨hfi.1, ?_, hF⟩
    intro j g l hj hg hl
    have hij : i ≠ j := by
      rintro rfl
      rw [h1] at hj
      injection hj with hj
      subst hj
      exact ha hg
    rw [List.getElem?_set_ne hij] at hl
    exact hfi.2.1 j g l hj hg hl
  · simp only [xnames, scteNames_append]
    exact ⟨hxn.1, xnamess_set subs vs i s v hxn.2 h2 hv.xn⟩
  · simp only [foreign]
    exact foreigns_set subs vs i s v hfo h2 hv.fo

/-- What a field holds. -/
theorem Sound.get {fi tn xn infos subs xv vs f s v} (i : Nat) (h : Sound fi (.struct tn xn infos subs) (.struct xv vs))
    (h1 : infos[i]? = some f) (h2 : subs[i]? = some s) (h3 : vs[i]? = some v) (hm : f.mode ≠ .innerxml) :
    Sound (some f) s v := by
  have hty := h.ty
  have hfi := h.fine
  have hxn := h.xn
  have hfo := h.fo
  simp only [Typed] at hty
  simp only [Fine] at hfi
  simp only [xnames, scteNames_append] at hxn
  simp only [foreign] at hfo
  refine ⟨?_, fines_get _ _ _ i f s v hfi.2.2 h1 h2 h3 hm, xnamess_get _ _ i s v hxn.2 h2 h3,
    foreigns_nil _ _ hfo i s v h2 h3⟩
  have hp := fines_present _ _ _ hfi.2.2 v (List.mem_of_getElem? h3)
  rcases typeds_get subs vs hty.2 i s v h2 h3 with h | h
  · rw [hp] at h; cases h
  · exact h

theorem Built.sound {fi s v} (h : Built fi s v) : Sound fi s v := by
  induction h with
  | leaf h1 h2 => exact ⟨by simpa only [Typed] using h1, by simpa only [Fine] using h2,
      by simpa [xnames] using scteNames_nil, by simp [foreign]⟩
  | ptr _ hn ih =>
    exact ⟨by simpa only [Typed] using ih.ty, by simpa only [Fine] using ⟨hn, ih.fine⟩, by simpa only [xnames] using ih.xn,
      by simpa only [foreign] using ih.fo⟩
  | new h =>
    simp only [newOk, Bool.and_eq_true, List.isEmpty_iff] at h
    exact ⟨zero_typed _ h.1.1.1, fineValB_sound _ _ _ h.1.1.2, by rw [h.1.2]; exact scteNames_nil, h.2⟩
  | named xv h =>
    simp only [namedOk, Bool.and_eq_true, List.isEmpty_iff, beq_iff_eq, bne_iff_ne] at h
    refine ⟨?_, fineValB_sound _ _ _ h.1.1.1.1.2, ?_, h.1.1.1.2⟩
    · have := zero_typed _ h.1.1.1.1.1
      simp only [Sch.zero, Val.withName, Typed] at this ⊢
      exact this
    · rw [h.1.1.2]
      intro n hn
      rw [List.mem_singleton.mp hn]
      exact ⟨h.1.2, h.2⟩
  | set i _ h1 h2 hm ha _ ih ihv => exact ih.set i h1 h2 hm ha ihv
  | append i _ h1 h2 hm ha h3 _ hn ih ihv =>
    refine ih.set i h1 h2 hm ha ?_
    have hl := ih.get i h1 h2 h3 hm
    have hty := hl.ty
    have hfi := hl.fine
    have hxn := hl.xn
    have hfo := hl.fo
    simp only [Typed] at hty
    simp only [Fine] at hfi
    simp only [xnames] at hxn
    simp only [foreign] at hfo
    refine ⟨?_, ?_, ?_, ?_⟩
    · simp only [Typed]
      intro w hw
      rcases List.mem_append.mp hw with hw | hw
      · exact hty w hw
      · rw [List.mem_singleton.mp hw]; exact ihv.ty
    · simp only [Fine]
      intro w hw
      rcases List.mem_append.mp hw with hw | hw
      · exact hfi w hw
      · rw [List.mem_singleton.mp hw]; exact ⟨hn, ihv.fine⟩
    · simp only [xnames, List.flatMap_append, scteNames_append]
      exact ⟨hxn, by simpa using ihv.xn⟩
    · simp only [foreign, List.flatMap_append, List.append_eq_nil_iff]
      exact ⟨hfo, by simpa using ihv.fo⟩

mutual
/-- No type in it takes its name from `XMLName`. -/
def Sch.unnamed : Sch → Bool
  | .ptr s => s.unnamed
  | .slice s => s.unnamed
  | .struct _ xn _ subs => !tagless xn && unnameds subs
  | _ => true
/-- The same for all fields. -/
def unnameds : List Sch → Bool
  | s :: ss => s.unnamed && unnameds ss
  | [] => true
end

mutual
theorem unnamed_xnames : ∀ (s : Sch) (v : Val), s.unnamed = true → xnames s v = []
  | .ptr s, v, h => by
    cases v with
    | ptr o =>
      cases o with
      | none => simp [xnames]
      | some v => simp only [xnames]; exact unnamed_xnames s v (by simpa only [Sch.unnamed] using h)
    | _ => simp [xnames]
  | .slice s, v, h => by
    cases v with
    | slice l =>
      simp only [xnames, List.flatMap_eq_nil_iff]
      exact fun v _ => unnamed_xnames s v (by simpa only [Sch.unnamed] using h)
    | _ => simp [xnames]
  | .struct tn xn F S, v, h => by
    cases v with
    | struct xv vs =>
      simp only [Sch.unnamed, Bool.and_eq_true, Bool.not_eq_true'] at h
      simp only [xnames, h.1]
      simpa using unnameds_xnamess S vs h.2
    | _ => simp [xnames]
  | .simple k, v, _ => by simp [xnames]
  | .attr, v, _ => by simp [xnames]
  | .name, v, _ => by simp [xnames]
  | .bad _, v, _ => by simp [xnames]
theorem unnameds_xnamess : ∀ (S : List Sch) (vs : List Val), unnameds S = true → xnamess S vs = []
  | [], vs, _ => by simp [xnamess]
  | s :: S, [], _ => by simp [xnamess]
  | s :: S, v :: vs, h => by
    simp only [unnameds, Bool.and_eq_true] at h
    simp only [xnamess, unnamed_xnames s v h.1, unnameds_xnamess S vs h.2, List.append_nil]
end

mutual
/-- Structs that contain elements that take their names from `XMLName`, and do not do so themselves, have no namespace. -/
def Sch.outer (fi : Option FInfo) : Sch → Bool
  | .ptr s => s.outer fi
  | .slice s => s.outer fi
  | .struct tn xn infos subs => (!tagless xn && unnameds subs) ||
      ((tagless xn || (startName xn ⟨[], []⟩ fi tn).space == []) && outers infos subs)
  | _ => true
/-- The same for all fields. -/
def outers : List FInfo → List Sch → Bool
  | f :: fs, s :: ss => s.outer (some f) && outers fs ss
  | _, _ => true
end

theorem mpd_outer : tMPD.sch.outer none = true := by decide +kernel

theorem scte35_ok : SpaceOk scte35NS := by
  intro _
  decide +kernel

theorem startName_tagless {xn : Option FInfo} {xv : Name} {fi : Option FInfo} {tn : Bytes} (h : tagless xn = true)
    (hl : xv.loc ≠ []) : startName xn xv fi tn = xv := by
  cases xn with
  | none => simp [tagless] at h
  | some x =>
    have : x.loc = [] := by simpa [tagless] using h
    simp [startName, this, hl]

theorem startName_tagged {xn : Option FInfo} {xv : Name} {fi : Option FInfo} {tn : Bytes} (h : tagless xn = false) :
    startName xn xv fi tn = startName xn ⟨[], []⟩ fi tn := by
  cases xn with
  | none => rfl
  | some x =>
    have : x.loc ≠ [] := by simpa [tagless] using h
    simp [startName, this]

mutual
theorem scte_ns (X : Pairs) (L : List Bytes) : ∀ (s : Sch) (D : Pairs) (ns : Bytes) (fi : Option FInfo) (v : Val), s.rt L = true →
    s.outer fi = true → (ns = [] ∨ ns = scte35NS) → Typed s v → ScteNames (xnames s v) → foreign s v = [] → NsOk X D ns fi s v
  | .ptr s, D, ns, fi, v, hr, ho, hns, ht, h1, h2 => by
    cases v with
    | ptr o =>
      cases o with
      | none => simp [NsOk]
      | some v =>
        simp only [xnames, foreign, NsOk, Typed, Sch.rt, Sch.outer] at h1 h2 ht hr ho ⊢
        exact scte_ns X L s D ns fi v hr ho hns ht h1 h2
    | _ => simp [Typed] at ht
  | .slice s, D, ns, fi, v, hr, ho, hns, ht, h1, h2 => by
    cases v with
    | slice l =>
      simp only [xnames, foreign, NsOk, Typed, Sch.rt, Sch.outer, List.flatMap_eq_nil_iff, scteNames_flatMap] at h1 h2 ht hr ho ⊢
      exact fun v hv => scte_ns X L s D ns fi v hr ho hns (ht v hv) (h1 v hv) (h2 v hv)
    | _ => simp [Typed] at ht
  | .struct tn xn F S, D, ns, fi, v, hr, ho, hns, ht, h1, h2 => by
    cases v with
    | struct xv vs =>
      by_cases hu : (Sch.struct tn xn F S).unnamed = true
      · exact plain_ns X L _ D ns fi _ hr ht (unnamed_xnames _ _ hu) h2
      have hu' : (!tagless xn && unnameds S) = false := by simpa only [Sch.unnamed, Bool.not_eq_true] using hu
      simp only [xnames, foreign, NsOk, Typed, Sch.rt, Sch.outer, hu', Bool.false_or, Bool.and_eq_true, scteNames_append]
        at h1 h2 ht hr ho ⊢
      have hst := StructRt.of hr.1.1
      have hsp : (startName xn xv fi tn).space = [] ∨ (startName xn xv fi tn).space = scte35NS := by
        cases hx : tagless xn with
        | true =>
          have := h1.1 xv (by simp [hx])
          rw [startName_tagless hx this.2]
          exact .inr this.1
        | false =>
          rw [startName_tagged hx]
          simp only [hx, Bool.false_or, beq_iff_eq] at ho
          exact .inl ho.1
      refine ⟨fun h => ?_, ?_, sctes_ns X L S _ _ F vs hr.2 ho.2 hsp ht.2 h1.2 h2⟩
      · have := h1.1 xv (by simp [h])
        rw [startName_tagless h this.2, this.1]
        exact ⟨hns.imp_right Eq.symm, scte35_ok⟩
      · intro i f l g1 g2 g3
        obtain ⟨s, hs⟩ := get_of_lt (l := S) (i := i) (by have := hst.len; have := lt_of_get g1; omega)
        have := foreigns_nil S vs h2 i s _ hs g3
        rw [fieldRt_any (hst.rt i f s g1 hs) g2] at this
        have hl : attrsIn l = [] := by
          simp only [foreign, List.flatMap_eq_nil_iff] at this
          unfold attrsIn
          rw [List.filterMap_eq_nil_iff]
          intro v hv
          have := this v hv
          cases v <;> simp [foreign] at this ⊢
        rw [hl]
        simp [AnyNss]
    | _ => simp [Typed] at ht
  | .simple k, D, ns, fi, v, _, _, _, _, _, _ => by simp [NsOk]
  | .attr, D, ns, fi, v, _, _, _, _, _, _ => by simp [NsOk]
  | .name, D, ns, fi, v, _, _, _, _, _, _ => by simp [NsOk]
  | .bad _, D, ns, fi, v, _, _, _, _, _, _ => by simp [NsOk]
theorem sctes_ns (X : Pairs) (L : List Bytes) : ∀ (S : List Sch) (D : Pairs) (ns : Bytes) (F : List FInfo) (vs : List Val),
    rts L S = true → outers F S = true → (ns = [] ∨ ns = scte35NS) → Typeds S vs → ScteNames (xnamess S vs) →
    foreigns S vs = [] → NsOks X D ns F S vs
  | [], D, ns, F, vs, _, _, _, _, _, _ => by cases F <;> simp [NsOks]
  | s :: S, D, ns, F, vs, hr, ho, hns, ht, h1, h2 => by
    cases F with
    | nil => simp [NsOks]
    | cons f F =>
      cases vs with
      | nil => simp [NsOks]
      | cons v vs =>
        simp only [xnamess, foreigns, NsOks, Typeds, rts, outers, Bool.and_eq_true, List.append_eq_nil_iff, scteNames_append]
          at h1 h2 ht hr ho ⊢
        refine ⟨?_, sctes_ns X L S D ns F vs hr.2 ho.2 hns ht.2 h1.2 h2.2⟩
        rcases ht.1 with h | h
        · cases v <;> simp [Val.isAbsent] at h
          cases s <;> simp [NsOk]
        · exact scte_ns X L s D ns (some f) v hr.1 ho.1 hns h h1.1 h2.1
end

/-- What is built meets the conditions on namespaces. -/
theorem Built.ns {v : Val} (h : Built none tMPD.sch v) : NsOk [] [] [] none tMPD.sch v :=
  scte_ns [] mpdLocs _ _ _ _ _ mpd_rt mpd_outer (.inl rfl) h.sound.ty h.sound.xn h.sound.fo

/-- C58: a manifest that is built by creating values, assigning fields and appending to lists is written without error and
read back as the same, with any indentation. -/
theorem C58_built (io : FloatIO) (hio : GoFloats io) (v : Val) (h : Built none tMPD.sch v) (indent : Bytes) (hind : IsWs indent)
    (hdr : Bool) : ∃ doc w, writeDoc io tMPD.sch v indent hdr = .ok doc ∧ unmarshalDoc io tMPD.sch doc = .ok w ∧
      Returned indent tMPD.sch v w :=
  C30_values_partial io hio indent hind hdr [] vodVal_ok.2.2.2.2 v h.sound.ty h.sound.fine h.ns

/-! ### Model: the constructors -/

/-- The fields of a struct type. -/
def Sch.infos : Sch → List FInfo
  | .struct _ _ infos _ => infos
  | _ => []

/-- Their types. -/
def Sch.subs : Sch → List Sch
  | .struct _ _ _ subs => subs
  | _ => []

def Sch.isRecord : Sch → Bool
  | .struct _ _ _ _ => true
  | _ => false

/-- Where the field with a given name in its tag is. -/
def locate (s : Sch) (m : Mode) (loc : Bytes) : Nat := s.infos.findIdx fun f => f.mode == m && f.loc == loc

/-- `x.F = v`, the field given by the name in its tag. -/
def assign (s : Sch) (m : Mode) (loc : Bytes) (v : Val) : Val → Val
  | .struct xv vs => .struct xv (vs.set (locate s m loc) v)
  | w => w

/-- `x.F = append(x.F, &v)`. -/
def push (s : Sch) (loc : Bytes) (v : Val) : Val → Val
  | .struct xv vs =>
    match vs[locate s .elem loc]? with
    | some (.slice l) => .struct xv (vs.set (locate s .elem loc) (.slice (l ++ [.ptr (some v)])))
    | _ => .struct xv vs
  | w => w

/-- The conversion `uint32(n)` of an int. -/
def toU32 (n : Int) : Nat := (n % 2 ^ 32).toNat

/-- `NewMPD` (`/repo/mpd/mpd.go` 1117-1122); the namespace is line 37. -/
def newMPD (typ : Bytes) : Val :=
  assign tMPD.sch .attr (b!"xmlns") (.str (b!"urn:mpeg:dash:schema:mpd:2011"))
    (assign tMPD.sch .attr (b!"type") (.ptr (some (.str typ))) tMPD.sch.zero)

/-- `NewPeriod` (`/repo/mpd/mpd.go` 1125-1127). -/
def newPeriod : Val := tPeriod.sch.zero

/-- `NewAdaptationSet` (`/repo/mpd/mpd.go` 1130-1132). -/
def newAdaptationSet : Val := tAdaptationSetType.sch.zero

/-- `NewAdaptationSetWithParams` (`/repo/mpd/mpd.go` 1134-1143). -/
def newAdaptationSetWithParams (contentType mimeType : Bytes) (segmentAlignment : Bool) (startWithSAP : Nat) : Val :=
  let s := tAdaptationSetType.sch
  assign s .attr (b!"contentType") (.str contentType) (assign s .attr (b!"segmentAlignment") (.bool segmentAlignment)
    (assign s .attr (b!"startWithSAP") (.uint startWithSAP) (assign s .attr (b!"mimeType") (.str mimeType) s.zero)))

/-- `NewRepresentation` (`/repo/mpd/mpd.go` 1146-1148). -/
def newRepresentation : Val := tRepresentationType.sch.zero

/-- `NewRepresentationWithID` (`/repo/mpd/mpd.go` 1151-1161). -/
def newRepresentationWithID (id codec mimeType : Bytes) (bandwidth : Int) : Val :=
  let s := tRepresentationType.sch
  assign s .attr (b!"bandwidth") (.uint (toU32 bandwidth)) (assign s .attr (b!"id") (.str id)
    (assign s .attr (b!"mimeType") (.str mimeType) (assign s .attr (b!"codecs") (.str codec) s.zero)))

/-- `NewAudioRepresentation` (`/repo/mpd/mpd.go` 1164-1168); `Sprintf("%d", n)` is the decimal text of `n`. -/
def newAudioRepresentation (id codec mimeType : Bytes) (bandwidth audioSamplingRate : Int) : Val :=
  assign tRepresentationType.sch .attr (b!"audioSamplingRate") (.ptr (some (.str (Strconv.formatInt audioSamplingRate))))
    (newRepresentationWithID id codec mimeType bandwidth)

/-- `NewVideoRepresentation` (`/repo/mpd/mpd.go` 1171-1177). -/
def newVideoRepresentation (id codec mimeType frameRate : Bytes) (bandwidth width height : Int) : Val :=
  let s := tRepresentationType.sch
  assign s .attr (b!"height") (.uint (toU32 height)) (assign s .attr (b!"width") (.uint (toU32 width))
    (assign s .attr (b!"frameRate") (.str frameRate) (newRepresentationWithID id codec mimeType bandwidth)))

/-- `NewDescriptor` (`/repo/mpd/mpd.go` 963-969). -/
def newDescriptor (schemeIdUri value id : Bytes) : Val :=
  let s := tDescriptorType.sch
  assign s .attr (b!"id") (.str id) (assign s .attr (b!"value") (.str value)
    (assign s .attr (b!"schemeIdUri") (.str schemeIdUri) s.zero))

/-- `NewRole` (`/repo/mpd/mpd.go` 971-973). -/
def newRole (value : Bytes) : Val := newDescriptor (b!"urn:mpeg:dash:role:2011") value []

/-- `NewBaseURL` (`/repo/mpd/mpd.go` 936-940). -/
def newBaseURL (value : Bytes) : Val := assign tBaseURLType.sch .chardata (b!"Value") (.str value) tBaseURLType.sch.zero

/-- `AppendPeriod` (`/repo/mpd/parents.go` 21-24), without the parent pointer, which is not written. -/
def appendPeriod (m p : Val) : Val := push tMPD.sch (b!"Period") p m

/-- `AppendAdaptationSet` (`/repo/mpd/parents.go` 40-43), likewise. -/
def appendAdaptationSet (p a : Val) : Val := push tPeriod.sch (b!"AdaptationSet") a p

/-- `AppendRepresentation` (`/repo/mpd/parents.go` 56-59), likewise. -/
def appendRepresentation (a r : Val) : Val := push tAdaptationSetType.sch (b!"Representation") r a

/-! ### What the constructors give is built -/

theorem isRecord_eta : ∀ s : Sch, s.isRecord = true → ∃ tn xn, s = .struct tn xn s.infos s.subs
  | .struct tn xn _ _, _ => ⟨tn, xn, rfl⟩
  | .simple _, h => by simp [Sch.isRecord] at h
  | .ptr _, h => by simp [Sch.isRecord] at h
  | .slice _, h => by simp [Sch.isRecord] at h
  | .name, h => by simp [Sch.isRecord] at h
  | .attr, h => by simp [Sch.isRecord] at h
  | .bad _, h => by simp [Sch.isRecord] at h

/-- The type of the field with a given name, if it has one that can be assigned. -/
def fieldAt (s : Sch) (m : Mode) (loc : Bytes) : Option (FInfo × Sch) :=
  if m = .innerxml ∨ m = .anyAttr then none else
  match s.infos[locate s m loc]?, s.subs[locate s m loc]? with
  | some f, some t => if f.mode = m then some (f, t) else none
  | _, _ => none

theorem fieldAt_some {s : Sch} {m : Mode} {loc : Bytes} {f : FInfo} {t : Sch} (h : fieldAt s m loc = some (f, t)) :
    s.infos[locate s m loc]? = some f ∧ s.subs[locate s m loc]? = some t ∧ f.mode ≠ .innerxml ∧ f.mode ≠ .anyAttr := by
  unfold fieldAt at h
  split_ifs at h with hm
  push Not at hm
  split at h
  · rename_i f' t' h1 h2
    split_ifs at h with h3
    injection h with h
    injection h with ha hb
    subst ha; subst hb
    exact ⟨h1, h2, by rw [h3]; exact hm.1, by rw [h3]; exact hm.2⟩
  · cases h

theorem built_struct {fi s v} (hs : s.isRecord = true) (h : Built fi s v) : ∃ xv vs, v = .struct xv vs := by
  obtain ⟨tn, xn, e⟩ := isRecord_eta s hs
  have := h.sound.ty
  rw [e] at this
  cases v <;> simp [Typed] at this
  exact ⟨_, _, rfl⟩

theorem new_built {fi : Option FInfo} {s : Sch} (hs : s.isRecord = true) (h : newOk fi s = true) : Built fi s s.zero := by
  obtain ⟨tn, xn, e⟩ := isRecord_eta s hs
  rw [e] at h ⊢
  exact .new h

theorem assign_built {fi s w m loc f t v} (hs : s.isRecord = true) (h : Built fi s w) (hf : fieldAt s m loc = some (f, t))
    (hv : Built (some f) t v) : Built fi s (assign s m loc v w) := by
  obtain ⟨xv, vs, rfl⟩ := built_struct hs h
  obtain ⟨h1, h2, h3, h4⟩ := fieldAt_some hf
  obtain ⟨tn, xn, e⟩ := isRecord_eta s hs
  unfold assign
  dsimp only
  rw [e] at h
  have := Built.set (locate s m loc) h h1 h2 h3 h4 hv
  rw [← e] at this
  exact this

theorem push_built {fi s w loc f t v} (hs : s.isRecord = true) (h : Built fi s w)
    (hf : fieldAt s .elem loc = some (f, .slice (.ptr t))) (hv : Built (some f) t v) (ht : t.isRecord = true) :
    Built fi s (push s loc v w) := by
  obtain ⟨xv, vs, rfl⟩ := built_struct hs h
  obtain ⟨h1, h2, h3, h4⟩ := fieldAt_some hf
  obtain ⟨tn, xn, e⟩ := isRecord_eta s hs
  obtain ⟨xv', vs', rfl⟩ := built_struct ht hv
  unfold push
  dsimp only
  split
  · rename_i l hl
    rw [e] at h
    have := Built.append (locate s .elem loc) h h1 h2 h3 h4 hl (.ptr hv rfl) rfl
    rw [← e] at this
    exact this
  · exact h

/-- A simple field. -/
theorem assign_leaf {fi s w m loc k v} (hs : s.isRecord = true) (h : Built fi s w)
    (hf : (fieldAt s m loc).map (·.2) = some (.simple k)) (h1 : KindOk k v) (h2 : LeafFine k v) :
    Built fi s (assign s m loc v w) := by
  cases e : fieldAt s m loc with
  | none => rw [e] at hf; cases hf
  | some p =>
    obtain ⟨f, t⟩ := p
    rw [e] at hf
    have : t = .simple k := by simpa using hf
    subst this
    exact assign_built hs h e (.leaf h1 h2)

/-- A pointer to a simple value. -/
theorem assign_ptr {fi s w m loc k v} (hs : s.isRecord = true) (h : Built fi s w)
    (hf : (fieldAt s m loc).map (·.2) = some (.ptr (.simple k))) (h1 : KindOk k v) (h2 : LeafFine k v) (hn : v.isNil = false) :
    Built fi s (assign s m loc (.ptr (some v)) w) := by
  cases e : fieldAt s m loc with
  | none => rw [e] at hf; cases hf
  | some p =>
    obtain ⟨f, t⟩ := p
    rw [e] at hf
    have : t = .ptr (.simple k) := by simpa using hf
    subst this
    exact assign_built hs h e (.ptr (.leaf h1 h2) hn)

/-- The manifests that the constructors and the append methods give, from texts of XML characters. -/
inductive RepNew : Val → Prop
  | empty : RepNew newRepresentation
  | id (i c m b) : IsXmlText i → IsXmlText c → IsXmlText m → RepNew (newRepresentationWithID i c m b)
  | audio (i c m b r) : IsXmlText i → IsXmlText c → IsXmlText m → RepNew (newAudioRepresentation i c m b r)
  | video (i c m f b w h) : IsXmlText i → IsXmlText c → IsXmlText m → IsXmlText f → RepNew (newVideoRepresentation i c m f b w h)
  | base (r u) : RepNew r → IsXmlText u → RepNew (push tRepresentationType.sch (b!"BaseURL") (newBaseURL u) r)

/-- Adaptation sets. -/
inductive SetNew : Val → Prop
  | empty : SetNew newAdaptationSet
  | params (c m a n) : IsXmlText c → IsXmlText m → n < 2 ^ 32 → SetNew (newAdaptationSetWithParams c m a n)
  | role (a v) : SetNew a → IsXmlText v → SetNew (push tAdaptationSetType.sch (b!"Role") (newRole v) a)
  | rep (a r) : SetNew a → RepNew r → SetNew (appendRepresentation a r)

/-- Periods. -/
inductive PeriodNew : Val → Prop
  | empty : PeriodNew newPeriod
  | set (p a) : PeriodNew p → SetNew a → PeriodNew (appendAdaptationSet p a)

/-- Manifests. -/
inductive MPDNew : Val → Prop
  | new (t) : IsXmlText t → MPDNew (newMPD t)
  | period (m p) : MPDNew m → PeriodNew p → MPDNew (appendPeriod m p)

theorem str_leaf {b : Bytes} (h : IsXmlText b) : LeafFine .str (.str b) := clean_of_xmlText b h

theorem toU32_lt (n : Int) : toU32 n < 2 ^ 32 := by unfold toU32; omega

/-- The field that was found. -/
def fieldOf : Option (FInfo × Sch) → FInfo
  | some p => p.1
  | none => ⟨[], [], [], .elem, false, 0, none⟩

theorem assign_str {fi s w m loc b} (hs : s.isRecord = true) (h : Built fi s w)
    (hf : (fieldAt s m loc).map (·.2) = some (.simple .str)) (hb : IsXmlText b) : Built fi s (assign s m loc (.str b) w) :=
  assign_leaf hs h hf trivial (str_leaf hb)

theorem assign_u32 {fi s w m loc n} (hs : s.isRecord = true) (h : Built fi s w)
    (hf : (fieldAt s m loc).map (·.2) = some (.simple (.uint 32))) (hn : n < 2 ^ 32) : Built fi s (assign s m loc (.uint n) w) :=
  assign_leaf hs h hf hn trivial

theorem assign_bool {fi s w m loc a} (hs : s.isRecord = true) (h : Built fi s w)
    (hf : (fieldAt s m loc).map (·.2) = some (.simple .bool)) : Built fi s (assign s m loc (.bool a) w) :=
  assign_leaf hs h hf trivial trivial

theorem assign_pstr {fi s w m loc b} (hs : s.isRecord = true) (h : Built fi s w)
    (hf : (fieldAt s m loc).map (·.2) = some (.ptr (.simple .str))) (hb : clean b = b) :
    Built fi s (assign s m loc (.ptr (some (.str b))) w) :=
  assign_ptr hs h hf trivial hb rfl

/-- The fields that hold lists of elements. -/
def fPeriod : FInfo := fieldOf (fieldAt tMPD.sch .elem (b!"Period"))
def fSet : FInfo := fieldOf (fieldAt tPeriod.sch .elem (b!"AdaptationSet"))
def fRep : FInfo := fieldOf (fieldAt tAdaptationSetType.sch .elem (b!"Representation"))
def fRole : FInfo := fieldOf (fieldAt tAdaptationSetType.sch .elem (b!"Role"))
def fBase : FInfo := fieldOf (fieldAt tRepresentationType.sch .elem (b!"BaseURL"))

theorem repNew_built {v : Val} (h : RepNew v) : Built (some fRep) tRepresentationType.sch v := by
  have hs : tRepresentationType.sch.isRecord = true := by decide +kernel
  have h0 : Built (some fRep) tRepresentationType.sch newRepresentation := new_built hs (by decide +kernel)
  have hid : ∀ i c m b, IsXmlText i → IsXmlText c → IsXmlText m →
      Built (some fRep) tRepresentationType.sch (newRepresentationWithID i c m b) := fun i c m b hi hc hm =>
    assign_u32 hs (assign_str hs (assign_str hs (assign_str hs h0 (by krfl) hc) (by krfl) hm) (by krfl) hi) (by krfl) (toU32_lt b)
  induction h with
  | empty => exact h0
  | id i c m b hi hc hm => exact hid i c m b hi hc hm
  | audio i c m b r hi hc hm =>
    exact assign_pstr hs (hid i c m b hi hc hm) (by krfl) (graphic_clean _ (formatInt_graphic r))
  | video i c m f b w h hi hc hm hf =>
    exact assign_u32 hs (assign_u32 hs (assign_str hs (hid i c m b hi hc hm) (by krfl) hf) (by krfl) (toU32_lt w)) (by krfl)
      (toU32_lt h)
  | base r u _ hu ih =>
    have hb : tBaseURLType.sch.isRecord = true := by decide +kernel
    exact push_built hs ih (f := fBase) (t := tBaseURLType.sch) (by krfl)
      (assign_str hb (new_built hb (by decide +kernel)) (by krfl) hu) hb

theorem setNew_built {v : Val} (h : SetNew v) : Built (some fSet) tAdaptationSetType.sch v := by
  have hs : tAdaptationSetType.sch.isRecord = true := by decide +kernel
  have h0 : Built (some fSet) tAdaptationSetType.sch newAdaptationSet := new_built hs (by decide +kernel)
  induction h with
  | empty => exact h0
  | params c m a n hc hm hn =>
    exact assign_str hs (assign_bool hs (assign_u32 hs (assign_str hs h0 (by krfl) hm) (by krfl) hn) (by krfl)) (by krfl) hc
  | role a v _ hv ih =>
    have hd : tDescriptorType.sch.isRecord = true := by decide +kernel
    exact push_built hs ih (f := fRole) (t := tDescriptorType.sch) (by krfl)
      (assign_str hd (assign_str hd (assign_str hd (new_built hd (by decide +kernel)) (by krfl) (by decide +kernel))
        (by krfl) hv) (by krfl) xmlText_nil) hd
  | rep a r _ hr ih =>
    exact push_built hs ih (f := fRep) (t := tRepresentationType.sch) (by krfl) (repNew_built hr) (by decide +kernel)

theorem periodNew_built {v : Val} (h : PeriodNew v) : Built (some fPeriod) tPeriod.sch v := by
  have hs : tPeriod.sch.isRecord = true := by decide +kernel
  induction h with
  | empty => exact new_built hs (by decide +kernel)
  | set p a _ ha ih =>
    exact push_built hs ih (f := fSet) (t := tAdaptationSetType.sch) (by krfl) (setNew_built ha) (by decide +kernel)

theorem mpdNew_built {v : Val} (h : MPDNew v) : Built none tMPD.sch v := by
  have hs : tMPD.sch.isRecord = true := by decide +kernel
  induction h with
  | new t ht =>
    exact assign_str hs (assign_pstr hs (new_built hs (by decide +kernel)) (by krfl) (clean_of_xmlText t ht)) (by krfl)
      (by decide +kernel)
  | period m p _ hp ih =>
    exact push_built hs ih (f := fPeriod) (t := tPeriod.sch) (by krfl) (periodNew_built hp) (by decide +kernel)

/-- C58: a manifest made with the constructors and append methods, from any texts of XML characters and any numbers, is
written without error and read back as the same, with any indentation. -/
theorem C58_constructors (io : FloatIO) (hio : GoFloats io) (v : Val) (h : MPDNew v) (indent : Bytes) (hind : IsWs indent)
    (hdr : Bool) : ∃ doc w, writeDoc io tMPD.sch v indent hdr = .ok doc ∧ unmarshalDoc io tMPD.sch doc = .ok w ∧
      Returned indent tMPD.sch v w := C58_built io hio v (mpdNew_built h) indent hind hdr

/-- A manifest made with the constructors. -/
def builtVal : Val :=
  appendPeriod (newMPD (b!"static")) (appendAdaptationSet newPeriod (appendRepresentation
    (push tAdaptationSetType.sch (b!"Role") (newRole (b!"main")) (newAdaptationSetWithParams (b!"video") (b!"video/mp4") true 1))
    (push tRepresentationType.sch (b!"BaseURL") (newBaseURL (b!"a&b.mp4"))
      (newVideoRepresentation (b!"v<1>") (b!"avc1") (b!"video/mp4") (b!"25") 500000 640 (-1)))))

example : MPDNew builtVal :=
  .period _ _ (.new _ (by decide +kernel)) (.set _ _ .empty (.rep _ _ (.role _ _
    (.params _ _ _ _ (by decide +kernel) (by decide +kernel) (by omega)) (by decide +kernel))
    (.base _ _ (.video _ _ _ _ _ _ _ (by decide +kernel) (by decide +kernel) (by decide +kernel) (by decide +kernel))
      (by decide +kernel))))

/-- It is written as this; a negative height has wrapped around. -/
example (io : FloatIO) : writeDoc io tMPD.sch builtVal [] false = .ok (b!"<MPD xmlns=\"urn:mpeg:dash:schema:mpd:2011\" profiles=\"\" type=\"static\"><Period><AdaptationSet contentType=\"video\" segmentAlignment=\"true\" mimeType=\"video/mp4\" startWithSAP=\"1\"><Role schemeIdUri=\"urn:mpeg:dash:role:2011\" value=\"main\"></Role><Representation id=\"v&lt;1&gt;\" bandwidth=\"500000\" width=\"640\" height=\"4294967295\" frameRate=\"25\" mimeType=\"video/mp4\" codecs=\"avc1\"><BaseURL>a&amp;b.mp4</BaseURL></Representation></AdaptationSet></Period></MPD>") := by
  krfl

mutual
/-- The struct types and the names of the fields they are in, whose new values do not meet `newOk`. -/
def notNew (fi : Option FInfo) : Sch → List (Bytes × Option Bytes)
  | .ptr s => notNew fi s
  | .slice s => notNew fi s
  | .struct tn xn infos subs =>
    (if newOk fi (.struct tn xn infos subs) || tagless xn then [] else [(tn, fi.map (·.loc))]) ++ notNews infos subs
  | _ => []
/-- The same for all fields. -/
def notNews : List FInfo → List Sch → List (Bytes × Option Bytes)
  | fi :: fis, s :: ss => notNew (some fi) s ++ notNews fis ss
  | _, _ => []
end

/-- C58: a new value of any type can be used in any field of its type, except for types that take their name from the value
(SCTE-35), two types with embedded pointers, and fields that are misnamed (C40). -/
theorem C58_new : ∀ p ∈ notNew none tMPD.sch, p ∈ [(b!"UIntPairsWithIDType", some (b!"QualityLatency")),
    (b!"AlternativeMPDReplaceEventType", some (b!"ReplacePresentation")), (b!"LabelType", some (b!"GroupLabel")),
    (b!"UIntVWithIDType", some (b!"InitializationGroup")), (b!"UIntVWithIDType", some (b!"InitializationPresentation"))] := by
  decide +kernel

end Verif.Bind

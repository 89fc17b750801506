import Verif.TidyProps
import Verif.SaysProps

/-!
C82: a written manifest can be read exactly if no duration in it is negative.

A type is compared with one in which the durations of attributes are strings (`Sch.txt`): the document of a value is that of the
value with the texts of its durations (`txtV`), which is read by C30, and reading the durations themselves differs from that
only in the calls of `ParseDuration`.
-/
namespace Verif.Bind

open Verif Verif.Xml Verif.FloatText

/-! ### Durations as strings -/

/-- The type of an attribute, with strings for durations. -/
def attrTxt : Sch → Sch
  | .simple .duration => .simple .str
  | .ptr (.simple .duration) => .ptr (.simple .str)
  | s => s

mutual
/-- A type with strings for the durations of attributes. -/
def Sch.txt : Sch → Sch
  | .ptr s => .ptr s.txt
  | .slice s => .slice s.txt
  | .struct tn xn infos subs => .struct tn xn infos (txts infos subs)
  | s => s
/-- The same for fields. -/
def txts : List FInfo → List Sch → List Sch
  | fi :: fis, s :: ss => (if fi.mode = .attr then attrTxt s else if fi.mode = .elem then s.txt else s) :: txts fis ss
  | _, ss => ss
end

/-- The text of a duration. -/
def durStr (i : Int) : Bytes := (Duration.goString i).getD []

/-- The value of an attribute, with the texts of durations; zero is not written. -/
def attrTextV : Sch → Val → Val
  | .simple .duration, .int i => .str (if i = 0 then [] else durStr i)
  | .ptr (.simple .duration), .ptr (some (.int i)) => .ptr (some (.str (durStr i)))
  | _, v => v

mutual
/-- A value with the texts of the durations of attributes. -/
def txtV : Sch → Val → Val
  | .ptr s, .ptr (some v) => .ptr (some (txtV s v))
  | .slice s, .slice l => .slice (l.map (txtV s))
  | .struct _ _ infos subs, .struct xv vs => .struct xv (txtVs infos subs vs)
  | _, v => v
/-- The same for fields. -/
def txtVs : List FInfo → List Sch → List Val → List Val
  | fi :: fis, s :: ss, v :: vs =>
    (if fi.mode = .attr then attrTextV s v else if fi.mode = .elem then txtV s v else v) :: txtVs fis ss vs
  | _, _, vs => vs
end

/-- The conditions on an attribute: one that is a duration and not a pointer is omitted if it is zero, and none is a list of
durations. -/
def durAttr (fi : FInfo) : Sch → Bool
  | .simple k => k != .duration || (fi.omitE && !keeps fi)
  | .ptr (.simple k) => k != .duration || !keeps fi
  | .ptr (.slice (.simple k)) => k != .duration
  | _ => false

/-- The type of other attributes. -/
def isAttrs : Sch → Bool
  | .slice .attr => true
  | _ => false

/-- A string. -/
def isStr : Sch → Bool
  | .simple .str => true
  | _ => false

/-- The conditions on a field. -/
def durTag (fi : FInfo) (s : Sch) : Bool :=
  match fi.mode with
  | .attr => durAttr fi s
  | .elem => true
  | .anyAttr => isAttrs s
  | _ => isStr s

mutual
/-- The conditions on the type of an element: durations are attributes. -/
def Sch.durOk : Sch → Bool
  | .simple k => k != .duration
  | .ptr s => s.durOk
  | .slice s => s.durOk
  | .struct _ _ infos subs => durOks infos subs
  | .bad _ => false
  | _ => true
/-- The same for fields. -/
def durOks : List FInfo → List Sch → Bool
  | fi :: fis, s :: ss => durTag fi s && (fi.mode != .elem || s.durOk) && durOks fis ss
  | _, _ => true
end

/-! ### Writing -/

theorem txtV_absent (s : Sch) (v : Val) : (txtV s v).isAbsent = v.isAbsent := by
  unfold txtV
  split <;> rfl

theorem txtV_nil (s : Sch) (v : Val) : (txtV s v).isNil = v.isNil := by
  unfold txtV
  split
  · rfl
  · rename_i l
    cases l <;> rfl
  · rfl
  · rfl

theorem isEmpty_txt (s : Sch) (v : Val) : isEmpty s.txt (txtV s v) = isEmpty s v := by
  cases s <;> cases v <;> simp only [Sch.txt, txtV, isEmpty]
  · rename_i o; cases o <;> simp [txtV]
  · simp

theorem omits_txt (fi : Option FInfo) (s : Sch) (v : Val) : omits fi s.txt (txtV s v) = omits fi s v := by
  unfold omits
  split
  · rfl
  · rw [isEmpty_txt]

theorem durStr_some {i : Int} (h : IsI64 i) : Duration.goString i = some (durStr i) := by
  obtain ⟨s, hs, -⟩ := Duration.C02_string_total i h
  unfold durStr
  rw [hs]; rfl

theorem durStr_ne {i : Int} (h : IsI64 i) : durStr i ≠ [] := by
  have hs := durStr_some h
  by_cases h0 : i = 0
  · subst h0; decide
  · obtain ⟨H, M, S, sv, -, he⟩ := Duration.goString_form i h h0
    rw [hs] at he
    injection he with he
    rw [he]
    simp

/-- Either a duration, a pointer to one, or an attribute that is the same in both types. -/
theorem attr_cases (s : Sch) : s = .simple .duration ∨ s = .ptr (.simple .duration) ∨
    (attrTxt s = s ∧ ∀ v, attrTextV s v = v) := by
  by_cases h1 : s = .simple .duration
  · exact Or.inl h1
  by_cases h2 : s = .ptr (.simple .duration)
  · exact Or.inr (Or.inl h2)
  refine Or.inr (Or.inr ⟨?_, fun v => ?_⟩)
  · unfold attrTxt
    split
    · exact absurd rfl h1
    · exact absurd rfl h2
    · rfl
  · unfold attrTextV
    split
    · exact absurd rfl h1
    · exact absurd rfl h2
    · rfl

theorem marshalAttrs_txt (io : FloatIO) : ∀ (F : List FInfo) (S : List Sch) (vs : List Val), durOks F S = true → Typeds S vs →
    marshalAttrs io F (txts F S) (txtVs F S vs) = marshalAttrs io F S vs
  | [], S, vs, _, _ => by simp [marshalAttrs]
  | fi :: F, [], vs, _, _ => by simp [marshalAttrs, txts]
  | fi :: F, s :: S, [], _, _ => by simp [marshalAttrs, txtVs]
  | fi :: F, s :: S, v :: vs, hd, ht => by
    simp only [durOks, Bool.and_eq_true] at hd
    simp only [Typeds] at ht
    have ih := marshalAttrs_txt io F S vs hd.2 ht.2
    simp only [txts, txtVs, marshalAttrs, ih]
    by_cases hm : fi.mode = .attr
    swap
    · by_cases he : fi.mode = .elem
      · simp [he]
      · simp only [hm, he, if_false]
    simp only [hm, if_true, true_or]
    rcases attr_cases s with rfl | rfl | ⟨e1, e2⟩
    · have ho : fi.omitE = true := by
        have := hd.1.1
        simp only [durTag, hm, durAttr, bne_self_eq_false, Bool.false_or, Bool.and_eq_true] at this
        exact this.1
      rcases ht.1 with ha | ha
      · cases v <;> simp [Val.isAbsent] at ha
        simp [attrTextV, Val.isAbsent, ho]
      · simp only [Typed] at ha
        cases v <;> simp only [KindOk] at ha
        rename_i i
        by_cases h0 : i = 0
        · subst h0
          simp [attrTextV, attrTxt, isEmpty, ho]
        · simp [attrTextV, attrTxt, isEmpty, ho, h0, durStr_ne ha, Val.isAbsent, marshalAttr, simpleAttr, marshalSimple,
            durStr_some ha]
    · rcases ht.1 with ha | ha
      · cases v <;> simp [Val.isAbsent] at ha
        simp [attrTextV, attrTxt, Val.isAbsent, isEmpty, marshalAttr]
      · cases v with
        | ptr o =>
          cases o with
          | none => simp [attrTextV, attrTxt, isEmpty, Val.isAbsent, marshalAttr]
          | some v =>
            simp only [Typed] at ha
            cases v <;> simp only [KindOk] at ha
            rename_i i
            simp [attrTextV, attrTxt, isEmpty, Val.isAbsent, marshalAttr, simpleAttr, marshalSimple, durStr_some ha]
        | _ => simp [Typed] at ha
    · rw [e1, e2]

mutual
/-- A value is written as the texts of its durations are. -/
theorem marshalV_txt (io : FloatIO) : ∀ (s : Sch) (v : Val) (ns : Bytes) (fi : Option FInfo), s.durOk = true → Typed s v →
    marshalV io ns fi s.txt (txtV s v) = marshalV io ns fi s v
  | .simple k, v, ns, fi, _, _ => by simp only [Sch.txt, txtV]
  | .ptr s, v, ns, fi, hd, ht => by
    cases v with
    | ptr o =>
      cases o with
      | none => simp only [Sch.txt, txtV, marshalV]
      | some v =>
        simp only [Sch.durOk] at hd
        simp only [Typed] at ht
        simp only [Sch.txt, txtV, marshalV]
        exact marshalV_txt io s v ns fi hd ht
    | _ => simp [Typed] at ht
  | .slice s, v, ns, fi, hd, ht => by
    cases v with
    | slice l =>
      simp only [Sch.durOk] at hd
      simp only [Typed] at ht
      simp only [Sch.txt, txtV, marshalV, List.map_map]
      congr 1
      refine List.map_congr_left fun v hv => ?_
      simp only [Function.comp, omits_txt]
      rw [marshalV_txt io s v ns fi hd (ht v hv)]
    | _ => simp [Typed] at ht
  | .name, v, ns, fi, _, _ => by simp only [Sch.txt, txtV]
  | .attr, v, ns, fi, _, _ => by simp only [Sch.txt, txtV]
  | .bad e, v, ns, fi, _, ht => by simp [Typed] at ht
  | .struct tn xn F S, v, ns, fi, hd, ht => by
    cases v with
    | struct xv vs =>
      simp only [Sch.durOk] at hd
      simp only [Typed] at ht
      simp only [Sch.txt, txtV, marshalV]
      rw [marshalAttrs_txt io F S vs hd ht.2, marshalFields_txt io F S vs _ hd ht.2]
    | _ => simp [Typed] at ht
theorem marshalFields_txt (io : FloatIO) : ∀ (F : List FInfo) (S : List Sch) (vs : List Val) (ns : Bytes), durOks F S = true →
    Typeds S vs → marshalFields io ns F (txts F S) (txtVs F S vs) = marshalFields io ns F S vs
  | [], S, vs, ns, _, _ => by simp [marshalFields]
  | fi :: F, [], vs, ns, _, _ => by simp [marshalFields, txts]
  | fi :: F, s :: S, [], ns, _, _ => by simp [marshalFields, txtVs]
  | fi :: F, s :: S, v :: vs, ns, hd, ht => by
    simp only [durOks, Bool.and_eq_true] at hd
    simp only [Typeds] at ht
    have ih := marshalFields_txt io F S vs ns hd.2 ht.2
    simp only [txts, txtVs, marshalFields, ih]
    by_cases hm : fi.mode = .attr
    · simp [fieldItems, hm]
    by_cases he : fi.mode = .elem
    swap
    · simp only [hm, he, if_false]
    simp only [he, if_true, reduceCtorEq, if_false]
    have e : fieldItems io fi s.txt (txtV s v) (marshalV io ns (some fi) s.txt (txtV s v)) =
        fieldItems io fi s v (marshalV io ns (some fi) s v) := by
      simp only [fieldItems, he, txtV_absent, omits_txt, reduceCtorEq, false_or, if_false]
      rcases ht.1 with ha | ha
      · simp [ha]
      · rw [marshalV_txt io s v ns (some fi) (by simpa [he] using hd.1.2) ha]
    rw [e]
end

/-! ### The conditions of C30 -/

mutual
/-- `Rough` without the condition on durations. -/
def Undur (fi : Option FInfo) : Sch → Val → Prop
  | .simple k, v => k = .str ∨ k = .duration ∨ LeafFine k v
  | .ptr _, .ptr none => True
  | .ptr s, .ptr (some v) => Undur fi s v
  | .slice s, .slice l => ∀ v ∈ l, Undur fi s v
  | .attr, .attr a => NCName a.name.loc ∧ (IsDecl a → clean a.value = a.value)
  | .struct tn xn infos subs, .struct xv vs =>
    NameOk fi xn (startName xn xv fi tn) ∧ AnyOk infos vs ∧ Undurs infos subs vs
  | _, _ => False
/-- The same for all fields. -/
def Undurs : List FInfo → List Sch → List Val → Prop
  | fi :: fis, s :: ss, v :: vs => v.isAbsent = false ∧
    ((keeps fi = false → Undur (some fi) s v) ∧ (keeps fi = true → fi.mode ≠ .innerxml → Fine (some fi) s v) ∧
      (fi.mode = .innerxml → InnerVal v)) ∧ Undurs fis ss vs
  | [], [], [] => True
  | _, _, _ => False
end

mutual
/-- The durations in a value. -/
def durs : Sch → Val → List Int
  | .simple .duration, .int i => [i]
  | .ptr s, .ptr (some v) => durs s v
  | .slice s, .slice l => l.flatMap (durs s)
  | .struct _ _ _ subs, .struct _ vs => dursL subs vs
  | _, _ => []
/-- The same for all fields. -/
def dursL : List Sch → List Val → List Int
  | s :: ss, v :: vs => durs s v ++ dursL ss vs
  | _, _ => []
end

mutual
/-- A value without negative durations meets the conditions of C30. -/
theorem undur_rough : ∀ (s : Sch) (v : Val) (fi : Option FInfo), Typed s v → Undur fi s v → (∀ i ∈ durs s v, 0 ≤ i) → Rough fi s v
  | .simple k, v, fi, ht, hu, hd => by
    simp only [Undur, Rough, Typed] at hu ht ⊢
    rcases hu with h | rfl | h
    · exact Or.inl h
    · cases v <;> simp only [KindOk] at ht
      exact Or.inr ⟨ht, hd _ (by simp [durs])⟩
    · exact Or.inr h
  | .ptr s, v, fi, ht, hu, hd => by
    cases v with
    | ptr o =>
      cases o with
      | none => simp [Rough]
      | some v =>
        simp only [Undur, Rough, Typed, durs] at hu ht hd ⊢
        exact undur_rough s v fi ht hu hd
    | _ => simp [Typed] at ht
  | .slice s, v, fi, ht, hu, hd => by
    cases v with
    | slice l =>
      simp only [Undur, Rough, Typed, durs] at hu ht hd ⊢
      exact fun v hv => undur_rough s v fi (ht v hv) (hu v hv) fun i hi => hd i (List.mem_flatMap.2 ⟨v, hv, hi⟩)
    | _ => simp [Typed] at ht
  | .attr, v, fi, ht, hu, _ => by
    cases v <;> simp only [Undur, Rough, Typed] at hu ht ⊢
    exact hu
  | .name, v, fi, ht, hu, _ => by cases v <;> simp [Undur] at hu
  | .bad e, v, fi, ht, _, _ => by simp [Typed] at ht
  | .struct tn xn F S, v, fi, ht, hu, hd => by
    cases v with
    | struct xv vs =>
      simp only [Undur, Rough, Typed, durs] at hu ht hd ⊢
      exact ⟨hu.1, hu.2.1, undurs_roughs F S vs ht.2 hu.2.2 hd⟩
    | _ => simp [Typed] at ht
theorem undurs_roughs : ∀ (F : List FInfo) (S : List Sch) (vs : List Val), Typeds S vs → Undurs F S vs →
    (∀ i ∈ dursL S vs, 0 ≤ i) → Roughs F S vs
  | F, [], vs, _, hu, _ => by cases F <;> cases vs <;> simp only [Undurs, Roughs] at hu ⊢
  | F, s :: S, vs, ht, hu, hd => by
    cases F with
    | nil => simp [Undurs] at hu
    | cons fi F =>
      cases vs with
      | nil => simp [Undurs] at hu
      | cons v vs =>
        simp only [Undurs, Roughs, Typeds, dursL, List.mem_append] at hu ht hd ⊢
        have ht1 : Typed s v := ht.1.resolve_left (by rw [hu.1]; simp)
        exact ⟨hu.1, ⟨fun hk => undur_rough s v (some fi) ht1 (hu.2.1.1 hk) fun i hi => hd i (Or.inl hi), hu.2.1.2⟩,
          undurs_roughs F S vs ht.2 hu.2.2 fun i hi => hd i (Or.inr hi)⟩
end

theorem attrTextV_absent (s : Sch) (v : Val) : (attrTextV s v).isAbsent = v.isAbsent := by
  unfold attrTextV
  split <;> rfl

theorem txtVs_get : ∀ (F : List FInfo) (S : List Sch) (vs : List Val) (i : Nat) (w : Val), (txtVs F S vs)[i]? = some w →
    ∃ v, vs[i]? = some v ∧ w.isAbsent = v.isAbsent ∧ (∀ f, F[i]? = some f → f.mode = .anyAttr → w = v)
  | [], S, vs, i, w, h => by
    simp only [txtVs] at h
    exact ⟨w, h, rfl, fun _ _ _ => rfl⟩
  | fi :: F, [], vs, i, w, h => by
    simp only [txtVs] at h
    exact ⟨w, h, rfl, fun _ _ _ => rfl⟩
  | fi :: F, s :: S, [], i, w, h => by simp [txtVs] at h
  | fi :: F, s :: S, v :: vs, 0, w, h => by
    simp only [txtVs, List.getElem?_cons_zero, Option.some.injEq] at h
    refine ⟨v, by simp, ?_, ?_⟩
    · rw [← h]
      split
      · exact attrTextV_absent s v
      · split
        · exact txtV_absent s v
        · rfl
    · intro f hf hm
      simp only [List.getElem?_cons_zero, Option.some.injEq] at hf
      subst hf
      simp only [hm, reduceCtorEq, if_false] at h
      exact h.symm
  | fi :: F, s :: S, v :: vs, i + 1, w, h => by
    simp only [txtVs, List.getElem?_cons_succ] at h ⊢
    exact txtVs_get F S vs i w h

theorem anyDecls_txt : ∀ (F : List FInfo) (S : List Sch) (vs : List Val), anyDecls F (txtVs F S vs) = anyDecls F vs
  | [], S, vs => by simp [anyDecls]
  | fi :: F, [], vs => by simp [txtVs]
  | fi :: F, s :: S, [] => by simp [txtVs]
  | fi :: F, s :: S, v :: vs => by
    have ih := anyDecls_txt F S vs
    simp only [txtVs]
    by_cases hm : fi.mode = .anyAttr
    · simp only [hm, reduceCtorEq, if_false]
      cases v <;> simp only [anyDecls, ih]
    · generalize (if fi.mode = .attr then attrTextV s v else if fi.mode = .elem then txtV s v else v) = w
      cases v <;> cases w <;> simp [anyDecls, ih, hm]

mutual
theorem nsOk_txt (X : Pairs) : ∀ (s : Sch) (v : Val) (D : Pairs) (ns : Bytes) (fi : Option FInfo), NsOk X D ns fi s v →
    NsOk X D ns fi s.txt (txtV s v)
  | .simple k, v, D, ns, fi, h => by simp [Sch.txt, NsOk]
  | .name, v, D, ns, fi, h => by simp [Sch.txt, NsOk]
  | .attr, v, D, ns, fi, h => by simp [Sch.txt, NsOk]
  | .bad _, v, D, ns, fi, h => by simp [Sch.txt, NsOk]
  | .ptr s, v, D, ns, fi, h => by
    cases v with
    | ptr o =>
      cases o with
      | none => simp [Sch.txt, txtV, NsOk]
      | some v =>
        simp only [Sch.txt, txtV, NsOk] at h ⊢
        exact nsOk_txt X s v D ns fi h
    | _ => simp [Sch.txt, txtV, NsOk]
  | .slice s, v, D, ns, fi, h => by
    cases v with
    | slice l =>
      simp only [Sch.txt, txtV, NsOk] at h ⊢
      intro w hw
      obtain ⟨v, hv, rfl⟩ := List.mem_map.1 hw
      exact nsOk_txt X s v D ns fi (h v hv)
    | _ => simp [Sch.txt, txtV, NsOk]
  | .struct tn xn F S, v, D, ns, fi, h => by
    cases v with
    | struct xv vs =>
      simp only [Sch.txt, txtV, NsOk, anyDecls_txt] at h ⊢
      refine ⟨h.1, ?_, nsOks_txt X F S vs _ _ h.2.2⟩
      intro i f l h1 h2 h3
      obtain ⟨v, hv, -, e⟩ := txtVs_get F S vs i _ h3
      rw [← e f h1 h2] at hv
      exact h.2.1 i f l h1 h2 hv
    | _ => simp [Sch.txt, txtV, NsOk]
theorem nsOks_txt (X : Pairs) : ∀ (F : List FInfo) (S : List Sch) (vs : List Val) (D : Pairs) (ns : Bytes), NsOks X D ns F S vs →
    NsOks X D ns F (txts F S) (txtVs F S vs)
  | [], S, vs, D, ns, h => by simp [NsOks]
  | fi :: F, [], vs, D, ns, h => by simp [NsOks, txts]
  | fi :: F, s :: S, [], D, ns, h => by simp [NsOks, txtVs]
  | fi :: F, s :: S, v :: vs, D, ns, h => by
    simp only [txts, txtVs, NsOks] at h ⊢
    refine ⟨?_, nsOks_txt X F S vs D ns h.2⟩
    by_cases hm : fi.mode = .attr
    · simp only [hm, if_true]
      rcases attr_cases s with rfl | rfl | ⟨e1, e2⟩
      · simp [attrTxt, NsOk]
      · simp only [attrTxt]
        generalize attrTextV _ v = w
        cases w with
        | ptr o => cases o <;> simp [NsOk]
        | _ => simp [NsOk]
      · rw [e1, e2]; exact h.1
    · by_cases he : fi.mode = .elem
      · simp only [he, reduceCtorEq, if_false, if_true]
        exact nsOk_txt X s v D ns (some fi) h.1
      · simp only [hm, he, if_false]
        exact h.1
end

mutual
theorem typed_txt : ∀ (s : Sch) (v : Val), Typed s v → Typed s.txt (txtV s v)
  | .simple k, v, h => by simpa only [Sch.txt, txtV] using h
  | .name, v, h => by simpa only [Sch.txt, txtV] using h
  | .attr, v, h => by simpa only [Sch.txt, txtV] using h
  | .bad _, v, h => by simp [Typed] at h
  | .ptr s, v, h => by
    cases v with
    | ptr o =>
      cases o with
      | none => simp [Sch.txt, txtV, Typed]
      | some v =>
        simp only [Sch.txt, txtV, Typed] at h ⊢
        exact typed_txt s v h
    | _ => simp [Typed] at h
  | .slice s, v, h => by
    cases v with
    | slice l =>
      simp only [Sch.txt, txtV, Typed] at h ⊢
      intro w hw
      obtain ⟨v, hv, rfl⟩ := List.mem_map.1 hw
      exact typed_txt s v (h v hv)
    | _ => simp [Typed] at h
  | .struct tn xn F S, v, h => by
    cases v with
    | struct xv vs =>
      simp only [Sch.txt, txtV, Typed] at h ⊢
      refine ⟨?_, typeds_txt F S vs h.2⟩
      intro i j fi fj vi vj h1 h2 h3 h4
      obtain ⟨ui, e1, e2, -⟩ := txtVs_get F S vs i vi h3
      obtain ⟨uj, f1, f2, -⟩ := txtVs_get F S vs j vj h4
      rw [e2, f2]
      exact h.1 i j fi fj ui uj h1 h2 e1 f1
    | _ => simp [Typed] at h
theorem typeds_txt : ∀ (F : List FInfo) (S : List Sch) (vs : List Val), Typeds S vs → Typeds (txts F S) (txtVs F S vs)
  | [], S, vs, h => by simpa [txts, txtVs] using h
  | fi :: F, [], vs, h => by simpa [txts, txtVs] using h
  | fi :: F, s :: S, [], h => by simp [Typeds] at h
  | fi :: F, s :: S, v :: vs, h => by
    simp only [txts, txtVs, Typeds] at h ⊢
    refine ⟨?_, typeds_txt F S vs h.2⟩
    by_cases hm : fi.mode = .attr
    · simp only [hm, if_true]
      rw [attrTextV_absent]
      refine h.1.imp_right fun h => ?_
      rcases attr_cases s with rfl | rfl | ⟨e1, e2⟩
      · simp only [Typed] at h
        cases v <;> simp only [KindOk] at h
        simp [attrTextV, attrTxt, Typed, KindOk]
      · cases v with
        | ptr o =>
          cases o with
          | none => simp [attrTextV, attrTxt, Typed]
          | some v =>
            simp only [Typed] at h
            cases v <;> simp only [KindOk] at h
            simp [attrTextV, attrTxt, Typed, KindOk]
        | _ => simp [Typed] at h
      · rw [e1, e2]; exact h
    · by_cases he : fi.mode = .elem
      · simp only [he, reduceCtorEq, if_false, if_true]
        rw [txtV_absent]
        exact h.1.imp_right (typed_txt s v)
      · simp only [hm, he, if_false]
        exact h.1
end

theorem anyOk_txt {F : List FInfo} {S : List Sch} {vs : List Val} (h : AnyOk F vs) : AnyOk F (txtVs F S vs) := by
  intro i f l h1 h2 h3
  obtain ⟨v, hv, -, e⟩ := txtVs_get F S vs i _ h3
  rw [← e f h1 h2] at hv
  exact h i f l h1 h2 hv

theorem undur_other (fi : FInfo) (s : Sch) (v : Val) (e : attrTxt s = s) (hd : durAttr fi s = true) (ht : Typed s v)
    (hu : Undur (some fi) s v) : Rough (some fi) s v := by
  have simple : ∀ k v, k ≠ .duration → Undur (some fi) (.simple k) v → Rough (some fi) (.simple k) v := by
    intro k v hk h
    simpa only [Undur, Rough, hk, false_or] using h
  unfold durAttr at hd
  split at hd
  · refine simple _ v (fun h => ?_) hu
    subst h
    simp [attrTxt] at e
  · rename_i k
    have hk : k ≠ .duration := by
      rintro rfl
      simp [attrTxt] at e
    cases v with
    | ptr o =>
      cases o with
      | none => simp [Rough]
      | some v =>
        simp only [Undur] at hu
        have := simple k v hk (by simpa only [Undur] using hu)
        simpa only [Rough] using this
    | _ => simp [Typed] at ht
  · rename_i k
    have hk : k ≠ .duration := by simpa using hd
    cases v with
    | ptr o =>
      cases o with
      | none => simp [Rough]
      | some v =>
        cases v with
        | slice l =>
          simp only [Undur, Rough] at hu ⊢
          intro w hw
          have := simple k w hk (by simpa only [Undur] using hu w hw)
          simpa only [Rough] using this
        | _ => simp [Typed] at ht
    | _ => simp [Typed] at ht
  · cases hd

mutual
/-- The value with the texts of durations meets the conditions of C30. -/
theorem undur_txt : ∀ (s : Sch) (v : Val) (fi : Option FInfo), s.durOk = true → Typed s v → Undur fi s v →
    Rough fi s.txt (txtV s v)
  | .simple k, v, fi, hd, ht, hu => by
    simp only [Sch.durOk, bne_iff_ne, ne_eq] at hd
    simp only [Undur, hd, false_or] at hu
    simpa only [Rough, Sch.txt, txtV] using hu
  | .name, v, fi, _, ht, hu => by cases v <;> simp [Undur] at hu
  | .attr, v, fi, _, ht, hu => by
    cases v <;> simp only [Undur, Rough, Typed, Sch.txt, txtV] at hu ht ⊢
    exact hu
  | .bad _, v, fi, _, ht, hu => by simp [Typed] at ht
  | .ptr s, v, fi, hd, ht, hu => by
    cases v with
    | ptr o =>
      cases o with
      | none => simp [Sch.txt, txtV, Rough]
      | some v =>
        simp only [Sch.txt, txtV, Typed, Undur, Rough, Sch.durOk] at hd ht hu ⊢
        exact undur_txt s v fi hd ht hu
    | _ => simp [Typed] at ht
  | .slice s, v, fi, hd, ht, hu => by
    cases v with
    | slice l =>
      simp only [Sch.txt, txtV, Typed, Undur, Rough, Sch.durOk] at hd ht hu ⊢
      intro w hw
      obtain ⟨v, hv, rfl⟩ := List.mem_map.1 hw
      exact undur_txt s v fi hd (ht v hv) (hu v hv)
    | _ => simp [Typed] at ht
  | .struct tn xn F S, v, fi, hd, ht, hu => by
    cases v with
    | struct xv vs =>
      simp only [Sch.txt, txtV, Typed, Undur, Rough, Sch.durOk] at hd ht hu ⊢
      exact ⟨hu.1, anyOk_txt hu.2.1, undurs_txt F S vs hd ht.2 hu.2.2⟩
    | _ => simp [Typed] at ht
theorem undurs_txt : ∀ (F : List FInfo) (S : List Sch) (vs : List Val), durOks F S = true → Typeds S vs → Undurs F S vs →
    Roughs F (txts F S) (txtVs F S vs)
  | F, [], vs, _, _, hu => by cases F <;> cases vs <;> simp only [Undurs, txts, txtVs, Roughs] at hu ⊢
  | [], s :: S, vs, _, _, hu => by simp [Undurs] at hu
  | fi :: F, s :: S, [], _, _, hu => by simp [Undurs] at hu
  | fi :: F, s :: S, v :: vs, hd, ht, hu => by
    simp only [durOks, Bool.and_eq_true] at hd
    simp only [Undurs, Typeds] at hu ht
    have ht1 : Typed s v := ht.1.resolve_left (by rw [hu.1]; simp)
    have ih := undurs_txt F S vs hd.2 ht.2 hu.2.2
    simp only [txts, txtVs, Roughs]
    have hd1 := hd.1.1
    have hd2 := hd.1.2
    have hu1 := hu.2.1
    cases hm : fi.mode with
    | elem =>
      have hk : keeps fi = false := by simp [keeps, hm]
      simp only [hm, reduceCtorEq, if_false, if_true, hk, txtV_absent, Bool.false_eq_true, false_implies, and_true,
        true_implies] at hd2 hu1 ⊢
      exact ⟨hu.1, undur_txt s v (some fi) (by simpa using hd2) ht1 hu1, ih⟩
    | attr =>
      simp only [hm, reduceCtorEq, if_true, attrTextV_absent, ne_eq, not_false_eq_true, true_implies, false_implies,
        and_true] at hu1 ⊢
      refine ⟨hu.1, ?_, ih⟩
      rcases attr_cases s with rfl | rfl | ⟨e1, e2⟩
      · simp only [durTag, hm, durAttr, bne_self_eq_false, Bool.false_or, Bool.and_eq_true, Bool.not_eq_true'] at hd1
        refine ⟨fun _ => Or.inl rfl, fun h => by rw [hd1.2] at h; cases h⟩
      · simp only [durTag, hm, durAttr, bne_self_eq_false, Bool.false_or, Bool.not_eq_true'] at hd1
        refine ⟨fun _ => ?_, fun h => by rw [hd1] at h; cases h⟩
        cases v with
        | ptr o =>
          cases o with
          | none => simp [attrTextV, attrTxt, Rough]
          | some v =>
            simp only [Typed] at ht1
            cases v <;> simp only [KindOk] at ht1
            simp [attrTextV, attrTxt, Rough]
        | _ => simp [Typed] at ht1
      · rw [e1, e2]
        refine ⟨fun hk => ?_, hu1.2⟩
        simp only [durTag, hm] at hd1
        exact undur_other fi s v e1 hd1 ht1 (hu1.1 hk)
    | anyAttr =>
      have hk : keeps fi = false := by simp [keeps, hm]
      simp only [durTag, hm] at hd1
      unfold isAttrs at hd1
      split at hd1
      · simp only [hm, reduceCtorEq, if_false, hk, Bool.false_eq_true, false_implies, and_true, true_implies] at hu1 ⊢
        refine ⟨hu.1, ?_, ih⟩
        cases v with
        | slice l =>
          simp only [Undur, Rough, Typed] at hu1 ht1 ⊢
          intro w hw
          have h1 := hu1 w hw
          have h2 := ht1 w hw
          cases w <;> simp only [Undur, Rough, Typed] at h1 h2 ⊢
          exact h1
        | _ => simp [Typed] at ht1
      · cases hd1
    | chardata =>
      have hk : keeps fi = false := by simp [keeps, hm]
      simp only [durTag, hm] at hd1
      unfold isStr at hd1
      split at hd1
      · simp only [hm, reduceCtorEq, if_false, hk, Bool.false_eq_true, false_implies, and_true, true_implies] at hu1 ⊢
        exact ⟨hu.1, Or.inl rfl, ih⟩
      · cases hd1
    | innerxml =>
      have hk : keeps fi = true := by simp [keeps, hm]
      simp only [hm, reduceCtorEq, if_false, hk] at hu1 ⊢
      exact ⟨hu.1, ⟨by simp, hu1.2⟩, ih⟩
end

end Verif.Bind

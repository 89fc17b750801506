import Verif.RtAttrs

/-!
When marshalling succeeds: exactly if no embedded pointer in the value is nil.
-/
namespace Verif.Bind

open Verif.Xml

mutual
/-- No embedded pointer in the value is nil. -/
def Whole : Sch → Val → Prop
  | .ptr s, .ptr (some v) => Whole s v
  | .slice s, .slice l => ∀ v ∈ l, Whole s v
  | .struct _ _ _ subs, .struct _ vs => Wholes subs vs
  | _, _ => True
/-- The same for all fields. -/
def Wholes : List Sch → List Val → Prop
  | s :: ss, v :: vs => v.isAbsent = false ∧ Whole s v ∧ Wholes ss vs
  | _, _ => True
end

/-- Types without `any,attr` lists. -/
def Sch.noAttr : Sch → Bool
  | .attr => false
  | .ptr s => s.noAttr
  | .slice s => s.noAttr
  | _ => true

theorem elemShape_noAttr {s : Sch} (h : elemShape s = true) : s.noAttr = true := by
  unfold elemShape at h
  split at h
  · rename_i s
    cases s <;> simp_all [oneShape, Sch.noAttr]
  · rfl
  · rfl
  · revert h
    cases s <;> simp [oneShape, Sch.noAttr]

theorem concatM_ok {ε α} : ∀ {l : List (Except ε (List α))}, (∀ x ∈ l, ∃ a, x = .ok a) → ∃ a, concatM l = .ok a
  | [], _ => ⟨[], rfl⟩
  | x :: l, h => by
    obtain ⟨a, rfl⟩ := h x (by simp)
    obtain ⟨b, hb⟩ := concatM_ok (l := l) fun y hy => h y (by simp [hy])
    exact ⟨a ++ b, by simp [concatM, hb]⟩

theorem concatM_inv {ε α} : ∀ {l : List (Except ε (List α))} {a : List α}, concatM l = .ok a → ∀ x ∈ l, ∃ a, x = .ok a
  | [], a, _, x, hx => by simp at hx
  | .error e :: l, a, h, x, hx => by simp [concatM] at h
  | .ok b :: l, a, h, x, hx => by
    simp only [concatM] at h
    split at h
    · cases h
    · rename_i c hc
      rcases List.mem_cons.1 hx with rfl | hx
      · exact ⟨b, rfl⟩
      · exact concatM_inv hc x hx

theorem marshalSimple_ok (io : FloatIO) (k : Kind) (v : Val) (h : KindOk k v) : ∃ b, marshalSimple io k v = .ok b := by
  cases k <;> cases v <;> simp [KindOk] at h <;> exact ⟨_, rfl⟩

theorem simpleAttr_ok (io : FloatIO) (k : Kind) (v : Val) (h : KindOk k v) : ∃ b, simpleAttr io k v = .ok b := by
  cases k with
  | duration =>
    cases v with
    | int i =>
      obtain ⟨s, hs, _⟩ := Duration.C02_string_total i (by simpa [KindOk] using h)
      exact ⟨s, by simp [simpleAttr, hs]⟩
    | _ => simp [KindOk] at h
  | floatInf =>
    cases v with
    | float x => exact ⟨_, rfl⟩
    | _ => simp [KindOk] at h
  | _ =>
    obtain ⟨b, hb⟩ := marshalSimple_ok io _ v h
    exact ⟨b, by cases v <;> exact hb⟩

theorem simple_attr_ok (io : FloatIO) (k : Kind) (n : Name) (v : Val) (h : KindOk k v) :
    ∃ as, marshalAttr io (.simple k) n v = .ok as := by
  obtain ⟨b, hb⟩ := simpleAttr_ok io k v h
  have : v.isAbsent = false := typed_present (.simple k) v (by simpa [Typed] using h)
  exact ⟨[⟨n, b⟩], by cases v <;> simp_all [marshalAttr, Val.isAbsent]⟩

theorem attrShape_ok (io : FloatIO) (s : Sch) (hs : attrShape s = true) (n : Name) (v : Val) (ht : Typed s v) :
    ∃ as, marshalAttr io s n v = .ok as := by
  unfold attrShape at hs
  split at hs
  · exact simple_attr_ok io _ n v (by simpa [Typed] using ht)
  · cases v with
    | ptr o =>
      cases o with
      | none => exact ⟨[], by simp [marshalAttr]⟩
      | some v =>
        simp only [Typed] at ht
        obtain ⟨as, h⟩ := simple_attr_ok io _ n v ht
        exact ⟨as, by simpa [marshalAttr] using h⟩
    | _ => simp [Typed] at ht
  · cases v with
    | ptr o =>
      cases o with
      | none => exact ⟨[], by simp [marshalAttr]⟩
      | some v =>
        cases v with
        | slice l =>
          simp only [Typed] at ht
          simp only [marshalAttr]
          refine concatM_ok fun x hx => ?_
          obtain ⟨v, hv, rfl⟩ := List.mem_map.1 hx
          exact simple_attr_ok io _ n v (ht v hv)
        | _ => simp [Typed] at ht
    | _ => simp [Typed] at ht
  · cases hs

theorem any_ok (io : FloatIO) (n : Name) (v : Val) (ht : Typed (.slice .attr) v) :
    ∃ as, marshalAttr io (.slice .attr) n v = .ok as := by
  cases v with
  | slice l =>
    simp only [Typed] at ht
    simp only [marshalAttr]
    refine concatM_ok fun x hx => ?_
    obtain ⟨v, hv, rfl⟩ := List.mem_map.1 hx
    have := ht v hv
    cases v <;> simp [Typed] at this
    exact ⟨_, rfl⟩
  | _ => simp [Typed] at ht

theorem marshalAttrs_ok (io : FloatIO) : ∀ (F : List FInfo) (S : List Sch) (vs : List Val),
    (∀ (i : Nat) (fi : FInfo) (s : Sch), F[i]? = some fi → S[i]? = some s → fieldRt fi s = true) → Typeds S vs →
    Wholes S vs → ∃ as, marshalAttrs io F S vs = .ok as
  | [], _, _, _, _, _ => ⟨[], by simp [marshalAttrs]⟩
  | _ :: _, [], _, _, _, _ => ⟨[], by simp [marshalAttrs]⟩
  | _ :: _, _ :: _, [], _, _, _ => ⟨[], by simp [marshalAttrs]⟩
  | fi :: F, s :: S, v :: vs, hrt, ht, hw => by
    simp only [Typeds] at ht
    simp only [Wholes] at hw
    have hty : Typed s v := by
      rcases ht.1 with h | h
      · rw [hw.1] at h; cases h
      · exact h
    obtain ⟨b, hb⟩ := marshalAttrs_ok io F S vs (fun i fi s h1 h2 => hrt (i + 1) fi s h1 h2) ht.2 hw.2.2
    have hfi := hrt 0 fi s rfl rfl
    unfold marshalAttrs
    rw [hb]
    split
    · rename_i hm
      split
      · exact ⟨b, rfl⟩
      · have : ∃ as, marshalAttr io s ⟨fi.xmlns, joinPrefixed fi.pre fi.loc⟩ v = .ok as := by
          rcases hm with hm | hm
          · exact attrShape_ok io s (fieldRt_attr hfi hm).1 _ v hty
          · have := fieldRt_any hfi hm
            subst this
            exact any_ok io _ v hty
        obtain ⟨a, ha⟩ := this
        rw [ha]
        exact ⟨a ++ b, rfl⟩
    · exact ⟨b, rfl⟩

mutual
theorem marshalV_ok (io : FloatIO) (L : List Bytes) : ∀ (s : Sch) (ns : Bytes) (fi : Option FInfo) (v : Val),
    s.rt L = true → s.noAttr = true → Typed s v → Whole s v → ∃ items, marshalV io ns fi s v = .ok items
  | .simple k, ns, fi, v, _, _, ht, _ => by
    obtain ⟨b, hb⟩ := marshalSimple_ok io k v (by simpa [Typed] using ht)
    simp only [marshalV, hb]
    exact ⟨_, rfl⟩
  | .ptr s, ns, fi, v, hrt, hn, ht, hw => by
    cases v with
    | ptr o =>
      cases o with
      | none => exact ⟨[], by simp [marshalV]⟩
      | some v =>
        simp only [Typed] at ht
        simp only [Whole] at hw
        simp only [Sch.rt] at hrt
        simp only [Sch.noAttr] at hn
        simp only [marshalV]
        exact marshalV_ok io L s ns fi v hrt hn ht hw
    | _ => simp [Typed] at ht
  | .slice s, ns, fi, v, hrt, hn, ht, hw => by
    cases v with
    | slice l =>
      simp only [Typed] at ht
      simp only [Whole] at hw
      simp only [Sch.rt] at hrt
      simp only [Sch.noAttr] at hn
      simp only [marshalV]
      refine concatM_ok fun x hx => ?_
      obtain ⟨v, hv, rfl⟩ := List.mem_map.1 hx
      split
      · exact ⟨[], rfl⟩
      · exact marshalV_ok io L s ns fi v hrt hn (ht v hv) (hw v hv)
    | _ => simp [Typed] at ht
  | .struct tn xn F S, ns, fi, v, hrt, _, ht, hw => by
    cases v with
    | struct xv vs =>
      simp only [Typed] at ht
      simp only [Whole] at hw
      simp only [Sch.rt, Bool.and_eq_true] at hrt
      have hs := StructRt.of hrt.1.1
      obtain ⟨as, ha⟩ := marshalAttrs_ok io F S vs hs.rt ht.2 hw
      obtain ⟨ks, hk⟩ := marshalFields_ok io L S F vs (startName xn xv fi tn).space hs.rt hrt.2 ht.2 hw
      simp only [marshalV, ha, hk]
      exact ⟨_, rfl⟩
    | _ => simp [Typed] at ht
  | .bad _, _, _, _, hrt, _, _, _ => by simp [Sch.rt] at hrt
  | .name, _, _, _, hrt, _, _, _ => by simp [Sch.rt] at hrt
  | .attr, _, _, _, _, hn, _, _ => by simp [Sch.noAttr] at hn
theorem marshalFields_ok (io : FloatIO) (L : List Bytes) : ∀ (S : List Sch) (F : List FInfo) (vs : List Val) (ns : Bytes),
    (∀ (i : Nat) (fi : FInfo) (s : Sch), F[i]? = some fi → S[i]? = some s → fieldRt fi s = true) → rts L S = true →
    Typeds S vs → Wholes S vs → ∃ items, marshalFields io ns F S vs = .ok items
  | [], F, vs, ns, _, _, _, _ => ⟨[], by cases F <;> simp [marshalFields]⟩
  | s :: S, [], vs, ns, _, _, _, _ => ⟨[], by simp [marshalFields]⟩
  | s :: S, fi :: F, [], ns, _, _, _, _ => ⟨[], by simp [marshalFields]⟩
  | s :: S, fi :: F, v :: vs, ns, hrt, hrs, ht, hw => by
    simp only [Typeds] at ht
    simp only [Wholes] at hw
    simp only [rts, Bool.and_eq_true] at hrs
    have hty : Typed s v := by
      rcases ht.1 with h | h
      · rw [hw.1] at h; cases h
      · exact h
    obtain ⟨b, hb⟩ := marshalFields_ok io L S F vs ns (fun i fi s h1 h2 => hrt (i + 1) fi s h1 h2) hrs.2 ht.2 hw.2.2
    have hfi := hrt 0 fi s rfl rfl
    have : ∃ a, fieldItems io fi s v (marshalV io ns (some fi) s v) = .ok a := by
      unfold fieldItems
      split
      · exact ⟨[], rfl⟩
      rename_i hm
      split
      · exact ⟨_, rfl⟩
      rename_i hc
      split
      · rename_i hi
        unfold fieldRt at hfi
        simp only [hi] at hfi
        split at hfi
        · cases v <;> simp [Typed, KindOk] at hty
          exact ⟨_, rfl⟩
        · cases hfi
      rename_i hi
      split
      · exact ⟨[], rfl⟩
      · have he : fi.mode = .elem := by
          cases h : fi.mode <;> simp_all
        exact marshalV_ok io L s ns (some fi) v hrs.1 (elemShape_noAttr (fieldRt_elem hfi he).1) hty hw.2.1
    obtain ⟨a, ha⟩ := this
    simp only [marshalFields, ha, hb]
    exact ⟨_, rfl⟩
end

/-! ### Conversely -/

/-- Values of the types of attributes have no embedded pointers. -/
theorem attrShape_whole (s : Sch) (hs : attrShape s = true) (v : Val) : Whole s v := by
  unfold attrShape at hs
  split at hs
  · simp [Whole]
  · cases v with
    | ptr o => cases o <;> simp [Whole]
    | _ => simp [Whole]
  · cases v with
    | ptr o =>
      cases o with
      | none => simp [Whole]
      | some v => cases v <;> simp [Whole]
    | _ => simp [Whole]
  · cases hs

theorem any_whole (v : Val) : Whole (.slice .attr) v := by
  cases v <;> simp [Whole]

theorem marshalAttrs_present (io : FloatIO) : ∀ (F : List FInfo) (S : List Sch) (vs : List Val) (as : List Attr),
    marshalAttrs io F S vs = .ok as → ∀ (i : Nat) (fi : FInfo) (s : Sch) (v : Val), F[i]? = some fi → S[i]? = some s →
      vs[i]? = some v → required fi s = true → v.isAbsent = false
  | [], _, _, _, _, i, _, _, _, h, _, _, _ => by simp at h
  | _ :: _, [], _, _, _, i, _, _, _, _, h, _, _ => by simp at h
  | _ :: _, _ :: _, [], _, _, i, _, _, _, _, _, h, _ => by simp at h
  | fi :: F, s :: S, v :: vs, as, hm, i, f, t, w, h1, h2, h3, hr => by
    unfold marshalAttrs at hm
    have rest : (∃ b, marshalAttrs io F S vs = .ok b) ∧ (required fi s = true → v.isAbsent = false) := by
      split at hm
      · split at hm
        · rename_i ho
          refine ⟨⟨as, hm⟩, fun h => ?_⟩
          simp only [required, Bool.and_eq_true, Bool.not_eq_true'] at h
          rw [h.1.2] at ho
          simp at ho
        · split at hm
          · cases hm
          · rename_i a ha
            split at hm
            · cases hm
            · rename_i b hb
              refine ⟨⟨b, hb⟩, fun _ => ?_⟩
              cases v <;> first | rfl | (simp [marshalAttr] at ha)
      · rename_i hmode
        refine ⟨⟨as, hm⟩, fun h => ?_⟩
        simp only [required, Bool.and_eq_true, beq_iff_eq] at h
        exact absurd (Or.inl h.1.1) hmode
    cases i with
    | zero =>
      simp only [List.getElem?_cons_zero, Option.some.injEq] at h1 h2 h3
      subst h1; subst h2; subst h3
      exact rest.2 hr
    | succ i =>
      obtain ⟨b, hb⟩ := rest.1
      simp only [List.getElem?_cons_succ] at h1 h2 h3
      exact marshalAttrs_present io F S vs b hb i f t w h1 h2 h3 hr

theorem marshalFields_get (io : FloatIO) (ns : Bytes) : ∀ (F : List FInfo) (S : List Sch) (vs : List Val)
    (items : List Item), marshalFields io ns F S vs = .ok items → ∀ (i : Nat) (fi : FInfo) (s : Sch) (v : Val),
    F[i]? = some fi → S[i]? = some s → vs[i]? = some v → ∃ a, fieldItems io fi s v (marshalV io ns (some fi) s v) = .ok a
  | [], _, _, _, _, i, _, _, _, h, _, _ => by simp at h
  | _ :: _, [], _, _, _, i, _, _, _, _, h, _ => by simp at h
  | _ :: _, _ :: _, [], _, _, i, _, _, _, _, _, h => by simp at h
  | fi :: F, s :: S, v :: vs, items, hm, i, f, t, w, h1, h2, h3 => by
    simp only [marshalFields] at hm
    split at hm
    · cases hm
    rename_i a ha
    split at hm
    · cases hm
    rename_i b hb
    cases i with
    | zero =>
      simp only [List.getElem?_cons_zero, Option.some.injEq] at h1 h2 h3
      subst h1; subst h2; subst h3
      exact ⟨a, ha⟩
    | succ i =>
      simp only [List.getElem?_cons_succ] at h1 h2 h3
      exact marshalFields_get io ns F S vs b hb i f t w h1 h2 h3

theorem wholes_of_get : ∀ (S : List Sch) (vs : List Val), (∀ (i : Nat) (s : Sch) (v : Val), S[i]? = some s →
    vs[i]? = some v → v.isAbsent = false ∧ Whole s v) → Wholes S vs
  | [], _, _ => by simp [Wholes]
  | _ :: _, [], _ => by simp [Wholes]
  | s :: S, v :: vs, h => by
    simp only [Wholes]
    have := h 0 s v rfl rfl
    exact ⟨this.1, this.2, wholes_of_get S vs fun i s v h1 h2 => h (i + 1) s v h1 h2⟩

theorem isEmpty_whole (s : Sch) (v : Val) (h : isEmpty s v = true) : Whole s v := by
  cases v with
  | ptr o =>
    cases o with
    | none => cases s <;> simp [Whole]
    | some v => cases s <;> first | (simp [Whole]; done) | (simp [isEmpty] at h; done)
  | slice l =>
    cases l with
    | nil => cases s <;> simp [Whole]
    | cons a l => cases s <;> first | (simp [Whole]; done) | (simp [isEmpty] at h; done)
  | struct _ _ => cases s <;> first | (simp [Whole]; done) | (simp [isEmpty] at h; done)
  | _ => cases s <;> simp [Whole]

mutual
theorem marshalV_whole (io : FloatIO) (L : List Bytes) : ∀ (s : Sch) (ns : Bytes) (fi : Option FInfo) (v : Val)
    (items : List Item), s.rt L = true → Typed s v → marshalV io ns fi s v = .ok items → Whole s v
  | .simple k, _, _, v, _, _, _, _ => by simp [Whole]
  | .ptr s, ns, fi, v, items, hrt, ht, hm => by
    cases v with
    | ptr o =>
      cases o with
      | none => simp [Whole]
      | some v =>
        simp only [Typed] at ht
        simp only [Sch.rt] at hrt
        simp only [marshalV] at hm
        simp only [Whole]
        exact marshalV_whole io L s ns fi v items hrt ht hm
    | _ => simp [Typed] at ht
  | .slice s, ns, fi, v, items, hrt, ht, hm => by
    cases v with
    | slice l =>
      simp only [Typed] at ht
      simp only [Sch.rt] at hrt
      simp only [marshalV] at hm
      simp only [Whole]
      intro v hv
      obtain ⟨a, ha⟩ := concatM_inv hm _ (List.mem_map_of_mem hv)
      split at ha
      · rename_i ho
        refine isEmpty_whole s v ?_
        cases fi with
        | none => simp [omits] at ho
        | some f =>
          simp only [omits, Bool.and_eq_true] at ho
          exact ho.2
      · exact marshalV_whole io L s ns fi v a hrt (ht v hv) ha
    | _ => simp [Typed] at ht
  | .struct tn xn F S, ns, fi, v, items, hrt, ht, hm => by
    cases v with
    | struct xv vs =>
      simp only [Typed] at ht
      simp only [Sch.rt, Bool.and_eq_true] at hrt
      have hs := StructRt.of hrt.1.1
      simp only [marshalV] at hm
      split at hm
      · cases hm
      rename_i as ha
      split at hm
      · cases hm
      rename_i ks hk
      simp only [Whole]
      have hlen := typeds_length S vs ht.2
      have pres : ∀ (i : Nat) (v : Val), vs[i]? = some v → v.isAbsent = false := by
        intro i v hv
        have hi : i < vs.length := lt_of_get hv
        obtain ⟨f, hf⟩ := get_of_lt (l := F) (i := i) (by rw [hs.len, ← hlen]; exact hi)
        by_cases hg : f.grp = none
        · exact (ht.1 i i f f v v hf hf hv hv).2 hg
        · obtain ⟨j, fj, s, h1, h2, h3, h4⟩ := hs.grps i f hf hg
          obtain ⟨w, hw⟩ := get_of_lt (l := vs) (i := j) (by rw [hlen]; exact lt_of_get h2)
          rw [(ht.1 i j f fj v w hf h1 hv hw).1 h4.symm]
          exact marshalAttrs_present io F S vs as ha j fj s w h1 h2 hw h3
      have fields := marshalsV_whole io L S (startName xn xv fi tn).space hrt.2
      refine wholes_of_get S vs fun i s v h1 h2 => ⟨pres i v h2, ?_⟩
      obtain ⟨f, hf⟩ := get_of_lt (l := F) (i := i) (by rw [hs.len]; exact lt_of_get h1)
      have hfi := hs.rt i f s hf h1
      have hty : Typed s v := by
        rcases typeds_get S vs ht.2 i s v h1 h2 with h | h
        · rw [pres i v h2] at h; cases h
        · exact h
      obtain ⟨a, hfa⟩ := marshalFields_get io _ F S vs ks hk i f s v hf h1 h2
      cases hm : f.mode with
      | attr => exact attrShape_whole s (fieldRt_attr hfi hm).1 v
      | anyAttr =>
        have := fieldRt_any hfi hm
        subst this
        exact any_whole v
      | chardata =>
        have := fieldRt_chars hfi hm
        subst this
        simp [Whole]
      | innerxml =>
        unfold fieldRt at hfi
        simp only [hm] at hfi
        split at hfi
        · simp [Whole]
        · cases hfi
      | elem =>
        unfold fieldItems at hfa
        rw [if_neg (by simp [hm, pres i v h2]), if_neg (by simp [hm]), if_neg (by simp [hm])] at hfa
        split at hfa
        · rename_i ho
          simp only [omits, Bool.and_eq_true] at ho
          exact isEmpty_whole s v ho.2
        · exact fields s (List.mem_of_getElem? h1) (some f) v a hty hfa
    | _ => simp [Typed] at ht
  | .bad _, _, _, _, _, hrt, _, _ => by simp [Sch.rt] at hrt
  | .name, _, _, _, _, hrt, _, _ => by simp [Sch.rt] at hrt
  | .attr, _, _, v, _, _, _, _ => by cases v <;> simp [Whole]
theorem marshalsV_whole (io : FloatIO) (L : List Bytes) : ∀ (S : List Sch) (ns : Bytes), rts L S = true →
    ∀ s ∈ S, ∀ (fi : Option FInfo) (v : Val) (items : List Item), Typed s v → marshalV io ns fi s v = .ok items → Whole s v
  | [], _, _, s, hs => by simp at hs
  | t :: S, ns, hrt, s, hs => by
    simp only [rts, Bool.and_eq_true] at hrt
    intro fi v items ht hm
    rcases List.mem_cons.1 hs with h | h
    · rw [h] at ht hm ⊢
      exact marshalV_whole io L t ns fi v items hrt.1 ht hm
    · exact marshalsV_whole io L S ns hrt.2 s h fi v items ht hm
end

/-- C39: marshalling a manifest succeeds exactly if no embedded pointer in it is nil; it does not return an error and it does
not panic. -/
theorem C39_marshal (io : FloatIO) (v : Val) (ht : Typed tMPD.sch v) :
    (∃ items, marshal io tMPD.sch v = .ok items) ↔ Whole tMPD.sch v :=
  ⟨fun ⟨items, h⟩ => marshalV_whole io mpdLocs _ _ _ _ items mpd_rt ht h,
    fun h => marshalV_ok io mpdLocs _ _ _ _ mpd_rt (by decide +kernel) ht h⟩

end Verif.Bind

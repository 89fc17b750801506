import Verif.Frame
import Verif.Readable
import Verif.Build
import Verif.KRfl

/-!
C83: periods written on their own (`Period.Write` and `Period.WriteToString`, `/repo/mpd/io.go` 98-115), and the text of a
manifest around them.
-/
namespace Verif.Bind

open Verif.Xml

/-! ### Namespaces in what is written -/

mutual
/-- A namespace does not occur in the tags of a type. -/
def Sch.avoids (u : Bytes) : Sch → Bool
  | .ptr s => s.avoids u
  | .slice s => s.avoids u
  | .struct _ xn infos subs =>
    (match xn with
      | none => true
      | some x => x.xmlns != u) && infos.all (fun f => f.xmlns != u && f.xmlns != xmlnsURL) && avoidss u subs
  | _ => true
/-- The same for several types. -/
def avoidss (u : Bytes) : List Sch → Bool
  | [] => true
  | s :: l => s.avoids u && avoidss u l
end

theorem concatM_mem {ε α} : ∀ (l : List (Except ε (List α))) (r : List α), concatM l = .ok r → ∀ a ∈ r, ∃ x ∈ l, ∃ y, x = .ok y ∧ a ∈ y
  | [], r, h, a, ha => by simp only [concatM] at h; injection h with h; subst h; simp at ha
  | .error e :: l, r, h, a, ha => by simp [concatM] at h
  | .ok b :: l, r, h, a, ha => by
    simp only [concatM] at h
    cases hc : concatM l with
    | error e => rw [hc] at h; cases h
    | ok c =>
      rw [hc] at h
      injection h with h
      subst h
      rcases List.mem_append.1 ha with ha | ha
      · exact ⟨_, by simp, b, rfl, ha⟩
      · obtain ⟨x, hx, y, h1, h2⟩ := concatM_mem l c hc a ha
        exact ⟨x, by simp [hx], y, h1, h2⟩

theorem marshalAttr_from (io : FloatIO) : ∀ (s : Sch) (n : Name) (v : Val) (as : List Attr), marshalAttr io s n v = .ok as →
    ∀ a ∈ as, a.name = n ∨ a ∈ foreign s v
  | .simple k, n, v, as, h, a, ha => by
    cases v <;> simp only [marshalAttr] at h <;> first
      | (cases h)
      | (split at h
         · cases h
         · injection h with h; subst h; simp at ha; exact .inl (by rw [ha]))
  | .ptr s, n, v, as, h, a, ha => by
    cases v with
    | ptr o =>
      cases o with
      | none => simp only [marshalAttr] at h; injection h with h; subst h; simp at ha
      | some v =>
        cases s with
        | ptr s => simp [marshalAttr] at h
        | _ =>
          simp only [marshalAttr, foreign] at h ⊢
          exact marshalAttr_from io _ n v as h a ha
    | _ => simp [marshalAttr] at h
  | .slice s, n, v, as, h, a, ha => by
    cases v with
    | slice l =>
      simp only [marshalAttr, foreign, List.mem_flatMap] at h ⊢
      obtain ⟨x, hx, y, h1, h2⟩ := concatM_mem _ _ h a ha
      obtain ⟨v, hv, rfl⟩ := List.mem_map.1 hx
      rcases marshalAttr_from io s n v y h1 a h2 with h3 | h3
      · exact .inl h3
      · exact .inr ⟨v, hv, h3⟩
    | _ => simp [marshalAttr] at h
  | .attr, n, v, as, h, a, ha => by
    cases v <;> simp only [marshalAttr] at h <;> first
      | (cases h; done)
      | (injection h with h; subst h; simp at ha; exact .inr (by simp [foreign, ha]))
  | .name, n, v, as, h, a, ha => by cases v <;> simp [marshalAttr] at h
  | .struct tn xn F S, n, v, as, h, a, ha => by cases v <;> simp [marshalAttr] at h
  | .bad e, n, v, as, h, a, ha => by cases v <;> simp [marshalAttr] at h

theorem marshalAttrs_from (io : FloatIO) : ∀ (F : List FInfo) (S : List Sch) (vs : List Val) (as : List Attr),
    marshalAttrs io F S vs = .ok as → ∀ a ∈ as, (∃ f ∈ F, a.name.space = f.xmlns) ∨ a ∈ foreigns S vs
  | [], S, vs, as, h, a, ha => by simp [marshalAttrs] at h; subst h; simp at ha
  | f :: F, [], vs, as, h, a, ha => by simp [marshalAttrs] at h; subst h; simp at ha
  | f :: F, s :: S, [], as, h, a, ha => by simp [marshalAttrs] at h; subst h; simp at ha
  | f :: F, s :: S, v :: vs, as, h, a, ha => by
    have hrest : ∀ bs, marshalAttrs io F S vs = .ok bs → a ∈ bs →
        (∃ g ∈ f :: F, a.name.space = g.xmlns) ∨ a ∈ foreigns (s :: S) (v :: vs) := by
      intro bs hb ha
      rcases marshalAttrs_from io F S vs bs hb a ha with ⟨g, h1, h2⟩ | h1
      · exact .inl ⟨g, by simp [h1], h2⟩
      · exact .inr (by simp [foreigns, h1])
    rw [marshalAttrs] at h
    split at h
    · split at h
      · exact hrest as h ha
      · cases h1 : marshalAttr io s ⟨f.xmlns, joinPrefixed f.pre f.loc⟩ v with
        | error e => rw [h1] at h; cases h
        | ok x =>
          rw [h1] at h
          dsimp only at h
          cases h2 : marshalAttrs io F S vs with
          | error e => rw [h2] at h; cases h
          | ok y =>
            rw [h2] at h
            injection h with h
            subst h
            rcases List.mem_append.1 ha with ha | ha
            · rcases marshalAttr_from io s _ v x h1 a ha with h3 | h3
              · exact .inl ⟨f, by simp, by rw [h3]⟩
              · exact .inr (by simp [foreigns, h3])
            · exact hrest y h2 ha
    · exact hrest as h ha

theorem itemUris_append : ∀ (a b : List Item), itemUris (a ++ b) = itemUris a ++ itemUris b
  | [], b => rfl
  | i :: a, b => by simp only [List.cons_append, itemUris, itemUris_append a b, List.append_assoc]

theorem startName_space (xn : Option FInfo) (xv : Name) (fi : Option FInfo) (tn : Bytes) :
    (startName xn xv fi tn).space = [] ∨ (∃ x, xn = some x ∧ (startName xn xv fi tn).space = x.xmlns) ∨
      (tagless xn = true ∧ (startName xn xv fi tn).space = xv.space) ∨ ∃ f, fi = some f ∧ (startName xn xv fi tn).space = f.xmlns := by
  have hj : ∀ x : FInfo, x.loc ≠ [] → joinPrefixed x.pre x.loc ≠ [] := by
    intro x hx
    unfold joinPrefixed
    split
    · exact hx
    · simp
  have hfi : ∀ f : FInfo, (if joinPrefixed f.pre f.loc ≠ [] then (⟨f.xmlns, joinPrefixed f.pre f.loc⟩ : Name)
      else ⟨f.xmlns, tn⟩).space = f.xmlns := by
    intro f
    split <;> rfl
  cases xn with
  | none =>
    cases fi with
    | none => exact .inl rfl
    | some f => exact .inr (.inr (.inr ⟨f, rfl, hfi f⟩))
  | some x =>
    by_cases h1 : x.loc ≠ []
    · refine .inr (.inl ⟨x, rfl, ?_⟩)
      simp only [startName, if_pos h1, if_pos (hj x h1)]
    · by_cases h2 : xv.loc ≠ []
      · refine .inr (.inr (.inl ⟨by simpa [tagless] using h1, ?_⟩))
        simp only [startName, if_neg h1, if_pos h2]
      · cases fi with
        | none =>
          refine .inl ?_
          simp [startName, if_neg h1, if_neg h2]
        | some f =>
          refine .inr (.inr (.inr ⟨f, rfl, ?_⟩))
          simp only [startName, if_neg h1, if_neg h2]
          rw [if_neg (by simp)]
          exact hfi f

theorem charText_uris (io : FloatIO) : ∀ (s : Sch) (v : Val), itemUris (charText io s v) = []
  | .simple k, v => by
    cases h : marshalSimple io k v <;> simp [charText, h, itemUris, Item.uris]
  | .ptr s, v => by
    cases v with
    | ptr o =>
      cases o with
      | none => rfl
      | some v => simp only [charText]; exact charText_uris io s v
    | _ => rfl
  | .slice s, v => by cases v <;> rfl
  | .attr, v => by cases v <;> rfl
  | .name, v => by cases v <;> rfl
  | .struct tn xn F S, v => by cases v <;> rfl
  | .bad e, v => by cases v <;> rfl

mutual
/-- A namespace that neither tags nor captured names use is not used in what is written. -/
theorem marshalV_avoids (io : FloatIO) (u : Bytes) (hu : u ≠ []) : ∀ (s : Sch) (ns : Bytes) (fi : Option FInfo) (v : Val)
    (items : List Item), s.avoids u = true → (∀ f, fi = some f → f.xmlns ≠ u) → (∀ n ∈ xnames s v, n.space ≠ u) →
    (∀ a ∈ foreign s v, attrUri a ≠ u) → marshalV io ns fi s v = .ok items → u ∉ itemUris items
  | .simple k, ns, fi, v, items, ha, hf, hx, hfo, h => by
    rw [marshalV] at h
    split at h
    · cases h
    · injection h with h
      subst h
      simp only [itemUris, Item.uris, List.map_nil, List.append_nil, List.mem_singleton]
      intro he
      rcases startName_space none ⟨[], []⟩ fi [] with h1 | ⟨x, h1, _⟩ | ⟨h1, _⟩ | ⟨f, h1, h2⟩
      · exact hu (he.trans h1)
      · cases h1
      · cases h1
      · exact hf f h1 (he.trans h2).symm
  | .ptr s, ns, fi, v, items, ha, hf, hx, hfo, h => by
    cases v with
    | ptr o =>
      cases o with
      | none =>
        simp only [marshalV] at h
        injection h with h; subst h; simp [itemUris]
      | some v =>
        simp only [marshalV, Sch.avoids, xnames, foreign] at h ha hx hfo
        exact marshalV_avoids io u hu s ns fi v items ha hf hx hfo h
    | _ => simp [marshalV] at h
  | .slice s, ns, fi, v, items, ha, hf, hx, hfo, h => by
    cases v with
    | slice l =>
      simp only [marshalV, Sch.avoids, xnames, foreign, List.mem_flatMap] at h ha hx hfo
      have : ∀ (l' : List Val) (r : List Item), (∀ v ∈ l', v ∈ l) →
          concatM (l'.map fun v => if omits fi s v then .ok [] else marshalV io ns fi s v) = .ok r → u ∉ itemUris r := by
        intro l'
        induction l' with
        | nil => intro r _ hr; simp only [List.map_nil, concatM] at hr; injection hr with hr; subst hr; simp [itemUris]
        | cons v l' ih =>
          intro r hl hr
          rw [List.map_cons] at hr
          cases h1 : (if omits fi s v then .ok [] else marshalV io ns fi s v : Except MErr (List Item)) with
          | error e => rw [h1] at hr; simp [concatM] at hr
          | ok a =>
            rw [h1, concatM] at hr
            cases h2 : concatM (l'.map fun v => if omits fi s v then .ok [] else marshalV io ns fi s v) with
            | error e => rw [h2] at hr; cases hr
            | ok b =>
              rw [h2] at hr
              injection hr with hr
              subst hr
              rw [itemUris_append, List.mem_append, not_or]
              refine ⟨?_, ih b (fun v hv => hl v (by simp [hv])) h2⟩
              split at h1
              · injection h1 with h1; subst h1; simp [itemUris]
              · exact marshalV_avoids io u hu s ns fi v a ha hf (fun n hn => hx n ⟨v, hl v (by simp), hn⟩)
                  (fun a ha => hfo a ⟨v, hl v (by simp), ha⟩) h1
      exact this l items (fun _ h => h) h
    | _ => simp [marshalV] at h
  | .struct tn xn F S, ns, fi, v, items, ha, hf, hx, hfo, h => by
    cases v with
    | struct xv vs =>
      simp only [marshalV, Sch.avoids, xnames, foreign, Bool.and_eq_true, List.mem_append, List.all_eq_true, bne_iff_ne] at h ha hx hfo
      cases h1 : marshalAttrs io F S vs with
      | error e => rw [h1] at h; cases h
      | ok attrs =>
        rw [h1] at h
        dsimp only at h
        cases h2 : marshalFields io (startName xn xv fi tn).space F S vs with
        | error e => rw [h2] at h; cases h
        | ok kids =>
          rw [h2] at h
          injection h with h
          subst h
          simp only [itemUris, Item.uris, List.append_nil, List.cons_append, List.mem_cons, List.mem_append, List.mem_map, not_or]
          refine ⟨?_, ?_, marshalFields_avoids io u hu F S _ vs kids ha.2 (fun f hf => (ha.1.2 f hf).1)
            (fun n hn => hx n (.inr hn)) hfo h2⟩
          · intro he
            rcases startName_space xn xv fi tn with h3 | ⟨x, h3, h4⟩ | ⟨h3, h4⟩ | ⟨f, h3, h4⟩
            · exact hu (he.trans h3)
            · have := ha.1.1
              rw [h3] at this
              rw [h4] at he
              simp [he] at this
            · exact hx xv (.inl (by simp [h3])) (he.trans h4).symm
            · exact hf f h3 (he.trans h4).symm
          · rintro ⟨a, h3, h4⟩
            rcases h3 with h3 | h3
            · rcases marshalAttrs_from io F S vs attrs h1 a h3 with ⟨f, h5, h6⟩ | h5
              · have := ha.1.2 f h5
                unfold attrUri at h4
                rw [h6, if_neg this.2] at h4
                exact this.1 h4
              · exact hfo a h5 h4
            · unfold resetNs at h3
              split at h3
              · simp at h3
              · split at h3
                · simp at h3
                  subst h3
                  simp [attrUri, show ([] : Bytes) ≠ xmlnsURL by decide +kernel] at h4
                  exact hu h4
                · simp at h3
    | _ => simp [marshalV] at h
  | .attr, ns, fi, v, items, ha, hf, hx, hfo, h => by cases v <;> simp [marshalV] at h
  | .name, ns, fi, v, items, ha, hf, hx, hfo, h => by cases v <;> simp [marshalV] at h
  | .bad e, ns, fi, v, items, ha, hf, hx, hfo, h => by cases v <;> simp [marshalV] at h
theorem marshalFields_avoids (io : FloatIO) (u : Bytes) (hu : u ≠ []) : ∀ (F : List FInfo) (S : List Sch) (ns : Bytes) (vs : List Val)
    (items : List Item), avoidss u S = true → (∀ f ∈ F, f.xmlns ≠ u) → (∀ n ∈ xnamess S vs, n.space ≠ u) →
    (∀ a ∈ foreigns S vs, attrUri a ≠ u) → marshalFields io ns F S vs = .ok items → u ∉ itemUris items
  | F, [], ns, vs, items, ha, hf, hx, hfo, h => by
    cases F <;> simp [marshalFields] at h <;> (subst h; simp [itemUris])
  | F, s :: S, ns, vs, items, ha, hf, hx, hfo, h => by
    cases F with
    | nil => simp [marshalFields] at h; subst h; simp [itemUris]
    | cons f F =>
    cases vs with
    | nil => simp [marshalFields] at h; subst h; simp [itemUris]
    | cons v vs =>
    simp only [avoidss, xnamess, foreigns, Bool.and_eq_true, List.mem_append] at ha hx hfo
    rw [marshalFields] at h
    cases h1 : fieldItems io f s v (marshalV io ns (some f) s v) with
    | error e => rw [h1] at h; cases h
    | ok a =>
      rw [h1] at h
      dsimp only at h
      cases h2 : marshalFields io ns F S vs with
      | error e => rw [h2] at h; cases h
      | ok b =>
        rw [h2] at h
        injection h with h
        subst h
        rw [itemUris_append, List.mem_append, not_or]
        refine ⟨?_, marshalFields_avoids io u hu F S ns vs b ha.2 (fun g hg => hf g (by simp [hg])) (fun n hn => hx n (.inr hn))
          (fun x hx => hfo x (.inr hx)) h2⟩
        unfold fieldItems at h1
        split at h1
        · injection h1 with h1; subst h1; simp [itemUris]
        split at h1
        · injection h1 with h1; subst h1; rw [charText_uris]; simp
        split at h1
        · unfold rawText at h1
          split at h1
          · injection h1 with h1; subst h1; simp [itemUris, Item.uris]
          · cases h1
        split at h1
        · injection h1 with h1; subst h1; simp [itemUris]
        · exact marshalV_avoids io u hu s ns (some f) v a ha.1 (fun g hg => by injection hg with hg; subst hg; exact hf f (by simp))
            (fun n hn => hx n (.inl hn)) (fun x hx => hfo x (.inl hx)) h1
end


/-! ### Fields and periods -/

/-- The attributes of a struct do not depend on its element fields. -/
theorem marshalAttrs_set (io : FloatIO) : ∀ (F : List FInfo) (S : List Sch) (vs : List Val) (i : Nat) (f : FInfo) (w w' : Val),
    F[i]? = some f → f.mode = .elem → marshalAttrs io F S (vs.set i w) = marshalAttrs io F S (vs.set i w')
  | [], S, vs, i, f, w, w', h, _ => by simp at h
  | g :: F, [], vs, i, f, w, w', h, hm => by simp [marshalAttrs]
  | g :: F, s :: S, [], i, f, w, w', h, hm => by simp
  | g :: F, s :: S, v :: vs, 0, f, w, w', h, hm => by
    simp only [List.getElem?_cons_zero, Option.some.injEq] at h
    subst h
    simp [marshalAttrs, hm]
  | g :: F, s :: S, v :: vs, i + 1, f, w, w', h, hm => by
    simp only [List.getElem?_cons_succ] at h
    simp only [List.set_cons_succ, marshalAttrs, marshalAttrs_set io F S vs i f w w' h hm]

/-- The content of a struct, with one field changed. -/
theorem marshalFields_set (io : FloatIO) (ns : Bytes) : ∀ (F : List FInfo) (S : List Sch) (vs : List Val) (i : Nat) (f : FInfo) (s : Sch)
    (w0 : Val) (items : List Item), F[i]? = some f → S[i]? = some s → i < vs.length →
    fieldItems io f s w0 (marshalV io ns (some f) s w0) = .ok [] → marshalFields io ns F S (vs.set i w0) = .ok items →
    ∃ a b, items = a ++ b ∧ ∀ w its, fieldItems io f s w (marshalV io ns (some f) s w) = .ok its →
      marshalFields io ns F S (vs.set i w) = .ok (a ++ its ++ b)
  | [], S, vs, i, f, s, w0, items, h, _, _, _, _ => by simp at h
  | g :: F, [], vs, i, f, s, w0, items, _, h, _, _, _ => by simp at h
  | g :: F, r :: S, [], i, f, s, w0, items, _, _, h, _, _ => by simp at h
  | g :: F, r :: S, v :: vs, 0, f, s, w0, items, h1, h2, h3, h0, h => by
    simp only [List.getElem?_cons_zero, Option.some.injEq] at h1 h2
    subst h1; subst h2
    simp only [List.set_cons_zero, marshalFields, h0] at h ⊢
    cases h4 : marshalFields io ns F S vs with
    | error e => rw [h4] at h; cases h
    | ok b =>
      rw [h4] at h
      injection h with h
      subst h
      refine ⟨[], b, rfl, fun w its hw => ?_⟩
      simp [hw]
  | g :: F, r :: S, v :: vs, i + 1, f, s, w0, items, h1, h2, h3, h0, h => by
    simp only [List.getElem?_cons_succ, List.length_cons, Nat.add_lt_add_iff_right] at h1 h2 h3
    simp only [List.set_cons_succ, marshalFields] at h ⊢
    cases h5 : fieldItems io g r v (marshalV io ns (some g) r v) with
    | error e => rw [h5] at h; cases h
    | ok a =>
      rw [h5] at h
      dsimp only at h
      cases h4 : marshalFields io ns F S (vs.set i w0) with
      | error e => rw [h4] at h; cases h
      | ok b =>
        rw [h4] at h
        injection h with h
        subst h
        obtain ⟨x, y, h6, h7⟩ := marshalFields_set io ns F S vs i f s w0 b h1 h2 h3 h0 h4
        refine ⟨a ++ x, y, by rw [h6, List.append_assoc], fun w its hw => ?_⟩
        rw [h7 w its hw]
        simp

/-- An element whose type has a name of its own is the same wherever it is written. -/
theorem marshalV_named (io : FloatIO) (ns ns' : Bytes) (fi fi' : Option FInfo) (tn : Bytes) (x : FInfo) (F : List FInfo) (S : List Sch)
    (hx : x.loc ≠ []) (v : Val) : marshalV io ns fi (.struct tn (some x) F S) v = marshalV io ns' fi' (.struct tn (some x) F S) v := by
  have hj : joinPrefixed x.pre x.loc ≠ [] := by
    unfold joinPrefixed
    split
    · exact hx
    · simp
  have hs : ∀ xv g, startName (some x) xv g tn = ⟨x.xmlns, joinPrefixed x.pre x.loc⟩ := by
    intro xv g
    simp only [startName, if_pos hx, if_pos hj]
  cases v <;> simp only [marshalV, hs, resetNs, hx, false_and, and_false, if_false]

theorem encItems_append : ∀ (a b : List Item) (p : Printer), encItems p (a ++ b) =
    (match encItems p a with
    | .error e => .error e
    | .ok (q, o) => match encItems q b with
      | .error e => .error e
      | .ok (r, o') => .ok (r, o ++ o'))
  | [], b, p => by
    simp only [List.nil_append, encItems]
    cases encItems p b <;> rfl
  | i :: a, b, p => by
    simp only [List.cons_append, encItems]
    cases encItem p i with
    | error e => rfl
    | ok r =>
      obtain ⟨q, o⟩ := r
      dsimp only
      rw [encItems_append a b q]
      cases encItems q a with
      | error e => rfl
      | ok r =>
        obtain ⟨q', o'⟩ := r
        dsimp only
        cases encItems q' b with
        | error e => rfl
        | ok r => simp

/-! ### The start tag of the manifest -/

/-- Only the namespace `x` has a prefix. -/
def OnlyKey (x : Bytes) (els : List Elem) : Prop := ∀ e ∈ els, ∀ y ∈ e.nsToPrefix, y.1 = x

theorem createPrefix_key (x : Bytes) (n : Ns) (p : Bytes) (h : OnlyKey x n.els) : OnlyKey x (createPrefix n x p).1.els := by
  unfold createPrefix
  split
  · exact h
  · split
    · exact h
    · rename_i e els he
      rw [he] at h
      intro f hf y hy
      rcases List.mem_cons.1 hf with rfl | hf
      · simp only [recordPrefix] at hy
        split at hy
        · rcases List.mem_cons.1 hy with rfl | hy
          · rfl
          · exact h e (by simp) y hy
        · exact h e (by simp) y hy
      · exact h f (by simp [hf]) y hy

theorem writeAttrs_key (x : Bytes) (hx : x ≠ xmlnsURL) : ∀ (as : List Attr) (n : Ns), (∀ a ∈ as, a.name.space = [] ∨ a.name.space = x) →
    OnlyKey x n.els → OnlyKey x (writeAttrs n as).1.els
  | [], n, _, h => h
  | a :: as, n, ha, h => by
    simp only [writeAttrs]
    refine writeAttrs_key x hx as _ (fun b hb => ha b (by simp [hb])) ?_
    unfold writeAttr
    split
    · exact h
    · dsimp only
      rcases ha a (by simp) with h1 | h1
      · rw [h1, if_neg (by decide +kernel), if_neg (by simp)]
        exact h
      · rw [h1, if_neg hx]
        split
        · exact createPrefix_key x n _ h
        · exact h

/-- The element of the manifest on the stack: it has no namespace and no prefix, and its attributes give a prefix to at most
one namespace. -/
theorem start_key (x : Bytes) (hx : x ≠ xmlnsURL) (q : Nat) (l : Bytes) (as : List Attr) (ha : ∀ a ∈ as, a.name.space = [] ∨ a.name.space = x)
    {n' : Ns} {t : Bytes} {tas : List TagAttr} (h : nsStart ⟨q, []⟩ ⟨[], l⟩ as = .ok (n', t, tas)) :
    ∃ e, n'.els = [e] ∧ e.xmlns = [] ∧ OnlyKey x n'.els := by
  unfold nsStart at h
  split at h
  · cases h
  · dsimp only at h
    injection h with h
    injection h with h _
    have hp : placeElement q [] (newElement ⟨[], l⟩) as = (⟨q, [newElement ⟨[], l⟩]⟩, false) := by
      unfold placeElement
      rw [if_pos (show (newElement ⟨[], l⟩).xmlns = [] from rfl)]
    have hn : (nameTag ⟨q, [newElement ⟨[], l⟩]⟩ false (newElement ⟨[], l⟩).xmlns (newElement ⟨[], l⟩).name).1 = ⟨q, [newElement ⟨[], l⟩]⟩ := by
      unfold nameTag
      rw [show (newElement ⟨[], l⟩).xmlns = [] from rfl]
      simp
      split <;> rfl
    rw [hp, hn] at h
    rw [← h]
    obtain ⟨f, fs, f', g1, g2, g3, g4, g5⟩ := writeAttrs_same as ⟨q, [newElement ⟨[], l⟩]⟩ (by simp)
    injection g1 with g1 g1'
    subst g1; subst g1'
    refine ⟨f', g2, g5, writeAttrs_key x hx as _ ha ?_⟩
    intro f hf y hy
    simp at hf
    subst hf
    simp [newElement] at hy

theorem blind_key {x u : Bytes} {els : List Elem} (h : OnlyKey x els) (hn : ∀ e ∈ els, e.xmlns = []) (hu : u ≠ x) : Blind els u := by
  intro e he
  refine ⟨?_, fun h1 _ h2 => h1 (by rw [← h2, hn e he])⟩
  apply Classical.byContradiction
  intro hne
  exact hu (h e he _ (mget_mem _ _ hne))

/-! ### The types of the manifest and of a period -/

/-- The namespace of `xsi:schemaLocation`. -/
def xsiNS : Bytes := b!"http://www.w3.org/2001/XMLSchema-instance"

/-- A type whose values have no captured attributes: a simple value or a pointer to one. -/
def leafSch : Sch → Bool
  | .simple _ => true
  | .ptr (.simple _) => true
  | _ => false

theorem leaf_foreign (s : Sch) (h : leafSch s = true) (v : Val) : foreign s v = [] := by
  cases s with
  | simple k => simp [foreign]
  | ptr s =>
    cases s with
    | simple k =>
      cases v with
      | ptr o => cases o <;> simp [foreign]
      | _ => simp [foreign]
    | _ => cases h
  | _ => cases h

/-- The attributes of a struct are in no namespace but `x`. -/
def attrsIn' (x : Bytes) (p : FInfo × Sch) : Bool :=
  (p.1.mode != .attr && p.1.mode != .anyAttr) || (leafSch p.2 && (p.1.xmlns == [] || p.1.xmlns == x))

theorem marshalAttrs_in (io : FloatIO) (x : Bytes) : ∀ (F : List FInfo) (S : List Sch) (vs : List Val) (as : List Attr),
    (F.zip S).all (attrsIn' x) = true → marshalAttrs io F S vs = .ok as → ∀ a ∈ as, a.name.space = [] ∨ a.name.space = x
  | [], S, vs, as, _, h, a, ha => by simp [marshalAttrs] at h; subst h; simp at ha
  | f :: F, [], vs, as, _, h, a, ha => by simp [marshalAttrs] at h; subst h; simp at ha
  | f :: F, s :: S, [], as, _, h, a, ha => by simp [marshalAttrs] at h; subst h; simp at ha
  | f :: F, s :: S, v :: vs, as, hall, h, a, ha => by
    simp only [List.zip_cons_cons, List.all_cons, Bool.and_eq_true] at hall
    rw [marshalAttrs] at h
    split at h
    · rename_i hm
      split at h
      · exact marshalAttrs_in io x F S vs as hall.2 h a ha
      · cases h1 : marshalAttr io s ⟨f.xmlns, joinPrefixed f.pre f.loc⟩ v with
        | error e => rw [h1] at h; cases h
        | ok y =>
          rw [h1] at h
          dsimp only at h
          cases h2 : marshalAttrs io F S vs with
          | error e => rw [h2] at h; cases h
          | ok z =>
            rw [h2] at h
            injection h with h
            subst h
            rcases List.mem_append.1 ha with ha | ha
            · have hl := hall.1
              unfold attrsIn' at hl
              simp only [Bool.or_eq_true, Bool.and_eq_true, bne_iff_ne, beq_iff_eq] at hl
              rcases hl with hl | hl
              · rcases hm with hm | hm
                · exact absurd hm hl.1
                · exact absurd hm hl.2
              · rcases marshalAttr_from io s _ v y h1 a ha with h3 | h3
                · rw [h3]; exact hl.2
                · rw [leaf_foreign s hl.1] at h3; simp at h3
            · exact marshalAttrs_in io x F S vs z hall.2 h2 a ha
    · exact marshalAttrs_in io x F S vs as hall.2 h a ha

/-- The place of the periods among the fields of the manifest. -/
def periodAt : Nat := locate tMPD.sch .elem (b!"Period")

theorem mpd_shape : ∃ tn x, tMPD.sch = .struct tn (some x) (fieldsOf tMPD.sch) (subsOf tMPD.sch) ∧ x.loc = (b!"MPD") ∧ x.xmlns = [] ∧ x.pre = [] := by
  have h : (match tMPD.sch with
    | .struct _ (some x) _ _ => x.loc == (b!"MPD") && x.xmlns == [] && x.pre == []
    | _ => false) = true := by decide +kernel
  revert h
  cases tMPD.sch with
  | struct tn xn F S =>
    cases xn with
    | none => intro h; cases h
    | some x =>
      intro h
      simp only [Bool.and_eq_true, beq_iff_eq] at h
      exact ⟨tn, x, rfl, h.1.1, h.1.2, h.2⟩
  | _ => intro h; cases h

theorem period_shape : ∃ tn x, tPeriod.sch = .struct tn (some x) (fieldsOf tPeriod.sch) (subsOf tPeriod.sch) ∧ x.loc ≠ [] := by
  have h : (match tPeriod.sch with
    | .struct _ (some x) _ _ => x.loc != []
    | _ => false) = true := by decide +kernel
  revert h
  cases tPeriod.sch with
  | struct tn xn F S =>
    cases xn with
    | none => intro h; cases h
    | some x =>
      intro h
      exact ⟨tn, x, rfl, by simpa using h⟩
  | _ => intro h; cases h

theorem period_field : ∃ f, (fieldsOf tMPD.sch)[periodAt]? = some f ∧ f.mode = .elem ∧ f.omitE = false := by
  have h : (match (fieldsOf tMPD.sch)[periodAt]? with
    | some f => f.mode == .elem && !f.omitE
    | none => false) = true := by decide +kernel
  split at h
  · rename_i f hf
    simp only [Bool.and_eq_true, beq_iff_eq, Bool.not_eq_true'] at h
    exact ⟨f, hf, h⟩
  · cases h

theorem period_sub : (subsOf tMPD.sch)[periodAt]? = some (.slice (.ptr tPeriod.sch)) := by krfl

theorem period_avoids : tPeriod.sch.avoids xsiNS = true := by decide +kernel

theorem mpd_attrs : ((fieldsOf tMPD.sch).zip (subsOf tMPD.sch)).all (attrsIn' xsiNS) = true := by decide +kernel

theorem period_struct : isStruct tPeriod.sch = true := by decide +kernel

theorem period_sch_ok : tPeriod.sch.ok = true := by decide +kernel

theorem period_rt : tPeriod.sch.rt mpdLocs = true := by decide +kernel

theorem period_ns : tPeriod.sch.nsRt mpdPairs [] none false = true := by decide +kernel

theorem period_noAttr : tPeriod.sch.noAttr = true := by decide +kernel

theorem period_hgt : hgt tPeriod.sch < maxDepth := by decide +kernel

end Verif.Bind

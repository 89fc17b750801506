import Verif.RtAttrs

/-!
A value that has been written is read back: for every type that satisfies `Sch.rt` and every value that satisfies `Canon`, if
the elements written for it keep their names (`resolves` is defined) and declare no prefix that is the name of an attribute.
-/
namespace Verif.Bind

open Verif.Xml

theorem Ins.trans {E : Attr → Prop} {a b c : List Attr} (h : Ins E a b) (h' : Ins E b c) : Ins E a c := by
  induction h' generalizing a with
  | nil => exact h
  | keep x h' ih =>
    cases h with
    | keep _ h => exact .keep x (ih h)
    | ins he h => exact .ins he (ih h)
  | ins he _ ih => exact .ins he (ih h)

mutual
/-- No prefix declared in a tree is in the list. -/
def NodeDecls (L : List Bytes) : Node → Prop
  | .elem _ as kids => (∀ a ∈ as, a.name.space = xmlnsURL → a.name.loc ∉ L) ∧ NodeDeclsL L kids
  | .chars _ => True
  | .raw _ _ => True
/-- The same for several trees. -/
def NodeDeclsL (L : List Bytes) : List Node → Prop
  | [] => True
  | x :: l => NodeDecls L x ∧ NodeDeclsL L l
end

theorem nodeDeclsL_append {L : List Bytes} : ∀ {a b : List Node}, NodeDeclsL L (a ++ b) → NodeDeclsL L a ∧ NodeDeclsL L b
  | [], b, h => ⟨by simp [NodeDeclsL], h⟩
  | x :: a, b, h => by
    simp only [List.cons_append, NodeDeclsL] at h ⊢
    have := nodeDeclsL_append h.2
    exact ⟨⟨h.1, this.1⟩, this.2⟩

theorem resolves_append {env : Env} : ∀ {a b : List Item} {xs : List Node}, resolves env (a ++ b) = some xs →
    ∃ x1 x2, resolves env a = some x1 ∧ resolves env b = some x2 ∧ xs = x1 ++ x2
  | [], b, xs, h => ⟨[], xs, by simp [resolves], h, rfl⟩
  | i :: a, b, xs, h => by
    simp only [List.cons_append, resolves] at h ⊢
    cases hi : resolve env i with
    | none => rw [hi] at h; cases h
    | some x =>
      rw [hi] at h
      dsimp only at h ⊢
      cases hl : resolves env (a ++ b) with
      | none => rw [hl] at h; cases h
      | some ys =>
        rw [hl] at h
        injection h with h; subst h
        obtain ⟨x1, x2, h1, h2, rfl⟩ := resolves_append hl
        exact ⟨x :: x1, x2, by rw [h1], h2, rfl⟩

/-! ### The start tag -/

theorem placeSpec_decls {env : Env} {n : Name} {attrs : List Attr} {pl : Place} (h : placeSpec env n attrs = some pl) :
    ∀ e ∈ pl.decls.map SAttr.res, e.name.space = xmlnsURL ∨ (e.name = ⟨[], xmlnsPrefix⟩ ∧ n.space ≠ []) := by
  have use : ∀ (g : Option Bytes) (u : Bytes) (decl : Bool) r, Place.ofUse g u decl r = some pl →
      ∀ e ∈ pl.decls.map SAttr.res, e.name.space = xmlnsURL := by
    intro g u decl r hr e he
    cases r with
    | none => cases hr
    | some r =>
      obtain ⟨bs, p, new⟩ := r
      simp only [Place.ofUse] at hr
      injection hr with hr; subst hr
      dsimp only at he
      split at he
      · simp only [List.map_cons, List.map_nil, List.mem_singleton] at he
        subst he; rfl
      · simp at he
  have nil : ∀ bs p g, some (Place.mk bs p [] g) = some pl → ∀ e ∈ pl.decls.map SAttr.res,
      e.name.space = xmlnsURL ∨ (e.name = ⟨[], xmlnsPrefix⟩ ∧ n.space ≠ []) := by
    intro bs p g hr e he
    injection hr with hr; subst hr
    simp at he
  unfold placeSpec at h
  dsimp only at h
  split at h
  · cases h
  split at h
  · split at h
    · exact nil _ _ _ h
    · cases h
  rename_i hsp
  split at h
  · cases h
  split at h
  · split at h
    · exact nil _ _ _ h
    · cases h
  split at h
  · exact fun e he => Or.inl (use _ _ _ _ h e he)
  split at h
  · exact nil _ _ _ h
  split at h
  · exact fun e he => Or.inl (use _ _ _ _ h e he)
  split at h
  · exact nil _ _ _ h
  split at h
  · injection h with h; subst h
    intro e he
    simp only [List.map_cons, List.map_nil, List.mem_singleton] at he
    subst he
    exact Or.inr ⟨rfl, hsp⟩
  · cases h

theorem joinPrefixed_ne {p l : Bytes} (h : l ≠ []) : joinPrefixed p l ≠ [] := by
  unfold joinPrefixed
  split
  · exact h
  · simp

/-- Attributes of a start tag that are not from the value: none goes to an attribute field. -/
theorem extra_not_attr {xn : Option FInfo} {F : List FInfo} {S : List Sch} {L : List Bytes} {fi : Option FInfo} {tn : Bytes}
    {xv : Name} (hs : StructRt xn F S) (hL : ∀ f ∈ F, f.mode = .attr → f.loc ∈ L) {e : Attr}
    (he : (e.name.space = xmlnsURL ∧ e.name.loc ∉ L) ∨ (e.name = ⟨[], xmlnsPrefix⟩ ∧
      ((startName xn xv fi tn).space ≠ [] ∨ ∃ x, xn = some x ∧ x.loc = [])))
    {i : Nat} {f : FInfo} (hi : F[i]? = some f) (hm : f.mode = .attr) : attrField F e.name ≠ some i := by
  intro h
  obtain ⟨f', h1, h2⟩ := attrField_some h
  rw [hi] at h1; injection h1 with h1; subst h1
  rcases h2 with h2 | h2
  · have hmem := List.mem_of_getElem? hi
    have hl := hL f hmem hm
    rcases he with he | ⟨he, hx⟩
    · rw [h2.2.1] at hl; exact he.2 hl
    · have h3 := h2.2.1
      rw [he] at h3
      rcases hs.xmlns with ⟨x, rfl, h4, h5⟩ | h4
      · rcases hx with hx | ⟨x', hx, hx'⟩
        · apply hx
          unfold startName
          dsimp only
          rw [if_pos h4]
          dsimp only
          rw [if_pos (joinPrefixed_ne h4)]
          exact h5
        · injection hx with hx; subst hx; exact h4 hx'
      · exact h4 f hmem hm h3
  · rw [hm] at h2; cases h2.1

theorem run_any (io : FloatIO) : ∀ (G : List Attr) (acc : List Val),
    runAt (.slice .attr) (.slice acc) (G.map (rd io)) = .ok (.slice (acc ++ G.map .attr))
  | [], acc => by simp [runAt]
  | a :: G, acc => by
    simp only [List.map_cons, runAt, rd, readAttr]
    rw [run_any io G, List.append_assoc]
    rfl

theorem attrsIn_attr (G : List Attr) : attrsIn (G.map .attr) = G := by
  induction G with
  | nil => rfl
  | cons a G ih => 
    simp only [attrsIn, List.map_cons, List.filterMap_cons] at ih ⊢
    rw [ih]

/-- The attributes of a start tag are read into the fields they were written for. -/
theorem attrs_done (io : FloatIO) {xn : Option FInfo} {F : List FInfo} {S : List Sch} {L : List Bytes}
    {fi : Option FInfo} {tn : Bytes} {xv : Name} (hs : StructRt xn F S) (hL : ∀ f ∈ F, f.mode = .attr → f.loc ∈ L)
    {vs : List Val} {attrs : List Attr} (hok : oks S = true) (ht : Typeds S vs) (hc : Canons io F S vs)
    (ha : AnyOk F vs) (hm : marshalAttrs io F S vs = .ok attrs) {env : Env} {ns : Bytes} {pl : Place}
    (hpl : placeSpec env (startName xn xv fi tn) (attrs ++ resetNs ns xn (startName xn xv fi tn)) = some pl)
    {bs : List (Bytes × Bytes)} {as : List SAttr}
    (has : attrsSpec pl.bs (attrs ++ resetNs ns xn (startName xn xv fi tn)) = some (bs, as))
    (hd : ∀ a ∈ (pl.decls ++ as).map SAttr.res, a.name.space = xmlnsURL → a.name.loc ∉ L) :
    ∀ (i : Nat) (f : FInfo) (s : Sch) (v : Val), F[i]? = some f → S[i]? = some s → vs[i]? = some v →
      (f.mode = .attr ∨ f.mode = .anyAttr → ∃ w,
        runAt s s.zero ((goes F i ((pl.decls ++ as).map SAttr.res)).map (rd io)) = .ok w ∧ Back s v w) ∧
      (required f s = true → goes F i ((pl.decls ++ as).map SAttr.res) ≠ []) ∧
      (f.mode ≠ .attr → f.mode ≠ .anyAttr → goes F i ((pl.decls ++ as).map SAttr.res) = []) := by
  obtain ⟨hloc, hdone⟩ := attrs_fields io hs F S vs attrs [] rfl hs.rt hok ht hc
    (fun j f l h1 h2 h3 a h4 => by simpa using ha j f l h1 h2 h3 a h4) hm
  have hreset : ∀ a ∈ resetNs ns xn (startName xn xv fi tn), a = ⟨⟨[], xmlnsPrefix⟩, []⟩ ∧ ∃ x, xn = some x ∧ x.loc = [] := by
    intro a h
    unfold resetNs at h
    split at h
    · simp at h
    · rename_i x
      split at h
      · rename_i hx
        simp at h
        exact ⟨h, x, rfl, hx.2.2.1⟩
      · simp at h
  have hins := attrsSpec_ins has (by
    intro a h
    rcases List.mem_append.1 h with h | h
    · exact hloc a h
    · rw [(hreset a h).1]; decide)
  let E : Attr → Prop := fun e => (e.name.space = xmlnsURL ∧ e.name.loc ∉ L) ∨ (e.name = ⟨[], xmlnsPrefix⟩ ∧
      ((startName xn xv fi tn).space ≠ [] ∨ ∃ x, xn = some x ∧ x.loc = []))
  have hE : Ins E (attrs.map resA) ((pl.decls ++ as).map SAttr.res) := by
    rw [List.map_append] at hd ⊢
    have h1 : Ins E (attrs.map resA) ((attrs ++ resetNs ns xn (startName xn xv fi tn)).map resA) := by
      rw [List.map_append]
      have := (Ins.refl E (attrs.map resA)).append (Ins.all (E := E)
        (m := (resetNs ns xn (startName xn xv fi tn)).map resA) (by
          intro e he
          obtain ⟨a, h, rfl⟩ := List.mem_map.1 he
          obtain ⟨rfl, hx⟩ := hreset a h
          refine Or.inr ⟨?_, Or.inr hx⟩
          decide +kernel))
      simpa using this
    have h2 : Ins E ((attrs ++ resetNs ns xn (startName xn xv fi tn)).map resA) (as.map SAttr.res) :=
      hins.mono fun e he hx => Or.inl ⟨hx, hd e (List.mem_append_right _ he) hx⟩
    have h3 : Ins E ([] ++ attrs.map resA) (pl.decls.map SAttr.res ++ as.map SAttr.res) :=
      (Ins.all (E := E) (m := pl.decls.map SAttr.res) (by
        intro e he
        rcases placeSpec_decls hpl e he with hx | hx
        · exact Or.inl ⟨hx, hd e (List.mem_append_left _ he) hx⟩
        · exact Or.inr ⟨hx.1, Or.inl hx.2⟩)).append (h1.trans h2)
    simpa using h3
  intro i f s v h1 h2 h3
  obtain ⟨d1, d2⟩ := (hdone i).2 i f s v (by simp) h1 h2 h3
  have hattr : f.mode = .attr → goes F i ((pl.decls ++ as).map SAttr.res) = goes F i (attrs.map resA) := by
    intro hma
    unfold goes
    refine hE.filter_out _ fun e _ he => ?_
    simpa using extra_not_attr hs hL he h1 hma
  refine ⟨?_, ?_, ?_⟩
  · rintro (hma | hma)
    · rw [hattr hma]
      exact (d1 hma).1
    · obtain ⟨l, rfl, rfl, hG⟩ := d2 hma
      refine ⟨_, run_any io _ [], ?_⟩
      simp only [Back, Sch.isAttr, if_true, List.nil_append, attrsIn_attr]
      rw [← hG]
      unfold goes
      exact (hE.filter _).mono fun e _ he => by
        rcases he with he | he
        · exact Or.inl he.1
        · exact Or.inr he.1
  · intro hr
    have hma : f.mode = .attr := by
      simp only [required, Bool.and_eq_true, beq_iff_eq] at hr
      exact hr.1.1
    rw [hattr hma]
    exact (d1 hma).2 hr
  · intro hma hmb
    unfold goes
    rw [List.filter_eq_nil_iff]
    intro a _ h
    obtain ⟨f', k1, k2⟩ := attrField_some (of_decide_eq_true h)
    rw [h1] at k1; injection k1 with k1; subst k1
    rcases k2 with k2 | k2
    · exact hma k2.1
    · exact hmb k2.1

/-! ### Elements -/

/-- A name that a field accepts. -/
def NameFit (fi : Option FInfo) (n : Name) : Prop := ∀ f, fi = some f → n.loc = f.loc ∧ (f.xmlns = [] ∨ n.space = f.xmlns)

/-- Reading an element into a field. -/
def rk (io : FloatIO) (d : Nat) (t : XTree) : Upd := fun s v => readT io true (d + 1) s v t

/-- What is read in place of `w`, the value read for `v` without indentation. -/
def Near (plain : Bool) (s : Sch) (v w w' : Val) : Prop := Loose s w w' ∧ (plain = true ∨ NoMix s v → w' = w)

/-- A value that is one element is written as such, and read back. -/
def One (io : FloatIO) (L : List Bytes) (s : Sch) : Prop :=
  ∀ (fi : Option FInfo) (v : Val) (ns : Bytes) (env : Env) (items : List Item) (xs : List Node), Typed s v →
    Canon io fi s v → v.isNil = false → (∀ f, fi = some f → tagOk f = true) →
    (fi = none → ∃ a b c d, s = .struct a b c d) → marshalV io ns fi s v = .ok items → resolves env items = some xs →
    NodeDeclsL L xs → ∃ n as kids, xs = [.elem n as kids] ∧ NameFit fi n ∧ ∃ w, Back s v w ∧
      ∀ plain t, Sees plain (.elem n as kids) t → ∀ top d, (top = true ∨ s.isPtr = false) → d + hgt s < maxDepth →
        ∃ w', Near plain s v w w' ∧ readT io top d s s.zero t = .ok w'

/-- The value of an element field is read back. -/
def Field (io : FloatIO) (L : List Bytes) (s : Sch) : Prop :=
  ∀ (f : FInfo) (v : Val) (ns : Bytes) (env : Env) (items : List Item) (xs : List Node), Typed s v →
    Canon io (some f) s v → tagOk f = true → marshalV io ns (some f) s v = .ok items →
    resolves env items = some xs → NodeDeclsL L xs →
    (∀ x ∈ xs, ∃ n as kids, x = .elem n as kids ∧ NameFit (some f) n) ∧ (v.isNil = true → xs = []) ∧
    ∃ w, Back s v w ∧ ∀ plain ts, SeesL plain xs ts → ∀ d, d + 1 + hgt s < maxDepth →
      ∃ w', Near plain s v w w' ∧ runAt s s.zero ((ts.filter fun t => !isLeafT t).map (rk io d)) = .ok w'

theorem place_plain (f : Nat → Sch → Val → Except RErr Val) (top : Bool) (d : Nat) (s : Sch) (v : Val)
    (hs : oneShape s = true) (hd : d < maxDepth) : place f top d s v = f d s v := by
  have : ¬ maxDepth ≤ d := by omega
  cases s with
  | simple k => cases top <;> simp only [place, if_neg this]
  | struct _ _ _ _ => cases top <;> simp only [place, if_neg this]
  | _ => simp [oneShape] at hs

/-- The content of an element shows what was written. -/
def Shows (plain : Bool) (kids : List Node) (ts : List XTree) (inner : Bytes) : Prop :=
  (∀ b, rawOf kids = some b → inner = b) ∧ (rawOf kids = none → SeesL plain kids ts ∧
    (plain = true ∨ noElem kids = true → dataOf ts = charsOf kids) ∧ Spread kids (dataOf ts))

theorem sees_elem {plain : Bool} {n : Name} {as : List Attr} {kids : List Node} {t : XTree}
    (h : Sees plain (.elem n as kids) t) : ∃ b a ts en eb ea, t = .elem n as b a ts en eb ea ∧
      Shows plain kids ts (a.take (a.length - eb.length)) := by
  cases t with
  | leaf _ _ _ => simp [Sees] at h
  | elem n' as' b a ts en eb ea =>
    simp only [Sees] at h
    obtain ⟨rfl, rfl, h1, h2⟩ := h
    refine ⟨b, a, ts, en, eb, ea, rfl, fun c hc => ?_, h2⟩
    rw [h1 c hc]
    simp

/-- The name of an element after writing. -/
theorem resolve_elem {env : Env} {n : Name} {attrs : List Attr} {kids : List Item} {x : Node}
    (h : resolve env (.elem n attrs kids) = some x) : ∃ pl bs as ks d, placeSpec env n attrs = some pl ∧
      attrsSpec pl.bs attrs = some (bs, as) ∧
      ((∃ env', resolves env' kids = some ks) ∨ ∃ b ts, kids = [.raw b] ∧ ks = [.raw b ts]) ∧
      x = .elem ⟨if n.space = [] then d else n.space, (splitPrefixed n.loc).2⟩ ((pl.decls ++ as).map SAttr.res) ks := by
  simp only [resolve] at h
  split at h
  · cases h
  rename_i pl hpl
  split at h
  · cases h
  rename_i bs as has
  split at h
  · cases h
  cases hrk : rawKid kids with
  | some b =>
    rw [hrk] at h
    dsimp only at h
    split at h
    · cases h
    injection h with h
    exact ⟨pl, bs, as, _, _, hpl, has, Or.inr ⟨b, _, rawKid_some hrk, rfl⟩, h.symm⟩
  | none =>
    rw [hrk] at h
    dsimp only at h
    split at h
    · cases h
    rename_i ks hks
    injection h with h
    exact ⟨pl, bs, as, ks, _, hpl, has, Or.inl ⟨_, hks⟩, h.symm⟩

/-- Content written as it is is resolved only as the only content of an element. -/
theorem resolves_plain {env : Env} : ∀ {l : List Item} {xs : List Node}, resolves env l = some xs → rawOf xs = none
  | [], xs, h => by simp only [resolves] at h; injection h with h; subst h; rfl
  | i :: l, xs, h => by
    simp only [resolves] at h
    split at h
    · cases h
    rename_i x hx
    split at h
    · cases h
    rename_i ys hys
    injection h with h
    subst h
    cases i with
    | elem n attrs kids =>
      obtain ⟨_, _, _, _, _, _, _, _, rfl⟩ := resolve_elem hx
      rfl
    | text b => simp only [resolve] at hx; injection hx with hx; subst hx; rfl
    | str b => simp only [resolve] at hx; injection hx with hx; subst hx; rfl
    | raw b => simp [resolve] at hx

theorem resolves_one {env : Env} {i : Item} {xs : List Node} (h : resolves env [i] = some xs) :
    ∃ x, resolve env i = some x ∧ xs = [x] := by
  simp only [resolves] at h
  split at h
  · cases h
  rename_i x hx
  injection h with h
  exact ⟨x, hx, h.symm⟩

theorem simple_one (io : FloatIO) (L : List Bytes) (k : Kind) (hk : contentKind k = true) :
    One io L (.simple k) := by
  intro fi v ns env items xs ht hc _ htag hfi hm hr hd
  cases fi with
  | none =>
    obtain ⟨_, _, _, _, h⟩ := hfi rfl
    cases h
  | some f =>
    obtain ⟨b, h1, h2, h3⟩ := leaf_content io k v ht hk (by simpa [Canon] using hc)
    have hm' : marshalV io ns (some f) (.simple k) v = .ok [.elem ⟨f.xmlns, joinPrefixed f.pre f.loc⟩ [] [.str b]] := by
      obtain ⟨sp, sne, sx⟩ := splitPrefixed_tag (htag f rfl)
      have hst : startName none ⟨[], []⟩ (some f) [] = ⟨f.xmlns, joinPrefixed f.pre f.loc⟩ := by
        simp [startName, sne]
      cases v <;> first | (simp only [marshalV, h1, hst]) | (simp [marshalSimple] at h1; done)
    rw [hm'] at hm
    injection hm with hm; subst hm
    obtain ⟨x, hx, rfl⟩ := resolves_one hr
    obtain ⟨pl, bs, as, ks, d, _, _, hks, rfl⟩ := resolve_elem hx
    obtain ⟨env', hks⟩ := hks.resolve_right fun ⟨_, _, h, _⟩ => by cases h
    obtain ⟨y, hy, rfl⟩ := resolves_one hks
    simp only [resolve] at hy
    injection hy with hy; subst hy
    obtain ⟨sp, sne, sx⟩ := splitPrefixed_tag (htag f rfl)
    refine ⟨_, _, _, rfl, ?_, ?_⟩
    · intro f' hf'
      injection hf' with hf'; subst hf'
      refine ⟨by rw [sp], ?_⟩
      by_cases he : f.xmlns = []
      · exact Or.inl he
      · right; simp [he]
    · refine ⟨v, ?_, ?_⟩
      rotate_left
      · intro plain t ht' top d' _ hd'
        refine ⟨v, ⟨by simp [Loose], fun _ => rfl⟩, ?_⟩
        obtain ⟨b1, a1, ts, en, eb, ea, rfl, hsh⟩ := sees_elem ht'
        obtain ⟨_, h5, _⟩ := hsh.2 rfl
        rw [readT, place_plain _ _ _ _ _ (by simpa [oneShape] using hk) (by omega)]
        simp only [readBody]
        rw [h5 (Or.inr rfl)]
        simp only [charsOf, h2, List.append_nil]
        exact h3
      · simp only [Back]
        cases k <;> simp only [contentKind, Bool.false_eq_true] at hk <;> simp [SameLeaf]

theorem ptr_one (io : FloatIO) (L : List Bytes) (s : Sch) (hs : oneShape s = true)
    (h : One io L s) : ∀ (fi : Option FInfo), fi ≠ none → ∀ (v : Val) (ns : Bytes) (env : Env) (items : List Item)
    (xs : List Node), Typed (.ptr s) v → Canon io fi (.ptr s) v → v.isNil = false →
    (∀ f, fi = some f → tagOk f = true) → marshalV io ns fi (.ptr s) v = .ok items → resolves env items = some xs →
    NodeDeclsL L xs → ∃ n as kids, xs = [.elem n as kids] ∧ NameFit fi n ∧ ∃ w, Back (.ptr s) v w ∧
      ∀ plain t, Sees plain (.elem n as kids) t → ∀ d, d + hgt s < maxDepth →
        ∃ w', Near plain (.ptr s) v w w' ∧ readT io true d (.ptr s) (Sch.ptr s).zero t = .ok w' := by
  intro fi hfi v ns env items xs ht hc hn htag hm hr hd
  cases v with
  | ptr o =>
    cases o with
    | none => simp [Val.isNil] at hn
    | some v =>
      simp only [Typed] at ht
      simp only [Canon] at hc
      simp only [marshalV] at hm
      obtain ⟨n, as, kids, rfl, hf, w, hb, hread⟩ := h fi v ns env items xs ht hc.2 hc.1 htag (fun h => absurd h hfi) hm hr hd
      refine ⟨n, as, kids, rfl, hf, .ptr (some w), by simpa [Back] using hb, fun plain t hsee d hdep => ?_⟩
      obtain ⟨w', hnear, hw⟩ := hread plain t hsee false d (Or.inr (by cases s <;> simp_all [oneShape, Sch.isPtr])) hdep
      refine ⟨.ptr (some w'), ⟨by simpa [Loose] using hnear.1, fun h => ?_⟩, ?_⟩
      · rw [hnear.2 (by simpa [NoMix] using h)]
      obtain ⟨b1, a1, ts, en, eb, ea, rfl, _⟩ := sees_elem hsee
      rw [readT] at hw ⊢
      simp only [place, Val.deref, Sch.zero]
      rw [if_neg (by omega), hw]
      rfl
  | _ => simp [Typed] at ht

theorem sees_leafless {plain : Bool} {x : Node} {t : XTree} (h : Sees plain x t) : isLeafT t = false := by
  cases x with
  | chars _ => simp [Sees] at h
  | raw _ _ => simp [Sees] at h
  | elem n as kids =>
    obtain ⟨_, _, _, _, _, _, rfl, _⟩ := sees_elem h
    rfl

theorem filter_leaves {ts : List XTree} (h : ∀ t ∈ ts, isLeafT t = true) : (ts.filter fun t => !isLeafT t) = [] := by
  rw [List.filter_eq_nil_iff]
  intro t ht
  simp [h t ht]

theorem filter_one {plain : Bool} {n : Name} {as : List Attr} {kids : List Node} {l : List Node} {ts : List XTree}
    (h : SeesL plain (.elem n as kids :: l) ts) : ∃ t post, Sees plain (.elem n as kids) t ∧ SeesL plain l post ∧
      (ts.filter fun t => !isLeafT t) = t :: (post.filter fun t => !isLeafT t) := by
  simp only [SeesL] at h
  obtain ⟨pre, t, post, rfl, h1, h2, h3⟩ := h
  refine ⟨t, post, h2, h3, ?_⟩
  rw [List.filter_append, filter_leaves h1, List.filter_cons, sees_leafless h2]
  rfl

theorem one_field (io : FloatIO) (L : List Bytes) (s : Sch) (hs : oneShape s = true)
    (h : One io L s) : Field io L s := by
  intro f v ns env items xs ht hc htag hm hr hd
  have hn : v.isNil = false := by
    cases s with
    | simple k => cases k <;> cases v <;> simp_all [Typed, KindOk, Val.isNil]
    | struct _ _ _ _ => cases v <;> simp_all [Typed, Val.isNil]
    | _ => simp [oneShape] at hs
  obtain ⟨n, as, kids, rfl, hf, w, hb, hread⟩ := h (some f) v ns env items xs ht hc hn (by simpa using htag) (by simp) hm hr hd
  refine ⟨?_, ?_, w, hb, ?_⟩
  rotate_left
  · rw [hn]; intro h; cases h
  rotate_left
  · intro x hx
    simp at hx
    exact ⟨n, as, kids, hx, hf⟩
  · intro plain ts hts d hdep
    obtain ⟨t, post, h1, h2, h3⟩ := filter_one hts
    simp only [SeesL] at h2
    obtain ⟨w', hnear, hw⟩ := hread plain t h1 true (d + 1) (Or.inl rfl) hdep
    refine ⟨w', hnear, ?_⟩
    rw [h3, filter_leaves h2]
    simp only [List.map_cons, List.map_nil, runAt, rk, hw]

theorem ptr_field (io : FloatIO) (L : List Bytes) (s : Sch) (hs : oneShape s = true)
    (h : One io L s) : Field io L (.ptr s) := by
  intro f v ns env items xs ht hc htag hm hr hd
  by_cases hn : v.isNil = true
  · have hv : v = .ptr none := by
      cases v with
      | ptr o => cases o <;> simp_all [Val.isNil]
      | _ => simp [Typed] at ht
    subst hv
    simp only [marshalV] at hm
    injection hm with hm; subst hm
    simp only [resolves] at hr
    injection hr with hr; subst hr
    refine ⟨by simp, fun _ => rfl, .ptr none, by simp [Back], fun plain ts hts d _ => ⟨.ptr none, ⟨by simp [Loose], fun _ => rfl⟩, ?_⟩⟩
    simp only [SeesL] at hts
    rw [filter_leaves hts]
    simp [runAt, Sch.zero]
  · obtain ⟨n, as, kids, rfl, hf, w, hb, hread⟩ := ptr_one io L s hs h (some f) (by simp) v ns env items xs ht hc
      (by simpa using hn) (by simpa using htag) hm hr hd
    refine ⟨?_, fun h => absurd h hn, w, hb, ?_⟩
    · intro x hx
      simp at hx
      exact ⟨n, as, kids, hx, hf⟩
    · intro plain ts hts d hdep
      obtain ⟨t, post, h1, h2, h3⟩ := filter_one hts
      simp only [SeesL] at h2
      obtain ⟨w', hnear, hw⟩ := hread plain t h1 (d + 1) (by simpa [hgt] using hdep)
      refine ⟨w', hnear, ?_⟩
      rw [h3, filter_leaves h2]
      simp only [List.map_cons, List.map_nil, runAt, rk, hw]

/-- A list whose members are elements. -/
theorem slice_field (io : FloatIO) (L : List Bytes) (s : Sch) (hna : s.isAttr = false)
    (hemp : ∀ v, Typed s v → v.isNil = false → isEmpty s v = false)
    (h : ∀ (f : FInfo) (v : Val) (ns : Bytes) (env : Env) (items : List Item) (xs : List Node), Typed s v →
      Canon io (some f) s v → v.isNil = false → tagOk f = true → marshalV io ns (some f) s v = .ok items →
      resolves env items = some xs → NodeDeclsL L xs → ∃ n as kids, xs = [.elem n as kids] ∧ NameFit (some f) n ∧
      ∃ w, Back s v w ∧ ∀ plain t, Sees plain (.elem n as kids) t → ∀ d, d + hgt s < maxDepth →
        ∃ w', Near plain s v w w' ∧ readT io true d s s.zero t = .ok w') : Field io L (.slice s) := by
  intro f v ns env items xs ht hc htag hm hr hd
  obtain ⟨l, rfl, hl⟩ := slice_typed ht
  simp only [Canon] at hc
  simp only [marshalV] at hm
  clear ht
  have key : ∀ (l : List Val) (items : List Item) (xs : List Node), (∀ v ∈ l, Typed s v) →
      (∀ v ∈ l, v.isNil = false ∧ Canon io (some f) s v) →
      concatM (l.map fun v => if omits (some f) s v then .ok [] else marshalV io ns (some f) s v) = .ok items →
      resolves env items = some xs → NodeDeclsL L xs →
      (∀ x ∈ xs, ∃ n as kids, x = .elem n as kids ∧ NameFit (some f) n) ∧ (l = [] → xs = []) ∧
      ∃ ws, List.Forall₂ (Back s) l ws ∧ ∀ plain ts, SeesL plain xs ts → ∀ d, d + 1 + hgt (.slice s) < maxDepth →
        ∃ ws', List.Forall₂ (Loose s) ws ws' ∧ (plain = true ∨ (∀ v ∈ l, NoMix s v) → ws' = ws) ∧ ∀ acc,
          runAt (.slice s) (.slice acc) ((ts.filter fun t => !isLeafT t).map (rk io d)) = .ok (.slice (acc ++ ws')) := by
    intro l
    induction l with
    | nil =>
      intro items xs _ _ hm hr hd
      simp only [List.map_nil, concatM] at hm
      injection hm with hm; subst hm
      simp only [resolves] at hr
      injection hr with hr; subst hr
      refine ⟨by simp, fun _ => rfl, [], .nil, fun plain ts hts d _ => ⟨[], .nil, fun _ => rfl, fun acc => ?_⟩⟩
      simp only [SeesL] at hts
      rw [filter_leaves hts]
      simp [runAt]
    | cons v l ih =>
      intro items xs hl hc hm hr hd
      have hv := hc v (by simp)
      have hom : omits (some f) s v = false := by
        simp only [omits, hemp v (hl v (by simp)) hv.1, Bool.and_false]
      simp only [List.map_cons, hom, Bool.false_eq_true, if_false] at hm
      cases hmv : marshalV io ns (some f) s v with
      | error e => rw [hmv] at hm; simp [concatM] at hm
      | ok a =>
        rw [hmv] at hm
        simp only [concatM] at hm
        split at hm
        · cases hm
        · rename_i b hb'
          injection hm with hm; subst hm
          obtain ⟨x1, x2, hr1, hr2, rfl⟩ := resolves_append hr
          obtain ⟨hd1, hd2⟩ := nodeDeclsL_append hd
          obtain ⟨n, as, kids, rfl, hf, w, hb, hread⟩ := h f v ns env a x1 (hl v (by simp)) hv.2 hv.1 htag hmv hr1 hd1
          obtain ⟨i1, _, ws, k1, i3⟩ := ih b x2 (fun v hv => hl v (by simp [hv])) (fun v hv => hc v (by simp [hv])) hb' hr2 hd2
          refine ⟨?_, by simp, w :: ws, .cons hb k1, ?_⟩
          · intro x hx
            rcases List.mem_append.1 hx with hx | hx
            · simp at hx; exact ⟨n, as, kids, hx, hf⟩
            · exact i1 x hx
          · intro plain ts hts d hdep
            obtain ⟨t, post, h1, h2, h3⟩ := filter_one hts
            obtain ⟨ws', hl', hn', k2⟩ := i3 plain post h2 d hdep
            have hdep' := hdep
            simp only [hgt] at hdep'
            obtain ⟨w', hnear, hw⟩ := hread plain t h1 (d + 2) (by omega)
            refine ⟨w' :: ws', .cons hnear.1 hl', fun h => ?_, fun acc => ?_⟩
            · rw [hnear.2 (h.imp_right fun h => h v (by simp)), hn' (h.imp_right fun h v hv => h v (by simp [hv]))]
            rw [h3]
            simp only [List.map_cons, runAt]
            have : rk io d t (.slice s) (.slice acc) = .ok (.slice (acc ++ [w'])) := by
              obtain ⟨b1, a1, ts', en, eb, ea, rfl, _⟩ := sees_elem h1
              simp only [rk]
              rw [readT] at hw ⊢
              simp only [place]
              rw [if_neg (by omega), hw]
              rfl
            rw [this]
            dsimp only
            rw [k2, List.append_assoc]
            rfl
  obtain ⟨k1, k2, ws, h1, k3⟩ := key l items xs hl hc hm hr hd
  refine ⟨k1, ?_, .slice ws, ?_, fun plain ts hts d hdep => ?_⟩
  · intro hn
    cases l with
    | nil => exact k2 rfl
    | cons _ _ => simp [Val.isNil] at hn
  · simp only [Back, hna, Bool.false_eq_true, if_false]
    exact h1
  · obtain ⟨ws', e1, e2, e3⟩ := k3 plain ts hts d hdep
    refine ⟨.slice ws', ⟨by simpa [Loose] using e1, fun h => ?_⟩, by simpa [Sch.zero] using e3 []⟩
    rw [e2 (by simpa [NoMix] using h)]

/-! ### The content of an element -/

/-- The elements that go to field `i`. -/
def goesK (F : List FInfo) (i : Nat) (ts : List XTree) : List XTree :=
  ts.filter fun t => decide ((nameOfT t).bind (elemField F) = some i)

theorem opsAt_kidOps (io : FloatIO) (d : Nat) (F : List FInfo) (i : Nat) : ∀ ts : List XTree,
    opsAt i (kidOps io d F ts) = (goesK F i ts).map (rk io d)
  | [] => rfl
  | t :: ts => by
    have ih := opsAt_kidOps io d F i ts
    simp only [kidOps, goesK, List.filterMap_cons, List.filter_cons] at ih ⊢
    cases h : (nameOfT t).bind (elemField F) with
    | none => simp only [Option.map_none]; simpa using ih
    | some j =>
      simp only [Option.map_some, opsAt_cons, ih]
      by_cases hij : j = i
      · subst hij; simp; rfl
      · rw [if_neg hij, if_neg (by simpa using hij)]

theorem goesK_append (F : List FInfo) (i : Nat) (a b : List XTree) : goesK F i (a ++ b) = goesK F i a ++ goesK F i b := by
  simp [goesK]

theorem goesK_leaves {F : List FInfo} {i : Nat} {ts : List XTree} (h : ∀ t ∈ ts, isLeafT t = true) : goesK F i ts = [] := by
  unfold goesK
  rw [List.filter_eq_nil_iff]
  intro t ht
  have := h t ht
  cases t with
  | leaf _ _ _ => simp [nameOfT]
  | elem _ _ _ _ _ _ _ _ => simp [isLeafT] at this

theorem seesL_names {plain : Bool} {P : Name → Prop} : ∀ {xs : List Node} {ts : List XTree},
    (∀ x ∈ xs, ∃ n as kids, x = .elem n as kids ∧ P n) → SeesL plain xs ts →
    ∀ t ∈ ts, isLeafT t = true ∨ ∃ n, nameOfT t = some n ∧ P n
  | [], ts, _, h, t, ht => by simp only [SeesL] at h; exact Or.inl (h t ht)
  | x :: xs, ts, hx, h, t, ht => by
    obtain ⟨n, as, kids, rfl, hp⟩ := hx x (by simp)
    simp only [SeesL] at h
    obtain ⟨pre, t', post, rfl, h1, h2, h3⟩ := h
    rcases List.mem_append.1 ht with ht | ht
    · exact Or.inl (h1 t ht)
    rcases List.mem_cons.1 ht with rfl | ht
    · obtain ⟨_, _, _, _, _, _, rfl, _⟩ := sees_elem h2
      exact Or.inr ⟨n, rfl, hp⟩
    · exact seesL_names (fun x hx' => hx x (by simp [hx'])) h3 t ht

theorem elemField_own {xn : Option FInfo} {F : List FInfo} {S : List Sch} (hs : StructRt xn F S) {i : Nat} {f : FInfo}
    (hi : F[i]? = some f) (hm : f.mode = .elem) {n : Name} (hn : NameFit (some f) n) : elemField F n = some i := by
  obtain ⟨h1, h2⟩ := hn f rfl
  unfold elemField
  refine findIdx?_unique hi ?_ fun j fj hj hp => ?_
  · simp only [hm, h1, beq_self_eq_true, Bool.true_and, Bool.and_true, Bool.or_eq_true, beq_iff_eq]
    rcases h2 with h2 | h2
    · exact Or.inl h2
    · exact Or.inr h2.symm
  · simp only [Bool.and_eq_true, beq_iff_eq] at hp
    exact hs.locs j i fj f hj hi (hp.1.1.trans hm.symm) (Or.inl hp.1.1) (hp.2.trans h1)

theorem goesK_own {xn : Option FInfo} {F : List FInfo} {S : List Sch} (hs : StructRt xn F S) {k : Nat} {f : FInfo}
    (hi : F[k]? = some f) (hm : f.mode = .elem) {ts : List XTree}
    (h : ∀ t ∈ ts, isLeafT t = true ∨ ∃ n, nameOfT t = some n ∧ NameFit (some f) n) :
    goesK F k ts = (ts.filter fun t => !isLeafT t) ∧ ∀ i, i ≠ k → goesK F i ts = [] := by
  have key : ∀ t ∈ ts, isLeafT t = false → (nameOfT t).bind (elemField F) = some k := by
    intro t ht hl
    rcases h t ht with h | ⟨n, h1, h2⟩
    · rw [hl] at h; cases h
    · rw [h1, Option.bind_some, elemField_own hs hi hm h2]
  have key' : ∀ t ∈ ts, isLeafT t = true → (nameOfT t).bind (elemField F) = none := by
    intro t ht hl
    cases t with
    | leaf _ _ _ => rfl
    | elem _ _ _ _ _ _ _ _ => simp [isLeafT] at hl
  constructor
  · unfold goesK
    refine List.filter_congr fun t ht => ?_
    cases hl : isLeafT t with
    | true => rw [key' t ht hl]; rfl
    | false => rw [key t ht hl]; simp
  · intro i hik
    unfold goesK
    rw [List.filter_eq_nil_iff]
    intro t ht
    cases hl : isLeafT t with
    | true => rw [key' t ht hl]; simp
    | false => rw [key t ht hl]; simpa using fun h => hik h.symm

theorem charsOf_append : ∀ a b : List Node, charsOf (a ++ b) = charsOf a ++ charsOf b
  | [], b => rfl
  | .chars _ :: a, b => by simp [charsOf, charsOf_append a b]
  | .raw .. :: a, b => by simp [charsOf, charsOf_append a b]
  | .elem .. :: a, b => by simp [charsOf, charsOf_append a b]

theorem noElem_append : ∀ a b : List Node, noElem (a ++ b) = (noElem a && noElem b)
  | [], b => by simp [noElem]
  | .chars _ :: a, b => by simp [noElem, noElem_append a b]
  | .raw .. :: a, b => by simp [noElem, noElem_append a b]
  | .elem .. :: a, b => by simp [noElem]

theorem charsOf_elems : ∀ {xs : List Node}, (∀ x ∈ xs, ∃ n as kids, x = .elem n as kids) → charsOf xs = []
  | [], _ => rfl
  | x :: xs, h => by
    obtain ⟨n, as, kids, rfl⟩ := h x (by simp)
    simp only [charsOf]
    exact charsOf_elems fun x hx => h x (by simp [hx])

/-- The number of texts. -/
def nChars : List Node → Nat
  | [] => 0
  | .chars _ :: l => nChars l + 1
  | .elem .. :: l => nChars l
  | .raw .. :: l => nChars l

theorem nChars_append : ∀ a b : List Node, nChars (a ++ b) = nChars a + nChars b
  | [], b => by simp [nChars]
  | .chars _ :: a, b => by simp [nChars, nChars_append a b]; omega
  | .elem .. :: a, b => by simp [nChars, nChars_append a b]
  | .raw .. :: a, b => by simp [nChars, nChars_append a b]

theorem nChars_elems : ∀ {xs : List Node}, (∀ x ∈ xs, ∃ n as kids, x = .elem n as kids) → nChars xs = 0
  | [], _ => rfl
  | x :: xs, h => by
    obtain ⟨n, as, kids, rfl⟩ := h x (by simp)
    simp only [nChars]
    exact nChars_elems fun x hx => h x (by simp [hx])

theorem charsOf_none : ∀ {xs : List Node}, nChars xs = 0 → charsOf xs = []
  | [], _ => rfl
  | .chars _ :: _, h => by simp [nChars] at h
  | .elem .. :: l, h => by
    simp only [nChars] at h
    simp only [charsOf]
    exact charsOf_none h
  | .raw .. :: l, h => by
    simp only [nChars] at h
    simp only [charsOf]
    exact charsOf_none h

theorem spread_none : ∀ {xs : List Node} {d : Bytes}, nChars xs = 0 → Spread xs d → IsWs d
  | [], d, _, h => h
  | .chars _ :: _, d, h, _ => by simp [nChars] at h
  | .elem .. :: l, d, h, hs => by
    simp only [nChars] at h
    obtain ⟨p, r, h1, rfl, h2⟩ := hs
    exact isWs_append h1 (spread_none h h2)
  | .raw .. :: l, d, h, hs => by
    simp only [nChars] at h
    simp only [Spread] at hs
    exact spread_none h hs

/-- A single text keeps its bytes. -/
theorem spread_one : ∀ {xs : List Node} {d : Bytes}, nChars xs ≤ 1 → Spread xs d →
    ∃ p q, IsWs p ∧ IsWs q ∧ d = p ++ charsOf xs ++ q
  | [], d, _, h => ⟨d, [], h, by simp [IsWs], by simp [charsOf]⟩
  | .chars b :: l, d, h, hs => by
    simp only [nChars] at h
    obtain ⟨r, rfl, h2⟩ := hs
    have h0 : nChars l = 0 := by omega
    exact ⟨[], r, by simp [IsWs], spread_none h0 h2, by simp [charsOf, charsOf_none h0]⟩
  | .elem .. :: l, d, h, hs => by
    simp only [nChars] at h
    obtain ⟨p, r, h1, rfl, h2⟩ := hs
    obtain ⟨p', q, h3, h4, rfl⟩ := spread_one h h2
    exact ⟨p ++ p', q, isWs_append h1 h3, h4, by simp [charsOf]⟩
  | .raw .. :: l, d, h, hs => by
    simp only [nChars] at h
    simp only [Spread] at hs
    simp only [charsOf]
    exact spread_one h hs

theorem loose_empty {s : Sch} {v : Val} (ht : Typed s v) (h : isEmpty s v = true) : Loose s s.zero s.zero := by
  cases s with
  | struct _ _ _ _ => cases v <;> first | (simp [Typed] at ht; done) | (simp [isEmpty] at h; done)
  | _ => simp [Sch.zero, Loose]

/-- What the content of field `k` gives. -/
def KidsDone (io : FloatIO) (F : List FInfo) (k : Nat) (fi : FInfo) (s : Sch) (v : Val) (xs : List Node) :
    Prop :=
  (∀ plain ts, SeesL plain xs ts → ∀ i, i ≠ k → goesK F i ts = []) ∧
  (fi.mode = .elem → ∃ w, Back s v w ∧ ∀ plain ts, SeesL plain xs ts → ∀ d, d + 1 + hgt s < maxDepth →
    ∃ w', Near plain s v w w' ∧ runAt s s.zero ((goesK F k ts).map (rk io d)) = .ok w') ∧
  (fi.mode ≠ .chardata → nChars xs = 0) ∧ nChars xs ≤ 1 ∧ (fi.mode = .chardata → v = .str (charsOf xs)) ∧
  ((fi.mode = .elem → v.isNil = true) → noElem xs = true)

/-- The content of the last fields. -/
theorem kids_fields (io : FloatIO) (L : List Bytes) {xn : Option FInfo} {F : List FInfo} {S : List Sch}
    (hs : StructRt xn F S) (ns : Bytes) (env : Env) : ∀ (fis : List FInfo) (ss : List Sch) (vs : List Val)
    (items : List Item) (xs : List Node) (pre : List FInfo),
    F = pre ++ fis → (∀ (j : Nat) (fi : FInfo) (s : Sch), fis[j]? = some fi → ss[j]? = some s → fieldRt fi s = true) →
    (∀ s ∈ ss, elemShape s = true → Field io L s) → Typeds ss vs → Canons io fis ss vs →
    (∀ f ∈ fis, f.mode ≠ .innerxml) →
    marshalFields io ns fis ss vs = .ok items → resolves env items = some xs → NodeDeclsL L xs →
    (∀ plain ts, SeesL plain xs ts → ∀ i, i < pre.length → goesK F i ts = []) ∧
    (∀ (i j : Nat) (f : FInfo) (s : Sch) (v : Val), i = pre.length + j → fis[j]? = some f → ss[j]? = some s →
        vs[j]? = some v → f.mode = .elem → ∃ w, Back s v w ∧ ∀ plain ts, SeesL plain xs ts →
          ∀ d, d + 1 + hgts ss < maxDepth →
          ∃ w', Near plain s v w w' ∧ runAt s s.zero ((goesK F i ts).map (rk io d)) = .ok w') ∧
    ((∀ f ∈ fis, f.mode ≠ .chardata) → nChars xs = 0) ∧ nChars xs ≤ 1 ∧
    (∀ (j : Nat) (f : FInfo) (v : Val), fis[j]? = some f → vs[j]? = some v → f.mode = .chardata → v = .str (charsOf xs)) ∧
    ((∀ (j : Nat) (f : FInfo) (v : Val), fis[j]? = some f → f.mode = .elem → vs[j]? = some v → v.isNil = true) →
      noElem xs = true)
  | [], ss, vs, items, xs, pre, hF, hrt, hsub, ht, hc, hin, hm, hr, hd => by
    have : items = [] := by
      cases ss <;> cases vs <;> simp only [marshalFields] at hm <;> injection hm with hm <;> exact hm.symm
    subst this
    simp only [resolves] at hr
    injection hr with hr; subst hr
    refine ⟨fun _ ts hts i _ => ?_, ?_, fun _ => rfl, by simp [nChars], ?_, fun _ => rfl⟩
    · simp only [SeesL] at hts
      exact goesK_leaves hts
    · intro i j f s v _ hj; simp at hj
    · intro j f v hj; simp at hj
  | fi :: fis, [], vs, items, xs, pre, hF, hrt, hsub, ht, hc, hin, hm, hr, hd => by simp [Canons] at hc
  | fi :: fis, s :: ss, [], items, xs, pre, hF, hrt, hsub, ht, hc, hin, hm, hr, hd => by simp [Canons] at hc
  | fi :: fis, s :: ss, v :: vs, items, xs, pre, hF, hrt, hsub, ht, hc, hin, hm, hr, hd => by
    simp only [Canons] at hc
    simp only [Typeds] at ht
    have hty : Typed s v := by
      rcases ht.1 with h | h
      · rw [hc.1] at h; cases h
      · exact h
    have hfi := hrt 0 fi s rfl rfl
    have hget : F[pre.length]? = some fi := by subst hF; simp
    simp only [marshalFields] at hm
    split at hm
    · cases hm
    rename_i a hfa
    split at hm
    · cases hm
    rename_i b hb
    injection hm with hm; subst hm
    obtain ⟨x1, x2, hr1, hr2, rfl⟩ := resolves_append hr
    obtain ⟨hd1, hd2⟩ := nodeDeclsL_append hd
    obtain ⟨i1, i1', i2, i2', i3, i4⟩ := kids_fields io L hs ns env fis ss vs b x2 (pre ++ [fi]) (by simp [hF])
      (fun j f s h1 h2 => hrt (j + 1) f s h1 h2) (fun s hs' => hsub s (by simp [hs'])) ht.2 hc.2.2
      (fun f hf => hin f (by simp [hf])) hb hr2 hd2
    -- this field
    have head : KidsDone io F pre.length fi s v x1 := by
      have empty : a = [] → fi.mode ≠ .chardata → (fi.mode = .elem → Back s v s.zero ∧ Loose s s.zero s.zero) →
          KidsDone io F pre.length fi s v x1 := fun ha hnc hbk => by
        subst ha
        simp only [resolves] at hr1
        injection hr1 with hr1
        subst hr1
        refine ⟨fun _ t1 ht1 i _ => ?_, fun hme => ⟨s.zero, (hbk hme).1, fun _ t1 ht1 d _ =>
          ⟨s.zero, ⟨(hbk hme).2, fun _ => rfl⟩, ?_⟩⟩, fun _ => rfl, by simp [nChars], fun h => absurd h hnc, fun _ => rfl⟩
        · simp only [SeesL] at ht1
          exact goesK_leaves ht1
        · simp only [SeesL] at ht1
          rw [goesK_leaves ht1]; rfl
      unfold fieldItems at hfa
      split at hfa
      · rename_i hor
        injection hfa with hfa
        rcases hor with h | h | h
        · exact empty hfa.symm (by rw [h]; simp) (by rw [h]; simp)
        · exact empty hfa.symm (by rw [h]; simp) (by rw [h]; simp)
        · rw [hc.1] at h; cases h
      rename_i hna
      split at hfa
      · rename_i hch
        injection hfa with hfa
        have := fieldRt_chars hfi hch
        subst this
        have hcv := hc.2.1.1 (by rw [hch]; simp)
        cases v with
        | str t =>
          simp only [Canon, LeafOk] at hcv
          simp only [charText, marshalSimple] at hfa
          subst hfa
          obtain ⟨y, hy, rfl⟩ := resolves_one hr1
          simp only [resolve, hcv] at hy
          injection hy with hy; subst hy
          refine ⟨fun _ t1 ht1 i _ => ?_, fun hme => ?_, fun h => absurd hch h, by simp [nChars], fun _ => by simp [charsOf], fun _ => rfl⟩
          · simp only [SeesL] at ht1
            exact goesK_leaves ht1
          · rw [hch] at hme; cases hme
        | _ => simp [Typed, KindOk] at hty
      rename_i hnch
      split at hfa
      · rename_i hix
        exact absurd hix (hin fi (by simp))
      rename_i hnix
      have hme : fi.mode = .elem := by
        cases hmm : fi.mode with
        | elem => rfl
        | attr => exact absurd (Or.inl hmm) hna
        | anyAttr => exact absurd (Or.inr (Or.inl hmm)) hna
        | chardata => exact absurd hmm hnch
        | innerxml => exact absurd hmm hnix
      split at hfa
      · rename_i hom
        injection hfa with hfa
        simp only [omits, Bool.and_eq_true] at hom
        exact empty hfa.symm hnch fun _ => ⟨isEmpty_back s v hty hom.2, loose_empty hty hom.2⟩
      · have hel := fieldRt_elem hfi hme
        obtain ⟨k1, k2, k3⟩ := hsub s (by simp) hel.1 fi v ns env a x1 hty (hc.2.1.1 hnix) hel.2 hfa hr1 hd1
        obtain ⟨w, hbw, k3⟩ := k3
        have hn0 : nChars x1 = 0 := nChars_elems fun x hx => by
          obtain ⟨n, as, kids, h, _⟩ := k1 x hx
          exact ⟨n, as, kids, h⟩
        refine ⟨fun _ t1 ht1 => ?_, fun _ => ⟨w, hbw, fun plain t1 ht1 d hdep => ?_⟩, fun _ => hn0, by omega,
          fun h => absurd h hnch, fun h => ?_⟩
        · exact (goesK_own hs hget hme (seesL_names k1 ht1)).2
        · rw [(goesK_own hs hget hme (seesL_names k1 ht1)).1]
          exact k3 plain t1 ht1 d hdep
        · rw [k2 (h hme)]; rfl
    obtain ⟨g1, g1', g2, g2', g3, g4⟩ := head
    refine ⟨?_, ?_, ?_, ?_, ?_, ?_⟩
    · intro plain ts hts i hi
      obtain ⟨t1, t2, rfl, h1, h2⟩ := seesL_split plain x1 x2 ts hts
      rw [goesK_append, g1 plain t1 h1 i (by omega), i1 plain t2 h2 i (by simp; omega)]; rfl
    · intro i j f t w hij e1 e2 e3 hm'
      cases j with
      | zero =>
        simp at e1 e2 e3
        subst e1 e2 e3
        have : i = pre.length := by omega
        subst this
        obtain ⟨y, hy, hrun⟩ := g1' hm'
        refine ⟨y, hy, fun plain ts hts d hdep => ?_⟩
        obtain ⟨t1, t2, rfl, h1, h2⟩ := seesL_split plain x1 x2 ts hts
        simp only [hgts] at hdep
        rw [goesK_append, i1 plain t2 h2 _ (by simp), List.append_nil]
        exact hrun plain t1 h1 d (by omega)
      | succ j =>
        obtain ⟨y, hy, hrun⟩ := i1' i j f t w (by simp; omega) (by simpa using e1) (by simpa using e2) (by simpa using e3) hm'
        refine ⟨y, hy, fun plain ts hts d hdep => ?_⟩
        obtain ⟨t1, t2, rfl, h1, h2⟩ := seesL_split plain x1 x2 ts hts
        simp only [hgts] at hdep
        rw [goesK_append, g1 plain t1 h1 i (by omega), List.nil_append]
        exact hrun plain t2 h2 d (by omega)
    · intro h
      rw [nChars_append, g2 (h fi (by simp)), i2 fun f hf => h f (by simp [hf])]
    · by_cases hfc : fi.mode = .chardata
      · rw [nChars_append, i2]
        · exact g2'
        · intro f' hf' hc'
          obtain ⟨j', hj'⟩ := List.mem_iff_getElem?.1 hf'
          have := hs.single pre.length (pre.length + (j' + 1)) fi f' hget (by
            rw [hF, List.getElem?_append_right (by omega)]; simpa using hj') (hfc.trans hc'.symm)
            (Or.inl hfc)
          omega
      · rw [nChars_append, g2 hfc, Nat.zero_add]
        exact i2'
    · intro j f w e1 e2 hm'
      cases j with
      | zero =>
        simp at e1 e2
        subst e1 e2
        rw [charsOf_append, charsOf_none (i2 ?_), List.append_nil]
        · exact g3 hm'
        · intro f' hf' hc'
          obtain ⟨j', hj'⟩ := List.mem_iff_getElem?.1 hf'
          have := hs.single pre.length (pre.length + (j' + 1)) fi f' hget (by
            rw [hF, List.getElem?_append_right (by omega)]; simpa using hj') (hm'.trans hc'.symm)
            (Or.inl hm')
          omega
      | succ j =>
        simp at e1 e2
        rw [charsOf_append, charsOf_none (g2 ?_), List.nil_append]
        · exact i3 j f w e1 e2 hm'
        · intro hc'
          have := hs.single pre.length (pre.length + (j + 1)) fi f hget (by
            rw [hF, List.getElem?_append_right (by omega)]; simpa using e1) (hc'.trans hm'.symm)
            (Or.inl hc')
          omega
    · intro h
      rw [noElem_append, g4 (fun hm' => h 0 fi v rfl hm' rfl), i4 fun j f w e1 e2 e3 => h (j + 1) f w (by simpa using e1) e2
        (by simpa using e3)]
      rfl

/-! ### Content as it is -/

/-- What is written for a value that is not inside a struct is elements. -/
theorem marshalV_elems (io : FloatIO) (ns : Bytes) (fi : Option FInfo) : ∀ (s : Sch) (v : Val) (items : List Item),
    marshalV io ns fi s v = .ok items → ∀ i ∈ items, ∃ n as kids, i = .elem n as kids
  | .simple k, v, items, h => by
    intro i hi
    cases v <;> simp only [marshalV] at h <;> split at h <;>
      first | (cases h; done) | (injection h with h; subst h; rw [List.mem_singleton] at hi; exact ⟨_, _, _, hi⟩)
  | .ptr s, v, items, h => by
    cases v with
    | ptr o =>
      cases o with
      | none =>
        simp only [marshalV] at h
        injection h with h; subst h
        intro i hi; cases hi
      | some v =>
        simp only [marshalV] at h
        exact marshalV_elems io ns fi s v items h
    | _ => simp [marshalV] at h
  | .slice s, v, items, h => by
    cases v with
    | slice l =>
      simp only [marshalV] at h
      have hs := fun v items => marshalV_elems io ns fi s v items
      clear * - h hs
      induction l generalizing items with
      | nil =>
        simp only [List.map_nil, concatM] at h
        injection h with h; subst h
        intro i hi; cases hi
      | cons v l ih =>
        rw [List.map_cons] at h
        cases ha : (if omits fi s v = true then .ok [] else marshalV io ns fi s v : Except MErr (List Item)) with
        | error e => rw [ha] at h; cases h
        | ok a =>
          rw [ha] at h
          simp only [concatM] at h
          split at h
          · cases h
          rename_i b hb
          injection h with h; subst h
          intro i hi
          rcases List.mem_append.1 hi with hi | hi
          · split at ha
            · injection ha with ha; subst ha; cases hi
            · exact hs v a ha i hi
          · exact ih b hb i hi
    | _ => simp [marshalV] at h
  | .struct tn xn F S, v, items, h => by
    cases v with
    | struct xv vs =>
      simp only [marshalV] at h
      split at h
      · cases h
      split at h
      · cases h
      injection h with h; subst h
      intro i hi
      rw [List.mem_singleton] at hi
      exact ⟨_, _, _, hi⟩
    | _ => simp [marshalV] at h
  | .name, v, items, h => by simp [marshalV] at h
  | .attr, v, items, h => by simp [marshalV] at h
  | .bad e, v, items, h => by simp [marshalV] at h

theorem charText_mem (io : FloatIO) : ∀ (s : Sch) (v : Val) (i : Item), i ∈ charText io s v → ∃ b, i = .text b
  | .simple k, v, i, h => by
    have : charText io (.simple k) v = match marshalSimple io k v with
        | .ok b => [.text b]
        | .error _ => [] := by cases v <;> rfl
    rw [this] at h
    split at h
    · rw [List.mem_singleton] at h; exact ⟨_, h⟩
    · cases h
  | .ptr s, v, i, h => by
    cases v with
    | ptr o =>
      cases o with
      | none => simp [charText] at h
      | some v =>
        simp only [charText] at h
        exact charText_mem io s v i h
    | _ => simp [charText] at h
  | .slice s, v, i, h => by simp [charText] at h
  | .struct _ _ _ _, v, i, h => by simp [charText] at h
  | .name, v, i, h => by simp [charText] at h
  | .attr, v, i, h => by simp [charText] at h
  | .bad e, v, i, h => by simp [charText] at h

/-- Without an `innerxml` field, nothing is written as it is. -/
theorem fields_plain (io : FloatIO) (ns : Bytes) : ∀ (fis : List FInfo) (ss : List Sch) (vs : List Val) (items : List Item),
    (∀ f ∈ fis, f.mode ≠ .innerxml) → marshalFields io ns fis ss vs = .ok items → ∀ b, Item.raw b ∉ items
  | [], ss, vs, items, _, h, b => by
    cases ss <;> cases vs <;> simp only [marshalFields] at h <;> injection h with h <;> subst h <;> simp
  | fi :: fis, [], vs, items, _, h, b => by simp only [marshalFields] at h; injection h with h; subst h; simp
  | fi :: fis, s :: ss, [], items, _, h, b => by simp only [marshalFields] at h; injection h with h; subst h; simp
  | fi :: fis, s :: ss, v :: vs, items, hn, h, b => by
    simp only [marshalFields] at h
    split at h
    · cases h
    rename_i x hx
    split at h
    · cases h
    rename_i y hy
    injection h with h; subst h
    intro hm
    rcases List.mem_append.1 hm with hm | hm
    · unfold fieldItems at hx
      split at hx
      · injection hx with hx; subst hx; cases hm
      split at hx
      · injection hx with hx; subst hx
        obtain ⟨_, h⟩ := charText_mem io s v _ hm
        cases h
      rw [if_neg (hn fi (by simp))] at hx
      split at hx
      · injection hx with hx; subst hx; cases hm
      · obtain ⟨_, _, _, h⟩ := marshalV_elems io ns (some fi) s v x hx _ hm
        cases h
    · exact fields_plain io ns fis ss vs y (fun f hf => hn f (by simp [hf])) hy b hm

/-- With an `innerxml` field and none for elements and character data, its value is what is written. -/
theorem fields_inner (io : FloatIO) (ns : Bytes) : ∀ (fis : List FInfo) (ss : List Sch) (vs : List Val) (items : List Item),
    (∀ f ∈ fis, f.mode ≠ .elem ∧ f.mode ≠ .chardata) → Canons io fis ss vs →
    (∀ (i j : Nat) (f g : FInfo), fis[i]? = some f → fis[j]? = some g → f.mode = .innerxml → g.mode = .innerxml → i = j) →
    marshalFields io ns fis ss vs = .ok items →
    ((∀ f ∈ fis, f.mode ≠ .innerxml) ∧ items = []) ∨ ((∃ f ∈ fis, f.mode = .innerxml) ∧ ∃ b, items = [.raw b] ∧
      ∀ (i : Nat) (f : FInfo) (v : Val), fis[i]? = some f → f.mode = .innerxml → vs[i]? = some v → v = .str b)
  | [], ss, vs, items, _, _, _, h => by
    cases ss <;> cases vs <;> simp only [marshalFields] at h <;> injection h with h <;> subst h <;> simp
  | fi :: fis, [], vs, items, _, hc, _, h => by simp [Canons] at hc
  | fi :: fis, s :: ss, [], items, _, hc, _, h => by simp [Canons] at hc
  | fi :: fis, s :: ss, v :: vs, items, hn, hc, hone, h => by
    simp only [Canons] at hc
    simp only [marshalFields] at h
    split at h
    · cases h
    rename_i x hx
    split at h
    · cases h
    rename_i y hy
    injection h with h; subst h
    have ih := fields_inner io ns fis ss vs y (fun f hf => hn f (by simp [hf])) hc.2.2
      (fun i j f g h1 h2 h3 h4 => by have := hone (i + 1) (j + 1) f g h1 h2 h3 h4; omega) hy
    unfold fieldItems at hx
    by_cases hm : fi.mode = .innerxml
    · rw [if_neg (by rw [hm, hc.1]; simp), if_neg (by rw [hm]; simp), if_pos hm] at hx
      have hv := hc.2.1.2 hm
      cases v <;> simp only [InnerVal] at hv
      rename_i b
      unfold rawText at hx
      split at hx
      · rename_i b' hb'
        injection hb' with hb'
        subst hb'
        injection hx with hx; subst hx
        right
        have hno : ∀ f ∈ fis, f.mode ≠ .innerxml := by
          intro f hf hfm
          obtain ⟨j, hj⟩ := List.mem_iff_getElem?.1 hf
          have := hone 0 (j + 1) fi f rfl (by simpa using hj) hm hfm
          omega
        rcases ih with ih | ⟨⟨f, hf, hfm⟩, _⟩
        · refine ⟨⟨fi, by simp, hm⟩, b, by rw [ih.2]; rfl, ?_⟩
          intro i f w h1 h2 h3
          cases i with
          | zero => simpa using h3.symm
          | succ i => exact absurd h2 (hno f (List.mem_of_getElem? (by simpa using h1)))
        · exact absurd hfm (hno f hf)
      · cases hx
    · have hxe : x = [] := by
        split at hx
        · injection hx with hx; exact hx.symm
        rename_i hna
        exfalso
        have := hn fi (by simp)
        cases hmm : fi.mode with
        | elem => exact this.1 hmm
        | attr => exact hna (Or.inl hmm)
        | anyAttr => exact hna (Or.inr (Or.inl hmm))
        | chardata => exact this.2 hmm
        | innerxml => exact hm hmm
      subst hxe
      rcases ih with ih | ⟨⟨f, hf, hfm⟩, b, h1, h2⟩
      · left
        refine ⟨?_, ih.2⟩
        intro f hf
        rcases List.mem_cons.1 hf with rfl | hf
        · exact hm
        · exact ih.1 f hf
      · right
        refine ⟨⟨f, by simp [hf], hfm⟩, b, h1, ?_⟩
        intro i f w k1 k2 k3
        cases i with
        | zero =>
          simp at k1
          subst k1
          exact absurd k2 hm
        | succ i => exact h2 i f w (by simpa using k1) k2 (by simpa using k3)

/-! ### Structs -/

theorem backs_of_get : ∀ (ss : List Sch) (vs ws : List Val), vs.length = ss.length → ws.length = ss.length →
    (∀ (i : Nat) (s : Sch) (v w : Val), ss[i]? = some s → vs[i]? = some v → ws[i]? = some w → Back s v w) → Backs ss vs ws
  | [], [], [], _, _, _ => by simp [Backs]
  | s :: ss, v :: vs, w :: ws, h1, h2, h => by
    simp only [Backs]
    exact ⟨h 0 s v w rfl rfl rfl, backs_of_get ss vs ws (by simpa using h1) (by simpa using h2) fun i s' v' w' e1 e2 e3 =>
      h (i + 1) s' v' w' (by simpa using e1) (by simpa using e2) (by simpa using e3)⟩
  | [], _ :: _, _, h, _, _ => by simp at h
  | [], [], _ :: _, _, h, _ => by simp at h
  | _ :: _, [], _, h, _, _ => by simp at h
  | _ :: _, _ :: _, [], _, h, _ => by simp at h

theorem looses_of_get (mix : Bool) : ∀ (fis : List FInfo) (ss : List Sch) (vs ws : List Val), fis.length = ss.length →
    vs.length = ss.length → ws.length = ss.length →
    (∀ (i : Nat) (f : FInfo) (s : Sch) (v w : Val), fis[i]? = some f → ss[i]? = some s → vs[i]? = some v → ws[i]? = some w →
      Loose s v w ∨ (mix = true ∧ f.mode = .chardata ∧ SameText v w)) → Looses mix fis ss vs ws
  | [], [], [], [], _, _, _, _ => by simp [Looses]
  | f :: fis, s :: ss, v :: vs, w :: ws, h0, h1, h2, h => by
    simp only [Looses]
    exact ⟨h 0 f s v w rfl rfl rfl rfl, looses_of_get mix fis ss vs ws (by simpa using h0) (by simpa using h1)
      (by simpa using h2) fun i f' s' v' w' e0 e1 e2 e3 => h (i + 1) f' s' v' w' (by simpa using e0) (by simpa using e1)
        (by simpa using e2) (by simpa using e3)⟩
  | [], _ :: _, _, _, h, _, _, _ => by simp at h
  | _ :: _, [], _, _, h, _, _, _ => by simp at h
  | [], [], _ :: _, _, _, h, _, _ => by simp at h
  | [], [], [], _ :: _, _, _, h, _ => by simp at h
  | _ :: _, _ :: _, [], _, _, h, _, _ => by simp at h
  | _ :: _, _ :: _, _ :: _, [], _, _, h, _ => by simp at h

/-- What is read back of an element is nil where it was. -/
theorem back_nil {s : Sch} {v w : Val} (hs : elemShape s = true) (h : Back s v w) : v.isNil = w.isNil := by
  cases s with
  | simple k =>
    have hk : contentKind k = true := by simpa [elemShape, oneShape] using hs
    simp only [Back] at h
    cases k <;> first | (simp [contentKind] at hk; done) | (simp only [SameLeaf] at h; rw [h])
  | ptr s => cases v <;> cases w <;> first | (simp [Back] at h; done) | skip
             rename_i a b
             cases a <;> cases b <;> first | (simp [Back] at h; done) | rfl
  | slice s =>
    have hna : s.isAttr = false := by
      cases s <;> first | rfl | (simp [elemShape, oneShape] at hs; done)
    cases v <;> cases w <;> first | (simp [Back] at h; done) | skip
    simp only [Back, hna, Bool.false_eq_true, if_false] at h
    cases h <;> rfl
  | struct _ _ _ _ => cases v <;> cases w <;> first | (simp [Back] at h; done) | rfl
  | _ => simp [elemShape, oneShape] at hs

theorem hasElems_false {F : List FInfo} {vs : List Val} (h : hasElems F vs = false) {i : Nat} {f : FInfo} {v : Val}
    (h1 : F[i]? = some f) (h2 : f.mode = .elem) (h3 : vs[i]? = some v) : v.isNil = true := by
  unfold hasElems at h
  have hz : (F.zip vs)[i]? = some (f, v) := List.getElem?_zip_eq_some.2 ⟨h1, h3⟩
  have := List.any_eq_false.1 h _ (List.mem_of_getElem? hz)
  simpa [h2] using this

theorem hasElems_true {F : List FInfo} {vs : List Val} (h : hasElems F vs = true) : ∃ (i : Nat) (f : FInfo) (v : Val),
    F[i]? = some f ∧ f.mode = .elem ∧ vs[i]? = some v ∧ v.isNil = false := by
  unfold hasElems at h
  obtain ⟨⟨f, v⟩, hm, hp⟩ := List.any_eq_true.1 h
  obtain ⟨i, hi⟩ := List.mem_iff_getElem?.1 hm
  obtain ⟨h1, h2⟩ := List.getElem?_zip_eq_some.1 hi
  simp only [Bool.and_eq_true, beq_iff_eq, Bool.not_eq_true'] at hp
  exact ⟨i, f, v, h1, hp.1, h2, hp.2⟩

theorem hasElems_of {F : List FInfo} {vs : List Val} {i : Nat} {f : FInfo} {v : Val} (h1 : F[i]? = some f)
    (h2 : f.mode = .elem) (h3 : vs[i]? = some v) (h4 : v.isNil = false) : hasElems F vs = true := by
  by_contra h
  rw [hasElems_false (by simpa using h) h1 h2 h3] at h4
  cases h4

theorem noMixes_get : ∀ {ss : List Sch} {vs : List Val}, NoMixes ss vs → ∀ {i : Nat} {s : Sch} {v : Val}, ss[i]? = some s →
    vs[i]? = some v → NoMix s v
  | s :: ss, v :: vs, h, 0, s', v', h1, h2 => by
    simp only [NoMixes] at h
    simp at h1 h2
    subst h1; subst h2
    exact h.1
  | s :: ss, v :: vs, h, i + 1, s', v', h1, h2 => by
    simp only [NoMixes] at h
    exact noMixes_get h.2 (by simpa using h1) (by simpa using h2)
  | [], _, _, _, _, _, h1, _ => by simp at h1
  | _ :: _, [], _, _, _, _, _, h2 => by simp at h2

theorem loose_attr {s : Sch} (h : attrShape s = true ∨ s = .slice .attr) (v : Val) : Loose s v v := by
  have same : ∀ l : List Val, List.Forall₂ (fun x y => x = y) l l := by
    intro l
    induction l with
    | nil => exact .nil
    | cons a l ih => exact .cons rfl ih
  rcases h with h | rfl
  · unfold attrShape at h
    split at h
    · simp [Loose]
    · cases v with
      | ptr o => cases o <;> simp [Loose]
      | _ => simp [Loose]
    · cases v with
      | ptr o =>
        cases o with
        | none => simp [Loose]
        | some v =>
          simp only [Loose]
          cases v with
          | slice l => simp only [Loose]; exact same l
          | _ => simp [Loose]
      | _ => simp [Loose]
    · cases h
  · cases v with
    | slice l => simp only [Loose]; exact same l
    | _ => simp [Loose]

theorem modeField_some {F : List FInfo} {m : Mode} {i : Nat} (h : modeField F m = some i) : ∃ f, F[i]? = some f ∧ f.mode = m := by
  unfold modeField at h
  obtain ⟨hi, hp, _⟩ := List.findIdx?_eq_some_iff_getElem.1 h
  exact ⟨F[i], by simp [hi], by simpa using hp⟩

theorem opsAt_fin (io : FloatIO) {xn : Option FInfo} {F : List FInfo} {S : List Sch} (hs : StructRt xn F S) (data : Bytes)
    {i : Nat} {f : FInfo} (hi : F[i]? = some f) :
    opsAt i (finOps io F data) = if f.mode = .chardata then [fun s _ => copyValue io s data] else [] := by
  unfold finOps
  cases h : modeField F .chardata with
  | none =>
    have := modeField_none.1 h f (List.mem_of_getElem? hi)
    rw [if_neg this]; rfl
  | some j =>
    obtain ⟨g, hj, hg⟩ := modeField_some h
    dsimp only
    rw [opsAt_cons, opsAt_nil]
    by_cases hm : f.mode = .chardata
    · have := hs.single j i g f hj hi (hg.trans hm.symm) (Or.inl hg)
      rw [if_pos this, if_pos hm]
    · have : j ≠ i := by
        rintro rfl
        rw [hi] at hj; injection hj with hj; subst hj
        exact hm hg
      rw [if_neg this, if_neg hm]

theorem opsAt_inner {xn : Option FInfo} {F : List FInfo} {S : List Sch} (hs : StructRt xn F S) (inner : Bytes)
    {i : Nat} {f : FInfo} (hi : F[i]? = some f) :
    opsAt i (innerOps F inner) = if f.mode = .innerxml then [setInner inner] else [] := by
  unfold innerOps
  cases h : modeField F .innerxml with
  | none =>
    have := modeField_none.1 h f (List.mem_of_getElem? hi)
    rw [if_neg this]; rfl
  | some j =>
    obtain ⟨g, hj, hg⟩ := modeField_some h
    dsimp only
    rw [opsAt_cons, opsAt_nil]
    by_cases hm : f.mode = .innerxml
    · have := hs.one j i g f hj hi hg hm
      rw [if_pos this, if_pos hm]
    · have : j ≠ i := by
        rintro rfl
        rw [hi] at hj; injection hj with hj; subst hj
        exact hm hg
      rw [if_neg this, if_neg hm]

theorem cur_zeros {F : List FInfo} {S : List Sch} (hf : Fields F S (zeros F S)) {i : Nat} {s : Sch} (hs : S[i]? = some s) :
    cur S (zeros F S) i = some s.zero := by
  obtain ⟨v, hv⟩ := get_of_lt (l := zeros F S) (i := i) (by rw [hf.len_vs]; exact lt_of_get hs)
  obtain ⟨fi, s', h1, h2, h3⟩ := zeros_get F S i v hv
  rw [hs] at h2; injection h2 with h2; subst h2
  have hz := oks_zero S hf.ok i s hs
  simp only [cur, hs, hv]
  rw [h3]
  split
  · rw [hz]; simp
  · simp [Val.isAbsent]

/-- A struct is read back if its fields are. -/
theorem struct_one (io : FloatIO) (L : List Bytes) (tn : Bytes) (xn : Option FInfo) (F : List FInfo)
    (S : List Sch) (hs : StructRt xn F S) (hL : ∀ f ∈ F, f.mode = .attr → f.loc ∈ L) (hok : oks S = true)
    (hsub : ∀ s ∈ S, elemShape s = true → Field io L s) : One io L (.struct tn xn F S) := by
  intro fi v ns env items xs ht hc hn htag hfi hm hr hd
  have hsok : (Sch.struct tn xn F S).ok = true := by simp [Sch.ok, hs.len, hok]
  obtain ⟨xv, vs, rfl, hf⟩ := struct_fields hsok ht
  simp only [Canon] at hc
  obtain ⟨hname, hany, hcs⟩ := hc
  simp only [marshalV] at hm
  split at hm
  · cases hm
  rename_i attrs hattrs
  split at hm
  · cases hm
  rename_i kids hkids
  injection hm with hm; subst hm
  obtain ⟨x, hx, rfl⟩ := resolves_one hr
  obtain ⟨pl, bs, as, ks, d0, hpl, has, hks, rfl⟩ := resolve_elem hx
  simp only [NodeDeclsL, NodeDecls] at hd
  obtain ⟨⟨hd1, hd2⟩, _⟩ := hd
  have hA := attrs_done io hs hL hok hf.typ hcs hany hattrs hpl has hd1
  have hcase : ((∀ f ∈ F, f.mode ≠ .innerxml) ∧ rawOf ks = none ∧ ∃ env', resolves env' kids = some ks) ∨
      ((∀ f ∈ F, f.mode ≠ .elem ∧ f.mode ≠ .chardata) ∧ ∃ b ts, ks = [.raw b ts] ∧
        ∀ (i : Nat) (f : FInfo) (v : Val), F[i]? = some f → f.mode = .innerxml → vs[i]? = some v → v = .str b) := by
    have hplain : (∀ f ∈ F, f.mode ≠ .innerxml) → (∀ f ∈ F, f.mode ≠ .innerxml) ∧ rawOf ks = none ∧
        ∃ env', resolves env' kids = some ks := by
      intro hno
      refine ⟨hno, ?_⟩
      rcases hks with ⟨env', hks⟩ | ⟨b, ts, hb, _⟩
      · exact ⟨resolves_plain hks, env', hks⟩
      · exact absurd (by rw [hb]; simp) (fields_plain io _ F S vs kids hno hkids b)
    rcases hs.inner with hno | hno
    · exact Or.inl (hplain (modeField_none.1 hno))
    · rcases fields_inner io _ F S vs kids hno hcs hs.one hkids with h | ⟨_, b, hb, h⟩
      · exact Or.inl (hplain h.1)
      · right
        refine ⟨hno, b, ?_⟩
        subst hb
        rcases hks with ⟨env', hks⟩ | ⟨b', ts, hb', hks⟩
        · simp [resolves, resolve] at hks
        · injection hb' with hb' _
          injection hb' with hb'
          subst hb'
          exact ⟨ts, hks, h⟩
  generalize hnm : startName xn xv fi tn = nm at *
  refine ⟨_, _, _, rfl, ?_, ?_⟩
  · intro f hff
    obtain ⟨h1, h2⟩ := hname.2 f hff
    refine ⟨h1, ?_⟩
    by_cases he : f.xmlns = []
    · exact Or.inl he
    · rcases h2 with h2 | h2
      · exact absurd h2 he
      · right
        dsimp only
        rw [if_neg (by rw [h2]; exact he), h2]
  · have hz := zero_typed _ hsok
    simp only [Sch.zero] at hz
    obtain ⟨_, _, hz1, hf0⟩ := struct_fields hsok hz
    injection hz1 with _ hz1; subst hz1
    have hfield : ∀ (i : Nat), ∃ w, ∀ (s : Sch), S[i]? = some s → (∀ v, vs[i]? = some v → Back s v w) ∧
        ∀ plain ts inner d, Shows plain ks ts inner → d + (hgts S + 1) < maxDepth →
          ∃ w', (Loose s w w' ∨ (hasElems F vs = true ∧ (∀ f, F[i]? = some f → f.mode = .chardata) ∧ SameText w w')) ∧
            (plain = true ∨ NoMix (.struct tn xn F S) (.struct xv vs) → w' = w) ∧
            runAt s s.zero (opsAt i (structOps io d F ((pl.decls ++ as).map SAttr.res) ts inner)) = .ok w' := by
      intro i
      cases hsi : S[i]? with
      | none => exact ⟨.absent, fun s h => by cases h⟩
      | some s =>
        obtain ⟨f, hi⟩ := get_of_lt (l := F) (i := i) (by rw [hs.len]; exact lt_of_get hsi)
        obtain ⟨v, hv⟩ := get_of_lt (l := vs) (i := i) (by rw [hf.len_vs]; exact lt_of_get hsi)
        obtain ⟨a1, a2, a3⟩ := hA i f s v hi hsi hv
        have hrtf := hs.rt i f s hi hsi
        have kn : f.mode ≠ .elem → ∀ ts, goesK F i ts = [] := by
          intro hm ts
          unfold goesK
          rw [List.filter_eq_nil_iff]
          intro t _ h
          obtain ⟨n, _, h2⟩ := Option.bind_eq_some_iff.1 (of_decide_eq_true h)
          obtain ⟨f', h3, h4⟩ := elemField_some h2
          rw [hi] at h3; injection h3 with h3; subst h3
          exact hm h4.1
        have hsplit : ∀ ts inner d, opsAt i (structOps io d F ((pl.decls ++ as).map SAttr.res) ts inner) =
            (goes F i ((pl.decls ++ as).map SAttr.res)).map (rd io) ++ ((goesK F i ts).map (rk io d) ++
              ((if f.mode = .chardata then [fun s _ => copyValue io s (dataOf ts)] else []) ++
                if f.mode = .innerxml then [setInner inner] else [])) := by
          intro ts inner d
          simp only [structOps, opsAt_append, opsAt_attrOps, opsAt_kidOps, opsAt_fin io hs (dataOf ts) hi,
            opsAt_inner hs inner hi]
        suffices done : (∃ w, Back s v w ∧ ∀ plain ts inner d, Shows plain ks ts inner →
            d + (hgts S + 1) < maxDepth →
            ∃ w', (Loose s w w' ∨ (hasElems F vs = true ∧ f.mode = .chardata ∧ SameText w w')) ∧
              (plain = true ∨ NoMix (.struct tn xn F S) (.struct xv vs) → w' = w) ∧
              runAt s s.zero ((goes F i ((pl.decls ++ as).map SAttr.res)).map (rd io) ++ ((goesK F i ts).map (rk io d) ++
                ((if f.mode = .chardata then [fun s _ => copyValue io s (dataOf ts)] else []) ++
                  if f.mode = .innerxml then [setInner inner] else []))) = .ok w') by
          obtain ⟨w, h1, h2⟩ := done
          refine ⟨w, fun s' he => ?_⟩
          injection he with he; subst he
          refine ⟨fun v' hv' => ?_, fun plain ts inner d e1 e4 => ?_⟩
          · rw [hv] at hv'; injection hv' with hv'; subst hv'
            exact h1
          · rw [hsplit]
            obtain ⟨w', g1, g2, g3⟩ := h2 plain ts inner d e1 e4
            refine ⟨w', g1.imp_right fun g => ⟨g.1, fun f' hf' => ?_, g.2.2⟩, g2, g3⟩
            rw [hi] at hf'; injection hf' with hf'; subst hf'
            exact g.2.1
        cases hm : f.mode with
        | attr =>
          obtain ⟨w, h1, h2⟩ := a1 (Or.inl hm)
          refine ⟨w, h2, fun plain ts inner d _ _ => ⟨w, Or.inl (loose_attr (Or.inl ?_) w), fun _ => rfl, ?_⟩⟩
          · simp only [fieldRt, hm, Bool.and_eq_true] at hrtf
            exact hrtf.1
          · rw [kn (by rw [hm]; simp)]
            simpa using h1
        | anyAttr =>
          obtain ⟨w, h1, h2⟩ := a1 (Or.inr hm)
          refine ⟨w, h2, fun plain ts inner d _ _ => ⟨w, Or.inl (loose_attr (Or.inr ?_) w), fun _ => rfl, ?_⟩⟩
          · simp only [fieldRt, hm] at hrtf
            split at hrtf
            · rfl
            · cases hrtf
          · rw [kn (by rw [hm]; simp)]
            simpa using h1
        | elem =>
          obtain ⟨hno, hro, env', hks⟩ := hcase.resolve_right fun h => (h.1 f (List.mem_of_getElem? hi)).1 hm
          obtain ⟨_, hK, _, hC1, hC2, hE⟩ := kids_fields io L hs _ env' F S vs kids ks [] rfl hs.rt hsub hf.typ hcs
            hno hkids hks hd2
          obtain ⟨w, h1, h2⟩ := hK i i f s v (by simp) hi hsi hv hm
          refine ⟨w, h1, fun plain ts inner d e1 e3 => ?_⟩
          have e1 := (e1.2 hro).1
          rw [a3 (by rw [hm]; simp) (by rw [hm]; simp)]
          obtain ⟨w', hnear, hrun⟩ := h2 plain ts e1 d (by omega)
          refine ⟨w', Or.inl hnear.1, fun h => hnear.2 (h.imp_right fun h => ?_), by simpa using hrun⟩
          simp only [NoMix] at h
          exact noMixes_get h.2 hsi hv
        | chardata =>
          have := fieldRt_chars hrtf hm
          subst this
          obtain ⟨hno, hro, env', hks⟩ := hcase.resolve_right fun h => (h.1 f (List.mem_of_getElem? hi)).2 hm
          obtain ⟨_, hK, _, hC1, hC2, hE⟩ := kids_fields io L hs _ env' F S vs kids ks [] rfl hs.rt hsub hf.typ hcs
            hno hkids hks hd2
          have hvd := hC2 i f v hi hv hm
          have hback : Back (.simple .str) v (.str (charsOf ks)) := by
            simp only [Back, SameLeaf]
            rw [hvd]
          refine ⟨.str (charsOf ks), hback, fun plain ts inner d e1 e3 => ?_⟩
          obtain ⟨_, hdata, hspread⟩ := e1.2 hro
          refine ⟨.str (dataOf ts), ?_, ?_, ?_⟩
          · by_cases hne : noElem ks = true
            · rw [hdata (Or.inr hne)]
              exact Or.inl (by simp [Loose])
            · right
              refine ⟨?_, rfl, ?_⟩
              · by_contra hel
                exact hne (hE fun j f v h1 h2 h3 => hasElems_false (by simpa using hel) h1 h2 h3)
              · obtain ⟨p, q, h1, h2, h3⟩ := spread_one hC1 hspread
                exact ⟨_, p, q, rfl, by rw [h3], h1, h2⟩
          · intro h
            rw [hdata (h.imp_right fun h => ?_)]
            simp only [NoMix] at h
            have hel := h.1 fun hnone => modeField_none.1 hnone f (List.mem_of_getElem? hi) hm
            exact hE fun j f v h1 h2 h3 => hasElems_false hel h1 h2 h3
          · rw [a3 (by rw [hm]; simp) (by rw [hm]; simp), kn (by rw [hm]; simp)]
            simp [runAt, copyValue, copySimple]
        | innerxml =>
          have hs1 : s = .simple .str := by
            simp only [fieldRt, hm] at hrtf
            split at hrtf
            · rfl
            · cases hrtf
          subst hs1
          obtain ⟨_, b, tsr, rfl, hb⟩ := hcase.resolve_left fun h => h.1 f (List.mem_of_getElem? hi) hm
          have hvb := hb i f v hi hm hv
          refine ⟨.str b, by simp only [Back, SameLeaf]; rw [hvb], fun plain ts inner d e1 e3 =>
            ⟨.str b, Or.inl (by simp [Loose]), fun _ => rfl, ?_⟩⟩
          rw [a3 (by rw [hm]; simp) (by rw [hm]; simp), kn (by rw [hm]; simp), e1.1 b rfl]
          simp [runAt, setInner]
    choose w hw using hfield
    have hlen : ((List.range S.length).map w).length = S.length := by simp
    have hget : ∀ (i : Nat) (s : Sch), S[i]? = some s → ((List.range S.length).map w)[i]? = some (w i) := by
      intro i s hi
      simp [List.getElem?_map, List.getElem?_range (lt_of_get hi)]
    refine ⟨.struct (if xn.isSome then ⟨if nm.space = [] then d0 else nm.space, (splitPrefixed nm.loc).2⟩ else ⟨[], []⟩)
      ((List.range S.length).map w), ?_, ?_⟩
    · simp only [Back]
      refine ⟨?_, backs_of_get S vs _ hf.len_vs hlen ?_⟩
      · intro x hxn
        subst hxn
        obtain ⟨h1, h2, h3⟩ := hname.1 x rfl
        simp only [Option.isSome_some, if_true]
        refine ⟨?_, ?_⟩
        · intro hl
          rcases h2 with h2 | h2
          · exact absurd h2 hl
          · exact h2.symm
        · intro hl hv hsp
          have hst : nm = xv := by
            rw [← hnm]
            simp [startName, hl, hv]
          have h4 := h3 hl
          rw [hst] at h4 ⊢
          rw [if_neg hsp, splitPrefixed_plain h4]
      · intro i s v w' h1 h2 h3
        rw [hget i s h1] at h3; injection h3 with h3; subst h3
        exact (hw i s h1).1 v h2
    · intro plain t hsee top d _ hdep
      obtain ⟨b1, a1, ts, en, eb, ea, rfl, hts⟩ := sees_elem hsee
      simp only [hgt] at hdep
      have hread : ∀ (i : Nat), ∃ w', ∀ s, S[i]? = some s →
          (Loose s (w i) w' ∨ (hasElems F vs = true ∧ (∀ f, F[i]? = some f → f.mode = .chardata) ∧ SameText (w i) w')) ∧
            (plain = true ∨ NoMix (.struct tn xn F S) (.struct xv vs) → w' = w i) ∧
            runAt s s.zero (opsAt i (structOps io d F ((pl.decls ++ as).map SAttr.res) ts
              (a1.take (a1.length - eb.length)))) = .ok w' := by
        intro i
        cases hsi : S[i]? with
        | none => exact ⟨.absent, fun s h => by cases h⟩
        | some s =>
          obtain ⟨w', h⟩ := (hw i s hsi).2 plain ts _ d hts hdep
          refine ⟨w', fun s' he => ?_⟩
          injection he with he; subst he
          exact h
      choose w' hw' using hread
      obtain ⟨ws, hws, hfw, hwi⟩ := runOps_all w' (structOps io d F ((pl.decls ++ as).map SAttr.res) ts
          (a1.take (a1.length - eb.length))) (zeros F S) hf0
        (structOps_ok io d F S _ ts _ hs.len)
        (fun i s hsi => ⟨s.zero, cur_zeros hf0 hsi, (hw' i s hsi).2.2⟩) (by
          intro i f hi hg
          obtain ⟨j, fj, s, hj, hsj, hreq, hgr⟩ := hs.grps i f hi hg
          obtain ⟨v, hv⟩ := get_of_lt (l := vs) (i := j) (by rw [hf.len_vs]; exact lt_of_get hsj)
          have hne := (hA j fj s v hj hsj hv).2.1 hreq
          have : ∃ op ∈ attrOps io F ((pl.decls ++ as).map SAttr.res), op.1 = j := by
            by_contra hno
            have h0 := opsAt_none (i := j) (ops := attrOps io F ((pl.decls ++ as).map SAttr.res)) (by
              intro op ho he; exact hno ⟨op, ho, he⟩)
            rw [opsAt_attrOps] at h0
            exact hne (List.map_eq_nil_iff.1 h0)
          obtain ⟨op, ho, rfl⟩ := this
          refine ⟨op, by simp only [structOps]; exact List.mem_append_left _ ho, ?_⟩
          simp [sameGrp, hj, hi, hgr])
      refine ⟨.struct (if xn.isSome then ⟨if nm.space = [] then d0 else nm.space, (splitPrefixed nm.loc).2⟩ else ⟨[], []⟩) ws,
        ⟨?_, fun h => ?_⟩, ?_⟩
      · simp only [Loose]
        refine ⟨trivial, looses_of_get _ F S _ ws hs.len hlen hfw.len_vs ?_⟩
        intro i f s v u h0 h1 h2 h3
        rw [hget i s h1] at h2; injection h2 with h2; subst h2
        rw [hwi i s h1] at h3; injection h3 with h3; subst h3
        refine (hw' i s h1).1.imp_right fun g => ⟨?_, g.2.1 f h0, g.2.2⟩
        obtain ⟨j, fj, v, e1, e2, e3, e4⟩ := hasElems_true g.1
        obtain ⟨sj, hsj⟩ := get_of_lt (l := S) (i := j) (by rw [← hs.len]; exact lt_of_get e1)
        refine hasElems_of e1 e2 (hget j sj hsj) ?_
        rw [← back_nil (fieldRt_elem (hs.rt j fj sj e1 hsj) e2).1 ((hw j sj hsj).1 v e3)]
        exact e4
      · congr 1
        apply List.ext_getElem?
        intro i
        by_cases hi : i < S.length
        · obtain ⟨s, hsi⟩ := get_of_lt hi
          rw [hwi i s hsi, hget i s hsi, (hw' i s hsi).2.1 h]
        · rw [List.getElem?_eq_none (by rw [hfw.len_vs]; omega), List.getElem?_eq_none (by rw [hlen]; omega)]
      rw [readT, place_plain _ _ _ _ _ rfl (by omega)]
      refine readBody_ops io _ _ ts _ d tn xn F S _ _ ws ?_ hws
      unfold checkName
      cases xn with
      | none => rfl
      | some x =>
        dsimp only
        obtain ⟨h1, h2, h3⟩ := hname.1 x rfl
        rw [if_neg, if_neg]
        · simp [h1]
        · rintro ⟨h4, h5⟩
          rcases h2 with h2 | h2
          · exact h4 h2
          · exact h5 h2

/-! ### All types -/

/-- What is inside pointers and lists can be read back. -/
def Good (io : FloatIO) (L : List Bytes) : Sch → Prop
  | .ptr s => Good io L s
  | .slice s => Good io L s
  | s => oneShape s = true → One io L s

theorem good_one {io : FloatIO} {L : List Bytes} {s : Sch} (h : Good io L s) (hs : oneShape s = true) :
    One io L s := by
  cases s <;> first | (simp [oneShape] at hs; done) | exact h hs

theorem good_field (io : FloatIO) (L : List Bytes) (s : Sch) (h : Good io L s)
    (hs : elemShape s = true) : Field io L s := by
  unfold elemShape at hs
  split at hs
  · exact ptr_field io L _ hs (good_one (by simpa [Good] using h) hs)
  · rename_i tn xn F S
    have h1 : One io L (.struct tn xn F S) := good_one (by simpa [Good] using h) rfl
    refine slice_field io L _ rfl ?_ ?_
    · intro v ht hn
      cases v with
      | ptr o => cases o <;> simp_all [isEmpty, Val.isNil]
      | _ => simp [Typed] at ht
    · intro f v ns env items xs ht hc hn htag hm hr hd
      exact ptr_one io L _ rfl h1 (some f) (by simp) v ns env items xs ht hc hn (by simpa using htag) hm hr hd
  · rename_i tn xn F S
    have h1 : One io L (.struct tn xn F S) := good_one (by simpa [Good] using h) rfl
    refine slice_field io L _ rfl ?_ ?_
    · intro v ht _
      cases v <;> simp_all [Typed, isEmpty]
    · intro f v ns env items xs ht hc hn htag hm hr hd
      obtain ⟨n, as, kids, e, hf, w, hb, hread⟩ := h1 (some f) v ns env items xs ht hc hn (by simpa using htag) (by simp) hm hr hd
      exact ⟨n, as, kids, e, hf, w, hb, fun plain t hsee d hdep => hread plain t hsee true d (Or.inl rfl) hdep⟩
  · exact one_field io L _ hs (good_one h hs)

mutual
theorem good_rt (io : FloatIO) (L : List Bytes) : ∀ s : Sch, s.rt L = true → s.ok = true → Good io L s
  | .simple k, h, hok => by
    simp only [Good]
    intro hs
    exact simple_one io L k (by simpa [oneShape] using hs)
  | .struct tn xn F S, h, hok => by
    simp only [Sch.rt, Bool.and_eq_true, List.all_eq_true] at h
    simp only [Sch.ok, Bool.and_eq_true] at hok
    have := goods_rt io L S h.2 hok.2
    simp only [Good]
    intro _
    exact struct_one io L tn xn F S (StructRt.of h.1.1) (fun f hf hm => by simpa [hm] using h.1.2 f hf) hok.2
      (fun s hs he => good_field io L s (this s hs) he)
  | .ptr s, h, hok => by
    simp only [Sch.rt] at h
    simp only [Sch.ok] at hok
    simp only [Good]
    exact good_rt io L s h hok
  | .slice s, h, hok => by
    simp only [Sch.rt] at h
    simp only [Sch.ok] at hok
    simp only [Good]
    exact good_rt io L s h hok
  | .name, _, _ => by simp [Good, oneShape]
  | .attr, _, _ => by simp [Good, oneShape]
  | .bad _, _, _ => by simp [Good, oneShape]
theorem goods_rt (io : FloatIO) (L : List Bytes) : ∀ ss : List Sch, rts L ss = true → oks ss = true →
    ∀ s ∈ ss, Good io L s
  | [], _, _ => by simp
  | t :: ss, h, hok => by
    simp only [rts, Bool.and_eq_true] at h
    simp only [oks, Bool.and_eq_true] at hok
    have h1 := good_rt io L t h.1 hok.1
    have h2 := goods_rt io L ss h.2 hok.2
    intro s hs
    rcases List.mem_cons.1 hs with rfl | hs
    · exact h1
    · exact h2 s hs
end

/-- A value of a struct type is written as one element, from which it is read back. -/
theorem struct_back (io : FloatIO) (L : List Bytes) (tn : Bytes) (xn : Option FInfo) (F : List FInfo)
    (S : List Sch) (h : (Sch.struct tn xn F S).rt L = true) (hok : (Sch.struct tn xn F S).ok = true) :
    One io L (.struct tn xn F S) := good_one (good_rt io L _ h hok) rfl

end Verif.Bind

import Verif.EncodeOk
import Verif.XmlResolveProps

/-!
What the printer writes for an element depends on the elements that enclose it only in namespaces that these use, and on the
counter for made-up prefixes only if one is needed.
-/
namespace Verif.Xml

/-- The same state with more enclosing elements and another value of the counter. -/
def Ns.over (n : Ns) (s : Nat) (base : List Elem) : Ns := ⟨s, n.els ++ base⟩

/-- The elements of `base` do not use the namespace `u`. -/
def Blind (base : List Elem) (u : Bytes) : Prop :=
  ∀ e ∈ base, mget e.nsToPrefix u = [] ∧ (u ≠ [] → e.pre = [] → e.xmlns ≠ u)

/-- The namespace that an attribute uses: its own, or the one it declares. -/
def attrUri (a : Attr) : Bytes := if a.name.space = xmlnsURL then a.value else a.name.space

mutual
/-- The namespaces that an item uses. -/
def Item.uris : Item → List Bytes
  | .elem n attrs kids => n.space :: attrs.map attrUri ++ itemUris kids
  | _ => []
/-- The namespaces that some items use. -/
def itemUris : List Item → List Bytes
  | [] => []
  | i :: l => i.uris ++ itemUris l
end

theorem getPrefixLoop_blind (u : Bytes) : ∀ (base deeper : List Elem), Blind base u → getPrefixLoop u deeper base = []
  | [], _, _ => rfl
  | e :: base, deeper, h => by
    rw [getPrefixLoop, if_neg (by simpa using (h e (by simp)).1)]
    exact getPrefixLoop_blind u base _ fun f hf => h f (by simp [hf])

theorem getPrefixLoop_over (u : Bytes) (base : List Elem) (h : Blind base u) : ∀ (els deeper : List Elem),
    getPrefixLoop u deeper (els ++ base) = getPrefixLoop u deeper els
  | [], deeper => by rw [List.nil_append, getPrefixLoop_blind u base deeper h]; rfl
  | e :: els, deeper => by
    rw [List.cons_append, getPrefixLoop, getPrefixLoop, getPrefixLoop_over u base h els]

theorem getPrefix_over (u : Bytes) (base : List Elem) (h : Blind base u) (els : List Elem) :
    getPrefix (els ++ base) u = getPrefix els u := by
  rw [getPrefix, getPrefix, getPrefixLoop_over u base h]

theorem freeId_le (m : List (Bytes × Bytes)) (p : Bytes) : ∀ n s, s ≤ (freeId m p n s).2
  | 0, s => by simp [freeId]
  | n + 1, s => by
    rw [freeId]
    split
    · simp
    · have := freeId_le m p n (s + 1)
      omega

theorem uniquePrefix_le (e : Elem) (s : Nat) (p : Bytes) : s ≤ (uniquePrefix e s p).2 := by
  unfold uniquePrefix
  split
  · have := freeId_le e.prefixToNS p e.prefixToNS.length (s + 1)
    omega
  · simp

theorem uniquePrefix_same (e : Elem) (s t : Nat) (p : Bytes) (h : (uniquePrefix e s p).2 = s) :
    uniquePrefix e t p = ((uniquePrefix e s p).1, t) := by
  unfold uniquePrefix at h ⊢
  split
  · rename_i hp
    rw [if_pos hp] at h
    have := freeId_le e.prefixToNS p e.prefixToNS.length (s + 1)
    omega
  · rfl

/-- What a step does with more enclosing elements: the counter does not fall, and if it stays, then the step does the same. -/
structure Same {α} (s : Nat) (base : List Elem) (n : Ns) (r r' : Ns × α) : Prop where
  ne : r.1.els ≠ []
  le : n.seq ≤ r.1.seq
  eq : r.1.seq = n.seq → r' = (r.1.over s base, r.2)

theorem createPrefix_over (s : Nat) (base : List Elem) (n : Ns) (hn : n.els ≠ []) (u p : Bytes) (h : Blind base u) :
    Same s base n (createPrefix n u p) (createPrefix (n.over s base) u p) := by
  refine ⟨(createPrefix_same n hn u p).ne, ?_, ?_⟩
  · unfold createPrefix
    split
    · exact Nat.le_refl _
    · split
      · exact Nat.le_refl _
      · exact uniquePrefix_le _ _ _
  · intro hs
    unfold createPrefix at hs ⊢
    rw [show (n.over s base).els = n.els ++ base from rfl, getPrefix_over u base h]
    split
    · rfl
    · rename_i hc
      rw [if_neg hc] at hs
      obtain ⟨q, els⟩ := n
      cases els with
      | nil => exact absurd rfl hn
      | cons e els =>
        dsimp only [List.cons_append] at hs ⊢
        rw [show (Ns.over ⟨q, e :: els⟩ s base).seq = s from rfl, uniquePrefix_same e q s _ hs]
        rfl

theorem setPre_over (s : Nat) (base : List Elem) (n : Ns) (hn : n.els ≠ []) (p : Bytes) :
    setPre (n.over s base) p = (setPre n p).over s base := by
  obtain ⟨q, els⟩ := n
  cases els with
  | nil => exact absurd rfl hn
  | cons e els => rfl

theorem setPre_keeps (n : Ns) (hn : n.els ≠ []) (p : Bytes) : (setPre n p).els ≠ [] ∧ (setPre n p).seq = n.seq := by
  obtain ⟨q, els⟩ := n
  cases els with
  | nil => exact absurd rfl hn
  | cons e els => simp [setPre]

theorem topPre_over (s : Nat) (base : List Elem) (n : Ns) (hn : n.els ≠ []) : topPre (n.over s base) = topPre n := by
  obtain ⟨q, els⟩ := n
  cases els with
  | nil => exact absurd rfl hn
  | cons e els => rfl

theorem ancestorDefault_over (base els : List Elem) (u : Bytes) (hu : u ≠ []) (h : Blind base u) :
    ancestorDefault (els ++ base) u = ancestorDefault els u := by
  unfold ancestorDefault
  rw [List.any_append]
  rw [show (base.any fun e => e.pre == [] && e.xmlns == u) = false from by
    rw [List.any_eq_false]
    intro e he
    simp only [Bool.and_eq_true, beq_iff_eq, not_and]
    exact (h e he).2 hu, Bool.or_false]

theorem placeElement_over (s : Nat) (base : List Elem) (q : Nat) (els : List Elem) (e : Elem) (attrs : List Attr)
    (h : Blind base e.xmlns) :
    Same s base ⟨q, els⟩ (placeElement q els e attrs) (placeElement s (els ++ base) e attrs) := by
  unfold placeElement
  split
  · exact ⟨by simp, Nat.le_refl _, fun _ => rfl⟩
  rename_i hu
  split
  · exact ⟨by simp, Nat.le_refl _, fun _ => rfl⟩
  split
  · exact ⟨by simp, Nat.le_refl _, fun _ => rfl⟩
  rw [ancestorDefault_over base els _ hu h]
  split
  · exact ⟨by simp, Nat.le_refl _, fun _ => rfl⟩
  cases ha : ownPrefix attrs e.xmlns with
  | some a =>
    have hv : a.value = e.xmlns := by
      have := List.find?_some ha
      simp only [Bool.and_eq_true, beq_iff_eq] at this
      exact this.2
    have hc := createPrefix_over s base ⟨q, e :: els⟩ (by simp) a.value a.name.loc (hv ▸ h)
    dsimp only
    have hk := setPre_keeps _ hc.ne (createPrefix ⟨q, e :: els⟩ a.value a.name.loc).2.1
    refine ⟨hk.1, by rw [hk.2]; exact hc.le, fun hs => ?_⟩
    rw [hk.2] at hs
    have := hc.eq hs
    rw [show (Ns.over ⟨q, e :: els⟩ s base) = ⟨s, e :: (els ++ base)⟩ from rfl] at this
    rw [this]
    dsimp only
    rw [setPre_over _ _ _ hc.ne]
  | none =>
    dsimp only
    refine ⟨by simp, Nat.le_refl _, fun _ => ?_⟩
    have := getPrefix_over _ base h (e :: els)
    rw [List.cons_append] at this
    rw [this]
    rfl

theorem nameTag_over (s : Nat) (base : List Elem) (n : Ns) (hn : n.els ≠ []) (d : Bool) (u x : Bytes) (h : Blind base u) :
    Same s base n (nameTag n d u x) (nameTag (n.over s base) d u x) := by
  unfold nameTag
  rw [topPre_over s base n hn]
  split
  · split
    · have hc := createPrefix_over s base n hn u (topPre n) h
      have hk := setPre_keeps _ hc.ne (createPrefix n u (topPre n)).2.1
      dsimp only
      refine ⟨hk.1, by rw [hk.2]; exact hc.le, fun hs => ?_⟩
      rw [hk.2] at hs
      rw [hc.eq hs]
      dsimp only
      rw [setPre_over _ _ _ hc.ne]
    · exact ⟨hn, Nat.le_refl _, fun _ => rfl⟩
  · split
    · exact ⟨hn, Nat.le_refl _, fun _ => rfl⟩
    · exact ⟨hn, Nat.le_refl _, fun _ => rfl⟩

theorem writeAttr_over (s : Nat) (base : List Elem) (n : Ns) (hn : n.els ≠ []) (a : Attr) (h : Blind base (attrUri a)) :
    Same s base n (writeAttr n a) (writeAttr (n.over s base) a) := by
  unfold writeAttr
  split
  · exact ⟨hn, Nat.le_refl _, fun _ => rfl⟩
  dsimp only
  unfold attrUri at h
  split
  · rename_i hx
    rw [if_pos hx] at h
    have hc := createPrefix_over s base n hn a.value (splitPrefixed a.name.loc).2 h
    exact ⟨hc.ne, hc.le, fun hs => by rw [hc.eq hs]⟩
  · rename_i hx
    rw [if_neg hx] at h
    split
    · have hc := createPrefix_over s base n hn a.name.space (splitPrefixed a.name.loc).1 h
      exact ⟨hc.ne, hc.le, fun hs => by rw [hc.eq hs]⟩
    · exact ⟨hn, Nat.le_refl _, fun _ => rfl⟩

theorem writeAttrs_over (s : Nat) (base : List Elem) : ∀ (as : List Attr) (n : Ns), n.els ≠ [] → (∀ a ∈ as, Blind base (attrUri a)) →
    Same s base n (writeAttrs n as) (writeAttrs (n.over s base) as)
  | [], n, hn, _ => ⟨hn, Nat.le_refl _, fun _ => rfl⟩
  | a :: as, n, hn, h => by
    have h1 := writeAttr_over s base n hn a (h a (by simp))
    have h2 := writeAttrs_over s base as (writeAttr n a).1 h1.ne fun b hb => h b (by simp [hb])
    simp only [writeAttrs]
    refine ⟨h2.ne, Nat.le_trans h1.le h2.le, fun hs => ?_⟩
    have l1 := h1.le
    have l2 := h2.le
    dsimp only at hs
    rw [h1.eq (by omega)]
    dsimp only
    rw [h2.eq (by omega)]

theorem nsStart_over (s : Nat) (base : List Elem) (n : Ns) (x : Name) (attrs : List Attr) (h : Blind base x.space)
    (ha : ∀ a ∈ attrs, Blind base (attrUri a)) {n' : Ns} {q : Bytes} {tas : List TagAttr} (hs : nsStart n x attrs = .ok (n', q, tas)) :
    n'.els ≠ [] ∧ n.seq ≤ n'.seq ∧ (n'.seq = n.seq → nsStart (n.over s base) x attrs = .ok (n'.over s base, q, tas)) := by
  unfold nsStart at hs ⊢
  split at hs
  · cases hs
  rename_i hl
  rw [if_neg hl]
  dsimp only at hs ⊢
  injection hs with hs
  injection hs with h1 hs
  injection hs with h2 h3
  have p1 := placeElement_over s base n.seq n.els (newElement x) attrs h
  have p2 := nameTag_over s base (placeElement n.seq n.els (newElement x) attrs).1 p1.ne
    (placeElement n.seq n.els (newElement x) attrs).2 (newElement x).xmlns (newElement x).name h
  have p3 := writeAttrs_over s base attrs _ p2.ne ha
  subst h1
  have l1 := p1.le
  have l2 := p2.le
  have l3 := p3.le
  dsimp only at l1
  refine ⟨p3.ne, by omega, fun hs => ?_⟩
  rw [show (n.over s base).seq = s from rfl, show (n.over s base).els = n.els ++ base from rfl, p1.eq (by dsimp only; omega)]
  dsimp only
  rw [p2.eq (by omega)]
  dsimp only
  rw [p3.eq (by omega)]
  dsimp only
  rw [h2, h3]

theorem nsEnd_over (s : Nat) (base : List Elem) (n : Ns) (x : Name) {n' : Ns} {q : Bytes} (h : nsEnd n x = .ok (n', q)) :
    n'.seq = n.seq ∧ nsEnd (n.over s base) x = .ok (n'.over s base, q) := by
  obtain ⟨k, els⟩ := n
  unfold nsEnd at h ⊢
  cases els with
  | nil => split at h <;> cases h
  | cons e els =>
    simp only [Ns.over, List.cons_append] at h ⊢
    split at h
    · cases h
    rename_i h1
    rw [if_neg h1]
    split at h
    · cases h
    rename_i h2
    rw [if_neg h2]
    split at h
    · cases h
    rename_i h3
    rw [if_neg h3]
    split at h
    · cases h
    rename_i h4
    rw [if_neg h4]
    split at h
    · cases h
    rename_i h5
    rw [if_neg h5]
    injection h with h
    injection h with h6 h7
    subst h6; subst h7
    exact ⟨rfl, rfl⟩

/-- A printer inside more enclosing elements. -/
def Printer.over (p : Printer) (s : Nat) (base : List Elem) : Printer := ⟨p.ns.over s base, p.ind⟩

mutual
theorem encItem_over (s : Nat) (base : List Elem) : ∀ (i : Item) (p p' : Printer) (o : List Out), (∀ u ∈ i.uris, Blind base u) →
    encItem p i = .ok (p', o) → p.ns.seq ≤ p'.ns.seq ∧
      (p'.ns.seq = p.ns.seq → encItem (p.over s base) i = .ok (p'.over s base, o))
  | .elem n attrs kids, p, p', o, hb, h => by
    simp only [Item.uris, List.cons_append, List.mem_cons, List.mem_append, List.mem_map] at hb
    simp only [encItem, writeStart] at h ⊢
    cases h1 : nsStart p.ns n attrs with
    | error e => rw [h1] at h; cases h
    | ok r1 =>
      obtain ⟨n1, q, tas⟩ := r1
      rw [h1] at h
      dsimp only at h
      obtain ⟨_, l1, e1⟩ := nsStart_over s base p.ns n attrs (hb _ (.inl rfl)) (fun a ha => hb _ (.inr (.inl ⟨a, ha, rfl⟩))) h1
      cases h2 : encItems ⟨n1, (writeIndent p.ind 1).1⟩ kids with
      | error e => rw [h2] at h; cases h
      | ok r2 =>
        obtain ⟨p2, o2⟩ := r2
        rw [h2] at h
        dsimp only [writeEnd] at h
        obtain ⟨l2, e2⟩ := encItems_over s base kids _ _ _ (fun u hu => hb u (.inr (.inr hu))) h2
        cases h3 : nsEnd p2.ns n with
        | error e => rw [h3] at h; cases h
        | ok r3 =>
          obtain ⟨n3, q3⟩ := r3
          rw [h3] at h
          dsimp only at h
          injection h with h
          injection h with h4 h5
          subst h4; subst h5
          obtain ⟨l3, e3⟩ := nsEnd_over s base p2.ns n h3
          dsimp only at l2 ⊢
          refine ⟨by omega, fun hs => ?_⟩
          rw [show (p.over s base).ns = p.ns.over s base from rfl, e1 (by omega)]
          dsimp only
          rw [show (⟨n1.over s base, (writeIndent (p.over s base).ind 1).1⟩ : Printer) =
            Printer.over ⟨n1, (writeIndent p.ind 1).1⟩ s base from rfl, e2 (by dsimp only; omega)]
          dsimp only [writeEnd]
          rw [show (p2.over s base).ns = p2.ns.over s base from rfl, e3]
          rfl
  | .text b, p, p', o, _, h => by
    simp only [encItem] at h ⊢
    injection h with h; injection h with h1 h2; subst h1; subst h2
    exact ⟨Nat.le_refl _, fun _ => rfl⟩
  | .str b, p, p', o, _, h => by
    simp only [encItem] at h ⊢
    injection h with h; injection h with h1 h2; subst h1; subst h2
    exact ⟨Nat.le_refl _, fun _ => rfl⟩
  | .raw b, p, p', o, _, h => by
    simp only [encItem] at h ⊢
    injection h with h; injection h with h1 h2; subst h1; subst h2
    exact ⟨Nat.le_refl _, fun _ => rfl⟩
theorem encItems_over (s : Nat) (base : List Elem) : ∀ (l : List Item) (p p' : Printer) (o : List Out),
    (∀ u ∈ itemUris l, Blind base u) → encItems p l = .ok (p', o) → p.ns.seq ≤ p'.ns.seq ∧
      (p'.ns.seq = p.ns.seq → encItems (p.over s base) l = .ok (p'.over s base, o))
  | [], p, p', o, _, h => by
    simp only [encItems] at h ⊢
    injection h with h; injection h with h1 h2; subst h1; subst h2
    exact ⟨Nat.le_refl _, fun _ => rfl⟩
  | i :: l, p, p', o, hb, h => by
    simp only [itemUris, List.mem_append] at hb
    simp only [encItems] at h ⊢
    cases h1 : encItem p i with
    | error e => rw [h1] at h; cases h
    | ok r1 =>
      obtain ⟨p1, o1⟩ := r1
      rw [h1] at h
      dsimp only at h
      cases h2 : encItems p1 l with
      | error e => rw [h2] at h; cases h
      | ok r2 =>
        obtain ⟨p2, o2⟩ := r2
        rw [h2] at h
        dsimp only at h
        injection h with h
        injection h with h4 h5
        subst h4; subst h5
        obtain ⟨l1, e1⟩ := encItem_over s base i _ _ _ (fun u hu => hb u (.inl hu)) h1
        obtain ⟨l2, e2⟩ := encItems_over s base l _ _ _ (fun u hu => hb u (.inr hu)) h2
        refine ⟨by omega, fun hs => ?_⟩
        rw [e1 (by omega)]
        dsimp only
        rw [e2 (by omega)]
end

/-! ### Names that are kept need no made-up prefix with a number -/

theorem createPrefix_seq {ns : Ns} {bs bs' : List (Bytes × Bytes)} {u p q : Bytes} {new : Bool} (hne : ns.els ≠ [])
    (ht : Tab ns.els bs) (h : useNs bs u p = some (bs', q, new)) : (createPrefix ns u p).1.seq = ns.seq := by
  rcases (createPrefix_spec hne ht h).2.2.1 with ⟨_, _, h1⟩ | ⟨hnew, _⟩
  · rw [h1]
  subst hnew
  unfold useNs at h
  split at h
  · split at h
    · injection h with h; injection h with _ h; injection h with _ h3; cases h3
    · cases h
  rename_i hu
  split at h
  · cases h
  rename_i hu2
  simp only [not_or, Classical.not_not] at hu2
  have hg := getPrefix_eq ht u hu hu2.2.1
  split at h
  · split at h
    · injection h with h; injection h with _ h; injection h with _ h3; cases h3
    · cases h
  rename_i hq
  dsimp only at h
  generalize hq0 : (if p = [] then genPrefix u else p) = q0 at h
  split at h
  · rename_i hc
    injection h with h; injection h with h1 h; injection h with h2 h3
    subst h2
    obtain ⟨hc1, hc2, hc3⟩ := hc
    rw [hq, Option.getD_none] at hg
    cases hels : ns.els with
    | nil => exact absurd hels hne
    | cons e els =>
      rw [hels] at ht hg
      have hpick : pickPrefix e u p = q0 := by
        by_cases hp : p = []
        · subst hp
          rw [pickPrefix_gen]
          rw [if_pos rfl] at hq0
          exact hq0
        · rw [if_neg hp] at hq0
          rw [hq0]
          exact pickPrefix_preferred e u q0 hc1 hc2 (mget_free ht hc3)
      have huniq : uniquePrefix e ns.seq q0 = (q0, ns.seq) := by
        unfold uniquePrefix
        rw [if_neg (by simp [mget_free ht hc3])]
      unfold createPrefix
      rw [hels]
      simp only [hg]
      rw [if_neg (by simp), hpick, huniq]
  · cases h

theorem writeAttr_seq {ns : Ns} {bs bs' : List (Bytes × Bytes)} {a : Attr} {ss : List SAttr} (hne : ns.els ≠ [])
    (ht : Tab ns.els bs) (ha : AttrOk a) (h : attrSpec bs a = some (bs', ss)) : (writeAttr ns a).1.seq = ns.seq := by
  unfold attrSpec at h
  unfold writeAttr
  split at h
  · rename_i hl
    rw [if_pos hl]
  rename_i hl
  rw [if_neg hl]
  rcases ha with ha | ⟨hq, hv⟩
  · exact absurd ha hl
  dsimp only at h ⊢
  split at h
  · rename_i hx
    rw [if_pos hx]
    split at h
    · cases h
    · rename_i hc
      simp only [not_or, Classical.not_not] at hc
      have hloc : (splitPrefixed a.name.loc).2 = a.name.loc := by
        rcases hq with hq | ⟨p, l, hp, hl', he⟩
        · rw [splitPrefixed_nc hq]
        · rw [he, splitPrefixed_join hp hl'] at hc
          exact absurd hc.1 (isName_ne hp.1)
      split at h
      · cases h
      · rename_i hu
        rw [hloc]
        exact createPrefix_seq hne ht hu
  rename_i hx
  rw [if_neg hx]
  split at h
  · rename_i hs
    rw [if_pos hs]
    split at h
    · cases h
    · rename_i hu
      exact createPrefix_seq hne ht hu
  · rename_i hs
    rw [if_neg hs]

theorem writeAttrs_seq (attrs : List Attr) {ns : Ns} {bs bs' : List (Bytes × Bytes)} {ss : List SAttr} (hne : ns.els ≠ [])
    (ht : Tab ns.els bs) (ha : ∀ a ∈ attrs, AttrOk a) (h : attrsSpec bs attrs = some (bs', ss)) :
    (writeAttrs ns attrs).1.seq = ns.seq := by
  induction attrs generalizing ns bs ss with
  | nil => rfl
  | cons a l ih =>
    simp only [attrsSpec] at h
    split at h
    · cases h
    · rename_i bs1 s1 h1
      split at h
      · cases h
      · rename_i bs2 s2 h2
        injection h with h; injection h with h3 h4
        subst h3; subst h4
        have d1 := writeAttr_spec hne ht (ha a (by simp)) h1
        simp only [writeAttrs]
        rw [ih d1.same.ne d1.tab (fun x hx => ha x (by simp [hx])) h2, writeAttr_seq hne ht (ha a (by simp)) h1]

theorem setPre_seq (n : Ns) (p : Bytes) : (setPre n p).seq = n.seq := by
  unfold setPre
  split <;> rfl

theorem place_seq {els : List Elem} {os : List Open} {env : Env} (seq : Nat) {n : Name} {attrs : List Attr} {pl : Place}
    (hi : EnvInv els os env) (h : placeSpec env n attrs = some pl) :
    (nameTag (placeElement seq els (newElement n) attrs).1 (placeElement seq els (newElement n) attrs).2 n.space
        (splitPrefixed n.loc).2).1.seq = seq := by
  have htab := tab_push hi.tab (newElement n) rfl rfl
  have hpush : Tab (⟨seq, newElement n :: els⟩ : Ns).els env.bs := htab
  unfold placeSpec at h
  dsimp only at h
  split at h
  · cases h
  split at h
  · rename_i hs
    have hpl : placeElement seq els (newElement n) attrs = (⟨seq, newElement n :: els⟩, false) := by
      unfold placeElement; rw [if_pos (show (newElement n).xmlns = [] from hs)]
    rw [hpl]
    unfold nameTag
    simp [hs]
    split <;> rfl
  rename_i hs
  have hs' : (newElement n).xmlns ≠ [] := hs
  split at h
  · cases h
  rename_i hu
  simp only [not_or, Classical.not_not] at hu
  split at h
  · rename_i hod
    have hpl : placeElement seq els (newElement n) attrs = (⟨seq, newElement n :: els⟩, true) := by
      unfold placeElement
      rw [if_neg hs', if_pos (show ownDefault attrs (newElement n).xmlns = true from (ownDefault_iff attrs n.space).2 hod)]
    rw [hpl]
    unfold nameTag
    simp
    split <;> rfl
  rename_i hod
  have hod' : ¬ ownDefault attrs (newElement n).xmlns = true := fun hh => hod ((ownDefault_iff attrs n.space).1 hh)
  split at h
  · rename_i hp
    have hpl : placeElement seq els (newElement n) attrs = (⟨seq, newElement n :: els⟩, false) := by
      unfold placeElement
      rw [if_neg hs', if_neg hod', if_pos (show (newElement n).pre ≠ [] from hp)]
    have htop : topPre (⟨seq, newElement n :: els⟩ : Ns) = (splitPrefixed n.loc).1 := rfl
    rw [hpl]
    cases hu' : useNs env.bs n.space (splitPrefixed n.loc).1 with
    | none => rw [hu'] at h; cases h
    | some r =>
      obtain ⟨bs', q, new⟩ := r
      rw [nameTag_new _ _ _ (by rw [htop]; exact hp) hs]
      dsimp only
      rw [htop, setPre_seq]
      exact createPrefix_seq (ns := ⟨seq, newElement n :: els⟩) (by simp) hpush hu'
  rename_i hp
  have hp : (splitPrefixed n.loc).1 = [] := Classical.not_not.1 hp
  have hp' : ¬ (newElement n).pre ≠ [] := fun hx => hx hp
  split at h
  · rename_i hg
    have hpl : placeElement seq els (newElement n) attrs = (⟨seq, newElement n :: els⟩, true) := by
      unfold placeElement
      rw [if_neg hs', if_neg hod', if_neg hp', if_pos (show ancestorDefault els (newElement n).xmlns = true from (ancestorDefault_iff hi n.space hs).2 hg)]
    rw [hpl]
    unfold nameTag
    simp
    split <;> rfl
  rename_i hg
  have hanc : ¬ ancestorDefault els (newElement n).xmlns = true := fun hh => hg ((ancestorDefault_iff hi n.space hs).1 hh)
  split at h
  · rename_i a ha
    cases hu' : useNs env.bs n.space a.name.loc with
    | none => rw [hu'] at h; cases h
    | some r =>
      obtain ⟨bs', q, new⟩ := r
      have hpa := List.find?_some ha
      simp at hpa
      have hpl : placeElement seq els (newElement n) attrs =
          (setPre (createPrefix ⟨seq, newElement n :: els⟩ n.space a.name.loc).1
            (createPrefix ⟨seq, newElement n :: els⟩ n.space a.name.loc).2.1, true) := by
        unfold placeElement
        rw [if_neg hs', if_neg hod', if_neg hp', if_neg hanc]
        have : ownPrefix attrs (newElement n).xmlns = some a := ha
        rw [this]
        dsimp only
        rw [hpa.2]
      rw [hpl]
      have := createPrefix_seq (ns := ⟨seq, newElement n :: els⟩) (by simp) hpush hu'
      unfold nameTag
      simp
      split <;> (dsimp only; rw [setPre_seq]; exact this)
  rename_i hop
  have hpl : placeElement seq els (newElement n) attrs =
      (⟨seq, { newElement n with pre := getPrefix (newElement n :: els) n.space } :: els⟩,
        getPrefix (newElement n :: els) n.space != []) := by
    unfold placeElement
    rw [if_neg hs', if_neg hod', if_neg hp', if_neg hanc]
    have : ownPrefix attrs (newElement n).xmlns = none := hop
    rw [this]
    rfl
  rw [hpl]
  unfold nameTag
  generalize getPrefix (newElement n :: els) n.space = g
  by_cases hg0 : g = []
  · subst hg0
    simp [topPre]
    split <;> rfl
  · simp [topPre, hg0]

mutual
theorem encItem_seq (i : Item) (p : Printer) (os : List Open) (env : Env) (x : Node) (hi : EnvInv p.ns.els os env)
    (hok : ItemOk i) (h : resolve env i = some x) (p' : Printer) (o : List Out) (he : encItem p i = .ok (p', o)) :
    p'.ns.seq = p.ns.seq := by
  cases i with
  | text b => simp only [encItem] at he; injection he with he; injection he with he _; rw [← he]
  | str b => simp only [encItem] at he; injection he with he; injection he with he _; rw [← he]
  | raw b => exact absurd hok (by simp [ItemOk])
  | elem n attrs kids =>
    unfold ItemOk at hok
    obtain ⟨hn, ha, hk⟩ := hok
    unfold resolve at h
    split at h
    · cases h
    rename_i pl h1
    split at h
    · cases h
    rename_i bs as h2
    split at h
    · cases h
    rename_i h3
    dsimp only at h
    obtain ⟨ns1, q, tas, hst, hs⟩ := start_spec hi hn ha h1 h2 (by simpa using h3)
    have hseq : ns1.seq = p.ns.seq := by
      have hp := place_spec p.ns.seq hi h1
      have hps := place_seq p.ns.seq hi h1
      unfold nsStart at hst
      rw [if_neg (qlocal_ne hn)] at hst
      dsimp only at hst
      injection hst with hst
      injection hst with hst _
      obtain ⟨e, e1, _⟩ := hp.top
      have := writeAttrs_seq attrs (by rw [e1]; simp) hp.tab ha h2
      rw [← hst]
      exact this.trans hps
    simp only [encItem, writeStart] at he
    rw [hst] at he
    dsimp only at he
    cases h4 : encItems ⟨ns1, (writeIndent p.ind 1).1⟩ kids with
    | error e => rw [h4] at he; cases he
    | ok r =>
      obtain ⟨p2, o2⟩ := r
      rw [h4] at he
      dsimp only [writeEnd] at he
      have hk2 : p2.ns.seq = ns1.seq := by
        cases hrk : rawKid kids with
        | some b =>
          have hkk := rawKid_some hrk
          subst hkk
          simp only [encItems, encItem] at h4
          injection h4 with h4; injection h4 with h4 _; rw [← h4]
        | none =>
          rw [hrk] at h
          dsimp only at h
          split at h
          · cases h
          rename_i ks h5
          have hk : ItemsOk kids := by
            rcases hk with ⟨b, rfl, _⟩ | hk
            · cases hrk
            · exact hk
          exact encItems_seq kids ⟨ns1, (writeIndent p.ind 1).1⟩ _ _ ks hs.inv hk h5 p2 o2 h4
      cases h6 : nsEnd p2.ns n with
      | error e => rw [h6] at he; cases he
      | ok r =>
        obtain ⟨n3, q3⟩ := r
        rw [h6] at he
        dsimp only at he
        injection he with he
        injection he with he _
        have := (nsEnd_over 0 [] _ _ h6).1
        rw [← he]
        dsimp only
        omega
theorem encItems_seq (l : List Item) (p : Printer) (os : List Open) (env : Env) (xs : List Node) (hi : EnvInv p.ns.els os env)
    (hok : ItemsOk l) (h : resolves env l = some xs) (p' : Printer) (o : List Out) (he : encItems p l = .ok (p', o)) :
    p'.ns.seq = p.ns.seq := by
  cases l with
  | nil => simp only [encItems] at he; injection he with he; injection he with he _; rw [← he]
  | cons i l =>
    unfold ItemsOk at hok
    unfold resolves at h
    split at h
    · cases h
    rename_i x h1
    split at h
    · cases h
    rename_i xs h2
    obtain ⟨p1, o1, he1, hw1⟩ := encItem_wrote i p os env x hi hok.1 h1
    have s1 := encItem_seq i p os env x hi hok.1 h1 p1 o1 he1
    simp only [encItems] at he
    rw [he1] at he
    dsimp only at he
    cases h3 : encItems p1 l with
    | error e => rw [h3] at he; cases he
    | ok r =>
      obtain ⟨p2, o2⟩ := r
      rw [h3] at he
      dsimp only at he
      injection he with he
      injection he with he _
      rw [← he, encItems_seq l p1 os env xs (by rw [hw1.els]; exact hi) hok.2 h2 p2 o2 h3, s1]
end

end Verif.Xml

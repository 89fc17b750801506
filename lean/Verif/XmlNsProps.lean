import Verif.XmlTokenProps

/-!
C26 (tokens are nested) and C27 (namespace scoping): the decoder's mutable prefix map with its undo records agrees
with a specification in which every open element carries its own declarations.
-/
namespace Verif.Xml

open Verif.Utf8

/-! ### Specification: Namespaces in XML 1.0 -/

/-- An open element: its name as written, and the prefixes it declares (`[]` for the default namespace). -/
structure Open where
  name : Name
  decls : List (Bytes × Bytes)
  deriving DecidableEq, Repr

/-- The declaration an attribute makes, if any. -/
def declOf (a : Attr) : Option (Bytes × Bytes) :=
  if a.name.space = b!"xmlns" then some (a.name.loc, a.value)
  else if a.name = ⟨[], b!"xmlns"⟩ then some ([], a.value)
  else none

/-- The namespace bound to a prefix: the innermost open element declaring it decides (its last declaration, if it
has several). -/
def bound : List Open → Bytes → Option Bytes
  | [], _ => none
  | o :: os, p =>
    match o.decls.reverse.find? (fun d => d.1 = p) with
    | some d => some d.2
    | none => bound os p

/-- The namespace of a prefixed name: reserved prefixes, then the declarations in scope; an undeclared prefix stands for
itself. -/
def resolvePrefix (os : List Open) (p : Bytes) : Bytes :=
  if p = b!"xmlns" then b!"http://www.w3.org/2000/xmlns/"
  else if p = b!"xml" then b!"http://www.w3.org/XML/1998/namespace"
  else (bound os p).getD p

/-- The expanded name of an element. (An element called `xmlns` is given no namespace.) -/
def resolveElement (os : List Open) (n : Name) : Name :=
  if n = ⟨[], b!"xmlns"⟩ then n else ⟨resolvePrefix os n.space, n.loc⟩

/-- The expanded name of an attribute: without a prefix it has no namespace. -/
def resolveAttr (os : List Open) (n : Name) : Name :=
  if n.space = [] then n else ⟨resolvePrefix os n.space, n.loc⟩

/-- A prefix may not be declared empty (`xmlns:p=""`). -/
def BadDecl (a : Attr) : Prop := a.name.space = b!"xmlns" ∧ (a.value = [] ∨ a.name.loc = [])

instance (a : Attr) : Decidable (BadDecl a) := by unfold BadDecl; infer_instance

/-- What a token as written means inside the open elements `os`, and the elements open after it; `none` if it may not
appear there. -/
def specToken (os : List Open) : Token → Option (Token × List Open)
  | .startElement n attrs =>
    if ∃ a ∈ attrs, BadDecl a then none
    else
      let os' := ⟨n, attrs.filterMap declOf⟩ :: os
      some (.startElement (resolveElement os' n) (attrs.map fun a => ⟨resolveAttr os' a.name, a.value⟩), os')
  | .endElement n =>
    match os with
    | o :: os' => if o.name = n then some (.endElement (resolveElement os n), os') else none
    | [] => none
  | t => some (t, os)

/-- The tokens a document means: reading stops at the first one that may not appear. -/
def specTokens : List Open → List Token → List Token
  | _, [] => []
  | os, t :: l =>
    match specToken os t with
    | none => []
    | some (t', os') => t' :: specTokens os' l

/-- Start and end elements are nested and matched: the names of the elements left open, if so. -/
def nesting : List Name → List Token → Option (List Name)
  | os, [] => some os
  | os, .startElement n _ :: l => nesting (n :: os) l
  | o :: os, .endElement n :: l => if o = n then nesting os l else none
  | [], .endElement _ :: _ => none
  | os, _ :: l => nesting os l

/-! ### Names read from a document contain no colon -/

def ColonFree (n : Name) : Prop := ch%':' ∉ n.space ∧ ch%':' ∉ n.loc

theorem splitName_colonFree (s : Bytes) (n : Name) (h : splitName s = some n) : ColonFree n := by
  unfold splitName at h
  dsimp only at h
  split at h
  · rename_i hd
    injection h with h; subst h
    refine ⟨by simp, ?_⟩
    intro hm
    have := List.takeWhile_append_dropWhile (p := (· != ch%':')) (l := s)
    rw [hd, List.append_nil] at this
    have h2 := List.all_takeWhile (l := s) (p := (· != ch%':'))
    rw [this] at h2
    have := List.all_eq_true.1 h2 _ hm
    simp at this
  · split at h
    · cases h
    · split at h
      · cases h
      · rename_i hl _
        injection h with h; subst h
        refine ⟨?_, hl⟩
        intro hm
        have h2 := List.all_takeWhile (l := s) (p := (· != ch%':'))
        have := List.all_eq_true.1 h2 _ hm
        simp at this

theorem nsname_colonFree (s : Bytes) (n : Name) (r : Bytes) (h : nsname s = .ok (some (n, r))) : ColonFree n := by
  unfold nsname at h
  split at h
  · cases h
  · cases h
  · split at h
    · cases h
    · rename_i hs
      injection h with h; injection h with h; injection h with h _; subst h
      exact splitName_colonFree _ _ hs

theorem readAttr_colonFree (s : Bytes) (a : Attr) (r : Bytes) (h : readAttr s = .ok (a, r)) : ColonFree a.name := by
  unfold readAttr at h
  split at h
  · cases h
  · cases h
  · rename_i he
    split at h
    · cases h
    · split at h
      · cases h
      · split at h
        · cases h
        · injection h with h; injection h with h _; subst h
          exact nsname_colonFree _ _ _ he

theorem attrLoop_colonFree (n : Nat) (acc : List Attr) (s : Bytes) (as : List Attr) (e : Bool) (r : Bytes)
    (hacc : ∀ a ∈ acc, ColonFree a.name) (h : attrLoop n acc s = .ok (as, e, r)) : ∀ a ∈ as, ColonFree a.name := by
  induction n generalizing acc s with
  | zero => cases h
  | succ n ih =>
    simp only [attrLoop] at h
    split at h
    · cases h
    · split at h
      · split at h
        · cases h
        · split at h
          · cases h
          · injection h with h; injection h with h _; subst h; exact hacc
      split at h
      · injection h with h; injection h with h _; subst h; exact hacc
      · split at h
        · cases h
        · rename_i a r' ha
          refine ih _ _ ?_ h
          intro x hx
          rcases List.mem_append.1 hx with hx | hx
          · exact hacc x hx
          · simp at hx; subst hx; exact readAttr_colonFree _ _ _ ha

/-- The names of a token contain no colon. -/
def TokenColonFree : Token → Prop
  | .startElement n attrs => ColonFree n ∧ ∀ a ∈ attrs, ColonFree a.name
  | .endElement n => ColonFree n
  | _ => True

def RawColonFree (st : Raw) : Prop := ∀ n, st.toClose = some n → ColonFree n

theorem rawToken_colonFree (st st' : Raw) (t : Token) (hst : RawColonFree st) (h : rawToken st = .ok (t, st')) :
    TokenColonFree t ∧ RawColonFree st' := by
  have hnone : ∀ r, RawColonFree ⟨r, none⟩ := fun r n hn => by simp at hn
  unfold rawToken at h
  split at h
  · rename_i n hn
    injection h with h; injection h with h1 h2; subst h1; subst h2
    exact ⟨hst n hn, hnone _⟩
  · split at h
    · cases h
    · split at h
      · split at h
        · cases h
        · injection h with h; injection h with h1 h2; subst h1; subst h2
          exact ⟨trivial, hnone _⟩
      · split at h
        · cases h
        · split at h
          · unfold endTag at h
            split at h
            · cases h
            · cases h
            · rename_i he
              split at h
              · cases h
              · split at h
                · cases h
                · injection h with h; injection h with h1 h2; subst h1; subst h2
                  exact ⟨nsname_colonFree _ _ _ he, hnone _⟩
          split at h
          · unfold piTag at h
            split at h
            · cases h
            · cases h
            · split at h
              · cases h
              · split at h
                · cases h
                · injection h with h; injection h with h1 h2; subst h1; subst h2
                  exact ⟨trivial, hnone _⟩
          split at h
          · unfold bangTag at h
            split at h
            · cases h
            · split at h
              · split at h
                · cases h
                · split at h
                  · cases h
                  · split at h
                    · cases h
                    · injection h with h; injection h with h1 h2; subst h1; subst h2
                      exact ⟨trivial, hnone _⟩
              · split at h
                · split at h
                  · cases h
                  · split at h
                    · cases h
                    · injection h with h; injection h with h1 h2; subst h1; subst h2
                      exact ⟨trivial, hnone _⟩
                · split at h
                  · cases h
                  · injection h with h; injection h with h1 h2; subst h1; subst h2
                    exact ⟨trivial, hnone _⟩
          · unfold startTag at h
            split at h
            · cases h
            · cases h
            · rename_i he
              split at h
              · cases h
              · rename_i as e r' ha
                injection h with h; injection h with h1 h2; subst h1; subst h2
                have hn := nsname_colonFree _ _ _ he
                refine ⟨⟨hn, attrLoop_colonFree _ _ _ _ _ _ (by simp) ha⟩, ?_⟩
                intro m hm
                dsimp only at hm
                split at hm
                · injection hm with hm; subst hm; exact hn
                · cases hm

/-! ### The decoder's state against the open elements -/

/-- The prefix map and stack of the decoder, and the open elements they stand for. -/
inductive Rel : NsMap → List Stk → List Open → Prop where
  | nil : Rel (fun _ => none) [] []
  | cons (ns ns' : NsMap) (stk stk' : List Stk) (os : List Open) (n : Name) (attrs : List Attr) :
      Rel ns stk os → (∀ a ∈ attrs, ColonFree a.name) → pushNs attrs ns stk = .ok (ns', stk') →
      Rel ns' (.start n :: stk') (⟨n, attrs.filterMap declOf⟩ :: os)

theorem pushNs_pop (attrs : List Attr) (ns ns' : NsMap) (stk stk' : List Stk)
    (h : pushNs attrs ns stk = .ok (ns', stk')) : popNs ns' stk' = popNs ns stk := by
  induction attrs generalizing ns stk with
  | nil => injection h with h; injection h with h1 h2; rw [h1, h2]
  | cons a l ih =>
    have hset : ∀ k v, (NsMap.set (NsMap.set ns k v) k (ns k)) = ns := by
      intro k v; funext x; unfold NsMap.set; split
      · rename_i hx; rw [hx]
      · rfl
    simp only [pushNs] at h
    split at h
    · split at h
      · cases h
      split at h
      · cases h
      · rw [ih _ _ h]
        simp only [popNs, hset]
    split at h
    · rw [ih _ _ h]
      simp only [popNs, hset]
    · exact ih _ _ h

theorem pushNs_ok_iff (attrs : List Attr) (ns : NsMap) (stk : List Stk) :
    (∃ p, pushNs attrs ns stk = .ok p) ↔ ¬ ∃ a ∈ attrs, BadDecl a := by
  induction attrs generalizing ns stk with
  | nil => simp [pushNs]
  | cons a l ih =>
    simp only [pushNs]
    by_cases h1 : a.name.space = xmlnsPrefix
    · rw [if_pos h1]
      by_cases h2 : a.value = []
      · rw [if_pos h2]
        simp only [reduceCtorEq, exists_false, false_iff, Classical.not_not]
        exact ⟨a, by simp, h1, Or.inl h2⟩
      rw [if_neg h2]
      by_cases h3 : a.name.loc = []
      · rw [if_pos h3]
        simp only [reduceCtorEq, exists_false, false_iff, Classical.not_not]
        exact ⟨a, by simp, h1, Or.inr h3⟩
      rw [if_neg h3, ih]
      simp only [List.mem_cons, exists_eq_or_imp, not_or]
      have : ¬ BadDecl a := fun hb => by rcases hb.2 with h | h <;> contradiction
      exact ⟨fun h => ⟨this, h⟩, fun h => h.2⟩
    · rw [if_neg h1]
      have : ¬ BadDecl a := fun hb => h1 hb.1
      split <;> rw [ih] <;> simp only [List.mem_cons, exists_eq_or_imp, not_or] <;>
        exact ⟨fun h => ⟨this, h⟩, fun h => h.2⟩

theorem declOf_eq (a : Attr) : declOf a = if a.name.space = xmlnsPrefix then some (a.name.loc, a.value)
    else if a.name = ⟨[], xmlnsPrefix⟩ then some ([], a.value) else none := rfl

/-- The map after the declarations of one element. -/
theorem pushNs_lookup (attrs : List Attr) (ns ns' : NsMap) (stk stk' : List Stk)
    (h : pushNs attrs ns stk = .ok (ns', stk')) (p : Bytes) :
    ns' p = match (attrs.filterMap declOf).reverse.find? (fun d => d.1 = p) with
      | some d => some d.2
      | none => ns p := by
  induction attrs generalizing ns stk with
  | nil => injection h with h; injection h with h1 h2; rw [h1]; rfl
  | cons a l ih =>
    simp only [pushNs] at h
    have key : ∀ d : Bytes × Bytes, declOf a = some d →
        (match ((a :: l).filterMap declOf).reverse.find? (fun d => d.1 = p) with | some d => some d.2 | none => ns p) =
        (match (l.filterMap declOf).reverse.find? (fun d => d.1 = p) with
          | some d => some d.2 | none => (NsMap.set ns d.1 (some d.2)) p) := by
      intro d hd
      rw [List.filterMap_cons_some hd, List.reverse_cons, List.find?_append]
      cases (l.filterMap declOf).reverse.find? (fun d => d.1 = p) with
      | some d' => rfl
      | none =>
        simp only [Option.none_or, List.find?_cons, List.find?_nil, NsMap.set]
        by_cases hp : d.1 = p
        · simp [hp]
        · simp [hp, show ¬ p = d.1 from fun h => hp h.symm]
    split at h
    · rename_i h1
      split at h
      · cases h
      split at h
      · cases h
      · rw [ih _ _ h, key (a.name.loc, a.value) (by rw [declOf_eq, if_pos h1])]
    split at h
    · rename_i h1 h2
      rw [ih _ _ h, key ([], a.value)]
      rw [declOf_eq, if_neg h1, if_pos]
      rw [← h2.1, ← h2.2]
    · rename_i h1 h2
      rw [ih _ _ h, List.filterMap_cons_none]
      rw [declOf_eq, if_neg h1, if_neg]
      intro h3
      exact h2 (by rw [h3]; exact ⟨rfl, rfl⟩)

theorem rel_lookup {ns : NsMap} {stk : List Stk} {os : List Open} (h : Rel ns stk os) (p : Bytes) : ns p = bound os p := by
  induction h with
  | nil => rfl
  | cons ns ns' stk stk' os n attrs hr hc hp ih =>
    rw [pushNs_lookup attrs ns ns' stk stk' hp p]
    simp only [bound]
    rw [ih]

theorem declOf_key (a : Attr) (d : Bytes × Bytes) (hc : ColonFree a.name) (h : declOf a = some d) : ch%':' ∉ d.1 := by
  unfold declOf at h
  split at h
  · injection h with h; subst h; exact hc.2
  split at h
  · injection h with h; subst h; simp
  · cases h

/-- No prefix contains a colon, so the lookup of `xmlURL` in `translate` never succeeds. -/
theorem rel_xmlURL {ns : NsMap} {stk : List Stk} {os : List Open} (h : Rel ns stk os) : ns xmlURL = none := by
  induction h with
  | nil => rfl
  | cons ns ns' stk stk' os n attrs hr hc hp ih =>
    rw [pushNs_lookup attrs ns ns' stk stk' hp]
    cases hf : (attrs.filterMap declOf).reverse.find? (fun d => d.1 = xmlURL) with
    | none => exact ih
    | some d =>
      exfalso
      have h1 := List.find?_some hf
      have h2 := List.mem_of_find?_eq_some hf
      rw [List.mem_reverse, List.mem_filterMap] at h2
      obtain ⟨a, ha, hd⟩ := h2
      have := declOf_key a d (hc a ha) hd
      simp only [decide_eq_true_eq] at h1
      rw [h1] at this
      exact this (by decide)

theorem popNs_start {ns : NsMap} {stk : List Stk} {os : List Open} (h : Rel ns stk os) : popNs ns stk = (ns, stk) := by
  cases h <;> rfl

theorem translate_element (ns : NsMap) (os : List Open) (hl : ∀ p, ns p = bound os p) (hx : ns xmlURL = none) (n : Name) :
    translate ns n true = resolveElement os n := by
  obtain ⟨sp, lo⟩ := n
  unfold translate resolveElement resolvePrefix
  simp only [Name.mk.injEq]
  by_cases h1 : sp = xmlnsPrefix
  · have h1' : sp = b!"xmlns" := h1
    rw [if_pos h1, if_neg (by rw [h1']; simp), if_pos h1']
    rfl
  rw [if_neg h1]
  have h1' : ¬ sp = b!"xmlns" := h1
  rw [if_neg (by simp)]
  by_cases h2 : sp = xmlPrefix
  · have h2' : sp = b!"xml" := h2
    rw [if_pos h2, hx, if_neg (by rw [h2']; simp), if_neg h1', if_pos h2']
    rfl
  rw [if_neg h2]
  have h2' : ¬ sp = b!"xml" := h2
  by_cases h3 : sp = [] ∧ lo = xmlnsPrefix
  · have h3' : sp = [] ∧ lo = b!"xmlns" := h3
    rw [if_pos h3, if_pos h3']
  · have h3' : ¬ (sp = [] ∧ lo = b!"xmlns") := h3
    rw [if_neg h3, if_neg h3', if_neg h1', if_neg h2', hl]
    cases bound os sp <;> rfl

theorem translate_attr (ns : NsMap) (os : List Open) (hl : ∀ p, ns p = bound os p) (hx : ns xmlURL = none) (n : Name) :
    translate ns n false = resolveAttr os n := by
  obtain ⟨sp, lo⟩ := n
  unfold translate resolveAttr resolvePrefix
  dsimp only
  by_cases h0 : sp = []
  · subst h0
    rw [if_neg (by decide), if_pos (by decide), if_pos rfl]
  rw [if_neg h0]
  by_cases h1 : sp = xmlnsPrefix
  · have h1' : sp = b!"xmlns" := h1
    rw [if_pos h1, if_pos h1']
    rfl
  rw [if_neg h1]
  have h1' : ¬ sp = b!"xmlns" := h1
  rw [if_neg (by simp [h0])]
  by_cases h2 : sp = xmlPrefix
  · have h2' : sp = b!"xml" := h2
    rw [if_pos h2, hx, if_neg h1', if_pos h2']
    rfl
  rw [if_neg h2]
  have h2' : ¬ sp = b!"xml" := h2
  rw [if_neg (by simp [h0]), if_neg h1', if_neg h2', hl]
  cases bound os sp <;> rfl

/-- One token: the decoder does what the specification says. -/
theorem cook_spec {ns : NsMap} {stk : List Stk} {os : List Open} (h : Rel ns stk os) (t : Token) (ht : TokenColonFree t) :
    match cook t ns stk, specToken os t with
    | .ok (t', ns', stk'), some (t'', os') => t' = t'' ∧ Rel ns' stk' os'
    | .error _, none => True
    | _, _ => False := by
  have hl := rel_lookup h
  have hx := rel_xmlURL h
  cases t with
  | startElement n attrs =>
    simp only [cook, specToken]
    have hok := pushNs_ok_iff attrs ns stk
    cases hp : pushNs attrs ns stk with
    | error e =>
      rw [hp] at hok
      rw [if_pos (by
        apply Classical.not_not.1
        intro h0
        obtain ⟨p, hp⟩ := hok.2 h0
        cases hp)]
      trivial
    | ok p =>
      obtain ⟨ns', stk'⟩ := p
      have hrel := Rel.cons ns ns' stk stk' os n attrs h ht.2 hp
      have hl' := rel_lookup hrel
      have hx' := rel_xmlURL hrel
      rw [if_neg (hok.1 ⟨_, hp⟩)]
      simp only [translate_element ns' _ hl' hx', translate_attr ns' _ hl' hx']
      exact ⟨trivial, hrel⟩
  | endElement n =>
    cases h with
    | nil => trivial
    | cons ns0 _ stk0 stk' os0 m attrs hr hc hp =>
      simp only [cook, popElement, specToken]
      obtain ⟨ms, ml⟩ := m
      obtain ⟨nsp, nl⟩ := n
      simp only [Name.mk.injEq]
      by_cases h1 : ml = nl
      · by_cases h2 : ms = nsp
        · subst h1; subst h2
          rw [if_neg (by simp), if_neg (by simp), if_pos ⟨rfl, rfl⟩]
          simp only [translate_element ns _ hl hx]
          rw [pushNs_pop attrs ns0 ns stk0 stk' hp, popNs_start hr]
          exact ⟨trivial, hr⟩
        · rw [if_neg (by simp [h1]), if_pos h2, if_neg (by simp [h2])]
          trivial
      · rw [if_pos h1, if_neg (by simp [h1])]
        trivial
  | charData b => exact ⟨rfl, h⟩
  | comment b => exact ⟨rfl, h⟩
  | procInst a b => exact ⟨rfl, h⟩
  | directive b => exact ⟨rfl, h⟩

/-! ### Whole documents -/

/-- The first `n` tokens of a decoder as returned by `Token`, and the error that ended them, if any. -/
def tokRun : Nat → Dec → List Token × Option XErr
  | 0, _ => ([], none)
  | n + 1, d =>
    match token d with
    | .error e => ([], some e)
    | .ok (t, d') => (t :: (tokRun n d').1, (tokRun n d').2)

/-- The first `n` tokens of a document as written (`RawToken`). -/
def rawRun : Nat → Raw → List Token
  | 0, _ => []
  | n + 1, st =>
    match rawToken st with
    | .error _ => []
    | .ok (t, st') => t :: rawRun n st'

theorem tokRun_spec (n : Nat) (d : Dec) (os : List Open) (h : Rel d.ns d.stk os) (hc : RawColonFree d.raw) :
    (tokRun n d).1 = specTokens os (rawRun n d.raw) := by
  induction n generalizing d os with
  | zero => rfl
  | succ n ih =>
    simp only [tokRun, rawRun, token]
    cases hr : rawToken d.raw with
    | error e => rfl
    | ok p =>
      obtain ⟨t, raw'⟩ := p
      have hcf := rawToken_colonFree _ _ _ hc hr
      have hs := cook_spec h t hcf.1
      dsimp only
      rw [specTokens]
      cases hk : cook t d.ns d.stk with
      | error e =>
        rw [hk] at hs
        cases hsp : specToken os t with
        | none => rfl
        | some q => rw [hsp] at hs; exact absurd hs id
      | ok q =>
        obtain ⟨t', ns', stk'⟩ := q
        rw [hk] at hs
        cases hsp : specToken os t with
        | none => rw [hsp] at hs; exact absurd hs id
        | some q =>
          obtain ⟨t'', os'⟩ := q
          rw [hsp] at hs
          dsimp only at hs ⊢
          rw [hs.1, ih ⟨raw', ns', stk'⟩ os' hs.2 hcf.2]

theorem rawColonFree_new (s : Bytes) : RawColonFree (Dec.new s).raw := fun n hn => by simp [Dec.new] at hn

/-- C27: for every document, the tokens of the decoder are the tokens as written with each name expanded according to
the declarations of the elements open around it. -/
theorem C27_scoping (s : Bytes) (n : Nat) : (tokRun n (Dec.new s)).1 = specTokens [] (rawRun n ⟨s, none⟩) :=
  tokRun_spec n (Dec.new s) [] .nil (rawColonFree_new s)

/-- The expanded names of the open elements. -/
def openNames : List Open → List Name
  | [] => []
  | o :: os => resolveElement (o :: os) o.name :: openNames os

theorem specTokens_nested (os : List Open) (l : List Token) : (nesting (openNames os) (specTokens os l)).isSome = true := by
  induction l generalizing os with
  | nil => rfl
  | cons t l ih =>
    rw [specTokens]
    cases hs : specToken os t with
    | none => rfl
    | some p =>
      obtain ⟨t', os'⟩ := p
      dsimp only
      cases t with
      | startElement n attrs =>
        simp only [specToken] at hs
        split at hs
        · cases hs
        · injection hs with hs; injection hs with h1 h2
          subst h1; subst h2
          rw [nesting]
          exact ih (⟨n, attrs.filterMap declOf⟩ :: os)
      | endElement n =>
        simp only [specToken] at hs
        split at hs
        · rename_i o os0
          split at hs
          · rename_i he
            injection hs with hs; injection hs with h1 h2
            subst h1; subst h2
            rw [openNames, nesting, if_pos (by rw [he])]
            exact ih _
          · cases hs
        · cases hs
      | charData b =>
        injection hs with hs; injection hs with h1 h2; subst h1; subst h2
        rw [nesting.eq_def]; exact ih _
      | comment b =>
        injection hs with hs; injection hs with h1 h2; subst h1; subst h2
        rw [nesting.eq_def]; exact ih _
      | procInst a b =>
        injection hs with hs; injection hs with h1 h2; subst h1; subst h2
        rw [nesting.eq_def]; exact ih _
      | directive b =>
        injection hs with hs; injection hs with h1 h2; subst h1; subst h2
        rw [nesting.eq_def]; exact ih _

/-- C26: start and end elements returned by the decoder are nested and carry the same expanded name. -/
theorem C26_nested (s : Bytes) (n : Nat) : (nesting [] (tokRun n (Dec.new s)).1).isSome = true := by
  rw [C27_scoping]
  exact specTokens_nested [] _

theorem pushNs_not_eof (attrs : List Attr) (ns : NsMap) (stk : List Stk) (e : XErr) (hp : pushNs attrs ns stk = .error e) :
    e ≠ .eof := by
  induction attrs generalizing ns stk with
  | nil => cases hp
  | cons a l ih =>
    simp only [pushNs] at hp
    split at hp
    · split at hp
      · injection hp with hp; subst hp; simp
      split at hp
      · injection hp with hp; subst hp; simp
      · exact ih _ _ hp
    split at hp
    · exact ih _ _ hp
    · exact ih _ _ hp

theorem rel_nil {ns : NsMap} {os : List Open} (h : Rel ns [] os) : os = [] := by
  generalize hs : ([] : List Stk) = stk at h
  cases h with
  | nil => rfl
  | cons => cases hs

theorem cook_not_eof (t : Token) (ns : NsMap) (stk : List Stk) (e : XErr) (h : cook t ns stk = .error e) : e ≠ .eof := by
  cases t with
  | startElement n attrs =>
    simp only [cook] at h
    split at h
    · rename_i e' hp
      injection h with h; subst h
      exact pushNs_not_eof attrs _ _ _ hp
    · cases h
  | endElement n =>
    simp only [cook] at h
    split at h
    · rename_i e' hp
      injection h with h; subst h
      unfold popElement at hp
      split at hp
      · split at hp
        · injection hp with hp; subst hp; simp
        split at hp
        · injection hp with hp; subst hp; simp
        · cases hp
      · injection hp with hp; subst hp; simp
    · cases h
  | charData b => cases h
  | comment b => cases h
  | procInst a b => cases h
  | directive b => cases h

theorem tokRun_eof (n : Nat) (d : Dec) (os : List Open) (h : Rel d.ns d.stk os) (hc : RawColonFree d.raw)
    (he : (tokRun n d).2 = some .eof) : nesting (openNames os) (tokRun n d).1 = some [] := by
  induction n generalizing d os with
  | zero => cases he
  | succ n ih =>
    simp only [tokRun, token] at he ⊢
    cases hr : rawToken d.raw with
    | error e =>
      rw [hr] at he
      dsimp only at he ⊢
      split at he
      · cases he
      · rename_i hn
        injection he with he
        subst he
        have : d.stk = [] := by
          apply Classical.not_not.1
          intro h0; exact hn ⟨rfl, h0⟩
        rw [this] at h
        rw [rel_nil h]
        rfl
    | ok p =>
      obtain ⟨t, raw'⟩ := p
      have hcf := rawToken_colonFree _ _ _ hc hr
      have hs := cook_spec h t hcf.1
      rw [hr] at he
      dsimp only at he ⊢
      cases hk : cook t d.ns d.stk with
      | error e =>
        rw [hk] at he
        injection he with he
        exact absurd he (cook_not_eof _ _ _ _ hk)
      | ok q =>
        obtain ⟨t', ns', stk'⟩ := q
        rw [hk] at he hs
        dsimp only at he
        cases hsp : specToken os t with
        | none => rw [hsp] at hs; exact absurd hs id
        | some q =>
          obtain ⟨t'', os'⟩ := q
          rw [hsp] at hs
          dsimp only at hs ⊢
          have hi := ih ⟨raw', ns', stk'⟩ os' hs.2 hcf.2 he
          rw [hs.1]
          cases t with
          | startElement n attrs =>
            simp only [specToken] at hsp
            split at hsp
            · cases hsp
            · injection hsp with hsp; injection hsp with h1 h2
              subst h1; subst h2
              rw [nesting]
              exact hi
          | endElement n =>
            simp only [specToken] at hsp
            split at hsp
            · split at hsp
              · rename_i he'
                injection hsp with hsp; injection hsp with h1 h2
                subst h1; subst h2
                rw [openNames, nesting, if_pos (by rw [he'])]
                exact hi
              · cases hsp
            · cases hsp
          | charData b =>
            injection hsp with hsp; injection hsp with h1 h2; subst h1; subst h2
            rw [nesting.eq_def]; exact hi
          | comment b =>
            injection hsp with hsp; injection hsp with h1 h2; subst h1; subst h2
            rw [nesting.eq_def]; exact hi
          | procInst a b =>
            injection hsp with hsp; injection hsp with h1 h2; subst h1; subst h2
            rw [nesting.eq_def]; exact hi
          | directive b =>
            injection hsp with hsp; injection hsp with h1 h2; subst h1; subst h2
            rw [nesting.eq_def]; exact hi

/-- C26: at `io.EOF` no element is left open. -/
theorem C26_eof_closed (s : Bytes) (n : Nat) (h : (tokRun n (Dec.new s)).2 = some .eof) :
    nesting [] (tokRun n (Dec.new s)).1 = some [] :=
  tokRun_eof n (Dec.new s) [] .nil (rawColonFree_new s) h

/-- A prefix redeclared inside an element is restored after it. -/
example : (tokRun 6 (Dec.new b!"<a xmlns:p='u'><p:b xmlns:p='v'></p:b><p:c></p:c></a>")).1 =
    [.startElement ⟨[], b!"a"⟩ [⟨⟨xmlnsURL, b!"p"⟩, b!"u"⟩],
      .startElement ⟨b!"v", b!"b"⟩ [⟨⟨xmlnsURL, b!"p"⟩, b!"v"⟩], .endElement ⟨b!"v", b!"b"⟩,
      .startElement ⟨b!"u", b!"c"⟩ [], .endElement ⟨b!"u", b!"c"⟩, .endElement ⟨[], b!"a"⟩] := by decide +kernel

/-- A document that ends well. -/
example : (tokRun 4 (Dec.new b!"<a><b/></a>")).2 = none ∧ (tokRun 5 (Dec.new b!"<a><b/></a>")).2 = some .eof := by
  decide +kernel

end Verif.Xml

import Verif.Tree

/-!
The token loop of `Verif/Unmarshal.lean` reads a document exactly as the tree reader does.
-/
namespace Verif.Bind

open Verif.Xml

/-- Adds the tokens left. -/
def withToks (ts : List PTok) : Except RErr Val → Except RErr (Val × List PTok)
  | .ok v => .ok (v, ts)
  | .error e => .error e

/-- Adds what else is collected. -/
def withContent (data before : Bytes) (ts : List PTok) : Except RErr (List Val) → Except RErr Content
  | .ok vs => .ok ⟨vs, data, before, ts⟩
  | .error e => .error e

mutual
theorem skip_flat (d : Nat) (rest : List PTok) : ∀ t : XTree, t.Ok → skip d (t.flat ++ rest) = skip d rest
  | .leaf t b a, h => by
    simp only [XTree.Ok] at h
    cases t <;> simp_all [XTree.flat, skip, Token.isLeaf]
  | .elem n as b a kids en eb ea, h => by
    simp only [XTree.Ok] at h
    simp only [XTree.flat, List.cons_append, List.append_assoc, List.nil_append, skip]
    rw [skip_flats (d + 1) _ kids h]
    simp [skip]
theorem skip_flats (d : Nat) (rest : List PTok) : ∀ l : List XTree, Oks l → skip d (flats l ++ rest) = skip d rest
  | [], _ => by simp [flats]
  | t :: l, h => by
    simp only [Oks] at h
    simp only [flats, List.append_assoc]
    rw [skip_flat d _ t h.1, skip_flats d rest l h.2]
end

theorem skip_end (rest : List PTok) (l : List XTree) (h : Oks l) (en : Name) (eb ea : Bytes) :
    skip 0 (flats l ++ ⟨.endElement en, eb, ea⟩ :: rest) = some rest := by
  rw [skip_flats 0 _ l h]; simp [skip]

/-- The content lemma for a list of trees. -/
def ContentOk (io : FloatIO) (fin : RErr) (kids : List XTree) (en : Name) (eb ea : Bytes) (rest : List PTok) : Prop :=
  ∀ f d infos subs vs data, (flats kids).length + 1 + rest.length + 2 * (maxDepth - d) + 1 ≤ f → d < maxDepth →
    content io fin f d infos subs vs data (flats kids ++ ⟨.endElement en, eb, ea⟩ :: rest) =
      withContent (data ++ dataOf kids) eb rest (readKids io d infos subs vs kids)

theorem readKids_none (io : FloatIO) (d : Nat) (subs : List Sch) (vs : List Val) :
    ∀ l, readKids io d [] subs vs l = .ok vs
  | [] => by simp [readKids]
  | .leaf _ _ _ :: l => by simp [readKids, readKids_none io d subs vs l]
  | .elem .. :: l => by simp [readKids, elemField, readKids_none io d subs vs l]

/-- A type that is not a pointer. -/
def Sch.isPtr : Sch → Bool
  | .ptr _ => true
  | _ => false

theorem place_top (g : Nat → Sch → Val → Except RErr Val) (d : Nat) (s : Sch) (v : Val) (h : s.isPtr = false) :
    place g true d s v = if maxDepth ≤ d then .error .depth else place g false d s v := by
  cases s <;> cases v <;> simp_all [place, Sch.isPtr]

theorem unmarshal_top (io : FloatIO) (fin : RErr) (f d : Nat) (s : Sch) (v : Val) (n : Name) (as : List Attr) (a : Bytes)
    (ts : List PTok) (h : s.isPtr = false) :
    unmarshal io fin (f + 1) d s v n as a ts =
      if maxDepth ≤ d then .error .depth else unmarshalIn io fin f d s v n as a ts := by
  cases s <;> simp_all [unmarshal, Sch.isPtr]

section
variable (io : FloatIO) (fin : RErr) (n : Name) (as : List Attr) (a : Bytes) (kids : List XTree) (en : Name)
    (eb ea : Bytes) (rest : List PTok)

/-- The correctness of reading with a check of the depth. -/
def TopOk (s : Sch) : Prop := ∀ (d f : Nat) (v : Val) (b : Bytes),
  (flats kids).length + 1 + rest.length + 2 * (maxDepth - d) + 3 ≤ f →
    unmarshal io fin f d s v n as a (flats kids ++ ⟨.endElement en, eb, ea⟩ :: rest) =
      withToks rest (readT io true d s v (.elem n as b a kids en eb ea))

/-- The correctness of reading without a check of the depth. -/
def InOk (s : Sch) : Prop := ∀ (d f : Nat) (v : Val) (b : Bytes),
  (flats kids).length + 1 + rest.length + 2 * (maxDepth - d) + 2 ≤ f → d < maxDepth →
    unmarshalIn io fin f d s v n as a (flats kids ++ ⟨.endElement en, eb, ea⟩ :: rest) =
      withToks rest (readT io false d s v (.elem n as b a kids en eb ea))

theorem topOk_of_inOk (s : Sch) (hs : s.isPtr = false) (h : InOk io fin n as a kids en eb ea rest s) :
    TopOk io fin n as a kids en eb ea rest s := by
  intro d f v b hf
  obtain ⟨f, rfl⟩ : ∃ k, f = k + 1 := ⟨f - 1, by omega⟩
  rw [unmarshal_top _ _ _ _ _ _ _ _ _ _ hs, readT, place_top _ _ _ _ hs]
  split
  · rfl
  · rw [h d f v b (by omega) (by omega), readT]

theorem inOk_simple (hc : ContentOk io fin kids en eb ea rest) (k : Kind) :
    InOk io fin n as a kids en eb ea rest (.simple k) := by
  intro d f v b hf hd
  obtain ⟨f, rfl⟩ : ∃ k, f = k + 1 := ⟨f - 1, by omega⟩
  have hp : readT io false d (.simple k) v (.elem n as b a kids en eb ea) = copySimple io k (dataOf kids) := by
    rw [readT]; cases v <;> simp [place, readBody]
  rw [hp]
  simp only [unmarshalIn]
  rw [hc f d [] [] [] [] (by omega) hd, readKids_none]
  simp only [withContent, List.nil_append]
  cases copySimple io k (dataOf kids) <;> simp [withToks]

theorem inOk_struct (hc : ContentOk io fin kids en eb ea rest) (tn : Bytes) (xn : Option FInfo) (infos : List FInfo)
    (subs : List Sch) : InOk io fin n as a kids en eb ea rest (.struct tn xn infos subs) := by
  intro d f v b hf hd
  obtain ⟨f, rfl⟩ : ∃ k, f = k + 1 := ⟨f - 1, by omega⟩
  have hp : readT io false d (.struct tn xn infos subs) v (.elem n as b a kids en eb ea) =
      readBody io n as (dataOf kids) (a.take (a.length - eb.length))
        (fun d infos subs vs => readKids io d infos subs vs kids) d (.struct tn xn infos subs) v := by
    rw [readT]; cases v <;> simp [place]
  rw [hp]
  cases v with
  | struct xv vs =>
    simp only [unmarshalIn, readBody]
    cases checkName xn n with
    | error e => rfl
    | ok u =>
      cases readAttrs io infos subs vs as with
      | error e => rfl
      | ok vs1 =>
        dsimp only
        rw [hc f d infos subs vs1 [] (by omega) hd]
        cases readKids io d infos subs vs1 kids with
        | error e => rfl
        | ok vs2 =>
          simp only [withContent, List.nil_append]
          cases finishStruct io infos subs vs2 (dataOf kids) (a.take (a.length - eb.length)) with
          | error e => rfl
          | ok vs3 => rfl
  | _ => simp [unmarshalIn, readBody, withToks]

/-- Reading through pointers and lists. -/
theorem place_spec (hc : ContentOk io fin kids en eb ea rest) : ∀ s : Sch,
    TopOk io fin n as a kids en eb ea rest s ∧ InOk io fin n as a kids en eb ea rest s
  | .simple k =>
    have h := inOk_simple io fin n as a kids en eb ea rest hc k
    ⟨topOk_of_inOk io fin n as a kids en eb ea rest _ rfl h, h⟩
  | .struct tn xn infos subs =>
    have h := inOk_struct io fin n as a kids en eb ea rest hc tn xn infos subs
    ⟨topOk_of_inOk io fin n as a kids en eb ea rest _ rfl h, h⟩
  | .name =>
    have h : InOk io fin n as a kids en eb ea rest .name := by
      intro d f v b hf hd
      obtain ⟨f, rfl⟩ : ∃ k, f = k + 1 := ⟨f - 1, by omega⟩
      rw [readT]; cases v <;> simp [place, readBody, unmarshalIn, withToks]
    ⟨topOk_of_inOk io fin n as a kids en eb ea rest _ rfl h, h⟩
  | .attr =>
    have h : InOk io fin n as a kids en eb ea rest .attr := by
      intro d f v b hf hd
      obtain ⟨f, rfl⟩ : ∃ k, f = k + 1 := ⟨f - 1, by omega⟩
      rw [readT]; cases v <;> simp [place, readBody, unmarshalIn, withToks]
    ⟨topOk_of_inOk io fin n as a kids en eb ea rest _ rfl h, h⟩
  | .bad e =>
    have h : InOk io fin n as a kids en eb ea rest (.bad e) := by
      intro d f v b hf hd
      obtain ⟨f, rfl⟩ : ∃ k, f = k + 1 := ⟨f - 1, by omega⟩
      rw [readT]; cases v <;> simp [place, readBody, unmarshalIn, withToks]
    ⟨topOk_of_inOk io fin n as a kids en eb ea rest _ rfl h, h⟩
  | .slice s =>
    have ih := place_spec hc s
    have h : InOk io fin n as a kids en eb ea rest (.slice s) := by
      intro d f v b hf hd
      obtain ⟨f, rfl⟩ : ∃ k, f = k + 1 := ⟨f - 1, by omega⟩
      rw [readT]
      cases v with
      | slice l =>
        simp only [unmarshalIn, place]
        rw [ih.1 (d + 1) f s.zero b (by omega), readT]
        cases place _ true (d + 1) s s.zero <;> rfl
      | _ => simp [place, readBody, unmarshalIn, withToks]
    ⟨topOk_of_inOk io fin n as a kids en eb ea rest _ rfl h, h⟩
  | .ptr s => by
    have ih := place_spec hc s
    refine ⟨?_, ?_⟩
    · intro d f v b hf
      obtain ⟨f, rfl⟩ : ∃ k, f = k + 1 := ⟨f - 1, by omega⟩
      rw [readT]
      simp only [unmarshal, place]
      split
      · rfl
      · rw [ih.2 d f _ b (by omega) (by omega), readT]
        cases place _ false d s (v.deref s) <;> rfl
    · intro d f v b hf hd
      obtain ⟨f, rfl⟩ : ∃ k, f = k + 1 := ⟨f - 1, by omega⟩
      rw [readT]; cases v <;> simp [place, readBody, unmarshalIn, withToks]
end

mutual
/-- The content of an element. -/
theorem content_spec (io : FloatIO) (fin : RErr) (en : Name) (eb ea : Bytes) (rest : List PTok) :
    ∀ kids : List XTree, Oks kids → ContentOk io fin kids en eb ea rest
  | [], _ => by
    intro f d infos subs vs data hf hd
    obtain ⟨f, rfl⟩ : ∃ k, f = k + 1 := ⟨f - 1, by omega⟩
    simp [flats, content, readKids, withContent, dataOf]
  | .leaf t b a :: l, h => by
    intro f d infos subs vs data hf hd
    simp only [Oks, XTree.Ok] at h
    obtain ⟨f, rfl⟩ : ∃ k, f = k + 1 := ⟨f - 1, by omega⟩
    have ih := content_spec io fin en eb ea rest l h.2
    have hl : (flats (.leaf t b a :: l)).length = (flats l).length + 1 := by simp [flats, XTree.flat]
    simp only [flats, XTree.flat, List.cons_append, List.nil_append, content, readKids, dataOf]
    rw [hl] at hf
    cases t with
    | charData c =>
      dsimp only
      rw [ih f d infos subs vs _ (by omega) hd]; simp [tokData]
    | startElement _ _ => exact absurd h.1 (by simp [Token.isLeaf])
    | endElement _ => exact absurd h.1 (by simp [Token.isLeaf])
    | _ => dsimp only; rw [ih f d infos subs vs _ (by omega) hd]; simp [tokData]
  | .elem n as b a kids en' eb' ea' :: l, h => by
    intro f d infos subs vs data hf hd
    simp only [Oks, XTree.Ok] at h
    obtain ⟨f, rfl⟩ : ∃ k, f = k + 1 := ⟨f - 1, by omega⟩
    have ih := content_spec io fin en eb ea rest l h.2
    have hc := content_spec io fin en' eb' ea' (flats l ++ ⟨.endElement en, eb, ea⟩ :: rest) kids h.1
    have hl : (flats (.elem n as b a kids en' eb' ea' :: l)).length = (flats kids).length + (flats l).length + 2 := by
      simp [flats, XTree.flat]; omega
    rw [hl] at hf
    simp only [flats, XTree.flat, List.cons_append, List.append_assoc, List.nil_append, content, readKids, dataOf]
    cases elemField infos n with
    | none =>
      dsimp only
      rw [skip_end _ _ h.1]
      dsimp only
      rw [ih f d infos subs vs _ (by omega) hd]
    | some i =>
      simp only [updField]
      cases hs : subs[i]? with
      | none => rfl
      | some s =>
        cases hv : (initGroup infos subs vs i)[i]? with
        | none => rfl
        | some v =>
          dsimp only
          have h1 := (place_spec io fin n as a kids en' eb' ea' _ hc s).1 (d + 1) f v b
            (by simp only [List.length_append, List.length_cons]; omega)
          rw [h1]
          cases readT io true (d + 1) s v (.elem n as b a kids en' eb' ea') with
          | error e => rfl
          | ok w =>
            simp only [withToks]
            rw [ih f d infos subs _ _ (by omega) hd]
end

/-! ### Reading that succeeds reads a tree -/

theorem skip_bind (d : Nat) : ∀ (a : Nat) (l : List PTok), skip (a + d + 1) l = (skip a l).bind (skip d)
  | a, [] => by simp [skip]
  | a, t :: l => by
    cases ht : t.tok with
    | startElement n as =>
      simp only [skip, ht]
      have := skip_bind d (a + 1) l
      rw [← this]; congr 1; omega
    | endElement n =>
      cases a with
      | zero => simp [skip, ht]
      | succ a =>
        have h : a + 1 + d + 1 = (a + d + 1) + 1 := by omega
        rw [h]
        simp only [skip, ht]
        exact skip_bind d a l
    | _ => simp only [skip, ht]; exact skip_bind d a l

theorem skip_one (l : List PTok) : skip (0 + 1) l = (skip 0 l).bind (skip 0) := skip_bind 0 0 l

theorem skip_lt : ∀ (d : Nat) (l r : List PTok), skip d l = some r → r.length < l.length
  | d, [], r, h => by simp [skip] at h
  | d, t :: l, r, h => by
    cases ht : t.tok with
    | startElement n as =>
      simp only [skip, ht] at h
      have := skip_lt _ l r h
      simp; omega
    | endElement n =>
      cases d with
      | zero => simp only [skip, ht, Option.some.injEq] at h; subst h; simp
      | succ d => simp only [skip, ht] at h; have := skip_lt _ l r h; simp; omega
    | _ => simp only [skip, ht] at h; have := skip_lt _ l r h; simp; omega

/-- The tokens up to the end of an element form trees. -/
theorem skip_trees : ∀ (k : Nat) (l r : List PTok), l.length < k → skip 0 l = some r →
    ∃ kids en eb ea, Oks kids ∧ l = flats kids ++ ⟨.endElement en, eb, ea⟩ :: r
  | 0, _, _, h, _ => absurd h (by omega)
  | k + 1, [], r, _, h => by simp [skip] at h
  | k + 1, ⟨tok, b, a⟩ :: l, r, hk, h => by
    have hl : l.length < k := by simp at hk; omega
    have leaf : Token.isLeaf tok = true → skip 0 l = some r →
        ∃ kids en eb ea, Oks kids ∧ ⟨tok, b, a⟩ :: l = flats kids ++ ⟨.endElement en, eb, ea⟩ :: r := by
      intro hf hs
      obtain ⟨kids, en, eb, ea, ho, he⟩ := skip_trees k l r hl hs
      exact ⟨.leaf tok b a :: kids, en, eb, ea, ⟨hf, ho⟩, by simp [flats, XTree.flat, he]⟩
    cases tok with
    | startElement n as =>
      simp only [skip] at h
      rw [skip_one] at h
      cases hm : skip 0 l with
      | none => rw [hm] at h; simp at h
      | some m =>
        rw [hm] at h
        obtain ⟨kids, en, eb, ea, ho, he⟩ := skip_trees k l m hl hm
        have := skip_lt _ _ _ hm
        obtain ⟨kids2, en2, eb2, ea2, ho2, he2⟩ := skip_trees k m r (by omega) h
        exact ⟨.elem n as b a kids en eb ea :: kids2, en2, eb2, ea2, ⟨ho, ho2⟩, by simp [flats, XTree.flat, he, he2]⟩
    | endElement n =>
      simp only [skip, Option.some.injEq] at h
      exact ⟨[], n, b, a, trivial, by simp [flats, h]⟩
    | charData _ => exact leaf rfl (by simpa [skip] using h)
    | comment _ => exact leaf rfl (by simpa [skip] using h)
    | procInst _ _ => exact leaf rfl (by simpa [skip] using h)
    | directive _ => exact leaf rfl (by simpa [skip] using h)

/-- A successful call ends after the end tag of the element. -/
theorem ok_skip (io : FloatIO) (fin : RErr) : ∀ f : Nat,
    (∀ d s v n as rest ts w ts', unmarshal io fin f d s v n as rest ts = .ok (w, ts') → skip 0 ts = some ts') ∧
    (∀ d s v n as rest ts w ts', unmarshalIn io fin f d s v n as rest ts = .ok (w, ts') → skip 0 ts = some ts') ∧
    (∀ d infos subs vs data ts c, content io fin f d infos subs vs data ts = .ok c → skip 0 ts = some c.toks)
  | 0 => by refine ⟨?_, ?_, ?_⟩ <;> intros <;> simp_all [unmarshal, unmarshalIn, content]
  | f + 1 => by
    obtain ⟨ihu, ihi, ihc⟩ := ok_skip io fin f
    refine ⟨?_, ?_, ?_⟩
    · intro d s v n as rest ts w ts' h
      cases hp : s.isPtr with
      | false =>
        rw [unmarshal_top _ _ _ _ _ _ _ _ _ _ hp] at h
        split at h
        · cases h
        · exact ihi _ _ _ _ _ _ _ _ _ h
      | true =>
        cases s with
        | ptr s' =>
          simp only [unmarshal] at h
          split at h
          · cases h
          · split at h
            · rename_i w' ts'' hi
              injection h with h; injection h with _ h; subst h
              exact ihi _ _ _ _ _ _ _ _ _ hi
            · cases h
        | _ => simp [Sch.isPtr] at hp
    · intro d s v n as rest ts w ts' h
      unfold unmarshalIn at h
      split at h
      · split at h
        · rename_i w' ts'' hu
          injection h with h; injection h with _ h; subst h
          exact ihu _ _ _ _ _ _ _ _ _ hu
        · cases h
      · split at h
        · cases h
        · rename_i c hc
          split at h
          · cases h
          · injection h with h; injection h with _ h; subst h
            exact ihc _ _ _ _ _ _ _ hc
      · split at h
        · cases h
        · split at h
          · cases h
          · split at h
            · cases h
            · rename_i c hc
              split at h
              · cases h
              · injection h with h; injection h with _ h; subst h
                exact ihc _ _ _ _ _ _ _ hc
      · cases h
      · cases h
    · intro d infos subs vs data ts c h
      cases ts with
      | nil => simp [content] at h
      | cons t ts =>
        cases ht : t.tok with
        | startElement n as =>
          simp only [content, ht] at h
          simp only [skip, ht]
          rw [skip_one]
          split at h
          · split at h
            · split at h
              · cases h
              · rename_i w ts' hu
                rw [ihu _ _ _ _ _ _ _ _ _ hu]
                exact ihc _ _ _ _ _ _ _ h
            · cases h
          · split at h
            · cases h
            · rename_i ts' hs
              rw [hs]
              exact ihc _ _ _ _ _ _ _ h
        | endElement n =>
          simp only [content, ht] at h
          injection h with h; subst h
          simp [skip, ht]
        | charData b => simp only [content, ht] at h; simp only [skip, ht]; exact ihc _ _ _ _ _ _ _ h
        | comment b => simp only [content, ht] at h; simp only [skip, ht]; exact ihc _ _ _ _ _ _ _ h
        | procInst _ _ => simp only [content, ht] at h; simp only [skip, ht]; exact ihc _ _ _ _ _ _ _ h
        | directive b => simp only [content, ht] at h; simp only [skip, ht]; exact ihc _ _ _ _ _ _ _ h

/-! ### The fuel is enough -/

/-- Not the error that stands for missing fuel. -/
def NF {α} (x : Except RErr α) : Prop := ∀ e, x = .error e → e ≠ .fuel

theorem nf_ok {α} (a : α) : NF (.ok a : Except RErr α) := fun _ h => nomatch h

theorem nf_error {α} (e : RErr) (h : e ≠ .fuel) : NF (.error e : Except RErr α) := fun _ h' => by
  injection h' with h'; exact h' ▸ h

theorem nf_copySimple (io : FloatIO) (k : Kind) (src : Bytes) : NF (copySimple io k src) := by
  unfold copySimple
  cases k <;> dsimp only <;> (try split) <;> (try split) <;> first | exact nf_ok _ | exact nf_error _ (by simp)

theorem nf_copyValue (io : FloatIO) (s : Sch) (src : Bytes) : NF (copyValue io s src) := by
  unfold copyValue
  split
  · exact nf_copySimple _ _ _
  · split
    · exact nf_ok _
    · rename_i e he; exact nf_error _ (nf_copySimple _ _ _ e he)
  · exact nf_error _ (by simp)

theorem nf_readSimpleAttr (io : FloatIO) (k : Kind) (src : Bytes) : NF (readSimpleAttr io k src) := by
  unfold readSimpleAttr
  split
  · split <;> first | exact nf_ok _ | exact nf_error _ (by simp)
  · split
    · exact nf_ok _
    · split <;> first | exact nf_ok _ | exact nf_error _ (by simp)
  · exact nf_copySimple _ _ _

theorem readAttr_ptr (io : FloatIO) (s : Sch) (v : Val) (a : Attr) (h : s.isPtr = false) :
    readAttr io (.ptr s) v a = wrapPtr (readAttr io s (v.deref s) a) := by
  have e : readAttr io (.ptr s) v a = match readAttr io s (v.deref s) a with
      | .ok w => .ok (.ptr (some w))
      | .error e => .error e := by
    cases v with
    | ptr o => cases o <;> cases s <;> first | rfl | (simp [Sch.isPtr] at h)
    | _ => cases s <;> first | rfl | (simp [Sch.isPtr] at h)
  rw [e]
  cases readAttr io s (v.deref s) a <;> rfl

theorem readAttr_slice (io : FloatIO) (s : Sch) (l : List Val) (a : Attr) :
    readAttr io (.slice s) (.slice l) a = wrapSlice l (readAttr io s s.zero a) := by
  simp only [readAttr]
  cases readAttr io s s.zero a <;> rfl

theorem nf_wrapPtr (x : Except RErr Val) (h : NF x) : NF (wrapPtr x) := by
  cases x with
  | ok w => exact nf_ok _
  | error e => exact nf_error _ (h e rfl)

theorem nf_wrapSlice (l : List Val) (x : Except RErr Val) (h : NF x) : NF (wrapSlice l x) := by
  cases x with
  | ok w => exact nf_ok _
  | error e => exact nf_error _ (h e rfl)

theorem nf_readAttr (io : FloatIO) (a : Attr) : ∀ (s : Sch) (v : Val), NF (readAttr io s v a)
  | .simple k, v => by simp only [readAttr]; exact nf_readSimpleAttr _ _ _
  | .ptr s, v => by
    cases hp : s.isPtr with
    | false => rw [readAttr_ptr io s v a hp]; exact nf_wrapPtr _ (nf_readAttr io a s _)
    | true =>
      cases s with
      | ptr s' => simp only [readAttr]; exact nf_error _ (by simp)
      | _ => simp [Sch.isPtr] at hp
  | .slice s, v => by
    cases v with
    | slice l => rw [readAttr_slice]; exact nf_wrapSlice _ _ (nf_readAttr io a s _)
    | _ => simp only [readAttr]; exact nf_error _ (by simp)
  | .name, v => by simp only [readAttr]; exact nf_error _ (by simp)
  | .attr, v => by simp only [readAttr]; exact nf_ok _
  | .struct .., v => by simp only [readAttr]; exact nf_error _ (by simp)
  | .bad _, v => by simp only [readAttr]; exact nf_error _ (by simp)

theorem nf_updField (infos : List FInfo) (subs : List Sch) (vs : List Val) (i : Nat) (g : Sch → Val → Except RErr Val)
    (h : ∀ s v, NF (g s v)) : NF (updField infos subs vs i g) := by
  unfold updField
  split
  · split
    · exact nf_ok _
    · rename_i e he; exact nf_error _ (h _ _ e he)
  · exact nf_error _ (by simp)

theorem nf_readAttrs (io : FloatIO) (infos : List FInfo) (subs : List Sch) (as : List Attr) :
    ∀ vs, NF (readAttrs io infos subs vs as) := by
  induction as with
  | nil => intro vs; exact nf_ok _
  | cons a l ih =>
    intro vs
    simp only [readAttrs]
    split
    · exact ih _
    · split
      · rename_i e he; exact nf_error _ (nf_updField _ _ _ _ _ (fun s v => nf_readAttr io a s v) e he)
      · exact ih _

theorem nf_checkName (xn : Option FInfo) (n : Name) : NF (checkName xn n) := by
  unfold checkName
  split
  · exact nf_ok _
  · split
    · exact nf_error _ (by simp)
    · split
      · exact nf_error _ (by simp)
      · exact nf_ok _

theorem nf_finishStruct (io : FloatIO) (infos : List FInfo) (subs : List Sch) (vs : List Val) (data inner : Bytes) :
    NF (finishStruct io infos subs vs data inner) := by
  unfold finishStruct
  dsimp only
  have h1 : NF (match modeField infos .chardata with
    | none => (.ok vs : Except RErr (List Val))
    | some i => updField infos subs vs i (fun s _ => copyValue io s data)) := by
    split
    · exact nf_ok _
    · exact nf_updField _ _ _ _ _ (fun s _ => nf_copyValue io s data)
  split
  · rename_i e he; exact nf_error _ (h1 e he)
  · split
    · exact nf_ok _
    · refine nf_updField _ _ _ _ _ (fun s v => ?_)
      split <;> exact nf_ok _

theorem ne_fuel (io : FloatIO) (fin : RErr) (hfin : fin ≠ .fuel) : ∀ f : Nat,
    (∀ d s v n as rest ts, ts.length + 2 * (maxDepth - d) + 3 ≤ f → NF (unmarshal io fin f d s v n as rest ts)) ∧
    (∀ d s v n as rest ts, ts.length + 2 * (maxDepth - d) + 2 ≤ f → d < maxDepth →
      NF (unmarshalIn io fin f d s v n as rest ts)) ∧
    (∀ d infos subs vs data ts, ts.length + 2 * (maxDepth - d) + 1 ≤ f → d < maxDepth →
      NF (content io fin f d infos subs vs data ts))
  | 0 => ⟨fun _ _ _ _ _ _ _ h => absurd h (by omega), fun _ _ _ _ _ _ _ h => absurd h (by omega),
      fun _ _ _ _ _ _ h => absurd h (by omega)⟩
  | f + 1 => by
    obtain ⟨ihu, ihi, ihc⟩ := ne_fuel io fin hfin f
    refine ⟨?_, ?_, ?_⟩
    · intro d s v n as rest ts hf
      cases hp : s.isPtr with
      | false =>
        rw [unmarshal_top _ _ _ _ _ _ _ _ _ _ hp]
        split
        · exact nf_error _ (by simp)
        · exact ihi _ _ _ _ _ _ _ (by omega) (by omega)
      | true =>
        cases s with
        | ptr s' =>
          simp only [unmarshal]
          split
          · exact nf_error _ (by simp)
          · split
            · exact nf_ok _
            · rename_i e he; exact nf_error _ (ihi _ _ _ _ _ _ _ (by omega) (by omega) e he)
        | _ => simp [Sch.isPtr] at hp
    · intro d s v n as rest ts hf hd
      unfold unmarshalIn
      split
      · split
        · exact nf_ok _
        · rename_i e he; exact nf_error _ (ihu _ _ _ _ _ _ _ (by omega) e he)
      · split
        · rename_i e he; exact nf_error _ (ihc _ _ _ _ _ _ (by omega) hd e he)
        · split
          · rename_i e he; exact nf_error _ (nf_copySimple _ _ _ e he)
          · exact nf_ok _
      · split
        · rename_i e he; exact nf_error _ (nf_checkName _ _ e he)
        · split
          · rename_i e he; exact nf_error _ (nf_readAttrs _ _ _ _ _ e he)
          · split
            · rename_i e he; exact nf_error _ (ihc _ _ _ _ _ _ (by omega) hd e he)
            · split
              · rename_i e he; exact nf_error _ (nf_finishStruct _ _ _ _ _ _ e he)
              · exact nf_ok _
      · exact nf_error _ (by simp)
      · exact nf_error _ (by simp)
    · intro d infos subs vs data ts hf hd
      cases ts with
      | nil => simp only [content]; exact nf_error _ hfin
      | cons t ts =>
        simp only [List.length_cons] at hf
        simp only [content]
        split
        · split
          · split
            · split
              · rename_i e he; exact nf_error _ (ihu _ _ _ _ _ _ _ (by omega) e he)
              · rename_i hu
                have := skip_lt _ _ _ ((ok_skip io fin f).1 _ _ _ _ _ _ _ _ _ hu)
                exact ihc _ _ _ _ _ _ (by omega) hd
            · exact nf_error _ (by simp)
          · split
            · exact nf_error _ hfin
            · rename_i hs
              have := skip_lt _ _ _ hs
              exact ihc _ _ _ _ _ _ (by omega) hd
        · exact nf_ok _
        · exact ihc _ _ _ _ _ _ (by omega) hd
        · exact ihc _ _ _ _ _ _ (by omega) hd

/-- The error `fuel` never occurs. -/
theorem unmarshalDoc_ne_fuel (io : FloatIO) (s : Sch) (doc : Bytes) : unmarshalDoc io s doc ≠ .error .fuel := by
  unfold unmarshalDoc
  dsimp only
  generalize hr : stream (2 * doc.length + 2) (Dec.new doc) = r
  have hfin : ∀ o : Option XErr, (match o with | some e => RErr.syntaxErr e | none => RErr.hang) ≠ .fuel := by
    intro o; cases o <;> simp
  split
  · intro h; injection h with h; exact hfin _ h
  · rename_i n as rest ts _
    split
    · simp
    · rename_i e he
      intro h; injection h with h
      exact (ne_fuel io _ (hfin r.2) _).2.1 0 s s.zero n as rest ts (by omega) (by decide) e he h

/-! ### Documents -/

/-- A token that is not a start tag. -/
def notStart (t : PTok) : Bool :=
  match t.tok with
  | .startElement _ _ => false
  | _ => true

/-- The tokens of a document, with their positions. -/
def docTokens (doc : Bytes) : List PTok := (stream (2 * doc.length + 2) (Dec.new doc)).1

/-- `t` is the root element of a document: it is the first element, and it is complete. -/
def IsDoc (doc : Bytes) (t : XTree) : Prop :=
  t.Ok ∧ (∃ n as b a kids en eb ea, t = .elem n as b a kids en eb ea) ∧
    ∃ pre post, (∀ p ∈ pre, notStart p = true) ∧ docTokens doc = pre ++ (t.flat ++ post)

theorem findStart_append (pre l : List PTok) (h : ∀ p ∈ pre, notStart p = true) : findStart (pre ++ l) = findStart l := by
  induction pre with
  | nil => rfl
  | cons p pre ih =>
    have hp := h p (by simp)
    simp only [List.cons_append, findStart]
    cases ht : p.tok with
    | startElement n as => simp [notStart, ht] at hp
    | _ => exact ih fun q hq => h q (by simp [hq])

theorem findStart_some : ∀ (l : List PTok) (n : Name) (as : List Attr) (a : Bytes) (ts : List PTok),
    findStart l = some (n, as, a, ts) →
    ∃ pre b, (∀ p ∈ pre, notStart p = true) ∧ l = pre ++ ⟨.startElement n as, b, a⟩ :: ts
  | [], n, as, a, ts, h => by simp [findStart] at h
  | t :: l, n, as, a, ts, h => by
    obtain ⟨tok, b, a'⟩ := t
    cases tok with
    | startElement n' as' =>
      simp only [findStart, Option.some.injEq, Prod.mk.injEq] at h
      obtain ⟨rfl, rfl, rfl, rfl⟩ := h
      exact ⟨[], b, by simp, rfl⟩
    | _ =>
      simp only [findStart] at h
      obtain ⟨pre, b', hp, rfl⟩ := findStart_some l n as a ts h
      refine ⟨⟨_, b, a'⟩ :: pre, b', ?_, rfl⟩
      intro p hp'
      rcases List.mem_cons.1 hp' with rfl | hp'
      · rfl
      · exact hp p hp'

/-- Reading a document is reading its root element as a tree. -/
theorem unmarshalDoc_tree (io : FloatIO) (s : Sch) (doc : Bytes) (t : XTree) (h : IsDoc doc t) :
    unmarshalDoc io s doc = readRoot io s t := by
  obtain ⟨hok, ⟨n, as, b, a, kids, en, eb, ea, rfl⟩, pre, post, hpre, hd⟩ := h
  unfold unmarshalDoc docTokens at *
  dsimp only
  rw [hd, findStart_append _ _ hpre]
  simp only [XTree.flat, List.cons_append, List.append_assoc, List.nil_append, findStart]
  rw [(place_spec io _ n as a kids en eb ea post (content_spec io _ en eb ea post kids hok) s).2 0 _ s.zero b
    (by simp; omega) (by decide)]
  unfold readRoot
  cases readT io false 0 s s.zero (.elem n as b a kids en eb ea) <;> rfl

/-- A document that is read successfully has a root element. -/
theorem unmarshalDoc_ok (io : FloatIO) (s : Sch) (doc : Bytes) (v : Val) (h : unmarshalDoc io s doc = .ok v) :
    ∃ t, IsDoc doc t := by
  unfold unmarshalDoc at h
  dsimp only at h
  split at h
  · cases h
  · rename_i n as a ts hf
    split at h
    · rename_i v' ts' hu
      obtain ⟨pre, b, hpre, hl⟩ := findStart_some _ _ _ _ _ hf
      obtain ⟨kids, en, eb, ea, hok, rfl⟩ :=
        skip_trees _ ts ts' (Nat.lt_succ_self _) ((ok_skip io _ _).2.1 _ _ _ _ _ _ _ _ _ hu)
      exact ⟨.elem n as b a kids en eb ea, hok, ⟨n, as, b, a, kids, en, eb, ea, rfl⟩, pre, ts', hpre, by
        unfold docTokens; rw [hl]; simp [XTree.flat]⟩
    · cases h

/-! ### The bound on the number of tokens -/

theorem stream_tokRun (k : Nat) : ∀ d : Dec, tokRun k d = ((stream k d).1.map (·.tok), (stream k d).2) := by
  induction k with
  | zero => intro d; rfl
  | succ k ih =>
    intro d
    simp only [tokRun, stream]
    cases token d with
    | error e => rfl
    | ok p => simp only [List.map_cons, ih p.2]

/-- More steps change nothing once reading has ended. -/
theorem stream_more (k : Nat) (e : XErr) : ∀ (d : Dec) (m : Nat), (stream k d).2 = some e → k ≤ m →
    stream m d = stream k d := by
  induction k with
  | zero => intro d m h; simp [stream] at h
  | succ k ih =>
    intro d m h hm
    obtain ⟨m, rfl⟩ : ∃ j, m = j + 1 := ⟨m - 1, by omega⟩
    simp only [stream] at h ⊢
    cases hk : token d with
    | error e => rfl
    | ok p =>
      rw [hk] at h
      dsimp only at h ⊢
      rw [ih p.2 m h (by omega)]

theorem token_stuck (d : Dec) (h : Stuck d.raw) : token d = .ok (.charData [], d) := by
  unfold token
  rw [rawToken_stuck _ h]
  rfl

theorem stream_stuck (k : Nat) (d : Dec) (h : Stuck d.raw) : (stream k d).2 = none := by
  induction k with
  | zero => rfl
  | succ k ih => simp only [stream, token_stuck d h, ih]

/-- Reading that ends, ends within the bound. -/
theorem stream_all (k : Nat) (e : XErr) : ∀ (d : Dec) (m : Nat), (stream k d).2 = some e → d.raw.size < m →
    stream m d = stream k d := by
  induction k with
  | zero => intro d m h; simp [stream] at h
  | succ k ih =>
    intro d m h hm
    obtain ⟨m, rfl⟩ : ∃ j, m = j + 1 := ⟨m - 1, by omega⟩
    simp only [stream] at h ⊢
    cases hk : token d with
    | error e => rfl
    | ok p =>
      rw [hk] at h
      dsimp only at h ⊢
      obtain ⟨t, d'⟩ := p
      have hp : d'.raw.size < d.raw.size ∨ (Stuck d.raw ∧ d' = d) := by
        unfold token at hk
        split at hk
        · cases hk
        · rename_i t0 raw' hr
          rcases rawToken_progress _ _ _ hr with h1 | ⟨h1, h2, h3⟩
          · split at hk
            · cases hk
            · injection hk with hk; injection hk with _ hk; subst hk; exact Or.inl h1
          · subst h3; subst h2
            simp only [cook] at hk
            injection hk with hk; injection hk with _ hk; subst hk; exact Or.inr ⟨h1, rfl⟩
      rcases hp with hp | ⟨hs, rfl⟩
      · rw [ih d' m h (by omega)]
      · rw [stream_stuck k _ hs] at h; cases h

/-- The tokens used for a document do not depend on the bound. -/
theorem docTokens_eq (doc : Bytes) (k : Nat) (e : XErr) (h : (stream k (Dec.new doc)).2 = some e) :
    stream (2 * doc.length + 2) (Dec.new doc) = stream k (Dec.new doc) :=
  stream_all k e (Dec.new doc) _ h (by show 2 * doc.length + 0 < _; omega)

end Verif.Bind

import Verif.XmlPrintProps

/-!
C86: the option `DefaultSpace` of a decoder (`/repo/xml/xml.go` 198-201, 393-397): elements without a prefix outside all
declarations of a default namespace are in this one, "as if the entire XML stream were wrapped in an element containing the
attribute xmlns="DefaultSpace"".
-/
namespace Verif.DefaultSpace

open Verif Verif.Xml

/-! ### The code -/

/-- `translate` (`/repo/xml/xml.go` 381-398) with `DefaultSpace` `u`. -/
def translateD (u : Bytes) (ns : NsMap) (n : Name) (isElement : Bool) : Name :=
  if n.space = xmlnsPrefix then ⟨xmlnsURL, n.loc⟩
  else if n.space = [] ∧ isElement = false then n
  else if n.space = xmlPrefix then
    match ns xmlURL with
    | some v => ⟨v, n.loc⟩
    | none => ⟨xmlURL, n.loc⟩
  else if n.space = [] ∧ n.loc = xmlnsPrefix then n
  else
    match ns n.space with
    | some v => ⟨v, n.loc⟩
    | none => if n.space = [] then ⟨u, n.loc⟩ else n

/-- `popElement` in strict mode (`/repo/xml/xml.go` 515-553). -/
def popElementD (u : Bytes) (ns : NsMap) (stk : List Stk) (n : Name) : Except XErr (Name × NsMap × List Stk) :=
  match stk with
  | .start m :: stk' =>
    if m.loc ≠ n.loc then .error (.syntaxError "element closed by another")
    else if m.space ≠ n.space then .error (.syntaxError "element closed by the same in another namespace")
    else .ok (translateD u ns n true, popNs ns stk')
  | _ => .error (.syntaxError "unexpected end element")

/-- `Token` (`/repo/xml/xml.go` 326-369) applied to a raw token. -/
def cookD (u : Bytes) (t : Token) (ns : NsMap) (stk : List Stk) : Except XErr (Token × NsMap × List Stk) :=
  match t with
  | .startElement n attrs =>
    match pushNs attrs ns stk with
    | .error e => .error e
    | .ok (ns', stk') =>
      .ok (.startElement (translateD u ns' n true) (attrs.map fun a => ⟨translateD u ns' a.name false, a.value⟩),
        ns', .start n :: stk')
  | .endElement n =>
    match popElementD u ns stk n with
    | .error e => .error e
    | .ok (n', ns', stk') => .ok (.endElement n', ns', stk')
  | t => .ok (t, ns, stk)

/-- `Token` (`/repo/xml/xml.go` 300-369) of a strict decoder with `DefaultSpace` `u`. -/
def tokenD (u : Bytes) (d : Dec) : Except XErr (Token × Dec) :=
  match rawToken d.raw with
  | .error e => .error (if e = .eof ∧ d.stk ≠ [] then unexpectedEOF else e)
  | .ok (t, raw') =>
    match cookD u t d.ns d.stk with
    | .error e => .error e
    | .ok (t', ns', stk') => .ok (t', ⟨raw', ns', stk'⟩)

/-- The first `n` tokens, and the error that ended them, if any. -/
def tokRunD (u : Bytes) : Nat → Dec → List Token × Option XErr
  | 0, _ => ([], none)
  | n + 1, d =>
    match tokenD u d with
    | .error e => ([], some e)
    | .ok (t, d') => (t :: (tokRunD u n d').1, (tokRunD u n d').2)

/-! ### A binding outside of the document -/

/-- The namespaces with `u` as the default one outside of all. -/
def within (u : Bytes) (ns : NsMap) : NsMap := fun p => if p = [] then some ((ns []).getD u) else ns p

/-- The same in what is saved. -/
def saved (u : Bytes) (k : Bytes) (old : Option Bytes) : Option Bytes := if k = [] then some (old.getD u) else old

/-- The stack with that. -/
def stkWithin (u : Bytes) : List Stk → List Stk
  | [] => []
  | .start n :: l => .start n :: stkWithin u l
  | .ns k old :: l => .ns k (saved u k old) :: stkWithin u l

theorem within_set (u : Bytes) (ns : NsMap) (k : Bytes) (v : Option Bytes) :
    within u (ns.set k v) = (within u ns).set k (saved u k v) := by
  funext p
  unfold within NsMap.set saved
  by_cases hp : p = []
  · subst hp
    by_cases hk : k = []
    · subst hk; simp
    · have : ¬ ([] : Bytes) = k := fun h => hk h.symm
      simp [this]
  · by_cases hk : p = k
    · subst hk; simp [hp]
    · simp [hp, hk]

theorem within_at (u : Bytes) (ns : NsMap) (k : Bytes) : within u ns k = saved u k (ns k) := by
  unfold within saved
  split
  · next h => rw [h]
  · rfl

theorem saved_some (u k v : Bytes) : saved u k (some v) = some v := by simp [saved]

theorem translate_within (u : Bytes) (ns : NsMap) (n : Name) (e : Bool) : translate (within u ns) n e = translateD u ns n e := by
  unfold translate translateD
  have hx : within u ns xmlURL = ns xmlURL := by simp [within, xmlURL]
  rw [hx]
  by_cases h1 : n.space = xmlnsPrefix
  · simp [h1]
  rw [if_neg h1, if_neg h1]
  by_cases h2 : n.space = [] ∧ e = false
  · simp [h2]
  rw [if_neg h2, if_neg h2]
  by_cases h3 : n.space = xmlPrefix
  · rw [if_pos h3, if_pos h3]
    cases ns xmlURL <;> rfl
  rw [if_neg h3, if_neg h3]
  by_cases h4 : n.space = [] ∧ n.loc = xmlnsPrefix
  · simp [h4]
  rw [if_neg h4, if_neg h4]
  by_cases h5 : n.space = []
  · rw [h5]
    cases h : ns [] <;> simp [within, h]
  · rw [within_at, saved, if_neg h5]
    cases ns n.space <;> simp [h5]

theorem pushNs_within (u : Bytes) : ∀ (as : List Attr) (ns : NsMap) (stk : List Stk),
    pushNs as (within u ns) (stkWithin u stk) = match pushNs as ns stk with
      | .error e => .error e
      | .ok (ns', stk') => .ok (within u ns', stkWithin u stk')
  | [], ns, stk => rfl
  | a :: l, ns, stk => by
    unfold pushNs
    by_cases h1 : a.name.space = xmlnsPrefix
    · rw [if_pos h1, if_pos h1]
      by_cases h2 : a.value = []
      · rw [if_pos h2, if_pos h2]
      rw [if_neg h2, if_neg h2]
      by_cases h3 : a.name.loc = []
      · rw [if_pos h3, if_pos h3]
      rw [if_neg h3, if_neg h3, ← pushNs_within u l]
      rw [within_set, saved_some, within_at]
      rfl
    rw [if_neg h1, if_neg h1]
    by_cases h2 : a.name.space = [] ∧ a.name.loc = xmlnsPrefix
    · rw [if_pos h2, if_pos h2, ← pushNs_within u l]
      rw [within_set, saved_some, within_at]
      rfl
    · rw [if_neg h2, if_neg h2]
      exact pushNs_within u l ns stk

theorem popNs_within (u : Bytes) : ∀ (stk : List Stk) (ns : NsMap),
    popNs (within u ns) (stkWithin u stk) = (within u (popNs ns stk).1, stkWithin u (popNs ns stk).2)
  | [], ns => rfl
  | .start n :: l, ns => rfl
  | .ns k old :: l, ns => by
    simp only [stkWithin, popNs]
    rw [← within_set]
    exact popNs_within u l _

theorem cook_within (u : Bytes) (t : Token) (ns : NsMap) (stk : List Stk) :
    cook t (within u ns) (stkWithin u stk) = match cookD u t ns stk with
      | .error e => .error e
      | .ok (t', ns', stk') => .ok (t', within u ns', stkWithin u stk') := by
  cases t with
  | startElement n attrs =>
    simp only [cook, cookD, pushNs_within]
    cases pushNs attrs ns stk with
    | error e => rfl
    | ok q => simp only [translate_within, stkWithin]
  | endElement n =>
    simp only [cook, cookD]
    cases stk with
    | nil => rfl
    | cons x l =>
      cases x with
      | ns k old => rfl
      | start m =>
        simp only [stkWithin, popElement, popElementD]
        by_cases h1 : m.loc ≠ n.loc
        · simp [h1]
        by_cases h2 : m.space ≠ n.space
        · simp only [h1, if_false]
          rw [if_pos h2, if_pos h2]
        simp only [h1, h2, if_false, popNs_within, translate_within]
  | _ => rfl

theorem stkWithin_nil (u : Bytes) (stk : List Stk) : stkWithin u stk = [] ↔ stk = [] := by
  cases stk with
  | nil => simp [stkWithin]
  | cons x l => cases x <;> simp [stkWithin]

/-- A decoder with `u` as the default namespace outside of all. -/
def Dec.within (u : Bytes) (d : Dec) : Dec := ⟨d.raw, DefaultSpace.within u d.ns, stkWithin u d.stk⟩

theorem token_within (u : Bytes) (d : Dec) : token (Dec.within u d) = match tokenD u d with
    | .error e => .error e
    | .ok (t, d') => .ok (t, Dec.within u d') := by
  unfold token tokenD Dec.within
  simp only [ne_eq, stkWithin_nil]
  cases rawToken d.raw with
  | error e => rfl
  | ok q =>
    obtain ⟨t, raw'⟩ := q
    dsimp only
    rw [cook_within]
    cases cookD u t d.ns d.stk with
    | error e => rfl
    | ok q => rfl

theorem tokRun_within (u : Bytes) : ∀ (n : Nat) (d : Dec), tokRun n (Dec.within u d) = tokRunD u n d
  | 0, d => rfl
  | n + 1, d => by
    unfold tokRun tokRunD
    rw [token_within]
    cases tokenD u d with
    | error e => rfl
    | ok q =>
      dsimp only
      rw [tokRun_within u n]

/-- A decoder at the start of a document in which a default namespace is in force. -/
def inScope (u doc : Bytes) : Dec := ⟨⟨doc, none⟩, fun p => if p = [] then some u else none, []⟩

/-- **C86**: a decoder with `DefaultSpace` gives the same tokens, and the same error if any, as one without at a place where
`xmlns="DefaultSpace"` is in force. -/
theorem C86_in_force (u doc : Bytes) (n : Nat) : tokRunD u n (Dec.new doc) = tokRun n (inScope u doc) := by
  rw [← tokRun_within]
  have : Dec.within u (Dec.new doc) = inScope u doc := by
    unfold Dec.within Dec.new inScope
    congr 1
  rw [this]

/-- **C86**: with an empty `DefaultSpace` nothing changes. -/
theorem C86_empty (n : Nat) (doc : Bytes) : tokRunD [] n (Dec.new doc) = tokRun n (Dec.new doc) := by
  suffices h : ∀ (n : Nat) (d : Dec), tokRunD [] n d = tokRun n d from h n _
  have ht : ∀ ns n e, translateD [] ns n e = translate ns n e := by
    intro ns n e
    unfold translateD translate
    have : ∀ n : Name, n.space = [] → (⟨[], n.loc⟩ : Name) = n := fun n h => by cases n; simp_all
    congr 4
    cases h : ns n.space with
    | some v => rfl
    | none =>
      dsimp only
      split
      · next h => exact this n h
      · rfl
  have hc : ∀ t ns stk, cookD [] t ns stk = cook t ns stk := by
    intro t ns stk
    cases t with
    | startElement n attrs =>
      simp only [cookD, cook, ht]
      cases pushNs attrs ns stk <;> rfl
    | endElement n =>
      have : popElementD [] ns stk n = popElement ns stk n := by unfold popElementD popElement; simp only [ht]; rfl
      simp only [cookD, cook, this]
      cases popElement ns stk n <;> rfl
    | _ => rfl
  intro n
  induction n with
  | zero => intro d; rfl
  | succ n ih =>
    intro d
    have : tokenD [] d = token d := by unfold tokenD token; simp only [hc]; rfl
    unfold tokRunD tokRun
    rw [this]
    simp only [ih]
    cases token d <;> rfl

/-! ### Wrapped in an element -/

/-- The namespaces when all elements are closed. -/
def undo : NsMap → List Stk → NsMap
  | ns, [] => ns
  | ns, .start _ :: l => undo ns l
  | ns, .ns k old :: l => undo (ns.set k old) l

theorem set_set (ns : NsMap) (k : Bytes) (v : Option Bytes) : (ns.set k v).set k (ns k) = ns := by
  funext p
  unfold NsMap.set
  by_cases h : p = k
  · simp [h]
  · simp [h]

theorem undo_push : ∀ (as : List Attr) (ns ns' : NsMap) (stk stk' : List Stk), pushNs as ns stk = .ok (ns', stk') →
    undo ns' stk' = undo ns stk
  | [], ns, ns', stk, stk', h => by
    injection h with h; injection h with h1 h2; subst h1; subst h2; rfl
  | a :: l, ns, ns', stk, stk', h => by
    unfold pushNs at h
    split at h
    · split at h
      · cases h
      · split at h
        · cases h
        · rw [undo_push l _ _ _ _ h]
          simp only [undo, set_set]
    · split at h
      · rw [undo_push l _ _ _ _ h]
        simp only [undo, set_set]
      · exact undo_push l _ _ _ _ h

theorem undo_pop : ∀ (stk : List Stk) (ns : NsMap), undo (popNs ns stk).1 (popNs ns stk).2 = undo ns stk
  | [], ns => rfl
  | .start n :: l, ns => rfl
  | .ns k old :: l, ns => by
    simp only [popNs, undo]
    exact undo_pop l _

theorem undo_cook (t t' : Token) (ns ns' : NsMap) (stk stk' : List Stk) (h : cook t ns stk = .ok (t', ns', stk')) :
    undo ns' stk' = undo ns stk := by
  cases t with
  | startElement n attrs =>
    simp only [cook] at h
    cases hp : pushNs attrs ns stk with
    | error e => rw [hp] at h; cases h
    | ok q =>
      rw [hp] at h
      injection h with h; injection h with _ h; injection h with h1 h2
      subst h1; subst h2
      simp only [undo]
      exact undo_push _ _ _ _ _ hp
  | endElement n =>
    simp only [cook] at h
    cases stk with
    | nil => cases h
    | cons x l =>
      cases x with
      | ns k old => cases h
      | start m =>
        simp only [popElement] at h
        split at h
        · cases h
        · next q hq =>
          split at hq
          · cases hq
          · split at hq
            · cases hq
            · injection hq with hq
              injection hq with _ hq
              injection h with h; injection h with _ h; injection h with h3 h4
              subst h3; subst h4
              have := undo_pop l ns
              rw [hq] at this
              simpa only [undo] using this
  | _ =>
    simp only [cook] at h
    injection h with h; injection h with _ h; injection h with h1 h2
    subst h1; subst h2; rfl

theorem pushNs_base (base : List Stk) : ∀ (as : List Attr) (ns : NsMap) (stk : List Stk),
    pushNs as ns (stk ++ base) = match pushNs as ns stk with
      | .error e => .error e
      | .ok (ns', stk') => .ok (ns', stk' ++ base)
  | [], ns, stk => rfl
  | a :: l, ns, stk => by
    unfold pushNs
    by_cases h1 : a.name.space = xmlnsPrefix
    · rw [if_pos h1, if_pos h1]
      by_cases h2 : a.value = []
      · rw [if_pos h2, if_pos h2]
      rw [if_neg h2, if_neg h2]
      by_cases h3 : a.name.loc = []
      · rw [if_pos h3, if_pos h3]
      rw [if_neg h3, if_neg h3, ← List.cons_append, pushNs_base base l]
    rw [if_neg h1, if_neg h1]
    by_cases h2 : a.name.space = [] ∧ a.name.loc = xmlnsPrefix
    · rw [if_pos h2, if_pos h2, ← List.cons_append, pushNs_base base l]
    · rw [if_neg h2, if_neg h2]
      exact pushNs_base base l ns stk

theorem popNs_base (w : Name) (b : List Stk) : ∀ (stk : List Stk) (ns : NsMap),
    popNs ns (stk ++ .start w :: b) = ((popNs ns stk).1, (popNs ns stk).2 ++ .start w :: b)
  | [], ns => rfl
  | .start n :: l, ns => rfl
  | .ns k old :: l, ns => by
    simp only [List.cons_append, popNs]
    exact popNs_base w b l _

theorem cook_base (w : Name) (b : List Stk) (t t' : Token) (ns ns' : NsMap) (stk stk' : List Stk)
    (h : cook t ns stk = .ok (t', ns', stk')) : cook t ns (stk ++ .start w :: b) = .ok (t', ns', stk' ++ .start w :: b) := by
  cases t with
  | startElement n attrs =>
    simp only [cook, pushNs_base] at h ⊢
    cases hp : pushNs attrs ns stk with
    | error e => rw [hp] at h; cases h
    | ok q =>
      rw [hp] at h
      injection h with h; injection h with h0 h; injection h with h1 h2
      subst h0; subst h1; subst h2
      rfl
  | endElement n =>
    simp only [cook] at h ⊢
    cases stk with
    | nil => cases h
    | cons x l =>
      cases x with
      | ns k old => cases h
      | start m =>
        simp only [popElement, List.cons_append, popNs_base] at h ⊢
        by_cases h1 : m.loc ≠ n.loc
        · simp [h1] at h
        by_cases h2 : m.space ≠ n.space
        · simp [h1, h2] at h
        simp only [h1, h2, if_false] at h ⊢
        injection h with h; injection h with h0 h; injection h with h1 h2
        subst h0; subst h1; subst h2
        rfl
  | _ =>
    simp only [cook] at h ⊢
    injection h with h; injection h with h0 h; injection h with h1 h2
    subst h0; subst h1; subst h2; rfl

theorem pushNs_eof : ∀ (as : List Attr) (ns : NsMap) (stk : List Stk) (e : XErr), pushNs as ns stk = .error e → e ≠ .eof
  | [], ns, stk, e, h => by cases h
  | a :: l, ns, stk, e, h => by
    unfold pushNs at h
    split at h
    · split at h
      · injection h with h; subst h; simp
      · split at h
        · injection h with h; subst h; simp
        · exact pushNs_eof l _ _ _ h
    · split at h
      · exact pushNs_eof l _ _ _ h
      · exact pushNs_eof l _ _ _ h

theorem cook_eof (t : Token) (ns : NsMap) (stk : List Stk) (e : XErr) (h : cook t ns stk = .error e) : e ≠ .eof := by
  cases t with
  | startElement n attrs =>
    simp only [cook] at h
    cases hp : pushNs attrs ns stk with
    | error e' =>
      rw [hp] at h
      injection h with h
      subst h
      exact pushNs_eof _ _ _ _ hp
    | ok q => rw [hp] at h; cases h
  | endElement n =>
    simp only [cook] at h
    cases hp : popElement ns stk n with
    | ok q => rw [hp] at h; cases h
    | error e' =>
      rw [hp] at h
      injection h with h
      subst h
      unfold popElement at hp
      repeat' split at hp
      all_goals first
        | (cases hp; done)
        | (injection hp with hp; subst hp; simp)
  | _ => cases h

/-- The tokens of a document inside an element. -/
theorem run_base (w : Name) (b : List Stk) (st : Raw) : ∀ (ts : List Token) (k : Nat) (A B : Raw) (ns : NsMap) (stk : List Stk)
    (toks : List Token), RawSteps A ts ⟨[], none⟩ → RawSteps B ts st → tokRun k ⟨A, ns, stk⟩ = (toks, some .eof) →
    toks.length = ts.length ∧ ∀ j, tokRun (ts.length + j) ⟨B, ns, stk ++ .start w :: b⟩ =
      (toks ++ (tokRun j ⟨st, undo ns stk, .start w :: b⟩).1, (tokRun j ⟨st, undo ns stk, .start w :: b⟩).2)
  | [], k, A, B, ns, stk, toks, hA, hB, hr => by
    cases hA
    cases hB
    cases k with
    | zero => simp [tokRun] at hr
    | succ k =>
      simp only [tokRun, token, rawToken_eof] at hr
      cases stk with
      | cons x l => simp [unexpectedEOF] at hr
      | nil =>
        simp at hr
        subst hr
        simp [undo]
  | t :: ts, k, A, B, ns, stk, toks, hA, hB, hr => by
    cases hA with
    | cons _ A1 _ _ _ hA1 hA =>
    cases hB with
    | cons _ B1 _ _ _ hB1 hB =>
    cases k with
    | zero => simp [tokRun] at hr
    | succ k =>
      simp only [tokRun, token, hA1] at hr
      cases hc : cook t ns stk with
      | error e =>
        rw [hc] at hr
        simp at hr
        exact absurd hr.2 (cook_eof t ns stk e hc)
      | ok q =>
        obtain ⟨t', ns', stk'⟩ := q
        rw [hc] at hr
        dsimp only at hr
        obtain ⟨h1, h2⟩ := Prod.mk.inj hr
        obtain ⟨h3, h4⟩ := run_base w b st ts k A1 B1 ns' stk' (tokRun k ⟨A1, ns', stk'⟩).1 hA hB (by rw [← h2])
        subst h1
        refine ⟨by simp [h3], fun j => ?_⟩
        rw [List.length_cons, show ts.length + 1 + j = (ts.length + j) + 1 by omega]
        rw [← undo_cook _ _ _ _ _ _ hc]
        simp only [tokRun, token, hB1, cook_base w b _ _ _ _ _ _ hc]
        rw [h4 j]
        simp

/-- The bytes are read as these raw tokens, at the end of the input and before any tag. -/
def Lexes (doc : Bytes) (ts : List Token) : Prop := ∀ r, EndsText r → RawSteps ⟨doc ++ r, none⟩ ts ⟨r, none⟩

/-- The document in an element `w` that declares a default namespace. -/
def wrapped (w u doc : Bytes) : Bytes := (Out.start w [⟨xmlnsPrefix, u⟩]).bytes ++ (doc ++ (Out.stop w).bytes)

/-- **C86**: the tokens of a document with `DefaultSpace` are those between the tags when the document is put into an element
with `xmlns="DefaultSpace"`. -/
theorem C86_wrapped (w u doc : Bytes) (hw : NCName w) (hx : w ≠ xmlnsPrefix) (hu : IsXmlText u) (ts toks : List Token)
    (hl : Lexes doc ts) (n : Nat) (hr : tokRunD u n (Dec.new doc) = (toks, some .eof)) :
    tokRun (toks.length + 3) (Dec.new (wrapped w u doc)) =
      (.startElement ⟨u, w⟩ [⟨⟨[], xmlnsPrefix⟩, u⟩] :: toks ++ [.endElement ⟨u, w⟩], some .eof) := by
  have hname : nameOf w = ⟨[], w⟩ := by simp [nameOf, splitName_nc hw]
  have hx' : NCName xmlnsPrefix := by decide
  have hwr : WrittenName w (nameOf w) := by rw [hname]; exact written_nc hw
  have h1 := rawToken_start w [⟨xmlnsPrefix, u⟩] ⟨hwr, fun a ha => by
    simp only [List.mem_singleton] at ha
    subst ha
    simp only [nameOf, splitName_nc hx']
    exact written_nc hx'⟩ (doc ++ (Out.stop w).bytes)
  have h2 := rawToken_stop w hwr []
  rw [List.append_nil] at h2
  have hattr : attrOf ⟨xmlnsPrefix, u⟩ = ⟨⟨[], xmlnsPrefix⟩, u⟩ := by
    simp [attrOf, nameOf, splitName_nc hx', clean_of_xmlText u hu]
  rw [hname, List.map_cons, List.map_nil, hattr] at h1
  rw [hname] at h2
  rw [C86_in_force] at hr
  have hA := hl [] (.inl rfl)
  have hB := hl (Out.stop w).bytes (.inr ⟨_, rfl⟩)
  rw [List.append_nil] at hA
  obtain ⟨h3, h4⟩ := run_base ⟨[], w⟩ [.ns [] none] ⟨(Out.stop w).bytes, none⟩ ts n ⟨doc, none⟩ _ _ [] toks hA hB hr
  have hns : (fun p => if p = [] then some u else none : NsMap) = NsMap.set (fun _ => none) [] (some u) := rfl
  have htr : ∀ m : NsMap, m [] = some u → translate m ⟨[], w⟩ true = ⟨u, w⟩ := by
    intro m hm
    simp [translate, hm, xmlnsPrefix, xmlPrefix]
    exact fun h => absurd h hx
  have hend : ∀ m : NsMap, m [] = some u → tokRun 2 ⟨⟨(Out.stop w).bytes, none⟩, m, [.start ⟨[], w⟩, .ns [] none]⟩ =
      ([.endElement ⟨u, w⟩], some .eof) := by
    intro m hm
    simp [tokRun, token, h2, cook, popElement, popNs, htr m hm, rawToken_eof]
  have hcook : cook (.startElement ⟨[], w⟩ [⟨⟨[], xmlnsPrefix⟩, u⟩]) (fun _ => none) [] =
      .ok (.startElement ⟨u, w⟩ [⟨⟨[], xmlnsPrefix⟩, u⟩], NsMap.set (fun _ => none) [] (some u), [.start ⟨[], w⟩, .ns [] none]) := by
    simp only [cook, pushNs]
    rw [if_neg (by decide), if_pos ⟨trivial, trivial⟩]
    simp only [List.map_cons, List.map_nil]
    rw [htr _ (by simp [NsMap.set])]
    rfl
  rw [show toks.length + 3 = (toks.length + 2) + 1 by omega]
  unfold tokRun token Dec.new wrapped
  rw [h1]
  dsimp only
  rw [hcook]
  dsimp only
  rw [h3, ← hns]
  have := h4 2
  rw [List.nil_append] at this
  rw [this]
  simp only [undo]
  rw [hend _ (by simp)]
  simp

/-! ### A case -/

/-- Elements with and without prefix, and one with a default namespace of its own. -/
def exOuts : List Out :=
  [.start (b!"a") [], .start (b!"p:b") [⟨b!"xmlns:p", b!"urn:p"⟩, ⟨b!"id", b!"1"⟩], .text (b!"t"), .stop (b!"p:b"),
   .start (b!"c") [⟨b!"xmlns", b!"urn:c"⟩], .stop (b!"c"), .stop (b!"a")]

theorem exOuts_ok : ∀ o ∈ exOuts, OutOk o := by
  intro o ho
  simp only [exOuts, List.mem_cons, List.not_mem_nil, or_false] at ho
  rcases ho with rfl | rfl | rfl | rfl | rfl | rfl | rfl <;> simp only [OutOk, WrittenName] <;> decide

theorem exOuts_lexes : Lexes (outBytes exOuts) (lexOuts [] exOuts) := fun r hr => by
  have := lex_outs exOuts exOuts_ok [] [] pending_nil (by simp [exOuts, Chain]) r hr
  simpa using this

theorem exOuts_bytes : outBytes exOuts = b!"<a><p:b xmlns:p=\"urn:p\" id=\"1\">t</p:b><c xmlns=\"urn:c\"></c></a>" := by decide +kernel

/-- The tokens: `a` is in the default space, attributes are not. -/
def exToks : List Token :=
  [.startElement ⟨b!"urn:u", b!"a"⟩ [],
   .startElement ⟨b!"urn:p", b!"b"⟩ [⟨⟨xmlnsURL, b!"p"⟩, b!"urn:p"⟩, ⟨⟨[], b!"id"⟩, b!"1"⟩], .charData (b!"t"),
   .endElement ⟨b!"urn:p", b!"b"⟩, .startElement ⟨b!"urn:c", b!"c"⟩ [⟨⟨[], xmlnsPrefix⟩, b!"urn:c"⟩],
   .endElement ⟨b!"urn:c", b!"c"⟩, .endElement ⟨b!"urn:u", b!"a"⟩]

theorem exToks_are : tokRunD (b!"urn:u") 10 (Dec.new (outBytes exOuts)) = (exToks, some .eof) := by decide +kernel

example : tokRun 10 (Dec.new (wrapped (b!"w") (b!"urn:u") (outBytes exOuts))) =
    (.startElement ⟨b!"urn:u", b!"w"⟩ [⟨⟨[], xmlnsPrefix⟩, b!"urn:u"⟩] :: exToks ++ [.endElement ⟨b!"urn:u", b!"w"⟩], some .eof) :=
  C86_wrapped _ _ _ (by decide) (by decide) (by decide +kernel) _ _ exOuts_lexes 10 exToks_are

end Verif.DefaultSpace

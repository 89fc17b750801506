import Verif.XmlPrintProps

/-!
The information content of a tree handed to the printer, independent of how the printer chooses and stores prefixes:
every element and attribute with its namespace and local name.  `resolve` is partial: it is defined for trees in which, on
every path from the root, a prefix stands for one namespace and a namespace has one prefix, and in which the default
namespace is not changed inside an element that relies on it.
-/
namespace Verif.Xml

/-- An element tree with expanded names, as a reader sees it.  For content that is written as it is (`innerxml`) there are its
bytes and the tokens a reader finds in them. -/
inductive Node where
  | elem (name : Name) (attrs : List Attr) (kids : List Node)
  | chars (b : Bytes)
  | raw (b : Bytes) (ts : List Token)
  deriving Repr

/-- What is in scope: the prefixes declared, the namespace given to an enclosing element written without prefix, and the
default namespace. -/
structure Env where
  bs : List (Bytes × Bytes)
  given : Option Bytes
  dflt : Bytes
  deriving DecidableEq, Repr

/-- The prefix of a namespace. -/
def preOf (bs : List (Bytes × Bytes)) (u : Bytes) : Option Bytes := (bs.find? (·.2 = u)).map (·.1)

instance (s : Bytes) : Decidable (NCName s) := by unfold NCName; infer_instance

/-- The prefix made up for a namespace when the caller has no preference: the last part of its path. -/
def genPrefix (u : Bytes) : Bytes := pickPrefix ⟨[], [], [], [], []⟩ u []

/-- Uses the namespace `u`, preferably with the prefix `p`: the bindings afterwards, the prefix, and whether it has to be
declared here.  Undefined if it would need a second prefix for a namespace or a second namespace for a prefix. -/
def useNs (bs : List (Bytes × Bytes)) (u p : Bytes) : Option (List (Bytes × Bytes) × Bytes × Bool) :=
  if u = xmlURL then if p = [] ∨ p = xmlPrefix then some (bs, xmlPrefix, false) else none
  else if u = [] ∨ u = xmlnsURL ∨ clean u ≠ u then none
  else
    match preOf bs u with
    | some q => if p = [] ∨ p = q then some (bs, q, false) else none
    | none =>
      let q := if p = [] then genPrefix u else p
      if NCName q ∧ startsXml q = false ∧ bs.lookup q = none then some ((q, u) :: bs, q, true) else none

/-- An attribute with the prefix it is written with and the namespace it is meant to have. -/
structure SAttr where
  pre : Bytes
  loc : Bytes
  space : Bytes
  value : Bytes
  deriving DecidableEq, Repr

/-- As written. -/
def SAttr.raw (s : SAttr) : Attr := ⟨⟨s.pre, s.loc⟩, clean s.value⟩
/-- As meant. -/
def SAttr.res (s : SAttr) : Attr := ⟨⟨s.space, s.loc⟩, clean s.value⟩

/-- A declaration of a prefix. -/
def declAttr (p u : Bytes) : SAttr := ⟨xmlnsPrefix, p, xmlnsURL, u⟩

/-- One attribute. -/
def attrSpec (bs : List (Bytes × Bytes)) (a : Attr) : Option (List (Bytes × Bytes) × List SAttr) :=
  if a.name.loc = [] then some (bs, [])
  else
    let sp := splitPrefixed a.name.loc
    if a.name.space = xmlnsURL then
      if sp.1 ≠ [] ∨ a.value = xmlURL then none
      else
        match useNs bs a.value a.name.loc with
        | none => none
        | some (bs', p, _) => some (bs', [declAttr p a.value])
    else if a.name.space ≠ [] then
      match useNs bs a.name.space sp.1 with
      | none => none
      | some (bs', p, new) => some (bs', (if new then [declAttr p a.name.space] else []) ++ [⟨p, sp.2, a.name.space, a.value⟩])
    else if sp.2 = xmlnsPrefix ∧ (sp.1 ≠ [] ∨ clean a.value ≠ a.value) then none
    else some (bs, [⟨[], sp.2, [], a.value⟩])

/-- The attributes of a tag. -/
def attrsSpec : List (Bytes × Bytes) → List Attr → Option (List (Bytes × Bytes) × List SAttr)
  | bs, [] => some (bs, [])
  | bs, a :: l =>
    match attrSpec bs a with
    | none => none
    | some (bs1, s1) =>
      match attrsSpec bs1 l with
      | none => none
      | some (bs2, s2) => some (bs2, s1 ++ s2)

/-- The values of the own `xmlns` attributes. -/
def ownDefaults (attrs : List Attr) : List Bytes :=
  attrs.filterMap fun a => if a.name = ⟨[], xmlnsPrefix⟩ then some a.value else none

/-- How an element is written: bindings, prefix, declarations, and the namespace given without prefix. -/
structure Place where
  bs : List (Bytes × Bytes)
  pre : Bytes
  decls : List SAttr
  given : Option Bytes
  deriving DecidableEq, Repr

def Place.ofUse (g : Option Bytes) (u : Bytes) (decl : Bool) : Option (List (Bytes × Bytes) × Bytes × Bool) → Option Place
  | none => none
  | some (bs, p, new) => some ⟨bs, p, if new && decl then [declAttr p u] else [], g⟩

/-- How an element is written. -/
def placeSpec (env : Env) (n : Name) (attrs : List Attr) : Option Place :=
  let sp := splitPrefixed n.loc
  if sp.2 = xmlnsPrefix then none
  else if n.space = [] then if sp.1 = [] then some ⟨env.bs, [], [], env.given⟩ else none
  else if n.space = xmlURL ∨ n.space = xmlnsURL ∨ clean n.space ≠ n.space then none
  else if n.space ∈ ownDefaults attrs then
    if sp.1 = [] ∧ (env.given = none ∨ env.given = some n.space) then some ⟨env.bs, [], [], some n.space⟩ else none
  else if sp.1 ≠ [] then Place.ofUse env.given n.space true (useNs env.bs n.space sp.1)
  else if env.given = some n.space then some ⟨env.bs, [], [], env.given⟩
  else
    match ownPrefix attrs n.space with
    | some a => Place.ofUse env.given n.space false (useNs env.bs n.space a.name.loc)
    | none =>
      match preOf env.bs n.space with
      | some p => some ⟨env.bs, p, [], env.given⟩
      | none => if env.given = none then some ⟨env.bs, [], [⟨[], xmlnsPrefix, [], n.space⟩], some n.space⟩ else none

/-- The default namespace inside an element. -/
def dfltIn (env : Env) (n : Name) (attrs : List Attr) (pre : Bytes) : Bytes :=
  match (ownDefaults attrs).getLast? with
  | some v => v
  | none => if pre = [] ∧ n.space ≠ [] then n.space else env.dflt

/-- Own `xmlns` attributes do not contradict the namespace given to an element written without prefix. -/
def defaultsOk (given : Option Bytes) (attrs : List Attr) : Bool :=
  (ownDefaults attrs).all fun v => given == none || given == some v

/-- The content of an element with nothing but `innerxml`. -/
def rawKid : List Item → Option Bytes
  | [.raw b] => some b
  | _ => none

theorem rawKid_some {l : List Item} {b : Bytes} (h : rawKid l = some b) : l = [.raw b] := by
  unfold rawKid at h
  split at h
  · injection h with h; rw [h]
  · cases h

/-- An open element with the declarations in scope. -/
def Env.opens (env : Env) : List Open := [⟨⟨[], []⟩, ([], env.dflt) :: env.bs⟩]

mutual
/-- The information content of a tree. -/
def resolve (env : Env) : Item → Option Node
  | .elem n attrs kids =>
    match placeSpec env n attrs with
    | none => none
    | some pl =>
      match attrsSpec pl.bs attrs with
      | none => none
      | some (bs, as) =>
        if defaultsOk pl.given attrs = false then none
        else
          let d := dfltIn env n attrs pl.pre
          match rawKid kids with
          | some b =>
            match specRun (Env.opens ⟨bs, pl.given, d⟩) (chunkToks b) with
            | none => none
            | some (ts, _) =>
              some (.elem ⟨if n.space = [] then d else n.space, (splitPrefixed n.loc).2⟩ ((pl.decls ++ as).map SAttr.res)
                [.raw b ts])
          | none =>
            match resolves ⟨bs, pl.given, d⟩ kids with
            | none => none
            | some ks =>
              some (.elem ⟨if n.space = [] then d else n.space, (splitPrefixed n.loc).2⟩ ((pl.decls ++ as).map SAttr.res) ks)
  | .text b => some (.chars (clean b))
  | .str b => some (.chars (clean b))
  | .raw _ => none
/-- The information content of a list of trees. -/
def resolves (env : Env) : List Item → Option (List Node)
  | [] => some []
  | i :: l =>
    match resolve env i with
    | none => none
    | some x =>
      match resolves env l with
      | none => none
      | some xs => some (x :: xs)
end

/-- A token, or text that is joined with adjacent text, or content written as it is. -/
inductive Lin where
  | tok (t : Token)
  | chars (b : Bytes)
  | inner (b : Bytes) (ts : List Token)
  deriving Repr

mutual
/-- The tokens of a tree written with indentation. -/
def linear (i : Ind) : Node → Ind × List Lin
  | .elem n as kids =>
    let w := writeIndent i 1
    let r := linears w.1 kids
    let w2 := writeIndent r.1 (-1)
    (w2.1, .chars w.2 :: .tok (.startElement n as) :: (r.2 ++ [.chars w2.2, .tok (.endElement n)]))
  | .chars b => (i, [.chars b])
  | .raw b ts => (i, [.inner b ts])
/-- The tokens of a list of trees written with indentation. -/
def linears (i : Ind) : List Node → Ind × List Lin
  | [] => (i, [])
  | x :: l =>
    let r := linear i x
    let rs := linears r.1 l
    (rs.1, r.2 ++ rs.2)
end

/-- Joins adjacent text: the tokens, and the text left at the end. -/
def mergeL : Bytes → List Lin → List Token × Bytes
  | acc, [] => ([], acc)
  | acc, .tok t :: l => (flush acc ++ t :: (mergeL [] l).1, (mergeL [] l).2)
  | acc, .chars b :: l => mergeL (acc ++ b) l
  | acc, .inner _ ts :: l => (flush acc ++ ts ++ (mergeL [] l).1, (mergeL [] l).2)

/-- Where content written as it is begins among the tokens: one `none` for every token, and before the tokens of such a
content the content and their number. -/
abbrev Marks := List (Option (Bytes × Nat))

/-- The mark of joined text. -/
def flushM (acc : Bytes) : Marks := if acc = [] then [] else [none]

/-- The marks of joined tokens. -/
def marksL : Bytes → List Lin → Marks
  | _, [] => []
  | acc, .tok _ :: l => flushM acc ++ none :: marksL [] l
  | acc, .chars b :: l => marksL (acc ++ b) l
  | acc, .inner b ts :: l => flushM acc ++ some (b, ts.length) :: List.replicate ts.length none ++ marksL [] l

/-- The marks of a list of pieces. -/
def marksO : Bytes → List Out → Marks
  | _, [] => []
  | acc, .start _ _ :: l => flushM acc ++ none :: marksO [] l
  | acc, .stop _ :: l => flushM acc ++ none :: marksO [] l
  | acc, .text b :: l => marksO (acc ++ clean b) l
  | acc, .str b :: l => marksO (acc ++ clean b) l
  | acc, .raw b :: l => marksO (acc ++ b) l
  | acc, .inner b :: l =>
    flushM acc ++ some (b, (chunkToks b).length) :: List.replicate (chunkToks b).length none ++ marksO [] l

theorem marksO_append (acc : Bytes) (a b : List Out) : marksO acc (a ++ b) = marksO acc a ++ marksO (lexL acc a).2 b := by
  induction a generalizing acc with
  | nil => rfl
  | cons o a ih => cases o <;> simp [marksO, lexL, ih]

/-- The tokens a reader sees. -/
def nodeTokens (pre indent : Bytes) (x : Node) : List Token :=
  (mergeL [] (linear (Printer.new pre indent).ind x).2).1

theorem mergeL_append (acc : Bytes) (a b : List Lin) :
    mergeL acc (a ++ b) = ((mergeL acc a).1 ++ (mergeL (mergeL acc a).2 b).1, (mergeL (mergeL acc a).2 b).2) := by
  induction a generalizing acc with
  | nil => rfl
  | cons o a ih => cases o <;> simp [mergeL, ih]

theorem marksL_append (acc : Bytes) (a b : List Lin) : marksL acc (a ++ b) = marksL acc a ++ marksL (mergeL acc a).2 b := by
  induction a generalizing acc with
  | nil => rfl
  | cons o a ih => cases o <;> simp [marksL, mergeL, ih]

/-! ### Prefix tables -/

/-- Prefixes and namespaces correspond one to one. -/
structure OneToOne (bs : List (Bytes × Bytes)) : Prop where
  keys : (bs.map (·.1)).Nodup
  vals : (bs.map (·.2)).Nodup
  pre : ∀ b ∈ bs, NCName b.1 ∧ startsXml b.1 = false
  uri : ∀ b ∈ bs, b.2 ≠ [] ∧ b.2 ≠ xmlURL ∧ b.2 ≠ xmlnsURL ∧ clean b.2 = b.2

/-- The printer's tables hold exactly the bindings. -/
structure Tab (els : List Elem) (bs : List (Bytes × Bytes)) : Prop where
  all : els.flatMap (·.prefixToNS) = bs
  inv : ∀ e ∈ els, e.nsToPrefix = e.prefixToNS.map fun b => (b.2, b.1)
  one : OneToOne bs

theorem lookup_mem {bs : List (Bytes × Bytes)} {k v : Bytes} (h : bs.lookup k = some v) : (k, v) ∈ bs := by
  induction bs with
  | nil => cases h
  | cons b bs ih =>
    obtain ⟨a, c⟩ := b
    rw [List.lookup_cons] at h
    by_cases hk : k = a
    · subst hk; simp at h; subst h; simp
    · rw [show (k == a) = false by simpa using hk] at h
      exact List.mem_cons_of_mem _ (ih h)

theorem lookup_none {bs : List (Bytes × Bytes)} {k : Bytes} (h : bs.lookup k = none) (v : Bytes) : (k, v) ∉ bs := by
  induction bs with
  | nil => simp
  | cons b bs ih =>
    obtain ⟨a, c⟩ := b
    rw [List.lookup_cons] at h
    by_cases hk : k = a
    · subst hk; simp at h
    · rw [show (k == a) = false by simpa using hk] at h
      intro hm
      rcases List.mem_cons.1 hm with hm | hm
      · injection hm with hm _; exact hk hm
      · exact ih h hm

theorem preOf_mem {bs : List (Bytes × Bytes)} {u p : Bytes} (h : preOf bs u = some p) : (p, u) ∈ bs := by
  unfold preOf at h
  cases hf : bs.find? (·.2 = u) with
  | none => rw [hf] at h; cases h
  | some b =>
    rw [hf] at h
    injection h with h
    have h1 := List.mem_of_find?_eq_some hf
    have h2 := List.find?_some hf
    simp at h2
    subst h; subst h2
    exact h1

theorem preOf_none {bs : List (Bytes × Bytes)} {u : Bytes} (h : preOf bs u = none) (p : Bytes) : (p, u) ∉ bs := by
  unfold preOf at h
  rw [Option.map_eq_none_iff, List.find?_eq_none] at h
  intro hm
  have := h _ hm
  simp at this

theorem OneToOne.key {bs : List (Bytes × Bytes)} (h : OneToOne bs) {p u v : Bytes} (h1 : (p, u) ∈ bs) (h2 : (p, v) ∈ bs) :
    u = v := by
  have hk := h.keys
  clear h
  induction bs with
  | nil => simp at h1
  | cons b bs ih =>
    rw [List.map_cons, List.nodup_cons] at hk
    rcases List.mem_cons.1 h1 with k1 | k1 <;> rcases List.mem_cons.1 h2 with k2 | k2
    · rw [← k1] at k2; injection k2 with _ k2; exact k2.symm
    · subst k1
      exact absurd (List.mem_map (f := (·.1)).2 ⟨(p, v), k2, rfl⟩) hk.1
    · subst k2
      exact absurd (List.mem_map (f := (·.1)).2 ⟨(p, u), k1, rfl⟩) hk.1
    · exact ih k1 k2 hk.2

theorem OneToOne.val {bs : List (Bytes × Bytes)} (h : OneToOne bs) {p q u : Bytes} (h1 : (p, u) ∈ bs) (h2 : (q, u) ∈ bs) :
    p = q := by
  have hk := h.vals
  clear h
  induction bs with
  | nil => simp at h1
  | cons b bs ih =>
    rw [List.map_cons, List.nodup_cons] at hk
    rcases List.mem_cons.1 h1 with k1 | k1 <;> rcases List.mem_cons.1 h2 with k2 | k2
    · rw [← k1] at k2; injection k2 with k2 _; exact k2.symm
    · subst k1
      exact absurd (List.mem_map (f := (·.2)).2 ⟨(q, u), k2, rfl⟩) hk.1
    · subst k2
      exact absurd (List.mem_map (f := (·.2)).2 ⟨(p, u), k1, rfl⟩) hk.1
    · exact ih k1 k2 hk.2

theorem preOf_eq {bs : List (Bytes × Bytes)} (h : OneToOne bs) {p u : Bytes} (hm : (p, u) ∈ bs) : preOf bs u = some p := by
  cases hp : preOf bs u with
  | none => exact absurd hm (preOf_none hp p)
  | some q => rw [h.val (preOf_mem hp) hm]

theorem oneToOne_cons {bs : List (Bytes × Bytes)} (h : OneToOne bs) {p u : Bytes} (hp : NCName p) (hx : startsXml p = false)
    (hk : bs.lookup p = none) (hv : preOf bs u = none) (hu : u ≠ [] ∧ u ≠ xmlURL ∧ u ≠ xmlnsURL ∧ clean u = u) :
    OneToOne ((p, u) :: bs) := by
  constructor
  · rw [List.map_cons, List.nodup_cons]
    refine ⟨?_, h.keys⟩
    intro hm
    obtain ⟨⟨a, b⟩, h1, h2⟩ := List.mem_map.1 hm
    dsimp only at h2
    subst h2
    exact lookup_none hk b h1
  · rw [List.map_cons, List.nodup_cons]
    refine ⟨?_, h.vals⟩
    intro hm
    obtain ⟨⟨a, b⟩, h1, h2⟩ := List.mem_map.1 hm
    dsimp only at h2
    subst h2
    exact preOf_none hv a h1
  · intro b hb
    rcases List.mem_cons.1 hb with rfl | hb
    · exact ⟨hp, hx⟩
    · exact h.pre b hb
  · intro b hb
    rcases List.mem_cons.1 hb with rfl | hb
    · exact hu
    · exact h.uri b hb

theorem mget_of_mem {m : List (Bytes × Bytes)} {k v : Bytes} (h : mget m k = v) (hv : v ≠ []) : (k, v) ∈ m := by
  have := mget_mem m k (by rw [h]; exact hv)
  rw [h] at this
  exact this

theorem mget_ne_of_mem {m : List (Bytes × Bytes)} {k v : Bytes} (hall : ∀ b ∈ m, b.2 ≠ []) (h : (k, v) ∈ m) :
    mget m k ≠ [] := by
  induction m with
  | nil => simp at h
  | cons b m ih =>
    obtain ⟨a, c⟩ := b
    rw [mget_cons]
    split
    · exact hall (a, c) (by simp)
    · rename_i hk
      rcases List.mem_cons.1 h with h | h
      · injection h with h _; exact absurd h hk
      · exact ih (fun b hb => hall b (by simp [hb])) h

theorem getPrefixLoop_eq (u : Bytes) (deeper els : List Elem) (bs : List (Bytes × Bytes)) (h : OneToOne bs)
    (hd : ∀ d ∈ deeper, ∀ b ∈ d.prefixToNS, b ∈ bs) (he : ∀ d ∈ els, ∀ b ∈ d.prefixToNS, b ∈ bs)
    (hdis : ∀ d ∈ deeper, ∀ e ∈ els, ∀ b ∈ d.prefixToNS, b ∉ e.prefixToNS)
    (hdup : (els.flatMap (·.prefixToNS)).Nodup)
    (hinv : ∀ e ∈ els, e.nsToPrefix = e.prefixToNS.map fun b => (b.2, b.1)) :
    getPrefixLoop u deeper els = (preOf (els.flatMap (·.prefixToNS)) u).getD [] := by
  induction els generalizing deeper with
  | nil => rfl
  | cons e els ih =>
    simp only [getPrefixLoop]
    have hi := hinv e (by simp)
    have hne : ∀ b ∈ e.nsToPrefix, b.2 ≠ [] := by
      intro b hb
      rw [hi] at hb
      obtain ⟨c, hc, rfl⟩ := List.mem_map.1 hb
      exact isName_ne (h.pre c (he e (by simp) c hc)).1.1
    by_cases hm : mget e.nsToPrefix u ≠ []
    · rw [if_pos hm]
      have h1 := mget_mem _ _ hm
      rw [hi] at h1
      obtain ⟨⟨p, v⟩, h2, h3⟩ := List.mem_map.1 h1
      injection h3 with h3 h4
      dsimp only at h3 h4
      subst h3
      rw [← hi] at h1
      have hp : mget e.nsToPrefix v = p := by rw [← hi] at h4; exact h4.symm
      rw [hp]
      have hany : (deeper.any fun d => mget d.prefixToNS p != []) = false := by
        rw [List.any_eq_false]
        intro d hdm hx
        simp at hx
        have h5 := mget_mem _ _ hx
        have h6 := h.key (hd d hdm _ h5) (he e (by simp) _ h2)
        rw [h6] at h5
        exact hdis d hdm e (by simp) _ h5 h2
      rw [hany]
      have : preOf (List.flatMap (·.prefixToNS) (e :: els)) v = some p := by
        rw [List.flatMap_cons]
        unfold preOf
        rw [List.find?_append]
        cases hf : e.prefixToNS.find? (·.2 = v) with
        | none => rw [List.find?_eq_none] at hf; have := hf _ h2; simp at this
        | some b =>
          have h5 := List.mem_of_find?_eq_some hf
          have h6 := List.find?_some hf
          simp at h6
          simp only [Option.some_or, Option.map_some]
          obtain ⟨b1, b2⟩ := b
          dsimp only at h6
          subst h6
          rw [h.val (he e (by simp) _ h5) (he e (by simp) _ h2)]
      rw [this]
      simp
    · rw [if_neg hm]
      have hnone : e.prefixToNS.find? (·.2 = u) = none := by
        rw [List.find?_eq_none]
        intro b hb hx
        simp at hx
        apply hm
        refine mget_ne_of_mem hne (v := b.1) ?_
        rw [hi]
        exact List.mem_map.2 ⟨b, hb, by rw [hx]⟩
      rw [ih (e :: deeper)]
      · congr 1
        rw [List.flatMap_cons]
        unfold preOf
        rw [List.find?_append, hnone, Option.none_or]
      · intro d hdm b hb
        rcases List.mem_cons.1 hdm with rfl | hdm
        · exact he d (by simp) b hb
        · exact hd d hdm b hb
      · intro d hdm; exact he d (by simp [hdm])
      · intro d hdm f hf b hb
        rcases List.mem_cons.1 hdm with rfl | hdm
        · rw [List.flatMap_cons, List.nodup_append] at hdup
          intro hbf
          exact hdup.2.2 b hb b (List.mem_flatMap.2 ⟨f, hf, hbf⟩) rfl
        · exact hdis d hdm f (by simp [hf]) b hb
      · rw [List.flatMap_cons, List.nodup_append] at hdup
        exact hdup.2.1
      · intro f hf; exact hinv f (by simp [hf])

theorem nodup_of_map {α β} (f : α → β) {l : List α} (h : (l.map f).Nodup) : l.Nodup := by
  induction l with
  | nil => exact List.nodup_nil
  | cons a l ih =>
    rw [List.map_cons, List.nodup_cons] at h
    rw [List.nodup_cons]
    exact ⟨fun hm => h.1 (List.mem_map.2 ⟨a, hm, rfl⟩), ih h.2⟩

theorem getPrefix_eq {els : List Elem} {bs : List (Bytes × Bytes)} (h : Tab els bs) (u : Bytes) (h1 : u ≠ xmlURL)
    (h2 : u ≠ xmlnsURL) : getPrefix els u = (preOf bs u).getD [] := by
  unfold getPrefix
  rw [if_neg h1, if_neg h2, getPrefixLoop_eq u [] els bs h.one (by simp) ?_ (by simp) ?_ h.inv, h.all]
  · intro d hd b hb
    rw [← h.all]
    exact List.mem_flatMap.2 ⟨d, hd, hb⟩
  · rw [h.all]
    exact nodup_of_map _ h.one.keys

theorem getPrefix_xml (els : List Elem) : getPrefix els xmlURL = xmlPrefix := by
  unfold getPrefix; rw [if_pos rfl]

theorem tab_pfx {els : List Elem} {bs : List (Bytes × Bytes)} (h : Tab els bs) : PfxOk els := by
  intro e he u p hm
  rw [h.inv e he] at hm
  obtain ⟨c, hc, h1⟩ := List.mem_map.1 hm
  injection h1 with _ h1
  subst h1
  exact h.one.pre c (by rw [← h.all]; exact List.mem_flatMap.2 ⟨e, he, hc⟩)

theorem afterSlash_nc {p : Bytes} (h : NCName p) : afterSlash p = p := by
  unfold afterSlash
  have hs : ch%'/' ∉ p := by
    intro hm
    exact absurd (isName_bytes h.1 _ hm) (by decide)
  have := List.takeWhile_append_of_pos (p := (· != ch%'/')) (l₁ := p.reverse) (l₂ := []) ?_
  · rw [List.append_nil, List.takeWhile_nil, List.append_nil] at this
    rw [this, List.reverse_reverse]
  intro b hb
  rw [List.mem_reverse] at hb
  simp
  rintro rfl
  exact hs hb

theorem pickPrefix_preferred (e : Elem) (u p : Bytes) (hp : NCName p) (hx : startsXml p = false) (hm : mget e.prefixToNS p = []) :
    pickPrefix e u p = p := by
  unfold pickPrefix
  have hne := isName_ne hp.1
  have : (if p = [] ∨ mget e.prefixToNS p ≠ [] then trimSlashes u else p) = p := if_neg (by simp [hne, hm])
  rw [this]
  dsimp only
  rw [afterSlash_nc hp]
  have : (if p = [] ∨ isName p = false ∨ ch%':' ∈ p then b!"_" else p) = p := if_neg (by simp [hne, hp.1, hp.2])
  rw [this, if_neg (by simp [hx])]
-- (by simp [hne, hp.1, hp.2]), if_neg (by simp [hx])]

theorem pickPrefix_gen (e : Elem) (u : Bytes) : pickPrefix e u [] = genPrefix u := by
  unfold genPrefix pickPrefix
  simp

/-- The table after recording a binding on the innermost element. -/
theorem tab_record {e : Elem} {els : List Elem} {bs : List (Bytes × Bytes)} (h : Tab (e :: els) bs) {p u : Bytes}
    (h1 : OneToOne ((p, u) :: bs)) : Tab (recordPrefix e u p :: els) ((p, u) :: bs) := by
  have hm : mget e.nsToPrefix u = [] := by
    apply Classical.byContradiction
    intro hne
    have := mget_mem _ _ hne
    rw [h.inv e (by simp)] at this
    obtain ⟨c, hc, h2⟩ := List.mem_map.1 this
    have hc' : c ∈ bs := by rw [← h.all]; exact List.mem_flatMap.2 ⟨e, by simp, hc⟩
    injection h2 with h2 _
    have := h1.vals
    rw [List.map_cons, List.nodup_cons] at this
    exact this.1 (List.mem_map.2 ⟨c, hc', h2⟩)
  refine ⟨?_, ?_, h1⟩
  · rw [List.flatMap_cons]
    unfold recordPrefix
    dsimp only
    rw [List.cons_append]
    have := h.all
    rw [List.flatMap_cons] at this
    rw [this]
  · intro f hf
    rcases List.mem_cons.1 hf with rfl | hf
    · unfold recordPrefix
      dsimp only
      rw [if_pos hm, List.map_cons, h.inv e (by simp)]
    · exact h.inv f (by simp [hf])

theorem mget_free {e : Elem} {els : List Elem} {bs : List (Bytes × Bytes)} (h : Tab (e :: els) bs) {p : Bytes}
    (hp : bs.lookup p = none) : mget e.prefixToNS p = [] := by
  apply Classical.byContradiction
  intro hne
  have := mget_mem _ _ hne
  exact lookup_none hp _ (by rw [← h.all]; exact List.mem_flatMap.2 ⟨e, by simp, this⟩)

/-- `createPrefix` does what `useNs` says. -/
theorem createPrefix_spec {ns : Ns} {bs bs' : List (Bytes × Bytes)} {u p q : Bytes} {new : Bool} (hne : ns.els ≠ [])
    (ht : Tab ns.els bs) (h : useNs bs u p = some (bs', q, new)) :
    Tab (createPrefix ns u p).1.els bs' ∧ (createPrefix ns u p).2 = (q, new) ∧
      ((new = false ∧ bs' = bs ∧ (createPrefix ns u p).1 = ns) ∨ (new = true ∧ bs' = (q, u) :: bs)) ∧
      ((u = xmlURL ∧ q = xmlPrefix) ∨ (q, u) ∈ bs') ∧ (p ≠ [] → q = p) := by
  unfold useNs at h
  split at h
  · rename_i hu
    split at h
    · rename_i hp
      injection h with h; injection h with h1 h; injection h with h2 h3
      subst h1; subst h2; subst h3; subst hu
      have hc : createPrefix ns xmlURL p = (ns, xmlPrefix, false) := by
        unfold createPrefix
        rw [getPrefix_xml, if_pos]
        refine ⟨by decide, ?_⟩
        rcases hp with hp | hp
        · exact Or.inr hp
        · exact Or.inl hp.symm
      rw [hc]
      refine ⟨ht, rfl, Or.inl ⟨rfl, rfl, rfl⟩, Or.inl ⟨rfl, rfl⟩, fun hx => ?_⟩
      rcases hp with hp | hp
      · exact absurd hp hx
      · exact hp.symm
    · cases h
  rename_i hu
  split at h
  · cases h
  rename_i hu2
  simp only [not_or, Classical.not_not] at hu2
  have hg := getPrefix_eq ht u hu hu2.2.1
  split at h
  · rename_i q' hq
    split at h
    · rename_i hp
      injection h with h; injection h with h1 h; injection h with h2 h3
      subst h1; subst h2; subst h3
      rw [hq, Option.getD_some] at hg
      have hmem := preOf_mem hq
      have hc : createPrefix ns u p = (ns, q', false) := by
        unfold createPrefix
        rw [hg, if_pos]
        refine ⟨isName_ne (ht.one.pre _ hmem).1.1, ?_⟩
        rcases hp with hp | hp
        · exact Or.inr hp
        · exact Or.inl hp.symm
      rw [hc]
      refine ⟨ht, rfl, Or.inl ⟨rfl, rfl, rfl⟩, Or.inr hmem, fun hx => ?_⟩
      rcases hp with hp | hp
      · exact absurd hp hx
      · exact hp.symm
    · cases h
  · rename_i hq
    dsimp only at h
    generalize hq0 : (if p = [] then genPrefix u else p) = q0 at h
    split at h
    · rename_i hc
      injection h with h; injection h with h1 h; injection h with h2 h3
      subst h2
      rename' hq0 => h2, q0 => q
      obtain ⟨hc1, hc2, hc3⟩ := hc
      rw [hq, Option.getD_none] at hg
      subst h1; subst h3
      have hone := oneToOne_cons ht.one hc1 hc2 hc3 hq ⟨hu2.1, hu, hu2.2.1, hu2.2.2⟩
      cases hels : ns.els with
      | nil => exact absurd hels hne
      | cons e els =>
        rw [hels] at ht hg
        have hpick : pickPrefix e u p = q := by
          by_cases hp : p = []
          · subst hp
            rw [pickPrefix_gen]
            rw [if_pos rfl] at h2
            exact h2
          · rw [if_neg hp] at h2
            rw [h2]
            exact pickPrefix_preferred e u q hc1 hc2 (mget_free ht hc3)
        have huniq : uniquePrefix e ns.seq q = (q, ns.seq) := by
          unfold uniquePrefix
          rw [if_neg (by simp [mget_free ht hc3])]
        have hcr : createPrefix ns u p = (⟨ns.seq, recordPrefix e u q :: els⟩, q, true) := by
          unfold createPrefix
          rw [hels]
          simp only [hg]
          rw [if_neg (by simp), hpick, huniq]
        rw [hcr]
        refine ⟨tab_record ht hone, rfl, Or.inr ⟨rfl, rfl⟩, Or.inr (by simp), fun hx => ?_⟩
        rw [if_neg hx] at h2
        exact h2.symm
    · cases h

/-! ### Attributes -/

/-- The written form of an attribute. -/
def SWritten (s : SAttr) (t : TagAttr) : Prop := WrittenName t.name ⟨s.pre, s.loc⟩ ∧ t.value = s.value

/-- The prefix of an attribute stands for its namespace. -/
def SGood (bs : List (Bytes × Bytes)) (s : SAttr) : Prop :=
  (s.pre = [] ∧ s.space = [] ∧ (s.loc = xmlnsPrefix → clean s.value = s.value)) ∨
  (s.pre = xmlnsPrefix ∧ s.space = xmlnsURL ∧ (s.loc, s.value) ∈ bs) ∨
  (s.pre = xmlPrefix ∧ s.space = xmlURL) ∨ (s.pre, s.space) ∈ bs

theorem SGood.mono {bs bs' : List (Bytes × Bytes)} (h : bs ⊆ bs') {s : SAttr} (hs : SGood bs s) : SGood bs' s := by
  rcases hs with hs | ⟨h1, h2, h3⟩ | hs | hs
  · exact Or.inl hs
  · exact Or.inr (Or.inl ⟨h1, h2, h h3⟩)
  · exact Or.inr (Or.inr (Or.inl hs))
  · exact Or.inr (Or.inr (Or.inr (h hs)))

inductive SList : List SAttr → List TagAttr → Prop
  | nil : SList [] []
  | cons {s t ss ts} : SWritten s t → SList ss ts → SList (s :: ss) (t :: ts)

theorem SList.append {a b : List SAttr} {c d : List TagAttr} (h1 : SList a c) (h2 : SList b d) : SList (a ++ b) (c ++ d) := by
  induction h1 with
  | nil => exact h2
  | cons h _ ih => exact .cons h ih

theorem SList.raw {a : List SAttr} {b : List TagAttr} (h : SList a b) : b.map attrOf = a.map SAttr.raw := by
  induction h with
  | nil => rfl
  | cons h _ ih =>
    rw [List.map_cons, List.map_cons, ih]
    congr 1
    unfold attrOf SAttr.raw
    rw [written_nameOf h.1, h.2]

/-- What writing attributes gives. -/
structure AttrsDone (ns ns' : Ns) (bs bs' : List (Bytes × Bytes)) (ss : List SAttr) (ts : List TagAttr) : Prop where
  tab : Tab ns'.els bs'
  same : SameTop ns.els ns'.els
  sub : bs ⊆ bs'
  new : ∀ b ∈ bs', b ∈ bs ∨ declAttr b.1 b.2 ∈ ss
  good : ∀ s ∈ ss, SGood bs' s
  list : SList ss ts

theorem use_sub {bs bs' : List (Bytes × Bytes)} {q u : Bytes} {new : Bool}
    (h : (new = false ∧ bs' = bs ∧ P) ∨ (new = true ∧ bs' = (q, u) :: bs)) : bs ⊆ bs' := by
  rcases h with ⟨_, rfl, _⟩ | ⟨_, rfl⟩
  · exact fun x hx => hx
  · exact fun x hx => List.mem_cons_of_mem _ hx

theorem written_xmlns {p : Bytes} (hp : NCName p) : WrittenName (xmlnsName p) ⟨xmlnsPrefix, p⟩ := written_join nc_xmlns hp

theorem use_nc {bs' : List (Bytes × Bytes)} {q u : Bytes} (h1 : OneToOne bs')
    (h : (u = xmlURL ∧ q = xmlPrefix) ∨ (q, u) ∈ bs') : NCName q := by
  rcases h with ⟨_, rfl⟩ | h
  · exact nc_xml
  · exact (h1.pre _ h).1

theorem writeAttr_spec {ns : Ns} {bs bs' : List (Bytes × Bytes)} {a : Attr} {ss : List SAttr} (hne : ns.els ≠ [])
    (ht : Tab ns.els bs) (ha : AttrOk a) (h : attrSpec bs a = some (bs', ss)) :
    AttrsDone ns (writeAttr ns a).1 bs bs' ss (writeAttr ns a).2 := by
  unfold attrSpec at h
  unfold writeAttr
  split at h
  · rename_i hl
    rw [if_pos hl]
    injection h with h; injection h with h1 h2
    subst h1; subst h2
    exact ⟨ht, .refl hne, fun x hx => hx, fun b hb => Or.inl hb, by simp, .nil⟩
  rename_i hl
  rw [if_neg hl]
  rcases ha with ha | ⟨hq, hv⟩
  · exact absurd ha hl
  have hsp := splitPrefixed_q hq
  dsimp only at h ⊢
  split at h
  · rename_i hx
    rw [if_pos hx]
    split at h
    · cases h
    · rename_i hc
      simp only [not_or, Classical.not_not] at hc
      have hloc : (splitPrefixed a.name.loc).2 = a.name.loc := by
        rcases hq with hq | ⟨p, l, hp, hl', he⟩
        · rw [splitPrefixed_nc hq]
        · rw [he, splitPrefixed_join hp hl'] at hc
          exact absurd hc.1 (isName_ne hp.1)
      split at h
      · cases h
      · rename_i bs1 p new hu
        injection h with h; injection h with h1 h2
        subst h1; subst h2
        rw [hloc] at hsp ⊢
        obtain ⟨t1, t2, t3, t4, t5⟩ := createPrefix_spec hne ht hu
        have hp := t5 hl
        subst hp
        have hmem : (a.name.loc, a.value) ∈ bs1 := by
          rcases t4 with ⟨h1, _⟩ | h1
          · exact absurd h1 hc.2
          · exact h1
        refine ⟨t1, createPrefix_same ns hne _ _, use_sub t3, ?_, ?_, ?_⟩
        · intro b hb
          rcases t3 with ⟨_, t3, _⟩ | ⟨_, t3⟩
          · rw [t3] at hb; exact Or.inl hb
          · rw [t3] at hb
            rcases List.mem_cons.1 hb with rfl | hb
            · exact Or.inr (by simp)
            · exact Or.inl hb
        · intro s hs
          simp at hs
          subst hs
          exact Or.inr (Or.inl ⟨rfl, rfl, hmem⟩)
        · exact .cons ⟨written_xmlns hsp.1, rfl⟩ .nil
  rename_i hx
  rw [if_neg hx]
  split at h
  · rename_i hs
    rw [if_pos hs]
    split at h
    · cases h
    · rename_i bs1 p new hu
      injection h with h; injection h with h1 h2
      subst h1; subst h2
      obtain ⟨t1, t2, t3, t4, t5⟩ := createPrefix_spec hne ht hu
      have hnc := use_nc t1.one t4
      have t2a : (createPrefix ns a.name.space (splitPrefixed a.name.loc).1).2.1 = p := by rw [t2]
      have t2b : (createPrefix ns a.name.space (splitPrefixed a.name.loc).1).2.2 = new := by rw [t2]
      rw [t2a, t2b]
      refine ⟨t1, createPrefix_same ns hne _ _, use_sub t3, ?_, ?_, ?_⟩
      · intro b hb
        rcases t3 with ⟨_, t3, _⟩ | ⟨tn, t3⟩
        · rw [t3] at hb; exact Or.inl hb
        · rw [t3] at hb
          rcases List.mem_cons.1 hb with rfl | hb
          · exact Or.inr (by simp [tn])
          · exact Or.inl hb
      · intro s hs'
        rcases List.mem_append.1 hs' with hs' | hs'
        · rcases t3 with ⟨tn, t3, _⟩ | ⟨tn, t3⟩
          · rw [tn] at hs'; simp at hs'
          · rw [tn] at hs'
            simp at hs'
            subst hs'
            exact Or.inr (Or.inl ⟨rfl, rfl, by rw [t3]; simp [declAttr]⟩)
        · simp at hs'
          subst hs'
          rcases t4 with ⟨h1, h2⟩ | h1
          · exact Or.inr (Or.inr (Or.inl ⟨h2, h1⟩))
          · exact Or.inr (Or.inr (Or.inr h1))
      · refine SList.append ?_ (.cons ⟨written_join hnc hsp.1, rfl⟩ .nil)
        cases new with
        | false => exact .nil
        | true => exact .cons ⟨written_xmlns hnc, rfl⟩ .nil
  · rename_i hs
    rw [if_neg hs]
    split at h
    · cases h
    · rename_i hc
      injection h with h; injection h with h1 h2
      subst h1; subst h2
      refine ⟨ht, .refl hne, fun x hx => hx, fun b hb => Or.inl hb, ?_, .cons ⟨written_nc hsp.1, rfl⟩ .nil⟩
      intro s hs'
      simp at hs'
      subst hs'
      refine Or.inl ⟨rfl, rfl, ?_⟩
      intro hl'
      dsimp only at hl' ⊢
      apply Classical.byContradiction
      intro hcl
      exact hc ⟨hl', Or.inr hcl⟩

theorem attrsDone_append {a b c : Ns} {b1 b2 b3 : List (Bytes × Bytes)} {s1 s2 : List SAttr} {t1 t2 : List TagAttr}
    (h1 : AttrsDone a b b1 b2 s1 t1) (h2 : AttrsDone b c b2 b3 s2 t2) : AttrsDone a c b1 b3 (s1 ++ s2) (t1 ++ t2) := by
  refine ⟨h2.tab, h1.same.trans h2.same, fun x hx => h2.sub (h1.sub hx), ?_, ?_, h1.list.append h2.list⟩
  · intro x hx
    rcases h2.new x hx with h | h
    · rcases h1.new x h with h | h
      · exact Or.inl h
      · exact Or.inr (by simp [h])
    · exact Or.inr (by simp [h])
  · intro s hs
    rcases List.mem_append.1 hs with hs | hs
    · exact (h1.good s hs).mono h2.sub
    · exact h2.good s hs

theorem writeAttrs_spec (attrs : List Attr) {ns : Ns} {bs bs' : List (Bytes × Bytes)} {ss : List SAttr} (hne : ns.els ≠ [])
    (ht : Tab ns.els bs) (ha : ∀ a ∈ attrs, AttrOk a) (h : attrsSpec bs attrs = some (bs', ss)) :
    AttrsDone ns (writeAttrs ns attrs).1 bs bs' ss (writeAttrs ns attrs).2 := by
  induction attrs generalizing ns bs ss with
  | nil =>
    injection h with h; injection h with h1 h2
    subst h1; subst h2
    exact ⟨ht, .refl hne, fun x hx => hx, fun b hb => Or.inl hb, by simp, .nil⟩
  | cons a l ih =>
    simp only [attrsSpec] at h
    split at h
    · cases h
    · rename_i bs1 s1 h1
      split at h
      · cases h
      · rename_i bs2 s2 h2
        injection h with h; injection h with h3 h4
        subst h3; subst h4
        have d1 := writeAttr_spec hne ht (ha a (by simp)) h1
        have d2 := ih d1.same.ne d1.tab (fun x hx => ha x (by simp [hx])) h2
        exact attrsDone_append d1 d2

/-- The own default declarations among the written attributes. -/
def sDefaults (ss : List SAttr) : List Bytes :=
  ss.filterMap fun s => if s.pre = [] ∧ s.loc = xmlnsPrefix then some s.value else none

theorem sDefaults_append (a b : List SAttr) : sDefaults (a ++ b) = sDefaults a ++ sDefaults b := by
  unfold sDefaults; rw [List.filterMap_append]

theorem ownDefaults_cons (a : Attr) (l : List Attr) : ownDefaults (a :: l) = ownDefaults [a] ++ ownDefaults l := by
  unfold ownDefaults
  rw [← List.filterMap_append]; rfl

theorem useNs_ne {bs bs' : List (Bytes × Bytes)} {u p q : Bytes} {new : Bool} (ho : OneToOne bs)
    (h : useNs bs u p = some (bs', q, new)) : q ≠ [] := by
  have ht : Tab [⟨[], [], [], bs.map (fun b => (b.2, b.1)), bs⟩] bs := ⟨by simp, by simp, ho⟩
  obtain ⟨t1, _, _, t4, _⟩ := createPrefix_spec (ns := ⟨0, [⟨[], [], [], bs.map (fun b => (b.2, b.1)), bs⟩]⟩) (by simp) ht h
  exact isName_ne (use_nc t1.one t4).1

theorem sDefaults_decl (p u : Bytes) (l : List SAttr) : sDefaults (declAttr p u :: l) = sDefaults l := by
  unfold sDefaults declAttr
  rw [List.filterMap_cons, if_neg (by simp [xmlnsPrefix])]

theorem attrSpec_defaults {bs bs' : List (Bytes × Bytes)} {a : Attr} {ss : List SAttr} (ho : OneToOne bs) (ha : AttrOk a)
    (h : attrSpec bs a = some (bs', ss)) : sDefaults ss = ownDefaults [a] := by
  unfold attrSpec at h
  split at h
  · rename_i hl
    injection h with h; injection h with h1 h2
    subst h2
    unfold ownDefaults sDefaults
    rw [List.filterMap_cons, if_neg]
    · rfl
    · intro hn; rw [hn] at hl; exact absurd hl (by decide)
  rename_i hl
  rcases ha with ha | ⟨hq, hv⟩
  · exact absurd ha hl
  dsimp only at h
  split at h
  · rename_i hx
    split at h
    · cases h
    · split at h
      · cases h
      · injection h with h; injection h with _ h2
        subst h2
        rw [sDefaults_decl]
        unfold ownDefaults
        rw [List.filterMap_cons, if_neg]
        · rfl
        · intro hn; rw [hn] at hx; exact absurd hx (by decide)
  rename_i hx
  split at h
  · rename_i hs
    have hno : ownDefaults [a] = [] := by
      unfold ownDefaults
      rw [List.filterMap_cons, if_neg]
      · rfl
      · intro hn; rw [hn] at hs; exact hs rfl
    rw [hno]
    split at h
    · cases h
    · rename_i bs1 p new hu
      injection h with h; injection h with _ h2
      subst h2
      have hp := useNs_ne ho hu
      rw [sDefaults_append]
      have : sDefaults [⟨p, (splitPrefixed a.name.loc).2, a.name.space, a.value⟩] = [] := by
        unfold sDefaults
        rw [List.filterMap_cons, if_neg (by simp [hp])]
        rfl
      rw [this]
      cases new
      · rfl
      · rw [if_pos rfl, sDefaults_decl]; rfl
  · rename_i hs
    have hs : a.name.space = [] := Classical.not_not.1 hs
    split at h
    · cases h
    · rename_i hc
      injection h with h; injection h with _ h2
      subst h2
      unfold sDefaults ownDefaults
      rw [List.filterMap_cons, List.filterMap_cons]
      by_cases h1 : (splitPrefixed a.name.loc).2 = xmlnsPrefix
      · have h2 : (splitPrefixed a.name.loc).1 = [] := by
          apply Classical.byContradiction
          intro hne
          exact hc ⟨h1, Or.inl hne⟩
        have h3 : a.name.loc = xmlnsPrefix := by
          rcases hq with hq | ⟨p, l, hp, hl', he⟩
          · rw [splitPrefixed_nc hq] at h1; exact h1
          · rw [he, splitPrefixed_join hp hl'] at h2
            exact absurd h2 (isName_ne hp.1)
        rw [if_pos ⟨rfl, h1⟩, if_pos (by rw [← hs, ← h3])]
        rfl
      · rw [if_neg (fun hh => h1 hh.2), if_neg]
        · rfl
        · intro hn
          apply h1
          rw [hn]
          decide

theorem attrSpec_one {bs bs' : List (Bytes × Bytes)} {a : Attr} {ss : List SAttr} (ho : OneToOne bs) (ha : AttrOk a)
    (h : attrSpec bs a = some (bs', ss)) : OneToOne bs' := by
  have ht : Tab [⟨[], [], [], bs.map (fun b => (b.2, b.1)), bs⟩] bs := ⟨by simp, by simp, ho⟩
  exact (writeAttr_spec (ns := ⟨0, [⟨[], [], [], bs.map (fun b => (b.2, b.1)), bs⟩]⟩) (by simp) ht ha h).tab.one

theorem attrsSpec_defaults (attrs : List Attr) {bs bs' : List (Bytes × Bytes)} {ss : List SAttr} (ho : OneToOne bs)
    (ha : ∀ a ∈ attrs, AttrOk a) (h : attrsSpec bs attrs = some (bs', ss)) : sDefaults ss = ownDefaults attrs := by
  induction attrs generalizing bs bs' ss with
  | nil => injection h with h; injection h with _ h2; subst h2; rfl
  | cons a l ih =>
    simp only [attrsSpec] at h
    split at h
    · cases h
    · rename_i bs1 s1 h1
      split at h
      · cases h
      · rename_i bs2 s2 h2
        injection h with h; injection h with _ h4
        subst h4
        rw [sDefaults_append, ownDefaults_cons, attrSpec_defaults ho (ha a (by simp)) h1,
          ih (attrSpec_one ho (ha a (by simp)) h1) (fun x hx => ha x (by simp [hx])) h2]

end Verif.Xml

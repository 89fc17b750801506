import Verif.TreeProps
import Verif.XmlResolveProps

/-!
From the tokens of a printed tree (`Verif/XmlResolve.lean`) to the tree the reader works on (`Verif/Tree.lean`): the reader
sees the elements and attributes of the printed tree, and its text except for white space inserted between elements.
-/
namespace Verif.Bind

open Verif.Xml

/-- A single token. -/
def isLeafT : XTree → Bool
  | .leaf _ _ _ => true
  | _ => false

/-- The text directly inside an element. -/
def charsOf : List Node → Bytes
  | [] => []
  | .chars b :: l => b ++ charsOf l
  | .elem .. :: l => charsOf l
  | .raw .. :: l => charsOf l

/-- No element among these. -/
def noElem : List Node → Bool
  | [] => true
  | .chars _ :: l => noElem l
  | .elem .. :: _ => false
  | .raw .. :: l => noElem l

/-- The content of an element with nothing but content written as it is. -/
def rawOf : List Node → Option Bytes
  | [.raw b _] => some b
  | _ => none

/-- The depth after some tokens; `none` if more is closed than was opened. -/
def bal : Nat → List Token → Option Nat
  | d, [] => some d
  | d, .startElement _ _ :: l => bal (d + 1) l
  | 0, .endElement _ :: _ => none
  | d + 1, .endElement _ :: l => bal d l
  | d, _ :: l => bal d l

mutual
/-- Content written as it is closes what it opens, and is the only content of its element. -/
def NodeBal : Node → Prop
  | .elem _ _ kids => (∃ b ts, kids = [.raw b ts] ∧ bal 0 ts = some 0) ∨ NodesBal kids
  | .chars _ => True
  | .raw _ _ => False
/-- The same for several trees. -/
def NodesBal : List Node → Prop
  | [] => True
  | x :: l => NodeBal x ∧ NodesBal l
end

/-- The text is that of the printed trees, with white space in place of the elements and at the end. -/
def Spread : List Node → Bytes → Prop
  | [], d => IsWs d
  | .chars b :: l, d => ∃ r, d = b ++ r ∧ Spread l r
  | .elem .. :: l, d => ∃ p r, IsWs p ∧ d = p ++ r ∧ Spread l r
  | .raw .. :: l, d => Spread l d

mutual
/-- The reader's tree shows the printed tree.  Text is the same if there is no indentation (`plain`), or if the element has
no elements in it; otherwise there may be white space in place of the elements and at the end.  Content that was written as it
is stands between the tags. -/
def Sees (plain : Bool) : Node → XTree → Prop
  | .elem n as kids, .elem n' as' _ a ts _ eb _ =>
    n' = n ∧ as' = as ∧ (∀ b, rawOf kids = some b → a = b ++ eb) ∧ (rawOf kids = none → SeesL plain kids ts ∧
      (plain = true ∨ noElem kids = true → dataOf ts = charsOf kids) ∧ Spread kids (dataOf ts))
  | _, _ => False
/-- The elements among the reader's trees show the elements among the printed trees, in order. -/
def SeesL (plain : Bool) : List Node → List XTree → Prop
  | [], ts => ∀ t ∈ ts, isLeafT t = true
  | .chars _ :: l, ts => SeesL plain l ts
  | .raw _ _ :: l, ts => SeesL plain l ts
  | .elem n as kids :: l, ts =>
    ∃ pre t post, ts = pre ++ t :: post ∧ (∀ p ∈ pre, isLeafT p = true) ∧ Sees plain (.elem n as kids) t ∧ SeesL plain l post
end

theorem seesL_leaves (plain : Bool) (pre : List XTree) (hp : ∀ p ∈ pre, isLeafT p = true) :
    ∀ (l : List Node) (ts : List XTree), SeesL plain l ts → SeesL plain l (pre ++ ts)
  | [], ts, h => by
    simp only [SeesL] at h ⊢
    intro t ht
    rcases List.mem_append.1 ht with ht | ht
    · exact hp t ht
    · exact h t ht
  | .chars _ :: l, ts, h => by
    simp only [SeesL] at h ⊢
    exact seesL_leaves plain pre hp l ts h
  | .raw _ _ :: l, ts, h => by
    simp only [SeesL] at h ⊢
    exact seesL_leaves plain pre hp l ts h
  | .elem n as kids :: l, ts, h => by
    simp only [SeesL] at h ⊢
    obtain ⟨p, t, post, rfl, h1, h2, h3⟩ := h
    refine ⟨pre ++ p, t, post, by simp, ?_, h2, h3⟩
    intro q hq
    rcases List.mem_append.1 hq with hq | hq
    · exact hp q hq
    · exact h1 q hq

theorem seesL_append (plain : Bool) : ∀ (l l' : List Node) (ts ts' : List XTree), SeesL plain l ts → SeesL plain l' ts' →
    SeesL plain (l ++ l') (ts ++ ts')
  | [], l', ts, ts', h, h' => by
    simp only [SeesL] at h
    exact seesL_leaves plain ts h l' ts' h'
  | .chars _ :: l, l', ts, ts', h, h' => by
    simp only [SeesL, List.cons_append] at h ⊢
    exact seesL_append plain l l' ts ts' h h'
  | .raw _ _ :: l, l', ts, ts', h, h' => by
    simp only [SeesL, List.cons_append] at h ⊢
    exact seesL_append plain l l' ts ts' h h'
  | .elem n as kids :: l, l', ts, ts', h, h' => by
    simp only [SeesL, List.cons_append] at h ⊢
    obtain ⟨p, t, post, rfl, h1, h2, h3⟩ := h
    exact ⟨p, t, post ++ ts', by simp, h1, h2, seesL_append plain l l' post ts' h3 h'⟩

/-- What can be seen in two parts. -/
theorem seesL_split (plain : Bool) : ∀ (l l' : List Node) (ts : List XTree), SeesL plain (l ++ l') ts →
    ∃ t1 t2, ts = t1 ++ t2 ∧ SeesL plain l t1 ∧ SeesL plain l' t2
  | [], l', ts, h => ⟨[], ts, rfl, by simp [SeesL], h⟩
  | .chars _ :: l, l', ts, h => by
    simp only [SeesL, List.cons_append] at h ⊢
    exact seesL_split plain l l' ts h
  | .raw _ _ :: l, l', ts, h => by
    simp only [SeesL, List.cons_append] at h ⊢
    exact seesL_split plain l l' ts h
  | .elem n as kids :: l, l', ts, h => by
    simp only [SeesL, List.cons_append] at h ⊢
    obtain ⟨p, t, post, rfl, h1, h2, h3⟩ := h
    obtain ⟨t1, t2, rfl, h4, h5⟩ := seesL_split plain l l' post h3
    exact ⟨p ++ t :: t1, t2, by simp, ⟨p, t, t1, rfl, h1, h2, h4⟩, h5⟩

/-- Tokens as trees. -/
def leaves (ps : List PTok) : List XTree := ps.map fun p => .leaf p.tok p.before p.after

theorem flats_append : ∀ (l r : List XTree), flats (l ++ r) = flats l ++ flats r
  | [], r => by simp [flats]
  | t :: l, r => by simp [flats, flats_append l r]

theorem oks_append : ∀ (l r : List XTree), Oks l → Oks r → Oks (l ++ r)
  | [], r, _, h => by simpa using h
  | t :: l, r, h, h' => by
    simp only [Oks, List.cons_append] at h ⊢
    exact ⟨h.1, oks_append l r h.2 h'⟩

theorem flats_leaves : ∀ ps : List PTok, flats (leaves ps) = ps
  | [] => rfl
  | p :: ps => by
    have ih := flats_leaves ps
    simp only [leaves, List.map_cons, flats, XTree.flat, List.cons_append, List.nil_append] at ih ⊢
    rw [ih]

theorem leaves_isLeaf (ps : List PTok) : ∀ t ∈ leaves ps, isLeafT t = true := by
  intro t ht
  obtain ⟨p, _, rfl⟩ := List.mem_map.1 ht
  rfl

theorem dataOf_app : ∀ (l r : List XTree), dataOf (l ++ r) = dataOf l ++ dataOf r
  | [], r => by simp [dataOf]
  | .leaf _ _ _ :: l, r => by simp [dataOf, dataOf_app l r]
  | .elem .. :: l, r => by simp [dataOf, dataOf_app l r]

/-- Joined text as trees. -/
theorem flush_leaves (acc : Bytes) (ps : List PTok) (h : ps.map (·.tok) = flush acc) :
    Oks (leaves ps) ∧ dataOf (leaves ps) = acc := by
  unfold flush at h
  split at h
  · rename_i ha
    have : ps = [] := List.map_eq_nil_iff.1 h
    subst this
    exact ⟨by simp [leaves, Oks], by rw [ha]; rfl⟩
  · obtain ⟨p, ps', rfl, h1, h2⟩ := List.map_eq_cons_iff.1 h
    have : ps' = [] := List.map_eq_nil_iff.1 h2
    subst this
    simp only [leaves, List.map_cons, List.map_nil, Oks, XTree.Ok, dataOf, h1, tokData, List.append_nil]
    exact ⟨⟨rfl, trivial⟩, trivial⟩

/-- The text at the top level, with the white space for indentation. -/
def topData (i : Ind) : List Node → Bytes
  | [] => []
  | .chars b :: l => b ++ topData i l
  | .elem n as kids :: l => (writeIndent i 1).2 ++ topData (linear i (.elem n as kids)).1 l
  | .raw _ _ :: l => topData i l

theorem writeIndent_cfg (i : Ind) (d : Int) : (writeIndent i d).1.pre = i.pre ∧ (writeIndent i d).1.indent = i.indent := by
  unfold writeIndent indentOut
  split
  · exact ⟨rfl, rfl⟩
  · split
    · split <;> exact ⟨rfl, rfl⟩
    · exact ⟨rfl, rfl⟩

mutual
theorem linear_cfg : ∀ (x : Node) (i : Ind), (linear i x).1.pre = i.pre ∧ (linear i x).1.indent = i.indent
  | .chars b, i => by simp [linear]
  | .raw b ts, i => by simp [linear]
  | .elem n as kids, i => by
    simp only [linear]
    have h1 := writeIndent_cfg i 1
    have h2 := linears_cfg kids (writeIndent i 1).1
    have h3 := writeIndent_cfg (linears (writeIndent i 1).1 kids).1 (-1)
    exact ⟨by rw [h3.1, h2.1, h1.1], by rw [h3.2, h2.2, h1.2]⟩
theorem linears_cfg : ∀ (l : List Node) (i : Ind), (linears i l).1.pre = i.pre ∧ (linears i l).1.indent = i.indent
  | [], i => by simp [linears]
  | x :: l, i => by
    simp only [linears]
    have h1 := linear_cfg x i
    have h2 := linears_cfg l (linear i x).1
    exact ⟨by rw [h2.1, h1.1], by rw [h2.2, h1.2]⟩
end

/-- No indentation. -/
def plainI (i : Ind) : Bool := i.pre == [] && i.indent == []

theorem plainI_eq {i j : Ind} (h : j.pre = i.pre ∧ j.indent = i.indent) : plainI j = plainI i := by
  unfold plainI; rw [h.1, h.2]

theorem writeIndent_plain (i : Ind) (d : Int) (h : plainI i = true) : writeIndent i d = (i, []) := by
  unfold plainI at h
  simp only [Bool.and_eq_true, beq_iff_eq] at h
  unfold writeIndent
  rw [if_pos h]

theorem topData_plain : ∀ (l : List Node) (i : Ind), plainI i = true → topData i l = charsOf l
  | [], i, _ => rfl
  | .chars b :: l, i, h => by simp only [topData, charsOf, topData_plain l i h]
  | .raw _ _ :: l, i, h => by simp only [topData, charsOf, topData_plain l i h]
  | .elem n as kids :: l, i, h => by
    simp only [topData, charsOf, writeIndent_plain i 1 h, List.nil_append]
    exact topData_plain l _ (by rw [plainI_eq (linear_cfg _ _)]; exact h)

theorem topData_noElem : ∀ (l : List Node) (i : Ind), noElem l = true → topData i l = charsOf l ∧ (linears i l).1 = i
  | [], i, _ => by simp [topData, charsOf, linears]
  | .chars b :: l, i, h => by
    simp only [noElem] at h
    have := topData_noElem l i h
    simp only [topData, charsOf, linears, linear, this, and_self]
  | .raw b ts :: l, i, h => by
    simp only [noElem] at h
    have := topData_noElem l i h
    simp only [topData, charsOf, linears, linear, this, and_self]
  | .elem n as kids :: l, i, h => by simp [noElem] at h

theorem topData_append : ∀ (l r : List Node) (i : Ind), topData i (l ++ r) = topData i l ++ topData (linears i l).1 r
  | [], r, i => by simp [topData, linears]
  | .chars b :: l, r, i => by simp [topData, linears, linear, topData_append l r i]
  | .raw b ts :: l, r, i => by simp [topData, linears, linear, topData_append l r i]
  | .elem n as kids :: l, r, i => by
    simp only [List.cons_append, topData, linears, topData_append l r, List.append_assoc]

theorem wsInd_eq {i j : Ind} (h : j.pre = i.pre ∧ j.indent = i.indent) (hi : WsInd i) : WsInd j := by
  unfold WsInd at hi ⊢; rw [h.1, h.2]; exact hi

theorem topData_spread : ∀ (l : List Node) (i : Ind) (q : Bytes), WsInd i → IsWs q → Spread l (topData i l ++ q)
  | [], i, q, _, hq => by simpa [Spread, topData] using hq
  | .chars b :: l, i, q, hi, hq => by
    simp only [Spread, topData]
    exact ⟨_, List.append_assoc .., topData_spread l i q hi hq⟩
  | .raw b ts :: l, i, q, hi, hq => by
    simp only [Spread, topData]
    exact topData_spread l i q hi hq
  | .elem n as kids :: l, i, q, hi, hq => by
    simp only [Spread, topData]
    exact ⟨_, _, (writeIndent_ws i 1 hi).2, List.append_assoc ..,
      topData_spread l _ q (wsInd_eq (linear_cfg _ _) hi) hq⟩

/-! ### Content written as it is -/

theorem marked_append (m1 m2 : Marks) : ∀ bs : List Bytes,
    Marked bs (m1 ++ m2) ↔ Marked bs m1 ∧ Marked (bs.drop (m1.count none)) m2 := by
  induction m1 with
  | nil => intro bs; simp [Marked]
  | cons m m1 ih =>
    intro bs
    cases m with
    | none =>
      simp only [List.cons_append, Marked, List.count_cons_self]
      rw [ih, List.drop_tail]
    | some x =>
      obtain ⟨b, k⟩ := x
      simp only [List.cons_append, Marked]
      rw [ih, List.count_cons_of_ne (by simp), and_assoc]

theorem flushM_count (acc : Bytes) : (flushM acc).count none = (flush acc).length := by
  rw [flushM_eq, List.count_replicate_self]

theorem marksL_count : ∀ (l : List Lin) (acc : Bytes), (marksL acc l).count none = (mergeL acc l).1.length
  | [], acc => rfl
  | .tok t :: l, acc => by
    simp only [marksL, mergeL, List.count_append, List.count_cons_self, flushM_count, marksL_count l, List.length_append,
      List.length_cons]
  | .chars b :: l, acc => by simp only [marksL, mergeL, marksL_count l]
  | .inner b ts :: l, acc => by
    simp only [marksL, mergeL, List.count_append, flushM_count, marksL_count l, List.length_append]
    rw [List.count_cons_of_ne (by simp), List.count_replicate_self]

/-- Each token begins where the one before ends. -/
def Adj (ps : List PTok) : Prop := ∀ l1 p q l2, ps = l1 ++ p :: q :: l2 → p.after = q.before

theorem adj_left {a b : List PTok} (h : Adj (a ++ b)) : Adj a := by
  intro l1 p q l2 e
  exact h l1 p q (l2 ++ b) (by rw [e]; simp)

theorem adj_right {a b : List PTok} (h : Adj (a ++ b)) : Adj b := by
  intro l1 p q l2 e
  exact h (a ++ l1) p q l2 (by rw [e]; simp)

/-- Where the content of an element begins. -/
theorem adj_next {s e : PTok} {mid : List PTok} (h : Adj (s :: (mid ++ [e]))) (tl : List PTok) :
    startB ((mid ++ e :: tl).map (·.before)) = s.after := by
  cases mid with
  | nil => exact (h [] s e [] rfl).symm
  | cons m mid => exact (h [] s m (mid ++ [e]) rfl).symm

theorem bal_skip : ∀ (ps : List PTok) (d d' : Nat) (r : List PTok), bal d (ps.map (·.tok)) = some d' →
    skip d (ps ++ r) = skip d' r
  | [], d, d', r, h => by
    injection h with h
    subst h
    rfl
  | ⟨tok, b, a⟩ :: ps, d, d', r, h => by
    cases tok with
    | startElement n as =>
      simp only [List.map_cons, bal] at h
      simp only [List.cons_append, skip]
      exact bal_skip ps _ _ _ h
    | endElement n =>
      cases d with
      | zero => simp [bal] at h
      | succ d =>
        simp only [List.map_cons, bal] at h
        simp only [List.cons_append, skip]
        exact bal_skip ps _ _ _ h
    | _ =>
      simp only [List.map_cons, bal] at h
      simp only [List.cons_append, skip]
      exact bal_skip ps _ _ _ h

/-- The tokens of balanced content form trees. -/
theorem bal_trees (ps : List PTok) (h : bal 0 (ps.map (·.tok)) = some 0) : ∃ ts, Oks ts ∧ flats ts = ps := by
  have hs : skip 0 (ps ++ [⟨.endElement ⟨[], []⟩, [], []⟩]) = some [] := by
    rw [bal_skip ps 0 0 _ h]; rfl
  obtain ⟨kids, en, eb, ea, h1, h2⟩ := skip_trees _ _ _ (Nat.lt_succ_self _) hs
  obtain ⟨h3, _⟩ := List.append_inj' h2 rfl
  exact ⟨kids, h1, h3.symm⟩

theorem nesting_bal : ∀ (ts : List Token) (st st' : List Name), nesting st ts = some st' → bal st.length ts = some st'.length
  | [], st, st', h => by
    injection h with h
    subst h
    rfl
  | t :: ts, st, st', h => by
    cases t with
    | startElement n as =>
      simp only [nesting] at h
      simp only [bal]
      exact nesting_bal ts _ _ h
    | endElement n =>
      cases st with
      | nil => simp [nesting] at h
      | cons o st =>
        simp only [nesting] at h
        split at h
        · simp only [List.length_cons, bal]
          exact nesting_bal ts _ _ h
        · cases h
    | _ =>
      simp only [nesting] at h
      simp only [bal]
      exact nesting_bal ts _ _ h

theorem specRun_bal : ∀ (ts ts' : List Token) (os os' : List Open) (d : Nat), specRun os ts = some (ts', os') →
    bal d ts' = bal d ts
  | [], ts', os, os', d, h => by
    injection h with h; injection h with h _
    subst h
    rfl
  | t :: ts, ts', os, os', d, h => by
    simp only [specRun] at h
    split at h
    · cases h
    rename_i t1 os1 ht
    split at h
    · cases h
    rename_i ts1 os2 hr
    injection h with h; injection h with h _
    subst h
    have ih := fun d => specRun_bal ts ts1 os1 _ d hr
    cases t with
    | startElement n as =>
      simp only [specToken] at ht
      split at ht
      · cases ht
      · injection ht with ht; injection ht with ht _
        subst ht
        simp only [bal, ih]
    | endElement n =>
      cases os with
      | nil => simp [specToken] at ht
      | cons o os =>
        simp only [specToken] at ht
        split at ht
        · injection ht with ht; injection ht with ht _
          subst ht
          cases d <;> simp only [bal, ih]
        · cases ht
    | _ =>
      injection ht with ht; injection ht with ht _
      subst ht
      simp only [bal, ih]

mutual
theorem resolve_bal : ∀ (i : Item) (env : Env) (x : Node), ItemOk i → resolve env i = some x → NodeBal x
  | .text b, env, x, _, h => by simp only [resolve] at h; injection h with h; subst h; simp [NodeBal]
  | .str b, env, x, _, h => by simp only [resolve] at h; injection h with h; subst h; simp [NodeBal]
  | .raw b, env, x, hok, _ => by simp [ItemOk] at hok
  | .elem n attrs kids, env, x, hok, h => by
    simp only [ItemOk] at hok
    simp only [resolve] at h
    split at h
    · cases h
    split at h
    · cases h
    split at h
    · cases h
    cases hrk : rawKid kids with
    | some b =>
      rw [hrk] at h
      dsimp only at h
      split at h
      · cases h
      rename_i ts os' hts
      injection h with h
      subst h
      have hkk := rawKid_some hrk
      subst hkk
      have hb : Chunk b := by
        rcases hok.2.2 with ⟨b', hb1, hb2⟩ | hk
        · injection hb1 with hb1 _; injection hb1 with hb1; rw [hb1]; exact hb2
        · simp [ItemsOk, ItemOk] at hk
      simp only [NodeBal]
      refine Or.inl ⟨b, ts, rfl, ?_⟩
      rw [specRun_bal _ _ _ _ 0 hts]
      exact nesting_bal _ [] [] hb.nest
    | none =>
      rw [hrk] at h
      dsimp only at h
      split at h
      · cases h
      rename_i ks h4
      injection h with h
      subst h
      have hk : ItemsOk kids := by
        rcases hok.2.2 with ⟨b, hb, _⟩ | hk
        · rw [hb] at hrk; cases hrk
        · exact hk
      simp only [NodeBal]
      exact Or.inr (resolves_bal kids _ ks hk h4)
theorem resolves_bal : ∀ (l : List Item) (env : Env) (xs : List Node), ItemsOk l → resolves env l = some xs → NodesBal xs
  | [], env, xs, _, h => by simp only [resolves] at h; injection h with h; subst h; simp [NodesBal]
  | i :: l, env, xs, hok, h => by
    simp only [ItemsOk] at hok
    simp only [resolves] at h
    split at h
    · cases h
    rename_i x h1
    split at h
    · cases h
    rename_i ys h2
    injection h with h
    subst h
    simp only [NodesBal]
    exact ⟨resolve_bal i env x hok.1 h1, resolves_bal l env ys hok.2 h2⟩
end

/-- Content written as it is is not mixed with other content. -/
theorem rawOf_bal {kids : List Node} (h : NodesBal kids) : rawOf kids = none := by
  unfold rawOf
  split
  · simp [NodesBal, NodeBal] at h
  · rfl

mutual
theorem linear_trees : ∀ (x : Node) (i : Ind) (acc : Bytes) (ps tl : List PTok), WsInd i → NodeBal x →
    ps.map (·.tok) = (mergeL acc (linear i x).2).1 → Adj ps →
    Marked ((ps ++ tl).map (·.before)) (marksL acc (linear i x).2) → ∃ ts, Oks ts ∧ flats ts = ps ∧ SeesL (plainI i) [x] ts ∧
      dataOf ts ++ (mergeL acc (linear i x).2).2 = acc ++ topData i [x]
  | .chars b, i, acc, ps, tl, _, _, h, _, _ => by
    simp only [linear, mergeL, List.map_eq_nil_iff] at h ⊢
    subst h
    exact ⟨[], by simp [Oks], rfl, by simp [SeesL], by simp [dataOf, topData]⟩
  | .raw b ts, i, acc, ps, tl, _, hbal, h, _, _ => by simp [NodeBal] at hbal
  | .elem n as kids, i, acc, ps, tl, hw, hbal, h, hadj, hm => by
    simp only [linear, mergeL, mergeL_append, List.nil_append] at h ⊢
    obtain ⟨p1, pr, rfl, h1, h⟩ := List.map_eq_append_iff.1 h
    obtain ⟨ps, pr, rfl, hs, h⟩ := List.map_eq_cons_iff.1 h
    obtain ⟨p2, pr, rfl, h2, h⟩ := List.map_eq_append_iff.1 h
    obtain ⟨p3, pr, rfl, h3, h⟩ := List.map_eq_append_iff.1 h
    obtain ⟨pe, pr, rfl, he, h⟩ := List.map_eq_cons_iff.1 h
    rw [List.map_eq_nil_iff] at h
    subst h
    obtain ⟨o1, d1⟩ := flush_leaves _ p1 h1
    obtain ⟨o3, d3⟩ := flush_leaves _ p3 h3
    have hadj' := adj_right hadj
    -- the marks inside the element
    have hm' : Marked ((p2 ++ (p3 ++ pe :: tl)).map (·.before)) (marksL [] (linears (writeIndent i 1).1 kids).2) := by
      simp only [linear, marksL] at hm
      rw [marked_append, flushM_count] at hm
      have hlen : (flush (acc ++ (writeIndent i 1).2)).length = p1.length := by rw [← h1]; simp
      have hm := hm.2
      rw [hlen] at hm
      simp only [Marked] at hm
      rw [marksL_append, marked_append] at hm
      have hm := hm.1
      simpa using hm
    have finish : ∀ t2, Oks t2 → flats t2 = p2 →
        (Sees (plainI i) (.elem n as kids) (.elem n as ps.before ps.after (t2 ++ leaves p3) n pe.before pe.after)) →
        ∃ ts, Oks ts ∧ flats ts = p1 ++ ps :: (p2 ++ (p3 ++ [pe])) ∧ SeesL (plainI i) [.elem n as kids] ts ∧
          dataOf ts ++ (mergeL [] []).2 = acc ++ topData i [.elem n as kids] := by
      intro t2 k1 k2 k3
      obtain ⟨stok, sb, sa⟩ := ps
      obtain ⟨etok, eb, ea⟩ := pe
      dsimp only at hs he k3
      subst hs; subst he
      refine ⟨leaves p1 ++ [.elem n as sb sa (t2 ++ leaves p3) n eb ea], ?_, ?_, ?_, ?_⟩
      · refine oks_append _ _ o1 ⟨?_, trivial⟩
        simp only [XTree.Ok]
        exact oks_append _ _ k1 o3
      · simp only [flats_append, flats_leaves, flats, XTree.flat, k2]
        simp
      · simp only [SeesL]
        exact ⟨leaves p1, _, [], rfl, leaves_isLeaf p1, k3, by simp⟩
      · rw [dataOf_app, d1]
        simp [dataOf, topData, mergeL]
    simp only [NodeBal] at hbal
    rcases hbal with ⟨b, ts, rfl, hb⟩ | hbal
    · -- content written as it is
      simp only [linears, linear, mergeL, flush, List.append_nil, if_pos, List.nil_append] at h2 h3
      rw [indent_end] at h3
      have hp3 : p3 = [] := by simpa using h3
      subst hp3
      obtain ⟨t2, k1, k2⟩ := bal_trees p2 (by rw [h2]; exact hb)
      refine finish t2 k1 k2 ?_
      simp only [Sees, true_and, rawOf, Option.some.injEq]
      refine ⟨?_, fun h => by cases h⟩
      rintro b' rfl
      simp only [linears, linear, marksL, flushM, if_pos, List.nil_append, List.append_nil] at hm'
      rw [Marked] at hm'
      have hm' := hm'.1
      rw [adj_next (by simpa using hadj')] at hm'
      have hlen : ts.length = p2.length := by rw [← h2]; simp
      rw [hm', hlen]
      congr 1
      simp [startB]
    · obtain ⟨t2, k1, k2, k3, k4⟩ := linears_trees kids (writeIndent i 1).1 [] p2 (p3 ++ pe :: tl) (writeIndent_ws i 1 hw).1
        hbal h2 (adj_left (adj_right (a := [ps]) hadj')) hm'
      rw [plainI_eq (writeIndent_cfg i 1)] at k3
      refine finish t2 k1 k2 ?_
      simp only [Sees, true_and]
      refine ⟨fun b hb => by rw [rawOf_bal hbal] at hb; (cases hb), fun _ => ⟨?_, ?_, ?_⟩⟩
      · have := seesL_append (plainI i) kids [] t2 (leaves p3) k3 (by simp only [SeesL]; exact leaves_isLeaf p3)
        rwa [List.append_nil] at this
      · intro hp
        rw [dataOf_app, d3, ← List.append_assoc, k4, List.nil_append]
        rcases hp with hp | hp
        · rw [writeIndent_plain (linears _ kids).1 (-1) (by
            rw [plainI_eq (linears_cfg _ _), plainI_eq (writeIndent_cfg _ _)]; exact hp)]
          rw [List.append_nil, topData_plain _ _ (by rw [plainI_eq (writeIndent_cfg _ _)]; exact hp)]
        · obtain ⟨q1, q2⟩ := topData_noElem kids (writeIndent i 1).1 hp
          rw [q1, q2, indent_end, List.append_nil]
      · rw [dataOf_app, d3, ← List.append_assoc, k4, List.nil_append]
        exact topData_spread kids _ _ (writeIndent_ws i 1 hw).1
          (writeIndent_ws _ _ (wsInd_eq (linears_cfg _ _) (writeIndent_ws i 1 hw).1)).2
theorem linears_trees : ∀ (l : List Node) (i : Ind) (acc : Bytes) (ps tl : List PTok), WsInd i → NodesBal l →
    ps.map (·.tok) = (mergeL acc (linears i l).2).1 → Adj ps →
    Marked ((ps ++ tl).map (·.before)) (marksL acc (linears i l).2) → ∃ ts, Oks ts ∧ flats ts = ps ∧ SeesL (plainI i) l ts ∧
      dataOf ts ++ (mergeL acc (linears i l).2).2 = acc ++ topData i l
  | [], i, acc, ps, tl, _, _, h, _, _ => by
    simp only [linears, mergeL, List.map_eq_nil_iff] at h ⊢
    subst h
    exact ⟨[], by simp [Oks], rfl, by simp [SeesL], by simp [dataOf, topData]⟩
  | x :: l, i, acc, ps, tl, hw, hbal, h, hadj, hm => by
    simp only [linears, mergeL_append] at h ⊢
    simp only [linears, marksL_append, marked_append, marksL_count] at hm
    simp only [NodesBal] at hbal
    obtain ⟨p1, p2, rfl, h1, h2⟩ := List.map_eq_append_iff.1 h
    have hlen : (mergeL acc (linear i x).2).1.length = p1.length := by rw [← h1]; simp
    rw [hlen] at hm
    obtain ⟨t1, a1, a2, a3, a4⟩ := linear_trees x i acc p1 (p2 ++ tl) hw hbal.1 h1 (adj_left hadj)
      (by rw [← List.append_assoc]; exact hm.1)
    obtain ⟨t2, b1, b2, b3, b4⟩ := linears_trees l (linear i x).1 _ p2 tl (wsInd_eq (linear_cfg x i) hw) hbal.2 h2 (adj_right hadj)
      (by have := hm.2; simpa using this)
    rw [plainI_eq (linear_cfg x i)] at b3
    refine ⟨t1 ++ t2, oks_append _ _ a1 b1, by rw [flats_append, a2, b2], seesL_append _ [x] l _ _ a3 b3, ?_⟩
    rw [dataOf_app, List.append_assoc, b4, ← List.append_assoc, a4, List.append_assoc]
    congr 1
    have := topData_append [x] l i
    simp only [List.cons_append, List.nil_append, linears] at this
    rw [this]
end

theorem leafT_notStart : ∀ ts : List XTree, Oks ts → (∀ t ∈ ts, isLeafT t = true) → ∀ p ∈ flats ts, notStart p = true
  | [], _, _, p, hp => by simp [flats] at hp
  | .leaf t b a :: ts, h, hl, p, hp => by
    simp only [Oks, XTree.Ok] at h
    simp only [flats, XTree.flat, List.cons_append, List.nil_append] at hp
    rcases List.mem_cons.1 hp with rfl | hp
    · cases t <;> simp_all [Token.isLeaf, notStart]
    · exact leafT_notStart ts h.2 (fun t ht => hl t (by simp [ht])) p hp
  | .elem .. :: ts, _, hl, p, hp => by
    have := hl _ (List.mem_cons_self ..)
    cases this

theorem oks_split : ∀ (l r : List XTree), Oks (l ++ r) → Oks l ∧ Oks r
  | [], r, h => ⟨by simp [Oks], by simpa using h⟩
  | t :: l, r, h => by
    simp only [Oks, List.cons_append] at h ⊢
    have := oks_split l r h.2
    exact ⟨⟨h.1, this.1⟩, this.2⟩

/-- A document whose tokens are those of a printed element, possibly after others that are not tags, is read as a tree that
shows that element. -/
theorem sees_doc (pre indent : Bytes) (hpre : IsWs pre) (hind : IsWs indent) (n : Name) (attrs : List Attr) (kids : List Node) (doc : Bytes) (hd : List PTok)
    (rest : List PTok) (hh : ∀ p ∈ hd, notStart p = true) (hdoc : docTokens doc = hd ++ rest)
    (hr : rest.map (·.tok) = nodeTokens pre indent (.elem n attrs kids)) (hb : NodeBal (.elem n attrs kids)) (ha : Adj rest)
    (hm : Marked (rest.map (·.before)) (marksL [] (linear (Printer.new pre indent).ind (.elem n attrs kids)).2)) :
    ∃ t, IsDoc doc t ∧ Sees (plainI (Printer.new pre indent).ind) (.elem n attrs kids) t := by
  obtain ⟨ts, h1, h2, h3, h4⟩ := linear_trees (.elem n attrs kids) (Printer.new pre indent).ind [] rest [] ⟨hpre, hind⟩ hb hr ha
    (by rw [List.append_nil]; exact hm)
  simp only [SeesL] at h3
  obtain ⟨p, t, post, rfl, k1, k2, k3⟩ := h3
  obtain ⟨o1, o2⟩ := oks_split _ _ h1
  simp only [Oks] at o2
  refine ⟨t, ⟨o2.1, ?_, hd ++ flats p, flats post, ?_, ?_⟩, k2⟩
  · cases t with
    | leaf _ _ _ => simp [Sees] at k2
    | elem n as b a ks en eb ea => exact ⟨n, as, b, a, ks, en, eb, ea, rfl⟩
  · intro q hq
    rcases List.mem_append.1 hq with hq | hq
    · exact hh q hq
    · exact leafT_notStart p o1 k1 q hq
  · rw [hdoc, ← h2, flats_append]
    simp [flats]

end Verif.Bind

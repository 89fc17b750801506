import Verif.XmlToken
import Verif.KRfl

/-!
C75: the decoder with `Strict = false` and `AutoClose`: the tokens that `Token` returns are properly nested.
-/
namespace Verif.Loose

open Verif.Xml

/-! ### Model -/

/-- The settings of a decoder (`/repo/xml/xml.go` 152-191): `Strict`, `AutoClose`; `fold` stands for `strings.EqualFold` and is left open. -/
structure Cfg where
  strict : Bool
  auto : List Bytes
  fold : Bytes → Bytes → Bool

/-- A decoder that has not met an error.  `inp` are the tokens in the input, with a mark for empty-element tags; `fin` is the error after them;
`next` is `nextToken`, `close` is `toClose` if `needClose` is set. -/
structure L where
  stk : List Stk
  ns : NsMap
  inp : List (Token × Bool)
  fin : XErr
  next : Option Token
  close : Option Name

/-- `rawToken` (`/repo/xml/xml.go` 587-601, 883-890): what the input contains is given. -/
def raw (s : L) : Except XErr (Token × L) :=
  match s.close with
  | some n => .ok (.endElement n, { s with close := none })
  | none =>
    match s.inp with
    | [] => .error s.fin
    | (.startElement n as, true) :: r => .ok (.startElement n as, { s with inp := r, close := some n })
    | (t, _) :: r => .ok (t, { s with inp := r })

/-- `autoClose` (`/repo/xml/xml.go` 557-573). -/
def autoClose (c : Cfg) (stk : List Stk) (t : Token) : Option Name :=
  match stk with
  | .start m :: _ =>
    if c.auto.any (fun a => c.fold a m.loc) then
      match t with
      | .endElement n => if c.fold n.loc m.loc then none else some m
      | _ => some m
    else none
  | _ => none

/-- `popElement` (`/repo/xml/xml.go` 515-553). -/
def popElement (c : Cfg) (s : L) (n : Name) : Except XErr (Token × L) :=
  match s.stk with
  | .start m :: stk =>
    if m.loc ≠ n.loc then
      if c.strict then .error (.syntaxError "element closed by another")
      else .ok (.endElement m, { s with stk := stk, close := some n })
    else if m.space ≠ n.space then .error (.syntaxError "element closed by the same in another namespace")
    else .ok (.endElement (translate s.ns n true), { s with ns := (popNs s.ns stk).1, stk := (popNs s.ns stk).2 })
  | _ => .error (.syntaxError "unexpected end element")

/-- The second half of `Token` (`/repo/xml/xml.go` 325-368). -/
def cook (c : Cfg) (s : L) (t : Token) : Except XErr (Token × L) :=
  match t with
  | .startElement n as =>
    match pushNs as s.ns s.stk with
    | .error e => .error e
    | .ok (ns, stk) =>
      .ok (.startElement (translate ns n true) (as.map fun a => ⟨translate ns a.name false, a.value⟩), { s with ns := ns, stk := .start n :: stk })
  | .endElement n => popElement c s n
  | t => .ok (t, s)

/-- `Token` (`/repo/xml/xml.go` 300-369). -/
def token (c : Cfg) (s : L) : Except XErr (Token × L) :=
  match s.next with
  | some t => after c { s with next := none } t
  | none =>
    match raw s with
    | .error e => .error (if e = .eof ∧ s.stk ≠ [] then unexpectedEOF else e)
    | .ok (t, s') => after c s' t
where
  /-- `autoClose` and the rest (`/repo/xml/xml.go` 320-368). -/
  after (c : Cfg) (s : L) (t : Token) : Except XErr (Token × L) :=
    if c.strict then cook c s t
    else
      match autoClose c s.stk t with
      | some m => cook c { s with next := some t } (.endElement m)
      | none => cook c s t

/-- A decoder at the start of an input. -/
def new (inp : List (Token × Bool)) (fin : XErr) : L := ⟨[], fun _ => none, inp, fin, none, none⟩

/-- Calls of `Token` that return the tokens without an error. -/
inductive Run (c : Cfg) : L → List Token → L → Prop where
  | nil (s) : Run c s [] s
  | cons {s t s' l s''} : token c s = .ok (t, s') → Run c s' l s'' → Run c s (t :: l) s''

/-! ### Specification -/

/-- A token without what is not needed to say how elements nest. -/
inductive Sk where
  | op (loc : Bytes)
  | cl (loc : Bytes)
  | other (t : Token)
  deriving DecidableEq

/-- Tokens seen as tags. -/
def sk : Token → Sk
  | .startElement n _ => .op n.loc
  | .endElement n => .cl n.loc
  | t => .other t

/-- The open elements after some tags; every end tag must have the name of the innermost one. -/
def nest : List Bytes → List Sk → Option (List Bytes)
  | st, [] => some st
  | st, .op l :: r => nest (l :: st) r
  | l' :: st, .cl l :: r => if l' = l then nest st r else none
  | [], .cl _ :: _ => none
  | st, .other _ :: r => nest st r

/-- `out` is `a` with end tags added. -/
inductive Ins : List Sk → List Sk → Prop where
  | nil : Ins [] []
  | keep (x) {a out} : Ins a out → Ins (x :: a) (x :: out)
  | add (l) {a out} : Ins a out → Ins a (.cl l :: out)

/-- The tags in the input. -/
def tags : List (Token × Bool) → List Token
  | [] => []
  | (.startElement n as, true) :: r => .startElement n as :: .endElement n :: tags r
  | (t, _) :: r => t :: tags r

/-- The tokens that have not been processed. -/
def ahead (s : L) : List Token := s.next.toList ++ (s.close.toList.map .endElement ++ tags s.inp)

/-- Is the element closed by the next token whatever it is? -/
def isAuto (c : Cfg) (m : Name) : Bool := c.auto.any fun a => c.fold a m.loc

/-- What a decoder that is not strict should return for input without namespaces: `op` are the open elements.  An end tag closes the innermost element of
its name and everything in it; any other token closes the innermost elements as long as they are in `AutoClose`. -/
def repair (c : Cfg) (fin : XErr) : List Name → List Token → List Token × XErr
  | op, [] => ([], if fin = .eof ∧ op ≠ [] then unexpectedEOF else fin)
  | op, .endElement n :: r =>
    if n ∈ op then
      let x := repair c fin (op.dropWhile (fun m => decide (m ≠ n))).tail r
      ((op.takeWhile fun m => decide (m ≠ n)).map .endElement ++ .endElement n :: x.1, x.2)
    else (op.map .endElement, .syntaxError "unexpected end element")
  | op, .startElement n as :: r =>
    let x := repair c fin (n :: op.dropWhile (isAuto c)) r
    ((op.takeWhile (isAuto c)).map .endElement ++ .startElement n as :: x.1, x.2)
  | op, t :: r =>
    let x := repair c fin (op.dropWhile (isAuto c)) r
    ((op.takeWhile (isAuto c)).map .endElement ++ t :: x.1, x.2)

/-- No namespaces: no element has a prefix, no attribute is a declaration. -/
def Plain : Token → Prop
  | .startElement n as => n.space = [] ∧ ∀ a ∈ as, a.name.space = [] ∧ a.name.loc ≠ xmlnsPrefix
  | .endElement n => n.space = []
  | _ => True

/-! ### Lemmas -/

/-- The names of the open elements. -/
def locs : List Stk → List Bytes
  | [] => []
  | .start n :: l => n.loc :: locs l
  | .ns _ _ :: l => locs l

theorem locs_pushNs {as : List Attr} {ns ns' : NsMap} {stk stk' : List Stk} (h : pushNs as ns stk = .ok (ns', stk')) : locs stk' = locs stk := by
  induction as generalizing ns stk with
  | nil =>
    simp only [pushNs, Except.ok.injEq, Prod.mk.injEq] at h
    rw [h.2]
  | cons a as ih =>
    unfold pushNs at h
    split at h
    · split at h
      · cases h
      · split at h
        · cases h
        · have := ih h; exact this
    · split at h
      · have := ih h; exact this
      · have := ih h; exact this

theorem locs_popNs (ns : NsMap) (stk : List Stk) : locs (popNs ns stk).2 = locs stk := by
  induction stk generalizing ns with
  | nil => rfl
  | cons e stk ih =>
    cases e with
    | start n => rfl
    | ns k o => exact ih _

theorem translate_loc (ns : NsMap) (n : Name) (b : Bool) : (translate ns n b).loc = n.loc := by
  unfold translate
  split
  · rfl
  · split
    · rfl
    · split
      · split <;> rfl
      · split
        · rfl
        · split <;> rfl

/-- The end tag is not forgotten: `toClose` is not overwritten. -/
def Good (s : L) : Prop := ∀ n, s.next = some (.endElement n) → s.close = none

/-- One step on the tokens ahead. -/
structure Step (s : L) (t : Token) (s' : L) : Prop where
  good : Good s'
  fin : s'.fin = s.fin
  move : (∃ u, ahead s = u :: ahead s' ∧ sk t = sk u) ∨ (∃ l, sk t = .cl l ∧ ahead s' = ahead s)
  nest : nest (locs s.stk) [sk t] = some (locs s'.stk)

theorem cook_step {c : Cfg} {s s' : L} {u t : Token} (hn : s.next = none) (hu : ∀ n, u = .endElement n → s.close = none)
    (h : cook c s u = .ok (t, s')) : Good s' ∧ s'.fin = s.fin ∧
      ((ahead s' = ahead s ∧ sk t = sk u) ∨ (∃ l, sk t = .cl l ∧ ahead s' = u :: ahead s)) ∧ nest (locs s.stk) [sk t] = some (locs s'.stk) := by
  unfold cook at h
  cases u with
  | startElement n as =>
    dsimp only at h
    cases hp : pushNs as s.ns s.stk with
    | error e => rw [hp] at h; cases h
    | ok p =>
      obtain ⟨ns, stk⟩ := p
      rw [hp] at h
      injection h with h
      injection h with h1 h2
      subst h1 h2
      refine ⟨by intro m hm; simp [hn] at hm, rfl, Or.inl ⟨rfl, ?_⟩, ?_⟩
      · simp only [sk, translate_loc]
      · simp only [sk, translate_loc, Loose.nest, locs, locs_pushNs hp]
  | endElement n =>
    dsimp only [popElement] at h
    split at h
    · rename_i m stk hs
      split at h
      · split at h
        · cases h
        · injection h with h
          injection h with h1 h2
          subst h1 h2
          refine ⟨by intro m hm; simp [hn] at hm, rfl, Or.inr ⟨m.loc, rfl, ?_⟩, ?_⟩
          · simp [ahead, hn, hu n rfl]
          · simp [sk, hs, locs, Loose.nest]
      · rename_i q
        split at h
        · cases h
        · injection h with h
          injection h with h1 h2
          subst h1 h2
          refine ⟨by intro m hm; simp [hn] at hm, rfl, Or.inl ⟨rfl, ?_⟩, ?_⟩
          · simp only [sk, translate_loc]
          · simp only [ne_eq, Decidable.not_not] at q
            simp [sk, translate_loc, hs, locs, Loose.nest, locs_popNs, q]
    · cases h
  | _ =>
    injection h with h
    injection h with h1 h2
    subst h1 h2
    exact ⟨by intro m hm; simp [hn] at hm, rfl, Or.inl ⟨rfl, rfl⟩, by simp [sk, Loose.nest]⟩

theorem autoClose_some {c : Cfg} {stk : List Stk} {t : Token} {m : Name} (h : autoClose c stk t = some m) : ∃ r, stk = .start m :: r := by
  unfold autoClose at h
  split at h
  · split at h
    · split at h
      · split at h
        · cases h
        · injection h with h; subst h; exact ⟨_, rfl⟩
      · injection h with h; subst h; exact ⟨_, rfl⟩
    · cases h
  · cases h

theorem popElement_top (c : Cfg) (s : L) (m : Name) (r : List Stk) (h : s.stk = .start m :: r) :
    popElement c s m = .ok (.endElement (translate s.ns m true), { s with ns := (popNs s.ns r).1, stk := (popNs s.ns r).2 }) := by
  unfold popElement
  rw [h]
  simp

theorem after_step {c : Cfg} {s s' : L} {u t : Token} (hn : s.next = none) (hu : ∀ n, u = .endElement n → s.close = none)
    (h : token.after c s u = .ok (t, s')) : Good s' ∧ s'.fin = s.fin ∧
      ((ahead s' = ahead s ∧ sk t = sk u) ∨ (∃ l, sk t = .cl l ∧ ahead s' = u :: ahead s)) ∧ nest (locs s.stk) [sk t] = some (locs s'.stk) := by
  unfold token.after at h
  split at h
  · exact cook_step hn hu h
  · split at h
    · rename_i m hm
      obtain ⟨r, hr⟩ := autoClose_some hm
      unfold cook at h
      dsimp only at h
      rw [popElement_top c { s with next := some u } m r hr] at h
      injection h with h
      injection h with h1 h2
      subst h1 h2
      refine ⟨?_, rfl, Or.inr ⟨m.loc, by simp [sk, translate_loc], by simp [ahead, hn]⟩, ?_⟩
      · intro n e
        injection e with e
        exact hu n e
      · simp [sk, translate_loc, hr, locs, Loose.nest, locs_popNs]
    · exact cook_step hn hu h

theorem raw_step {s s' : L} {u : Token} (hn : s.next = none) (h : raw s = .ok (u, s')) : s'.next = none ∧ (∀ n, u = .endElement n → s'.close = none) ∧
    s'.fin = s.fin ∧ ahead s = u :: ahead s' ∧ s'.stk = s.stk ∧ s'.ns = s.ns := by
  unfold raw at h
  split at h
  · rename_i n hc
    injection h with h
    injection h with h1 h2
    subst h1 h2
    exact ⟨hn, fun _ _ => rfl, rfl, by simp [ahead, hn, hc], rfl, rfl⟩
  · rename_i hc
    split at h
    · cases h
    · rename_i hi
      injection h with h
      injection h with h1 h2
      subst h1 h2
      exact ⟨hn, by simp, rfl, by simp [ahead, hn, hc, hi, tags], rfl, rfl⟩
    · rename_i t b r hne hi
      injection h with h
      injection h with h1 h2
      subst h1 h2
      refine ⟨hn, fun _ _ => hc, rfl, ?_, rfl, rfl⟩
      have : tags ((t, b) :: r) = t :: tags r := by
        rw [tags]
        exact hne
      simp [ahead, hn, hc, hi, this]

theorem token_step {c : Cfg} {s s' : L} {t : Token} (hg : Good s) (h : token c s = .ok (t, s')) : Step s t s' := by
  unfold token at h
  split at h
  · rename_i u hn
    obtain ⟨a1, a2, a3, a4⟩ := after_step (s := { s with next := none }) rfl (fun n e => hg n (by rw [hn, e])) h
    have ha : ahead s = u :: ahead { s with next := none } := by simp [ahead, hn]
    refine ⟨a1, a2, ?_, a4⟩
    rcases a3 with ⟨e1, e2⟩ | ⟨l, e1, e2⟩
    · exact Or.inl ⟨u, by rw [ha, e1], e2⟩
    · exact Or.inr ⟨l, e1, by rw [ha, e2]⟩
  · rename_i hn
    split at h
    · cases h
    · rename_i u s1 hr
      obtain ⟨b1, b2, b3, b4, b5, _⟩ := raw_step hn hr
      obtain ⟨a1, a2, a3, a4⟩ := after_step b1 b2 h
      refine ⟨a1, a2.trans b3, ?_, by rw [← b5]; exact a4⟩
      rcases a3 with ⟨e1, e2⟩ | ⟨l, e1, e2⟩
      · exact Or.inl ⟨u, by rw [b4, e1], e2⟩
      · exact Or.inr ⟨l, e1, by rw [b4, e2]⟩

theorem nest_cons (st st' : List Bytes) (x : Sk) (l : List Sk) (h : nest st [x] = some st') : nest st (x :: l) = nest st' l := by
  cases x with
  | op a => simp only [nest] at h ⊢; injection h with h; rw [h]
  | other t => simp only [nest] at h ⊢; injection h with h; rw [h]
  | cl a =>
    cases st with
    | nil => simp [nest] at h
    | cons b st =>
      simp only [nest] at h ⊢
      by_cases e : b = a
      · rw [if_pos e] at h ⊢; injection h with h; rw [h]
      · rw [if_neg e] at h; cases h

theorem run_step {c : Cfg} {s s' : L} {out : List Token} (h : Run c s out s') (hg : Good s) : Good s' ∧ s'.fin = s.fin ∧
    nest (locs s.stk) (out.map sk) = some (locs s'.stk) ∧ ∃ a, ahead s = a ++ ahead s' ∧ Ins (a.map sk) (out.map sk) := by
  induction h with
  | nil s => exact ⟨hg, rfl, by simp [nest], [], rfl, .nil⟩
  | cons ht _ ih =>
    have st := token_step hg ht
    obtain ⟨i1, i2, i3, a, i4, i5⟩ := ih st.good
    refine ⟨i1, i2.trans st.fin, ?_, ?_⟩
    · rw [List.map_cons, nest_cons _ _ _ _ st.nest, i3]
    · rcases st.move with ⟨u, e1, e2⟩ | ⟨l, e1, e2⟩
      · refine ⟨u :: a, by rw [e1, i4]; rfl, ?_⟩
        rw [List.map_cons, List.map_cons, e2]
        exact .keep _ i5
      · refine ⟨a, by rw [← e2, i4], ?_⟩
        rw [List.map_cons, e1]
        exact .add l i5

theorem nest_count : ∀ (l : List Sk) (st st' : List Bytes), nest st l = some st' →
    l.countP (fun x => match x with | .cl _ => true | _ => false) + st'.length =
      st.length + l.countP (fun x => match x with | .op _ => true | _ => false)
  | [], st, st', h => by
    have : st = st' := by cases st <;> simpa [nest] using h
    simp [this]
  | .op a :: l, st, st', h => by
    simp only [nest] at h
    have := nest_count l _ _ h
    simp only [List.countP_cons, List.length_cons] at this ⊢
    simp at this ⊢
    omega
  | .other t :: l, st, st', h => by
    simp only [nest] at h
    have := nest_count l _ _ h
    simpa [List.countP_cons] using this
  | .cl a :: l, [], st', h => by simp [nest] at h
  | .cl a :: l, b :: st, st', h => by
    simp only [nest] at h
    by_cases e : b = a
    · rw [if_pos e] at h
      have := nest_count l _ _ h
      simp only [List.countP_cons, List.length_cons] at this ⊢
      simp at this ⊢
      omega
    · rw [if_neg e] at h; cases h

theorem ins_count {a out : List Sk} (h : Ins a out) :
    out.length + a.countP (fun x => match x with | .cl _ => true | _ => false) =
      a.length + out.countP (fun x => match x with | .cl _ => true | _ => false) ∧
    out.countP (fun x => match x with | .op _ => true | _ => false) = a.countP (fun x => match x with | .op _ => true | _ => false) ∧
    a.length ≤ out.length := by
  induction h with
  | nil => simp
  | keep x _ ih =>
    simp only [List.countP_cons, List.length_cons]
    omega
  | add l _ ih =>
    simp only [List.countP_cons, List.length_cons]
    simp
    omega

/-! ### Properties -/

theorem new_good (inp : List (Token × Bool)) (fin : XErr) : Good (new inp fin) := by
  intro n h
  cases h

/-- C75, proper nesting: whatever `Strict` and `AutoClose` are, every end element that `Token` returns has the local name of the innermost element that is
open; and what is returned is what is in the input, in its order, with nothing changed except that end elements are added. -/
theorem C75_balanced {c : Cfg} {inp : List (Token × Bool)} {fin : XErr} {out : List Token} {s : L} (h : Run c (new inp fin) out s) :
    (∃ op, nest [] (out.map sk) = some op) ∧ ∃ a, tags inp = a ++ ahead s ∧ Ins (a.map sk) (out.map sk) := by
  obtain ⟨_, _, h1, h2⟩ := run_step h (new_good inp fin)
  exact ⟨⟨_, h1⟩, h2⟩

/-- C75, no endless invention: at most as many end elements are added as there are start tags, so at most twice as many tokens are returned as have been
read. -/
theorem C75_bound {c : Cfg} {inp : List (Token × Bool)} {fin : XErr} {out : List Token} {s : L} (h : Run c (new inp fin) out s) :
    ∃ a, tags inp = a ++ ahead s ∧ a.length ≤ out.length ∧ out.length ≤ 2 * a.length := by
  obtain ⟨⟨op, h1⟩, a, h2, h3⟩ := C75_balanced h
  refine ⟨a, h2, ?_⟩
  obtain ⟨k1, k2, k6⟩ := ins_count h3
  have k3 := nest_count _ _ _ h1
  have k4 := List.countP_le_length (l := a.map sk) (p := fun x => match x with | .op _ => true | _ => false)
  have k5 := List.countP_le_length (l := a.map sk) (p := fun x => match x with | .cl _ => true | _ => false)
  simp only [List.length_map, List.length_nil, Nat.zero_add] at *
  omega

theorem strict_token {c : Cfg} (hc : c.strict = true) {s s' : L} {t : Token} (h : token c s = .ok (t, s')) :
    token { c with strict := false, auto := [] } s = .ok (t, s') := by
  have hcook : ∀ s u, cook c s u = .ok (t, s') → cook { c with strict := false, auto := [] } s u = .ok (t, s') := by
    intro s u h
    unfold cook at h ⊢
    cases u with
    | endElement n =>
      dsimp only [popElement] at h ⊢
      split at h
      · split at h
        · first | cases h | (rw [if_pos hc] at h; cases h)
        · rename_i q
          rw [if_neg q]
          exact h
      · cases h
    | _ => exact h
  have hauto : ∀ s u, autoClose { c with strict := false, auto := [] } s u = none := by
    intro s u
    unfold autoClose
    split
    · simp
    · rfl
  have hafter : ∀ s u, token.after c s u = .ok (t, s') → token.after { c with strict := false, auto := [] } s u = .ok (t, s') := by
    intro s u h
    unfold token.after at h ⊢
    rw [if_pos hc] at h
    rw [if_neg (by simp), hauto]
    exact hcook s u h
  unfold token at h ⊢
  split at h
  · exact hafter _ _ h
  · split at h
    · cases h
    · exact hafter _ _ h

/-- C75, correct input is not changed: whatever a strict decoder returns, a decoder with `Strict = false` returns as well. -/
theorem C75_strict {c : Cfg} (hc : c.strict = true) {s s' : L} {out : List Token} (h : Run c s out s') :
    Run { c with strict := false, auto := [] } s out s' := by
  induction h with
  | nil s => exact .nil s
  | cons ht _ ih => exact .cons (strict_token hc ht) ih

/-! ### Input without namespaces -/

theorem translate_plain {n : Name} (h : n.space = []) (b : Bool) : translate (fun _ => none) n b = n := by
  unfold translate
  rw [if_neg (by rw [h]; decide)]
  split
  · rfl
  · rw [if_neg (by rw [h]; decide)]
    split <;> rfl

theorem pushNs_plain {as : List Attr} (h : ∀ a ∈ as, a.name.space = [] ∧ a.name.loc ≠ xmlnsPrefix) (ns : NsMap) (stk : List Stk) :
    pushNs as ns stk = .ok (ns, stk) := by
  induction as with
  | nil => rfl
  | cons a as ih =>
    obtain ⟨h1, h2⟩ := h a (by simp)
    unfold pushNs
    rw [if_neg (by rw [h1]; decide), if_neg (by simp [h2])]
    exact ih fun b hb => h b (by simp [hb])

theorem popNs_start (ns : NsMap) (op : List Name) : popNs ns (op.map .start) = (ns, op.map .start) := by
  cases op <;> rfl

theorem tags_nil {inp : List (Token × Bool)} (h : tags inp = []) : inp = [] := by
  unfold tags at h
  split at h
  · rfl
  · cases h
  · cases h

theorem raw_ahead {s : L} {u : Token} {r : List Token} (hn : s.next = none) (h : ahead s = u :: r) : ∃ s', raw s = .ok (u, s') ∧ ahead s' = r := by
  cases hr : raw s with
  | error e =>
    exfalso
    unfold raw at hr
    split at hr
    · cases hr
    · rename_i hc
      split at hr
      · rename_i hi
        simp [ahead, hn, hc, hi, tags] at h
      · cases hr
      · cases hr
  | ok p =>
    obtain ⟨v, s'⟩ := p
    obtain ⟨_, _, _, h4, _⟩ := raw_step hn hr
    rw [h] at h4
    injection h4 with h4 h5
    exact ⟨s', by rw [h4], h5.symm⟩

theorem token_ahead {c : Cfg} {s : L} {u : Token} {r : List Token} (hg : Good s) (h : ahead s = u :: r) :
    ∃ s1, s1.next = none ∧ (∀ n, u = .endElement n → s1.close = none) ∧ ahead s1 = r ∧ s1.stk = s.stk ∧ s1.ns = s.ns ∧ s1.fin = s.fin ∧
      token c s = token.after c s1 u := by
  cases hn : s.next with
  | some v =>
    have hv : v = u ∧ ahead { s with next := none } = r := by
      simp only [ahead, hn, Option.toList_some, List.cons_append, List.nil_append, List.cons.injEq] at h
      exact ⟨h.1, by simpa [ahead] using h.2⟩
    obtain ⟨rfl, h2⟩ := hv
    refine ⟨{ s with next := none }, rfl, fun n e => hg n (by rw [hn, e]), h2, rfl, rfl, rfl, ?_⟩
    unfold token
    rw [hn]
  | none =>
    obtain ⟨s1, h1, h2⟩ := raw_ahead hn h
    obtain ⟨b1, b2, b3, _, b5, b6⟩ := raw_step hn h1
    refine ⟨s1, b1, b2, h2, b5, b6, b3, ?_⟩
    unfold token
    rw [hn, h1]

/-- The states of a decoder on input without namespaces. -/
structure At (fin : XErr) (s : L) (op : List Name) (r : List Token) : Prop where
  good : Good s
  stk : s.stk = op.map .start
  ns : s.ns = fun _ => none
  ahead : Loose.ahead s = r
  fin : s.fin = fin

variable {c : Cfg} {fin : XErr}

/-- An element is closed and the token stays. -/
theorem close_top (hc : c.strict = false) {s : L} {m : Name} {op : List Name} {u : Token} {r : List Token} (hs : At fin s (m :: op) (u :: r))
    (hm : m.space = []) (hu : (∃ n, u = .endElement n ∧ n.space = [] ∧ m ≠ n) ∨
      ((∀ n, u ≠ .endElement n) ∧ isAuto c m = true)) :
    ∃ s', token c s = .ok (.endElement m, s') ∧ At fin s' op (u :: r) := by
  obtain ⟨s1, h1, h2, h3, h4, h5, h6, h7⟩ := token_ahead (c := c) hs.good hs.ahead
  have hstk : s1.stk = .start m :: op.map .start := by rw [h4, hs.stk]; rfl
  have hns : s1.ns = fun _ => none := by rw [h5, hs.ns]
  have close : ∃ s', cook c { s1 with next := some u } (.endElement m) = .ok (.endElement m, s') ∧ At fin s' op (u :: r) := by
    refine ⟨{ s1 with next := some u, stk := op.map .start }, ?_, ?_, rfl, hns, ?_, by rw [← hs.fin, ← h6]⟩
    · unfold cook
      dsimp only
      rw [popElement_top c { s1 with next := some u } m _ hstk]
      dsimp only
      rw [hns, translate_plain hm, popNs_start]
    · intro n e
      injection e with e
      exact h2 n e
    · rw [← h3]
      simp [Loose.ahead, h1]
  rw [h7]
  unfold token.after
  rw [if_neg (by simp [hc])]
  rcases hu with ⟨n, rfl, hn, hmn⟩ | ⟨hu, ha⟩
  · cases hx : autoClose c s1.stk (.endElement n) with
    | some m' =>
      obtain ⟨r', e⟩ := autoClose_some hx
      rw [hstk] at e
      injection e with e _
      injection e with e
      subst e
      exact close
    | none =>
      dsimp only
      have hloc : m.loc ≠ n.loc := by
        intro e
        apply hmn
        cases m; cases n
        simp only at e hm hn
        rw [e, hm, hn]
      refine ⟨{ s1 with stk := op.map .start, close := some n }, ?_, ?_, rfl, hns, ?_, by rw [← hs.fin, ← h6]⟩
      · unfold cook popElement
        dsimp only
        rw [hstk]
        dsimp only
        rw [if_pos hloc, if_neg (by simp [hc])]
      · intro n e
        simp [h1] at e
      · rw [← h3]
        simp [Loose.ahead, h1, h2 n rfl]
  · have hx : autoClose c s1.stk u = some m := by
      unfold autoClose
      rw [hstk]
      dsimp only
      unfold isAuto at ha
      rw [if_pos ha]
      split
      · rename_i n; exact absurd rfl (hu n)
      · rfl
    rw [hx]
    exact close

theorem close_end (hc : c.strict = false) {n : Name} (hn : n.space = []) (hrefl : ∀ a, c.fold a a = true) {r : List Token} : ∀ (op : List Name) (s : L),
    At fin s op (.endElement n :: r) → (∀ m ∈ op, m.space = []) →
    (n ∈ op → ∃ s', Run c s ((op.takeWhile fun m => decide (m ≠ n)).map .endElement ++ [.endElement n]) s' ∧
      At fin s' (op.dropWhile (fun m => decide (m ≠ n))).tail r) ∧
    (n ∉ op → ∃ s', Run c s (op.map .endElement) s' ∧ token c s' = .error (.syntaxError "unexpected end element"))
  | [], s, hs, hop => by
    refine ⟨by simp, fun _ => ⟨s, .nil s, ?_⟩⟩
    obtain ⟨s1, h1, h2, h3, h4, h5, h6, h7⟩ := token_ahead (c := c) hs.good hs.ahead
    rw [h7]
    have hstk : s1.stk = [] := by rw [h4, hs.stk]; rfl
    unfold token.after
    rw [if_neg (by simp [hc])]
    simp [autoClose, hstk, cook, popElement]
  | m :: op, s, hs, hop => by
    by_cases e : m = n
    · subst e
      refine ⟨fun _ => ?_, by simp⟩
      obtain ⟨s1, h1, h2, h3, h4, h5, h6, h7⟩ := token_ahead (c := c) hs.good hs.ahead
      have hstk : s1.stk = .start m :: op.map .start := by rw [h4, hs.stk]; rfl
      have hns : s1.ns = fun _ => none := by rw [h5, hs.ns]
      refine ⟨{ s1 with stk := op.map .start }, ?_, ?_⟩
      · rw [List.takeWhile_cons_of_neg (by simp)]
        refine .cons ?_ (.nil _)
        rw [h7]
        unfold token.after
        rw [if_neg (by simp [hc])]
        have hx : autoClose c s1.stk (.endElement m) = none := by
          simp [autoClose, hstk, hrefl]
        rw [hx]
        unfold cook
        dsimp only
        rw [popElement_top c s1 m _ hstk, hns, translate_plain hn, popNs_start]
      · simp only [ne_eq, not_true_eq_false, decide_false, List.dropWhile_cons, if_false, List.tail_cons, Bool.false_eq_true]
        exact ⟨by intro n e; simp [h1] at e, rfl, hns, by rw [← h3]; rfl, by rw [← hs.fin, ← h6]⟩
    · obtain ⟨s1, h1, h2⟩ := close_top hc hs (hop m (by simp)) (Or.inl ⟨n, rfl, hn, e⟩)
      obtain ⟨i1, i2⟩ := close_end hc hn hrefl op s1 h2 fun m hm => hop m (by simp [hm])
      constructor
      · intro hmem
        obtain ⟨s', r1, r2⟩ := i1 (by simpa [Ne.symm e] using hmem)
        refine ⟨s', ?_, ?_⟩
        · simp only [ne_eq, e, not_false_eq_true, decide_true, List.takeWhile_cons, if_true, List.map_cons, List.cons_append]
          exact .cons h1 r1
        · simpa [List.dropWhile_cons, e] using r2
      · intro hmem
        obtain ⟨s', r1, r2⟩ := i2 (by simp at hmem; exact hmem.2)
        exact ⟨s', .cons h1 r1, r2⟩

theorem run_append {s s1 s2 : L} {a b : List Token} (h1 : Run c s a s1) (h2 : Run c s1 b s2) : Run c s (a ++ b) s2 := by
  induction h1 with
  | nil s => exact h2
  | cons ht _ ih => exact .cons ht (ih h2)

theorem close_auto (hc : c.strict = false) {u : Token} (hu : ∀ n, u ≠ .endElement n) {r : List Token} : ∀ (op : List Name) (s : L),
    At fin s op (u :: r) → (∀ m ∈ op, m.space = []) →
    ∃ s', Run c s ((op.takeWhile (isAuto c)).map .endElement) s' ∧ At fin s' (op.dropWhile (isAuto c)) (u :: r)
  | [], s, hs, hop => ⟨s, .nil s, hs⟩
  | m :: op, s, hs, hop => by
    by_cases e : isAuto c m = true
    · obtain ⟨s1, h1, h2⟩ := close_top hc hs (hop m (by simp)) (Or.inr ⟨hu, e⟩)
      obtain ⟨s', r1, r2⟩ := close_auto hc hu op s1 h2 fun m hm => hop m (by simp [hm])
      refine ⟨s', ?_, by simpa [List.dropWhile_cons, e] using r2⟩
      simp only [List.takeWhile_cons, e, if_true, List.map_cons]
      exact .cons h1 r1
    · refine ⟨s, ?_, by simpa [List.dropWhile_cons, e] using hs⟩
      simp only [List.takeWhile_cons, e]
      exact .nil s

theorem no_auto (op : List Name) (stk : List Stk) (h : stk = (op.dropWhile (isAuto c)).map .start) {u : Token} : autoClose c stk u = none := by
  cases hd : op.dropWhile (isAuto c) with
  | nil => rw [h, hd]; rfl
  | cons m l =>
    have := List.head?_dropWhile_not (isAuto c) op
    rw [hd] at this
    rw [h, hd]
    simp only [List.head?_cons] at this
    unfold autoClose
    simp only [List.map_cons]
    rw [if_neg]
    simpa [isAuto] using this

theorem repair_run (hc : c.strict = false) (hrefl : ∀ a, c.fold a a = true) : ∀ (r : List Token) (op : List Name) (s : L), At fin s op r →
    (∀ t ∈ r, Plain t) → (∀ m ∈ op, m.space = []) →
    ∃ s', Run c s (repair c fin op r).1 s' ∧ token c s' = .error (repair c fin op r).2
  | [], op, s, hs, _, _ => by
    refine ⟨s, .nil s, ?_⟩
    have h := hs.ahead
    have hn : s.next = none := by
      cases e : s.next with
      | none => rfl
      | some t => simp [Loose.ahead, e] at h
    have hcl : s.close = none := by
      cases e : s.close with
      | none => rfl
      | some t => simp [Loose.ahead, e, hn] at h
    have hi : s.inp = [] := tags_nil (by simpa [Loose.ahead, hn, hcl] using h)
    simp only [token, hn, raw, hcl, hi, hs.fin, hs.stk, repair]
    simp
  | .endElement n :: r, op, s, hs, hr, hop => by
    have hn : n.space = [] := hr (.endElement n) (by simp)
    obtain ⟨i1, i2⟩ := close_end hc hn hrefl op s hs hop
    rw [repair]
    by_cases e : n ∈ op
    · rw [if_pos e]
      obtain ⟨s1, r1, r2⟩ := i1 e
      obtain ⟨s', q1, q2⟩ := repair_run hc hrefl r _ s1 r2 (fun t ht => hr t (by simp [ht]))
        (fun m hm => hop m (List.dropWhile_sublist _ |>.subset (List.mem_of_mem_tail hm)))
      refine ⟨s', ?_, q2⟩
      have := run_append r1 q1
      simpa using this
    · rw [if_neg e]
      exact i2 e
  | .startElement n as :: r, op, s, hs, hr, hop => by
    obtain ⟨hn, has⟩ : n.space = [] ∧ ∀ a ∈ as, a.name.space = [] ∧ a.name.loc ≠ xmlnsPrefix := hr (.startElement n as) (by simp)
    obtain ⟨s1, r1, r2⟩ := close_auto hc (u := .startElement n as) (by simp) op s hs hop
    obtain ⟨s2, h1, h2, h3, h4, h5, h6, h7⟩ := token_ahead (c := c) r2.good r2.ahead
    have hns : s2.ns = fun _ => none := by rw [h5, r2.ns]
    have ht : token c s1 = .ok (.startElement n as, { s2 with stk := .start n :: s2.stk }) := by
      rw [h7]
      unfold token.after
      rw [if_neg (by simp [hc]), no_auto op _ (h4.trans r2.stk)]
      simp only [cook]
      rw [pushNs_plain has]
      simp only [hns, translate_plain hn]
      rw [List.map_congr_left (g := id) (fun a ha => by rw [translate_plain (has a ha).1]; rfl)]
      simp
    obtain ⟨s', q1, q2⟩ := repair_run hc hrefl r (n :: op.dropWhile (isAuto c)) { s2 with stk := .start n :: s2.stk }
      ⟨by intro m e; simp [h1] at e, by dsimp only; rw [h4, r2.stk]; rfl, hns, h3, by rw [← r2.fin, ← h6]⟩ (fun t ht => hr t (by simp [ht]))
      (by
        intro m hm
        rcases List.mem_cons.1 hm with rfl | hm
        · exact hn
        · exact hop m (List.dropWhile_sublist _ |>.subset hm))
    rw [repair]
    exact ⟨s', run_append r1 (.cons ht q1), q2⟩
  | .charData b :: r, op, s, hs, hr, hop => other hc hrefl (.charData b) r op s hs hr hop (by simp) (by simp) (by rw [repair] <;> simp)
  | .comment b :: r, op, s, hs, hr, hop => other hc hrefl (.comment b) r op s hs hr hop (by simp) (by simp) (by rw [repair] <;> simp)
  | .procInst a b :: r, op, s, hs, hr, hop => other hc hrefl (.procInst a b) r op s hs hr hop (by simp) (by simp) (by rw [repair] <;> simp)
  | .directive b :: r, op, s, hs, hr, hop => other hc hrefl (.directive b) r op s hs hr hop (by simp) (by simp) (by rw [repair] <;> simp)
where
  other (hc : c.strict = false) (hrefl : ∀ a, c.fold a a = true) (u : Token) (r : List Token) (op : List Name) (s : L) (hs : At fin s op (u :: r))
      (hr : ∀ t ∈ u :: r, Plain t) (hop : ∀ m ∈ op, m.space = []) (hu : ∀ n, u ≠ .endElement n) (hu' : ∀ n as, u ≠ .startElement n as)
      (he : repair c fin op (u :: r) = ((op.takeWhile (isAuto c)).map .endElement ++ u :: (repair c fin (op.dropWhile (isAuto c)) r).1,
        (repair c fin (op.dropWhile (isAuto c)) r).2)) :
      ∃ s', Run c s (repair c fin op (u :: r)).1 s' ∧ token c s' = .error (repair c fin op (u :: r)).2 := by
    obtain ⟨s1, r1, r2⟩ := close_auto hc hu op s hs hop
    obtain ⟨s2, h1, h2, h3, h4, h5, h6, h7⟩ := token_ahead (c := c) r2.good r2.ahead
    have hns : s2.ns = fun _ => none := by rw [h5, r2.ns]
    have ht : token c s1 = .ok (u, s2) := by
      rw [h7]
      unfold token.after
      rw [if_neg (by simp [hc]), no_auto op _ (h4.trans r2.stk)]
      unfold cook
      cases u with
      | startElement n as => exact absurd rfl (hu' n as)
      | endElement n => exact absurd rfl (hu n)
      | _ => rfl
    obtain ⟨s', q1, q2⟩ := repair_run hc hrefl r (op.dropWhile (isAuto c)) s2
      ⟨by intro m e; simp [h1] at e, by rw [h4, r2.stk], hns, h3, by rw [← r2.fin, ← h6]⟩ (fun t ht => hr t (by simp [ht]))
      (fun m hm => hop m (List.dropWhile_sublist _ |>.subset hm))
    rw [he]
    exact ⟨s', run_append r1 (.cons ht q1), q2⟩

/-- C75, what is invented: on input without namespaces a decoder that is not strict returns exactly the tokens of the specification and then its error. -/
theorem C75_document (hc : c.strict = false) (hrefl : ∀ a, c.fold a a = true) (inp : List (Token × Bool)) (fin : XErr)
    (hp : ∀ t ∈ tags inp, Plain t) :
    ∃ s, Run c (new inp fin) (repair c fin [] (tags inp)).1 s ∧ token c s = .error (repair c fin [] (tags inp)).2 :=
  repair_run hc hrefl (tags inp) [] (new inp fin) ⟨new_good _ _, rfl, rfl, by simp [Loose.ahead, new], rfl⟩ hp (by simp)

/-- C75, an end tag with the local name of the innermost element but another prefix is an error in every mode: nothing is invented for it. -/
theorem C75_prefix (hrefl : ∀ a, c.fold a a = true) {s : L} {m n : Name} {stk : List Stk} {r : List Token} (hg : Good s) (hs : s.stk = .start m :: stk)
    (ha : ahead s = .endElement n :: r) (hl : m.loc = n.loc) (hp : m.space ≠ n.space) :
    token c s = .error (.syntaxError "element closed by the same in another namespace") := by
  obtain ⟨s1, _, _, _, h4, _, _, h7⟩ := token_ahead (c := c) hg ha
  have hstk := h4.trans hs
  have hx : autoClose c s1.stk (.endElement n) = none := by simp [autoClose, hstk, hl, hrefl]
  have hc : cook c s1 (.endElement n) = .error (.syntaxError "element closed by the same in another namespace") := by
    simp [cook, popElement, hstk, hl, hp]
  rw [h7]
  unfold token.after
  rw [hx, hc]
  simp

/-- C75, with `Strict` this is the decoder of the other files. -/
theorem C75_is_strict (hc : c.strict = true) {s : L} {t : Token} {r : List Token} (hg : Good s) (ha : ahead s = t :: r) :
    match Xml.cook t s.ns s.stk with
    | .ok (t', ns', stk') => ∃ s', token c s = .ok (t', s') ∧ s'.ns = ns' ∧ s'.stk = stk' ∧ ahead s' = r ∧ Good s'
    | .error e => token c s = .error e := by
  obtain ⟨s1, h1, _, h3, h4, h5, _, h7⟩ := token_ahead (c := c) hg ha
  have good : ∀ s2 : L, s2.next = s1.next → Good s2 := by
    intro s2 e n h
    rw [e, h1] at h
    cases h
  have ht : token c s = cook c s1 t := by
    rw [h7]
    unfold token.after
    rw [if_pos hc]
  rw [ht, ← h4, ← h5]
  unfold Xml.cook cook
  cases t with
  | startElement n as =>
    dsimp only
    cases hp : pushNs as s1.ns s1.stk with
    | error e => rfl
    | ok p => exact ⟨_, rfl, rfl, rfl, h3, good _ rfl⟩
  | endElement n =>
    dsimp only
    unfold popElement Xml.popElement
    cases hs : s1.stk with
    | nil => rfl
    | cons x stk =>
      cases x with
      | ns k o => rfl
      | start m =>
        dsimp only
        by_cases e1 : m.loc ≠ n.loc
        · rw [if_pos e1, if_pos e1, if_pos hc]
        · rw [if_neg e1, if_neg e1]
          by_cases e2 : m.space ≠ n.space
          · rw [if_pos e2, if_pos e2]
          · rw [if_neg e2, if_neg e2]
            exact ⟨_, rfl, rfl, rfl, h3, good _ rfl⟩
  | _ => exact ⟨_, rfl, rfl, rfl, h3, good _ rfl⟩

/-! ### Cases -/

/-- Comparing names without regard to case, for ASCII. -/
def lower (x : Bytes) : Bytes := x.map fun c => if 65 ≤ c ∧ c ≤ 90 then c + 32 else c

/-- A decoder for HTML-like input. -/
def html : Cfg := ⟨false, [b!"br", b!"img"], fun a b => lower a = lower b⟩

/-- A name without prefix. -/
def nm (x : Bytes) : Name := ⟨[], x⟩

/-- `<p><i>a<br>b<img/></p>`. -/
def doc : List (Token × Bool) := [(.startElement (nm (b!"p")) [], false), (.startElement (nm (b!"i")) [], false), (.charData (b!"a"), false),
  (.startElement (nm (b!"br")) [], false), (.charData (b!"b"), false), (.startElement (nm (b!"img")) [], true), (.endElement (nm (b!"p")), false)]

/-- The tokens returned and the error after them. -/
def reads (c : Cfg) : Nat → L → List Token × Option XErr
  | 0, _ => ([], none)
  | f + 1, s =>
    match token c s with
    | .error e => ([], some e)
    | .ok (t, s') => (t :: (reads c f s').1, (reads c f s').2)

example : ∀ t ∈ tags doc, Plain t := by
  simp [tags, doc, Plain, nm]

example : ∀ a, html.fold a a = true := by simp [html]

/-- `<p><i>a<br></br>b<img></img></i></p>` -/
example : reads html 20 (new doc .eof) = ([.startElement (nm (b!"p")) [], .startElement (nm (b!"i")) [], .charData (b!"a"),
    .startElement (nm (b!"br")) [], .endElement (nm (b!"br")), .charData (b!"b"), .startElement (nm (b!"img")) [], .endElement (nm (b!"img")),
    .endElement (nm (b!"i")), .endElement (nm (b!"p"))], some .eof) := by krfl

example : repair html .eof [] (tags doc) = ([.startElement (nm (b!"p")) [], .startElement (nm (b!"i")) [], .charData (b!"a"),
    .startElement (nm (b!"br")) [], .endElement (nm (b!"br")), .charData (b!"b"), .startElement (nm (b!"img")) [], .endElement (nm (b!"img")),
    .endElement (nm (b!"i")), .endElement (nm (b!"p"))], .eof) := by krfl

/-- A strict decoder stops at `</p>`. -/
example : (reads { html with strict := true } 20 (new doc .eof)).2 = some (.syntaxError "element closed by another") := by krfl

/-- Elements still open at the end of the input are not closed. -/
example : (reads html 20 (new [(.startElement (nm (b!"p")) [], false), (.startElement (nm (b!"br")) [], false)] .eof)).2 = some unexpectedEOF := by
  krfl

/-- `<x:a xmlns:x="u"><x:b></x:a>` -/
def docX : List (Token × Bool) := [(.startElement ⟨b!"x", b!"a"⟩ [⟨⟨b!"xmlns", b!"x"⟩, b!"u"⟩], false), (.startElement ⟨b!"x", b!"b"⟩ [], false),
  (.endElement ⟨b!"x", b!"a"⟩, false)]

/-- C75, with namespaces the names differ: the start element `b` is returned in the namespace `u`, the end element that is invented for it has the prefix
`x` in the place of the namespace. -/
theorem C75_refuted : reads html 20 (new docX .eof) = ([.startElement ⟨b!"u", b!"a"⟩ [⟨⟨xmlnsURL, b!"x"⟩, b!"u"⟩], .startElement ⟨b!"u", b!"b"⟩ [],
    .endElement ⟨b!"x", b!"b"⟩, .endElement ⟨b!"u", b!"a"⟩], some .eof) := by krfl

/-- `<a><b xmlns="u"></a>` -/
def docD : List (Token × Bool) := [(.startElement (nm (b!"a")) [], false), (.startElement (nm (b!"b")) [⟨nm (b!"xmlns"), b!"u"⟩], false),
  (.endElement (nm (b!"a")), false)]

/-- C75, with a namespace declaration on the element whose end tag is missing the decoder fails: the declaration stays on the stack, and the end tag of
the parent is called unexpected. -/
theorem C75_declaration_refuted : reads html 20 (new docD .eof) = ([.startElement (nm (b!"a")) [],
    .startElement ⟨b!"u", b!"b"⟩ [⟨nm (b!"xmlns"), b!"u"⟩], .endElement (nm (b!"b"))], some (.syntaxError "unexpected end element")) := by krfl

/-- C75, `AutoClose` compares names without regard to case, the stack does not: `<p><br></BR></p>` closes `p` with the `br` and fails. -/
theorem C75_case_refuted : reads html 20 (new [(.startElement (nm (b!"p")) [], false), (.startElement (nm (b!"br")) [], false),
    (.endElement (nm (b!"BR")), false), (.endElement (nm (b!"p")), false)] .eof) = ([.startElement (nm (b!"p")) [], .startElement (nm (b!"br")) [],
    .endElement (nm (b!"br")), .endElement (nm (b!"p"))], some (.syntaxError "unexpected end element")) := by krfl

end Verif.Loose

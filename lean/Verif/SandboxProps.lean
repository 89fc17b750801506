import Verif.Sandbox

/-!
C74: a method `UnmarshalXML` cannot read beyond its element, and if it is taken to have succeeded, the decoder is right behind the element.
-/
namespace Verif.Sandbox

open Verif.Xml

/-! ### Raw tokens inside an element -/

/-- The open elements after reading raw tokens inside an element; nothing can be read when it is closed. -/
def inside : List Name → List Token → Option (List Name)
  | st, [] => some st
  | [], _ :: _ => none
  | m :: st, .startElement n _ :: l => inside (n :: m :: st) l
  | m :: st, .endElement n :: l => if m = n then inside st l else none
  | m :: st, _ :: l => inside (m :: st) l

theorem inside_append : ∀ (a b : List Token) (st st' : List Name), inside st a = some st' → inside st (a ++ b) = inside st' b
  | [], b, st, st', h => by cases st <;> (simp only [inside, Option.some.injEq] at h; subst h; rfl)
  | t :: a, b, [], st', h => by simp [inside] at h
  | t :: a, b, m :: st, st', h => by
    cases t with
    | startElement n as =>
      simp only [inside, List.cons_append] at h ⊢
      exact inside_append a b _ _ h
    | endElement n =>
      simp only [inside, List.cons_append] at h ⊢
      by_cases e : m = n
      · rw [if_pos e] at h ⊢
        exact inside_append a b _ _ h
      · rw [if_neg e] at h
        cases h
    | _ =>
      simp only [inside, List.cons_append] at h ⊢
      exact inside_append a b _ _ h

theorem inside_frame : ∀ (a : List Token) (st st' x : List Name), inside st a = some st' → inside (st ++ x) a = some (st' ++ x)
  | [], st, st', x, h => by
    cases st <;> (simp only [inside, Option.some.injEq] at h; subst h) <;> cases x <;> rfl
  | t :: a, [], st', x, h => by simp [inside] at h
  | t :: a, m :: st, st', x, h => by
    cases t with
    | startElement n as =>
      simp only [inside, List.cons_append] at h ⊢
      exact inside_frame a (n :: m :: st) _ x h
    | endElement n =>
      simp only [inside, List.cons_append] at h ⊢
      by_cases e : m = n
      · rw [if_pos e] at h ⊢
        exact inside_frame a _ _ x h
      · rw [if_neg e] at h
        cases h
    | _ =>
      simp only [inside, List.cons_append] at h ⊢
      exact inside_frame a (m :: st) _ x h

theorem inside_content {b : List Token} (h : Content b) (n : Name) (st : List Name) (r : List Token) : inside (n :: st) (b ++ r) = inside (n :: st) r := by
  induction h generalizing n st r with
  | nil => rfl
  | misc t l h1 h2 _ ih =>
    cases t with
    | startElement m as => exact absurd rfl (h1 m as)
    | endElement m => exact absurd rfl (h2 m)
    | _ => simp only [List.cons_append, inside]; exact ih n st r
  | elem m as b l _ _ ih1 ih2 =>
    simp only [List.cons_append, inside, List.append_assoc]
    rw [ih1 m (n :: st)]
    simp only [inside, if_pos]
    exact ih2 n st r

theorem content_append {a b : List Token} (ha : Content a) (hb : Content b) : Content (a ++ b) := by
  induction ha with
  | nil => exact hb
  | misc t l h1 h2 _ ih => exact .misc t _ h1 h2 ih
  | elem n as c l h1 _ _ ih =>
    rw [List.cons_append, List.append_assoc, List.cons_append]
    exact .elem n as c _ h1 ih

theorem content_of_inside : ∀ (N : Nat) (c : List Token) (n : Name) (st : List Name), c.length ≤ N → inside (n :: st) c = some [] →
    ∃ b c', c = b ++ .endElement n :: c' ∧ Content b ∧ inside st c' = some []
  | _, [], n, st, _, h => by simp [inside] at h
  | 0, t :: c, n, st, hN, h => by simp at hN
  | N + 1, t :: c, n, st, hN, h => by
    simp only [List.length_cons] at hN
    cases t with
    | startElement m as =>
      simp only [inside] at h
      obtain ⟨b1, c1, rfl, h1, h2⟩ := content_of_inside N c m (n :: st) (by omega) h
      simp only [List.length_append, List.length_cons] at hN
      obtain ⟨b2, c2, rfl, h3, h4⟩ := content_of_inside N c1 n st (by omega) h2
      exact ⟨.startElement m as :: (b1 ++ .endElement m :: b2), c2, by simp, .elem m as b1 b2 h1 h3, h4⟩
    | endElement m =>
      simp only [inside] at h
      by_cases e : n = m
      · rw [if_pos e] at h
        exact ⟨[], c, by rw [e]; rfl, .nil, h⟩
      · rw [if_neg e] at h
        cases h
    | charData b => 
      simp only [inside] at h
      obtain ⟨b1, c1, rfl, h1, h2⟩ := content_of_inside N c n st (by omega) h
      exact ⟨_ :: b1, c1, rfl, .misc _ _ (by simp) (by simp) h1, h2⟩
    | comment b => 
      simp only [inside] at h
      obtain ⟨b1, c1, rfl, h1, h2⟩ := content_of_inside N c n st (by omega) h
      exact ⟨_ :: b1, c1, rfl, .misc _ _ (by simp) (by simp) h1, h2⟩
    | procInst a b => 
      simp only [inside] at h
      obtain ⟨b1, c1, rfl, h1, h2⟩ := content_of_inside N c n st (by omega) h
      exact ⟨_ :: b1, c1, rfl, .misc _ _ (by simp) (by simp) h1, h2⟩
    | directive b => 
      simp only [inside] at h
      obtain ⟨b1, c1, rfl, h1, h2⟩ := content_of_inside N c n st (by omega) h
      exact ⟨_ :: b1, c1, rfl, .misc _ _ (by simp) (by simp) h1, h2⟩

/-- An element is closed exactly by its content and its end. -/
theorem inside_closed (n : Name) (c : List Token) : inside [n] c = some [] ↔ ∃ b, Content b ∧ c = b ++ [.endElement n] := by
  constructor
  · intro h
    obtain ⟨b, c', rfl, hb, h'⟩ := content_of_inside c.length c n [] (Nat.le_refl _) h
    cases c' with
    | nil => exact ⟨b, hb, rfl⟩
    | cons t c' => simp [inside] at h'
  · rintro ⟨b, hb, rfl⟩
    rw [inside_content hb]
    simp [inside]

/-- What is read inside an element does not go beyond its end. -/
theorem inside_within {n : Name} {b rest c x : List Token} {st : List Name} (hb : Content b) (h : inside [n] c = some st)
    (e : b ++ .endElement n :: rest = c ++ x) : c.length ≤ b.length + 1 ∧ (st ≠ [] → c.length ≤ b.length) := by
  have hc : inside [n] (b ++ [.endElement n]) = some [] := (inside_closed n _).2 ⟨b, hb, rfl⟩
  have e' : (b ++ [.endElement n]) ++ rest = c ++ x := by simpa using e
  have l1 : c.length ≤ b.length + 1 := by
    refine Nat.le_of_not_lt fun hl => ?_
    have hp : (b ++ [.endElement n]) <+: c := by
      refine List.prefix_of_prefix_length_le (l₃ := c ++ x) ⟨rest, e'⟩ ⟨x, rfl⟩ ?_
      simp; omega
    obtain ⟨y, rfl⟩ := hp
    rw [inside_append _ _ _ _ hc] at h
    cases y with
    | nil => simp at hl
    | cons t y => simp [inside] at h
  refine ⟨l1, fun hst => ?_⟩
  refine Nat.le_of_not_lt fun hl => ?_
  have : b ++ [.endElement n] = c := (List.append_inj e' (by simp; omega)).1
  subst this
  rw [hc] at h
  injection h with h
  exact hst h.symm

/-! ### The stack -/

/-- Namespace entries only. -/
def AllNs (l : List Ent) : Prop := ∀ e ∈ l, ∃ k o, e = .ns k o

/-- The entries of open elements, the innermost first. -/
inductive Seg : List Ent → List Name → Prop where
  | nil : Seg [] []
  | cons (n l E ms) : AllNs l → Seg E ms → Seg (.start n :: (l ++ E)) (n :: ms)

/-- The namespaces after everything on the stack has been undone. -/
def unwind : NsMap → List Ent → NsMap
  | ns, .ns k o :: l => unwind (ns.set k o) l
  | ns, _ :: l => unwind ns l
  | ns, [] => ns

theorem unwind_append (ns : NsMap) (a b : List Ent) : unwind ns (a ++ b) = unwind (unwind ns a) b := by
  induction a generalizing ns with
  | nil => rfl
  | cons e a ih => cases e <;> simp [unwind, ih]

/-- The top of the stack is not a namespace entry. -/
def Top (l : List Ent) : Prop := ∀ k o l', l ≠ .ns k o :: l'

theorem popNs_all {l : List Ent} (h : AllNs l) (r : List Ent) (hr : Top r) (ns : NsMap) : popNs ns (l ++ r) = (unwind ns l, r) := by
  induction l generalizing ns with
  | nil =>
    cases r with
    | nil => rfl
    | cons e r =>
      cases e with
      | ns k o => exact absurd rfl (hr k o r)
      | _ => rfl
  | cons e l ih =>
    obtain ⟨k, o, rfl⟩ := h e (by simp)
    simp only [List.cons_append, popNs, unwind]
    exact ih (fun e he => h e (by simp [he])) _

theorem afterNs_all {l : List Ent} (h : AllNs l) (r : List Ent) (hr : Top r) : afterNs (l ++ r) = l ++ .eof :: r := by
  induction l with
  | nil =>
    cases r with
    | nil => rfl
    | cons e r =>
      cases e with
      | ns k o => exact absurd rfl (hr k o r)
      | _ => rfl
  | cons e l ih =>
    obtain ⟨k, o, rfl⟩ := h e (by simp)
    simp only [List.cons_append, afterNs]
    rw [ih fun e he => h e (by simp [he])]

theorem set_back (ns : NsMap) (k : Bytes) (v : Option Bytes) : (ns.set k v).set k (ns k) = ns := by
  funext x
  unfold NsMap.set
  split
  · rename_i h; rw [h]
  · rfl

theorem pushNs_spec (as : List Attr) (ns : NsMap) (stk : List Ent) : ∃ l, (pushNs as ns stk).2.2 = l ++ stk ∧ AllNs l ∧
    unwind (pushNs as ns stk).2.1 l = ns := by
  induction as generalizing ns stk with
  | nil => exact ⟨[], rfl, by simp [AllNs], rfl⟩
  | cons a as ih =>
    have push : ∀ k v, ∃ l, (pushNs as (ns.set k v) (.ns k (ns k) :: stk)).2.2 = l ++ stk ∧ AllNs l ∧
        unwind (pushNs as (ns.set k v) (.ns k (ns k) :: stk)).2.1 l = ns := by
      intro k v
      obtain ⟨l, h1, h2, h3⟩ := ih (ns.set k v) (.ns k (ns k) :: stk)
      refine ⟨l ++ [.ns k (ns k)], by rw [h1]; simp, ?_, ?_⟩
      · intro e he
        rcases List.mem_append.1 he with he | he
        · exact h2 e he
        · exact ⟨k, ns k, by simpa using he⟩
      · rw [unwind_append, h3]
        exact set_back ns k v
    unfold pushNs
    split
    · split
      · exact ⟨[], rfl, by simp [AllNs], rfl⟩
      · split
        · exact ⟨[], rfl, by simp [AllNs], rfl⟩
        · exact push _ _
    · split
      · exact push _ _
      · exact ih ns stk

theorem seg_top {E : List Ent} {names : List Name} (h : Seg E names) (r : List Ent) : Top (E ++ .eof :: r) := by
  intro k o l' e
  cases h <;> cases e

/-! ### The invariant -/

/-- Where the method is, while it works on the element `n`: `inp0` are the raw tokens after its start, `outer` the stack and `ns0` the namespaces
before it. -/
structure Frame where
  n : Name
  inp0 : List Token
  outer : List Ent
  ns0 : NsMap

/-- What has been read is inside the element; the last token may have been an error. -/
def Bound (F : Frame) (s : S) : Prop :=
  ∃ c1 c2 st, F.inp0 = c1 ++ (c2 ++ s.inp) ∧ inside [F.n] c1 = some st ∧ (c2 = [] ∨ st ≠ [] ∧ ∃ t, c2 = [t])

/-- The invariant. -/
def Inv (F : Frame) (s : S) : Prop :=
  (s.err = none ∧ ∃ E names c, s.stk = E ++ .eof :: F.outer ∧ Seg E names ∧ unwind s.ns E = F.ns0 ∧ F.inp0 = c ++ s.inp ∧
    inside [F.n] c = some names) ∨
  (s.err ≠ none ∧ (∃ E, s.stk = E ++ .eof :: F.outer ∧ ∀ e ∈ E, e ≠ .eof) ∧ Bound F s)

theorem inv_bound {F : Frame} {s : S} (h : Inv F s) : Bound F s := by
  rcases h with ⟨_, E, names, c, _, _, _, h4, h5⟩ | ⟨_, _, h⟩
  · exact ⟨c, [], names, by simpa using h4, h5, Or.inl rfl⟩
  · exact h

theorem seg_no_eof {E : List Ent} {names : List Name} (h : Seg E names) : ∀ e ∈ E, e ≠ .eof := by
  induction h with
  | nil => simp
  | cons n l E ms hl _ ih =>
    intro e he
    simp only [List.mem_cons, List.mem_append] at he
    rcases he with rfl | he | he
    · simp
    · obtain ⟨k, o, rfl⟩ := hl e he; simp
    · exact ih e he

theorem allNs_no_eof {l : List Ent} (h : AllNs l) : ∀ e ∈ l, e ≠ .eof := by
  intro e he
  obtain ⟨k, o, rfl⟩ := h e he
  simp

theorem tok_inv {F : Frame} {s : S} (h : Inv F s) : Inv F (tok s).2 := by
  unfold tok
  split
  · exact h
  · rename_i hne
    rcases h with ⟨he, E, names, c, h1, h2, h3, h4, h5⟩ | ⟨he, h1, h2⟩
    · rw [he]
      dsimp only
      cases hi : s.inp with
      | nil =>
        dsimp only
        rw [hi] at h4
        exact Or.inr ⟨by simp, ⟨E, h1, seg_no_eof h2⟩, c, [], names, h4, h5, Or.inl rfl⟩
      | cons t r =>
        dsimp only
        rw [hi] at h4
        cases h2 with
        | nil => exact absurd h1 (hne F.outer)
        | cons m l E' ms hl hE =>
          have bad : F.inp0 = c ++ ([t] ++ r) ∧ inside [F.n] c = some (m :: ms) ∧ (([t] : List Token) = [] ∨ (m :: ms) ≠ [] ∧ ∃ u, [t] = [u]) :=
            ⟨h4, h5, Or.inr ⟨by simp, t, rfl⟩⟩
          have good : ∀ {st}, inside (m :: ms) [t] = some st → F.inp0 = (c ++ [t]) ++ r ∧ inside [F.n] (c ++ [t]) = some st := by
            intro st h
            exact ⟨by rw [h4]; simp, by rw [inside_append _ _ _ _ h5]; exact h⟩
          unfold cooked
          cases t with
          | startElement n as =>
            dsimp only
            obtain ⟨l', p1, p2, p3⟩ := pushNs_spec as s.ns s.stk
            rcases hp : pushNs as s.ns s.stk with ⟨e, ns, stk⟩
            rw [hp] at p1 p3
            dsimp only at p1 p3
            cases e with
            | some e =>
              dsimp only
              refine Or.inr ⟨by simp, ⟨l' ++ (.start m :: (l ++ E')), ?_, ?_⟩, c, [_], m :: ms, bad⟩
              · dsimp only; rw [p1, h1]; simp
              · intro e he
                rcases List.mem_append.1 he with he | he
                · exact allNs_no_eof p2 e he
                · exact seg_no_eof (.cons m l E' ms hl hE) e he
            | none =>
              dsimp only
              obtain ⟨g1, g2⟩ := good (st := n :: m :: ms) (by simp [inside])
              refine Or.inl ⟨rfl, .start n :: (l' ++ (.start m :: (l ++ E'))), n :: m :: ms, _, ?_, .cons n l' _ _ p2 (.cons m l E' ms hl hE), ?_, g1, g2⟩
              · dsimp only; rw [p1, h1]; simp
              · simp only [unwind]
                rw [unwind_append, p3]
                exact h3
          | endElement n =>
            dsimp only
            rw [h1]
            simp only [List.cons_append]
            have errs : ∀ e : XErr, Inv F { s with stk := l ++ E' ++ .eof :: F.outer, inp := r, err := some e } := fun e =>
              Or.inr ⟨by simp, ⟨l ++ E', rfl, fun x hx => by
                rcases List.mem_append.1 hx with hx | hx
                · exact allNs_no_eof hl x hx
                · exact seg_no_eof hE x hx⟩, c, [_], m :: ms, bad⟩
            split
            · exact errs _
            · split
              · exact errs _
              · rename_i q1 q2
                have hmn : m = n := by
                  cases m; cases n
                  simp only [ne_eq, Decidable.not_not] at q1 q2
                  rw [q1, q2]
                obtain ⟨g1, g2⟩ := good (st := ms) (by simp [inside, hmn])
                have hpop := popNs_all hl (E' ++ .eof :: F.outer) (seg_top hE _) s.ns
                rw [← List.append_assoc] at hpop
                refine Or.inl ⟨rfl, E', ms, _, ?_, hE, ?_, g1, g2⟩
                · dsimp only; rw [hpop]
                · dsimp only; rw [hpop]
                  simp only [unwind] at h3
                  rw [unwind_append] at h3
                  exact h3
          | charData b =>
            obtain ⟨g1, g2⟩ := good (st := m :: ms) (by simp [inside])
            exact Or.inl ⟨rfl, _, _, _, h1, .cons m l E' ms hl hE, h3, g1, g2⟩
          | comment b =>
            obtain ⟨g1, g2⟩ := good (st := m :: ms) (by simp [inside])
            exact Or.inl ⟨rfl, _, _, _, h1, .cons m l E' ms hl hE, h3, g1, g2⟩
          | procInst a b =>
            obtain ⟨g1, g2⟩ := good (st := m :: ms) (by simp [inside])
            exact Or.inl ⟨rfl, _, _, _, h1, .cons m l E' ms hl hE, h3, g1, g2⟩
          | directive b =>
            obtain ⟨g1, g2⟩ := good (st := m :: ms) (by simp [inside])
            exact Or.inl ⟨rfl, _, _, _, h1, .cons m l E' ms hl hE, h3, g1, g2⟩
    · cases hs : s.err with
      | none => exact absurd hs he
      | some e => exact Or.inr ⟨he, h1, h2⟩

/-- The frame of a call of `DecodeElement`. -/
theorem enter {F : Frame} {s : S} (h : Inv F s) (he : s.err = none) (hne : ∀ l, s.stk ≠ .eof :: l) :
    ∃ m l E ms c, Seg E ms ∧ AllNs l ∧ pushEOF s.stk = some (.start m :: (l ++ .eof :: (E ++ .eof :: F.outer))) ∧
      Inv ⟨m, s.inp, E ++ .eof :: F.outer, unwind s.ns l⟩ { s with stk := .start m :: (l ++ .eof :: (E ++ .eof :: F.outer)) } ∧
      unwind (unwind s.ns l) E = F.ns0 ∧ F.inp0 = c ++ s.inp ∧ inside [F.n] c = some (m :: ms) := by
  rcases h with ⟨_, E, names, c, h1, h2, h3, h4, h5⟩ | ⟨h, _⟩
  · cases h2 with
    | nil => exact absurd h1 (hne F.outer)
    | cons m l E' ms hl hE =>
      refine ⟨m, l, E', ms, c, hE, hl, ?_, Or.inl ⟨he, .start m :: (l ++ []), [m], [], by simp, .cons m l [] [] hl .nil, ?_, rfl, rfl⟩, ?_, h4, h5⟩
      · rw [h1]
        simp only [List.cons_append, pushEOF, List.append_assoc]
        rw [afterNs_all hl _ (seg_top hE _)]
      · simp [unwind]
      · simp only [unwind] at h3
        rw [unwind_append] at h3
        exact h3
  · exact absurd he h

theorem bound_out {F : Frame} {m : Name} {ms : List Name} {c inp : List Token} {o : List Ent} {ns : NsMap} {s : S}
    (h1 : F.inp0 = c ++ inp) (h2 : inside [F.n] c = some (m :: ms)) (h : Bound ⟨m, inp, o, ns⟩ s) : Bound F s := by
  obtain ⟨c1, c2, st, e1, e2, e3⟩ := h
  dsimp only at e1 e2
  refine ⟨c ++ c1, c2, st ++ ms, by rw [h1, e1]; simp, ?_, ?_⟩
  · rw [inside_append _ _ _ _ h2]
    exact inside_frame c1 [m] st ms e2
  · rcases e3 with e | ⟨e, t⟩
    · exact Or.inl e
    · exact Or.inr ⟨by simp [e], t⟩

/-- Leaving a call: if it succeeded, the enclosing method goes on right behind the element. -/
theorem leave_inv {F : Frame} {m : Name} {l E : List Ent} {ms : List Name} {c : List Token} {s s' : S} (hE : Seg E ms)
    (h3 : unwind (unwind s.ns l) E = F.ns0) (h4 : F.inp0 = c ++ s.inp) (h5 : inside [F.n] c = some (m :: ms)) {b : Bool}
    (h : Inv ⟨m, s.inp, E ++ .eof :: F.outer, unwind s.ns l⟩ s') (hb : (leave b s').1 = true) : Inv F (leave b s').2 := by
  unfold leave at hb ⊢
  split at hb
  · rename_i stk hstk
    dsimp only
    rcases h with ⟨he, E1, names, c1, g1, g2, g3, g4, g5⟩ | ⟨he, ⟨E1, g1, g2⟩, g3⟩
    · dsimp only at g1 g3 g4 g5
      cases g2 with
      | cons n l' E' ms' hl' hE' => rw [hstk] at g1; cases g1
      | nil =>
        rw [hstk, List.nil_append] at g1
        injection g1 with _ g1
        refine Or.inl ⟨he, E, ms, c ++ c1, g1, hE, ?_, by rw [h4, g4]; simp, ?_⟩
        · dsimp only
          simp only [unwind] at g3
          rw [g3]
          exact h3
        · rw [inside_append _ _ _ _ h5]
          exact inside_frame c1 [m] [] ms g5
    · dsimp only at g1
      cases E1 with
      | cons x E1 =>
        rw [hstk] at g1
        injection g1 with g1 _
        exact absurd g1.symm (g2 x (by simp))
      | nil =>
        rw [hstk, List.nil_append] at g1
        injection g1 with _ g1
        exact Or.inr ⟨he, ⟨E, g1, seg_no_eof hE⟩, bound_out h4 h5 (s := { s' with stk := stk }) g3⟩
  · cases hb

theorem leave_inp (b : Bool) (s : S) : (leave b s).2.inp = s.inp := by
  unfold leave
  split <;> rfl

theorem bound_inp {F : Frame} {s s' : S} (h : Bound F s) (e : s'.inp = s.inp) : Bound F s' := by
  unfold Bound at *
  rw [e]
  exact h

theorem leave_true {b : Bool} {s : S} (h : (leave b s).1 = true) : b = true := by
  unfold leave at h
  split at h
  · exact h
  · cases h

/-- An orderly method does not panic, stays in its element, and keeps the invariant if it succeeds. -/
theorem run_inv (u : User) : ∀ (F : Frame) (s : S), Orderly u s → Inv F s →
    ∃ b s', run u s = some (b, s') ∧ Bound F s' ∧ (b = true → Inv F s') := by
  induction u with
  | done b => intro F s _ h; exact ⟨b, s, rfl, inv_bound h, fun _ => h⟩
  | token k ih => intro F s ho h; exact ih _ F _ ho (tok_inv h)
  | nested u k ihu ihk =>
    intro F s ho h
    obtain ⟨he, hne, hk, hstk⟩ := ho
    obtain ⟨m, l, E, ms, c, hE, hl, p, hi, q1, q2, q3⟩ := enter h he hne
    obtain ⟨o1, o2⟩ := hstk _ p
    obtain ⟨b, s', r1, r2, r3⟩ := ihu _ _ o1 hi
    have e : run (.nested u k) s = run (k (leave b s').1) (leave b s').2 := by
      rw [run, p]
      dsimp only
      rw [r1]
    rw [e]
    cases hb : (leave b s').1 with
    | false =>
      rw [hk]
      exact ⟨false, _, rfl, bound_out q2 q3 (bound_inp r2 (leave_inp b s')), by simp⟩
    | true =>
      exact ihk true F _ (o2 b s' r1 hb) (leave_inv hE q1 q2 q3 (r3 (leave_true hb)) hb)

/-! ### The start of an element -/

theorem tok_start {s0 s : S} {m : Name} {as : List Attr} {r : List Token} {t : Token} (hin : s0.inp = .startElement m as :: r)
    (ht : tok s0 = (.ok t, s)) : s0.err = none ∧ s.err = none ∧ s.inp = r ∧ (∀ l, s0.stk ≠ .eof :: l) ∧
      ∃ l, AllNs l ∧ s.stk = .start m :: (l ++ s0.stk) ∧ unwind s.ns l = s0.ns := by
  unfold tok at ht
  split at ht
  · cases ht
  · rename_i hne
    cases he : s0.err with
    | some e => rw [he] at ht; cases ht
    | none =>
      rw [he, hin] at ht
      simp only [cooked] at ht
      obtain ⟨l, p1, p2, p3⟩ := pushNs_spec as s0.ns s0.stk
      rcases hp : pushNs as s0.ns s0.stk with ⟨e, ns, stk⟩
      rw [hp] at p1 p3 ht
      dsimp only at p1 p3
      cases e with
      | some e => cases ht
      | none =>
        dsimp only at ht
        injection ht with _ ht
        subst ht
        refine ⟨rfl, rfl, rfl, hne, l, p2, ?_, p3⟩
        dsimp only
        rw [p1]

/-- `Token` leaves no namespace entry on top. -/
theorem top_tok {s : S} (h : Top s.stk) {t : Token} (ht : (tok s).1 = .ok t) : Top (tok s).2.stk := by
  have hpop : ∀ (l : List Ent) (ns : NsMap), Top (popNs ns l).2 := by
    intro l
    induction l with
    | nil => intro ns k o l' e; cases e
    | cons e l ih =>
      intro ns
      cases e with
      | ns k o => exact ih _
      | _ => intro k o l' e; cases e
  unfold tok at ht ⊢
  split
  · exact h
  · rename_i hne
    split at ht
    · exact absurd ‹_› (hne _)
    · cases he : s.err with
      | some e => rw [he] at ht; cases ht
      | none =>
        rw [he] at ht
        dsimp only at ht ⊢
        cases hi : s.inp with
        | nil => rw [hi] at ht; cases ht
        | cons u r =>
          rw [hi] at ht
          dsimp only at ht ⊢
          unfold cooked at ht ⊢
          cases u with
          | startElement n as =>
            dsimp only at ht ⊢
            rcases hp : pushNs as s.ns s.stk with ⟨e, ns, stk⟩
            rw [hp] at ht
            cases e with
            | some e => cases ht
            | none => intro k o l' e; cases e
          | endElement n =>
            dsimp only at ht ⊢
            split at ht
            · split at ht
              · cases ht
              · rename_i q1
                rw [if_neg q1]
                split at ht
                · cases ht
                · rename_i q2
                  rw [if_neg q2]
                  exact hpop _ _
            · cases ht
          | _ => exact h

theorem start_inv {s0 s : S} {m : Name} {as : List Attr} {r : List Token} {t : Token} (hin : s0.inp = .startElement m as :: r)
    (ht : tok s0 = (.ok t, s)) (htop : Top s0.stk) : ∃ stk, pushEOF s.stk = some stk ∧ Inv ⟨m, r, s0.stk, s0.ns⟩ { s with stk := stk } ∧
      ∃ l, AllNs l ∧ stk = .start m :: (l ++ .eof :: s0.stk) := by
  obtain ⟨_, h2, h3, _, l, h5, h6, h7⟩ := tok_start hin ht
  refine ⟨.start m :: (l ++ .eof :: s0.stk), ?_, Or.inl ⟨h2, .start m :: (l ++ []), [m], [], by simp, .cons m l [] [] h5 .nil, ?_, ?_, rfl⟩, l, h5, rfl⟩
  · rw [h6, pushEOF, afterNs_all h5 _ htop]
  · simpa [unwind] using h7
  · simpa using h3.symm

/-! ### Properties -/

/-- C74, the method is kept inside its element: after `Token` has returned the start of an element, a method that calls `DecodeElement` only before its
element is finished and before an error, and fails if `DecodeElement` fails, does not make the decoder panic; it reads nothing behind the end of the
element; and if it is taken to have succeeded, then the decoder is as it was before the start of the element except that exactly the element has
been read, or the decoder has met an error, which every later `Token` returns. -/
theorem C74_contained {s0 s : S} {m : Name} {as : List Attr} {r : List Token} {t : Token} (hin : s0.inp = .startElement m as :: r)
    (ht : tok s0 = (.ok t, s)) (htop : Top s0.stk) (u : User) (hu : ∀ stk, pushEOF s.stk = some stk → Orderly u { s with stk := stk }) :
    ∃ b s', unmarshalInterface u s = some (b, s') ∧
      (∀ body rest, Content body → r = body ++ .endElement m :: rest → rest <:+ s'.inp) ∧
      (b = true → s'.stk = s0.stk ∧
        ((s'.err = none ∧ s'.ns = s0.ns ∧ ∃ body, Content body ∧ r = body ++ .endElement m :: s'.inp) ∨
         (∃ e, s'.err = some e ∧ tok s' = (.error (rawErr s' e), s')))) := by
  obtain ⟨stk, hp, hi, l, hl, hstk⟩ := start_inv hin ht htop
  obtain ⟨_, _, _, hne, _⟩ := tok_start hin ht
  obtain ⟨b, s1, h1, h2, h3⟩ := run_inv u _ _ (hu stk hp) hi
  refine ⟨(leave b s1).1, (leave b s1).2, ?_, ?_, ?_⟩
  · unfold unmarshalInterface
    rw [hp]
    dsimp only
    rw [h1]
    rfl
  · intro body rest hb hr
    rw [leave_inp]
    obtain ⟨c1, c2, st, e1, e2, e3⟩ := h2
    dsimp only at e1 e2
    have e1' := e1
    rw [hr] at e1
    obtain ⟨w1, w2⟩ := inside_within hb e2 e1
    refine List.suffix_of_suffix_length_le (l₃ := r) ⟨body ++ [.endElement m], by rw [hr]; simp⟩ ⟨c1 ++ c2, by rw [e1']; simp⟩ ?_
    have hlen := congrArg List.length e1
    simp only [List.length_append, List.length_cons] at hlen
    rcases e3 with e | ⟨e, t, e'⟩
    · subst e
      simp only [List.length_nil] at hlen
      omega
    · subst e'
      have := w2 e
      simp only [List.length_cons, List.length_nil] at hlen
      omega
  · intro hb
    have hI := h3 (leave_true hb)
    unfold leave at hb ⊢
    split at hb
    · rename_i stk' hstk'
      dsimp only
      rcases hI with ⟨he, E1, names, c1, g1, g2, g3, g4, g5⟩ | ⟨he, ⟨E1, g1, g2⟩, g3⟩
      · dsimp only at g1 g3 g4 g5
        cases g2 with
        | cons n l' E' ms' hl' hE' => rw [hstk'] at g1; cases g1
        | nil =>
          rw [hstk', List.nil_append] at g1
          injection g1 with _ g1
          obtain ⟨body, hb1, hb2⟩ := (inside_closed _ _).1 g5
          refine ⟨g1, Or.inl ⟨he, by simpa [unwind] using g3, body, hb1, ?_⟩⟩
          rw [g4, hb2]
          simp
      · dsimp only at g1
        cases E1 with
        | cons x E1 =>
          rw [hstk'] at g1
          injection g1 with g1 _
          exact absurd g1.symm (g2 x (by simp))
        | nil =>
          rw [hstk', List.nil_append] at g1
          injection g1 with _ g1
          refine ⟨g1, Or.inr ?_⟩
          cases he' : s1.err with
          | none => exact absurd he' he
          | some e =>
            refine ⟨e, rfl, ?_⟩
            unfold tok
            split
            · rename_i hx
              exact absurd (g1.symm.trans hx) (hne _)
            · rfl
    · cases hb

/-- `Skip` (`/repo/xml/read.go` 755-775) as a program, with fuel. -/
def skip : Nat → Nat → User
  | 0, _ => .done false
  | f + 1, d => .token fun
    | .error _ => .done false
    | .ok (.startElement _ _) => skip f (d + 1)
    | .ok (.endElement _) => if d = 0 then .done true else skip f (d - 1)
    | .ok _ => skip f d

/-- The namespace declarations of a start tag are allowed. -/
def DeclsOk (t : Token) : Prop := ∀ n as, t = .startElement n as → ∀ a ∈ as, a.name.space = xmlnsPrefix → a.value ≠ [] ∧ a.name.loc ≠ []

theorem pushNs_ok {as : List Attr} (h : ∀ a ∈ as, a.name.space = xmlnsPrefix → a.value ≠ [] ∧ a.name.loc ≠ []) (ns : NsMap) (stk : List Ent) :
    (pushNs as ns stk).1 = none := by
  induction as generalizing ns stk with
  | nil => rfl
  | cons a as ih =>
    have ih := ih fun b hb => h b (by simp [hb])
    unfold pushNs
    by_cases e : a.name.space = xmlnsPrefix
    · obtain ⟨h1, h2⟩ := h a (by simp) e
      rw [if_pos e, if_neg h1, if_neg h2]
      exact ih _ _
    · rw [if_neg e]
      by_cases e' : a.name.space = [] ∧ a.name.loc = xmlnsPrefix
      · rw [if_pos e']
        exact ih _ _
      · rw [if_neg e']
        exact ih _ _

theorem skip_orderly (f d : Nat) (s : S) : Orderly (skip f d) s := by
  induction f generalizing d s with
  | zero => trivial
  | succ f ih =>
    rw [skip, Orderly]
    split
    · trivial
    · exact ih _ _
    · split
      · trivial
      · exact ih _ _
    · exact ih _ _

theorem skip_run : ∀ (c : List Token) (f : Nat) (s : S) (E outer : List Ent) (names : List Name) (rest : List Token), c.length ≤ f → s.err = none →
    s.stk = E ++ .eof :: outer → Seg E names → names ≠ [] → s.inp = c ++ rest → inside names c = some [] → (∀ t ∈ c, DeclsOk t) →
    ∃ s', run (skip f (names.length - 1)) s = some (true, s') ∧ s'.stk = .eof :: outer ∧ s'.inp = rest ∧ s'.err = none
  | [], f, s, E, outer, names, rest, hf, he, hs, hE, hn, hi, hc, hd => by
    cases names with
    | nil => exact absurd rfl hn
    | cons => simp [inside] at hc
  | t :: c, f, s, E, outer, names, rest, hf, he, hs, hE, hn, hi, hc, hd => by
    cases hE with
    | nil => exact absurd rfl hn
    | cons m l E' ms hl hE' =>
      obtain ⟨f, rfl⟩ : ∃ g, f = g + 1 := ⟨f - 1, by simp only [List.length_cons] at hf; omega⟩
      have hf' : c.length ≤ f := by simpa using hf
      have hd' : ∀ t ∈ c, DeclsOk t := fun t ht => hd t (by simp [ht])
      have hne : ∀ l, s.stk ≠ .eof :: l := by intro l e; rw [hs] at e; cases e
      have htok : tok s = cooked { s with inp := c ++ rest } t := by
        unfold tok
        split
        · exact absurd ‹_› (hne _)
        · rw [he, hi]
          rfl
      rw [skip, run, htok]
      cases t with
      | startElement n as =>
        have ho := pushNs_ok (hd _ (by simp) n as rfl) s.ns s.stk
        obtain ⟨l', p1, p2, p3⟩ := pushNs_spec as s.ns s.stk
        rcases hp : pushNs as s.ns s.stk with ⟨e, ns, stk⟩
        rw [hp] at ho p1
        dsimp only at ho p1
        subst ho
        simp only [cooked, hp]
        have := skip_run c f { s with ns := ns, stk := .start n :: stk, inp := c ++ rest } (.start n :: (l' ++ (.start m :: (l ++ E')))) outer
          (n :: m :: ms) rest hf' he (by dsimp only; rw [p1, hs]; simp) (.cons n l' _ _ p2 (.cons m l E' ms hl hE')) (by simp) rfl
          (by simpa [inside] using hc) hd'
        simpa using this
      | endElement n =>
        simp only [inside] at hc
        have hmn : m = n := by
          by_cases e : m = n
          · exact e
          · rw [if_neg e] at hc; cases hc
        subst hmn
        rw [if_pos rfl] at hc
        have hpop := popNs_all hl (E' ++ .eof :: outer) (seg_top hE' _) s.ns
        rw [← List.append_assoc] at hpop
        simp only [cooked, hs, List.cons_append, ne_eq, not_true_eq_false, if_false, hpop, List.length_cons, Nat.add_sub_cancel]
        cases ms with
        | nil =>
          cases hE'
          cases c with
          | cons => simp [inside] at hc
          | nil => exact ⟨_, rfl, rfl, rfl, he⟩
        | cons m' ms =>
          rw [if_neg (by simp)]
          exact skip_run c f { s with ns := unwind s.ns l, stk := E' ++ .eof :: outer, inp := c ++ rest } E' outer (m' :: ms) rest hf' he rfl hE'
            (by simp) rfl hc hd'
      | charData b =>
        exact skip_run c f { s with inp := c ++ rest } _ outer (m :: ms) rest hf' he hs (.cons m l E' ms hl hE') hn rfl (by simpa [inside] using hc) hd'
      | comment b =>
        exact skip_run c f { s with inp := c ++ rest } _ outer (m :: ms) rest hf' he hs (.cons m l E' ms hl hE') hn rfl (by simpa [inside] using hc) hd'
      | procInst a b =>
        exact skip_run c f { s with inp := c ++ rest } _ outer (m :: ms) rest hf' he hs (.cons m l E' ms hl hE') hn rfl (by simpa [inside] using hc) hd'
      | directive b =>
        exact skip_run c f { s with inp := c ++ rest } _ outer (m :: ms) rest hf' he hs (.cons m l E' ms hl hE') hn rfl (by simpa [inside] using hc) hd'

/-- C74, the mark does not get in the way: a method that reads its element with `Skip` succeeds on every well-formed element, and the decoder goes on
right behind it as if the element had not been there. -/
theorem C74_skip {s0 s : S} {m : Name} {as : List Attr} {body rest : List Token} {t : Token}
    (hin : s0.inp = .startElement m as :: (body ++ .endElement m :: rest)) (ht : tok s0 = (.ok t, s)) (htop : Top s0.stk) (hb : Content body)
    (hd : ∀ t ∈ body, DeclsOk t) (f : Nat) (hf : body.length < f) :
    unmarshalInterface (skip f 0) s = some (true, { s0 with inp := rest }) := by
  obtain ⟨stk, hp, hi, l, hl, hstk⟩ := start_inv hin ht htop
  obtain ⟨k1, k2, k3, _, _⟩ := tok_start hin ht
  have hfin : s.fin = s0.fin ∧ ∀ g d s1 b s', run (skip g d) s1 = some (b, s') → s'.fin = s1.fin := by
    have tokfin : ∀ s1 : S, (tok s1).2.fin = s1.fin := by
      intro s1
      unfold tok
      split
      · rfl
      · split
        · rfl
        · split
          · rfl
          · unfold cooked
            split
            · split <;> rfl
            · split
              · split
                · rfl
                · split <;> rfl
              · rfl
            · rfl
    constructor
    · have := tokfin s0
      rw [ht] at this
      exact this
    · intro g
      induction g with
      | zero =>
        intro d s1 b s' h
        simp only [skip, run, Option.some.injEq, Prod.mk.injEq] at h
        rw [h.2]
      | succ g ih =>
        intro d s1 b s' h
        rw [skip, run] at h
        rw [← tokfin s1]
        split at h
        · simp only [run, Option.some.injEq, Prod.mk.injEq] at h
          rw [h.2]
        · exact ih _ _ _ _ h
        · split at h
          · simp only [run, Option.some.injEq, Prod.mk.injEq] at h
            rw [h.2]
          · exact ih _ _ _ _ h
        · exact ih _ _ _ _ h
  have hin' : inside [m] (body ++ [.endElement m]) = some [] := (inside_closed _ _).2 ⟨body, hb, rfl⟩
  obtain ⟨s1, r1, r2, r3, r4⟩ := skip_run (body ++ [.endElement m]) f { s with stk := stk } (.start m :: (l ++ [])) s0.stk [m] rest (by simp; omega) k2
    (by dsimp only; rw [hstk]; simp) (.cons m l [] [] hl .nil) (by simp) (by dsimp only; rw [k3]; simp) hin' (by
      intro t ht
      rcases List.mem_append.1 ht with ht | ht
      · exact hd t ht
      · intro n as e
        rw [List.mem_singleton.1 ht] at e
        cases e)
  obtain ⟨b, s2, q1, _, q3⟩ := run_inv _ _ _ (skip_orderly f 0 _) hi
  have hr : run (skip f 0) { s with stk := stk } = some (true, s1) := r1
  rw [hr] at q1
  injection q1 with q1
  injection q1 with q1 q2
  subst q1
  subst q2
  have hns : s1.ns = s0.ns := by
    rcases q3 rfl with ⟨_, E1, names, c1, g1, g2, g3, _⟩ | ⟨he, _⟩
    · dsimp only at g1 g3
      cases g2 with
      | cons n l' E' ms' hl' hE' => rw [r2] at g1; cases g1
      | nil => simpa [unwind] using g3
    · exact absurd r4 he
  have hf1 : s1.fin = s0.fin := (hfin.2 _ _ _ _ _ hr).trans hfin.1
  unfold unmarshalInterface
  rw [hp]
  dsimp only
  rw [hr, Option.map_some]
  simp only [leave, r2]
  cases s1; cases s0
  simp_all

/-! ### The same decoder -/

/-- An entry of the stack of `Verif.Xml`. -/
def emb : Stk → Ent
  | .start n => .start n
  | .ns k o => .ns k o

theorem pushNs_emb (as : List Attr) (ns : NsMap) (E : List Stk) (x : List Ent) :
    match Xml.pushNs as ns E with
    | .ok (ns', E') => pushNs as ns (E.map emb ++ x) = (none, ns', E'.map emb ++ x)
    | .error e => (pushNs as ns (E.map emb ++ x)).1 = some e := by
  induction as generalizing ns E with
  | nil => rfl
  | cons a as ih =>
    unfold Xml.pushNs pushNs
    by_cases e : a.name.space = xmlnsPrefix
    · rw [if_pos e, if_pos e]
      by_cases e1 : a.value = []
      · rw [if_pos e1, if_pos e1]
      · rw [if_neg e1, if_neg e1]
        by_cases e2 : a.name.loc = []
        · rw [if_pos e2, if_pos e2]
        · rw [if_neg e2, if_neg e2]
          exact ih _ (.ns a.name.loc (ns a.name.loc) :: E)
    · rw [if_neg e, if_neg e]
      by_cases e' : a.name.space = [] ∧ a.name.loc = xmlnsPrefix
      · rw [if_pos e', if_pos e']
        exact ih _ (.ns [] (ns []) :: E)
      · rw [if_neg e', if_neg e']
        exact ih _ _

theorem popNs_emb (ns : NsMap) (E : List Stk) (x : List Ent) (hx : Top x) :
    popNs ns (E.map emb ++ x) = ((Xml.popNs ns E).1, (Xml.popNs ns E).2.map emb ++ x) := by
  induction E generalizing ns with
  | nil =>
    cases x with
    | nil => rfl
    | cons e x =>
      cases e with
      | ns k o => exact absurd rfl (hx k o x)
      | _ => rfl
  | cons e E ih =>
    cases e with
    | start n => rfl
    | ns k o => exact ih _

/-- C74, a method sees the same tokens: behind the mark of `pushEOF`, while the element is not finished, `Token` does with the next raw token what it
does without a mark on the part of the stack above the mark. -/
theorem C74_same {s : S} {E : List Stk} {x : List Ent} {t : Token} {r : List Token} (hs : s.stk = E.map emb ++ x) (hE : E ≠ []) (hx : Top x)
    (he : s.err = none) (hi : s.inp = t :: r) :
    match cook t s.ns E with
    | .ok (t', ns', E') => tok s = (.ok t', { s with ns := ns', stk := E'.map emb ++ x, inp := r })
    | .error e => (tok s).1 = .error e ∧ (tok s).2.err = some e ∧ (tok s).2.inp = r := by
  have htok : tok s = cooked { s with inp := r } t := by
    unfold tok
    split
    · rename_i h
      rw [hs] at h
      cases E with
      | nil => exact absurd rfl hE
      | cons e E => cases e <;> cases h
    · rw [he, hi]
  rw [htok]
  cases t with
  | startElement n as =>
    have h := pushNs_emb as s.ns E x
    rw [← hs] at h
    unfold cook cooked
    dsimp only
    cases hp : Xml.pushNs as s.ns E with
    | error e =>
      rw [hp] at h
      dsimp only at h ⊢
      rcases hq : pushNs as s.ns s.stk with ⟨e', ns, stk⟩
      rw [hq] at h
      dsimp only at h
      subst h
      exact ⟨rfl, rfl, rfl⟩
    | ok p =>
      rw [hp] at h
      dsimp only at h ⊢
      rw [h]
      rfl
  | endElement n =>
    unfold cook cooked
    dsimp only
    rw [hs]
    cases E with
    | nil => exact absurd rfl hE
    | cons e E =>
      cases e with
      | ns k o => exact ⟨rfl, rfl, rfl⟩
      | start m =>
        unfold Xml.popElement
        simp only [List.map_cons, List.cons_append, emb]
        by_cases e1 : m.loc ≠ n.loc
        · rw [if_pos e1, if_pos e1]
          exact ⟨rfl, rfl, rfl⟩
        · rw [if_neg e1, if_neg e1]
          by_cases e2 : m.space ≠ n.space
          · rw [if_pos e2, if_pos e2]
            exact ⟨rfl, rfl, rfl⟩
          · rw [if_neg e2, if_neg e2]
            have := popNs_emb s.ns E x hx
            dsimp only [emb] at this ⊢
            rw [this]
  | _ => simp only [cook, cooked, hs]

/-! ### Cases -/

/-- `<p>` has been read. -/
def sP : S := ⟨[.start ⟨[], b!"p"⟩], fun _ => none,
  [.startElement ⟨[], b!"a"⟩ [⟨⟨[], b!"xmlns"⟩, b!"u"⟩], .startElement ⟨[], b!"b"⟩ [], .endElement ⟨[], b!"b"⟩, .endElement ⟨[], b!"a"⟩,
    .charData (b!"x"), .endElement ⟨[], b!"p"⟩], .eof, none⟩

/-- `<p><a xmlns="u">` has been read. -/
def sA : S := (tok sP).2

example : (tok sP).1 = .ok (.startElement ⟨b!"u", b!"a"⟩ [⟨⟨[], b!"xmlns"⟩, b!"u"⟩]) := by krfl

example : (unmarshalInterface (skip 9 0) sA).map (fun x => (x.1, x.2.inp)) = some (true, [.charData (b!"x"), .endElement ⟨[], b!"p"⟩]) := by krfl

example : Content [.startElement ⟨[], b!"b"⟩ [], .endElement ⟨[], b!"b"⟩] := .elem _ _ [] [] .nil .nil

/-- A method that hands the inner element on to another one. -/
example : (unmarshalInterface (.token fun _ => .nested (skip 9 0) fun b => if b then skip 9 0 else .done false) sA).map (fun x => (x.1, x.2.inp)) =
    some (true, [.charData (b!"x"), .endElement ⟨[], b!"p"⟩]) := by krfl

/-- A method that leaves the end of its element: not a success. -/
example : (unmarshalInterface (.token fun _ => .token fun _ => .done true) sA).map (fun x => (x.1, x.2.inp.length)) = some (false, 3) := by krfl

/-- A method that goes on after the end: it gets `io.EOF` and reads nothing. -/
example : (unmarshalInterface (.token fun _ => .token fun _ => .token fun _ => .token fun t => .token fun _ => .done (t = .error .eof)) sA).map
    (fun x => (x.1, x.2.inp.length)) = some (true, 2) := by krfl

/-- A method that calls `DecodeElement` when its element is finished. -/
def late : User := .token fun _ => .token fun _ => .token fun _ => .nested (.done true) fun _ => .token fun _ => .token fun _ => .done true

/-- C74, why `DecodeElement` must not be called after the end of the element: `pushEOF` then goes past the mark of the method to the parent, the mark of
the method is taken away, and the method reads the rest of the parent, with success. -/
theorem C74_refuted : (unmarshalInterface late sA).map (fun x => (x.1, x.2.inp)) = some (true, []) := by krfl

/-- A method that calls `DecodeElement` for a value whose method fails at once, and goes on. -/
def careless : User := .token fun _ => .nested (.done false) fun _ => .token fun _ => .done true

/-- C74, why a method must fail if `DecodeElement` fails: the mark of the inner call stays, so the outer method is taken to have read its element, though
its end has not been read. -/
theorem C74_careless_refuted : (unmarshalInterface careless sA).map (fun x => (x.1, x.2.inp.head?)) = some (true, some (.endElement ⟨[], b!"a"⟩)) := by krfl

/-- C74, the panic: `DecodeElement` after the end of the root element, from the method of the root element, goes through the whole stack. -/
theorem C74_panic_refuted : unmarshalInterface (.token fun _ => .nested (.done true) fun _ => .done true)
    ⟨[.start ⟨[], b!"a"⟩], fun _ => none, [.endElement ⟨[], b!"a"⟩], .eof, none⟩ = none := by krfl

end Verif.Sandbox

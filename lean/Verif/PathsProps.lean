import Verif.Paths

/-! C72: fields with paths. -/
namespace Verif.Paths

open Verif Verif.Xml

/-! ### The check of paths -/

theorem agree_iff : ∀ (l m : List Bytes), agree l m = true ↔ l <+: m ∨ m <+: l
  | [], m => by simp [agree]
  | a :: l, [] => by simp [agree]
  | a :: l, b :: m => by
    simp only [agree, Bool.and_eq_true, beq_iff_eq, agree_iff l m, List.cons_prefix_cons]
    constructor
    · rintro ⟨rfl, h | h⟩
      · exact .inl ⟨rfl, h⟩
      · exact .inr ⟨rfl, h⟩
    · rintro (⟨rfl, h⟩ | ⟨rfl, h⟩)
      · exact ⟨rfl, .inl h⟩
      · exact ⟨rfl, .inr h⟩

theorem prefix_snoc {l m : List Bytes} {x : Bytes} (h : l.length < m.length) : l ++ [x] <+: m ↔ l <+: m ∧ m[l.length]? = some x := by
  constructor
  · rintro ⟨t, rfl⟩
    refine ⟨⟨x :: t, by simp⟩, by simp⟩
  · rintro ⟨⟨t, rfl⟩, e⟩
    cases t with
    | nil => simp at h
    | cons y t =>
      simp at e
      subst e
      exact ⟨t, by simp⟩

theorem conflict_iff (o n : Field) (ho : o.xmlns = []) (hn : n.xmlns = []) :
    conflict o n = true ↔ o.path <+: n.path ∨ n.path <+: o.path := by
  have key : ∀ (l m : List Bytes) (x y : Bytes), l.length < m.length →
      ((l ++ [x] <+: m ++ [y] ∨ m ++ [y] <+: l ++ [x]) ↔ l <+: m ∧ m[l.length]? = some x) := by
    intro l m x y h
    rw [← prefix_snoc h]
    constructor
    · rintro (h1 | h1)
      · rw [List.prefix_concat_iff] at h1
        rcases h1 with h1 | h1
        · have := congrArg List.length h1
          simp at this
          omega
        · exact h1
      · have := h1.length_le
        simp at this
        omega
    · intro h1
      exact .inl (h1.trans (List.prefix_append _ _))
  have ag : ∀ (l m : List Bytes), l.length < m.length → (agree l m = true ↔ l <+: m) := by
    intro l m h
    rw [agree_iff]
    constructor
    · rintro (h1 | h1)
      · exact h1
      · have := h1.length_le
        omega
    · exact .inl
  have agc : ∀ (l m : List Bytes), agree l m = agree m l := by
    intro l m
    rw [Bool.eq_iff_iff, agree_iff, agree_iff, or_comm]
  unfold conflict Field.path
  rw [if_neg (by simp [ho])]
  rcases Nat.lt_trichotomy o.parents.length n.parents.length with h | h | h
  · rw [key _ _ _ _ h, ← ag _ _ h]
    cases agree o.parents n.parents <;> simp [h, Nat.lt_asymm h]
  · by_cases ha : agree o.parents n.parents = true
    · have e : o.parents = n.parents := by
        rcases (agree_iff _ _).1 ha with h1 | h1
        · exact h1.eq_of_length h
        · exact (h1.eq_of_length h.symm).symm
      have hr : agree n.parents n.parents = true := (agree_iff _ _).2 (.inl (List.prefix_refl _))
      simp [ho, hn, e, hr]
      exact Eq.symm
    · simp only [Bool.not_eq_true] at ha
      have hne : o.parents ≠ n.parents := by
        intro e
        rw [e, Bool.eq_false_iff, Ne, agree_iff] at ha
        exact ha (.inl (List.prefix_refl _))
      simp only [ha, Bool.not_false, if_true, Bool.false_eq_true, false_iff, not_or]
      constructor <;> intro h1
      · have := h1.eq_of_length (by simp [h])
        exact hne (List.append_inj_left this (by omega))
      · have := h1.eq_of_length (by simp [h])
        exact hne (List.append_inj_left this (by omega)).symm
  · rw [or_comm, key _ _ _ _ h, ← ag _ _ h, agc]
    cases agree n.parents o.parents <;> simp [h]

/-- The fields in a table have no namespace. -/
def Plain (fs : List Field) : Prop := ∀ f ∈ fs, f.xmlns = []

theorem apart_snoc {fs : List Field} {n : Field} (h : Apart fs) (hp : Plain fs) (hn : n.xmlns = [])
    (hc : ∀ o ∈ fs, conflict o n = false) : Apart (fs ++ [n]) := by
  unfold Apart at h ⊢
  rw [List.pairwise_append]
  refine ⟨h, by simp, fun o ho m hm => ?_⟩
  rw [List.mem_singleton] at hm
  subst hm
  have := hc o ho
  rw [Bool.eq_false_iff, Ne, conflict_iff o m (hp o ho) hn, not_or] at this
  exact this

theorem add_apart {fs gs : List Field} {n : Field} (h : Apart fs) (hp : Plain fs) (hn : n.xmlns = [])
    (e : addFieldInfo fs n = some gs) : Apart gs ∧ Plain gs := by
  have pl : ∀ l : List Field, (∀ f ∈ l, f ∈ fs) → Plain (l ++ [n]) := by
    intro l hl f hf
    rcases List.mem_append.1 hf with hf | hf
    · exact hp f (hl f hf)
    · rw [List.mem_singleton] at hf
      rw [hf]; exact hn
  unfold addFieldInfo at e
  dsimp only at e
  split_ifs at e with h1 h2 h3
  · injection e with e
    subst e
    refine ⟨apart_snoc h hp hn fun o ho => ?_, pl fs fun _ h => h⟩
    rw [List.isEmpty_iff, List.filter_eq_nil_iff] at h1
    simpa using h1 o ho
  · injection e with e
    subst e
    exact ⟨h, hp⟩
  · injection e with e
    subst e
    refine ⟨apart_snoc (List.Pairwise.sublist List.filter_sublist h) (fun f hf => hp f (List.mem_filter.1 hf).1) hn fun o ho => ?_,
      pl _ fun f hf => (List.mem_filter.1 hf).1⟩
    simpa using (List.mem_filter.1 ho).2

/-- C72: in the table of fields that `getTypeInfo` makes no path begins with another one. -/
theorem C72_table (l : List Field) (hl : Plain l) : ∀ fs gs, Apart fs → Plain fs → table fs l = some gs → Apart gs ∧ Plain gs := by
  induction l with
  | nil =>
    intro fs gs h hp e
    simp only [table, Option.some.injEq] at e
    subst e
    exact ⟨h, hp⟩
  | cons n l ih =>
    intro fs gs h hp e
    simp only [table] at e
    split at e
    · rename_i fs' hadd
      obtain ⟨h1, h2⟩ := add_apart h hp (hl n (by simp)) hadd
      exact ih (fun f hf => hl f (by simp [hf])) fs' gs h1 h2 e
    · exact absurd e (by simp)

/-- C72: fields of the same depth are accepted exactly if no path begins with another one, and then all are in the table. -/
theorem C72_accepts (l : List Field) (d : Nat) (hl : Plain l) (hd : ∀ f ∈ l, f.depth = d) :
    (Apart l → table [] l = some l) ∧ (¬ Apart l → table [] l = none) := by
  have main : ∀ (l fs : List Field), Plain l → Plain fs → (∀ f ∈ l, f.depth = d) → (∀ f ∈ fs, f.depth = d) → Apart fs →
      (Apart (fs ++ l) → table fs l = some (fs ++ l)) ∧ (¬ Apart (fs ++ l) → table fs l = none) := by
    intro l
    induction l with
    | nil => intro fs _ _ _ _ h; simp [table, h]
    | cons n l ih =>
      intro fs hl hp hd hd' h
      have hn : n.xmlns = [] := hl n (by simp)
      simp only [table, addFieldInfo]
      by_cases hc : (fs.filter fun o => conflict o n).isEmpty = true
      · rw [if_pos hc]
        dsimp only
        have hs : Apart (fs ++ [n]) := by
          refine apart_snoc h hp hn fun o ho => ?_
          rw [List.isEmpty_iff, List.filter_eq_nil_iff] at hc
          simpa using hc o ho
        have := ih (fs ++ [n]) (fun f hf => hl f (by simp [hf])) ?_ (fun f hf => hd f (by simp [hf])) ?_ hs
        · simpa using this
        · intro f hf
          rcases List.mem_append.1 hf with hf | hf
          · exact hp f hf
          · rw [List.mem_singleton] at hf; rw [hf]; exact hn
        · intro f hf
          rcases List.mem_append.1 hf with hf | hf
          · exact hd' f hf
          · rw [List.mem_singleton] at hf; rw [hf]; exact hd n (by simp)
      · rw [if_neg hc]
        have hex : ∃ o ∈ fs, conflict o n = true := by
          by_contra hno
          apply hc
          rw [List.isEmpty_iff, List.filter_eq_nil_iff]
          intro o ho hco
          exact hno ⟨o, ho, hco⟩
        obtain ⟨o, ho, hco⟩ := hex
        have e1 : ((fs.filter fun o => conflict o n).any fun o => decide (o.depth < n.depth)) = false := by
          rw [List.any_eq_false]
          intro x hx
          have := hd' x (List.mem_filter.1 hx).1
          have := hd n (by simp)
          simp; omega
        have e2 : ((fs.filter fun o => conflict o n).any fun o => o.depth == n.depth) = true := by
          rw [List.any_eq_true]
          refine ⟨o, List.mem_filter.2 ⟨ho, hco⟩, ?_⟩
          rw [hd' o ho, hd n (by simp)]; simp
        rw [e1, e2]
        simp only [Bool.false_eq_true, if_false, if_true]
        refine ⟨fun hA => ?_, fun _ => by trivial⟩
        exfalso
        unfold Apart at hA
        rw [List.pairwise_append] at hA
        have := hA.2.2 o ho n (by simp)
        rcases (conflict_iff o n (hp o ho) hn).1 hco with h' | h'
        · exact this.1 h'
        · exact this.2 h'
  have := main l [] hl (by intro f hf; simp at hf) hd (by simp) List.Pairwise.nil
  simpa using this

/-! ### Reading -/

theorem elemsAt_nil (p : List Bytes) : elemsAt p [] = [] := by
  match p with
  | [] => rfl
  | [n] => rfl
  | n :: m :: p => rfl

theorem elemsAt_append (p : List Bytes) (F G : List Tree) : elemsAt p (F ++ G) = elemsAt p F ++ elemsAt p G := by
  match p with
  | [] => rfl
  | [n] => simp [elemsAt]
  | n :: m :: p => simp [elemsAt]

/-- What the loop over the fields finds, on a table where no path begins with another one. -/
theorem step_spec (parents : List Bytes) (n : Name) (fs : List Field) (i0 : Nat) (hp : Plain fs) :
    match step parents n i0 fs with
    | none => ∀ f ∈ fs, ¬ parents ++ [n.loc] <+: f.path
    | some (.hit i) => ∃ j f, i = i0 + j ∧ fs[j]? = some f ∧ f.path = parents ++ [n.loc]
    | some (.down ps) => ps = parents ++ [n.loc] ∧ ∃ f ∈ fs, ps <+: f.parents := by
  induction fs generalizing i0 with
  | nil => simp [step]
  | cons f fs ih =>
    have hf : f.xmlns = [] := hp f (by simp)
    have ih := ih (i0 + 1) (fun g hg => hp g (by simp [hg]))
    -- the next field, if this one does not match
    have next : ¬ parents ++ [n.loc] <+: f.path →
        match step parents n (i0 + 1) fs with
        | none => ∀ g ∈ f :: fs, ¬ parents ++ [n.loc] <+: g.path
        | some (.hit i) => ∃ j g, i = i0 + j ∧ (f :: fs)[j]? = some g ∧ g.path = parents ++ [n.loc]
        | some (.down ps) => ps = parents ++ [n.loc] ∧ ∃ g ∈ f :: fs, ps <+: g.parents := by
      intro hno
      split at ih
      · intro g hg
        rcases List.mem_cons.1 hg with rfl | hg
        · exact hno
        · exact ih g hg
      · obtain ⟨j, g, e, hg, hpath⟩ := ih
        exact ⟨j + 1, g, by omega, by simpa using hg, hpath⟩
      · obtain ⟨e, g, hg, h⟩ := ih
        exact ⟨e, g, by simp [hg], h⟩
    unfold step
    by_cases h1 : f.parents.length < parents.length
    · rw [if_pos (.inl h1)]
      refine next fun h => ?_
      have := h.length_le
      simp [Field.path] at this
      omega
    · rw [if_neg (by simp [hf, h1])]
      by_cases h2 : f.parents.take parents.length = parents
      · rw [if_neg (by simpa using h2)]
        have hpre : parents <+: f.parents := by
          have := List.take_prefix parents.length f.parents
          rwa [h2] at this
        by_cases h3 : f.parents.length = parents.length ∧ f.name = n.loc
        · rw [if_pos h3]
          refine ⟨0, f, by omega, by simp, ?_⟩
          rw [Field.path, ← hpre.eq_of_length h3.1.symm, h3.2]
        · rw [if_neg h3]
          by_cases h4 : f.parents[parents.length]? = some n.loc
          · rw [if_pos h4]
            have hlt : parents.length < f.parents.length := by
              by_contra hh
              rw [List.getElem?_eq_none (by omega)] at h4
              cases h4
            have h5 : parents ++ [n.loc] <+: f.parents := (prefix_snoc hlt).2 ⟨hpre, h4⟩
            have h6 : f.parents.take (parents.length + 1) = parents ++ [n.loc] := by
              have := List.prefix_iff_eq_take.1 h5
              simp only [List.length_append, List.length_cons, List.length_nil] at this
              exact this.symm
            rw [h6]
            exact ⟨rfl, f, by simp, h5⟩
          · rw [if_neg h4]
            refine next fun h => ?_
            rw [Field.path] at h
            rcases Nat.lt_or_ge parents.length f.parents.length with hlt | hge
            · have h7 : parents ++ [n.loc] <+: f.parents := by
                rw [List.prefix_concat_iff] at h
                rcases h with h | h
                · have := congrArg List.length h
                  simp at this
                  omega
                · exact h
              exact h4 ((prefix_snoc hlt).1 h7).2
            · have hl : f.parents.length = parents.length := le_antisymm hge (Nat.le_of_not_lt h1)
              have := h.eq_of_length (by simp [hl])
              have := List.append_inj_right this (by omega)
              simp at this
              exact h3 ⟨hl, this.symm⟩
      · rw [if_pos (by simpa using h2)]
        refine next fun h => ?_
        have h8 : parents <+: f.parents ++ [f.name] := (List.prefix_append _ _).trans h
        rw [List.prefix_concat_iff] at h8
        rcases h8 with h8 | h8
        · have := h.length_le
          rw [h8] at this
          simp [Field.path] at this
        · exact h2 (List.prefix_iff_eq_take.1 h8).symm

/-- In a table where no path begins with another one, a path that begins with another is the same. -/
theorem apart_eq {fs : List Field} (h : Apart fs) {i j : Nat} {f g : Field} (hi : fs[i]? = some f) (hj : fs[j]? = some g)
    (hp : f.path <+: g.path) : i = j := by
  obtain ⟨li, ei⟩ := List.getElem?_eq_some_iff.1 hi
  obtain ⟨lj, ej⟩ := List.getElem?_eq_some_iff.1 hj
  rcases Nat.lt_trichotomy i j with hlt | e | hlt
  · have := List.pairwise_iff_getElem.1 h i j li lj hlt
    rw [ei, ej] at this
    exact absurd hp this.1
  · exact e
  · have := List.pairwise_iff_getElem.1 h j i lj li hlt
    rw [ei, ej] at this
    exact absurd hp this.2

/-- What is given to a field. -/
def pick (i : Nat) (l : List (Nat × Tree)) : List Tree := l.filterMap fun p => if p.1 = i then some p.2 else none

theorem pick_append (i : Nat) (l m : List (Nat × Tree)) : pick i (l ++ m) = pick i l ++ pick i m := by simp [pick]

theorem elemsAt_cons (n : Bytes) (p : List Bytes) (hp : p ≠ []) (F : List Tree) :
    elemsAt (n :: p) F = (F.filter fun t => t.name.loc = n).flatMap fun t => elemsAt p t.kids := by
  match p, hp with
  | m :: p, _ => rfl

mutual
theorem path_spec (fs : List Field) (hA : Apart fs) (hP : Plain fs) (i : Nat) (f : Field) (hi : fs[i]? = some f) (parents : List Bytes) :
    ∀ t : Tree, (∀ q, f.path = parents ++ q → q ≠ [] → pick i (unmarshalPath fs parents t) = elemsAt q [t]) ∧
      (¬ parents <+: f.parents → pick i (unmarshalPath fs parents t) = [])
  | .node n x k => by
    have hs := step_spec parents n fs 0 hP
    have hmem : f ∈ fs := List.mem_of_getElem? hi
    constructor
    · intro q hq hne
      obtain ⟨m, q, rfl⟩ := List.exists_cons_of_ne_nil hne
      unfold unmarshalPath
      by_cases hm : n.loc = m
      · subst hm
        have hpre : parents ++ [n.loc] <+: f.path := ⟨q, by rw [hq]; simp⟩
        cases q with
        | nil =>
          cases hst : step parents n 0 fs with
          | none => rw [hst] at hs; exact absurd hpre (hs f hmem)
          | some r =>
            cases r with
            | hit j =>
              rw [hst] at hs
              obtain ⟨j', g, e, hg, hpath⟩ := hs
              have : j' = i := apart_eq hA hg hi (by rw [hpath]; exact hpre)
              have : j = i := by omega
              subst this
              simp [pick, elemsAt, Tree.name]
            | down ps =>
              rw [hst] at hs
              obtain ⟨rfl, g, hg, hpg⟩ := hs
              obtain ⟨j, hj⟩ := List.getElem?_of_mem hg
              have hfg : f.path <+: g.path := by
                rw [hq]
                exact hpg.trans (List.prefix_append _ _)
              have := apart_eq hA hi hj hfg
              subst this
              rw [hi] at hj
              injection hj with hj
              subst hj
              have := hpg.length_le
              have e := congrArg List.length hq
              simp [Field.path] at this e
              omega
        | cons m' q =>
          cases hst : step parents n 0 fs with
          | none => rw [hst] at hs; exact absurd hpre (hs f hmem)
          | some r =>
            cases r with
            | hit j =>
              rw [hst] at hs
              obtain ⟨j', g, e, hg, hpath⟩ := hs
              have : j' = i := apart_eq hA hg hi (by rw [hpath]; exact hpre)
              subst this
              rw [hg] at hi
              injection hi with hi
              subst hi
              rw [hq] at hpath
              simp at hpath
            | down ps =>
              rw [hst] at hs
              obtain ⟨rfl, -⟩ := hs
              dsimp only
              rw [(paths_spec fs hA hP i f hi (parents ++ [n.loc]) k).1 (m' :: q) (by rw [hq]; simp) (by simp)]
              simp [elemsAt_cons, Tree.name, Tree.kids]
      · have hz : elemsAt (m :: q) [.node n x k] = [] := by
          cases q with
          | nil => simp [elemsAt, Tree.name, hm]
          | cons m' q => simp [elemsAt_cons, Tree.name, hm]
        rw [hz]
        have hnp : ¬ parents ++ [n.loc] <+: f.path := by
          rintro ⟨t, ht⟩
          rw [hq, List.append_assoc, List.append_cancel_left_eq] at ht
          simp at ht
          exact hm ht.1
        cases hst : step parents n 0 fs with
        | none => rfl
        | some r =>
          cases r with
          | hit j =>
            rw [hst] at hs
            obtain ⟨j', g, e, hg, hpath⟩ := hs
            have : j ≠ i := by
              rintro rfl
              have : j' = j := by omega
              subst this
              rw [hg] at hi
              injection hi with hi
              subst hi
              exact hnp (by rw [hpath])
            simp [pick, this]
          | down ps =>
            rw [hst] at hs
            obtain ⟨rfl, -⟩ := hs
            exact (paths_spec fs hA hP i f hi (parents ++ [n.loc]) k).2 fun h => hnp (h.trans (List.prefix_append _ _))
    · intro hno
      unfold unmarshalPath
      cases hst : step parents n 0 fs with
      | none => rfl
      | some r =>
        cases r with
        | hit j =>
          rw [hst] at hs
          obtain ⟨j', g, e, hg, hpath⟩ := hs
          have : j ≠ i := by
            rintro rfl
            have : j' = j := by omega
            subst this
            rw [hg] at hi
            injection hi with hi
            subst hi
            rw [Field.path] at hpath
            have := List.append_inj_left' hpath rfl
            exact hno (by rw [this])
          simp [pick, this]
        | down ps =>
          rw [hst] at hs
          obtain ⟨rfl, -⟩ := hs
          exact (paths_spec fs hA hP i f hi (parents ++ [n.loc]) k).2 fun h => hno ((List.prefix_append _ _).trans h)
theorem paths_spec (fs : List Field) (hA : Apart fs) (hP : Plain fs) (i : Nat) (f : Field) (hi : fs[i]? = some f) (parents : List Bytes) :
    ∀ l : List Tree, (∀ q, f.path = parents ++ q → q ≠ [] → pick i (unmarshalPaths fs parents l) = elemsAt q l) ∧
      (¬ parents <+: f.parents → pick i (unmarshalPaths fs parents l) = [])
  | [] => ⟨fun q _ _ => by rw [elemsAt_nil]; rfl, fun _ => rfl⟩
  | t :: l => by
    obtain ⟨h1, h2⟩ := path_spec fs hA hP i f hi parents t
    obtain ⟨h3, h4⟩ := paths_spec fs hA hP i f hi parents l
    refine ⟨fun q hq hne => ?_, fun hno => ?_⟩
    · rw [unmarshalPaths, pick_append, h1 q hq hne, h3 q hq hne, ← elemsAt_append]
      rfl
    · rw [unmarshalPaths, pick_append, h2 hno, h4 hno]
      rfl
end

/-- C72 (reading): every field gets exactly the elements at its path, in document order, whatever else is in the document. -/
theorem C72_read (fs : List Field) (hA : Apart fs) (hP : Plain fs) (F : List Tree) (i : Nat) (f : Field) (hi : fs[i]? = some f) :
    got fs F i = elemsAt f.path F :=
  (paths_spec fs hA hP i f hi [] F).1 f.path rfl (by simp [Field.path])

/-! ### Writing -/

theorem flats_append (F G : List Tree) : flats (F ++ G) = flats F ++ flats G := by
  induction F with
  | nil => rfl
  | cons t F ih => simp [flats, ih]

/-- Levels of open elements, the outermost first: what is before the open element, and its name; and what is in the innermost. -/
structure Open where
  up : List (List Tree × Bytes)
  cur : List Tree

/-- The elements, when the open ones are closed. -/
def forest : List (List Tree × Bytes) → List Tree → List Tree
  | [], L => L
  | (S, n) :: up, L => S ++ [.node (pname n) [] (forest up L)]

/-- The tags written so far. -/
def toks : List (List Tree × Bytes) → List Tree → List Tok
  | [], L => flats L
  | (S, n) :: up, L => flats S ++ .start (pname n) [] :: toks up L

theorem toks_append (up : List (List Tree × Bytes)) (L M : List Tree) : toks up (L ++ M) = toks up L ++ flats M := by
  induction up with
  | nil => exact flats_append L M
  | cons p up ih =>
    obtain ⟨S, n⟩ := p
    simp [toks, ih]

theorem toks_open (up : List (List Tree × Bytes)) (L : List Tree) (n : Bytes) :
    toks (up ++ [(L, n)]) [] = toks up L ++ [.start (pname n) []] := by
  induction up with
  | nil => simp [toks, flats]
  | cons p up ih =>
    obtain ⟨S, m⟩ := p
    simp [toks, ih]

theorem toks_close (up : List (List Tree × Bytes)) (S L : List Tree) (n : Bytes) :
    toks (up ++ [(S, n)]) L ++ [.stop (pname n)] = toks up (S ++ [.node (pname n) [] L]) := by
  induction up with
  | nil => simp [toks, flats_append, flats, flat]
  | cons p up ih =>
    obtain ⟨S', m⟩ := p
    simp only [List.cons_append, toks, List.append_assoc]
    rw [ih]

theorem forest_close (up : List (List Tree × Bytes)) (S L : List Tree) (n : Bytes) :
    forest (up ++ [(S, n)]) L = forest up (S ++ [.node (pname n) [] L]) := by
  induction up with
  | nil => rfl
  | cons p up ih =>
    obtain ⟨S', m⟩ := p
    simp only [List.cons_append, forest, ih]

/-- The state of the printer is that of these open elements. -/
def Is (st : St) (o : Open) : Prop := st.out = toks o.up o.cur ∧ st.stack = o.up.map Prod.snd

/-- Adding elements in the innermost open element. -/
theorem elemsAt_add (p : List Bytes) (L M : List Tree) :
    ∀ (up : List (List Tree × Bytes)), ¬ p <+: up.map Prod.snd →
      elemsAt p (forest up (L ++ M)) = elemsAt p (forest up L) ++
        (if up.map Prod.snd <+: p then elemsAt (p.drop up.length) M else [])
  | [], _ => by simp [forest, elemsAt_append]
  | (S, n) :: up, h => by
    match p, h with
    | [], h => exact absurd (List.nil_prefix) h
    | [m], h =>
      have hne : n ≠ m := by rintro rfl; exact h (by simp)
      simp [forest, elemsAt, Tree.name, pname, hne]
    | m :: m' :: p, h =>
      simp only [forest, elemsAt_append]
      by_cases hne : n = m
      · subst hne
        have h' : ¬ (m' :: p) <+: up.map Prod.snd := fun hh => h (by simpa using hh)
        have ih := elemsAt_add (m' :: p) L M up h'
        rw [elemsAt_cons _ _ (by simp), elemsAt_cons _ _ (by simp)]
        simp [Tree.name, pname, Tree.kids, elemsAt_cons, ih]
      · simp [elemsAt_cons, Tree.name, pname, hne, Ne.symm]

theorem common_spec : ∀ l m : List Bytes, m.take (common l m) <+: l ∧ common l m ≤ m.length ∧ common l m ≤ l.length
  | [], m => by simp [common]
  | a :: l, [] => by simp [common]
  | a :: l, b :: m => by
    unfold common
    split_ifs with h
    · subst h
      obtain ⟨h1, h2, h3⟩ := common_spec l m
      simp [h1, h2, h3]
    · simp

/-- Closing elements. -/
theorem close_spec (k : Nat) : ∀ (o : Open) (out : List Tok), out = toks o.up o.cur → k ≤ o.up.length →
    ∃ o' : Open, o'.up = o.up.take (o.up.length - k) ∧ forest o'.up o'.cur = forest o.up o.cur ∧
      toks o'.up o'.cur = out ++ ((o.up.map Prod.snd).drop (o.up.length - k)).reverse.map (fun n => .stop (pname n)) := by
  induction k with
  | zero =>
    intro o out h _
    refine ⟨o, by simp, rfl, ?_⟩
    rw [List.drop_of_length_le (by simp)]
    simp [h]
  | succ k ih =>
    intro o out h hk
    obtain ⟨o1, e1, e2, e3⟩ := ih o out h (by omega)
    have hlt : o.up.length - (k + 1) < o.up.length := by omega
    obtain ⟨⟨S, n⟩, hSn⟩ : ∃ x, o.up[o.up.length - (k + 1)] = x := ⟨_, rfl⟩
    have e4 : o1.up = o.up.take (o.up.length - (k + 1)) ++ [(S, n)] := by
      rw [e1, show o.up.length - k = (o.up.length - (k + 1)) + 1 by omega, List.take_add_one,
        List.getElem?_eq_getElem hlt, hSn]
      rfl
    refine ⟨⟨o.up.take (o.up.length - (k + 1)), S ++ [.node (pname n) [] o1.cur]⟩, rfl, ?_, ?_⟩
    · dsimp only
      rw [← forest_close, ← e4, e2]
    · dsimp only
      rw [← toks_close, ← e4, e3, List.append_assoc]
      congr 1
      rw [show (o.up.map Prod.snd).drop (o.up.length - (k + 1)) = n :: (o.up.map Prod.snd).drop (o.up.length - k) by
        rw [List.drop_eq_getElem_cons (by simpa using hlt)]
        congr 1
        · simp [hSn]
        · congr 1; omega]
      simp

theorem trim_spec (st : St) (o : Open) (h : Is st o) (parents : List Bytes) :
    ∃ o', Is (trim st parents) o' ∧ forest o'.up o'.cur = forest o.up o.cur ∧ (trim st parents).stack <+: parents := by
  obtain ⟨hc1, hc2, -⟩ := common_spec parents st.stack
  have hl : st.stack.length = o.up.length := by rw [h.2]; simp
  obtain ⟨o', e1, e2, e3⟩ := close_spec (o.up.length - common parents st.stack) o st.out h.1 (by omega)
  have ek : o.up.length - (o.up.length - common parents st.stack) = common parents st.stack := by omega
  rw [ek] at e1 e3
  refine ⟨o', ⟨?_, ?_⟩, e2, hc1⟩
  · rw [e3, ← h.2]; rfl
  · rw [e1]
    simp only [trim, h.2, List.map_take]

/-- Opening elements. -/
theorem push_spec (ps : List Bytes) : ∀ (st : St) (o : Open), Is st o →
    ∃ o', Is (push st ps) o' ∧ ∀ p, ¬ p <+: o.up.map Prod.snd ++ ps → elemsAt p (forest o'.up o'.cur) = elemsAt p (forest o.up o.cur) := by
  induction ps with
  | nil =>
    intro st o h
    refine ⟨o, ?_, fun p _ => rfl⟩
    simpa [push] using h
  | cons n ps ih =>
    intro st o h
    have h1 : Is (push st [n]) ⟨o.up ++ [(o.cur, n)], []⟩ := by
      refine ⟨?_, ?_⟩
      · simp only [push, List.map_cons, List.map_nil]
        rw [toks_open, h.1]
      · simp [push, h.2]
    obtain ⟨o', h2, h3⟩ := ih _ _ h1
    have he : push (push st [n]) ps = push st (n :: ps) := by simp [push]
    rw [he] at h2
    refine ⟨o', h2, fun p hp => ?_⟩
    rw [h3 p (by simpa using hp)]
    dsimp only
    have hno : ¬ p <+: o.up.map Prod.snd := fun hh => hp (hh.trans (List.prefix_append _ _))
    rw [forest_close, elemsAt_add p o.cur _ o.up hno]
    split_ifs with hpre
    · obtain ⟨q, rfl⟩ := hpre
      have hd : (o.up.map Prod.snd ++ q).drop o.up.length = q := by
        rw [List.drop_append_of_le_length (by simp), List.drop_of_length_le (by simp), List.nil_append]
      rw [hd]
      have hz : elemsAt q [Tree.node (pname n) [] []] = [] := by
        match q, hp with
        | [], hp => exact absurd (by simp) hp
        | [m], hp =>
          have : n ≠ m := by
            rintro rfl
            exact hp ⟨ps, by simp⟩
          simp [elemsAt, Tree.name, pname, this]
        | m :: m' :: q, hp =>
          rw [elemsAt_cons _ _ (by simp)]
          rw [List.flatMap_eq_nil_iff]
          intro t ht
          rw [List.mem_filter, List.mem_singleton] at ht
          rw [ht.1]
          exact elemsAt_nil _
      rw [hz, List.append_nil]
    · rw [List.append_nil]

/-- Writing a field: the elements are at its path, and nothing changes at paths that do not begin with it or are the beginning of it. -/
theorem writeField_spec (st : St) (o : Open) (h : Is st o) (f : Field) (v : FVal) (hv : ∀ t ∈ v.elems, t.name.loc = f.name)
    (hnil : v.isNil = true → v.elems = []) :
    ∃ o', Is (writeField st f v) o' ∧
      elemsAt f.path (forest o'.up o'.cur) = elemsAt f.path (forest o.up o.cur) ++ v.elems ∧
      ∀ p, ¬ p <+: f.path → ¬ f.path <+: p → elemsAt p (forest o'.up o'.cur) = elemsAt p (forest o.up o.cur) := by
  obtain ⟨o1, h1, e1, hp1⟩ := trim_spec st o h f.parents
  -- the state after `push`
  have hpush : ∃ o2, Is (if f.parents.length > (trim st f.parents).stack.length ∧ v.isNil = false
        then push (trim st f.parents) (f.parents.drop (trim st f.parents).stack.length) else trim st f.parents) o2 ∧
      (v.elems ≠ [] → o2.up.map Prod.snd = f.parents) ∧ o2.up.map Prod.snd <+: f.parents ∧
      ∀ p, ¬ p <+: f.parents → elemsAt p (forest o2.up o2.cur) = elemsAt p (forest o.up o.cur) := by
    have hfull : (trim st f.parents).stack ++ f.parents.drop (trim st f.parents).stack.length = f.parents :=
      List.prefix_iff_eq_append.1 hp1
    split_ifs with hc
    · obtain ⟨o2, h2, h3⟩ := push_spec (f.parents.drop (trim st f.parents).stack.length) _ _ h1
      have hst : o2.up.map Prod.snd = f.parents := by
        rw [← h2.2]
        exact hfull
      refine ⟨o2, h2, fun _ => hst, by rw [hst], fun p hp => ?_⟩
      rw [h3 p (by rw [← h1.2, hfull]; exact hp), e1]
    · refine ⟨o1, h1, fun hne => ?_, by rw [← h1.2]; exact hp1, fun p hp => by rw [e1]⟩
      have hn : v.isNil = false := by
        cases hv' : v.isNil with
        | false => rfl
        | true => exact absurd (hnil hv') hne
      have hle : f.parents.length ≤ (trim st f.parents).stack.length := by
        by_contra hh
        exact hc ⟨by omega, hn⟩
      rw [← h1.2]
      exact hp1.eq_of_length (le_antisymm hp1.length_le hle)
  obtain ⟨o2, h2, hst, hpre, h3⟩ := hpush
  have hlen : f.parents <+: f.path := List.prefix_append _ _
  refine ⟨⟨o2.up, o2.cur ++ v.elems⟩, ⟨?_, h2.2⟩, ?_, ?_⟩
  · simp only [writeField]
    rw [toks_append, h2.1]
  · have hno : ¬ f.path <+: o2.up.map Prod.snd := by
      intro hh
      have := (hh.trans hpre).length_le
      simp [Field.path] at this
      omega
    have hno' : ¬ f.path <+: f.parents := by
      intro hh
      have := hh.length_le
      simp [Field.path] at this
      omega
    dsimp only
    rw [elemsAt_add _ _ _ _ hno, h3 _ hno']
    congr 1
    by_cases hne : v.elems = []
    · rw [hne, elemsAt_nil]; simp
    · have hst := hst hne
      rw [if_pos (by rw [hst]; exact hlen)]
      have : f.path.drop o2.up.length = [f.name] := by
        have hl : o2.up.length = f.parents.length := by rw [← hst]; simp
        rw [hl]
        simp [Field.path]
      rw [this]
      simp only [elemsAt]
      rw [List.filter_eq_self]
      intro t ht
      simpa using hv t ht
  · intro p hp hp'
    have hnp : ¬ p <+: f.parents := fun hh => hp (hh.trans hlen)
    have hno : ¬ p <+: o2.up.map Prod.snd := fun hh => hnp (hh.trans hpre)
    dsimp only
    rw [elemsAt_add _ _ _ _ hno, h3 _ hnp]
    split_ifs with hc
    · by_cases hne : v.elems = []
      · rw [hne, elemsAt_nil]; simp
      · have hst := hst hne
        obtain ⟨q, rfl⟩ := hc
        have hd : (o2.up.map Prod.snd ++ q).drop o2.up.length = q := by
          rw [List.drop_append_of_le_length (by simp), List.drop_of_length_le (by simp), List.nil_append]
        rw [hd]
        have hz : elemsAt q v.elems = [] := by
          have hm : ∀ m q', q = m :: q' → m ≠ f.name := by
            rintro m q' rfl rfl
            apply hp'
            rw [hst, Field.path]
            exact ⟨q', by simp⟩
          match q, hm with
          | [], _ => rfl
          | [m], hm =>
            simp only [elemsAt]
            rw [List.filter_eq_nil_iff]
            intro t ht
            simp [hv t ht]
            exact fun e => hm m [] rfl e.symm
          | m :: m' :: q, hm =>
            rw [elemsAt_cons _ _ (by simp)]
            have : (v.elems.filter fun t => t.name.loc = m) = [] := by
              rw [List.filter_eq_nil_iff]
              intro t ht
              simp [hv t ht]
              exact fun e => hm m (m' :: q) rfl e.symm
            rw [this]
            rfl
        rw [hz, List.append_nil]
    · rw [List.append_nil]

theorem writeFields_spec : ∀ (l : List (Field × FVal)) (st : St) (o : Open), Is st o →
    (∀ x ∈ l, (∀ t ∈ x.2.elems, t.name.loc = x.1.name) ∧ (x.2.isNil = true → x.2.elems = [])) → Apart (l.map Prod.fst) →
    ∃ F, writeFields st l = flats F ∧
      (∀ x ∈ l, elemsAt x.1.path F = elemsAt x.1.path (forest o.up o.cur) ++ x.2.elems) ∧
      ∀ p, (∀ x ∈ l, ¬ p <+: x.1.path ∧ ¬ x.1.path <+: p) → elemsAt p F = elemsAt p (forest o.up o.cur)
  | [], st, o, h, _, _ => by
    obtain ⟨o', h1, e1, hp⟩ := trim_spec st o h []
    refine ⟨forest o.up o.cur, ?_, by simp, fun _ _ => rfl⟩
    have hs : o'.up = [] := by
      have := h1.2
      rw [List.prefix_nil.1 hp] at this
      exact List.map_eq_nil_iff.1 this.symm
    rw [writeFields, h1.1, ← e1, hs]
    rfl
  | (f, v) :: l, st, o, h, hv, hA => by
    obtain ⟨hv1, hv2⟩ := hv (f, v) (by simp)
    obtain ⟨o1, h1, e1, e2⟩ := writeField_spec st o h f v hv1 hv2
    have hA' : Apart (f :: l.map Prod.fst) := hA
    rw [Apart, List.pairwise_cons] at hA'
    obtain ⟨F, hF, e3, e4⟩ := writeFields_spec l _ o1 h1 (fun x hx => hv x (by simp [hx])) hA'.2
    refine ⟨F, hF, fun x hx => ?_, fun p hp => ?_⟩
    · rcases List.mem_cons.1 hx with rfl | hx
      · rw [e4, e1]
        intro y hy
        have := hA'.1 y.1 (List.mem_map.2 ⟨y, hy, rfl⟩)
        exact this
      · have := hA'.1 x.1 (List.mem_map.2 ⟨x, hx, rfl⟩)
        rw [e3 x hx, e2 _ this.2 this.1]
    · rw [e4 p (fun x hx => hp x (by simp [hx])), e2 p (hp (f, v) (by simp)).1 (hp (f, v) (by simp)).2]

/-- C72 (writing): the tags written for the fields of a struct are balanced, the elements of every field are at its path, in order, and at other
paths there is nothing, except on the way to a field and inside the elements of fields. -/
theorem C72_written (l : List (Field × FVal)) (hv : ∀ x ∈ l, ∀ t ∈ x.2.elems, t.name.loc = x.1.name)
    (hnil : ∀ x ∈ l, x.2.isNil = true → x.2.elems = []) (hA : Apart (l.map Prod.fst)) :
    ∃ F, writeFields ⟨[], []⟩ l = flats F ∧ (∀ x ∈ l, elemsAt x.1.path F = x.2.elems) ∧
      ∀ p, (∀ x ∈ l, ¬ p <+: x.1.path ∧ ¬ x.1.path <+: p) → elemsAt p F = [] := by
  obtain ⟨F, h1, h2, h3⟩ := writeFields_spec l ⟨[], []⟩ ⟨[], []⟩ ⟨rfl, rfl⟩ (fun x hx => ⟨hv x hx, hnil x hx⟩) hA
  refine ⟨F, h1, fun x hx => ?_, fun p hp => ?_⟩
  · rw [h2 x hx]
    simp [forest, elemsAt_nil]
  · rw [h3 p hp]
    simp [forest, elemsAt_nil]

/-! ### Both -/

mutual
theorem flat_inj : ∀ (t u : Tree) (r s : List Tok), flat t ++ r = flat u ++ s → t = u ∧ r = s
  | .node n x k, .node m y l, r, s, h => by
    simp only [flat, List.cons_append, List.cons.injEq, Tok.start.injEq, List.append_assoc] at h
    obtain ⟨⟨rfl, rfl⟩, h⟩ := h
    obtain ⟨rfl, h'⟩ := flats_inj k l n n r s h
    exact ⟨rfl, h'⟩
theorem flats_inj : ∀ (k l : List Tree) (n m : Name) (r s : List Tok),
    flats k ++ ([.stop n] ++ r) = flats l ++ ([.stop m] ++ s) → k = l ∧ r = s
  | [], [], n, m, r, s, h => by
    simp [flats] at h
    exact ⟨rfl, h.2⟩
  | [], .node _ _ _ :: l, n, m, r, s, h => by simp [flats, flat] at h
  | .node _ _ _ :: k, [], n, m, r, s, h => by simp [flats, flat] at h
  | t :: k, u :: l, n, m, r, s, h => by
    simp only [flats, List.append_assoc] at h
    obtain ⟨rfl, h1⟩ := flat_inj t u _ _ h
    obtain ⟨rfl, h2⟩ := flats_inj k l n m r s h1
    exact ⟨rfl, h2⟩
end

/-- The elements are determined by their tags. -/
theorem flats_unique {F G : List Tree} (h : flats F = flats G) : F = G :=
  (flats_inj F G ⟨[], []⟩ ⟨[], []⟩ [] [] (by rw [h])).1

/-- C72: what is written for fields with paths is read into the same fields: for any table that `getTypeInfo` accepts, the elements that the tags written for the
values of the fields make up give to every field the elements that were written for it. -/
theorem C72_roundtrip (decl fs : List Field) (hd : Plain decl) (ht : table [] decl = some fs) (vs : List FVal) (hl : vs.length = fs.length)
    (hv : ∀ x ∈ fs.zip vs, ∀ t ∈ x.2.elems, t.name.loc = x.1.name) (hnil : ∀ v ∈ vs, v.isNil = true → v.elems = []) :
    ∃! F, writeFields ⟨[], []⟩ (fs.zip vs) = flats F ∧ ∀ i v, vs[i]? = some v → got fs F i = v.elems := by
  obtain ⟨hA, hP⟩ := C72_table decl hd [] fs List.Pairwise.nil (by intro f hf; simp at hf) ht
  have hm : (fs.zip vs).map Prod.fst = fs := List.map_fst_zip (by omega)
  obtain ⟨F, h1, h2, -⟩ := C72_written (fs.zip vs) hv (fun x hx => hnil x.2 (List.of_mem_zip hx).2) (by rw [hm]; exact hA)
  refine ⟨F, ⟨h1, fun i v hi => ?_⟩, fun G hG => flats_unique (by rw [← hG.1, h1])⟩
  have hlt := (List.getElem?_eq_some_iff.1 hi).1
  have hf : fs[i]? = some fs[i] := List.getElem?_eq_getElem (by omega)
  rw [C72_read fs hA hP F i _ hf]
  exact h2 (fs[i], v) (List.mem_of_getElem? (i := i) (by simp [List.getElem?_zip_eq_some, hf, hi]))

/-! ### Namespaces -/

/-- C72 without the condition on namespaces. -/
def C72_statement : Prop := ∀ (decl fs : List Field), table [] decl = some fs → ∀ vs : List FVal, vs.length = fs.length →
  (∀ x ∈ fs.zip vs, ∀ t ∈ x.2.elems, t.name = ⟨x.1.xmlns, x.1.name⟩) → (∀ v ∈ vs, v.isNil = true → v.elems = []) →
  ∃ F, writeFields ⟨[], []⟩ (fs.zip vs) = flats F ∧ ∀ i v, vs[i]? = some v → got fs F i = v.elems

/-- False of the code: with a tag `urn:n a>b` the parent `a` is written without the namespace, and only read in it. -/
theorem C72_refuted : ¬ C72_statement := by
  intro h
  obtain ⟨F, h1, h2⟩ := h [⟨b!"urn:n", b!"b", [b!"a"], 1⟩] [⟨b!"urn:n", b!"b", [b!"a"], 1⟩] (by rfl)
    [⟨false, [.node ⟨b!"urn:n", b!"b"⟩ (b!"x") []]⟩] rfl
    (by
      intro x hx t ht
      simp only [List.zip_cons_cons, List.zip_nil_right, List.mem_singleton] at hx
      subst hx
      simp only [List.mem_singleton] at ht
      subst ht
      rfl)
    (by intro v hv; simp only [List.mem_singleton] at hv; subst hv; intro h; cases h)
  have hF : F = [.node (pname (b!"a")) [] [.node ⟨b!"urn:n", b!"b"⟩ (b!"x") []]] := flats_unique (by rw [← h1]; rfl)
  have := h2 0 _ rfl
  rw [hF] at this
  have e : got [⟨b!"urn:n", b!"b", [b!"a"], 1⟩] [.node (pname (b!"a")) [] [.node ⟨b!"urn:n", b!"b"⟩ (b!"x") []]] 0 = [] := rfl
  rw [e] at this
  cases this

/-! ### A struct -/

/-- `A string "x>a"`, `B []string "x>b"`, `C *string "y>z>c"` (nil), `D string "x>d"`. -/
def sampleFields : List Field :=
  [⟨[], b!"a", [b!"x"], 1⟩, ⟨[], b!"b", [b!"x"], 1⟩, ⟨[], b!"c", [b!"y", b!"z"], 1⟩, ⟨[], b!"d", [b!"x"], 1⟩]

def sampleVals : List FVal :=
  [⟨false, [.node ⟨[], b!"a"⟩ (b!"1") []]⟩, ⟨false, [.node ⟨[], b!"b"⟩ (b!"2") [], .node ⟨[], b!"b"⟩ (b!"3") []]⟩, ⟨true, []⟩,
    ⟨false, [.node ⟨[], b!"d"⟩ (b!"4") []]⟩]

-- Accepted; `a` and `b` share the element `x`, which is closed for `C` and opened again for `d`.
example : table [] sampleFields = some sampleFields ∧
    writeFields ⟨[], []⟩ (sampleFields.zip sampleVals) =
      [.start ⟨[], b!"x"⟩ [], .start ⟨[], b!"a"⟩ (b!"1"), .stop ⟨[], b!"a"⟩, .start ⟨[], b!"b"⟩ (b!"2"), .stop ⟨[], b!"b"⟩,
        .start ⟨[], b!"b"⟩ (b!"3"), .stop ⟨[], b!"b"⟩, .stop ⟨[], b!"x"⟩,
        .start ⟨[], b!"x"⟩ [], .start ⟨[], b!"d"⟩ (b!"4"), .stop ⟨[], b!"d"⟩, .stop ⟨[], b!"x"⟩] := by
  decide +kernel

example : ∃! F, writeFields ⟨[], []⟩ (sampleFields.zip sampleVals) = flats F ∧
    ∀ i v, sampleVals[i]? = some v → got sampleFields F i = v.elems := by
  refine C72_roundtrip sampleFields sampleFields ?_ (by decide +kernel) sampleVals rfl ?_ ?_
  · intro f hf
    simp [sampleFields] at hf
    rcases hf with rfl | rfl | rfl | rfl <;> rfl
  · intro x hx t ht
    simp [sampleFields, sampleVals] at hx
    rcases hx with rfl | rfl | rfl | rfl
    · simp at ht; subst ht; rfl
    · simp at ht; rcases ht with rfl | rfl <;> rfl
    · simp at ht
    · simp at ht; subst ht; rfl
  · intro v hv h
    simp [sampleVals] at hv
    rcases hv with rfl | rfl | rfl | rfl
    · cases h
    · cases h
    · rfl
    · cases h

-- Rejected: `x` is the beginning of `x>a`.
example : table [] [⟨[], b!"x", [], 1⟩, ⟨[], b!"a", [b!"x"], 1⟩] = none := by decide +kernel

end Verif.Paths

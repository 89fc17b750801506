import Verif.MpdSchema

/-!
C52: the table of fields that `getTypeInfo` makes for a struct type (`/repo/xml/typeinfo.go` 94-400) is consistent, for every
struct type in the modelled part of Go.
-/
namespace Verif.Bind

open Verif.Xml

/-! ### Specification -/

/-- Two fields that stand for the same thing in a document. -/
def FInfo.Same (a b : FInfo) : Prop := a.mode = b.mode ∧ a.loc = b.loc ∧ a.xmlns = b.xmlns

/-- A field that is left out: not exported, or tagged `-`. -/
def Decl.skipped (d : Decl) : Prop := (d.exported = false ∧ d.embedded = false) ∨ d.tag = b!"-"

/-- The fields of an embedded struct, or of a struct behind an embedded pointer, and whether it is behind a pointer. -/
def promoted : Sch → Option (Bool × List FInfo × List Sch)
  | .struct _ _ F S => some (false, F, S)
  | .ptr (.struct _ _ F S) => some (true, F, S)
  | _ => none

/-- A field of an embedded struct in the table of the struct around it. -/
def FInfo.deeper (f : FInfo) (g : Option Nat) : FInfo := ⟨f.pre, f.loc, f.xmlns, f.mode, f.omitE, f.depth + 1, g⟩

/-- The fields that a struct type could have in its table: its own fields, and those in the tables of embedded structs, one
level deeper.  `k` is the number of the first field. -/
inductive Cand (k : Nat) (ds : List Decl) (ts : List Typ) : FInfo × Sch → Prop where
  | own (i : Nat) (d : Decl) (t : Typ) (f : FInfo) : ds[i]? = some d → ts[i]? = some t → ¬ d.skipped → d.name ≠ (b!"XMLName") →
      (d.embedded = true → promoted t.sch = none) → structFieldInfo d t = .ok f → Cand k ds ts (f, t.sch)
  | emb (i : Nat) (d : Decl) (t : Typ) (p : Bool) (F : List FInfo) (S : List Sch) (j : Nat) (f : FInfo) (s : Sch) :
      ds[i]? = some d → ts[i]? = some t → ¬ d.skipped → d.embedded = true → promoted t.sch = some (p, F, S) →
      F[j]? = some f → S[j]? = some s →
      Cand k ds ts (f.deeper (if p then some (k + i) else none), s)

/-- What pointers lead to. -/
def Sch.under : Sch → Sch
  | .ptr s => s.under
  | s => s

mutual
/-- The fields of every struct have different names, as the language demands. -/
def Typ.Distinct : Typ → Prop
  | .ptr t => t.Distinct
  | .slice t => t.Distinct
  | .struct _ ds ts => (ds.map (·.name)).Nodup ∧ Distincts ts
  | _ => True
/-- The same for a list of types. -/
def Distincts : List Typ → Prop
  | [] => True
  | t :: l => t.Distinct ∧ Distincts l
end

/-! ### The invariant of the loop -/

/-- The table `acc` is right for the candidates in `C`. -/
structure Table (C : FInfo × Sch → Prop) (acc : List (FInfo × Sch)) : Prop where
  apart : acc.Pairwise fun a b => ¬ a.1.Same b.1
  all : ∀ c, C c → c ∈ acc ∨ ∃ o ∈ acc, o.1.Same c.1 ∧ o.1.depth < c.1.depth
  only : ∀ c ∈ acc, C c

theorem conflict_iff (a b : FInfo) : conflict a b = true ↔ b.Same a := by
  unfold conflict FInfo.Same
  simp only [Bool.and_eq_true, beq_iff_eq]
  constructor
  · rintro ⟨⟨h1, h2⟩, h3⟩; exact ⟨h1, h2.symm, h3.symm⟩
  · rintro ⟨h1, h2, h3⟩; exact ⟨⟨h1, h2.symm⟩, h3.symm⟩

theorem FInfo.Same.symm {a b : FInfo} (h : a.Same b) : b.Same a := ⟨h.1.symm, h.2.1.symm, h.2.2.symm⟩

theorem FInfo.Same.trans {a b c : FInfo} (h : a.Same b) (g : b.Same c) : a.Same c :=
  ⟨h.1.trans g.1, h.2.1.trans g.2.1, h.2.2.trans g.2.2⟩

theorem addField_table {C : FInfo × Sch → Prop} {acc acc' : List (FInfo × Sch)} (h : Table C acc) (new : FInfo) (s : Sch)
    (ha : addField acc new s = .ok acc') : Table (fun c => C c ∨ c = (new, s)) acc' := by
  unfold addField at ha
  dsimp only at ha
  split at ha
  · rename_i he
    injection ha with ha; subst ha
    have hno : ∀ o ∈ acc, ¬ o.1.Same new := by
      intro o ho hs
      have : o ∈ acc.filter fun o => conflict new o.1 := List.mem_filter.2 ⟨ho, (conflict_iff _ _).2 hs⟩
      rw [List.isEmpty_iff.1 he] at this
      cases this
    refine ⟨List.pairwise_append.2 ⟨h.apart, List.pairwise_singleton _ _, ?_⟩, ?_, ?_⟩
    · intro a hm b hb
      rw [List.mem_singleton.1 hb]
      exact hno a hm
    · rintro c (hc | rfl)
      · rcases h.all c hc with g | ⟨o, g1, g2⟩
        · exact Or.inl (List.mem_append_left _ g)
        · exact Or.inr ⟨o, List.mem_append_left _ g1, g2⟩
      · exact Or.inl (by simp)
    · intro c hc
      rcases List.mem_append.1 hc with hc | hc
      · exact Or.inl (h.only c hc)
      · exact Or.inr (List.mem_singleton.1 hc)
  · split at ha
    · rename_i hany
      injection ha with ha; subst ha
      rw [List.any_eq_true] at hany
      obtain ⟨o, ho, hd⟩ := hany
      obtain ⟨ho, hs⟩ := List.mem_filter.1 ho
      refine ⟨h.apart, ?_, fun c hc => Or.inl (h.only c hc)⟩
      rintro c (hc | rfl)
      · exact h.all c hc
      · exact Or.inr ⟨o, ho, (conflict_iff _ _).1 hs, by simpa using hd⟩
    · split at ha
      · cases ha
      · rename_i h1 h2
        injection ha with ha; subst ha
        have hdeep : ∀ o ∈ acc, o.1.Same new → new.depth < o.1.depth := by
          intro o ho hs
          have hm : o ∈ acc.filter fun o => conflict new o.1 := List.mem_filter.2 ⟨ho, (conflict_iff _ _).2 hs⟩
          have g1 : ¬ o.1.depth < new.depth := fun hd => h1 (List.any_eq_true.2 ⟨o, hm, by simpa using hd⟩)
          have g2 : ¬ o.1.depth = new.depth := fun hd => h2 (List.any_eq_true.2 ⟨o, hm, by simpa using hd⟩)
          omega
        have keep : ∀ o ∈ acc, ¬ o.1.Same new → o ∈ (acc.filter fun o => !conflict new o.1) ++ [(new, s)] := by
          intro o ho hn
          refine List.mem_append_left _ (List.mem_filter.2 ⟨ho, ?_⟩)
          rw [Bool.not_eq_true', Bool.eq_false_iff]
          exact fun hc => hn ((conflict_iff _ _).1 hc)
        refine ⟨List.pairwise_append.2 ⟨h.apart.filter _, List.pairwise_singleton _ _, ?_⟩, ?_, ?_⟩
        · intro a hm b hb hs
          rw [List.mem_singleton.1 hb] at hs
          have := (List.mem_filter.1 hm).2
          rw [(conflict_iff _ _).2 hs] at this
          cases this
        · rintro c (hc | rfl)
          · rcases h.all c hc with g | ⟨o, g1, g2, g3⟩
            · by_cases hs : c.1.Same new
              · exact Or.inr ⟨(new, s), by simp, hs.symm, hdeep c g hs⟩
              · exact Or.inl (keep c g hs)
            · by_cases hs : o.1.Same new
              · exact Or.inr ⟨(new, s), by simp, hs.symm.trans g2, by have := hdeep o g1 hs; dsimp only; omega⟩
              · exact Or.inr ⟨o, keep o g1 hs, g2, g3⟩
          · exact Or.inl (by simp)
        · intro c hc
          rcases List.mem_append.1 hc with hc | hc
          · exact Or.inl (h.only c (List.mem_filter.1 hc).1)
          · exact Or.inr (List.mem_singleton.1 hc)

theorem Table.congr {C D : FInfo × Sch → Prop} {acc : List (FInfo × Sch)} (h : Table C acc) (e : ∀ c, C c ↔ D c) : Table D acc :=
  ⟨h.apart, fun c hc => h.all c ((e c).2 hc), fun c hc => (e c).1 (h.only c hc)⟩

theorem addFields_table (g : Option Nat) : ∀ (F : List FInfo) (S : List Sch) (C : FInfo × Sch → Prop) (acc acc' : List (FInfo × Sch)),
    Table C acc → addFields g F S acc = .ok acc' →
    Table (fun c => C c ∨ ∃ (j : Nat) (f : FInfo) (s : Sch), F[j]? = some f ∧ S[j]? = some s ∧ c = (f.deeper g, s)) acc'
  | [], S, C, acc, acc', h, ha => by
    simp only [addFields] at ha
    injection ha with ha; subst ha
    exact h.congr fun c => by simp
  | f :: F, [], C, acc, acc', h, ha => by
    simp only [addFields] at ha
    injection ha with ha; subst ha
    exact h.congr fun c => by simp
  | f :: F, s :: S, C, acc, acc', h, ha => by
    simp only [addFields] at ha
    split at ha
    · cases ha
    · split at ha
      · cases ha
      · rename_i acc1 h1
        refine (addFields_table g F S _ acc1 acc' (addField_table h _ s h1) ha).congr fun c => ?_
        constructor
        · rintro ((hc | rfl) | ⟨j, f', s', e1, e2, rfl⟩)
          · exact Or.inl hc
          · exact Or.inr ⟨0, f, s, rfl, rfl, rfl⟩
          · exact Or.inr ⟨j + 1, f', s', by simpa using e1, by simpa using e2, rfl⟩
        · rintro (hc | ⟨j, f', s', e1, e2, rfl⟩)
          · exact Or.inl (Or.inl hc)
          · cases j with
            | zero =>
              simp only [List.getElem?_cons_zero, Option.some.injEq] at e1 e2
              subst e1; subst e2
              exact Or.inl (Or.inr rfl)
            | succ j => exact Or.inr ⟨j, f', s', by simpa using e1, by simpa using e2, rfl⟩

theorem skipped_iff (d : Decl) : ((!d.exported && !d.embedded) || d.tag == b!"-") = true ↔ d.skipped := by
  unfold Decl.skipped
  simp

/-- The candidates of the first field and the others. -/
theorem cand_cons (k : Nat) (d : Decl) (ds : List Decl) (t : Typ) (ts : List Typ) (c : FInfo × Sch) :
    Cand k (d :: ds) (t :: ts) c ↔ Cand k [d] [t] c ∨ Cand (k + 1) ds ts c := by
  constructor
  · intro h
    cases h with
    | own i d' t' f e1 e2 e3 e4 e5 e6 =>
      cases i with
      | zero => exact Or.inl (.own 0 d' t' f (by simpa using e1) (by simpa using e2) e3 e4 e5 e6)
      | succ i => exact Or.inr (.own i d' t' f (by simpa using e1) (by simpa using e2) e3 e4 e5 e6)
    | emb i d' t' p F S j f s e1 e2 e3 e4 e5 e6 e7 =>
      cases i with
      | zero => exact Or.inl (.emb 0 d' t' p F S j f s (by simpa using e1) (by simpa using e2) e3 e4 e5 e6 e7)
      | succ i =>
        right
        have := Cand.emb (k := k + 1) (ds := ds) (ts := ts) i d' t' p F S j f s (by simpa using e1) (by simpa using e2) e3 e4 e5 e6 e7
        rwa [show k + 1 + i = k + (i + 1) by omega] at this
  · rintro (h | h)
    · cases h with
      | own i d' t' f e1 e2 e3 e4 e5 e6 =>
        cases i with
        | zero => exact .own 0 d' t' f (by simpa using e1) (by simpa using e2) e3 e4 e5 e6
        | succ i => simp at e1
      | emb i d' t' p F S j f s e1 e2 e3 e4 e5 e6 e7 =>
        cases i with
        | zero => exact .emb 0 d' t' p F S j f s (by simpa using e1) (by simpa using e2) e3 e4 e5 e6 e7
        | succ i => simp at e1
    · cases h with
      | own i d' t' f e1 e2 e3 e4 e5 e6 =>
        exact .own (i + 1) d' t' f (by simpa using e1) (by simpa using e2) e3 e4 e5 e6
      | emb i d' t' p F S j f s e1 e2 e3 e4 e5 e6 e7 =>
        have := Cand.emb (k := k) (ds := d :: ds) (ts := t :: ts) (i + 1) d' t' p F S j f s (by simpa using e1) (by simpa using e2) e3 e4 e5 e6 e7
        rwa [show k + (i + 1) = k + 1 + i by omega] at this

theorem cand_skipped {k : Nat} {d : Decl} {t : Typ} (h : d.skipped) (c : FInfo × Sch) : ¬ Cand k [d] [t] c := by
  intro hc
  cases hc with
  | own i d' t' f e1 e2 e3 =>
    cases i with
    | zero => simp at e1; subst e1; exact e3 h
    | succ i => simp at e1
  | emb i d' t' p F S j f s e1 e2 e3 =>
    cases i with
    | zero => simp at e1; subst e1; exact e3 h
    | succ i => simp at e1

/-- The candidates of a field that is not embedded. -/
theorem cand_own {k : Nat} {d : Decl} {t : Typ} (h : ¬ d.skipped) (he : d.embedded = true → promoted t.sch = none) (c : FInfo × Sch) :
    Cand k [d] [t] c ↔ d.name ≠ (b!"XMLName") ∧ ∃ f, structFieldInfo d t = .ok f ∧ c = (f, t.sch) := by
  constructor
  · intro hc
    cases hc with
    | own i d' t' f e1 e2 e3 e4 e5 e6 =>
      cases i with
      | zero => simp at e1 e2; subst e1; subst e2; exact ⟨e4, f, e6, rfl⟩
      | succ i => simp at e1
    | emb i d' t' p F S j f s e1 e2 e3 e4 e5 =>
      cases i with
      | zero => simp at e1 e2; subst e1; subst e2; rw [he e4] at e5; cases e5
      | succ i => simp at e1
  · rintro ⟨h1, f, h2, rfl⟩
    exact .own 0 d t f rfl rfl h h1 he h2

/-- The candidates of an embedded struct. -/
theorem cand_emb {k : Nat} {d : Decl} {t : Typ} (h : ¬ d.skipped) (he : d.embedded = true) {p : Bool} {F : List FInfo} {S : List Sch}
    (hp : promoted t.sch = some (p, F, S)) (c : FInfo × Sch) : Cand k [d] [t] c ↔ ∃ (j : Nat) (f : FInfo) (s : Sch), F[j]? = some f ∧ S[j]? = some s ∧
      c = (f.deeper (if p then some k else none), s) := by
  constructor
  · intro hc
    cases hc with
    | own i d' t' f e1 e2 e3 e4 e5 e6 =>
      cases i with
      | zero => simp at e1 e2; subst e1; subst e2; rw [e5 he] at hp; cases hp
      | succ i => simp at e1
    | emb i d' t' p' F' S' j f s e1 e2 e3 e4 e5 e6 e7 =>
      cases i with
      | zero =>
        simp at e1 e2; subst e1; subst e2
        rw [e5] at hp
        injection hp with hp; injection hp with hp1 hp2; injection hp2 with hp2 hp3
        subst hp1; subst hp2; subst hp3
        exact ⟨j, f, s, e6, e7, rfl⟩
      | succ i => simp at e1
  · rintro ⟨j, f, s, h1, h2, rfl⟩
    exact .emb 0 d t p F S j f s rfl rfl h he hp h1 h2

theorem addOwn_table {C : FInfo × Sch → Prop} {acc acc' : List (FInfo × Sch)} (h : Table C acc) (k : Nat) (d : Decl) (t : Typ)
    (hs : ¬ d.skipped) (he : d.embedded = true → promoted t.sch = none) (xn xn' : Option FInfo)
    (ha : addOwn d t t.sch xn acc = .ok (xn', acc')) : Table (fun c => C c ∨ Cand k [d] [t] c) acc' := by
  unfold addOwn at ha
  split at ha
  · rename_i hx
    split at ha
    · cases ha
    · injection ha with ha; injection ha with _ ha; subst ha
      refine h.congr fun c => ⟨Or.inl, ?_⟩
      rintro (hc | hc)
      · exact hc
      · exact absurd hx ((cand_own hs he c).1 hc).1
  · rename_i hx
    split at ha
    · cases ha
    · rename_i f hf
      split at ha
      · cases ha
      · rename_i acc1 h1
        injection ha with ha; injection ha with _ ha; subst ha
        refine (addField_table h f _ h1).congr fun c => ?_
        rw [cand_own hs he]
        constructor
        · rintro (hc | rfl)
          · exact Or.inl hc
          · exact Or.inr ⟨hx, f, hf, rfl⟩
        · rintro (hc | ⟨_, f', hf', rfl⟩)
          · exact Or.inl hc
          · rw [hf] at hf'; injection hf' with hf'; subst hf'
            exact Or.inr rfl

theorem addDecl_table {C : FInfo × Sch → Prop} {acc acc' : List (FInfo × Sch)} (h : Table C acc) (k : Nat) (d : Decl) (t : Typ)
    (hs : ¬ d.skipped) (xn xn' : Option FInfo) (ha : addDecl k d t t.sch xn acc = .ok (xn', acc')) :
    Table (fun c => C c ∨ Cand k [d] [t] c) acc' := by
  unfold addDecl at ha
  split at ha
  · rename_i he
    split at ha
    · rename_i n ixn F S hsch
      split at ha
      · cases ha
      · split at ha
        · cases ha
        · rename_i acc1 h1
          injection ha with ha; injection ha with _ ha; subst ha
          refine (addFields_table none F S C acc acc1 h h1).congr fun c => ?_
          rw [cand_emb hs he (p := false) (F := F) (S := S) (by rw [hsch]; rfl)]
          simp
    · rename_i n ixn F S hsch
      split at ha
      · cases ha
      · split at ha
        · cases ha
        · rename_i acc1 h1
          injection ha with ha; injection ha with _ ha; subst ha
          refine (addFields_table (some k) F S C acc acc1 h h1).congr fun c => ?_
          rw [cand_emb hs he (p := true) (F := F) (S := S) (by rw [hsch]; rfl)]
          simp
    · cases ha
    · cases ha
    · rename_i h1 h2 h3 h4
      refine addOwn_table h k d t hs (fun _ => ?_) xn xn' ha
      cases hsch : t.sch with
      | struct n x F S => exact absurd hsch (h1 n x F S)
      | ptr s =>
        cases s with
        | struct n x F S => exact absurd hsch (h2 n x F S)
        | _ => rfl
      | _ => rfl
  · rename_i he
    exact addOwn_table h k d t hs (fun h => absurd h he) xn xn' ha

theorem structInfo_table : ∀ (ts : List Typ) (k : Nat) (ds : List Decl) (xn xn' : Option FInfo) (C : FInfo × Sch → Prop)
    (acc acc' : List (FInfo × Sch)), Table C acc → structInfo k ds ts xn acc = .ok (xn', acc') →
    Table (fun c => C c ∨ Cand k ds ts c) acc'
  | [], k, ds, xn, xn', C, acc, acc', h, ha => by
    have ha : acc = acc' := by
      cases ds <;> (simp only [structInfo] at ha; injection ha with ha; injection ha)
    subst ha
    refine h.congr fun c => ⟨Or.inl, ?_⟩
    rintro (hc | hc)
    · exact hc
    · cases hc <;> simp_all
  | t :: ts, k, [], xn, xn', C, acc, acc', h, ha => by
    simp only [structInfo] at ha
    injection ha with ha; injection ha with _ ha; subst ha
    refine h.congr fun c => ⟨Or.inl, ?_⟩
    rintro (hc | hc)
    · exact hc
    · cases hc <;> simp_all
  | t :: ts, k, d :: ds, xn, xn', C, acc, acc', h, ha => by
    simp only [structInfo] at ha
    split at ha
    · rename_i hsk
      refine (structInfo_table ts (k + 1) ds xn xn' C acc acc' h ha).congr fun c => ?_
      rw [cand_cons]
      have := cand_skipped (k := k) (t := t) ((skipped_iff d).1 hsk) c
      simp [this]
    · rename_i hsk
      split at ha
      · cases ha
      · rename_i xn1 acc1 h1
        refine (structInfo_table ts (k + 1) ds xn1 xn' _ acc1 acc'
          (addDecl_table h k d t (fun hs => hsk ((skipped_iff d).2 hs)) xn xn1 h1) ha).congr fun c => ?_
        rw [cand_cons k d ds t ts, or_assoc]

theorem sch_table {n n' : Bytes} {ds : List Decl} {ts : List Typ} {xn : Option FInfo} {F : List FInfo} {S : List Sch}
    (h : (Typ.struct n ds ts).sch = .struct n' xn F S) : ∃ acc, Table (Cand 0 ds ts) acc ∧ F = acc.map (·.1) ∧ S = acc.map (·.2) := by
  simp only [Typ.sch] at h
  split at h
  · cases h
  · rename_i xn' acc hi
    injection h with _ _ h1 h2
    refine ⟨acc, (structInfo_table ts 0 ds none xn' (fun _ => False) [] acc ⟨.nil, ?_, ?_⟩ hi).congr ?_, h1.symm, h2.symm⟩
    · intro c hc; exact hc.elim
    · intro c hc; cases hc
    · intro c; simp

/-- **C52**: in the table of a struct type no two fields stand for the same thing, so that the order in which they are searched
does not matter. -/
theorem C52_unique {n n' : Bytes} {ds : List Decl} {ts : List Typ} {xn : Option FInfo} {F : List FInfo} {S : List Sch}
    (h : (Typ.struct n ds ts).sch = .struct n' xn F S) (i j : Nat) (f g : FInfo) (hi : F[i]? = some f) (hj : F[j]? = some g)
    (hs : f.Same g) : i = j := by
  obtain ⟨acc, ht, rfl, rfl⟩ := sch_table h
  rw [List.getElem?_map, Option.map_eq_some_iff] at hi hj
  obtain ⟨a, ha, rfl⟩ := hi
  obtain ⟨b, hb, rfl⟩ := hj
  have key : ∀ (i j : Nat) (a b : FInfo × Sch), acc[i]? = some a → acc[j]? = some b → i < j → ¬ a.1.Same b.1 := by
    intro i j a b ha hb hij
    obtain ⟨hi, rfl⟩ := List.getElem?_eq_some_iff.1 ha
    obtain ⟨hj, rfl⟩ := List.getElem?_eq_some_iff.1 hb
    exact List.pairwise_iff_getElem.1 ht.apart i j hi hj hij
  rcases Nat.lt_trichotomy i j with hij | hij | hij
  · exact absurd hs (key i j a b ha hb hij)
  · exact hij
  · exact absurd hs.symm (key j i b a hb ha hij)

/-- **C52**: every field of a struct type, of its own or of an embedded struct, is in the table, unless a field that is less
deeply embedded stands for the same thing. -/
theorem C52_complete {n n' : Bytes} {ds : List Decl} {ts : List Typ} {xn : Option FInfo} {F : List FInfo} {S : List Sch}
    (h : (Typ.struct n ds ts).sch = .struct n' xn F S) (f : FInfo) (s : Sch) (hc : Cand 0 ds ts (f, s)) :
    (∃ i : Nat, F[i]? = some f ∧ S[i]? = some s) ∨ ∃ (i : Nat) (g : FInfo), F[i]? = some g ∧ g.Same f ∧ g.depth < f.depth := by
  obtain ⟨acc, ht, rfl, rfl⟩ := sch_table h
  rcases ht.all _ hc with hm | ⟨o, ho, h1, h2⟩
  · obtain ⟨i, hi, e⟩ := List.mem_iff_getElem.1 hm
    exact Or.inl ⟨i, by simp [hi, e], by simp [hi, e]⟩
  · obtain ⟨i, hi, e⟩ := List.mem_iff_getElem.1 ho
    exact Or.inr ⟨i, o.1, by simp [hi, e], h1, h2⟩

/-- **C52**: there is nothing else in the table. -/
theorem C52_sound {n n' : Bytes} {ds : List Decl} {ts : List Typ} {xn : Option FInfo} {F : List FInfo} {S : List Sch}
    (h : (Typ.struct n ds ts).sch = .struct n' xn F S) (i : Nat) (f : FInfo) (s : Sch) (h1 : F[i]? = some f) (h2 : S[i]? = some s) :
    Cand 0 ds ts (f, s) := by
  obtain ⟨acc, ht, rfl, rfl⟩ := sch_table h
  rw [List.getElem?_map, Option.map_eq_some_iff] at h1 h2
  obtain ⟨a, ha, rfl⟩ := h1
  obtain ⟨b, hb, rfl⟩ := h2
  rw [ha] at hb; injection hb with hb; subst hb
  exact ht.only a (List.mem_of_getElem? ha)

/-! ### Names of elements -/

theorem addDecl_name {k : Nat} {d : Decl} {t : Typ} {s : Sch} {xn xn' : Option FInfo} {acc acc' : List (FInfo × Sch)}
    (h : addDecl k d t s xn acc = .ok (xn', acc')) :
    xn' = xn ∨ (d.name = xmlNameField ∧ ∃ x, xmlNameInfo d.tag = .ok x ∧ xn' = some x) := by
  have own : addOwn d t s xn acc = .ok (xn', acc') →
      xn' = xn ∨ (d.name = xmlNameField ∧ ∃ x, xmlNameInfo d.tag = .ok x ∧ xn' = some x) := by
    intro h
    unfold addOwn at h
    split at h
    · rename_i hn
      split at h
      · cases h
      · rename_i x hx
        injection h with h; injection h with h _
        exact Or.inr ⟨hn, x, hx, h.symm⟩
    · split at h
      · cases h
      · split at h
        · cases h
        · injection h with h; injection h with h _
          exact Or.inl h.symm
  unfold addDecl at h
  split at h
  · split at h
    · split at h
      · cases h
      · split at h
        · cases h
        · injection h with h; injection h with h _
          exact Or.inl h.symm
    · split at h
      · cases h
      · split at h
        · cases h
        · injection h with h; injection h with h _
          exact Or.inl h.symm
    · cases h
    · cases h
    · exact own h
  · exact own h

theorem structInfo_name : ∀ (ts : List Typ) (k : Nat) (ds : List Decl) (xn xn' : Option FInfo) (acc acc' : List (FInfo × Sch)),
    structInfo k ds ts xn acc = .ok (xn', acc') →
    xn' = xn ∨ ∃ d ∈ ds, d.name = xmlNameField ∧ ∃ x, xmlNameInfo d.tag = .ok x ∧ xn' = some x
  | [], k, ds, xn, xn', acc, acc', ha => by
    cases ds <;> (simp only [structInfo] at ha; injection ha with ha; injection ha with ha _; exact Or.inl ha.symm)
  | t :: ts, k, [], xn, xn', acc, acc', ha => by
    simp only [structInfo] at ha
    injection ha with ha; injection ha with ha _
    exact Or.inl ha.symm
  | t :: ts, k, d :: ds, xn, xn', acc, acc', ha => by
    simp only [structInfo] at ha
    have rest : ∀ xn1 acc1, structInfo (k + 1) ds ts xn1 acc1 = .ok (xn', acc') →
        xn' = xn1 ∨ ∃ d' ∈ d :: ds, d'.name = xmlNameField ∧ ∃ x, xmlNameInfo d'.tag = .ok x ∧ xn' = some x := by
      intro xn1 acc1 h
      rcases structInfo_name ts (k + 1) ds xn1 xn' acc1 acc' h with h | ⟨d', h1, h2⟩
      · exact Or.inl h
      · exact Or.inr ⟨d', List.mem_cons_of_mem _ h1, h2⟩
    split at ha
    · exact rest xn acc ha
    · split at ha
      · cases ha
      · rename_i xn1 acc1 h1
        rcases rest xn1 acc1 ha with h | h
        · rcases addDecl_name h1 with g | ⟨g1, x, g2, g3⟩
          · exact Or.inl (h.trans g)
          · exact Or.inr ⟨d, List.mem_cons_self, g1, x, g2, h.trans g3⟩
        · exact Or.inr h

theorem find_name : ∀ (ds : List Decl) (d : Decl), (ds.map (·.name)).Nodup → d ∈ ds → d.name = xmlNameField →
    findXmlName ds = some d
  | [], d, _, h, _ => by simp at h
  | e :: ds, d, hd, h, hn => by
    unfold findXmlName
    rw [List.find?_cons]
    rw [List.map_cons, List.nodup_cons] at hd
    rcases List.mem_cons.1 h with rfl | h
    · simp [hn]
    · have : e.name ≠ xmlNameField := by
        intro he
        exact hd.1 (List.mem_map.2 ⟨d, h, by rw [hn, he]⟩)
      rw [show (e.name == xmlNameField) = false by simpa using this]
      exact find_name ds d hd.2 h hn

/-- The name in a table is the one found by `lookupXMLName`. -/
theorem lookup_name : ∀ (t : Typ), t.Distinct → ∀ (n : Bytes) (x : FInfo) (F : List FInfo) (S : List Sch),
    t.sch.under = .struct n (some x) F S → x.loc ≠ [] → lookupXMLName t = some x
  | .ptr t, hd, n, x, F, S, h, hx => by
    simp only [Typ.Distinct, Typ.sch, Sch.under, lookupXMLName] at hd h ⊢
    exact lookup_name t hd n x F S h hx
  | .struct n' ds ts, hd, n, x, F, S, h, hx => by
    simp only [Typ.Distinct, Typ.sch] at hd h
    split at h
    · simp [Sch.under] at h
    · rename_i xn acc hi
      simp only [Sch.under] at h
      injection h with _ h _ _
      subst h
      rcases structInfo_name _ _ _ _ _ _ _ hi with h | ⟨d, h1, h2, x', h3, h4⟩
      · cases h
      · injection h4 with h4; subst h4
        simp only [lookupXMLName, find_name ds d hd.1 h1 h2, h3]
        rw [if_pos hx]
  | .simple k, _, n, x, F, S, h, _ => by simp [Typ.sch, Sch.under] at h
  | .slice t, _, n, x, F, S, h, _ => by simp [Typ.sch, Sch.under] at h
  | .name, _, n, x, F, S, h, _ => by simp [Typ.sch, Sch.under] at h
  | .attr, _, n, x, F, S, h, _ => by simp [Typ.sch, Sch.under] at h
  | .hidden, _, n, x, F, S, h, _ => by simp [Typ.sch, Sch.under] at h

theorem fieldInfo_name {d : Decl} {t : Typ} {f x : FInfo} (h : structFieldInfo d t = .ok f) (hm : f.mode = .elem)
    (hx : lookupXMLName t = some x) : f.loc = x.loc := by
  unfold structFieldInfo at h
  split at h
  · cases h
  · split at h
    · rw [hx] at h
      injection h with h
      rw [← h]
    · split at h
      · cases h
      · dsimp only at h
        split at h
        · rw [hx] at h
          dsimp only at h
          split at h
          · cases h
          · rename_i hl
            injection h with h
            rw [← h]
            exact (Classical.not_not.1 hl).symm
        · rename_i hne
          injection h with h
          rw [← h] at hm
          exact absurd hm hne

theorem distincts_get : ∀ (ts : List Typ) (i : Nat) (t : Typ), Distincts ts → ts[i]? = some t → t.Distinct
  | [], i, t, _, h => by simp at h
  | t' :: ts, 0, t, hd, h => by
    simp only [Distincts] at hd
    simp at h; subst h; exact hd.1
  | t' :: ts, i + 1, t, hd, h => by
    simp only [Distincts] at hd
    exact distincts_get ts i t hd.2 (by simpa using h)

/-- The fields of a table agree with the names in their types. -/
def NamesAgree (F : List FInfo) (S : List Sch) : Prop :=
  ∀ (i : Nat) (f : FInfo) (s : Sch), F[i]? = some f → S[i]? = some s → f.mode = .elem →
    ∀ (n : Bytes) (x : FInfo) (G : List FInfo) (T : List Sch), s.under = .struct n (some x) G T → x.loc ≠ [] → f.loc = x.loc

mutual
theorem names_agree : ∀ (t : Typ), t.Distinct → ∀ p F S, promoted t.sch = some (p, F, S) → NamesAgree F S
  | .ptr t, hd, p, F, S, h => by
    simp only [Typ.Distinct, Typ.sch] at hd h
    refine names_agree t hd false F S ?_
    cases hs : t.sch with
    | struct n xn G T =>
      rw [hs] at h
      simp only [promoted] at h ⊢
      injection h with h; injection h with _ h
      rw [h]
    | _ => rw [hs] at h; cases h
  | .struct n ds ts, hd, p, F, S, h => by
    simp only [Typ.Distinct] at hd
    cases hs : (Typ.struct n ds ts).sch with
    | struct n' xn G T =>
      rw [hs] at h
      simp only [promoted] at h
      injection h with h; injection h with _ h; injection h with h1 h2
      subst h1; subst h2
      intro i f s hf hs' hm n2 x G2 T2 hu hx
      have hc := C52_sound hs i f s hf hs'
      have hall := names_agrees ts hd.2
      generalize hcc : (f, s) = c at hc
      cases hc with
      | own i d t f' e1 e2 e3 e4 e5 e6 =>
        injection hcc with hc1 hc2
        subst hc1; subst hc2
        exact fieldInfo_name e6 hm (lookup_name t (distincts_get ts i t hd.2 e2) n2 x G2 T2 hu hx)
      | emb i d t p F' S' j f' s' e1 e2 e3 e4 e5 e6 e7 =>
        injection hcc with hc1 hc2
        subst hc1; subst hc2
        exact hall i t e2 p F' S' e5 j f' s e6 e7 hm n2 x G2 T2 hu hx
    | ptr s =>
      simp only [Typ.sch] at hs
      split at hs <;> cases hs
    | _ => rw [hs] at h; cases h
  | .simple k, _, p, F, S, h => by simp [Typ.sch, promoted] at h
  | .slice t, _, p, F, S, h => by simp [Typ.sch, promoted] at h
  | .name, _, p, F, S, h => by simp [Typ.sch, promoted] at h
  | .attr, _, p, F, S, h => by simp [Typ.sch, promoted] at h
  | .hidden, _, p, F, S, h => by simp [Typ.sch, promoted] at h
theorem names_agrees : ∀ (ts : List Typ), Distincts ts → ∀ (i : Nat) (t : Typ), ts[i]? = some t → ∀ p F S,
    promoted t.sch = some (p, F, S) → NamesAgree F S
  | [], _, i, t, h, _, _, _, _ => by simp at h
  | t :: ts, hd, i, t', h, p, F, S, hp => by
    simp only [Distincts] at hd
    cases i with
    | zero => simp at h; subst h; exact names_agree t hd.1 p F S hp
    | succ i => exact names_agrees ts hd.2 i t' (by simpa using h) p F S hp
end

/-- **C52**: an element field whose type is a struct, or a pointer to one, that names its element has that name.  (For a slice
of such structs this is not checked, see C40.) -/
theorem C52_names {t : Typ} (hd : t.Distinct) {n : Bytes} {xn : Option FInfo} {F : List FInfo} {S : List Sch}
    (h : t.sch = .struct n xn F S) : NamesAgree F S :=
  names_agree t hd false F S (by rw [h]; rfl)

/-! ### Examples -/

/-- A struct with a table. -/
def Sch.isStruct : Sch → Bool
  | .struct _ _ _ _ => true
  | _ => false

mutual
/-- `Typ.Distinct`. -/
def Typ.distinctB : Typ → Bool
  | .ptr t => t.distinctB
  | .slice t => t.distinctB
  | .struct _ ds ts => decide (ds.map (·.name)).Nodup && distinctsB ts
  | _ => true
/-- `Distincts`. -/
def distinctsB : List Typ → Bool
  | [] => true
  | t :: l => t.distinctB && distinctsB l
end

mutual
theorem distinctB_sound : ∀ (t : Typ), t.distinctB = true → t.Distinct
  | .ptr t, h => by simp only [Typ.distinctB, Typ.Distinct] at h ⊢; exact distinctB_sound t h
  | .slice t, h => by simp only [Typ.distinctB, Typ.Distinct] at h ⊢; exact distinctB_sound t h
  | .struct _ ds ts, h => by
    simp only [Typ.distinctB, Typ.Distinct, Bool.and_eq_true, decide_eq_true_eq] at h ⊢
    exact ⟨h.1, distinctsB_sound ts h.2⟩
  | .simple _, _ => trivial
  | .name, _ => trivial
  | .attr, _ => trivial
  | .hidden, _ => trivial
theorem distinctsB_sound : ∀ (l : List Typ), distinctsB l = true → Distincts l
  | [], _ => trivial
  | t :: l, h => by
    simp only [distinctsB, Distincts, Bool.and_eq_true] at h ⊢
    exact ⟨distinctB_sound t h.1, distinctsB_sound l h.2⟩
end

/-- The types of the manifest are such types. -/
theorem mpd_distinct : tMPD.Distinct := distinctB_sound _ (by decide +kernel)

/-- A struct with a field that is a pointer to a struct that names its element `u`. -/
def exNamed (tag : Bytes) : Typ := .struct (b!"T") [⟨b!"X", false, true, tag⟩]
  [.ptr (.struct (b!"U") [⟨b!"XMLName", false, true, b!"u"⟩] [.name])]

/-- The tag may have that name or none, but not another one. -/
example : (exNamed (b!"u")).Distinct ∧ (exNamed (b!"u")).sch.isStruct = true ∧ (exNamed []).sch.isStruct = true ∧
    (exNamed (b!"v")).sch.isStruct = false := by
  refine ⟨distinctB_sound _ ?_, ?_, ?_, ?_⟩ <;> decide +kernel

/-- A struct with an attribute `a` that embeds a struct with attributes `a` and `b`. -/
def exHide : Typ := .struct (b!"T") [⟨b!"E", true, true, []⟩, ⟨b!"A", false, true, b!"a,attr"⟩]
  [.struct (b!"E") [⟨b!"A1", false, true, b!"a,attr"⟩, ⟨b!"B1", false, true, b!"b,attr"⟩] [.simple .str, .simple .bool], .simple .str]

/-- The attribute `a` is the outer one. -/
example : (match exHide.sch with | .struct _ _ F S => (F.zip S).map (fun p => (p.1.loc, p.1.depth)) | _ => []) =
    [(b!"b", 2), (b!"a", 1)] := by decide +kernel

end Verif.Bind

import Verif.Schema
import Verif.KRfl
import Mathlib.Logic.Relation

/-!
C44: the caches of type information (`/repo/xml/typeinfo.go` 57-165), used by any number of goroutines.
-/
namespace Verif.TypeCache

open Verif.Bind Verif.Xml

/-! ### Programs using a `sync.Map` -/

/-- A computation whose only effects are operations on one `sync.Map`, each of them atomic. -/
inductive Prog (K V R : Type) where
  | ret (r : R)
  | load (k : K) (f : Option V → Prog K V R)
  | store (k : K) (v : V) (p : Prog K V R)
  | loadOrStore (k : K) (v : V) (f : V → Prog K V R)

/-- One computation after another. -/
def Prog.bind {K V R R' : Type} : Prog K V R → (R → Prog K V R') → Prog K V R'
  | .ret r, g => g r
  | .load k f, g => .load k fun o => (f o).bind g
  | .store k v p, g => .store k v (p.bind g)
  | .loadOrStore k v f, g => .loadOrStore k v fun w => (f w).bind g

/-- What `getTypeInfo` computes for a type: the `XMLName` field and the fields.  The counts and the attribute table built at
the end (`/repo/xml/typeinfo.go` 146-161) are functions of the fields. -/
abbrev Info := Option FInfo × List (FInfo × Sch)

/-- A type is a struct, or a pointer to a struct, other than `Name` (`/repo/xml/typeinfo.go` 109-113). -/
def isEmb : Typ → Bool
  | .struct _ _ _ => true
  | .ptr (.struct _ _ _) => true
  | _ => false

/-- The description of an embedded type given the information on its struct. -/
def embSch : Typ → Except TErr Info → Sch
  | .struct n _ _, .ok inner => .struct n inner.1 (inner.2.map (·.1)) (inner.2.map (·.2))
  | .ptr (.struct n _ _), .ok inner => .ptr (.struct n inner.1 (inner.2.map (·.1)) (inner.2.map (·.2)))
  | .ptr (.struct _ _ _), .error e => .ptr (.bad e)
  | _, .error e => .bad e
  | t, _ => t.sch

/-- The end of `getTypeInfo` (`/repo/xml/typeinfo.go` 163-164): the information is published, and what is in the cache is
returned. -/
def publish (t : Typ) : Except TErr Info → Prog Typ Info (Except TErr Info)
  | .error e => .ret (.error e)
  | .ok ti => .loadOrStore t ti fun w => .ret (.ok w)

mutual
/-- `getTypeInfo` (`/repo/xml/typeinfo.go` 93-165) for the type, or with `ind` for the type a pointer points to
(lines 110-112).  Types other than structs have no fields. -/
def infoP : Typ → Bool → Prog Typ Info (Except TErr Info)
  | .struct n ds ts, _ => .load (.struct n ds ts) fun o =>
    match o with
    | some ti => .ret (.ok ti)
    | none => (loopP 0 ds ts none []).bind (publish (.struct n ds ts))
  | .ptr t, true => infoP t false
  | .ptr t, false => .load (.ptr t) fun o =>
    match o with
    | some ti => .ret (.ok ti)
    | none => publish (.ptr t) (.ok (none, []))
  | t, _ => .load t fun o =>
    match o with
    | some ti => .ret (.ok ti)
    | none => publish t (.ok (none, []))
/-- The loop over the fields (`/repo/xml/typeinfo.go` 101-143); the information on an embedded struct comes from
`getTypeInfo`. -/
def loopP : Nat → List Decl → List Typ → Option FInfo → List (FInfo × Sch) → Prog Typ Info (Except TErr Info)
  | i, d :: ds, t :: ts, xn, acc =>
    if (!d.exported && !d.embedded) || d.tag == b!"-" then loopP (i + 1) ds ts xn acc
    else if d.embedded && isEmb t then
      (infoP t true).bind fun inner =>
        match addDecl i d t (embSch t inner) xn acc with
        | .error e => .ret (.error e)
        | .ok (xn', acc') => loopP (i + 1) ds ts xn' acc'
    else
      match addDecl i d t t.sch xn acc with
      | .error e => .ret (.error e)
      | .ok (xn', acc') => loopP (i + 1) ds ts xn' acc'
  | _, _, [], xn, acc => .ret (.ok (xn, acc))
  | _, [], _, xn, acc => .ret (.ok (xn, acc))
end

/-- `getTypeInfo` (`/repo/xml/typeinfo.go` 93-165). -/
def getTypeInfo (t : Typ) : Prog Typ Info (Except TErr Info) := infoP t false

/-- `getTypeImpl` (`/repo/xml/typeinfo.go` 72-87); `checks` are the six calls of `Implements`. -/
def getTypeImpl {T I : Type} (checks : T → I) (t : T) : Prog T I I :=
  .load t fun o =>
    match o with
    | some v => .ret v
    | none => .store t (checks t) (.ret (checks t))

/-- What `getTypeInfo` returns without a cache. -/
def plainInfo : Typ → Except TErr Info
  | .struct _ ds ts => structInfo 0 ds ts none []
  | _ => .ok (none, [])

/-! ### Goroutines -/

/-- A goroutine: waiting, or in a call with the request it was made for. -/
inductive Thread (Q K V R : Type) where
  | idle
  | busy (q : Q) (p : Prog K V R)

/-- The cache, the goroutines, and the results returned so far with their requests. -/
structure World (ι Q K V R : Type) where
  cache : K → Option V
  threads : ι → Thread Q K V R
  log : List (Q × R)

open Classical in
/-- A map with one entry changed. -/
noncomputable def set {α β : Type} (f : α → β) (a : α) (b : β) : α → β := fun x => if x = a then b else f x

/-- One atomic step of one goroutine: it starts a call, does one operation on the cache, or returns. -/
inductive Step {ι Q K V R : Type} (prog : Q → Prog K V R) : World ι Q K V R → World ι Q K V R → Prop
  | start (w i q) (h : w.threads i = .idle) :
    Step prog w { w with threads := set w.threads i (.busy q (prog q)) }
  | load (w i q k f) (h : w.threads i = .busy q (.load k f)) :
    Step prog w { w with threads := set w.threads i (.busy q (f (w.cache k))) }
  | store (w i q k v p) (h : w.threads i = .busy q (.store k v p)) :
    Step prog w { w with cache := set w.cache k (some v), threads := set w.threads i (.busy q p) }
  | loadOrStore_hit (w i q k v f u) (h : w.threads i = .busy q (.loadOrStore k v f)) (hc : w.cache k = some u) :
    Step prog w { w with threads := set w.threads i (.busy q (f u)) }
  | loadOrStore_miss (w i q k v f) (h : w.threads i = .busy q (.loadOrStore k v f)) (hc : w.cache k = none) :
    Step prog w { w with cache := set w.cache k (some v), threads := set w.threads i (.busy q (f v)) }
  | done (w i q r) (h : w.threads i = .busy q (.ret r)) :
    Step prog w { w with threads := set w.threads i .idle, log := (q, r) :: w.log }

/-- Before anything has run: the cache is empty. -/
def World.init {ι Q K V R : Type} : World ι Q K V R := ⟨fun _ => none, fun _ => .idle, []⟩

/-! ### Correctness -/

/-- Whatever correct entries the cache holds, the program writes correct entries and returns a result satisfying `P`. -/
def Prog.Good {K V R : Type} (S : K → V → Prop) (P : R → Prop) : Prog K V R → Prop
  | .ret r => P r
  | .load k f => ∀ o, (∀ v, o = some v → S k v) → (f o).Good S P
  | .store k v p => S k v ∧ p.Good S P
  | .loadOrStore k v f => S k v ∧ ∀ w, S k w → (f w).Good S P

theorem good_bind {K V R R' : Type} {S : K → V → Prop} {P : R → Prop} {P' : R' → Prop} (g : R → Prog K V R')
    (hg : ∀ r, P r → (g r).Good S P') : ∀ p : Prog K V R, p.Good S P → (p.bind g).Good S P'
  | .ret r, h => hg r h
  | .load _ f, h => fun o ho => good_bind g hg (f o) (h o ho)
  | .store _ _ p, h => ⟨h.1, good_bind g hg p h.2⟩
  | .loadOrStore _ _ f, h => ⟨h.1, fun w hw => good_bind g hg (f w) (h.2 w hw)⟩

/-- The invariant of a run. -/
structure WorldOk {ι Q K V R : Type} (S : K → V → Prop) (P : Q → R → Prop) (w : World ι Q K V R) : Prop where
  cache : ∀ k v, w.cache k = some v → S k v
  threads : ∀ i q p, w.threads i = .busy q p → p.Good S (P q)
  log : ∀ e ∈ w.log, P e.1 e.2

theorem set_self {α β : Type} (f : α → β) (a : α) (b : β) : set f a b a = b := by simp [set]
theorem set_ne {α β : Type} (f : α → β) (a x : α) (b : β) (h : x ≠ a) : set f a b x = f x := by simp [set, h]

theorem threads_set {ι Q K V R : Type} {S : K → V → Prop} {P : Q → R → Prop} {th : ι → Thread Q K V R}
    (h : ∀ i q p, th i = .busy q p → p.Good S (P q)) (i : ι) (t : Thread Q K V R)
    (ht : ∀ q p, t = .busy q p → p.Good S (P q)) : ∀ j q p, set th i t j = .busy q p → p.Good S (P q) := by
  intro j q p hj
  by_cases hi : j = i
  · subst hi
    rw [set_self] at hj
    exact ht q p hj
  · rw [set_ne _ _ _ _ hi] at hj
    exact h j q p hj

theorem step_ok {ι Q K V R : Type} {S : K → V → Prop} {P : Q → R → Prop} (prog : Q → Prog K V R)
    (hp : ∀ q, (prog q).Good S (P q)) {w w' : World ι Q K V R} (h : Step prog w w') (hw : WorldOk S P w) :
    WorldOk S P w' := by
  have hcache : ∀ k v, S k v → ∀ k' v', set w.cache k (some v) k' = some v' → S k' v' := by
    intro k v hs k' v' h'
    by_cases hk : k' = k
    · subst hk
      rw [set_self] at h'
      injection h' with h'
      exact h' ▸ hs
    · rw [set_ne _ _ _ _ hk] at h'
      exact hw.cache k' v' h'
  cases h with
  | start i q hi =>
    refine ⟨hw.cache, threads_set hw.threads i _ ?_, hw.log⟩
    intro q' p' h'; injection h' with h1 h2; subst h1; subst h2; exact hp q
  | load i q k f hi =>
    refine ⟨hw.cache, threads_set hw.threads i _ ?_, hw.log⟩
    intro q' p' h'; injection h' with h1 h2; subst h1; subst h2
    exact hw.threads i q _ hi _ fun v hv => hw.cache k v hv
  | store i q k v p hi =>
    have := hw.threads i q _ hi
    refine ⟨hcache k v this.1, threads_set hw.threads i _ ?_, hw.log⟩
    intro q' p' h'; injection h' with h1 h2; subst h1; subst h2
    exact this.2
  | loadOrStore_hit i q k v f u hi hc =>
    refine ⟨hw.cache, threads_set hw.threads i _ ?_, hw.log⟩
    intro q' p' h'; injection h' with h1 h2; subst h1; subst h2
    exact (hw.threads i q _ hi).2 u (hw.cache k u hc)
  | loadOrStore_miss i q k v f hi hc =>
    have := hw.threads i q _ hi
    refine ⟨hcache k v this.1, threads_set hw.threads i _ ?_, hw.log⟩
    intro q' p' h'; injection h' with h1 h2; subst h1; subst h2
    exact this.2 v this.1
  | done i q r hi =>
    refine ⟨hw.cache, threads_set hw.threads i _ ?_, ?_⟩
    · intro q' p' h'; cases h'
    · intro e he
      rcases List.mem_cons.1 he with rfl | he
      · exact hw.threads i q _ hi
      · exact hw.log e he

theorem reach_ok {ι Q K V R : Type} {S : K → V → Prop} {P : Q → R → Prop} (prog : Q → Prog K V R)
    (hp : ∀ q, (prog q).Good S (P q)) {w : World ι Q K V R} (h : Relation.ReflTransGen (Step prog) .init w) :
    WorldOk S P w := by
  induction h with
  | refl => exact ⟨by simp [World.init], by simp [World.init], by simp [World.init]⟩
  | tail _ hs ih => exact step_ok prog hp hs ih

/-! ### `getTypeInfo` -/

/-- The type a pointer points to, if `ind`. -/
def strip : Typ → Bool → Typ
  | .ptr t, true => t
  | t, _ => t

/-- A cache entry is what would be computed. -/
def Right (t : Typ) (ti : Info) : Prop := plainInfo t = .ok ti

theorem embSch_plain (t : Typ) (h : isEmb t = true) : embSch t (plainInfo (strip t true)) = t.sch := by
  match t, h with
  | .struct n ds ts, _ =>
    simp only [strip, plainInfo, Typ.sch]
    cases structInfo 0 ds ts none [] <;> simp [embSch]
  | .ptr (.struct n ds ts), _ =>
    simp only [strip, plainInfo, Typ.sch]
    cases structInfo 0 ds ts none [] <;> simp [embSch]
  | .simple k, h => cases h
  | .slice t, h => cases h
  | .name, h => cases h
  | .attr, h => cases h
  | .hidden, h => cases h
  | .ptr (.simple k), h => cases h
  | .ptr (.slice t), h => cases h
  | .ptr .name, h => cases h
  | .ptr .attr, h => cases h
  | .ptr .hidden, h => cases h
  | .ptr (.ptr t), h => cases h

theorem publish_good (t : Typ) (r : Except TErr Info) (h : plainInfo t = r) :
    (publish t r).Good Right (fun r => r = plainInfo t) := by
  cases r with
  | error e => exact h.symm
  | ok ti =>
    refine ⟨h, fun w hw => ?_⟩
    exact hw.symm

/-- Any type without fields of its own. -/
theorem leaf_good (t : Typ) (h : plainInfo t = .ok (none, [])) :
    (Prog.load t fun o => match o with
      | some ti => .ret (.ok ti)
      | none => publish t (.ok (none, []))).Good Right (fun r => r = plainInfo t) := by
  intro o ho
  cases o with
  | some ti => exact (ho ti rfl).symm
  | none => exact publish_good t _ h

mutual
theorem infoP_good : ∀ (t : Typ) (ind : Bool), (infoP t ind).Good Right (fun r => r = plainInfo (strip t ind))
  | .struct n ds ts, ind => by
    have hs : strip (.struct n ds ts) ind = .struct n ds ts := by cases ind <;> rfl
    rw [hs]
    simp only [infoP]
    intro o ho
    cases o with
    | some ti => exact (ho ti rfl).symm
    | none =>
      refine good_bind (P := fun r => r = structInfo 0 ds ts none []) _ ?_ _ (loopP_good 0 ds ts none [])
      rintro r rfl
      exact publish_good _ _ rfl
  | .ptr t, true => by
    have h := infoP_good t false
    have hs : strip t false = t := by cases t <;> rfl
    rw [hs] at h
    simp only [infoP, strip]
    exact h
  | .ptr t, false => by
    simp only [infoP, strip]
    exact leaf_good (.ptr t) rfl
  | .simple k, ind => by
    have hs : strip (.simple k) ind = .simple k := by cases ind <;> rfl
    rw [hs]; simp only [infoP]; exact leaf_good _ rfl
  | .slice t, ind => by
    have hs : strip (.slice t) ind = .slice t := by cases ind <;> rfl
    rw [hs]; simp only [infoP]; exact leaf_good _ rfl
  | .name, ind => by
    have hs : strip .name ind = .name := by cases ind <;> rfl
    rw [hs]; simp only [infoP]; exact leaf_good _ rfl
  | .attr, ind => by
    have hs : strip .attr ind = .attr := by cases ind <;> rfl
    rw [hs]; simp only [infoP]; exact leaf_good _ rfl
  | .hidden, ind => by
    have hs : strip .hidden ind = .hidden := by cases ind <;> rfl
    rw [hs]; simp only [infoP]; exact leaf_good _ rfl
theorem loopP_good : ∀ (i : Nat) (ds : List Decl) (ts : List Typ) (xn : Option FInfo) (acc : List (FInfo × Sch)),
    (loopP i ds ts xn acc).Good Right (fun r => r = structInfo i ds ts xn acc)
  | i, [], [], xn, acc => by simp only [loopP, structInfo]; rfl
  | i, d :: ds, [], xn, acc => by simp only [loopP, structInfo]; rfl
  | i, [], t :: ts, xn, acc => by simp only [loopP, structInfo]; rfl
  | i, d :: ds, t :: ts, xn, acc => by
    simp only [loopP, structInfo]
    split
    · exact loopP_good (i + 1) ds ts xn acc
    · by_cases he : (d.embedded && isEmb t) = true
      · rw [if_pos he]
        simp only [Bool.and_eq_true] at he
        refine good_bind _ ?_ _ (infoP_good t true)
        rintro r rfl
        rw [embSch_plain t he.2]
        cases hd : addDecl i d t t.sch xn acc with
        | error e => rfl
        | ok p => exact loopP_good (i + 1) ds ts p.1 p.2
      · rw [if_neg he]
        cases hd : addDecl i d t t.sch xn acc with
        | error e => rfl
        | ok p => exact loopP_good (i + 1) ds ts p.1 p.2
end

theorem getTypeInfo_good (t : Typ) : (getTypeInfo t).Good Right (fun r => r = plainInfo t) := by
  have h := infoP_good t false
  have hs : strip t false = t := by cases t <;> rfl
  rw [hs] at h
  exact h

/-- C44: in every run of any number of goroutines that call `getTypeInfo` on any types in any order, starting with an empty
cache, every call that has returned returned what is computed without a cache, and every entry of the cache is what would
be computed. -/
theorem C44_typeInfo {ι : Type} (w : World ι Typ Typ Info (Except TErr Info))
    (h : Relation.ReflTransGen (Step getTypeInfo) .init w) :
    (∀ e ∈ w.log, e.2 = plainInfo e.1) ∧ ∀ t ti, w.cache t = some ti → plainInfo t = .ok ti :=
  have := reach_ok (S := Right) (P := fun t r => r = plainInfo t) getTypeInfo getTypeInfo_good h
  ⟨this.log, this.cache⟩

/-- C44: the same for `getTypeImpl`, for any checks that depend on the type only. -/
theorem C44_typeImpl {ι T I : Type} (checks : T → I) (w : World ι T T I I)
    (h : Relation.ReflTransGen (Step (getTypeImpl checks)) .init w) :
    (∀ e ∈ w.log, e.2 = checks e.1) ∧ ∀ t v, w.cache t = some v → v = checks t := by
  have := reach_ok (S := fun t v => v = checks t) (P := fun t r => r = checks t) (getTypeImpl checks) (fun t => by
    intro o ho
    cases o with
    | some v => exact ho v rfl
    | none => exact ⟨rfl, rfl⟩) h
  exact ⟨this.log, this.cache⟩

/-- The description of a struct used by the model of marshalling and unmarshalling is what `getTypeInfo` returns. -/
theorem sch_of_info (n : Bytes) (ds : List Decl) (ts : List Typ) (ti : Info)
    (h : plainInfo (.struct n ds ts) = .ok ti) :
    (Typ.struct n ds ts).sch = .struct n ti.1 (ti.2.map (·.1)) (ti.2.map (·.2)) := by
  simp only [plainInfo] at h
  simp only [Typ.sch, h]

/-- A call that has started returns after finitely many steps of its own goroutine, whatever the cache holds. -/
theorem call_returns {ι Q K V R : Type} (prog : Q → Prog K V R) (i : ι) (q : Q) : ∀ (p : Prog K V R) (w : World ι Q K V R),
    w.threads i = .busy q p → ∃ w' r, Relation.ReflTransGen (Step prog) w w' ∧ w'.log = (q, r) :: w.log ∧
      w'.threads i = .idle ∧ ∀ j, j ≠ i → w'.threads j = w.threads j
  | .ret r, w, h => ⟨_, r, .single (.done w i q r h), rfl, set_self _ _ _, fun j hj => set_ne _ _ _ _ hj⟩
  | .load k f, w, h => by
    obtain ⟨w', r, h1, h2, h3, h4⟩ := call_returns prog i q (f (w.cache k))
      { w with threads := set w.threads i (.busy q (f (w.cache k))) } (set_self _ _ _)
    exact ⟨w', r, .head (.load w i q k f h) h1, h2, h3, fun j hj => (h4 j hj).trans (set_ne _ _ _ _ hj)⟩
  | .store k v p, w, h => by
    obtain ⟨w', r, h1, h2, h3, h4⟩ := call_returns prog i q p
      { w with cache := set w.cache k (some v), threads := set w.threads i (.busy q p) } (set_self _ _ _)
    exact ⟨w', r, .head (.store w i q k v p h) h1, h2, h3, fun j hj => (h4 j hj).trans (set_ne _ _ _ _ hj)⟩
  | .loadOrStore k v f, w, h => by
    cases hc : w.cache k with
    | some u =>
      obtain ⟨w', r, h1, h2, h3, h4⟩ := call_returns prog i q (f u)
        { w with threads := set w.threads i (.busy q (f u)) } (set_self _ _ _)
      exact ⟨w', r, .head (.loadOrStore_hit w i q k v f u h hc) h1, h2, h3,
        fun j hj => (h4 j hj).trans (set_ne _ _ _ _ hj)⟩
    | none =>
      obtain ⟨w', r, h1, h2, h3, h4⟩ := call_returns prog i q (f v)
        { w with cache := set w.cache k (some v), threads := set w.threads i (.busy q (f v)) } (set_self _ _ _)
      exact ⟨w', r, .head (.loadOrStore_miss w i q k v f h hc) h1, h2, h3,
        fun j hj => (h4 j hj).trans (set_ne _ _ _ _ hj)⟩

/-! ### Two goroutines -/

/-- A struct with an embedded struct. -/
def innerTyp : Typ := .struct b!"Inner" [⟨b!"A", false, true, b!"a,attr"⟩] [.simple .str]
def outerTyp : Typ :=
  .struct b!"Outer" [⟨b!"Inner", true, true, []⟩, ⟨b!"B", false, true, b!"b"⟩] [innerTyp, .simple .str]

/-- Two goroutines ask for the outer type; both find the caches empty, and the second one publishes first.  Both return
the same information, with the field of the embedded struct. -/
example : ∃ w : World Bool Typ Typ Info (Except TErr Info), Relation.ReflTransGen (Step getTypeInfo) .init w ∧
    ∃ r, w.log = [(outerTyp, r), (outerTyp, r)] ∧ ∃ ti, r = .ok ti ∧ ti.2.map (·.1.loc) = [b!"a", b!"b"] := by
  obtain ⟨f, hf⟩ : ∃ f, getTypeInfo outerTyp = .load outerTyp f := ⟨_, rfl⟩
  have hft : (true : Bool) ≠ false := by decide
  have hff : (false : Bool) ≠ true := by decide
  let w0 : World Bool Typ Typ Info (Except TErr Info) := .init
  let w1 := { w0 with threads := set w0.threads true (.busy outerTyp (getTypeInfo outerTyp)) }
  let w2 := { w1 with threads := set w1.threads false (.busy outerTyp (getTypeInfo outerTyp)) }
  have t2t : w2.threads true = .busy outerTyp (.load outerTyp f) := by
    rw [← hf]; exact (set_ne _ _ _ _ hft).trans (set_self _ _ _)
  have t2f : w2.threads false = .busy outerTyp (.load outerTyp f) := by rw [← hf]; exact set_self _ _ _
  let w3 := { w2 with threads := set w2.threads true (.busy outerTyp (f (w2.cache outerTyp))) }
  have t3f : w3.threads false = .busy outerTyp (.load outerTyp f) := (set_ne _ _ _ _ hff).trans t2f
  let w4 := { w3 with threads := set w3.threads false (.busy outerTyp (f (w3.cache outerTyp))) }
  have t4t : w4.threads true = .busy outerTyp (f none) := (set_ne _ _ _ _ hft).trans (set_self _ _ _)
  have t4f : w4.threads false = .busy outerTyp (f none) := set_self _ _ _
  have r4 : Relation.ReflTransGen (Step getTypeInfo) w0 w4 :=
    .head (.start w0 true outerTyp rfl) (.head (.start w1 false outerTyp (set_ne _ _ _ _ hff))
      (.head (.load w2 true outerTyp outerTyp f t2t) (.single (.load w3 false outerTyp outerTyp f t3f))))
  obtain ⟨w5, r, h1, h2, -, h4⟩ := call_returns getTypeInfo false outerTyp _ w4 t4f
  obtain ⟨w6, r', h5, h6, -, -⟩ := call_returns getTypeInfo true outerTyp _ w5 ((h4 true hft).trans t4t)
  have hreach : Relation.ReflTransGen (Step getTypeInfo) .init w6 := (r4.trans h1).trans h5
  have hlog : w6.log = [(outerTyp, r'), (outerTyp, r)] := by rw [h6, h2]; rfl
  have h := (C44_typeInfo w6 hreach).1
  have e1 : r' = plainInfo outerTyp := h (outerTyp, r') (by rw [hlog]; simp)
  have e2 : r = plainInfo outerTyp := h (outerTyp, r) (by rw [hlog]; simp)
  subst e1
  subst e2
  refine ⟨w6, hreach, _, hlog, (none, [(⟨[], b!"a", [], .attr, false, 2, none⟩, .simple .str),
    (⟨[], b!"b", [], .elem, false, 1, none⟩, .simple .str)]), ?_, rfl⟩
  krfl

end Verif.TypeCache

import Verif.GrammarProps
import Verif.ReadProps

/-!
C55: how a document is spelled does not matter.  Two well-formed documents that say the same — with other quotes, other white
space in tags, references or CDATA sections instead of literal text, empty-element tags or not, comments, processing instructions or
other line ends — are unmarshalled alike, except for the `innerxml` fields, which are copies of the input.
-/
namespace Verif.Grammar

open Verif.Xml hiding readAttr
open Verif.Utf8 Verif.Bind

/-! ### Values without the copies of the input -/

/-- A string without its content. -/
def blank : Val → Val
  | .str _ => .str []
  | v => v

mutual
/-- A value with empty `innerxml` fields. -/
def outline : Sch → Val → Val
  | .ptr s, .ptr (some v) => .ptr (some (outline s v))
  | .slice s, .slice l => .slice (l.map (outline s))
  | .struct _ _ infos subs, .struct n vs => .struct n (outlines infos subs vs)
  | _, v => v
/-- The same for the fields of a struct. -/
def outlines : List FInfo → List Sch → List Val → List Val
  | fi :: fis, s :: ss, v :: vs => (if fi.mode = .innerxml then blank v else outline s v) :: outlines fis ss vs
  | _, _, vs => vs
end

/-- A result. -/
def mapOk {α β : Type} (f : α → β) : Except RErr α → Except RErr β
  | .ok v => .ok (f v)
  | .error e => .error e

mutual
theorem outline_zero : ∀ s : Sch, outline s s.zero = s.zero
  | .simple k => by cases k <;> simp [Sch.zero, Kind.zero, outline]
  | .ptr s => by simp [Sch.zero, outline]
  | .slice s => by simp [Sch.zero, outline]
  | .name => by simp [Sch.zero, outline]
  | .attr => by simp [Sch.zero, outline]
  | .struct tn xn infos subs => by simp only [Sch.zero, outline, outlines_zero infos subs]
  | .bad e => by simp [Sch.zero, outline]
theorem outlines_zero : ∀ (infos : List FInfo) (subs : List Sch), outlines infos subs (zeros infos subs) = zeros infos subs
  | fi :: fis, s :: ss => by
    simp only [zeros, outlines, outlines_zero fis ss, List.cons.injEq, and_true]
    have hb : blank s.zero = s.zero := by
      cases s <;> simp only [Sch.zero, blank]
      rename_i k
      cases k <;> rfl
    have ha : outline s .absent = .absent := by cases s <;> rfl
    split
    · split
      · exact hb
      · rfl
    · split
      · exact outline_zero s
      · exact ha
  | [], _ => by simp [zeros, outlines]
  | _ :: _, [] => by simp [zeros, outlines]
end

theorem outline_deref (s : Sch) (v : Val) : Val.deref s (outline (.ptr s) v) = outline s (Val.deref s v) := by
  cases v with
  | ptr o => cases o with
    | none => simp [outline, Val.deref, outline_zero]
    | some w => simp [outline, Val.deref]
  | _ => simp [outline, Val.deref, outline_zero]

theorem outlines_length : ∀ (infos : List FInfo) (subs : List Sch) (vs : List Val), (outlines infos subs vs).length = vs.length
  | fi :: fis, s :: ss, v :: vs => by simp [outlines, outlines_length fis ss vs]
  | [], _, vs => by simp [outlines]
  | _ :: _, [], vs => by simp [outlines]
  | _ :: _, _ :: _, [] => by simp [outlines]

/-- The outline of a field. -/
def outField (fi : FInfo) (s : Sch) (v : Val) : Val := if fi.mode = .innerxml then blank v else outline s v

theorem outlines_get : ∀ (infos : List FInfo) (subs : List Sch) (vs : List Val) (i : Nat) (fi : FInfo) (s : Sch),
    infos[i]? = some fi → subs[i]? = some s → (outlines infos subs vs)[i]? = (vs[i]?).map (outField fi s)
  | _ :: _, _ :: _, v :: vs, 0, fi, s, h1, h2 => by
    simp only [List.getElem?_cons_zero, Option.some.injEq] at h1 h2
    subst h1; subst h2
    simp [outlines, outField]
  | f :: fis, s0 :: ss, v :: vs, i + 1, fi, s, h1, h2 => by
    simp only [List.getElem?_cons_succ] at h1 h2
    simp only [outlines, List.getElem?_cons_succ]
    exact outlines_get fis ss vs i fi s h1 h2
  | [], _, vs, i, fi, s, h1, h2 => by simp at h1
  | _ :: _, [], vs, i, fi, s, h1, h2 => by simp at h2
  | _ :: _, _ :: _, [], i, fi, s, h1, h2 => by simp [outlines]

theorem outlines_set : ∀ (infos : List FInfo) (subs : List Sch) (vs : List Val) (i : Nat) (fi : FInfo) (s : Sch) (w : Val),
    infos[i]? = some fi → subs[i]? = some s → outlines infos subs (vs.set i w) = (outlines infos subs vs).set i (outField fi s w)
  | _ :: _, _ :: _, v :: vs, 0, fi, s, w, h1, h2 => by
    simp only [List.getElem?_cons_zero, Option.some.injEq] at h1 h2
    subst h1; subst h2
    simp [outlines, outField]
  | f :: fis, s0 :: ss, v :: vs, i + 1, fi, s, w, h1, h2 => by
    simp only [List.getElem?_cons_succ] at h1 h2
    simp only [outlines, List.set_cons_succ]
    rw [outlines_set fis ss vs i fi s w h1 h2]
  | [], _, vs, i, fi, s, w, h1, h2 => by simp at h1
  | _ :: _, [], vs, i, fi, s, w, h1, h2 => by simp at h2
  | _ :: _, _ :: _, [], i, fi, s, w, h1, h2 => by simp [outlines]

theorem outField_absent (fi : FInfo) (s : Sch) (v : Val) : (outField fi s v).isAbsent = v.isAbsent := by
  unfold outField
  split
  · cases v <;> rfl
  · cases s <;> cases v <;> first | rfl | (rename_i o; cases o <;> rfl)

theorem outField_zero (fi : FInfo) (s : Sch) : outField fi s s.zero = s.zero := by
  unfold outField
  split
  · cases s <;> simp only [Sch.zero, blank]
    rename_i k
    cases k <;> rfl
  · exact outline_zero s

theorem outlines_alloc (g : Option Nat) : ∀ (infos : List FInfo) (subs : List Sch) (vs : List Val),
    outlines infos subs (initGroup.allocGroup g infos subs vs) = initGroup.allocGroup g infos subs (outlines infos subs vs)
  | fi :: fis, s :: ss, v :: vs => by
    simp only [initGroup.allocGroup, outlines, outlines_alloc g fis ss vs, List.cons.injEq, and_true]
    have := outField_zero fi s
    unfold outField at this
    split <;> split <;> simp_all
  | [], _, vs => by simp [outlines, initGroup.allocGroup]
  | _ :: _, [], vs => by simp [outlines, initGroup.allocGroup]
  | _ :: _, _ :: _, [] => by simp [outlines, initGroup.allocGroup]

theorem outlines_init (infos : List FInfo) (subs : List Sch) (vs : List Val) (i : Nat) (s : Sch) (hs : subs[i]? = some s) :
    outlines infos subs (initGroup infos subs vs i) = initGroup infos subs (outlines infos subs vs) i := by
  unfold initGroup
  cases hi : infos[i]? with
  | none => cases vs[i]? <;> cases (outlines infos subs vs)[i]? <;> rfl
  | some fi =>
    rw [outlines_get infos subs vs i fi s hi hs]
    cases hv : vs[i]? with
    | none => rfl
    | some v =>
      simp only [Option.map_some]
      rw [outField_absent]
      split
      · exact outlines_alloc ..
      · rfl

/-- Field by field. -/
theorem outline_updField (infos : List FInfo) (subs : List Sch) (vs : List Val) (i : Nat) (f g : Sch → Val → Except RErr Val)
    (fi : FInfo) (hi : infos[i]? = some fi)
    (h : ∀ s, subs[i]? = some s → ∀ v, mapOk (outField fi s) (f s v) = g s (outField fi s v)) :
    mapOk (outlines infos subs) (updField infos subs vs i f) = updField infos subs (outlines infos subs vs) i g := by
  unfold updField
  cases hs : subs[i]? with
  | none => rfl
  | some s =>
    rw [← outlines_init infos subs vs i s hs, outlines_get infos subs _ i fi s hi hs]
    cases hv : (initGroup infos subs vs i)[i]? with
    | none => rfl
    | some v =>
      simp only [Option.map_some]
      rw [← h s hs v]
      cases f s v with
      | error e => rfl
      | ok w =>
        simp only [mapOk]
        rw [outlines_set infos subs _ i fi s w hi hs]

theorem findIdx_some {p : FInfo → Bool} {l : List FInfo} {i : Nat} (h : l.findIdx? p = some i) : ∃ fi, l[i]? = some fi ∧ p fi = true := by
  induction l generalizing i with
  | nil => cases h
  | cons a l ih =>
    rw [List.findIdx?_cons] at h
    split at h
    · injection h with h
      subst h
      exact ⟨a, rfl, by assumption⟩
    · cases hl : l.findIdx? p with
      | none => rw [hl] at h; cases h
      | some j =>
        rw [hl] at h
        injection h with h
        subst h
        obtain ⟨fi, h1, h2⟩ := ih hl
        exact ⟨fi, by simpa using h1, h2⟩

theorem attrKey_mode {infos : List FInfo} {n : Name} {i : Nat} (h : attrKey infos n = some i) : ∃ fi, infos[i]? = some fi ∧ fi.mode ≠ .innerxml := by
  obtain ⟨fi, h1, h2⟩ := findIdx_some h
  refine ⟨fi, h1, fun hm => ?_⟩
  rw [hm] at h2
  simp at h2

theorem attrField_mode {infos : List FInfo} {n : Name} {i : Nat} (h : attrField infos n = some i) :
    ∃ fi, infos[i]? = some fi ∧ fi.mode ≠ .innerxml := by
  unfold attrField at h
  split at h
  · rename_i j hj
    injection h with h; subst h
    exact attrKey_mode hj
  · split at h
    · rename_i j hj
      injection h with h; subst h
      exact attrKey_mode hj
    · obtain ⟨fi, h1, h2⟩ := findIdx_some h
      refine ⟨fi, h1, fun hm => ?_⟩
      rw [hm] at h2
      exact absurd h2 (by decide)

theorem elemField_mode {infos : List FInfo} {n : Name} {i : Nat} (h : elemField infos n = some i) :
    ∃ fi, infos[i]? = some fi ∧ fi.mode ≠ .innerxml := by
  obtain ⟨fi, h1, h2⟩ := findIdx_some h
  refine ⟨fi, h1, fun hm => ?_⟩
  rw [hm] at h2
  simp at h2

theorem modeField_mode {infos : List FInfo} {m : Mode} {i : Nat} (h : modeField infos m = some i) : ∃ fi, infos[i]? = some fi ∧ fi.mode = m := by
  obtain ⟨fi, h1, h2⟩ := findIdx_some h
  exact ⟨fi, h1, by simpa using h2⟩

/-! ### Attributes and text -/

theorem outline_simple (k : Kind) (v : Val) : outline (.simple k) v = v := by cases v <;> rfl

theorem mapOk_id {α : Type} (f : α → α) (h : ∀ a, f a = a) (x : Except RErr α) : mapOk f x = x := by
  cases x with
  | error e => rfl
  | ok a => simp only [mapOk, h]

theorem outline_readAttr (io : FloatIO) (a : Attr) : ∀ (s : Sch) (v : Val), mapOk (outline s) (readAttr io s v a) = readAttr io s (outline s v) a
  | .simple k, v => by
    simp only [readAttr]
    exact mapOk_id _ (outline_simple k) _
  | .ptr s, v => by
    by_cases hs : s.isPtr = true
    · cases s <;> first | (cases hs; done) | (cases v <;> simp [readAttr, mapOk])
    · have hs : s.isPtr = false := by simpa using hs
      rw [readAttr_ptr io s v a hs, readAttr_ptr io s _ a hs, outline_deref, ← outline_readAttr io a s]
      cases readAttr io s (Val.deref s v) a with
      | error e => rfl
      | ok w => simp [wrapPtr, mapOk, outline]
  | .slice s, v => by
    cases v with
    | slice l =>
      have := outline_readAttr io a s s.zero
      rw [outline_zero] at this
      simp only [outline]
      rw [readAttr_slice, readAttr_slice]
      conv => rhs; rw [← this]
      cases readAttr io s s.zero a with
      | error e => rfl
      | ok w => simp [wrapSlice, mapOk, outline]
    | _ => simp [readAttr, mapOk, outline]
  | .name, v => by cases v <;> simp [readAttr, mapOk]
  | .attr, v => by cases v <;> simp [readAttr, mapOk, outline]
  | .struct .., v => by cases v <;> simp [readAttr, mapOk, outline]
  | .bad e, v => by cases v <;> simp [readAttr, mapOk]

theorem outline_readAttrs (io : FloatIO) (infos : List FInfo) (subs : List Sch) : ∀ (as : List Attr) (vs : List Val),
    mapOk (outlines infos subs) (readAttrs io infos subs vs as) = readAttrs io infos subs (outlines infos subs vs) as
  | [], vs => rfl
  | a :: as, vs => by
    simp only [readAttrs]
    cases hf : attrField infos a.name with
    | none => exact outline_readAttrs io infos subs as vs
    | some i =>
      obtain ⟨fi, hi, hm⟩ := attrField_mode hf
      have := outline_updField infos subs vs i (fun s v => readAttr io s v a) (fun s v => readAttr io s v a) fi hi (by
        intro s _ v
        unfold outField
        simp only [hm, if_false]
        exact outline_readAttr io a s v)
      dsimp only
      rw [← this]
      cases updField infos subs vs i fun s v => readAttr io s v a with
      | error e => rfl
      | ok vs' => exact outline_readAttrs io infos subs as vs'

theorem outline_copyValue (io : FloatIO) (s : Sch) (b : Bytes) : mapOk (outline s) (copyValue io s b) = copyValue io s b := by
  cases s with
  | simple k => exact mapOk_id _ (outline_simple k) _
  | ptr s =>
    cases s with
    | simple k =>
      simp only [copyValue]
      cases copySimple io k b with
      | error e => rfl
      | ok v => simp [mapOk, outline, outline_simple]
    | _ => rfl
  | _ => rfl

theorem outline_finish (io : FloatIO) (infos : List FInfo) (subs : List Sch) (vs : List Val) (data inner : Bytes) :
    mapOk (outlines infos subs) (finishStruct io infos subs vs data inner) = finishStruct io infos subs (outlines infos subs vs) data [] := by
  have key : ∀ vs', mapOk (outlines infos subs) (match modeField infos .innerxml with
      | none => .ok vs'
      | some i => updField infos subs vs' i fun s v =>
        match s with
        | .simple .str => .ok (.str inner)
        | _ => .ok v) =
      (match modeField infos .innerxml with
      | none => .ok (outlines infos subs vs')
      | some i => updField infos subs (outlines infos subs vs') i fun s v =>
        match s with
        | .simple .str => .ok (.str [])
        | _ => .ok v) := by
    intro vs'
    cases hx : modeField infos .innerxml with
    | none => rfl
    | some i =>
      obtain ⟨fi, hi, hm⟩ := modeField_mode hx
      dsimp only
      refine outline_updField infos subs vs' i _ _ fi hi ?_
      intro s _ v
      unfold outField
      simp only [hm, if_true]
      cases s with
      | simple k => cases k <;> rfl
      | _ => rfl
  unfold finishStruct
  dsimp only
  cases hc : modeField infos .chardata with
  | none => exact key vs
  | some i =>
    obtain ⟨fi, hi, hm⟩ := modeField_mode hc
    have := outline_updField infos subs vs i (fun s _ => copyValue io s data) (fun s _ => copyValue io s data) fi hi (by
      intro s _ v
      unfold outField
      simp only [hm]
      exact outline_copyValue io s data)
    dsimp only
    rw [← this]
    cases updField infos subs vs i fun s _ => copyValue io s data with
    | error e => rfl
    | ok vs' => exact key vs'

/-! ### Elements -/

mutual
/-- A tree that says this, without positions in the input. -/
def plain : Info → XTree
  | .elem n as kids => .elem n as [] [] (plains kids) n [] []
  | .chars b => .leaf (.charData b) [] []
/-- The same for a list. -/
def plains : List Info → List XTree
  | [] => []
  | x :: l => plain x :: plains l
end

theorem dataOf_addChars (b : Bytes) (l : List Info) : dataOf (plains (addChars b l)) = b ++ dataOf (plains l) := by
  unfold addChars
  split
  · rename_i h; simp [h]
  · cases l with
    | nil => simp [plains, plain, dataOf, tokData]
    | cons x l => cases x <;> simp [plains, plain, dataOf, tokData]

theorem dataOf_plains : ∀ l : List XTree, dataOf (plains (treesInfo l)) = dataOf l
  | [] => rfl
  | .leaf t b a :: l => by simp only [treesInfo, treeInfo, dataOf, dataOf_addChars, dataOf_plains l]
  | .elem .. :: l => by simp only [treesInfo, treeInfo, plains, plain, dataOf, dataOf_plains l]

theorem readKids_addChars (io : FloatIO) (d : Nat) (infos : List FInfo) (subs : List Sch) (vs : List Val) (b : Bytes) (l : List Info) :
    readKids io d infos subs vs (plains (addChars b l)) = readKids io d infos subs vs (plains l) := by
  unfold addChars
  split
  · rfl
  · cases l with
    | nil => simp [plains, plain, readKids]
    | cons x l => cases x <;> simp [plains, plain, readKids]

theorem outline_place (f g : Nat → Sch → Val → Except RErr Val) : ∀ (s : Sch), (∀ s d v, mapOk (outline s) (f d s v) = g d s (outline s v)) →
    ∀ (top : Bool) (d : Nat) (v : Val), mapOk (outline s) (place f top d s v) = place g top d s (outline s v)
  | .ptr s, h, true, d, v => by
    simp only [place]
    split
    · rfl
    · rw [outline_deref, ← outline_place f g s h]
      cases place f false d s (Val.deref s v) with
      | error e => rfl
      | ok w => simp [wrapPtr, mapOk, outline]
  | .ptr s, h, false, d, v => by
    simp only [place]; exact h _ _ _
  | .slice s, h, top, d, v => by
    cases v with
    | slice l =>
      have hz := outline_place f g s h true (d + 1) s.zero
      rw [outline_zero] at hz
      have hw : mapOk (outline (.slice s)) (wrapSlice l (place f true (d + 1) s s.zero)) =
          wrapSlice (l.map (outline s)) (place g true (d + 1) s s.zero) := by
        conv => rhs; rw [← hz]
        cases place f true (d + 1) s s.zero with
        | error e => rfl
        | ok w => simp [wrapSlice, mapOk, outline]
      cases top with
      | true =>
        simp only [place, outline]
        split
        · rfl
        · exact hw
      | false => simp only [place, outline]; exact hw
    | _ =>
      have := h (.slice s) d
      cases top <;> simp only [place, outline] <;> first | exact this _ | (split; rfl; exact this _)
  | .simple k, h, top, d, v => by
    have := h (.simple k) d v
    cases top <;> simp only [place] <;> first | exact this | (split; rfl; exact this)
  | .name, h, top, d, v => by
    have := h .name d v
    cases top <;> simp only [place] <;> first | exact this | (split; rfl; exact this)
  | .attr, h, top, d, v => by
    have := h .attr d v
    cases top <;> simp only [place] <;> first | exact this | (split; rfl; exact this)
  | .struct tn xn infos subs, h, top, d, v => by
    have := h (.struct tn xn infos subs) d v
    cases top <;> simp only [place] <;> first | exact this | (split; rfl; exact this)
  | .bad e, h, top, d, v => by
    have := h (.bad e) d v
    cases top <;> simp only [place] <;> first | exact this | (split; rfl; exact this)

theorem outline_body (io : FloatIO) (n : Name) (as : List Attr) (data inner : Bytes)
    (rk rk' : Nat → List FInfo → List Sch → List Val → Except RErr (List Val))
    (h : ∀ d infos subs vs, mapOk (outlines infos subs) (rk d infos subs vs) = rk' d infos subs (outlines infos subs vs)) (s : Sch) (d : Nat)
    (v : Val) : mapOk (outline s) (readBody io n as data inner rk d s v) = readBody io n as data [] rk' d s (outline s v) := by
  cases s with
  | simple k =>
    simp only [readBody]
    exact mapOk_id _ (outline_simple k) _
  | struct tn xn infos subs =>
    cases v with
    | struct xv vs =>
      simp only [readBody, outline]
      cases checkName xn n with
      | error e => rfl
      | ok u =>
        dsimp only
        rw [← outline_readAttrs io infos subs as vs]
        cases readAttrs io infos subs vs as with
        | error e => rfl
        | ok vs1 =>
          simp only [mapOk]
          rw [← h]
          cases rk d infos subs vs1 with
          | error e => rfl
          | ok vs2 =>
            simp only [mapOk]
            rw [← outline_finish io infos subs vs2 data inner]
            cases finishStruct io infos subs vs2 data inner with
            | error e => rfl
            | ok vs3 => simp [mapOk, outline]
    | _ => rfl
  | _ => cases v <;> first | rfl | (rename_i o; cases o <;> rfl)

mutual
/-- What is read from an element, apart from copies of the input, depends only on what the element says. -/
theorem outline_readT (io : FloatIO) : ∀ (t : XTree) (n : Name) (as : List Attr) (b a : Bytes) (kids : List XTree) (en : Name) (eb ea : Bytes),
    t = .elem n as b a kids en eb ea → ∀ (top : Bool) (d : Nat) (s : Sch) (v : Val),
    mapOk (outline s) (readT io top d s v t) = readT io top d s (outline s v) (plain (.elem n as (treesInfo kids)))
  | .leaf .., n, as, b, a, kids, en, eb, ea, h, top, d, s, v => by cases h
  | .elem n0 as0 b0 a0 kids0 en0 eb0 ea0, n, as, b, a, kids, en, eb, ea, h, top, d, s, v => by
    injection h with h1 h2 h3 h4 h5 h6 h7 h8
    subst h1; subst h2; subst h5
    simp only [readT, plain]
    refine outline_place _ _ s (fun s d v => ?_) top d v
    rw [dataOf_plains]
    exact outline_body io _ _ _ _ _ _ (fun d infos subs vs => outline_readKids io kids0 d infos subs vs) s d v
theorem outline_readKids (io : FloatIO) : ∀ (l : List XTree) (d : Nat) (infos : List FInfo) (subs : List Sch) (vs : List Val),
    mapOk (outlines infos subs) (readKids io d infos subs vs l) = readKids io d infos subs (outlines infos subs vs) (plains (treesInfo l))
  | [], d, infos, subs, vs => by simp [readKids, treesInfo, plains, mapOk]
  | .leaf t b a :: l, d, infos, subs, vs => by
    simp only [readKids, treesInfo, treeInfo]
    rw [readKids_addChars]
    exact outline_readKids io l d infos subs vs
  | .elem n as b a kids en eb ea :: l, d, infos, subs, vs => by
    simp only [readKids, treesInfo, treeInfo, plains, plain]
    cases hf : elemField infos n with
    | none => exact outline_readKids io l d infos subs vs
    | some i =>
      obtain ⟨fi, hi, hm⟩ := elemField_mode hf
      have := outline_updField infos subs vs i (fun s v => readT io true (d + 1) s v (.elem n as b a kids en eb ea))
        (fun s v => readT io true (d + 1) s v (.elem n as [] [] (plains (treesInfo kids)) n [] [])) fi hi (by
          intro s _ v
          unfold outField
          simp only [hm, if_false]
          have := outline_readT io (.elem n as b a kids en eb ea) n as b a kids en eb ea rfl true (d + 1) s v
          rw [plain] at this
          exact this)
      dsimp only
      rw [← this]
      cases updField infos subs vs i fun s v => readT io true (d + 1) s v (.elem n as b a kids en eb ea) with
      | error e => rfl
      | ok vs' => exact outline_readKids io l d infos subs vs'
end

theorem outline_root (io : FloatIO) (s : Sch) (doc : Bytes) (t : XTree) (h : IsDoc doc t) :
    mapOk (outline s) (unmarshalDoc io s doc) = match treeInfo t [] with
      | x :: _ => readT io false 0 s s.zero (plain x)
      | [] => .error .unknownType := by
  rw [unmarshalDoc_tree io s doc t h]
  obtain ⟨n, as, b, a, kids, en, eb, ea, rfl⟩ := h.2.1
  unfold readRoot
  rw [outline_readT io _ n as b a kids en eb ea rfl, outline_zero]
  rfl

/-- Two documents say the same: their root elements have the same expanded names, attributes and content. -/
def SaysSame (d d' : Doc) : Prop := resolves [] (d.root.info []) = resolves [] (d'.root.info [])

/-- C55: the result of unmarshalling a well-formed document, apart from `innerxml` fields, depends only on what the document says.
(`Usual`: see C54.) -/
theorem C55_spelling (io : FloatIO) (s : Sch) (d d' : Doc) (h : d.Ok) (h' : d'.Ok) (hu : d.Usual) (hu' : d'.Usual)
    (hs : SaysSame d d') : mapOk (outline s) (unmarshalDoc io s d.src) = mapOk (outline s) (unmarshalDoc io s d'.src) := by
  obtain ⟨t, h1, h2⟩ := C54_wellformed_partial d h hu
  obtain ⟨t', h1', h2'⟩ := C54_wellformed_partial d' h' hu'
  rw [outline_root io s d.src t h1, outline_root io s d'.src t' h1', h2, h2', hs]

/-! ### Types without `innerxml` fields -/

mutual
/-- No `innerxml` field anywhere in the type. -/
def noInner : Sch → Bool
  | .ptr s => noInner s
  | .slice s => noInner s
  | .struct _ _ infos subs => noInners infos subs
  | _ => true
/-- The same for fields. -/
def noInners : List FInfo → List Sch → Bool
  | fi :: fis, s :: ss => fi.mode != .innerxml && noInner s && noInners fis ss
  | _, _ => true
end

mutual
theorem outline_noInner : ∀ (s : Sch) (v : Val), noInner s = true → outline s v = v
  | .ptr s, v, h => by
    cases v with
    | ptr o => cases o with
      | none => rfl
      | some w => simp only [outline, outline_noInner s w (by simpa [noInner] using h)]
    | _ => rfl
  | .slice s, v, h => by
    cases v with
    | slice l =>
      have : l.map (outline s) = l := by
        conv => rhs; rw [← List.map_id l]
        exact List.map_congr_left fun w _ => outline_noInner s w (by simpa [noInner] using h)
      simp only [outline, this]
    | _ => rfl
  | .struct tn xn infos subs, v, h => by
    cases v with
    | struct n vs => simp only [outline, outlines_noInner infos subs vs (by simpa [noInner] using h)]
    | _ => rfl
  | .simple k, v, _ => outline_simple k v
  | .name, v, _ => by cases v <;> rfl
  | .attr, v, _ => by cases v <;> rfl
  | .bad e, v, _ => by cases v <;> rfl
theorem outlines_noInner : ∀ (infos : List FInfo) (subs : List Sch) (vs : List Val), noInners infos subs = true → outlines infos subs vs = vs
  | fi :: fis, s :: ss, v :: vs, h => by
    simp only [noInners, Bool.and_eq_true, bne_iff_ne] at h
    simp only [outlines, h.1.1, if_false, outline_noInner s v h.1.2, outlines_noInner fis ss vs h.2]
  | [], _, vs, _ => by simp [outlines]
  | _ :: _, [], vs, _ => by simp [outlines]
  | _ :: _, _ :: _, [], _ => by simp [outlines]
end

/-- C55 for types without `innerxml` fields: the same value or the same error. -/
theorem C55_spelling_exact (io : FloatIO) (s : Sch) (hn : noInner s = true) (d d' : Doc) (h : d.Ok) (h' : d'.Ok) (hu : d.Usual)
    (hu' : d'.Usual) (hs : SaysSame d d') : unmarshalDoc io s d.src = unmarshalDoc io s d'.src := by
  have := C55_spelling io s d d' h h' hu hu' hs
  rwa [mapOk_id _ (fun v => outline_noInner s v hn), mapOk_id _ (fun v => outline_noInner s v hn)] at this

/-! ### Two manifests -/

/-- One spelling of a manifest. -/
def oneDoc : Doc :=
  { root := .elem ⟨[], b!"MPD"⟩ [⟨b!" ", ⟨[], b!"id"⟩, [], [], ch%'\'', ⟨b!"a&b".take 1, [(.amp, b!"b")]⟩⟩] [] false
      [.elem ⟨[], b!"Period"⟩ [⟨b!" ", ⟨[], b!"id"⟩, [], [], ch%'\'', ⟨b!"p", []⟩⟩] [] true [] [],
       .elem ⟨[], b!"BaseURL"⟩ [] [] false [.text ⟨b!"u", [(.lt, b!"v")]⟩] []] [] }

/-- Another spelling. -/
def otherDoc : Doc :=
  { bom := true
    decl := some ⟨⟨b!"\n", b!" ", [], false⟩, some (⟨b!" ", [], [], true⟩, false, false, false), none, b!" "⟩
    before := [.text ⟨b!"\n", []⟩]
    doctype := some (⟨b!" ", ⟨[], b!"MPD"⟩, some (b!" ", none, b!" ", ⟨true, b!"<m>"⟩), [], none⟩, [])
    root := .elem ⟨[], b!"MPD"⟩ [⟨b!"\t", ⟨[], b!"id"⟩, b!" ", b!"\n", ch%'"', ⟨b!"a", [(.dec (b!"038"), b!"b")]⟩⟩] (b!" ") false
      [.elem ⟨[], b!"Period"⟩ [⟨b!"  ", ⟨[], b!"id"⟩, [], [], ch%'"', ⟨[], [(.hex (b!"70"), [])]⟩⟩] [] false [] (b!" "), .comment (b!"x"),
       .elem ⟨[], b!"BaseURL"⟩ [] [] false [.cdata (b!"u<"), .pi (b!"q") [] [], .text ⟨b!"v", []⟩] []] []
    after := [.comment (b!"end")] }

example : oneDoc.src = b!"<MPD id='a&amp;b'><Period id='p'/><BaseURL>u&lt;v</BaseURL></MPD>" ∧
    otherDoc.src = byteOrderMark ++ b!"<?xml\nversion =\"1.0\" encoding='utf-8' ?>\n<!DOCTYPE MPD SYSTEM '<m>'><MPD\tid =\n\"a&#038;b\" ><Period  id=\"&#x70;\"></Period ><!--x--><BaseURL><![CDATA[u<]]><?q?>v</BaseURL></MPD><!--end-->" := by
  decide +kernel

theorem oneDoc_ok : oneDoc.Ok ∧ oneDoc.Usual := by
  refine ⟨⟨by simp [oneDoc], ⟨trivial, trivial, by simp [oneDoc]⟩, by simp [oneDoc], ⟨?_, rfl⟩, ⟨trivial, trivial, by simp [oneDoc]⟩⟩, ?_⟩
  · simp only [oneDoc, Node.Ok, Oks, Apart, Node.isText]
    decide +kernel
  · refine usual_of _ ?_
    simp only [oneDoc, Node.Usual, Usuals]
    decide +kernel

theorem otherDoc_ok : otherDoc.Ok ∧ otherDoc.Usual := by
  refine ⟨⟨?_, ⟨⟨?_, trivial⟩, trivial, by simp [otherDoc, Misc, IsS]⟩, ?_, ⟨?_, rfl⟩, ⟨⟨?_, trivial⟩, trivial, by simp [otherDoc, Misc]⟩⟩, ?_⟩
  · rintro x ⟨⟩
    exact ⟨by decide +kernel, by rintro x ⟨⟩; decide +kernel, (by rintro x ⟨⟩), by decide +kernel⟩
  · simp only [Node.Ok]; decide +kernel
  · rintro x ⟨⟩
    refine ⟨⟨by decide +kernel, by decide +kernel, ?_, by decide +kernel, by rintro y ⟨⟩⟩, trivial, trivial, by simp⟩
    rintro x ⟨⟩
    exact ⟨by decide +kernel, (by rintro y ⟨⟩), by decide +kernel, by decide +kernel⟩
  · simp only [otherDoc, Node.Ok, Oks, Apart, Node.isText, reduceCtorEq, false_implies, implies_true, and_true]
    decide +kernel
  · simp only [Node.Ok]; decide +kernel
  · refine ⟨?_, by rintro x ⟨⟩ y ⟨⟩, by rintro x ⟨⟩ y ⟨⟩⟩
    simp only [otherDoc, Node.Usual, Usuals]
    decide +kernel

/-- Both are read, with the same result. -/
example (io : FloatIO) : (∃ v, unmarshalDoc io tMPD.sch oneDoc.src = .ok v) ∧
    mapOk (outline tMPD.sch) (unmarshalDoc io tMPD.sch oneDoc.src) = mapOk (outline tMPD.sch) (unmarshalDoc io tMPD.sch otherDoc.src) := by
  refine ⟨?_, C55_spelling io _ _ _ oneDoc_ok.1 otherDoc_ok.1 oneDoc_ok.2 otherDoc_ok.2 (by unfold SaysSame; krfl)⟩
  cases h : unmarshalDoc io tMPD.sch oneDoc.src with
  | ok v => exact ⟨v, rfl⟩
  | error e =>
    have : (match unmarshalDoc io tMPD.sch oneDoc.src with | .ok _ => true | .error _ => false) = true := by krfl
    rw [h] at this
    cases this

end Verif.Grammar

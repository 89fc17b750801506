import Verif.Says

/-!
C69: reading returns what the document says (`Says`).  The theorem is `C69_struct`; the one about manifests is
`C69_manifest`.
-/
namespace Verif.Bind

open Verif.Xml

/-! ### Which attributes and elements go to a field -/

theorem goes_attr {xn : Option FInfo} {F : List FInfo} {S : List Sch} (hs : StructRt xn F S) {i : Nat} {f : FInfo}
    (hi : F[i]? = some f) (hm : f.mode = .attr) (as : List Attr) : goes F i as = attrsFor f as := by
  unfold goes attrsFor
  refine List.filter_congr fun a _ => ?_
  refine decide_eq_decide.2 ⟨fun h => ?_, fun h => ?_⟩
  · obtain ⟨fi, h1, h2⟩ := attrField_some h
    rw [hi] at h1; injection h1 with h1; subst h1
    rcases h2 with h2 | h2
    · exact h2.2
    · rw [hm] at h2; cases h2.1
  · cases hf : attrField F a.name with
    | none => exact absurd ⟨hm, h⟩ (attrField_none.1 hf f (List.mem_of_getElem? hi)).2
    | some j =>
      obtain ⟨fj, h1, h2⟩ := attrField_some hf
      rcases h2 with h2 | h2
      · rw [hs.locs j i fj f h1 hi (h2.1.trans hm.symm) (Or.inr h2.1) (h2.2.1.trans h.1.symm)]
      · exact absurd ⟨hm, h⟩ (h2.2 f (List.mem_of_getElem? hi))

theorem goes_any {xn : Option FInfo} {F : List FInfo} {S : List Sch} (hs : StructRt xn F S) {i : Nat} {f : FInfo}
    (hi : F[i]? = some f) (hm : f.mode = .anyAttr) (as : List Attr) : goes F i as = otherAttrs F as := by
  unfold goes otherAttrs
  refine List.filter_congr fun a _ => ?_
  classical
  have hall : (F.all fun f => !(f.mode == .attr && decide (f.loc = a.name.loc ∧ (f.xmlns = a.name.space ∨ f.xmlns = [])))) =
      decide (∀ f ∈ F, ¬ AttrMatch f a.name) := by
    rw [Bool.eq_iff_iff]
    simp only [List.all_eq_true, Bool.not_eq_true', Bool.and_eq_false_iff, decide_eq_true_eq, AttrMatch,
      beq_eq_false_iff_ne, decide_eq_false_iff_not, not_and_or]
  rw [hall]
  refine decide_eq_decide.2 ⟨fun h => ?_, fun h => ?_⟩
  · obtain ⟨fi, h1, h2⟩ := attrField_some h
    rw [hi] at h1; injection h1 with h1; subst h1
    rcases h2 with h2 | h2
    · have := h2.1
      rw [hm] at this; cases this
    · exact h2.2
  · cases hf : attrField F a.name with
    | none => exact absurd hm (attrField_none.1 hf f (List.mem_of_getElem? hi)).1
    | some j =>
      obtain ⟨fj, h1, h2⟩ := attrField_some hf
      rcases h2 with h2 | h2
      · exact absurd h2 (h fj (List.mem_of_getElem? h1))
      · rw [hs.single j i fj f h1 hi (h2.1.trans hm.symm) (Or.inr h2.1)]

theorem goes_other {F : List FInfo} {i : Nat} {f : FInfo} (hi : F[i]? = some f) (hm : f.mode ≠ .attr)
    (hm' : f.mode ≠ .anyAttr) (as : List Attr) : goes F i as = [] := by
  unfold goes
  rw [List.filter_eq_nil_iff]
  intro a _ h
  obtain ⟨fi, h1, h2⟩ := attrField_some (of_decide_eq_true h)
  rw [hi] at h1; injection h1 with h1; subst h1
  rcases h2 with h2 | h2
  · exact hm h2.1
  · exact hm' h2.1

theorem goesK_elem {xn : Option FInfo} {F : List FInfo} {S : List Sch} (hs : StructRt xn F S) {i : Nat} {f : FInfo}
    (hi : F[i]? = some f) (hm : f.mode = .elem) (ts : List XTree) : goesK F i ts = kidsFor f ts := by
  unfold goesK kidsFor
  refine List.filter_congr fun t _ => ?_
  cases t with
  | leaf _ _ _ => simp [nameOfT, fits]
  | elem n _ _ _ _ _ _ _ =>
    simp only [nameOfT, Option.bind_some, fits]
    refine decide_eq_decide.2 ⟨fun h => ?_, fun h => ?_⟩
    · obtain ⟨fi, h1, h2⟩ := elemField_some h
      rw [hi] at h1; injection h1 with h1; subst h1
      exact h2.2
    · cases hf : elemField F n with
      | none => exact absurd ⟨hm, h⟩ (elemField_none.1 hf f (List.mem_of_getElem? hi))
      | some j =>
        obtain ⟨fj, h1, h2⟩ := elemField_some hf
        rw [hs.locs j i fj f h1 hi (h2.1.trans hm.symm) (Or.inl h2.1) (h2.2.1.trans h.1.symm)]

theorem goesK_other {F : List FInfo} {i : Nat} {f : FInfo} (hi : F[i]? = some f) (hm : f.mode ≠ .elem)
    (ts : List XTree) : goesK F i ts = [] := by
  unfold goesK
  rw [List.filter_eq_nil_iff]
  intro t _ h
  have h := of_decide_eq_true h
  obtain ⟨n, _, hn⟩ := Option.bind_eq_some_iff.1 h
  obtain ⟨fi, h1, h2⟩ := elemField_some hn
  rw [hi] at h1; injection h1 with h1; subst h1
  exact hm h2.1

/-- The updates of a field. -/
theorem opsAt_struct (io : FloatIO) (d : Nat) {xn : Option FInfo} {F : List FInfo} {S : List Sch} (hs : StructRt xn F S)
    {i : Nat} {f : FInfo} (hi : F[i]? = some f) (as : List Attr) (ts : List XTree) (inner : Bytes) :
    opsAt i (structOps io d F as ts inner) = match f.mode with
      | .attr => (attrsFor f as).map (rd io)
      | .anyAttr => (otherAttrs F as).map (rd io)
      | .elem => (kidsFor f ts).map (rk io d)
      | .chardata => [fun s _ => copyValue io s (dataOf ts)]
      | .innerxml => [setInner inner] := by
  unfold structOps
  rw [opsAt_append, opsAt_append, opsAt_append, opsAt_attrOps, opsAt_kidOps, opsAt_fin io hs _ hi, opsAt_inner hs _ hi]
  cases hm : f.mode with
  | attr =>
    rw [goes_attr hs hi hm, goesK_other hi (by simp [hm])]
    simp
  | anyAttr =>
    rw [goes_any hs hi hm, goesK_other hi (by simp [hm])]
    simp
  | elem =>
    rw [goes_other hi (by simp [hm]) (by simp [hm]), goesK_elem hs hi hm]
    simp
  | chardata =>
    rw [goes_other hi (by simp [hm]) (by simp [hm]), goesK_other hi (by simp [hm])]
    simp
  | innerxml =>
    rw [goes_other hi (by simp [hm]) (by simp [hm]), goesK_other hi (by simp [hm])]
    simp

theorem opsAt_ne {i : Nat} {ops : List (Nat × Upd)} : opsAt i ops ≠ [] ↔ ∃ op ∈ ops, op.1 = i := by
  constructor
  · intro h
    by_contra hc
    exact h (opsAt_none fun op ho he => hc ⟨op, ho, he⟩)
  · rintro ⟨op, ho, he⟩ h
    have : op.2 ∈ opsAt i ops := List.mem_filterMap.2 ⟨op, ho, by simp [he]⟩
    rw [h] at this; cases this

/-- Something is stored behind an embedded pointer exactly if there is something for a field behind it. -/
theorem touched_iff (io : FloatIO) (d : Nat) {xn : Option FInfo} {F : List FInfo} {S : List Sch} (hs : StructRt xn F S)
    {i : Nat} {f : FInfo} (hi : F[i]? = some f) (as : List Attr) (ts : List XTree) (inner : Bytes) :
    (∃ op ∈ structOps io d F as ts inner, sameGrp F op.1 i = true) ↔ Touched F as ts f.grp := by
  have key : ∀ j g, F[j]? = some g → ((∃ op ∈ structOps io d F as ts inner, op.1 = j) ↔ match g.mode with
      | .attr => attrsFor g as ≠ []
      | .anyAttr => otherAttrs F as ≠ []
      | .elem => kidsFor g ts ≠ []
      | .chardata => True
      | .innerxml => True) := by
    intro j g hj
    rw [← opsAt_ne, opsAt_struct io d hs hj]
    cases g.mode <;> simp
  constructor
  · rintro ⟨op, ho, hg⟩
    unfold sameGrp at hg
    split at hg
    · rename_i a b h1 h2
      rw [hi] at h2; injection h2 with h2; subst h2
      exact ⟨a, List.mem_of_getElem? h1, of_decide_eq_true hg, (key op.1 a h1).1 ⟨op, ho, rfl⟩⟩
    · cases hg
  · rintro ⟨g, hg, h1, h2⟩
    obtain ⟨j, hj⟩ := List.mem_iff_getElem?.1 hg
    obtain ⟨op, ho, he⟩ := (key j g hj).2 h2
    exact ⟨op, ho, by simp [sameGrp, he, hj, hi, h1]⟩

/-! ### Attributes -/

theorem run_simple (io : FloatIO) (k : Kind) : ∀ (as : List Attr) (v w : Val),
    runAt (.simple k) v (as.map (rd io)) = .ok w ↔
      ∃ ws, List.Forall₂ (fun a w => readSimpleAttr io k a.value = .ok w) as ws ∧ w = ws.getLastD v
  | [], v, w => by
    simp only [List.map_nil, runAt]
    constructor
    · intro h
      injection h with h
      exact ⟨[], .nil, h.symm⟩
    · rintro ⟨ws, h, rfl⟩
      cases h
      rfl
  | a :: as, v, w => by
    simp only [List.map_cons, runAt, rd, readAttr]
    cases h : readSimpleAttr io k a.value with
    | error e =>
      dsimp only
      constructor
      · intro h'; cases h'
      · rintro ⟨ws, h', -⟩
        cases h' with
        | cons h1 _ => rw [h] at h1; cases h1
    | ok x =>
      dsimp only
      have := run_simple io k as x w
      rw [show (as.map fun a => rd io a) = as.map (rd io) from rfl, this]
      constructor
      · rintro ⟨ws, h1, rfl⟩
        exact ⟨x :: ws, .cons h h1, by cases ws <;> simp [List.getLastD]⟩
      · rintro ⟨ws, h1, rfl⟩
        cases h1 with
        | cons h2 h3 =>
          rw [h] at h2; injection h2 with h2; subst h2
          rename_i ws
          exact ⟨ws, h3, by cases ws <;> simp [List.getLastD]⟩

theorem run_ptr (io : FloatIO) (k : Kind) : ∀ (as : List Attr) (o : Option Val) (w : Val),
    runAt (.ptr (.simple k)) (.ptr o) (as.map (rd io)) = .ok w ↔
      ∃ ws, List.Forall₂ (fun a w => readSimpleAttr io k a.value = .ok w) as ws ∧ w = .ptr (ws.getLast?.or o)
  | [], o, w => by
    simp only [List.map_nil, runAt]
    constructor
    · intro h
      injection h with h
      exact ⟨[], .nil, h.symm⟩
    · rintro ⟨ws, h, rfl⟩
      cases h
      rfl
  | a :: as, o, w => by
    have step : rd io a (.ptr (.simple k)) (.ptr o) = wrapPtr (readSimpleAttr io k a.value) := by
      cases o <;> simp only [rd, readAttr, wrapPtr] <;> cases readSimpleAttr io k a.value <;> rfl
    simp only [List.map_cons, runAt, step]
    cases h : readSimpleAttr io k a.value with
    | error e =>
      simp only [wrapPtr]
      constructor
      · intro h'; cases h'
      · rintro ⟨ws, h', -⟩
        cases h' with
        | cons h1 _ => rw [h] at h1; cases h1
    | ok x =>
      simp only [wrapPtr]
      rw [run_ptr io k as (some x) w]
      constructor
      · rintro ⟨ws, h1, rfl⟩
        exact ⟨x :: ws, .cons h h1, by cases ws <;> simp [List.getLast?_cons]⟩
      · rintro ⟨ws, h1, rfl⟩
        cases h1 with
        | cons h2 h3 =>
          rw [h] at h2; injection h2 with h2; subst h2
          rename_i ws
          exact ⟨ws, h3, by cases ws <;> simp [List.getLast?_cons]⟩

theorem run_slice (io : FloatIO) (k : Kind) : ∀ (as : List Attr) (o : Option (List Val)) (w : Val),
    runAt (.ptr (.slice (.simple k))) (.ptr (o.map .slice)) (as.map (rd io)) = .ok w ↔
      ∃ ws, List.Forall₂ (fun a w => readSimpleAttr io k a.value = .ok w) as ws ∧
        w = .ptr (if as = [] then o.map .slice else some (.slice (o.getD [] ++ ws)))
  | [], o, w => by
    simp only [List.map_nil, runAt]
    constructor
    · intro h
      injection h with h
      exact ⟨[], .nil, by simp [h]⟩
    · rintro ⟨ws, h, rfl⟩
      simp
  | a :: as, o, w => by
    have step : rd io a (.ptr (.slice (.simple k))) (.ptr (o.map .slice)) =
        wrapPtr (wrapSlice (o.getD []) (readSimpleAttr io k a.value)) := by
      cases o <;> simp only [rd, readAttr, wrapPtr, wrapSlice, Option.map_some, Option.map_none, Option.getD_some,
        Option.getD_none, Sch.zero] <;> cases readSimpleAttr io k a.value <;> rfl
    simp only [List.map_cons, runAt, step]
    cases h : readSimpleAttr io k a.value with
    | error e =>
      simp only [wrapPtr, wrapSlice]
      constructor
      · intro h'; cases h'
      · rintro ⟨ws, h', -⟩
        cases h' with
        | cons h1 _ => rw [h] at h1; cases h1
    | ok x =>
      simp only [wrapPtr, wrapSlice]
      rw [show (Val.ptr (some (.slice (o.getD [] ++ [x])))) = .ptr ((some (o.getD [] ++ [x])).map .slice) from rfl,
        run_slice io k as (some (o.getD [] ++ [x])) w]
      constructor
      · rintro ⟨ws, h1, rfl⟩
        refine ⟨x :: ws, .cons h h1, ?_⟩
        cases as with
        | nil => cases h1; simp
        | cons _ _ => simp
      · rintro ⟨ws, h1, rfl⟩
        cases h1 with
        | cons h2 h3 =>
          rw [h] at h2; injection h2 with h2; subst h2
          rename_i ws
          refine ⟨ws, h3, ?_⟩
          cases as with
          | nil => cases h3; simp
          | cons _ _ => simp

theorem run_attrs (io : FloatIO) (s : Sch) (hs : attrShape s = true) (as : List Attr) (w : Val) :
    runAt s s.zero (as.map (rd io)) = .ok w ↔ AttrSays io s as w := by
  unfold attrShape at hs
  split at hs
  · exact run_simple io _ as _ w
  · simp only [AttrSays, Sch.zero]
    rw [run_ptr io _ as none w]
    simp
  · simp only [AttrSays, Sch.zero]
    rw [show (Val.ptr none) = .ptr ((none : Option (List Val)).map .slice) from rfl, run_slice io _ as none w]
    simp
  · cases hs

/-! ### Elements -/

/-- Reading an element into a new value of a type gives what it says. -/
def Corr (io : FloatIO) (s : Sch) : Prop :=
  ∀ t, isLeafT t = false → once s t = true → ∀ top d, (top = true ∨ s.isPtr = false) → d + hgt s < maxDepth →
    ∀ w, readT io top d s s.zero t = .ok w ↔ Says io s t w

theorem corr_simple (io : FloatIO) (k : Kind) : Corr io (.simple k) := by
  intro t ht _ top d _ hd w
  cases t with
  | leaf _ _ _ => cases ht
  | elem n as b a kids en eb ea =>
    have hd : ¬ maxDepth ≤ d := by simp only [hgt] at hd; omega
    have e : readT io top d (.simple k) (Sch.simple k).zero (.elem n as b a kids en eb ea) = copySimple io k (dataOf kids) := by
      simp only [readT]
      cases top <;> simp only [place, if_neg hd, readBody]
    rw [e]
    exact ⟨fun h => .simple h, fun h => by cases h; assumption⟩

theorem corr_ptr (io : FloatIO) (s : Sch) (hs : oneShape s = true) (h : Corr io s) : Corr io (.ptr s) := by
  intro t ht ho top d htop hd w
  cases t with
  | leaf _ _ _ => cases ht
  | elem n as b a kids en eb ea =>
    have htop : top = true := by
      rcases htop with h | h
      · exact h
      · cases h
    subst htop
    simp only [hgt] at hd
    have hd' : ¬ maxDepth ≤ d := by omega
    have ho : once s (.elem n as b a kids en eb ea) = true := by simpa only [once] using ho
    · have e : readT io true d (.ptr s) (Sch.ptr s).zero (.elem n as b a kids en eb ea) =
          wrapPtr (readT io false d s s.zero (.elem n as b a kids en eb ea)) := by
        simp only [readT, place, if_neg hd', Sch.zero, Val.deref]
      rw [e]
      have hp : s.isPtr = false := by
        cases s <;> first | rfl | simp [oneShape] at hs
      have ih := h _ rfl ho false d (Or.inr hp) hd
      constructor
      · intro hw
        cases hr : readT io false d s s.zero (.elem n as b a kids en eb ea) with
        | error e => rw [hr] at hw; cases hw
        | ok x =>
          rw [hr] at hw
          injection hw with hw; subst hw
          exact .ptr ((ih x).1 hr)
      · intro hw
        cases hw with
        | ptr hw => rw [(ih _).2 hw]; rfl

/-- What elements say about a field, by its type. -/
theorem run_one (io : FloatIO) (d : Nat) (s : Sch) (hc : Corr io s) (hd : d + 1 + hgt s < maxDepth) (ts : List XTree)
    (hl : ∀ t ∈ ts, isLeafT t = false) (hlen : ts.length ≤ 1) (ho : ∀ t ∈ ts, once s t = true) (w : Val) :
    runAt s s.zero (ts.map (rk io d)) = .ok w ↔ (ts = [] → w = s.zero) ∧ ∀ t ∈ ts, Says io s t w := by
  match ts, hlen with
  | [], _ =>
    simp only [List.map_nil, runAt]
    constructor
    · intro h; injection h with h; simp [h]
    · intro h; rw [h.1 trivial]
  | [t], _ =>
    have := hc t (hl t (by simp)) (ho t (by simp)) true (d + 1) (Or.inl rfl) hd w
    simp only [List.map_cons, List.map_nil, runAt, rk]
    constructor
    · intro h
      refine ⟨by simp, ?_⟩
      intro t' ht'
      rw [List.mem_singleton] at ht'; subst ht'
      refine this.1 ?_
      split at h
      · cases h
      · rename_i hr; rw [hr]; exact h
    · intro h
      rw [this.2 (h.2 t (by simp))]

theorem run_list (io : FloatIO) (d : Nat) (s : Sch) (hc : Corr io s) (hd : d + 1 + 1 + hgt s < maxDepth) :
    ∀ (ts : List XTree) (acc : List Val) (w : Val), (∀ t ∈ ts, isLeafT t = false) → (∀ t ∈ ts, once s t = true) →
    (runAt (.slice s) (.slice acc) (ts.map (rk io d)) = .ok w ↔
      ∃ l, w = .slice (acc ++ l) ∧ List.Forall₂ (Says io s) ts l)
  | [], acc, w, _, _ => by
    simp only [List.map_nil, runAt]
    constructor
    · intro h; injection h with h; exact ⟨[], by simp [h], .nil⟩
    · rintro ⟨l, rfl, h⟩; cases h; simp
  | t :: ts, acc, w, hl, ho => by
    have hd' : ¬ maxDepth ≤ d + 1 := by omega
    have step : rk io d t (.slice s) (.slice acc) = wrapSlice acc (readT io true (d + 1 + 1) s s.zero t) := by
      have := hl t (by simp)
      cases t with
      | leaf _ _ _ => cases this
      | elem n as b a kids en eb ea => simp only [rk, readT, place, if_neg hd']
    have hone := hc t (hl t (by simp)) (ho t (by simp)) true (d + 1 + 1) (Or.inl rfl) hd
    simp only [List.map_cons, runAt, step]
    cases hr : readT io true (d + 1 + 1) s s.zero t with
    | error e =>
      simp only [wrapSlice]
      constructor
      · intro h; cases h
      · rintro ⟨l, rfl, h⟩
        cases h with
        | cons h _ => rw [(hone _).2 h] at hr; cases hr
    | ok x =>
      simp only [wrapSlice]
      rw [run_list io d s hc hd ts (acc ++ [x]) w (fun t ht => hl t (by simp [ht])) fun t ht => ho t (by simp [ht])]
      constructor
      · rintro ⟨l, rfl, h⟩
        exact ⟨x :: l, by simp, .cons ((hone x).1 hr) h⟩
      · rintro ⟨l, rfl, h⟩
        cases h with
        | cons h1 h2 =>
          rename_i y l
          have := (hone y).2 h1
          rw [hr] at this; injection this with this; subst this
          exact ⟨l, by simp, h2⟩

theorem forall₂_get {α β} {R : α → β → Prop} : ∀ {l : List α} {m : List β}, List.Forall₂ R l m ↔
    m.length = l.length ∧ ∀ (j : Nat) (a : α) (b : β), l[j]? = some a → m[j]? = some b → R a b
  | [], [] => by simp
  | [], _ :: _ => by simp
  | _ :: _, [] => by simp
  | a :: l, b :: m => by
    rw [List.forall₂_cons, forall₂_get]
    constructor
    · rintro ⟨h1, h2, h3⟩
      refine ⟨by simp [h2], fun j x y hx hy => ?_⟩
      cases j with
      | zero => simp at hx hy; subst hx; subst hy; exact h1
      | succ j => exact h3 j x y (by simpa using hx) (by simpa using hy)
    · rintro ⟨h1, h2⟩
      exact ⟨h2 0 a b rfl rfl, by simpa using h1, fun j x y hx hy => h2 (j + 1) x y (by simpa using hx) (by simpa using hy)⟩

theorem onces_one : ∀ {F : List FInfo} {S : List Sch} {kids : List XTree}, onces F S kids = true → ∀ {i : Nat} {f : FInfo}
    {s : Sch}, F[i]? = some f → S[i]? = some s → f.mode = .elem → (∀ s', s ≠ .slice s') → (kidsFor f kids).length ≤ 1
  | g :: F, r :: S, kids, h, 0, f, s, hi, hs, hm, hns => by
    simp only [onces, Bool.and_eq_true] at h
    simp at hi hs
    subst hi; subst hs
    have := h.1
    simp only [hm, bne_self_eq_false, Bool.false_or, Bool.and_eq_true, Bool.or_eq_true, decide_eq_true_eq] at this
    rcases this.1 with h1 | h1
    · cases g' : r <;> rw [g'] at h1 <;> first | exact absurd g' (hns _) | cases h1
    · exact h1
  | g :: F, r :: S, kids, h, i + 1, f, s, hi, hs, hm, hns => by
    simp only [onces, Bool.and_eq_true] at h
    exact onces_one h.2 (by simpa using hi) (by simpa using hs) hm hns
  | [], _, _, _, _, _, _, hi, _, _, _ => by simp at hi
  | _ :: _, [], _, _, _, _, _, _, hs, _, _ => by simp at hs

theorem onces_kid : ∀ {F : List FInfo} {S : List Sch} {kids : List XTree}, onces F S kids = true → ∀ {i : Nat} {f : FInfo}
    {s : Sch} {t : XTree}, F[i]? = some f → S[i]? = some s → f.mode = .elem → t ∈ kidsFor f kids → once s t = true
  | g :: F, r :: S, kids, h, 0, f, s, t, hi, hs, hm, ht => by
    simp only [onces, Bool.and_eq_true] at h
    simp at hi hs
    subst hi; subst hs
    have := h.1
    simp only [hm, bne_self_eq_false, Bool.false_or, Bool.and_eq_true, List.all_eq_true] at this
    exact this.2 t ht
  | g :: F, r :: S, kids, h, i + 1, f, s, t, hi, hs, hm, ht => by
    simp only [onces, Bool.and_eq_true] at h
    exact onces_kid h.2 (by simpa using hi) (by simpa using hs) hm ht
  | [], _, _, _, _, _, _, _, hi, _, _, _ => by simp at hi
  | _ :: _, [], _, _, _, _, _, _, _, hs, _, _ => by simp at hs

theorem kidsFor_elems {f : FInfo} {ts : List XTree} {t : XTree} (h : t ∈ kidsFor f ts) : isLeafT t = false := by
  unfold kidsFor at h
  have := (List.mem_filter.1 h).2
  cases t with
  | leaf _ _ _ => cases this
  | elem _ _ _ _ _ _ _ _ => rfl

theorem checkName_iff (xn : Option FInfo) (n : Name) : checkName xn n = .ok () ↔
    ∀ x, xn = some x → (x.loc = [] ∨ x.loc = n.loc) ∧ (x.xmlns = [] ∨ x.xmlns = n.space) := by
  cases xn with
  | none => simp [checkName]
  | some x =>
    simp only [checkName]
    constructor
    · intro h y hy
      injection hy with hy; subst hy
      split at h
      · cases h
      · rename_i h1
        split at h
        · cases h
        · rename_i h2
          refine ⟨?_, ?_⟩
          · by_cases h : x.loc = []
            · exact Or.inl h
            · exact Or.inr (by_contra fun hc => h1 ⟨h, hc⟩)
          · by_cases h : x.xmlns = []
            · exact Or.inl h
            · exact Or.inr (by_contra fun hc => h2 ⟨h, hc⟩)
    · intro h
      obtain ⟨h1, h2⟩ := h x rfl
      rw [if_neg (by rintro ⟨a, b⟩; exact h1.elim a b), if_neg (by rintro ⟨a, b⟩; exact h2.elim a b)]

theorem readBody_iff (io : FloatIO) (n : Name) (as : List Attr) (ts : List XTree) (inner : Bytes) (d : Nat) (tn : Bytes)
    (xn : Option FInfo) (infos : List FInfo) (subs : List Sch) (xv : Name) (vs : List Val) (v : Val) :
    readBody io n as (dataOf ts) inner (fun d infos subs vs => readKids io d infos subs vs ts) d (.struct tn xn infos subs)
      (.struct xv vs) = .ok v ↔ checkName xn n = .ok () ∧ ∃ ws,
        runOps infos subs vs (structOps io d infos as ts inner) = .ok ws ∧ v = .struct (if xn.isSome then n else xv) ws := by
  constructor
  · intro h
    simp only [readBody, readAttrs_ops, readKids_ops] at h
    cases hc : checkName xn n with
    | error e => rw [hc] at h; cases h
    | ok u =>
      refine ⟨rfl, ?_⟩
      rw [hc] at h
      dsimp only at h
      unfold structOps
      rw [runOps_append]
      cases h1 : runOps infos subs vs (attrOps io infos as) with
      | error e => rw [h1] at h; cases h
      | ok vs1 =>
        rw [h1] at h
        dsimp only at h ⊢
        rw [runOps_append]
        cases h2 : runOps infos subs vs1 (kidOps io d infos ts) with
        | error e => rw [h2] at h; cases h
        | ok vs2 =>
          rw [h2] at h
          dsimp only at h ⊢
          rw [finishStruct_ops] at h
          cases h3 : runOps infos subs vs2 (finOps io infos (dataOf ts) ++ innerOps infos inner) with
          | error e => rw [h3] at h; cases h
          | ok vs3 =>
            rw [h3] at h
            injection h with h
            exact ⟨vs3, rfl, h.symm⟩
  · rintro ⟨hc, ws, h, rfl⟩
    exact readBody_ops io n as ts inner d tn xn infos subs xv vs ws hc h

theorem corr_struct (io : FloatIO) (tn : Bytes) (xn : Option FInfo) (F : List FInfo) (S : List Sch) (hs : StructRt xn F S)
    (hok : oks S = true) (hsub : ∀ s ∈ S, (∀ s', s ≠ .slice s') → elemShape s = true → Corr io s)
    (hsubl : ∀ s, .slice s ∈ S → elemShape (.slice s) = true → Corr io s) (hh : ∀ s ∈ S, hgt s ≤ hgts S) :
    Corr io (.struct tn xn F S) := by
  intro t ht ho top d _ hd w
  cases t with
  | leaf _ _ _ => cases ht
  | elem n as b a kids en eb ea =>
  simp only [hgt] at hd
  have hsok : (Sch.struct tn xn F S).ok = true := by simp [Sch.ok, hs.len, hok]
  have hz := zero_typed _ hsok
  simp only [Sch.zero] at hz
  obtain ⟨_, _, hz1, hf0⟩ := struct_fields hsok hz
  injection hz1 with _ hz1; subst hz1
  simp only [once] at ho
  have e : ∀ w, readT io top d (.struct tn xn F S) (Sch.struct tn xn F S).zero (.elem n as b a kids en eb ea) = .ok w ↔
      checkName xn n = .ok () ∧ ∃ ws,
        runOps F S (zeros F S) (structOps io d F as kids (a.take (a.length - eb.length))) = .ok ws ∧
        w = .struct (if xn.isSome then n else ⟨[], []⟩) ws := by
    intro w
    rw [← readBody_iff io n as kids (a.take (a.length - eb.length)) d tn xn F S ⟨[], []⟩ (zeros F S) w]
    simp only [readT]
    rw [place_plain _ top d _ _ rfl (by omega)]
    rfl
  rw [e, checkName_iff]
  simp only [runOps_iff _ _ hf0 (structOps_ok io d F S as kids _ hs.len)]
  -- what the updates of a field give
  have hT : ∀ (i : Nat) (f : FInfo), F[i]? = some f →
      ((∃ op ∈ structOps io d F as kids (a.take (a.length - eb.length)), sameGrp F op.1 i = true) ↔ Touched F as kids f.grp) :=
    fun i f hi => touched_iff io d hs hi as kids _
  have hO : ∀ (i : Nat) (f : FInfo), F[i]? = some f → _ := fun i f hi => opsAt_struct io d hs hi as kids (a.take (a.length - eb.length))
  have hhgt : ∀ (i : Nat) (s : Sch), S[i]? = some s → hgt s ≤ hgts S := fun i s h => hh s (List.mem_of_getElem? h)
  have hone : ∀ (i : Nat) (f : FInfo) (s : Sch) (w : Val), F[i]? = some f → S[i]? = some s → f.mode = .elem →
      (∀ s', s ≠ .slice s') → (runAt s s.zero ((kidsFor f kids).map (rk io d)) = .ok w ↔
        (kidsFor f kids = [] → w = s.zero) ∧ ∀ t ∈ kidsFor f kids, Says io s t w) := by
    intro i f s w hi hsi hm hns
    refine run_one io d s (hsub s (List.mem_of_getElem? hsi) hns (fieldRt_elem (hs.rt i f s hi hsi) hm).1) ?_ _
      (fun t ht => kidsFor_elems ht) (onces_one ho hi hsi hm hns) (fun t ht => onces_kid ho hi hsi hm ht) w
    have := hhgt i s hsi
    omega
  have hlist : ∀ (i : Nat) (f : FInfo) (s : Sch) (w : Val), F[i]? = some f → S[i]? = some (.slice s) → f.mode = .elem →
      (runAt (.slice s) (Sch.slice s).zero ((kidsFor f kids).map (rk io d)) = .ok w ↔
        ∃ l, w = .slice l ∧ l.length = (kidsFor f kids).length ∧ ∀ (j : Nat) (t : XTree) (v : Val),
          (kidsFor f kids)[j]? = some t → l[j]? = some v → Says io s t v) := by
    intro i f s w hi hsi hm
    have hd' : d + 1 + 1 + hgt s < maxDepth := by
      have := hhgt i _ hsi
      simp only [hgt] at this
      omega
    simp only [Sch.zero]
    rw [run_list io d s (hsubl s (List.mem_of_getElem? hsi) (fieldRt_elem (hs.rt i f _ hi hsi) hm).1) hd' _ _ _
      (fun t ht => kidsFor_elems ht) (fun t ht => by simpa only [once] using onces_kid ho hi hsi hm ht)]
    simp only [List.nil_append, forall₂_get]
  have hempty : ∀ (i : Nat) (f : FInfo), F[i]? = some f → f.grp ≠ none → ¬ Touched F as kids f.grp →
      opsAt i (structOps io d F as kids (a.take (a.length - eb.length))) = [] := by
    intro i f hi hg hnt
    refine opsAt_none fun op hop he => hnt ((hT i f hi).1 ⟨op, hop, ?_⟩)
    rw [he]; exact sameGrp_refl (lt_of_get hi)
  have hlen : ∀ (i : Nat) (f : FInfo), F[i]? = some f → ∃ s, S[i]? = some s := fun i f hi =>
    get_of_lt (by rw [← hs.len]; exact lt_of_get hi)
  constructor
  · rintro ⟨hname, ws, ⟨hl, hw⟩, rfl⟩
    -- the value of a field that is not absent
    have hget : ∀ (i : Nat) (f : FInfo) (s : Sch) (w : Val), F[i]? = some f → S[i]? = some s → ws[i]? = some w →
        (f.grp = none ∨ Touched F as kids f.grp) →
        runAt s s.zero (opsAt i (structOps io d F as kids (a.take (a.length - eb.length)))) = .ok w := by
      intro i f s w hi hsi hwi hg
      obtain ⟨x, h1, h2⟩ := hw i f s hi hsi
      rw [if_pos (by rw [hT i f hi]; exact hg), hwi] at h2
      injection h2 with h2; subst h2
      exact h1
    have htouch : ∀ (i : Nat) (f : FInfo), F[i]? = some f → f.mode = .elem → kidsFor f kids ≠ [] →
        f.grp = none ∨ Touched F as kids f.grp := by
      intro i f hi hm hne
      refine Or.inr ⟨f, List.mem_of_getElem? hi, rfl, ?_⟩
      rw [hm]; exact hne
    refine Says.struct hname hl ?_ ?_ ?_ ?_ ?_ ?_ ?_ ?_ ?_
    · intro i f hi hg hnt
      obtain ⟨s, hsi⟩ := hlen i f hi
      obtain ⟨x, h1, h2⟩ := hw i f s hi hsi
      rw [if_neg (by rw [hT i f hi]; exact not_or.2 ⟨hg, hnt⟩)] at h2
      exact h2
    · intro i f s w hi hsi hwi hg hm
      have := hget i f s w hi hsi hwi hg
      rw [hO i f hi, hm] at this
      exact (run_attrs io s (fieldRt_attr (hs.rt i f s hi hsi) hm).1 _ w).1 this
    · intro i f w hi hwi hg hm
      obtain ⟨s, hsi⟩ := hlen i f hi
      have := hget i f s w hi hsi hwi hg
      rw [hO i f hi, hm] at this
      have hss := fieldRt_any (hs.rt i f s hi hsi) hm
      subst hss
      simp only [Sch.zero] at this
      rw [run_any] at this
      injection this with this
      simpa using this.symm
    · intro i f hi hm
      obtain ⟨s, hsi⟩ := hlen i f hi
      obtain ⟨x, h1, h2⟩ := hw i f s hi hsi
      have hr := hs.rt i f s hi hsi
      unfold fieldRt at hr
      simp only [hm] at hr
      split at hr
      · rw [hO i f hi, hm] at h1
        simp only [runAt, copyValue, copySimple] at h1
        injection h1 with h1; subst h1
        rw [h2, if_pos]
        rw [hT i f hi]
        exact Or.inr ⟨f, List.mem_of_getElem? hi, rfl, by rw [hm]; trivial⟩
      · cases hr
    · intro i f hi hm
      obtain ⟨s, hsi⟩ := hlen i f hi
      obtain ⟨x, h1, h2⟩ := hw i f s hi hsi
      have hr := hs.rt i f s hi hsi
      unfold fieldRt at hr
      simp only [hm] at hr
      split at hr
      · rw [hO i f hi, hm] at h1
        simp only [runAt, setInner] at h1
        injection h1 with h1; subst h1
        rw [h2, if_pos]
        rw [hT i f hi]
        exact Or.inr ⟨f, List.mem_of_getElem? hi, rfl, by rw [hm]; trivial⟩
      · cases hr
    · intro i f s w hi hsi hwi hg hm hnil
      have := hget i f s w hi hsi hwi hg
      rw [hO i f hi, hm, hnil] at this
      simp only [List.map_nil, runAt] at this
      injection this with this
      exact this.symm
    · intro i f s w t hi hsi hwi hm hns ht
      have := hget i f s w hi hsi hwi (htouch i f hi hm (List.ne_nil_of_mem ht))
      rw [hO i f hi, hm] at this
      exact ((hone i f s w hi hsi hm hns).1 this).2 t ht
    · intro i f s w hi hsi hwi hm hne
      have := hget i f _ w hi hsi hwi (htouch i f hi hm hne)
      rw [hO i f hi, hm] at this
      obtain ⟨l, h1, h2, -⟩ := (hlist i f s w hi hsi hm).1 this
      exact ⟨l, h1, h2⟩
    · intro i f s l j t w hi hsi hwi hm ht hj
      have := hget i f _ _ hi hsi hwi (htouch i f hi hm (List.ne_nil_of_mem (List.mem_of_getElem? ht)))
      rw [hO i f hi, hm] at this
      obtain ⟨l', h1, -, h2⟩ := (hlist i f s _ hi hsi hm).1 this
      injection h1 with h1; subst h1
      exact h2 j t w ht hj
  · intro h
    cases h with
    | struct hname hl habs hattr hany htext hinner hnone hon hli hma =>
    rename_i ws
    refine ⟨hname, ws, ⟨hl, fun i f s hi hsi => ?_⟩, rfl⟩
    obtain ⟨w, hwi⟩ := get_of_lt (l := ws) (i := i) (by rw [hl]; exact lt_of_get hi)
    by_cases hg : f.grp = none ∨ Touched F as kids f.grp
    · refine ⟨w, ?_, by rw [if_pos (by rw [hT i f hi]; exact hg)]; exact hwi⟩
      rw [hO i f hi]
      cases hm : f.mode with
      | attr =>
        exact (run_attrs io s (fieldRt_attr (hs.rt i f s hi hsi) hm).1 _ w).2 (hattr i f s w hi hsi hwi hg hm)
      | anyAttr =>
        have hss := fieldRt_any (hs.rt i f s hi hsi) hm
        subst hss
        simp only [Sch.zero]
        rw [run_any, hany i f w hi hwi hg hm]
        simp
      | chardata =>
        have hr := hs.rt i f s hi hsi
        unfold fieldRt at hr
        simp only [hm] at hr
        split at hr
        · have := htext i f hi hm
          rw [hwi] at this; injection this with this; subst this
          simp only [runAt, copyValue, copySimple]
        · cases hr
      | innerxml =>
        have hr := hs.rt i f s hi hsi
        unfold fieldRt at hr
        simp only [hm] at hr
        split at hr
        · have := hinner i f hi hm
          rw [hwi] at this; injection this with this; subst this
          simp only [runAt, setInner]
        · cases hr
      | elem =>
        dsimp only
        by_cases hns : ∀ s', s ≠ .slice s'
        · exact (hone i f s w hi hsi hm hns).2 ⟨hnone i f s w hi hsi hwi hg hm, fun t ht => hon i f s w t hi hsi hwi hm hns ht⟩
        · obtain ⟨s', rfl⟩ : ∃ s', s = .slice s' := by
            by_contra hc
            exact hns fun s' hs' => hc ⟨s', hs'⟩
          refine (hlist i f s' w hi hsi hm).2 ?_
          by_cases hne : kidsFor f kids = []
          · have := hnone i f _ w hi hsi hwi hg hm hne
            subst this
            exact ⟨[], rfl, by simp [hne], by simp⟩
          · obtain ⟨l, rfl, h2⟩ := hli i f s' w hi hsi hwi hm hne
            exact ⟨l, rfl, h2, fun j t v ht hv => hma i f s' l j t v hi hsi hwi hm ht hv⟩
    · have hg' := not_or.1 hg
      refine ⟨s.zero, ?_, ?_⟩
      · rw [hempty i f hi hg'.1 hg'.2]; rfl
      · rw [if_neg (by rw [hT i f hi]; exact hg)]
        exact habs i f hi hg'.1 hg'.2

/-- `Corr` for the type of a field, through a list. -/
def CorrF (io : FloatIO) : Sch → Prop
  | .slice s => elemShape (.slice s) = true → Corr io s
  | s => elemShape s = true → Corr io s

theorem hgts_le : ∀ (S : List Sch), ∀ s ∈ S, hgt s ≤ hgts S
  | t :: S, s, h => by
    simp only [hgts]
    rcases List.mem_cons.1 h with rfl | h
    · omega
    · have := hgts_le S s h
      omega

mutual
theorem corr_rt (io : FloatIO) (L : List Bytes) : ∀ s : Sch, s.rt L = true → s.ok = true → (oneShape s = true → Corr io s) ∧ CorrF io s
  | .simple k, _, _ => ⟨fun _ => corr_simple io k, fun _ => corr_simple io k⟩
  | .struct tn xn F S, h, hok => by
    simp only [Sch.rt, Bool.and_eq_true] at h
    simp only [Sch.ok, Bool.and_eq_true] at hok
    have := corr_rts io L S h.2 hok.2
    have hc : Corr io (.struct tn xn F S) := corr_struct io tn xn F S (StructRt.of h.1.1) hok.2
      (fun s hs hns he => by
        have := this s hs
        cases s <;> first | exact this he | exact absurd rfl (hns _))
      (fun s hs he => this _ hs he) (hgts_le S)
    exact ⟨fun _ => hc, fun _ => hc⟩
  | .ptr s, h, hok => by
    simp only [Sch.rt] at h
    simp only [Sch.ok] at hok
    have := corr_rt io L s h hok
    exact ⟨fun h => by simp [oneShape] at h, fun he => corr_ptr io s he (this.1 he)⟩
  | .slice s, h, hok => by
    simp only [Sch.rt] at h
    simp only [Sch.ok] at hok
    have := corr_rt io L s h hok
    refine ⟨fun h => by simp [oneShape] at h, fun he => ?_⟩
    unfold elemShape at he
    split at he
    · rename_i heq; cases heq
    · rename_i heq
      injection heq with heq; subst heq
      exact this.2 rfl
    · rename_i heq
      injection heq with heq; subst heq
      exact this.1 rfl
    · simp [oneShape] at he
  | .name, _, _ => ⟨fun h => by simp [oneShape] at h, fun h => by simp [elemShape, oneShape] at h⟩
  | .attr, _, _ => ⟨fun h => by simp [oneShape] at h, fun h => by simp [elemShape, oneShape] at h⟩
  | .bad _, _, _ => ⟨fun h => by simp [oneShape] at h, fun h => by simp [elemShape, oneShape] at h⟩
theorem corr_rts (io : FloatIO) (L : List Bytes) : ∀ ss : List Sch, rts L ss = true → oks ss = true →
    ∀ s ∈ ss, CorrF io s
  | [], _, _ => by simp
  | t :: ss, h, hok => by
    simp only [rts, Bool.and_eq_true] at h
    simp only [oks, Bool.and_eq_true] at hok
    have h1 := (corr_rt io L t h.1 hok.1).2
    have h2 := corr_rts io L ss h.2 hok.2
    intro s hs
    rcases List.mem_cons.1 hs with rfl | hs
    · exact h1
    · exact h2 s hs
end

/-! ### The root element is unique -/

mutual
theorem flat_inj : ∀ (t u : XTree), t.Ok → u.Ok → ∀ p q, t.flat ++ p = u.flat ++ q → t = u ∧ p = q
  | .leaf t b a, .leaf t' b' a', _, _, p, q, h => by
    simp only [XTree.flat, List.cons_append, List.nil_append, List.cons.injEq, PTok.mk.injEq] at h
    obtain ⟨⟨rfl, rfl, rfl⟩, rfl⟩ := h
    exact ⟨rfl, rfl⟩
  | .leaf t b a, .elem n as b' a' kids en eb ea, ho, _, p, q, h => by
    simp only [XTree.flat, List.cons_append, List.nil_append, List.cons.injEq, PTok.mk.injEq] at h
    obtain ⟨⟨rfl, _⟩, _⟩ := h
    simp [XTree.Ok, Token.isLeaf] at ho
  | .elem n as b' a' kids en eb ea, .leaf t b a, _, ho, p, q, h => by
    simp only [XTree.flat, List.cons_append, List.nil_append, List.cons.injEq, PTok.mk.injEq] at h
    obtain ⟨⟨rfl, _⟩, _⟩ := h
    simp [XTree.Ok, Token.isLeaf] at ho
  | .elem n as b a kids en eb ea, .elem n' as' b' a' kids' en' eb' ea', h1, h2, p, q, h => by
    simp only [XTree.flat, List.cons_append, List.nil_append, List.cons.injEq, PTok.mk.injEq, List.append_assoc,
      Token.startElement.injEq] at h
    obtain ⟨⟨⟨rfl, rfl⟩, rfl, rfl⟩, h⟩ := h
    obtain ⟨rfl, h'⟩ := flats_inj kids kids' (by simpa [XTree.Ok] using h1) (by simpa [XTree.Ok] using h2) en en' eb ea eb' ea' p q h
    simp only [List.cons.injEq, PTok.mk.injEq, Token.endElement.injEq] at h'
    obtain ⟨⟨rfl, rfl, rfl⟩, rfl⟩ := h'
    exact ⟨rfl, rfl⟩
theorem flats_inj : ∀ (ts us : List XTree), Oks ts → Oks us → ∀ (m m' : Name) (b a b' a' : Bytes) (p q : List PTok),
    flats ts ++ ⟨.endElement m, b, a⟩ :: p = flats us ++ ⟨.endElement m', b', a'⟩ :: q →
    ts = us ∧ (⟨.endElement m, b, a⟩ : PTok) :: p = ⟨.endElement m', b', a'⟩ :: q
  | [], [], _, _, m, m', b, a, b', a', p, q, h => by
    simpa [flats] using h
  | [], u :: us, _, ho, m, m', b, a, b', a', p, q, h => by
    simp only [Oks] at ho
    cases u with
    | leaf t _ _ =>
      simp only [flats, XTree.flat, List.cons_append, List.nil_append, List.cons.injEq, PTok.mk.injEq] at h
      obtain ⟨⟨rfl, _⟩, _⟩ := h
      simp [XTree.Ok, Token.isLeaf] at ho
    | elem _ _ _ _ _ _ _ _ =>
      simp [flats, XTree.flat] at h
  | u :: us, [], ho, _, m, m', b, a, b', a', p, q, h => by
    simp only [Oks] at ho
    cases u with
    | leaf t _ _ =>
      simp only [flats, XTree.flat, List.cons_append, List.nil_append, List.cons.injEq, PTok.mk.injEq] at h
      obtain ⟨⟨rfl, _⟩, _⟩ := h
      simp [XTree.Ok, Token.isLeaf] at ho
    | elem _ _ _ _ _ _ _ _ =>
      simp [flats, XTree.flat] at h
  | t :: ts, u :: us, h1, h2, m, m', b, a, b', a', p, q, h => by
    simp only [Oks] at h1 h2
    simp only [flats, List.append_assoc] at h
    obtain ⟨rfl, h'⟩ := flat_inj t u h1.1 h2.1 _ _ h
    obtain ⟨rfl, h''⟩ := flats_inj ts us h1.2 h2.2 m m' b a b' a' p q h'
    exact ⟨rfl, h''⟩
end

/-- A document has at most one root element. -/
theorem isDoc_unique {doc : Bytes} {t u : XTree} (ht : IsDoc doc t) (hu : IsDoc doc u) : t = u := by
  obtain ⟨ok1, ⟨n, as, b, a, kids, en, eb, ea, rfl⟩, pre, post, hpre, hd⟩ := ht
  obtain ⟨ok2, ⟨n', as', b', a', kids', en', eb', ea', rfl⟩, pre', post', hpre', hd'⟩ := hu
  rw [hd] at hd'
  have key : ∀ (pre pre' : List PTok), (∀ p ∈ pre, notStart p = true) → (∀ p ∈ pre', notStart p = true) →
      ∀ (x y : PTok) (l m : List PTok), notStart x = false → notStart y = false → pre ++ x :: l = pre' ++ y :: m →
      x :: l = y :: m := by
    intro pre
    induction pre with
    | nil =>
      intro pre' _ hp' x y l m hx hy h
      cases pre' with
      | nil => exact h
      | cons p pre' =>
        simp only [List.nil_append, List.cons_append, List.cons.injEq] at h
        rw [h.1, hp' p (by simp)] at hx; cases hx
    | cons z pre ih =>
      intro pre' hp hp' x y l m hx hy h
      cases pre' with
      | nil =>
        simp only [List.nil_append, List.cons_append, List.cons.injEq] at h
        rw [← h.1, hp z (by simp)] at hy; cases hy
      | cons p pre' =>
        simp only [List.cons_append, List.cons.injEq] at h
        exact ih pre' (fun p h => hp p (by simp [h])) (fun p h => hp' p (by simp [h])) x y l m hx hy h.2
  refine (flat_inj _ _ ok1 ok2 post post' ?_).1
  simp only [XTree.flat, List.cons_append] at hd' ⊢
  exact key pre pre' hpre hpre' _ _ _ _ rfl rfl hd'

/-! ### C69 -/

/-- C69 for a type: if no element for a single field is repeated, reading a document succeeds with a value exactly if that is
what its root element says. -/
theorem C69_document (io : FloatIO) (L : List Bytes) (tn : Bytes) (xn : Option FInfo) (F : List FInfo) (S : List Sch)
    (hr : (Sch.struct tn xn F S).rt L = true) (hok : (Sch.struct tn xn F S).ok = true)
    (hh : hgt (.struct tn xn F S) < maxDepth) (doc : Bytes) (t : XTree) (ht : IsDoc doc t)
    (ho : once (.struct tn xn F S) t = true) (v : Val) :
    unmarshalDoc io (.struct tn xn F S) doc = .ok v ↔ Says io (.struct tn xn F S) t v := by
  rw [unmarshalDoc_tree io _ doc t ht]
  unfold readRoot
  obtain ⟨_, ⟨n, as, b, a, kids, en, eb, ea, rfl⟩, _⟩ := ht
  exact (corr_rt io L _ hr hok).1 rfl _ rfl ho false 0 (Or.inr rfl) (by omega) v

/-- C69 for manifests. -/
theorem C69_manifest (io : FloatIO) (doc : Bytes) (t : XTree) (ht : IsDoc doc t) (ho : once tMPD.sch t = true) (v : Val) :
    unmarshalDoc io tMPD.sch doc = .ok v ↔ Says io tMPD.sch t v := by
  have h1 := mpd_rt
  have h2 := mpd_ok
  have h3 := mpd_hgt
  obtain ⟨tn, xn, F, S, e⟩ : ∃ tn xn F S, tMPD.sch = .struct tn xn F S := ⟨_, _, _, _, rfl⟩
  rw [e] at h1 h2 h3 ho ⊢
  exact C69_document io mpdLocs tn xn F S h1 h2 h3 doc t ht ho v

/-- What is read comes from a root element, of which there is only one, and is what that says. -/
theorem C69_read (io : FloatIO) (doc : Bytes) (v : Val) (h : unmarshalDoc io tMPD.sch doc = .ok v) :
    ∃ t, IsDoc doc t ∧ (∀ u, IsDoc doc u → u = t) ∧ (once tMPD.sch t = true → Says io tMPD.sch t v ∧
      ∀ w, Says io tMPD.sch t w → w = v) := by
  obtain ⟨t, ht⟩ := unmarshalDoc_ok io _ doc v h
  refine ⟨t, ht, fun u hu => isDoc_unique hu ht, fun ho => ⟨(C69_manifest io doc t ht ho v).1 h, fun w hw => ?_⟩⟩
  have := (C69_manifest io doc t ht ho w).2 hw
  rw [h] at this
  injection this with this
  exact this.symm

/-- The entries of a list in a struct are as many as the elements for it, and a pointer is set exactly if there is an element
for it. -/
theorem C69_counts (io : FloatIO) {tn : Bytes} {xn : Option FInfo} {F : List FInfo} {S : List Sch} {n : Name}
    {as : List Attr} {b a eb ea : Bytes} {en m : Name} {kids : List XTree} {ws : List Val}
    (h : Says io (.struct tn xn F S) (.elem n as b a kids en eb ea) (.struct m ws)) {i : Nat} {f : FInfo}
    (hi : F[i]? = some f) (hm : f.mode = .elem) (hg : f.grp = none) :
    (∀ s, S[i]? = some (.slice s) → ∃ l, ws[i]? = some (.slice l) ∧ l.length = (kidsFor f kids).length) ∧
    (∀ s, S[i]? = some (.ptr s) → ∃ o, ws[i]? = some (.ptr o) ∧ (o = none ↔ kidsFor f kids = [])) := by
  cases h with
  | struct hname hl habs hattr hany htext hinner hnone hon hli hma =>
  obtain ⟨w, hwi⟩ := get_of_lt (l := ws) (i := i) (by rw [hl]; exact lt_of_get hi)
  constructor
  · intro s hs
    by_cases hk : kidsFor f kids = []
    · have := hnone i f _ w hi hs hwi (Or.inl hg) hm hk
      subst this
      exact ⟨[], hwi, by simp [hk]⟩
    · obtain ⟨l, rfl, h2⟩ := hli i f s w hi hs hwi hm hk
      exact ⟨l, hwi, h2⟩
  · intro s hs
    cases hk : kidsFor f kids with
    | nil =>
      have := hnone i f _ w hi hs hwi (Or.inl hg) hm hk
      subst this
      exact ⟨none, hwi, by simp⟩
    | cons t ts =>
      have := hon i f _ w t hi hs hwi hm (by simp) (by rw [hk]; simp)
      cases this with
      | ptr this => exact ⟨_, hwi, by simp⟩

/-- A document to which C69 applies. -/
example : once tMPD.sch exTree = true := by decide +kernel

example (io : FloatIO) (v : Val) : unmarshalDoc io tMPD.sch exDoc = .ok v ↔ Says io tMPD.sch exTree v :=
  C69_manifest io exDoc exTree exDoc_is (by decide +kernel) v

/-- A document with an element twice that should be there once: the second is read. -/
def twiceDoc : Bytes := b!"<ProgramInformation><Title>x</Title><Title>y</Title></ProgramInformation>"
def twiceTree : XTree := tagged twiceDoc (b!"ProgramInformation") [] 0 20 52 73
  [tagged twiceDoc (b!"Title") [] 20 27 28 36 [.leaf (.charData (b!"x")) (twiceDoc.drop 27) (twiceDoc.drop 28)],
   tagged twiceDoc (b!"Title") [] 36 43 44 52 [.leaf (.charData (b!"y")) (twiceDoc.drop 43) (twiceDoc.drop 44)]]

theorem twice_is : IsDoc twiceDoc twiceTree :=
  ⟨by simp [twiceTree, tagged, XTree.Ok, Oks, Token.isLeaf], ⟨_, _, _, _, _, _, _, _, rfl⟩, [], [], by simp, by decide +kernel⟩

theorem twice_field : ∃ (tn : Bytes) (xn : Option FInfo) (F : List FInfo) (S : List Sch) (i : Nat) (f : FInfo),
    tProgramInformationType.sch = .struct tn xn F S ∧ F[i]? = some f ∧ S[i]? = some (.simple .str) ∧ f.mode = .elem ∧
    f.loc = (b!"Title") ∧ f.xmlns = [] :=
  ⟨_, _, _, _, 2, _, rfl, rfl, rfl, rfl, rfl, rfl⟩

theorem twice_read (io : FloatIO) : ∃ v, unmarshalDoc io tProgramInformationType.sch twiceDoc = .ok v := by
  have h : (match unmarshalDoc io tProgramInformationType.sch twiceDoc with
    | .ok _ => true
    | .error _ => false) = true := by krfl
  cases hv : unmarshalDoc io tProgramInformationType.sch twiceDoc with
  | ok v => exact ⟨v, rfl⟩
  | error e => rw [hv] at h; cases h

/-- C69 needs its condition: with a repeated element something is read that is not what the document says. -/
theorem C69_refuted (io : FloatIO) : ¬ ∀ (doc : Bytes) (t : XTree) (v : Val), IsDoc doc t →
    (unmarshalDoc io tProgramInformationType.sch doc = .ok v ↔ Says io tProgramInformationType.sch t v) := by
  intro h
  obtain ⟨v, hv⟩ := twice_read io
  have hs := (h twiceDoc twiceTree v twice_is).1 hv
  obtain ⟨tn, xn, F, S, i, f, e, hi, hsi, hm, hl, hx⟩ := twice_field
  rw [e] at hs
  have hk : kidsFor f [tagged twiceDoc (b!"Title") [] 20 27 28 36 [.leaf (.charData (b!"x")) (twiceDoc.drop 27) (twiceDoc.drop 28)],
      tagged twiceDoc (b!"Title") [] 36 43 44 52 [.leaf (.charData (b!"y")) (twiceDoc.drop 43) (twiceDoc.drop 44)]] =
      [tagged twiceDoc (b!"Title") [] 20 27 28 36 [.leaf (.charData (b!"x")) (twiceDoc.drop 27) (twiceDoc.drop 28)],
      tagged twiceDoc (b!"Title") [] 36 43 44 52 [.leaf (.charData (b!"y")) (twiceDoc.drop 43) (twiceDoc.drop 44)]] := by
    simp [kidsFor, fits, tagged, hl, hx]
  unfold twiceTree at hs
  rw [tagged] at hs
  cases hs with
  | struct hname hlen habs hattr hany htext hinner hnone hon hli hma =>
  rename_i ws
  obtain ⟨w, hwi⟩ := get_of_lt (l := ws) (i := i) (by rw [hlen]; exact lt_of_get hi)
  have h1 := hon i f _ w _ hi hsi hwi hm (by simp) (by rw [hk]; exact List.mem_cons_self)
  have h2 := hon i f _ w _ hi hsi hwi hm (by simp) (by rw [hk]; exact List.mem_cons_of_mem _ List.mem_cons_self)
  rw [tagged] at h1 h2
  cases h1 with
  | simple h1 =>
    cases h2 with
    | simple h2 =>
      rw [← h2] at h1
      simp [dataOf, tokData, copySimple] at h1

end Verif.Bind

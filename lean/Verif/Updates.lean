import Verif.ReadProps

/-!
Reading a struct as a sequence of updates of its fields.  Each field goes through the updates that are meant for it,
whatever happens to the others (`runOps_proj`).
-/
namespace Verif.Bind

open Verif.Xml

/-- An update of a field: its type, its value, the new value. -/
abbrev Upd := Sch → Val → Except RErr Val

/-- Updates of fields, one after the other. -/
def runOps (infos : List FInfo) (subs : List Sch) : List Val → List (Nat × Upd) → Except RErr (List Val)
  | vs, [] => .ok vs
  | vs, op :: l =>
    match updField infos subs vs op.1 op.2 with
    | .error e => .error e
    | .ok vs' => runOps infos subs vs' l

/-- Updates of one value, one after the other. -/
def runAt (s : Sch) : Val → List Upd → Except RErr Val
  | v, [] => .ok v
  | v, g :: l =>
    match g s v with
    | .error e => .error e
    | .ok w => runAt s w l

/-- The updates of field `i`. -/
def opsAt (i : Nat) (ops : List (Nat × Upd)) : List Upd := ops.filterMap fun op => if op.1 = i then some op.2 else none

theorem opsAt_nil (i : Nat) : opsAt i [] = [] := rfl

theorem opsAt_cons (i : Nat) (op : Nat × Upd) (l : List (Nat × Upd)) :
    opsAt i (op :: l) = if op.1 = i then op.2 :: opsAt i l else opsAt i l := by
  unfold opsAt
  rw [List.filterMap_cons]
  split <;> rename_i h <;> split at h <;> simp_all

theorem opsAt_append (i : Nat) (a b : List (Nat × Upd)) : opsAt i (a ++ b) = opsAt i a ++ opsAt i b := by
  unfold opsAt; rw [List.filterMap_append]

theorem opsAt_none {i : Nat} {ops : List (Nat × Upd)} (h : ∀ op ∈ ops, op.1 ≠ i) : opsAt i ops = [] := by
  induction ops with
  | nil => rfl
  | cons op l ih =>
    rw [opsAt_cons, if_neg (h op (by simp))]
    exact ih fun o ho => h o (by simp [ho])

theorem runOps_append (infos : List FInfo) (subs : List Sch) (b : List (Nat × Upd)) :
    ∀ (a : List (Nat × Upd)) (vs : List Val), runOps infos subs vs (a ++ b) =
      match runOps infos subs vs a with
      | .error e => .error e
      | .ok vs' => runOps infos subs vs' b
  | [], vs => rfl
  | op :: a, vs => by
    simp only [List.cons_append, runOps]
    cases updField infos subs vs op.1 op.2 with
    | error e => rfl
    | ok vs' => exact runOps_append infos subs b a vs'

theorem runAt_append (s : Sch) (b : List Upd) : ∀ (a : List Upd) (v : Val), runAt s v (a ++ b) =
      match runAt s v a with
      | .error e => .error e
      | .ok w => runAt s w b
  | [], v => rfl
  | g :: a, v => by
    simp only [List.cons_append, runAt]
    cases g s v with
    | error e => rfl
    | ok w => exact runAt_append s b a w

/-- An update that keeps the type. -/
def UpdOk (g : Upd) : Prop := ∀ s v w, s.ok = true → Typed s v → g s v = .ok w → Typed s w

theorem cur_typed {infos : List FInfo} {subs : List Sch} {vs : List Val} (hf : Fields infos subs vs) {i : Nat} {s : Sch}
    {v : Val} (hs : subs[i]? = some s) (hv : cur subs vs i = some v) : Typed s v := by
  have hi : i < vs.length := by rw [hf.len_vs]; exact lt_of_get hs
  obtain ⟨fi, s', x, _, h2, h3, _⟩ := hf.at hi
  have h4 := typeds_get _ _ hf.typ i s x hs h3
  rw [hs] at h2; injection h2 with h2; subst h2
  simp only [cur, hs, h3] at hv
  injection hv with hv; subst hv
  split
  · exact zero_typed _ (oks_get _ hf.ok i s hs)
  · rename_i hne
    rcases h4 with h4 | h4
    · exact absurd h4 hne
    · exact h4

/-- Each field goes through its own updates.  `w i` is what they give, starting from the value of the field (or the zero
value if it lies behind an embedded pointer that is nil). -/
theorem runOps_proj {infos : List FInfo} {subs : List Sch} (w : Nat → Val) : ∀ (ops : List (Nat × Upd)) (vs : List Val),
    Fields infos subs vs → (∀ op ∈ ops, op.1 < subs.length ∧ UpdOk op.2) →
    (∀ i s, subs[i]? = some s → ∃ v, cur subs vs i = some v ∧ runAt s v (opsAt i ops) = .ok (w i)) →
    ∃ ws, runOps infos subs vs ops = .ok ws ∧ Fields infos subs ws ∧ ∀ i s, subs[i]? = some s →
      ∃ x, ws[i]? = some x ∧ (x = w i ∨ (vs[i]? = some x ∧ ∀ op ∈ ops, sameGrp infos op.1 i = false))
  | [], vs, hf, _, hw => by
    refine ⟨vs, rfl, hf, fun i s hs => ?_⟩
    obtain ⟨x, hx⟩ := get_of_lt (l := vs) (i := i) (by rw [hf.len_vs]; exact lt_of_get hs)
    exact ⟨x, hx, Or.inr ⟨hx, by simp⟩⟩
  | (j, g) :: ops, vs, hf, hops, hw => by
    have hj := (hops (j, g) (by simp)).1
    have hg := (hops (j, g) (by simp)).2
    dsimp only at hj hg
    obtain ⟨sj, hsj⟩ := get_of_lt hj
    obtain ⟨vj, hvj, hrj⟩ := hw j sj hsj
    rw [opsAt_cons, if_pos rfl] at hrj
    simp only [runAt] at hrj
    cases hgj : g sj vj with
    | error e => rw [hgj] at hrj; cases hrj
    | ok w1 =>
      rw [hgj] at hrj
      dsimp only at hrj
      obtain ⟨vs', hu⟩ : ∃ vs', updField infos subs vs j g = .ok vs' := by
        have hjv : j < vs.length := by rw [hf.len_vs]; exact hj
        have hc := initGroup_cur hf hjv j
        rw [if_pos (sameGrp_refl (by rw [hf.len]; exact hj)), hvj] at hc
        unfold updField
        rw [hsj, hc]
        dsimp only
        rw [hgj]
        exact ⟨_, rfl⟩
      have hf' := updField_fields hf j g hg hu
      obtain ⟨s', v', w', h1, h2, h3, h4⟩ := (updField_iff hf j g).1 hu
      rw [hsj] at h1; injection h1 with h1; subst h1
      rw [hvj] at h2; injection h2 with h2; subst h2
      rw [hgj] at h3; injection h3 with h3; subst h3
      have hcur : ∀ i s, subs[i]? = some s → ∃ v, cur subs vs' i = some v ∧ runAt s v (opsAt i ops) = .ok (w i) := by
        intro i s hs
        by_cases hij : i = j
        · subst hij
          rw [hsj] at hs; injection hs with hs; subst hs
          have ht : Typed sj w1 := hg _ _ _ (oks_get _ hf.ok i sj hsj) (cur_typed hf hsj hvj) hgj
          refine ⟨w1, ?_, hrj⟩
          have := h4 i
          rw [if_pos rfl] at this
          simp only [cur, hsj, this, typed_present _ _ ht, Bool.false_eq_true, if_false]
        · obtain ⟨v, hv, hr⟩ := hw i s hs
          rw [opsAt_cons, if_neg (fun h => hij h.symm)] at hr
          refine ⟨v, ?_, hr⟩
          have h := h4 i
          rw [if_neg hij] at h
          by_cases hg : sameGrp infos j i = true
          · rw [if_pos hg, hv] at h
            simp only [cur, hs, h, typed_present _ _ (cur_typed hf hs hv), Bool.false_eq_true, if_false]
          · rw [if_neg hg] at h
            rw [← hv]
            simp only [cur, h]
      obtain ⟨ws, k1, k2, k3⟩ := runOps_proj w ops vs' hf' (fun op ho => hops op (by simp [ho])) hcur
      refine ⟨ws, ?_, k2, fun i s hs => ?_⟩
      · simp only [runOps, hu]; exact k1
      · obtain ⟨x, hx, hor⟩ := k3 i s hs
        refine ⟨x, hx, ?_⟩
        rcases hor with hor | ⟨hx', hun⟩
        · exact Or.inl hor
        · have hself : ∀ op ∈ ops, op.1 ≠ i := by
            intro op ho he
            have := hun op ho
            rw [he, sameGrp_refl (by rw [hf.len]; exact lt_of_get hs)] at this
            cases this
          have hnil := opsAt_none hself
          have h := h4 i
          by_cases hij : i = j
          · subst hij
            rw [if_pos rfl, hx'] at h
            injection h with h
            rw [hnil] at hrj
            simp only [runAt] at hrj
            injection hrj with hrj
            exact Or.inl (h.trans hrj)
          · rw [if_neg hij] at h
            by_cases hg : sameGrp infos j i = true
            · rw [if_pos hg] at h
              obtain ⟨v, hv, hr⟩ := hw i s hs
              rw [opsAt_cons, if_neg (fun h => hij h.symm), hnil] at hr
              simp only [runAt] at hr
              injection hr with hr
              rw [hx', hv] at h
              injection h with h
              exact Or.inl (h.trans hr)
            · rw [if_neg hg, hx'] at h
              refine Or.inr ⟨h.symm, ?_⟩
              intro op ho
              rcases List.mem_cons.1 ho with rfl | ho
              · simpa using hg
              · exact hun op ho

/-- The same for a struct all of whose embedded pointers are set by the updates. -/
theorem runOps_all {infos : List FInfo} {subs : List Sch} (w : Nat → Val) (ops : List (Nat × Upd)) (vs : List Val)
    (hf : Fields infos subs vs) (hops : ∀ op ∈ ops, op.1 < subs.length ∧ UpdOk op.2)
    (hw : ∀ i s, subs[i]? = some s → ∃ v, cur subs vs i = some v ∧ runAt s v (opsAt i ops) = .ok (w i))
    (hgrp : ∀ i fi, infos[i]? = some fi → fi.grp ≠ none → ∃ op ∈ ops, sameGrp infos op.1 i = true) :
    ∃ ws, runOps infos subs vs ops = .ok ws ∧ Fields infos subs ws ∧ ∀ i s, subs[i]? = some s → ws[i]? = some (w i) := by
  obtain ⟨ws, h1, h2, h3⟩ := runOps_proj w ops vs hf hops hw
  refine ⟨ws, h1, h2, fun i s hs => ?_⟩
  obtain ⟨x, hx, hor⟩ := h3 i s hs
  rcases hor with rfl | ⟨hv, hun⟩
  · exact hx
  · obtain ⟨fi, hfi⟩ := get_of_lt (l := infos) (i := i) (by rw [hf.len]; exact lt_of_get hs)
    have hg : fi.grp = none := by
      by_contra hne
      obtain ⟨op, ho, hsg⟩ := hgrp i fi hfi hne
      rw [hun op ho] at hsg; cases hsg
    have hab := (hf.uni i i fi fi x x hfi hfi hv hv).2 hg
    obtain ⟨v, hc, hr⟩ := hw i s hs
    have hself : ∀ op ∈ ops, op.1 ≠ i := by
      intro op ho he
      have := hun op ho
      rw [he, sameGrp_refl (by rw [hf.len]; exact lt_of_get hs)] at this
      cases this
    rw [opsAt_none hself] at hr
    simp only [runAt] at hr
    injection hr with hr
    simp only [cur, hs, hv, hab, Bool.false_eq_true, if_false] at hc
    injection hc with hc
    rw [hx, hc, hr]

/-! ### Reading a struct as updates -/

/-- The updates from the attributes of an element. -/
def attrOps (io : FloatIO) (infos : List FInfo) (as : List Attr) : List (Nat × Upd) :=
  as.filterMap fun a => (attrField infos a.name).map fun i => (i, fun s v => readAttr io s v a)

theorem readAttrs_ops (io : FloatIO) (infos : List FInfo) (subs : List Sch) : ∀ (as : List Attr) (vs : List Val),
    readAttrs io infos subs vs as = runOps infos subs vs (attrOps io infos as)
  | [], vs => rfl
  | a :: as, vs => by
    simp only [readAttrs, attrOps, List.filterMap_cons]
    cases attrField infos a.name with
    | none => exact readAttrs_ops io infos subs as vs
    | some i =>
      simp only [Option.map_some, runOps]
      cases updField infos subs vs i (fun s v => readAttr io s v a) with
      | error e => rfl
      | ok vs' => exact readAttrs_ops io infos subs as vs'

/-- The name of an element. -/
def nameOfT : XTree → Option Name
  | .elem n _ _ _ _ _ _ _ => some n
  | .leaf _ _ _ => none

/-- The updates from the elements inside an element. -/
def kidOps (io : FloatIO) (d : Nat) (infos : List FInfo) (ts : List XTree) : List (Nat × Upd) :=
  ts.filterMap fun t => ((nameOfT t).bind (elemField infos)).map fun i => (i, fun s v => readT io true (d + 1) s v t)

theorem readKids_ops (io : FloatIO) (d : Nat) (infos : List FInfo) (subs : List Sch) : ∀ (ts : List XTree) (vs : List Val),
    readKids io d infos subs vs ts = runOps infos subs vs (kidOps io d infos ts)
  | [], vs => by simp [readKids, kidOps, runOps]
  | .leaf _ _ _ :: ts, vs => by
    simp only [readKids, kidOps, List.filterMap_cons, nameOfT, Option.bind_none, Option.map_none]
    exact readKids_ops io d infos subs ts vs
  | .elem n as b a kids en eb ea :: ts, vs => by
    simp only [readKids, kidOps, List.filterMap_cons, nameOfT, Option.bind_some]
    cases elemField infos n with
    | none => exact readKids_ops io d infos subs ts vs
    | some i =>
      simp only [Option.map_some, runOps]
      cases updField infos subs vs i (fun s v => readT io true (d + 1) s v (.elem n as b a kids en eb ea)) with
      | error e => rfl
      | ok vs' => exact readKids_ops io d infos subs ts vs'

/-- The update from the character data of an element. -/
def finOps (io : FloatIO) (infos : List FInfo) (data : Bytes) : List (Nat × Upd) :=
  match modeField infos .chardata with
  | none => []
  | some i => [(i, fun s _ => copyValue io s data)]

/-- A string field is set to the content of an element as it is. -/
def setInner (inner : Bytes) : Upd := fun s v =>
  match s with
  | .simple .str => .ok (.str inner)
  | _ => .ok v

/-- The update from the content of an element as it is. -/
def innerOps (infos : List FInfo) (inner : Bytes) : List (Nat × Upd) :=
  match modeField infos .innerxml with
  | none => []
  | some i => [(i, setInner inner)]

theorem finishStruct_ops (io : FloatIO) (infos : List FInfo) (subs : List Sch) (vs : List Val) (data inner : Bytes) :
    finishStruct io infos subs vs data inner = runOps infos subs vs (finOps io infos data ++ innerOps infos inner) := by
  have key : ∀ vs', (match modeField infos .innerxml with
      | none => (.ok vs' : Except RErr (List Val))
      | some i => updField infos subs vs' i (setInner inner)) = runOps infos subs vs' (innerOps infos inner) := by
    intro vs'
    unfold innerOps
    cases modeField infos .innerxml with
    | none => rfl
    | some i =>
      simp only [runOps]
      split <;> rename_i h <;> rw [h]
  unfold finishStruct finOps
  dsimp only
  rw [runOps_append]
  cases modeField infos .chardata with
  | none =>
    simp only [runOps]
    exact key vs
  | some i =>
    simp only [runOps]
    cases updField infos subs vs i (fun s _ => copyValue io s data) with
    | error e => rfl
    | ok vs' => exact key vs'

/-- All updates of a struct read from an element. -/
def structOps (io : FloatIO) (d : Nat) (infos : List FInfo) (as : List Attr) (ts : List XTree) (inner : Bytes) :
    List (Nat × Upd) :=
  attrOps io infos as ++ (kidOps io d infos ts ++ (finOps io infos (dataOf ts) ++ innerOps infos inner))

theorem readBody_ops (io : FloatIO) (n : Name) (as : List Attr) (ts : List XTree) (inner : Bytes) (d : Nat) (tn : Bytes)
    (xn : Option FInfo) (infos : List FInfo) (subs : List Sch) (xv : Name) (vs ws : List Val)
    (hc : checkName xn n = .ok ()) (h : runOps infos subs vs (structOps io d infos as ts inner) = .ok ws) :
    readBody io n as (dataOf ts) inner (fun d infos subs vs => readKids io d infos subs vs ts) d (.struct tn xn infos subs)
      (.struct xv vs) = .ok (.struct (if xn.isSome then n else xv) ws) := by
  simp only [readBody, hc, readAttrs_ops, readKids_ops]
  unfold structOps at h
  rw [runOps_append] at h
  cases h1 : runOps infos subs vs (attrOps io infos as) with
  | error e => rw [h1] at h; cases h
  | ok vs1 =>
    rw [h1] at h
    dsimp only at h ⊢
    rw [runOps_append] at h
    cases h2 : runOps infos subs vs1 (kidOps io d infos ts) with
    | error e => rw [h2] at h; cases h
    | ok vs2 =>
      rw [h2] at h
      dsimp only at h ⊢
      rw [finishStruct_ops, h]

theorem attrField_lt {infos : List FInfo} {n : Name} {i : Nat} (h : attrField infos n = some i) : i < infos.length := by
  have key : ∀ (p : FInfo → Bool), infos.findIdx? p = some i → i < infos.length := by
    intro p hp
    rw [List.findIdx?_eq_some_iff_findIdx_eq] at hp
    exact hp.1
  unfold attrField at h
  split at h
  · rename_i j hj; injection h with h; subst h; exact key _ hj
  · split at h
    · rename_i j hj; injection h with h; subst h; exact key _ hj
    · exact key _ h

theorem elemField_lt {infos : List FInfo} {n : Name} {i : Nat} (h : elemField infos n = some i) : i < infos.length := by
  unfold elemField at h
  rw [List.findIdx?_eq_some_iff_findIdx_eq] at h
  exact h.1

theorem structOps_ok (io : FloatIO) (d : Nat) (infos : List FInfo) (subs : List Sch) (as : List Attr) (ts : List XTree)
    (inner : Bytes) (hl : infos.length = subs.length) : ∀ op ∈ structOps io d infos as ts inner, op.1 < subs.length ∧ UpdOk op.2 := by
  intro op ho
  unfold structOps at ho
  rcases List.mem_append.1 ho with ho | ho
  · obtain ⟨a, _, ha⟩ := List.mem_filterMap.1 ho
    obtain ⟨i, hi, rfl⟩ := Option.map_eq_some_iff.1 ha
    exact ⟨by rw [← hl]; exact attrField_lt hi, fun s v w hs hv h => readAttr_typed io a s v w hs hv h⟩
  rcases List.mem_append.1 ho with ho | ho
  · obtain ⟨t, _, ht⟩ := List.mem_filterMap.1 ho
    obtain ⟨i, hi, rfl⟩ := Option.map_eq_some_iff.1 ht
    obtain ⟨n, _, hn⟩ := Option.bind_eq_some_iff.1 hi
    exact ⟨by rw [← hl]; exact elemField_lt hn, fun s v w hs hv h => readT_typed io t true _ s v w hs hv h⟩
  have hmf : ∀ m i, modeField infos m = some i → i < subs.length := by
    intro m i hi
    unfold modeField at hi
    rw [List.findIdx?_eq_some_iff_findIdx_eq] at hi
    rw [← hl]; exact hi.1
  rcases List.mem_append.1 ho with ho | ho
  · unfold finOps at ho
    split at ho
    · cases ho
    · rename_i i hi
      rw [List.mem_singleton] at ho
      subst ho
      exact ⟨hmf _ _ hi, fun s v w hs hv h => copyValue_typed io s _ w hs h⟩
  · unfold innerOps at ho
    split at ho
    · cases ho
    · rename_i i hi
      rw [List.mem_singleton] at ho
      subst ho
      refine ⟨hmf _ _ hi, fun s v w hs hv h => ?_⟩
      dsimp only [setInner] at h
      split at h
      · injection h with h
        subst h
        simp [Typed, KindOk]
      · injection h with h
        subst h
        exact hv

end Verif.Bind

import Verif.RoundTrip

/-!
C69: what a document says, field by field, and that reading returns exactly that.

`Says` describes the value of an element without the decoder's loops: which attributes and elements belong to a field is decided
by the field's own tag, lists hold one entry for each element in document order, and a field for which there is nothing is
empty.  Lexical matters (numbers, durations) are left to `copySimple` and `readSimpleAttr`, about which C03, C04, C22 and C41 are.
-/
namespace Verif.Bind

open Verif.Xml

/-! ### What a document says -/

/-- The attributes for a field with a name. -/
def attrsFor (f : FInfo) (as : List Attr) : List Attr :=
  as.filter fun a => decide (f.loc = a.name.loc ∧ (f.xmlns = a.name.space ∨ f.xmlns = []))

/-- The attributes for which there is no field. -/
def otherAttrs (infos : List FInfo) (as : List Attr) : List Attr :=
  as.filter fun a => infos.all fun f =>
    !(f.mode == .attr && decide (f.loc = a.name.loc ∧ (f.xmlns = a.name.space ∨ f.xmlns = [])))

/-- An element for a field with a name. -/
def fits (f : FInfo) : XTree → Bool
  | .elem n _ _ _ _ _ _ _ => decide (f.loc = n.loc ∧ (f.xmlns = n.space ∨ f.xmlns = []))
  | .leaf _ _ _ => false

/-- The elements for a field with a name. -/
def kidsFor (f : FInfo) (kids : List XTree) : List XTree := kids.filter (fits f)

/-- What attributes say: each must be readable; the last counts, or for a list all. -/
def AttrSays (io : FloatIO) : Sch → List Attr → Val → Prop
  | .simple k, as, w => ∃ ws, List.Forall₂ (fun a w => readSimpleAttr io k a.value = .ok w) as ws ∧
      w = ws.getLastD (Sch.simple k).zero
  | .ptr (.simple k), as, w => ∃ ws, List.Forall₂ (fun a w => readSimpleAttr io k a.value = .ok w) as ws ∧
      w = .ptr ws.getLast?
  | .ptr (.slice (.simple k)), as, w => ∃ ws, List.Forall₂ (fun a w => readSimpleAttr io k a.value = .ok w) as ws ∧
      w = .ptr (if as = [] then none else some (.slice ws))
  | _, _, _ => False

/-- There is something for the fields behind the embedded pointer `g`: an attribute, an element, or a field for the text. -/
def Touched (infos : List FInfo) (as : List Attr) (kids : List XTree) (g : Option Nat) : Prop :=
  ∃ f ∈ infos, f.grp = g ∧ match f.mode with
    | .attr => attrsFor f as ≠ []
    | .anyAttr => otherAttrs infos as ≠ []
    | .elem => kidsFor f kids ≠ []
    | .chardata => True
    | .innerxml => True

/-- What an element says about a value of a type. -/
inductive Says (io : FloatIO) : Sch → XTree → Val → Prop
  | simple {k : Kind} {n as b a kids en eb ea w} : copySimple io k (dataOf kids) = .ok w →
      Says io (.simple k) (.elem n as b a kids en eb ea) w
  | ptr {s : Sch} {t : XTree} {w : Val} : Says io s t w → Says io (.ptr s) t (.ptr (some w))
  | struct {tn : Bytes} {xn : Option FInfo} {infos : List FInfo} {subs : List Sch} {n as b a kids en eb ea}
      {ws : List Val}
      (name : ∀ x, xn = some x → (x.loc = [] ∨ x.loc = n.loc) ∧ (x.xmlns = [] ∨ x.xmlns = n.space))
      (len : ws.length = infos.length)
      (absent : ∀ (i : Nat) (f : FInfo), infos[i]? = some f → f.grp ≠ none → ¬ Touched infos as kids f.grp →
        ws[i]? = some .absent)
      (attr : ∀ (i : Nat) (f : FInfo) (s : Sch) (w : Val), infos[i]? = some f → subs[i]? = some s → ws[i]? = some w →
        (f.grp = none ∨ Touched infos as kids f.grp) → f.mode = .attr → AttrSays io s (attrsFor f as) w)
      (any : ∀ (i : Nat) (f : FInfo) (w : Val), infos[i]? = some f → ws[i]? = some w →
        (f.grp = none ∨ Touched infos as kids f.grp) → f.mode = .anyAttr → w = .slice ((otherAttrs infos as).map .attr))
      (text : ∀ (i : Nat) (f : FInfo), infos[i]? = some f → f.mode = .chardata → ws[i]? = some (.str (dataOf kids)))
      (inner : ∀ (i : Nat) (f : FInfo), infos[i]? = some f → f.mode = .innerxml →
        ws[i]? = some (.str (a.take (a.length - eb.length))))
      (none : ∀ (i : Nat) (f : FInfo) (s : Sch) (w : Val), infos[i]? = some f → subs[i]? = some s → ws[i]? = some w →
        (f.grp = Option.none ∨ Touched infos as kids f.grp) → f.mode = .elem → kidsFor f kids = [] → w = s.zero)
      (one : ∀ (i : Nat) (f : FInfo) (s : Sch) (w : Val) (t : XTree), infos[i]? = some f → subs[i]? = some s →
        ws[i]? = some w → f.mode = .elem → (∀ s', s ≠ .slice s') → t ∈ kidsFor f kids → Says io s t w)
      (list : ∀ (i : Nat) (f : FInfo) (s : Sch) (w : Val), infos[i]? = some f → subs[i]? = some (.slice s) →
        ws[i]? = some w → f.mode = .elem → kidsFor f kids ≠ [] → ∃ l, w = .slice l ∧ l.length = (kidsFor f kids).length)
      (many : ∀ (i : Nat) (f : FInfo) (s : Sch) (l : List Val) (j : Nat) (t : XTree) (w : Val), infos[i]? = some f →
        subs[i]? = some (.slice s) → ws[i]? = some (.slice l) → f.mode = .elem → (kidsFor f kids)[j]? = some t →
        l[j]? = some w → Says io s t w) :
      Says io (.struct tn xn infos subs) (.elem n as b a kids en eb ea) (.struct (if xn.isSome then n else ⟨[], []⟩) ws)

/-- The type of a list. -/
def Sch.isList : Sch → Bool
  | .slice _ => true
  | _ => false

mutual
/-- Elements for fields that are no lists are not repeated. -/
def once : Sch → XTree → Bool
  | .ptr s, t => once s t
  | .slice s, t => once s t
  | .struct _ _ infos subs, .elem _ _ _ _ kids _ _ _ => onces infos subs kids
  | _, _ => true
/-- The same for the elements of all fields. -/
def onces : List FInfo → List Sch → List XTree → Bool
  | f :: fs, s :: ss, kids =>
    (f.mode != .elem || ((s.isList || decide ((kidsFor f kids).length ≤ 1)) && (kidsFor f kids).all (once s))) &&
      onces fs ss kids
  | _, _, _ => true
end

/-! ### Updates, in both directions -/

/-- What updates do to each field. -/
theorem runOps_get {infos : List FInfo} {subs : List Sch} : ∀ (ops : List (Nat × Upd)) (vs ws : List Val),
    Fields infos subs vs → (∀ op ∈ ops, op.1 < subs.length ∧ UpdOk op.2) → runOps infos subs vs ops = .ok ws →
    ∀ i s, subs[i]? = some s → ∃ v w, cur subs vs i = some v ∧ runAt s v (opsAt i ops) = .ok w ∧
      ws[i]? = if ∃ op ∈ ops, sameGrp infos op.1 i = true then some w else vs[i]?
  | [], vs, ws, hf, _, h, i, s, hs => by
    simp only [runOps] at h
    injection h with h
    subst h
    obtain ⟨x, hx⟩ := get_of_lt (l := vs) (i := i) (by rw [hf.len_vs]; exact lt_of_get hs)
    refine ⟨if x.isAbsent then s.zero else x, _, by simp only [cur, hs, hx], rfl, by simp⟩
  | (j, g) :: ops, vs, ws, hf, hops, h, i, s, hs => by
    have hg := (hops (j, g) (by simp)).2
    dsimp only at hg
    simp only [runOps] at h
    cases hu : updField infos subs vs j g with
    | error e => rw [hu] at h; cases h
    | ok vs' =>
      rw [hu] at h
      dsimp only at h
      have hf' := updField_fields hf j g hg hu
      obtain ⟨sj, vj, w1, h1, h2, h3, h4⟩ := (updField_iff hf j g).1 hu
      obtain ⟨v, w, k1, k2, k3⟩ := runOps_get ops vs' ws hf' (fun op ho => hops op (by simp [ho])) h i s hs
      obtain ⟨x, hx⟩ := get_of_lt (l := vs) (i := i) (by rw [hf.len_vs]; exact lt_of_get hs)
      have hself : sameGrp infos i i = true := sameGrp_refl (by rw [hf.len]; exact lt_of_get hs)
      by_cases hij : i = j
      · subst hij
        rw [h1] at hs; injection hs with hs; subst hs
        have ht : Typed sj w1 := hg _ _ _ (oks_get _ hf.ok i sj h1) (cur_typed hf h1 h2) h3
        have hc : cur subs vs' i = some w1 := by
          have := h4 i
          rw [if_pos rfl] at this
          simp only [cur, h1, this, typed_present _ _ ht, Bool.false_eq_true, if_false]
        rw [hc] at k1; injection k1 with k1; subst k1
        refine ⟨vj, w, h2, ?_, ?_⟩
        · rw [opsAt_cons, if_pos rfl]
          simp only [runAt, h3]
          exact k2
        · rw [if_pos ⟨(i, g), by simp, hself⟩, k3]
          split
          · rfl
          · rename_i hno
            have hnil : opsAt i ops = [] := opsAt_none fun op ho he => hno ⟨op, ho, by rw [he]; exact hself⟩
            rw [hnil] at k2
            simp only [runAt] at k2
            injection k2 with k2
            rw [h4 i, if_pos rfl, k2]
      · have h5 := h4 i
        rw [if_neg hij] at h5
        have hops' : opsAt i ((j, g) :: ops) = opsAt i ops := by rw [opsAt_cons, if_neg (fun h => hij h.symm)]
        rw [hops']
        by_cases hsg : sameGrp infos j i = true
        · rw [if_pos hsg] at h5
          obtain ⟨v0, hv0⟩ : ∃ v0, cur subs vs i = some v0 := ⟨_, by simp only [cur, hs, hx]; rfl⟩
          have hc : cur subs vs' i = some v0 := by
            rw [hv0] at h5
            simp only [cur, hs, h5, typed_present _ _ (cur_typed hf hs hv0), Bool.false_eq_true, if_false]
          rw [hc] at k1; injection k1 with k1; subst k1
          refine ⟨v0, w, hv0, k2, ?_⟩
          rw [if_pos ⟨(j, g), by simp, hsg⟩, k3]
          split
          · rfl
          · rename_i hno
            have hnil : opsAt i ops = [] := opsAt_none fun op ho he => hno ⟨op, ho, by rw [he]; exact hself⟩
            rw [hnil] at k2
            simp only [runAt] at k2
            injection k2 with k2
            rw [h5, hv0, k2]
        · rw [if_neg hsg] at h5
          have hc : cur subs vs' i = cur subs vs i := by simp only [cur, h5]
          rw [hc] at k1
          refine ⟨v, w, k1, k2, ?_⟩
          rw [k3, h5]
          have : (∃ op ∈ (j, g) :: ops, sameGrp infos op.1 i = true) ↔ ∃ op ∈ ops, sameGrp infos op.1 i = true := by
            constructor
            · rintro ⟨op, ho, h⟩
              rcases List.mem_cons.1 ho with rfl | ho
              · exact absurd h hsg
              · exact ⟨op, ho, h⟩
            · rintro ⟨op, ho, h⟩
              exact ⟨op, by simp [ho], h⟩
          by_cases hex : ∃ op ∈ ops, sameGrp infos op.1 i = true
          · rw [if_pos hex, if_pos (this.2 hex)]
          · rw [if_neg hex, if_neg fun h => hex (this.1 h)]

theorem runOps_fields {infos : List FInfo} {subs : List Sch} : ∀ (ops : List (Nat × Upd)) (vs ws : List Val),
    Fields infos subs vs → (∀ op ∈ ops, op.1 < subs.length ∧ UpdOk op.2) → runOps infos subs vs ops = .ok ws →
    Fields infos subs ws
  | [], vs, ws, hf, _, h => by
    simp only [runOps] at h
    injection h with h
    subst h
    exact hf
  | (j, g) :: ops, vs, ws, hf, hops, h => by
    simp only [runOps] at h
    cases hu : updField infos subs vs j g with
    | error e => rw [hu] at h; cases h
    | ok vs' =>
      rw [hu] at h
      exact runOps_fields ops vs' ws (updField_fields hf j g (hops (j, g) (by simp)).2 hu)
        (fun op ho => hops op (by simp [ho])) h

/-- Updates of a new value, field by field. -/
theorem runOps_iff {infos : List FInfo} {subs : List Sch} (ops : List (Nat × Upd)) (ws : List Val)
    (hf : Fields infos subs (zeros infos subs)) (hops : ∀ op ∈ ops, op.1 < subs.length ∧ UpdOk op.2) :
    runOps infos subs (zeros infos subs) ops = .ok ws ↔ ws.length = infos.length ∧
      ∀ i f s, infos[i]? = some f → subs[i]? = some s → ∃ w, runAt s s.zero (opsAt i ops) = .ok w ∧
        ws[i]? = some (if f.grp = none ∨ ∃ op ∈ ops, sameGrp infos op.1 i = true then w else .absent) := by
  have hz : ∀ (i : Nat) (f : FInfo) (s : Sch), infos[i]? = some f → subs[i]? = some s →
      (zeros infos subs)[i]? = some (if f.grp = none then s.zero else .absent) := by
    intro i f s h1 h2
    obtain ⟨v, hv⟩ := get_of_lt (l := zeros infos subs) (i := i) (by rw [hf.len_vs]; exact lt_of_get h2)
    obtain ⟨f', s', k1, k2, k3⟩ := zeros_get infos subs i v hv
    rw [h1] at k1; injection k1 with k1; subst k1
    rw [h2] at k2; injection k2 with k2; subst k2
    rw [hv, k3]
  have fwd : ∀ ws, runOps infos subs (zeros infos subs) ops = .ok ws → ws.length = infos.length ∧
      ∀ i f s, infos[i]? = some f → subs[i]? = some s → ∃ w, runAt s s.zero (opsAt i ops) = .ok w ∧
        ws[i]? = some (if f.grp = none ∨ ∃ op ∈ ops, sameGrp infos op.1 i = true then w else .absent) := by
    intro ws h
    have hg := runOps_get ops _ ws hf hops h
    refine ⟨?_, ?_⟩
    · have hfw : Fields infos subs ws := by
        exact runOps_fields ops _ ws hf hops h
      rw [hfw.len_vs, hf.len]
    intro i f s h1 h2
    obtain ⟨v, w, k1, k2, k3⟩ := hg i s h2
    rw [cur_zeros hf h2] at k1; injection k1 with k1; subst k1
    refine ⟨w, k2, ?_⟩
    rw [k3]
    by_cases hex : ∃ op ∈ ops, sameGrp infos op.1 i = true
    · rw [if_pos hex, if_pos (Or.inr hex)]
    · rw [if_neg hex, hz i f s h1 h2]
      by_cases hn : f.grp = none
      · have hnil : opsAt i ops = [] := opsAt_none fun op ho he => hex ⟨op, ho, by
          rw [he]; exact sameGrp_refl (lt_of_get h1)⟩
        rw [hnil] at k2
        simp only [runAt] at k2
        injection k2 with k2
        rw [if_pos hn, if_pos (Or.inl hn), k2]
      · rw [if_neg hn, if_neg (not_or.2 ⟨hn, hex⟩)]
  refine ⟨fwd ws, fun ⟨hl, h⟩ => ?_⟩
  have hw : ∃ w : Nat → Val, ∀ i f s, infos[i]? = some f → subs[i]? = some s →
      runAt s s.zero (opsAt i ops) = .ok (w i) := by
    refine ⟨fun i => match subs[i]? with
      | some s => match runAt s s.zero (opsAt i ops) with
        | .ok w => w
        | .error _ => .absent
      | none => .absent, fun i f s h1 h2 => ?_⟩
    obtain ⟨w, k, -⟩ := h i f s h1 h2
    simp only [h2, k]
  obtain ⟨w, hw⟩ := hw
  have hinfo : ∀ i s, subs[i]? = some s → ∃ f, infos[i]? = some f := fun i s hs =>
    get_of_lt (by rw [hf.len]; exact lt_of_get hs)
  obtain ⟨ws', k1, k2, -⟩ := runOps_proj w ops _ hf hops fun i s hs => by
    obtain ⟨f, hfi⟩ := hinfo i s hs
    exact ⟨s.zero, cur_zeros hf hs, hw i f s hfi hs⟩
  rw [k1]
  congr 1
  obtain ⟨l1, l2⟩ := fwd ws' k1
  refine List.ext_getElem? fun i => ?_
  by_cases hi : i < infos.length
  · obtain ⟨f, hfi⟩ := get_of_lt hi
    obtain ⟨s, hs⟩ := get_of_lt (l := subs) (i := i) (by rw [← hf.len]; exact hi)
    obtain ⟨w1, a1, a2⟩ := l2 i f s hfi hs
    obtain ⟨w2, b1, b2⟩ := h i f s hfi hs
    rw [a1] at b1; injection b1 with b1; subst b1
    rw [a2, b2]
  · rw [List.getElem?_eq_none (by omega), List.getElem?_eq_none (by omega)]

end Verif.Bind

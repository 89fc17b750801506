import Verif.SaysProps

/-!
C94: `Unmarshal` into a value that is already in use, for instance a manifest that was read before and is read again when it has
been updated.  The old content is not removed: what the document does not mention stays, and lists become longer.

The value is a tree, so it is assumed that no pointer in it occurs twice.
-/
namespace Verif.Bind

open Verif.Xml

/-- `Unmarshal` (`/repo/xml/read.go` 137-161) of an input into a pointer to a struct with the value `v`.  For a new value this is
`unmarshalDoc`. -/
def unmarshalInto (io : FloatIO) (s : Sch) (v : Val) (doc : Bytes) : Except RErr Val :=
  let r := stream (2 * doc.length + 2) (Dec.new doc)
  let fin : RErr := match r.2 with
    | some e => .syntaxErr e
    | none => .hang
  match findStart r.1 with
  | none => .error fin
  | some (n, as, rest, ts) =>
    match unmarshalIn io fin (ts.length + 2 * maxDepth + 2) 0 s v n as rest ts with
    | .ok (v, _) => .ok v
    | .error e => .error e

theorem unmarshalInto_new (io : FloatIO) (s : Sch) (doc : Bytes) : unmarshalInto io s s.zero doc = unmarshalDoc io s doc := rfl

/-! ### What a document changes -/

/-- The value of a field, or a new one if it lies behind an embedded pointer that is nil. -/
def held (s : Sch) (v : Val) : Val := if v.isAbsent then s.zero else v

/-- What attributes make of a value: each must be readable; the last counts, a list gets all; without one, the value stays. -/
def AttrOnto (io : FloatIO) : Sch → Val → List Attr → Val → Prop
  | .simple k, v, as, w => ∃ ws, List.Forall₂ (fun a w => readSimpleAttr io k a.value = .ok w) as ws ∧ w = ws.getLastD v
  | .ptr (.simple k), .ptr o, as, w => ∃ ws, List.Forall₂ (fun a w => readSimpleAttr io k a.value = .ok w) as ws ∧
      w = .ptr (ws.getLast?.or o)
  | .ptr (.slice (.simple k)), .ptr none, as, w => ∃ ws,
      List.Forall₂ (fun a w => readSimpleAttr io k a.value = .ok w) as ws ∧ w = .ptr (if as = [] then none else some (.slice ws))
  | .ptr (.slice (.simple k)), .ptr (some (.slice l)), as, w => ∃ ws,
      List.Forall₂ (fun a w => readSimpleAttr io k a.value = .ok w) as ws ∧ w = .ptr (some (.slice (l ++ ws)))
  | _, _, _, _ => False

/-- What an element makes of a value of a type. -/
inductive Onto (io : FloatIO) : Sch → Val → XTree → Val → Prop
  | simple {k : Kind} {v n as b a kids en eb ea w} : copySimple io k (dataOf kids) = .ok w →
      Onto io (.simple k) v (.elem n as b a kids en eb ea) w
  | new {s : Sch} {t : XTree} {w : Val} : Onto io s s.zero t w → Onto io (.ptr s) (.ptr none) t (.ptr (some w))
  | ptr {s : Sch} {v : Val} {t : XTree} {w : Val} : Onto io s v t w → Onto io (.ptr s) (.ptr (some v)) t (.ptr (some w))
  | struct {tn : Bytes} {xn : Option FInfo} {infos : List FInfo} {subs : List Sch} {n as b a kids en eb ea} {xv : Name}
      {vs ws : List Val}
      (name : ∀ x, xn = some x → (x.loc = [] ∨ x.loc = n.loc) ∧ (x.xmlns = [] ∨ x.xmlns = n.space))
      (len : ws.length = infos.length)
      (kept : ∀ (i : Nat) (f : FInfo), infos[i]? = some f → ¬ Touched infos as kids f.grp → ws[i]? = vs[i]?)
      (attr : ∀ (i : Nat) (f : FInfo) (s : Sch) (v w : Val), infos[i]? = some f → subs[i]? = some s → vs[i]? = some v →
        ws[i]? = some w → Touched infos as kids f.grp → f.mode = .attr → AttrOnto io s (held s v) (attrsFor f as) w)
      (any : ∀ (i : Nat) (f : FInfo) (s : Sch) (v : Val) (l : List Val), infos[i]? = some f → subs[i]? = some s →
        vs[i]? = some v → Touched infos as kids f.grp → f.mode = .anyAttr → held s v = .slice l →
        ws[i]? = some (.slice (l ++ (otherAttrs infos as).map .attr)))
      (text : ∀ (i : Nat) (f : FInfo), infos[i]? = some f → f.mode = .chardata → ws[i]? = some (.str (dataOf kids)))
      (inner : ∀ (i : Nat) (f : FInfo), infos[i]? = some f → f.mode = .innerxml →
        ws[i]? = some (.str (a.take (a.length - eb.length))))
      (none : ∀ (i : Nat) (f : FInfo) (s : Sch) (v : Val), infos[i]? = some f → subs[i]? = some s → vs[i]? = some v →
        Touched infos as kids f.grp → f.mode = .elem → kidsFor f kids = [] → ws[i]? = some (held s v))
      (one : ∀ (i : Nat) (f : FInfo) (s : Sch) (v w : Val) (t : XTree), infos[i]? = some f → subs[i]? = some s →
        vs[i]? = some v → ws[i]? = some w → f.mode = .elem → (∀ s', s ≠ .slice s') → t ∈ kidsFor f kids →
        Onto io s (held s v) t w)
      (list : ∀ (i : Nat) (f : FInfo) (s : Sch) (v : Val) (l : List Val), infos[i]? = some f →
        subs[i]? = some (.slice s) → vs[i]? = some v → f.mode = .elem → kidsFor f kids ≠ [] →
        held (.slice s) v = .slice l → ∃ m, ws[i]? = some (.slice (l ++ m)) ∧ List.Forall₂ (Says io s) (kidsFor f kids) m) :
      Onto io (.struct tn xn infos subs) (.struct xv vs) (.elem n as b a kids en eb ea)
        (.struct (if xn.isSome then n else xv) ws)

/-! ### Whether a document is accepted does not depend on the old value -/

theorem readAttr_accepts (io : FloatIO) (a : Attr) : ∀ (s : Sch) (v v' : Val), s.ok = true → Typed s v → Typed s v' →
    (∃ w, readAttr io s v a = .ok w) → ∃ w, readAttr io s v' a = .ok w
  | .simple k, v, v', _, _, _, h => by simpa only [readAttr] using h
  | .ptr s, v, v', hs, hv, hv', ⟨w, h⟩ => by
    have hs' : s.ok = true := by simpa only [Sch.ok] using hs
    have e : ∀ v, Typed (.ptr s) v → (∀ s', s ≠ .ptr s') → readAttr io (.ptr s) v a = wrapPtr (readAttr io s (v.deref s) a) := by
      intro v hv hn
      cases v with
      | ptr o => cases o <;> cases s <;> first | exact absurd rfl (hn _) | (simp only [readAttr, Val.deref]; rfl)
      | _ => simp [Typed] at hv
    by_cases hn : ∀ s', s ≠ .ptr s'
    · rw [e v hv hn] at h
      obtain ⟨x, hx, _⟩ := wrapPtr_ok h
      obtain ⟨y, hy⟩ := readAttr_accepts io a s _ (v'.deref s) hs' (deref_typed s v hs' hv) (deref_typed s v' hs' hv') ⟨x, hx⟩
      rw [e v' hv' hn, hy]
      exact ⟨_, rfl⟩
    · obtain ⟨s', rfl⟩ : ∃ s', s = .ptr s' := by
        by_contra hc
        exact hn fun s' hs' => hc ⟨s', hs'⟩
      simp [readAttr] at h
  | .slice s, v, v', hs, hv, hv', ⟨w, h⟩ => by
    obtain ⟨l, rfl, -⟩ := slice_typed hv
    obtain ⟨l', rfl, -⟩ := slice_typed hv'
    rw [readAttr_slice] at h ⊢
    obtain ⟨x, hx, _⟩ := wrapSlice_ok h
    rw [hx]
    exact ⟨_, rfl⟩
  | .name, v, v', _, _, _, ⟨w, h⟩ => by simp [readAttr] at h
  | .attr, v, v', _, _, _, _ => ⟨_, by simp only [readAttr]; rfl⟩
  | .struct .., v, v', _, _, _, ⟨w, h⟩ => by simp [readAttr] at h
  | .bad _, v, v', _, _, _, ⟨w, h⟩ => by simp [readAttr] at h

/-- An update of a type that works on all values or on none. -/
def AllOrNone (s : Sch) (g : Upd) : Prop := ∀ v v', Typed s v → Typed s v' → (∃ w, g s v = .ok w) → ∃ w, g s v' = .ok w

theorem runAt_accepts {s : Sch} (hs : s.ok = true) : ∀ (gs : List Upd), (∀ g ∈ gs, UpdOk g ∧ AllOrNone s g) → ∀ v v', Typed s v →
    Typed s v' → (∃ w, runAt s v gs = .ok w) → ∃ w, runAt s v' gs = .ok w
  | [], _, v, v', _, _, _ => ⟨v', rfl⟩
  | g :: gs, hg, v, v', hv, hv', ⟨w, h⟩ => by
    simp only [runAt] at h ⊢
    cases h1 : g s v with
    | error e => rw [h1] at h; cases h
    | ok x =>
      rw [h1] at h
      obtain ⟨y, hy⟩ := (hg g (by simp)).2 v v' hv hv' ⟨x, h1⟩
      rw [hy]
      exact runAt_accepts hs gs (fun g h => hg g (by simp [h])) x y ((hg g (by simp)).1 s v x hs hv h1)
        ((hg g (by simp)).1 s v' y hs hv' hy) ⟨w, h⟩

theorem runOps_accepts {infos : List FInfo} {subs : List Sch} {vs vs' : List Val} (ops : List (Nat × Upd))
    (hf : Fields infos subs vs) (hf' : Fields infos subs vs') (hops : ∀ op ∈ ops, op.1 < subs.length ∧ UpdOk op.2)
    (hst : ∀ op ∈ ops, ∀ s ∈ subs, AllOrNone s op.2) (h : ∃ ws, runOps infos subs vs ops = .ok ws) :
    ∃ ws, runOps infos subs vs' ops = .ok ws := by
  obtain ⟨ws, h⟩ := h
  have hg := runOps_get ops vs ws hf hops h
  have key : ∀ i s, subs[i]? = some s → ∃ v w, cur subs vs' i = some v ∧ runAt s v (opsAt i ops) = .ok w := by
    intro i s hs
    obtain ⟨v, w, k1, k2, -⟩ := hg i s hs
    obtain ⟨x, hx⟩ := get_of_lt (l := vs') (i := i) (by rw [hf'.len_vs]; exact lt_of_get hs)
    have hc : cur subs vs' i = some (if x.isAbsent then s.zero else x) := by simp only [cur, hs, hx]
    obtain ⟨w', hw'⟩ := runAt_accepts (oks_get _ hf.ok i s hs) (opsAt i ops) (fun g hg => by
      obtain ⟨op, ho, he⟩ := List.mem_filterMap.1 hg
      split at he
      · injection he with he; subst he
        exact ⟨(hops op ho).2, hst op ho s (List.mem_of_getElem? hs)⟩
      · cases he) v _ (cur_typed hf hs k1) (cur_typed hf' hs hc) ⟨w, k2⟩
    exact ⟨_, w', hc, hw'⟩
  obtain ⟨ws', h1, -, -⟩ := runOps_proj (fun i => match subs[i]? with
      | some s => match cur subs vs' i with
        | some v => match runAt s v (opsAt i ops) with
          | .ok w => w
          | .error _ => .absent
        | none => .absent
      | none => .absent) ops vs' hf' hops fun i s hs => by
    obtain ⟨v, w, k1, k2⟩ := key i s hs
    exact ⟨v, k1, by simp only [hs, k1, k2]⟩
  exact ⟨ws', h1⟩

/-- The updates of a struct work alike if reading elements into its fields is. -/
theorem structOps_alike (io : FloatIO) (d : Nat) (infos : List FInfo) (as : List Attr) (ts : List XTree) (inner : Bytes)
    (s : Sch) (hs : s.ok = true) (hk : ∀ t, AllOrNone s (fun s v => readT io true (d + 1) s v t)) :
    ∀ op ∈ structOps io d infos as ts inner, AllOrNone s op.2 := by
  intro op ho
  unfold structOps at ho
  rcases List.mem_append.1 ho with ho | ho
  · obtain ⟨a, -, he⟩ := List.mem_filterMap.1 ho
    obtain ⟨i, -, rfl⟩ := Option.map_eq_some_iff.1 he
    exact fun v v' hv hv' h => readAttr_accepts io a s v v' hs hv hv' h
  rcases List.mem_append.1 ho with ho | ho
  · obtain ⟨t, -, he⟩ := List.mem_filterMap.1 ho
    obtain ⟨i, -, rfl⟩ := Option.map_eq_some_iff.1 he
    exact hk t
  rcases List.mem_append.1 ho with ho | ho
  · unfold finOps at ho
    split at ho
    · cases ho
    · rw [List.mem_singleton] at ho; subst ho
      exact fun v v' _ _ h => h
  · unfold innerOps at ho
    split at ho
    · cases ho
    · rw [List.mem_singleton] at ho; subst ho
      intro v v' _ _ _
      simp only [setInner]
      split <;> exact ⟨_, rfl⟩

mutual
theorem readT_accepts (io : FloatIO) : ∀ (s : Sch), s.ok = true → ∀ (t : XTree) (top : Bool) (d : Nat),
    AllOrNone s (fun s v => readT io top d s v t)
  | _, _, .leaf _ _ _, top, d => by
    rintro v v' _ _ ⟨w, h⟩
    simp [readT] at h
  | .simple k, _, .elem n as b a kids en eb ea, top, d => by
    rintro v v' _ _ ⟨w, h⟩
    refine ⟨w, ?_⟩
    simp only [readT] at h ⊢
    cases top <;> simpa only [place, readBody] using h
  | .ptr s, hs, .elem n as b a kids en eb ea, top, d => by
    have hs' : s.ok = true := by simpa only [Sch.ok] using hs
    rintro v v' hv hv' ⟨w, h⟩
    cases top with
    | false => simp [readT, place, readBody] at h
    | true =>
      simp only [readT, place] at h ⊢
      by_cases hd : maxDepth ≤ d
      · rw [if_pos hd] at h; cases h
      · rw [if_neg hd] at h ⊢
        obtain ⟨x, hx, _⟩ := wrapPtr_ok h
        obtain ⟨y, hy⟩ := readT_accepts io s hs' (.elem n as b a kids en eb ea) false d (v.deref s) (v'.deref s)
          (deref_typed s v hs' hv) (deref_typed s v' hs' hv') ⟨x, by simpa only [readT] using hx⟩
        simp only [readT] at hy
        rw [hy]
        exact ⟨_, rfl⟩
  | .slice s, hs, .elem n as b a kids en eb ea, top, d => by
    rintro v v' hv hv' ⟨w, h⟩
    obtain ⟨l, rfl, -⟩ := slice_typed hv
    obtain ⟨l', rfl, -⟩ := slice_typed hv'
    cases top with
    | false =>
      simp only [readT, place] at h ⊢
      obtain ⟨x, hx, _⟩ := wrapSlice_ok h
      rw [hx]
      exact ⟨_, rfl⟩
    | true =>
      simp only [readT, place] at h ⊢
      by_cases hd : maxDepth ≤ d
      · rw [if_pos hd] at h; cases h
      · rw [if_neg hd] at h ⊢
        obtain ⟨x, hx, _⟩ := wrapSlice_ok h
        rw [hx]
        exact ⟨_, rfl⟩
  | .name, _, .elem n as b a kids en eb ea, top, d => by
    rintro v v' _ _ ⟨w, h⟩
    cases top <;> simp only [readT, place, readBody] at h <;> first | cases h | (split at h <;> cases h)
  | .attr, _, .elem n as b a kids en eb ea, top, d => by
    rintro v v' _ _ ⟨w, h⟩
    cases top <;> simp only [readT, place, readBody] at h <;> first | cases h | (split at h <;> cases h)
  | .bad _, _, .elem n as b a kids en eb ea, top, d => by
    rintro v v' _ _ ⟨w, h⟩
    cases top <;> simp only [readT, place, readBody] at h <;> first | cases h | (split at h <;> cases h)
  | .struct tn xn F S, hs, .elem n as b a kids en eb ea, top, d => by
    rintro v v' hv hv' ⟨w, h⟩
    obtain ⟨xv, vs, rfl, hf⟩ := struct_fields hs hv
    obtain ⟨xv', vs', rfl, hf'⟩ := struct_fields hs hv'
    have hd : top = false ∨ d < maxDepth := by
      cases top with
      | false => exact Or.inl rfl
      | true =>
        refine Or.inr (Nat.lt_of_not_le fun hd => ?_)
        simp only [readT, place, if_pos hd] at h
        cases h
    have e : ∀ v, readT io top d (.struct tn xn F S) v (.elem n as b a kids en eb ea) =
        readBody io n as (dataOf kids) (a.take (a.length - eb.length)) (fun d infos subs vs => readKids io d infos subs vs kids)
          d (.struct tn xn F S) v := by
      intro v
      rcases hd with rfl | hd
      · simp only [readT, place]
      · simp only [readT]
        rw [place_plain _ top d _ _ rfl hd]
    dsimp only at h ⊢
    rw [e, readBody_iff] at h
    obtain ⟨hc, ws, h, -⟩ := h
    have hok := hf.ok
    have hst := readTs_accepts io S hok
    obtain ⟨ws', h'⟩ := runOps_accepts _ hf hf' (structOps_ok io d F S as kids _ hf.len)
      (fun op ho s hsm => structOps_alike io d F as kids _ s (by obtain ⟨i, hi⟩ := List.mem_iff_getElem?.1 hsm; exact oks_get _ hok i s hi) (fun t => hst s hsm t true (d + 1)) op ho) ⟨ws, h⟩
    refine ⟨.struct (if xn.isSome then n else xv') ws', ?_⟩
    rw [e, readBody_iff]
    exact ⟨hc, ws', h', rfl⟩
theorem readTs_accepts (io : FloatIO) : ∀ (ss : List Sch), oks ss = true → ∀ s ∈ ss, ∀ (t : XTree) (top : Bool) (d : Nat),
    AllOrNone s (fun s v => readT io top d s v t)
  | [], _, s, hs => by cases hs
  | u :: ss, h, s, hs => by
    simp only [oks, Bool.and_eq_true] at h
    have h1 := readT_accepts io u h.1
    have h2 := readTs_accepts io ss h.2
    rcases List.mem_cons.1 hs with e | hs
    · rw [e]; exact h1
    · exact h2 s hs
end

/-- Reading a document into a value is reading its root element. -/
theorem unmarshalInto_tree (io : FloatIO) (s : Sch) (v : Val) (doc : Bytes) (t : XTree) (h : IsDoc doc t) :
    unmarshalInto io s v doc = readT io false 0 s v t := by
  obtain ⟨hok, ⟨n, as, b, a, kids, en, eb, ea, rfl⟩, pre, post, hpre, hd⟩ := h
  unfold unmarshalInto docTokens at *
  dsimp only
  rw [hd, findStart_append _ _ hpre]
  simp only [XTree.flat, List.cons_append, List.append_assoc, List.nil_append, findStart]
  rw [(place_spec io _ n as a kids en eb ea post (content_spec io _ en eb ea post kids hok) s).2 0 _ v b
    (by simp; omega) (by decide)]
  cases readT io false 0 s v (.elem n as b a kids en eb ea) <;> rfl

/-- A document that is read into a value has a root element. -/
theorem unmarshalInto_ok (io : FloatIO) (s : Sch) (v : Val) (doc : Bytes) (w : Val) (h : unmarshalInto io s v doc = .ok w) :
    ∃ t, IsDoc doc t := by
  unfold unmarshalInto at h
  dsimp only at h
  split at h
  · cases h
  · rename_i n as a ts hf
    split at h
    · rename_i v' ts' hu
      obtain ⟨pre, b, hpre, hl⟩ := findStart_some _ _ _ _ _ hf
      obtain ⟨kids, en, eb, ea, hok, rfl⟩ :=
        skip_trees _ ts ts' (Nat.lt_succ_self _) ((ok_skip io _ _).2.1 _ _ _ _ _ _ _ _ _ hu)
      exact ⟨.elem n as b a kids en eb ea, hok, ⟨n, as, b, a, kids, en, eb, ea, rfl⟩, pre, ts', hpre, by
        unfold docTokens; rw [hl]; simp [XTree.flat]⟩
    · cases h

/-- C94: a document is read into a value of a type without error exactly if it is read into a new one without error. -/
theorem C94_accepts (io : FloatIO) (s : Sch) (hs : s.ok = true) (v : Val) (hv : Typed s v) (doc : Bytes) :
    (∃ w, unmarshalInto io s v doc = .ok w) ↔ ∃ w, unmarshalDoc io s doc = .ok w := by
  have hz := zero_typed s hs
  constructor
  · rintro ⟨w, h⟩
    obtain ⟨t, ht⟩ := unmarshalInto_ok io s v doc w h
    rw [unmarshalInto_tree io s v doc t ht] at h
    rw [unmarshalDoc_tree io s doc t ht]
    exact readT_accepts io s hs t false 0 v s.zero hv hz ⟨w, h⟩
  · rintro ⟨w, h⟩
    obtain ⟨t, ht⟩ := unmarshalDoc_ok io s doc w h
    rw [unmarshalDoc_tree io s doc t ht] at h
    rw [unmarshalInto_tree io s v doc t ht]
    exact readT_accepts io s hs t false 0 s.zero v hz hv ⟨w, h⟩

/-! ### What it makes of the old value -/

/-- Reading an element into a value of a type makes of it what `Onto` says. -/
def Laid (io : FloatIO) (s : Sch) : Prop :=
  ∀ t, isLeafT t = false → once s t = true → ∀ top d, (top = true ∨ s.isPtr = false) → d + hgt s < maxDepth →
    ∀ v w, Typed s v → readT io top d s v t = .ok w → Onto io s v t w

theorem laid_simple (io : FloatIO) (k : Kind) : Laid io (.simple k) := by
  intro t ht _ top d _ hd v w _ h
  cases t with
  | leaf _ _ _ => cases ht
  | elem n as b a kids en eb ea =>
    have hd : ¬ maxDepth ≤ d := by simp only [hgt] at hd; omega
    refine .simple ?_
    simp only [readT] at h
    cases top <;> simpa only [place, if_neg hd, readBody] using h

theorem laid_ptr (io : FloatIO) (s : Sch) (hok : s.ok = true) (hs : oneShape s = true) (h : Laid io s) : Laid io (.ptr s) := by
  intro t ht ho top d htop hd v w hv hw
  cases t with
  | leaf _ _ _ => cases ht
  | elem n as b a kids en eb ea =>
    have htop : top = true := by
      rcases htop with h | h
      · exact h
      · cases h
    subst htop
    simp only [hgt] at hd
    have hd' : ¬ maxDepth ≤ d := by omega
    have ho : once s (.elem n as b a kids en eb ea) = true := by simpa only [once] using ho
    simp only [readT, place, if_neg hd'] at hw
    obtain ⟨x, hx, rfl⟩ := wrapPtr_ok hw
    have hp : s.isPtr = false := by
      cases s <;> first | rfl | simp [oneShape] at hs
    have ih := h _ rfl ho false d (Or.inr hp) hd (v.deref s) x (deref_typed s v hok hv) (by simpa only [readT] using hx)
    cases v with
    | ptr o =>
      cases o with
      | none => exact .new ih
      | some v => exact .ptr ih
    | _ => simp [Typed] at hv

theorem run_attrs_onto (io : FloatIO) (s : Sch) (hs : attrShape s = true) (as : List Attr) (v w : Val) (hv : Typed s v)
    (h : runAt s v (as.map (rd io)) = .ok w) : AttrOnto io s v as w := by
  unfold attrShape at hs
  split at hs
  · exact (run_simple io _ as v w).1 h
  · cases v with
    | ptr o => exact (run_ptr io _ as o w).1 h
    | _ => simp [Typed] at hv
  · cases v with
    | ptr o =>
      cases o with
      | none =>
        have := (run_slice io _ as none w).1 h
        simpa [AttrOnto] using this
      | some v =>
        simp only [Typed] at hv
        obtain ⟨l, rfl, -⟩ := slice_typed (by simpa only [Typed] using hv)
        obtain ⟨ws, h1, h2⟩ := (run_slice io _ as (some l) w).1 h
        refine ⟨ws, h1, ?_⟩
        cases as with
        | nil => cases h1; simpa using h2
        | cons _ _ => simpa using h2
    | _ => simp [Typed] at hv
  · cases hs

theorem laid_struct (io : FloatIO) (tn : Bytes) (xn : Option FInfo) (F : List FInfo) (S : List Sch) (hs : StructRt xn F S)
    (hok : oks S = true) (hsub : ∀ s ∈ S, (∀ s', s ≠ .slice s') → elemShape s = true → Laid io s)
    (hsubl : ∀ s, .slice s ∈ S → elemShape (.slice s) = true → Corr io s) (hh : ∀ s ∈ S, hgt s ≤ hgts S) :
    Laid io (.struct tn xn F S) := by
  intro t ht ho top d _ hd v w hv h
  cases t with
  | leaf _ _ _ => cases ht
  | elem n as b a kids en eb ea =>
  simp only [hgt] at hd
  have hsok : (Sch.struct tn xn F S).ok = true := by simp [Sch.ok, hs.len, hok]
  obtain ⟨xv, vs, rfl, hf⟩ := struct_fields hsok hv
  simp only [once] at ho
  simp only [readT] at h
  rw [place_plain _ top d _ _ rfl (by omega), readBody_iff, checkName_iff] at h
  obtain ⟨hname, ws, hw, rfl⟩ := h
  have hget := runOps_get _ vs ws hf (structOps_ok io d F S as kids _ hs.len) hw
  have hfw := runOps_fields _ vs ws hf (structOps_ok io d F S as kids _ hs.len) hw
  have hT : ∀ (i : Nat) (f : FInfo), F[i]? = some f →
      ((∃ op ∈ structOps io d F as kids (a.take (a.length - eb.length)), sameGrp F op.1 i = true) ↔ Touched F as kids f.grp) :=
    fun i f hi => touched_iff io d hs hi as kids _
  have hlen : ∀ (i : Nat) (f : FInfo), F[i]? = some f → ∃ s, S[i]? = some s := fun i f hi =>
    get_of_lt (by rw [← hs.len]; exact lt_of_get hi)
  have hhgt : ∀ (i : Nat) (s : Sch), S[i]? = some s → hgt s ≤ hgts S := fun i s h => hh s (List.mem_of_getElem? h)
  -- the value of a field
  have hat : ∀ (i : Nat) (f : FInfo) (s : Sch) (v : Val), F[i]? = some f → S[i]? = some s → vs[i]? = some v →
      Touched F as kids f.grp → Typed s (held s v) ∧ ∃ w, ws[i]? = some w ∧
        runAt s (held s v) (opsAt i (structOps io d F as kids (a.take (a.length - eb.length)))) = .ok w := by
    intro i f s v hi hsi hvi ht
    obtain ⟨x, w, h1, h2, h3⟩ := hget i s hsi
    rw [if_pos ((hT i f hi).2 ht)] at h3
    have : cur S vs i = some (held s v) := by simp only [cur, hsi, hvi, held]
    have hty := cur_typed hf hsi h1
    rw [this] at h1
    injection h1 with h1; subst h1
    exact ⟨hty, w, h3, h2⟩
  have hold : ∀ (i : Nat) (f : FInfo), F[i]? = some f → ∃ v, vs[i]? = some v := fun i f hi =>
    get_of_lt (by rw [hf.len_vs, ← hs.len]; exact lt_of_get hi)
  have htouch : ∀ (i : Nat) (f : FInfo), F[i]? = some f → f.mode = .elem → kidsFor f kids ≠ [] → Touched F as kids f.grp := by
    intro i f hi hm hne
    refine ⟨f, List.mem_of_getElem? hi, rfl, ?_⟩
    rw [hm]; exact hne
  have hO : ∀ (i : Nat) (f : FInfo), F[i]? = some f → _ := fun i f hi => opsAt_struct io d hs hi as kids (a.take (a.length - eb.length))
  refine Onto.struct hname (by rw [hfw.len_vs, hs.len]) ?_ ?_ ?_ ?_ ?_ ?_ ?_ ?_
  · intro i f hi hnt
    obtain ⟨s, hsi⟩ := hlen i f hi
    obtain ⟨x, w, h1, h2, h3⟩ := hget i s hsi
    rw [if_neg (by rw [hT i f hi]; exact hnt)] at h3
    exact h3
  · intro i f s v w hi hsi hvi hwi ht hm
    obtain ⟨hty, x, h1, h2⟩ := hat i f s v hi hsi hvi ht
    rw [hwi] at h1; injection h1 with h1; subst h1
    rw [hO i f hi, hm] at h2
    exact run_attrs_onto io s (fieldRt_attr (hs.rt i f s hi hsi) hm).1 _ _ w hty h2
  · intro i f s v l hi hsi hvi ht hm hl
    obtain ⟨hty, x, h1, h2⟩ := hat i f s v hi hsi hvi ht
    rw [hO i f hi, hm] at h2
    have hss := fieldRt_any (hs.rt i f s hi hsi) hm
    subst hss
    rw [hl] at h2
    dsimp only at h2
    rw [run_any] at h2
    injection h2 with h2
    rw [h1, h2]
  · intro i f hi hm
    obtain ⟨s, hsi⟩ := hlen i f hi
    obtain ⟨v, hvi⟩ := hold i f hi
    obtain ⟨hty, x, h1, h2⟩ := hat i f s v hi hsi hvi ⟨f, List.mem_of_getElem? hi, rfl, by rw [hm]; trivial⟩
    have hr := hs.rt i f s hi hsi
    unfold fieldRt at hr
    simp only [hm] at hr
    split at hr
    · rw [hO i f hi, hm] at h2
      simp only [runAt, copyValue, copySimple] at h2
      injection h2 with h2
      rw [h1, h2]
    · cases hr
  · intro i f hi hm
    obtain ⟨s, hsi⟩ := hlen i f hi
    obtain ⟨v, hvi⟩ := hold i f hi
    obtain ⟨hty, x, h1, h2⟩ := hat i f s v hi hsi hvi ⟨f, List.mem_of_getElem? hi, rfl, by rw [hm]; trivial⟩
    have hr := hs.rt i f s hi hsi
    unfold fieldRt at hr
    simp only [hm] at hr
    split at hr
    · rw [hO i f hi, hm] at h2
      simp only [runAt, setInner] at h2
      injection h2 with h2
      rw [h1, h2]
    · cases hr
  · intro i f s v hi hsi hvi ht hm hnil
    obtain ⟨hty, x, h1, h2⟩ := hat i f s v hi hsi hvi ht
    rw [hO i f hi, hm] at h2
    simp only [hnil, List.map_nil, runAt] at h2
    injection h2 with h2
    rw [h1, h2]
  · intro i f s v w t hi hsi hvi hwi hm hns ht
    obtain ⟨hty, x, h1, h2⟩ := hat i f s v hi hsi hvi (htouch i f hi hm (List.ne_nil_of_mem ht))
    rw [hwi] at h1; injection h1 with h1; subst h1
    rw [hO i f hi, hm] at h2
    dsimp only at h2
    have h1 := onces_one ho hi hsi hm hns
    have h3 := onces_kid ho hi hsi hm ht
    have e : kidsFor f kids = [t] := by
      generalize kidsFor f kids = l at ht h1
      match l, h1 with
      | [], _ => cases ht
      | [u], _ => rw [List.mem_singleton] at ht; rw [ht]
    rw [e] at h2
    simp only [List.map_cons, List.map_nil, runAt, rk] at h2
    have := hhgt i s hsi
    refine hsub s (List.mem_of_getElem? hsi) hns (fieldRt_elem (hs.rt i f s hi hsi) hm).1 t (kidsFor_elems ht) h3 true (d + 1)
      (Or.inl rfl) (by omega) _ w hty ?_
    split at h2
    · cases h2
    · rename_i hr; rw [hr]; exact h2
  · intro i f s v l hi hsi hvi hm hne hl
    obtain ⟨hty, x, h1, h2⟩ := hat i f _ v hi hsi hvi (htouch i f hi hm hne)
    rw [hO i f hi, hm, hl] at h2
    have hd' : d + 1 + 1 + hgt s < maxDepth := by
      have := hhgt i _ hsi
      simp only [hgt] at this
      omega
    obtain ⟨m, rfl, h3⟩ := (run_list io d s (hsubl s (List.mem_of_getElem? hsi) (fieldRt_elem (hs.rt i f _ hi hsi) hm).1) hd' _ _ _
      (fun t ht => kidsFor_elems ht) (fun t ht => by simpa only [once] using onces_kid ho hi hsi hm ht)).1 h2
    exact ⟨m, h1, h3⟩

/-- `Laid` for the type of a field that is no list. -/
def LaidF (io : FloatIO) : Sch → Prop
  | .slice _ => True
  | s => elemShape s = true → Laid io s

mutual
theorem laid_rt (io : FloatIO) (L : List Bytes) : ∀ s : Sch, s.rt L = true → s.ok = true → (oneShape s = true → Laid io s) ∧ LaidF io s
  | .simple k, _, _ => ⟨fun _ => laid_simple io k, fun _ => laid_simple io k⟩
  | .struct tn xn F S, h, hok => by
    simp only [Sch.rt, Bool.and_eq_true] at h
    simp only [Sch.ok, Bool.and_eq_true] at hok
    have h1 := laid_rts io L S h.2 hok.2
    have h2 := corr_rts io L S h.2 hok.2
    have hc : Laid io (.struct tn xn F S) := laid_struct io tn xn F S (StructRt.of h.1.1) hok.2
      (fun s hs hns he => by
        have := h1 s hs
        cases s <;> first | exact this he | exact absurd rfl (hns _))
      (fun s hs he => h2 _ hs he) (hgts_le S)
    exact ⟨fun _ => hc, fun _ => hc⟩
  | .ptr s, h, hok => by
    simp only [Sch.rt] at h
    simp only [Sch.ok] at hok
    have := laid_rt io L s h hok
    exact ⟨fun h => by simp [oneShape] at h, fun he => laid_ptr io s hok he (this.1 he)⟩
  | .slice s, _, _ => ⟨fun h => by simp [oneShape] at h, trivial⟩
  | .name, _, _ => ⟨fun h => by simp [oneShape] at h, fun h => by simp [elemShape, oneShape] at h⟩
  | .attr, _, _ => ⟨fun h => by simp [oneShape] at h, fun h => by simp [elemShape, oneShape] at h⟩
  | .bad _, _, _ => ⟨fun h => by simp [oneShape] at h, fun h => by simp [elemShape, oneShape] at h⟩
theorem laid_rts (io : FloatIO) (L : List Bytes) : ∀ ss : List Sch, rts L ss = true → oks ss = true →
    ∀ s ∈ ss, LaidF io s
  | [], _, _ => by simp
  | t :: ss, h, hok => by
    simp only [rts, Bool.and_eq_true] at h
    simp only [oks, Bool.and_eq_true] at hok
    have h1 := (laid_rt io L t h.1 hok.1).2
    have h2 := laid_rts io L ss h.2 hok.2
    intro s hs
    rcases List.mem_cons.1 hs with rfl | hs
    · exact h1
    · exact h2 s hs
end

/-! ### C94 -/

/-- C94 for a type: if no element for a single field is repeated, what a document makes of a value is what `Onto` says. -/
theorem C94_document (io : FloatIO) (L : List Bytes) (tn : Bytes) (xn : Option FInfo) (F : List FInfo) (S : List Sch)
    (hr : (Sch.struct tn xn F S).rt L = true) (hok : (Sch.struct tn xn F S).ok = true)
    (hh : hgt (.struct tn xn F S) < maxDepth) (doc : Bytes) (t : XTree) (ht : IsDoc doc t)
    (ho : once (.struct tn xn F S) t = true) (v : Val) (hv : Typed (.struct tn xn F S) v) (w : Val)
    (h : unmarshalInto io (.struct tn xn F S) v doc = .ok w) : Onto io (.struct tn xn F S) v t w := by
  rw [unmarshalInto_tree io _ v doc t ht] at h
  obtain ⟨_, ⟨n, as, b, a, kids, en, eb, ea, rfl⟩, _⟩ := ht
  exact (laid_rt io L _ hr hok).1 rfl _ rfl ho false 0 (Or.inr rfl) (by omega) v w hv h

/-- C94 for manifests. -/
theorem C94_manifest (io : FloatIO) (doc : Bytes) (t : XTree) (ht : IsDoc doc t) (ho : once tMPD.sch t = true) (v : Val)
    (hv : Typed tMPD.sch v) (w : Val) (h : unmarshalInto io tMPD.sch v doc = .ok w) : Onto io tMPD.sch v t w := by
  have h1 := mpd_rt
  have h2 := mpd_ok
  have h3 := mpd_hgt
  obtain ⟨tn, xn, F, S, e⟩ : ∃ tn xn F S, tMPD.sch = .struct tn xn F S := ⟨_, _, _, _, rfl⟩
  rw [e] at h1 h2 h3 ho h hv ⊢
  exact C94_document io mpdLocs tn xn F S h1 h2 h3 doc t ht ho v hv w h

/-- C94: a field for which there is nothing in the document stays as it is. -/
theorem C94_kept (io : FloatIO) {tn : Bytes} {xn : Option FInfo} {F : List FInfo} {S : List Sch} {n : Name} {as : List Attr}
    {b a eb ea : Bytes} {en xv m : Name} {kids : List XTree} {vs ws : List Val}
    (h : Onto io (.struct tn xn F S) (.struct xv vs) (.elem n as b a kids en eb ea) (.struct m ws)) {i : Nat} {f : FInfo}
    {s : Sch} {v : Val} (hi : F[i]? = some f) (hsi : S[i]? = some s) (hvi : vs[i]? = some v) (hv : v.isAbsent = false)
    (hn : (f.mode = .attr ∧ attrsFor f as = []) ∨ (f.mode = .elem ∧ kidsFor f kids = [])) : ws[i]? = some v := by
  cases h with
  | struct hname hl hkept hattr hany htext hinner hnone hone hlist =>
  have hh : held s v = v := by simp [held, hv]
  by_cases ht : Touched F as kids f.grp
  · rcases hn with ⟨hm, hn⟩ | ⟨hm, hn⟩
    · obtain ⟨w, hwi⟩ := get_of_lt (l := ws) (i := i) (by rw [hl]; exact lt_of_get hi)
      have := hattr i f s v w hi hsi hvi hwi ht hm
      rw [hh, hn] at this
      rw [hwi]
      congr 1
      unfold AttrOnto at this
      split at this
      · obtain ⟨ws, h1, rfl⟩ := this; cases h1; rfl
      · obtain ⟨ws, h1, rfl⟩ := this; cases h1; rfl
      · obtain ⟨ws, h1, rfl⟩ := this; simp
      · obtain ⟨ws, h1, rfl⟩ := this; cases h1; simp
      · cases this
    · rw [hnone i f s v hi hsi hvi ht hm hn, hh]
  · rw [hkept i f hi ht, hvi]

theorem run_list_after (io : FloatIO) (d : Nat) (s : Sch) : ∀ (ts : List XTree) (acc : List Val) (w : Val),
    runAt (.slice s) (.slice acc) (ts.map (rk io d)) = .ok w →
      ∃ l, w = .slice (acc ++ l) ∧ l.length = ts.length ∧
        ∀ acc', runAt (.slice s) (.slice acc') (ts.map (rk io d)) = .ok (.slice (acc' ++ l))
  | [], acc, w, h => by
    simp only [List.map_nil, runAt] at h
    injection h with h
    exact ⟨[], by simp [h], rfl, by simp [runAt]⟩
  | t :: ts, acc, w, h => by
    cases t with
    | leaf _ _ _ => simp [runAt, rk, readT] at h
    | elem n as b a kids en eb ea =>
      have step : ∀ acc, rk io d (.elem n as b a kids en eb ea) (.slice s) (.slice acc) = if maxDepth ≤ d + 1 then .error .depth
          else wrapSlice acc (readT io true (d + 1 + 1) s s.zero (.elem n as b a kids en eb ea)) := by
        intro acc
        simp only [rk, readT, place]
      simp only [List.map_cons, runAt, step] at h ⊢
      by_cases hd : maxDepth ≤ d + 1
      · rw [if_pos hd] at h; cases h
      · simp only [if_neg hd] at h ⊢
        cases hr : readT io true (d + 1 + 1) s s.zero (.elem n as b a kids en eb ea) with
        | error e => rw [hr] at h; cases h
        | ok x =>
          rw [hr] at h
          simp only [wrapSlice] at h ⊢
          obtain ⟨l, rfl, h2, h3⟩ := run_list_after io d s ts (acc ++ [x]) w h
          exact ⟨x :: l, by simp, by simp [h2], fun acc' => by rw [h3]; simp⟩

/-- C94: a list gets the entries that reading into a new value gives, after those it had: one for each element. -/
theorem C94_lists (io : FloatIO) (L : List Bytes) (tn : Bytes) (xn : Option FInfo) (F : List FInfo) (S : List Sch)
    (hr : (Sch.struct tn xn F S).rt L = true) (hok : (Sch.struct tn xn F S).ok = true) (doc : Bytes)
    (n : Name) (as : List Attr) (b a : Bytes) (kids : List XTree) (en : Name) (eb ea : Bytes)
    (ht : IsDoc doc (.elem n as b a kids en eb ea)) (xv m m' : Name) (vs us ws : List Val)
    (hv : Typed (.struct tn xn F S) (.struct xv vs))
    (hnew : unmarshalDoc io (.struct tn xn F S) doc = .ok (.struct m us))
    (h : unmarshalInto io (.struct tn xn F S) (.struct xv vs) doc = .ok (.struct m' ws)) (i : Nat) (f : FInfo) (s : Sch)
    (l : List Val) (hi : F[i]? = some f) (hsi : S[i]? = some (.slice s)) (hm : f.mode = .elem) (hg : f.grp = none)
    (hl : vs[i]? = some (.slice l)) :
    ∃ k, us[i]? = some (.slice k) ∧ ws[i]? = some (.slice (l ++ k)) ∧ k.length = (kidsFor f kids).length := by
  have hz := zero_typed _ hok
  simp only [Sch.rt, Bool.and_eq_true] at hr
  have hs := StructRt.of hr.1.1
  have key : ∀ (yv m : Name) (zs xs : List Val) (l : List Val), Fields F S zs → zs[i]? = some (.slice l) →
      readT io false 0 (.struct tn xn F S) (.struct yv zs) (.elem n as b a kids en eb ea) = .ok (.struct m xs) →
      ∃ w, xs[i]? = some w ∧ runAt (.slice s) (.slice l) ((kidsFor f kids).map (rk io 0)) = .ok w := by
    intro yv m zs xs l hf hzi h
    simp only [readT] at h
    rw [place_plain _ false 0 _ _ rfl (by decide), readBody_iff] at h
    obtain ⟨-, xs', h, e⟩ := h
    injection e with _ e; subst e
    obtain ⟨x, w, h1, h2, h3⟩ := runOps_get _ zs xs hf (structOps_ok io 0 F S as kids _ hs.len) h i _ hsi
    have hc : cur S zs i = some (.slice l) := by simp [cur, hsi, hzi, Val.isAbsent]
    rw [hc] at h1; injection h1 with h1; subst h1
    have h2' := h2
    rw [opsAt_struct io 0 hs hi, hm] at h2
    refine ⟨w, ?_, h2⟩
    rw [h3]
    split
    · rfl
    · rename_i hno
      have hnil := opsAt_none (i := i) fun op ho he => hno ⟨op, ho, by rw [he]; exact sameGrp_refl (lt_of_get hi)⟩
      rw [hnil] at h2'
      simp only [runAt] at h2'
      injection h2' with h2'
      rw [hzi, h2']
  rw [unmarshalDoc_tree io _ doc _ ht] at hnew
  rw [unmarshalInto_tree io _ _ doc _ ht] at h
  unfold readRoot at hnew
  simp only [Sch.zero] at hz hnew
  obtain ⟨_, _, hz1, hf0⟩ := struct_fields hok hz
  injection hz1 with _ hz1; subst hz1
  obtain ⟨_, _, hv1, hf⟩ := struct_fields hok hv
  injection hv1 with _ hv1; subst hv1
  have hzi : (zeros F S)[i]? = some (.slice []) := by
    obtain ⟨v, hv⟩ := get_of_lt (l := zeros F S) (i := i) (by rw [hf0.len_vs]; exact lt_of_get hsi)
    obtain ⟨f', s', k1, k2, k3⟩ := zeros_get F S i v hv
    rw [hi] at k1; injection k1 with k1; subst k1
    rw [hsi] at k2; injection k2 with k2; subst k2
    rw [hv, k3, if_pos hg]
    rfl
  obtain ⟨w0, e0, r0⟩ := key _ _ _ _ _ hf0 hzi hnew
  obtain ⟨w1, e1, r1⟩ := key _ _ _ _ _ hf hl h
  obtain ⟨k, hk, hlen, hk'⟩ := run_list_after io 0 s _ _ _ r0
  rw [hk' l] at r1
  injection r1 with r1
  exact ⟨k, by rw [e0, hk]; simp, by rw [e1, r1], hlen⟩

/-- The field for the periods of a manifest. -/
theorem mpd_periods : ∃ (tn : Bytes) (xn : Option FInfo) (F : List FInfo) (S : List Sch) (i : Nat) (f : FInfo) (s : Sch),
    tMPD.sch = .struct tn xn F S ∧ F[i]? = some f ∧ S[i]? = some (.slice s) ∧ f.mode = .elem ∧ f.grp = none ∧
    f.loc = b!"Period" ∧ f.xmlns = [] :=
  ⟨_, _, _, _, 25, _, _, rfl, rfl, rfl, rfl, rfl, rfl, rfl⟩

/-- C94: reading a manifest again into the value it was read into succeeds, but is not the same as reading it into a new one if
there is a period in it: there are twice as many periods afterwards. -/
theorem C94_again (io : FloatIO) (doc : Bytes) (n : Name) (as : List Attr) (b a : Bytes) (kids : List XTree) (en : Name)
    (eb ea : Bytes) (ht : IsDoc doc (.elem n as b a kids en eb ea))
    (hp : ∃ p ∈ kids, ∃ pn pas pb pa pk pe peb pea, p = .elem pn pas pb pa pk pe peb pea ∧ pn.loc = b!"Period")
    (v : Val) (h : unmarshalDoc io tMPD.sch doc = .ok v) : ∃ w, unmarshalInto io tMPD.sch v doc = .ok w ∧ w ≠ v := by
  have hv := unmarshalDoc_typed io tMPD.sch doc v mpd_ok h
  obtain ⟨w, hw⟩ := (C94_accepts io tMPD.sch mpd_ok v hv doc).2 ⟨v, h⟩
  refine ⟨w, hw, fun e => ?_⟩
  subst e
  have h1 := mpd_rt
  have h2 := mpd_ok
  obtain ⟨tn, xn, F, S, i, f, s, e, hi, hsi, hm, hg, hloc, hx⟩ := mpd_periods
  rw [e] at h1 h2 hv h hw
  obtain ⟨xv, vs, rfl, hf⟩ := struct_fields h2 hv
  obtain ⟨x, hxi⟩ := get_of_lt (l := vs) (i := i) (by rw [hf.len_vs]; exact lt_of_get hsi)
  have hty := typeds_get _ _ hf.typ i _ x hsi hxi
  have hab : x.isAbsent = false := (hf.uni i i f f x x hi hi hxi hxi).2 hg
  obtain ⟨l, rfl, -⟩ := slice_typed (hty.resolve_left (by rw [hab]; simp))
  obtain ⟨k, k1, k2, k3⟩ := C94_lists io mpdLocs tn xn F S h1 h2 doc n as b a kids en eb ea ht xv xv xv vs vs vs hv h hw i f s l hi
    hsi hm hg hxi
  rw [hxi] at k1 k2
  injection k1 with k1
  injection k1 with k1
  injection k2 with k2
  injection k2 with k2
  subst k1
  have hk : l = [] := by simpa using k2
  obtain ⟨p, hp, pn, pas, pb, pa, pk, pe, peb, pea, rfl, hpn⟩ := hp
  have : XTree.elem pn pas pb pa pk pe peb pea ∈ kidsFor f kids := List.mem_filter.2 ⟨hp, by simp [fits, hloc, hpn, hx]⟩
  rw [hk, List.length_nil] at k3
  rw [List.length_eq_zero_iff.1 k3.symm] at this
  cases this

/-- Several documents read into one value, one after the other. -/
def unmarshalAll (io : FloatIO) (s : Sch) : Val → List Bytes → Except RErr Val
  | v, [] => .ok v
  | v, doc :: docs =>
    match unmarshalInto io s v doc with
    | .ok w => unmarshalAll io s w docs
    | .error e => .error e

/-- The entries that a document gives for the list in field `i` of a new value. -/
def entriesOf (io : FloatIO) (s : Sch) (i : Nat) (doc : Bytes) : List Val :=
  match unmarshalDoc io s doc with
  | .ok (.struct _ us) =>
    match us[i]? with
    | some (.slice l) => l
    | _ => []
  | _ => []

theorem unmarshalInto_typed (io : FloatIO) (s : Sch) (v : Val) (doc : Bytes) (w : Val) (hs : s.ok = true) (hv : Typed s v)
    (h : unmarshalInto io s v doc = .ok w) : Typed s w := by
  obtain ⟨t, ht⟩ := unmarshalInto_ok io s v doc w h
  rw [unmarshalInto_tree io s v doc t ht] at h
  exact readT_typed io t false 0 s v w hs hv h

/-- C94 for any number of documents, for instance a manifest that is fetched again and again: the value can be read into exactly if
each document alone can be read, and a list has what each of them gives, one after the other. -/
theorem C94_sequence (io : FloatIO) (L : List Bytes) (tn : Bytes) (xn : Option FInfo) (F : List FInfo) (S : List Sch)
    (hr : (Sch.struct tn xn F S).rt L = true) (hok : (Sch.struct tn xn F S).ok = true) (i : Nat) (f : FInfo) (s : Sch)
    (hi : F[i]? = some f) (hsi : S[i]? = some (.slice s)) (hm : f.mode = .elem) (hg : f.grp = none) :
    ∀ (docs : List Bytes) (xv : Name) (vs : List Val) (l : List Val), Typed (.struct tn xn F S) (.struct xv vs) →
      vs[i]? = some (.slice l) →
      ((∃ w, unmarshalAll io (.struct tn xn F S) (.struct xv vs) docs = .ok w) ↔
        ∀ doc ∈ docs, ∃ w, unmarshalDoc io (.struct tn xn F S) doc = .ok w) ∧
      ∀ w, unmarshalAll io (.struct tn xn F S) (.struct xv vs) docs = .ok w → ∃ m ws, w = .struct m ws ∧
        ws[i]? = some (.slice (l ++ docs.flatMap (entriesOf io (.struct tn xn F S) i)))
  | [], xv, vs, l, _, hl => by
    refine ⟨by simp [unmarshalAll], ?_⟩
    intro w h
    simp only [unmarshalAll] at h
    injection h with h; subst h
    exact ⟨xv, vs, rfl, by simpa using hl⟩
  | doc :: docs, xv, vs, l, hv, hl => by
    have hacc := C94_accepts io _ hok _ hv doc
    simp only [unmarshalAll]
    cases h1 : unmarshalInto io (.struct tn xn F S) (.struct xv vs) doc with
    | error e =>
      refine ⟨⟨fun ⟨w, h⟩ => (by cases h), fun h => ?_⟩, fun w h => (by cases h)⟩
      obtain ⟨w, hw⟩ := hacc.2 (h doc (by simp))
      rw [h1] at hw; cases hw
    | ok x =>
      dsimp only
      have hx := unmarshalInto_typed io _ _ doc x hok hv h1
      obtain ⟨m', ws, rfl, -⟩ := struct_fields hok hx
      obtain ⟨u, hu⟩ := hacc.1 ⟨_, h1⟩
      obtain ⟨m, us, rfl, -⟩ := struct_fields hok (unmarshalDoc_typed io _ doc u hok hu)
      obtain ⟨t, ht⟩ := unmarshalDoc_ok io _ doc _ hu
      obtain ⟨n, as, b, a, kids, en, eb, ea, rfl⟩ := ht.2.1
      obtain ⟨k, k1, k2, -⟩ := C94_lists io L tn xn F S hr hok doc n as b a kids en eb ea ht xv m m' vs us ws hv hu h1 i f s l hi
        hsi hm hg hl
      have he : entriesOf io (.struct tn xn F S) i doc = k := by simp only [entriesOf, hu, k1]
      obtain ⟨r1, r2⟩ := C94_sequence io L tn xn F S hr hok i f s hi hsi hm hg docs m' ws (l ++ k) hx k2
      refine ⟨?_, ?_⟩
      · rw [r1]
        constructor
        · intro h d hd
          rcases List.mem_cons.1 hd with rfl | hd
          · exact ⟨_, hu⟩
          · exact h d hd
        · exact fun h d hd => h d (by simp [hd])
      · intro w h
        obtain ⟨m, ws, rfl, h2⟩ := r2 w h
        exact ⟨m, ws, rfl, by rw [h2, List.flatMap_cons, he, List.append_assoc]⟩

/-- A document to which the theorems apply, and a manifest it is read into. -/
theorem ex_read (io : FloatIO) : ∃ v, unmarshalDoc io tMPD.sch exDoc = .ok v := by
  have h : (match unmarshalDoc io tMPD.sch exDoc with
    | .ok _ => true
    | .error _ => false) = true := by krfl
  cases hv : unmarshalDoc io tMPD.sch exDoc with
  | ok v => exact ⟨v, rfl⟩
  | error e => rw [hv] at h; cases h

/-- A value in use: a manifest that was read into is not as if it were new. -/
theorem C94_refuted (io : FloatIO) : ¬ ∀ (v : Val) (doc : Bytes), Typed tMPD.sch v →
    unmarshalInto io tMPD.sch v doc = unmarshalDoc io tMPD.sch doc := by
  intro h
  obtain ⟨v, hv⟩ := ex_read io
  obtain ⟨w, h1, h2⟩ := C94_again io exDoc _ _ _ _ _ _ _ _ exDoc_is
    ⟨_, List.mem_cons_self, _, _, _, _, _, _, _, _, rfl, rfl⟩ v hv
  rw [h v exDoc (unmarshalDoc_typed io tMPD.sch exDoc v mpd_ok hv), hv] at h1
  injection h1 with h1
  exact h2 h1.symm

example (io : FloatIO) : ∃ v w, unmarshalDoc io tMPD.sch exDoc = .ok v ∧ unmarshalInto io tMPD.sch v exDoc = .ok w ∧
    Onto io tMPD.sch v exTree w := by
  obtain ⟨v, hv⟩ := ex_read io
  have ht := unmarshalDoc_typed io tMPD.sch exDoc v mpd_ok hv
  obtain ⟨w, hw⟩ := (C94_accepts io tMPD.sch mpd_ok v ht exDoc).2 ⟨v, hv⟩
  exact ⟨v, w, hv, hw, C94_manifest io exDoc exTree exDoc_is (by decide +kernel) v ht w hw⟩

/-- Three manifests read into one value. -/
example (io : FloatIO) : ∃ w, unmarshalAll io tMPD.sch tMPD.sch.zero [exDoc, exDoc33, exDoc] = .ok w := by
  have h : (match unmarshalAll io tMPD.sch tMPD.sch.zero [exDoc, exDoc33, exDoc] with
    | .ok _ => true
    | .error _ => false) = true := by krfl
  cases hv : unmarshalAll io tMPD.sch tMPD.sch.zero [exDoc, exDoc33, exDoc] with
  | ok v => exact ⟨v, rfl⟩
  | error e => rw [hv] at h; cases h

/-- A document read into the value another was read into: the attribute and the element that are missing in the second stay,
and the list becomes longer. -/
def titleDoc : Bytes := b!"<ProgramInformation lang='en'><Title>x</Title><Source>s</Source></ProgramInformation>"
def againDoc : Bytes := b!"<ProgramInformation><Title>y</Title></ProgramInformation>"
def bothDoc : Bytes := b!"<ProgramInformation lang='en'><Title>y</Title><Source>s</Source></ProgramInformation>"

example (io : FloatIO) : (match unmarshalDoc io tProgramInformationType.sch titleDoc with
    | .ok v => unmarshalInto io tProgramInformationType.sch v againDoc
    | .error e => .error e) = unmarshalDoc io tProgramInformationType.sch bothDoc := by krfl

end Verif.Bind

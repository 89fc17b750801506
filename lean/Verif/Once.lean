import Verif.RtCheck
import Verif.SchemaProps

/-!
C48: when start tags do not repeat an attribute.
-/
namespace Verif.Xml

open Verif.Bind (resA)

/-! ### Elements -/

/-- The name of an attribute without the prefix that it is to be written with. -/
def meant (a : Attr) : Name := (resA a).name

/-- The attributes of an element named `n` have different names; declarations of prefixes come before attributes with a
namespace, and are not in an element whose own name has a prefix. -/
structure AttrsOnce (n : Name) (attrs : List Attr) : Prop where
  names : (attrs.map meant).Nodup
  first : attrs.Pairwise fun a b => b.name.space = xmlnsURL → a.name.space = [] ∨ a.name.space = xmlnsURL
  own : ∀ a ∈ attrs, a.name.space = xmlnsURL → (splitPrefixed n.loc).1 = []

/-- A start tag without repeated attributes, or another token. -/
def TokOnce : Token → Prop
  | .startElement _ as => (as.map (·.name)).Nodup
  | _ => True

/-- Content whose start tags do not repeat an attribute, whatever the declarations of prefixes around it. -/
def ChunkOnce (b : Bytes) : Prop := ∀ os ts os', specRun os (chunkToks b) = some (ts, os') → ∀ t ∈ ts, TokOnce t

mutual
/-- All elements have such attributes. -/
def ItemOnce : Item → Prop
  | .elem n attrs kids => AttrsOnce n attrs ∧ ItemsOnce kids
  | .raw b => ChunkOnce b
  | _ => True
/-- The same for several items. -/
def ItemsOnce : List Item → Prop
  | [] => True
  | i :: l => ItemOnce i ∧ ItemsOnce l
end

mutual
/-- No element has two attributes with the same name. -/
def NodeOnce : Node → Prop
  | .elem _ as kids => (as.map (·.name)).Nodup ∧ NodesOnce kids
  | .chars _ => True
  | .raw _ ts => ∀ t ∈ ts, TokOnce t
/-- The same for several nodes. -/
def NodesOnce : List Node → Prop
  | [] => True
  | x :: l => NodeOnce x ∧ NodesOnce l
end

theorem useNs_once {bs bs' : List (Bytes × Bytes)} {u p q : Bytes} {new : Bool} (h : useNs bs u p = some (bs', q, new)) :
    (∀ x ∈ bs, x ∈ bs') ∧ (new = true → ∀ v, (q, v) ∉ bs) ∧ (u ≠ xmlURL → (q, u) ∈ bs') ∧ (p ≠ [] → q = p) := by
  unfold useNs at h
  split at h
  · rename_i hu
    split at h
    · rename_i hp
      injection h with h; injection h with h1 h; injection h with h2 h3
      subst h1; subst h2; subst h3
      refine ⟨fun _ h => h, by simp, fun h => absurd hu h, fun h => (hp.resolve_left h).symm⟩
    · cases h
  split at h
  · cases h
  split at h
  · rename_i q' hq
    split at h
    · rename_i hp
      injection h with h; injection h with h1 h; injection h with h2 h3
      subst h1; subst h2; subst h3
      exact ⟨fun _ h => h, by simp, fun _ => preOf_mem hq, fun h => (hp.resolve_left h).symm⟩
    · cases h
  · dsimp only at h
    generalize hg : (if p = [] then genPrefix u else p) = g at h
    split at h
    · rename_i hc
      injection h with h; injection h with h1 h; injection h with h2 h3
      subst h1; subst h2; subst h3
      refine ⟨fun _ h => List.mem_cons_of_mem _ h, fun _ v => lookup_none hc.2.2 v, fun _ => by simp, fun h => ?_⟩
      rw [if_neg h] at hg
      exact hg.symm
    · cases h

/-- What is written for one attribute: the attribute with its meant name, possibly with the declaration of a prefix that was
not bound; or the declaration that it is. -/
theorem attrSpec_once {bs bs' : List (Bytes × Bytes)} {a : Attr} {ss : List SAttr} (h : attrSpec bs a = some (bs', ss)) :
    (∀ x ∈ bs, x ∈ bs') ∧ (
      ss = [] ∨
      (a.name.space = xmlnsURL ∧ ∃ s, ss = [s] ∧ s.space = xmlnsURL ∧ s.loc = a.name.loc ∧ meant a = ⟨s.space, s.loc⟩ ∧ ∃ v, (s.loc, v) ∈ bs') ∨
      (a.name.space ≠ xmlnsURL ∧ ∃ s, s.space ≠ xmlnsURL ∧ meant a = ⟨s.space, s.loc⟩ ∧
        (s.space = [] → s.loc = xmlnsPrefix → a.name = ⟨[], xmlnsPrefix⟩) ∧
        (ss = [s] ∨ (a.name.space ≠ [] ∧ ∃ p u, ss = [declAttr p u, s] ∧ (∀ v, (p, v) ∉ bs) ∧ (p, u) ∈ bs')))) := by
  unfold attrSpec at h
  split at h
  · injection h with h; injection h with h1 h2; subst h1; subst h2
    exact ⟨fun _ h => h, Or.inl rfl⟩
  rename_i hl
  dsimp only at h
  split at h
  · rename_i hsp
    split at h
    · cases h
    rename_i hc
    simp only [not_or, ne_eq, not_not] at hc
    split at h
    · cases h
    rename_i bs1 p new hu
    injection h with h; injection h with h1 h2; subst h1; subst h2
    obtain ⟨u1, u2, u3, u4⟩ := useNs_once hu
    refine ⟨u1, Or.inr (Or.inl ⟨hsp, _, rfl, rfl, u4 hl, ?_, _, u3 hc.2⟩)⟩
    simp only [meant, resA, declAttr, hsp, Name.mk.injEq, true_and]
    rw [u4 hl]
    exact Bind.splitPrefixed_plain hc.1
  rename_i hns
  split at h
  · rename_i hne
    split at h
    · cases h
    rename_i bs1 p new hu
    injection h with h; injection h with h1 h2; subst h1; subst h2
    obtain ⟨u1, u2, u3, u4⟩ := useNs_once hu
    refine ⟨u1, Or.inr (Or.inr ⟨hns, ⟨p, (splitPrefixed a.name.loc).2, a.name.space, a.value⟩, hns, rfl, fun h => absurd h hne, ?_⟩)⟩
    by_cases hn : new = true
    · subst hn
      refine Or.inr ⟨hne, p, a.name.space, rfl, u2 rfl, u3 ?_⟩
      rintro hx
      rw [hx] at hu
      unfold useNs at hu
      rw [if_pos rfl] at hu
      split at hu
      · injection hu with hu; injection hu with _ hu; injection hu with _ hu; cases hu
      · cases hu
    · left
      simp [hn]
  · rename_i hne
    have hne : a.name.space = [] := Classical.not_not.1 hne
    split at h
    · cases h
    rename_i hx
    injection h with h; injection h with h1 h2; subst h1; subst h2
    refine ⟨fun _ h => h, Or.inr (Or.inr ⟨hns, _, ?_, ?_, ?_, Or.inl rfl⟩)⟩
    · intro h; cases h
    · simp [meant, resA, hne]
    · dsimp only
      intro _ h2
      have hx1 : (splitPrefixed a.name.loc).1 = [] := by
        by_contra hc
        exact hx ⟨h2, Or.inl hc⟩
      have := Bind.splitPrefixed_plain hx1
      rw [h2] at this
      cases hn : a.name with
      | mk sp lo => rw [hn] at hne this; simp_all

/-- The attributes of a tag are distinct, and declare only prefixes that are not in `E`, what has been declared already. -/
theorem attrsSpec_once : ∀ (attrs : List Attr) (bs bs' : List (Bytes × Bytes)) (ss : List SAttr) (E : List Bytes),
    attrsSpec bs attrs = some (bs', ss) → (∀ p ∈ E, ∃ v, (p, v) ∈ bs) → (attrs.map meant).Nodup →
    (attrs.Pairwise fun a b => b.name.space = xmlnsURL → a.name.space = [] ∨ a.name.space = xmlnsURL) →
    (∀ a ∈ attrs, a.name.space = xmlnsURL → a.name.loc ∉ E) →
    (ss.map fun s => (⟨s.space, s.loc⟩ : Name)).Nodup ∧ (∀ s ∈ ss, s.space = xmlnsURL → s.loc ∉ E) ∧
      ∀ s ∈ ss, s.space ≠ xmlnsURL → ∃ a ∈ attrs, meant a = ⟨s.space, s.loc⟩ ∧
        (s.space = [] → s.loc = xmlnsPrefix → a.name = ⟨[], xmlnsPrefix⟩)
  | [], bs, bs', ss, E, h, _, _, _, _ => by
    injection h with h; injection h with _ h; subst h; simp
  | a :: attrs, bs, bs', ss, E, h, hE, hnd, hpw, hd => by
    simp only [attrsSpec] at h
    split at h
    · cases h
    rename_i bs1 s1 h1
    split at h
    · cases h
    rename_i bs2 s2 h2
    injection h with h; injection h with _ h; subst h
    obtain ⟨o1, o2⟩ := attrSpec_once h1
    rw [List.map_cons, List.nodup_cons] at hnd
    rw [List.pairwise_cons] at hpw
    have later : ∀ E' : List Bytes, (∀ p ∈ E', ∃ v, (p, v) ∈ bs1) → (∀ b ∈ attrs, b.name.space = xmlnsURL → b.name.loc ∉ E') → _ :=
      fun E' g1 g2 => attrsSpec_once attrs bs1 bs2 s2 E' h2 g1 hnd.2 hpw.2 g2
    have hE1 : ∀ p ∈ E, ∃ v, (p, v) ∈ bs1 := fun p hp => (hE p hp).imp fun v hv => o1 _ hv
    have hd1 : ∀ b ∈ attrs, b.name.space = xmlnsURL → b.name.loc ∉ E := fun b hb => hd b (by simp [hb])
    -- the attribute itself is not among the others
    have notin : ∀ s : SAttr, s.space ≠ xmlnsURL → meant a = ⟨s.space, s.loc⟩ →
        (∀ x ∈ s2, x.space ≠ xmlnsURL → ∃ a ∈ attrs, meant a = ⟨x.space, x.loc⟩ ∧
          (x.space = [] → x.loc = xmlnsPrefix → a.name = ⟨[], xmlnsPrefix⟩)) →
        (⟨s.space, s.loc⟩ : Name) ∉ s2.map fun s => (⟨s.space, s.loc⟩ : Name) := by
      intro s hs hm hl hin
      obtain ⟨x, hx, he⟩ := List.mem_map.1 hin
      have hxs : x.space = s.space := congrArg Name.space he
      obtain ⟨b, hb, hbm, _⟩ := hl x hx (by rw [hxs]; exact hs)
      exact hnd.1 (List.mem_map.2 ⟨b, hb, by rw [hbm, he, hm]⟩)
    rcases o2 with rfl | ⟨hx, s, rfl, g1, g2, g3, v, g4⟩ | ⟨hx, s, g1, g2, g3, rfl | ⟨hne, p, u, rfl, g4, g5⟩⟩
    · obtain ⟨l1, l2, l3⟩ := later E hE1 hd1
      refine ⟨by simpa using l1, by simpa using l2, ?_⟩
      intro s hs hsx
      obtain ⟨b, hb, r⟩ := l3 s (by simpa using hs) hsx
      exact ⟨b, by simp [hb], r⟩
    · -- a declaration
      have hloc : ∀ b ∈ attrs, b.name.space = xmlnsURL → b.name.loc ∉ s.loc :: E := by
        intro b hb hbx hin
        rcases List.mem_cons.1 hin with hin | hin
        · refine hnd.1 (List.mem_map.2 ⟨b, hb, ?_⟩)
          have : meant b = ⟨b.name.space, (splitPrefixed b.name.loc).2⟩ := rfl
          have h' : meant a = ⟨a.name.space, (splitPrefixed a.name.loc).2⟩ := rfl
          rw [this, h', hin, g2, hbx, hx]
        · exact hd b (by simp [hb]) hbx hin
      obtain ⟨l1, l2, l3⟩ := later (s.loc :: E) (by
        intro q hq
        rcases List.mem_cons.1 hq with rfl | hq
        · exact ⟨v, g4⟩
        · exact hE1 q hq) hloc
      refine ⟨?_, ?_, ?_⟩
      · rw [List.map_append, List.map_cons, List.map_nil, List.cons_append, List.nil_append, List.nodup_cons]
        refine ⟨fun hin => ?_, l1⟩
        obtain ⟨x, hx', he⟩ := List.mem_map.1 hin
        have hxs : x.space = s.space := congrArg Name.space he
        have hxl : x.loc = s.loc := congrArg Name.loc he
        exact l2 x hx' (by rw [hxs, g1]) (by simp [hxl])
      · intro x hx' hxs
        rcases List.mem_append.1 hx' with hx' | hx'
        · simp only [List.mem_singleton] at hx'
          subst hx'
          rw [g2]
          exact hd a (by simp) hx
        · exact fun h => l2 x hx' hxs (by simp [h])
      · intro x hx' hxs
        rcases List.mem_append.1 hx' with hx' | hx'
        · simp only [List.mem_singleton] at hx'
          subst hx'
          exact absurd g1 hxs
        · obtain ⟨b, hb, r⟩ := l3 x hx' hxs
          exact ⟨b, by simp [hb], r⟩
    · -- an attribute without new declaration
      obtain ⟨l1, l2, l3⟩ := later E hE1 hd1
      refine ⟨?_, ?_, ?_⟩
      · rw [List.map_append, List.map_cons, List.map_nil, List.cons_append, List.nil_append, List.nodup_cons]
        exact ⟨notin s g1 g2 l3, l1⟩
      · intro x hx' hxs
        rcases List.mem_append.1 hx' with hx' | hx'
        · simp only [List.mem_singleton] at hx'
          subst hx'
          exact absurd hxs g1
        · exact l2 x hx' hxs
      · intro x hx' hxs
        rcases List.mem_append.1 hx' with hx' | hx'
        · simp only [List.mem_singleton] at hx'
          subst hx'
          exact ⟨a, by simp, g2, g3⟩
        · obtain ⟨b, hb, r⟩ := l3 x hx' hxs
          exact ⟨b, by simp [hb], r⟩
    · -- an attribute with a new declaration; no declarations follow
      have none : ∀ b ∈ attrs, b.name.space = xmlnsURL → b.name.loc ∉ p :: E := by
        intro b hb hbx
        rcases hpw.1 b hb hbx with h | h
        · exact absurd h hne
        · exact absurd h hx
      obtain ⟨l1, l2, l3⟩ := later (p :: E) (by
        intro q hq
        rcases List.mem_cons.1 hq with rfl | hq
        · exact ⟨u, g5⟩
        · exact hE1 q hq) none
      refine ⟨?_, ?_, ?_⟩
      · rw [List.map_append, List.map_cons, List.map_cons, List.map_nil, List.cons_append, List.cons_append, List.nil_append,
          List.nodup_cons, List.nodup_cons]
        refine ⟨fun hin => ?_, notin s g1 g2 l3, l1⟩
        rcases List.mem_cons.1 hin with he | hin
        · exact g1 (congrArg Name.space he).symm
        · obtain ⟨x, hx', he⟩ := List.mem_map.1 hin
          have hxs : x.space = xmlnsURL := congrArg Name.space he
          have hxl : x.loc = p := congrArg Name.loc he
          exact l2 x hx' hxs (by simp [hxl])
      · intro x hx' hxs
        rcases List.mem_append.1 hx' with hx' | hx'
        · simp only [List.mem_cons, List.not_mem_nil, or_false] at hx'
          rcases hx' with rfl | rfl
          · intro hin
            obtain ⟨v, hv⟩ := hE p hin
            exact g4 v hv
          · exact absurd hxs g1
        · exact fun h => l2 x hx' hxs (by simp [h])
      · intro x hx' hxs
        rcases List.mem_append.1 hx' with hx' | hx'
        · simp only [List.mem_cons, List.not_mem_nil, or_false] at hx'
          rcases hx' with rfl | rfl
          · exact absurd rfl hxs
          · exact ⟨a, by simp, g2, g3⟩
        · obtain ⟨b, hb, r⟩ := l3 x hx' hxs
          exact ⟨b, by simp [hb], r⟩

/-- What is declared with the name of an element. -/
theorem place_once {env : Env} {n : Name} {attrs : List Attr} {pl : Place} (h : placeSpec env n attrs = some pl) :
    pl.decls = [] ∨
    (∃ p u, pl.decls = [declAttr p u] ∧ (p, u) ∈ pl.bs ∧ (splitPrefixed n.loc).1 ≠ []) ∨
    (pl.decls = [⟨[], xmlnsPrefix, [], n.space⟩] ∧ pl.given = some n.space ∧ n.space ∉ ownDefaults attrs) := by
  unfold placeSpec at h
  dsimp only at h
  split at h
  · cases h
  split at h
  · split at h
    · injection h with h; subst h; exact Or.inl rfl
    · cases h
  split at h
  · cases h
  rename_i hsp
  simp only [not_or] at hsp
  split at h
  · split at h
    · injection h with h; subst h; exact Or.inl rfl
    · cases h
  rename_i hown
  split at h
  · rename_i hpre
    cases hu : useNs env.bs n.space (splitPrefixed n.loc).1 with
    | none => rw [hu] at h; cases h
    | some r =>
      obtain ⟨bs, p, new⟩ := r
      rw [hu] at h
      simp only [Place.ofUse] at h
      injection h with h; subst h
      cases new with
      | false => exact Or.inl rfl
      | true => exact Or.inr (Or.inl ⟨p, n.space, rfl, (useNs_once hu).2.2.1 hsp.1, hpre⟩)
  split at h
  · injection h with h; subst h; exact Or.inl rfl
  split at h
  · rename_i a _
    cases hu : useNs env.bs n.space a.name.loc with
    | none => rw [hu] at h; cases h
    | some r =>
      obtain ⟨bs, p, new⟩ := r
      rw [hu] at h
      simp only [Place.ofUse, Bool.and_false] at h
      injection h with h; subst h
      exact Or.inl rfl
  split at h
  · injection h with h; subst h; exact Or.inl rfl
  split at h
  · injection h with h; subst h
    exact Or.inr (Or.inr ⟨rfl, rfl, hown⟩)
  · cases h

/-- The attributes of one tag. -/
theorem tag_once {env : Env} {n : Name} {attrs : List Attr} {pl : Place} {bs : List (Bytes × Bytes)} {as : List SAttr}
    (ho : AttrsOnce n attrs) (hpl : placeSpec env n attrs = some pl) (has : attrsSpec pl.bs attrs = some (bs, as))
    (hd : defaultsOk pl.given attrs = true) : (((pl.decls ++ as).map SAttr.res).map (·.name)).Nodup := by
  have e : ((pl.decls ++ as).map SAttr.res).map (·.name) = (pl.decls ++ as).map fun s => (⟨s.space, s.loc⟩ : Name) := by
    rw [List.map_map]; rfl
  rw [e]
  rcases place_once hpl with h | ⟨p, u, h, hb, hp⟩ | ⟨h, hg, hown⟩
  · rw [h]
    exact (attrsSpec_once attrs pl.bs bs as [] has (by simp) ho.names ho.first (by simp)).1
  · obtain ⟨l1, l2, l3⟩ := attrsSpec_once attrs pl.bs bs as [p] has (by
      intro q hq; simp only [List.mem_singleton] at hq; subst hq; exact ⟨u, hb⟩) ho.names ho.first
      (fun a ha hax => absurd (ho.own a ha hax) hp)
    rw [h, List.cons_append, List.nil_append, List.map_cons, List.nodup_cons]
    refine ⟨fun hin => ?_, l1⟩
    obtain ⟨x, hx, he⟩ := List.mem_map.1 hin
    have hxs : x.space = xmlnsURL := congrArg Name.space he
    have hxl : x.loc = p := congrArg Name.loc he
    exact l2 x hx hxs (by simp [hxl])
  · obtain ⟨l1, l2, l3⟩ := attrsSpec_once attrs pl.bs bs as [] has (by simp) ho.names ho.first (by simp)
    rw [h, List.cons_append, List.nil_append, List.map_cons, List.nodup_cons]
    refine ⟨fun hin => ?_, l1⟩
    obtain ⟨x, hx, he⟩ := List.mem_map.1 hin
    have hxs : x.space = [] := congrArg Name.space he
    have hxl : x.loc = xmlnsPrefix := congrArg Name.loc he
    obtain ⟨a, ha, _, hn⟩ := l3 x hx (by rw [hxs]; intro h; cases h)
    have hm : a.value ∈ ownDefaults attrs := List.mem_filterMap.2 ⟨a, ha, by rw [if_pos (hn hxs hxl)]⟩
    have := List.all_eq_true.1 hd _ hm
    rw [hg] at this
    simp at this
    rw [this] at hown
    exact hown hm

mutual
theorem resolve_once : ∀ (i : Item) (env : Env) (x : Node), ItemOnce i → resolve env i = some x → NodeOnce x
  | .elem n attrs kids, env, x, ho, h => by
    simp only [ItemOnce] at ho
    simp only [resolve] at h
    split at h
    · cases h
    rename_i pl hpl
    split at h
    · cases h
    rename_i bs as has
    split at h
    · cases h
    rename_i hd
    cases hr : rawKid kids with
    | some b =>
      rw [hr] at h
      dsimp only at h
      split at h
      · cases h
      rename_i ts os' hrun
      injection h with h; subst h
      have := ho.2
      rw [rawKid_some hr] at this
      exact ⟨tag_once ho.1 hpl has (by simpa using hd), this.1 _ _ _ hrun, trivial⟩
    | none =>
    rw [hr] at h
    dsimp only at h
    split at h
    · cases h
    rename_i ks hks
    injection h with h; subst h
    exact ⟨tag_once ho.1 hpl has (by simpa using hd), resolves_once kids _ ks ho.2 hks⟩
  | .text b, env, x, ho, h => by simp only [resolve] at h; injection h with h; subst h; trivial
  | .str b, env, x, ho, h => by simp only [resolve] at h; injection h with h; subst h; trivial
  | .raw b, env, x, ho, h => by simp [resolve] at h
theorem resolves_once : ∀ (l : List Item) (env : Env) (xs : List Node), ItemsOnce l → resolves env l = some xs → NodesOnce xs
  | [], env, xs, _, h => by simp only [resolves] at h; injection h with h; subst h; trivial
  | i :: l, env, xs, ho, h => by
    simp only [ItemsOnce] at ho
    simp only [resolves] at h
    split at h
    · cases h
    rename_i x hx
    split at h
    · cases h
    rename_i xs' hxs
    injection h with h; subst h
    exact ⟨resolve_once i env x ho.1 hx, resolves_once l env xs' ho.2 hxs⟩
end

/-- A piece of the output without repeated attributes. -/
def LinOnce : Lin → Prop
  | .tok t => TokOnce t
  | .inner _ ts => ∀ t ∈ ts, TokOnce t
  | .chars _ => True

mutual
theorem linear_once : ∀ (x : Node) (i : Ind), NodeOnce x → ∀ t ∈ (linear i x).2, LinOnce t
  | .elem n as kids, i, h, t, ht => by
    simp only [NodeOnce] at h
    simp only [linear, List.mem_cons, List.mem_append, List.not_mem_nil, or_false] at ht
    rcases ht with rfl | rfl | ht | rfl | rfl
    · trivial
    · exact h.1
    · exact linears_once kids _ h.2 t ht
    · trivial
    · trivial
  | .chars b, i, h, t, ht => by
    simp only [linear, List.mem_singleton] at ht
    subst ht; trivial
  | .raw b ts, i, h, t, ht => by
    simp only [linear, List.mem_singleton] at ht
    subst ht; exact h
theorem linears_once : ∀ (l : List Node) (i : Ind), NodesOnce l → ∀ t ∈ (linears i l).2, LinOnce t
  | [], i, h, t, ht => by simp [linears] at ht
  | x :: l, i, h, t, ht => by
    simp only [NodesOnce] at h
    simp only [linears, List.mem_append] at ht
    rcases ht with ht | ht
    · exact linear_once x i h.1 t ht
    · exact linears_once l _ h.2 t ht
end

theorem flush_once {acc : Bytes} {t : Token} (ht : t ∈ flush acc) : TokOnce t := by
  unfold flush at ht
  split at ht
  · simp at ht
  · simp at ht; subst ht; trivial

theorem merge_once : ∀ (l : List Lin) (acc : Bytes), (∀ t ∈ l, LinOnce t) → ∀ t ∈ (mergeL acc l).1, TokOnce t
  | [], acc, h, t, ht => by simp [mergeL] at ht
  | .tok u :: l, acc, h, t, ht => by
    simp only [mergeL, List.mem_append, List.mem_cons] at ht
    rcases ht with ht | rfl | ht
    · exact flush_once ht
    · exact h (.tok t) (by simp)
    · exact merge_once l [] (fun t ht => h t (by simp [ht])) t ht
  | .inner b ts :: l, acc, h, t, ht => by
    simp only [mergeL, List.mem_append] at ht
    rcases ht with (ht | ht) | ht
    · exact flush_once ht
    · exact h (.inner b ts) (by simp) t ht
    · exact merge_once l [] (fun t ht => h t (by simp [ht])) t ht
  | .chars b :: l, acc, h, t, ht => merge_once l (acc ++ b) (fun t ht => h t (by simp [ht])) t (by simpa [mergeL] using ht)

theorem nodeTokens_once {x : Node} (pre indent : Bytes) (h : NodeOnce x) : ∀ t ∈ nodeTokens pre indent x, TokOnce t :=
  merge_once _ _ (linear_once x _ h)

theorem itemsOnce_append : ∀ {a b : List Item}, ItemsOnce a → ItemsOnce b → ItemsOnce (a ++ b)
  | [], _, _, h => h
  | _ :: _, _, h1, h2 => ⟨h1.1, itemsOnce_append h1.2 h2⟩

end Verif.Xml

namespace Verif.Bind

open Verif.Xml

/-! ### Values -/

/-- The attributes `l` in the `any,attr` field of an element `n`: different names; declarations of prefixes come before
attributes with a namespace, also those of other fields, and are not in an element whose own name has a prefix. -/
structure AnyOnce (infos : List FInfo) (n : Name) (l : List Attr) : Prop where
  names : (l.map (·.name)).Nodup
  first : l.Pairwise fun a b => b.name.space = xmlnsURL → a.name.space = [] ∨ a.name.space = xmlnsURL
  own : ∀ a ∈ l, a.name.space = xmlnsURL → (splitPrefixed n.loc).1 = []
  fields : ∀ a ∈ l, a.name.space = xmlnsURL → ∀ f ∈ infos, f.mode = .attr → f.xmlns = []

/-- The content in an `innerxml` field does not repeat attributes. -/
def InnerOnce (v : Val) : Prop := ∀ b, v = .str b → ChunkOnce b

mutual
/-- Attributes in a value are given once: lists in attribute fields have at most one entry, `any,attr` fields are as above,
and so is the content of `innerxml` fields. -/
def OnceV (fi : Option FInfo) : Sch → Val → Prop
  | .ptr s, .ptr (some v) => OnceV fi s v
  | .slice s, .slice l => ∀ v ∈ l, OnceV fi s v
  | .struct tn xn infos subs, .struct xv vs =>
    (∀ (i : Nat) (f : FInfo) (l : List Val), infos[i]? = some f → f.mode = .attr → vs[i]? = some (.ptr (some (.slice l))) →
      l.length ≤ 1) ∧
    (∀ (i : Nat) (f : FInfo) (l : List Val), infos[i]? = some f → f.mode = .anyAttr → vs[i]? = some (.slice l) →
      AnyOnce infos (startName xn xv fi tn) (attrsIn l)) ∧
    OnceVs infos subs vs
  | _, _ => True
/-- The same for all fields. -/
def OnceVs : List FInfo → List Sch → List Val → Prop
  | fi :: fis, s :: ss, v :: vs => (OnceV (some fi) s v ∧ (fi.mode = .innerxml → InnerOnce v)) ∧ OnceVs fis ss vs
  | _, _, _ => True
end

theorem concatM_simple (io : FloatIO) (k : Kind) (n : Name) : ∀ (l : List Val) (as : List Attr),
    concatM (l.map fun v => marshalAttr io (.simple k) n v) = .ok as → as.length = l.length
  | [], as, h => by simp only [List.map_nil, concatM] at h; injection h with h; subst h; rfl
  | v :: l, as, h => by
    rw [List.map_cons] at h
    cases hv : marshalAttr io (.simple k) n v with
    | error e => rw [hv] at h; cases h
    | ok a =>
      rw [hv] at h
      simp only [concatM] at h
      split at h
      · cases h
      rename_i b hb
      injection h with h; subst h
      have := concatM_simple io k n l b hb
      have ha : a.length = 1 := by
        cases v <;> simp only [marshalAttr] at hv <;> first | (cases hv; done) | (split at hv <;> cases hv <;> rfl)
      simp [ha, this]; omega

/-- An attribute field gives at most one attribute. -/
theorem attr_short (io : FloatIO) (s : Sch) (n : Name) (v : Val) (as : List Attr) (hs : attrShape s = true)
    (ht : Typed s v) (hl : ∀ l, v = .ptr (some (.slice l)) → l.length ≤ 1) (h : marshalAttr io s n v = .ok as) :
    as.length ≤ 1 := by
  have one : ∀ k v as, marshalAttr io (.simple k) n v = .ok as → as.length ≤ 1 := by
    intro k v as h
    have := concatM_simple io k n [v] as (by simp [concatM, h])
    simp [this]
  cases s with
  | simple k => exact one k v as h
  | ptr s =>
    cases v with
    | ptr o =>
      cases o with
      | none => simp only [marshalAttr] at h; injection h with h; subst h; simp
      | some v =>
        cases s with
        | simple k => simp only [marshalAttr] at h; exact one k v as (by simpa only [marshalAttr] using h)
        | slice s =>
          cases s with
          | simple k =>
            simp only [Typed] at ht
            cases v with
            | slice l =>
              simp only [marshalAttr] at h
              rw [concatM_simple io k n l as (by simpa only [marshalAttr] using h)]
              exact hl l rfl
            | _ => simp [Typed] at ht
          | _ => simp [attrShape] at hs
        | _ => simp [attrShape] at hs
    | _ => simp [Typed] at ht
  | _ => simp [attrShape] at hs

theorem map_self {α} {f : α → α} : ∀ {l : List α}, l.map f = l → ∀ x ∈ l, f x = x
  | [], _, _, h => by simp at h
  | a :: l, h, x, hx => by
    rw [List.map_cons] at h
    injection h with h1 h2
    rcases List.mem_cons.1 hx with rfl | hx
    · exact h1
    · exact map_self h2 x hx

/-- Where an attribute of a struct comes from. -/
def FromField (F : List FInfo) (vs : List Val) (k : Nat) (fis : List FInfo) (a : Attr) : Prop :=
  ∃ (j : Nat) (f : FInfo), fis[j]? = some f ∧ attrField F (meant a) = some (k + j) ∧
    ((f.mode = .attr ∧ a.name.space = f.xmlns ∧ f.xmlns ≠ xmlnsURL) ∨
      (f.mode = .anyAttr ∧ ∃ l, vs[j]? = some (.slice l) ∧ a ∈ attrsIn l))

/-- The attributes of the last fields are given once. -/
theorem attrs_once (io : FloatIO) {xn : Option FInfo} {F : List FInfo} {S : List Sch} (n : Name)
    (hs : StructRt xn F S) : ∀ (fis : List FInfo) (ss : List Sch) (vs : List Val) (as : List Attr) (pre : List FInfo),
    F = pre ++ fis → (∀ (j : Nat) (fi : FInfo) (s : Sch), fis[j]? = some fi → ss[j]? = some s → fieldRt fi s = true) →
    oks ss = true → Typeds ss vs → Canons io fis ss vs →
    (∀ (j : Nat) (fi : FInfo) (l : List Val), fis[j]? = some fi → fi.mode = .anyAttr → vs[j]? = some (.slice l) →
      ∀ a, .attr a ∈ l → attrField F a.name = some (pre.length + j)) →
    (∀ (j : Nat) (fi : FInfo) (l : List Val), fis[j]? = some fi → fi.mode = .attr →
      vs[j]? = some (.ptr (some (.slice l))) → l.length ≤ 1) →
    (∀ (j : Nat) (fi : FInfo) (l : List Val), fis[j]? = some fi → fi.mode = .anyAttr → vs[j]? = some (.slice l) →
      AnyOnce F n (attrsIn l)) →
    marshalAttrs io fis ss vs = .ok as → AttrsOnce n as ∧ ∀ a ∈ as, FromField F vs pre.length fis a
  | [], ss, vs, as, pre, _, _, _, _, _, _, _, _, h => by
    have : as = [] := by
      cases ss <;> cases vs <;> simp only [marshalAttrs] at h <;> injection h with h <;> exact h.symm
    subst this
    exact ⟨⟨by simp, by simp, by simp⟩, by simp⟩
  | fi :: fis, [], vs, as, pre, hF, hrt, hok, ht, hc, _, _, _, h => by simp [Canons] at hc
  | fi :: fis, s :: ss, [], as, pre, hF, hrt, hok, ht, hc, _, _, _, h => by simp [Canons] at hc
  | fi :: fis, s :: ss, v :: vs, as, pre, hF, hrt, hok, ht, hc, hany, hsh, hon, h => by
    simp only [Canons] at hc
    simp only [Typeds] at ht
    simp only [oks, Bool.and_eq_true] at hok
    have hty : Typed s v := by
      rcases ht.1 with h | h
      · rw [hc.1] at h; cases h
      · exact h
    have hfi := hrt 0 fi s rfl rfl
    have hget : F[pre.length]? = some fi := by subst hF; simp
    have hgetj : ∀ (j : Nat) (f : FInfo), fis[j]? = some f → F[pre.length + 1 + j]? = some f := by
      intro j f hj
      subst hF
      rw [List.getElem?_append_right (by omega)]
      have : pre.length + 1 + j - pre.length = j + 1 := by omega
      rw [this]; simpa using hj
    have ih := fun (b : List Attr) (hb : marshalAttrs io fis ss vs = .ok b) =>
      attrs_once io n hs fis ss vs b (pre ++ [fi]) (by simp [hF]) (fun j f s h1 h2 => hrt (j + 1) f s h1 h2) hok.2 ht.2
        hc.2.2 (fun j f l h1 h2 h3 a ha => by
          have := hany (j + 1) f l h1 h2 h3 a ha
          rw [this]; simp; omega) (fun j f l h1 h2 h3 => hsh (j + 1) f l h1 h2 h3)
        (fun j f l h1 h2 h3 => hon (j + 1) f l h1 h2 h3) hb
    have up : ∀ a, FromField F vs (pre ++ [fi]).length fis a → FromField F (v :: vs) pre.length (fi :: fis) a := by
      rintro a ⟨j, f, h1, h2, h3⟩
      refine ⟨j + 1, f, by simpa using h1, ?_, ?_⟩
      · rw [h2]; simp; omega
      · simpa using h3
    have comb : ∀ (a b : List Attr), marshalAttrs io fis ss vs = .ok b → as = a ++ b → AttrsOnce n a →
        (∀ x ∈ a, attrField F (meant x) = some pre.length ∧
          ((fi.mode = .attr ∧ x.name.space = fi.xmlns ∧ fi.xmlns ≠ xmlnsURL) ∨
            (fi.mode = .anyAttr ∧ ∃ l, v = .slice l ∧ x ∈ attrsIn l))) →
        AttrsOnce n as ∧ ∀ x ∈ as, FromField F (v :: vs) pre.length (fi :: fis) x := by
      intro a b hb hab ha hgo
      obtain ⟨i1, i2⟩ := ih b hb
      subst hab
      refine ⟨⟨?_, ?_, ?_⟩, ?_⟩
      · rw [List.map_append, List.nodup_append]
        refine ⟨ha.names, i1.names, ?_⟩
        intro x hx y hy hxy
        obtain ⟨x', hx', rfl⟩ := List.mem_map.1 hx
        obtain ⟨y', hy', rfl⟩ := List.mem_map.1 hy
        obtain ⟨j, f, _, h2, _⟩ := i2 y' hy'
        have h1 := (hgo x' hx').1
        rw [hxy, h2] at h1
        injection h1 with h1
        simp at h1
        omega
      · rw [List.pairwise_append]
        refine ⟨ha.first, i1.first, ?_⟩
        intro x hx y hy hyx
        obtain ⟨j, f, f1, f2, f3⟩ := i2 y hy
        rcases f3 with ⟨_, g1, g2⟩ | ⟨g1, l, g2, g3⟩
        · exact absurd (g1.symm.trans hyx) g2
        · rcases (hgo x hx).2 with ⟨m1, m2, m3⟩ | ⟨m1, _⟩
          · left
            rw [m2]
            exact (hon (j + 1) f l (by simpa using f1) g1 (by simpa using g2)).fields y g3 hyx fi
              (List.mem_of_getElem? hget) m1
          · have := hs.single pre.length (pre.length + 1 + j) fi f hget (hgetj j f f1) (m1.trans g1.symm) (Or.inr m1)
            omega
      · intro x hx
        rcases List.mem_append.1 hx with hx | hx
        · exact ha.own x hx
        · exact i1.own x hx
      · intro x hx
        rcases List.mem_append.1 hx with hx | hx
        · obtain ⟨h1, h2⟩ := hgo x hx
          refine ⟨0, fi, rfl, by simpa using h1, ?_⟩
          simpa using h2
        · exact up x (i2 x hx)
    have skip : marshalAttrs io fis ss vs = .ok as → _ := fun hb =>
      comb [] as hb rfl ⟨by simp, by simp, by simp⟩ (by simp)
    simp only [marshalAttrs] at h
    split at h
    · rename_i hmode
      split at h
      · exact skip h
      · split at h
        · cases h
        · rename_i a ha
          split at h
          · cases h
          · rename_i b hb
            injection h with h
            rcases hmode with hm | hm
            · have hfi := fieldRt_attr hfi hm
              obtain ⟨sp, sne, sx⟩ := splitPrefixed_tag hfi.2
              obtain ⟨a1, _⟩ := attr_back io (some fi) s _ v a hfi.1 hok.1 hty (hc.2.1.1 (by simp [hm])) ha
              have hlen := attr_short io s _ v a hfi.1 hty (fun l hl => hsh 0 fi l rfl hm (by simp [hl])) ha
              have hx : fi.xmlns ≠ xmlnsURL := by
                have := hfi.2
                simp only [tagOk, Bool.and_eq_true, bne_iff_ne] at this
                exact this.2
              refine comb a b hb h.symm ⟨?_, ?_, ?_⟩ ?_
              · match a, hlen with
                | [], _ => simp
                | [_], _ => simp
              · match a, hlen with
                | [], _ => simp
                | [_], _ => simp
              · intro x hxa hxs
                rw [a1 x hxa] at hxs
                exact absurd hxs hx
              · intro x hxa
                refine ⟨?_, Or.inl ⟨hm, by rw [a1 x hxa], hx⟩⟩
                have : meant x = ⟨fi.xmlns, fi.loc⟩ := by
                  simp only [meant, resA, a1 x hxa, sp]
                rw [this]
                exact attrField_own hs hget hm
            · have := fieldRt_any hfi hm
              subst this
              obtain ⟨l, rfl, hl⟩ := slice_typed hty
              have hcl := hc.2.1.1 (by simp [hm])
              simp only [Canon] at hcl
              simp only [marshalAttr] at ha
              obtain ⟨k1, k2, k3, k4⟩ := anyAttrs_items io (some fi) _ l a hl (fun v hv => (hcl v hv).2) ha
              have hmean : ∀ x ∈ a, meant x = x.name := by
                intro x hx
                have := map_self k3 x hx
                simp only [meant, this]
              have ho := hon 0 fi l rfl hm rfl
              rw [← k1] at ho
              refine comb a b hb h.symm ⟨?_, ho.first, ho.own⟩ ?_
              · rw [List.map_congr_left hmean]; exact ho.names
              · intro x hx
                refine ⟨?_, Or.inr ⟨hm, l, rfl, k1 ▸ hx⟩⟩
                rw [hmean x hx]
                exact hany 0 fi l rfl hm rfl x (k2 x hx)
    · exact skip h

/-- An element is never taken out of the default namespace. -/
theorem resetNs_nil {ns : Bytes} {xn : Option FInfo} {n : Name} (h : tagless xn = true → ns = [] ∨ n.space = ns) :
    resetNs ns xn n = [] := by
  cases xn with
  | none => rfl
  | some x =>
    unfold resetNs
    dsimp only
    rw [if_neg]
    rintro ⟨h1, _, h3, h4⟩
    rcases h (by simp [tagless, h3]) with h | h
    · exact h4 h
    · exact h4 (h.symm.trans h1)

theorem once_concat : ∀ {l : List (Except MErr (List Item))} {items : List Item}, concatM l = .ok items →
    (∀ a, .ok a ∈ l → ItemsOnce a) → ItemsOnce items
  | [], items, h, _ => by simp only [concatM] at h; injection h with h; subst h; trivial
  | .error e :: l, items, h, _ => by simp [concatM] at h
  | .ok a :: l, items, h, hl => by
    simp only [concatM] at h
    split at h
    · cases h
    rename_i b hb
    injection h with h; subst h
    exact itemsOnce_append (hl a (by simp)) (once_concat hb fun a ha => hl a (by simp [ha]))

mutual
theorem onceV (io : FloatIO) (X : Pairs) (L : List Bytes) : ∀ (s : Sch) (D : Pairs) (fi : Option FInfo) (ns : Bytes) (v : Val)
    (items : List Item), s.rt L = true → s.ok = true → s.noAttr = true → Typed s v → Canon io fi s v → NsOk X D ns fi s v →
    OnceV fi s v → marshalV io ns fi s v = .ok items → ItemsOnce items
  | .simple k, D, fi, ns, v, items, hrt, hk, hna, ht, hc, hn, ho, hm => by
    have : ∃ b, items = [.elem (startName none ⟨[], []⟩ fi []) [] [.str b]] := by
      unfold marshalV at hm
      split at hm
      · cases hm
      · injection hm with hm; exact ⟨_, hm.symm⟩
    obtain ⟨b, rfl⟩ := this
    exact ⟨⟨⟨by simp, by simp, by simp⟩, trivial, trivial⟩, trivial⟩
  | .ptr s, D, fi, ns, v, items, hrt, hk, hna, ht, hc, hn, ho, hm => by
    cases v with
    | ptr o =>
      cases o with
      | none =>
        simp only [marshalV] at hm
        injection hm with hm; subst hm
        trivial
      | some v =>
        simp only [Typed] at ht
        simp only [Canon] at hc
        simp only [NsOk] at hn
        simp only [OnceV] at ho
        simp only [Sch.rt] at hrt
        simp only [Sch.ok] at hk
        simp only [Sch.noAttr] at hna
        simp only [marshalV] at hm
        exact onceV io X L s D fi ns v items hrt hk hna ht hc.2 hn ho hm
    | _ => simp [Typed] at ht
  | .slice s, D, fi, ns, v, items, hrt, hk, hna, ht, hc, hn, ho, hm => by
    cases v with
    | slice l =>
      simp only [Typed] at ht
      simp only [Canon] at hc
      simp only [NsOk] at hn
      simp only [OnceV] at ho
      simp only [Sch.rt] at hrt
      simp only [Sch.ok] at hk
      simp only [Sch.noAttr] at hna
      simp only [marshalV] at hm
      refine once_concat hm fun a ha => ?_
      obtain ⟨v, hv, hva⟩ := List.mem_map.1 ha
      split at hva
      · injection hva with hva; subst hva
        trivial
      · exact onceV io X L s D fi ns v a hrt hk hna (ht v hv) (hc v hv).2 (hn v hv) (ho v hv) hva
    | _ => simp [Typed] at ht
  | .struct tn xn F S, D, fi, ns, v, items, hrt, hk, hna, ht, hc, hn, ho, hm => by
    cases v with
    | struct xv vs =>
      simp only [Typed] at ht
      simp only [Sch.rt, Bool.and_eq_true] at hrt
      simp only [Sch.ok] at hk
      have hs := StructRt.of hrt.1.1
      simp only [Canon] at hc
      simp only [NsOk] at hn
      simp only [OnceV] at ho
      simp only [marshalV] at hm
      split at hm
      · cases hm
      rename_i attrs hat
      split at hm
      · cases hm
      rename_i kids hki
      injection hm with hm; subst hm
      have hoks : oks S = true := by simp only [Bool.and_eq_true] at hk; exact hk.2
      rw [resetNs_nil fun h => (hn.1 h).1, List.append_nil]
      refine ⟨⟨(attrs_once io _ hs F S vs attrs [] rfl hs.rt hoks ht.2 hc.2.2 ?_ ho.1 ho.2.1 hat).1, ?_⟩, trivial⟩
      · intro j f l h1 h2 h3 a ha
        rw [hc.2.1 j f l h1 h2 h3 a ha]; simp
      · exact onceF io X L S F vs _ _ kids hrt.2 hoks hs.rt ht.2 hc.2.2 hn.2.2 ho.2.2 hki
    | _ => simp [Typed] at ht
  | .bad _, _, _, _, _, _, hrt, _, _, _, _, _, _, _ => by simp [Sch.rt] at hrt
  | .name, _, _, _, _, _, hrt, _, _, _, _, _, _, _ => by simp [Sch.rt] at hrt
  | .attr, _, _, _, _, _, _, _, hna, _, _, _, _, _ => by simp [Sch.noAttr] at hna
theorem onceF (io : FloatIO) (X : Pairs) (L : List Bytes) : ∀ (S : List Sch) (F : List FInfo) (vs : List Val) (D : Pairs)
    (ns : Bytes) (items : List Item), rts L S = true → oks S = true →
    (∀ (i : Nat) (fi : FInfo) (s : Sch), F[i]? = some fi → S[i]? = some s → fieldRt fi s = true) → Typeds S vs →
    Canons io F S vs → NsOks X D ns F S vs → OnceVs F S vs → marshalFields io ns F S vs = .ok items → ItemsOnce items
  | [], F, vs, D, ns, items, _, _, _, _, _, _, _, hm => by
    have : items = [] := by
      cases F <;> cases vs <;> simp only [marshalFields] at hm <;> injection hm with hm <;> exact hm.symm
    subst this
    trivial
  | s :: S, [], vs, D, ns, items, _, _, _, _, _, _, _, hm => by
    simp only [marshalFields] at hm
    injection hm with hm; subst hm
    trivial
  | s :: S, fi :: F, [], D, ns, items, _, _, _, _, _, _, _, hm => by
    simp only [marshalFields] at hm
    injection hm with hm; subst hm
    trivial
  | s :: S, fi :: F, v :: vs, D, ns, items, hrt, hk, hfr, ht, hc, hn, ho, hm => by
    simp only [Typeds] at ht
    simp only [Canons] at hc
    simp only [NsOks] at hn
    simp only [OnceVs] at ho
    simp only [rts, Bool.and_eq_true] at hrt
    simp only [oks, Bool.and_eq_true] at hk
    have hty : Typed s v := by
      rcases ht.1 with h | h
      · rw [hc.1] at h; cases h
      · exact h
    have hfi := hfr 0 fi s rfl rfl
    simp only [marshalFields] at hm
    split at hm
    · cases hm
    rename_i a ha
    split at hm
    · cases hm
    rename_i b hb
    injection hm with hm; subst hm
    refine itemsOnce_append ?_ (onceF io X L S F vs D ns b hrt.2 hk.2 (fun i fi s h1 h2 => hfr (i + 1) fi s h1 h2) ht.2
      hc.2.2 hn.2 ho.2 hb)
    unfold fieldItems at ha
    split at ha
    · injection ha with ha; subst ha
      trivial
    rename_i hmode
    split at ha
    · rename_i hch
      injection ha with ha; subst ha
      have := fieldRt_chars hfi hch
      subst this
      cases v <;> simp [Typed, KindOk] at hty
      simp only [charText, marshalSimple]
      exact ⟨trivial, trivial⟩
    rename_i hch
    split at ha
    · rename_i hix
      unfold fieldRt at hfi
      simp only [hix] at hfi
      split at hfi
      · cases v with
        | str b =>
          simp only [rawText] at ha
          injection ha with ha; subst ha
          exact ⟨ho.1.2 hix b rfl, trivial⟩
        | _ => simp [Typed, KindOk] at hty
      · cases hfi
    rename_i hix
    split at ha
    · injection ha with ha; subst ha
      trivial
    · have hel : fi.mode = .elem := by
        cases h : fi.mode <;> simp_all
      obtain ⟨e1, e2⟩ := fieldRt_elem hfi hel
      exact onceV io X L s D (some fi) ns v a hrt.1 hk.1 (elemShape_noAttr e1) hty (hc.2.1.1 hix) hn.1 ho.1.1 ha
end

/-- A struct is written as one element. -/
theorem struct_root (io : FloatIO) {ns : Bytes} {fi : Option FInfo} {tn : Bytes} {xn : Option FInfo} {F : List FInfo}
    {S : List Sch} {v : Val} {items : List Item} (ht : Typed (.struct tn xn F S) v)
    (hm : marshalV io ns fi (.struct tn xn F S) v = .ok items) : ∃ n as kids, items = [.elem n as kids] := by
  cases v with
  | struct xv vs =>
    simp only [marshalV] at hm
    split at hm
    · cases hm
    split at hm
    · cases hm
    injection hm with hm
    exact ⟨_, _, _, hm.symm⟩
  | _ => simp [Typed] at ht

theorem notStart_names {p : PTok} {l : List Name} (h : notStart p = true) :
    (match p.tok with | .startElement _ as => some (as.map (·.name)) | _ => none) ≠ some l := by
  unfold notStart at h
  cases hpt : p.tok <;> rw [hpt] at h <;> simp_all

/-- **C48**, in part: a manifest whose `any,attr` fields have distinct names, with declarations of prefixes first and not in
an element that has a prefix itself, and whose attribute lists have at most one entry (`OnceV`), is written without a start
tag that has two attributes with the same name, with or without a header and with any indentation by white space.  The names
compared are those after resolving prefixes, so that two prefixes for one namespace do not hide a repetition.  `Canon` and
`NsOk` are the conditions of C30.  Missing: values outside these conditions, where the claim is false (`C48_refuted`). -/
theorem C48_once_partial (io : FloatIO) (X : Pairs) (hX : extOk mpdPairs X mpdLocs = true) (v : Val)
    (ht : Typed tMPD.sch v) (hc : Canon io none tMPD.sch v) (hn : NsOk X [] [] none tMPD.sch v)
    (ho : OnceV none tMPD.sch v) (indent : Bytes) (hind : IsWs indent) (hdr : Bool) :
    ∃ doc, writeDoc io tMPD.sch v indent hdr = .ok doc ∧ ∀ l ∈ tagNames doc, l.Nodup := by
  obtain ⟨items, hm⟩ := (C39_marshal io v ht).2 (canon_whole _ _ _ hc)
  have hk : Kept mpdLocs Env.empty items := by
    refine keptV io mpdPairs X mpdLocs hX ?_ tMPD.sch [] [] none false [] v Env.empty items mpd_ns mpd_rt
      (by decide +kernel) ht hc hn (by simp) ⟨by simp [From, Env.empty], by simp, fun _ => rfl, Or.inl rfl⟩ hm
    intro x hx
    have := List.all_eq_true.1 mpd_pairs x hx
    simpa using this
  have hone := onceV io X mpdLocs tMPD.sch [] none [] v items mpd_rt mpd_ok (by decide +kernel) ht hc hn ho hm
  obtain ⟨hok, xs, hr, hd⟩ := hk
  obtain ⟨tn, xn, hs⟩ := struct_eta tMPD.sch (by decide +kernel)
  have hroot : ∃ n as kids, items = [.elem n as kids] := by
    rw [hs] at hm ht
    exact struct_root io ht hm
  obtain ⟨n, as, kids, rfl⟩ := hroot
  obtain ⟨x, hx, rfl⟩ := resolves_one hr
  obtain ⟨doc, he, htok⟩ := C29_names_partial [] indent (by simp [IsWs]) hind n as kids hok.1 x hx
  obtain ⟨pl, bs, as', ks, d, _, _, _, rfl⟩ := resolve_elem hx
  have hto := nodeTokens_once [] indent (resolve_once _ _ _ hone.1 hx)
  obtain ⟨l, hl⟩ := nodeTokens_start indent _ _ ks
  rw [hl] at htok hto
  obtain ⟨hd', rest, h1, h2, h3, _⟩ := doc_tokens htok hdr
  refine ⟨(if hdr then xmlHeader else []) ++ doc, ?_, ?_⟩
  · unfold writeDoc
    rw [hm]
    dsimp only
    rw [he]
  · intro names hin
    unfold tagNames at hin
    rw [h2] at hin
    obtain ⟨p, hp, hpn⟩ := List.mem_filterMap.1 hin
    rcases List.mem_append.1 hp with hp | hp
    · exact absurd hpn (notStart_names (h1 p hp))
    · have := hto p.tok (by rw [← h3]; exact List.mem_map.2 ⟨p, hp, rfl⟩)
      cases hpt : p.tok with
      | startElement n as =>
        rw [hpt] at this hpn
        injection hpn with hpn; subst hpn
        exact this
      | _ => rw [hpt] at hpn; cases hpn

/-! ### Checking values -/

/-- `AnyOnce`. -/
def anyOnceB (infos : List FInfo) (n : Name) (l : List Attr) : Bool :=
  decide (l.map (·.name)).Nodup &&
  decide (l.Pairwise fun a b => b.name.space = xmlnsURL → a.name.space = [] ∨ a.name.space = xmlnsURL) &&
  l.all fun a => a.name.space != xmlnsURL || ((splitPrefixed n.loc).1 == [] && infos.all fun f => f.mode != .attr || f.xmlns == [])

theorem anyOnceB_sound {infos : List FInfo} {n : Name} {l : List Attr} (h : anyOnceB infos n l = true) : AnyOnce infos n l := by
  simp only [anyOnceB, Bool.and_eq_true, decide_eq_true_eq, List.all_eq_true, Bool.or_eq_true, bne_iff_ne, beq_iff_eq] at h
  obtain ⟨⟨h1, h2⟩, h3⟩ := h
  exact ⟨h1, h2, fun a ha hx => ((h3 a ha).resolve_left fun h => h hx).1, fun a ha hx f hf hm =>
    (((h3 a ha).resolve_left fun h => h hx).2 f hf).resolve_left fun h => h hm⟩

/-- Attribute lists with at most one entry. -/
def shortB (infos : List FInfo) (vs : List Val) : Bool :=
  (List.range infos.length).all fun i =>
    match infos[i]?, vs[i]? with
    | some fi, some (.ptr (some (.slice l))) => fi.mode != .attr || decide (l.length ≤ 1)
    | _, _ => true

theorem shortB_sound {infos : List FInfo} {vs : List Val} (h : shortB infos vs = true) : ∀ (i : Nat) (f : FInfo) (l : List Val),
    infos[i]? = some f → f.mode = .attr → vs[i]? = some (.ptr (some (.slice l))) → l.length ≤ 1 := by
  intro i f l h1 h2 h3
  have hi : i < infos.length := (List.getElem?_eq_some_iff.1 h1).1
  have := List.all_eq_true.1 h i (List.mem_range.2 hi)
  rw [h1, h3] at this
  simpa only [h2, bne_self_eq_false, Bool.false_or, decide_eq_true_eq] using this

theorem specRun_names : ∀ (ts : List Token) (os os' : List Open) (ts' : List Token), specRun os ts = some (ts', os') →
    (∀ n as, Token.startElement n as ∈ ts → (as.map (·.name.loc)).Nodup) → ∀ t ∈ ts', TokOnce t
  | [], os, os', ts', h, _, t, ht => by
    injection h with h; injection h with h _; subst h; simp at ht
  | u :: ts, os, os', ts', h, hn, t, ht => by
    simp only [specRun] at h
    split at h
    · cases h
    rename_i u' os1 hu
    split at h
    · cases h
    rename_i ts1 os2 hrun
    injection h with h; injection h with h _; subst h
    rcases List.mem_cons.1 ht with rfl | ht
    · cases t with
      | startElement n as =>
        obtain ⟨m, bs, rfl, _, rfl⟩ := spec_start hu
        have := hn m bs (by simp)
        simp only [specToken] at hu
        split at hu
        · cases hu
        injection hu with hu; injection hu with hu _
        injection hu with _ hu
        subst hu
        simp only [TokOnce]
        have key : ∀ n : Name, (resolveAttr (⟨m, bs.filterMap Xml.declOf⟩ :: os) n).loc = n.loc := by
          intro n
          unfold resolveAttr
          split <;> rfl
        refine List.Nodup.of_map (·.loc) ?_
        simpa [List.map_map, Function.comp_def, key] using this
      | _ => trivial
    · exact specRun_names ts os1 os2 ts1 hrun (fun n as hm => hn n as (by simp [hm])) t ht

/-- Content whose start tags have attributes with different local names. -/
def innerOnceB : Val → Bool
  | .str b => (chunkToks b).all fun t => match t with
    | .startElement _ as => decide (as.map (·.name.loc)).Nodup
    | _ => true
  | _ => true

theorem innerOnceB_sound {v : Val} (h : innerOnceB v = true) : InnerOnce v := by
  rintro b rfl os ts os' hs
  refine specRun_names _ _ _ _ hs fun n as hm => ?_
  simp only [innerOnceB, List.all_eq_true] at h
  simpa using h _ hm

mutual
/-- `OnceV`. -/
def onceB (fi : Option FInfo) : Sch → Val → Bool
  | .ptr s, .ptr (some v) => onceB fi s v
  | .slice s, .slice l => l.all fun v => onceB fi s v
  | .struct tn xn infos subs, .struct xv vs =>
    shortB infos vs && anyB (fun _ l => anyOnceB infos (startName xn xv fi tn) l) infos vs && oncesB infos subs vs
  | _, _ => true
/-- `OnceVs`. -/
def oncesB : List FInfo → List Sch → List Val → Bool
  | fi :: fis, s :: ss, v :: vs => onceB (some fi) s v && (fi.mode != .innerxml || innerOnceB v) && oncesB fis ss vs
  | _, _, _ => true
end

mutual
theorem onceB_sound : ∀ (s : Sch) (fi : Option FInfo) (v : Val), onceB fi s v = true → OnceV fi s v
  | .ptr s, fi, v, h => by
    cases v with
    | ptr o =>
      cases o with
      | none => simp [OnceV]
      | some v =>
        simp only [onceB, OnceV] at h ⊢
        exact onceB_sound s fi v h
    | _ => simp [OnceV]
  | .slice s, fi, v, h => by
    cases v with
    | slice l =>
      simp only [onceB, OnceV, List.all_eq_true] at h ⊢
      exact fun v hv => onceB_sound s fi v (h v hv)
    | _ => simp [OnceV]
  | .struct tn xn infos subs, fi, v, h => by
    cases v with
    | struct xv vs =>
      simp only [onceB, OnceV, Bool.and_eq_true] at h ⊢
      exact ⟨shortB_sound h.1.1, fun i f l h1 h2 h3 => anyOnceB_sound (anyB_sound _ _ _ h.1.2 i f l h1 h2 h3),
        oncesB_sound subs infos vs h.2⟩
    | _ => simp [OnceV]
  | .simple _, _, _, _ => by simp [OnceV]
  | .name, _, _, _ => by simp [OnceV]
  | .bad _, _, _, _ => by simp [OnceV]
  | .attr, _, _, _ => by simp [OnceV]
theorem oncesB_sound : ∀ (subs : List Sch) (infos : List FInfo) (vs : List Val), oncesB infos subs vs = true →
    OnceVs infos subs vs
  | s :: ss, infos, vs, h => by
    cases infos with
    | nil => simp [OnceVs]
    | cons fi fis =>
      cases vs with
      | nil => simp [OnceVs]
      | cons v vs =>
        simp only [oncesB, OnceVs, Bool.and_eq_true, Bool.or_eq_true, bne_iff_ne] at h ⊢
        exact ⟨⟨onceB_sound s (some fi) v h.1.1, fun hm => innerOnceB_sound (h.1.2.resolve_left fun h => h hm)⟩,
          oncesB_sound ss fis vs h.2⟩
  | [], infos, vs, _ => by cases infos <;> simp [OnceVs]
end

theorem scteVal_once : onceB none tMPD.sch scteVal = true ∧ onceB none tMPD.sch vodVal = true := by decide +kernel

/-- A manifest with a declaration and an attribute that uses it in an `any,attr` field. -/
example : ∃ doc, writeDoc exIO tMPD.sch scteVal [ch%'\t'] true = .ok doc ∧ ∀ l ∈ tagNames doc, l.Nodup :=
  C48_once_partial exIO scteExt scteVal_ok.2.2.2 scteVal scteVal_typed (canonB_sound _ _ _ _ scteVal_ok.2.1)
    (nsB_sound _ _ _ _ _ _ scteVal_ok.2.2.1) (onceB_sound _ _ _ scteVal_once.1) _ (by simp [IsWs]) true

/-- The condition is not met by the value in `C48_refuted`. -/
example : onceB none tMPD.sch (valOf exIO (b!"<MPD><Period><AssetIdentifier schemeIdUri='u'><scte214:ContentIdentifier xmlns:scte214='urn:scte:dash:scte214-extensions' type='URI' value='v'/></AssetIdentifier></Period></MPD>")) = false := by
  decide +kernel

end Verif.Bind

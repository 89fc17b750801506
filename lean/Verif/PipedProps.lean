import Verif.Piped
import Verif.XmlNsProps
import Verif.KRfl

/-!
C77: the tokens of a decoder pass unchanged through a second decoder.
-/
namespace Verif.Piped

open Verif.Xml

/-! ### Specification -/

/-- A reader that returns the tokens `ts` one by one. -/
def each (ts : List Token) : List Reply := ts.map fun t => ⟨some t, none⟩

/-- A name whose name space is one of the two reserved prefixes. -/
def Reserved (n : Name) : Prop := n.space = b!"xml" ∨ n.space = b!"xmlns"

instance (n : Name) : Decidable (Reserved n) := by unfold Reserved; infer_instance

/-- No element and no attribute has a reserved prefix for its name space. -/
def Clear (t : Token) : Prop :=
  match t with
  | .startElement n attrs => ¬ Reserved n ∧ ∀ a ∈ attrs, ¬ Reserved a.name
  | _ => True

instance (t : Token) : Decidable (Clear t) := by cases t <;> unfold Clear <;> infer_instance

/-- No element declares one of the words `xml` and `xmlns` as a name space. -/
def Ordinary (t : Token) : Prop :=
  match t with
  | .startElement _ attrs => ∀ a ∈ attrs, ∀ d, declOf a = some d → d.2 ≠ b!"xml" ∧ d.2 ≠ b!"xmlns"
  | _ => True

/-! ### The second decoder -/

/-- The prefixes declared with a name space that is not empty. -/
def Solid (o : Open) : Prop := ∀ d ∈ o.decls, d.1 ≠ [] → d.2 ≠ []

theorem solid_bound {os : List Open} (h : ∀ o ∈ os, Solid o) (p v : Bytes) (hp : p ≠ []) (hb : bound os p = some v) : v ≠ [] := by
  induction os with
  | nil => cases hb
  | cons o os ih =>
    simp only [bound] at hb
    split at hb
    · rename_i d hf
      injection hb with hb
      subst hb
      have h1 := List.find?_some hf
      have h2 := List.mem_of_find?_eq_some hf
      rw [List.mem_reverse] at h2
      simp only [decide_eq_true_eq] at h1
      exact h o (by simp) d h2 (by rw [h1]; exact hp)
    · exact ih (fun o ho => h o (by simp [ho])) hb

theorem solid_new (n : Name) (attrs : List Attr) (h : ¬ ∃ a ∈ attrs, BadDecl a) : Solid ⟨n, attrs.filterMap declOf⟩ := by
  intro d hd hk
  simp only [List.mem_filterMap] at hd
  obtain ⟨a, ha, hd⟩ := hd
  have hb : ¬ BadDecl a := fun hb => h ⟨a, ha, hb⟩
  rw [declOf] at hd
  split at hd
  · rename_i hs
    injection hd with hd
    subst hd
    intro hv
    exact hb ⟨hs, Or.inl hv⟩
  · split at hd
    · injection hd with hd
      subst hd
      exact absurd rfl hk
    · cases hd

/-- The state of the second decoder for the elements open in the first: it knows only the default name space. -/
inductive Two : List Open → NsMap → List Stk → Prop where
  | nil : Two [] (fun _ => none) []
  | cons (o : Open) (os : List Open) (attrs : List Attr) (ns ns' : NsMap) (stk stk' : List Stk) :
      Two os ns stk → Solid o → ¬ Reserved (resolveElement (o :: os) o.name) → pushNs attrs ns stk = .ok (ns', stk') →
      (∀ k, ns' k = if k = [] then bound (o :: os) [] else none) →
      Two (o :: os) ns' (.start (resolveElement (o :: os) o.name) :: stk')

theorem Two.lookup {os : List Open} {ns : NsMap} {stk : List Stk} (h : Two os ns stk) (k : Bytes) :
    ns k = if k = [] then bound os [] else none := by
  cases h with
  | nil => split <;> rfl
  | cons o os attrs ns ns' stk stk' h1 h2 hr h3 h4 => exact h4 k

theorem Two.solid {os : List Open} {ns : NsMap} {stk : List Stk} (h : Two os ns stk) : ∀ o ∈ os, Solid o := by
  induction h with
  | nil => intro o ho; cases ho
  | cons o os attrs ns ns' stk stk' h1 h2 hr h3 h4 ih =>
    intro o' ho
    rcases List.mem_cons.1 ho with rfl | ho
    · exact h2
    · exact ih o' ho

theorem Two.pop {os : List Open} {ns : NsMap} {stk : List Stk} (h : Two os ns stk) : popNs ns stk = (ns, stk) := by
  cases h <;> rfl

theorem Two.nil_iff {os : List Open} {ns : NsMap} {stk : List Stk} (h : Two os ns stk) : stk = [] ↔ os = [] := by
  cases h <;> simp

/-- The declarations that are left for the second decoder. -/
theorem declOf_again (os : List Open) (hs : ∀ o ∈ os, Solid o) (a : Attr) (hb : ¬ BadDecl a) (hc : (resolveAttr os a.name).space ≠ b!"xmlns") :
    declOf ⟨resolveAttr os a.name, a.value⟩ = (declOf a).filter (fun d => d.1 = []) := by
  obtain ⟨⟨sp, lo⟩, v⟩ := a
  by_cases h0 : sp = []
  · subst h0
    have e : resolveAttr os ⟨[], lo⟩ = ⟨[], lo⟩ := by rw [resolveAttr, if_pos rfl]
    dsimp only
    rw [e]
    simp only [declOf]
    rw [if_neg (by decide)]
    split <;> simp [Option.filter]
  · have e : resolveAttr os ⟨sp, lo⟩ = ⟨resolvePrefix os sp, lo⟩ := by rw [resolveAttr, if_neg h0]
    dsimp only at hc
    rw [e] at hc
    have hne : resolvePrefix os sp ≠ [] := by
      unfold resolvePrefix
      split
      · decide
      split
      · decide
      · cases hq : bound os sp with
        | none => exact h0
        | some w => exact solid_bound hs sp w h0 hq
    dsimp only
    rw [e]
    simp only [declOf]
    rw [if_neg hc, if_neg (by intro h; injection h with h; exact hne h)]
    split
    · rename_i hx
      have : lo ≠ [] := fun hl => hb ⟨hx, Or.inr hl⟩
      simp [Option.filter, this]
    · rw [if_neg (by intro h; injection h with h; exact h0 h)]
      rfl

theorem filterMap_again (os : List Open) (hs : ∀ o ∈ os, Solid o) (attrs : List Attr) (hb : ¬ ∃ a ∈ attrs, BadDecl a)
    (hc : ∀ a ∈ attrs, (resolveAttr os a.name).space ≠ b!"xmlns") :
    (attrs.map fun a => (⟨resolveAttr os a.name, a.value⟩ : Attr)).filterMap declOf =
      (attrs.filterMap declOf).filter (fun d => d.1 = []) := by
  induction attrs with
  | nil => rfl
  | cons a l ih =>
    have h1 := declOf_again os hs a (fun h => hb ⟨a, by simp, h⟩) (hc a (by simp))
    have h2 := ih (fun ⟨b, hb1, hb2⟩ => hb ⟨b, by simp [hb1], hb2⟩) (fun b hb' => hc b (by simp [hb']))
    rw [List.map_cons]
    cases hd : declOf a with
    | none =>
      rw [hd] at h1
      rw [List.filterMap_cons_none hd, List.filterMap_cons_none h1, h2]
    | some d =>
      rw [hd] at h1
      rw [List.filterMap_cons_some hd]
      by_cases hk : d.1 = []
      · have : Option.filter (fun d : Bytes × Bytes => decide (d.1 = [])) (some d) = some d := by simp [Option.filter, hk]
        rw [this] at h1
        rw [List.filterMap_cons_some h1, List.filter_cons_of_pos (by simp [hk]), h2]
      · have : Option.filter (fun d : Bytes × Bytes => decide (d.1 = [])) (some d) = none := by simp [Option.filter, hk]
        rw [this] at h1
        rw [List.filterMap_cons_none h1, List.filter_cons_of_neg (by simp [hk]), h2]

theorem find_again (l : List (Bytes × Bytes)) (k : Bytes) :
    (l.filter (fun d => d.1 = [])).reverse.find? (fun d => d.1 = k) = if k = [] then l.reverse.find? (fun d => d.1 = []) else none := by
  rw [← List.filter_reverse]
  generalize l.reverse = m
  induction m with
  | nil => simp
  | cons d m ih =>
    by_cases hd : d.1 = []
    · rw [List.filter_cons_of_pos (by simp [hd])]
      by_cases hk : k = []
      · simp [hd, hk]
      · rw [if_neg hk] at ih ⊢
        rw [List.find?_cons_of_neg (by simp [hd]; exact fun h => hk h), ih]
    · rw [List.filter_cons_of_neg (by simp [hd]), ih]
      by_cases hk : k = []
      · rw [if_pos hk, if_pos hk, List.find?_cons_of_neg (by simp [hd])]
      · rw [if_neg hk, if_neg hk]

/-- The name of an element, translated a second time. -/
theorem element_again {os : List Open} {ns : NsMap} (hs : ∀ o ∈ os, Solid o) (hl : ∀ k, ns k = if k = [] then bound os [] else none) (n : Name) :
    translate ns (resolveElement os n) true = resolveElement os n ↔ ¬ Reserved (resolveElement os n) := by
  generalize hm : resolveElement os n = m
  obtain ⟨sp, lo⟩ := m
  unfold translate Reserved
  dsimp only
  by_cases h1 : sp = xmlnsPrefix
  · rw [if_pos h1]
    have h1' : sp = b!"xmlns" := h1
    subst h1'
    simp [xmlnsURL]
  have h1' : ¬ sp = b!"xmlns" := h1
  rw [if_neg h1, if_neg (by simp)]
  by_cases h2 : sp = xmlPrefix
  · rw [if_pos h2, hl, if_neg (by decide)]
    have h2' : sp = b!"xml" := h2
    subst h2'
    simp [xmlURL]
  have h2' : ¬ sp = b!"xml" := h2
  rw [if_neg h2]
  simp only [h1', h2', or_self, not_false_eq_true, iff_true]
  split
  · rfl
  · rename_i h3
    rw [hl]
    by_cases h4 : sp = []
    · subst h4
      rw [if_pos rfl]
      unfold resolveElement at hm
      split at hm
      · rename_i hn
        subst hn
        injection hm with _ hm
        exact absurd ⟨rfl, hm.symm⟩ h3
      · injection hm with hm1 hm2
        unfold resolvePrefix at hm1
        split at hm1
        · simp at hm1
        split at hm1
        · simp at hm1
        · by_cases h5 : n.space = []
          · rw [h5] at hm1
            cases hb : bound os [] with
            | none => rfl
            | some v =>
              rw [hb] at hm1
              have : v = [] := hm1
              subst this
              rfl
          · cases hb : bound os n.space with
            | none =>
              rw [hb] at hm1
              exact absurd hm1 h5
            | some v =>
              rw [hb] at hm1
              exact absurd hm1 (solid_bound hs n.space v h5 hb)
    · rw [if_neg h4]

theorem translate_xmlns (ns : NsMap) (n : Name) (b : Bool) (h : n.space = b!"xmlns") : translate ns n b ≠ n := by
  unfold translate
  rw [if_pos (show n.space = xmlnsPrefix from h)]
  obtain ⟨sp, lo⟩ := n
  intro h2
  injection h2 with h2
  dsimp only at h
  rw [h] at h2
  exact absurd h2 (by decide)

/-- The name of an attribute, translated a second time. -/
theorem attr_again {ns : NsMap} (hl : ∀ k, k ≠ [] → ns k = none) (n : Name) : translate ns n false = n ↔ ¬ Reserved n := by
  obtain ⟨sp, lo⟩ := n
  unfold translate Reserved
  dsimp only
  by_cases h1 : sp = xmlnsPrefix
  · rw [if_pos h1]
    have h1' : sp = b!"xmlns" := h1
    subst h1'
    simp [xmlnsURL]
  have h1' : ¬ sp = b!"xmlns" := h1
  rw [if_neg h1]
  by_cases h0 : sp = []
  · rw [if_pos ⟨h0, rfl⟩]
    subst h0
    simp
  rw [if_neg (by simp [h0])]
  by_cases h2 : sp = xmlPrefix
  · rw [if_pos h2, hl _ (by decide)]
    have h2' : sp = b!"xml" := h2
    subst h2'
    simp [xmlURL]
  have h2' : ¬ sp = b!"xml" := h2
  rw [if_neg h2, if_neg (by simp [h0]), hl _ h0]
  simp [h1', h2']

/-- One start element: the second decoder returns it as it is exactly if it is clear of reserved name spaces. -/
theorem start_again {os : List Open} {ns : NsMap} {stk : List Stk} (h : Two os ns stk) (n : Name) (attrs : List Attr)
    (hb : ¬ ∃ a ∈ attrs, BadDecl a) :
    let os' := ⟨n, attrs.filterMap declOf⟩ :: os
    let t : Token := .startElement (resolveElement os' n) (attrs.map fun a => ⟨resolveAttr os' a.name, a.value⟩)
    (Clear t → ∃ ns' stk', cook t ns stk = .ok (t, ns', stk') ∧ Two os' ns' stk') ∧
    (¬ Clear t → ∀ r, cook t ns stk = .ok r → r.1 ≠ t) := by
  intro os' t
  have hsol : ∀ o ∈ os', Solid o := by
    intro o ho
    rcases List.mem_cons.1 ho with rfl | ho
    · exact solid_new n attrs hb
    · exact h.solid o ho
  -- the declarations of the second decoder
  have hpush : (∀ a ∈ attrs, (resolveAttr os' a.name).space ≠ b!"xmlns") →
      ∃ ns' stk', pushNs (attrs.map fun a => (⟨resolveAttr os' a.name, a.value⟩ : Attr)) ns stk = .ok (ns', stk') ∧
        (¬ Reserved (resolveElement os' n) → Two os' ns' (.start (resolveElement os' n) :: stk')) ∧
        (∀ k, ns' k = if k = [] then bound os' [] else none) := by
    intro hc
    have hok := (pushNs_ok_iff (attrs.map fun a => (⟨resolveAttr os' a.name, a.value⟩ : Attr)) ns stk).2 (by
      rintro ⟨a, ha, hbad⟩
      rw [List.mem_map] at ha
      obtain ⟨a0, ha0, rfl⟩ := ha
      exact hc a0 ha0 hbad.1)
    obtain ⟨⟨ns', stk'⟩, hok⟩ := hok
    have hk : ∀ k, ns' k = if k = [] then bound os' [] else none := by
      intro k
      rw [pushNs_lookup _ _ _ _ _ hok k, filterMap_again os' hsol attrs hb hc, find_again, h.lookup k]
      by_cases hk : k = []
      · rw [if_pos hk, if_pos hk, if_pos hk]
        rfl
      · rw [if_neg hk, if_neg hk, if_neg hk]
    exact ⟨ns', stk', hok, fun hr => Two.cons ⟨n, attrs.filterMap declOf⟩ os _ ns ns' stk stk' h (solid_new n attrs hb) hr hok hk, hk⟩
  constructor
  · rintro ⟨hc1, hc2⟩
    obtain ⟨ns', stk', h1, h2, hl⟩ := hpush (by
      intro a ha hx
      exact hc2 ⟨resolveAttr os' a.name, a.value⟩ (List.mem_map.2 ⟨a, ha, rfl⟩) (Or.inr hx))
    refine ⟨ns', _, ?_, h2 hc1⟩
    have e1 : translate ns' (resolveElement os' n) true = resolveElement os' n := (element_again hsol hl n).2 hc1
    have e2 : (attrs.map fun a => (⟨resolveAttr os' a.name, a.value⟩ : Attr)).map (fun a => (⟨translate ns' a.name false, a.value⟩ : Attr)) =
        attrs.map fun a => (⟨resolveAttr os' a.name, a.value⟩ : Attr) := by
      refine Eq.trans (List.map_congr_left (g := id) ?_) (List.map_id _)
      intro a ha
      have := (attr_again (ns := ns') (fun k hk => by rw [hl, if_neg hk]) a.name).2 (hc2 a ha)
      rw [this]
      rfl
    simp only [t, cook, h1, e1, e2]
  · intro hnc r hr heq
    apply hnc
    simp only [t, cook] at hr
    split at hr
    · cases hr
    rename_i ns' stk' h1
    injection hr with hr
    subst hr
    simp only [t] at heq
    injection heq with g1 g2
    have g3 : ∀ a ∈ attrs.map (fun a => (⟨resolveAttr os' a.name, a.value⟩ : Attr)), translate ns' a.name false = a.name := by
      intro a ha
      have g4 := List.map_inj_left.1 (g2.trans (List.map_id _).symm) a ha
      exact congrArg Attr.name g4
    have hx : ∀ a ∈ attrs, (resolveAttr os' a.name).space ≠ b!"xmlns" := by
      intro a ha hx
      exact translate_xmlns ns' _ false hx (g3 ⟨resolveAttr os' a.name, a.value⟩ (List.mem_map.2 ⟨a, ha, rfl⟩))
    obtain ⟨ns2, stk2, k1, k2, hl⟩ := hpush hx
    rw [h1] at k1
    injection k1 with k1
    injection k1 with k1 k1'
    subst k1
    refine ⟨(element_again hsol hl n).1 g1, ?_⟩
    intro a ha
    exact (attr_again (ns := ns') (fun k hk => by rw [hl, if_neg hk]) a.name).1 (g3 a ha)

theorem run_again {os : List Open} {ns : NsMap} {stk : List Stk} (h : Two os ns stk) (l : List Token) (fin : XErr)
    (hf : fin = .eof → nesting (openNames os) (specTokens os l) = some []) :
    run (each (specTokens os l)) fin ns stk = ((specTokens os l).map some, fin) ↔ ∀ t ∈ specTokens os l, Clear t := by
  induction l generalizing os ns stk with
  | nil =>
    simp only [specTokens, each, List.map_nil, run, List.not_mem_nil, false_implies, implies_true, iff_true, Prod.mk.injEq, true_and]
    unfold rawErr
    split
    · rename_i hc
      exfalso
      apply hc.2
      rw [h.nil_iff]
      have := hf hc.1
      simp only [specTokens, nesting, Option.some.injEq] at this
      cases os with
      | nil => rfl
      | cons => cases this
    · rfl
  | cons t l ih =>
    have plain : (∀ os, specToken os t = some (t, os)) → cook t ns stk = .ok (t, ns, stk) → Clear t →
        (∀ os l, nesting os (t :: l) = nesting os l) →
        (run (each (specTokens os (t :: l))) fin ns stk = ((specTokens os (t :: l)).map some, fin) ↔
          ∀ t' ∈ specTokens os (t :: l), Clear t') := by
      intro h1 h2 h3 h4
      have e : specTokens os (t :: l) = t :: specTokens os l := by rw [specTokens, h1]
      rw [e] at hf ⊢
      have := ih h (fun hx => by rw [← hf hx, h4])
      rw [Prod.ext_iff] at this
      simp only [each, List.map_cons, run, h2, Prod.mk.injEq, List.cons.injEq, true_and, List.mem_cons, forall_eq_or_imp, h3] at this ⊢
      exact this
    cases t with
    | charData b => exact plain (fun _ => rfl) rfl trivial (fun _ _ => by rw [nesting.eq_def])
    | comment b => exact plain (fun _ => rfl) rfl trivial (fun _ _ => by rw [nesting.eq_def])
    | procInst a b => exact plain (fun _ => rfl) rfl trivial (fun _ _ => by rw [nesting.eq_def])
    | directive b => exact plain (fun _ => rfl) rfl trivial (fun _ _ => by rw [nesting.eq_def])
    | startElement n attrs =>
      by_cases hb : ∃ a ∈ attrs, BadDecl a
      · have e : specTokens os (.startElement n attrs :: l) = specTokens os [] := by
          simp only [specTokens, specToken]; rw [if_pos hb]
        rw [e] at hf ⊢
        simp only [specTokens, each, List.map_nil, run, List.not_mem_nil, false_implies, implies_true, iff_true, Prod.mk.injEq, true_and]
        unfold rawErr
        split
        · rename_i hc
          exfalso
          apply hc.2
          rw [h.nil_iff]
          have := hf hc.1
          simp only [specTokens, nesting, Option.some.injEq] at this
          cases os with
          | nil => rfl
          | cons => cases this
        · rfl
      · obtain ⟨s1, s2⟩ := start_again h n attrs hb
        have e : specTokens os (.startElement n attrs :: l) =
            .startElement (resolveElement (⟨n, attrs.filterMap declOf⟩ :: os) n)
              (attrs.map fun a => ⟨resolveAttr (⟨n, attrs.filterMap declOf⟩ :: os) a.name, a.value⟩) ::
            specTokens (⟨n, attrs.filterMap declOf⟩ :: os) l := by
          simp only [specTokens, specToken]; rw [if_neg hb]
        rw [e] at hf ⊢
        revert s1 s2 hf
        generalize hT : Token.startElement (resolveElement (⟨n, attrs.filterMap declOf⟩ :: os) n)
              (attrs.map fun a => ⟨resolveAttr (⟨n, attrs.filterMap declOf⟩ :: os) a.name, a.value⟩) = T
        intro hf s1 s2
        by_cases hc : Clear T
        · obtain ⟨ns', stk', k1, k2⟩ := s1 hc
          have := ih k2 (fun hx => by
            have := hf hx
            rw [← hT, nesting] at this
            exact this)
          rw [Prod.ext_iff] at this
          simp only [each, List.map_cons, run, k1, Prod.mk.injEq, List.cons.injEq, true_and, List.mem_cons, forall_eq_or_imp, hc] at this ⊢
          exact this
        · constructor
          · intro hr
            exfalso
            cases hk : cook T ns stk with
            | error e =>
              simp only [each, List.map_cons, run, hk, Prod.mk.injEq] at hr
              cases hr.1
            | ok r =>
              obtain ⟨t', ns', stk'⟩ := r
              simp only [each, List.map_cons, run, hk, Prod.mk.injEq, List.cons.injEq, Option.some.injEq] at hr
              exact s2 hc _ hk hr.1.1
          · intro hall
            exact absurd (hall T (by simp)) hc
    | endElement n =>
      cases h with
      | nil =>
        have e : specTokens [] (.endElement n :: l) = [] := rfl
        rw [e]
        simp [each, run, rawErr]
      | cons o os attrs ns0 ns' stk0 stk' h1 h2 hr h3 h4 =>
        by_cases hn : o.name = n
        · have e : specTokens (o :: os) (.endElement n :: l) = .endElement (resolveElement (o :: os) n) :: specTokens os l := by
            rw [specTokens, specToken, if_pos hn]
          rw [e] at hf ⊢
          have hf' : fin = .eof → nesting (openNames os) (specTokens os l) = some [] := by
            intro hx
            have := hf hx
            rw [openNames, nesting, if_pos (by rw [hn])] at this
            exact this
          have := ih h1 hf'
          have h0 : Two (o :: os) ns (.start (resolveElement (o :: os) o.name) :: stk') := Two.cons o os attrs ns0 ns stk0 stk' h1 h2 hr h3 h4
          · rw [hn] at hr
            have k : cook (.endElement (resolveElement (o :: os) n)) ns (.start (resolveElement (o :: os) o.name) :: stk') =
                .ok (.endElement (resolveElement (o :: os) n), ns0, stk0) := by
              simp only [cook, popElement, hn, ne_eq, not_true_eq_false, if_false, (element_again h0.solid h0.lookup n).2 hr, pushNs_pop attrs ns0 ns stk0 stk' h3,
                h1.pop]
            rw [Prod.ext_iff] at this
            simp only [each, List.map_cons, run, k, Prod.mk.injEq, List.cons.injEq, true_and, List.mem_cons, forall_eq_or_imp, Clear] at this ⊢
            exact this
        · have e : specTokens (o :: os) (.endElement n :: l) = [] := by
            rw [specTokens, specToken, if_neg hn]
          rw [e] at hf ⊢
          have hne : fin ≠ .eof := by
            intro hx
            have := hf hx
            simp [nesting, openNames] at this
          simp [each, run, rawErr, hne]

/-! ### Name spaces of ordinary documents -/

theorem bound_mem {os : List Open} {p v : Bytes} (h : bound os p = some v) : ∃ o ∈ os, ∃ d ∈ o.decls, d.2 = v := by
  induction os with
  | nil => cases h
  | cons o os ih =>
    simp only [bound] at h
    split at h
    · rename_i d hf
      injection h with h
      have h2 := List.mem_of_find?_eq_some hf
      rw [List.mem_reverse] at h2
      exact ⟨o, by simp, d, h2, h⟩
    · obtain ⟨o', h1, h2⟩ := ih h
      exact ⟨o', by simp [h1], h2⟩

theorem resolvePrefix_ordinary {os : List Open} (h : ∀ o ∈ os, ∀ d ∈ o.decls, d.2 ≠ b!"xml" ∧ d.2 ≠ b!"xmlns") (p : Bytes) :
    resolvePrefix os p ≠ b!"xml" ∧ resolvePrefix os p ≠ b!"xmlns" := by
  unfold resolvePrefix
  split
  · decide
  split
  · decide
  · rename_i h1 h2
    cases hb : bound os p with
    | none => exact ⟨h2, h1⟩
    | some v =>
      obtain ⟨o, ho, d, hd, rfl⟩ := bound_mem hb
      exact h o ho d hd

theorem clear_of {os : List Open} (h : ∀ o ∈ os, ∀ d ∈ o.decls, d.2 ≠ b!"xml" ∧ d.2 ≠ b!"xmlns") (l : List Token)
    (hl : ∀ t ∈ l, Ordinary t) : ∀ t ∈ specTokens os l, Clear t := by
  induction l generalizing os with
  | nil => intro t ht; cases ht
  | cons t l ih =>
    intro t' ht'
    rw [specTokens] at ht'
    split at ht'
    · cases ht'
    rename_i u os' hs
    have key : Clear u ∧ ∀ o ∈ os', ∀ d ∈ o.decls, d.2 ≠ b!"xml" ∧ d.2 ≠ b!"xmlns" := by
      cases t with
      | startElement n attrs =>
        simp only [specToken] at hs
        split at hs
        · cases hs
        injection hs with hs
        injection hs with h1 h2
        subst h1
        have ho := hl _ (List.mem_cons_self)
        have hos : ∀ o ∈ os', ∀ d ∈ o.decls, d.2 ≠ b!"xml" ∧ d.2 ≠ b!"xmlns" := by
          subst h2
          intro o hm d hd
          rcases List.mem_cons.1 hm with rfl | hm
          · simp only [List.mem_filterMap] at hd
            obtain ⟨a, ha, hd⟩ := hd
            exact ho a ha d hd
          · exact h o hm d hd
        rw [h2]
        refine ⟨⟨?_, ?_⟩, hos⟩
        · unfold resolveElement
          split
          · rename_i hn
            rw [hn]
            unfold Reserved
            decide
          · have := resolvePrefix_ordinary hos n.space
            exact fun hr => hr.elim this.1 this.2
        · intro a ha
          rw [List.mem_map] at ha
          obtain ⟨b, hb, rfl⟩ := ha
          dsimp only
          unfold resolveAttr
          split
          · rename_i hn
            unfold Reserved
            rw [hn]
            decide
          · have := resolvePrefix_ordinary hos b.name.space
            exact fun hr => hr.elim this.1 this.2
      | endElement n =>
        simp only [specToken] at hs
        split at hs
        · split at hs
          · injection hs with hs
            injection hs with h1 h2
            subst h1
            subst h2
            exact ⟨trivial, fun o ho => h o (by simp [ho])⟩
          · cases hs
        · cases hs
      | charData b => injection hs with hs; injection hs with h1 h2; subst h1; subst h2; exact ⟨trivial, h⟩
      | comment b => injection hs with hs; injection hs with h1 h2; subst h1; subst h2; exact ⟨trivial, h⟩
      | procInst a b => injection hs with hs; injection hs with h1 h2; subst h1; subst h2; exact ⟨trivial, h⟩
      | directive b => injection hs with hs; injection hs with h1 h2; subst h1; subst h2; exact ⟨trivial, h⟩
    rcases List.mem_cons.1 ht' with rfl | ht'
    · exact key.1
    · exact ih key.2 (fun t ht => hl t (by simp [ht])) t' ht'

/-! ### The theorems -/

/-- C77, exactly: for every document, the tokens and the final error of its decoder come out of a second decoder as they went in if and only if no
name has one of the words `xml` and `xmlns` for its name space. -/
theorem C77_iff (doc : Bytes) (n : Nat) (ts : List Token) (e : XErr) (h : tokRun n (Dec.new doc) = (ts, some e)) :
    newTokenDecoder (each ts) e = (ts.map some, e) ↔ ∀ t ∈ ts, Clear t := by
  have h1 : ts = specTokens [] (rawRun n ⟨doc, none⟩) := by rw [← C27_scoping, h]
  have h2 := C26_eof_closed doc n
  rw [h] at h2
  have := run_again Two.nil (rawRun n ⟨doc, none⟩) e (by
    intro he
    rw [← h1]
    exact h2 (by rw [he]))
  rw [← h1] at this
  exact this

/-- C77: a second decoder changes nothing in a document that does not declare one of the words `xml` and `xmlns` as a name space. -/
theorem C77_ordinary_partial (doc : Bytes) (n : Nat) (ts : List Token) (e : XErr) (h : tokRun n (Dec.new doc) = (ts, some e))
    (ho : ∀ t ∈ rawRun n ⟨doc, none⟩, Ordinary t) : newTokenDecoder (each ts) e = (ts.map some, e) := by
  rw [C77_iff doc n ts e h]
  have h1 : ts = specTokens [] (rawRun n ⟨doc, none⟩) := by rw [← C27_scoping, h]
  rw [h1]
  exact clear_of (fun o ho => by cases ho) _ ho

/-- C77: an error that a reader returns together with a token does not stop that token or any other: it counts when the reader
returns it alone. -/
theorem C77_error (l : List Reply) (fin : XErr) :
    newTokenDecoder l fin = newTokenDecoder (l.map fun r => if r.tok = none then r else { r with err := none }) fin := by
  have key : ∀ ns stk, run l fin ns stk = run (l.map fun r => if r.tok = none then r else { r with err := none }) fin ns stk := by
    induction l with
    | nil => intro ns stk; rfl
    | cons r l ih =>
      intro ns stk
      obtain ⟨t, e⟩ := r
      cases t with
      | none =>
        cases e with
        | none => simp only [List.map_cons, run, if_true]; rw [ih]
        | some e => simp only [List.map_cons, run, if_true]
      | some t =>
        simp only [List.map_cons, run, reduceCtorEq, if_false]
        split
        · rfl
        · rw [ih]
  exact key _ _

/-- The elements open in the second decoder, by the names it has returned. -/
inductive Opened : NsMap → List Stk → List Name → Prop where
  | nil (ns : NsMap) : Opened ns [] []
  | cons (ns ns' : NsMap) (stk stk' : List Stk) (os : List Name) (n : Name) : Opened ns stk os → popNs ns' stk' = (ns, stk) →
      Opened ns' (.start n :: stk') (translate ns' n true :: os)

theorem Opened.pop {ns : NsMap} {stk : List Stk} {os : List Name} (h : Opened ns stk os) : popNs ns stk = (ns, stk) := by
  cases h <;> rfl

theorem run_nested (l : List Reply) (fin : XErr) (ns : NsMap) (stk : List Stk) (os : List Name) (h : Opened ns stk os) :
    ∃ left, nesting os ((run l fin ns stk).1.filterMap id) = some left ∧ ((run l fin ns stk).2 = .eof →
      left = [] ∧ (run l fin ns stk).1.length = (l.takeWhile fun r => r.tok.isSome || r.err.isNone).length) := by
  have hend : ∀ e, rawErr e stk = .eof → os = [] := by
    intro e he
    unfold rawErr at he
    split at he
    · cases he
    · rename_i hn
      cases h with
      | nil => rfl
      | cons => exact absurd ⟨he, by simp⟩ hn
  induction l generalizing ns stk os with
  | nil =>
    exact ⟨os, rfl, fun he => ⟨hend fin he, rfl⟩⟩
  | cons r l ih =>
    have hend' : ∀ {ns : NsMap} {stk : List Stk} {os : List Name}, Opened ns stk os → ∀ e, rawErr e stk = .eof → os = [] := by
      intro ns stk os h e he
      unfold rawErr at he
      split at he
      · cases he
      · rename_i hn
        cases h with
        | nil => rfl
        | cons => exact absurd ⟨he, by simp⟩ hn
    obtain ⟨t, e⟩ := r
    cases t with
    | none =>
      cases e with
      | some e => exact ⟨os, rfl, fun he => ⟨hend e he, rfl⟩⟩
      | none =>
        obtain ⟨left, h1, h2⟩ := ih ns stk os h hend
        refine ⟨left, h1, fun he => ?_⟩
        obtain ⟨g1, g2⟩ := h2 he
        refine ⟨g1, ?_⟩
        rw [List.takeWhile_cons_of_pos (by rfl)]
        simp only [run, List.length_cons, g2]
    | some t =>
      simp only [run]
      cases hk : cook t ns stk with
      | error e' => exact ⟨os, rfl, fun he => absurd he (cook_not_eof _ _ _ _ hk)⟩
      | ok q =>
        obtain ⟨t', ns', stk'⟩ := q
        dsimp only
        have key : ∃ os', Opened ns' stk' os' ∧ ∀ m, nesting os (t' :: m) = nesting os' m := by
          cases t with
          | startElement n attrs =>
            simp only [cook] at hk
            split at hk
            · cases hk
            rename_i hp
            injection hk with hk
            injection hk with k1 k2
            injection k2 with k2 k3
            subst k1; subst k2; subst k3
            refine ⟨_, Opened.cons ns _ stk _ os n h (by rw [pushNs_pop attrs ns _ stk _ hp]; exact h.pop), fun m => ?_⟩
            rw [nesting]
          | endElement n =>
            simp only [cook] at hk
            split at hk
            · cases hk
            rename_i hp
            injection hk with hk
            injection hk with k1 k2
            injection k2 with k2 k3
            subst k1; subst k2; subst k3
            cases h with
            | nil => cases hp
            | cons ns0 _ stk0 stk' os0 m h1 h2 =>
              simp only [popElement] at hp
              split at hp
              · cases hp
              rename_i g1
              split at hp
              · cases hp
              rename_i g2
              injection hp with hp
              injection hp with k1 k2
              rw [h2] at k2
              injection k2 with k2 k3
              subst k1; subst k2; subst k3
              have : m = n := by
                obtain ⟨a, b⟩ := m
                obtain ⟨c, d⟩ := n
                simp only [ne_eq, Classical.not_not] at g1 g2
                rw [g1, g2]
              refine ⟨os0, h1, fun l' => ?_⟩
              rw [nesting, if_pos (by rw [this])]
          | charData b =>
            injection hk with hk
            injection hk with k1 k2
            injection k2 with k2 k3
            subst k1; subst k2; subst k3
            exact ⟨os, h, fun m => by rw [nesting.eq_def]⟩
          | comment b =>
            injection hk with hk
            injection hk with k1 k2
            injection k2 with k2 k3
            subst k1; subst k2; subst k3
            exact ⟨os, h, fun m => by rw [nesting.eq_def]⟩
          | procInst a b =>
            injection hk with hk
            injection hk with k1 k2
            injection k2 with k2 k3
            subst k1; subst k2; subst k3
            exact ⟨os, h, fun m => by rw [nesting.eq_def]⟩
          | directive b =>
            injection hk with hk
            injection hk with k1 k2
            injection k2 with k2 k3
            subst k1; subst k2; subst k3
            exact ⟨os, h, fun m => by rw [nesting.eq_def]⟩
        obtain ⟨os', k1, k2⟩ := key
        obtain ⟨left, h1, h2⟩ := ih ns' stk' os' k1 (hend' k1)
        refine ⟨left, ?_, fun he => ?_⟩
        · rw [show List.filterMap id (some t' :: (run l fin ns' stk').1) = t' :: List.filterMap id (run l fin ns' stk').1 from rfl, k2]
          exact h1
        · obtain ⟨g1, g2⟩ := h2 he
          refine ⟨g1, ?_⟩
          rw [List.takeWhile_cons_of_pos (by rfl), List.length_cons, List.length_cons, g2]

/-- C77: whatever a filter does to the tokens, what comes out of the second decoder is nested; if it ends with `io.EOF`, all elements are closed and
nothing the reader returned before its first error is missing. -/
theorem C77_nested (l : List Reply) (fin : XErr) :
    (nesting [] ((newTokenDecoder l fin).1.filterMap id)).isSome = true ∧
    ((newTokenDecoder l fin).2 = .eof → nesting [] ((newTokenDecoder l fin).1.filterMap id) = some [] ∧
      (newTokenDecoder l fin).1.length = (l.takeWhile fun r => r.tok.isSome || r.err.isNone).length) := by
  obtain ⟨left, h1, h2⟩ := run_nested l fin (fun _ => none) [] [] (.nil _)
  unfold newTokenDecoder
  rw [h1]
  refine ⟨rfl, fun he => ?_⟩
  obtain ⟨g1, g2⟩ := h2 he
  exact ⟨by rw [g1], g2⟩

/-- A filter that drops a start element but not its end. -/
example : newTokenDecoder (each [.startElement ⟨[], b!"a"⟩ [], .endElement ⟨[], b!"b"⟩, .endElement ⟨[], b!"a"⟩]) .eof =
    ([some (.startElement ⟨[], b!"a"⟩ [])], .syntaxError "element closed by another") := by
  krfl

/-- C77 does not hold of all documents: the name space `xml` is taken for the prefix, and an attribute of the name space
`xmlns` becomes a declaration that gives other elements another name. -/
theorem C77_refuted :
    (tokRun 3 (Dec.new b!"<p:a xmlns:p='xml'/>")).1 =
        [.startElement ⟨b!"xml", b!"a"⟩ [⟨⟨xmlnsURL, b!"p"⟩, b!"xml"⟩], .endElement ⟨b!"xml", b!"a"⟩] ∧
    newTokenDecoder (each (tokRun 3 (Dec.new b!"<p:a xmlns:p='xml'/>")).1) .eof =
        ([some (.startElement ⟨xmlURL, b!"a"⟩ [⟨⟨xmlnsURL, b!"p"⟩, b!"xml"⟩]), some (.endElement ⟨xmlURL, b!"a"⟩)], .eof) ∧
    (tokRun 5 (Dec.new b!"<a xmlns:q='xmlns' q:b='u'><b:c/></a>")).1[1]? = some (.startElement ⟨b!"b", b!"c"⟩ []) ∧
    (newTokenDecoder (each (tokRun 5 (Dec.new b!"<a xmlns:q='xmlns' q:b='u'><b:c/></a>")).1) .eof).1[1]? =
        some (some (.startElement ⟨b!"u", b!"c"⟩ [])) := by
  refine ⟨?_, ?_, ?_, ?_⟩ <;> krfl

/-- A document with prefixes, declared again further in, and a default name space; the prefix `q` and the name space `q` do not disturb each other. -/
example : (tokRun 7 (Dec.new b!"<a xmlns='q' xmlns:q='w'><q:b q:c='d'>t</q:b></a>")).2 = some .eof ∧
    ∀ t ∈ (tokRun 7 (Dec.new b!"<a xmlns='q' xmlns:q='w'><q:b q:c='d'>t</q:b></a>")).1, Clear t := by
  decide +kernel

/-- A document that is not well formed: the error comes through as well. -/
example : (tokRun 7 (Dec.new b!"<a><b></a>")) = ([.startElement ⟨[], b!"a"⟩ [], .startElement ⟨[], b!"b"⟩ []],
    some (.syntaxError "element closed by another")) := by
  krfl

/-- A reader that returns `io.EOF` together with the last token. -/
example : newTokenDecoder [⟨some (.startElement ⟨[], b!"a"⟩ []), none⟩, ⟨none, none⟩, ⟨some (.endElement ⟨[], b!"a"⟩), some .eof⟩] .eof =
    ([some (.startElement ⟨[], b!"a"⟩ []), none, some (.endElement ⟨[], b!"a"⟩)], .eof) := by
  krfl

end Verif.Piped

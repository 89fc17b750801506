import Verif.Misc
import Mathlib.Data.List.Count
import Mathlib.Data.List.Basic
import Mathlib.Data.List.Nodup

/-
Theorems C16-C20, C43 and C47 (small functions).
-/
namespace Verif.Misc

open Verif

/-! ### C16 -/

/-- Independent reading of a profile list: the empty string is the empty list, otherwise the comma-free
parts that make up the string when joined with commas. -/
def Profiles (l : Bytes) (ms : List Bytes) : Prop :=
  (l = [] ∧ ms = []) ∨
  (l ≠ [] ∧ ms ≠ [] ∧ l = [ch%','].intercalate ms ∧ ∀ m ∈ ms, ch%',' ∉ m)

theorem intercalate_cons2 (c : UInt8) (x y : Bytes) (l : List Bytes) :
    [c].intercalate (x :: y :: l) = x ++ c :: [c].intercalate (y :: l) := by
  simp [List.intercalate, List.intersperse]

theorem split_ne (s : Bytes) : splitComma s ≠ [] := by
  cases s with
  | nil => simp [splitComma]
  | cons b bs =>
    unfold splitComma
    split
    · simp
    · split <;> simp

theorem split_join (s : Bytes) :
    s = [ch%','].intercalate (splitComma s) ∧ ∀ m ∈ splitComma s, ch%',' ∉ m := by
  induction s with
  | nil => simp [splitComma]
  | cons b bs ih =>
    obtain ⟨h1, h2⟩ := ih
    cases hs : splitComma bs with
    | nil => exact absurd hs (split_ne bs)
    | cons p ps =>
      rw [hs] at h1 h2
      unfold splitComma
      rw [hs]
      by_cases hb : b = ch%','
      · rw [if_pos hb]
        refine ⟨?_, ?_⟩
        · rw [intercalate_cons2, ← h1, hb]; rfl
        · intro m hm
          rcases List.mem_cons.1 hm with rfl | hm
          · simp
          · exact h2 m hm
      · rw [if_neg hb]
        refine ⟨?_, ?_⟩
        · cases ps with
          | nil => simp at h1 ⊢; exact h1
          | cons q qs => rw [intercalate_cons2] at h1 ⊢; simp; exact h1
        · intro m hm
          rcases List.mem_cons.1 hm with rfl | hm
          · have := h2 p (by simp)
            simp [Ne.symm hb, this]
          · exact h2 m (by simp [hm])

theorem split_append (x : Bytes) (y : Bytes) (hx : ch%',' ∉ x) :
    splitComma (x ++ ch%',' :: y) = x :: splitComma y ∧ splitComma x = [x] := by
  induction x with
  | nil => simp [splitComma]
  | cons b bs ih =>
    have hb : b ≠ ch%',' := by rintro rfl; exact hx (by simp)
    obtain ⟨h1, h2⟩ := ih (by intro h; exact hx (by simp [h]))
    constructor
    · rw [List.cons_append, splitComma, if_neg hb, h1]
    · rw [splitComma, if_neg hb, h2]

theorem split_unique (ms : List Bytes) (hne : ms ≠ []) (hm : ∀ m ∈ ms, ch%',' ∉ m) :
    splitComma ([ch%','].intercalate ms) = ms := by
  induction ms with
  | nil => exact absurd rfl hne
  | cons m ms ih =>
    cases ms with
    | nil => simp; exact (split_append m [] (hm m (by simp))).2
    | cons n ns =>
      rw [intercalate_cons2, (split_append m _ (hm m (by simp))).1, ih (by simp) (fun x hx => hm x (by simp [hx]))]

theorem profiles_exists (l : Bytes) : ∃ ms, Profiles l ms := by
  by_cases h : l = []
  · exact ⟨[], .inl ⟨h, rfl⟩⟩
  · exact ⟨splitComma l, .inr ⟨h, split_ne l, split_join l⟩⟩

theorem profiles_split {l : Bytes} {ms} (h : Profiles l ms) (hl : l ≠ []) : splitComma l = ms := by
  rcases h with ⟨h, _⟩ | ⟨_, h1, h2, h3⟩
  · exact absurd h hl
  · rw [h2]; exact split_unique ms h1 h3

theorem profiles_unique {l : Bytes} {ms ms'} (h : Profiles l ms) (h' : Profiles l ms') : ms = ms' := by
  by_cases hl : l = []
  · rcases h with ⟨_, h⟩ | ⟨h, _⟩
    · rcases h' with ⟨_, h'⟩ | ⟨h', _⟩
      · rw [h, h']
      · exact absurd hl h'
    · exact absurd hl h
  · rw [← profiles_split h hl, ← profiles_split h' hl]

theorem intercalate_snoc (c : UInt8) (ms : List Bytes) (q : Bytes) (h : ms ≠ []) :
    [c].intercalate (ms ++ [q]) = [c].intercalate ms ++ c :: q := by
  induction ms with
  | nil => exact absurd rfl h
  | cons m ms ih =>
    cases ms with
    | nil => simp [List.intercalate, List.intersperse]
    | cons n ns =>
      rw [List.cons_append, List.cons_append, intercalate_cons2, ← List.cons_append, ih (by simp), intercalate_cons2]
      simp

/-- C16: adding a profile appends it to the list exactly when it is not a member. -/
theorem C16_addProfile (l q : Bytes) (ms : List Bytes) (h : Profiles l ms) (hq : q ≠ []) (hc : ch%',' ∉ q) :
    Profiles (addProfile l q) (if q ∈ ms then ms else ms ++ [q]) := by
  unfold addProfile
  by_cases hl : l = []
  · have hms : ms = [] := by
      rcases h with ⟨_, h⟩ | ⟨h, _⟩
      · exact h
      · exact absurd hl h
    subst hms
    rw [if_pos hl]
    right
    simp [hq, hc]
  · rw [if_neg hl, profiles_split h hl]
    by_cases hm : q ∈ ms
    · simp only [if_pos hm]; exact h
    · simp only [if_neg hm]
      rcases h with ⟨h, _⟩ | ⟨_, h1, h2, h3⟩
      · exact absurd h hl
      · right
        refine ⟨by simp, by simp, ?_, ?_⟩
        · rw [intercalate_snoc _ _ _ h1, ← h2]
        · intro m hm'
          rcases List.mem_append.1 hm' with h4 | h4
          · exact h3 m h4
          · simp at h4; subst h4; exact hc

/-- Abstract ordered-set insertion. -/
def insertAll (ms : List Bytes) : List Bytes → List Bytes
  | [] => ms
  | q :: qs => insertAll (if q ∈ ms then ms else ms ++ [q]) qs

theorem insertAll_facts (qs ms : List Bytes) :
    ms <+: insertAll ms qs ∧ (∀ x, x ∈ insertAll ms qs ↔ x ∈ ms ∨ x ∈ qs) ∧
    (∀ x, x ∉ ms → (insertAll ms qs).count x ≤ 1) ∧ (∀ x ∈ ms, (insertAll ms qs).count x = ms.count x) := by
  induction qs generalizing ms with
  | nil =>
    refine ⟨List.prefix_refl _, by simp [insertAll], ?_, by simp [insertAll]⟩
    intro x hx; simp [insertAll, List.count_eq_zero_of_not_mem hx]
  | cons q qs ih =>
    unfold insertAll
    by_cases hq : q ∈ ms
    · rw [if_pos hq]
      obtain ⟨h1, h2, h3, h4⟩ := ih ms
      refine ⟨h1, ?_, h3, h4⟩
      intro x; rw [h2, List.mem_cons]
      constructor
      · rintro (h | h) <;> simp [h]
      · rintro (h | rfl | h) <;> simp [*]
    · rw [if_neg hq]
      obtain ⟨h1, h2, h3, h4⟩ := ih (ms ++ [q])
      refine ⟨(List.prefix_append ms [q]).trans h1, ?_, ?_, ?_⟩
      · intro x; rw [h2]; simp [or_assoc]
      · intro x hx
        by_cases hxq : x = q
        · subst hxq
          rw [h4 x (by simp), List.count_append, List.count_eq_zero_of_not_mem hx]; simp
        · exact h3 x (by simp [hx, hxq])
      · intro x hx
        have hxq : x ≠ q := fun h => hq (h ▸ hx)
        rw [h4 x (by simp [hx]), List.count_append]
        simp [List.count_cons, Ne.symm hxq]

/-- C16 for sequences: after any sequence of additions the earlier members are still there in order and
with the same multiplicity, each added profile is a member, exactly once if it was not there before, and
there are no other members; adding again changes nothing. -/
theorem C16_sequence (l : Bytes) (ms : List Bytes) (h : Profiles l ms) (qs : List Bytes)
    (hq : ∀ q ∈ qs, q ≠ [] ∧ ch%',' ∉ q) :
    ∃ ms', Profiles (qs.foldl addProfile l) ms' ∧ ms <+: ms' ∧ (∀ x, x ∈ ms' ↔ x ∈ ms ∨ x ∈ qs) ∧
      (∀ q ∈ qs, q ∉ ms → ms'.count q = 1) ∧ (∀ x ∈ ms, ms'.count x = ms.count x) ∧
      (∀ q ∈ qs, addProfile (qs.foldl addProfile l) q = qs.foldl addProfile l) := by
  have key : Profiles (qs.foldl addProfile l) (insertAll ms qs) := by
    induction qs generalizing l ms with
    | nil => exact h
    | cons q qs ih =>
      exact ih _ _ (C16_addProfile l q ms h (hq q (by simp)).1 (hq q (by simp)).2) (fun x hx => hq x (by simp [hx]))
  obtain ⟨h1, h2, h3, h4⟩ := insertAll_facts qs ms
  refine ⟨_, key, h1, h2, ?_, h4, ?_⟩
  · intro q hqq hn
    have := h3 q hn
    have := List.count_pos_iff.2 ((h2 q).2 (.inr hqq))
    omega
  · intro q hqq
    have hmem := (h2 q).2 (.inr hqq)
    generalize qs.foldl addProfile l = l' at *
    unfold addProfile
    by_cases hl : l' = []
    · exfalso
      rcases key with ⟨_, hk⟩ | ⟨hk, _⟩
      · rw [hk] at hmem; simp at hmem
      · exact hk hl
    · rw [if_neg hl, profiles_split key hl, if_pos hmem]

example : addProfile (addProfile (b!"a,b") (b!"c")) (b!"a") = b!"a,b,c" := by decide
example : Profiles (b!"a,b") [b!"a", b!"b"] := by right; decide

/-! ### C17 -/

/-- A well-formed DASH template: text without `$`, then identifiers `$name$` each followed by text without
`$`.  Every string with an even number of `$` has exactly one such decomposition. -/
structure Tmpl where
  lit : Bytes
  parts : List (Bytes × Bytes)

def partText (p : Bytes × Bytes) : Bytes := ch%'$' :: p.1 ++ ch%'$' :: p.2
theorem partText_append (p : Bytes × Bytes) (x : Bytes) :
    partText p ++ x = ch%'$' :: (p.1 ++ ch%'$' :: (p.2 ++ x)) := by simp [partText]
def Tmpl.text (t : Tmpl) : Bytes := t.lit ++ t.parts.flatMap partText

def Tmpl.WF (t : Tmpl) : Prop :=
  ch%'$' ∉ t.lit ∧ ∀ p ∈ t.parts, ch%'$' ∉ p.1 ∧ ch%'$' ∉ p.2

instance (t : Tmpl) : Decidable t.WF := by unfold Tmpl.WF; infer_instance

/-- The intended result: only the two identifiers are replaced. -/
def substPart (id bw : Bytes) (p : Bytes × Bytes) : Bytes :=
  if p.1 = b!"RepresentationID" then id ++ p.2
  else if p.1 = b!"Bandwidth" then bw ++ p.2
  else partText p

def Tmpl.subst (t : Tmpl) (id bw : Bytes) : Bytes := t.lit ++ t.parts.flatMap (substPart id bw)

/-- C17 as documented. -/
def C17_statement : Prop :=
  ∀ (r : Rep) (t : Tmpl), t.WF → r.expand t.text = t.subst r.id (Strconv.formatUint r.bandwidth)

/-- False: text from the id is substituted again. -/
theorem C17_refuted_id : ¬ C17_statement := by
  intro h
  have := h { id := b!"$Bandwidth$", bandwidth := 7 } ⟨[], [(b!"RepresentationID", [])]⟩ (by decide)
  have e : Strconv.formatUint 7 = [55] := by unfold Strconv.formatUint; decide
  revert this
  unfold Rep.expand
  rw [e]
  decide

/-- False even for ids without `$`: literal text between two identifiers is taken for an identifier, and the
identifiers around it are destroyed. -/
theorem C17_refuted_literal : ¬ ∀ (r : Rep) (t : Tmpl), t.WF → ch%'$' ∉ r.id →
    r.expand t.text = t.subst r.id (Strconv.formatUint r.bandwidth) := by
  intro h
  have := h { id := b!"v", bandwidth := 7 } ⟨[], [(b!"Number", b!"Bandwidth"), (b!"Time", [])]⟩ (by decide) (by decide)
  have e : Strconv.formatUint 7 = [55] := by unfold Strconv.formatUint; decide
  revert this
  unfold Rep.expand
  rw [e]
  decide

/-- No text between two identifiers is `key`. -/
def NoClash (key : Bytes) : List (Bytes × Bytes) → Prop
  | p :: q :: ps => (p.1 = key ∨ p.2 ≠ key) ∧ NoClash key (q :: ps)
  | _ => True

theorem prefix_key {key name rest : Bytes} (hk : ch%'$' ∉ key) (hn : ch%'$' ∉ name)
    (h : (key ++ [ch%'$']).isPrefixOf (name ++ ch%'$' :: rest) = true) : key = name := by
  induction key generalizing name with
  | nil =>
    cases name with
    | nil => rfl
    | cons a as => simp [List.isPrefixOf] at h; subst h; simp at hn
  | cons c cs ih =>
    cases name with
    | nil => simp [List.isPrefixOf] at h; exact absurd h.1.symm (by rintro rfl; simp at hk)
    | cons a as =>
      simp [List.isPrefixOf] at h
      obtain ⟨rfl, h⟩ := h
      rw [ih (name := as) (by intro h'; exact hk (by simp [h'])) (by intro h'; exact hn (by simp [h'])) (by simpa using h)]

theorem prefix_key_end {key name : Bytes} (hk : ch%'$' ∉ key) (hn : ch%'$' ∉ name) :
    (key ++ [ch%'$']).isPrefixOf name = false := by
  induction key generalizing name with
  | nil =>
    cases name with
    | nil => rfl
    | cons a as => simp [List.isPrefixOf]; rintro rfl; simp at hn
  | cons c cs ih =>
    cases name with
    | nil => rfl
    | cons a as =>
      have h1 := ih (name := as) (by intro h'; exact hk (by simp [h'])) (by intro h'; exact hn (by simp [h']))
      simp [List.isPrefixOf]; intro _; exact h1

theorem replGo_skip (old new : Bytes) (x y : Bytes) : replGo old new x.length (x ++ y) = replGo old new 0 y := by
  induction x with
  | nil => simp
  | cons a as ih => simp [replGo, ih]

theorem replGo_cons (old new : Bytes) (b : UInt8) (s : Bytes) : replGo old new 0 (b :: s) =
    if old.isPrefixOf (b :: s) then new ++ replGo old new (old.length - 1) s else b :: replGo old new 0 s := by
  rw [replGo]

/-- Text without `$` is copied. -/
theorem replGo_lit (key new lit rest : Bytes) (hl : ch%'$' ∉ lit) :
    replGo (ch%'$' :: key ++ [ch%'$']) new 0 (lit ++ rest) =
      lit ++ replGo (ch%'$' :: key ++ [ch%'$']) new 0 rest := by
  induction lit with
  | nil => rfl
  | cons a as ih =>
    have ha : a ≠ ch%'$' := by rintro rfl; simp at hl
    show replGo (ch%'$' :: key ++ [ch%'$']) new 0 (a :: (as ++ rest)) = a :: (as ++ _)
    rw [replGo_cons, if_neg, ih (by intro h; exact hl (by simp [h]))]
    · simp [List.isPrefixOf]; intro h; exact absurd h.symm ha

theorem replGo_parts (key new : Bytes) (hk : ch%'$' ∉ key) (hk0 : key ≠ []) (ps : List (Bytes × Bytes))
    (hwf : ∀ p ∈ ps, ch%'$' ∉ p.1 ∧ ch%'$' ∉ p.2) (hc : NoClash key ps) :
    replGo (ch%'$' :: key ++ [ch%'$']) new 0 (ps.flatMap partText) =
      ps.flatMap (fun p => if p.1 = key then new ++ p.2 else partText p) := by
  induction ps with
  | nil => simp [replGo]
  | cons p ps ih =>
    obtain ⟨name, lit⟩ := p
    have hn := (hwf (name, lit) (by simp)).1
    have hlit := (hwf (name, lit) (by simp)).2
    have ih' := ih (fun q hq => hwf q (by simp [hq])) (by
      cases ps with
      | nil => trivial
      | cons q qs => exact hc.2)
    simp only [List.flatMap_cons, partText_append]
    by_cases hname : name = key
    · subst hname
      simp only [if_true]
      rw [replGo_cons, if_pos]
      · have : (ch%'$' :: name ++ [ch%'$']).length - 1 = (name ++ [ch%'$']).length := by simp
        rw [this]
        have e : name ++ (ch%'$' :: (lit ++ List.flatMap partText ps)) =
            (name ++ [ch%'$']) ++ (lit ++ List.flatMap partText ps) := by simp
        rw [e, replGo_skip, replGo_lit _ _ _ _ hlit, ih']; simp
      · rw [List.isPrefixOf_iff_prefix]; simp
    · simp only [if_neg hname]
      rw [replGo_cons, if_neg, replGo_lit _ _ _ _ hn, replGo_cons, if_neg, replGo_lit _ _ _ _ hlit, ih', partText_append]
      · intro h
        simp only [List.cons_append, List.isPrefixOf, beq_self_eq_true, Bool.true_and] at h
        cases ps with
        | nil => rw [List.flatMap_nil, List.append_nil, prefix_key_end hk hlit] at h; cases h
        | cons q qs =>
          simp only [List.flatMap_cons, partText_append] at h
          have := prefix_key hk hlit h
          rcases hc.1 with h1 | h1
          · exact hname h1
          · exact h1 this.symm
      · intro h
        simp only [List.cons_append, List.isPrefixOf, beq_self_eq_true, Bool.true_and] at h
        exact hname (prefix_key hk hn h).symm

/-- The template after the first replacement: an identifier that was replaced becomes part of the text
before it. -/
def mergeGo (key new : Bytes) (lit : Bytes) : List (Bytes × Bytes) → Bytes × List (Bytes × Bytes)
  | [] => (lit, [])
  | p :: ps =>
    if p.1 = key then mergeGo key new (lit ++ new ++ p.2) ps
    else (lit, (p.1, (mergeGo key new p.2 ps).1) :: (mergeGo key new p.2 ps).2)

theorem mergeGo_text (key new lit : Bytes) (ps : List (Bytes × Bytes)) :
    lit ++ ps.flatMap (fun p => if p.1 = key then new ++ p.2 else partText p) =
      (mergeGo key new lit ps).1 ++ (mergeGo key new lit ps).2.flatMap partText := by
  induction ps generalizing lit with
  | nil => simp [mergeGo]
  | cons p ps ih =>
    unfold mergeGo
    by_cases h : p.1 = key
    · simp only [List.flatMap_cons, if_pos h]
      rw [← ih]; simp
    · simp only [List.flatMap_cons, if_neg h]
      have := ih p.2
      rw [partText_append, this, partText_append]

theorem mergeGo_wf (key new lit : Bytes) (ps : List (Bytes × Bytes)) (hl : ch%'$' ∉ lit) (hnew : ch%'$' ∉ new)
    (hwf : ∀ p ∈ ps, ch%'$' ∉ p.1 ∧ ch%'$' ∉ p.2) :
    ch%'$' ∉ (mergeGo key new lit ps).1 ∧ ∀ p ∈ (mergeGo key new lit ps).2, ch%'$' ∉ p.1 ∧ ch%'$' ∉ p.2 := by
  induction ps generalizing lit with
  | nil => simp [mergeGo, hl]
  | cons p ps ih =>
    unfold mergeGo
    have hp := hwf p (by simp)
    have hps := fun q hq => hwf q (List.mem_cons_of_mem p hq)
    by_cases h : p.1 = key
    · rw [if_pos h]
      exact ih _ (by simp [hl, hnew, hp.2]) hps
    · rw [if_neg h]
      have := ih p.2 hp.2 hps
      refine ⟨hl, ?_⟩
      intro q hq
      rcases List.mem_cons.1 hq with rfl | hq
      · exact ⟨hp.1, this.1⟩
      · exact this.2 q hq

theorem mergeGo_subst (id bw lit : Bytes) (ps : List (Bytes × Bytes)) :
    (mergeGo (b!"RepresentationID") id lit ps).1 ++ (mergeGo (b!"RepresentationID") id lit ps).2.flatMap
      (fun p => if p.1 = b!"Bandwidth" then bw ++ p.2 else partText p) =
    lit ++ ps.flatMap (substPart id bw) := by
  induction ps generalizing lit with
  | nil => simp [mergeGo]
  | cons p ps ih =>
    unfold mergeGo
    by_cases h : p.1 = b!"RepresentationID"
    · rw [if_pos h, ih]
      simp [substPart, h]
    · simp only [if_neg h, List.flatMap_cons]
      have := ih p.2
      by_cases hb : p.1 = b!"Bandwidth"
      · simp only [if_pos hb, substPart, if_neg h]
        rw [List.append_assoc, this]; simp
      · simp only [if_neg hb, substPart, if_neg h]
        rw [partText_append, partText_append, this]

/-- C17, partial: exactly the identifiers are replaced when the id contains no `$` and no text between two
identifiers reads like an identifier name, before and after inserting the id.  (Missing: ids with `$` and such
texts, where the claim is false.) -/
theorem C17_expand_partial (r : Rep) (t : Tmpl) (hwf : t.WF) (hid : ch%'$' ∉ r.id)
    (h1 : NoClash (b!"RepresentationID") t.parts)
    (h2 : NoClash (b!"Bandwidth") (mergeGo (b!"RepresentationID") r.id t.lit t.parts).2) :
    r.expand t.text = t.subst r.id (Strconv.formatUint r.bandwidth) := by
  unfold Rep.expand replaceAll Tmpl.text Tmpl.subst
  have e1 : (b!"$RepresentationID$") = ch%'$' :: (b!"RepresentationID") ++ [ch%'$'] := by decide
  have e2 : (b!"$Bandwidth$") = ch%'$' :: (b!"Bandwidth") ++ [ch%'$'] := by decide
  rw [e1, e2, replGo_lit _ _ _ _ hwf.1, replGo_parts _ _ (by decide) (by decide) _ hwf.2 h1, mergeGo_text]
  obtain ⟨m1, m2⟩ := mergeGo_wf (b!"RepresentationID") r.id t.lit t.parts hwf.1 hid hwf.2
  rw [replGo_lit _ _ _ _ m1, replGo_parts _ _ (by decide) (by decide) _ m2 h2, mergeGo_subst]

/-- `$RepresentationID$/$Bandwidth$/seg-$Number$.m4s` meets the hypotheses. -/
example : let t : Tmpl := ⟨[], [(b!"RepresentationID", b!"/"), (b!"Bandwidth", b!"/seg-"), (b!"Number", b!".m4s")]⟩
    t.WF ∧ NoClash (b!"RepresentationID") t.parts ∧
    NoClash (b!"Bandwidth") (mergeGo (b!"RepresentationID") (b!"v1") t.lit t.parts).2 := by
  refine ⟨by decide, ?_, ?_⟩
  · simp [NoClash]
  · simp [NoClash, mergeGo]

/-- Strings without identifiers of the two kinds are unchanged, whatever the id is. -/
theorem C17_no_dollar (r : Rep) (s : Bytes) (h : ch%'$' ∉ s) : r.expand s = s := by
  unfold Rep.expand replaceAll
  have e1 : (b!"$RepresentationID$") = ch%'$' :: (b!"RepresentationID") ++ [ch%'$'] := by decide
  have e2 : (b!"$Bandwidth$") = ch%'$' :: (b!"Bandwidth") ++ [ch%'$'] := by decide
  have a := replGo_lit (b!"RepresentationID") r.id s [] h
  have b := replGo_lit (b!"Bandwidth") (Strconv.formatUint r.bandwidth) s [] h
  simp only [List.append_nil] at a b
  rw [e1, e2, a]
  simp only [replGo, List.append_nil]
  rw [b]
  simp [replGo]

/-! ### C18 -/

/-- C18: own value when set, otherwise the parent's; no panic with a parent; and a panic exactly when the
value is inherited from a missing parent. -/
theorem C18_inherit (r : Rep) :
    (r.mimeType ≠ [] → r.getMimeType = some r.mimeType) ∧
    (r.codecs ≠ [] → r.getCodecs = some r.codecs) ∧
    (r.contentProtections ≠ [] → r.getContentProtections = some r.contentProtections) ∧
    (∀ t, r.segmentTemplate = some t → r.getSegmentTemplate = some (some t)) ∧
    (∀ a, r.parent = some a →
      (r.mimeType = [] → r.getMimeType = some a.mimeType) ∧
      (r.codecs = [] → r.getCodecs = some a.codecs) ∧
      (r.contentProtections = [] → r.getContentProtections = some a.contentProtections) ∧
      (r.segmentTemplate = none → r.getSegmentTemplate = some a.segmentTemplate)) ∧
    (r.parent = none →
      (r.getMimeType = none ↔ r.mimeType = []) ∧ (r.getCodecs = none ↔ r.codecs = []) ∧
      (r.getContentProtections = none ↔ r.contentProtections = []) ∧
      (r.getSegmentTemplate = none ↔ r.segmentTemplate = none)) := by
  unfold Rep.getMimeType Rep.getCodecs Rep.getContentProtections Rep.getSegmentTemplate
  refine ⟨?_, ?_, ?_, ?_, ?_, ?_⟩
  · intro h; simp [h]
  · intro h; simp [h]
  · intro h; simp [h]
  · intro t h; simp [h]
  · intro a h; simp [h]; refine ⟨?_, ?_, ?_, ?_⟩ <;> intro h <;> simp [h]
  · intro h; simp [h]; cases r.segmentTemplate <;> simp

/-- C18 for GetInit and GetMedia: never a panic; missing parent and missing template are errors; otherwise
the expansion of the template in force. -/
theorem C18_getInit (r : Rep) :
    (r.parent = none → r.getInit = some (.error .parentNotSet) ∧ r.getMedia = some (.error .parentNotSet)) ∧
    (∀ a, r.parent = some a →
      (r.segmentTemplate = none → a.segmentTemplate = none →
        r.getInit = some (.error .templateNotSet) ∧ r.getMedia = some (.error .templateNotSet)) ∧
      (∀ t, r.segmentTemplate = some t ∨ (r.segmentTemplate = none ∧ a.segmentTemplate = some t) →
        r.getInit = some (.ok (r.expand t.init)) ∧ r.getMedia = some (.ok (r.expand t.media)))) := by
  unfold Rep.getInit Rep.getMedia Rep.getSegmentTemplate
  refine ⟨by intro h; simp [h], ?_⟩
  intro a h
  simp only [h]
  refine ⟨?_, ?_⟩
  · intro h1 h2; simp [h1, h2]
  · rintro t (h1 | ⟨h1, h2⟩) <;> simp [*]

example : ({ parent := some { mimeType := b!"video/mp4" } } : Rep).getMimeType = some (b!"video/mp4") := by decide

/-! ### C19 -/

/-- An HTTP-style byte range `a-b`, inclusive: it starts at `a` and has `n` bytes. -/
def IsRange (s : Bytes) (a n : Nat) : Prop :=
  ∃ x y, s = x ++ ch%'-' :: y ∧ x ≠ [] ∧ y ≠ [] ∧ (∀ b ∈ x, isDigit b = true) ∧ (∀ b ∈ y, isDigit b = true) ∧
    decVal x = a ∧ decVal y + 1 = a + n

/-- C19 as documented, for all 32-bit sizes. -/
def C19_statement : Prop :=
  ∀ i s : Nat, i < 2^32 → s < 2^32 → ∀ e,
    (∃ r, (setSegmentBase i s e).initRange = some r ∧ IsRange r 0 i) ∧ IsRange (setSegmentBase i s e).indexRange i s

/-- False: a zero initialization size is written as the range 0-4294967295. -/
theorem C19_refuted : ¬ C19_statement := by
  intro h
  obtain ⟨⟨r, hr, x, y, hxy, hx, hy, hdx, hdy, h0, h1⟩, -⟩ := h 0 1 (by omega) (by omega) false
  simp only [setSegmentBase, Option.some.injEq] at hr
  have hu : u32 (0 + (2^32 - 1)) = 4294967295 := by unfold u32; omega
  rw [hu] at hr
  -- the part before the dash has no dash
  have : x = [ch%'0'] ∧ y = Strconv.formatUint 4294967295 := by
    rw [← hr] at hxy
    cases x with
    | nil => exact absurd rfl hx
    | cons a as =>
      simp at hxy
      cases as with
      | nil => simp at hxy; exact ⟨by rw [hxy.1], hxy.2.symm⟩
      | cons b bs =>
        simp at hxy
        have := hdx b (by simp)
        rw [← hxy.2.1] at this
        exact absurd this (by decide)
  have hv := Strconv.formatUint_val 4294967295
  rw [← this.2] at hv
  rw [hv] at h1
  omega

/-- C19, partial: for positive sizes whose sum fits in 32 bits. (Missing: zero sizes and wrapping sums.) -/
theorem C19_ranges_partial (i s : Nat) (hi : 1 ≤ i) (hs : 1 ≤ s) (h : i + s ≤ 2^32) (e : Bool) :
    (∃ r, (setSegmentBase i s e).initRange = some r ∧ IsRange r 0 i) ∧
    IsRange (setSegmentBase i s e).indexRange i s ∧ (setSegmentBase i s e).indexRangeExact = e := by
  have h1 : u32 (i + (2^32 - 1)) = i - 1 := by unfold u32; omega
  have h2 : u32 (u32 (i + s) + (2^32 - 1)) = i + s - 1 := by unfold u32; omega
  refine ⟨⟨_, rfl, [ch%'0'], Strconv.formatUint (i - 1), ?_, by simp, Strconv.formatUint_ne _, by decide,
    Strconv.formatUint_digits _, by decide, ?_⟩, ⟨Strconv.formatUint i, Strconv.formatUint (i + s - 1), ?_,
    Strconv.formatUint_ne _, Strconv.formatUint_ne _, Strconv.formatUint_digits _, Strconv.formatUint_digits _,
    Strconv.formatUint_val _, ?_⟩, rfl⟩
  · rw [h1]; rfl
  · rw [Strconv.formatUint_val]; omega
  · unfold setSegmentBase; simp only; rw [h2]
  · rw [Strconv.formatUint_val]; omega

/-! ### C20 -/

/-- C20: after setting, getting gives the value; unset is 1. -/
theorem C20_get_set (s : SegBase) (t : Nat) :
    (s.setTimescale t).getTimescale = t ∧ (s.timescale = none → s.getTimescale = 1) ∧
    (∀ u, s.timescale = some u → s.getTimescale = u) := by
  unfold SegBase.setTimescale SegBase.getTimescale
  refine ⟨by simp, by intro h; simp [h], by intro u h; simp [h]⟩

/-- The intended omission of the default value. -/
def C20_default_statement : Prop := ∀ s : SegBase, (s.setTimescale 1).timescale = none

/-- False: the attribute is never cleared, so `timescale="1"` is written. -/
theorem C20_default_refuted : ¬ C20_default_statement := by
  intro h; exact absurd (h {}) (by decide)

theorem C20_set_always (s : SegBase) (t : Nat) : (s.setTimescale t).timescale = some t := by
  unfold SegBase.setTimescale; rfl

/-! ### C43 -/

/-- C43: the section inside the signal wins; otherwise the direct one; otherwise none. -/
theorem C43_spliceInfo (e : Event) :
    (∀ s, e.signal = some (some s) → e.spliceInfo = some s) ∧
    ((∀ s, e.signal ≠ some (some s)) → e.spliceInfo = e.section_) ∧
    (e.spliceInfo = none ↔ (∀ s, e.signal ≠ some (some s)) ∧ e.section_ = none) := by
  unfold Event.spliceInfo
  rcases e with ⟨_ | _ | s, sec⟩ <;> simp

/-- C43: exactly the three scheme identifiers. -/
theorem C43_isSCTE35 (u : Bytes) : isSCTE35 u = true ↔
    u ∈ [b!"urn:scte:scte35:2013:xml", b!"urn:scte:scte35:2014:xml+bin", b!"urn:scte:scte35:2013:bin"] := by
  unfold isSCTE35
  simp [or_assoc]

/-! ### C47 -/

/-- C47: `Seconds2DurPtr` is exact for every number of seconds that fits. -/
theorem C47_seconds_exact (s : Int) (h : IsI64 (s * 1000000000)) : seconds2Dur s = s * 1000000000 := by
  unfold IsI64 at h; unfold seconds2Dur i64; omega

/-- Outside that range it wraps silently; e.g. 300 years become negative. -/
theorem C47_wraps : seconds2Dur 9460800000 = -8985944073709551616 := by decide

example : IsI64 (3600 * 1000000000) := by decide

end Verif.Misc

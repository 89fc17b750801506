import Verif.Local
import Verif.XmlPrintProps
import Verif.DecText

/-!
Content between the tags of an element: what is found there when a document is read is well-formed content (`Chunk`), so it
can be written again as it is.  A checker for such content.
-/
namespace Verif.Xml

open Verif.Utf8

/-! ### Content depends only on its own bytes -/

theorem steps_suffix {st st' : Raw} {ts : List Token} (h : RawSteps st ts st') : ∃ p, st.rest = p ++ st'.rest := by
  induction h with
  | nil st => exact ⟨[], rfl⟩
  | cons st st1 st2 t ts h1 _ ih =>
    obtain ⟨p, hp⟩ := ih
    obtain ⟨q, hq, _⟩ := rawToken_local _ _ _ h1
    exact ⟨q ++ p, by rw [hq, hp, List.append_assoc]⟩

theorem steps_local {st st' : Raw} {ts : List Token} (h : RawSteps st ts st') (hc : st'.toClose = none) (b r0 r : Bytes)
    (h1 : st.rest = b ++ ch%'<' :: r0) (h2 : st'.rest = ch%'<' :: r0) :
    RawSteps ⟨b ++ ch%'<' :: r, st.toClose⟩ ts ⟨ch%'<' :: r, none⟩ := by
  induction h generalizing b with
  | nil st =>
    have : b = [] := by
      rw [h1] at h2
      exact List.append_left_eq_self.1 h2
    subst this
    rw [hc]
    exact .nil _
  | cons st st1 st2 t ts hr hs ih =>
    obtain ⟨p, hp⟩ := steps_suffix hs
    obtain ⟨q, hq, l⟩ := rawToken_local _ _ _ hr
    rw [h2] at hp
    have hb : b = q ++ p := by
      rw [h1, hp, ← List.append_assoc] at hq
      exact List.append_cancel_right hq
    refine .cons _ ⟨p ++ ch%'<' :: r, st1.toClose⟩ _ _ _ ?_ (ih hc p hp h2)
    rw [hb, List.append_assoc]
    refine l _ (Or.inl ?_)
    rw [hp]
    cases p <;> rfl

theorem not_stuck_lt (r : Bytes) : ¬ Stuck ⟨ch%'<' :: r, none⟩ := by
  rintro ⟨_, r', h⟩
  injection h with h
  exact absurd h (by decide)

theorem steps_stuck {st st' : Raw} {ts : List Token} (h : RawSteps st ts st') (hs : Stuck st) : Stuck st' := by
  induction h with
  | nil st => exact hs
  | cons st st1 st2 t ts hr _ ih =>
    rw [rawToken_stuck st hs] at hr
    injection hr with hr
    injection hr with _ hr
    subst hr
    exact ih hs

theorem steps_size {st st' : Raw} {ts : List Token} (h : RawSteps st ts st') (he : st' = ⟨[ch%'<'], none⟩) : 2 ≤ st.size := by
  obtain ⟨p, hp⟩ := steps_suffix h
  unfold Raw.size
  rw [hp, he]
  simp
  omega

theorem chunkRun_steps {st st' : Raw} {ts : List Token} (h : RawSteps st ts st') (he : st' = ⟨[ch%'<'], none⟩) :
    ∀ k, st.size < k + 1 → chunkRun k st = ts := by
  induction h with
  | nil st =>
    intro k hk
    cases k with
    | zero => have := steps_size (.nil st) he; omega
    | succ k => rw [chunkRun, if_pos he]
  | cons st st1 st2 t ts hr hs ih =>
    intro k hk
    cases k with
    | zero => have := steps_size (.cons _ _ _ _ _ hr hs) he; omega
    | succ k =>
      have hne : st ≠ ⟨[ch%'<'], none⟩ := by
        rintro rfl
        exact absurd hr (by simp [rawToken])
      have hlt : st1.size < st.size := by
        rcases rawToken_progress _ _ _ hr with h | h
        · exact h
        · have := steps_stuck (.cons _ _ _ _ _ hr hs) h.1
          rw [he] at this
          exact absurd this (not_stuck_lt [])
      rw [chunkRun, if_neg hne, hr]
      dsimp only
      rw [ih he k (by omega)]

theorem chunkToks_steps {b r : Bytes} {ts : List Token} (h : RawSteps ⟨b ++ ch%'<' :: r, none⟩ ts ⟨ch%'<' :: r, none⟩) :
    chunkToks b = ts := by
  refine chunkRun_steps (steps_local h rfl b r [] rfl rfl) rfl _ ?_
  rw [size_none]
  simp
  omega

/-- Whole tokens between a start tag and another tag are content. -/
theorem chunk_of_steps {b r : Bytes} {ts : List Token} (h : RawSteps ⟨b ++ ch%'<' :: r, none⟩ ts ⟨ch%'<' :: r, none⟩)
    (hn : nesting [] ts = some []) (hd : ∀ n as, Token.startElement n as ∈ ts → ∀ a ∈ as, ¬ BadDecl a) : Chunk b := by
  have he := chunkToks_steps h
  refine ⟨fun r' => ?_, by rw [he]; exact hn, by rw [he]; exact hd⟩
  rw [he]
  exact steps_local h rfl b r r' rfl rfl

theorem chunk_nil : Chunk [] := chunk_of_steps (r := []) (.nil _) rfl (by simp)

/-! ### A checker for content -/

/-- Whether the raw tokens come to the `<` that is the last byte of the input. -/
def chunkEnds : Nat → Raw → Bool
  | 0, _ => false
  | k + 1, st =>
    if st = ⟨[ch%'<'], none⟩ then true
    else
      match rawToken st with
      | .error _ => false
      | .ok (_, st') => chunkEnds k st'

/-- No prefix is declared empty in a start tag. -/
def declB : Token → Bool
  | .startElement _ as => as.all fun a => !decide (BadDecl a)
  | _ => true

/-- Whether something is content. -/
def chunkB (b : Bytes) : Bool :=
  chunkEnds (2 * b.length + 3) ⟨b ++ [ch%'<'], none⟩ && decide (nesting [] (chunkToks b) = some []) &&
    (chunkToks b).all declB

theorem chunkEnds_steps : ∀ (k : Nat) (st : Raw), chunkEnds k st = true → ∃ ts, RawSteps st ts ⟨[ch%'<'], none⟩
  | 0, st, h => by simp [chunkEnds] at h
  | k + 1, st, h => by
    simp only [chunkEnds] at h
    split at h
    · rename_i he
      subst he
      exact ⟨[], .nil _⟩
    · split at h
      · cases h
      · rename_i t st' hr
        obtain ⟨ts, hts⟩ := chunkEnds_steps k st' h
        exact ⟨t :: ts, .cons _ _ _ _ _ hr hts⟩

theorem chunkEnds_of_steps {st st' : Raw} {ts : List Token} (h : RawSteps st ts st') (he : st' = ⟨[ch%'<'], none⟩) :
    ∀ k, st.size < k → chunkEnds k st = true := by
  induction h with
  | nil st =>
    intro k hk
    cases k with
    | zero => omega
    | succ k => rw [chunkEnds, if_pos he]
  | cons st st1 st2 t ts hr hs ih =>
    intro k hk
    cases k with
    | zero => omega
    | succ k =>
      have hlt : st1.size < st.size := by
        rcases rawToken_progress _ _ _ hr with h | h
        · exact h
        · have := steps_stuck (.cons _ _ _ _ _ hr hs) h.1
          rw [he] at this
          exact absurd this (not_stuck_lt [])
      rw [chunkEnds, hr]
      split
      · rfl
      · exact ih he k (by omega)

/-- The checker is exact. -/
theorem chunkB_iff (b : Bytes) : chunkB b = true ↔ Chunk b := by
  have hdecl : (chunkToks b).all declB = true ↔
      ∀ n as, Token.startElement n as ∈ chunkToks b → ∀ a ∈ as, ¬ BadDecl a := by
    rw [List.all_eq_true]
    constructor
    · intro h n as hm a ha
      have := h _ hm
      simp only [declB, List.all_eq_true, Bool.not_eq_true', decide_eq_false_iff_not] at this
      exact this a ha
    · intro h t ht
      cases t with
      | startElement n as =>
        simp only [declB, List.all_eq_true, Bool.not_eq_true', decide_eq_false_iff_not]
        exact h n as ht
      | _ => rfl
  unfold chunkB
  rw [Bool.and_eq_true, Bool.and_eq_true, decide_eq_true_eq, hdecl]
  constructor
  · rintro ⟨⟨h1, h2⟩, h3⟩
    obtain ⟨ts, hts⟩ := chunkEnds_steps _ _ h1
    have he : chunkToks b = ts := by
      refine chunkRun_steps hts rfl _ ?_
      rw [size_none]
      simp
      omega
    rw [he] at h2 h3
    exact chunk_of_steps hts h2 h3
  · intro h
    refine ⟨⟨chunkEnds_of_steps (h.steps []) rfl _ ?_, h.nest⟩, h.decl⟩
    rw [size_none]
    simp
    omega

instance (b : Bytes) : Decidable (Chunk b) := decidable_of_iff _ (chunkB_iff b)

/-! ### Reading -/

theorem nesting_append : ∀ (a b : List Token) (st : List Name), nesting st (a ++ b) = (nesting st a).bind (nesting · b)
  | [], b, st => by simp [nesting]
  | .startElement n as :: a, b, st => by rw [List.cons_append, nesting, nesting, nesting_append a b]
  | .endElement n :: a, b, [] => by simp [nesting]
  | .endElement n :: a, b, o :: st => by
    rw [List.cons_append, nesting, nesting]
    split
    · exact nesting_append a b st
    · rfl
  | .charData _ :: a, b, st => by simp only [List.cons_append, nesting]; exact nesting_append a b st
  | .comment _ :: a, b, st => by simp only [List.cons_append, nesting]; exact nesting_append a b st
  | .procInst _ _ :: a, b, st => by simp only [List.cons_append, nesting]; exact nesting_append a b st
  | .directive _ :: a, b, st => by simp only [List.cons_append, nesting]; exact nesting_append a b st

theorem steps_append {st st1 st2 : Raw} {ts ts' : List Token} (h : RawSteps st ts st1) (h' : RawSteps st1 ts' st2) :
    RawSteps st (ts ++ ts') st2 := by
  induction h with
  | nil st => exact h'
  | cons st st1' _ t ts hr _ ih => exact .cons _ _ _ _ _ hr (ih h')

/-- An end tag is pending only after a start tag. -/
theorem rawToken_open (st st' : Raw) (t : Token) (h : rawToken st = .ok (t, st')) (hc : st'.toClose ≠ none) :
    ∃ n as, t = .startElement n as := by
  unfold rawToken at h
  split at h
  · injection h with h; injection h with _ h; subst h; exact absurd rfl hc
  · split at h
    · cases h
    · split at h
      · split at h
        · cases h
        · injection h with h; injection h with _ h; subst h; exact absurd rfl hc
      · split at h
        · cases h
        · split at h
          · unfold endTag at h
            repeat' (first | (cases h; done) | (injection h with h; injection h with _ h; subst h; exact absurd rfl hc) | split at h)
          · split at h
            · unfold piTag at h
              repeat' (first | (cases h; done) | (injection h with h; injection h with _ h; subst h; exact absurd rfl hc) | split at h)
            · split at h
              · unfold bangTag at h
                repeat' (first | (cases h; done) | (injection h with h; injection h with _ h; subst h; exact absurd rfl hc) | split at h)
              · unfold startTag at h
                repeat' (first | (cases h; done) | (injection h with h; injection h with h _; subst h; exact ⟨_, _, rfl⟩) | split at h)

/-- An end tag that is not pending begins with `<`. -/
theorem rawToken_end (st st' : Raw) (n : Name) (h : rawToken st = .ok (.endElement n, st')) (hc : st.toClose = none) :
    ∃ r, st.rest = ch%'<' :: r := by
  unfold rawToken at h
  rw [hc] at h
  dsimp only at h
  split at h
  · cases h
  · rename_i b r hb
    split at h
    · split at h
      · cases h
      · injection h with h; injection h with h _; cases h
    · rename_i hne
      exact ⟨r, by rw [hb, Classical.not_not.1 hne]⟩

end Verif.Xml

namespace Verif.Bind

open Verif.Xml

mutual
/-- What is between the tags of the elements of a tree is content. -/
def XTree.Chunks : XTree → Prop
  | .elem _ _ _ a kids _ eb _ =>
    (∃ c, a = c ++ eb ∧ Chunk c ∧ ∃ os, specRun os (chunkToks c) = some ((flats kids).map (·.tok), os)) ∧ ChunksL kids
  | .leaf _ _ _ => True
/-- The same for a list of trees. -/
def ChunksL : List XTree → Prop
  | [] => True
  | t :: l => t.Chunks ∧ ChunksL l
end

mutual
/-- What is between the tags of every element, in document order. -/
def XTree.contents : XTree → List Bytes
  | .elem _ _ _ a kids _ eb _ => a.take (a.length - eb.length) :: contentsL kids
  | .leaf _ _ _ => []
/-- The same for a list of trees. -/
def contentsL : List XTree → List Bytes
  | [] => []
  | t :: l => t.contents ++ contentsL l
end

mutual
theorem chunks_contents : ∀ (t : XTree), t.Chunks → ∀ c ∈ t.contents, Chunk c
  | .elem _ _ _ a kids _ eb _, h, c, hc => by
    simp only [XTree.Chunks, XTree.contents, List.mem_cons] at h hc
    rcases hc with rfl | hc
    · obtain ⟨c, rfl, hc, _⟩ := h.1
      rw [show (c ++ eb).length - eb.length = c.length by simp, List.take_left]
      exact hc
    · exact chunksL_contents kids h.2 c hc
  | .leaf _ _ _, _, c, hc => by simp [XTree.contents] at hc
theorem chunksL_contents : ∀ (l : List XTree), ChunksL l → ∀ c ∈ contentsL l, Chunk c
  | [], _, c, hc => by simp [contentsL] at hc
  | t :: l, h, c, hc => by
    simp only [ChunksL, contentsL, List.mem_append] at h hc
    rcases hc with hc | hc
    · exact chunks_contents t h.1 c hc
    · exact chunksL_contents l h.2 c hc
end

/-- The tokens read from one state of the decoder to another. -/
inductive Reads : Dec → List PTok → Dec → Prop where
  | nil (d : Dec) : Reads d [] d
  | cons (d d1 d2 : Dec) (t : Token) (l : List PTok) :
      token d = .ok (t, d1) → Reads d1 l d2 → Reads d (⟨t, d.raw.rest, d1.raw.rest⟩ :: l) d2

theorem reads_split : ∀ (a b : List PTok) (d d' : Dec), Reads d (a ++ b) d' → ∃ d1, Reads d a d1 ∧ Reads d1 b d'
  | [], b, d, d', h => ⟨d, .nil d, h⟩
  | p :: a, b, d, d', h => by
    cases h with
    | cons _ d1 _ t _ h1 h2 =>
      obtain ⟨d2, e1, e2⟩ := reads_split a b d1 d' h2
      exact ⟨d2, .cons _ _ _ _ _ h1 e1, e2⟩

theorem stream_reads : ∀ (k : Nat) (d : Dec), ∃ d', Reads d (stream k d).1 d'
  | 0, d => ⟨d, .nil d⟩
  | k + 1, d => by
    simp only [stream]
    split
    · exact ⟨d, .nil d⟩
    · rename_i t d1 h
      obtain ⟨d', hd⟩ := stream_reads k d1
      exact ⟨d', .cons _ _ _ _ _ h hd⟩

/-- The state of a decoder inside the open elements `os`. -/
structure At (d : Dec) (os : List Open) : Prop where
  rel : Rel d.ns d.stk os
  colon : RawColonFree d.raw

theorem token_spec {d d' : Dec} {os : List Open} {t : Token} (hd : At d os) (h : token d = .ok (t, d')) :
    ∃ t0 os', rawToken d.raw = .ok (t0, d'.raw) ∧ specToken os t0 = some (t, os') ∧ At d' os' := by
  unfold token at h
  split at h
  · cases h
  · rename_i t0 raw' hr
    have hcf := rawToken_colonFree _ _ _ hd.colon hr
    have hs := cook_spec hd.rel t0 hcf.1
    split at h
    · cases h
    · rename_i t' ns' stk' hk
      injection h with h; injection h with h1 h2
      subst h1; subst h2
      rw [hk] at hs
      cases hsp : specToken os t0 with
      | none => rw [hsp] at hs; exact absurd hs id
      | some q =>
        obtain ⟨t'', os'⟩ := q
        rw [hsp] at hs
        dsimp only at hs
        obtain ⟨rfl, hs⟩ := hs
        exact ⟨t0, os', hr, hsp, hs, hcf.2⟩

/-- The raw tokens of whole trees. -/
structure Raws (d d' : Dec) (os : List Open) (ts us : List Token) : Prop where
  steps : RawSteps d.raw ts d'.raw
  nest : ∀ st, nesting st ts = some st
  decl : ∀ n as, Token.startElement n as ∈ ts → ∀ a ∈ as, ¬ BadDecl a
  at' : At d' os
  spec : specRun os ts = some (us, os)

theorem spec_start {os os' : List Open} {t : Token} {n : Name} {as : List Attr} (h : specToken os t = some (.startElement n as, os')) :
    ∃ m bs, t = .startElement m bs ∧ (∀ a ∈ bs, ¬ BadDecl a) ∧ os' = ⟨m, bs.filterMap declOf⟩ :: os := by
  cases t with
  | startElement m bs =>
    simp only [specToken] at h
    split at h
    · cases h
    · rename_i hb
      injection h with h; injection h with _ h
      exact ⟨m, bs, rfl, fun a ha hbad => hb ⟨a, ha, hbad⟩, h.symm⟩
  | endElement m =>
    simp only [specToken] at h
    split at h
    · split at h
      · injection h with h; injection h with h _; cases h
      · cases h
    · cases h
  | _ => simp [specToken] at h

theorem spec_end {o : Open} {os os' : List Open} {t : Token} {n : Name} (h : specToken (o :: os) t = some (.endElement n, os')) :
    t = .endElement o.name ∧ os' = os := by
  cases t with
  | startElement m bs =>
    simp only [specToken] at h
    split at h
    · cases h
    · injection h with h; injection h with h _; cases h
  | endElement m =>
    simp only [specToken] at h
    split at h
    · rename_i hm
      injection h with h; injection h with _ h
      exact ⟨by rw [hm], h.symm⟩
    · cases h
  | _ => simp [specToken] at h

theorem spec_leaf {os os' : List Open} {t t' : Token} (hl : Token.isLeaf t' = true) (h : specToken os t = some (t', os')) :
    t = t' ∧ os' = os := by
  cases t with
  | startElement m bs =>
    simp only [specToken] at h
    split at h
    · cases h
    · injection h with h; injection h with h _; subst h; cases hl
  | endElement m =>
    simp only [specToken] at h
    split at h
    · split at h
      · injection h with h; injection h with h _; subst h; cases hl
      · cases h
    · cases h
  | _ => simp only [specToken] at h; injection h with h; injection h with h1 h2; exact ⟨h1, h2.symm⟩

mutual
theorem tree_raws : ∀ (t : XTree) (d d' : Dec) (os : List Open), t.Ok → At d os → Reads d t.flat d' →
    (∃ ts, Raws d d' os ts (t.flat.map (·.tok))) ∧ d.raw.toClose = none ∧ d'.raw.toClose = none ∧ t.Chunks
  | .leaf t b a, d, d', os, ht, hd, h => by
    simp only [XTree.flat] at h
    simp only [XTree.Ok] at ht
    cases h with
    | cons _ d1 _ _ _ h1 h2 =>
      cases h2
      obtain ⟨t0, os', e1, e2, e3⟩ := token_spec hd h1
      have e2' := e2
      obtain ⟨rfl, rfl⟩ := spec_leaf ht e2
      have h0 : d.raw.toClose = none := by
        cases hc : d.raw.toClose with
        | none => rfl
        | some n =>
          unfold rawToken at e1
          rw [hc] at e1
          injection e1 with e1; injection e1 with e1 _
          subst e1; cases ht
      refine ⟨⟨[t0], .cons _ _ _ _ _ e1 (.nil _), ?_, ?_, e3, ?_⟩, h0, ?_, trivial⟩
      · intro st
        cases t0 <;> first | (cases ht; done) | simp [nesting]
      · intro n as hm
        simp only [List.mem_singleton] at hm
        subst hm; cases ht
      · simp [specRun, e2', XTree.flat]
      · refine Classical.byContradiction fun hc => ?_
        obtain ⟨n, as, rfl⟩ := rawToken_open _ _ _ e1 hc
        cases ht
  | .elem n as b a kids en eb ea, d, d', os, ht, hd, h => by
    simp only [XTree.flat] at h
    simp only [XTree.Ok] at ht
    cases h with
    | cons _ d1 _ _ _ h1 h2 =>
      obtain ⟨t0, os1, e1, e2, e3⟩ := token_spec hd h1
      have e2' := e2
      obtain ⟨m, bs, rfl, hbad, rfl⟩ := spec_start e2
      obtain ⟨d2, h2', h3⟩ := reads_split _ _ _ _ h2
      clear h2
      cases h3 with
      | cons _ d3 _ _ _ h3 h4 =>
        cases h4
        obtain ⟨⟨ts, k⟩, hcl, hch⟩ := trees_raws kids d1 d2 _ ht e3 h2'
        obtain ⟨t1, os2, g1, g2, g3⟩ := token_spec k.at' h3
        have g2' := g2
        obtain ⟨rfl, rfl⟩ := spec_end g2
        have h0 : d.raw.toClose = none := by
          cases hc : d.raw.toClose with
          | none => rfl
          | some n =>
            unfold rawToken at e1
            rw [hc] at e1
            injection e1 with e1; injection e1 with e1 _
            cases e1
        refine ⟨⟨.startElement m bs :: (ts ++ [.endElement m]), ?_, ?_, ?_, g3, ?_⟩, h0, ?_, ?_⟩
        · exact .cons _ _ _ _ _ e1 (steps_append k.steps (.cons _ _ _ _ _ g1 (.nil _)))
        · intro st
          rw [nesting, nesting_append, k.nest]
          simp [nesting]
        · intro n' as' hm
          simp only [List.mem_cons, List.mem_append, List.not_mem_nil, or_false] at hm
          rcases hm with hm | hm | hm
          · injection hm with _ hm; subst hm; exact hbad
          · exact k.decl n' as' hm
          · cases hm
        · have := specRun_append _ _ _ _ _ _ _ k.spec (show specRun _ [.endElement m] = some ([.endElement en], os2) by
            simp only [specRun, g2'])
          simp only [specRun, e2', this, XTree.flat, List.map_cons, List.map_append, List.map_nil]
        · refine Classical.byContradiction fun hc => ?_
          obtain ⟨n, as, hn⟩ := rawToken_open _ _ _ g1 hc
          cases hn
        · simp only [XTree.Chunks]
          refine ⟨?_, hch⟩
          rcases hcl with ⟨c1, c2⟩ | rfl
          · obtain ⟨r, hr⟩ := rawToken_end _ _ _ g1 c2
            obtain ⟨p, hp⟩ := steps_suffix k.steps
            have hs := k.steps
            rw [show d1.raw = ⟨p ++ ch%'<' :: r, none⟩ by rw [← hr, ← hp, ← c1], show d2.raw = ⟨ch%'<' :: r, none⟩ by rw [← hr, ← c2]] at hs
            exact ⟨p, hp, chunk_of_steps hs (k.nest []) k.decl, _, by rw [chunkToks_steps hs]; exact k.spec⟩
          · simp only [flats] at h2'
            cases h2'
            exact ⟨[], rfl, chunk_nil, [], rfl⟩
theorem trees_raws : ∀ (l : List XTree) (d d' : Dec) (os : List Open), Oks l → At d os → Reads d (flats l) d' →
    (∃ ts, Raws d d' os ts ((flats l).map (·.tok))) ∧ ((d.raw.toClose = none ∧ d'.raw.toClose = none) ∨ l = []) ∧ ChunksL l
  | [], d, d', os, _, hd, h => by
    simp only [flats] at h
    cases h
    exact ⟨⟨[], .nil _, fun st => by simp [nesting], by simp, hd, rfl⟩, Or.inr rfl, trivial⟩
  | t :: l, d, d', os, ht, hd, h => by
    simp only [flats] at h
    simp only [Oks] at ht
    obtain ⟨d1, h1, h2⟩ := reads_split _ _ _ _ h
    obtain ⟨⟨ts, k⟩, c1, c2, c3⟩ := tree_raws t d d1 os ht.1 hd h1
    obtain ⟨⟨ts', k'⟩, c4, c5⟩ := trees_raws l d1 d' os ht.2 k.at' h2
    refine ⟨⟨ts ++ ts', steps_append k.steps k'.steps, ?_, ?_, k'.at', ?_⟩, Or.inl ⟨c1, ?_⟩, c3, c5⟩
    · intro st
      rw [nesting_append, k.nest]
      exact k'.nest st
    · intro n as hm
      rcases List.mem_append.1 hm with hm | hm
      · exact k.decl n as hm
      · exact k'.decl n as hm
    · rw [flats, List.map_append]
      exact specRun_append _ _ _ _ _ _ _ k.spec k'.spec
    · rcases c4 with c4 | rfl
      · exact c4.2
      · simp only [flats] at h2
        cases h2
        exact c2
end

/-- What is between the tags of the elements of a document is content. -/
theorem isDoc_chunks (doc : Bytes) (t : XTree) (h : IsDoc doc t) : t.Chunks := by
  obtain ⟨hok, _, pre, post, hpre, hd⟩ := h
  obtain ⟨d', hr⟩ := stream_reads (2 * doc.length + 2) (Dec.new doc)
  unfold docTokens at hd
  rw [hd] at hr
  obtain ⟨d1, h1, h2⟩ := reads_split _ _ _ _ hr
  obtain ⟨d2, h2, _⟩ := reads_split _ _ _ _ h2
  have key : ∀ (pre : List PTok) (d d1 : Dec) (os : List Open), At d os → Reads d pre d1 → ∃ os', At d1 os' := by
    intro pre
    induction pre with
    | nil => intro d d1 os hd h; cases h; exact ⟨os, hd⟩
    | cons p pre ih =>
      intro d d1 os hd h
      cases h with
      | cons _ d2 _ _ _ h1 h2 =>
        obtain ⟨_, os', _, _, e⟩ := token_spec hd h1
        exact ih d2 d1 os' e h2
  obtain ⟨os, hat⟩ := key pre _ d1 [] ⟨.nil, rawColonFree_new doc⟩ h1
  exact (tree_raws t d1 d2 os hok hat h2).2.2.2

end Verif.Bind

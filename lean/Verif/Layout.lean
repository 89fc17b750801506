import Verif.MpdRoundTrip

/-!
C53: the layout of indented output.  With a prefix or an indentation (`/repo/xml/marshal.go` 1213-1242), every element starts on
a line of its own, indented by the number of elements around it; so does the end tag of an element with elements inside;
otherwise the output is the same as without indentation.
-/
namespace Verif.Xml

/-! ### Specification -/

/-- The number of open elements after these pieces. -/
def opens : List Out → Int
  | [] => 0
  | .start _ _ :: l => opens l + 1
  | .stop _ :: l => opens l - 1
  | _ :: l => opens l

/-- Whether the last tag is a start tag; nothing if there is none. -/
def lastTag : List Out → Option Bool
  | [] => none
  | o :: l =>
    match lastTag l, o with
    | some b, _ => some b
    | none, .start _ _ => some true
    | none, .stop _ => some false
    | none, _ => none

/-- A new line, except at the beginning, and the indentation. -/
def lineStart (pre indent : Bytes) (before : List Out) (depth : Int) : Bytes :=
  (if lastTag before = none then [] else [ch%'\n']) ++ pre ++ (List.replicate depth.toNat indent).flatten

/-- What is written before a piece, if it is a tag, given everything before that. -/
def tagLead (pre indent : Bytes) (before : List Out) : Out → Option Bytes
  | .start _ _ => some (lineStart pre indent before (opens before))
  | .stop _ => some (if lastTag before = some true then [] else lineStart pre indent before (opens before - 1))
  | _ => none

/-- Every tag has the white space it should have before it, and there is no other white space; `l` are the pieces before. -/
inductive LaidOut (pre indent : Bytes) : List Out → List Out → Prop where
  | nil (l : List Out) : LaidOut pre indent l []
  | tag (l o : List Out) (x : Out) (w : Bytes) : tagLead pre indent l x = some w → LaidOut pre indent (l ++ [.raw w, x]) o →
      LaidOut pre indent l (.raw w :: x :: o)
  | other (l o : List Out) (x : Out) : tagLead pre indent l x = none → (∀ w, x ≠ .raw w) → LaidOut pre indent (l ++ [x]) o →
      LaidOut pre indent l (x :: o)

/-- The pieces other than indentation. -/
def noIndent (l : List Out) : List Out := l.filter fun o => match o with | .raw _ => false | _ => true

/-! ### Proof -/

theorem opens_append (a b : List Out) : opens (a ++ b) = opens a + opens b := by
  induction a with
  | nil => simp [opens]
  | cons x a ih => cases x <;> simp only [List.cons_append, opens, ih] <;> omega

theorem lastTag_append (a b : List Out) : lastTag (a ++ b) = (lastTag b).or (lastTag a) := by
  induction a with
  | nil => simp [lastTag]
  | cons x a ih =>
    simp only [List.cons_append, lastTag, ih]
    cases lastTag b <;> simp

theorem laidOut_append {pre indent : Bytes} {l a b : List Out} (ha : LaidOut pre indent l a) (hb : LaidOut pre indent (l ++ a) b) :
    LaidOut pre indent l (a ++ b) := by
  induction ha with
  | nil l => simpa using hb
  | tag l o x w h _ ih => exact .tag _ _ _ _ h (ih (by simpa using hb))
  | other l o x h1 h2 _ ih => exact .other _ _ _ h1 h2 (ih (by simpa using hb))

/-- The state of the printer after the pieces `l`. -/
structure Track (pre indent : Bytes) (l : List Out) (i : Ind) : Prop where
  pre : i.pre = pre
  indent : i.indent = indent
  depth : i.depth = opens l
  inner : i.indentedIn = (lastTag l == some true)
  newline : i.putNewline = (lastTag l).isSome

theorem track_start {pre indent : Bytes} (hne : ¬ (pre = [] ∧ indent = [])) {l : List Out} {i : Ind} (h : Track pre indent l i)
    (q : Bytes) (as : List TagAttr) : some (writeIndent i 1).2 = tagLead pre indent l (.start q as) ∧
      Track pre indent (l ++ [.raw (writeIndent i 1).2, .start q as]) (writeIndent i 1).1 := by
  have hw : writeIndent i 1 = indentOut i 1 := by
    unfold writeIndent
    rw [if_neg (by rw [h.pre, h.indent]; exact hne), if_neg (by decide)]
  rw [hw]
  refine ⟨?_, ?_⟩
  · simp only [tagLead, lineStart, indentOut, h.pre, h.indent, h.depth, h.newline]
    cases lastTag l <;> simp
  · refine ⟨h.pre, h.indent, ?_, ?_, ?_⟩
    · simp [indentOut, opens_append, opens, h.depth]
    · simp [indentOut, lastTag_append, lastTag]
    · simp [indentOut, lastTag_append, lastTag]

theorem track_stop {pre indent : Bytes} (hne : ¬ (pre = [] ∧ indent = [])) {l : List Out} {i : Ind} (h : Track pre indent l i)
    (q : Bytes) : some (writeIndent i (-1)).2 = tagLead pre indent l (.stop q) ∧
      Track pre indent (l ++ [.raw (writeIndent i (-1)).2, .stop q]) (writeIndent i (-1)).1 := by
  unfold writeIndent
  rw [if_neg (by rw [h.pre, h.indent]; exact hne), if_pos (by decide)]
  split
  · rename_i hi
    rw [h.inner] at hi
    have hl := beq_iff_eq.1 hi
    refine ⟨?_, h.pre, h.indent, ?_, ?_, ?_⟩
    · simp [tagLead, hl]
    · simp [opens_append, opens, h.depth]; omega
    · simp [lastTag_append, lastTag]
    · rw [h.newline]; simp [lastTag_append, lastTag, hl]
  · rename_i hi
    rw [h.inner] at hi
    have hl : lastTag l ≠ some true := fun e => hi (by rw [e]; rfl)
    refine ⟨?_, h.pre, h.indent, ?_, ?_, ?_⟩
    · simp only [tagLead, lineStart, indentOut, h.pre, h.indent, h.depth, h.newline, if_neg hl]
      cases lastTag l <;> simp
    · simp [indentOut, opens_append, opens, h.depth]; omega
    · simp [indentOut, lastTag_append, lastTag]
    · simp [indentOut, lastTag_append, lastTag]

mutual
theorem encItem_layout {pre indent : Bytes} (hne : ¬ (pre = [] ∧ indent = [])) : ∀ (x : Item) (p p' : Printer) (l o : List Out),
    Track pre indent l p.ind → encItem p x = .ok (p', o) → LaidOut pre indent l o ∧ Track pre indent (l ++ o) p'.ind
  | .elem n attrs kids, p, p', l, o, ht, h => by
    simp only [encItem] at h
    split at h
    · cases h
    · rename_i p1 o1 h1
      split at h
      · cases h
      · rename_i p2 o2 h2
        split at h
        · cases h
        · rename_i p3 o3 h3
          injection h with h; injection h with g1 g2
          subst g1; subst g2
          unfold writeStart at h1
          split at h1
          · cases h1
          · rename_i ns q tas _
            injection h1 with h1; injection h1 with e1 e2
            subst e1; subst e2
            obtain ⟨s1, s2⟩ := track_start hne ht q tas
            obtain ⟨k1, k2⟩ := encItems_layout hne kids _ p2 _ o2 s2 h2
            unfold writeEnd at h3
            split at h3
            · cases h3
            · rename_i ns' q' _
              injection h3 with h3; injection h3 with e1 e2
              subst e1; subst e2
              obtain ⟨c1, c2⟩ := track_stop hne k2 q'
              refine ⟨?_, by simpa using c2⟩
              refine laidOut_append (laidOut_append (.tag _ _ _ _ s1.symm (.nil _)) (by simpa using k1)) ?_
              refine .tag _ _ _ _ ?_ (.nil _)
              rw [c1]
              simp
  | .text b, p, p', l, o, ht, h => by
    simp only [encItem] at h
    injection h with h; injection h with g1 g2
    subst g1; subst g2
    refine ⟨.other _ _ _ rfl (by simp) (.nil _), ht.pre, ht.indent, ?_, ?_, ?_⟩
    · simp [opens_append, opens, ht.depth]
    · simp [lastTag_append, lastTag, ht.inner]
    · simp [lastTag_append, lastTag, ht.newline]
  | .str b, p, p', l, o, ht, h => by
    simp only [encItem] at h
    injection h with h; injection h with g1 g2
    subst g1; subst g2
    refine ⟨.other _ _ _ rfl (by simp) (.nil _), ht.pre, ht.indent, ?_, ?_, ?_⟩
    · simp [opens_append, opens, ht.depth]
    · simp [lastTag_append, lastTag, ht.inner]
    · simp [lastTag_append, lastTag, ht.newline]
  | .raw b, p, p', l, o, ht, h => by
    simp only [encItem] at h
    injection h with h; injection h with g1 g2
    subst g1; subst g2
    refine ⟨.other _ _ _ rfl (by simp) (.nil _), ht.pre, ht.indent, ?_, ?_, ?_⟩
    · simp [opens_append, opens, ht.depth]
    · simp [lastTag_append, lastTag, ht.inner]
    · simp [lastTag_append, lastTag, ht.newline]
theorem encItems_layout {pre indent : Bytes} (hne : ¬ (pre = [] ∧ indent = [])) : ∀ (x : List Item) (p p' : Printer) (l o : List Out),
    Track pre indent l p.ind → encItems p x = .ok (p', o) → LaidOut pre indent l o ∧ Track pre indent (l ++ o) p'.ind
  | [], p, p', l, o, ht, h => by
    simp only [encItems] at h
    injection h with h; injection h with g1 g2
    subst g1; subst g2
    exact ⟨.nil _, by simpa using ht⟩
  | x :: xs, p, p', l, o, ht, h => by
    simp only [encItems] at h
    split at h
    · cases h
    · rename_i p1 o1 h1
      split at h
      · cases h
      · rename_i p2 o2 h2
        injection h with h; injection h with g1 g2
        subst g1; subst g2
        obtain ⟨a1, a2⟩ := encItem_layout hne x p p1 l o1 ht h1
        obtain ⟨b1, b2⟩ := encItems_layout hne xs p1 p2 (l ++ o1) o2 a2 h2
        exact ⟨laidOut_append a1 b1, by simpa using b2⟩
end

/-- **C53**: with a prefix or an indentation, every tag is written on its line and with its indentation. -/
theorem C53_layout (pre indent : Bytes) (hne : ¬ (pre = [] ∧ indent = [])) (items : List Item) (p : Printer) (o : List Out)
    (h : encItems (Printer.new pre indent) items = .ok (p, o)) : LaidOut pre indent [] o :=
  (encItems_layout hne items _ p [] o ⟨rfl, rfl, rfl, rfl, rfl⟩ h).1

/-! ### The same tags and texts -/

/-- The outcomes differ only in the indentation. -/
def SameButIndent (r r' : Except EncErr (Printer × List Out)) : Prop :=
  match r, r' with
  | .error e, .error e' => e = e'
  | .ok (p, o), .ok (p', o') => p.ns = p'.ns ∧ noIndent o = noIndent o'
  | _, _ => False

theorem noIndent_append (a b : List Out) : noIndent (a ++ b) = noIndent a ++ noIndent b := List.filter_append ..

mutual
theorem encItem_same : ∀ (x : Item) (p q : Printer), p.ns = q.ns → SameButIndent (encItem p x) (encItem q x)
  | .elem n attrs kids, p, q, h => by
    simp only [encItem, writeStart, h]
    cases nsStart q.ns n attrs with
    | error e => simp [SameButIndent]
    | ok r =>
      obtain ⟨ns, t, tas⟩ := r
      dsimp only
      have hk := encItems_same kids ⟨ns, (writeIndent p.ind 1).1⟩ ⟨ns, (writeIndent q.ind 1).1⟩ rfl
      unfold SameButIndent at hk
      split at hk
      · rename_i e e' h1 h2
        rw [h1, h2]; simpa [SameButIndent] using hk
      · rename_i p1 o1 p2 o2 h1 h2
        rw [h1, h2]
        dsimp only
        unfold writeEnd
        rw [hk.1]
        cases nsEnd p2.ns n with
        | error e => simp [SameButIndent]
        | ok r =>
          dsimp only
          simp only [SameButIndent, noIndent_append, hk.2, true_and]
          rfl
      · exact hk.elim
  | .text b, p, q, h => by simp [encItem, SameButIndent, h]
  | .str b, p, q, h => by simp [encItem, SameButIndent, h]
  | .raw b, p, q, h => by simp [encItem, SameButIndent, h]
theorem encItems_same : ∀ (x : List Item) (p q : Printer), p.ns = q.ns → SameButIndent (encItems p x) (encItems q x)
  | [], p, q, h => by simp [encItems, SameButIndent, h]
  | x :: xs, p, q, h => by
    simp only [encItems]
    have h1 := encItem_same x p q h
    unfold SameButIndent at h1
    split at h1
    · rename_i e e' g1 g2
      rw [g1, g2]; simpa [SameButIndent] using h1
    · rename_i p1 o1 p2 o2 g1 g2
      rw [g1, g2]
      dsimp only
      have h2 := encItems_same xs p1 p2 h1.1
      unfold SameButIndent at h2
      split at h2
      · rename_i e e' k1 k2
        rw [k1, k2]; simpa [SameButIndent] using h2
      · rename_i p3 o3 p4 o4 k1 k2
        rw [k1, k2]
        simp [SameButIndent, noIndent_append, h1.2, h2]
      · exact h2.elim
    · exact h1.elim
end

/-- **C53**: whether writing succeeds, and the tags and texts that are written, do not depend on the prefix and the
indentation. -/
theorem C53_same (pre indent pre' indent' : Bytes) (items : List Item) :
    SameButIndent (encItems (Printer.new pre indent) items) (encItems (Printer.new pre' indent') items) :=
  encItems_same items _ _ rfl

/-! ### Without indentation -/

/-- Pieces of indentation are empty. -/
def Flat (o : List Out) : Prop := ∀ w, Out.raw w ∈ o → w = []

theorem flat_bytes (o : List Out) (h : Flat o) : outBytes (noIndent o) = outBytes o := by
  induction o with
  | nil => rfl
  | cons x o ih =>
    have := ih fun w hw => h w (List.mem_cons_of_mem _ hw)
    cases x with
    | raw w =>
      rw [show noIndent (.raw w :: o) = noIndent o from rfl, this, h w List.mem_cons_self]
      rfl
    | _ => simp only [noIndent, List.filter_cons_of_pos, outBytes, List.flatMap_cons] at this ⊢; rw [this]

theorem writeIndent_flat (i : Ind) (d : Int) (h : i.pre = [] ∧ i.indent = []) : writeIndent i d = (i, []) := by
  unfold writeIndent; rw [if_pos h]

mutual
theorem encItem_flat : ∀ (x : Item) (p p' : Printer) (o : List Out), p.ind.pre = [] ∧ p.ind.indent = [] →
    encItem p x = .ok (p', o) → Flat o ∧ p'.ind = p.ind
  | .elem n attrs kids, p, p', o, hp, h => by
    simp only [encItem] at h
    split at h
    · cases h
    · rename_i p1 o1 h1
      split at h
      · cases h
      · rename_i p2 o2 h2
        split at h
        · cases h
        · rename_i p3 o3 h3
          injection h with h; injection h with g1 g2
          subst g1; subst g2
          unfold writeStart at h1
          rw [writeIndent_flat _ _ hp] at h1
          split at h1
          · cases h1
          · injection h1 with h1; injection h1 with e1 e2
            subst e1; subst e2
            obtain ⟨k1, k2⟩ := encItems_flat kids _ p2 o2 (by exact hp) h2
            dsimp only at k2
            unfold writeEnd at h3
            rw [writeIndent_flat _ _ (by rw [k2]; exact hp)] at h3
            split at h3
            · cases h3
            · injection h3 with h3; injection h3 with e1 e2
              subst e1; subst e2
              refine ⟨fun w hw => ?_, k2⟩
              simp only [List.mem_append, List.mem_cons, List.not_mem_nil, or_false, Out.raw.injEq, reduceCtorEq] at hw
              rcases hw with (hw | hw) | hw
              · exact hw
              · exact k1 w hw
              · exact hw
  | .text b, p, p', o, hp, h => by
    simp only [encItem] at h
    injection h with h; injection h with g1 g2
    subst g1; subst g2
    exact ⟨fun w hw => by simp at hw, rfl⟩
  | .str b, p, p', o, hp, h => by
    simp only [encItem] at h
    injection h with h; injection h with g1 g2
    subst g1; subst g2
    exact ⟨fun w hw => by simp at hw, rfl⟩
  | .raw b, p, p', o, hp, h => by
    simp only [encItem] at h
    injection h with h; injection h with g1 g2
    subst g1; subst g2
    exact ⟨fun w hw => by simp at hw, rfl⟩
theorem encItems_flat : ∀ (x : List Item) (p p' : Printer) (o : List Out), p.ind.pre = [] ∧ p.ind.indent = [] →
    encItems p x = .ok (p', o) → Flat o ∧ p'.ind = p.ind
  | [], p, p', o, hp, h => by
    simp only [encItems] at h
    injection h with h; injection h with g1 g2
    subst g1; subst g2
    exact ⟨fun w hw => by simp at hw, rfl⟩
  | x :: xs, p, p', o, hp, h => by
    simp only [encItems] at h
    split at h
    · cases h
    · rename_i p1 o1 h1
      split at h
      · cases h
      · rename_i p2 o2 h2
        injection h with h; injection h with g1 g2
        subst g1; subst g2
        obtain ⟨a1, a2⟩ := encItem_flat x p p1 o1 hp h1
        obtain ⟨b1, b2⟩ := encItems_flat xs p1 p2 o2 (by rw [a2]; exact hp) h2
        refine ⟨fun w hw => ?_, b2.trans a2⟩
        rcases List.mem_append.1 hw with hw | hw
        · exact a1 w hw
        · exact b1 w hw
end

/-- **C53**, for whole documents: a document written with an indentation consists of the pieces of the document written
without one, each tag on its line and with its indentation. -/
theorem C53_written (io : Bind.FloatIO) (s : Bind.Sch) (v : Bind.Val) (indent : Bytes) (hne : indent ≠ []) (hdr : Bool) (doc : Bytes)
    (h : Bind.writeDoc io s v indent hdr = .ok doc) : ∃ head o, doc = head ++ outBytes o ∧ LaidOut [] indent [] o ∧
      Bind.writeDoc io s v [] hdr = .ok (head ++ outBytes (noIndent o)) := by
  unfold Bind.writeDoc at h ⊢
  split at h
  · cases h
  · rename_i items hm
    simp only [encode] at h ⊢
    have hs := C53_same [] indent [] [] items
    split at h
    · cases h
    · rename_i d he
      split at he
      · cases he
      · rename_i p o ho
        injection he with he; injection h with h
        subst he; subst h
        refine ⟨_, o, rfl, C53_layout [] indent (fun h => hne h.2) items p o ho, ?_⟩
        rw [ho] at hs
        unfold SameButIndent at hs
        split at hs
        · rename_i h1 _; cases h1
        · rename_i p1 o1 p2 o2 h1 h2
          injection h1 with h1; injection h1 with _ h1
          subst h1
          rw [h2, hs.2, flat_bytes o2 (encItems_flat items _ _ _ ⟨rfl, rfl⟩ h2).1]
        · exact hs.elim

/-- **C53**: whether a document is written does not depend on the indentation. -/
theorem C53_success (io : Bind.FloatIO) (s : Bind.Sch) (v : Bind.Val) (indent indent' : Bytes) (hdr : Bool) (e : Bind.WErr) :
    Bind.writeDoc io s v indent hdr = .error e ↔ Bind.writeDoc io s v indent' hdr = .error e := by
  have key : ∀ indent indent', Bind.writeDoc io s v indent hdr = .error e → Bind.writeDoc io s v indent' hdr = .error e := by
    intro indent indent' h
    unfold Bind.writeDoc at h ⊢
    split at h
    · exact h
    · rename_i items hm
      simp only [encode] at h ⊢
      have hs := C53_same [] indent [] indent' items
      unfold SameButIndent at hs
      split at hs
      · rename_i e1 e2 h1 h2
        rw [h1] at h; rw [h2]
        dsimp only at h ⊢
        rw [← hs]; exact h
      · rename_i h1 h2
        rw [h1] at h
        dsimp only at h
        cases h
      · exact hs.elim
  exact ⟨key _ _, key _ _⟩

/-- An element with an element and a text inside. -/
def exTree : List Item := [.elem ⟨[], b!"a"⟩ [] [.elem ⟨[], b!"b"⟩ [] [.text (b!"t")], .elem ⟨[], b!"c"⟩ [] []]]

example : encode [] (b!"  ") exTree = .ok (b!"<a>\n  <b>t</b>\n  <c></c>\n</a>") := by decide +kernel

end Verif.Xml

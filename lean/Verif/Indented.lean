import Verif.Splice

/-!
C83 with indentation: the lines that a period has in the manifest are those it has on its own, each with one more indentation.
-/
namespace Verif.Bind

open Verif Verif.Xml Verif.FloatText

/-! ### Specification -/

/-- An indentation after each new line. -/
def afterNl (ind t : Bytes) : Bytes := t.flatMap fun c => if c = ch%'\n' then ch%'\n' :: ind else [c]

/-- All lines of a text one level further in. -/
def indented (ind t : Bytes) : Bytes := ind ++ afterNl ind t

/-! ### Proof -/

/-- The white space that a printer with indentation `i` puts into what a printer without writes. -/
def weave (i : Ind) : List Out → Ind × List Out
  | [] => (i, [])
  | .start q as :: l => ((weave (writeIndent i 1).1 l).1, .raw (writeIndent i 1).2 :: .start q as :: (weave (writeIndent i 1).1 l).2)
  | .stop q :: l => ((weave (writeIndent i (-1)).1 l).1, .raw (writeIndent i (-1)).2 :: .stop q :: (weave (writeIndent i (-1)).1 l).2)
  | .raw _ :: l => weave i l
  | .text b :: l => ((weave i l).1, .text b :: (weave i l).2)
  | .str b :: l => ((weave i l).1, .str b :: (weave i l).2)
  | .inner b :: l => ((weave i l).1, .inner b :: (weave i l).2)

theorem weave_append (a b : List Out) : ∀ i, weave i (a ++ b) = ((weave (weave i a).1 b).1, (weave i a).2 ++ (weave (weave i a).1 b).2) := by
  induction a with
  | nil => intro i; rfl
  | cons x a ih => intro i; cases x <;> simp [weave, ih]

mutual
/-- The indentation is independent of everything else. -/
theorem encItem_weave : ∀ (x : Item) (n n' : Ns) (f f' i : Ind) (o : List Out), f.pre = [] ∧ f.indent = [] →
    encItem ⟨n, f⟩ x = .ok (⟨n', f'⟩, o) → encItem ⟨n, i⟩ x = .ok (⟨n', (weave i o).1⟩, (weave i o).2)
  | .elem nm attrs kids, n, n', f, f', i, o, hf, h => by
    simp only [encItem, writeStart] at h ⊢
    cases h1 : nsStart n nm attrs with
    | error e => rw [h1] at h; cases h
    | ok r =>
    obtain ⟨n1, q, tas⟩ := r
    rw [h1] at h
    dsimp only at h ⊢
    rw [writeIndent_flat _ _ hf] at h
    dsimp only at h
    cases h2 : encItems ⟨n1, f⟩ kids with
    | error e => rw [h2] at h; cases h
    | ok r =>
    obtain ⟨⟨n2, f2⟩, o2⟩ := r
    rw [h2] at h
    have hf2 := (encItems_flat kids _ _ _ hf h2).2
    dsimp only at hf2
    subst hf2
    dsimp only at h
    rw [encItems_weave kids n1 n2 f2 f2 _ o2 hf h2]
    simp only [writeEnd] at h ⊢
    cases h3 : nsEnd n2 nm with
    | error e => rw [h3] at h; cases h
    | ok r =>
    obtain ⟨n3, q3⟩ := r
    rw [h3] at h
    dsimp only at h ⊢
    rw [writeIndent_flat _ _ hf] at h
    injection h with h
    injection h with h ho
    injection h with h _
    subst h
    rw [← ho]
    simp [weave, weave_append]
  | .text b, n, n', f, f', i, o, hf, h => by
    simp only [encItem] at h ⊢; injection h with h; injection h with h ho; injection h with h _; subst h; rw [← ho]; rfl
  | .str b, n, n', f, f', i, o, hf, h => by
    simp only [encItem] at h ⊢; injection h with h; injection h with h ho; injection h with h _; subst h; rw [← ho]; rfl
  | .raw b, n, n', f, f', i, o, hf, h => by
    simp only [encItem] at h ⊢; injection h with h; injection h with h ho; injection h with h _; subst h; rw [← ho]; rfl
/-- The same for some items. -/
theorem encItems_weave : ∀ (l : List Item) (n n' : Ns) (f f' i : Ind) (o : List Out), f.pre = [] ∧ f.indent = [] →
    encItems ⟨n, f⟩ l = .ok (⟨n', f'⟩, o) → encItems ⟨n, i⟩ l = .ok (⟨n', (weave i o).1⟩, (weave i o).2)
  | [], n, n', f, f', i, o, hf, h => by
    simp only [encItems] at h ⊢; injection h with h; injection h with h ho; injection h with h _; subst h; rw [← ho]; rfl
  | x :: l, n, n', f, f', i, o, hf, h => by
    simp only [encItems] at h ⊢
    cases h1 : encItem ⟨n, f⟩ x with
    | error e => rw [h1] at h; cases h
    | ok r =>
    obtain ⟨⟨n1, f1⟩, o1⟩ := r
    rw [h1] at h
    have hf1 := (encItem_flat x _ _ _ hf h1).2
    dsimp only at hf1
    subst hf1
    dsimp only at h
    cases h2 : encItems ⟨n1, f1⟩ l with
    | error e => rw [h2] at h; cases h
    | ok r =>
    obtain ⟨⟨n2, f2⟩, o2⟩ := r
    rw [h2] at h
    injection h with h
    injection h with h ho
    injection h with h _
    subst h
    rw [encItem_weave x n n1 f1 f1 i o1 hf h1]
    dsimp only
    rw [encItems_weave l n1 n2 f1 f2 _ o2 hf h2, ← ho]
    simp [weave_append]
end

/-- Outside of the first line. -/
def lead (ind : Bytes) (d : Nat) (inn : Bool) : Ind := ⟨[], ind, d, inn, true⟩

/-- The line of a tag. -/
def line (ind : Bytes) (d : Nat) : Bytes := ch%'\n' :: (List.replicate d ind).flatten

theorem lead_start {ind : Bytes} (h : ind ≠ []) (d : Nat) (inn : Bool) :
    writeIndent (lead ind d inn) 1 = (lead ind (d + 1) true, line ind d) := by
  simp [writeIndent, lead, h, indentOut, line]

theorem lead_stop {ind : Bytes} (h : ind ≠ []) (d : Nat) (inn : Bool) :
    writeIndent (lead ind (d + 1) inn) (-1) = (lead ind d false, if inn then [] else line ind d) := by
  cases inn <;> simp [writeIndent, lead, h, indentOut, line]

theorem afterNl_append (ind a b : Bytes) : afterNl ind (a ++ b) = afterNl ind a ++ afterNl ind b := by
  simp [afterNl]

theorem afterNl_none (ind : Bytes) : ∀ a : Bytes, ch%'\n' ∉ a → afterNl ind a = a
  | [], _ => rfl
  | c :: a, h => by
    have h1 : c ≠ ch%'\n' := fun e => h (by simp [e])
    have := afterNl_none ind a (fun e => h (by simp [e]))
    simp only [afterNl] at this
    simp [afterNl, h1, this]

theorem afterNl_line {ind : Bytes} (h : ch%'\n' ∉ ind) (d : Nat) : afterNl ind (line ind d) = line ind (d + 1) := by
  have h1 : ch%'\n' ∉ (List.replicate d ind).flatten := by
    intro h2
    obtain ⟨l, h3, h4⟩ := List.mem_flatten.1 h2
    rw [(List.mem_replicate.1 h3).2] at h4
    exact h h4
  have := afterNl_none ind _ h1
  unfold afterNl at this ⊢
  simp [line, this, List.replicate_succ]

/-- The pieces of a text without new lines have none. -/
def NoNl (o : List Out) : Prop := ch%'\n' ∉ outBytes o

theorem noNl_append {a b : List Out} : NoNl (a ++ b) ↔ NoNl a ∧ NoNl b := by
  unfold NoNl; simp [outBytes, not_or]

mutual
/-- What is written one level further in has the same lines, further in. -/
theorem encItem_in (ind : Bytes) (hi : ind ≠ []) : ∀ (x : Item) (p p' : Printer) (o : List Out), p.ind.pre = [] ∧ p.ind.indent = [] →
    encItem p x = .ok (p', o) → ∀ (d : Nat) (inn : Bool), ∃ inn', (∀ d', (weave (lead ind d' inn) o).1 = lead ind d' inn') ∧
      (ch%'\n' ∉ ind → NoNl o → outBytes (weave (lead ind (d + 1) inn) o).2 = afterNl ind (outBytes (weave (lead ind d inn) o).2))
  | .elem nm attrs kids, p, p', o, hf, h, d, inn => by
    simp only [encItem, writeStart] at h
    cases h1 : nsStart p.ns nm attrs with
    | error e => rw [h1] at h; cases h
    | ok r =>
    obtain ⟨n1, q, tas⟩ := r
    rw [h1] at h
    dsimp only at h
    rw [writeIndent_flat _ _ hf] at h
    dsimp only at h
    cases h2 : encItems ⟨n1, p.ind⟩ kids with
    | error e => rw [h2] at h; cases h
    | ok r =>
    obtain ⟨p2, o2⟩ := r
    rw [h2] at h
    have hf2 := (encItems_flat kids ⟨n1, p.ind⟩ _ _ hf h2).2
    dsimp only at hf2 h
    simp only [writeEnd] at h
    cases h3 : nsEnd p2.ns nm with
    | error e => rw [h3] at h; cases h
    | ok r =>
    obtain ⟨n3, q3⟩ := r
    rw [h3] at h
    dsimp only at h
    rw [writeIndent_flat _ _ (by rw [hf2]; exact hf)] at h
    injection h with h
    injection h with _ ho
    obtain ⟨inn', a1, a2⟩ := encItems_in ind hi kids ⟨n1, p.ind⟩ _ _ hf h2 (d + 1) true
    subst ho
    refine ⟨false, fun d' => ?_, fun hn hnl => ?_⟩
    · simp [weave, weave_append, lead_start hi, lead_stop hi, a1]
    · rw [noNl_append, noNl_append] at hnl
      have b1 : afterNl ind (Out.bytes (.start q tas)) = Out.bytes (.start q tas) := by
        refine afterNl_none _ _ ?_
        have := hnl.1.1
        simpa [NoNl, outBytes, Out.bytes] using this
      have b3 : afterNl ind (Out.bytes (.stop q3)) = Out.bytes (.stop q3) := by
        refine afterNl_none _ _ ?_
        have := hnl.2
        simpa [NoNl, outBytes, Out.bytes] using this
      have b2 := a2 hn hnl.1.2
      have e : ∀ d, outBytes (weave (lead ind d inn) ([.raw [], .start q tas] ++ o2 ++ [.raw [], .stop q3])).2 =
          line ind d ++ Out.bytes (.start q tas) ++ outBytes (weave (lead ind (d + 1) true) o2).2 ++
            (if inn' then [] else line ind d) ++ Out.bytes (.stop q3) := by
        intro d
        simp [weave, weave_append, lead_start hi, lead_stop hi, a1, outBytes, Out.bytes]
      rw [e, e]
      simp only [afterNl_append, afterNl_line hn, b1, b2, b3]
      cases inn'
      · simp [afterNl_line hn]
      · simp [afterNl]
  | .text b, p, p', o, hf, h, d, inn => by
    simp only [encItem] at h
    injection h with h
    injection h with _ ho
    subst ho
    refine ⟨inn, fun d' => rfl, fun hn hnl => ?_⟩
    have := afterNl_none ind _ hnl
    simp only [weave]
    rw [this]
  | .str b, p, p', o, hf, h, d, inn => by
    simp only [encItem] at h
    injection h with h
    injection h with _ ho
    subst ho
    refine ⟨inn, fun d' => rfl, fun hn hnl => ?_⟩
    have := afterNl_none ind _ hnl
    simp only [weave]
    rw [this]
  | .raw b, p, p', o, hf, h, d, inn => by
    simp only [encItem] at h
    injection h with h
    injection h with _ ho
    subst ho
    refine ⟨inn, fun d' => rfl, fun hn hnl => ?_⟩
    have := afterNl_none ind _ hnl
    simp only [weave]
    rw [this]
/-- The same for some items. -/
theorem encItems_in (ind : Bytes) (hi : ind ≠ []) : ∀ (l : List Item) (p p' : Printer) (o : List Out), p.ind.pre = [] ∧ p.ind.indent = [] →
    encItems p l = .ok (p', o) → ∀ (d : Nat) (inn : Bool), ∃ inn', (∀ d', (weave (lead ind d' inn) o).1 = lead ind d' inn') ∧
      (ch%'\n' ∉ ind → NoNl o → outBytes (weave (lead ind (d + 1) inn) o).2 = afterNl ind (outBytes (weave (lead ind d inn) o).2))
  | [], p, p', o, hf, h, d, inn => by
    simp only [encItems] at h
    injection h with h
    injection h with _ ho
    subst ho
    exact ⟨inn, fun d' => rfl, fun _ _ => rfl⟩
  | x :: l, p, p', o, hf, h, d, inn => by
    simp only [encItems] at h
    cases h1 : encItem p x with
    | error e => rw [h1] at h; cases h
    | ok r =>
    obtain ⟨p1, o1⟩ := r
    rw [h1] at h
    have hf1 := (encItem_flat x _ _ _ hf h1).2
    dsimp only at h
    cases h2 : encItems p1 l with
    | error e => rw [h2] at h; cases h
    | ok r =>
    obtain ⟨p2, o2⟩ := r
    rw [h2] at h
    injection h with h
    injection h with _ ho
    subst ho
    obtain ⟨i1, a1, a2⟩ := encItem_in ind hi x _ _ _ hf h1 d inn
    obtain ⟨i2, c1, c2⟩ := encItems_in ind hi l _ _ _ (by rw [hf1]; exact hf) h2 d i1
    refine ⟨i2, fun d' => by simp [weave_append, a1, c1], fun hn hnl => ?_⟩
    rw [noNl_append] at hnl
    simp only [weave_append, outBytes_append, a1, afterNl_append, a2 hn hnl.1, c2 hn hnl.2]
end

/-- Whether a start tag was last makes a difference for the next end tag only. -/
theorem weave_inn (ind : Bytes) (hi : ind ≠ []) (d : Nat) : ∀ l : List Out, ∃ c nl c', (nl = [] ∨ nl = line ind d) ∧
    outBytes (weave (lead ind (d + 1) true) l).2 = c ++ c' ∧ outBytes (weave (lead ind (d + 1) false) l).2 = c ++ nl ++ c'
  | [] => ⟨[], [], [], .inl rfl, rfl, rfl⟩
  | .start q as :: l => ⟨[], [], outBytes (weave (lead ind (d + 1) true) (.start q as :: l)).2, .inl rfl, rfl,
      by simp [weave, lead_start hi]⟩
  | .stop q :: l => ⟨[], line ind d, outBytes (weave (lead ind (d + 1) true) (.stop q :: l)).2, .inr rfl, rfl,
      by simp [weave, lead_stop hi, outBytes, Out.bytes]⟩
  | .raw b :: l => weave_inn ind hi d l
  | .text b :: l => by
    obtain ⟨c, nl, c', h1, h2, h3⟩ := weave_inn ind hi d l
    refine ⟨Out.bytes (.text b) ++ c, nl, c', h1, ?_, ?_⟩
    · simp only [outBytes] at h2; simp [weave, outBytes, h2]
    · simp only [outBytes] at h3; simp [weave, outBytes, h3]
  | .str b :: l => by
    obtain ⟨c, nl, c', h1, h2, h3⟩ := weave_inn ind hi d l
    refine ⟨Out.bytes (.str b) ++ c, nl, c', h1, ?_, ?_⟩
    · simp only [outBytes] at h2; simp [weave, outBytes, h2]
    · simp only [outBytes] at h3; simp [weave, outBytes, h3]
  | .inner b :: l => by
    obtain ⟨c, nl, c', h1, h2, h3⟩ := weave_inn ind hi d l
    refine ⟨Out.bytes (.inner b) ++ c, nl, c', h1, ?_, ?_⟩
    · simp only [outBytes] at h2; simp [weave, outBytes, h2]
    · simp only [outBytes] at h3; simp [weave, outBytes, h3]

/-- A single element: its lines on its own and in another. -/
theorem elem_in (ind : Bytes) (hi : ind ≠ []) (hn : ch%'\n' ∉ ind) (x : Item) (hx : ∃ n as kids, x = .elem n as kids) (p p' : Printer)
    (o : List Out) (hf : p.ind.pre = [] ∧ p.ind.indent = []) (h : encItems p [x] = .ok (p', o)) (hnl : NoNl o) (inn : Bool) :
    (weave (lead ind 1 inn) o).1 = lead ind 1 false ∧
      outBytes (weave (lead ind 1 inn) o).2 = ch%'\n' :: indented ind (outBytes (weave (Printer.new [] ind).ind o).2) := by
  obtain ⟨i1, a1, a2⟩ := encItems_in ind hi [x] _ _ _ hf h 0 inn
  rw [a2 hn hnl]
  obtain ⟨n, as, kids, rfl⟩ := hx
  simp only [encItems, encItem, writeStart] at h
  cases h1 : nsStart p.ns n as with
  | error e => rw [h1] at h; cases h
  | ok r =>
  obtain ⟨n1, q, tas⟩ := r
  rw [h1] at h
  dsimp only at h
  rw [writeIndent_flat _ _ hf] at h
  dsimp only at h
  cases h2 : encItems ⟨n1, p.ind⟩ kids with
  | error e => rw [h2] at h; cases h
  | ok r =>
  obtain ⟨p2, o2⟩ := r
  rw [h2] at h
  have hf2 := (encItems_flat kids ⟨n1, p.ind⟩ _ _ hf h2).2
  dsimp only at hf2 h
  simp only [writeEnd] at h
  cases h3 : nsEnd p2.ns n with
  | error e => rw [h3] at h; cases h
  | ok r =>
  obtain ⟨n3, q3⟩ := r
  rw [h3] at h
  dsimp only at h
  rw [writeIndent_flat _ _ (by rw [hf2]; exact hf)] at h
  injection h with h
  injection h with _ ho
  obtain ⟨i2, b1, -⟩ := encItems_in ind hi kids ⟨n1, p.ind⟩ _ _ hf h2 0 true
  have e1 : writeIndent (Printer.new [] ind).ind 1 = (lead ind 1 true, []) := by
    simp [writeIndent, lead, hi, indentOut, Printer.new]
  subst ho
  refine ⟨?_, ?_⟩
  · simp [weave, weave_append, lead_start hi, lead_stop hi, b1]
  · simp only [List.cons_append, List.nil_append, weave, lead_start hi, e1, List.append_assoc]
    simp only [outBytes, List.flatMap_cons, Out.bytes, line, List.replicate_zero, List.flatten_nil, List.nil_append]
    simp [afterNl, indented]

theorem flat_written {io : FloatIO} {s : Sch} {v : Val} {ind : Bytes} {hdr : Bool} {doc : Bytes} (hi : ind ≠ [])
    (h : writeDoc io s v ind hdr = .ok doc) : ∃ d, writeDoc io s v [] hdr = .ok d := by
  obtain ⟨a, o, -, -, h⟩ := C53_written io s v ind hi hdr doc h
  exact ⟨_, h⟩

/-- The items of some periods, and their lines. -/
theorem portables_in (io : FloatIO) (hio : GoFloats io) (X : Pairs) (hX : extOk mpdPairs X mpdLocs = true) (f : FInfo)
    (hf : f.omitE = false) (ind : Bytes) (hi : ind ≠ []) (hn : ch%'\n' ∉ ind) : ∀ (ps : List (Val × Bytes)),
    (∀ x ∈ ps, Portable X x.1 ∧ writeDoc io tPeriod.sch x.1 ind false = .ok x.2 ∧
      ∀ t, writeDoc io tPeriod.sch x.1 [] false = .ok t → ch%'\n' ∉ t) →
    ∃ items o, marshalV io [] (some f) (.slice (.ptr tPeriod.sch)) (.slice (ps.map fun x => .ptr (some x.1))) = .ok items ∧
      (∀ inn, (weave (lead ind 1 inn) o).1 = lead ind 1 (ps.isEmpty && inn) ∧
        outBytes (weave (lead ind 1 inn) o).2 = ps.flatMap (fun x => ch%'\n' :: indented ind x.2)) ∧
      ∀ (P : Printer), P.ind = (Printer.new [] []).ind →
      (∀ e ∈ P.ns.els, e.xmlns = []) → OnlyKey xsiNS P.ns.els → encItems P items = .ok (P, o)
  | [], _ => ⟨[], [], by simp [marshalV, concatM], fun inn => ⟨rfl, rfl⟩, fun P _ _ _ => rfl⟩
  | x :: ps, h => by
    obtain ⟨hp, hw, hnl⟩ := h x (by simp)
    obtain ⟨t, ht⟩ := flat_written hi hw
    obtain ⟨i1, o1, a1, a2, a3⟩ := portable_print io hio X hX x.1 hp t ht
    obtain ⟨i2, o2, b1, b2, b3⟩ := portables_in io hio X hX f hf ind hi hn ps fun y hy => h y (by simp [hy])
    obtain ⟨tn, xi, hs, hx⟩ := period_shape
    have a1' : marshalV io [] (some f) tPeriod.sch x.1 = .ok i1 := by
      rw [hs] at a1 ⊢
      rw [← a1, marshal]
      exact marshalV_named io _ _ _ _ _ _ _ _ hx _
    have hone : ∃ n as kids, i1 = [.elem n as kids] := by
      have ht := hp.typed
      rw [hs] at a1 ht
      cases hv : x.1 with
      | struct xv vs =>
        rw [hv] at a1
        simp only [marshal, marshalV] at a1
        split at a1
        · cases a1
        · split at a1
          · cases a1
          · injection a1 with a1
            exact ⟨_, _, _, a1.symm⟩
      | _ => rw [hv] at ht; simp [Typed] at ht
    obtain ⟨n, as, kids, hone⟩ := hone
    have a4 := a3 (Printer.new [] []) rfl (by simp [Printer.new]) (by simp [OnlyKey, Printer.new])
    have a5 : x.2 = outBytes (weave (Printer.new [] ind).ind o1).2 := by
      have := encItems_weave i1 _ _ _ _ (Printer.new [] ind).ind o1 ⟨rfl, rfl⟩ a4
      unfold writeDoc at hw
      rw [a1] at hw
      dsimp only at hw
      unfold encode at hw
      rw [show Printer.new [] ind = ⟨⟨0, []⟩, (Printer.new [] ind).ind⟩ from rfl, this] at hw
      dsimp only at hw
      injection hw with hw
      rw [← hw]
      rfl
    have a6 : NoNl o1 := by unfold NoNl; rw [a2]; exact hnl t ht
    refine ⟨i1 ++ i2, o1 ++ o2, ?_, fun inn => ?_, fun P h1 h2 h3 => ?_⟩
    · simp only [marshalV, List.map_map] at b1
      simp only [marshalV, List.map_map, List.map_cons, omits, hf, Bool.false_and, Bool.false_eq_true, if_false, a1'] at b1 ⊢
      rw [concatM]
      simp only [b1]
    · subst hone
      obtain ⟨c1, c2⟩ := elem_in ind hi hn _ ⟨_, _, _, rfl⟩ _ _ o1 ⟨rfl, rfl⟩ a4 a6 inn
      rw [weave_append, c1, outBytes_append, c2, (b2 false).1, (b2 false).2, ← a5]
      simp
    · rw [encItems_append, a3 P h1 h2 h3]
      dsimp only
      rw [b3 P h1 h2 h3]

/-- **C83** with indentation, in part: the periods stand in the manifest in their order, each with the lines that
`Period.WriteToString` gives, one level further in; the texts before and after them are those of the manifest without periods, except that its end tag is on a
new line (if there was nothing inside, it was not).  The text of a period has no new lines of its own, as it can have in character data; the indentation has none either, and is not empty. -/
theorem C83_indented_partial (io : FloatIO) (hio : GoFloats io) (X : Pairs) (hX : extOk mpdPairs X mpdLocs = true) (v : Val)
    (ht : Typed tMPD.sch v) (ind : Bytes) (hi : ind ≠ []) (hn : ch%'\n' ∉ ind) (hdr : Bool) (d0 : Bytes)
    (h0 : writeDoc io tMPD.sch (assign tMPD.sch .elem (b!"Period") (.slice []) v) ind hdr = .ok d0) :
    ∃ a c nl c', (nl = [] ∨ nl = [ch%'\n']) ∧ d0 = a ++ (c ++ c') ∧ ∀ ps : List (Val × Bytes), ps ≠ [] →
      (∀ x ∈ ps, Portable X x.1 ∧ writeDoc io tPeriod.sch x.1 ind false = .ok x.2 ∧
        ∀ t, writeDoc io tPeriod.sch x.1 [] false = .ok t → ch%'\n' ∉ t) →
      writeDoc io tMPD.sch (assign tMPD.sch .elem (b!"Period") (.slice (ps.map fun x => .ptr (some x.1))) v) ind hdr =
        .ok (a ++ ps.flatMap (fun x => ch%'\n' :: indented ind x.2) ++ (c ++ nl ++ c')) := by
  have hd := h0
  obtain ⟨d1, h0⟩ := flat_written hi h0
  obtain ⟨tn, x, hs, hx1, hx2, hx3⟩ := mpd_shape
  obtain ⟨f, hf1, hf2, hf3⟩ := period_field
  have hxl : x.loc ≠ [] := by rw [hx1]; decide
  have hname : ∀ xv, startName (some x) xv none tn = ⟨[], b!"MPD"⟩ := by
    intro xv
    simp only [startName, hx1, hx2, hx3]
    rfl
  obtain ⟨xv, vs, hv, hlen⟩ : ∃ xv vs, v = .struct xv vs ∧ periodAt < vs.length := by
    rw [hs] at ht
    cases v with
    | struct xv vs =>
      refine ⟨xv, vs, rfl, ?_⟩
      simp only [Typed] at ht
      rw [typeds_length _ _ ht.2]
      exact lt_of_get period_sub
    | _ => simp [Typed] at ht
  subst hv
  have hass : ∀ w, assign tMPD.sch .elem (b!"Period") w (.struct xv vs) = .struct xv (vs.set periodAt w) := fun _ => rfl
  rw [hass] at h0
  have hmar : ∀ w, marshal io tMPD.sch (.struct xv (vs.set periodAt w)) =
      (match marshalAttrs io (fieldsOf tMPD.sch) (subsOf tMPD.sch) (vs.set periodAt (.slice [])) with
      | .error e => .error e
      | .ok attrs =>
        match marshalFields io [] (fieldsOf tMPD.sch) (subsOf tMPD.sch) (vs.set periodAt w) with
        | .error e => .error e
        | .ok kids => .ok [.elem ⟨[], b!"MPD"⟩ attrs kids]) := by
    intro w
    rw [marshal]
    conv => lhs; rw [hs]
    simp only [marshalV, hname, resetNs, hxl, false_and, and_false, if_false, List.append_nil]
    rw [marshalAttrs_set io _ _ vs periodAt f w (.slice []) hf1 hf2]
    cases marshalAttrs io (fieldsOf tMPD.sch) (subsOf tMPD.sch) (vs.set periodAt (.slice [])) with
    | error e => rfl
    | ok attrs => cases marshalFields io [] (fieldsOf tMPD.sch) (subsOf tMPD.sch) (vs.set periodAt w) <;> rfl
  unfold writeDoc at h0
  rw [hmar] at h0
  cases h1 : marshalAttrs io (fieldsOf tMPD.sch) (subsOf tMPD.sch) (vs.set periodAt (.slice [])) with
  | error e => rw [h1] at h0; cases h0
  | ok attrs =>
  rw [h1] at h0
  dsimp only at h0
  cases h2 : marshalFields io [] (fieldsOf tMPD.sch) (subsOf tMPD.sch) (vs.set periodAt (.slice [])) with
  | error e => rw [h2] at h0; cases h0
  | ok kids =>
  rw [h2] at h0
  dsimp only at h0
  have hfi : ∀ w, fieldItems io f (.slice (.ptr tPeriod.sch)) (.slice w) (marshalV io [] (some f) (.slice (.ptr tPeriod.sch)) (.slice w)) =
      marshalV io [] (some f) (.slice (.ptr tPeriod.sch)) (.slice w) := by
    intro w
    simp [fieldItems, hf2, hf3, omits, Val.isAbsent]
  obtain ⟨k1, k2, hk, hset⟩ := marshalFields_set io [] _ _ vs periodAt f _ (.slice []) kids hf1 period_sub hlen
    (by rw [hfi]; simp [marshalV, concatM]) h2
  subst hk
  unfold encode at h0
  simp only [encItems, encItem, writeStart] at h0
  cases hst : nsStart (Printer.new [] []).ns ⟨[], b!"MPD"⟩ attrs with
  | error e => rw [hst] at h0; cases h0
  | ok r =>
  obtain ⟨n1, q, tas⟩ := r
  rw [hst] at h0
  dsimp only at h0
  obtain ⟨e, he1, he2, hkey⟩ := start_key xsiNS (by decide +kernel) 0 (b!"MPD") attrs (marshalAttrs_in io xsiNS _ _ _ _ mpd_attrs h1) hst
  rw [writeIndent_flat _ _ ⟨rfl, rfl⟩] at h0
  dsimp only at h0
  rw [encItems_append] at h0
  cases h3 : encItems ⟨n1, (Printer.new [] []).ind⟩ k1 with
  | error e => rw [h3] at h0; cases h0
  | ok r =>
  obtain ⟨P1, o1⟩ := r
  rw [h3] at h0
  dsimp only at h0
  have hP1 := (encItems_flat k1 _ _ _ ⟨rfl, rfl⟩ h3).2
  have hels := encItems_els k1 _ _ _ h3
  dsimp only at hels hP1
  cases h4 : encItems P1 k2 with
  | error e => rw [h4] at h0; cases h0
  | ok r =>
  obtain ⟨P2, o2⟩ := r
  rw [h4] at h0
  dsimp only at h0
  cases h5 : nsEnd P2.ns ⟨[], b!"MPD"⟩ with
  | error e => simp only [writeEnd, h5] at h0; cases h0
  | ok r =>
  obtain ⟨n3, q3⟩ := r
  obtain ⟨i1, w1, -⟩ := encItems_in ind hi k1 ⟨n1, (Printer.new [] []).ind⟩ _ _ ⟨rfl, rfl⟩ h3 1 true
  have hfl : P1.ind.pre = [] ∧ P1.ind.indent = [] := by rw [hP1]; exact ⟨rfl, rfl⟩
  have hP2 := (encItems_flat k2 _ _ _ hfl h4).2
  have e1 : writeIndent (Printer.new [] ind).ind 1 = (lead ind 1 true, []) := by
    simp [writeIndent, lead, hi, indentOut, Printer.new]
  obtain ⟨c, nl, c', g1, g2, g3⟩ : ∃ c nl c', (nl = [] ∨ nl = [ch%'\n']) ∧
      outBytes (weave (lead ind 1 i1) (o2 ++ [.raw [], .stop q3])).2 = c ++ c' ∧
      outBytes (weave (lead ind 1 false) (o2 ++ [.raw [], .stop q3])).2 = c ++ nl ++ c' := by
    cases i1 with
    | true => exact weave_inn ind hi 0 _
    | false => exact ⟨[], [], _, .inl rfl, rfl, rfl⟩
  refine ⟨(if hdr then xmlHeader else []) ++ Out.bytes (.start q tas) ++ outBytes (weave (lead ind 1 true) o1).2, c, nl, c', g1, ?_,
    fun ps hne hps => ?_⟩
  · have hflat : encItems (Printer.new [] []) [.elem ⟨[], b!"MPD"⟩ attrs (k1 ++ k2)] =
        .ok (⟨n3, P2.ind⟩, [.raw [], .start q tas] ++ (o1 ++ o2) ++ [.raw [], .stop q3]) := by
      simp only [encItems, encItem, writeStart]
      rw [hst]
      dsimp only
      rw [writeIndent_flat _ _ ⟨rfl, rfl⟩]
      dsimp only
      rw [encItems_append, h3]
      dsimp only
      rw [h4]
      simp only [writeEnd, h5]
      rw [writeIndent_flat _ _ (by rw [hP2]; exact hfl)]
      simp
    have := encItems_weave _ _ _ _ _ (Printer.new [] ind).ind _ ⟨rfl, rfl⟩ hflat
    rw [hass] at hd
    unfold writeDoc at hd
    rw [hmar, h1] at hd
    dsimp only at hd
    rw [h2] at hd
    dsimp only at hd
    unfold encode at hd
    rw [show Printer.new [] ind = ⟨⟨0, []⟩, (Printer.new [] ind).ind⟩ from rfl, this] at hd
    dsimp only at hd
    injection hd with hd
    have e4 : outBytes (weave (Printer.new [] ind).ind ([.raw [], .start q tas] ++ (o1 ++ o2) ++ [.raw [], .stop q3])).2 =
        Out.bytes (.start q tas) ++ outBytes (weave (lead ind 1 true) o1).2 ++
          outBytes (weave (lead ind 1 i1) (o2 ++ [.raw [], .stop q3])).2 := by
      simp only [List.cons_append, List.nil_append, List.append_assoc, weave, e1]
      rw [weave_append, w1]
      simp [outBytes, Out.bytes]
    rw [← hd, e4, g2]
    simp
  obtain ⟨its, o, c1, c2, c3⟩ := portables_in io hio X hX f hf3 ind hi hn ps hps
  have hne' : ps.isEmpty = false := by simpa using hne
  have hflat : encItems (Printer.new [] []) [.elem ⟨[], b!"MPD"⟩ attrs (k1 ++ its ++ k2)] =
      .ok (⟨n3, P2.ind⟩, [.raw [], .start q tas] ++ (o1 ++ (o ++ o2)) ++ [.raw [], .stop q3]) := by
    simp only [encItems, encItem, writeStart]
    rw [hst]
    dsimp only
    rw [writeIndent_flat _ _ ⟨rfl, rfl⟩]
    dsimp only
    rw [List.append_assoc, encItems_append, h3]
    dsimp only
    rw [encItems_append, c3 P1 hP1 (by rw [hels, he1]; simpa using he2) (by rw [hels]; exact hkey)]
    dsimp only
    rw [h4]
    simp only [writeEnd, h5]
    rw [writeIndent_flat _ _ (by rw [hP2]; exact hfl)]
    simp
  have := encItems_weave _ _ _ _ _ (Printer.new [] ind).ind _ ⟨rfl, rfl⟩ hflat
  rw [hass]
  unfold writeDoc
  rw [hmar, h1]
  dsimp only
  rw [hset _ its (by rw [hfi]; exact c1)]
  dsimp only
  unfold encode
  rw [show Printer.new [] ind = ⟨⟨0, []⟩, (Printer.new [] ind).ind⟩ from rfl, this]
  dsimp only
  have e2 := (c2 i1).2
  have e3 := (c2 i1).1
  rw [hne', Bool.false_and] at e3
  have e4 : outBytes (weave (Printer.new [] ind).ind ([.raw [], .start q tas] ++ (o1 ++ (o ++ o2)) ++ [.raw [], .stop q3])).2 =
      Out.bytes (.start q tas) ++ outBytes (weave (lead ind 1 true) o1).2 ++ outBytes (weave (lead ind 1 i1) o).2 ++
        outBytes (weave (lead ind 1 false) (o2 ++ [.raw [], .stop q3])).2 := by
    simp only [List.cons_append, List.nil_append, List.append_assoc, weave, e1]
    rw [weave_append, w1, weave_append, e3]
    simp [outBytes, Out.bytes]
  rw [e4, e2, g3]
  simp

/-- The text of a period on its own (`p.WriteToString(ind)`, `/repo/mpd/io.go` 107-115); nothing if it can not be written. -/
def periodLines (io : FloatIO) (ind : Bytes) (p : Val) : Bytes :=
  match writeDoc io tPeriod.sch p ind false with
  | .ok t => t
  | .error _ => []

theorem built_lines (io : FloatIO) (hio : GoFloats io) {ind : Bytes} (hind : IsWs ind) {p : Val} (h : Built none tPeriod.sch p) :
    writeDoc io tPeriod.sch p ind false = .ok (periodLines io ind p) := by
  obtain ⟨doc, w, h1, -⟩ := C83_back_partial io hio ind hind false [] vodVal_ok.2.2.2.2 p h.portable.typed h.portable.fine
    h.portable.ns
  unfold periodLines
  rw [h1]

/-- **C83** with indentation, for values that are built: the periods that are appended to a manifest without periods stand in its text
in their order, each with the lines it has on its own, one level further in.  No new lines in character data. -/
theorem C83_built_indented (io : FloatIO) (hio : GoFloats io) (v : Val) (hv : Built none tMPD.sch v)
    (h0 : assign tMPD.sch .elem (b!"Period") (.slice []) v = v) (ind : Bytes) (hind : IsWs ind) (hi : ind ≠ []) (hn : ch%'\n' ∉ ind)
    (hdr : Bool) :
    ∃ a c nl c', (nl = [] ∨ nl = [ch%'\n']) ∧ writeDoc io tMPD.sch v ind hdr = .ok (a ++ (c ++ c')) ∧
      ∀ ps : List Val, ps ≠ [] → (∀ p ∈ ps, Built none tPeriod.sch p ∧ ch%'\n' ∉ periodText io p) →
      (∀ p ∈ ps, writeDoc io tPeriod.sch p ind false = .ok (periodLines io ind p)) ∧
      writeDoc io tMPD.sch (ps.foldl appendPeriod v) ind hdr =
        .ok (a ++ ps.flatMap (fun p => ch%'\n' :: indented ind (periodLines io ind p)) ++ (c ++ nl ++ c')) := by
  obtain ⟨d0, w, h1, -⟩ := C58_built io hio v hv ind hind hdr
  obtain ⟨a, c, nl, c', g1, g2, h3⟩ := C83_indented_partial io hio [] vodVal_ok.2.2.2.2 v hv.sound.ty ind hi hn hdr d0 (by rw [h0]; exact h1)
  refine ⟨a, c, nl, c', g1, by rw [h1, g2], fun ps hne hps => ⟨fun p hp => built_lines io hio hind (hps p hp).1, ?_⟩⟩
  have := h3 (ps.map fun p => (p, periodLines io ind p)) (by simpa using hne) (by
    intro x hx
    obtain ⟨p, hp, rfl⟩ := List.mem_map.mp hx
    refine ⟨(hps p hp).1.portable, built_lines io hio hind (hps p hp).1, fun t ht => ?_⟩
    have := built_written io hio (hps p hp).1
    rw [ht] at this
    injection this with this
    rw [this]
    exact (hps p hp).2)
  obtain ⟨tn, xi, hs, -⟩ := mpd_shape
  obtain ⟨xv, vs, rfl⟩ : ∃ xv vs, v = .struct xv vs := by
    have := hv.sound.ty
    rw [hs] at this
    cases v <;> simp [Typed] at this
    exact ⟨_, _, rfl⟩
  have hlen : periodAt < vs.length := by
    have ht := hv.sound.ty
    rw [hs] at ht
    simp only [Typed] at ht
    rw [typeds_length _ _ ht.2]
    exact lt_of_get period_sub
  have hget : vs[periodAt]? = some (.slice []) := by
    have e : assign tMPD.sch .elem (b!"Period") (.slice []) (.struct xv vs) = .struct xv (vs.set periodAt (.slice [])) := rfl
    rw [e] at h0
    injection h0 with _ h0
    rw [← h0, List.getElem?_set_self hlen]
  rw [append_periods ps xv vs [] hget, List.nil_append]
  rw [List.map_map, List.flatMap_map] at this
  exact this

/-! ### A case -/

/-- `C83_built_indented` applies to a new manifest and two periods. -/
example (io : FloatIO) (hio : GoFloats io) : ∃ a b,
    writeDoc io tMPD.sch (appendPeriod (appendPeriod (newMPD (b!"static")) newPeriod) eventPeriod) (b!"  ") true =
      .ok (a ++ ((ch%'\n' :: indented (b!"  ") (periodLines io (b!"  ") newPeriod)) ++
        (ch%'\n' :: indented (b!"  ") (periodLines io (b!"  ") eventPeriod))) ++ b) := by
  obtain ⟨a, c, nl, c', -, -, h2⟩ := C83_built_indented io hio (newMPD (b!"static")) (mpdNew_built (.new _ (by decide +kernel))) (by krfl) (b!"  ")
    (by simp [IsWs]) (by decide) (by decide) true
  refine ⟨a, c ++ nl ++ c', ?_⟩
  have e : periodText io newPeriod = b!"<Period></Period>" := by krfl
  have := (h2 [newPeriod, eventPeriod] (by simp) (by
    intro p hp
    simp only [List.mem_cons, List.not_mem_nil, or_false] at hp
    rcases hp with rfl | rfl
    · exact ⟨newPeriod_built, by rw [e]; decide⟩
    · exact ⟨eventPeriod_built, by rw [eventPeriod_text]; decide +kernel⟩)).2
  simpa using this

/-- The lines of the second on its own and in a manifest. -/
example (io : FloatIO) : periodLines io (b!"  ") eventPeriod =
    b!"<Period>\n  <EventStream schemeIdUri=\"\">\n    <Event presentationTime=\"0\">\n      <Signal xmlns=\"http://www.scte.org/schemas/35\"></Signal>\n    </Event>\n  </EventStream>\n</Period>" := by
  krfl

example : indented (b!"  ") (b!"<Period>\n  <EventStream schemeIdUri=\"\">\n    <Event presentationTime=\"0\">\n      <Signal xmlns=\"http://www.scte.org/schemas/35\"></Signal>\n    </Event>\n  </EventStream>\n</Period>") =
    b!"  <Period>\n    <EventStream schemeIdUri=\"\">\n      <Event presentationTime=\"0\">\n        <Signal xmlns=\"http://www.scte.org/schemas/35\"></Signal>\n      </Event>\n    </EventStream>\n  </Period>" := by
  krfl

end Verif.Bind

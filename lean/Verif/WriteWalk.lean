import Verif.WriteIOProps

/-!
The calls made while a value is walked (`Verif/WriteIO.lean`) are those for the elements that `Verif/Marshal.lean` collects,
in the same order, up to the first error.
-/
namespace Verif.WriteIO

open Verif.Xml Verif.Bind

mutual
/-- The calls for an item, without the checks. -/
def itemCalls : Item → List Call
  | .elem n attrs kids => .start n attrs :: (itemsCalls kids ++ [.stop n])
  | .text b => [.text b]
  | .str b => [.str b]
  | .raw b => [.raw b]
/-- The calls for a list of items. -/
def itemsCalls : List Item → List Call
  | [] => []
  | i :: l => itemCalls i ++ itemsCalls l
end

/-- Leaves out the checks. -/
def nc (l : List Call) : List Call := l.filter (· ≠ .check)

theorem nc_append (a b : List Call) : nc (a ++ b) = nc a ++ nc b := List.filter_append _ _

theorem itemsCalls_append (a b : List Item) : itemsCalls (a ++ b) = itemsCalls a ++ itemsCalls b := by
  induction a with
  | nil => rfl
  | cons i l ih => simp [itemsCalls, ih]

/-- No error of marshalling. -/
def NoFail (l : List Call) : Prop := ∀ e, Call.fail e ∉ l

/-- Calls that agree with collected items, or fail with the same error. -/
def WalkRel : Except MErr (List Item) → List Call → Prop
  | .ok items, w => nc w = itemsCalls items
  | .error e, w => ∃ l t, nc w = l ++ .fail e :: t ∧ NoFail l

mutual
theorem noFail_item : ∀ i : Item, NoFail (itemCalls i)
  | .elem n attrs kids => by
    intro e h
    simp only [itemCalls, List.mem_cons, List.mem_append, reduceCtorEq, List.not_mem_nil, or_false, false_or] at h
    exact noFail_items kids e h
  | .text b => by intro e; simp [itemCalls]
  | .str b => by intro e; simp [itemCalls]
  | .raw b => by intro e; simp [itemCalls]
theorem noFail_items : ∀ l : List Item, NoFail (itemsCalls l)
  | [] => by intro e; simp [itemsCalls]
  | i :: l => by
    intro e h
    simp only [itemsCalls, List.mem_append] at h
    rcases h with h | h
    · exact noFail_item i e h
    · exact noFail_items l e h
end

theorem noFail_append {a b : List Call} (ha : NoFail a) (hb : NoFail b) : NoFail (a ++ b) := by
  intro e h
  rcases List.mem_append.mp h with h | h
  · exact ha e h
  · exact hb e h

theorem walkRel_single {e : MErr} : WalkRel (.error e) [.fail e] :=
  ⟨[], [], by simp [nc], by intro e h; cases h⟩

/-- One after the other. -/
def seqI (r1 r2 : Except MErr (List Item)) : Except MErr (List Item) :=
  match r1 with
  | .error e => .error e
  | .ok a => match r2 with
    | .error e => .error e
    | .ok b => .ok (a ++ b)

/-- Two parts in order. -/
theorem walkRel_append {r1 r2 : Except MErr (List Item)} {w1 w2 : List Call} (h1 : WalkRel r1 w1) (h2 : WalkRel r2 w2) :
    WalkRel (seqI r1 r2) (w1 ++ w2) := by
  rcases r1 with e | a
  · obtain ⟨l, t, h, hl⟩ := h1
    exact ⟨l, t ++ nc w2, by rw [nc_append, h]; simp, hl⟩
  · rcases r2 with e | b
    · obtain ⟨l, t, h, hl⟩ := h2
      have h1 : nc w1 = itemsCalls a := h1
      exact ⟨itemsCalls a ++ l, t, by rw [nc_append, h, h1]; simp, noFail_append (noFail_items a) hl⟩
    · have h1 : nc w1 = itemsCalls a := h1
      have h2 : nc w2 = itemsCalls b := h2
      show nc (w1 ++ w2) = itemsCalls (a ++ b)
      rw [nc_append, h1, h2, itemsCalls_append]

theorem walkRel_concat (f : Val → Except MErr (List Item)) (g : Val → List Call) : ∀ l : List Val,
    (∀ v ∈ l, WalkRel (f v) (g v)) → WalkRel (concatM (l.map f)) (l.flatMap g)
  | [], _ => by show nc _ = _; rfl
  | v :: l, h => by
    have h1 := h v (List.mem_cons_self ..)
    have h2 := walkRel_concat f g l (fun w hw => h w (List.mem_cons_of_mem _ hw))
    have := walkRel_append h1 h2
    rw [List.map_cons, List.flatMap_cons]
    have e : concatM (f v :: l.map f) = seqI (f v) (concatM (l.map f)) := by
      rcases f v with e | a
      · rfl
      · rw [concatM]
        rcases concatM (l.map f) with e | b
        · rfl
        · rfl
    rw [e]
    exact this

theorem charCalls_eq (io : FloatIO) : ∀ (s : Sch) (v : Val), nc (charCalls io s v) = itemsCalls (charText io s v)
  | .simple k, v => by
    unfold charCalls charText
    rcases marshalSimple io k v with e | b
    · rfl
    · rfl
  | .ptr s, .ptr (some v) => by
    unfold charCalls charText
    exact charCalls_eq io s v
  | .ptr _, .ptr none => rfl
  | .ptr _, .str _ => rfl
  | .ptr _, .bool _ => rfl
  | .ptr _, .int _ => rfl
  | .ptr _, .uint _ => rfl
  | .ptr _, .float _ => rfl
  | .ptr _, .slice _ => rfl
  | .ptr _, .struct _ _ => rfl
  | .ptr _, .name _ => rfl
  | .ptr _, .attr _ => rfl
  | .ptr _, .absent => rfl
  | .slice _, _ => rfl
  | .struct .., _ => rfl
  | .name, _ => rfl
  | .attr, _ => rfl
  | .bad _, _ => rfl

theorem rawCalls_rel (s : Sch) (v : Val) : WalkRel (rawText s v) (rawCalls s v) := by
  unfold rawCalls
  split
  · show nc _ = _
    rfl
  · rename_i h
    have : rawText s v = .error .unsupported := by
      unfold rawText
      split
      · exact absurd rfl (h _ rfl)
      · rfl
    rw [this]
    exact walkRel_single

theorem fieldCalls_rel (io : FloatIO) (fi : FInfo) (s : Sch) (v : Val) {r : Except MErr (List Item)} {w : List Call}
    (h : WalkRel r w) : WalkRel (fieldItems io fi s v r) (fieldCalls io fi s v w) := by
  unfold fieldItems fieldCalls
  split
  · show nc _ = _
    rfl
  split
  · exact charCalls_eq io s v
  split
  · exact rawCalls_rel s v
  split
  · show nc _ = _
    rfl
  · exact h

mutual
theorem walkV_rel (io : FloatIO) : ∀ (s : Sch) (ns : Bytes) (fi : Option FInfo) (v : Val),
    WalkRel (marshalV io ns fi s v) (walkV io ns fi s v)
  | .simple k, ns, fi, v => by
    unfold marshalV walkV
    rcases marshalSimple io k v with e | b
    · exact ⟨[.start (startName none ⟨[], []⟩ fi []) []], [], by simp [nc], by intro e h; simp at h⟩
    · show nc _ = _
      rfl
  | .ptr s, ns, fi, v => by
    cases v with
    | ptr o =>
      cases o with
      | none =>
        unfold marshalV walkV
        show nc _ = _
        rfl
      | some v =>
        unfold marshalV walkV
        exact walkV_rel io s ns fi v
    | _ => unfold marshalV walkV; exact walkRel_single
  | .slice s, ns, fi, v => by
    cases v with
    | slice l =>
      unfold marshalV walkV
      refine walkRel_concat _ _ l (fun v _ => ?_)
      split
      · show nc _ = _
        rfl
      · exact walkV_rel io s ns fi v
    | _ => unfold marshalV walkV; exact walkRel_single
  | .struct tn xn infos subs, ns, fi, v => by
    cases v with
    | struct xv vs =>
      unfold marshalV walkV
      rcases marshalAttrs io infos subs vs with e | attrs
      · exact walkRel_single
      · have h := walkFields_rel io subs (startName xn xv fi tn).space infos vs
        dsimp only
        rcases hf : marshalFields io (startName xn xv fi tn).space infos subs vs with e | kids
        · rw [hf] at h
          obtain ⟨l, t, h1, h2⟩ := h
          refine ⟨.start (startName xn xv fi tn) (attrs ++ resetNs ns xn (startName xn xv fi tn)) :: l,
            t ++ [.stop (startName xn xv fi tn)], ?_, ?_⟩
          · rw [nc_append, nc_append, h1]
            simp [nc]
          · intro e h
            rcases List.mem_cons.mp h with h | h
            · cases h
            · exact h2 e h
        · rw [hf] at h
          have h1 : nc _ = itemsCalls kids := h
          show nc _ = _
          rw [nc_append, nc_append, h1]
          simp [nc, itemsCalls, itemCalls]
    | _ => unfold marshalV walkV; exact walkRel_single
  | .name, ns, fi, v => by unfold marshalV walkV; exact walkRel_single
  | .attr, ns, fi, v => by unfold marshalV walkV; exact walkRel_single
  | .bad e, ns, fi, v => by unfold marshalV walkV; exact walkRel_single
theorem walkFields_rel (io : FloatIO) : ∀ (ss : List Sch) (ns : Bytes) (fis : List FInfo) (vs : List Val),
    WalkRel (marshalFields io ns fis ss vs) (walkFields io ns fis ss vs)
  | [], ns, fis, vs => by
    cases fis <;> unfold marshalFields walkFields <;> (show nc _ = _; rfl)
  | s :: ss, ns, fis, vs => by
    cases fis with
    | nil => unfold marshalFields walkFields; show nc _ = _; rfl
    | cons fi fis =>
      cases vs with
      | nil => unfold marshalFields walkFields; show nc _ = _; rfl
      | cons v vs =>
        have e : marshalFields io ns (fi :: fis) (s :: ss) (v :: vs) =
            seqI (fieldItems io fi s v (marshalV io ns (some fi) s v)) (marshalFields io ns fis ss vs) := by
          rw [marshalFields]
          rfl
        rw [e, walkFields]
        exact walkRel_append (fieldCalls_rel io fi s v (walkV_rel io s ns (some fi) v)) (walkFields_rel io ss ns fis vs)
end

/-! ### What is produced -/

theorem pureRun_nc (l : List Call) : ∀ p, pureRun p (nc l) = pureRun p l := by
  induction l with
  | nil => intro p; rfl
  | cons c l ih =>
    intro p
    by_cases hc : c = .check
    · subst hc
      have : nc (Call.check :: l) = nc l := by simp [nc]
      rw [this, ih]
      simp [pureRun, pureCall]
    · have : nc (c :: l) = c :: nc l := by simp [nc, hc]
      rw [this]
      unfold pureRun
      rcases pureCall p c with ⟨p1, b, _ | e⟩
      · dsimp only
        rw [ih]
      · rfl

theorem pureRun_append (a b : List Call) : ∀ p, (pureRun p a).2.2 = none →
    pureRun p (a ++ b) = ((pureRun (pureRun p a).1 b).1, (pureRun p a).2.1 ++ (pureRun (pureRun p a).1 b).2.1,
      (pureRun (pureRun p a).1 b).2.2) := by
  induction a with
  | nil => intro p _; simp [pureRun]
  | cons c a ih =>
    intro p h
    rw [List.cons_append]
    rcases hp : pureCall p c with ⟨p1, o, _ | e⟩
    · have h1 : ∀ l, pureRun p (c :: l) = ((pureRun p1 l).1, o ++ (pureRun p1 l).2.1, (pureRun p1 l).2.2) := by
        intro l
        rw [pureRun, hp]
      rw [h1] at h ⊢
      rw [h1, ih p1 h]
      simp
    · rw [pureRun, hp] at h
      cases h

theorem pureRun_append_err (a b : List Call) : ∀ p x, (pureRun p a).2.2 = some x → (pureRun p (a ++ b)).2.2 = some x := by
  induction a with
  | nil => intro p x h; cases h
  | cons c a ih =>
    intro p x h
    rw [List.cons_append]
    unfold pureRun at h ⊢
    rcases hp : pureCall p c with ⟨p1, o, _ | e⟩
    · rw [hp] at h
      exact ih p1 x h
    · rw [hp] at h
      exact h

theorem outBytes_append (a b : List Out) : outBytes (a ++ b) = outBytes a ++ outBytes b := by
  simp [outBytes, List.flatMap_append]

/-- One after the other. -/
def seqP (r1 : Except EncErr (Printer × List Out)) (f : Printer → Except EncErr (Printer × List Out)) :
    Except EncErr (Printer × List Out) :=
  match r1 with
  | .error e => .error e
  | .ok (p1, o1) => match f p1 with
    | .error e => .error e
    | .ok (p2, o2) => .ok (p2, o1 ++ o2)

/-- What is produced for items. -/
def PureIs (p : Printer) (r : Except EncErr (Printer × List Out)) (l : List Call) : Prop :=
  (∀ p' o, r = .ok (p', o) → pureRun p l = (p', outBytes o, none)) ∧
    (∀ e, r = .error e → (pureRun p l).2.2 = some (.err (.enc e)))

theorem pureIs_append {p : Printer} {r1 : Except EncErr (Printer × List Out)} {a b : List Call} (h1 : PureIs p r1 a)
    {f : Printer → Except EncErr (Printer × List Out)} (h2 : ∀ q, PureIs q (f q) b) :
    PureIs p (seqP r1 f) (a ++ b) := by
  unfold seqP
  rcases r1 with e | ⟨p1, o1⟩
  · refine ⟨fun _ _ h => (by cases h), fun e' h => ?_⟩
    cases h
    exact pureRun_append_err _ _ _ _ (h1.2 _ rfl)
  · have e1 := h1.1 p1 o1 rfl
    have e2 := pureRun_append a b p (by rw [e1])
    rw [e1] at e2
    dsimp only at e2 ⊢
    have h2 := h2 p1
    rcases hf : f p1 with e | ⟨p2, o2⟩
    · refine ⟨fun _ _ h => (by cases h), fun e' h => ?_⟩
      cases h
      rw [e2]
      exact h2.2 _ hf
    · refine ⟨fun p' o h => ?_, fun e' h => by cases h⟩
      cases h
      rw [e2, h2.1 _ _ hf, outBytes_append]

mutual
theorem pureIs_item : ∀ (i : Item) (p : Printer), PureIs p (encItem p i) (itemCalls i)
  | .elem n attrs kids, p => by
    have hs : PureIs p (writeStart p n attrs) [.start n attrs] := by
      refine ⟨fun p' o h => ?_, fun e h => ?_⟩
      · simp [pureCall, h, pureRun]
      · simp [pureRun, pureCall, h]
    have he : ∀ q, PureIs q (writeEnd q n) [.stop n] := by
      intro q
      refine ⟨fun p' o h => ?_, fun e h => ?_⟩
      · simp [pureCall, h, pureRun]
      · simp [pureRun, pureCall, h]
    have h1 := pureIs_append (pureIs_append hs (f := fun q => encItems q kids) (fun q => pureIs_items kids q))
      (f := fun q => writeEnd q n) he
    have hl : itemCalls (.elem n attrs kids) = [.start n attrs] ++ itemsCalls kids ++ [.stop n] := by
      simp [itemCalls]
    have he : encItem p (.elem n attrs kids) =
        seqP (seqP (writeStart p n attrs) fun q => encItems q kids) fun q => writeEnd q n := by
      rw [encItem]
      rcases writeStart p n attrs with e | ⟨p1, o1⟩
      · rfl
      · simp only [seqP]
        rcases encItems p1 kids with e | ⟨p2, o2⟩
        · rfl
        · rfl
    rw [hl, he]
    exact h1
  | .text b, p => by
    unfold encItem
    exact ⟨fun p' o h => by cases h; simp [itemCalls, pureRun, pureCall, outBytes, Out.bytes], fun e h => by cases h⟩
  | .str b, p => by
    unfold encItem
    exact ⟨fun p' o h => by cases h; simp [itemCalls, pureRun, pureCall, outBytes, Out.bytes], fun e h => by cases h⟩
  | .raw b, p => by
    unfold encItem
    exact ⟨fun p' o h => by cases h; simp [itemCalls, pureRun, pureCall, outBytes, Out.bytes], fun e h => by cases h⟩
theorem pureIs_items : ∀ (l : List Item) (p : Printer), PureIs p (encItems p l) (itemsCalls l)
  | [], p => by
    unfold encItems
    exact ⟨fun p' o h => by cases h; simp [itemsCalls, pureRun, outBytes], fun e h => by cases h⟩
  | i :: l, p => by
    have h1 := pureIs_append (pureIs_item i p) (f := fun q => encItems q l) (fun q => pureIs_items l q)
    unfold encItems itemsCalls
    exact h1
end

/-- The end of a run that meets an error of marshalling. -/
theorem pureRun_fail (l : List Call) (e : MErr) (t : List Call) (p : Printer) : NoFail l →
    (pureRun p (l ++ .fail e :: t)).2.2 = some (failStop e) ∨
      ∃ x, (pureRun p (l ++ .fail e :: t)).2.2 = some (.err (.enc x)) := by
  intro hl
  induction l generalizing p with
  | nil => left; simp [pureRun, pureCall]
  | cons c l ih =>
    rw [List.cons_append]
    unfold pureRun
    rcases hp : pureCall p c with ⟨p1, o, _ | y⟩
    · exact ih p1 (fun e he => hl e (List.mem_cons_of_mem _ he))
    · right
      dsimp only
      cases c with
      | start n attrs =>
        unfold pureCall at hp
        dsimp only at hp
        split at hp <;> cases hp
        exact ⟨_, rfl⟩
      | stop n =>
        unfold pureCall at hp
        dsimp only at hp
        split at hp <;> cases hp
        exact ⟨_, rfl⟩
      | fail e => exact absurd (List.mem_cons_self ..) (hl e)
      | _ => cases hp

/-- What `Write` produces: the bytes and how it ends, if no destination interferes. -/
def produced (io : FloatIO) (s : Sch) (v : Val) (indent : Bytes) (hdr : Bool) : Bytes × Option Stop :=
  ((if hdr then xmlHeader else []) ++ (pureRun (Printer.new [] indent) (walkV io [] none s v)).2.1,
    (pureRun (Printer.new [] indent) (walkV io [] none s v)).2.2)

/-- Walking a value produces what collecting its elements first and printing them produces. -/
theorem produced_ok (io : FloatIO) (s : Sch) (v : Val) (indent : Bytes) (hdr : Bool) (doc : Bytes) :
    writeDoc io s v indent hdr = .ok doc ↔ produced io s v indent hdr = (doc, none) := by
  have hw := walkV_rel io s [] none v
  unfold writeDoc produced
  rw [← pureRun_nc]
  unfold marshal
  rcases hm : marshalV io [] none s v with e | items
  · rw [hm] at hw
    obtain ⟨l, t, h, hl⟩ := hw
    rw [h]
    refine ⟨fun h => (by cases h), fun h => ?_⟩
    rcases pureRun_fail l e t (Printer.new [] indent) hl with h' | ⟨x, h'⟩
    · have := (Prod.mk.inj h).2; rw [h'] at this; cases this
    · have := (Prod.mk.inj h).2; rw [h'] at this; cases this
  · rw [hm] at hw
    have hw : nc _ = _ := hw
    rw [hw]
    have hp := pureIs_items items (Printer.new [] indent)
    unfold encode
    rcases he : encItems (Printer.new [] indent) items with e | ⟨p', o⟩
    · simp only [he]
      refine ⟨fun h => (by simp at h), fun h => ?_⟩
      have := (Prod.mk.inj h).2
      rw [hp.2 e he] at this
      cases this
    · rw [hp.1 p' o he]
      simp [he]

/-- The errors agree as well: an error of the printer is the same, one of marshalling may come after one of the printer. -/
theorem produced_error (io : FloatIO) (s : Sch) (v : Val) (indent : Bytes) (hdr : Bool) :
    (∀ e, writeDoc io s v indent hdr = .error (.encode e) → (produced io s v indent hdr).2 = some (.err (.enc e))) ∧
      (∀ e, writeDoc io s v indent hdr = .error (.marshal e) → (produced io s v indent hdr).2 = some (failStop e) ∨
        ∃ x, (produced io s v indent hdr).2 = some (.err (.enc x))) := by
  have hw := walkV_rel io s [] none v
  unfold writeDoc produced
  rw [← pureRun_nc]
  unfold marshal
  rcases hm : marshalV io [] none s v with e | items
  · rw [hm] at hw
    obtain ⟨l, t, h, hl⟩ := hw
    rw [h]
    refine ⟨fun e h => (by cases h), fun e' h => ?_⟩
    cases h
    exact pureRun_fail l e t (Printer.new [] indent) hl
  · rw [hm] at hw
    have hw : nc _ = _ := hw
    rw [hw]
    have hp := pureIs_items items (Printer.new [] indent)
    unfold encode
    rcases he : encItems (Printer.new [] indent) items with e | ⟨p', o⟩
    · simp only [he]
      refine ⟨fun e' h => ?_, fun e' h => (by simp at h)⟩
      simp only [Except.error.injEq, WErr.encode.injEq] at h
      subst h
      exact hp.2 e he
    · simp only [he]
      exact ⟨fun e h => (by simp at h), fun e h => (by simp at h)⟩

end Verif.WriteIO

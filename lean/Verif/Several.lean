import Verif.Truncate
import Verif.Chunk
import Verif.ReadProps

/-!
C95: several documents in one input, read with one decoder by calling `Decode` several times.
-/
namespace Verif.Several

open Verif.Xml Verif.Bind

/-- `Decode` (`/repo/xml/read.go` 143-161) into a pointer to a zero value of a struct type, on a decoder that has the tokens `ts`
to come and then meets the error `fin`: the value and the tokens left for the next call. -/
def decode (io : FloatIO) (fin : RErr) (s : Sch) (ts : List PTok) : Except RErr (Val × List PTok) :=
  match findStart ts with
  | none => .error fin
  | some (n, as, rest, ts) => unmarshalIn io fin (ts.length + 2 * maxDepth + 2) 0 s s.zero n as rest ts

/-- Calls of `Decode` on one decoder, for values of the types `ss`, up to the first error. -/
def decodes (io : FloatIO) (fin : RErr) : List Sch → List PTok → Except RErr (List Val)
  | [], _ => .ok []
  | s :: ss, ts =>
    match decode io fin s ts with
    | .error e => .error e
    | .ok (v, ts') =>
      match decodes io fin ss ts' with
      | .error e => .error e
      | .ok l => .ok (v :: l)

/-- Calls of `Decode` on a decoder for an input, for values of the types `ss`.  Fuel as in `unmarshalDoc`. -/
def decodeAll (io : FloatIO) (ss : List Sch) (input : Bytes) : Except RErr (List Val) :=
  let r := stream (2 * input.length + 2) (Dec.new input)
  let fin : RErr := match r.2 with
    | some e => .syntaxErr e
    | none => .hang
  decodes io fin ss r.1

/-! ### What is said: every document is read on its own -/

/-- Documents read with a decoder for each, up to the first error. -/
def eachAlone (io : FloatIO) : List (Sch × Bytes) → Except RErr (List Val)
  | [] => .ok []
  | (s, doc) :: l =>
    match unmarshalDoc io s doc with
    | .error e => .error e
    | .ok v =>
      match eachAlone io l with
      | .error e => .error e
      | .ok vs => .ok (v :: vs)

/-- The document ends with its root element. -/
def Whole (doc : Bytes) : Prop := ∃ t, IsDoc doc t ∧ t.after = []

/-! ### The decoder after a root element -/

/-- Calls of `Token`. -/
inductive Steps : Dec → List PTok → Dec → Prop
  | nil (d : Dec) : Steps d [] d
  | cons {d d1 d' : Dec} {t : Token} {l : List PTok} : token d = .ok (t, d1) → Steps d1 l d' →
      Steps d (⟨t, d.raw.rest, d1.raw.rest⟩ :: l) d'

theorem steps_of_stream : ∀ (L : List PTok) (k : Nat) (d : Dec) (post : List PTok), (stream k d).1 = L ++ post →
    ∃ d', Steps d L d'
  | [], k, d, post, _ => ⟨d, .nil d⟩
  | p :: L, 0, d, post, h => by simp [stream] at h
  | p :: L, k + 1, d, post, h => by
    simp only [stream] at h
    cases ht : token d with
    | error e => rw [ht] at h; simp at h
    | ok q =>
      obtain ⟨t, d1⟩ := q
      rw [ht] at h
      simp only [List.cons_append, List.cons.injEq] at h
      obtain ⟨rfl, h⟩ := h
      obtain ⟨d', hd'⟩ := steps_of_stream L k d1 post h
      exact ⟨d', .cons ht hd'⟩

theorem stream_of_steps {d d' : Dec} {L : List PTok} (h : Steps d L d') : ∀ k, L.length ≤ k →
    stream k d = (L ++ (stream (k - L.length) d').1, (stream (k - L.length) d').2) := by
  induction h with
  | nil d => intro k _; simp
  | cons ht _ ih =>
    intro k hk
    simp only [List.length_cons] at hk
    obtain ⟨k, rfl⟩ : ∃ j, k = j + 1 := ⟨k - 1, by omega⟩
    simp only [stream, ht, List.length_cons, Nat.add_sub_add_right]
    rw [ih k (by omega)]
    simp

/-- The number of start tags. -/
def opens : List PTok → Nat
  | [] => 0
  | p :: l => (match p.tok with
    | .startElement _ _ => 1
    | _ => 0) + opens l

/-- The number of end tags. -/
def shuts : List PTok → Nat
  | [] => 0
  | p :: l => (match p.tok with
    | .endElement _ => 1
    | _ => 0) + shuts l

theorem opens_append (a b : List PTok) : opens (a ++ b) = opens a + opens b := by
  induction a with
  | nil => simp [opens]
  | cons p a ih => simp only [List.cons_append, opens, ih]; omega

theorem shuts_append (a b : List PTok) : shuts (a ++ b) = shuts a + shuts b := by
  induction a with
  | nil => simp [shuts]
  | cons p a ih => simp only [List.cons_append, shuts, ih]; omega

mutual
theorem flat_balance : ∀ t : XTree, t.Ok → opens t.flat = shuts t.flat
  | .elem n as b a kids en eb ea, h => by
    simp only [XTree.Ok] at h
    have := flats_balance kids h
    simp only [XTree.flat, opens, shuts, opens_append, shuts_append, this]
    omega
  | .leaf t b a, h => by
    simp only [XTree.Ok] at h
    cases t <;> simp [XTree.flat, opens, shuts, Token.isLeaf] at h ⊢
theorem flats_balance : ∀ l : List XTree, Oks l → opens (flats l) = shuts (flats l)
  | [], _ => rfl
  | t :: l, h => by
    simp only [Oks] at h
    simp only [flats, opens_append, shuts_append, flat_balance t h.1, flats_balance l h.2]
end

theorem steps_at {d d' : Dec} {L : List PTok} (h : Steps d L d') : ∀ os, At d os →
    ∃ os', At d' os' ∧ os'.length + shuts L = os.length + opens L := by
  induction h with
  | nil d => intro os ha; exact ⟨os, ha, rfl⟩
  | cons ht _ ih =>
    intro os ha
    obtain ⟨t0, os1, _, hs, ha1⟩ := token_spec ha ht
    obtain ⟨os', ha', hl⟩ := ih os1 ha1
    refine ⟨os', ha', ?_⟩
    rename_i t _ _
    simp only [opens, shuts]
    cases t0 with
    | startElement n as =>
      simp only [specToken] at hs
      split at hs
      · cases hs
      · injection hs with hs; injection hs with h1 h2
        subst h1; subst h2
        simp only [List.length_cons] at hl ⊢
        omega
    | endElement n =>
      simp only [specToken] at hs
      split at hs
      · split at hs
        · injection hs with hs; injection hs with h1 h2
          subst h1; subst h2
          simp only [List.length_cons] at hl ⊢
          omega
        · cases hs
      · cases hs
    | _ =>
      simp only [specToken] at hs
      injection hs with hs; injection hs with h1 h2
      subst h1; subst h2
      simp only [] at hl ⊢
      omega

theorem steps_last {d d' : Dec} {L : List PTok} {n : Name} {eb ea : Bytes} (h : Steps d (L ++ [⟨.endElement n, eb, ea⟩]) d')
    (os : List Open) (ha : At d os) : d'.raw = ⟨ea, none⟩ := by
  induction L generalizing d os with
  | nil =>
    cases h with
    | cons ht hr =>
      cases hr
      obtain ⟨t0, os1, hraw, hs, -⟩ := token_spec ha ht
      by_cases hc : d'.raw.toClose = none
      · cases hd : d'.raw with
        | mk r c => rw [hd] at hc; dsimp only at hc; rw [hc]
      · obtain ⟨m, as, rfl⟩ := rawToken_open _ _ _ hraw hc
        simp only [specToken] at hs
        split at hs
        · cases hs
        · injection hs with hs; injection hs with h1 _; cases h1
  | cons p L ih =>
    cases h with
    | cons ht hr =>
      obtain ⟨t0, os1, _, _, ha1⟩ := token_spec ha ht
      exact ih hr os1 ha1

/-- After the root element of a document the decoder is like a new one on what follows. -/
theorem after_root_at (doc : Bytes) (u : XTree) (hok : u.Ok) (hu : ∃ n as b a kids en eb ea, u = .elem n as b a kids en eb ea)
    (pre post : List PTok) (hpre : ∀ p ∈ pre, notStart p = true) (hd : docTokens doc = pre ++ (u.flat ++ post)) :
    Steps (Dec.new doc) (pre ++ u.flat) (Dec.new u.after) ∧ (pre ++ u.flat).length + 2 * u.after.length ≤ 2 * doc.length := by
  obtain ⟨n, as, b, a, kids, en, eb, ea, rfl⟩ := hu
  unfold docTokens at hd
  have hd' : (stream (2 * doc.length + 2) (Dec.new doc)).1 =
      (pre ++ (⟨.startElement n as, b, a⟩ :: flats kids)) ++ ⟨.endElement en, eb, ea⟩ :: post := by
    rw [hd]
    simp [XTree.flat]
  obtain ⟨p, e, -, hl, -, -⟩ := stream_local _ _ _ _ _ _ _ hd'
  have e2 : doc = p ++ ea := e
  have hat : At (Dec.new doc) [] := ⟨.nil, fun n hn => by simp [Dec.new] at hn⟩
  obtain ⟨d', hst⟩ := steps_of_stream (pre ++ (XTree.elem n as b a kids en eb ea).flat) _ _ post (by
    rw [hd, List.append_assoc])
  obtain ⟨os', ha', hc⟩ := steps_at hst [] hat
  have hopen : opens pre = 0 := by
    clear hd hd' hl hst hc
    induction pre with
    | nil => rfl
    | cons q pre ih =>
      have hq := hpre q (by simp)
      simp only [opens, ih fun r hr => hpre r (by simp [hr])]
      cases ht : q.tok with
      | startElement n as => simp [notStart, ht] at hq
      | _ => rfl
  have hbal := flat_balance _ hok
  rw [opens_append, shuts_append, hopen] at hc
  have hos : os' = [] := by
    have : os'.length = 0 := by simp only [List.length_nil] at hc; omega
    exact List.length_eq_zero_iff.1 this
  subst hos
  have hraw := steps_last (L := pre ++ (⟨.startElement n as, b, a⟩ :: flats kids)) (n := en) (eb := eb) (ea := ea)
    (by simpa [XTree.flat] using hst) [] hat
  have hnew : d' = Dec.new ea := by
    obtain ⟨raw, ns, stk⟩ := d'
    have hr := ha'.rel
    dsimp only at hr hraw
    subst hraw
    cases hr
    rfl
  subst hnew
  refine ⟨hst, ?_⟩
  have hz : (Dec.new doc).raw.toClose.isSome = false := rfl
  rw [hz] at hl
  rw [e2]
  simp only [XTree.flat, XTree.after, List.length_append, List.length_cons, List.length_nil, Bool.false_eq_true, if_false] at hl ⊢
  omega

theorem after_root (doc : Bytes) (u : XTree) (h : IsDoc doc u) :
    ∃ L, (∃ pre, (∀ p ∈ pre, notStart p = true) ∧ L = pre ++ u.flat) ∧ Steps (Dec.new doc) L (Dec.new u.after) ∧
      L.length + 2 * u.after.length ≤ 2 * doc.length := by
  obtain ⟨hok, hu, pre, post, hpre, hd⟩ := h
  obtain ⟨h1, h2⟩ := after_root_at doc u hok hu pre post hpre hd
  exact ⟨_, ⟨pre, hpre, rfl⟩, h1, h2⟩

/-- `Decode` reads the first root element and leaves what is behind it. -/
theorem decode_first (io : FloatIO) (fin : RErr) (s : Sch) (doc r : Bytes) (hw : Whole doc) (k : Nat)
    (hk : 2 * (doc ++ r).length + 2 ≤ k) : ∃ k', 2 * r.length + 2 ≤ k' ∧
    (stream k (Dec.new (doc ++ r))).2 = (stream k' (Dec.new r)).2 ∧
    decode io fin s (stream k (Dec.new (doc ++ r))).1 = withToks (stream k' (Dec.new r)).1 (unmarshalDoc io s doc) := by
  obtain ⟨t, ht, hta⟩ := hw
  obtain ⟨p, e, hwi, hs⟩ := isDoc_swap doc t ht
  have hsw := hs r
  have haft := after_swap t r ht.2.1
  rw [hta] at e hsw haft hwi
  simp only [List.append_nil] at e
  subst e
  obtain ⟨L, ⟨pre, hpre, rfl⟩, hst, hlen⟩ := after_root _ _ hsw
  rw [haft] at hst hlen
  have hkk := stream_of_steps hst k (by omega)
  refine ⟨k - (pre ++ (XTree.swap [] r t).flat).length, by omega, by rw [hkk], ?_⟩
  rw [hkk, unmarshalDoc_tree io s doc t ht]
  unfold readRoot
  rw [← readT_swapEnd io [] r t hwi false 0 s s.zero]
  obtain ⟨hok, ⟨n, as, b, a, kids, en, eb, ea, hu⟩, -⟩ := hsw
  rw [hu] at hok ⊢
  unfold decode
  dsimp only
  rw [List.append_assoc, findStart_append _ _ hpre]
  generalize (stream (k - (pre ++ (XTree.elem n as b a kids en eb ea).flat).length) (Dec.new r)).1 = post
  simp only [XTree.flat, List.cons_append, List.append_assoc, List.nil_append, findStart]
  exact (place_spec io fin n as a kids en eb ea post (content_spec io fin en eb ea post kids hok) s).2 0 _ s.zero b
    (by simp; omega) (by decide)

/-! ### C95 -/

/-- Calls of `Decode` on the tokens of one input. -/
theorem each (io : FloatIO) (fin : RErr) : ∀ (l : List (Sch × Bytes)) (r : Bytes) (k : Nat), (∀ p ∈ l, Whole p.2) →
    2 * ((l.map (·.2)).flatten ++ r).length + 2 ≤ k →
    decodes io fin (l.map (·.1)) (stream k (Dec.new ((l.map (·.2)).flatten ++ r))).1 = eachAlone io l
  | [], r, k, _, _ => rfl
  | (s, doc) :: l, r, k, hw, hk => by
    simp only [List.map_cons, List.flatten_cons, List.append_assoc] at hk ⊢
    obtain ⟨k', hk', -, h⟩ := decode_first io fin s doc ((l.map (·.2)).flatten ++ r) (hw (s, doc) (by simp)) k hk
    simp only [decodes, eachAlone, h]
    cases unmarshalDoc io s doc with
    | error e => rfl
    | ok v =>
      simp only [withToks]
      rw [each io fin l r k' (fun p hp => hw p (by simp [hp])) hk']

/-- If no element follows, the next call of `Decode` returns the error at the end of the tokens. -/
theorem ends (io : FloatIO) (fin : RErr) (s : Sch) : ∀ (l : List (Sch × Bytes)) (r : Bytes) (k : Nat), (∀ p ∈ l, Whole p.2) →
    2 * ((l.map (·.2)).flatten ++ r).length + 2 ≤ k → (∀ k, 2 * r.length + 2 ≤ k → ∀ p ∈ (stream k (Dec.new r)).1, notStart p = true) →
    (∃ vs, eachAlone io l = .ok vs) →
    decodes io fin (l.map (·.1) ++ [s]) (stream k (Dec.new ((l.map (·.2)).flatten ++ r))).1 = .error fin
  | [], r, k, _, hk, hr, _ => by
    have := findStart_append (stream k (Dec.new r)).1 [] (hr k (by simpa using hk))
    rw [List.append_nil] at this
    simp only [List.map_nil, List.nil_append, List.flatten_nil, decodes, decode, this, findStart]
  | (s', doc) :: l, r, k, hw, hk, hr, ⟨vs, hv⟩ => by
    simp only [List.map_cons, List.flatten_cons, List.append_assoc, List.cons_append] at hk ⊢
    obtain ⟨k', hk', -, h⟩ := decode_first io fin s' doc ((l.map (·.2)).flatten ++ r) (hw (s', doc) (by simp)) k hk
    simp only [eachAlone] at hv
    simp only [decodes, h]
    cases hu : unmarshalDoc io s' doc with
    | error e => rw [hu] at hv; cases hv
    | ok v =>
      rw [hu] at hv
      simp only [withToks]
      cases he : eachAlone io l with
      | error e => rw [he] at hv; cases hv
      | ok ws =>
        rw [ends io fin s l r k' (fun p hp => hw p (by simp [hp])) hk' hr ⟨ws, he⟩]

theorem last_error (s : Sch) (io : FloatIO) : ∀ (l : List (Sch × Bytes)) (r : Bytes) (k : Nat), (∀ p ∈ l, Whole p.2) →
    2 * ((l.map (·.2)).flatten ++ r).length + 2 ≤ k → ∃ k', 2 * r.length + 2 ≤ k' ∧
      (stream k (Dec.new ((l.map (·.2)).flatten ++ r))).2 = (stream k' (Dec.new r)).2
  | [], r, k, _, hk => ⟨k, by simpa using hk, rfl⟩
  | (s', doc) :: l, r, k, hw, hk => by
    simp only [List.map_cons, List.flatten_cons, List.append_assoc] at hk ⊢
    obtain ⟨k', hk', h, -⟩ := decode_first io .hang s doc ((l.map (·.2)).flatten ++ r) (hw (s', doc) (by simp)) k hk
    obtain ⟨k2, h2, h3⟩ := last_error s io l r k' (fun p hp => hw p (by simp [hp])) hk'
    exact ⟨k2, h2, by rw [h, h3]⟩

/-- C95: calls of `Decode` on one decoder give what reading each document on its own gives, up to the first error, whatever comes
behind them. -/
theorem C95_each (io : FloatIO) (l : List (Sch × Bytes)) (r : Bytes) (hw : ∀ p ∈ l, Whole p.2) :
    decodeAll io (l.map (·.1)) ((l.map (·.2)).flatten ++ r) = eachAlone io l :=
  each io _ l r _ hw (Nat.le_refl _)

/-- C95, the end: if behind the documents there is no element but the end of the input (or an error), this is what the next call of
`Decode` returns. -/
theorem C95_end (io : FloatIO) (s : Sch) (l : List (Sch × Bytes)) (r : Bytes) (hw : ∀ p ∈ l, Whole p.2) (vs : List Val)
    (hv : eachAlone io l = .ok vs) (e : XErr) (hn : ∀ p ∈ docTokens r, notStart p = true)
    (he : (stream (2 * r.length + 2) (Dec.new r)).2 = some e) :
    decodeAll io (l.map (·.1) ++ [s]) ((l.map (·.2)).flatten ++ r) = .error (.syntaxErr e) := by
  obtain ⟨k', hk', h⟩ := last_error s io l r _ hw (Nat.le_refl _)
  have hm : ∀ k, 2 * r.length + 2 ≤ k → stream k (Dec.new r) = stream (2 * r.length + 2) (Dec.new r) := fun k hk =>
    stream_more _ e _ _ he hk
  rw [hm k' hk', he] at h
  unfold decodeAll
  dsimp only
  rw [h]
  refine ends io _ s l r _ hw (Nat.le_refl _) (fun k hk => ?_) ⟨vs, hv⟩
  rw [hm k hk]
  exact hn

/-- Two manifests in one input, with white space between them and a comment behind them. -/
def nextDoc : Bytes := b!"\n<MPD id='n'></MPD>"
def nextTree : XTree := tagged nextDoc (b!"MPD") [⟨⟨[], b!"id"⟩, b!"n"⟩] 1 13 13 19 []

theorem ex_whole : Whole exDoc := ⟨exTree, exDoc_is, by decide +kernel⟩

theorem next_whole : Whole nextDoc :=
  ⟨nextTree, ⟨by simp [nextTree, tagged, XTree.Ok, Oks], ⟨_, _, _, _, _, _, _, _, rfl⟩,
    [⟨.charData (b!"\n"), nextDoc, nextDoc.drop 1⟩], [], by simp [notStart], by decide +kernel⟩, by decide +kernel⟩

example (io : FloatIO) : decodeAll io [tMPD.sch, tMPD.sch] (exDoc ++ nextDoc ++ b!"<!--end-->") =
    eachAlone io [(tMPD.sch, exDoc), (tMPD.sch, nextDoc)] := by
  have := C95_each io [(tMPD.sch, exDoc), (tMPD.sch, nextDoc)] (b!"<!--end-->") (by simp [ex_whole, next_whole])
  simpa using this

/-- Both are read. -/
example (io : FloatIO) : ∃ v w, eachAlone io [(tMPD.sch, exDoc), (tMPD.sch, nextDoc)] = .ok [v, w] := by
  have h : (match eachAlone io [(tMPD.sch, exDoc), (tMPD.sch, nextDoc)] with
    | .ok [_, _] => true
    | _ => false) = true := by krfl
  generalize eachAlone io [(tMPD.sch, exDoc), (tMPD.sch, nextDoc)] = r at h ⊢
  match r, h with
  | .ok [v, w], _ => exact ⟨v, w, rfl⟩

/-- The third call meets the end of the input. -/
example (io : FloatIO) : decodeAll io [tMPD.sch, tMPD.sch, tMPD.sch] (exDoc ++ nextDoc ++ b!"<!--end-->") =
    .error (.syntaxErr .eof) := by
  have h : ∃ vs, eachAlone io [(tMPD.sch, exDoc), (tMPD.sch, nextDoc)] = .ok vs := by
    have h : (match eachAlone io [(tMPD.sch, exDoc), (tMPD.sch, nextDoc)] with
      | .ok _ => true
      | _ => false) = true := by krfl
    generalize eachAlone io [(tMPD.sch, exDoc), (tMPD.sch, nextDoc)] = r at h ⊢
    match r, h with
    | .ok v, _ => exact ⟨v, rfl⟩
  obtain ⟨vs, h⟩ := h
  have := C95_end io tMPD.sch [(tMPD.sch, exDoc), (tMPD.sch, nextDoc)] (b!"<!--end-->") (by simp [ex_whole, next_whole]) vs h .eof
    (by decide +kernel) (by decide +kernel)
  simpa using this

end Verif.Several

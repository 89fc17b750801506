import Verif.Several
import Verif.NotEof
import Verif.MpdRoundTrip
import Verif.RtCheck

/-!
C95 for manifests that were written one behind the other.
-/
namespace Verif.Several

open Verif.Xml Verif.Bind

/-- A document of which nothing is left after the tokens of the root element ends with it. -/
theorem whole_of (doc : Bytes) (u : XTree) (hok : u.Ok) (hu : ∃ n as b a kids en eb ea, u = .elem n as b a kids en eb ea)
    (pre : List PTok) (hpre : ∀ p ∈ pre, notStart p = true) (hd : docTokens doc = pre ++ u.flat)
    (he : (stream (2 * doc.length + 2) (Dec.new doc)).2 = some .eof) : Whole doc := by
  refine ⟨u, ⟨hok, hu, pre, [], hpre, by simpa using hd⟩, ?_⟩
  obtain ⟨hs, hl⟩ := after_root_at doc u hok hu pre [] hpre (by simpa using hd)
  have hk := stream_of_steps hs (2 * doc.length + 2) (by omega)
  unfold docTokens at hd
  rw [hk] at hd he
  obtain ⟨k, hk'⟩ : ∃ k, 2 * doc.length + 2 - (pre ++ u.flat).length = k + 1 :=
    ⟨2 * doc.length + 2 - (pre ++ u.flat).length - 1, by omega⟩
  rw [hk'] at hd he
  simp only [stream] at hd he
  cases ht : token (Dec.new u.after) with
  | ok q => rw [ht] at hd; simp at hd
  | error e =>
    rw [ht] at he
    simp only [Option.some.injEq] at he
    subst he
    have h := ((token_eof_iff _).1 ht).1
    simp [Dec.new] at h
    exact h

theorem nodeTokens_last (indent : Bytes) (n : Name) (as : List Attr) (kids : List Node) :
    ∃ l, nodeTokens [] indent (.elem n as kids) = l ++ [.endElement n] := by
  unfold nodeTokens linear
  dsimp only
  rw [show ∀ (a b : Lin) (l : List Lin) (c d : Lin), a :: b :: (l ++ [c, d]) = (a :: b :: (l ++ [c])) ++ [d] by simp, mergeL_append]
  simp only [mergeL]
  exact ⟨_, by rw [← List.append_assoc]⟩

theorem leaf_toks : ∀ ts : List XTree, Oks ts → (∀ t ∈ ts, isLeafT t = true) → ∀ p ∈ flats ts, Bind.Token.isLeaf p.tok = true
  | [], _, _, p, hp => by simp [flats] at hp
  | .leaf t b a :: ts, h, hl, p, hp => by
    simp only [Oks, XTree.Ok] at h
    simp only [flats, XTree.flat, List.cons_append, List.nil_append] at hp
    rcases List.mem_cons.1 hp with rfl | hp
    · exact h.1
    · exact leaf_toks ts h.2 (fun t ht => hl t (by simp [ht])) p hp
  | .elem .. :: ts, _, hl, p, hp => by
    have := hl _ (List.mem_cons_self ..)
    cases this

/-- The tokens of a written document end with the end of the input. -/
theorem doc_ends {doc : Bytes} {l : List Token} {n : Name} {as : List Attr}
    (h : ∀ k, (Token.startElement n as :: l).length < k → tokRun k (Dec.new doc) = (.startElement n as :: l, some .eof))
    (hdr : Bool) : (stream (2 * ((if hdr then xmlHeader else []) ++ doc).length + 2)
      (Dec.new ((if hdr then xmlHeader else []) ++ doc))).2 = some .eof := by
  have hk := h _ (Nat.lt_succ_self _)
  obtain ⟨r, rfl⟩ := tok_start hk
  rw [stream_tokRun] at hk
  injection hk with h1 h2
  cases hdr with
  | false =>
    simp only [Bool.false_eq_true, if_false, List.nil_append]
    rw [docTokens_eq _ _ _ h2, h2]
  | true =>
    have hs : (stream (((Token.startElement n as :: l).length + 1) + 2) (Dec.new (xmlHeader ++ ch%'<' :: r))).2 = some .eof := by
      rw [stream, header_tokens]
      dsimp only
      rw [stream, newline_token]
      exact h2
    simp only [if_true]
    rw [docTokens_eq _ _ _ hs, hs]

/-- A written element is a document that ends with it. -/
theorem doc_whole (indent : Bytes) (hind : IsWs indent) (i : Item) (hok : ItemOk i) (n : Name) (as : List Attr)
    (kids : List Node) (h : resolve Env.empty i = some (.elem n as kids)) (hdr : Bool) (doc : Bytes)
    (hdoc : encode [] indent [i] = .ok doc) : Whole ((if hdr then xmlHeader else []) ++ doc) := by
  cases i with
  | text b => simp [resolve] at h
  | str b => simp [resolve] at h
  | raw b => simp [resolve] at h
  | elem n' as' kids' =>
    obtain ⟨doc', he, ht, hmk⟩ := names_marks [] indent (by simp [IsWs]) hind n' as' kids' hok _ h
    rw [hdoc] at he
    injection he with he
    subst he
    obtain ⟨l, hl⟩ := nodeTokens_start indent n as kids
    obtain ⟨l', hl'⟩ := nodeTokens_last indent n as kids
    rw [hl] at ht
    have hend := doc_ends ht hdr
    obtain ⟨hd, rest, h1, h2, h3, h4, h5⟩ := doc_tokens ht hdr
    have hlen : (nodeTokens [] indent (.elem n as kids)).length = rest.length := by rw [hl, ← h3]; simp
    obtain ⟨ts, g1, g2, g3, g4⟩ := linear_trees (.elem n as kids) (Printer.new [] indent).ind [] rest [] ⟨by simp [IsWs, Printer.new], hind⟩
      (resolve_bal _ _ _ hok h) (by rw [h3, ← hl]; rfl) h5 (by rw [List.append_nil, h4, ← hlen]; exact hmk)
    simp only [SeesL] at g3
    obtain ⟨p, t, post, rfl, k1, k2, k3⟩ := g3
    obtain ⟨o1, o2⟩ := oks_split _ _ g1
    simp only [Oks] at o2
    have hp : flats post = [] := by
      rcases List.eq_nil_or_concat (flats post) with hp | ⟨q, x, hp⟩
      · exact hp
      · exfalso
        have hx := leaf_toks post o2.2 k3 x (by simp [hp])
        have h6 : rest.map (·.tok) = l' ++ [.endElement n] := by rw [h3, ← hl, hl']
        rw [← g2, flats_append] at h6
        simp only [flats, hp, List.concat_eq_append] at h6
        rw [← List.append_assoc, ← List.append_assoc, List.map_append] at h6
        have h7 := (List.append_inj' h6 rfl).2
        simp only [List.map_cons, List.map_nil, List.cons.injEq, and_true] at h7
        rw [h7] at hx
        cases hx
    refine whole_of _ t o2.1 ?_ (hd ++ flats p) ?_ ?_ hend
    · cases t with
      | leaf _ _ _ => simp [Sees] at k2
      | elem n as b a ks en eb ea => exact ⟨n, as, b, a, ks, en, eb, ea, rfl⟩
    · intro q hq
      rcases List.mem_append.1 hq with hq | hq
      · exact h1 q hq
      · exact leafT_notStart p o1 k1 q hq
    · rw [h2, ← g2, flats_append]
      simp [flats, hp]

/-- A manifest, the indentation and whether there is a header. -/
structure Job where
  value : Val
  indent : Bytes
  hdr : Bool

/-- The conditions of C30. -/
def Job.Ok (io : FloatIO) (j : Job) : Prop :=
  IsWs j.indent ∧ Typed tMPD.sch j.value ∧ Canon io none tMPD.sch j.value ∧
    ∃ X, extOk mpdPairs X mpdLocs = true ∧ NsOk X [] [] none tMPD.sch j.value

theorem mpd_whole (io : FloatIO) (j : Job) (h : j.Ok io) (doc : Bytes)
    (hw : writeDoc io tMPD.sch j.value j.indent j.hdr = .ok doc) : Whole doc := by
  obtain ⟨hind, ht, hc, X, hX, hn⟩ := h
  have hAL : ∀ x ∈ mpdPairs, x.1 ∉ mpdLocs := fun x hx => by
    have := List.all_eq_true.1 mpd_pairs x hx
    simpa using this
  obtain ⟨tn, xn, hs⟩ := struct_eta tMPD.sch (by decide +kernel)
  have hna : tMPD.sch.noAttr = true := by rw [hs]; rfl
  have hone : One io mpdLocs tMPD.sch := by
    have hrt := mpd_rt
    have hok := mpd_ok
    rw [hs] at hrt hok ⊢
    exact struct_back io _ _ _ _ _ hrt hok
  have hnil : j.value.isNil = false := by
    rw [hs] at ht
    cases hv : j.value <;> rw [hv] at ht <;> first | rfl | simp [Typed] at ht
  unfold writeDoc marshal at hw
  cases hm : marshalV io [] none tMPD.sch j.value with
  | error e => rw [hm] at hw; cases hw
  | ok items =>
    rw [hm] at hw
    obtain ⟨hio, xs, hr, hd⟩ := keptV io mpdPairs X mpdLocs hX hAL tMPD.sch [] [] none false [] j.value Env.empty items mpd_ns mpd_rt hna
      ht hc hn (by simp) ⟨by simp [From, Env.empty], by simp, fun _ => rfl, Or.inl rfl⟩ hm
    obtain ⟨n, as, kids, rfl, -⟩ := hone none j.value [] Env.empty items xs ht hc hnil (by simp)
      (fun _ => ⟨_, _, _, _, hs⟩) hm hr hd
    obtain ⟨i, rfl, hi⟩ := resolves_single hr
    dsimp only at hw
    cases he : encode [] j.indent [i] with
    | error e => rw [he] at hw; cases hw
    | ok d =>
      rw [he] at hw
      injection hw with hw
      subst hw
      exact doc_whole j.indent hind i hio.1 n as kids hi j.hdr d he

/-- C95 for written manifests: manifests that are written one behind the other, each with its own indentation, with or without
headers, are read with one decoder as the manifests they were (`Returned`, C30), and the call of `Decode` after the last one returns
`io.EOF`. -/
theorem C95_written (io : FloatIO) : ∀ js : List Job, (∀ j ∈ js, j.Ok io) → ∃ docs ws,
    List.Forall₂ (fun j doc => writeDoc io tMPD.sch j.value j.indent j.hdr = .ok doc) js docs ∧
    List.Forall₂ (fun j w => Returned j.indent tMPD.sch j.value w) js ws ∧
    decodeAll io (js.map fun _ => tMPD.sch) docs.flatten = .ok ws ∧
    decodeAll io (js.map (fun _ => tMPD.sch) ++ [tMPD.sch]) docs.flatten = .error (.syntaxErr .eof) := by
  intro js hjs
  have h : ∃ docs ws, List.Forall₂ (fun j doc => writeDoc io tMPD.sch j.value j.indent j.hdr = .ok doc) js docs ∧
      List.Forall₂ (fun j w => Returned j.indent tMPD.sch j.value w) js ws ∧ (∀ d ∈ docs, Whole d) ∧ docs.length = js.length ∧
      eachAlone io (docs.map fun d => (tMPD.sch, d)) = .ok ws := by
    induction js with
    | nil => exact ⟨[], [], .nil, .nil, by simp, rfl, rfl⟩
    | cons j js ih =>
      obtain ⟨docs, ws, h1, h2, h3, h4, h5⟩ := ih fun i hi => hjs i (by simp [hi])
      have hj := hjs j (by simp)
      obtain ⟨hind, ht, hc, X, hX, hn⟩ := id hj
      obtain ⟨doc, w, k1, k2, k3⟩ := C30_roundtrip_partial io j.indent hind j.hdr X hX j.value ht hc hn
      refine ⟨doc :: docs, w :: ws, .cons k1 h1, .cons k3 h2, ?_, by simp [h4], ?_⟩
      · intro d hd
        rcases List.mem_cons.1 hd with rfl | hd
        · exact mpd_whole io j hj _ k1
        · exact h3 d hd
      · simp only [List.map_cons, eachAlone, k2, h5]
  obtain ⟨docs, ws, h1, h2, h3, h4, h5⟩ := h
  have hw : ∀ p ∈ docs.map fun d => (tMPD.sch, d), Whole p.2 := by
    intro p hp
    obtain ⟨d, hd, rfl⟩ := List.mem_map.1 hp
    exact h3 d hd
  have hc : (js.map fun _ => tMPD.sch) = (docs.map fun d => (tMPD.sch, d)).map (·.1) := by
    rw [List.map_map]
    show (js.map fun _ => tMPD.sch) = docs.map fun _ => tMPD.sch
    rw [List.map_const', List.map_const', h4]
  have hf : docs.flatten = ((docs.map fun d => (tMPD.sch, d)).map (·.2)).flatten ++ [] := by
    rw [List.map_map, List.append_nil]
    show _ = (docs.map fun d => d).flatten
    rw [List.map_id']
  refine ⟨docs, ws, h1, h2, ?_, ?_⟩
  · rw [hc, hf, C95_each io _ [] hw, h5]
  · rw [hc, hf]
    exact C95_end io tMPD.sch _ [] hw ws h5 .eof (by decide +kernel) (by decide +kernel)

/-- A manifest with SCTE-35 signals, written twice: with a header and indented, and without both. -/
example : ∃ (docs : List Bytes) (ws : List Val), ws.length = 2 ∧ docs.length = 2 ∧
    decodeAll exIO [tMPD.sch, tMPD.sch] docs.flatten = .ok ws := by
  obtain ⟨docs, ws, h1, h2, h3, -⟩ := C95_written exIO [⟨scteVal, b!"  ", true⟩, ⟨scteVal, [], false⟩] (by
    intro j hj
    simp only [List.mem_cons, List.not_mem_nil, or_false] at hj
    rcases hj with rfl | rfl
    · exact ⟨by simp [IsWs], scteVal_typed, canonB_sound _ _ _ _ scteVal_ok.2.1, scteExt, scteVal_ok.2.2.2, nsB_sound _ _ _ _ _ _ scteVal_ok.2.2.1⟩
    · exact ⟨by simp [IsWs], scteVal_typed, canonB_sound _ _ _ _ scteVal_ok.2.1, scteExt, scteVal_ok.2.2.2, nsB_sound _ _ _ _ _ _ scteVal_ok.2.2.1⟩)
  exact ⟨docs, ws, h2.length_eq.symm, h1.length_eq.symm, h3⟩

end Verif.Several

import Verif.WriteWalk
import Verif.KRfl
import Mathlib.Logic.Relation

/-!
C34, C35 and C36: what `Write`, `WriteXML` and `WriteToString` promise, for every destination and every history of the pool.
-/
namespace Verif.WriteIO

open Verif.Xml Verif.Bind

/-- An encoder as it lies in the pool: no element open, no indentation, nothing counted.  (The buffer, the cached error and
the flag `closed` are set anew by `AcquireEncoder`.) -/
def Pooled (e : Enc) : Prop := e.pr = Printer.new [] []

theorem pooled_fresh : Pooled Enc.fresh := rfl

/-- Whatever was done with an encoder, `ReleaseEncoder` makes it fit for the pool. -/
theorem pooled_release (e : Enc) : Pooled (release e) := rfl

theorem acquire_pooled {e : Enc} (h : Pooled e) (indent : Bytes) :
    setIndent (acquire e) [] indent = ⟨Printer.new [] indent, false, none, ⟨[], none⟩⟩ := by
  unfold Pooled at h
  unfold setIndent acquire
  rw [h]
  rfl

section
variable {σ : Type} {d : Dest σ} {s0 : σ}

theorem flush_spec (hd : d.Lawful) {prod : Bytes} {s : Enc × Sink σ} (h : Inv d s0 prod (s.1.w, s.2)) :
    Inv d s0 prod ((encFlush d s).1.1.w, (encFlush d s).1.2) ∧
      ((encFlush d s).2 = none → (encFlush d s).1.1.w.err = none ∧ (encFlush d s).1.1.w.buf = []) ∧
      ((encFlush d s).2 ≠ none → (encFlush d s).1.1.w.err ≠ none) := by
  obtain ⟨h1, h2⟩ := inv_flush hd h
  unfold encFlush errStop
  refine ⟨h1, fun hn => ?_, fun hn hc => ?_⟩
  · rw [Option.map_eq_none_iff] at hn
    exact ⟨hn, h2 hn⟩
  · dsimp only at hc hn
    rw [hc] at hn
    exact hn rfl

/-- The end of writing. -/
structure Ended (d : Dest σ) (s0 : σ) (prod : Bytes × Option Stop) (sk : Sink σ) (stop : Option Stop) : Prop where
  n : SinkOk d s0 sk
  pre : accepted sk.log <+: prod.1
  done : stop = none → prod.2 = none ∧ accepted sk.log = prod.1 ∧ Clean sk.log
  clean : Clean sk.log → stop = prod.2
  last : ∀ l c t, sk.log = l ++ c :: t → c.err ≠ none → t = []

theorem clean_last {log : List DCall} (h : Clean log) : ∀ l c t, log = l ++ c :: t → c.err ≠ none → t = [] := by
  intro l c t e hc
  exact absurd (h c (by rw [e]; simp)) hc

theorem broken_last {l' : List DCall} {c' : DCall} (h : Clean l') : ∀ l c t, l' ++ [c'] = l ++ c :: t → c.err ≠ none →
    t = [] := by
  intro l c t e hc
  rcases List.eq_nil_or_concat t with rfl | ⟨t', x, rfl⟩
  · rfl
  · exfalso
    have e2 : l' ++ [c'] = (l ++ c :: t') ++ [x] := by rw [e]; simp
    have := (List.append_inj' e2 rfl).1
    exact hc (h c (by rw [this]; simp))

theorem ended_of_inv {prod full : Bytes} {stop : Option Stop} {ps : Option Stop} {s : Buf × Sink σ} (h : Inv d s0 prod s)
    (hp : prod <+: full) (hdone : stop = none → ps = none ∧ s.1.err = none ∧ s.1.buf = [] ∧ prod = full)
    (hclean : s.1.err = none → stop = ps) : Ended d s0 (full, ps) s.2 stop := by
  by_cases he : s.1.err = none
  · obtain ⟨g1, g2, g3⟩ := h.good he
    refine ⟨h.n, ?_, fun hn => ?_, fun _ => hclean he, clean_last g1⟩
    · exact (by rw [← g2]; exact List.prefix_append _ _ : accepted s.2.log <+: prod).trans hp
    · obtain ⟨a, b, c, e⟩ := hdone hn
      exact ⟨a, by rw [← e, ← g2, c, List.append_nil], g1⟩
  · obtain ⟨b1, l, c, e, b2, b3, b4, b5⟩ := h.bad he
    refine ⟨h.n, b1.trans hp, fun hn => absurd (hdone hn).2.1 he, fun hc => ?_, ?_⟩
    · have := hc c (by rw [b2]; simp)
      rw [b4] at this
      cases this
    · rw [b2]
      exact broken_last b3

theorem encodeFlush_spec (hd : d.Lawful) {prod : Bytes} {s : Enc × Sink σ} (h : PInv d s0 prod s) (l : List Call) :
    Ended d s0 (prod ++ (pureRun s.1.pr l).2.1, (pureRun s.1.pr l).2.2) (encodeFlush d s l).1.2 (encodeFlush d s l).2 := by
  obtain ⟨h1, h2⟩ := run_spec hd l h
  unfold encodeFlush
  rcases hr : run d s l with ⟨s1, _ | e⟩
  · rw [hr] at h1 h2
    dsimp only at h1 h2 ⊢
    have hps : (pureRun s.1.pr l).2.2 = none := by
      rcases h2 with h2 | ⟨e, _, h2⟩
      · exact h2.symm
      · cases h2
    rw [hps]
    obtain ⟨f1, f2, f3⟩ := flush_spec hd h1.inv
    rcases hf : encFlush d s1 with ⟨s2, _ | e⟩
    · rw [hf] at f1 f2 f3
      dsimp only at f1 f2 f3 ⊢
      obtain ⟨k1, k2, k3⟩ := flush_spec hd f1
      refine ended_of_inv k1 List.prefix_rfl (fun hn => ⟨rfl, (k2 hn).1, (k2 hn).2, rfl⟩) (fun hn => ?_)
      by_contra hc
      exact k3 hc hn
    · rw [hf] at f1 f2 f3
      exact ended_of_inv f1 List.prefix_rfl (fun hn => by cases hn) (fun hn => absurd hn (f3 (by simp)))
  · rw [hr] at h1 h2
    dsimp only at h1 h2 ⊢
    refine ended_of_inv h1.inv List.prefix_rfl (fun hn => by cases hn) (fun hn => ?_)
    rcases h2 with h2 | ⟨e', h3, _⟩
    · exact h2
    · rw [← h1.err, h3] at hn
      cases hn

theorem writeXML_ended (io : FloatIO) (hd : d.Lawful) {e : Enc} (he : Pooled e) (s : Sch) (v : Val) (indent : Bytes)
    (hdr : Bool) : Ended d s0 (produced io s v indent hdr) (writeXML io d s0 e s v indent hdr).1.sink
      (writeXML io d s0 e s v indent hdr).1.stop ∧
    (writeXML io d s0 e s v indent hdr).1.n = (writeXML io d s0 e s v indent hdr).1.sink.n := by
  have start : ∀ (prod : Bytes) (sk : Sink σ), SinkOk d s0 sk → Clean sk.log → accepted sk.log = prod →
      PInv d s0 prod (((⟨Printer.new [] indent, false, none, ⟨[], none⟩⟩ : Enc), sk)) :=
    fun prod sk h1 h2 h3 => ⟨rfl, rfl, ⟨h1, fun _ => ⟨h2, by rw [h3]; simp, by simp⟩, fun hc => absurd rfl hc⟩⟩
  have h0 : SinkOk d s0 ⟨s0, 0, []⟩ := ⟨rfl, rfl⟩
  have hc0 : Clean (⟨s0, 0, []⟩ : Sink σ).log := fun c hc => by cases hc
  unfold writeXML writeHeader produced
  cases hdr with
  | false =>
    simp only [Bool.false_eq_true, if_false]
    rw [acquire_pooled he]
    exact ⟨encodeFlush_spec hd (start [] _ h0 hc0 rfl) _, trivial⟩
  | true =>
    simp only [if_true]
    obtain ⟨c1, c2, c3, c4⟩ := cw_spec hd ⟨s0, 0, []⟩ xmlHeader h0
    rcases hx : (cwWrite d ⟨s0, 0, []⟩ xmlHeader).2.2 with _ | x
    · obtain ⟨k1, k2⟩ := c3 hx
      simp only [errStop, Option.map_none]
      rw [acquire_pooled he]
      refine ⟨encodeFlush_spec hd (start xmlHeader _ c1 (k2 hc0) ?_) _, trivial⟩
      rw [c2, k1]
      simp [accepted]
    · obtain ⟨c, y, hlog, hce, hxe⟩ := c4 x hx
      simp only [errStop, Option.map_some]
      refine ⟨⟨c1, ?_, fun hn => (by cases hn), fun hc => ?_, ?_⟩, trivial⟩
      · rw [c2]
        have : accepted (⟨s0, 0, []⟩ : Sink σ).log = [] := rfl
        rw [this, List.nil_append]
        exact (List.take_prefix _ _).trans (List.prefix_append _ _)
      · have := hc c (by rw [hlog]; simp)
        rw [hce] at this
        cases this
      · rw [hlog]
        exact broken_last hc0

/-! ### C34 -/

/-- **C34.**  For every destination that keeps the contract of `io.Writer` (it may fail or write short at any call), every
value, indentation and header flag, and every encoder that the pool may give: the log is the history of the destination;
the count that is returned is the number of bytes the destination has accepted; the call succeeds exactly if the
destination never failed and the value can be written, and then exactly the document was delivered; otherwise a beginning of
it was delivered, and nothing was sent after the destination's error. -/
theorem C34_write (io : FloatIO) (hd : d.Lawful) {e : Enc} (he : Pooled e) (s : Sch) (v : Val) (indent : Bytes) (hdr : Bool) :
    let r := (writeXML io d s0 e s v indent hdr).1
    Trace d s0 r.sink.log r.sink.st ∧
      r.n = (accepted r.sink.log).length ∧
      (r.stop = none ↔ (∀ c ∈ r.sink.log, c.err = none) ∧ ∃ doc, writeDoc io s v indent hdr = .ok doc) ∧
      (∀ doc, writeDoc io s v indent hdr = .ok doc →
        accepted r.sink.log <+: doc ∧ (r.stop = none → accepted r.sink.log = doc)) ∧
      (∀ l c t, r.sink.log = l ++ c :: t → c.err ≠ none → t = []) := by
  obtain ⟨h, hn⟩ := writeXML_ended (s0 := s0) io hd he s v indent hdr
  intro r
  refine ⟨h.n.1, by rw [hn]; exact h.n.2, ⟨fun hs => ?_, fun ⟨hc, doc, hdoc⟩ => ?_⟩, fun doc hdoc => ?_, h.last⟩
  · obtain ⟨a, b, c⟩ := h.done hs
    exact ⟨c, (produced io s v indent hdr).1, (produced_ok io s v indent hdr _).mpr (by rw [← a])⟩
  · rw [produced_ok] at hdoc
    have := h.clean hc
    rw [hdoc] at this
    exact this
  · rw [produced_ok] at hdoc
    refine ⟨?_, fun hs => ?_⟩
    · have := h.pre
      rw [hdoc] at this
      exact this
    · have := (h.done hs).2.1
      rw [hdoc] at this
      exact this

end

/-! ### C36 -/

theorem builder_lawful : builder.Lawful :=
  ⟨fun _ _ => Nat.le_refl _, fun _ _ h => absurd h (Nat.lt_irrefl _)⟩

theorem builder_trace : ∀ (log : List DCall) (s t : Bytes), Trace builder s log t → t = s ++ accepted log ∧ Clean log
  | [], s, t, h => by
    cases h
    exact ⟨by simp [accepted], fun c hc => by cases hc⟩
  | c :: l, s, t, h => by
    obtain ⟨h1, h2⟩ := h
    obtain ⟨h3, h4⟩ := builder_trace l _ _ h2
    have h5 := Prod.mk.inj (h1 : (c.offered.length, (none : Option Nat)) = (c.n, c.err))
    refine ⟨?_, fun x hx => ?_⟩
    · rw [h3]
      show (s ++ c.offered) ++ accepted l = _
      simp only [accepted, List.flatMap_cons]
      rw [← h5.1, List.take_length, List.append_assoc]
    · rcases List.mem_cons.mp hx with rfl | hx
      · exact h5.2.symm
      · exact h4 x hx

/-- What `WriteToString` gives. -/
theorem writeToString_eq (io : FloatIO) {e : Enc} (he : Pooled e) (s : Sch) (v : Val) (indent : Bytes) (hdr : Bool) :
    writeToString io e s v indent hdr =
      if (produced io s v indent hdr).2 = none then ((produced io s v indent hdr).1, none)
      else ([], (produced io s v indent hdr).2) := by
  obtain ⟨h, -⟩ := writeXML_ended (s0 := []) io builder_lawful he s v indent hdr
  obtain ⟨h1, h2⟩ := builder_trace _ _ _ h.n.1
  unfold writeToString
  have hst := h.clean h2
  dsimp only
  rw [hst]
  split
  · rename_i hp
    rw [hp] at hst
    have := (h.done hst).2.1
    rw [h1, this, List.nil_append]
  · rfl

/-- **C36.**  `WriteToString` returns the document, or the empty string and an error if there is none.  Whatever `Write`
delivers successfully to any destination is what `WriteToString` returns, with any encoders of the pool.  The header flag
puts the XML declaration in front and changes nothing else. -/
theorem C36_string (io : FloatIO) {e : Enc} (he : Pooled e) (s : Sch) (v : Val) (indent : Bytes) :
    (∀ hdr doc, writeDoc io s v indent hdr = .ok doc → writeToString io e s v indent hdr = (doc, none)) ∧
      (∀ hdr x, writeDoc io s v indent hdr = .error x → ∃ y, writeToString io e s v indent hdr = ([], some y)) ∧
      (∀ (σ : Type) (d : Dest σ) (s0 : σ) (e' : Enc) hdr, d.Lawful → Pooled e' →
        (writeXML io d s0 e' s v indent hdr).1.stop = none →
          writeToString io e s v indent hdr = (accepted (writeXML io d s0 e' s v indent hdr).1.sink.log, none)) ∧
      ((writeToString io e s v indent true).2 = (writeToString io e s v indent false).2 ∧
        ((writeToString io e s v indent false).2 = none →
          (writeToString io e s v indent true).1 = xmlHeader ++ (writeToString io e s v indent false).1)) := by
  refine ⟨fun hdr doc h => ?_, fun hdr x h => ?_, fun σ d s0 e' hdr hd he' h => ?_, ?_⟩
  · rw [writeToString_eq io he, (produced_ok io s v indent hdr doc).mp h]
    rfl
  · rw [writeToString_eq io he]
    rcases hp : (produced io s v indent hdr).2 with _ | y
    · have := (produced_ok io s v indent hdr (produced io s v indent hdr).1).mpr (by rw [← hp])
      rw [h] at this
      cases this
    · exact ⟨y, by simp⟩
  · obtain ⟨h1, -⟩ := writeXML_ended (s0 := s0) io hd he' s v indent hdr
    obtain ⟨a, b, -⟩ := h1.done h
    rw [writeToString_eq io he, if_pos a, b]
  · rw [writeToString_eq io he, writeToString_eq io he]
    unfold produced
    dsimp only
    split
    · exact ⟨rfl, fun _ => rfl⟩
    · rename_i hp
      exact ⟨rfl, fun h => absurd h hp⟩

/-! ### C35 -/

/-- **C35**, one `Write`: the result (destination, count, error) with any encoder of the pool is that with a new one, and
the encoder that goes back is again fit for the pool, also after an error or a panic. -/
theorem C35_write {σ : Type} (io : FloatIO) (d : Dest σ) (s0 : σ) {e : Enc} (he : Pooled e) (s : Sch) (v : Val)
    (indent : Bytes) (hdr : Bool) :
    (writeXML io d s0 e s v indent hdr).1 = (writeXML io d s0 Enc.fresh s v indent hdr).1 ∧
      ∀ e', (writeXML io d s0 e s v indent hdr).2 = some e' → Pooled e' := by
  unfold writeXML
  rw [acquire_pooled he, acquire_pooled pooled_fresh]
  rcases writeHeader d ⟨s0, 0, []⟩ hdr with ⟨sk, _ | x⟩
  · refine ⟨rfl, fun e' h => ?_⟩
    cases h
    exact pooled_release _
  · exact ⟨rfl, fun e' h => by cases h⟩

/-- A call of `Write`: destination, value, indentation, header flag. -/
structure Job (σ : Type) where
  d : Dest σ
  s0 : σ
  s : Sch
  v : Val
  indent : Bytes
  hdr : Bool

/-- Where a goroutine is in its call of `WriteXML` (`/repo/mpd/io.go` 59-78). -/
inductive Thread (σ : Type) where
  | ready
  | header (sk : Sink σ)
  | running (st : Enc × Sink σ) (todo : List Call)
  | flushed (st : Enc × Sink σ)
  | done (r : Result σ)

/-- The pool and the goroutines. -/
structure World (ι σ : Type) where
  pool : List Enc
  threads : ι → Thread σ

/-- Steps of goroutines that call `WriteXML` at the same time.  The pool (`sync.Pool`) gives any of its encoders or a new
one, and may forget encoders.  An encoder is used by one goroutine at a time, so that its calls can be taken one by one. -/
inductive Step {ι σ : Type} [DecidableEq ι] (io : FloatIO) (jobs : ι → Job σ) : World ι σ → World ι σ → Prop where
  | forget (l r : List Enc) (e : Enc) (th : ι → Thread σ) : Step io jobs ⟨l ++ e :: r, th⟩ ⟨l ++ r, th⟩
  | header (i : ι) (pool : List Enc) (th : ι → Thread σ) (sk : Sink σ) : th i = .ready →
    writeHeader (jobs i).d ⟨(jobs i).s0, 0, []⟩ (jobs i).hdr = (sk, none) →
    Step io jobs ⟨pool, th⟩ ⟨pool, Function.update th i (.header sk)⟩
  | headerErr (i : ι) (pool : List Enc) (th : ι → Thread σ) (sk : Sink σ) (x : Stop) : th i = .ready →
    writeHeader (jobs i).d ⟨(jobs i).s0, 0, []⟩ (jobs i).hdr = (sk, some x) →
    Step io jobs ⟨pool, th⟩ ⟨pool, Function.update th i (.done ⟨sk, sk.n, some x⟩)⟩
  | reuse (i : ι) (l r : List Enc) (e : Enc) (th : ι → Thread σ) (sk : Sink σ) : th i = .header sk →
    Step io jobs ⟨l ++ e :: r, th⟩ ⟨l ++ r, Function.update th i
      (.running (setIndent (acquire e) [] (jobs i).indent, sk) (walkV io [] none (jobs i).s (jobs i).v))⟩
  | new (i : ι) (pool : List Enc) (th : ι → Thread σ) (sk : Sink σ) : th i = .header sk →
    Step io jobs ⟨pool, th⟩ ⟨pool, Function.update th i
      (.running (setIndent (acquire Enc.fresh) [] (jobs i).indent, sk) (walkV io [] none (jobs i).s (jobs i).v))⟩
  | call (i : ι) (pool : List Enc) (th : ι → Thread σ) (st st' : Enc × Sink σ) (c : Call) (l : List Call) :
    th i = .running st (c :: l) → exec (jobs i).d st c = (st', none) →
    Step io jobs ⟨pool, th⟩ ⟨pool, Function.update th i (.running st' l)⟩
  | callErr (i : ι) (pool : List Enc) (th : ι → Thread σ) (st st' : Enc × Sink σ) (c : Call) (l : List Call) (x : Stop) :
    th i = .running st (c :: l) → exec (jobs i).d st c = (st', some x) →
    Step io jobs ⟨pool, th⟩ ⟨release st'.1 :: pool, Function.update th i (.done ⟨st'.2, st'.2.n, some x⟩)⟩
  | flush (i : ι) (pool : List Enc) (th : ι → Thread σ) (st st' : Enc × Sink σ) :
    th i = .running st [] → encFlush (jobs i).d st = (st', none) →
    Step io jobs ⟨pool, th⟩ ⟨pool, Function.update th i (.flushed st')⟩
  | flushErr (i : ι) (pool : List Enc) (th : ι → Thread σ) (st st' : Enc × Sink σ) (x : Stop) :
    th i = .running st [] → encFlush (jobs i).d st = (st', some x) →
    Step io jobs ⟨pool, th⟩ ⟨release st'.1 :: pool, Function.update th i (.done ⟨st'.2, st'.2.n, some x⟩)⟩
  | finish (i : ι) (pool : List Enc) (th : ι → Thread σ) (st st' : Enc × Sink σ) (x : Option Stop) :
    th i = .flushed st → encFlush (jobs i).d st = (st', x) →
    Step io jobs ⟨pool, th⟩ ⟨release st'.1 :: pool, Function.update th i (.done ⟨st'.2, st'.2.n, x⟩)⟩

section
variable {ι σ : Type} [DecidableEq ι] {io : FloatIO} {jobs : ι → Job σ}

/-- What the call gives when it is alone, with a new encoder. -/
def alone (io : FloatIO) (j : Job σ) : Result σ := (writeXML io j.d j.s0 Enc.fresh j.s j.v j.indent j.hdr).1

/-- A goroutine will end like a call that is alone. -/
def OnTrack (io : FloatIO) (j : Job σ) : Thread σ → Prop
  | .ready => True
  | .header sk => writeHeader j.d ⟨j.s0, 0, []⟩ j.hdr = (sk, none)
  | .running st todo =>
    alone io j = ⟨(encodeFlush j.d st todo).1.2, (encodeFlush j.d st todo).1.2.n, (encodeFlush j.d st todo).2⟩
  | .flushed st => alone io j = ⟨(encFlush j.d st).1.2, (encFlush j.d st).1.2.n, (encFlush j.d st).2⟩
  | .done r => r = alone io j

/-- The invariant: encoders in the pool are fit for it, goroutines are on track. -/
def Good (io : FloatIO) (jobs : ι → Job σ) (w : World ι σ) : Prop :=
  (∀ e ∈ w.pool, Pooled e) ∧ ∀ i, OnTrack io (jobs i) (w.threads i)

theorem good_update {pool pool' : List Enc} {th : ι → Thread σ} (h : Good io jobs ⟨pool, th⟩)
    (hp : ∀ e ∈ pool', Pooled e) (i : ι) {t : Thread σ} (ht : OnTrack io (jobs i) t) :
    Good io jobs ⟨pool', Function.update th i t⟩ := by
  refine ⟨hp, fun j => ?_⟩
  by_cases hj : j = i
  · subst hj
    dsimp only
    rw [Function.update_self]
    exact ht
  · dsimp only
    rw [Function.update_of_ne hj]
    exact h.2 j

theorem good_step {w w' : World ι σ} (h : Good io jobs w) (hs : Step io jobs w w') : Good io jobs w' := by
  have run_start : ∀ (j : Job σ) (sk : Sink σ) (e : Enc), Pooled e → OnTrack io j (.header sk) →
      OnTrack io j (.running (setIndent (acquire e) [] j.indent, sk) (walkV io [] none j.s j.v)) := by
    intro j sk e he hh
    have hh : writeHeader j.d ⟨j.s0, 0, []⟩ j.hdr = (sk, none) := hh
    show alone io j = _
    unfold alone writeXML
    rw [hh, acquire_pooled he, acquire_pooled pooled_fresh]
  have push : ∀ (pool : List Enc) (e : Enc), (∀ e ∈ pool, Pooled e) → ∀ e' ∈ release e :: pool, Pooled e' := by
    intro pool e hp e' he'
    rcases List.mem_cons.mp he' with rfl | he'
    · exact pooled_release _
    · exact hp e' he'
  cases hs with
  | forget l r e th =>
    refine ⟨fun e' he' => h.1 e' ?_, h.2⟩
    simp only [List.mem_append, List.mem_cons] at he' ⊢
    tauto
  | header i pool th sk hi hw => exact good_update h h.1 i hw
  | headerErr i pool th sk x hi hw =>
    refine good_update h h.1 i ?_
    show _ = alone io _
    unfold alone writeXML
    rw [hw]
  | reuse i l r e th sk hi =>
    have hh := h.2 i
    dsimp only at hh
    rw [hi] at hh
    refine good_update h (fun e' he' => h.1 e' ?_) i (run_start _ _ _ (h.1 e (by simp)) hh)
    simp only [List.mem_append, List.mem_cons] at he' ⊢
    tauto
  | new i pool th sk hi =>
    have hh := h.2 i
    dsimp only at hh
    rw [hi] at hh
    exact good_update h h.1 i (run_start _ _ _ pooled_fresh hh)
  | call i pool th st st' c l hi he =>
    have hh := h.2 i
    dsimp only at hh
    rw [hi] at hh
    refine good_update h h.1 i ?_
    have hh : alone io _ = _ := hh
    show alone io _ = _
    rw [hh]
    simp only [encodeFlush, run, he]
  | callErr i pool th st st' c l x hi he =>
    have hh := h.2 i
    dsimp only at hh
    rw [hi] at hh
    refine good_update h (push _ _ h.1) i ?_
    have hh : alone io _ = _ := hh
    show _ = alone io _
    rw [hh]
    simp only [encodeFlush, run, he]
  | flush i pool th st st' hi he =>
    have hh := h.2 i
    dsimp only at hh
    rw [hi] at hh
    refine good_update h h.1 i ?_
    have hh : alone io _ = _ := hh
    show alone io _ = _
    rw [hh]
    simp only [encodeFlush, run, he]
  | flushErr i pool th st st' x hi he =>
    have hh := h.2 i
    dsimp only at hh
    rw [hi] at hh
    refine good_update h (push _ _ h.1) i ?_
    have hh : alone io _ = _ := hh
    show _ = alone io _
    rw [hh]
    simp only [encodeFlush, run, he]
  | finish i pool th st st' x hi he =>
    have hh := h.2 i
    dsimp only at hh
    rw [hi] at hh
    refine good_update h (push _ _ h.1) i ?_
    have hh : alone io _ = _ := hh
    show _ = alone io _
    rw [hh]
    simp only [he]

/-- **C35**, any number of `Write`s at the same time or one after the other: in every state that can be reached from an
empty pool, a call that has ended has the result (destination, count, error) that it would have had alone, with a new
encoder. -/
theorem C35_concurrent {w : World ι σ} (h : Relation.ReflTransGen (Step io jobs) ⟨[], fun _ => .ready⟩ w) (i : ι)
    (r : Result σ) (hr : w.threads i = .done r) : r = alone io (jobs i) := by
  have hg : Good io jobs w := by
    clear hr
    induction h with
    | refl => exact ⟨fun e he => (by cases he), fun _ => trivial⟩
    | tail _ hs ih => exact good_step ih hs
  have := hg.2 i
  rw [hr] at this
  exact this

/-- A call that runs can go on to its end. -/
theorem running_finishes (i : ι) (todo : List Call) : ∀ (pool : List Enc) (th : ι → Thread σ) (st : Enc × Sink σ),
    th i = .running st todo → ∃ pool' r, Relation.ReflTransGen (Step io jobs) ⟨pool, th⟩
      ⟨pool', Function.update th i (.done r)⟩ := by
  induction todo with
  | nil =>
    intro pool th st h
    rcases hf : encFlush (jobs i).d st with ⟨st', _ | x⟩
    · rcases hg : encFlush (jobs i).d st' with ⟨st'', x⟩
      have h1 := Step.flush (io := io) i pool th st st' h hf
      have h2 := Step.finish (io := io) (jobs := jobs) i pool (Function.update th i (.flushed st')) st' st'' x
        (Function.update_self ..) hg
      rw [Function.update_idem] at h2
      exact ⟨_, _, (Relation.ReflTransGen.single h1).tail h2⟩
    · exact ⟨_, _, .single (Step.flushErr i pool th st st' x h hf)⟩
  | cons c l ih =>
    intro pool th st h
    rcases hf : exec (jobs i).d st c with ⟨st', _ | x⟩
    · have h1 := Step.call (io := io) i pool th st st' c l h hf
      obtain ⟨pool', r, h2⟩ := ih pool (Function.update th i (.running st' l)) st' (Function.update_self ..)
      rw [Function.update_idem] at h2
      exact ⟨pool', r, h2.head h1⟩
    · exact ⟨_, _, .single (Step.callErr i pool th st st' c l x h hf)⟩

/-- Every call can be carried out to its end in every state, so that C35 is not empty. -/
theorem ready_finishes (i : ι) (pool : List Enc) (th : ι → Thread σ) (h : th i = .ready) :
    ∃ pool' r, Relation.ReflTransGen (Step io jobs) ⟨pool, th⟩ ⟨pool', Function.update th i (.done r)⟩ := by
  rcases hw : writeHeader (jobs i).d ⟨(jobs i).s0, 0, []⟩ (jobs i).hdr with ⟨sk, _ | x⟩
  · have h1 := Step.header (io := io) i pool th sk h hw
    cases pool with
    | nil =>
      have h2 := Step.new (io := io) (jobs := jobs) i [] (Function.update th i (.header sk)) sk (Function.update_self ..)
      rw [Function.update_idem] at h2
      obtain ⟨pool', r, h3⟩ := running_finishes (io := io) (jobs := jobs) i _ [] _ _
        (Function.update_self i (Thread.running _ (walkV io [] none (jobs i).s (jobs i).v)) th)
      rw [Function.update_idem] at h3
      exact ⟨pool', r, (h3.head h2).head h1⟩
    | cons e l =>
      have h2 := Step.reuse (io := io) (jobs := jobs) i [] l e (Function.update th i (.header sk)) sk (Function.update_self ..)
      rw [Function.update_idem] at h2
      obtain ⟨pool', r, h3⟩ := running_finishes (io := io) (jobs := jobs) i _ ([] ++ l) _ _
        (Function.update_self i (Thread.running _ (walkV io [] none (jobs i).s (jobs i).v)) th)
      rw [Function.update_idem] at h3
      exact ⟨pool', r, (h3.head h2).head h1⟩
  · exact ⟨_, _, .single (Step.headerErr i pool th sk x h hw)⟩

end

/-! ### Examples -/

/-- A destination with room for a number of bytes. -/
def room : Dest Nat := ⟨fun k p => (k - p.length, min k p.length, if k < p.length then some 28 else none)⟩

theorem room_lawful : room.Lawful := by
  refine ⟨fun k p => Nat.min_le_right _ _, fun k p h => ?_⟩
  have : k < p.length := by
    have : min k p.length < p.length := h
    omega
  simp [room, this]

/-- A small type: an element `note` with a text. -/
def noteSch : Sch := .struct (b!"note") none [⟨[], [], [], .chardata, false, 0, none⟩] [.simple .str]

/-- A note. -/
def noteVal : Val := .struct ⟨[], []⟩ [.str (b!"a<b")]

/-- C34 and C36: the document, a destination with enough room, and destinations that fail in the header and in the
document. -/
example (io : FloatIO) :
    writeDoc io noteSch noteVal [] true = .ok (xmlHeader ++ (b!"<note>a&lt;b</note>")) ∧
      (writeXML io room 100 Enc.fresh noteSch noteVal [] true).1.stop = none ∧
      (writeXML io room 100 Enc.fresh noteSch noteVal [] true).1.n = 58 ∧
      (writeXML io room 20 Enc.fresh noteSch noteVal [] true).1.stop = some (.err (.dest 28)) ∧
      (writeXML io room 20 Enc.fresh noteSch noteVal [] true).1.n = 20 ∧
      (writeXML io room 45 Enc.fresh noteSch noteVal [] true).1.stop = some (.err (.dest 28)) ∧
      (writeXML io room 45 Enc.fresh noteSch noteVal [] true).1.n = 45 := by
  refine ⟨?_, ?_, ?_, ?_, ?_, ?_, ?_⟩ <;> krfl

/-- C35: two notes, the first to a destination that is too small and with indentation.  The second call uses the encoder
that the first gave back. -/
example (io : FloatIO) :
    let jobs : Bool → Job Nat := fun b => if b then ⟨room, 100, noteSch, noteVal, [], false⟩
      else ⟨room, 3, noteSch, noteVal, b!"  ", false⟩
    ∃ w, Relation.ReflTransGen (Step io jobs) ⟨[], fun _ => .ready⟩ w ∧
      (∃ r, w.threads false = .done r ∧ r.stop = some (.err (.dest 28)) ∧ r.n = 3) ∧
      (∃ r, w.threads true = .done r ∧ r.stop = none ∧ r.n = 19) := by
  intro jobs
  obtain ⟨p1, r1, h1⟩ := ready_finishes (io := io) (jobs := jobs) false [] (fun _ => .ready) rfl
  obtain ⟨p2, r2, h2⟩ := ready_finishes (io := io) (jobs := jobs) true p1
    (Function.update (fun _ => .ready) false (.done r1)) rfl
  have h := h1.trans h2
  refine ⟨_, h, ⟨r1, rfl, ?_⟩, ⟨r2, rfl, ?_⟩⟩
  · rw [C35_concurrent h false r1 rfl]
    exact ⟨by krfl, by krfl⟩
  · rw [C35_concurrent h true r2 rfl]
    exact ⟨by krfl, by krfl⟩

/-- The contract is needed: a destination that takes nothing at its first call and returns no error loses the header, and
`Write` succeeds. -/
theorem C34_contract_needed (io : FloatIO) : ∃ d : Dest Bool,
    (writeXML io d true Enc.fresh noteSch noteVal [] true).1.stop = none ∧
      accepted (writeXML io d true Enc.fresh noteSch noteVal [] true).1.sink.log = b!"<note>a&lt;b</note>" :=
  ⟨⟨fun first p => (false, if first then 0 else p.length, none)⟩, by krfl, by krfl⟩

end Verif.WriteIO

import Verif.DirectSim
import Verif.MpdSchema
import Verif.KRfl

/-!
C66: reading a manifest the way the Go code does it, token by token from the bytes, with the saved input, gives what
`unmarshalDoc` says; a syntax error names the line that has been reached, and no later line has an influence on it.
-/
namespace Verif.Direct

open Verif.Xml Verif.Bind Verif.Machine

section
variable {n : Nat} {doc : Bytes}

theorem sim_find {α β : Type} (fin : RErr) (hn : doc.length < n) (f : Name × List Attr → TProg β) (res : Except RErr α)
    (good : α → β → Bytes → Dec → Option Bytes → Prop) (K : Nat) : ∀ (ts : List PTok) (c : Bytes) (d : Dec)
    (md : Machine.Mode), ts.length < K → Rel fin ts d → c ++ d.raw.rest = doc → Calm md d.raw.rest →
    (match findStart ts with
      | none => res = .error fin
      | some (nm, as, rest, ts') => ∀ c' d', Rel fin ts' d' → rest = d'.raw.rest → ts'.length < K → c' ++ d'.raw.rest = doc →
          Sim n doc (f (nm, as)) c' d' .fresh none res good) →
    Sim n doc ((findStartP K).bind f) c d md none res good := by
  induction K with
  | zero => intro ts c d md h; omega
  | succ K ih =>
    intro ts c d md hl hr h1 h2 h
    cases ts with
    | nil =>
      unfold Rel at hr
      simp only [findStart] at h
      subst h
      cases fin with
      | syntaxErr e => exact .bind_err (good := fun _ _ _ _ _ => True) (α := Unit) (.token_err hn h1 h2 hr)
      | hang => exact .bind_err (good := fun _ _ _ _ _ => True) (α := Unit) (find_hang hn h1 hr (K + 1) md h2)
      | _ => exact hr.elim
    | cons t ts =>
      obtain ⟨d', ht, hb, ha, hr'⟩ := hr
      rw [List.length_cons] at hl
      unfold findStartP TProg.bind
      refine .token_ok hn h1 h2 ht fun m md' h3 h4 h5 h6 => ?_
      rw [findStart] at h
      cases htok : t.tok with
      | startElement nm as =>
        obtain ⟨rfl, -⟩ := h6 (by rw [htok]; rfl)
        rw [htok] at h
        exact h (c ++ m) d' hr' ha (by omega) h4
      | endElement nm =>
        rw [htok] at h
        refine ih ts (c ++ m) d' md' (by omega) hr' h4 h5 ?_
        cases hfs : findStart ts with
        | none => rw [hfs] at h; exact h
        | some x =>
          rw [hfs] at h
          obtain ⟨nm, as, rest, ts'⟩ := x
          exact fun c' d2 g1 g2 g3 g4 => h c' d2 g1 g2 (by omega) g4
      | charData b =>
        rw [htok] at h
        refine ih ts (c ++ m) d' md' (by omega) hr' h4 h5 ?_
        cases hfs : findStart ts with
        | none => rw [hfs] at h; exact h
        | some x =>
          rw [hfs] at h
          obtain ⟨nm, as, rest, ts'⟩ := x
          exact fun c' d2 g1 g2 g3 g4 => h c' d2 g1 g2 (by omega) g4
      | comment b =>
        rw [htok] at h
        refine ih ts (c ++ m) d' md' (by omega) hr' h4 h5 ?_
        cases hfs : findStart ts with
        | none => rw [hfs] at h; exact h
        | some x =>
          rw [hfs] at h
          obtain ⟨nm, as, rest, ts'⟩ := x
          exact fun c' d2 g1 g2 g3 g4 => h c' d2 g1 g2 (by omega) g4
      | procInst a b =>
        rw [htok] at h
        refine ih ts (c ++ m) d' md' (by omega) hr' h4 h5 ?_
        cases hfs : findStart ts with
        | none => rw [hfs] at h; exact h
        | some x =>
          rw [hfs] at h
          obtain ⟨nm, as, rest, ts'⟩ := x
          exact fun c' d2 g1 g2 g3 g4 => h c' d2 g1 g2 (by omega) g4
      | directive b =>
        rw [htok] at h
        refine ih ts (c ++ m) d' md' (by omega) hr' h4 h5 ?_
        cases hfs : findStart ts with
        | none => rw [hfs] at h; exact h
        | some x =>
          rw [hfs] at h
          obtain ⟨nm, as, rest, ts'⟩ := x
          exact fun c' d2 g1 g2 g3 g4 => h c' d2 g1 g2 (by omega) g4

end

/-- The fuel that is enough for an input. -/
def bound (doc : Bytes) : Nat := 2 * doc.length + 2 * maxDepth + 5

theorem stream_length (k : Nat) : ∀ d : Dec, (stream k d).1.length ≤ k := by
  induction k with
  | zero => intro d; exact Nat.le_refl _
  | succ k ih =>
    intro d
    rw [stream]
    cases token d with
    | error e => exact Nat.zero_le _
    | ok q => exact Nat.succ_le_succ (ih _)

theorem findStart_length (ts : List PTok) : ∀ nm as rest ts', findStart ts = some (nm, as, rest, ts') → ts'.length ≤ ts.length := by
  induction ts with
  | nil => intro nm as rest ts' h; simp [findStart] at h
  | cons t ts ih =>
    intro nm as rest ts' h
    rw [findStart] at h
    split at h
    · simp only [Option.some.injEq, Prod.mk.injEq] at h
      rw [← h.2.2.2]
      exact Nat.le_succ _
    · exact Nat.le_succ_of_le (ih _ _ _ _ h)

theorem decode_sim (io : FloatIO) (s : Sch) (doc : Bytes) (F : Nat) (hF : bound doc ≤ F) :
    Sim F doc (docP io F s) [] (Dec.new doc) .fresh none (unmarshalDoc io s doc)
      fun v w _ _ sv' => w = v ∧ sv' = none := by
  unfold bound at hF
  have hrel := rel_stream (2 * doc.length + 2) (Dec.new doc) (.inl (by show 2 * doc.length + 0 < _; omega))
  have hlen := stream_length (2 * doc.length + 2) (Dec.new doc)
  unfold docP
  refine sim_find (finOf (stream (2 * doc.length + 2) (Dec.new doc)).2) (by omega) _ _ _ F _ [] (Dec.new doc) .fresh
    (by omega) hrel rfl (calm_fresh _) ?_
  have hun : unmarshalDoc io s doc = match findStart (stream (2 * doc.length + 2) (Dec.new doc)).1 with
      | none => .error (finOf (stream (2 * doc.length + 2) (Dec.new doc)).2)
      | some (nm, as, rest, ts) =>
        match unmarshalIn io (finOf (stream (2 * doc.length + 2) (Dec.new doc)).2) (ts.length + 2 * maxDepth + 2) 0 s s.zero
          nm as rest ts with
        | .ok (v, _) => .ok v
        | .error e => .error e := by
    unfold unmarshalDoc
    dsimp only
    cases (stream (2 * doc.length + 2) (Dec.new doc)).2 <;> rfl
  rw [hun]
  cases hf : findStart (stream (2 * doc.length + 2) (Dec.new doc)).1 with
  | none => rfl
  | some x =>
    obtain ⟨nm, as, rest, ts⟩ := x
    have := findStart_length _ _ _ _ _ hf
    dsimp only
    rintro c' d' g1 rfl g3 g4
    have h := (sim_all io (finOf (stream (2 * doc.length + 2) (Dec.new doc)).2) F (n := F) (doc := doc) (by omega)
      (ts.length + 2 * maxDepth + 2)).2.1 F 0 s s.zero nm as ts c' d' none (by omega) g3 g1 g4 (by simp)
    cases hu : unmarshalIn io (finOf (stream (2 * doc.length + 2) (Dec.new doc)).2) (ts.length + 2 * maxDepth + 2) 0 s s.zero
        nm as d'.raw.rest ts with
    | error e => rw [hu] at h; exact h
    | ok a =>
      rw [hu] at h
      obtain ⟨c2, d2, md2, sv2, b, e1, e2, e3, e4, -, -, q, -, e5⟩ := h
      exact ⟨c2, d2, md2, sv2, b, e1, e2, e3, e4, e5⟩

/-- C66: with enough fuel, `Unmarshal` as the Go code does it returns the value that `unmarshalDoc` gives, with nothing left
in the `saved` buffer; or the same error, a syntax error with the line of a place in the input; or does not return, whatever the
fuel. -/
theorem C66_decode (io : FloatIO) (s : Sch) (doc : Bytes) (F : Nat) (hF : bound doc ≤ F) :
    match unmarshalDoc io s doc with
    | .ok v => (decode io F s doc).1 = .ok v ∧ (decode io F s doc).2.d.saved = none
    | .error (.syntaxErr e) => ∃ off, off ≤ doc.length ∧
        (decode io F s doc).1 = .error (.dec (errAt (lineOf (doc.take off)) e)) ∧ (decode io F s doc).2.d.inputOffset = off
    | .error .hang => (decode io F s doc).1 = .error .fuel
    | .error e => (decode io F s doc).1 = .error (.val e) := by
  have h := decode_sim io s doc F hF
  unfold Sim at h
  rw [← new_mk] at h
  cases hu : unmarshalDoc io s doc with
  | ok v =>
    rw [hu] at h
    obtain ⟨c', d', md', sv', w, h1, h2, h3, rfl, rfl⟩ := h
    unfold decode
    rw [h3]
    refine ⟨rfl, ?_⟩
    unfold mk st
    cases d'.raw.rest with
    | nil => rfl
    | cons b r => dsimp only; split <;> rfl
  | error e =>
    rw [hu] at h
    unfold ErrSim at h
    unfold decode
    cases e with
    | fuel => exact absurd hu (unmarshalDoc_ne_fuel io s doc)
    | syntaxErr x =>
      obtain ⟨q, r, md, sv, m, h1, h2, h3⟩ := h
      refine ⟨q.length, by rw [h1, List.length_append]; omega, ?_, ?_⟩
      · rw [h2, h1, List.take_left]; rfl
      · rw [h2]
        show m.d.offset = _
        rw [h3, st_offset]
    | _ => exact h

/-! ### What is not read -/

theorem run_eof {α : Type} (n : Nat) (p : TProg α) (m : M) (h : m.d.eof = true) : (p.run n m).2.d.eof = true := by
  induction p generalizing m with
  | ret a => exact h
  | fail e => exact h
  | token k ih =>
    have h1 := token_eof n m h
    rw [TProg.run]
    cases ht : m.token n with
    | mk r m' =>
      rw [ht] at h1
      cases r with
      | error e => exact h1
      | ok t => exact ih t m' h1
  | save k ih =>
    rw [TProg.run]
    refine ih _ _ ?_
    unfold beginSave
    split <;> exact h
  | offset k ih => exact ih _ m h
  | cut i j k ih =>
    rw [TProg.run]
    refine ih _ _ ?_
    unfold endSave
    dsimp only
    split <;> exact h

theorem beginSave_inp (m : M) : (beginSave m).2.d.inp = m.d.inp := by
  unfold beginSave
  split <;> rfl

theorem endSave_inp (m : M) (i j : Int) : (endSave m i j).2.d.inp = m.d.inp := by
  unfold endSave
  dsimp only
  split <;> rfl

theorem run_length {α : Type} (n : Nat) (p : TProg α) (m : M) : (p.run n m).2.d.inp.length ≤ m.d.inp.length := by
  induction p generalizing m with
  | ret a => exact Nat.le_refl _
  | fail e => exact Nat.le_refl _
  | token k ih =>
    have h1 := token_length n m
    rw [TProg.run]
    cases ht : m.token n with
    | mk r m' =>
      rw [ht] at h1
      cases r with
      | error e => exact h1
      | ok t => exact Nat.le_trans (ih t m') h1
  | save k ih =>
    rw [TProg.run]
    exact Nat.le_trans (ih _ _) (by rw [beginSave_inp])
  | offset k ih => exact ih _ m
  | cut i j k ih =>
    rw [TProg.run]
    exact Nat.le_trans (ih _ _) (by rw [endSave_inp])

theorem beginSave_with (m : M) (s : Bytes) : beginSave (m.with s) = ((beginSave m).1, (beginSave m).2.with s) := by
  unfold beginSave
  rw [show (m.with s).d.saved = m.d.saved from rfl]
  cases m.d.saved <;> rfl

theorem endSave_with (m : M) (s : Bytes) (i j : Int) : endSave (m.with s) i j = ((endSave m i j).1, (endSave m i j).2.with s) := by
  unfold endSave
  rw [show (m.with s).d.saved = m.d.saved from rfl]
  dsimp only
  split <;> rfl

/-- What `unmarshal` has not read has no influence. -/
theorem run_local {α : Type} (n : Nat) (p : TProg α) (m : M) (a b b' : Bytes) (h : m.d.inp = a ++ b)
    (he : (p.run n m).2.d.eof = false) (hl : b.length ≤ (p.run n m).2.d.inp.length) :
    ∃ a', (p.run n m).2.d.inp = a' ++ b ∧ p.run n (m.with (a ++ b')) = ((p.run n m).1, (p.run n m).2.with (a' ++ b')) := by
  induction p generalizing m a with
  | ret x => exact ⟨a, h, rfl⟩
  | fail e => exact ⟨a, h, rfl⟩
  | token k ih =>
    have key : (m.token n).2.d.eof = false ∧ b.length ≤ (m.token n).2.d.inp.length := by
      rw [TProg.run] at he hl
      cases ht : m.token n with
      | mk r m' =>
        rw [ht] at he hl
        cases r with
        | error e => exact ⟨he, hl⟩
        | ok t =>
          refine ⟨?_, Nat.le_trans hl (run_length n _ _)⟩
          cases h5 : m'.d.eof with
          | false => rfl
          | true => dsimp only at he; rw [run_eof n (k t) m' h5] at he; cases he
    obtain ⟨a1, h1, h2⟩ := Machine.token_local n m a b b' h key.1 key.2
    rw [TProg.run] at he hl
    simp only [TProg.run, h2]
    cases ht : m.token n with
    | mk r m' =>
      rw [ht] at he hl h1
      cases r with
      | error e => exact ⟨a1, h1, rfl⟩
      | ok t => exact ih t m' a1 h1 he hl
  | save k ih =>
    simp only [TProg.run, beginSave_with] at he hl ⊢
    exact ih _ _ a (by rw [beginSave_inp]; exact h) he hl
  | offset k ih =>
    rw [TProg.run] at he hl
    exact ih _ m a h he hl
  | cut i j k ih =>
    simp only [TProg.run, endSave_with] at he hl ⊢
    exact ih _ _ a (by rw [endSave_inp]; exact h) he hl

/-- C66: nothing after the line given in a syntax error has an influence on it: an input with the same lines up to that one
gives the same error, whatever follows. -/
theorem C66_local (io : FloatIO) (s : Sch) (a b b' : Bytes) (msg : String) (N : Int) (F : Nat) (hF : bound (a ++ b) ≤ F)
    (ha : N ≤ a.count ch%'\n') (h : (decode io F s (a ++ b)).1 = .error (.dec (.syntaxError msg N))) :
    (decode io F s (a ++ b')).1 = .error (.dec (.syntaxError msg N)) := by
  have hs := decode_sim io s (a ++ b) F hF
  unfold Sim at hs
  rw [← new_mk] at hs
  unfold decode at h ⊢
  cases hu : unmarshalDoc io s (a ++ b) with
  | ok v =>
    rw [hu] at hs
    obtain ⟨c', d', md', sv', w, h1, h2, h3, -, -⟩ := hs
    rw [h3] at h
    cases h
  | error e =>
    rw [hu] at hs
    unfold ErrSim at hs
    cases e with
    | fuel => exact absurd hu (unmarshalDoc_ne_fuel io s _)
    | syntaxErr x =>
      obtain ⟨q, r, md, sv, m, h1, h2, h3⟩ := hs
      rw [h2] at h
      have hN : N = 1 + lf q := by
        cases x with
        | eof => simp [errAt] at h
        | other s => simp [errAt] at h
        | syntaxError s =>
          simp only [errAt, Except.error.injEq, UErr.dec.injEq, Machine.MErr.syntaxError.injEq] at h
          exact h.2.symm
      have hlt : lf q < lf a := by
        have : lf a = a.count ch%'\n' := rfl
        omega
      have key : m.d.eof = false ∧ b.length ≤ m.d.inp.length := by
        rw [h3]
        have hpre : q.length < a.length := by
          rcases Nat.lt_or_ge q.length a.length with h6 | h6
          · exact h6
          · exfalso
            obtain ⟨x, hx⟩ : a <+: q := List.prefix_of_prefix_length_le ⟨b, rfl⟩ ⟨r, h1.symm⟩ h6
            rw [← hx, lf_append] at hlt
            omega
        have hlen : a.length + b.length = q.length + r.length := by
          rw [← List.length_append, h1, List.length_append]
        unfold st
        cases r with
        | nil => simp at hlen; omega
        | cons x r =>
          simp only [List.length_cons] at hlen
          dsimp only
          split
          · exact ⟨rfl, by dsimp only; omega⟩
          · exact ⟨rfl, by simp only [List.length_cons]; omega⟩
      obtain ⟨a', -, h7⟩ := run_local F (docP io F s) (M.new (a ++ b)) a b b' rfl (by rw [h2]; exact key.1)
        (by rw [h2]; exact key.2)
      have h8 : (docP io F s).run F (M.new (a ++ b')) = _ := h7
      rw [h8, h2]
      exact h
    | hang => rw [hs] at h; cases h
    | _ => rw [hs] at h; cases h

/-- C66, of the description with the list of all tokens: the error of an input is that of all inputs with the same lines up to
the one it names. -/
theorem C66_same_error (io : FloatIO) (s : Sch) (a b b' : Bytes) (msg : String) (N : Int) (F : Nat)
    (hF : bound (a ++ b) ≤ F) (hF' : bound (a ++ b') ≤ F) (ha : N ≤ a.count ch%'\n')
    (h : (decode io F s (a ++ b)).1 = .error (.dec (.syntaxError msg N))) :
    unmarshalDoc io s (a ++ b') = .error (.syntaxErr (.syntaxError msg)) := by
  have conv : ∀ (doc : Bytes) (G : Nat), bound doc ≤ G → (decode io G s doc).1 = .error (.dec (.syntaxError msg N)) →
      unmarshalDoc io s doc = .error (.syntaxErr (.syntaxError msg)) := by
    intro doc G hG h1
    have h2 := C66_decode io s doc G hG
    cases hu : unmarshalDoc io s doc with
    | ok v => rw [hu] at h2; rw [h2.1] at h1; cases h1
    | error e =>
      rw [hu] at h2
      cases e with
      | fuel => exact absurd hu (unmarshalDoc_ne_fuel io s _)
      | syntaxErr x =>
        obtain ⟨off, -, h3, -⟩ := h2
        rw [h3] at h1
        cases x with
        | eof => simp [errAt] at h1
        | other s => simp [errAt] at h1
        | syntaxError s =>
          simp only [errAt, Except.error.injEq, UErr.dec.injEq, Machine.MErr.syntaxError.injEq] at h1
          rw [h1.1]
      | hang => rw [h2] at h1; cases h1
      | _ => rw [h2] at h1; cases h1
  exact conv (a ++ b') F hF' (C66_local io s a b b' msg N F hF ha h)

/-- The head of a manifest, in two lines. -/
def head2 : Bytes := b!"<MPD xmlns=\"urn:mpeg:dash:schema:mpd:2011\">\n<Period>\n"

/-- The end tag on line 3 does not match: the error names line 3. -/
example (io : FloatIO) : (decode io 30000 tMPD.sch (head2 ++ (b!"</Perio>\n</MPD>\n"))).1 =
    .error (.dec (.syntaxError "element closed by another" 3)) := by
  krfl

/-- The bound on the fuel holds for it. -/
example : bound (head2 ++ (b!"</Perio>\n</MPD>\n")) ≤ 30000 := by decide +kernel

/-- The saved input of an `Ext` element: the text between its tags, as it was. -/
example (io : FloatIO) : (decode io 30000 tExtType.sch (b!"<Ext>x &lt; <b  c='1'/>\n<!-- y --></Ext>z")).1 =
    .ok (.struct ⟨[], b!"Ext"⟩ [.slice [], .str (b!"x &lt; <b  c='1'/>\n<!-- y -->")]) := by
  krfl

/-- A raw `>` in the content: reading does not end. -/
example (io : FloatIO) : unmarshalDoc io tExtType.sch (b!"<Ext>a > b</Ext>") = .error .hang := by
  krfl

end Verif.Direct

import Verif.Direct
import Verif.MachineProps
import Verif.Truncate

/-!
`Unmarshal` reading token by token (`Verif.Direct`) does what `Verif.Unmarshal` says of the list of all tokens.
-/
namespace Verif.Direct

open Verif.Xml Verif.Bind Verif.Machine

/-! ### Errors of values -/

/-- An error that does not come from the decoder. -/
def Plain : RErr → Bool
  | .syntaxErr _ => false
  | .hang => false
  | .fuel => false
  | _ => true

/-- Only errors that do not come from the decoder. -/
def PL {α} (x : Except RErr α) : Prop := ∀ e, x = .error e → Plain e = true

theorem pl_ok {α} (a : α) : PL (.ok a : Except RErr α) := fun _ h => nomatch h

theorem pl_error {α} (e : RErr) (h : Plain e = true) : PL (.error e : Except RErr α) := fun _ h' => by
  injection h' with h'; exact h' ▸ h

theorem pl_copySimple (io : FloatIO) (k : Kind) (src : Bytes) : PL (copySimple io k src) := by
  unfold copySimple
  cases k <;> dsimp only <;> (try split) <;> (try split) <;> first | exact pl_ok _ | exact pl_error _ rfl

theorem pl_copyValue (io : FloatIO) (s : Sch) (src : Bytes) : PL (copyValue io s src) := by
  unfold copyValue
  split
  · exact pl_copySimple _ _ _
  · split
    · exact pl_ok _
    · rename_i e he; exact pl_error _ (pl_copySimple _ _ _ e he)
  · exact pl_error _ rfl

theorem pl_readSimpleAttr (io : FloatIO) (k : Kind) (src : Bytes) : PL (readSimpleAttr io k src) := by
  unfold readSimpleAttr
  split
  · split <;> first | exact pl_ok _ | exact pl_error _ rfl
  · split
    · exact pl_ok _
    · split <;> first | exact pl_ok _ | exact pl_error _ rfl
  · exact pl_copySimple _ _ _

theorem pl_wrapPtr (x : Except RErr Val) (h : PL x) : PL (wrapPtr x) := by
  cases x with
  | ok w => exact pl_ok _
  | error e => exact pl_error _ (h e rfl)

theorem pl_wrapSlice (l : List Val) (x : Except RErr Val) (h : PL x) : PL (wrapSlice l x) := by
  cases x with
  | ok w => exact pl_ok _
  | error e => exact pl_error _ (h e rfl)

theorem pl_readAttr (io : FloatIO) (a : Attr) : ∀ (s : Sch) (v : Val), PL (readAttr io s v a)
  | .simple k, v => by simp only [Bind.readAttr]; exact pl_readSimpleAttr _ _ _
  | .ptr s, v => by
    cases hp : s.isPtr with
    | false => rw [readAttr_ptr io s v a hp]; exact pl_wrapPtr _ (pl_readAttr io a s _)
    | true =>
      cases s with
      | ptr s' => simp only [Bind.readAttr]; exact pl_error _ rfl
      | _ => simp [Sch.isPtr] at hp
  | .slice s, v => by
    cases v with
    | slice l => rw [readAttr_slice]; exact pl_wrapSlice _ _ (pl_readAttr io a s _)
    | _ => simp only [Bind.readAttr]; exact pl_error _ rfl
  | .name, v => by simp only [Bind.readAttr]; exact pl_error _ rfl
  | .attr, v => by simp only [Bind.readAttr]; exact pl_ok _
  | .struct .., v => by simp only [Bind.readAttr]; exact pl_error _ rfl
  | .bad _, v => by simp only [Bind.readAttr]; exact pl_error _ rfl

theorem pl_updField (infos : List FInfo) (subs : List Sch) (vs : List Val) (i : Nat) (g : Sch → Val → Except RErr Val)
    (h : ∀ s v, PL (g s v)) : PL (updField infos subs vs i g) := by
  unfold updField
  split
  · split
    · exact pl_ok _
    · rename_i e he; exact pl_error _ (h _ _ e he)
  · exact pl_error _ rfl

theorem pl_readAttrs (io : FloatIO) (infos : List FInfo) (subs : List Sch) (as : List Attr) :
    ∀ vs, PL (readAttrs io infos subs vs as) := by
  induction as with
  | nil => intro vs; exact pl_ok _
  | cons a l ih =>
    intro vs
    simp only [readAttrs]
    split
    · exact ih _
    · split
      · rename_i e he; exact pl_error _ (pl_updField _ _ _ _ _ (fun s v => pl_readAttr io a s v) e he)
      · exact ih _

theorem pl_checkName (xn : Option FInfo) (n : Name) : PL (checkName xn n) := by
  unfold checkName
  split
  · exact pl_ok _
  · split
    · exact pl_error _ rfl
    · split
      · exact pl_error _ rfl
      · exact pl_ok _

theorem pl_finishStruct (io : FloatIO) (infos : List FInfo) (subs : List Sch) (vs : List Val) (data inner : Bytes) :
    PL (finishStruct io infos subs vs data inner) := by
  unfold finishStruct
  dsimp only
  have h1 : PL (match modeField infos .chardata with
    | none => (.ok vs : Except RErr (List Val))
    | some i => updField infos subs vs i (fun s _ => copyValue io s data)) := by
    split
    · exact pl_ok _
    · exact pl_updField _ _ _ _ _ (fun s _ => pl_copyValue io s data)
  split
  · rename_i e he; exact pl_error _ (h1 e he)
  · split
    · exact pl_ok _
    · refine pl_updField _ _ _ _ _ (fun s v => ?_)
      split <;> exact pl_ok _

/-! ### Running -/

theorem run_bind {α β : Type} (n : Nat) (p : TProg α) (f : α → TProg β) (m : M) :
    (p.bind f).run n m = match p.run n m with
      | (.ok a, m') => (f a).run n m'
      | (.error e, m') => (.error e, m') := by
  induction p generalizing m with
  | ret a => rfl
  | fail e => rfl
  | token k ih =>
    simp only [TProg.bind, TProg.run]
    cases m.token n with
    | mk r m' =>
      cases r with
      | error e => rfl
      | ok t => exact ih t m'
  | save k ih => simp only [TProg.bind, TProg.run]; exact ih _ _
  | offset k ih => simp only [TProg.bind, TProg.run]; exact ih _ _
  | cut i j k ih => simp only [TProg.bind, TProg.run]; exact ih _ _

/-- The error that the functions predict, and the one that is met. -/
def ErrSim {β : Type} (doc : Bytes) (e : RErr) (out : Except UErr β × M) : Prop :=
  match e with
  | .fuel => True
  | .hang => out.1 = .error .fuel
  | .syntaxErr x => ∃ q r md sv m, doc = q ++ r ∧ out = (.error (.dec (errAt (1 + lf q) x)), m) ∧ m.d = st q r md sv
  | e => out.1 = .error (.val e)

/-- A run from the place `c`, `d` in `doc` does what the functions say (`res`). -/
def Sim {α β : Type} (n : Nat) (doc : Bytes) (p : TProg β) (c : Bytes) (d : Dec) (md : Machine.Mode) (sv : Option Bytes)
    (res : Except RErr α) (good : α → β → Bytes → Dec → Option Bytes → Prop) : Prop :=
  match res with
  | .error e => ErrSim doc e (p.run n (mk c d md sv))
  | .ok a => ∃ c' d' md' sv' b, c' ++ d'.raw.rest = doc ∧ Calm md' d'.raw.rest ∧
      p.run n (mk c d md sv) = (.ok b, mk c' d' md' sv') ∧ good a b c' d' sv'

section
variable {α β γ : Type} {n : Nat} {doc c : Bytes} {d : Dec} {md : Machine.Mode} {sv : Option Bytes}

theorem errSim_map {e : RErr} {out : Except UErr β × M} {out' : Except UErr γ × M} (h : ErrSim doc e out)
    (hm : ∀ x, out.1 = .error x → out' = (.error x, out.2)) : ErrSim doc e out' := by
  unfold ErrSim at h ⊢
  split
  · trivial
  · rw [hm _ h]
  · obtain ⟨q, r, md, sv, m, h1, h2, h3⟩ := h
    exact ⟨q, r, md, sv, m, h1, by rw [hm _ (by rw [h2]), h2], h3⟩
  · cases e <;> first | (exfalso; simp_all; done) | (rw [hm _ h])

theorem errSim_plain {e : RErr} {m : M} (h : Plain e = true) : ErrSim doc e ((.error (.val e) : Except UErr β), m) := by
  unfold ErrSim
  cases e <;> first | rfl | (simp [Plain] at h)

theorem Sim.val {e : RErr} {good : α → β → Bytes → Dec → Option Bytes → Prop} (h : Plain e = true) :
    Sim n doc (.fail (.val e) : TProg β) c d md sv (.error e) good := errSim_plain h

theorem Sim.ret {a : α} {b : β} {good : α → β → Bytes → Dec → Option Bytes → Prop} (h1 : c ++ d.raw.rest = doc)
    (h2 : Calm md d.raw.rest) (h : good a b c d sv) : Sim n doc (.ret b) c d md sv (.ok a) good :=
  ⟨c, d, md, sv, b, h1, h2, rfl, h⟩

theorem Sim.bind_err {p : TProg β} {f : β → TProg γ} {e : RErr} {good : α → β → Bytes → Dec → Option Bytes → Prop}
    {α' : Type} {good' : α' → γ → Bytes → Dec → Option Bytes → Prop} (h : Sim n doc p c d md sv (.error e) good) :
    Sim n doc (p.bind f) c d md sv (.error e) good' := by
  unfold Sim at h ⊢
  dsimp only at h ⊢
  refine errSim_map h fun x hx => ?_
  rw [run_bind]
  cases hr : p.run n (mk c d md sv) with
  | mk r m' => rw [hr] at hx; dsimp only at hx; subst hx; rfl

theorem Sim.bind_ok {p : TProg β} {f : β → TProg γ} {a : α} {good : α → β → Bytes → Dec → Option Bytes → Prop}
    {α' : Type} {res : Except RErr α'} {good' : α' → γ → Bytes → Dec → Option Bytes → Prop}
    (h : Sim n doc p c d md sv (.ok a) good)
    (h2 : ∀ c' d' md' sv' b, c' ++ d'.raw.rest = doc → Calm md' d'.raw.rest → good a b c' d' sv' →
      Sim n doc (f b) c' d' md' sv' res good') :
    Sim n doc (p.bind f) c d md sv res good' := by
  obtain ⟨c', d', md', sv', b, h3, h4, h5, h6⟩ := h
  have h7 := h2 c' d' md' sv' b h3 h4 h6
  have : (p.bind f).run n (mk c d md sv) = (f b).run n (mk c' d' md' sv') := by rw [run_bind, h5]
  unfold Sim at h7 ⊢
  rw [this]
  exact h7

theorem Sim.mono {p : TProg β} {res : Except RErr α} {good good' : α → β → Bytes → Dec → Option Bytes → Prop}
    (h : Sim n doc p c d md sv res good) (hg : ∀ a b c' d' sv', good a b c' d' sv' → good' a b c' d' sv') :
    Sim n doc p c d md sv res good' := by
  unfold Sim at h ⊢
  cases res with
  | error e => exact h
  | ok a =>
    obtain ⟨c', d', md', sv', b, h3, h4, h5, h6⟩ := h
    exact ⟨c', d', md', sv', b, h3, h4, h5, hg _ _ _ _ _ h6⟩

theorem Sim.token_err {k : Token → TProg β} {e : XErr} {good : α → β → Bytes → Dec → Option Bytes → Prop}
    (hn : doc.length < n) (h1 : c ++ d.raw.rest = doc) (h2 : Calm md d.raw.rest) (h : token d = .error e) :
    Sim n doc (.token k) c d md sv (.error (.syntaxErr e)) good := by
  have hl : d.raw.rest.length < n := by rw [← h1, List.length_append] at hn; omega
  have hs := token_sim n c d md sv hl h2
  rw [h] at hs
  obtain ⟨m, r, md', m', h3, h4, h5⟩ := hs
  refine ⟨c ++ m, r, md', _, m', ?_, ?_, h5⟩
  · rw [List.append_assoc, ← h3, h1]
  · rw [TProg.run, h4]

/-- Whether a token is a start element. -/
def startTok : Token → Bool
  | .startElement _ _ => true
  | _ => false

/-- A start element leaves nothing put back, and is not empty. -/
theorem token_start (hn : d.raw.rest.length < n) {nm : Name} {as : List Attr} {d' : Dec}
    (h : token d = .ok (.startElement nm as, d')) : ∃ m, d.raw.rest = m ++ d'.raw.rest ∧ m ≠ [] ∧
      (mk c d md sv).token n = (.ok (.startElement nm as), mk (c ++ m) d' .fresh (sv.map (· ++ m))) := by
  unfold token at h
  cases hr : rawToken d.raw with
  | error e => rw [hr] at h; simp at h
  | ok q =>
    obtain ⟨t, raw⟩ := q
    rw [hr] at h
    dsimp only at h
    cases hk : cook t d.ns d.stk with
    | error e => rw [hk] at h; simp at h
    | ok q2 =>
      obtain ⟨t', x⟩ := q2
      rw [hk] at h
      simp only [Except.ok.injEq, Prod.mk.injEq] at h
      obtain ⟨rfl, h2⟩ := h
      obtain ⟨nm', as', rfl⟩ := cook_start hk
      have hr' : rawToken ⟨d.raw.rest, d.raw.toClose⟩ = .ok (.startElement nm' as', raw) := hr
      obtain ⟨m, md', h6, h7, h8⟩ := sim_rawToken_start n d.raw.toClose md c d.raw.rest hn hr' sv
      cases h7
      refine ⟨m, by rw [← h2]; exact h6, ?_, ?_⟩
      · rintro rfl
        rcases rawToken_progress _ _ _ hr with h9 | ⟨_, _, h9⟩
        · obtain ⟨b, r, h10, _⟩ := rawToken_start hr'
          unfold Raw.size at h9
          rw [h6, h10] at h9
          simp at h9
        · cases h9
      · unfold M.token
        simp only [mk]
        rw [h8]
        dsimp only
        rw [hk, ← h2]

theorem Sim.token_ok {k : Token → TProg β} {t : Token} {d' : Dec} {res : Except RErr α}
    {good : α → β → Bytes → Dec → Option Bytes → Prop}
    (hn : doc.length < n) (h1 : c ++ d.raw.rest = doc) (h2 : Calm md d.raw.rest) (h : token d = .ok (t, d'))
    (hk : ∀ m md', d.raw.rest = m ++ d'.raw.rest → (c ++ m) ++ d'.raw.rest = doc → Calm md' d'.raw.rest →
      (startTok t = true → md' = .fresh ∧ m ≠ []) → Sim n doc (k t) (c ++ m) d' md' (sv.map (· ++ m)) res good) :
    Sim n doc (.token k) c d md sv res good := by
  have hl : d.raw.rest.length < n := by rw [← h1, List.length_append] at hn; omega
  have key : ∃ m md', d.raw.rest = m ++ d'.raw.rest ∧ Calm md' d'.raw.rest ∧ (startTok t = true → md' = .fresh ∧ m ≠ []) ∧
      (mk c d md sv).token n = (.ok t, mk (c ++ m) d' md' (sv.map (· ++ m))) := by
    by_cases ht : startTok t = true
    · cases t with
      | startElement nm as =>
        obtain ⟨m, h3, h4, h5⟩ := token_start (c := c) (md := md) (sv := sv) hl h
        exact ⟨m, .fresh, h3, calm_fresh _, fun _ => ⟨rfl, h4⟩, h5⟩
      | _ => simp [startTok] at ht
    · have hs := token_sim n c d md sv hl h2
      rw [h] at hs
      obtain ⟨m, md', h3, h4, h5⟩ := hs
      exact ⟨m, md', h3, h4, fun h6 => absurd h6 ht, h5⟩
  obtain ⟨m, md', h3, h4, h5, h6⟩ := key
  have h7 := hk m md' h3 (by rw [List.append_assoc, ← h3, h1]) h4 h5
  have : (TProg.token k).run n (mk c d md sv) = (k t).run n (mk (c ++ m) d' md' (sv.map (· ++ m))) := by
    rw [TProg.run, h6]
  unfold Sim at h7 ⊢
  rw [this]
  exact h7

end

/-! ### Token lists -/

/-- The list `ts` holds the tokens to come from `d` on, up to the error or the endless loop `fin`. -/
def Rel (fin : RErr) : List PTok → Dec → Prop
  | [], d =>
    match fin with
    | .syntaxErr e => token d = .error e
    | .hang => Stuck d.raw
    | _ => False
  | t :: ts, d => ∃ d', token d = .ok (t.tok, d') ∧ t.before = d.raw.rest ∧ t.after = d'.raw.rest ∧ Rel fin ts d'

/-- How a list of tokens ends. -/
def finOf : Option XErr → RErr
  | some e => .syntaxErr e
  | none => .hang

theorem rel_stream (k : Nat) : ∀ d : Dec, d.raw.size < k ∨ Stuck d.raw → Rel (finOf (stream k d).2) (stream k d).1 d := by
  induction k with
  | zero =>
    intro d h
    rcases h with h | h
    · omega
    · exact h
  | succ k ih =>
    intro d h
    cases ht : token d with
    | error e => simp only [stream, ht]; exact ht
    | ok q =>
      obtain ⟨t, d'⟩ := q
      simp only [stream, ht]
      refine ⟨d', ht, rfl, rfl, ih d' ?_⟩
      by_cases hs : Stuck d.raw
      · rw [token_stuck d hs] at ht
        simp only [Except.ok.injEq, Prod.mk.injEq] at ht
        rw [← ht.2]
        exact .inr hs
      · have := (token_progress d t d' ht hs).1
        rcases h with h | h
        · exact .inl (by omega)
        · exact absurd h hs

section
variable {n : Nat} {doc c : Bytes} {d : Dec} {md : Machine.Mode} {sv : Option Bytes}

/-- In the endless loop nothing is read. -/
theorem token_hang (hn : doc.length < n) (h1 : c ++ d.raw.rest = doc) (h2 : Calm md d.raw.rest) (hs : Stuck d.raw) :
    ∃ md', Calm md' d.raw.rest ∧ (mk c d md sv).token n = (.ok (.charData []), mk c d md' sv) := by
  have hl : d.raw.rest.length < n := by rw [← h1, List.length_append] at hn; omega
  have h := token_sim n c d md sv hl h2
  rw [token_stuck d hs] at h
  obtain ⟨m, md', h3, h4, h5⟩ := h
  have : m = [] := List.append_left_eq_self.1 h3.symm
  subst this
  rw [map_nil, List.append_nil] at h5
  exact ⟨md', h4, h5⟩

theorem skip_hang (hn : doc.length < n) (h1 : c ++ d.raw.rest = doc) (hs : Stuck d.raw) (K : Nat) : ∀ (j : Nat)
    (md : Machine.Mode), Calm md d.raw.rest → ((skipP K j).run n (mk c d md sv)).1 = .error .fuel := by
  induction K with
  | zero => intro j md h2; rfl
  | succ K ih =>
    intro j md h2
    obtain ⟨md', h3, h4⟩ := token_hang (sv := sv) hn h1 h2 hs
    unfold skipP
    rw [TProg.run, h4]
    exact ih j md' h3

theorem find_hang (hn : doc.length < n) (h1 : c ++ d.raw.rest = doc) (hs : Stuck d.raw) (K : Nat) : ∀ (md : Machine.Mode),
    Calm md d.raw.rest → ((findStartP K).run n (mk c d md sv)).1 = .error .fuel := by
  induction K with
  | zero => intro md h2; rfl
  | succ K ih =>
    intro md h2
    obtain ⟨md', h3, h4⟩ := token_hang (sv := sv) hn h1 h2 hs
    rw [findStartP, TProg.run, h4]
    exact ih md' h3

theorem run_offsetIf {α : Type} (save : Option Int) (k : Int → TProg α) (m : M) :
    ∃ off, (save ≠ none → off = m.d.savedOffset) ∧ (offsetIf save k).run n m = (k off).run n m := by
  cases save with
  | none => exact ⟨0, fun h => absurd rfl h, rfl⟩
  | some i => exact ⟨m.d.savedOffset, fun _ => rfl, rfl⟩

theorem content_hang (hn : doc.length < n) (h1 : c ++ d.raw.rest = doc) (hs : Stuck d.raw) (io : FloatIO) (K : Nat) (F : Nat) :
    ∀ (j : Nat) (infos : List FInfo) (subs : List Sch) (save : Option Int) (vs : List Val) (data : Bytes)
    (md : Machine.Mode), Calm md d.raw.rest →
      ((contentP io K F j infos subs save vs data).run n (mk c d md sv)).1 = .error .fuel := by
  induction F with
  | zero => intro j infos subs save vs data md h2; rw [contentP]; rfl
  | succ F ih =>
    intro j infos subs save vs data md h2
    obtain ⟨md', h3, h4⟩ := token_hang (sv := sv) hn h1 h2 hs
    rw [contentP]
    obtain ⟨off, -, ho⟩ := run_offsetIf (n := n) save (fun off => _) (mk c d md sv)
    rw [ho, TProg.run, h4]
    exact ih _ _ _ _ _ _ md' h3

/-- What follows from skipping. -/
def skipRes (fin : RErr) : Option (List PTok) → Except RErr (List PTok)
  | none => .error fin
  | some ts => .ok ts

theorem sim_skip (fin : RErr) (hn : doc.length < n) (K : Nat) : ∀ (ts : List PTok) (j : Nat) (c : Bytes) (d : Dec)
    (md : Machine.Mode) (sv : Option Bytes), ts.length < K → Rel fin ts d → c ++ d.raw.rest = doc → Calm md d.raw.rest →
    Sim n doc (skipP K j) c d md sv (skipRes fin (skip j ts)) fun ts' _ c' d' sv' => Rel fin ts' d' ∧
      ts'.length ≤ ts.length ∧ ∃ q, c' = c ++ q ∧ sv' = sv.map (· ++ q) := by
  induction K with
  | zero => intro ts j c d md sv h; omega
  | succ K ih =>
    intro ts j c d md sv hl hr h1 h2
    cases ts with
    | nil =>
      unfold Rel at hr
      simp only [skip, skipRes]
      cases fin with
      | syntaxErr e => exact .token_err hn h1 h2 hr
      | hang => exact skip_hang hn h1 hr (K + 1) j md h2
      | _ => exact hr.elim
    | cons t ts =>
      obtain ⟨d', ht, hb, ha, hr'⟩ := hr
      rw [List.length_cons] at hl
      unfold skipP
      refine .token_ok hn h1 h2 ht fun m md' h3 h4 h5 h6 => ?_
      have step : ∀ j', Sim n doc (skipP K j') (c ++ m) d' md' (sv.map (· ++ m)) (skipRes fin (skip j' ts))
          fun ts' _ c' d' sv' => Rel fin ts' d' ∧ ts'.length ≤ (t :: ts).length ∧ ∃ q, c' = c ++ q ∧ sv' = sv.map (· ++ q) := by
        intro j'
        refine (ih ts j' (c ++ m) d' md' (sv.map (· ++ m)) (by omega) hr' h4 h5).mono ?_
        rintro a b c' d2 sv' ⟨g1, g2, q, g3, g4⟩
        refine ⟨g1, by rw [List.length_cons]; omega, m ++ q, by rw [g3, List.append_assoc], by rw [g4, map_map]⟩
      unfold skip
      cases htok : t.tok with
      | startElement nm as => exact step (j + 1)
      | endElement nm =>
        cases j with
        | zero =>
          exact .ret h4 h5 ⟨hr', by rw [List.length_cons]; omega, m, rfl, rfl⟩
        | succ j => exact step j
      | charData b => exact step j
      | comment b => exact step j
      | procInst a b => exact step j
      | directive b => exact step j

end

/-! ### Elements -/

/-- Where saving began: `save` is the number of bytes then saved, `c0` what had been read. -/
def SaveOk (c0 : Bytes) (save : Option Int) (c : Bytes) (sv : Option Bytes) : Prop :=
  match save with
  | none => sv ≠ some []
  | some i => ∃ v0 q, sv = some (v0 ++ q) ∧ c = c0 ++ q ∧ i = (v0.length : Nat)

/-- What `unmarshal` leaves. -/
def GoodU (fin : RErr) (ts : List PTok) (c : Bytes) (sv : Option Bytes) (a : Val × List PTok) (b : Val) (c' : Bytes) (d' : Dec)
    (sv' : Option Bytes) : Prop :=
  b = a.1 ∧ Rel fin a.2 d' ∧ a.2.length ≤ ts.length ∧ ∃ q, c' = c ++ q ∧ sv' = sv.map (· ++ q)

/-- What the loop over the content leaves. -/
def GoodC (fin : RErr) (ts : List PTok) (rest : Bytes) (save : Option Int) (c : Bytes) (sv : Option Bytes) (a : Content)
    (b : List Val × Bytes × Bytes) (c' : Bytes) (d' : Dec) (sv' : Option Bytes) : Prop :=
  b.1 = a.vs ∧ b.2.1 = a.data ∧ (save ≠ none → b.2.2 = rest.take (rest.length - a.before.length)) ∧
    Rel fin a.toks d' ∧ a.toks.length ≤ ts.length ∧
    ∃ q, c' = c ++ q ∧ sv' = if save = some 0 then none else sv.map (· ++ q)

section
variable {n : Nat} {doc : Bytes}

theorem saveOk_step {c0 c m : Bytes} {save : Option Int} {sv : Option Bytes} (h : SaveOk c0 save c sv)  :
    SaveOk c0 save (c ++ m) (sv.map (· ++ m)) := by
  unfold SaveOk at h ⊢
  cases save with
  | none =>
    dsimp only at h ⊢
    cases sv with
    | none => simp
    | some v => simp only [ne_eq, Option.some.injEq] at h; simp [h]
  | some i =>
    obtain ⟨v0, q, rfl, rfl, h3⟩ := h
    exact ⟨v0, q ++ m, by simp, by simp, h3⟩

theorem map_ne_nil {sv : Option Bytes} {m : Bytes} (h : m ≠ []) : sv.map (· ++ m) ≠ some [] := by
  cases sv <;> simp [h]

/-- Cutting out what was saved. -/
theorem endSave_mk {c m v0 q : Bytes} {d : Dec} {md : Machine.Mode} :
    endSave (mk c d md (some (v0 ++ q ++ m))) (v0.length : Nat) ((v0 ++ q).length : Nat) =
      (q, mk c d md (if ((v0.length : Nat) : Int) = 0 then none else some (v0 ++ q ++ m))) := by
  obtain ⟨p, h1, -⟩ := st_saved c d.raw.rest md (v0 ++ q ++ m)
  unfold endSave mk
  rw [Prod.mk.injEq]
  constructor
  · rw [h1]
    simp only [Option.getD_some, Int.toNat_natCast]
    rw [List.append_assoc (v0 ++ q), List.take_left, List.drop_left]
  · by_cases h : ((v0.length : Nat) : Int) = 0
    · rw [if_pos h, if_pos h]
      unfold st
      cases d.raw.rest with
      | nil => rfl
      | cons b r => dsimp only; split <;> rfl
    · rw [if_neg h, if_neg h]

theorem beginSave_mk {c : Bytes} {d : Dec} {sv : Option Bytes} (h : sv ≠ some []) :
    ∃ i sv', beginSave (mk c d .fresh sv) = (i, mk c d .fresh sv') ∧ SaveOk c (some i) c sv' ∧
      ∀ q, (if (some i : Option Int) = some 0 then none else sv'.map (· ++ q)) = sv.map (· ++ q) := by
  cases sv with
  | none =>
    refine ⟨0, some [], ?_, ⟨[], [], rfl, by simp, rfl⟩, fun q => rfl⟩
    unfold beginSave mk
    simp only [st_fresh]
  | some v =>
    have hv : v ≠ [] := fun h2 => h (by rw [h2])
    refine ⟨(v.length : Nat), some v, ?_, ⟨v, [], by simp, by simp, rfl⟩, fun q => ?_⟩
    · obtain ⟨p, h1, h2⟩ := st_saved c d.raw.rest .fresh v
      unfold beginSave
      have h3 : (mk c d .fresh (some v)).d.saved = some (v ++ p) := h1
      rw [h3]
      dsimp only
      rw [Prod.mk.injEq]
      exact ⟨h2, rfl⟩
    · rw [if_neg]
      intro h2
      have h3 : ((v.length : Nat) : Int) = 0 := by injection h2
      exact hv (List.length_eq_zero_iff.1 (by omega))

theorem sim_offsetIf {α β : Type} {save : Option Int} {k : Int → TProg β} {c : Bytes} {d : Dec} {md : Machine.Mode}
    {sv : Option Bytes} {res : Except RErr α} {good : α → β → Bytes → Dec → Option Bytes → Prop}
    (h : ∀ off, (save ≠ none → off = (mk c d md sv).d.savedOffset) → Sim n doc (k off) c d md sv res good) :
    Sim n doc (offsetIf save k) c d md sv res good := by
  obtain ⟨off, h1, h2⟩ := run_offsetIf (n := n) save k (mk c d md sv)
  have h3 := h off h1
  unfold Sim at h3 ⊢
  rw [h2]
  exact h3

theorem sim_end {fin : RErr} {t : PTok} {ts : List PTok} {c0 c m rest : Bytes} {save : Option Int} {d d' : Dec}
    {md md' : Machine.Mode} {sv : Option Bytes} {vs : List Val} {data : Bytes} {off : Int}
    (h0 : save ≠ none → c0 ++ rest = doc) (h1 : c ++ d.raw.rest = doc) (hb : t.before = d.raw.rest)
    (h3 : (c ++ m) ++ d'.raw.rest = doc) (h4 : Calm md' d'.raw.rest) (hs : SaveOk c0 save c sv)
    (ho : save ≠ none → off = (mk c d md sv).d.savedOffset) (hr : Rel fin ts d') :
    Sim n doc (cutIf save off fun inner => .ret (vs, data, inner)) (c ++ m) d' md' (sv.map (· ++ m))
      (.ok (⟨vs, data, t.before, ts⟩ : Content)) (GoodC fin (t :: ts) rest save c sv) := by
  cases save with
  | none =>
    refine .ret h3 h4 ⟨rfl, rfl, fun h => absurd rfl h, hr, ?_, m, rfl, rfl⟩
    exact Nat.le_succ _
  | some i =>
    obtain ⟨v0, q, rfl, rfl, rfl⟩ := hs
    have hoff : off = ((v0 ++ q).length : Nat) := by
      rw [ho (by simp)]
      exact (st_saved _ d.raw.rest md (v0 ++ q)).choose_spec.2
    subst hoff
    refine ⟨c0 ++ q ++ m, d', md', _, (vs, data, q), h3, h4, ?_, rfl, rfl, fun _ => ?_, hr, ?_, m, rfl, rfl⟩
    · show ((TProg.cut _ _ _).run n _) = _
      rw [TProg.run, Option.map_some, endSave_mk]
      rw [TProg.run]
      congr 1
      by_cases h : ((v0.length : Nat) : Int) = 0
      · rw [if_pos h, if_pos (by rw [h])]
      · rw [if_neg h, if_neg (by intro h2; exact h (by injection h2))]
    · have h5 : rest = q ++ d.raw.rest := by
        have := (h0 (by simp)).trans h1.symm
        rw [List.append_assoc] at this
        exact List.append_cancel_left this
      dsimp only
      rw [hb, h5, List.length_append, Nat.add_sub_cancel, List.take_left]
    · exact Nat.le_succ _

end

section
variable {n : Nat} {doc : Bytes}

theorem sim_saveIf {α β : Type} {infos : List FInfo} {k : Option Int → TProg β} {c : Bytes} {d : Dec}
    {sv : Option Bytes} {res : Except RErr α} {good : α → β → Bytes → Dec → Option Bytes → Prop} (hsv : sv ≠ some [])
    (h : ∀ save sv', SaveOk c save c sv' → (save = none → modeField infos .innerxml = none) →
      (∀ q, (if save = some 0 then none else sv'.map (· ++ q)) = sv.map (· ++ q)) →
      Sim n doc (k save) c d .fresh sv' res good) :
    Sim n doc (saveIf infos k) c d .fresh sv res good := by
  unfold saveIf
  cases hm : modeField infos .innerxml with
  | none => exact h none sv hsv (fun _ => hm) fun q => rfl
  | some x =>
    obtain ⟨i, sv', h1, h2, h3⟩ := beginSave_mk (c := c) (d := d) hsv
    have h4 := h (some i) sv' h2 (fun h => nomatch h) h3
    have : (TProg.save fun i => k (some i)).run n (mk c d .fresh sv) = (k (some i)).run n (mk c d .fresh sv') := by
      rw [TProg.run, h1]
    unfold Sim at h4 ⊢
    dsimp only
    rw [this]
    exact h4

theorem finish_inner (io : FloatIO) (infos : List FInfo) (subs : List Sch) (vs : List Val) (data a b : Bytes)
    (h : modeField infos .innerxml = none) : finishStruct io infos subs vs data a = finishStruct io infos subs vs data b := by
  unfold finishStruct
  rw [h]

theorem sim_all (io : FloatIO) (fin : RErr) (K : Nat) (hn : doc.length < n) : ∀ f : Nat,
    (∀ (F j : Nat) (s : Sch) (v : Val) (nm : Name) (as : List Attr) (ts : List PTok) (c : Bytes) (d : Dec) (sv : Option Bytes),
      f ≤ F → ts.length < K → Rel fin ts d → c ++ d.raw.rest = doc → sv ≠ some [] →
      Sim n doc (unmarshalP io K F j s v nm as) c d .fresh sv (unmarshal io fin f j s v nm as d.raw.rest ts)
        (GoodU fin ts c sv)) ∧
    (∀ (F j : Nat) (s : Sch) (v : Val) (nm : Name) (as : List Attr) (ts : List PTok) (c : Bytes) (d : Dec) (sv : Option Bytes),
      f ≤ F → ts.length < K → Rel fin ts d → c ++ d.raw.rest = doc → sv ≠ some [] →
      Sim n doc (unmarshalInP io K F j s v nm as) c d .fresh sv (unmarshalIn io fin f j s v nm as d.raw.rest ts)
        (GoodU fin ts c sv)) ∧
    (∀ (F j : Nat) (infos : List FInfo) (subs : List Sch) (vs : List Val) (data : Bytes) (ts : List PTok) (c0 rest : Bytes)
      (save : Option Int) (c : Bytes) (d : Dec) (md : Machine.Mode) (sv : Option Bytes),
      f ≤ F → ts.length < K → Rel fin ts d → c ++ d.raw.rest = doc → Calm md d.raw.rest →
      (save ≠ none → c0 ++ rest = doc) → SaveOk c0 save c sv →
      Sim n doc (contentP io K F j infos subs save vs data) c d md sv (content io fin f j infos subs vs data ts)
        (GoodC fin ts rest save c sv)) := by
  intro f
  induction f with
  | zero =>
    refine ⟨?_, ?_, ?_⟩
    · intros; rw [unmarshal]; trivial
    · intros; rw [unmarshalIn]; trivial
    · intros; rw [content]; trivial
  | succ f ih =>
    obtain ⟨ihu, ihi, ihc⟩ := ih
    refine ⟨?_, ?_, ?_⟩
    · intro F j s v nm as ts c d sv hF hK hr h1 hsv
      obtain ⟨F, rfl⟩ : ∃ k, F = k + 1 := ⟨F - 1, by omega⟩
      unfold unmarshalP unmarshal
      by_cases hd : maxDepth ≤ j
      · rw [if_pos hd, if_pos hd]
        exact .val rfl
      rw [if_neg hd, if_neg hd]
      cases hp : s.isPtr with
      | true =>
        cases s with
        | ptr s' =>
          dsimp only
          have h := ihi F j s' (v.deref s') nm as ts c d sv (by omega) hK hr h1 hsv
          cases hu : unmarshalIn io fin f j s' (v.deref s') nm as d.raw.rest ts with
          | error e => rw [hu] at h; exact h.bind_err
          | ok a =>
            rw [hu] at h
            obtain ⟨w, ts'⟩ := a
            refine h.bind_ok fun c' d' md' sv' b h2 h3 h4 => ?_
            obtain ⟨rfl, h5, h6, h7⟩ := h4
            exact .ret h2 h3 ⟨rfl, h5, h6, h7⟩
        | _ => simp [Sch.isPtr] at hp
      | false =>
        have h := ihi F j s v nm as ts c d sv (by omega) hK hr h1 hsv
        cases s with
        | ptr s' => simp [Sch.isPtr] at hp
        | _ => exact h
    · intro F j s v nm as ts c d sv hF hK hr h1 hsv
      obtain ⟨F, rfl⟩ : ∃ k, F = k + 1 := ⟨F - 1, by omega⟩
      unfold unmarshalInP unmarshalIn
      split
      · next s' l =>
        dsimp only
        have h := ihu F (j + 1) s' s'.zero nm as ts c d sv (by omega) hK hr h1 hsv
        cases hu : unmarshal io fin f (j + 1) s' s'.zero nm as d.raw.rest ts with
        | error e => rw [hu] at h; exact h.bind_err
        | ok a =>
          rw [hu] at h
          obtain ⟨w, ts'⟩ := a
          refine h.bind_ok fun c' d' md' sv' b h2 h3 h4 => ?_
          obtain ⟨rfl, h5, h6, h7⟩ := h4
          exact .ret h2 h3 ⟨rfl, h5, h6, h7⟩
      · next k =>
        dsimp only
        have h := ihc F j [] [] [] [] ts c [] none c d .fresh sv (by omega) hK hr h1 (calm_fresh _)
          (fun h => absurd rfl h) hsv
        cases hu : content io fin f j [] [] [] [] ts with
        | error e => rw [hu] at h; exact h.bind_err
        | ok a =>
          rw [hu] at h
          refine h.bind_ok fun c' d' md' sv' b h2 h3 h4 => ?_
          obtain ⟨g1, g2, -, g3, g4, g5⟩ := h4
          dsimp only
          rw [g2]
          cases hk : copySimple io k a.data with
          | error e => exact .val (pl_copySimple _ _ _ e hk)
          | ok w => exact .ret h2 h3 ⟨rfl, g3, g4, g5⟩
      · next xn infos subs xv vs =>
        dsimp only
        cases hc : checkName xn nm with
        | error e => exact .val (pl_checkName _ _ e hc)
        | ok u =>
          cases ha : readAttrs io infos subs vs as with
          | error e => exact .val (pl_readAttrs _ _ _ _ _ e ha)
          | ok vs1 =>
            dsimp only [lift]
            refine sim_saveIf hsv fun save sv0 hs hm hq => ?_
            have h := ihc F j infos subs vs1 [] ts c d.raw.rest save c d .fresh sv0 (by omega) hK hr h1 (calm_fresh _)
              (fun _ => h1) hs
            cases hu : content io fin f j infos subs vs1 [] ts with
            | error e => rw [hu] at h; exact h.bind_err
            | ok a =>
              rw [hu] at h
              refine h.bind_ok fun c' d' md' sv' b h2 h3 h4 => ?_
              obtain ⟨g1, g2, g3, g4, g5, q, g6, g7⟩ := h4
              have hf : finishStruct io infos subs b.1 b.2.1 b.2.2 =
                  finishStruct io infos subs a.vs a.data (d.raw.rest.take (d.raw.rest.length - a.before.length)) := by
                rw [g1, g2]
                by_cases hs0 : save = none
                · exact finish_inner _ _ _ _ _ _ _ (hm hs0)
                · rw [g3 hs0]
              rw [hf]
              dsimp only
              cases hk : finishStruct io infos subs a.vs a.data (d.raw.rest.take (d.raw.rest.length - a.before.length)) with
              | error e => exact .val (pl_finishStruct _ _ _ _ _ _ e hk)
              | ok vs2 => exact .ret h2 h3 ⟨rfl, g4, g5, q, g6, by rw [g7, hq]⟩
      · exact .val rfl
      · split <;> first | exact .val rfl | (exfalso; simp_all; done) |
          (exfalso; simp_all; rename_i h; exact h _ _ _ _ _ _ rfl rfl rfl rfl rfl rfl)
    · intro F j infos subs vs data ts c0 rest save c d md sv hF hK hr h1 h2 h0 hs
      obtain ⟨F, rfl⟩ : ∃ k, F = k + 1 := ⟨F - 1, by omega⟩
      cases ts with
      | nil =>
        unfold Rel at hr
        rw [content]
        cases fin with
        | syntaxErr e =>
          rw [contentP]
          exact sim_offsetIf fun off _ => .token_err hn h1 h2 hr
        | hang => exact content_hang hn h1 hr io K (F + 1) _ _ _ _ _ _ md h2
        | _ => exact hr.elim
      | cons t ts =>
        obtain ⟨d', ht, hb, ha, hr'⟩ := hr
        rw [List.length_cons] at hK
        unfold contentP
        rw [content]
        refine sim_offsetIf fun off ho => .token_ok hn h1 h2 ht fun m md' h3 h4 h5 h6 => ?_
        have hs' : SaveOk c0 save (c ++ m) (sv.map (· ++ m)) := saveOk_step hs
        have next : ∀ (vs' : List Val) (data' : Bytes) (ts' : List PTok) (c' : Bytes) (d2 : Dec) (md2 : Machine.Mode)
            (sv' : Option Bytes), ts'.length ≤ ts.length → Rel fin ts' d2 → c' ++ d2.raw.rest = doc → Calm md2 d2.raw.rest →
            (∃ q, c' = c ++ q ∧ sv' = sv.map (· ++ q)) →
            Sim n doc (contentP io K F j infos subs save vs' data') c' d2 md2 sv' (content io fin f j infos subs vs' data' ts')
              (GoodC fin (t :: ts) rest save c sv) := by
          rintro vs' data' ts' c' d2 md2 sv' hl hr2 e1 e2 ⟨q, rfl, rfl⟩
          refine (ihc F j infos subs vs' data' ts' c0 rest save (c ++ q) d2 md2 _ (by omega) (by omega) hr2 e1 e2 h0
            (saveOk_step hs)).mono ?_
          rintro a b c3 d3 sv3 ⟨g1, g2, g3, g4, g5, q3, g6, g7⟩
          refine ⟨g1, g2, g3, g4, by rw [List.length_cons]; omega, q ++ q3, by rw [g6, List.append_assoc], ?_⟩
          rw [g7, map_map]
        cases htok : t.tok with
        | startElement nm as =>
          obtain ⟨hmd, hm⟩ := h6 (by rw [htok]; rfl)
          subst hmd
          dsimp only
          cases he : elemField infos nm with
          | none =>
            have h := sim_skip fin hn K ts 0 (c ++ m) d' .fresh (sv.map (· ++ m)) (by omega) hr' h4 (calm_fresh _)
            dsimp only
            cases hk : skip 0 ts with
            | none => rw [hk] at h; exact h.bind_err
            | some ts' =>
              rw [hk] at h
              refine h.bind_ok fun c' d2 md2 sv' b e1 e2 e3 => ?_
              obtain ⟨g1, g2, q, g3, g4⟩ := e3
              exact next _ _ _ _ _ _ _ g2 g1 e1 e2 ⟨m ++ q, by rw [g3, List.append_assoc], by rw [g4, map_map]⟩
          | some i =>
            dsimp only
            split
            · next s v hs1 hv1 =>
              have h := ihu F (j + 1) s v nm as ts (c ++ m) d' (sv.map (· ++ m)) (by omega) (by omega) hr' h4 (map_ne_nil hm)
              rw [hs1, hv1, ha]
              dsimp only
              cases hk : unmarshal io fin f (j + 1) s v nm as d'.raw.rest ts with
              | error e => rw [hk] at h; exact h.bind_err
              | ok a =>
                rw [hk] at h
                refine h.bind_ok fun c' d2 md2 sv' b e1 e2 e3 => ?_
                obtain ⟨rfl, g1, g2, q, g3, g4⟩ := e3
                exact next _ _ _ _ _ _ _ g2 g1 e1 e2 ⟨m ++ q, by rw [g3, List.append_assoc], by rw [g4, map_map]⟩
            · split
              · exfalso; simp_all
              · exact .val rfl
        | endElement nm => exact sim_end h0 h1 hb h4 h5 hs ho hr'
        | charData b => exact next _ _ _ _ _ _ _ (Nat.le_refl _) hr' h4 h5 ⟨m, rfl, rfl⟩
        | comment b => exact next _ _ _ _ _ _ _ (Nat.le_refl _) hr' h4 h5 ⟨m, rfl, rfl⟩
        | procInst a b => exact next _ _ _ _ _ _ _ (Nat.le_refl _) hr' h4 h5 ⟨m, rfl, rfl⟩
        | directive b => exact next _ _ _ _ _ _ _ (Nat.le_refl _) hr' h4 h5 ⟨m, rfl, rfl⟩

end

end Verif.Direct

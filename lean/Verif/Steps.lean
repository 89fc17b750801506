import Verif.ReadErrProps

/-!
C68: the number of steps of the decoder, that is of calls of `getc` and `ungetc` (`/repo/xml/xml.go` 946-968, 1008-1014), is at
most linear in the length of the input.
-/
namespace Verif.Steps

open Verif.Xml Verif.Bind Verif.Machine Verif.Direct

/-! ### Counting -/

/-- The number of bytes a piece of the decoder reads and puts back, counting the attempts at the end of the input. -/
def steps {α : Type} : Prog α → D → Nat
  | .ret _, _ => 0
  | .getc k, d => 1 + steps (k d.getc.1) d.getc.2
  | .ungetc b k, d => 1 + steps k (d.ungetc b)
  | .fail _, _ => 0

/-- The steps of a call of `Token`. -/
def tokenSteps (n : Nat) (m : M) : Nat := steps (rawTokenP n m.toClose) m.d

/-- The calls of `Token` and the steps of a piece of `unmarshal`. -/
def stepsT {α : Type} (n : Nat) : TProg α → M → Nat × Nat
  | .ret _, _ => (0, 0)
  | .fail _, _ => (0, 0)
  | .token k, m =>
    match m.token n with
    | (.error _, _) => (1, tokenSteps n m)
    | (.ok t, m') => (1 + (stepsT n (k t) m').1, tokenSteps n m + (stepsT n (k t) m').2)
  | .save k, m => stepsT n (k (beginSave m).1) (beginSave m).2
  | .offset k, m => stepsT n (k m.d.savedOffset) m
  | .cut i j k, m => stepsT n (k (endSave m i j).1) (endSave m i j).2

/-! ### One token -/

/-- `o a` for the result `a`, `e` for an error. -/
def bnd {α : Type} (o : α → Int) (e : Int) : Except Machine.MErr α → Int
  | .ok a => o a
  | .error _ => e

/-- At most 5 steps for each byte by which the piece gets on, and a constant: `o a` if it returns `a`, `e` if it fails. -/
def Cost {α : Type} (p : Prog α) (o : α → Int) (e : Int) : Prop := ∀ d : D,
  (steps p d : Int) ≤ 5 * ((p.run d).2.offset - d.offset) + bnd o e (p.run d).1

theorem cost_ret {α : Type} {a : α} {o : α → Int} {e : Int} (h : 0 ≤ o a) : Cost (.ret a) o e := by
  intro d
  simp only [steps, Prog.run, bnd]
  omega

theorem cost_fail {α : Type} {x : XErr} {o : α → Int} {e : Int} (h : 0 ≤ e) : Cost (.fail x : Prog α) o e := by
  intro d
  simp only [steps, Prog.run, bnd]
  omega

theorem cost_mono {α : Type} {p : Prog α} {o o' : α → Int} {e e' : Int} (h : Cost p o e) (ho : ∀ a, o a ≤ o' a) (he : e ≤ e') :
    Cost p o' e' := by
  intro d
  have h1 := h d
  cases hr : (p.run d).1 with
  | ok a => rw [hr] at h1; have := ho a; simp only [bnd] at h1 ⊢; omega
  | error x => rw [hr] at h1; simp only [bnd] at h1 ⊢; omega

theorem steps_bind {α β : Type} (p : Prog α) (f : α → Prog β) (d : D) : steps (p.bind f) d = steps p d +
    (match (p.run d).1 with
     | .ok a => steps (f a) (p.run d).2
     | .error _ => 0) := by
  induction p generalizing d with
  | ret a => simp [steps, Prog.bind, Prog.run]
  | getc k ih => simp only [steps, Prog.bind, Prog.run]; rw [ih]; omega
  | ungetc b k ih => simp only [steps, Prog.bind, Prog.run]; rw [ih]; omega
  | fail e => rfl

theorem cost_bind {α β : Type} {p : Prog α} {f : α → Prog β} {o1 : α → Int} {o : β → Int} {e1 e : Int} (hp : Cost p o1 e1)
    (he : e1 ≤ e) (hf : ∀ a, Cost (f a) (fun b => o b - o1 a) (e - o1 a)) : Cost (p.bind f) o e := by
  intro d
  have h1 := hp d
  rw [steps_bind, Machine.run_bind]
  cases hr : p.run d with
  | mk r d' =>
    rw [hr] at h1
    cases r with
    | error x => simp only [bnd] at h1 ⊢; omega
    | ok a =>
      have h2 := hf a d'
      simp only [bnd] at h1 h2 ⊢
      cases hr2 : ((f a).run d').1 with
      | ok b => rw [hr2] at h2; simp only at h2 ⊢; omega
      | error x => rw [hr2] at h2; simp only at h2 ⊢; omega

theorem getc_offset (d : D) : (d.getc.1 = none ∧ d.getc.2.offset = d.offset) ∨
    (∃ b, d.getc.1 = some b ∧ d.getc.2.offset = d.offset + 1) := by
  unfold D.getc
  split
  · exact .inl ⟨rfl, rfl⟩
  · split
    · exact .inr ⟨_, rfl, by unfold D.count; rfl⟩
    · split
      · exact .inl ⟨rfl, rfl⟩
      · exact .inr ⟨_, rfl, by unfold D.count; rfl⟩

theorem cost_getc {α : Type} {k : Option UInt8 → Prog α} {o : α → Int} {e : Int}
    (hn : Cost (k none) (fun a => o a - 1) (e - 1)) (hs : ∀ b, Cost (k (some b)) (fun a => o a + 4) (e + 4)) :
    Cost (.getc k) o e := by
  intro d
  simp only [steps, Prog.run]
  rcases getc_offset d with ⟨h1, h2⟩ | ⟨b, h1, h2⟩
  · rw [h1]
    have h3 := hn d.getc.2
    cases hr : ((k none).run d.getc.2).1 with
    | ok b => rw [hr] at h3; simp only [bnd] at h3 ⊢; omega
    | error x => rw [hr] at h3; simp only [bnd] at h3 ⊢; omega
  · rw [h1]
    have h3 := hs b d.getc.2
    cases hr : ((k (some b)).run d.getc.2).1 with
    | ok b => rw [hr] at h3; simp only [bnd] at h3 ⊢; omega
    | error x => rw [hr] at h3; simp only [bnd] at h3 ⊢; omega

theorem cost_must {α : Type} {k : UInt8 → Prog α} {o : α → Int} {e : Int} (he : 1 ≤ e)
    (h : ∀ b, Cost (k b) (fun a => o a + 4) (e + 4)) : Cost (must k) o e :=
  cost_getc (cost_fail (by omega)) h

theorem cost_ungetc {α : Type} {b : UInt8} {k : Prog α} {o : α → Int} {e : Int}
    (h : Cost k (fun a => o a - 6) (e - 6)) : Cost (.ungetc b k) o e := by
  intro d
  simp only [steps, Prog.run]
  have h2 : (d.ungetc b).offset = d.offset - 1 := rfl
  have h3 := h (d.ungetc b)
  cases hr : (k.run (d.ungetc b)).1 with
  | ok b => rw [hr] at h3; simp only [bnd] at h3 ⊢; omega
  | error x => rw [hr] at h3; simp only [bnd] at h3 ⊢; omega

/-! ### Piece by piece -/

theorem space_cost (n : Nat) : Cost (spaceP n) (fun _ => 2) 0 := by
  induction n with
  | zero => exact cost_fail (by omega)
  | succ n ih =>
    refine cost_getc (cost_ret (by omega)) fun b => ?_
    dsimp only
    split
    · exact cost_mono ih (fun _ => by omega) (by omega)
    · exact cost_ungetc (cost_ret (by omega))

theorem nameLoop_cost (n : Nat) (buf : Bytes) : Cost (nameLoopP n buf) (fun _ => 2) 2 := by
  induction n generalizing buf with
  | zero => exact cost_fail (by omega)
  | succ n ih =>
    refine cost_must (by omega) fun b => ?_
    try dsimp only
    split
    · exact cost_mono (ih _) (fun _ => by omega) (by omega)
    · exact cost_ungetc (cost_ret (by omega))

/-- A name that was found pays for what follows. -/
def nameCost {α : Type} : Option α → Int
  | some _ => -2
  | none => 2

theorem readName_cost (n : Nat) : Cost (readNameP n) nameCost 2 := by
  refine cost_must (by omega) fun b => ?_
  try dsimp only
  split
  · exact cost_bind (nameLoop_cost _ _) (by omega) fun nm => cost_ret (by simp [nameCost])
  · exact cost_ungetc (cost_ret (by simp [nameCost]))

theorem name_cost (n : Nat) : Cost (nameP n) nameCost 2 := by
  refine cost_bind (readName_cost n) (by omega) fun a => ?_
  cases a with
  | none => exact cost_ret (by simp [nameCost])
  | some nm =>
    try dsimp only
    split
    · exact cost_ret (by simp [nameCost])
    · exact cost_fail (by simp [nameCost])

theorem nsname_cost (n : Nat) : Cost (nsnameP n) nameCost 2 := by
  refine cost_bind (name_cost n) (by omega) fun a => ?_
  cases a with
  | none => exact cost_ret (by simp [nameCost])
  | some nm => exact cost_ret (by cases splitName nm <;> simp [nameCost])

theorem numRef_cost (hex : Bool) (n : Nat) (buf : Bytes) (b : UInt8) : Cost (numRefP hex n buf b) (fun _ => 0) 6 := by
  induction n generalizing buf b with
  | zero => exact cost_fail (by omega)
  | succ n ih =>
    rw [numRefP]
    split
    · exact cost_must (by omega) fun c => cost_mono (ih _ _) (fun _ => by omega) (by omega)
    · split
      · exact cost_ungetc (cost_fail (by omega))
      · split
        · exact cost_ret (by omega)
        · exact cost_fail (by omega)

theorem nameRef_cost (n : Nat) : Cost (nameRefP n) (fun _ => -2) 6 := by
  refine cost_bind (readName_cost n) (by omega) fun nm => ?_
  have hb : nameCost nm ≤ 2 := by cases nm <;> simp [nameCost]
  refine cost_must (by omega) fun b => ?_
  try dsimp only
  split
  · exact cost_ungetc (cost_fail (by omega))
  · split
    · split
      · exact cost_ret (by omega)
      · exact cost_fail (by omega)
    · exact cost_fail (by omega)

theorem entityRef_cost (n : Nat) : Cost (entityRefP n) (fun _ => 0) 8 := by
  refine cost_must (by omega) fun b => ?_
  try dsimp only
  split
  · refine cost_must (by omega) fun c => ?_
    try dsimp only
    split
    · exact cost_must (by omega) fun d => cost_mono (numRef_cost _ _ _ _) (fun _ => by omega) (by omega)
    · exact cost_mono (numRef_cost _ _ _ _) (fun _ => by omega) (by omega)
  · exact cost_ungetc (cost_mono (nameRef_cost n) (fun _ => by omega) (by omega))

theorem textLoop_cost (n : Nat) (q : Option UInt8) (cd : Bool) (b0 b1 : UInt8) (buf : Bytes) :
    Cost (textLoopP n q cd b0 b1 buf) (fun _ => 2) 4 := by
  induction n generalizing b0 b1 buf with
  | zero => exact cost_fail (by omega)
  | succ n ih =>
    refine cost_getc ?_ fun b => ?_
    · dsimp only
      split
      · exact cost_fail (by omega)
      · exact cost_ret (by omega)
    · dsimp only
      split
      · split
        · exact cost_ret (by omega)
        · exact cost_fail (by omega)
      · split
        · split
          · exact cost_fail (by omega)
          · exact cost_ungetc (cost_ret (by omega))
        · split
          · exact cost_ungetc (cost_ret (by omega))
          · split
            · exact cost_ret (by omega)
            · split
              · exact cost_bind (entityRef_cost n) (by omega) fun t => cost_mono (ih _ _ _) (fun _ => by omega) (by omega)
              · exact cost_mono (ih _ _ _) (fun _ => by omega) (by omega)

theorem text_cost (n : Nat) (q : Option UInt8) (cd : Bool) : Cost (textP n q cd) (fun _ => 2) 4 := by
  refine cost_bind (textLoop_cost n q cd 0 0 []) (by omega) fun data => ?_
  try dsimp only
  split
  · exact cost_fail (by omega)
  · exact cost_ret (by omega)

theorem attrval_cost (n : Nat) : Cost (attrvalP n) (fun _ => -2) 4 := by
  refine cost_must (by omega) fun b => ?_
  try dsimp only
  split
  · exact cost_mono (text_cost n _ _) (fun _ => by omega) (by omega)
  · exact cost_fail (by omega)

theorem attr_cost (n : Nat) : Cost (attrP n) (fun _ => -4) 4 := by
  refine cost_bind (nsname_cost n) (by omega) fun a => ?_
  cases a with
  | none => exact cost_fail (by simp [nameCost])
  | some nm =>
    refine cost_bind (space_cost n) (by simp [nameCost]) fun _ => cost_must (by simp [nameCost]) fun b => ?_
    try dsimp only
    split
    · exact cost_fail (by simp [nameCost])
    · refine cost_bind (space_cost n) (by simp [nameCost]) fun _ => ?_
      exact cost_bind (attrval_cost n) (by simp [nameCost]) fun _ => cost_ret (by simp [nameCost])

theorem attrs_cost (n : Nat) (acc : List Attr) : Cost (attrsP n acc) (fun _ => -2) 10 := by
  induction n generalizing acc with
  | zero => exact cost_fail (by omega)
  | succ n ih =>
    rw [attrsP]
    refine cost_bind (space_cost _) (by omega) fun _ => cost_must (by omega) fun b => ?_
    try dsimp only
    split
    · refine cost_must (by omega) fun c => ?_
      try dsimp only
      split
      · exact cost_fail (by omega)
      · exact cost_ret (by omega)
    · split
      · exact cost_ret (by omega)
      · exact cost_ungetc (cost_bind (attr_cost _) (by omega) fun a => cost_mono (ih _) (fun _ => by omega) (by omega))

theorem pi_cost (n : Nat) (b0 : UInt8) (buf : Bytes) : Cost (piP n b0 buf) (fun _ => 0) 1 := by
  induction n generalizing b0 buf with
  | zero => exact cost_fail (by omega)
  | succ n ih =>
    refine cost_must (by omega) fun b => ?_
    try dsimp only
    split
    · exact cost_ret (by omega)
    · exact cost_mono (ih _ _) (fun _ => by omega) (by omega)

theorem comment_cost (n : Nat) (b0 b1 : UInt8) (buf : Bytes) : Cost (commentP n b0 b1 buf) (fun _ => 0) 1 := by
  induction n generalizing b0 b1 buf with
  | zero => exact cost_fail (by omega)
  | succ n ih =>
    refine cost_must (by omega) fun b => ?_
    try dsimp only
    split
    · split
      · exact cost_fail (by omega)
      · exact cost_ret (by omega)
    · exact cost_mono (ih _ _ _) (fun _ => by omega) (by omega)

theorem skipComment_cost (n : Nat) (b0 b1 : UInt8) : Cost (skipCommentP n b0 b1) (fun _ => 0) 1 := by
  induction n generalizing b0 b1 with
  | zero => exact cost_fail (by omega)
  | succ n ih =>
    refine cost_must (by omega) fun b => ?_
    try dsimp only
    split
    · exact cost_ret (by omega)
    · exact cost_mono (ih _ _) (fun _ => by omega) (by omega)

theorem dirLt_cost : Cost dirLtP (fun _ => 0) 1 := by
  refine cost_must (by omega) fun a => ?_
  try dsimp only
  split
  · exact cost_ret (by omega)
  · refine cost_must (by omega) fun b => ?_
    try dsimp only
    split
    · exact cost_ret (by omega)
    · refine cost_must (by omega) fun c => ?_
      try dsimp only
      split
      · exact cost_ret (by omega)
      · exact cost_ret (by omega)

theorem dir_cost (n : Nat) (h : Option UInt8) (inq : UInt8) (depth : Int) (buf : Bytes) :
    Cost (dirP n h inq depth buf) (fun _ => 0) 1 := by
  induction n generalizing h inq depth buf with
  | zero => exact cost_fail (by omega)
  | succ n ih =>
    have key : ∀ b : UInt8, Cost (
      if b = inq then dirP n none 0 depth (buf ++ [b])
      else if inq ≠ 0 then dirP n none inq depth (buf ++ [b])
      else if b = ch%'\'' ∨ b = ch%'"' then dirP n none b depth (buf ++ [b])
      else if b = ch%'>' then dirP n none inq (depth - 1) (buf ++ [b])
      else if b = ch%'<' then
        dirLtP.bind fun
          | some (w, c) => dirP n (some c) inq (depth + 1) (buf ++ [b] ++ w)
          | none => (skipCommentP n 0 0).bind fun _ => dirP n none inq depth (buf ++ [ch%' '])
      else dirP n none inq depth (buf ++ [b])) (fun _ => 0) 1 := by
      intro b
      split
      · exact ih _ _ _ _
      split
      · exact ih _ _ _ _
      split
      · exact ih _ _ _ _
      split
      · exact ih _ _ _ _
      split
      case isFalse => exact ih _ _ _ _
      refine cost_bind dirLt_cost (by omega) fun a => ?_
      rcases a with _ | ⟨w, c⟩
      · exact cost_bind (skipComment_cost _ _ _) (by omega) fun _ => cost_mono (ih _ _ _ _) (fun _ => by omega) (by omega)
      · exact cost_mono (ih _ _ _ _) (fun _ => by omega) (by omega)
    unfold dirP
    cases h with
    | some b => exact key b
    | none =>
      refine cost_must (by omega) fun b => ?_
      try dsimp only
      split
      · exact cost_ret (by omega)
      · exact cost_mono (key b) (fun _ => by omega) (by omega)

theorem cdataOpen_cost (p : Bytes) : Cost (cdataOpenP p) (fun _ => 0) 1 := by
  induction p with
  | nil => exact cost_ret (by omega)
  | cons c p ih =>
    refine cost_must (by omega) fun b => ?_
    try dsimp only
    split
    · exact cost_fail (by omega)
    · exact cost_mono ih (fun _ => by omega) (by omega)

theorem rawToken_cost (n : Nat) (c : Option Name) : Cost (rawTokenP n c) (fun _ => 4) 10 := by
  unfold rawTokenP
  cases c with
  | some nm => exact cost_ret (by omega)
  | none =>
    refine cost_getc (cost_fail (by omega)) fun b => ?_
    dsimp only
    split
    · exact cost_ungetc (cost_bind (text_cost n _ _) (by omega) fun _ => cost_ret (by omega))
    · refine cost_must (by omega) fun c => ?_
      try dsimp only
      split
      · refine cost_bind (nsname_cost n) (by omega) fun a => ?_
        cases a with
        | none => exact cost_fail (by simp [nameCost])
        | some nm =>
          refine cost_bind (space_cost n) (by simp [nameCost]) fun _ => cost_must (by simp [nameCost]) fun b => ?_
          try dsimp only
          split
          · exact cost_fail (by simp [nameCost])
          · exact cost_ret (by simp [nameCost])
      · split
        · refine cost_bind (name_cost n) (by omega) fun a => ?_
          cases a with
          | none => exact cost_fail (by simp [nameCost])
          | some nm =>
            refine cost_bind (space_cost n) (by simp [nameCost]) fun _ => ?_
            refine cost_bind (pi_cost n _ _) (by simp [nameCost]) fun data => ?_
            try dsimp only
            split
            · exact cost_fail (by simp [nameCost])
            · exact cost_ret (by simp [nameCost])
        · split
          · refine cost_must (by omega) fun b => ?_
            try dsimp only
            split
            · refine cost_must (by omega) fun c => ?_
              try dsimp only
              split
              · exact cost_fail (by omega)
              · exact cost_bind (comment_cost n _ _ _) (by omega) fun _ => cost_ret (by omega)
            · split
              · refine cost_bind (cdataOpen_cost _) (by omega) fun _ => ?_
                exact cost_bind (text_cost n _ _) (by omega) fun _ => cost_ret (by omega)
              · exact cost_bind (dir_cost n _ _ _ _) (by omega) fun _ => cost_ret (by omega)
          · refine cost_ungetc (cost_bind (nsname_cost n) (by omega) fun a => ?_)
            cases a with
            | none => exact cost_fail (by simp [nameCost])
            | some nm => exact cost_bind (attrs_cost n _) (by simp [nameCost]) fun _ => cost_ret (by simp [nameCost])

/-- **C68, a token.**  From any state of the decoder, `Token` takes at most 5 steps for every byte it gets on, and at most 4
more, or 10 if it fails. -/
theorem C68_token (n : Nat) (m : M) : (tokenSteps n m : Int) ≤ 5 * ((m.token n).2.d.offset - m.d.offset) +
    (match (m.token n).1 with
     | .ok _ => 4
     | .error _ => 10) := by
  have h := rawToken_cost n m.toClose m.d
  unfold tokenSteps M.token
  cases hr : (rawTokenP n m.toClose).run m.d with
  | mk r d =>
    rw [hr] at h
    cases r with
    | error e => exact h
    | ok a =>
      obtain ⟨t, c⟩ := a
      have h' : (steps (rawTokenP n m.toClose) m.d : Int) ≤ 5 * (d.offset - m.d.offset) + 4 := h
      dsimp only
      cases cook t m.ns m.stk with
      | error e => dsimp only; omega
      | ok x => exact h'

/-! ### Without the saved input -/

/-- The decoder without what it saves. -/
def era (d : D) : D := { d with saved := none }

/-- The decoder without what it saves. -/
def eraM (m : M) : M := { m with d := era m.d }

theorem getc_era (d : D) : (era d).getc = (d.getc.1, era d.getc.2) := by
  unfold D.getc era
  dsimp only
  split
  · rfl
  · split
    · unfold D.count; split <;> rfl
    · split
      · rfl
      · unfold D.count; split <;> rfl

theorem run_era {α : Type} (p : Prog α) (d : D) : p.run (era d) = ((p.run d).1, era (p.run d).2) := by
  induction p generalizing d with
  | ret a => rfl
  | getc k ih => simp only [Prog.run]; rw [getc_era]; exact ih _ _
  | ungetc b k ih => simp only [Prog.run]; exact ih (d.ungetc b)
  | fail e => rfl

theorem token_era (n : Nat) (m : M) : (eraM m).token n = ((m.token n).1, eraM (m.token n).2) := by
  unfold M.token eraM
  dsimp only
  rw [run_era]
  cases (rawTokenP n m.toClose).run m.d with
  | mk r d =>
    cases r with
    | error e => rfl
    | ok a =>
      obtain ⟨t, c⟩ := a
      dsimp only
      cases cook t m.ns m.stk with
      | error e => rfl
      | ok x => rfl

theorem save_era (m : M) : eraM (beginSave m).2 = eraM m := by
  unfold beginSave
  split <;> rfl

theorem cut_era (m : M) (i j : Int) : eraM (endSave m i j).2 = eraM m := by
  unfold endSave
  dsimp only
  split <;> rfl

theorem era_offset {m : M} {c : Bytes} {d : Dec} {md : Machine.Mode} (h : eraM m = mk c d md none) :
    m.d.offset = c.length := by
  have : (eraM m).d.offset = m.d.offset := rfl
  rw [← this, h]
  exact st_offset _ _ _ _

/-! ### All tokens -/

section
variable {n : Nat} {doc : Bytes}

theorem hungry_stuck {α : Type} (hn : doc.length < n) (p : TProg α) : ∀ (m : M) (c : Bytes) (d : Dec) (md : Machine.Mode),
    ReadErr.Hungry p → ReadErr.Fed p → eraM m = mk c d md none → c ++ d.raw.rest = doc → Calm md d.raw.rest → Stuck d.raw →
      (p.run n m).1 = .error .fuel := by
  induction p with
  | ret a => intro m c d md hp; exact hp.elim
  | fail e => intro m c d md hp; cases e <;> first | exact hp.elim | (intros; rfl)
  | token k ih =>
    intro m c d md hp hf hm h1 h2 hs
    obtain ⟨md', h3, h4⟩ := token_hang (sv := none) hn h1 h2 hs
    rw [← hm, token_era] at h4
    rw [TProg.run]
    cases ht : m.token n with
    | mk r m' =>
      rw [ht] at h4
      injection h4 with h4 h5
      dsimp only at h4 h5
      subst h4
      exact ih _ m' c d md' (hf.1 []) (hf.2 _) h5 h1 h3 hs
  | save k ih => intro m c d md hp; exact hp.elim
  | offset k ih => intro m c d md hp hf hm h1 h2 hs; exact ih _ m c d md (hp _) (hf _) hm h1 h2 hs
  | cut i j k ih => intro m c d md hp; exact hp.elim

theorem run_steps {α : Type} (hn : doc.length < n) (p : TProg α) : ∀ (m : M) (c : Bytes) (d : Dec) (md : Machine.Mode),
    ReadErr.Fed p → eraM m = mk c d md none → c ++ d.raw.rest = doc → Calm md d.raw.rest → (p.run n m).1 ≠ .error .fuel →
      (stepsT n p m).1 ≤ d.raw.size + 1 ∧
      ((stepsT n p m).2 : Int) ≤ 5 * ((doc.length : Int) - c.length) + 4 * (stepsT n p m).1 + 6 := by
  induction p with
  | ret a =>
    intro m c d md hf hm h1 h2 hr
    rw [← h1, List.length_append]
    simp only [stepsT]
    omega
  | fail e =>
    intro m c d md hf hm h1 h2 hr
    rw [← h1, List.length_append]
    simp only [stepsT]
    omega
  | token k ih =>
    intro m c d md hf hm h1 h2 hr
    have hl : d.raw.rest.length < n := by rw [← h1, List.length_append] at hn; omega
    have hsim := token_sim n c d md none hl h2
    have hcost := C68_token n m
    rw [era_offset hm] at hcost
    rw [← hm, token_era] at hsim
    rw [TProg.run] at hr
    rw [stepsT]
    cases ht : m.token n with
    | mk r m' =>
      rw [ht] at hsim hcost hr
      cases hd : token d with
      | error e =>
        rw [hd] at hsim
        obtain ⟨q, r', md', m2, h3, h4, h5⟩ := hsim
        injection h4 with h4 h6
        dsimp only at h4 h6
        subst h4
        have ho : m'.d.offset = (c ++ q).length := by
          have : (eraM m').d.offset = m'.d.offset := rfl
          rw [← this, h6, h5]
          exact st_offset _ _ _ _
        dsimp only at hcost ⊢
        rw [ho] at hcost
        rw [← h1, h3]
        simp only [List.length_append] at hcost ⊢
        omega
      | ok x =>
        obtain ⟨t, d'⟩ := x
        rw [hd] at hsim
        obtain ⟨q, md', h3, h4, h5⟩ := hsim
        injection h5 with h5 h6
        dsimp only at h5 h6
        subst h5
        dsimp only at hcost hr ⊢
        have h6' : eraM m' = mk (c ++ q) d' md' none := h6
        rw [era_offset h6'] at hcost
        have hdoc : (c ++ q) ++ d'.raw.rest = doc := by rw [List.append_assoc, ← h3, h1]
        by_cases hs : Stuck d.raw
        · exfalso
          rw [token_stuck d hs] at hd
          injection hd with hd
          injection hd with hd1 hd2
          subst hd1 hd2
          exact hr (hungry_stuck hn _ m' _ _ _ (hf.1 []) (hf.2 _) h6' hdoc h4 hs)
        · have hp := (token_progress d t d' hd hs).1
          obtain ⟨i1, i2⟩ := ih t m' (c ++ q) d' md' (hf.2 t) h6' hdoc h4 hr
          simp only [List.length_append] at hcost i2
          omega
  | save k ih =>
    intro m c d md hf hm h1 h2 hr
    exact ih _ _ c d md (hf _) (by rw [save_era]; exact hm) h1 h2 hr
  | offset k ih =>
    intro m c d md hf hm h1 h2 hr
    exact ih _ _ c d md (hf _) hm h1 h2 hr
  | cut i j k ih =>
    intro m c d md hf hm h1 h2 hr
    exact ih _ _ c d md (hf _) (by rw [cut_era]; exact hm) h1 h2 hr

end

/-! ### C68 -/

/-- The number of calls of `Token` in `Unmarshal`. -/
def tokensOf (io : FloatIO) (F : Nat) (s : Sch) (doc : Bytes) : Nat := (stepsT F (docP io F s) (M.new doc)).1

/-- The number of bytes read and put back in `Unmarshal`. -/
def stepsOf (io : FloatIO) (F : Nat) (s : Sch) (doc : Bytes) : Nat := (stepsT F (docP io F s) (M.new doc)).2

/-- **C68.**  `Unmarshal` of a document of `L` bytes into a value of any type, if it returns, calls `Token` at most `2 L + 1`
times and takes at most `13 L + 10` steps, whether it succeeds or fails. -/
theorem C68_linear (io : FloatIO) (F : Nat) (s : Sch) (doc : Bytes) (hF : doc.length < F)
    (h : (decode io F s doc).1 ≠ .error .fuel) :
    tokensOf io F s doc ≤ 2 * doc.length + 1 ∧ stepsOf io F s doc ≤ 13 * doc.length + 10 := by
  obtain ⟨h1, h2⟩ := run_steps hF (docP io F s) (M.new doc) [] (Dec.new doc) .fresh (ReadErr.fed_doc io F s)
    (by rw [← new_mk]; rfl) rfl (by simp [Calm]) h
  have h3 : (Dec.new doc).raw.size = 2 * doc.length := rfl
  unfold tokensOf stepsOf
  simp only [List.length_nil] at h2
  omega

/-- **C68, of documents.**  The same for every document that does not lead to the endless loop at a raw `>`. -/
theorem C68_document (io : FloatIO) (F : Nat) (s : Sch) (doc : Bytes) (hF : Direct.bound doc ≤ F)
    (h : unmarshalDoc io s doc ≠ .error .hang) :
    tokensOf io F s doc ≤ 2 * doc.length + 1 ∧ stepsOf io F s doc ≤ 13 * doc.length + 10 := by
  refine C68_linear io F s doc (by unfold Direct.bound at hF; omega) ?_
  have h2 := C66_decode io s doc F hF
  cases hu : unmarshalDoc io s doc with
  | ok v => rw [hu] at h2; rw [h2.1]; simp
  | error e =>
    rw [hu] at h2
    cases e with
    | hang => exact absurd hu h
    | syntaxErr x => obtain ⟨off, -, h3, -⟩ := h2; rw [h3]; simp
    | _ => rw [h2]; simp

/-- Twelve bytes, three tokens.  For the start tag 8 bytes are read and 3 put back, for the text 3 and 2, for the end tag 8
and 2. -/
example (io : FloatIO) : tokensOf io 100 tExtType.sch (b!"<Ext>x</Ext>") = 3 ∧
    stepsOf io 100 tExtType.sch (b!"<Ext>x</Ext>") = 26 := by
  constructor <;> krfl

end Verif.Steps

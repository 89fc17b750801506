import Verif.ReadErr
import Verif.DirectProps

/-!
C67: a failing reader.
-/
namespace Verif.ReadErr

open Verif.Xml Verif.Bind Verif.Machine Verif.Direct

/-! ### The same steps as with `io.EOF` -/

theorem runF_eq {α : Type} (p : Prog α) (d : D) : (runF p d).2 = (p.run d).2 ∧
    (match (p.run d).1 with
     | .ok a => (runF p d).1 = .ok a
     | .error e => (runF p d).1 = .error (.dec e) ∨ ((runF p d).1 = .error .io ∧ (p.run d).2.eof = true)) := by
  induction p generalizing d with
  | ret a => exact ⟨rfl, rfl⟩
  | getc k ih => exact ih _ _
  | ungetc b k ih => exact ih _
  | fail e =>
    refine ⟨rfl, ?_⟩
    simp only [Prog.run, runF]
    split
    · rename_i h; exact .inr ⟨rfl, h.1⟩
    · exact .inl rfl

theorem tokenF_eq (n : Nat) (m : M) : (tokenF n m).2 = (m.token n).2 ∧
    (match (m.token n).1 with
     | .ok t => (tokenF n m).1 = .ok t
     | .error e => (tokenF n m).1 = .error (.dec e) ∨ ((tokenF n m).1 = .error .io ∧ (m.token n).2.d.eof = true)) := by
  obtain ⟨h1, h2⟩ := runF_eq (rawTokenP n m.toClose) m.d
  unfold tokenF M.token
  cases hf : runF (rawTokenP n m.toClose) m.d with
  | mk r d =>
    cases hr : (rawTokenP n m.toClose).run m.d with
    | mk r' d' =>
      rw [hf, hr] at h1 h2
      dsimp only at h1 h2
      subst h1
      cases r' with
      | error e =>
        dsimp only at h2 ⊢
        rcases h2 with rfl | ⟨rfl, h3⟩
        · exact ⟨rfl, .inl rfl⟩
        · exact ⟨rfl, .inr ⟨rfl, h3⟩⟩
      | ok a =>
        dsimp only at h2 ⊢
        subst h2
        obtain ⟨t, c⟩ := a
        dsimp only
        cases cook t m.ns m.stk with
        | error e => exact ⟨rfl, .inl rfl⟩
        | ok x => obtain ⟨t', ns, stk⟩ := x; exact ⟨rfl, rfl⟩

theorem runT_eq {α : Type} (n : Nat) (p : TProg α) (m : M) : (runT n p m).2 = (p.run n m).2 ∧
    (match (p.run n m).1 with
     | .ok a => (runT n p m).1 = .ok a
     | .error e => (runT n p m).1 = .error (.un e) ∨ ((runT n p m).1 = .error .io ∧ (p.run n m).2.d.eof = true)) := by
  induction p generalizing m with
  | ret a => exact ⟨rfl, rfl⟩
  | fail e => exact ⟨rfl, .inl rfl⟩
  | token k ih =>
    obtain ⟨h1, h2⟩ := tokenF_eq n m
    rw [runT, TProg.run]
    cases hf : tokenF n m with
    | mk r d =>
      cases hr : m.token n with
      | mk r' d' =>
        rw [hf, hr] at h1 h2
        dsimp only at h1 h2
        subst h1
        cases r' with
        | error e =>
          dsimp only at h2 ⊢
          rcases h2 with rfl | ⟨rfl, h3⟩
          · exact ⟨rfl, .inl rfl⟩
          · exact ⟨rfl, .inr ⟨rfl, h3⟩⟩
        | ok t =>
          dsimp only at h2 ⊢
          subst h2
          exact ih t d
  | save k ih => exact ih _ _
  | offset k ih => exact ih _ _
  | cut i j k ih => exact ih _ _

/-! ### What happens at the failure -/

/-- The errors of the check of characters at the end of `text`. -/
def charErr : Machine.MErr → Prop
  | .syntaxError m _ => m = "invalid UTF-8" ∨ m = "illegal character code"
  | _ => False

/-- Results that a piece can have when the reader has failed: values with `R`, the error of the reader, an error of the check of
characters. -/
def Late {α : Type} (R : α → Prop) : Except FErr α → Prop
  | .ok a => R a
  | .error .io => True
  | .error (.dec e) => charErr e

/-- The piece, begun when the reader has failed. -/
def Dead {α : Type} (p : Prog α) (R : α → Prop) : Prop := ∀ d : D, d.eof = true → Late R (runF p d).1

/-- The piece, begun before. -/
def Live {α : Type} (p : Prog α) (R : α → Prop) : Prop :=
  ∀ d : D, d.eof = false → (runF p d).2.eof = true → Late R (runF p d).1

theorem runF_bind {α β : Type} (p : Prog α) (f : α → Prog β) (d : D) : runF (p.bind f) d =
    match runF p d with
    | (.ok a, d') => runF (f a) d'
    | (.error e, d') => (.error e, d') := by
  induction p generalizing d with
  | ret a => rfl
  | getc k ih => exact ih _ _
  | ungetc b k ih => exact ih _
  | fail e => rfl

theorem runF_eof {α : Type} (p : Prog α) (d : D) (h : d.eof = true) : (runF p d).2.eof = true := by
  rw [(runF_eq p d).1]; exact Machine.run_eof p d h

theorem live_bind {α β : Type} {p : Prog α} {f : α → Prog β} {Q : α → Prop} {R : β → Prop} (hp : Live p Q)
    (hd : ∀ a, Q a → Dead (f a) R) (hl : ∀ a, Live (f a) R) : Live (p.bind f) R := by
  intro d h1 h2
  have h3 := hp d h1
  rw [runF_bind] at h2 ⊢
  cases hr : runF p d with
  | mk r d' =>
    rw [hr] at h2 h3
    cases r with
    | error e => have := h3 h2; cases e <;> exact this
    | ok a =>
      dsimp only at h2 h3 ⊢
      cases he : d'.eof with
      | true => exact hd a (h3 he) d' he
      | false => exact hl a d' he h2

theorem dead_bind {α β : Type} {p : Prog α} {f : α → Prog β} {Q : α → Prop} {R : β → Prop} (hp : Dead p Q)
    (hd : ∀ a, Q a → Dead (f a) R) : Dead (p.bind f) R := by
  intro d h1
  have h3 := hp d h1
  have h4 := runF_eof p d h1
  rw [runF_bind]
  cases hr : runF p d with
  | mk r d' =>
    rw [hr] at h3 h4
    cases r with
    | error e => cases e <;> exact h3
    | ok a => exact hd a h3 d' h4

theorem live_ret {α : Type} (a : α) (R : α → Prop) : Live (.ret a) R := by
  intro d h1 h2
  rw [runF] at h2
  rw [h1] at h2; cases h2

theorem dead_ret {α : Type} {a : α} {R : α → Prop} (h : R a) : Dead (.ret a) R := fun _ _ => h

theorem live_fail {α : Type} (e : XErr) (R : α → Prop) : Live (.fail e) R := by
  intro d h1 h2
  rw [runF] at h2
  rw [h1] at h2; cases h2

theorem dead_fail {α : Type} {e : XErr} {R : α → Prop} (h : eofOnly e = true) : Dead (.fail e : Prog α) R := by
  intro d h1
  rw [runF, if_pos ⟨h1, h⟩]
  trivial

theorem dead_getc {α : Type} {k : Option UInt8 → Prog α} {R : α → Prop} (h : Dead (k none) R) : Dead (.getc k) R := by
  intro d h1
  rw [runF, getc_eof d h1]
  exact h d h1

theorem live_getc {α : Type} {k : Option UInt8 → Prog α} {R : α → Prop} (hn : Dead (k none) R)
    (hs : ∀ b, Live (k (some b)) R) : Live (.getc k) R := by
  intro d h1 h2
  rw [runF] at h2 ⊢
  have : (d.getc.1 = none ∧ d.getc.2.eof = true) ∨ (∃ b, d.getc.1 = some b ∧ d.getc.2.eof = false) := by
    unfold D.getc
    rw [if_neg (by simp [h1])]
    split
    · refine .inr ⟨_, rfl, ?_⟩
      unfold D.count; dsimp only; split <;> exact h1
    · split
      · exact .inl ⟨rfl, rfl⟩
      · refine .inr ⟨_, rfl, ?_⟩
        unfold D.count; dsimp only; split <;> exact h1
  rcases this with ⟨h3, h4⟩ | ⟨b, h3, h4⟩
  · rw [h3]; exact hn _ h4
  · rw [h3] at h2 ⊢; exact hs b _ h4 h2

theorem live_ungetc {α : Type} {b : UInt8} {k : Prog α} {R : α → Prop} (h : Live k R) : Live (.ungetc b k) R :=
  fun d h1 h2 => h (d.ungetc b) h1 h2

theorem dead_must {α : Type} (k : UInt8 → Prog α) (R : α → Prop) : Dead (must k) R :=
  dead_getc (dead_fail (by decide))

theorem live_must {α : Type} {k : UInt8 → Prog α} {R : α → Prop} (h : ∀ b, Live (k b) R) : Live (must k) R :=
  live_getc (dead_fail (by decide)) h

theorem live_weaken {α : Type} {p : Prog α} {R R' : α → Prop} (h : Live p R) (hr : ∀ a, R a → R' a) : Live p R' := by
  intro d h1 h2
  have := h d h1 h2
  unfold Late at this ⊢
  split <;> simp_all

/-! ### Piece by piece -/

theorem space_dead (n : Nat) : Dead (spaceP n) fun _ => True := by
  cases n with
  | zero => exact dead_fail (by decide)
  | succ n => exact dead_getc (dead_ret trivial)

theorem space_live (n : Nat) : Live (spaceP n) fun _ => True := by
  induction n with
  | zero => exact live_fail _ _
  | succ n ih =>
    refine live_getc (dead_ret trivial) fun b => ?_
    try dsimp only
    split
    · exact ih
    · exact live_ungetc (live_ret _ _)

theorem nameLoop_live (n : Nat) (buf : Bytes) : Live (nameLoopP n buf) fun _ => False := by
  induction n generalizing buf with
  | zero => exact live_fail _ _
  | succ n ih =>
    refine live_must fun b => ?_
    try dsimp only
    split
    · exact ih _
    · exact live_ungetc (live_ret _ _)

theorem readName_live (n : Nat) : Live (readNameP n) fun _ => False := by
  refine live_must fun b => ?_
  try dsimp only
  split
  · exact live_bind (nameLoop_live _ _) (fun _ h => h.elim) fun _ => live_ret _ _
  · exact live_ungetc (live_ret _ _)

theorem name_live (n : Nat) : Live (nameP n) fun _ => False := by
  refine live_bind (readName_live n) (fun _ h => h.elim) fun a => ?_
  cases a with
  | none => exact live_ret _ _
  | some nm =>
    try dsimp only
    split
    · exact live_ret _ _
    · exact live_fail _ _

theorem nsname_live (n : Nat) : Live (nsnameP n) fun _ => False := by
  refine live_bind (name_live n) (fun _ h => h.elim) fun a => ?_
  cases a <;> exact live_ret _ _

theorem numRef_live (hex : Bool) (n : Nat) (buf : Bytes) (b : UInt8) : Live (numRefP hex n buf b) fun _ => False := by
  induction n generalizing buf b with
  | zero => exact live_fail _ _
  | succ n ih =>
    rw [numRefP]
    split
    · exact live_must fun c => ih _ _
    · split
      · exact live_ungetc (live_fail _ _)
      · split
        · exact live_ret _ _
        · exact live_fail _ _

theorem nameRef_live (n : Nat) : Live (nameRefP n) fun _ => False := by
  refine live_bind (readName_live n) (fun _ h => h.elim) fun nm => live_must fun b => ?_
  try dsimp only
  split
  · exact live_ungetc (live_fail _ _)
  · split
    · split
      · exact live_ret _ _
      · exact live_fail _ _
    · exact live_fail _ _

theorem entityRef_live (n : Nat) : Live (entityRefP n) fun _ => False := by
  refine live_must fun b => ?_
  try dsimp only
  split
  · refine live_must fun c => ?_
    try dsimp only
    split
    · exact live_must fun d => numRef_live _ _ _ _
    · exact numRef_live _ _ _ _
  · exact live_ungetc (nameRef_live n)

theorem textLoop_live (n : Nat) (q : Option UInt8) (cd : Bool) (b0 b1 : UInt8) (buf : Bytes) :
    Live (textLoopP n q cd b0 b1 buf) fun _ => cd = false := by
  induction n generalizing b0 b1 buf with
  | zero => exact live_fail _ _
  | succ n ih =>
    refine live_getc ?_ fun b => ?_
    · dsimp only
      split
      · exact dead_fail (by decide)
      · exact dead_ret (by simpa using ‹¬ cd = true›)
    · dsimp only
      split
      · split
        · exact live_ret _ _
        · exact live_fail _ _
      · split
        · split
          · exact live_fail _ _
          · exact live_ungetc (live_ret _ _)
        · split
          · exact live_ungetc (live_ret _ _)
          · split
            · exact live_ret _ _
            · split
              · exact live_bind (entityRef_live n) (fun _ h => h.elim) fun t => ih _ _ _
              · exact ih _ _ _

theorem checkChars_err (l : List (Nat × Bytes)) (e : XErr) (h : checkChars l = some e) (line : Int) : charErr (errAt line e) := by
  induction l with
  | nil => cases h
  | cons x l ih =>
    obtain ⟨r, c⟩ := x
    rw [checkChars] at h
    split at h
    · injection h with h; subst h; exact .inl rfl
    · split at h
      · exact ih h
      · injection h with h; subst h; exact .inr rfl

theorem checkChars_not (l : List (Nat × Bytes)) (e : XErr) (h : checkChars l = some e) : eofOnly e = false := by
  induction l with
  | nil => cases h
  | cons x l ih =>
    obtain ⟨r, c⟩ := x
    rw [checkChars] at h
    split at h
    · injection h with h; subst h; decide
    · split at h
      · exact ih h
      · injection h with h; subst h; decide

theorem text_live (n : Nat) (q : Option UInt8) (cd : Bool) : Live (textP n q cd) fun _ => cd = false := by
  refine live_bind (textLoop_live n q cd 0 0 []) ?_ ?_
  · intro data h d hd
    try dsimp only
    split
    · rename_i e he
      rw [runF, if_neg (by simp [checkChars_not _ _ he])]
      exact checkChars_err _ _ he _
    · exact h
  · intro data
    try dsimp only
    split
    · exact live_fail _ _
    · exact live_ret _ _

theorem attrval_live (n : Nat) : Live (attrvalP n) fun _ => True := by
  refine live_must fun b => ?_
  try dsimp only
  split
  · exact live_weaken (text_live n _ _) fun _ _ => trivial
  · exact live_fail _ _

theorem attr_live (n : Nat) : Live (attrP n) fun _ => True := by
  refine live_bind (nsname_live n) (fun _ h => h.elim) fun a => ?_
  cases a with
  | none => exact live_fail _ _
  | some nm =>
    refine live_bind (space_live n) (fun _ _ => dead_must _ _) fun _ => live_must fun b => ?_
    try dsimp only
    split
    · exact live_fail _ _
    · refine live_bind (space_live n) (fun _ _ => dead_bind (Q := fun _ => False) (dead_must _ _) fun _ h => h.elim) fun _ => ?_
      exact live_bind (attrval_live n) (fun _ _ => dead_ret trivial) fun _ => live_ret _ _

theorem attrs_dead (n : Nat) (acc : List Attr) : Dead (attrsP n acc) fun _ => False := by
  cases n with
  | zero => exact dead_fail (by decide)
  | succ n =>
    rw [attrsP]
    exact dead_bind (space_dead _) fun _ _ => dead_must _ _

theorem attrs_live (n : Nat) (acc : List Attr) : Live (attrsP n acc) fun _ => False := by
  induction n generalizing acc with
  | zero => exact live_fail _ _
  | succ n ih =>
    rw [attrsP]
    refine live_bind (space_live _) (fun _ _ => dead_must _ _) fun _ => live_must fun b => ?_
    try dsimp only
    split
    · refine live_must fun c => ?_
      try dsimp only
      split
      · exact live_fail _ _
      · exact live_ret _ _
    · split
      · exact live_ret _ _
      · exact live_ungetc (live_bind (attr_live _) (fun _ _ => attrs_dead _ _) fun a => ih _)

theorem pi_live (n : Nat) (b0 : UInt8) (buf : Bytes) : Live (piP n b0 buf) fun _ => False := by
  induction n generalizing b0 buf with
  | zero => exact live_fail _ _
  | succ n ih =>
    refine live_must fun b => ?_
    try dsimp only
    split
    · exact live_ret _ _
    · exact ih _ _

theorem comment_live (n : Nat) (b0 b1 : UInt8) (buf : Bytes) : Live (commentP n b0 b1 buf) fun _ => False := by
  induction n generalizing b0 b1 buf with
  | zero => exact live_fail _ _
  | succ n ih =>
    refine live_must fun b => ?_
    try dsimp only
    split
    · split
      · exact live_fail _ _
      · exact live_ret _ _
    · exact ih _ _ _

theorem skipComment_live (n : Nat) (b0 b1 : UInt8) : Live (skipCommentP n b0 b1) fun _ => False := by
  induction n generalizing b0 b1 with
  | zero => exact live_fail _ _
  | succ n ih =>
    refine live_must fun b => ?_
    try dsimp only
    split
    · exact live_ret _ _
    · exact ih _ _

theorem dirLt_live : Live dirLtP fun _ => False := by
  refine live_must fun a => ?_
  try dsimp only
  split
  · exact live_ret _ _
  · refine live_must fun b => ?_
    try dsimp only
    split
    · exact live_ret _ _
    · refine live_must fun c => ?_
      try dsimp only
      split
      · exact live_ret _ _
      · exact live_ret _ _

theorem dir_live (n : Nat) (h : Option UInt8) (inq : UInt8) (depth : Int) (buf : Bytes) :
    Live (dirP n h inq depth buf) fun _ => False := by
  induction n generalizing h inq depth buf with
  | zero => exact live_fail _ _
  | succ n ih =>
    have key : ∀ b : UInt8, Live (
      if b = inq then dirP n none 0 depth (buf ++ [b])
      else if inq ≠ 0 then dirP n none inq depth (buf ++ [b])
      else if b = ch%'\'' ∨ b = ch%'"' then dirP n none b depth (buf ++ [b])
      else if b = ch%'>' then dirP n none inq (depth - 1) (buf ++ [b])
      else if b = ch%'<' then
        dirLtP.bind fun
          | some (w, c) => dirP n (some c) inq (depth + 1) (buf ++ [b] ++ w)
          | none => (skipCommentP n 0 0).bind fun _ => dirP n none inq depth (buf ++ [ch%' '])
      else dirP n none inq depth (buf ++ [b])) fun _ => False := by
      intro b
      repeat' split
      all_goals first
        | exact ih _ _ _ _
        | skip
      refine live_bind dirLt_live (fun _ h => h.elim) fun a => ?_
      rcases a with _ | ⟨w, c⟩
      · exact live_bind (skipComment_live _ _ _) (fun _ h => h.elim) fun _ => ih _ _ _ _
      · exact ih _ _ _ _
    unfold dirP
    cases h with
    | some b => exact key b
    | none =>
      refine live_must fun b => ?_
      try dsimp only
      split
      · exact live_ret _ _
      · exact key b

theorem cdataOpen_live (p : Bytes) : Live (cdataOpenP p) fun _ => False := by
  induction p with
  | nil => exact live_ret _ _
  | cons c p ih =>
    refine live_must fun b => ?_
    try dsimp only
    split
    · exact live_fail _ _
    · exact ih

/-- The only token that can be returned when the reader has failed is text. -/
def IsText (x : Token × Option Name) : Prop := ∃ b, x = (.charData b, none)

theorem rawToken_dead (n : Nat) : Dead (rawTokenP n none) IsText :=
  dead_getc (dead_fail (by decide))

theorem rawToken_live (n : Nat) (c : Option Name) : Live (rawTokenP n c) IsText := by
  unfold rawTokenP
  cases c with
  | some nm => exact live_ret _ _
  | none =>
    refine live_getc (dead_fail (by decide)) fun b => ?_
    try dsimp only
    split
    · exact live_ungetc (live_bind (text_live n _ _) (fun d _ => dead_ret ⟨d, rfl⟩) fun _ => live_ret _ _)
    · refine live_must fun c => ?_
      try dsimp only
      split
      · refine live_bind (nsname_live n) (fun _ h => h.elim) fun a => ?_
        cases a with
        | none => exact live_fail _ _
        | some nm =>
          refine live_bind (space_live n) (fun _ _ => dead_must _ _) fun _ => live_must fun b => ?_
          try dsimp only
          split
          · exact live_fail _ _
          · exact live_ret _ _
      · split
        · refine live_bind (name_live n) (fun _ h => h.elim) fun a => ?_
          cases a with
          | none => exact live_fail _ _
          | some nm =>
            refine live_bind (space_live n) (fun _ _ => ?_) fun _ => ?_
            · refine dead_bind (Q := fun _ => False) ?_ fun _ h => h.elim
              cases n with
              | zero => exact dead_fail (by decide)
              | succ n => exact dead_must _ _
            · refine live_bind (pi_live n _ _) (fun _ h => h.elim) fun data => ?_
              try dsimp only
              split
              · exact live_fail _ _
              · exact live_ret _ _
        · split
          · refine live_must fun b => ?_
            try dsimp only
            split
            · refine live_must fun c => ?_
              try dsimp only
              split
              · exact live_fail _ _
              · exact live_bind (comment_live n _ _ _) (fun _ h => h.elim) fun _ => live_ret _ _
            · split
              · refine live_bind (cdataOpen_live _) (fun _ h => h.elim) fun _ => ?_
                exact live_bind (text_live n _ _) (fun _ h => by cases h) fun _ => live_ret _ _
              · exact live_bind (dir_live n _ _ _ _) (fun _ h => h.elim) fun _ => live_ret _ _
          · refine live_ungetc (live_bind (nsname_live n) (fun _ h => h.elim) fun a => ?_)
            cases a with
            | none => exact live_fail _ _
            | some nm => exact live_bind (attrs_live n _) (fun _ h => h.elim) fun _ => live_ret _ _

theorem tokenF_dead (n : Nat) (m : M) (h : m.d.eof = true) (hc : m.toClose = none) : (tokenF n m).1 = .error .io := by
  have : runF (rawTokenP n m.toClose) m.d = (.error .io, m.d) := by
    rw [hc]
    unfold rawTokenP
    simp only [runF, getc_eof m.d h]
    rw [if_pos ⟨h, by decide⟩]
  unfold tokenF
  rw [this]

theorem tokenF_live (n : Nat) (m : M) (h : m.d.eof = false) (h2 : (tokenF n m).2.d.eof = true) :
    (tokenF n m).1 = .error .io ∨ (∃ e, charErr e ∧ (tokenF n m).1 = .error (.dec e)) ∨
      ∃ b, (tokenF n m).1 = .ok (.charData b) ∧ (tokenF n m).2.toClose = none := by
  have key := rawToken_live n m.toClose m.d h
  unfold tokenF at h2 ⊢
  cases hr : runF (rawTokenP n m.toClose) m.d with
  | mk r d =>
    rw [hr] at key h2
    cases r with
    | error e =>
      cases e with
      | io => exact .inl rfl
      | dec e =>
        have := key h2
        refine .inr (.inl ⟨e, this, ?_⟩)
        dsimp only
        rw [if_neg]
        rintro ⟨rfl, -⟩
        exact this
    | ok a =>
      obtain ⟨t, c⟩ := a
      dsimp only at h2 ⊢
      have hd : d.eof = true := by
        cases hk : cook t m.ns m.stk with
        | error e => rw [hk] at h2; exact h2
        | ok x => obtain ⟨t', ns, stk⟩ := x; rw [hk] at h2; exact h2
      obtain ⟨b, hb⟩ := key hd
      injection hb with h3 h4
      subst h3 h4
      exact .inr (.inr ⟨b, rfl, rfl⟩)

/-! ### `Unmarshal` -/

/-- The piece asks for another token before it returns a value or an error of its own. -/
def Hungry {α : Type} : TProg α → Prop
  | .token _ => True
  | .offset k => ∀ i, Hungry (k i)
  | .fail .fuel => True
  | _ => False

/-- After text the piece asks for another token. -/
def Fed {α : Type} : TProg α → Prop
  | .ret _ => True
  | .fail _ => True
  | .token k => (∀ b, Hungry (k (.charData b))) ∧ ∀ t, Fed (k t)
  | .save k => ∀ i, Fed (k i)
  | .offset k => ∀ i, Fed (k i)
  | .cut _ _ k => ∀ b, Fed (k b)

theorem hungry_bind {α β : Type} (p : TProg α) (f : α → TProg β) (h : Hungry p) : Hungry (p.bind f) := by
  induction p with
  | ret a => exact h.elim
  | fail e => cases e <;> first | exact h.elim | trivial
  | token k ih => trivial
  | save k ih => exact h.elim
  | offset k ih => exact fun i => ih i (h i)
  | cut i j k ih => exact h.elim

theorem fed_bind {α β : Type} (p : TProg α) (f : α → TProg β) (h : Fed p) (hf : ∀ a, Fed (f a)) : Fed (p.bind f) := by
  induction p with
  | ret a => exact hf a
  | fail e => trivial
  | token k ih => exact ⟨fun b => hungry_bind _ f (h.1 b), fun t => ih t (h.2 t)⟩
  | save k ih => exact fun i => ih i (h i)
  | offset k ih => exact fun i => ih i (h i)
  | cut i j k ih => exact fun b => ih b (h b)

theorem fed_lift {α β : Type} (r : Except RErr α) (k : α → TProg β) (h : ∀ a, Fed (k a)) : Fed (lift r k) := by
  cases r with
  | ok a => exact h a
  | error e => trivial

theorem fed_skip (K d : Nat) : Fed (skipP K d) ∧ Hungry (skipP K d) := by
  induction K generalizing d with
  | zero => exact ⟨trivial, trivial⟩
  | succ K ih =>
    unfold skipP
    refine ⟨⟨fun b => (ih d).2, fun t => ?_⟩, trivial⟩
    cases t with
    | startElement n as => exact (ih _).1
    | endElement n =>
      cases d with
      | zero => trivial
      | succ d => exact (ih _).1
    | _ => exact (ih _).1

theorem fed_find (K : Nat) : Fed (findStartP K) ∧ Hungry (findStartP K) := by
  induction K with
  | zero => exact ⟨trivial, trivial⟩
  | succ K ih =>
    unfold findStartP
    refine ⟨⟨fun b => ih.2, fun t => ?_⟩, trivial⟩
    cases t with
    | startElement n as => trivial
    | _ => exact ih.1

theorem hungry_content (io : FloatIO) (K f d : Nat) (infos : List FInfo) (subs : List Sch) (save : Option Int) (vs : List Val)
    (data : Bytes) : Hungry (contentP io K f d infos subs save vs data) := by
  cases f with
  | zero => unfold contentP; trivial
  | succ f =>
    unfold contentP
    cases save with
    | none => trivial
    | some i => exact fun _ => trivial

theorem fed_all (io : FloatIO) (K f : Nat) :
    (∀ d s v n as, Fed (unmarshalP io K f d s v n as)) ∧ (∀ d s v n as, Fed (unmarshalInP io K f d s v n as)) ∧
    (∀ d infos subs save vs data, Fed (contentP io K f d infos subs save vs data)) := by
  induction f with
  | zero =>
    refine ⟨fun _ _ _ _ _ => ?_, fun _ _ _ _ _ => ?_, fun _ _ _ _ _ _ => ?_⟩
    · unfold unmarshalP; trivial
    · unfold unmarshalInP; trivial
    · unfold contentP; trivial
  | succ f ih =>
    obtain ⟨i1, i2, i3⟩ := ih
    refine ⟨fun d s v n as => ?_, fun d s v n as => ?_, fun d infos subs save vs data => ?_⟩
    · unfold unmarshalP
      split
      · trivial
      · split
        · exact fed_bind _ _ (i2 _ _ _ _ _) fun _ => trivial
        · exact i2 _ _ _ _ _
    · unfold unmarshalInP
      split
      · exact fed_bind _ _ (i1 _ _ _ _ _) fun _ => trivial
      · exact fed_bind _ _ (i3 _ _ _ _ _ _) fun _ => fed_lift _ _ fun _ => trivial
      · refine fed_lift _ _ fun _ => fed_lift _ _ fun vs1 => ?_
        unfold saveIf
        split
        · exact fed_bind _ _ (i3 _ _ _ _ _ _) fun _ => fed_lift _ _ fun _ => trivial
        · exact fun i => fed_bind _ _ (i3 _ _ _ _ _ _) fun _ => fed_lift _ _ fun _ => trivial
      · trivial
      · trivial
    · unfold contentP
      have key : ∀ off : Int, Fed (TProg.token fun
          | .startElement n as =>
            match elemField infos n with
            | some i =>
              match subs[i]?, (initGroup infos subs vs i)[i]? with
              | some s, some v => (unmarshalP io K f (d + 1) s v n as).bind fun w =>
                  contentP io K f d infos subs save ((initGroup infos subs vs i).set i w) data
              | _, _ => .fail (.val .unknownType)
            | none => (skipP K 0).bind fun _ => contentP io K f d infos subs save vs data
          | .endElement _ => cutIf save off fun inner => .ret (vs, data, inner)
          | .charData b => contentP io K f d infos subs save vs (data ++ b)
          | _ => contentP io K f d infos subs save vs data) := by
        intro off
        refine ⟨fun b => hungry_content _ _ _ _ _ _ _ _ _, fun t => ?_⟩
        cases t with
        | startElement n as =>
          dsimp only
          split
          · split
            · exact fed_bind _ _ (i1 _ _ _ _ _) fun _ => i3 _ _ _ _ _ _
            · trivial
          · exact fed_bind _ _ (fed_skip _ _).1 fun _ => i3 _ _ _ _ _ _
        | endElement n => cases save <;> first | trivial | exact fun _ => trivial
        | charData b => exact i3 _ _ _ _ _ _
        | _ => exact i3 _ _ _ _ _ _
      cases save with
      | none => exact key 0
      | some i => exact fun off => key off

theorem fed_doc (io : FloatIO) (F : Nat) (s : Sch) : Fed (docP io F s) :=
  fed_bind _ _ (fed_find F).1 fun _ => (fed_all io F F).2.1 _ _ _ _ _

theorem runT_hungry {α : Type} (n : Nat) (p : TProg α) (m : M) (hp : Hungry p) (h : m.d.eof = true) (hc : m.toClose = none) :
    (runT n p m).1 = .error .io ∨ (runT n p m).1 = .error (.un .fuel) := by
  induction p generalizing m with
  | ret a => exact hp.elim
  | fail e => cases e <;> first | exact hp.elim | exact .inr rfl
  | token k ih =>
    have h1 := tokenF_dead n m h hc
    rw [runT]
    cases ht : tokenF n m with
    | mk r m' =>
      rw [ht] at h1
      dsimp only at h1
      subst h1
      exact .inl rfl
  | save k ih => exact hp.elim
  | offset k ih => exact ih _ m (hp _) h hc
  | cut i j k ih => exact hp.elim

theorem runT_live {α : Type} (n : Nat) (p : TProg α) (m : M) (hp : Fed p) (h : m.d.eof = false)
    (h2 : (runT n p m).2.d.eof = true) :
    (runT n p m).1 = .error .io ∨ (runT n p m).1 = .error (.un .fuel) ∨
      ∃ e, charErr e ∧ (runT n p m).1 = .error (.un (.dec e)) := by
  induction p generalizing m with
  | ret a => rw [runT] at h2; rw [h] at h2; cases h2
  | fail e => rw [runT] at h2; rw [h] at h2; cases h2
  | token k ih =>
    have h3 := tokenF_live n m h
    rw [runT] at h2 ⊢
    cases ht : tokenF n m with
    | mk r m' =>
      rw [ht] at h3 h2
      dsimp only at h3
      cases r with
      | error e =>
        cases e with
        | io => exact .inl rfl
        | dec e =>
          rcases h3 h2 with h4 | ⟨e', h4, h5⟩ | ⟨b, h4, -⟩
          · cases h4
          · injection h5 with h5; injection h5 with h5; subst h5; exact .inr (.inr ⟨e, h4, rfl⟩)
          · cases h4
      | ok t =>
        dsimp only at h2 ⊢
        cases he : m'.d.eof with
        | false => exact ih t m' (hp.2 t) he h2
        | true =>
          rcases h3 he with h4 | ⟨e', h4, h5⟩ | ⟨b, h4, h5⟩
          · cases h4
          · cases h5
          · injection h4 with h4
            subst h4
            rcases runT_hungry n _ m' (hp.1 b) he h5 with h6 | h6
            · exact .inl h6
            · exact .inr (.inl h6)
  | save k ih =>
    rw [runT] at h2 ⊢
    refine ih _ _ (hp _) ?_ h2
    unfold beginSave
    split <;> exact h
  | offset k ih => exact ih _ m (hp _) h h2
  | cut i j k ih =>
    rw [runT] at h2 ⊢
    refine ih _ _ (hp _) ?_ h2
    unfold endSave
    dsimp only
    split <;> exact h

/-! ### C67 -/

/-- **C67, successes and failures.**  With a reader that fails after `doc`, `Unmarshal` succeeds exactly when it would have
succeeded at the end of the input, with the same value; and if it returns the error of the reader, the input up to there was
read to its end without success. -/
theorem C67_failure (io : FloatIO) (F : Nat) (s : Sch) (doc : Bytes) :
    (∀ v, (decodeF io F s doc).1 = .ok v ↔ (decode io F s doc).1 = .ok v) ∧
    ((decodeF io F s doc).1 = .error .io → (decode io F s doc).2.d.eof = true ∧ ∃ e, (decode io F s doc).1 = .error e) ∧
    (∀ e, (decodeF io F s doc).1 = .error (.un e) → (decode io F s doc).1 = .error e) := by
  obtain ⟨-, h⟩ := runT_eq F (docP io F s) (M.new doc)
  unfold decodeF decode
  cases hr : ((docP io F s).run F (M.new doc)).1 with
  | ok a =>
    rw [hr] at h
    dsimp only at h
    rw [h]
    simp
  | error e =>
    rw [hr] at h
    rcases h with h | ⟨h, h'⟩
    · rw [h]; simp
    · rw [h]; simp [h']

/-- **C67 (partial): the error of the reader is not hidden.**  If `Unmarshal` returns something else than the error of the
reader, and not an error of the check of characters, it has not come to the failure: it returns the same for every document that
begins with these bytes.  (Missing: the check of characters, see `C67_refuted`.  `fuel` stands for not returning.) -/
theorem C67_definite_partial (io : FloatIO) (F : Nat) (s : Sch) (a b : Bytes) (r : Except UErr Val)
    (h : (decodeF io F s a).1 = r.mapError .un) (hf : r ≠ .error .fuel) (hc : ∀ e, r = .error (.dec e) → ¬ charErr e) :
    (decode io F s (a ++ b)).1 = r := by
  obtain ⟨h1, h2⟩ := runT_eq F (docP io F s) (M.new a)
  have he : ((docP io F s).run F (M.new a)).2.d.eof = false := by
    cases he : ((docP io F s).run F (M.new a)).2.d.eof with
    | false => rfl
    | true =>
      rw [← h1] at he
      unfold decodeF at h
      rcases runT_live F (docP io F s) (M.new a) (fed_doc io F s) rfl he with h3 | h3 | ⟨e, h3, h4⟩
      · rw [h3] at h; cases r <;> cases h
      · rw [h3] at h
        cases r with
        | ok v => cases h
        | error e => injection h with h; injection h with h; subst h; exact absurd rfl hf
      · rw [h4] at h
        cases r with
        | ok v => cases h
        | error e' => injection h with h; injection h with h; subst h; exact absurd h3 (hc _ rfl)
  have hr : ((docP io F s).run F (M.new a)).1 = r := by
    unfold decodeF at h
    cases hr : ((docP io F s).run F (M.new a)).1 with
    | ok v =>
      rw [hr] at h2
      dsimp only at h2
      rw [h2] at h
      cases r with
      | ok w => injection h with h; rw [h]
      | error e => cases h
    | error e =>
      rw [hr] at h2
      rcases h2 with h2 | ⟨-, h2⟩
      · rw [h2] at h
        cases r with
        | ok w => cases h
        | error e' => injection h with h; injection h with h; rw [h]
      · rw [he] at h2; cases h2
  obtain ⟨a', -, h4⟩ := Direct.run_local F (docP io F s) (M.new a) a [] b (by simp [M.new, D.new]) he (Nat.zero_le _)
  unfold decode
  have h5 : M.new (a ++ b) = (M.new a).with (a ++ b) := rfl
  rw [h5, h4, hr]

/-- **C67, of documents.**  As `C67_definite_partial`, with the function of the document that the other theorems are
about: a value read through a reader that fails is that of every document beginning with the bytes read, and a failure of the
reader is never mistaken for the end of the input. -/
theorem C67_value (io : FloatIO) (F : Nat) (s : Sch) (a b : Bytes) (v : Val) (hF : bound (a ++ b) ≤ F)
    (h : (decodeF io F s a).1 = .ok v) : unmarshalDoc io s (a ++ b) = .ok v := by
  have h1 := C67_definite_partial io F s a b (.ok v) h (by simp) (by simp)
  have h2 := C66_decode io s (a ++ b) F hF
  cases hu : unmarshalDoc io s (a ++ b) with
  | ok w => rw [hu] at h2; rw [h2.1] at h1; injection h1 with h1; rw [h1]
  | error e =>
    rw [hu] at h2
    cases e with
    | syntaxErr x => obtain ⟨off, -, h3, -⟩ := h2; rw [h3] at h1; cases h1
    | hang => rw [h2] at h1; cases h1
    | _ => rw [h2] at h1; cases h1

/-- The full property: a result other than the error of the reader is that of every document with the same beginning. -/
def C67_statement : Prop := ∀ (io : FloatIO) (F : Nat) (s : Sch) (a b : Bytes) (r : Except UErr Val),
  (decodeF io F s a).1 = r.mapError .un → r ≠ .error .fuel → (decode io F s (a ++ b)).1 = r

/-- It is false: when the reader fails inside a character of more than one byte in text, `Unmarshal` reports invalid UTF-8
instead of the error of the reader. -/
theorem C67_refuted (io : FloatIO) : ¬ C67_statement := by
  intro h
  have h1 := h io 100 tExtType.sch (b!"<Ext>" ++ [0xC3]) ([0xA9] ++ b!"</Ext>") (.error (.dec (.syntaxError "invalid UTF-8" 1)))
    (by krfl) (by simp)
  have h2 : (decode io 100 tExtType.sch (b!"<Ext>" ++ [0xC3] ++ ([0xA9] ++ b!"</Ext>"))).1 =
    .ok (.struct ⟨[], b!"Ext"⟩ [.slice [], .str [0xC3, 0xA9]]) := by krfl
  rw [h2] at h1
  cases h1

/-- A reader that fails in the middle of a manifest, at the end of a tag, and after the root element. -/
example (io : FloatIO) : (decodeF io 100 tExtType.sch (b!"<Ext><a")).1 = .error .io ∧
    (decodeF io 100 tExtType.sch (b!"<Ext>x")).1 = .error .io ∧
    (decodeF io 100 tExtType.sch (b!"<Ext>x</Ext>")).1 = .ok (.struct ⟨[], b!"Ext"⟩ [.slice [], .str (b!"x")]) ∧
    (decodeF io 100 tExtType.sch (b!"<Ext>x</Exx>y")).1 = .error (.un (.dec (.syntaxError "element closed by another" 1))) := by
  refine ⟨?_, ?_, ?_, ?_⟩ <;> krfl

end Verif.ReadErr

import Verif.DurationLemmas
import Verif.DurationSpec

/-
Characterisation of the strings accepted by the model of `ParseDuration` and of the results.
-/
namespace Verif.Duration

open Verif Verif.DurationSpec

/-! ### Scanning a numeral -/

theorem scan_digits (n : Bytes) (u : UInt8) (r : Bytes) (d : Bool) (hn : ∀ b ∈ n, isDigit b = true)
    (hu : isDigit u = false) (hd : u ≠ ch%'.') : scan (n ++ u :: r) d = (n, u :: r, d) := by
  induction n with
  | nil => simp [scan, hu, hd]
  | cons b n ih =>
    have hb := hn b List.mem_cons_self
    have := ih (fun x hx => hn x (List.mem_cons_of_mem _ hx))
    simp [scan, hb, this]

theorem dot_not_digit : isDigit ch%'.' = false := by decide

theorem scan_dot (ip fp : Bytes) (u : UInt8) (r : Bytes) (hi : ∀ b ∈ ip, isDigit b = true)
    (hf : ∀ b ∈ fp, isDigit b = true) (hu : isDigit u = false) (hd : u ≠ ch%'.') :
    scan (ip ++ ch%'.' :: fp ++ u :: r) false = (ip ++ ch%'.' :: fp, u :: r, true) := by
  induction ip with
  | nil =>
    have := scan_digits fp u r true hf hu hd
    simp [scan, dot_not_digit, this]
  | cons b n ih =>
    have hb := hi b List.mem_cons_self
    have := ih (fun x hx => hi x (List.mem_cons_of_mem _ hx))
    simp at this
    simp [scan, hb, this]

theorem scan_true_spec (s : Bytes) : ∃ n r, scan s true = (n, r, true) ∧ s = n ++ r ∧ ∀ b ∈ n, isDigit b = true := by
  induction s with
  | nil => exact ⟨[], [], by simp [scan]⟩
  | cons b s ih =>
    obtain ⟨n, r, h1, h2, h3⟩ := ih
    by_cases hb : isDigit b = true
    · refine ⟨b :: n, r, by simp [scan, hb, h1], by simp [h2], ?_⟩
      intro x hx
      rcases List.mem_cons.mp hx with rfl | hx
      · exact hb
      · exact h3 x hx
    · exact ⟨[], b :: s, by simp [scan, hb], by simp, by simp⟩

/-- The scanned numeral is digits, or digits with one dot. -/
theorem scan_false_spec (s : Bytes) : ∃ n r d, scan s false = (n, r, d) ∧ s = n ++ r ∧
    ((d = false ∧ ∀ b ∈ n, isDigit b = true) ∨
     (d = true ∧ ∃ ip fp, n = ip ++ ch%'.' :: fp ∧ (∀ b ∈ ip, isDigit b = true) ∧ ∀ b ∈ fp, isDigit b = true)) := by
  induction s with
  | nil => exact ⟨[], [], false, by simp [scan]⟩
  | cons b s ih =>
    obtain ⟨n, r, d, h1, h2, h3⟩ := ih
    by_cases hb : isDigit b = true
    · refine ⟨b :: n, r, d, by simp [scan, hb, h1], by simp [h2], ?_⟩
      rcases h3 with ⟨hd, h3⟩ | ⟨hd, ip, fp, he, hi, hf⟩
      · left; refine ⟨hd, ?_⟩
        intro x hx
        rcases List.mem_cons.mp hx with rfl | hx
        · exact hb
        · exact h3 x hx
      · right; refine ⟨hd, b :: ip, fp, by simp [he], ?_, hf⟩
        intro x hx
        rcases List.mem_cons.mp hx with rfl | hx
        · exact hb
        · exact hi x hx
    · by_cases hdot : b = ch%'.'
      · obtain ⟨n, r, h1, h2, h3⟩ := scan_true_spec s
        refine ⟨b :: n, r, true, by simp [scan, hb, hdot, h1, dot_not_digit], by simp [h2], Or.inr ⟨rfl, [], n, by simp [hdot], by simp, h3⟩⟩
      · exact ⟨[], b :: s, false, by simp [scan, hb, hdot], by simp, Or.inl ⟨rfl, by simp⟩⟩

/-! ### One step of the loop -/

/-- Numerals that may precede designator `u`. -/
def FieldNum (u : UInt8) (n : Bytes) : Prop :=
  Digits n ∨ (u = ch%'S' ∧ ∃ ip fp, n = ip ++ ch%'.' :: fp ∧ (∀ b ∈ ip, isDigit b = true) ∧ ∀ b ∈ fp, isDigit b = true)

theorem rank_unit {u : UInt8} (h : rank u ≠ 0) : u = ch%'D' ∨ u = ch%'H' ∨ u = ch%'M' ∨ u = ch%'S' := by
  unfold rank at h
  by_cases h1 : u = ch%'D'
  · exact Or.inl h1
  by_cases h2 : u = ch%'H'
  · exact Or.inr (Or.inl h2)
  by_cases h3 : u = ch%'M'
  · exact Or.inr (Or.inr (Or.inl h3))
  by_cases h4 : u = ch%'S'
  · exact Or.inr (Or.inr (Or.inr h4))
  · simp [h1, h2, h3, h4] at h

theorem unit_not_num {u : UInt8} (h : rank u ≠ 0) : isDigit u = false ∧ u ≠ ch%'.' := by
  rcases rank_unit h with rfl | rfl | rfl | rfl <;> decide

theorem FieldNum.head {u : UInt8} {n : Bytes} (h : FieldNum u n) :
    ∃ c cs, n = c :: cs ∧ c ≠ ch%'T' ∧ c ≠ ch%'-' := by
  have hT : isDigit ch%'T' = false := by decide
  have hM : isDigit ch%'-' = false := by decide
  have dig : ∀ c : UInt8, isDigit c = true → c ≠ ch%'T' ∧ c ≠ ch%'-' := by
    intro c hc
    constructor
    · rintro rfl; rw [hT] at hc; cases hc
    · rintro rfl; rw [hM] at hc; cases hc
  rcases h with ⟨hne, hd⟩ | ⟨_, ip, fp, rfl, hi, _⟩
  · cases n with
    | nil => exact absurd rfl hne
    | cons c cs => exact ⟨c, cs, rfl, dig c (hd c List.mem_cons_self)⟩
  · cases ip with
    | nil => exact ⟨_, fp, rfl, by decide, by decide⟩
    | cons c cs => exact ⟨c, _, rfl, dig c (hi c List.mem_cons_self)⟩

/-- The successful outcomes of the loop, as a relation without fuel. -/
inductive Run (a : Arch) : PSt → Bytes → Int → Prop
  | done {st} : st.seenAny = true → Run a st [] st.total
  | tee {st s v} : st.afterT = false → Run a { st with afterT := true } s v → Run a st (ch%'T' :: s) v
  | field {st u n s t v} : FieldNum u n → st.last < rank u → (u = ch%'D' ∨ st.afterT = true) →
      addField a u n st.total = .ok t →
      Run a { st with seenAny := true, last := rank u, total := t } s v → Run a st (n ++ u :: s) v

theorem parseLoop_sound (a : Arch) (k : Nat) (s : Bytes) (st : PSt) (v : Int)
    (h : parseLoop a k s st = .ok v) : Run a st s v := by
  induction k generalizing s st with
  | zero =>
    cases s with
    | nil =>
      unfold parseLoop at h
      split at h
      · next hs => injection h with h; subst h; exact .done hs
      · cases h
    | cons c cs => simp [parseLoop] at h
  | succ k ih =>
    cases s with
    | nil =>
      unfold parseLoop at h
      split at h
      · next hs => injection h with h; subst h; exact .done hs
      · cases h
    | cons c cs =>
      unfold parseLoop at h
      by_cases hT : c = ch%'T'
      · rw [if_pos hT] at h
        split at h
        · cases h
        · next hn => subst hT; exact .tee (by simpa using hn) (ih _ _ h)
      · rw [if_neg hT] at h
        by_cases hm : c = ch%'-'
        · rw [if_pos hm] at h; cases h
        · rw [if_neg hm] at h
          obtain ⟨n, r, d, hs1, hs2, hs3⟩ := scan_false_spec (c :: cs)
          rw [hs1] at h
          simp only at h
          split at h
          · cases h
          · next hne =>
            cases r with
            | nil => cases h
            | cons u r =>
              simp only at h
              split at h
              · cases h
              split at h
              · cases h
              split at h
              · cases h
              split at h
              · cases h
              next h1 h2 h3 h4 =>
              split at h
              · cases h
              next t ht =>
              rw [hs2]
              have hu : u = ch%'D' ∨ st.afterT = true := by
                by_cases hD : u = ch%'D'
                · exact Or.inl hD
                · right; by_contra hc; exact h3 ⟨hD, by simpa using hc⟩
              refine .field ?_ (by omega) hu ht (ih _ _ h)
              rcases hs3 with ⟨_, hd⟩ | ⟨hd, ip, fp, he, hi, hf⟩
              · exact Or.inl ⟨hne, hd⟩
              · right
                refine ⟨?_, ip, fp, he, hi, hf⟩
                by_contra hc; exact h4 ⟨hd, hc⟩

theorem parseLoop_complete (a : Arch) {st : PSt} {s : Bytes} {v : Int} (h : Run a st s v) :
    ∀ k, s.length ≤ k → parseLoop a k s st = .ok v := by
  induction h with
  | done hs => intro k _; cases k <;> simp [parseLoop, hs]
  | tee hn _ ih =>
    intro k hk
    cases k with
    | zero => simp at hk
    | succ k =>
      unfold parseLoop
      rw [if_pos rfl, hn]
      simp only [Bool.false_eq_true, if_false]
      exact ih k (by simp at hk; omega)
  | @field st u n s t v hn hr hu ht _ ih =>
    intro k hk
    obtain ⟨c, cs, he, hcT, hcM⟩ := hn.head
    cases k with
    | zero => simp [he] at hk
    | succ k =>
      have hr0 : rank u ≠ 0 := by omega
      have ⟨hu1, hu2⟩ := unit_not_num hr0
      have hscan : ∃ d, scan (n ++ u :: s) false = (n, u :: s, d) ∧ (d = true → u = ch%'S') := by
        rcases hn with hn | ⟨hS, ip, fp, rfl, hi, hf⟩
        · exact ⟨false, scan_digits n u s false hn.2 hu1 hu2, by simp⟩
        · exact ⟨true, scan_dot ip fp u s hi hf hu1 hu2, fun _ => hS⟩
      obtain ⟨d, hsc, hd⟩ := hscan
      have hcons : n ++ u :: s = c :: (cs ++ u :: s) := by simp [he]
      rw [hcons] at hsc ⊢
      unfold parseLoop
      rw [if_neg hcT, if_neg hcM, hsc]
      simp only
      rw [if_neg (by simp [he])]
      rw [if_neg hr0, if_neg (by omega)]
      have c1 : ¬ (u ≠ ch%'D' ∧ st.afterT = false) := by
        rintro ⟨x, y⟩
        rcases hu with hu | hu
        · exact x hu
        · rw [hu] at y; cases y
      have c2 : ¬ (d = true ∧ u ≠ ch%'S') := by
        rintro ⟨x, y⟩; exact y (hd x)
      rw [if_neg c1, if_neg c2, ht]
      apply ih
      simp [he] at hk; omega

theorem parseLoop_iff (a : Arch) (s : Bytes) (st : PSt) (v : Int) :
    parseLoop a s.length s st = .ok v ↔ Run a st s v :=
  ⟨parseLoop_sound a _ s st v, fun h => parseLoop_complete a h _ le_rfl⟩

/-! ### Stages: at most one field per designator, in order -/

/-- Effect of an optional field on the total. -/
def AddOpt (a : Arch) (u : UInt8) (o : Option Bytes) (t v : Int) : Prop :=
  match o with
  | none => v = t
  | some n => FieldNum u n ∧ addField a u n t = .ok v

theorem rank_le (u : UInt8) : rank u ≤ 4 := by unfold rank; split_ifs <;> omega

theorem rank_inj {u w : UInt8} (h : rank u = rank w) (h0 : rank u ≠ 0) : u = w := by
  rcases rank_unit h0 with rfl | rfl | rfl | rfl <;>
    rcases rank_unit (h ▸ h0) with rfl | rfl | rfl | rfl <;> first | rfl | (exfalso; revert h; decide)

/-- After `T`, a unit is either present exactly at the front or absent. -/
theorem run_stage (a : Arch) (w : UInt8) (hw : rank w ≠ 0) (seen : Bool) (t : Int) (s : Bytes) (v : Int) :
    Run a ⟨true, seen, rank w - 1, t⟩ s v ↔
      ∃ (o : Option Bytes) (s' : Bytes) (t' : Int), s = fld w o ++ s' ∧ AddOpt a w o t t' ∧
        Run a ⟨true, seen || o.isSome, rank w, t'⟩ s' v := by
  constructor
  · intro h
    generalize hst : (⟨true, seen, rank w - 1, t⟩ : PSt) = st at h
    cases h with
    | done hs => subst hst; exact ⟨none, [], t, rfl, rfl, by simpa using Run.done (a := a) (st := ⟨true, seen, rank w, t⟩) hs⟩
    | tee hn _ => subst hst; simp at hn
    | @field _ u n s t' v hn hr hu ht hrun =>
      subst hst
      simp only at hr hrun ht
      by_cases he : rank u = rank w
      · have : u = w := rank_inj he (by omega)
        subst this
        exact ⟨some n, s, t', by simp [fld], ⟨hn, ht⟩, by simpa using hrun⟩
      · refine ⟨none, n ++ u :: s, t, rfl, rfl, ?_⟩
        exact Run.field hn (by simp only; omega) (Or.inr rfl) ht (by simpa using hrun)
  · rintro ⟨o, s', t', rfl, ho, hrun⟩
    cases o with
    | none =>
      simp only [AddOpt] at ho; subst ho
      simp only [fld, List.nil_append, Option.isSome_none, Bool.or_false] at hrun ⊢
      generalize hst : (⟨true, seen, rank w, t'⟩ : PSt) = st at hrun
      cases hrun with
      | done hs => subst hst; exact Run.done (a := a) (st := ⟨true, seen, rank w - 1, t'⟩) hs
      | tee hn _ => subst hst; simp at hn
      | @field _ u n s t2 v hn hr hu ht hrun =>
        subst hst
        exact Run.field hn (by simp only at hr ⊢; omega) (Or.inr rfl) ht hrun
    | some n =>
      obtain ⟨h1, h2⟩ := ho
      simp only [fld, List.append_assoc, List.cons_append, List.nil_append]
      exact Run.field h1 (by simp only; omega) (Or.inr rfl) h2 (by simpa using hrun)

theorem run_last (a : Arch) (seen : Bool) (t : Int) (s : Bytes) (v : Int) :
    Run a ⟨true, seen, 4, t⟩ s v ↔ s = [] ∧ seen = true ∧ v = t := by
  constructor
  · intro h
    generalize hst : (⟨true, seen, 4, t⟩ : PSt) = st at h
    cases h with
    | done hs => subst hst; exact ⟨rfl, hs, rfl⟩
    | tee hn _ => subst hst; simp at hn
    | @field _ u n s t' v hn hr hu ht hrun =>
      subst hst; have := rank_le u; simp only at hr; omega
  · rintro ⟨rfl, hs, rfl⟩
    exact Run.done (st := ⟨true, seen, 4, v⟩) hs

/-- What may follow the day field after `T`. -/
theorem run_after_D (a : Arch) (seen : Bool) (t : Int) (s : Bytes) (v : Int) :
    Run a ⟨true, seen, 1, t⟩ s v ↔
      ∃ H M S t1 t2, s = fld ch%'H' H ++ fld ch%'M' M ++ fld ch%'S' S ∧
        AddOpt a ch%'H' H t t1 ∧ AddOpt a ch%'M' M t1 t2 ∧ AddOpt a ch%'S' S t2 v ∧
        (seen || H.isSome || M.isSome || S.isSome) = true := by
  have e1 := run_stage a ch%'H' (by decide) seen t s v
  have e2 := fun seen t s => run_stage a ch%'M' (by decide) seen t s v
  have e3 := fun seen t s => run_stage a ch%'S' (by decide) seen t s v
  rw [show rank ch%'H' = 2 by decide] at e1
  simp only [show rank ch%'M' = 3 by decide] at e2
  simp only [show rank ch%'S' = 4 by decide, run_last] at e3
  simp only [Nat.add_one_sub_one, show 4 - 1 = 3 from rfl, show 3 - 1 = 2 from rfl, show 2 - 1 = 1 from rfl] at e1 e2 e3
  rw [e1]
  simp only [e2, e3]
  constructor
  · rintro ⟨H, s1, t1, rfl, hH, M, s2, t2, rfl, hM, S, s3, t3, rfl, hS, rfl, hseen, rfl⟩
    exact ⟨H, M, S, t1, t2, by simp, hH, hM, hS, hseen⟩
  · rintro ⟨H, M, S, t1, t2, rfl, hH, hM, hS, hseen⟩
    exact ⟨H, _, t1, List.append_assoc _ _ _, hH, M, _, t2, rfl, hM, S, [], v, by simp, hS, rfl, hseen, rfl⟩

/-- All accepted strings, field by field. -/
theorem run_init (a : Arch) (s : Bytes) (v : Int) :
    Run a ⟨false, false, 0, 0⟩ s v ↔
      ∃ (T : TPos) (D H M S : Option Bytes) (t0 t1 t2 : Int),
        s = (if T = .beforeD then [ch%'T'] else []) ++ fld ch%'D' D ++ (if T = .afterD then [ch%'T'] else []) ++
          fld ch%'H' H ++ fld ch%'M' M ++ fld ch%'S' S ∧
        AddOpt a ch%'D' D 0 t0 ∧ AddOpt a ch%'H' H t0 t1 ∧ AddOpt a ch%'M' M t1 t2 ∧ AddOpt a ch%'S' S t2 v ∧
        (D.isSome || H.isSome || M.isSome || S.isSome) = true ∧
        (H ≠ none ∨ M ≠ none ∨ S ≠ none → T ≠ .absent) := by
  have e0 := fun t s => run_stage a ch%'D' (by decide) false t s v
  simp only [show rank ch%'D' = 1 by decide, show 1 - 1 = 0 from rfl, run_after_D] at e0
  constructor
  · intro h
    generalize hst : (⟨false, false, 0, 0⟩ : PSt) = st at h
    cases h with
    | done hs => subst hst; simp at hs
    | @tee _ s v hn hrun =>
      subst hst
      simp only at hrun
      obtain ⟨D, s1, t0, rfl, hD, H, M, S, t1, t2, rfl, hH, hM, hS, hany⟩ := (e0 0 s).mp hrun
      exact ⟨.beforeD, D, H, M, S, t0, t1, t2, by simp, hD, hH, hM, hS, by simpa using hany, by simp⟩
    | @field _ u n s t0 v hn hr hu ht hrun =>
      subst hst
      have hu : u = ch%'D' := by simpa using hu
      subst hu
      simp only [show rank ch%'D' = 1 by decide] at hrun
      have hD : AddOpt a ch%'D' (some n) 0 t0 := ⟨hn, ht⟩
      generalize hst : (⟨false, true, 1, t0⟩ : PSt) = st at hrun
      cases hrun with
      | done hs =>
        subst hst
        exact ⟨.absent, some n, none, none, none, t0, t0, t0, by simp [fld], hD, rfl, rfl, rfl, by simp, by simp⟩
      | @tee _ s v hn2 hrun =>
        subst hst
        obtain ⟨H, M, S, t1, t2, rfl, hH, hM, hS, -⟩ := (run_after_D a true t0 s v).mp hrun
        exact ⟨.afterD, some n, H, M, S, t0, t1, t2, by simp [fld], hD, hH, hM, hS, by simp, by simp⟩
      | @field _ u n2 s t3 v hn2 hr2 hu2 ht2 hrun =>
        subst hst
        have hu : u = ch%'D' := by simpa using hu2
        subst hu
        exact absurd hr2 (by simp only; decide)
  · rintro ⟨T, D, H, M, S, t0, t1, t2, rfl, hD, hH, hM, hS, hany, hT⟩
    cases T with
    | beforeD =>
      have := (e0 0 (fld ch%'D' D ++ (fld ch%'H' H ++ fld ch%'M' M ++ fld ch%'S' S))).mpr
        ⟨D, _, t0, rfl, hD, H, M, S, t1, t2, rfl, hH, hM, hS, by simpa using hany⟩
      simpa using Run.tee (st := ⟨false, false, 0, 0⟩) rfl this
    | afterD =>
      cases D with
      | none =>
        simp only [AddOpt] at hD; subst hD
        have := (e0 0 (fld ch%'D' none ++ (fld ch%'H' H ++ fld ch%'M' M ++ fld ch%'S' S))).mpr
          ⟨none, _, 0, rfl, rfl, H, M, S, t1, t2, rfl, hH, hM, hS, by simpa using hany⟩
        simpa [fld] using Run.tee (st := ⟨false, false, 0, 0⟩) rfl this
      | some n =>
        have := (run_after_D a true t0 (fld ch%'H' H ++ fld ch%'M' M ++ fld ch%'S' S) v).mpr
          ⟨H, M, S, t1, t2, rfl, hH, hM, hS, by simp⟩
        have := Run.tee (st := ⟨false, true, 1, t0⟩) rfl this
        have := Run.field (st := ⟨false, false, 0, 0⟩) hD.1 (by decide) (Or.inl rfl) hD.2 this
        simpa [fld] using this
    | absent =>
      have hHn : H = none := by by_contra hc; exact hT (Or.inl hc) rfl
      have hMn : M = none := by by_contra hc; exact hT (Or.inr (Or.inl hc)) rfl
      have hSn : S = none := by by_contra hc; exact hT (Or.inr (Or.inr hc)) rfl
      subst hHn hMn hSn
      simp only [AddOpt] at hH hM hS; subst hH hM hS
      cases D with
      | none => simp at hany
      | some n =>
        have := Run.done (a := a) (st := ⟨false, true, 1, v⟩) rfl
        have := Run.field (st := ⟨false, false, 0, 0⟩) hD.1 (by decide) (Or.inl rfl) hD.2 this
        simpa [fld] using this

/-! ### Values of the fields -/

theorem splitDot_digits {n : Bytes} (h : ∀ b ∈ n, isDigit b = true) : splitDot n = (n, []) := by
  induction n with
  | nil => rfl
  | cons b n ih =>
    have hb : b ≠ ch%'.' := by
      rintro rfl
      have := h _ List.mem_cons_self
      rw [dot_not_digit] at this; cases this
    simp [splitDot, hb, ih (fun x hx => h x (List.mem_cons_of_mem _ hx))]

theorem splitDot_dot {ip : Bytes} (fp : Bytes) (h : ∀ b ∈ ip, isDigit b = true) :
    splitDot (ip ++ ch%'.' :: fp) = (ip, fp) := by
  induction ip with
  | nil => simp [splitDot]
  | cons b n ih =>
    have hb : b ≠ ch%'.' := by
      rintro rfl
      have := h _ List.mem_cons_self
      rw [dot_not_digit] at this; cases this
    simp [splitDot, hb, ih (fun x hx => h x (List.mem_cons_of_mem _ hx))]

theorem flOverflow_eq : flOverflow = maxSec := by
  unfold flOverflow maxSec; rw [pow2_eq, pow2_eq, zpow_ofNat, zpow_ofNat]

theorem parseUint64_iff {n : Bytes} (h : Digits n) (m : Nat) :
    parseUint64 n = some m ↔ decVal n < 2^64 ∧ m = decVal n := by
  unfold parseUint64
  rw [if_neg h.1, if_pos (List.all_eq_true.mpr h.2)]
  split
  · next h => simp only [h, true_and, Option.some.injEq, eq_comm]
  · next h => simp only [h, false_and, reduceCtorEq]

theorem parseFloat_iff {n : Bytes} (f : ℚ) : FieldNum ch%'S' n →
    (parseFloat n = some f ↔ ∃ v, SecNumeral n v ∧ v < maxSec ∧ f = fl v) := by
  intro h
  rw [← flOverflow_eq]
  have hfd : ∀ (x : ℚ), flo x = some f ↔ x < flOverflow ∧ f = fl x := by
    intro x; unfold flo
    by_cases hx : flOverflow ≤ x
    · simp [hx]
    · simp [hx, eq_comm]; intro _; simpa using hx
  rcases h with h | ⟨_, ip, fp, rfl, hi, hf⟩
  · unfold parseFloat
    rw [splitDot_digits h.2]
    simp only [numeralVal, decVal_nil', List.length_nil]
    rw [if_neg (by simp [h.1]), hfd]
    constructor
    · rintro ⟨a, b⟩; exact ⟨_, .int n h, by simpa using a, by simpa using b⟩
    · rintro ⟨v, hv, a, b⟩
      have : v = decVal n := secNumeral_int h hv
      subst this; simpa using ⟨a, b⟩
  · unfold parseFloat
    rw [splitDot_dot fp hi]
    simp only [numeralVal]
    by_cases he : ip = [] ∧ fp = []
    · rw [if_pos he]
      obtain ⟨rfl, rfl⟩ := he
      simp
      intro v hv
      exact absurd hv secNumeral_dot
    · rw [if_neg he, hfd]
      constructor
      · rintro ⟨a, b⟩; exact ⟨_, .frac ip fp hi hf he, a, b⟩
      · rintro ⟨v, hv, a, b⟩
        have := secNumeral_frac hi hv
        subst this; exact ⟨a, b⟩
where
  decVal_nil' : decVal [] = 0 := rfl
  secNumeral_int {n : Bytes} {v : ℚ} (h : Digits n) (hv : SecNumeral n v) : v = decVal n := by
    cases hv with
    | int _ _ => rfl
    | frac ip fp _ _ _ =>
      have := h.2 ch%'.' (by simp)
      rw [dot_not_digit] at this; cases this
  secNumeral_dot {v : ℚ} : ¬ SecNumeral [ch%'.'] v := by
    intro h
    generalize hn : [ch%'.'] = n at h
    cases h with
    | int _ h => subst hn; have := h.2 ch%'.' (by simp); rw [dot_not_digit] at this; cases this
    | frac ip fp hi hf hne =>
      have hl := congrArg List.length hn
      simp at hl
      exact hne ⟨List.eq_nil_of_length_eq_zero (by omega), List.eq_nil_of_length_eq_zero (by omega)⟩
  secNumeral_frac {ip fp : Bytes} {v : ℚ} (hi : ∀ b ∈ ip, isDigit b = true)
      (hv : SecNumeral (ip ++ ch%'.' :: fp) v) : v = decVal ip + (decVal fp : ℚ) / 10 ^ fp.length := by
    generalize hn : ip ++ ch%'.' :: fp = n at hv
    cases hv with
    | int _ h =>
      subst hn
      have := h.2 ch%'.' (by simp)
      rw [dot_not_digit] at this; cases this
    | frac ip' fp' hi' hf' hne =>
      have h1 := splitDot_dot fp hi
      have h2 := splitDot_dot fp' hi'
      rw [hn] at h1
      rw [h1] at h2
      simp only [Prod.mk.injEq] at h2
      rw [h2.1, h2.2]

theorem fieldNum_of_sec {n : Bytes} {v : ℚ} (h : SecNumeral n v) : FieldNum ch%'S' n := by
  cases h with
  | int _ h => exact Or.inl h
  | frac ip fp hi hf _ => exact Or.inr ⟨rfl, ip, fp, rfl, hi, hf⟩

/-- The seconds contribution: two roundings and a truncation. -/
def secNanos (a : Arch) (sv : ℚ) : Int := f64toI64 a (flo (fl sv * 1000000000))

theorem addOpt_int (a : Arch) (u : UInt8) (c : Int) (o : Option Bytes) (t v : Int)
    (hu : u ≠ ch%'S')
    (hadd : ∀ n m, Digits n → (parseUint64 n = some m → addField a u n t = .ok (i64 (t + c * m))) ∧
        (parseUint64 n = none → ∀ x, addField a u n t ≠ .ok x)) :
    AddOpt a u o t v ↔ (∀ n ∈ o, Digits n ∧ decVal n < 2^64) ∧
      v = (match o with | none => t | some n => i64 (t + c * decVal n)) := by
  cases o with
  | none => simp [AddOpt]
  | some n =>
    simp only [AddOpt, Option.mem_def, Option.some.injEq, forall_eq']
    constructor
    · rintro ⟨h1, h2⟩
      have hd : Digits n := by
        rcases h1 with h | ⟨h, _⟩
        · exact h
        · exact absurd h hu
      cases hp : parseUint64 n with
      | none => exact absurd h2 ((hadd n 0 hd).2 hp v)
      | some m =>
        have := (hadd n m hd).1 hp
        rw [this] at h2; injection h2 with h2
        obtain ⟨h3, rfl⟩ := (parseUint64_iff hd m).mp hp
        exact ⟨⟨hd, h3⟩, h2.symm⟩
    · rintro ⟨⟨hd, h3⟩, rfl⟩
      exact ⟨Or.inl hd, (hadd n _ hd).1 ((parseUint64_iff hd _).mpr ⟨h3, rfl⟩)⟩

theorem i64_congr {x y : Int} (h : x % 2^64 = y % 2^64) : i64 x = i64 y := by
  unfold i64; omega

theorem addOpt_D (a : Arch) (o : Option Bytes) (t v : Int) : AddOpt a ch%'D' o t v ↔
    (∀ n ∈ o, Digits n ∧ decVal n < 2^64) ∧
      v = (match o with | none => t | some n => i64 (t + 86400000000000 * decVal n)) := by
  apply addOpt_int
  · decide
  · intro n m _
    unfold addField
    rw [if_pos rfl]
    constructor
    · intro h; simp only [h, Except.ok.injEq]; apply i64_congr; unfold i64; omega
    · intro h; rw [h]; simp

theorem addOpt_H (a : Arch) (o : Option Bytes) (t v : Int) : AddOpt a ch%'H' o t v ↔
    (∀ n ∈ o, Digits n ∧ decVal n < 2^64) ∧
      v = (match o with | none => t | some n => i64 (t + 3600000000000 * decVal n)) := by
  apply addOpt_int
  · decide
  · intro n m _
    unfold addField
    rw [if_neg (by decide), if_pos rfl]
    constructor
    · intro h; simp only [h, Except.ok.injEq]; apply i64_congr; unfold i64; omega
    · intro h; rw [h]; simp

theorem addOpt_M (a : Arch) (o : Option Bytes) (t v : Int) : AddOpt a ch%'M' o t v ↔
    (∀ n ∈ o, Digits n ∧ decVal n < 2^64) ∧
      v = (match o with | none => t | some n => i64 (t + 60000000000 * decVal n)) := by
  apply addOpt_int
  · decide
  · intro n m _
    unfold addField
    rw [if_neg (by decide), if_neg (by decide), if_pos rfl]
    constructor
    · intro h; simp only [h, Except.ok.injEq]; apply i64_congr; unfold i64; omega
    · intro h; rw [h]; simp

theorem addOpt_S (a : Arch) (o : Option Bytes) (t v : Int) : AddOpt a ch%'S' o t v ↔
    ∃ sv, SecOK o sv ∧
      v = (match o with | none => t | some _ => i64 (t + secNanos a sv)) := by
  cases o with
  | none => simp [AddOpt, SecOK]
  | some n =>
    simp only [AddOpt, SecOK]
    have hadd : addField a ch%'S' n t = (match parseFloat n with
        | none => .error .seconds
        | some f => .ok (i64 (t + f64toI64 a (flo (f * 1000000000))))) := by
      unfold addField
      rw [if_neg (by decide), if_neg (by decide), if_neg (by decide)]
      cases parseFloat n <;> rfl
    rw [hadd]
    constructor
    · rintro ⟨h1, h2⟩
      cases hp : parseFloat n with
      | none => rw [hp] at h2; cases h2
      | some f =>
        rw [hp] at h2; injection h2 with h2
        obtain ⟨sv, h3, h4, rfl⟩ := (parseFloat_iff f h1).mp hp
        exact ⟨sv, ⟨h3, h4⟩, h2.symm⟩
    · rintro ⟨sv, ⟨h3, h4⟩, rfl⟩
      have h1 := fieldNum_of_sec h3
      rw [(parseFloat_iff (fl sv) h1).mpr ⟨sv, h3, h4, rfl⟩]
      exact ⟨h1, rfl⟩

/-- The result for valid fields. -/
def Fields.result (a : Arch) (f : Fields) : Int :=
  i64 (86400000000000 * fldVal f.D + 3600000000000 * fldVal f.H + 60000000000 * fldVal f.M +
    (if f.S = none then 0 else secNanos a f.sv))

/-- `ParseDuration` succeeds exactly on the strings of the grammar, with the stated result. -/
theorem parse_iff (a : Arch) (s : Bytes) (v : Int) :
    parse a s = .ok v ↔ ∃ f : Fields, f.Valid ∧ s = f.text ∧ v = Fields.result a f := by
  have hparse : parse a s = .ok v ↔ ∃ cs, s = ch%'P' :: cs ∧ 2 ≤ cs.length ∧ Run a ⟨false, false, 0, 0⟩ cs v := by
    unfold parse
    cases s with
    | nil => simp
    | cons c cs =>
      simp only [List.length_cons]
      by_cases hl : cs.length + 1 < 3
      · rw [if_pos hl]; simp; intro _ _; omega
      · rw [if_neg hl]
        by_cases h1 : c = ch%'-'
        · rw [if_pos h1]; subst h1; simp
        · rw [if_neg h1]
          by_cases h2 : c = ch%'P'
          · subst h2
            rw [if_neg (by simp), parseLoop_iff]
            constructor
            · intro h; exact ⟨cs, rfl, by omega, h⟩
            · rintro ⟨cs', he, _, h⟩; injection he with _ he; subst he; exact h
          · rw [if_pos h2]; simp [h2]
  rw [hparse]
  simp only [run_init, addOpt_D, addOpt_H, addOpt_M, addOpt_S]
  constructor
  · rintro ⟨cs, rfl, hlen, T, D, H, M, S, t0, t1, t2, rfl, ⟨hD, rfl⟩, ⟨hH, rfl⟩, ⟨hM, rfl⟩, ⟨sv, hS, rfl⟩, hany, hT⟩
    refine ⟨⟨D, H, M, S, sv, T⟩, ⟨hD, hH, hM, hS, hT, ?_⟩, rfl, ?_⟩
    · cases D <;> cases H <;> cases M <;> cases S <;> simp at hany ⊢
    · unfold Fields.result
      cases D <;> cases H <;> cases M <;> cases S <;> simp only [fldVal, if_true, reduceCtorEq, if_false] <;>
        unfold i64 <;> omega
  · rintro ⟨⟨D, H, M, S, sv, T⟩, ⟨hD, hH, hM, hS, hT, hany⟩, rfl, rfl⟩
    refine ⟨_, rfl, ?_, T, D, H, M, S, _, _, _, rfl, ⟨hD, rfl⟩, ⟨hH, rfl⟩, ⟨hM, rfl⟩, ⟨sv, hS, ?_⟩, ?_, hT⟩
    · -- at least one digit and a designator
      have key : ∀ (u : UInt8) (n : Bytes), n ≠ [] → 2 ≤ (fld u (some n)).length := by
        intro u n hn
        have := List.length_pos_of_ne_nil hn
        simp [fld]; omega
      simp only [List.length_append]
      rcases hany with h | h | h | h
      · cases D with
        | none => exact absurd rfl h
        | some n => have := key ch%'D' n (hD n rfl).1.1; omega
      · cases H with
        | none => exact absurd rfl h
        | some n => have := key ch%'H' n (hH n rfl).1.1; omega
      · cases M with
        | none => exact absurd rfl h
        | some n => have := key ch%'M' n (hM n rfl).1.1; omega
      · cases S with
        | none => exact absurd rfl h
        | some n =>
          obtain ⟨c, cs, he, _⟩ := (fieldNum_of_sec hS.1).head
          have := key ch%'S' n (by simp [he]); omega
    · unfold Fields.result
      cases D <;> cases H <;> cases M <;> cases S <;> simp only [fldVal, if_true, reduceCtorEq, if_false] <;>
        unfold i64 <;> omega
    · cases D <;> cases H <;> cases M <;> cases S <;> simp at hany ⊢

end Verif.Duration

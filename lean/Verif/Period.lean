import Verif.Basic

/-
Model of mpd/period.go, mpd/parents.go and the parts of mpd/mpd.go they use.

Objects live in a heap; a pointer is an address.  The heap maps every address of every kind to an object,
so a Go pointer stored in one of the slices is never nil here (a nil entry, which neither the decoder nor
the append functions produce, would make the Go code panic).  Each object carries the fields these
functions use; all other exported fields are the opaque `rest`.
-/
namespace Verif.Period

open Verif


abbrev Addr := Nat

/-- The errors of mpd/errors.go used here; `wrapped` is `fmt.Errorf("...: %w", err)`, period.go:119. -/
inductive Err
  | parentNotSet | periodNotFound | unknownStart | unknownDur | noMPDur | astRequired
  | astFormat           -- error of time.Parse
  | wrapped (e : Err)
  deriving DecidableEq, Repr

/-- `errors.Is` against a sentinel. -/
def Err.is : Err → Err → Bool
  | .wrapped e, t => e.is t
  | e, t => e == t

/-- Fields of `MPD` (mpd.go:87-121) used by the modelled functions; durations are int64 nanoseconds. -/
structure MpdObj where
  typ : Option Bytes := none
  periods : List Addr := []
  mpDur : Option Int := none
  minUpd : Option Int := none
  ast : Bytes := []
  rest : Nat := 0
  deriving DecidableEq

/-- Fields of `Period` (mpd.go:152-180). -/
structure PeriodObj where
  parent : Option Addr := none
  start : Option Int := none
  dur : Option Int := none
  asets : List Addr := []
  rest : Nat := 0
  deriving DecidableEq

/-- Fields of `AdaptationSetType` (mpd.go:352-389). -/
structure ASetObj where
  parent : Option Addr := none
  reps : List Addr := []
  rest : Nat := 0
  deriving DecidableEq

/-- Fields of `RepresentationType` (mpd.go:441-460). -/
structure RepObj where
  parent : Option Addr := none
  subs : List Addr := []
  rest : Nat := 0
  deriving DecidableEq

/-- Fields of `SubRepresentationType` (mpd.go:500-508). -/
structure SubObj where
  parent : Option Addr := none
  rest : Nat := 0
  deriving DecidableEq

structure Heap where
  mpd : Addr → MpdObj
  period : Addr → PeriodObj
  aset : Addr → ASetObj
  rep : Addr → RepObj
  sub : Addr → SubObj

/-- Functional update. -/
def upd {α : Type} (f : Addr → α) (a : Addr) (x : α) : Addr → α := fun b => if b = a then x else f b

def staticType : Bytes := b!"static"
def dynamicType : Bytes := b!"dynamic"

/-- `MPD.GetType`, mpd.go:124-129. -/
def MpdObj.getType (m : MpdObj) : Bytes := m.typ.getD staticType

/-- The loop of `GetIndex`, period.go:34-38: position of the first entry that is the same pointer. -/
def findIdx (p : Addr) : List Addr → Nat → Option Nat
  | [], _ => none
  | q :: qs, i => if q = p then some i else findIdx p qs (i+1)

/-- `Period.GetIndex`, period.go:29-40. The error case also returns -1, not modelled. -/
def getIndex (h : Heap) (p : Addr) : Except Err Nat :=
  match (h.period p).parent with
  | none => .error .parentNotSet
  | some m =>
    match findIdx p (h.mpd m).periods 0 with
    | some i => .ok i
    | none => .error .periodNotFound

/-- `PeriodType`, period.go:43-51 (`PTBad` accompanies errors only). -/
inductive PT
  | regular | earlyAvailable | earlyTerminated | regularOrEarlyTerminated
  deriving DecidableEq, Repr

/-- `m.Periods[i]` for an index in range. -/
def periodAt (h : Heap) (m : Addr) (i : Nat) : Option PeriodObj :=
  ((h.mpd m).periods[i]?).map h.period

/-- `idx < nrPeriods-1 && m.Periods[idx+1].Start != nil`, period.go:78. -/
def nextHasStart (h : Heap) (m : Addr) (idx : Nat) : Bool :=
  match periodAt h m (idx+1) with
  | some n => n.start.isSome
  | none => false

/-- The closure `isEarlyTerminated`, period.go:76-79. -/
def isEarlyTerminated (h : Heap) (p m : Addr) (idx : Nat) : Bool :=
  (h.period p).dur.isSome &&
    ((h.mpd m).minUpd.isSome || nextHasStart h m idx)

/-- `m.Periods[idx-1].Duration`, for `idx > 0`. -/
def prevDur (h : Heap) (m : Addr) (idx : Nat) : Option Int :=
  match periodAt h m (idx-1) with
  | some q => q.dur
  | none => none

/-- `Period.GetType`, period.go:66-98. -/
def getType (h : Heap) (p : Addr) : Except Err PT :=
  match (h.period p).parent with
  | none => .error .parentNotSet
  | some m =>
    match getIndex h p with
    | .error e => .error e
    | .ok idx =>
      if (h.period p).start.isSome then
        if isEarlyTerminated h p m idx then .ok .earlyTerminated else .ok .regular
      else if decide (0 < idx) && (prevDur h m idx).isSome then
        if isEarlyTerminated h p m idx then .ok .earlyTerminated else .ok .regularOrEarlyTerminated
      else if decide ((h.mpd m).getType = dynamicType) && (decide (idx = 0) || (prevDur h m idx).isNone) then
        .ok .earlyAvailable
      else .ok .regular

/-- `Period.GetStart`, period.go:102-130.  The first argument bounds the recursion depth; `none` means
that the bound was exceeded, so a call that does not terminate gives `none` for every bound. -/
def getStart (h : Heap) : Nat → Addr → Option (Except Err Int)
  | 0, _ => none
  | k+1, p =>
    match (h.period p).parent with
    | none => some (.error .parentNotSet)
    | some m =>
      match (h.period p).start with
      | some s => some (.ok s)
      | none =>
        match getIndex h p with
        | .error e => some (.error e)
        | .ok idx =>
          if 0 < idx then
            match (h.mpd m).periods[idx-1]? with
            | none => none                           -- index out of range: does not happen
            | some prev =>
              match (h.period prev).dur with
              | some d =>
                match getStart h k prev with
                | none => none
                | some (.error e) => some (.error (.wrapped e))
                | some (.ok s) => some (.ok (i64 (s + d)))
              | none => some (.error .unknownStart)
          else if (h.mpd m).getType = staticType then some (.ok 0)
          else some (.error .unknownStart)

/-- `Period.GetDuration`, period.go:133-175. -/
def getDuration (h : Heap) (p : Addr) : Except Err Int :=
  match (h.period p).dur with
  | some d => .ok d
  | none =>
    match (h.period p).parent with
    | none => .error .parentNotSet
    | some m =>
      let nrPeriods := (h.mpd m).periods.length
      match getIndex h p with
      | .error e => .error e
      | .ok idx =>
        if (h.mpd m).getType = staticType then
          match (h.mpd m).mpDur with
          | none => .error .noMPDur
          | some mp =>
            match (if (idx : Int) < (nrPeriods : Int) - 1 then
                match periodAt h m (idx+1) with
                | some n => n.start
                | none => none
              else some mp) with
            | none => .error .unknownDur
            | some e =>
              match (h.period p).start with
              | none => .error .unknownDur
              | some s => .ok (i64 (e - s))
        else
          match (h.period p).start with
          | none => .error .unknownDur
          | some s =>
            if (idx : Int) = (nrPeriods : Int) - 1 then .error .unknownDur
            else
              match periodAt h m (idx+1) with
              | none => .error .unknownDur          -- index out of range: does not happen
              | some n =>
                match n.start with
                | none => .error .unknownDur
                | some e => .ok (i64 (e - s))

/-! ### Parent links, parents.go -/

def setPeriodParent (h : Heap) (p m : Addr) : Heap :=
  { h with period := upd h.period p { h.period p with parent := some m } }
def setASetParent (h : Heap) (a p : Addr) : Heap :=
  { h with aset := upd h.aset a { h.aset a with parent := some p } }
def setRepParent (h : Heap) (r a : Addr) : Heap :=
  { h with rep := upd h.rep r { h.rep r with parent := some a } }
def setSubParent (h : Heap) (s r : Addr) : Heap :=
  { h with sub := upd h.sub s { h.sub s with parent := some r } }

/-- `RepresentationType.SetParents`, parents.go:62-66. -/
def repSetParents (h : Heap) (r : Addr) : Heap :=
  (h.rep r).subs.foldl (fun h s => setSubParent h s r) h

/-- `AdaptationSetType.SetParents`, parents.go:46-53 (inner loop as in `repSetParents`). -/
def asetSetParents (h : Heap) (a : Addr) : Heap :=
  (h.aset a).reps.foldl (fun h r => repSetParents (setRepParent h r a) r) h

/-- `Period.SetParents`, parents.go:27-37. -/
def periodSetParents (h : Heap) (p : Addr) : Heap :=
  (h.period p).asets.foldl (fun h a => asetSetParents (setASetParent h a p) a) h

/-- `MPD.SetParents`, parents.go:5-18. -/
def mpdSetParents (h : Heap) (m : Addr) : Heap :=
  (h.mpd m).periods.foldl (fun h p => periodSetParents (setPeriodParent h p m) p) h

/-- `MPD.AppendPeriod`, parents.go:21-24. -/
def appendPeriod (h : Heap) (m p : Addr) : Heap :=
  setPeriodParent { h with mpd := upd h.mpd m { h.mpd m with periods := (h.mpd m).periods ++ [p] } } p m

/-- `Period.AppendAdaptationSet`, parents.go:40-43. -/
def appendASet (h : Heap) (p a : Addr) : Heap :=
  setASetParent { h with period := upd h.period p { h.period p with asets := (h.period p).asets ++ [a] } } a p

/-- `AdaptationSetType.AppendRepresentation`, parents.go:56-59. -/
def appendRep (h : Heap) (a r : Addr) : Heap :=
  setRepParent { h with aset := upd h.aset a { h.aset a with reps := (h.aset a).reps ++ [r] } } r a

/-- `RepresentationType.AppendSubRepresentation`, parents.go:69-72. -/
def appendSub (h : Heap) (r s : Addr) : Heap :=
  setSubParent { h with rep := upd h.rep r { h.rep r with subs := (h.rep r).subs ++ [s] } } s r

/-- Contract assumed of `deepcopy.MustAnything` (github.com/barkimedes/go-deepcopy, not in the
repository): the objects in `R` (a set that contains the argument and is closed under the listed
pointers) are copied to fresh addresses `φ x`, pointers are renamed by `φ` (one copy per object, so
sharing is kept), exported fields are copied, the unexported parent is left nil, and no object that
existed before (`old`) changes. -/
structure DeepCopy (h h' : Heap) (φ : Addr → Addr) (R old : Addr → Prop) : Prop where
  inj : ∀ x y, φ x = φ y → x = y
  fresh : ∀ x, R x → ¬ old (φ x)
  sub_old : ∀ x, R x → old x
  mpd_old : ∀ x, old x → h'.mpd x = h.mpd x
  period_old : ∀ x, old x → h'.period x = h.period x
  aset_old : ∀ x, old x → h'.aset x = h.aset x
  rep_old : ∀ x, old x → h'.rep x = h.rep x
  subr_old : ∀ x, old x → h'.sub x = h.sub x
  mpd_new : ∀ x, R x → h'.mpd (φ x) = { h.mpd x with periods := (h.mpd x).periods.map φ }
  period_new : ∀ x, R x → h'.period (φ x) =
    { h.period x with parent := none, asets := (h.period x).asets.map φ }
  aset_new : ∀ x, R x → h'.aset (φ x) = { h.aset x with parent := none, reps := (h.aset x).reps.map φ }
  rep_new : ∀ x, R x → h'.rep (φ x) = { h.rep x with parent := none, subs := (h.rep x).subs.map φ }
  sub_new : ∀ x, R x → h'.sub (φ x) = { h.sub x with parent := none }

/-- `Clone` of an MPD (mpd.go:132-136), `Period.Clone` (period.go:178-182) and `AdaptationSetType.Clone`
(mpd.go:400-404): set the parents below the copied root. `h'` is the heap after the deep copy. -/
def cloneMpd (h' : Heap) (root : Addr) : Heap := mpdSetParents h' root
def clonePeriod (h' : Heap) (root : Addr) : Heap := periodSetParents h' root
def cloneASet (h' : Heap) (root : Addr) : Heap := asetSetParents h' root

end Verif.Period

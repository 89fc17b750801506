import Verif.Truncate
import Verif.MpdSchema
import Verif.ParentsProps
import Verif.KRfl
import Mathlib.Data.Nat.Pairing

/-!
C45: reading a manifest with `MPDFromBytes`, `ReadFromString` and `ReadFromFile` (`/repo/mpd/io.go` 24-53) is
all-or-nothing, sets all parent links, and ignores what follows the root element.
-/
namespace Verif.Bind

open Verif.Xml Verif.Period

/-- The entries of the list field that holds the elements `name` of a struct, with the type of the entries. -/
def entries (name : Bytes) : Sch × Val → List (Sch × Val)
  | (.struct _ _ infos subs, .struct _ vs) =>
    match infos.findIdx? (fun f => f.mode == .elem && f.loc == name) with
    | none => []
    | some i =>
      match subs[i]?, vs[i]? with
      | some (.slice (.ptr s)), some (.slice l) => l.map fun v => (s, v.deref s)
      | _, _ => []
  | _ => []

/-- A decoded representation is stored at an address: it lists as many sub-representations. -/
def LaidRep (h : Heap) (r : Addr) (v : Sch × Val) : Prop :=
  (h.rep r).subs.length = (entries b!"SubRepresentation" v).length

/-- A decoded adaptation set is stored at an address, with its representations. -/
def LaidASet (h : Heap) (a : Addr) (v : Sch × Val) : Prop :=
  List.Forall₂ (LaidRep h) (h.aset a).reps (entries b!"Representation" v)

/-- A decoded period is stored at an address, with its adaptation sets. -/
def LaidPeriod (h : Heap) (p : Addr) (v : Sch × Val) : Prop :=
  List.Forall₂ (LaidASet h) (h.period p).asets (entries b!"AdaptationSet" v)

/-- A decoded manifest is stored at an address, with its periods. -/
def LaidMPD (h : Heap) (m : Addr) (v : Sch × Val) : Prop :=
  List.Forall₂ (LaidPeriod h) (h.mpd m).periods (entries b!"Period" v)

/-- No object below the manifest is listed by two others: each entry of a list is a new object
(`/repo/xml/read.go` 415-426, 352-357). -/
structure Separate (h : Heap) (m : Addr) : Prop where
  aset : ∀ p ∈ (h.mpd m).periods, ∀ p' ∈ (h.mpd m).periods, ∀ a ∈ (h.period p).asets, a ∈ (h.period p').asets → p' = p
  rep : ∀ a, HasASet h m a → ∀ a', HasASet h m a' → ∀ r ∈ (h.aset a).reps, r ∈ (h.aset a').reps → a' = a
  sub : ∀ r, HasRep h m r → ∀ r', HasRep h m r' → ∀ s ∈ (h.rep r).subs, s ∈ (h.rep r').subs → r' = r

/-- Memory allocation by the decoder: a heap holding the decoded value and the address of the manifest. -/
abbrev Alloc := Val → Heap × Addr

/-- The allocation stores every value, in separate objects. -/
def Alloc.Good (al : Alloc) : Prop := ∀ v, LaidMPD (al v).1 (al v).2 (tMPD.sch, v) ∧ Separate (al v).1 (al v).2

/-- What a reading function returns: the manifest (nil or an address), the error (nil or not), and the memory. -/
structure ReadResult where
  mpd : Option Addr
  err : Option RErr
  heap : Heap

/-- `MPDFromBytes` (`/repo/mpd/io.go` 45-53), from a heap `h0`.  Decoding is `unmarshalDoc`; the decoded value is stored by
the allocation `al`.  A decoding that fails leaves a partly filled manifest in memory that nothing refers to; the heap is
then taken to be unchanged. -/
def mpdFromBytes (io : FloatIO) (al : Alloc) (h0 : Heap) (data : Bytes) : ReadResult :=
  match unmarshalDoc io tMPD.sch data with
  | .error e => ⟨none, some e, h0⟩
  | .ok v => ⟨some (al v).2, none, mpdSetParents (al v).1 (al v).2⟩

/-- `ReadFromString` (`/repo/mpd/io.go` 40-42). -/
def readFromString (io : FloatIO) (al : Alloc) (h0 : Heap) (str : Bytes) : ReadResult := mpdFromBytes io al h0 str

/-- What `os.ReadFile` returned. -/
inductive FileData where
  | failed
  | read (data : Bytes)

/-- What `ReadFromFile` returns: the same, or the error of the file. -/
inductive FileResult where
  | fileError
  | result (r : ReadResult)

/-- `ReadFromFile` (`/repo/mpd/io.go` 25-37). -/
def readFromFile (io : FloatIO) (al : Alloc) (h0 : Heap) (f : FileData) : FileResult :=
  match f with
  | .failed => .fileError
  | .read data =>
    match unmarshalDoc io tMPD.sch data with
    | .error e => .result ⟨none, some e, h0⟩
    | .ok v => .result ⟨some (al v).2, none, mpdSetParents (al v).1 (al v).2⟩

/-- Every object below a manifest has the object that lists it as parent. -/
structure Linked (h : Heap) (m : Addr) : Prop where
  period : ∀ p ∈ (h.mpd m).periods, (h.period p).parent = some m
  aset : ∀ p ∈ (h.mpd m).periods, ∀ a ∈ (h.period p).asets, (h.aset a).parent = some p
  rep : ∀ p ∈ (h.mpd m).periods, ∀ a ∈ (h.period p).asets, ∀ r ∈ (h.aset a).reps, (h.rep r).parent = some a
  sub : ∀ p ∈ (h.mpd m).periods, ∀ a ∈ (h.period p).asets, ∀ r ∈ (h.aset a).reps, ∀ s ∈ (h.rep r).subs,
    (h.sub s).parent = some r

theorem forall₂_imp {α β : Type} {R S : α → β → Prop} (h : ∀ a b, R a b → S a b) :
    ∀ {l : List α} {m : List β}, List.Forall₂ R l m → List.Forall₂ S l m := fun hl => hl.imp (fun a b => h a b)

theorem same_laid {h h' : Heap} (s : Same h h') (m : Addr) (v : Sch × Val) (hl : LaidMPD h m v) : LaidMPD h' m v := by
  unfold LaidMPD at hl ⊢
  rw [show (h'.mpd m).periods = (h.mpd m).periods by rw [s.mpd]]
  refine forall₂_imp (fun p v hp => ?_) hl
  unfold LaidPeriod at hp ⊢
  rw [s.asets]
  refine forall₂_imp (fun a v ha => ?_) hp
  unfold LaidASet at ha ⊢
  rw [s.reps]
  refine forall₂_imp (fun r v hr => ?_) ha
  unfold LaidRep at hr ⊢
  rw [s.subs]
  exact hr

theorem setParents_linked (h : Heap) (m : Addr) (hs : Separate h m) : Linked (mpdSetParents h m) m := by
  obtain ⟨hsame, h1, h2, h3, h4⟩ := C13_setParents h m
  have hper : ((mpdSetParents h m).mpd m).periods = (h.mpd m).periods := by rw [hsame.mpd]
  have has := hsame.asets
  have hre := hsame.reps
  have hsu := hsame.subs
  refine ⟨fun p hp => h1 p (hper ▸ hp), fun p hp a ha => ?_, fun p hp a ha r hr => ?_, fun p hp a ha r hr s hss => ?_⟩
  · rw [hper] at hp
    rw [has] at ha
    exact h2 p hp a ha fun p' hp' ha' => hs.aset p hp p' hp' a ha ha'
  · rw [hper] at hp
    rw [has] at ha
    rw [hre] at hr
    exact h3 a ⟨p, hp, ha⟩ r hr fun a' ha' hr' => hs.rep a ⟨p, hp, ha⟩ a' ha' r hr hr'
  · rw [hper] at hp
    rw [has] at ha
    rw [hre] at hr
    rw [hsu] at hss
    exact h4 r ⟨a, ⟨p, hp, ha⟩, hr⟩ s hss fun r' hr' hs' => hs.sub r ⟨a, ⟨p, hp, ha⟩, hr⟩ r' hr' s hss hs'

/-- C45: reading returns either an error and no manifest, or no error and a manifest that holds what was decoded and has
all its parent links; for every input and every allocation of the objects. -/
theorem C45_all_or_nothing (io : FloatIO) (al : Alloc) (hal : al.Good) (h0 : Heap) (data : Bytes) :
    (∃ e, unmarshalDoc io tMPD.sch data = .error e ∧ (mpdFromBytes io al h0 data).mpd = none ∧
      (mpdFromBytes io al h0 data).err = some e) ∨
    (∃ v m, unmarshalDoc io tMPD.sch data = .ok v ∧ (mpdFromBytes io al h0 data).mpd = some m ∧
      (mpdFromBytes io al h0 data).err = none ∧ LaidMPD (mpdFromBytes io al h0 data).heap m (tMPD.sch, v) ∧
      Linked (mpdFromBytes io al h0 data).heap m) := by
  cases hu : unmarshalDoc io tMPD.sch data with
  | error e =>
    refine Or.inl ⟨e, rfl, ?_, ?_⟩ <;> simp only [mpdFromBytes, hu]
  | ok v =>
    have hr : mpdFromBytes io al h0 data = ⟨some (al v).2, none, mpdSetParents (al v).1 (al v).2⟩ := by
      simp only [mpdFromBytes, hu]
    right
    rw [hr]
    exact ⟨v, (al v).2, rfl, rfl, rfl, same_laid (C13_setParents _ _).1 _ _ (hal v).1, setParents_linked _ _ (hal v).2⟩

/-- C45: the three reading functions agree. -/
theorem C45_same (io : FloatIO) (al : Alloc) (h0 : Heap) (data : Bytes) :
    readFromString io al h0 data = mpdFromBytes io al h0 data ∧
    readFromFile io al h0 (.read data) = .result (mpdFromBytes io al h0 data) := by
  refine ⟨rfl, ?_⟩
  simp only [readFromFile, mpdFromBytes]
  cases unmarshalDoc io tMPD.sch data <;> rfl

/-- C45: a document that is read is `p ++ r` where `p` is the shortest beginning from which anything can be read;
replacing `r` by any other bytes changes nothing, and every document cut inside `p` is rejected. -/
theorem C45_after_root (io : FloatIO) (al : Alloc) (h0 : Heap) (data : Bytes)
    (hok : (mpdFromBytes io al h0 data).err = none) :
    ∃ p r, data = p ++ r ∧ (∀ r', mpdFromBytes io al h0 (p ++ r') = mpdFromBytes io al h0 data) ∧
      ∀ q, q <+: p → q ≠ p → (mpdFromBytes io al h0 q).mpd = none := by
  cases hu : unmarshalDoc io tMPD.sch data with
  | error e => simp [mpdFromBytes, hu] at hok
  | ok v =>
    obtain ⟨t, ht⟩ := unmarshalDoc_ok io _ _ _ hu
    obtain ⟨p, r, h1, h2, h3⟩ := C45_root io tMPD.sch data t ht
    refine ⟨p, r, h1, fun r' => ?_, fun q hq hne => ?_⟩
    · unfold mpdFromBytes
      rw [h2 r']
    · obtain ⟨e, he⟩ := h3 q hq hne io tMPD.sch
      simp only [mpdFromBytes, he]

/-! ### An allocation -/

/-- The number of entries at position `i` of a list of structs. -/
def entriesAt (name : Bytes) (l : List (Sch × Val)) (i : Nat) : List (Sch × Val) :=
  match l[i]? with
  | some v => entries name v
  | none => []

/-- Objects numbered by their positions: a period by its index, an adaptation set by the pair of the number of its period
and its index, and so on. -/
def numbered : Alloc := fun v =>
  let ps := entries b!"Period" (tMPD.sch, v)
  let as := fun p => entriesAt b!"AdaptationSet" ps p
  let rs := fun a => entriesAt b!"Representation" (as a.unpair.1) a.unpair.2
  let ss := fun r => entriesAt b!"SubRepresentation" (rs r.unpair.1) r.unpair.2
  (⟨fun _ => { periods := List.range ps.length },
    fun p => { asets := (List.range (as p).length).map (Nat.pair p) },
    fun a => { reps := (List.range (rs a).length).map (Nat.pair a) },
    fun r => { subs := (List.range (ss r).length).map (Nat.pair r) },
    fun _ => {}⟩, 0)

theorem forall₂_range {α : Type} {R : Nat → α → Prop} (f : Nat → Nat) (l : List α)
    (h : ∀ i v, l[i]? = some v → R (f i) v) : List.Forall₂ R ((List.range l.length).map f) l := by
  rw [List.forall₂_iff_get]
  refine ⟨by simp, fun i h1 h2 => ?_⟩
  simp only [List.get_eq_getElem, List.getElem_map, List.getElem_range]
  exact h i _ (by simp)

theorem numbered_good : numbered.Good := by
  intro v
  constructor
  · unfold LaidMPD numbered
    dsimp only
    rw [← List.map_id (List.range _)]
    refine forall₂_range id _ fun i vp hi => ?_
    unfold LaidPeriod
    dsimp only [id]
    have h1 : entriesAt b!"AdaptationSet" (entries b!"Period" (tMPD.sch, v)) i = entries b!"AdaptationSet" vp := by
      simp only [entriesAt, hi]
    rw [h1]
    refine forall₂_range (Nat.pair i) _ fun j va hj => ?_
    unfold LaidASet
    dsimp only
    have h2 : entriesAt b!"Representation" (entriesAt b!"AdaptationSet" (entries b!"Period" (tMPD.sch, v))
        (Nat.pair i j).unpair.1) (Nat.pair i j).unpair.2 = entries b!"Representation" va := by
      simp only [Nat.unpair_pair, h1]
      simp only [entriesAt, hj]
    rw [h2]
    refine forall₂_range (Nat.pair (Nat.pair i j)) _ fun k vr hk => ?_
    unfold LaidRep
    dsimp only
    simp only [Nat.unpair_pair, h1, List.length_map, List.length_range]
    simp only [entriesAt, hj, hk]
  · constructor
    · intro p _ p' _ a ha ha'
      simp only [numbered, List.mem_map] at ha ha'
      obtain ⟨j, _, rfl⟩ := ha
      obtain ⟨j', _, h⟩ := ha'
      exact (Nat.pair_eq_pair.1 h).1
    · intro p _ p' _ a ha ha'
      simp only [numbered, List.mem_map] at ha ha'
      obtain ⟨j, _, rfl⟩ := ha
      obtain ⟨j', _, h⟩ := ha'
      exact (Nat.pair_eq_pair.1 h).1
    · intro p _ p' _ a ha ha'
      simp only [numbered, List.mem_map] at ha ha'
      obtain ⟨j, _, rfl⟩ := ha
      obtain ⟨j', _, h⟩ := ha'
      exact (Nat.pair_eq_pair.1 h).1

/-! ### A manifest -/

/-- A small manifest followed by bytes that are not XML. -/
def smallDoc : Bytes :=
  b!"<MPD><Period/><Period><AdaptationSet><Representation><SubRepresentation/></Representation></AdaptationSet></Period></MPD><<&"

/-- C45 on a manifest with two periods followed by garbage: it is read, the second period has an adaptation set with a
representation with a sub-representation, and all have their parents; without the `>` of its last end tag the
document is rejected. -/
example (io : FloatIO) (h0 : Heap) :
    (mpdFromBytes io numbered h0 smallDoc).mpd = some 0 ∧ (mpdFromBytes io numbered h0 smallDoc).err = none ∧
    ((mpdFromBytes io numbered h0 smallDoc).heap.mpd 0).periods = [0, 1] ∧
    ((mpdFromBytes io numbered h0 smallDoc).heap.period 1).parent = some 0 ∧
    ((mpdFromBytes io numbered h0 smallDoc).heap.period 1).asets = [2] ∧
    ((mpdFromBytes io numbered h0 smallDoc).heap.aset 2).parent = some 1 ∧
    ((mpdFromBytes io numbered h0 smallDoc).heap.rep (Nat.pair 2 0)).parent = some 2 ∧
    (mpdFromBytes io numbered h0 (smallDoc.take 120)).mpd = none ∧
    (mpdFromBytes io numbered h0 (smallDoc.take 120)).err = some (.syntaxErr unexpectedEOF) := by
  refine ⟨?_, ?_, ?_, ?_, ?_, ?_, ?_, ?_, ?_⟩ <;> krfl

end Verif.Bind

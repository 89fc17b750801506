import Verif.ParentsProps
import Verif.Misc

/-!
C97: a representation of one adaptation set that is also put into another one.
-/
namespace Verif.Lent

open Verif Verif.Period

/-! ### What is said -/

/-- The exported fields of adaptation sets and representations that the accessors use. The heap of C13 has for the fields of an object a
number (`rest`); this says what they are. The parent of `rep n` is not used. -/
structure Fields where
  aset : Nat → Misc.ASet
  rep : Nat → Misc.Rep

/-- The representation at an address with the adaptation set its parent pointer leads to: what the accessors in mpd.go:558-624 see. -/
def view (I : Fields) (h : Heap) (r : Addr) : Misc.Rep :=
  { I.rep (h.rep r).rest with parent := (h.rep r).parent.map fun a => I.aset (h.aset a).rest }

/-- The accessors of a representation return the same in two states of the program. -/
structure SameAnswers (x y : Misc.Rep) : Prop where
  template : y.getSegmentTemplate = x.getSegmentTemplate
  mimeType : y.getMimeType = x.getMimeType
  codecs : y.getCodecs = x.getCodecs
  protections : y.getContentProtections = x.getContentProtections
  init : y.getInit = x.getInit
  media : y.getMedia = x.getMedia

theorem SameAnswers.of_eq {x y : Misc.Rep} (h : y = x) : SameAnswers x y := by
  subst h; exact ⟨rfl, rfl, rfl, rfl, rfl, rfl⟩

/-! ### What the answers depend on -/

theorem view_eq (I : Fields) {h h' : Heap} {r : Addr} (h1 : (h'.rep r).rest = (h.rep r).rest) (h2 : (h'.rep r).parent = (h.rep r).parent)
    (h3 : ∀ a, (h.rep r).parent = some a → (h'.aset a).rest = (h.aset a).rest) : view I h' r = view I h r := by
  unfold view
  rw [h1, h2]
  cases hp : (h.rep r).parent with
  | none => rfl
  | some a => simp [h3 a hp]

theorem same_rest {h h' : Heap} (s : Same h h') : (∀ r, (h'.rep r).rest = (h.rep r).rest) ∧ ∀ a, (h'.aset a).rest = (h.aset a).rest :=
  ⟨fun r => by have := congrArg RepObj.rest (s.rep r); exact this, fun a => by have := congrArg ASetObj.rest (s.aset a); exact this⟩

theorem append_rest (h : Heap) (a r : Addr) : (∀ x, ((appendRep h a r).rep x).rest = (h.rep x).rest) ∧
    ∀ x, ((appendRep h a r).aset x).rest = (h.aset x).rest := by
  constructor <;> intro x <;> simp only [appendRep, setRepParent, upd] <;> split <;> simp_all

theorem append_reps (h : Heap) (a r b : Addr) (hb : b ≠ a) : ((appendRep h a r).aset b).reps = (h.aset b).reps := by
  simp [appendRep, setRepParent, upd, hb]

/-! ### The theorems -/

/-- C97: what all other representations inherit stays. -/
theorem C97_others (I : Fields) (h : Heap) (a r q : Addr) (hq : q ≠ r) : SameAnswers (view I h q) (view I (appendRep h a r) q) :=
  .of_eq <| view_eq I ((append_rest h a r).1 q) (by simp [appendRep, setRepParent, upd, hq]) fun b _ => (append_rest h a r).2 b

/-- C97, the representation itself: it has its own fields as before, and inherits from the adaptation set to which it was added last. -/
theorem C97_moved (I : Fields) (h : Heap) (a r : Addr) :
    view I (appendRep h a r) r = { view I h r with parent := some (I.aset (h.aset a).rest) } := by
  unfold view
  rw [(append_rest h a r).1 r]
  have : ((appendRep h a r).rep r).parent = some a := by simp [appendRep, setRepParent, upd]
  rw [this]
  simp [(append_rest h a r).2 a]

/-- C97, exactly: the answers of the shared representation stay the same if and only if each value that it does not have itself is the
same in both adaptation sets. -/
theorem C97_iff (I : Fields) (h : Heap) (a b r : Addr) (hp : (h.rep r).parent = some b) :
    SameAnswers (view I h r) (view I (appendRep h a r) r) ↔
      ((I.rep (h.rep r).rest).mimeType = [] → (I.aset (h.aset a).rest).mimeType = (I.aset (h.aset b).rest).mimeType) ∧
      ((I.rep (h.rep r).rest).codecs = [] → (I.aset (h.aset a).rest).codecs = (I.aset (h.aset b).rest).codecs) ∧
      ((I.rep (h.rep r).rest).contentProtections = [] →
        (I.aset (h.aset a).rest).contentProtections = (I.aset (h.aset b).rest).contentProtections) ∧
      ((I.rep (h.rep r).rest).segmentTemplate = none →
        (I.aset (h.aset a).rest).segmentTemplate = (I.aset (h.aset b).rest).segmentTemplate) := by
  rw [C97_moved]
  unfold view
  rw [hp]
  generalize I.rep (h.rep r).rest = x
  generalize I.aset (h.aset a).rest = A
  simp only [Option.map_some]
  generalize I.aset (h.aset b).rest = B
  constructor
  · rintro ⟨ht, hm, hc, hcp, -, -⟩
    refine ⟨fun e => ?_, fun e => ?_, fun e => ?_, fun e => ?_⟩
    · simpa [Misc.Rep.getMimeType, e] using hm
    · simpa [Misc.Rep.getCodecs, e] using hc
    · simpa [Misc.Rep.getContentProtections, e] using hcp
    · simpa [Misc.Rep.getSegmentTemplate, e] using ht
  · rintro ⟨hm, hc, hcp, ht⟩
    have ht' : ({ x with parent := some A } : Misc.Rep).getSegmentTemplate = ({ x with parent := some B } : Misc.Rep).getSegmentTemplate := by
      cases e : x.segmentTemplate with
      | none => simp [Misc.Rep.getSegmentTemplate, ht e]
      | some t => simp [Misc.Rep.getSegmentTemplate]
    refine ⟨ht', ?_, ?_, ?_, ?_, ?_⟩
    · by_cases e : x.mimeType = []
      · simp [Misc.Rep.getMimeType, e, hm e]
      · simp [Misc.Rep.getMimeType, e]
    · by_cases e : x.codecs = []
      · simp [Misc.Rep.getCodecs, e, hc e]
      · simp [Misc.Rep.getCodecs, e]
    · by_cases e : x.contentProtections = []
      · simp [Misc.Rep.getContentProtections, e, hcp e]
      · simp [Misc.Rep.getContentProtections, e]
    · simp only [Misc.Rep.getInit]
      rw [ht']
      rfl
    · simp only [Misc.Rep.getMedia]
      rw [ht']
      rfl

/-- C97: an adaptation set that is added to a second period, and a period that is added to a second manifest, do not change what any
representation inherits. -/
theorem C97_above (I : Fields) (h : Heap) (m p a r : Addr) :
    SameAnswers (view I h r) (view I (appendASet h p a) r) ∧ SameAnswers (view I h r) (view I (appendPeriod h m p) r) := by
  refine ⟨.of_eq (view_eq I rfl rfl fun b _ => ?_), .of_eq (view_eq I rfl rfl fun b _ => rfl)⟩
  simp only [appendASet, setASetParent, upd]
  split <;> simp_all

theorem aset_set (h : Heap) (b : Addr) {q : Addr} (hq : q ∈ (h.aset b).reps) : ((asetSetParents h b).rep q).parent = some b := by
  rw [asetSetParents_eq]
  refine rep_parent _ _ _ _ (.inl ((mem_asetW _ _ _).2 ⟨q, hq, .inl rfl⟩)) fun m' hm => ?_
  obtain ⟨x, -, e | ⟨s, -, e⟩⟩ := (mem_asetW _ _ _).1 hm
  · cases e; rfl
  · cases e

/-- C97: `SetParents` of the first adaptation set repairs all its representations. -/
theorem C97_repair (I : Fields) (h : Heap) (a b r : Addr) (hne : b ≠ a) (ho : ∀ q ∈ (h.aset b).reps, (h.rep q).parent = some b) :
    ∀ q ∈ (h.aset b).reps, SameAnswers (view I h q) (view I (asetSetParents (appendRep h a r) b) q) := by
  intro q hq
  have hs : Same (appendRep h a r) (asetSetParents (appendRep h a r) b) := by
    rw [asetSetParents_eq]; exact same_applyAll _ _
  refine .of_eq (view_eq I ?_ ?_ fun x _ => ?_)
  · rw [(same_rest hs).1, (append_rest h a r).1]
  · rw [ho q hq]
    exact aset_set _ _ (by rw [append_reps h a r b hne]; exact hq)
  · rw [(same_rest hs).2, (append_rest h a r).2]

/-- C97, copies: after `Clone` of an adaptation set the representations of the clone inherit what the original ones inherit, and all
objects there were answer as before. -/
theorem C97_clone (I : Fields) (h h1 : Heap) (φ : Addr → Addr) (R old : Addr → Prop) (hc : DeepCopy h h1 φ R old) (b : Addr) (hb : R b)
    (hr : ∀ q ∈ (h.aset b).reps, R q) (hrs : ∀ q ∈ (h.aset b).reps, ∀ s ∈ (h.rep q).subs, R s)
    (ho : ∀ q ∈ (h.aset b).reps, (h.rep q).parent = some b) :
    (∀ q ∈ (h.aset b).reps, SameAnswers (view I h q) (view I (cloneASet h1 (φ b)) (φ q))) ∧
    ∀ q, old q → (∀ a, (h.rep q).parent = some a → old a) → SameAnswers (view I h q) (view I (cloneASet h1 (φ b)) q) := by
  have hs : Same h1 (cloneASet h1 (φ b)) := by
    unfold cloneASet; rw [asetSetParents_eq]; exact same_applyAll _ _
  have hreps : (h1.aset (φ b)).reps = (h.aset b).reps.map φ := by rw [hc.aset_new b hb]
  constructor
  · intro q hq
    refine .of_eq ?_
    have hp : ((cloneASet h1 (φ b)).rep (φ q)).parent = some (φ b) :=
      aset_set _ _ (by rw [hreps]; exact List.mem_map_of_mem hq)
    unfold view
    rw [hp, ho q hq, (same_rest hs).1, hc.rep_new q (hr q hq)]
    simp only [Option.map_some]
    rw [(same_rest hs).2, hc.aset_new b hb]
  · intro q hq ha
    have hu : (cloneASet h1 (φ b)).rep q = h1.rep q := by
      unfold cloneASet
      rw [asetSetParents_eq]
      refine (untouched _ _ q fun w hw e => ?_).2.2.2.1
      obtain ⟨x, hx, e' | ⟨s, hs', e'⟩⟩ := (mem_asetW _ _ _).1 hw
      · subst e'
        rw [hreps] at hx
        obtain ⟨y, hy, rfl⟩ := List.mem_map.1 hx
        exact hc.fresh y (hr y hy) (by have e : φ y = q := e; rw [e]; exact hq)
      · subst e'
        rw [hreps] at hx
        obtain ⟨y, hy, rfl⟩ := List.mem_map.1 hx
        rw [hc.rep_new y (hr y hy)] at hs'
        obtain ⟨z, hz, rfl⟩ := List.mem_map.1 hs'
        exact hc.fresh z (hrs y hy z hz) (by have e : φ z = q := e; rw [e]; exact hq)
    refine .of_eq (view_eq I ?_ ?_ fun x hx => ?_)
    · rw [hu, hc.rep_old q hq]
    · rw [hu, hc.rep_old q hq]
    · rw [(same_rest hs).2, hc.aset_old x (ha x hx)]

/-! ### Runs of the program -/

/-- The adaptation sets to which a representation is appended, in order. -/
def sets (r : Addr) (ops : List Op) : List Addr :=
  ops.filterMap fun
    | .rep a r' => if r' = r then some a else none
    | _ => none

theorem run_rest (h : Heap) (op : Op) : (∀ x, ((op.run h).rep x).rest = (h.rep x).rest) ∧ ∀ x, ((op.run h).aset x).rest = (h.aset x).rest := by
  cases op with
  | period m p => exact ⟨fun _ => rfl, fun _ => rfl⟩
  | aset p a =>
    refine ⟨fun _ => rfl, fun x => ?_⟩
    simp only [Op.run, appendASet, setASetParent, upd]
    split <;> simp_all
  | rep a r => exact append_rest h a r
  | sub r s =>
    refine ⟨fun x => ?_, fun _ => rfl⟩
    simp only [Op.run, appendSub, setSubParent, upd]
    split <;> simp_all

theorem run_parent (r : Addr) : ∀ (ops : List Op) (h : Heap),
    ((ops.foldl Op.run h).rep r).parent = (sets r ops).getLast?.or (h.rep r).parent
  | [], h => by simp [sets]
  | op :: ops, h => by
    rw [List.foldl_cons, run_parent r ops (op.run h)]
    cases op with
    | period m p => rfl
    | aset p a => rfl
    | rep a r' =>
      by_cases e : r' = r
      · subst e
        have h1 : (((Op.rep a r').run h).rep r').parent = some a := by simp [Op.run, appendRep, setRepParent, upd]
        have h2 : sets r' (Op.rep a r' :: ops) = a :: sets r' ops := by simp [sets]
        rw [h1, h2, List.getLast?_cons]
        cases (sets r' ops).getLast? <;> rfl
      · have h1 : (((Op.rep a r').run h).rep r).parent = (h.rep r).parent := by
          simp [Op.run, appendRep, setRepParent, upd, Ne.symm e]
        have h2 : sets r (Op.rep a r' :: ops) = sets r ops := by simp [sets, e]
        rw [h1, h2]
    | sub r' s =>
      have h1 : (((Op.sub r' s).run h).rep r).parent = (h.rep r).parent := by
        simp only [Op.run, appendSub, setSubParent, upd]
        split <;> simp_all
      rw [h1]
      rfl

/-- C97, for all runs: after any number of calls of the four `Append` methods, with any sharing, a representation inherits from the
adaptation set to which it was appended last, or from the one before if it was not appended. -/
theorem C97_run (I : Fields) (h : Heap) (ops : List Op) (r : Addr) :
    view I (ops.foldl Op.run h) r =
      { view I h r with parent := ((sets r ops).getLast?.or (h.rep r).parent).map fun a => I.aset (h.aset a).rest } := by
  have hr : ∀ (ops : List Op) (h : Heap), (∀ x, ((ops.foldl Op.run h).rep x).rest = (h.rep x).rest) ∧
      ∀ x, ((ops.foldl Op.run h).aset x).rest = (h.aset x).rest := by
    intro ops
    induction ops with
    | nil => intro h; exact ⟨fun _ => rfl, fun _ => rfl⟩
    | cons op ops ih =>
      intro h
      refine ⟨fun x => ?_, fun x => ?_⟩
      · rw [List.foldl_cons, (ih _).1, (run_rest h op).1]
      · rw [List.foldl_cons, (ih _).2, (run_rest h op).2]
  unfold view
  rw [(hr ops h).1, run_parent]
  simp only [(hr ops h).2]

/-- C97: a program in which a representation is appended to one adaptation set only, before or again, does not change what it inherits. -/
theorem C97_run_one (I : Fields) (h : Heap) (ops : List Op) (r b : Addr) (hp : (h.rep r).parent = some b) (hs : ∀ a ∈ sets r ops, a = b) :
    SameAnswers (view I h r) (view I (ops.foldl Op.run h) r) := by
  refine .of_eq ?_
  rw [C97_run]
  have : (sets r ops).getLast?.or (h.rep r).parent = some b := by
    cases e : (sets r ops).getLast? with
    | none => simpa using hp
    | some a => simp [hs a (List.mem_of_getLast? e)]
  rw [this]
  unfold view
  rw [hp]

/-! ### Cases -/

/-- Adaptation set 0 with the representation 10, and adaptation set 1 without any. -/
def lentHeap : Heap :=
  { mpd := fun _ => {}
    period := fun _ => {}
    aset := fun a => if a = 0 then { reps := [10], rest := 0 } else { rest := 1 }
    rep := fun r => if r = 10 then { parent := some 0 } else {}
    sub := fun _ => {} }

/-- The first has MP4 with a template, the second WebM with another one. -/
def lentFields : Fields :=
  { aset := fun n => if n = 0 then { mimeType := b!"video/mp4", segmentTemplate := some { media := b!"a/$RepresentationID$.m4s" } }
      else { mimeType := b!"video/webm", segmentTemplate := some { media := b!"b/$RepresentationID$.webm" } }
    rep := fun _ => { id := b!"V" } }

/-- Without a condition it is false: the representation of the first set has the type and the addresses of the second. -/
theorem C97_refuted : ¬ ∀ (I : Fields) (h : Heap) (a b r : Addr), a ≠ b → (∀ q ∈ (h.aset b).reps, (h.rep q).parent = some b) →
    ∀ q ∈ (h.aset b).reps, SameAnswers (view I h q) (view I (appendRep h a r) q) := by
  intro hall
  have h := (hall lentFields lentHeap 1 0 10 (by decide) (fun q hq => by
    have : q = 10 := by simpa [lentHeap] using hq
    subst this; rfl) 10 (by decide)).mimeType
  exact absurd h (by decide +kernel)

example : (view lentFields lentHeap 10).getMimeType = some (b!"video/mp4") ∧
    (view lentFields (appendRep lentHeap 1 10) 10).getMimeType = some (b!"video/webm") := by decide +kernel

example : (match (view lentFields lentHeap 10).getMedia with | some (.ok s) => s | _ => []) = b!"a/V.m4s" ∧
    (match (view lentFields (appendRep lentHeap 1 10) 10).getMedia with | some (.ok s) => s | _ => []) = b!"b/V.webm" := by decide +kernel

/-- Repaired. -/
example : (view lentFields (asetSetParents (appendRep lentHeap 1 10) 0) 10).getMimeType = some (b!"video/mp4") := by decide +kernel

/-- A representation with values of its own can be in both sets. -/
def ownFields : Fields :=
  { lentFields with rep := fun _ => { mimeType := b!"m", codecs := b!"c", contentProtections := [1], segmentTemplate := some {} } }

example : SameAnswers (view ownFields lentHeap 10) (view ownFields (appendRep lentHeap 1 10) 10) := by
  refine (C97_iff _ lentHeap 1 0 10 rfl).2 ⟨?_, ?_, ?_, ?_⟩ <;> intro h <;> simp [ownFields] at h

/-- A clone of the first set. -/
example : SameAnswers (view lentFields lentHeap 10) (view lentFields (cloneASet (offsetCopy lentHeap 20) 20) 30) :=
  (C97_clone lentFields lentHeap _ _ _ _ (offsetCopy_deepCopy lentHeap 20) 0 (by decide)
    (fun q hq => by
      have : q = 10 := by simpa [lentHeap] using hq
      subst this; decide)
    (fun q hq s hs => by
      have : q = 10 := by simpa [lentHeap] using hq
      subst this; simp [lentHeap] at hs)
    (fun q hq => by
      have : q = 10 := by simpa [lentHeap] using hq
      subst this; rfl)).1 10 (by decide)

/-- A new representation for the second set. -/
example : SameAnswers (view lentFields lentHeap 10) (view lentFields (appendRep lentHeap 1 11) 10) := C97_others _ _ _ _ _ (by decide)

/-- A program with both sets, a period and a sub-representation. -/
example : (view lentFields ([Op.aset 5 1, .rep 1 10, .rep 1 11, .sub 10 3, .rep 0 10, .period 2 5].foldl Op.run lentHeap) 10).getMimeType =
    some (b!"video/mp4") := by
  rw [C97_run]
  decide +kernel

example : SameAnswers (view lentFields lentHeap 10) (view lentFields ([Op.rep 1 11, .rep 0 10, .aset 5 0].foldl Op.run lentHeap) 10) :=
  C97_run_one lentFields lentHeap _ 10 0 rfl (by decide)

end Verif.Lent

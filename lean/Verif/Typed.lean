import Verif.TreeProps
import Verif.DurationProps

/-!
Values that have a type.  What is read has the type of the destination, whatever the document.
-/
namespace Verif.Bind

open Verif.Xml

mutual
/-- A type all of whose structs have type information. -/
def Sch.ok : Sch → Bool
  | .simple (.int b) => 0 < b
  | .simple (.float b) => b == 32 || b == 64
  | .simple _ => true
  | .ptr s => s.ok
  | .slice s => s.ok
  | .struct _ _ infos subs => infos.length == subs.length && oks subs
  | .bad _ => false
  | .name => true
  | .attr => true
/-- Types all of whose structs have type information. -/
def oks : List Sch → Bool
  | [] => true
  | s :: l => s.ok && oks l
end

/-- A value of a simple kind. -/
def KindOk : Kind → Val → Prop
  | .str, .str _ => True
  | .bool, .bool _ => True
  | .int b, .int i => -(2 ^ (b - 1) : Int) ≤ i ∧ i < 2 ^ (b - 1)
  | .uint b, .uint n => n < 2 ^ b
  | .float b, .float x => x < 2 ^ b
  | .duration, .int i => IsI64 i
  | .floatInf, .float x => x < 2 ^ 64
  | _, _ => False

/-- The fields behind one embedded pointer are all absent or all present; a field that is not behind an embedded pointer is
present. -/
def Uniform (infos : List FInfo) (vs : List Val) : Prop :=
  ∀ (i j : Nat) (fi fj : FInfo) (vi vj : Val), infos[i]? = some fi → infos[j]? = some fj → vs[i]? = some vi →
    vs[j]? = some vj → (fi.grp = fj.grp → vi.isAbsent = vj.isAbsent) ∧ (fi.grp = none → vi.isAbsent = false)

mutual
/-- A value of a type. -/
def Typed : Sch → Val → Prop
  | .simple k, v => KindOk k v
  | .ptr _, .ptr none => True
  | .ptr s, .ptr (some v) => Typed s v
  | .slice s, .slice l => ∀ v ∈ l, Typed s v
  | .attr, .attr _ => True
  | .name, .name _ => True
  | .struct _ _ infos subs, .struct _ vs => Uniform infos vs ∧ Typeds subs vs
  | _, _ => False
/-- Fields of given types. -/
def Typeds : List Sch → List Val → Prop
  | [], [] => True
  | s :: ss, v :: vs => (v.isAbsent = true ∨ Typed s v) ∧ Typeds ss vs
  | _, _ => False
end

theorem typed_present (s : Sch) (v : Val) (h : Typed s v) : v.isAbsent = false := by
  cases v with
  | absent =>
    cases s with
    | simple k => cases k <;> simp [Typed, KindOk] at h
    | _ => simp [Typed] at h
  | _ => rfl

theorem typeds_length : ∀ (ss : List Sch) (vs : List Val), Typeds ss vs → vs.length = ss.length
  | [], [], _ => rfl
  | [], _ :: _, h => by simp [Typeds] at h
  | _ :: _, [], h => by simp [Typeds] at h
  | s :: ss, v :: vs, h => by simp only [Typeds] at h; simp [typeds_length ss vs h.2]

theorem typeds_get : ∀ (ss : List Sch) (vs : List Val), Typeds ss vs → ∀ (i : Nat) (s : Sch) (v : Val), ss[i]? = some s →
    vs[i]? = some v → v.isAbsent = true ∨ Typed s v
  | [], [], _, i, s, v, h, _ => by simp at h
  | [], _ :: _, h, _, _, _, _, _ => by simp [Typeds] at h
  | _ :: _, [], h, _, _, _, _, _ => by simp [Typeds] at h
  | s :: ss, v :: vs, h, i, s', v', h1, h2 => by
    simp only [Typeds] at h
    cases i with
    | zero => simp at h1 h2; subst h1; subst h2; exact h.1
    | succ i => simp at h1 h2; exact typeds_get ss vs h.2 i s' v' h1 h2

theorem typeds_of_get : ∀ (ss : List Sch) (vs : List Val), vs.length = ss.length →
    (∀ (i : Nat) (s : Sch) (v : Val), ss[i]? = some s → vs[i]? = some v → v.isAbsent = true ∨ Typed s v) → Typeds ss vs
  | [], [], _, _ => by simp [Typeds]
  | [], _ :: _, h, _ => by simp at h
  | _ :: _, [], h, _ => by simp at h
  | s :: ss, v :: vs, h, hg => by
    simp only [Typeds]
    exact ⟨hg 0 s v rfl rfl, typeds_of_get ss vs (by simpa using h) fun i s' v' h1 h2 =>
      hg (i + 1) s' v' (by simpa using h1) (by simpa using h2)⟩

theorem oks_get : ∀ (ss : List Sch), oks ss = true → ∀ (i : Nat) (s : Sch), ss[i]? = some s → s.ok = true
  | [], _, i, s, h => by simp at h
  | t :: ss, ho, i, s, h => by
    simp only [oks, Bool.and_eq_true] at ho
    cases i with
    | zero => simp at h; subst h; exact ho.1
    | succ i => simp at h; exact oks_get ss ho.2 i s h

theorem pow_ge_one (n : Nat) : (1 : Int) ≤ 2 ^ n := by
  have : (0 : Int) < 2 ^ n := by positivity
  omega

theorem zeros_get : ∀ (infos : List FInfo) (subs : List Sch) (i : Nat) (v : Val), (zeros infos subs)[i]? = some v →
    ∃ fi s, infos[i]? = some fi ∧ subs[i]? = some s ∧ v = if fi.grp = none then s.zero else .absent
  | [], _, i, v, h => by simp [zeros] at h
  | _ :: _, [], i, v, h => by simp [zeros] at h
  | fi :: fis, s :: ss, i, v, h => by
    simp only [zeros] at h
    cases i with
    | zero => simp at h; exact ⟨fi, s, rfl, rfl, h.symm⟩
    | succ i => simp at h; simpa using zeros_get fis ss i v h

theorem zeros_length : ∀ (infos : List FInfo) (subs : List Sch), infos.length = subs.length →
    (zeros infos subs).length = subs.length
  | [], [], _ => by simp [zeros]
  | [], _ :: _, h => by simp at h
  | _ :: _, [], h => by simp at h
  | _ :: fis, _ :: ss, h => by simp [zeros, zeros_length fis ss (by simpa using h)]

mutual
theorem zero_typed : ∀ s : Sch, s.ok = true → Typed s s.zero
  | .simple k, h => by
    cases k <;> simp [Sch.zero, Kind.zero, Typed, KindOk, IsI64, Sch.ok] at *
  | .ptr s, _ => by simp [Sch.zero, Typed]
  | .slice s, _ => by simp [Sch.zero, Typed]
  | .name, _ => by simp [Sch.zero, Typed]
  | .attr, _ => by simp [Sch.zero, Typed]
  | .bad _, h => by simp [Sch.ok] at h
  | .struct _ _ infos subs, h => by
    simp only [Sch.ok, Bool.and_eq_true, beq_iff_eq] at h
    simp only [Sch.zero, Typed]
    refine ⟨?_, zeros_typed infos subs h.1 h.2⟩
    have hz : ∀ (i : Nat) (fi : FInfo) (v : Val), infos[i]? = some fi → (zeros infos subs)[i]? = some v →
        v.isAbsent = if fi.grp = none then false else true := by
      intro i fi v hi hv
      obtain ⟨fi', s, h1, h2, rfl⟩ := zeros_get _ _ _ _ hv
      rw [hi] at h1; injection h1 with h1; subst h1
      split
      · obtain h3 | h3 := typeds_get _ _ (zeros_typed infos subs h.1 h.2) i s _ h2 hv
        · rename_i hg; simp [hg] at h3
          have := oks_zero subs h.2 i s h2
          rw [h3] at this; cases this
        · rename_i hg; simp only [hg, if_true] at h3; exact typed_present _ _ h3
      · rfl
    intro i j fi fj vi vj hi hj hvi hvj
    rw [hz i fi vi hi hvi, hz j fj vj hj hvj]
    exact ⟨fun hg => by rw [hg], fun hg => by rw [hg]; rfl⟩
theorem zeros_typed : ∀ (infos : List FInfo) (subs : List Sch), infos.length = subs.length → oks subs = true →
    Typeds subs (zeros infos subs)
  | [], [], _, _ => by simp [zeros, Typeds]
  | [], _ :: _, h, _ => by simp at h
  | _ :: _, [], h, _ => by simp at h
  | fi :: fis, s :: ss, h, ho => by
    simp only [oks, Bool.and_eq_true] at ho
    simp only [zeros, Typeds]
    refine ⟨?_, zeros_typed fis ss (by simpa using h) ho.2⟩
    split
    · exact Or.inr (zero_typed s ho.1)
    · exact Or.inl rfl
theorem oks_zero : ∀ (subs : List Sch), oks subs = true → ∀ (i : Nat) (s : Sch), subs[i]? = some s →
    s.zero.isAbsent = false
  | [], _, i, s, h => by simp at h
  | t :: ss, ho, i, s, h => by
    simp only [oks, Bool.and_eq_true] at ho
    cases i with
    | zero => simp at h; subst h; exact typed_present _ _ (zero_typed t ho.1)
    | succ i => simp at h; exact oks_zero ss ho.2 i s h
end

/-! ### Simple values -/

theorem parseLoop_i64 (a : Duration.Arch) : ∀ (k : Nat) (s : Bytes) (st : Duration.PSt) (v : Int), IsI64 st.total →
    Duration.parseLoop a k s st = .ok v → IsI64 v := by
  intro k
  induction k with
  | zero =>
    intro s st v h0 h
    cases s with
    | nil => simp only [Duration.parseLoop] at h; split at h <;> cases h; exact h0
    | cons c cs => cases h
  | succ k ih =>
    intro s st v h0 h
    cases s with
    | nil => simp only [Duration.parseLoop] at h; split at h <;> cases h; exact h0
    | cons c cs =>
      simp only [Duration.parseLoop] at h
      split at h
      · split at h
        · cases h
        · refine ih cs _ v ?_ h; exact h0
      split at h
      · cases h
      split at h
      · cases h
      split at h
      · cases h
      split at h
      · cases h
      split at h
      · cases h
      split at h
      · cases h
      split at h
      · cases h
      split at h
      · cases h
      · rename_i t ht
        refine ih _ _ v ?_ h
        show IsI64 t
        unfold Duration.addField at ht
        have hi : ∀ x : Int, IsI64 (i64 x) := by intro x; unfold IsI64 i64; omega
        split at ht
        · split at ht <;> cases ht; exact hi _
        split at ht
        · split at ht <;> cases ht; exact hi _
        split at ht
        · split at ht <;> cases ht; exact hi _
        · split at ht <;> cases ht; exact hi _

theorem parse_i64 (a : Duration.Arch) (s : Bytes) (v : Int) (h : Duration.parse a s = .ok v) : IsI64 v := by
  unfold Duration.parse at h
  split at h
  · cases h
  split at h
  · cases h
  split at h
  · cases h
  split at h
  · cases h
  · exact parseLoop_i64 a _ _ _ v (by unfold IsI64; simp) h

theorem copySimple_typed (io : FloatIO) (k : Kind) (src : Bytes) (v : Val) (hk : (Sch.simple k).ok = true)
    (h : copySimple io k src = .ok v) : KindOk k v := by
  have hz := zero_typed (.simple k) hk
  cases k with
  | str => simp only [copySimple] at h; injection h with h; subst h; trivial
  | bool =>
    simp only [copySimple] at h
    split at h
    · injection h with h; subst h; trivial
    · split at h
      · injection h with h; subst h; trivial
      · cases h
  | int b =>
    have hb : 1 ≤ b := by
      have : 0 < b := by simpa [Sch.ok] using hk
      omega
    simp only [copySimple] at h
    split at h
    · injection h with h; subst h; exact hz
    · split at h
      · rename_i hp
        injection h with h; subst h
        exact ((Strconv.parseInt_iff _ _ hb _).1 hp).2
      · cases h
  | uint b =>
    simp only [copySimple] at h
    split at h
    · injection h with h; subst h; exact hz
    · split at h
      · rename_i hp
        injection h with h; subst h
        exact ((Strconv.parseUint_iff _ _ _).1 hp).2.2.2
      · cases h
  | float b =>
    simp only [copySimple] at h
    split at h
    · injection h with h; subst h; exact hz
    · split at h
      · rename_i hp
        injection h with h; subst h
        exact io.parse_bits _ _ _ (by simpa [Sch.ok] using hk) hp
      · cases h
  | duration =>
    simp only [copySimple] at h
    split at h
    · injection h with h; subst h; exact hz
    · split at h
      · rename_i hp
        injection h with h; subst h
        have := ((Strconv.parseInt_iff _ 64 (by omega) _).1 hp).2
        show IsI64 _
        unfold IsI64; norm_num at this; omega
      · cases h
  | floatInf =>
    simp only [copySimple] at h
    split at h
    · injection h with h; subst h; exact hz
    · split at h
      · rename_i hp
        injection h with h; subst h
        exact io.parse_bits 64 _ _ (Or.inr rfl) hp
      · cases h

theorem copyValue_typed (io : FloatIO) (s : Sch) (src : Bytes) (v : Val) (hs : s.ok = true)
    (h : copyValue io s src = .ok v) : Typed s v := by
  unfold copyValue at h
  split at h
  · exact copySimple_typed io _ src v hs h
  · split at h
    · rename_i hc
      injection h with h; subst h
      exact copySimple_typed io _ src _ hs hc
    · cases h
  · cases h

theorem readSimpleAttr_typed (io : FloatIO) (k : Kind) (src : Bytes) (v : Val) (hk : (Sch.simple k).ok = true)
    (h : readSimpleAttr io k src = .ok v) : KindOk k v := by
  unfold readSimpleAttr at h
  split at h
  · split at h
    · rename_i hp
      injection h with h; subst h
      exact parse_i64 _ _ _ hp
    · cases h
  · split at h
    · injection h with h; subst h
      show infBits < 2 ^ 64
      decide
    · split at h
      · rename_i hp
        injection h with h; subst h
        exact io.parse_bits 64 _ _ (Or.inr rfl) hp
      · cases h
  · exact copySimple_typed io _ src v hk h

theorem wrapPtr_ok {x : Except RErr Val} {v : Val} (h : wrapPtr x = .ok v) : ∃ w, x = .ok w ∧ v = .ptr (some w) := by
  cases x with
  | ok w => injection h with h; exact ⟨w, rfl, h.symm⟩
  | error e => cases h

theorem wrapSlice_ok {l : List Val} {x : Except RErr Val} {v : Val} (h : wrapSlice l x = .ok v) :
    ∃ w, x = .ok w ∧ v = .slice (l ++ [w]) := by
  cases x with
  | ok w => injection h with h; exact ⟨w, rfl, h.symm⟩
  | error e => cases h

theorem deref_typed (s : Sch) (v : Val) (hs : s.ok = true) (h : Typed (.ptr s) v) : Typed s (v.deref s) := by
  cases v with
  | ptr o =>
    cases o with
    | none => exact zero_typed s hs
    | some w => simpa [Typed, Val.deref] using h
  | _ => simp [Typed] at h

theorem slice_typed {s : Sch} {v : Val} (h : Typed (.slice s) v) : ∃ l, v = .slice l ∧ ∀ w ∈ l, Typed s w := by
  cases v with
  | slice l => exact ⟨l, rfl, by simpa [Typed] using h⟩
  | _ => simp [Typed] at h

theorem slice_snoc {s : Sch} {l : List Val} {w : Val} (h : ∀ v ∈ l, Typed s v) (hw : Typed s w) :
    Typed (.slice s) (.slice (l ++ [w])) := by
  simp only [Typed, List.mem_append, List.mem_singleton]
  rintro v (hv | rfl)
  · exact h v hv
  · exact hw

theorem readAttr_typed (io : FloatIO) (a : Attr) : ∀ (s : Sch) (v w : Val), s.ok = true → Typed s v →
    readAttr io s v a = .ok w → Typed s w
  | .simple k, v, w, hs, _, h => by
    simp only [readAttr] at h
    exact readSimpleAttr_typed io k _ w hs h
  | .ptr s, v, w, hs, hv, h => by
    simp only [Sch.ok] at hs
    cases hp : s.isPtr with
    | false =>
      rw [readAttr_ptr io s v a hp] at h
      obtain ⟨x, hx, rfl⟩ := wrapPtr_ok h
      have := readAttr_typed io a s _ x hs (deref_typed s v hs hv) hx
      simpa [Typed] using this
    | true =>
      cases s with
      | ptr s' => simp [readAttr] at h
      | _ => simp [Sch.isPtr] at hp
  | .slice s, v, w, hs, hv, h => by
    simp only [Sch.ok] at hs
    obtain ⟨l, rfl, hl⟩ := slice_typed hv
    rw [readAttr_slice] at h
    obtain ⟨x, hx, rfl⟩ := wrapSlice_ok h
    exact slice_snoc hl (readAttr_typed io a s _ x hs (zero_typed s hs) hx)
  | .name, v, w, _, _, h => by simp [readAttr] at h
  | .attr, v, w, _, _, h => by simp only [readAttr] at h; injection h with h; subst h; simp [Typed]
  | .struct .., v, w, _, _, h => by simp [readAttr] at h
  | .bad _, v, w, _, _, h => by simp [readAttr] at h

/-! ### Fields -/

/-- What holds of the fields of a struct value. -/
structure Fields (infos : List FInfo) (subs : List Sch) (vs : List Val) : Prop where
  len : infos.length = subs.length
  ok : oks subs = true
  uni : Uniform infos vs
  typ : Typeds subs vs

theorem Fields.len_vs {infos : List FInfo} {subs : List Sch} {vs : List Val} (h : Fields infos subs vs) :
    vs.length = subs.length := typeds_length _ _ h.typ

theorem allocGroup_get (g : Option Nat) : ∀ (infos : List FInfo) (subs : List Sch) (vs : List Val) (j : Nat),
    (initGroup.allocGroup g infos subs vs)[j]? =
      match infos[j]?, subs[j]?, vs[j]? with
      | some fj, some sj, some vj => some (if fj.grp = g then sj.zero else vj)
      | _, _, o => o
  | [], _, vs, j => by simp [initGroup.allocGroup]
  | _ :: _, [], vs, j => by
    simp only [initGroup.allocGroup, List.getElem?_nil]
    split <;> simp_all
  | _ :: _, _ :: _, [], j => by
    simp only [initGroup.allocGroup, List.getElem?_nil]
    split <;> simp_all
  | fi :: fis, s :: ss, v :: vs, j => by
    simp only [initGroup.allocGroup]
    cases j with
    | zero => simp
    | succ j => simp [allocGroup_get g fis ss vs j]

/-- The fields after the embedded pointer of field `i` has been set, if it was nil. -/
theorem initGroup_get {infos : List FInfo} {subs : List Sch} {vs : List Val} (hf : Fields infos subs vs) (i j : Nat)
    (fi fj : FInfo) (vi vj : Val) (sj : Sch) (h1 : infos[i]? = some fi) (h2 : vs[i]? = some vi) (h3 : infos[j]? = some fj)
    (h4 : vs[j]? = some vj) (h5 : subs[j]? = some sj) :
    (initGroup infos subs vs i)[j]? = some (if vi.isAbsent = true ∧ fj.grp = fi.grp then sj.zero else vj) := by
  simp only [initGroup, h1, h2]
  split
  · rename_i hb
    rw [allocGroup_get, h3, h4, h5]
    simp [hb]
  · rename_i hb
    rw [h4]
    simp [hb]

theorem initGroup_length (infos : List FInfo) (subs : List Sch) (vs : List Val) (i : Nat) :
    (initGroup infos subs vs i).length = vs.length := by
  have hal : ∀ (g : Option Nat) (infos : List FInfo) (subs : List Sch) (vs : List Val),
      (initGroup.allocGroup g infos subs vs).length = vs.length := by
    intro g infos
    induction infos with
    | nil => intro subs vs; simp [initGroup.allocGroup]
    | cons fi fis ih =>
      intro subs vs
      cases subs with
      | nil => simp [initGroup.allocGroup]
      | cons s ss =>
        cases vs with
        | nil => simp [initGroup.allocGroup]
        | cons v vs => simp [initGroup.allocGroup, ih]
  unfold initGroup
  split
  · split
    · exact hal _ _ _ _
    · rfl
  · rfl

theorem get_of_lt {α} {l : List α} {i : Nat} (h : i < l.length) : ∃ a, l[i]? = some a := ⟨l[i], by simp [h]⟩

/-- Field number, description, type and value of a field. -/
theorem Fields.at {infos : List FInfo} {subs : List Sch} {vs : List Val} (hf : Fields infos subs vs) {i : Nat}
    (h : i < vs.length) : ∃ fi si vi, infos[i]? = some fi ∧ subs[i]? = some si ∧ vs[i]? = some vi ∧ i < subs.length := by
  have h1 := hf.len_vs
  have h2 := hf.len
  obtain ⟨a, ha⟩ := get_of_lt (l := infos) (i := i) (by omega)
  obtain ⟨b, hb⟩ := get_of_lt (l := subs) (i := i) (by omega)
  obtain ⟨c, hc⟩ := get_of_lt h
  exact ⟨a, b, c, ha, hb, hc, by omega⟩

theorem lt_of_get {α} {l : List α} {i : Nat} {a : α} (h : l[i]? = some a) : i < l.length := by
  by_contra hc
  rw [List.getElem?_eq_none (by omega)] at h
  cases h

/-- Setting an embedded pointer keeps the fields well typed; afterwards field `i` is present. -/
theorem initGroup_fields {infos : List FInfo} {subs : List Sch} {vs : List Val} (hf : Fields infos subs vs) (i : Nat)
    (hi : i < vs.length) :
    Fields infos subs (initGroup infos subs vs i) ∧
      ∃ s v, subs[i]? = some s ∧ (initGroup infos subs vs i)[i]? = some v ∧ Typed s v ∧ s.ok = true := by
  obtain ⟨fi, si, vi, h1, h2, h3, h4⟩ := hf.at hi
  have key : ∀ (j : Nat) (w : Val), (initGroup infos subs vs i)[j]? = some w →
      ∃ fj sj vj, infos[j]? = some fj ∧ subs[j]? = some sj ∧ vs[j]? = some vj ∧
        w = if vi.isAbsent = true ∧ fj.grp = fi.grp then sj.zero else vj := by
    intro j w hw
    have hj : j < vs.length := by rw [← initGroup_length infos subs vs i]; exact lt_of_get hw
    obtain ⟨fj, sj, vj, g1, g2, g3, g4⟩ := hf.at hj
    rw [initGroup_get hf i j fi fj vi vj sj h1 h3 g1 g3 g2] at hw
    injection hw with hw
    exact ⟨fj, sj, vj, g1, g2, g3, hw.symm⟩
  have habs : ∀ (j : Nat) (fj : FInfo) (w : Val), infos[j]? = some fj → (initGroup infos subs vs i)[j]? = some w →
      ∃ vj, vs[j]? = some vj ∧ w.isAbsent = (if fj.grp = fi.grp then false else vj.isAbsent) := by
    intro j fj w hj hw
    obtain ⟨fj', sj, vj, g1, g2, g3, rfl⟩ := key j w hw
    rw [hj] at g1; injection g1 with g1; subst g1
    refine ⟨vj, g3, ?_⟩
    have hu := (hf.uni i j fi fj vi vj h1 hj h3 g3).1
    by_cases hg : fj.grp = fi.grp
    · by_cases hb : vi.isAbsent = true
      · rw [if_pos ⟨hb, hg⟩, if_pos hg]; exact oks_zero _ hf.ok _ _ g2
      · rw [if_neg (by simp [hb]), if_pos hg, ← hu hg.symm]; simpa using hb
    · rw [if_neg (by simp [hg]), if_neg hg]
  have hF : Fields infos subs (initGroup infos subs vs i) := by
    refine ⟨hf.len, hf.ok, ?_, ?_⟩
    · intro a b fa fb va vb ha hb hva hvb
      obtain ⟨xa, hxa, ea⟩ := habs a fa va ha hva
      obtain ⟨xb, hxb, eb⟩ := habs b fb vb hb hvb
      have hu := hf.uni a b fa fb xa xb ha hb hxa hxb
      rw [ea, eb]
      constructor
      · intro hg; rw [hg]; split
        · rfl
        · exact hu.1 hg
      · intro hg; split
        · rfl
        · exact hu.2 hg
    · refine typeds_of_get _ _ ?_ ?_
      · rw [initGroup_length]; exact hf.len_vs
      · intro j s w hs hw
        obtain ⟨fj, sj, vj, g1, g2, g3, rfl⟩ := key j w hw
        rw [hs] at g2; injection g2 with g2; subst g2
        split
        · exact Or.inr (zero_typed s (oks_get _ hf.ok _ _ hs))
        · exact typeds_get _ _ hf.typ j s vj hs g3
  refine ⟨hF, ?_⟩
  obtain ⟨w, hw⟩ := get_of_lt (l := initGroup infos subs vs i) (i := i) (by rw [initGroup_length]; exact hi)
  refine ⟨si, w, h2, hw, ?_, oks_get _ hf.ok _ _ h2⟩
  obtain ⟨vj, hvj, e⟩ := habs i fi w h1 hw
  rw [if_pos rfl] at e
  rcases typeds_get _ _ hF.typ i si w h2 hw with h | h
  · rw [e] at h; cases h
  · exact h

/-- Storing a well-typed value into a field that is present keeps the fields well typed. -/
theorem set_fields {infos : List FInfo} {subs : List Sch} {vs : List Val} (hf : Fields infos subs vs) (i : Nat) (s : Sch)
    (v w : Val) (h1 : subs[i]? = some s) (h2 : vs[i]? = some v) (hv : Typed s v) (hw : Typed s w) :
    Fields infos subs (vs.set i w) := by
  have ev := typed_present s v hv
  have ew := typed_present s w hw
  have key : ∀ (j : Nat) (x : Val), (vs.set i w)[j]? = some x → ∃ y, vs[j]? = some y ∧ x.isAbsent = y.isAbsent ∧
      ((j = i ∧ x = w) ∨ x = y) := by
    intro j x hx
    rw [List.getElem?_set] at hx
    split at hx
    · rename_i hij; subst hij
      rw [if_pos (lt_of_get h2)] at hx
      injection hx with hx; subst hx
      exact ⟨v, h2, by rw [ev, ew], Or.inl ⟨rfl, rfl⟩⟩
    · exact ⟨x, hx, rfl, Or.inr rfl⟩
  refine ⟨hf.len, hf.ok, ?_, ?_⟩
  · intro a b fa fb va vb ha hb hva hvb
    obtain ⟨xa, hxa, ea, _⟩ := key a va hva
    obtain ⟨xb, hxb, eb, _⟩ := key b vb hvb
    rw [ea, eb]
    exact hf.uni a b fa fb xa xb ha hb hxa hxb
  · refine typeds_of_get _ _ (by rw [List.length_set]; exact hf.len_vs) ?_
    intro j s' x hs hx
    obtain ⟨y, hy, _, h | h⟩ := key j x hx
    · obtain ⟨rfl, rfl⟩ := h
      rw [h1] at hs; injection hs with hs; subst hs
      exact Or.inr hw
    · subst h; exact typeds_get _ _ hf.typ j s' x hs hy

/-- An update of a field by a function that keeps the type. -/
theorem updField_fields {infos : List FInfo} {subs : List Sch} {vs vs' : List Val} (hf : Fields infos subs vs) (i : Nat)
    (g : Sch → Val → Except RErr Val) (hg : ∀ s v w, s.ok = true → Typed s v → g s v = .ok w → Typed s w)
    (h : updField infos subs vs i g = .ok vs') : Fields infos subs vs' := by
  unfold updField at h
  split at h
  · rename_i s v hs hv
    have hi : i < vs.length := by rw [← initGroup_length infos subs vs i]; exact lt_of_get hv
    obtain ⟨hF, s', v', h1, h2, h3, h4⟩ := initGroup_fields hf i hi
    rw [hs] at h1; injection h1 with h1; subst h1
    rw [hv] at h2; injection h2 with h2; subst h2
    split at h
    · rename_i w hw
      injection h with h; subst h
      exact set_fields hF i s v w hs hv h3 (hg s v w h4 h3 hw)
    · cases h
  · cases h

theorem readAttrs_fields (io : FloatIO) {infos : List FInfo} {subs : List Sch} (as : List Attr) :
    ∀ {vs vs' : List Val}, Fields infos subs vs → readAttrs io infos subs vs as = .ok vs' → Fields infos subs vs' := by
  induction as with
  | nil => intro vs vs' hf h; simp only [readAttrs] at h; injection h with h; subst h; exact hf
  | cons a l ih =>
    intro vs vs' hf h
    simp only [readAttrs] at h
    split at h
    · exact ih hf h
    · split at h
      · cases h
      · rename_i hu
        exact ih (updField_fields hf _ _ (fun s v w hs hv hw => readAttr_typed io a s v w hs hv hw) hu) h

theorem finishStruct_fields (io : FloatIO) {infos : List FInfo} {subs : List Sch} {vs vs' : List Val} (data inner : Bytes)
    (hf : Fields infos subs vs) (h : finishStruct io infos subs vs data inner = .ok vs') : Fields infos subs vs' := by
  unfold finishStruct at h
  dsimp only at h
  have h1 : ∀ ws, (match modeField infos .chardata with
    | none => (.ok vs : Except RErr (List Val))
    | some i => updField infos subs vs i (fun s _ => copyValue io s data)) = .ok ws → Fields infos subs ws := by
    intro ws hw
    split at hw
    · injection hw with hw; subst hw; exact hf
    · exact updField_fields hf _ _ (fun s v w hs _ hw => copyValue_typed io s data w hs hw) hw
  split at h
  · cases h
  · rename_i ws hw
    have hF := h1 ws hw
    split at h
    · injection h with h; subst h; exact hF
    · refine updField_fields hF _ _ (fun s v w hs hv hw => ?_) h
      split at hw
      · injection hw with hw; subst hw; trivial
      · injection hw with hw; subst hw; exact hv

/-! ### Elements -/

theorem place_typed (f : Nat → Sch → Val → Except RErr Val)
    (hf : ∀ d s v w, s.ok = true → Typed s v → f d s v = .ok w → Typed s w) : ∀ (s : Sch) (top : Bool) (d : Nat) (v w : Val),
    s.ok = true → Typed s v → place f top d s v = .ok w → Typed s w
  | .ptr s, top, d, v, w, hs, hv, h => by
    cases top with
    | false => simp only [place] at h; exact hf d _ v w hs hv h
    | true =>
      simp only [place] at h
      split at h
      · cases h
      · obtain ⟨x, hx, rfl⟩ := wrapPtr_ok h
        simp only [Sch.ok] at hs
        have := place_typed f hf s false d _ x hs (deref_typed s v hs hv) hx
        simpa [Typed] using this
  | .slice s, top, d, v, w, hs, hv, h => by
    obtain ⟨l, rfl, hl⟩ := slice_typed hv
    simp only [Sch.ok] at hs
    have hx : ∃ x, place f true (d + 1) s s.zero = .ok x ∧ w = .slice (l ++ [x]) := by
      cases top with
      | false => simp only [place] at h; exact wrapSlice_ok h
      | true =>
        simp only [place] at h
        split at h
        · cases h
        · exact wrapSlice_ok h
    obtain ⟨x, hx, rfl⟩ := hx
    exact slice_snoc hl (place_typed f hf s true (d + 1) _ x hs (zero_typed s hs) hx)
  | .simple k, top, d, v, w, hs, hv, h => by
    cases top with
    | false => simp only [place] at h; exact hf d _ v w hs hv h
    | true =>
      simp only [place] at h
      split at h
      · cases h
      · exact hf d _ v w hs hv h
  | .name, top, d, v, w, hs, hv, h => by
    cases top with
    | false => simp only [place] at h; exact hf d _ v w hs hv h
    | true =>
      simp only [place] at h
      split at h
      · cases h
      · exact hf d _ v w hs hv h
  | .attr, top, d, v, w, hs, hv, h => by
    cases top with
    | false => simp only [place] at h; exact hf d _ v w hs hv h
    | true =>
      simp only [place] at h
      split at h
      · cases h
      · exact hf d _ v w hs hv h
  | .struct .., top, d, v, w, hs, hv, h => by
    cases top with
    | false => simp only [place] at h; exact hf d _ v w hs hv h
    | true =>
      simp only [place] at h
      split at h
      · cases h
      · exact hf d _ v w hs hv h
  | .bad _, top, d, v, w, hs, hv, h => by simp [Sch.ok] at hs

theorem struct_fields {tn : Bytes} {xn : Option FInfo} {infos : List FInfo} {subs : List Sch} {v : Val}
    (hs : (Sch.struct tn xn infos subs).ok = true) (hv : Typed (.struct tn xn infos subs) v) :
    ∃ xv vs, v = .struct xv vs ∧ Fields infos subs vs := by
  simp only [Sch.ok, Bool.and_eq_true, beq_iff_eq] at hs
  cases v with
  | struct xv vs => simp only [Typed] at hv; exact ⟨xv, vs, rfl, hs.1, hs.2, hv.1, hv.2⟩
  | _ => simp [Typed] at hv

theorem fields_struct {tn : Bytes} {xn : Option FInfo} {infos : List FInfo} {subs : List Sch} {vs : List Val} (xv : Name)
    (hf : Fields infos subs vs) : Typed (.struct tn xn infos subs) (.struct xv vs) := by
  simp only [Typed]; exact ⟨hf.uni, hf.typ⟩

theorem readBody_typed (io : FloatIO) (n : Name) (as : List Attr) (data inner : Bytes)
    (rk : Nat → List FInfo → List Sch → List Val → Except RErr (List Val))
    (hrk : ∀ d infos subs vs vs', Fields infos subs vs → rk d infos subs vs = .ok vs' → Fields infos subs vs')
    (d : Nat) (s : Sch) (v w : Val) (hs : s.ok = true) (hv : Typed s v)
    (h : readBody io n as data inner rk d s v = .ok w) : Typed s w := by
  cases s with
  | simple k => simp only [readBody] at h; exact copySimple_typed io k data w hs h
  | struct tn xn infos subs =>
    obtain ⟨xv, vs, rfl, hf⟩ := struct_fields hs hv
    simp only [readBody] at h
    split at h
    · cases h
    split at h
    · cases h
    split at h
    · cases h
    split at h
    · cases h
    · rename_i ha _ _ hk _ _ hfin
      injection h with h; subst h
      exact fields_struct _ (finishStruct_fields io _ _ (hrk d _ _ _ _ (readAttrs_fields io as hf ha) hk) hfin)
  | _ => simp [readBody] at h

mutual
/-- What is read into a value of a type has that type. -/
theorem readT_typed (io : FloatIO) : ∀ (t : XTree) (top : Bool) (d : Nat) (s : Sch) (v w : Val), s.ok = true → Typed s v →
    readT io top d s v t = .ok w → Typed s w
  | .leaf _ _ _, top, d, s, v, w, _, _, h => by simp [readT] at h
  | .elem n as b a kids en eb ea, top, d, s, v, w, hs, hv, h => by
    rw [readT] at h
    refine place_typed _ (fun d s v w hs hv h => ?_) s top d v w hs hv h
    exact readBody_typed io n as _ _ _ (fun d infos subs vs vs' hf h => readKids_fields io kids d infos subs vs vs' hf h)
      d s v w hs hv h
theorem readKids_fields (io : FloatIO) : ∀ (l : List XTree) (d : Nat) (infos : List FInfo) (subs : List Sch)
    (vs vs' : List Val), Fields infos subs vs → readKids io d infos subs vs l = .ok vs' → Fields infos subs vs'
  | [], d, infos, subs, vs, vs', hf, h => by simp only [readKids] at h; injection h with h; subst h; exact hf
  | .leaf _ _ _ :: l, d, infos, subs, vs, vs', hf, h => by
    simp only [readKids] at h
    exact readKids_fields io l d infos subs vs vs' hf h
  | .elem n as b a kids en eb ea :: l, d, infos, subs, vs, vs', hf, h => by
    simp only [readKids] at h
    split at h
    · exact readKids_fields io l d infos subs vs vs' hf h
    · split at h
      · cases h
      · rename_i hu
        refine readKids_fields io l d infos subs _ vs' (updField_fields hf _ _ (fun s v w hs hv hw => ?_) hu) h
        exact readT_typed io (.elem n as b a kids en eb ea) true (d + 1) s v w hs hv hw
end

/-- What `Unmarshal` returns has the type of the destination. -/
theorem unmarshalDoc_typed (io : FloatIO) (s : Sch) (doc : Bytes) (v : Val) (hs : s.ok = true)
    (h : unmarshalDoc io s doc = .ok v) : Typed s v := by
  obtain ⟨t, ht⟩ := unmarshalDoc_ok io s doc v h
  rw [unmarshalDoc_tree io s doc t ht] at h
  exact readT_typed io t false 0 s s.zero v hs (zero_typed s hs) h

end Verif.Bind

import Verif.Written
import Verif.KRfl

/-!
C60: the exact text that is written for a manifest made with the constructors: the proof that the marshalled items are
printed as the specification says, and the theorem.
-/

namespace Verif.Written

open Verif Verif.Xml Verif.Bind Verif.Utf8

/-! ### The text of the items -/

/-- Bytes that are written as they are. -/
def Bare (b : UInt8) : Prop := Graphic b ∧ attrByte b = [b]

instance (b : UInt8) : Decidable (Bare b) := by unfold Bare; infer_instance

theorem bare_digit (b : UInt8) : isDigit b = true → Bare b :=
  byte_table (P := fun b => isDigit b = true → Bare b) (by decide +kernel) b

theorem bare_uint (n : Nat) : ∀ b ∈ Strconv.formatUint n, Bare b := fun b hb => bare_digit b (Strconv.formatUint_digits n b hb)

theorem bare_int (n : Int) : ∀ b ∈ Strconv.formatInt n, Bare b := by
  unfold Strconv.formatInt
  split
  · intro b hb
    rcases List.mem_cons.1 hb with rfl | hb
    · decide
    · exact bare_uint _ b hb
  · exact bare_uint _

theorem bare_fld (u : UInt8) (hu : Bare u) (o : Option Bytes) (h : ∀ n ∈ o, ∀ b ∈ n, Bare b) : ∀ b ∈ DurationSpec.fld u o, Bare b := by
  cases o with
  | none => simp [DurationSpec.fld]
  | some n =>
    intro b hb
    simp only [DurationSpec.fld, List.mem_append, List.mem_singleton] at hb
    rcases hb with hb | rfl
    · exact h n rfl b hb
    · exact hu

theorem bare_dur (d : Int) (hd : IsI64 d) : ∀ b ∈ (Duration.goString d).getD [], Bare b := by
  by_cases h0 : d = 0
  · subst h0
    rw [show (Duration.goString 0).getD [] = b!"PT0S" by decide +kernel]
    decide
  · obtain ⟨H, M, S, sv, hf, he⟩ := Duration.goString_form d hd h0
    rw [he]
    intro b hb
    simp only [Option.getD_some, List.mem_append, List.mem_cons] at hb
    rcases hb with hb | rfl | rfl | (hb | hb) | hb
    · split at hb
      · simp at hb; subst hb; decide
      · simp at hb
    · decide
    · decide
    · exact bare_fld _ (by decide) H (fun n hn x hx => bare_digit x ((hf.hH n hn).1.2 x hx)) b hb
    · exact bare_fld _ (by decide) M (fun n hn x hx => bare_digit x ((hf.hM n hn).1.2 x hx)) b hb
    · refine bare_fld _ (by decide) S (fun n hn x hx => ?_) b hb
      have h := hf.hS
      cases S with
      | none => cases hn
      | some m =>
        cases hn
        obtain ⟨ip, fs, rfl, -, hfs, -⟩ := h
        rcases List.mem_append.1 hx with hx | hx
        · exact bare_digit x (Duration.digits_isDigit _ x hx)
        · unfold Duration.dotFrac at hx
          split at hx
          · simp at hx
          · rcases List.mem_cons.1 hx with rfl | hx
            · decide
            · exact bare_digit x (hfs x hx)

theorem a1_text (n v : Bytes) : (a1 n v).flatMap attrText = att n v := by
  simp [a1, attrText, att, escapeString_eq]

theorem a1_bare (n v : Bytes) (h : ∀ b ∈ v, Bare b) : (a1 n v).flatMap attrText = b!" " ++ n ++ b!"=\"" ++ v ++ b!"\"" := by
  simp [a1, attrText, escapeString_self v h]

theorem aOpt_text (n v : Bytes) : (aOpt n v).flatMap attrText = opt n v := by
  unfold aOpt opt
  split
  · rfl
  · exact a1_text n v

theorem aNum_text (n : Bytes) (k : Nat) : (aNum n k).flatMap attrText = optNum n k := by
  unfold aNum optNum
  split
  · rfl
  · exact a1_bare n _ (bare_uint k)

theorem aDur_text (n : Bytes) (d : Option Int) (h : ∀ x ∈ d, IsI64 x) : (aDur n d).flatMap attrText = optDur n d := by
  cases d with
  | none => rfl
  | some d => exact a1_bare n _ (bare_dur d (h d rfl))

theorem item_text (n : Bytes) (as : List Attr) (kids : List Item) :
    itemText (item n as kids) = b!"<" ++ n ++ as.flatMap attrText ++ b!">" ++ itemsText kids ++ b!"</" ++ n ++ b!">" := rfl

theorem base_text (u : Bytes) : itemText (baseItem u) = baseText u := by
  simp [baseItem, item_text, itemsText, itemText, baseText, escapeText_eq]

theorem role_text (v : Bytes) : itemText (roleItem v) = roleText v := by
  rw [roleItem, item_text, List.flatMap_append, aOpt_text, a1_bare _ _ (by decide +kernel)]
  simp [itemsText, roleText]

theorem u32_add (a k : Nat) : u32 (u32 a + k) = (a + k) % 2 ^ 32 := by
  unfold u32
  generalize 2 ^ 32 = m
  exact Nat.mod_add_mod a m k

theorem idx_range (i x : Nat) (e : Bool) : (Misc.setSegmentBase i x e).indexRange =
    Strconv.formatUint i ++ ch%'-' :: Strconv.formatUint ((i + x + (2 ^ 32 - 1)) % 2 ^ 32) := by
  have h : (Misc.setSegmentBase i x e).indexRange =
      Strconv.formatUint i ++ ch%'-' :: Strconv.formatUint (u32 (u32 (i + x) + (2 ^ 32 - 1))) := by
    unfold Misc.setSegmentBase
    with_reducible rfl
  rw [h, u32_add]

theorem range_bare (a b : Nat) : ∀ c ∈ Strconv.formatUint a ++ ch%'-' :: Strconv.formatUint b, Bare c := by
  intro c hc
  rcases List.mem_append.1 hc with hc | hc
  · exact bare_uint _ c hc
  · rcases List.mem_cons.1 hc with rfl | hc
    · decide
    · exact bare_uint _ c hc

theorem init_bare (a : Nat) : ∀ c ∈ (b!"0-") ++ Strconv.formatUint a, Bare c := by
  intro c hc
  rcases List.mem_append.1 hc with hc | hc
  · exact (by decide : ∀ b ∈ (b!"0-"), Bare b) c hc
  · exact bare_uint _ c hc

theorem seg_text_aux (i y z : Nat) (e : Bool) :
    itemsText [item (b!"SegmentBase") (a1 (b!"indexRange") (Strconv.formatUint i ++ ch%'-' :: Strconv.formatUint y) ++
        (if e then a1 (b!"indexRangeExact") (b!"true") else []))
      [item (b!"Initialization") (a1 (b!"range") ((b!"0-") ++ Strconv.formatUint z)) []]] =
    b!"<SegmentBase indexRange=\"" ++ Strconv.formatUint i ++ b!"-" ++ Strconv.formatUint y ++
      b!"\"" ++ (if e then b!" indexRangeExact=\"true\"" else []) ++ b!"><Initialization range=\"0-" ++
      Strconv.formatUint z ++ b!"\"></Initialization></SegmentBase>" := by
  have h5 : (if e then a1 (b!"indexRangeExact") (b!"true") else []).flatMap attrText =
      if e then b!" indexRangeExact=\"true\"" else [] := by
    cases e
    · rfl
    · decide +kernel
  simp only [itemsText, item_text, List.flatMap_append, a1_bare _ _ (range_bare i y), a1_bare _ _ (init_bare z), h5]
  simp only [List.append_nil, List.append_assoc, List.cons_append, List.nil_append]

theorem seg_text (o : Option (Nat × Nat × Bool)) : itemsText (segItems o) = segText o := by
  rcases o with _ | ⟨i, x, e⟩
  · rfl
  · rw [segItems, segText, idx_range]
    unfold u32
    exact seg_text_aux i _ _ e

theorem rep_text (r : RepD) : itemText (repItem r) = repText r := by
  rw [repItem, item_text, itemsText_append, seg_text, itemsText_map baseItem baseText _ fun u _ => base_text u, repAttrs, repText]
  simp only [List.flatMap_append, a1_text, aOpt_text, a1_bare _ _ (bare_uint _)]
  cases r.kind with
  | plain => simp [num, toU32]
  | audio a => simp [num, toU32, a1_bare _ _ (bare_int a)]
  | video f w h => simp [num, toU32, aNum_text, aOpt_text]

theorem set_text (a : SetD) : itemText (setItem a) = setText a := by
  rw [setItem, item_text, itemsText_append, itemsText_map roleItem roleText _ fun u _ => role_text u,
    itemsText_map repItem repText _ fun r _ => rep_text r, setAttrs, setText]
  simp only [List.flatMap_append, aOpt_text, aNum_text]
  cases a.segmentAlignment
  · simp
  · rw [if_pos rfl, if_pos rfl, a1_bare _ _ (by decide +kernel)]
    simp

theorem period_text (p : PeriodD) (h : p.Ok) : itemText (periodItem p) = periodText p := by
  rw [periodItem, item_text, itemsText_map setItem setText _ fun r _ => set_text r, periodAttrs, periodText]
  simp only [List.flatMap_append, aOpt_text, aDur_text _ _ h.1, aDur_text _ _ h.2]
  simp

theorem mpd_text (m : MpdD) (h : m.Ok) : itemText (mpdItem m) = mpdText m := by
  rw [mpdItem, item_text, itemsText_append, itemsText_map baseItem baseText _ fun u _ => base_text u,
    itemsText_map periodItem periodText _ fun p hp => period_text p (h.2.2 p hp), mpdAttrs, mpdText]
  simp only [List.flatMap_append, a1_text, aDur_text _ _ h.1, aDur_text _ _ h.2.1]
  rw [← a1_text (b!"xmlns"), a1_bare _ _ (by decide +kernel)]
  simp

/-! ### All names are plain -/

theorem a1_plain (n v : Bytes) (h : Plain ⟨[], n⟩) : ∀ a ∈ a1 n v, Plain a.name := by
  intro a ha
  simp [a1] at ha
  subst ha
  exact h

theorem aOpt_plain (n v : Bytes) (h : Plain ⟨[], n⟩) : ∀ a ∈ aOpt n v, Plain a.name := by
  unfold aOpt
  split
  · simp
  · exact a1_plain n v h

theorem aNum_plain (n : Bytes) (k : Nat) (h : Plain ⟨[], n⟩) : ∀ a ∈ aNum n k, Plain a.name := by
  unfold aNum
  split
  · simp
  · exact a1_plain n _ h

theorem aDur_plain (n : Bytes) (d : Option Int) (h : Plain ⟨[], n⟩) : ∀ a ∈ aDur n d, Plain a.name := by
  cases d with
  | none => simp [aDur]
  | some d => exact a1_plain n _ h

theorem app_plain (l m : List Attr) (hl : ∀ a ∈ l, Plain a.name) (hm : ∀ a ∈ m, Plain a.name) : ∀ a ∈ l ++ m, Plain a.name := by
  intro a ha
  rcases List.mem_append.1 ha with h | h
  · exact hl a h
  · exact hm a h

theorem base_plain (u : Bytes) : PlainItem (baseItem u) := ⟨by decide, by simp, trivial, trivial⟩

theorem role_plain (v : Bytes) : PlainItem (roleItem v) :=
  ⟨by decide, app_plain _ _ (a1_plain _ _ (by decide)) (aOpt_plain _ _ (by decide)), trivial⟩

theorem seg_plain (o : Option (Nat × Nat × Bool)) : PlainItems (segItems o) := by
  rcases o with _ | ⟨i, x, e⟩
  · trivial
  · refine ⟨⟨by decide, app_plain _ _ (a1_plain _ _ (by decide)) ?_, ⟨by decide, a1_plain _ _ (by decide), trivial⟩, trivial⟩, trivial⟩
    cases e
    · simp
    · exact a1_plain _ _ (by decide)

theorem rep_plain (r : RepD) : PlainItem (repItem r) := by
  refine ⟨by decide, ?_, (plainItems_append _ _).2 ⟨plainItems_map _ _ fun u _ => base_plain u, seg_plain _⟩⟩
  refine app_plain _ _ (app_plain _ _ (app_plain _ _ (app_plain _ _ (a1_plain _ _ (by decide)) (a1_plain _ _ (by decide))) ?_)
    (aOpt_plain _ _ (by decide))) (aOpt_plain _ _ (by decide))
  cases r.kind with
  | plain => simp
  | audio a => exact a1_plain _ _ (by decide)
  | video f w h =>
    exact app_plain _ _ (app_plain _ _ (aNum_plain _ _ (by decide)) (aNum_plain _ _ (by decide))) (aOpt_plain _ _ (by decide))

theorem set_plain (a : SetD) : PlainItem (setItem a) := by
  refine ⟨by decide, ?_, (plainItems_append _ _).2 ⟨plainItems_map _ _ fun u _ => role_plain u,
    plainItems_map _ _ fun r _ => rep_plain r⟩⟩
  refine app_plain _ _ (app_plain _ _ (app_plain _ _ (aOpt_plain _ _ (by decide)) ?_) (aOpt_plain _ _ (by decide)))
    (aNum_plain _ _ (by decide))
  cases a.segmentAlignment
  · simp
  · exact a1_plain _ _ (by decide)

theorem period_plain (p : PeriodD) : PlainItem (periodItem p) :=
  ⟨by decide, app_plain _ _ (aOpt_plain _ _ (by decide)) (app_plain _ _ (aDur_plain _ _ (by decide)) (aDur_plain _ _ (by decide))),
    plainItems_map _ _ fun a _ => set_plain a⟩

theorem mpd_plain (m : MpdD) : PlainItem (mpdItem m) :=
  ⟨by decide, app_plain _ _ (app_plain _ _ (app_plain _ _ (a1_plain _ _ (by decide)) (a1_plain _ _ (by decide)))
    (a1_plain _ _ (by decide))) (app_plain _ _ (aDur_plain _ _ (by decide)) (aDur_plain _ _ (by decide))),
    (plainItems_append _ _).2 ⟨plainItems_map _ _ fun u _ => base_plain u, plainItems_map _ _ fun p _ => period_plain p⟩⟩

/-! ### Theorems -/

/-- C60: a manifest made with the constructors, from any strings, numbers and int64 durations, is written as exactly the
text of the specification. -/
theorem C60_written (io : FloatIO) (m : MpdD) (h : m.Ok) (hdr : Bool) :
    writeDoc io tMPD.sch (mpdVal m) [] hdr =
      .ok ((if hdr then b!"<?xml version=\"1.0\" encoding=\"UTF-8\"?>\n" else []) ++ mpdText m) := by
  unfold writeDoc
  rw [mpd_marshal io m h]
  simp only
  rw [encode_plain [mpdItem m] (show PlainItems [mpdItem m] from ⟨mpd_plain m, trivial⟩)]
  simp only [itemsText, List.append_nil, mpd_text m h]
  cases hdr <;> rfl

/-- The constructors without arguments give the same as those with zero values. -/
theorem new_zero : newAdaptationSet = newAdaptationSetWithParams [] [] false 0 ∧ newRepresentation = newRepresentationWithID [] [] [] 0 :=
  ⟨by krfl, by krfl⟩

/-- A manifest. -/
def small : MpdD where
  typ := b!"static"
  profiles := b!"urn:mpeg:dash:profile:isoff-on-demand:2011"
  dur := some 3600000000000
  minBuffer := some 2000000000
  baseURLs := [b!"http://a/b?c&d"]
  periods := [{ id := b!"p0", start := some 0, dur := none, sets :=
    [{ contentType := b!"video", mimeType := b!"video/mp4", segmentAlignment := true, startWithSAP := 1, roles := [b!"main"], reps :=
      [{ id := b!"v\"1\"", codec := b!"avc1", mimeType := [], bandwidth := -1, kind := .video [] 640 0, baseURLs := [b!"v1.mp4"],
         seg := some (1000, 100, true) }] }] }]

example : small.Ok := by
  refine ⟨?_, ?_, ?_⟩
  · intro x hx; cases hx; decide
  · intro x hx; cases hx; decide
  · intro p hp
    simp [small] at hp
    subst hp
    exact ⟨fun x hx => by cases hx; decide, fun x hx => by cases hx⟩

example : mpdText small = b!"<MPD xmlns=\"urn:mpeg:dash:schema:mpd:2011\" profiles=\"urn:mpeg:dash:profile:isoff-on-demand:2011\" type=\"static\" mediaPresentationDuration=\"PT1H\" minBufferTime=\"PT2S\"><BaseURL>http://a/b?c&amp;d</BaseURL><Period id=\"p0\" start=\"PT0S\"><AdaptationSet contentType=\"video\" segmentAlignment=\"true\" mimeType=\"video/mp4\" startWithSAP=\"1\"><Role schemeIdUri=\"urn:mpeg:dash:role:2011\" value=\"main\"></Role><Representation id=\"v&#34;1&#34;\" bandwidth=\"4294967295\" width=\"640\" codecs=\"avc1\"><BaseURL>v1.mp4</BaseURL><SegmentBase indexRange=\"1000-1099\" indexRangeExact=\"true\"><Initialization range=\"0-999\"></Initialization></SegmentBase></Representation></AdaptationSet></Period></MPD>" := by
  decide +kernel

end Verif.Written

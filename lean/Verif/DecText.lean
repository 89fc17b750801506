import Verif.XmlLex
import Verif.XmlNsProps
import Verif.TreeProps

/-!
What the decoder hands out: text and attribute values consist of XML characters, names have no colon and are not empty.
-/
namespace Verif.Xml

open Verif.Utf8

/-- A local name as the decoder returns it. -/
def LocOk (n : Name) : Prop := n.loc ≠ [] ∧ ch%':' ∉ n.loc

/-- What is the case for every token of a decoder. -/
def TokClean : Token → Prop
  | .startElement n attrs => LocOk n ∧ ∀ a ∈ attrs, LocOk a.name ∧ IsXmlText a.value
  | .charData b => IsXmlText b
  | _ => True

theorem text_clean (q : Option UInt8) (cd : Bool) (s d r : Bytes) (h : text q cd s = .ok (d, r)) : IsXmlText d := by
  unfold text at h
  split at h
  · cases h
  · split at h
    · cases h
    · rename_i hc
      injection h with h; injection h with h _; subst h
      exact (checkChars_none _).1 hc

theorem splitName_loc (s : Bytes) (n : Name) (hs : s ≠ []) (h : splitName s = some n) : n.loc ≠ [] := by
  unfold splitName at h
  dsimp only at h
  split at h
  · injection h with h; subst h; exact hs
  · split at h
    · cases h
    · split at h
      · cases h
      · rename_i hl
        injection h with h; subst h
        exact fun h => hl (Or.inr h)

theorem nsname_loc (s : Bytes) (n : Name) (r : Bytes) (h : nsname s = .ok (some (n, r))) : LocOk n := by
  refine ⟨?_, (nsname_colonFree s n r h).2⟩
  unfold nsname at h
  split at h
  · cases h
  · cases h
  · rename_i hr
    split at h
    · cases h
    · rename_i hs
      injection h with h; injection h with h; injection h with h _; subst h
      refine splitName_loc _ _ ?_ hs
      unfold readXmlName at hr
      split at hr
      · cases hr
      · cases hr
      · split at hr
        · rename_i hn
          injection hr with hr; injection hr with hr; injection hr with hr _; subst hr
          exact isName_ne hn
        · cases hr

theorem attrval_clean (s v r : Bytes) (h : attrval s = .ok (v, r)) : IsXmlText v := by
  unfold attrval at h
  split at h
  · cases h
  · split at h
    · exact text_clean _ _ _ _ _ h
    · cases h

theorem readAttr_clean (s : Bytes) (a : Attr) (r : Bytes) (h : readAttr s = .ok (a, r)) :
    LocOk a.name ∧ IsXmlText a.value := by
  unfold readAttr at h
  split at h
  · cases h
  · cases h
  · rename_i he
    split at h
    · cases h
    · split at h
      · cases h
      · split at h
        · cases h
        · rename_i hv
          injection h with h; injection h with h _; subst h
          exact ⟨nsname_loc _ _ _ he, attrval_clean _ _ _ hv⟩

theorem attrLoop_clean (n : Nat) (acc : List Attr) (s : Bytes) (as : List Attr) (e : Bool) (r : Bytes)
    (hacc : ∀ a ∈ acc, LocOk a.name ∧ IsXmlText a.value) (h : attrLoop n acc s = .ok (as, e, r)) :
    ∀ a ∈ as, LocOk a.name ∧ IsXmlText a.value := by
  induction n generalizing acc s with
  | zero => cases h
  | succ n ih =>
    simp only [attrLoop] at h
    split at h
    · cases h
    · split at h
      · split at h
        · cases h
        · split at h
          · cases h
          · injection h with h; injection h with h _; subst h; exact hacc
      split at h
      · injection h with h; injection h with h _; subst h; exact hacc
      · split at h
        · cases h
        · rename_i a r' ha
          refine ih _ _ ?_ h
          intro x hx
          rcases List.mem_append.1 hx with hx | hx
          · exact hacc x hx
          · simp at hx; subst hx; exact readAttr_clean _ _ _ ha

theorem rawToken_clean (st st' : Raw) (t : Token) (h : rawToken st = .ok (t, st')) : TokClean t := by
  unfold rawToken at h
  split at h
  · injection h with h; injection h with h1 h2; subst h1; trivial
  split at h
  · cases h
  split at h
  · split at h
    · cases h
    · rename_i ht
      injection h with h; injection h with h1 h2; subst h1
      exact text_clean _ _ _ _ _ ht
  split at h
  · cases h
  split at h
  · unfold endTag at h
    split at h
    · cases h
    · cases h
    split at h
    · cases h
    split at h
    · cases h
    · injection h with h; injection h with h1 h2; subst h1; trivial
  split at h
  · unfold piTag at h
    split at h
    · cases h
    · cases h
    split at h
    · cases h
    split at h
    · cases h
    · injection h with h; injection h with h1 h2; subst h1; trivial
  split at h
  · unfold bangTag at h
    split at h
    · cases h
    split at h
    · split at h
      · cases h
      split at h
      · cases h
      split at h
      · cases h
      · injection h with h; injection h with h1 h2; subst h1; trivial
    split at h
    · split at h
      · cases h
      split at h
      · cases h
      · rename_i ht
        injection h with h; injection h with h1 h2; subst h1
        exact text_clean _ _ _ _ _ ht
    · split at h
      · cases h
      · injection h with h; injection h with h1 h2; subst h1; trivial
  · unfold startTag at h
    split at h
    · cases h
    · cases h
    · rename_i he
      split at h
      · cases h
      · rename_i ha
        injection h with h; injection h with h1 h2; subst h1
        exact ⟨nsname_loc _ _ _ he, attrLoop_clean _ _ _ _ _ _ (by simp) ha⟩

theorem translate_loc (ns : NsMap) (n : Name) (e : Bool) : (translate ns n e).loc = n.loc := by
  unfold translate
  split
  · rfl
  split
  · rfl
  split
  · split <;> rfl
  split
  · rfl
  · split <;> rfl

theorem token_clean (d d' : Dec) (t : Token) (h : token d = .ok (t, d')) : TokClean t := by
  unfold token at h
  split at h
  · cases h
  · rename_i t0 raw' hr
    have h0 := rawToken_clean _ _ _ hr
    split at h
    · cases h
    · rename_i hc
      injection h with h; injection h with h _; subst h
      unfold cook at hc
      split at hc
      · split at hc
        · cases hc
        · injection hc with hc; injection hc with hc _; subst hc
          refine ⟨?_, ?_⟩
          · have := h0.1
            unfold LocOk at this ⊢
            rw [translate_loc]; exact this
          · intro a ha
            obtain ⟨b, hb, rfl⟩ := List.mem_map.1 ha
            have := h0.2 b hb
            unfold LocOk at this ⊢
            rw [translate_loc]; exact this
      · split at hc
        · cases hc
        · injection hc with hc; injection hc with hc _; subst hc; trivial
      · injection hc with hc; injection hc with hc _; subst hc
        exact h0

end Verif.Xml

namespace Verif.Bind

open Verif.Xml

theorem stream_clean : ∀ (k : Nat) (d : Dec), ∀ p ∈ (stream k d).1, TokClean p.tok
  | 0, d, p, hp => by simp [stream] at hp
  | k + 1, d, p, hp => by
    simp only [stream] at hp
    split at hp
    · simp at hp
    · rename_i ht
      rcases List.mem_cons.1 hp with rfl | hp
      · exact token_clean _ _ _ ht
      · exact stream_clean k _ p hp

mutual
/-- All tokens of a tree are as the decoder returns them. -/
def XTree.Clean : XTree → Prop
  | .elem n as _ _ kids _ _ _ => TokClean (.startElement n as) ∧ Cleans kids
  | .leaf t _ _ => TokClean t
/-- The same for several trees. -/
def Cleans : List XTree → Prop
  | [] => True
  | t :: l => t.Clean ∧ Cleans l
end

mutual
theorem flat_clean : ∀ (t : XTree), (∀ p ∈ t.flat, TokClean p.tok) → t.Clean
  | .leaf t b a, h => by
    simp only [XTree.flat, XTree.Clean] at h ⊢
    exact h ⟨t, b, a⟩ (by simp)
  | .elem n as b a kids en eb ea, h => by
    simp only [XTree.flat, XTree.Clean] at h ⊢
    exact ⟨h ⟨.startElement n as, b, a⟩ (by simp), flats_clean kids fun p hp => h p (by simp [hp])⟩
theorem flats_clean : ∀ (l : List XTree), (∀ p ∈ flats l, TokClean p.tok) → Cleans l
  | [], _ => by simp [Cleans]
  | t :: l, h => by
    simp only [flats, Cleans] at h ⊢
    exact ⟨flat_clean t fun p hp => h p (by simp [hp]), flats_clean l fun p hp => h p (by simp [hp])⟩
end

theorem isDoc_clean (doc : Bytes) (t : XTree) (h : IsDoc doc t) : t.Clean := by
  obtain ⟨_, _, pre, post, _, hd⟩ := h
  refine flat_clean t fun p hp => stream_clean (2 * doc.length + 2) (Dec.new doc) p ?_
  unfold docTokens at hd
  rw [hd]
  simp [hp]

theorem dataOf_clean : ∀ (l : List XTree), Cleans l → IsXmlText (dataOf l)
  | [], _ => xmlText_nil
  | .leaf t b a :: l, h => by
    simp only [Cleans, XTree.Clean] at h
    simp only [dataOf]
    refine xmlText_append ?_ (dataOf_clean l h.2)
    cases t with
    | charData b => exact h.1
    | _ => exact xmlText_nil
  | .elem .. :: l, h => by
    simp only [Cleans] at h
    simp only [dataOf]
    exact dataOf_clean l h.2

end Verif.Bind

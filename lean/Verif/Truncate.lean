import Verif.Local
import Verif.TreeProps

/-!
What follows the end tag of the root element does not matter to `Unmarshal`, and a document cut before that point is
rejected.
-/
namespace Verif.Bind

open Verif.Xml

/-! ### Replacing the input after a point -/

/-- Replaces the ending `r` of an input by `r'`. -/
def swapEnd (r r' s : Bytes) : Bytes := s.take (s.length - r.length) ++ r'

theorem swapEnd_append (r r' z : Bytes) : swapEnd r r' (z ++ r) = z ++ r' := by
  unfold swapEnd
  rw [List.length_append, Nat.add_sub_cancel, List.take_left]

/-- Replaces the ending of the input in the positions of a token. -/
def PTok.swap (r r' : Bytes) (t : PTok) : PTok := ⟨t.tok, swapEnd r r' t.before, swapEnd r r' t.after⟩

mutual
/-- Replaces the ending of the input in the positions of a tree. -/
def XTree.swap (r r' : Bytes) : XTree → XTree
  | .elem n as b a kids en eb ea =>
    .elem n as (swapEnd r r' b) (swapEnd r r' a) (swaps r r' kids) en (swapEnd r r' eb) (swapEnd r r' ea)
  | .leaf t b a => .leaf t (swapEnd r r' b) (swapEnd r r' a)
/-- Replaces the ending of the input in the positions of a list of trees. -/
def swaps (r r' : Bytes) : List XTree → List XTree
  | [] => []
  | t :: l => t.swap r r' :: swaps r r' l
end

mutual
theorem swap_flat (r r' : Bytes) : ∀ t : XTree, (t.swap r r').flat = t.flat.map (PTok.swap r r')
  | .elem n as b a kids en eb ea => by
    simp only [XTree.swap, XTree.flat, List.map_cons, List.map_append, List.map_nil, swaps_flats r r' kids, PTok.swap]
  | .leaf t b a => rfl
theorem swaps_flats (r r' : Bytes) : ∀ l : List XTree, flats (swaps r r' l) = (flats l).map (PTok.swap r r')
  | [] => rfl
  | t :: l => by
    simp only [swaps, flats, List.map_append, swap_flat r r' t, swaps_flats r r' l]
end

mutual
theorem swap_ok (r r' : Bytes) : ∀ t : XTree, t.Ok → (t.swap r r').Ok
  | .elem n as b a kids en eb ea, h => by
    simp only [XTree.swap, XTree.Ok] at h ⊢
    exact swaps_oks r r' kids h
  | .leaf t b a, h => h
theorem swaps_oks (r r' : Bytes) : ∀ l : List XTree, Oks l → Oks (swaps r r' l)
  | [], _ => True.intro
  | t :: l, h => by
    simp only [swaps, Oks] at h ⊢
    exact ⟨swap_ok r r' t h.1, swaps_oks r r' l h.2⟩
end

/-- The positions of a token lie before the ending `r`. -/
def PTok.Within (r : Bytes) (t : PTok) : Prop := r <:+ t.before ∧ r <:+ t.after

theorem dataOf_swaps (r r' : Bytes) : ∀ l : List XTree, dataOf (swaps r r' l) = dataOf l
  | [] => rfl
  | .leaf t b a :: l => by simp only [swaps, XTree.swap, dataOf, dataOf_swaps r r' l]
  | .elem n as b a kids en eb ea :: l => by simp only [swaps, XTree.swap, dataOf, dataOf_swaps r r' l]

theorem inner_swap (r r' a e : Bytes) (ha : r <:+ a) (he : r <:+ e) :
    (swapEnd r r' a).take ((swapEnd r r' a).length - (swapEnd r r' e).length) = a.take (a.length - e.length) := by
  obtain ⟨za, rfl⟩ := ha
  obtain ⟨ze, rfl⟩ := he
  rw [swapEnd_append, swapEnd_append]
  simp only [List.length_append]
  rw [show za.length + r'.length - (ze.length + r'.length) = za.length - ze.length by omega,
    show za.length + r.length - (ze.length + r.length) = za.length - ze.length by omega]
  rw [List.take_append_of_le_length (by omega), List.take_append_of_le_length (by omega)]

mutual
theorem readT_swapEnd (io : FloatIO) (r r' : Bytes) : ∀ (t : XTree), (∀ p ∈ t.flat, p.Within r) →
    ∀ (top : Bool) (d : Nat) (s : Sch) (v : Val), readT io top d s v (t.swap r r') = readT io top d s v t
  | .leaf t b a, _, top, d, s, v => by simp only [XTree.swap, readT]
  | .elem n as b a kids en eb ea, h, top, d, s, v => by
    simp only [XTree.swap, readT, dataOf_swaps]
    rw [inner_swap r r' a eb (h ⟨.startElement n as, b, a⟩ (by simp [XTree.flat])).2
      (h ⟨.endElement en, eb, ea⟩ (by simp [XTree.flat])).1]
    congr 2
    funext d infos subs vs
    exact readKids_swapEnd io r r' kids (fun p hp => h p (by simp [XTree.flat, hp])) d infos subs vs
theorem readKids_swapEnd (io : FloatIO) (r r' : Bytes) : ∀ (l : List XTree), (∀ p ∈ flats l, p.Within r) →
    ∀ (d : Nat) (infos : List FInfo) (subs : List Sch) (vs : List Val),
      readKids io d infos subs vs (swaps r r' l) = readKids io d infos subs vs l
  | [], _, d, infos, subs, vs => rfl
  | .leaf t b a :: l, h, d, infos, subs, vs => by
    simp only [swaps, XTree.swap, readKids]
    exact readKids_swapEnd io r r' l (fun p hp => h p (by simp [flats, hp])) d infos subs vs
  | .elem n as b a kids en eb ea :: l, h, d, infos, subs, vs => by
    have h1 := readT_swapEnd io r r' (.elem n as b a kids en eb ea) (fun p hp => h p (by simp only [flats]; simp [hp]))
    have h2 := readKids_swapEnd io r r' l (fun p hp => h p (by simp only [flats]; simp [hp]))
    simp only [swaps, XTree.swap, readKids] at h1 ⊢
    simp only [h1, h2]
end

/-! ### Token streams -/

theorem stream_stuck_tok (k : Nat) (d : Dec) (h : Stuck d.raw) : ∀ p ∈ (stream k d).1, p.tok = .charData [] := by
  induction k with
  | zero => intro p hp; simp [stream] at hp
  | succ k ih =>
    intro p hp
    simp only [stream, token_stuck d h, List.mem_cons] at hp
    rcases hp with rfl | hp
    · rfl
    · exact ih p hp

theorem token_local (d : Dec) (t : Token) (d' : Dec) (h : token d = .ok (t, d')) :
    ∃ p, d.raw.rest = p ++ d'.raw.rest ∧
      ∀ r', (SameHead d'.raw.rest r' ∨ t.isTag = true) →
        token ⟨⟨p ++ r', d.raw.toClose⟩, d.ns, d.stk⟩ = .ok (t, ⟨⟨r', d'.raw.toClose⟩, d'.ns, d'.stk⟩) := by
  unfold token at h
  split at h
  · cases h
  · rename_i t0 raw' hr
    split at h
    · cases h
    · rename_i t1 ns' stk' hc
      injection h with h; injection h with h1 h2
      subst h1; subst h2
      obtain ⟨p, e, l⟩ := rawToken_local _ _ _ hr
      refine ⟨p, e, fun r' hr' => ?_⟩
      have ht : t0.isTag = t1.isTag := by
        cases t0 <;> simp only [cook] at hc
        · split at hc
          · cases hc
          · injection hc with hc; injection hc with hc _; subst hc; rfl
        · split at hc
          · cases hc
          · injection hc with hc; injection hc with hc _; subst hc; rfl
        all_goals (injection hc with hc; injection hc with hc _; subst hc; rfl)
      unfold token
      dsimp only at hr' ⊢
      rw [l r' (by rw [ht]; exact hr')]
      dsimp only
      rw [hc]

theorem token_progress (d : Dec) (t : Token) (d' : Dec) (h : token d = .ok (t, d')) (hs : ¬ Stuck d.raw) :
    d'.raw.size < d.raw.size ∧ (t.isTag = false → d'.raw.toClose = none) := by
  unfold token at h
  split at h
  · cases h
  · rename_i t0 raw' hr
    split at h
    · cases h
    · rename_i t1 ns' stk' hc
      injection h with h; injection h with h1 h2
      subst h1; subst h2
      refine ⟨?_, fun ht => ?_⟩
      · rcases rawToken_progress _ _ _ hr with h1 | ⟨h1, _⟩
        · exact h1
        · exact absurd h1 hs
      · have h0 : t0.isTag = false := by
          cases t0 <;> simp only [cook] at hc
          · split at hc
            · cases hc
            · injection hc with hc; injection hc with hc _; subst hc; cases ht
          · split at hc
            · cases hc
            · injection hc with hc; injection hc with hc _; subst hc; cases ht
          all_goals rfl
        dsimp only
        unfold rawToken at hr
        split at hr
        · injection hr with hr; injection hr with hr _; subst hr; cases h0
        · split at hr
          · cases hr
          · split at hr
            · split at hr
              · cases hr
              · injection hr with hr; injection hr with _ hr; subst hr; rfl
            · split at hr
              · cases hr
              · split at hr
                · unfold endTag at hr
                  repeat' split at hr
                  all_goals first
                    | cases hr; done
                    | (injection hr with hr; injection hr with hr _; subst hr; cases h0)
                split at hr
                · unfold piTag at hr
                  repeat' split at hr
                  all_goals first
                    | cases hr; done
                    | (injection hr with hr; injection hr with _ hr; subst hr; rfl)
                split at hr
                · unfold bangTag at hr
                  repeat' split at hr
                  all_goals first
                    | cases hr; done
                    | (injection hr with hr; injection hr with _ hr; subst hr; rfl)
                · unfold startTag at hr
                  repeat' split at hr
                  all_goals first
                    | cases hr; done
                    | (injection hr with hr; injection hr with hr _; subst hr; cases h0)

/-- The tokens up to an end tag depend only on the input up to the end of that tag. -/
theorem stream_local (L : List PTok) : ∀ (k : Nat) (d : Dec) (post : List PTok) (n : Name) (eb ea : Bytes),
    (stream k d).1 = L ++ ⟨.endElement n, eb, ea⟩ :: post →
    ∃ p, d.raw.rest = p ++ ea ∧ (d.raw.toClose = none → p ≠ []) ∧
      L.length + 1 ≤ 2 * p.length + (if d.raw.toClose.isSome then 1 else 0) ∧
      (∀ t ∈ L ++ [⟨.endElement n, eb, ea⟩], t.Within ea) ∧
      ∀ r' k', L.length + 1 ≤ k' → ∃ post', (stream k' ⟨⟨p ++ r', d.raw.toClose⟩, d.ns, d.stk⟩).1 =
        (L ++ [(⟨.endElement n, eb, ea⟩ : PTok)]).map (PTok.swap ea r') ++ post' := by
  induction L with
  | nil =>
    intro k d post n eb ea h
    cases k with
    | zero => simp [stream] at h
    | succ k =>
      have hns : ¬ Stuck d.raw := fun hs => by
        have := stream_stuck_tok (k + 1) d hs ⟨.endElement n, eb, ea⟩ (by rw [h]; simp)
        cases this
      simp only [stream] at h
      cases ht : token d with
      | error e => rw [ht] at h; simp at h
      | ok q =>
        obtain ⟨t, d'⟩ := q
        rw [ht] at h
        simp only [List.nil_append, List.cons.injEq, PTok.mk.injEq] at h
        obtain ⟨⟨rfl, rfl, rfl⟩, -⟩ := h
        obtain ⟨p, e, l⟩ := token_local _ _ _ ht
        obtain ⟨hsz, -⟩ := token_progress _ _ _ ht hns
        unfold Raw.size at hsz
        rw [e, List.length_append] at hsz
        have hb : 1 ≤ 2 * p.length + (if d.raw.toClose.isSome then 1 else 0) := by
          omega
        refine ⟨p, e, ?_, by simpa using hb, ?_, ?_⟩
        · rintro hn rfl
          rw [hn] at hb
          simp at hb
        · intro t ht
          simp only [List.nil_append, List.mem_singleton] at ht
          subst ht
          exact ⟨⟨p, e.symm⟩, ⟨[], rfl⟩⟩
        · intro r' k' hk
          obtain ⟨k', rfl⟩ : ∃ j, k' = j + 1 := ⟨k' - 1, by omega⟩
          simp only [stream, l r' (Or.inr rfl), List.nil_append, List.map_cons, List.map_nil, PTok.swap]
          refine ⟨(stream k' ⟨⟨r', d'.raw.toClose⟩, d'.ns, d'.stk⟩).1, ?_⟩
          rw [show swapEnd d'.raw.rest r' d.raw.rest = p ++ r' by rw [e, swapEnd_append],
            show swapEnd d'.raw.rest r' d'.raw.rest = r' from swapEnd_append _ _ []]
          rfl
  | cons u L ih =>
    intro k d post n eb ea h
    cases k with
    | zero => simp [stream] at h
    | succ k =>
      have hns : ¬ Stuck d.raw := fun hs => by
        have := stream_stuck_tok (k + 1) d hs ⟨.endElement n, eb, ea⟩ (by rw [h]; simp)
        cases this
      simp only [stream] at h
      cases ht : token d with
      | error e => rw [ht] at h; simp at h
      | ok q =>
        obtain ⟨t, d'⟩ := q
        rw [ht] at h
        simp only [List.cons_append, List.cons.injEq] at h
        obtain ⟨rfl, h⟩ := h
        obtain ⟨p2, e2, hne2, hl2, hw2, hs2⟩ := ih k d' post n eb ea h
        obtain ⟨p, e, l⟩ := token_local _ _ _ ht
        obtain ⟨hsz, htc⟩ := token_progress _ _ _ ht hns
        have e3 : d.raw.rest = (p ++ p2) ++ ea := by rw [e, e2]; simp
        unfold Raw.size at hsz
        rw [e, e2] at hsz
        simp only [List.length_append] at hsz
        have hb : (L.length + 1) + 1 ≤ 2 * (p ++ p2).length + (if d.raw.toClose.isSome then 1 else 0) := by
          rw [List.length_append]
          omega
        refine ⟨p ++ p2, e3, ?_, by simpa using hb, ?_, ?_⟩
        · intro hn hp
          rw [hn, hp] at hb
          simp at hb
        · intro u hu
          simp only [List.cons_append, List.mem_cons] at hu
          rcases hu with rfl | hu
          · exact ⟨⟨p ++ p2, e3.symm⟩, ⟨p2, e2.symm⟩⟩
          · exact hw2 u hu
        · intro r' k' hk
          obtain ⟨k', rfl⟩ : ∃ j, k' = j + 1 := ⟨k' - 1, by simp at hk; omega⟩
          simp only [List.length_cons] at hk
          have hh : SameHead d'.raw.rest (p2 ++ r') ∨ t.isTag = true := by
            cases hg : t.isTag with
            | true => exact Or.inr rfl
            | false => left; rw [e2]; exact sameHead_append _ _ _ (hne2 (htc hg))
          obtain ⟨post', hp'⟩ := hs2 r' k' (by omega)
          refine ⟨post', ?_⟩
          rw [List.append_assoc]
          simp only [stream, l (p2 ++ r') hh]
          simp only [List.cons_append, List.map_cons, PTok.swap]
          rw [hp', show swapEnd ea r' d.raw.rest = p ++ (p2 ++ r') by rw [e3, swapEnd_append, List.append_assoc],
            show swapEnd ea r' d'.raw.rest = p2 ++ r' by rw [e2, swapEnd_append]]

/-! ### Documents -/

/-- The input left after an element. -/
def XTree.after : XTree → Bytes
  | .elem _ _ _ _ _ _ _ ea => ea
  | .leaf _ _ a => a

/-- The root element of a document is found in the same way when what follows it is replaced. -/
theorem isDoc_swap (doc : Bytes) (t : XTree) (h : IsDoc doc t) :
    ∃ p, doc = p ++ t.after ∧ (∀ x ∈ t.flat, x.Within t.after) ∧ ∀ r', IsDoc (p ++ r') (t.swap t.after r') := by
  obtain ⟨hok, ⟨n, as, b, a, kids, en, eb, ea, rfl⟩, pre, post, hpre, hd⟩ := h
  have hd' : (stream (2 * doc.length + 2) (Dec.new doc)).1 =
      (pre ++ (⟨.startElement n as, b, a⟩ :: flats kids)) ++ ⟨.endElement en, eb, ea⟩ :: post := by
    unfold docTokens at hd
    rw [hd]
    simp [XTree.flat]
  obtain ⟨p, e, -, hl, hw, hs⟩ := stream_local _ _ _ _ _ _ _ hd'
  refine ⟨p, e, ?_, fun r' => ?_⟩
  · intro x hx
    refine hw x ?_
    simp only [XTree.flat, List.mem_cons, List.mem_append, List.not_mem_nil, or_false] at hx ⊢
    tauto
  · refine ⟨swap_ok _ _ _ hok, ⟨_, _, _, _, _, _, _, _, rfl⟩, pre.map (PTok.swap ea r'), ?_⟩
    obtain ⟨post', hp'⟩ := hs r' (2 * (p ++ r').length + 2) (by
      have hz : (Dec.new doc).raw.toClose.isSome = false := rfl
      rw [hz] at hl
      simp only [List.length_append] at hl ⊢
      simp only [Bool.false_eq_true, if_false] at hl
      omega)
    refine ⟨post', ?_, ?_⟩
    · intro x hx
      obtain ⟨y, hy, rfl⟩ := List.mem_map.1 hx
      exact hpre y hy
    · unfold docTokens
      rw [show Dec.new (p ++ r') = ⟨⟨p ++ r', (Dec.new doc).raw.toClose⟩, (Dec.new doc).ns, (Dec.new doc).stk⟩ from rfl,
        hp', swap_flat]
      simp [XTree.flat, XTree.after]

theorem after_swap (t : XTree) (r' : Bytes) (h : ∃ n as b a kids en eb ea, t = .elem n as b a kids en eb ea) :
    (t.swap t.after r').after = r' := by
  obtain ⟨n, as, b, a, kids, en, eb, ea, rfl⟩ := h
  exact swapEnd_append ea r' []

/-- The root element of a document is unique. -/
theorem isDoc_after (doc : Bytes) (t u : XTree) (ht : IsDoc doc t) (hu : IsDoc doc u) : t.after = u.after := by
  obtain ⟨ok1, ⟨n, as, b, a, kids, en, eb, ea, rfl⟩, pre, post, hpre, hd⟩ := ht
  obtain ⟨ok2, ⟨n', as', b', a', kids', en', eb', ea', rfl⟩, pre', post', hpre', hd'⟩ := hu
  rw [hd] at hd'
  have h1 := findStart_append pre ((XTree.elem n as b a kids en eb ea).flat ++ post) hpre
  rw [hd', findStart_append _ _ hpre'] at h1
  simp only [XTree.flat, List.cons_append, findStart, Option.some.injEq, Prod.mk.injEq, List.append_assoc,
    List.nil_append] at h1
  obtain ⟨-, -, -, h1⟩ := h1
  have k1 := skip_end post kids ok1 en eb ea
  have k2 := skip_end post' kids' ok2 en' eb' ea'
  have h2 : flats kids ++ [⟨.endElement en, eb, ea⟩] = flats kids' ++ [⟨.endElement en', eb', ea'⟩] := by
    rw [h1] at k2
    rw [k1] at k2
    injection k2 with k2
    subst k2
    have h3 : (flats kids' ++ [⟨.endElement en', eb', ea'⟩]) ++ post = (flats kids ++ [⟨.endElement en, eb, ea⟩]) ++ post := by
      simpa using h1
    exact (List.append_cancel_right h3).symm
  have h3 := congrArg List.getLast? h2
  simp only [List.getLast?_append, List.getLast?_singleton] at h3
  simp at h3
  exact h3.2.2

/-- C45: a document whose root element is complete is `p ++ r` where `p` ends with the root element; whatever replaces
`r`, the result (a value or an error) is the same; and nothing can be read from a proper beginning of `p`. -/
theorem C45_root (io : FloatIO) (s : Sch) (doc : Bytes) (t : XTree) (h : IsDoc doc t) :
    ∃ p r, doc = p ++ r ∧ (∀ r', unmarshalDoc io s (p ++ r') = unmarshalDoc io s doc) ∧
      ∀ q, q <+: p → q ≠ p → ∀ (io' : FloatIO) (s' : Sch), ∃ e, unmarshalDoc io' s' q = .error e := by
  obtain ⟨p, e, hw, hs⟩ := isDoc_swap doc t h
  refine ⟨p, t.after, e, fun r' => ?_, ?_⟩
  · rw [unmarshalDoc_tree io s doc t h, unmarshalDoc_tree io s _ _ (hs r')]
    exact readT_swapEnd io t.after r' t hw false 0 s s.zero
  · intro q hq hne io' s'
    cases hu : unmarshalDoc io' s' q with
    | error e => exact ⟨e, rfl⟩
    | ok w =>
      exfalso
      obtain ⟨u, hud⟩ := unmarshalDoc_ok io' s' q w hu
      obtain ⟨p2, e2, -, hs2⟩ := isDoc_swap q u hud
      obtain ⟨z, hz⟩ := hq
      have h1 := hs2 (u.after ++ z)
      rw [show p2 ++ (u.after ++ z) = p by rw [← List.append_assoc, ← e2, hz]] at h1
      have h2 := hs []
      rw [List.append_nil] at h2
      have h3 := isDoc_after p _ _ h1 h2
      rw [after_swap u _ hud.2.1, after_swap t _ h.2.1] at h3
      have hz0 : z = [] := (List.append_eq_nil_iff.1 h3).2
      subst hz0
      rw [List.append_nil] at hz
      exact hne hz

end Verif.Bind

import Verif.DateTimeProps2

/-!
C71: which texts `DateTime.ConvertToSeconds` (`/repo/mpd/io.go` 143-149) understands, and as which instants.
-/
namespace Verif.DateTimeSpec
open Verif

/-- A zone as the reader takes it: hours up to 24 and minutes up to 60. -/
inductive Zone24 : Bytes → Int → Prop
  | utc : Zone24 (b!"Z") 0
  | plus {hh mm h m} : Digits 2 hh h → Digits 2 mm m → h ≤ 24 → m ≤ 60 →
      Zone24 (ch%'+' :: (hh ++ ch%':' :: mm)) (3600 * h + 60 * m)
  | minus {hh mm h m} : Digits 2 hh h → Digits 2 mm m → h ≤ 24 → m ≤ 60 →
      Zone24 (ch%'-' :: (hh ++ ch%':' :: mm)) (-(3600 * h + 60 * m))

/-- A fraction as the reader takes it: after a point or a comma. -/
inductive FracC : Bytes → Nat → Nat → Prop
  | none : FracC [] 0 0
  | some {ds : Bytes} {c : UInt8} : c = ch%'.' ∨ c = ch%',' → ds ≠ [] → (∀ b ∈ ds, isDigit b = true) →
      FracC (c :: ds) (decVal ds) ds.length

/-- The text is a date-time as the reader takes it: as `Denotes`, but the hour may have one digit, the fraction may follow a comma,
and the zone may be up to 24 hours and 60 minutes. -/
def Reads (txt : Bytes) (sec : Int) (num k : Nat) : Prop :=
  ∃ (ys ms ds hs mis ss f z : Bytes) (y m d h mi s : Nat) (off day : Int),
    txt = ys ++ (ch%'-' :: (ms ++ (ch%'-' :: (ds ++ (ch%'T' :: (hs ++ (ch%':' :: (mis ++ (ch%':' ::
      (ss ++ (f ++ z))))))))))) ∧
    Digits 4 ys y ∧ Digits 2 ms m ∧ Digits 2 ds d ∧ (Digits 1 hs h ∨ Digits 2 hs h) ∧ Digits 2 mis mi ∧ Digits 2 ss s ∧
    FracC f num k ∧ Zone24 z off ∧ h ≤ 23 ∧ mi ≤ 59 ∧ s ≤ 59 ∧
    (Date.Valid ⟨y, m, d⟩) ∧ DayNo ⟨y, m, d⟩ day ∧
    sec = 86400 * day + 3600 * h + 60 * mi + s - off

/-- Every date-time of ISO 8601 in this form is read. -/
theorem Denotes.reads {txt : Bytes} {sec : Int} {num k : Nat} (h : Denotes txt sec num k) : Reads txt sec num k := by
  obtain ⟨ys, ms, ds, hs, mis, ss, f, z, y, m, d, h, mi, s, off, day, e, hy, hm, hd, hh, hmi, hs', hf, hz, r⟩ := h
  refine ⟨ys, ms, ds, hs, mis, ss, f, z, y, m, d, h, mi, s, off, day, e, hy, hm, hd, .inr hh, hmi, hs', ?_, ?_, r⟩
  · cases hf with
    | none => exact .none
    | some h1 h2 => exact .some (.inl rfl) h1 h2
  · cases hz with
    | utc => exact .utc
    | plus a b c d => exact .plus a b (by omega) (by omega)
    | minus a b c d => exact .minus a b (by omega) (by omega)

end Verif.DateTimeSpec

namespace Verif.DateTime
open Verif Strconv DateTimeSpec

/-! ### What is read is understood -/

theorem lit_inv {c : UInt8} {v r : Bytes} (h : lit c v = some r) : v = c :: r := by
  cases v with
  | nil => exact absurd h (by simp [lit])
  | cons x xs =>
    simp only [lit] at h
    split_ifs at h with hx
    injection h with h
    rw [h, hx]

theorem year4_inv {v r : Bytes} {y : Nat} (h : year4 v = some (y, r)) : ∃ ys, v = ys ++ r ∧ Digits 4 ys y := by
  unfold year4 at h
  split at h
  · rename_i a b c d rest
    split_ifs at h with hd
    simp only [Bool.and_eq_true] at hd
    simp only [Option.some.injEq, Prod.mk.injEq] at h
    obtain ⟨h1, rfl⟩ := h
    refine ⟨[a, b, c, d], rfl, rfl, ?_, ?_⟩
    · intro x hx
      simp only [List.mem_cons, List.not_mem_nil, or_false] at hx
      rcases hx with rfl | rfl | rfl | rfl
      · exact hd.1.1.1
      · exact hd.1.1.2
      · exact hd.1.2
      · exact hd.2
    · rw [← h1]; simp [decVal, digitVal]; omega
  · exact absurd h (by simp)

theorem getnum_inv {f : Bool} {v r : Bytes} {n : Nat} (h : getnum f v = some (n, r)) :
    ∃ s, v = s ++ r ∧ (Digits 2 s n ∨ (f = false ∧ Digits 1 s n)) := by
  unfold getnum at h
  split at h
  · rename_i a b rest
    split_ifs at h with ha hb hf
    · simp only [Option.some.injEq, Prod.mk.injEq] at h
      obtain ⟨h1, rfl⟩ := h
      refine ⟨[a, b], rfl, .inl ⟨rfl, ?_, ?_⟩⟩
      · intro x hx
        simp only [List.mem_cons, List.not_mem_nil, or_false] at hx
        rcases hx with rfl | rfl
        · exact ha
        · exact hb
      · rw [← h1]; simp [decVal, digitVal]; omega
    · simp only [Option.some.injEq, Prod.mk.injEq] at h
      obtain ⟨h1, rfl⟩ := h
      refine ⟨[a], rfl, .inr ⟨by simpa using hf, rfl, ?_, ?_⟩⟩
      · intro x hx
        simp only [List.mem_cons, List.not_mem_nil, or_false] at hx
        rw [hx]; exact ha
      · rw [← h1]; simp [decVal, digitVal]
  · rename_i a
    split_ifs at h with ha
    simp only [Bool.and_eq_true, Bool.not_eq_true'] at ha
    simp only [Option.some.injEq, Prod.mk.injEq] at h
    obtain ⟨h1, rfl⟩ := h
    refine ⟨[a], rfl, .inr ⟨ha.2, rfl, ?_, ?_⟩⟩
    · intro x hx
      simp only [List.mem_cons, List.not_mem_nil, or_false] at hx
      rw [hx]; exact ha.1
    · rw [← h1]; simp [decVal, digitVal]
  · exact absurd h (by simp)

theorem numIn_inv {f : Bool} {lo hi : Nat} {v r : Bytes} {n : Nat} (h : numIn f lo hi v = some (n, r)) :
    ∃ s, v = s ++ r ∧ (Digits 2 s n ∨ (f = false ∧ Digits 1 s n)) ∧ lo ≤ n ∧ n ≤ hi := by
  unfold numIn at h
  split at h
  · rename_i n' rest hg
    split_ifs at h with hr
    simp only [Option.some.injEq, Prod.mk.injEq] at h
    obtain ⟨rfl, rfl⟩ := h
    obtain ⟨s, e, hs⟩ := getnum_inv hg
    exact ⟨s, e, hs, hr⟩
  · exact absurd h (by simp)

theorem numIn_inv2 {lo hi : Nat} {v r : Bytes} {n : Nat} (h : numIn true lo hi v = some (n, r)) :
    ∃ s, v = s ++ r ∧ Digits 2 s n ∧ lo ≤ n ∧ n ≤ hi := by
  obtain ⟨s, e, hs, hr⟩ := numIn_inv h
  rcases hs with hs | ⟨hs, -⟩
  · exact ⟨s, e, hs, hr⟩
  · exact absurd hs (by simp)

theorem zone_inv {v r : Bytes} {off : Int} (h : zone v = some (off, r)) : ∃ z, v = z ++ r ∧ Zone24 z off := by
  unfold zone at h
  split at h
  · rename_i c rest
    by_cases hZ : c = ch%'Z'
    · rw [if_pos hZ] at h
      simp only [Option.some.injEq, Prod.mk.injEq] at h
      obtain ⟨rfl, rfl⟩ := h
      subst hZ
      exact ⟨b!"Z", rfl, .utc⟩
    · rw [if_neg hZ] at h
      split at h
      · rename_i h1 h2 c' m1 m2 rest'
        by_cases hc : c' = ch%':'
        swap
        · rw [if_neg hc] at h; exact absurd h (by simp)
        rw [if_pos hc] at h
        subst hc
        split at h
        · rename_i hr x mm y g1 g2
          have k1 : Digits 2 [h1, h2] hr := by
            obtain ⟨s, e, hs⟩ := getnum_inv g1
            rcases hs with hs | ⟨hs, -⟩
            · have hl := congrArg List.length e
              simp only [List.length_cons, List.length_nil, List.length_append, hs.1] at hl
              have : x = [] := List.length_eq_zero_iff.1 (by omega)
              subst this
              rw [List.append_nil] at e
              rw [e]; exact hs
            · exact absurd hs (by simp)
          have k2 : Digits 2 [m1, m2] mm := by
            obtain ⟨s, e, hs⟩ := getnum_inv g2
            rcases hs with hs | ⟨hs, -⟩
            · have hl := congrArg List.length e
              simp only [List.length_cons, List.length_nil, List.length_append, hs.1] at hl
              have : y = [] := List.length_eq_zero_iff.1 (by omega)
              subst this
              rw [List.append_nil] at e
              rw [e]; exact hs
            · exact absurd hs (by simp)
          split_ifs at h with hb hp hm
          · subst hp
            simp only [Option.some.injEq, Prod.mk.injEq] at h
            obtain ⟨rfl, rfl⟩ := h
            refine ⟨ch%'+' :: ([h1, h2] ++ ch%':' :: [m1, m2]), rfl, ?_⟩
            · have := Zone24.plus k1 k2 hb.1 hb.2
              have e : ((3600 : Int) * hr + 60 * mm) = (((hr * 60 + mm) * 60 : Nat) : Int) := by push_cast; ring
              rw [e] at this
              exact this
          · subst hm
            simp only [Option.some.injEq, Prod.mk.injEq] at h
            obtain ⟨rfl, rfl⟩ := h
            refine ⟨ch%'-' :: ([h1, h2] ++ ch%':' :: [m1, m2]), rfl, ?_⟩
            · have := Zone24.minus k1 k2 hb.1 hb.2
              have e : ((3600 : Int) * hr + 60 * mm) = (((hr * 60 + mm) * 60 : Nat) : Int) := by push_cast; ring
              rw [e] at this
              exact this
        · exact absurd h (by simp)
      · exact absurd h (by simp)
  · exact absurd h (by simp)

theorem nanos_val {S : Bytes} (hd : ∀ b ∈ S, isDigit b = true) :
    decVal (S.take 9) * 10 ^ (9 - (S.take 9).length) = decVal S * 10 ^ 9 / 10 ^ S.length := by
  by_cases hk : S.length ≤ 9
  · rw [List.take_of_length_le hk]
    have : 10 ^ 9 = 10 ^ (9 - S.length) * 10 ^ S.length := by rw [← pow_add]; congr 1; omega
    rw [this, ← Nat.mul_assoc, Nat.mul_div_cancel _ (by positivity)]
  · rw [decVal_take hd (by omega)]
    have hl : (S.take 9).length = 9 := by simp; omega
    rw [hl]
    have : 10 ^ S.length = 10 ^ 9 * 10 ^ (S.length - 9) := by rw [← pow_add]; congr 1; omega
    rw [this, Nat.mul_comm (decVal S), Nat.mul_div_mul_left _ _ (by positivity)]
    simp

theorem frac_inv (v : Bytes) : ∃ f num k, v = f ++ (fracNanos v).2 ∧ FracC f num k ∧ (fracNanos v).1 = num * 10 ^ 9 / 10 ^ k := by
  unfold fracNanos
  split
  · rename_i c d rest
    split_ifs with h
    · dsimp only
      have hd : ∀ b ∈ (d :: rest).takeWhile isDigit, isDigit b = true := fun b hb => (List.all_eq_true.1 (List.all_takeWhile (p := isDigit) (l := d :: rest))) b hb
      refine ⟨c :: (d :: rest).takeWhile isDigit, _, _, ?_, .some h.1 ?_ hd, nanos_val hd⟩
      · rw [List.cons_append, List.takeWhile_append_dropWhile]
      · rw [List.takeWhile_cons_of_pos h.2]; simp
    · exact ⟨[], 0, 0, rfl, .none, by simp⟩
  · exact ⟨[], 0, 0, rfl, .none, by simp⟩

/-! ### What is understood is read -/

theorem digits1 {s : Bytes} {n : Nat} (h : Digits 1 s n) : ∃ a, s = [a] ∧ isDigit a = true ∧ n = digitVal a := by
  obtain ⟨h1, h2, h3⟩ := h
  match s, h1 with
  | [a], _ => exact ⟨a, rfl, h2 a (by simp), by rw [← h3]; simp [decVal, digitVal]⟩

theorem hour_read {s : Bytes} {n : Nat} (h : Digits 1 s n ∨ Digits 2 s n) (hn : n ≤ 23) (rest : Bytes) :
    numIn false 0 23 (s ++ ch%':' :: rest) = some (n, ch%':' :: rest) := by
  rcases h with h | h
  · obtain ⟨a, rfl, ha, rfl⟩ := digits1 h
    have : isDigit ch%':' = false := by decide
    simp [numIn, getnum, ha, this, hn]
  · exact numIn_digits false h (Nat.zero_le _) hn _

theorem zone24_read {z : Bytes} {off : Int} (h : Zone24 z off) : zone z = some (off, []) := by
  cases h with
  | utc => rfl
  | plus hh hm h1 h2 =>
    obtain ⟨a, b, rfl, ha, hb, rfl⟩ := digits2 hh
    obtain ⟨c, d, rfl, hc, hd, rfl⟩ := digits2 hm
    have g1 := getnum_digits true hh []
    have g2 := getnum_digits true hm []
    simp only [List.append_nil] at g1 g2
    unfold zone
    simp only [List.cons_append, List.nil_append]
    rw [if_neg (by decide), if_pos trivial, g1, g2]
    simp only
    rw [if_pos ⟨by omega, by omega⟩, if_pos trivial]
    congr 2; push_cast; ring
  | minus hh hm h1 h2 =>
    obtain ⟨a, b, rfl, ha, hb, rfl⟩ := digits2 hh
    obtain ⟨c, d, rfl, hc, hd, rfl⟩ := digits2 hm
    have g1 := getnum_digits true hh []
    have g2 := getnum_digits true hm []
    simp only [List.append_nil] at g1 g2
    unfold zone
    simp only [List.cons_append, List.nil_append]
    rw [if_neg (by decide), if_pos trivial, g1, g2]
    simp only
    rw [if_pos ⟨by omega, by omega⟩, if_neg (by decide), if_pos trivial]
    congr 2; push_cast; ring

theorem zone24_head {z : Bytes} {off : Int} (h : Zone24 z off) :
    ∃ c cs, z = c :: cs ∧ isDigit c = false ∧ c ≠ ch%'.' ∧ c ≠ ch%',' := by
  cases h with
  | utc => exact ⟨_, _, rfl, by decide, by decide, by decide⟩
  | plus => exact ⟨_, _, rfl, by decide, by decide, by decide⟩
  | minus => exact ⟨_, _, rfl, by decide, by decide, by decide⟩

theorem fracC_read {f z : Bytes} {num k : Nat} {off : Int} (hf : FracC f num k) (hz : Zone24 z off) :
    fracNanos (f ++ z) = (num * 10 ^ 9 / 10 ^ k, z) := by
  obtain ⟨c, cs, rfl, h1, h2, h3⟩ := zone24_head hz
  cases hf with
  | none =>
    simp only [List.nil_append]
    unfold fracNanos
    cases cs with
    | nil => simp
    | cons d ds => simp [h2, h3]
  | @some ds c' hc' hne hd =>
    obtain ⟨d, ds', rfl⟩ := List.exists_cons_of_ne_nil hne
    simp only [List.cons_append]
    unfold fracNanos
    simp only
    rw [if_pos ⟨hc', hd d (by simp)⟩]
    have := takeWhile_digits hd h1 cs
    simp only [List.cons_append] at this
    rw [this.1, this.2]
    congr 1
    exact nanos_val hd

/-! ### C71 -/

/-- **C71**. A text is accepted exactly if it is a date-time as described by `Reads`, and the result is the instant it names, cropped to nanoseconds. -/
theorem C71_accepts (txt : Bytes) (t : Time) :
    parse txt = some t ↔ ∃ sec num k, Reads txt sec num k ∧ t = ⟨sec, num * 10 ^ 9 / 10 ^ k⟩ := by
  constructor
  · intro h
    unfold parse at h
    simp only [Option.bind_eq_bind, Option.bind_eq_some_iff, Prod.exists] at h
    obtain ⟨y, v1, hy, v2, h2, m, v3, hm, v4, h4, d, v5, hd, v6, h6, hr, v7, hh, v8, h8, mi, v9, hmi, v10, h10, s, v11, hs, off, v12, hz, h⟩ := h
    obtain ⟨ys, rfl, ky⟩ := year4_inv hy
    obtain rfl := lit_inv h2
    obtain ⟨ms, rfl, km, m1, m2⟩ := numIn_inv2 hm
    obtain rfl := lit_inv h4
    obtain ⟨ds, rfl, kd, -, -⟩ := numIn_inv2 hd
    obtain rfl := lit_inv h6
    obtain ⟨hs', rfl, kh, -, h23⟩ := numIn_inv hh
    obtain rfl := lit_inv h8
    obtain ⟨mis, rfl, kmi, -, m59⟩ := numIn_inv2 hmi
    obtain rfl := lit_inv h10
    obtain ⟨ss, rfl, ks, -, s59⟩ := numIn_inv2 hs
    obtain ⟨f, num, k, e, kf, hn⟩ := frac_inv v11
    obtain ⟨z, ez, kz⟩ := zone_inv hz
    split_ifs at h with c1 c2
    rw [not_not] at c1
    subst c1
    rw [List.append_nil] at ez
    rw [ez] at e
    subst e
    simp only [Option.some.injEq] at h
    rw [daysIn_eq m1 m2] at c2
    have hv : Date.Valid ⟨y, m, d⟩ := ⟨m1, m2, by dsimp only; omega, by dsimp only; omega⟩
    refine ⟨_, num, k, ⟨ys, ms, ds, hs', mis, ss, f, z, y, m, d, hr, mi, s, off, dno ⟨y, m, d⟩, rfl, ky, km, kd, ?_, kmi, ks, kf, kz, h23,
      m59, s59, hv, (dayNo_iff _ _).2 ⟨hv, rfl⟩, rfl⟩, ?_⟩
    · rcases kh with kh | ⟨-, kh⟩
      · exact .inr kh
      · exact .inl kh
    · rw [← h, hn]
      congr 1
      simp only [dno]
      push_cast; ring
  · rintro ⟨sec, num, k, ⟨ys, ms, ds, hs, mis, ss, f, z, y, m, d, h, mi, s, off, day, rfl, hy, hm, hd, hh, hmi, hs, hf, hz,
      h23, m59, s59, hv, hday, rfl⟩, rfl⟩
    unfold parse
    have d99 := digits_lt hd
    obtain ⟨v1, v2, v3, v4⟩ := hv
    simp only at v1 v2 v3 v4
    have hc := (dayNo_iff _ _).1 hday
    simp only [year4_digits hy, lit, if_true, Option.bind_eq_bind, Option.bind_some,
      numIn_digits true hm v1 v2, numIn_digits true hd (Nat.zero_le _) (show d ≤ 99 by omega),
      hour_read hh h23, numIn_digits true hmi (Nat.zero_le _) m59,
      numIn_digits true hs (Nat.zero_le _) s59, fracC_read hf hz, zone24_read hz]
    rw [if_neg (by simp), if_neg (by rw [daysIn_eq v1 v2]; omega)]
    have : daysOfCivil ⟨y, m, d⟩ = day := hc.2
    rw [this]
    congr 2
    push_cast; ring

/-- **C71**. `ConvertToSeconds` fails exactly on the other texts. -/
theorem C71_fails (txt : Bytes) : convertToSeconds txt = none ↔ ¬ ∃ sec num k, Reads txt sec num k := by
  unfold convertToSeconds
  rw [Option.map_eq_none_iff, Option.eq_none_iff_forall_ne_some]
  constructor
  · rintro h ⟨sec, num, k, hr⟩
    exact h _ ((C71_accepts txt _).2 ⟨sec, num, k, hr, rfl⟩)
  · intro h t ht
    obtain ⟨sec, num, k, hr, -⟩ := (C71_accepts txt t).1 ht
    exact h ⟨sec, num, k, hr⟩

/-- **C71**. A text names one instant only. -/
theorem C71_unique {txt : Bytes} {s s' : Int} {n k n' k' : Nat} (h : Reads txt s n k) (h' : Reads txt s' n' k') :
    s = s' ∧ n * 10 ^ 9 / 10 ^ k = n' * 10 ^ 9 / 10 ^ k' := by
  have h1 := (C71_accepts txt _).2 ⟨s, n, k, h, rfl⟩
  have h2 := (C71_accepts txt _).2 ⟨s', n', k', h', rfl⟩
  rw [h1] at h2
  simpa using h2

/-- **C71** as one might state it: only date-times of ISO 8601 are accepted. -/
def C71_statement : Prop := ∀ txt t, parse txt = some t → ∃ sec num k, Denotes txt sec num k

/-- It is false: a one-digit hour, a comma and a zone of 24 hours 60 minutes are accepted. -/
theorem C71_refuted : ¬ C71_statement := by
  intro h
  obtain ⟨sec, num, k, hd⟩ := h (b!"2020-01-01T1:00:00Z") ⟨1577840400, 0⟩ (by decide +kernel)
  obtain ⟨ys, ms, ds, hs, mis, ss, f, z, y, m, d, h, mi, s, off, day, e, hy, hm, hd, hh, -⟩ := hd
  have e := congrArg (fun l => l[13]?) e
  have l1 := hy.1
  have l2 := hm.1
  have l3 := hd.1
  obtain ⟨a, b, rfl, -, -, -⟩ := digits2 hh
  match ys, l1, ms, l2, ds, l3 with
  | [_, _, _, _], _, [_, _], _, [_, _], _ =>
    simp at e

-- Accepted, and rejected, texts.
example : parse (b!"2020-01-01T1:00:00Z") = some ⟨1577840400, 0⟩ := by decide +kernel
example : parse (b!"2020-01-01T01:00:00,25+24:60") = some ⟨1577750400, 250000000⟩ := by decide +kernel
example : parse (b!"2020-01-01T24:00:00Z") = none ∧ parse (b!"2020-01-01T00:00:60Z") = none ∧ parse (b!"2020-01-01 00:00:00Z") = none ∧
    parse (b!"2020-01-01T00:00:00") = none ∧ parse (b!"2020-01-01T00:00:00.Z") = none := by decide +kernel

end Verif.DateTime

import Verif.Alone
import Verif.SchemaProps

/-!
The types of the elements of the manifest, for C85.
-/
namespace Verif.Bind

open Verif.Xml

/-- A field with which the value would be written under the same name. -/
def standIn (loc : Bytes) : FInfo := ⟨[], loc, [], .elem, false, 0, none⟩

/-- The struct types in the type of the manifest. -/
def elementTypes : List Sch := (structs tMPD.sch).map fun q => .struct q.1 q.2.1 q.2.2.1 q.2.2.2

theorem elements_ns : elementTypes.all (fun s => s.nsRt mpdPairs [] (some (standIn (b!"x"))) false) = true := by decide +kernel

theorem elements_outer : elementTypes.all (fun s => s.outer none) = true := by decide +kernel

theorem elements_names : (structs tMPD.sch).all (fun q => decide (NCName q.1 ∧ q.1 ≠ xmlnsPrefix)) = true := by decide +kernel

/-! ### What holds of a type holds of the types in it -/

mutual
theorem structs_ok : ∀ (s : Sch), s.ok = true → ∀ q ∈ structs s, (Sch.struct q.1 q.2.1 q.2.2.1 q.2.2.2).ok = true
  | .ptr s, h, q, hq => structs_ok s (by simpa only [Sch.ok] using h) q (by simpa only [structs] using hq)
  | .slice s, h, q, hq => structs_ok s (by simpa only [Sch.ok] using h) q (by simpa only [structs] using hq)
  | .struct tn xn F S, h, q, hq => by
    simp only [structs, List.mem_cons] at hq
    rcases hq with rfl | hq
    · exact h
    · simp only [Sch.ok, Bool.and_eq_true] at h
      exact structss_ok S h.2 q hq
  | .simple _, h, q, hq | .attr, h, q, hq | .name, h, q, hq | .bad _, h, q, hq => by simp [structs] at hq
theorem structss_ok : ∀ (S : List Sch), oks S = true → ∀ q ∈ structss S, (Sch.struct q.1 q.2.1 q.2.2.1 q.2.2.2).ok = true
  | [], h, q, hq => by simp [structss] at hq
  | s :: S, h, q, hq => by
    simp only [structss, List.mem_append] at hq
    simp only [oks, Bool.and_eq_true] at h
    rcases hq with hq | hq
    · exact structs_ok s h.1 q hq
    · exact structss_ok S h.2 q hq
end

mutual
theorem structs_rt (L : List Bytes) : ∀ (s : Sch), s.rt L = true → ∀ q ∈ structs s, (Sch.struct q.1 q.2.1 q.2.2.1 q.2.2.2).rt L = true
  | .ptr s, h, q, hq => structs_rt L s (by simpa only [Sch.rt] using h) q (by simpa only [structs] using hq)
  | .slice s, h, q, hq => structs_rt L s (by simpa only [Sch.rt] using h) q (by simpa only [structs] using hq)
  | .struct tn xn F S, h, q, hq => by
    simp only [structs, List.mem_cons] at hq
    rcases hq with rfl | hq
    · exact h
    · simp only [Sch.rt, Bool.and_eq_true] at h
      exact structss_rt L S h.2 q hq
  | .simple _, h, q, hq | .attr, h, q, hq | .name, h, q, hq | .bad _, h, q, hq => by simp [structs] at hq
theorem structss_rt (L : List Bytes) : ∀ (S : List Sch), rts L S = true → ∀ q ∈ structss S,
    (Sch.struct q.1 q.2.1 q.2.2.1 q.2.2.2).rt L = true
  | [], h, q, hq => by simp [structss] at hq
  | s :: S, h, q, hq => by
    simp only [structss, List.mem_append] at hq
    simp only [rts, Bool.and_eq_true] at h
    rcases hq with hq | hq
    · exact structs_rt L s h.1 q hq
    · exact structss_rt L S h.2 q hq
end

mutual
theorem structs_hgt : ∀ (s : Sch), ∀ q ∈ structs s, hgt (Sch.struct q.1 q.2.1 q.2.2.1 q.2.2.2) ≤ hgt s
  | .ptr s, q, hq => by
    have := structs_hgt s q (by simpa only [structs] using hq)
    simpa only [hgt] using this
  | .slice s, q, hq => by
    have := structs_hgt s q (by simpa only [structs] using hq)
    simp only [hgt] at this ⊢
    omega
  | .struct tn xn F S, q, hq => by
    simp only [structs, List.mem_cons] at hq
    rcases hq with rfl | hq
    · exact Nat.le_refl _
    · have := structss_hgt S q hq
      simp only [hgt] at this ⊢
      omega
  | .simple _, q, hq | .attr, q, hq | .name, q, hq | .bad _, q, hq => by simp [structs] at hq
theorem structss_hgt : ∀ (S : List Sch), ∀ q ∈ structss S, hgt (Sch.struct q.1 q.2.1 q.2.2.1 q.2.2.2) ≤ hgts S
  | [], q, hq => by simp [structss] at hq
  | s :: S, q, hq => by
    simp only [structss, List.mem_append] at hq
    rcases hq with hq | hq
    · have := structs_hgt s q hq
      simp only [hgts]
      omega
    · have := structss_hgt S q hq
      simp only [hgts]
      omega
end

end Verif.Bind

import Verif.Text
import Mathlib.Tactic.IntervalCases

/-!
# C35: textual code point notation round-trips
-/

namespace Lgr.Props.C35
open Lgr Text

theorem mapM_some {α β} {f : α → Option β} {g : β → α} (h : ∀ x, f (g x) = some x) (l : List β) :
    (l.map g).mapM f = some l := by
  induction l with
  | nil => rfl
  | cons x l ih => rw [List.map_cons, List.mapM_cons, h, ih]; rfl

theorem mapM_except {α β ε} {f : α → Except ε β} {g : β → α} (l : List β)
    (h : ∀ x ∈ l, f (g x) = .ok x) : (l.map g).mapM f = .ok l := by
  induction l with
  | nil => rfl
  | cons x l ih =>
    rw [List.map_cons, List.mapM_cons, h x (by simp), ih (fun y hy => h y (by simp [hy]))]; rfl

/-- **C35** Reading back the number written by `"%04X"` gives the same number. -/
theorem hex_round_trip (n : Nat) : parseHex (cpToStr n) = some n := parseHex_cpToStr n

/-- **C35** Distinct code points are written differently, with at least four characters. -/
theorem hex_injective (m n : Nat) (h : cpToStr m = cpToStr n) : m = n := by
  have := parseHex_cpToStr m
  rw [h, parseHex_cpToStr] at this
  injection this with this; exact this.symm

/-- **C35** The `cp` attribute written by the serialiser is read back by the parser as the same
sequence. -/
theorem cp_attribute_round_trip (cps : Seq) : parseCpAttr (cpAttr cps) = some cps := by
  unfold parseCpAttr cpAttr
  rw [splitWs_join]
  · exact mapM_some parseHex_cpToStr cps
  · intro w hw
    obtain ⟨c, _, rfl⟩ := List.mem_map.1 hw
    refine ⟨?_, fun x hx => (cpToStr_nospace c x hx).1⟩
    intro h; have := cpToStr_length c; rw [h] at this; simp at this

theorem parseSingle_plain (n : Nat) (h : n ≤ 0x10FFFF) : parseSingleCp (cpToStr n) = .ok n := by
  have hns := cpToStr_nospace n
  have hlen := cpToStr_length n
  have hne : ∀ c ∈ cpToStr n, c ≠ 'U' ∧ c ≠ 'u' := by
    obtain ⟨l, h, h1, _⟩ := cpToStr_digits n
    intro c hc
    rw [h] at hc
    obtain ⟨d, hd, rfl⟩ := List.mem_map.1 hc
    have : ∀ d : Fin 16, digitChar d ≠ 'U' ∧ digitChar d ≠ 'u' := by decide
    exact this ⟨d, h1 d hd⟩
  have ht : ¬ ((cpToStr n).take 2 = ['U', '+'] ∨ (cpToStr n).take 2 = ['u', '+']) := by
    rintro (h | h)
    · have : 'U' ∈ cpToStr n := (List.take_sublist 2 _).subset (by rw [h]; simp)
      exact (hne _ this).1 rfl
    · have : 'u' ∈ cpToStr n := (List.take_sublist 2 _).subset (by rw [h]; simp)
      exact (hne _ this).2 rfl
  unfold parseSingleCp
  rw [strip_none (fun c hc => (hns c hc).1)]
  simp only [if_neg (show ¬ (cpToStr n).length = 1 by omega), if_neg ht, parseHex_cpToStr]
  rw [if_neg (by omega)]

theorem parseSingle_uplus (n : Nat) (h : n ≤ 0x10FFFF) :
    parseSingleCp ('U' :: '+' :: cpToStr n) = .ok n := by
  have hns := cpToStr_nospace n
  have hs : ∀ c ∈ 'U' :: '+' :: cpToStr n, isSpace c = false := by
    intro c hc
    rcases List.mem_cons.1 hc with rfl | hc
    · decide +kernel
    rcases List.mem_cons.1 hc with rfl | hc
    · decide +kernel
    exact (hns c hc).1
  unfold parseSingleCp
  rw [strip_none hs]
  simp [parseHex_cpToStr, h]

/-- **C35** What `format_cp` displays can be typed back: `parse_codepoint_input` reads it as the
same sequence (for Unicode code points). -/
theorem format_cp_round_trip (cps : Seq) (h : ∀ c ∈ cps, c ≤ 0x10FFFF) :
    parseCodepointInput (formatCp cps) = .ok cps := by
  unfold parseCodepointInput formatCp
  rw [splitWs_join]
  · exact mapM_except cps (fun x hx => parseSingle_uplus x (h x hx))
  · intro w hw
    obtain ⟨c, _, rfl⟩ := List.mem_map.1 hw
    refine ⟨by simp, ?_⟩
    intro x hx
    rcases List.mem_cons.1 hx with rfl | hx
    · decide +kernel
    rcases List.mem_cons.1 hx with rfl | hx
    · decide +kernel
    exact (cpToStr_nospace c x hx).1

/-- **C35** Likewise for the notation without `U+`. -/
theorem plain_round_trip (cps : Seq) (h : ∀ c ∈ cps, c ≤ 0x10FFFF) :
    parseCodepointInput (cpAttr cps) = .ok cps := by
  unfold parseCodepointInput cpAttr
  rw [splitWs_join]
  · exact mapM_except cps (fun x hx => parseSingle_plain x (h x hx))
  · intro w hw
    obtain ⟨c, _, rfl⟩ := List.mem_map.1 hw
    refine ⟨?_, fun x hx => (cpToStr_nospace c x hx).1⟩
    intro h; have := cpToStr_length c; rw [h] at this; simp at this

/-- **C35** A number outside Unicode is rejected, not truncated. -/
theorem out_of_range_rejected (n : Nat) (h : 0x10FFFF < n) :
    parseSingleCp ('U' :: '+' :: cpToStr n) = .error .valueError := by
  have hns := cpToStr_nospace n
  have hs : ∀ c ∈ 'U' :: '+' :: cpToStr n, isSpace c = false := by
    intro c hc
    rcases List.mem_cons.1 hc with rfl | hc
    · decide +kernel
    rcases List.mem_cons.1 hc with rfl | hc
    · decide +kernel
    exact (hns c hc).1
  unfold parseSingleCp
  rw [strip_none hs]
  simp [parseHex_cpToStr, h]

/-- **C35** Lists of tags or references written as a space-separated attribute are read back,
provided no item contains a space and the list is not the single empty item. -/
theorem string_list_round_trip (ws : List (List Char)) (h : ∀ w ∈ ws, ∀ c ∈ w, c ≠ ' ')
    (hne : ws ≠ [[]]) : stringToList (join ' ' ws) = ws := by
  unfold stringToList
  cases ws with
  | nil => rfl
  | cons w ws =>
    have hlen : (join ' ' (w :: ws)).length > 0 := by
      cases ws with
      | nil =>
        simp only [join]
        cases w with
        | nil => exact absurd rfl hne
        | cons => simp
      | cons x ws => simp only [join, List.length_append, List.length_cons]; omega
    rw [if_pos hlen]
    exact splitOn_join ' ' _ (by simp) h

/-- `c` is the hexadecimal digit `d`, in either case. -/
def HexDigit (c : Char) (d : Nat) : Prop :=
  "0123456789abcdef".toList[d]? = some c ∨ "0123456789ABCDEF".toList[d]? = some c

theorem hexVal_iff (c : Char) (d : Nat) : hexVal c = some d ↔ HexDigit c d := by
  constructor
  · intro h
    have hle : ∀ a b : Char, a ≤ b ↔ a.toNat ≤ b.toNat := fun a b => Iff.rfl
    have hin : ∀ lo, c.toNat - lo ≤ 15 → lo ≤ c.toNat → c = Char.ofNat (lo + (c.toNat - lo)) := by
      intro lo _ hlo
      rw [Nat.add_sub_cancel' hlo, Char.ofNat_toNat]
    unfold hexVal at h
    simp only [hle] at h
    split at h
    · rename_i hc
      have h1 : 48 ≤ c.toNat := hc.1
      have h2 : c.toNat ≤ 57 := hc.2
      simp only [Option.some.injEq] at h
      rw [hin 48 (by omega) h1, h]
      have : d ≤ 9 := by omega
      interval_cases d <;> exact .inl (by decide)
    · split at h
      · rename_i hc
        have h1 : 65 ≤ c.toNat := hc.1
        have h2 : c.toNat ≤ 70 := hc.2
        simp only [Option.some.injEq] at h
        rw [hin 55 (by omega) (by omega), h]
        have : d ≤ 15 := by omega
        have : 10 ≤ d := by omega
        interval_cases d <;> exact .inr (by decide)
      · split at h
        · rename_i hc
          have h1 : 97 ≤ c.toNat := hc.1
          have h2 : c.toNat ≤ 102 := hc.2
          simp only [Option.some.injEq] at h
          rw [hin 87 (by omega) (by omega), h]
          have : d ≤ 15 := by omega
          have : 10 ≤ d := by omega
          interval_cases d <;> exact .inl (by decide)
        · cases h
  · have hd : d < 16 ∨ 16 ≤ d := by omega
    rcases hd with hd | hd
    · intro h
      interval_cases d <;> rcases h with h | h <;> (simp at h; subst h; decide)
    · rintro (h | h) <;> (rw [List.getElem?_eq_none (by simpa using hd)] at h; cases h)

/-- **C35** A text is read as the number `n` iff it is not empty, its characters are hexadecimal digits
in either case, and `n` is the value they have in base 16, the last one counting least; any other text
is refused. -/
theorem parse_hex_iff (s : List Char) (n : Nat) :
    parseHex s = some n ↔ s ≠ [] ∧ ∃ ds, List.Forall₂ HexDigit s ds ∧ n = Nat.ofDigits 16 ds.reverse := by
  have hm : ∀ (s : List Char) ds, s.mapM hexVal = some ds ↔ List.Forall₂ HexDigit s ds := by
    intro s
    induction s with
    | nil => intro ds; simp [eq_comm]
    | cons c s ih =>
      intro ds
      rw [List.mapM_cons]
      cases ds with
      | nil => cases hc : hexVal c <;> cases hs : s.mapM hexVal <;> simp
      | cons d ds =>
        rw [List.forall₂_cons, ← ih, ← hexVal_iff]
        cases hc : hexVal c <;> cases hs : s.mapM hexVal <;> simp
  cases s with
  | nil => simp [parseHex]
  | cons c s =>
    have : parseHex (c :: s) = ((c :: s).mapM hexVal).map (valueOf 16) := rfl
    rw [this, Option.map_eq_some_iff]
    simp only [hm, ne_eq, reduceCtorEq, not_false_eq_true, true_and]
    constructor
    · rintro ⟨ds, h, rfl⟩
      exact ⟨ds, h, by rw [← valueOf_reverse, List.reverse_reverse]⟩
    · rintro ⟨ds, h, rfl⟩
      exact ⟨ds, h, by rw [← valueOf_reverse, List.reverse_reverse]⟩

/-! Non-vacuity. -/
example : parseHex "1aF".toList = some 0x1AF ∧ parseHex "".toList = none ∧
    parseHex "1g".toList = none := by decide +kernel
example : cpToStr 0x1F = "001F".toList := by decide +kernel
example : cpToStr 0x1F600 = "1F600".toList := by decide +kernel
example : parseCodepointInput "U+0061  0062 z".toList = .ok [0x61, 0x62, 0x7A] := by decide +kernel
example : stringToList "a  b".toList = ["a".toList, [], "b".toList] := by decide +kernel

end Lgr.Props.C35

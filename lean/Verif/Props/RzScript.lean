import Verif.LabelInput

/-!
# C109 Script of a label

`lgr/tools/utils.py` 279-322: `get_rz_label_script`. `script` is any assignment of scripts to code points.
-/

namespace Lgr.Props.C109
open Lgr LabelInput

variable (script : Nat → String)

/-- The character belongs to no script in particular. -/
def Neutral (c : Nat) : Prop := script c = "Zyyy" ∨ script c = "Zinh"

/-- Name of the tag for labels of a script. -/
inductive Tag : String → String → Prop where
  | hira : Tag "Hira" "Jpan"
  | kana : Tag "Kana" "Jpan"
  | hang : Tag "Hang" "Kore"
  | other (s : String) : s ≠ "Hira" → s ≠ "Kana" → s ≠ "Hang" → Tag s s

/-- Hiragana or Katakana. -/
def Syllable (c : Nat) : Prop := script c = "Hira" ∨ script c = "Kana"

/-- The script given to a nonempty label. -/
inductive Given : Seq → String → Prop where
  /-- A label that starts with an ideograph and contains Kana. -/
  | mixed (c : Nat) (l : Seq) : script c = "Hani" → (∃ x ∈ l, Syllable script x) → Given (c :: l) "Jpan"
  | han (c : Nat) (l : Seq) : script c = "Hani" → (∀ x ∈ l, ¬ Syllable script x) → Given (c :: l) "Hani"
  /-- The first character with a script decides. -/
  | first (c : Nat) (l : Seq) (t : String) : ¬ Neutral script c → script c ≠ "Hani" → Tag (script c) t →
      Given (c :: l) t
  | after (pre : Seq) (c : Nat) (l : Seq) (t : String) : pre ≠ [] → (∀ x ∈ pre, Neutral script x) →
      ¬ Neutral script c → Tag (script c) t → Given (pre ++ c :: l) t
  /-- Characters without script only. -/
  | mark (l : Seq) : (∀ x ∈ l, Neutral script x) → 0x3006 ∈ l ∨ 0x30FC ∈ l → Given l "Jpan"
  | neutral (l : Seq) (c : Nat) : (∀ x ∈ l ++ [c], Neutral script x) → 0x3006 ∉ l ++ [c] → 0x30FC ∉ l ++ [c] →
      Given (l ++ [c]) (script c)

variable {script}

theorem common_iff {c : Nat} : common (script c) = true ↔ Neutral script c := by
  simp [common, Neutral]

theorem tag_iff {s t : String} : Tag s t ↔ (if s = "Hira" ∨ s = "Kana" then "Jpan" else if s = "Hang" then "Kore"
    else s) = t := by
  constructor
  · intro h
    cases h with
    | hira => rfl
    | kana => rfl
    | hang => decide
    | other _ h1 h2 h3 => rw [if_neg (by simp [h1, h2]), if_neg h3]
  · rintro rfl
    by_cases h1 : s = "Hira"
    · subst h1; exact .hira
    · by_cases h2 : s = "Kana"
      · subst h2; exact .kana
      · by_cases h3 : s = "Hang"
        · subst h3; exact .hang
        · rw [if_neg (by simp [h1, h2]), if_neg h3]; exact .other s h1 h2 h3

theorem next_neutral : ∀ (l : Seq) (s : String), (∀ x ∈ l, Neutral script x) →
    nextScript script s l = (l.getLast?.map script).getD s
  | [], s, _ => rfl
  | c :: l, s, h => by
    rw [nextScript, if_pos (common_iff.2 (h c (by simp))), next_neutral l _ (fun x hx => h x (by simp [hx]))]
    cases l with
    | nil => rfl
    | cons d l =>
      rw [List.getLast?_cons_cons]
      obtain ⟨z, hz⟩ : ∃ z, (d :: l).getLast? = some z := ⟨_, List.getLast?_eq_getLast (by simp)⟩
      rw [hz]; rfl

theorem next_first : ∀ (pre : Seq) (c : Nat) (l : Seq) (s : String), (∀ x ∈ pre, Neutral script x) →
    ¬ Neutral script c → nextScript script s (pre ++ c :: l) = script c
  | [], c, l, s, _, h => by
    rw [List.nil_append, nextScript, if_neg (fun hc => h (common_iff.1 hc))]
  | d :: pre, c, l, s, h1, h => by
    rw [List.cons_append, nextScript, if_pos (common_iff.2 (h1 d (by simp)))]
    exact next_first pre c l _ (fun x hx => h1 x (by simp [hx])) h

theorem neutral_or_first (l : Seq) : (∀ x ∈ l, Neutral script x) ∨
    ∃ pre c post, l = pre ++ c :: post ∧ (∀ x ∈ pre, Neutral script x) ∧ ¬ Neutral script c := by
  induction l with
  | nil => exact Or.inl (by simp)
  | cons c l ih =>
    by_cases hc : Neutral script c
    · rcases ih with h | ⟨pre, d, post, rfl, h1, h2⟩
      · exact Or.inl (by simpa using ⟨hc, h⟩)
      · exact Or.inr ⟨c :: pre, d, post, rfl, by simpa using ⟨hc, h1⟩, h2⟩
    · exact Or.inr ⟨[], c, l, rfl, by simp, hc⟩

theorem neutral_ne {c : Nat} (h : Neutral script c) : script c ≠ "Hani" := by
  rintro e; rcases h with h | h <;> rw [e] at h <;> exact absurd h (by decide)

/-- A label has a script exactly when it is nonempty. -/
theorem none_iff {l : Seq} : rzScript script l = none ↔ l = [] := by
  cases l with
  | nil => simp [rzScript]
  | cons c l => simp [rzScript]

/-- The script given is the one described. -/
theorem given {l : Seq} {t : String} (h : Given script l t) : rzScript script l = some t := by
  cases h with
  | mixed c l h1 h2 =>
    obtain ⟨x, hx, hs⟩ := h2
    rw [rzScript]
    simp only
    rw [if_pos h1, if_pos (List.any_eq_true.2 ⟨x, hx, by simpa [Syllable] using hs⟩)]
    decide
  | han c l h1 h2 =>
    rw [rzScript]
    simp only
    have hn : ¬ (l.any (fun x => script x == "Hira" || script x == "Kana") = true) := by
      intro h
      obtain ⟨x, hx, hs⟩ := List.any_eq_true.1 h
      exact h2 x hx (by simpa [Syllable] using hs)
    rw [if_pos h1, if_neg hn]
    decide
  | first c l t h1 h2 h3 =>
    rw [rzScript]
    simp only
    rw [if_neg h2, if_neg (fun h => h1 (common_iff.1 h)), tag_iff.1 h3]
  | after pre c l t h0 h1 h2 h3 =>
    obtain ⟨d, pre, rfl⟩ := List.exists_cons_of_ne_nil h0
    rw [List.cons_append, rzScript]
    simp only
    have hd := h1 d (by simp)
    rw [if_neg (neutral_ne hd), if_pos (common_iff.2 hd),
      next_first pre c l _ (fun x hx => h1 x (by simp [hx])) h2]
    have hn : common (script c) = false := by
      rw [← Bool.not_eq_true]; exact fun h => h2 (common_iff.1 h)
    simp only [hn, Bool.false_and, Bool.false_eq_true, if_false]
    rw [tag_iff.1 h3]
  | mark _ h1 h2 =>
    cases l with
    | nil => simp at h2
    | cons d l =>
      rw [rzScript]
      simp only
      have hd := h1 d (by simp)
      have hn : common (nextScript script (script d) l) = true := by
        rw [next_neutral l _ (fun x hx => h1 x (by simp [hx]))]
        rcases hl : l.getLast? with _ | z
        · exact common_iff.2 hd
        · exact common_iff.2 (h1 z (by simp [List.mem_of_getLast? hl]))
      have hm : (d :: l).any (fun x => x == 0x3006 || x == 0x30FC) = true := by
        rw [List.any_eq_true]
        rcases h2 with h2 | h2
        · exact ⟨_, h2, rfl⟩
        · exact ⟨_, h2, rfl⟩
      rw [if_neg (neutral_ne hd), if_pos (common_iff.2 hd), hn, hm]
      simp
  | neutral l c h1 h2 h3 =>
    have hc := h1 c (by simp)
    obtain ⟨d, m, hdm⟩ : ∃ d m, l ++ [c] = d :: m := by
      cases l with
      | nil => exact ⟨_, _, rfl⟩
      | cons d l => exact ⟨_, _, rfl⟩
    have hlast : (d :: m).getLast? = some c := by rw [← hdm]; simp
    rw [hdm] at h1 h2 h3 ⊢
    rw [rzScript]
    simp only
    have hd := h1 d (by simp)
    have hm : (d :: m).any (fun x => x == 0x3006 || x == 0x30FC) = false := by
      rw [List.any_eq_false]
      intro x hx hx'
      simp only [Bool.or_eq_true, beq_iff_eq] at hx'
      rcases hx' with rfl | rfl
      · exact h2 hx
      · exact h3 hx
    have hn : nextScript script (script d) m = script c := by
      rw [next_neutral m _ (fun x hx => h1 x (by simp [hx]))]
      cases m with
      | nil => cases hlast; rfl
      | cons e m => rw [List.getLast?_cons_cons] at hlast; rw [hlast]; rfl
    rw [if_neg (neutral_ne hd), if_pos (common_iff.2 hd), hn, hm]
    simp only [Bool.and_false, Bool.false_eq_true, if_false]
    congr 1
    refine tag_iff.1 (.other _ ?_ ?_ ?_) <;>
      (intro e; rcases hc with hc | hc <;> rw [e] at hc <;> exact absurd hc (by decide))

/-- Every nonempty label has a description. -/
theorem given_exists {l : Seq} (h : l ≠ []) : ∃ t, Given script l t := by
  rcases neutral_or_first (script := script) l with h1 | ⟨pre, c, post, rfl, h1, h2⟩
  · by_cases hm : 0x3006 ∈ l ∨ 0x30FC ∈ l
    · exact ⟨_, .mark l h1 hm⟩
    · obtain ⟨m, c, rfl⟩ := List.eq_nil_or_concat' l |>.resolve_left h
      exact ⟨_, .neutral m c h1 (fun h => hm (Or.inl h)) (fun h => hm (Or.inr h))⟩
  · by_cases hp : pre = []
    · subst hp
      by_cases hc : script c = "Hani"
      · by_cases hs : ∃ x ∈ post, Syllable script x
        · exact ⟨_, .mixed c post hc hs⟩
        · exact ⟨_, .han c post hc (fun x hx hh => hs ⟨x, hx, hh⟩)⟩
      · exact ⟨_, .first c post _ h2 hc (tag_iff.2 rfl)⟩
    · exact ⟨_, .after pre c post _ hp h1 h2 (tag_iff.2 rfl)⟩

/-- The script given to a label, exactly. -/
theorem given_iff {l : Seq} {t : String} : rzScript script l = some t ↔ Given script l t := by
  constructor
  · intro h
    have hl : l ≠ [] := by rintro rfl; cases h
    obtain ⟨t', ht'⟩ := given_exists (script := script) hl
    rw [given ht'] at h
    cases h; exact ht'
  · exact given

/-! ## Labels of one script, in any order -/

/-- All characters that have a script have this one, and some have. -/
def Only (script : Nat → String) (s : String) (l : Seq) : Prop :=
  (∃ x ∈ l, script x = s) ∧ ∀ x ∈ l, script x = s ∨ Neutral script x

/-- A label of one script gets the tag of the script. -/
theorem single_script {l : Seq} {s t : String} (h : Only script s l) (hs : s ≠ "Zyyy" ∧ s ≠ "Zinh") (ht : Tag s t) :
    rzScript script l = some t := by
  obtain ⟨⟨y, hy, he⟩, hall⟩ := h
  have hny : ¬ Neutral script y := by
    rintro (h | h) <;> rw [he] at h
    · exact hs.1 h
    · exact hs.2 h
  rcases neutral_or_first (script := script) l with h1 | ⟨pre, c, post, rfl, h1, h2⟩
  · exact absurd (h1 y hy) hny
  · have hc : script c = s := (hall c (by simp)).resolve_right h2
    by_cases hp : pre = []
    · subst hp
      by_cases hH : script c = "Hani"
      · have ht' : t = "Hani" := by
          rw [hc] at hH
          subst hH
          exact (tag_iff.1 ht).symm
        subst ht'
        refine given (.han c post hH ?_)
        intro x hx hsx
        rcases hall x (by simp [hx]) with h | h
        · rw [← hc, hH] at h
          rcases hsx with hsx | hsx <;> rw [h] at hsx <;> exact absurd hsx (by decide)
        · rcases hsx with hsx | hsx <;> rcases h with h | h <;> rw [h] at hsx <;> exact absurd hsx (by decide)
      · exact given (.first c post t h2 hH (hc ▸ ht))
    · exact given (.after pre c post t hp h1 h2 (hc ▸ ht))

/-- A label of Kana, ideographs and characters without script, with some Kana. -/
def Japanese (script : Nat → String) (l : Seq) : Prop :=
  (∃ x ∈ l, Syllable script x) ∧ ∀ x ∈ l, Syllable script x ∨ script x = "Hani" ∨ Neutral script x

/-- Full statement: Japanese labels are tagged as such. -/
def JapaneseTagged (script : Nat → String) : Prop := ∀ l, Japanese script l → rzScript script l = some "Jpan"

/-- Japanese labels that do not start with characters without script followed by an ideograph are tagged as such.
Missing: those labels (`japanese_wrong`). -/
theorem japanese_partial {l : Seq} (h : Japanese script l)
    (hn : ∀ pre c post, l = pre ++ c :: post → (∀ x ∈ pre, Neutral script x) → script c = "Hani" → pre = []) :
    rzScript script l = some "Jpan" := by
  obtain ⟨⟨y, hy, he⟩, hall⟩ := h
  have hny : ¬ Neutral script y := by
    rintro (h | h) <;> rcases he with he | he <;> rw [h] at he <;> exact absurd he (by decide)
  rcases neutral_or_first (script := script) l with h1 | ⟨pre, c, post, rfl, h1, h2⟩
  · exact absurd (h1 y hy) hny
  · rcases hall c (by simp) with hc | hc | hc
    · have ht : Tag (script c) "Jpan" := by
        rcases hc with hc | hc <;> rw [hc]
        exacts [.hira, .kana]
      by_cases hp : pre = []
      · subst hp
        refine given (.first c post _ h2 ?_ ht)
        rintro e; rcases hc with hc | hc <;> rw [e] at hc <;> exact absurd hc (by decide)
      · exact given (.after pre c post _ hp h1 h2 ht)
    · have hp := hn pre c post rfl h1 hc
      subst hp
      refine given (.mixed c post hc ⟨y, ?_, he⟩)
      rcases List.mem_cons.1 hy with rfl | hy
      · rcases he with he | he <;> rw [hc] at he <;> exact absurd he (by decide)
      · exact hy
    · exact absurd hc h2

/-! ## Examples and violations -/

/-- Scripts of some code points. -/
def script1 (c : Nat) : String :=
  if c = 0x6F22 then "Hani" else if c = 0x304B then "Hira" else if c = 0xD55C then "Hang"
  else if c = 0x61 then "Latn" else if c = 0x30 ∨ c = 0x30FC then "Zyyy" else "Zinh"

example : Only script1 "Latn" [0x30, 0x61] := ⟨⟨0x61, by simp, by decide⟩, by unfold Neutral; decide⟩
example : rzScript script1 [0x30, 0x61] = some "Latn" := by decide
example : rzScript script1 [0x6F22, 0x304B] = some "Jpan" := by decide
example : rzScript script1 [0x30, 0x30FC] = some "Jpan" := by decide
example : rzScript script1 [0x30FC, 0xD55C] = some "Kore" := by decide

/-- A digit before an ideograph hides the Kana that follows. -/
theorem japanese_wrong : ∃ script, ¬ JapaneseTagged script := by
  refine ⟨script1, fun h => ?_⟩
  have := h [0x30, 0x6F22, 0x304B]
    ⟨⟨0x304B, by simp, Or.inl (by decide)⟩, by unfold Syllable Neutral; decide⟩
  exact absurd this (by decide)

/-- Full statement: the script of a label does not depend on the order of its characters. -/
def OrderFree (script : Nat → String) : Prop := ∀ l l', l.Perm l' → rzScript script l = rzScript script l'

/-- Han and Hangul: the first character decides. -/
theorem order_wrong : ∃ script, ¬ OrderFree script := by
  refine ⟨script1, fun h => ?_⟩
  have := h [0x6F22, 0xD55C] [0xD55C, 0x6F22] (List.Perm.swap _ _ _)
  exact absurd this (by decide)

/-- The order does not matter for labels of one script. Missing: mixed labels (`order_wrong`). -/
theorem order_free_partial {l l' : Seq} {s : String} (h : Only script s l) (hs : s ≠ "Zyyy" ∧ s ≠ "Zinh")
    (hp : l.Perm l') : rzScript script l = rzScript script l' := by
  have h' : Only script s l' := by
    obtain ⟨⟨x, hx, he⟩, ha⟩ := h
    exact ⟨⟨x, hp.mem_iff.1 hx, he⟩, fun x hx => ha x (hp.mem_iff.2 hx)⟩
  rw [single_script h hs (tag_iff.2 rfl), single_script h' hs (tag_iff.2 rfl)]

end Lgr.Props.C109

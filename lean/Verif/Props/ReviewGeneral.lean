import Verif.ReviewGeneral
import Verif.Props.ReviewLabels
import Verif.Props.Cli
import Mathlib.Data.Finset.Card
import Mathlib.Data.Finset.Dedup
import Mathlib.Order.Interval.Finset.Nat

/-!
# C124: the general rules in the review of IDN tables
-/

namespace Lgr.Props.C124
open Lgr Review Review.General Repertoire
open C83 (Made EndsSeq)

/-! ## When a rule is applicable -/

/-- The table has a code point, on its own, with the property. -/
def Has (t : Source) (p : Nat → Prop) : Prop := ∃ x, t.rep.hasCp [x] = true ∧ p x

theorem has_chars {t : Source} (h : WF t.rep) {p : Nat → Prop} :
    Has t p ↔ ∃ c ∈ t.rep.allChars, ∃ x, c.cp = [x] ∧ p x := by
  constructor
  · rintro ⟨x, hx, hp⟩
    rw [hasCp_iff, Option.isSome_iff_exists] at hx
    obtain ⟨c, hc⟩ := hx
    have hcp := lookup_cp hc
    exact ⟨c, (mem_allChars h c).2 (by rw [hcp]; exact hc), x, hcp, hp⟩
  · rintro ⟨c, hc, x, hcp, hp⟩
    refine ⟨x, ?_, hp⟩
    rw [hasCp_iff, ← hcp, (mem_allChars h c).1 hc]
    rfl

/-- The digits, each on its own, among entries. -/
def digitsOf (db : Db) (cs : List CharObj) : List Nat :=
  cs.filterMap (fun c => match c.cp with | [x] => if db.isDigit x then some x else none | _ => none)

theorem fold_flags (db : Db) (b : Bool) (cs : List CharObj) (f : Flags) :
    ((cs.foldl (flagStep db b) f).digits = f.digits + (digitsOf db cs).length) ∧
    ((cs.foldl (flagStep db b) f).hasDigits = true ↔
      f.hasDigits = true ∨ ∃ c ∈ cs, ∃ x, c.cp = [x] ∧ db.isDigit x = true) ∧
    ((cs.foldl (flagStep db b) f).combining = true ↔
      f.combining = true ∨ ∃ c ∈ cs, ∃ x, c.cp = [x] ∧ db.isCombining x = true) ∧
    ((cs.foldl (flagStep db b) f).rtl = true ↔
      f.rtl = true ∨ (b = true ∧ ∃ c ∈ cs, ∃ x, c.cp = [x] ∧ db.isRtl x = true)) := by
  induction cs generalizing f with
  | nil => simp [digitsOf]
  | cons c cs ih =>
    obtain ⟨h1, h2, h3, h4⟩ := ih (flagStep db b f c)
    rw [List.foldl_cons, h1, h2, h3, h4]
    have key : (flagStep db b f c).digits + (digitsOf db cs).length = f.digits + (digitsOf db (c :: cs)).length ∧
        ((flagStep db b f c).hasDigits = true ↔ f.hasDigits = true ∨ ∃ x, c.cp = [x] ∧ db.isDigit x = true) ∧
        ((flagStep db b f c).combining = true ↔ f.combining = true ∨ ∃ x, c.cp = [x] ∧ db.isCombining x = true) ∧
        ((flagStep db b f c).rtl = true ↔ f.rtl = true ∨ (b = true ∧ ∃ x, c.cp = [x] ∧ db.isRtl x = true)) := by
      unfold flagStep digitsOf
      rcases hc : c.cp with _ | ⟨x, _ | ⟨y, l⟩⟩
      · simp [List.filterMap_cons, hc]
      · rw [List.filterMap_cons]
        simp only [hc]
        cases hd : db.isDigit x <;> cases hm : db.isCombining x <;> cases hr : db.isRtl x <;> cases b <;>
          simp [hd, hm, hr] <;> omega
      · simp [List.filterMap_cons, hc]
    obtain ⟨k1, k2, k3, k4⟩ := key
    refine ⟨k1, ?_, ?_, ?_⟩
    · rw [k2]; simp only [List.mem_cons, exists_eq_or_imp, or_assoc]
    · rw [k3]; simp only [List.mem_cons, exists_eq_or_imp, or_assoc]
    · rw [k4]; simp only [List.mem_cons, exists_eq_or_imp, or_assoc, and_or_left]

theorem digitsOf_nodup {db : Db} {cs : List CharObj} (h : (cs.map CharObj.cp).Nodup) : (digitsOf db cs).Nodup := by
  induction cs with
  | nil => exact List.nodup_nil
  | cons c cs ih =>
    rw [List.map_cons, List.nodup_cons] at h
    have ih := ih h.2
    unfold digitsOf at *
    rw [List.filterMap_cons]
    rcases hc : c.cp with _ | ⟨x, _ | ⟨y, l⟩⟩
    · exact ih
    · simp only
      cases hd : db.isDigit x
      · exact ih
      · simp only [if_true]
        rw [List.nodup_cons]
        refine ⟨fun hm => ?_, ih⟩
        rw [List.mem_filterMap] at hm
        obtain ⟨d, hd1, hd2⟩ := hm
        rcases hdc : d.cp with _ | ⟨z, _ | ⟨w, l⟩⟩
        · simp [hdc] at hd2
        · simp only [hdc] at hd2
          split at hd2
          · simp only [Option.some.injEq] at hd2
            exact h.1 (List.mem_map.2 ⟨d, hd1, by rw [hdc, hc, hd2]⟩)
          · simp at hd2
        · simp [hdc] at hd2
    · exact ih

theorem mem_digitsOf {db : Db} {cs : List CharObj} {x : Nat} :
    x ∈ digitsOf db cs ↔ ∃ c ∈ cs, c.cp = [x] ∧ db.isDigit x = true := by
  unfold digitsOf
  rw [List.mem_filterMap]
  constructor
  · rintro ⟨c, hc, h⟩
    rcases hcp : c.cp with _ | ⟨z, _ | ⟨w, l⟩⟩
    · simp [hcp] at h
    · simp only [hcp] at h
      split at h
      · simp only [Option.some.injEq] at h
        subst h
        exact ⟨c, hc, hcp, by assumption⟩
      · simp at h
    · simp [hcp] at h
  · rintro ⟨c, hc, hcp, hd⟩
    exact ⟨c, hc, by simp [hcp, hd]⟩

theorem digits_finset (db : Db) {t : Source} (h : WF t.rep) (x : Nat) :
    x ∈ (digitsOf db t.rep.allChars).toFinset ↔ t.rep.hasCp [x] = true ∧ db.isDigit x = true := by
  rw [List.mem_toFinset, mem_digitsOf]
  have := has_chars h (t := t) (p := fun y => y = x ∧ db.isDigit x = true)
  constructor
  · rintro ⟨c, hc, hcp, hd⟩
    obtain ⟨y, hy, rfl, hd⟩ := this.2 ⟨c, hc, x, hcp, rfl, hd⟩
    exact ⟨hy, hd⟩
  · rintro ⟨hy, hd⟩
    obtain ⟨c, hc, y, hcp, rfl, hd⟩ := this.1 ⟨x, hy, rfl, hd⟩
    exact ⟨c, hc, hcp, hd⟩

/-- What the flags say of the table. -/
theorem flags_exact (db : Db) {t : Source} (h : WF t.rep) (ref : Option Source) :
    ((flags db t ref).combining = true ↔ Has t (fun x => db.isCombining x = true)) ∧
    ((flags db t ref).hasDigits = true ↔ Has t (fun x => db.isDigit x = true)) ∧
    ((flags db t ref).rtl = true ↔ (∃ s ∈ t.scripts, db.scriptRtl s = true) ∨
      (tagsOf t ref = [] ∧ Has t (fun x => db.isRtl x = true))) ∧
    (∀ s : Finset Nat, (∀ x, x ∈ s ↔ t.rep.hasCp [x] = true ∧ db.isDigit x = true) →
      (flags db t ref).digits = s.card) := by
  obtain ⟨h1, h2, h3, h4⟩ := fold_flags db (decide (tagsOf t ref = [])) t.rep.allChars
    { rtl := t.scripts.any db.scriptRtl }
  unfold flags
  refine ⟨?_, ?_, ?_, fun s hs => ?_⟩
  · rw [h3, has_chars h]; simp
  · rw [h2, has_chars h]; simp
  · rw [h4, has_chars h]; simp
  · rw [h1, ← List.toFinset_card_of_nodup (digitsOf_nodup (allChars_nodup h))]
    have : (digitsOf db t.rep.allChars).toFinset = s := by
      ext x
      rw [digits_finset db h, hs]
    simp [this]

/-- The digits of a table: in the Unicode character database decimal digits come in sets of ten consecutive code
points, `first` being the first code point of the set. -/
def DigitSets (db : Db) (first : Nat → Nat) : Prop := ∀ x, db.isDigit x = true → first x ≤ x ∧ x < first x + 10

/-- The table has digits from two sets. -/
def Mixed (db : Db) (first : Nat → Nat) (t : Source) : Prop :=
  ∃ x y, t.rep.hasCp [x] = true ∧ db.isDigit x = true ∧ t.rep.hasCp [y] = true ∧ db.isDigit y = true ∧
    first x ≠ first y

/-- More than ten digits are from several sets. -/
theorem mixed_of_many {db : Db} {first : Nat → Nat} (hd : DigitSets db first) {t : Source} (h : WF t.rep)
    (ref : Option Source) (hn : (flags db t ref).digits > 10) : Mixed db first t := by
  have hmem := digits_finset db h
  generalize (digitsOf db t.rep.allChars).toFinset = s at hmem
  rw [(flags_exact db h ref).2.2.2 s hmem] at hn
  by_contra hno
  have hne : s.Nonempty := Finset.card_pos.1 (by omega)
  obtain ⟨x, hx⟩ := hne
  have hsub : s ⊆ Finset.Ico (first x) (first x + 10) := by
    intro y hy
    have hx' := (hmem x).1 hx
    have hy' := (hmem y).1 hy
    have : first x = first y := by
      by_contra hne
      exact hno ⟨x, y, hx'.1, hx'.2, hy'.1, hy'.2, hne⟩
    rw [Finset.mem_Ico, this]
    exact hd y hy'.2
  have := Finset.card_le_card hsub
  rw [Nat.card_Ico] at this
  omega

/-! ## The labels -/

/-- The label has a hyphen at an end, or in the third and in the fourth place. -/
def BadHyphens (l : Seq) : Prop :=
  l.head? = some 0x2D ∨ l.getLast? = some 0x2D ∨ (l[2]? = some 0x2D ∧ l[3]? = some 0x2D)

instance (l : Seq) : Decidable (BadHyphens l) := inferInstanceAs (Decidable (_ ∨ _ ∨ _))

/-- First code points of some of the sets of digits of Unicode. -/
def zeros : List Nat := [0x30, 0x660, 0x6F0, 0x966, 0x9E6, 0xAE6, 0xCE6, 0xE50, 0xED0, 0xF20, 0x1040, 0x1090, 0x17E0]

/-- The label begins with a digit. -/
def DigitFirst (l : Seq) : Prop := ∃ z ∈ zeros, ∃ x ∈ l.head?, z ≤ x ∧ x < z + 10

/-- The label has digits from two sets. -/
def MixesDigits (l : Seq) : Prop :=
  ∃ z ∈ zeros, ∃ w ∈ zeros, z ≠ w ∧ (∃ x ∈ l, z ≤ x ∧ x < z + 10) ∧ ∃ x ∈ l, w ≤ x ∧ x < w + 10

/-- The label has a katakana middle dot, and is of ASCII otherwise. -/
def LoneDot (l : Seq) : Prop := 0x30FB ∈ l ∧ ∀ x ∈ l, x = 0x30FB ∨ x < 0x80

/-- Some of the combining marks (general category `Mn` or `Mc`) of Unicode. -/
def marks : List Nat := [0x7A6, 0x948, 0x9C1, 0xA02, 0xABC, 0xB03, 0xBBE, 0xC03, 0xC83, 0xD02, 0xD82, 0xE37, 0xEB4,
  0xF80, 0x1032, 0x17B7]

/-- The label begins with a combining mark. -/
def MarkFirst (l : Seq) : Prop := ∃ x ∈ l.head?, x ∈ marks

instance (l : Seq) : Decidable (DigitFirst l) := inferInstanceAs (Decidable (∃ z ∈ _, _))
instance (l : Seq) : Decidable (MixesDigits l) := inferInstanceAs (Decidable (∃ z ∈ _, _))
instance (l : Seq) : Decidable (LoneDot l) := inferInstanceAs (Decidable (_ ∧ _))
instance (l : Seq) : Decidable (MarkFirst l) := inferInstanceAs (Decidable (∃ z ∈ _, _))

/-- All labels of the tables break the rules that they are for. -/
theorem labels_break :
    (∀ p ∈ combiningMarkLabels, ∀ l ∈ p.2, MarkFirst l) ∧ (∀ p ∈ consecutiveHyphenLabels, ∀ l ∈ p.2, BadHyphens l) ∧
    (∀ p ∈ beginDigitLabels, ∀ l ∈ p.2, DigitFirst l) ∧ (∀ p ∈ multipleDigitSetsLabels, ∀ l ∈ p.2, MixesDigits l) ∧
    (∀ p ∈ japaneseContextjLabels, ∀ l ∈ p.2, LoneDot l) := by
  refine ⟨?_, ?_, ?_, ?_, ?_⟩ <;> decide +kernel

theorem mem_labels {same : List (String × String)} {coll : List (String × List Seq)} {tags : List String} {l : Seq}
    (h : l ∈ getLabels same coll tags) : ∃ p ∈ coll, l ∈ p.2 := by
  unfold getLabels at h
  rw [List.mem_flatMap] at h
  obtain ⟨t, _, h⟩ := h
  cases hd : dget coll ((dget same t).getD t) with
  | none => simp [hd] at h
  | some ls =>
    rw [hd, Option.getD_some] at h
    exact ⟨_, mem_of_dget hd, h⟩

/-- What is said of the label tested for a rule, with what the labels breaking the rule are. -/
inductive Outcome (r : Repertoire) (eligible : Seq → Bool) (Breaks : Seq → Prop) : Option Bool → Prop
  /-- The table has no label, or one which is not made of its code points comes before any which is eligible. -/
  | unknown : Outcome r eligible Breaks none
  /-- A label of the table which breaks the rule is eligible. -/
  | missing (l : Seq) : Breaks l → Made r l → eligible l = true → Outcome r eligible Breaks (some false)
  /-- A label of the table which breaks the rule is not eligible. -/
  | present (l : Seq) : Breaks l → Made r l → eligible l = false → Outcome r eligible Breaks (some true)

theorem outcome_of_says {r : Repertoire} {eligible : Seq → Bool} {Breaks : Seq → Prop} {labels : List Seq}
    (hb : ∀ l ∈ labels, Breaks l) {o : Option Bool} (h : C83.Says r eligible labels o) :
    Outcome r eligible Breaks o := by
  cases o with
  | none => exact .unknown
  | some b =>
    cases b with
    | true =>
      obtain ⟨hne, h⟩ := h
      obtain ⟨l, ls, rfl⟩ := List.exists_cons_of_ne_nil hne
      obtain ⟨h1, h2⟩ := h l (by simp)
      exact .present l (hb l (by simp)) h1 h2
    | false =>
      obtain ⟨pre, l, post, rfl, h1, h2, _⟩ := h
      exact .missing l (hb l (by simp)) h1 h2

/-- All labels of the tables. -/
def tested : List (String × List Seq) :=
  combiningMarkLabels ++ consecutiveHyphenLabels ++ beginDigitLabels ++ multipleDigitSetsLabels ++ japaneseContextjLabels

theorem tested_ne : ∀ p ∈ tested, ∀ l ∈ p.2, l ≠ [] := by decide +kernel

/-- The labels for the languages and scripts of the table, or of the reference LGR. -/
def labelsFor (coll : List (String × List Seq)) (t : Source) (ref : Option Source) : List Seq :=
  getLabels sameScripts coll (tagsOf t ref)

/-! ## Languages and scripts -/

/-- The language or script of a tag of the LGR. -/
def Tagged (t : Source) (s : String) : Prop := some s ∈ t.langs ∨ s ∈ t.scripts

theorem mem_own {t : Source} {s : String} : s ∈ languageTags t ↔ Tagged t s := by
  simp [languageTags, Tagged]

/-- The languages and scripts are those of the table or, if it has none, those of the reference LGR. -/
theorem tags_exact (t : Source) (ref : Option Source) (s : String) :
    s ∈ tagsOf t ref ↔ Tagged t s ∨ ((∀ u, ¬ Tagged t u) ∧ ∃ r, ref = some r ∧ Tagged r s) := by
  unfold tagsOf
  by_cases h : languageTags t = []
  · have hn : ∀ u, ¬ Tagged t u := fun u hu => by
      rw [← mem_own, h] at hu; simp at hu
    rw [if_pos h]
    cases ref with
    | none => simp [hn]
    | some r => simp [hn, mem_own]
  · rw [if_neg h, mem_own]
    obtain ⟨u, hu⟩ := List.exists_mem_of_ne_nil _ h
    have : ¬ ∀ u, ¬ Tagged t u := fun hn => hn u (mem_own.1 hu)
    simp [this]

/-- The labels tried are those of the languages and scripts, once some of them are replaced. -/
theorem labels_exact {coll : List (String × List Seq)} (hc : coll ∈ [combiningMarkLabels, consecutiveHyphenLabels,
      beginDigitLabels, multipleDigitSetsLabels, japaneseContextjLabels]) (t : Source) (ref : Option Source) (l : Seq) :
    l ∈ labelsFor coll t ref ↔ ∃ s ∈ tagsOf t ref, ∃ k ls, (k, ls) ∈ coll ∧ l ∈ ls ∧
      ((s, k) ∈ sameScripts ∨ (k = s ∧ ∀ u, (s, u) ∉ sameScripts)) := by
  have hk : (coll.map Prod.fst).Nodup := by
    have : ∀ coll ∈ [combiningMarkLabels, consecutiveHyphenLabels, beginDigitLabels, multipleDigitSetsLabels,
      japaneseContextjLabels], (coll.map Prod.fst).Nodup := by decide +kernel
    exact this coll hc
  have hs : (sameScripts.map Prod.fst).Nodup := by decide +kernel
  unfold labelsFor getLabels
  rw [List.mem_flatMap]
  constructor
  · rintro ⟨s, hs', hl⟩
    refine ⟨s, hs', (dget sameScripts s).getD s, ?_⟩
    cases hd : dget coll ((dget sameScripts s).getD s) with
    | none => simp [hd] at hl
    | some ls =>
      refine ⟨ls, mem_of_dget hd, by simpa [hd] using hl, ?_⟩
      cases hx : dget sameScripts s with
      | none =>
        refine Or.inr ⟨rfl, fun u hu => ?_⟩
        rw [dget_of_mem hs hu] at hx
        cases hx
      | some k => exact Or.inl (mem_of_dget hx)
  · rintro ⟨s, hs', k, ls, hm, hl, hkk⟩
    refine ⟨s, hs', ?_⟩
    have : (dget sameScripts s).getD s = k := by
      rcases hkk with h | ⟨rfl, h⟩
      · rw [dget_of_mem hs h]; rfl
      · cases hx : dget sameScripts k with
        | none => rfl
        | some u => exact absurd (mem_of_dget hx) (h u)
    rw [this, dget_of_mem hk hm]
    exact hl

theorem one_ok {db : Db} {t : Source} (h : WF t.rep) {ref : Option Source} (eligible : Seq → Bool)
    (cond : Flags → Bool) {coll : List (String × List Seq)} {Breaks : Seq → Prop}
    (hb : ∀ p ∈ coll, ∀ l ∈ p.2, Breaks l) (hl : ∀ p ∈ coll, ∀ l ∈ p.2, l ≠ [] ∧ ¬ EndsSeq t.rep l) :
    ∃ o, one db t ref (fun s => .ok (eligible s)) cond coll = .ok (cond (flags db t ref), o) ∧
      (cond (flags db t ref) = false → o = none) ∧
      (cond (flags db t ref) = true → C83.Says t.rep eligible (labelsFor coll t ref) o ∧
        Outcome t.rep eligible Breaks o) := by
  obtain ⟨o, h1, h2, h3⟩ := C83.report_partial h eligible (cond (flags db t ref)) (labelsFor coll t ref)
    (fun l hm => by obtain ⟨p, hp, hlp⟩ := mem_labels hm; exact hl p hp l hlp)
  refine ⟨o, h1, h2, fun hc => ?_⟩
  have hs := (h3 hc o).1 rfl
  exact ⟨hs, outcome_of_says (fun l hm => by obtain ⟨p, hp, hlp⟩ := mem_labels hm; exact hb p hp l hlp) hs⟩

theorem general_ok {db : Db} {t : Source} {ref : Option Source} {eligible : Seq → Except Err Bool}
    {a b c d e : Bool × Option Bool}
    (h1 : one db t ref eligible (fun f => f.combining) combiningMarkLabels = .ok a)
    (h2 : one db t ref eligible (fun _ => t.rep.hasCp [0x2D]) consecutiveHyphenLabels = .ok b)
    (h3 : one db t ref eligible (fun f => f.rtl && f.hasDigits) beginDigitLabels = .ok c)
    (h4 : one db t ref eligible (fun f => decide (f.digits > 10)) multipleDigitSetsLabels = .ok d)
    (h5 : one db t ref eligible (fun _ => t.rep.hasCp [0x30FB]) japaneseContextjLabels = .ok e) :
    general db t ref eligible = .ok ⟨a, b, c, d, e⟩ := by
  unfold general
  rw [h1]; simp only
  rw [h2]; simp only
  rw [h3]; simp only
  rw [h4]; simp only
  rw [h5]

/-- What is reported on a rule. -/
def Reported (t : Source) (ref : Option Source) (eligible : Seq → Bool) (cond : Prop) (coll : List (String × List Seq))
    (Breaks : Seq → Prop) (o : Bool × Option Bool) : Prop :=
  (o.1 = true ↔ cond) ∧ (¬ cond → o.2 = none) ∧
    (cond → C83.Says t.rep eligible (labelsFor coll t ref) o.2 ∧ Outcome t.rep eligible Breaks o.2)

theorem reported_of {db : Db} {t : Source} {ref : Option Source} {eligible : Seq → Bool} {c : Bool} {cond : Prop}
    {coll : List (String × List Seq)} {Breaks : Seq → Prop} {o : Option Bool} (hc : c = true ↔ cond)
    (h1 : c = false → o = none)
    (h2 : c = true → C83.Says t.rep eligible (labelsFor coll t ref) o ∧ Outcome t.rep eligible Breaks o) :
    Reported t ref eligible cond coll Breaks (c, o) := by
  refine ⟨hc, fun hn => h1 ?_, fun h => h2 (hc.2 h)⟩
  cases c with
  | false => rfl
  | true => exact absurd (hc.1 rfl) hn

/-- **C124** but for the conditions on right-to-left tables and sets of digits, and for tables of which an entry is
a sequence ending one of the labels: a rule is applicable if the table has what it is about; it is missing only if a
label of code points of the table that breaks it is eligible, and present only if one is not. -/
theorem report_partial (db : Db) {t : Source} (h : WF t.rep) (ref : Option Source) (eligible : Seq → Bool)
    (hl : ∀ p ∈ tested, ∀ l ∈ p.2, ¬ EndsSeq t.rep l) :
    ∃ rp, general db t ref (fun s => .ok (eligible s)) = .ok rp ∧
      Reported t ref eligible (Has t (fun x => db.isCombining x = true)) combiningMarkLabels MarkFirst
        rp.combiningMark ∧
      Reported t ref eligible (Has t (fun x => x = 0x2D)) consecutiveHyphenLabels BadHyphens rp.consecutiveHyphens ∧
      Reported t ref eligible (((∃ s ∈ t.scripts, db.scriptRtl s = true) ∨
          (tagsOf t ref = [] ∧ Has t (fun x => db.isRtl x = true))) ∧ Has t (fun x => db.isDigit x = true))
        beginDigitLabels DigitFirst rp.rtl ∧
      Reported t ref eligible (∃ s : Finset Nat, 10 < s.card ∧ ∀ x ∈ s, t.rep.hasCp [x] = true ∧ db.isDigit x = true)
        multipleDigitSetsLabels MixesDigits rp.digitsSet ∧
      Reported t ref eligible (Has t (fun x => x = 0x30FB)) japaneseContextjLabels LoneDot rp.japaneseContextj := by
  obtain ⟨b1, b2, b3, b4, b5⟩ := labels_break
  have m1 : ∀ p ∈ combiningMarkLabels, p ∈ tested := fun p hp =>
    List.mem_append_left _ (List.mem_append_left _ (List.mem_append_left _ (List.mem_append_left _ hp)))
  have m2 : ∀ p ∈ consecutiveHyphenLabels, p ∈ tested := fun p hp =>
    List.mem_append_left _ (List.mem_append_left _ (List.mem_append_left _ (List.mem_append_right _ hp)))
  have m3 : ∀ p ∈ beginDigitLabels, p ∈ tested := fun p hp =>
    List.mem_append_left _ (List.mem_append_left _ (List.mem_append_right _ hp))
  have m4 : ∀ p ∈ multipleDigitSetsLabels, p ∈ tested := fun p hp =>
    List.mem_append_left _ (List.mem_append_right _ hp)
  have m5 : ∀ p ∈ japaneseContextjLabels, p ∈ tested := fun p hp => List.mem_append_right _ hp
  have hh : ∀ coll : List (String × List Seq), (∀ p ∈ coll, p ∈ tested) → ∀ p ∈ coll, ∀ l ∈ p.2, l ≠ [] ∧ ¬ EndsSeq t.rep l :=
    fun coll hc p hp l hm => ⟨tested_ne p (hc p hp) l hm, hl p (hc p hp) l hm⟩
  obtain ⟨f1, f2, f3, f4⟩ := flags_exact db h ref
  obtain ⟨o1, e1, n1, s1⟩ := one_ok (db := db) h (ref := ref) eligible (fun f => f.combining) b1
    (hh _ m1)
  obtain ⟨o2, e2, n2, s2⟩ := one_ok (db := db) h (ref := ref) eligible (fun _ => t.rep.hasCp [0x2D]) b2
    (hh _ m2)
  obtain ⟨o3, e3, n3, s3⟩ := one_ok (db := db) h (ref := ref) eligible (fun f => f.rtl && f.hasDigits) b3
    (hh _ m3)
  obtain ⟨o4, e4, n4, s4⟩ := one_ok (db := db) h (ref := ref) eligible (fun f => decide (f.digits > 10)) b4
    (hh _ m4)
  obtain ⟨o5, e5, n5, s5⟩ := one_ok (db := db) h (ref := ref) eligible (fun _ => t.rep.hasCp [0x30FB]) b5
    (hh _ m5)
  have hx : ∀ y, t.rep.hasCp [y] = true ↔ Has t (fun x => x = y) :=
    fun y => ⟨fun h => ⟨y, h, rfl⟩, by rintro ⟨_, h, rfl⟩; exact h⟩
  refine ⟨⟨_, _, _, _, _⟩, general_ok e1 e2 e3 e4 e5, reported_of (db := db) f1 n1 s1, reported_of (db := db) (hx _) n2 s2,
    reported_of (db := db) ?_ n3 s3, reported_of (db := db) ?_ n4 s4, reported_of (db := db) (hx _) n5 s5⟩
  · simp only [Bool.and_eq_true]; rw [f3, f2]
  · have hmem := digits_finset db h
    rw [decide_eq_true_iff, f4 _ hmem]
    constructor
    · intro hc; exact ⟨_, hc, fun x hx => (hmem x).1 hx⟩
    · rintro ⟨s, hs, hsx⟩
      exact lt_of_lt_of_le hs (Finset.card_le_card (fun x hx => (hmem x).2 (hsx x hx)))

/-- With more than ten digits the table has digits of several sets. -/
theorem digits_sound (db : Db) {first : Nat → Nat} (hd : DigitSets db first) {t : Source} (h : WF t.rep)
    (ref : Option Source) {eligible : Seq → Except Err Bool} {rp : Report} (hr : general db t ref eligible = .ok rp)
    (ha : rp.digitsSet.1 = true) : Mixed db first t := by
  apply mixed_of_many hd h ref
  unfold general at hr
  split at hr
  · cases hr
  · split at hr
    · cases hr
    · split at hr
      · cases hr
      · split at hr
        · cases hr
        · rename_i d hd'
          split at hr
          · cases hr
          · cases hr
            unfold one makeReport at hd'
            split at hd'
            · rename_i hc; exact of_decide_eq_true hc
            · cases hd'; cases ha

/-! ## Violations -/

theorem made_cover {r : Repertoire} {s : Seq} (h : Made r s) : ∀ x ∈ s, ∃ k, r.hasCp k = true ∧ x ∈ k := by
  induction h with
  | last h => exact fun x hx => ⟨_, h, hx⟩
  | step h _ ih =>
    intro x hx
    rcases List.mem_append.1 hx with hx | hx
    · exact ⟨_, h, hx⟩
    · exact ih x hx

/-- If no entry has some code point of the first label, nothing is said. -/
theorem first_unknown {db : Db} {t : Source} (h : WF t.rep) {ref : Option Source}
    {eligible : Seq → Except Err Bool} {cond : Flags → Bool} {coll : List (String × List Seq)} {l : Seq} {ls : List Seq}
    (hl : labelsFor coll t ref = l :: ls) {x : Nat} (hx : x ∈ l) (hno : ∀ k, t.rep.hasCp k = true → x ∉ k) :
    one db t ref eligible cond coll = .ok (cond (flags db t ref), none) := by
  have hm : ¬ Made t.rep l := fun hm => by
    obtain ⟨k, h1, h2⟩ := made_cover hm x hx
    exact hno k h1 h2
  have hc : checkLabelCps t.rep l = .ok false :=
    (C83.check_exact h l).2.2.2 ⟨List.ne_nil_of_mem hx, hm, fun he => hm (C83.made_of_ends he)⟩
  unfold one
  rw [show getLabels sameScripts coll (tagsOf t ref) = l :: ls from hl]
  unfold makeReport reportLoop
  rw [hc]
  cases cond (flags db t ref) <;> rfl

/-- **C124** is violated: tables for Georgian (`ka`) are tested with labels in the Kannada script, so that whether
labels can have hyphens at their ends is never known. -/
theorem georgian_wrong {db : Db} {t : Source} (h : WF t.rep) {ref : Option Source} {tags : List String}
    (ht : tagsOf t ref = "ka" :: tags) (hno : ∀ k, t.rep.hasCp k = true → 0x0C95 ∉ k)
    {eligible : Seq → Except Err Bool} {rp : Report} (hr : general db t ref eligible = .ok rp) :
    rp.consecutiveHyphens.2 = none := by
  have hl : labelsFor consecutiveHyphenLabels t ref = [0x002D, 0x0C95, 0x0C95] ::
      ([[0x0C95, 0x0C95, 0x002D], [0x0C95, 0x0C95, 0x002D, 0x002D, 0x0C95, 0x0C95]] ++
        getLabels sameScripts consecutiveHyphenLabels tags) := by
    unfold labelsFor
    rw [ht]
    unfold getLabels
    rw [List.flatMap_cons]
    rfl
  have h1 := first_unknown (db := db) h (eligible := eligible) (cond := fun _ => t.rep.hasCp [0x2D]) hl
    (x := 0x0C95) (by simp) hno
  unfold general at hr
  split at hr
  · cases hr
  · rw [h1] at hr
    simp only at hr
    repeat' (split at hr)
    all_goals first | cases hr; done | (cases hr; rfl)

/-- **C124** is violated: for a table in the Arabic script without the ASCII digit 2, it is not known whether labels
can begin with a digit, nor whether Arabic and extended Arabic digits can be mixed. -/
theorem arabic_wrong {db : Db} {t : Source} (h : WF t.rep) {ref : Option Source} {tags : List String}
    (ht : tagsOf t ref = "ar" :: "Arab" :: tags ∨ tagsOf t ref = "Arab" :: tags)
    (hno : ∀ k, t.rep.hasCp k = true → 0x32 ∉ k) {eligible : Seq → Except Err Bool} {rp : Report}
    (hr : general db t ref eligible = .ok rp) : rp.rtl.2 = none ∧ rp.digitsSet.2 = none := by
  have hl1 : labelsFor beginDigitLabels t ref = [0x0032, 0x062A, 0x062A] ::
      ([[0x0660, 0x062A, 0x062A], [0x06F5, 0x062A, 0x062A]] ++ getLabels sameScripts beginDigitLabels tags) := by
    unfold labelsFor
    rcases ht with ht | ht <;> rw [ht] <;> unfold getLabels <;> rw [List.flatMap_cons] <;> rfl
  have hl2 : labelsFor multipleDigitSetsLabels t ref = [0x062A, 0x062A, 0x0032, 0x0662] ::
      ([[0x062A, 0x062A, 0x0032, 0x06F5], [0x062A, 0x062A, 0x0662, 0x06F5]] ++
        getLabels sameScripts multipleDigitSetsLabels tags) := by
    unfold labelsFor
    rcases ht with ht | ht <;> rw [ht] <;> unfold getLabels <;> rw [List.flatMap_cons] <;> rfl
  have h1 := first_unknown (db := db) h (eligible := eligible) (cond := fun f => f.rtl && f.hasDigits) hl1
    (x := 0x32) (by simp) hno
  have h2 := first_unknown (db := db) h (eligible := eligible) (cond := fun f => decide (f.digits > 10)) hl2
    (x := 0x32) (by simp) hno
  unfold general at hr
  split at hr
  · cases hr
  · split at hr
    · cases hr
    · rw [h1] at hr
      simp only at hr
      rw [h2] at hr
      simp only at hr
      split at hr
      · cases hr
      · cases hr; exact ⟨rfl, rfl⟩

/-- **C124** is violated: tables in the scripts Hani or Hang without the tag of a language have no labels, so that
nothing is known. -/
theorem han_wrong {db : Db} {t : Source} {ref : Option Source}
    (ht : tagsOf t ref = ["Hani"] ∨ tagsOf t ref = ["Hang"]) {eligible : Seq → Except Err Bool} :
    ∃ rp, general db t ref eligible = .ok rp ∧ rp.consecutiveHyphens = (t.rep.hasCp [0x2D], none) := by
  have hh : ∀ coll ∈ [combiningMarkLabels, consecutiveHyphenLabels, beginDigitLabels, multipleDigitSetsLabels,
      japaneseContextjLabels], getLabels sameScripts coll (tagsOf t ref) = [] := by
    rcases ht with ht | ht <;> rw [ht] <;> decide +kernel
  have h1 : ∀ coll ∈ [combiningMarkLabels, consecutiveHyphenLabels, beginDigitLabels, multipleDigitSetsLabels,
      japaneseContextjLabels], ∀ cond, one db t ref eligible cond coll = .ok (cond (flags db t ref), none) := by
    intro coll hc cond
    unfold one
    rw [hh coll hc]
    unfold makeReport reportLoop
    cases cond (flags db t ref) <;> rfl
  exact ⟨_, general_ok (h1 _ (by simp) _) (h1 _ (by simp) _) (h1 _ (by simp) _) (h1 _ (by simp) _)
    (h1 _ (by simp) _), rfl⟩

/-- A database with some digits and code points. -/
def db1 : Db where
  isDigit x := decide (0x30 ≤ x ∧ x < 0x3A) || decide (0x660 ≤ x ∧ x < 0x66A)
  isCombining x := decide (x = 0x948)
  isRtl x := decide (0x600 ≤ x ∧ x < 0x700)
  scriptRtl s := decide (s = "Arab")

/-- A table with code points, under tags. -/
def table (cps : List Nat) (langs : List (Option String)) (scripts : List String) : Source :=
  ⟨Repertoire.run {} (cps.map fun x => .addChar [x] {}), langs, scripts⟩

theorem table_wf (cps : List Nat) (langs : List (Option String)) (scripts : List String) :
    WF (table cps langs scripts).rep := C01.wf_run _

/-- **C124** is violated: a table with two digits from two sets. -/
theorem digits_wrong : ∃ (db : Db) (first : Nat → Nat) (t : Source), DigitSets db first ∧ WF t.rep ∧
    Mixed db first t ∧ ∀ ref eligible rp, general db t ref eligible = .ok rp → rp.digitsSet.1 = false := by
  refine ⟨db1, fun x => if x < 0x3A then 0x30 else 0x660, table [0x30, 0x660] [] [], ?_, table_wf _ _ _, ?_, ?_⟩
  · intro x hx
    simp only [db1, Bool.or_eq_true, decide_eq_true_eq] at hx
    by_cases h : x < 0x3A
    · simp only [if_pos h]; omega
    · simp only [if_neg h]; omega
  · exact ⟨0x30, 0x660, by decide +kernel, by decide +kernel, by decide +kernel, by decide +kernel, by decide +kernel⟩
  · intro ref eligible rp hr
    have hf := (flags_exact db1 (table_wf [0x30, 0x660] [] []) ref).2.2.2 {0x30, 0x660} (fun x => by
      have := (digits_finset db1 (table_wf [0x30, 0x660] [] []) x)
      rw [show (digitsOf db1 (table [0x30, 0x660] [] []).rep.allChars).toFinset = {0x30, 0x660} by decide +kernel]
        at this
      exact this)
    by_contra hne
    have h1 : rp.digitsSet.1 = true := by simpa using hne
    unfold general at hr
    split at hr
    · cases hr
    · split at hr
      · cases hr
      · split at hr
        · cases hr
        · rw [show one db1 (table [0x30, 0x660] [] []) ref eligible (fun f => decide (f.digits > 10))
            multipleDigitSetsLabels = .ok (false, none) by
            unfold one; beta_reduce; rw [hf]; rfl] at hr
          simp only at hr
          split at hr
          · cases hr
          · cases hr; cases h1

/-- **C124** is violated: right-to-left code points are not looked at in a table with the tag of a language (or
whose reference LGR has one) which gives no right-to-left script. -/
theorem rtl_wrong {db : Db} {t : Source} (h : WF t.rep) {ref : Option Source} (ht : tagsOf t ref ≠ [])
    (hs : ∀ s ∈ t.scripts, db.scriptRtl s = false) {eligible : Seq → Except Err Bool} {rp : Report}
    (hr : general db t ref eligible = .ok rp) : rp.rtl = (false, none) := by
  have hf : (flags db t ref).rtl = false := by
    by_contra hne
    rcases (flags_exact db h ref).2.2.1.1 (by simpa using hne) with ⟨s, h1, h2⟩ | ⟨h1, _⟩
    · rw [hs s h1] at h2; cases h2
    · exact ht h1
  unfold general at hr
  split at hr
  · cases hr
  · split at hr
    · cases hr
    · rw [show one db t ref eligible (fun f => f.rtl && f.hasDigits) beginDigitLabels = .ok (false, none) by
        unfold one; beta_reduce; rw [hf]; rfl] at hr
      simp only at hr
      repeat' (split at hr)
      all_goals first | cases hr; done | (cases hr; rfl)

/-- Such a table: Central Kurdish, of which the registry gives no script, with right-to-left letters and digits. -/
example : let t := table [0x62A, 0x660, 0x661] [some "ckb"] []
    WF t.rep ∧ tagsOf t none ≠ [] ∧ (∀ s ∈ t.scripts, db1.scriptRtl s = false) ∧
    Has t (fun x => db1.isRtl x = true) ∧ Has t (fun x => db1.isDigit x = true) :=
  ⟨table_wf _ _ _, by decide +kernel, by simp [table], ⟨0x62A, by decide +kernel, by decide +kernel⟩,
    ⟨0x660, by decide +kernel, by decide +kernel⟩⟩

/-- The eligibility of labels in an LGR without rules and actions. -/
def eligible1 (r : Repertoire) (s : Seq) : Except Err Bool := (C120.env1.testEligible r [] s).map (·.ok)

/-- A table with a hyphen, `a`, and `m` which is not to be used. -/
def rep1 : Repertoire := Repertoire.run {} [.addChar [0x2D] {}, .addChar [0x61] {}, .addChar [0x6D] {},
  .addVariant [0x6D] { cp := [0x6D], type := some "invalid" }]

/-- **C124** is violated: the rule is said to be there since labels which are not eligible for another reason were
tested, although labels that break it are eligible. -/
theorem present_wrong : ∃ (t : Source) (rp : Report) (l : Seq), WF t.rep ∧
    general db1 t none (eligible1 t.rep) = .ok rp ∧ rp.consecutiveHyphens = (true, some true) ∧ BadHyphens l ∧
    eligible1 t.rep l = .ok true :=
  ⟨⟨rep1, [], ["Latn"]⟩, ⟨(false, none), (true, some true), (false, none), (false, none), (false, none)⟩,
    [0x2D, 0x61, 0x61], C01.wf_run _, by decide +kernel, rfl, by decide +kernel, by decide +kernel⟩

/-- The hypotheses of `report_partial` on a table with a mark, a hyphen and eleven digits. -/
example : general db1 (table (0x2D :: 0x62A :: 0x948 :: 0x660 :: 0x662 :: [0x30, 0x31, 0x32, 0x33, 0x34, 0x35, 0x36, 0x37, 0x38])
      [some "ar"] ["Arab"]) none (fun s => .ok (decide (s.head? ≠ some 0x2D))) =
    .ok ⟨(true, none), (true, some false), (true, some false), (true, some false), (false, none)⟩ := by decide +kernel

theorem no_ends {r : Repertoire} (h : ∀ k, r.hasCp k = true → k.length = 1) (s : Seq) : ¬ EndsSeq r s := by
  intro he
  induction he with
  | last h1 h2 => have := h _ h1; omega
  | step _ _ ih => exact ih

/-- The entries of a repertoire satisfy what is checked of each. -/
theorem entries {r : Repertoire} (h : WF r) {p : Seq → Bool} (ha : r.allChars.all (fun c => p c.cp) = true) (k : Seq)
    (hk : r.hasCp k = true) : p k = true := by
  rw [hasCp_iff, Option.isSome_iff_exists] at hk
  obtain ⟨c, hc⟩ := hk
  have hcp := lookup_cp hc
  have := List.all_eq_true.1 ha c ((mem_allChars h c).2 (by rw [hcp]; exact hc))
  rwa [hcp] at this

/-- A table with the hypotheses of `report_partial`, on which the rule on hyphens is missing. -/
example : ∃ rp, general db1 (table [0x2D, 0x6D] [] ["Latn"]) none (fun _ => .ok true) = .ok rp ∧
    rp.consecutiveHyphens.2 = some false ∧
    ∀ p ∈ tested, ∀ l ∈ p.2, ¬ EndsSeq (table [0x2D, 0x6D] [] ["Latn"]).rep l :=
  ⟨⟨(false, none), (true, some false), (false, none), (false, none), (false, none)⟩, by decide +kernel, rfl,
    fun _ _ l _ => no_ends (fun k hk => by
      simpa using entries (table_wf _ _ _) (p := fun k => decide (k.length = 1)) (by decide +kernel) k hk) l⟩

/-- Tables with the hypotheses of `georgian_wrong` and `arabic_wrong`; all labels of the first one are eligible, and
the second one has two sets of digits. -/
example : (∀ k, (table [0x2D, 0x10D1] [some "ka"] ["Geor"]).rep.hasCp k = true → 0x0C95 ∉ k) ∧
    general db1 (table [0x2D, 0x10D1] [some "ka"] ["Geor"]) none (fun _ => .ok true) =
      .ok ⟨(false, none), (true, none), (false, none), (false, none), (false, none)⟩ ∧
    (∀ k, (table [0x62A, 0x662, 0x6F5] [some "ar"] ["Arab"]).rep.hasCp k = true → 0x32 ∉ k) ∧
    general db1 (table [0x62A, 0x662, 0x6F5] [some "ar"] ["Arab"]) none (fun _ => .ok true) =
      .ok ⟨(false, none), (false, none), (true, none), (false, none), (false, none)⟩ :=
  ⟨fun k hk => by simpa using entries (table_wf _ _ _) (p := fun k => decide (0x0C95 ∉ k)) (by decide +kernel) k hk,
    by decide +kernel,
    fun k hk => by simpa using entries (table_wf _ _ _) (p := fun k => decide (0x32 ∉ k)) (by decide +kernel) k hk,
    by decide +kernel⟩

end Lgr.Props.C124

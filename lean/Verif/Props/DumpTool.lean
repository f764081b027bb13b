import Mathlib.Data.List.TakeWhile
import Verif.DumpTool
import Verif.Props.Tables
import Verif.Props.Tables3743
import Verif.Props.DocXmlWrong
import Verif.Props.PopulateXml

/-!
# C142: the tools which print tables as documents
-/

namespace Lgr.Props.C142
open Lgr LGR Repertoire Text Tables Xml MetaXml DocXml DumpTool C50 C104 TableItems TableSyntax

/-! ## What is asked -/

/-- White space. -/
def Blank (s : List Char) : Prop := ∀ c ∈ s, isSpace c = true

/-- The text does not start with white space. -/
def Sharp (s : List Char) : Prop := ∀ c, s.head? = some c → isSpace c = false

/-- The text starts a comment, after a number sign and white space, or is none. -/
def Note (s : List Char) (k : Option String) : Prop :=
  s.head? ≠ some '#' ∧ k = none ∨ ∃ sp t, s = '#' :: (sp ++ t) ∧ Blank sp ∧ Sharp t ∧ k = some (String.ofList t)

/-- A line of a reference: the word, the identifier, the value up to the number sign. The value is a white space if nothing else is
left for it. -/
def RefLine (digit : Char → Bool) (l : List Char) (v i : String) (k : Option String) : Prop :=
  ∃ s1 c s2 w t, l = "Reference".toList ++ (s1 ++ c :: (s2 ++ (w ++ t))) ∧ Blank s1 ∧ s1 ≠ [] ∧ digit c = true ∧ Blank s2 ∧ s2 ≠ [] ∧
    w ≠ [] ∧ '#' ∉ w ∧ (Sharp w ∨ w.length = 1) ∧ (t = [] ∨ t.head? = some '#') ∧ Note t k ∧ v = String.ofList w ∧ i = String.ofList [c]

/-- A line of a version: the word, the number, eight digits. -/
def VerLine (digit : Char → Bool) (l : List Char) (n d : String) (k : Option String) : Prop :=
  ∃ s1 c s2 w s3 t, l = "Version".toList ++ (s1 ++ c :: (s2 ++ (w ++ (s3 ++ t)))) ∧ Blank s1 ∧ s1 ≠ [] ∧ digit c = true ∧ Blank s2 ∧
    s2 ≠ [] ∧ w.length = 8 ∧ (∀ a ∈ w, digit a = true) ∧ Blank s3 ∧ Sharp t ∧ Note t k ∧ n = String.ofList [c] ∧ d = String.ofList w

/-- The line gives the version. -/
def IsVer (digit : Char → Bool) (line : List Char) (n d : String) (k : Option String) : Prop :=
  ∃ l, Trimmed line l ∧ VerLine digit l n d k

/-- What the lines of a table mean, one after the other (C73, C74, C75). -/
def Meant (digit : Char → Bool) (k : Table) (lines : List (List Char)) (items : List Item) : Prop :=
  ∃ itss, items = itss.flatten ∧ match k with
    | .lines => List.Forall₂ C75.Means lines itss
    | .rfc4290 => List.Forall₂ C73.Means lines itss
    | .rfc3743 => List.Forall₂ (C74.Means (rex digit)) lines itss

/-- The last version that the lines give, if there is one, in a table of RFC 3743. -/
def Version (digit : Char → Bool) (k : Table) (lines : List (List Char)) (m : Meta) : Prop :=
  (∃ pre line post n d c, k = .rfc3743 ∧ lines = pre ++ line :: post ∧ IsVer digit line n d c ∧
      (∀ l ∈ post, ¬ ∃ n d c, IsVer digit l n d c) ∧ m = { version := some ⟨some n, c⟩, date := some d }) ∨
    (k = .rfc3743 → ∀ l ∈ lines, ¬ ∃ n d c, IsVer digit l n d c) ∧ m = {}

/-- Nothing is forced when one code point is given per line. -/
def forced : Table → Bool
  | .lines => false
  | _ => true

/-- The document was read into what the table says: the version is the one of `m`, the entries are those of the items, and there are no rules. -/
structure Tells (k : Table) (items : List Item) (m : Meta) (g : Loaded) : Prop where
  md : ∃ rs, g.md = { m with refs := rs }
  refs : ∀ i, dget g.md.refs i = (dget g.lgr.refs.refs i).map (fun r => ⟨some r.value, r.comment⟩)
  content : Says (fun i => refIdOk i.toList) (forced k) items g.lgr
  rules : g.rules.rs.lk.rules = [] ∧ g.rules.actions = [] ∧ g.rules.clsNames = [] ∧ g.rules.ruleNames = []
  classes : ∀ n, dget g.rules.rs.lk.classes n = none

/-- What is assumed of `\d`: it matches the digits, but no white space, hyphen or number sign. -/
structure Digit (digit : Char → Bool) : Prop where
  space : ∀ c, digit c = true → isSpace c = false
  hyphen : digit '-' = false
  hash : digit '#' = false

/-! ## Lines -/

theorem span_blank (s : List Char) : ∃ sp t, s = sp ++ t ∧ Blank sp ∧ Sharp t ∧ sp = s.takeWhile isSpace ∧ t = s.dropWhile isSpace := by
  refine ⟨s.takeWhile isSpace, s.dropWhile isSpace, (List.takeWhile_append_dropWhile).symm, fun c hc => List.mem_takeWhile_imp hc, ?_, rfl, rfl⟩
  intro c hc
  have := List.head?_dropWhile_not isSpace s
  rw [hc] at this
  exact this

theorem drop_blank {sp t : List Char} (h : Blank sp) (ht : Sharp t) : (sp ++ t).dropWhile isSpace = t := by
  rw [List.dropWhile_append_of_pos h]
  cases t with
  | nil => rfl
  | cons c t => rw [List.dropWhile_cons_of_neg]; rw [ht c rfl]; simp

theorem take_blank {sp t : List Char} (h : Blank sp) (ht : Sharp t) : (sp ++ t).takeWhile isSpace = sp := by
  rw [List.takeWhile_append_of_pos h]
  cases t with
  | nil => simp
  | cons c t => rw [List.takeWhile_cons_of_neg]; · simp
                · rw [ht c rfl]; simp

theorem someSpaces_iff {s t : List Char} : someSpaces s = some t ↔ ∃ sp, s = sp ++ t ∧ Blank sp ∧ sp ≠ [] ∧ Sharp t := by
  constructor
  · intro h
    cases s with
    | nil => cases h
    | cons c s =>
      rw [someSpaces.eq_2] at h
      split at h
      · rename_i hc
        cases h
        obtain ⟨sp, t, h1, h2, h3, -, h5⟩ := span_blank s
        refine ⟨c :: sp, ?_, ?_, by simp, ?_⟩
        · rw [← h5, List.cons_append, ← h1]
        · intro a ha
          rcases List.mem_cons.1 ha with rfl | ha
          · exact hc
          · exact h2 a ha
        · rw [← h5]; exact h3
      · cases h
  · rintro ⟨sp, rfl, h1, h2, h3⟩
    cases sp with
    | nil => exact absurd rfl h2
    | cons c sp =>
      unfold someSpaces
      rw [List.cons_append]
      dsimp only
      rw [if_pos (h1 c (by simp)), drop_blank (fun a ha => h1 a (by simp [ha])) h3]

theorem noteOf_iff {s : List Char} {k : Option String} : (noteOf s).map String.ofList = k ↔ Note s k := by
  constructor
  · rintro rfl
    unfold noteOf
    split
    · rename_i s
      obtain ⟨sp, t, h1, h2, h3, -, h5⟩ := span_blank s
      exact .inr ⟨sp, t, by rw [h1], h2, h3, by rw [← h5]; rfl⟩
    · rename_i h
      refine .inl ⟨fun hh => ?_, rfl⟩
      cases s with
      | nil => cases hh
      | cons c s =>
        cases hh
        exact h s rfl
  · rintro (⟨h, rfl⟩ | ⟨sp, t, rfl, h1, h2, rfl⟩)
    · unfold noteOf
      split
      · exact absurd rfl h
      · rfl
    · rw [noteOf.eq_1, drop_blank h1 h2]
      rfl

theorem afterWord_iff {w s t : List Char} : afterWord w s = some t ↔ s = w ++ t := by
  unfold afterWord
  constructor
  · intro h
    split at h
    · rename_i hp
      cases h
      obtain ⟨u, rfl⟩ := List.isPrefixOf_iff_prefix.1 hp
      simp
    · cases h
  · rintro rfl
    rw [if_pos (List.isPrefixOf_iff_prefix.2 ⟨t, rfl⟩)]
    simp

theorem digit_sharp {digit : Char → Bool} (hd : Digit digit) {c : Char} {t : List Char} (h : digit c = true) : Sharp (c :: t) := by
  intro a ha
  cases ha
  exact hd.space c h

theorem verDate_iff {digit : Char → Bool} (hd : Digit digit) {s w : List Char} {k : Option (List Char)} :
    verDate digit s = some (w, k) ↔ ∃ s2 s3 t, s = s2 ++ (w ++ (s3 ++ t)) ∧ Blank s2 ∧ s2 ≠ [] ∧ w.length = 8 ∧ (∀ a ∈ w, digit a = true) ∧
      Blank s3 ∧ Sharp t ∧ noteOf t = k := by
  unfold verDate
  constructor
  · intro h
    split at h
    · cases h
    · rename_i t ht
      split at h
      · rename_i hc
        cases h
        obtain ⟨sp, rfl, h1, h2, h3⟩ := someSpaces_iff.1 ht
        obtain ⟨s3, u, h4, h5, h6, -, h8⟩ := span_blank (t.drop 8)
        refine ⟨sp, s3, u, ?_, h1, h2, hc.1, fun a ha => List.all_eq_true.1 hc.2 a ha, h5, h6, by rw [h8]⟩
        rw [← h4, List.take_append_drop]
      · cases h
  · rintro ⟨s2, s3, t, rfl, h1, h2, h3, h4, h5, h6, rfl⟩
    have hs : Sharp (w ++ (s3 ++ t)) := by
      cases w with
      | nil => cases h3
      | cons c w => exact digit_sharp hd (h4 c (by simp))
    rw [someSpaces_iff.2 ⟨s2, rfl, h1, h2, hs⟩]
    dsimp only
    rw [List.take_left' h3, List.drop_left' h3, if_pos ⟨h3, List.all_eq_true.2 h4⟩, drop_blank h5 h6]

/-- **C142** The lines which give the version. -/
theorem version_line {digit : Char → Bool} (hd : Digit digit) {l : List Char} {n d : String} {k : Option String} :
    verMatch digit l = some (n, d, k) ↔ VerLine digit l n d k := by
  unfold verMatch VerLine
  constructor
  · intro h
    split at h
    · cases h
    · rename_i s hs
      rw [afterWord_iff] at hs
      subst hs
      obtain ⟨⟨c, w, k'⟩, h1, h2⟩ := Option.map_eq_some_iff.1 h
      cases h2
      unfold verAfter at h1
      split at h1
      · rename_i c' t ht
        split at h1
        · rename_i hc
          obtain ⟨⟨w', k2⟩, h3, h4⟩ := Option.map_eq_some_iff.1 h1
          cases h4
          obtain ⟨s2, s3, u, rfl, q1, q2, q3, q4, q5, q6, q7⟩ := (verDate_iff hd).1 h3
          obtain ⟨sp, rfl, p1, p2, p3⟩ := someSpaces_iff.1 ht
          exact ⟨sp, c, s2, w, s3, u, rfl, p1, p2, hc, q1, q2, q3, q4, q5, q6, noteOf_iff.1 (by rw [q7]), rfl, rfl⟩
        · cases h1
      · cases h1
  · rintro ⟨s1, c, s2, w, s3, t, rfl, p1, p2, hc, q1, q2, q3, q4, q5, q6, q7, rfl, rfl⟩
    rw [afterWord_iff.2 rfl]
    dsimp only
    unfold verAfter
    rw [someSpaces_iff.2 ⟨s1, rfl, p1, p2, digit_sharp hd hc⟩]
    dsimp only
    rw [if_pos hc, (verDate_iff hd).2 ⟨s2, s3, t, rfl, q1, q2, q3, q4, q5, q6, rfl⟩]
    simp [noteOf_iff.2 q7]

theorem note_start {s : List Char} {k : Option String} (h : Note s k) (hs : s = [] ∨ s.head? = some '#') : Sharp s := by
  rcases hs with rfl | hs
  · intro c hc; cases hc
  · intro c hc
    rw [hs] at hc
    cases hc
    decide

theorem value_cut {w t : List Char} (h : '#' ∉ w) (ht : t = [] ∨ t.head? = some '#') :
    (w ++ t).takeWhile (fun c => decide (c ≠ '#')) = w := by
  rw [List.takeWhile_append_of_pos (fun a ha => by simp; rintro rfl; exact h ha)]
  rcases ht with rfl | ht
  · simp
  · cases t with
    | nil => simp
    | cons c t => cases ht; simp

theorem cut_value (s : List Char) : ∃ w t, s = w ++ t ∧ w = s.takeWhile (fun c => decide (c ≠ '#')) ∧ '#' ∉ w ∧ (t = [] ∨ t.head? = some '#') := by
  refine ⟨s.takeWhile (fun c => decide (c ≠ '#')), s.dropWhile (fun c => decide (c ≠ '#')), (List.takeWhile_append_dropWhile).symm, rfl, ?_, ?_⟩
  · intro h
    have := List.mem_takeWhile_imp h
    simp at this
  · have := List.head?_dropWhile_not (fun c => decide (c ≠ '#')) s
    cases hh : (s.dropWhile (fun c => decide (c ≠ '#'))).head? with
    | none => exact .inl (List.head?_eq_none_iff.1 hh)
    | some c => rw [hh] at this; simp at this; rw [this]; exact .inr rfl

theorem refValue_iff {s w : List Char} {k : Option (List Char)} :
    refValue s = some (w, k) ↔ ∃ s2 t, s = s2 ++ (w ++ t) ∧ Blank s2 ∧ s2 ≠ [] ∧ w ≠ [] ∧ '#' ∉ w ∧ (Sharp w ∨ w.length = 1) ∧
      (t = [] ∨ t.head? = some '#') ∧ noteOf t = k := by
  unfold refValue
  dsimp only
  constructor
  · intro h
    obtain ⟨sp, r, h1, h2, h3, h4, h5⟩ := span_blank s
    rw [← h4, ← h5] at h
    obtain ⟨v, t, g1, g2, g3, g4⟩ := cut_value r
    rw [← g2] at h
    split at h
    · cases h
    rename_i hsp
    split at h
    · rename_i hv
      cases h
      refine ⟨sp, t, by rw [h1, g1], h2, hsp, hv, g3, .inl ?_, g4, by rw [g1]; simp⟩
      intro c hc
      apply h3
      rw [g1]
      cases w with
      | nil => exact absurd rfl hv
      | cons a w => exact hc
    · rename_i hv
      split at h
      · rename_i hl
        cases h
        simp only [ne_eq, not_not] at hv
        rw [hv, List.nil_append] at g1
        subst g1
        have hne : (sp.drop (sp.length - 1)).length = 1 := by rw [List.length_drop]; omega
        refine ⟨sp.take (sp.length - 1), r, ?_, fun c hc => h2 c (List.mem_of_mem_take hc), ?_, ?_, ?_, .inr hne, g4, rfl⟩
        · rw [← List.append_assoc, List.take_append_drop, h1]
        · intro e
          have := congrArg List.length e
          rw [List.length_take] at this
          simp at this
          omega
        · intro e; rw [e] at hne; simp at hne
        · intro hm
          have := h2 _ (List.mem_of_mem_drop hm)
          revert this; decide
      · cases h
  · rintro ⟨s2, t, rfl, h1, h2, h3, h4, h5, h6, rfl⟩
    by_cases hw : Sharp w
    · have hs : Sharp (w ++ t) := by
        cases w with
        | nil => exact absurd rfl h3
        | cons c w => intro a ha; exact hw a ha
      rw [take_blank h1 hs, drop_blank h1 hs, value_cut h4 h6, if_neg h2, if_pos h3]
      simp
    · have hl : w.length = 1 := h5.resolve_left hw
      obtain ⟨c, rfl⟩ := List.length_eq_one_iff.1 hl
      have hc : isSpace c = true := by
        cases hb : isSpace c with
        | true => rfl
        | false => exact absurd (fun a ha => by cases ha; exact hb) hw
      have ht : Sharp t := by
        rcases h6 with rfl | h6
        · intro a ha; cases ha
        · intro a ha; rw [h6] at ha; cases ha; decide
      have hb : Blank (s2 ++ [c]) := by
        intro a ha
        rcases List.mem_append.1 ha with ha | ha
        · exact h1 a ha
        · rw [List.mem_singleton.1 ha]; exact hc
      rw [← List.append_assoc, take_blank hb ht, drop_blank hb ht, if_neg (by simp)]
      have hv : t.takeWhile (fun c => decide (c ≠ '#')) = [] := by
        have := value_cut (w := []) (t := t) (by simp) h6
        simpa using this
      have hpos : 0 < s2.length := List.length_pos_iff.2 h2
      rw [hv, if_neg (by simp), if_pos (by simp; omega)]
      simp

/-- **C142** The lines which give a reference. -/
theorem reference_line {digit : Char → Bool} (hd : Digit digit) {l : List Char} {v i : String} {k : Option String} :
    refMatch digit l = some (v, i, k) ↔ RefLine digit l v i k := by
  unfold refMatch RefLine
  constructor
  · intro h
    split at h
    · cases h
    · rename_i s hs
      rw [afterWord_iff] at hs
      subst hs
      obtain ⟨⟨c, w, k'⟩, h1, h2⟩ := Option.map_eq_some_iff.1 h
      cases h2
      unfold refAfter at h1
      split at h1
      · rename_i c' t ht
        split at h1
        · rename_i hc
          obtain ⟨⟨w', k2⟩, h3, h4⟩ := Option.map_eq_some_iff.1 h1
          cases h4
          obtain ⟨s2, u, rfl, q1, q2, q3, q4, q5, q6, q7⟩ := refValue_iff.1 h3
          obtain ⟨sp, rfl, p1, p2, p3⟩ := someSpaces_iff.1 ht
          exact ⟨sp, c, s2, w, u, rfl, p1, p2, hc, q1, q2, q3, q4, q5, q6, noteOf_iff.1 (by rw [q7]), rfl, rfl⟩
        · cases h1
      · cases h1
  · rintro ⟨s1, c, s2, w, t, rfl, p1, p2, hc, q1, q2, q3, q4, q5, q6, q7, rfl, rfl⟩
    rw [afterWord_iff.2 rfl]
    dsimp only
    unfold refAfter
    rw [someSpaces_iff.2 ⟨s1, rfl, p1, p2, digit_sharp hd hc⟩]
    dsimp only
    rw [if_pos hc, refValue_iff.2 ⟨s2, t, rfl, q1, q2, q3, q4, q5, q6, rfl⟩]
    simp [noteOf_iff.2 q7]

theorem not_blank {digit : Char → Bool} {l : List Char} {n d : String} {k : Option String} (h : VerLine digit l n d k) :
    l.head? = some 'V' := by
  obtain ⟨s1, c, s2, w, s3, t, rfl, -⟩ := h
  rfl

theorem ref_head {digit : Char → Bool} {l : List Char} {p : String × String × Option String} (h : refMatch digit l = some p) :
    l.head? = some 'R' := by
  unfold refMatch at h
  split at h
  · cases h
  · rename_i s hs
    rw [afterWord_iff] at hs
    rw [hs]
    rfl

theorem ver_head {digit : Char → Bool} {l : List Char} {p : String × String × Option String} (h : verMatch digit l = some p) :
    l.head? = some 'V' := by
  unfold verMatch at h
  split at h
  · cases h
  · rename_i s hs
    rw [afterWord_iff] at hs
    rw [hs]
    rfl

theorem rex_words (digit : Char → Bool) : C74.Words (rex digit) := by
  constructor
  · intro l hl
    show refMatch digit l = none
    cases h : refMatch digit l with
    | none => rfl
    | some p => exact absurd (ref_head h) hl
  · intro l hl
    show (verMatch digit l).isSome = false
    cases h : verMatch digit l with
    | none => rfl
    | some p => exact absurd (ver_head h) hl

/-! ## Metadata -/

theorem metaLine_ver {digit : Char → Bool} (hd : Digit digit) {line : List Char} {n d : String} {k : Option String}
    (h : IsVer digit line n d k) (m : Meta) : metaLine digit m line = { m with version := some ⟨some n, k⟩, date := some d } := by
  obtain ⟨l, h1, h2⟩ := h
  rw [trimmed_iff] at h1
  subst h1
  have hv := not_blank h2
  unfold metaLine
  rw [if_neg, (version_line hd).2 h2]
  rintro (h | h | h)
  · rw [h] at hv; cases hv
  · rw [h] at hv; revert hv; decide
  · obtain ⟨p, hp⟩ := Option.isSome_iff_exists.1 h
    rw [ref_head hp] at hv
    revert hv; decide

theorem metaLine_other {digit : Char → Bool} (hd : Digit digit) {line : List Char} (h : ¬ ∃ n d k, IsVer digit line n d k) (m : Meta) :
    metaLine digit m line = m := by
  unfold metaLine
  split
  · rfl
  · split
    · rfl
    · rename_i n d c hv
      exact absurd ⟨n, d, c, _, trimmed_iff.2 rfl, (version_line hd).1 hv⟩ h

/-- **C142** The version and the date are those of the last version line. -/
theorem version_read {digit : Char → Bool} (hd : Digit digit) (k : Table) (lines : List (List Char)) :
    Version digit k lines (metaOf digit k lines) := by
  by_cases hk : k = .rfc3743
  · subst hk
    show Version digit .rfc3743 lines (lines.foldl (metaLine digit) {})
    induction lines using List.reverseRecOn with
    | nil => exact .inr ⟨fun _ l hl => absurd hl List.not_mem_nil, rfl⟩
    | append_singleton lines line ih =>
      rw [List.foldl_append]
      simp only [List.foldl_cons, List.foldl_nil]
      by_cases h : ∃ n d k, IsVer digit line n d k
      · obtain ⟨n, d, c, h⟩ := h
        refine .inl ⟨lines, line, [], n, d, c, rfl, rfl, h, by simp, ?_⟩
        rw [metaLine_ver hd h]
        rcases ih with ⟨pre, l, post, n', d', c', -, -, -, -, hm⟩ | ⟨-, hm⟩
        · rw [hm]
        · rw [hm]
      · rw [metaLine_other hd h]
        rcases ih with ⟨pre, l, post, n', d', c', -, h1, h2, h3, hm⟩ | ⟨h1, hm⟩
        · refine .inl ⟨pre, l, post ++ [line], n', d', c', rfl, by rw [h1]; simp, h2, ?_, hm⟩
          intro a ha
          rcases List.mem_append.1 ha with ha | ha
          · exact h3 a ha
          · rw [List.mem_singleton.1 ha]; exact h
        · refine .inr ⟨fun _ a ha => ?_, hm⟩
          rcases List.mem_append.1 ha with ha | ha
          · exact h1 rfl a ha
          · rw [List.mem_singleton.1 ha]; exact h
  · refine .inr ⟨fun h => absurd h hk, ?_⟩
    cases k with
    | lines => rfl
    | rfc4290 => rfl
    | rfc3743 => exact absurd rfl hk

/-! ## The LGR of a table -/

/-- Which identifiers of references are accepted. -/
abbrev valid0 (i : String) : Bool := refIdOk i.toList

theorem step_keeps {valid : String → Bool} {force : Bool} {g : LGR} (it : Item) (h : g.tagCls = [] ∧ (g.refs.refs.map Prod.fst).Nodup) :
    (step valid force g it).tagCls = [] ∧ ((step valid force g it).refs.refs.map Prod.fst).Nodup := by
  cases it with
  | ref i v c =>
    simp only [TableItems.step, LGR.addReference, RefManager.addReference]
    split
    · exact h
    · rename_i m s hm
      split at hm
      · cases hm
      · split at hm
        · cases hm
        · cases hm
          exact ⟨h.1, dset_nodup h.2 _ _⟩
  | base k refs =>
    simp only [TableItems.step]
    unfold addCp
    split
    · exact h
    · split
      · exact h
      · exact ⟨by dsimp only; rw [h.1]; rfl, h.2⟩
  | var k v t refs =>
    simp only [TableItems.step]
    unfold LGR.addVariant
    split
    · exact h
    · split <;> exact h

theorem foldl_keeps {valid : String → Bool} {force : Bool} (items : List Item) {g : LGR}
    (h : g.tagCls = [] ∧ (g.refs.refs.map Prod.fst).Nodup) :
    (items.foldl (step valid force) g).tagCls = [] ∧ ((items.foldl (step valid force) g).refs.refs.map Prod.fst).Nodup := by
  induction items generalizing g with
  | nil => exact h
  | cons it items ih => exact ih (step_keeps it h)

theorem forall_mem {α β} {P : α → β → Prop} {l : List α} {m : List β} (h : List.Forall₂ P l m) {b : β} (hb : b ∈ m) : ∃ a ∈ l, P a b := by
  induction h with
  | nil => cases hb
  | cons h1 h2 ih =>
    rcases List.mem_cons.1 hb with rfl | hb
    · exact ⟨_, by simp, h1⟩
    · obtain ⟨a, ha, hp⟩ := ih hb
      exact ⟨a, by simp [ha], hp⟩

/-- The table is read item by item. -/
theorem parse_items {digit : Char → Bool} {k : Table} {lines : List (List Char)} {items : List Item} (h : Meant digit k lines items) :
    parse digit k lines = (items.foldl (step valid0 (forced k)) { raiseInvalid := true }, .ok ()) ∧ ∀ it ∈ items, Proper it := by
  obtain ⟨itss, rfl, h⟩ := h
  cases k with
  | lines =>
    dsimp only at h
    refine ⟨C75.docs_fold (valid := valid0) h _, fun it hit => ?_⟩
    obtain ⟨its, h1, h2⟩ := List.mem_flatten.1 hit
    obtain ⟨l, -, hm⟩ := forall_mem h h1
    exact C75.proper_means hm it h2
  | rfc4290 =>
    dsimp only at h
    obtain ⟨o, ho⟩ := C73.docs_fold (valid := valid0) (force := true) h ({ raiseInvalid := !false }, none)
    refine ⟨?_, fun it hit => ?_⟩
    · show ((parse4290 true false lines).1.1, (parse4290 true false lines).2) = _
      unfold parse4290
      rw [ho]
      rfl
    · obtain ⟨its, h1, h2⟩ := List.mem_flatten.1 hit
      obtain ⟨l, -, hm⟩ := forall_mem h h1
      exact C73.proper_means hm it h2
  | rfc3743 =>
    dsimp only at h
    obtain ⟨o, ho⟩ := C74.docs_fold (rex_words digit) (valid := valid0) (force := true) h ({ raiseInvalid := !false }, none)
    refine ⟨?_, fun it hit => ?_⟩
    · show ((parse3743 (rex digit) valid0 true false lines).1.1, (parse3743 (rex digit) valid0 true false lines).2) = _
      unfold parse3743
      rw [ho]
      rfl
    · obtain ⟨its, h1, h2⟩ := List.mem_flatten.1 hit
      obtain ⟨l, -, hm⟩ := forall_mem h h1
      exact C74.proper_means hm it h2

theorem vars_say {s : Seq} {ts : List (List Char)} {its : List Item} (h : C73.VarsSay s ts its) {it : Item} (hi : it ∈ its) :
    ∃ v, it = .var s v none [] := by
  induction h with
  | nil => cases hi
  | good _ _ ih =>
    rcases List.mem_cons.1 hi with rfl | hi
    · exact ⟨_, rfl⟩
    · exact ih hi
  | bad _ _ ih => exact ih hi

/-- An item which defines a reference comes from a line of a reference. -/
theorem ref_item {digit : Char → Bool} (hd : Digit digit) {k : Table} {lines : List (List Char)} {items : List Item}
    (h : Meant digit k lines items) {i v : String} {c : Option String} (hi : .ref i v c ∈ items) :
    ∃ line ∈ lines, ∃ l, Trimmed line l ∧ RefLine digit l v i c := by
  obtain ⟨itss, rfl, h⟩ := h
  obtain ⟨its, h1, h2⟩ := List.mem_flatten.1 hi
  cases k with
  | lines =>
    obtain ⟨l, -, hm⟩ := forall_mem h h1
    cases hm <;> simp at h2
  | rfc4290 =>
    obtain ⟨l, -, hm⟩ := forall_mem h h1
    cases hm with
    | skip _ => cases h2
    | bad _ _ => cases h2
    | row _ _ hv =>
      exfalso
      rcases List.mem_cons.1 h2 with h2 | h2
      · cases h2
      · obtain ⟨_, h3⟩ := vars_say hv h2
        cases h3
  | rfc3743 =>
    obtain ⟨line, hl, hm⟩ := forall_mem h h1
    cases hm with
    | blank _ => cases h2
    | comment _ => cases h2
    | other _ _ _ _ _ => cases h2
    | version _ _ _ _ => cases h2
    | ref h3 h4 h5 h6 =>
      rw [List.mem_singleton] at h2
      cases h2
      exact ⟨line, hl, _, h3, (reference_line hd).1 h6⟩
    | row _ =>
      exfalso
      rcases List.mem_cons.1 h2 with h2 | h2
      · cases h2
      · rcases List.mem_append.1 h2 with h2 | h2 <;> (obtain ⟨_, -, h2⟩ := List.mem_map.1 h2; cases h2)

theorem xml_sub {l m : List Char} (h : l.all xmlChar = true) (hs : ∀ c ∈ m, c ∈ l) : xmlOk (String.ofList m) = true := by
  unfold xmlOk
  rw [String.toList_ofList, List.all_eq_true]
  exact fun c hc => List.all_eq_true.1 h c (hs c hc)

theorem trimmed_sub {line l : List Char} (h : Trimmed line l) {c : Char} (hc : c ∈ l) : c ∈ line := by
  obtain ⟨⟨a, b, rfl, -⟩, -⟩ := h
  simp [hc]

theorem note_sub {t : List Char} {k : Option String} (h : Note t k) {s : String} (hs : k = some s) : ∃ m, s = String.ofList m ∧ ∀ c ∈ m, c ∈ t := by
  rcases h with ⟨-, rfl⟩ | ⟨sp, m, rfl, -, -, rfl⟩
  · cases hs
  · cases hs
    exact ⟨m, rfl, fun c hc => by simp [hc]⟩

/-- What is known of a reference of a table which XML allows. -/
theorem ref_texts {digit : Char → Bool} (hd : Digit digit) {lines : List (List Char)} (hx : ∀ l ∈ lines, l.all xmlChar = true)
    {i v : String} {c : Option String} (h : ∃ line ∈ lines, ∃ l, Trimmed line l ∧ RefLine digit l v i c) :
    C99.Full v ∧ (∀ n, c = some n → xmlOk n = true) ∧ xmlOk i = true ∧ ' ' ∉ i.toList ∧ i ≠ "" := by
  obtain ⟨line, hl, l, ht, s1, a, s2, w, t, rfl, -, -, ha, -, -, hw, -, -, -, hn, rfl, rfl⟩ := h
  have sub : ∀ c ∈ line, xmlChar c = true := List.all_eq_true.1 (hx line hl)
  have hall := hx line hl
  refine ⟨⟨?_, xml_sub hall (fun c hc => trimmed_sub ht (by simp [hc]))⟩, ?_, xml_sub hall (fun c hc => trimmed_sub ht (by simp at hc; simp [hc])), ?_, ?_⟩
  · intro e
    have := congrArg String.toList e
    rw [String.toList_ofList] at this
    exact hw this
  · intro n hnn
    obtain ⟨m, rfl, hm⟩ := note_sub hn hnn
    exact xml_sub hall (fun c hc => trimmed_sub ht (by simp [hm c hc]))
  · rw [String.toList_ofList]
    intro h
    rw [List.mem_singleton] at h
    rw [← h] at ha
    have := hd.space ' ' ha
    revert this; decide
  · intro e
    have := congrArg String.toList e
    rw [String.toList_ofList] at this
    cases this

theorem var_type {digit : Char → Bool} {k : Table} {lines : List (List Char)} {items : List Item} (h : Meant digit k lines items)
    {s v : Seq} {t : Option String} {refs : List String} (hi : .var s v t refs ∈ items) : t = none ∨ t = some "activated" := by
  obtain ⟨itss, rfl, h⟩ := h
  obtain ⟨its, h1, h2⟩ := List.mem_flatten.1 hi
  cases k with
  | lines =>
    obtain ⟨l, -, hm⟩ := forall_mem h h1
    cases hm <;> simp at h2
  | rfc4290 =>
    obtain ⟨l, -, hm⟩ := forall_mem h h1
    cases hm with
    | skip _ => cases h2
    | bad _ _ => cases h2
    | row _ _ hv =>
      rcases List.mem_cons.1 h2 with h2 | h2
      · cases h2
      · obtain ⟨_, h3⟩ := vars_say hv h2
        cases h3; exact .inl rfl
  | rfc3743 =>
    obtain ⟨line, hl, hm⟩ := forall_mem h h1
    cases hm with
    | blank _ => cases h2
    | comment _ => cases h2
    | other _ _ _ _ _ => cases h2
    | version _ _ _ _ => cases h2
    | ref h3 h4 h5 h6 =>
      rw [List.mem_singleton] at h2
      cases h2
    | row _ =>
      rcases List.mem_cons.1 h2 with h2 | h2
      · cases h2
      · rcases List.mem_append.1 h2 with h2 | h2 <;> obtain ⟨_, -, h2⟩ := List.mem_map.1 h2 <;> cases h2
        · exact .inr rfl
        · exact .inl rfl

/-- All that is used of a table: it is read item by item; references are given by lines of references, and variants are activated or
have no type. -/
structure Source (digit : Char → Bool) (k : Table) (lines : List (List Char)) (items : List Item) : Prop where
  read : parse digit k lines = (items.foldl (step valid0 (forced k)) { raiseInvalid := true }, .ok ())
  proper : ∀ it ∈ items, Proper it
  refs : ∀ i v c, .ref i v c ∈ items → ∃ line ∈ lines, ∃ l, Trimmed line l ∧ RefLine digit l v i c
  types : ∀ s v t refs, .var s v t refs ∈ items → t = none ∨ t = some "activated"

theorem source_of_meant {digit : Char → Bool} (hd : Digit digit) {k : Table} {lines : List (List Char)} {items : List Item}
    (h : Meant digit k lines items) : Source digit k lines items :=
  ⟨(parse_items h).1, (parse_items h).2, fun _ _ _ hi => ref_item hd h hi, fun _ _ _ _ hi => var_type h hi⟩

/-- What is asked of a table: characters that XML allows; no empty comment of a reference; code points that the reader accepts; and
without `force` no version line, and no reference twice in a list. -/
structure Usable (R : Reader) (digit : Char → Bool) (k : Table) (lines : List (List Char)) (items : List Item) : Prop where
  chars : ∀ l ∈ lines, l.all xmlChar = true
  notes : ∀ i v, .ref i v (some "") ∉ items
  bases : ∀ s refs, .base s refs ∈ items → C34.Allowed R.db R.strict s ∧ (R.force = false → refs.Nodup)
  vars : ∀ s v t refs, .var s v t refs ∈ items → C34.Allowed R.db R.strict v ∧ (R.force = false → refs.Nodup)
  version : R.force = false → k = .rfc3743 → ∀ l ∈ lines, ¬ ∃ n d c, IsVer digit l n d c

theorem first_mem {P : List Item → Item → Prop} {items pre : List Item} {it : Item} (h : First P items pre it) :
    it ∈ items ∧ ∀ a ∈ pre, a ∈ items := by
  obtain ⟨⟨post, rfl⟩, -⟩ := h
  exact ⟨by simp, fun a ha => by simp [ha]⟩

theorem first_grow {P : List Item → Item → Prop} {items pre : List Item} {it : Item} (h : First P pre items it) {post : List Item} :
    First P (pre ++ post) items it := by
  obtain ⟨⟨p, rfl⟩, h2, h3⟩ := h
  exact ⟨⟨p ++ post, by simp⟩, h2, h3⟩

theorem known_mem {valid : String → Bool} {pre : List Item} {i : String} (h : known valid pre i = true) :
    valid i = true ∧ ∃ v c, .ref i v c ∈ pre := by
  unfold known at h
  rw [Bool.and_eq_true, List.any_eq_true] at h
  obtain ⟨h1, it, h2, h3⟩ := h
  refine ⟨h1, ?_⟩
  cases it with
  | ref j v c => exact ⟨v, c, by rw [beq_iff_eq.1 h3]; exact h2⟩
  | base _ _ => cases h3
  | var _ _ _ _ => cases h3

theorem known_grow {valid : String → Bool} {pre items : List Item} {i : String} (h : known valid pre i = true) (hs : ∀ a ∈ pre, a ∈ items) :
    known valid items i = true := by
  unfold known at h ⊢
  rw [Bool.and_eq_true, List.any_eq_true] at h ⊢
  obtain ⟨h1, it, h2, h3⟩ := h
  exact ⟨h1, it, hs it h2, h3⟩

theorem dget_notes (l : List (String × Ref)) (i : String) :
    dget (l.map (fun p => (p.1, (⟨some p.2.value, p.2.comment⟩ : Txt)))) i = (dget l i).map (fun r => ⟨some r.value, r.comment⟩) := by
  induction l with
  | nil => rfl
  | cons p l ih =>
    rw [List.map_cons, dget.eq_2, dget.eq_2]
    split
    · rfl
    · exact ih

theorem manager_withRefs (m : Meta) (r : RefManager) : managerOf (withRefs m r) = r := by
  unfold managerOf withRefs
  dsimp only
  rw [List.map_map]
  have : (fun p : String × Txt => (p.1, ({ value := p.2.value.getD "", comment := p.2.note } : Ref))) ∘
      (fun p : String × Ref => (p.1, (⟨some p.2.value, p.2.comment⟩ : Txt))) = id := by
    funext p; rfl
  rw [this, List.map_id]

/-- The entries of the table can be written, and read by the reader. -/
theorem table_fit {digit : Char → Bool} (hd : Digit digit) {R : Reader} {k : Table} {lines : List (List Char)} {items : List Item}
    (h : Source digit k lines items) (hu : Usable R digit k lines items) {g : LGR} (hs : Says valid0 (forced k) items g)
    (hw : WF g.rep) (ht : g.tagCls = []) (m : Meta) :
    Fit R.db R.strict R.force (managerOf (withRefs m g.refs)) { g with raiseInvalid := R.strict } := by
  have hknown : ∀ pre i, (∀ a ∈ pre, a ∈ items) → known valid0 pre i = true →
      (dget g.refs.refs i).isSome = true ∧ xmlOk i = true ∧ ' ' ∉ i.toList ∧ i ≠ "" := by
    intro pre i hp hk
    refine ⟨by rw [← known_refs hs]; exact known_grow hk hp, ?_⟩
    obtain ⟨-, v, c, hi⟩ := known_mem hk
    exact (ref_texts hd hu.chars (h.refs _ _ _ (hp _ hi))).2.2
  have hfilter : ∀ (pre : List Item) (refs : List String), (∀ a ∈ pre, a ∈ items) → (∀ i ∈ refs.filter (known valid0 pre), (dget g.refs.refs i).isSome = true) ∧
      C34.Words (refs.filter (known valid0 pre)) ∧ ∀ i ∈ refs.filter (known valid0 pre), xmlOk i = true := by
    intro pre refs hp
    have key := fun i (hi : i ∈ refs.filter (known valid0 pre)) => hknown pre i hp (List.mem_filter.1 hi).2
    exact ⟨fun i hi => (key i hi).1, ⟨fun i hi => (key i hi).2.2.1, fun e => (key "" (by rw [e]; simp)).2.2.2 rfl⟩,
      fun i hi => (key i hi).2.1⟩
  refine { refs := (manager_withRefs m g.refs).symm, raises := rfl, inv := ⟨hw, ?_⟩, intact := ⟨?_, ?_, ?_⟩, tags := ?_, keys := ?_ }
  · intro s c hc
    obtain ⟨e1, e2, ⟨pre, refs, hf, e3⟩, e4, e5⟩ := hs.entry s c hc
    rw [manager_withRefs]
    obtain ⟨f1, f2⟩ := first_mem hf
    obtain ⟨k1, k2, k3⟩ := hfilter pre refs f2
    obtain ⟨b1, b2⟩ := hu.bases s refs f1
    refine { allowed := by rw [e1]; exact b1, refs := by rw [e3]; exact k1, refWords := by rw [e3]; exact k2,
             tagWords := by rw [e3]; exact ⟨fun _ h => absurd h List.not_mem_nil, by simp⟩, xml := ?_,
             plain := fun hf => by rw [e3]; exact ⟨.inl rfl, (b2 hf).filter _, .nil, .inl rfl⟩, vars := ?_ }
    · intro t ht
      unfold C34.texts at ht
      rw [e3] at ht
      simp only [Option.toList_none, List.nil_append, List.append_nil, List.mem_append, List.mem_flatMap] at ht
      rcases ht with ht | ⟨u, hu', ht⟩
      · exact k3 t ht
      · obtain ⟨pre', v, ty, refs', hf', rfl⟩ := (e4 u).1 hu'
        obtain ⟨f1', f2'⟩ := first_mem hf'
        unfold C34.varTexts at ht
        simp only [Option.toList_none, List.append_nil, List.mem_append] at ht
        rcases ht with ht | ht
        · have hty : ty = none ∨ ty = some "activated" := h.types _ _ _ _ f1'
          rcases hty with rfl | rfl
          · cases ht
          · rw [List.mem_singleton.1 ht]; decide +kernel
        · exact (hfilter pre' refs' f2').2.2 t ht
    · intro u hu'
      obtain ⟨pre', v, ty, refs', hf', rfl⟩ := (e4 u).1 hu'
      obtain ⟨f1', f2'⟩ := first_mem hf'
      obtain ⟨k1', k2', k3'⟩ := hfilter pre' refs' f2'
      obtain ⟨b1', b2'⟩ := hu.vars s v ty refs' f1'
      exact ⟨b1', k1', k2', fun hf => ⟨.inl rfl, (b2' hf).filter _⟩⟩
  · intro f l hm
    rw [show ({ g with raiseInvalid := R.strict } : LGR).rep.ranges = [] from hs.ranges] at hm
    cases hm
  · intro s c p hc hr
    rw [(hs.entry s c hc).2.1] at hr
    cases hr
  · rw [show ({ g with raiseInvalid := R.strict } : LGR).rep.ranges = [] from hs.ranges]
    exact .nil
  · intro t x
    constructor
    · exact fun hx => absurd hx (hs.tags t x)
    · rintro ⟨s, c, hc, hx, -⟩
      obtain ⟨-, -, ⟨pre, refs, -, e3⟩, -⟩ := hs.entry s c hc
      rw [e3] at hx
      cases hx
  · intro t hx
    rw [show ({ g with raiseInvalid := R.strict } : LGR).tagCls = [] from ht] at hx
    cases hx

/-! ## The document -/

theorem split_one {d : Char} {s : List Char} (h : d ∉ s) : splitOn d s = [s] := by
  unfold splitOn
  have := splitOn_go_word d s [] [] (fun c hc e => h (e ▸ hc))
  rw [List.append_nil] at this
  rw [this]
  simp [splitOn.go]

/-- Eight digits are no date. -/
theorem digits_date {digit : Char → Bool} (hd : Digit digit) (x : MetaXml.Ctx) {w : List Char} (h : ∀ a ∈ w, digit a = true) (force : Bool) :
    date x (String.ofList w) force = if force then .ok (String.ofList w) else .error (.format "INVALID_DATE_TAG") := by
  have hm : '-' ∉ w := fun hc => by have := h _ hc; rw [hd.hyphen] at this; cases this
  unfold date Metadata.validateDate
  rw [String.toList_ofList, split_one hm]
  cases force <;> rfl

theorem ver_texts {digit : Char → Bool} {line : List Char} {n d : String} {c : Option String}
    (hx : line.all xmlChar = true) (h : IsVer digit line n d c) :
    C99.Full n ∧ C99.Full d ∧ (∀ t, c = some t → xmlOk t = true) ∧ ∃ w, d = String.ofList w ∧ ∀ a ∈ w, digit a = true := by
  obtain ⟨l, ht, s1, a, s2, w, s3, t, rfl, -, -, -, -, -, hw, hdg, -, -, hn, rfl, rfl⟩ := h
  refine ⟨⟨?_, xml_sub hx (fun c hc => trimmed_sub ht (by simp at hc; simp [hc]))⟩,
    ⟨?_, xml_sub hx (fun c hc => trimmed_sub ht (by simp [hc]))⟩, ?_, w, rfl, hdg⟩
  · intro e
    have := congrArg String.toList e
    rw [String.toList_ofList] at this
    cases this
  · intro e
    have := congrArg String.toList e
    rw [String.toList_ofList] at this
    rw [this] at hw
    cases hw
  · intro n hnn
    obtain ⟨m, rfl, hm⟩ := note_sub hn hnn
    exact xml_sub hx (fun c hc => trimmed_sub ht (by simp [hm c hc]))

theorem dates_empty (x : MetaXml.Ctx) (force : Bool) : C99.DateOk x force none := fun _ h => by cases h

/-- The metadata of the table can be written, and read by the reader. -/
theorem table_mgood {digit : Char → Bool} (hd : Digit digit) {R : Reader} (hx : C99.Sound R.x) {k : Table} {lines : List (List Char)}
    {items : List Item} (h : Source digit k lines items) (hu : Usable R digit k lines items) {g : LGR}
    (hs : Says valid0 (forced k) items g) (hn : (g.refs.refs.map Prod.fst).Nodup) {m : Meta} (hm : Version digit k lines m) :
    MGood R.x R.force (withRefs m g.refs) := by
  have hids : ((withRefs m g.refs).refs.map Prod.fst).Nodup := by
    unfold withRefs
    dsimp only
    rw [List.map_map]
    exact hn
  have href : ∀ i r, dget g.refs.refs i = some r → refIdOk i.toList = true ∧ xmlOk i = true ∧ C99.Full r.value ∧
      (∀ t, r.comment = some t → xmlOk t = true) ∧ r.comment ≠ some "" ∧ i ≠ "" := by
    intro i r hr
    obtain ⟨pre, hf⟩ := (hs.refs i r).1 hr
    have hmem := (first_mem hf).1
    obtain ⟨t1, t2, t3, -, t5⟩ := ref_texts hd hu.chars (h.refs _ _ _ hmem)
    exact ⟨hf.2.1.1, t3, t1, t2, fun e => hu.notes i r.value (by rw [← e]; exact hmem), t5⟩
  have hrefs : ∀ p ∈ (withRefs m g.refs).refs, refIdOk p.1.toList = true ∧ xmlOk p.1 = true ∧ C99.Fits p.2 ∧ p.2.note ≠ some "" := by
    intro p hp
    obtain ⟨⟨i, r⟩, hq, rfl⟩ := List.mem_map.1 hp
    obtain ⟨t1, t2, t3, t4, t5, -⟩ := href i r (dget_of_mem hn hq)
    exact ⟨t1, t2, ⟨fun v hv => by cases hv; exact t3, t4⟩, t5⟩
  have huni : ∃ t, ({} : Meta).unicodeVersion = some t ∧ C99.Full t ∧ (R.force = false → versionMatch R.x.digit t.toList = true) := by
    refine ⟨"6.3.0", rfl, ⟨by decide, by decide +kernel⟩, fun _ => ?_⟩
    have e : "6.3.0".toList = ['6', '.', '3', '.', '0'] := by decide
    rw [e]
    simp [versionMatch, hx.digits '6' (by decide), hx.digits '3' (by decide), hx.digits '0' (by decide), hx.dot]
  refine ⟨?_, fun _ => ?_⟩
  · rcases hm with ⟨pre, line, post, n, d, c, hk, hl, hv, -, rfl⟩ | ⟨-, rfl⟩
    · have hmem : line ∈ lines := by rw [hl]; simp
      obtain ⟨v1, v2, v3, w, rfl, v4⟩ := ver_texts (hu.chars line hmem) hv
      have hf : R.force = true := by
        cases hf : R.force with
        | true => rfl
        | false => exact absurd ⟨n, _, c, hv⟩ (hu.version hf hk line hmem)
      refine { version := fun v hv => ?_, dates := ⟨fun t ht => ?_, dates_empty _ _, dates_empty _ _⟩, unicode := huni,
               languages := fun _ h => absurd h List.not_mem_nil, distinct := .nil, scopes := fun _ h => absurd h List.not_mem_nil,
               description := fun _ h => (by cases h), ids := hids, refs := hrefs }
      · cases hv
        exact ⟨fun v hv => by cases hv; exact v1, v3⟩
      · cases ht
        refine ⟨v2, ?_⟩
        rw [digits_date hd _ v4, hf]
        rfl
    · exact { version := fun v hv => (by cases hv), dates := ⟨dates_empty _ _, dates_empty _ _, dates_empty _ _⟩, unicode := huni,
              languages := fun _ h => absurd h List.not_mem_nil, distinct := .nil, scopes := fun _ h => absurd h List.not_mem_nil,
              description := fun _ h => (by cases h), ids := hids, refs := hrefs }
  · unfold withRefs
    dsimp only
    rw [dget_notes]
    cases he : dget g.refs.refs "" with
    | none => rfl
    | some r => exact absurd rfl (href "" r he).2.2.2.2.2

theorem says_other {valid : String → Bool} {force : Bool} {items : List Item} {g g' : LGR} (h : Says valid force items g) 
    (hr : g'.refs.refs = g.refs.refs) (he : ∀ k c, g.rep.lookup k = some c → ∃ c', g'.rep.lookup k = some c' ∧ C34.Same c c')
    (ho : ∀ k, (g'.rep.lookup k).isSome → (g.rep.lookup k).isSome) (hranges : g'.rep.ranges.Perm g.rep.ranges)
    (ht : ∀ t x, x ∈ tagSet g' t ↔ x ∈ tagSet g t) (hty : ∀ t, t ∈ g'.types ↔ C104.Used g.rep t) : Says valid force items g' := by
  refine ⟨by rw [hr]; exact h.refs, ?_, ?_, ?_, ?_, ?_⟩
  · intro k c' hc'
    obtain ⟨c, hc⟩ := Option.isSome_iff_exists.1 (ho k (by rw [hc']; rfl))
    obtain ⟨c2, h2, hsame⟩ := he k c hc
    rw [hc'] at h2
    cases h2
    obtain ⟨e1, e2, e3, e4, e5⟩ := h.entry k c hc
    exact ⟨by rw [← hsame.cp]; exact e1, by rw [← hsame.range]; exact e2, by rw [← hsame.attrs]; exact e3,
      by rw [← hsame.vars]; exact e4, by rw [← hsame.vars]; exact e5⟩
  · intro k hk
    obtain ⟨c, hc⟩ := Option.isSome_iff_exists.1 (h.all k hk)
    obtain ⟨c2, h2, -⟩ := he k c hc
    rw [h2]; rfl
  · intro t
    rw [hty]
    constructor
    · rintro ⟨k, c, hc, u, hu, rfl⟩
      exact ⟨k, u, ((h.entry k c hc).2.2.2.1 u).1 hu, rfl⟩
    · rintro ⟨k, u, hu, rfl⟩
      obtain ⟨pre, v, ty, refs, hf, rfl⟩ := hu
      obtain ⟨_, _, _, _, pre', it', hb⟩ := hf.2.1
      obtain ⟨post, hpost⟩ := hf.1
      obtain ⟨c, hc⟩ := Option.isSome_iff_exists.1 (h.all k ⟨pre', it', by rw [hpost]; exact first_grow hb⟩)
      exact ⟨k, c, hc, _, ((h.entry k c hc).2.2.2.1 _).2 ⟨pre, v, ty, refs, hf, rfl⟩, rfl⟩
  · have := h.ranges
    rw [this] at hranges
    exact hranges.eq_nil
  · exact fun t x hx => h.tags t x ((ht t x).1 hx)

/-- The tool prints a document, and what is read of it. -/
theorem dump_source {digit : Char → Bool} (hd : Digit digit) (R : Reader) (hx : C99.Sound R.x)
    (hsafe : Safe R.db R.strict R.force) {k : Table} {lines : List (List Char)} {items : List Item} (h : Source digit k lines items)
    (hu : Usable R digit k lines items) :
    ∃ d m, DumpTool.run digit k lines = .printed d ∧ Version digit k lines m ∧
      ∀ cs, ∃ cs' g, parseDoc R cs d = (cs', .ok (some g)) ∧ Tells k items m g ∧ serializeDoc g = .ok d := by
  have hp := h.read
  have hprop := h.proper
  have hsays := says_items valid0 (forced k) true items hprop
  have hwf := wf_foldl (valid := valid0) (force := forced k) items (g := { raiseInvalid := true }) wf_empty
  obtain ⟨htag, hnod⟩ := foldl_keeps (valid := valid0) (force := forced k) items (g := { raiseInvalid := true }) ⟨rfl, .nil⟩
  generalize List.foldl (TableItems.step valid0 (forced k)) { raiseInvalid := true } items = g at hp hsays hwf htag hnod
  have hv := version_read hd k lines
  generalize hmm : metaOf digit k lines = m at hv
  have hM := table_mgood hd hx h hu hsays hnod hv
  have hF := table_fit hd h hu hsays hwf htag m
  have hcls : tagClasses g = [] := by unfold tagClasses; rw [htag]; rfl
  have hall := fun cs => fit_reread R hx hsafe hM hF (ns := []) (r := newRules g) (t := {})
    (fun _ => ⟨.nil, fun _ h => absurd h List.not_mem_nil⟩) rfl (ids := 0) cs
  obtain ⟨d, -, -, hd1, -⟩ := hall []
  have hser : serializeDoc (loaded m g) = .ok d := hd1
  refine ⟨d, m, ?_, hv, fun cs => ?_⟩
  · unfold DumpTool.run
    rw [hp, hmm]
    dsimp only
    rw [hser]
  · obtain ⟨d', cs2, g', w1, w2, -, wa, wt, -, ws, -⟩ := hall cs
    rw [hd1] at w1
    cases w1
    refine ⟨cs2, g', w2, ⟨?_, ?_, ?_, ?_, ?_⟩, ws⟩
    · rw [wa.md]
      refine ⟨(withRefs m g.refs).refs, ?_⟩
      rcases hv with ⟨_, _, _, _, _, _, -, -, -, -, rfl⟩ | ⟨-, rfl⟩ <;> rfl
    · intro i
      rw [wa.md, wa.refs]
      exact dget_notes _ _
    · exact says_other hsays wa.refs wa.entries wa.only wa.ranges wa.tags wt
    · exact ⟨wa.rules.1, wa.actions, wa.names.1, wa.names.2⟩
    · intro n
      have := wa.classes n
      have e : dget (newRules g).rs.lk.classes n = none := by
        unfold newRules
        rw [hcls]; rfl
      rw [e] at this
      exact Option.isSome_eq_false_iff.1 this.symm |> Option.isNone_iff_eq_none.1

/-- **C142** (partial) Whatever lines a table has, if each has a meaning: the tool prints a document. The document is read without
exception; the LGR read from it has the version and the date of the last version line, the references, the code points, the variants
and their types that the lines of the table mean, each as it was given first; it has no rules and no actions; and it is written as
the same document. Missing: `Usable`, see `version_line_wrong`, `references_twice_wrong` and `control_character_wrong`; and a reader
which has `force` without `unicode_database` (`Safe`). -/
theorem dump_reads_back_partial {digit : Char → Bool} (hd : Digit digit) (R : Reader) (hx : C99.Sound R.x)
    (hsafe : Safe R.db R.strict R.force) {k : Table} {lines : List (List Char)} {items : List Item} (h : Meant digit k lines items)
    (hu : Usable R digit k lines items) :
    ∃ d m, DumpTool.run digit k lines = .printed d ∧ Version digit k lines m ∧
      ∀ cs, ∃ cs' g, parseDoc R cs d = (cs', .ok (some g)) ∧ Tells k items m g ∧ serializeDoc g = .ok d := dump_source hd R hx hsafe (source_of_meant hd h) hu

/-! ## What is not so -/

/-- **C142** The date of a version line is eight digits, which is no date of a document: what the tool prints for a table of RFC 3743
which has a version line is rejected by the reader unless `force` is given. -/
theorem version_line_wrong {digit : Char → Bool} (hd : Digit digit) {lines : List (List Char)}
    (hv : ∃ l ∈ lines, ∃ n d c, IsVer digit l n d c) {d : Doc} (h : DumpTool.run digit .rfc3743 lines = .printed d) (R : Reader)
    (hf : R.force = false) (cs : Rfc7940.Results) : (parseDoc R cs d).2 = .error (.format "INVALID_DATE_TAG") := by
  rcases version_read hd .rfc3743 lines with ⟨pre, line, post, n, t, c, -, hl, hline, -, hm⟩ | ⟨hno, -⟩
  · obtain ⟨w, rfl, hw⟩ : ∃ w, t = String.ofList w ∧ (∀ a ∈ w, digit a = true) ∧ w ≠ [] := by
      obtain ⟨l, -, s1, a, s2, w, s3, t, rfl, -, -, -, -, -, hw, hdg, -, -, -, rfl, rfl⟩ := hline
      exact ⟨w, rfl, hdg, fun e => by rw [e] at hw; cases hw⟩
    have hfull : String.ofList w ≠ "" := by
      intro e
      have := congrArg String.toList e
      rw [String.toList_ofList] at this
      exact hw.2 this
    unfold DumpTool.run at h
    split at h
    · cases h
    · rename_i g _ hg
      split at h
      · cases h
      · rename_i d' hd'
        cases h
        unfold serializeDoc at hd'
        split at hd'
        · cases hd'
        · rename_i ms hms
          split at hd'
          · cases hd'
          · cases hd'
            obtain ⟨rest, rfl⟩ : ∃ rest, ms = { tag := "version", attrs := optAttr "comment" c, text := plainText (some n) } ::
                { tag := "date", text := .plain (String.ofList w) } :: rest := by
              unfold serializeMeta at hms
              split at hms
              · cases hms
              · split at hms
                · cases hms
                · split at hms
                  · cases hms
                    rw [hm]
                    exact ⟨_, rfl⟩
                  · cases hms
            have hdate := digits_date hd R.x hw.1 R.force
            rw [hf] at hdate
            have hloop : ∃ s, parseMeta R.x R.force cs ({ tag := "version", attrs := optAttr "comment" c, text := plainText (some n) } ::
                { tag := "date", text := .plain (String.ofList w) } :: rest) = (s, .error (.format "INVALID_DATE_TAG")) := by
              unfold parseMeta
              simp [forEach, parseMetaElem, parseDate, setDate, readText, hfull, hf, hdate]
            obtain ⟨s, hs⟩ := hloop
            unfold parseDoc
            dsimp only
            rw [hs]
  · obtain ⟨l, hl, n, t, c, hline⟩ := hv
    exact absurd ⟨n, t, c, hline⟩ (hno rfl l hl)

/-! ## Examples -/

/-- The digits of ASCII. -/
def digit0 (c : Char) : Bool := decide (48 ≤ c.toNat ∧ c.toNat ≤ 57)

theorem digit0_ok : Digit digit0 := by
  refine ⟨fun c h => ?_, by decide, by decide⟩
  have : 48 ≤ c.toNat ∧ c.toNat ≤ 57 := of_decide_eq_true h
  unfold isSpace
  simp only [Bool.or_eq_false_iff, Bool.and_eq_false_iff, decide_eq_false_iff_not, List.mem_cons, List.not_mem_nil, or_false]
  omega

/-- A reader. -/
def reader0 (force : Bool) : Reader :=
  { x := C99.x0, db := none, props := fun _ => .error .valueError, fuel := 0, strict := true, force := force }

/-- The code point is read without `force` from what the tool prints, with its reference and its variant. -/
def table0 : List (List Char) :=
  ["Reference 1 Book # a".toList, "0061(1);0062(1)".toList]

/-- With a version line. -/
def table1 : List (List Char) := "Version 1 20020701 # b".toList :: table0

def items0 : List Item := [.ref "1" "Book " (some "a"), .base [0x61] ["1"], .var [0x61] [0x62] (some "activated") ["1"]]

theorem row0 : C74.RowText digit0 "0061(1);0062(1)".toList ([0x61], ["1"]) [([0x62], ["1"])] [] := by
  have c1 : C74.CharText digit0 "0061(1)".toList ([0x61], ["1"]) :=
    ⟨"0061".toList, "(1)".toList, ⟨["0061".toList], by simp, .cons ⟨"0061".toList, [0, 0, 6, 1], .inl rfl, by decide, by decide,
      mapM_hex_iff.1 (by decide), by decide⟩ .nil, by decide⟩, .inr ⟨['1'], by simp, by decide, by decide, by decide⟩, by decide⟩
  have c2 : C74.CharText digit0 "0062(1)".toList ([0x62], ["1"]) :=
    ⟨"0062".toList, "(1)".toList, ⟨["0062".toList], by simp, .cons ⟨"0062".toList, [0, 0, 6, 2], .inl rfl, by decide, by decide,
      mapM_hex_iff.1 (by decide), by decide⟩ .nil, by decide⟩, .inr ⟨['1'], by simp, by decide, by decide, by decide⟩, by decide⟩
  refine ⟨"0061(1);0062(1)".toList, "0061(1);0062(1)".toList, "0061(1);0062(1)".toList, "0061(1)".toList, ["0062(1)".toList],
    trimmed_iff.2 (by decide), head_upto.2 (by decide), trimmed_iff.2 (by decide), pieces_iff.2 (by decide), c1,
    .inr ⟨"0062(1)".toList, "0062(1)".toList, rfl, trimmed_iff.2 (by decide), ["0062(1)".toList], .cons ⟨[], _, by simp, c2, rfl⟩ .nil, rfl⟩,
    .inl ⟨rfl, rfl⟩⟩

theorem means0 : C74.Means (rex digit0) "0061(1);0062(1)".toList [.base [0x61] ["1"], .var [0x61] [0x62] (some "activated") ["1"]] :=
  C74.Means.row (x := rex digit0) row0

theorem meant0 : Meant digit0 .rfc3743 table0 items0 :=
  ⟨[[.ref "1" "Book " (some "a")], [.base [0x61] ["1"], .var [0x61] [0x62] (some "activated") ["1"]]], rfl,
    .cons (.ref (l := "Reference 1 Book # a".toList) (trimmed_iff.2 (by decide)) (by decide) (by decide) (by decide +kernel))
      (.cons means0 .nil)⟩

theorem meant1 : Meant digit0 .rfc3743 table1 items0 := by
  obtain ⟨itss, h1, h2⟩ := meant0
  exact ⟨[] :: itss, by rw [h1]; rfl, .cons (.version (l := "Version 1 20020701 # b".toList) (trimmed_iff.2 (by decide)) (by decide)
    (by decide +kernel) (by decide +kernel)) h2⟩

theorem not_ver {digit : Char → Bool} {line : List Char} (h : (strip line).head? ≠ some 'V') : ¬ ∃ n d c, IsVer digit line n d c := by
  rintro ⟨n, d, c, l, h1, h2⟩
  rw [trimmed_iff.1 h1] at h
  exact h (not_blank h2)

theorem usable0 (force : Bool) : Usable (reader0 force) digit0 .rfc3743 table0 items0 := by
  refine ⟨by decide +kernel, fun i v h => ?_, fun s refs h => ⟨fun _ _ h => (by cases h), fun _ => ?_⟩,
    fun s v t refs h => ⟨fun _ _ h => (by cases h), fun _ => ?_⟩, fun _ _ l hl => not_ver ?_⟩
  · simp [items0] at h
  · simp [items0] at h; rw [h.2]; decide
  · simp [items0] at h; rw [h.2.2.2]; decide
  · revert l; decide +kernel

theorem usable1 : Usable (reader0 true) digit0 .rfc3743 table1 items0 := by
  have h := usable0 true
  exact ⟨by decide +kernel, h.notes, h.bases, h.vars, fun h => by cases h⟩

/-- **C142** The theorem applies with `force` and without. -/
example (force : Bool) : ∃ d m, DumpTool.run digit0 .rfc3743 table0 = .printed d ∧ Version digit0 .rfc3743 table0 m ∧
    ∀ cs, ∃ cs' g, parseDoc (reader0 force) cs d = (cs', .ok (some g)) ∧ Tells .rfc3743 items0 m g ∧ serializeDoc g = .ok d :=
  dump_reads_back_partial digit0_ok (reader0 force) C99.x0_sound (.inr (.inl rfl)) meant0 (usable0 force)

/-- And, with `force`, to a table with a version line. -/
example : ∃ d m, DumpTool.run digit0 .rfc3743 table1 = .printed d ∧ Version digit0 .rfc3743 table1 m ∧
    ∀ cs, ∃ cs' g, parseDoc (reader0 true) cs d = (cs', .ok (some g)) ∧ Tells .rfc3743 items0 m g ∧ serializeDoc g = .ok d :=
  dump_reads_back_partial digit0_ok (reader0 true) C99.x0_sound (.inr (.inl rfl)) meant1 usable1

example : metaOf digit0 .rfc3743 table1 = { version := some ⟨some "1", some "b"⟩, date := some "20020701" } := by decide +kernel

/-- **C142** The same table is rejected without `force`. -/
example : ∃ d, DumpTool.run digit0 .rfc3743 table1 = .printed d ∧ ∀ cs, (parseDoc (reader0 false) cs d).2 = .error (.format "INVALID_DATE_TAG") := by
  obtain ⟨d, m, h, -⟩ := dump_reads_back_partial digit0_ok (reader0 true) C99.x0_sound (.inr (.inl rfl)) meant1 usable1
  refine ⟨d, h, version_line_wrong digit0_ok ⟨_, List.mem_cons_self, "1", "20020701", some "b", _, trimmed_iff.2 rfl, ?_⟩ h _ rfl⟩
  exact (version_line digit0_ok).1 (by decide +kernel)

def printed (o : PopulateTool.Outcome) (R : Reader) : Option (Except Err Unit) :=
  match o with
  | .printed d => some ((parseDoc R [] d).2.map (fun _ => ()))
  | _ => none

/-- **C142** The table is read with `force`: a reference which is given twice in a list is kept twice. The document is then rejected by a
reader without `force`. -/
theorem references_twice_wrong :
    printed (DumpTool.run digit0 .rfc3743 ["Reference 1 a".toList, "0061(1,1)".toList]) (reader0 true) = some (.ok ()) ∧
    printed (DumpTool.run digit0 .rfc3743 ["Reference 1 a".toList, "0061(1,1)".toList]) (reader0 false) =
      some (.error (.duplicateReference [0x61])) := by decide +kernel

/-- **C142** A control character in the text of a reference, which the parser of tables accepts, raises an exception when the document is
written. -/
theorem control_character_wrong :
    (parse digit0 .rfc3743 ["Reference 1 a\x01".toList]).2 = .ok () ∧
    (∃ g, parse digit0 .rfc3743 ["Reference 1 a\x01".toList] = (g, .ok ()) ∧ g.refs.refs = [("1", ⟨"a\x01", none⟩)]) ∧
    (match DumpTool.run digit0 .rfc3743 ["Reference 1 a\x01".toList] with | .raised e => some e | _ => none) = some .valueError := by
  refine ⟨by decide +kernel, ⟨_, rfl, by decide +kernel⟩, by decide +kernel⟩

end Lgr.Props.C142

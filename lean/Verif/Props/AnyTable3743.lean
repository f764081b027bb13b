import Verif.Props.Spaces3743

/-!
# C161: every file, as a table in the notation of RFC 3743

What `parse_document` does with any file at all: the LGR, or the exception, in terms of the lines.
-/

namespace Lgr.Props.C161
open Lgr Tables Text LGR TableItems TableSyntax Validate C74
open C158 (Blank variants column_some column_blank insert_gives variants_proper)

/-! ## Specification -/

/-- A code point of four to six hexadecimal digits, as many as there are, possibly after `U+`, with the space after
it if there is one. `t` is its text, `r` the rest. -/
def UnitAt (s t r : List Char) : Prop :=
  ∃ u ds sp, t = u ++ ds ++ sp ∧ s = t ++ r ∧ (u = ['U', '+'] ∨ u = []) ∧ (∀ c ∈ ds, (hexVal c).isSome = true) ∧
    4 ≤ ds.length ∧ ds.length ≤ 6 ∧ (ds.length = 6 ∨ ∀ c, (sp ++ r).head? = some c → hexVal c = none) ∧
    (sp = [' '] ∨ sp = [] ∧ r.head? ≠ some ' ')

/-- Code points as far as they go. -/
inductive Run : List Char → List Char → List Char → Prop
  | last {s t r} : UnitAt s t r → (¬ ∃ t' r', UnitAt r t' r') → Run s t r
  | more {s t r q r'} : UnitAt s t r → Run r q r' → Run s (t ++ q) r'

/-- The number written by the hexadecimal digits of a word. -/
def Word (w : List Char) (x : Nat) : Prop :=
  ∃ ns, List.Forall₂ (fun c n => hexVal c = some n) (w.filter (fun c => (hexVal c).isSome)) ns ∧ x = valueOf 16 ns

/-- The words between the spaces are a sequence. -/
def Reading (q : List Char) (s : Seq) : Prop := ∃ ws, Pieces ' ' q ws ∧ [] ∉ ws ∧ List.Forall₂ Word ws s

/-- There is a space with nothing after it. -/
def Unreadable (q : List Char) : Prop := ∃ ws, Pieces ' ' q ws ∧ [] ∈ ws

/-- The references at the start of the text, if there are any, and the rest. -/
def RefsAt (digit : Char → Bool) (s : List Char) (refs : List String) (r : List Char) : Prop :=
  (∃ t, RefText digit t refs ∧ t ≠ [] ∧ s = t ++ r) ∨
  ((¬ ∃ t refs' r', RefText digit t refs' ∧ t ≠ [] ∧ s = t ++ r') ∧ refs = [] ∧ r = s)

/-- What is found in a text, from left to right: sequences with references; nothing at all if there is an unreadable one. -/
inductive Finds (digit : Char → Bool) : List Char → Option (List (Seq × List String)) → Prop
  | done : Finds digit [] (some [])
  | pass {c s res} : (¬ ∃ t r, UnitAt (c :: s) t r) → Finds digit s res → Finds digit (c :: s) res
  | bad {s q r} : Run s q r → Unreadable q → Finds digit s none
  | take {s q r cps refs r' res} : Run s q r → Reading q cps → RefsAt digit r refs r' → Finds digit r' res →
      Finds digit s (res.map (fun l => (cps, refs) :: l))

/-- A line with a code point first, and its columns, without comment. -/
def IsRow (line bt : List Char) (cols : List (List Char)) : Prop :=
  ∃ l b body t r, Trimmed line l ∧ UnitAt l t r ∧ Upto '#' l b ∧ Trimmed b body ∧ Pieces ';' body (bt :: cols)

/-- What is read of a column. -/
def ColSays (digit : Char → Bool) (c : Option (List Char)) (l : List (Seq × List String)) : Prop :=
  (Blank c ∧ l = []) ∨ ∃ s t res, c = some s ∧ Trimmed s t ∧ t ≠ [] ∧ Finds digit t res ∧ l = res.getD []

/-- The text of a base is no base unless exactly one sequence is found. -/
def NoBase (digit : Char → Bool) (bt : List Char) : Prop := ¬ ∃ p, Finds digit bt (some [p])

/-- What is read of a line, and the sequence a row without readable base would be taken for, before and after
the line. -/
inductive Reads (x : Rex) : Option Seq → List Char → List Item → Option Seq → Prop
  | other {p line its} : Means x line its → (∀ k refs, Item.base k refs ∉ its) → Reads x p line its p
  | row {p line bt cols base preferred others} : IsRow line bt cols → Finds x.digit bt (some [base]) →
      ColSays x.digit cols[0]? preferred → ColSays x.digit cols[1]? others →
      Reads x p line (.base base.1 base.2 :: variants base.1 preferred others) (some base.1)
  | stale {k line bt cols preferred others} : IsRow line bt cols → NoBase x.digit bt →
      ColSays x.digit cols[0]? preferred → ColSays x.digit cols[1]? others →
      Reads x (some k) line (variants k preferred others) (some k)
  | lost {line bt cols} : IsRow line bt cols → NoBase x.digit bt → Blank cols[0]? → Blank cols[1]? →
      Reads x none line [] none

/-- What is read of lines. -/
inductive ReadsAll (x : Rex) : Option Seq → List (List Char) → List Item → Option Seq → Prop
  | nil {p} : ReadsAll x p [] [] p
  | cons {p q r line its lines its'} : Reads x p line its q → ReadsAll x q lines its' r →
      ReadsAll x p (line :: lines) (its ++ its') r

/-- A row with something in a column of variants, but not a base. -/
def Loose (x : Rex) (line : List Char) : Prop :=
  ∃ bt cols, IsRow line bt cols ∧ NoBase x.digit bt ∧ ¬ (Blank cols[0]? ∧ Blank cols[1]?)

/-! ## Code points -/

theorem unit_iff {s t r : List Char} : UnitAt s t r ↔ seqPart s = some (t, r) := by
  constructor
  · rintro ⟨u, ds, sp, rfl, rfl, hu, hd, h4, h6, hg, hsp⟩
    have hrun : hexRun (ds ++ (sp ++ r)) = some (ds, sp ++ r) := hexRun_iff.2 ⟨rfl, h4, h6, hg, hd⟩
    have hopt : optSpace (sp ++ r) = (sp, r) := by
      rcases hsp with rfl | ⟨rfl, hr⟩
      · rfl
      · rw [List.nil_append]
        unfold optSpace
        split
        · simp at hr
        · rfl
    unfold seqPart
    rcases hu with rfl | rfl
    · have : optU (['U', '+'] ++ ds ++ sp ++ r) = (['U', '+'], ds ++ (sp ++ r)) := by simp [optU]
      rw [this]
      simp only [hrun, hopt]
    · have : optU ([] ++ ds ++ sp ++ r) = ([], ds ++ (sp ++ r)) := by
        cases ds with
        | nil => simp at h4
        | cons c ds =>
          rw [List.nil_append, List.append_assoc, List.cons_append]
          exact optU_hex (hd c (by simp))
      rw [this]
      simp only [hrun, hopt]
  · intro h
    unfold seqPart at h
    split at h
    · simp at h
    · rename_i d r0 hr
      obtain ⟨h1, h4, h6, hg, hd⟩ := hexRun_iff.1 hr
      simp only [Option.some.injEq, Prod.mk.injEq] at h
      obtain ⟨rfl, rfl⟩ := h
      have hopt : (optSpace r0).1 ++ (optSpace r0).2 = r0 ∧
          ((optSpace r0).1 = [' '] ∨ (optSpace r0).1 = [] ∧ (optSpace r0).2.head? ≠ some ' ') := by
        unfold optSpace
        split
        · exact ⟨rfl, .inl rfl⟩
        · rename_i hne
          refine ⟨rfl, .inr ⟨rfl, ?_⟩⟩
          intro hh
          cases r0 with
          | nil => simp at hh
          | cons c w =>
            simp only [List.head?_cons, Option.some.injEq] at hh
            exact hne w (by rw [hh])
      have hu : s = (optU s).1 ++ (optU s).2 ∧ ((optU s).1 = ['U', '+'] ∨ (optU s).1 = []) := by
        unfold optU
        split
        · exact ⟨rfl, .inl rfl⟩
        · exact ⟨rfl, .inr rfl⟩
      refine ⟨_, d, _, rfl, ?_, hu.2, hd, h4, h6, by rw [hopt.1]; exact hg, hopt.2⟩
      rw [List.append_assoc, hopt.1, List.append_assoc, ← h1]
      exact hu.1

theorem no_unit {s : List Char} : (¬ ∃ t r, UnitAt s t r) ↔ seqPart s = none := by
  rw [Option.eq_none_iff_forall_ne_some]
  constructor
  · rintro h ⟨t, r⟩ he
    exact h ⟨t, r, unit_iff.2 he⟩
  · rintro h ⟨t, r, hu⟩
    exact h (t, r) (unit_iff.1 hu)

theorem unit_length {s t r : List Char} (h : UnitAt s t r) : r.length < s.length := by
  obtain ⟨u, ds, sp, rfl, rfl, -, -, h4, -⟩ := h
  simp only [List.length_append]
  omega

theorem run_unit {s q r : List Char} (h : Run s q r) : ∃ t r', UnitAt s t r' := by
  cases h with
  | last h _ => exact ⟨_, _, h⟩
  | more h _ => exact ⟨_, _, h⟩

theorem run_length {s q r : List Char} (h : Run s q r) : r.length < s.length := by
  induction h with
  | last h _ => exact unit_length h
  | more h _ ih => exact lt_trans ih (unit_length h)

theorem run_parts {s q r : List Char} (h : Run s q r) (n : Nat) (hn : s.length ≤ n) : seqParts n s = (q, r) := by
  induction h generalizing n with
  | last h h' =>
    have hl := unit_length h
    cases n with
    | zero => omega
    | succ n =>
      rw [seqParts, unit_iff.1 h]
      have : ∀ r, seqPart r = none → seqParts n r = ([], r) := by
        intro r hr
        cases n with
        | zero => rfl
        | succ n => rw [seqParts, hr]
      simp only [this _ (no_unit.1 h'), List.append_nil]
  | more h _ ih =>
    have hl := unit_length h
    cases n with
    | zero => omega
    | succ n =>
      rw [seqParts, unit_iff.1 h]
      simp only [ih n (by omega)]

theorem run_exists (n : Nat) {s t r : List Char} (hn : s.length ≤ n) (h : UnitAt s t r) : ∃ q r', Run s q r' := by
  induction n generalizing s t r with
  | zero => have := unit_length h; omega
  | succ n ih =>
    have hl := unit_length h
    by_cases hr : ∃ t' r', UnitAt r t' r'
    · obtain ⟨t', r', hr⟩ := hr
      obtain ⟨q, r'', hq⟩ := ih (by omega) hr
      exact ⟨_, _, .more h hq⟩
    · exact ⟨_, _, .last h hr⟩

/-! ## Words -/

/-- Digits, each run possibly after `U+`; with `b`, also spaces. -/
inductive Clean (b : Bool) : List Char → Prop
  | nil : Clean b []
  | hex {c w} : isHex c = true → Clean b w → Clean b (c :: w)
  | pair {c w} : isHex c = true → Clean b (c :: w) → Clean b ('U' :: '+' :: c :: w)
  | space {w} : b = true → Clean b w → Clean b (' ' :: w)

theorem clean_digits {b : Bool} {ds w : List Char} (h : ∀ c ∈ ds, isHex c = true) (hw : Clean b w) : Clean b (ds ++ w) := by
  induction ds with
  | nil => exact hw
  | cons c ds ih => exact .hex (h c (by simp)) (ih (fun c hc => h c (by simp [hc])))

theorem clean_unit {s t r w : List Char} (h : UnitAt s t r) (hw : Clean true w) : Clean true (t ++ w) := by
  obtain ⟨u, ds, sp, rfl, -, hu, hd, h4, -, -, hsp⟩ := h
  have h1 : Clean true (sp ++ w) := by
    rcases hsp with rfl | ⟨rfl, -⟩
    · exact .space rfl hw
    · exact hw
  have h2 : Clean true (ds ++ (sp ++ w)) := clean_digits hd h1
  rw [List.append_assoc, List.append_assoc]
  rcases hu with rfl | rfl
  · cases ds with
    | nil => simp at h4
    | cons c ds => exact .pair (hd c (by simp)) h2
  · exact h2

theorem clean_run {s q r : List Char} (h : Run s q r) : Clean true q := by
  induction h with
  | last h _ =>
    have := clean_unit h .nil
    rwa [List.append_nil] at this
  | more h _ ih => exact clean_unit h ih

theorem join_cons (d c : Char) (w : List Char) (ws : List (List Char)) :
    join d ((c :: w) :: ws) = c :: join d (w :: ws) := by
  cases ws <;> simp [join]

theorem clean_pieces {q : List Char} (h : Clean true q) : ∃ ws, Pieces ' ' q ws ∧ ∀ w ∈ ws, Clean false w := by
  have hnil : ∀ {c : Char}, isHex c = true → c ≠ ' ' := by rintro c h rfl; exact absurd h (by decide)
  have hadd : ∀ {c : Char} {q w : List Char} {ws : List (List Char)}, c ≠ ' ' → Pieces ' ' q (w :: ws) →
      Pieces ' ' (c :: q) ((c :: w) :: ws) := by
    rintro c q w ws hc ⟨-, h2, h3⟩
    refine ⟨by simp, ?_, by rw [join_cons, h3]⟩
    intro p hp
    rcases List.mem_cons.1 hp with rfl | hp
    · intro hm
      rcases List.mem_cons.1 hm with h | h
      · exact hc h.symm
      · exact h2 w (by simp) h
    · exact h2 p (by simp [hp])
  induction h with
  | nil => exact ⟨[[]], ⟨by simp, by simp, rfl⟩, by simp [Clean.nil]⟩
  | hex hc _ ih =>
    obtain ⟨ws, h1, h2⟩ := ih
    cases ws with
    | nil => exact absurd rfl h1.1
    | cons w ws =>
      refine ⟨_, hadd (hnil hc) h1, ?_⟩
      intro p hp
      rcases List.mem_cons.1 hp with rfl | hp
      · exact .hex hc (h2 w (by simp))
      · exact h2 p (by simp [hp])
  | pair hc h' ih =>
    rename_i c q
    obtain ⟨ws, h1, h2⟩ := ih
    cases ws with
    | nil => exact absurd rfl h1.1
    | cons w ws =>
      refine ⟨_, hadd (c := 'U') (by decide) (hadd (c := '+') (by decide) h1), ?_⟩
      intro p hp
      rcases List.mem_cons.1 hp with rfl | hp
      · have hw : ∃ v, w = c :: v := by
          have he := h1.2.2
          cases w with
          | cons a v =>
            rw [join_cons] at he
            simp only [List.cons.injEq] at he
            exact ⟨v, by rw [he.1]⟩
          | nil =>
            cases ws with
            | nil => simp [join] at he
            | cons a ws =>
              simp only [join, List.nil_append, List.cons.injEq] at he
              exact absurd he.1 (hnil hc)
        obtain ⟨v, rfl⟩ := hw
        exact .pair hc (h2 _ (by simp))
      · exact h2 p (by simp [hp])
  | space _ _ ih =>
    obtain ⟨ws, h1, h2⟩ := ih
    refine ⟨[] :: ws, ⟨by simp, ?_, ?_⟩, ?_⟩
    · intro p hp
      rcases List.mem_cons.1 hp with rfl | hp
      · simp
      · exact h1.2.1 p hp
    · cases ws with
      | nil => exact absurd rfl h1.1
      | cons w ws => simp [join, h1.2.2]
    · intro p hp
      rcases List.mem_cons.1 hp with rfl | hp
      · exact .nil
      · exact h2 p hp

theorem clean_drop {w : List Char} (h : Clean false w) : dropUPlus w = w.filter isHex := by
  induction h with
  | nil => rfl
  | hex hc _ ih =>
    rw [dropUPlus, ih, List.filter_cons_of_pos hc]
    intro s hs
    exact absurd hs (hex_not hc).1
  | pair hc h' ih =>
    rename_i c w
    rw [dropUPlus, ih, List.filter_cons_of_neg (a := 'U') (by decide), List.filter_cons_of_neg (a := '+') (by decide)]
  | space h _ _ => simp at h

theorem clean_filter {w : List Char} (h : Clean false w) (hne : w ≠ []) : w.filter isHex ≠ [] := by
  cases h with
  | nil => exact absurd rfl hne
  | hex hc _ => rw [List.filter_cons_of_pos hc]; simp
  | pair hc _ =>
    rw [List.filter_cons_of_neg (by decide), List.filter_cons_of_neg (by decide), List.filter_cons_of_pos hc]
    simp
  | space h _ => simp at h

theorem word_parse {w : List Char} (h : Clean false w) (hne : w ≠ []) {x : Nat} :
    Word w x ↔ parseHex (dropUPlus w) = some x := by
  rw [clean_drop h, parseHex_iff (clean_filter h hne)]
  rfl

theorem word_exists (w : List Char) : ∃ x, Word w x := by
  obtain ⟨ns, h⟩ := (forall_hex (ds := w.filter isHex)).2 (fun c hc => (List.mem_filter.1 hc).2)
  exact ⟨_, ns, h, rfl⟩

theorem words_exist (ws : List (List Char)) : ∃ s, List.Forall₂ Word ws s := by
  induction ws with
  | nil => exact ⟨[], .nil⟩
  | cons w ws ih =>
    obtain ⟨s, h⟩ := ih
    obtain ⟨x, hx⟩ := word_exists w
    exact ⟨x :: s, .cons hx h⟩

theorem words_parse {ws : List (List Char)} {s : Seq} (h : List.Forall₂ Word ws s) (hc : ∀ w ∈ ws, Clean false w)
    (hne : [] ∉ ws) : ws.mapM (fun p => parseHex (dropUPlus p)) = some s := by
  induction h with
  | nil => rfl
  | cons h1 h2 ih =>
    rename_i w x ws s
    rw [List.mapM_cons, (word_parse (hc w (by simp)) (fun he => hne (by simp [he]))).1 h1,
      ih (fun w hw => hc w (by simp [hw])) (fun he => hne (by simp [he]))]
    rfl

theorem mapM_mem {α β : Type} {f : α → Option β} {l : List α} {a : α} (ha : a ∈ l) (h : f a = none) : l.mapM f = none := by
  induction l with
  | nil => simp at ha
  | cons b l ih =>
    rw [List.mapM_cons]
    rcases List.mem_cons.1 ha with rfl | ha
    · rw [h]; rfl
    · rw [ih ha]; cases f b <;> rfl

theorem reading_parse {s q r : List Char} (h : Run s q r) {cps : Seq} (hr : Reading q cps) :
    (splitOn ' ' q).mapM (fun p => parseHex (dropUPlus p)) = some cps := by
  obtain ⟨ws, h1, h2, h3⟩ := hr
  obtain ⟨ws', h4, h5⟩ := clean_pieces (clean_run h)
  obtain rfl := (pieces_iff.1 h1).symm.trans (pieces_iff.1 h4)
  rw [pieces_iff.1 h1]
  exact words_parse h3 h5 h2

theorem unreadable_parse {q : List Char} (hr : Unreadable q) :
    (splitOn ' ' q).mapM (fun p => parseHex (dropUPlus p)) = none := by
  obtain ⟨ws, h1, h2⟩ := hr
  rw [pieces_iff.1 h1]
  exact mapM_mem h2 rfl

theorem reading_or (q : List Char) : Unreadable q ∨ ∃ s, Reading q s := by
  have hp := pieces_iff.2 (rfl : splitOn ' ' q = splitOn ' ' q)
  by_cases h : [] ∈ splitOn ' ' q
  · exact .inl ⟨_, hp, h⟩
  · obtain ⟨s, hs⟩ := words_exist (splitOn ' ' q)
    exact .inr ⟨s, _, hp, h, hs⟩

theorem reading_ne {q : List Char} {s : Seq} (h : Reading q s) : s ≠ [] := by
  obtain ⟨ws, h1, -, h3⟩ := h
  rintro rfl
  cases h3
  exact h1.1 rfl

/-! ## References -/

theorem refTail_some {digit : Char → Bool} {s l r : List Char} (h : refTail digit s = some (l, r)) :
    (∀ c ∈ l, digit c = true) ∧ s = l.flatMap (fun c => [',', c]) ++ ')' :: r := by
  induction s using refTail.induct digit generalizing l r with
  | case1 s =>
    simp only [refTail, Option.some.injEq, Prod.mk.injEq] at h
    obtain ⟨rfl, rfl⟩ := h
    simp
  | case2 c s hd hr ih =>
    rw [refTail, if_pos hd, hr] at h
    simp at h
  | case3 c s hd l' r' hr ih =>
    rw [refTail, if_pos hd, hr] at h
    simp only [Option.some.injEq, Prod.mk.injEq] at h
    obtain ⟨rfl, rfl⟩ := h
    obtain ⟨h1, h2⟩ := ih hr
    refine ⟨?_, by simp [h2]⟩
    intro a ha
    rcases List.mem_cons.1 ha with rfl | ha
    · exact hd
    · exact h1 a ha
  | case4 c s hd =>
    rw [refTail, if_neg hd] at h
    simp at h
  | case5 s h1 h2 =>
    rw [refTail] at h
    · simp at h
    · exact h1
    · exact h2

theorem refGroup_some {digit : Char → Bool} {s l r : List Char} (h : refGroup digit s = some (l, r)) :
    ∃ t, RefText digit t (l.map (fun c => String.ofList [c])) ∧ t ≠ [] ∧ s = t ++ r := by
  unfold refGroup at h
  split at h
  · rename_i c s
    split at h
    · rename_i hd
      split at h
      · simp at h
      · rename_i l' r' hr
        simp only [Option.some.injEq, Prod.mk.injEq] at h
        obtain ⟨rfl, rfl⟩ := h
        obtain ⟨h1, rfl⟩ := refTail_some hr
        refine ⟨_, .inr ⟨c :: l', by simp, ?_, rfl, rfl⟩, by simp, ?_⟩
        · intro a ha
          rcases List.mem_cons.1 ha with rfl | ha
          · exact hd
          · exact h1 a ha
        · rw [join_single]; simp
    · simp at h
  · simp at h

theorem refs_parse {digit : Char → Bool} {s r : List Char} {refs : List String} (h : RefsAt digit s refs r) :
    (∃ cs, refGroup digit s = some (cs, r) ∧ refs = cs.map (fun c => String.ofList [c])) ∨
    (refGroup digit s = none ∧ refs = [] ∧ r = s) := by
  rcases h with ⟨t, h1, h2, rfl⟩ | ⟨h1, h2, h3⟩
  · exact .inl (refGroup_text h1 h2)
  · refine .inr ⟨?_, h2, h3⟩
    cases hg : refGroup digit s with
    | none => rfl
    | some p =>
      obtain ⟨t, h4, h5, h6⟩ := refGroup_some (l := p.1) (r := p.2) hg
      exact absurd ⟨t, _, _, h4, h5, h6⟩ h1

theorem refs_exist (digit : Char → Bool) (s : List Char) : ∃ refs r, RefsAt digit s refs r ∧ r.length ≤ s.length := by
  by_cases h : ∃ t refs' r', RefText digit t refs' ∧ t ≠ [] ∧ s = t ++ r'
  · obtain ⟨t, refs, r, h1, h2, rfl⟩ := h
    exact ⟨refs, r, .inl ⟨t, h1, h2, rfl⟩, by simp⟩
  · exact ⟨[], s, .inr ⟨h, rfl, rfl⟩, Nat.le_refl _⟩

theorem refs_length {digit : Char → Bool} {s r : List Char} {refs : List String} (h : RefsAt digit s refs r) :
    r.length ≤ s.length := by
  rcases h with ⟨t, -, -, rfl⟩ | ⟨-, -, rfl⟩ <;> simp

/-! ## Texts -/

theorem run_match {digit : Char → Bool} {s q r : List Char} (h : Run s q r) {refs : List String} {r' : List Char}
    (hr : RefsAt digit r refs r') :
    ∃ cs, match3743 digit s = some (q, cs, r') ∧ refs = cs.map (fun c => String.ofList [c]) := by
  obtain ⟨t, r'', hu⟩ := run_unit h
  unfold match3743
  rw [unit_iff.1 hu]
  simp only [run_parts h _ (Nat.le_refl _)]
  rcases refs_parse hr with ⟨cs, h1, h2⟩ | ⟨h1, rfl, rfl⟩
  · rw [h1]; exact ⟨cs, rfl, h2⟩
  · rw [h1]; exact ⟨[], rfl, rfl⟩

theorem finds_parse {digit : Char → Bool} {s : List Char} {res : Option (List (Seq × List String))}
    (h : Finds digit s res) (n : Nat) (hn : s.length ≤ n) : parseChar3743 digit n s = res := by
  induction h generalizing n with
  | done => cases n <;> rfl
  | pass h1 h2 ih =>
    rename_i c s res
    cases n with
    | zero => simp at hn
    | succ n =>
      have hm : match3743 digit (c :: s) = none := by
        unfold match3743
        rw [no_unit.1 h1]
      rw [parseChar3743, hm]
      exact ih n (by simpa using hn)
  | bad h1 h2 =>
    rename_i s q r
    obtain ⟨refs, r', hr, -⟩ := refs_exist digit r
    obtain ⟨cs, hm, -⟩ := run_match h1 hr
    have hl := run_length h1
    cases s with
    | nil => simp at hl
    | cons c s =>
      cases n with
      | zero => simp at hn
      | succ n => rw [parseChar3743, hm]; simp only [unreadable_parse h2]
  | take h1 h2 h3 h4 ih =>
    rename_i s q r cps refs r' res
    obtain ⟨cs, hm, hcs⟩ := run_match h1 h3
    have hl := run_length h1
    have hl' := refs_length h3
    cases s with
    | nil => simp at hl
    | cons c s =>
      cases n with
      | zero => simp at hn
      | succ n =>
        rw [parseChar3743, hm]
        simp only [reading_parse h1 h2]
        rw [ih n (by simp only [List.length_cons] at hl hn; omega), hcs]
        cases res <;> rfl

theorem finds_exist (digit : Char → Bool) (n : Nat) (s : List Char) (hn : s.length ≤ n) : ∃ res, Finds digit s res := by
  induction n generalizing s with
  | zero =>
    obtain rfl := List.length_eq_zero_iff.1 (Nat.le_zero.1 hn)
    exact ⟨_, .done⟩
  | succ n ih =>
    by_cases hu : ∃ t r, UnitAt s t r
    · obtain ⟨t, r, hu⟩ := hu
      obtain ⟨q, r', hq⟩ := run_exists _ (Nat.le_refl _) hu
      rcases reading_or q with h | ⟨cps, h⟩
      · exact ⟨_, .bad hq h⟩
      · obtain ⟨refs, r'', hr, hl⟩ := refs_exist digit r'
        have := run_length hq
        obtain ⟨res, hres⟩ := ih r'' (by omega)
        exact ⟨_, .take hq h hr hres⟩
    · cases s with
      | nil => exact ⟨_, .done⟩
      | cons c s =>
        obtain ⟨res, hres⟩ := ih s (by simpa using hn)
        exact ⟨_, .pass hu hres⟩

/-- What is found is what the parser finds. -/
theorem finds_iff {digit : Char → Bool} {s : List Char} {res : Option (List (Seq × List String))} :
    Finds digit s res ↔ parseChar3743 digit s.length s = res := by
  constructor
  · intro h; exact finds_parse h _ (Nat.le_refl _)
  · rintro rfl
    obtain ⟨res, h⟩ := finds_exist digit _ s (Nat.le_refl _)
    rw [finds_parse h _ (Nat.le_refl _)]
    exact h

theorem finds_ne {digit : Char → Bool} {s : List Char} {res : Option (List (Seq × List String))}
    (h : Finds digit s res) : ∀ l, res = some l → ∀ v ∈ l, v.1 ≠ [] := by
  induction h with
  | done => rintro l ⟨⟩; simp
  | pass _ _ ih => exact ih
  | bad _ _ => simp
  | take h1 h2 h3 h4 ih =>
    rename_i res
    intro l hl
    cases res with
    | none => simp at hl
    | some l' =>
      simp only [Option.map_some, Option.some.injEq] at hl
      subst hl
      intro v hv
      rcases List.mem_cons.1 hv with rfl | hv
      · exact reading_ne h2
      · exact ih l' rfl v hv

/-! ## Lines -/

theorem head_not {l t r : List Char} (h : UnitAt l t r) : ∀ c, l.head? = some c → c ≠ 'R' ∧ c ≠ 'V' ∧ c ≠ '#' := by
  obtain ⟨u, ds, sp, rfl, rfl, hu, hd, h4, -⟩ := h
  intro c hc
  rcases hu with rfl | rfl
  · simp only [List.cons_append, List.head?_cons, Option.some.injEq] at hc
    subst hc; decide
  · cases ds with
    | nil => simp at h4
    | cons d ds =>
      simp only [List.nil_append, List.cons_append, List.head?_cons, Option.some.injEq] at hc
      subst hc
      have := hex_not (c := d) (hd d (by simp))
      exact this.2.2.2

theorem row_any {x : Rex} (hw : Words x) {line bt : List Char} {cols : List (List Char)} (h : IsRow line bt cols) :
    line3743 x line = .row ⟨match parseChar3743 x.digit bt.length bt with
      | some [p] => some p
      | _ => none, column (bt :: cols) 1, column (bt :: cols) 2⟩ ∧ ∀ c ∈ cols, '#' ∉ c := by
  obtain ⟨l, b, body, t, r, h1, hu, h2, h3, h4⟩ := h
  have hh := head_not hu
  have hlne : l ≠ [] := by rintro rfl; have := unit_length hu; simp at this
  have hnc : ∀ c ∈ cols, '#' ∉ c := by
    intro c hc hm
    have hb : '#' ∈ body := by
      rw [h4.2.2]; exact mem_join (by simp [hc]) hm
    obtain ⟨⟨p, q, hpq, -⟩, -⟩ := h3
    exact h2.1 (by rw [hpq]; simp [hb])
  refine ⟨?_, hnc⟩
  unfold line3743
  rw [trimmed_iff] at h1 h3
  rw [head_upto] at h2
  rw [pieces_iff] at h4
  simp only [h1]
  rw [if_neg hlne, if_neg (fun h => (hh _ h).2.2 rfl), hw.1 l (fun h => (hh _ h).1 rfl)]
  simp only
  rw [hw.2 l (fun h => (hh _ h).2.1 rfl)]
  have hm : (match3743 x.digit l).isNone = false := by
    rw [Option.isNone_eq_false_iff, C76.match_some, unit_iff.1 hu]; rfl
  rw [if_neg (by simp), if_neg (by simp [hm]), h2, h3, h4]
  rfl

theorem col_gives {digit : Char → Bool} {bt : List Char} {cols : List (List Char)} {i : Nat}
    {l : List (Seq × List String)} (hnc : ∀ c ∈ cols, '#' ∉ c) (h : ColSays digit cols[i]? l) :
    C158.Gives digit (column (bt :: cols) (i + 1)) l := by
  rcases h with ⟨h, rfl⟩ | ⟨s, t, res, h1, h2, h3, h4, rfl⟩
  · exact .inl (.inl ⟨column_blank h, rfl⟩)
  · rw [column_some hnc h1 h2 h3]
    cases res with
    | none => exact .inr ⟨⟨t, rfl, finds_iff.1 h4⟩, rfl⟩
    | some l => exact .inl (.inr ⟨t, rfl, finds_iff.1 h4⟩)

theorem col_ne {digit : Char → Bool} {c : Option (List Char)} {l : List (Seq × List String)} (h : ColSays digit c l) :
    ∀ v ∈ l, v.1 ≠ [] := by
  rcases h with ⟨-, rfl⟩ | ⟨s, t, res, -, -, -, h4, rfl⟩
  · simp
  · cases res with
    | none => simp
    | some l => exact finds_ne h4 l rfl

theorem col_exists (digit : Char → Bool) (c : Option (List Char)) : ∃ l, ColSays digit c l := by
  by_cases hb : Blank c
  · exact ⟨[], .inl ⟨hb, rfl⟩⟩
  · cases c with
    | none => exact absurd (.inl rfl) hb
    | some s =>
      obtain ⟨res, h⟩ := finds_exist digit _ (strip s) (Nat.le_refl _)
      refine ⟨_, .inr ⟨s, strip s, res, rfl, trimmed_iff.2 rfl, ?_, h, rfl⟩⟩
      intro he
      exact hb (.inr ⟨s, rfl, trimmed_iff.2 he⟩)

theorem col_blank {bt : List Char} {cols : List (List Char)} {i : Nat} (hnc : ∀ c ∈ cols, '#' ∉ c)
    (h : ¬ Blank cols[i]?) : ∃ t, column (bt :: cols) (i + 1) = some t := by
  cases hc : cols[i]? with
  | none => exact absurd (.inl hc) h
  | some s =>
    refine ⟨strip s, column_some hnc hc (trimmed_iff.2 rfl) ?_⟩
    intro he
    exact h (.inr ⟨s, hc, trimmed_iff.2 he⟩)

theorem base_none {digit : Char → Bool} {bt : List Char} (h : NoBase digit bt) :
    (match parseChar3743 digit bt.length bt with
      | some [p] => some p
      | _ => none) = none := by
  split
  · rename_i p hp
    exact absurd ⟨p, finds_iff.2 hp⟩ h
  · rfl

/-- Every line is read, unless it is loose and there was no base before. -/
theorem reads_or (x : Rex) (p : Option Seq) (line : List Char) :
    (∃ its q, Reads x p line its q) ∨ (p = none ∧ Loose x line) := by
  have h1 := trimmed_iff.2 (rfl : strip line = strip line)
  by_cases hu : ∃ t r, UnitAt (strip line) t r
  · obtain ⟨t, r, hu⟩ := hu
    have h2 := head_upto.2 (rfl : (splitOn '#' (strip line)).headD [] = _)
    have h3 := trimmed_iff.2 (rfl : strip ((splitOn '#' (strip line)).headD []) = _)
    have h4 := pieces_iff.2 (rfl : splitOn ';' (strip ((splitOn '#' (strip line)).headD [])) = _)
    rcases hcv : splitOn ';' (strip ((splitOn '#' (strip line)).headD [])) with _ | ⟨bt, cols⟩
    · exact absurd hcv (go_ne _ _ _)
    rw [hcv] at h4
    have hrow : IsRow line bt cols := ⟨_, _, _, t, r, h1, hu, h2, h3, h4⟩
    obtain ⟨preferred, hp⟩ := col_exists x.digit cols[0]?
    obtain ⟨others, ho⟩ := col_exists x.digit cols[1]?
    by_cases hb : ∃ q, Finds x.digit bt (some [q])
    · obtain ⟨q, hb⟩ := hb
      exact .inl ⟨_, _, .row hrow hb hp ho⟩
    · cases p with
      | some k => exact .inl ⟨_, _, .stale hrow hb hp ho⟩
      | none =>
        by_cases hbl : Blank cols[0]? ∧ Blank cols[1]?
        · exact .inl ⟨_, _, .lost hrow hb hbl.1 hbl.2⟩
        · exact .inr ⟨rfl, bt, cols, hrow, hb, hbl⟩
  · left
    have hno := fun h => hu (let ⟨⟨t, r⟩, h⟩ := Option.isSome_iff_exists.1 (C76.seqPart_some.2 h); ⟨t, r, unit_iff.2 h⟩)
    cases hl : strip line with
    | nil => exact ⟨_, _, .other (.blank (hl ▸ h1)) (by simp)⟩
    | cons c l =>
      by_cases hc : c = '#'
      · subst hc
        exact ⟨_, _, .other (.comment (hl ▸ h1)) (by simp)⟩
      · cases hr : x.refLine (strip line) with
        | some v =>
          obtain ⟨v, i, k⟩ := v
          exact ⟨_, _, .other (.ref h1 (by simp [hl]) (by simp [hl, hc]) hr) (by simp)⟩
        | none =>
          cases hv : x.verLine (strip line) with
          | true => exact ⟨_, _, .other (.version h1 (by simp [hl, hc]) hr hv) (by simp)⟩
          | false => exact ⟨_, _, .other (.other h1 hr hv (fun h => hno (.inl h)) (fun h => hno (.inr h))) (by simp)⟩

theorem doc_reads {x : Rex} (hw : Words x) {valid : String → Bool} {force : Bool} {line : List Char}
    {its : List Item} {p q : Option Seq} (h : Reads x p line its q) (hp : ∀ k, p = some k → k ≠ []) (g : LGR) :
    doc3743 x valid force (g, p) line = ((its.foldl (step valid force) g, q), .ok ()) ∧ (∀ k, q = some k → k ≠ []) ∧
      ∀ it ∈ its, Proper it := by
  cases h with
  | other h1 h2 =>
    refine ⟨?_, hp, proper_means h1⟩
    rw [doc_means hw h1]
    cases its with
    | nil => rfl
    | cons i its =>
      cases i with
      | base k refs => exact absurd (by simp) (h2 k refs)
      | ref _ _ _ => rfl
      | var _ _ _ _ => rfl
  | row h1 h2 h3 h4 =>
    rename_i bt cols base preferred others
    obtain ⟨hrow, hnc⟩ := row_any hw h1
    rw [finds_iff.1 h2] at hrow
    have hs : base.1 ≠ [] := finds_ne h2 _ rfl base (by simp)
    refine ⟨?_, by rintro k ⟨⟩; exact hs, ?_⟩
    · unfold doc3743
      rw [hrow]
      have hq := base_quiet (valid := valid) (g := g) hs (refs := base.2) (force := force)
      simp only [hq]
      rw [insert_gives (valid := valid) hs (col_ne h3) (col_gives (i := 0) hnc h3)]
      simp only
      rw [insert_gives (valid := valid) hs (col_ne h4) (col_gives (i := 1) hnc h4)]
      simp [List.foldl_append, variants]
    · intro it hit
      rcases List.mem_cons.1 hit with rfl | hit
      · exact hs
      · exact variants_proper hs (col_ne h3) (col_ne h4) it hit
  | stale h1 h2 h3 h4 =>
    rename_i k bt cols preferred others
    obtain ⟨hrow, hnc⟩ := row_any hw h1
    rw [base_none h2] at hrow
    have hk := hp k rfl
    refine ⟨?_, hp, variants_proper hk (col_ne h3) (col_ne h4)⟩
    unfold doc3743
    rw [hrow]
    simp only
    rw [insert_gives (valid := valid) hk (col_ne h3) (col_gives (i := 0) hnc h3)]
    simp only
    rw [insert_gives (valid := valid) hk (col_ne h4) (col_gives (i := 1) hnc h4)]
    simp [List.foldl_append, variants]
  | lost h1 h2 h3 h4 =>
    rename_i bt cols
    obtain ⟨hrow, hnc⟩ := row_any hw h1
    rw [base_none h2, column_blank (i := 0) h3, column_blank (i := 1) h4] at hrow
    refine ⟨?_, hp, by simp⟩
    unfold doc3743
    rw [hrow]
    rfl

theorem doc_loose {x : Rex} (hw : Words x) {valid : String → Bool} {force : Bool} {line : List Char} (h : Loose x line)
    (g : LGR) : doc3743 x valid force (g, none) line = ((g, none), .error .nameError) := by
  obtain ⟨bt, cols, h1, h2, h3⟩ := h
  obtain ⟨hrow, hnc⟩ := row_any hw h1
  rw [base_none h2] at hrow
  unfold doc3743
  rw [hrow]
  simp only
  by_cases h0 : Blank cols[0]?
  · obtain ⟨t, ht⟩ := col_blank (bt := bt) (i := 1) hnc (fun hb => h3 ⟨h0, hb⟩)
    rw [column_blank (i := 0) h0, ht]
    rfl
  · obtain ⟨t, ht⟩ := col_blank (bt := bt) (i := 0) hnc h0
    rw [ht]
    rfl

theorem docs_reads {x : Rex} (hw : Words x) {valid : String → Bool} {force : Bool} {lines : List (List Char)}
    {its : List Item} {p q : Option Seq} (h : ReadsAll x p lines its q) (hp : ∀ k, p = some k → k ≠ []) (g : LGR)
    (more : List (List Char)) :
    forEach (doc3743 x valid force) (g, p) (lines ++ more) =
      forEach (doc3743 x valid force) (its.foldl (step valid force) g, q) more ∧ ∀ it ∈ its, Proper it := by
  induction h generalizing g with
  | nil => exact ⟨rfl, by simp⟩
  | cons h1 h2 ih =>
    obtain ⟨h3, h4, h5⟩ := doc_reads hw (valid := valid) (force := force) h1 hp g
    rw [List.cons_append, forEach, h3]
    simp only
    obtain ⟨h6, h7⟩ := ih h4 (List.foldl (step valid force) g _)
    refine ⟨by rw [h6, List.foldl_append], ?_⟩
    intro it hit
    rcases List.mem_append.1 hit with hit | hit
    · exact h5 it hit
    · exact h7 it hit

theorem readsAll_or (x : Rex) (p : Option Seq) (lines : List (List Char)) :
    (∃ its q, ReadsAll x p lines its q) ∨
    (∃ pre line post its, lines = pre ++ line :: post ∧ ReadsAll x p pre its none ∧ Loose x line) := by
  induction lines generalizing p with
  | nil => exact Or.inl ⟨_, _, .nil⟩
  | cons line lines ih =>
    rcases reads_or x p line with ⟨its, q, h⟩ | ⟨rfl, h⟩
    · rcases ih q with ⟨its', r, h'⟩ | ⟨pre, l, post, its', rfl, h1, h2⟩
      · exact Or.inl ⟨_, _, .cons h h'⟩
      · exact Or.inr ⟨line :: pre, l, post, _, rfl, .cons h h1, h2⟩
    · exact Or.inr ⟨[], line, lines, [], rfl, .nil, h⟩

/-- **C161** Whatever the file, either `parse_document` returns and the LGR is exactly what its lines give, the
variants of a row without a readable base being given to the base of the last row with one; or a row with
a column of variants but no base comes before all rows with a base, and `UnboundLocalError` is raised. -/
theorem any_table (x : Rex) (hw : Words x) (valid : String → Bool) (force allowInvalid : Bool) (lines : List (List Char)) :
    (∃ its q, ReadsAll x none lines its q ∧ (parse3743 x valid force allowInvalid lines).2 = .ok () ∧
      Says valid force its (parse3743 x valid force allowInvalid lines).1.1) ∨
    (∃ pre line post its, lines = pre ++ line :: post ∧ ReadsAll x none pre its none ∧ Loose x line ∧
      (parse3743 x valid force allowInvalid lines).2 = .error .nameError) := by
  rcases readsAll_or x none lines with ⟨its, q, h⟩ | ⟨pre, line, post, its, rfl, h, hl⟩
  · left
    obtain ⟨ho, hp⟩ := docs_reads hw (valid := valid) (force := force) h (by simp) { raiseInvalid := !allowInvalid } []
    rw [List.append_nil] at ho
    refine ⟨its, q, h, ?_⟩
    unfold parse3743
    rw [ho]
    exact ⟨rfl, says_items _ force _ _ hp⟩
  · right
    refine ⟨pre, line, post, its, rfl, h, hl, ?_⟩
    obtain ⟨ho, -⟩ := docs_reads hw (valid := valid) (force := force) h (by simp) { raiseInvalid := !allowInvalid }
      (line :: post)
    unfold parse3743
    rw [ho, forEach, doc_loose hw hl]

/-- **C161** The two cases exclude each other, so it is known for each file which it is. -/
theorem exclusive (x : Rex) (hw : Words x) (lines : List (List Char)) (its : List Item) (q : Option Seq)
    (h : ReadsAll x none lines its q) :
    ¬ ∃ pre line post its', lines = pre ++ line :: post ∧ ReadsAll x none pre its' none ∧ Loose x line := by
  rintro ⟨pre, line, post, its', rfl, h1, h2⟩
  obtain ⟨ho, -⟩ := docs_reads hw (valid := fun _ => false) (force := false) h (by simp) {} []
  obtain ⟨ho', -⟩ := docs_reads hw (valid := fun _ => false) (force := false) h1 (by simp) {} (line :: post)
  have hf : ∀ g, forEach (doc3743 x (fun _ => false) false) (g, none) (line :: post) = ((g, none), .error .nameError) := by
    intro g
    rw [forEach, doc_loose hw h2]
  rw [List.append_nil, ho', hf] at ho
  simp [forEach] at ho

/-- **C161** Files are read without an exception, whatever the options, exactly if no row with a column of variants
but no base comes before all rows with a base. -/
theorem returns_iff (x : Rex) (hw : Words x) (valid : String → Bool) (force allowInvalid : Bool) (lines : List (List Char)) :
    (parse3743 x valid force allowInvalid lines).2 = .ok () ↔
      ¬ ∃ pre line post its, lines = pre ++ line :: post ∧ ReadsAll x none pre its none ∧ Loose x line := by
  constructor
  · intro h
    rcases any_table x hw valid force allowInvalid lines with ⟨its, q, h1, -⟩ | ⟨_, _, _, _, -, -, -, h1⟩
    · exact exclusive x hw lines its q h1
    · rw [h] at h1; simp at h1
  · intro h
    rcases any_table x hw valid force allowInvalid lines with ⟨_, _, -, h1, -⟩ | ⟨pre, line, post, its, h1, h2, h3, -⟩
    · exact h1
    · exact absurd ⟨pre, line, post, its, h1, h2, h3⟩ h

/-- **C161** What `parse_char` returns for any text; `none` is `ValueError`. -/
theorem parse_char_exact (digit : Char → Bool) (t : List Char) (res : Option (List (Seq × List String))) :
    parseChar3743 digit t.length t = res ↔ Finds digit t res := finds_iff.symm

/-! Non-vacuity: rows with two sequences as base, after and before a row with a base; ten digits are one code point. -/

theorem isRow1 : IsRow "0061,0062;0063".toList "0061,0062".toList ["0063".toList] := by
  refine ⟨_, _, _, "0061".toList, ",0062;0063".toList, trimmed_iff.2 rfl, unit_iff.2 ?_, head_upto.2 rfl, trimmed_iff.2 rfl, pieces_iff.2 ?_⟩
  · decide +kernel
  · decide +kernel

theorem noBase1 : NoBase C74.rex1.digit "0061,0062".toList := by
  rintro ⟨p, h⟩
  have h1 : parseChar3743 C74.rex1.digit "0061,0062".toList.length "0061,0062".toList = some [([0x61], []), ([0x62], [])] := by
    decide +kernel
  have := (finds_iff.1 h).symm.trans h1
  simp at this

example : Loose C74.rex1 "0061,0062;0063".toList := by
  refine ⟨_, _, isRow1, noBase1, ?_⟩
  rintro ⟨h | ⟨s, h, h'⟩, -⟩
  · simp at h
  · simp only [List.getElem?_cons_zero, Option.some.injEq] at h
    subst h
    exact absurd (trimmed_iff.1 h') (by decide +kernel)

example : (parse3743 C74.rex1 (fun _ => true) false false ["# c".toList, "0061,0062;0063".toList]).2 = .error .nameError ∧
    (parse3743 C74.rex1 (fun _ => true) false false ["0064".toList, "0061,0062;0063".toList]).2 = .ok () := by
  decide +kernel

example : Finds C74.rex1.digit "1234567890".toList (some [([0x1234567890], [])]) := finds_iff.2 (by decide +kernel)

end Lgr.Props.C161

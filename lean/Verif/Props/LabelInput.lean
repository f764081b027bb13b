import Verif.LabelInput
import Verif.Props.ClassXml
import Verif.Props.Text
import Mathlib.Tactic.IntervalCases

/-!
# C108 Labels are read as they are written

`lgr/tools/utils.py` 30-71, 135-236. What the lines of a file of labels say, independently of the functions of the
model: comments, white space around labels, the three notations of a label.
-/

namespace Lgr.Props.C108
open Lgr Text LabelInput TableSyntax C102

/-! ## What a line says -/

/-- The string starts with the prefix of A-labels. -/
def Ace (s : List Char) : Prop :=
  ∃ x n r, s = x :: n :: '-' :: '-' :: r ∧ (x = 'x' ∨ x = 'X') ∧ (n = 'n' ∨ n = 'N')

/-- The string contains the prefix of code points. -/
def Uplus (s : List Char) : Prop :=
  ∃ a u b, s = a ++ u :: '+' :: b ∧ (u = 'u' ∨ u = 'U')

/-- A word is a character, or a number in hexadecimal with or without prefix. -/
inductive Point : List Char → Nat → Prop where
  | char (c : Char) : Point [c] c.toNat
  | prefixed (u : Char) (d : List Char) (n : Nat) : (u = 'u' ∨ u = 'U') → Hex d n → n ≤ 0x10FFFF →
      Point (u :: '+' :: d) n
  | bare (w : List Char) (n : Nat) : w.length ≠ 1 → Hex w n → n ≤ 0x10FFFF → Point w n

/-- The label denoted by a string: an A-label, code points, or itself. -/
inductive Denotes (dec : List Char → Except Err Seq) : List Char → Seq → Prop where
  | ace (s : List Char) (l : Seq) : Ace s → dec s = .ok l → Denotes dec s l
  | points (s : List Char) (ws : List (List Char)) (l : Seq) : ¬ Ace s → ' ' ∈ s ∨ Uplus s → Words s ws →
      List.Forall₂ Point ws l → Denotes dec s l
  | plain (s : List Char) : ¬ Ace s → ' ' ∉ s → ¬ Uplus s → Denotes dec s (s.map Char.toNat)

/-- `s` is what is on the line, without byte order marks in front and white space around. -/
def Content (line s : List Char) : Prop :=
  ∃ a r, line = a ++ r ∧ (∀ c ∈ a, c.toNat = 0xFEFF) ∧ (∀ c, r.head? = some c → c.toNat ≠ 0xFEFF) ∧ Trimmed r s

/-- What is yielded for a line: nothing, a comment, a label or a string that denotes no label. -/
inductive Says (dec : List Char → Except Err Seq) (keep : Bool) : List Char → Option Read → Prop where
  | drop (line s r : List Char) : keep = false → Content line s → s = '#' :: r → Says dec keep line none
  | keep (line s r : List Char) : keep = true → Content line s → s = '#' :: r →
      Says dec keep line (some ⟨s, s.map Char.toNat, true, none⟩)
  | blank (line s p : List Char) : Content line s → s.head? ≠ some '#' → Upto '#' s p → Trimmed p [] →
      Says dec keep line none
  | label (line s p t : List Char) (l : Seq) : Content line s → s.head? ≠ some '#' → Upto '#' s p → Trimmed p t →
      t ≠ [] → Denotes dec t l → Says dec keep line (some ⟨t, l, true, some none⟩)
  | bad (line s p t : List Char) (e : Err) : Content line s → s.head? ≠ some '#' → Upto '#' s p → Trimmed p t →
      t ≠ [] → (∀ l, ¬ Denotes dec t l) → parseInput dec false t = .error e →
      Says dec keep line (some ⟨t, t.map Char.toNat, false, some (some e)⟩)

/-! ## Strings -/

theorem ace_iff {s : List Char} : isAce s = true ↔ Ace s := by
  constructor
  · intro h
    unfold isAce at h
    split at h
    · rename_i x n r
      simp only [Bool.and_eq_true, Bool.or_eq_true, beq_iff_eq] at h
      exact ⟨x, n, r, rfl, h⟩
    · cases h
  · rintro ⟨x, n, r, rfl, h1, h2⟩
    simp [isAce, h1, h2]

theorem uplus_iff {s : List Char} : hasUplus s = true ↔ Uplus s := by
  induction s with
  | nil => simp [hasUplus, Uplus]
  | cons c s ih =>
    rw [hasUplus, Bool.or_eq_true, Bool.and_eq_true, Bool.or_eq_true, ih]
    simp only [beq_iff_eq]
    constructor
    · rintro (⟨h1, h2⟩ | ⟨a, u, b, rfl, h⟩)
      · cases s with
        | nil => cases h2
        | cons d s => cases h2; exact ⟨[], c, s, rfl, h1⟩
      · exact ⟨c :: a, u, b, rfl, h⟩
    · rintro ⟨a, u, b, h, hu⟩
      cases a with
      | nil =>
        simp only [List.nil_append, List.cons.injEq] at h
        obtain ⟨rfl, rfl⟩ := h
        exact Or.inl ⟨hu, rfl⟩
      | cons d a =>
        simp only [List.cons_append, List.cons.injEq] at h
        exact Or.inr ⟨a, u, b, h.2, hu⟩

theorem plus_not_hex {c : Char} {w : List Char} {n : Nat} : ¬ Hex (c :: '+' :: w) n := by
  rintro ⟨-, ns, h, -⟩
  cases h with
  | cons _ h => cases h with
    | cons h _ => exact absurd h (by simp [show hexVal '+' = none by decide])

theorem point_iff {w : List Char} {n : Nat} (hw : strip w = w) : parseSingleCp w = .ok n ↔ Point w n := by
  unfold parseSingleCp
  simp only [hw]
  by_cases h1 : w.length = 1
  · rw [if_pos h1]
    obtain ⟨c, rfl⟩ := List.length_eq_one_iff.1 h1
    constructor
    · intro h; cases h; exact .char c
    · intro h
      cases h with
      | char => rfl
      | bare _ _ h => exact absurd h1 h
  · rw [if_neg h1]
    by_cases h2 : w.take 2 = ['U', '+'] ∨ w.take 2 = ['u', '+']
    · rw [if_pos h2]
      obtain ⟨u, d, rfl, hu⟩ : ∃ u d, w = u :: '+' :: d ∧ (u = 'u' ∨ u = 'U') := by
        match w, h1, h2 with
        | [], _, h2 => simp at h2
        | a :: b :: d, _, h2 =>
          simp only [List.take_succ_cons, List.take_zero, List.cons.injEq, and_true] at h2
          rcases h2 with ⟨rfl, rfl⟩ | ⟨rfl, rfl⟩
          · exact ⟨_, _, rfl, Or.inr rfl⟩
          · exact ⟨_, _, rfl, Or.inl rfl⟩
      simp only [List.drop_succ_cons, List.drop_zero]
      constructor
      · intro h
        rcases hp : parseHex d with _ | v <;> rw [hp] at h
        · cases h
        · simp only at h
          split at h
          · cases h
          · rename_i hv
            cases h
            exact .prefixed u d _ hu (hex_iff.1 hp) (by omega)
      · intro h
        cases h with
        | prefixed _ _ _ _ h3 h4 => rw [hex_iff.2 h3]; simp only; rw [if_neg (by omega)]
        | bare _ _ _ h3 h4 => exact absurd h3 plus_not_hex
    · rw [if_neg h2]
      constructor
      · intro h
        rcases hp : parseHex w with _ | v <;> rw [hp] at h
        · cases h
        · simp only at h
          split at h
          · cases h
          · rename_i hv
            cases h
            exact .bare w _ h1 (hex_iff.1 hp) (by omega)
      · intro h
        cases h with
        | char => exact absurd rfl h1
        | prefixed u d _ hu h3 h4 =>
          rcases hu with rfl | rfl <;> simp at h2
        | bare _ _ _ h3 h4 => rw [hex_iff.2 h3]; simp only; rw [if_neg (by omega)]

theorem words_nospace {s : List Char} {ws : List (List Char)} (h : Words s ws) :
    ∀ w ∈ ws, ∀ c ∈ w, isSpace c = false := by
  induction h with
  | nil => simp
  | cons sp w rest ws _ _ h3 _ _ ih =>
    intro x hx
    rcases List.mem_cons.1 hx with rfl | hx
    · exact h3
    · exact ih x hx

theorem mapM_forall {α β : Type} {f : α → Except Err β} {R : α → β → Prop} :
    ∀ {l : List α} {m : List β}, (∀ a ∈ l, ∀ b, f a = .ok b ↔ R a b) →
      (l.mapM f = .ok m ↔ List.Forall₂ R l m)
  | [], m, _ => by
    constructor
    · intro h; cases h; exact .nil
    · intro h; cases h; rfl
  | a :: l, m, h => by
    have ih := fun m => mapM_forall (l := l) (m := m) (fun x hx => h x (by simp [hx]))
    rw [List.mapM_cons]
    rcases hf : f a with e | b
    · constructor
      · intro h'; cases h'
      · intro h'
        cases h' with
        | cons h1 _ => rw [← h a (by simp), hf] at h1; cases h1
    · rcases hl : l.mapM f with e | bs
      · constructor
        · intro h'; cases h'
        · intro h'
          cases h' with
          | cons _ h2 => rw [← ih, hl] at h2; cases h2
      · constructor
        · intro h'
          cases h'
          exact .cons ((h a (by simp) b).1 hf) ((ih bs).1 hl)
        · intro h'
          cases h' with
          | cons h1 h2 =>
            rw [← h a (by simp), hf] at h1
            rw [← ih, hl] at h2
            cases h1; cases h2
            rfl

theorem strip_word {w : List Char} (h : ∀ c ∈ w, isSpace c = false) : strip w = w :=
  trimmed_iff.1 ⟨⟨[], [], by simp, by simp, by simp⟩,
    fun c hc => h c (List.mem_of_mem_head? (by rw [hc]; rfl)), fun c hc => h c (List.mem_of_getLast? hc)⟩

theorem points_iff {s : List Char} {ws : List (List Char)} {l : Seq} (h : Words s ws) :
    parseCodepointInput s = .ok l ↔ List.Forall₂ Point ws l := by
  unfold parseCodepointInput
  rw [words_split h]
  exact mapM_forall (fun w hw n => point_iff (strip_word (words_nospace h w hw)))

/-- A string is taken for the label it denotes. -/
theorem denotes_iff {dec : List Char → Except Err Seq} {s : List Char} {l : Seq} :
    parseInput dec false s = .ok l ↔ Denotes dec s l := by
  unfold parseInput
  by_cases h1 : isAce s = true
  · rw [if_pos h1]
    have ha := ace_iff.1 h1
    constructor
    · exact .ace s l ha
    · intro h
      cases h with
      | ace _ _ h => exact h
      | points _ _ h => exact absurd ha h
      | plain h => exact absurd ha h
  · rw [if_neg h1]
    have ha : ¬ Ace s := fun h => h1 (ace_iff.2 h)
    by_cases h2 : ' ' ∈ s ∨ hasUplus s = true
    · rw [if_pos h2]
      have hu : ' ' ∈ s ∨ Uplus s := h2.imp_right uplus_iff.1
      obtain ⟨ws, hws⟩ := words_exist s
      constructor
      · intro h
        rcases hp : parseCodepointInput s with e | cps <;> rw [hp] at h
        · simp only at h
          split at h
          · cases h
          · cases h
        · cases h
          exact .points s ws _ ha hu hws ((points_iff hws).1 hp)
      · intro h
        cases h with
        | ace _ h _ => exact absurd h ha
        | points ws' _ _ _ hw' hf => rw [(points_iff hw').2 hf]
        | plain _ h3 h4 => rcases hu with h | h; exacts [absurd h h3, absurd h h4]
    · rw [if_neg h2]
      constructor
      · intro h; cases h
        exact .plain s ha (fun h => h2 (Or.inl h)) (fun h => h2 (Or.inr (uplus_iff.2 h)))
      · intro h
        cases h with
        | ace _ h _ => exact absurd h ha
        | points _ _ _ h3 => exact absurd (h3.imp_right uplus_iff.2) h2
        | plain => rfl

theorem content_iff {line s : List Char} : Content line s ↔ clean line = s := by
  unfold clean
  constructor
  · rintro ⟨a, r, rfl, h1, h2, h3⟩
    rw [dropWhile_app (by simpa using h1) (fun c hc => by simpa using h2 c hc)]
    exact trimmed_iff.1 h3
  · rintro rfl
    obtain ⟨a, h1, h2, h3⟩ := dropWhile_split (fun c : Char => c.toNat == 0xFEFF) line
    exact ⟨a, _, h1, fun c hc => by simpa using h2 c hc, fun c hc => by simpa using h3 c hc, trimmed_iff.2 rfl⟩

theorem not_takeWhile (s : List Char) : '#' ∉ s.takeWhile (· != '#') := by
  induction s with
  | nil => simp
  | cons c s ih =>
    by_cases hc : c = '#'
    · rw [List.takeWhile_cons_of_neg (by simp [hc])]; simp
    · rw [List.takeWhile_cons_of_pos (by simpa using hc)]
      simp [Ne.symm hc, ih]

theorem takeWhile_self {s : List Char} (h : '#' ∉ s) : s.takeWhile (· != '#') = s := by
  induction s with
  | nil => rfl
  | cons c s ih =>
    simp only [List.mem_cons, not_or] at h
    rw [List.takeWhile_cons_of_pos (by simpa using Ne.symm h.1), ih h.2]

theorem upto_takeWhile {s p : List Char} : Upto '#' s p ↔ s.takeWhile (· != '#') = p := by
  rw [head_upto]
  suffices h : (splitOn '#' s).headD [] = s.takeWhile (· != '#') by rw [h]
  refine head_upto.1 ⟨not_takeWhile s, ?_⟩
  induction s with
  | nil => exact Or.inl rfl
  | cons c s ih =>
    by_cases hc : c = '#'
    · exact Or.inr ⟨s, by rw [hc, List.takeWhile_cons_of_neg (by simp)]; rfl⟩
    · rw [List.takeWhile_cons_of_pos (by simpa using hc)]
      rcases ih with h | ⟨r, h⟩
      · exact Or.inl (by rw [← h])
      · exact Or.inr ⟨r, by rw [List.cons_append, ← h]⟩

/-- The text of a label: before the first `#`, trimmed. -/
theorem text_eq (line : List Char) : (if '#' ∈ clean line then strip ((clean line).takeWhile (· != '#'))
    else clean line) = strip ((clean line).takeWhile (· != '#')) := by
  split
  · rfl
  · rename_i h
    rw [takeWhile_self h]
    have := trimmed_iff.2 (rfl : clean line = clean line)
    exact (trimmed_iff.1 ⟨⟨[], [], by simp, by simp, by simp⟩, this.2⟩).symm

/-- Without exceptions, a line gives exactly what it says. -/
theorem says_iff {dec : List Char → Except Err Seq} {keep : Bool} {line : List Char} {o : Option Read} :
    readLine dec false keep line = .ok o ↔ Says dec keep line o := by
  unfold readLine
  simp only [text_eq]
  by_cases h1 : (clean line).head? = some '#'
  · rw [if_pos h1]
    obtain ⟨r, hr⟩ : ∃ r, clean line = '#' :: r := by
      cases hc : clean line with
      | nil => rw [hc] at h1; cases h1
      | cons c r => rw [hc] at h1; cases h1; exact ⟨r, rfl⟩
    constructor
    · intro h
      cases keep
      · cases h; exact .drop line _ r rfl (content_iff.2 rfl) hr
      · cases h; exact .keep line _ r rfl (content_iff.2 rfl) hr
    · intro h
      cases h with
      | drop s _ hk => rw [hk]; rfl
      | keep s _ hk hc => rw [hk, content_iff.1 hc]; rfl
      | blank s _ hc hh => rw [content_iff.1 hc] at h1; exact absurd h1 hh
      | label s _ _ _ hc hh => rw [content_iff.1 hc] at h1; exact absurd h1 hh
      | bad s _ _ _ hc hh => rw [content_iff.1 hc] at h1; exact absurd h1 hh
  · rw [if_neg h1]
    generalize hc : clean line = s at h1 ⊢
    generalize hp : s.takeWhile (· != '#') = p
    generalize ht : strip p = t
    have hcont := content_iff.2 hc
    have hup := upto_takeWhile.2 hp
    have htr := trimmed_iff.2 ht
    have key : ∀ {s' p' t'}, Content line s' → Upto '#' s' p' → Trimmed p' t' → t' = t := by
      intro s' p' t' a b c
      rw [content_iff, hc] at a
      subst a
      rw [upto_takeWhile, hp] at b
      subst b
      rw [trimmed_iff, ht] at c
      exact c.symm
    have hhash : ∀ {s' r}, Content line s' → s' = '#' :: r → False := by
      intro s' r a b
      rw [content_iff, hc] at a
      rw [a, b] at h1
      exact h1 rfl
    by_cases h2 : t = []
    · rw [if_pos h2]
      subst h2
      constructor
      · intro h; cases h; exact .blank line s p hcont h1 hup htr
      · intro h
        cases h with
        | drop s' r _ hc' hr => exact (hhash hc' hr).elim
        | keep s' r _ hc' hr => exact (hhash hc' hr).elim
        | blank => rfl
        | label s' p' t' _ a _ b c d => exact absurd (key a b c) d
        | bad s' p' t' _ a _ b c d => exact absurd (key a b c) d
    · rw [if_neg h2]
      unfold parseLabelInput
      constructor
      · intro h
        rcases hi : parseInput dec false t with e | l <;> rw [hi] at h
        · cases h
          exact .bad line s p t e hcont h1 hup htr h2
            (fun l hl => by rw [denotes_iff.2 hl] at hi; cases hi) hi
        · cases h
          exact .label line s p t l hcont h1 hup htr h2 (denotes_iff.1 hi)
      · intro h
        cases h with
        | drop s' r _ hc' hr => exact (hhash hc' hr).elim
        | keep s' r _ hc' hr => exact (hhash hc' hr).elim
        | blank s' p' a _ b c => exact absurd (key a b c).symm h2
        | label s' p' t' l a _ b c d e =>
          cases key a b c
          rw [denotes_iff.2 e]
        | bad s' p' t' e a _ b c d _ f =>
          cases key a b c
          rw [f]; rfl

/-! ## Files -/

/-- Without `do_raise`, reading never raises, and gives for each line, in order, what the line says. -/
theorem labels_read_partial (dec : List Char → Except Err Seq) (keep : Bool) (lines : List (List Char)) :
    ∃ os, List.Forall₂ (Says dec keep) lines os ∧
      readLabels dec false keep lines = (os.flatMap Option.toList, .ok ()) := by
  induction lines with
  | nil => exact ⟨[], .nil, rfl⟩
  | cons l ls ih =>
    obtain ⟨os, h1, h2⟩ := ih
    rcases hl : readLine dec false keep l with e | o
    · exfalso
      unfold readLine at hl
      simp only [text_eq] at hl
      split at hl
      · cases hl
      · generalize strip _ = t at hl
        split at hl
        · cases hl
        · unfold parseLabelInput at hl
          rcases hi : parseInput dec false t with e | x <;> rw [hi] at hl <;> cases hl
    · refine ⟨o :: os, .cons (says_iff.1 hl) h1, ?_⟩
      rw [readLabels, hl, h2]
      rfl

/-- What a line says is determined by the line. -/
theorem says_unique {dec : List Char → Except Err Seq} {keep : Bool} {line : List Char} {o o' : Option Read}
    (h : Says dec keep line o) (h' : Says dec keep line o') : o = o' := by
  have := (says_iff.2 h).symm.trans (says_iff.2 h')
  cases this; rfl

/-- Reading stops at the first line that denotes no label, with `do_raise`; before it, what is yielded is
what is yielded without. -/
theorem raise_first (dec : List Char → Except Err Seq) (keep : Bool) (lines : List (List Char)) :
    ((readLabels dec true keep lines).2 = .ok () ∧ (∀ r ∈ (readLabels dec false keep lines).1, r.valid = true) ∧
      (readLabels dec true keep lines).1 = (readLabels dec false keep lines).1) ∨
    ∃ pre bad post r e, lines = pre ++ bad :: post ∧ Says dec keep bad (some r) ∧ r.valid = false ∧
      r.error = some (some e) ∧ readLabels dec true keep lines = ((readLabels dec false keep pre).1, .error e) ∧
      ∀ r ∈ (readLabels dec false keep pre).1, r.valid = true := by
  induction lines with
  | nil => exact Or.inl ⟨rfl, by simp [readLabels], rfl⟩
  | cons l ls ih =>
    have key : (∃ o, readLine dec true keep l = .ok o ∧ readLine dec false keep l = .ok o ∧
        ∀ r ∈ o.toList, r.valid = true) ∨
        ∃ e r, readLine dec true keep l = .error e ∧ readLine dec false keep l = .ok (some r) ∧ r.valid = false ∧
          r.error = some (some e) := by
      unfold readLine
      simp only [text_eq]
      split
      · refine Or.inl ⟨_, rfl, rfl, ?_⟩
        intro r hr
        cases keep
        · simp at hr
        · simp only [if_true, Option.toList_some, List.mem_singleton] at hr; rw [hr]
      · generalize strip _ = t
        split
        · exact Or.inl ⟨_, rfl, rfl, by simp⟩
        · unfold parseLabelInput
          rcases hi : parseInput dec false t with e | x
          · exact Or.inr ⟨e, _, rfl, rfl, rfl, rfl⟩
          · exact Or.inl ⟨_, rfl, rfl, by simp⟩
    rcases key with ⟨o, h1, h2, h3⟩ | ⟨e, r, h1, h2, h3, h4⟩
    · rcases ih with ⟨i1, i2, i3⟩ | ⟨pre, bad, post, r, e, i1, i2, i3, i4, i5, i6⟩
      · refine Or.inl ?_
        rw [readLabels, readLabels, h1, h2]
        refine ⟨i1, ?_, by simp only [i3]⟩
        intro r hr
        rcases List.mem_append.1 hr with hr | hr
        · exact h3 r hr
        · exact i2 r hr
      · refine Or.inr ⟨l :: pre, bad, post, r, e, by rw [i1]; rfl, i2, i3, i4, ?_, ?_⟩
        · rw [readLabels, readLabels, h1, h2, i5]
        · rw [readLabels, h2]
          intro r hr
          rcases List.mem_append.1 hr with hr | hr
          · exact h3 r hr
          · exact i6 r hr
    · exact Or.inr ⟨[], l, ls, r, e, rfl, says_iff.1 h2, h3, h4, by simp [readLabels, h1], by simp [readLabels]⟩

/-! ## Labels written on lines -/

/-- White space. -/
def Blank (s : List Char) : Prop := ∀ c ∈ s, isSpace c = true

/-- Nothing, or a comment. -/
def Remark (s : List Char) : Prop := s = [] ∨ ∃ r, s = '#' :: r

/-- A line with a label: possibly byte order marks, white space, the text, white space, a comment. -/
def Written (t line : List Char) : Prop :=
  ∃ b sp sp' c, line = b ++ sp ++ t ++ sp' ++ c ∧ (∀ x ∈ b, x.toNat = 0xFEFF) ∧ Blank sp ∧ Blank sp' ∧ Remark c

/-- A text that can stand on a line by itself. -/
def Sound (t : List Char) : Prop :=
  t ≠ [] ∧ '#' ∉ t ∧ (∀ c, t.head? = some c → isSpace c = false ∧ c.toNat ≠ 0xFEFF) ∧
    ∀ c, t.getLast? = some c → isSpace c = false

theorem space_ne_bom {c : Char} (h : isSpace c = true) : c.toNat ≠ 0xFEFF := by
  intro e
  rw [isSpace, e] at h
  exact absurd h (by decide)

theorem space_ne_hash {c : Char} (h : isSpace c = true) : c ≠ '#' := by
  rintro rfl; exact absurd h (by decide)

theorem written_says {dec : List Char → Except Err Seq} {keep : Bool} {t line : List Char} {l : Seq}
    (hw : Written t line) (hs : Sound t) (hd : Denotes dec t l) :
    Says dec keep line (some ⟨t, l, true, some none⟩) := by
  obtain ⟨b, sp, sp', c, rfl, h1, h2, h3, h4⟩ := hw
  obtain ⟨s1, s2, s3, s4⟩ := hs
  have hhead : ∀ x, (sp ++ t ++ sp' ++ c).head? = some x → x.toNat ≠ 0xFEFF := by
    intro x hx
    cases sp with
    | cons y sp => cases hx; exact space_ne_bom (h2 _ (by simp))
    | nil =>
      cases t with
      | nil => exact absurd rfl s1
      | cons y t => cases hx; exact (s3 _ rfl).2
  obtain ⟨y, t', rfl⟩ := List.exists_cons_of_ne_nil s1
  rcases h4 with rfl | ⟨r, rfl⟩
  · refine .label _ (y :: t') (y :: t') (y :: t') l ⟨b, sp ++ y :: t' ++ sp' ++ [], by simp, h1, hhead, ?_⟩ ?_ ⟨s2, Or.inl rfl⟩ ?_ s1 hd
    · exact ⟨⟨sp, sp', by simp, h2, h3⟩, fun c hc => (s3 c hc).1, s4⟩
    · rintro h; cases h; simp at s2
    · exact ⟨⟨[], [], by simp, by simp, by simp⟩, fun c hc => (s3 c hc).1, s4⟩
  · have hh : ∃ u, Content (b ++ sp ++ y :: t' ++ sp' ++ '#' :: r) (y :: t' ++ sp' ++ '#' :: u) := by
      have hx := trimmed_iff.2 (rfl : strip ('#' :: r) = strip ('#' :: r))
      obtain ⟨⟨p, q, e, hp, hq⟩, g1, g2⟩ := hx
      cases p with
      | cons z p =>
        simp only [List.cons_append, List.cons.injEq] at e
        exact absurd (hp z (by simp)) (by rw [← e.1]; decide)
      | nil =>
        rw [List.nil_append] at e
        rcases hst : strip ('#' :: r) with _ | ⟨z, u⟩
        · rw [hst, List.nil_append] at e
          exact absurd (hq '#' (by rw [← e]; simp)) (by decide)
        · rw [hst, List.cons_append] at e
          obtain ⟨rfl, e⟩ := List.cons.inj e
          refine ⟨u, b, sp ++ y :: t' ++ sp' ++ '#' :: r, by simp, h1, hhead, ⟨sp, q, by simp [e], h2, hq⟩, ?_, ?_⟩
          · intro c hc; cases hc; exact (s3 _ rfl).1
          · intro c hc
            rw [hst] at g2
            rw [List.getLast?_append] at hc
            rcases hl : ('#' :: u).getLast? with _ | w
            · simp at hl
            · rw [hl] at hc
              cases hc
              exact g2 c hl
    obtain ⟨u, hu⟩ := hh
    refine .label _ _ (y :: t' ++ sp') (y :: t') l hu ?_ ⟨?_, Or.inr ⟨u, by simp⟩⟩ ?_ s1 hd
    · rintro h; cases h; simp at s2
    · intro h
      rcases List.mem_append.1 h with h | h
      · exact s2 h
      · exact space_ne_hash (h3 _ h) rfl
    · exact ⟨⟨[], sp', by simp, by simp, h3⟩, fun c hc => (s3 c hc).1, s4⟩

/-- A file with one label per line is read as these labels. -/
theorem written_read {dec : List Char → Except Err Seq} {keep : Bool} {ts : List (List Char)}
    {lines : List (List Char)} {ls : List Seq} (hw : List.Forall₂ Written ts lines) (hs : ∀ t ∈ ts, Sound t)
    (hd : List.Forall₂ (Denotes dec) ts ls) :
    (readLabels dec false keep lines).1.map (fun r => (r.label, r.valid)) = ls.map (fun l => (l, true)) := by
  induction hw generalizing ls with
  | nil => cases hd; rfl
  | cons h _ ih =>
    cases hd with
    | cons hd1 hd2 =>
      rw [readLabels, says_iff.2 (written_says h (hs _ (by simp)) hd1)]
      simp only [Option.toList_some, List.singleton_append, List.map_cons]
      rw [ih (fun t ht => hs t (by simp [ht])) hd2]

/-- A string taken for itself. -/
def Simple (s : List Char) : Prop :=
  s ≠ [] ∧ (∀ c ∈ s, isSpace c = false) ∧ '#' ∉ s ∧ ¬ Uplus s ∧ ¬ Ace s ∧ ∀ c, s.head? = some c → c.toNat ≠ 0xFEFF

theorem simple_sound {s : List Char} (h : Simple s) : Sound s :=
  ⟨h.1, h.2.2.1, fun c hc => ⟨h.2.1 c (List.mem_of_mem_head? (by rw [hc]; rfl)), h.2.2.2.2.2 c hc⟩,
    fun c hc => h.2.1 c (List.mem_of_getLast? hc)⟩

theorem simple_denotes {dec : List Char → Except Err Seq} {s : List Char} (h : Simple s) :
    Denotes dec s (s.map Char.toNat) :=
  .plain s h.2.2.2.2.1 (fun hc => absurd (h.2.1 _ hc) (by decide)) h.2.2.2.1

/-- Simple labels, one per line, with white space and comments around, are read as they are. -/
theorem u_labels_read {dec : List Char → Except Err Seq} {keep : Bool} {ss lines : List (List Char)}
    (hw : List.Forall₂ Written ss lines) (hs : ∀ s ∈ ss, Simple s) :
    (readLabels dec false keep lines).1.map (fun r => (r.label, r.valid)) =
      ss.map (fun s => (s.map Char.toNat, true)) := by
  have hd : List.Forall₂ (Denotes dec) ss (ss.map (fun s => s.map Char.toNat)) := by
    rw [List.forall₂_map_right_iff]
    exact List.forall₂_same.2 (fun s h => simple_denotes (hs s h))
  rw [written_read hw (fun t ht => simple_sound (hs t ht)) hd, List.map_map]
  rfl

/-- Simple labels read are read the same when their list is given back to the reader. -/
theorem reread {dec : List Char → Except Err Seq} {keep : Bool} {ss : List (List Char)} (hs : ∀ s ∈ ss, Simple s) :
    (readLabels dec false keep ss).1.map (fun r => (r.label, r.valid)) =
      ss.map (fun s => (s.map Char.toNat, true)) :=
  u_labels_read (List.forall₂_same.2 (fun s _ => ⟨[], [], [], [], by simp, by simp, fun _ h => (by cases h),
    fun _ h => (by cases h), Or.inl rfl⟩)) hs

/-! ## Labels written as code points -/

theorem join_last (sep : Char) : ∀ (l : List (List Char)) (w : List Char), l.getLast? = some w → w ≠ [] →
    (join sep l).getLast? = w.getLast?
  | [], _, h, _ => by cases h
  | [x], w, h, _ => by cases h; rfl
  | x :: y :: l, w, h, hw => by
    rw [join, List.getLast?_append, List.getLast?_cons]
    have ih := join_last sep (y :: l) w (by rwa [List.getLast?_cons_cons] at h) hw
    rw [ih]
    obtain ⟨z, hz⟩ : ∃ z, w.getLast? = some z := ⟨w.getLast hw, List.getLast?_eq_getLast hw⟩
    rw [hz]; rfl

theorem mem_join {sep x : Char} : ∀ {l : List (List Char)}, x ∈ join sep l → x = sep ∨ ∃ w ∈ l, x ∈ w
  | [], h => by simp [join] at h
  | [w], h => Or.inr ⟨w, by simp, h⟩
  | w :: v :: l, h => by
    rw [join, List.mem_append, List.mem_cons] at h
    rcases h with h | h | h
    · exact Or.inr ⟨w, by simp, h⟩
    · exact Or.inl h
    · rcases mem_join h with h | ⟨u, h1, h2⟩
      · exact Or.inl h
      · exact Or.inr ⟨u, by simp [h1], h2⟩

theorem format_head (c : Nat) (cps : Seq) : ∃ r, formatCp (c :: cps) = 'U' :: '+' :: r := by
  cases cps with
  | nil => exact ⟨_, rfl⟩
  | cons d cps => exact ⟨_, rfl⟩

theorem cpToStr_hash (c : Nat) : '#' ∉ cpToStr c := by
  obtain ⟨l, h, h1, -⟩ := cpToStr_digits c
  rw [h]
  intro hm
  obtain ⟨d, hd, he⟩ := List.mem_map.1 hm
  have := h1 d hd
  revert he
  interval_cases d <;> decide

theorem format_sound {cps : Seq} (h : cps ≠ []) : Sound (formatCp cps) := by
  obtain ⟨c, l, rfl⟩ := List.exists_cons_of_ne_nil h
  obtain ⟨r, hr⟩ := format_head c l
  refine ⟨by rw [hr]; simp, ?_, ?_, ?_⟩
  · intro hh
    rcases mem_join hh with hh | ⟨w, hw, hx⟩
    · exact absurd hh (by decide)
    · obtain ⟨d, -, rfl⟩ := List.mem_map.1 hw
      simp only [List.mem_cons] at hx
      rcases hx with hx | hx | hx
      · exact absurd hx (by decide)
      · exact absurd hx (by decide)
      · exact cpToStr_hash d hx
  · intro x hx
    rw [hr] at hx
    cases hx
    exact ⟨by decide, by decide⟩
  · intro x hx
    obtain ⟨d, hd⟩ : ∃ d, (c :: l).getLast? = some d := ⟨_, List.getLast?_eq_getLast (by simp)⟩
    have hl := join_last ' ' ((c :: l).map (fun c => 'U' :: '+' :: cpToStr c)) ('U' :: '+' :: cpToStr d)
      (by rw [List.getLast?_map, hd]; rfl) (by simp)
    rw [formatCp, hl] at hx
    have hm := List.mem_of_getLast? hx
    simp only [List.mem_cons] at hm
    rcases hm with rfl | rfl | hm
    · decide
    · decide
    · exact (cpToStr_nospace d x hm).1

theorem format_denotes {dec : List Char → Except Err Seq} {cps : Seq} (h : cps ≠ [])
    (hc : ∀ c ∈ cps, c ≤ 0x10FFFF) : Denotes dec (formatCp cps) cps := by
  obtain ⟨c, l, rfl⟩ := List.exists_cons_of_ne_nil h
  obtain ⟨r, hr⟩ := format_head c l
  rw [← denotes_iff]
  unfold parseInput
  rw [if_neg (fun h => by
    obtain ⟨x, n, r', e, hx, -⟩ := ace_iff.1 h
    rw [hr] at e; cases e; rcases hx with hx | hx <;> exact absurd hx (by decide)), if_pos (Or.inr (by rw [hr]; rfl)), C35.format_cp_round_trip _ hc]

/-- Labels written as code points (`U+0061 U+0062`), one per line, are read as they are, whatever their code points. -/
theorem code_points_read {dec : List Char → Except Err Seq} {keep : Bool} {ls : List Seq}
    {lines : List (List Char)} (hw : List.Forall₂ Written (ls.map formatCp) lines)
    (hl : ∀ l ∈ ls, l ≠ [] ∧ ∀ c ∈ l, c ≤ 0x10FFFF) :
    (readLabels dec false keep lines).1.map (fun r => (r.label, r.valid)) = ls.map (fun l => (l, true)) := by
  refine written_read hw ?_ ?_
  · intro t ht
    obtain ⟨l, h, rfl⟩ := List.mem_map.1 ht
    exact format_sound (hl l h).1
  · rw [List.forall₂_map_left_iff]
    exact List.forall₂_same.2 (fun l h => format_denotes (hl l h).1 (hl l h).2)

/-! ## Examples -/

/-- A file: byte order mark, comment, blank line, labels. -/
def file1 : List (List Char) :=
  [(Char.ofNat 0xFEFF) :: " abc # first".toList, "# comment".toList, "".toList, "U+0061 0062\t".toList,
    "xn--x".toList, "ab u+zz".toList]

def dec1 : List Char → Except Err Seq := fun s => if s = "xn--x".toList then .ok [0xE9] else .error .valueError

example : (readLabels dec1 false false file1).1.map (fun r => (r.label, r.valid)) =
    [([97, 98, 99], true), ([97, 98], true), ([0xE9], true), ("ab u+zz".toList.map Char.toNat, false)] := by
  decide +kernel

example : readLabels dec1 true false file1 =
    ((readLabels dec1 false false (file1.take 5)).1, .error .valueError) := by
  decide +kernel

example : Simple "abc".toList := by
  refine ⟨by decide, by decide, by decide, ?_, ?_, by decide⟩
  · rw [← uplus_iff]; decide
  · rw [← ace_iff]; decide

example : Written "abc".toList (file1.headD []) :=
  ⟨[Char.ofNat 0xFEFF], [' '], [' '], "# first".toList, by decide, by decide, by unfold Blank; decide,
    by unfold Blank; decide, Or.inr ⟨" first".toList, rfl⟩⟩

/-! ## Violations -/

/-- Full statement: a string accepted that is neither an A-label nor code points contains no white space. -/
def NoWhite (dec : List Char → Except Err Seq) : Prop :=
  ∀ line r, readLine dec false false line = .ok (some r) → r.valid = true → r.label = r.orig.map Char.toNat →
    ∀ c ∈ r.orig, isSpace c = false

/-- Only the space is looked for: code points separated by a tabulation are a label that contains it. -/
theorem tab_wrong (dec : List Char → Except Err Seq) : ¬ NoWhite dec := by
  intro h
  have := h "0061\t0062".toList ⟨"0061\t0062".toList, "0061\t0062".toList.map Char.toNat, true, some none⟩
    (by rfl) rfl rfl '\t' (by decide)
  exact absurd this (by decide)

/-- With spaces only, the statement holds. -/
theorem no_space_partial {dec : List Char → Except Err Seq} {s : List Char} (h : ¬ Ace s) (hs : ' ' ∈ s) {l : Seq}
    (hd : parseInput dec false s = .ok l) : ∃ ws, Words s ws ∧ List.Forall₂ Point ws l := by
  cases denotes_iff.1 hd with
  | ace _ h' => exact absurd h' h
  | points ws _ _ _ h1 h2 => exact ⟨ws, h1, h2⟩
  | plain _ h' => exact absurd hs h'

/-- Full statement: valid labels read are read again as they are. -/
def Reread (dec : List Char → Except Err Seq) : Prop :=
  ∀ line r t, readLine dec false false line = .ok (some r) → r.valid = true → t.map Char.toNat = r.label →
    ∃ r', readLine dec false false t = .ok (some r') ∧ r'.label = r.label

/-- The label `#`, given as a code point, is a comment when its string is read again
(`lgr/tools/annotate.py` 83, `lgr/tools/diff_collisions.py` 597). -/
theorem reread_wrong (dec : List Char → Except Err Seq) : ¬ Reread dec := by
  intro h
  obtain ⟨r', h1, -⟩ := h "U+0023".toList ⟨"U+0023".toList, [35], true, some none⟩ ['#'] (by rfl) rfl rfl
  cases h1

end Lgr.Props.C108

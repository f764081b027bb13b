import Verif.Props.AnyTable3743
import Verif.Props.DumpTool

/-!
# C163: `Reference` lines of RFC 3743 tables
-/

namespace Lgr.Props.C163
open Lgr LGR Text Tables DumpTool TableItems TableSyntax C161
open C142 (Digit Sharp Note RefLine reference_line rex_words ref_head afterWord_iff someSpaces_iff digit_sharp digit0 digit0_ok)

/-! ## Specification -/

/-- White space, at least one character. -/
def Gap (w : List Char) : Prop := w ≠ [] ∧ ∀ c ∈ w, isSpace c = true

/-- Nothing, or a comment. -/
def Remark (rest : List Char) (k : Option String) : Prop :=
  rest = [] ∧ k = none ∨ ∃ w t, rest = '#' :: (w ++ t) ∧ (∀ c ∈ w, isSpace c = true) ∧ Sharp t ∧ k = some (String.ofList t)

/-- A line `Reference number value`, possibly with a comment: the number, the value, the white space before the comment, and
the comment. -/
def Written (digit : Char → Bool) (l num v w : List Char) (k : Option String) : Prop :=
  ∃ w1 w2 rest, Gap w1 ∧ Gap w2 ∧ (num ≠ [] ∧ ∀ c ∈ num, digit c = true) ∧
    (v ≠ [] ∧ '#' ∉ v ∧ Sharp v ∧ Sharp v.reverse) ∧ (∀ c ∈ w, isSpace c = true) ∧ Remark rest k ∧
    l = "Reference".toList ++ (w1 ++ (num ++ (w2 ++ (v ++ (w ++ rest)))))

/-- The line of a file gives the reference. -/
def Gives (digit : Char → Bool) (line : List Char) (i v : String) (k : Option String) : Prop :=
  ∃ l, Trimmed line l ∧ RefLine digit l v i k

/-! ## Reference lines -/

theorem remark_note {rest : List Char} {k : Option String} (h : Remark rest k) :
    (rest = [] ∨ rest.head? = some '#') ∧ Note rest k := by
  rcases h with ⟨rfl, rfl⟩ | ⟨w, t, rfl, h1, h2, rfl⟩
  · exact ⟨.inl rfl, .inl ⟨by simp, rfl⟩⟩
  · exact ⟨.inr rfl, .inr ⟨w, t, rfl, h1, h2, rfl⟩⟩

/-- **C163** A line `Reference number value # comment`: a number of one digit is read, with the value, to which the white space before
the comment is added; one of more digits is not. -/
theorem written_exact {digit : Char → Bool} (hd : Digit digit) {l num v w : List Char} {k : Option String}
    (h : Written digit l num v w k) :
    refMatch digit l = if num.length = 1 then some (String.ofList (v ++ w), String.ofList num, k) else none := by
  obtain ⟨w1, w2, rest, h1, h2, ⟨h3, h4⟩, ⟨h5, h6, h7, -⟩, h8, h9, rfl⟩ := h
  cases num with
  | nil => exact absurd rfl h3
  | cons c num =>
    have hc := h4 c (by simp)
    cases num with
    | nil =>
      rw [if_pos (by simp)]
      obtain ⟨r1, r2⟩ := remark_note h9
      refine (reference_line hd).2 ⟨w1, c, w2, v ++ w, rest, by simp, h1.2, h1.1, hc, h2.2, h2.1, by simp [h5], ?_, .inl ?_, r1, r2, rfl, rfl⟩
      · intro hc
        rcases List.mem_append.1 hc with hc | hc
        · exact h6 hc
        · exact absurd (h8 _ hc) (by decide)
      · intro x hx
        cases v with
        | nil => exact absurd rfl h5
        | cons a b => exact h7 x (by simpa using hx)
    | cons c' num =>
      rw [if_neg (by simp)]
      have hc' := hd.space c' (h4 c' (by simp))
      unfold refMatch
      rw [afterWord_iff.2 rfl]
      dsimp only
      unfold refAfter
      rw [List.cons_append, List.cons_append, someSpaces_iff.2 ⟨w1, rfl, h1.2, h1.1, digit_sharp hd hc⟩]
      dsimp only
      rw [if_pos hc]
      have : refValue (c' :: (num ++ (w2 ++ (v ++ (w ++ rest))))) = none := by
        unfold refValue
        simp only
        rw [if_pos (List.takeWhile_cons_of_neg (by rw [hc']; simp))]
      rw [this]
      rfl

/-- Reference lines are read as they are written. -/
def ReadAsWritten : Prop :=
  ∀ digit, Digit digit → ∀ l num v w k, Written digit l num v w k →
    refMatch digit l = some (String.ofList v, String.ofList num, k)

/-- A reference line with a number of two digits. -/
theorem written12 : Written digit0 "Reference 12 x".toList "12".toList "x".toList [] none :=
  ⟨[' '], [' '], [], ⟨by simp, by decide⟩, ⟨by simp, by decide⟩, ⟨by decide, by decide⟩,
    ⟨by decide, by decide, by intro c hc; cases hc; decide, by intro c hc; cases hc; decide⟩, by simp, .inl ⟨rfl, rfl⟩, by decide⟩

/-- A reference line with a comment. -/
theorem writtenComment : Written digit0 "Reference 1 x # y".toList "1".toList "x".toList " ".toList (some "y") :=
  ⟨[' '], [' '], "# y".toList, ⟨by simp, by decide⟩, ⟨by simp, by decide⟩, ⟨by decide, by decide⟩,
    ⟨by decide, by decide, by intro c hc; cases hc; decide, by intro c hc; cases hc; decide⟩, by decide,
    .inr ⟨[' '], ['y'], by decide, by decide, by intro c hc; cases hc; decide, by decide⟩, by decide⟩

/-- **C163** is violated: `Reference 12 x` is not read. -/
theorem number_wrong : ¬ ReadAsWritten := by
  intro h
  have := h digit0 digit0_ok _ _ _ _ _ written12
  rw [written_exact digit0_ok written12, if_neg (by decide)] at this
  cases this

/-- **C163** is violated: the value of `Reference 1 x # y` is `x` and a space. -/
theorem comment_wrong : ∃ l v w k, Written digit0 l "1".toList v w k ∧
    refMatch digit0 l ≠ some (String.ofList v, "1", k) ∧ refMatch digit0 l = some ("x ", "1", some "y") := by
  refine ⟨_, _, _, _, writtenComment, ?_, ?_⟩ <;> rw [written_exact digit0_ok writtenComment] <;> decide

/-- **C163**, partial: lines with a number of one digit, and no white space before a comment, are read as they are written. Missing: the
other ones (`number_wrong`, `comment_wrong`); what they are read as is `written_exact`. -/
theorem written_partial {digit : Char → Bool} (hd : Digit digit) {l v : List Char} {c : Char} {k : Option String}
    (h : Written digit l [c] v [] k) : refMatch digit l = some (String.ofList v, String.ofList [c], k) := by
  rw [written_exact hd h, if_pos (by simp), List.append_nil]

example : Written digit0 "Reference 1 The Unicode Standard".toList ['1'] "The Unicode Standard".toList [] none :=
  ⟨[' '], [' '], [], ⟨by simp, by decide⟩, ⟨by simp, by decide⟩, ⟨by decide, by decide⟩,
    ⟨by decide, by decide, by intro c hc; cases hc; decide, by intro c hc; cases hc; decide⟩, by simp, .inl ⟨rfl, rfl⟩, by decide⟩

/-! ## The references of a table -/

/-- The reference that an item defines. -/
def refOf : Item → Option (String × String × Option String)
  | .ref i v k => some (v, i, k)
  | _ => none

theorem variants_refs (k : Seq) (p o : List (Seq × List String)) : (C158.variants k p o).filterMap refOf = [] := by
  rw [List.filterMap_eq_nil_iff]
  intro it hit
  unfold C158.variants at hit
  rcases List.mem_append.1 hit with h | h <;> obtain ⟨v, -, rfl⟩ := List.mem_map.1 h <;> rfl

theorem row_refs {digit : Char → Bool} {line bt : List Char} {cols : List (List Char)} (h : IsRow line bt cols) :
    refMatch digit (strip line) = none := by
  obtain ⟨l, b, body, t, r, h1, h2, -⟩ := h
  rw [trimmed_iff.1 h1]
  exact (rex_words digit).1 l (fun hh => (head_not h2 _ hh).1 rfl)

theorem means_refs {digit : Char → Bool} {line : List Char} {its : List Item} (h : C74.Means (rex digit) line its)
    (hb : ∀ k refs, Item.base k refs ∉ its) : its.filterMap refOf = (refMatch digit (strip line)).toList := by
  cases h with
  | blank h => rw [trimmed_iff.1 h]; rfl
  | comment h =>
    have hr : refMatch digit (strip line) = none := (rex_words digit).1 _ (by rw [trimmed_iff.1 h]; simp)
    rw [hr]
    rfl
  | other h hr _ _ _ => rw [trimmed_iff.1 h, show refMatch digit _ = none from hr]; rfl
  | version h _ hr _ => rw [trimmed_iff.1 h, show refMatch digit _ = none from hr]; rfl
  | ref h _ _ hr => rw [trimmed_iff.1 h, show refMatch digit _ = some _ from hr]; rfl
  | row _ => exact absurd (List.mem_cons_self) (hb _ _)

theorem reads_refs {digit : Char → Bool} {p q : Option Seq} {line : List Char} {its : List Item} (h : Reads (rex digit) p line its q) :
    its.filterMap refOf = (refMatch digit (strip line)).toList := by
  cases h with
  | other h hb => exact means_refs h hb
  | row h _ _ _ =>
    rw [row_refs h, List.filterMap_cons_none (f := refOf) rfl, variants_refs]
    rfl
  | stale h _ _ _ => rw [row_refs h, variants_refs]; rfl
  | lost h _ _ _ => rw [row_refs h]; rfl

theorem readsAll_refs {digit : Char → Bool} {p q : Option Seq} {lines : List (List Char)} {its : List Item}
    (h : ReadsAll (rex digit) p lines its q) : its.filterMap refOf = lines.filterMap (fun l => refMatch digit (strip l)) := by
  induction h with
  | nil => rfl
  | cons h _ ih =>
    rw [List.filterMap_append, reads_refs h, ih, List.filterMap_cons]
    cases refMatch digit (strip _) <;> rfl

theorem find_split {α β} (f : α → Option β) (p : β → Bool) (l : List α) (z : β) : (l.filterMap f).find? p = some z ↔
    ∃ pre a post, l = pre ++ a :: post ∧ f a = some z ∧ p z = true ∧ ∀ b ∈ pre, ∀ y, f b = some y → p y = false := by
  induction l with
  | nil => simp
  | cons x l ih =>
    have hdown : (∃ pre a post, x :: l = pre ++ a :: post ∧ f a = some z ∧ p z = true ∧ ∀ b ∈ pre, ∀ y, f b = some y → p y = false) ↔
        (f x = some z ∧ p z = true) ∨ ((∀ y, f x = some y → p y = false) ∧
          ∃ pre a post, l = pre ++ a :: post ∧ f a = some z ∧ p z = true ∧ ∀ b ∈ pre, ∀ y, f b = some y → p y = false) := by
      constructor
      · rintro ⟨pre, a, post, h1, h2, h3, h4⟩
        cases pre with
        | nil =>
          cases h1
          exact .inl ⟨h2, h3⟩
        | cons b pre =>
          cases h1
          exact .inr ⟨h4 x (by simp), pre, a, post, rfl, h2, h3, fun b hb => h4 b (by simp [hb])⟩
      · rintro (⟨h1, h2⟩ | ⟨h1, pre, a, post, rfl, h2, h3, h4⟩)
        · exact ⟨[], x, l, rfl, h1, h2, by simp⟩
        · refine ⟨x :: pre, a, post, rfl, h2, h3, ?_⟩
          intro b hb
          rcases List.mem_cons.1 hb with rfl | hb
          · exact h1
          · exact h4 b hb
    rw [hdown, ← ih]
    cases hx : f x with
    | none => rw [List.filterMap_cons_none hx]; simp
    | some y =>
      rw [List.filterMap_cons_some hx, List.find?_cons]
      cases hp : p y with
      | true =>
        simp only [Option.some.injEq]
        constructor
        · rintro rfl; exact .inl ⟨rfl, hp⟩
        · rintro (⟨h, -⟩ | ⟨h, -⟩)
          · exact h
          · rw [h y rfl] at hp; cases hp
      | false =>
        simp only [Option.some.injEq]
        constructor
        · intro h; exact .inr ⟨by rintro _ rfl; exact hp, h⟩
        · rintro (⟨rfl, h⟩ | ⟨-, h⟩)
          · rw [h] at hp; cases hp
          · exact h

theorem first_find {valid : String → Bool} {items : List Item} {i v : String} {k : Option String} :
    (∃ pre, First (IsRef valid i) items pre (.ref i v k)) ↔
      valid i = true ∧ (items.filterMap refOf).find? (fun z => z.2.1 == i) = some (v, i, k) := by
  rw [find_split]
  constructor
  · rintro ⟨pre, ⟨post, rfl⟩, ⟨hv, -⟩, h⟩
    refine ⟨hv, pre, _, post, rfl, rfl, by simp, ?_⟩
    intro b hb y hy
    obtain ⟨p1, p2, rfl⟩ := List.append_of_mem hb
    have := h p1 b p2 rfl
    cases b with
    | ref j v' k' =>
      cases hy
      simp only [beq_eq_false_iff_ne]
      rintro rfl
      exact this ⟨hv, v', k', rfl⟩
    | base _ _ => cases hy
    | var _ _ _ _ => cases hy
  · rintro ⟨hv, pre, a, post, rfl, ha, -, h⟩
    cases a with
    | ref j v' k' =>
      cases ha
      refine ⟨pre, ⟨post, rfl⟩, ⟨hv, v, k, rfl⟩, ?_⟩
      rintro p1 it p2 rfl ⟨-, v2, k2, rfl⟩
      have := h (.ref i v2 k2) (by simp) _ rfl
      simp at this
    | base _ _ => cases ha
    | var _ _ _ _ => cases ha

/-- **C163** The references of an LGR read from any file: for each identifier which is one, what the first line giving a
reference with it gives. -/
theorem table_references {digit : Char → Bool} (hd : Digit digit) (valid : String → Bool) (force allowInvalid : Bool)
    (lines : List (List Char)) (hok : (parse3743 (rex digit) valid force allowInvalid lines).2 = .ok ()) (i : String) (r : Ref) :
    dget (parse3743 (rex digit) valid force allowInvalid lines).1.1.refs.refs i = some r ↔
      valid i = true ∧ ∃ pre line post, lines = pre ++ line :: post ∧ Gives digit line i r.value r.comment ∧
        ∀ l ∈ pre, ¬ ∃ v k, Gives digit l i v k := by
  rcases any_table (rex digit) (rex_words digit) valid force allowInvalid lines with ⟨its, q, h1, -, h2⟩ | ⟨_, _, _, _, -, -, -, h⟩
  · rw [h2.refs, first_find, readsAll_refs h1, find_split]
    have hg : ∀ {line : List Char} {j v : String} {k : Option String},
        Gives digit line j v k ↔ refMatch digit (strip line) = some (v, j, k) := by
      intro line j v k
      rw [reference_line hd]
      constructor
      · rintro ⟨l, h1, h2⟩
        rw [trimmed_iff.1 h1]
        exact h2
      · intro h
        exact ⟨_, trimmed_iff.2 rfl, h⟩
    simp only [hg]
    refine and_congr_right (fun _ => exists_congr fun pre => exists_congr fun line => exists_congr fun post => and_congr_right fun _ =>
      and_congr_right fun _ => ?_)
    constructor
    · rintro ⟨-, h⟩ l hl ⟨v, k, hm⟩
      have := h l hl _ hm
      simp at this
    · intro h
      refine ⟨by simp, ?_⟩
      rintro b hb ⟨v, j, k⟩ hy
      simp only [beq_eq_false_iff_ne]
      rintro rfl
      exact h b hb ⟨v, k, hy⟩
  · rw [hok] at h
    cases h

/-- The first of two lines for a number counts. -/
def table2 : List (List Char) := ["Reference 1 x".toList, "Reference 2 y # z".toList, "Reference 1 y".toList, "Reference 12 y".toList]

example : (parse3743 (rex digit0) (fun i => MetaXml.refIdOk i.toList) false false table2).2 = .ok () := by decide +kernel

example : dget (parse3743 (rex digit0) (fun i => MetaXml.refIdOk i.toList) false false table2).1.1.refs.refs "1" = some ⟨"x", none⟩ := by
  decide +kernel

end Lgr.Props.C163

import Verif.Props.Tables

/-!
# C159: every file, as a table in the notation of RFC 4290

What `parse_document` does with any file at all: the LGR, or the exception, in terms of the lines.
-/

namespace Lgr.Props.C159
open Lgr Tables Text LGR TableItems TableSyntax Validate C73

/-- What is read of a line, and the sequence to which variants would go in a row without readable base, before and
after the line. -/
inductive Reads : Option Seq → List Char → List Item → Option Seq → Prop
  | skip {p line} : (¬ ∃ b vs, Row line b vs) → Reads p line [] p
  | row {p line b vs s its} : Row line b vs → CharSays b s → VarsSay s vs its →
      Reads p line (.base s [] :: its) (some s)
  | stale {k line b vs its} : Row line b vs → (¬ ∃ s, CharSays b s) → VarsSay k vs its →
      Reads (some k) line its (some k)
  | lost {line b vs} : Row line b vs → (¬ ∃ s, CharSays b s) → (∀ t ∈ vs, ¬ ∃ v, CharSays t v) →
      Reads none line [] none

/-- What is read of lines. -/
inductive ReadsAll : Option Seq → List (List Char) → List Item → Option Seq → Prop
  | nil {p} : ReadsAll p [] [] p
  | cons {p q r line its lines its'} : Reads p line its q → ReadsAll q lines its' r →
      ReadsAll p (line :: lines) (its ++ its') r

/-- A row with a variant, but not a base. -/
def Loose (line : List Char) : Prop :=
  ∃ b vs, Row line b vs ∧ (¬ ∃ s, CharSays b s) ∧ ∃ t ∈ vs, ∃ v, CharSays t v

theorem vars_exist (k : Seq) (vs : List (List Char)) : ∃ its, VarsSay k vs its := by
  induction vs with
  | nil => exact ⟨[], .nil⟩
  | cons t ts ih =>
    obtain ⟨its, h⟩ := ih
    by_cases hc : ∃ v, CharSays t v
    · obtain ⟨v, hv⟩ := hc
      exact ⟨_, .good hv h⟩
    · exact ⟨_, .bad hc h⟩

/-- Every line is read, unless it is loose and there was no base before. -/
theorem reads_or (p : Option Seq) (line : List Char) : (∃ its q, Reads p line its q) ∨ (p = none ∧ Loose line) := by
  by_cases hr : ∃ b vs, Row line b vs
  · obtain ⟨b, vs, hr⟩ := hr
    by_cases hc : ∃ s, CharSays b s
    · obtain ⟨s, hs⟩ := hc
      obtain ⟨its, h⟩ := vars_exist s vs
      exact Or.inl ⟨_, _, .row hr hs h⟩
    · cases p with
      | some k =>
        obtain ⟨its, h⟩ := vars_exist k vs
        exact Or.inl ⟨_, _, .stale hr hc h⟩
      | none =>
        by_cases hv : ∃ t ∈ vs, ∃ v, CharSays t v
        · exact Or.inr ⟨rfl, b, vs, hr, hc, hv⟩
        · exact Or.inl ⟨_, _, .lost hr hc (fun t ht hv' => hv ⟨t, ht, hv'⟩)⟩
  · exact Or.inl ⟨_, _, .skip hr⟩

theorem lost_vars {force : Bool} {vs : List (List Char)} (h : ∀ t ∈ vs, ¬ ∃ v, CharSays t v) (g : LGR) :
    forEach (var4290 force none) g (vs.map parseChar4290) = (g, .ok ()) := by
  induction vs with
  | nil => rfl
  | cons t ts ih =>
    rw [List.map_cons, charSays_none.2 (h t (by simp)), forEach]
    simp only [var4290]
    exact ih (fun t ht => h t (by simp [ht]))

theorem loose_vars {force : Bool} {vs : List (List Char)} (h : ∃ t ∈ vs, ∃ v, CharSays t v) (g : LGR) :
    forEach (var4290 force none) g (vs.map parseChar4290) = (g, .error .nameError) := by
  induction vs with
  | nil => obtain ⟨t, ht, -⟩ := h; simp at ht
  | cons t ts ih =>
    rw [List.map_cons, forEach]
    cases hp : parseChar4290 t with
    | some v => simp only [var4290]
    | none =>
      simp only [var4290]
      apply ih
      obtain ⟨t', ht', hv⟩ := h
      rcases List.mem_cons.1 ht' with rfl | ht'
      · exact absurd hv (charSays_none.1 hp)
      · exact ⟨t', ht', hv⟩

theorem doc_reads {valid : String → Bool} {force : Bool} {line : List Char} {its : List Item} {p q : Option Seq}
    (h : Reads p line its q) (hp : ∀ k, p = some k → k ≠ []) (g : LGR) :
    doc4290 force (g, p) line = ((its.foldl (step valid force) g, q), .ok ()) ∧ (∀ k, q = some k → k ≠ []) ∧
      ∀ it ∈ its, Proper it := by
  cases h with
  | skip h =>
    refine ⟨?_, hp, by simp⟩
    unfold doc4290
    rw [row_none.2 h]
    rfl
  | row h1 h2 h3 =>
    rename_i b vs s its
    have hs := charSays_ne h2
    refine ⟨?_, by rintro k ⟨⟩; exact hs, ?_⟩
    · unfold doc4290
      rw [row_iff.2 ⟨_, _, h1, rfl⟩]
      have hq := base_quiet (valid := valid) (g := g) hs (refs := []) (force := force)
      simp only [charSays_iff.2 h2, hq]
      rw [vars_fold hs h3]
      rfl
    · intro it hit
      rcases List.mem_cons.1 hit with rfl | hit
      · exact hs
      · exact proper_vars hs h3 it hit
  | stale h1 h2 h3 =>
    rename_i k b vs
    refine ⟨?_, hp, proper_vars (hp k rfl) h3⟩
    unfold doc4290
    rw [row_iff.2 ⟨_, _, h1, rfl⟩]
    simp only [charSays_none.2 h2]
    rw [vars_fold (hp k rfl) h3]
  | lost h1 h2 h3 =>
    refine ⟨?_, hp, by simp⟩
    unfold doc4290
    rw [row_iff.2 ⟨_, _, h1, rfl⟩]
    simp only [charSays_none.2 h2]
    rw [lost_vars h3]
    rfl

theorem doc_loose {force : Bool} {line : List Char} (h : Loose line) (g : LGR) :
    doc4290 force (g, none) line = ((g, none), .error .nameError) := by
  obtain ⟨b, vs, h1, h2, h3⟩ := h
  unfold doc4290
  rw [row_iff.2 ⟨_, _, h1, rfl⟩]
  simp only [charSays_none.2 h2]
  rw [loose_vars h3]

theorem docs_reads {valid : String → Bool} {force : Bool} {lines : List (List Char)} {its : List Item}
    {p q : Option Seq} (h : ReadsAll p lines its q) (hp : ∀ k, p = some k → k ≠ []) (g : LGR)
    (more : List (List Char)) :
    forEach (doc4290 force) (g, p) (lines ++ more) = forEach (doc4290 force) (its.foldl (step valid force) g, q) more ∧
      ∀ it ∈ its, Proper it := by
  induction h generalizing g with
  | nil => exact ⟨rfl, by simp⟩
  | cons h1 h2 ih =>
    obtain ⟨h3, h4, h5⟩ := doc_reads (valid := valid) (force := force) h1 hp g
    rw [List.cons_append, forEach, h3]
    simp only
    obtain ⟨h6, h7⟩ := ih h4 (List.foldl (step valid force) g _)
    refine ⟨by rw [h6, List.foldl_append], ?_⟩
    intro it hit
    rcases List.mem_append.1 hit with hit | hit
    · exact h5 it hit
    · exact h7 it hit

theorem readsAll_or (p : Option Seq) (lines : List (List Char)) :
    (∃ its q, ReadsAll p lines its q) ∨
    (∃ pre line post its, lines = pre ++ line :: post ∧ ReadsAll p pre its none ∧ Loose line) := by
  induction lines generalizing p with
  | nil => exact Or.inl ⟨_, _, .nil⟩
  | cons line lines ih =>
    rcases reads_or p line with ⟨its, q, h⟩ | ⟨rfl, h⟩
    · rcases ih q with ⟨its', r, h'⟩ | ⟨pre, l, post, its', rfl, h1, h2⟩
      · exact Or.inl ⟨_, _, .cons h h'⟩
      · exact Or.inr ⟨line :: pre, l, post, _, rfl, .cons h h1, h2⟩
    · exact Or.inr ⟨[], line, lines, [], rfl, .nil, h⟩

theorem readsAll_none {p q : Option Seq} {lines : List (List Char)} {its : List Item} (h : ReadsAll p lines its q)
    (hq : q = none) : p = none ∧ its = [] := by
  induction h with
  | nil => exact ⟨hq, rfl⟩
  | cons h1 h2 ih =>
    obtain ⟨rfl, rfl⟩ := ih hq
    cases h1 with
    | skip _ => exact ⟨rfl, rfl⟩
    | lost _ _ _ => exact ⟨rfl, rfl⟩

/-- **C159** Whatever the file, either `parse_document` returns and the LGR is exactly what its lines give, the
variants of a row without a readable base being given to the base of the last row with one; or a row with
a variant but no base comes before all rows with a base, and `UnboundLocalError` is raised. -/
theorem any_table (force allowInvalid : Bool) (lines : List (List Char)) :
    (∃ its q, ReadsAll none lines its q ∧ (parse4290 force allowInvalid lines).2 = .ok () ∧
      Says (fun _ => false) force its (parse4290 force allowInvalid lines).1.1) ∨
    (∃ pre line post, lines = pre ++ line :: post ∧ ReadsAll none pre [] none ∧ Loose line ∧
      (parse4290 force allowInvalid lines).2 = .error .nameError) := by
  rcases readsAll_or none lines with ⟨its, q, h⟩ | ⟨pre, line, post, its, rfl, h, hl⟩
  · left
    obtain ⟨ho, hp⟩ := docs_reads (valid := fun _ => false) (force := force) h (by simp)
      { raiseInvalid := !allowInvalid } []
    rw [List.append_nil] at ho
    refine ⟨its, q, h, ?_⟩
    unfold parse4290
    rw [ho]
    exact ⟨rfl, says_items _ force _ _ hp⟩
  · right
    obtain rfl := (readsAll_none h rfl).2
    refine ⟨pre, line, post, rfl, h, hl, ?_⟩
    obtain ⟨ho, -⟩ := docs_reads (valid := fun _ => false) (force := force) h (by simp)
      { raiseInvalid := !allowInvalid } (line :: post)
    unfold parse4290
    rw [ho, forEach, doc_loose hl]

/-- **C159** The two cases exclude each other, so it is known for each file which it is. -/
theorem exclusive (lines : List (List Char)) (its : List Item) (q : Option Seq) (h : ReadsAll none lines its q) :
    ¬ ∃ pre line post, lines = pre ++ line :: post ∧ ReadsAll none pre [] none ∧ Loose line := by
  rintro ⟨pre, line, post, rfl, h1, h2⟩
  obtain ⟨ho, -⟩ := docs_reads (valid := fun _ => false) (force := false) h (by simp) {} []
  obtain ⟨ho', -⟩ := docs_reads (valid := fun _ => false) (force := false) h1 (by simp) {} (line :: post)
  have hf : ∀ g, forEach (doc4290 false) (g, none) (line :: post) = ((g, none), .error .nameError) := by
    intro g
    rw [forEach, doc_loose h2]
  rw [List.append_nil, ho', hf] at ho
  simp [forEach] at ho

/-- **C159** Files are read without an exception, whatever the options, exactly if no row with a variant but
no base comes before all rows with a base. -/
theorem returns_iff (force allowInvalid : Bool) (lines : List (List Char)) :
    (parse4290 force allowInvalid lines).2 = .ok () ↔
      ¬ ∃ pre line post, lines = pre ++ line :: post ∧ ReadsAll none pre [] none ∧ Loose line := by
  constructor
  · intro h
    rcases any_table force allowInvalid lines with ⟨its, q, h1, -⟩ | ⟨_, _, _, -, -, -, h1⟩
    · exact exclusive lines its q h1
    · rw [h] at h1; simp at h1
  · intro h
    rcases any_table force allowInvalid lines with ⟨_, _, -, h1, -⟩ | ⟨pre, line, post, h1, h2, h3, -⟩
    · exact h1
    · exact absurd ⟨pre, line, post, h1, h2, h3⟩ h

/-! Non-vacuity: a variant without base, after and before a row with a base. -/

theorem loose1 : Loose "U+0061-x|U+0062".toList := by
  have h : row4290 "U+0061-x|U+0062".toList = some ⟨none, [some [0x62]]⟩ := by decide +kernel
  obtain ⟨b, vs, h1, h2⟩ := row_iff.1 h
  simp only [Row4290.mk.injEq] at h2
  refine ⟨b, vs, h1, charSays_none.1 h2.1.symm, ?_⟩
  cases vs with
  | nil => simp at h2
  | cons t ts =>
    simp only [List.map_cons, List.cons.injEq] at h2
    exact ⟨t, by simp, _, charSays_iff.1 h2.2.1.symm⟩

example : (parse4290 false false ["# c".toList, "U+0061-x|U+0062".toList, "U+0063".toList]).2 =
    .error .nameError := by decide +kernel

example : (parse4290 false false ["U+0063".toList, "U+0061-x|U+0062".toList]).2 = .ok () ∧
    ((parse4290 false false ["U+0063".toList, "U+0061-x|U+0062".toList]).1.1.rep.lookup [0x63]).map
      (fun c => c.getVariants.map Variant.cp) = some [[0x62]] := by decide +kernel

end Lgr.Props.C159

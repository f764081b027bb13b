import Verif.MergeXml

/-!
# Texts and values as they are written in XML

What `MergeXml.render` writes for a text or a value stands, by the predefined entities and the character references of
XML 1.0 (sections 4.1, 4.6), for that text or value, and contains nothing that ends it.
-/

namespace Lgr.Props.XmlEscape
open Lgr MergeXml

/-- The references of XML which are used. -/
def unesc : List Char → List Char
  | '&' :: 'a' :: 'm' :: 'p' :: ';' :: s => '&' :: unesc s
  | '&' :: 'l' :: 't' :: ';' :: s => '<' :: unesc s
  | '&' :: 'g' :: 't' :: ';' :: s => '>' :: unesc s
  | '&' :: 'q' :: 'u' :: 'o' :: 't' :: ';' :: s => '"' :: unesc s
  | '&' :: '#' :: '9' :: ';' :: s => Char.ofNat 9 :: unesc s
  | '&' :: '#' :: '1' :: '0' :: ';' :: s => Char.ofNat 10 :: unesc s
  | '&' :: '#' :: '1' :: '3' :: ';' :: s => Char.ofNat 13 :: unesc s
  | c :: s => c :: unesc s
  | [] => []

theorem unesc_other {c : Char} (h : c ≠ '&') (s : List Char) : unesc (c :: s) = c :: unesc s := by
  rw [unesc] <;> (intros; exact h (by assumption))

/-- What is written for a text is read as that text. -/
theorem text_back (s : List Char) : unesc (s.flatMap escT) = s := by
  induction s with
  | nil => rfl
  | cons c s ih =>
    rw [List.flatMap_cons]
    unfold escT
    split
    · exact congrArg _ ih
    · exact congrArg _ ih
    · exact congrArg _ ih
    · exact congrArg _ ih
    · rename_i h _ _ _
      rw [List.singleton_append, unesc_other (fun e => h e)]
      exact congrArg _ ih

/-- What is written for the value of an attribute is read as that value. -/
theorem value_back (s : List Char) : unesc (s.flatMap escV) = s := by
  induction s with
  | nil => rfl
  | cons c s ih =>
    rw [List.flatMap_cons]
    unfold escV
    split
    · exact congrArg _ ih
    · exact congrArg _ ih
    · exact congrArg _ ih
    · exact congrArg _ ih
    · exact congrArg _ ih
    · exact congrArg _ ih
    · exact congrArg _ ih
    · rename_i h _ _ _ _ _ _
      rw [List.singleton_append, unesc_other (fun e => h e)]
      exact congrArg _ ih

/-- No `<` and no `>` in a text; carriage returns, which XML parsers would replace, are references. -/
theorem text_ends (s : List Char) (c : Char) (h : c ∈ s.flatMap escT) : c ≠ '<' ∧ c ≠ '>' ∧ c ≠ '\r' := by
  obtain ⟨d, -, hd⟩ := List.mem_flatMap.1 h
  unfold escT at hd
  split at hd
  · clear h; revert c; decide
  · clear h; revert c; decide
  · clear h; revert c; decide
  · clear h; revert c; decide
  · rename_i h1 h2 h3 h4
    cases List.mem_singleton.1 hd
    exact ⟨h2, h3, h4⟩

/-- No quote, `<` and white space other than spaces in a value. -/
theorem value_ends (s : List Char) (c : Char) (h : c ∈ s.flatMap escV) :
    c ≠ '"' ∧ c ≠ '<' ∧ c ≠ '\n' ∧ c ≠ '\t' ∧ c ≠ '\r' := by
  obtain ⟨d, -, hd⟩ := List.mem_flatMap.1 h
  unfold escV at hd
  split at hd
  · clear h; revert c; decide
  · clear h; revert c; decide
  · clear h; revert c; decide
  · clear h; revert c; decide
  · clear h; revert c; decide
  · clear h; revert c; decide
  · clear h; revert c; decide
  · rename_i h1 h2 h3 h4 h5 h6 h7
    cases List.mem_singleton.1 hd
    exact ⟨h4, h2, h5, h6, h7⟩

example : "a\"<\r".toList.flatMap escV = "a&quot;&lt;&#13;".toList := by decide +kernel

end Lgr.Props.XmlEscape

import Verif.Props.AnyTable
import Verif.Props.RefLines

/-!
# C142: the tools which print tables as documents, for every file
-/

namespace Lgr.Props.C142
open Lgr LGR Repertoire Text Tables Xml MetaXml DocXml DumpTool C104 TableItems TableSyntax

/-- What the lines of any file are read as (C75, C159, C161). -/
def ReadOf (digit : Char → Bool) (k : Table) (lines : List (List Char)) (items : List Item) : Prop :=
  match k with
  | .lines => ∃ itss, items = itss.flatten ∧ List.Forall₂ C75.Means lines itss
  | .rfc4290 => ∃ q, C159.ReadsAll none lines items q
  | .rfc3743 => ∃ q, C161.ReadsAll (rex digit) none lines items q

/-- A row with variants and without base before all rows with a base (C159, C161). -/
def Adrift (digit : Char → Bool) (k : Table) (lines : List (List Char)) : Prop :=
  match k with
  | .lines => False
  | .rfc4290 => ∃ pre line post, lines = pre ++ line :: post ∧ C159.ReadsAll none pre [] none ∧ C159.Loose line
  | .rfc3743 => ∃ pre line post its, lines = pre ++ line :: post ∧ C161.ReadsAll (rex digit) none pre its none ∧ C161.Loose (rex digit) line

theorem reads4290_items {p q : Option Seq} {lines : List (List Char)} {items : List Item} (h : C159.ReadsAll p lines items q)
    {it : Item} (hi : it ∈ items) : (∃ s, it = .base s []) ∨ ∃ s v, it = .var s v none [] := by
  induction h with
  | nil => cases hi
  | cons h1 _ ih =>
    rcases List.mem_append.1 hi with hi | hi
    · cases h1 with
      | skip _ => cases hi
      | row _ _ hv =>
        rcases List.mem_cons.1 hi with rfl | hi
        · exact .inl ⟨_, rfl⟩
        · exact .inr ⟨_, vars_say hv hi⟩
      | stale _ _ hv => exact .inr ⟨_, vars_say hv hi⟩
      | lost _ _ _ => cases hi
    · exact ih hi

theorem variants_types {k : Seq} {p o : List (Seq × List String)} {s v : Seq} {t : Option String} {refs : List String}
    (h : .var s v t refs ∈ C158.variants k p o) : t = none ∨ t = some "activated" := by
  unfold C158.variants at h
  rcases List.mem_append.1 h with h | h <;> obtain ⟨_, -, h⟩ := List.mem_map.1 h <;> cases h
  · exact .inr rfl
  · exact .inl rfl

theorem reads3743_types {x : Rex} {p q : Option Seq} {lines : List (List Char)} {items : List Item} (h : C161.ReadsAll x p lines items q)
    {s v : Seq} {t : Option String} {refs : List String} (hi : .var s v t refs ∈ items) : t = none ∨ t = some "activated" := by
  induction h with
  | nil => cases hi
  | cons h1 _ ih =>
    rcases List.mem_append.1 hi with hi | hi
    · cases h1 with
      | other h hb =>
        cases h with
        | blank _ => cases hi
        | comment _ => cases hi
        | other _ _ _ _ _ => cases hi
        | version _ _ _ _ => cases hi
        | ref _ _ _ _ => rw [List.mem_singleton] at hi; cases hi
        | row _ => exact absurd List.mem_cons_self (hb _ _)
      | row _ _ _ _ =>
        rcases List.mem_cons.1 hi with hi | hi
        · cases hi
        · exact variants_types hi
      | stale _ _ _ _ => exact variants_types hi
      | lost _ _ _ _ => cases hi
    · exact ih hi

theorem source_of_read {digit : Char → Bool} (hd : Digit digit) {k : Table} {lines : List (List Char)} {items : List Item}
    (h : ReadOf digit k lines items) : Source digit k lines items := by
  cases k with
  | lines => exact source_of_meant hd h
  | rfc4290 =>
    obtain ⟨q, h⟩ := h
    obtain ⟨ho, hp⟩ := C159.docs_reads (valid := valid0) (force := true) h (by simp) { raiseInvalid := !false } []
    rw [List.append_nil] at ho
    refine ⟨?_, hp, fun i v c hi => ?_, fun s v t refs hi => ?_⟩
    · show ((parse4290 true false lines).1.1, (parse4290 true false lines).2) = _
      unfold parse4290
      rw [ho]
      rfl
    · rcases reads4290_items h hi with ⟨_, h⟩ | ⟨_, _, h⟩ <;> cases h
    · rcases reads4290_items h hi with ⟨_, h⟩ | ⟨_, _, h⟩ <;> cases h
      exact .inl rfl
  | rfc3743 =>
    obtain ⟨q, h⟩ := h
    obtain ⟨ho, hp⟩ := C161.docs_reads (rex_words digit) (valid := valid0) (force := true) h (by simp) { raiseInvalid := !false } []
    rw [List.append_nil] at ho
    refine ⟨?_, hp, fun i v c hi => ?_, fun s v t refs hi => reads3743_types h hi⟩
    · show ((parse3743 (rex digit) valid0 true false lines).1.1, (parse3743 (rex digit) valid0 true false lines).2) = _
      unfold parse3743
      rw [ho]
      rfl
    · have hm : (v, i, c) ∈ items.filterMap C163.refOf := List.mem_filterMap.2 ⟨_, hi, rfl⟩
      rw [C163.readsAll_refs h] at hm
      obtain ⟨line, hl, hr⟩ := List.mem_filterMap.1 hm
      exact ⟨line, hl, _, trimmed_iff.2 rfl, (reference_line hd).1 hr⟩

/-- **C142** (partial) Every file at all: the lines are read as some items, and then the tool prints a document which is read as
these items, in the sense of `dump_reads_back_partial` and with the same exclusions; or a row with variants but without a base comes
before all rows with a base, and the tool ends with `UnboundLocalError`. -/
theorem dump_any_partial {digit : Char → Bool} (hd : Digit digit) (k : Table) (lines : List (List Char)) :
    (∃ items, ReadOf digit k lines items ∧
      ∀ R : Reader, C99.Sound R.x → Safe R.db R.strict R.force → Usable R digit k lines items →
        ∃ d m, DumpTool.run digit k lines = .printed d ∧ Version digit k lines m ∧
          ∀ cs, ∃ cs' g, parseDoc R cs d = (cs', .ok (some g)) ∧ Tells k items m g ∧ serializeDoc g = .ok d) ∨
    (Adrift digit k lines ∧ DumpTool.run digit k lines = .raised .nameError) := by
  have good : ∀ items, ReadOf digit k lines items → _ := fun items h =>
    (⟨items, h, fun R hx hs hu => dump_source hd R hx hs (source_of_read hd h) hu⟩ :
      ∃ items, ReadOf digit k lines items ∧
      ∀ R : Reader, C99.Sound R.x → Safe R.db R.strict R.force → Usable R digit k lines items →
        ∃ d m, DumpTool.run digit k lines = .printed d ∧ Version digit k lines m ∧
          ∀ cs, ∃ cs' g, parseDoc R cs d = (cs', .ok (some g)) ∧ Tells k items m g ∧ serializeDoc g = .ok d)
  cases k with
  | lines =>
    left
    obtain ⟨itss, h⟩ : ∃ itss, List.Forall₂ C75.Means lines itss := by
      clear good
      induction lines with
      | nil => exact ⟨[], .nil⟩
      | cons l lines ih =>
        obtain ⟨itss, h⟩ := ih
        obtain ⟨its, h'⟩ := C75.meaning_exists l
        exact ⟨_, .cons h' h⟩
    exact good _ ⟨itss, rfl, h⟩
  | rfc4290 =>
    rcases C159.any_table true false lines with ⟨its, q, h, -⟩ | ⟨pre, line, post, h1, h2, h3, h4⟩
    · exact .inl (good its ⟨q, h⟩)
    · refine .inr ⟨⟨pre, line, post, h1, h2, h3⟩, ?_⟩
      unfold DumpTool.run parse
      rw [h4]
  | rfc3743 =>
    rcases C161.any_table (rex digit) (rex_words digit) valid0 true false lines with ⟨its, q, h, -⟩ | ⟨pre, line, post, its, h1, h2, h3, h4⟩
    · exact .inl (good its ⟨q, h⟩)
    · refine .inr ⟨⟨pre, line, post, its, h1, h2, h3⟩, ?_⟩
      unfold DumpTool.run parse
      rw [h4]

/-- **C142** The two cases exclude each other. -/
theorem dump_exclusive (digit : Char → Bool) (k : Table) (lines : List (List Char)) (items : List Item)
    (h : ReadOf digit k lines items) : ¬ Adrift digit k lines := by
  cases k with
  | lines => exact id
  | rfc4290 =>
    obtain ⟨q, h⟩ := h
    exact C159.exclusive lines items q h
  | rfc3743 =>
    obtain ⟨q, h⟩ := h
    exact C161.exclusive (rex digit) (rex_words digit) lines items q h

/-! Non-vacuity: rows which have no meaning in the sense of C74, one after and one before a row with a base. -/

/-- A file with a row of which no base is read. -/
def table3 : List (List Char) := table0 ++ ["0061,0062;0063".toList]

def items3 : List Item := items0 ++ [.var [0x61] [0x63] (some "activated") []]

theorem read3 : ReadOf digit0 .rfc3743 table3 items3 := by
  refine ⟨some [0x61], ?_⟩
  show C161.ReadsAll (rex digit0) none ["Reference 1 Book # a".toList, "0061(1);0062(1)".toList, "0061,0062;0063".toList]
    ([.ref "1" "Book " (some "a")] ++ (([.base [0x61] ["1"], .var [0x61] [0x62] (some "activated") ["1"]]) ++
      ([.var [0x61] [0x63] (some "activated") []] ++ []))) (some [0x61])
  refine .cons (q := none) (.other (.ref (l := "Reference 1 Book # a".toList) (trimmed_iff.2 (by decide)) (by decide) (by decide)
    (by decide +kernel)) (by simp)) (.cons (q := some [0x61]) ?_ (.cons (q := some [0x61]) ?_ .nil))
  · have hr : C161.IsRow "0061(1);0062(1)".toList "0061(1)".toList ["0062(1)".toList] :=
      ⟨_, _, _, "0061".toList, "(1);0062(1)".toList, trimmed_iff.2 rfl, C161.unit_iff.2 (by decide +kernel), head_upto.2 rfl,
        trimmed_iff.2 rfl, pieces_iff.2 (by decide +kernel)⟩
    exact .row (base := ([0x61], ["1"])) (preferred := [([0x62], ["1"])]) (others := []) hr (C161.finds_iff.2 (by decide +kernel))
      (.inr ⟨_, "0062(1)".toList, some [([0x62], ["1"])], rfl, trimmed_iff.2 (by decide +kernel), by simp, C161.finds_iff.2 (by decide +kernel), rfl⟩)
      (.inl ⟨.inl rfl, rfl⟩)
  · refine .stale (preferred := [([0x63], [])]) (others := []) C161.isRow1 ?_
      (.inr ⟨_, "0063".toList, some [([0x63], [])], rfl, trimmed_iff.2 (by decide +kernel), by simp, C161.finds_iff.2 (by decide +kernel), rfl⟩)
      (.inl ⟨.inl rfl, rfl⟩)
    rintro ⟨p, h⟩
    have h1 : parseChar3743 digit0 "0061,0062".toList.length "0061,0062".toList = some [([0x61], []), ([0x62], [])] := by
      decide +kernel
    have := (C161.finds_iff.1 h).symm.trans h1
    simp at this

theorem usable3 (force : Bool) : Usable (reader0 force) digit0 .rfc3743 table3 items3 := by
  refine ⟨by decide +kernel, fun i v h => ?_, fun s refs h => ⟨fun _ _ h => (by cases h), fun _ => ?_⟩,
    fun s v t refs h => ⟨fun _ _ h => (by cases h), fun _ => ?_⟩, fun _ _ l hl => not_ver ?_⟩
  · simp [items3, items0] at h
  · simp [items3, items0] at h; rw [h.2]; decide
  · simp [items3, items0] at h; rcases h with h | h <;> rw [h.2.2.2] <;> decide
  · revert l; decide +kernel

example : Adrift digit0 .rfc3743 ["0061,0062;0063".toList] := by
  rcases dump_any_partial digit0_ok .rfc3743 ["0061,0062;0063".toList] with ⟨items, h, -⟩ | ⟨h, -⟩
  · exfalso
    have := (source_of_read digit0_ok h).read
    have h1 : (parse digit0 .rfc3743 ["0061,0062;0063".toList]).2.isOk = false := by decide +kernel
    rw [this] at h1
    cases h1
  · exact h

end Lgr.Props.C142

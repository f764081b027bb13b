import Verif.Props.Checks

/-!
# C70, C71: the RFC 7940 checks
-/

namespace Lgr.Props.C71
open Lgr Checks Validate Text Metadata C61 C59

theorem mem_item_error {bad : Bool} {a l : String} : Note.error l ∈ item bad a ↔ bad = true ∧ l = a := by
  unfold item
  cases bad <;> simp

theorem mem_item_tested {bad : Bool} {a l : String} : Note.tested l ∈ item bad a ↔ l = a := by
  unfold item
  cases bad <;> simp

/-- What `[1-9]\d*$` accepts. -/
def Version (digit : Char → Bool) (v : List Char) : Prop :=
  ∃ c ds, '1' ≤ c ∧ c ≤ '9' ∧ (∀ d ∈ ds, digit d = true) ∧ (v = c :: ds ∨ v = c :: ds ++ ['\n'])

theorem dropWhile_nil {p : Char → Bool} {l : List Char} : l.dropWhile p = [] ↔ ∀ x ∈ l, p x = true := by
  induction l with
  | nil => simp
  | cons x l ih =>
    by_cases hx : p x = true
    · simp [List.dropWhile_cons, hx, ih]
    · simp [List.dropWhile_cons, hx]

theorem mem_takeWhile {p : Char → Bool} {l : List Char} {d : Char} (h : d ∈ l.takeWhile p) : p d = true := by
  induction l with
  | nil => simp at h
  | cons x l ih =>
    by_cases hx : p x = true
    · simp only [List.takeWhile_cons, hx, if_true, List.mem_cons] at h
      rcases h with rfl | h
      · exact hx
      · exact ih h
    · simp [List.takeWhile_cons, hx] at h

theorem dropWhile_newline {p : Char → Bool} (hp : p '\n' = false) {l : List Char} :
    l.dropWhile p = ['\n'] ↔ ∃ ds, (∀ d ∈ ds, p d = true) ∧ l = ds ++ ['\n'] := by
  constructor
  · intro h
    refine ⟨l.takeWhile p, fun d hd => mem_takeWhile hd, ?_⟩
    rw [← h, List.takeWhile_append_dropWhile]
  · rintro ⟨ds, hd, rfl⟩
    rw [List.dropWhile_append_of_pos hd]
    simp [hp]

theorem versionMatches_iff {digit : Char → Bool} (hn : digit '\n' = false) (v : List Char) :
    versionMatches digit v = true ↔ Version digit v := by
  cases v with
  | nil => simp [versionMatches, Version]
  | cons c cs =>
    simp only [versionMatches, Bool.and_eq_true, Bool.or_eq_true, decide_eq_true_eq, dropWhile_nil,
      dropWhile_newline hn, Version]
    constructor
    · rintro ⟨⟨h1, h2⟩, h | ⟨ds, hd, rfl⟩⟩
      · exact ⟨c, cs, h1, h2, h, .inl rfl⟩
      · exact ⟨c, ds, h1, h2, hd, .inr rfl⟩
    · rintro ⟨c', ds, h1, h2, hd, h | h⟩
      · obtain ⟨rfl, rfl⟩ := List.cons.inj h
        exact ⟨⟨h1, h2⟩, .inl hd⟩
      · obtain ⟨rfl, rfl⟩ := List.cons.inj h
        exact ⟨⟨h1, h2⟩, .inr ⟨ds, hd, rfl⟩⟩

/-- What is wrong with the metadata, by test; `t` is today's date. -/
def Wrong (w : World) (t : Nat × Nat × Nat) (m : Metadata) (test : String) : Prop :=
  (test = "validity_end_expiry" ∧
    ∃ e : Nat × Nat × Nat, IsDate e.1 e.2.1 e.2.2 ∧ m.validityEnd = some (iso e) ∧ Before e t) ∨
  (test = "validity_start_end" ∧ ∃ s e : Nat × Nat × Nat, IsDate s.1 s.2.1 s.2.2 ∧ IsDate e.1 e.2.1 e.2.2 ∧
    m.validityStart = some (iso s) ∧ m.validityEnd = some (iso e) ∧ Before e s) ∨
  (test = "validity_started" ∧
    ∃ s : Nat × Nat × Nat, IsDate s.1 s.2.1 s.2.2 ∧ m.validityStart = some (iso s) ∧ Before t s) ∨
  (test = "metadata_description_type" ∧
    ∃ d ty, m.description = some d ∧ d.type = some ty ∧ w.mime ty = false) ∨
  (test = "metadata_scope_type" ∧ ∃ s ∈ m.scopes, ∃ ty, s.type = some ty ∧ ty ≠ "domain") ∨
  (test = "metadata_version_integer" ∧ ∃ v, m.version = some v ∧ ¬ Version w.digit v.value.toList)

/-- The tests of `check_metadata`. -/
def tests : List String := ["validity_end_expiry", "validity_start_end", "validity_started",
  "metadata_description_type", "metadata_scope_type", "metadata_version_integer"]

theorem expired_iff {w : World} {t : Nat × Nat × Nat} (ht : IsDate t.1 t.2.1 t.2.2) (hw : w.today = iso t)
    {m : Metadata} (hm : Dated m) : expired w m = true ↔
      ∃ e : Nat × Nat × Nat, IsDate e.1 e.2.1 e.2.2 ∧ m.validityEnd = some (iso e) ∧ Before e t := by
  unfold expired
  cases he : m.validityEnd with
  | none => simp
  | some s =>
    obtain ⟨e, h1, rfl⟩ := hm.2 s he
    simp only [decide_eq_true_eq, hw, iso_lt h1 ht, Option.some.injEq]
    constructor
    · intro h; exact ⟨e, h1, rfl, h⟩
    · rintro ⟨e', h1', h2, h3⟩
      rw [iso_inj h1 h1' h2]; exact h3

theorem notStarted_iff {w : World} {t : Nat × Nat × Nat} (ht : IsDate t.1 t.2.1 t.2.2)
    (hw : w.today = iso t) {m : Metadata} (hm : Dated m) : notStarted w m = true ↔
      ∃ s : Nat × Nat × Nat, IsDate s.1 s.2.1 s.2.2 ∧ m.validityStart = some (iso s) ∧ Before t s := by
  unfold notStarted
  cases he : m.validityStart with
  | none => simp
  | some s =>
    obtain ⟨e, h1, rfl⟩ := hm.1 s he
    simp only [decide_eq_true_eq, hw, iso_lt ht h1, Option.some.injEq]
    constructor
    · intro h; exact ⟨e, h1, rfl, h⟩
    · rintro ⟨e', h1', h2, h3⟩
      rw [iso_inj h1 h1' h2]; exact h3

theorem startAfterEnd_iff {m : Metadata} (hm : Dated m) : startAfterEnd m = true ↔
      ∃ s e : Nat × Nat × Nat, IsDate s.1 s.2.1 s.2.2 ∧ IsDate e.1 e.2.1 e.2.2 ∧
        m.validityStart = some (iso s) ∧ m.validityEnd = some (iso e) ∧ Before e s := by
  unfold startAfterEnd
  cases hs : m.validityStart with
  | none => simp
  | some s =>
    cases he : m.validityEnd with
    | none => simp
    | some e =>
      obtain ⟨s, h1, rfl⟩ := hm.1 s hs
      obtain ⟨e, h2, rfl⟩ := hm.2 e he
      simp only [decide_eq_true_eq, iso_lt h2 h1, Option.some.injEq]
      constructor
      · intro h; exact ⟨s, e, h1, h2, rfl, rfl, h⟩
      · rintro ⟨s', e', h1', h2', hs', he', h3⟩
        rw [iso_inj h1 h1' hs', iso_inj h2 h2' he']; exact h3

theorem badDescription_iff {w : World} {m : Metadata} : badDescription w m = true ↔
    ∃ d ty, m.description = some d ∧ d.type = some ty ∧ w.mime ty = false := by
  unfold badDescription
  cases hd : m.description with
  | none => simp
  | some d =>
    cases ht : d.type with
    | none => simp [ht]
    | some ty => simp [ht]

theorem badScope_iff {s : Scope} : badScope s = true ↔ ∃ ty, s.type = some ty ∧ ty ≠ "domain" := by
  unfold badScope
  cases s.type with
  | none => simp
  | some ty => simp

theorem badVersion_iff {w : World} (hn : w.digit '\n' = false) {m : Metadata} : badVersion w m = true ↔
    ∃ v, m.version = some v ∧ ¬ Version w.digit v.value.toList := by
  unfold badVersion
  cases hv : m.version with
  | none => simp
  | some v => simp [← versionMatches_iff hn]

/-- **C71** `check_metadata` notifies the failure of exactly the tests that fail, notifies all its tests
as run, and succeeds iff none fails. -/
theorem metadata_exact (w : World) (hn : w.digit '\n' = false) (t : Nat × Nat × Nat)
    (ht : IsDate t.1 t.2.1 t.2.2) (hw : w.today = iso t) (m : Metadata) (hm : Dated m) :
    (∀ test, Note.error test ∈ (checkMetadata w m).1 ↔ Wrong w t m test) ∧
    (∀ test, Note.tested test ∈ (checkMetadata w m).1 ↔ test ∈ tests) ∧
    ((checkMetadata w m).2 = true ↔ ∀ test, ¬ Wrong w t m test) := by
  have hscope : m.scopes.any badScope = true ↔
      ∃ s ∈ m.scopes, ∃ ty, s.type = some ty ∧ ty ≠ "domain" := by
    simp [List.any_eq_true, badScope_iff]
  have h1 : ∀ test, Note.error test ∈ (checkMetadata w m).1 ↔ Wrong w t m test := by
    intro test
    simp only [checkMetadata, List.mem_append, mem_item_error, List.mem_map, List.mem_filter,
      Note.error.injEq, List.mem_singleton, reduceCtorEq, or_false, expired_iff ht hw hm,
      startAfterEnd_iff hm, notStarted_iff ht hw hm, badDescription_iff, badScope_iff,
      badVersion_iff hn, Wrong]
    constructor
    · rintro (((((⟨h, e⟩ | ⟨h, e⟩) | ⟨h, e⟩) | ⟨h, e⟩) | ⟨s, ⟨hs, h⟩, e⟩) | ⟨h, e⟩)
      · exact .inl ⟨e, h⟩
      · exact .inr (.inl ⟨e, h⟩)
      · exact .inr (.inr (.inl ⟨e, h⟩))
      · exact .inr (.inr (.inr (.inl ⟨e, h⟩)))
      · exact .inr (.inr (.inr (.inr (.inl ⟨e.symm, s, hs, h⟩))))
      · exact .inr (.inr (.inr (.inr (.inr ⟨e, h⟩))))
    · rintro (⟨e, h⟩ | ⟨e, h⟩ | ⟨e, h⟩ | ⟨e, h⟩ | ⟨e, s, hs, h⟩ | ⟨e, h⟩)
      · exact .inl (.inl (.inl (.inl (.inl ⟨h, e⟩))))
      · exact .inl (.inl (.inl (.inl (.inr ⟨h, e⟩))))
      · exact .inl (.inl (.inl (.inr ⟨h, e⟩)))
      · exact .inl (.inl (.inr ⟨h, e⟩))
      · exact .inl (.inr ⟨s, ⟨hs, h⟩, e.symm⟩)
      · exact .inr ⟨h, e⟩
  refine ⟨h1, ?_, ?_⟩
  · intro test
    simp only [checkMetadata, List.mem_append, mem_item_tested, List.mem_map, List.mem_filter,
      reduceCtorEq, and_false, exists_false, or_false, List.mem_singleton, Note.tested.injEq, tests,
      List.mem_cons, List.not_mem_nil, or_assoc]
  · have hn' : ∀ b : Bool, (!b) = true ↔ ¬ b = true := by simp
    simp only [checkMetadata, hn', Bool.or_eq_true, not_or,
      hscope, expired_iff ht hw hm,
      startAfterEnd_iff hm, notStarted_iff ht hw hm, badDescription_iff, badVersion_iff hn]
    constructor
    · rintro ⟨⟨⟨⟨⟨a, b⟩, c⟩, d⟩, e⟩, f⟩ test (⟨_, h⟩ | ⟨_, h⟩ | ⟨_, h⟩ | ⟨_, h⟩ | ⟨_, h⟩ | ⟨_, h⟩)
      · exact a h
      · exact b h
      · exact c h
      · exact d h
      · exact e h
      · exact f h
    · intro h
      exact ⟨⟨⟨⟨⟨fun x => h _ (.inl ⟨rfl, x⟩), fun x => h _ (.inr (.inl ⟨rfl, x⟩))⟩,
        fun x => h _ (.inr (.inr (.inl ⟨rfl, x⟩)))⟩, fun x => h _ (.inr (.inr (.inr (.inl ⟨rfl, x⟩))))⟩,
        fun x => h _ (.inr (.inr (.inr (.inr (.inl ⟨rfl, x⟩)))))⟩,
        fun x => h _ (.inr (.inr (.inr (.inr (.inr ⟨rfl, x⟩)))))⟩

/-- A world. -/
def world : World := ⟨fun c => decide ('0' ≤ c ∧ c ≤ '9'), fun t => decide (t = "text/plain"), "2026-11-17".toList⟩

/-- Metadata with everything set, one of the scopes being of an unknown type. -/
def sample : Metadata :=
  { version := some ⟨"12", none⟩, scopes := [⟨".", none⟩, ⟨"xn--p1ai", some "zone"⟩],
    validityStart := some "2026-11-17".toList, validityEnd := some "2026-12-31".toList,
    description := some ⟨"d", some "text/plain"⟩ }

theorem iso_lit : "2026-11-17".toList = iso (2026, 11, 17) ∧ "2026-12-31".toList = iso (2026, 12, 31) := by
  decide +kernel

example : world.digit '\n' = false ∧ IsDate 2026 11 17 ∧ world.today = iso (2026, 11, 17) ∧ Dated sample ∧
    checkMetadata world sample = ([.tested "validity_end_expiry", .tested "validity_start_end",
      .tested "validity_started", .tested "metadata_description_type", .error "metadata_scope_type",
      .tested "metadata_scope_type", .tested "metadata_version_integer"], false) ∧
    (checkMetadata world { sample with scopes := [] }).2 = true := by
  refine ⟨by decide +kernel, by simp [IsDate], iso_lit.1, ⟨?_, ?_⟩, by decide +kernel, by decide +kernel⟩
  · intro s hs
    exact ⟨(2026, 11, 17), by simp [IsDate], by rw [← iso_lit.1]; simpa [sample] using hs.symm⟩
  · intro s hs
    exact ⟨(2026, 12, 31), by simp [IsDate], by rw [← iso_lit.2]; simpa [sample] using hs.symm⟩

/-- **C71** The test of the version is not exact: what it accepts may end with a newline. -/
theorem version_newline (digit : Char → Bool) (hn : digit '\n' = false) :
    Version digit ['1', '\n'] := ⟨'1', [], by decide, by decide, by simp, .inr rfl⟩

end Lgr.Props.C71

namespace Lgr.Props.C70
open Lgr Checks Validate Repertoire

/-! ## Specification -/

/-- An entry of the repertoire with property `P`. -/
def Entry (r : Repertoire) (P : CharObj → Prop) : Prop := ∃ k c, r.lookup k = some c ∧ P c

/-- The type of a variant that RFC 7940 reserves or does not allow. -/
def BadType (r : Repertoire) : Prop :=
  Entry r fun c => ∃ v ∈ c.getVariants, ∃ t : String, v.type = some t ∧
    (t = "" ∨ ' ' ∈ t.toList ∨ ∃ u : List Char, t.toList = '_' :: u)

/-- A code point of the repertoire, or of a variant, that `valid` rejects. -/
def BadCp (valid : Nat → Bool) (r : Repertoire) : Prop :=
  Entry r fun c => ∃ x, (x ∈ c.cp ∨ ∃ v ∈ c.getVariants, x ∈ v.cp) ∧ valid x = false

/-- A list of references descends: two adjacent numbers are not in ascending order, and nothing before
them is not a number. -/
def Descends (num : List Char → Bool) (pyInt : List Char → Option Int) (refs : List String) : Prop :=
  ∃ pre a b post i j, refs = pre ++ a :: b :: post ∧ (∀ n ∈ pre, num n.toList = true) ∧
    num a.toList = true ∧ num b.toList = true ∧
    pyInt a.toList = some i ∧ pyInt b.toList = some j ∧ j ≤ i

/-- The references of a code point or of a variant descend. -/
def BadRefs (num : List Char → Bool) (pyInt : List Char → Option Int) (r : Repertoire) : Prop :=
  Entry r fun c => Descends num pyInt c.attrs.refs ∨ ∃ v ∈ c.getVariants, Descends num pyInt v.refs

/-- What is wrong with the data, by test. -/
def Wrong (num : List Char → Bool) (pyInt : List Char → Option Int) (d : Db)
    (uniVersion : Option (List Char)) (r : Repertoire) (test : String) : Prop :=
  (test = "data_variant_type" ∧ BadType r) ∨
  (test = "codepoint_valid" ∧ some d.version = uniVersion ∧ BadCp d.valid r) ∨
  (test = "ref_attribute_ascending" ∧ BadRefs num pyInt r)

/-- The tests of the data that are notified as run. -/
def Run (d : Db) (uniVersion : Option (List Char)) (r : Repertoire) (test : String) : Prop :=
  (test = "data_variant_type" ∧ Entry r fun c => c.range = none) ∨
  ((test = "valid_unicode_version" ∨ test = "codepoint_valid") ∧ some d.version = uniVersion) ∨
  test = "ref_attribute_ascending"

/-! ## References -/

theorem descends_cons {num : List Char → Bool} {pyInt : List Char → Option Int} {n : String}
    {ns : List String} (hn : num n.toList = true) {i : Int} (hi : pyInt n.toList = some i) :
    Descends num pyInt (n :: ns) ↔
      (∃ b post j, ns = b :: post ∧ num b.toList = true ∧ pyInt b.toList = some j ∧ j ≤ i) ∨
      Descends num pyInt ns := by
  constructor
  · rintro ⟨pre, a, b, post, i', j, he, hp, ha, hb, hi', hj, hle⟩
    cases pre with
    | nil =>
      obtain ⟨rfl, rfl⟩ := List.cons.inj he
      rw [hi] at hi'; obtain rfl := Option.some.inj hi'
      exact .inl ⟨b, post, j, rfl, hb, hj, hle⟩
    | cons p pre =>
      obtain ⟨rfl, rfl⟩ := List.cons.inj he
      exact .inr ⟨pre, a, b, post, i', j, rfl, fun m hm => hp m (by simp [hm]), ha, hb, hi', hj, hle⟩
  · rintro (⟨b, post, j, rfl, hb, hj, hle⟩ | ⟨pre, a, b, post, i', j, rfl, hp, ha, hb, hi', hj, hle⟩)
    · exact ⟨[], n, b, post, i, j, rfl, by simp, hn, hb, hi, hj, hle⟩
    · exact ⟨n :: pre, a, b, post, i', j, rfl, by simpa [hn] using hp, ha, hb, hi', hj, hle⟩

theorem not_descends_of {num : List Char → Bool} {pyInt : List Char → Option Int} {n : String}
    {ns : List String} (hn : num n.toList ≠ true) : ¬ Descends num pyInt (n :: ns) := by
  rintro ⟨pre, a, b, post, i', j, he, hp, ha, _⟩
  cases pre with
  | nil => obtain ⟨rfl, rfl⟩ := List.cons.inj he; exact hn ha
  | cons p pre => obtain ⟨rfl, rfl⟩ := List.cons.inj he; exact hn (hp _ (by simp))

variable {digit : Char → Bool} {pyInt : List Char → Option Int}

theorem refAscending_exact (hp : ∀ s, numeric digit s = true → ∃ i : Int, 0 ≤ i ∧ pyInt s = some i)
    (refs : List String) (last : Int) :
    ∃ b, refAscending digit pyInt last refs = .ok b ∧ (b = false ↔
      (∃ n ns i, refs = n :: ns ∧ numeric digit n.toList = true ∧ pyInt n.toList = some i ∧ i ≤ last) ∨
      Descends (numeric digit) pyInt refs) := by
  induction refs generalizing last with
  | nil => exact ⟨true, rfl, by simp [Descends]⟩
  | cons n ns ih =>
    by_cases hn : numeric digit n.toList = true
    · obtain ⟨i, _, hi⟩ := hp _ hn
      by_cases hlt : last < i
      · obtain ⟨b, hb, hiff⟩ := ih i
        refine ⟨b, by simp [refAscending, hn, hi, hlt, hb], ?_⟩
        rw [hiff, descends_cons hn hi]
        constructor
        · rintro (⟨m, ms, j, rfl, h1, h2, h3⟩ | h)
          · exact .inr (.inl ⟨m, ms, j, rfl, h1, h2, h3⟩)
          · exact .inr (.inr h)
        · rintro (⟨m, ms, j, he, h1, h2, h3⟩ | ⟨m, ms, j, h⟩ | h)
          · obtain ⟨rfl, rfl⟩ := List.cons.inj he
            rw [hi] at h2; obtain rfl := Option.some.inj h2
            omega
          · exact .inl ⟨m, ms, j, h⟩
          · exact .inr h
      · exact ⟨false, by simp [refAscending, hn, hi, hlt],
          by simp only [true_iff]; exact .inl ⟨n, ns, i, rfl, hn, hi, by omega⟩⟩
    · refine ⟨true, by simp [refAscending, hn], ?_⟩
      simp only [Bool.true_eq_false, false_iff, not_or]
      refine ⟨?_, not_descends_of hn⟩
      rintro ⟨m, ms, i, he, h1, _⟩
      obtain ⟨rfl, rfl⟩ := List.cons.inj he
      exact hn h1

/-- `check_ref_ascending` fails iff the references descend. -/
theorem refs_exact (hp : ∀ s, numeric digit s = true → ∃ i : Int, 0 ≤ i ∧ pyInt s = some i)
    (refs : List String) :
    ∃ b, refAscending digit pyInt (-1) refs = .ok b ∧ (b = false ↔ Descends (numeric digit) pyInt refs) := by
  obtain ⟨b, hb, h⟩ := refAscending_exact hp refs (-1)
  refine ⟨b, hb, h.trans ⟨?_, .inr⟩⟩
  rintro (⟨n, ns, i, _, h1, h2, h3⟩ | h)
  · obtain ⟨i', h4, h5⟩ := hp _ h1
    rw [h2] at h5; obtain rfl := Option.some.inj h5
    omega
  · exact h

theorem refLoop_exact (hp : ∀ s, numeric digit s = true → ∃ i : Int, 0 ≤ i ∧ pyInt s = some i)
    (l : List (List String)) (acc : List Note × Bool) :
    ∃ notes b, forEach (refLoop digit pyInt) acc l = ((acc.1 ++ notes, acc.2 && b), .ok ()) ∧
      (b = true ↔ ∀ refs ∈ l, ¬ Descends (numeric digit) pyInt refs) ∧
      (∀ n, n ∈ notes ↔ n = .error "ref_attribute_ascending" ∧
        ∃ refs ∈ l, Descends (numeric digit) pyInt refs) := by
  induction l generalizing acc with
  | nil => exact ⟨[], true, by simp [forEach], by simp, by simp⟩
  | cons refs l ih =>
    obtain ⟨b, hb, hiff⟩ := refs_exact hp refs
    cases b with
    | true =>
      have hd : ¬ Descends (numeric digit) pyInt refs := fun h => by simpa using hiff.2 h
      obtain ⟨notes, b, h1, h2, h3⟩ := ih acc
      refine ⟨notes, b, by simp [forEach, refLoop, hb, h1], ?_, ?_⟩
      · simp [h2, hd]
      · intro n; simp [h3, hd]
    | false =>
      have hd := hiff.1 rfl
      obtain ⟨notes, b, h1, h2, h3⟩ := ih (acc.1 ++ [.error "ref_attribute_ascending"], false)
      refine ⟨.error "ref_attribute_ascending" :: notes, false, by simp [forEach, refLoop, hb, h1], ?_, ?_⟩
      · simp [hd]
      · intro n
        simp only [List.mem_cons, h3, exists_eq_or_imp, hd, true_or, and_true]
        constructor
        · rintro (h | ⟨h, _⟩) <;> exact h
        · exact .inl

/-! ## Entries -/

theorem members_ne {r : Repertoire} (h : WF r) (hi : Intact r) {c : CharObj} (hc : c ∈ r.iter) :
    ∃ d, d ∈ members c := by
  obtain ⟨hl, _⟩ := (mem_iter_intact h hi c).1 hc
  unfold members
  cases hr : c.range with
  | none => exact ⟨c, by simp⟩
  | some p =>
    obtain ⟨f, l⟩ := p
    obtain ⟨hfl, _⟩ := hi.full f l (hi.marked _ c _ hl hr)
    exact ⟨{ c with cp := [f], range := some (f, l) }, by
      simp only [List.mem_map, mem_cpRange]
      exact ⟨f, ⟨le_refl _, by omega⟩, by rw [← hr]⟩⟩

theorem entry_members {r : Repertoire} (h : WF r) (hi : Intact r) {P : CharObj → Prop} :
    Entry r P ↔ ∃ c ∈ r.iter, ∃ d ∈ members c, P d := by
  constructor
  · rintro ⟨k, c, hl, hP⟩
    obtain rfl := lookup_cp hl
    obtain ⟨e, he, hm⟩ := List.mem_flatMap.1 ((mem_members_iter h hi c).2 hl)
    exact ⟨e, he, c, hm, hP⟩
  · rintro ⟨c, hc, d, hd, hP⟩
    exact ⟨d.cp, d, (mem_members_iter h hi d).1 (List.mem_flatMap.2 ⟨c, hc, hd⟩), hP⟩

theorem entry_iter {r : Repertoire} (h : WF r) (hi : Intact r) {P : CharObj → Prop}
    (hP : ∀ c x, P { c with cp := [x] } ↔ P c) : Entry r P ↔ ∃ c ∈ r.iter, P c := by
  rw [entry_members h hi]
  have key : ∀ c d, d ∈ members c → (P d ↔ P c) := by
    intro c d hd
    unfold members at hd
    split at hd
    · obtain ⟨x, _, rfl⟩ := List.mem_map.1 hd; exact hP c x
    · rw [List.mem_singleton.1 hd]
  constructor
  · rintro ⟨c, hc, d, hd, hp⟩; exact ⟨c, hc, (key c d hd).1 hp⟩
  · rintro ⟨c, hc, hp⟩
    obtain ⟨d, hd⟩ := members_ne h hi hc
    exact ⟨c, hc, d, hd, (key c d hd).2 hp⟩

theorem range_noVars {r : Repertoire} (h : WF r) (hi : Intact r) {c : CharObj} (hc : c ∈ r.iter)
    (hr : c.isRange = true) : c.getVariants = [] := by
  obtain ⟨hl, hcp⟩ := (mem_iter_intact h hi c).1 hc
  obtain ⟨⟨f, l⟩, hrg⟩ := Option.isSome_iff_exists.1 hr
  obtain ⟨hfl, a, ha⟩ := hi.full f l (hi.marked _ c _ hl hrg)
  rw [hcp f l hrg, ha f (le_refl _) (le_of_lt hfl)] at hl
  rw [← Option.some.inj hl]
  simp [CharObj.getVariants, sortAsc]

theorem badVariant_iff {v : Variant} : badVariant v = true ↔ ∃ t : String, v.type = some t ∧
    (t = "" ∨ ' ' ∈ t.toList ∨ ∃ u : List Char, t.toList = '_' :: u) := by
  unfold badVariant
  cases v.type with
  | none => simp
  | some t =>
    simp only [badType, Bool.or_eq_true, decide_eq_true_eq, Option.some.injEq, exists_eq_left']
    have h1 : t.toList = [] ↔ t = "" := by simp
    have h2 : t.toList.head? = some '_' ↔ ∃ u, t.toList = '_' :: u := by
      cases t.toList with
      | nil => simp
      | cons a l => simp
    rw [h1, h2]; tauto

theorem badType_iff {r : Repertoire} (h : WF r) (hi : Intact r) :
    BadType r ↔ ∃ c ∈ r.iter, ∃ v ∈ c.getVariants, badVariant v = true := by
  unfold BadType
  rw [entry_iter h hi (fun c x => by rfl)]
  simp only [badVariant_iff]

theorem mem_toCheck {r : Repertoire} (h : WF r) (hi : Intact r) (x : Nat) :
    x ∈ toCheck r ↔ Entry r fun c => x ∈ c.cp ∨ ∃ v ∈ c.getVariants, x ∈ v.cp := by
  rw [entry_members h hi]
  simp only [toCheck, List.mem_dedup, List.mem_flatMap]
  refine exists_congr fun c => and_congr_right fun hc => ?_
  unfold members
  cases hr : c.range with
  | none => simp
  | some p =>
    obtain ⟨f, l⟩ := p
    have hv := range_noVars h hi hc (by simp [CharObj.isRange, hr])
    have hv' : ∀ y, (CharObj.getVariants { c with cp := [y], range := some (f, l) }) = [] := fun y => hv
    simp only [List.mem_map]
    constructor
    · intro hx; exact ⟨_, ⟨x, hx, rfl⟩, .inl (by simp)⟩
    · rintro ⟨_, ⟨y, hy, rfl⟩, hx | ⟨v, hv2, _⟩⟩
      · simp only [List.mem_singleton] at hx; subst hx; exact hy
      · exact absurd hv2 (by rw [hv']; simp)

theorem badCp_iff {valid : Nat → Bool} {r : Repertoire} (h : WF r) (hi : Intact r) :
    BadCp valid r ↔ ∃ x ∈ toCheck r, valid x = false := by
  simp only [mem_toCheck h hi, BadCp, Entry]
  constructor
  · rintro ⟨k, c, hl, x, hx, hb⟩; exact ⟨x, ⟨k, c, hl, hx⟩, hb⟩
  · rintro ⟨x, ⟨k, c, hl, hx⟩, hb⟩; exact ⟨k, c, hl, x, hx, hb⟩

theorem badRefs_iff {num : List Char → Bool} {r : Repertoire} (h : WF r) (hi : Intact r) :
    BadRefs num pyInt r ↔ ∃ refs ∈ r.iter.flatMap (fun c => c.attrs.refs :: c.getVariants.map Variant.refs),
      Descends num pyInt refs := by
  unfold BadRefs
  rw [entry_iter h hi (fun c x => by rfl)]
  simp only [List.mem_flatMap, List.mem_cons, List.mem_map]
  constructor
  · rintro ⟨c, hc, hd | ⟨v, hv, hd⟩⟩
    · exact ⟨_, ⟨c, hc, .inl rfl⟩, hd⟩
    · exact ⟨_, ⟨c, hc, .inr ⟨v, hv, rfl⟩⟩, hd⟩
  · rintro ⟨_, ⟨c, hc, rfl | ⟨v, hv, rfl⟩⟩, hd⟩
    · exact ⟨c, hc, .inl hd⟩
    · exact ⟨c, hc, .inr ⟨v, hv, hd⟩⟩

theorem run_type {r : Repertoire} (h : WF r) (hi : Intact r) :
    (∃ c ∈ r.iter, c.isRange = false) ↔ Entry r fun c => c.range = none := by
  rw [entry_iter h hi (fun c x => by rfl)]
  simp [CharObj.isRange]

/-! ## Theorems -/

/-- **C70** `check_lgr_data` notifies the failure of exactly the tests that fail, and succeeds iff none
fails; it notifies as run exactly the tests of `Run`. -/
theorem data_exact (hp : ∀ s, numeric digit s = true → ∃ i : Int, 0 ≤ i ∧ pyInt s = some i) (d : Db)
    (uv : Option (List Char)) {r : Repertoire} (h : WF r) (hi : Intact r) :
    (∀ test, Note.error test ∈ (checkData digit pyInt (some d) uv r).1 ↔
      Wrong (numeric digit) pyInt d uv r test) ∧
    (∀ test, Note.tested test ∈ (checkData digit pyInt (some d) uv r).1 ↔ Run d uv r test) ∧
    ∃ b, (checkData digit pyInt (some d) uv r).2 = .ok b ∧
      (b = true ↔ ∀ test, ¬ Wrong (numeric digit) pyInt d uv r test) := by
  have e1 : ∀ test, Note.error test ∈ r.iter.flatMap typeNotes ↔ test = "data_variant_type" ∧ BadType r := by
    intro test
    rw [badType_iff h hi, List.mem_flatMap]
    constructor
    · rintro ⟨c, hc, hm⟩
      unfold typeNotes at hm
      split at hm
      · simp at hm
      · simp only [List.mem_append, List.mem_map, List.mem_filter, Note.error.injEq, List.mem_singleton,
          reduceCtorEq, or_false] at hm
        obtain ⟨v, ⟨hv, hb⟩, rfl⟩ := hm
        exact ⟨rfl, c, hc, v, hv, hb⟩
    · rintro ⟨rfl, c, hc, v, hv, hb⟩
      refine ⟨c, hc, ?_⟩
      unfold typeNotes
      split
      · rename_i hr; rw [range_noVars h hi hc hr] at hv; simp at hv
      · simp only [List.mem_append, List.mem_map, List.mem_filter]
        exact .inl ⟨v, ⟨hv, hb⟩, trivial⟩
  have t1 : ∀ test, Note.tested test ∈ r.iter.flatMap typeNotes ↔
      test = "data_variant_type" ∧ Entry r fun c => c.range = none := by
    intro test
    rw [← run_type h hi, List.mem_flatMap]
    constructor
    · rintro ⟨c, hc, hm⟩
      unfold typeNotes at hm
      split at hm
      · simp at hm
      · rename_i hr
        simp only [List.mem_append, List.mem_map, reduceCtorEq, and_false, exists_false, false_or,
          List.mem_singleton, Note.tested.injEq] at hm
        exact ⟨hm, c, hc, by simpa using hr⟩
    · rintro ⟨rfl, c, hc, hr⟩
      exact ⟨c, hc, by simp [typeNotes, hr]⟩
  have b1 : (r.iter.all (fun c => c.isRange || !c.getVariants.any badVariant)) = true ↔ ¬ BadType r := by
    rw [badType_iff h hi]
    simp only [List.all_eq_true, Bool.or_eq_true, Bool.not_eq_true', List.any_eq_false]
    constructor
    · rintro ha ⟨c, hc, v, hv, hb⟩
      rcases ha c hc with hr | hn
      · rw [range_noVars h hi hc hr] at hv; simp at hv
      · exact hn v hv hb
    · intro hn c hc
      exact .inr fun v hv hb => hn ⟨c, hc, v, hv, hb⟩
  by_cases hv : some d.version = uv
  · obtain ⟨notes, b, hf, hb, hno⟩ := refLoop_exact hp
      (r.iter.flatMap (fun c => c.attrs.refs :: c.getVariants.map Variant.refs))
      (r.iter.flatMap typeNotes ++ [.tested "valid_unicode_version"] ++
        ((toCheck r).filter (fun x => !d.valid x)).map (fun _ => Note.error "codepoint_valid")
          ++ [.tested "codepoint_valid"],
        r.iter.all (fun c => c.isRange || !c.getVariants.any badVariant) &&
          decide ((toCheck r).filter (fun x => !d.valid x) = []))
    have hres : checkData digit pyInt (some d) uv r = ((r.iter.flatMap typeNotes ++
        [.tested "valid_unicode_version"] ++
        ((toCheck r).filter (fun x => !d.valid x)).map (fun _ => Note.error "codepoint_valid")
          ++ [.tested "codepoint_valid"]) ++ notes ++ [.tested "ref_attribute_ascending"],
        .ok ((r.iter.all (fun c => c.isRange || !c.getVariants.any badVariant) &&
          decide ((toCheck r).filter (fun x => !d.valid x) = [])) && b)) := by
      simp only [checkData, if_pos hv, hf]
    rw [hres]
    have hbc : (toCheck r).filter (fun x => !d.valid x) = [] ↔ ¬ BadCp d.valid r := by
      rw [badCp_iff h hi, List.filter_eq_nil_iff]; simp
    have hbr : b = true ↔ ¬ BadRefs (numeric digit) pyInt r := by
      rw [hb, badRefs_iff h hi]
      exact ⟨fun h ⟨x, hx, hd⟩ => h x hx hd, fun h x hx hd => h ⟨x, hx, hd⟩⟩
    refine ⟨?_, ?_, _, rfl, ?_⟩
    · intro test
      simp only [List.mem_append, e1, hno, List.mem_singleton, reduceCtorEq, or_false, List.mem_map,
        List.mem_filter, Note.error.injEq, Wrong, hv, true_and, badRefs_iff h hi, badCp_iff h hi,
        Bool.not_eq_true']
      constructor
      · rintro ((h | ⟨x, hx, h⟩) | h)
        · exact .inl h
        · exact .inr (.inl ⟨h.symm, x, hx⟩)
        · exact .inr (.inr h)
      · rintro (h | ⟨h, x, hx⟩ | h)
        · exact .inl (.inl h)
        · exact .inl (.inr ⟨x, hx, h.symm⟩)
        · exact .inr h
    · intro test
      simp only [List.mem_append, t1, hno, List.mem_singleton, reduceCtorEq, false_and, or_false,
        List.mem_map, and_false, exists_false, Note.tested.injEq, Run, hv, and_true, or_assoc]
    · simp only [Bool.and_eq_true, b1, decide_eq_true_eq, hbc, hbr, Wrong, hv, true_and]
      constructor
      · rintro ⟨⟨x, y⟩, z⟩ test (⟨_, h⟩ | ⟨_, h⟩ | ⟨_, h⟩)
        · exact x h
        · exact y h
        · exact z h
      · intro h
        exact ⟨⟨fun x => h _ (.inl ⟨rfl, x⟩), fun x => h _ (.inr (.inl ⟨rfl, x⟩))⟩,
          fun x => h _ (.inr (.inr ⟨rfl, x⟩))⟩
  · obtain ⟨notes, b, hf, hb, hno⟩ := refLoop_exact hp
      (r.iter.flatMap (fun c => c.attrs.refs :: c.getVariants.map Variant.refs))
      (r.iter.flatMap typeNotes, r.iter.all (fun c => c.isRange || !c.getVariants.any badVariant))
    have hres : checkData digit pyInt (some d) uv r = (r.iter.flatMap typeNotes ++ notes ++
        [.tested "ref_attribute_ascending"],
        .ok (r.iter.all (fun c => c.isRange || !c.getVariants.any badVariant) && b)) := by
      simp only [checkData, if_neg hv, hf]
    rw [hres]
    have hbr : b = true ↔ ¬ BadRefs (numeric digit) pyInt r := by
      rw [hb, badRefs_iff h hi]
      exact ⟨fun h ⟨x, hx, hd⟩ => h x hx hd, fun h x hx hd => h ⟨x, hx, hd⟩⟩
    refine ⟨?_, ?_, _, rfl, ?_⟩
    · intro test
      simp only [List.mem_append, e1, hno, List.mem_singleton, reduceCtorEq, or_false, 
        Note.error.injEq, Wrong, hv, false_and, and_false, false_or, badRefs_iff h hi]
    · intro test
      simp only [List.mem_append, t1, hno, List.mem_singleton, reduceCtorEq, false_and, or_false,
        and_false, Note.tested.injEq, Run, hv, false_or]
    · simp only [Bool.and_eq_true, b1, hbr, Wrong, hv, false_and, and_false, false_or]
      constructor
      · rintro ⟨x, z⟩ test (⟨_, h⟩ | ⟨_, h⟩)
        · exact x h
        · exact z h
      · intro h
        exact ⟨fun x => h _ (.inl ⟨rfl, x⟩), fun x => h _ (.inr ⟨rfl, x⟩)⟩

/-- **C70** `check_lgr_rules` succeeds iff every action has a standard disposition. -/
theorem rules_exact (actions : List Action) :
    ((checkRules actions).2 = true ↔
      ∀ a ∈ actions, a.disp ∈ ["invalid", "blocked", "allocatable", "activated", "valid"]) ∧
    ∀ n, n ∈ (checkRules actions).1 ↔ n = .tested "standard_dispositions" ∨
      (n = .error "standard_dispositions" ∧
        ∃ a ∈ actions, a.disp ∉ ["invalid", "blocked", "allocatable", "activated", "valid"]) := by
  constructor
  · simp only [checkRules, decide_eq_true_eq, List.filter_eq_nil_iff, Bool.not_eq_true',
      standardDispositions]
    exact forall₂_congr fun a _ => by
      rw [Bool.not_eq_false]; exact decide_eq_true_iff
  · intro n
    simp only [checkRules, List.mem_append, List.mem_map, List.mem_filter, Bool.not_eq_true',
      List.mem_singleton, standardDispositions]
    constructor
    · rintro (⟨a, ⟨h, hd⟩, rfl⟩ | h)
      · exact .inr ⟨rfl, a, h, of_decide_eq_false hd⟩
      · exact .inl h
    · rintro (h | ⟨rfl, a, h, hd⟩)
      · exact .inr h
      · exact .inl ⟨a, ⟨h, decide_eq_false hd⟩, rfl⟩

/-- **C70, partly** With a Unicode database and integers that can be read, `check_miscellaneous` does not
raise and succeeds iff the dispositions are standard and nothing is wrong with the data. When the
dispositions are standard, the data have an entry outside ranges and the version of Unicode is that of
the database, all the tests are notified as run. -/
theorem misc_exact_partial (hp : ∀ s, numeric digit s = true → ∃ i : Int, 0 ≤ i ∧ pyInt s = some i)
    (d : Db) (uv : Option (List Char)) (actions : List Action) {r : Repertoire} (h : WF r) (hi : Intact r) :
    (∃ b, (checkMisc digit pyInt (some d) uv actions r).2 = .ok b ∧
      (b = true ↔ (∀ a ∈ actions, a.disp ∈ ["invalid", "blocked", "allocatable", "activated", "valid"]) ∧
        ∀ test, ¬ Wrong (numeric digit) pyInt d uv r test)) ∧
    ((∀ a ∈ actions, a.disp ∈ ["invalid", "blocked", "allocatable", "activated", "valid"]) →
      (∀ test, Note.error test ∈ (checkMisc digit pyInt (some d) uv actions r).1 ↔
        Wrong (numeric digit) pyInt d uv r test) ∧
      ((Entry r fun c => c.range = none) → some d.version = uv →
        ∀ test ∈ ["standard_dispositions", "data_variant_type", "valid_unicode_version",
          "codepoint_valid", "ref_attribute_ascending"],
          Note.tested test ∈ (checkMisc digit pyInt (some d) uv actions r).1)) := by
  obtain ⟨r1, r2⟩ := rules_exact actions
  obtain ⟨d1, d2, b, d3, d4⟩ := data_exact hp d uv h hi
  rcases hr : checkRules actions with ⟨ns, ok⟩
  rw [hr] at r1 r2
  simp only at r1 r2
  cases ok with
  | false =>
    have hbad : ¬ ∀ a ∈ actions, a.disp ∈ ["invalid", "blocked", "allocatable", "activated", "valid"] :=
      fun hall => by simpa using r1.2 hall
    refine ⟨⟨false, by simp [checkMisc, hr], ?_⟩, fun hall => absurd hall hbad⟩
    simp only [Bool.false_eq_true, false_iff, not_and]
    exact fun hall => absurd hall hbad
  | true =>
    have hgood := r1.1 rfl
    have e : checkMisc digit pyInt (some d) uv actions r =
        (ns ++ (checkData digit pyInt (some d) uv r).1, (checkData digit pyInt (some d) uv r).2) := by
      simp only [checkMisc, hr]
    rw [e]
    refine ⟨⟨b, d3, by rw [d4]; exact ⟨fun h => ⟨hgood, h⟩, fun h => h.2⟩⟩, fun _ => ⟨?_, ?_⟩⟩
    · intro test
      rw [List.mem_append, r2, d1]
      constructor
      · rintro ((h | ⟨_, a, ha, hb⟩) | h)
        · simp at h
        · exact absurd (hgood a ha) hb
        · exact h
      · exact .inr
    · intro hent hver test ht
      rw [List.mem_append, r2, d2]
      simp only [List.mem_cons, List.not_mem_nil, or_false] at ht
      rcases ht with rfl | rfl | rfl | rfl | rfl
      · exact .inl (.inl rfl)
      · exact .inr (.inl ⟨rfl, hent⟩)
      · exact .inr (.inr (.inl ⟨.inl rfl, hver⟩))
      · exact .inr (.inr (.inl ⟨.inr rfl, hver⟩))
      · exact .inr (.inr (.inr rfl))

/-- `\d`, for ASCII. -/
def asciiDigit (c : Char) : Bool := decide ('0' ≤ c ∧ c ≤ '9')

/-- `int` of one digit; 0 of anything else. -/
def oneDigit (s : List Char) : Option Int :=
  match s with
  | [c] => some (c.toNat - 48 : Nat)
  | _ => some 0

/-- A code point with descending references, and a variant of a reserved type. -/
def sample : List (LGR.Ctx × LGR.Op) :=
  [(C06.ctx0, .addReference "r" none (some "1")), (C06.ctx0, .addReference "s" none (some "2")),
   (C06.ctx0, .addCp (.int 97) { ref := ["2", "1"] }), (C06.ctx0, .addVariant (.int 97) (.int 98) (some "_x") {}),
   (C06.ctx0, .addRange 100 102 {})]

/-- The hypotheses are met, and both faults are found; the code point of the variant is one of those
checked. -/
example : (∀ s, numeric asciiDigit s = true → ∃ i : Int, 0 ≤ i ∧ oneDigit s = some i) ∧
    Along RangeSafe {} sample ∧
    checkMisc asciiDigit oneDigit (some ⟨"6.3".toList, fun x => x ≠ 98⟩) (some "6.3".toList) []
      (LGR.run {} sample).rep =
      ([.tested "standard_dispositions", .error "data_variant_type", .tested "data_variant_type",
        .tested "valid_unicode_version", .error "codepoint_valid", .tested "codepoint_valid",
        .error "ref_attribute_ascending", .tested "ref_attribute_ascending"], .ok false) := by
  refine ⟨?_, ⟨trivial, trivial, trivial, trivial, .inl (by decide +kernel), trivial⟩, by decide +kernel⟩
  intro s _
  unfold oneDigit
  split
  · exact ⟨_, by positivity, rfl⟩
  · exact ⟨0, le_refl _, rfl⟩

/-- **C70** is violated by an LGR without Unicode database: the check raises an exception that is not one
of the project's, whatever the data. -/
theorem no_database (uv : Option (List Char)) (r : Repertoire) :
    (checkMisc digit pyInt none uv [] r).2 = .error .attributeError ∧
      isLgrException .attributeError = false := by
  constructor
  · simp [checkMisc, checkRules, checkData]
  · rfl

/-- **C70** is violated by a disposition that is not standard: the data are not tested, so their faults
are not reported. -/
theorem data_not_tested (db : Option Db) (uv : Option (List Char)) (a : Action)
    (ha : a.disp ∉ ["invalid", "blocked", "allocatable", "activated", "valid"]) (actions : List Action)
    (hm : a ∈ actions) (r : Repertoire) (test : String) (h : test ≠ "standard_dispositions") :
    Note.tested test ∉ (checkMisc digit pyInt db uv actions r).1 ∧
      Note.error test ∉ (checkMisc digit pyInt db uv actions r).1 := by
  obtain ⟨r1, r2⟩ := rules_exact actions
  rcases hr : checkRules actions with ⟨ns, ok⟩
  rw [hr] at r1 r2
  simp only at r1 r2
  have hf : ok = false := by
    cases ok with
    | false => rfl
    | true => exact absurd (r1.1 rfl a hm) ha
  subst hf
  simp only [checkMisc, hr, r2]
  simp [h]

end Lgr.Props.C70

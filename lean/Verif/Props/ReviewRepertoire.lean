import Verif.Props.ReviewClasses

/-!
# C39, C77, C80: review of the repertoire
-/

namespace Lgr.Props.C80
open Lgr Review Repertoire

/-- The context rule of a code point: none, or a name, with `true` for `when`. -/
def contextRule (c : CharObj) : Option (Bool × String) :=
  match c.attrs.whenR with
  | some w => if w = "" then other else some (true, w)
  | none => other
where other := match c.attrs.notWhenR with
  | some n => if n = "" then none else some (false, n)
  | none => none

/-- Written out, a rule is as in the reports. -/
def written : Option (Bool × String) → Option String
  | none => none
  | some (true, w) => some ("when-" ++ w)
  | some (false, n) => some ("not-when-" ++ n)

theorem ruleName_eq (c : CharObj) : ruleName c.attrs.whenR c.attrs.notWhenR = written (contextRule c) := by
  unfold ruleName contextRule contextRule.other
  cases c.attrs.whenR with
  | none =>
    cases c.attrs.notWhenR with
    | none => rfl
    | some n => by_cases hn : n = "" <;> simp [truthy, hn, written]
  | some w =>
    by_cases hw : w = ""
    · cases c.attrs.notWhenR with
      | none => simp [truthy, hw, written]
      | some n => by_cases hn : n = "" <;> simp [truthy, hw, hn, written]
    · simp [truthy, hw, written]

theorem written_inj {a b : Option (Bool × String)} (h : written a = written b) : a = b := by
  rcases a with _ | ⟨_ | _, a⟩ <;> rcases b with _ | ⟨_ | _, b⟩ <;>
    simp only [written, reduceCtorEq, Option.some.injEq] at h ⊢
  · have := congrArg String.toList h
    simp only [String.toList_append, List.append_cancel_left_eq, String.toList_inj] at this
    rw [this]
  · have := congrArg String.toList h; simp at this
  · have := congrArg String.toList h; simp at this
  · have := congrArg String.toList h
    simp only [String.toList_append, List.append_cancel_left_eq, String.toList_inj] at this
    rw [this]

/-- A tag other than a script which the first has and the second has not. -/
def LacksTag (a b : CharObj) : Prop := ∃ t ∈ a.attrs.tags, t ∉ b.attrs.tags ∧ t.startsWith "sc:" = false

/-- What the result on a code point means. -/
def Says (idn ref : Option CharObj) : Result → Prop
  | .subset => idn = none
  | .manualCheck => idn.isSome ∧ ref = none
  | .review => ∃ a ∈ idn, ∃ b ∈ ref,
      LacksTag b a ∨ (contextRule a ≠ contextRule b ∧ (contextRule b).isSome)
  | .note => ∃ a ∈ idn, ∃ b ∈ ref, ¬ LacksTag b a ∧
      ((contextRule a = contextRule b ∧ LacksTag a b) ∨ (contextRule a ≠ contextRule b ∧ contextRule b = none))
  | .matched => ∃ a ∈ idn, ∃ b ∈ ref, ¬ LacksTag b a ∧ ¬ LacksTag a b ∧ contextRule a = contextRule b

theorem says_unique {idn ref : Option CharObj} {r r' : Result} (h : Says idn ref r) (h' : Says idn ref r') :
    r = r' := by
  cases idn with
  | none => cases r <;> cases r' <;> simp_all [Says]
  | some a =>
    cases ref with
    | none => cases r <;> cases r' <;> simp_all [Says]
    | some b =>
      simp only [Says, Option.mem_def, Option.some.injEq, exists_eq_left'] at h h'
      by_cases h1 : LacksTag b a <;> by_cases h2 : LacksTag a b <;>
        by_cases h3 : contextRule a = contextRule b <;> rcases h4 : contextRule b with _ | x <;>
        cases r <;> cases r' <;> simp_all

theorem mem_loneTags {a b : List String} {t : String} :
    t ∈ loneTags a b ↔ ((t ∈ a ∧ t ∉ b) ∨ (t ∈ b ∧ t ∉ a)) ∧ t.startsWith "sc:" = false := by
  simp only [loneTags, List.mem_filter, List.mem_dedup, List.mem_append, C79.mem_minus, Bool.not_eq_true']

/-- The loop on tags does not depend on the order. -/
theorem tagLoop_eq (a b : List String) (ts : List String) (st : Option Result × String)
    (hst : st = (none, "") ∨ st = (some .note, "Tags not required in Reference LGR")) :
    tagLoop a b st ts =
      if ∃ t ∈ ts, t ∉ a then (some .review, "Tags do not match")
      else if ∃ t ∈ ts, t ∉ b then (some .note, "Tags not required in Reference LGR") else st := by
  induction ts generalizing st with
  | nil => simp [tagLoop]
  | cons t ts ih =>
    unfold tagLoop
    by_cases h1 : t ∉ a
    · rw [if_pos h1, if_pos ⟨t, by simp, h1⟩]
    · rw [if_neg h1]
      have e1 : (∃ t' ∈ t :: ts, t' ∉ a) ↔ ∃ t' ∈ ts, t' ∉ a := by simp [not_not.1 h1]
      by_cases h2 : t ∉ b
      · have e2 : ∃ t' ∈ t :: ts, t' ∉ b := ⟨t, by simp, h2⟩
        rcases hst with rfl | rfl
        · rw [if_pos ⟨h2, rfl⟩, ih _ (Or.inr rfl)]
          simp only [e1, if_pos e2, ite_self]
        · rw [if_neg (by simp [unset, Result.rank]), ih _ (Or.inr rfl)]
          simp only [e1, if_pos e2, ite_self]
      · have e2 : (∃ t' ∈ t :: ts, t' ∉ b) ↔ ∃ t' ∈ ts, t' ∉ b := by simp [not_not.1 h2]
        rw [if_neg (fun h => h2 h.1), ih _ hst]
        simp only [e1, e2]

variable {order : List String → List String}

theorem tags_eq (ho : ∀ l t, t ∈ order l ↔ t ∈ l) (a b : CharObj) :
    (LacksTag b a ∧ tagLoop a.attrs.tags b.attrs.tags (none, "") (order (loneTags a.attrs.tags b.attrs.tags)) =
      (some .review, "Tags do not match")) ∨
    (¬ LacksTag b a ∧ LacksTag a b ∧
      tagLoop a.attrs.tags b.attrs.tags (none, "") (order (loneTags a.attrs.tags b.attrs.tags)) =
      (some .note, "Tags not required in Reference LGR")) ∨
    (¬ LacksTag b a ∧ ¬ LacksTag a b ∧
      tagLoop a.attrs.tags b.attrs.tags (none, "") (order (loneTags a.attrs.tags b.attrs.tags)) = (none, "")) := by
  have e1 : (∃ t ∈ order (loneTags a.attrs.tags b.attrs.tags), t ∉ a.attrs.tags) ↔ LacksTag b a := by
    simp only [ho, mem_loneTags, LacksTag]
    constructor
    · rintro ⟨t, ⟨h1 | h1, h2⟩, h3⟩
      · exact absurd h1.1 h3
      · exact ⟨t, h1.1, h3, h2⟩
    · rintro ⟨t, h1, h2, h3⟩; exact ⟨t, ⟨Or.inr ⟨h1, h2⟩, h3⟩, h2⟩
  have e2 : (∃ t ∈ order (loneTags a.attrs.tags b.attrs.tags), t ∉ b.attrs.tags) ↔ LacksTag a b := by
    simp only [ho, mem_loneTags, LacksTag]
    constructor
    · rintro ⟨t, ⟨h1 | h1, h2⟩, h3⟩
      · exact ⟨t, h1.1, h3, h2⟩
      · exact absurd h1.1 h3
    · rintro ⟨t, h1, h2, h3⟩; exact ⟨t, ⟨Or.inl ⟨h1, h2⟩, h3⟩, h2⟩
  rw [tagLoop_eq _ _ _ _ (Or.inl rfl)]
  by_cases h1 : LacksTag b a
  · exact Or.inl ⟨h1, if_pos (e1.2 h1)⟩
  · by_cases h2 : LacksTag a b
    · exact Or.inr (Or.inl ⟨h1, h2, by rw [if_neg (mt e1.1 h1), if_pos (e2.2 h2)]⟩)
    · exact Or.inr (Or.inr ⟨h1, h2, by rw [if_neg (mt e1.1 h1), if_neg (mt e2.1 h2)]⟩)

/-- The pairs of result and remark. -/
def table : List (Result × String) :=
  [(.subset, "Match as a subset of repertoire"),
   (.manualCheck, "The code point only exists in the IDN Table but not in the reference LGR"),
   (.note, "Rules not required in Reference LGR"),
   (.note, "Tags not required in Reference LGR\nRules not required in Reference LGR"),
   (.review, "Rules do not match"),
   (.review, "Tags do not match\nRules do not match"),
   (.matched, "Matches code point (including tags, context rule)"),
   (.note, "Tags not required in Reference LGR"),
   (.review, "Tags do not match")]

theorem table_functional : C77.Functional table := by unfold C77.Functional; decide +kernel

/-- The result of a comparison is what the code points say, and the remark is one of the table. -/
theorem compare_exact (ho : ∀ l t, t ∈ order l ↔ t ∈ l) (idn ref : Option CharObj) :
    (∀ r, (compareChar order idn ref).1 = r ↔ Says idn ref r) ∧ compareChar order idn ref ∈ table := by
  have fin : ∀ r, Says idn ref r → (compareChar order idn ref).1 = r → compareChar order idn ref ∈ table →
      (∀ r, (compareChar order idn ref).1 = r ↔ Says idn ref r) ∧ compareChar order idn ref ∈ table := by
    intro r h1 h2 h3
    refine ⟨fun r' => ⟨?_, fun h => by rw [h2]; exact says_unique h1 h⟩, h3⟩
    rintro rfl; rw [h2]; exact h1
  cases idn with
  | none => exact fin .subset rfl rfl (by simp [compareChar, table])
  | some a =>
    cases ref with
    | none => exact fin .manualCheck ⟨rfl, rfl⟩ rfl (by simp [compareChar, table])
    | some b =>
      have hn : (ruleName a.attrs.whenR a.attrs.notWhenR = ruleName b.attrs.whenR b.attrs.notWhenR) ↔
          contextRule a = contextRule b := by
        rw [ruleName_eq, ruleName_eq]; exact ⟨written_inj, fun h => by rw [h]⟩
      have hsome : ∀ c, (ruleName c.attrs.whenR c.attrs.notWhenR).isSome = (contextRule c).isSome := by
        intro c; rw [ruleName_eq]; rcases contextRule c with _ | ⟨_ | _, _⟩ <;> rfl
      have hnone : ∀ c, (ruleName c.attrs.whenR c.attrs.notWhenR).isNone = (contextRule c).isNone := by
        intro c; rw [ruleName_eq]; rcases contextRule c with _ | ⟨_ | _, _⟩ <;> rfl
      rcases tags_eq ho a b with ⟨h1, h⟩ | ⟨h1, h2, h⟩ | ⟨h1, h2, h⟩
      · by_cases h3 : contextRule a = contextRule b
        · have e : compareChar order (some a) (some b) = (.review, "Tags do not match") := by
            simp [compareChar, h, hn, h3, Result.rank]
          exact fin .review ⟨a, rfl, b, rfl, Or.inl h1⟩ (by rw [e]) (by rw [e]; simp [table])
        · have e : compareChar order (some a) (some b) = (.review, "Tags do not match\nRules do not match") := by
            simp [compareChar, h, hn, h3]
          exact fin .review ⟨a, rfl, b, rfl, Or.inl h1⟩ (by rw [e]) (by rw [e]; simp [table])
      · by_cases h3 : contextRule a = contextRule b
        · have e : compareChar order (some a) (some b) = (.note, "Tags not required in Reference LGR") := by
            simp [compareChar, h, hn, h3, Result.rank]
          exact fin .note ⟨a, rfl, b, rfl, h1, Or.inl ⟨h3, h2⟩⟩ (by rw [e]) (by rw [e]; simp [table])
        · cases h4 : contextRule b with
          | none =>
            have h5 : (contextRule a).isSome = true := by
              rw [h4] at h3; exact Option.isSome_iff_ne_none.2 h3
            have e : compareChar order (some a) (some b) =
                (.note, "Tags not required in Reference LGR\nRules not required in Reference LGR") := by
              simp only [compareChar, h, ne_eq, hn]
              rw [if_pos h3, hsome, hnone]
              simp [h4, h5]
            exact fin .note ⟨a, rfl, b, rfl, h1, Or.inr ⟨h3, h4⟩⟩ (by rw [e]) (by rw [e]; simp [table])
          | some x =>
            have e : compareChar order (some a) (some b) = (.review, "Rules do not match") := by
              simp only [compareChar, h, ne_eq, hn]
              rw [if_pos h3, hsome, hnone]
              simp [h4]
            exact fin .review ⟨a, rfl, b, rfl, Or.inr ⟨h3, by simp [h4]⟩⟩ (by rw [e]) (by rw [e]; simp [table])
      · by_cases h3 : contextRule a = contextRule b
        · have e : compareChar order (some a) (some b) =
              (.matched, "Matches code point (including tags, context rule)") := by
            simp [compareChar, h, hn, h3]
          exact fin .matched ⟨a, rfl, b, rfl, h1, h2, h3⟩ (by rw [e]) (by rw [e]; simp [table])
        · cases h4 : contextRule b with
          | none =>
            have h5 : (contextRule a).isSome = true := by
              rw [h4] at h3; exact Option.isSome_iff_ne_none.2 h3
            have e : compareChar order (some a) (some b) = (.note, "Rules not required in Reference LGR") := by
              simp only [compareChar, h, ne_eq, hn]
              rw [if_pos h3, hsome, hnone]
              simp [h4, h5]
            exact fin .note ⟨a, rfl, b, rfl, h1, Or.inr ⟨h3, h4⟩⟩ (by rw [e]) (by rw [e]; simp [table])
          | some x =>
            have e : compareChar order (some a) (some b) = (.review, "Rules do not match") := by
              simp only [compareChar, h, ne_eq, hn]
              rw [if_pos h3, hsome, hnone]
              simp [h4]
            exact fin .review ⟨a, rfl, b, rfl, Or.inr ⟨h3, by simp [h4]⟩⟩ (by rw [e]) (by rw [e]; simp [table])

theorem dictOf_aux (l : List CharObj) (d : List (Seq × CharObj)) (hl : (l.map CharObj.cp).Nodup)
    (hd : ∀ c ∈ l, dget d c.cp = none) (k : Seq) (c : CharObj) :
    dget (l.foldl (fun d c => dset d c.cp c) d) k = some c ↔ dget d k = some c ∨ (c ∈ l ∧ c.cp = k) := by
  induction l generalizing d with
  | nil => simp
  | cons a l ih =>
    rw [List.map_cons, List.nodup_cons] at hl
    rw [List.foldl_cons, ih _ hl.2, dget_dset]
    · by_cases hk : a.cp = k
      · subst hk
        rw [if_pos rfl]
        have := hd a (by simp)
        simp only [this, Option.some.injEq, List.mem_cons, reduceCtorEq, false_or]
        constructor
        · rintro (rfl | ⟨h1, h2⟩)
          · exact ⟨Or.inl rfl, rfl⟩
          · exact ⟨Or.inr h1, h2⟩
        · rintro ⟨rfl | h1, h2⟩
          · exact Or.inl rfl
          · exact Or.inr ⟨h1, h2⟩
      · rw [if_neg hk]
        simp only [List.mem_cons]
        constructor
        · rintro (h | ⟨h1, h2⟩)
          · exact Or.inl h
          · exact Or.inr ⟨Or.inr h1, h2⟩
        · rintro (h | ⟨rfl | h1, h2⟩)
          · exact Or.inl h
          · exact absurd h2 hk
          · exact Or.inr ⟨h1, h2⟩
    · intro c hc
      rw [dget_dset, if_neg]
      · exact hd c (by simp [hc])
      · intro h; exact hl.1 (h ▸ List.mem_map_of_mem hc)

theorem dictOf_eq {r : Repertoire} (h : WF r) (k : Seq) : dget (dictOf r.allChars) k = r.lookup k := by
  ext c
  rw [dictOf, dictOf_aux _ _ (allChars_nodup h) (by simp [dget]), mem_allChars h]
  constructor
  · rintro (h1 | ⟨h1, rfl⟩)
    · simp [dget] at h1
    · exact h1
  · intro h1
    exact Or.inr ⟨by rw [lookup_cp h1]; exact h1, lookup_cp h1⟩

theorem mem_keys {β : Type} {d : List (Seq × β)} {k : Seq} : k ∈ d.map Prod.fst ↔ (dget d k).isSome := by
  induction d with
  | nil => simp [dget]
  | cons p d ih =>
    obtain ⟨a, b⟩ := p
    by_cases h : a = k
    · subst h; simp [dget]
    · have h' : ¬ k = a := fun h1 => h h1.symm
      rw [List.map_cons, List.mem_cons, ih]
      simp [dget, h, h']

/-- **C80** The report on the repertoire: it lists each code point (or sequence) of either table exactly
once, in order, saying where it is, and the result is what the entries of the two tables say, whatever the
order in which sets are iterated on. -/
theorem report_exact (ho : ∀ l t, t ∈ order l ↔ t ∈ l) {idn ref : Repertoire} (hi : WF idn) (hr : WF ref) :
    ((repertoireReport order idn ref).map RepEntry.cp).Pairwise (· < ·) ∧
    (∀ k, k ∈ (repertoireReport order idn ref).map RepEntry.cp ↔ idn.hasCp k = true ∨ ref.hasCp k = true) ∧
    ∀ e ∈ repertoireReport order idn ref,
      e.inIdn = idn.hasCp e.cp ∧ e.inRef = ref.hasCp e.cp ∧
      ∀ r, e.result = r ↔ Says (idn.lookup e.cp) (ref.lookup e.cp) r := by
  have hcp : (repertoireReport order idn ref).map RepEntry.cp =
      sortAsc id ((dictOf idn.allChars).map Prod.fst ++ (dictOf ref.allChars).map Prod.fst).dedup := by
    unfold repertoireReport
    simp only [List.map_map]
    conv_rhs => rw [← List.map_id (sortAsc id _)]
    rfl
  refine ⟨?_, ?_, ?_⟩
  · rw [hcp]
    have h1 := sortAsc_sorted (id : Seq → Seq)
      ((dictOf idn.allChars).map Prod.fst ++ (dictOf ref.allChars).map Prod.fst).dedup
    have h2 := (sortAsc_perm (id : Seq → Seq) ((dictOf idn.allChars).map Prod.fst ++
      (dictOf ref.allChars).map Prod.fst).dedup).nodup_iff.2 (List.nodup_dedup _)
    exact (h1.and h2).imp (fun ⟨h3, h4⟩ => lt_of_le_of_ne h3 h4)
  · intro k
    rw [hcp, (sortAsc_perm _ _).mem_iff, List.mem_dedup, List.mem_append, mem_keys, mem_keys,
      dictOf_eq hi, dictOf_eq hr, hasCp_iff, hasCp_iff]
  · intro e he
    unfold repertoireReport at he
    simp only [List.mem_map] at he
    obtain ⟨k, _, rfl⟩ := he
    simp only [dictOf_eq hi, dictOf_eq hr]
    refine ⟨?_, ?_, (compare_exact ho _ _).1⟩
    · rw [Bool.eq_iff_iff, hasCp_iff]
    · rw [Bool.eq_iff_iff, hasCp_iff]

/-- **C77** (repertoire) Each line of the summary has the result of all the code points it counts. -/
theorem _root_.Lgr.Props.C77.repertoire_functional (ho : ∀ l t, t ∈ order l ↔ t ∈ l) (idn ref : Repertoire) :
    C77.Functional ((repertoireReport order idn ref).map (fun e => (e.result, e.remark))) := by
  refine C77.functional_of_table table ?_ table_functional
  intro p hp
  obtain ⟨e, he, rfl⟩ := List.mem_map.1 hp
  unfold repertoireReport at he
  simp only [List.mem_map] at he
  obtain ⟨k, _, rfl⟩ := he
  exact (compare_exact ho _ _).2

theorem seqMem {c : CharObj} : 1 < c.len ↔ 2 ≤ c.cp.length := Iff.rfl

/-- **C80** The code points of the table which the reference has only inside sequences. -/
theorem in_sequences_exact {idn ref : Repertoire} (hr : WF ref) (x : Nat) (s : Seq) :
    (x, s) ∈ cpInRefSeq idn ref ↔
      ref.hasCp s = true ∧ 2 ≤ s.length ∧ x ∈ s ∧ ref.hasCp [x] = false ∧ idn.hasCp [x] = true := by
  unfold cpInRefSeq
  simp only [List.mem_flatMap, List.mem_filter, mem_allChars hr, Bool.not_eq_true']
  constructor
  · rintro ⟨c, ⟨hc, hrange⟩, hx⟩
    split at hx
    · rename_i hl
      simp only [List.mem_map, List.mem_filter, Bool.and_eq_true, Bool.not_eq_true', Prod.mk.injEq] at hx
      obtain ⟨y, ⟨h1, h2, h3⟩, rfl, rfl⟩ := hx
      refine ⟨by rw [hasCp_iff, hc]; rfl, (seqMem).1 hl, h1, h2, h3⟩
    · simp at hx
  · rintro ⟨h1, h2, h3, h4, h5⟩
    rw [hasCp_iff, Option.isSome_iff_exists] at h1
    obtain ⟨c, hc⟩ := h1
    have hk := lookup_cp hc
    refine ⟨c, ⟨by rw [hk]; exact hc, ?_⟩, ?_⟩
    · rw [CharObj.isRange, Bool.eq_false_iff]
      intro h6
      obtain ⟨p, hp⟩ := Option.isSome_iff_exists.1 h6
      obtain ⟨y, hy, _⟩ := (lookup_charWF hr hc).rangeCp p.1 p.2 hp
      rw [hk] at hy
      rw [hy] at h2
      simp at h2
    · rw [if_pos ((seqMem).2 (by rw [hk]; exact h2))]
      simp only [List.mem_map, List.mem_filter, Bool.and_eq_true, Bool.not_eq_true', Prod.mk.injEq]
      exact ⟨x, ⟨by rw [hk]; exact h3, h4, h5⟩, rfl, hk⟩

/-- Two tables with a code point in common, whose tags differ, one of the table alone and a sequence of the
reference alone. -/
example :
    let mk (l : List CharObj) : Repertoire := { dict := l.foldl (fun d c => dset d (c.cp.headD 0) [c]) [] }
    let idn := mk [{ cp := [97], attrs := { tags := ["sc:Latn", "x"] } }, { cp := [98] }]
    let ref := mk [{ cp := [97], attrs := { tags := ["y", "x"] } }, { cp := [99, 98] }]
    (repertoireReport List.reverse idn ref).map (fun e => (e.cp, e.result)) =
      [([97], .review), ([98], .manualCheck), ([99, 98], .subset)] ∧
    cpInRefSeq idn ref = [(98, [99, 98])] := by decide +kernel

end Lgr.Props.C80

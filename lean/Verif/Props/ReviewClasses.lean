import Verif.Props.Review

/-!
# C39, C77, C79: review of classes
-/

namespace Lgr.Props.C79
open Lgr Review

section
variable {α : Type} [DecidableEq α]

theorem meets_iff {a b : List α} : meets a b = true ↔ ∃ x ∈ a, x ∈ b := by simp [meets]

theorem mem_minus {a b : List α} {x : α} : x ∈ minus a b ↔ x ∈ a ∧ x ∉ b := by simp [minus]

theorem minus_nil {a b : List α} : minus a b = [] ↔ ∀ x ∈ a, x ∈ b := by
  simp [minus, List.filter_eq_nil_iff]

theorem minus_ne {a b : List α} : minus a b ≠ [] ↔ ∃ x ∈ a, x ∉ b := by
  rw [Ne, minus_nil]; push_neg; rfl

theorem differ_iff {a b : List α} : differ a b = false ↔ ∀ x, x ∈ a ↔ x ∈ b := by
  simp only [differ, Bool.or_eq_false_iff, decide_eq_false_iff_not, not_not, minus_nil]
  constructor
  · rintro ⟨h1, h2⟩ x; exact ⟨h1 x, h2 x⟩
  · intro h; exact ⟨fun x => (h x).1, fun x => (h x).2⟩

end

/-- What the result on a class means: `idn` and `ref` are the members in the table and in the reference,
`idnRep` and `refRep` the single code points of the two. -/
def Says (idn ref idnRep refRep : List Nat) : Result → Prop
  | .matched => ∀ x, x ∈ idn ↔ x ∈ ref
  | .review => idn ≠ [] ∧ ref ≠ [] ∧
      ((∃ x ∈ idn, x ∉ ref ∧ x ∈ refRep) ∨ (∃ x ∈ ref, x ∉ idn ∧ x ∈ idnRep))
  | .subset => idn ≠ [] ∧ (∀ x ∈ idn, x ∈ ref) ∧ (∃ x ∈ ref, x ∉ idn) ∧ ∀ x ∈ ref, x ∉ idn → x ∉ idnRep
  | .manualCheck =>
      (idn = [] ∧ ∃ x ∈ ref, x ∈ idnRep) ∨ (idn ≠ [] ∧ ref = []) ∨
      (idn ≠ [] ∧ ref ≠ [] ∧ (∃ x ∈ idn, x ∉ ref) ∧ (∀ x ∈ idn, x ∉ ref → x ∉ refRep) ∧
        ∀ x ∈ ref, x ∉ idn → x ∉ idnRep)
  | .note => False

/-- What is reported for a class with members in a repertoire of its LGR. -/
theorem verdict_exact (idn ref idnRep refRep : List Nat) (h : ¬ (idn = [] ∧ meets ref idnRep = false)) :
    ∃ p, classVerdict idn ref idnRep refRep = .ok (some p) ∧
      ∀ r, p.1 = r ↔ Says idn ref idnRep refRep r := by
  have hexcl : ∀ r, Says idn ref idnRep refRep r → ∀ r', Says idn ref idnRep refRep r' → r = r' := by
    have hbase : ∀ r, r ≠ .matched → Says idn ref idnRep refRep r → ¬ Says idn ref idnRep refRep .matched := by
      intro r hr h1 h2
      simp only [Says] at h2
      cases r with
      | matched => exact hr rfl
      | review =>
        rcases h1.2.2 with ⟨x, h3, h4, _⟩ | ⟨x, h3, h4, _⟩
        · exact h4 ((h2 x).1 h3)
        · exact h4 ((h2 x).2 h3)
      | subset => obtain ⟨x, h3, h4⟩ := h1.2.2.1; exact h4 ((h2 x).2 h3)
      | manualCheck =>
        rcases h1 with ⟨rfl, x, h3, _⟩ | ⟨h3, rfl⟩ | ⟨_, _, ⟨x, h3, h4⟩, _⟩
        · simpa using (h2 x).2 h3
        · obtain ⟨x, hx⟩ := List.exists_mem_of_ne_nil _ h3; simpa using (h2 x).1 hx
        · exact h4 ((h2 x).1 h3)
      | note => exact h1
    have hrs : ¬ (Says idn ref idnRep refRep .review ∧ Says idn ref idnRep refRep .subset) := by
      rintro ⟨⟨_, _, h1⟩, ⟨_, h2, _, h3⟩⟩
      rcases h1 with ⟨x, h4, h5, _⟩ | ⟨x, h4, h5, h6⟩
      · exact h5 (h2 x h4)
      · exact h3 x h4 h5 h6
    have hrm : ¬ (Says idn ref idnRep refRep .review ∧ Says idn ref idnRep refRep .manualCheck) := by
      rintro ⟨⟨h1, h2, h3⟩, h4⟩
      rcases h4 with ⟨h4, _⟩ | ⟨_, h4⟩ | ⟨_, _, _, h4, h5⟩
      · exact h1 h4
      · exact h2 h4
      · rcases h3 with ⟨x, h6, h7, h8⟩ | ⟨x, h6, h7, h8⟩
        · exact h4 x h6 h7 h8
        · exact h5 x h6 h7 h8
    have hsm : ¬ (Says idn ref idnRep refRep .subset ∧ Says idn ref idnRep refRep .manualCheck) := by
      rintro ⟨⟨h1, h2, h3, _⟩, h4⟩
      rcases h4 with ⟨h4, _⟩ | ⟨_, h4⟩ | ⟨_, _, ⟨x, h5, h6⟩, _⟩
      · exact h1 h4
      · subst h4; obtain ⟨x, h5, _⟩ := h3; simp at h5
      · exact h6 (h2 x h5)
    intro r h1 r' h2
    cases r <;> cases r' <;>
      first
      | rfl
      | exact absurd h1 (hbase _ (by simp) h2)
      | exact absurd h2 (hbase _ (by simp) h1)
      | exact (hrs (And.intro h1 h2)).elim
      | exact (hrs (And.intro h2 h1)).elim
      | exact (hrm (And.intro h1 h2)).elim
      | exact (hrm (And.intro h2 h1)).elim
      | exact (hsm (And.intro h1 h2)).elim
      | exact (hsm (And.intro h2 h1)).elim
      | exact h1.elim
      | exact h2.elim
  have fin : ∀ r m, classVerdict idn ref idnRep refRep = .ok (some (r, m)) → Says idn ref idnRep refRep r →
      ∃ p, classVerdict idn ref idnRep refRep = .ok (some p) ∧
        ∀ r, p.1 = r ↔ Says idn ref idnRep refRep r := by
    intro r m h1 h2
    refine ⟨(r, m), h1, fun r' => ⟨?_, fun h3 => hexcl r h2 r' h3⟩⟩
    rintro rfl; exact h2
  by_cases h0 : differ idn ref = false
  · exact fin .matched _ (by simp only [classVerdict, if_pos h0]; rfl) (differ_iff.1 h0)
  by_cases h1 : idn = []
  · have h2 : meets ref idnRep = true := by
      cases hm : meets ref idnRep with
      | true => rfl
      | false => exact absurd ⟨h1, hm⟩ h
    refine fin .manualCheck _ (by
      simp only [classVerdict, if_neg h0, if_pos h1, h2]; rfl) (Or.inl ⟨h1, meets_iff.1 h2⟩)
  by_cases h2 : ref = []
  · have h3 : Says idn ref idnRep refRep .manualCheck := Or.inr (Or.inl ⟨h1, h2⟩)
    by_cases h4 : meets idn refRep = true
    · exact fin .manualCheck _ (by
        simp only [classVerdict, if_neg h0, if_neg h1, if_pos (And.intro h2 h4)]; rfl) h3
    · have h5 : differ idn refRep = true := by
        cases hd : differ idn refRep with
        | true => rfl
        | false =>
          exfalso
          obtain ⟨x, hx⟩ := List.exists_mem_of_ne_nil _ h1
          exact h4 (meets_iff.2 ⟨x, hx, (differ_iff.1 hd x).1 hx⟩)
      exact fin .manualCheck _ (by
        simp only [classVerdict, if_neg h0, if_neg h1, if_neg (fun h : _ ∧ _ => h4 h.2),
          if_pos (And.intro h2 h5)]; rfl) h3
  have n1 : ¬ (ref = [] ∧ meets idn refRep = true) := fun h => h2 h.1
  have n2 : ¬ (ref = [] ∧ differ idn refRep = true) := fun h => h2 h.1
  have e1 : (decide (minus idn ref ≠ []) && meets (minus idn ref) refRep) = true ↔
      ∃ x ∈ idn, x ∉ ref ∧ x ∈ refRep := by
    rw [Bool.and_eq_true, decide_eq_true_eq, minus_ne, meets_iff]
    simp only [mem_minus]
    constructor
    · rintro ⟨_, x, ⟨h3, h4⟩, h5⟩; exact ⟨x, h3, h4, h5⟩
    · rintro ⟨x, h3, h4, h5⟩; exact ⟨⟨x, h3, h4⟩, x, ⟨h3, h4⟩, h5⟩
  have e2 : (decide (minus ref idn ≠ []) && meets (minus ref idn) idnRep) = true ↔
      ∃ x ∈ ref, x ∉ idn ∧ x ∈ idnRep := by
    rw [Bool.and_eq_true, decide_eq_true_eq, minus_ne, meets_iff]
    simp only [mem_minus]
    constructor
    · rintro ⟨_, x, ⟨h3, h4⟩, h5⟩; exact ⟨x, h3, h4, h5⟩
    · rintro ⟨x, h3, h4, h5⟩; exact ⟨⟨x, h3, h4⟩, x, ⟨h3, h4⟩, h5⟩
  by_cases h3 : ((decide (minus idn ref ≠ []) && meets (minus idn ref) refRep) ||
      (decide (minus ref idn ≠ []) && meets (minus ref idn) idnRep)) = true
  · refine fin .review _ (by
      simp only [classVerdict, if_neg h0, if_neg h1, if_neg n1, if_neg n2]
      rw [if_pos h3]) ⟨h1, h2, ?_⟩
    rw [Bool.or_eq_true, e1, e2] at h3
    exact h3
  have h3' := h3
  rw [Bool.or_eq_true, e1, e2, not_or] at h3'
  push_neg at h3'
  by_cases h4 : minus idn ref ≠ []
  · refine fin .manualCheck _ (by
      simp only [classVerdict, if_neg h0, if_neg h1, if_neg n1, if_neg n2]
      rw [if_neg h3, if_pos h4]) (Or.inr (Or.inr ⟨h1, h2, minus_ne.1 h4, h3'.1, h3'.2⟩))
  by_cases h5 : minus ref idn ≠ []
  · refine fin .subset _ (by
      simp only [classVerdict, if_neg h0, if_neg h1, if_neg n1, if_neg n2]
      rw [if_neg h3, if_neg h4, if_pos h5])
      ⟨h1, minus_nil.1 (not_not.1 h4), minus_ne.1 h5, h3'.2⟩
  · exfalso
    apply h0
    rw [differ_iff]
    intro x
    exact ⟨minus_nil.1 (not_not.1 h4) x, minus_nil.1 (not_not.1 h5) x⟩

/-- **C39** (classes) The comparison of a class never raises and never ends without a result. -/
theorem _root_.Lgr.Props.C39.class_total (name : String) (idn ref idnRep refRep : List Nat) :
    ∃ o, classEntry name idn ref idnRep refRep = .ok o := by
  unfold classEntry
  by_cases h : idn = [] ∧ meets ref idnRep = false
  · exact ⟨none, by rw [if_pos h]⟩
  · obtain ⟨p, hp, _⟩ := verdict_exact idn ref idnRep refRep h
    rw [if_neg h, hp]; exact ⟨_, rfl⟩

/-- **C79** A class is left out exactly if the table has no member and its members in the reference are not
code points of the table; else it is reported with its members, and the result is what they say. -/
theorem class_exact (name : String) (idn ref idnRep refRep : List Nat) :
    ((classEntry name idn ref idnRep refRep = .ok none) ↔ (idn = [] ∧ ∀ x ∈ ref, x ∉ idnRep)) ∧
    ∀ e, classEntry name idn ref idnRep refRep = .ok (some e) →
      e.name = name ∧ (e.idn.Pairwise (· < ·) ∧ ∀ x, x ∈ e.idn ↔ x ∈ idn) ∧
      (e.ref.Pairwise (· < ·) ∧ ∀ x, x ∈ e.ref ↔ x ∈ ref) ∧
      ∀ r, e.result = r ↔ Says idn ref idnRep refRep r := by
  have hm : meets ref idnRep = false ↔ ∀ x ∈ ref, x ∉ idnRep := by
    rw [← not_iff_not, Bool.not_eq_false, meets_iff]; push_neg; rfl
  have hs : ∀ l : List Nat, (sortAsc id l.dedup).Pairwise (· < ·) ∧ ∀ x, x ∈ sortAsc id l.dedup ↔ x ∈ l := by
    intro l
    refine ⟨?_, by simp⟩
    have h1 := sortAsc_sorted (id : Nat → Nat) l.dedup
    have h2 : (sortAsc (id : Nat → Nat) l.dedup).Nodup := (sortAsc_perm _ _).nodup_iff.2 (List.nodup_dedup l)
    exact (h1.and h2).imp (fun ⟨h3, h4⟩ => lt_of_le_of_ne h3 h4)
  rw [← hm]
  unfold classEntry
  by_cases h : idn = [] ∧ meets ref idnRep = false
  · rw [if_pos h]; exact ⟨by simp [h], by simp⟩
  · rw [if_neg h]
    obtain ⟨p, hp, hr⟩ := verdict_exact idn ref idnRep refRep h
    rw [hp]
    refine ⟨by simp [h], ?_⟩
    intro e he
    injection he with he
    injection he with he
    subst he
    exact ⟨rfl, hs idn, hs ref, hr⟩

/-- The pairs of result and remark. -/
def table : List (Result × String) :=
  [(.matched, "Classes and their members are matched"),
   (.manualCheck, "Mismatch class (class does not exist in IDN Table; check for different class names)"),
   (.manualCheck, "Mismatch class (class does not exist in ref. LGR; check for different class names)"),
   (.manualCheck, "Mismatch class with only additional code points."),
   (.review, "\n".intercalate ["Mismatch class members (extra member(s) in IDN Table)"]),
   (.review, "\n".intercalate ["Mismatch class members (missing member(s) in IDN Table)"]),
   (.review, "\n".intercalate ["Mismatch class members (extra member(s) in IDN Table)",
      "Mismatch class members (missing member(s) in IDN Table)"]),
   (.manualCheck,
      "Mismatch class members (extra member(s) in IDN Table which are not in Ref. LGR repertoire)"),
   (.subset, "Extra members in Ref. LGR not in IDN Table")]

theorem table_functional : C77.Functional table := by
  unfold C77.Functional; decide +kernel

theorem verdict_table {idn ref idnRep refRep : List Nat} {p : Result × String}
    (h : classVerdict idn ref idnRep refRep = .ok (some p)) : p ∈ table := by
  unfold classVerdict at h
  simp only at h
  split at h
  · injection h with h; injection h with h; subst h; simp [table]
  split at h
  · split at h
    · cases h
    · injection h with h; injection h with h; subst h; simp [table]
  split at h
  · injection h with h; injection h with h; subst h; simp [table]
  split at h
  · injection h with h; injection h with h; subst h; simp [table]
  generalize hb1 : (decide (minus idn ref ≠ []) && meets (minus idn ref) refRep) = b1 at h
  generalize hb2 : (decide (minus ref idn ≠ []) && meets (minus ref idn) idnRep) = b2 at h
  split at h
  · rename_i hb
    injection h with h; injection h with h; subst h
    cases b1 <;> cases b2 <;> simp [table] at hb ⊢
  split at h
  · injection h with h; injection h with h; subst h; simp [table]
  split at h
  · injection h with h; injection h with h; subst h; simp [table]
  · cases h

/-- The names which the report goes through. -/
theorem loop_exact (mi mr : Members) (ir rr : List Nat) (ns : List String) :
    ∃ l, classLoop mi mr ir rr ns = .ok l ∧
      (l.map ClassEntry.name).Sublist ns ∧
      ∀ e, e ∈ l ↔ ∃ n ∈ ns,
        classEntry n ((dget mi n).getD []) ((dget mr n).getD []) ir rr = .ok (some e) := by
  induction ns with
  | nil => exact ⟨[], rfl, by simp, by simp⟩
  | cons n ns ih =>
    obtain ⟨l, hl, hsub, hmem⟩ := ih
    obtain ⟨o, ho⟩ := C39.class_total n ((dget mi n).getD []) ((dget mr n).getD []) ir rr
    refine ⟨o.toList ++ l, by simp only [classLoop, ho, hl], ?_, ?_⟩
    · cases o with
      | none => exact (by simpa using hsub.cons n)
      | some e =>
        have := ((class_exact n _ _ ir rr).2 e ho).1
        simp only [Option.toList, List.singleton_append, List.map_cons, this]
        exact hsub.cons_cons n
    · intro e
      simp only [List.mem_append, hmem, List.mem_cons, exists_eq_or_imp, ho]
      cases o with
      | none => simp
      | some e' => simp [eq_comm]

/-- **C79** The report on classes never raises, has at most one entry for each name, in order, and these are
the entries of the classes of the table or the reference. -/
theorem report_exact (mi mr : Members) (ir rr : List Nat) :
    ∃ l, classesReport mi mr ir rr = .ok l ∧
      ((l.map ClassEntry.name).Pairwise (fun a b => classKey a < classKey b)) ∧
      ∀ e, e ∈ l ↔ ∃ n, (n ∈ mi.map Prod.fst ∨ n ∈ mr.map Prod.fst) ∧
        classEntry n ((dget mi n).getD []) ((dget mr n).getD []) ir rr = .ok (some e) := by
  obtain ⟨l, hl, hsub, hmem⟩ := loop_exact mi mr ir rr (sortAsc classKey (mi.map Prod.fst ++ mr.map Prod.fst).dedup)
  refine ⟨l, hl, ?_, ?_⟩
  · refine List.Pairwise.sublist hsub ?_
    have h1 := sortAsc_sorted classKey (mi.map Prod.fst ++ mr.map Prod.fst).dedup
    have h2 : (sortAsc classKey (mi.map Prod.fst ++ mr.map Prod.fst).dedup).Nodup :=
      (sortAsc_perm _ _).nodup_iff.2 (List.nodup_dedup _)
    refine (h1.and h2).imp ?_
    rintro a b ⟨h3, h4⟩
    refine lt_of_le_of_ne h3 (fun h5 => h4 ?_)
    have h6 := congrArg (fun x => (ofLex x).2) h5
    exact h6
  · intro e
    rw [hmem]
    simp

/-- **C77** (classes) Each line of the summary of classes has the result of all the classes it counts. -/
theorem _root_.Lgr.Props.C77.classes_functional {mi mr : Members} {ir rr : List Nat} {l : List ClassEntry}
    (h : classesReport mi mr ir rr = .ok l) : C77.Functional (l.map (fun e => (e.result, e.remark))) := by
  refine C77.functional_of_table table ?_ table_functional
  intro p hp
  obtain ⟨e, he, rfl⟩ := List.mem_map.1 hp
  obtain ⟨l', hl', _, hmem⟩ := report_exact mi mr ir rr
  rw [hl'] at h; injection h with h; subst h
  obtain ⟨n, _, hn⟩ := (hmem e).1 he
  unfold classEntry at hn
  split at hn
  · cases hn
  split at hn
  · cases hn
  · cases hn
  · rename_i r m hv
    injection hn with hn; injection hn with hn; subst hn
    exact verdict_table hv

/-- Members of the same classes, one of them larger in the reference. -/
example : classesReport [("a", [1, 2]), ("b", [3])] [("a", [2, 1]), ("b", [3, 9]), ("c", [9])] [1, 2, 3] [1, 2, 3, 9] =
    .ok [⟨"a", [1, 2], [1, 2], .matched, "Classes and their members are matched"⟩,
         ⟨"b", [3], [3, 9], .subset, "Extra members in Ref. LGR not in IDN Table"⟩] := by decide +kernel

end Lgr.Props.C79

import Verif.Props.ReviewLabels
import Verif.Props.VariantSets

/-!
# C39, C77: the comparison of variants
-/

namespace Lgr.Props.C39
open Lgr Review

/-- The pairs of result and remark of the comparison of variants. -/
def table : List (Result × String) :=
  [(.review, "Variant set exists in the reference LGR"),
   (.manualCheck, "Variant set only exists in the IDN Table"),
   (.review, "Variant member exists in the reference LGR"),
   (.note, "Not applicable"),
   (.manualCheck, "Variant member exists in IDN Table but not in the reference LGR"),
   (.review, "IDN Table variant generation is less conservative as it only applies with some conditions"),
   (.review, "IDN Table variant generation is less conservative as it only applies with some conditions" ++
      "\nVariant type in the IDN Table is less conservative compared to the Ref. LGR"),
   (.review, "IDN Table variant generation is less conservative as it only applies with some conditions" ++
      "\nUnknown variant type"),
   (.review, "Variant type in the IDN Table is less conservative compared to the Ref. LGR"),
   (.review, "Unknown variant type"),
   (.manualCheck, "Variant condition rules are mismatched. The IDN Table misses the rule. " ++
      "If the rule is not needed for the proper variant index calculation, then this is ok"),
   (.manualCheck, "Variant contextual rules are different"),
   (.note, "Variant types are mismatched. IDN Table is more conservative compared to the Reference LGR"),
   (.matched, "Exact match (including type, conditional variant rule)")]

theorem checks_total (rc : RuleCheck) (tc : Option TypeCheck) : ∃ p, decideChecks rc tc = .ok p ∧ p ∈ table := by
  cases rc <;> rcases tc with _ | _ | _ | _ | _ <;>
    exact ⟨_, rfl, by simp [table]⟩

/-- **C39** (variants) The comparison of variants never fails in the assertion, and the remark is one of the
table. -/
theorem variant_total (order : List Variant → List Variant) (im rm : Bool) (i r : VData) (rev inRep : Bool) :
    ∃ p, variantVerdict order im rm i r rev inRep = .ok p ∧ p ∈ table := by
  unfold variantVerdict
  split; · exact ⟨_, rfl, by simp [table]⟩
  split; · exact ⟨_, rfl, by simp [table]⟩
  split
  · split <;> exact ⟨_, rfl, by simp [table]⟩
  split; · exact ⟨_, rfl, by simp [table]⟩
  exact checks_total _ _

/-- **C39** (repertoire) The comparison of code points gives one of the results of the table. -/
theorem repertoire_total {order : List String → List String} (ho : ∀ l t, t ∈ order l ↔ t ∈ l)
    (idn ref : Option CharObj) : compareChar order idn ref ∈ C80.table := (C80.compare_exact ho idn ref).2

/-- A variant with a rule in the table, none in the reference. -/
example : variantVerdict id false false ⟨[⟨[98], some "blocked", some "r", none, none, []⟩], [], true⟩
    ⟨[⟨[98], some "blocked", none, none, none, []⟩], [], true⟩ false true =
    .ok (.review, "IDN Table variant generation is less conservative as it only applies with some conditions") := by
  decide +kernel

end Lgr.Props.C39

namespace Lgr.Props.C77
open Lgr Review

variable {order : List Variant → List Variant}

/-- An entry whose remarks are of the table, and which mentions a missing sequence only if the set does not
exist in the table. -/
def Fine (e : VarEntry) : Prop :=
  e.fwd ∈ C39.table ∧ e.rev ∈ C39.table ∧
  (e.missing ≠ none → e.fwd = (.review, "Variant set exists in the reference LGR") ∧
    e.rev = (.review, "Variant set exists in the reference LGR"))

theorem entry_fine {rep : Repertoire} {im rm : Bool} {missing : Option Seq} (hm : missing ≠ none → im = true)
    (src : Seq) (i r : VData) : ∃ e, varEntry order rep im rm missing src i r = .ok e ∧ Fine e := by
  obtain ⟨f, hf, hf'⟩ := C39.variant_total order im rm i r false (r.inRepertoire rep)
  obtain ⟨b, hb, hb'⟩ := C39.variant_total order im rm i r true (r.inRepertoire rep)
  refine ⟨_, by simp only [varEntry, hf, hb]; rfl, hf', hb', ?_⟩
  intro h
  have := hm h
  subst this
  simp only [variantVerdict, if_true] at hf hb
  injection hf with hf; injection hb with hb
  exact ⟨hf.symm, hb.symm⟩

theorem entriesFor_fine {rep : Repertoire} {im rm : Bool} {missing : Option Seq} (hm : missing ≠ none → im = true)
    (src : Seq) (vi vr : List (Seq × VData)) (ks : List Seq) :
    ∃ es, entriesFor order rep im rm missing src vi vr ks = .ok es ∧ ∀ e ∈ es, Fine e := by
  induction ks with
  | nil => exact ⟨[], rfl, by simp⟩
  | cons k ks ih =>
    obtain ⟨e, he, hf⟩ := entry_fine (order := order) (rep := rep) (rm := rm) hm src ((dget vi k).getD {}) ((dget vr k).getD {})
    obtain ⟨es, hes, hfs⟩ := ih
    refine ⟨e :: es, by simp only [entriesFor, he, hes], ?_⟩
    intro x hx
    rcases List.mem_cons.1 hx with rfl | hx
    · exact hf
    · exact hfs x hx

theorem setLoop_fine {cps : List Seq → List Seq} {idn ref : Repertoire} {si sr : List Seq} {missing : Option Seq}
    (hm : missing ≠ none → si = []) (l : List Seq) (s : SetState) (hs : ∀ e ∈ s.entries, Fine e) :
    ∃ s', setLoop order cps idn ref si sr missing s l = .ok s' ∧ ∀ e ∈ s'.entries, Fine e := by
  induction l generalizing s with
  | nil => exact ⟨s, rfl, hs⟩
  | cons k l ih =>
    have hm' : missing ≠ none → decide (si = []) = true := fun h => decide_eq_true (hm h)
    have : ∃ s', setStep order cps idn ref si sr missing s k = .ok s' ∧ ∀ e ∈ s'.entries, Fine e := by
      unfold setStep
      simp only
      split
      · rename_i x hx
        obtain ⟨es, hes, -⟩ := entriesFor_fine (order := order) (rep := idn) (rm := decide (sr = [])) hm' k _ _ _
        rw [hx] at hes
        cases hes
      · rename_i es hx
        obtain ⟨es', hes, hfs⟩ := entriesFor_fine (order := order) (rep := idn) (rm := decide (sr = [])) hm' k _ _ _
        rw [hx] at hes
        injection hes with hes
        subst hes
        refine ⟨_, rfl, ?_⟩
        intro e he
        rcases List.mem_append.1 he with he | he
        · exact hs e he
        · exact hfs e he
    obtain ⟨s', hs', hf'⟩ := this
    obtain ⟨s'', hs'', hf''⟩ := ih s' hf'
    exact ⟨s'', by simp only [setLoop, hs', hs''], hf''⟩

theorem setEntries_fine {cps : List Seq → List Seq} {idn ref : Repertoire} {si sr : List Seq} {x : List VarEntry × List Seq}
    (h : setEntries order cps idn ref si sr = .ok x) : ∀ e ∈ x.1, Fine e := by
  unfold setEntries at h
  split at h
  · cases h
  · rename_i missing rel hmr
    have hm : missing ≠ none → si = [] := by
      intro hne
      by_contra hsi
      rw [if_neg hsi] at hmr
      injection hmr with hmr
      rw [Prod.mk.injEq] at hmr
      exact hne hmr.1.symm
    obtain ⟨s', hs', hf⟩ := setLoop_fine (order := order) (cps := cps) (idn := idn) (ref := ref) (sr := sr) hm
      (sortAsc id (si ++ sr).dedup) { relevant := rel } (by simp)
    rw [hs'] at h
    injection h with h
    subst h
    exact hf

theorem setsLoop_fine {cps : List Seq → List Seq} {idn ref : Repertoire} {si sr : Sets} (ks : List Seq)
    {l : List SetReport} (h : setsLoop order cps idn ref si sr ks = .ok l) :
    ∀ s ∈ l, ∀ e ∈ s.report, Fine e := by
  induction ks generalizing l with
  | nil => simp only [setsLoop] at h; injection h with h; subst h; simp
  | cons k ks ih =>
    simp only [setsLoop] at h
    split at h
    · cases h
    rename_i o ho
    split at h
    · cases h
    rename_i l' hl'
    injection h with h
    subst h
    intro s hs
    rcases List.mem_append.1 hs with hs | hs
    · unfold setReport at ho
      split at ho
      · cases ho
      split at ho
      · cases ho
      rename_i es rel hes
      split at ho
      · injection ho with ho; subst ho; simp at hs
      · injection ho with ho; subst ho
        simp only [Option.toList, List.mem_singleton] at hs
        subst hs
        intro e he
        exact setEntries_fine hes e ((sortAsc_perm _ _).mem_iff.1 he)
    · exact ih hl' s hs

theorem review_of_prefix {p : Result × String} (h : p ∈ C39.table) (t : String)
    (hp : p.2 = "Variant set exists in the reference LGR" ++ t) : p.1 = .review := by
  have key : ∀ q ∈ C39.table, q.1 = .review ∨
      ¬ "Variant set exists in the reference LGR".toList <+: q.2.toList := by decide +kernel
  rcases key p h with h1 | h1
  · exact h1
  · exfalso; apply h1; rw [hp, String.toList_append]; exact List.prefix_append _ _

/-- **C77** (variant sets) Each line of the summary has the result of all the comparisons which it counts,
whatever sequences are said to be missing. -/
theorem variant_sets_functional {cps : List Seq → List Seq} {idn ref : Repertoire} {l : List SetReport}
    (glyph : Seq → String) (h : variantSetsReport order cps idn ref = .ok l) :
    Functional (setsResults glyph l) := by
  have hfine : ∀ s ∈ l, ∀ e ∈ s.report, Fine e := by
    unfold variantSetsReport at h
    split at h
    · cases h
    · exact setsLoop_fine _ h
  have hform : ∀ p ∈ setsResults glyph l, p ∈ C39.table ∨
      (p.1 = .review ∧ ∃ t, p.2 = "Variant set exists in the reference LGR" ++ t) := by
    intro p hp
    unfold setsResults at hp
    simp only [List.mem_flatMap, List.mem_cons, List.not_mem_nil, or_false] at hp
    obtain ⟨s, hs, e, he, hp⟩ := hp
    obtain ⟨h1, h2, h3⟩ := hfine s hs e he
    cases hm : e.missing with
    | none =>
      left
      rcases hp with rfl | rfl
      · rw [hm]; simpa [suffix] using h1
      · rw [hm]; simpa [suffix] using h2
    | some x =>
      right
      obtain ⟨h4, h5⟩ := h3 (by simp [hm])
      rcases hp with rfl | rfl
      · exact ⟨by rw [h4], _, by rw [h4]⟩
      · exact ⟨by rw [h5], _, by rw [h5]⟩
  have hfun : Functional C39.table := by unfold Functional; decide +kernel
  intro p hp q hq hpq
  rcases hform p hp with h1 | ⟨h1, t, h1'⟩ <;> rcases hform q hq with h2 | ⟨h2, u, h2'⟩
  · exact hfun p h1 q h2 hpq
  · rw [h2]; exact review_of_prefix h1 u (hpq.trans h2')
  · rw [h1]; exact (review_of_prefix h2 t (hpq.symm.trans h1')).symm
  · rw [h1, h2]

end Lgr.Props.C77

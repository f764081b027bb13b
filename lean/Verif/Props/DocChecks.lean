import Verif.Props.DocIndex
import Verif.Props.RulesAny
import Verif.Props.Validate
import Verif.Props.Checks

/-!
# C155: the checks of variants, in terms of the document
-/

namespace Lgr.Props.C155
open Lgr Xml Repertoire LGR RulesXml DocXml C101 C105 C106 Validate Checks

/-! ## Specification -/

/-- An element of the document with the sequence `a` has the variant `v`. -/
def Maps (is : List C105.Item) (a : Seq) (v : Variant) : Prop := ∃ i ∈ is, i.Has a ∧ v ∈ i.vars

/-- An element of the document has the sequence. -/
def Listed (is : List C105.Item) (a : Seq) : Prop := ∃ i ∈ is, i.Has a

/-- `b` is a variant of `a`, and none of the variants of `b` is `a` with this condition. -/
def Lacks (is : List C105.Item) (a : Seq) (b : Variant) (f : Variant → Option String) : Prop :=
  (∃ s, f b = some s ∧ s ≠ "") ∧ ∀ w, Maps is b.cp w → w.cp = a → f w ≠ f b

/-- What is wrong with a variant: it is in no element; it is in one, but not the other way round; it is so, but with
another condition. -/
inductive Wrong (is : List C105.Item) (a : Seq) (b : Variant) : SymKind → Prop
  | outside : ¬ Listed is b.cp → Wrong is a b .notInRepertoire
  | missing : Listed is b.cp → (∀ w, Maps is b.cp w → w.cp ≠ a) → Wrong is a b .missingSymmetric
  | noWhen : (∃ w, Maps is b.cp w ∧ w.cp = a) → Lacks is a b Variant.whenR → Wrong is a b (.missingRule "when" b.whenR)
  | noNotWhen : (∃ w, Maps is b.cp w ∧ w.cp = a) → ¬ Lacks is a b Variant.whenR → Lacks is a b Variant.notWhenR →
      Wrong is a b (.missingRule "not-when" b.notWhenR)

/-- Every variant is one the other way round. -/
def Symmetric (is : List C105.Item) : Prop := ∀ a b, Maps is a b → ∃ w, Maps is b.cp w ∧ w.cp = a

/-- Every variant is one the other way round, with the same conditions. -/
def StrictlySymmetric (is : List C105.Item) : Prop :=
  ∀ a b, Maps is a b → (∃ w, Maps is b.cp w ∧ w.cp = a) ∧
    (∀ r, b.whenR = some r → r ≠ "" → ∃ w, Maps is b.cp w ∧ w.cp = a ∧ w.whenR = some r) ∧
    (∀ r, b.notWhenR = some r → r ≠ "" → ∃ w, Maps is b.cp w ∧ w.cp = a ∧ w.notWhenR = some r)

/-- Variants are in elements, and the variants of a variant are variants. -/
def Transitive (is : List C105.Item) : Prop :=
  ∀ a b, Maps is a b → Listed is b.cp ∧ ∀ c, Maps is b.cp c → c.cp ≠ a → ∃ d, Maps is a d ∧ d.cp = c.cp

/-- The variant asks for the rule in its attribute `kind`. -/
def Asks (v : Variant) (kind r : String) : Prop :=
  kind = "when" ∧ v.whenR = some r ∨ kind = "not-when" ∧ v.notWhenR = some r

/-- There is a `<rule>` with the name. -/
def Defined (es : List Node) (r : String) : Prop := ∃ e ∈ es, e.tag = "rule" ∧ dget e.attrs "name" = some r

/-! ## The LGR read and its document -/

/-- What is needed about the LGR. -/
structure Facts (R : Reader) (d : Doc) (is : List C105.Item) (g : Loaded) : Prop where
  wf : WF g.lgr.rep
  maps : ∀ a v, C26.Maps g.lgr a v ↔ Maps is a v
  listed : ∀ a, C26.In g.lgr a ↔ Listed is a
  valid : ∀ a v, Maps is a v → C50.IdnaOk R.db g.lgr v.cp
  names : ∀ r, r ∈ g.rules.ruleNames.filterMap id ↔ Defined (d.rules.getD []) r

theorem facts {R : Reader} (hf : R.force = false) {d : Doc} (ht : ∀ e ∈ d.data, ElemTidy e) {cs cs1 : Rfc7940.Results}
    {g : Loaded} (h : parseDoc R cs d = (cs1, .ok (some g))) {is : List C105.Item} (hm : Means d.data is) :
    Facts R d is g := by
  obtain ⟨js, j1, j2, j3, j4, j5, -, -⟩ := document_data_partial R hf ht h
  obtain rfl := means_unique ht j1 hm
  have hA : WF g.lgr.rep ∧ g.lgr.raiseInvalid = R.strict ∧
      g.rules.ruleNames = ((d.rules.getD []).filter isRule).map (fun n => dget n.attrs "name") := by
    cases hme : d.metaE with
    | none => exact absurd (by rw [h]) (C104.no_meta_no_lgr R cs d hme g)
    | some ms =>
      unfold parseDoc at h
      rw [hme] at h
      dsimp only at h
      split at h
      · cases h
      · rename_i mst hms
        split at h
        · cases h
        · rename_i p hp
          split at h
          · cases h
          · rename_i r t hr
            injection h with _ h
            injection h with h
            injection h with h
            subst h
            rw [hf] at hp
            have hA : At R.strict (managerOf mst.md) (newLgr R mst.md) := ⟨wf_empty, rfl, rfl⟩
            unfold parseData at hp
            split at hp
            · cases hp
            · rename_i s1 hs1
              injection hp with hp _
              subst hp
              have := (elems_read (db := R.db) (s := { lgr := newLgr R mst.md, checks := mst.checks }) ht hA).2 _ _ hm hs1
              refine ⟨this.1.wf, this.1.raises, ?_⟩
              have hn := (C140.names_run _ hr).1
              exact hn.trans (by simp [newRules])
  obtain ⟨hw, hra, hn⟩ := hA
  have hmaps : ∀ a v, C26.Maps g.lgr a v ↔ Maps js a v := by
    intro a v
    constructor
    · rintro ⟨c, hc, hv⟩
      obtain ⟨i, hi, hh⟩ := j5 a c hc
      exact ⟨i, hi, hh.1, (hh.2.2.2.2 v).1 hv⟩
    · rintro ⟨i, hi, hk, hv⟩
      obtain ⟨c, hc⟩ := Option.isSome_iff_exists.1 ((j4 a).2 ⟨i, hi, hk⟩)
      obtain ⟨i', hi', hh⟩ := j5 a c hc
      obtain rfl : i' = i := by
        rcases apart_cases j3 hi' hi with h0 | h0 | h0
        · exact h0
        · exact absurd hk (h0 a hh.1)
        · exact absurd hh.1 (h0 a hk)
      exact ⟨c, hc, (hh.2.2.2.2 v).2 hv⟩
  refine ⟨hw, hmaps, ?_, ?_, ?_⟩
  · intro a
    rw [show Listed js a ↔ _ from (j4 a).symm, Option.isSome_iff_exists]
    exact Iff.rfl
  · rintro a v ⟨i, hi, -, hv⟩ hs valid hdb x hx
    exact ((j2 i hi).2.2.2.2.1 v hv).2.1 x hx (by rw [← hra]; exact hs) valid hdb
  · intro r
    rw [hn, List.mem_filterMap]
    constructor
    · rintro ⟨o, ho, hr⟩
      obtain ⟨n, h1, h2⟩ := List.mem_map.1 ho
      obtain ⟨h3, h4⟩ := List.mem_filter.1 h1
      exact ⟨n, h3, of_decide_eq_true h4, h2.trans hr⟩
    · rintro ⟨n, h1, h2, h3⟩
      exact ⟨some r, List.mem_map.2 ⟨n, List.mem_filter.2 ⟨h1, decide_eq_true h2⟩, h3⟩, rfl⟩

/-! ## Symmetry -/

theorem wrong_iff {R : Reader} {d : Doc} {is : List C105.Item} {g : Loaded} (F : Facts R d is g) {a : Seq} {b : Variant} {k : SymKind} :
    C26.Wrong g.lgr a b k ↔ Wrong is a b k := by
  have hl : ∀ f, C26.Lacks g.lgr a b f ↔ Lacks is a b f := by
    intro f
    unfold C26.Lacks Lacks
    simp only [F.maps]
  have hin : (∃ w, Maps is b.cp w ∧ w.cp = a) → Listed is b.cp := fun ⟨w, ⟨i, h1, h2, _⟩, _⟩ => ⟨i, h1, h2⟩
  constructor
  · rintro (h | ⟨h1, h2⟩ | ⟨h1, h2, h3⟩ | ⟨h1, h2, h3, h4⟩)
    · exact .outside (by rw [← F.listed]; exact h)
    · exact .missing ((F.listed _).1 h1) (fun w hw => h2 w ((F.maps _ _).2 hw))
    · simp only [F.maps] at h2
      exact .noWhen h2 ((hl _).1 h3)
    · simp only [F.maps] at h2
      exact .noNotWhen h2 (by rw [← hl]; exact h3) ((hl _).1 h4)
  · rintro (h | ⟨h1, h2⟩ | ⟨h2, h3⟩ | ⟨h2, h3, h4⟩)
    · exact .outside (by rw [F.listed]; exact h)
    · exact .missing ((F.listed _).2 h1) (fun w hw => h2 w ((F.maps _ _).1 hw))
    · exact .noWhen ((F.listed _).2 (hin h2)) (by simp only [F.maps]; exact h2) ((hl _).2 h3)
    · exact .noNotWhen ((F.listed _).2 (hin h2)) (by simp only [F.maps]; exact h2) (by rw [hl]; exact h3) ((hl _).2 h4)

/-- **C155** The check of symmetry raises nothing under a document; it succeeds exactly if the variants of the document are symmetric,
and reports exactly the variants for which this fails, with the reason. -/
theorem document_symmetry {R : Reader} (hf : R.force = false) {d : Doc} (ht : ∀ e ∈ d.data, ElemTidy e)
    {cs cs1 : Rfc7940.Results} {g : Loaded} (h : parseDoc R cs d = (cs1, .ok (some g))) {is : List C105.Item}
    (hm : Means d.data is) (ign : Bool) :
    ∃ s es, (checkSymmetry R.db g.lgr ign).2 = .ok (s, es) ∧
      (s = true ↔ if ign = true then Symmetric is else StrictlySymmetric is) ∧
      ∀ e, e ∈ es ↔ Maps is e.char e.variant ∧ Wrong is e.char e.variant e.kind ∧
        (ign = true → e.kind = .notInRepertoire ∨ e.kind = .missingSymmetric) := by
  have F := facts hf ht h hm
  obtain ⟨⟨s, es⟩, hr⟩ := (C26.check_symmetry_returns_iff R.db g.lgr F.wf ign).2
    (fun a b hab _ => F.valid a b ((F.maps _ _).1 hab))
  refine ⟨s, es, hr, ?_, ?_⟩
  · have hin : ∀ {a : Seq} {b : Variant}, (∃ w, Maps is b.cp w ∧ w.cp = a) → Listed is b.cp := fun ⟨w, ⟨i, h1, h2, _⟩, _⟩ => ⟨i, h1, h2⟩
    cases ign with
    | true =>
      rw [C26.check_symmetry_exact R.db g.lgr F.wf s es hr]
      simp only [F.maps, F.listed, if_true]
      exact forall₂_congr fun a b => forall_congr' fun _ => ⟨fun h => h.2, fun h => ⟨hin h, h⟩⟩
    | false =>
      rw [C26.check_symmetry_rules_exact R.db g.lgr F.wf s es hr]
      simp only [F.maps, F.listed, Bool.false_eq_true, if_false]
      exact forall₂_congr fun a b => forall_congr' fun _ => ⟨fun h => h.2, fun h => ⟨hin h.1, h⟩⟩
  · intro e
    rw [C26.check_symmetry_report R.db g.lgr F.wf ign s es hr e, F.maps, wrong_iff F]
    unfold C26.Reported
    cases ign <;> simp

/-! ## Transitivity -/

/-- **C155** The check of transitivity raises nothing under a document; it succeeds exactly if the variants of the document are
transitive. What it reports are exactly the missing variants. -/
theorem document_transitivity {R : Reader} (hf : R.force = false) {d : Doc} (ht : ∀ e ∈ d.data, ElemTidy e)
    {cs cs1 : Rfc7940.Results} {g : Loaded} (h : parseDoc R cs d = (cs1, .ok (some g))) {is : List C105.Item}
    (hm : Means d.data is) :
    ∃ s es, (checkTransitivity R.db g.lgr).2 = .ok (s, es) ∧ (s = true ↔ Transitive is) ∧
      ∀ e, e ∈ es ↔ ∃ b, Maps is e.char b ∧ Maps is b.cp e.variant ∧ e.variant.cp ≠ e.char ∧
        ∀ w, Maps is e.char w → w.cp ≠ e.variant.cp := by
  have F := facts hf ht h hm
  obtain ⟨⟨s, es⟩, hr⟩ := (C27.check_transitivity_returns_iff R.db g.lgr F.wf).2
    (fun a b hab => F.valid a b ((F.maps _ _).1 hab))
  refine ⟨s, es, hr, ?_, ?_⟩
  · rw [C27.check_transitivity_exact R.db g.lgr F.wf s es hr]
    simp only [F.maps, F.listed]
    exact Iff.rfl
  · intro e
    rw [C27.check_transitivity_report R.db g.lgr F.wf s es hr e]
    simp only [F.maps]

/-! ## Conditions -/

/-- **C155** The check of conditional variants reports exactly the conditions of variants of the document for which it has no rule. -/
theorem document_conditions {R : Reader} (hf : R.force = false) {d : Doc} (ht : ∀ e ∈ d.data, ElemTidy e)
    {cs cs1 : Rfc7940.Results} {g : Loaded} (h : parseDoc R cs d = (cs1, .ok (some g))) {is : List C105.Item}
    (hm : Means d.data is) :
    (∀ e, e ∈ (checkConditional (g.rules.ruleNames.filterMap id) g.lgr.rep).2 ↔
      Maps is e.char e.variant ∧ Asks e.variant e.kind e.rule ∧ ¬ Defined (d.rules.getD []) e.rule) ∧
    ((checkConditional (g.rules.ruleNames.filterMap id) g.lgr.rep).1 = true ↔
      ∀ a v kind r, Maps is a v → Asks v kind r → Defined (d.rules.getD []) r) := by
  have F := facts hf ht h hm
  have key : ∀ e, e ∈ (checkConditional (g.rules.ruleNames.filterMap id) g.lgr.rep).2 ↔
      Maps is e.char e.variant ∧ Asks e.variant e.kind e.rule ∧ ¬ Defined (d.rules.getD []) e.rule := by
    intro e
    rw [← F.maps, ← F.names]
    simp only [checkConditional, List.mem_flatMap]
    constructor
    · rintro ⟨c, hc, he⟩
      by_cases hr : c.isRange
      · simp [hr] at he
      rw [if_neg hr, List.mem_flatMap] at he
      obtain ⟨v, hv, he⟩ := he
      obtain ⟨h1, h2, h3, h4⟩ := C68.mem_condVariant.1 he
      refine ⟨⟨c, by rw [h1]; exact C26.iter_mem F.wf hc, by rw [h2]; exact hv⟩, by rw [h2]; exact h4, h3⟩
    · rintro ⟨⟨c, hc, hv⟩, hw, hn⟩
      have hr := C26.variant_nonrange (lookup_charWF F.wf hc).varWF hv
      refine ⟨c, C26.mem_iter F.wf hc hr, ?_⟩
      rw [if_neg (by simp [CharObj.isRange, hr]), List.mem_flatMap]
      exact ⟨e.variant, hv, C68.mem_condVariant.2 ⟨(lookup_cp hc).symm, rfl, hn, hw⟩⟩
  refine ⟨key, ?_⟩
  have : (checkConditional (g.rules.ruleNames.filterMap id) g.lgr.rep).1 =
    decide ((checkConditional (g.rules.ruleNames.filterMap id) g.lgr.rep).2 = []) := rfl
  rw [this, decide_eq_true_eq, List.eq_nil_iff_forall_not_mem]
  constructor
  · intro hall a v kind r h1 h2
    by_contra hd
    exact hall ⟨a, v, kind, r⟩ ((key _).2 ⟨h1, h2, hd⟩)
  · intro hall e he
    obtain ⟨h1, h2, h3⟩ := (key e).1 he
    exact h3 (hall _ _ _ _ h1 h2)

/-! ## Example -/

/-- `a` with the variant `b` under a condition, `b` with the variant `a` without, `c` with the variant `a`; no rules. -/
def doc7 : Doc :=
  { metaE := some []
    data := [{ tag := "char", attrs := [("cp", "61")], vars := [[("cp", "62"), ("when", "r")]] },
      { tag := "char", attrs := [("cp", "62")], vars := [[("cp", "61")]] },
      { tag := "char", attrs := [("cp", "63")], vars := [[("cp", "61")]] }] }

def varB7 : Variant := { cp := [0x62], whenR := some "r" }
def varA7 : Variant := { cp := [0x61] }
def items7 : List C105.Item := [.char [0x61] {} [varB7], .char [0x62] {} [varA7], .char [0x63] {} [varA7]]

theorem doc7_means : Means doc7.data items7 := by
  refine .item (.char rfl ?_ ⟨rfl, rfl, rfl, ?_, ?_⟩ (.cons ⟨?_, rfl, rfl, rfl, rfl, ?_⟩ .nil))
    (.item (.char rfl ?_ ⟨rfl, rfl, rfl, ?_, ?_⟩ (.cons ⟨?_, rfl, rfl, rfl, rfl, ?_⟩ .nil))
    (.item (.char rfl ?_ ⟨rfl, rfl, rfl, ?_, ?_⟩ (.cons ⟨?_, rfl, rfl, rfl, rfl, ?_⟩ .nil)) .nil))
  all_goals first
    | exact spells_iff.2 (by decide +kernel)
    | exact (listed_iff (by decide +kernel)).2 (by decide +kernel)

theorem doc7_reads : (match parseDoc reader1 [] doc7 with
    | (_, .ok (some _)) => true
    | _ => false) = true := by decide +kernel

theorem maps7 {a : Seq} {v : Variant} :
    Maps items7 a v ↔ a = [0x61] ∧ v = varB7 ∨ a = [0x62] ∧ v = varA7 ∨ a = [0x63] ∧ v = varA7 := by
  simp [Maps, items7, C105.Item.Has, C105.Item.vars]

/-- The hypotheses are met. Symmetry fails for `c`; with conditions also for `a`. Transitivity asks for the variant `b` of `c`. The rule `r`
is missing. -/
example : ∃ cs g, parseDoc reader1 [] doc7 = (cs, .ok (some g)) ∧ Means doc7.data items7 ∧
    (∃ es, (checkSymmetry reader1.db g.lgr true).2 = .ok (false, es) ∧ ⟨[0x63], varA7, .missingSymmetric⟩ ∈ es ∧
      ⟨[0x61], varB7, .missingRule "when" (some "r")⟩ ∉ es) ∧
    (∃ es, (checkSymmetry reader1.db g.lgr false).2 = .ok (false, es) ∧
      ⟨[0x61], varB7, .missingRule "when" (some "r")⟩ ∈ es) ∧
    (∃ es, (checkTransitivity reader1.db g.lgr).2 = .ok (false, es) ∧ ⟨[0x63], varB7⟩ ∈ es) ∧
    ⟨[0x61], varB7, "when", "r"⟩ ∈ (checkConditional (g.rules.ruleNames.filterMap id) g.lgr.rep).2 := by
  have h := doc7_reads
  rcases hp : parseDoc reader1 [] doc7 with ⟨cs, o⟩
  rw [hp] at h
  have ht : ∀ e ∈ doc7.data, ElemTidy e := by decide +kernel
  have hf : reader1.force = false := rfl
  match o, h with
  | .ok (some g), h =>
    have m1 : Maps items7 [0x61] varB7 := maps7.2 (by simp)
    have m2 : Maps items7 [0x62] varA7 := maps7.2 (by simp)
    have m3 : Maps items7 [0x63] varA7 := maps7.2 (by simp)
    have n1 : ¬ Symmetric items7 := by
      intro hs
      obtain ⟨w, h1, h2⟩ := hs _ _ m3
      rcases maps7.1 h1 with ⟨-, rfl⟩ | ⟨h, -⟩ | ⟨h, -⟩
      · revert h2; decide
      · exact absurd h (by decide)
      · exact absurd h (by decide)
    have n2 : ¬ Transitive items7 := by
      intro hs
      obtain ⟨w, h1, h2⟩ := (hs _ _ m3).2 _ m1 (by decide)
      rcases maps7.1 h1 with ⟨h, -⟩ | ⟨h, -⟩ | ⟨-, rfl⟩
      · exact absurd h (by decide)
      · exact absurd h (by decide)
      · revert h2; decide
    have w1 : Wrong items7 [0x63] varA7 .missingSymmetric := by
      refine .missing ⟨.char [0x61] {} [varB7], by simp [items7], rfl⟩ fun w h1 => ?_
      rcases maps7.1 h1 with ⟨-, rfl⟩ | ⟨h, -⟩ | ⟨h, -⟩
      · decide
      · exact absurd h (by decide)
      · exact absurd h (by decide)
    have w2 : Wrong items7 [0x61] varB7 (.missingRule "when" (some "r")) := by
      refine .noWhen ⟨varA7, m2, rfl⟩ ⟨⟨"r", rfl, by decide⟩, fun w h1 _ => ?_⟩
      rcases maps7.1 h1 with ⟨h, -⟩ | ⟨-, rfl⟩ | ⟨h, -⟩
      · exact absurd h (by decide)
      · decide
      · exact absurd h (by decide)
    refine ⟨cs, g, rfl, doc7_means, ?_, ?_, ?_, ?_⟩
    · obtain ⟨s, es, h1, h2, h3⟩ := document_symmetry hf ht hp doc7_means true
      cases s with
      | true => exact absurd (h2.1 rfl) n1
      | false =>
        exact ⟨es, h1, (h3 _).2 ⟨m3, w1, fun _ => .inr rfl⟩, fun hc => by simpa using ((h3 _).1 hc).2.2 rfl⟩
    · obtain ⟨s, es, h1, h2, h3⟩ := document_symmetry hf ht hp doc7_means false
      cases s with
      | true => exact absurd (fun a b hab => ((h2.1 rfl) a b hab).1) n1
      | false => exact ⟨es, h1, (h3 _).2 ⟨m1, w2, by simp⟩⟩
    · obtain ⟨s, es, h1, h2, h3⟩ := document_transitivity hf ht hp doc7_means
      cases s with
      | true => exact absurd (h2.1 rfl) n2
      | false =>
        refine ⟨es, h1, (h3 _).2 ⟨varA7, m3, m1, by decide, fun w hw => ?_⟩⟩
        rcases maps7.1 hw with ⟨h, -⟩ | ⟨h, -⟩ | ⟨-, rfl⟩
        · exact absurd h (by decide)
        · exact absurd h (by decide)
        · decide
    · refine ((document_conditions hf ht hp doc7_means).1 _).2 ⟨m1, .inl ⟨rfl, rfl⟩, ?_⟩
      rintro ⟨e, he, -⟩
      cases he

end Lgr.Props.C155

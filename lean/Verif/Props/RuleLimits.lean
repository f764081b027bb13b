import Verif.Props.RuleState

/-!
# Rules after any history; where the claims about rules fail
-/

namespace Lgr.C63
open Lgr Matcher

variable {db : String → Except Err CpSet} {lk : Lookups}

/-- Rules that do not refer to themselves have a meaning that agrees with their definitions. -/
theorem agrees_exists {rank : String → Nat} (hr : RuleRanked lk.rules rank) (label : Seq)
    (anchor : Nat → Nat → Prop) : ∃ w : World, w.label = label ∧ w.anchor = anchor ∧ Agrees db lk w ∧
      ∀ k x, w.cls k x ↔ ∃ fuel s, Cls.getSet db lk.classes fuel k = .ok s ∧ s x = true := by
  let w0 : World := ⟨label, fun k x => ∃ fuel s, Cls.getSet db lk.classes fuel k = .ok s ∧ s x = true,
    fun _ _ _ => False, anchor⟩
  obtain ⟨R, hR⟩ := meaning_exists hr w0
  refine ⟨{ w0 with rule := R }, rfl, rfl, ⟨?_, hR⟩, fun _ _ => Iff.rfl⟩
  intro fuel k s hs x
  constructor
  · exact fun h => ⟨fuel, s, hs, h⟩
  · rintro ⟨f', s', hs', hx⟩
    rw [C42.getSet_unique hs hs']
    exact hx

/-- After any history of tagging, untagging and unforced definitions of new names (known properties, counts in
order), there is a meaning of classes and rules, given by their definitions, such that for every label of at
most 63 code points a rule without anchors and empty classes matches iff it holds somewhere in the label. -/
theorem history_rule_exact (cs : List C66.Call) (hf : C66.Fresh {} cs) (hfine : ∀ c ∈ cs, C66.Fine db c) :
    ∃ ρ, C42.Solves db (cs.foldl C66.Call.run {}).lk.classes ρ ∧
      ∀ label : Seq, label.length ≤ labelMax → (∀ c ∈ label, Re.newline c = false) →
      ∃ w : World, w.label = label ∧
        (∀ k, C42.Proper (cs.foldl C66.Call.run {}).lk.classes k → C42.Every (C42.Known db) (fun _ _ => True) k →
          ∀ x, w.cls k x ↔ C42.Den db ρ k x) ∧
        (∀ n m, dget (cs.foldl C66.Call.run {}).lk.rules n = some m → ∀ i j, w.rule n i j ↔ Holds w m i j) ∧
        ((∀ n m, dget (cs.foldl C66.Call.run {}).lk.rules n = some m → AllCls (Inhabited w) m) →
          ∀ name m, dget (cs.foldl C66.Call.run {}).lk.rules name = some m →
            AnchorFree (cs.foldl C66.Call.run {}).lk m →
            ∃ fuel0, ∀ fuel, fuel0 ≤ fuel → ∀ anc index, (anc = none → index = 0) →
              ∃ b, C65.answer db fuel (cs.foldl C66.Call.run {}) name label anc index = .ok b ∧
                (b = true ↔ ∃ i j, i ≤ label.length ∧ Holds w m i j)) := by
  obtain ⟨crank, rrank, hI⟩ := C66.inv_runs cs {} _ _ C66.inv_empty hf hfine
  have htotal := fun name => C66.matching_total_partial cs hf hfine name
  generalize cs.foldl C66.Call.run {} = s at *
  obtain ⟨ρ, hρ, hall⟩ := C42.classes_denote hI.cls.1
  refine ⟨ρ, hρ, ?_⟩
  intro label hlen hnl
  obtain ⟨w, rfl, -, hw, hcls⟩ := agrees_exists (db := db) hI.ranked label (fun _ _ => False)
  refine ⟨w, rfl, ?_, hw.rule, ?_⟩
  · intro k hp hk x
    obtain ⟨f, t, ht⟩ := C66.proper_total hI.cls k hp hk
    have hd := C42.class_set_exact hρ (fun n c hc => C42.every_mono (fun _ _ => trivial) (fun _ _ h => h) c (hI.cls.1 n c hc)) f k t
      (C42.every_mono (fun _ _ => trivial) (fun _ _ h => h) k (C42.proper_every k hp)) ht x
    rw [← hw.cls f k t ht x]
    exact hd
  · intro hlk name m hm hfree
    obtain ⟨f0, h0⟩ := htotal name (dget_isSome.mp (by rw [hm]; rfl))
    refine ⟨f0, fun fuel hle anc index hidx => ?_⟩
    obtain ⟨b, hb⟩ := h0 fuel hle w.label anc index
    refine ⟨b, hb, ?_⟩
    unfold C65.answer at hb
    simp only [hm] at hb
    exact rule_exact hw hlen hnl hlk (hlk name m hm) hfree hidx hb

/-- A rule that consists only of classes without code points (or of nothing) never matches. -/
theorem empty_classes_never_match {w : World} (hw : Agrees db lk w) {fuel id : Nat} {nm : Option String}
    {ms : List Matcher} (hms : ∀ m ∈ ms, ∃ k, m = .cls k .none ∧ ∀ x, ¬ w.cls k x) {label : Seq} {anc : Option Seq}
    {index : Nat} {b : Bool} (h : ruleMatches db lk fuel (.rule id nm none ms .none) label anc index = .ok b) :
    b = false := by
  unfold ruleMatches at h
  cases hp : pattern db lk fuel false (.rule id nm none ms .none) with
  | error e => simp [hp] at h
  | ok p =>
    simp only [hp] at h
    have hb : p.blank = true := by
      cases fuel with
      | zero => simp [pattern] at hp
      | succ fuel =>
        rw [pattern.eq_def] at hp
        simp only at hp
        cases hr : ms.mapM (pattern db lk fuel false) with
        | error e => simp [hr] at hp
        | ok rs =>
          simp only [hr, withCount, Count.bounds, Except.ok.injEq] at hp
          subst hp
          have h2 := C42.mapM_ok.mp hr
          clear hr h
          induction h2 with
          | nil => rfl
          | @cons m r ms rs h1 h2 ih =>
            obtain ⟨k, rfl, hk⟩ := hms m (by simp)
            rw [Re.seqs, Re.blank, ih (fun m hm => hms m (by simp [hm]))]
            cases fuel with
            | zero => simp [pattern] at h1
            | succ fuel =>
              rw [pattern, classPattern] at h1
              cases hs : Cls.getSet db lk.classes fuel k with
              | error e => simp [hs] at h1
              | ok s =>
                have he : s.isEmpty = true := by
                  unfold CpSet.isEmpty
                  rw [List.all_eq_true]
                  intro x _
                  have := mt (hw.cls fuel k s hs x).mp (hk x)
                  simpa using this
                simp only [hs, he, if_true, withCount, Count.bounds, Except.ok.injEq] at h1
                subst h1
                rfl
    unfold matchesPattern at h
    simp only [hb, if_true, Except.ok.injEq] at h
    exact h.symm

/-- A class by tag, then a code point. -/
def ruleE : Matcher := .rule 0 (some "r") none
  [.cls (.base { fromTag := some "digit" }) .none, .char [0x61] .none] .none

/-- `<rule name="r"><class from-tag="digit"/><char cp="0061"/></rule>`, and no code point tagged "digit". -/
def lgrE : RuleState := (RuleState.addRule {} ruleE false).1

theorem search_lit (label : Seq) (c : Nat) (h : c ∈ label) :
    matchesPattern label (.seqs [.empty, .lit [c]]) none 0 = .ok true := by
  unfold matchesPattern
  simp only [Re.seqs, Re.blank, Re.hasAnchor, Re.compiles]
  have hs := search_isSome label (.seq .empty (.seq (.lit [c]) .empty)) 0
  cases hsr : search label (.seq .empty (.seq (.lit [c]) .empty)) 0 with
  | none =>
    rw [hsr] at hs
    simp only [Option.isSome_none, Bool.false_eq_true, false_iff] at hs
    exfalso
    apply hs
    obtain ⟨i, hi⟩ := List.mem_iff_getElem?.mp h
    have hlt := (List.getElem?_eq_some_iff.mp hi).1
    refine ⟨i, Nat.zero_le _, by omega, i + 1, i, rfl, i + 1, ⟨?_, rfl⟩, rfl⟩
    rw [List.drop_eq_getElem_cons hlt]
    have := (List.getElem?_eq_some_iff.mp hi).2
    rw [this]
    exact ⟨_, rfl⟩
  | some i => simp [hsr, Re.compiles]

/-- Violation: a class without code points is left out of the pattern instead of matching nothing. The rule
"a digit, then an a" matches the label "a" if there are no digits. -/
theorem empty_class_matches :
    (RuleState.addRule {} ruleE false).2 = .ok () ∧
    C65.answer C42.noDb 9 lgrE "r" [0x61] none 0 = .ok true ∧
    ∀ w : World, Agrees C42.noDb lgrE.lk w → w.label = [0x61] → ¬ ∃ i j, Holds w ruleE i j := by
  refine ⟨rfl, ?_, ?_⟩
  · unfold C65.answer
    have hd : dget lgrE.lk.rules "r" = some ruleE := rfl
    simp only [hd]
    unfold ruleMatches
    have hp : pattern C42.noDb lgrE.lk 9 false ruleE = .ok (.seqs [.empty, .lit [0x61]]) := by
      have e : classPattern C42.noDb lgrE.lk 7 (.base { fromTag := some "digit" }) = .ok .empty := by
        unfold classPattern
        have hg : Cls.getSet C42.noDb lgrE.lk.classes 7 (.base { fromTag := some "digit" }) = .ok (fun _ => false) :=
          rfl
        rw [hg]
        simp only
        rw [if_pos]
        unfold CpSet.isEmpty
        rw [List.all_eq_true]
        intro x _
        rfl
      rw [ruleE, pattern.eq_def]
      simp only [List.mapM_cons, List.mapM_nil]
      rw [pattern.eq_def]
      simp only [e]
      rfl
    rw [hp]
    exact search_lit _ _ (by simp)
  · rintro w hw hl ⟨i, j, h⟩
    rw [ruleE, Holds, Counted, HoldsSeq] at h
    obtain ⟨k, h, -⟩ := h
    rw [Holds, Counted] at h
    obtain ⟨x, -, hx, -⟩ := h
    have hg : Cls.getSet C42.noDb lgrE.lk.classes 7 (.base { fromTag := some "digit" }) = .ok (fun _ => false) := rfl
    have := (hw.cls 7 _ _ hg x).mpr hx
    simp at this

/-- A history that meets the hypotheses of `history_rule_exact`: a tag, classes, two rules, one by reference
and with a count. -/
def demo : List C66.Call :=
  [.cls (.tag [0x61] "t"), .cls (.cls C42.clsA), .cls (.cls C42.clsB),
   .rule (.rule 0 (some "p") none [.cls (C42.refTo "b") (.range 1 2), .behind [.any .none]] .none),
   .rule (.rule 1 (some "q") none [.start, .rule 2 none (some "p") [] (.atLeast 1),
     .choice [.fin, .cls (.base { fromTag := some "t" }) .none] .none] .none)]

theorem demo_ok : C66.Fresh {} demo ∧ ∀ c ∈ demo, C66.Fine C42.noDb c := by
  constructor
  · refine ⟨trivial, ?_, ?_, ?_, ?_, trivial⟩
    · rintro n ⟨⟩
      exact ⟨by decide +kernel, C42.ne_tag (by decide)⟩
    · rintro n ⟨⟩
      exact ⟨by decide +kernel, C42.ne_tag (by decide)⟩
    · rintro n ⟨⟩
      decide +kernel
    · rintro n ⟨⟩
      decide +kernel
  · intro c hc
    simp only [demo, List.mem_cons, List.not_mem_nil, or_false] at hc
    rcases hc with rfl | rfl | rfl | rfl | rfl <;>
      simp [C66.Fine, C66.Parts, C66.PartsL, C66.InOrder, C42.clsA, C42.clsB, C42.refTo, C42.Every, C42.EveryL,
        C42.Known, labelMax]

/-- Its rules are free of anchors, and their classes are not empty. -/
theorem demo_rules : ∀ n m, dget (demo.foldl C66.Call.run {}).lk.rules n = some m →
    AnchorFree (demo.foldl C66.Call.run {}).lk m ∧
    ∀ w, Agrees C42.noDb (demo.foldl C66.Call.run {}).lk w → AllCls (Inhabited w) m := by
  have e : (demo.foldl C66.Call.run {}).lk.rules =
      [("p", .rule 0 (some "p") none [.cls (C42.refTo "b") (.range 1 2), .behind [.any .none]] .none),
       ("q", .rule 1 (some "q") none [.start, .rule 2 none (some "p") [] (.atLeast 1),
          .choice [.fin, .cls (.base { fromTag := some "t" }) .none] .none] .none)] := rfl
  have hp : AnchorFree (demo.foldl C66.Call.run {}).lk
      (.rule 0 (some "p") none [.cls (C42.refTo "b") (.range 1 2), .behind [.any .none]] .none) := by
    refine .rule _ _ _ _ ?_
    intro m hm
    simp only [List.mem_cons, List.not_mem_nil, or_false] at hm
    rcases hm with rfl | rfl
    · exact .cls _ _
    · refine .behind _ ?_
      intro m hm
      simp only [List.mem_cons, List.not_mem_nil, or_false] at hm
      subst hm
      exact .any _
  have hb : ∀ w, Agrees C42.noDb (demo.foldl C66.Call.run {}).lk w → Inhabited w (C42.refTo "b") := by
    intro w hw
    exact ⟨0x61, by decide, (hw.cls 9 _ _ rfl _).mp rfl⟩
  have ht : ∀ w, Agrees C42.noDb (demo.foldl C66.Call.run {}).lk w →
      Inhabited w (.base { fromTag := some "t" }) := by
    intro w hw
    exact ⟨0x61, by decide, (hw.cls 9 _ _ rfl _).mp rfl⟩
  intro n m hm
  have hmem := mem_of_dget hm
  rw [e] at hmem
  simp only [List.mem_cons, List.not_mem_nil, or_false, Prod.mk.injEq] at hmem
  rcases hmem with ⟨-, rfl⟩ | ⟨-, rfl⟩
  · exact ⟨hp, fun w hw => by simp [AllCls, AllClsL, hb w hw]⟩
  · refine ⟨.rule _ _ _ _ ?_, fun w hw => by simp [AllCls, AllClsL, ht w hw]⟩
    intro m hm
    simp only [List.mem_cons, List.not_mem_nil, or_false] at hm
    rcases hm with rfl | rfl | rfl
    · exact .start
    · exact .ref _ _ _ _ _ _ rfl hp
    · refine .choice _ _ ?_
      intro m hm
      simp only [List.mem_cons, List.not_mem_nil, or_false] at hm
      rcases hm with rfl | rfl
      · exact .fin
      · exact .cls _ _

/-- So its rules match what they mean, in every label of at most 63 code points. -/
example (label : Seq) (hl : label.length ≤ labelMax) (hn : ∀ c ∈ label, Re.newline c = false) :
    ∃ fuel b, C65.answer C42.noDb fuel (demo.foldl C66.Call.run {}) "q" label none 0 = .ok b := by
  obtain ⟨f, h⟩ := C66.matching_total_partial demo demo_ok.1 demo_ok.2 "q" (by decide +kernel)
  obtain ⟨b, hb⟩ := h f (le_refl _) label none 0
  exact ⟨f, b, hb⟩

end Lgr.C63

namespace Lgr.C64
open Lgr Matcher C63

variable {db : String → Except Err CpSet}

/-- The same for context rules: after any such history a rule that is an anchor with anchor-free look-arounds
before and after it matches at a position iff the code points are there, and the look-arounds hold. -/
theorem history_context_exact (cs : List C66.Call) (hf : C66.Fresh {} cs) (hfine : ∀ c ∈ cs, C66.Fine db c) :
    ∃ ρ, C42.Solves db (cs.foldl C66.Call.run {}).lk.classes ρ ∧
      ∀ label : Seq, label.length ≤ labelMax → (∀ c ∈ label, Re.newline c = false) →
      ∃ w : World, w.label = label ∧
        (∀ k, C42.Proper (cs.foldl C66.Call.run {}).lk.classes k → C42.Every (C42.Known db) (fun _ _ => True) k →
          ∀ x, w.cls k x ↔ C42.Den db ρ k x) ∧
        (∀ n m, dget (cs.foldl C66.Call.run {}).lk.rules n = some m → ∀ i j, w.rule n i j ↔ Holds w m i j) ∧
        ((∀ n m, dget (cs.foldl C66.Call.run {}).lk.rules n = some m → AllCls (Inhabited w) m) →
          ∀ name id nm pre post, dget (cs.foldl C66.Call.run {}).lk.rules name =
              some (.rule id nm none (pre ++ .anchor :: post) .none) →
            (∀ m ∈ pre, Around (cs.foldl C66.Call.run {}).lk m) →
            (∀ m ∈ post, Around (cs.foldl C66.Call.run {}).lk m) →
            ∃ fuel0, ∀ fuel, fuel0 ≤ fuel → ∀ a index, index ≤ label.length →
              ∃ b, C65.answer db fuel (cs.foldl C66.Call.run {}) name label (some a) index = .ok b ∧
                (b = true ↔ (∀ m ∈ pre, Holds w m index index) ∧ Occurs label a index (index + a.length) ∧
                  (∀ m ∈ post, Holds w m (index + a.length) (index + a.length)))) := by
  obtain ⟨crank, rrank, hI⟩ := C66.inv_runs cs {} _ _ C66.inv_empty hf hfine
  have htotal := fun name => C66.matching_total_partial cs hf hfine name
  generalize cs.foldl C66.Call.run {} = s at *
  obtain ⟨ρ, hρ, hall⟩ := C42.classes_denote hI.cls.1
  refine ⟨ρ, hρ, ?_⟩
  intro label hlen hnl
  obtain ⟨w, rfl, -, hw, hcls⟩ := agrees_exists (db := db) hI.ranked label (fun _ _ => False)
  refine ⟨w, rfl, ?_, hw.rule, ?_⟩
  · intro k hp hk x
    obtain ⟨f, t, ht⟩ := C66.proper_total hI.cls k hp hk
    have hd := C42.class_set_exact hρ (fun n c hc => C42.every_mono (fun _ _ => trivial) (fun _ _ h => h) c
      (hI.cls.1 n c hc)) f k t
      (C42.every_mono (fun _ _ => trivial) (fun _ _ h => h) k (C42.proper_every k hp)) ht x
    rw [← hw.cls f k t ht x]
    exact hd
  · intro hlk name id nm pre post hm hpre hpost
    obtain ⟨f0, h0⟩ := htotal name (dget_isSome.mp (by rw [hm]; rfl))
    refine ⟨f0, fun fuel hle a index hidx => ?_⟩
    obtain ⟨b, hb⟩ := h0 fuel hle w.label (some a) index
    refine ⟨b, hb, ?_⟩
    unfold C65.answer at hb
    simp only [hm] at hb
    exact context_rule_exact hw hlen hnl hlk hpre hpost (hlk name _ hm) hidx hb

/-- The Unicode context rule for ZERO WIDTH NON-JOINER, simplified: after a virama, before a letter. -/
def demo : List C66.Call :=
  [.cls (.tag [0x94D] "virama"),
   .rule (.rule 0 (some "zwnj") none ([.behind [.cls (.base { fromTag := some "virama" }) .none]] ++ .anchor ::
     [.ahead [.any (.atLeast 1)]]) .none)]

/-- It meets the hypotheses. -/
theorem demo_ok : C66.Fresh {} demo ∧ (∀ c ∈ demo, C66.Fine C42.noDb c) ∧
    (∀ m ∈ [Matcher.behind [.cls (.base { fromTag := some "virama" }) .none]],
      Around (demo.foldl C66.Call.run {}).lk m) ∧
    (∀ m ∈ [Matcher.ahead [.any (.atLeast 1)]], Around (demo.foldl C66.Call.run {}).lk m) ∧
    (∀ n m, dget (demo.foldl C66.Call.run {}).lk.rules n = some m →
      ∀ w, Agrees C42.noDb (demo.foldl C66.Call.run {}).lk w → AllCls (Inhabited w) m) := by
  refine ⟨⟨trivial, ?_, trivial⟩, ?_, ?_, ?_, ?_⟩
  · rintro n ⟨⟩
    decide +kernel
  · intro c hc
    simp only [demo, List.mem_cons, List.not_mem_nil, or_false] at hc
    rcases hc with rfl | rfl <;>
      simp [C66.Fine, C66.Parts, C66.PartsL, C66.InOrder, C42.Every, C42.Known, labelMax]
  · intro m hm
    simp only [List.mem_cons, List.not_mem_nil, or_false] at hm
    subst hm
    refine ⟨.behind _ ?_, .inr ⟨_, rfl⟩⟩
    intro m hm
    simp only [List.mem_cons, List.not_mem_nil, or_false] at hm
    subst hm
    exact .cls _ _
  · intro m hm
    simp only [List.mem_cons, List.not_mem_nil, or_false] at hm
    subst hm
    refine ⟨.ahead _ ?_, .inl ⟨_, rfl⟩⟩
    intro m hm
    simp only [List.mem_cons, List.not_mem_nil, or_false] at hm
    subst hm
    exact .any _
  · have ht : ∀ w, Agrees C42.noDb (demo.foldl C66.Call.run {}).lk w →
        Inhabited w (.base { fromTag := some "virama" }) := by
      intro w hw
      exact ⟨0x94D, by decide, (hw.cls 9 _ _ rfl _).mp rfl⟩
    intro n m hm w hw
    have hmem := mem_of_dget hm
    have e : (demo.foldl C66.Call.run {}).lk.rules =
        [("zwnj", .rule 0 (some "zwnj") none [.behind [.cls (.base { fromTag := some "virama" }) .none], .anchor,
          .ahead [.any (.atLeast 1)]] .none)] := rfl
    rw [e] at hmem
    simp only [List.mem_cons, List.not_mem_nil, or_false, Prod.mk.injEq] at hmem
    obtain ⟨-, rfl⟩ := hmem
    simp [AllCls, AllClsL, ht w hw]

/-- "Before a digit". -/
def ruleD : Matcher := .rule 0 (some "r") none [.anchor, .ahead [.cls (.base { fromTag := some "digit" }) .none]] .none

/-- `<rule name="r"><anchor/><look-ahead><class from-tag="digit"/></look-ahead></rule>`, and no code point tagged "digit". -/
def lgrD : RuleState := (RuleState.addRule {} ruleD false).1

open Classical in
theorem search_here {label : Seq} {r : Re} {i : Nat} (hi : i ≤ label.length) {j : Nat} (h : r.Match label i j) :
    search label r i = some i := by
  obtain ⟨k, h1, h2⟩ := (search_at label r i hi).2 ⟨j, h⟩
  have h3 : i ≤ k := by
    unfold search at h1
    split at h1
    · rename_i hh
      cases h1
      exact (Nat.find_spec hh).1
    · cases h1
  rw [h1, Nat.le_antisymm h2 h3]

/-- Violation: a look-ahead for a class without code points holds everywhere: the rule "before a digit" matches for the last code point
of a label if there are no digits. -/
theorem empty_class_wrong :
    (RuleState.addRule {} ruleD false).2 = .ok () ∧
    C65.answer C42.noDb 9 lgrD "r" [0x61] (some [0x61]) 0 = .ok true ∧
    ∀ w : World, Agrees C42.noDb lgrD.lk w → ∀ i j, ¬ Holds w (.ahead [.cls (.base { fromTag := some "digit" }) .none]) i j := by
  refine ⟨rfl, ?_, ?_⟩
  · unfold C65.answer
    have hd : dget lgrD.lk.rules "r" = some ruleD := rfl
    simp only [hd]
    unfold ruleMatches
    have hp : pattern C42.noDb lgrD.lk 9 false ruleD = .ok (.seqs [.anchor, .ahead (.seqs [.empty])]) := by
      have e : classPattern C42.noDb lgrD.lk 6 (.base { fromTag := some "digit" }) = .ok .empty := by
        unfold classPattern
        have hg : Cls.getSet C42.noDb lgrD.lk.classes 6 (.base { fromTag := some "digit" }) = .ok (fun _ => false) :=
          rfl
        rw [hg]
        simp only
        rw [if_pos]
        unfold CpSet.isEmpty
        rw [List.all_eq_true]
        intro x _
        rfl
      have e1 : pattern C42.noDb lgrD.lk 7 false (.cls (.base { fromTag := some "digit" }) .none) = .ok .empty := by
        rw [pattern.eq_def]
        simp only [e]
        rfl
      have e2 : pattern C42.noDb lgrD.lk 8 false (.ahead [.cls (.base { fromTag := some "digit" }) .none]) =
          .ok (.ahead (.seqs [.empty])) := by
        rw [pattern.eq_def]
        simp only [List.mapM_cons, List.mapM_nil, e1]
        rfl
      rw [ruleD, pattern.eq_def]
      simp only [List.mapM_cons, List.mapM_nil, e2]
      rfl
    rw [hp]
    have hs : search [0x61] ((Re.seqs [.anchor, .ahead (.seqs [.empty])]).subst [0x61]) 0 = some 0 :=
      search_here (by simp) (j := 1) ⟨1, ⟨⟨[], rfl⟩, rfl⟩, 1, ⟨⟨1, 1, rfl, rfl⟩, rfl⟩, rfl⟩
    unfold matchesPattern
    simp [Re.seqs, Re.blank, Re.hasAnchor, Re.compiles, Re.subst] at hs ⊢
    simp [hs]
  · intro w hw i j h
    rw [Holds] at h
    obtain ⟨⟨k, h⟩, -⟩ := h
    rw [HoldsSeq] at h
    obtain ⟨l, h, -⟩ := h
    rw [Holds, Counted] at h
    obtain ⟨x, -, hx, -⟩ := h
    have hg : Cls.getSet C42.noDb lgrD.lk.classes 7 (.base { fromTag := some "digit" }) = .ok (fun _ => false) := rfl
    have := (hw.cls 7 _ _ hg x).mpr hx
    simp at this

/-- "After nothing but letters a". -/
def ruleA : Matcher := .rule 0 (some "r") none [.behind [.start, .char [0x61] (.atLeast 1)], .anchor] .none

def lgrA : RuleState := (RuleState.addRule {} ruleA false).1

theorem iter_lit {label : Seq} {n i j : Nat} (h : Re.Iter ((Re.group (.lit [0x61])).Match label) n i j) : j = i + n := by
  induction n generalizing i with
  | zero => cases h; rfl
  | succ n ih =>
    obtain ⟨k, h1, h2⟩ := h
    have := ih h2
    have h3 : k = i + 1 := h1.2
    omega

/-- Violation: in a look-behind, "one or more" is at most 63: the rule "after nothing but letters a" does not match after 64 letters a. -/
theorem long_label_wrong :
    (RuleState.addRule {} ruleA false).2 = .ok () ∧
    C65.answer C42.noDb 9 lgrA "r" (List.replicate 64 0x61 ++ [0x62]) (some [0x62]) 64 = .ok false ∧
    ∀ w : World, w.label = List.replicate 64 0x61 ++ [0x62] → Holds w (.behind [.start, .char [0x61] (.atLeast 1)]) 64 64 := by
  refine ⟨rfl, ?_, ?_⟩
  · unfold C65.answer
    have hd : dget lgrA.lk.rules "r" = some ruleA := rfl
    simp only [hd]
    unfold ruleMatches
    have hp : pattern C42.noDb lgrA.lk 9 false ruleA =
        .ok (.seqs [.behind (.seqs [.bol, .rep (.group (.lit [0x61])) 1 (some 63)]), .anchor]) := rfl
    rw [hp]
    have hs : ∀ i, search (List.replicate 64 0x61 ++ [0x62])
        ((Re.seqs [.behind (.seqs [.bol, .rep (.group (.lit [0x61])) 1 (some 63)]), .anchor]).subst [0x62]) 64 ≠ some i := by
      intro i hi
      unfold search at hi
      split at hi
      · rename_i hh
        obtain ⟨i, h1, h2, j, k, ⟨⟨b, c, ⟨rfl, rfl⟩, e, ⟨n, h5, h6, h7⟩, rfl⟩, rfl⟩, -⟩ := hh
        have := iter_lit h7
        have := h6 63 rfl
        omega
      · cases hi
    unfold matchesPattern
    simp [Re.seqs, Re.blank, Re.hasAnchor, Re.compiles, Re.subst] at hs ⊢
    split
    · rfl
    · rename_i i hi
      exact absurd hi (hs i)
  · intro w hw
    rw [Holds]
    refine ⟨⟨0, ?_⟩, rfl⟩
    rw [HoldsSeq]
    refine ⟨0, by rw [Holds]; exact ⟨rfl, rfl⟩, ?_⟩
    rw [HoldsSeq]
    refine ⟨64, ?_, by rw [HoldsSeq]⟩
    rw [Holds, hw]
    refine ⟨64, by omega, ?_⟩
    have key : ∀ n i, i + n = 64 → Times (fun i j => j = i + [0x61].length ∧ [0x61] <+: (List.replicate 64 0x61 ++ [0x62]).drop i) n i 64 := by
      intro n
      induction n with
      | zero => intro i hi; show i = 64; omega
      | succ n ih =>
        intro i hi
        refine ⟨i + 1, ⟨rfl, ?_⟩, ih (i + 1) (by omega)⟩
        have hlt : i < 64 := by omega
        rw [List.drop_append_of_le_length (by simp; omega), List.drop_replicate, show 64 - i = (63 - i) + 1 by omega, List.replicate_succ]
        exact ⟨_, rfl⟩
    exact key 64 0 rfl

end Lgr.C64

namespace Lgr.C65
open Lgr Matcher

/-- A history that meets the hypotheses of `cache_transparent_partial`: rules parsed with a database, matched,
then a class and a rule with a reference added. -/
def demo : List Op :=
  [.parse true (.rule 0 (some "p") none [.char [0x61] .none] .none) false, .ask "p" [0x61] none 0,
   .cls C42.clsA false, .rule (.rule 1 (some "q") none [.cls (C42.refTo "a") .none, .rule 2 none (some "p") [] .none]
     .none) false, .ask "q" [0x61, 0x61] none 0]

/-- The rule objects of the history. -/
def demoObj : Nat → Option String × List Matcher
  | 0 => (none, [.char [0x61] .none])
  | 1 => (none, [.cls (C42.refTo "a") .none, .rule 2 none (some "p") [] .none])
  | _ => (some "p", [])

theorem demo_ok : AllFresh C42.noDb 9 demoObj {} demo := by
  have ask : ∀ (s : RuleState) name label anc index, ((s.matches_ C42.noDb 9 name label anc index).1).lk = s.lk := by
    intro s name label anc index
    unfold RuleState.matches_
    cases dget s.lk.rules name <;> rfl
  refine ⟨⟨?_, ?_⟩, trivial, ?_, ⟨?_, ?_⟩, trivial, trivial⟩
  · exact ⟨rfl, trivial, trivial⟩
  · rintro n ⟨⟩
    decide +kernel
  · rintro n ⟨⟩
    refine ⟨?_, C42.ne_tag (by decide)⟩
    simp only [Op.run, ask]
    decide +kernel
  · exact ⟨rfl, trivial, ⟨rfl, trivial⟩, trivial⟩
  · rintro n ⟨⟩
    simp only [Op.run, RuleState.addClass, ask]
    decide +kernel

end Lgr.C65

namespace Lgr.C66
open Lgr Matcher C63

/-- `<rule name="r"><char cp="0061" count="2:1"/></rule>` -/
def ruleC : Matcher := .rule 0 (some "r") none [.char [0x61] (.range 2 1)] .none
/-- `<rule name="r"><look-behind><char cp="0061" count="64+"/></look-behind></rule>` -/
def ruleL : Matcher := .rule 0 (some "r") none [.behind [.char [0x61] (.atLeast 64)]] .none

/-- Violation: bounds of a count in the wrong order are accepted, by `add_rule` without `force`, but the rule
cannot be evaluated on any label. -/
theorem count_order_unchecked (fuel : Nat) (label : Seq) :
    (RuleState.addRule {} ruleC false).2 = .ok () ∧
    C65.answer C42.noDb (fuel + 2) (RuleState.addRule {} ruleC false).1 "r" label none 0 =
      .error (.ruleError "compile") := by
  refine ⟨rfl, ?_⟩
  have hd : dget (RuleState.addRule {} ruleC false).1.lk.rules "r" = some ruleC := rfl
  unfold C65.answer
  simp only [hd]
  unfold ruleMatches
  have hp : pattern C42.noDb (RuleState.addRule {} ruleC false).1.lk (fuel + 2) false ruleC =
      .ok (.seqs [.rep (.group (.lit [0x61])) 2 (some 1)]) := rfl
  rw [hp]
  rfl

/-- Violation: a count of at least 64 cannot be evaluated in a look-behind, though it can outside of it. -/
theorem long_count_in_look_behind (fuel : Nat) (label : Seq) :
    (RuleState.addRule {} ruleL false).2 = .ok () ∧
    C65.answer C42.noDb (fuel + 3) (RuleState.addRule {} ruleL false).1 "r" label none 0 =
      .error (.ruleError "compile") := by
  refine ⟨rfl, ?_⟩
  have hd : dget (RuleState.addRule {} ruleL false).1.lk.rules "r" = some ruleL := rfl
  unfold C65.answer
  simp only [hd]
  unfold ruleMatches
  have hp : pattern C42.noDb (RuleState.addRule {} ruleL false).1.lk (fuel + 3) false ruleL =
      .ok (.seqs [.behind (.seqs [.rep (.group (.lit [0x61])) 64 (some 63)])]) := rfl
  rw [hp]
  rfl

/-- Three definitions: `r`, `q` by reference to `r`, and `r` again, by reference to `q`. -/
def ruleR : Matcher := .rule 0 (some "r") none [.char [0x61] .none] .none
def ruleQ : Matcher := .rule 1 (some "q") none [.rule 2 none (some "r") [] .none] .none
def ruleR' : Matcher := .rule 3 (some "r") none [.rule 4 none (some "q") [] .none] .none

def cyclic : RuleState :=
  (RuleState.addRule (RuleState.addRule (RuleState.addRule {} ruleR false).1 ruleQ false).1 ruleR' false).1

/-- Violation: a rule can be defined again so that it refers to itself; matching it does not end
(`RecursionError`). -/
theorem redefinition_recurses (fuel : Nat) (label : Seq) :
    (RuleState.addRule {} ruleR false).2 = .ok () ∧
    (RuleState.addRule (RuleState.addRule {} ruleR false).1 ruleQ false).2 = .ok () ∧
    (RuleState.addRule (RuleState.addRule (RuleState.addRule {} ruleR false).1 ruleQ false).1 ruleR' false).2
      = .ok () ∧
    C65.answer C42.noDb fuel cyclic "r" label none 0 = .error .recursionError := by
  refine ⟨rfl, rfl, rfl, ?_⟩
  have e : cyclic.lk = ⟨[("r", ruleR'), ("q", ruleQ)], []⟩ := rfl
  have hd : dget cyclic.lk.rules "r" = some ruleR' := rfl
  unfold C65.answer
  simp only [hd]
  unfold ruleMatches
  have : ∀ fuel, pattern C42.noDb cyclic.lk fuel false ruleR' = .error .recursionError ∧
      pattern C42.noDb cyclic.lk fuel false ruleQ = .error .recursionError ∧
      pattern C42.noDb cyclic.lk fuel false (.rule 2 none (some "r") [] .none) = .error .recursionError ∧
      pattern C42.noDb cyclic.lk fuel false (.rule 4 none (some "q") [] .none) = .error .recursionError := by
    intro fuel
    induction fuel with
    | zero => exact ⟨rfl, rfl, rfl, rfl⟩
    | succ f ih =>
      obtain ⟨h1, h2, h3, h4⟩ := ih
      refine ⟨?_, ?_, ?_, ?_⟩
      · rw [ruleR', pattern.eq_def]
        simp only [List.mapM_cons, h4]
        rfl
      · rw [ruleQ, pattern.eq_def]
        simp only [List.mapM_cons, h3]
        rfl
      · rw [pattern.eq_def]
        have hd : dget cyclic.lk.rules "r" = some ruleR' := rfl
        simp only [hd, h1]
      · rw [pattern.eq_def]
        have hd : dget cyclic.lk.rules "q" = some ruleQ := rfl
        simp only [hd, h2]
  rw [(this fuel).1]

end Lgr.C66

namespace Lgr.C67
open Lgr Matcher

variable {db : String → Except Err CpSet}

/-- Without a Unicode database a forced parse keeps every rule. -/
theorem forced_kept_partial (fuel : Nat) (s : RuleState) (id : Nat) (n : String) (br : Option String)
    (ms : List Matcher) (c : Count) :
    RuleState.parseRule db fuel false s (.rule id (some n) br ms c) true =
      ({ s with lk := { s.lk with rules := dset s.lk.rules n (.rule id (some n) br ms c) } }, .ok ()) := by
  unfold RuleState.parseRule RuleState.addRule
  simp only [Bool.false_eq_true, if_false]
  cases Matcher.validate s.lk true (.rule id (some n) br ms c) <;> rfl

/-- With one it keeps every rule whose patterns can be calculated. -/
theorem forced_kept_with_database_partial {obj : Nat → Option String × List Matcher} {s : RuleState}
    (hs : C65.Inv db obj s) (fuel id : Nat) (n : String) (br : Option String) (ms : List Matcher) (c : Count)
    (hown : C65.Own obj (.rule id (some n) br ms c))
    (h : ∀ beh, ∃ p, pattern db s.lk fuel beh (.rule id (some n) br ms c) = .ok p) :
    (RuleState.parseRule db fuel true s (.rule id (some n) br ms c) true).2 = .ok () ∧
    (RuleState.parseRule db fuel true s (.rule id (some n) br ms c) true).1.lk =
      { s.lk with rules := dset s.lk.rules n (.rule id (some n) br ms c) } := by
  have key : ∀ beh κ, C65.CacheOK db s.lk obj κ →
      C65.CacheOK db s.lk obj (patternC db s.lk fuel beh (.rule id (some n) br ms c) κ).1 ∧
      ∃ p, (patternC db s.lk fuel beh (.rule id (some n) br ms c) κ).2 = .ok p := by
    intro beh κ hκ
    obtain ⟨h1, h2, h3⟩ := C65.patternC_same hs.2 fuel beh _ κ hown hκ
    refine ⟨h1, ?_⟩
    obtain ⟨p, hp⟩ := h beh
    have hd : C65.Done (pattern db s.lk fuel beh (.rule id (some n) br ms c)) := by
      rw [hp]; intro hc; cases hc
    obtain ⟨f, hf⟩ := h2 (h3 hd)
    simp only at hf
    refine ⟨p, ?_⟩
    rw [← hf, ← hp]
    exact C65.pattern_unique (by rw [hf]; exact h3 hd) hd
  obtain ⟨k1, p1, e1⟩ := key true s.cache hs.1
  unfold RuleState.parseRule Matcher.precalculate
  rcases hx : patternC db s.lk fuel true (.rule id (some n) br ms c) s.cache with ⟨κ1, o1⟩
  rw [hx] at k1 e1
  simp only at k1 e1
  subst e1
  obtain ⟨k2, p2, e2⟩ := key false κ1 k1
  rcases hy : patternC db s.lk fuel false (.rule id (some n) br ms c) κ1 with ⟨κ2, o2⟩
  rw [hy] at k2 e2
  simp only at k2 e2
  subst e2
  simp only [if_true, hx, hy]
  unfold RuleState.addRule
  simp only
  cases Matcher.validate s.lk true (.rule id (some n) br ms c) <;> exact ⟨rfl, rfl⟩

/-- A rule with a reference to a rule that is not defined. -/
def dangling : Matcher := .rule 0 (some "r") none [.rule 1 none (some "missing") [] .none] .none

/-- Violation: a forced parse of a rule with an undefined reference succeeds without a Unicode database and
fails with one. -/
theorem forced_parse_depends_on_database (fuel : Nat) :
    (RuleState.parseRule db fuel false {} dangling true).2 = .ok () ∧
    (RuleState.parseRule db (fuel + 2) true {} dangling true).2 = .error (.ruleError "missing") ∧
    dget (RuleState.parseRule db (fuel + 2) true {} dangling true).1.lk.rules "r" = none := by
  refine ⟨rfl, rfl, rfl⟩

end Lgr.C67

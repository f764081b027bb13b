import Verif.Props.MergeCases

/-!
# C117, C118: violations
-/

namespace Lgr.Props.C117
open Lgr Compare MergeSet RulesXml MergeXml C101 C102 C103 C42 C63

/-- The names are those of the model of `merge_rules` in `Verif/MergeSet.lean`. -/
theorem names_agree (script : String) (map : List (String × String)) (specific : Option String) :
    ∀ (items : List Item) (done : List (String × Txt)),
    (mergeRulesX script map specific items done).map Prod.fst =
      mergeRules (items.map (·.name)) script specific (done.map Prod.fst) := by
  intro items
  induction items with
  | nil => intro done; rfl
  | cons r items ih =>
    intro done
    unfold mergeRulesX mergeRules at ih ⊢
    rw [List.foldl_cons, List.map_cons, List.foldl_cons, ih]
    congr 1
    unfold mergeRuleStep
    dsimp only
    split
    · rfl
    · have e : (renameRule r.name r.xml script).1 = ruleName script r.name := rfl
      rw [e]
      split
      · rfl
      · simp

/-- A section that is read. -/
def readsB (es : List Node) : Bool :=
  match (parseRules demoP ({}, {}) es) with
  | (s, .ok ()) => !s.2.bad
  | _ => false

def refused (es : List Node) : Bool :=
  match (parseRules demoP ({}, {}) es) with
  | (_, .error e) => decide (e = .format "INVALID_BY_REF")
  | _ => false

def sect (cp : String) : List Node :=
  [.mk "class" [("name", "vowel")] (some cp) [],
   .mk "rule" [("name", "starts")] none [.mk "start" [] none [], .mk "class" [("by-ref", "vowel")] none []]]

def dA : Doc := { script := "Grek", es := sect "03B1" }
def dB : Doc := { script := "Latn", es := sect "0061", asked := [("Latn-Grek", "starts")] }

/-- **C117** is violated when a code point has context rules of the same name in two LGRs: the rule asked for refers to
classes that there are not, and the merged LGR cannot be read. -/
theorem combined_rule_wrong :
    mergeRule "Latn" ["Grek"] (some "Grek-starts") (some "starts") = some (some "Latn-Grek-starts", some ("Latn-Grek", "starts")) ∧
    readsB dA.es = true ∧ readsB dB.es = true ∧ refused (mNodes [dA, dB]) = true := by
  decide +kernel

/-- Without this rule it can be read. -/
example : readsB (mNodes [dA, { dB with asked := [] }]) = true := by decide +kernel

def dLike : Doc :=
  { script := "Latn"
    es := [.mk "class" [("name", "leading-combining-mark-class")] (some "0300") [],
      .mk "rule" [("name", "starts")] none
        [.mk "start" [] none [], .mk "class" [("by-ref", "leading-combining-mark-class")] none []]] }

/-- **C117** is violated by names that begin like the rule of the MSR: the class is renamed, the reference is not. -/
theorem like_msr_wrong : readsB dLike.es = true ∧ refused (mNodes [dLike]) = true := by decide +kernel

def dColon : Doc :=
  { script := "Latn"
    es := [.mk "class" [("name", "a:vowel")] (some "0061") [],
      .mk "rule" [("name", "starts")] none [.mk "start" [] none [], .mk "class" [("by-ref", "a:vowel")] none []]] }

/-- **C117** is violated by names of classes with a colon: the reference is renamed, the class is not. -/
theorem colon_wrong : readsB dColon.es = true ∧ refused (mNodes [dColon]) = true := by decide +kernel

def dMark (script cp : String) : Doc :=
  { script := script
    es := [.mk "rule" [("name", "leading-combining-mark")] none [.mk "start" [] none [], .mk "char" [("cp", cp)] none []]] }

/-- **C117** is violated when the rules for leading combining marks differ: the first one is kept for all. -/
theorem common_wrong : readsB (dMark "Grek" "0300").es = true ∧ readsB (dMark "Latn" "0301").es = true ∧
    mNodes [dMark "Grek" "0300", dMark "Latn" "0301"] =
      [.mk "rule" [("name", "Common-leading-combining-mark")] none
        [.mk "start" [] none [], .mk "char" [("cp", "0300")] none []]] :=
  ⟨by decide +kernel, by decide +kernel, rfl⟩

/-- **C117** is violated when this rule is the context rule of a code point: what the code point gets is not the name of
a rule of the merged LGR. -/
theorem context_name_wrong : preRule "Latn" (some "leading-combining-mark") = some "Latn-leading-combining-mark" ∧
    "Latn-leading-combining-mark" ∉ (mRules [dMark "Latn" "0301"]).map Prod.fst := by
  decide +kernel

end Lgr.Props.C117

namespace Lgr.Props.C118
open Lgr Compare MergeSet RulesXml MergeXml C101 C102 C103 C42 C63 C117 C55

/-- There is an evaluation of the rules of a section. -/
theorem evaluates_exists {P : Parser} {tc : List (String × List Nat)} {es : List Node} {rs : RuleState} (hr : Read P tc es rs)
    (env0 : Env) (script : Nat → String) : ∃ env : FullEnv, env.toEnv = env0 ∧ env.script = script ∧ Evaluates P.db rs env := by
  obtain ⟨obj, c, rk, ha⟩ := after_read hr
  have key : ∀ n label, ∃ x : Except Err Bool, ∃ qs f, ∀ fuel, f ≤ fuel →
      ((asked P.db rs qs).matches_ P.db fuel n label none 0).2 = x := by
    intro n label
    cases hm : dget rs.lk.rules n with
    | none =>
      refine ⟨.error (.keyError n), [], 0, fun fuel _ => ?_⟩
      show (rs.matches_ P.db fuel n label none 0).2 = _
      unfold RuleState.matches_
      rw [hm]
    | some m =>
      obtain ⟨f1, h1⟩ := answers ha.inv hm
      obtain ⟨f2, h2⟩ := C106.answers_stable ha.inv hm
      refine ⟨C65.answer P.db f2 rs n label none 0, [], max f1 f2, fun fuel hle => ?_⟩
      obtain ⟨b, hb⟩ := h1 fuel (le_trans (Nat.le_max_left _ _) hle) label none 0
      have := answered ha.cache [] hb
      have h3 := h2 fuel (le_trans (Nat.le_max_right _ _) hle) label none 0
      exact this.trans (hb.symm.trans h3)
  choose x hx using key
  exact ⟨⟨env0, fun n label => x n label, script⟩, rfl, rfl, hx⟩

theorem act_name (script : String) {m : String} (hm : m ≠ "") : ruleName script m = actTo script m := by
  unfold ruleName actTo
  rw [if_neg hm, show msrRules = [lcm] from rfl]
  by_cases h : m = lcm
  · subst h; rw [if_pos List.mem_cons_self, if_pos rfl]; decide
  · rw [if_neg (by rw [List.mem_singleton]; exact h), if_neg h]; rfl

/-- The actions of the set as objects: those of the LGRs in order, without the default actions, with the rules named
otherwise and references renumbered. -/
theorem merged_objects (l : List Part) : ∃ ls : List (List Action),
    (mergeSection l).actions.map Prod.fst = ls.flatten ∧
    List.Forall₂ (fun p as => List.Forall₂ (fun a b => Renamed p.script a b ∧ b.comment = a.comment ∧
        List.Forall₂ (fun r r' => dget p.map r = some r' ∨ dget p.map r = none ∧ r' = r) a.refs b.refs)
      ((p.actions.map Prod.fst).filter (fun a => !Review.hasAction defaultActions a)) as) l ls := by
  have one : ∀ (script : String) (map : List (String × String)) (as : List (Action × Txt)),
      List.Forall₂ (fun a b => Renamed script a b ∧ b.comment = a.comment ∧
        List.Forall₂ (fun r r' => dget map r = some r' ∨ dget map r = none ∧ r' = r) a.refs b.refs)
      ((as.map Prod.fst).filter (fun a => !Review.hasAction defaultActions a)) ((mergeActions script map as).map Prod.fst) := by
    intro script map as
    induction as with
    | nil => exact .nil
    | cons p as ih =>
      obtain ⟨a, xml⟩ := p
      rw [mergeActions, List.map_cons]
      by_cases hd : Review.hasAction defaultActions a = true
      · rw [if_pos hd, List.filter_cons_of_neg (by simp [hd])]
        exact ih
      · rw [if_neg hd, List.filter_cons_of_pos (by simp [hd])]
        refine .cons ⟨?_, ?_, ?_⟩ ih
        · have hn : ∀ m : String, m ≠ "" → ruleName script m = actTo script m := fun m hm => act_name script hm
          have he : actTo script "" = "" := rfl
          unfold renameAction
          cases h1 : a.matchR with
          | none =>
            cases h2 : a.notMatchR with
            | none => exact ⟨rfl, by rw [h1]; rfl, by rw [h2]; rfl, rfl, rfl, rfl⟩
            | some m =>
              dsimp only
              by_cases hm : m = ""
              · subst hm
                rw [if_neg (fun h => h rfl)]
                exact ⟨rfl, by rw [h1]; rfl, by rw [h2]; exact congrArg some he.symm, rfl, rfl, rfl⟩
              · rw [if_pos hm]
                exact ⟨rfl, by rw [h1]; rfl, by rw [h2]; exact congrArg some (hn m hm), rfl, rfl, rfl⟩
          | some k =>
            dsimp only
            by_cases hk : k = ""
            · subst hk
              rw [if_neg (fun h => h rfl)]
              cases h2 : a.notMatchR with
              | none => exact ⟨rfl, by rw [h1]; exact congrArg some he.symm, by rw [h2]; rfl, rfl, rfl, rfl⟩
              | some m =>
                dsimp only
                by_cases hm : m = ""
                · subst hm
                  rw [if_neg (fun h => h rfl)]
                  exact ⟨rfl, by rw [h1]; exact congrArg some he.symm,
                    by rw [h2]; exact congrArg some he.symm, rfl, rfl, rfl⟩
                · rw [if_pos hm]
                  exact ⟨rfl, by rw [h1]; exact congrArg some he.symm, by rw [h2]; exact congrArg some (hn m hm),
                    rfl, rfl, rfl⟩
            · rw [if_pos hk]
              cases h2 : a.notMatchR with
              | none => exact ⟨rfl, by rw [h1]; exact congrArg some (hn k hk), by rw [h2]; rfl, rfl, rfl, rfl⟩
              | some m =>
                dsimp only
                by_cases hm : m = ""
                · subst hm
                  rw [if_neg (fun h => h rfl)]
                  exact ⟨rfl, by rw [h1]; exact congrArg some (hn k hk), by rw [h2]; exact congrArg some he.symm,
                    rfl, rfl, rfl⟩
                · rw [if_pos hm]
                  exact ⟨rfl, by rw [h1]; exact congrArg some (hn k hk), by rw [h2]; exact congrArg some (hn m hm),
                    rfl, rfl, rfl⟩
        · unfold renameAction
          cases a.matchR <;> cases a.notMatchR <;> dsimp only
          · split <;> rfl
          · split <;> rfl
          · split <;> split <;> rfl
        · dsimp only
          generalize a.refs = rs
          induction rs with
          | nil => exact .nil
          | cons r rs ihr =>
            refine .cons ?_ ihr
            unfold mapRef
            cases h : dget map r with
            | none => exact .inr ⟨rfl, rfl⟩
            | some v => exact .inl rfl
  have all : ∀ (l : List Part) (s : Section),
      (l.foldl mergePart s).actions = s.actions ++ (l.map (fun p => mergeActions p.script p.map p.actions)).flatten := by
    intro l
    induction l with
    | nil => intro s; simp
    | cons p l ih =>
      intro s
      rw [List.foldl_cons, ih, List.map_cons, List.flatten_cons, ← List.append_assoc]
      rfl
  refine ⟨l.map (fun p => (mergeActions p.script p.map p.actions).map Prod.fst), ?_, ?_⟩
  · unfold mergeSection
    rw [all]
    show (([] : List (Action × Txt)) ++ _).map _ = _
    rw [List.nil_append, List.map_flatten, List.map_map]
    rfl
  · induction l with
    | nil => exact .nil
    | cons p l ih => exact .cons (one _ _ _) ih

theorem latn_acts : Parsed (dLatn.es.filter isAct) [{ disp := "invalid", matchR := some "vowels-b" }] := .cons rfl .nil

theorem both_acts : Parsed (mActs [dLatn, dCyrl])
    [{ disp := "invalid", matchR := some "Latn-vowels-b" },
     { disp := "invalid", matchR := some "Common-leading-combining-mark" }] := .cons rfl (.cons rfl .nil)

/-- The hypotheses of `merged_disposition` are met: labels of the first LGR to which the action of the second does
not apply. -/
example (env0 : Env) (script : Nat → String) (label : Seq) (hlen : label.length ≤ labelMax)
    (hnl : ∀ x ∈ label, Re.newline x = false) :
    ∃ env envM : FullEnv, Evaluates demoP.db (parseRules demoP demoStart C103.demo).1.1.rs env ∧
      Evaluates demoP.db (parseRules demoP bothStart both).1.1.rs envM ∧
      (envM.labelMatches "Common-leading-combining-mark" label = .ok false →
        (applyActions env [{ disp := "invalid", matchR := some "vowels-b" }] label [] false).map Prod.fst =
        (applyActions envM [{ disp := "invalid", matchR := some "Latn-vowels-b" },
          { disp := "invalid", matchR := some "Common-leading-combining-mark" }] label [] false).map Prod.fst) := by
  obtain ⟨env, -, -, hE⟩ := evaluates_exists demo_read env0 script
  obtain ⟨envM, -, -, hEM⟩ := evaluates_exists both_read env0 script
  refine ⟨env, envM, hE, hEM, fun hno => ?_⟩
  obtain ⟨w, hl, -, hw⟩ := document_has_meaning both_read label (fun _ _ => False)
  subst hl
  refine merged_disposition (ds1 := []) (d := dLatn) (ds2 := [dCyrl]) (front := [{ disp := "invalid", matchR := some "vowels-b" }])
    (back := []) demo_read (by rw [List.nil_append, both_eq]; exact both_read) latn_fit (by rw [List.nil_append, both_eq]; exact hw) hlen hnl
    (by rw [List.nil_append, both_eq]; exact both_solid hw) hE hEM latn_acts both_acts ?_ (by decide +kernel) rfl ?_ ?_ ?_
  · intro a ha r hr
    simp only [List.mem_cons, List.not_mem_nil, or_false] at ha
    subst ha
    simp at hr
    subst hr
    exact ⟨vowelsB, by simp [dLatn, C103.demo, vowelsB], by decide, rfl, vowelsB_free⟩
  · intro a ha h
    rw [← isDefault_iff] at h
    simp only [List.mem_cons, List.not_mem_nil, or_false] at ha
    subst ha
    exact absurd h (by decide +kernel)
  · exact ⟨0, fun _ => true, .nil, by simp⟩
  · intro n hn b hb
    have e : mActs ([] ++ [dCyrl]) =
      [.mk "action" [("disp", "invalid"), ("match", "Common-leading-combining-mark")] none []] := rfl
    rw [e] at hn
    simp only [List.mem_cons, List.not_mem_nil, or_false] at hn
    subst hn
    cases hb
    exact .inl (.inl ⟨_, rfl, hno⟩)

/-- Root zone LGRs end with three of the default actions: nothing is lost for labels without variants that are
invalid or activated. -/
example (env : FullEnv) (label : Seq) (ty : DispSet) (only : Bool) (h1 : some "invalid" ∉ ty) (h2 : some "activated" ∉ ty) :
    Closing env label ty only [{ disp := "blocked", anyVariant := ["blocked"] },
      { disp := "allocatable", anyVariant := ["allocatable"] }, { disp := "valid" }] := by
  refine ⟨5, fun a => decide (a.disp ≠ "invalid" ∧ a.disp ≠ "activated"), ?_, ?_⟩
  · have e : (C107.defaults.take 5).filter (fun a => decide (a.disp ≠ "invalid" ∧ a.disp ≠ "activated")) =
      [{ disp := "blocked", anyVariant := ["blocked"], comment := some "Default action for blocked" },
       { disp := "allocatable", anyVariant := ["allocatable"], comment := some "Default action for allocatable" },
       { disp := "valid", comment := some "Default catch-all" }] := by decide +kernel
    rw [e]
    have al : ∀ a b : Action, a.same b = true → Alike a b := fun a b h => same_iff.1 h
    exact .cons (al _ _ (by decide)) (.cons (al _ _ (by decide)) (.cons (al _ _ (by decide)) .nil))
  · intro a ha hk
    simp only [C107.defaults, List.take, List.mem_cons, List.not_mem_nil, or_false] at ha
    rcases ha with rfl | rfl | rfl | rfl | rfl
    · refine .inr ⟨⟨by simp, by simp⟩, fun h => ?_⟩
      obtain ⟨t, ht, hm⟩ := h.1 (by simp)
      simp at ht
      subst ht
      exact h1 hm
    · exact absurd hk (by decide)
    · exact absurd hk (by decide)
    · refine .inr ⟨⟨by simp, by simp⟩, fun h => ?_⟩
      obtain ⟨⟨t, ht⟩, hm⟩ := h.2.1 rfl (by simp)
      obtain ⟨s, hs, rfl⟩ := hm t ht
      simp at hs
      subst hs
      exact h2 ht
    · exact absurd hk (by decide)

def dAct : Doc :=
  { script := "Latn"
    es := [.mk "rule" [("name", "act")] none [.mk "start" [] none [], .mk "char" [("cp", "0300")] none []],
      .mk "action" [("disp", "invalid"), ("match", "act")] none []] }

/-- **C118** is violated when the name of the rule occurs elsewhere in the text of the action. -/
theorem replace_wrong : readsB dAct.es = true ∧
    ((mergeSection [part dAct]).actions.map Prod.snd).map String.ofList =
      ["<Latn-action disp=\"invalid\" match=\"Latn-act\"/>"] := by
  decide +kernel

def dCatch : Doc :=
  { script := "Latn"
    es := [.mk "rule" [("name", "mark")] none [.mk "start" [] none [], .mk "char" [("cp", "0300")] none []],
      .mk "action" [("disp", "valid")] none [],
      .mk "action" [("disp", "invalid"), ("match", "mark")] none []] }

/-- **C118** is violated when an LGR has a default action before other actions: it is left out of the merged LGR, and
other actions apply. -/
theorem default_dropped_wrong (env envM : FullEnv) (label : Seq) (h : envM.labelMatches "Latn-mark" label = .ok true) :
    ∃ A M, Parsed (dCatch.es.filter isAct) A ∧ Parsed (mActs [dCatch]) M ∧
      applyActions env A label [] false = .ok (some "valid", 0) ∧
      applyActions envM M label [] false = .ok (some "invalid", 0) := by
  refine ⟨[{ disp := "valid" }, { disp := "invalid", matchR := some "mark" }],
    [{ disp := "invalid", matchR := some "Latn-mark" }], .cons rfl (.cons rfl .nil), .cons rfl .nil, rfl, ?_⟩
  unfold applyActions effectiveActions
  rw [List.cons_append, applyLoop]
  have : Action.apply envM { disp := "invalid", matchR := some "Latn-mark" } label [] false = .ok (some "invalid") := by
    unfold Action.apply Action.ruleMatched
    simp only [h]
    rfl
  rw [this]
  rfl

end Lgr.Props.C118

import Verif.Props.MergeActions

/-!
# C117: the merged section, and what it means
-/

namespace Lgr.Props.C117
open Lgr Compare MergeSet RulesXml MergeXml C101 C102 C103 C42 C63

/-! ## The elements of the merged section -/

/-- An LGR of the set: its script, the elements of its section of rules, the new identifiers of its references, and
the rules asked for by the merging of the code points (script and name; `other` are the identifiers used then). -/
structure Doc where
  script : String
  es : List Node
  map : List (String × String) := []
  asked : List (String × String) := []
  other : String → List (String × String) := fun _ => []

/-- An action as the parser keeps it. -/
def actOf (n : Node) : Option (Action × Txt) :=
  match parseAction n with
  | .ok a => some (a, render n)
  | .error _ => none

def part (d : Doc) : Part :=
  { script := d.script
    classes := (d.es.filter isCls).map itemOf
    rules := (d.es.filter isRule).map itemOf
    actions := (d.es.filter isAct).filterMap actOf
    map := d.map
    asked := d.asked
    other := d.other }

def nameOf (e : Node) : String := (dget e.attrs "name").getD ""

def refsOf (map : List (String × String)) (e : Node) : List String := (itemOf e).refs.map (mapRef map)

/-- The rule as it is after the renaming. -/
def cand (script : String) (map : List (String × String)) (e : Node) : String × Node :=
  (ruleName script (nameOf e), mapNode (inRule script (nameOf e) (refsOf map e)) e)

/-- The rules of an LGR: the ones asked for, then all. -/
def cands (d : Doc) : List (String × Node) :=
  d.asked.flatMap (fun q => ((d.es.filter isRule).filter (fun e => decide (nameOf e = q.2))).map (cand q.1 (d.other q.1))) ++
    (d.es.filter isRule).map (cand d.script d.map)

/-- The first rule of each name. -/
def addNew (done : List (String × Node)) (c : String × Node) : List (String × Node) :=
  if c.1 ∈ done.map Prod.fst then done else done ++ [c]

def mRules (ds : List Doc) : List (String × Node) := (ds.flatMap cands).foldl addNew []

def mClasses (ds : List Doc) : List Node :=
  ds.flatMap (fun d => (d.es.filter isCls).map (fun e => mapNode (inClass d.script (refsOf d.map e)) e))

def actNode (d : Doc) (n : Node) : Option Node :=
  match parseAction n with
  | .ok a => if Review.hasAction defaultActions a then none
             else some (mapNode (inAct d.script (refsOf d.map n)) n)
  | .error _ => none

def mActs (ds : List Doc) : List Node := ds.flatMap (fun d => (d.es.filter isAct).filterMap (actNode d))

/-- The merged section. -/
def mNodes (ds : List Doc) : List Node := mClasses ds ++ (mRules ds).map Prod.snd ++ mActs ds

/-- The texts of the elements are not ambiguous. -/
structure Writable (d : Doc) : Prop where
  script : Clean d.script
  asked : ∀ q ∈ d.asked, Clean q.1 ∧ q.2 ≠ ""
  refs : ∀ e ∈ d.es, ∀ m, m = d.map ∨ (∃ q ∈ d.asked, m = d.other q.1) →
    Clean (" ".intercalate (refsOf m e)) ∧ Ends (" ".intercalate (refsOf m e))
  cls : ∀ e ∈ d.es, isCls e = true → Written e
  rule : ∀ e ∈ d.es, isRule e = true → Written e ∧ nameOf e ≠ ""
  act : ∀ e ∈ d.es, isAct e = true → ActWritten e

def drawn (p : String × Node) : String × Txt := (p.1, render p.2)

theorem drawn_names (l : List (String × Node)) : (l.map drawn).map Prod.fst = l.map Prod.fst := by
  rw [List.map_map]; rfl

theorem rules_text {script : String} {map : List (String × String)} {specific : Option String} (hs : Clean script) :
    ∀ (es : List Node), (∀ e ∈ es, Written e ∧ nameOf e ≠ "" ∧ Clean (" ".intercalate (refsOf map e)) ∧
      Ends (" ".intercalate (refsOf map e))) → (∀ s, specific = some s → s ≠ "") → ∀ done,
    mergeRulesX script map specific (es.map itemOf) (done.map drawn) =
      (((es.filter (fun e => decide (∀ s, specific = some s → nameOf e = s))).map (cand script map)).foldl addNew done).map
        drawn := by
  intro es
  induction es with
  | nil => intro _ _ done; rfl
  | cons e es ih =>
    intro h hsp done
    have ih' := ih (fun x hx => h x (List.mem_cons_of_mem _ hx)) hsp
    obtain ⟨h1, h2, h3, h4⟩ := h e List.mem_cons_self
    unfold mergeRulesX at ih' ⊢
    rw [List.map_cons, List.foldl_cons]
    by_cases hm : ∀ s, specific = some s → nameOf e = s
    · rw [List.filter_cons_of_pos (by simpa using hm), List.map_cons, List.foldl_cons, ← ih']
      congr 1
      have hc : (truthy specific && decide (specific ≠ some (itemOf e).name)) = false := by
        cases specific with
        | none => rfl
        | some s => rw [show (itemOf e).name = s from hm s rfl]; simp
      unfold mergeRuleStep addNew
      have ht := (rule_text (name := nameOf e) (refs := refsOf map e) hs h2 h3 h4 h1)
      have e1 : (renameRule (itemOf e).name (itemOf e).xml script).1 = (cand script map e).1 := ht.1
      have e2 : subRefs ((itemOf e).refs.map (mapRef map)) (renameRule (itemOf e).name (itemOf e).xml script).2 =
        render (cand script map e).2 := ht.2
      rw [hc, if_neg (by simp)]
      dsimp only
      rw [e1, e2, drawn_names]
      split
      · rfl
      · rw [List.map_append]; rfl
    · rw [List.filter_cons_of_neg (by simpa using hm), ← ih']
      congr 1
      have hc : (truthy specific && decide (specific ≠ some (itemOf e).name)) = true := by
        cases specific with
        | none => exact absurd (by intro s hs; cases hs) hm
        | some s =>
          have h0 := hsp s rfl
          have hne : ¬ nameOf e = s := fun e' => hm (by intro s' hs'; cases hs'; exact e')
          have : (itemOf e).name ≠ s := hne
          simp [truthy, h0, this.symm]
      unfold mergeRuleStep
      rw [if_pos (by simpa using hc)]

theorem asked_text {d : Doc} (h : Writable d) : ∀ (qs : List (String × String)), (∀ q ∈ qs, q ∈ d.asked) → ∀ done,
    qs.foldl (fun done q => mergeRulesX q.1 (d.other q.1) (some q.2) ((d.es.filter isRule).map itemOf) done)
      (done.map drawn) =
    ((qs.flatMap (fun q => ((d.es.filter isRule).filter (fun e => decide (nameOf e = q.2))).map
      (cand q.1 (d.other q.1)))).foldl addNew done).map drawn := by
  intro qs
  induction qs with
  | nil => intro _ done; rfl
  | cons q qs ih =>
    intro hq done
    have hq0 := hq q List.mem_cons_self
    rw [List.foldl_cons, List.flatMap_cons, List.foldl_append, rules_text (h.asked q hq0).1]
    · rw [ih (fun x hx => hq x (List.mem_cons_of_mem _ hx))]
      congr 2
      congr 2
      refine List.filter_congr (fun e he => ?_)
      simp
    · intro e he
      rw [List.mem_filter] at he
      exact ⟨(h.rule e he.1 he.2).1, (h.rule e he.1 he.2).2, h.refs e he.1 _ (.inr ⟨q, hq0, rfl⟩)⟩
    · intro s e
      cases e
      exact (h.asked q hq0).2

theorem classes_text {d : Doc} (h : Writable d) :
    (mergeClasses d.script d.map ((d.es.filter isCls).map itemOf)).map Prod.snd =
      ((d.es.filter isCls).map (fun e => mapNode (inClass d.script (refsOf d.map e)) e)).map render := by
  unfold mergeClasses
  rw [List.map_map, List.map_map, List.map_map]
  refine List.map_congr_left (fun e he => ?_)
  rw [List.mem_filter] at he
  obtain ⟨h1, h2⟩ := h.refs e he.1 _ (.inl rfl)
  exact (class_text (name := nameOf e) (refs := refsOf d.map e) h.script h1 h2 (h.cls e he.1 he.2)).2

theorem act_refs {n : Node} {a : Action} (hn : isAct n = true) (hp : parseAction n = .ok a)
    (map : List (String × String)) : a.refs.map (mapRef map) = refsOf map n := by
  simp only [isAct, decide_eq_true_eq] at hn
  unfold refsOf itemOf
  rw [(parse_action_inv hp).2.2.1, hn, if_neg (by decide)]

theorem actions_text {d : Doc} (h : Writable d) :
    (mergeActions d.script d.map ((d.es.filter isAct).filterMap actOf)).map Prod.snd =
      ((d.es.filter isAct).filterMap (actNode d)).map render := by
  have : ∀ l : List Node, (∀ e ∈ l, e ∈ d.es ∧ isAct e = true) →
      (mergeActions d.script d.map (l.filterMap actOf)).map Prod.snd = (l.filterMap (actNode d)).map render := by
    intro l
    induction l with
    | nil => intro _; rfl
    | cons e l ih =>
      intro hl
      have ih' := ih (fun x hx => hl x (List.mem_cons_of_mem _ hx))
      obtain ⟨he, ha⟩ := hl e List.mem_cons_self
      cases hp : parseAction e with
      | error _ =>
        rw [List.filterMap_cons_none (by simp [actOf, hp]), List.filterMap_cons_none (by simp [actNode, hp])]
        exact ih'
      | ok a =>
        rw [List.filterMap_cons_some (show actOf e = some (a, render e) by simp only [actOf, hp]), mergeActions]
        by_cases hd : Review.hasAction defaultActions a
        · rw [if_pos hd, List.filterMap_cons_none (by simp [actNode, hp, hd])]
          exact ih'
        · rw [if_neg hd, List.filterMap_cons_some (show actNode d e = some (mapNode (inAct d.script (refsOf d.map e)) e) by
              simp only [actNode, hp]; rw [if_neg hd]), List.map_cons,
            List.map_cons, ih']
          obtain ⟨h1, h2⟩ := h.refs e he _ (.inl rfl)
          dsimp only
          rw [act_refs ha hp, act_text h.script h1 h2 (h.act e he ha) hp]
  exact this _ (fun e he => List.mem_filter.1 he)

/-- The text of the merged section is that of the merged elements. -/
theorem section_text {ds : List Doc} (h : ∀ d ∈ ds, Writable d) :
    (mergeSection (ds.map part)).texts = (mNodes ds).map render ∧
    (mergeSection (ds.map part)).rules.map Prod.fst = (mRules ds).map Prod.fst := by
  have main : ∀ ds, (∀ d ∈ ds, Writable d) → ∀ (s : Section) cs rs as, s.classes.map Prod.snd = cs.map render →
      s.rules = rs.map drawn → s.actions.map Prod.snd = as.map render →
      let r := (ds.map part).foldl mergePart s
      r.classes.map Prod.snd = (cs ++ mClasses ds).map render ∧
      r.rules = ((ds.flatMap cands).foldl addNew rs).map drawn ∧
      r.actions.map Prod.snd = (as ++ mActs ds).map render := by
    intro ds
    induction ds with
    | nil =>
      intro _ s cs rs as h1 h2 h3
      simpa [mClasses, mActs] using ⟨h1, h2, h3⟩
    | cons d ds ih =>
      intro h s cs rs as h1 h2 h3
      have hd := h d List.mem_cons_self
      dsimp only
      rw [List.map_cons, List.foldl_cons]
      have := ih (fun x hx => h x (List.mem_cons_of_mem _ hx)) (mergePart s (part d))
        (cs ++ (d.es.filter isCls).map (fun e => mapNode (inClass d.script (refsOf d.map e)) e))
        ((cands d).foldl addNew rs) (as ++ (d.es.filter isAct).filterMap (actNode d)) ?_ ?_ ?_
      · rw [List.flatMap_cons, List.foldl_append]
        unfold mClasses mActs at this ⊢
        rw [List.flatMap_cons, List.flatMap_cons, ← List.append_assoc, ← List.append_assoc]
        exact this
      · simp only [mergePart]
        rw [List.map_append, List.map_append, h1]
        congr 1
        exact classes_text hd
      · simp only [mergePart, askedRules]
        rw [h2]
        have e1 := asked_text hd d.asked (fun _ hq => hq) rs
        have e2 := rules_text (specific := none) hd.script (d.es.filter isRule) (map := d.map) (fun e he => by
          rw [List.mem_filter] at he
          exact ⟨(hd.rule e he.1 he.2).1, (hd.rule e he.1 he.2).2, hd.refs e he.1 _ (.inl rfl)⟩)
          (by intro s hs; cases hs)
        rw [show (part d).asked = d.asked from rfl, show (part d).other = d.other from rfl,
          show (part d).rules = (d.es.filter isRule).map itemOf from rfl, e1,
          show (part d).script = d.script from rfl, show (part d).map = d.map from rfl, e2]
        unfold cands
        rw [List.foldl_append]
        congr 3
        simp
      · simp only [mergePart]
        rw [List.map_append, List.map_append, h3]
        congr 1
        exact actions_text hd
  obtain ⟨h1, h2, h3⟩ := main ds h {} [] [] [] rfl rfl rfl
  unfold mergeSection
  refine ⟨?_, ?_⟩
  · unfold Section.texts mNodes mRules
    rw [List.map_append, List.map_append, h1, h3, h2, List.map_map, List.map_map]
    rfl
  · rw [h2, drawn_names]; rfl

/-! ## The rules of the merged section -/

theorem addNew_mem {cs : List (String × Node)} {c : String × Node} : ∀ done, c ∈ cs.foldl addNew done → c ∈ done ∨ c ∈ cs := by
  induction cs with
  | nil => exact fun _ h => .inl h
  | cons a cs ih =>
    intro done h
    rcases ih _ h with h | h
    · unfold addNew at h
      split at h
      · exact .inl h
      · rcases List.mem_append.1 h with h | h
        · exact .inl h
        · exact .inr (by simp at h; simp [h])
    · exact .inr (List.mem_cons_of_mem _ h)

theorem addNew_keeps {cs : List (String × Node)} {n : String} : ∀ done,
    n ∈ done.map Prod.fst → n ∈ (cs.foldl addNew done).map Prod.fst := by
  induction cs with
  | nil => exact fun _ h => h
  | cons a cs ih =>
    intro done h
    refine ih _ ?_
    unfold addNew
    split
    · exact h
    · rw [List.map_append, List.mem_append]; exact .inl h

theorem addNew_has {cs : List (String × Node)} {c : String × Node} (hc : c ∈ cs) : ∀ done,
    c.1 ∈ (cs.foldl addNew done).map Prod.fst := by
  induction cs with
  | nil => cases hc
  | cons a cs ih =>
    intro done
    rcases List.mem_cons.1 hc with rfl | hc
    · rw [List.foldl_cons]
      refine addNew_keeps (addNew done c) ?_
      unfold addNew
      split
      · assumption
      · simp
    · exact ih hc _

/-- The scripts under which a rule is merged. -/
def Under (d : Doc) (e : Node) (s : String) : Prop := s = d.script ∨ (s, nameOf e) ∈ d.asked

theorem cands_iff {d : Doc} {c : String × Node} : c ∈ cands d ↔
    ∃ e ∈ d.es, isRule e = true ∧ ((c = cand d.script d.map e) ∨ ∃ s, (s, nameOf e) ∈ d.asked ∧ c = cand s (d.other s) e) := by
  unfold cands
  simp only [List.mem_append, List.mem_flatMap, List.mem_map, List.mem_filter, decide_eq_true_eq]
  constructor
  · rintro (⟨q, hq, e, ⟨⟨h1, h2⟩, h3⟩, rfl⟩ | ⟨e, ⟨h1, h2⟩, rfl⟩)
    · exact ⟨e, h1, h2, .inr ⟨q.1, h3 ▸ hq, rfl⟩⟩
    · exact ⟨e, h1, h2, .inl rfl⟩
  · rintro ⟨e, h1, h2, rfl | ⟨s, h3, rfl⟩⟩
    · exact .inr ⟨e, ⟨h1, h2⟩, rfl⟩
    · exact .inl ⟨(s, nameOf e), h3, e, ⟨⟨h1, h2⟩, rfl⟩, rfl⟩

/-- Where a rule of the merged section comes from. -/
theorem mRules_from {ds : List Doc} {c : String × Node} (h : c ∈ mRules ds) :
    ∃ d ∈ ds, ∃ e ∈ d.es, isRule e = true ∧ ∃ s refs, Under d e s ∧ c.1 = ruleName s (nameOf e) ∧
      c.2 = mapNode (inRule s (nameOf e) refs) e := by
  rcases addNew_mem _ h with h | h
  · cases h
  rw [List.mem_flatMap] at h
  obtain ⟨d, hd, h⟩ := h
  obtain ⟨e, h1, h2, rfl | ⟨s, h3, rfl⟩⟩ := cands_iff.1 h
  · exact ⟨d, hd, e, h1, h2, _, _, .inl rfl, rfl, rfl⟩
  · exact ⟨d, hd, e, h1, h2, _, _, .inr h3, rfl, rfl⟩

theorem mRules_has {ds : List Doc} {d : Doc} (hd : d ∈ ds) {e : Node} (he : e ∈ d.es) (hr : isRule e = true) :
    ∃ c ∈ mRules ds, c.1 = ruleName d.script (nameOf e) := by
  have : cand d.script d.map e ∈ ds.flatMap cands := by
    rw [List.mem_flatMap]
    exact ⟨d, hd, cands_iff.2 ⟨e, he, hr, .inl rfl⟩⟩
  have := addNew_has this []
  rw [List.mem_map] at this
  obtain ⟨c, h1, h2⟩ := this
  exact ⟨c, h1, h2⟩

theorem mNodes_rule {ds : List Doc} {n : Node} (hr : isRule n = true) : n ∈ mNodes ds ↔ n ∈ (mRules ds).map Prod.snd := by
  unfold mNodes
  simp only [List.mem_append]
  constructor
  · rintro ((h | h) | h)
    · simp only [mClasses, List.mem_flatMap, List.mem_map, List.mem_filter] at h
      obtain ⟨d, -, e, ⟨-, h2⟩, rfl⟩ := h
      rw [map_isRule (inClass_keeps _ _)] at hr
      rw [not_cls_of_rule hr] at h2
      cases h2
    · exact h
    · simp only [mActs, List.mem_flatMap, List.mem_filterMap, List.mem_filter] at h
      obtain ⟨d, -, e, ⟨-, h2⟩, h3⟩ := h
      unfold actNode at h3
      have : n.tag = e.tag := by
        split at h3
        · split at h3
          · cases h3
          · cases h3
            cases e; rfl
        · cases h3
      simp only [isRule, isAct, decide_eq_true_eq] at hr h2
      rw [hr, h2] at this
      exact absurd this (by decide)
  · exact fun h => .inl (.inr h)

end Lgr.Props.C117

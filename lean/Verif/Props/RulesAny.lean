import Verif.Props.RulesXml

/-!
# C140: the elements of a rules section, read in any order
-/

namespace Lgr.Props.C140
open Lgr Xml RulesXml C101

/-! ## Whether an element is read does not depend on those before it -/

/-- Nothing, something or an exception. -/
def outcome {α : Type} (f : α → Bool) : Except Err α → Except Err Bool
  | .error e => .error e
  | .ok a => .ok (f a)

mutual
theorem helper_any : ∀ (n : Node) (s t : RState),
    outcome Option.isSome (parseHelper s n).2 = outcome Option.isSome (parseHelper t n).2
  | .mk tag attrs text children, s, t => by
    have lists : ∀ (cl : Bool) (s t : RState) (F G : List Matcher → Matcher),
        outcome Option.isSome ((match parseHelpers cl s children with
            | (s, .error e) => (s, .error e)
            | (s, .ok ms) => (s, .ok (some (F ms)))) : RState × Except Err (Option Matcher)).2 =
        outcome Option.isSome ((match parseHelpers cl t children with
            | (s, .error e) => (s, .error e)
            | (s, .ok ms) => (s, .ok (some (G ms)))) : RState × Except Err (Option Matcher)).2 := by
      intro cl s t F G
      have h := helpers_any children cl s t
      rcases h1 : parseHelpers cl s children with ⟨s1, o1⟩
      rcases h2 : parseHelpers cl t children with ⟨s2, o2⟩
      rw [h1, h2] at h
      cases o1 <;> cases o2 <;> simp_all [outcome]
    rw [parseHelper, parseHelper]
    cases hc : parseCount (dget attrs "count") with
    | error e => rfl
    | ok count =>
      dsimp only
      by_cases h1 : tag = "anchor"
      · rw [if_pos h1, if_pos h1]
      rw [if_neg h1, if_neg h1]
      by_cases h2 : tag = "any"
      · rw [if_pos h2, if_pos h2]
      rw [if_neg h2, if_neg h2]
      by_cases h3 : tag = "char"
      · rw [if_pos h3, if_pos h3]
        cases getCp attrs <;> rfl
      rw [if_neg h3, if_neg h3]
      by_cases h4 : tag = "choice"
      · rw [if_pos h4, if_pos h4]; exact lists false s t _ _
      rw [if_neg h4, if_neg h4]
      by_cases h5 : tag = "end"
      · rw [if_pos h5, if_pos h5]
      rw [if_neg h5, if_neg h5]
      by_cases h6 : tag = "look-ahead"
      · rw [if_pos h6, if_pos h6]; exact lists false s t _ _
      rw [if_neg h6, if_neg h6]
      by_cases h7 : tag = "look-behind"
      · rw [if_pos h7, if_pos h7]; exact lists false s t _ _
      rw [if_neg h7, if_neg h7]
      by_cases h8 : tag = "start"
      · rw [if_pos h8, if_pos h8]
      rw [if_neg h8, if_neg h8]
      by_cases h9 : tag = "rule"
      · rw [if_pos h9, if_pos h9]
        split
        · rfl
        · exact lists _ _ _ _ _
      rw [if_neg h9, if_neg h9]
      by_cases h10 : tag = "class" ∨ (combOf tag).isSome
      · rw [if_pos h10, if_pos h10]
        cases parseClass (.mk tag attrs text children) <;> rfl
      · rw [if_neg h10, if_neg h10]
theorem helpers_any : ∀ (ns : List Node) (cl : Bool) (s t : RState),
    outcome (fun _ => true) (parseHelpers cl s ns).2 = outcome (fun _ => true) (parseHelpers cl t ns).2
  | [], cl, s, t => rfl
  | n :: ns, cl, s, t => by
    have h := helper_any n s t
    rw [parseHelpers, parseHelpers]
    rcases h1 : parseHelper s n with ⟨s1, o1⟩
    rcases h2 : parseHelper t n with ⟨t1, o2⟩
    rw [h1, h2] at h
    have h' := helpers_any ns cl s1 t1
    rcases h3 : parseHelpers cl s1 ns with ⟨s2, o3⟩
    rcases h4 : parseHelpers cl t1 ns with ⟨t2, o4⟩
    rw [h3, h4] at h'
    rcases o1 with e1 | (_ | m1) <;> rcases o2 with e2 | (_ | m2) <;> cases o3 <;> cases o4 <;> cases cl <;>
      simp_all [outcome]
end

theorem rule_any (n : Node) (s t : RState) :
    outcome (fun _ => true) (parseRuleElem s n).2 = outcome (fun _ => true) (parseRuleElem t n).2 := by
  unfold parseRuleElem
  split
  · rfl
  · have h := helpers_any n.children (dget n.attrs "by-ref").isSome { s with nextId := s.nextId + 1 }
      { t with nextId := t.nextId + 1 }
    rcases h1 : parseHelpers (dget n.attrs "by-ref").isSome { s with nextId := s.nextId + 1 } n.children with ⟨s1, o1⟩
    rcases h2 : parseHelpers (dget n.attrs "by-ref").isSome { t with nextId := t.nextId + 1 } n.children with ⟨s2, o2⟩
    rw [h1, h2] at h
    cases o1 <;> cases o2 <;> simp_all [outcome]

/-! ## Sections -/

/-- An element which the parser reads, taken alone. -/
structure Legible (n : Node) : Prop where
  cls : isCls n = true → ∃ k, parseClass n = .ok k
  rule : isRule n = true → ∃ s t m, parseRuleElem s n = (t, .ok m)
  act : isAct n = true → ∃ a, parseAction n = .ok a

variable {P : Parser}

/-- One element, read with `force` and without Unicode database. -/
theorem item_any (hf : P.force = true) (hu : P.udb = false) {n : Node} (h : Legible n) (s : Rules × RState) :
    ∃ s', parseItem P s n = (s', .ok ()) := by
  cases hc : isCls n with
  | true =>
    obtain ⟨k, hk⟩ := h.cls hc
    exact ⟨({ s.1 with rs := { s.1.rs with lk := { s.1.rs.lk with classes := put s.1.rs.lk.classes k } },
                       clsNames := s.1.clsNames ++ [RuleState.clsName k], clsXml := s.1.clsXml ++ [n] }, s.2),
      (item_cls hc).2 ⟨k, hk, .inr hf, rfl, rfl, rfl, rfl⟩⟩
  | false =>
    cases hr : isRule n with
    | true =>
      obtain ⟨s0, t0, m0, h0⟩ := h.rule hr
      have ha := rule_any n s0 s.2
      rw [h0] at ha
      rcases h1 : parseRuleElem s.2 n with ⟨t1, o1⟩
      rw [h1] at ha
      cases o1 with
      | error e => simp [outcome] at ha
      | ok m =>
        let lk : Lookups := { s.1.rs.lk with rules := putRule s.1.rs.lk.rules (dget n.attrs "name") m }
        exact ⟨({ s.1 with rs := { s.1.rs with lk := lk }, ruleNames := s.1.ruleNames ++ [dget n.attrs "name"],
                           rulesXml := s.1.rulesXml ++ [n] }, t1),
          (item_rule hr).2 ⟨m, s.1.rs.cache, h1, by rw [hu]; simp, .inr hf, rfl, rfl, rfl⟩⟩
    | false =>
      cases ha : isAct n with
      | true =>
        obtain ⟨a, h1⟩ := h.act ha
        exact ⟨({ s.1 with actions := s.1.actions ++ [a], actionsXml := s.1.actionsXml ++ [n] }, s.2),
          (item_act ha).2 ⟨a, h1, rfl, rfl, rfl, rfl⟩⟩
      | false => exact ⟨_, item_other hc hr ha⟩

theorem legible_of {s s' : Rules × RState} {n : Node} (h : parseItem P s n = (s', .ok ())) : Legible n := by
  refine ⟨fun hc => ?_, fun hr => ?_, fun ha => ?_⟩
  · obtain ⟨k, hk, -⟩ := (item_cls hc).1 h
    exact ⟨k, hk⟩
  · obtain ⟨m, κ, hm, -⟩ := (item_rule hr).1 h
    exact ⟨_, _, m, hm⟩
  · obtain ⟨a, h1, -⟩ := (item_act ha).1 h
    exact ⟨a, h1⟩

theorem legible_run : ∀ (ns : List Node) {s s' : Rules × RState}, parseRules P s ns = (s', .ok ()) →
    ∀ n ∈ ns, Legible n
  | [], _, _, _ => by simp
  | n :: ns, s, s', h => by
    obtain ⟨s1, h1, h2⟩ := forEach_cons.1 h
    intro k hk
    rcases List.mem_cons.1 hk with rfl | hk
    · exact legible_of h1
    · exact legible_run ns h2 k hk

/-- With `force` and without Unicode database a section is read iff each of its elements is: their order and what else
is there do not matter. -/
theorem run_any (hf : P.force = true) (hu : P.udb = false) : ∀ (ns : List Node), (∀ n ∈ ns, Legible n) →
    ∀ s, ∃ s', parseRules P s ns = (s', .ok ())
  | [], _, s => ⟨s, rfl⟩
  | n :: ns, h, s => by
    obtain ⟨s1, h1⟩ := item_any hf hu (h n (by simp)) s
    obtain ⟨s2, h2⟩ := run_any hf hu ns (fun k hk => h k (List.mem_cons_of_mem _ hk)) s1
    exact ⟨s2, forEach_cons.2 ⟨s1, h1, h2⟩⟩

/-! ## What is known after a section -/

/-- The names of rules and classes and the actions after a section. -/
theorem names_run : ∀ (ns : List Node) {s s' : Rules × RState}, parseRules P s ns = (s', .ok ()) →
    s'.1.ruleNames = s.1.ruleNames ++ (ns.filter isRule).map (fun n => dget n.attrs "name") ∧
    s'.1.clsNames = s.1.clsNames ++ (ns.filter isCls).map (fun n => dget n.attrs "name") ∧
    ∃ as, s'.1.actions = s.1.actions ++ as ∧ List.Forall₂ (fun n a => parseAction n = .ok a) (ns.filter isAct) as
  | [], s, s', h => by
    obtain rfl : s = s' := congrArg Prod.fst h
    exact ⟨by simp, by simp, [], by simp, .nil⟩
  | n :: ns, s, s', h => by
    obtain ⟨s1, h1, h2⟩ := forEach_cons.1 h
    obtain ⟨i1, i2, as, i3, i4⟩ := names_run ns h2
    cases hc : isCls n with
    | true =>
      obtain ⟨k, hk, -, e1, e2, e3, -⟩ := (item_cls hc).1 h1
      have hr : isRule n = false := by
        cases hr : isRule n with
        | false => rfl
        | true => rw [not_cls_of_rule hr] at hc; cases hc
      have ha : isAct n = false := by
        cases ha : isAct n with
        | false => rfl
        | true => rw [not_cls_of_act ha] at hc; cases hc
      simp only [cpart, rpart, apart, Prod.mk.injEq] at e1 e2 e3
      rw [parseClass_name hk] at e1
      simp only [List.filter_cons, hc, hr, ha, if_true, Bool.false_eq_true, if_false, List.map_cons]
      exact ⟨by rw [i1, e2.2.2.1], by rw [i2, e1.2.1, List.append_assoc, List.singleton_append], as, by rw [i3, e3.1], i4⟩
    | false =>
      cases hr : isRule n with
      | true =>
        obtain ⟨m, κ, -, -, -, e1, e2, e3⟩ := (item_rule hr).1 h1
        have ha : isAct n = false := by
          cases ha : isAct n with
          | false => rfl
          | true => rw [not_rule_of_act ha] at hr; cases hr
        simp only [cpart, rpart, apart, Prod.mk.injEq] at e1 e2 e3
        simp only [List.filter_cons, hc, hr, ha, if_true, Bool.false_eq_true, if_false, List.map_cons]
        exact ⟨by rw [i1, e2.2.2.1, List.append_assoc, List.singleton_append], by rw [i2, e1.2.1], as,
          by rw [i3, e3.1], i4⟩
      | false =>
        cases ha : isAct n with
        | true =>
          obtain ⟨a, h3, e1, e2, e3, -⟩ := (item_act ha).1 h1
          simp only [cpart, rpart, apart, Prod.mk.injEq] at e1 e2 e3
          simp only [List.filter_cons, hc, hr, ha, if_true, Bool.false_eq_true, if_false]
          exact ⟨by rw [i1, e2.2.2.1], by rw [i2, e1.2.1], a :: as,
            by rw [i3, e3.1, List.append_assoc, List.singleton_append], .cons h3 i4⟩
        | false =>
          rw [item_other hc hr ha] at h1
          obtain rfl := congrArg Prod.fst h1
          simp only [List.filter_cons, hc, hr, ha, Bool.false_eq_true, if_false]
          exact ⟨i1, i2, as, i3, i4⟩

end Lgr.Props.C140

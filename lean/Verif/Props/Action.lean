import Verif.Action
import Verif.Props.Eligibility

/-!
# C20, C21: actions
-/

namespace Lgr.Props

/-- The rule condition of an action, RFC 7940 section 8.3 step 2, first two bullets. `match` hides
`not-match`; an action with both cannot be constructed (`constructor_excludes_both`). -/
def RuleCond (env : FullEnv) (a : Action) (label : Seq) : Prop :=
  (∀ m, a.matchR = some m → env.labelMatches m label = .ok true) ∧
  (a.matchR = none → ∀ m, a.notMatchR = some m → env.labelMatches m label = .ok false)

/-- The rule condition is evaluated and does not hold. -/
def RuleCondFails (env : FullEnv) (a : Action) (label : Seq) : Prop :=
  (∃ m, a.matchR = some m ∧ env.labelMatches m label = .ok false) ∨
  (a.matchR = none ∧ ∃ m, a.notMatchR = some m ∧ env.labelMatches m label = .ok true)

/-- The variant condition of an action: third to fifth bullets. The first attribute present among
`any-variant`, `all-variants`, `only-variants` counts. -/
def VariantCond (a : Action) (d : DispSet) (only : Bool) : Prop :=
  (a.anyVariant ≠ [] → ∃ t ∈ a.anyVariant, some t ∈ d) ∧
  (a.anyVariant = [] → a.allVariants ≠ [] →
    (∃ t, t ∈ d) ∧ ∀ t ∈ d, ∃ s ∈ a.allVariants, t = some s) ∧
  (a.anyVariant = [] → a.allVariants = [] → a.onlyVariants ≠ [] →
    only = true ∧ (∃ t, t ∈ d) ∧ ∀ t ∈ d, ∃ s ∈ a.onlyVariants, t = some s)

/-- The conditions of an action are met. -/
def Triggered (env : FullEnv) (a : Action) (label : Seq) (d : DispSet) (only : Bool) : Prop :=
  RuleCond env a label ∧ VariantCond a d only

/-- The conditions of an action are evaluated without error and not met. -/
def NotTriggered (env : FullEnv) (a : Action) (label : Seq) (d : DispSet) (only : Bool) : Prop :=
  RuleCondFails env a label ∨ (RuleCond env a label ∧ ¬ VariantCond a d only)

theorem ruleMatched_true {env : FullEnv} {a : Action} {label : Seq} :
    a.ruleMatched env label = .ok true ↔ RuleCond env a label := by
  unfold Action.ruleMatched RuleCond
  cases hm : a.matchR with
  | some m => simp
  | none =>
    cases hn : a.notMatchR with
    | none => simp
    | some n =>
      cases hr : env.labelMatches n label with
      | error e => simp [hr]
      | ok b => cases b <;> simp [hr]

theorem ruleMatched_false {env : FullEnv} {a : Action} {label : Seq} :
    a.ruleMatched env label = .ok false ↔ RuleCondFails env a label := by
  unfold Action.ruleMatched RuleCondFails
  cases hm : a.matchR with
  | some m => simp
  | none =>
    cases hn : a.notMatchR with
    | none => simp
    | some n =>
      cases hr : env.labelMatches n label with
      | error e => simp [hr]
      | ok b => cases b <;> simp [hr]

theorem variantMatched_iff {a : Action} {d : DispSet} {only : Bool} :
    a.variantMatched d only = true ↔ VariantCond a d only := by
  unfold Action.variantMatched VariantCond
  have hne : d ≠ [] ↔ ∃ t, t ∈ d := by cases d <;> simp
  by_cases h1 : a.anyVariant = []
  · by_cases h2 : a.allVariants = []
    · by_cases h3 : a.onlyVariants = []
      · simp [h1, h2, h3]
      · simp only [h1, h2, h3, ne_eq, not_true, if_false, not_false_eq_true, if_true,
          Bool.and_eq_true, decide_eq_true_eq, List.all_eq_true, List.mem_map]
        simp [← hne, eq_comm]
    · simp only [h1, h2, ne_eq, not_true, if_false, not_false_eq_true, if_true,
          Bool.and_eq_true, decide_eq_true_eq, List.all_eq_true, List.mem_map]
      simp [← hne, eq_comm]
  · simp [h1]

theorem apply_some {env : FullEnv} {a : Action} {label : Seq} {d : DispSet} {only : Bool} {s : String} :
    a.apply env label d only = .ok (some s) ↔ s = a.disp ∧ Triggered env a label d only := by
  unfold Action.apply Triggered
  rw [← ruleMatched_true, ← variantMatched_iff]
  cases hr : a.ruleMatched env label with
  | error e => simp
  | ok b => cases b <;> cases hv : a.variantMatched d only <;> simp [eq_comm]

theorem apply_none {env : FullEnv} {a : Action} {label : Seq} {d : DispSet} {only : Bool} :
    a.apply env label d only = .ok none ↔ NotTriggered env a label d only := by
  unfold Action.apply NotTriggered
  rw [← ruleMatched_true, ← ruleMatched_false, ← variantMatched_iff]
  cases hr : a.ruleMatched env label with
  | error e => simp
  | ok b => cases b <;> cases hv : a.variantMatched d only <;> simp

theorem applyLoop_some {env : FullEnv} {label : Seq} {d : DispSet} {only : Bool} {s : String} {j : Int} :
    ∀ (as : List Action) (idx : Nat), applyLoop env label d only idx as = .ok (some s, j) ↔
      ∃ pre a post, as = pre ++ a :: post ∧ j = ((idx + pre.length : Nat) : Int) ∧ s = a.disp ∧
        Triggered env a label d only ∧ ∀ b ∈ pre, NotTriggered env b label d only
  | [], idx => by simp [applyLoop]
  | a :: as, idx => by
    have ih := applyLoop_some (s := s) (j := j) as (idx + 1) (env := env) (label := label) (d := d) (only := only)
    unfold applyLoop
    cases ha : a.apply env label d only with
    | error e =>
      simp only [reduceCtorEq, false_iff]
      rintro ⟨pre, b, post, hs, _, _, ht, hn⟩
      cases pre with
      | nil => simp at hs; obtain ⟨rfl, _⟩ := hs; rw [apply_some.2 ⟨rfl, ht⟩] at ha; cases ha
      | cons c pre =>
        simp at hs; obtain ⟨rfl, _⟩ := hs
        rw [apply_none.2 (hn _ List.mem_cons_self)] at ha; cases ha
    | ok o =>
      cases o with
      | some s' =>
        obtain ⟨rfl, ht⟩ := apply_some.1 ha
        simp only [Except.ok.injEq, Prod.mk.injEq, Option.some.injEq]
        constructor
        · rintro ⟨rfl, rfl⟩
          exact ⟨[], a, as, rfl, by simp, rfl, ht, by simp⟩
        · rintro ⟨pre, b, post, hs, hj, hd, ht', hn⟩
          cases pre with
          | nil => simp at hs; obtain ⟨rfl, _⟩ := hs; exact ⟨hd.symm, by simpa using hj.symm⟩
          | cons c pre =>
            simp at hs; obtain ⟨rfl, _⟩ := hs
            rw [apply_none.2 (hn _ List.mem_cons_self)] at ha; cases ha
      | none =>
        have hnt := apply_none.1 ha
        simp only [ih]
        constructor
        · rintro ⟨pre, b, post, rfl, rfl, rfl, ht, hn⟩
          refine ⟨a :: pre, b, post, rfl, by simp; omega, rfl, ht, ?_⟩
          intro c hc
          rcases List.mem_cons.1 hc with rfl | hc
          · exact hnt
          · exact hn c hc
        · rintro ⟨pre, b, post, hs, hj, hd, ht, hn⟩
          cases pre with
          | nil =>
            simp at hs; obtain ⟨rfl, _⟩ := hs
            rw [apply_some.2 ⟨rfl, ht⟩] at ha; cases ha
          | cons c pre =>
            simp at hs; obtain ⟨rfl, rfl⟩ := hs
            exact ⟨pre, b, post, rfl, by rw [hj]; simp; omega, hd, ht,
              fun x hx => hn x (List.mem_cons_of_mem _ hx)⟩

theorem applyLoop_defined {env : FullEnv} {label : Seq} {d : DispSet} {only : Bool} :
    ∀ (as : List Action) (idx : Nat), (∀ a ∈ as, ∃ b, a.ruleMatched env label = .ok b) →
      (∃ a ∈ as, Triggered env a label d only) →
      ∃ s j, applyLoop env label d only idx as = .ok (some s, j)
  | [], _, _, h => by simp at h
  | a :: as, idx, hdef, hex => by
    obtain ⟨b, hb⟩ := hdef a List.mem_cons_self
    unfold applyLoop
    cases ha : a.apply env label d only with
    | error e => simp [Action.apply, hb] at ha
    | ok o =>
      cases o with
      | some s => exact ⟨_, _, rfl⟩
      | none =>
        obtain ⟨c, hc, ht⟩ := hex
        rcases List.mem_cons.1 hc with rfl | hc
        · rw [apply_some.2 ⟨rfl, ht⟩] at ha; cases ha
        · exact applyLoop_defined as (idx + 1) (fun a ha => hdef a (List.mem_cons_of_mem _ ha)) ⟨c, hc, ht⟩

theorem default_rule (env : FullEnv) (label : Seq) :
    ∀ a ∈ defaultActions, a.ruleMatched env label = .ok true := by
  intro a ha
  simp [defaultActions] at ha
  rcases ha with rfl | rfl | rfl | rfl | rfl <;> rfl

theorem catchAll_triggered (env : FullEnv) (label : Seq) (d : DispSet) (only : Bool) :
    ∃ a ∈ defaultActions, Triggered env a label d only :=
  ⟨{ disp := "valid", comment := some "Default catch-all" }, by simp [defaultActions],
    ⟨by simp [RuleCond], by simp [VariantCond]⟩⟩

end Lgr.Props

namespace Lgr.Props.C20

/-- No rule used by an action of the list raises on this label. -/
def ActionRulesDefined (env : FullEnv) (actions : List Action) (label : Seq) : Prop :=
  ∀ a ∈ actions, ∀ m, a.matchR = some m ∨ a.notMatchR = some m → ∃ b, env.labelMatches m label = .ok b

/-- The disposition and index returned are those of the first action, in document order followed by
the default actions, whose conditions are met; all earlier ones are not met. -/
theorem first_triggered (env : FullEnv) (actions : List Action) (label : Seq) (d : DispSet)
    (only : Bool) (s : String) (i : Int) :
    applyActions env actions label d only = .ok (some s, i) ↔
      ∃ pre a post, actions ++ defaultActions = pre ++ a :: post ∧ i = (pre.length : Int) ∧
        s = a.disp ∧ Triggered env a label d only ∧ ∀ b ∈ pre, NotTriggered env b label d only := by
  unfold applyActions effectiveActions
  rw [applyLoop_some]
  simp

/-- A disposition is always produced. -/
theorem always_disposition (env : FullEnv) (actions : List Action) (label : Seq) (d : DispSet)
    (only : Bool) (h : ActionRulesDefined env actions label) :
    ∃ s, ∃ i : Nat, applyActions env actions label d only = .ok (some s, (i : Int)) ∧
      i < (actions ++ defaultActions).length := by
  obtain ⟨s, j, hj⟩ := applyLoop_defined (env := env) (label := label) (d := d) (only := only)
    (actions ++ defaultActions) 0 (by
      intro a ha
      rcases List.mem_append.1 ha with ha | ha
      · unfold Action.ruleMatched
        cases hm : a.matchR with
        | some m => exact h a ha m (Or.inl hm)
        | none =>
          cases hn : a.notMatchR with
          | none => exact ⟨_, rfl⟩
          | some n =>
            obtain ⟨b, hb⟩ := h a ha n (Or.inr hn)
            exact ⟨!b, by simp [hb]⟩
      · exact ⟨true, default_rule env label a ha⟩) (by
      obtain ⟨a, ha, ht⟩ := catchAll_triggered env label d only
      exact ⟨a, List.mem_append_right _ ha, ht⟩)
  obtain ⟨pre, a, post, hs, hi, hd, ht, hn⟩ := (first_triggered env actions label d only s j).1 hj
  refine ⟨s, pre.length, by rw [← hi]; exact hj, ?_⟩
  rw [hs]; simp

/-- Never `None`: without error the result has a disposition. -/
theorem never_none (env : FullEnv) (actions : List Action) (label : Seq) (d : DispSet)
    (only : Bool) (r : Option String × Int) (h : applyActions env actions label d only = .ok r) :
    r.1 ≠ none := by
  have hgen : ∀ (as : List Action) (idx : Nat), (∃ a ∈ as, Triggered env a label d only) →
      ∀ r, applyLoop env label d only idx as = .ok r → r.1 ≠ none := by
    intro as
    induction as with
    | nil => intro idx h; simp at h
    | cons a as ih =>
      intro idx hex r hr
      unfold applyLoop at hr
      cases ha : a.apply env label d only with
      | error e => simp [ha] at hr
      | ok o =>
        cases o with
        | some s => simp [ha] at hr; subst hr; simp
        | none =>
          simp only [ha] at hr
          obtain ⟨c, hc, ht⟩ := hex
          rcases List.mem_cons.1 hc with rfl | hc
          · rw [apply_some.2 ⟨rfl, ht⟩] at ha; cases ha
          · exact ih (idx + 1) ⟨c, hc, ht⟩ r hr
  obtain ⟨a, ha, ht⟩ := catchAll_triggered env label d only
  exact hgen _ 0 ⟨a, List.mem_append_right _ ha, ht⟩ r h

/-- An error comes from the rule of an action all of whose predecessors were not triggered. -/
theorem error_source (env : FullEnv) (actions : List Action) (label : Seq) (d : DispSet)
    (only : Bool) (e : Err) (h : applyActions env actions label d only = .error e) :
    ∃ pre a post, actions = pre ++ a :: post ∧ (∀ b ∈ pre, NotTriggered env b label d only) ∧
      ∃ m, (a.matchR = some m ∨ (a.matchR = none ∧ a.notMatchR = some m)) ∧
        env.labelMatches m label = .error e := by
  have hgen : ∀ (as : List Action) (idx : Nat), applyLoop env label d only idx as = .error e →
      ∃ pre a post, as = pre ++ a :: post ∧ (∀ b ∈ pre, NotTriggered env b label d only) ∧
        a.ruleMatched env label = .error e := by
    intro as
    induction as with
    | nil => intro idx h; simp [applyLoop] at h
    | cons a as ih =>
      intro idx hr
      unfold applyLoop at hr
      cases ha : a.apply env label d only with
      | error e' =>
        simp [ha] at hr
        subst hr
        refine ⟨[], a, as, rfl, by simp, ?_⟩
        unfold Action.apply at ha
        cases hm : a.ruleMatched env label with
        | error e'' => simp [hm] at ha; rw [ha]
        | ok b => simp [hm] at ha
      | ok o =>
        cases o with
        | some s => simp [ha] at hr
        | none =>
          simp only [ha] at hr
          obtain ⟨pre, b, post, rfl, h1, h2⟩ := ih (idx + 1) hr
          refine ⟨a :: pre, b, post, rfl, ?_, h2⟩
          intro c hc
          rcases List.mem_cons.1 hc with rfl | hc
          · exact apply_none.1 ha
          · exact h1 c hc
  obtain ⟨pre, a, post, hs, h1, h2⟩ := hgen _ 0 h
  unfold effectiveActions at hs
  have ha : a ∈ actions := by
    have : a ∈ actions ++ defaultActions := by
      have : a ∈ pre ++ a :: post := by simp
      rw [← hs] at this; exact this
    rcases List.mem_append.1 this with h | h
    · exact h
    · rw [default_rule env label a h] at h2; cases h2
  have hpre : pre.length < actions.length ∨ actions.length ≤ pre.length := lt_or_ge _ _
  rcases hpre with hlt | hge
  · rw [List.append_eq_append_iff] at hs
    rcases hs with ⟨u, hu, hv⟩ | ⟨u, hu, hv⟩
    · exfalso
      have := congrArg List.length hu
      simp at this
      omega
    · cases u with
      | nil => simp at hu; rw [hu] at hlt; omega
      | cons b u =>
        simp at hv
        obtain ⟨rfl, _⟩ := hv
        refine ⟨pre, a, u, hu, h1, ?_⟩
        unfold Action.ruleMatched at h2
        cases hm : a.matchR with
        | some m => simp [hm] at h2; exact ⟨m, Or.inl rfl, h2⟩
        | none =>
          simp only [hm] at h2
          cases hn : a.notMatchR with
          | none => simp [hn] at h2
          | some n =>
            simp only [hn] at h2
            cases hr : env.labelMatches n label with
            | ok b => simp [hr] at h2
            | error e' => simp [hr] at h2; exact ⟨n, Or.inr ⟨rfl, rfl⟩, by rw [hr, h2]⟩
  · exfalso
    -- the failing action would be a default action
    have hd : a ∈ defaultActions := by
      have h0 : (actions ++ defaultActions).drop actions.length = defaultActions := List.drop_left
      rw [hs, List.drop_append_of_le_length hge] at h0
      rw [← h0]; simp
    rw [default_rule env label a hd] at h2; cases h2

/-- The constructor rejects an action with both `match` and `not-match`. -/
theorem constructor_excludes_both (a b : Action) (h : a.mk? = .ok b) :
    b = a ∧ ¬ (a.matchR ≠ none ∧ a.notMatchR ≠ none) := by
  unfold Action.mk? at h
  split at h
  · cases h
  · rename_i h'; simp at h; exact ⟨h.symm, h'⟩

/-- Non-vacuity: a user action with `match` pre-empts the defaults; index 1 of the list. -/
example : applyActions ⟨⟨fun _ _ _ _ => .ok true⟩, fun m _ => .ok (m == "y"), fun _ => "Latin"⟩
    [{ disp := "a", matchR := some "x" }, { disp := "b", matchR := some "y", anyVariant := ["t"] }]
    [97] [some "t"] false = .ok (some "b", 1) := by rfl

example : applyActions ⟨⟨fun _ _ _ _ => .ok true⟩, fun m _ => .ok (m == "y"), fun _ => "Latin"⟩
    [{ disp := "a", matchR := some "x" }, { disp := "b", matchR := some "y", anyVariant := ["t"] }]
    [97] [some "u"] false = .ok (some "valid", 6) := by rfl

end Lgr.Props.C20

namespace Lgr.Props.C21

open Classical in
/-- The table of RFC 7940 section 7.6. -/
noncomputable def rfcDefault (d : DispSet) : String :=
  if some "invalid" ∈ d then "invalid"
  else if some "blocked" ∈ d then "blocked"
  else if some "allocatable" ∈ d then "allocatable"
  else if (∃ t, t ∈ d) ∧ ∀ t ∈ d, t = some "activated" then "activated"
  else "valid"

open Classical in
/-- Position of the default action with that disposition. -/
noncomputable def rfcIndex (d : DispSet) : Nat :=
  if some "invalid" ∈ d then 0
  else if some "blocked" ∈ d then 1
  else if some "allocatable" ∈ d then 2
  else if (∃ t, t ∈ d) ∧ ∀ t ∈ d, t = some "activated" then 3
  else 4

/-- Without explicit action, the disposition is the one of the table, whatever the label, the
rules and the only-variants flag. -/
theorem default_table (env : FullEnv) (label : Seq) (d : DispSet) (only : Bool) :
    applyActions env [] label d only = .ok (some (rfcDefault d), (rfcIndex d : Int)) := by
  have hne : d ≠ [] ↔ ∃ t, t ∈ d := by cases d <;> simp
  have hact : ((decide (d ≠ []) && d.all (fun t => decide (t ∈ ["activated"].map some))) = true) ↔
      ((∃ t, t ∈ d) ∧ ∀ t ∈ d, t = some "activated") := by
    rw [← hne]; simp
  unfold applyActions effectiveActions rfcDefault rfcIndex
  simp only [List.nil_append, defaultActions, applyLoop, Action.apply, Action.ruleMatched,
    Action.variantMatched, List.any_cons, List.any_nil, Bool.or_false, Bool.true_and]
  generalize (decide (d ≠ []) && d.all (fun t => decide (t ∈ ["activated"].map some))) = B
    at hact ⊢
  by_cases h1 : some "invalid" ∈ d
  · simp [h1]
  by_cases h2 : some "blocked" ∈ d
  · simp [h1, h2]
  by_cases h3 : some "allocatable" ∈ d
  · simp [h1, h2, h3]
  cases B with
  | false =>
    have h4 : ¬ ((∃ t, t ∈ d) ∧ ∀ t ∈ d, t = some "activated") := fun h => by simpa using hact.2 h
    simp only [h1, h2, h3, if_neg h4]
    simp
  | true =>
    simp only [h1, h2, h3, if_pos (hact.1 rfl)]
    simp

/-- Non-vacuity. -/
example : applyActions ⟨⟨fun _ _ _ _ => .ok true⟩, fun _ _ => .ok true, fun _ => "Latin"⟩ []
    [97] [some "allocatable", some "activated"] true = .ok (some "allocatable", 2) := by rfl

/-- Explicit actions that are not triggered change only the index. -/
theorem default_table_after (env : FullEnv) (actions : List Action) (label : Seq) (d : DispSet)
    (only : Bool) (h : ∀ a ∈ actions, NotTriggered env a label d only) :
    applyActions env actions label d only =
      .ok (some (rfcDefault d), ((actions.length + rfcIndex d : Nat) : Int)) := by
  have h0 := (C20.first_triggered env [] label d only _ _).1 (default_table env label d only)
  obtain ⟨pre, a, post, hs, hi, hd, ht, hn⟩ := h0
  rw [C20.first_triggered]
  refine ⟨actions ++ pre, a, post, ?_, ?_, hd, ht, ?_⟩
  · rw [List.append_assoc, ← hs]; rfl
  · simp; omega
  · intro b hb
    rcases List.mem_append.1 hb with hb | hb
    · exact h b hb
    · exact hn b hb

end Lgr.Props.C21

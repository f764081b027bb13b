import Verif.Props.MergeMatch
import Verif.Props.CompareRules
import Verif.Props.ReviewRules
import Verif.Props.DocDisp

/-!
# C118: the actions of the merged LGR
-/

namespace Lgr.Props.C118
open Lgr Compare MergeSet RulesXml MergeXml C101 C102 C103 C42 C63 C117 C55

/-! ## Specification -/

/-- How the rule of an action is named after the merge. -/
def actTo (script r : String) : String :=
  if r = "" then r else if r = lcm then "Common-" ++ lcm else script ++ "-" ++ r

/-- The action with the rules named otherwise; references and comments do not matter. -/
structure Renamed (script : String) (a b : Action) : Prop where
  disp : b.disp = a.disp
  matchR : b.matchR = a.matchR.map (actTo script)
  notMatchR : b.notMatchR = a.notMatchR.map (actTo script)
  any : b.anyVariant = a.anyVariant
  all : b.allVariants = a.allVariants
  only : b.onlyVariants = a.onlyVariants

/-- The actions of the section, in order. -/
def Parsed (es : List Node) (as : List Action) : Prop := List.Forall₂ (fun e a => parseAction e = .ok a) es as

/-- The default actions that an LGR repeats at its end do nothing else than the default actions themselves: they are in
order, and those of the default actions which are left out in between do not apply. -/
def Closing (env : FullEnv) (label : Seq) (d : DispSet) (only : Bool) (back : List Action) : Prop :=
  ∃ k keep, List.Forall₂ Alike back ((C107.defaults.take k).filter keep) ∧
    ∀ a ∈ C107.defaults.take k, keep a = false → NotTriggered env a label d only

/-- Rules of whole labels are evaluated by the LGR. -/
def Evaluates (db : String → Except Err CpSet) (rs : RuleState) (env : FullEnv) : Prop :=
  ∀ n label, ∃ qs f, ∀ fuel, f ≤ fuel →
    ((asked db rs qs).matches_ db fuel n label none 0).2 = env.labelMatches n label

def IsDefault (a : Action) : Prop := ∃ b ∈ C107.defaults, Alike a b

/-! ## Actions of the merged section -/

theorem isDefault_iff {a : Action} : Review.hasAction defaultActions a = true ↔ IsDefault a := by
  unfold Review.hasAction IsDefault
  rw [List.any_eq_true]
  change (∃ x ∈ C107.defaults, _) ↔ _
  refine exists_congr fun b => and_congr_right fun _ => ?_
  rw [C81.eqAction_iff]
  exact ⟨fun h => ⟨h.1, h.2, h.3, h.4, h.5, h.6⟩, fun h => ⟨h.1, h.2, h.3, h.4, h.5, h.6⟩⟩

theorem inAct_rule (script : String) (refs : List String) {k : String} (hk : k = "match" ∨ k = "not-match") (v : String) :
    inAct script refs k v = actTo script v := by
  unfold inAct actTo
  rw [if_pos hk]

theorem act_attr (f : String → String → String) (n : Node) (k : String) :
    dget (mapNode f n).attrs k = (dget n.attrs k).map (f k) := by
  cases n; exact dget_map _ _ _

theorem act_kept (script : String) (refs : List String) (n : Node) {k : String}
    (hk : k ≠ "match" ∧ k ≠ "not-match" ∧ k ≠ "ref") :
    dget (mapNode (inAct script refs) n).attrs k = dget n.attrs k := by
  rw [act_attr]
  cases dget n.attrs k with
  | none => rfl
  | some v => simp [inAct, hk]

theorem parse_mapped {script : String} {refs : List String} {n : Node} {a : Action} (h : parseAction n = .ok a) :
    ∃ b, parseAction (mapNode (inAct script refs) n) = .ok b ∧ Renamed script a b := by
  obtain ⟨h1, h2, -, h4, h5, h6, h7, h8, hx⟩ := parse_action_inv h
  have e4 : dget (mapNode (inAct script refs) n).attrs "match" = a.matchR.map (actTo script) := by
    rw [act_attr, h4, funext (inAct_rule script refs (.inl rfl))]
  have e5 : dget (mapNode (inAct script refs) n).attrs "not-match" = a.notMatchR.map (actTo script) := by
    rw [act_attr, h5, funext (inAct_rule script refs (.inr rfl))]
  have hl : ∀ k, k ≠ "match" ∧ k ≠ "not-match" ∧ k ≠ "ref" →
      Xml.getList (mapNode (inAct script refs) n).attrs k = Xml.getList n.attrs k := by
    intro k hk
    unfold Xml.getList
    rw [act_kept _ _ _ hk]
  have hok : ¬ (dget (mapNode (inAct script refs) n).attrs "match" ≠ none ∧
      dget (mapNode (inAct script refs) n).attrs "not-match" ≠ none) := by
    rw [e4, e5]
    simpa using hx
  unfold parseAction Action.mk?
  rw [if_neg hok]
  refine ⟨_, rfl, ?_, e4, e5, ?_, ?_, ?_⟩
  · show _ = a.disp
    rw [h1, act_kept _ _ _ (by decide)]
  · exact (hl _ (by decide)).trans h6.symm
  · exact (hl _ (by decide)).trans h7.symm
  · exact (hl _ (by decide)).trans h8.symm

/-- The actions of an LGR in the merged LGR: all but the default ones, renamed. -/
theorem own_actions {d : Doc} : ∀ {l : List Node} {A O : List Action}, Parsed l A → Parsed (l.filterMap (actNode d)) O →
    List.Forall₂ (Renamed d.script) (A.filter (fun a => !Review.hasAction defaultActions a)) O := by
  intro l A O hA
  unfold Parsed at hA
  induction hA generalizing O with
  | nil => intro h; cases h; exact .nil
  | @cons n a l A h1 _ ih =>
    intro h
    by_cases hd : Review.hasAction defaultActions a = true
    · rw [List.filterMap_cons_none (by simp [actNode, h1, hd])] at h
      rw [List.filter_cons_of_neg (by simp [hd])]
      exact ih h
    · rw [List.filterMap_cons_some (show actNode d n = some (mapNode (inAct d.script (refsOf d.map n)) n) by
        simp only [actNode, h1]; rw [if_neg hd])] at h
      rw [List.filter_cons_of_pos (by simp [hd])]
      unfold Parsed at h
      cases h with
      | cons g1 g2 =>
        obtain ⟨b, hb, hr⟩ := parse_mapped (script := d.script) (refs := refsOf d.map n) h1
        rw [hb] at g1
        cases g1
        exact .cons hr (ih g2)

/-! ## Dispositions -/

theorem apply_renamed {env envM : FullEnv} {label : Seq} {d : DispSet} {only : Bool} {script : String} {a b : Action}
    (h : Renamed script a b) (hm : ∀ r, a.matchR = some r ∨ a.notMatchR = some r →
      envM.labelMatches (actTo script r) label = env.labelMatches r label) :
    a.apply env label d only = b.apply envM label d only := by
  have hr : a.ruleMatched env label = b.ruleMatched envM label := by
    unfold Action.ruleMatched
    rw [h.matchR, h.notMatchR]
    cases h1 : a.matchR with
    | some r => exact (hm r (.inl h1)).symm
    | none =>
      cases h2 : a.notMatchR with
      | some r =>
        simp only [Option.map_none, Option.map_some]
        rw [hm r (.inr h2)]
      | none => rfl
  have hv : a.variantMatched d only = b.variantMatched d only := by
    unfold Action.variantMatched
    rw [h.any, h.all, h.only]
  unfold Action.apply
  rw [hr, hv, h.disp]

theorem result_congr {env envM : FullEnv} {label : Seq} {d : DispSet} {only : Bool} {l l' rest rest' : List Action}
    (h : List.Forall₂ (fun a b => a.apply env label d only = b.apply envM label d only) l l')
    (hr : result env label d only rest = result envM label d only rest') :
    result env label d only (l ++ rest) = result envM label d only (l' ++ rest') := by
  induction h with
  | nil => exact hr
  | cons h1 _ ih => rw [List.cons_append, List.cons_append, result_cons, result_cons, h1, ih]

theorem result_drop {env : FullEnv} {label : Seq} {d : DispSet} {only : Bool} {l rest : List Action}
    (h : ∀ a ∈ l, NotTriggered env a label d only) :
    result env label d only (l ++ rest) = result env label d only rest := by
  induction l with
  | nil => rfl
  | cons a l ih =>
    have := result_skip env label d only a (apply_none.2 (h a List.mem_cons_self)) [] (l ++ rest)
    rw [List.cons_append]
    exact this.trans (ih (fun x hx => h x (List.mem_cons_of_mem _ hx)))

theorem result_filter {env : FullEnv} {label : Seq} {d : DispSet} {only : Bool} {keep : Action → Bool}
    {l rest : List Action} (h : ∀ a ∈ l, keep a = false → NotTriggered env a label d only) :
    result env label d only (l.filter keep ++ rest) = result env label d only (l ++ rest) := by
  induction l with
  | nil => rfl
  | cons a l ih =>
    have ih := ih (fun x hx => h x (List.mem_cons_of_mem _ hx))
    by_cases hk : keep a = true
    · rw [List.filter_cons_of_pos hk, List.cons_append, List.cons_append, result_cons, result_cons, ih]
    · rw [List.filter_cons_of_neg hk, ih, List.cons_append]
      have := result_skip env label d only a (apply_none.2 (h a List.mem_cons_self (by simpa using hk))) [] (l ++ rest)
      exact this.symm

theorem result_twice {env : FullEnv} {label : Seq} {d : DispSet} {only : Bool} : ∀ {l pre rest : List Action},
    (∀ a ∈ l, a ∈ pre) → result env label d only (pre ++ (l ++ rest)) = result env label d only (pre ++ rest) := by
  intro l
  induction l with
  | nil => intro pre rest _; rfl
  | cons a l ih =>
    intro pre rest h
    rw [List.cons_append, result_dup env label d only a pre (l ++ rest) ⟨a, h a List.mem_cons_self, Alike.refl a⟩]
    exact ih (fun x hx => h x (List.mem_cons_of_mem _ hx))

theorem result_closing {env : FullEnv} {label : Seq} {d : DispSet} {only : Bool} {back : List Action}
    (h : Closing env label d only back) :
    result env label d only (back ++ C107.defaults) = result env label d only C107.defaults := by
  obtain ⟨k, keep, h1, h2⟩ := h
  have e1 : result env label d only (back ++ C107.defaults) =
      result env label d only ((C107.defaults.take k).filter keep ++ C107.defaults) := by
    refine result_congr (h1.imp (fun a b hab => ?_)) rfl
    exact apply_alike env hab label d only
  rw [e1, result_filter h2]
  conv_lhs => rw [← List.take_append_drop k C107.defaults]
  rw [List.take_append_drop]
  have : result env label d only (C107.defaults.take k ++ (C107.defaults.take k ++ C107.defaults.drop k)) =
      result env label d only (C107.defaults.take k ++ C107.defaults.drop k) := result_twice (fun a ha => ha)
  rw [List.take_append_drop] at this
  exact this

theorem closing_default {env : FullEnv} {label : Seq} {d : DispSet} {only : Bool} {back : List Action}
    (h : Closing env label d only back) : ∀ a ∈ back, IsDefault a := by
  obtain ⟨k, keep, h1, -⟩ := h
  intro a ha
  have : ∀ {l m : List Action}, List.Forall₂ Alike l m → a ∈ l → ∃ b ∈ m, Alike a b := by
    intro l m h
    induction h with
    | nil => intro h; cases h
    | cons h1 _ ih =>
      intro h
      rcases List.mem_cons.1 h with rfl | h
      · exact ⟨_, List.mem_cons_self, h1⟩
      · obtain ⟨b, g1, g2⟩ := ih h
        exact ⟨b, List.mem_cons_of_mem _ g1, g2⟩
  obtain ⟨b, g1, g2⟩ := this h1 ha
  exact ⟨b, List.mem_of_mem_take (List.mem_filter.1 g1).1, g2⟩

theorem defaults_same {env envM : FullEnv} {label : Seq} {d : DispSet} {only : Bool} :
    result env label d only C107.defaults = result envM label d only C107.defaults := by
  have : List.Forall₂ (fun a b : Action => a.apply env label d only = b.apply envM label d only) C107.defaults C107.defaults := by
    refine List.forall₂_same.2 (fun a ha => ?_)
    have h1 := default_rule env label a ha
    have h2 := default_rule envM label a ha
    unfold Action.apply
    rw [h1, h2]
  have := result_congr (rest := []) (rest' := []) this rfl
  simpa using this

theorem parsed_append {a b : List Node} {M : List Action} (h : Parsed (a ++ b) M) :
    ∃ M1 M2, M = M1 ++ M2 ∧ Parsed a M1 ∧ Parsed b M2 := by
  unfold Parsed at *
  induction a generalizing M with
  | nil => exact ⟨[], M, rfl, .nil, h⟩
  | cons x a ih =>
    cases h with
    | cons h1 h2 =>
      obtain ⟨M1, M2, rfl, g1, g2⟩ := ih h2
      exact ⟨_ :: M1, M2, rfl, .cons h1 g1, g2⟩

theorem parsed_mem {l : List Node} {M : List Action} (h : Parsed l M) {b : Action} (hb : b ∈ M) :
    ∃ n ∈ l, parseAction n = .ok b := by
  unfold Parsed at h
  induction h with
  | nil => cases hb
  | cons h1 _ ih =>
    rcases List.mem_cons.1 hb with rfl | hb
    · exact ⟨_, List.mem_cons_self, h1⟩
    · obtain ⟨n, g1, g2⟩ := ih hb
      exact ⟨n, List.mem_cons_of_mem _ g1, g2⟩

/-- A label to which the actions of the other LGRs do not apply gets from the merged LGR the disposition that its own LGR
gives, if the rules match the same. -/
theorem merged_actions {ds1 ds2 : List Doc} {d : Doc} {A front back M : List Action} {env envM : FullEnv} {label : Seq}
    {ty : DispSet} {only : Bool}
    (hA : Parsed (d.es.filter isAct) A) (hM : Parsed (mActs (ds1 ++ d :: ds2)) M)
    (hs : A = front ++ back) (hfront : ∀ a ∈ front, ¬ IsDefault a) (hback : Closing env label ty only back)
    (hm : ∀ a ∈ front, ∀ r, a.matchR = some r ∨ a.notMatchR = some r →
      envM.labelMatches (actTo d.script r) label = env.labelMatches r label)
    (ho : ∀ n ∈ mActs (ds1 ++ ds2), ∀ b, parseAction n = .ok b → NotTriggered envM b label ty only) :
    (applyActions env A label ty only).map Prod.fst = (applyActions envM M label ty only).map Prod.fst := by
  show result env label ty only (A ++ C107.defaults) = result envM label ty only (M ++ C107.defaults)
  have e : mActs (ds1 ++ d :: ds2) = mActs ds1 ++ ((d.es.filter isAct).filterMap (actNode d) ++ mActs ds2) := by
    unfold mActs
    rw [List.flatMap_append, List.flatMap_cons]
  rw [e] at hM
  obtain ⟨M1, M2, rfl, g1, g2⟩ := parsed_append hM
  obtain ⟨M3, M4, rfl, g3, g4⟩ := parsed_append g2
  have n1 : ∀ b ∈ M1, NotTriggered envM b label ty only := by
    intro b hb
    obtain ⟨n, hn, hp⟩ := parsed_mem g1 hb
    refine ho n ?_ b hp
    unfold mActs at hn ⊢
    rw [List.flatMap_append, List.mem_append]
    exact .inl hn
  have n4 : ∀ b ∈ M4, NotTriggered envM b label ty only := by
    intro b hb
    obtain ⟨n, hn, hp⟩ := parsed_mem g4 hb
    refine ho n ?_ b hp
    unfold mActs at hn ⊢
    rw [List.flatMap_append, List.mem_append]
    exact .inr hn
  have own := own_actions hA g3
  have hfilter : A.filter (fun a => !Review.hasAction defaultActions a) = front := by
    rw [hs, List.filter_append]
    have f1 : front.filter (fun a => !Review.hasAction defaultActions a) = front := by
      rw [List.filter_eq_self]
      intro a ha
      have := hfront a ha
      rw [← isDefault_iff] at this
      simpa using this
    have f2 : back.filter (fun a => !Review.hasAction defaultActions a) = [] := by
      rw [List.filter_eq_nil_iff]
      intro a ha
      have := closing_default hback a ha
      rw [← isDefault_iff] at this
      simp [this]
    rw [f1, f2, List.append_nil]
  rw [hfilter] at own
  rw [hs, List.append_assoc, List.append_assoc, List.append_assoc, result_drop n1]
  refine result_congr ?_ ?_
  · have : ∀ {l l' : List Action}, List.Forall₂ (Renamed d.script) l l' → (∀ a ∈ l, a ∈ front) →
        List.Forall₂ (fun a b => a.apply env label ty only = b.apply envM label ty only) l l' := by
      intro l l' h
      induction h with
      | nil => intro _; exact .nil
      | cons h1 _ ih =>
        intro hmem
        exact .cons (apply_renamed h1 (hm _ (hmem _ List.mem_cons_self)))
          (ih (fun a ha => hmem a (List.mem_cons_of_mem _ ha)))
    exact this own (fun a ha => ha)
  · rw [result_closing hback, result_drop n4]
    exact defaults_same

/-- The rules of actions match the same in both LGRs. -/
theorem rule_same {P : Parser} {ds : List Doc} {d : Doc} (hd : d ∈ ds) {tcM tc : List (String × List Nat)}
    {rs rsM : RuleState} (hr : Read P tc d.es rs) (hm : Read P tcM (mNodes ds) rsM) (hf : Fit ds tcM d tc)
    {w : NWorld} (hw : Meaning P.db tcM (mNodes ds) w) (hlen : w.label.length ≤ labelMax)
    (hnl : ∀ x ∈ w.label, Re.newline x = false) (hso : ∀ e ∈ mNodes ds, isRule e = true → Solid P.db w e)
    {env envM : FullEnv} (hE : Evaluates P.db rs env) (hEM : Evaluates P.db rsM envM)
    {r : String} (hr0 : r ≠ "") (hrule : ∃ e ∈ d.es, isRule e = true ∧ dget e.attrs "name" = some r ∧ NoAnchor d.es e) :
    envM.labelMatches (actTo d.script r) w.label = env.labelMatches r w.label := by
  obtain ⟨e, he, her, hn, hfree⟩ := hrule
  obtain ⟨f0, h0⟩ := merged_rule_matches hd hr hm hf hw hlen hnl hso he her hn hfree
  obtain ⟨qs, f1, h1⟩ := hE r w.label
  obtain ⟨qs', f2, h2⟩ := hEM (ruleName d.script r) w.label
  obtain ⟨b, b1, b2⟩ := h0 (max f0 (max f1 f2)) (by omega) qs qs' none 0 (fun _ => rfl)
  rw [h1 _ (by omega)] at b1
  rw [h2 _ (by omega)] at b2
  have : actTo d.script r = ruleName d.script r := by
    rw [ruleName_eq]; unfold actTo; rw [if_neg hr0]
  rw [this, b1, b2]

/-- The disposition of a label, from the documents. -/
theorem merged_disposition {P : Parser} {ds1 ds2 : List Doc} {d : Doc} {tcM tc : List (String × List Nat)}
    {rs rsM : RuleState} (hr : Read P tc d.es rs) (hm : Read P tcM (mNodes (ds1 ++ d :: ds2)) rsM)
    (hf : Fit (ds1 ++ d :: ds2) tcM d tc)
    {w : NWorld} (hw : Meaning P.db tcM (mNodes (ds1 ++ d :: ds2)) w) (hlen : w.label.length ≤ labelMax)
    (hnl : ∀ x ∈ w.label, Re.newline x = false)
    (hso : ∀ e ∈ mNodes (ds1 ++ d :: ds2), isRule e = true → Solid P.db w e)
    {env envM : FullEnv} (hE : Evaluates P.db rs env) (hEM : Evaluates P.db rsM envM)
    {A front back M : List Action} {ty : DispSet} {only : Bool}
    (hA : Parsed (d.es.filter isAct) A) (hM : Parsed (mActs (ds1 ++ d :: ds2)) M)
    (hready : C107.ActsReady d.es A) (hnames : ∀ e ∈ d.es, isRule e = true → dget e.attrs "name" ≠ some "")
    (hs : A = front ++ back) (hfront : ∀ a ∈ front, ¬ IsDefault a) (hback : Closing env w.label ty only back)
    (ho : ∀ n ∈ mActs (ds1 ++ ds2), ∀ b, parseAction n = .ok b → NotTriggered envM b w.label ty only) :
    (applyActions env A w.label ty only).map Prod.fst = (applyActions envM M w.label ty only).map Prod.fst := by
  refine merged_actions hA hM hs hfront hback (fun a ha r hra => ?_) ho
  have hex := hready a (by rw [hs]; exact List.mem_append_left _ ha) r hra
  have h0 : r ≠ "" := by
    rintro rfl
    obtain ⟨e, he, her, hn, -⟩ := hex
    exact hnames e he her hn
  exact rule_same (by simp) hr hm hf hw hlen hnl hso hE hEM h0 hex

end Lgr.Props.C118

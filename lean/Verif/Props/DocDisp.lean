import Verif.Props.DocLabels

/-!
# C107: the disposition of a label is the one the document asks for
-/

namespace Lgr.Props.C107
open Lgr Xml Text Repertoire LGR RulesXml C101 C103 DocXml C105 C106

/-! ## Specification -/

/-- What an `action` element says. -/
def ActionSays (x : XAttrs) (a : Action) : Prop :=
  a.disp = (dget x "disp").getD "" ∧ a.matchR = dget x "match" ∧ a.notMatchR = dget x "not-match" ∧
    C105.Listed x "any-variant" a.anyVariant ∧ C105.Listed x "all-variants" a.allVariants ∧
    C105.Listed x "only-variants" a.onlyVariants ∧ a.comment = dget x "comment" ∧ C105.Listed x "ref" a.refs

/-- The action elements of the section, in order. -/
def actionElems (es : List Node) : List Node := es.filter (fun e => decide (e.tag = "action"))

/-- The actions of the section, in order. -/
def Acts (es : List Node) (as : List Action) : Prop :=
  List.Forall₂ (fun e a => ActionSays e.attrs a) (actionElems es) as

/-- The default actions, RFC 7940, section 7.6 (comments are those of the code). -/
def defaults : List Action :=
  [{ disp := "invalid", anyVariant := ["invalid"], comment := some "Default action for invalid" },
   { disp := "blocked", anyVariant := ["blocked"], comment := some "Default action for blocked" },
   { disp := "allocatable", anyVariant := ["allocatable"], comment := some "Default action for allocatable" },
   { disp := "activated", allVariants := ["activated"], comment := some "Default action for activated" },
   { disp := "valid", comment := some "Default catch-all" }]

/-- The rule with this name matches somewhere in the label. -/
def Found (db : String → Except Err CpSet) (is : List Item) (es : List Node) (label : Seq) (r : String) : Prop :=
  ∃ w, w.label = label ∧ Sense db is es w ∧
    ∃ e ∈ es, isRule e = true ∧ dget e.attrs "name" = some r ∧ ∃ i j, i ≤ label.length ∧ RHolds db w e i j

/-- The conditions of an action are met for a label, given the types of the mappings which made the label, and
whether all of it is made of mappings (RFC 7940, section 8.3, step 2). -/
def Fires (db : String → Except Err CpSet) (is : List Item) (es : List Node) (label : Seq)
    (types : Option String → Prop) (only : Prop) (a : Action) : Prop :=
  (∀ r, a.matchR = some r → Found db is es label r) ∧ (∀ r, a.notMatchR = some r → ¬ Found db is es label r) ∧
  (a.anyVariant ≠ [] → ∃ t ∈ a.anyVariant, types (some t)) ∧
  (a.anyVariant = [] → a.allVariants ≠ [] → (∃ t, types t) ∧ ∀ t, types t → ∃ s ∈ a.allVariants, t = some s) ∧
  (a.anyVariant = [] → a.allVariants = [] → a.onlyVariants ≠ [] →
    only ∧ (∃ t, types t) ∧ ∀ t, types t → ∃ s ∈ a.onlyVariants, t = some s)

/-- The disposition and the index of the first action which fires. -/
def First (db : String → Except Err CpSet) (is : List Item) (es : List Node) (as : List Action) (label : Seq)
    (types : Option String → Prop) (only : Prop) (disp : String) (idx : Int) : Prop :=
  ∃ pre a post, as ++ defaults = pre ++ a :: post ∧ idx = (pre.length : Int) ∧ disp = a.disp ∧
    Fires db is es label types only a ∧ ∀ b ∈ pre, ¬ Fires db is es label types only b

/-- The item has the sequence `k`, which is in the label at position `o`, in the context asked for. -/
def Stands (db : String → Except Err CpSet) (is : List Item) (es : List Node) (label : Seq) (o : Nat) (i : Item)
    (k : Seq) : Prop :=
  o < label.length ∧ i ∈ is ∧ i.Has k ∧ k <+: label.drop o ∧
    InContext db is es label i.attrs.whenR i.attrs.notWhenR o k.length

/-- `v` is a mapping of the sequence to itself, in the context asked for. -/
def Self (db : String → Except Err CpSet) (is : List Item) (es : List Node) (label : Seq) (o : Nat) (i : Item)
    (k : Seq) (v : Variant) : Prop :=
  v ∈ i.vars ∧ v.cp = k ∧ InContext db is es label v.whenR v.notWhenR o k.length

/-- Types of the mappings to themselves of what stands in the label. -/
def SelfTypes (db : String → Except Err CpSet) (is : List Item) (es : List Node) (label : Seq) (t : Option String) :
    Prop :=
  ∃ o i k v, Stands db is es label o i k ∧ Self db is es label o i k v ∧ v.type = t

/-- Everything which stands in the label has a mapping to itself. -/
def AllSelf (db : String → Except Err CpSet) (is : List Item) (es : List Node) (label : Seq) : Prop :=
  ∀ o i k, Stands db is es label o i k → ∃ v, Self db is es label o i k v

/-- Context rules and rules of whole labels are evaluated by the LGR. -/
def FullFaithful (db : String → Except Err CpSet) (rs : RuleState) (env : FullEnv) : Prop :=
  Faithful db rs env.toEnv ∧ ∀ n label, ∃ qs f, ∀ fuel, f ≤ fuel →
    ((asked db rs qs).matches_ db fuel n label none 0).2 = env.labelMatches n label

/-- The rules of actions are defined and have no anchor. -/
def ActsReady (es : List Node) (as : List Action) : Prop :=
  ∀ a ∈ as, ∀ r, a.matchR = some r ∨ a.notMatchR = some r →
    ∃ e ∈ es, isRule e = true ∧ dget e.attrs "name" = some r ∧ NoAnchor es e

/-- Lists of words of actions are separated by single spaces. -/
def ActsTidy (es : List Node) : Prop :=
  ∀ e ∈ actionElems es, C105.Tidy e.attrs "any-variant" ∧ C105.Tidy e.attrs "all-variants" ∧ C105.Tidy e.attrs "only-variants" ∧
    C105.Tidy e.attrs "ref"

/-! ## The actions read -/

theorem parseItem_actions {P : Parser} {s s' : Rules × RState} {e : Node} (h : parseItem P s e = (s', .ok ())) :
    (e.tag = "action" → ∃ a, parseAction e = .ok a ∧ s'.1.actions = s.1.actions ++ [a]) ∧
    (e.tag ≠ "action" → s'.1.actions = s.1.actions) := by
  unfold parseItem at h
  split at h
  · rename_i ht
    have hne : e.tag ≠ "action" := by
      rintro h; rw [h] at ht; revert ht; decide
    refine ⟨fun h => absurd h hne, fun _ => ?_⟩
    split at h
    · cases h
    · split at h
      · cases h
      · cases h; rfl
  · split at h
    · rename_i ht
      have hne : e.tag ≠ "action" := by rw [ht]; decide
      refine ⟨fun h => absurd h hne, fun _ => ?_⟩
      split at h
      · cases h
      · split at h
        · cases h
        · cases h; rfl
    · split at h
      · rename_i ht
        refine ⟨fun _ => ?_, fun hne => absurd ht hne⟩
        split at h
        · cases h
        · rename_i a ha
          cases h
          exact ⟨a, ha, rfl⟩
      · rename_i ht
        cases h
        exact ⟨fun h => absurd h ht, fun _ => rfl⟩

theorem rules_actions {P : Parser} : ∀ {es : List Node} {s s' : Rules × RState}, parseRules P s es = (s', .ok ()) →
    ∃ as, List.Forall₂ (fun e a => parseAction e = .ok a) (actionElems es) as ∧ s'.1.actions = s.1.actions ++ as
  | [], s, s', h => by
    unfold parseRules forEach at h
    cases h
    exact ⟨[], .nil, by simp⟩
  | e :: es, s, s', h => by
    unfold parseRules at h
    rw [forEach] at h
    split at h
    · cases h
    · rename_i s1 h1
      obtain ⟨as, g1, g2⟩ := rules_actions (P := P) (es := es) h
      obtain ⟨k1, k2⟩ := parseItem_actions h1
      unfold actionElems
      by_cases ht : e.tag = "action"
      · obtain ⟨a, ha, hs⟩ := k1 ht
        rw [List.filter_cons_of_pos (by simpa using ht)]
        exact ⟨a :: as, .cons ha g1, by rw [g2, hs]; simp⟩
      · rw [List.filter_cons_of_neg (by simpa using ht)]
        exact ⟨as, g1, by rw [g2, k2 ht]⟩

theorem action_iff {e : Node} (ht : C105.Tidy e.attrs "any-variant" ∧ C105.Tidy e.attrs "all-variants" ∧
    C105.Tidy e.attrs "only-variants" ∧ C105.Tidy e.attrs "ref") {a b : Action} (h : parseAction e = .ok a) :
    ActionSays e.attrs b ↔ b = a := by
  unfold parseAction at h
  obtain ⟨rfl, -⟩ := C20.constructor_excludes_both _ _ h
  unfold ActionSays
  rw [listed_iff ht.1, listed_iff ht.2.1, listed_iff ht.2.2.1, listed_iff ht.2.2.2]
  obtain ⟨disp, m, n, x, y, z, c, r⟩ := b
  simp only [Action.mk.injEq]
  constructor
  · rintro ⟨rfl, rfl, rfl, rfl, rfl, rfl, rfl, rfl⟩
    exact ⟨rfl, rfl, rfl, rfl, rfl, rfl, rfl, rfl⟩
  · rintro ⟨rfl, rfl, rfl, rfl, rfl, rfl, rfl, rfl⟩
    exact ⟨rfl, rfl, rfl, rfl, rfl, rfl, rfl, rfl⟩

theorem doc_parsed {R : Reader} {cs cs1 : Rfc7940.Results} {d : Doc} {g : Loaded}
    (h : parseDoc R cs d = (cs1, .ok (some g))) :
    List.Forall₂ (fun e a => parseAction e = .ok a) (actionElems (d.rules.getD [])) g.rules.actions := by
  cases hm : d.metaE with
  | none => exact absurd (by rw [h]) (C104.no_meta_no_lgr R cs d hm g)
  | some ms =>
    unfold parseDoc at h
    rw [hm] at h
    dsimp only at h
    split at h
    · cases h
    · split at h
      · cases h
      · split at h
        · cases h
        · rename_i r t hr
          injection h with h1 h2
          injection h2 with h2
          injection h2 with h2
          subst h2
          obtain ⟨as, g1, g2⟩ := rules_actions hr
          rw [show r.actions = as from g2]
          exact g1

/-- The actions of the LGR are those of the document. -/
theorem doc_actions {R : Reader} {cs cs1 : Rfc7940.Results} {d : Doc} {g : Loaded}
    (h : parseDoc R cs d = (cs1, .ok (some g))) (ht : ActsTidy (d.rules.getD [])) {as : List Action} :
    Acts (d.rules.getD []) as ↔ g.rules.actions = as := by
  have h1 := doc_parsed h
  unfold Acts
  unfold ActsTidy at ht
  generalize actionElems (d.rules.getD []) = l at h1 ht
  generalize g.rules.actions = bs at h1
  induction h1 generalizing as with
  | nil =>
    constructor
    · intro h; cases h; rfl
    · rintro rfl; exact .nil
  | cons h1 _ ih =>
    have ih := fun {as} => ih (as := as) (fun e he => ht e (List.mem_cons_of_mem _ he))
    constructor
    · intro h
      cases h with
      | cons k1 k2 => rw [(action_iff (ht _ (by simp)) h1).1 k1, ih.1 k2]
    · rintro rfl
      exact .cons ((action_iff (ht _ (by simp)) h1).2 rfl) (ih.2 rfl)

/-! ## Rules of whole labels -/

theorem found_defined {R : Reader} {is : List Item} {es : List Node} {g : Loaded} (hc : Common R is es g)
    {env : FullEnv} (hE : FullFaithful R.props g.rules.rs env) {e : Node} (he : e ∈ es) (hr : isRule e = true) {r : String}
    (hn : dget e.attrs "name" = some r) (label : Seq) : ∃ b, env.labelMatches r label = .ok b := by
  obtain ⟨obj, c, rk, ha⟩ := after_read hc.read
  obtain ⟨n', m, g1, g2, g3⟩ := ha.rule e he hr
  rw [hn] at g1
  cases g1
  obtain ⟨f0, h0⟩ := answers ha.inv g3
  obtain ⟨qs, f, hf⟩ := hE.2 r label
  obtain ⟨b, hb⟩ := h0 (max f f0) (Nat.le_max_right _ _) label none 0
  exact ⟨b, by rw [← hf _ (Nat.le_max_left _ _)]; exact answered ha.cache qs hb⟩

theorem found_exact {R : Reader} {is : List Item} {es : List Node} {g : Loaded} (hc : Common R is es g)
    {env : FullEnv} (hE : FullFaithful R.props g.rules.rs env) {label : Seq} (hp : Plain label)
    (hso : C106.Inhabited R.props is es) {e : Node} (he : e ∈ es) (hr : isRule e = true) {r : String}
    (hn : dget e.attrs "name" = some r) (hfree : NoAnchor es e) :
    ∃ b, env.labelMatches r label = .ok b ∧ (b = true ↔ Found R.props is es label r) := by
  obtain ⟨b, hb⟩ := found_defined hc hE he hr hn label
  refine ⟨b, hb, ?_⟩
  have key : ∀ w : NWorld, w.label = label → Sense R.props is es w →
      (b = true ↔ ∃ i j, i ≤ label.length ∧ RHolds R.props w e i j) := by
    intro w hl hs
    obtain ⟨qs, f, hf⟩ := hE.2 r label
    have hm := (sense_iff hc.state.2 hc.tags).1 hs
    subst hl
    obtain ⟨f0, h0⟩ := document_rule_exact hc.read hm hp.1 hp.2 (hso w hs) he hr hn hfree
    obtain ⟨b', h1, h2⟩ := h0 (max f f0) (Nat.le_max_right _ _) qs none 0 (fun _ => rfl)
    have h3 := hf (max f f0) (Nat.le_max_left _ _)
    have : Except.ok b' = Except.ok (ε := Err) b := h1.symm.trans (h3.trans hb)
    cases this
    exact h2
  constructor
  · intro h
    obtain ⟨w, h1, h2, h3⟩ := document_has_meaning hc.read label (fun _ _ => False)
    have hs := (sense_iff hc.state.2 hc.tags).2 h3
    exact ⟨w, h1, hs, e, he, hr, hn, (key w h1 hs).1 h⟩
  · rintro ⟨w, h1, h3, e', he', hr', hn', i, j, hi, hh⟩
    refine (key w h1 h3).2 ⟨i, j, hi, ?_⟩
    exact (h3.rule e he hr r hn i j).1 ((h3.rule e' he' hr' r hn' i j).2 hh)

/-! ## Actions -/

theorem fires_iff {R : Reader} {is : List Item} {es : List Node} {g : Loaded} (hc : Common R is es g)
    {env : FullEnv} (hE : FullFaithful R.props g.rules.rs env) {label : Seq} (hp : Plain label)
    (hso : C106.Inhabited R.props is es) {a : Action} (hone : a.matchR = none ∨ a.notMatchR = none)
    (ha : ∀ r, a.matchR = some r ∨ a.notMatchR = some r →
      ∃ e ∈ es, isRule e = true ∧ dget e.attrs "name" = some r ∧ NoAnchor es e)
    {d : DispSet} {only : Bool} {types : Option String → Prop} (ht : ∀ t, t ∈ d ↔ types t) {o : Prop}
    (ho : only = true ↔ o) :
    (Triggered env a label d only ↔ Fires R.props is es label types o a) ∧
    (NotTriggered env a label d only ↔ ¬ Fires R.props is es label types o a) := by
  have key : ∀ r, a.matchR = some r ∨ a.notMatchR = some r →
      ∃ b, env.labelMatches r label = .ok b ∧ (b = true ↔ Found R.props is es label r) := by
    intro r hr
    obtain ⟨e, he, h1, h2, h3⟩ := ha r hr
    exact found_exact hc hE hp hso he h1 h2 h3
  have hrule : RuleCond env a label ↔ (∀ r, a.matchR = some r → Found R.props is es label r) ∧
      ∀ r, a.notMatchR = some r → ¬ Found R.props is es label r := by
    unfold RuleCond
    refine and_congr (forall_congr' fun r => imp_congr_right fun hr => ?_) ?_
    · obtain ⟨b, h1, h2⟩ := key r (.inl hr)
      rw [h1, ← h2]; simp
    · constructor
      · intro h r hr
        obtain ⟨b, h1, h2⟩ := key r (.inr hr)
        have hw : a.matchR = none := by
          rcases hone with h | h
          · exact h
          · rw [h] at hr; cases hr
        have := h hw r hr
        rw [h1] at this
        cases this
        rw [← h2]; simp
      · intro h _ r hr
        obtain ⟨b, h1, h2⟩ := key r (.inr hr)
        have := h r hr
        rw [← h2] at this
        rw [h1]
        simp at this
        rw [this]
  have hvar : VariantCond a d only ↔ (a.anyVariant ≠ [] → ∃ t ∈ a.anyVariant, types (some t)) ∧
      (a.anyVariant = [] → a.allVariants ≠ [] → (∃ t, types t) ∧ ∀ t, types t → ∃ s ∈ a.allVariants, t = some s) ∧
      (a.anyVariant = [] → a.allVariants = [] → a.onlyVariants ≠ [] →
        o ∧ (∃ t, types t) ∧ ∀ t, types t → ∃ s ∈ a.onlyVariants, t = some s) := by
    unfold VariantCond
    simp only [ht, ho]
  have hT : Triggered env a label d only ↔ Fires R.props is es label types o a := by
    unfold Triggered Fires
    rw [hrule, hvar, and_assoc]
  refine ⟨hT, ?_⟩
  rw [← hT]
  have hdef : ∃ b, a.ruleMatched env label = .ok b := by
    unfold Action.ruleMatched
    cases hm : a.matchR with
    | some r => exact (key r (.inl hm)).imp (fun _ h => h.1)
    | none =>
      cases hn : a.notMatchR with
      | none => exact ⟨_, rfl⟩
      | some r =>
        obtain ⟨b, h1, -⟩ := key r (.inr hn)
        exact ⟨!b, by simp [h1]⟩
  obtain ⟨b, hb⟩ := hdef
  unfold NotTriggered Triggered
  cases b with
  | true =>
    have h1 := ruleMatched_true.1 hb
    have h2 : ¬ RuleCondFails env a label := by
      rw [← ruleMatched_false, hb]; simp
    exact ⟨fun h k => h.elim h2 (fun h => h.2 k.2), fun h => .inr ⟨h1, fun k => h ⟨h1, k⟩⟩⟩
  | false =>
    have h1 := ruleMatched_false.1 hb
    have h2 : ¬ RuleCond env a label := by
      rw [← ruleMatched_true, hb]; simp
    exact ⟨fun _ k => h2 k.1, fun _ => .inl h1⟩

theorem first_iff {R : Reader} {is : List Item} {es : List Node} {g : Loaded} (hc : Common R is es g)
    {env : FullEnv} (hE : FullFaithful R.props g.rules.rs env) {label : Seq} (hp : Plain label)
    (hso : C106.Inhabited R.props is es) {as : List Action} (hone : ∀ a ∈ as, a.matchR = none ∨ a.notMatchR = none)
    (ha : ActsReady es as) {d : DispSet} {only : Bool} {types : Option String → Prop} (ht : ∀ t, t ∈ d ↔ types t)
    {o : Prop} (ho : only = true ↔ o) {s : String} {i : Int} :
    Decides env as label d only s i ↔ First R.props is es as label types o s i := by
  have hd : ∀ a ∈ defaultActions, a.matchR = none ∧ a.notMatchR = none := by decide
  have hall : ∀ a ∈ as ++ defaultActions,
      (Triggered env a label d only ↔ Fires R.props is es label types o a) ∧
      (NotTriggered env a label d only ↔ ¬ Fires R.props is es label types o a) := by
    intro a hm
    rcases List.mem_append.1 hm with hm | hm
    · exact fires_iff hc hE hp hso (hone a hm) (ha a hm) ht ho
    · refine fires_iff hc hE hp hso (.inl (hd a hm).1) ?_ ht ho
      intro r hr
      rw [(hd a hm).1, (hd a hm).2] at hr
      simp at hr
  unfold Decides First
  have e : defaults = defaultActions := rfl
  rw [e]
  constructor
  · rintro ⟨pre, a, post, h1, h2, h3, h4, h5⟩
    refine ⟨pre, a, post, h1, h2, h3, (hall a (by rw [h1]; simp)).1.1 h4, fun b hb => ?_⟩
    exact (hall b (by rw [h1]; simp [hb])).2.1 (h5 b hb)
  · rintro ⟨pre, a, post, h1, h2, h3, h4, h5⟩
    refine ⟨pre, a, post, h1, h2, h3, (hall a (by rw [h1]; simp)).1.2 h4, fun b hb => ?_⟩
    exact (hall b (by rw [h1]; simp [hb])).2.2 (h5 b hb)

theorem fires_congr {db : String → Except Err CpSet} {is : List Item} {es : List Node} {label : Seq}
    {types types' : Option String → Prop} {o o' : Prop} (ht : ∀ t, types t ↔ types' t)
    (ho : (∃ t, types t) → (o ↔ o')) (a : Action) :
    Fires db is es label types o a ↔ Fires db is es label types' o' a := by
  have : types = types' := funext fun t => propext (ht t)
  subst this
  unfold Fires
  refine and_congr_right fun _ => and_congr_right fun _ => and_congr_right fun _ => and_congr_right fun _ => ?_
  refine imp_congr_right fun _ => imp_congr_right fun _ => imp_congr_right fun _ => ?_
  constructor
  · rintro ⟨h1, h2, h3⟩; exact ⟨(ho h2).1 h1, h2, h3⟩
  · rintro ⟨h1, h2, h3⟩; exact ⟨(ho h2).2 h1, h2, h3⟩

theorem first_congr {db : String → Except Err CpSet} {is : List Item} {es : List Node} {as : List Action} {label : Seq}
    {types types' : Option String → Prop} {o o' : Prop} (ht : ∀ t, types t ↔ types' t)
    (ho : (∃ t, types t) → (o ↔ o')) {s : String} {i : Int} :
    First db is es as label types o s i ↔ First db is es as label types' o' s i := by
  unfold First
  simp only [fires_congr (db := db) (is := is) (es := es) (label := label) ht ho]

theorem acts_one {es : List Node} {as : List Action}
    (h : List.Forall₂ (fun e a => parseAction e = .ok a) es as) : ∀ a ∈ as, a.matchR = none ∨ a.notMatchR = none := by
  induction h with
  | nil => simp
  | cons h1 _ ih =>
    intro a ha
    rcases List.mem_cons.1 ha with rfl | ha
    · unfold parseAction at h1
      obtain ⟨h2, h3⟩ := C20.constructor_excludes_both _ _ h1
      rw [← h2] at h3
      by_cases hm : a.matchR = none
      · exact .inl hm
      · refine .inr ?_
        by_contra hn
        exact h3 ⟨hm, hn⟩
    · exact ih a ha

/-- Same order of words as in `Stands`, for the LGR read. -/
theorem stands_iff {R : Reader} {is : List Item} {es : List Node} {g : Loaded} (hc : Common R is es g)
    {env : Env} (hE : Faithful R.props g.rules.rs env) {label : Seq} (hp : Plain label)
    (hso : C106.Inhabited R.props is es) (hready : Ready es is)
    (hone : ∀ i ∈ is, i.attrs.whenR = none ∨ i.attrs.notWhenR = none)
    (hrep : ∀ k c, g.lgr.rep.lookup k = some c → ∃ i ∈ is, Holds i k c) {j : Nat} {c : CharObj} {i : Item}
    (hi : i ∈ is) (hl : g.lgr.rep.lookup c.cp = some c) (hh : Holds i c.cp c) :
    (j < label.length ∧ MatchesAt g.lgr.rep label j c ∧ CharCtx env label j c) ↔
      Stands R.props is es label j i c.cp := by
  have hctx : j < label.length → c.cp <+: label.drop j → (CharCtx env label j c ↔
      InContext R.props is es label i.attrs.whenR i.attrs.notWhenR j c.cp.length) := by
    intro h1 h2
    unfold CharCtx
    rw [hh.2.2.1]
    exact context_iff hc hE hp hso (hready i hi).1 (hone i hi) h1.le h2
  unfold Stands MatchesAt
  constructor
  · rintro ⟨h1, ⟨-, h2⟩, h3⟩
    exact ⟨h1, hi, hh.1, h2, (hctx h1 h2).1 h3⟩
  · rintro ⟨h1, -, -, h2, h3⟩
    exact ⟨h1, ⟨getChar_ok.2 hl, h2⟩, (hctx h1 h2).2 h3⟩

/-- **C107** (partial) The disposition of a label under the LGR read from a document is the one of the first action
of the document, followed by the default ones, whose conditions are met by the label and by the types of the mappings
of its code points to themselves. A label which does not pass the preliminary test is invalid. The test raises
nothing. Missing: mappings of what merely stands in the label count, too (see `inner_wrong`); and what is missing
in `document_labels_partial`. -/
theorem document_disposition_partial {R : Reader} {cs : Rfc7940.Results} {d : Doc} {g : Loaded} (h : Clear R cs d g)
    {is : List Item} (hm : Means d.data is) (hready : Ready (d.rules.getD []) is)
    {as : List Action} (has : Acts (d.rules.getD []) as) (htidy : ActsTidy (d.rules.getD []))
    (hacts : ActsReady (d.rules.getD []) as)
    (hso : C106.Inhabited R.props is (d.rules.getD [])) {env : FullEnv} (hE : FullFaithful R.props g.rules.rs env)
    {label : Seq} (hp : Plain label) (hne : label ≠ []) :
    ∃ p el, env.prelim g.lgr.rep label = .ok p ∧ env.testEligible g.lgr.rep g.rules.actions label = .ok el ∧
      (p.ok = false → el.ok = false ∧ el.disp = some "invalid" ∧ el.idx = -1) ∧
      (p.ok = true → ∃ s, el.disp = some s ∧ (el.ok = true ↔ s ≠ "invalid") ∧
        First R.props is (d.rules.getD []) as label (SelfTypes R.props is (d.rules.getD []) label)
          (AllSelf R.props is (d.rules.getD []) label) s el.idx) := by
  obtain ⟨hc, hfine, hin, hrep, hap⟩ := common_of h hm
  obtain ⟨cs1, hread, -⟩ := h.read
  have hactions := (doc_actions hread htidy).1 has
  have hone2 := acts_one (doc_parsed hread)
  rw [hactions] at hone2
  rw [hactions]
  have hwf := hc.state.1
  have hone : ∀ i ∈ is, i.attrs.whenR = none ∨ i.attrs.notWhenR = none := fun i hi => (hfine i hi).1.1
  have hdef := rules_defined hc hE.1 hready hrep
  obtain ⟨p, hpre⟩ := prelim_defined hwf hdef label
  have hA : ∀ l, C20.ActionRulesDefined env as l := by
    intro l a ha r hr
    obtain ⟨e, he, h1, h2, -⟩ := hacts a ha r hr
    exact found_defined hc hE he h1 h2 l
  obtain ⟨el, hel⟩ := C25.testEligible_defined hwf hdef hA false hne
  refine ⟨p, el, hpre, hel, fun hf => C49.rejected_disposition hel ?_, fun ht => ?_⟩
  · rintro ⟨p', h1, h2⟩
    rw [hpre] at h1
    cases h1
    rw [hf] at h2
    cases h2
  · obtain ⟨ds, only, s, h1, h2, h3, h4, h5⟩ := C49.reflexive_disposition hwf hel ⟨p, hpre, ht⟩
    refine ⟨s, h4, h5, ?_⟩
    have hself : ∀ {j : Nat} {c : CharObj} {i : Item}, i ∈ is → Holds i c.cp c → j < label.length →
        c.cp <+: label.drop j → ∀ v, ReflexiveAt env.toEnv label j c v ↔
          Self R.props is (d.rules.getD []) label j i c.cp v := by
      intro j c i hi hh hj hpfx v
      unfold ReflexiveAt Self
      rw [hh.2.2.2.2]
      refine and_congr_right fun hv => and_congr_right fun hcp => ?_
      rw [hcp]
      exact context_iff hc hE.1 hp hso ((hready i hi).2 v hv) ((hfine i hi).2.2.2.2.1 v hv).2.2.1 hj.le hpfx
    have hchar : ∀ {j : Nat} {i : Item} {k : Seq}, Stands R.props is (d.rules.getD []) label j i k →
        ∃ c, g.lgr.rep.lookup c.cp = some c ∧ Holds i c.cp c ∧ c.cp = k := by
      rintro j i k ⟨-, hi, hk, -, -⟩
      obtain ⟨c, hl⟩ := Option.isSome_iff_exists.1 ((hin k).2 ⟨i, hi, hk⟩)
      obtain ⟨i', hi', hh⟩ := hrep _ _ hl
      have hii : i' = i := by
        rcases apart_cases hap hi hi' with h | h | h
        · exact h.symm
        · exact absurd hh.1 (h _ hk)
        · exact absurd hk (h _ hh.1)
      subst hii
      have := hh.2.1
      rw [← this] at hl hh
      exact ⟨c, hl, hh, this⟩
    have htypes : ∀ t, t ∈ ds ↔ SelfTypes R.props is (d.rules.getD []) label t := by
      intro t
      rw [h1]
      constructor
      · rintro ⟨j, c, v, hj, hma, hctx, hr, hv⟩
        obtain ⟨i, hi, hh⟩ := hrep _ _ (getChar_ok.1 hma.1)
        exact ⟨j, i, c.cp, v, (stands_iff hc hE.1 hp hso hready hone hrep hi (getChar_ok.1 hma.1) hh).1 ⟨hj, hma, hctx⟩,
          (hself hi hh hj hma.2 v).1 hr, hv⟩
      · rintro ⟨j, i, k, v, hst, hsf, hv⟩
        obtain ⟨c, hl, hh, rfl⟩ := hchar hst
        obtain ⟨k1, k2, k3⟩ := (stands_iff hc hE.1 hp hso hready hone hrep hst.2.1 hl hh).2 hst
        exact ⟨j, c, v, k1, k2, k3, (hself hst.2.1 hh k1 k2.2 v).2 hsf, hv⟩
    have honly : (∃ t, SelfTypes R.props is (d.rules.getD []) label t) →
        (only = true ↔ AllSelf R.props is (d.rules.getD []) label) := by
      rintro ⟨t, hty⟩
      rw [h2]
      have hd0 : ds ≠ [] := by
        rintro rfl
        exact absurd ((htypes t).2 hty) (by simp)
      constructor
      · rintro ⟨-, hall⟩ j i k hst
        obtain ⟨c, hl, hh, rfl⟩ := hchar hst
        obtain ⟨k1, k2, k3⟩ := (stands_iff hc hE.1 hp hso hready hone hrep hst.2.1 hl hh).2 hst
        obtain ⟨v, hv⟩ := hall j c k1 k2 k3
        exact ⟨v, (hself hst.2.1 hh k1 k2.2 v).1 hv⟩
      · refine fun hall => ⟨hd0, fun j c hj hma hctx => ?_⟩
        obtain ⟨i, hi, hh⟩ := hrep _ _ (getChar_ok.1 hma.1)
        obtain ⟨v, hv⟩ := hall j i c.cp
          ((stands_iff hc hE.1 hp hso hready hone hrep hi (getChar_ok.1 hma.1) hh).1 ⟨hj, hma, hctx⟩)
        exact ⟨v, (hself hi hh hj hma.2 v).2 hv⟩
    refine (first_congr (fun t => Iff.rfl) honly).1 ?_
    exact (first_iff hc hE hp hso hone2 hacts htypes Iff.rfl).1 h3

/-! ## Single code points -/

/-- Types of the mappings to themselves of what the label is made of. -/
def MadeTypes (db : String → Except Err CpSet) (is : List Item) (es : List Node) (label : Seq)
    (ks : List (Item × Seq)) (t : Option String) : Prop :=
  ∃ pre p post v, ks = pre ++ p :: post ∧ Self db is es label (pre.flatMap Prod.snd).length p.1 p.2 v ∧ v.type = t

/-- All of what the label is made of has a mapping to itself. -/
def MadeSelf (db : String → Except Err CpSet) (is : List Item) (es : List Node) (label : Seq)
    (ks : List (Item × Seq)) : Prop :=
  ∀ pre p post, ks = pre ++ p :: post → ∃ v, Self db is es label (pre.flatMap Prod.snd).length p.1 p.2 v

theorem singles_length : ∀ {ks : List (Item × Seq)}, (∀ p ∈ ks, p.2.length = 1) → (ks.flatMap Prod.snd).length = ks.length
  | [], _ => rfl
  | p :: ks, h => by
    rw [List.flatMap_cons, List.length_append, singles_length (fun q hq => h q (List.mem_cons_of_mem _ hq)),
      h p List.mem_cons_self, List.length_cons]
    omega

theorem stands_made {db : String → Except Err CpSet} {is : List Item} {es : List Node} {label : Seq}
    {ks : List (Item × Seq)} (hks : Made db is es label ks) (hap : Apart is)
    (h1 : ∀ i ∈ is, ∀ k, i.Has k → k.length = 1) {o : Nat} {i : Item} {k : Seq} :
    Stands db is es label o i k ↔ ∃ pre post, ks = pre ++ (i, k) :: post ∧ (pre.flatMap Prod.snd).length = o := by
  have hlen : ∀ p ∈ ks, p.2.length = 1 := fun p hp => h1 _ (hks.has p hp).1 _ (hks.has p hp).2
  constructor
  · rintro ⟨ho, hi, hk, hpf, -⟩
    rw [← hks.concat, singles_length hlen] at ho
    have hsplit : ks = ks.take o ++ ks[o] :: ks.drop (o + 1) := by
      rw [List.getElem_cons_drop, List.take_append_drop]
    have hpl : ((ks.take o).flatMap Prod.snd).length = o := by
      rw [singles_length (fun p hp => hlen p (List.mem_of_mem_take hp)), List.length_take]
      omega
    have hmem : ks[o] ∈ ks := List.getElem_mem ho
    have hdrop : label.drop o = ks[o].2 ++ (ks.drop (o + 1)).flatMap Prod.snd := by
      rw [← hks.concat]
      conv_lhs => rw [hsplit]
      rw [List.flatMap_append, List.flatMap_cons, List.drop_left' hpl]
    have hkk : k = ks[o].2 := by
      rw [hdrop] at hpf
      have e1 := h1 i hi k hk
      have e2 := hlen _ hmem
      have : k <+: ks[o].2 := List.prefix_of_prefix_length_le hpf (List.prefix_append _ _) (by omega)
      exact this.eq_of_length (by omega)
    have hii : i = ks[o].1 := by
      obtain ⟨g1, g2⟩ := hks.has _ hmem
      rcases apart_cases hap hi g1 with h | h | h
      · exact h
      · rw [← hkk] at g2; exact absurd g2 (h _ hk)
      · rw [← hkk] at g2; exact absurd hk (h _ g2)
    refine ⟨ks.take o, ks.drop (o + 1), ?_, hpl⟩
    rw [hii, hkk]
    exact hsplit
  · rintro ⟨pre, post, rfl, ho⟩
    have hm : (i, k) ∈ pre ++ (i, k) :: post := by simp
    obtain ⟨hi, hk⟩ := hks.has _ hm
    have hcat := hks.concat
    rw [List.flatMap_append, List.flatMap_cons] at hcat
    have hl := h1 _ hi _ hk
    refine ⟨?_, hi, hk, ?_, ho ▸ hks.context pre _ post rfl⟩
    · rw [← hcat, List.length_append, List.length_append, ho]
      dsimp only at hl ⊢
      omega
    · rw [← hcat, ← ho, List.drop_left]
      exact List.prefix_append _ _

/-- **C107** (partial) With items of one code point each, labels have exactly the dispositions which the
document asks for: a label which is made of the items has the disposition of the first action whose conditions are met
by the label and the types of the mappings to themselves of the items it is made of; all others are invalid. -/
theorem single_disposition_partial {R : Reader} {cs : Rfc7940.Results} {d : Doc} {g : Loaded} (h : Clear R cs d g)
    {is : List Item} (hm : Means d.data is) (hready : Ready (d.rules.getD []) is)
    {as : List Action} (has : Acts (d.rules.getD []) as) (htidy : ActsTidy (d.rules.getD []))
    (hacts : ActsReady (d.rules.getD []) as)
    (hso : C106.Inhabited R.props is (d.rules.getD [])) {env : FullEnv} (hE : FullFaithful R.props g.rules.rs env)
    (h1 : ∀ i ∈ is, ∀ k, i.Has k → k.length = 1) {label : Seq} (hp : Plain label) (hne : label ≠ []) :
    ∃ el s, env.testEligible g.lgr.rep g.rules.actions label = .ok el ∧ el.disp = some s ∧
      (el.ok = true ↔ s ≠ "invalid") ∧
      ((∃ ks, Made R.props is (d.rules.getD []) label ks ∧
          First R.props is (d.rules.getD []) as label (MadeTypes R.props is (d.rules.getD []) label ks)
            (MadeSelf R.props is (d.rules.getD []) label ks) s el.idx) ∨
        (¬ ∃ ks, Made R.props is (d.rules.getD []) label ks) ∧ s = "invalid" ∧ el.idx = -1) := by
  obtain ⟨p, hpre, -, hiff, -⟩ := document_labels_partial h hm hready hso hE.1 hp
  have hiff := hiff (by
    intro i hi j hj k k' hk hk' hkk
    refine hkk.eq_of_length ?_
    rw [h1 i hi k hk, h1 j hj k' hk'])
  obtain ⟨p', el, hpre', hel, hrej, hacc⟩ := document_disposition_partial h hm hready has htidy hacts hso hE hp hne
  have hpp : p = p' := by
    have := hpre.symm.trans hpre'
    cases this
    rfl
  subst hpp
  cases hok : p.ok with
  | false =>
    obtain ⟨k1, k2, k3⟩ := hrej hok
    refine ⟨el, "invalid", hel, k2, by simp [k1], .inr ⟨?_, rfl, k3⟩⟩
    rw [← hiff, hok]
    simp
  | true =>
    obtain ⟨ks, hks⟩ := hiff.1 hok
    obtain ⟨s, k1, k2, k3⟩ := hacc hok
    obtain ⟨-, -, -, -, hap⟩ := common_of h hm
    refine ⟨el, s, hel, k1, k2, .inl ⟨ks, hks, ?_⟩⟩
    refine (first_congr (fun t => ?_) (fun _ => ?_)).1 k3
    · constructor
      · rintro ⟨o, i, k, v, hst, hsf, hv⟩
        obtain ⟨pre, post, e1, e2⟩ := (stands_made hks hap h1).1 hst
        exact ⟨pre, (i, k), post, v, e1, by rw [e2]; exact hsf, hv⟩
      · rintro ⟨pre, ⟨i, k⟩, post, v, e1, hsf, hv⟩
        exact ⟨_, i, k, v, (stands_made hks hap h1).2 ⟨pre, post, e1, rfl⟩, hsf, hv⟩
    · constructor
      · rintro hall pre ⟨i, k⟩ post e1
        exact hall _ i k ((stands_made hks hap h1).2 ⟨pre, post, e1, rfl⟩)
      · intro hall o i k hst
        obtain ⟨pre, post, e1, e2⟩ := (stands_made hks hap h1).1 hst
        obtain ⟨v, hv⟩ := hall pre (i, k) post e1
        exact ⟨v, by rw [← e2]; exact hv⟩

end Lgr.Props.C107

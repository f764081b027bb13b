import Verif.Props.RulesMeaning3

/-!
# C103: what a run maintains
-/

namespace Lgr.Props.C103
open Lgr Xml Text RulesXml C102 C42 C63 C101

/-! ## Specification: documents considered -/

/-- The element `d` is `n` or inside it. -/
inductive Within (d : Node) : Node → Prop where
  | self : Within d d
  | child (n c : Node) : c ∈ n.children → Within d c → Within d n

/-- The element `d` is `n` or inside it, but not inside a class. -/
inductive InRule (d : Node) : Node → Prop where
  | self : InRule d d
  | child (n c : Node) : isCls n = false → c ∈ n.children → InRule d c → InRule d n

/-- The properties used are known, and counts are in order (and not above 63). -/
def FineElem (db : String → Except Err CpSet) (e : Node) : Prop :=
  ∀ d, Within d e → (∀ p, dget d.attrs "property" = some p → ∃ s, db p = .ok s) ∧
    ∀ c, CountSays (dget d.attrs "count") c → C66.InOrder c

/-- In the rule, literals, choices and rules are not empty, and classes have code points. -/
def Solid (db : String → Except Err CpSet) (w : NWorld) (e : Node) : Prop :=
  ∀ d, InRule d e → (d.tag = "char" → ∀ cps, Spells d.attrs cps → cps ≠ []) ∧ (d.tag = "choice" → d.children ≠ []) ∧
    (d.tag = "rule" → dget d.attrs "by-ref" = none → d.children ≠ []) ∧
    (isCls d = true → ∃ x, x < 0x110000 ∧ NSet db w.sets d x)

/-- There is no anchor in the element or in the rules it refers to. -/
inductive NoAnchor (es : List Node) : Node → Prop where
  | mk (n : Node) : n.tag ≠ "anchor" → (∀ c ∈ n.children, NoAnchor es c) →
      (n.tag = "rule" → ∀ r, dget n.attrs "by-ref" = some r → ∀ e ∈ es, isRule e = true →
        dget e.attrs "name" = some r → NoAnchor es e) → NoAnchor es n

/-! ## Parts of what is made -/

theorem class_inv {attrs : XAttrs} {text : Option String} {ch : List Node} {k : Cls}
    (h : parseClass (.mk "class" attrs text ch) = .ok k) :
    ∃ b : BaseCls, k = .base b ∧ b.property = dget attrs "property" := by
  rw [parseClass, if_pos rfl] at h
  split at h
  · cases h
  · rename_i b hb
    split at h
    · cases h
    · rename_i b1 h1
      split at h
      · cases h
      · rename_i b2 h2
        cases h
        refine ⟨b2, rfl, ?_⟩
        have e0 := mkBase_ok hb
        have e1 : { b1 with codepoints := [] } = { b with codepoints := [] } := by
          split at h1
          · exact (addCps_lists h1).1
          · cases h1; rfl
        have e2 : { b2 with codepoints := [] } = { b with codepoints := [] } := (addAll_lists h2).1.trans e1
        exact (congrArg BaseCls.property e2).trans (congrArg BaseCls.property e0)

theorem class_known {db : String → Except Err CpSet} : ∀ n k, parseClass n = .ok k → FineElem db n →
    Every (Known db) (fun _ _ => True) k := by
  refine node_ind ?_
  intro tag attrs text children ih k h hf
  by_cases ht : tag = "class"
  · subst ht
    obtain ⟨b, rfl, hb⟩ := class_inv h
    intro p hp
    rw [hb] at hp
    exact (hf _ .self).1 p hp
  · rw [parseClass, if_neg ht] at h
    split at h
    · cases h
    · rename_i op hop
      split at h
      · cases h
      · rename_i cs hcs
        cases h
        obtain ⟨r, hr, hfa⟩ := parseClasses_forall hcs
        rw [List.nil_append] at hr
        subst hr
        refine ⟨trivial, ?_⟩
        have hf' : ∀ c ∈ children, FineElem db c := fun c hc d hd => hf d (.child _ c hc hd)
        clear hf hcs
        induction hfa with
        | nil => trivial
        | @cons n k ns ks h1 _ ih' =>
          exact ⟨ih n (by simp) k h1 (hf' n (by simp)), ih' (fun m hm => ih m (by simp [hm]))
            (fun m hm => hf' m (by simp [hm]))⟩

theorem partsL_of {P : Cls → Prop} {Q : Count → Prop} {s s' : RState} {ns : List Node} {ms : List Matcher}
    (h : Threaded s ns s' ms) (hP : ∀ n ∈ ns, ∀ s s' m, parseHelper s n = (s', .ok (some m)) → s'.bad = false →
      C66.Parts P Q m) : C66.PartsL P Q ms := by
  have := threaded_mem (P := fun _ m => C66.Parts P Q m) h hP
  clear h
  induction this with
  | nil => trivial
  | cons h1 _ ih => exact ⟨h1, ih (fun n hn => hP n (by simp [hn]))⟩

theorem helper_parts {db : String → Except Err CpSet} : ∀ (n : Node) (s s' : RState) (m : Matcher),
    parseHelper s n = (s', .ok (some m)) → s'.bad = false → FineElem db n →
    C66.Parts (Every (Known db) (fun _ _ => True)) C66.InOrder m := by
  refine node_ind ?_
  intro tag attrs text children ih s s' m h hb hf
  obtain ⟨c, hc, hm⟩ := made_of h
  have hcs : C66.InOrder c := (hf _ .self).2 c (count_iff.1 hc)
  have hf' : ∀ c ∈ children, FineElem db c := fun c hc d hd => hf d (.child _ c hc hd)
  have ih' : ∀ n ∈ children, ∀ s s' m, parseHelper s n = (s', .ok (some m)) → s'.bad = false →
      C66.Parts (Every (Known db) (fun _ _ => True)) C66.InOrder m :=
    fun n hn s s' m h hb => ih n hn s s' m h hb (hf' n hn)
  cases hm with
  | anchor ht => trivial
  | start ht => trivial
  | fin ht => trivial
  | any ht => exact hcs
  | char cps ht hg => exact hcs
  | cls k ht hk => exact ⟨hcs, class_known _ k hk hf⟩
  | choice _ ms ht hth => exact ⟨hcs, partsL_of (threaded_of hth hb) ih'⟩
  | ahead _ ms ht hth => exact partsL_of (threaded_of hth hb) ih'
  | behind _ ms ht hth => exact partsL_of (threaded_of hth hb) ih'
  | rule _ ms ht hth => exact ⟨hcs, partsL_of (threaded_of hth hb) ih'⟩

theorem rule_parts {db : String → Except Err CpSet} {e : Node} {m : Matcher} (h : RuleOf e m) (hf : FineElem db e) :
    C66.Parts (Every (Known db) (fun _ _ => True)) C66.InOrder m := by
  obtain ⟨s, s', ms, ht, hb, rfl⟩ := h
  exact ⟨trivial, partsL_of ht (fun n hn s s' m h hb => helper_parts n s s' m h hb
    (fun d hd => hf d (.child _ n hn hd)))⟩

/-! ## Runs -/

theorem mem_keys_dset {β : Type} {d : List (String × β)} {n x : String} {v : β}
    (h : x ∈ (dset d n v).map Prod.fst) : x = n ∨ x ∈ d.map Prod.fst := by
  rw [← dget_isSome, dget_dset] at h
  by_cases hx : n = x
  · exact .inl hx.symm
  · rw [if_neg hx] at h
    exact .inr (dget_isSome.1 h)

theorem step_cls {rs rs1 : RuleState} {e : Node} {es : List Node} {k : Cls} (hc : isCls e = true)
    (hk : parseClass e = .ok k) (ha : rs.addClass k false = (rs1, .ok ())) (hd : Distinct (e :: es))
    (hn : New rs.lk (e :: es)) : ∃ n, dget e.attrs "name" = some n ∧ RuleState.clsName k = some n ∧
      n ∉ rs.lk.classes.map Prod.fst ∧ (∀ t, n ≠ Cls.tagPrefix ++ t) ∧ n ∉ classNames es ∧
      rs1 = { rs with lk := { rs.lk with classes := dset rs.lk.classes n k } } ∧ Distinct es ∧ New rs1.lk es := by
  obtain ⟨n, h1, h2⟩ := addClass_named ha
  have h3 : dget e.attrs "name" = some n := (parseClass_name hk).symm.trans h1
  have hr := cls_not_rule hc
  have hcn := classNames_cls (es := es) hc h3
  have hrn := ruleNames_skip (es := es) hr
  obtain ⟨d1, d2, d3⟩ := hd
  obtain ⟨n1, n2⟩ := hn
  rw [hcn] at d1 d3 n1
  rw [hrn] at d2 n2
  rw [List.nodup_cons] at d1
  refine ⟨n, h3, h1, n1 n (by simp), d3 n (by simp), d1.1, h2, ⟨d1.2, d2, fun x hx => d3 x (by simp [hx])⟩, ?_, ?_⟩
  · intro x hx
    rw [h2]
    intro hm
    rcases mem_keys_dset hm with rfl | hm
    · exact d1.1 hx
    · exact n1 x (by simp [hx]) hm
  · rw [h2]; exact n2

theorem step_rule {db : String → Except Err CpSet} {fuel : Nat} {udb : Bool} {rs rs1 : RuleState} {e : Node}
    {es : List Node} {m : Matcher} (hr : isRule e = true) (hm : RuleOf e m)
    (ha : rs.parseRule db fuel udb m false = (rs1, .ok ())) (hd : Distinct (e :: es)) (hn : New rs.lk (e :: es)) :
    ∃ n, dget e.attrs "name" = some n ∧ n ∉ rs.lk.rules.map Prod.fst ∧ n ∉ ruleNames es ∧
      rs1.lk = { rs.lk with rules := dset rs.lk.rules n m } ∧ (rs.addRule m false).1.lk = rs1.lk ∧ Distinct es ∧
      New rs1.lk es := by
  obtain ⟨n, h1, h2, h3⟩ := parseRule_named hm ha
  have hc := not_cls_of_rule hr
  have hcn := classNames_skip (es := es) hc
  have hrn := ruleNames_rule (es := es) hr h1
  obtain ⟨d1, d2, d3⟩ := hd
  obtain ⟨n1, n2⟩ := hn
  rw [hcn] at d1 d3 n1
  rw [hrn] at d2 n2
  rw [List.nodup_cons] at d2
  refine ⟨n, h1, n2 n (by simp), d2.1, h2, h3, ⟨d1, d2.2, d3⟩, ?_, ?_⟩
  · rw [h2]; exact n1
  · intro x hx
    rw [h2]
    intro hm
    rcases mem_keys_dset hm with rfl | hm
    · exact d2.1 hx
    · exact n2 x (by simp [hx]) hm

theorem step_act {rs : RuleState} {e : Node} {es : List Node} (ha : isAct e = true) (hd : Distinct (e :: es))
    (hn : New rs.lk (e :: es)) : Distinct es ∧ New rs.lk es := by
  have hcn := classNames_skip (es := es) (not_cls_of_act ha)
  have hrn := ruleNames_skip (es := es) (not_rule_of_act ha)
  obtain ⟨d1, d2, d3⟩ := hd
  obtain ⟨n1, n2⟩ := hn
  rw [hcn] at d1 d3 n1
  rw [hrn] at d2 n2
  exact ⟨⟨d1, d2, d3⟩, n1, n2⟩

/-- The cache stays correct. -/
theorem run_inv65 {P : Parser} {obj : Obj} {rs rs' : RuleState} {es : List Node} (h : Run P obj rs es rs')
    (hd : Distinct es) (hn : New rs.lk es) (hI : C65.Inv P.db obj rs) : C65.Inv P.db obj rs' := by
  induction h with
  | nil rs => exact hI
  | cls rs rs1 rs2 e es k hc hk ha _ ih =>
    obtain ⟨n, -, g2, g3, g4, -, -, d, nw⟩ := step_cls hc hk ha hd hn
    refine ih d nw ?_
    have := C65.inv_run (fuel := P.fuel) hI (.cls k false) (by
      intro n' hn'
      rw [g2] at hn'
      cases hn'
      exact ⟨g3, g4⟩)
    simpa [C65.Op.run, ha] using this
  | rule rs rs1 rs2 e es m hr hm ho ha _ ih =>
    obtain ⟨n, g1, g2, -, -, -, d, nw⟩ := step_rule hr hm ha hd hn
    refine ih d nw ?_
    have := C65.inv_run (fuel := P.fuel) hI (.parse P.udb m false) (by
      refine ⟨ho, fun n' hn' => ?_⟩
      obtain ⟨s, s', ms, -, -, rfl⟩ := hm
      rw [C65.ruleName, g1] at hn'
      cases hn'
      exact g2)
    simpa [C65.Op.run, ha] using this
  | act rs rs2 e es ha _ ih =>
    obtain ⟨d, nw⟩ := step_act ha hd hn
    exact ih d nw hI

theorem inv66_congr {db : String → Except Err CpSet} {s s' : RuleState} {c r : String → Nat} (h : C66.Inv db s c r)
    (e : s.lk = s'.lk) : C66.Inv db s' c r := by
  obtain ⟨a, b, d⟩ := h
  rw [e] at a b d
  exact ⟨a, b, d⟩

/-- Definitions stay in order. -/
theorem run_inv66 {P : Parser} {obj : Obj} {rs rs' : RuleState} {es : List Node} (h : Run P obj rs es rs')
    (hd : Distinct es) (hn : New rs.lk es) (hf : ∀ e ∈ es, FineElem P.db e)
    (hI : ∃ c r, C66.Inv P.db rs c r) : ∃ c r, C66.Inv P.db rs' c r := by
  induction h with
  | nil rs => exact hI
  | cls rs rs1 rs2 e es k hc hk ha _ ih =>
    obtain ⟨n, -, g2, g3, g4, -, -, d, nw⟩ := step_cls hc hk ha hd hn
    refine ih d nw (fun e' he => hf e' (by simp [he])) ?_
    obtain ⟨c, r, hI⟩ := hI
    have := C66.inv_run hI (.cls (.cls k)) ⟨by
      intro n' hn'
      rw [g2] at hn'
      cases hn'
      exact ⟨g3, g4⟩, trivial⟩ (class_known e k hk (hf e (by simp)))
    simpa [C66.Call.run, C42.Call.run, ha] using this
  | rule rs rs1 rs2 e es m hr hm ho ha _ ih =>
    obtain ⟨n, g1, g2, -, -, g5, d, nw⟩ := step_rule hr hm ha hd hn
    refine ih d nw (fun e' he => hf e' (by simp [he])) ?_
    obtain ⟨c, r, hI⟩ := hI
    obtain ⟨c', r', h'⟩ := C66.inv_run hI (.rule m) ⟨by
      intro n' hn'
      obtain ⟨s, s', ms, -, -, rfl⟩ := hm
      rw [C65.ruleName, g1] at hn'
      cases hn'
      exact g2, trivial⟩ (rule_parts hm (hf e (by simp)))
    exact ⟨c', r', inv66_congr h' g5⟩
  | act rs rs2 e es ha _ ih =>
    obtain ⟨d, nw⟩ := step_act ha hd hn
    exact ih d nw (fun e' he => hf e' (by simp [he])) hI

/-- What is found under the names afterwards. -/
theorem run_lookup {P : Parser} {obj : Obj} {rs rs' : RuleState} {es : List Node} (h : Run P obj rs es rs')
    (hd : Distinct es) (hn : New rs.lk es) :
    (∀ n, n ∉ classNames es → dget rs'.lk.classes n = dget rs.lk.classes n) ∧
    (∀ n, n ∉ ruleNames es → dget rs'.lk.rules n = dget rs.lk.rules n) ∧
    (∀ e ∈ es, isCls e = true → ∃ n k, dget e.attrs "name" = some n ∧ parseClass e = .ok k ∧
      dget rs'.lk.classes n = some k) ∧
    (∀ e ∈ es, isRule e = true → ∃ n m, dget e.attrs "name" = some n ∧ RuleOf e m ∧
      dget rs'.lk.rules n = some m) ∧
    (∀ n m, dget rs'.lk.rules n = some m → dget rs.lk.rules n = some m ∨
      ∃ e ∈ es, isRule e = true ∧ dget e.attrs "name" = some n ∧ RuleOf e m) := by
  induction h with
  | nil rs => exact ⟨fun _ _ => rfl, fun _ _ => rfl, by simp, by simp, fun n m h => .inl h⟩
  | cls rs rs1 rs2 e es k hc hk ha _ ih =>
    obtain ⟨n, g1, g2, g3, g4, g5, g6, d, nw⟩ := step_cls hc hk ha hd hn
    obtain ⟨i1, i2, i3, i4, i5⟩ := ih d nw
    have hr := cls_not_rule hc
    refine ⟨?_, ?_, ?_, ?_, ?_⟩
    · intro x hx
      rw [classNames_cls hc g1, List.mem_cons, not_or] at hx
      rw [i1 x hx.2, g6]
      simp only
      rw [dget_dset, if_neg (fun e => hx.1 e.symm)]
    · intro x hx
      rw [ruleNames_skip hr] at hx
      rw [i2 x hx, g6]
    · intro e' he' hc'
      rcases List.mem_cons.1 he' with rfl | he'
      · refine ⟨n, k, g1, hk, ?_⟩
        rw [i1 n g5, g6]
        simp only
        rw [dget_dset, if_pos rfl]
      · exact i3 e' he' hc'
    · intro e' he' hr'
      rcases List.mem_cons.1 he' with rfl | he'
      · rw [hr] at hr'; cases hr'
      · exact i4 e' he' hr'
    · intro x m hx
      rcases i5 x m hx with h | ⟨e', h1, h2⟩
      · rw [g6] at h; exact .inl h
      · exact .inr ⟨e', by simp [h1], h2⟩
  | rule rs rs1 rs2 e es m hr hm ho ha _ ih =>
    obtain ⟨n, g1, g2, g3, g4, g5, d, nw⟩ := step_rule hr hm ha hd hn
    obtain ⟨i1, i2, i3, i4, i5⟩ := ih d nw
    have hc := not_cls_of_rule hr
    refine ⟨?_, ?_, ?_, ?_, ?_⟩
    · intro x hx
      rw [classNames_skip hc] at hx
      rw [i1 x hx, g4]
    · intro x hx
      rw [ruleNames_rule hr g1, List.mem_cons, not_or] at hx
      rw [i2 x hx.2, g4]
      simp only
      rw [dget_dset, if_neg (fun e => hx.1 e.symm)]
    · intro e' he' hc'
      rcases List.mem_cons.1 he' with rfl | he'
      · rw [hc] at hc'; cases hc'
      · exact i3 e' he' hc'
    · intro e' he' hr'
      rcases List.mem_cons.1 he' with rfl | he'
      · refine ⟨n, m, g1, hm, ?_⟩
        rw [i2 n g3, g4]
        simp only
        rw [dget_dset, if_pos rfl]
      · exact i4 e' he' hr'
    · intro x m' hx
      rcases i5 x m' hx with h | ⟨e', h1, h2⟩
      · rw [g4] at h
        simp only at h
        rw [dget_dset] at h
        split at h
        · rename_i hnx
          subst hnx
          cases h
          exact .inr ⟨e, by simp, hr, g1, hm⟩
        · exact .inl h
      · exact .inr ⟨e', by simp [h1], h2⟩
  | act rs rs2 e es ha _ ih =>
    obtain ⟨d, nw⟩ := step_act ha hd hn
    obtain ⟨i1, i2, i3, i4, i5⟩ := ih d nw
    refine ⟨?_, ?_, ?_, ?_, ?_⟩
    · intro x hx
      rw [classNames_skip (not_cls_of_act ha)] at hx
      exact i1 x hx
    · intro x hx
      rw [ruleNames_skip (not_rule_of_act ha)] at hx
      exact i2 x hx
    · intro e' he' hc'
      rcases List.mem_cons.1 he' with rfl | he'
      · rw [not_cls_of_act ha] at hc'; cases hc'
      · exact i3 e' he' hc'
    · intro e' he' hr'
      rcases List.mem_cons.1 he' with rfl | he'
      · rw [not_rule_of_act ha] at hr'; cases hr'
      · exact i4 e' he' hr'
    · intro x m hx
      rcases i5 x m hx with h | ⟨e', h1, h2⟩
      · exact .inl h
      · exact .inr ⟨e', by simp [h1], h2⟩

end Lgr.Props.C103

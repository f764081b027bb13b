import Verif.Props.RulesMeaning2

/-!
# C103: the section as a run
-/

namespace Lgr.Props.C103
open Lgr Xml Text RulesXml C102 C42 C63 C101

/-! ## Rules inside rules are objects of their own -/

/-- Objects: what is in the rule with an identity. -/
abbrev Obj := Nat → Option String × List Matcher

theorem upd_own {s s' : RState} {ns : List Node} {ms : List Matcher} (h : Threaded s ns s' ms)
    (hP : ∀ n ∈ ns, ∀ s s' m, parseHelper s n = (s', .ok (some m)) → s'.bad = false →
      s.nextId ≤ s'.nextId ∧ ∀ obj : Obj, ∃ obj' : Obj, (∀ i < s.nextId, obj' i = obj i) ∧
        ∀ obj'' : Obj, (∀ i < s'.nextId, obj'' i = obj' i) → C65.Own obj'' m) :
    s.nextId ≤ s'.nextId ∧ ∀ obj : Obj, ∃ obj' : Obj, (∀ i < s.nextId, obj' i = obj i) ∧
      ∀ obj'' : Obj, (∀ i < s'.nextId, obj'' i = obj' i) → C65.OwnL obj'' ms := by
  induction h with
  | nil s => exact ⟨le_refl _, fun obj => ⟨obj, fun _ _ => rfl, fun _ _ => trivial⟩⟩
  | cons s s1 s2 n ns m ms h1 h2 _ ih =>
    obtain ⟨a1, a2⟩ := hP n (by simp) _ _ _ h1 h2
    obtain ⟨b1, b2⟩ := ih (fun n' hn => hP n' (by simp [hn]))
    refine ⟨a1.trans b1, fun obj => ?_⟩
    obtain ⟨o1, c1, c2⟩ := a2 obj
    obtain ⟨o2, d1, d2⟩ := b2 o1
    refine ⟨o2, fun i hi => (d1 i (by omega)).trans (c1 i hi), fun o h => ⟨?_, d2 o h⟩⟩
    exact c2 o (fun i hi => (h i (by omega)).trans (d1 i hi))

theorem helper_own : ∀ (n : Node) (s s' : RState) (m : Matcher), parseHelper s n = (s', .ok (some m)) →
    s'.bad = false → s.nextId ≤ s'.nextId ∧ ∀ obj : Obj, ∃ obj' : Obj, (∀ i < s.nextId, obj' i = obj i) ∧
      ∀ obj'' : Obj, (∀ i < s'.nextId, obj'' i = obj' i) → C65.Own obj'' m := by
  refine node_ind ?_
  intro tag attrs text children ih s s' m h hb
  obtain ⟨c, -, hm⟩ := made_of h
  have simple : ∀ {m}, (∀ obj, C65.Own obj m) → s.nextId ≤ s.nextId ∧ ∀ obj : Obj, ∃ obj' : Obj,
      (∀ i < s.nextId, obj' i = obj i) ∧ ∀ obj'' : Obj, (∀ i < s.nextId, obj'' i = obj' i) → C65.Own obj'' m :=
    fun hm => ⟨le_refl _, fun obj => ⟨obj, fun _ _ => rfl, fun o _ => hm o⟩⟩
  cases hm with
  | anchor ht => exact simple (fun _ => trivial)
  | start ht => exact simple (fun _ => trivial)
  | fin ht => exact simple (fun _ => trivial)
  | any ht => exact simple (fun _ => trivial)
  | char cps ht hg => exact simple (fun _ => trivial)
  | cls k ht hk => exact simple (fun _ => trivial)
  | choice _ ms ht hth => exact upd_own (threaded_of hth hb) ih
  | ahead _ ms ht hth => exact upd_own (threaded_of hth hb) ih
  | behind _ ms ht hth => exact upd_own (threaded_of hth hb) ih
  | rule _ ms ht hth =>
    obtain ⟨a1, a2⟩ := upd_own (threaded_of hth hb) ih
    simp only at a1 a2
    refine ⟨by omega, fun obj => ?_⟩
    obtain ⟨o, h1, h2⟩ := a2 (fun i => if i = s.nextId then (dget attrs "by-ref", ms) else obj i)
    refine ⟨o, fun i hi => ?_, fun o' ho => ⟨?_, h2 o' ho⟩⟩
    · rw [h1 i (by omega), if_neg (by omega)]
    · rw [ho _ (by omega), h1 _ (by omega), if_pos rfl]

/-- A rule made of an element of the section. -/
def RuleOf (e : Node) (m : Matcher) : Prop :=
  ∃ (s s' : RState) (ms : List Matcher), Threaded { s with nextId := s.nextId + 1 } e.children s' ms ∧ s'.bad = false ∧
    m = .rule s.nextId (dget e.attrs "name") (dget e.attrs "by-ref") ms .none

theorem ruleElem_inv {s s' : RState} {n : Node} {m : Matcher} (h : parseRuleElem s n = (s', .ok m))
    (hb : s'.bad = false) : ∃ ms, Threaded { s with nextId := s.nextId + 1 } n.children s' ms ∧
    m = .rule s.nextId (dget n.attrs "name") (dget n.attrs "by-ref") ms .none := by
  unfold parseRuleElem at h
  split at h
  · cases h
  · rcases hp : parseHelpers (dget n.attrs "by-ref").isSome { s with nextId := s.nextId + 1 } n.children with ⟨t, e | ms⟩
    · rw [hp] at h; cases h
    · rw [hp] at h
      cases h
      exact ⟨ms, threaded_of hp hb, rfl⟩

theorem ruleElem_own {s s' : RState} {n : Node} {m : Matcher} (h : parseRuleElem s n = (s', .ok m))
    (hb : s'.bad = false) : s.nextId ≤ s'.nextId ∧ ∀ obj : Obj, ∃ obj' : Obj, (∀ i < s.nextId, obj' i = obj i) ∧
      ∀ obj'' : Obj, (∀ i < s'.nextId, obj'' i = obj' i) → C65.Own obj'' m := by
  obtain ⟨ms, h1, rfl⟩ := ruleElem_inv h hb
  obtain ⟨a1, a2⟩ := upd_own h1 (fun n _ => helper_own n)
  simp only at a1 a2
  refine ⟨by omega, fun obj => ?_⟩
  obtain ⟨o, h1, h2⟩ := a2 (fun i => if i = s.nextId then (dget n.attrs "by-ref", ms) else obj i)
  refine ⟨o, fun i hi => ?_, fun o' ho => ⟨?_, h2 o' ho⟩⟩
  · rw [h1 i (by omega), if_neg (by omega)]
  · rw [ho _ (by omega), h1 _ (by omega), if_pos rfl]

/-! ## The run -/

/-- The section read element by element, without force and without unhandled elements. -/
inductive Run (P : Parser) (obj : Obj) : RuleState → List Node → RuleState → Prop where
  | nil (rs : RuleState) : Run P obj rs [] rs
  | cls (rs rs1 rs2 : RuleState) (e : Node) (es : List Node) (k : Cls) : isCls e = true → parseClass e = .ok k →
      rs.addClass k false = (rs1, .ok ()) → Run P obj rs1 es rs2 → Run P obj rs (e :: es) rs2
  | rule (rs rs1 rs2 : RuleState) (e : Node) (es : List Node) (m : Matcher) : isRule e = true → RuleOf e m →
      C65.Own obj m → rs.parseRule P.db P.fuel P.udb m false = (rs1, .ok ()) → Run P obj rs1 es rs2 →
      Run P obj rs (e :: es) rs2
  | act (rs rs2 : RuleState) (e : Node) (es : List Node) : isAct e = true → Run P obj rs es rs2 →
      Run P obj rs (e :: es) rs2

theorem item_bad {P : Parser} {s s1 : Rules × RState} {n : Node} (h : parseItem P s n = (s1, .ok ()))
    (hb : s1.2.bad = false) : s.2.bad = false := by
  rcases hc : isCls n with _ | _
  · rcases hr : isRule n with _ | _
    · rcases ha : isAct n with _ | _
      · rw [item_other hc hr ha] at h
        cases h
        cases hb
      · obtain ⟨a, -, -, -, -, h5⟩ := (item_act ha).1 h
        rw [← h5]; exact hb
    · obtain ⟨m, κ, h1, -⟩ := (item_rule hr).1 h
      obtain ⟨j, w, o, h'⟩ := rule_bad n s.2.nextId
      have := h' s.2.bad
      rw [h1] at this
      have e := congrArg RState.bad (Prod.mk.inj this).1
      rw [hb] at e
      simpa using (Bool.or_eq_false_iff.1 e.symm).1
  · obtain ⟨k, -, -, -, -, -, h6⟩ := (item_cls hc).1 h
    rw [← h6]; exact hb

theorem items_bad {P : Parser} : ∀ {es : List Node} {s s' : Rules × RState},
    parseRules P s es = (s', .ok ()) → s'.2.bad = false → s.2.bad = false := by
  intro es
  induction es with
  | nil => intro s s' h hb; cases h; exact hb
  | cons n es ih =>
    intro s s' h hb
    obtain ⟨s1, h1, h2⟩ := forEach_cons.1 h
    exact item_bad h1 (ih h2 hb)

theorem run_of {P : Parser} (hf : P.force = false) : ∀ {es : List Node} {s s' : Rules × RState},
    parseRules P s es = (s', .ok ()) → s'.2.bad = false →
    s.2.nextId ≤ s'.2.nextId ∧ ∀ obj : Obj, ∃ obj' : Obj, (∀ i < s.2.nextId, obj' i = obj i) ∧
      ∀ obj'' : Obj, (∀ i < s'.2.nextId, obj'' i = obj' i) → Run P obj'' s.1.rs es s'.1.rs := by
  intro es
  induction es with
  | nil =>
    intro s s' h hb
    cases h
    exact ⟨le_refl _, fun obj => ⟨obj, fun _ _ => rfl, fun _ _ => .nil _⟩⟩
  | cons n es ih =>
    intro s s' h hb
    obtain ⟨s1, h1, h2⟩ := forEach_cons.1 h
    have hb1 := items_bad h2 hb
    obtain ⟨i1, i2⟩ := ih h2 hb
    rcases hc : isCls n with _ | _
    · rcases hr : isRule n with _ | _
      · rcases ha : isAct n with _ | _
        · rw [item_other hc hr ha] at h1
          cases h1
          cases hb1
        · obtain ⟨a, -, g1, g2, -, h5⟩ := (item_act ha).1 h1
          have e : s1.1.rs = s.1.rs := by
            simp only [cpart, rpart, Prod.mk.injEq] at g1 g2
            obtain ⟨⟨⟨⟨a0, a⟩, b⟩, c⟩, d⟩ := s
            obtain ⟨⟨⟨⟨a0', a'⟩, b'⟩, c'⟩, d'⟩ := s1
            simp_all
          rw [h5] at i1 i2
          refine ⟨i1, fun obj => ?_⟩
          obtain ⟨o, j1, j2⟩ := i2 obj
          refine ⟨o, j1, fun o' ho => .act _ _ _ _ ha ?_⟩
          rw [← e]; exact j2 o' ho
      · have h1' := h1
        have hn1 : ¬ (n.tag = "class" ∨ (combOf n.tag).isSome) := by simpa [isCls] using hc
        have hn2 : n.tag = "rule" := by simpa [isRule] using hr
        rw [parseItem, if_neg hn1, if_pos hn2] at h1'
        rcases hm : parseRuleElem s.2 n with ⟨t, e | m⟩
        · rw [hm] at h1'; cases h1'
        · rw [hm] at h1'
          dsimp only at h1'
          rcases hp : s.1.rs.parseRule P.db P.fuel P.udb m P.force with ⟨rs, e | u⟩
          · rw [hp] at h1'; cases h1'
          · rw [hp] at h1'
            cases h1'
            obtain ⟨a1, a2⟩ := ruleElem_own hm hb1
            obtain ⟨ms, b1, b2⟩ := ruleElem_inv hm hb1
            simp only at i1 i2 a1
            refine ⟨a1.trans i1, fun obj => ?_⟩
            obtain ⟨o1, c1, c2⟩ := a2 obj
            obtain ⟨o2, d1, d2⟩ := i2 o1
            refine ⟨o2, fun i hi => (d1 i (by omega)).trans (c1 i hi), fun o ho => ?_⟩
            refine .rule _ _ _ n es m hr ⟨s.2, t, ms, b1, hb1, b2⟩ (c2 o (fun i hi => ?_)) (by rw [← hf]; exact hp) (d2 o ho)
            exact (ho i (by omega)).trans (d1 i hi)
    · have h1' := h1
      have hn1 : n.tag = "class" ∨ (combOf n.tag).isSome := by simpa [isCls] using hc
      rw [parseItem, if_pos hn1] at h1'
      cases hk : parseClass n with
      | error e => rw [hk] at h1'; cases h1'
      | ok k =>
        rw [hk] at h1'
        dsimp only at h1'
        rcases hp : s.1.rs.addClass k P.force with ⟨rs, e | u⟩
        · rw [hp] at h1'; cases h1'
        · rw [hp] at h1'
          cases h1'
          refine ⟨i1, fun obj => ?_⟩
          obtain ⟨o, j1, j2⟩ := i2 obj
          exact ⟨o, j1, fun o' ho => .cls _ _ _ n es k hc hk (by rw [← hf]; exact hp) (j2 o' ho)⟩

/-! ## Names -/

/-- The names given to the rules of the section. -/
def ruleNames (es : List Node) : List String := (es.filter isRule).filterMap (fun n => dget n.attrs "name")

/-- No class and no rule is defined twice, and no class takes the name of a tag. -/
structure Distinct (es : List Node) : Prop where
  cls : (classNames es).Nodup
  rule : (ruleNames es).Nodup
  tag : ∀ n ∈ classNames es, ∀ t, n ≠ Cls.tagPrefix ++ t

/-- No name of the section is defined yet. -/
def New (lk : Lookups) (es : List Node) : Prop :=
  (∀ n ∈ classNames es, n ∉ lk.classes.map Prod.fst) ∧ ∀ n ∈ ruleNames es, n ∉ lk.rules.map Prod.fst

theorem classNames_cls {e : Node} {es : List Node} {n : String} (h : isCls e = true) (hn : dget e.attrs "name" = some n) :
    classNames (e :: es) = n :: classNames es := by
  rw [classNames_cons, if_pos h, hn]

theorem ruleNames_rule {e : Node} {es : List Node} {n : String} (h : isRule e = true)
    (hn : dget e.attrs "name" = some n) : ruleNames (e :: es) = n :: ruleNames es := by
  simp [ruleNames, List.filter_cons, h, hn]

theorem classNames_skip {e : Node} {es : List Node} (h : isCls e = false) : classNames (e :: es) = classNames es := by
  rw [classNames_cons, h]; rfl

theorem ruleNames_skip {e : Node} {es : List Node} (h : isRule e = false) : ruleNames (e :: es) = ruleNames es := by
  simp [ruleNames, List.filter_cons, h]

theorem cls_not_rule {e : Node} (h : isCls e = true) : isRule e = false := by
  cases hr : isRule e with
  | false => rfl
  | true => rw [not_cls_of_rule hr] at h; cases h

/-- An unforced class or rule has a name, and is found under it afterwards. -/
theorem addClass_named {rs rs1 : RuleState} {k : Cls} (h : rs.addClass k false = (rs1, .ok ())) :
    ∃ n, RuleState.clsName k = some n ∧ rs1 = { rs with lk := { rs.lk with classes := dset rs.lk.classes n k } } := by
  obtain ⟨h1, h2⟩ := addClass_iff.1 h
  have hv := h1.resolve_right (by simp)
  have hn := ((validate_exact _ k true).1 hv).1
  obtain ⟨n, hn⟩ := Option.isSome_iff_exists.1 hn
  refine ⟨n, hn, ?_⟩
  rw [h2, put, hn]

theorem addRule_named {rs rs1 : RuleState} {i : Nat} {nm br : Option String} {ms : List Matcher} {c : Count}
    (h : rs.addRule (.rule i nm br ms c) false = (rs1, .ok ())) : ∃ n, nm = some n ∧
      rs1 = { rs with lk := { rs.lk with rules := dset rs.lk.rules n (.rule i nm br ms c) } } := by
  obtain ⟨h1, h2⟩ := addRule_iff.1 h
  have hv := h1.resolve_right (by simp)
  cases nm with
  | none =>
    rw [Matcher.validate] at hv
    split at hv
    · cases hv
    · rw [if_pos (by simp)] at hv; cases hv
  | some n => exact ⟨n, rfl, h2⟩

theorem parseRule_named {db : String → Except Err CpSet} {fuel : Nat} {udb : Bool} {rs rs1 : RuleState} {e : Node}
    {m : Matcher} (hm : RuleOf e m) (h : rs.parseRule db fuel udb m false = (rs1, .ok ())) : ∃ n,
      dget e.attrs "name" = some n ∧ rs1.lk = { rs.lk with rules := dset rs.lk.rules n m } ∧
      (rs.addRule m false).1.lk = rs1.lk := by
  obtain ⟨s, s', ms, -, -, rfl⟩ := hm
  unfold RuleState.parseRule at h
  split at h
  · rcases hp : Matcher.precalculate db rs.lk fuel (.rule s.nextId (dget e.attrs "name") (dget e.attrs "by-ref") ms .none)
      rs.cache with ⟨κ, e' | u⟩
    · rw [hp] at h; cases h
    · rw [hp] at h
      dsimp only at h
      obtain ⟨n, h1, h2⟩ := addRule_named h
      refine ⟨n, h1, by rw [h2], ?_⟩
      obtain ⟨g1, g2⟩ := addRule_iff.1 h
      have : rs.addRule (.rule s.nextId (dget e.attrs "name") (dget e.attrs "by-ref") ms .none) false =
          ({ rs with lk := rs1.lk }, .ok ()) := by
        rw [addRule_iff]
        refine ⟨g1, ?_⟩
        rw [g2]
      rw [this]
  · obtain ⟨n, h1, h2⟩ := addRule_named h
    exact ⟨n, h1, by rw [h2], by rw [h]⟩

end Lgr.Props.C103

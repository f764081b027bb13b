import Verif.Props.DocReport
import Verif.Props.CollisionReports4

/-!
# C162: the full report on collisions, with the dump of variants, under a document which passes the checks
-/

namespace Lgr.Props.C162
open Lgr Xml Text Repertoire LGR RulesXml FullEnv C103 DocXml C105 C106 C107 C152 C153
open C101 hiding before after
open C111 hiding VarDisp OwnDisp varDisp_of own_of
open Validate Collisions LabelInput
open C156 (Alike NoConditions Orderly orderly)
open C157 (Good outcome)

/-! ## Specification -/

/-- A TLD is read without error. -/
def IsTld (tlds : Option (List Read)) (l : Seq) : Prop := ∃ t, tlds = some t ∧ ∃ r ∈ t, r.valid = true ∧ r.label = l

/-- A label or a TLD which is read without error, and passes. -/
def Any (db : String → Except Err CpSet) (is : List C105.Item) (es : List Node) (rs : List Read) (tlds : Option (List Read))
    (l : Seq) : Prop := (C112.Input rs l ∨ IsTld tlds l) ∧ Passes db is es l

/-- The report; `single` when labels which collide with nothing are listed too. -/
structure Told (db : String → Except Err CpSet) (is : List C105.Item) (es : List Node) (rs : List Read) (tlds : Option (List Read))
    (single : Bool) (out : List Line) : Prop where
  /-- The pairs of a label and another label or TLD which are alike. -/
  pairs : ∀ x y, (∃ b c c', .within b (x, c) (y, c') ∈ out ∨ .within b (y, c') (x, c) ∈ out) ↔
    x ≠ y ∧ Any db is es rs tlds x ∧ Any db is es rs tlds y ∧ (C112.Input rs x ∨ C112.Input rs y) ∧ Alike is x y
  /-- The first one is a label, the second one is said to be a TLD when it is not a label. -/
  named : ∀ b x c y c', .within b (x, c) (y, c') ∈ out → C112.Input rs x ∧ c = .primary ∧
    (C112.Input rs y ∧ c' = .primary ∧ b = false ∨ IsTld tlds y ∧ ¬ C112.Input rs y ∧ c' = .tld ∧ b = true)
  /-- No collision. -/
  nothing : noneInList ∈ out ↔ ∀ x y, Good db is es rs x → Good db is es rs y → x ≠ y → ¬ Alike is x y
  /-- The collisions are under the least label which is alike. -/
  indexes : ∀ k, .index k ∈ out ↔
    (single = true ∧ ∃ x, Any db is es rs tlds x ∧ IsLeast { m | Alike is x m } k) ∨
    ∃ x y, x ≠ y ∧ Any db is es rs tlds x ∧ Any db is es rs tlds y ∧ IsLeast { m | Alike is x m } k ∧ IsLeast { m | Alike is y m } k
  isTld : ∀ x, .isTld x ∈ out ↔ C112.Input rs x ∧ IsTld tlds x
  broken : ∀ x, .labelError x ∈ out ↔ C112.Broken rs x
  brokenTld : ∀ x, .tldError x ∈ out ↔ ∃ t, tlds = some t ∧ C112.Broken t x
  notIn : ∀ x n, .notIn n x ∈ out ↔ n = 0 ∧ C112.Input rs x ∧ ¬ Passes db is es x

/-- The dump. -/
structure Shown (db : String → Except Err CpSet) (is : List C105.Item) (es : List Node) (as : List Action) (lower : String → String)
    (rs : List Read) (tlds : Option (List Read)) (out : List Line) : Prop where
  /-- Each label is there. -/
  dump : ∀ p, .dump p ∈ out ↔ C112.Input rs p
  /-- Under a label is each other label which is alike, and whether it is one of the labels, a TLD, or none of these. -/
  dumped : ∀ p c x, .dumped p c x ∈ out ↔ C112.Input rs p ∧ x ≠ p ∧ Alike is p x ∧
    ((c = .primary ∧ C112.Input rs x) ∨ (c = .tld ∧ IsTld tlds x ∧ ¬ C112.Input rs x) ∨
      (c = .variant ∧ ¬ C112.Input rs x ∧ ¬ IsTld tlds x))
  /-- Dispositions are given for labels only. -/
  only : ∀ p, ¬ C112.Input rs p → (∀ x s, .dumpedDisp p x s ∉ out) ∧ ∀ s n, .count p s n ∉ out
  /-- Each of the labels which are alike has one disposition, which is the one of RFC 7940; the counts are those of the
  dispositions, including the one of the label itself. -/
  disps : ∀ p, C112.Input rs p → ∃ vs : List (Seq × String), (vs.map Prod.fst).Nodup ∧ (∀ x, x ∈ vs.map Prod.fst ↔ Alike is p x) ∧
    (∀ x s, .dumpedDisp p x s ∈ out ↔ x ≠ p ∧ (x, s) ∈ vs) ∧
    (∀ s n, .count p s n ∈ out ↔ 0 < n ∧ n = (vs.map (fun v => lower v.2)).count s) ∧
    (Room is p → ∀ x s, (x, s) ∈ vs → x ≠ p → ∃ us i, Replaces db is es p us ∧ Settled db is es us ∧ Tries db is es us ∧
      x = after us ∧ C153.VarDisp db is es as x (UseTypes us) (AllUsed us) (some s) i)

/-! ## Labels which are alike -/

/-- The variants of a label are the labels which are alike, whether these pass or not. -/
theorem variants_alike {is : List C105.Item} {r : Repertoire} (O : Orderly is r) {env : FullEnv} (hd : RulesDefined env.toEnv r)
    {p x : Seq} (hacc : Accepted env r p) : C18.VariantOf env r p x ↔ Alike is p x := by
  obtain ⟨pp, hpp, hpok⟩ := hacc
  have hseg := (C13.accepted_is_segmentation O.wf hpp hpok).1
  have hknown : ∀ y ∈ pp.chars.map CharObj.cp, C155.Listed is y := by
    intro y hy
    obtain ⟨c, hc, rfl⟩ := List.mem_map.1 hy
    exact (O.known _).1 ⟨c, hseg.stored c hc⟩
  constructor
  · intro hx
    obtain ⟨xs, hxs, hcls⟩ : ∃ xs : List Seq, xs.flatten = x ∧ List.Forall₂ (fun c y => Cls r c.cp y) pp.chars xs := by
      rcases hx with rfl | ⟨gs, hgs, g, hg, rfl⟩
      · refine ⟨pp.chars.map CharObj.cp, by rw [← hseg.concat, List.flatMap], ?_⟩
        rw [List.forall₂_map_right_iff, List.forall₂_same]
        exact fun c _ => .inl rfl
      · obtain ⟨ss, hr, hc, -⟩ := C22.generated_sound O.wf hgs hg
        have hu1 : ss.map (fun s => s.1) = pp.chars := by
          apply C24.segments_unique O.free
          · intro c hc
            obtain ⟨s, hs, rfl⟩ := List.mem_map.1 hc
            exact hr.stored s hs
          · exact hseg.stored
          · rw [hseg.concat, ← hr.concat]; simp [origOf, List.flatMap_map]
        have hval := C24.allSteps_valid hr.valid
        refine ⟨ss.map Step.out, by rw [hc, outOf, List.flatMap], ?_⟩
        rw [← hu1, List.forall₂_map_left_iff, List.forall₂_map_right_iff, List.forall₂_same]
        intro s hs'
        rw [cls_iff (hr.stored s hs')]
        unfold Step.out
        cases ho : s.2 with
        | none => exact Or.inl rfl
        | some v => exact Or.inr ⟨v, hval s hs' v ho, rfl⟩
    refine ⟨pp.chars.map CharObj.cp, xs, hseg.concat, hxs, hknown, fun y hy => ?_, ?_⟩
    · have : ∀ {cs : List CharObj} {ys : List Seq}, List.Forall₂ (fun c y => Cls r c.cp y) cs ys →
          (∀ c ∈ cs, C155.Listed is c.cp) → ∀ y ∈ ys, C155.Listed is y := by
        intro cs ys h
        induction h with
        | nil => intro _ y hy; cases hy
        | cons h1 _ ih =>
          intro hk y hy
          rcases List.mem_cons.1 hy with rfl | hy
          · rcases Cls.symm O.symm h1 with rfl | ⟨c, hc, -⟩
            · exact hk _ List.mem_cons_self
            · exact (O.known _).1 ⟨c, hc⟩
          · exact ih (fun c hc => hk c (List.mem_cons_of_mem _ hc)) y hy
      exact this hcls (fun c hc => hknown _ (List.mem_map_of_mem hc)) y hy
    · rw [List.forall₂_map_left_iff]
      exact hcls.imp fun c y h => (O.same _ _).1 h
  · rintro ⟨xs, ys, k1, k2, k3, k4, k5⟩
    have e1 : xs = pp.chars.map CharObj.cp := flatten_unique O.free
      (fun x hx => (O.known _).2 (k3 x hx)) (fun x hx => (O.known _).2 (hknown x hx)) (k1.trans hseg.concat.symm)
    rw [e1, List.forall₂_map_left_iff] at k5
    have hcls : List.Forall₂ (fun c y => Cls r c.cp y) pp.chars ys := k5.imp fun c y h => (O.same _ _).2 h
    obtain ⟨gs, hgs⟩ := genVariants_defined O.wf hd false p
    have hgs2 := hgs
    rw [← hseg.concat] at hgs2
    rcases classes_generated O.wf O.free O.uncond hseg.stored hcls hgs2 with h1 | ⟨g, hg, hgc⟩
    · left; rw [← k2, h1, hseg.concat]
    · exact .inr ⟨gs, hgs, g, hg, hgc.trans k2⟩

/-! ## The report -/

/-- The lines of C113 on collisions, with what is known about the indexes. -/
theorem told_of {db : String → Except Err CpSet} {is : List C105.Item} {es : List Node} {rs : List Read} {tlds : Option (List Read)}
    {index : Seq → Except Err Seq} {single : Bool} {out : List Line}
    (hyes : ∀ l, C112.Input rs l ∨ C113.Tld tlds l → Passes db is es l → ∃ i, index l = .ok i ∧ IsLeast { m | Alike is l m } i)
    (hno : ∀ l, C112.Input rs l ∨ C113.Tld tlds l → ¬ Passes db is es l → ∃ s, index l = .error (.notInLGR s))
    (hrel : ∀ x y, C112.Input rs x ∨ C113.Tld tlds x → C112.Input rs y ∨ C113.Tld tlds y →
      (C112.Same index x y ↔ Passes db is es x ∧ Passes db is es y ∧ Alike is x y))
    (ho : C113.Opening index rs tlds out) (hr : C113.Reported index (C112.Input rs) (C113.Tld tlds) single out) :
    Told db is es rs tlds single out := by
  have hpass : ∀ l, C112.Input rs l ∨ C113.Tld tlds l → ∀ k, (index l = .ok k ↔ Passes db is es l ∧ IsLeast { m | Alike is l m } k) := by
    intro l hl k
    constructor
    · intro hk
      by_cases hp : Passes db is es l
      · obtain ⟨i, h1, h2⟩ := hyes l hl hp
        rw [hk] at h1
        cases h1
        exact ⟨hp, h2⟩
      · obtain ⟨s, hs⟩ := hno l hl hp
        rw [hk] at hs
        cases hs
    · rintro ⟨hp, hk⟩
      obtain ⟨i, h1, h2⟩ := hyes l hl hp
      rw [h1, h2.unique hk]
  refine ⟨fun x y => ?_, hr.named, ?_, fun k => ?_, ho.isTld, ho.labelError, ho.tldError, fun x n => ?_⟩
  · rw [hr.pairs]
    refine and_congr_right fun _ => ⟨?_, ?_⟩
    · rintro ⟨hs, ⟨a, b⟩ | ⟨a, b⟩⟩
      · obtain ⟨p1, p2, p3⟩ := (hrel x y (.inl a) b).1 hs
        exact ⟨⟨.inl a, p1⟩, ⟨b, p2⟩, .inl a, p3⟩
      · obtain ⟨p1, p2, p3⟩ := (hrel x y b (.inl a)).1 hs
        exact ⟨⟨b, p1⟩, ⟨.inl a, p2⟩, .inr a, p3⟩
    · rintro ⟨⟨a, p1⟩, ⟨b, p2⟩, hi, p3⟩
      exact ⟨(hrel x y a b).2 ⟨p1, p2, p3⟩, hi.imp (⟨·, b⟩) (⟨·, a⟩)⟩
  · rw [hr.nothing]
    constructor
    · rintro hall x y ⟨a, p1⟩ ⟨b, p2⟩ hne hal
      exact hall x y a b hne ((hrel x y (.inl a) (.inl b)).2 ⟨p1, p2, hal⟩)
    · intro hall x y a b hne hs
      obtain ⟨p1, p2, p3⟩ := (hrel x y (.inl a) (.inl b)).1 hs
      exact hall x y ⟨a, p1⟩ ⟨b, p2⟩ hne p3
  · rw [hr.indexes]
    refine or_congr (and_congr_right fun _ => exists_congr fun x => ⟨?_, ?_⟩)
      (exists_congr fun x => exists_congr fun y => and_congr_right fun _ => ⟨?_, ?_⟩)
    · rintro ⟨a, e⟩
      obtain ⟨p, q⟩ := (hpass x a k).1 e
      exact ⟨⟨a, p⟩, q⟩
    · rintro ⟨⟨a, p⟩, q⟩
      exact ⟨a, (hpass x a k).2 ⟨p, q⟩⟩
    · rintro ⟨a, b, e, e'⟩
      obtain ⟨p, q⟩ := (hpass x a k).1 e
      obtain ⟨p', q'⟩ := (hpass y b k).1 e'
      exact ⟨⟨a, p⟩, ⟨b, p'⟩, q, q'⟩
    · rintro ⟨⟨a, p⟩, ⟨b, p'⟩, q, q'⟩
      exact ⟨a, b, (hpass x a k).2 ⟨p, q⟩, (hpass y b k).2 ⟨p', q'⟩⟩
  · rw [ho.notIn]
    refine and_congr_right fun _ => and_congr_right fun a => ⟨?_, hno x (.inl a)⟩
    rintro ⟨s, hs⟩ hp
    obtain ⟨i, hi, -⟩ := hyes x (.inl a) hp
    rw [hi] at hs
    cases hs

theorem disp_some {db : String → Except Err CpSet} {is : List C105.Item} {es : List Node} {as : List Action} {x : Seq}
    {types : Option String → Prop} {only : Prop} {d : Option String} {i : Int} (h : C153.VarDisp db is es as x types only d i) :
    d = some (d.getD "None") := by
  rcases h with ⟨-, rfl, -⟩ | ⟨-, -, rfl⟩ | ⟨-, -, s, rfl, -⟩ <;> rfl

/-- **C162** The report on collisions, `collision`, under a document which passes the checks, without conditions on variants and
overlapping sequences. Without a dump, the pairs are those of labels which are alike, the labels which do not pass are said not to
be in the LGR. With a dump, if all labels pass, the pairs are the same ones, under each label are exactly the
labels which are alike, each with its disposition, and the dispositions are counted. -/
theorem checked_full {R : Reader} {cs : Rfc7940.Results} {d : Doc} {g : Loaded} (h : Clear R cs d g)
    {is : List C105.Item} (hm : Means d.data is) (hready : Ready (d.rules.getD []) is)
    {as : List Action} (has : Acts (d.rules.getD []) as) (htidy : ActsTidy (d.rules.getD []))
    (hacts : ActsReady (d.rules.getD []) as)
    (hso : C106.Inhabited R.props is (d.rules.getD [])) (hb : NoBeginning is) (hc : NoConditions is)
    {ign : Bool} {es : List SymEntry} (h1 : (checkSymmetry R.db g.lgr ign).2 = .ok (true, es))
    {es' : List TransEntry} (h2 : (checkTransitivity R.db g.lgr).2 = .ok (true, es'))
    {env : FullEnv} (hE : FullFaithful R.props g.rules.rs env)
    (order : List Seq → List Seq) (ho : C112.Order order) (lower : String → String) (log : Seq → Seq → String)
    (rs : List Read) (tlds : Option (List Read)) (quiet : Bool)
    (hin : ∀ l, C112.Input rs l ∨ IsTld tlds l → C106.Plain l ∧ l ≠ []) :
    (∃ out, collision order lower (indexOf env g.lgr.rep) (dispoOf env g.lgr.rep g.rules.actions log) rs tlds false quiet = (out, .ok ()) ∧
      Told R.props is (d.rules.getD []) rs tlds false out) ∧
    ((∀ l, C112.Input rs l ∨ IsTld tlds l → Passes R.props is (d.rules.getD []) l) →
      ∃ out, collision order lower (indexOf env g.lgr.rep) (dispoOf env g.lgr.rep g.rules.actions log) rs tlds true quiet = (out, .ok ()) ∧
        Told R.props is (d.rules.getD []) rs tlds true out ∧ Shown R.props is (d.rules.getD []) as lower rs tlds out) := by
  obtain ⟨cs1, hread, -⟩ := h.read
  have O := orderly (C155.facts h.force h.tidy hread hm) hb hc h1 h2
  have S := setting_of h hm hready hso
  have hdef := rules_defined S.common hE.1 hready S.hrep
  have hactions := (doc_actions hread htidy).1 has
  have hA : ∀ l, C20.ActionRulesDefined env g.rules.actions l := by
    rw [hactions]
    intro l a ha r hr
    obtain ⟨e, he, h1, h2, -⟩ := hacts a ha r hr
    exact found_defined S.common hE he h1 h2 l
  have hD : C113.Defined env g.lgr.rep g.rules.actions := ⟨O.wf, hdef, hA⟩
  have hfit : ∀ l, (C112.Input rs l ∨ C113.Tld tlds l) → C113.Fits l := fun l hl => ⟨(hin l hl).2, (hin l hl).1.1⟩
  have hyes : ∀ l, C112.Input rs l ∨ C113.Tld tlds l → Passes R.props is (d.rules.getD []) l →
      ∃ i, indexOf env g.lgr.rep l = .ok i ∧ IsLeast { m | Alike is l m } i := fun l hl hp =>
    C156.checked_index h hm hready hso hb hc h1 h2 hE.1 (hin l hl).2 (hin l hl).1 hp
  have hno : ∀ l, C112.Input rs l ∨ C113.Tld tlds l → ¬ Passes R.props is (d.rules.getD []) l →
      ∃ s, indexOf env g.lgr.rep l = .error (.notInLGR s) := fun l hl =>
    (outcome h hm hready hso hE.1 (hin l hl).1 (hin l hl).2).2
  have hrel : ∀ x y, C112.Input rs x ∨ C113.Tld tlds x → C112.Input rs y ∨ C113.Tld tlds y →
      (C112.Same (indexOf env g.lgr.rep) x y ↔ Passes R.props is (d.rules.getD []) x ∧ Passes R.props is (d.rules.getD []) y ∧ Alike is x y) := by
    intro x y hx hy
    obtain ⟨a1, a2⟩ := hin x hx
    obtain ⟨b1, b2⟩ := hin y hy
    constructor
    · rintro ⟨k, k1, k2⟩
      have pass : ∀ {z}, C112.Input rs z ∨ C113.Tld tlds z → indexOf env g.lgr.rep z = .ok k → Passes R.props is (d.rules.getD []) z := by
        intro z z1 z3
        by_contra hn
        obtain ⟨s, hs⟩ := hno z z1 hn
        rw [hs] at z3
        cases z3
      have p1 := pass hx k1
      have p2 := pass hy k2
      obtain ⟨i, i', e1, e2, e3⟩ := C156.checked_collisions h hm hready hso hb hc h1 h2 hE.1 a2 b2 a1 b1 p1 p2
      refine ⟨p1, p2, e3.1 ?_⟩
      unfold indexOf at k1 k2
      rw [k1] at e1
      rw [k2] at e2
      cases e1
      cases e2
      rfl
    · rintro ⟨p1, p2, hal⟩
      obtain ⟨i, i', e1, e2, e3⟩ := C156.checked_collisions h hm hready hso hb hc h1 h2 hE.1 a2 b2 a1 b1 p1 p2
      obtain rfl := e3.2 hal
      exact ⟨i, e1, e2⟩
  obtain ⟨⟨out, g0, g1, g2⟩, g3⟩ := C113.collision_lgr_partial order ho lower hD log rs tlds hfit quiet
  refine ⟨⟨out, g0, told_of hyes hno hrel g1 g2⟩, fun hall => ?_⟩
  have hacc : ∀ l, C112.Input rs l ∨ C113.Tld tlds l → Accepted env g.lgr.rep l := fun l hl =>
    (passes_iff h hm hready hso hE.1 (hin l hl).1).2 (hall l hl)
  obtain ⟨out, g0, g1, g2, g3⟩ := g3 ⟨O.free, O.uncond, O.symm, O.trans⟩ hacc
  refine ⟨out, g0, told_of hyes hno hrel g1 g2, ?_⟩
  have hidx : ∀ p, C112.Input rs p → ∃ k, indexOf env g.lgr.rep p = .ok k := fun p hp =>
    let ⟨i, hi, _⟩ := hyes p (.inl hp) (hall p (.inl hp)); ⟨i, hi⟩
  have hcomp : ∀ p, C112.Input rs p → ∀ x, x ∈ (C113.computed (dispoOf env g.lgr.rep g.rules.actions log) quiet p).map Prod.fst ↔ Alike is p x :=
    fun p hp x => ((C113.computed_iff hD log quiet (hfit p (.inl hp))).2 x).trans (variants_alike O hdef (hacc p (.inl hp)))
  have hsame : ∀ p x, C112.Input rs p → C112.Input rs x ∨ C113.Tld tlds x → (C112.Same (indexOf env g.lgr.rep) p x ↔ Alike is p x) :=
    fun p x hp hx => (hrel p x (.inl hp) hx).trans ⟨fun h => h.2.2, fun h => ⟨hall p (.inl hp), hall x hx, h⟩⟩
  refine ⟨fun p => ?_, fun p c x => ?_, fun p hp => ⟨fun x s hx => ?_, fun s n hx => ?_⟩, fun p hp => ?_⟩
  · rw [g3.dump]
    exact ⟨fun h => h.1, fun hp => ⟨hp, hidx p hp⟩⟩
  · rw [g3.dumped]
    constructor
    · rintro ⟨⟨hp, -⟩, hne, hx, hcat⟩
      have hal := (hcomp p hp x).1 hx
      refine ⟨hp, hne, hal, ?_⟩
      rcases hcat with ⟨rfl, a, -⟩ | ⟨rfl, a, b, -⟩ | ⟨rfl, a⟩
      · exact .inl ⟨rfl, a⟩
      · exact .inr (.inl ⟨rfl, a, b⟩)
      · exact .inr (.inr ⟨rfl, fun hi => a ⟨.inl hi, (hsame p x hp (.inl hi)).2 hal⟩,
          fun hi => a ⟨.inr hi, (hsame p x hp (.inr hi)).2 hal⟩⟩)
    · rintro ⟨hp, hne, hal, hcat⟩
      refine ⟨⟨hp, hidx p hp⟩, hne, (hcomp p hp x).2 hal, ?_⟩
      rcases hcat with ⟨rfl, a⟩ | ⟨rfl, a, b⟩ | ⟨rfl, a, b⟩
      · exact .inl ⟨rfl, a, (hsame p x hp (.inl a)).2 hal⟩
      · exact .inr (.inl ⟨rfl, a, b, (hsame p x hp (.inr a)).2 hal⟩)
      · exact .inr (.inr ⟨rfl, fun hi => hi.1.elim a b⟩)
  · exact hp ((g3.disps p x s).1 hx).1.1
  · exact hp ((g3.counts p s n).1 hx).1.1
  · refine ⟨(C113.computed (dispoOf env g.lgr.rep g.rules.actions log) quiet p).map (fun v => (v.1, v.2.disp)), ?_, fun x => ?_,
      fun x s => ?_, fun s n => ?_, fun hroom x s hx hne => ?_⟩
    · rw [List.map_map]
      exact (C113.computed_iff hD log quiet (hfit p (.inl hp))).1
    · rw [List.map_map]
      exact hcomp p hp x
    · rw [g3.disps]
      constructor
      · rintro ⟨-, hne, i, hi, rfl⟩
        exact ⟨hne, List.mem_map.2 ⟨_, hi, rfl⟩⟩
      · rintro ⟨hne, hx⟩
        obtain ⟨⟨y, i⟩, hi, he⟩ := List.mem_map.1 hx
        cases he
        exact ⟨⟨hp, hidx p hp⟩, hne, i, hi, rfl⟩
    · rw [g3.counts, List.map_map]
      exact ⟨fun h => h.2, fun h => ⟨⟨hp, hidx p hp⟩, h⟩⟩
    · obtain ⟨its, last, k1, k2, -, k4, -⟩ := document_variants_exact h hm hready has htidy hacts hso hE (hin p (.inl hp)).1
        (hin p (.inl hp)).2 hroom (o := { includeInvalid := true }) rfl
      have hcm : C113.computed (dispoOf env g.lgr.rep g.rules.actions log) quiet p = (its ++ [last]).map (infoOf log (!quiet) p) := by
        unfold C113.computed dispoOf
        simp only [Option.getD_none]
        rw [k1]
      rw [hcm, List.map_map] at hx
      obtain ⟨it, hit, he⟩ := List.mem_map.1 hx
      simp only [Function.comp, infoOf, Prod.mk.injEq] at he
      obtain ⟨rfl, rfl⟩ := he
      rcases List.mem_append.1 hit with hit | hit
      · obtain ⟨-, -, us, l1, l2, l3, l4, -, l5⟩ := k2 it hit
        refine ⟨us, it.idx, l1, l2, l3, l4, ?_⟩
        rw [← disp_some l5]
        exact l5
      · rw [List.mem_singleton.1 hit] at hne
        exact absurd k4 hne

/-! ## Example -/

/-- The label `ad` and the TLD `bcd`. -/
def labels9 : List Read := [⟨[], [0x61, 0x64], true, none⟩]
def tlds9 : List Read := [⟨[], [0x62, 0x63, 0x64], true, none⟩]

theorem input9 {l : Seq} : (C112.Input labels9 l ↔ l = [0x61, 0x64]) ∧ (IsTld (some tlds9) l ↔ l = [0x62, 0x63, 0x64]) := by
  constructor
  · constructor
    · rintro ⟨r, hr, -, rfl⟩
      rw [List.mem_singleton.1 hr]
    · rintro rfl
      exact ⟨_, List.mem_cons_self, rfl, rfl⟩
  · constructor
    · rintro ⟨t, ht, r, hr, -, rfl⟩
      cases ht
      rw [List.mem_singleton.1 hr]
    · rintro rfl
      exact ⟨_, rfl, _, List.mem_cons_self, rfl, rfl⟩

/-- In the document of C156 no label becomes more than twice as long. -/
theorem room9 : Room C156.items8 [0x61, 0x64] := by
  intro us hb hus
  have key : ∀ us : List Use, (∀ u ∈ us, u.item ∈ C156.items8 ∧ u.item.Has u.seq ∧ ∀ v, u.by_ = some v → v ∈ u.item.vars) →
      (after us).length ≤ 2 * (before us).length ∧ ∀ x ∈ after us, Re.newline x = false := by
    intro us
    induction us with
    | nil => intro _; exact ⟨le_refl _, by intro x hx; cases hx⟩
    | cons u us ih =>
      intro hus
      obtain ⟨i1, i2⟩ := ih fun w hw => hus w (List.mem_cons_of_mem _ hw)
      obtain ⟨k1, k2, k3⟩ := hus u List.mem_cons_self
      have hu : u.out.length ≤ 2 * u.seq.length ∧ ∀ x ∈ u.out, Re.newline x = false := by
        simp only [C156.items8, List.mem_cons, List.not_mem_nil, or_false] at k1
        unfold Use.out
        rcases k1 with k1 | k1 | k1 <;> rw [k1] at k2 k3 <;> rw [show u.seq = _ from k2] <;> cases hv : u.by_ with
        | none => simp; try decide
        | some v =>
          have := k3 v hv
          simp only [C105.Item.vars, List.mem_singleton, List.not_mem_nil] at this
          try (rw [this]; decide)
      constructor
      · show (u.out ++ after us).length ≤ 2 * (u.seq ++ before us).length
        rw [List.length_append, List.length_append]
        omega
      · intro x hx
        rcases List.mem_append.1 (show x ∈ u.out ++ after us from hx) with hx | hx
        · exact hu.2 x hx
        · exact i2 x hx
  obtain ⟨k1, k2⟩ := key us hus
  rw [hb] at k1
  exact ⟨le_trans k1 (by decide), k2⟩

/-- The hypotheses are met; `bcd` is in the dump of `ad`, with its disposition. -/
example : ∃ g es es' out, Clear reader1 [] C156.doc8 g ∧ (checkSymmetry reader1.db g.lgr false).2 = .ok (true, es) ∧
    (checkTransitivity reader1.db g.lgr).2 = .ok (true, es') ∧ ∃ env : FullEnv, FullFaithful reader1.props g.rules.rs env ∧
    collision List.dedup id (indexOf env g.lgr.rep) (dispoOf env g.lgr.rep g.rules.actions (fun _ _ => "")) labels9 (some tlds9) true
      true = (out, .ok ()) ∧
    .within true ([0x61, 0x64], .primary) ([0x62, 0x63, 0x64], .tld) ∈ out ∧
    .dumped [0x61, 0x64] .tld [0x62, 0x63, 0x64] ∈ out ∧ (∃ s, .dumpedDisp [0x61, 0x64] [0x62, 0x63, 0x64] s ∈ out) ∧
    Room C156.items8 [0x61, 0x64] := by
  obtain ⟨g, hg⟩ := C156.doc8_clear
  obtain ⟨es, es', h1, h2⟩ := C156.checks8 hg
  obtain ⟨env, -, he⟩ := full_faithful_exists (common_of hg C156.doc8_means).1 (fun _ => "Latin")
  obtain ⟨-, hf⟩ := checked_full hg C156.doc8_means C156.ready8 (as := []) .nil (by intro e he; cases he) (by intro a ha; cases ha)
    (by intro w _ e he; cases he) C156.noBeginning8
    C156.noConditions8 h1 h2 he List.dedup ⟨fun l => List.nodup_dedup l, fun l x => List.mem_dedup⟩
    id (fun _ _ => "") labels9 (some tlds9) true (by
      intro l hl
      rw [input9.1, input9.2] at hl
      rcases hl with rfl | rfl <;> (unfold C106.Plain; decide))
  obtain ⟨out, h3, h4, h5⟩ := hf (by
    intro l hl
    rw [input9.1, input9.2] at hl
    rcases hl with rfl | rfl
    · exact C156.passes8.1
    · exact C156.passes8.2)
  have i1 := input9.1.2 (rfl : ([0x61, 0x64] : Seq) = _)
  have i2 := input9.2.2 (rfl : ([0x62, 0x63, 0x64] : Seq) = _)
  have i3 : ¬ C112.Input labels9 [0x62, 0x63, 0x64] := by rw [input9.1]; decide
  refine ⟨g, es, es', out, hg, h1, h2, env, he, h3, ?_, ?_, ?_, room9⟩
  · obtain ⟨b, c, c', hw | hw⟩ := (h4.pairs [0x61, 0x64] [0x62, 0x63, 0x64]).2
      ⟨by decide, ⟨.inl i1, C156.passes8.1⟩, ⟨.inr i2, C156.passes8.2⟩, .inl i1, C156.alike8⟩
    · obtain ⟨-, rfl, ⟨k, -⟩ | ⟨-, -, rfl, rfl⟩⟩ := h4.named _ _ _ _ _ hw
      · exact absurd k i3
      · exact hw
    · exact absurd (h4.named _ _ _ _ _ hw).1 i3
  · exact (h5.dumped _ _ _).2 ⟨i1, by decide, C156.alike8, .inr (.inl ⟨rfl, i2, i3⟩)⟩
  · obtain ⟨vs, -, k2, k3, -⟩ := h5.disps _ i1
    obtain ⟨⟨x, s⟩, hv, rfl⟩ := List.mem_map.1 ((k2 [0x62, 0x63, 0x64]).2 C156.alike8)
    exact ⟨s, (k3 _ s).2 ⟨by decide, hv⟩⟩

end Lgr.Props.C162

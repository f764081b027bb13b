import Verif.Props.DataMeaning
import Verif.Props.RulesMeaning5
import Verif.Props.Disposition

/-!
# C106: the labels accepted under an LGR are those its document describes
-/

namespace Lgr.Props.C106
open Lgr Xml Text Repertoire LGR RulesXml C101 C103 DocXml C105 C50

/-! ## Specification -/

/-- The code point has the tag, by the data section. -/
def Tagged (is : List Item) (t : String) (x : Nat) : Prop := ∃ i ∈ is, t ∈ i.attrs.tags ∧ ∃ k, i.Has k ∧ x ∈ k

/-- Tags, classes and rules mean what the items of the data section and the elements of the rules section
say. (Tags can be referred to by a name, too.) -/
structure Sense (db : String → Except Err CpSet) (is : List Item) (es : List Node) (w : NWorld) : Prop where
  tag : ∀ t x, w.sets.tag t x ↔ Tagged is t x
  tagName : ∀ t, (∃ x, Tagged is t x) → ∀ x, w.sets.name (Cls.tagPrefix ++ t) x ↔ Tagged is t x
  cls : ∀ e ∈ es, isCls e = true → ∀ n, dget e.attrs "name" = some n → ∀ x, w.sets.name n x ↔ NSet db w.sets e x
  rule : ∀ e ∈ es, isRule e = true → ∀ n, dget e.attrs "name" = some n → ∀ i j, w.rule n i j ↔ RHolds db w e i j

/-- The rule with this name matches somewhere in the label, the anchor standing for the `n` code points at
position `o`. -/
def Applies (db : String → Except Err CpSet) (is : List Item) (es : List Node) (label : Seq) (r : String)
    (o n : Nat) : Prop :=
  ∃ w, w.label = label ∧ (∀ i j, w.anchor i j ↔ i = o ∧ j = o + n) ∧ Sense db is es w ∧
    ∃ e ∈ es, isRule e = true ∧ dget e.attrs "name" = some r ∧ ∃ i j, i ≤ label.length ∧ RHolds db w e i j

/-- The `when` rule applies, the `not-when` rule does not. -/
def InContext (db : String → Except Err CpSet) (is : List Item) (es : List Node) (label : Seq)
    (wh nw : Option String) (o n : Nat) : Prop :=
  (∀ r, wh = some r → Applies db is es label r o n) ∧ ∀ r, nw = some r → ¬ Applies db is es label r o n

/-- The label is made of these sequences, each of the item given with it, in the context the item asks for. -/
structure Made (db : String → Except Err CpSet) (is : List Item) (es : List Node) (label : Seq)
    (ks : List (Item × Seq)) : Prop where
  concat : ks.flatMap Prod.snd = label
  has : ∀ p ∈ ks, p.1 ∈ is ∧ p.1.Has p.2
  context : ∀ pre p post, ks = pre ++ p :: post → InContext db is es label p.1.attrs.whenR p.1.attrs.notWhenR
    (pre.flatMap Prod.snd).length p.2.length

/-- A rule with this name is defined, and either has no anchor or is an anchor between look-arounds. -/
def Usable (es : List Node) (r : String) : Prop :=
  ∃ e ∈ es, isRule e = true ∧ dget e.attrs "name" = some r ∧ (NoAnchor es e ∨
    dget e.attrs "by-ref" = none ∧ ∃ pre a0 post, e.children = pre ++ a0 :: post ∧ a0.tag = "anchor" ∧
      ∀ d ∈ pre ++ post, NoAnchor es d ∧ (d.tag = "look-ahead" ∨ d.tag = "look-behind"))

/-- Rules are evaluated by the LGR, whatever was asked before, with sufficient depth of recursion. -/
def Faithful (db : String → Except Err CpSet) (rs : RuleState) (env : Env) : Prop :=
  ∀ n label a i, ∃ qs f, ∀ fuel, f ≤ fuel →
    ((asked db rs qs).matches_ db fuel n label (some a) i).2 = env.ruleMatches n label a i

/-- What is asked of a document: it is read without `force`, all of its elements were handled, lists of
words are separated by single spaces, names are not defined twice, properties and counts are in order. -/
structure Clear (R : Reader) (cs : Rfc7940.Results) (d : Doc) (g : Loaded) : Prop where
  force : R.force = false
  read : ∃ cs1, parseDoc R cs d = (cs1, .ok (some g)) ∧ dget cs1 "parse_xml" ≠ some false
  tidy : ∀ e ∈ d.data, ElemTidy e
  distinct : Distinct (d.rules.getD [])
  fine : ∀ e ∈ d.rules.getD [], FineElem R.props e

/-! ## The state after reading -/

/-- Tags have code points. -/
def Keys (g : LGR) : Prop := ∀ t l, dget g.tagCls t = some l → l ≠ []

/-- Well-formed. -/
def State (g : LGR) : Prop := WF g.rep ∧ Keys g

theorem state_addCp {db : UniDb} {g : LGR} (h : State g) (cp : Seq) (o : Opts) : State (g.addCp db (.seq cp) o).1 := by
  refine ⟨?_, ?_⟩
  · exact (inv_addCp (P := fun _ => True) ⟨h.1, fun _ _ _ => trivial⟩ (fun _ _ _ _ => trivial)).wf
  · have h0 := h.2
    unfold LGR.addCp
    split
    · exact h0
    · rename_i s1 a1 hc
      split
      · exact h0
      · exact C104.keys_addToTags _ (denotes_ne (addCpChecks_ok.1 hc).1) _ _ h0

theorem state_addRange {db : UniDb} {g : LGR} (h : State g) (f l : Nat) (o : Opts) : State (g.addRange db f l o).1 := by
  refine ⟨?_, ?_⟩
  · exact (inv_addRangeL (P := fun _ => True) ⟨h.1, fun _ _ _ => trivial⟩ (fun _ _ => trivial) (fun _ _ _ _ => trivial)).wf
  · have h0 := h.2
    rcases C04.addRange_cases db g f l o with ⟨e, he, _⟩ | ⟨cps, hp, he⟩
    · rw [he]; exact h0
    · rw [he]
      split
      · exact h0
      · exact C104.keys_foldTags _ cps _ h0

theorem state_addVariant {db : UniDb} {g : LGR} (h : State g) (cp v : Seq) (t : Option String) (o : Opts) :
    State (g.addVariant db (.seq cp) (.seq v) t o).1 := by
  cases ho : (g.addVariant db (.seq cp) (.seq v) t o).2 with
  | error e => rw [C02.add_variant_atomic db g _ _ _ _ e ho]; exact h
  | ok u =>
    refine ⟨(inv_addVariant (P := fun _ => True) ⟨h.1, fun _ _ _ => trivial⟩ (fun _ _ _ _ _ _ _ _ _ => trivial)).wf, ?_⟩
    obtain ⟨s', w', c1, c', hd1', hd2', hlk', hc1, hcp, hc2, hat, hv, hl, hr, hty, htg, hrf, hri⟩ :=
      C50.add_variant_effect db g h.1 _ _ _ _ ho
    unfold Keys
    rw [htg]
    exact h.2

theorem forEach_inv {σ α : Type} {f : σ → α → σ × Except Err Unit} {I : σ → Prop} (hf : ∀ s a, I s → I (f s a).1) :
    ∀ (l : List α) (s : σ), I s → I (forEach f s l).1
  | [], s, h => h
  | a :: l, s, h => by
    rw [forEach]
    have := hf s a h
    split
    · rename_i s1 hs1
      rw [hs1] at this
      exact this
    · rename_i s1 hs1
      rw [hs1] at this
      exact forEach_inv hf l _ this

theorem guard_lgr (force : Bool) (s : PState) (r : LGR × Except Err Unit) : (Xml.guard force s r).1.lgr = r.1 := by
  obtain ⟨g, _ | _⟩ := r
  · unfold Xml.guard
    split
    · rename_i h; cases h
    · rename_i h
      cases h
      split <;> rfl
  · rfl

theorem state_elem {db : UniDb} {force : Bool} (s : PState) (e : Elem) (h : State s.lgr) :
    State (parseElem db force s e).1.lgr := by
  unfold parseElem
  split
  · split
    · exact h
    · rename_i cp hcp
      have h1 : State (orderCheck s cp).lgr := by rw [order_lgr]; exact h
      have h2 := state_addCp (db := db) h1 cp (optsOf force e.attrs)
      rw [← guard_lgr force (orderCheck s cp)] at h2
      dsimp only
      split
      · rename_i hg; rw [hg] at h2; exact h2
      · rename_i hg
        rw [hg] at h2
        refine forEach_inv (I := fun s : PState => State s.lgr) ?_ _ _ h2
        intro s a hs
        unfold parseVar
        split
        · exact hs
        · rw [guard_lgr]; exact state_addVariant hs _ _ _ _
  · split
    · split
      · exact h
      · split
        · exact h
        · rw [guard_lgr]; exact state_addRange h _ _ _
    · exact h

theorem state_data {db : UniDb} {force : Bool} {s p : PState} {es : List Elem} (h : State s.lgr)
    (hp : parseData db force s es = (p, .ok ())) : State p.lgr := by
  unfold parseData at hp
  have := forEach_inv (f := parseElem db force) (I := fun s : PState => State s.lgr) (fun s a => state_elem s a) es
    { s with prev := [] } h
  split at hp
  · cases hp
  · rename_i s1 hs1
    injection hp with hp _
    subst hp
    rw [hs1] at this
    exact this

/-- What is known of the LGR read. -/
theorem doc_state {R : Reader} {cs : Rfc7940.Results} {d : Doc} {g : Loaded} (h : Clear R cs d g) :
    State g.lgr ∧ C103.Read R.parser g.lgr.tagCls (d.rules.getD []) g.rules.rs := by
  obtain ⟨cs1, hp, hx⟩ := h.read
  cases hm : d.metaE with
  | none => exact absurd (by rw [hp]) (C104.no_meta_no_lgr R cs d hm g)
  | some ms =>
    unfold parseDoc at hp
    rw [hm] at hp
    dsimp only at hp
    split at hp
    · cases hp
    · rename_i mst hms
      split at hp
      · cases hp
      · rename_i p hpd
        split at hp
        · cases hp
        · rename_i r t hr
          injection hp with h1 h2
          injection h2 with h2
          injection h2 with h2
          subst h2
          refine ⟨state_data ⟨wf_empty, by intro t l hl; simp [newLgr, dget] at hl⟩ hpd, ⟨_, (r, t), hr, rfl, rfl, ?_⟩, h.force, h.distinct, h.fine⟩
          cases hb : t.bad with
          | false => rfl
          | true =>
            exfalso
            apply hx
            rw [← h1, hb]
            simp [noteBad, Rfc7940.addTestResult, dget_dset]

/-! ## Meaning -/

theorem sense_iff {db : String → Except Err CpSet} {g : LGR} {is : List Item} {es : List Node} (hk : Keys g)
    (ht : ∀ t x, x ∈ tagSet g t ↔ Tagged is t x) {w : NWorld} : Sense db is es w ↔ Meaning db g.tagCls es w := by
  have hset : ∀ t cps, dget g.tagCls t = some cps → ∀ x, x ∈ cps ↔ Tagged is t x := by
    intro t cps hc x
    rw [← ht]
    unfold tagSet
    rw [hc]
    rfl
  have hex : ∀ t x, (∃ cps, dget g.tagCls t = some cps ∧ x ∈ cps) ↔ Tagged is t x := by
    intro t x
    rw [← ht]
    unfold tagSet
    cases dget g.tagCls t <;> simp
  constructor
  · intro h
    refine ⟨fun t x => ?_, fun t cps hc x => ?_, h.cls, h.rule⟩
    · rw [h.tag, hex]
    · obtain ⟨y, hy⟩ := List.exists_mem_of_ne_nil _ (hk t cps hc)
      rw [h.tagName t ⟨y, (hset t cps hc y).1 hy⟩ x, hset t cps hc]
  · intro h
    refine ⟨fun t x => ?_, fun t hx x => ?_, h.cls, h.rule⟩
    · rw [h.tag, hex]
    · obtain ⟨y, hy⟩ := hx
      obtain ⟨cps, hc, -⟩ := (hex t y).2 hy
      rw [h.tagName t cps hc x, hset t cps hc]

theorem nseq_append {db : String → Except Err CpSet} {w : NWorld} : ∀ {l m : List Node} {i j : Nat},
    NSeq db w (l ++ m) i j ↔ ∃ k, NSeq db w l i k ∧ NSeq db w m k j
  | [], m, i, j => by simp [NSeq]
  | n :: l, m, i, j => by
    rw [List.cons_append, NSeq]
    simp only [nseq_append (l := l) (m := m), NSeq]
    constructor
    · rintro ⟨k, h1, k', h2, h3⟩; exact ⟨k', ⟨k, h1, h2⟩, h3⟩
    · rintro ⟨k', ⟨k, h1, h2⟩, h3⟩; exact ⟨k, h1, k', h2, h3⟩

theorem look_stays {db : String → Except Err CpSet} {w : NWorld} {d : Node}
    (h : d.tag = "look-ahead" ∨ d.tag = "look-behind") {i j : Nat} (hh : NHolds db w d i j) : j = i := by
  obtain ⟨tag, attrs, text, children⟩ := d
  simp only [Node.tag] at h
  rcases h with rfl | rfl
  · rw [NHolds, if_neg (by decide), if_neg (by decide), if_neg (by decide), if_pos rfl] at hh
    exact hh.2
  · rw [NHolds, if_neg (by decide), if_neg (by decide), if_neg (by decide), if_neg (by decide), if_pos rfl] at hh
    exact hh.2

theorem looks_iff {db : String → Except Err CpSet} {w : NWorld} : ∀ {l : List Node},
    (∀ d ∈ l, d.tag = "look-ahead" ∨ d.tag = "look-behind") → ∀ {i j : Nat},
    NSeq db w l i j ↔ j = i ∧ ∀ d ∈ l, NHolds db w d i i
  | [], _, i, j => by simp [NSeq, eq_comm]
  | d :: l, h, i, j => by
    have ih := fun {i j : Nat} => looks_iff (db := db) (w := w) (fun d hd => h d (List.mem_cons_of_mem _ hd)) (l := l)
      (i := i) (j := j)
    rw [NSeq]
    simp only [ih, List.forall_mem_cons]
    constructor
    · rintro ⟨k, h1, rfl, h2⟩
      have := look_stays (h d (by simp)) h1
      subst this
      exact ⟨rfl, h1, h2⟩
    · rintro ⟨rfl, h1, h2⟩
      exact ⟨j, h1, rfl, h2⟩

theorem anchor_iff {db : String → Except Err CpSet} {w : NWorld} {a0 : Node} (h : a0.tag = "anchor") {i j : Nat} :
    NHolds db w a0 i j ↔ w.anchor i j := by
  obtain ⟨tag, attrs, text, children⟩ := a0
  simp only [Node.tag] at h
  subst h
  rw [NHolds, if_neg (by decide), if_neg (by decide), if_pos rfl]

/-! ## Evaluation of rules -/

/-- What the LGR and the document have in common. -/
structure Common (R : Reader) (is : List Item) (es : List Node) (g : Loaded) : Prop where
  state : State g.lgr
  read : C103.Read R.parser g.lgr.tagCls es g.rules.rs
  tags : ∀ t x, x ∈ tagSet g.lgr t ↔ Tagged is t x

theorem faithful_defined {R : Reader} {is : List Item} {es : List Node} {g : Loaded} (hc : Common R is es g)
    {env : Env} (hE : Faithful R.props g.rules.rs env) {e : Node} (he : e ∈ es) (hr : isRule e = true) {r : String}
    (hn : dget e.attrs "name" = some r) (label a : Seq) (i : Nat) : ∃ b, env.ruleMatches r label a i = .ok b := by
  obtain ⟨obj, c, rk, ha⟩ := after_read hc.read
  obtain ⟨n', m, g1, g2, g3⟩ := ha.rule e he hr
  rw [hn] at g1
  cases g1
  obtain ⟨f0, h0⟩ := answers ha.inv g3
  obtain ⟨qs, f, hf⟩ := hE r label a i
  obtain ⟨b, hb⟩ := h0 (max f f0) (Nat.le_max_right _ _) label (some a) i
  exact ⟨b, by rw [← hf _ (Nat.le_max_left _ _)]; exact answered ha.cache qs hb⟩

theorem eval_exact {R : Reader} {is : List Item} {es : List Node} {g : Loaded} (hc : Common R is es g)
    {env : Env} (hE : Faithful R.props g.rules.rs env) {label : Seq} (hlen : label.length ≤ labelMax)
    (hnl : ∀ x ∈ label, Re.newline x = false)
    (hso : ∀ w, Sense R.props is es w → ∀ e ∈ es, isRule e = true → Solid R.props w e)
    {r : String} {e : Node} (he : e ∈ es) (hr : isRule e = true) (hn : dget e.attrs "name" = some r)
    (hform : NoAnchor es e ∨ dget e.attrs "by-ref" = none ∧ ∃ pre a0 post, e.children = pre ++ a0 :: post ∧
      a0.tag = "anchor" ∧ ∀ d ∈ pre ++ post, NoAnchor es d ∧ (d.tag = "look-ahead" ∨ d.tag = "look-behind"))
    {a : Seq} {o : Nat} (ho : o ≤ label.length) (hat : a <+: label.drop o) {b : Bool}
    (hb : env.ruleMatches r label a o = .ok b) {w : NWorld} (hl : w.label = label)
    (hanc : ∀ i j, w.anchor i j ↔ i = o ∧ j = o + a.length) (hs : Sense R.props is es w) :
    b = true ↔ ∃ i j, i ≤ label.length ∧ RHolds R.props w e i j := by
  obtain ⟨qs, f, hf⟩ := hE r label a o
  have hm := (sense_iff hc.state.2 hc.tags).1 hs
  subst hl
  rcases hform with hfree | ⟨hbr, pre, a0, post, hch, ha0, har⟩
  · obtain ⟨f0, h0⟩ := document_rule_exact hc.read hm hlen hnl (hso w hs) he hr hn hfree
    obtain ⟨b', h1, h2⟩ := h0 (max f f0) (Nat.le_max_right _ _) qs (some a) o (by simp)
    have h3 := hf (max f f0) (Nat.le_max_left _ _)
    have : Except.ok b' = Except.ok (ε := Err) b := h1.symm.trans (h3.trans hb)
    cases this
    exact h2
  · obtain ⟨f0, h0⟩ := document_context_exact hc.read hm hlen hnl (hso w hs) he hr hn hbr hch ha0 har
    obtain ⟨b', h1, h2⟩ := h0 (max f f0) (Nat.le_max_right _ _) qs a o ho
    have h3 := hf (max f f0) (Nat.le_max_left _ _)
    have : Except.ok b' = Except.ok (ε := Err) b := h1.symm.trans (h3.trans hb)
    cases this
    rw [h2]
    unfold RHolds
    rw [hbr]
    dsimp only
    rw [hch]
    have hpre : ∀ d ∈ pre, d.tag = "look-ahead" ∨ d.tag = "look-behind" := fun d hd => (har d (by simp [hd])).2
    have hpost : ∀ d ∈ post, d.tag = "look-ahead" ∨ d.tag = "look-behind" := fun d hd => (har d (by simp [hd])).2
    constructor
    · rintro ⟨k1, -, k2⟩
      refine ⟨o, o + a.length, ho, nseq_append.2 ⟨o, (looks_iff hpre).2 ⟨rfl, k1⟩, ?_⟩⟩
      rw [NSeq]
      exact ⟨o + a.length, (anchor_iff ha0).2 ((hanc _ _).2 ⟨rfl, rfl⟩), (looks_iff hpost).2 ⟨rfl, k2⟩⟩
    · rintro ⟨i, j, -, h⟩
      obtain ⟨k, k1, k2⟩ := nseq_append.1 h
      obtain ⟨rfl, k1⟩ := (looks_iff hpre).1 k1
      rw [NSeq] at k2
      obtain ⟨m, k2, k3⟩ := k2
      obtain ⟨rfl, rfl⟩ := (hanc _ _).1 ((anchor_iff ha0).1 k2)
      obtain ⟨-, k4⟩ := (looks_iff hpost).1 k3
      exact ⟨k1, ⟨hat, rfl⟩, k4⟩

theorem applies_exact {R : Reader} {is : List Item} {es : List Node} {g : Loaded} (hc : Common R is es g)
    {env : Env} (hE : Faithful R.props g.rules.rs env) {label : Seq} (hlen : label.length ≤ labelMax)
    (hnl : ∀ x ∈ label, Re.newline x = false)
    (hso : ∀ w, Sense R.props is es w → ∀ e ∈ es, isRule e = true → Solid R.props w e)
    {r : String} (hu : Usable es r) {a : Seq} {o : Nat} (ho : o ≤ label.length) (hat : a <+: label.drop o) :
    ∃ b, env.ruleMatches r label a o = .ok b ∧ (b = true ↔ Applies R.props is es label r o a.length) := by
  obtain ⟨e, he, hr, hn, hform⟩ := hu
  obtain ⟨b, hb⟩ := faithful_defined hc hE he hr hn label a o
  refine ⟨b, hb, ?_⟩
  constructor
  · intro h
    obtain ⟨w, h1, h2, h3⟩ := document_has_meaning hc.read label (fun i j => i = o ∧ j = o + a.length)
    have hs := (sense_iff hc.state.2 hc.tags).2 h3
    have hanc : ∀ i j, w.anchor i j ↔ i = o ∧ j = o + a.length := by rw [h2]; exact fun _ _ => Iff.rfl
    exact ⟨w, h1, hanc, hs, e, he, hr, hn, (eval_exact hc hE hlen hnl hso he hr hn hform ho hat hb h1 hanc hs).1 h⟩
  · rintro ⟨w, h1, h2, h3, e', he', hr', hn', i, j, hi, hh⟩
    refine (eval_exact hc hE hlen hnl hso he hr hn hform ho hat hb h1 h2 h3).2 ⟨i, j, hi, ?_⟩
    exact (h3.rule e he hr r hn i j).1 ((h3.rule e' he' hr' r hn' i j).2 hh)

theorem answers_stable {db : String → Except Err CpSet} {rs : RuleState} {c r : String → Nat} (h : C66.Inv db rs c r)
    {name : String} {m : Matcher} (hm : dget rs.lk.rules name = some m) :
    ∃ f, ∀ fuel, f ≤ fuel → ∀ label anc index,
      C65.answer db fuel rs name label anc index = C65.answer db f rs name label anc index := by
  obtain ⟨f, p, h1, h2⟩ := C66.pattern_total (lk := rs.lk) (fun k hk => C66.proper_total h.cls k hk.1 hk.2) h.ranked
    h.parts (r name) m (h.parts name m hm) (h.ranked name m hm) false
  refine ⟨f, fun fuel hle label anc index => ?_⟩
  have e := C65.pattern_stable_le hle (db := db) (lk := rs.lk) (beh := false) (m := m)
    (by rw [h1]; intro hc; cases hc)
  unfold C65.answer Matcher.ruleMatches
  simp only [hm, e]

/-- There is a faithful evaluation of the rules of a document. -/
theorem faithful_exists {R : Reader} {is : List Item} {es : List Node} {g : Loaded} (hc : Common R is es g) :
    ∃ env, Faithful R.props g.rules.rs env := by
  obtain ⟨obj, c, rk, ha⟩ := after_read hc.read
  have key : ∀ n label a i, ∃ x : Except Err Bool, ∃ qs f, ∀ fuel, f ≤ fuel →
      ((asked R.props g.rules.rs qs).matches_ R.props fuel n label (some a) i).2 = x := by
    intro n label a i
    cases hm : dget g.rules.rs.lk.rules n with
    | none =>
      refine ⟨.error (.keyError n), [], 0, fun fuel _ => ?_⟩
      show (g.rules.rs.matches_ R.props fuel n label (some a) i).2 = _
      unfold RuleState.matches_
      rw [hm]
    | some m =>
      obtain ⟨f1, h1⟩ := answers ha.inv hm
      obtain ⟨f2, h2⟩ := answers_stable ha.inv hm
      refine ⟨C65.answer R.props f2 g.rules.rs n label (some a) i, [], max f1 f2, fun fuel hle => ?_⟩
      obtain ⟨b, hb⟩ := h1 fuel (le_trans (Nat.le_max_left _ _) hle) label (some a) i
      have := answered ha.cache [] hb
      have h3 := h2 fuel (le_trans (Nat.le_max_right _ _) hle) label (some a) i
      exact this.trans (hb.symm.trans h3)
  choose x hx using key
  exact ⟨⟨fun n label a i => x n label a i⟩, hx⟩

/-- It does not matter which meaning is taken: there is only one. -/
theorem applies_any {R : Reader} {is : List Item} {es : List Node} {g : Loaded} (hc : Common R is es g)
    {label : Seq} (hlen : label.length ≤ labelMax) (hnl : ∀ x ∈ label, Re.newline x = false)
    (hso : ∀ w, Sense R.props is es w → ∀ e ∈ es, isRule e = true → Solid R.props w e)
    {r : String} (hu : Usable es r) {o n : Nat} (ho : o + n ≤ label.length) {w : NWorld} (h1 : w.label = label)
    (h2 : ∀ i j, w.anchor i j ↔ i = o ∧ j = o + n) (h3 : Sense R.props is es w) :
    Applies R.props is es label r o n ↔
      ∃ e ∈ es, isRule e = true ∧ dget e.attrs "name" = some r ∧ ∃ i j, i ≤ label.length ∧ RHolds R.props w e i j := by
  constructor
  · intro h
    obtain ⟨env, hE⟩ := faithful_exists hc
    have hl : ((label.drop o).take n).length = n := by simp; omega
    have hat : (label.drop o).take n <+: label.drop o := List.take_prefix _ _
    obtain ⟨b, hb, hb'⟩ := applies_exact hc hE hlen hnl hso hu (by omega) hat
    rw [hl] at hb'
    obtain ⟨e, he, hr, hn, hform⟩ := hu
    exact ⟨e, he, hr, hn, (eval_exact hc hE hlen hnl hso he hr hn hform (by omega) hat hb h1
      (by rw [hl]; exact h2) h3).1 (hb'.2 h)⟩
  · rintro ⟨e, he, hr, hn, i, j, hi, hh⟩
    exact ⟨w, h1, h2, h3, e, he, hr, hn, i, j, hi, hh⟩

/-! ## Theorems -/

/-- The context rules of items and variants are usable. -/
def Ready (es : List Node) (is : List Item) : Prop :=
  ∀ i ∈ is, (∀ r, i.attrs.whenR = some r ∨ i.attrs.notWhenR = some r → Usable es r) ∧
    ∀ v ∈ i.vars, ∀ r, v.whenR = some r ∨ v.notWhenR = some r → Usable es r

/-- What is asked of a label: at most 63 code points, no line feed. -/
def Plain (label : Seq) : Prop := label.length ≤ labelMax ∧ ∀ x ∈ label, Re.newline x = false

/-- The classes in rules have code points, literals, choices and rules are not empty. -/
def Inhabited (db : String → Except Err CpSet) (is : List Item) (es : List Node) : Prop :=
  ∀ w, Sense db is es w → ∀ e ∈ es, isRule e = true → Solid db w e

theorem common_of {R : Reader} {cs : Rfc7940.Results} {d : Doc} {g : Loaded} (h : Clear R cs d g) {is : List Item}
    (hm : Means d.data is) : Common R is (d.rules.getD []) g ∧ (∀ i ∈ is, (given R.db R.strict (managerOf g.md)).Fine i) ∧
      (∀ k, (g.lgr.rep.lookup k).isSome ↔ ∃ i ∈ is, i.Has k) ∧
      (∀ k c, g.lgr.rep.lookup k = some c → ∃ i ∈ is, Holds i k c) ∧ Apart is := by
  obtain ⟨h1, h2⟩ := doc_state h
  obtain ⟨cs1, hp, -⟩ := h.read
  obtain ⟨js, j1, j2, j3, j4, j5, j6, -⟩ := document_data_partial R h.force h.tidy hp
  have := means_unique h.tidy j1 hm
  subst this
  exact ⟨⟨h1, h2, j6⟩, j2, j4, j5, j3⟩

theorem context_iff {R : Reader} {is : List Item} {es : List Node} {g : Loaded} (hc : Common R is es g)
    {env : Env} (hE : Faithful R.props g.rules.rs env) {label : Seq} (hp : Plain label) (hso : Inhabited R.props is es)
    {wh nw : Option String} (hu : ∀ r, wh = some r ∨ nw = some r → Usable es r) (hone : wh = none ∨ nw = none)
    {a : Seq} {o : Nat} (ho : o ≤ label.length) (hat : a <+: label.drop o) :
    CtxHolds env wh nw a label o ↔ InContext R.props is es label wh nw o a.length := by
  have key := fun r (h : wh = some r ∨ nw = some r) => applies_exact hc hE hp.1 hp.2 hso (hu r h) ho hat
  unfold CtxHolds InContext
  refine and_congr (forall_congr' fun r => ?_) ?_
  · refine imp_congr_right fun hr => ?_
    obtain ⟨b, h1, h2⟩ := key r (.inl hr)
    rw [h1, ← h2]
    simp
  · constructor
    · intro h r hr
      obtain ⟨b, h1, h2⟩ := key r (.inr hr)
      have hw : wh = none := by
        rcases hone with h | h
        · exact h
        · rw [h] at hr; cases hr
      have := h hw r hr
      rw [h1] at this
      cases this
      rw [← h2]
      simp
    · intro h _ r hr
      obtain ⟨b, h1, h2⟩ := key r (.inr hr)
      have := h r hr
      rw [← h2] at this
      rw [h1]
      simp at this
      rw [this]

theorem rules_defined {R : Reader} {is : List Item} {es : List Node} {g : Loaded} (hc : Common R is es g)
    {env : Env} (hE : Faithful R.props g.rules.rs env) (hready : Ready es is)
    (hrep : ∀ k c, g.lgr.rep.lookup k = some c → ∃ i ∈ is, Holds i k c) : RulesDefined env g.lgr.rep := by
  constructor
  · intro c hg r hr l a i
    obtain ⟨it, hi, hh⟩ := hrep _ _ (getChar_ok.1 hg)
    rw [hh.2.2.1] at hr
    obtain ⟨e, he, h1, h2, -⟩ := (hready it hi).1 r hr
    exact faithful_defined hc hE he h1 h2 l a i
  · intro c hg v hv r hr l a i
    obtain ⟨it, hi, hh⟩ := hrep _ _ (getChar_ok.1 hg)
    obtain ⟨e, he, h1, h2, -⟩ := (hready it hi).2 v ((hh.2.2.2.2 v).1 hv) r hr
    exact faithful_defined hc hE he h1 h2 l a i

/-- Segmentations into characters of the LGR and into items of the document. -/
theorem made_of_segments {R : Reader} {is : List Item} {es : List Node} {g : Loaded} (hc : Common R is es g)
    {env : Env} (hE : Faithful R.props g.rules.rs env) {label : Seq} (hp : Plain label) (hso : Inhabited R.props is es)
    (hready : Ready es is) (hone : ∀ i ∈ is, i.attrs.whenR = none ∨ i.attrs.notWhenR = none)
    (hrep : ∀ k c, g.lgr.rep.lookup k = some c → ∃ i ∈ is, Holds i k c) {cs : List CharObj}
    (hs : Segmentation env g.lgr.rep label cs) :
    ∃ ks, Made R.props is es label ks ∧ ks.map Prod.snd = cs.map CharObj.cp := by
  have hpick : ∀ c ∈ cs, ∃ i ∈ is, Holds i c.cp c := fun c hc => hrep _ _ (getChar_ok.1 (hs.stored c hc))
  obtain ⟨f, hf⟩ : ∃ f : CharObj → Item, ∀ c ∈ cs, f c ∈ is ∧ Holds (f c) c.cp c := by
    classical
    refine ⟨fun c => if h : ∃ i ∈ is, Holds i c.cp c then h.choose else .char [] {} [], fun c hc => ?_⟩
    have h := hpick c hc
    dsimp only
    rw [dif_pos h]
    exact h.choose_spec
  have hflat : ∀ l : List CharObj, (l.map (fun c => (f c, c.cp))).flatMap Prod.snd = l.flatMap CharObj.cp := by
    intro l
    rw [List.flatMap_map]
  refine ⟨cs.map (fun c => (f c, c.cp)), ⟨?_, ?_, ?_⟩, by rw [List.map_map]; rfl⟩
  · rw [hflat, hs.concat]
  · intro p hp
    obtain ⟨c, hc, rfl⟩ := List.mem_map.1 hp
    exact ⟨(hf c hc).1, (hf c hc).2.1⟩
  · intro pre p post hsp
    obtain ⟨l1, l2, rfl, h1, h2⟩ := List.map_eq_append_iff.1 hsp
    obtain ⟨c, l3, rfl, h3, h4⟩ := List.map_eq_cons_iff.1 h2
    subst h1 h3
    have hcm : c ∈ l1 ++ c :: l3 := by simp
    obtain ⟨g1, -, -, g2, -⟩ := hf c hcm
    rw [hflat]
    have hctx := hs.context l1 c l3 rfl
    have hcat := hs.concat
    rw [List.flatMap_append, List.flatMap_cons] at hcat
    refine (context_iff hc hE hp hso (hready (f c) g1).1 (hone _ g1) ?_ ?_).1 (by rw [← g2]; exact hctx)
    · rw [← hcat]; simp
    · rw [← hcat, List.drop_left]; exact List.prefix_append _ _

theorem apart_cases {is : List Item} (h : Apart is) {i j : Item} (hi : i ∈ is) (hj : j ∈ is) :
    i = j ∨ (∀ k, i.Has k → ¬ j.Has k) ∨ ∀ k, j.Has k → ¬ i.Has k := by
  induction h with
  | nil => cases hi
  | cons h1 _ ih =>
    rcases List.mem_cons.1 hi with rfl | hi'
    · rcases List.mem_cons.1 hj with rfl | hj'
      · exact .inl rfl
      · exact .inr (.inl (h1 j hj'))
    · rcases List.mem_cons.1 hj with rfl | hj'
      · exact .inr (.inr (h1 i hi'))
      · exact ih hi' hj'

theorem segments_of_made {R : Reader} {is : List Item} {es : List Node} {g : Loaded} (hc : Common R is es g)
    {env : Env} (hE : Faithful R.props g.rules.rs env) {label : Seq} (hp : Plain label) (hso : Inhabited R.props is es)
    (hready : Ready es is) (hone : ∀ i ∈ is, i.attrs.whenR = none ∨ i.attrs.notWhenR = none)
    (hin : ∀ k, (g.lgr.rep.lookup k).isSome ↔ ∃ i ∈ is, i.Has k) (hap : Apart is)
    (hrep : ∀ k c, g.lgr.rep.lookup k = some c → ∃ i ∈ is, Holds i k c) {ks : List (Item × Seq)}
    (hs : Made R.props is es label ks) : ∃ cs, Segmentation env g.lgr.rep label cs := by
  have hsame : ∀ i ∈ is, ∀ j ∈ is, ∀ k, i.Has k → j.Has k → i.attrs = j.attrs := by
    intro i hi j hj k h1 h2
    rcases apart_cases hap hi hj with rfl | h | h
    · rfl
    · exact absurd h2 (h k h1)
    · exact absurd h1 (h k h2)
  have hpick : ∀ p ∈ ks, ∃ c, g.lgr.rep.lookup p.2 = some c := fun p hp =>
    Option.isSome_iff_exists.1 ((hin p.2).2 ⟨p.1, (hs.has p hp).1, (hs.has p hp).2⟩)
  let f : Item × Seq → CharObj := fun p => (g.lgr.rep.lookup p.2).getD {cp := []}
  have hf : ∀ p ∈ ks, g.lgr.rep.lookup p.2 = some (f p) := by
    intro p hp
    obtain ⟨c, h⟩ := hpick p hp
    simp only [f, h, Option.getD_some]
  have hcp : ∀ p ∈ ks, (f p).cp = p.2 := fun p hp => lookup_cp (hf p hp)
  have hflat : ∀ l : List (Item × Seq), (∀ p ∈ l, p ∈ ks) → (l.map f).flatMap CharObj.cp = l.flatMap Prod.snd := by
    intro l hl
    rw [List.flatMap_map]
    exact List.flatMap_congr (fun p hp => hcp p (hl p hp))
  refine ⟨ks.map f, ?_, ?_, ?_⟩
  · rw [hflat ks (fun _ h => h), hs.concat]
  · intro c hc
    obtain ⟨p, hp, rfl⟩ := List.mem_map.1 hc
    rw [getChar_ok, hcp p hp]
    exact hf p hp
  · intro pre c post hsp
    obtain ⟨l1, l2, rfl, h1, h2⟩ := List.map_eq_append_iff.1 hsp
    obtain ⟨p, l3, rfl, h3, h4⟩ := List.map_eq_cons_iff.1 h2
    subst h1 h3
    have hpm : p ∈ l1 ++ p :: l3 := by simp
    obtain ⟨g1, g2⟩ := hs.has p hpm
    obtain ⟨j, hj, hh⟩ := hrep _ _ (hf p hpm)
    have hat : (f p).attrs = p.1.attrs := by
      rw [hh.2.2.1]
      exact hsame j hj p.1 g1 p.2 hh.1 g2
    rw [hflat l1 (fun q hq => by simp [hq])]
    have hctx := hs.context l1 p l3 rfl
    have hcat := hs.concat
    rw [List.flatMap_append, List.flatMap_cons] at hcat
    unfold CharCtx
    rw [hat, hcp p hpm]
    refine (context_iff hc hE hp hso (hready p.1 g1).1 (hone _ g1) ?_ ?_).2 hctx
    · rw [← hcat]; simp
    · rw [← hcat, List.drop_left]; exact List.prefix_append _ _

/-- **C106** (partial) A label which passes the preliminary test under the LGR read from a document is made of
sequences of items of the data section, each in the context its element asks for; the test raises nothing; and
if no sequence of an item is a proper prefix of another one, a label passes exactly when it is made so. Labels of
code points without context rules always pass. This
holds however rules are evaluated, as long as it is by the LGR. Missing: items of which one is the beginning
of another (see `beginning_wrong`), context rules of another form than an anchor between look-arounds, labels of more
than 63 code points, documents which define a name twice. -/
theorem document_labels_partial {R : Reader} {cs : Rfc7940.Results} {d : Doc} {g : Loaded} (h : Clear R cs d g)
    {is : List Item} (hm : Means d.data is) (hready : Ready (d.rules.getD []) is)
    (hso : Inhabited R.props is (d.rules.getD [])) {env : Env} (hE : Faithful R.props g.rules.rs env) {label : Seq}
    (hp : Plain label) :
    ∃ p, env.prelim g.lgr.rep label = .ok p ∧
      (p.ok = true → ∃ ks, Made R.props is (d.rules.getD []) label ks ∧ ks.map Prod.snd = p.chars.map CharObj.cp) ∧
      ((∀ i ∈ is, ∀ j ∈ is, ∀ k k', i.Has k → j.Has k' → k <+: k' → k = k') →
        (p.ok = true ↔ ∃ ks, Made R.props is (d.rules.getD []) label ks)) ∧
      ((∀ x ∈ label, ∃ i ∈ is, i.Has [x] ∧ i.attrs.whenR = none ∧ i.attrs.notWhenR = none) → p.ok = true) := by
  obtain ⟨hc, hfine, hin, hrep, hap⟩ := common_of h hm
  have hwf := hc.state.1
  have hone : ∀ i ∈ is, i.attrs.whenR = none ∨ i.attrs.notWhenR = none := fun i hi => (hfine i hi).1.1
  obtain ⟨p, hpre⟩ := prelim_defined hwf (rules_defined hc hE hready hrep) label
  have hsound : p.ok = true → ∃ ks, Made R.props is (d.rules.getD []) label ks ∧ ks.map Prod.snd = p.chars.map CharObj.cp :=
    fun hok => made_of_segments hc hE hp hso hready hone hrep (C13.accepted_is_segmentation hwf hpre hok).1
  refine ⟨p, hpre, hsound, fun hpf => ⟨fun hok => (hsound hok).imp (fun ks h => h.1), ?_⟩, fun hall => ?_⟩
  rotate_left
  · refine C14.accepts_plain_labels_partial hwf hpre (fun x hx => ?_)
    obtain ⟨i, hi, h1, h2, h3⟩ := hall x hx
    obtain ⟨c, hl⟩ := Option.isSome_iff_exists.1 ((hin [x]).2 ⟨i, hi, h1⟩)
    obtain ⟨j, hj, hh⟩ := hrep _ _ hl
    have ha : c.attrs = i.attrs := by
      rw [hh.2.2.1]
      rcases apart_cases hap hi hj with rfl | h | h
      · rfl
      · exact absurd hh.1 (h _ h1)
      · exact absurd h1 (h _ hh.1)
    exact ⟨c, getChar_ok.2 hl, by rw [ha]; exact h2, by rw [ha]; exact h3⟩
  rintro ⟨ks, hks⟩
  obtain ⟨cs, hcs⟩ := segments_of_made hc hE hp hso hready hone hin hap hrep hks
  refine (C14.accepts_iff_segmentable_partial hwf ?_ hpre).2 ⟨cs, hcs⟩
  intro c c' h1 h2 h3
  obtain ⟨i, hi, hh⟩ := hrep _ _ (getChar_ok.1 h1)
  obtain ⟨j, hj, hh'⟩ := hrep _ _ (getChar_ok.1 h2)
  have := hpf i hi j hj _ _ hh.1 hh'.1 h3
  rw [this, h2] at h1
  cases h1
  rfl

end Lgr.Props.C106

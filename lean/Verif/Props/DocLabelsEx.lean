import Verif.Props.DocDisp
import Verif.Props.DocXmlWrong

/-!
# C106, C107: examples and violations
-/

namespace Lgr.Props.C106
open Lgr Xml Text Repertoire LGR RulesXml C101 C103 DocXml C105 C50

/-- A document with a tag, a context rule, a rule of whole labels, an action, and a mapping of a code point to itself. -/
def doc1 : Doc :=
  { metaE := some [{ tag := "version", text := .plain "1" }]
    data :=
      [{ tag := "char", attrs := [("cp", "0061")] },
       { tag := "char", attrs := [("cp", "0062")], vars := [[("cp", "0062"), ("type", "blocked")]] },
       { tag := "char", attrs := [("cp", "094D"), ("tag", "virama")] },
       { tag := "char", attrs := [("cp", "200C"), ("when", "follows-virama")] }]
    rules := some C103.demo }

def reader1 : Reader := { C104.reader0 with props := C103.demoP.db, fuel := 9 }

/-- Its items. -/
def items1 : List C105.Item :=
  [.char [0x61] {} [], .char [0x62] {} [{ cp := [0x62], type := some "blocked" }],
   .char [0x94D] { tags := ["virama"] } [], .char [0x200C] { whenR := some "follows-virama" } []]

theorem doc1_reads : (match parseDoc reader1 [] doc1 with
    | (cs, .ok (some _)) => decide (dget cs "parse_xml" ≠ some false)
    | _ => false) = true := by decide +kernel

theorem doc1_ok : ∃ cs1 g, parseDoc reader1 [] doc1 = (cs1, .ok (some g)) ∧ dget cs1 "parse_xml" ≠ some false := by
  have h := doc1_reads
  rcases hp : parseDoc reader1 [] doc1 with ⟨cs, o⟩
  rw [hp] at h
  match o, h with
  | .ok (some g), h => exact ⟨cs, g, rfl, by simpa using h⟩

theorem doc1_means : Means doc1.data items1 := by
  refine .item (.char rfl ?_ ⟨rfl, rfl, rfl, ?_, ?_⟩ .nil) (.item (.char rfl ?_ ⟨rfl, rfl, rfl, ?_, ?_⟩
    (.cons ⟨?_, rfl, rfl, rfl, rfl, ?_⟩ .nil)) (.item (.char rfl ?_ ⟨rfl, rfl, rfl, ?_, ?_⟩ .nil)
    (.item (.char rfl ?_ ⟨rfl, rfl, rfl, ?_, ?_⟩ .nil) .nil)))
  all_goals first
    | exact spells_iff.2 (by decide +kernel)
    | exact (listed_iff (by decide +kernel)).2 (by decide +kernel)

theorem doc1_clear : ∃ g, Clear reader1 [] doc1 g := by
  obtain ⟨cs1, g, h1, h2⟩ := doc1_ok
  exact ⟨g, rfl, ⟨cs1, h1, h2⟩, by decide +kernel, C103.demo_read.distinct, C103.demo_read.fine⟩

theorem tagged1 {t : String} {x : Nat} : Tagged items1 t x ↔ t = "virama" ∧ x = 0x94D := by
  unfold Tagged items1
  constructor
  · rintro ⟨i, hi, ht, k, hk, hx⟩
    simp only [List.mem_cons, List.not_mem_nil, or_false] at hi
    rcases hi with rfl | rfl | rfl | rfl
    all_goals simp only [Item.attrs, Item.Has, List.mem_cons, List.not_mem_nil, or_false] at ht hk
    subst hk
    simp at hx
    exact ⟨ht, hx⟩
  · rintro ⟨rfl, rfl⟩
    exact ⟨.char [0x94D] { tags := ["virama"] } [], by simp, by simp [Item.attrs], [0x94D], rfl, by simp⟩

theorem tagCls1 {t : String} {l : List Nat} (h : dget C103.demoTags t = some l) : t = "virama" ∧ l = [0x94D] := by
  unfold C103.demoTags dget dget at h
  split at h
  · rename_i k
    cases h
    exact ⟨k.symm, rfl⟩
  · cases h

theorem inhabited_demo {is : List C105.Item} (htag : ∀ {t x}, Tagged is t x ↔ t = "virama" ∧ x = 0x94D) :
    Inhabited reader1.props is C103.demo := by
  intro w hw
  refine C103.demo_solid ((sense_iff (g := { tagCls := C103.demoTags }) ?_ ?_).1 hw)
  · intro t l h
    rw [(tagCls1 h).2]
    simp
  · intro t x
    rw [htag]
    unfold tagSet
    constructor
    · intro h
      cases hd : dget C103.demoTags t with
      | none => rw [hd] at h; cases h
      | some l =>
        rw [hd] at h
        obtain ⟨rfl, rfl⟩ := tagCls1 hd
        exact ⟨rfl, by simpa using h⟩
    · rintro ⟨rfl, rfl⟩
      simp [C103.demoTags, dget]

theorem inhabited1 : Inhabited reader1.props items1 C103.demo := inhabited_demo tagged1

/-- The context rule. -/
def virama : Node := .mk "rule" [("name", "follows-virama")] none
  [.mk "look-behind" [] none [.mk "class" [("from-tag", "virama")] none []], .mk "anchor" [] none []]

theorem virama_mem : virama ∈ C103.demo := by simp [virama, C103.demo]

theorem usable1 : Usable C103.demo "follows-virama" := by
  refine ⟨virama, virama_mem, by decide, rfl, .inr ⟨rfl, [_], _, [], rfl, rfl, ?_⟩⟩
  intro d hd
  simp only [List.append_nil, List.mem_cons, List.not_mem_nil, or_false] at hd
  subst hd
  refine ⟨.mk _ (by decide) ?_ (fun h => absurd h (by decide)), .inr rfl⟩
  intro c hc
  simp only [Node.children, List.mem_cons, List.not_mem_nil, or_false] at hc
  subst hc
  exact leaf_noAnchor (by decide) rfl (by decide)

theorem ready1 : Ready C103.demo items1 := by
  intro i hi
  simp only [items1, List.mem_cons, List.not_mem_nil, or_false] at hi
  rcases hi with rfl | rfl | rfl | rfl
  · simp [Item.attrs, Item.vars]
  · simp [Item.attrs, Item.vars]
  · simp [Item.attrs, Item.vars]
  · refine ⟨?_, by simp [Item.vars]⟩
    intro r hr
    simp [Item.attrs] at hr
    rw [← hr]
    exact usable1

/-- All hypotheses are met together, and there is a faithful evaluation of rules. -/
example : ∃ g env, Clear reader1 [] doc1 g ∧ Means doc1.data items1 ∧ Ready (doc1.rules.getD []) items1 ∧
    Inhabited reader1.props items1 (doc1.rules.getD []) ∧ Faithful reader1.props g.rules.rs env ∧
    Plain [0x61, 0x94D, 0x200C] := by
  obtain ⟨g, hg⟩ := doc1_clear
  obtain ⟨env, he⟩ := faithful_exists (common_of hg doc1_means).1
  exact ⟨g, env, hg, doc1_means, ready1, inhabited1, he, by unfold Plain; decide⟩

theorem applies_demo {g : Loaded} {is : List C105.Item} (hc : Common reader1 is C103.demo g)
    (htag : ∀ {t x}, Tagged is t x ↔ t = "virama" ∧ x = 0x94D) {label : Seq} (hp : Plain label) {o n : Nat}
    (ho : o + n ≤ label.length) :
    Applies reader1.props is C103.demo label "follows-virama" o n ↔ ∃ m, o = m + 1 ∧ label[m]? = some 0x94D := by
  obtain ⟨w, h1, h2, h3⟩ := document_has_meaning hc.read label (fun i j => i = o ∧ j = o + n)
  have hs := (sense_iff hc.state.2 hc.tags).2 h3
  have hanc : ∀ i j, w.anchor i j ↔ i = o ∧ j = o + n := by rw [h2]; exact fun _ _ => Iff.rfl
  refine (applies_any hc hp.1 hp.2 (inhabited_demo htag) usable1 ho h1 hanc hs).trans ?_
  have hcount : ∀ c, CountSays (dget ([("from-tag", "virama")] : XAttrs) "count") c ↔ c = .none := by
    intro c
    rw [← count_iff]
    have e : parseCount (dget ([("from-tag", "virama")] : XAttrs) "count") = .ok .none := by decide +kernel
    rw [e]
    exact ⟨fun h => by cases h; rfl, fun h => by rw [h]⟩
  have hcls : ∀ {i j}, NHolds reader1.props w (.mk "class" [("from-tag", "virama")] none []) i j ↔
      label[i]? = some 0x94D ∧ j = i + 1 := by
    intro i j
    rw [NHolds, if_neg (by decide), if_neg (by decide), if_neg (by decide), if_neg (by decide), if_neg (by decide)]
    simp only [hcount, exists_eq_left, C63.Counted]
    rw [if_neg (by decide), if_neg (by decide), if_neg (by decide), if_neg (by decide), h1]
    constructor
    · rintro ⟨x, h4, h5, h6⟩
      rw [NSet, if_pos rfl] at h5
      have := (htag.1 ((hs.tag "virama" x).1 h5)).2
      rw [this] at h4
      exact ⟨h4, h6⟩
    · rintro ⟨h4, h6⟩
      refine ⟨0x94D, h4, ?_, h6⟩
      rw [NSet, if_pos rfl]
      exact (hs.tag "virama" _).2 (htag.2 ⟨rfl, rfl⟩)
  have hbeh : ∀ {i j}, NHolds reader1.props w (.mk "look-behind" [] none [.mk "class" [("from-tag", "virama")] none []])
      i j ↔ (∃ k, label[k]? = some 0x94D ∧ i = k + 1) ∧ j = i := by
    intro i j
    rw [NHolds, if_neg (by decide), if_neg (by decide), if_neg (by decide), if_neg (by decide), if_pos rfl]
    simp only [NSeq, hcls, exists_eq_right]
  have hrule : ∀ {i j}, RHolds reader1.props w virama i j ↔
      (∃ k, label[k]? = some 0x94D ∧ i = k + 1) ∧ i = o ∧ j = o + n := by
    intro i j
    show NSeq _ _ _ _ _ ↔ _
    simp only [virama, Node.children, NSeq, hbeh, exists_eq_right]
    constructor
    · rintro ⟨k, ⟨h4, rfl⟩, h5⟩
      rw [NHolds, if_neg (by decide), if_neg (by decide), if_pos rfl] at h5
      exact ⟨h4, (hanc _ _).1 h5⟩
    · rintro ⟨h4, h5⟩
      refine ⟨i, ⟨h4, rfl⟩, ?_⟩
      rw [NHolds, if_neg (by decide), if_neg (by decide), if_pos rfl]
      exact (hanc _ _).2 h5
  constructor
  · rintro ⟨e, he, hr, hn, i, j, hi, hh⟩
    have := (hs.rule virama virama_mem (by decide) _ rfl i j).1 ((hs.rule e he hr _ hn i j).2 hh)
    obtain ⟨⟨k, h4, h5⟩, h6, -⟩ := hrule.1 this
    exact ⟨k, by omega, h4⟩
  · rintro ⟨m, rfl, hm⟩
    exact ⟨virama, virama_mem, by decide, rfl, m + 1, m + 1 + n, by omega, hrule.2 ⟨⟨m, hm, rfl⟩, rfl, rfl⟩⟩

theorem applies1 {g : Loaded} (hg : Clear reader1 [] doc1 g) {label : Seq} (hp : Plain label) {o n : Nat}
    (ho : o + n ≤ label.length) :
    Applies reader1.props items1 C103.demo label "follows-virama" o n ↔ ∃ m, o = m + 1 ∧ label[m]? = some 0x94D :=
  applies_demo (common_of hg doc1_means).1 tagged1 hp ho

/-- With this document, a virama and a joiner are a label. A joiner by itself is none. -/
example {g : Loaded} (hg : Clear reader1 [] doc1 g) {env : Env} (hE : Faithful reader1.props g.rules.rs env) :
    (∃ p, env.prelim g.lgr.rep [0x94D, 0x200C] = .ok p ∧ p.ok = true) ∧
    ∃ p, env.prelim g.lgr.rep [0x61, 0x200C] = .ok p ∧ p.ok = false := by
  have hpf : ∀ i ∈ items1, ∀ j ∈ items1, ∀ k k', i.Has k → j.Has k' → k <+: k' → k = k' := by
    intro i hi j hj k k' hk hk' hkk
    have hl : ∀ i ∈ items1, ∀ k, i.Has k → k.length = 1 := by
      intro i hi k hk
      simp only [items1, List.mem_cons, List.not_mem_nil, or_false] at hi
      rcases hi with rfl | rfl | rfl | rfl <;> (simp only [Item.Has] at hk; rw [hk]; rfl)
    exact hkk.eq_of_length ((hl i hi k hk).trans (hl j hj k' hk').symm)
  have hp1 : Plain [0x94D, 0x200C] := by unfold Plain; decide
  have hp2 : Plain [0x61, 0x200C] := by unfold Plain; decide
  constructor
  · obtain ⟨p, h1, -, h3, -⟩ := document_labels_partial hg doc1_means ready1 inhabited1 hE hp1
    refine ⟨p, h1, (h3 hpf).2 ⟨[(.char [0x94D] { tags := ["virama"] } [], [0x94D]),
      (.char [0x200C] { whenR := some "follows-virama" } [], [0x200C])], rfl, ?_, ?_⟩⟩
    · intro q hq
      simp only [List.mem_cons, List.not_mem_nil, or_false] at hq
      rcases hq with rfl | rfl <;> exact ⟨by simp [items1], rfl⟩
    · intro pre q post he
      match pre, he with
      | [], he =>
        cases he
        exact ⟨fun r hr => by simp [Item.attrs] at hr, fun r hr => by simp [Item.attrs] at hr⟩
      | [_], he =>
        cases he
        refine ⟨fun r hr => ?_, fun r hr => by simp [Item.attrs] at hr⟩
        simp only [Item.attrs, Option.some.injEq] at hr
        subst hr
        exact (applies1 hg hp1 (o := 1) (n := 1) (by simp)).2 ⟨0, rfl, rfl⟩
      | _ :: _ :: [], he => simp at he
  · obtain ⟨p, h1, -, h3, -⟩ := document_labels_partial hg doc1_means ready1 inhabited1 hE hp2
    refine ⟨p, h1, ?_⟩
    rw [Bool.eq_false_iff]
    intro hok
    obtain ⟨ks, hks⟩ := (h3 hpf).1 hok
    have hitem : ∀ q ∈ ks, q = (.char [0x61] {} [], [0x61]) ∨ q = (.char [0x62] {} [{ cp := [0x62], type := some "blocked" }], [0x62]) ∨
        q = (.char [0x94D] { tags := ["virama"] } [], [0x94D]) ∨ q = (.char [0x200C] { whenR := some "follows-virama" } [], [0x200C]) := by
      rintro ⟨i, k⟩ hq
      obtain ⟨h4, h5⟩ := hks.has _ hq
      simp only [items1, List.mem_cons, List.not_mem_nil, or_false] at h4
      rcases h4 with rfl | rfl | rfl | rfl <;> (simp only [Item.Has] at h5; rw [h5]; simp)
    have hcat := hks.concat
    match ks, hks, hitem, hcat with
    | [], _, _, hcat => simp at hcat
    | q :: ks, hks, hitem, hcat =>
      have hq := hitem q (by simp)
      have hq : q = (.char [0x61] {} [], [0x61]) := by
        rcases hq with rfl | rfl | rfl | rfl
        · rfl
        all_goals simp at hcat
      subst hq
      match ks, hks, hitem, hcat with
      | [], _, _, hcat => simp at hcat
      | q :: ks, hks, hitem, hcat =>
        have hq := hitem q (by simp)
        have hq : q = (.char [0x200C] { whenR := some "follows-virama" } [], [0x200C]) := by
          rcases hq with rfl | rfl | rfl | rfl
          · simp at hcat
          · simp at hcat
          · simp at hcat
          · rfl
        subst hq
        have := (hks.context [_] _ ks rfl).1 "follows-virama" rfl
        obtain ⟨m, h6, h7⟩ := (applies1 hg hp2 (o := 1) (n := 1) (by simp)).1 this
        have : m = 0 := by omega
        subst this
        simp at h7

/-! ## Violation -/

/-- The sequences `a`, `ab` and `bc`. -/
def doc2 : Doc :=
  { metaE := some []
    data := [{ tag := "char", attrs := [("cp", "61")] }, { tag := "char", attrs := [("cp", "61 62")] },
      { tag := "char", attrs := [("cp", "62 63")] }] }

def items2 : List C105.Item := [.char [0x61] {} [], .char [0x61, 0x62] {} [], .char [0x62, 0x63] {} []]

theorem doc2_means : Means doc2.data items2 := by
  refine .item (.char rfl ?_ ⟨rfl, rfl, rfl, ?_, ?_⟩ .nil) (.item (.char rfl ?_ ⟨rfl, rfl, rfl, ?_, ?_⟩ .nil)
    (.item (.char rfl ?_ ⟨rfl, rfl, rfl, ?_, ?_⟩ .nil) .nil))
  all_goals first
    | exact spells_iff.2 (by decide +kernel)
    | exact (listed_iff (by decide +kernel)).2 (by decide +kernel)

theorem doc2_reads : (match parseDoc reader1 [] doc2 with
    | (cs, .ok (some g)) => decide (dget cs "parse_xml" ≠ some false ∧
        g.lgr.rep = (parseData none false { lgr := {} } doc2.data).1.lgr.rep)
    | _ => false) = true := by decide +kernel

/-- **C106** is violated when one item is the beginning of another: the label `abc` is made of the sequences `a` and
`bc`, but is refused, because `ab` is tried, nothing else. -/
theorem beginning_wrong : ∃ g, Clear reader1 [] doc2 g ∧ Means doc2.data items2 ∧
    Made reader1.props items2 [] [0x61, 0x62, 0x63] [(.char [0x61] {} [], [0x61]), (.char [0x62, 0x63] {} [], [0x62, 0x63])] ∧
    ∀ env : Env, ∃ p, env.prelim g.lgr.rep [0x61, 0x62, 0x63] = .ok p ∧ p.ok = false := by
  have h := doc2_reads
  rcases hp : parseDoc reader1 [] doc2 with ⟨cs, o⟩
  rw [hp] at h
  match o, h, hp with
  | .ok (some g), h, hp =>
    simp only [decide_eq_true_eq] at h
    refine ⟨g, ⟨rfl, ⟨cs, hp, h.1⟩, by decide +kernel, ⟨List.nodup_nil, List.nodup_nil, by intro n hn; cases hn⟩,
      by intro e he; cases he⟩, doc2_means, ⟨rfl, ?_, ?_⟩, ?_⟩
    · intro q hq
      simp only [List.mem_cons, List.not_mem_nil, or_false] at hq
      rcases hq with rfl | rfl <;> exact ⟨by simp [items2], rfl⟩
    · intro pre q post he
      match pre, he with
      | [], he =>
        cases he
        exact ⟨fun r hr => by simp [Item.attrs] at hr, fun r hr => by simp [Item.attrs] at hr⟩
      | [_], he =>
        cases he
        exact ⟨fun r hr => by simp [Item.attrs] at hr, fun r hr => by simp [Item.attrs] at hr⟩
      | _ :: _ :: [], he => simp at he
    · intro env
      rw [h.2]
      exact ⟨_, rfl, rfl⟩

end Lgr.Props.C106

namespace Lgr.Props.C107
open Lgr Xml Text Repertoire LGR RulesXml C101 C103 DocXml C105 C106

/-- There is a faithful evaluation of the rules of a document. -/
theorem full_faithful_exists {R : Reader} {is : List C105.Item} {es : List Node} {g : Loaded} (hc : Common R is es g)
    (script : Nat → String) : ∃ env : FullEnv, env.script = script ∧ FullFaithful R.props g.rules.rs env := by
  obtain ⟨env, hE⟩ := faithful_exists hc
  obtain ⟨obj, c, rk, ha⟩ := after_read hc.read
  have key : ∀ n label, ∃ x : Except Err Bool, ∃ qs f, ∀ fuel, f ≤ fuel →
      ((asked R.props g.rules.rs qs).matches_ R.props fuel n label none 0).2 = x := by
    intro n label
    cases hm : dget g.rules.rs.lk.rules n with
    | none =>
      refine ⟨.error (.keyError n), [], 0, fun fuel _ => ?_⟩
      show (g.rules.rs.matches_ R.props fuel n label none 0).2 = _
      unfold RuleState.matches_
      rw [hm]
    | some m =>
      obtain ⟨f1, h1⟩ := answers ha.inv hm
      obtain ⟨f2, h2⟩ := answers_stable ha.inv hm
      refine ⟨C65.answer R.props f2 g.rules.rs n label none 0, [], max f1 f2, fun fuel hle => ?_⟩
      obtain ⟨b, hb⟩ := h1 fuel (le_trans (Nat.le_max_left _ _) hle) label none 0
      have := answered ha.cache [] hb
      have h3 := h2 fuel (le_trans (Nat.le_max_right _ _) hle) label none 0
      exact this.trans (hb.symm.trans h3)
  choose x hx using key
  exact ⟨⟨env, fun n label => x n label, script⟩, rfl, hE, hx⟩

def actions1 : List Action := [{ disp := "invalid", matchR := some "vowels-b" }]

theorem acts1 : Acts C103.demo actions1 := by
  refine .cons ⟨rfl, rfl, rfl, ?_, ?_, ?_, rfl, ?_⟩ .nil
  all_goals exact (listed_iff (by decide +kernel)).2 (by decide +kernel)

theorem tidy1 : ActsTidy C103.demo := by
  unfold ActsTidy
  decide +kernel

theorem actsReady1 : ActsReady C103.demo actions1 := by
  intro a ha r hr
  simp only [actions1, List.mem_cons, List.not_mem_nil, or_false] at ha
  subst ha
  simp at hr
  subst hr
  refine ⟨.mk "rule" [("name", "vowels-b")] none
       [.mk "start" [] none [], .mk "class" [("by-ref", "vowel"), ("count", "1+")] none [],
        .mk "char" [("cp", "0062")] none []], by simp [demo], by decide, rfl, ?_⟩
  refine .mk _ (by decide) (by
      intro c hc
      simp only [Node.children, List.mem_cons, List.not_mem_nil, or_false] at hc
      rcases hc with rfl | rfl | rfl <;> exact leaf_noAnchor (by decide) rfl (by decide)) (by
      intro _ r hr
      simp [Node.attrs, dget] at hr)

/-- All hypotheses are met together. -/
example : ∃ (g : Loaded) (env : FullEnv), Clear reader1 [] doc1 g ∧ Means doc1.data items1 ∧
    Ready (doc1.rules.getD []) items1 ∧ Acts (doc1.rules.getD []) actions1 ∧ ActsTidy (doc1.rules.getD []) ∧
    ActsReady (doc1.rules.getD []) actions1 ∧ C106.Inhabited reader1.props items1 (doc1.rules.getD []) ∧
    FullFaithful reader1.props g.rules.rs env ∧ (∀ i ∈ items1, ∀ k, i.Has k → k.length = 1) ∧ C106.Plain [0x62] := by
  obtain ⟨g, hg⟩ := doc1_clear
  obtain ⟨env, -, he⟩ := full_faithful_exists (common_of hg doc1_means).1 (fun _ => "Latin")
  refine ⟨g, env, hg, doc1_means, ready1, acts1, tidy1, actsReady1, inhabited1, he, ?_, by unfold C106.Plain; decide⟩
  intro i hi k hk
  simp only [items1, List.mem_cons, List.not_mem_nil, or_false] at hi
  rcases hi with rfl | rfl | rfl | rfl <;> (simp only [C105.Item.Has] at hk; rw [hk]; rfl)

/-! ## Violation -/

/-- The sequence `ab`, and `b` with a mapping to itself of type invalid. -/
def doc3 : Doc :=
  { metaE := some []
    data := [{ tag := "char", attrs := [("cp", "61 62")] },
      { tag := "char", attrs := [("cp", "62")], vars := [[("cp", "62"), ("type", "invalid")]] }] }

def items3 : List C105.Item := [.char [0x61, 0x62] {} [], .char [0x62] {} [{ cp := [0x62], type := some "invalid" }]]

theorem doc3_means : Means doc3.data items3 := by
  refine .item (.char rfl ?_ ⟨rfl, rfl, rfl, ?_, ?_⟩ .nil) (.item (.char rfl ?_ ⟨rfl, rfl, rfl, ?_, ?_⟩
    (.cons ⟨?_, rfl, rfl, rfl, rfl, ?_⟩ .nil)) .nil)
  all_goals first
    | exact spells_iff.2 (by decide +kernel)
    | exact (listed_iff (by decide +kernel)).2 (by decide +kernel)

theorem doc3_reads : (match parseDoc reader1 [] doc3 with
    | (cs, .ok (some g)) => decide (dget cs "parse_xml" ≠ some false ∧
        g.lgr.rep = (parseData none false { lgr := {} } doc3.data).1.lgr.rep ∧ g.rules.actions = [])
    | _ => false) = true := by decide +kernel

/-- **C107** is violated when one item is within another: the label `ab` is made of the sequence `ab`, which has no
mapping, so that it is valid; but the mapping of `b` counts, and makes it invalid. -/
theorem inner_wrong : ∃ g, Clear reader1 [] doc3 g ∧ Means doc3.data items3 ∧ Acts [] [] ∧
    Made reader1.props items3 [] [0x61, 0x62] [(.char [0x61, 0x62] {} [], [0x61, 0x62])] ∧
    (∀ ks, Made reader1.props items3 [] [0x61, 0x62] ks → ks = [(.char [0x61, 0x62] {} [], [0x61, 0x62])]) ∧
    First reader1.props items3 [] [] [0x61, 0x62]
      (MadeTypes reader1.props items3 [] [0x61, 0x62] [(.char [0x61, 0x62] {} [], [0x61, 0x62])])
      (MadeSelf reader1.props items3 [] [0x61, 0x62] [(.char [0x61, 0x62] {} [], [0x61, 0x62])]) "valid" 4 ∧
    ∀ env : FullEnv, ∃ el, env.testEligible g.lgr.rep g.rules.actions [0x61, 0x62] = .ok el ∧
      el.disp = some "invalid" ∧ el.ok = false := by
  have h := doc3_reads
  rcases hp : parseDoc reader1 [] doc3 with ⟨cs, o⟩
  rw [hp] at h
  match o, h, hp with
  | .ok (some g), h, hp =>
    simp only [decide_eq_true_eq] at h
    have hnone : ∀ t, ¬ MadeTypes reader1.props items3 [] [0x61, 0x62] [(.char [0x61, 0x62] {} [], [0x61, 0x62])] t := by
      rintro t ⟨pre, p, post, v, he, hs, -⟩
      match pre, he with
      | [], he => cases he; exact absurd hs.1 (by simp [C105.Item.vars])
      | _ :: [], he => simp at he
    refine ⟨g, ⟨rfl, ⟨cs, hp, h.1⟩, by decide +kernel, ⟨List.nodup_nil, List.nodup_nil, by intro n hn; cases hn⟩,
      by intro e he; cases he⟩, doc3_means, .nil, ⟨rfl, ?_, ?_⟩, ?_, ?_, ?_⟩
    · intro q hq
      simp only [List.mem_cons, List.not_mem_nil, or_false] at hq
      subst hq
      exact ⟨by simp [items3], rfl⟩
    · intro pre q post he
      match pre, he with
      | [], he =>
        cases he
        exact ⟨fun r hr => by simp [C105.Item.attrs] at hr, fun r hr => by simp [C105.Item.attrs] at hr⟩
      | _ :: [], he => simp at he
    · intro ks hks
      have hitem : ∀ q ∈ ks, q = (.char [0x61, 0x62] {} [], [0x61, 0x62]) ∨
          q = (.char [0x62] {} [{ cp := [0x62], type := some "invalid" }], [0x62]) := by
        rintro ⟨i, k⟩ hq
        obtain ⟨h4, h5⟩ := hks.has _ hq
        simp only [items3, List.mem_cons, List.not_mem_nil, or_false] at h4
        rcases h4 with rfl | rfl <;> (simp only [C105.Item.Has] at h5; rw [h5]; simp)
      have hcat := hks.concat
      match ks, hitem, hcat with
      | [], _, hcat => simp at hcat
      | q :: ks, hitem, hcat =>
        rcases hitem q (by simp) with rfl | rfl
        · have : ks = [] := by
            cases ks with
            | nil => rfl
            | cons q ks =>
              rcases hitem q (by simp) with rfl | rfl <;> simp at hcat
          rw [this]
        · simp at hcat
    · refine ⟨defaults.take 4, { disp := "valid", comment := some "Default catch-all" }, [], rfl, rfl, rfl, ?_, ?_⟩
      · exact ⟨by simp, by simp, by simp, by simp, by simp⟩
      · intro b hb hf
        simp only [defaults, List.take_succ_cons, List.take_zero, List.mem_cons, List.not_mem_nil, or_false] at hb
        rcases hb with rfl | rfl | rfl | rfl
        · obtain ⟨t, -, ht⟩ := hf.2.2.1 (by simp); exact hnone _ ht
        · obtain ⟨t, -, ht⟩ := hf.2.2.1 (by simp); exact hnone _ ht
        · obtain ⟨t, -, ht⟩ := hf.2.2.1 (by simp); exact hnone _ ht
        · obtain ⟨⟨t, ht⟩, -⟩ := hf.2.2.2.1 rfl (by simp); exact hnone _ ht
    · intro env
      rw [h.2.1, h.2.2]
      exact ⟨_, rfl, rfl, rfl⟩

end Lgr.Props.C107

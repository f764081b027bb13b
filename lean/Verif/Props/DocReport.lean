import Verif.Props.DocCollisions
import Verif.Props.CollisionReports

/-!
# C157: the report on collisions under a document
-/

namespace Lgr.Props.C157
open Lgr Xml Text Repertoire LGR RulesXml FullEnv C103 DocXml C105 C106 C107 C152 C153
open C101 hiding before after
open C111 hiding VarDisp OwnDisp varDisp_of own_of
open Validate Collisions LabelInput

/-- The label is read without error, and passes. -/
def Good (db : String → Except Err CpSet) (is : List C105.Item) (es : List Node) (rs : List Read) (l : Seq) : Prop :=
  C112.Input rs l ∧ Passes db is es l

/-- The report: pairs of labels and pairs of a label and a TLD which are in the relation, labels which are TLDs, labels
which do not pass, what cannot be read. -/
structure Reports (db : String → Except Err CpSet) (is : List C105.Item) (es : List Node) (rs ts : List Read)
    (rel : Seq → Seq → Prop) (out : List Line) : Prop where
  labels : ∀ x y, (.collides false x y ∈ out ∨ .collides false y x ∈ out) ↔
    Good db is es rs x ∧ Good db is es rs y ∧ x ≠ y ∧ rel x y
  tlds : ∀ x y, .collides true x y ∈ out ↔ Good db is es rs x ∧ Good db is es ts y ∧ x ≠ y ∧ rel x y
  isTld : ∀ x, .isTld x ∈ out ↔ C112.Input rs x ∧ C112.Input ts x
  none : noCollision ∈ out ↔
    (∀ x y, Good db is es rs x → (Good db is es rs y ∨ Good db is es ts y) → x ≠ y → ¬ rel x y) ∧
    ∀ x, C112.Input rs x → ¬ C112.Input ts x
  broken : ∀ x, .labelError x ∈ out ↔ C112.Broken rs x
  brokenTld : ∀ x, .tldError x ∈ out ↔ C112.Broken ts x
  notIn : ∀ x n, .notIn n x ∈ out ↔ n = 0 ∧ C112.Input rs x ∧ ¬ Passes db is es x

/-- An index is found exactly for the labels which pass. -/
theorem outcome {R : Reader} {cs : Rfc7940.Results} {d : Doc} {g : Loaded} (h : Clear R cs d g)
    {is : List C105.Item} (hm : Means d.data is) (hready : Ready (d.rules.getD []) is)
    (hso : C106.Inhabited R.props is (d.rules.getD [])) {env : FullEnv} (hE : Faithful R.props g.rules.rs env.toEnv) {label : Seq}
    (hp : C106.Plain label) (hne : label ≠ []) :
    (Passes R.props is (d.rules.getD []) label → ∃ i, indexOf env g.lgr.rep label = .ok i) ∧
    (¬ Passes R.props is (d.rules.getD []) label → ∃ s, indexOf env g.lgr.rep label = .error (.notInLGR s)) := by
  have S := setting_of h hm hready hso
  have hwf := S.common.state.1
  have hdef := rules_defined S.common hE hready S.hrep
  have hacc := passes_iff h hm hready hso hE hp
  constructor
  · intro hpass
    obtain ⟨p, hpre, hok⟩ := hacc.2 hpass
    obtain ⟨i, h1, -⟩ := C17.index_of_accepted hwf hdef hne hpre hok
    exact ⟨i, h1⟩
  · intro hno
    obtain ⟨p, hpre⟩ := prelim_defined hwf hdef label
    have hok : p.ok = false := by
      by_contra hc
      exact hno (hacc.1 ⟨p, hpre, by simpa using hc⟩)
    obtain ⟨x, -, -, -, hx, he⟩ := C17.index_of_rejected hwf hne hpre hok 0
    exact ⟨[x], he⟩

theorem reports_of {db : String → Except Err CpSet} {is : List C105.Item} {es : List Node} {rs ts : List Read}
    {rel : Seq → Seq → Prop} {index : Seq → Except Err Seq} (order : List Seq → List Seq) (ho : C112.Order order) (dispo : Dispo)
    (hyes : ∀ l, C112.Input rs l ∨ C112.Input ts l → Passes db is es l → ∃ i, index l = .ok i)
    (hno : ∀ l, C112.Input rs l ∨ C112.Input ts l → ¬ Passes db is es l → ∃ s, index l = .error (.notInLGR s))
    (hrel : ∀ x y, C112.Input rs x ∨ C112.Input ts x → C112.Input rs y ∨ C112.Input ts y →
      (C112.Same index x y ↔ Passes db is es x ∧ Passes db is es y ∧ rel x y)) :
    ∃ out, basicCollision order index dispo rs (some ts) = (out, .ok ()) ∧ Reports db is es rs ts rel out := by
  obtain ⟨out, h0, h1, h2, h3, h4, h5, h6, h7⟩ := C112.basic_collision_partial order ho index dispo rs ts (by
    intro l hl e he
    by_cases hp : Passes db is es l
    · obtain ⟨i, hi⟩ := hyes l hl hp
      rw [hi] at he
      cases he
    · obtain ⟨s, hs⟩ := hno l hl hp
      rw [hs] at he
      cases he
      exact ⟨s, rfl⟩)
  refine ⟨out, h0, ?_, ?_, h3, ?_, h5, h6, ?_⟩
  · intro x y
    rw [h1]
    constructor
    · rintro ⟨a, b, c, e⟩
      obtain ⟨p1, p2, p3⟩ := (hrel x y (.inl a) (.inl b)).1 e
      exact ⟨⟨a, p1⟩, ⟨b, p2⟩, c, p3⟩
    · rintro ⟨⟨a, p1⟩, ⟨b, p2⟩, c, p3⟩
      exact ⟨a, b, c, (hrel x y (.inl a) (.inl b)).2 ⟨p1, p2, p3⟩⟩
  · intro x y
    rw [h2]
    constructor
    · rintro ⟨a, b, c, e⟩
      obtain ⟨p1, p2, p3⟩ := (hrel x y (.inl a) (.inr b)).1 e
      exact ⟨⟨a, p1⟩, ⟨b, p2⟩, c, p3⟩
    · rintro ⟨⟨a, p1⟩, ⟨b, p2⟩, c, p3⟩
      exact ⟨a, b, c, (hrel x y (.inl a) (.inr b)).2 ⟨p1, p2, p3⟩⟩
  · rw [h4]
    refine and_congr_left fun _ => ⟨?_, ?_⟩
    · rintro hall x y ⟨a, p1⟩ (⟨b, p2⟩ | ⟨b, p2⟩) hne hr
      · exact hall x y a (.inl b) hne ((hrel x y (.inl a) (.inl b)).2 ⟨p1, p2, hr⟩)
      · exact hall x y a (.inr b) hne ((hrel x y (.inl a) (.inr b)).2 ⟨p1, p2, hr⟩)
    · intro hall x y a b hne hs
      obtain ⟨p1, p2, p3⟩ := (hrel x y (.inl a) b).1 hs
      exact hall x y ⟨a, p1⟩ (b.imp (⟨·, p2⟩) (⟨·, p2⟩)) hne p3
  · intro x n
    rw [h7]
    refine and_congr_right fun _ => and_congr_right fun a => ⟨?_, hno x (.inl a)⟩
    rintro ⟨s, hs⟩ hp
    obtain ⟨i, hi⟩ := hyes x (.inl a) hp
    rw [hi] at hs
    cases hs

/-- **C157** The short report on collisions under a document, for labels and TLDs of at most 63 code points whose variants leave
them so: the pairs are those of which the least labels of C154 are the same. -/
theorem document_report {R : Reader} {cs : Rfc7940.Results} {d : Doc} {g : Loaded} (h : Clear R cs d g)
    {is : List C105.Item} (hm : Means d.data is) (hready : Ready (d.rules.getD []) is)
    (hso : C106.Inhabited R.props is (d.rules.getD [])) {env : FullEnv} (hE : Faithful R.props g.rules.rs env.toEnv)
    (order : List Seq → List Seq) (ho : C112.Order order) (dispo : Dispo) (rs ts : List Read)
    (hin : ∀ l, C112.Input rs l ∨ C112.Input ts l → C106.Plain l ∧ l ≠ [] ∧ Room is l) :
    ∃ out, basicCollision order (indexOf env g.lgr.rep) dispo rs (some ts) = (out, .ok ()) ∧
      Reports R.props is (d.rules.getD []) rs ts
        (fun x y => ∃ i, IsLeast (C154.Indexes R.props is (d.rules.getD []) x) i ∧
          IsLeast (C154.Indexes R.props is (d.rules.getD []) y) i) out := by
  refine reports_of order ho dispo (fun l hl => (outcome h hm hready hso hE (hin l hl).1 (hin l hl).2.1).1)
    (fun l hl => (outcome h hm hready hso hE (hin l hl).1 (hin l hl).2.1).2) fun x y hx hy => ?_
  obtain ⟨a1, a2, a3⟩ := hin x hx
  obtain ⟨b1, b2, b3⟩ := hin y hy
  exact C154.document_collides_iff h hm hready hso hE a1 a2 a3 b1 b2 b3

/-- **C157** Under a document which passes the checks, without conditions on variants and overlapping sequences, the pairs are those
of labels which are alike (C156). -/
theorem checked_report {R : Reader} {cs : Rfc7940.Results} {d : Doc} {g : Loaded} (h : Clear R cs d g)
    {is : List C105.Item} (hm : Means d.data is) (hready : Ready (d.rules.getD []) is)
    (hso : C106.Inhabited R.props is (d.rules.getD [])) (hb : NoBeginning is) (hc : C156.NoConditions is)
    {ign : Bool} {es : List SymEntry} (h1 : (checkSymmetry R.db g.lgr ign).2 = .ok (true, es))
    {es' : List TransEntry} (h2 : (checkTransitivity R.db g.lgr).2 = .ok (true, es'))
    {env : FullEnv} (hE : Faithful R.props g.rules.rs env.toEnv)
    (order : List Seq → List Seq) (ho : C112.Order order) (dispo : Dispo) (rs ts : List Read)
    (hin : ∀ l, C112.Input rs l ∨ C112.Input ts l → C106.Plain l ∧ l ≠ []) :
    ∃ out, basicCollision order (indexOf env g.lgr.rep) dispo rs (some ts) = (out, .ok ()) ∧
      Reports R.props is (d.rules.getD []) rs ts (C156.Alike is) out := by
  refine reports_of order ho dispo (fun l hl => (outcome h hm hready hso hE (hin l hl).1 (hin l hl).2).1)
    (fun l hl => (outcome h hm hready hso hE (hin l hl).1 (hin l hl).2).2) fun x y hx hy => ?_
  obtain ⟨a1, a2⟩ := hin x hx
  obtain ⟨b1, b2⟩ := hin y hy
  constructor
  · rintro ⟨k, k1, k2⟩
    have pass : ∀ {z}, C106.Plain z → z ≠ [] → indexOf env g.lgr.rep z = .ok k → Passes R.props is (d.rules.getD []) z := by
      intro z z1 z2 z3
      by_contra hn
      obtain ⟨s, hs⟩ := (outcome h hm hready hso hE z1 z2).2 hn
      rw [hs] at z3
      cases z3
    have p1 := pass a1 a2 k1
    have p2 := pass b1 b2 k2
    obtain ⟨i, i', e1, e2, e3⟩ := C156.checked_collisions h hm hready hso hb hc h1 h2 hE a2 b2 a1 b1 p1 p2
    refine ⟨p1, p2, e3.1 ?_⟩
    unfold indexOf at k1 k2
    rw [k1] at e1
    rw [k2] at e2
    cases e1
    cases e2
    rfl
  · rintro ⟨p1, p2, hal⟩
    obtain ⟨i, i', e1, e2, e3⟩ := C156.checked_collisions h hm hready hso hb hc h1 h2 hE a2 b2 a1 b1 p1 p2
    obtain rfl := e3.2 hal
    exact ⟨i, e1, e2⟩

/-! ## Example -/

/-- The labels `ad` and `dd`, and the TLDs `bcd` and `z`. -/
def labels8 : List Read := [⟨[], [0x61, 0x64], true, none⟩, ⟨[], [0x64, 0x64], true, none⟩]
def tlds8 : List Read := [⟨[], [0x62, 0x63, 0x64], true, none⟩, ⟨[], [0x7a], true, none⟩]

theorem input8 {l : Seq} : (C112.Input labels8 l ↔ l = [0x61, 0x64] ∨ l = [0x64, 0x64]) ∧
    (C112.Input tlds8 l ↔ l = [0x62, 0x63, 0x64] ∨ l = [0x7a]) := by
  constructor
  all_goals
    constructor
    · rintro ⟨r, hr, -, rfl⟩
      simp only [labels8, tlds8, List.mem_cons, List.not_mem_nil, or_false] at hr
      rcases hr with rfl | rfl
      · exact .inl rfl
      · exact .inr rfl
    · rintro (rfl | rfl)
      · exact ⟨_, List.mem_cons_self, rfl, rfl⟩
      · exact ⟨_, List.mem_cons_of_mem _ List.mem_cons_self, rfl, rfl⟩

theorem plain8 : ∀ l, C112.Input labels8 l ∨ C112.Input tlds8 l → C106.Plain l ∧ l ≠ [] := by
  intro l hl
  rw [input8.1, input8.2] at hl
  rcases hl with (rfl | rfl) | (rfl | rfl) <;> (unfold C106.Plain; decide)

/-- The hypotheses are met; `ad` collides with the TLD `bcd`. -/
example : ∃ g es es' out, Clear reader1 [] C156.doc8 g ∧ (checkSymmetry reader1.db g.lgr false).2 = .ok (true, es) ∧
    (checkTransitivity reader1.db g.lgr).2 = .ok (true, es') ∧ ∃ env : FullEnv, Faithful reader1.props g.rules.rs env.toEnv ∧
    basicCollision List.dedup (indexOf env g.lgr.rep) (fun _ _ _ => ([], .ok ())) labels8 (some tlds8) = (out, .ok ()) ∧
    .collides true [0x61, 0x64] [0x62, 0x63, 0x64] ∈ out ∧ noCollision ∉ out := by
  obtain ⟨g, hg⟩ := C156.doc8_clear
  obtain ⟨es, es', h1, h2⟩ := C156.checks8 hg
  obtain ⟨env, -, he⟩ := full_faithful_exists (common_of hg C156.doc8_means).1 (fun _ => "Latin")
  obtain ⟨out, h3, h4⟩ := checked_report hg C156.doc8_means C156.ready8 (by intro w _ e he; cases he) C156.noBeginning8
    C156.noConditions8 h1 h2 he.1 List.dedup ⟨fun l => List.nodup_dedup l, fun l x => List.mem_dedup⟩
    (fun _ _ _ => ([], .ok ())) labels8 tlds8 plain8
  have a1 : Good reader1.props C156.items8 [] labels8 [0x61, 0x64] := ⟨input8.1.2 (.inl rfl), C156.passes8.1⟩
  have a2 : Good reader1.props C156.items8 [] tlds8 [0x62, 0x63, 0x64] := ⟨input8.2.2 (.inl rfl), C156.passes8.2⟩
  exact ⟨g, es, es', out, hg, h1, h2, env, he.1, h3, (h4.tlds _ _).2 ⟨a1, a2, by decide, C156.alike8⟩,
    fun hc => (h4.none.1 hc).1 _ _ a1 (.inr a2) (by decide) C156.alike8⟩

end Lgr.Props.C157

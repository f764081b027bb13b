import Verif.Props.RulesMeaning4

/-!
# C103: the rules of a document match what RFC 7940 says
-/

namespace Lgr.Props.C103
open Lgr Xml Text RulesXml C102 C42 C63 C101

/-! ## Specification -/

/-- The rule of the section matches the part of the label from position `i` up to position `j`. -/
def RHolds (db : String → Except Err CpSet) (w : NWorld) (e : Node) (i j : Nat) : Prop :=
  match dget e.attrs "by-ref" with
  | some r => w.rule r i j
  | none => NSeq db w e.children i j

/-- The classes of tags at the beginning of the section. -/
def tagged (tc : List (String × List Nat)) : List (String × Cls) :=
  tc.map (fun p => (Cls.tagPrefix ++ p.1, .base { name := some p.1, codepoints := p.2 }))

/-- Tags, classes and rules mean what the data section (`tc`) and the elements of the section say. (Tags
can be referred to by a name, too.) -/
structure Meaning (db : String → Except Err CpSet) (tc : List (String × List Nat)) (es : List Node) (w : NWorld) :
    Prop where
  tag : ∀ t x, w.sets.tag t x ↔ ∃ cps, dget tc t = some cps ∧ x ∈ cps
  tagName : ∀ t cps, dget tc t = some cps → ∀ x, w.sets.name (Cls.tagPrefix ++ t) x ↔ x ∈ cps
  cls : ∀ e ∈ es, isCls e = true → ∀ n, dget e.attrs "name" = some n → ∀ x, w.sets.name n x ↔ NSet db w.sets e x
  rule : ∀ e ∈ es, isRule e = true → ∀ n, dget e.attrs "name" = some n → ∀ i j, w.rule n i j ↔ RHolds db w e i j

/-- A question asked of an LGR. -/
structure Ask where
  fuel : Nat
  name : String
  label : Seq
  anchor : Option Seq
  index : Nat

/-- The LGR after questions. -/
noncomputable def asked (db : String → Except Err CpSet) (rs : RuleState) (qs : List Ask) : RuleState :=
  qs.foldl (fun s q => (s.matches_ db q.fuel q.name q.label q.anchor q.index).1) rs

/-- The section has been read (and nothing in it was left out). -/
structure Read (P : Parser) (tc : List (String × List Nat)) (es : List Node) (rs : RuleState) : Prop where
  read : ∃ s s', parseRules P s es = (s', .ok ()) ∧ s.1.rs = { lk := { classes := tagged tc, rules := [] }, cache := [] } ∧
    s'.1.rs = rs ∧ s'.2.bad = false
  force : P.force = false
  distinct : Distinct es
  fine : ∀ e ∈ es, FineElem P.db e

/-! ## Lemmas -/

theorem dget_tagged {tc : List (String × List Nat)} {t : String} : dget (tagged tc) (Cls.tagPrefix ++ t) =
    (dget tc t).map (fun cps => .base { name := some t, codepoints := cps }) := by
  induction tc with
  | nil => rfl
  | cons p tc ih =>
    obtain ⟨a, b⟩ := p
    unfold tagged at ih ⊢
    rw [List.map_cons]
    by_cases h : a = t
    · subst h; simp [dget]
    · have h' : ¬ Cls.tagPrefix ++ a = Cls.tagPrefix ++ t := fun e => h (tag_inj e)
      rw [dget, dget, if_neg h, if_neg h']
      exact ih

theorem tagged_keys {tc : List (String × List Nat)} {n : String} (h : n ∈ (tagged tc).map Prod.fst) :
    ∃ t, n = Cls.tagPrefix ++ t := by
  simp only [tagged, List.map_map, List.mem_map] at h
  obtain ⟨p, -, rfl⟩ := h
  exact ⟨p.1, rfl⟩

theorem parts_true {P : Cls → Prop} {Q : Count → Prop} : ∀ m, C66.Parts P Q m → C66.Parts P (fun _ => True) m := by
  refine matcher_ind ?_ ?_ ?_ ?_ ?_ ?_ ?_ ?_ ?_ ?_
  · exact fun h => h
  · exact fun h => h
  · exact fun h => h
  · exact fun c h => trivial
  · exact fun cps c h => trivial
  · intro ms ih hm
    rw [C66.Parts, C66.partsL_iff] at hm ⊢
    exact fun m hmem => ih m hmem (hm m hmem)
  · intro ms ih hm
    rw [C66.Parts, C66.partsL_iff] at hm ⊢
    exact fun m hmem => ih m hmem (hm m hmem)
  · intro ms c ih hm
    rw [C66.Parts, C66.partsL_iff] at hm ⊢
    exact ⟨trivial, fun m hmem => ih m hmem (hm.2 m hmem)⟩
  · exact fun k c h => ⟨trivial, h.2⟩
  · intro id nm br ms c ih hm
    rw [C66.Parts, C66.partsL_iff] at hm ⊢
    exact ⟨trivial, fun m hmem => ih m hmem (hm.2 m hmem)⟩

theorem seq_meaning {db : String → Except Err CpSet} {w : World} {ρ : Sets} {s s' : RState} {ns : List Node}
    {ms : List Matcher} (ht : Threaded s ns s' ms) (hq : C66.PartsL (Right db w ρ) (fun _ => True) ms) (i j : Nat) :
    HoldsSeq w ms i j ↔ NSeq db (NWorld.of w ρ) ns i j := by
  have hf := threaded_mem (P := fun n m => C66.Parts (Right db w ρ) (fun _ => True) m →
    ∀ i j, Holds w m i j ↔ NHolds db (NWorld.of w ρ) n i j) ht
    (fun n hn s s' m h hb hp => helper_meaning db w ρ n s s' m h hb hp)
  clear ht
  induction hf generalizing i with
  | nil => exact Iff.rfl
  | @cons n m ns ms h1 _ ih =>
    have g := h1 hq.1
    have g1 := ih hq.2
    simp only [HoldsSeq, NSeq, g, g1]

theorem rule_meaning {db : String → Except Err CpSet} {w : World} {ρ : Sets} {e : Node} {m : Matcher} (h : RuleOf e m)
    (hp : C66.Parts (Right db w ρ) (fun _ => True) m) (i j : Nat) :
    Holds w m i j ↔ RHolds db (NWorld.of w ρ) e i j := by
  obtain ⟨s, s', ms, ht, -, rfl⟩ := h
  unfold RHolds
  cases hr : dget e.attrs "by-ref" with
  | some r => rw [Holds]; rfl
  | none =>
    rw [Holds]
    exact seq_meaning ht hp.2 i j

/-- Elements that are not empty make matchers that are not. -/
theorem helper_solid {db : String → Except Err CpSet} {w : World} {ρ : Sets} : ∀ (n : Node) (s s' : RState) (m : Matcher),
    parseHelper s n = (s', .ok (some m)) → s'.bad = false → C66.Parts (Right db w ρ) (fun _ => True) m →
    Solid db (NWorld.of w ρ) n → AllCls (Inhabited w) m := by
  refine node_ind ?_
  intro tag attrs text children ih s s' m h hb hp hso
  obtain ⟨c, -, hm⟩ := made_of h
  have self := hso _ .self
  have lists : isCls (.mk tag attrs text children) = false → ∀ {s s' ms}, Threaded s children s' ms →
      C66.PartsL (Right db w ρ) (fun _ => True) ms → AllClsL (Inhabited w) ms := by
    intro hc s s' ms ht hq
    have hso' : ∀ c ∈ children, Solid db (NWorld.of w ρ) c := fun c hc' d hd => hso d (.child _ c hc hc' hd)
    have hf := threaded_mem (P := fun n m => C66.Parts (Right db w ρ) (fun _ => True) m →
      AllCls (Inhabited w) m) ht (fun n hn s s' m h hb hp => ih n hn s s' m h hb hp (hso' n hn))
    clear ht ih h hm hso hso' self hc
    induction hf with
    | nil => trivial
    | cons h1 _ ih => exact ⟨h1 hq.1, ih hq.2⟩
  have nonempty : ∀ {s s' ms}, Threaded s children s' ms → children ≠ [] → ms ≠ [] := by
    intro s s' ms ht hc
    cases ht with
    | nil => exact absurd rfl hc
    | cons => simp
  cases hm with
  | anchor ht => trivial
  | start ht => trivial
  | fin ht => trivial
  | any ht => trivial
  | char cps ht hg => exact self.1 ht cps (getCp_iff.1 hg)
  | choice _ ms ht hth =>
    exact ⟨nonempty (threaded_of hth hb) (self.2.1 ht), lists (by subst ht; rfl) (threaded_of hth hb) hp.2⟩
  | ahead _ ms ht hth => exact lists (by subst ht; rfl) (threaded_of hth hb) hp
  | behind _ ms ht hth => exact lists (by subst ht; rfl) (threaded_of hth hb) hp
  | rule _ ms ht hth =>
    exact ⟨fun hr => nonempty (threaded_of hth hb) (self.2.2.1 ht hr),
      lists (by subst ht; rfl) (threaded_of hth hb) hp.2⟩
  | cls k ht hk =>
    obtain ⟨x, h1, h2⟩ := self.2.2.2 (by unfold isCls; exact decide_eq_true ht)
    refine ⟨x, h1, ?_⟩
    have := hp.2 x
    rw [class_meaning db ρ _ k hk] at this
    exact this.2 h2

theorem rule_solid {db : String → Except Err CpSet} {w : World} {ρ : Sets} {e : Node} {m : Matcher}
    (hr : isRule e = true) (h : RuleOf e m) (hp : C66.Parts (Right db w ρ) (fun _ => True) m)
    (hso : Solid db (NWorld.of w ρ) e) : AllCls (Inhabited w) m := by
  obtain ⟨s, s', ms, ht, -, rfl⟩ := h
  have hc := not_cls_of_rule hr
  refine ⟨fun hb => ?_, ?_⟩
  · have := (hso e .self).2.2.1 (by simpa [isRule] using hr) hb
    intro hms
    subst hms
    cases ht' : e.children with
    | nil => exact this ht'
    | cons c cs => rw [ht'] at ht; cases ht
  · have hso' : ∀ c ∈ e.children, Solid db (NWorld.of w ρ) c := fun c hc' d hd => hso d (.child _ c hc hc' hd)
    have hf := threaded_mem (P := fun n m => C66.Parts (Right db w ρ) (fun _ => True) m →
      AllCls (Inhabited w) m) ht (fun n hn s s' m h hb hp => helper_solid n s s' m h hb hp (hso' n hn))
    have hq := hp.2
    clear ht hp
    generalize e.children = ns at hf
    induction hf with
    | nil => trivial
    | cons h1 _ ih => exact ⟨h1 hq.1, ih hq.2⟩

theorem forall2_right {α β : Type} {P : α → β → Prop} {l : List α} {r : List β} (h : List.Forall₂ P l r) {b : β}
    (hb : b ∈ r) : ∃ a ∈ l, P a b := by
  induction h with
  | nil => cases hb
  | cons h1 _ ih =>
    rcases List.mem_cons.1 hb with rfl | hb
    · exact ⟨_, by simp, h1⟩
    · obtain ⟨a, h2, h3⟩ := ih hb
      exact ⟨a, by simp [h2], h3⟩

/-- Elements without anchors make matchers without anchors. -/
theorem no_anchor {lk : Lookups} {es : List Node}
    (hlk : ∀ n m, dget lk.rules n = some m → ∃ e ∈ es, isRule e = true ∧ dget e.attrs "name" = some n ∧ RuleOf e m)
    (hrefs : ∀ n m, dget lk.rules n = some m → ∀ r, RefersTo r m → r ∈ lk.rules.map Prod.fst)
    {n : Node} (h : NoAnchor es n) :
    (∀ s s' m, parseHelper s n = (s', .ok (some m)) → s'.bad = false →
      (∀ r, RefersTo r m → r ∈ lk.rules.map Prod.fst) → AnchorFree lk m) ∧
    (∀ m, isRule n = true → RuleOf n m → (∀ r, RefersTo r m → r ∈ lk.rules.map Prod.fst) → AnchorFree lk m) := by
  induction h with
  | mk n h1 _ _ ih1 ih2 =>
    have lists : ∀ {s s' ms}, Threaded s n.children s' ms → (∀ m ∈ ms, ∀ r, RefersTo r m → r ∈ lk.rules.map Prod.fst) →
        ∀ m ∈ ms, AnchorFree lk m := by
      intro s s' ms ht hr m hm
      have hf := threaded_mem (P := fun n m => (∀ r, RefersTo r m → r ∈ lk.rules.map Prod.fst) → AnchorFree lk m) ht
        (fun n hn s s' m h hb => (ih1 n hn).1 s s' m h hb)
      obtain ⟨a, -, h⟩ := forall2_right hf hm
      exact h (hr m hm)
    have ref : n.tag = "rule" → ∀ {id nm r ms c}, dget n.attrs "by-ref" = some r →
        (∀ r', RefersTo r' (.rule id nm (some r) ms c) → r' ∈ lk.rules.map Prod.fst) →
        AnchorFree lk (.rule id nm (some r) ms c) := by
      intro ht id nm r ms c hr hk
      obtain ⟨m', hm'⟩ := Option.isSome_iff_exists.1 (dget_isSome.2 (hk r (.ref _ _ _ _)))
      obtain ⟨e, he, g1, g2, g3⟩ := hlk r m' hm'
      exact .ref _ _ _ _ _ m' hm' ((ih2 ht r hr e he g1 g2).2 m' g1 g3 (hrefs r m' hm'))
    obtain ⟨tag, attrs, text, children⟩ := n
    constructor
    · intro s s' m h hb hr
      obtain ⟨c, -, hm⟩ := made_of h
      cases hm with
      | anchor ht => exact absurd ht h1
      | start ht => exact .start
      | fin ht => exact .fin
      | any ht => exact .any _
      | char cps ht hg => exact .char _ _
      | choice _ ms ht hth =>
        exact .choice _ _ (lists (threaded_of hth hb) (fun m hm r hr' => hr r (.choice _ _ m hm hr')))
      | ahead _ ms ht hth =>
        exact .ahead _ (lists (threaded_of hth hb) (fun m hm r hr' => hr r (.ahead _ m hm hr')))
      | behind _ ms ht hth =>
        exact .behind _ (lists (threaded_of hth hb) (fun m hm r hr' => hr r (.behind _ m hm hr')))
      | rule _ ms ht hth =>
        cases hbr : dget attrs "by-ref" with
        | some r => rw [hbr] at hr; exact ref ht hbr hr
        | none =>
          rw [hbr] at hr
          exact .rule _ _ _ _ (lists (threaded_of hth hb) (fun m hm r hr' => hr r (.rule _ _ _ _ m hm hr')))
      | cls k ht hk => exact .cls _ _
    · intro m hrl h hr
      obtain ⟨s, s', ms, hth, hb, rfl⟩ := h
      cases hbr : dget (Node.mk tag attrs text children).attrs "by-ref" with
      | some r => rw [hbr] at hr; exact ref (by simpa [isRule] using hrl) hbr hr
      | none =>
        rw [hbr] at hr
        exact .rule _ _ _ _ (lists hth (fun m hm r hr' => hr r (.rule _ _ _ _ m hm hr')))

/-! ## The state after the section -/

/-- What is known of the LGR after the section has been read. -/
structure After (db : String → Except Err CpSet) (tc : List (String × List Nat)) (es : List Node) (obj : Obj)
    (rs : RuleState) (c r : String → Nat) : Prop where
  cache : C65.Inv db obj rs
  inv : C66.Inv db rs c r
  tag : ∀ t, dget rs.lk.classes (Cls.tagPrefix ++ t) = (dget tc t).map (fun cps => .base { name := some t, codepoints := cps })
  cls : ∀ e ∈ es, isCls e = true → ∃ n k, dget e.attrs "name" = some n ∧ parseClass e = .ok k ∧
      dget rs.lk.classes n = some k
  clsOf : ∀ n k, dget rs.lk.classes n = some k → (∃ t, n = Cls.tagPrefix ++ t) ∨
      ∃ e ∈ es, isCls e = true ∧ dget e.attrs "name" = some n ∧ parseClass e = .ok k
  rule : ∀ e ∈ es, isRule e = true → ∃ n m, dget e.attrs "name" = some n ∧ RuleOf e m ∧
      dget rs.lk.rules n = some m
  ruleOf : ∀ n m, dget rs.lk.rules n = some m → ∃ e ∈ es, isRule e = true ∧ dget e.attrs "name" = some n ∧ RuleOf e m

theorem after_read {P : Parser} {tc : List (String × List Nat)} {es : List Node} {rs : RuleState}
    (h : Read P tc es rs) : ∃ obj c r, After P.db tc es obj rs c r := by
  obtain ⟨⟨s, s', hp, hs, rfl, hb⟩, hf, hd, hfi⟩ := h
  obtain ⟨-, h2⟩ := run_of hf hp hb
  obtain ⟨obj, -, hrun⟩ := h2 (fun _ => (none, []))
  have hrun := hrun obj (fun _ _ => rfl)
  rw [hs] at hrun
  have hn : New { classes := tagged tc, rules := [] } es := by
    refine ⟨fun n hn hm => ?_, fun n _ hm => by cases hm⟩
    obtain ⟨t, ht⟩ := tagged_keys hm
    exact hd.tag n hn t ht
  have h0 : C66.Inv P.db { lk := { classes := tagged tc, rules := [] }, cache := [] } (fun _ => 0) (fun _ => 0) := by
    have htag : ∀ n c, dget (tagged tc) n = some c → ∃ t cps, n = Cls.tagPrefix ++ t ∧
        c = .base { name := some t, codepoints := cps } := by
      intro n c hc
      obtain ⟨t, rfl⟩ := tagged_keys (dget_isSome.1 (by rw [hc]; rfl))
      rw [dget_tagged, Option.map_eq_some_iff] at hc
      obtain ⟨cps, -, rfl⟩ := hc
      exact ⟨t, cps, rfl, rfl⟩
    refine ⟨⟨?_, fun _ => rfl, ?_, ?_⟩, ?_, ?_⟩
    · intro n c hc
      obtain ⟨t, cps, rfl, rfl⟩ := htag n c hc
      trivial
    · intro n c hc hnt
      obtain ⟨t, cps, rfl, rfl⟩ := htag n c hc
      exact absurd rfl (hnt t)
    · intro t c hc
      obtain ⟨t', cps, h1, rfl⟩ := htag _ c hc
      exact ⟨_, rfl, rfl, rfl, rfl⟩
    · intro n m hm; simp [dget] at hm
    · intro n m hm; simp [dget] at hm
  have i1 := run_inv65 hrun hd hn ⟨by intro id beh r hr; simp [dget] at hr, by intro n m hm; simp [dget] at hm⟩
  obtain ⟨c, r, i2⟩ := run_inv66 hrun hd hn hfi ⟨_, _, h0⟩
  obtain ⟨l1, l2, l3, l4, l5⟩ := run_lookup hrun hd hn
  refine ⟨obj, c, r, i1, i2, ?_, l3, ?_, l4, ?_⟩
  · intro t
    rw [l1 _ (fun hm => hd.tag _ hm t rfl)]
    exact dget_tagged
  · intro n k hk
    by_cases hm : n ∈ classNames es
    · have hm' := hm
      simp only [classNames, List.mem_filterMap, List.mem_filter] at hm'
      obtain ⟨e, ⟨he, hc⟩, hne⟩ := hm'
      obtain ⟨n', k', g1, g2, g3⟩ := l3 e he hc
      rw [hne] at g1
      cases g1
      rw [hk] at g3
      cases g3
      exact .inr ⟨e, he, hc, hne, g2⟩
    · rw [l1 n hm] at hk
      exact .inl (tagged_keys (dget_isSome.1 (by rw [hk]; rfl)))
  · intro n m hm
    rcases l5 n m hm with h | h
    · simp [dget] at h
    · exact h

theorem solves_of {db : String → Except Err CpSet} {tc : List (String × List Nat)} {es : List Node} {obj : Obj}
    {rs : RuleState} {c r : String → Nat} (h : After db tc es obj rs c r) {ρ : Sets}
    (htag : ∀ t x, ρ.tag t x ↔ ∃ cps, dget tc t = some cps ∧ x ∈ cps)
    (htn : ∀ t cps, dget tc t = some cps → ∀ x, ρ.name (Cls.tagPrefix ++ t) x ↔ x ∈ cps)
    (hcls : ∀ e ∈ es, isCls e = true → ∀ n, dget e.attrs "name" = some n → ∀ x, ρ.name n x ↔ NSet db ρ e x) :
    Solves db rs.lk.classes ρ := by
  constructor
  · intro n k hk x
    rcases h.clsOf n k hk with ⟨t, rfl⟩ | ⟨e, he, g1, g2, g3⟩
    · rw [h.tag t, Option.map_eq_some_iff] at hk
      obtain ⟨cps, h1, rfl⟩ := hk
      rw [htn t cps h1 x]
      simp [Den]
    · rw [hcls e he g1 n g2 x, class_meaning db ρ e k g3]
  · intro t x
    rw [htag t x]
    constructor
    · rintro ⟨cps, h1, h2⟩
      refine ⟨.base { name := some t, codepoints := cps }, by rw [h.tag t, h1]; rfl, by simpa [Den] using h2⟩
    · rintro ⟨k, hk, hx⟩
      rw [h.tag t, Option.map_eq_some_iff] at hk
      obtain ⟨cps, h1, rfl⟩ := hk
      exact ⟨cps, h1, by simpa [Den] using hx⟩

theorem of_solves {db : String → Except Err CpSet} {tc : List (String × List Nat)} {es : List Node} {obj : Obj}
    {rs : RuleState} {c r : String → Nat} (h : After db tc es obj rs c r) {ρ : Sets} (hs : Solves db rs.lk.classes ρ) :
    (∀ t x, ρ.tag t x ↔ ∃ cps, dget tc t = some cps ∧ x ∈ cps) ∧
    (∀ t cps, dget tc t = some cps → ∀ x, ρ.name (Cls.tagPrefix ++ t) x ↔ x ∈ cps) ∧
    (∀ e ∈ es, isCls e = true → ∀ n, dget e.attrs "name" = some n → ∀ x, ρ.name n x ↔ NSet db ρ e x) := by
  refine ⟨?_, ?_, ?_⟩
  · intro t x
    rw [hs.tag t x, h.tag t]
    constructor
    · rintro ⟨k, hk, hx⟩
      rw [Option.map_eq_some_iff] at hk
      obtain ⟨cps, h1, rfl⟩ := hk
      exact ⟨cps, h1, by simpa [Den] using hx⟩
    · rintro ⟨cps, h1, h2⟩
      exact ⟨.base { name := some t, codepoints := cps }, by rw [h1]; rfl, by simpa [Den] using h2⟩
  · intro t cps hc x
    rw [hs.name _ _ (by rw [h.tag t, hc]; rfl) x]
    simp [Den]
  · intro e he hc n hn x
    obtain ⟨n', k, g1, g2, g3⟩ := h.cls e he hc
    rw [hn] at g1
    cases g1
    rw [hs.name n k g3 x, class_meaning db ρ e k g2]

/-- The objects' world for a world of elements. -/
def worldOf (db : String → Except Err CpSet) (rs : RuleState) (w : NWorld) : World :=
  ⟨w.label, fun k x => ∃ fuel s, Cls.getSet db rs.lk.classes fuel k = .ok s ∧ s x = true, w.rule, w.anchor⟩

theorem right_parts {db : String → Except Err CpSet} {rs : RuleState} {c r : String → Nat} (h : C66.Inv db rs c r)
    {w : World} {ρ : Sets} (hs : Solves db rs.lk.classes ρ)
    (hw : ∀ k x, w.cls k x ↔ ∃ fuel s, Cls.getSet db rs.lk.classes fuel k = .ok s ∧ s x = true) (n : String)
    (m : Matcher) (hm : dget rs.lk.rules n = some m) : C66.Parts (Right db w ρ) (fun _ => True) m := by
  refine C66.parts_mono ?_ m (parts_true m (h.parts n m hm))
  rintro k ⟨hp, hk⟩ x
  obtain ⟨f, t, ht⟩ := C66.proper_total h.cls k hp hk
  have hd := C42.class_set_exact hs (fun n c hc => C42.every_mono (fun _ _ => trivial) (fun _ _ h => h) c (h.cls.1 n c hc)) f k t
    (C42.every_mono (fun _ _ => trivial) (fun _ _ h => h) k (C42.proper_every k hp)) ht x
  rw [hw, ← hd]
  constructor
  · rintro ⟨f', t', ht', hx⟩
    rw [C42.getSet_unique ht ht']; exact hx
  · exact fun hx => ⟨f, t, ht, hx⟩

theorem agrees_of {db : String → Except Err CpSet} {tc : List (String × List Nat)} {es : List Node} {obj : Obj}
    {rs : RuleState} {c r : String → Nat} (h : After db tc es obj rs c r) {w : NWorld} (hm : Meaning db tc es w) :
    Agrees db rs.lk (worldOf db rs w) ∧
    ∀ n m, dget rs.lk.rules n = some m → C66.Parts (Right db (worldOf db rs w) w.sets) (fun _ => True) m := by
  have hs := solves_of h hm.tag hm.tagName hm.cls
  have hp := right_parts h.inv (w := worldOf db rs w) hs (fun _ _ => Iff.rfl)
  refine ⟨⟨?_, ?_⟩, hp⟩
  · intro fuel k s hk x
    constructor
    · exact fun hx => ⟨fuel, s, hk, hx⟩
    · rintro ⟨f', s', hs', hx⟩
      rw [C42.getSet_unique hk hs']; exact hx
  · intro n m hn i j
    obtain ⟨e, he, g1, g2, g3⟩ := h.ruleOf n m hn
    rw [rule_meaning g3 (hp n m hn)]
    exact hm.rule e he g1 n g2 i j

theorem answers {db : String → Except Err CpSet} {rs : RuleState} {c r : String → Nat} (h : C66.Inv db rs c r)
    {name : String} {m : Matcher} (hm : dget rs.lk.rules name = some m) :
    ∃ fuel0, ∀ fuel, fuel0 ≤ fuel → ∀ label anc index, ∃ b, C65.answer db fuel rs name label anc index = .ok b := by
  obtain ⟨f, p, h1, h2⟩ := C66.pattern_total (lk := rs.lk) (fun k hk => C66.proper_total h.cls k hk.1 hk.2) h.ranked
    h.parts (r name) m (h.parts name m hm) (h.ranked name m hm) false
  refine ⟨f, fun fuel hle label anc index => ?_⟩
  have e := C65.pattern_stable_le hle (db := db) (lk := rs.lk) (beh := false) (m := m)
    (by rw [h1]; intro hc; cases hc)
  unfold C65.answer Matcher.ruleMatches
  simp only [hm, e, h1]
  exact C66.matchesPattern_total h2 label anc index

theorem asked_inv {db : String → Except Err CpSet} {obj : Obj} (qs : List Ask) : ∀ {rs : RuleState},
    C65.Inv db obj rs → C65.Inv db obj (asked db rs qs) ∧ (asked db rs qs).lk = rs.lk := by
  induction qs with
  | nil => exact fun h => ⟨h, rfl⟩
  | cons q qs ih =>
    intro rs h
    have h1 := C65.inv_run (fuel := q.fuel) h (.ask q.name q.label q.anchor q.index) trivial
    obtain ⟨g1, g2⟩ := ih h1
    refine ⟨g1, g2.trans ?_⟩
    unfold C65.Op.run RuleState.matches_
    simp only
    split <;> rfl

theorem answered {db : String → Except Err CpSet} {obj : Obj} {rs : RuleState} (h : C65.Inv db obj rs) (qs : List Ask)
    {fuel : Nat} {name : String} {label : Seq} {anc : Option Seq} {index : Nat} {b : Bool}
    (hb : C65.answer db fuel rs name label anc index = .ok b) :
    ((asked db rs qs).matches_ db fuel name label anc index).2 = .ok b := by
  obtain ⟨g1, g2⟩ := asked_inv qs h
  have e : C65.answer db fuel (asked db rs qs) name label anc index = .ok b := by
    unfold C65.answer at hb ⊢
    rw [g2]; exact hb
  rw [C65.answer_exact g1 fuel name label anc index (by rw [e]; intro hc; cases hc), e]

/-! ## Theorems -/

/-- The definitions of a section that is read have a meaning, for each label. -/
theorem document_has_meaning {P : Parser} {tc : List (String × List Nat)} {es : List Node} {rs : RuleState}
    (h : Read P tc es rs) (label : Seq) (anchor : Nat → Nat → Prop) :
    ∃ w : NWorld, w.label = label ∧ w.anchor = anchor ∧ Meaning P.db tc es w := by
  obtain ⟨obj, c, r, ha⟩ := after_read h
  obtain ⟨ρ, hρ, -⟩ := C42.classes_denote ha.inv.cls.1
  obtain ⟨w, rfl, rfl, hw, hcls⟩ := agrees_exists (db := P.db) ha.inv.ranked label anchor
  obtain ⟨m1, m2, m3⟩ := of_solves ha hρ
  refine ⟨NWorld.of w ρ, rfl, rfl, m1, m2, m3, ?_⟩
  intro e he hr n hn i j
  obtain ⟨n', m, g1, g2, g3⟩ := ha.rule e he hr
  rw [hn] at g1
  cases g1
  rw [← rule_meaning g2 (right_parts ha.inv hρ hcls n m g3)]
  exact hw.rule n m g3 i j

/-- A rule of the section without anchors matches a label of at most 63 code points iff it holds somewhere in
the label, whatever else was asked before. -/
theorem document_rule_exact {P : Parser} {tc : List (String × List Nat)} {es : List Node} {rs : RuleState}
    (h : Read P tc es rs) {w : NWorld} (hw : Meaning P.db tc es w) (hlen : w.label.length ≤ labelMax)
    (hnl : ∀ x ∈ w.label, Re.newline x = false) (hso : ∀ e ∈ es, isRule e = true → Solid P.db w e)
    {e : Node} (he : e ∈ es) (hr : isRule e = true) {n : String} (hn : dget e.attrs "name" = some n)
    (hfree : NoAnchor es e) :
    ∃ fuel0, ∀ fuel, fuel0 ≤ fuel → ∀ qs anc index, (anc = none → index = 0) →
      ∃ b, ((asked P.db rs qs).matches_ P.db fuel n w.label anc index).2 = .ok b ∧
        (b = true ↔ ∃ i j, i ≤ w.label.length ∧ RHolds P.db w e i j) := by
  obtain ⟨obj, c, r, ha⟩ := after_read h
  obtain ⟨hag, hparts⟩ := agrees_of ha hw
  have hall : ∀ n m, dget rs.lk.rules n = some m → AllCls (Inhabited (worldOf P.db rs w)) m := by
    intro n m hm
    obtain ⟨e, he, g1, -, g3⟩ := ha.ruleOf n m hm
    exact rule_solid g1 g3 (hparts n m hm) (hso e he g1)
  obtain ⟨n', m, g1, g2, g3⟩ := ha.rule e he hr
  rw [hn] at g1
  cases g1
  have hfree' := (no_anchor ha.ruleOf (fun n m hm r hr => (ha.inv.ranked n m hm r hr).1) hfree).2 m hr g2
    (fun r hr => (ha.inv.ranked n m g3 r hr).1)
  obtain ⟨f0, h0⟩ := answers ha.inv g3
  refine ⟨f0, fun fuel hle qs anc index hidx => ?_⟩
  obtain ⟨b, hb⟩ := h0 fuel hle w.label anc index
  refine ⟨b, answered ha.cache qs hb, ?_⟩
  unfold C65.answer at hb
  simp only [g3] at hb
  have := rule_exact hag (w := worldOf P.db rs w) hlen hnl hall (hall n m g3) hfree' hidx hb
  rw [this]
  have e' : ∀ i j, Holds (worldOf P.db rs w) m i j ↔ RHolds P.db w e i j := fun i j =>
    rule_meaning g2 (hparts n m g3) i j
  simp only [e']
  rfl

theorem threaded_split {a b : List Node} {s s' : RState} {ms : List Matcher} (h : Threaded s (a ++ b) s' ms) :
    ∃ t m1 m2, Threaded s a t m1 ∧ Threaded t b s' m2 ∧ ms = m1 ++ m2 := by
  induction a generalizing s ms with
  | nil => exact ⟨s, [], ms, .nil s, h, rfl⟩
  | cons n a ih =>
    cases h with
    | cons _ s1 _ _ _ m ms h1 h2 h3 =>
      obtain ⟨t, m1, m2, g1, g2, rfl⟩ := ih h3
      exact ⟨t, m :: m1, m2, .cons _ _ _ _ _ _ _ h1 h2 g1, g2, rfl⟩

/-- A rule of the section that is an anchor between look-arounds matches at a position of a label iff the code points
are there, and the look-arounds hold before and after them, whatever else was asked before. -/
theorem document_context_exact {P : Parser} {tc : List (String × List Nat)} {es : List Node} {rs : RuleState}
    (h : Read P tc es rs) {w : NWorld} (hw : Meaning P.db tc es w) (hlen : w.label.length ≤ labelMax)
    (hnl : ∀ x ∈ w.label, Re.newline x = false) (hso : ∀ e ∈ es, isRule e = true → Solid P.db w e)
    {e : Node} (he : e ∈ es) (hr : isRule e = true) {n : String} (hn : dget e.attrs "name" = some n)
    (hbr : dget e.attrs "by-ref" = none) {pre post : List Node} {a0 : Node} (hch : e.children = pre ++ a0 :: post)
    (ha0 : a0.tag = "anchor")
    (har : ∀ d ∈ pre ++ post, NoAnchor es d ∧ (d.tag = "look-ahead" ∨ d.tag = "look-behind")) :
    ∃ fuel0, ∀ fuel, fuel0 ≤ fuel → ∀ qs a index, index ≤ w.label.length →
      ∃ b, ((asked P.db rs qs).matches_ P.db fuel n w.label (some a) index).2 = .ok b ∧
        (b = true ↔ (∀ d ∈ pre, NHolds P.db w d index index) ∧ Occurs w.label a index (index + a.length) ∧
          ∀ d ∈ post, NHolds P.db w d (index + a.length) (index + a.length)) := by
  obtain ⟨obj, c, r, ha⟩ := after_read h
  obtain ⟨hag, hparts⟩ := agrees_of ha hw
  have hall : ∀ n m, dget rs.lk.rules n = some m → AllCls (Inhabited (worldOf P.db rs w)) m := by
    intro n m hm
    obtain ⟨e, he, g1, -, g3⟩ := ha.ruleOf n m hm
    exact rule_solid g1 g3 (hparts n m hm) (hso e he g1)
  obtain ⟨n', m, g1, g2, g3⟩ := ha.rule e he hr
  rw [hn] at g1
  cases g1
  obtain ⟨s, s', ms, hth, hb', rfl⟩ := g2
  rw [hbr] at g3
  rw [hch] at hth
  obtain ⟨t, m1, m2, t1, t2, rfl⟩ := threaded_split hth
  cases t2 with
  | cons _ s1 _ _ _ ma m3 k1 k2 t3 =>
  obtain ⟨tag, attrs, text, children⟩ := a0
  have hma : ma = .anchor := by
    simp only [Node.tag] at ha0
    subst ha0
    obtain ⟨c, -, hm⟩ := made_of k1
    cases hm with
    | anchor ht => rfl
    | start ht => exact absurd ht (by decide)
    | fin ht => exact absurd ht (by decide)
    | any ht => exact absurd ht (by decide)
    | char cps ht hg => exact absurd ht (by decide)
    | choice _ ms ht hth => exact absurd ht (by decide)
    | ahead _ ms ht hth => exact absurd ht (by decide)
    | behind _ ms ht hth => exact absurd ht (by decide)
    | rule _ ms ht hth => exact absurd ht (by decide)
    | cls k ht hk => exact absurd ht (by decide)
  subst hma
  have hrefs : ∀ m ∈ m1 ++ m3, ∀ r, RefersTo r m → r ∈ rs.lk.rules.map Prod.fst := by
    intro m hm r hr'
    refine (ha.inv.ranked n _ g3 r (.rule _ _ _ _ m ?_ hr')).1
    simp only [List.mem_append, List.mem_cons] at hm ⊢
    tauto
  have around : ∀ {u u' l ml}, Threaded u l u' ml → (∀ d ∈ l, d ∈ pre ++ post) → (∀ m ∈ ml, m ∈ m1 ++ m3) →
      ∀ m ∈ ml, C64.Around rs.lk m := by
    intro u u' l ml ht hl hml m hm
    have hf := threaded_mem (P := fun d m => d ∈ l ∧ ∃ s s', parseHelper s d = (s', .ok (some m)) ∧ s'.bad = false) ht
      (fun d hd s s' m h hb => ⟨hd, s, s', h, hb⟩)
    obtain ⟨d, -, hd, s, s', g, gb⟩ := forall2_right hf hm
    obtain ⟨n1, n2⟩ := har d (hl d hd)
    refine ⟨(no_anchor ha.ruleOf (fun n m hm r hr => (ha.inv.ranked n m hm r hr).1) n1).1 s s' m g gb
      (hrefs m (hml m hm)), ?_⟩
    obtain ⟨tag, attrs, text, children⟩ := d
    obtain ⟨c, -, hmd⟩ := made_of g
    simp only [Node.tag] at n2
    cases hmd with
    | ahead _ ms ht hth => exact .inl ⟨_, rfl⟩
    | behind _ ms ht hth => exact .inr ⟨_, rfl⟩
    | anchor ht => subst ht; exact absurd n2 (by decide)
    | start ht => subst ht; exact absurd n2 (by decide)
    | fin ht => subst ht; exact absurd n2 (by decide)
    | any ht => subst ht; exact absurd n2 (by decide)
    | char cps ht hg => subst ht; exact absurd n2 (by decide)
    | choice _ ms ht hth => subst ht; exact absurd n2 (by decide)
    | rule _ ms ht hth => subst ht; exact absurd n2 (by decide)
    | cls k ht hk => rcases n2 with rfl | rfl <;> exact absurd ht (by decide)
  have hp := (hparts n _ g3).2
  rw [C66.partsL_iff] at hp
  have means : ∀ {u u' l ml}, Threaded u l u' ml → (∀ m ∈ ml, m ∈ m1 ++ m3) → ∀ x,
      ((∀ m ∈ ml, Holds (worldOf P.db rs w) m x x) ↔ ∀ d ∈ l, NHolds P.db w d x x) := by
    intro u u' l ml ht hml x
    have hf := threaded_mem (P := fun d m => m ∈ m1 ++ m3 → (Holds (worldOf P.db rs w) m x x ↔ NHolds P.db w d x x)) ht
      (fun d hd s s' m h hb hm => helper_meaning P.db (worldOf P.db rs w) w.sets d s s' m h hb (hp m (by
        simp only [List.mem_append, List.mem_cons] at hm ⊢
        tauto)) x x)
    clear ht
    induction hf with
    | nil => simp
    | cons h1 _ ih =>
      simp only [List.mem_cons, forall_eq_or_imp] at hml ⊢
      exact and_congr (h1 hml.1) (ih hml.2)
  obtain ⟨f0, h0⟩ := answers ha.inv g3
  refine ⟨f0, fun fuel hle qs a index hidx => ?_⟩
  obtain ⟨b, hb⟩ := h0 fuel hle w.label (some a) index
  refine ⟨b, answered ha.cache qs hb, ?_⟩
  unfold C65.answer at hb
  simp only [g3] at hb
  have := C64.context_rule_exact hag (w := worldOf P.db rs w) hlen hnl hall
    (around t1 (fun d hd => by simp [hd]) (fun m hm => by simp [hm]))
    (around t3 (fun d hd => by simp [hd]) (fun m hm => by simp [hm])) (hall n _ g3) hidx hb
  rw [this, means t1 (fun m hm => by simp [hm]), means t3 (fun m hm => by simp [hm])]
  rfl

/-! ## An example -/

mutual

/-- The elements in an element, and itself. -/
def every : Node → List Node
  | .mk tag attrs text children => .mk tag attrs text children :: everyL children

/-- The same for lists. -/
def everyL : List Node → List Node
  | [] => []
  | n :: ns => every n ++ everyL ns

end

theorem every_self (n : Node) : n ∈ every n := by
  obtain ⟨tag, attrs, text, children⟩ := n
  rw [every]; simp

theorem every_child {c : Node} : ∀ {ns : List Node}, c ∈ ns → ∀ d ∈ every c, d ∈ everyL ns
  | n :: ns, h, d, hd => by
    rw [everyL, List.mem_append]
    rcases List.mem_cons.1 h with rfl | h
    · exact .inl hd
    · exact .inr (every_child h d hd)

theorem within_every {d n : Node} (h : Within d n) : d ∈ every n := by
  induction h with
  | self => exact every_self d
  | child n c hc _ ih =>
    obtain ⟨tag, attrs, text, children⟩ := n
    rw [every, List.mem_cons]
    exact .inr (every_child hc d ih)

theorem inRule_within {d n : Node} (h : InRule d n) : Within d n := by
  induction h with
  | self => exact .self
  | child n c _ hc _ ih => exact .child n c hc ih

/-- A class and two rules. -/
def demo : List Node :=
  [.mk "class" [("name", "vowel")] (some "0061 0065-0066") [],
   .mk "rule" [("name", "vowels-b")] none
     [.mk "start" [] none [], .mk "class" [("by-ref", "vowel"), ("count", "1+")] none [],
      .mk "char" [("cp", "0062")] none []],
   .mk "rule" [("name", "follows-virama")] none
     [.mk "look-behind" [] none [.mk "class" [("from-tag", "virama")] none []], .mk "anchor" [] none []],
   .mk "action" [("disp", "invalid"), ("match", "vowels-b")] none []]

def demoTags : List (String × List Nat) := [("virama", [0x94D])]

def demoP : Parser := { db := noDb, fuel := 9, udb := false, force := false }

def demoStart : Rules × RState := ({ rs := { lk := { classes := tagged demoTags, rules := [] }, cache := [] } }, {})

theorem demo_every : everyL demo =
    [.mk "class" [("name", "vowel")] (some "0061 0065-0066") [],
     .mk "rule" [("name", "vowels-b")] none
       [.mk "start" [] none [], .mk "class" [("by-ref", "vowel"), ("count", "1+")] none [],
        .mk "char" [("cp", "0062")] none []],
     .mk "start" [] none [], .mk "class" [("by-ref", "vowel"), ("count", "1+")] none [],
     .mk "char" [("cp", "0062")] none [],
     .mk "rule" [("name", "follows-virama")] none
       [.mk "look-behind" [] none [.mk "class" [("from-tag", "virama")] none []], .mk "anchor" [] none []],
     .mk "look-behind" [] none [.mk "class" [("from-tag", "virama")] none []],
     .mk "class" [("from-tag", "virama")] none [], .mk "anchor" [] none [],
     .mk "action" [("disp", "invalid"), ("match", "vowels-b")] none []] := rfl

theorem demo_fine : ∀ d ∈ everyL demo, (dget d.attrs "property" = none) ∧
    (dget d.attrs "count" = none ∨ dget d.attrs "count" = some "1+") := by
  rw [demo_every]
  decide

theorem demo_read : Read demoP demoTags demo (parseRules demoP demoStart demo).1.1.rs := by
  refine ⟨⟨demoStart, (parseRules demoP demoStart demo).1, ?_, rfl, rfl, by decide +kernel⟩, rfl,
    ⟨by decide +kernel, by decide +kernel, ?_⟩, ?_⟩
  · have : (parseRules demoP demoStart demo).2 = .ok () := by decide +kernel
    rw [← this]
  · intro n hn t
    have : n = "vowel" := by
      have e : classNames demo = ["vowel"] := by decide +kernel
      rw [e] at hn
      simpa using hn
    subst this
    intro h
    have := congrArg (fun s => s.toList.head?) h
    simp [Cls.tagPrefix] at this
  · intro e he d hd
    obtain ⟨h1, h2⟩ := demo_fine d (every_child he d (within_every hd))
    refine ⟨fun p hp => (by rw [h1] at hp; cases hp), fun c hc => ?_⟩
    have hc := count_iff.2 hc
    rcases h2 with h2 | h2
    · rw [h2] at hc
      cases hc
      trivial
    · rw [h2] at hc
      have e : parseCount (some "1+") = .ok (.atLeast 1) := by decide +kernel
      rw [e] at hc
      cases hc
      show 1 ≤ labelMax
      decide

theorem lists_intro {t : String} {cps : List Nat} (h : textCps (splitWs (strip t.toList)) = .ok cps) {x : Nat}
    (hx : x ∈ cps) : TextLists t x := (text_lists h x).1 hx

theorem demo_solid {w : NWorld} (h : Meaning demoP.db demoTags demo w) :
    ∀ e ∈ demo, isRule e = true → Solid demoP.db w e := by
  have h1 : NSet demoP.db w.sets (.mk "class" [("from-tag", "virama")] none []) 0x94D := by
    rw [NSet, if_pos rfl]
    exact (h.tag "virama" 0x94D).2 ⟨_, rfl, by simp⟩
  have h2 : w.sets.name "vowel" 0x61 := by
    rw [h.cls (.mk "class" [("name", "vowel")] (some "0061 0065-0066") []) (by simp [demo]) (by decide) "vowel" rfl,
      NSet, if_pos rfl]
    exact .inl ⟨rfl, _, rfl, lists_intro (cps := [0x61, 0x65, 0x66]) (by decide +kernel) (by simp)⟩
  intro e he hr d hd
  have hm := every_child he d (within_every (inRule_within hd))
  rw [demo_every] at hm
  simp only [List.mem_cons, List.not_mem_nil, or_false] at hm
  have hchar : ∀ cps, Spells [("cp", "0062")] cps → cps ≠ [] := by
    intro cps hc
    rw [← getCp_iff] at hc
    have e : getCp [("cp", "0062")] = .ok [0x62] := by decide +kernel
    rw [e] at hc
    cases hc
    simp
  rcases hm with rfl | rfl | rfl | rfl | rfl | rfl | rfl | rfl | rfl | rfl
  · refine ⟨by simp [Node.tag], by simp [Node.tag], by simp [Node.tag], fun _ => ⟨0x61, by decide, ?_⟩⟩
    rw [NSet, if_pos rfl]
    exact .inl ⟨rfl, _, rfl, lists_intro (cps := [0x61, 0x65, 0x66]) (by decide +kernel) (by simp)⟩
  · exact ⟨by simp [Node.tag], by simp [Node.tag], by simp [Node.children], fun h => absurd h (by decide)⟩
  · exact ⟨by simp [Node.tag], by simp [Node.tag], by simp [Node.tag], fun h => absurd h (by decide)⟩
  · refine ⟨by simp [Node.tag], by simp [Node.tag], by simp [Node.tag], fun _ => ⟨0x61, by decide, ?_⟩⟩
    rw [NSet, if_pos rfl]
    exact h2
  · exact ⟨fun _ => hchar, by simp [Node.tag], by simp [Node.tag], fun h => absurd h (by decide)⟩
  · exact ⟨by simp [Node.tag], by simp [Node.tag], by simp [Node.children], fun h => absurd h (by decide)⟩
  · exact ⟨by simp [Node.tag], by simp [Node.tag], by simp [Node.tag], fun h => absurd h (by decide)⟩
  · exact ⟨by simp [Node.tag], by simp [Node.tag], by simp [Node.tag], fun _ => ⟨0x94D, by decide, h1⟩⟩
  · exact ⟨by simp [Node.tag], by simp [Node.tag], by simp [Node.tag], fun h => absurd h (by decide)⟩
  · exact ⟨by simp [Node.tag], by simp [Node.tag], by simp [Node.tag], fun h => absurd h (by decide)⟩

theorem leaf_noAnchor {es : List Node} {n : Node} (h1 : n.tag ≠ "anchor") (h2 : n.children = []) (h3 : n.tag ≠ "rule") :
    NoAnchor es n :=
  .mk n h1 (by rw [h2]; simp) (fun h => absurd h h3)

/-- The first rule matches the label "eab": it holds from 0 to 3. -/
example : ∃ w : NWorld, w.label = [0x65, 0x61, 0x62] ∧ Meaning demoP.db demoTags demo w ∧
    ∃ fuel, ((parseRules demoP demoStart demo).1.1.rs.matches_ demoP.db fuel "vowels-b" w.label none 0).2 = .ok true := by
  obtain ⟨w, hl, -, hw⟩ := document_has_meaning demo_read [0x65, 0x61, 0x62] (fun _ _ => False)
  refine ⟨w, hl, hw, ?_⟩
  obtain ⟨f, hf⟩ := document_rule_exact demo_read hw (by rw [hl]; decide) (by rw [hl]; decide) (demo_solid hw)
    (e := .mk "rule" [("name", "vowels-b")] none
       [.mk "start" [] none [], .mk "class" [("by-ref", "vowel"), ("count", "1+")] none [],
        .mk "char" [("cp", "0062")] none []]) (by simp [demo]) (by decide) rfl
    (.mk _ (by decide) (by
      intro c hc
      simp only [Node.children, List.mem_cons, List.not_mem_nil, or_false] at hc
      rcases hc with rfl | rfl | rfl <;> exact leaf_noAnchor (by decide) rfl (by decide)) (by
      intro _ r hr
      simp [Node.attrs, dget] at hr))
  obtain ⟨b, h1, h2⟩ := hf f (le_refl _) [] none 0 (fun _ => rfl)
  have hb : b = true := by
    rw [h2]
    refine ⟨0, 3, by omega, ?_⟩
    have hset : ∀ x ∈ [0x61, 0x65, 0x66], w.sets.name "vowel" x := by
      intro x hx
      rw [hw.cls (.mk "class" [("name", "vowel")] (some "0061 0065-0066") []) (by simp [demo]) (by decide) "vowel" rfl,
        NSet, if_pos rfl]
      exact .inl ⟨rfl, _, rfl, lists_intro (cps := [0x61, 0x65, 0x66]) (by decide +kernel) hx⟩
    refine ⟨0, ?_, 2, ?_, 3, ?_, rfl⟩
    · rw [NHolds, if_pos rfl]; exact ⟨rfl, rfl⟩
    · rw [NHolds, if_neg (by decide), if_neg (by decide), if_neg (by decide), if_neg (by decide), if_neg (by decide)]
      refine ⟨.atLeast 1, count_iff.1 (by decide +kernel), 2, by omega, ?_⟩
      refine ⟨1, ?_, 2, ?_, rfl⟩
      all_goals
        beta_reduce
        rw [if_neg (by decide), if_neg (by decide), if_neg (by decide), if_neg (by decide)]
      · refine ⟨0x65, by rw [hl]; rfl, ?_, rfl⟩
        rw [NSet, if_pos rfl]
        exact hset _ (by simp)
      · refine ⟨0x61, by rw [hl]; rfl, ?_, rfl⟩
        rw [NSet, if_pos rfl]
        exact hset _ (by simp)
    · rw [NHolds, if_neg (by decide), if_neg (by decide), if_neg (by decide), if_neg (by decide), if_neg (by decide)]
      refine ⟨.none, .none, ?_⟩
      rw [Counted]
      rw [if_neg (by decide), if_pos rfl]
      exact ⟨[0x62], getCp_iff.1 (by decide +kernel), rfl, by rw [hl]; decide⟩
  rw [hb] at h1
  exact ⟨f, h1⟩

/-- The second rule is for ZERO WIDTH NON-JOINER after a virama. -/
example (label : Seq) (hlen : label.length ≤ labelMax) (hnl : ∀ x ∈ label, Re.newline x = false) :
    ∃ w : NWorld, w.label = label ∧ Meaning demoP.db demoTags demo w ∧
    ∃ fuel0, ∀ fuel, fuel0 ≤ fuel → ∀ qs a index, index ≤ w.label.length →
      ∃ b, ((asked demoP.db (parseRules demoP demoStart demo).1.1.rs qs).matches_ demoP.db fuel "follows-virama" w.label
          (some a) index).2 = .ok b ∧
        (b = true ↔ (∀ d ∈ [Node.mk "look-behind" [] none [.mk "class" [("from-tag", "virama")] none []]],
            NHolds demoP.db w d index index) ∧ Occurs w.label a index (index + a.length) ∧
          ∀ d ∈ ([] : List Node), NHolds demoP.db w d (index + a.length) (index + a.length)) := by
  obtain ⟨w, hl, -, hw⟩ := document_has_meaning demo_read label (fun _ _ => False)
  refine ⟨w, hl, hw, ?_⟩
  refine document_context_exact demo_read hw (by rw [hl]; exact hlen) (by rw [hl]; exact hnl) (demo_solid hw)
    (e := .mk "rule" [("name", "follows-virama")] none
       [.mk "look-behind" [] none [.mk "class" [("from-tag", "virama")] none []], .mk "anchor" [] none []])
    (by simp [demo]) (by decide) rfl rfl (a0 := .mk "anchor" [] none []) rfl rfl ?_
  intro d hd
  simp only [List.append_nil, List.mem_cons, List.not_mem_nil, or_false] at hd
  subst hd
  refine ⟨.mk _ (by decide) ?_ (fun h => absurd h (by decide)), .inr rfl⟩
  intro c hc
  simp only [Node.children, List.mem_cons, List.not_mem_nil, or_false] at hc
  subst hc
  exact leaf_noAnchor (by decide) rfl (by decide)

end Lgr.Props.C103

import Verif.Props.RulesMeaning4
import Verif.Props.RulesSchema

/-!
# C150: which documents are read with a Unicode database

With a Unicode database the patterns of each rule are calculated when it is read.
-/

namespace Lgr.Props.C150
open Lgr Xml Text RulesXml

variable {db : String → Except Err CpSet} {lk : Lookups}

/-! ## Specification -/

/-- The Unicode properties of the elements are known. -/
def Properties (db : String → Except Err CpSet) (ns : List Node) : Prop :=
  ∀ m ∈ C149.belowAll ns, ∀ p, dget m.attrs "property" = some p → ∃ s, db p = .ok s

/-! ## What can be evaluated -/

/-- All classes and rules can be evaluated. -/
structure Total (db : String → Except Err CpSet) (lk : Lookups) : Prop where
  cls : ∀ n k, dget lk.classes n = some k → ∃ f s, Cls.getSet db lk.classes f k = .ok s
  rule : ∀ n m, dget lk.rules n = some m → ∀ beh, ∃ f p, Matcher.pattern db lk f beh m = .ok p

theorem properL_mem {l : List (String × Cls)} : ∀ {cs : List Cls}, C42.ProperL l cs → ∀ c ∈ cs, C42.Proper l c
  | [], _, _, h => by cases h
  | c :: cs, hp, d, h => by
    rcases List.mem_cons.1 h with rfl | h
    · exact hp.1.2
    · exact properL_mem hp.2 d h

theorem class_set (ht : Total db lk) : ∀ k, C42.Proper lk.classes k → C42.Every (C42.Known db) (fun _ _ => True) k →
    ∃ f s, Cls.getSet db lk.classes f k = .ok s := by
  refine C42.cls_ind ?_ ?_
  · intro b hp hk
    cases hb : b.byRef with
    | some n =>
      obtain ⟨c, hc⟩ := Option.isSome_iff_exists.mp (dget_isSome.mpr (hp n hb))
      obtain ⟨f, s, hs⟩ := ht.cls n c hc
      exact ⟨f + 1, s, by rw [Cls.getSet]; simp only [hb, hc, hs]⟩
    | none =>
      cases hf : b.fromTag with
      | some t =>
        cases hd : dget lk.classes (Cls.tagPrefix ++ t) with
        | none => exact ⟨1, _, by rw [Cls.getSet]; simp only [hb, hf, hd]; rfl⟩
        | some c =>
          obtain ⟨f, s, hs⟩ := ht.cls _ c hd
          exact ⟨f + 1, s, by rw [Cls.getSet]; simp only [hb, hf, hd, hs]⟩
      | none =>
        cases hq : b.property with
        | none => exact ⟨1, _, by rw [Cls.getSet]; simp only [hb, hf, hq]; rfl⟩
        | some p =>
          obtain ⟨s, hs⟩ := hk p hq
          exact ⟨1, s, by rw [Cls.getSet]; simp only [hb, hf, hq, hs]⟩
  · intro n op cs ih hp hk
    obtain ⟨hn, hp⟩ := hp
    rw [C42.Every, C42.everyL_iff] at hk
    obtain ⟨f, ss, hss⟩ := C42.mapM_total (fun c hc => ih c hc (properL_mem hp c hc) (hk.2 c hc))
    have hf := C42.mapM_ok.mp hss
    cases op with
    | complement =>
      match cs, hn, ss, hf with
      | [c], _, [s1], .cons h1 _ => exact ⟨f + 1, _, by rw [Cls.getSet]; simp only [h1]; rfl⟩
    | union => exact ⟨f + 1, _, by rw [Cls.getSet]; simp only [hss]; rfl⟩
    | intersection =>
      match cs, hn, ss, hf with
      | [c, d], _, [s1, s2], .cons h1 (.cons h2 _) => exact ⟨f + 1, _, by simp only [Cls.getSet, h1, h2]; rfl⟩
    | difference =>
      match cs, hn, ss, hf with
      | [c, d], _, [s1, s2], .cons h1 (.cons h2 _) => exact ⟨f + 1, _, by simp only [Cls.getSet, h1, h2]; rfl⟩
    | symDiff =>
      match cs, hn, ss, hf with
      | [c, d], _, [s1, s2], .cons h1 (.cons h2 _) => exact ⟨f + 1, _, by simp only [Cls.getSet, h1, h2]; rfl⟩

theorem mapM_pat {beh : Bool} {ms : List Matcher} (h : ∀ m ∈ ms, ∃ f p, Matcher.pattern db lk f beh m = .ok p) :
    ∃ f rs, ms.mapM (Matcher.pattern db lk f beh) = .ok rs := by
  induction ms with
  | nil => exact ⟨0, [], rfl⟩
  | cons m ms ih =>
    obtain ⟨f1, p, hp⟩ := h m (by simp)
    obtain ⟨f2, rs, hrs⟩ := ih (fun m hm => h m (by simp [hm]))
    have e1 := C65.pattern_stable_le (Nat.le_max_left f1 f2) (db := db) (lk := lk) (beh := beh) (m := m)
      (by rw [hp]; intro hc; cases hc)
    have e2 := C65.patterns_stable_le (Nat.le_max_right f1 f2) (db := db) (lk := lk) (beh := beh) (ms := ms)
      (by rw [hrs]; intro hc; cases hc)
    exact ⟨max f1 f2, p :: rs, by rw [List.mapM_cons, e1, e2, hp, hrs]; rfl⟩

theorem pattern_ok (ht : Total db lk) : ∀ m, (∀ n, C63.RefersTo n m → n ∈ lk.rules.map Prod.fst) →
    C66.Parts (C42.Proper lk.classes) (fun _ => True) m →
    C66.Parts (C42.Every (C42.Known db) (fun _ _ => True)) (fun _ => True) m →
    ∀ beh, ∃ f p, Matcher.pattern db lk f beh m = .ok p := by
  refine C63.matcher_ind ?_ ?_ ?_ ?_ ?_ ?_ ?_ ?_ ?_ ?_
  · exact fun _ _ _ _ => ⟨1, _, rfl⟩
  · exact fun _ _ _ _ => ⟨1, _, rfl⟩
  · exact fun _ _ _ _ => ⟨1, _, rfl⟩
  · exact fun c _ _ _ beh => ⟨1, _, rfl⟩
  · exact fun cps c _ _ _ beh => ⟨1, _, rfl⟩
  · intro ms ih href hp hk beh
    rw [C66.Parts, C66.partsL_iff] at hp hk
    obtain ⟨f, rs, h1⟩ := mapM_pat (beh := false)
      (fun m hmem => ih m hmem (fun n hn => href n (.ahead ms m hmem hn)) (hp m hmem) (hk m hmem) false)
    exact ⟨f + 1, .ahead (.seqs rs), by rw [Matcher.pattern, h1]⟩
  · intro ms ih href hp hk beh
    rw [C66.Parts, C66.partsL_iff] at hp hk
    obtain ⟨f, rs, h1⟩ := mapM_pat (beh := true)
      (fun m hmem => ih m hmem (fun n hn => href n (.behind ms m hmem hn)) (hp m hmem) (hk m hmem) true)
    exact ⟨f + 1, .behind (.seqs rs), by rw [Matcher.pattern, h1]⟩
  · intro ms c ih href hp hk beh
    rw [C66.Parts, C66.partsL_iff] at hp hk
    obtain ⟨f, rs, h1⟩ := mapM_pat (beh := beh)
      (fun m hmem => ih m hmem (fun n hn => href n (.choice ms c m hmem hn)) (hp.2 m hmem) (hk.2 m hmem) beh)
    exact ⟨f + 1, withCount beh c (.group (.alts rs)), by rw [Matcher.pattern, h1]⟩
  · intro k c href hp hk beh
    rw [C66.Parts] at hp hk
    obtain ⟨f, s, hs⟩ := class_set ht k hp.2 hk.2
    exact ⟨f + 1, withCount beh c (if s.isEmpty then .empty else .set s), by rw [Matcher.pattern, Matcher.classPattern, hs]⟩
  · intro id nm br ms c ih href hp hk beh
    rw [C66.Parts, C66.partsL_iff] at hp hk
    cases br with
    | some n =>
      obtain ⟨m, hd⟩ := Option.isSome_iff_exists.mp (dget_isSome.mpr (href n (.ref id nm ms c)))
      obtain ⟨f, p, h1⟩ := ht.rule n m hd beh
      refine ⟨f + 1, withCount beh c p, ?_⟩
      rw [Matcher.pattern.eq_def]
      simp only [hd, h1]
    | none =>
      obtain ⟨f, rs, h1⟩ := mapM_pat (beh := beh)
        (fun m hmem => ih m hmem (fun n hn => href n (.rule id nm ms c m hmem hn)) (hp.2 m hmem) (hk.2 m hmem) beh)
      refine ⟨f + 1, withCount beh c (.seqs rs), ?_⟩
      rw [Matcher.pattern.eq_def]
      simp only [h1]

/-! ## The cache does not matter -/

theorem mapC_ok {f : Matcher → Except Err Re} {g : Matcher → Cache → Cache × Except Err Re} :
    ∀ {ms : List Matcher} {rs : List Re}, (∀ m ∈ ms, ∀ p, f m = .ok p → ∀ κ, ∃ κ' r, g m κ = (κ', .ok r)) →
    ms.mapM f = .ok rs → ∀ κ, ∃ κ' rs', Matcher.mapC g ms κ = (κ', .ok rs')
  | [], _, _, _, κ => ⟨κ, [], rfl⟩
  | m :: ms, rs, h, hm, κ => by
    rw [List.mapM_cons] at hm
    cases h1 : f m with
    | error e => rw [h1] at hm; cases hm
    | ok p =>
      rw [h1] at hm
      cases h2 : ms.mapM f with
      | error e => rw [h2] at hm; cases hm
      | ok ps =>
        obtain ⟨κ1, r, e1⟩ := h m (by simp) p h1 κ
        obtain ⟨κ2, rs', e2⟩ := mapC_ok (fun m hm => h m (by simp [hm])) h2 κ1
        exact ⟨κ2, r :: rs', by rw [Matcher.mapC, e1]; dsimp only; rw [e2]⟩

theorem patternC_ok : ∀ fuel beh (m : Matcher) p, Matcher.pattern db lk fuel beh m = .ok p →
    ∀ κ, ∃ κ' r, Matcher.patternC db lk fuel beh m κ = (κ', .ok r) := by
  intro fuel
  induction fuel with
  | zero => intro beh m p h; simp [Matcher.pattern] at h
  | succ fuel ih =>
    have list : ∀ {beh ms rs}, ms.mapM (Matcher.pattern db lk fuel beh) = .ok rs → ∀ κ, ∃ κ' rs',
        Matcher.mapC (Matcher.patternC db lk fuel beh) ms κ = (κ', .ok rs') :=
      fun h κ => mapC_ok (fun m _ p hp κ => ih _ m p hp κ) h κ
    intro beh m p h κ
    cases m with
    | start => exact ⟨_, _, rfl⟩
    | fin => exact ⟨_, _, rfl⟩
    | anchor => exact ⟨_, _, rfl⟩
    | any c => exact ⟨_, _, rfl⟩
    | char cps c => exact ⟨_, _, rfl⟩
    | ahead ms =>
      rw [Matcher.pattern] at h
      split at h
      · cases h
      · rename_i rs hrs
        obtain ⟨κ', rs', e⟩ := list hrs κ
        exact ⟨_, _, by rw [Matcher.patternC, e]⟩
    | behind ms =>
      rw [Matcher.pattern] at h
      split at h
      · cases h
      · rename_i rs hrs
        obtain ⟨κ', rs', e⟩ := list hrs κ
        exact ⟨_, _, by rw [Matcher.patternC, e]⟩
    | choice ms c =>
      rw [Matcher.pattern] at h
      split at h
      · cases h
      · rename_i rs hrs
        obtain ⟨κ', rs', e⟩ := list hrs κ
        exact ⟨_, _, by rw [Matcher.patternC, e]⟩
    | cls k c =>
      rw [Matcher.pattern] at h
      split at h
      · cases h
      · rename_i r hr
        exact ⟨_, _, by rw [Matcher.patternC, hr]⟩
    | rule id nm br ms c =>
      rw [Matcher.pattern.eq_def] at h
      simp only at h
      rw [Matcher.patternC.eq_def]
      simp only
      cases hd : dget κ (id, beh) with
      | some r => exact ⟨_, _, rfl⟩
      | none =>
        cases br with
        | some n =>
          simp only at h ⊢
          cases hn : dget lk.rules n with
          | none => rw [hn] at h; cases h
          | some m =>
            rw [hn] at h
            simp only at h ⊢
            split at h
            · cases h
            · rename_i r hr
              obtain ⟨κ', r', e⟩ := ih beh m r hr κ
              exact ⟨_, _, by rw [e]⟩
        | none =>
          simp only at h ⊢
          split at h
          · cases h
          · rename_i rs hrs
            obtain ⟨κ', rs', e⟩ := list hrs κ
            exact ⟨_, _, by rw [e]⟩

theorem precalculate_ok {m : Matcher} (h : ∀ beh, ∃ f p, Matcher.pattern db lk f beh m = .ok p) :
    ∃ f0, ∀ f, f0 ≤ f → ∀ κ, ∃ κ', Matcher.precalculate db lk f m κ = (κ', .ok ()) := by
  obtain ⟨f1, p1, h1⟩ := h true
  obtain ⟨f2, p2, h2⟩ := h false
  refine ⟨max f1 f2, fun f hf κ => ?_⟩
  have e1 := C65.pattern_stable_le (le_trans (Nat.le_max_left f1 f2) hf) (db := db) (lk := lk) (beh := true) (m := m)
    (by rw [h1]; intro hc; cases hc)
  have e2 := C65.pattern_stable_le (le_trans (Nat.le_max_right f1 f2) hf) (db := db) (lk := lk) (beh := false) (m := m)
    (by rw [h2]; intro hc; cases hc)
  obtain ⟨κ1, r1, g1⟩ := patternC_ok f true m p1 (by rw [e1, h1]) κ
  obtain ⟨κ2, r2, g2⟩ := patternC_ok f false m p2 (by rw [e2, h2]) κ1
  exact ⟨κ2, by rw [Matcher.precalculate, g1]; dsimp only; rw [g2]⟩

/-! ## Elements -/

/-- The same with other patterns in the cache. -/
def withCache (s : Rules × RState) (κ : Cache) : Rules × RState :=
  ({ s.1 with rs := { s.1.rs with cache := κ } }, s.2)

/-- The parser without a Unicode database. -/
def plain (P : Parser) : Parser := { P with udb := false }

theorem addClass_cache (rs : RuleState) (k : Cls) (f : Bool) (κ : Cache) :
    RuleState.addClass { rs with cache := κ } k f =
      ({ (rs.addClass k f).1 with cache := κ }, (rs.addClass k f).2) := by
  unfold RuleState.addClass
  dsimp only
  cases Cls.validate rs.lk.classes true k <;> cases f <;> cases RuleState.clsName k <;> rfl

theorem addRule_cache (rs : RuleState) (m : Matcher) (f : Bool) (κ : Cache) :
    RuleState.addRule { rs with cache := κ } m f =
      ({ (rs.addRule m f).1 with cache := κ }, (rs.addRule m f).2) := by
  unfold RuleState.addRule
  cases m with
  | rule id nm br ms c =>
    dsimp only
    cases Matcher.validate rs.lk true (.rule id nm br ms c) <;> cases f <;> cases nm <;> rfl
  | _ => rfl

theorem parseRule_down {fuel : Nat} {udb : Bool} {rs rs1 : RuleState} {m : Matcher} {f : Bool} {κ : Cache}
    (h : RuleState.parseRule db fuel udb { rs with cache := κ } m f = (rs1, .ok ())) :
    ∃ rs0 κ', RuleState.parseRule db fuel false rs m f = (rs0, .ok ()) ∧ rs1 = { rs0 with cache := κ' } := by
  have key : ∀ κ, RuleState.addRule { rs with cache := κ } m f = (rs1, .ok ()) →
      ∃ rs0 κ', RuleState.parseRule db fuel false rs m f = (rs0, .ok ()) ∧ rs1 = { rs0 with cache := κ' } := by
    intro κ h
    rw [addRule_cache] at h
    injection h with h1 h2
    exact ⟨(rs.addRule m f).1, κ, Prod.ext rfl h2, h1.symm⟩
  unfold RuleState.parseRule at h
  split at h
  · split at h
    · cases h
    · exact key _ h
  · exact key _ h

theorem item_down {P : Parser} {s s1 : Rules × RState} {n : Node} {κ : Cache}
    (h : parseItem P (withCache s κ) n = (s1, .ok ())) :
    ∃ t κ', parseItem (plain P) s n = (t, .ok ()) ∧ s1 = withCache t κ' := by
  unfold parseItem at h ⊢
  split at h
  · rename_i hc
    rw [if_pos hc]
    cases hk : parseClass n with
    | error e => rw [hk] at h; cases h
    | ok k =>
      rw [hk] at h
      dsimp only [withCache, plain] at h ⊢
      rw [addClass_cache] at h
      rcases ha : s.1.rs.addClass k P.force with ⟨rs, e | u⟩
      · rw [ha] at h; cases h
      · rw [ha] at h
        cases h
        exact ⟨_, κ, rfl, rfl⟩
  · rename_i hc
    rw [if_neg hc]
    split at h
    · rename_i hr
      rw [if_pos hr]
      dsimp only [withCache, plain] at h ⊢
      rcases hp : parseRuleElem s.2 n with ⟨t, e | m⟩
      · rw [hp] at h; cases h
      · rw [hp] at h
        dsimp only at h ⊢
        split at h
        · cases h
        · rename_i rs hrs
          cases h
          obtain ⟨rs0, κ', e1, e2⟩ := parseRule_down hrs
          rw [e1]
          exact ⟨_, κ', rfl, by rw [e2]⟩
    · rename_i hr
      rw [if_neg hr]
      split at h
      · rename_i ha
        rw [if_pos ha]
        split at h
        · cases h
        · cases h
          exact ⟨_, κ, rfl, rfl⟩
      · rename_i ha
        rw [if_neg ha]
        cases h
        exact ⟨_, κ, rfl, rfl⟩

theorem section_down {P : Parser} : ∀ {ns : List Node} {s s1 : Rules × RState} {κ : Cache},
    parseRules P (withCache s κ) ns = (s1, .ok ()) →
    ∃ t κ', parseRules (plain P) s ns = (t, .ok ()) ∧ s1 = withCache t κ'
  | [], s, s1, κ, h => by
    cases h
    exact ⟨s, κ, rfl, rfl⟩
  | n :: ns, s, s1, κ, h => by
    obtain ⟨s2, h1, h2⟩ := C101.forEach_cons.1 h
    obtain ⟨t, κ', h3, rfl⟩ := item_down h1
    obtain ⟨u, κ2, h4, rfl⟩ := section_down h2
    exact ⟨u, κ2, C101.forEach_cons.2 ⟨t, h3, h4⟩, rfl⟩

/-! ## Parts of what is made -/

theorem mem_below {n c m : Node} (hc : c ∈ n.children) (h : m ∈ c :: C149.below c) : m ∈ C149.below n := by
  obtain ⟨t, a, s, ns⟩ := n
  exact C149.mem_belowAll.2 ⟨c, hc, h⟩

/-- The properties of an element and of those inside are known. -/
def KnownIn (db : String → Except Err CpSet) (n : Node) : Prop :=
  ∀ m ∈ n :: C149.below n, ∀ p, dget m.attrs "property" = some p → ∃ s, db p = .ok s

theorem KnownIn.child {n c : Node} (h : KnownIn db n) (hc : c ∈ n.children) : KnownIn db c :=
  fun m hm => h m (List.mem_cons_of_mem _ (mem_below hc hm))

theorem class_known : ∀ n k, parseClass n = .ok k → KnownIn db n → C42.Every (C42.Known db) (fun _ _ => True) k := by
  refine C103.node_ind ?_
  intro tag attrs text children ih k h hf
  by_cases ht : tag = "class"
  · subst ht
    obtain ⟨b, rfl, hb⟩ := C103.class_inv h
    intro p hp
    rw [hb] at hp
    exact hf _ (List.mem_cons_self ..) p hp
  · rw [parseClass, if_neg ht] at h
    split at h
    · cases h
    · rename_i op hop
      split at h
      · cases h
      · rename_i cs hcs
        cases h
        obtain ⟨r, hr, hfa⟩ := C103.parseClasses_forall hcs
        rw [List.nil_append] at hr
        subst hr
        refine ⟨trivial, ?_⟩
        have hf' : ∀ c ∈ children, KnownIn db c := fun c hc => hf.child hc
        clear hf hcs
        induction hfa with
        | nil => trivial
        | @cons n k ns ks h1 _ ih' =>
          exact ⟨ih n (by simp) k h1 (hf' n (by simp)), ih' (fun m hm => ih m (by simp [hm]))
            (fun m hm => hf' m (by simp [hm]))⟩

theorem helpers_parts {P : Cls → Prop} : ∀ {ns : List Node} {cl : Bool} {s s' : RState} {ms : List Matcher},
    (∀ n ∈ ns, ∀ s s' m, parseHelper s n = (s', .ok (some m)) → C66.Parts P (fun _ => True) m) →
    parseHelpers cl s ns = (s', .ok ms) → C66.PartsL P (fun _ => True) ms
  | [], cl, s, s', ms, _, h => by
    rw [parseHelpers] at h
    cases h
    trivial
  | n :: ns, cl, s, s', ms, hp, h => by
    have hp' : ∀ n ∈ ns, ∀ s s' m, parseHelper s n = (s', .ok (some m)) → C66.Parts P (fun _ => True) m :=
      fun n hn => hp n (List.mem_cons_of_mem _ hn)
    rw [parseHelpers] at h
    split at h
    · cases h
    · exact helpers_parts hp' h
    · rename_i s2 m h1
      split at h
      · cases h
      · split at h
        · cases h
        · rename_i s3 ms' h2
          cases h
          exact ⟨hp n (by simp) _ _ _ h1, helpers_parts hp' h2⟩

theorem helper_parts : ∀ (n : Node) (s s' : RState) (m : Matcher), parseHelper s n = (s', .ok (some m)) → KnownIn db n →
    C66.Parts (C42.Every (C42.Known db) (fun _ _ => True)) (fun _ => True) m := by
  refine C103.node_ind ?_
  intro tag attrs text children ih s s' m h hf
  obtain ⟨c, hc, hm⟩ := C103.made_of h
  have ih' : ∀ n ∈ children, ∀ s s' m, parseHelper s n = (s', .ok (some m)) →
      C66.Parts (C42.Every (C42.Known db) (fun _ _ => True)) (fun _ => True) m :=
    fun n hn s s' m h => ih n hn s s' m h (hf.child hn)
  cases hm with
  | anchor ht => trivial
  | start ht => trivial
  | fin ht => trivial
  | any ht => trivial
  | char cps ht hg => trivial
  | cls k ht hk => exact ⟨trivial, class_known _ k hk hf⟩
  | choice _ ms ht hth => exact ⟨trivial, helpers_parts ih' hth⟩
  | ahead _ ms ht hth => exact helpers_parts ih' hth
  | behind _ ms ht hth => exact helpers_parts ih' hth
  | rule _ ms ht hth => exact ⟨trivial, helpers_parts ih' hth⟩

theorem rule_parts {n : Node} {s t : RState} {m : Matcher} (h : parseRuleElem s n = (t, .ok m)) (hk : KnownIn db n) :
    (∃ i ms, m = .rule i (dget n.attrs "name") (dget n.attrs "by-ref") ms .none) ∧
    C66.Parts (C42.Every (C42.Known db) (fun _ _ => True)) (fun _ => True) m := by
  unfold parseRuleElem at h
  split at h
  · cases h
  · split at h
    · cases h
    · rename_i s' ms hms
      cases h
      exact ⟨⟨_, _, rfl⟩, trivial, helpers_parts (fun c hc s s' m h => helper_parts c s s' m h (hk.child hc)) hms⟩

/-! ## Sections -/

theorem grows_cls {n : String} {k : Cls} (h1 : n ∉ lk.classes.map Prod.fst) (h2 : ∀ t, n ≠ Cls.tagPrefix ++ t) :
    C65.Grows lk { lk with classes := dset lk.classes n k } := by
  refine ⟨fun _ _ h => h, fun a c h => ?_, fun t h => ?_⟩
  · dsimp only
    rw [dget_dset, if_neg]
    · exact h
    · rintro rfl
      exact h1 (dget_isSome.1 (by rw [h]; rfl))
  · dsimp only
    rw [dget_dset, if_neg (h2 t)]
    exact h

theorem grows_rule {n : String} {m : Matcher} (h1 : n ∉ lk.rules.map Prod.fst) :
    C65.Grows lk { lk with rules := dset lk.rules n m } := by
  refine ⟨fun a c h => ?_, fun _ _ h => h, fun _ h => h⟩
  dsimp only
  rw [dget_dset, if_neg]
  · exact h
  · rintro rfl
    exact h1 (dget_isSome.1 (by rw [h]; rfl))

theorem total_cls (ht : Total db lk) {n : String} {k : Cls} (h1 : n ∉ lk.classes.map Prod.fst) (h2 : ∀ t, n ≠ Cls.tagPrefix ++ t)
    (hk : ∃ f s, Cls.getSet db lk.classes f k = .ok s) : Total db { lk with classes := dset lk.classes n k } := by
  have hg := grows_cls (k := k) h1 h2
  constructor
  · intro a c hc
    dsimp only at hc
    rw [dget_dset] at hc
    split at hc
    · cases hc
      obtain ⟨f, s, h⟩ := hk
      exact ⟨f, s, C65.getSet_grows hg f _ s h⟩
    · obtain ⟨f, s, h⟩ := ht.cls a c hc
      exact ⟨f, s, C65.getSet_grows hg f _ s h⟩
  · intro a m hm beh
    obtain ⟨f, p, h⟩ := ht.rule a m hm beh
    exact ⟨f, p, C65.pattern_grows hg f beh m p h⟩

theorem total_rule (ht : Total db lk) {n : String} {m : Matcher} (h1 : n ∉ lk.rules.map Prod.fst)
    (hm : ∀ beh, ∃ f p, Matcher.pattern db lk f beh m = .ok p) : Total db { lk with rules := dset lk.rules n m } := by
  have hg := grows_rule (m := m) h1
  constructor
  · exact ht.cls
  · intro a c hc beh
    dsimp only at hc
    rw [dget_dset] at hc
    split at hc
    · cases hc
      obtain ⟨f, p, h⟩ := hm beh
      exact ⟨f, p, C65.pattern_grows hg f beh _ p h⟩
    · obtain ⟨f, p, h⟩ := ht.rule a c hc beh
      exact ⟨f, p, C65.pattern_grows hg f beh c p h⟩

theorem step_rule {rs rs1 : RuleState} {e : Node} {es : List Node} {i : Nat} {br : Option String} {ms : List Matcher} {c : Count}
    (hr : C101.isRule e = true) (ha : rs.addRule (.rule i (dget e.attrs "name") br ms c) false = (rs1, .ok ()))
    (hd : C103.Distinct (e :: es)) (hn : C103.New rs.lk (e :: es)) : ∃ n, n ∉ rs.lk.rules.map Prod.fst ∧
      rs1 = { rs with lk := { rs.lk with rules := dset rs.lk.rules n (.rule i (dget e.attrs "name") br ms c) } } ∧
      C103.Distinct es ∧ C103.New rs1.lk es := by
  obtain ⟨n, h1, h2⟩ := C103.addRule_named ha
  have hc := C101.not_cls_of_rule hr
  have hcn := C103.classNames_skip (es := es) hc
  have hrn := C103.ruleNames_rule (es := es) hr h1
  obtain ⟨d1, d2, d3⟩ := hd
  obtain ⟨n1, n2⟩ := hn
  rw [hcn] at d1 d3 n1
  rw [hrn] at d2 n2
  rw [List.nodup_cons] at d2
  refine ⟨n, n2 n (by simp), h2, ⟨d1, d2.2, d3⟩, ?_, ?_⟩
  · rw [h2]; exact n1
  · intro x hx
    rw [h2]
    intro hm
    rcases C103.mem_keys_dset hm with rfl | hm
    · exact d2.1 hx
    · exact n2 x (by simp [hx]) hm

theorem step_other {l : Lookups} {e : Node} {es : List Node} (h1 : C101.isCls e = false) (h2 : C101.isRule e = false)
    (hd : C103.Distinct (e :: es)) (hn : C103.New l (e :: es)) : C103.Distinct es ∧ C103.New l es := by
  have hcn := C103.classNames_skip (es := es) h1
  have hrn := C103.ruleNames_skip (es := es) h2
  obtain ⟨d1, d2, d3⟩ := hd
  obtain ⟨n1, n2⟩ := hn
  rw [hcn] at d1 d3 n1
  rw [hrn] at d2 n2
  exact ⟨⟨d1, d2, d3⟩, n1, n2⟩

theorem item_up {P : Parser} (hf : P.force = false) {s t : Rules × RState} {e : Node} {es : List Node}
    (h : parseItem (plain P) s e = (t, .ok ())) (hk : KnownIn P.db e) (ht : Total P.db s.1.rs.lk)
    (hd : C103.Distinct (e :: es)) (hn : C103.New s.1.rs.lk (e :: es)) :
    (Total P.db t.1.rs.lk ∧ C103.Distinct es ∧ C103.New t.1.rs.lk es) ∧
    ∃ f0, ∀ f, f0 ≤ f → ∀ κ, ∃ κ', parseItem { P with fuel := f } (withCache s κ) e = (withCache t κ', .ok ()) := by
  unfold parseItem at h ⊢
  split at h
  · rename_i hc
    simp only [if_pos hc]
    cases hp : parseClass e with
    | error er => rw [hp] at h; cases h
    | ok k =>
      rw [hp] at h
      dsimp only [withCache, plain] at h ⊢
      rcases ha : s.1.rs.addClass k P.force with ⟨rs, er | u⟩
      · rw [ha] at h; cases h
      · rw [ha] at h
        cases h
        constructor
        · rw [hf] at ha
          have hv := ((C101.addClass_iff.1 ha).1.resolve_right (by simp))
          obtain ⟨n, -, -, g1, g2, -, g3, g4, g5⟩ := C103.step_cls (decide_eq_true hc) hp ha hd hn
          refine ⟨?_, g4, g5⟩
          rw [g3]
          exact total_cls ht g1 g2 (class_set ht k ((C42.validate_exact _ k true).1 hv).2 (class_known e k hp hk))
        · refine ⟨0, fun f _ κ => ⟨κ, ?_⟩⟩
          rw [addClass_cache, ha]
  · rename_i hc
    have hc' : C101.isCls e = false := decide_eq_false hc
    simp only [if_neg hc]
    split at h
    · rename_i hr
      simp only [if_pos hr]
      dsimp only [withCache, plain] at h ⊢
      rcases hp : parseRuleElem s.2 e with ⟨t2, er | m⟩
      · rw [hp] at h; cases h
      · rw [hp] at h
        dsimp only at h ⊢
        split at h
        · cases h
        · rename_i rs hrs
          cases h
          have ha : s.1.rs.addRule m P.force = (rs, .ok ()) := hrs
          obtain ⟨⟨i, ms, rfl⟩, hparts⟩ := rule_parts hp hk
          have ha' := ha
          rw [hf] at ha'
          have hv := ((C101.addRule_iff.1 ha').1.resolve_right (by simp))
          obtain ⟨v1, v2⟩ := C66.validate_parts _ true hv
          have hpat := pattern_ok ht _ v1 v2 hparts
          obtain ⟨n, g1, g3, g4, g5⟩ := step_rule (decide_eq_true hr) ha' hd hn
          refine ⟨⟨?_, g4, g5⟩, ?_⟩
          · rw [g3]
            exact total_rule ht g1 hpat
          · obtain ⟨f0, h0⟩ := precalculate_ok hpat
            refine ⟨f0, fun f hf' κ => ?_⟩
            obtain ⟨κ1, e1⟩ := h0 f hf' κ
            unfold RuleState.parseRule
            cases P.udb with
            | false =>
              refine ⟨κ, ?_⟩
              simp only [Bool.false_eq_true, if_false]
              rw [addRule_cache, ha]
            | true =>
              refine ⟨κ1, ?_⟩
              simp only [if_true]
              rw [e1]
              dsimp only
              have := addRule_cache s.1.rs (.rule i (dget e.attrs "name") (dget e.attrs "by-ref") ms .none) P.force κ1
              rw [this, ha]
    · rename_i hr
      have hr' : C101.isRule e = false := decide_eq_false hr
      obtain ⟨o1, o2⟩ := step_other hc' hr' hd hn
      simp only [if_neg hr]
      split at h
      · rename_i ha
        simp only [if_pos ha]
        split at h
        · cases h
        · rename_i a hpa
          cases h
          exact ⟨⟨ht, o1, o2⟩, 0, fun f _ κ => ⟨κ, rfl⟩⟩
      · rename_i ha
        simp only [if_neg ha]
        cases h
        exact ⟨⟨ht, o1, o2⟩, 0, fun f _ κ => ⟨κ, rfl⟩⟩

theorem section_up {P : Parser} (hf : P.force = false) : ∀ {es : List Node} {s t : Rules × RState},
    parseRules (plain P) s es = (t, .ok ()) → Properties P.db es → Total P.db s.1.rs.lk → C103.Distinct es →
    C103.New s.1.rs.lk es →
    ∃ f0, ∀ f, f0 ≤ f → ∀ κ, ∃ κ', parseRules { P with fuel := f } (withCache s κ) es = (withCache t κ', .ok ())
  | [], s, t, h, _, _, _, _ => by
    cases h
    exact ⟨0, fun f _ κ => ⟨κ, rfl⟩⟩
  | e :: es, s, t, h, hk, ht, hd, hn => by
    obtain ⟨s2, h1, h2⟩ := C101.forEach_cons.1 h
    have hke : KnownIn P.db e := fun m hm => hk m (C149.mem_belowAll.2 ⟨e, by simp, hm⟩)
    have hks : Properties P.db es := by
      intro m hm
      obtain ⟨n, hn, hm⟩ := C149.mem_belowAll.1 hm
      exact hk m (C149.mem_belowAll.2 ⟨n, List.mem_cons_of_mem _ hn, hm⟩)
    obtain ⟨⟨g1, g2, g3⟩, f1, h3⟩ := item_up hf h1 hke ht hd hn
    obtain ⟨f2, h4⟩ := section_up hf h2 hks g1 g2 g3
    refine ⟨max f1 f2, fun f hf κ => ?_⟩
    obtain ⟨κ1, e1⟩ := h3 f (le_trans (Nat.le_max_left _ _) hf) κ
    obtain ⟨κ2, e2⟩ := h4 f (le_trans (Nat.le_max_right _ _) hf) κ1
    exact ⟨κ2, C101.forEach_cons.2 ⟨_, e1, e2⟩⟩

/-! ## Names of a valid document -/

open Schema MetaXml DocXml
open C147 (elem_inv attrs_inv attrsOf)

variable {x : Lex} {D : String → Pat}

theorem id_ref {b : String} (h : Matches x D identifierP [] [.txt b]) : Matches x D classRefP [] [.txt b] := by
  unfold identifierP at h
  unfold classRefP
  cases h with
  | data h1 h2 h3 => exact .data h1 h2 h3

theorem name_id {n : Node} (h : Matches x defs C147.ruleItemP [] [.node n]) (ht : n.tag ≠ "action") {b : String}
    (hb : dget n.attrs "name" = some b) : Matches x defs identifierP [] [.txt b] := by
  have hb := mem_of_dget hb
  cases h with
  | left h =>
    cases h with
    | left h =>
      obtain ⟨c, hc, hm⟩ := elem_inv h
      obtain ⟨r, hr, hh⟩ := attrs_inv hm rfl _ b hb
      simp [attrsOf, Pat.optional, codePointSetShorthandP] at hr
      rw [hr] at hh
      exact hh
    | right h =>
      obtain ⟨-, hk⟩ := C149.of_inv h (C149.of_ops (L := C149.opPats) (fun _ hq => hq))
      obtain ⟨n', e, q, hq, hh⟩ := hk (.node n) (by simp)
      cases e
      have key : ∀ {t : String} {r : Pat}, Matches x defs (.elem t (.group (.optional (.attr "name" identifierP)) (.group
          (.optional (.attr "comment" .text)) (.group (.optional (.attr "ref" refPatternP)) (.group (.optional (.attr "count"
            countPatternP)) r))))) [] [.node n] → C149.Of defs C149.classPats r → Matches x defs identifierP [] [.txt b] := by
        intro t r h h3
        obtain ⟨c, hc, hm⟩ := elem_inv h
        obtain ⟨b1, h, g1⟩ := C149.peel hm
        obtain ⟨b2, h, g2⟩ := C149.peel h
        obtain ⟨b3, h, g3⟩ := C149.peel h
        obtain ⟨b4, h, g4⟩ := C149.peel h
        obtain ⟨rfl, -⟩ := C149.of_inv h h3
        rcases g1 _ hb with h | h
        · rcases g2 _ h with h | h
          · rcases g3 _ h with h | h
            · rcases g4 _ h with h | h
              · cases h
              · exact absurd h.1 (by simp)
            · exact absurd h.1 (by simp)
          · exact absurd h.1 (by simp)
        · exact h.2
      have hN : C149.Of defs C149.classPats (.ref "class-or-set-operator-nested") := C149.of_nested (fun q hq => hq)
      simp only [C149.opPats, List.mem_cons, List.not_mem_nil, or_false] at hq
      rcases hq with rfl | rfl | rfl | rfl | rfl
      · exact key hh hN
      · exact key hh (.group hN (.plus hN))
      · exact key hh (.group hN hN)
      · exact key hh (.group hN hN)
      · exact key hh (.group hN hN)
  | right h =>
    cases h with
    | left h =>
      obtain ⟨c, hc, hm⟩ := elem_inv h
      obtain ⟨b1, hb1, g1⟩ := C149.peel_req hm
      obtain ⟨b2, hb2, g2⟩ := C149.peel hb1
      obtain ⟨b3, hb3, g3⟩ := C149.peel hb2
      obtain ⟨rfl, -⟩ := C149.kids_of hc hb3 C149.of_operators
      rcases g1 _ hb with h | h
      · rcases g2 _ h with h | h
        · rcases g3 _ h with h | h
          · cases h
          · exact absurd h.1 (by simp)
        · exact absurd h.1 (by simp)
      · exact h.2
    | right h => exact absurd (C149.tag_of h) ht

theorem names_sub (p : Node → Bool) : ∀ ns : List Node,
    List.Sublist (((ns.filter p).filterMap (fun n => dget n.attrs "name")).map collapse) (idsAll ns)
  | [] => .slnil
  | n :: ns => by
    have ih := names_sub p ns
    rw [idsAll, C147.ids_eq, List.append_assoc, List.filter_cons]
    cases p n with
    | false => exact (ih.trans (List.sublist_append_right _ _)).trans (List.sublist_append_right _ _)
    | true =>
      simp only [if_true]
      cases hn : dget n.attrs "name" with
      | none =>
        rw [List.filterMap_cons, hn]
        exact (ih.trans (List.sublist_append_right _ _)).trans (List.sublist_append_right _ _)
      | some b =>
        rw [List.filterMap_cons, hn]
        exact List.Sublist.cons_cons _ (ih.trans (List.sublist_append_right _ _))

theorem distinct {lx : Lex} {m : MetaXml.Ctx} {d : Doc} {ms : List MElem} (hv : Valid lx m d) (hm : d.metaE = some ms)
    (hs : lx.start '#' = false) : C103.Distinct (d.rules.getD []) := by
  have hp := C147.parts_of hv hm
  refine ⟨((names_sub C101.isCls _).nodup hp.unique).of_map _, ((names_sub C101.isRule _).nodup hp.unique).of_map _, ?_⟩
  intro b hb t
  simp only [C101.classNames, List.mem_filterMap, List.mem_filter] at hb
  obtain ⟨n, ⟨hn, hc⟩, hb⟩ := hb
  refine C149.no_tag (id_ref (name_id (hp.rules n hn) ?_ hb)) hs
  intro ht
  simp only [C101.isCls, ht, decide_eq_true_eq] at hc
  revert hc
  decide

theorem new_new (g : LGR) {es : List Node} (hd : C103.Distinct es) : C103.New (newRules g).rs.lk es := by
  refine ⟨?_, by simp [newRules]⟩
  intro b hb hm
  have : ∃ t, b = Cls.tagPrefix ++ t := by
    simp only [newRules, tagClasses, List.map_map, List.mem_map] at hm
    obtain ⟨p, -, rfl⟩ := hm
    exact ⟨p.1, rfl⟩
  obtain ⟨t, rfl⟩ := this
  exact hd.tag _ hb t rfl

theorem total_new (db : String → Except Err CpSet) (g : LGR) : Total db (newRules g).rs.lk := by
  refine ⟨?_, by simp [newRules, dget]⟩
  intro n k h
  have := mem_of_dget h
  simp only [newRules, tagClasses, List.mem_map] at this
  obtain ⟨p, -, e⟩ := this
  cases e
  exact ⟨1, _, rfl⟩

/-! ## The theorems -/

/-- The reader with another depth of recursion. -/
def deep (R : Reader) (f : Nat) : Reader := { R with fuel := f }

/-- **C150** What is read in the section `<rules>` does not depend on the Unicode database, except for the patterns calculated. -/
theorem same_rules {P : Parser} {g : LGR} {ns : List Node} {s : Rules × RState}
    (h : parseRules P (newRules g, {}) ns = (s, .ok ())) :
    ∃ t κ, parseRules { P with udb := false } (newRules g, {}) ns = (t, .ok ()) ∧
      s = ({ t.1 with rs := { t.1.rs with cache := κ } }, t.2) := by
  have h0 : (newRules g, ({} : RState)) = withCache (newRules g, {}) [] := rfl
  rw [h0] at h
  exact section_down h

/-- **C150** With a Unicode database or without, a valid document whose properties are known has its section `<rules>` read
exactly when the declarations are in order, provided that recursion can be deep enough. -/
theorem rules_read_db {lx : Lex} {R : Reader} {d : Doc} {ms : List MElem} (hv : Valid lx R.x d) (hm : d.metaE = some ms)
    (ht : C149.Tidy lx d) (hf : R.force = false) (hk : Properties R.props (d.rules.getD [])) (g : LGR) :
    ((parseRules R.parser (newRules g, {}) (d.rules.getD [])).2 = .ok () → C149.AllReadable [] [] (d.rules.getD [])) ∧
    (C149.AllReadable [] [] (d.rules.getD []) → ∃ f0, ∀ f, f0 ≤ f →
      (parseRules (deep R f).parser (newRules g, {}) (d.rules.getD [])).2 = .ok ()) := by
  have h0 : (newRules g, ({} : RState)) = withCache (newRules g, {}) [] := rfl
  have hr := C149.rules_read (R := { R with db := none }) hv hm ht rfl hf g
  have hpl : ({ R with db := none } : Reader).parser = plain R.parser := rfl
  rw [hpl] at hr
  constructor
  · intro h
    rcases hp : parseRules R.parser (newRules g, {}) (d.rules.getD []) with ⟨s, e | u⟩
    · rw [hp] at h; cases h
    · rw [h0] at hp
      obtain ⟨t, κ, h1, -⟩ := section_down hp
      exact hr.1 (by rw [h1])
  · intro h
    have h := hr.2 h
    rcases hp : parseRules (plain R.parser) (newRules g, {}) (d.rules.getD []) with ⟨s, e | u⟩
    · rw [hp] at h; cases h
    · have hd := distinct hv hm ht.start
      obtain ⟨f0, h1⟩ := section_up (P := R.parser) hf hp hk (total_new _ g) hd (new_new g hd)
      refine ⟨f0, fun f hf => ?_⟩
      obtain ⟨κ', e⟩ := h1 f hf []
      have e' : parseRules (deep R f).parser (newRules g, {}) (d.rules.getD []) = (withCache s κ', .ok ()) := e
      rw [e']

/-- The references of a document; code points have to be valid if the parser is strict. -/
def cited (R : Reader) (ms : List MElem) : C105.Given :=
  ⟨fun r => r ∈ ms.flatMap C148.idsOf, fun x => R.strict = true → ∀ valid, R.db = some valid → valid x = true⟩

/-- What a document has to be like, besides what the schema says. -/
structure Sound (R : Reader) (ms : List MElem) (d : Doc) : Prop where
  meta_ : ∀ e ∈ ms, C148.Fine R.x e
  ids : (ms.flatMap C148.idsOf).Nodup
  data : ∃ is, C105.Means d.data is ∧ (∀ i ∈ is, (cited R ms).Fine i) ∧ C105.Apart is
  rules : C149.AllReadable [] [] (d.rules.getD [])

theorem doc_iff {R : Reader} {d : Doc} {ms : List MElem} (hm : d.metaE = some ms) (cs : Rfc7940.Results) :
    (∃ g, (parseDoc R cs d).2 = .ok (some g)) ↔ ∃ m p, parseMeta R.x R.force cs ms = (m, .ok ()) ∧
      parseData R.db R.force { lgr := newLgr R m.md, checks := m.checks } d.data = (p, .ok ()) ∧
      (parseRules R.parser (newRules p.lgr, {}) (d.rules.getD [])).2 = .ok () := by
  unfold parseDoc
  rw [hm]
  dsimp only
  rcases parseMeta R.x R.force cs ms with ⟨m, e | u⟩
  · simp
  · dsimp only
    rcases hp : parseData R.db R.force { lgr := newLgr R m.md, checks := m.checks } d.data with ⟨p, e | u⟩
    · simp only [reduceCtorEq, exists_false, false_iff]
      rintro ⟨m', p', e1, e2, -⟩
      cases e1
      rw [hp] at e2
      cases e2
    · dsimp only
      rcases hr : parseRules R.parser (newRules p.lgr, {}) (d.rules.getD []) with ⟨⟨r, t⟩, e | u⟩
      · simp only [reduceCtorEq, exists_false, false_iff]
        rintro ⟨m', p', e1, e2, e3⟩
        cases e1
        rw [hp] at e2
        cases e2
        rw [hr] at e3
        cases e3
      · exact ⟨fun _ => ⟨m, p, rfl, hp, by rw [hr]⟩, fun _ => ⟨_, rfl⟩⟩

theorem given_cited {lx : Lex} {R : Reader} {d : Doc} {ms : List MElem} (hv : Valid lx R.x d) (hm : d.metaE = some ms)
    (hi : C61.ReadsDigits R.x.pyInt) (hd : R.x.digit '.' = false) {cs : Rfc7940.Results} {s : MState}
    (hp : parseMeta R.x false cs ms = (s, .ok ())) : C105.given R.db R.strict (managerOf s.md) = cited R ms := by
  obtain ⟨h1, h2⟩ := C148.valid_meta_means hv hm hi hd cs
  rw [hp] at h2
  have hrefs := (h2 rfl).refs
  unfold C105.given cited
  congr 1
  funext r
  rw [dget_isSome]
  dsimp only [managerOf]
  have hk : s.md.refs.map Prod.fst = ms.flatMap C148.idsOf := by
    rw [hrefs, List.map_flatMap]
    congr 1
    funext e
    unfold C148.refsOf C148.idsOf
    split
    · rw [List.map_map]; rfl
    · rfl
  rw [← hk, List.map_map]
  rfl

/-- **C150** Of the documents which are valid for the schema and whose properties are known, the sound ones are read and no others,
with a Unicode database or without, provided that recursion can be deep enough. -/
theorem document_read_db {lx : Lex} {R : Reader} {d : Doc} {ms : List MElem} (hv : Valid lx R.x d) (hm : d.metaE = some ms)
    (ht : C149.Tidy lx d) (hf : R.force = false) (hi : C61.ReadsDigits R.x.pyInt) (hd : R.x.digit '.' = false)
    (hk : Properties R.props (d.rules.getD [])) (cs : Rfc7940.Results) :
    ((∃ g, (parseDoc R cs d).2 = .ok (some g)) → Sound R ms d) ∧
    (Sound R ms d → ∃ f0, ∀ f, f0 ≤ f → ∃ g, (parseDoc (deep R f) cs d).2 = .ok (some g)) := by
  obtain ⟨h1, -⟩ := C148.valid_meta_means hv hm hi hd cs
  have hl : ∀ md, newLgr R md = { refs := managerOf md, raiseInvalid := R.strict } := fun _ => rfl
  constructor
  · intro h
    obtain ⟨s, p, e1, e2, e3⟩ := (doc_iff hm cs).1 h
    rw [hf] at e1 e2
    obtain ⟨h3, h4⟩ := h1.1 (by rw [e1])
    obtain ⟨h5, -⟩ := C105.data_means_partial R.db R.strict (managerOf s.md) s.checks ht.data
    rw [given_cited hv hm hi hd e1, ← hl, e2] at h5
    exact ⟨h3, h4, h5.1 rfl, (rules_read_db hv hm ht hf hk p.lgr).1 e3⟩
  · intro h
    rcases e1 : parseMeta R.x false cs ms with ⟨s, e | u⟩
    · exact absurd (h1.2 ⟨h.meta_, h.ids⟩) (by rw [e1]; simp)
    · obtain ⟨h5, -⟩ := C105.data_means_partial R.db R.strict (managerOf s.md) s.checks ht.data
      rw [given_cited hv hm hi hd e1, ← hl] at h5
      have h6 := h5.2 h.data
      rcases e2 : parseData R.db false { lgr := newLgr R s.md, checks := s.checks } d.data with ⟨p, e | u⟩
      · rw [e2] at h6; cases h6
      · obtain ⟨f0, h7⟩ := (rules_read_db hv hm ht hf hk p.lgr).2 h.rules
        refine ⟨f0, fun f hf0 => (doc_iff hm cs).2 ⟨s, p, ?_, ?_, h7 f hf0⟩⟩
        · show parseMeta R.x R.force cs ms = _
          rw [hf]; exact e1
        · show parseData R.db R.force { lgr := newLgr R s.md, checks := s.checks } d.data = _
          rw [hf]; exact e2

/-! ## Examples -/

/-- A parser with a Unicode database where `valid` are valid; no property is known. -/
def reader1 (valid : Nat → Bool) : Reader := { C104.reader0 with db := some valid, props := fun _ => .error .valueError }

/-- The hypotheses are met by the example of C149, with a database; the document is sound if the code point is valid, and then it is
read. -/
example : Valid C149.lex1 (reader1 fun _ => true).x (C149.docOf [C149.classNode, C149.ruleNode]) ∧
    C149.Tidy C149.lex1 (C149.docOf [C149.classNode, C149.ruleNode]) ∧ (reader1 fun _ => true).force = false ∧
    Properties (reader1 fun _ => true).props [C149.classNode, C149.ruleNode] ∧
    ∃ g, (parseDoc (reader1 fun _ => true) [] (C149.docOf [C149.classNode, C149.ruleNode])).2 = .ok (some g) := by
  refine ⟨C149.doc_valid _ (by simp) (by decide +kernel), C149.doc_tidy (by simp), rfl, ?_, ?_⟩
  · have : ∀ m ∈ C149.belowAll [C149.classNode, C149.ruleNode], dget m.attrs "property" = none := by decide +kernel
    intro m hm p hp
    rw [this m hm] at hp
    cases hp
  · have h : (match (parseDoc (reader1 fun _ => true) [] (C149.docOf [C149.classNode, C149.ruleNode])).2 with
      | .ok (some _) => true
      | _ => false) = true := by decide +kernel
    cases hp : (parseDoc (reader1 fun _ => true) [] (C149.docOf [C149.classNode, C149.ruleNode])).2 with
    | error e => rw [hp] at h; cases h
    | ok o =>
      cases o with
      | none => rw [hp] at h; cases h
      | some g => exact ⟨g, rfl⟩

/-- A class of a property. -/
def propNode : Node := .mk "class" [("name", "c"), ("property", "gc:Zz")] none []

theorem prop_matches : Matches C149.lex1 defs C147.ruleItemP [] [.node propNode] := by
  refine .left (.left (C147.elem_nodes (ns := []) ?_))
  refine .group (a := [("name", "c")]) (b := [("property", "gc:Zz")]) (c := [])
    (.left (.attr (C149.name_ok (s := "c") (c := 'c') (w := []) (by decide) (by decide) .ID (.inl rfl)))) ?_ (.refl _)
  refine C147.group_attrs (a := []) (.right .empty) (C147.group_attrs (a := []) (.right .empty) (C147.group_attrs (a := []) (.right .empty) (.left (.attr ?_))))
  refine .data ?_ (by rintro r ⟨⟩) (Nat.zero_le _)
  exact ⟨by decide, fun _ _ => .inl rfl⟩

theorem doc_valid (m : MetaXml.Ctx) {ns : List Node} (h : ∀ n ∈ ns, Matches C149.lex1 defs C147.ruleItemP [] [.node n])
    (hd : (idsAll ns).Nodup) : Valid C149.lex1 m (C149.docOf ns) := by
  refine C147.valid_of (C147.meta0_matches m) (C147.elem_nodes (.one ?_)) h hd
  refine .left (C147.elem_nodes (ns := []) ?_)
  refine .group (a := [("cp", "0061")]) (b := []) (c := []) (.attr (.left (.data trivial ?_ (Nat.zero_le _)))) ?_ (.refl _)
  · rintro r ⟨⟩
    have : collapse "0061" = "0061".toList := by decide
    rw [this]
    exact C147.rep_iff.2 (C147.cpToStr_hexword (n := 0x61) (by decide))
  · exact C147.group_attrs (a := []) (.right .empty) (C147.group_attrs (a := []) (.right .empty) (C147.group_attrs (a := []) (.right .empty)
      (C147.group_attrs (a := []) (.right .empty) (C147.group_attrs (a := []) (.right .empty) (.right .empty)))))

/-- The class of `propNode`. -/
def propCls : Cls := .base { name := some "c", property := some "gc:Zz" }

theorem unknown_pattern (f : Nat) (cl : List (String × Cls)) (h : dget cl "c" = some propCls) : ∃ κ e,
    Matcher.patternC (fun _ => .error .valueError) { classes := cl } f true (.rule 0 (some "r") none
      [.cls (.base { byRef := some "c" }) (.atLeast 1), .cls (.comb none .complement [.base { byRef := some "c" }]) .none] .none) [] =
      (κ, .error e) := by
  have hs : ∀ f, ∃ e, Cls.getSet (fun _ => .error .valueError) cl f (.base { byRef := some "c" }) = .error e := by
    intro f
    match f with
    | 0 => exact ⟨_, rfl⟩
    | 1 => exact ⟨.recursionError, by simp [Cls.getSet, h]⟩
    | f + 2 => exact ⟨.valueError, by simp [Cls.getSet, h, propCls]⟩
  match f with
  | 0 => exact ⟨_, _, rfl⟩
  | 1 => exact ⟨_, _, rfl⟩
  | f + 2 =>
    obtain ⟨e, he⟩ := hs f
    exact ⟨[], e, by simp [Matcher.patternC, dget, Matcher.mapC, Matcher.classPattern, he]⟩

theorem unknown_rules (valid : Nat → Bool) (f : Nat) (g : LGR) :
    (parseRules (deep (reader1 valid) f).parser (newRules g, {}) [propNode, C149.ruleNode]).2 ≠ .ok () := by
  intro h
  have hp : parseClass propNode = .ok (.base { name := some "c", property := some "gc:Zz" }) := rfl
  have hr : parseRuleElem {} C149.ruleNode = ({ nextId := 1 }, .ok (.rule 0 (some "r") none
      [.cls (.base { byRef := some "c" }) (.atLeast 1), .cls (.comb none .complement [.base { byRef := some "c" }]) .none] .none)) := rfl
  rcases hx : parseRules (deep (reader1 valid) f).parser (newRules g, {}) [propNode, C149.ruleNode] with ⟨s, e | u⟩
  · rw [hx] at h; cases h
  · obtain ⟨s1, h1, h2⟩ := C101.forEach_cons.1 hx
    obtain ⟨s2, h2, -⟩ := C101.forEach_cons.1 h2
    have ht : propNode.tag = "class" ∨ (combOf propNode.tag).isSome = true := .inl rfl
    unfold parseItem at h1 h2
    rw [if_pos ht, hp] at h1
    have hn1 : ¬ (C149.ruleNode.tag = "class" ∨ (combOf C149.ruleNode.tag).isSome = true) := by decide
    have hn2 : C149.ruleNode.tag = "rule" := rfl
    rw [if_neg hn1, if_pos hn2] at h2
    have ha : ((newRules g, ({} : RState)).1.rs.addClass (.base { name := some "c", property := some "gc:Zz" }) (deep (reader1 valid) f).parser.force) =
        ({ lk := { classes := dset (tagClasses g) "c" (.base { name := some "c", property := some "gc:Zz" }) } }, .ok ()) := rfl
    dsimp only at h1
    rw [ha] at h1
    cases h1
    dsimp only at h2
    rw [hr] at h2
    dsimp only at h2
    split at h2
    · cases h2
    · rename_i rs hrs
      obtain ⟨κ, er, he⟩ := unknown_pattern (deep (reader1 valid) f).parser.fuel (dset (tagClasses g) "c" propCls)
        (by rw [dget_dset, if_pos rfl])
      unfold RuleState.parseRule at hrs
      rw [if_pos (show (deep (reader1 valid) f).parser.udb = true from rfl)] at hrs
      unfold Matcher.precalculate at hrs
      have hdb : (deep (reader1 valid) f).parser.db = fun _ => .error .valueError := rfl
      rw [hdb] at hrs
      dsimp only at hrs
      unfold propCls at he
      rw [he] at hrs
      cases hrs

theorem prop_tidy : C149.Tidy C149.lex1 (C149.docOf [propNode, C149.ruleNode]) := by
  have h := C149.doc_tidy (ns := [C149.classNode, C149.ruleNode]) (by simp)
  refine ⟨h.digits, h.start, h.data, ?_⟩
  intro m hm s hs
  have all : ∀ m ∈ C149.belowAll [propNode, C149.ruleNode], dget m.attrs "count" = none ∨ dget m.attrs "count" = some "1+" := by
    decide +kernel
  rcases all m hm with h | h
  · rw [h] at hs; cases hs
  · rw [h] at hs; cases hs; decide

/-- A property which is not known matters: the document is valid for the schema and read without a Unicode database, but not read
with one, whatever the depth of recursion. -/
theorem unknown_property : Valid C149.lex1 C104.reader0.x (C149.docOf [propNode, C149.ruleNode]) ∧
    C149.AllReadable [] [] [propNode, C149.ruleNode] ∧
    (∃ g, (parseDoc C104.reader0 [] (C149.docOf [propNode, C149.ruleNode])).2 = .ok (some g)) ∧
    ∀ valid f cs g, (parseDoc (deep (reader1 valid) f) cs (C149.docOf [propNode, C149.ruleNode])).2 ≠ .ok (some g) := by
  have hv : Valid C149.lex1 C104.reader0.x (C149.docOf [propNode, C149.ruleNode]) := by
    refine doc_valid _ ?_ (by decide +kernel)
    intro n hn
    simp only [List.mem_cons, List.not_mem_nil, or_false] at hn
    rcases hn with rfl | rfl
    · exact prop_matches
    · exact C149.rule_matches
  have hg : ∃ g, (parseDoc C104.reader0 [] (C149.docOf [propNode, C149.ruleNode])).2 = .ok (some g) := by
    have h : (match (parseDoc C104.reader0 [] (C149.docOf [propNode, C149.ruleNode])).2 with
      | .ok (some _) => true
      | _ => false) = true := by decide +kernel
    cases hp : (parseDoc C104.reader0 [] (C149.docOf [propNode, C149.ruleNode])).2 with
    | error e => rw [hp] at h; cases h
    | ok o =>
      cases o with
      | none => rw [hp] at h; cases h
      | some g => exact ⟨g, rfl⟩
  refine ⟨hv, ((C149.document_read hv rfl prop_tidy rfl rfl C149.x0_digits rfl []).1 hg).rules, hg, ?_⟩
  intro valid f cs g h
  obtain ⟨m, p, -, -, h3⟩ := (doc_iff rfl cs).1 ⟨g, h⟩
  exact unknown_rules valid f p.lgr h3

/-- A code point which is not valid matters, too, when the parser is strict: the first document is not sound, and not read. -/
theorem invalid_code_point : ∀ f cs g,
    (parseDoc (deep (reader1 fun _ => false) f) cs (C149.docOf [C149.classNode, C149.ruleNode])).2 ≠ .ok (some g) := by
  intro f cs g h
  obtain ⟨m, p, -, h2, -⟩ := (doc_iff rfl cs).1 ⟨g, h⟩
  cases h2

end Lgr.Props.C150

import Verif.Props.MergeSection

/-!
# C117: the rules of the LGRs match the same in the merged LGR
-/

namespace Lgr.Props.C117
open Lgr Compare MergeSet RulesXml MergeXml C101 C102 C103 C42 C63

/-! ## When names are not confused -/

/-- The set of a tag. -/
def TagSet (tc : List (String × List Nat)) (t : String) (x : Nat) : Prop := ∃ cps, dget tc t = some cps ∧ x ∈ cps

def IsTagName (c : String) : Prop := ∃ t, c = Cls.tagPrefix ++ t

/-- Nothing else is referred to, and there is no anchor. -/
def Plain (e : Node) : Prop := ∀ x, Within x e → dget x.attrs "by-ref" = none ∧ dget x.attrs "from-tag" = none ∧
  x.tag ≠ "anchor"

/-- The names used in an LGR are not taken for others in the merged LGR; `tc` and `tcM` are the tags in the data of
the LGR and of the merged LGR. -/
structure Fit (ds : List Doc) (tcM : List (String × List Nat)) (d : Doc) (tc : List (String × List Nat)) : Prop where
  /-- Names of classes have no colon. -/
  clsName : ∀ e ∈ d.es, isCls e = true → ∀ n, dget e.attrs "name" = some n → n ≠ "" ∧ ':' ∉ n.toList
  /-- Classes referred to are classes of the section. -/
  clsRef : ∀ e ∈ d.es, isCls e = true → ∀ x, Within x e → x.tag = "class" → ∀ c, dget x.attrs "by-ref" = some c →
    c ≠ "" ∧ ¬ IsTagName c
  /-- Those that a rule refers to do not begin like the rule of the MSR. -/
  inRef : ∀ e ∈ d.es, isRule e = true → ∀ x, Within x e → x.tag = "class" → ∀ c, dget x.attrs "by-ref" = some c →
    c ≠ "" ∧ ¬ IsTagName c ∧ ¬ lcm.toList <+: c.toList ∧ d.script ++ "-" ++ c ≠ lcm
  /-- Nor do rules, except this one itself. -/
  ruleRef : ∀ e ∈ d.es, isRule e = true → ∀ x, Within x e → x.tag = "rule" → ∀ r, dget x.attrs "by-ref" = some r →
    r ≠ "" ∧ (lcm.toList <+: r.toList → r = lcm) ∧ d.script ++ "-" ++ r ≠ lcm
  /-- Tags that are used have the same code points. -/
  tags : ∀ e ∈ d.es, isCls e = true ∨ isRule e = true → ∀ x, Within x e → x.tag = "class" →
    ∀ t, dget x.attrs "from-tag" = some t → ∀ y, TagSet tc t y ↔ TagSet tcM (tagTo d.script t) y
  /-- Rules have names. -/
  named : ∀ e ∈ d.es, isRule e = true → (dget e.attrs "name").isSome
  /-- The name that a rule of the set gets is that of a rule of this LGR only if it is this rule, or the rule of the
  MSR, which is the same everywhere. -/
  unique : ∀ d0 ∈ ds, ∀ e0 ∈ d0.es, isRule e0 = true → ∀ s0, Under d0 e0 s0 →
    ∀ r, ruleName s0 (nameOf e0) = ruleName d.script r →
      (s0 = d.script ∧ nameOf e0 = r ∧ e0 ∈ d.es) ∨
      (r = lcm ∧ Plain e0 ∧ ∀ e ∈ d.es, isRule e = true → nameOf e = lcm → Plain e ∧ e.children = e0.children)

/-- What the names of the LGR mean in the merged LGR. -/
def worldIn (d : Doc) (tc : List (String × List Nat)) (w : NWorld) : NWorld :=
  { label := w.label
    anchor := w.anchor
    sets :=
      { name := fun c x => (∃ t, c = Cls.tagPrefix ++ t ∧ TagSet tc t x) ∨
          (¬ IsTagName c ∧ w.sets.name (d.script ++ "-" ++ c) x)
        tag := TagSet tc }
    rule := fun r => w.rule (ruleName d.script r) }

theorem tag_eq {t t' : String} (h : Cls.tagPrefix ++ t = Cls.tagPrefix ++ t') : t = t' := tag_inj h

theorem world_name {d : Doc} {tc : List (String × List Nat)} {w : NWorld} {c : String} (h : ¬ IsTagName c) (x : Nat) :
    (worldIn d tc w).sets.name c x ↔ w.sets.name (d.script ++ "-" ++ c) x := by
  constructor
  · rintro (⟨t, e, -⟩ | ⟨-, g⟩)
    · exact absurd ⟨t, e⟩ h
    · exact g
  · exact fun g => .inr ⟨h, g⟩

theorem refTo_rule {s r : String} (h1 : r ≠ "") (h2 : lcm.toList <+: r.toList → r = lcm) (h3 : s ++ "-" ++ r ≠ lcm) :
    refTo s r = ruleName s r := by
  rw [ruleName_eq]
  unfold refTo
  rw [if_neg h1]
  by_cases h : lcm.toList <+: r.toList
  · rw [if_pos h, if_pos (h2 h), if_pos (h2 h)]
  · rw [if_neg h, if_neg h3, if_neg (fun e => h (by rw [e]; exact List.prefix_rfl))]

theorem refTo_cls {s c : String} (h1 : c ≠ "") (h2 : ¬ lcm.toList <+: c.toList) (h3 : s ++ "-" ++ c ≠ lcm) :
    refTo s c = s ++ "-" ++ c := by
  unfold refTo
  rw [if_neg h1, if_neg h2, if_neg h3]

section
variable {db : String → Except Err CpSet} {ds : List Doc} {d : Doc} {tcM tc : List (String × List Nat)} {w : NWorld}
  (hf : Fit ds tcM d tc) (hw : Meaning db tcM (mNodes ds) w)
include hf hw

theorem same_cls {e : Node} (he : e ∈ d.es) (hc : isCls e = true) (refs : List String) :
    SameCls (inClass d.script refs) (worldIn d tc w).sets w.sets e := by
  intro x hx ht
  refine ⟨fun c hb y => ?_, fun t hb y => ?_⟩
  · obtain ⟨h1, h2⟩ := hf.clsRef e he hc x hx ht c hb
    rw [world_name h2, show inClass d.script refs "by-ref" c = clsTo d.script c from rfl, clsTo, if_neg h1]
  · rw [show inClass d.script refs "from-tag" t = tagTo d.script t from rfl, hw.tag]
    exact hf.tags e he (.inl hc) x hx ht t hb y

theorem same_rule {e : Node} (he : e ∈ d.es) (hc : isRule e = true) (n : String) (refs : List String) :
    SameRule (inRule d.script n refs) (worldIn d tc w) w e := by
  refine ⟨fun x hx ht => ⟨fun c hb y => ?_, fun t hb y => ?_⟩, fun x hx ht r hb i j => ?_⟩
  · obtain ⟨h1, h2, h3, h4⟩ := hf.inRef e he hc x hx ht c hb
    rw [world_name h2, show inRule d.script n refs "by-ref" c = refTo d.script c from rfl, refTo_cls h1 h3 h4]
  · rw [show inRule d.script n refs "from-tag" t = tagTo d.script t from rfl, hw.tag]
    exact hf.tags e he (.inr hc) x hx ht t hb y
  · obtain ⟨h1, h2, h3⟩ := hf.ruleRef e he hc x hx ht r hb
    rw [show inRule d.script n refs "by-ref" r = refTo d.script r from rfl, refTo_rule h1 h2 h3]
    exact Iff.rfl

end

theorem same_plain {g : String → String → String} {w' w : NWorld} {e : Node} (h : Plain e) : SameRule g w' w e := by
  refine ⟨fun x hx ht => ⟨fun c hb => ?_, fun t hb => ?_⟩, fun x hx ht r hb => ?_⟩
  · rw [(h x hx).1] at hb; cases hb
  · rw [(h x hx).2.1] at hb; cases hb
  · rw [(h x hx).1] at hb; cases hb

theorem nameOf_some {e : Node} {n : String} (h : dget e.attrs "name" = some n) : nameOf e = n := by
  unfold nameOf; rw [h]; rfl

theorem same_name {es : List Node} (hd : Distinct es) {e e' : Node} (he : e ∈ es) (he' : e' ∈ es) (hr : isRule e = true)
    (hr' : isRule e' = true) {n : String} (hn : dget e.attrs "name" = some n) (hn' : dget e'.attrs "name" = some n) : e = e' := by
  have h := hd.rule
  unfold ruleNames at h
  have h1 : e ∈ es.filter isRule := List.mem_filter.2 ⟨he, hr⟩
  have h2 : e' ∈ es.filter isRule := List.mem_filter.2 ⟨he', hr'⟩
  generalize es.filter isRule = l at h h1 h2
  clear he he' hr hr' hd
  induction l with
  | nil => cases h1
  | cons a l ih =>
    have key : ∀ x, x ∈ l → dget x.attrs "name" = some n → dget a.attrs "name" = some n → False := by
      intro x hx e1 e2
      rw [List.filterMap_cons_some (f := fun n : Node => dget n.attrs "name") e2, List.nodup_cons] at h
      exact h.1 (List.mem_filterMap.2 ⟨x, hx, e1⟩)
    rcases List.mem_cons.1 h1 with k1 | k1 <;> rcases List.mem_cons.1 h2 with k2 | k2
    · rw [k1, k2]
    · exact (key _ k2 hn' (k1 ▸ hn)).elim
    · exact (key _ k1 hn (k2 ▸ hn')).elim
    · refine ih ?_ k1 k2
      rw [List.filterMap_cons] at h
      cases hx : dget a.attrs "name" with
      | none => rw [hx] at h; exact h
      | some m => rw [hx] at h; exact (List.nodup_cons.1 h).2

/-- The rule of the merged LGR for a rule of an LGR. -/
theorem rule_there {ds : List Doc} {d : Doc} (hd : d ∈ ds) {tcM tc : List (String × List Nat)} (hf : Fit ds tcM d tc)
    (hdist : Distinct d.es) {e : Node} (he : e ∈ d.es) (hr : isRule e = true) {n : String}
    (hn : dget e.attrs "name" = some n) :
    ∃ e', e' ∈ mNodes ds ∧ isRule e' = true ∧ dget e'.attrs "name" = some (ruleName d.script n) ∧
      ((∃ refs, e' = mapNode (inRule d.script n refs) e) ∨
       (n = lcm ∧ Plain e ∧ ∃ s n0 refs e0, e' = mapNode (inRule s n0 refs) e0 ∧ Plain e0 ∧ isRule e0 = true ∧
          e0.children = e.children)) := by
  obtain ⟨c, hc, hc1⟩ := mRules_has hd he hr
  obtain ⟨d0, hd0, e0, he0, hr0, s0, refs, hu, h1, h2⟩ := mRules_from hc
  rw [nameOf_some hn] at hc1
  have hd' : ∃ d', d' = d0 := ⟨_, rfl⟩
  obtain ⟨n0, hn0⟩ : ∃ n0, dget e0.attrs "name" = some n0 ∨ dget e0.attrs "name" = none ∧ n0 = "" := by
    cases h : dget e0.attrs "name" with
    | none => exact ⟨"", .inr ⟨rfl, rfl⟩⟩
    | some m => exact ⟨m, .inl rfl⟩
  have hr' : isRule c.2 = true := by rw [h2, map_isRule (inRule_keeps _ _ _)]; exact hr0
  have hmem : c.2 ∈ mNodes ds := (mNodes_rule hr').2 (List.mem_map_of_mem hc)
  rcases hf.unique d0 hd0 e0 he0 hr0 s0 hu n (h1.symm.trans hc1) with ⟨rfl, g1, g2⟩ | ⟨rfl, g1, g2⟩
  · obtain ⟨m, hm⟩ := Option.isSome_iff_exists.1 (hf.named e0 g2 hr0)
    rw [nameOf_some hm] at g1
    subst g1
    have := same_name hdist he g2 hr hr0 hn hm
    subst this
    rw [nameOf_some hn] at h2
    refine ⟨c.2, hmem, hr', ?_, .inl ⟨refs, h2⟩⟩
    rw [h2, map_attr (inRule_keeps _ _ _), hn, Option.map_some,
      show inRule d.script m refs "name" m = nameTo d.script m m from rfl, nameTo, if_pos rfl, ruleName_eq]
  · obtain ⟨p1, p2⟩ := g2 e he hr (nameOf_some hn)
    have hnm : nameOf e0 = lcm ∨ nameOf e0 ≠ lcm := em _
    refine ⟨c.2, hmem, hr', ?_, .inr ⟨rfl, p1, s0, _, refs, e0, h2, g1, hr0, p2.symm⟩⟩
    rcases hn0 with hn0 | ⟨hn0, -⟩
    · rw [h2, map_attr (inRule_keeps _ _ _), hn0, nameOf_some hn0, Option.map_some,
        show inRule s0 n0 refs "name" n0 = nameTo s0 n0 n0 from rfl, nameTo, if_pos rfl, ← ruleName_eq, ← hc1, h1,
        nameOf_some hn0]
    · exfalso
      have : nameOf e0 = "" := by unfold nameOf; rw [hn0]; rfl
      rw [this] at h1
      rw [h1, ruleName_eq, ruleName_eq, if_neg (by decide), if_pos rfl] at hc1
      have h3 : (s0 ++ "-" ++ "").toList = ("Common-" ++ lcm).toList := by rw [hc1]
      have h4 := congrArg List.getLast? h3
      rw [pre_toList] at h4
      simp at h4
      revert h4
      decide

/-- The rules, classes and tags of an LGR mean in the merged LGR what they mean in the LGR. -/
theorem merged_meaning {db : String → Except Err CpSet} {ds : List Doc} {d : Doc} (hd : d ∈ ds)
    {tcM tc : List (String × List Nat)} (hf : Fit ds tcM d tc) (hdist : Distinct d.es) {w : NWorld}
    (hw : Meaning db tcM (mNodes ds) w) : Meaning db tc d.es (worldIn d tc w) := by
  refine ⟨fun t x => Iff.rfl, fun t cps ht x => ?_, fun e he hc n hn x => ?_, fun e he hr n hn i j => ?_⟩
  · constructor
    · rintro (⟨t', e, cps', h1, h2⟩ | ⟨h, -⟩)
      · rw [← tag_eq e, ht] at h1
        cases h1
        exact h2
      · exact absurd ⟨t, rfl⟩ h
    · exact fun hx => .inl ⟨t, rfl, cps, ht, hx⟩
  · have hnt : ¬ IsTagName n := by
      rintro ⟨t, ht⟩
      refine hdist.tag n ?_ t ht
      unfold classNames
      exact List.mem_filterMap.2 ⟨e, List.mem_filter.2 ⟨he, hc⟩, hn⟩
    have hmem : mapNode (inClass d.script (refsOf d.map e)) e ∈ mNodes ds := by
      unfold mNodes mClasses
      rw [List.mem_append, List.mem_append, List.mem_flatMap]
      exact .inl (.inl ⟨d, hd, List.mem_map_of_mem (List.mem_filter.2 ⟨he, hc⟩)⟩)
    obtain ⟨h1, h2⟩ := hf.clsName e he hc n hn
    have hnm : dget (mapNode (inClass d.script (refsOf d.map e)) e).attrs "name" = some (d.script ++ "-" ++ n) := by
      rw [map_attr (inClass_keeps _ _), hn, Option.map_some,
        show inClass d.script (refsOf d.map e) "name" n = tagTo d.script n from rfl, tagTo, if_neg (by simp [h1, h2])]
    rw [world_name hnt, hw.cls _ hmem (by rw [map_isCls (inClass_keeps _ _)]; exact hc) _ hnm,
      set_map (inClass_keeps _ _) e (same_cls hf hw he hc _)]
  · obtain ⟨e', h1, h2, h3, h4⟩ := rule_there hd hf hdist he hr hn
    have := hw.rule e' h1 h2 _ h3 i j
    change w.rule (ruleName d.script n) i j ↔ _
    rw [this]
    rcases h4 with ⟨refs, rfl⟩ | ⟨-, p, s, n0, refs, e0, rfl, p0, hr0, hch⟩
    · rw [rholds_map (inRule_keeps _ _ _) (w' := worldIn d tc w) (w := w) rfl rfl (by simpa [isRule] using hr)
        (same_rule hf hw he hr _ _)]
    · rw [← rholds_map (inRule_keeps _ _ _) (w' := worldIn d tc w) (w := w) rfl rfl (by simpa [isRule] using hr0) (same_plain p0)]
      unfold RHolds
      rw [(p e .self).1, (p0 e0 .self).1, hch]

/-! ## Matching -/

theorem solid_children {db : String → Except Err CpSet} {w : NWorld} {e e0 : Node} (hr : isRule e = true)
    (hr0 : isRule e0 = true) (hb : dget e.attrs "by-ref" = none) (hb0 : dget e0.attrs "by-ref" = none)
    (hch : e0.children = e.children) (h : Solid db w e0) : Solid db w e := by
  intro d hd
  cases hd with
  | self =>
    have g := h e0 .self
    have t : e.tag = "rule" := by simpa [isRule] using hr
    refine ⟨fun ht => ?_, fun ht => ?_, fun _ _ => ?_, fun hc => ?_⟩
    · rw [t] at ht; exact absurd ht (by decide)
    · rw [t] at ht; exact absurd ht (by decide)
    · rw [← hch]; exact g.2.2.1 (by simpa [isRule] using hr0) hb0
    · rw [not_cls_of_rule hr] at hc; cases hc
  | child _ c h0 hc hd => exact h d (.child _ c (not_cls_of_rule hr0) (hch ▸ hc) hd)

theorem merged_solid {db : String → Except Err CpSet} {ds : List Doc} {d : Doc} (hd : d ∈ ds)
    {tcM tc : List (String × List Nat)} (hf : Fit ds tcM d tc) (hdist : Distinct d.es) {w : NWorld}
    (hw : Meaning db tcM (mNodes ds) w) (hso : ∀ e ∈ mNodes ds, isRule e = true → Solid db w e) :
    ∀ e ∈ d.es, isRule e = true → Solid db (worldIn d tc w) e := by
  intro e he hr
  obtain ⟨n, hn⟩ := Option.isSome_iff_exists.1 (hf.named e he hr)
  obtain ⟨e', h1, h2, -, h4⟩ := rule_there hd hf hdist he hr hn
  rcases h4 with ⟨refs, rfl⟩ | ⟨-, p, s, n0, refs, e0, rfl, p0, hr0, hch⟩
  · exact solid_map (inRule_keeps _ _ _) (same_rule hf hw he hr _ _) (hso _ h1 h2)
  · exact solid_children hr hr0 (p e .self).1 (p0 e0 .self).1 hch
      (solid_map (inRule_keeps _ _ _) (w' := worldIn d tc w) (same_plain p0) (hso _ h1 h2))

theorem plain_noAnchor {g : String → String → String} (hg : Keeps g) {es : List Node} : ∀ n, Plain n → NoAnchor es (mapNode g n) := by
  apply node_ind
  intro tag attrs text children ih h
  refine .mk _ (by rw [map_tag hg]; exact (h _ .self).2.2) ?_ ?_
  · intro c hc
    rw [map_children hg, List.mem_map] at hc
    obtain ⟨c0, h0, rfl⟩ := hc
    exact ih c0 h0 (fun x hx => h x (.child _ c0 h0 hx))
  · intro _ r hb
    rw [map_attr hg, (h _ .self).1] at hb
    cases hb

/-- Rules without anchors have none in the merged LGR. -/
theorem merged_noAnchor {ds : List Doc} {d : Doc} {tcM tc : List (String × List Nat)} (hf : Fit ds tcM d tc)
    {n : Node} (hna : NoAnchor d.es n) :
    (∀ x, Within x n → x.tag = "rule" → ∀ r, dget x.attrs "by-ref" = some r →
      r ≠ "" ∧ (lcm.toList <+: r.toList → r = lcm) ∧ d.script ++ "-" ++ r ≠ lcm) →
    ∀ m refs, NoAnchor (mNodes ds) (mapNode (inRule d.script m refs) n) := by
  induction hna with
  | mk n h1 _ _ ih1 ih2 =>
    intro hok m refs
    have hk := inRule_keeps d.script m refs
    refine .mk _ (by rw [map_tag hk]; exact h1) ?_ ?_
    · intro c hc
      rw [map_children hk, List.mem_map] at hc
      obtain ⟨c0, h0, rfl⟩ := hc
      exact ih1 c0 h0 (fun x hx => hok x (.child _ c0 h0 hx)) m refs
    · intro ht r' hb e' he' hr' hn'
      rw [map_tag hk] at ht
      rw [map_attr hk, Option.map_eq_some_iff] at hb
      obtain ⟨r, hr, rfl⟩ := hb
      obtain ⟨o1, o2, o3⟩ := hok n .self ht r hr
      rw [show inRule d.script m refs "by-ref" r = refTo d.script r from rfl, refTo_rule o1 o2 o3] at hn'
      rw [mNodes_rule hr', List.mem_map] at he'
      obtain ⟨c, hc, rfl⟩ := he'
      obtain ⟨d0, hd0, e0, he0, hr0, s0, refs0, hu, g1, g2⟩ := mRules_from hc
      have hname : ruleName s0 (nameOf e0) = ruleName d.script r := by
        rw [g2, map_attr (inRule_keeps _ _ _), Option.map_eq_some_iff] at hn'
        obtain ⟨n0, q1, q2⟩ := hn'
        rw [nameOf_some q1] at q2 ⊢
        rw [show inRule s0 n0 refs0 "name" n0 = nameTo s0 n0 n0 from rfl, nameTo, if_pos rfl, ← ruleName_eq] at q2
        exact q2
      rw [g2]
      rcases hf.unique d0 hd0 e0 he0 hr0 s0 hu r hname with ⟨rfl, k1, k2⟩ | ⟨rfl, k1, -⟩
      · obtain ⟨n0, q1⟩ := Option.isSome_iff_exists.1 (hf.named e0 k2 hr0)
        have : n0 = r := by rw [← k1, nameOf_some q1]
        subst this
        exact ih2 ht n0 hr e0 k2 hr0 q1 (hf.ruleRef e0 k2 hr0) _ _
      · exact plain_noAnchor (inRule_keeps _ _ _) e0 k1

/-- A rule of an LGR and the rule of the merged LGR match the same labels. -/
theorem merged_rule_matches {P : Parser} {ds : List Doc} {d : Doc} (hd : d ∈ ds) {tcM tc : List (String × List Nat)}
    {rs rsM : RuleState} (hr : Read P tc d.es rs) (hm : Read P tcM (mNodes ds) rsM) (hf : Fit ds tcM d tc)
    {w : NWorld} (hw : Meaning P.db tcM (mNodes ds) w) (hlen : w.label.length ≤ labelMax)
    (hnl : ∀ x ∈ w.label, Re.newline x = false) (hso : ∀ e ∈ mNodes ds, isRule e = true → Solid P.db w e)
    {e : Node} (he : e ∈ d.es) (her : isRule e = true) {n : String} (hn : dget e.attrs "name" = some n)
    (hfree : NoAnchor d.es e) :
    ∃ fuel0, ∀ fuel, fuel0 ≤ fuel → ∀ qs qs' anc index, (anc = none → index = 0) →
      ∃ b, ((asked P.db rs qs).matches_ P.db fuel n w.label anc index).2 = .ok b ∧
        ((asked P.db rsM qs').matches_ P.db fuel (ruleName d.script n) w.label anc index).2 = .ok b := by
  obtain ⟨e', h1, h2, h3, h4⟩ := rule_there hd hf hr.distinct he her hn
  have hw' := merged_meaning hd hf hr.distinct hw
  have hfree' : NoAnchor (mNodes ds) e' := by
    rcases h4 with ⟨refs, rfl⟩ | ⟨-, p, s, n0, refs, e0, rfl, p0, hr0, hch⟩
    · exact merged_noAnchor hf hfree (hf.ruleRef e he her) _ _
    · exact plain_noAnchor (inRule_keeps _ _ _) _ p0
  obtain ⟨f1, k1⟩ := document_rule_exact hr hw' hlen hnl (merged_solid hd hf hr.distinct hw hso) he her hn hfree
  obtain ⟨f2, k2⟩ := document_rule_exact hm hw hlen hnl hso h1 h2 h3 hfree'
  refine ⟨max f1 f2, fun fuel hle qs qs' anc index hidx => ?_⟩
  obtain ⟨b, b1, b2⟩ := k1 fuel (by omega) qs anc index hidx
  obtain ⟨b', b1', b2'⟩ := k2 fuel (by omega) qs' anc index hidx
  have e1 : ∀ i j, RHolds P.db (worldIn d tc w) e i j ↔ RHolds P.db w e' i j := by
    intro i j
    rw [← hw'.rule e he her n hn i j, ← hw.rule e' h1 h2 _ h3 i j]
    exact Iff.rfl
  have : b = true ↔ b' = true := by
    rw [b2, b2']
    simp only [e1]
    rfl
  have : b = b' := by
    cases b <;> cases b' <;> simp at this ⊢
  subst this
  exact ⟨b, b1, b1'⟩

/-- A rule with an anchor between look-arounds matches the same at all positions. -/
theorem merged_context_matches {P : Parser} {ds : List Doc} {d : Doc} (hd : d ∈ ds) {tcM tc : List (String × List Nat)}
    {rs rsM : RuleState} (hr : Read P tc d.es rs) (hm : Read P tcM (mNodes ds) rsM) (hf : Fit ds tcM d tc)
    {w : NWorld} (hw : Meaning P.db tcM (mNodes ds) w) (hlen : w.label.length ≤ labelMax)
    (hnl : ∀ x ∈ w.label, Re.newline x = false) (hso : ∀ e ∈ mNodes ds, isRule e = true → Solid P.db w e)
    {e : Node} (he : e ∈ d.es) (her : isRule e = true) {n : String} (hn : dget e.attrs "name" = some n)
    (hbr : dget e.attrs "by-ref" = none) {pre post : List Node} {a0 : Node} (hch : e.children = pre ++ a0 :: post)
    (ha0 : a0.tag = "anchor")
    (har : ∀ x ∈ pre ++ post, NoAnchor d.es x ∧ (x.tag = "look-ahead" ∨ x.tag = "look-behind")) :
    ∃ fuel0, ∀ fuel, fuel0 ≤ fuel → ∀ qs qs' a index, index ≤ w.label.length →
      ∃ b, ((asked P.db rs qs).matches_ P.db fuel n w.label (some a) index).2 = .ok b ∧
        ((asked P.db rsM qs').matches_ P.db fuel (ruleName d.script n) w.label (some a) index).2 = .ok b := by
  obtain ⟨e', h1, h2, h3, h4⟩ := rule_there hd hf hr.distinct he her hn
  have hw' := merged_meaning hd hf hr.distinct hw
  rcases h4 with ⟨refs, rfl⟩ | ⟨-, p, -⟩
  rotate_left
  · exact absurd ha0 (p a0 (.child _ a0 (by rw [hch]; simp) .self)).2.2
  have hk := inRule_keeps d.script n refs
  have within : ∀ x ∈ pre ++ post, ∀ y, Within y x → Within y e := by
    intro x hx y hy
    refine .child _ x ?_ hy
    rw [hch]
    rcases List.mem_append.1 hx with hx | hx <;> simp [hx]
  obtain ⟨f1, k1⟩ := document_context_exact hr hw' hlen hnl (merged_solid hd hf hr.distinct hw hso) he her hn hbr hch ha0 har
  obtain ⟨f2, k2⟩ := document_context_exact hm hw hlen hnl hso h1 h2 h3 (by rw [map_attr hk, hbr]; rfl)
    (pre := pre.map (mapNode (inRule d.script n refs))) (post := post.map (mapNode (inRule d.script n refs)))
    (a0 := mapNode (inRule d.script n refs) a0) (by rw [map_children hk, hch]; simp) (by rw [map_tag hk]; exact ha0) (by
      intro x hx
      rw [← List.map_append, List.mem_map] at hx
      obtain ⟨y, hy, rfl⟩ := hx
      refine ⟨merged_noAnchor hf (har y hy).1 (fun z hz => hf.ruleRef e he her z (within y hy z hz)) _ _, ?_⟩
      rw [map_tag hk]
      exact (har y hy).2)
  refine ⟨max f1 f2, fun fuel hle qs qs' a index hidx => ?_⟩
  obtain ⟨b, b1, b2⟩ := k1 fuel (by omega) qs a index hidx
  obtain ⟨b', b1', b2'⟩ := k2 fuel (by omega) qs' a index hidx
  have hs := same_rule hf hw he her n refs
  have e1 : ∀ x ∈ pre ++ post, NHolds P.db (worldIn d tc w) x = NHolds P.db w (mapNode (inRule d.script n refs) x) := by
    intro x hx
    refine holds_map hk (w' := worldIn d tc w) (w := w) rfl rfl x (hs.child ?_)
    rw [hch]
    rcases List.mem_append.1 hx with hx | hx <;> simp [hx]
  have : b = true ↔ b' = true := by
    rw [b2, b2']
    simp only [List.forall_mem_map]
    have g1 : (∀ x ∈ pre, NHolds P.db (worldIn d tc w) x index index) ↔
        ∀ x ∈ pre, NHolds P.db w (mapNode (inRule d.script n refs) x) index index :=
      forall₂_congr (fun x hx => by rw [e1 x (List.mem_append_left _ hx)])
    have g2 : (∀ x ∈ post, NHolds P.db (worldIn d tc w) x (index + a.length) (index + a.length)) ↔
        ∀ x ∈ post, NHolds P.db w (mapNode (inRule d.script n refs) x) (index + a.length) (index + a.length) :=
      forall₂_congr (fun x hx => by rw [e1 x (List.mem_append_right _ hx)])
    rw [g1, g2]
    rfl
  have : b = b' := by
    cases b <;> cases b' <;> simp at this ⊢
  subst this
  exact ⟨b, b1, b1'⟩

end Lgr.Props.C117

import Verif.Props.DumpAny
import Verif.Props.LongestMatch
import Verif.Props.Disposition
import Verif.Props.DocLabels

/-!
# C164: the labels accepted under a table
-/

namespace Lgr.Props.C164
open Lgr LGR Repertoire Text Tables DumpTool TableItems TableSyntax C104 C142

/-! ## Specification -/

/-- A row of the table has this base. -/
def Base (items : List Item) (k : Seq) : Prop := ∃ refs, .base k refs ∈ items

/-- `ks` is what one gets by taking from the label, from offset `o` to `e`, the longest base which stands there, again and again. -/
inductive Cut (items : List Item) (label : Seq) : Nat → List Seq → Nat → Prop
  | done (o : Nat) : Cut items label o [] o
  | step {o e : Nat} {k : Seq} {ks : List Seq} : Base items k → k <+: label.drop o →
      (∀ k', Base items k' → k' <+: label.drop o → k'.length ≤ k.length) → Cut items label (o + k.length) ks e →
      Cut items label o (k :: ks) e

/-- `v` is a variant of the base `s`, of this type: the first row which says so, after a row with this base, counts. -/
def VariantIn (items : List Item) (s v : Seq) (t : Option String) : Prop :=
  ∃ pre refs post, items = pre ++ .var s v t refs :: post ∧ Base pre s ∧
    ∀ pre' t' refs' post', pre = pre' ++ .var s v t' refs' :: post' → ¬ Base pre' s

/-- Some base which occurs in the label is a variant of itself, of this type. -/
def SelfTyped (items : List Item) (label : Seq) (t : Option String) : Prop :=
  ∃ o < label.length, ∃ s, s <+: label.drop o ∧ VariantIn items s s t

/-- A label is accepted exactly when it can be cut from its beginning to its end by taking the longest base of the table which stands
there, again and again; a label which cannot is `invalid`; one which can is `activated` if some base in it is a variant of itself and
all such variants have the type `activated`, else `valid`. -/
structure Judged (items : List Item) (label : Seq) (el : FullEnv.Eligible) : Prop where
  ok : el.ok = true ↔ ∃ ks, Cut items label 0 ks label.length
  invalid : (¬ ∃ ks, Cut items label 0 ks label.length) → el.disp = some "invalid"
  activated : (∃ ks, Cut items label 0 ks label.length) → (∃ t, SelfTyped items label t) →
    (∀ t, SelfTyped items label t → t = some "activated") → el.disp = some "activated"
  valid : (∃ ks, Cut items label 0 ks label.length) →
    ¬ ((∃ t, SelfTyped items label t) ∧ ∀ t, SelfTyped items label t → t = some "activated") → el.disp = some "valid"

/-! ## Proofs -/

theorem base_good {digit : Char → Bool} {k : Table} {lines : List (List Char)} {items : List Item}
    (h : ReadOf digit k lines items) {s : Seq} {refs : List String} (hi : .base s refs ∈ items) (valid : String → Bool) (pre : List Item) :
    RefsGood valid (forced k) pre refs := by
  cases k with
  | rfc4290 => exact .inl rfl
  | rfc3743 => exact .inl rfl
  | lines =>
    obtain ⟨itss, rfl, h⟩ := h
    obtain ⟨its, h1, h2⟩ := List.mem_flatten.1 hi
    have : refs = [] := by
      clear hi
      induction h with
      | nil => cases h1
      | cons h3 _ ih =>
        rcases List.mem_cons.1 h1 with rfl | h1
        · cases h3 <;> simp at h2
          all_goals first | exact h2.2 | (obtain ⟨_, h2⟩ := h2; exact h2)
        · exact ih h1
    subst this
    exact .inr ⟨by simp, List.nodup_nil⟩

theorem var_good {digit : Char → Bool} {k : Table} {lines : List (List Char)} {items : List Item}
    (h : ReadOf digit k lines items) {s v : Seq} {t : Option String} {refs : List String} (hi : .var s v t refs ∈ items)
    (valid : String → Bool) (pre : List Item) : RefsGood valid (forced k) pre refs := by
  cases k with
  | rfc4290 => exact .inl rfl
  | rfc3743 => exact .inl rfl
  | lines =>
    exfalso
    obtain ⟨itss, rfl, h⟩ := h
    obtain ⟨its, h1, h2⟩ := List.mem_flatten.1 hi
    clear hi
    induction h with
    | nil => cases h1
    | cons h3 _ ih =>
      rcases List.mem_cons.1 h1 with rfl | h1
      · cases h3 <;> simp at h2
      · exact ih h1

theorem base_iff {digit : Char → Bool} {k : Table} {lines : List (List Char)} {items : List Item}
    (h : ReadOf digit k lines items) {its : List Item} (hsub : ∀ it ∈ its, it ∈ items) (valid : String → Bool) (s : Seq) :
    Base its s ↔ ∃ pre it, First (IsBase valid (forced k) s) its pre it := by
  constructor
  · rintro ⟨refs, hm⟩
    obtain ⟨pre, post, rfl⟩ := List.append_of_mem hm
    exact first_of_mem rfl ⟨refs, rfl, base_good h (hsub _ hm) valid pre⟩
  · rintro ⟨pre, it, ⟨post, rfl⟩, ⟨refs, rfl, -⟩, -⟩
    exact ⟨refs, by simp⟩

section
variable {valid : String → Bool} {digit : Char → Bool} {k : Table} {lines : List (List Char)} {items : List Item} {g : LGR}

theorem stands_iff (h : ReadOf digit k lines items) (hs : Says valid (forced k) items g) (env : Env) (label : Seq) (o : Nat) (s : Seq) :
    (∃ c, c.cp = s ∧ C152.Stands env g.rep label o c) ↔ Base items s ∧ s <+: label.drop o := by
  constructor
  · rintro ⟨c, rfl, ⟨h1, h2⟩, -⟩
    obtain ⟨-, -, ⟨pre, refs, hf, -⟩, -⟩ := hs.entry _ c (getChar_ok.1 h1)
    exact ⟨(base_iff h (fun _ h => h) valid _).2 ⟨_, _, hf⟩, h2⟩
  · rintro ⟨hb, hp⟩
    obtain ⟨c, hc⟩ := Option.isSome_iff_exists.1 (hs.all s ((base_iff h (fun _ h => h) valid s).1 hb))
    obtain ⟨h1, -, ⟨pre, refs, -, ha⟩, -⟩ := hs.entry _ c hc
    subst h1
    refine ⟨c, rfl, ⟨getChar_ok.2 hc, hp⟩, ?_⟩
    unfold CharCtx CtxHolds
    rw [ha]
    simp

theorem cut_iff (h : ReadOf digit k lines items) (hs : Says valid (forced k) items g) (env : Env) (label : Seq) (o e : Nat) :
    (∃ cs, C152.Cut env g.rep label o cs e) ↔ ∃ ks, Cut items label o ks e := by
  constructor
  · rintro ⟨cs, hc⟩
    induction hc with
    | done o => exact ⟨[], .done o⟩
    | step h1 h2 _ ih =>
      obtain ⟨ks, ih⟩ := ih
      obtain ⟨hb, hp⟩ := (stands_iff h hs env label _ _).1 ⟨_, rfl, h1⟩
      refine ⟨_, .step hb hp (fun k' hb' hp' => ?_) ih⟩
      obtain ⟨d, rfl, hd⟩ := (stands_iff h hs env label _ _).2 ⟨hb', hp'⟩
      exact h2 d hd
  · rintro ⟨ks, hc⟩
    induction hc with
    | done o => exact ⟨[], .done o⟩
    | step h1 h2 h3 _ ih =>
      obtain ⟨cs, ih⟩ := ih
      obtain ⟨c, rfl, hc⟩ := (stands_iff h hs env label _ _).2 ⟨h1, h2⟩
      refine ⟨_, .step hc (fun d hd => ?_) ih⟩
      obtain ⟨hb, hp⟩ := (stands_iff h hs env label _ _).1 ⟨_, rfl, hd⟩
      exact h3 _ hb hp

theorem rules_defined (hs : Says valid (forced k) items g) (env : Env) : RulesDefined env g.rep := by
  constructor
  · intro c hc w hw
    obtain ⟨-, -, ⟨_, _, -, ha⟩, -⟩ := hs.entry _ c (getChar_ok.1 hc)
    rw [ha] at hw
    simp at hw
  · intro c hc v hv w hw
    obtain ⟨-, -, -, hu, -⟩ := hs.entry _ c (getChar_ok.1 hc)
    obtain ⟨_, _, _, _, -, rfl⟩ := (hu v).1 hv
    simp at hw

theorem var_iff (h : ReadOf digit k lines items) (valid : String → Bool) (s v : Seq) (t : Option String) :
    (∃ u, VarOf valid (forced k) items s u ∧ u.cp = v ∧ u.type = t) ↔ VariantIn items s v t := by
  constructor
  · rintro ⟨u, ⟨pre, v', t', refs, ⟨⟨post, hpost⟩, ⟨_, _, _, _, hb⟩, hfirst⟩, rfl⟩, he, ht⟩
    obtain rfl : v' = v := he
    obtain rfl : t' = t := ht
    have hsub : ∀ it ∈ pre, it ∈ items := fun it hi => by rw [hpost]; simp [hi]
    refine ⟨pre, refs, post, hpost, (base_iff h hsub valid s).2 hb, fun pre' t2 refs' post' hp hb' => ?_⟩
    refine hfirst pre' _ post' hp ⟨t2, refs', rfl, var_good (s := s) (v := v') (t := t2) h (hsub _ (by rw [hp]; simp)) valid pre', ?_⟩
    exact (base_iff h (fun it hi => hsub it (by rw [hp]; simp [hi])) valid s).1 hb'
  · rintro ⟨pre, refs, post, hpost, hb, hfirst⟩
    have hsub : ∀ it ∈ pre, it ∈ items := fun it hi => by rw [hpost]; simp [hi]
    refine ⟨_, ⟨pre, v, t, refs, ⟨⟨post, hpost⟩, ⟨t, refs, rfl, var_good (s := s) (v := v) (t := t) h (by rw [hpost]; simp) valid pre,
      (base_iff h hsub valid s).1 hb⟩, ?_⟩, rfl⟩, rfl, rfl⟩
    rintro pre' _ post' hp ⟨t2, refs2, rfl, -, hb2⟩
    exact hfirst pre' t2 refs2 post' hp ((base_iff h (fun it hi => hsub it (by rw [hp]; simp [hi])) valid s).2 hb2)

theorem variant_base {s v : Seq} {t : Option String} (h : VariantIn items s v t) : Base items s := by
  obtain ⟨pre, refs, post, hpost, ⟨r, hb⟩, -⟩ := h
  exact ⟨r, by rw [hpost]; simp [hb]⟩

theorem self_iff (h : ReadOf digit k lines items) (hs : Says valid (forced k) items g) (env : Env) (label : Seq) (t : Option String) :
    (∃ j c v, j < label.length ∧ MatchesAt g.rep label j c ∧ CharCtx env label j c ∧ ReflexiveAt env label j c v ∧ v.type = t) ↔
      SelfTyped items label t := by
  constructor
  · rintro ⟨j, c, v, hj, hm, -, ⟨hv, he, -⟩, ht⟩
    obtain ⟨-, -, -, hu, -⟩ := hs.entry _ c (getChar_ok.1 hm.1)
    exact ⟨j, hj, c.cp, hm.2, (var_iff h valid c.cp c.cp t).1 ⟨v, (hu v).1 hv, he, ht⟩⟩
  · rintro ⟨j, hj, s, hp, hv⟩
    have hb := variant_base hv
    obtain ⟨u, hu, he, ht⟩ := (var_iff h valid s s t).2 hv
    obtain ⟨c, rfl, hm, hc⟩ := (stands_iff h hs env label j s).2 ⟨hb, hp⟩
    obtain ⟨-, -, -, hv, -⟩ := hs.entry _ c (getChar_ok.1 hm.1)
    refine ⟨j, c, u, hj, hm, hc, ⟨(hv u).2 hu, he, ?_⟩, ht⟩
    obtain ⟨_, _, _, _, -, rfl⟩ := hu
    simp [CtxHolds]

theorem accepted_iff (h : ReadOf digit k lines items) (hs : Says valid (forced k) items g) (hwf : WF g.rep) (env : FullEnv)
    (label : Seq) : Accepted env g.rep label ↔ ∃ ks, Cut items label 0 ks label.length := by
  obtain ⟨p, hp⟩ := prelim_defined hwf (rules_defined hs env.toEnv) label
  rw [← cut_iff h hs env.toEnv]
  constructor
  · rintro ⟨p', hp', hok⟩
    exact ⟨_, (C152.accepts_iff hwf hp' _).1 ⟨hok, rfl⟩⟩
  · rintro ⟨cs, hc⟩
    exact ⟨p, hp, ((C152.accepts_iff hwf hp cs).2 hc).1⟩

end

theorem self_type {digit : Char → Bool} {k : Table} {lines : List (List Char)} {items : List Item} (hsrc : Source digit k lines items)
    {label : Seq} {t : Option String} (h : SelfTyped items label t) : t = none ∨ t = some "activated" := by
  obtain ⟨_, _, s, _, pre, refs, post, hp, -⟩ := h
  exact hsrc.types s s t refs (by rw [hp]; simp)

/-- The default actions, when no type but `activated` occurs. -/
theorem decides_default {env : FullEnv} {label : Seq} {d : DispSet} {only : Bool} {s : String} {i : Int}
    (h : Decides env [] label d only s i) (hd : ∀ t ∈ d, t = none ∨ t = some "activated") :
    s = if d ≠ [] ∧ ∀ t ∈ d, t = some "activated" then "activated" else "valid" := by
  have h' := decides_iff.2 h
  have hn : ∀ x : String, x ≠ "activated" → some x ∉ d := fun x hx hm => by
    rcases hd _ hm with h | h
    · cases h
    · cases h; exact hx rfl
  have h1 := hn "invalid" (by decide)
  have h2 := hn "blocked" (by decide)
  have h3 := hn "allocatable" (by decide)
  have e : applyActions env [] label d only =
      if d ≠ [] ∧ ∀ t ∈ d, t = some "activated" then .ok (some "activated", 3) else .ok (some "valid", 4) := by
    by_cases hc : d ≠ [] ∧ ∀ t ∈ d, t = some "activated"
    · rw [if_pos hc]
      simp [applyActions, applyLoop, effectiveActions, defaultActions, Action.apply, Action.ruleMatched, Action.variantMatched, h1, h2, h3, hc]
      rw [if_pos hc.2]
    · rw [if_neg hc]
      simp [applyActions, applyLoop, effectiveActions, defaultActions, Action.apply, Action.ruleMatched, Action.variantMatched, h1, h2, h3]
      rw [if_neg hc]
  rw [e] at h'
  split at h'
  · rename_i hc; rw [if_pos hc]; cases h'; rfl
  · rename_i hc; rw [if_neg hc]; cases h'; rfl

theorem judged {digit : Char → Bool} (hd : Digit digit) {k : Table} {lines : List (List Char)} {items : List Item}
    (h : ReadOf digit k lines items) {valid : String → Bool} {g : LGR} (hs : Says valid (forced k) items g) (hwf : WF g.rep)
    (env : FullEnv) {label : Seq} (hl : label ≠ []) : ∃ el, env.testEligible g.rep [] label = .ok el ∧ Judged items label el := by
  have hsrc := source_of_read hd h
  have hdef := rules_defined hs env.toEnv
  obtain ⟨el, he⟩ := C25.testEligible_defined hwf hdef (actions := []) (fun _ _ ha => nomatch ha) false hl
  have hacc := accepted_iff h hs hwf env label
  refine ⟨el, he, ?_⟩
  by_cases ha : Accepted env g.rep label
  · obtain ⟨d, only, s, h1, -, h3, h4, h5⟩ := C49.reflexive_disposition hwf he ha
    have hd' : ∀ t, t ∈ d ↔ SelfTyped items label t := fun t => (h1 t).trans (self_iff h hs env.toEnv label t)
    have h6 := decides_default h3 (fun t ht => self_type hsrc ((hd' t).1 ht))
    have h7 : (d ≠ [] ∧ ∀ t ∈ d, t = some "activated") ↔
        ((∃ t, SelfTyped items label t) ∧ ∀ t, SelfTyped items label t → t = some "activated") := by
      rw [show d ≠ [] ↔ ∃ t, t ∈ d from ⟨List.exists_mem_of_ne_nil d, fun ⟨_, ht⟩ => List.ne_nil_of_mem ht⟩]
      simp only [hd']
    refine ⟨⟨fun _ => hacc.1 ha, fun _ => h5.2 ?_⟩, fun hn => absurd (hacc.1 ha) hn, fun _ hc hc' => ?_, fun _ hc => ?_⟩
    · rw [h6]; split <;> decide
    · rw [h4, h6, if_pos (h7.2 ⟨hc, hc'⟩)]
    · rw [h4, h6, if_neg (fun hx => hc (h7.1 hx))]
  · obtain ⟨h1, h2, -⟩ := C49.rejected_disposition he ha
    exact ⟨⟨fun hx => (by rw [h1] at hx; cases hx), fun hx => absurd (hacc.2 hx) ha⟩, fun _ => h2,
      fun hx => absurd (hacc.2 hx) ha, fun hx => absurd (hacc.2 hx) ha⟩

/-- **C164** Every file which is read, and every label but the empty one. -/
theorem table_labels {digit : Char → Bool} (hd : Digit digit) {k : Table} {lines : List (List Char)} {items : List Item}
    (h : ReadOf digit k lines items) :
    ∃ g, parse digit k lines = (g, .ok ()) ∧ ∀ (env : FullEnv) (label : Seq), label ≠ [] →
      ∃ el, env.testEligible g.rep [] label = .ok el ∧ Judged items label el := by
  have hsrc := source_of_read hd h
  exact ⟨_, hsrc.read, fun env label hl =>
    judged hd h (says_items valid0 (forced k) true items hsrc.proper) (wf_foldl items wf_empty) env hl⟩

theorem doc_wf {R : DocXml.Reader} {cs cs' : Rfc7940.Results} {d : DocXml.Doc} {g : DocXml.Loaded}
    (hp : DocXml.parseDoc R cs d = (cs', .ok (some g))) : WF g.lgr.rep := by
  cases hm : d.metaE with
  | none => exact absurd (by rw [hp]) (C104.no_meta_no_lgr R cs d hm g)
  | some ms =>
    unfold DocXml.parseDoc at hp
    rw [hm] at hp
    dsimp only at hp
    split at hp
    · cases hp
    · split at hp
      · cases hp
      · rename_i p hpd
        split at hp
        · cases hp
        · injection hp with h1 h2
          injection h2 with h2
          injection h2 with h2
          subst h2
          exact (C106.state_data ⟨wf_empty, by intro t l hl; simp [DocXml.newLgr, dget] at hl⟩ hpd).1

/-- **C164** The same is so under the LGR read from the document which the tool prints for the file, with its actions, under the
conditions of C142 (`dump_any_partial`). -/
theorem printed_labels {digit : Char → Bool} (hd : Digit digit) {k : Table} {lines : List (List Char)} {items : List Item}
    (h : ReadOf digit k lines items) (R : DocXml.Reader) (hx : C99.Sound R.x) (hsafe : Safe R.db R.strict R.force)
    (hu : Usable R digit k lines items) :
    ∃ d, DumpTool.run digit k lines = .printed d ∧ ∀ cs, ∃ cs' g, DocXml.parseDoc R cs d = (cs', .ok (some g)) ∧
      ∀ (env : FullEnv) (label : Seq), label ≠ [] →
        ∃ el, env.testEligible g.lgr.rep g.rules.actions label = .ok el ∧ Judged items label el := by
  obtain ⟨d, m, h1, -, h2⟩ := dump_source hd R hx hsafe (source_of_read hd h) hu
  refine ⟨d, h1, fun cs => ?_⟩
  obtain ⟨cs', g, h3, h4, -⟩ := h2 cs
  refine ⟨cs', g, h3, fun env label hl => ?_⟩
  rw [h4.rules.2.1]
  exact judged hd h h4.content (doc_wf h3) env hl

/-! Non-vacuity: a table with a sequence, and a variant of itself; one label which is accepted and one which is not. -/

def table4 : List (List Char) := ["0061;0061".toList, "0062 0063".toList]

def items4 : List Item := [.base [0x61] [], .var [0x61] [0x61] (some "activated") [], .base [0x62, 0x63] []]

theorem read4 : ReadOf digit0 .rfc3743 table4 items4 := by
  refine ⟨some [0x62, 0x63], ?_⟩
  show C161.ReadsAll (rex digit0) none ["0061;0061".toList, "0062 0063".toList]
    (([.base [0x61] [], .var [0x61] [0x61] (some "activated") []]) ++ ([.base [0x62, 0x63] []] ++ [])) (some [0x62, 0x63])
  refine .cons (q := some [0x61]) ?_ (.cons (q := some [0x62, 0x63]) ?_ .nil)
  · have hr : C161.IsRow "0061;0061".toList "0061".toList ["0061".toList] :=
      ⟨_, _, _, "0061".toList, ";0061".toList, trimmed_iff.2 rfl, C161.unit_iff.2 (by decide +kernel), head_upto.2 rfl,
        trimmed_iff.2 rfl, pieces_iff.2 (by decide +kernel)⟩
    exact .row (base := ([0x61], [])) (preferred := [([0x61], [])]) (others := []) hr (C161.finds_iff.2 (by decide +kernel))
      (.inr ⟨_, "0061".toList, some [([0x61], [])], rfl, trimmed_iff.2 (by decide +kernel), by simp, C161.finds_iff.2 (by decide +kernel), rfl⟩)
      (.inl ⟨.inl rfl, rfl⟩)
  · have hr : C161.IsRow "0062 0063".toList "0062 0063".toList [] :=
      ⟨_, _, _, "0062 ".toList, "0063".toList, trimmed_iff.2 rfl, C161.unit_iff.2 (by decide +kernel), head_upto.2 rfl,
        trimmed_iff.2 rfl, pieces_iff.2 (by decide +kernel)⟩
    exact .row (base := ([0x62, 0x63], [])) (preferred := []) (others := []) hr (C161.finds_iff.2 (by decide +kernel))
      (.inl ⟨.inl rfl, rfl⟩) (.inl ⟨.inl rfl, rfl⟩)

theorem base4 {s : Seq} : Base items4 s ↔ s = [0x61] ∨ s = [0x62, 0x63] := by
  constructor
  · rintro ⟨refs, h⟩
    simp [items4] at h
    rcases h with h | h
    · exact .inl h.1
    · exact .inr h.1
  · rintro (rfl | rfl) <;> exact ⟨[], by simp [items4]⟩

theorem cut4 : Cut items4 [0x61, 0x62, 0x63] 0 [[0x61], [0x62, 0x63]] 3 := by
  refine .step (base4.2 (.inl rfl)) (by decide) ?_ (.step (base4.2 (.inr rfl)) (by decide) ?_ (.done _))
  · intro k' hb hp
    rcases base4.1 hb with rfl | rfl
    · decide
    · exact absurd hp (by decide)
  · intro k' hb hp
    rcases base4.1 hb with rfl | rfl <;> decide

theorem not_cut4 : ¬ ∃ ks, Cut items4 [0x62] 0 ks 1 := by
  rintro ⟨ks, h⟩
  cases h with
  | step hb hp _ _ => rcases base4.1 hb with rfl | rfl <;> exact absurd hp (by decide)

theorem self4 : SelfTyped items4 [0x61, 0x62, 0x63] (some "activated") := by
  refine ⟨0, by decide, [0x61], by decide, [.base [0x61] []], [], [.base [0x62, 0x63] []], rfl, ⟨[], by simp⟩, ?_⟩
  rintro pre' t refs post' h
  have : Item.var [0x61] [0x61] t refs ∈ [Item.base [0x61] []] := by rw [h]; simp
  simp at this

theorem only4 (label : Seq) (t : Option String) (h : SelfTyped items4 label t) : t = some "activated" := by
  obtain ⟨_, _, s, _, pre, refs, post, hp, -⟩ := h
  have hm : Item.var s s t refs ∈ items4 := by rw [hp]; exact List.mem_append_right _ List.mem_cons_self
  simp [items4] at hm
  exact hm.2.1

theorem usable4 : Usable (reader0 false) digit0 .rfc3743 table4 items4 := by
  refine ⟨by decide +kernel, fun i v h => ?_, fun s refs h => ⟨fun _ _ h => (by cases h), fun _ => ?_⟩,
    fun s v t refs h => ⟨fun _ _ h => (by cases h), fun _ => ?_⟩, fun _ _ l hl => not_ver ?_⟩
  · simp [items4] at h
  · simp [items4] at h
    rcases h with h | h <;> rw [h.2] <;> decide
  · simp [items4] at h; rw [h.2.2.2]; decide
  · revert l; decide +kernel

example (env : FullEnv) : ∃ g el, parse digit0 .rfc3743 table4 = (g, .ok ()) ∧
    env.testEligible g.rep [] [0x61, 0x62, 0x63] = .ok el ∧ el.ok = true ∧ el.disp = some "activated" := by
  obtain ⟨g, h1, h⟩ := table_labels digit0_ok read4
  obtain ⟨el, h2, hj⟩ := h env [0x61, 0x62, 0x63] (by decide)
  exact ⟨g, el, h1, h2, hj.ok.2 ⟨_, cut4⟩, hj.activated ⟨_, cut4⟩ ⟨_, self4⟩ (only4 _)⟩

example (env : FullEnv) : ∃ g el, parse digit0 .rfc3743 table4 = (g, .ok ()) ∧
    env.testEligible g.rep [] [0x62] = .ok el ∧ el.ok = false ∧ el.disp = some "invalid" := by
  obtain ⟨g, h1, h⟩ := table_labels digit0_ok read4
  obtain ⟨el, h2, hj⟩ := h env [0x62] (by decide)
  refine ⟨g, el, h1, h2, ?_, hj.invalid not_cut4⟩
  cases ho : el.ok with
  | false => rfl
  | true => exact absurd (hj.ok.1 ho) not_cut4

example (env : FullEnv) : ∃ d, DumpTool.run digit0 .rfc3743 table4 = .printed d ∧
    ∃ cs' g el, DocXml.parseDoc (reader0 false) [] d = (cs', .ok (some g)) ∧
      env.testEligible g.lgr.rep g.rules.actions [0x61, 0x62, 0x63] = .ok el ∧ el.disp = some "activated" := by
  obtain ⟨d, h1, h⟩ := printed_labels digit0_ok read4 (reader0 false) C99.x0_sound (.inr (.inl rfl)) usable4
  obtain ⟨cs', g, h2, h⟩ := h []
  obtain ⟨el, h3, hj⟩ := h env [0x61, 0x62, 0x63] (by decide)
  exact ⟨d, h1, cs', g, el, h2, h3, hj.activated ⟨_, cut4⟩ ⟨_, self4⟩ (only4 _)⟩

end Lgr.Props.C164

import Verif.Props.DocVariantsEx
import Verif.Props.LongestMatch

/-!
# C153: the variants of a label under any document, overlapping sequences included
-/

namespace Lgr.Props.C153
open Lgr Xml Text Repertoire LGR RulesXml C103 DocXml C105 C106 C107 C152
open C101 hiding before after
open C111 hiding VarDisp OwnDisp varDisp_of own_of

/-! ## Specification -/

/-- The label is cut into the longest sequences (C152). -/
def Passes (db : String → Except Err CpSet) (is : List C105.Item) (es : List Node) (label : Seq) : Prop :=
  ∃ ks, DocCut db is es label 0 ks label.length

/-- A sequence of an item with mappings, which stands behind `pfx` at the beginning of `rest`, in the context the item asks for. -/
def Mapped (db : String → Except Err CpSet) (is : List C105.Item) (es : List Node) (pfx rest : Seq) (j : C105.Item) (k : Seq) : Prop :=
  j ∈ is ∧ j.Has k ∧ k <+: rest ∧ j.vars ≠ [] ∧
    InContext db is es (pfx ++ rest) j.attrs.whenR j.attrs.notWhenR pfx.length k.length

/-- At each part, the sequences which are tried are those with mappings in their context, those shorter than one of these, and, if there
are none of these, all. -/
def Tries (db : String → Except Err CpSet) (is : List C105.Item) (es : List Node) (us : List Use) : Prop :=
  ∀ pre u post, us = pre ++ u :: post →
    Mapped db is es (after pre) (u.seq ++ before post) u.item u.seq ∨
    (∃ j k, Mapped db is es (after pre) (u.seq ++ before post) j k ∧ u.seq.length < k.length) ∨
    ¬ ∃ j k, Mapped db is es (after pre) (u.seq ++ before post) j k

/-- The disposition of a variant label: invalid if it does not pass or is invalid by itself, otherwise the one of the first action
which fires for the types of the variants used. -/
def VarDisp (db : String → Except Err CpSet) (is : List C105.Item) (es : List Node) (as : List Action) (label : Seq)
    (types : Option String → Prop) (only : Prop) (disp : Option String) (idx : Int) : Prop :=
  (¬ Passes db is es label ∧ disp = some "invalid" ∧ idx = -1) ∨
  (Passes db is es label ∧ First db is es as label (fun _ => False) False "invalid" idx ∧ disp = some "invalid") ∨
  (Passes db is es label ∧ (∃ s i, s ≠ "invalid" ∧ First db is es as label (fun _ => False) False s i) ∧
    ∃ s, disp = some s ∧ First db is es as label types only s idx)

/-- The disposition of the label by itself. -/
def OwnDisp (db : String → Except Err CpSet) (is : List C105.Item) (es : List Node) (as : List Action) (label : Seq)
    (disp : Option String) (idx : Int) : Prop :=
  (¬ Passes db is es label ∧ disp = some "invalid" ∧ idx = -1) ∨
  (Passes db is es label ∧ ∃ s, disp = some s ∧
    First db is es as label (SelfTypes db is es label) (AllSelf db is es label) s idx)

/-! ## Steps and parts -/

theorem vars_iff {r : Repertoire} (h : WF r) {c : CharObj} (hg : r.getChar c.cp = .ok c) {i : C105.Item} (hh : Holds i c.cp c) :
    c.hasVariant = true ↔ i.vars ≠ [] := by
  have hw := stored_varWF h hg
  constructor
  · intro hv he
    unfold CharObj.hasVariant at hv
    rw [decide_eq_true_eq] at hv
    obtain ⟨p, hp⟩ := List.exists_mem_of_length_pos hv
    obtain ⟨k, vs⟩ := p
    have hne := (hw.nonempty _ hp).1
    obtain ⟨v, hvv⟩ := List.exists_mem_of_ne_nil _ hne
    have : v ∈ c.getVariants := (CharObj.mem_getVariants hw v).2 (by
      rw [hw.filed _ hp v hvv]
      exact ⟨vs, dget_of_mem hw.keys hp, hvv⟩)
    rw [hh.2.2.2.2, he] at this
    cases this
  · intro hv
    obtain ⟨v, hv⟩ := List.exists_mem_of_ne_nil _ hv
    exact hasVariant_of_mem ((hh.2.2.2.2 v).2 hv)

theorem fertile_of {R : Reader} {is : List C105.Item} {es : List Node} {g : Loaded} (S : Setting R is es g)
    {env : Env} (hE : Faithful R.props g.rules.rs env) {pfx rest : Seq} (hp : C106.Plain (pfx ++ rest)) {c : CharObj} {i : C105.Item}
    (hi : i ∈ is) (hg : g.lgr.rep.getChar c.cp = .ok c) (hh : Holds i c.cp c) :
    Fertile env g.lgr.rep pfx rest c ↔ Mapped R.props is es pfx rest i c.cp := by
  unfold Fertile Mapped
  rw [vars_iff S.common.state.1 hg hh]
  have key : c.cp <+: rest → (CtxHolds env c.attrs.whenR c.attrs.notWhenR c.cp (pfx ++ rest) pfx.length ↔
      InContext R.props is es (pfx ++ rest) i.attrs.whenR i.attrs.notWhenR pfx.length c.cp.length) := by
    intro hpre
    rw [hh.2.2.1]
    refine context_iff S.common hE hp S.solid (S.ready i hi).1 (S.fine i hi).1.1 (by simp) ?_
    rw [List.drop_left]
    exact hpre
  constructor
  · rintro ⟨-, h2, h3, h4⟩
    exact ⟨hi, hh.1, h2, h3, (key h2).1 h4⟩
  · rintro ⟨-, -, h2, h3, h4⟩
    exact ⟨hg, h2, h3, (key h2).2 h4⟩

theorem stored_of {R : Reader} {is : List C105.Item} {es : List Node} {g : Loaded} (S : Setting R is es g) {j : C105.Item} {k : Seq}
    (hj : j ∈ is) (hk : j.Has k) : ∃ c, c.cp = k ∧ g.lgr.rep.getChar c.cp = .ok c ∧ Holds j c.cp c := by
  obtain ⟨c, hl⟩ := Option.isSome_iff_exists.1 ((S.hin k).2 ⟨j, hj, hk⟩)
  obtain ⟨i, hi, hh⟩ := S.hrep _ _ hl
  have hii : i = j := by
    rcases apart_cases S.apart hj hi with h | h | h
    · exact h.symm
    · exact absurd hh.1 (h _ hk)
    · exact absurd hk (h _ hh.1)
  subst hii
  have hcp := hh.2.1
  exact ⟨c, hcp, by rw [getChar_ok, hcp]; exact hl, by rw [hcp]; exact hh⟩

theorem tried_iff {R : Reader} {is : List C105.Item} {es : List Node} {g : Loaded} (S : Setting R is es g)
    {env : Env} (hE : Faithful R.props g.rules.rs env) {pfx rest : Seq} (hp : C106.Plain (pfx ++ rest)) {c : CharObj} {i : C105.Item}
    (hi : i ∈ is) (hg : g.lgr.rep.getChar c.cp = .ok c) (hh : Holds i c.cp c) :
    Tried env g.lgr.rep pfx rest c ↔ (Mapped R.props is es pfx rest i c.cp ∨
      (∃ j k, Mapped R.props is es pfx rest j k ∧ c.cp.length < k.length) ∨ ¬ ∃ j k, Mapped R.props is es pfx rest j k) := by
  have key : ∀ n : Nat, (∃ d, Fertile env g.lgr.rep pfx rest d ∧ n ≤ d.len) ↔
      ∃ j k, Mapped R.props is es pfx rest j k ∧ n ≤ k.length := by
    intro n
    constructor
    · rintro ⟨d, h1, h2⟩
      obtain ⟨j, hj, hh'⟩ := S.hrep _ _ (getChar_ok.1 h1.1)
      exact ⟨j, d.cp, (fertile_of S hE hp hj h1.1 hh').1 h1, h2⟩
    · rintro ⟨j, k, h1, h2⟩
      obtain ⟨d, rfl, hd, hh'⟩ := stored_of S h1.1 h1.2.1
      exact ⟨d, (fertile_of S hE hp h1.1 hd hh').2 h1, h2⟩
  have k0 := key 0
  simp only [Nat.zero_le, and_true] at k0
  unfold Tried
  rw [fertile_of S hE hp hi hg hh, k0]
  exact or_congr_right (or_congr_left (key (c.cp.length + 1)))

/-- The labels in the course of replacing are in order. -/
theorem room_rest {is : List C105.Item} {label : Seq} (hr : Room is label) {pre : List Use} {u : Use}
    {post : List Use} (hb : before (pre ++ u :: post) = label)
    (hh : ∀ w ∈ pre ++ u :: post, w.item ∈ is ∧ w.item.Has w.seq)
    (hpre : ∀ w ∈ pre, ∀ v, w.by_ = some v → v ∈ w.item.vars) : C106.Plain (after pre ++ (u.seq ++ before post)) := by
  have := hr (pre ++ keep (u :: post)) ?_ ?_
  · have e : after (pre ++ keep (u :: post)) = after pre ++ (u.seq ++ before post) := by
      have := keep_after (u :: post)
      unfold after at this ⊢
      rw [List.flatMap_append, this]
      rfl
    rw [e] at this
    exact this
  · rw [← hb]
    have := keep_before (u :: post)
    unfold before at this ⊢
    rw [List.flatMap_append, List.flatMap_append, this]
  · intro w hw
    rcases List.mem_append.1 hw with hw | hw
    · exact ⟨(hh w (by simp [hw])).1, (hh w (by simp [hw])).2, hpre w hw⟩
    · obtain ⟨y, hy, rfl⟩ := List.mem_map.1 hw
      have := hh y (List.mem_append_right _ hy)
      exact ⟨this.1, this.2, fun x hx => by cases hx⟩

theorem tries_iff {R : Reader} {is : List C105.Item} {es : List Node} {g : Loaded} (S : Setting R is es g)
    {env : Env} (hE : Faithful R.props g.rules.rs env) {label : Seq} (hroom : Room is label) {us : List Use}
    (hr : Replaces R.props is es label us) {ss : List Step} (hs : List.Forall₂ (Same is g.lgr.rep) ss us) :
    AllSteps (TriedStep env g.lgr.rep) [] ss ↔ Tries R.props is es us := by
  have hvars : ∀ w ∈ us, ∀ v, w.by_ = some v → v ∈ w.item.vars := by
    intro w hw v hv
    obtain ⟨pre, post, rfl⟩ := List.append_of_mem hw
    exact (hr.used pre w post rfl v hv).1
  have key : ∀ {pre' s post' pre u post}, us = pre ++ u :: post → List.Forall₂ (Same is g.lgr.rep) pre' pre → Same is g.lgr.rep s u →
      List.Forall₂ (Same is g.lgr.rep) post' post → (TriedStep env g.lgr.rep ([] ++ outOf pre') s (origOf post') ↔
        (Mapped R.props is es (after pre) (u.seq ++ before post) u.item u.seq ∨
          (∃ j k, Mapped R.props is es (after pre) (u.seq ++ before post) j k ∧ u.seq.length < k.length) ∨
          ¬ ∃ j k, Mapped R.props is es (after pre) (u.seq ++ before post) j k)) := by
    intro pre' s post' pre u post he k1 k2 k3
    have hpl := room_rest hroom (by rw [← he]; exact hr.concat) (by rw [← he]; exact hr.has) (fun w hw => hvars w (by rw [he]; simp [hw]))
    unfold TriedStep
    rw [List.nil_append, (same_after k1).1, (same_after k3).2, ← k2.seq]
    have := tried_iff S hE hpl k2.mem k2.stored k2.holds
    rw [← k2.seq] at this
    exact this
  rw [allSteps_iff]
  constructor
  · intro h pre u post he
    have hs' := hs
    rw [he] at hs'
    obtain ⟨pre', s, post', rfl, k1, k2, k3⟩ := forall₂_split_right hs'
    exact (key he k1 k2 k3).1 (h pre' s post' rfl)
  · intro h pre' s post' he
    have hs' := hs
    rw [he] at hs'
    obtain ⟨pre, u, post, rfl, k1, k2, k3⟩ := forall₂_split_left hs'
    exact (key rfl k1 k2 k3).2 (h pre u post rfl)

theorem passes_iff {R : Reader} {cs : Rfc7940.Results} {d : Doc} {g : Loaded} (h : Clear R cs d g)
    {is : List C105.Item} (hm : Means d.data is) (hready : Ready (d.rules.getD []) is)
    (hso : C106.Inhabited R.props is (d.rules.getD [])) {env : FullEnv} (hE : Faithful R.props g.rules.rs env.toEnv) {label : Seq}
    (hp : C106.Plain label) : Accepted env g.lgr.rep label ↔ Passes R.props is (d.rules.getD []) label := by
  obtain ⟨p, hpre, hk⟩ := document_accepts_iff h hm hready hso hE hp
  unfold Accepted Passes
  rw [hpre]
  constructor
  · rintro ⟨p', he, hok⟩
    cases he
    exact ⟨_, (hk _).1 ⟨hok, rfl⟩⟩
  · rintro ⟨ks, hks⟩
    exact ⟨p, rfl, ((hk ks).2 hks).1⟩

theorem varDisp_of {R : Reader} {is : List C105.Item} {es : List Node} {g : Loaded} (S : Setting R is es g)
    {env : FullEnv} (hE : FullFaithful R.props g.rules.rs env) {as : List Action}
    (hone : ∀ a ∈ as, a.matchR = none ∨ a.notMatchR = none) (ha : ActsReady es as) {x : Seq} (hp : C106.Plain x)
    (hacc : Accepted env g.lgr.rep x ↔ Passes R.props is es x)
    {d : DispSet} {only : Bool} {types : Option String → Prop} {o : Prop} (ht : ∀ t, t ∈ d ↔ types t)
    (ho : only = true ↔ o) {disp : Option String} {idx : Int} (h : VariantDisp env g.lgr.rep as x d only disp idx) :
    VarDisp R.props is es as x types o disp idx := by
  have h0 : ∀ {s i}, Decides env as x [] false s i ↔ First R.props is es as x (fun _ => False) False s i :=
    fun {s i} => first_iff S.common hE hp S.solid hone ha (by simp) (by simp)
  have h1 : ∀ {s i}, Decides env as x d only s i ↔ First R.props is es as x types o s i :=
    fun {s i} => first_iff S.common hE hp S.solid hone ha ht ho
  unfold VariantDisp at h
  unfold VarDisp
  rw [hacc] at h
  simpa only [h0, h1] using h

theorem own_of {R : Reader} {cs : Rfc7940.Results} {d : Doc} {g : Loaded} (h : Clear R cs d g)
    {is : List C105.Item} (hm : Means d.data is) (hready : Ready (d.rules.getD []) is)
    {as : List Action} (has : Acts (d.rules.getD []) as) (htidy : ActsTidy (d.rules.getD []))
    (hacts : ActsReady (d.rules.getD []) as)
    (hso : C106.Inhabited R.props is (d.rules.getD [])) {env : FullEnv} (hE : FullFaithful R.props g.rules.rs env)
    {label : Seq} (hp : C106.Plain label) (hne : label ≠ []) {el : FullEnv.Eligible}
    (hel : env.testEligible g.lgr.rep g.rules.actions label = .ok el) :
    OwnDisp R.props is (d.rules.getD []) as label el.disp el.idx ∧ (el.ok = true ↔ el.disp ≠ some "invalid") := by
  have hacc := passes_iff h hm hready hso hE.1 hp
  obtain ⟨p, el', hpre, hel', hrej, hok⟩ := document_disposition_partial h hm hready has htidy hacts hso hE hp hne
  have e : el' = el := by
    rw [hel] at hel'
    cases hel'
    rfl
  subst e
  unfold Accepted at hacc
  rw [hpre] at hacc
  unfold OwnDisp
  rw [← hacc]
  cases hpo : p.ok with
  | false =>
    obtain ⟨k1, k2, k3⟩ := hrej hpo
    refine ⟨.inl ⟨?_, k2, k3⟩, by rw [k1, k2]; simp⟩
    rintro ⟨p', he, hp'⟩
    cases he
    rw [hpo] at hp'
    cases hp'
  | true =>
    obtain ⟨s, k1, k2, k3⟩ := hok hpo
    exact ⟨.inr ⟨⟨p, rfl, hpo⟩, s, k1, k3⟩, by rw [k2, k1]; simp⟩

/-- **C153** Under the LGR read from a document, with room in the label, `compute_label_disposition` raises nothing. The variant labels
listed result from replacing parts of the label by variants of the items of the document, in the context these ask for, where each
part is one that is tried (`Tries`), with exactly the types of the variants used, and have the disposition of the first action which
fires, unless they do not pass the preliminary test or are invalid by themselves; each such label is listed, unless it is invalid and
invalid ones are not asked for. The label itself comes last; its disposition is its own one, or, if that is not invalid, the one for
the mappings to itself which were used. -/
theorem document_variants_exact {R : Reader} {cs : Rfc7940.Results} {d : Doc} {g : Loaded} (h : Clear R cs d g)
    {is : List C105.Item} (hm : Means d.data is) (hready : Ready (d.rules.getD []) is)
    {as : List Action} (has : Acts (d.rules.getD []) as) (htidy : ActsTidy (d.rules.getD []))
    (hacts : ActsReady (d.rules.getD []) as)
    (hso : C106.Inhabited R.props is (d.rules.getD [])) {env : FullEnv} (hE : FullFaithful R.props g.rules.rs env)
    {label : Seq} (hp : C106.Plain label) (hne : label ≠ []) (hroom : Room is label)
    {o : FullEnv.Options} (hhide : o.hide = false) :
    ∃ its last, env.computeDisposition g.lgr.rep g.rules.actions true o label = .ok (its ++ [last]) ∧
      (∀ it ∈ its, it.cps ≠ label ∧ (o.withLabels ≠ [] → it.cps ∈ o.withLabels) ∧
        ∃ us, Replaces R.props is (d.rules.getD []) label us ∧ Settled R.props is (d.rules.getD []) us ∧ Tries R.props is (d.rules.getD []) us ∧
          it.cps = after us ∧ (∀ t, t ∈ it.types ↔ UseTypes us t) ∧
          VarDisp R.props is (d.rules.getD []) as it.cps (UseTypes us) (AllUsed us) it.disp it.idx) ∧
      (∀ us, Replaces R.props is (d.rules.getD []) label us → Tries R.props is (d.rules.getD []) us → after us ≠ label →
        (o.withLabels ≠ [] → after us ∈ o.withLabels) →
        (∃ it ∈ its, it.cps = after us) ∨
        o.includeInvalid = false ∧ ∃ us' i, Replaces R.props is (d.rules.getD []) label us' ∧
          Settled R.props is (d.rules.getD []) us' ∧ Tries R.props is (d.rules.getD []) us' ∧ after us' = after us ∧
          VarDisp R.props is (d.rules.getD []) as (after us) (UseTypes us') (AllUsed us') (some "invalid") i) ∧
      last.cps = label ∧
      (OwnDisp R.props is (d.rules.getD []) as label last.disp last.idx ∨
        ∃ us s, Replaces R.props is (d.rules.getD []) label us ∧ Settled R.props is (d.rules.getD []) us ∧ Tries R.props is (d.rules.getD []) us ∧
          after us = label ∧ (∀ t, t ∈ last.types ↔ UseTypes us t) ∧
          (∃ d1 i, d1 ≠ some "invalid" ∧ OwnDisp R.props is (d.rules.getD []) as label d1 i) ∧ last.disp = some s ∧
          First R.props is (d.rules.getD []) as label (UseTypes us) (AllUsed us) s last.idx) := by
  have S := setting_of h hm hready hso
  obtain ⟨cs1, hread, -⟩ := h.read
  have hactions := (doc_actions hread htidy).1 has
  have hone2 := acts_one (doc_parsed hread)
  have hown := fun el hel => own_of h hm hready has htidy hacts hso hE hp hne (el := el) hel
  rw [hactions] at hone2 hown
  rw [hactions]
  have hwf := S.common.state.1
  have hacc : ∀ {x}, C106.Plain x → (Accepted env g.lgr.rep x ↔ Passes R.props is (d.rules.getD []) x) :=
    fun hx => passes_iff h hm hready hso hE.1 hx
  have hdef := rules_defined S.common hE.1 hready S.hrep
  have hA : ∀ l, C20.ActionRulesDefined env as l := by
    intro l a ha r hr
    obtain ⟨e, he, h1, h2, -⟩ := hacts a ha r hr
    exact found_defined S.common hE he h1 h2 l
  obtain ⟨out, hout⟩ := C25.listing_total hwf hdef hA o hne hp.1
  obtain ⟨gs, its, orig, last, hgs, -, -, rfl, hlast, hL, horig⟩ := compute_split hout
  rw [hhide] at hgs
  -- what is generated
  have hgen : ∀ x ∈ gs, ∃ us, Replaces R.props is (d.rules.getD []) label us ∧ Settled R.props is (d.rules.getD []) us ∧ Tries R.props is (d.rules.getD []) us ∧
      x.cps = after us ∧ (∀ t, t ∈ x.disp ↔ UseTypes us t) ∧ (x.only = true ↔ AllUsed us) ∧ C106.Plain x.cps := by
    intro x hx
    obtain ⟨ss, h1, h2, h3, -, rfl⟩ := (C22.generated_exact hwf hne hgs x).1 hx
    obtain ⟨us, hus⟩ := same_of_steps S h1.stored
    obtain ⟨k1, k2⟩ := replaces_of_rewrites S hE.1 hroom h1 hus
    have hcps : (build ss).cps = after us := by rw [build_cps, (same_after hus).1]
    refine ⟨us, k1, k2 h3, (tries_iff S hE.1 hroom k1 hus).1 h2, hcps, fun t => ?_, ?_, ?_⟩
    · rw [build_disp]
      constructor
      · rintro ⟨u, rfl, hu⟩; exact (same_types hus u).1 hu
      · rintro ⟨u, hu, v, s, e1, e2, rfl⟩
        exact ⟨s, rfl, (same_types hus s).2 ⟨u, hu, v, s, e1, e2, rfl⟩⟩
    · rw [build_only, same_only hus]
    · rw [hcps]
      refine hroom us k1.concat fun u hu => ⟨(k1.has u hu).1, (k1.has u hu).2, fun v hv => ?_⟩
      obtain ⟨pre, post, rfl⟩ := List.append_of_mem hu
      exact (k1.used pre u post rfl v hv).1
  refine ⟨its, last, hout, ?_, ?_, hlast, ?_⟩
  · intro it hit
    obtain ⟨x, hx, hi, hw⟩ := hL.source it hit
    have hc := itemOf_cps hi
    have hn := hL.notOrig it hit
    obtain ⟨ht, hv⟩ := itemOf_variant hwf hi (by rw [← hc]; exact hn)
    obtain ⟨us, k1, k2, kt, k3, k4, k5, k6⟩ := hgen x hx
    refine ⟨hn, by rw [hc]; exact hw, us, k1, k2, kt, hc.trans k3, by rw [ht]; exact k4, ?_⟩
    rw [hc]
    exact varDisp_of S hE hone2 hacts k6 (hacc k6) k4 k5 hv
  · intro us hus htr hn hw
    obtain ⟨ss, hss⟩ := steps_of_same S hus.has
    have hr := rewrites_of_replaces S hE.1 hroom hus hss
    have hmv : ∃ s ∈ ss, s.2.isSome = true := by
      by_contra hno
      apply hn
      rw [← hus.concat, ← (same_after hss).1, ← (same_after hss).2]
      unfold outOf origOf
      refine List.flatMap_congr fun s hs => ?_
      have : s.2 = none := by
        cases h2 : s.2 with
        | none => rfl
        | some v => exact absurd ⟨s, hs, by rw [h2]; rfl⟩ hno
      unfold Step.out
      rw [this]
    obtain ⟨x, hx, hxo⟩ := C23.produces_tried hwf hgs hr ((tries_iff S hE.1 hroom hus hss).2 htr) (.inl hmv)
    have hxu : x.cps = after us := by rw [hxo, (same_after hss).1]
    obtain ⟨y, hy, hyx, it, hit, h1⟩ := hL.complete x hx (by rw [hxu]; exact hw) (by simp)
    rcases h1 with h1 | ⟨-, h1⟩ | ⟨h1, -⟩
    · obtain ⟨us', k1, k2, kt, k3, k4, k5, k6⟩ := hgen y hy
      obtain ⟨-, hv⟩ := itemOf_variant hwf hit (by rw [hyx, hxu]; exact hn)
      refine .inr ⟨h1.1, us', it.idx, k1, k2, kt, by rw [← k3, hyx, hxu], ?_⟩
      rw [h1.2] at hv
      have := varDisp_of S hE hone2 hacts k6 (hacc k6) k4 k5 hv
      rw [hyx, hxu] at this
      exact this
    · exact .inl ⟨it, h1, by rw [itemOf_cps hit, hyx, hxu]⟩
    · exact absurd (hxu.symm.trans h1) hn
  · rcases horig with rfl | ⟨-, -, -, el, hel, h1, h2⟩
    · rcases hL.origSource last rfl with h0 | ⟨x, hx, hi, -⟩
      · cases h0
      · have hc := itemOf_cps hi
        have hxl : x.cps = label := by rw [← hc, hlast]
        obtain ⟨us, k1, k2, kt, k3, k4, k5, k6⟩ := hgen x hx
        unfold FullEnv.itemOf at hi
        rw [hxl] at hi
        simp only [ne_eq, not_true_eq_false, decide_false] at hi
        cases hel : env.testEligible g.lgr.rep as label with
        | error e => rw [hel] at hi; cases hi
        | ok el =>
          rw [hel] at hi
          obtain ⟨o1, o2⟩ := hown el hel
          cases hok : el.ok with
          | false =>
            simp only [hok, Bool.not_false, if_true] at hi
            cases hi
            left
            have : el.disp = some "invalid" := by
              by_contra hc
              rw [o2.2 hc] at hok
              cases hok
            rw [← this]
            exact o1
          | true =>
            simp only [hok, Bool.not_true, Bool.false_eq_true, if_false] at hi
            cases happ : applyActions env as label x.disp x.only with
            | error e => rw [happ] at hi; cases hi
            | ok z =>
              obtain ⟨dd, i⟩ := z
              rw [happ] at hi
              obtain ⟨s, rfl, hs⟩ := decides_of_ok happ
              cases hi
              refine .inr ⟨us, s, k1, k2, kt, k3.symm.trans hxl, k4, ⟨el.disp, el.idx, o2.1 hok, o1⟩, rfl, ?_⟩
              exact (first_iff S.common hE hp S.solid hone2 hacts k4 k5).1 hs
    · left
      rw [h1, h2]
      exact (hown el hel).1

/-- With invalid variants asked for, and no restriction to some labels, the variant labels listed are exactly those which result from
replacing parts which are tried. -/
theorem listed_labels_exact {R : Reader} {cs : Rfc7940.Results} {d : Doc} {g : Loaded} (h : Clear R cs d g)
    {is : List C105.Item} (hm : Means d.data is) (hready : Ready (d.rules.getD []) is)
    {as : List Action} (has : Acts (d.rules.getD []) as) (htidy : ActsTidy (d.rules.getD []))
    (hacts : ActsReady (d.rules.getD []) as)
    (hso : C106.Inhabited R.props is (d.rules.getD [])) {env : FullEnv} (hE : FullFaithful R.props g.rules.rs env)
    {label : Seq} (hp : C106.Plain label) (hne : label ≠ []) (hroom : Room is label) :
    ∃ out, env.computeDisposition g.lgr.rep g.rules.actions true { includeInvalid := true } label = .ok out ∧
      ∀ x, x ∈ out.map FullEnv.Item.cps ↔ x = label ∨
        ∃ us, Replaces R.props is (d.rules.getD []) label us ∧ Tries R.props is (d.rules.getD []) us ∧ x = after us := by
  obtain ⟨its, last, h1, h2, h3, h4, -⟩ := document_variants_exact h hm hready has htidy hacts hso hE hp hne hroom
    (o := { includeInvalid := true }) rfl
  refine ⟨_, h1, fun x => ?_⟩
  rw [List.map_append, List.mem_append]
  constructor
  · rintro (hx | hx)
    · obtain ⟨it, hit, rfl⟩ := List.mem_map.1 hx
      obtain ⟨-, -, us, k1, -, kt, k2, -⟩ := h2 it hit
      exact .inr ⟨us, k1, kt, k2⟩
    · simp only [List.map_cons, List.map_nil, List.mem_singleton] at hx
      exact .inl (hx.trans h4)
  · rintro (rfl | ⟨us, k1, kt, rfl⟩)
    · exact .inr (by simp [h4])
    · by_cases hl : after us = label
      · exact .inr (by simp [h4, hl])
      · rcases h3 us k1 kt hl (fun h => absurd rfl h) with ⟨it, hit, e⟩ | ⟨e, -⟩
        · exact .inl (List.mem_map.2 ⟨it, hit, e⟩)
        · cases e

/-! ## Example: variants which are missed -/

/-- The sequence `ab`, and `a` with the variant `e`, `c` with the variant `f`. -/
def doc5 : Doc :=
  { metaE := some []
    data := [{ tag := "char", attrs := [("cp", "61")], vars := [[("cp", "65")]] }, { tag := "char", attrs := [("cp", "61 62")] },
      { tag := "char", attrs := [("cp", "63")], vars := [[("cp", "66")]] }] }

def itemA5 : C105.Item := .char [0x61] {} [{ cp := [0x65] }]
def itemB5 : C105.Item := .char [0x61, 0x62] {} []
def itemC5 : C105.Item := .char [0x63] {} [{ cp := [0x66] }]
def items5 : List C105.Item := [itemA5, itemB5, itemC5]

theorem doc5_means : Means doc5.data items5 := by
  refine .item (.char rfl ?_ ⟨rfl, rfl, rfl, ?_, ?_⟩ (.cons ⟨?_, rfl, rfl, rfl, rfl, ?_⟩ .nil))
    (.item (.char rfl ?_ ⟨rfl, rfl, rfl, ?_, ?_⟩ .nil)
    (.item (.char rfl ?_ ⟨rfl, rfl, rfl, ?_, ?_⟩ (.cons ⟨?_, rfl, rfl, rfl, rfl, ?_⟩ .nil)) .nil))
  all_goals first
    | exact spells_iff.2 (by decide +kernel)
    | exact (listed_iff (by decide +kernel)).2 (by decide +kernel)

theorem doc5_reads : (match parseDoc reader1 [] doc5 with
    | (cs, .ok (some _)) => decide (dget cs "parse_xml" ≠ some false)
    | _ => false) = true := by decide +kernel

theorem doc5_clear : ∃ g, Clear reader1 [] doc5 g := by
  have h := doc5_reads
  rcases hp : parseDoc reader1 [] doc5 with ⟨cs, o⟩
  rw [hp] at h
  match o, h with
  | .ok (some g), h =>
    exact ⟨g, rfl, ⟨cs, hp, by simpa using h⟩, by decide +kernel, ⟨List.nodup_nil, List.nodup_nil, by intro n hn; cases hn⟩,
      by intro e he; cases he⟩

theorem ready5 : Ready [] items5 := by
  intro i hi
  simp only [items5, List.mem_cons, List.not_mem_nil, or_false] at hi
  rcases hi with rfl | rfl | rfl <;> simp [itemA5, itemB5, itemC5, C105.Item.attrs, C105.Item.vars]

theorem free5 {i : C105.Item} (hi : i ∈ items5) {db : String → Except Err CpSet} {label : Seq} {o n : Nat} :
    InContext db items5 [] label i.attrs.whenR i.attrs.notWhenR o n := by
  simp only [items5, List.mem_cons, List.not_mem_nil, or_false] at hi
  rcases hi with rfl | rfl | rfl <;> exact ⟨fun r hr => (by cases hr), fun r hr => (by cases hr)⟩

theorem room5 {label : Seq} (hp : C106.Plain label) : Room items5 label := by
  refine room_of_short hp fun i hi k hk v hv => ?_
  simp only [items5, List.mem_cons, List.not_mem_nil, or_false] at hi
  rcases hi with rfl | rfl | rfl
  · simp only [itemA5, C105.Item.vars, C105.Item.Has, List.mem_cons, List.not_mem_nil, or_false] at hv hk
    subst hv hk
    exact ⟨le_refl _, by decide⟩
  · simp [itemB5, C105.Item.vars] at hv
  · simp only [itemC5, C105.Item.vars, C105.Item.Has, List.mem_cons, List.not_mem_nil, or_false] at hv hk
    subst hv hk
    exact ⟨le_refl _, by decide⟩

/-- Nothing is tried all through the label `abc`: `a` has a variant, so that the longer `ab`, which has none, is not tried; and nothing
begins with `b`. -/
theorem nothing5 {db : String → Except Err CpSet} {us : List Use} (h : Replaces db items5 [] [0x61, 0x62, 0x63] us) :
    ¬ Tries db items5 [] us := by
  intro ht
  have hcat := h.concat
  cases us with
  | nil => cases hcat
  | cons u us =>
    have hcat' : u.seq ++ before us = [0x61, 0x62, 0x63] := hcat
    have hA : Mapped db items5 [] (after []) (u.seq ++ before us) itemA5 [0x61] := by
      rw [hcat']
      exact ⟨by simp [items5], rfl, ⟨_, rfl⟩, by simp [itemA5, C105.Item.vars], free5 (by simp [items5])⟩
    obtain ⟨h1, h2⟩ := h.has u List.mem_cons_self
    simp only [items5, List.mem_cons, List.not_mem_nil, or_false] at h1
    rcases h1 with h1 | h1 | h1
    · rw [h1] at h2
      have hs : u.seq = [0x61] := h2
      rw [hs] at hcat'
      have hb : before us = [0x62, 0x63] := by simpa using hcat'
      cases us with
      | nil => cases hb
      | cons w us =>
        have hb' : w.seq ++ before us = [0x62, 0x63] := hb
        obtain ⟨g1, g2⟩ := h.has w (by simp)
        simp only [items5, List.mem_cons, List.not_mem_nil, or_false] at g1
        rcases g1 with g1 | g1 | g1
        · rw [g1] at g2
          have hw : w.seq = [0x61] := g2
          rw [hw] at hb'
          simp at hb'
        · rw [g1] at g2
          have hw : w.seq = [0x61, 0x62] := g2
          rw [hw] at hb'
          simp at hb'
        · rw [g1] at g2
          have hw : w.seq = [0x63] := g2
          rw [hw] at hb'
          simp at hb'
    · rw [h1] at h2
      have hs : u.seq = [0x61, 0x62] := h2
      rcases ht [] u us rfl with hm | ⟨j, k, hm, hl⟩ | hn
      · exact hm.2.2.2.1 (by rw [h1]; rfl)
      · obtain ⟨m1, m2, -⟩ := hm
        rw [hs] at hl
        simp only [items5, List.mem_cons, List.not_mem_nil, or_false] at m1
        rcases m1 with rfl | rfl | rfl
        · have : k = [0x61] := m2
          rw [this] at hl
          simp at hl
        · have : k = [0x61, 0x62] := m2
          rw [this] at hl
          simp at hl
        · have : k = [0x63] := m2
          rw [this] at hl
          simp at hl
      · exact hn ⟨_, _, hA⟩
    · rw [h1] at h2
      have hs : u.seq = [0x63] := h2
      rw [hs] at hcat'
      simp at hcat'

/-- The document describes `abf` as a variant of `abc`, made of `ab` and `c`. `abc` passes the preliminary test, but no variant of it
is listed. All hypotheses of `document_variants_exact` are met. -/
theorem missed_wrong : ∃ g, Clear reader1 [] doc5 g ∧ Means doc5.data items5 ∧
    Made reader1.props items5 [] [0x61, 0x62, 0x63] [(itemB5, [0x61, 0x62]), (itemC5, [0x63])] ∧
    Replaces reader1.props items5 [] [0x61, 0x62, 0x63] [⟨itemB5, [0x61, 0x62], none⟩, ⟨itemC5, [0x63], some { cp := [0x66] }⟩] ∧
    (∃ env : FullEnv, FullFaithful reader1.props g.rules.rs env) ∧
    ∀ env : FullEnv, FullFaithful reader1.props g.rules.rs env → Accepted env g.lgr.rep [0x61, 0x62, 0x63] ∧
      ∃ out, env.computeDisposition g.lgr.rep g.rules.actions true { includeInvalid := true } [0x61, 0x62, 0x63] = .ok out ∧
        ∀ x, x ∈ out.map FullEnv.Item.cps ↔ x = [0x61, 0x62, 0x63] := by
  obtain ⟨g, hg⟩ := doc5_clear
  have hp : C106.Plain [0x61, 0x62, 0x63] := by unfold C106.Plain; decide
  have hso : C106.Inhabited reader1.props items5 (doc5.rules.getD []) := by
    intro w _ e he
    cases he
  obtain ⟨env, -, he⟩ := full_faithful_exists (common_of hg doc5_means).1 (fun _ => "Latin")
  have hB : itemB5 ∈ items5 := by simp [items5]
  have hC : itemC5 ∈ items5 := by simp [items5]
  refine ⟨g, hg, doc5_means, ⟨rfl, ?_, ?_⟩, ⟨rfl, ?_, ?_⟩, ⟨env, he⟩, ?_⟩
  · intro q hq
    simp only [List.mem_cons, List.not_mem_nil, or_false] at hq
    rcases hq with rfl | rfl
    · exact ⟨hB, rfl⟩
    · exact ⟨hC, rfl⟩
  · intro pre q post he
    match pre, he with
    | [], he => cases he; exact free5 hB
    | [_], he => cases he; exact free5 hC
    | _ :: _ :: [], he => simp at he
  · intro q hq
    simp only [List.mem_cons, List.not_mem_nil, or_false] at hq
    rcases hq with rfl | rfl
    · exact ⟨hB, rfl⟩
    · exact ⟨hC, rfl⟩
  · intro pre u post he v hv
    match pre, he with
    | [], he => cases he; cases hv
    | [_], he =>
      cases he
      cases hv
      exact ⟨by simp [itemC5, C105.Item.vars], fun r hr => (by cases hr), fun r hr => (by cases hr)⟩
    | _ :: _ :: [], he => simp at he
  · intro env hE
    constructor
    · refine (passes_iff hg doc5_means ready5 hso hE.1 hp).2 ⟨[[0x61, 0x62], [0x63]], ?_⟩
      have hlen : ∀ {o : Nat} {j k'}, There reader1.props items5 [] [0x61, 0x62, 0x63] o j k' → k'.length ≤ 2 ∧ (o = 2 → k'.length ≤ 1) := by
        intro o j k' hj
        obtain ⟨m1, m2, m3, -⟩ := hj
        have h3 := m3.length_le
        refine ⟨?_, ?_⟩
        · simp only [items5, List.mem_cons, List.not_mem_nil, or_false] at m1
          rcases m1 with rfl | rfl | rfl
          · have : k' = [0x61] := m2
            rw [this]; simp
          · have : k' = [0x61, 0x62] := m2
            rw [this]; simp
          · have : k' = [0x63] := m2
            rw [this]; simp
        · rintro rfl
          simpa using h3
      exact .step (i := itemB5) ⟨hB, rfl, ⟨[0x63], rfl⟩, free5 hB⟩ (fun j k' hj => (hlen hj).1)
        (.step (i := itemC5) ⟨hC, rfl, ⟨[], rfl⟩, free5 hC⟩ (fun j k' hj => (hlen hj).2 rfl) (.done _))
    · obtain ⟨out, h1, h2⟩ := listed_labels_exact hg doc5_means ready5 (as := []) .nil (by unfold ActsTidy; decide +kernel)
        (by intro a ha; cases ha) hso hE hp (by simp) (room5 hp)
      refine ⟨out, h1, fun x => ?_⟩
      rw [h2]
      constructor
      · rintro (h | ⟨us, k1, k2, -⟩)
        · exact h
        · exact absurd k2 (nothing5 k1)
      · exact .inl

end Lgr.Props.C153

import Verif.Props.DocDisp

/-!
# C111: the variants of a label are those its document describes
-/

namespace Lgr.Props.C111
open Lgr Xml Text Repertoire LGR RulesXml C101 C103 DocXml C105 C106 C107

/-! ## Specification -/

/-- A part of a label: a sequence of an item, kept or replaced. -/
structure Use where
  item : C105.Item
  seq : Seq
  by_ : Option Variant

/-- What is written for a part. -/
def Use.out (u : Use) : Seq :=
  match u.by_ with
  | some v => v.cp
  | none => u.seq

/-- The parts, before anything is replaced. -/
def before (us : List Use) : Seq := us.flatMap Use.seq

/-- The parts, replaced. -/
def after (us : List Use) : Seq := us.flatMap Use.out

/-- The parts are sequences of items, and make up the label. What replaces a part is a variant of the item, in the
context it asks for: the label in which what is before the part is replaced, and what is behind it is not. -/
structure Replaces (db : String → Except Err CpSet) (is : List C105.Item) (es : List Node) (label : Seq)
    (us : List Use) : Prop where
  concat : before us = label
  has : ∀ u ∈ us, u.item ∈ is ∧ u.item.Has u.seq
  used : ∀ pre u post, us = pre ++ u :: post → ∀ v, u.by_ = some v → v ∈ u.item.vars ∧
    InContext db is es (after pre ++ v.cp ++ before post) v.whenR v.notWhenR (after pre).length v.cp.length

/-- A part is kept only if it has no mapping to itself in this context. -/
def Settled (db : String → Except Err CpSet) (is : List C105.Item) (es : List Node) (us : List Use) : Prop :=
  ∀ pre u post, us = pre ++ u :: post → u.by_ = none → ∀ v ∈ u.item.vars, v.cp = u.seq →
    ¬ InContext db is es (after pre ++ v.cp ++ before post) v.whenR v.notWhenR (after pre).length v.cp.length

/-- The types of the variants used. -/
def UseTypes (us : List Use) (t : Option String) : Prop :=
  ∃ u ∈ us, ∃ v s, u.by_ = some v ∧ v.type = some s ∧ t = some s

/-- Every part is replaced. -/
def AllUsed (us : List Use) : Prop := ∀ u ∈ us, u.by_.isSome

/-- Whatever is replaced in the label, it has at most 63 code points and no line feed. -/
def Room (is : List C105.Item) (label : Seq) : Prop :=
  ∀ us, before us = label → (∀ u ∈ us, u.item ∈ is ∧ u.item.Has u.seq ∧ ∀ v, u.by_ = some v → v ∈ u.item.vars) →
    C106.Plain (after us)

/-- The disposition of a variant label, RFC 7940, section 8.3: invalid if it is not made of items or is invalid by
itself, otherwise the one of the first action which fires for the types of the variants used. -/
def VarDisp (db : String → Except Err CpSet) (is : List C105.Item) (es : List Node) (as : List Action) (label : Seq)
    (types : Option String → Prop) (only : Prop) (disp : Option String) (idx : Int) : Prop :=
  ((¬ ∃ ks, Made db is es label ks) ∧ disp = some "invalid" ∧ idx = -1) ∨
  ((∃ ks, Made db is es label ks) ∧ First db is es as label (fun _ => False) False "invalid" idx ∧
    disp = some "invalid") ∨
  ((∃ ks, Made db is es label ks) ∧ (∃ s i, s ≠ "invalid" ∧ First db is es as label (fun _ => False) False s i) ∧
    ∃ s, disp = some s ∧ First db is es as label types only s idx)

/-- The disposition of the label by itself, as in C107. -/
def OwnDisp (db : String → Except Err CpSet) (is : List C105.Item) (es : List Node) (as : List Action) (label : Seq)
    (disp : Option String) (idx : Int) : Prop :=
  ((¬ ∃ ks, Made db is es label ks) ∧ disp = some "invalid" ∧ idx = -1) ∨
  ((∃ ks, Made db is es label ks) ∧ ∃ s, disp = some s ∧
    First db is es as label (SelfTypes db is es label) (AllSelf db is es label) s idx)

/-- No sequence of an item is the beginning of another one. -/
def NoBeginning (is : List C105.Item) : Prop :=
  ∀ i ∈ is, ∀ j ∈ is, ∀ k k', i.Has k → j.Has k' → k <+: k' → k = k'

/-! ## Steps and parts -/

theorem allSteps_iff {P : Seq → Step → Seq → Prop} : ∀ {ss : List Step} {pfx : Seq},
    AllSteps P pfx ss ↔ ∀ pre s post, ss = pre ++ s :: post → P (pfx ++ outOf pre) s (origOf post)
  | [], pfx => by simp [AllSteps]
  | s :: ss, pfx => by
    rw [AllSteps, allSteps_iff]
    constructor
    · rintro ⟨h1, h2⟩ pre t post he
      cases pre with
      | nil =>
        cases he
        simpa [outOf] using h1
      | cons a pre =>
        cases he
        have := h2 pre t post rfl
        simpa [outOf, List.append_assoc] using this
    · intro h
      refine ⟨by simpa [outOf] using h [] s ss rfl, fun pre t post he => ?_⟩
      have := h (s :: pre) t post (by rw [he]; rfl)
      simpa [outOf, List.append_assoc] using this

/-- The step is the part. -/
structure Same (is : List C105.Item) (r : Repertoire) (s : Step) (u : Use) : Prop where
  mem : u.item ∈ is
  seq : u.seq = s.1.cp
  by_ : u.by_ = s.2
  stored : r.getChar s.1.cp = .ok s.1
  holds : Holds u.item s.1.cp s.1

theorem same_after {is : List C105.Item} {r : Repertoire} {ss : List Step} {us : List Use}
    (h : List.Forall₂ (Same is r) ss us) : outOf ss = after us ∧ origOf ss = before us := by
  induction h with
  | nil => exact ⟨rfl, rfl⟩
  | @cons s u ss us h1 _ ih =>
    have e : s.out = u.out := by
      unfold Step.out Use.out
      rw [h1.by_, h1.seq]
      cases s.2 <;> rfl
    constructor
    · show s.out ++ outOf ss = u.out ++ after us
      rw [e, ih.1]
    · show s.1.cp ++ origOf ss = u.seq ++ before us
      rw [h1.seq, ih.2]

theorem forall₂_split_left {α β : Type} {P : α → β → Prop} : ∀ {pre : List α} {x : α} {post : List α} {us : List β},
    List.Forall₂ P (pre ++ x :: post) us → ∃ pre' y post', us = pre' ++ y :: post' ∧ List.Forall₂ P pre pre' ∧
      P x y ∧ List.Forall₂ P post post'
  | [], x, post, us, h => by
    cases h with
    | cons h1 h2 => exact ⟨[], _, _, rfl, .nil, h1, h2⟩
  | a :: pre, x, post, us, h => by
    cases h with
    | cons h1 h2 =>
      obtain ⟨pre', y, post', rfl, k1, k2, k3⟩ := forall₂_split_left h2
      exact ⟨_ :: pre', y, post', rfl, .cons h1 k1, k2, k3⟩

theorem forall₂_split_right {α β : Type} {P : α → β → Prop} {ss : List α} {pre : List β} {y : β} {post : List β}
    (h : List.Forall₂ P ss (pre ++ y :: post)) : ∃ pre' x post', ss = pre' ++ x :: post' ∧ List.Forall₂ P pre' pre ∧
      P x y ∧ List.Forall₂ P post' post := by
  obtain ⟨pre', x, post', h1, h2, h3, h4⟩ := forall₂_split_left (P := fun b a => P a b) (List.Forall₂.flip h)
  exact ⟨pre', x, post', h1, List.Forall₂.flip h2, h3, List.Forall₂.flip h4⟩

theorem same_types {is : List C105.Item} {r : Repertoire} {ss : List Step} {us : List Use}
    (h : List.Forall₂ (Same is r) ss us) (t : String) : HasType ss t ↔ UseTypes us (some t) := by
  constructor
  · rintro ⟨c, v, hm, ht⟩
    obtain ⟨pre, post, rfl⟩ := List.append_of_mem hm
    obtain ⟨pre', u, post', rfl, -, k, -⟩ := forall₂_split_left h
    exact ⟨u, by simp, v, t, k.by_, ht, rfl⟩
  · rintro ⟨u, hm, v, s, h1, h2, h3⟩
    cases h3
    obtain ⟨pre, post, rfl⟩ := List.append_of_mem hm
    obtain ⟨pre', s, post', rfl, -, k, -⟩ := forall₂_split_right h
    refine ⟨s.1, v, ?_, h2⟩
    have : s.2 = some v := by rw [← k.by_]; exact h1
    rw [← this]
    simp

theorem same_only {is : List C105.Item} {r : Repertoire} {ss : List Step} {us : List Use}
    (h : List.Forall₂ (Same is r) ss us) : (∀ s ∈ ss, s.2.isSome) ↔ AllUsed us := by
  unfold AllUsed
  constructor
  · intro hs u hm
    obtain ⟨pre, post, rfl⟩ := List.append_of_mem hm
    obtain ⟨pre', s, post', rfl, -, k, -⟩ := forall₂_split_right h
    rw [k.by_]
    exact hs s (by simp)
  · intro hu s hm
    obtain ⟨pre, post, rfl⟩ := List.append_of_mem hm
    obtain ⟨pre', u, post', rfl, -, k, -⟩ := forall₂_split_left h
    rw [← k.by_]
    exact hu u (by simp)

/-- What is kept from a part on. -/
def keep (us : List Use) : List Use := us.map (fun u => { u with by_ := none })

theorem keep_before (us : List Use) : before (keep us) = before us := by
  simp [before, keep, List.flatMap_map]

theorem keep_after (us : List Use) : after (keep us) = before us := by
  simp only [after, before, keep, List.flatMap_map]
  rfl

/-- The contexts in the course of replacing are labels in order. -/
theorem room_context {is : List C105.Item} {label : Seq} (hr : Room is label) {pre : List Use} {u : Use}
    {post : List Use} (hb : before (pre ++ u :: post) = label)
    (hh : ∀ w ∈ pre ++ u :: post, w.item ∈ is ∧ w.item.Has w.seq)
    (hpre : ∀ w ∈ pre, ∀ v, w.by_ = some v → v ∈ w.item.vars) {v : Variant} (hv : v ∈ u.item.vars) :
    C106.Plain (after pre ++ v.cp ++ before post) := by
  have := hr (pre ++ { u with by_ := some v } :: keep post) ?_ ?_
  · have e : after (pre ++ { u with by_ := some v } :: keep post) = after pre ++ v.cp ++ before post := by
      rw [← keep_after post]
      simp [after, Use.out]
    rw [e] at this
    exact this
  · rw [← hb]
    have := keep_before post
    simp only [before] at this ⊢
    simp [this]
  · intro w hw
    rcases List.mem_append.1 hw with hw | hw
    · exact ⟨(hh w (by simp [hw])).1, (hh w (by simp [hw])).2, hpre w hw⟩
    · rcases List.mem_cons.1 hw with rfl | hw
      · refine ⟨(hh u (by simp)).1, (hh u (by simp)).2, fun x hx => ?_⟩
        simp only [Option.some.injEq] at hx
        rw [← hx]
        exact hv
      · obtain ⟨y, hy, rfl⟩ := List.mem_map.1 hw
        exact ⟨(hh y (by simp [hy])).1, (hh y (by simp [hy])).2, fun x hx => by cases hx⟩

/-! ## The LGR read -/

/-- What the proofs below use. -/
structure Setting (R : Reader) (is : List C105.Item) (es : List Node) (g : Loaded) : Prop where
  common : Common R is es g
  fine : ∀ i ∈ is, (given R.db R.strict (managerOf g.md)).Fine i
  hin : ∀ k, (g.lgr.rep.lookup k).isSome ↔ ∃ i ∈ is, i.Has k
  hrep : ∀ k c, g.lgr.rep.lookup k = some c → ∃ i ∈ is, Holds i k c
  apart : Apart is
  ready : Ready es is
  solid : C106.Inhabited R.props is es

theorem varCtx_iff {R : Reader} {is : List C105.Item} {es : List Node} {g : Loaded} (S : Setting R is es g)
    {env : Env} (hE : Faithful R.props g.rules.rs env) {i : C105.Item} (hi : i ∈ is) {v : Variant} (hv : v ∈ i.vars)
    {pfx rest : Seq} (hp : C106.Plain (pfx ++ v.cp ++ rest)) :
    VarCtx env pfx v rest ↔
      InContext R.props is es (pfx ++ v.cp ++ rest) v.whenR v.notWhenR pfx.length v.cp.length := by
  unfold VarCtx
  refine context_iff S.common hE hp S.solid ((S.ready i hi).2 v hv) ((S.fine i hi).2.2.2.2.1 v hv).2.2.1 ?_ ?_
  · simp only [List.length_append]
    omega
  · rw [List.append_assoc, List.drop_left]
    exact List.prefix_append _ _

theorem same_of_steps {R : Reader} {is : List C105.Item} {es : List Node} {g : Loaded} (S : Setting R is es g) :
    ∀ {ss : List Step}, (∀ s ∈ ss, g.lgr.rep.getChar s.1.cp = .ok s.1) →
      ∃ us, List.Forall₂ (Same is g.lgr.rep) ss us
  | [], _ => ⟨[], .nil⟩
  | s :: ss, h => by
    obtain ⟨us, hus⟩ := same_of_steps S (fun t ht => h t (List.mem_cons_of_mem _ ht)) (ss := ss)
    have hs := h s List.mem_cons_self
    obtain ⟨i, hi, hh⟩ := S.hrep _ _ (getChar_ok.1 hs)
    exact ⟨⟨i, s.1.cp, s.2⟩ :: us, .cons ⟨hi, rfl, rfl, hs, hh⟩ hus⟩

theorem steps_of_same {R : Reader} {is : List C105.Item} {es : List Node} {g : Loaded} (S : Setting R is es g) :
    ∀ {us : List Use}, (∀ u ∈ us, u.item ∈ is ∧ u.item.Has u.seq) → ∃ ss, List.Forall₂ (Same is g.lgr.rep) ss us
  | [], _ => ⟨[], .nil⟩
  | u :: us, h => by
    obtain ⟨ss, hss⟩ := steps_of_same S (fun t ht => h t (List.mem_cons_of_mem _ ht)) (us := us)
    obtain ⟨h1, h2⟩ := h u List.mem_cons_self
    obtain ⟨c, hl⟩ := Option.isSome_iff_exists.1 ((S.hin u.seq).2 ⟨u.item, h1, h2⟩)
    obtain ⟨i, hi, hh⟩ := S.hrep _ _ hl
    have hii : i = u.item := by
      rcases apart_cases S.apart h1 hi with h | h | h
      · exact h.symm
      · exact absurd hh.1 (h _ h2)
      · exact absurd h2 (h _ hh.1)
    subst hii
    have hcp := hh.2.1
    exact ⟨(c, u.by_) :: ss, .cons ⟨h1, hcp.symm, rfl, by rw [getChar_ok, hcp]; exact hl, by rw [hcp]; exact hh⟩ hss⟩

theorem same_has {is : List C105.Item} {r : Repertoire} {ss : List Step} {us : List Use}
    (h : List.Forall₂ (Same is r) ss us) : (∀ u ∈ us, u.item ∈ is ∧ u.item.Has u.seq) ∧
      ∀ s ∈ ss, r.getChar s.1.cp = .ok s.1 := by
  induction h with
  | nil => simp
  | cons h1 _ ih =>
    constructor
    · intro u hu
      rcases List.mem_cons.1 hu with rfl | hu
      · exact ⟨h1.mem, by rw [h1.seq]; exact h1.holds.1⟩
      · exact ih.1 u hu
    · intro s hs
      rcases List.mem_cons.1 hs with rfl | hs
      · exact h1.stored
      · exact ih.2 s hs

/-- Parts replaced one by one are variants of their items. -/
theorem vars_of_steps {is : List C105.Item} {r : Repertoire} {env : Env} {ss : List Step} {us : List Use}
    (h : List.Forall₂ (Same is r) ss us) : ∀ {pfx : Seq}, AllSteps (ValidStep env) pfx ss →
      ∀ u ∈ us, ∀ v, u.by_ = some v → v ∈ u.item.vars := by
  induction h with
  | nil => intro _ _ u hu; cases hu
  | cons h1 _ ih =>
    intro pfx ha u hu v hv
    rcases List.mem_cons.1 hu with rfl | hu
    · exact (h1.holds.2.2.2.2 v).1 ((ha.1 v (by rw [← h1.by_]; exact hv)).1)
    · exact ih ha.2 u hu v hv

theorem replaces_of_rewrites {R : Reader} {is : List C105.Item} {es : List Node} {g : Loaded} (S : Setting R is es g)
    {env : Env} (hE : Faithful R.props g.rules.rs env) {label : Seq} (hroom : Room is label) {ss : List Step}
    (hr : Rewrites env g.lgr.rep label ss) {us : List Use} (hs : List.Forall₂ (Same is g.lgr.rep) ss us) :
    Replaces R.props is es label us ∧ (AllSteps (KeptStep env) [] ss → Settled R.props is es us) := by
  have hcat : before us = label := by rw [← (same_after hs).2]; exact hr.concat
  have hhas := (same_has hs).1
  have hvars := vars_of_steps hs hr.valid
  have hval := allSteps_iff.1 hr.valid
  refine ⟨⟨hcat, hhas, ?_⟩, ?_⟩
  · intro pre u post he v hv
    subst he
    obtain ⟨pre', s, post', rfl, k1, k2, k3⟩ := forall₂_split_right hs
    obtain ⟨h1, h2⟩ := hval pre' s post' rfl v (by rw [← k2.by_]; exact hv)
    have hvm := (k2.holds.2.2.2.2 v).1 h1
    refine ⟨hvm, ?_⟩
    have hpl := room_context hroom hcat hhas (fun w hw => hvars w (by simp [hw])) hvm
    rw [List.nil_append, (same_after k1).1, (same_after k3).2] at h2
    exact (varCtx_iff S hE k2.mem hvm hpl).1 h2
  · intro hk pre u post he hn v hv hcp
    subst he
    obtain ⟨pre', s, post', rfl, k1, k2, k3⟩ := forall₂_split_right hs
    have h2 := allSteps_iff.1 hk pre' s post' rfl (by rw [← k2.by_]; exact hn) v ((k2.holds.2.2.2.2 v).2 hv)
      (by rw [hcp, k2.seq])
    have hpl := room_context hroom hcat hhas (fun w hw => hvars w (by simp [hw])) hv
    rw [List.nil_append, (same_after k1).1, (same_after k3).2] at h2
    exact fun h3 => h2 ((varCtx_iff S hE k2.mem hv hpl).2 h3)

theorem rewrites_of_replaces {R : Reader} {is : List C105.Item} {es : List Node} {g : Loaded} (S : Setting R is es g)
    {env : Env} (hE : Faithful R.props g.rules.rs env) {label : Seq} (hroom : Room is label) {us : List Use}
    (hr : Replaces R.props is es label us) {ss : List Step} (hs : List.Forall₂ (Same is g.lgr.rep) ss us) :
    Rewrites env g.lgr.rep label ss := by
  have hvars : ∀ w ∈ us, ∀ v, w.by_ = some v → v ∈ w.item.vars := by
    intro w hw v hv
    obtain ⟨pre, post, rfl⟩ := List.append_of_mem hw
    exact (hr.used pre w post rfl v hv).1
  refine ⟨by rw [(same_after hs).2]; exact hr.concat, (same_has hs).2, allSteps_iff.2 ?_⟩
  intro pre s post he v hv
  subst he
  obtain ⟨pre', u, post', rfl, k1, k2, k3⟩ := forall₂_split_left hs
  obtain ⟨h1, h2⟩ := hr.used pre' u post' rfl v (by rw [k2.by_]; exact hv)
  refine ⟨(k2.holds.2.2.2.2 v).2 h1, ?_⟩
  have hpl := room_context hroom hr.concat hr.has (fun w hw => hvars w (by simp [hw])) h1
  rw [List.nil_append, (same_after k1).1, (same_after k3).2]
  exact (varCtx_iff S hE k2.mem h1 hpl).2 h2

theorem prefixFree {R : Reader} {is : List C105.Item} {es : List Node} {g : Loaded} (S : Setting R is es g)
    (hb : NoBeginning is) : C14.PrefixFree g.lgr.rep := by
  intro c c' h1 h2 h3
  obtain ⟨i, hi, hh⟩ := S.hrep _ _ (getChar_ok.1 h1)
  obtain ⟨j, hj, hh'⟩ := S.hrep _ _ (getChar_ok.1 h2)
  have := hb i hi j hj _ _ hh.1 hh'.1 h3
  rw [this, h2] at h1
  cases h1
  rfl

theorem accepted_iff {R : Reader} {is : List C105.Item} {es : List Node} {g : Loaded} (S : Setting R is es g)
    (hb : NoBeginning is) {env : FullEnv} (hE : Faithful R.props g.rules.rs env.toEnv) {label : Seq}
    (hp : C106.Plain label) : Accepted env g.lgr.rep label ↔ ∃ ks, Made R.props is es label ks := by
  have hone : ∀ i ∈ is, i.attrs.whenR = none ∨ i.attrs.notWhenR = none := fun i hi => (S.fine i hi).1.1
  obtain ⟨p, hpre⟩ := prelim_defined S.common.state.1 (rules_defined S.common hE S.ready S.hrep) label
  unfold Accepted
  rw [hpre]
  constructor
  · rintro ⟨p', he, hok⟩
    cases he
    obtain ⟨ks, h1, -⟩ := made_of_segments S.common hE hp S.solid S.ready hone S.hrep
      (C13.accepted_is_segmentation S.common.state.1 hpre hok).1
    exact ⟨ks, h1⟩
  · rintro ⟨ks, hks⟩
    obtain ⟨cs, hcs⟩ := segments_of_made S.common hE hp S.solid S.ready hone S.hin S.apart S.hrep hks
    exact ⟨p, rfl, (C14.accepts_iff_segmentable_partial S.common.state.1 (prefixFree S hb) hpre).2 ⟨cs, hcs⟩⟩

theorem varDisp_of {R : Reader} {is : List C105.Item} {es : List Node} {g : Loaded} (S : Setting R is es g)
    (hb : NoBeginning is) {env : FullEnv} (hE : FullFaithful R.props g.rules.rs env) {as : List Action}
    (hone : ∀ a ∈ as, a.matchR = none ∨ a.notMatchR = none) (ha : ActsReady es as) {x : Seq} (hp : C106.Plain x)
    {d : DispSet} {only : Bool} {types : Option String → Prop} {o : Prop} (ht : ∀ t, t ∈ d ↔ types t)
    (ho : only = true ↔ o) {disp : Option String} {idx : Int} (h : VariantDisp env g.lgr.rep as x d only disp idx) :
    VarDisp R.props is es as x types o disp idx := by
  have hacc := accepted_iff S hb hE.1 hp
  have h0 : ∀ {s i}, Decides env as x [] false s i ↔ First R.props is es as x (fun _ => False) False s i :=
    fun {s i} => first_iff S.common hE hp S.solid hone ha (by simp) (by simp)
  have h1 : ∀ {s i}, Decides env as x d only s i ↔ First R.props is es as x types o s i :=
    fun {s i} => first_iff S.common hE hp S.solid hone ha ht ho
  unfold VariantDisp at h
  unfold VarDisp
  rw [hacc] at h
  simpa only [h0, h1] using h

theorem setting_of {R : Reader} {cs : Rfc7940.Results} {d : Doc} {g : Loaded} (h : Clear R cs d g)
    {is : List C105.Item} (hm : Means d.data is) (hready : Ready (d.rules.getD []) is)
    (hso : C106.Inhabited R.props is (d.rules.getD [])) : Setting R is (d.rules.getD []) g := by
  obtain ⟨hc, hfine, hin, hrep, hap⟩ := common_of h hm
  exact ⟨hc, hfine, hin, hrep, hap, hready, hso⟩

theorem own_of {R : Reader} {cs : Rfc7940.Results} {d : Doc} {g : Loaded} (h : Clear R cs d g)
    {is : List C105.Item} (hm : Means d.data is) (hready : Ready (d.rules.getD []) is)
    {as : List Action} (has : Acts (d.rules.getD []) as) (htidy : ActsTidy (d.rules.getD []))
    (hacts : ActsReady (d.rules.getD []) as)
    (hso : C106.Inhabited R.props is (d.rules.getD [])) {env : FullEnv} (hE : FullFaithful R.props g.rules.rs env)
    (hb : NoBeginning is) {label : Seq} (hp : C106.Plain label) (hne : label ≠ []) {el : FullEnv.Eligible}
    (hel : env.testEligible g.lgr.rep g.rules.actions label = .ok el) :
    OwnDisp R.props is (d.rules.getD []) as label el.disp el.idx ∧ (el.ok = true ↔ el.disp ≠ some "invalid") := by
  have hacc := accepted_iff (setting_of h hm hready hso) hb hE.1 hp
  obtain ⟨p, el', hpre, hel', hrej, hok⟩ := document_disposition_partial h hm hready has htidy hacts hso hE hp hne
  have e : el' = el := by
    rw [hel] at hel'
    cases hel'
    rfl
  subst e
  unfold Accepted at hacc
  rw [hpre] at hacc
  unfold OwnDisp
  rw [← hacc]
  cases hpo : p.ok with
  | false =>
    obtain ⟨k1, k2, k3⟩ := hrej hpo
    refine ⟨.inl ⟨?_, k2, k3⟩, by rw [k1, k2]; simp⟩
    rintro ⟨p', he, hp'⟩
    cases he
    rw [hpo] at hp'
    cases hp'
  | true =>
    obtain ⟨s, k1, k2, k3⟩ := hok hpo
    exact ⟨.inr ⟨⟨p, rfl, hpo⟩, s, k1, k3⟩, by rw [k2, k1]; simp⟩

/-- **C111** (partial) With items of which none is the beginning of another, and with room in the label,
`compute_label_disposition` raises nothing under the LGR read from a document. The variant labels listed result from
replacing parts of the label by variants of the items of the document, in the context these ask for, with exactly the
types of the variants used, and have the disposition of the first action which fires, unless invalid by themselves;
each such label is listed, unless it is invalid and invalid ones are not asked for. The label itself comes last; its
disposition is its own one, or, if that is not invalid, the one for the mappings to itself which were used.
Missing: items of which one is the beginning of another (variants are missed, C23), hiding of variants of mixed scripts,
labels which get longer than 63 code points, and what is missing in `document_disposition_partial`. -/
theorem document_variants_partial {R : Reader} {cs : Rfc7940.Results} {d : Doc} {g : Loaded} (h : Clear R cs d g)
    {is : List C105.Item} (hm : Means d.data is) (hready : Ready (d.rules.getD []) is)
    {as : List Action} (has : Acts (d.rules.getD []) as) (htidy : ActsTidy (d.rules.getD []))
    (hacts : ActsReady (d.rules.getD []) as)
    (hso : C106.Inhabited R.props is (d.rules.getD [])) {env : FullEnv} (hE : FullFaithful R.props g.rules.rs env)
    (hb : NoBeginning is) {label : Seq} (hp : C106.Plain label) (hne : label ≠ []) (hroom : Room is label)
    {o : FullEnv.Options} (hhide : o.hide = false) :
    ∃ its last, env.computeDisposition g.lgr.rep g.rules.actions true o label = .ok (its ++ [last]) ∧
      (∀ it ∈ its, it.cps ≠ label ∧ (o.withLabels ≠ [] → it.cps ∈ o.withLabels) ∧
        ∃ us, Replaces R.props is (d.rules.getD []) label us ∧ Settled R.props is (d.rules.getD []) us ∧
          it.cps = after us ∧ (∀ t, t ∈ it.types ↔ UseTypes us t) ∧
          VarDisp R.props is (d.rules.getD []) as it.cps (UseTypes us) (AllUsed us) it.disp it.idx) ∧
      (∀ us, Replaces R.props is (d.rules.getD []) label us → after us ≠ label →
        (o.withLabels ≠ [] → after us ∈ o.withLabels) →
        (∃ it ∈ its, it.cps = after us) ∨
        o.includeInvalid = false ∧ ∃ us' i, Replaces R.props is (d.rules.getD []) label us' ∧
          Settled R.props is (d.rules.getD []) us' ∧ after us' = after us ∧
          VarDisp R.props is (d.rules.getD []) as (after us) (UseTypes us') (AllUsed us') (some "invalid") i) ∧
      last.cps = label ∧
      (OwnDisp R.props is (d.rules.getD []) as label last.disp last.idx ∨
        ∃ us s, Replaces R.props is (d.rules.getD []) label us ∧ Settled R.props is (d.rules.getD []) us ∧
          after us = label ∧ (∀ t, t ∈ last.types ↔ UseTypes us t) ∧
          (∃ d1 i, d1 ≠ some "invalid" ∧ OwnDisp R.props is (d.rules.getD []) as label d1 i) ∧ last.disp = some s ∧
          First R.props is (d.rules.getD []) as label (UseTypes us) (AllUsed us) s last.idx) := by
  have S := setting_of h hm hready hso
  obtain ⟨cs1, hread, -⟩ := h.read
  have hactions := (doc_actions hread htidy).1 has
  have hone2 := acts_one (doc_parsed hread)
  have hown := fun el hel => own_of h hm hready has htidy hacts hso hE hb hp hne (el := el) hel
  rw [hactions] at hone2 hown
  rw [hactions]
  have hwf := S.common.state.1
  have hdef := rules_defined S.common hE.1 hready S.hrep
  have hA : ∀ l, C20.ActionRulesDefined env as l := by
    intro l a ha r hr
    obtain ⟨e, he, h1, h2, -⟩ := hacts a ha r hr
    exact found_defined S.common hE he h1 h2 l
  obtain ⟨out, hout⟩ := C25.listing_total hwf hdef hA o hne hp.1
  obtain ⟨gs, its, orig, last, hgs, -, -, rfl, hlast, hL, horig⟩ := compute_split hout
  rw [hhide] at hgs
  -- what is generated
  have hgen : ∀ x ∈ gs, ∃ us, Replaces R.props is (d.rules.getD []) label us ∧ Settled R.props is (d.rules.getD []) us ∧
      x.cps = after us ∧ (∀ t, t ∈ x.disp ↔ UseTypes us t) ∧ (x.only = true ↔ AllUsed us) ∧ C106.Plain x.cps := by
    intro x hx
    obtain ⟨ss, h1, -, h3, -, rfl⟩ := (C22.generated_exact hwf hne hgs x).1 hx
    obtain ⟨us, hus⟩ := same_of_steps S h1.stored
    obtain ⟨k1, k2⟩ := replaces_of_rewrites S hE.1 hroom h1 hus
    have hcps : (build ss).cps = after us := by rw [build_cps, (same_after hus).1]
    refine ⟨us, k1, k2 h3, hcps, fun t => ?_, ?_, ?_⟩
    · rw [build_disp]
      constructor
      · rintro ⟨u, rfl, hu⟩; exact (same_types hus u).1 hu
      · rintro ⟨u, hu, v, s, e1, e2, rfl⟩
        exact ⟨s, rfl, (same_types hus s).2 ⟨u, hu, v, s, e1, e2, rfl⟩⟩
    · rw [build_only, same_only hus]
    · rw [hcps]
      refine hroom us k1.concat fun u hu => ⟨(k1.has u hu).1, (k1.has u hu).2, fun v hv => ?_⟩
      obtain ⟨pre, post, rfl⟩ := List.append_of_mem hu
      exact (k1.used pre u post rfl v hv).1
  refine ⟨its, last, hout, ?_, ?_, hlast, ?_⟩
  · intro it hit
    obtain ⟨x, hx, hi, hw⟩ := hL.source it hit
    have hc := itemOf_cps hi
    have hn := hL.notOrig it hit
    obtain ⟨ht, hv⟩ := itemOf_variant hwf hi (by rw [← hc]; exact hn)
    obtain ⟨us, k1, k2, k3, k4, k5, k6⟩ := hgen x hx
    refine ⟨hn, by rw [hc]; exact hw, us, k1, k2, hc.trans k3, by rw [ht]; exact k4, ?_⟩
    rw [hc]
    exact varDisp_of S hb hE hone2 hacts k6 k4 k5 hv
  · intro us hus hn hw
    obtain ⟨ss, hss⟩ := steps_of_same S hus.has
    have hr := rewrites_of_replaces S hE.1 hroom hus hss
    have hmv : ∃ s ∈ ss, s.2.isSome = true := by
      by_contra hno
      apply hn
      rw [← hus.concat, ← (same_after hss).1, ← (same_after hss).2]
      unfold outOf origOf
      refine List.flatMap_congr fun s hs => ?_
      have : s.2 = none := by
        cases h2 : s.2 with
        | none => rfl
        | some v => exact absurd ⟨s, hs, by rw [h2]; rfl⟩ hno
      unfold Step.out
      rw [this]
    obtain ⟨x, hx, hxo⟩ := C23.no_variant_missed_partial hwf (C23.extend_of_prefixFree (prefixFree S hb)) hgs hr hmv
    have hxu : x.cps = after us := by rw [hxo, (same_after hss).1]
    obtain ⟨y, hy, hyx, it, hit, h1⟩ := hL.complete x hx (by rw [hxu]; exact hw) (by simp)
    rcases h1 with h1 | ⟨-, h1⟩ | ⟨h1, -⟩
    · obtain ⟨us', k1, k2, k3, k4, k5, k6⟩ := hgen y hy
      obtain ⟨-, hv⟩ := itemOf_variant hwf hit (by rw [hyx, hxu]; exact hn)
      refine .inr ⟨h1.1, us', it.idx, k1, k2, by rw [← k3, hyx, hxu], ?_⟩
      rw [h1.2] at hv
      have := varDisp_of S hb hE hone2 hacts k6 k4 k5 hv
      rw [hyx, hxu] at this
      exact this
    · exact .inl ⟨it, h1, by rw [itemOf_cps hit, hyx, hxu]⟩
    · exact absurd (hxu.symm.trans h1) hn
  · rcases horig with rfl | ⟨-, -, -, el, hel, h1, h2⟩
    · rcases hL.origSource last rfl with h0 | ⟨x, hx, hi, -⟩
      · cases h0
      · have hc := itemOf_cps hi
        have hxl : x.cps = label := by rw [← hc, hlast]
        obtain ⟨us, k1, k2, k3, k4, k5, k6⟩ := hgen x hx
        unfold FullEnv.itemOf at hi
        rw [hxl] at hi
        simp only [ne_eq, not_true_eq_false, decide_false] at hi
        cases hel : env.testEligible g.lgr.rep as label with
        | error e => rw [hel] at hi; cases hi
        | ok el =>
          rw [hel] at hi
          obtain ⟨o1, o2⟩ := hown el hel
          cases hok : el.ok with
          | false =>
            simp only [hok, Bool.not_false, if_true] at hi
            cases hi
            left
            have : el.disp = some "invalid" := by
              by_contra hc
              rw [o2.2 hc] at hok
              cases hok
            rw [← this]
            exact o1
          | true =>
            simp only [hok, Bool.not_true, Bool.false_eq_true, if_false] at hi
            cases happ : applyActions env as label x.disp x.only with
            | error e => rw [happ] at hi; cases hi
            | ok z =>
              obtain ⟨dd, i⟩ := z
              rw [happ] at hi
              obtain ⟨s, rfl, hs⟩ := decides_of_ok happ
              cases hi
              refine .inr ⟨us, s, k1, k2, k3.symm.trans hxl, k4, ⟨el.disp, el.idx, o2.1 hok, o1⟩, rfl, ?_⟩
              exact (first_iff S.common hE hp S.solid hone2 hacts k4 k5).1 hs
    · left
      rw [h1, h2]
      exact (hown el hel).1

/-! ## Room -/

/-- Variants which are not longer than what they replace, without line feeds, leave room. -/
theorem room_of_short {is : List C105.Item} {label : Seq} (hp : C106.Plain label)
    (hv : ∀ i ∈ is, ∀ k, i.Has k → ∀ v ∈ i.vars, v.cp.length ≤ k.length ∧ ∀ x ∈ v.cp, Re.newline x = false) :
    Room is label := by
  intro us hcat hu
  subst hcat
  obtain ⟨h1, h2⟩ := hp
  refine ⟨?_, ?_⟩
  · refine le_trans ?_ h1
    clear h1 h2
    induction us with
    | nil => exact le_refl _
    | cons u us ih =>
      have := ih (fun w hw => hu w (List.mem_cons_of_mem _ hw))
      obtain ⟨k1, k2, k3⟩ := hu u List.mem_cons_self
      have : u.out.length ≤ u.seq.length := by
        unfold Use.out
        cases hb : u.by_ with
        | none => exact le_refl _
        | some v => exact (hv _ k1 _ k2 v (k3 v hb)).1
      simp only [after, before, List.flatMap_cons, List.length_append] at *
      omega
  · intro x hx
    obtain ⟨u, hm, hx⟩ := List.mem_flatMap.1 hx
    obtain ⟨k1, k2, k3⟩ := hu u hm
    unfold Use.out at hx
    cases hb : u.by_ with
    | none =>
      rw [hb] at hx
      exact h2 x (List.mem_flatMap.2 ⟨u, hm, hx⟩)
    | some v =>
      rw [hb] at hx
      exact (hv _ k1 _ k2 v (k3 v hb)).2 x hx

end Lgr.Props.C111

import Verif.Props.Expand

/-!
# C06 and C07: intact ranges, tag classes
-/

namespace Lgr.Props
open Lgr Repertoire LGR

theorem delTag_wf {c : CharObj} (t : String) (h : CharWF c) : CharWF (c.delTag t) := by
  obtain ⟨h1, h2⟩ := h
  exact ⟨⟨h1.1, h1.2, h1.3, h1.4, h1.5⟩, h2⟩

/-! ### Intact ranges -/

/-- Every declared range is fully present, its members share one set of attributes and have no
variants; every range character belongs to a declared range. -/
structure Intact (r : Repertoire) : Prop where
  full : ∀ f l, (f, l) ∈ r.ranges → f < l ∧ ∃ a : Attrs, ∀ x, f ≤ x → x ≤ l →
    r.lookup [x] = some { cp := [x], range := some (f, l), attrs := a }
  marked : ∀ k c p, r.lookup k = some c → c.range = some p → p ∈ r.ranges
  nodup : r.ranges.Nodup

theorem Intact.expandable {r : Repertoire} (h : Intact r) : C06.Expandable r := by
  intro f l hm
  obtain ⟨h1, a, ha⟩ := h.full f l hm
  exact ⟨h1, a, fun x hx hl => ⟨_, ha x hx hl⟩⟩

/-- A change of entries that belong to no range. -/
theorem intact_change {r r' : Repertoire} (h : Intact r) {s : Seq} {oc : Option CharObj}
    (hs : ∀ c, r.lookup s = some c → c.range = none) (hc : ∀ c, oc = some c → c.range = none)
    (hl : ∀ k, r'.lookup k = if k = s then oc else r.lookup k) (hr : r'.ranges = r.ranges) :
    Intact r' := by
  refine ⟨?_, ?_, by rw [hr]; exact h.nodup⟩
  · intro f l hm
    rw [hr] at hm
    obtain ⟨h1, a, ha⟩ := h.full f l hm
    refine ⟨h1, a, fun x hx hx' => ?_⟩
    rw [hl, if_neg, ha x hx hx']
    intro he
    have := hs _ (he ▸ ha x hx hx')
    simp at this
  · intro k c p hk hp
    rw [hl] at hk
    rw [hr]
    split at hk
    · rw [hc c hk] at hp; simp at hp
    · exact h.marked k c p hk hp

theorem intact_map {r r' : Repertoire} (h : Intact r) {F : CharObj → CharObj} (FA : Attrs → Attrs)
    (hF : ∀ x rg a, F { cp := [x], range := rg, attrs := a } = { cp := [x], range := rg, attrs := FA a })
    (hrg : ∀ c, (F c).range = c.range)
    (hl : ∀ k, r'.lookup k = (r.lookup k).map F) (hr : r'.ranges = r.ranges) : Intact r' := by
  refine ⟨?_, ?_, by rw [hr]; exact h.nodup⟩
  · intro f l hm
    rw [hr] at hm
    obtain ⟨h1, a, ha⟩ := h.full f l hm
    exact ⟨h1, FA a, fun x hx hx' => by rw [hl, ha x hx hx', Option.map_some, hF]⟩
  · intro k c p hk hp
    rw [hl] at hk
    obtain ⟨d, hd, rfl⟩ := Option.map_eq_some_iff.1 hk
    rw [hr]; exact h.marked k d p hd (by rw [← hrg]; exact hp)

theorem intact_addCp (db : UniDb) (g : LGR) (h : Intact g.rep) (arg : CpArg) (o : Opts) :
    Intact (g.addCp db arg o).1.rep := by
  cases ho : (g.addCp db arg o).2 with
  | error e => rw [C02.add_cp_atomic db g arg o e ho]; exact h
  | ok u =>
    obtain ⟨s, _, hn, hl, hr, _⟩ := C50.add_cp_effect db g arg o ho
    exact intact_change h (s := s) (by simp [hn]) (by simp) hl hr

theorem intact_addRange (db : UniDb) (g : LGR) (hwf : WF g.rep) (h : Intact g.rep) (f l : Nat)
    (o : Opts) (ho : (g.addRange db f l o).2 = .ok ()) : Intact (g.addRange db f l o).1.rep := by
  obtain ⟨_, rs, hsep, hcov, hin, hout, hr, _⟩ := C04.add_range_exact db g hwf f l o ho
  generalize (g.addRange db f l o).1 = g' at *
  have hold : ∀ k c, g.rep.lookup k = some c → g'.rep.lookup k = some c := by
    intro k c hk
    rw [hout, hk]
    intro x hx hkx
    subst hkx
    have := ((hcov x).1 hx).2.2.1
    rw [hk] at this; simp at this
  refine ⟨?_, ?_, ?_⟩
  · intro f' l' hm
    rw [hr, List.mem_append] at hm
    rcases hm with hm | hm
    · obtain ⟨h1, a, ha⟩ := h.full f' l' hm
      exact ⟨h1, a, fun x hx hx' => hold _ _ (ha x hx hx')⟩
    · obtain ⟨hm, hne⟩ := List.mem_filter.1 hm
      have hne : f' ≠ l' := by simpa using hne
      have hle : f' ≤ l' := (hsep.1 _ hm)
      refine ⟨by omega, ⟨o.comment, C50.knownRefs g o, o.tag, o.whenR, o.notWhenR⟩, fun x hx hx' => ?_⟩
      rw [hin _ hm x hx hx']
      simp [hne]
  · intro k c p hk hp
    rw [hr, List.mem_append]
    by_cases hc : ∃ x, C05.Covers rs x ∧ k = [x]
    · obtain ⟨x, ⟨q, hq, h1, h2⟩, rfl⟩ := hc
      rw [hin q hq x h1 h2] at hk
      simp only [Option.some.injEq] at hk
      subst hk
      simp only at hp
      split at hp
      · simp at hp
      · rename_i hne
        cases hp
        exact .inr (List.mem_filter.2 ⟨hq, by simpa using hne⟩)
    · rw [hout k (fun x hx hkx => hc ⟨x, hx, hkx⟩)] at hk
      exact .inl (h.marked k c p hk hp)
  · rw [hr]
    refine List.Nodup.append h.nodup ?_ ?_
    · apply List.Nodup.filter
      have : rs.Pairwise (fun a b => a ≠ b) := by
        refine hsep.2.imp_of_mem fun {a b} ha hb hab he => ?_
        subst he
        have := hsep.1 a ha
        omega
      exact this
    · intro p hp hp'
      obtain ⟨f', l'⟩ := p
      have hq := (List.mem_filter.1 hp').1
      obtain ⟨h1, a, ha⟩ := h.full f' l' hp
      have := ((hcov f').1 ⟨_, hq, le_rfl, h1.le⟩).2.2.1
      rw [ha f' le_rfl h1.le] at this
      simp at this

theorem intact_delRange (g : LGR) (hwf : WF g.rep) (h : Intact g.rep) (f l : Nat)
    : Intact (g.delRange f l).1.rep := by
  unfold LGR.delRange Repertoire.delRange
  by_cases h0 : l < f
  · rw [if_pos h0]; exact h
  rw [if_neg h0]
  by_cases h0 : ¬ f < l
  · rw [if_pos h0]; exact h
  rw [if_neg h0]
  by_cases hm : (f, l) ∉ g.rep.ranges
  · rw [if_pos hm]; exact h
  rw [if_neg hm]
  have hm : (f, l) ∈ g.rep.ranges := by simpa using hm
  obtain ⟨h1, a, ha⟩ := h.full f l hm
  obtain ⟨hw, hr, hcase⟩ := delRangeLoop_spec (cpRange f l) (cpRange_nodup f l) g.rep hwf
  generalize delRangeLoop g.rep (cpRange f l) = res at *
  obtain ⟨r', o⟩ := res
  rcases hcase with ⟨ho, _, hlk⟩ | ⟨pre, x, post, hcps, hno, _⟩
  · simp only at ho hr hlk; subst ho
    simp only
    have hmem : ∀ p, p ∈ r'.ranges.erase (f, l) ↔ p ≠ (f, l) ∧ p ∈ g.rep.ranges := by
      intro p; rw [hr]; exact h.nodup.mem_erase_iff
    refine ⟨?_, ?_, by rw [hr]; exact h.nodup.erase _⟩
    · intro f' l' hm'
      obtain ⟨hne, hm'⟩ := (hmem _).1 hm'
      obtain ⟨h1', a', ha'⟩ := h.full f' l' hm'
      refine ⟨h1', a', fun x hx hx' => ?_⟩
      rw [lookup_ranges, hlk, if_neg, ha' x hx hx']
      rintro ⟨y, hy, hxy⟩
      cases hxy
      rw [mem_cpRange] at hy
      have := ha' x hx hx'
      rw [ha x hy.1 hy.2] at this
      simp at this
      exact hne (by rw [this.1.1, this.1.2])
    · intro k c p hk hp
      rw [lookup_ranges, hlk] at hk
      split at hk
      · simp at hk
      rename_i hnk
      refine (hmem p).2 ⟨?_, h.marked k c p hk hp⟩
      rintro rfl
      obtain ⟨x, hx, h2, h3⟩ := (lookup_charWF hwf hk).rangeCp f l hp
      rw [lookup_cp hk] at hx
      exact hnk ⟨x, mem_cpRange.2 ⟨h2, h3⟩, hx⟩
  · have : x ∈ cpRange f l := by rw [hcps]; simp
    rw [mem_cpRange] at this
    rw [ha x this.1 this.2] at hno; simp at hno

theorem expandRange_cases (db : UniDb) (g : LGR) (h : WF g.rep) (hx : Intact g.rep) (f l : Nat) :
    (∃ e, g.expandRange db f l = (g, .error e)) ∨
    ((f, l) ∈ g.rep.ranges ∧ C50.IdnaOk db g [f]) := by
  by_cases hm : (f, l) ∈ g.rep.ranges
  · by_cases hid : C50.IdnaOk db g [f]
    · exact .inr ⟨hm, hid⟩
    · left
      unfold LGR.expandRange
      split
      · exact ⟨_, rfl⟩
      have : ∃ e, g.getChar db (.int f) = .error e := by
        unfold LGR.getChar
        cases hc : checkConvert db g.raiseInvalid (.int f) with
        | error e => exact ⟨e, rfl⟩
        | ok s =>
          obtain ⟨hd, h2⟩ := C50.checkConvert_ok.1 hc
          cases hd
          exact absurd h2 hid
      obtain ⟨e, he⟩ := this
      exact ⟨e, by rw [he]⟩
  · left
    unfold LGR.expandRange
    split
    · exact ⟨_, rfl⟩
    cases g.getChar db (.int f) with
    | error e => exact ⟨e, rfl⟩
    | ok c =>
      simp only
      unfold Repertoire.delRange
      by_cases h0 : ¬ f < l
      · rw [if_pos h0]; exact ⟨_, rfl⟩
      · rw [if_neg h0, if_pos hm]; exact ⟨_, rfl⟩

theorem intact_expandRange (db : UniDb) (g : LGR) (hwf : WF g.rep) (h : Intact g.rep) (f l : Nat) :
    Intact (g.expandRange db f l).1.rep := by
  rcases expandRange_cases db g hwf h f l with ⟨e, he⟩ | ⟨hm, hid⟩
  · rw [he]; exact h
  obtain ⟨r', he, hwf', hr, _, hl⟩ := C06.expandRange_spec db g hwf h.expandable hm hid
  rw [he]
  simp only
  have hmem : ∀ p, p ∈ r'.ranges ↔ p ≠ (f, l) ∧ p ∈ g.rep.ranges := by
    intro p; rw [hr]; exact h.nodup.mem_erase_iff
  obtain ⟨h1, a, ha⟩ := h.full f l hm
  refine ⟨?_, ?_, by rw [hr]; exact h.nodup.erase _⟩
  · intro f' l' hm'
    obtain ⟨hne, hm'⟩ := (hmem _).1 hm'
    obtain ⟨h1', a', ha'⟩ := h.full f' l' hm'
    refine ⟨h1', a', fun x hx hx' => ?_⟩
    rw [hl, if_neg, ha' x hx hx']
    rintro ⟨y, hy, hy', hxy⟩
    cases hxy
    have := ha' x hx hx'
    rw [ha x hy hy'] at this
    simp at this
    exact hne (by rw [this.1.1, this.1.2])
  · intro k c p hk hp
    rw [hl] at hk
    split at hk
    · obtain ⟨d, _, rfl⟩ := Option.map_eq_some_iff.1 hk
      simp [C06.noRange] at hp
    rename_i hnk
    refine (hmem p).2 ⟨?_, h.marked k c p hk hp⟩
    rintro rfl
    obtain ⟨x, hx, h2, h3⟩ := (lookup_charWF hwf hk).rangeCp f l hp
    rw [lookup_cp hk] at hx
    exact hnk ⟨x, h2, h3, hx⟩

theorem wf_expandRange (db : UniDb) (g : LGR) (hwf : WF g.rep) (f l : Nat) :
    WF (g.expandRange db f l).1.rep :=
  (inv_expandRange (P := fun _ => True) (fun _ _ _ => trivial) ⟨hwf, fun _ _ _ => trivial⟩ f l).wf

theorem intact_expandLoop (db : UniDb) (rs : List (Nat × Nat)) (g : LGR) (hwf : WF g.rep)
    (h : Intact g.rep) : Intact (g.expandLoop db rs).1.rep := by
  induction rs generalizing g with
  | nil => exact h
  | cons p rs ih =>
    obtain ⟨f, l⟩ := p
    unfold LGR.expandLoop
    have h1 := intact_expandRange db g hwf h f l
    have h2 := wf_expandRange db g hwf f l
    generalize g.expandRange db f l = res at *
    obtain ⟨g', o⟩ := res
    cases o with
    | error e => exact h1
    | ok u => exact ih g' h2 h1

/-- Calls that keep ranges intact: all, except deleting a single member of a range, and adding a range
(directly or in bulk) with a call that raises part-way. -/
def RangeSafe (ctx : Ctx) (g : LGR) : LGR.Op → Prop
  | .delCp arg => ∀ s c, C50.Denotes arg s → g.rep.lookup s = some c → c.range = none
  | .addRange f l o => (g.addRange ctx.db f l o).2 = .ok () ∨ (g.addRange ctx.db f l o).1 = g
  | .addCodepoints cps o => (g.addCodepoints ctx.db cps o).2 = .ok ()
  | _ => True

theorem addCollapsed_ok {db : UniDb} {o : Opts} (I : LGR → Prop)
    (hcp : ∀ g s, I g → (g.addCp db (.seq [s]) o).2 = .ok () → I (g.addCp db (.seq [s]) o).1)
    (hr : ∀ g f l, I g → (g.addRange db f l o).2 = .ok () → I (g.addRange db f l o).1)
    (rs : List (Nat × Nat)) {g : LGR} (h : I g) (ho : (g.addCollapsed db o rs).2 = .ok ()) :
    I (g.addCollapsed db o rs).1 := by
  induction rs generalizing g with
  | nil => exact h
  | cons p rs ih =>
    obtain ⟨f, l⟩ := p
    unfold addCollapsed at ho ⊢
    have h2 : (if f = l then g.addCp db (.seq [f]) o else g.addRange db f l o).2 = .ok () →
        I (if f = l then g.addCp db (.seq [f]) o else g.addRange db f l o).1 := by
      split
      · exact hcp g f h
      · exact hr g f l h
    generalize (if f = l then g.addCp db (.seq [f]) o else g.addRange db f l o) = res at *
    obtain ⟨g', out⟩ := res
    cases out with
    | error e => simp at ho
    | ok u => exact ih (h2 rfl) ho

theorem addCodepoints_ok {db : UniDb} {o : Opts} (I : LGR → Prop) (cps : List Nat) {g : LGR}
    (hcp : ∀ g s, I g →
      (g.addCp db (.seq [s]) { comment := o.comment, ref := o.ref, tag := o.tag }).2 = .ok () →
      I (g.addCp db (.seq [s]) { comment := o.comment, ref := o.ref, tag := o.tag }).1)
    (hr : ∀ g f l, I g →
      (g.addRange db f l { comment := o.comment, ref := o.ref, tag := o.tag }).2 = .ok () →
      I (g.addRange db f l { comment := o.comment, ref := o.ref, tag := o.tag }).1)
    (h : I g) (ho : (g.addCodepoints db cps o).2 = .ok ()) : I (g.addCodepoints db cps o).1 := by
  unfold LGR.addCodepoints at ho ⊢
  cases cps with
  | nil => exact h
  | cons c cps =>
    simp only at ho ⊢
    cases hc : collapseCodepoints (c :: cps) with
    | error e => exact h
    | ok rs =>
      rw [hc] at ho
      exact addCollapsed_ok I hcp hr rs h ho

theorem intact_step (ctx : Ctx) (g : LGR) (op : LGR.Op) (hwf : WF g.rep)
    (h : Intact g.rep) (hs : RangeSafe ctx g op) : Intact (LGR.step ctx g op).1.rep := by
  cases op with
  | addCp arg o => exact intact_addCp ctx.db g h arg o
  | delCp arg =>
    simp only [LGR.step]
    cases ho : (g.delCp ctx.db arg).2 with
    | error e => rw [C02.del_cp_atomic ctx.db g arg e ho]; exact h
    | ok u =>
      obtain ⟨s, c, hd, _, hl⟩ := (C50.del_cp_effect ctx.db g hwf arg).1.1 ho
      obtain ⟨hl', hr, _⟩ := (C50.del_cp_effect ctx.db g hwf arg).2 s c hd hl ho
      exact intact_change h (s := s) (oc := none)
        (fun c' hc' => hs s c' hd hc') (by simp) hl' hr
  | addRange f l o =>
    rcases hs with hs | hs
    · exact intact_addRange ctx.db g hwf h f l o hs
    · simp only [LGR.step]; rw [hs]; exact h
  | delRange f l => exact intact_delRange g hwf h f l
  | expandRange f l => exact intact_expandRange ctx.db g hwf h f l
  | expandRanges => exact intact_expandLoop ctx.db _ g hwf h
  | addVariant arg var t o =>
    simp only [LGR.step]
    cases ho : (g.addVariant ctx.db arg var t o).2 with
    | error e => rw [C02.add_variant_atomic ctx.db g arg var t o e ho]; exact h
    | ok u =>
      obtain ⟨s, v, c, c', _, _, hl, hc, _, hc', _, _, hl', hr, _⟩ :=
        C50.add_variant_effect ctx.db g hwf arg var t o ho
      exact intact_change h (s := s) (oc := some c') (by rw [hl]; rintro _ ⟨⟩; exact hc)
        (by rintro _ ⟨⟩; exact hc') hl' hr
  | delVariant arg var w n =>
    have key : Intact (g.delVariant ctx.db arg var w n).1.rep := by
      cases ho : (g.delVariant ctx.db arg var w n).2 with
      | error e => rw [C02.del_variant_atomic ctx.db g arg var w n e ho]; exact h
      | ok b =>
        obtain ⟨s, v, c, c', _, _, hl, hc, _, hc', _, _, _, hl', hr, _⟩ :=
          C50.del_variant_effect ctx.db g hwf arg var w n b ho
        exact intact_change h (s := s) (oc := some c') (by rw [hl]; rintro _ ⟨⟩; exact hc)
          (by rintro _ ⟨⟩; exact hc') hl' hr
    simp only [LGR.step]
    generalize g.delVariant ctx.db arg var w n = res at key ⊢
    obtain ⟨g', o⟩ := res
    cases o <;> exact key
  | addCodepoints cps o =>
    refine (addCodepoints_ok (fun g => WF g.rep ∧ Intact g.rep) cps ?_ ?_ ⟨hwf, h⟩ hs).2
    · intro g s hg _
      exact ⟨(inv_addCp (P := fun _ => True) ⟨hg.1, fun _ _ _ => trivial⟩
        (fun _ _ _ _ => trivial)).wf, intact_addCp ctx.db g hg.2 _ _⟩
    · intro g f l hg ho
      exact ⟨(inv_addRangeL (P := fun _ => True) ⟨hg.1, fun _ _ _ => trivial⟩
        (fun _ _ => trivial) (fun _ _ _ _ => trivial)).wf, intact_addRange ctx.db g hg.1 hg.2 f l _ ho⟩
  | delTag t =>
    exact intact_map h (F := fun c => c.delTag t) (fun a => { a with tags := a.tags.erase t })
      (fun _ _ _ => rfl) (fun _ => rfl)
      (inv_mapChars (P := fun _ => True) (Q := fun _ => True) (F := fun c => c.delTag t)
        ⟨hwf, fun _ _ _ => trivial⟩ (fun _ => rfl) (fun c hc => delTag_wf t hc) (fun _ _ _ => trivial)).2 rfl
  | addReference v k i =>
    simp only [LGR.step]
    have : (g.addReference ctx.valid v k i).1.rep = g.rep := by
      unfold LGR.addReference; split <;> rfl
    generalize g.addReference ctx.valid v k i = res at this ⊢
    obtain ⟨g', o⟩ := res
    simp only at this
    cases o <;> (simp only; rw [this]; exact h)
  | delReference i =>
    have : (LGR.step ctx g (.delReference i)).1.rep = g.rep.mapChars (fun c => c.delReference i) := by
      simp only [LGR.step, LGR.delReference]; split <;> rfl
    rw [this]
    exact intact_map h (F := fun c => c.delReference i) (fun a => { a with refs := a.refs.erase i })
      (fun _ _ _ => rfl) (fun _ => rfl)
      (inv_mapChars (P := fun _ => True) (Q := fun _ => True) (F := fun c => c.delReference i)
        ⟨hwf, fun _ _ _ => trivial⟩ (fun _ => rfl) (fun c hc => delReference_wf i hc) (fun _ _ _ => trivial)).2 rfl
  | setRaise b => exact h

/-! ### Tag classes -/

/-- The class of each tag has exactly the code points carrying the tag; only single code points have
tags, each at most once. -/
structure Mirror (g : LGR) : Prop where
  mirror : ∀ t x, x ∈ C50.tagSet g t ↔ ∃ c, g.rep.lookup [x] = some c ∧ t ∈ c.attrs.tags
  single : ∀ k c, g.rep.lookup k = some c → c.attrs.tags ≠ [] → ∃ x, k = [x]
  tidy : ∀ k c, g.rep.lookup k = some c → c.attrs.tags.Nodup
  keys : (g.tagCls.map Prod.fst).Nodup

theorem addToTags_nodup {cls : List (String × List Nat)} (h : (cls.map Prod.fst).Nodup) (s : Seq)
    (tags : List String) : ((addToTags cls s tags).map Prod.fst).Nodup := by
  unfold addToTags
  induction tags generalizing cls with
  | nil => exact h
  | cons t tags ih => exact ih (dset_nodup h _ _)

theorem delFromTags_nodup {cls : List (String × List Nat)} (h : (cls.map Prod.fst).Nodup) (s : Seq)
    (tags : List String) : ((delFromTags cls s tags).map Prod.fst).Nodup := by
  unfold delFromTags
  induction tags generalizing cls with
  | nil => exact h
  | cons t tags ih =>
    rw [List.foldl_cons]
    apply ih
    split
    · exact dset_nodup h _ _
    · exact h

theorem foldTags_nodup {cls : List (String × List Nat)} (h : (cls.map Prod.fst).Nodup) (cps : List Nat)
    (tags : List String) :
    ((cps.foldl (fun t x => addToTags t [x] tags) cls).map Prod.fst).Nodup := by
  induction cps generalizing cls with
  | nil => exact h
  | cons c cps ih => exact ih (addToTags_nodup h _ _)

theorem keys_addCp {db : UniDb} {g : LGR} (h : (g.tagCls.map Prod.fst).Nodup) (arg : CpArg) (o : Opts) :
    ((g.addCp db arg o).1.tagCls.map Prod.fst).Nodup := by
  unfold LGR.addCp
  split
  · exact h
  · split
    · exact h
    · exact addToTags_nodup h _ _

theorem keys_delCp {db : UniDb} {g : LGR} (h : (g.tagCls.map Prod.fst).Nodup) (arg : CpArg) :
    ((g.delCp db arg).1.tagCls.map Prod.fst).Nodup := by
  unfold LGR.delCp
  split
  · exact h
  · split
    · exact h
    · split
      · exact h
      · exact delFromTags_nodup h _ _

theorem keys_addRange {db : UniDb} {g : LGR} (h : (g.tagCls.map Prod.fst).Nodup) (f l : Nat) (o : Opts) :
    ((g.addRange db f l o).1.tagCls.map Prod.fst).Nodup := by
  rcases C04.addRange_cases db g f l o with ⟨e, he, _⟩ | ⟨cps, hp, he⟩
  · rw [he]; exact h
  · rw [he]
    split
    · exact h
    · exact foldTags_nodup h _ _

theorem mirror_addCp {db : UniDb} {g : LGR} (h : Mirror g) (arg : CpArg) (o : Opts)
    (hs : o.force = false ∨ o.tag = []) : Mirror (g.addCp db arg o).1 := by
  cases ho : (g.addCp db arg o).2 with
  | error e => rw [C02.add_cp_atomic db g arg o e ho]; exact h
  | ok u =>
    obtain ⟨s, hd, hn, hl, hr, ht, _⟩ := C50.add_cp_effect db g arg o ho
    obtain ⟨s', hd', _, _, _, hst⟩ := (C50.add_cp_ok_iff db g arg o).1 ho
    have : s' = s := by cases hd <;> cases hd' <;> rfl
    subst this
    have htag : o.tag ≠ [] → ∃ x, s' = [x] := by
      intro hne
      rcases hs with hf | hf
      · have := (hst hf).2.2
        rcases this with h1 | h1
        · exact absurd h1 hne
        · exact List.length_eq_one_iff.1 h1
      · exact absurd hf hne
    have hnd : o.tag.Nodup := by
      rcases hs with hf | hf
      · exact (hst hf).2.1
      · rw [hf]; exact List.nodup_nil
    refine ⟨?_, ?_, ?_, keys_addCp h.keys arg o⟩
    · intro t x
      rw [ht, hl, h.mirror]
      constructor
      · rintro (⟨c, h1, h2⟩ | ⟨h1, h2⟩)
        · refine ⟨c, ?_, h2⟩
          rw [if_neg, h1]
          rintro rfl; rw [hn] at h1; simp at h1
        · obtain ⟨y, rfl⟩ := htag (by rintro he; rw [he] at h1; simp at h1)
          have : x = y := by simpa using h2
          subst this
          rw [if_pos rfl]
          exact ⟨_, rfl, h1⟩
      · rintro ⟨c, h1, h2⟩
        split at h1
        · rename_i hx
          right
          simp only [Option.some.injEq] at h1
          subst h1
          exact ⟨h2, by rw [← hx]; simp⟩
        · exact .inl ⟨c, h1, h2⟩
    · intro k c hk hne
      rw [hl] at hk
      split at hk
      · rename_i hks
        simp only [Option.some.injEq] at hk
        subst hk
        rw [hks]; exact htag hne
      · exact h.single k c hk hne
    · intro k c hk
      rw [hl] at hk
      split at hk
      · simp only [Option.some.injEq] at hk
        subst hk; exact hnd
      · exact h.tidy k c hk

theorem mirror_delCp {db : UniDb} {g : LGR} (hwf : WF g.rep) (h : Mirror g) (arg : CpArg) :
    Mirror (g.delCp db arg).1 := by
  cases ho : (g.delCp db arg).2 with
  | error e => rw [C02.del_cp_atomic db g arg e ho]; exact h
  | ok u =>
    obtain ⟨s, c, hd, _, hlk⟩ := (C50.del_cp_effect db g hwf arg).1.1 ho
    obtain ⟨hl, hr, ht, _⟩ := (C50.del_cp_effect db g hwf arg).2 s c hd hlk ho
    refine ⟨?_, ?_, ?_, keys_delCp h.keys arg⟩
    · intro t x
      rw [ht, hl, h.mirror]
      constructor
      · rintro ⟨⟨d, h1, h2⟩, h3⟩
        refine ⟨d, ?_, h2⟩
        rw [if_neg, h1]
        rintro rfl
        rw [hlk] at h1; cases h1
        exact h3 ⟨h2, by simp⟩
      · rintro ⟨d, h1, h2⟩
        split at h1
        · simp at h1
        rename_i hxs
        refine ⟨⟨d, h1, h2⟩, ?_⟩
        rintro ⟨h3, h4⟩
        obtain ⟨y, rfl⟩ := h.single s c hlk (by rintro he; rw [he] at h3; simp at h3)
        have : x = y := by simpa using h4
        exact hxs (by rw [this])
    · intro k d hk hne
      rw [hl] at hk
      split at hk
      · simp at hk
      · exact h.single k d hk hne
    · intro k d hk
      rw [hl] at hk
      split at hk
      · simp at hk
      · exact h.tidy k d hk

theorem mirror_addRange {db : UniDb} {g : LGR} (hwf : WF g.rep) (h : Mirror g) (f l : Nat) (o : Opts)
    (hs : o.force = false ∨ o.tag = []) (ho : (g.addRange db f l o).2 = .ok ()) :
    Mirror (g.addRange db f l o).1 := by
  have hk := keys_addRange (db := db) h.keys f l o
  have hnd : o.tag.Nodup := by
    rcases hs with hf | hf
    · have := ((C04.add_range_ok_iff db g hwf f l o).1 ho).2.2.2
      rw [hf] at this
      exact this.1.2
    · rw [hf]; exact List.nodup_nil
  obtain ⟨_, rs, hsep, hcov, hin, hout, hr, ht, _⟩ := C04.add_range_exact db g hwf f l o ho
  generalize (g.addRange db f l o).1 = g' at *
  have hold : ∀ k c, g.rep.lookup k = some c → g'.rep.lookup k = some c := by
    intro k c hk
    rw [hout, hk]
    intro x hx hkx
    subst hkx
    have := ((hcov x).1 hx).2.2.1
    rw [hk] at this; simp at this
  have hnew : ∀ k c, g'.rep.lookup k = some c → g.rep.lookup k = some c ∨
      ∃ x, k = [x] ∧ C05.Covers rs x ∧ c.attrs.tags = o.tag := by
    intro k c hk
    by_cases hc : ∃ x, C05.Covers rs x ∧ k = [x]
    · obtain ⟨x, ⟨q, hq, h1, h2⟩, rfl⟩ := hc
      rw [hin q hq x h1 h2] at hk
      simp only [Option.some.injEq] at hk
      subst hk
      exact .inr ⟨x, rfl, ⟨q, hq, h1, h2⟩, rfl⟩
    · rw [hout k (fun x hx hkx => hc ⟨x, hx, hkx⟩)] at hk
      exact .inl hk
  refine ⟨?_, ?_, ?_, hk⟩
  · intro t x
    rw [ht, h.mirror]
    constructor
    · rintro (⟨c, h1, h2⟩ | ⟨h1, q, hq, h2, h3⟩)
      · exact ⟨c, hold _ _ h1, h2⟩
      · exact ⟨_, hin q hq x h2 h3, h1⟩
    · rintro ⟨c, h1, h2⟩
      rcases hnew _ _ h1 with h3 | ⟨y, hy, hc, he⟩
      · exact .inl ⟨c, h3, h2⟩
      · cases hy
        exact .inr ⟨he ▸ h2, hc⟩
  · intro k c hk hne
    rcases hnew _ _ hk with h3 | ⟨y, hy, _⟩
    · exact h.single k c h3 hne
    · exact ⟨y, hy⟩
  · intro k c hk
    rcases hnew _ _ hk with h3 | ⟨y, hy, _, he⟩
    · exact h.tidy k c h3
    · rw [he]; exact hnd

/-- A change that keeps the tags of every entry and the classes. -/
theorem mirror_same {g g' : LGR} (h : Mirror g) (hc : g'.tagCls = g.tagCls)
    (hl : ∀ k, (g'.rep.lookup k).map (fun c => c.attrs.tags) = (g.rep.lookup k).map (fun c => c.attrs.tags)) :
    Mirror g' := by
  have key : ∀ k c, g'.rep.lookup k = some c → ∃ d, g.rep.lookup k = some d ∧ d.attrs.tags = c.attrs.tags := by
    intro k c hk
    have := hl k
    rw [hk] at this
    obtain ⟨d, hd, he⟩ := Option.map_eq_some_iff.1 this.symm
    exact ⟨d, hd, he⟩
  refine ⟨?_, ?_, ?_, by rw [hc]; exact h.keys⟩
  · intro t x
    have : C50.tagSet g' t = C50.tagSet g t := by unfold C50.tagSet; rw [hc]
    rw [this, h.mirror]
    constructor
    · rintro ⟨c, h1, h2⟩
      have := hl [x]
      rw [h1] at this
      obtain ⟨d, hd, he⟩ := Option.map_eq_some_iff.1 this
      exact ⟨d, hd, by rw [he]; exact h2⟩
    · rintro ⟨c, h1, h2⟩
      obtain ⟨d, hd, he⟩ := key _ _ h1
      exact ⟨d, hd, by rw [he]; exact h2⟩
  · intro k c hk hne
    obtain ⟨d, hd, he⟩ := key _ _ hk
    exact h.single k d hd (by rw [he]; exact hne)
  · intro k c hk
    obtain ⟨d, hd, he⟩ := key _ _ hk
    rw [← he]; exact h.tidy k d hd

theorem mirror_expandRange {db : UniDb} {g : LGR} (hwf : WF g.rep) (hi : Intact g.rep) (h : Mirror g)
    (f l : Nat) : Mirror (g.expandRange db f l).1 := by
  rcases expandRange_cases db g hwf hi f l with ⟨e, he⟩ | ⟨hm, hid⟩
  · rw [he]; exact h
  obtain ⟨r', he, _, _, _, hl⟩ := C06.expandRange_spec db g hwf hi.expandable hm hid
  rw [he]
  refine mirror_same h rfl fun k => ?_
  simp only [hl]
  split
  · cases g.rep.lookup k <;> rfl
  · rfl

theorem mirror_expandLoop {db : UniDb} (rs : List (Nat × Nat)) {g : LGR} (hwf : WF g.rep)
    (hi : Intact g.rep) (h : Mirror g) : Mirror (g.expandLoop db rs).1 := by
  induction rs generalizing g with
  | nil => exact h
  | cons p rs ih =>
    obtain ⟨f, l⟩ := p
    unfold LGR.expandLoop
    have h1 := intact_expandRange db g hwf hi f l
    have h2 := wf_expandRange db g hwf f l
    have h3 := mirror_expandRange (db := db) hwf hi h f l
    generalize g.expandRange db f l = res at *
    obtain ⟨g', o⟩ := res
    cases o with
    | error e => exact h3
    | ok u => exact ih h2 h1 h3

/-- Calls that keep tag classes right: not `del_range`; no forced tags; ranges intact when expanded;
`add_range` and `add_codepoints` succeed or leave the LGR unchanged. -/
def TagSafe (ctx : Ctx) (g : LGR) : LGR.Op → Prop
  | .addCp _ o => o.force = false ∨ o.tag = []
  | .addRange f l o => (o.force = false ∨ o.tag = []) ∧
      ((g.addRange ctx.db f l o).2 = .ok () ∨ (g.addRange ctx.db f l o).1 = g)
  | .addCodepoints cps o => (g.addCodepoints ctx.db cps o).2 = .ok ()
  | .expandRange _ _ => Intact g.rep
  | .expandRanges => Intact g.rep
  | .delRange _ _ => False
  | _ => True

theorem mirror_step (ctx : Ctx) (g : LGR) (op : LGR.Op) (hwf : WF g.rep) (h : Mirror g)
    (hs : TagSafe ctx g op) : Mirror (LGR.step ctx g op).1 := by
  cases op with
  | addCp arg o => exact mirror_addCp h arg o hs
  | delCp arg => exact mirror_delCp hwf h arg
  | addRange f l o =>
    rcases hs.2 with ho | ho
    · exact mirror_addRange hwf h f l o hs.1 ho
    · simp only [LGR.step]; rw [ho]; exact h
  | delRange f l => exact hs.elim
  | expandRange f l => exact mirror_expandRange hwf hs h f l
  | expandRanges => exact mirror_expandLoop _ hwf hs h
  | addVariant arg var t o =>
    simp only [LGR.step]
    cases ho : (g.addVariant ctx.db arg var t o).2 with
    | error e => rw [C02.add_variant_atomic ctx.db g arg var t o e ho]; exact h
    | ok u =>
      obtain ⟨s, v, c, c', _, _, hl, _, _, _, ha, _, hl', _, _, ht, _⟩ :=
        C50.add_variant_effect ctx.db g hwf arg var t o ho
      refine mirror_same h ht fun k => ?_
      rw [hl']
      split
      · rename_i hk; rw [hk, hl, Option.map_some, Option.map_some, ha]
      · rfl
  | delVariant arg var w n =>
    have key : Mirror (g.delVariant ctx.db arg var w n).1 := by
      cases ho : (g.delVariant ctx.db arg var w n).2 with
      | error e => rw [C02.del_variant_atomic ctx.db g arg var w n e ho]; exact h
      | ok b =>
        obtain ⟨s, v, c, c', _, _, hl, _, _, _, ha, _, _, hl', _, _, ht, _⟩ :=
          C50.del_variant_effect ctx.db g hwf arg var w n b ho
        refine mirror_same h ht fun k => ?_
        rw [hl']
        split
        · rename_i hk; rw [hk, hl, Option.map_some, Option.map_some, ha]
        · rfl
    simp only [LGR.step]
    generalize g.delVariant ctx.db arg var w n = res at key ⊢
    obtain ⟨g', o⟩ := res
    cases o <;> exact key
  | addCodepoints cps o =>
    refine (addCodepoints_ok (fun g => WF g.rep ∧ Mirror g) cps ?_ ?_ ⟨hwf, h⟩ hs).2
    · intro g s hg _
      exact ⟨(inv_addCp (P := fun _ => True) ⟨hg.1, fun _ _ _ => trivial⟩
        (fun _ _ _ _ => trivial)).wf, mirror_addCp hg.2 _ _ (.inl rfl)⟩
    · intro g f l hg ho
      exact ⟨(inv_addRangeL (P := fun _ => True) ⟨hg.1, fun _ _ _ => trivial⟩
        (fun _ _ => trivial) (fun _ _ _ _ => trivial)).wf, mirror_addRange hg.1 hg.2 f l _ (.inl rfl) ho⟩
  | delTag t =>
    have hl := (inv_mapChars (P := fun _ => True) (Q := fun _ => True) (F := fun c => c.delTag t)
        (r := g.rep) ⟨hwf, fun _ _ _ => trivial⟩ (fun _ => rfl) (fun c hc => delTag_wf t hc)
        (fun _ _ _ => trivial)).2
    have hl' : ∀ k c, (g.delTag t).rep.lookup k = some c →
        ∃ d, g.rep.lookup k = some d ∧ c.attrs.tags = d.attrs.tags.erase t := by
      intro k c hk
      have hk : (g.rep.mapChars (fun c => c.delTag t)).lookup k = some c := hk
      rw [hl] at hk
      obtain ⟨d, hd, rfl⟩ := Option.map_eq_some_iff.1 hk
      exact ⟨d, hd, rfl⟩
    refine ⟨?_, ?_, ?_, ddel_nodup h.keys _⟩
    · intro u x
      have : x ∈ C50.tagSet (g.delTag t) u ↔ u ≠ t ∧ x ∈ C50.tagSet g u := by
        show x ∈ (dget (ddel g.tagCls t) u).getD [] ↔ _
        rw [dget_ddel h.keys]
        by_cases hu : u = t
        · subst hu; simp
        · have : t ≠ u := fun h => hu h.symm
          simp [hu, this, C50.tagSet]
      simp only [LGR.step]
      rw [this, h.mirror]
      constructor
      · rintro ⟨hu, c, h1, h2⟩
        refine ⟨c.delTag t, ?_, ?_⟩
        · show (g.rep.mapChars (fun c => c.delTag t)).lookup [x] = _
          rw [hl, h1]; rfl
        · exact (List.mem_erase_of_ne hu).2 h2
      · rintro ⟨c, h1, h2⟩
        obtain ⟨d, hd, he⟩ := hl' _ _ h1
        rw [he] at h2
        have := (h.tidy _ _ hd).mem_erase_iff.1 h2
        exact ⟨this.1, d, hd, this.2⟩
    · intro k c hk hne
      obtain ⟨d, hd, he⟩ := hl' _ _ hk
      refine h.single k d hd ?_
      intro h0; rw [he, h0] at hne; simp at hne
    · intro k c hk
      obtain ⟨d, hd, he⟩ := hl' _ _ hk
      rw [he]; exact (h.tidy _ _ hd).erase _
  | addReference v k i =>
    simp only [LGR.step]
    have : Mirror (g.addReference ctx.valid v k i).1 := by
      unfold LGR.addReference
      split
      · exact h
      · exact mirror_same h rfl fun _ => rfl
    generalize g.addReference ctx.valid v k i = res at this ⊢
    obtain ⟨g', o⟩ := res
    cases o <;> exact this
  | delReference i =>
    have h1 : (LGR.step ctx g (.delReference i)).1.rep = g.rep.mapChars (fun c => c.delReference i) := by
      simp only [LGR.step, LGR.delReference]; split <;> rfl
    have h2 : (LGR.step ctx g (.delReference i)).1.tagCls = g.tagCls := by
      simp only [LGR.step, LGR.delReference]; split <;> rfl
    refine mirror_same h h2 fun k => ?_
    rw [h1, (inv_mapChars (P := fun _ => True) (Q := fun _ => True) (F := fun c => c.delReference i)
        (r := g.rep) ⟨hwf, fun _ _ _ => trivial⟩ (fun _ => rfl) (fun c hc => delReference_wf i hc)
        (fun _ _ _ => trivial)).2]
    cases g.rep.lookup k <;> rfl
  | setRaise b => exact mirror_same h rfl fun _ => rfl

/-- A condition on each call of a history, in the state it is made. -/
def Along (S : Ctx → LGR → LGR.Op → Prop) : LGR → List (Ctx × LGR.Op) → Prop
  | _, [] => True
  | g, p :: ops => S p.1 g p.2 ∧ Along S (LGR.step p.1 g p.2).1 ops

theorem along_inv (S : Ctx → LGR → LGR.Op → Prop) (I : LGR → Prop)
    (hstep : ∀ ctx g op, WF g.rep → I g → S ctx g op → I (LGR.step ctx g op).1)
    (ops : List (Ctx × LGR.Op)) (g : LGR) (hwf : WF g.rep) (hm : (g.refs.refs.map Prod.fst).Nodup)
    (hi : I g) (hs : Along S g ops) : I (LGR.run g ops) := by
  induction ops generalizing g with
  | nil => exact hi
  | cons p ops ih =>
    obtain ⟨h1, h2⟩ := hs
    exact ih _ (step_wf p.1 g p.2 hwf hm) (step_refs_nodup p.1 g p.2 hm) (hstep p.1 g p.2 hwf hi h1) h2

namespace C06

/-- **C06** Ranges of an LGR built through the API are intact, as long as no member of a range is
deleted alone and no call adding a range raises part-way. -/
theorem intact_history (ops : List (Ctx × LGR.Op)) (h : Along RangeSafe {} ops) :
    Intact (LGR.run {} ops).rep :=
  along_inv RangeSafe (fun g => Intact g.rep) (fun ctx g op hw hi hs => intact_step ctx g op hw hi hs)
    ops {} wf_empty (by simp) ⟨fun f l h => absurd h (by simp), by intro k; cases k <;> simp [lookup, bucket, dget], List.nodup_nil⟩ h

theorem diff_same {α : Type} [BEq α] [LawfulBEq α] (l : List α) : l.diff l = [] := by
  induction l with
  | nil => rfl
  | cons a l ih => rw [List.diff_cons, List.erase_cons_head, ih]

theorem expandLoop_error (db : UniDb) (rs : List (Nat × Nat)) (g : LGR) (h : WF g.rep)
    (hx : Intact g.rep) (f l : Nat) (hm : (f, l) ∈ rs) (hid : ¬ C50.IdnaOk db g [f]) :
    (g.expandLoop db rs).2 ≠ .ok () := by
  induction rs generalizing g with
  | nil => simp at hm
  | cons p rs ih =>
    obtain ⟨f', l'⟩ := p
    unfold LGR.expandLoop
    rcases expandRange_cases db g h hx f' l' with ⟨e, he⟩ | ⟨hm', hid'⟩
    · rw [he]; simp
    · have h1 := intact_expandRange db g h hx f' l'
      obtain ⟨r', he, hwf', _⟩ := expandRange_spec db g h hx.expandable hm' hid'
      rw [he] at h1 ⊢
      simp only
      refine ih { g with rep := r' } hwf' h1 ?_ hid
      rcases List.mem_cons.1 hm with hm | hm
      · cases hm; exact absurd hid' hid
      · exact hm

/-- **C06** `expand_ranges` on an LGR with intact ranges succeeds exactly when the first code point of
each range passes the IDNA check. -/
theorem expand_ranges_ok_iff (db : UniDb) (g : LGR) (hwf : WF g.rep) (h : Intact g.rep) :
    (g.expandRanges db).2 = .ok () ↔ ∀ f l, (f, l) ∈ g.rep.ranges → C50.IdnaOk db g [f] := by
  constructor
  · intro ho f l hm
    by_contra hid
    exact expandLoop_error db _ g hwf h f l hm hid ho
  · intro hid
    obtain ⟨r', he, _⟩ := expandLoop_spec db g.rep.ranges g hwf h.expandable (List.Subperm.refl _) hid
    unfold LGR.expandRanges
    rw [he]

/-- **C06** `expand_ranges` on an LGR with intact ranges, when it returns: no range is left, every
entry is as before except that it is not a range member any more, nothing but the repertoire changes
(so rules see the same tag classes), and every label function gives the same result: eligibility,
segmentation, index label, generated variants, dispositions, estimates. -/
theorem expand_ranges_meaning (db : UniDb) (g : LGR) (hwf : WF g.rep) (h : Intact g.rep)
    (ho : (g.expandRanges db).2 = .ok ()) :
    ∃ r', (g.expandRanges db).1 = { g with rep := r' } ∧ r'.ranges = [] ∧
      (∀ k, r'.lookup k = (g.rep.lookup k).map noRange) ∧
      (∀ k c, r'.lookup k = some c → c.range = none) ∧
      (∀ (env : FullEnv) (actions : List Action) (label : Seq),
        (∀ v, env.testEligible r' actions label v =
          (env.testEligible g.rep actions label v).map noRangeE) ∧
        env.partitions r' label = (env.partitions g.rep label).map (List.map (List.map noRange)) ∧
        (∀ n, env.indexLabel r' label n = env.indexLabel g.rep label n) ∧
        (∀ hide, env.genVariants r' hide label = env.genVariants g.rep hide label) ∧
        (∀ hasDb o, env.computeDisposition r' actions hasDb o label =
          env.computeDisposition g.rep actions hasDb o label) ∧
        (∀ hide, env.estimate r' hide label = env.estimate g.rep hide label)) := by
  have hid := (expand_ranges_ok_iff db g hwf h).1 ho
  obtain ⟨r', he, hwf', hr, hlo, hl⟩ :=
    expandLoop_spec db g.rep.ranges g hwf h.expandable (List.Subperm.refl _) hid
  have hl' : ∀ k, r'.lookup k = (g.rep.lookup k).map noRange := by
    intro k
    rw [hl]
    split
    · rfl
    · rename_i hk
      cases hc : g.rep.lookup k with
      | none => rfl
      | some c =>
        cases hrg : c.range with
        | none => cases c; simp_all [noRange]
        | some p =>
          obtain ⟨f, l⟩ := p
          obtain ⟨x, hx, h2, h3⟩ := (lookup_charWF hwf hc).rangeCp f l hrg
          rw [lookup_cp hc] at hx
          exact absurd ⟨f, l, x, h.marked k c (f, l) hc hrg, h2, h3, hx⟩ hk
  have hsim : Sim g.rep r' := sim_of hwf hwf' hlo fun i => hl' [i]
  refine ⟨r', by unfold LGR.expandRanges; rw [he], by rw [hr, diff_same], hl', ?_, ?_⟩
  · intro k c hk
    rw [hl'] at hk
    obtain ⟨d, _, rfl⟩ := Option.map_eq_some_iff.1 hk
    rfl
  · intro env actions label
    exact ⟨fun v => testEligible_sim env hsim actions label v, partitions_sim env.toEnv hsim label,
      fun n => indexLabel_sim env.toEnv hsim label n, fun hide => genVariants_sim env hsim hide label,
      fun hasDb o => computeDisposition_sim env hsim actions hasDb o label,
      fun hide => estimate_sim env hsim hide label⟩

theorem sort_map_noRange (l : List CharObj) :
    sortDesc CharObj.len (l.map noRange) = (sortDesc CharObj.len l).map noRange := by
  have hins : ∀ (a : CharObj) (l : List CharObj),
      (l.map noRange).orderedInsert (fun a b => b.len ≤ a.len) (noRange a) =
        (l.orderedInsert (fun a b => b.len ≤ a.len) a).map noRange := by
    intro a l
    induction l with
    | nil => rfl
    | cons b l ih =>
      simp only [List.map_cons, List.orderedInsert]
      have : ((noRange b).len ≤ (noRange a).len) ↔ (b.len ≤ a.len) := Iff.rfl
      by_cases hc : b.len ≤ a.len
      · rw [if_pos (this.2 hc), if_pos hc]; rfl
      · rw [if_neg (fun h => hc (this.1 h)), if_neg hc, ih]; rfl
  unfold sortDesc
  induction l with
  | nil => rfl
  | cons a l ih => simp only [List.map_cons, List.insertionSort_cons, ih, hins]

/-- Forgetting all range marks. -/
theorem sim_strip (r : Repertoire) : Sim r (r.mapChars noRange) := by
  intro i b
  unfold charsFromPrefix
  have : dget (r.mapChars noRange).dict i = (dget r.dict i).map (List.map noRange) := by
    unfold Repertoire.mapChars
    induction r.dict with
    | nil => rfl
    | cons p d ih =>
      obtain ⟨a, b⟩ := p
      simp only [List.map_cons, dget]
      split <;> simp_all
  rw [this]
  cases dget r.dict i with
  | none => rfl
  | some l =>
    simp only [Option.map_some, Except.map]
    cases b with
    | false => simp [sort_map_noRange]
    | true =>
      simp only [if_true]
      rw [List.filter_map, ← sort_map_noRange]
      rfl

/-- **C06** `expand_range` on an LGR with intact ranges, when it returns: the range is gone from the
list of ranges, its members are as before except that they are not range members any more, other
entries are untouched, and every label function gives the same result. -/
theorem expand_range_meaning (db : UniDb) (g : LGR) (hwf : WF g.rep) (h : Intact g.rep) (f l : Nat)
    (ho : (g.expandRange db f l).2 = .ok ()) :
    ∃ r', (g.expandRange db f l).1 = { g with rep := r' } ∧ r'.ranges = g.rep.ranges.erase (f, l) ∧
      (∀ x, f ≤ x → x ≤ l → r'.lookup [x] = (g.rep.lookup [x]).map noRange) ∧
      (∀ k, (∀ x, f ≤ x → x ≤ l → k ≠ [x]) → r'.lookup k = g.rep.lookup k) ∧
      (∀ (env : FullEnv) (actions : List Action) (label : Seq),
        (∀ v, (env.testEligible r' actions label v).map noRangeE =
          (env.testEligible g.rep actions label v).map noRangeE) ∧
        (env.partitions r' label).map (List.map (List.map noRange)) =
          (env.partitions g.rep label).map (List.map (List.map noRange)) ∧
        (∀ n, env.indexLabel r' label n = env.indexLabel g.rep label n) ∧
        (∀ hide, env.genVariants r' hide label = env.genVariants g.rep hide label) ∧
        (∀ hasDb o, env.computeDisposition r' actions hasDb o label =
          env.computeDisposition g.rep actions hasDb o label) ∧
        (∀ hide, env.estimate r' hide label = env.estimate g.rep hide label)) := by
  rcases expandRange_cases db g hwf h f l with ⟨e, he⟩ | ⟨hm, hid⟩
  · rw [he] at ho; simp at ho
  obtain ⟨r', he, hwf', hr, hlo, hl⟩ := expandRange_spec db g hwf h.expandable hm hid
  refine ⟨r', by rw [he], hr, ?_, ?_, ?_⟩
  · intro x h1 h2; rw [hl, if_pos ⟨x, h1, h2, rfl⟩]
  · intro k hk; rw [hl, if_neg]
    rintro ⟨x, h1, h2, h3⟩; exact hk x h1 h2 h3
  have h1 : Sim r' (r'.mapChars noRange) := sim_strip r'
  have hwf2 : WF (r'.mapChars noRange) ∧
      ∀ k, (r'.mapChars noRange).lookup k = (r'.lookup k).map noRange := by
    have := inv_mapChars (P := fun _ => True) (Q := fun _ => True) (F := noRange) (r := r')
      ⟨hwf', fun _ _ _ => trivial⟩ (fun _ => rfl)
      (fun c hc => ⟨⟨hc.varWF.1, hc.varWF.2, hc.varWF.3, hc.varWF.4, by simp [noRange]⟩, by simp [noRange]⟩)
      (fun _ _ _ => trivial)
    exact ⟨this.1.wf, this.2⟩
  have h2 : Sim g.rep (r'.mapChars noRange) := by
    intro i b
    have hA := h1 i b
    have hB : (r'.charsFromPrefix i b).map (List.map noRange) =
        (g.rep.charsFromPrefix i b).map (List.map noRange) := by
      rw [charsFromPrefix_form hwf, charsFromPrefix_form hwf', hlo]
      have hlk : (r'.lookup [i]).map noRange = (g.rep.lookup [i]).map noRange := by
        rw [hl]
        split
        · cases g.rep.lookup [i] <;> rfl
        · rfl
      cases hc : r'.lookup [i] with
      | none =>
        rw [hc] at hlk
        cases hd : g.rep.lookup [i] with
        | none => rfl
        | some d => rw [hd] at hlk; simp at hlk
      | some c =>
        rw [hc] at hlk
        cases hd : g.rep.lookup [i] with
        | none => rw [hd] at hlk; simp at hlk
        | some d =>
          rw [hd] at hlk
          simp only [Option.map_some, Option.some.injEq] at hlk
          have hv : c.hasVariant = d.hasVariant := by
            have : (noRange c).hasVariant = (noRange d).hasVariant := by rw [hlk]
            exact this
          simp only [reduceCtorEq, and_false, if_false, Except.map, List.map_append,
            Option.filter_some, hv]
          split
          · simp [hlk]
          · rfl
    rw [hA, hB]
  intro env actions label
  refine ⟨fun v => ?_, ?_, fun n => ?_, fun hide => ?_, fun hasDb o => ?_, fun hide => ?_⟩
  · rw [← testEligible_sim env h1, ← testEligible_sim env h2]
  · rw [← partitions_sim env.toEnv h1, ← partitions_sim env.toEnv h2]
  · rw [← indexLabel_sim env.toEnv h1, ← indexLabel_sim env.toEnv h2]
  · rw [← genVariants_sim env h1, ← genVariants_sim env h2]
  · rw [← computeDisposition_sim env h1, ← computeDisposition_sim env h2]
  · rw [← estimate_sim env h1, ← estimate_sim env h2]

/-- No Unicode database. -/
def ctx0 : Ctx := { db := none, valid := fun _ => true, pyInt := fun _ => none }

/-- A history with a range, a sequence starting inside it and a variant. -/
def sample : List (Ctx × LGR.Op) :=
  [(ctx0, .addCp (.seq [98, 120]) {}), (ctx0, .addRange 97 99 { tag := ["t"] }),
   (ctx0, .addCp (.int 120) {}), (ctx0, .addVariant (.int 120) (.seq [98, 120]) none {})]

/-- The sample meets the hypotheses, and expansion changes it. -/
example : Along RangeSafe {} sample ∧ ((LGR.run {} sample).expandRanges none).2 = .ok () ∧
    (LGR.run {} sample).rep.ranges = [(97, 99)] ∧
    ((LGR.run {} sample).expandRanges none).1 ≠ LGR.run {} sample := by
  refine ⟨⟨trivial, .inl (by rfl), trivial, trivial, trivial⟩, by rfl, by rfl, by decide +kernel⟩

/-- Without intact ranges the meaning may change: after deleting a member and adding it back
without its tag, expansion gives it the tag of the range. -/
theorem expand_not_intact :
    ∃ ops, ((LGR.run {} ops).expandRanges none).2 = .ok () ∧
      ((LGR.run {} ops).expandRanges none).1.rep.lookup [98] ≠
        ((LGR.run {} ops).rep.lookup [98]).map noRange := by
  exact ⟨[(ctx0, .addRange 97 99 { tag := ["t"] }), (ctx0, .delCp (.int 98)), (ctx0, .addCp (.int 98) {})],
    by rfl, by decide +kernel⟩

end C06

namespace C07
open C06 (ctx0)

theorem mirror_empty : Mirror {} :=
  ⟨by intro t x; simp [C50.tagSet, dget, lookup, bucket],
   by intro k; cases k <;> simp [lookup, bucket, dget],
   by intro k; cases k <;> simp [lookup, bucket, dget], by simp⟩

/-- **C07** The class of a tag has exactly the code points carrying the tag, after any history of
calls without `del_range`, without forced tags, and with intact ranges when expanding.
Missing: with those the claim is false (see the theorems below). -/
theorem tag_classes_mirror_partial (ops : List (Ctx × LGR.Op)) (h : Along TagSafe {} ops)
    (t : String) (x : Nat) :
    x ∈ C50.tagSet (LGR.run {} ops) t ↔
      ∃ c, (LGR.run {} ops).rep.lookup [x] = some c ∧ t ∈ c.attrs.tags :=
  (along_inv TagSafe Mirror (fun ctx g op hw hi hs => mirror_step ctx g op hw hi hs) ops {} wf_empty
    (by simp) mirror_empty h).mirror t x

example : Along TagSafe {} (C06.sample ++ [(ctx0, .expandRanges), (ctx0, .delCp (.int 98))]) ∧
    C50.tagSet (LGR.run {} (C06.sample ++ [(ctx0, .expandRanges), (ctx0, .delCp (.int 98))])) "t" = [97, 99] := by
  refine ⟨⟨.inl rfl, ⟨.inl rfl, .inl (by rfl)⟩, .inl rfl, trivial, ?_, trivial, trivial⟩, by rfl⟩
  exact C06.intact_history C06.sample ⟨trivial, .inl (by rfl), trivial, trivial, trivial⟩

/-- `del_range` leaves the code points in the class. -/
theorem del_range_stale : ∃ ops t x, x ∈ C50.tagSet (LGR.run {} ops) t ∧
    (LGR.run {} ops).rep.lookup [x] = none :=
  ⟨[(ctx0, .addRange 97 99 { tag := ["t"] }), (ctx0, .delRange 97 99)], "t", 98, by decide +kernel,
    by decide +kernel⟩

/-- Expanding a range one member of which was replaced tags the member without putting it in the
class. -/
theorem expand_missing : ∃ ops t x c, x ∉ C50.tagSet (LGR.run {} ops) t ∧
    (LGR.run {} ops).rep.lookup [x] = some c ∧ t ∈ c.attrs.tags :=
  ⟨[(ctx0, .addRange 97 99 { tag := ["t"] }), (ctx0, .delCp (.int 98)), (ctx0, .addCp (.int 98) {}),
    (ctx0, .expandRanges)], "t", 98, { cp := [98], attrs := { tags := ["t"] } }, by decide +kernel,
    by decide +kernel, by decide +kernel⟩

/-- A forced tag on a sequence puts its code points in the class; deleting the sequence removes from
the class a code point that carries the tag itself. -/
theorem forced_sequence_missing : ∃ ops t x c, x ∉ C50.tagSet (LGR.run {} ops) t ∧
    (LGR.run {} ops).rep.lookup [x] = some c ∧ t ∈ c.attrs.tags :=
  ⟨[(ctx0, .addCp (.int 97) { tag := ["t"] }), (ctx0, .addCp (.seq [97, 98]) { tag := ["t"], force := true }),
    (ctx0, .delCp (.seq [97, 98]))], "t", 97, { cp := [97], attrs := { tags := ["t"] } },
    by decide +kernel, by decide +kernel, by decide +kernel⟩

end C07

end Lgr.Props

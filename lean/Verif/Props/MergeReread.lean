import Verif.Props.MergeChars

/-!
# C45, helpers: the merged LGR written and read again
-/

namespace Lgr.Props.C45
open Lgr LGR Repertoire C50 C26 Compare MergeSet Xml

/-- A list of names written with spaces between and read. -/
def reSplit (l : List String) : List String := splitS (joinS l)

theorem reSplit_words {l : List String} (h : C34.Words l) : reSplit l = l := C34.split_join h

/-- The references of a list that are defined, once it is written and read. -/
def kept (m : RefManager) (l : List String) : List String := (reSplit l).filter (fun i => (dget m.refs i).isSome)

theorem kept_words {m : RefManager} {l : List String} (h : C34.Words l) (hd : ∀ i ∈ l, (dget m.refs i).isSome = true) :
    kept m l = l := by
  unfold kept
  rw [reSplit_words h, List.filter_eq_self]
  exact hd

/-- A variant written and read. -/
def again (m : RefManager) (v : Variant) : Variant := { v with refs := kept m v.refs }

/-- An entry written and read. -/
structure Again (m : RefManager) (c d : CharObj) : Prop where
  range : d.range = none
  attrs : d.attrs = ⟨c.attrs.comment, kept m c.attrs.refs, reSplit c.attrs.tags, c.attrs.whenR, c.attrs.notWhenR⟩
  vars : ∀ u, u ∈ d.getVariants ↔ ∃ v ∈ c.getVariants, u = again m v

theorem getList_any {a : XAttrs} {k : String} {l : List String}
    (h : dget a k = if l = [] then none else some (joinS l)) : getList a k = reSplit l := by
  unfold getList reSplit
  rw [h]
  by_cases hl : l = []
  · subst hl
    have : joinS [] = "" := by decide
    simp [this]
  · simp [hl]

theorem opts_char_any (c : CharObj) : optsOf true (charElem c).attrs =
    { comment := c.attrs.comment, ref := reSplit c.attrs.refs, tag := reSplit c.attrs.tags,
      whenR := c.attrs.whenR, notWhenR := c.attrs.notWhenR, force := true } := by
  unfold optsOf
  rw [getList_any (l := c.attrs.refs), getList_any (l := c.attrs.tags)]
  · unfold charElem
    cases hr : c.range with
    | none => simp [C34.dget_append, C34.dget_opt, C34.dget_list, C34.dget_one]
    | some p => simp [C34.dget_append, C34.dget_opt, C34.dget_list, dget]
  · unfold charElem
    cases hr : c.range with
    | none => simp [C34.dget_append, C34.dget_opt, C34.dget_list, C34.dget_one]
    | some p => simp [C34.dget_append, C34.dget_opt, C34.dget_list, dget]
  · unfold charElem
    cases hr : c.range with
    | none => simp [C34.dget_append, C34.dget_opt, C34.dget_list, C34.dget_one]
    | some p => simp [C34.dget_append, C34.dget_opt, C34.dget_list, dget]

theorem opts_var_any (v : Variant) : varOptsOf true (varAttrs v) =
    { comment := v.comment, ref := reSplit v.refs, whenR := v.whenR, notWhenR := v.notWhenR, force := true } := by
  unfold varOptsOf
  rw [getList_any (l := v.refs) (by simp [varAttrs, C34.dget_append, C34.dget_opt, C34.dget_list, C34.dget_one])]
  simp [varAttrs, C34.dget_append, C34.dget_opt, C34.dget_list, C34.dget_one]

theorem vrep_none (o : Opts) (h : o.vrep = none) (s : Seq) : VRepOk o s := fun c hc => by rw [h] at hc; cases hc

theorem idna_none (g : LGR) (s : Seq) : IdnaOk none g s := fun _ _ h => by cases h

/-- All variants of an entry are read. -/
theorem parse_vars {k : Seq} (hk : k ≠ []) (vs : List Variant) {s : PState} (hwf : WF s.lgr.rep) {c : CharObj}
    (hc : s.lgr.rep.lookup k = some c) (hr : c.range = none) (hv : ∀ v ∈ vs, v.cp ≠ [])
    (hn : (vs.map Variant.key).Nodup) (hd : ∀ v ∈ vs, ∀ u ∈ c.getVariants, u.key ≠ v.key) :
    ∃ s', forEach (parseVar none true k) s (vs.map varAttrs) = (s', .ok ()) ∧
    WF s'.lgr.rep ∧ s'.lgr.refs = s.lgr.refs ∧
    (∃ d, s'.lgr.rep.lookup k = some d ∧ d.range = none ∧ d.attrs = c.attrs ∧
      ∀ u, u ∈ d.getVariants ↔ u ∈ c.getVariants ∨ ∃ v ∈ vs, u = again s.lgr.refs v) ∧
    ∀ j, j ≠ k → s'.lgr.rep.lookup j = s.lgr.rep.lookup j := by
  induction vs generalizing s c with
  | nil => exact ⟨s, rfl, hwf, rfl, ⟨c, hc, hr, rfl, by simp⟩, fun _ _ => rfl⟩
  | cons v vs ih =>
    rw [List.map_cons, List.nodup_cons] at hn
    have hvc := hv v (by simp)
    have hok := (add_variant_ok_iff none s.lgr hwf (.seq k) (.seq v.cp) v.type
      { comment := v.comment, ref := reSplit v.refs, whenR := v.whenR, notWhenR := v.notWhenR, force := true }).2
      ⟨k, v.cp, c, .seq _ hk, idna_none _ _, .seq _ hvc, idna_none _ _, vrep_none _ rfl _, hc, hr,
        by rintro ⟨u, hu, he⟩; exact hd v (by simp) u hu he, by intro h; cases h⟩
    have hw := C30.wf_addVariant (db := none) hwf (.seq k) (.seq v.cp) v.type
      { comment := v.comment, ref := reSplit v.refs, whenR := v.whenR, notWhenR := v.notWhenR, force := true }
    have he := add_variant_effect none s.lgr hwf (.seq k) (.seq v.cp) v.type _ hok
    have hstep : parseVar none true k s (varAttrs v) = Xml.guard true s (s.lgr.addVariant none (.seq k) (.seq v.cp) v.type
        { comment := v.comment, ref := reSplit v.refs, whenR := v.whenR, notWhenR := v.notWhenR, force := true }) := by
      unfold parseVar
      rw [C34.cp_var]
      dsimp only
      rw [C34.type_var, opts_var_any]
    generalize ha : s.lgr.addVariant none (.seq k) (.seq v.cp) v.type
      { comment := v.comment, ref := reSplit v.refs, whenR := v.whenR, notWhenR := v.notWhenR, force := true } = r
      at hok hw he hstep
    obtain ⟨g1, o⟩ := r
    subst hok
    obtain ⟨_, _, c0, d, e1, e2, e3, -, -, e6, e7, e8, e9, -, -, -, e10, -⟩ := he
    cases e1
    cases e2
    rw [hc] at e3
    cases e3
    have h1 : parseVar none true k s (varAttrs v) = ({ s with lgr := g1 }, .ok ()) := by rw [hstep]; rfl
    obtain ⟨s', i0, i1, i2, ⟨c', i3, i4, i5, i6⟩, i7⟩ := ih (s := { s with lgr := g1 }) hw (c := d)
      (by show g1.rep.lookup k = some d; rw [e9, if_pos rfl]) e6 (fun w hw => hv w (by simp [hw])) hn.2 (by
        intro w hw u hu
        rcases (e8 u).1 hu with hu | rfl
        · exact hd w (by simp [hw]) u hu
        · intro hk'
          exact hn.1 (List.mem_map.2 ⟨w, hw, hk'.symm⟩))
    refine ⟨s', by rw [List.map_cons]; unfold forEach; rw [h1]; exact i0, i1, i2.trans e10, ⟨c', i3, i4, i5.trans e7, ?_⟩, ?_⟩
    · intro u
      rw [i6, e8]
      have hr1 : ({ s with lgr := g1 } : PState).lgr.refs = s.lgr.refs := e10
      rw [hr1]
      simp only [List.mem_cons, exists_eq_or_imp]
      have : (⟨v.cp, v.type, v.whenR, v.notWhenR, v.comment, knownRefs s.lgr
        { comment := v.comment, ref := reSplit v.refs, whenR := v.whenR, notWhenR := v.notWhenR, force := true }⟩ : Variant) =
        again s.lgr.refs v := rfl
      rw [this]
      tauto
    · intro j hj
      rw [i7 j hj]
      show g1.rep.lookup j = _
      rw [e9, if_neg hj]

theorem orderCheck_lgr (s : PState) (cp : Seq) : (orderCheck s cp).lgr = s.lgr := by
  unfold orderCheck PState.error
  dsimp only
  split
  · split <;> rfl
  · rfl

/-- An entry is read. -/
theorem parse_char {s : PState} (hwf : WF s.lgr.rep) {c : CharObj} (hr : c.range = none) (hc : CharWF c) (hcp : c.cp ≠ [])
    (hno : s.lgr.rep.lookup c.cp = none) :
    ∃ s', parseElem none true s (charElem c) = (s', .ok ()) ∧
    WF s'.lgr.rep ∧ s'.lgr.refs = s.lgr.refs ∧ (∃ d, s'.lgr.rep.lookup c.cp = some d ∧ Again s.lgr.refs c d) ∧
      ∀ j, j ≠ c.cp → s'.lgr.rep.lookup j = s.lgr.rep.lookup j := by
  have hok := (add_cp_ok_iff none s.lgr (.seq c.cp)
    { comment := c.attrs.comment, ref := reSplit c.attrs.refs, tag := reSplit c.attrs.tags,
      whenR := c.attrs.whenR, notWhenR := c.attrs.notWhenR, force := true }).2
    ⟨c.cp, .seq _ hcp, idna_none _ _, vrep_none _ rfl _, hno, by intro h; cases h⟩
  obtain ⟨k, hk, -, hl, -, -, hrf, -⟩ := add_cp_effect none _ _ _ hok
  cases hk
  have hw := C30.wf_addCp (db := none) hwf (.seq c.cp)
    { comment := c.attrs.comment, ref := reSplit c.attrs.refs, tag := reSplit c.attrs.tags,
      whenR := c.attrs.whenR, notWhenR := c.attrs.notWhenR, force := true }
  generalize ha : s.lgr.addCp none (.seq c.cp)
    { comment := c.attrs.comment, ref := reSplit c.attrs.refs, tag := reSplit c.attrs.tags,
      whenR := c.attrs.whenR, notWhenR := c.attrs.notWhenR, force := true } = r at hok hl hrf hw
  obtain ⟨g1, o⟩ := r
  subst hok
  have hl1 := (hl c.cp).trans (if_pos rfl)
  obtain ⟨s', i0, i1, i2, ⟨d, i3, i4, i5, i6⟩, i7⟩ := parse_vars hcp c.getVariants
    (s := { orderCheck s c.cp with lgr := g1 }) hw hl1 rfl (by
      intro v hv
      exact C26.variant_ne hc.varWF hv) (C34.variants_keys hc.varWF) (by
      intro v _ u hu
      exact absurd hu (C30.new_vars _ _ _))
  refine ⟨s', ?_, i1, i2.trans hrf, ⟨d, i3, i4, i5, ?_⟩, ?_⟩
  · unfold parseElem
    rw [(C34.elem_char hr).1, if_pos rfl, C34.cp_char hr]
    dsimp only
    rw [opts_char_any, orderCheck_lgr, ha]
    rw [(C34.elem_char hr).2]
    exact i0
  · intro u
    rw [i6]
    have hr1 : ({ orderCheck s c.cp with lgr := g1 } : PState).lgr.refs = s.lgr.refs := hrf
    rw [hr1]
    simp [C30.new_vars]
  · intro j hj
    rw [i7 j hj]
    exact (hl j).trans (if_neg hj)

theorem parse_loop (cs : List CharObj) {s : PState} (hwf : WF s.lgr.rep)
    (hr : ∀ c ∈ cs, c.range = none ∧ CharWF c ∧ c.cp ≠ []) (hn : (cs.map CharObj.cp).Nodup)
    (hno : ∀ c ∈ cs, s.lgr.rep.lookup c.cp = none) :
    ∃ s', forEach (parseElem none true) s (cs.map charElem) = (s', .ok ()) ∧
    WF s'.lgr.rep ∧ s'.lgr.refs = s.lgr.refs ∧
      (∀ c ∈ cs, ∃ d, s'.lgr.rep.lookup c.cp = some d ∧ Again s.lgr.refs c d) ∧
      ∀ j, j ∉ cs.map CharObj.cp → s'.lgr.rep.lookup j = s.lgr.rep.lookup j := by
  induction cs generalizing s with
  | nil => exact ⟨s, rfl, hwf, rfl, by simp, fun _ _ => rfl⟩
  | cons c cs ih =>
    rw [List.map_cons, List.nodup_cons] at hn
    obtain ⟨q1, q2, q3⟩ := hr c (by simp)
    obtain ⟨s1, h1, w1, r1, ⟨d, d1, d2⟩, o1⟩ := parse_char hwf q1 q2 q3 (hno c (by simp))
    obtain ⟨s', h2, i1, i2, i3, i4⟩ := ih w1 (fun c hc => hr c (by simp [hc])) hn.2 (by
      intro x hx
      rw [o1 x.cp (fun he => hn.1 (List.mem_map.2 ⟨x, hx, he⟩))]
      exact hno x (by simp [hx]))
    rw [r1] at i3
    refine ⟨s', by rw [List.map_cons]; unfold forEach; rw [h1]; exact h2, i1, i2.trans r1, ?_, ?_⟩
    · intro x hx
      rcases List.mem_cons.1 hx with rfl | hx
      · exact ⟨d, by rw [i4 _ hn.1]; exact d1, d2⟩
      · exact i3 x hx
    · intro j hj
      rw [List.map_cons, List.mem_cons, not_or] at hj
      rw [i4 j hj.2, o1 j hj.1]

/-- What `reread` gives when it gives something. -/
structure Reread (g h : LGR) : Prop where
  wf : WF h.rep
  plain : Plain h
  refs : h.refs = { g.refs with nextId := 0 }
  node : ∀ k, In h k ↔ In g k
  entry : ∀ k d, h.rep.lookup k = some d → ∃ c, g.rep.lookup k = some c ∧ Again g.refs c d

theorem reread_runs {g : LGR} (hwf : WF g.rep) (hp : Plain g) {es : List Elem} (hes : serializeData g.rep = .ok es) :
    ∃ h, reread g = .ok h ∧ Reread g h := by
  unfold reread
  rw [hes]
  unfold serializeData at hes
  simp only at hes
  split at hes
  · cases hes
    have hnone : ∀ k, ({ refs := { g.refs with nextId := 0 }, raiseInvalid := true } : LGR).rep.lookup k = none := by
      intro k; cases k <;> rfl
    obtain ⟨s1, h1, i1, i2, i3, i4⟩ := parse_loop (s := { lgr := { refs := { g.refs with nextId := 0 }, raiseInvalid := true }, prev := [] })
      g.rep.iter (by
        show WF ({ refs := { g.refs with nextId := 0 } } : LGR).rep
        exact ⟨by simp, by simp, by simp, by simp, by simp⟩)
      (fun c hc => by
        have hl := iter_mem hwf hc
        refine ⟨hp _ c hl, lookup_charWF hwf hl, ?_⟩
        intro he
        rw [he] at hl
        simp [lookup] at hl) (iter_nodup hwf) (fun c _ => hnone _)
    unfold parseData
    dsimp only
    rw [h1]
    refine ⟨s1.lgr, rfl, ?_⟩
    have hin : ∀ k c, g.rep.lookup k = some c → ∃ d, s1.lgr.rep.lookup k = some d ∧ Again g.refs c d := by
      intro k c hc
      obtain ⟨d, h2, h3⟩ := i3 c (mem_iter hwf hc (hp k c hc))
      rw [lookup_cp hc] at h2
      exact ⟨d, h2, ⟨h3.range, h3.attrs, h3.vars⟩⟩
    have hent : ∀ k d, s1.lgr.rep.lookup k = some d → ∃ c, g.rep.lookup k = some c ∧ Again g.refs c d := by
      intro k d hd
      cases hg : g.rep.lookup k with
      | none =>
        rw [i4 k] at hd
        · exact absurd hd (by rw [hnone k]; simp)
        · intro hm
          obtain ⟨c, hc, rfl⟩ := List.mem_map.1 hm
          rw [iter_mem hwf hc] at hg
          simp at hg
      | some c =>
        obtain ⟨d', h2, h3⟩ := hin k c hg
        rw [hd] at h2; cases h2
        exact ⟨c, rfl, h3⟩
    refine ⟨i1, ?_, i2, ?_, hent⟩
    · intro k d hd
      obtain ⟨c, -, h3⟩ := hent k d hd
      exact h3.range
    · intro k
      constructor
      · rintro ⟨d, hd⟩
        obtain ⟨c, h2, -⟩ := hent k d hd
        exact ⟨c, h2⟩
      · rintro ⟨c, hc⟩
        obtain ⟨d, h2, -⟩ := hin k c hc
        exact ⟨d, h2⟩
  · cases hes

theorem reread_spec {g h : LGR} (hwf : WF g.rep) (hp : Plain g) (hr : reread g = .ok h) : Reread g h := by
  cases hes : serializeData g.rep with
  | error e =>
    unfold reread at hr
    rw [hes] at hr
    cases hr
  | ok es =>
    obtain ⟨h', h1, h2⟩ := reread_runs hwf hp hes
    rw [hr] at h1
    cases h1
    exact h2

end Lgr.Props.C45

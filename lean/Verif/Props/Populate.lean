import Verif.Populate
import Verif.Props.Validate
import Mathlib.Data.Finset.Card
import Mathlib.Data.Finset.Prod
import Mathlib.Logic.Relation

/-!
# C28, C29: populating variants
-/

namespace Lgr.Props.C28
open Lgr LGR Repertoire C50 C26 Populate

/-- `y` is a variant of the entry `x`. -/
def Pair (g : LGR) (x y : Seq) : Prop := ∃ v, Maps g x v ∧ v.cp = y

/-- No variant has an empty string for a context rule. -/
def NoEmpty (g : LGR) : Prop :=
  ∀ x v, Maps g x v → v.whenR ≠ some "" ∧ v.notWhenR ≠ some ""

/-- `v` is still there, or it was unconditional and has been given a rule. -/
def Kept (g : LGR) (x : Seq) (v : Variant) : Prop :=
  Maps g x v ∨ v.whenR = none ∧ v.notWhenR = none ∧ ∃ v', Maps g x v' ∧ v'.cp = v.cp ∧
    v'.type = v.type ∧ v'.comment = v.comment ∧ v'.refs = v.refs ∧
    (v'.whenR.isSome = true ∨ v'.notWhenR.isSome = true)

/-- A variant has the context rule `w`. -/
def Used (g : LGR) (w : String) : Prop :=
  ∃ x v, Maps g x v ∧ (v.whenR = some w ∨ v.notWhenR = some w)

/-- `g'` has all that `g` has, and new variants are blocked. -/
structure Grow (g g' : LGR) : Prop where
  refs : g'.refs = g.refs
  raise : g'.raiseInvalid = g.raiseInvalid
  tagCls : g'.tagCls = g.tagCls
  ranges : g'.rep.ranges = g.rep.ranges
  keep : ∀ x c, g.rep.lookup x = some c → ∃ c', g'.rep.lookup x = some c' ∧ c'.attrs = c.attrs ∧
    c'.range = c.range
  fresh : ∀ x c', g.rep.lookup x = none → g'.rep.lookup x = some c' → c'.attrs = {} ∧ c'.range = none
  pairs : ∀ x y, Pair g x y → Pair g' x y
  types : ∀ x v, Maps g' x v → v.type = some "blocked" ∨ ∃ u, Maps g x u ∧ u.cp = v.cp ∧
    u.type = v.type
  vars : NoEmpty g → NoEmpty g' ∧ ∀ x v, Maps g x v → Kept g' x v
  ruled : ∀ x v, Maps g x v → v.whenR ≠ none ∨ v.notWhenR ≠ none → Maps g' x v
  own : ∀ u : Variant, Maps g' u.cp u ↔ Maps g u.cp u
  used : ∀ w, Used g' w → Used g w

theorem Grow.refl (g : LGR) : Grow g g :=
  ⟨rfl, rfl, rfl, rfl, fun _ c h => ⟨c, h, rfl, rfl⟩, fun _ _ h h' => (by rw [h] at h'; cases h'),
    fun _ _ h => h,
    fun _ v h => .inr ⟨v, h, rfl, rfl⟩, fun h => ⟨h, fun _ _ h => .inl h⟩, fun _ _ h _ => h,
    fun _ => Iff.rfl, fun _ h => h⟩

theorem Grow.trans {g1 g2 g3 : LGR} (h : Grow g1 g2) (h' : Grow g2 g3) : Grow g1 g3 where
  refs := h'.refs.trans h.refs
  raise := h'.raise.trans h.raise
  tagCls := h'.tagCls.trans h.tagCls
  ranges := h'.ranges.trans h.ranges
  keep := fun x c hc => by
    obtain ⟨c2, h2, h3, h4⟩ := h.keep x c hc
    obtain ⟨c3, h5, h6, h7⟩ := h'.keep x c2 h2
    exact ⟨c3, h5, h6.trans h3, h7.trans h4⟩
  fresh := fun x c hn hc => by
    cases h2 : g2.rep.lookup x with
    | none => exact h'.fresh x c h2 hc
    | some c2 =>
      obtain ⟨h3, h4⟩ := h.fresh x c2 hn h2
      obtain ⟨c3, h5, h6, h7⟩ := h'.keep x c2 h2
      rw [hc] at h5; cases h5
      exact ⟨h6.trans h3, h7.trans h4⟩
  pairs := fun x y hp => h'.pairs x y (h.pairs x y hp)
  types := fun x v hv => by
    rcases h'.types x v hv with h1 | ⟨u, h1, h2, h3⟩
    · exact .inl h1
    · rcases h.types x u h1 with h4 | ⟨w, h4, h5, h6⟩
      · exact .inl (h3 ▸ h4)
      · exact .inr ⟨w, h4, h5.trans h2, h6.trans h3⟩
  vars := fun hn => by
    obtain ⟨hn2, hk⟩ := h.vars hn
    obtain ⟨hn3, hk'⟩ := h'.vars hn2
    refine ⟨hn3, fun x v hv => ?_⟩
    rcases hk x v hv with h1 | ⟨h1, h2, v', h3, h4, h5, h6, h7, h8⟩
    · exact hk' x v h1
    · rcases hk' x v' h3 with h9 | ⟨h9, h10, -⟩
      · exact .inr ⟨h1, h2, v', h9, h4, h5, h6, h7, h8⟩
      · rw [h9, h10] at h8; simp at h8
  ruled := fun x v hv hr => h'.ruled x v (h.ruled x v hv hr) hr
  own := fun u => (h'.own u).trans (h.own u)
  used := fun w hw => h.used w (h'.used w hw)

theorem Grow.inn {g g' : LGR} (h : Grow g g') {x : Seq} (hx : In g x) : In g' x := by
  obtain ⟨c, hc⟩ := hx
  obtain ⟨c', h1, -⟩ := h.keep x c hc
  exact ⟨c', h1⟩

theorem in_ne {g : LGR} {x : Seq} (h : In g x) : x ≠ [] := by
  rintro rfl; obtain ⟨c, hc⟩ := h; simp [lookup] at hc

theorem maps_in {g : LGR} {x : Seq} {v : Variant} (h : Maps g x v) : In g x := by
  obtain ⟨c, hc, -⟩ := h; exact ⟨c, hc⟩

theorem pair_in {g : LGR} {x y : Seq} (h : Pair g x y) : In g x := by
  obtain ⟨v, hv, -⟩ := h; exact maps_in hv

theorem maps_ne {g : LGR} (hwf : WF g.rep) {x : Seq} {v : Variant} (h : Maps g x v) : v.cp ≠ [] := by
  obtain ⟨c, hc, hv⟩ := h
  exact variant_ne (lookup_charWF hwf hc).varWF hv

/-! ### The edit steps -/

/-- What changes little: everything but the variants. -/
structure Frame (g g' : LGR) : Prop where
  wf : WF g'.rep
  refs : g'.refs = g.refs
  raise : g'.raiseInvalid = g.raiseInvalid
  tagCls : g'.tagCls = g.tagCls
  ranges : g'.rep.ranges = g.rep.ranges
  keep : ∀ x c, g.rep.lookup x = some c → ∃ c', g'.rep.lookup x = some c' ∧ c'.attrs = c.attrs ∧
    c'.range = c.range
  fresh : ∀ x c', g.rep.lookup x = none → g'.rep.lookup x = some c' → c'.attrs = {} ∧ c'.range = none

theorem denotes_seq {s t : Seq} (h : Denotes (.seq s) t) : t = s := by cases h; rfl

theorem addVar_step {db : UniDb} {g g' : LGR} (hwf : WF g.rep) {s v : Seq} {type : Option String}
    {o : Opts} (h : g.addVariant db (.seq s) (.seq v) type o = (g', .ok ())) :
    Frame g g' ∧ In g s ∧ (∀ x, In g' x ↔ In g x) ∧
    (o.force = false → o.vrep = none → Strict g o) ∧
    ∀ x u, Maps g' x u ↔ Maps g x u ∨
      x = s ∧ u = ⟨v, type, o.whenR, o.notWhenR, o.comment, knownRefs g o⟩ := by
  have hok : (g.addVariant db (.seq s) (.seq v) type o).2 = .ok () := by rw [h]
  have hg : (g.addVariant db (.seq s) (.seq v) type o).1 = g' := by rw [h]
  obtain ⟨s', v', c, c', h1, h2, h3, h4, h5, h6, h7, h8, h9, h10, -, h12, h13, h14⟩ :=
    add_variant_effect db g hwf _ _ _ _ hok
  obtain ⟨s1, v1, c1, -, -, -, -, -, -, -, -, hst⟩ := (add_variant_ok_iff db g hwf _ _ _ _).1 hok
  have hw : WF g'.rep := by
    have := (inv_addVariant (P := fun _ => True) (db := db) (arg := .seq s) (var := .seq v)
      (t := type) (o := o) ⟨hwf, by simp⟩ (by simp)).wf
    rwa [h] at this
  rw [hg] at h9 h10 h12 h13 h14
  have e1 := denotes_seq h1
  have e2 := denotes_seq h2
  subst e1 e2
  refine ⟨⟨hw, h13, h14, h12, h10, fun x d hd => ?_, fun x d hd hd' => ?_⟩, ⟨c, h3⟩, fun x => ?_, fun hf _ => hst hf,
    fun x u => ?_⟩
  · rw [h9]
    by_cases hx : x = s'
    · subst hx; rw [h3] at hd; cases hd
      exact ⟨c', by simp, h7, by rw [h6, h4]⟩
    · exact ⟨d, by rw [if_neg hx]; exact hd, rfl, rfl⟩
  · rw [h9] at hd'
    by_cases hx : x = s'
    · subst hx; rw [h3] at hd; cases hd
    · rw [if_neg hx, hd] at hd'; cases hd'
  · unfold In; rw [h9]
    by_cases hx : x = s'
    · subst hx; simp [h3]
    · rw [if_neg hx]
  · unfold Maps; rw [h9]
    by_cases hx : x = s'
    · subst hx; simp [h3, h8]
    · simp [hx]

theorem delVar_step {db : UniDb} {g g' : LGR} (hwf : WF g.rep) {s v : Seq} {b : Bool}
    (h : g.delVariant db (.seq s) (.seq v) none none = (g', .ok b)) :
    Frame g g' ∧ (∀ x, In g' x ↔ In g x) ∧
    ∀ x u, Maps g' x u ↔ Maps g x u ∧ ¬ (x = s ∧ u.key = (v, none, none)) := by
  have hok : (g.delVariant db (.seq s) (.seq v) none none).2 = .ok b := by rw [h]
  have hg : (g.delVariant db (.seq s) (.seq v) none none).1 = g' := by rw [h]
  obtain ⟨s', v', c, c', h1, h2, h3, h4, h5, h6, h7, -, h8, h9, h10, -, h12, h13, h14⟩ :=
    del_variant_effect db g hwf _ _ _ _ _ hok
  have hw : WF g'.rep := by
    have := (inv_delVariant (P := fun _ => True) (db := db) (arg := .seq s) (var := .seq v)
      (w := none) (n := none) ⟨hwf, by simp⟩ (by simp)).wf
    rwa [h] at this
  rw [hg] at h9 h10 h12 h13 h14
  have e1 := denotes_seq h1
  cases h2
  subst e1
  refine ⟨⟨hw, h13, h14, h12, h10, fun x d hd => ?_, fun x d hd hd' => ?_⟩, fun x => ?_, fun x u => ?_⟩
  · rw [h9]
    by_cases hx : x = s'
    · subst hx; rw [h3] at hd; cases hd
      exact ⟨c', by simp, h7, by rw [h6, h4]⟩
    · exact ⟨d, by rw [if_neg hx]; exact hd, rfl, rfl⟩
  · rw [h9] at hd'
    by_cases hx : x = s'
    · subst hx; rw [h3] at hd; cases hd
    · rw [if_neg hx, hd] at hd'; cases hd'
  · unfold In; rw [h9]
    by_cases hx : x = s'
    · subst hx; simp [h3]
    · rw [if_neg hx]
  · unfold Maps; rw [h9]
    by_cases hx : x = s'
    · subst hx; simp [h3, h8]
    · simp [hx]

theorem addCp_step {db : UniDb} {g g' : LGR} (hwf : WF g.rep) {s : Seq}
    (h : g.addCp db (.seq s) {} = (g', .ok ())) :
    Frame g g' ∧ (∀ x, In g' x ↔ In g x ∨ x = s) ∧ ∀ x u, Maps g' x u ↔ Maps g x u := by
  have hok : (g.addCp db (.seq s) {}).2 = .ok () := by rw [h]
  have hg : (g.addCp db (.seq s) {}).1 = g' := by rw [h]
  obtain ⟨s', h1, h2, h3, h4, -, h6, h7, h8⟩ := add_cp_effect db g _ _ hok
  have hw : WF g'.rep := by
    have := (inv_addCp (P := fun _ => True) (db := db) (arg := .seq s) (o := {})
      ⟨hwf, by simp⟩ (by simp)).wf
    rwa [h] at this
  have htag : g'.tagCls = g.tagCls := by
    rw [← hg]
    unfold LGR.addCp
    split
    · rfl
    split
    · rfl
    · rfl
  rw [hg] at h3 h4 h6 h7 h8
  have e1 := denotes_seq h1
  subst e1
  refine ⟨⟨hw, h6, h8, htag, h4, fun x d hd => ?_, fun x d hd hd' => ?_⟩, fun x => ?_, fun x u => ?_⟩
  · refine ⟨d, ?_, rfl, rfl⟩
    rw [h3, if_neg]
    · exact hd
    · rintro rfl; rw [h2] at hd; cases hd
  · rw [h3] at hd'
    by_cases hx : x = s'
    · rw [if_pos hx] at hd'; cases hd'; exact ⟨by simp [knownRefs], rfl⟩
    · rw [if_neg hx, hd] at hd'; cases hd'
  · unfold In; rw [h3]
    by_cases hx : x = s'
    · simp [hx]
    · simp [hx]
  · unfold Maps; rw [h3]
    by_cases hx : x = s'
    · subst hx
      simp only [if_true, Option.some.injEq, exists_eq_left', h2]
      simp [CharObj.getVariants, sortAsc]
    · rw [if_neg hx]

/-- Adding a variant that is blocked, or has the type of one with the same code point. -/
theorem addVar_grow {db : UniDb} {g g' : LGR} (hwf : WF g.rep) {s v : Seq} {type : Option String}
    {o : Opts} (h : g.addVariant db (.seq s) (.seq v) type o = (g', .ok ()))
    (ht : type = some "blocked" ∨ ∃ u, Maps g s u ∧ u.cp = v ∧ u.type = type)
    (hr : NoEmpty g → o.whenR ≠ some "" ∧ o.notWhenR ≠ some "") (hsv : s ≠ v)
    (hus : ∀ w, o.whenR = some w ∨ o.notWhenR = some w → Used g w) : Grow g g' := by
  obtain ⟨hf, -, -, -, hm⟩ := addVar_step hwf h
  refine ⟨hf.refs, hf.raise, hf.tagCls, hf.ranges, hf.keep, hf.fresh, ?_, ?_, ?_, fun x u hu _ => (hm x u).2 (.inl hu), ?_, ?_⟩
  · rintro x y ⟨u, hu, rfl⟩
    exact ⟨u, (hm x u).2 (.inl hu), rfl⟩
  · intro x u hu
    rcases (hm x u).1 hu with h1 | ⟨rfl, rfl⟩
    · exact .inr ⟨u, h1, rfl, rfl⟩
    · exact ht
  · intro hn
    refine ⟨fun x u hu => ?_, fun x u hu => .inl ((hm x u).2 (.inl hu))⟩
    rcases (hm x u).1 hu with h1 | ⟨rfl, rfl⟩
    · exact hn x u h1
    · exact hr hn
  · intro u
    rw [hm]
    refine ⟨?_, .inl⟩
    rintro (h1 | ⟨h1, h2⟩)
    · exact h1
    · exact absurd (h1.symm.trans (congrArg Variant.cp h2)) hsv
  · rintro w ⟨x, u, hu, hw⟩
    rcases (hm x u).1 hu with h1 | ⟨rfl, rfl⟩
    · exact ⟨x, u, h1, hw⟩
    · exact hus w hw

theorem maps_key_inj {g : LGR} (hwf : WF g.rep) {x : Seq} {u v : Variant} (hu : Maps g x u)
    (hv : Maps g x v) (hk : u.key = v.key) : u = v := by
  obtain ⟨c, hc, hu⟩ := hu
  obtain ⟨c', hc', hv⟩ := hv
  rw [hc] at hc'; cases hc'
  have := C08.getVariants_keys_nodup (lookup_charWF hwf hc).varWF
  exact List.inj_on_of_nodup_map this hu hv hk

/-! ### Symmetry -/

/-- What holds of the variant `r` to be replaced. -/
def Repl (g : LGR) (a b : Seq) (r : Variant) (cond : Prop) : Prop :=
  (∃ u, Maps g b u ∧ u.cp = a ∧ u.type = r.type) ∧
  (cond → NoEmpty g → ∀ u, Maps g b u → u.key = (a, none, none) →
    u.type = r.type ∧ u.comment = r.comment ∧ u.refs = r.refs)

/-- A step that changes only the variants of `b`, and no pair. -/
structure Tweak (b : Seq) (g g' : LGR) : Prop where
  wf : WF g'.rep
  grow : Grow g g'
  inn : ∀ x, In g' x ↔ In g x
  pairs : ∀ x y, Pair g' x y ↔ Pair g x y
  other : ∀ x u, x ≠ b → (Maps g' x u ↔ Maps g x u)

theorem Tweak.refl {b : Seq} {g : LGR} (h : WF g.rep) : Tweak b g g :=
  ⟨h, .refl g, fun _ => Iff.rfl, fun _ _ => Iff.rfl, fun _ _ _ => Iff.rfl⟩

theorem Tweak.trans {b : Seq} {g1 g2 g3 : LGR} (h : Tweak b g1 g2) (h' : Tweak b g2 g3) :
    Tweak b g1 g3 :=
  ⟨h'.wf, h.grow.trans h'.grow, fun x => (h'.inn x).trans (h.inn x),
    fun x y => (h'.pairs x y).trans (h.pairs x y),
    fun x u hx => (h'.other x u hx).trans (h.other x u hx)⟩

theorem replace_spec {db : UniDb} {g g' : LGR} (hwf : WF g.rep) {a b : Seq} {r : Variant} {o : Opts}
    {cond : Prop} (hrc : r.cp = a) (hR : Repl g a b r cond) (hc : cond)
    (ho : o.force = false ∧ o.vrep = none)
    (hrule : o.whenR.isSome = true ∨ o.notWhenR.isSome = true)
    (hne : o.whenR ≠ some "" ∧ o.notWhenR ≠ some "") (hab : a ≠ b)
    (hus : ∀ w, o.whenR = some w ∨ o.notWhenR = some w → Used g w)
    (h : replaceVariant db g b r o = (g', .ok ())) : Tweak b g g' ∧ Repl g' a b r cond := by
  unfold replaceVariant at h
  split at h
  · simp at h
  rename_i g1 d hd
  obtain ⟨f1, i1, m1⟩ := delVar_step hwf hd
  obtain ⟨f2, -, i2, hst, m2⟩ := addVar_step f1.wf h
  subst hrc
  have hrefs : knownRefs g1 { o with comment := r.comment, ref := r.refs } = r.refs := by
    have := (hst ho.1 ho.2).2
    unfold knownRefs
    exact List.filter_eq_self.2 this.1
  rw [hrefs] at m2
  have hm : ∀ x u, Maps g' x u ↔ (Maps g x u ∧ ¬ (x = b ∧ u.key = (r.cp, none, none))) ∨
      (x = b ∧ u = ⟨r.cp, r.type, o.whenR, o.notWhenR, r.comment, r.refs⟩) := by
    intro x u; rw [m2, m1]
  have hpairs : ∀ x y, Pair g' x y ↔ Pair g x y := by
    intro x y
    constructor
    · rintro ⟨u, hu, rfl⟩
      rcases (hm x u).1 hu with h1 | ⟨rfl, rfl⟩
      · exact ⟨u, h1.1, rfl⟩
      · obtain ⟨u, h1, h2, -⟩ := hR.1
        exact ⟨u, h1, h2⟩
    · rintro ⟨u, hu, rfl⟩
      by_cases hk : x = b ∧ u.key = (r.cp, none, none)
      · obtain ⟨rfl, hk⟩ := hk
        exact ⟨_, (hm _ _).2 (.inr ⟨rfl, rfl⟩), (congrArg Prod.fst hk).symm⟩
      · exact ⟨u, (hm x u).2 (.inl ⟨hu, hk⟩), rfl⟩
  refine ⟨⟨f2.wf, ⟨f2.refs.trans f1.refs, f2.raise.trans f1.raise, f2.tagCls.trans f1.tagCls,
    f2.ranges.trans f1.ranges, ?_, ?_, fun x y => (hpairs x y).2, ?_, ?_, ?_, ?_, ?_⟩,
    fun x => (i2 x).trans (i1 x), hpairs, ?_⟩, ?_, ?_⟩
  · intro x c hx
    obtain ⟨c1, h1, h2, h3⟩ := f1.keep x c hx
    obtain ⟨c2, h4, h5, h6⟩ := f2.keep x c1 h1
    exact ⟨c2, h4, h5.trans h2, h6.trans h3⟩
  · intro x c hx hc
    cases h1 : g1.rep.lookup x with
    | none => exact f2.fresh x c h1 hc
    | some c1 =>
      have := (i1 x).1 ⟨c1, h1⟩
      obtain ⟨c0, h0⟩ := this
      rw [hx] at h0; cases h0
  · intro x u hu
    rcases (hm x u).1 hu with h1 | ⟨rfl, rfl⟩
    · exact .inr ⟨u, h1.1, rfl, rfl⟩
    · obtain ⟨u, h1, h2, h3⟩ := hR.1
      exact .inr ⟨u, h1, h2, h3⟩
  · intro hn
    constructor
    · intro x u hu
      rcases (hm x u).1 hu with h1 | ⟨rfl, rfl⟩
      · exact hn x u h1.1
      · exact hne
    · intro x u hu
      by_cases hk : x = b ∧ u.key = (r.cp, none, none)
      · obtain ⟨rfl, hk⟩ := hk
        obtain ⟨h1, h2, h3⟩ := hR.2 hc hn u hu hk
        unfold Variant.key at hk
        simp only [Prod.mk.injEq] at hk
        exact .inr ⟨hk.2.1, hk.2.2, _, (hm _ _).2 (.inr ⟨rfl, rfl⟩), hk.1.symm, h1.symm, h2.symm,
          h3.symm, hrule⟩
      · exact .inl ((hm x u).2 (.inl ⟨hu, hk⟩))
  · intro x u hu hr
    refine (hm x u).2 (.inl ⟨hu, fun hk => ?_⟩)
    have := hk.2
    unfold Variant.key at this
    simp only [Prod.mk.injEq] at this
    rcases hr with hr | hr
    · exact hr this.2.1
    · exact hr this.2.2
  · intro u
    rw [hm]
    constructor
    · rintro (h1 | ⟨h1, h2⟩)
      · exact h1.1
      · exact absurd ((congrArg Variant.cp h2).symm.trans h1) hab
    · intro h1
      refine .inl ⟨h1, fun h2 => hab ?_⟩
      rw [← h2.1]
      exact (congrArg Prod.fst h2.2).symm
  · rintro w ⟨x, u, hu, hw⟩
    rcases (hm x u).1 hu with h1 | ⟨rfl, rfl⟩
    · exact ⟨x, u, h1.1, hw⟩
    · exact hus w hw
  · intro x u hx
    rw [hm]; simp [hx]
  · exact ⟨_, (hm _ _).2 (.inr ⟨rfl, rfl⟩), rfl, rfl⟩
  · intro _ _ u hu hk
    rcases (hm b u).1 hu with h1 | ⟨-, rfl⟩
    · exact absurd ⟨rfl, hk⟩ h1.2
    · exact ⟨rfl, rfl, rfl⟩

theorem lastRule_mem {f : Variant → Option String} {l : List Variant} {v : Variant} (hv : v ∈ l)
    (ht : truthy (f v) = true) : truthy (lastRule f l) = true := by
  have mono : ∀ (l : List Variant) (acc : Option String), truthy acc = true →
      truthy (l.foldl (fun acc r => if truthy (f r) then f r else acc) acc) = true := by
    intro l
    induction l with
    | nil => intro acc h; exact h
    | cons w l ih =>
      intro acc h
      rw [List.foldl_cons]
      apply ih
      split <;> assumption
  have : ∀ (l : List Variant) (acc : Option String), v ∈ l →
      truthy (l.foldl (fun acc r => if truthy (f r) then f r else acc) acc) = true := by
    intro l
    induction l with
    | nil => intro acc h; simp at h
    | cons w l ih =>
      intro acc h
      rw [List.foldl_cons]
      rcases List.mem_cons.1 h with rfl | h
      · rw [if_pos ht]; exact mono l _ ht
      · exact ih _ h
  exact this l none hv

theorem fixRule_spec {db : UniDb} {g g' : LGR} (hwf : WF g.rep) {a : Seq} {b : Variant}
    {r0 : Variant} {rest : List Variant} {rule same other : Option String} {o : Opts}
    (hrc : r0.cp = a) {cond : Prop}
    (hcond : truthy same = false → truthy other = false → cond)
    (hcond' : cond → truthy other = false)
    (hR : Repl g a b.cp r0 cond) (hab : a ≠ b.cp) (hus : ∀ w, rule = some w → Used g w)
    (ho : o = { whenR := rule } ∨ o = { notWhenR := rule })
    (h : fixRule db g a b (r0 :: rest) rule same other o = (g', .ok ())) :
    Tweak b.cp g g' ∧ Repl g' a b.cp r0 cond := by
  have skip : ∀ {g'}, (g, (.ok () : Except Err Unit)) = (g', .ok ()) →
      Tweak b.cp g g' ∧ Repl g' a b.cp r0 cond := by
    intro g' h
    simp only [Prod.mk.injEq, and_true] at h
    subst h
    exact ⟨.refl hwf, hR⟩
  unfold fixRule at h
  split at h
  · exact skip h
  split at h
  · rename_i hr
    simp only [Bool.and_eq_true, Bool.not_eq_true'] at hr
    have hrule : ∃ s, rule = some s ∧ s ≠ "" := truthy_iff.1 hr.1
    have hne : o.whenR ≠ some "" ∧ o.notWhenR ≠ some "" := by
      obtain ⟨s, rfl, hs⟩ := hrule
      rcases ho with rfl | rfl <;> simp [hs]
    have hsome : o.whenR.isSome = true ∨ o.notWhenR.isSome = true := by
      obtain ⟨s, rfl, hs⟩ := hrule
      rcases ho with rfl | rfl <;> simp
    have huo : ∀ w, o.whenR = some w ∨ o.notWhenR = some w → Used g w := by
      intro w hw
      rcases ho with rfl | rfl <;> simp at hw <;> exact hus w hw
    by_cases hoth : truthy other = true
    · rw [if_pos hoth] at h
      have hgrow := addVar_grow hwf h (.inl rfl) (fun _ => hne) (Ne.symm hab) huo
      obtain ⟨f, -, i, -, m⟩ := addVar_step hwf h
      refine ⟨⟨f.wf, hgrow, i, fun x y => ⟨?_, hgrow.pairs x y⟩, ?_⟩, ?_, ?_⟩
      · rintro ⟨u, hu, rfl⟩
        rcases (m x u).1 hu with h1 | ⟨rfl, rfl⟩
        · exact ⟨u, h1, rfl⟩
        · obtain ⟨u, h1, h2, -⟩ := hR.1
          exact ⟨u, h1, h2⟩
      · intro x u hx; rw [m]; simp [hx]
      · obtain ⟨u, h1, h2, h3⟩ := hR.1
        exact ⟨u, (m _ _).2 (.inl h1), h2, h3⟩
      · intro hc; rw [hcond' hc] at hoth; cases hoth
    · rw [if_neg hoth] at h
      exact replace_spec hwf hrc hR (hcond hr.2 (by simpa using hoth))
        (by rcases ho with rfl | rfl <;> exact ⟨rfl, rfl⟩) hsome hne hab huo h
  · exact skip h

/-- What the body of a loop does, for the entry `a` and its variant `b`. -/
structure Body (a : Seq) (g g' : LGR) (newIn : Seq → Prop) (newPair : Seq → Seq → Prop) : Prop where
  wf : WF g'.rep
  grow : Grow g g'
  inn : ∀ x, In g' x ↔ In g x ∨ newIn x
  pairs : ∀ x y, Pair g' x y ↔ Pair g x y ∨ newPair x y
  listed : ∀ u, Pair g a u.cp → (Maps g' a u ↔ Maps g a u)

/-- The first of the reverse variants is the one to replace, if none has a rule. -/
theorem repl_first {g : LGR} (hwf : WF g.rep) {a b : Seq} {r0 : Variant} (hm : Maps g b r0) (hc : r0.cp = a)
    (rest : List Variant) : Repl g a b r0 (truthy (lastRule Variant.whenR (r0 :: rest)) = false ∧
      truthy (lastRule Variant.notWhenR (r0 :: rest)) = false) := by
  refine ⟨⟨r0, hm, hc, rfl⟩, ?_⟩
  rintro ⟨hw, hn⟩ hne u hu hk
  have hfalsy : ∀ f : Variant → Option String, truthy (lastRule f (r0 :: rest)) = false →
      truthy (f r0) = false := by
    intro f hf
    cases ht : truthy (f r0) with
    | false => rfl
    | true => rw [lastRule_mem (by simp) ht] at hf; cases hf
  have e1 : r0.whenR = none := by
    have := hfalsy _ hw
    have h2 := (hne _ _ hm).1
    cases hx : r0.whenR with
    | none => rfl
    | some s => rw [hx] at this h2; simp [truthy] at this h2; exact absurd this h2
  have e2 : r0.notWhenR = none := by
    have := hfalsy _ hn
    have h2 := (hne _ _ hm).2
    cases hx : r0.notWhenR with
    | none => rfl
    | some s => rw [hx] at this h2; simp [truthy] at this h2; exact absurd this h2
  have : u = r0 := maps_key_inj hwf hu hm (by rw [hk]; unfold Variant.key; rw [e1, e2, hc])
  subst this
  exact ⟨rfl, rfl, rfl⟩

/-- A reflexive variant is its own reverse, and needs no repair. -/
theorem fixRule_own {db : UniDb} {g g' : LGR} {a : Seq} {b : Variant} {rs : List Variant} (hbm : b ∈ rs)
    {f : Variant → Option String} {other : Option String} {o : Opts}
    (hx : fixRule db g a b rs (f b) (lastRule f rs) other o = (g', .ok ())) : g' = g := by
  unfold fixRule at hx
  split at hx
  · simp only [Prod.mk.injEq, and_true] at hx; exact hx.symm
  split at hx
  · rename_i hc
    simp only [Bool.and_eq_true, Bool.not_eq_true'] at hc
    rw [lastRule_mem hbm hc.1] at hc
    simp at hc
  · simp only [Prod.mk.injEq, and_true] at hx; exact hx.symm

theorem symBody_spec {db : UniDb} {g g' : LGR} (hwf : WF g.rep) {a : Seq} {b : Variant}
    (hab : Maps g a b) (h : symBody db a g b = (g', .ok ())) :
    Body a g g' (fun _ => False) (fun x y => x = b.cp ∧ y = a) := by
  have hb : b.cp ≠ [] := maps_ne hwf hab
  unfold symBody at h
  split at h
  · simp at h
  rename_i vs hvs
  obtain ⟨hi, c, hl, rfl⟩ := (getVariants_ok hb).1 hvs
  have hm : ∀ w, Maps g b.cp w ↔ w ∈ c.getVariants := by
    intro w; unfold Maps; rw [hl]; simp
  have hrev : ∀ w, w ∈ c.getVariants.filter (fun v => decide (a = v.cp)) ↔
      Maps g b.cp w ∧ w.cp = a := by
    intro w; rw [hm]; simp [eq_comm]
  simp only at h
  generalize hrv : c.getVariants.filter (fun v => decide (a = v.cp)) = reverse at h hrev
  by_cases h0 : reverse = []
  · rw [if_pos h0] at h
    have hab' : a ≠ b.cp := by
      rintro rfl
      have := (hrev b).2 ⟨hab, rfl⟩
      rw [h0] at this; simp at this
    obtain ⟨f, -, i, -, m⟩ := addVar_step hwf h
    refine ⟨f.wf, addVar_grow hwf h (.inl rfl) (fun hn => hn a b hab) (Ne.symm hab')
      (fun w hw => ⟨a, b, hab, hw⟩), ?_, ?_, ?_⟩
    · intro x; rw [i]; simp
    · intro x y
      constructor
      · rintro ⟨u, hu, rfl⟩
        rcases (m x u).1 hu with h1 | ⟨rfl, rfl⟩
        · exact .inl ⟨u, h1, rfl⟩
        · exact .inr ⟨rfl, rfl⟩
      · rintro (⟨u, hu, rfl⟩ | ⟨rfl, rfl⟩)
        · exact ⟨u, (m x u).2 (.inl hu), rfl⟩
        · exact ⟨_, (m _ _).2 (.inr ⟨rfl, rfl⟩), rfl⟩
    · intro u _; rw [m]; simp [hab']
  · rw [if_neg h0] at h
    obtain ⟨r0, rest, rfl⟩ := List.exists_cons_of_ne_nil h0
    have hr0 := (hrev r0).1 (by simp)
    split at h
    · simp at h
    rename_i g1 h1
    by_cases hab' : a = b.cp
    · -- a reflexive variant is its own reverse
      have hbm : b ∈ r0 :: rest := (hrev b).2 ⟨by rw [← hab']; exact hab, hab'.symm⟩
      have e1 := fixRule_own hbm h1
      have e2 := fixRule_own hbm h
      subst e1 e2
      refine ⟨hwf, .refl _, by simp, fun x y => ⟨.inl, ?_⟩, fun _ _ => Iff.rfl⟩
      rintro (h2 | ⟨rfl, rfl⟩)
      · exact h2
      · exact ⟨r0, hr0.1, hr0.2⟩
    have hpre := repl_first hwf hr0.1 hr0.2 rest
    obtain ⟨t1, p1⟩ := fixRule_spec hwf hr0.2 (fun h2 h3 => ⟨h2, h3⟩) (fun h2 => h2.2) hpre hab'
      (fun w hw => ⟨a, b, hab, .inl hw⟩) (.inl rfl) h1
    obtain ⟨t2, p2⟩ := fixRule_spec t1.wf hr0.2 (fun h2 h3 => ⟨h3, h2⟩) (fun h2 => h2.1) p1 hab'
      (fun w hw => ⟨a, b, (t1.other a b hab').2 hab, .inr hw⟩) (.inr rfl) h
    have t := t1.trans t2
    refine ⟨t.wf, t.grow, ?_, ?_, ?_⟩
    · intro x; rw [t.inn]; simp
    · intro x y
      rw [t.pairs]
      constructor
      · exact .inl
      · rintro (h2 | ⟨rfl, rfl⟩)
        · exact h2
        · exact ⟨r0, hr0.1, hr0.2⟩
    · intro u _
      exact t.other a u hab'

/-! ### Transitivity -/

theorem transStep_spec {db : UniDb} {g g' : LGR} (hwf : WF g.rep) {a : Seq} (ha : In g a)
    {c : Variant} (hca : c.cp ≠ a) (h : transStep db a g c = (g', .ok ())) :
    Body a g g' (fun _ => False) (fun x y => x = a ∧ y = c.cp) := by
  obtain ⟨ca, hl⟩ := ha
  unfold transStep at h
  rw [getChar_ok.2 hl] at h
  simp only at h
  have hm : ∀ w, Maps g a w ↔ w ∈ ca.getVariants := by
    intro w; unfold Maps; rw [hl]; simp
  by_cases hc : c.cp ∉ ca.getVariants.map Variant.cp
  · rw [if_pos hc] at h
    obtain ⟨f, -, i, -, m⟩ := addVar_step hwf h
    refine ⟨f.wf, addVar_grow hwf h (.inl rfl) (fun _ => by simp) (Ne.symm hca) (by simp), ?_, ?_, ?_⟩
    · intro x; rw [i]; simp
    · intro x y
      constructor
      · rintro ⟨u, hu, rfl⟩
        rcases (m x u).1 hu with h1 | ⟨rfl, rfl⟩
        · exact .inl ⟨u, h1, rfl⟩
        · exact .inr ⟨rfl, rfl⟩
      · rintro (⟨u, hu, rfl⟩ | ⟨rfl, rfl⟩)
        · exact ⟨u, (m x u).2 (.inl hu), rfl⟩
        · exact ⟨_, (m _ _).2 (.inr ⟨rfl, rfl⟩), rfl⟩
    · rintro u ⟨w, hw, hwu⟩
      rw [m]
      constructor
      · rintro (h1 | ⟨-, h1⟩)
        · exact h1
        · exfalso
          apply hc
          rw [hm] at hw
          rw [h1] at hwu
          exact List.mem_map.2 ⟨w, hw, hwu⟩
      · exact .inl
  · rw [if_neg hc] at h
    simp only [Prod.mk.injEq, and_true] at h
    subst h
    obtain ⟨d, h3, h4⟩ := List.mem_map.1 (not_not.1 hc)
    refine ⟨hwf, .refl g, by simp, fun x y => ⟨.inl, ?_⟩, fun _ _ => Iff.rfl⟩
    rintro (h5 | ⟨rfl, rfl⟩)
    · exact h5
    · exact ⟨d, (hm d).2 h3, h4⟩

theorem transLoop_spec {db : UniDb} {a : Seq} (cs : List Variant) {g g' : LGR} (hwf : WF g.rep)
    (ha : In g a) (hcs : ∀ c ∈ cs, c.cp ≠ a) (h : forEach (transStep db a) g cs = (g', .ok ())) :
    Body a g g' (fun _ => False) (fun x y => x = a ∧ ∃ c ∈ cs, y = c.cp) := by
  induction cs generalizing g with
  | nil =>
    simp only [forEach, Prod.mk.injEq, and_true] at h
    subst h
    exact ⟨hwf, .refl g, by simp, by simp, fun _ _ => Iff.rfl⟩
  | cons c cs ih =>
    simp only [forEach] at h
    split at h
    · simp at h
    rename_i g1 h1
    have s1 := transStep_spec hwf ha (hcs c (by simp)) h1
    have s2 := ih s1.wf (s1.grow.inn ha) (fun d hd => hcs d (by simp [hd])) h
    refine ⟨s2.wf, s1.grow.trans s2.grow, ?_, ?_, ?_⟩
    · intro x; rw [s2.inn, s1.inn]; simp
    · intro x y
      rw [s2.pairs, s1.pairs]
      simp only [List.mem_cons, exists_eq_or_imp]
      tauto
    · intro u hu
      rw [s2.listed u (s1.grow.pairs _ _ hu), s1.listed u hu]

theorem transBody_spec {db : UniDb} {g g' : LGR} (hwf : WF g.rep) {a : Seq} {b : Variant}
    (hab : Maps g a b) (h : transBody db a g b = (g', .ok ())) :
    Body a g g' (fun _ => False) (fun x y => x = a ∧ y ≠ a ∧ Pair g b.cp y) := by
  have hb : b.cp ≠ [] := maps_ne hwf hab
  unfold transBody at h
  split at h
  · simp at h
  rename_i vs hvs
  obtain ⟨hi, c, hl, rfl⟩ := (getVariants_ok hb).1 hvs
  have s := transLoop_spec _ hwf (maps_in hab) (fun c hc => by
    have := (List.mem_filter.1 hc).2
    simpa using this) h
  refine ⟨s.wf, s.grow, s.inn, fun x y => ?_, s.listed⟩
  rw [s.pairs]
  refine or_congr Iff.rfl (and_congr Iff.rfl ?_)
  unfold Pair Maps
  rw [hl]
  simp only [List.mem_filter, decide_eq_true_eq, Option.some.injEq, exists_eq_left']
  constructor
  · rintro ⟨c, ⟨h1, h2⟩, rfl⟩; exact ⟨h2, c, h1, rfl⟩
  · rintro ⟨h2, c, h1, rfl⟩; exact ⟨c, ⟨h1, h2⟩, rfl⟩

/-! ### Missing code points -/

theorem missBody_spec {db : UniDb} {g g' : LGR} (hwf : WF g.rep) {a : Seq} {b : Variant}
    (hab : Maps g a b) (h : missBody db a g b = (g', .ok ())) :
    Body a g g' (fun x => x = b.cp) (fun x y => ¬ In g b.cp ∧ x = b.cp ∧ y = a) := by
  have hb : b.cp ≠ [] := maps_ne hwf hab
  unfold missBody at h
  split at h
  · rename_i x hx
    have hI := C27.getVariants_notIn hb hx
    split at h
    · simp at h
    rename_i g1 h1
    obtain ⟨f1, i1, m1⟩ := addCp_step hwf h1
    obtain ⟨f2, -, i2, -, m2⟩ := addVar_step f1.wf h
    have hgrow1 : Grow g g1 := by
      refine ⟨f1.refs, f1.raise, f1.tagCls, f1.ranges, f1.keep, f1.fresh, ?_, ?_, ?_, fun x u hu _ => (m1 x u).2 hu,
        fun u => m1 u.cp u, fun w ⟨x, u, hu, hw⟩ => ⟨x, u, (m1 x u).1 hu, hw⟩⟩
      · rintro x y ⟨u, hu, rfl⟩; exact ⟨u, (m1 x u).2 hu, rfl⟩
      · intro x v hv; exact .inr ⟨v, (m1 x v).1 hv, rfl, rfl⟩
      · intro hn
        exact ⟨fun x u hu => hn x u ((m1 x u).1 hu), fun x u hu => .inl ((m1 x u).2 hu)⟩
    have hne : b.cp ≠ a := by
      rintro e; rw [e] at hI; exact hI (maps_in hab)
    refine ⟨f2.wf, hgrow1.trans (addVar_grow f1.wf h (.inl rfl) (fun _ => by simp) hne (by simp)), ?_, ?_, ?_⟩
    · intro x; rw [i2, i1]
    · intro x y
      simp only [hI, not_false_eq_true, true_and]
      constructor
      · rintro ⟨u, hu, rfl⟩
        rcases (m2 x u).1 hu with h1 | ⟨rfl, rfl⟩
        · exact .inl ⟨u, (m1 x u).1 h1, rfl⟩
        · exact .inr ⟨rfl, rfl⟩
      · rintro (⟨u, hu, rfl⟩ | ⟨rfl, rfl⟩)
        · exact ⟨u, (m2 x u).2 (.inl ((m1 x u).2 hu)), rfl⟩
        · exact ⟨_, (m2 _ _).2 (.inr ⟨rfl, rfl⟩), rfl⟩
    · intro u _; rw [m2, m1]; simp [Ne.symm hne]
  · simp at h
  · rename_i vs hvs
    have hI := ((getVariants_ok' hb).1 ⟨vs, hvs⟩).2
    simp only [Prod.mk.injEq, and_true] at h
    subst h
    refine ⟨hwf, .refl g, fun x => ⟨.inl, ?_⟩, by simp [hI], fun _ _ => Iff.rfl⟩
    rintro (h1 | rfl)
    · exact h1
    · exact hI

/-- The simplification made in `forVariants`: none of the loop bodies touches the variants of the
entry being visited that are being listed. -/
theorem body_keeps_listed {db : UniDb} {g g' : LGR} (hwf : WF g.rep) {a : Seq} {b : Variant}
    (hab : Maps g a b)
    (h : missBody db a g b = (g', .ok ()) ∨ symBody db a g b = (g', .ok ()) ∨
      transBody db a g b = (g', .ok ())) (u : Variant) (hu : Pair g a u.cp) :
    Maps g' a u ↔ Maps g a u := by
  rcases h with h | h | h
  · exact (missBody_spec hwf hab h).listed u hu
  · exact (symBody_spec hwf hab h).listed u hu
  · exact (transBody_spec hwf hab h).listed u hu

/-! ### Sweeps -/

section
variable {Inv : LGR → Prop} {Post : Seq → Variant → LGR → Prop}

theorem forVariants_spec {f : Seq → LGR → Variant → LGR × Except Err Unit}
    (hpost : ∀ a v g g', Inv g → Grow g g' → Post a v g → Post a v g')
    (hf : ∀ a g b g', WF g.rep → Inv g → Maps g a b → f a g b = (g', .ok ()) →
      WF g'.rep ∧ Grow g g' ∧ Inv g' ∧ (∀ u, Maps g a u → Maps g' a u) ∧ Post a b g')
    {a : Seq} {g g' : LGR} (hwf : WF g.rep) (hi : Inv g)
    (h : forVariants (f a) g a = (g', .ok ())) :
    WF g'.rep ∧ Grow g g' ∧ Inv g' ∧ ∀ b, Maps g a b → Post a b g' := by
  unfold forVariants at h
  split at h
  · rename_i e he
    simp only [Prod.mk.injEq, and_true] at h
    subst h
    refine ⟨hwf, .refl g, hi, ?_⟩
    rintro b ⟨c, hc, _⟩
    rw [getChar_ok.2 hc] at he; cases he
  · rename_i c hc
    have hl := getChar_ok.1 hc
    have loop : ∀ (l : List Variant) (g g' : LGR), WF g.rep → Inv g → (∀ b ∈ l, Maps g a b) →
        forEach (f a) g l = (g', .ok ()) →
        WF g'.rep ∧ Grow g g' ∧ Inv g' ∧ ∀ b ∈ l, Post a b g' := by
      intro l
      induction l with
      | nil =>
        intro g g' hwf hi _ h
        simp only [forEach, Prod.mk.injEq, and_true] at h
        subst h
        exact ⟨hwf, .refl g, hi, by simp⟩
      | cons b l ih =>
        intro g g' hwf hi hm h
        simp only [forEach] at h
        split at h
        · simp at h
        rename_i g1 h1
        obtain ⟨w1, gr1, i1, k1, p1⟩ := hf a g b g1 hwf hi (hm b (by simp)) h1
        obtain ⟨w2, gr2, i2, p2⟩ := ih g1 g' w1 i1 (fun b hb => k1 b (hm b (by simp [hb]))) h
        refine ⟨w2, gr1.trans gr2, i2, ?_⟩
        intro d hd
        rcases List.mem_cons.1 hd with rfl | hd
        · exact hpost _ _ _ _ i1 gr2 p1
        · exact p2 d hd
    obtain ⟨w, gr, i, p⟩ := loop c.getVariants g g' hwf hi (fun b hb => ⟨c, hl, hb⟩) h
    refine ⟨w, gr, i, ?_⟩
    rintro v ⟨c', hc', hv⟩
    rw [hl] at hc'; cases hc'
    exact p v hv

variable {Q : Seq → LGR → Prop}

theorem bucketLoop_spec {f : LGR → Seq → LGR × Except Err Unit}
    (hq : ∀ a g g', Grow g g' → Q a g → Q a g')
    (hf : ∀ a g g', WF g.rep → Inv g → f g a = (g', .ok ()) →
      WF g'.rep ∧ Grow g g' ∧ Inv g' ∧ Q a g')
    (l : List CharObj) {g g' : LGR} {last last' : Option Nat} (hwf : WF g.rep) (hi : Inv g)
    (h : bucketLoop f g last l = (last', g', .ok ())) :
    WF g'.rep ∧ Grow g g' ∧ Inv g' ∧ ∀ c ∈ l, c.range = none → Q c.cp g' := by
  induction l generalizing g last with
  | nil =>
    simp only [bucketLoop, Prod.mk.injEq, and_true] at h
    obtain ⟨-, rfl⟩ := h
    exact ⟨hwf, .refl g, hi, by simp⟩
  | cons c l ih =>
    have go : ∀ {last : Option Nat},
        (match f g c.cp with
          | (g', .error e) => (last, g', .error e)
          | (g', .ok ()) => bucketLoop f g' last l : Option Nat × LGR × Except Err Unit) =
          (last', g', .ok ()) →
        WF g'.rep ∧ Grow g g' ∧ Inv g' ∧ ∀ d ∈ c :: l, d.range = none → Q d.cp g' := by
      intro last h
      split at h
      · simp at h
      rename_i g1 h1
      obtain ⟨w1, gr1, i1, q1⟩ := hf c.cp g g1 hwf hi h1
      obtain ⟨w2, gr2, i2, q2⟩ := ih w1 i1 h
      refine ⟨w2, gr1.trans gr2, i2, ?_⟩
      intro d hd hr
      rcases List.mem_cons.1 hd with rfl | hd
      · exact hq _ _ _ gr2 q1
      · exact q2 d hd hr
    unfold bucketLoop at h
    cases hr : c.range with
    | none => rw [hr] at h; exact go h
    | some p =>
      obtain ⟨rf, rl⟩ := p
      rw [hr] at h
      cases last with
      | none => exact go h
      | some m =>
        obtain ⟨w, gr, i, q⟩ := ih hwf hi h
        refine ⟨w, gr, i, ?_⟩
        intro d hd hdr
        rcases List.mem_cons.1 hd with rfl | hd
        · rw [hr] at hdr; cases hdr
        · exact q d hd hdr

theorem keysLoop_spec {f : LGR → Seq → LGR × Except Err Unit}
    (hq : ∀ a g g', Grow g g' → Q a g → Q a g')
    (hf : ∀ a g g', WF g.rep → Inv g → f g a = (g', .ok ()) →
      WF g'.rep ∧ Grow g g' ∧ Inv g' ∧ Q a g')
    (ks : List Nat) {g g' : LGR} {last : Option Nat} (hwf : WF g.rep) (hi : Inv g)
    (h : keysLoop f g last ks = (g', .ok ())) :
    WF g'.rep ∧ Grow g g' ∧ Inv g' ∧
      ∀ i t c, i ∈ ks → g.rep.lookup (i :: t) = some c → c.range = none → Q (i :: t) g' := by
  induction ks generalizing g last with
  | nil =>
    simp only [keysLoop, Prod.mk.injEq, and_true] at h
    subst h
    exact ⟨hwf, .refl g, hi, by simp⟩
  | cons k ks ih =>
    unfold keysLoop at h
    simp only at h
    split at h
    · simp at h
    rename_i l2 g1 h1
    obtain ⟨w1, gr1, i1, q1⟩ := bucketLoop_spec hq hf _ hwf hi h1
    obtain ⟨w2, gr2, i2, q2⟩ := ih w1 i1 h
    refine ⟨w2, gr1.trans gr2, i2, ?_⟩
    intro i t c hik hc hr
    by_cases hk : i = k
    · subst hk
      obtain ⟨i', t', e, hmem, -⟩ := (lookup_eq_some hwf).1 hc
      simp only [List.cons.injEq] at e
      obtain ⟨rfl, rfl⟩ := e
      have := q1 c ((mem_sortAsc _).2 hmem) hr
      rw [lookup_cp hc] at this
      exact hq _ _ _ gr2 this
    · have hik' : i ∈ ks := by
        rcases List.mem_cons.1 hik with h3 | h3
        · exact absurd h3 hk
        · exact h3
      obtain ⟨c1, hc1, -, hr1⟩ := gr1.keep _ _ hc
      exact q2 i t c1 hik' hc1 (by rw [hr1, hr])

theorem forRepertoire_spec {f : LGR → Seq → LGR × Except Err Unit}
    (hq : ∀ a g g', Grow g g' → Q a g → Q a g')
    (hf : ∀ a g g', WF g.rep → Inv g → f g a = (g', .ok ()) →
      WF g'.rep ∧ Grow g g' ∧ Inv g' ∧ Q a g')
    {g g' : LGR} (hwf : WF g.rep) (hi : Inv g)
    (h : forRepertoire f g = (g', .ok ())) :
    WF g'.rep ∧ Grow g g' ∧ Inv g' ∧
      ∀ a c, g.rep.lookup a = some c → c.range = none → Q a g' := by
  obtain ⟨w, gr, i, q⟩ := keysLoop_spec hq hf _ hwf hi h
  refine ⟨w, gr, i, ?_⟩
  intro a c hc hr
  obtain ⟨i, t, rfl, hmem, -⟩ := (lookup_eq_some hwf).1 hc
  obtain ⟨p, hp, rfl, -⟩ := bucket_mem hmem
  exact q p.1 t c ((mem_sortAsc _).2 (List.mem_map.2 ⟨p, hp, rfl⟩)) hc hr

end

/-- A whole sweep: `for a in repertoire: for b in a.get_variants(): body`. -/
theorem sweep_spec {Inv : LGR → Prop} {Post : Seq → Seq → LGR → Prop}
    {f : Seq → LGR → Variant → LGR × Except Err Unit} {g0 : LGR}
    (hpost : ∀ a y g g', Grow g g' → Post a y g → Post a y g')
    (hf : ∀ a g b g', WF g.rep → Grow g0 g → Inv g → Maps g a b → f a g b = (g', .ok ()) →
      WF g'.rep ∧ Grow g g' ∧ Inv g' ∧ (∀ u, Maps g a u → Maps g' a u) ∧ Post a b.cp g')
    (hwf : WF g0.rep) (hi : Inv g0) {g' : LGR}
    (h : forRepertoire (fun g a => forVariants (f a) g a) g0 = (g', .ok ())) :
    WF g'.rep ∧ Grow g0 g' ∧ Inv g' ∧ ∀ x y, Pair g0 x y → Post x y g' := by
  have inner : ∀ a g g', WF g.rep → (Grow g0 g ∧ Inv g) → forVariants (f a) g a = (g', .ok ()) →
      WF g'.rep ∧ Grow g g' ∧ (Grow g0 g' ∧ Inv g') ∧ (∀ y, Pair g0 a y → Post a y g') := by
    intro a g g' hw hi h
    obtain ⟨w, gr, ⟨i1, i2⟩, p⟩ := forVariants_spec (Inv := fun g => Grow g0 g ∧ Inv g)
      (Post := fun a v g => Post a v.cp g) (fun a v g g' _ => hpost a v.cp g g')
      (fun a g b g' hw hi hm h => by
        obtain ⟨k1, k2, k3, k4, k5⟩ := hf a g b g' hw hi.1 hi.2 hm h
        exact ⟨k1, k2, ⟨hi.1.trans k2, k3⟩, k4, k5⟩) hw hi h
    refine ⟨w, gr, ⟨i1, i2⟩, fun y hy => ?_⟩
    obtain ⟨v, hv, rfl⟩ := hi.1.pairs a y hy
    exact p v hv
  obtain ⟨w, gr, ⟨-, i⟩, q⟩ := forRepertoire_spec (Inv := fun g => Grow g0 g ∧ Inv g)
    (Q := fun a g => ∀ y, Pair g0 a y → Post a y g)
    (fun a g g' hg hq y hy => hpost a y g g' hg (hq y hy)) inner hwf ⟨.refl g0, hi⟩ h
  refine ⟨w, gr, i, ?_⟩
  rintro x y ⟨v, ⟨c, hc, hv⟩, rfl⟩
  exact q x c hc (variant_nonrange (lookup_charWF hwf hc).varWF hv) _ ⟨v, ⟨c, hc, hv⟩, rfl⟩

/-- A bound on pairs that symmetry and transitivity cannot leave. -/
structure Bound (R : Seq → Seq → Prop) : Prop where
  symm : ∀ x y, R x y → R y x
  trans : ∀ x y z, R x y → R y z → z ≠ x → R x z

theorem addSymmetry_spec {db : UniDb} {g g' : LGR} (hwf : WF g.rep)
    {R : Seq → Seq → Prop} (hR : ∀ x y, R x y → R y x) (hb : ∀ x y, Pair g x y → R x y)
    (h : addSymmetry db g = (g', .ok ())) :
    WF g'.rep ∧ Grow g g' ∧ (∀ x, In g' x ↔ In g x) ∧ (∀ x y, Pair g' x y → R x y) ∧
      ∀ x y, Pair g x y → Pair g' y x := by
  obtain ⟨w, gr, ⟨i1, i2⟩, p⟩ := sweep_spec
    (Inv := fun k => (∀ x, In k x ↔ In g x) ∧ ∀ x y, Pair k x y → R x y)
    (Post := fun x y k => Pair k y x) (fun a y g g' hg hp => hg.pairs _ _ hp)
    (fun a k b k' hw hg hi hm hs => by
      have s := symBody_spec hw hm hs
      refine ⟨s.wf, s.grow, ⟨fun x => ?_, fun x y hxy => ?_⟩,
        fun u hu => (s.listed u ⟨u, hu, rfl⟩).2 hu, (s.pairs _ _).2 (.inr ⟨rfl, rfl⟩)⟩
      · rw [s.inn, ← hi.1 x]; simp
      · rcases (s.pairs x y).1 hxy with h1 | ⟨rfl, rfl⟩
        · exact hi.2 x y h1
        · exact hR _ _ (hi.2 _ _ ⟨b, hm, rfl⟩))
    hwf ⟨fun x => Iff.rfl, hb⟩ h
  exact ⟨w, gr, i1, i2, p⟩

theorem addTransitivity_spec {db : UniDb} {g g' : LGR} (hwf : WF g.rep)
    {R : Seq → Seq → Prop} (hR : ∀ x y z, R x y → R y z → z ≠ x → R x z)
    (hb : ∀ x y, Pair g x y → R x y) (h : addTransitivity db g = (g', .ok ())) :
    WF g'.rep ∧ Grow g g' ∧ (∀ x, In g' x ↔ In g x) ∧ (∀ x y, Pair g' x y → R x y) ∧
      ∀ x y z, Pair g x y → Pair g y z → z ≠ x → Pair g' x z := by
  obtain ⟨w, gr, ⟨i1, i2⟩, p⟩ := sweep_spec
    (Inv := fun k => (∀ x, In k x ↔ In g x) ∧ ∀ x y, Pair k x y → R x y)
    (Post := fun x y k => ∀ z, Pair g y z → z ≠ x → Pair k x z)
    (fun a y g g' hg hp z h1 h2 => hg.pairs _ _ (hp z h1 h2))
    (fun a k b k' hw hg hi hm hs => by
      have s := transBody_spec hw hm hs
      refine ⟨s.wf, s.grow, ⟨fun x => ?_, fun x y hxy => ?_⟩,
        fun u hu => (s.listed u ⟨u, hu, rfl⟩).2 hu,
        fun z h1 h2 => (s.pairs _ _).2 (.inr ⟨rfl, h2, hg.pairs _ _ h1⟩)⟩
      · rw [s.inn, ← hi.1 x]; simp
      · rcases (s.pairs x y).1 hxy with h1 | ⟨rfl, h2, h3⟩
        · exact hi.2 x y h1
        · exact hR _ _ _ (hi.2 _ _ ⟨b, hm, rfl⟩) (hi.2 _ _ h3) h2)
    hwf ⟨fun x => Iff.rfl, hb⟩ h
  exact ⟨w, gr, i1, i2, fun x y z h1 h2 h3 => p x y h1 z h2 h3⟩

/-- Every variant is an entry. -/
def Closed (g : LGR) : Prop := ∀ x y, Pair g x y → In g y

theorem missing_spec {db : UniDb} {g g' : LGR} (hwf : WF g.rep)
    {R : Seq → Seq → Prop} (hR : ∀ x y, R x y → R y x) (hb : ∀ x y, Pair g x y → R x y)
    (h : forRepertoire (fun g a => forVariants (missBody db a) g a) g = (g', .ok ())) :
    WF g'.rep ∧ Grow g g' ∧ (∀ x, In g' x ↔ In g x ∨ ∃ a, Pair g a x) ∧
      (∀ x y, Pair g' x y → R x y) ∧ Closed g' := by
  obtain ⟨w, gr, ⟨i1, i2, i3⟩, p⟩ := sweep_spec (f := fun a => missBody db a)
    (Inv := fun k => (∀ x, In k x → In g x ∨ ∃ a, Pair g a x) ∧ (∀ x y, Pair k x y → R x y) ∧
      ∀ x y, Pair k x y → Pair g x y ∨ In k y)
    (Post := fun x y k => In k y) (fun a y g g' hg hp => hg.inn hp)
    (fun a k b k' hw hg hi hm hs => by
      have s := missBody_spec hw hm hs
      refine ⟨s.wf, s.grow, ⟨fun x hx => ?_, fun x y hxy => ?_, fun x y hxy => ?_⟩,
        fun u hu => (s.listed u ⟨u, hu, rfl⟩).2 hu, (s.inn _).2 (.inr rfl)⟩
      · by_cases hk : In k x
        · exact hi.1 x hk
        · have hxb : x = b.cp := ((s.inn x).1 hx).resolve_left hk
          subst hxb
          exact .inr ⟨a, (hi.2.2 a b.cp ⟨b, hm, rfl⟩).resolve_right hk⟩
      · rcases (s.pairs x y).1 hxy with h1 | ⟨-, rfl, rfl⟩
        · exact hi.2.1 x y h1
        · exact hR _ _ (hi.2.1 _ _ ⟨b, hm, rfl⟩)
      · rcases (s.pairs x y).1 hxy with h1 | ⟨-, rfl, rfl⟩
        · exact (hi.2.2 x y h1).imp_right s.grow.inn
        · exact .inr (s.grow.inn (maps_in hm)))
    hwf ⟨fun x h => .inl h, hb, fun x y h => .inl h⟩ h
  refine ⟨w, gr, fun x => ⟨i1 x, ?_⟩, i2, fun x y hxy => ?_⟩
  · rintro (h1 | ⟨a, h1⟩)
    · exact gr.inn h1
    · exact p a x h1
  · rcases i3 x y hxy with h1 | h1
    · exact p x y h1
    · exact h1

/-! ### The loop -/

theorem loopTest_ok {db : UniDb} {g : LGR} (hwf : WF g.rep) {b : Bool}
    (h : loopTest db g = .ok b) :
    (b = false ↔ Closed g ∧ (∀ x y, Pair g x y → Pair g y x) ∧
      ∀ x y z, Pair g x y → Pair g y z → z ≠ x → Pair g x z) ∧
    (b = false → ∃ es es', (Validate.checkSymmetry db g true).2 = .ok (true, es) ∧
      (Validate.checkTransitivity db g).2 = .ok (true, es')) := by
  unfold loopTest at h
  have sym_iff : ∀ {s es}, (Validate.checkSymmetry db g true).2 = .ok (s, es) →
      (s = true ↔ Closed g ∧ ∀ x y, Pair g x y → Pair g y x) := by
    intro s es hs
    rw [check_symmetry_exact db g hwf s es hs]
    constructor
    · intro h1
      constructor
      · rintro x y ⟨v, hv, rfl⟩; exact (h1 x v hv).1
      · rintro x y ⟨v, hv, rfl⟩; exact (h1 x v hv).2
    · rintro ⟨h1, h2⟩ a b hm
      exact ⟨h1 a b.cp ⟨b, hm, rfl⟩, h2 a b.cp ⟨b, hm, rfl⟩⟩
  split at h
  · simp at h
  · rename_i es hs
    simp only [Except.ok.injEq] at h
    subst h
    simp only [reduceCtorEq, false_iff, false_implies, and_true, not_and]
    intro h1 h2
    have := (sym_iff hs).2 ⟨h1, h2⟩
    cases this
  · rename_i es hs
    split at h
    · simp at h
    · rename_i s es' ht
      simp only [Except.ok.injEq] at h
      subst h
      have hsym := (sym_iff hs).1 rfl
      have htr := C27.check_transitivity_exact db g hwf s es' ht
      constructor
      · rw [Bool.not_eq_false', htr]
        constructor
        · intro h1
          refine ⟨hsym.1, hsym.2, ?_⟩
          rintro x y z ⟨v, hv, rfl⟩ ⟨w, hw, rfl⟩ hz
          obtain ⟨d, h2, h3⟩ := (h1 x v hv).2 w hw hz
          exact ⟨d, h2, h3⟩
        · rintro ⟨h1, h2, h3⟩ a b hm
          refine ⟨h1 a b.cp ⟨b, hm, rfl⟩, fun c hc hca => ?_⟩
          exact h3 a b.cp c.cp ⟨b, hm, rfl⟩ ⟨c, hc, rfl⟩ hca
      · intro hb
        rw [Bool.not_eq_false'] at hb
        subst hb
        exact ⟨es, es', hs, ht⟩

theorem fixLoop_spec {db : UniDb} {R : Seq → Seq → Prop} (hR : Bound R) (n : Nat) {g g' : LGR}
    (hwf : WF g.rep) (hb : ∀ x y, Pair g x y → R x y)
    (h : fixLoop db n g = some (g', .ok ())) :
    WF g'.rep ∧ Grow g g' ∧ (∀ x, In g' x ↔ In g x) ∧ (∀ x y, Pair g' x y → R x y) ∧
      loopTest db g' = .ok false := by
  induction n generalizing g with
  | zero => simp [fixLoop] at h
  | succ n ih =>
    unfold fixLoop at h
    split at h
    · simp at h
    · rename_i ht
      simp only [Option.some.injEq, Prod.mk.injEq, and_true] at h
      subst h
      exact ⟨hwf, .refl g, fun _ => Iff.rfl, hb, ht⟩
    · split at h
      · simp at h
      rename_i g1 h1
      split at h
      · simp at h
      rename_i g2 h2
      obtain ⟨w1, gr1, i1, b1, -⟩ := addSymmetry_spec hwf hR.symm hb h1
      obtain ⟨w2, gr2, i2, b2, -⟩ := addTransitivity_spec w1 hR.trans b1 h2
      obtain ⟨w3, gr3, i3, b3, t3⟩ := ih w2 b2 h
      exact ⟨w3, (gr1.trans gr2).trans gr3, fun x => (i3 x).trans ((i2 x).trans (i1 x)), b3, t3⟩

open Classical in
/-- The pairs of `U` not there yet. -/
noncomputable def absent (U : Finset Seq) (g : LGR) : Finset (Seq × Seq) :=
  (U ×ˢ U).filter (fun p => ¬ Pair g p.1 p.2)

theorem fixLoop_terminates {db : UniDb} (U : Finset Seq) (n : Nat) {g : LGR} (hwf : WF g.rep)
    (hc : Closed g) (hU : ∀ x, In g x → x ∈ U) (hn : (absent U g).card < n) :
    ∃ out, fixLoop db n g = some out := by
  induction n generalizing g with
  | zero => exact absurd hn (Nat.not_lt_zero _)
  | succ n ih =>
    unfold fixLoop
    cases ht : loopTest db g with
    | error e => exact ⟨_, rfl⟩
    | ok b =>
      cases b with
      | false => exact ⟨_, rfl⟩
      | true =>
        simp only
        generalize h1 : addSymmetry db g = res
        obtain ⟨g1, o1⟩ := res
        cases o1 with
        | error e => exact ⟨_, rfl⟩
        | ok u =>
          simp only
          generalize h2 : addTransitivity db g1 = res
          obtain ⟨g2, o2⟩ := res
          cases o2 with
          | error e => exact ⟨_, rfl⟩
          | ok u =>
            simp only
            -- every pair stays within the entries
            have hRs : ∀ x y, (In g x ∧ In g y) → (In g y ∧ In g x) := fun x y h => ⟨h.2, h.1⟩
            have hRt : ∀ x y z, (In g x ∧ In g y) → (In g y ∧ In g z) → z ≠ x → (In g x ∧ In g z) :=
              fun x y z h h' _ => ⟨h.1, h'.2⟩
            obtain ⟨w1, gr1, i1, b1, s1⟩ := addSymmetry_spec hwf hRs
              (fun x y h => ⟨pair_in h, hc x y h⟩) h1
            obtain ⟨w2, gr2, i2, b2, s2⟩ := addTransitivity_spec w1 hRt b1 h2
            have hin : ∀ x, In g2 x ↔ In g x := fun x => (i2 x).trans (i1 x)
            refine ih w2 (fun x y h => (hin y).2 (b2 x y h).2) (fun x h => hU x ((hin x).1 h)) ?_
            have hnew : ∃ x y, Pair g2 x y ∧ ¬ Pair g x y := by
              by_contra hno
              have hsame : ∀ x y, Pair g2 x y → Pair g x y := fun x y h => by
                by_contra h'; exact hno ⟨x, y, h, h'⟩
              have := (loopTest_ok hwf ht).1.2 ⟨hc, fun x y h => hsame y x (gr2.pairs _ _ (s1 x y h)),
                fun x y z h h' hz => hsame x z
                  (s2 x y z (gr1.pairs _ _ h) (gr1.pairs _ _ h') hz)⟩
              cases this
            obtain ⟨x, y, h3, h4⟩ := hnew
            have hlt : (absent U g2).card < (absent U g).card := by
              apply Finset.card_lt_card
              rw [Finset.ssubset_iff_of_subset]
              · refine ⟨(x, y), ?_, ?_⟩
                · simp only [absent, Finset.mem_filter, Finset.mem_product]
                  exact ⟨⟨hU x (b2 x y h3).1, hU y (b2 x y h3).2⟩, h4⟩
                · simp only [absent, Finset.mem_filter, Finset.mem_product, not_and, not_not]
                  exact fun _ => h3
              · intro p hp
                simp only [absent, Finset.mem_filter] at hp ⊢
                exact ⟨hp.1, fun h => hp.2 (gr2.pairs _ _ (gr1.pairs _ _ h))⟩
            omega

theorem fixLoop_mono {db : UniDb} {n m : Nat} (hm : n ≤ m) {g : LGR} {out : LGR × Except Err Unit}
    (h : fixLoop db n g = some out) : fixLoop db m g = some out := by
  induction n generalizing g m with
  | zero => simp [fixLoop] at h
  | succ n ih =>
    obtain ⟨m, rfl⟩ : ∃ k, m = k + 1 := ⟨m - 1, by omega⟩
    unfold fixLoop at h ⊢
    cases ht : loopTest db g with
    | error e => rw [ht] at h; exact h
    | ok b =>
      rw [ht] at h
      cases b with
      | false => exact h
      | true =>
        simp only at h ⊢
        generalize addSymmetry db g = res at h ⊢
        obtain ⟨g1, o1⟩ := res
        cases o1 with
        | error e => exact h
        | ok u =>
          simp only at h ⊢
          generalize addTransitivity db g1 = res at h ⊢
          obtain ⟨g2, o2⟩ := res
          cases o2 with
          | error e => exact h
          | ok u => exact ih (by omega) h

theorem populate_mono {db : UniDb} {n m : Nat} (hm : n ≤ m) {g : LGR} {out : LGR × Except Err Unit}
    (h : populate db n g = some out) : populate db m g = some out := by
  unfold populate at h ⊢
  generalize forRepertoire (fun g a => forVariants (missBody db a) g a) g = res at h ⊢
  obtain ⟨g1, o1⟩ := res
  cases o1 with
  | error e => exact h
  | ok u =>
    simp only at h ⊢
    cases hf : fixLoop db n g1 with
    | none => rw [hf] at h; cases h
    | some r => rw [hf] at h; rw [fixLoop_mono hm hf]; exact h

/-- **C28** `populate_lgr` terminates on every LGR: there is a number of iterations from which on
the outcome of the model does not change. -/
theorem populate_terminates (db : UniDb) (g : LGR) (hwf : WF g.rep) :
    ∃ n out, ∀ m, n ≤ m → populate db m g = some out := by
  have : ∃ n out, populate db n g = some out := by
    unfold populate
    generalize h1 : forRepertoire (fun g a => forVariants (missBody db a) g a) g = res
    obtain ⟨g1, o1⟩ := res
    cases o1 with
    | error e => exact ⟨0, _, rfl⟩
    | ok u =>
      simp only
      obtain ⟨w, -, -, -, hcl⟩ := missing_spec (R := fun _ _ => True) hwf (by simp) (by simp) h1
      have hU : ∀ x, In g1 x → x ∈ (g1.rep.allChars.map CharObj.cp).toFinset := by
        rintro x ⟨c, hc⟩
        obtain ⟨i, t, rfl, hm, hcp⟩ := (lookup_eq_some w).1 hc
        obtain ⟨p, hp, _, hcm⟩ := bucket_mem hm
        rw [List.mem_toFinset, List.mem_map]
        exact ⟨c, List.mem_flatMap.2 ⟨p, hp, hcm⟩, hcp⟩
      obtain ⟨out, hout⟩ := fixLoop_terminates (db := db) _ _ w hcl hU (Nat.lt_succ_self _)
      obtain ⟨g2, o2⟩ := out
      cases o2 with
      | error e => exact ⟨_, (g2, .error e), by rw [hout]⟩
      | ok u => exact ⟨_, finish db g2, by rw [hout]⟩
  obtain ⟨n, out, h⟩ := this
  exact ⟨n, out, fun m hm => populate_mono hm h⟩

/-- What a normal return gives, for any bound on the pairs. -/
theorem populate_spec {db : UniDb} {R : Seq → Seq → Prop} (hR : Bound R) {n : Nat} {g g' : LGR}
    (hwf : WF g.rep) (hb : ∀ x y, Pair g x y → R x y)
    (h : populate db n g = some (g', .ok ())) :
    WF g'.rep ∧ Grow g g' ∧ (∀ x, In g' x ↔ In g x ∨ ∃ a, Pair g a x) ∧
      (∀ x y, Pair g' x y → R x y) ∧ Closed g' ∧ (∀ x y, Pair g' x y → Pair g' y x) ∧
      (∀ x y z, Pair g' x y → Pair g' y z → z ≠ x → Pair g' x z) ∧
      ∃ g2 es es', (Validate.checkSymmetry db g2 true).2 = .ok (true, es) ∧
        (Validate.checkTransitivity db g2).2 = .ok (true, es') ∧
        WF g2.rep ∧ g'.raiseInvalid = g2.raiseInvalid ∧ ∀ x y, Pair g' x y → Pair g2 x y := by
  unfold populate at h
  split at h
  · simp at h
  rename_i g1 h1
  obtain ⟨w1, gr1, i1, b1, c1⟩ := missing_spec hwf hR.symm hb h1
  split at h
  · simp at h
  · simp at h
  rename_i g2 h2
  obtain ⟨w2, gr2, i2, b2, t2⟩ := fixLoop_spec hR n w1 b1 h2
  obtain ⟨hfix, hchk⟩ := loopTest_ok w2 t2
  obtain ⟨c2, s2, tr2⟩ := hfix.1 rfl
  obtain ⟨es, es', k1, k2⟩ := hchk rfl
  simp only [Option.some.injEq] at h
  have fin : WF g'.rep ∧ Grow g2 g' ∧ (∀ x, In g' x ↔ In g2 x) ∧ ∀ x y, Pair g' x y → Pair g2 x y := by
    unfold finish at h
    split at h
    · simp at h
    · simp only [Prod.mk.injEq, and_true] at h
      subst h
      exact ⟨w2, .refl _, fun _ => Iff.rfl, fun _ _ h => h⟩
    · obtain ⟨w3, gr3, i3, b3, -⟩ := addSymmetry_spec w2 s2 (fun x y h => h) h
      exact ⟨w3, gr3, i3, b3⟩
  obtain ⟨w3, gr3, i3, b3⟩ := fin
  refine ⟨w3, (gr1.trans gr2).trans gr3, fun x => (i3 x).trans ((i2 x).trans (i1 x)),
    fun x y h => b2 x y (b3 x y h), fun x y h => (i3 y).2 (c2 x y (b3 x y h)),
    fun x y h => gr3.pairs _ _ (s2 x y (b3 x y h)),
    fun x y z h h' hz => gr3.pairs _ _ (tr2 x y z (b3 x y h) (b3 y z h') hz),
    g2, es, es', k1, k2, w2, gr3.raise, b3⟩

/-- **C28** When `populate_lgr` returns, the LGR passes the symmetry check (ignoring rules) and the
transitivity check, neither of which raises. -/
theorem populate_symmetric_transitive (db : UniDb) (n : Nat) (g g' : LGR) (hwf : WF g.rep)
    (h : populate db n g = some (g', .ok ())) :
    (∃ es, (Validate.checkSymmetry db g' true).2 = .ok (true, es)) ∧
    ∃ es, (Validate.checkTransitivity db g').2 = .ok (true, es) := by
  obtain ⟨w, -, -, -, hc, hs, ht, g2, es, es', k1, k2, w2, hra, hp⟩ :=
    populate_spec (R := fun _ _ => True) ⟨by simp, by simp⟩ hwf (by simp) h
  have hidna : ∀ a b, Maps g' a b → IdnaOk db g' b.cp := by
    intro a b hm
    obtain ⟨v, hv, hvb⟩ := hp a b.cp ⟨b, hm, rfl⟩
    have := (C27.check_transitivity_returns_iff db g2 w2).1 ⟨_, k2⟩ a v hv
    rw [hvb] at this
    unfold IdnaOk at *
    rw [hra]; exact this
  obtain ⟨⟨s, e1⟩, r1⟩ := (check_symmetry_returns_iff db g' w true).2 (fun a b hm _ => hidna a b hm)
  obtain ⟨⟨t, e2⟩, r2⟩ := (C27.check_transitivity_returns_iff db g' w).2 hidna
  refine ⟨⟨e1, ?_⟩, e2, ?_⟩
  · have : s = true := by
      rw [check_symmetry_exact db g' w s e1 r1]
      intro a b hm
      exact ⟨hc a b.cp ⟨b, hm, rfl⟩, hs a b.cp ⟨b, hm, rfl⟩⟩
    rw [r1, this]
  · have : t = true := by
      rw [C27.check_transitivity_exact db g' w t e2 r2]
      intro a b hm
      exact ⟨hc a b.cp ⟨b, hm, rfl⟩, fun c hcm hca => ht a b.cp c.cp ⟨b, hm, rfl⟩ ⟨c, hcm, rfl⟩ hca⟩
    rw [r2, this]

end Lgr.Props.C28

namespace Lgr.Props.C29
open Lgr LGR Repertoire C50 C26 Populate C28

/-- **C29**, partial. On normal return the entries are those before and their variants; and the pairs (entry,
variant) are exactly those before plus those between different members of the same variant set (the
connected components of the variant graph before). Missing: nothing is lost when the call raises;
see `populate_raise_loses`. -/
theorem populate_exact_partial (db : UniDb) (n : Nat) (g g' : LGR) (hwf : WF g.rep)
    (h : populate db n g = some (g', .ok ())) :
    (∀ x, In g' x ↔ In g x ∨ ∃ a, Pair g a x) ∧
    ∀ x y, Pair g' x y ↔ Pair g x y ∨ (x ≠ y ∧ Relation.EqvGen (Pair g) x y) := by
  have hR : Bound (fun x y => Pair g x y ∨ (x ≠ y ∧ Relation.EqvGen (Pair g) x y)) := by
    have eq : ∀ {x y}, (Pair g x y ∨ (x ≠ y ∧ Relation.EqvGen (Pair g) x y)) →
        Relation.EqvGen (Pair g) x y := by
      rintro x y (h | h)
      · exact .rel _ _ h
      · exact h.2
    constructor
    · intro x y hxy
      by_cases hne : x = y
      · subst hne; exact hxy
      · exact .inr ⟨Ne.symm hne, .symm _ _ (eq hxy)⟩
    · intro x y z hxy hyz hz
      exact .inr ⟨Ne.symm hz, .trans _ _ _ (eq hxy) (eq hyz)⟩
  obtain ⟨-, gr, hi, hb, -, hs, ht, -⟩ := populate_spec hR hwf (fun x y h => .inl h) h
  refine ⟨hi, fun x y => ⟨hb x y, ?_⟩⟩
  have : ∀ x y, Relation.EqvGen (Pair g) x y → x = y ∨ Pair g' x y := by
    intro x y he
    induction he with
    | rel x y h => exact .inr (gr.pairs _ _ h)
    | refl x => exact .inl rfl
    | symm x y _ ih =>
      rcases ih with rfl | ih
      · exact .inl rfl
      · exact .inr (hs _ _ ih)
    | trans x y z _ _ ih1 ih2 =>
      rcases ih1 with rfl | ih1
      · exact ih2
      · rcases ih2 with rfl | ih2
        · exact .inr ih1
        · by_cases hxz : x = z
          · exact .inl hxz
          · exact .inr (ht _ _ _ ih1 ih2 (Ne.symm hxz))
  rintro (h1 | ⟨h1, h2⟩)
  · exact gr.pairs _ _ h1
  · exact (this x y h2).resolve_left h1

/-- **C29** On normal return every entry keeps its attributes and range, a new entry has none, the
ranges, references and tag classes are the same; a variant whose pair is new is blocked (more generally a variant is
blocked or has the type of an earlier one with the same code points). -/
theorem populate_keeps_entries (db : UniDb) (n : Nat) (g g' : LGR) (hwf : WF g.rep)
    (h : populate db n g = some (g', .ok ())) :
    (∀ x c, g.rep.lookup x = some c → ∃ c', g'.rep.lookup x = some c' ∧ c'.attrs = c.attrs ∧
      c'.range = c.range) ∧
    g'.rep.ranges = g.rep.ranges ∧ g'.refs = g.refs ∧ g'.tagCls = g.tagCls ∧
    (∀ x c', g.rep.lookup x = none → g'.rep.lookup x = some c' → c'.attrs = {} ∧ c'.range = none) ∧
    ∀ x v, Maps g' x v → v.type = some "blocked" ∨
      ∃ u, Maps g x u ∧ u.cp = v.cp ∧ u.type = v.type := by
  obtain ⟨-, gr, -⟩ := populate_spec (R := fun _ _ => True) ⟨by simp, by simp⟩ hwf (by simp) h
  exact ⟨gr.keep, gr.ranges, gr.refs, gr.tagCls, gr.fresh, gr.types⟩

/-- **C29** On normal return every variant is still there, except that an unconditional one may have
been given a context rule, keeping type, comment and references. (No variant may have the empty
string as rule name.) -/
theorem populate_keeps_variants (db : UniDb) (n : Nat) (g g' : LGR) (hwf : WF g.rep)
    (hne : ∀ x v, Maps g x v → v.whenR ≠ some "" ∧ v.notWhenR ≠ some "")
    (h : populate db n g = some (g', .ok ())) (x : Seq) (v : Variant) (hv : Maps g x v) :
    Maps g' x v ∨ v.whenR = none ∧ v.notWhenR = none ∧ ∃ v', Maps g' x v' ∧ v'.cp = v.cp ∧
      v'.type = v.type ∧ v'.comment = v.comment ∧ v'.refs = v.refs ∧
      (v'.whenR.isSome = true ∨ v'.notWhenR.isSome = true) := by
  obtain ⟨-, gr, -⟩ := populate_spec (R := fun _ _ => True) ⟨by simp, by simp⟩ hwf (by simp) h
  exact (gr.vars hne).2 x v hv

open C27 in
/-- Witness of the next theorem. -/
def lossOps : List (LGR.Ctx × LGR.Op) :=
  [(ctx, .addReference "R" none (some "0")), (ctx, .addCp (.int 1) {}), (ctx, .addCp (.int 2) {}),
   (ctx, .addVariant (.int 1) (.int 2) none { whenR := some "w" }),
   (ctx, .addVariant (.int 2) (.int 1) none { ref := ["0", "0"], force := true })]

/-- **C29** is violated when `populate_lgr` raises: a variant with a repeated reference (accepted
with `force`, as the XML parser does) is deleted to be replaced by one with a context rule, and the
replacement is refused. -/
theorem populate_raise_loses : ∃ (ops : List (LGR.Ctx × LGR.Op)) (g' : LGR) (e : Err),
    populate none 5 (LGR.run {} ops) = some (g', .error e) ∧
    Pair (LGR.run {} ops) [2] [1] ∧ ¬ Pair g' [2] [1] := by
  have h : (match populate none 5 (LGR.run {} lossOps) with
      | some (g', .error _) => (g'.rep.lookup [2]).all (fun c => c.getVariants.isEmpty)
      | _ => false) = true := by decide +kernel
  have h2 : ((LGR.run {} lossOps).rep.lookup [2]).any
      (fun c => c.getVariants.any (fun v => v.cp == [1])) = true := by decide +kernel
  split at h
  · rename_i g' e hp
    refine ⟨lossOps, g', e, hp, ?_, ?_⟩
    · simp only [Option.any_eq_true, List.any_eq_true, beq_iff_eq] at h2
      obtain ⟨c, hc, v, hv, hcp⟩ := h2
      exact ⟨v, ⟨c, hc, hv⟩, hcp⟩
    · rintro ⟨v, ⟨c, hc, hv⟩, -⟩
      rw [hc] at h
      simp only [Option.all_some, List.isEmpty_iff] at h
      rw [h] at hv; simp at hv
  · cases h

/-! Non-vacuity: on 1 → 2 (when w), 1 → 3, 3 → 4 (out of repertoire), populating returns, and adds
the entry 4 and the missing pairs of {1, 2, 3, 4}. -/

open C27 in
def chainOps : List (LGR.Ctx × LGR.Op) :=
  [(ctx, .addCp (.int 1) {}), (ctx, .addCp (.int 2) {}), (ctx, .addCp (.int 3) {}),
   (ctx, .addVariant (.int 1) (.int 2) none { whenR := some "w" }),
   (ctx, .addVariant (.int 1) (.int 3) none {}), (ctx, .addVariant (.int 3) (.int 4) none {})]

example : (match populate none 5 (LGR.run {} chainOps) with
    | some (g', .ok ()) => g'.rep.allChars.map (fun c => (c.cp, c.getVariants.map Variant.cp))
    | _ => []) =
    [([1], [[2], [3], [4]]), ([2], [[1], [3], [4]]), ([3], [[1], [2], [4]]), ([4], [[1], [2], [3]])] := by
  decide +kernel

example : WF (LGR.run {} chainOps).rep := (run_wf chainOps).1

end Lgr.Props.C29

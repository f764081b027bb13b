import Verif.Props.Populate

/-!
# C28, C29: when populating variants does not raise
-/

namespace Lgr.Props.C28
open Lgr LGR Repertoire C50 C26 Populate

/-- Nothing in the LGR that `populate_lgr` trips over: no variant is a range member, has an empty
rule name, two rules, or an unknown or repeated reference; code points are valid. -/
structure Tidy (db : UniDb) (g : LGR) : Prop where
  rules : ∀ x v, Maps g x v → v.whenR ≠ some "" ∧ v.notWhenR ≠ some "" ∧
    (v.whenR = none ∨ v.notWhenR = none)
  refs : ∀ x v, Maps g x v → (∀ i ∈ v.refs, (dget g.refs.refs i).isSome = true) ∧ v.refs.Nodup
  idna : ∀ x v, Maps g x v → IdnaOk db g x ∧ IdnaOk db g v.cp
  range : ∀ x v c, Maps g x v → g.rep.lookup v.cp = some c → c.range = none

theorem IdnaOk.raise {db : UniDb} {g g' : LGR} (h : g'.raiseInvalid = g.raiseInvalid) {s : Seq}
    (hs : IdnaOk db g s) : IdnaOk db g' s := by
  unfold IdnaOk at *; rw [h]; exact hs

theorem maps_range {g : LGR} (hwf : WF g.rep) {x : Seq} {v : Variant} {c : CharObj} (h : Maps g x v)
    (hc : g.rep.lookup x = some c) : c.range = none := by
  obtain ⟨d, hd, hv⟩ := h
  rw [hc] at hd; cases hd
  exact variant_nonrange (lookup_charWF hwf hc).varWF hv

/-- `add_variant` returns, and the LGR stays tidy. -/
theorem tidy_add {db : UniDb} {g : LGR} (hwf : WF g.rep) (ht : Tidy db g) {s v : Seq} {c : CharObj}
    {type : Option String} {o : Opts} (hs : g.rep.lookup s = some c) (hr : c.range = none)
    (hv : v ≠ []) (is : IdnaOk db g s) (iv : IdnaOk db g v) (hf : o.force = false) (hp : o.vrep = none)
    (ho : o.whenR ≠ some "" ∧ o.notWhenR ≠ some "" ∧ (o.whenR = none ∨ o.notWhenR = none))
    (hrf : RefsOk g o) (hno : ∀ u, Maps g s u → u.key ≠ (v, o.whenR, o.notWhenR))
    (hvr : ∀ d, g.rep.lookup v = some d → d.range = none) :
    ∃ g', g.addVariant db (.seq s) (.seq v) type o = (g', .ok ()) ∧ WF g'.rep ∧ Tidy db g' := by
  have hse : s ≠ [] := by rintro rfl; simp [lookup] at hs
  have hok := (add_variant_ok_iff db g hwf (.seq s) (.seq v) type o).2
    ⟨s, v, c, .seq s hse, is, .seq v hv, iv, (by intro k hk; rw [hp] at hk; cases hk), hs, hr, ?_,
      fun _ => ⟨ho.2.2, hrf⟩⟩
  · generalize hg : g.addVariant db (.seq s) (.seq v) type o = r at hok
    obtain ⟨g', r⟩ := r
    simp only at hok
    subst hok
    obtain ⟨f, -, hi, -, hm⟩ := addVar_step hwf hg
    refine ⟨g', rfl, f.wf, ?_, ?_, ?_, ?_⟩
    · intro x u hu
      rcases (hm x u).1 hu with h | ⟨rfl, rfl⟩
      · exact ht.rules x u h
      · exact ho
    · intro x u hu
      rw [f.refs]
      rcases (hm x u).1 hu with h | ⟨rfl, rfl⟩
      · exact ht.refs x u h
      · exact ⟨fun i h => (List.mem_filter.1 h).2, hrf.2.filter _⟩
    · intro x u hu
      rcases (hm x u).1 hu with h | ⟨rfl, rfl⟩
      · exact ⟨IdnaOk.raise f.raise (ht.idna x u h).1, IdnaOk.raise f.raise (ht.idna x u h).2⟩
      · exact ⟨IdnaOk.raise f.raise is, IdnaOk.raise f.raise iv⟩
    · intro x u d hu hd
      have old : ∀ e, g.rep.lookup u.cp = some e → e.range = none := by
        intro e he
        rcases (hm x u).1 hu with h | ⟨rfl, rfl⟩
        · exact ht.range x u e h he
        · exact hvr e he
      obtain ⟨e, he⟩ := (hi u.cp).1 ⟨d, hd⟩
      obtain ⟨e', h1, -, h2⟩ := f.keep _ _ he
      rw [hd] at h1; cases h1
      rw [h2]; exact old e he
  · rintro ⟨u, hu, hk⟩
    exact hno u ⟨c, hs, hu⟩ hk

theorem del_total {db : UniDb} {g : LGR} {s v : Seq} {c : CharObj} (hs : g.rep.lookup s = some c)
    (hr : c.range = none) (hv : v ≠ []) (is : IdnaOk db g s) :
    ∃ g' b, g.delVariant db (.seq s) (.seq v) none none = (g', .ok b) := by
  have hse : s ≠ [] := by rintro rfl; simp [lookup] at hs
  unfold LGR.delVariant
  rw [checkConvert_ok.2 ⟨.seq s hse, is⟩]
  dsimp only
  unfold Repertoire.delVariant
  rw [getChar_ok.2 hs]
  dsimp only
  have : ∃ r, c.delVariant v none none = .ok r := by
    unfold CharObj.delVariant
    rw [if_neg (by simp [hr]), if_neg hv]
    cases dget c.vars v with
    | none => exact ⟨_, rfl⟩
    | some vs =>
      dsimp only
      split
      · split <;> exact ⟨_, rfl⟩
      · exact ⟨_, rfl⟩
  obtain ⟨r, h⟩ := this
  rw [h]
  exact ⟨_, _, rfl⟩

theorem tidy_del {db : UniDb} {g g' : LGR} (hwf : WF g.rep) (ht : Tidy db g) {s v : Seq} {b : Bool}
    (h : g.delVariant db (.seq s) (.seq v) none none = (g', .ok b)) : Tidy db g' := by
  obtain ⟨f, hi, hm⟩ := delVar_step hwf h
  refine ⟨fun x u hu => ht.rules x u ((hm x u).1 hu).1, fun x u hu => ?_, fun x u hu => ?_,
    fun x u d hu hd => ?_⟩
  · rw [f.refs]; exact ht.refs x u ((hm x u).1 hu).1
  · have := ht.idna x u ((hm x u).1 hu).1
    exact ⟨IdnaOk.raise f.raise this.1, IdnaOk.raise f.raise this.2⟩
  · obtain ⟨e, he⟩ := (hi u.cp).1 ⟨d, hd⟩
    obtain ⟨e', h1, -, h2⟩ := f.keep _ _ he
    rw [hd] at h1; cases h1
    rw [h2]; exact ht.range x u e ((hm x u).1 hu).1 he

/-- The two things that `fixRule` may do. -/
theorem replace_total {db : UniDb} {g : LGR} (hwf : WF g.rep) (ht : Tidy db g) {a : Seq} {b r : Variant}
    (hab : Maps g a b) (hr : Maps g b.cp r) (hra : r.cp = a) {o : Opts} (hf : o.force = false)
    (hp : o.vrep = none)
    (ho : o.whenR ≠ some "" ∧ o.notWhenR ≠ some "" ∧ (o.whenR = none ∨ o.notWhenR = none))
    (hno : ∀ u, Maps g b.cp u → u.key ≠ (a, o.whenR, o.notWhenR)) :
    ∃ g', replaceVariant db g b.cp r o = (g', .ok ()) ∧ WF g'.rep ∧ Tidy db g' := by
  subst hra
  obtain ⟨c, hc⟩ := maps_in hr
  have hcr := maps_range hwf hr hc
  obtain ⟨i1, i2⟩ := ht.idna _ _ hr
  obtain ⟨g1, d, h1⟩ := del_total hc hcr (maps_ne hwf hr) i1
  obtain ⟨f, hi, hm⟩ := delVar_step hwf h1
  obtain ⟨c1, hc1, -, hc1r⟩ := f.keep _ _ hc
  unfold replaceVariant
  rw [h1]
  dsimp only
  refine tidy_add f.wf (tidy_del hwf ht h1) hc1 (by rw [hc1r]; exact hcr) (maps_ne hwf hr)
    (IdnaOk.raise f.raise i1) (IdnaOk.raise f.raise i2) hf hp ho ?_
    (fun u hu => hno u ((hm _ u).1 hu).1) ?_
  · have := ht.refs _ _ hr
    exact ⟨by rw [f.refs]; exact this.1, this.2⟩
  · intro d hd
    obtain ⟨e, he⟩ := (hi r.cp).1 ⟨d, hd⟩
    obtain ⟨e', h1, -, h2⟩ := f.keep _ _ he
    rw [hd] at h1; cases h1
    rw [h2]; exact ht.range _ r e hr he

theorem fixRule_total {db : UniDb} {g : LGR} (hwf : WF g.rep) (ht : Tidy db g) {a : Seq} {b : Variant}
    (hab : Maps g a b) {reverse : List Variant} (hne : reverse ≠ [])
    (hrev : ∀ u, u ∈ reverse ↔ Maps g b.cp u ∧ u.cp = a) {rule same other : Option String} {o : Opts}
    (f : Variant → Option String) (hsame : same = lastRule f reverse)
    (ho : o = { whenR := rule } ∧ f = Variant.whenR ∨ o = { notWhenR := rule } ∧ f = Variant.notWhenR) :
    ∃ g', fixRule db g a b reverse rule same other o = (g', .ok ()) ∧ WF g'.rep ∧ Tidy db g' := by
  unfold fixRule
  split
  · exact ⟨g, rfl, hwf, ht⟩
  split
  · rename_i h
    simp only [Bool.and_eq_true, Bool.not_eq_true'] at h
    obtain ⟨s, rfl, hs⟩ := truthy_iff.1 h.1
    have hgood : o.whenR ≠ some "" ∧ o.notWhenR ≠ some "" ∧ (o.whenR = none ∨ o.notWhenR = none) := by
      rcases ho with ⟨rfl, -⟩ | ⟨rfl, -⟩ <;> simp [hs]
    have hplain : o.force = false ∧ o.vrep = none ∧ o.ref = [] := by
      rcases ho with ⟨rfl, -⟩ | ⟨rfl, -⟩ <;> exact ⟨rfl, rfl, rfl⟩
    have hno : ∀ u, Maps g b.cp u → u.key ≠ (a, o.whenR, o.notWhenR) := by
      intro u hu hk
      unfold Variant.key at hk
      simp only [Prod.mk.injEq] at hk
      have hmem := (hrev u).2 ⟨hu, hk.1⟩
      have hfu : truthy (f u) = true := by
        rcases ho with ⟨rfl, rfl⟩ | ⟨rfl, rfl⟩
        · rw [hk.2.1]; exact truthy_iff.2 ⟨s, rfl, hs⟩
        · rw [hk.2.2]; exact truthy_iff.2 ⟨s, rfl, hs⟩
      rw [hsame, lastRule_mem hmem hfu] at h
      cases h.2
    cases reverse with
    | nil => exact absurd rfl hne
    | cons r l =>
      obtain ⟨hr, hra⟩ := (hrev r).1 (by simp)
      split
      · obtain ⟨c, hc⟩ := maps_in hr
        obtain ⟨i1, i2⟩ := ht.idna _ _ hab
        exact tidy_add hwf ht hc (maps_range hwf hr hc) (in_ne (maps_in hab)) i2 i1 hplain.1 hplain.2.1
          hgood ⟨by simp [hplain.2.2], by simp [hplain.2.2]⟩ hno
          (fun d hd => maps_range hwf hab hd)
      · exact replace_total hwf ht hab hr hra hplain.1 hplain.2.1 hgood hno
  · exact ⟨g, rfl, hwf, ht⟩

theorem fixRule_none {db : UniDb} {g : LGR} {a : Seq} {b : Variant} {reverse : List Variant}
    {same other : Option String} {o : Opts} :
    fixRule db g a b reverse none same other o = (g, .ok ()) := by
  unfold fixRule
  simp [truthy]

theorem symBody_total {db : UniDb} {g : LGR} (hwf : WF g.rep) (ht : Tidy db g) {a : Seq} {b : Variant}
    (hab : Maps g a b) (hin : In g b.cp) :
    ∃ g', symBody db a g b = (g', .ok ()) ∧ WF g'.rep ∧ Tidy db g' := by
  obtain ⟨i1, i2⟩ := ht.idna _ _ hab
  obtain ⟨c, hc⟩ := hin
  have hv : g.getVariants db (.seq b.cp) = .ok c.getVariants :=
    (getVariants_ok (maps_ne hwf hab)).2 ⟨i2, c, hc, rfl⟩
  have hcr := ht.range _ _ _ hab hc
  have hrev : ∀ u, u ∈ c.getVariants.filter (fun v => decide (a = v.cp)) ↔
      Maps g b.cp u ∧ u.cp = a := by
    intro u
    simp only [List.mem_filter, decide_eq_true_eq]
    constructor
    · rintro ⟨h1, h2⟩; exact ⟨⟨c, hc, h1⟩, h2.symm⟩
    · rintro ⟨⟨d, hd, h1⟩, h2⟩
      rw [hc] at hd; cases hd
      exact ⟨h1, h2.symm⟩
  have hgood := ht.rules _ _ hab
  unfold symBody
  rw [hv]
  dsimp only
  split
  · rename_i hnil
    refine tidy_add hwf ht hc hcr (in_ne (maps_in hab)) i2 i1 rfl rfl hgood ⟨by simp, by simp⟩ ?_
      (fun d hd => maps_range hwf hab hd)
    intro u hu hk
    have := (hrev u).2 ⟨hu, congrArg Prod.fst hk⟩
    rw [hnil] at this
    simp at this
  · rename_i hne
    rcases hgood.2.2 with hw | hn
    · rw [hw, fixRule_none]
      exact fixRule_total hwf ht hab hne hrev _ rfl (.inr ⟨rfl, rfl⟩)
    · obtain ⟨g1, h1, w1, t1⟩ := fixRule_total hwf ht hab hne hrev (rule := b.whenR)
        (other := lastRule Variant.notWhenR (c.getVariants.filter (fun v => decide (a = v.cp))))
        Variant.whenR rfl (.inl ⟨rfl, rfl⟩)
      rw [h1]
      dsimp only
      rw [hn, fixRule_none]
      exact ⟨g1, rfl, w1, t1⟩

theorem transStep_total {db : UniDb} {g : LGR} (hwf : WF g.rep) (ht : Tidy db g) {a : Seq}
    {b c : Variant} (hab : Maps g a b) (hi : IdnaOk db g c.cp) (hc : c.cp ≠ [])
    (hcr : ∀ d, g.rep.lookup c.cp = some d → d.range = none) :
    ∃ g', transStep db a g c = (g', .ok ()) ∧ WF g'.rep ∧ Tidy db g' := by
  obtain ⟨ca, hca⟩ := maps_in hab
  unfold transStep
  rw [getChar_ok.2 hca]
  dsimp only
  split
  · rename_i hn
    refine tidy_add hwf ht hca (maps_range hwf hab hca) hc (ht.idna _ _ hab).1 hi rfl rfl (by simp)
      ⟨by simp, by simp⟩ ?_ hcr
    rintro u ⟨d, hd, hu⟩ hk
    rw [hca] at hd; cases hd
    exact hn (List.mem_map.2 ⟨u, hu, congrArg Prod.fst hk⟩)
  · exact ⟨g, rfl, hwf, ht⟩

theorem transBody_total {db : UniDb} {g : LGR} (hwf : WF g.rep) (ht : Tidy db g) {a : Seq} {b : Variant}
    (hab : Maps g a b) (hin : In g b.cp) :
    ∃ g', transBody db a g b = (g', .ok ()) ∧ WF g'.rep ∧ Tidy db g' := by
  obtain ⟨i1, i2⟩ := ht.idna _ _ hab
  obtain ⟨c, hc⟩ := hin
  have hv : g.getVariants db (.seq b.cp) = .ok c.getVariants :=
    (getVariants_ok (maps_ne hwf hab)).2 ⟨i2, c, hc, rfl⟩
  unfold transBody
  rw [hv]
  dsimp only
  have loop : ∀ (l : List Variant) (g : LGR), WF g.rep → Tidy db g → Maps g a b →
      (∀ v ∈ l, ∃ x, Maps g x v) →
      ∃ g', forEach (transStep db a) g l = (g', .ok ()) ∧ WF g'.rep ∧ Tidy db g' := by
    intro l
    induction l with
    | nil => intro g hw ht _ _; exact ⟨g, rfl, hw, ht⟩
    | cons v l ih =>
      intro g hw ht hab hl
      obtain ⟨x, hx⟩ := hl v (by simp)
      obtain ⟨g1, h1, w1, t1⟩ := transStep_total hw ht hab (ht.idna _ _ hx).2 (maps_ne hw hx)
        (fun d hd => ht.range _ _ d hx hd)
      have hk : ∀ x u, Maps g x u → Maps g1 x u := by
        intro x u hu
        unfold transStep at h1
        split at h1
        · simp only [Prod.mk.injEq, and_true] at h1; subst h1; exact hu
        split at h1
        · obtain ⟨-, -, -, -, hm⟩ := addVar_step hw h1
          exact (hm x u).2 (.inl hu)
        · simp only [Prod.mk.injEq, and_true] at h1; subst h1; exact hu
      obtain ⟨g2, h2, w2, t2⟩ := ih g1 w1 t1 (hk _ _ hab)
        (fun u hu => by obtain ⟨x, hx⟩ := hl u (by simp [hu]); exact ⟨x, hk _ _ hx⟩)
      exact ⟨g2, by simp only [forEach]; rw [h1]; exact h2, w2, t2⟩
  exact loop _ g hwf ht hab (fun v hv => ⟨b.cp, c, hc, (List.mem_filter.1 hv).1⟩)

theorem getChar_notIn {r : Repertoire} {k : Seq} (hk : k ≠ []) (hl : r.lookup k = none) :
    r.getChar k = .error (.notInLGR k) := by
  cases k with
  | nil => exact absurd rfl hk
  | cons i t =>
    unfold Repertoire.getChar
    dsimp only
    cases hd : dget r.dict i with
    | none => rfl
    | some l =>
      dsimp only
      cases hf : l.find? (fun c => c.cp == i :: t) with
      | none => rfl
      | some c =>
        have : r.getChar (i :: t) = .ok c := by
          unfold Repertoire.getChar; dsimp only; rw [hd]; dsimp only; rw [hf]
        rw [getChar_ok.1 this] at hl; cases hl

theorem missBody_total {db : UniDb} {g : LGR} (hwf : WF g.rep) (ht : Tidy db g) {a : Seq} {b : Variant}
    (hab : Maps g a b) : ∃ g', missBody db a g b = (g', .ok ()) ∧ WF g'.rep ∧ Tidy db g' := by
  obtain ⟨i1, i2⟩ := ht.idna _ _ hab
  have hb := maps_ne hwf hab
  unfold missBody
  cases hl : g.rep.lookup b.cp with
  | some c =>
    rw [(getVariants_ok hb).2 ⟨i2, c, hl, rfl⟩]
    exact ⟨g, rfl, hwf, ht⟩
  | none =>
    have hnot : ∃ e, g.getVariants db (.seq b.cp) = .error (.notInLGR e) := by
      unfold LGR.getVariants
      rw [checkConvert_ok.2 ⟨.seq _ hb, i2⟩]
      dsimp only
      unfold Repertoire.getVariants
      cases hg : g.rep.getChar b.cp with
      | ok c => rw [getChar_ok.1 hg] at hl; cases hl
      | error e =>
        dsimp only
        have := getChar_notIn hb hl
        rw [this] at hg
        cases hg
        exact ⟨_, rfl⟩
    obtain ⟨e, he⟩ := hnot
    rw [he]
    dsimp only
    have hok : (g.addCp db (.seq b.cp) {}).2 = .ok () :=
      (add_cp_ok_iff db g _ _).2 ⟨b.cp, .seq _ hb, i2, (by intro k hk; cases hk), hl,
        fun _ => ⟨⟨.inl rfl, by simp [RefsOk]⟩, by simp [StrictTags]⟩⟩
    generalize hg : g.addCp db (.seq b.cp) {} = r at hok
    obtain ⟨g1, r⟩ := r
    simp only at hok
    subst hok
    dsimp only
    obtain ⟨f, hi, hm⟩ := addCp_step hwf hg
    obtain ⟨c, hc⟩ := (hi b.cp).2 (.inr rfl)
    have hcr := (f.fresh _ _ hl hc).2
    have hrange : ∀ x c', (∀ c, g.rep.lookup x = some c → c.range = none) → g1.rep.lookup x = some c' →
        c'.range = none := by
      intro x c' h hc'
      cases h0 : g.rep.lookup x with
      | none => exact (f.fresh _ _ h0 hc').2
      | some c0 =>
        obtain ⟨c1, h1, -, h2⟩ := f.keep _ _ h0
        rw [hc'] at h1; cases h1
        rw [h2]; exact h c0 h0
    have t1 : Tidy db g1 := by
      refine ⟨fun x u hu => ht.rules x u ((hm x u).1 hu), fun x u hu => ?_, fun x u hu => ?_,
        fun x u d hu hd => hrange _ _ (fun c hc => ht.range x u c ((hm x u).1 hu) hc) hd⟩
      · rw [f.refs]; exact ht.refs x u ((hm x u).1 hu)
      · have := ht.idna x u ((hm x u).1 hu)
        exact ⟨IdnaOk.raise f.raise this.1, IdnaOk.raise f.raise this.2⟩
    refine tidy_add f.wf t1 hc hcr (in_ne (maps_in hab)) (IdnaOk.raise f.raise i2)
      (IdnaOk.raise f.raise i1) rfl rfl (by simp) ⟨by simp, by simp⟩ ?_ ?_
    · intro u hu _
      obtain ⟨d, hd, -⟩ := (hm _ u).1 hu
      rw [hl] at hd; cases hd
    · intro d hd
      exact hrange _ _ (fun c hc => maps_range hwf hab hc) hd

/-! ### Sweeps -/

/-- A sweep whose body returns on every variant of an entry, keeping the invariant and the variants of
the entry visited. -/
theorem sweep_total {Inv : LGR → Prop} {f : Seq → LGR → Variant → LGR × Except Err Unit}
    (hf : ∀ a g b, Inv g → Maps g a b →
      ∃ g', f a g b = (g', .ok ()) ∧ Inv g' ∧ ∀ u, Maps g a u → Maps g' a u) {g : LGR} (hi : Inv g) :
    ∃ g', forRepertoire (fun g a => forVariants (f a) g a) g = (g', .ok ()) ∧ Inv g' := by
  have inner : ∀ a g, Inv g → ∃ g', forVariants (f a) g a = (g', .ok ()) ∧ Inv g' := by
    intro a g hi
    unfold forVariants
    cases hc : g.rep.getChar a with
    | error e => exact ⟨g, rfl, hi⟩
    | ok c =>
      dsimp only
      have loop : ∀ (l : List Variant) (g : LGR), Inv g → (∀ b ∈ l, Maps g a b) →
          ∃ g', forEach (f a) g l = (g', .ok ()) ∧ Inv g' := by
        intro l
        induction l with
        | nil => intro g hi _; exact ⟨g, rfl, hi⟩
        | cons b l ih =>
          intro g hi hm
          obtain ⟨g1, h1, i1, k1⟩ := hf a g b hi (hm b (by simp))
          obtain ⟨g2, h2, i2⟩ := ih g1 i1 (fun d hd => k1 d (hm d (by simp [hd])))
          exact ⟨g2, by simp only [forEach]; rw [h1]; exact h2, i2⟩
      exact loop _ g hi (fun b hb => ⟨c, getChar_ok.1 hc, hb⟩)
  have bucket : ∀ (l : List CharObj) (g : LGR) (last : Option Nat), Inv g →
      ∃ last' g', bucketLoop (fun g a => forVariants (f a) g a) g last l = (last', g', .ok ()) ∧
        Inv g' := by
    intro l
    induction l with
    | nil => intro g last hi; exact ⟨last, g, rfl, hi⟩
    | cons c l ih =>
      intro g last hi
      obtain ⟨g1, h1, i1⟩ := inner c.cp g hi
      unfold bucketLoop
      cases hr : c.range with
      | none => simp only [h1]; exact ih g1 last i1
      | some p =>
        obtain ⟨rf, rl⟩ := p
        cases last with
        | none => simp only [h1]; exact ih g1 _ i1
        | some m => exact ih g _ hi
  have keys : ∀ (ks : List Nat) (g : LGR) (last : Option Nat), Inv g →
      ∃ g', keysLoop (fun g a => forVariants (f a) g a) g last ks = (g', .ok ()) ∧ Inv g' := by
    intro ks
    induction ks with
    | nil => intro g last hi; exact ⟨g, rfl, hi⟩
    | cons k ks ih =>
      intro g last hi
      unfold keysLoop
      dsimp only
      obtain ⟨last', g1, h1, i1⟩ := bucket (sortAsc CharObj.len (g.rep.bucket k)) g _ hi
      erw [h1]
      exact ih g1 last' i1
  exact keys _ g none hi

/-- What the sweeps keep: a tidy LGR whose variants are entries. -/
def Ready (db : UniDb) (g : LGR) : Prop := WF g.rep ∧ Tidy db g ∧ Closed g

theorem addSymmetry_total {db : UniDb} {g : LGR} (h : Ready db g) :
    ∃ g', addSymmetry db g = (g', .ok ()) ∧ Ready db g' := by
  refine sweep_total (Inv := Ready db) (fun a g b hi hm => ?_) h
  obtain ⟨g', h1, w1, t1⟩ := symBody_total hi.1 hi.2.1 hm (hi.2.2 _ _ ⟨b, hm, rfl⟩)
  have s := symBody_spec hi.1 hm h1
  refine ⟨g', h1, ⟨w1, t1, fun x y hxy => ?_⟩, fun u hu => (s.listed u ⟨u, hu, rfl⟩).2 hu⟩
  rcases (s.pairs x y).1 hxy with h | ⟨-, rfl⟩
  · exact s.grow.inn (hi.2.2 _ _ h)
  · exact s.grow.inn (maps_in hm)

theorem addTransitivity_total {db : UniDb} {g : LGR} (h : Ready db g) :
    ∃ g', addTransitivity db g = (g', .ok ()) ∧ Ready db g' := by
  refine sweep_total (Inv := Ready db) (fun a g b hi hm => ?_) h
  obtain ⟨g', h1, w1, t1⟩ := transBody_total hi.1 hi.2.1 hm (hi.2.2 _ _ ⟨b, hm, rfl⟩)
  have s := transBody_spec hi.1 hm h1
  refine ⟨g', h1, ⟨w1, t1, fun x y hxy => ?_⟩, fun u hu => (s.listed u ⟨u, hu, rfl⟩).2 hu⟩
  rcases (s.pairs x y).1 hxy with h | ⟨-, -, h⟩
  · exact s.grow.inn (hi.2.2 _ _ h)
  · exact s.grow.inn (hi.2.2 _ _ h)

theorem missing_total {db : UniDb} {g : LGR} (hwf : WF g.rep) (ht : Tidy db g) :
    ∃ g', forRepertoire (fun g a => forVariants (missBody db a) g a) g = (g', .ok ()) ∧ Ready db g' := by
  obtain ⟨g', h, w, t⟩ := sweep_total (f := fun a => missBody db a)
    (Inv := fun g => WF g.rep ∧ Tidy db g) (fun a g b hi hm => by
      obtain ⟨g', h1, w1, t1⟩ := missBody_total hi.1 hi.2 hm
      have s := missBody_spec hi.1 hm h1
      exact ⟨g', h1, ⟨w1, t1⟩, fun u hu => (s.listed u ⟨u, hu, rfl⟩).2 hu⟩) ⟨hwf, ht⟩
  obtain ⟨-, -, -, -, hc⟩ := missing_spec (R := fun _ _ => True) hwf (by simp) (by simp) h
  exact ⟨g', h, w, t, hc⟩

theorem loopTest_total {db : UniDb} {g : LGR} (h : Ready db g) : ∃ b, loopTest db g = .ok b := by
  obtain ⟨⟨s, es⟩, h1⟩ := (check_symmetry_returns_iff db g h.1 true).2
    (fun a b hm _ => (h.2.1.idna a b hm).2)
  obtain ⟨⟨t, et⟩, h2⟩ := (C27.check_transitivity_returns_iff db g h.1).2
    (fun a b hm => (h.2.1.idna a b hm).2)
  unfold loopTest
  rw [h1]
  cases s with
  | false => exact ⟨_, rfl⟩
  | true => dsimp only; rw [h2]; exact ⟨_, rfl⟩

theorem fixLoop_total {db : UniDb} : ∀ (n : Nat) (g : LGR) (out : LGR × Except Err Unit), Ready db g →
    fixLoop db n g = some out → ∃ g', out = (g', .ok ()) ∧ Ready db g' := by
  intro n
  induction n with
  | zero => intro g out _ h; simp [fixLoop] at h
  | succ n ih =>
    intro g out hr h
    obtain ⟨b, hb⟩ := loopTest_total hr
    obtain ⟨g1, h1, r1⟩ := addSymmetry_total hr
    obtain ⟨g2, h2, r2⟩ := addTransitivity_total r1
    unfold fixLoop at h
    rw [hb] at h
    cases b with
    | false =>
      simp only [Option.some.injEq] at h
      exact ⟨g, h.symm, hr⟩
    | true =>
      dsimp only at h
      rw [h1] at h
      dsimp only at h
      rw [h2] at h
      exact ih g2 out r2 h

theorem finish_total {db : UniDb} {g : LGR} (h : Ready db g) :
    ∃ g', finish db g = (g', .ok ()) ∧ Ready db g' := by
  obtain ⟨⟨s, es⟩, h1⟩ := (check_symmetry_returns_iff db g h.1 false).2
    (fun a b hm _ => (h.2.1.idna a b hm).2)
  unfold finish
  rw [h1]
  cases s with
  | false => exact addSymmetry_total h
  | true => exact ⟨g, rfl, h⟩

/-- **C28** `populate_lgr` returns normally on every LGR in which no variant is a range member, has an
empty rule name, two rules, or an unknown or repeated reference, and whose variants have valid code
points; the LGR is then of that kind again. -/
theorem populate_returns (db : UniDb) (g : LGR) (hwf : WF g.rep) (ht : Tidy db g) :
    ∃ n g', (∀ m, n ≤ m → populate db m g = some (g', .ok ())) ∧ Tidy db g' := by
  obtain ⟨n, out, h⟩ := populate_terminates db g hwf
  have hn := h n le_rfl
  obtain ⟨g1, h1, r1⟩ := missing_total hwf ht
  unfold populate at hn
  rw [h1] at hn
  dsimp only at hn
  split at hn
  · cases hn
  · rename_i g2 e he
    obtain ⟨g', h2, -⟩ := fixLoop_total n g1 _ r1 he
    simp at h2
  · rename_i g2 he
    obtain ⟨g', h2, r2⟩ := fixLoop_total n g1 _ r1 he
    simp only [Prod.mk.injEq, and_true] at h2
    subst h2
    obtain ⟨g3, h3, r3⟩ := finish_total r2
    rw [h3] at hn
    simp only [Option.some.injEq] at hn
    subst hn
    exact ⟨n, g3, h, r3.2.1⟩

example : Tidy none (LGR.run {} C29.chainOps) := by
  have h : ∀ c ∈ (LGR.run {} C29.chainOps).rep.allChars, c.range = none ∧ ∀ v ∈ c.getVariants,
      (v.whenR ≠ some "" ∧ v.notWhenR ≠ some "" ∧ (v.whenR = none ∨ v.notWhenR = none)) ∧
      ((∀ i ∈ v.refs, (dget (LGR.run {} C29.chainOps).refs.refs i).isSome = true) ∧ v.refs.Nodup) := by
    decide +kernel
  have h' := fun x c (hc : (LGR.run {} C29.chainOps).rep.lookup x = some c) =>
    h c ((mem_allChars (run_wf _).1 c).2 (by rw [lookup_cp hc]; exact hc))
  exact ⟨fun x v ⟨c, hc, hv⟩ => ((h' x c hc).2 v hv).1, fun x v ⟨c, hc, hv⟩ => ((h' x c hc).2 v hv).2,
    fun x v _ => ⟨fun _ _ hv => (by cases hv), fun _ _ hv => (by cases hv)⟩,
    fun x v c _ hc => (h' _ c hc).1⟩

end Lgr.Props.C28

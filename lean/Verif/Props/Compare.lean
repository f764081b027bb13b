import Verif.Compare
import Verif.Props.LgrTags
import Verif.Props.Validate

/-!
# C30, C31: union and intersection of LGRs
-/

namespace Lgr.Props.C30
open Lgr LGR Repertoire C50 C26 Compare

/-! ### Sets -/

section sets
variable {α κ : Type} [DecidableEq κ] (key : α → κ)

theorem addNew_nodup (l acc : List α) (hl : (l.map key).Nodup) :
    addNew key l acc = acc ++ l.filter (fun a => decide (key a ∉ acc.map key)) := by
  unfold addNew
  induction l generalizing acc with
  | nil => simp
  | cons a l ih =>
    rw [List.map_cons, List.nodup_cons] at hl
    rw [List.foldl_cons, ih _ hl.2]
    by_cases ha : key a ∈ acc.map key
    · rw [if_pos ha, List.filter_cons_of_neg (by simpa using ha)]
    · rw [if_neg ha, List.filter_cons_of_pos (by simpa using ha), List.append_assoc,
        List.singleton_append]
      congr 2
      apply List.filter_congr
      intro b hb
      have : key b ≠ key a := fun h => hl.1 (h ▸ List.mem_map_of_mem hb)
      simp only [List.map_append, List.mem_append, List.map_cons, List.map_nil, List.mem_singleton,
        this, or_false]

theorem addNew_keys (l acc : List α) (k : κ) :
    k ∈ (addNew key l acc).map key ↔ k ∈ acc.map key ∨ k ∈ l.map key := by
  unfold addNew
  induction l generalizing acc with
  | nil => simp
  | cons a l ih =>
    rw [List.foldl_cons, ih]
    split
    · rename_i h
      rw [List.map_cons, List.mem_cons]
      constructor
      · rintro (h1 | h1) <;> simp [h1]
      · rintro (h1 | h1 | h1)
        · exact .inl h1
        · exact .inl (h1 ▸ h)
        · exact .inr h1
    · simp only [List.map_append, List.mem_append, List.map_cons, List.map_nil, List.mem_singleton,
        List.mem_cons]
      tauto

theorem addNew_nodup_keys (l acc : List α) (h : (acc.map key).Nodup) :
    ((addNew key l acc).map key).Nodup := by
  unfold addNew
  induction l generalizing acc with
  | nil => simpa
  | cons a l ih =>
    rw [List.foldl_cons]
    apply ih
    split
    · exact h
    · rename_i ha
      rw [List.map_append, List.map_cons, List.map_nil]
      exact List.Nodup.append h (List.nodup_singleton _) (by simpa using ha)

theorem toSet_nodup (l : List α) (hl : (l.map key).Nodup) : toSet key l = l := by
  unfold toSet; rw [addNew_nodup key l [] hl]; simp

end sets

theorem mem_toSet {α : Type} [DecidableEq α] (l : List α) (a : α) : a ∈ toSet id l ↔ a ∈ l := by
  have := addNew_keys id l [] a
  simpa [toSet] using this

theorem nodup_toSet {α : Type} [DecidableEq α] (l : List α) : (toSet id l).Nodup := by
  have := addNew_nodup_keys id l [] (by simp)
  simpa [toSet] using this

theorem mem_union {α : Type} [DecidableEq α] (l1 l2 : List α) (a : α) :
    a ∈ addNew id (toSet id l2) (toSet id l1) ↔ a ∈ l1 ∨ a ∈ l2 := by
  have := addNew_keys id (toSet id l2) (toSet id l1) a
  simp only [List.map_id_fun, id_eq, mem_toSet] at this
  exact this

theorem nodup_union {α : Type} [DecidableEq α] (l1 l2 : List α) :
    (addNew id (toSet id l2) (toSet id l1)).Nodup := by
  have := addNew_nodup_keys id (toSet id l2) (toSet id l1) (by simpa using nodup_toSet l1)
  simpa using this

/-! ### Loops filling an LGR -/

/-- A loop that makes one entry per round. -/
theorem forEach_fill {f : LGR → Seq → LGR × Except Err Unit} {Q : Seq → CharObj → Prop}
    (ks : List Seq) (hk : ks.Nodup) (g : LGR) (hwf : WF g.rep)
    (hf : ∀ g k, WF g.rep → k ∈ ks → (f g k).2 = .ok () → WF (f g k).1.rep ∧
      (f g k).1.refs = g.refs ∧ (∃ c, (f g k).1.rep.lookup k = some c ∧ Q k c) ∧
      ∀ j, j ≠ k → (f g k).1.rep.lookup j = g.rep.lookup j)
    (h : (forEach f g ks).2 = .ok ()) :
    WF (forEach f g ks).1.rep ∧ (forEach f g ks).1.refs = g.refs ∧
      (∀ k ∈ ks, ∃ c, (forEach f g ks).1.rep.lookup k = some c ∧ Q k c) ∧
      ∀ j, j ∉ ks → (forEach f g ks).1.rep.lookup j = g.rep.lookup j := by
  induction ks generalizing g with
  | nil => exact ⟨hwf, rfl, by simp, fun j _ => rfl⟩
  | cons k ks ih =>
    unfold forEach at h ⊢
    have h1 := hf g k hwf (by simp)
    generalize f g k = res at h h1 ⊢
    obtain ⟨g', o⟩ := res
    cases o with
    | error e => simp at h
    | ok u =>
      obtain ⟨hw', hr, ⟨c, hc, hq⟩, ho⟩ := h1 rfl
      rw [List.nodup_cons] at hk
      obtain ⟨i1, i2, i3, i4⟩ := ih hk.2 g' hw' (fun g k hg hm => hf g k hg (by simp [hm])) h
      refine ⟨i1, i2.trans hr, ?_, ?_⟩
      · intro j hj
        rcases List.mem_cons.1 hj with rfl | hj
        · exact ⟨c, by rw [i4 j hk.1]; exact hc, hq⟩
        · exact i3 j hj
      · intro j hj
        rw [List.mem_cons, not_or] at hj
        rw [i4 j hj.2]; exact ho j hj.1

/-- Such a loop goes through when every round does. -/
theorem forEach_total {f : LGR → Seq → LGR × Except Err Unit} (ks : List Seq) (hk : ks.Nodup) (g : LGR)
    (hwf : WF g.rep)
    (hf : ∀ g k, WF g.rep → k ∈ ks → g.rep.lookup k = none → (f g k).2 = .ok () ∧ WF (f g k).1.rep ∧
      ∀ j, j ≠ k → (f g k).1.rep.lookup j = g.rep.lookup j)
    (hn : ∀ k ∈ ks, g.rep.lookup k = none) : (forEach f g ks).2 = .ok () := by
  induction ks generalizing g with
  | nil => rfl
  | cons k ks ih =>
    unfold forEach
    have h1 := hf g k hwf (by simp) (hn k (by simp))
    generalize f g k = res at h1 ⊢
    obtain ⟨g', o⟩ := res
    obtain ⟨rfl, hw', ho⟩ := h1
    rw [List.nodup_cons] at hk
    refine ih hk.2 g' hw' (fun g k hg hm => hf g k hg (by simp [hm])) ?_
    intro j hj
    rw [ho j (fun h => hk.1 (h ▸ hj))]
    exact hn j (by simp [hj])

/-! ### One entry -/

/-- The copy of a variant: its references are dropped. -/
def bare (v : Variant) : Variant := { v with refs := [] }

theorem wf_addCp {db : UniDb} {g : LGR} (h : WF g.rep) (arg : CpArg) (o : Opts) :
    WF (g.addCp db arg o).1.rep :=
  (inv_addCp (P := fun _ => True) ⟨h, by simp⟩ (by simp)).wf

theorem wf_addVariant {db : UniDb} {g : LGR} (h : WF g.rep) (arg var : CpArg) (t : Option String)
    (o : Opts) : WF (g.addVariant db arg var t o).1.rep :=
  (inv_addVariant (P := fun _ => True) ⟨h, by simp⟩ (by simp)).wf

/-- Adding variants to one entry: any loop over things that stand for a variant each. -/
theorem addVars_effect {β : Type} (mk : β → Variant) (hmk : ∀ b, (mk b).refs = []) (k : Seq) (bs : List β)
    (g : LGR) (hwf : WF g.rep) (c : CharObj) (hc : g.rep.lookup k = some c)
    (h : (forEach (fun g b => LGR.addVariant none g (.seq k) (.seq (mk b).cp) (mk b).type
      { whenR := (mk b).whenR, notWhenR := (mk b).notWhenR, comment := (mk b).comment }) g bs).2 = .ok ()) :
    let g' := (forEach (fun g b => LGR.addVariant none g (.seq k) (.seq (mk b).cp) (mk b).type
      { whenR := (mk b).whenR, notWhenR := (mk b).notWhenR, comment := (mk b).comment }) g bs).1
    WF g'.rep ∧ g'.refs = g.refs ∧ (∃ c', g'.rep.lookup k = some c' ∧ c'.attrs = c.attrs ∧
      c'.range = c.range ∧
      ∀ u, u ∈ c'.getVariants ↔ u ∈ c.getVariants ∨ ∃ b ∈ bs, u = mk b) ∧
      ∀ j, j ≠ k → g'.rep.lookup j = g.rep.lookup j := by
  induction bs generalizing g c with
  | nil => exact ⟨hwf, rfl, ⟨c, hc, rfl, rfl, by simp⟩, fun _ _ => rfl⟩
  | cons b bs ih =>
    unfold forEach at h ⊢
    have h1 := add_variant_effect none g hwf (.seq k) (.seq (mk b).cp) (mk b).type
      { whenR := (mk b).whenR, notWhenR := (mk b).notWhenR, comment := (mk b).comment }
    have h2 := wf_addVariant (db := none) hwf (.seq k) (.seq (mk b).cp) (mk b).type
      { whenR := (mk b).whenR, notWhenR := (mk b).notWhenR, comment := (mk b).comment }
    generalize LGR.addVariant none g (.seq k) (.seq (mk b).cp) (mk b).type
      { whenR := (mk b).whenR, notWhenR := (mk b).notWhenR, comment := (mk b).comment } = res at h h1 h2 ⊢
    obtain ⟨g', o⟩ := res
    cases o with
    | error e => simp at h
    | ok u =>
      obtain ⟨s, v, d, c', hs, hv, hd, hdr, hcp, hr', ha', hvs, hl, -, -, -, hrf, -⟩ := h1 rfl
      cases hs
      cases hv
      rw [hc] at hd; cases hd
      have hlk : g'.rep.lookup k = some c' := by rw [hl, if_pos rfl]
      obtain ⟨i1, i2, ⟨c2, i3, i4, i5, i6⟩, i7⟩ := ih g' h2 c' hlk h
      refine ⟨i1, i2.trans hrf, ⟨c2, i3, i4.trans ha', i5.trans (hr'.trans hdr.symm), ?_⟩, ?_⟩
      · intro u
        rw [i6, hvs]
        have hb : (⟨(mk b).cp, (mk b).type, (mk b).whenR, (mk b).notWhenR, (mk b).comment,
            knownRefs g { whenR := (mk b).whenR, notWhenR := (mk b).notWhenR, comment := (mk b).comment }⟩ :
            Variant) = mk b := by
          have := hmk b
          cases hm : mk b
          simp_all [knownRefs]
        simp only [hb, List.mem_cons, exists_eq_or_imp, or_assoc]
      · intro j hj
        rw [i7 j hj, hl, if_neg hj]

theorem strict_bare (g : LGR) (o : Opts) (hr : o.ref = []) (hw : o.whenR = none ∨ o.notWhenR = none) :
    Strict g o := ⟨hw, by simp [RefsOk, hr]⟩

/-- The loop goes through when no two variants are the same and none has both rules. -/
theorem addVars_total {β : Type} (mk : β → Variant) (hmk : ∀ b, (mk b).refs = []) (k : Seq) (hk : k ≠ [])
    (bs : List β) (hn : (bs.map (fun b => (mk b).key)).Nodup)
    (hgood : ∀ b ∈ bs, (mk b).cp ≠ [] ∧ ((mk b).whenR = none ∨ (mk b).notWhenR = none))
    (g : LGR) (hwf : WF g.rep) (c : CharObj) (hc : g.rep.lookup k = some c) (hr : c.range = none)
    (hnew : ∀ b ∈ bs, (mk b).key ∉ c.getVariants.map Variant.key) :
    (forEach (fun g b => LGR.addVariant none g (.seq k) (.seq (mk b).cp) (mk b).type
      { whenR := (mk b).whenR, notWhenR := (mk b).notWhenR, comment := (mk b).comment }) g bs).2 = .ok () := by
  induction bs generalizing g c with
  | nil => rfl
  | cons b bs ih =>
    have hok : (LGR.addVariant none g (.seq k) (.seq (mk b).cp) (mk b).type
        { whenR := (mk b).whenR, notWhenR := (mk b).notWhenR, comment := (mk b).comment }).2 = .ok () := by
      rw [add_variant_ok_iff none g hwf]
      refine ⟨k, (mk b).cp, c, .seq k hk, by simp [IdnaOk], .seq _ (hgood b (by simp)).1,
        by simp [IdnaOk], by simp [VRepOk], hc, hr, ?_, fun _ =>
          strict_bare g _ rfl (hgood b (by simp)).2⟩
      rintro ⟨u, hu, h1⟩
      exact hnew b (by simp) (List.mem_map.2 ⟨u, hu, h1⟩)
    unfold forEach
    have h1 := add_variant_effect none g hwf (.seq k) (.seq (mk b).cp) (mk b).type
      { whenR := (mk b).whenR, notWhenR := (mk b).notWhenR, comment := (mk b).comment } hok
    have h2 := wf_addVariant (db := none) hwf (.seq k) (.seq (mk b).cp) (mk b).type
      { whenR := (mk b).whenR, notWhenR := (mk b).notWhenR, comment := (mk b).comment }
    generalize LGR.addVariant none g (.seq k) (.seq (mk b).cp) (mk b).type
      { whenR := (mk b).whenR, notWhenR := (mk b).notWhenR, comment := (mk b).comment } = res at hok h1 h2 ⊢
    obtain ⟨g', o⟩ := res
    simp only at hok; subst hok
    obtain ⟨s, v, d, c', hs, hv, hd, hdr, hcp, hr', ha', hvs, hl, -⟩ := h1
    cases hs
    cases hv
    rw [hc] at hd; cases hd
    rw [List.map_cons, List.nodup_cons] at hn
    refine ih hn.2 (fun b hb => hgood b (by simp [hb])) g' h2 c' (by rw [hl, if_pos rfl]) hr' ?_
    intro b' hb' hm
    obtain ⟨u, hu, hk'⟩ := List.mem_map.1 hm
    rcases (hvs u).1 hu with hu | rfl
    · exact hnew b' (by simp [hb']) (List.mem_map.2 ⟨u, hu, hk'⟩)
    · apply hn.1
      rw [List.mem_map]
      exact ⟨b', hb', by rw [← hk']; rfl⟩

/-! ### The entries of the inputs after expansion -/

theorem expanded {db : UniDb} {g g' : LGR} (hwf : WF g.rep) (hi : Intact g.rep)
    (h : g.expandRanges db = (g', .ok ())) :
    WF g'.rep ∧ g'.refs = g.refs ∧ g'.raiseInvalid = g.raiseInvalid ∧
      ∀ k, g'.rep.lookup k = (g.rep.lookup k).map C06.noRange := by
  have hw := (inv_expandLoop (P := fun _ => True) (db := db) (by simp) g.rep.ranges (g := g)
    ⟨hwf, by simp⟩).wf
  obtain ⟨r', h1, -, h2, -⟩ := C06.expand_ranges_meaning db g hwf hi (by rw [h])
  rw [h] at h1
  simp only at h1
  subst h1
  unfold LGR.expandRanges at h
  rw [h] at hw
  exact ⟨hw, rfl, rfl, h2⟩

theorem mem_cps {g : LGR} (hwf : WF g.rep) (hr : ∀ k c, g.rep.lookup k = some c → c.range = none)
    (k : Seq) : k ∈ cps g ↔ In g k := by
  unfold cps
  rw [mem_toSet, List.mem_map]
  constructor
  · rintro ⟨c, hc, rfl⟩; exact ⟨c, iter_mem hwf hc⟩
  · rintro ⟨c, hc⟩; exact ⟨c, mem_iter hwf hc (hr k c hc), lookup_cp hc⟩

theorem getChar_seq {db : UniDb} {g : LGR} {k : Seq} {c : CharObj} (h : g.getChar db (.seq k) = .ok c) :
    g.rep.lookup k = some c := by
  unfold LGR.getChar at h
  split at h
  · simp at h
  · rename_i s hs
    obtain ⟨h1, -⟩ := checkConvert_ok.1 hs
    cases h1
    exact getChar_ok.1 h

theorem getChar_total {db : UniDb} {g : LGR} {k : Seq} {c : CharObj} (hc : g.rep.lookup k = some c)
    (hid : IdnaOk db g k) : g.getChar db (.seq k) = .ok c := by
  have hk : k ≠ [] := by rintro rfl; simp [lookup] at hc
  unfold LGR.getChar
  rw [checkConvert_ok.2 ⟨.seq k hk, hid⟩]
  exact getChar_ok.2 hc

/-! ### `add_cp` -/

theorem addCp_effect (g : LGR) (hwf : WF g.rep) (k : Seq) (o : Opts) (hr : o.ref = [])
    (h : (g.addCp none (.seq k) o).2 = .ok ()) :
    g.rep.lookup k = none ∧ WF (g.addCp none (.seq k) o).1.rep ∧
    (g.addCp none (.seq k) o).1.refs = g.refs ∧
    ∀ j, (g.addCp none (.seq k) o).1.rep.lookup j = if j = k then
      some { cp := k, attrs := ⟨o.comment, [], o.tag, o.whenR, o.notWhenR⟩ } else g.rep.lookup j := by
  obtain ⟨s, hs, hn, hl, -, -, hrf, -⟩ := add_cp_effect none g _ o h
  cases hs
  refine ⟨hn, wf_addCp hwf _ _, hrf, ?_⟩
  intro j
  rw [hl]
  simp [knownRefs, hr]

theorem addCp_total (g : LGR) (k : Seq) (hk : k ≠ []) (o : Opts) (hr : o.ref = [])
    (hv : o.vrep = none) (hn : g.rep.lookup k = none) (hw : o.whenR = none ∨ o.notWhenR = none)
    (ht : StrictTags k o) : (g.addCp none (.seq k) o).2 = .ok () := by
  rw [add_cp_ok_iff]
  exact ⟨k, .seq k hk, by simp [IdnaOk], by simp [VRepOk, hv], hn, fun _ => ⟨strict_bare g o hr hw, ht⟩⟩

/-! ### One common code point -/

/-- The comment made of two. -/
def Comment (a b r : Option String) : Prop :=
  (a = none → r = b) ∧ (b = none → r = a) ∧
    ∀ x y, a = some x → b = some y → r = some (if x = y then x else x ++ "|" ++ y)

theorem letUserChoose_spec (a b : Option String) : Comment a b (letUserChoose a b) := by
  cases a with
  | none => cases b <;> simp [Comment, letUserChoose]
  | some x =>
    cases b with
    | none => simp [Comment, letUserChoose]
    | some y =>
      refine ⟨by simp, by simp, ?_⟩
      rintro _ _ ⟨⟩ ⟨⟩
      simp only [letUserChoose]
      split <;> rfl

/-- What the union has for a code point of both LGRs. -/
structure United (c1 c2 c : CharObj) : Prop where
  comment : Comment c1.attrs.comment c2.attrs.comment c.attrs.comment
  tags : ∀ t, t ∈ c.attrs.tags ↔ t ∈ c1.attrs.tags ∨ t ∈ c2.attrs.tags
  tagsNodup : c.attrs.tags.Nodup
  norules : c.attrs.whenR = none ∧ c.attrs.notWhenR = none
  norefs : c.attrs.refs = []
  norange : c.range = none
  vars : ∀ u, u ∈ c.getVariants ↔ ∃ v, u = bare v ∧ (v ∈ c1.getVariants ∨
    v ∈ c2.getVariants ∧ ∀ w ∈ c1.getVariants, w.key ≠ v.key)

theorem new_vars (k : Seq) (a : Attrs) (u : Variant) :
    u ∉ (CharObj.getVariants { cp := k, attrs := a }) := by
  simp [CharObj.getVariants, sortAsc]

theorem addVars_eq (k : Seq) (g : LGR) (vs : List Variant) :
    addVars k g vs = forEach (fun g b => LGR.addVariant none g (.seq k) (.seq (bare b).cp) (bare b).type
      { whenR := (bare b).whenR, notWhenR := (bare b).notWhenR, comment := (bare b).comment }) g vs := rfl

theorem union_list (ord : SetOrder) (l1 l2 : List Variant) (h1 : (l1.map Variant.key).Nodup)
    (h2 : (l2.map Variant.key).Nodup) :
    let vs := ord.vars (addNew Variant.key (toSet Variant.key l2) (toSet Variant.key l1))
    (vs.map Variant.key).Nodup ∧
    ∀ v, v ∈ vs ↔ v ∈ l1 ∨ v ∈ l2 ∧ ∀ w ∈ l1, w.key ≠ v.key := by
  rw [toSet_nodup _ l1 h1, toSet_nodup _ l2 h2]
  refine ⟨(((ord.vars_perm _).map _).nodup_iff).2 (addNew_nodup_keys _ _ _ h1), ?_⟩
  intro v
  rw [(ord.vars_perm _).mem_iff, addNew_nodup _ _ _ h2]
  simp [List.mem_append, List.mem_filter]

theorem unionChar_effect (ord : SetOrder) (g : LGR) (hwf : WF g.rep) (c1 c2 : CharObj)
    (hc1 : (c1.getVariants.map Variant.key).Nodup) (hc2 : (c2.getVariants.map Variant.key).Nodup)
    (h : (unionChar ord g c1 c2).2 = .ok ()) :
    WF (unionChar ord g c1 c2).1.rep ∧ (unionChar ord g c1 c2).1.refs = g.refs ∧
      (∃ c, (unionChar ord g c1 c2).1.rep.lookup c1.cp = some c ∧ United c1 c2 c) ∧
      ∀ j, j ≠ c1.cp → (unionChar ord g c1 c2).1.rep.lookup j = g.rep.lookup j := by
  unfold unionChar at h ⊢
  simp only at h ⊢
  have h1 := addCp_effect g hwf c1.cp { comment := letUserChoose c1.attrs.comment c2.attrs.comment, tag := ord.strs (addNew id (toSet id c2.attrs.tags) (toSet id c1.attrs.tags)) } rfl
  generalize g.addCp none (.seq c1.cp) { comment := letUserChoose c1.attrs.comment c2.attrs.comment, tag := ord.strs (addNew id (toSet id c2.attrs.tags) (toSet id c1.attrs.tags)) } = res at h h1 ⊢
  obtain ⟨g', o⟩ := res
  cases o with
  | error e => simp at h
  | ok u =>
    obtain ⟨-, hw, hrf, hl⟩ := h1 rfl
    simp only at h hl hw hrf ⊢
    obtain ⟨-, hmem⟩ := union_list ord _ _ hc1 hc2
    rw [addVars_eq] at h ⊢
    obtain ⟨e1, e2, ⟨c', e3, e4, e5, e6⟩, e7⟩ := addVars_effect bare (fun _ => rfl) c1.cp _ g' hw _
      (by rw [hl, if_pos rfl]) h
    refine ⟨e1, e2.trans hrf, ⟨c', e3, ?_⟩, ?_⟩
    · refine ⟨?_, ?_, ?_, ?_, ?_, e5, ?_⟩
      · rw [e4]; exact letUserChoose_spec _ _
      · intro t; rw [e4]
        simp only
        rw [(ord.strs_perm _).mem_iff, mem_union]
      · rw [e4]; exact ((ord.strs_perm _).nodup_iff).2 (nodup_union _ _)
      · rw [e4]; exact ⟨rfl, rfl⟩
      · rw [e4]
      · intro u
        rw [e6]
        constructor
        · rintro (hu | ⟨v, hv, rfl⟩)
          · exact absurd hu (new_vars _ _ _)
          · exact ⟨v, rfl, (hmem v).1 hv⟩
        · rintro ⟨v, rfl, hv⟩
          exact .inr ⟨v, (hmem v).2 hv, rfl⟩
    · intro j hj; rw [e7 j hj, hl, if_neg hj]

/-- An entry that the tools can copy: it has not both context rules, its tags are distinct, it has tags
only if it is a single code point; and no variant has both context rules. -/
structure Clean (c : CharObj) : Prop where
  rules : c.attrs.whenR = none ∨ c.attrs.notWhenR = none
  tags : c.attrs.tags.Nodup
  seq : c.attrs.tags = [] ∨ c.cp.length = 1
  vars : ∀ v ∈ c.getVariants, v.whenR = none ∨ v.notWhenR = none

theorem unionChar_total (ord : SetOrder) (g : LGR) (hwf : WF g.rep) (c1 c2 : CharObj)
    (hw1 : CharWF c1) (hw2 : CharWF c2) (hcp : c2.cp = c1.cp) (h1 : Clean c1) (h2 : Clean c2)
    (hne : c1.cp ≠ []) (hn : g.rep.lookup c1.cp = none) : (unionChar ord g c1 c2).2 = .ok () := by
  unfold unionChar
  simp only
  have ht : StrictTags c1.cp { comment := letUserChoose c1.attrs.comment c2.attrs.comment, tag := ord.strs (addNew id (toSet id c2.attrs.tags) (toSet id c1.attrs.tags)) } := by
    refine ⟨((ord.strs_perm _).nodup_iff).2 (nodup_union _ _), ?_⟩
    rcases h1.seq with h1 | h1
    · rcases h2.seq with h2 | h2
      · left
        rw [h1, h2]
        exact List.perm_nil.1 (ord.strs_perm _)
      · rw [hcp] at h2; exact .inr h2
    · exact .inr h1
  have hok := addCp_total g c1.cp hne { comment := letUserChoose c1.attrs.comment c2.attrs.comment, tag := ord.strs (addNew id (toSet id c2.attrs.tags) (toSet id c1.attrs.tags)) } rfl rfl hn (.inl rfl) ht
  have he := addCp_effect g hwf c1.cp { comment := letUserChoose c1.attrs.comment c2.attrs.comment, tag := ord.strs (addNew id (toSet id c2.attrs.tags) (toSet id c1.attrs.tags)) } rfl hok
  generalize g.addCp none (.seq c1.cp) { comment := letUserChoose c1.attrs.comment c2.attrs.comment, tag := ord.strs (addNew id (toSet id c2.attrs.tags) (toSet id c1.attrs.tags)) } = res at hok he ⊢
  obtain ⟨g', o⟩ := res
  simp only at hok; subst hok
  obtain ⟨-, hw, hrf, hl⟩ := he
  simp only at hl hw ⊢
  obtain ⟨hnd, hmem⟩ := union_list ord _ _ (C08.getVariants_keys_nodup hw1.varWF)
    (C08.getVariants_keys_nodup hw2.varWF)
  rw [addVars_eq]
  refine addVars_total bare (fun _ => rfl) c1.cp hne _ hnd ?_ g' hw _ (by rw [hl, if_pos rfl]) rfl ?_
  · intro v hv
    rcases (hmem v).1 hv with hv | ⟨hv, -⟩
    · have := variant_ne hw1.varWF hv
      exact ⟨this, h1.vars v hv⟩
    · have := variant_ne hw2.varWF hv
      exact ⟨this, h2.vars v hv⟩
  · intro v _ hm
    obtain ⟨u, hu, -⟩ := List.mem_map.1 hm
    exact absurd hu (new_vars _ _ _)

/-! ### Code points of one LGR -/

/-- The attributes of an entry without its references. -/
def plain (a : Attrs) : Attrs := { a with refs := [] }

theorem copyCp_effect (g : LGR) (hwf : WF g.rep) (c : CharObj) (h : (copyCp g c).2 = .ok ()) :
    WF (copyCp g c).1.rep ∧ (copyCp g c).1.refs = g.refs ∧
    ∀ j, (copyCp g c).1.rep.lookup j = if j = c.cp then
      some { cp := c.cp, attrs := plain c.attrs } else g.rep.lookup j := by
  obtain ⟨-, h1, h2, h3⟩ := addCp_effect g hwf c.cp _ rfl h
  exact ⟨h1, h2, h3⟩

theorem copyCp_total (g : LGR) (c : CharObj) (hc : Clean c) (hne : c.cp ≠ [])
    (hn : g.rep.lookup c.cp = none) : (copyCp g c).2 = .ok () :=
  addCp_total g c.cp hne _ rfl rfl hn hc.rules ⟨hc.tags, hc.seq⟩

theorem firstStep_effect (db1 : UniDb) (g1 g : LGR) (hwf : WF g.rep) (k : Seq)
    (h : (firstStep db1 g1 g k).2 = .ok ()) :
    WF (firstStep db1 g1 g k).1.rep ∧ (firstStep db1 g1 g k).1.refs = g.refs ∧
      (∃ c, (firstStep db1 g1 g k).1.rep.lookup k = some c ∧
        ∀ c1, g1.rep.lookup k = some c1 → c = { cp := k, attrs := plain c1.attrs }) ∧
      ∀ j, j ≠ k → (firstStep db1 g1 g k).1.rep.lookup j = g.rep.lookup j := by
  unfold firstStep at h ⊢
  split at h
  · simp at h
  rename_i c hc
  have hl := getChar_seq hc
  have hk := lookup_cp hl
  obtain ⟨h1, h2, h3⟩ := copyCp_effect g hwf c h
  refine ⟨h1, h2, ⟨_, by rw [h3, if_pos hk.symm], ?_⟩, ?_⟩
  · intro c1 hc1
    rw [hl] at hc1; cases hc1
    rw [hk]
  · intro j hj
    rw [h3, if_neg (by rw [hk]; exact hj)]

theorem secondStep_effect (db2 : UniDb) (g2 g : LGR) (hwf : WF g.rep) (k : Seq)
    (h : (secondStep db2 g2 g k).2 = .ok ()) :
    WF (secondStep db2 g2 g k).1.rep ∧ (secondStep db2 g2 g k).1.refs = g.refs ∧
      (∃ c, (secondStep db2 g2 g k).1.rep.lookup k = some c ∧
        ∀ c2, g2.rep.lookup k = some c2 → c.attrs = plain c2.attrs ∧ c.range = none ∧
          ∀ u, u ∈ c.getVariants ↔ ∃ v ∈ c2.getVariants, u = bare v) ∧
      ∀ j, j ≠ k → (secondStep db2 g2 g k).1.rep.lookup j = g.rep.lookup j := by
  unfold secondStep at h ⊢
  split at h
  · simp at h
  rename_i c hc
  have hl := getChar_seq hc
  have hk := lookup_cp hl
  have he := copyCp_effect g hwf c
  generalize copyCp g c = res at h he ⊢
  obtain ⟨g', o⟩ := res
  cases o with
  | error e => simp at h
  | ok u =>
    obtain ⟨h1, h2, h3⟩ := he rfl
    simp only at h h1 h2 h3 ⊢
    rw [addVars_eq] at h ⊢
    obtain ⟨e1, e2, ⟨c', e3, e4, e5, e6⟩, e7⟩ := addVars_effect bare (fun _ => rfl) c.cp _ g' h1 _
      (by rw [h3, if_pos rfl]) h
    rw [hk] at e1 e2 e3 e7 ⊢
    refine ⟨e1, e2.trans h2, ⟨c', e3, ?_⟩, ?_⟩
    · intro c2 hc2
      rw [hl] at hc2; cases hc2
      refine ⟨e4, e5, ?_⟩
      intro u
      rw [e6]
      simp [new_vars]
    · intro j hj; rw [e7 j hj, h3, hk, if_neg hj]

theorem unionStep_effect (ord : SetOrder) (db1 db2 : UniDb) (g1 g2 g : LGR) (hw1 : WF g1.rep)
    (hw2 : WF g2.rep) (hwf : WF g.rep) (k : Seq) (h : (unionStep ord db1 db2 g1 g2 g k).2 = .ok ()) :
    WF (unionStep ord db1 db2 g1 g2 g k).1.rep ∧ (unionStep ord db1 db2 g1 g2 g k).1.refs = g.refs ∧
      (∃ c, (unionStep ord db1 db2 g1 g2 g k).1.rep.lookup k = some c ∧
        ∀ c1 c2, g1.rep.lookup k = some c1 → g2.rep.lookup k = some c2 → United c1 c2 c) ∧
      ∀ j, j ≠ k → (unionStep ord db1 db2 g1 g2 g k).1.rep.lookup j = g.rep.lookup j := by
  unfold unionStep at h ⊢
  split at h
  · simp at h
  rename_i c1 hc1
  have hl1 := getChar_seq hc1
  split at h
  · simp at h
  rename_i c2 hc2
  have hl2 := getChar_seq hc2
  have hk := lookup_cp hl1
  subst hk
  obtain ⟨h1, h2, ⟨c, h3, h4⟩, h5⟩ := unionChar_effect ord g hwf c1 c2
    (C08.getVariants_keys_nodup (lookup_charWF hw1 hl1).varWF)
    (C08.getVariants_keys_nodup (lookup_charWF hw2 hl2).varWF) h
  refine ⟨h1, h2, ⟨c, h3, ?_⟩, h5⟩
  intro d1 d2 hd1 hd2
  rw [hl1] at hd1; cases hd1
  rw [hl2] at hd2; cases hd2
  exact h4

/-! ### The union -/

/-- The union of two LGRs without ranges. -/
theorem union_core (ord : SetOrder) (db1 db2 : UniDb) (g1 g2 : LGR) (hw1 : WF g1.rep) (hw2 : WF g2.rep)
    (hr1 : ∀ k c, g1.rep.lookup k = some c → c.range = none)
    (hr2 : ∀ k c, g2.rep.lookup k = some c → c.range = none) (g0 gc gf gs : LGR) (h0 : g0.rep = {})
    (hc : forEach (unionStep ord db1 db2 g1 g2) g0
      (ord.seqs ((cps g1).filter (fun k => decide (k ∈ cps g2)))) = (gc, .ok ()))
    (hf : forEach (firstStep db1 g1) gc
      (ord.seqs ((cps g1).filter (fun k => decide (k ∉ cps g2)))) = (gf, .ok ()))
    (hs : forEach (secondStep db2 g2) gf
      (ord.seqs ((cps g2).filter (fun k => decide (k ∉ cps g1)))) = (gs, .ok ())) :
    WF gs.rep ∧ gs.refs = g0.refs ∧
      (∀ k, g1.rep.lookup k = none → g2.rep.lookup k = none → gs.rep.lookup k = none) ∧
      (∀ k c1, g1.rep.lookup k = some c1 → g2.rep.lookup k = none →
        gs.rep.lookup k = some { cp := k, attrs := plain c1.attrs }) ∧
      (∀ k c2, g1.rep.lookup k = none → g2.rep.lookup k = some c2 → ∃ c, gs.rep.lookup k = some c ∧
        c.attrs = plain c2.attrs ∧ c.range = none ∧
        ∀ u, u ∈ c.getVariants ↔ ∃ v ∈ c2.getVariants, u = bare v) ∧
      (∀ k c1 c2, g1.rep.lookup k = some c1 → g2.rep.lookup k = some c2 →
        ∃ c, gs.rep.lookup k = some c ∧ United c1 c2 c) := by
  have hnd : ∀ (g : LGR) (p : Seq → Bool), (ord.seqs ((cps g).filter p)).Nodup := fun g p =>
    ((ord.seqs_perm _).nodup_iff).2 ((nodup_toSet _).filter _)
  have hin : ∀ g (hw : WF g.rep) (hr : ∀ k c, g.rep.lookup k = some c → c.range = none) k,
      k ∈ cps g ↔ ∃ c, g.rep.lookup k = some c := fun g hw hr k => mem_cps hw hr k
  have hmem : ∀ (p : Seq → Bool) (g : LGR) k, k ∈ ord.seqs ((cps g).filter p) ↔ k ∈ cps g ∧ p k = true :=
    fun p g k => by rw [(ord.seqs_perm _).mem_iff, List.mem_filter]
  obtain ⟨a1, a2, a3, a4⟩ := forEach_fill _ (hnd _ _) g0 (by rw [h0]; exact wf_empty)
    (fun g k hg _ ho => unionStep_effect ord db1 db2 g1 g2 g hw1 hw2 hg k ho) (by rw [hc])
  rw [hc] at a1 a2 a3 a4
  obtain ⟨b1, b2, b3, b4⟩ := forEach_fill _ (hnd _ _) gc a1
    (fun g k hg _ ho => firstStep_effect db1 g1 g hg k ho) (by rw [hf])
  rw [hf] at b1 b2 b3 b4
  obtain ⟨d1, d2, d3, d4⟩ := forEach_fill _ (hnd _ _) gf b1
    (fun g k hg _ ho => secondStep_effect db2 g2 g hg k ho) (by rw [hs])
  rw [hs] at d1 d2 d3 d4
  simp only [hmem, decide_eq_true_eq, hin g1 hw1 hr1, hin g2 hw2 hr2] at a3 a4 b3 b4 d3 d4
  refine ⟨d1, d2.trans (b2.trans a2), ?_, ?_, ?_, ?_⟩
  · intro k h1 h2
    rw [d4 k (by simp [h1, h2]), b4 k (by simp [h1, h2]), a4 k (by simp [h1, h2]), h0]
    cases k <;> simp [lookup, bucket, dget]
  · intro k c1 h1 h2
    obtain ⟨c, hc, hq⟩ := b3 k (by simp [h1, h2])
    rw [d4 k (by simp [h1, h2]), hc, hq c1 h1]
  · intro k c2 h1 h2
    obtain ⟨c, hc, hq⟩ := d3 k (by simp [h1, h2])
    exact ⟨c, hc, hq c2 h2⟩
  · intro k c1 c2 h1 h2
    obtain ⟨c, hc, hq⟩ := a3 k (by simp [h1, h2])
    exact ⟨c, by rw [d4 k (by simp [h1, h2]), b4 k (by simp [h1, h2])]; exact hc, hq c1 c2 h1 h2⟩

theorem unionLgrs_ok {ord : SetOrder} {db1 db2 : UniDb} {g1 g2 g : LGR}
    (h : (unionLgrs ord db1 db2 g1 g2).2 = .ok g) :
    ∃ e1 e2 gc gf, g1.expandRanges db1 = (e1, .ok ()) ∧ g2.expandRanges db2 = (e2, .ok ()) ∧
      (unionLgrs ord db1 db2 g1 g2).1 = (e1, e2) ∧
      forEach (unionStep ord db1 db2 e1 e2) { refs := refsOf (unionValues ord e1.refs e2.refs) }
        (ord.seqs ((cps e1).filter (fun k => decide (k ∈ cps e2)))) = (gc, .ok ()) ∧
      forEach (firstStep db1 e1) gc
        (ord.seqs ((cps e1).filter (fun k => decide (k ∉ cps e2)))) = (gf, .ok ()) ∧
      forEach (secondStep db2 e2) gf
        (ord.seqs ((cps e2).filter (fun k => decide (k ∉ cps e1)))) = (g, .ok ()) := by
  unfold unionLgrs at h ⊢
  split at h
  · simp at h
  rename_i e1 h1
  split at h
  · simp at h
  rename_i e2 h2
  simp only at h
  split at h
  · simp at h
  rename_i gc h3
  split at h
  · simp at h
  rename_i gf h4
  split at h
  · simp at h
  rename_i gs h5
  simp only [Except.ok.injEq] at h
  subst h
  exact ⟨e1, e2, gc, gf, by first | rfl | assumption, by first | rfl | assumption,
    by first | rfl | simp [h2], h3, h4, h5⟩

theorem attrs_noRange (c : CharObj) : (C06.noRange c).attrs = c.attrs := rfl
theorem vars_noRange (c : CharObj) : (C06.noRange c).getVariants = c.getVariants := rfl

theorem range_noRange {o : Option CharObj} {c : CharObj} (h : o.map C06.noRange = some c) :
    c.range = none := by
  cases o with
  | none => simp at h
  | some d => simp only [Option.map_some, Option.some.injEq] at h; rw [← h]; rfl

/-- **C30** The union in full, when the call returns, for any iteration order of the sets. Entries in
neither LGR are not in the union. An entry of the first LGR only loses its variants. An entry of the
second LGR only keeps them. An entry of both has the tags of both, no context rule, a comment made of
both, and a variant iff one of the two has it (the first one's if both have it). References of entries
and variants are dropped. The inputs are changed only in that their ranges are expanded. -/
theorem union_exact_partial (ord : SetOrder) (db1 db2 : UniDb) (g1 g2 g : LGR) (hw1 : WF g1.rep)
    (hw2 : WF g2.rep) (hi1 : Intact g1.rep) (hi2 : Intact g2.rep)
    (h : (unionLgrs ord db1 db2 g1 g2).2 = .ok g) :
    WF g.rep ∧
    (∀ k, g1.rep.lookup k = none → g2.rep.lookup k = none → g.rep.lookup k = none) ∧
    (∀ k c1, g1.rep.lookup k = some c1 → g2.rep.lookup k = none →
      g.rep.lookup k = some { cp := k, attrs := plain c1.attrs }) ∧
    (∀ k c2, g1.rep.lookup k = none → g2.rep.lookup k = some c2 → ∃ c, g.rep.lookup k = some c ∧
      c.attrs = plain c2.attrs ∧ c.range = none ∧
      ∀ u, u ∈ c.getVariants ↔ ∃ v ∈ c2.getVariants, u = bare v) ∧
    (∀ k c1 c2, g1.rep.lookup k = some c1 → g2.rep.lookup k = some c2 →
      ∃ c, g.rep.lookup k = some c ∧ United c1 c2 c) ∧
    (unionLgrs ord db1 db2 g1 g2).1 = ((g1.expandRanges db1).1, (g2.expandRanges db2).1) := by
  obtain ⟨e1, e2, gc, gf, h1, h2, h3, h4, h5, h6⟩ := unionLgrs_ok h
  obtain ⟨w1, -, -, l1⟩ := expanded hw1 hi1 h1
  obtain ⟨w2, -, -, l2⟩ := expanded hw2 hi2 h2
  obtain ⟨a1, -, a3, a4, a5, a6⟩ := union_core ord db1 db2 e1 e2 w1 w2
    (fun k c hc => range_noRange (by rw [← l1, hc])) (fun k c hc => range_noRange (by rw [← l2, hc]))
    _ gc gf g rfl h4 h5 h6
  refine ⟨a1, ?_, ?_, ?_, ?_, by rw [h3, h1, h2]⟩
  · intro k k1 k2
    exact a3 k (by rw [l1, k1]; rfl) (by rw [l2, k2]; rfl)
  · intro k c1 k1 k2
    exact a4 k (C06.noRange c1) (by rw [l1, k1]; rfl) (by rw [l2, k2]; rfl)
  · intro k c2 k1 k2
    exact a5 k (C06.noRange c2) (by rw [l1, k1]; rfl) (by rw [l2, k2]; rfl)
  · intro k c1 c2 k1 k2
    obtain ⟨c, i1, i2⟩ := a6 k (C06.noRange c1) (C06.noRange c2) (by rw [l1, k1]; rfl) (by rw [l2, k2]; rfl)
    exact ⟨c, i1, i2.1, i2.2, i2.3, i2.4, i2.5, i2.6, i2.7⟩

/-- `g` has for `x` a variant identified by code point, when and not-when rule. -/
def HasKey (g : LGR) (x : Seq) (k : Seq × Option String × Option String) : Prop :=
  ∃ v, Maps g x v ∧ v.key = k

/-- **C30** The union has a code point iff one of the LGRs has it. -/
theorem union_codepoints (ord : SetOrder) (db1 db2 : UniDb) (g1 g2 g : LGR) (hw1 : WF g1.rep)
    (hw2 : WF g2.rep) (hi1 : Intact g1.rep) (hi2 : Intact g2.rep)
    (h : (unionLgrs ord db1 db2 g1 g2).2 = .ok g) (k : Seq) : In g k ↔ In g1 k ∨ In g2 k := by
  obtain ⟨-, a, b, c, d, -⟩ := union_exact_partial ord db1 db2 g1 g2 g hw1 hw2 hi1 hi2 h
  unfold In
  cases k1 : g1.rep.lookup k with
  | none =>
    cases k2 : g2.rep.lookup k with
    | none => simp [a k k1 k2]
    | some c2 => obtain ⟨c, hc, -⟩ := c k c2 k1 k2; simp [hc]
  | some c1 =>
    cases k2 : g2.rep.lookup k with
    | none => simp [b k c1 k1 k2]
    | some c2 => obtain ⟨c, hc, -⟩ := d k c1 c2 k1 k2; simp [hc]

/-- **C30** For a code point of the second LGR the union has a variant iff one of the LGRs has it for
that code point; it has none for the others. Missing for the full property: the variants of code points
that are in the first LGR only (`union_loses_variants`). -/
theorem union_variants_partial (ord : SetOrder) (db1 db2 : UniDb) (g1 g2 g : LGR) (hw1 : WF g1.rep)
    (hw2 : WF g2.rep) (hi1 : Intact g1.rep) (hi2 : Intact g2.rep)
    (h : (unionLgrs ord db1 db2 g1 g2).2 = .ok g) (x : Seq) (k : Seq × Option String × Option String) :
    HasKey g x k ↔ In g2 x ∧ (HasKey g1 x k ∨ HasKey g2 x k) := by
  obtain ⟨-, a, b, c, d, -⟩ := union_exact_partial ord db1 db2 g1 g2 g hw1 hw2 hi1 hi2 h
  unfold HasKey Maps In
  cases k1 : g1.rep.lookup x with
  | none =>
    cases k2 : g2.rep.lookup x with
    | none => simp [a x k1 k2]
    | some c2 =>
      obtain ⟨c, hc, -, -, hv⟩ := c x c2 k1 k2
      simp only [hc, Option.some.injEq, exists_eq_left', hv, reduceCtorEq, false_and, exists_false,
        exists_eq', true_and, false_or]
      constructor
      · rintro ⟨_, ⟨v, hv, rfl⟩, hk⟩; exact ⟨v, hv, hk⟩
      · rintro ⟨v, hv, hk⟩; exact ⟨_, ⟨v, hv, rfl⟩, hk⟩
  | some c1 =>
    cases k2 : g2.rep.lookup x with
    | none => simp [b x c1 k1 k2, new_vars]
    | some c2 =>
      obtain ⟨c, hc, hu⟩ := d x c1 c2 k1 k2
      simp only [hc, Option.some.injEq, exists_eq_left', hu.vars, exists_eq', true_and]
      constructor
      · rintro ⟨_, ⟨v, rfl, hv | ⟨hv, -⟩⟩, hk⟩
        · exact .inl ⟨v, hv, hk⟩
        · exact .inr ⟨v, hv, hk⟩
      · rintro (⟨v, hv, hk⟩ | ⟨v, hv, hk⟩)
        · exact ⟨_, ⟨v, rfl, .inl hv⟩, hk⟩
        · by_cases hw : ∃ w ∈ c1.getVariants, w.key = v.key
          · obtain ⟨w, hw, hwk⟩ := hw
            exact ⟨_, ⟨w, rfl, .inl hw⟩, hwk.trans hk⟩
          · exact ⟨_, ⟨v, rfl, .inr ⟨hv, fun w h1 h2 => hw ⟨w, h1, h2⟩⟩⟩, hk⟩

/-! ### When the call returns -/

theorem vars_total (g : LGR) (hwf : WF g.rep) (c d : CharObj) (hc : Clean c) (hw : CharWF c)
    (hne : c.cp ≠ []) (hl : g.rep.lookup c.cp = some d) (hd : d.range = none) (hv : d.getVariants = []) :
    (addVars c.cp g c.getVariants).2 = .ok () := by
  rw [addVars_eq]
  refine addVars_total bare (fun _ => rfl) c.cp hne _ (C08.getVariants_keys_nodup hw.varWF) ?_ g hwf d
    hl hd ?_
  · intro v h
    have := variant_ne hw.varWF h
    exact ⟨this, hc.vars v h⟩
  · intro b _; simp [hv]

theorem nonempty_of_lookup {r : Repertoire} {k : Seq} {c : CharObj} (h : r.lookup k = some c) : k ≠ [] := by
  rintro rfl; simp [lookup] at h

theorem unionStep_total (ord : SetOrder) (db1 db2 : UniDb) (g1 g2 g : LGR) (hw1 : WF g1.rep)
    (hw2 : WF g2.rep) (hwf : WF g.rep) (k : Seq) (c1 c2 : CharObj) (h1 : g1.rep.lookup k = some c1)
    (h2 : g2.rep.lookup k = some c2) (hc1 : Clean c1) (hc2 : Clean c2) (hi1 : IdnaOk db1 g1 k)
    (hi2 : IdnaOk db2 g2 k) (hn : g.rep.lookup k = none) :
    (unionStep ord db1 db2 g1 g2 g k).2 = .ok () := by
  unfold unionStep
  rw [getChar_total h1 hi1]
  simp only
  rw [getChar_total h2 hi2]
  have e1 := lookup_cp h1
  have e2 := lookup_cp h2
  exact unionChar_total ord g hwf c1 c2 (lookup_charWF hw1 h1) (lookup_charWF hw2 h2) (e2.trans e1.symm)
    hc1 hc2 (e1 ▸ nonempty_of_lookup h1) (e1 ▸ hn)

theorem firstStep_total (db1 : UniDb) (g1 g : LGR) (k : Seq) (c1 : CharObj)
    (h1 : g1.rep.lookup k = some c1) (hc1 : Clean c1) (hi1 : IdnaOk db1 g1 k)
    (hn : g.rep.lookup k = none) : (firstStep db1 g1 g k).2 = .ok () := by
  unfold firstStep
  rw [getChar_total h1 hi1]
  have e1 := lookup_cp h1
  exact copyCp_total g c1 hc1 (e1 ▸ nonempty_of_lookup h1) (e1 ▸ hn)

theorem secondStep_total (db2 : UniDb) (g2 g : LGR) (hw2 : WF g2.rep) (hwf : WF g.rep) (k : Seq)
    (c2 : CharObj) (h2 : g2.rep.lookup k = some c2) (hc2 : Clean c2) (hi2 : IdnaOk db2 g2 k)
    (hn : g.rep.lookup k = none) : (secondStep db2 g2 g k).2 = .ok () := by
  unfold secondStep
  rw [getChar_total h2 hi2]
  have e2 := lookup_cp h2
  have hne : c2.cp ≠ [] := e2 ▸ nonempty_of_lookup h2
  have hok := copyCp_total g c2 hc2 hne (e2 ▸ hn)
  have he := copyCp_effect g hwf c2 hok
  simp only
  generalize copyCp g c2 = res at hok he ⊢
  obtain ⟨g', o⟩ := res
  simp only at hok; subst hok
  exact vars_total g' he.1 c2 _ hc2 (lookup_charWF hw2 h2) hne (by rw [he.2.2, if_pos rfl]) rfl rfl

/-- Every entry can be copied and passes the IDNA check. -/
def Fit (db : UniDb) (g : LGR) : Prop := ∀ k c, g.rep.lookup k = some c → Clean c ∧ IdnaOk db g k

theorem fit_expands {db : UniDb} {g : LGR} (hwf : WF g.rep) (hi : Intact g.rep) (hf : Fit db g) :
    ∃ e, g.expandRanges db = (e, .ok ()) ∧ WF e.rep ∧
      (∀ k, e.rep.lookup k = (g.rep.lookup k).map C06.noRange) ∧ Fit db e := by
  have hok : (g.expandRanges db).2 = .ok () := by
    rw [C06.expand_ranges_ok_iff db g hwf hi]
    intro f l hm
    obtain ⟨hfl, a, ha⟩ := hi.full f l hm
    exact (hf [f] _ (ha f (Nat.le_refl _) (Nat.le_of_lt hfl))).2
  rcases hres : g.expandRanges db with ⟨e, o⟩
  rw [hres] at hok
  simp only at hok; subst hok
  obtain ⟨h1, -, h3, h4⟩ := expanded hwf hi hres
  refine ⟨e, rfl, h1, h4, ?_⟩
  intro k c hc
  rw [h4] at hc
  cases hd : g.rep.lookup k with
  | none => rw [hd] at hc; simp at hc
  | some d =>
    rw [hd] at hc
    simp only [Option.map_some, Option.some.injEq] at hc
    obtain ⟨j1, j2⟩ := hf k d hd
    subst hc
    refine ⟨⟨j1.1, j1.2, j1.3, j1.4⟩, ?_⟩
    unfold IdnaOk at j2 ⊢
    rw [h3]; exact j2

/-- **C30** The union of two LGRs whose entries can be copied always exists. -/
theorem union_returns (ord : SetOrder) (db1 db2 : UniDb) (g1 g2 : LGR) (hw1 : WF g1.rep)
    (hw2 : WF g2.rep) (hi1 : Intact g1.rep) (hi2 : Intact g2.rep) (hf1 : Fit db1 g1) (hf2 : Fit db2 g2) :
    ∃ g, (unionLgrs ord db1 db2 g1 g2).2 = .ok g := by
  obtain ⟨e1, x1, w1, l1, f1⟩ := fit_expands hw1 hi1 hf1
  obtain ⟨e2, x2, w2, l2, f2⟩ := fit_expands hw2 hi2 hf2
  have hr1 : ∀ k c, e1.rep.lookup k = some c → c.range = none :=
    fun k c hc => range_noRange (by rw [← l1, hc])
  have hr2 : ∀ k c, e2.rep.lookup k = some c → c.range = none :=
    fun k c hc => range_noRange (by rw [← l2, hc])
  have hnd : ∀ (g : LGR) (p : Seq → Bool), (ord.seqs ((cps g).filter p)).Nodup := fun g p =>
    ((ord.seqs_perm _).nodup_iff).2 ((nodup_toSet _).filter _)
  have hmem : ∀ (p : Seq → Bool) (g : LGR) k, k ∈ ord.seqs ((cps g).filter p) ↔ k ∈ cps g ∧ p k = true :=
    fun p g k => by rw [(ord.seqs_perm _).mem_iff, List.mem_filter]
  have hin1 : ∀ k, k ∈ cps e1 ↔ ∃ c, e1.rep.lookup k = some c := fun k => mem_cps w1 hr1 k
  have hin2 : ∀ k, k ∈ cps e2 ↔ ∃ c, e2.rep.lookup k = some c := fun k => mem_cps w2 hr2 k
  have hw0 : WF (LGR.rep { refs := refsOf (unionValues ord e1.refs e2.refs) }) := wf_empty
  have empty : ∀ k, (LGR.rep { refs := refsOf (unionValues ord e1.refs e2.refs) }).lookup k = none := by
    intro k; cases k <;> simp [lookup, bucket, dget]
  unfold unionLgrs
  rw [x1]; simp only
  rw [x2]; simp only
  -- the common code points
  have t1 := forEach_total (f := unionStep ord db1 db2 e1 e2)
    (ord.seqs ((cps e1).filter (fun k => decide (k ∈ cps e2)))) (hnd _ _)
    { refs := refsOf (unionValues ord e1.refs e2.refs) } hw0 (by
      intro g k hg hk hn
      rw [hmem, decide_eq_true_eq, hin1, hin2] at hk
      obtain ⟨⟨c1, k1⟩, c2, k2⟩ := hk
      have := unionStep_total ord db1 db2 e1 e2 g w1 w2 hg k c1 c2 k1 k2 (f1 k c1 k1).1 (f2 k c2 k2).1
        (f1 k c1 k1).2 (f2 k c2 k2).2 hn
      obtain ⟨y1, -, -, y2⟩ := unionStep_effect ord db1 db2 e1 e2 g w1 w2 hg k this
      exact ⟨this, y1, y2⟩) (fun k _ => empty k)
  have u1 := forEach_fill _ (hnd _ _) _ hw0
    (fun g k hg _ ho => unionStep_effect ord db1 db2 e1 e2 g w1 w2 hg k ho) t1
  generalize forEach (unionStep ord db1 db2 e1 e2) { refs := refsOf (unionValues ord e1.refs e2.refs) }
    (ord.seqs ((cps e1).filter (fun k => decide (k ∈ cps e2)))) = res1 at t1 u1 ⊢
  obtain ⟨gc, o1⟩ := res1
  simp only at t1; subst t1
  obtain ⟨a1, -, -, a4⟩ := u1
  simp only at a1 a4 ⊢
  -- the first only
  have t2 := forEach_total (f := firstStep db1 e1)
    (ord.seqs ((cps e1).filter (fun k => decide (k ∉ cps e2)))) (hnd _ _) gc a1 (by
      intro g k hg hk hn
      rw [hmem, decide_eq_true_eq, hin1] at hk
      obtain ⟨⟨c1, k1⟩, -⟩ := hk
      have := firstStep_total db1 e1 g k c1 k1 (f1 k c1 k1).1 (f1 k c1 k1).2 hn
      obtain ⟨y1, -, -, y2⟩ := firstStep_effect db1 e1 g hg k this
      exact ⟨this, y1, y2⟩) (by
      intro k hk
      rw [hmem, decide_eq_true_eq] at hk
      rw [a4 k (by rw [hmem, decide_eq_true_eq]; exact fun h => hk.2 h.2)]; exact empty k)
  have u2 := forEach_fill _ (hnd _ _) _ a1 (fun g k hg _ ho => firstStep_effect db1 e1 g hg k ho) t2
  generalize forEach (firstStep db1 e1) gc
    (ord.seqs ((cps e1).filter (fun k => decide (k ∉ cps e2)))) = res2 at t2 u2 ⊢
  obtain ⟨gf, o2⟩ := res2
  simp only at t2; subst t2
  obtain ⟨b1, -, -, b4⟩ := u2
  simp only at b1 b4 ⊢
  -- the second only
  have t3 := forEach_total (f := secondStep db2 e2)
    (ord.seqs ((cps e2).filter (fun k => decide (k ∉ cps e1)))) (hnd _ _) gf b1 (by
      intro g k hg hk hn
      rw [hmem, decide_eq_true_eq, hin2] at hk
      obtain ⟨⟨c2, k2⟩, -⟩ := hk
      have := secondStep_total db2 e2 g w2 hg k c2 k2 (f2 k c2 k2).1 (f2 k c2 k2).2 hn
      obtain ⟨y1, -, -, y2⟩ := secondStep_effect db2 e2 g hg k this
      exact ⟨this, y1, y2⟩) (by
      intro k hk
      rw [hmem, decide_eq_true_eq] at hk
      rw [b4 k (by rw [hmem]; exact fun h => hk.2 h.1), a4 k (by rw [hmem]; exact fun h => hk.2 h.1)]
      exact empty k)
  generalize forEach (secondStep db2 e2) gf
    (ord.seqs ((cps e2).filter (fun k => decide (k ∉ cps e1)))) = res3 at t3 ⊢
  obtain ⟨gs, o3⟩ := res3
  simp only at t3; subst t3
  exact ⟨gs, rfl⟩

/-! ### What goes wrong -/

theorem fit_of_all {g : LGR} (hwf : WF g.rep) (h : ∀ c ∈ g.rep.allChars,
      (c.attrs.whenR = none ∨ c.attrs.notWhenR = none) ∧ c.attrs.tags.Nodup ∧
      (c.attrs.tags = [] ∨ c.cp.length = 1) ∧
      ∀ v ∈ c.getVariants, v.whenR = none ∨ v.notWhenR = none) : Fit none g := by
  intro k c hc
  obtain ⟨h1, h2, h3, h4⟩ := h c ((mem_allChars hwf c).2 (by rw [lookup_cp hc]; exact hc))
  exact ⟨⟨h1, h2, h3, h4⟩, by simp [IdnaOk]⟩

theorem intact_of_all {g : LGR} (hwf : WF g.rep) (hr : g.rep.ranges = [])
    (h : ∀ c ∈ g.rep.allChars, c.range = none) : Intact g.rep := by
  refine ⟨by simp [hr], ?_, by simp [hr]⟩
  intro k c p hc hp
  rw [h c ((mem_allChars hwf c).2 (by rw [lookup_cp hc]; exact hc))] at hp
  simp at hp

/-- An LGR with `a`, which has the blocked variant `b`. -/
def firstOps : List (Ctx × LGR.Op) :=
  [(C27.ctx, .addCp (.int 97) { tag := ["t"], whenR := some "r" }),
   (C27.ctx, .addVariant (.int 97) (.int 98) (some "blocked") {})]

/-- An LGR with `c`. -/
def secondOps : List (Ctx × LGR.Op) := [(C27.ctx, .addCp (.int 99) {})]

theorem first_fit : Fit none (LGR.run {} firstOps) ∧ Intact (LGR.run {} firstOps).rep :=
  ⟨fit_of_all (run_wf _).1 (by decide +kernel), intact_of_all (run_wf _).1 rfl (by decide +kernel)⟩

theorem second_fit : Fit none (LGR.run {} secondOps) ∧ Intact (LGR.run {} secondOps).rep :=
  ⟨fit_of_all (run_wf _).1 (by decide +kernel), intact_of_all (run_wf _).1 rfl (by decide +kernel)⟩

/-- **C30** is violated: the union of an LGR where `a` has variant `b` with one that has only `c`
exists, and there `a` has no variant, whatever the iteration order of sets. -/
theorem union_loses_variants (ord : SetOrder) :
    ∃ g, (unionLgrs ord none none (LGR.run {} firstOps) (LGR.run {} secondOps)).2 = .ok g ∧
      HasKey (LGR.run {} firstOps) [97] ([98], none, none) ∧ In g [97] ∧ ∀ k, ¬ HasKey g [97] k := by
  obtain ⟨g, hg⟩ := union_returns ord none none _ _ (run_wf firstOps).1 (run_wf secondOps).1
    first_fit.2 second_fit.2 first_fit.1 second_fit.1
  have hk : HasKey (LGR.run {} firstOps) [97] ([98], none, none) :=
    ⟨⟨[98], some "blocked", none, none, none, []⟩, ⟨_, rfl, by decide +kernel⟩, rfl⟩
  refine ⟨g, hg, hk, ?_, ?_⟩
  · rw [union_codepoints ord none none _ _ g (run_wf firstOps).1 (run_wf secondOps).1
      first_fit.2 second_fit.2 hg]
    exact .inl ⟨_, rfl⟩
  · intro k
    rw [union_variants_partial ord none none _ _ g (run_wf firstOps).1 (run_wf secondOps).1
      first_fit.2 second_fit.2 hg]
    rintro ⟨⟨c, hc⟩, -⟩
    have : (LGR.run {} secondOps).rep.lookup [97] = none := by decide +kernel
    rw [this] at hc; simp at hc

end Lgr.Props.C30

namespace Lgr.Props.C31
open Lgr LGR Repertoire C50 C26 Compare C30

/-! ### One common code point -/

/-- What the intersection has for a code point of both LGRs. -/
structure Shared (c1 c2 c : CharObj) : Prop where
  comment : Comment c1.attrs.comment c2.attrs.comment c.attrs.comment
  tags : ∀ t, t ∈ c.attrs.tags ↔ t ∈ c1.attrs.tags ∧ t ∈ c2.attrs.tags
  tagsNodup : c.attrs.tags.Nodup
  norules : c.attrs.whenR = none ∧ c.attrs.notWhenR = none
  norefs : c.attrs.refs = []
  norange : c.range = none
  vars : ∀ u, u ∈ c.getVariants ↔ u.type = none ∧ u.comment = none ∧ u.refs = [] ∧
    (∃ v ∈ c1.getVariants, v.key = u.key) ∧ ∃ v ∈ c2.getVariants, v.key = u.key

/-- The variant made of its identification. -/
def ofKey (k : Seq × Option String × Option String) : Variant :=
  { cp := k.1, whenR := k.2.1, notWhenR := k.2.2 }

theorem inter_list (ord : SetOrder) (l1 l2 : List (Seq × Option String × Option String)) :
    let ks := ord.keys ((toSet id l1).filter (fun k => decide (k ∈ toSet id l2)))
    ks.Nodup ∧ ∀ k, k ∈ ks ↔ k ∈ l1 ∧ k ∈ l2 := by
  refine ⟨((ord.keys_perm _).nodup_iff).2 ((nodup_toSet _).filter _), ?_⟩
  intro k
  rw [(ord.keys_perm _).mem_iff, List.mem_filter, decide_eq_true_eq, mem_toSet, mem_toSet]

theorem inter_tags (ord : SetOrder) (l1 l2 : List String) :
    let ts := ord.strs ((toSet id l1).filter (fun t => decide (t ∈ l2)))
    ts.Nodup ∧ ∀ t, t ∈ ts ↔ t ∈ l1 ∧ t ∈ l2 := by
  refine ⟨((ord.strs_perm _).nodup_iff).2 ((nodup_toSet _).filter _), ?_⟩
  intro t
  rw [(ord.strs_perm _).mem_iff, List.mem_filter, decide_eq_true_eq, mem_toSet]

/-- The arguments of `add_cp` in `intersect_char`. -/
def interOpts (ord : SetOrder) (c1 c2 : CharObj) : Opts :=
  { comment := letUserChoose c1.attrs.comment c2.attrs.comment, tag := ord.strs ((toSet id c1.attrs.tags).filter (fun t => decide (t ∈ c2.attrs.tags))) }

theorem intersectChar_eq (ord : SetOrder) (g : LGR) (c1 c2 : CharObj) :
    intersectChar ord g c1 c2 =
      match g.addCp none (.seq c1.cp) (interOpts ord c1 c2) with
      | (g', .error e) => (g', .error e)
      | (g', .ok ()) => forEach (fun g b => LGR.addVariant none g (.seq c1.cp) (.seq (ofKey b).cp)
          (ofKey b).type
          { whenR := (ofKey b).whenR, notWhenR := (ofKey b).notWhenR, comment := (ofKey b).comment }) g'
          (ord.keys ((toSet id (c1.getVariants.map Variant.key)).filter
            (fun k => decide (k ∈ toSet id (c2.getVariants.map Variant.key))))) := rfl

theorem intersectChar_effect (ord : SetOrder) (g : LGR) (hwf : WF g.rep) (c1 c2 : CharObj)
    (h : (intersectChar ord g c1 c2).2 = .ok ()) :
    WF (intersectChar ord g c1 c2).1.rep ∧ (intersectChar ord g c1 c2).1.refs = g.refs ∧
      (∃ c, (intersectChar ord g c1 c2).1.rep.lookup c1.cp = some c ∧ Shared c1 c2 c) ∧
      ∀ j, j ≠ c1.cp → (intersectChar ord g c1 c2).1.rep.lookup j = g.rep.lookup j := by
  rw [intersectChar_eq] at h ⊢
  have h1 := addCp_effect g hwf c1.cp (interOpts ord c1 c2) rfl
  generalize g.addCp none (.seq c1.cp) (interOpts ord c1 c2) = res at h h1 ⊢
  obtain ⟨g', o⟩ := res
  cases o with
  | error e => simp at h
  | ok u =>
    obtain ⟨-, hw, hrf, hl⟩ := h1 rfl
    simp only at h hl hw hrf ⊢
    obtain ⟨-, hmem⟩ := inter_list ord (c1.getVariants.map Variant.key) (c2.getVariants.map Variant.key)
    obtain ⟨e1, e2, ⟨c', e3, e4, e5, e6⟩, e7⟩ := addVars_effect ofKey (fun _ => rfl) c1.cp _ g' hw _
      (by rw [hl, if_pos rfl]) h
    refine ⟨e1, e2.trans hrf, ⟨c', e3, ?_⟩, ?_⟩
    · refine ⟨?_, ?_, ?_, ?_, ?_, e5, ?_⟩
      · rw [e4]; exact letUserChoose_spec _ _
      · rw [e4]; exact (inter_tags ord _ _).2
      · rw [e4]; exact (inter_tags ord _ _).1
      · rw [e4]; exact ⟨rfl, rfl⟩
      · rw [e4]
      · intro u
        rw [e6]
        constructor
        · rintro (hu | ⟨k, hk, rfl⟩)
          · exact absurd hu (new_vars _ _ _)
          · obtain ⟨h1, h2⟩ := (hmem k).1 hk
            exact ⟨rfl, rfl, rfl, List.mem_map.1 h1, List.mem_map.1 h2⟩
        · rintro ⟨h1, h2, h3, h4, h5⟩
          refine .inr ⟨u.key, (hmem _).2 ⟨List.mem_map.2 h4, List.mem_map.2 h5⟩, ?_⟩
          cases u
          simp_all [ofKey, Variant.key]
    · intro j hj; rw [e7 j hj, hl, if_neg hj]

theorem intersectChar_total (ord : SetOrder) (g : LGR) (hwf : WF g.rep) (c1 c2 : CharObj)
    (hw1 : CharWF c1) (h1 : Clean c1)
    (hne : c1.cp ≠ []) (hn : g.rep.lookup c1.cp = none) : (intersectChar ord g c1 c2).2 = .ok () := by
  rw [intersectChar_eq]
  obtain ⟨t1, t2⟩ := inter_tags ord c1.attrs.tags c2.attrs.tags
  have ht : StrictTags c1.cp (interOpts ord c1 c2) := by
    refine ⟨t1, ?_⟩
    rcases h1.seq with h1 | h1
    · left
      refine List.eq_nil_iff_forall_not_mem.2 fun t ht => ?_
      have := ((t2 t).1 ht).1
      simp [h1] at this
    · exact .inr h1
  have hok := addCp_total g c1.cp hne (interOpts ord c1 c2) rfl rfl hn (.inl rfl) ht
  have he := addCp_effect g hwf c1.cp (interOpts ord c1 c2) rfl hok
  generalize g.addCp none (.seq c1.cp) (interOpts ord c1 c2) = res at hok he ⊢
  obtain ⟨g', o⟩ := res
  simp only at hok; subst hok
  obtain ⟨-, hw, hrf, hl⟩ := he
  simp only at hl hw ⊢
  obtain ⟨hnd, hmem⟩ := inter_list ord (c1.getVariants.map Variant.key) (c2.getVariants.map Variant.key)
  refine addVars_total ofKey (fun _ => rfl) c1.cp hne _ (by simpa [ofKey, Variant.key] using hnd) ?_ g' hw _
    (by rw [hl, if_pos rfl]) rfl ?_
  · intro k hk
    obtain ⟨v, hv, rfl⟩ := List.mem_map.1 ((hmem k).1 hk).1
    have := variant_ne hw1.varWF hv
    exact ⟨this, h1.vars v hv⟩
  · intro v _ hm
    obtain ⟨u, hu, -⟩ := List.mem_map.1 hm
    exact absurd hu (new_vars _ _ _)

theorem intersectStep_effect (ord : SetOrder) (db1 db2 : UniDb) (g1 g2 g : LGR)
    (hwf : WF g.rep) (k : Seq) (h : (intersectStep ord db1 db2 g1 g2 g k).2 = .ok ()) :
    WF (intersectStep ord db1 db2 g1 g2 g k).1.rep ∧
      (intersectStep ord db1 db2 g1 g2 g k).1.refs = g.refs ∧
      (∃ c, (intersectStep ord db1 db2 g1 g2 g k).1.rep.lookup k = some c ∧
        ∀ c1 c2, g1.rep.lookup k = some c1 → g2.rep.lookup k = some c2 → Shared c1 c2 c) ∧
      ∀ j, j ≠ k → (intersectStep ord db1 db2 g1 g2 g k).1.rep.lookup j = g.rep.lookup j := by
  unfold intersectStep at h ⊢
  split at h
  · simp at h
  rename_i c1 hc1
  have hl1 := getChar_seq hc1
  split at h
  · simp at h
  rename_i c2 hc2
  have hl2 := getChar_seq hc2
  have hk := lookup_cp hl1
  subst hk
  obtain ⟨h1, h2, ⟨c, h3, h4⟩, h5⟩ := intersectChar_effect ord g hwf c1 c2 h
  refine ⟨h1, h2, ⟨c, h3, ?_⟩, h5⟩
  intro d1 d2 hd1 hd2
  rw [hl1] at hd1; cases hd1
  rw [hl2] at hd2; cases hd2
  exact h4

theorem intersectLgrs_ok {ord : SetOrder} {db1 db2 : UniDb} {g1 g2 g : LGR}
    (h : (intersectLgrs ord db1 db2 g1 g2).2 = .ok g) :
    ∃ e1 e2, g1.expandRanges db1 = (e1, .ok ()) ∧ g2.expandRanges db2 = (e2, .ok ()) ∧
      (intersectLgrs ord db1 db2 g1 g2).1 = (e1, e2) ∧
      forEach (intersectStep ord db1 db2 e1 e2) { refs := refsOf (intersectValues ord e1.refs e2.refs) }
        (ord.seqs ((cps e1).filter (fun k => decide (k ∈ cps e2)))) = (g, .ok ()) := by
  unfold intersectLgrs at h ⊢
  split at h
  · simp at h
  rename_i e1 h1
  split at h
  · simp at h
  rename_i e2 h2
  simp only at h
  split at h
  · simp at h
  rename_i gc h3
  simp only [Except.ok.injEq] at h
  subst h
  exact ⟨e1, e2, by first | rfl | assumption, by first | rfl | assumption,
    by first | rfl | simp [h2], h3⟩

/-- **C31** The intersection in full, when the call returns, for any iteration order of the sets: it has
the entries that are in both LGRs, with the tags of both, no context rule and no references, and the
variants that both have, without type and comment. The inputs are changed only in that their ranges
are expanded. -/
theorem intersect_exact (ord : SetOrder) (db1 db2 : UniDb) (g1 g2 g : LGR) (hw1 : WF g1.rep)
    (hw2 : WF g2.rep) (hi1 : Intact g1.rep) (hi2 : Intact g2.rep)
    (h : (intersectLgrs ord db1 db2 g1 g2).2 = .ok g) :
    WF g.rep ∧
    (∀ k, g1.rep.lookup k = none ∨ g2.rep.lookup k = none → g.rep.lookup k = none) ∧
    (∀ k c1 c2, g1.rep.lookup k = some c1 → g2.rep.lookup k = some c2 →
      ∃ c, g.rep.lookup k = some c ∧ Shared c1 c2 c) ∧
    (intersectLgrs ord db1 db2 g1 g2).1 = ((g1.expandRanges db1).1, (g2.expandRanges db2).1) := by
  obtain ⟨e1, e2, h1, h2, h3, h4⟩ := intersectLgrs_ok h
  obtain ⟨w1, -, -, l1⟩ := expanded hw1 hi1 h1
  obtain ⟨w2, -, -, l2⟩ := expanded hw2 hi2 h2
  have hin1 : ∀ k, k ∈ cps e1 ↔ In e1 k :=
    mem_cps w1 fun k c hc => range_noRange (by rw [← l1, hc])
  have hin2 : ∀ k, k ∈ cps e2 ↔ In e2 k :=
    mem_cps w2 fun k c hc => range_noRange (by rw [← l2, hc])
  have hw0 : WF (LGR.rep { refs := refsOf (intersectValues ord e1.refs e2.refs) }) := wf_empty
  obtain ⟨a1, a2, a3, a4⟩ := forEach_fill (ord.seqs ((cps e1).filter (fun k => decide (k ∈ cps e2))))
    (((ord.seqs_perm _).nodup_iff).2 ((nodup_toSet _).filter _)) _ hw0
    (fun g k hg _ ho => intersectStep_effect ord db1 db2 e1 e2 g hg k ho) (by rw [h4])
  rw [h4] at a1 a2 a3 a4
  simp only [(ord.seqs_perm _).mem_iff, List.mem_filter, decide_eq_true_eq, hin1, hin2] at a3 a4
  refine ⟨a1, ?_, ?_, by rw [h3, h1, h2]⟩
  · intro k hk
    rw [a4 k]
    · cases k <;> simp [lookup, bucket, dget]
    · rintro ⟨⟨c1, k1⟩, c2, k2⟩
      rw [l1] at k1; rw [l2] at k2
      rcases hk with hk | hk <;> simp [hk] at k1 k2
  · intro k c1 c2 k1 k2
    obtain ⟨c, hc, hq⟩ := a3 k ⟨⟨C06.noRange c1, by rw [l1, k1]; rfl⟩, ⟨C06.noRange c2, by rw [l2, k2]; rfl⟩⟩
    have := hq (C06.noRange c1) (C06.noRange c2) (by rw [l1, k1]; rfl) (by rw [l2, k2]; rfl)
    exact ⟨c, hc, this.1, this.2, this.3, this.4, this.5, this.6, this.7⟩

/-- **C31** The intersection has a code point iff both LGRs have it, and a variant (code point, when,
not-when) for it iff both have it. -/
theorem intersect_members (ord : SetOrder) (db1 db2 : UniDb) (g1 g2 g : LGR) (hw1 : WF g1.rep)
    (hw2 : WF g2.rep) (hi1 : Intact g1.rep) (hi2 : Intact g2.rep)
    (h : (intersectLgrs ord db1 db2 g1 g2).2 = .ok g) (x : Seq) :
    (In g x ↔ In g1 x ∧ In g2 x) ∧ ∀ k, HasKey g x k ↔ HasKey g1 x k ∧ HasKey g2 x k := by
  obtain ⟨-, a, b, -⟩ := intersect_exact ord db1 db2 g1 g2 g hw1 hw2 hi1 hi2 h
  unfold HasKey Maps In
  cases k1 : g1.rep.lookup x with
  | none => simp [a x (.inl k1)]
  | some c1 =>
    cases k2 : g2.rep.lookup x with
    | none => simp [a x (.inr k2)]
    | some c2 =>
      obtain ⟨c, hc, hu⟩ := b x c1 c2 k1 k2
      simp only [hc, Option.some.injEq, exists_eq_left', hu.vars, exists_eq', true_and]
      intro k
      constructor
      · rintro ⟨u, ⟨-, -, -, ⟨v, hv, e⟩, w, hw, e'⟩, rfl⟩
        exact ⟨⟨v, hv, e⟩, w, hw, e'⟩
      · rintro ⟨⟨v, hv, e⟩, w, hw, e'⟩
        exact ⟨ofKey k, ⟨rfl, rfl, rfl, ⟨v, hv, e⟩, w, hw, e'⟩, rfl⟩

/-- **C31** The intersection of two LGRs whose entries can be copied always exists. -/
theorem intersect_returns (ord : SetOrder) (db1 db2 : UniDb) (g1 g2 : LGR) (hw1 : WF g1.rep)
    (hw2 : WF g2.rep) (hi1 : Intact g1.rep) (hi2 : Intact g2.rep) (hf1 : Fit db1 g1) (hf2 : Fit db2 g2) :
    ∃ g, (intersectLgrs ord db1 db2 g1 g2).2 = .ok g := by
  obtain ⟨e1, x1, w1, l1, f1⟩ := fit_expands hw1 hi1 hf1
  obtain ⟨e2, x2, w2, l2, f2⟩ := fit_expands hw2 hi2 hf2
  have hin1 : ∀ k, k ∈ cps e1 ↔ In e1 k :=
    mem_cps w1 fun k c hc => range_noRange (by rw [← l1, hc])
  have hin2 : ∀ k, k ∈ cps e2 ↔ In e2 k :=
    mem_cps w2 fun k c hc => range_noRange (by rw [← l2, hc])
  unfold intersectLgrs
  rw [x1]; simp only
  rw [x2]; simp only
  have t1 := forEach_total (f := intersectStep ord db1 db2 e1 e2)
    (ord.seqs ((cps e1).filter (fun k => decide (k ∈ cps e2))))
    (((ord.seqs_perm _).nodup_iff).2 ((nodup_toSet _).filter _))
    { refs := refsOf (intersectValues ord e1.refs e2.refs) } wf_empty (by
      intro g k hg hk hn
      rw [(ord.seqs_perm _).mem_iff, List.mem_filter, decide_eq_true_eq, hin1, hin2] at hk
      obtain ⟨⟨c1, k1⟩, c2, k2⟩ := hk
      have : (intersectStep ord db1 db2 e1 e2 g k).2 = .ok () := by
        unfold intersectStep
        rw [getChar_total k1 (f1 k c1 k1).2]
        simp only
        rw [getChar_total k2 (f2 k c2 k2).2]
        have e := lookup_cp k1
        exact intersectChar_total ord g hg c1 c2 (lookup_charWF w1 k1) (f1 k c1 k1).1
          (e ▸ nonempty_of_lookup k1) (e ▸ hn)
      obtain ⟨y1, -, -, y2⟩ := intersectStep_effect ord db1 db2 e1 e2 g hg k this
      exact ⟨this, y1, y2⟩) (fun k _ => by cases k <;> simp [lookup, bucket, dget])
  generalize forEach (intersectStep ord db1 db2 e1 e2) { refs := refsOf (intersectValues ord e1.refs e2.refs) }
    (ord.seqs ((cps e1).filter (fun k => decide (k ∈ cps e2)))) = res1 at t1 ⊢
  obtain ⟨gc, o1⟩ := res1
  simp only at t1; subst t1
  exact ⟨gc, rfl⟩

/-! Non-vacuity: an LGR meets itself. -/
example (ord : SetOrder) : ∃ g, (intersectLgrs ord none none (LGR.run {} firstOps) (LGR.run {} firstOps)).2 =
    .ok g ∧ HasKey g [97] ([98], none, none) := by
  obtain ⟨g, hg⟩ := intersect_returns ord none none _ _ (run_wf firstOps).1 (run_wf firstOps).1
    first_fit.2 first_fit.2 first_fit.1 first_fit.1
  have hk : HasKey (LGR.run {} firstOps) [97] ([98], none, none) :=
    ⟨⟨[98], some "blocked", none, none, none, []⟩, ⟨_, rfl, by decide +kernel⟩, rfl⟩
  exact ⟨g, hg, ((intersect_members ord none none _ _ g (run_wf firstOps).1 (run_wf firstOps).1
    first_fit.2 first_fit.2 hg [97]).2 _).2 ⟨hk, hk⟩⟩

end Lgr.Props.C31

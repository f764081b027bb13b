import Verif.Props.HarmonizeTotal
import Verif.Props.PopulateTool
import Verif.HarmonizeTool

/-!
# C141: harmonised LGRs can be written
-/

namespace Lgr.Props.C141
open Lgr LGR Repertoire Xml DocXml Compare Populate Harmonize C50 C26 C28 C34 C06 C46 C104 C130

variable {strict force : Bool} {m m1 m2 : RefManager}

/-- Ranges and tag classes are as they were. -/
structure Still (g g' : LGR) : Prop where
  tagCls : g'.tagCls = g.tagCls
  ranges : g'.rep.ranges = g.rep.ranges

theorem Still.trans {a b c : LGR} (h : Still a b) (h' : Still b c) : Still a c :=
  ⟨h'.tagCls.trans h.tagCls, h'.ranges.trans h.ranges⟩

theorem frame_still {g g' : LGR} (h : Frame g g') : Still g g' := ⟨h.tagCls, h.ranges⟩

theorem addCp_still {db : UniDb} {g g' : LGR} {s : Seq}
    (h : g.addCp db (.seq s) { comment := some "Out-of-repertoire" } = (g', .ok ())) : Still g g' := by
  have hok : (g.addCp db (.seq s) { comment := some "Out-of-repertoire" }).2 = .ok () := by rw [h]
  obtain ⟨-, -, -, -, h5, -⟩ := add_cp_effect db g _ _ hok
  rw [h] at h5
  refine ⟨?_, h5⟩
  unfold addCp at h
  split at h
  · simp at h
  split at h
  · simp at h
  simp only [Prod.mk.injEq, and_true] at h
  subst h
  rfl

theorem addMissing_still {db : UniDb} {g g' : LGR} (hwf : WF g.rep) {cp v : Seq}
    (h : addMissing db cp g v = (g', .ok ())) : WF g'.rep ∧ Still g g' := by
  unfold addMissing at h
  split at h
  · split at h
    · simp at h
    rename_i g1 h1
    split at h
    · simp at h
    rename_i g2 h2
    obtain ⟨w1, -⟩ := addCp_oor hwf h1
    obtain ⟨f2, -⟩ := addVar_step w1 h2
    obtain ⟨f3, -⟩ := addVar_step f2.wf h
    exact ⟨f3.wf, (addCp_still h1).trans ((frame_still f2).trans (frame_still f3))⟩
  · split at h
    · simp only [Prod.mk.injEq, and_true] at h
      subst h
      exact ⟨hwf, rfl, rfl⟩
    · obtain ⟨f, -⟩ := addVar_step hwf h
      exact ⟨f.wf, frame_still f⟩

theorem forMissing_still {db : UniDb} {cp : Seq} : ∀ (vs : List Seq) {g g' : LGR}, WF g.rep →
    forEach (addMissing db cp) g vs = (g', .ok ()) → WF g'.rep ∧ Still g g'
  | [], g, g', hwf, h => by
    simp only [forEach, Prod.mk.injEq, and_true] at h
    subst h
    exact ⟨hwf, rfl, rfl⟩
  | v :: vs, g, g', hwf, h => by
    simp only [forEach] at h
    split at h
    · simp at h
    rename_i g1 h1
    obtain ⟨w, s⟩ := addMissing_still hwf h1
    obtain ⟨w', s'⟩ := forMissing_still vs w h
    exact ⟨w', s.trans s'⟩

theorem step_still {ord : SetOrder} {db1 db2 : UniDb} {s s' : LGR × LGR} {cp : Seq} (hw1 : WF s.1.rep) (hw2 : WF s.2.rep)
    (h : Harmonize.step ord db1 db2 s cp = (s', .ok ())) :
    (WF s'.1.rep ∧ WF s'.2.rep) ∧ Still s.1 s'.1 ∧ Still s.2 s'.2 := by
  unfold Harmonize.step at h
  split at h
  · simp at h
  split at h
  · simp at h
  dsimp only at h
  split at h
  · simp at h
  rename_i g2 h2
  rcases hr : forEach (addMissing db1 cp) s.1 _ with ⟨g1, o⟩
  rw [hr] at h
  simp only [Prod.mk.injEq] at h
  obtain ⟨rfl, rfl⟩ := h
  obtain ⟨w2, s2⟩ := forMissing_still _ hw2 h2
  obtain ⟨w1, s1⟩ := forMissing_still _ hw1 hr
  exact ⟨⟨w1, w2⟩, s1, s2⟩

theorem loop_still {ord : SetOrder} {db1 db2 : UniDb} : ∀ (l : List Seq) {s s' : LGR × LGR}, WF s.1.rep → WF s.2.rep →
    forEach (Harmonize.step ord db1 db2) s l = (s', .ok ()) → Still s.1 s'.1 ∧ Still s.2 s'.2
  | [], s, s', _, _, h => by
    simp only [forEach, Prod.mk.injEq, and_true] at h
    subst h
    exact ⟨⟨rfl, rfl⟩, rfl, rfl⟩
  | x :: l, s, s', hw1, hw2, h => by
    simp only [forEach] at h
    split at h
    · simp at h
    rename_i t h1
    obtain ⟨⟨w1, w2⟩, a1, a2⟩ := step_still hw1 hw2 h1
    obtain ⟨b1, b2⟩ := loop_still l w1 w2 h
    exact ⟨a1.trans b1, a2.trans b2⟩

/-- Variants that can be written. -/
def Steady' (strict force : Bool) (m : RefManager) (g : LGR) : Prop := Steady none strict force m False g

theorem oor_ok : xmlOk "out-of-repertoire" = true ∧ xmlOk "Out-of-repertoire" = true := by decide +kernel

theorem stage_steady {g0 g : LGR} {D : Seq → Seq → Prop} (hs : Stage g0 D g) (h : Steady' strict force m g0) :
    Steady' strict force m g := by
  have hw : Words ([] : List String) := ⟨by simp, by simp⟩
  refine ⟨hs.refs.trans h.refs, hs.raise.trans h.raises, fun x u hu => ?_, fun hf => hf.elim⟩
  rcases (hs.maps x u).1 hu with h1 | ⟨-, -, h1⟩ | ⟨-, -, h1⟩
  · exact h.vars x u h1
  · rw [h1]
    refine ⟨fun _ v hv => (by cases hv), by simp, hw, by simp, fun s hs => ?_⟩
    simp only [varTexts, Option.toList_some, Option.toList_none, List.append_nil, List.mem_singleton] at hs
    rw [hs]; exact blocked_ok
  · rw [h1]
    refine ⟨fun _ v hv => (by cases hv), by simp, hw, by simp, fun s hs => ?_⟩
    simp only [varTexts, oor, Option.toList_some, Option.toList_none, List.append_nil, List.mem_append, List.mem_singleton] at hs
    rcases hs with rfl | rfl
    · exact oor_ok.1
    · exact oor_ok.2

theorem rest_more {ord : SetOrder} {n : Nat} {g1 g2 : LGR} {h : Harmonized}
    (hw1 : WF g1.rep) (hw2 : WF g2.rep) (hp1 : Plain g1) (hp2 : Plain g2)
    (hr : rest ord n none none g1 g2 = some (.ok h)) :
    ((Steady' strict force m1 g1 → Steady' strict force m1 h.g1) ∧ Still g1 h.g1) ∧
    ((Steady' strict force m2 g2 → Steady' strict force m2 h.g2) ∧ Still g2 h.g2) := by
  unfold rest at hr
  dsimp only at hr
  split at hr
  · simp at hr
  rename_i a b hl
  split at hr
  · simp at hr
  · simp at hr
  rename_i p1 e1
  split at hr
  · simp at hr
  · simp at hr
  rename_i p2 e2
  simp only [Option.some.injEq, Except.ok.injEq] at hr
  subst hr
  have hL : ∀ x, x ∈ ord.seqs ((cps g2).filter (fun x => x ∈ cps g1)) ↔ In g1 x ∧ In g2 x := by
    intro x
    rw [(ord.seqs_perm _).mem_iff]
    simp only [List.mem_filter, decide_eq_true_eq, C30.mem_cps hw1 hp1, C30.mem_cps hw2 hp2]
    tauto
  have hnd : (ord.seqs ((cps g2).filter (fun x => x ∈ cps g1))).Nodup := by
    rw [(ord.seqs_perm _).nodup_iff]
    exact (C30.nodup_toSet _).filter _
  obtain ⟨s1, s2⟩ := loop_stage _ [] (fun x hx => ⟨by simp, (hL x).1 hx⟩) hnd
    ((Stage.start hw1).congr (by simp [Miss])) ((Stage.start hw2).congr (by simp [Miss])) hl
  obtain ⟨t1, t2⟩ := loop_still _ hw1 hw2 hl
  obtain ⟨-, gr1, -⟩ := populate_spec (R := fun _ _ => True) ⟨by simp, by simp⟩ s1.wf (by simp) e1
  obtain ⟨-, gr2, -⟩ := populate_spec (R := fun _ _ => True) ⟨by simp, by simp⟩ s2.wf (by simp) e2
  exact ⟨⟨fun k => steady_populate s1.wf (stage_steady s1 k) e1, t1.trans ⟨gr1.tagCls, gr1.ranges⟩⟩,
    ⟨fun k => steady_populate s2.wf (stage_steady s2 k) e2, t2.trans ⟨gr2.tagCls, gr2.ranges⟩⟩⟩

theorem expand_more {db : UniDb} {g e : LGR} (hwf : WF g.rep) (hi : Intact g.rep) (h : g.expandRanges db = (e, .ok ())) :
    (Steady' strict force m g → Steady' strict force m e) ∧ e.tagCls = g.tagCls ∧ e.rep.ranges = [] := by
  obtain ⟨r', k1, k2, k3, -⟩ := C06.expand_ranges_meaning db g hwf hi (by rw [h])
  rw [h] at k1
  simp only at k1
  subst k1
  refine ⟨fun hs => ⟨hs.refs, hs.raises, fun x v hv => hs.vars x v ?_, fun hf => hf.elim⟩, rfl, k2⟩
  obtain ⟨c, hc, hv⟩ := hv
  simp only at hc
  rw [k3] at hc
  cases hk : g.rep.lookup x with
  | none => rw [hk] at hc; cases hc
  | some d =>
    rw [hk] at hc
    cases hc
    exact ⟨d, hk, hv⟩

/-- What is known besides C46 of a harmonised LGR. -/
structure More (g h : LGR) : Prop where
  plain : Plain h
  tagCls : h.tagCls = g.tagCls
  ranges : h.rep.ranges = []
  steady : ∀ {strict force m}, Steady' strict force m g → Steady' strict force m h

theorem two_more {ord : SetOrder} {n : Nat} {g1 g2 : LGR} {h : Harmonized}
    (hw1 : WF g1.rep) (hw2 : WF g2.rep) (hi1 : Intact g1.rep) (hi2 : Intact g2.rep)
    (hr : harmonizeTwo ord n none none g1 g2 = some (.ok h)) : More g1 h.g1 := by
  have hp := (two_spec hw1 hw2 hi1 hi2 hr).2.1
  unfold harmonizeTwo at hr
  split at hr
  · simp at hr
  rename_i e1 x1
  split at hr
  · simp at hr
  rename_i e2 x2
  obtain ⟨w1, p1, -⟩ := expand_keeps hw1 hi1 x1
  obtain ⟨w2, p2, -⟩ := expand_keeps hw2 hi2 x2
  obtain ⟨-, t, r⟩ := expand_more (strict := true) (force := true) (m := {}) hw1 hi1 x1
  obtain ⟨⟨-, st⟩, -⟩ := rest_more (strict := true) (force := true) (m1 := {}) (m2 := {}) w1 w2 p1 p2 hr
  exact ⟨hp, st.tagCls.trans t, st.ranges.trans r, fun {s f m} k => (rest_more (strict := s) (force := f) (m1 := m) (m2 := m) w1 w2 p1 p2 hr).1.1
    ((expand_more hw1 hi1 x1).1 k)⟩

theorem harmonize_more {ord : SetOrder} {n : Nat} {g1 g2 : LGR} {rz : Option LGR} {h : Harmonized}
    (hw1 : WF g1.rep) (hw2 : WF g2.rep) (hi1 : Intact g1.rep) (hi2 : Intact g2.rep)
    (hz : ∀ z, rz = some z → WF z.rep ∧ Intact z.rep)
    (hr : harmonize ord n none none g1 g2 (rz.map (fun z => (none, z))) = some (.ok h)) : More g1 h.g1 ∧ More g2 h.g2 := by
  unfold harmonize at hr
  split at hr
  · simp at hr
  rename_i e1 x1
  split at hr
  · simp at hr
  rename_i e2 x2
  obtain ⟨w1, p1, -, -, j1⟩ := expand_keeps hw1 hi1 x1
  obtain ⟨w2, p2, -, -, j2⟩ := expand_keeps hw2 hi2 x2
  obtain ⟨-, t1, r1⟩ := expand_more (strict := true) (force := true) (m := {}) hw1 hi1 x1
  obtain ⟨-, t2, r2⟩ := expand_more (strict := true) (force := true) (m := {}) hw2 hi2 x2
  cases rz with
  | none =>
    obtain ⟨⟨-, q1, -⟩, ⟨-, q2, -⟩, -⟩ := rest_spec w1 w2 p1 p2 hr
    obtain ⟨⟨-, st1⟩, -, st2⟩ := rest_more (strict := true) (force := true) (m1 := {}) (m2 := {}) w1 w2 p1 p2 hr
    exact ⟨⟨q1, st1.tagCls.trans t1, st1.ranges.trans r1, fun {s f m} k =>
        (rest_more (strict := s) (force := f) (m1 := m) (m2 := m) w1 w2 p1 p2 hr).1.1 ((expand_more hw1 hi1 x1).1 k)⟩,
      ⟨q2, st2.tagCls.trans t2, st2.ranges.trans r2, fun {s f m} k =>
        (rest_more (strict := s) (force := f) (m1 := m) (m2 := m) w1 w2 p1 p2 hr).2.1 ((expand_more hw2 hi2 x2).1 k)⟩⟩
  | some z =>
    obtain ⟨hwz, hiz⟩ := hz _ rfl
    simp only [Option.map_some] at hr
    split at hr
    · simp at hr
    · simp at hr
    rename_i h1 y1
    split at hr
    · simp at hr
    · simp at hr
    rename_i h2 y2
    obtain ⟨s1, s2, -⟩ := two_spec w1 hwz j1 hiz y1
    obtain ⟨u1, u2, -⟩ := two_spec w2 hwz j2 hiz y2
    have m1 := two_more w1 hwz j1 hiz y1
    have m2 := two_more w2 hwz j2 hiz y2
    obtain ⟨⟨-, q1, -⟩, ⟨-, q2, -⟩, -⟩ := rest_spec s1 u1 s2 u2 hr
    obtain ⟨⟨-, st1⟩, -, st2⟩ := rest_more (strict := true) (force := true) (m1 := {}) (m2 := {}) s1 u1 s2 u2 hr
    exact ⟨⟨q1, st1.tagCls.trans (m1.tagCls.trans t1), st1.ranges.trans m1.ranges, fun {s f m} k =>
        (rest_more (strict := s) (force := f) (m1 := m) (m2 := m) s1 u1 s2 u2 hr).1.1 (m1.steady ((expand_more hw1 hi1 x1).1 k))⟩,
      ⟨q2, st2.tagCls.trans (m2.tagCls.trans t2), st2.ranges.trans m2.ranges, fun {s f m} k =>
        (rest_more (strict := s) (force := f) (m1 := m) (m2 := m) s1 u1 s2 u2 hr).2.1 (m2.steady ((expand_more hw2 hi2 x2).1 k))⟩⟩

/-! ## Code points -/

/-- All code points and variants are among `P`. -/
structure Inside (P : Seq → Prop) (A : Graph) : Prop where
  node : ∀ x, A.node x → P x
  edge : ∀ x y, A.edge x y → P x ∧ P y

theorem inside_harm {P : Seq → Prop} {A B : Graph} (hA : Inside P A) (hB : Inside P B) : Inside P (A.harm B) := by
  have hm : ∀ x y, A.merged B x y → P x ∧ P y := by
    rintro x y (h | ⟨-, -, h, -⟩)
    · exact hA.edge x y h
    · exact hB.edge x y h
  have hq : ∀ x y, Relation.EqvGen (A.merged B) x y → x = y ∨ P x ∧ P y := by
    intro x y h
    induction h with
    | rel x y h => exact .inr (hm x y h)
    | refl x => exact .inl rfl
    | symm x y _ ih => exact ih.elim (fun e => .inl e.symm) (fun e => .inr e.symm)
    | trans x y z _ _ i j =>
      rcases i with rfl | i
      · exact j
      · rcases j with rfl | j
        · exact .inr i
        · exact .inr ⟨i.1, j.2⟩
  constructor
  · rintro x (h | ⟨a, h⟩)
    · exact hA.node x h
    · exact (hm a x h).2
  · rintro x y (⟨h1, h2⟩ | ⟨rfl, h | ⟨-, c, -, -, h, -⟩⟩)
    · exact (hq x y h2).resolve_left h1
    · exact hA.edge x x h
    · exact ⟨(hB.edge c x h).2, (hB.edge c x h).2⟩

theorem good_inside {db : UniDb} {g : LGR} (h : Good db strict force m g) : Inside (Allowed db strict) (graph g) := by
  have hn : ∀ x, (graph g).node x → Allowed db strict x := by
    rintro x ⟨c, hc⟩
    have := (h.inv.all x c hc).allowed
    rwa [lookup_cp hc] at this
  refine ⟨hn, ?_⟩
  rintro x y ⟨c, hc, v, hv, rfl⟩
  exact ⟨hn x ⟨c, hc⟩, ((h.inv.all x c hc).vars v hv).1⟩

/-! ## The LGR can be written -/

theorem fit_harmonised {db : UniDb} {g h : LGR} (hg : Good db strict force m g) (hw : WF h.rep) (hm : More g h)
    (hk : Keeps g h) (hi : Inside (Allowed db strict) (graph h)) : Fit db strict force m h := by
  have gs := good_steady (N := False) hg (by simp)
  have hst : Steady' strict force m h := hm.steady ⟨gs.refs, gs.raises, fun x v hv => by
    have := gs.vars x v hv
    exact ⟨fun _ v hv => (by cases hv), this.refs, this.words, this.plain, this.xml⟩, fun hf => hf.elim⟩
  have htag : ∀ t, tagSet h t = tagSet g t := by intro t; unfold tagSet; rw [hm.tagCls]
  refine ⟨hk.refs.trans hg.refs, hk.raise.trans hg.raises, ⟨hw, fun k c hc => ?_⟩, ⟨?_, ?_, ?_⟩, fun t x => ?_, ?_⟩
  · have hvars : ∀ v ∈ c.getVariants, VarOk none strict force m v := fun v hv => hst.vars k v ⟨c, hc, hv⟩
    have hcp := lookup_cp hc
    have ha : Allowed db strict c.cp := by rw [hcp]; exact hi.node k ⟨c, hc⟩
    have hxml : (∀ t, t ∈ c.attrs.comment.toList ++ c.attrs.whenR.toList ++ c.attrs.notWhenR.toList ++ c.attrs.refs ++
        c.attrs.tags → xmlOk t = true) → ∀ t ∈ texts c, xmlOk t = true := by
      intro ha t ht
      unfold texts at ht
      rcases List.mem_append.1 ht with ht | ht
      · exact ha t ht
      · obtain ⟨v, hv, ht⟩ := List.mem_flatMap.1 ht
        exact (hvars v hv).xml t ht
    have hv : ∀ v ∈ c.getVariants, Allowed db strict v.cp ∧ (∀ i ∈ v.refs, (dget m.refs i).isSome = true) ∧
        Words v.refs ∧ (force = false → (v.whenR = none ∨ v.notWhenR = none) ∧ v.refs.Nodup) :=
      fun v hv => ⟨(hi.edge k v.cp ⟨c, hc, v, hv, rfl⟩).2, (hvars v hv).refs, (hvars v hv).words, (hvars v hv).plain⟩
    cases h0 : g.rep.lookup k with
    | some c0 =>
      obtain ⟨c1, h1, h2⟩ := hk.keep k c0 h0
      rw [hc] at h1; cases h1
      have hR := hg.inv.all k c0 h0
      have hcp0 : c.cp = c0.cp := hcp.trans (lookup_cp h0).symm
      exact ⟨ha, by rw [h2]; exact hR.refs, by rw [h2]; exact hR.refWords,
        by rw [h2]; exact hR.tagWords,
        hxml (by rw [h2]; exact fun t ht => hR.xml t (List.mem_append.2 (.inl ht))),
        by rw [h2, hcp0]; exact hR.plain, hv⟩
    | none =>
      have hw : Words ([] : List String) := ⟨by simp, by simp⟩
      rcases hk.fresh k c h0 hc with h2 | h2
      · exact ⟨ha, by rw [h2]; simp, by rw [h2]; exact hw, by rw [h2]; exact hw, hxml (by rw [h2]; simp),
          fun _ => by rw [h2]; simp, hv⟩
      · refine ⟨ha, by rw [h2]; simp, by rw [h2]; exact hw, by rw [h2]; exact hw, hxml (fun t ht => ?_),
          fun _ => by rw [h2]; simp, hv⟩
        rw [h2] at ht
        simp only [Option.toList_some, Option.toList_none, List.append_nil, List.mem_singleton] at ht
        rw [ht]; exact oor_ok.2
  · intro f l hfl
    rw [hm.ranges] at hfl
    simp at hfl
  · intro k c p hc hr
    rw [hm.plain k c hc] at hr; cases hr
  · rw [hm.ranges]; simp
  · rw [htag, hg.tags]
    constructor
    · rintro ⟨k, c, h1, h2, h3⟩
      obtain ⟨c', h4, h5⟩ := hk.keep k c h1
      exact ⟨k, c', h4, by rw [h5]; exact h2, h3⟩
    · rintro ⟨k, c', h1, h2, h3⟩
      cases h0 : g.rep.lookup k with
      | some c0 =>
        obtain ⟨c1, h4, h5⟩ := hk.keep k c0 h0
        rw [h1] at h4; cases h4
        exact ⟨k, c0, h0, by rw [← h5]; exact h2, h3⟩
      | none =>
        rcases hk.fresh k c' h0 h1 with h4 | h4 <;> rw [h4] at h2 <;> simp at h2
  · intro t ht
    rw [htag]
    rw [hm.tagCls] at ht
    exact hg.keys t ht

end Lgr.Props.C141

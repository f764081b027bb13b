import Verif.Props.CollisionReports

/-!
# C113: the full report on collisions
-/

namespace Lgr.Props.C113
open Lgr Collisions LabelInput C32 C112

/-! ## Labels in their order -/

theorem mem_firsts {l : List Seq} {x : Seq} : x ∈ firsts l ↔ x ∈ l := by
  unfold firsts
  have : ∀ (l : List Seq) (d : List (Seq × Unit)),
      x ∈ (l.foldl (fun d x => dset d x ()) d).map Prod.fst ↔ x ∈ d.map Prod.fst ∨ x ∈ l := by
    intro l
    induction l with
    | nil => simp
    | cons a l ih =>
      intro d
      rw [List.foldl_cons, ih, ← dget_isSome, dget_dset]
      by_cases h : a = x
      · simp [h]
      · rw [if_neg h, dget_isSome, List.mem_cons]
        have : x ≠ a := fun h' => h h'.symm
        tauto
  rw [this]; simp

theorem firsts_nodup (l : List Seq) : (firsts l).Nodup := by
  unfold firsts
  have : ∀ (l : List Seq) (d : List (Seq × Unit)), (d.map Prod.fst).Nodup →
      ((l.foldl (fun d x => dset d x ()) d).map Prod.fst).Nodup := by
    intro l
    induction l with
    | nil => exact fun d h => h
    | cons a l ih => exact fun d h => ih _ (dset_nodup h _ _)
  exact this l [] (by simp)

/-! ## Groups -/

theorem groups_cps {index : Seq → Except Err Seq} {dispo : Dispo} {labels tlds : List Seq} {keep quiet : Bool}
    {d : Collisions.Indexes} {n : List Seq} (hl : labels.Nodup) (ht : tlds.Nodup)
    (h : generateIndexes index dispo labels tlds keep quiet [] = .ok (d, n)) {k : Seq} {es : List Entry}
    (hes : dget d k = some es) : (es.map Entry.cp).Nodup := by
  have hnd := inputs_nodup (index := index) hl ht
  by_cases hm : keep = false ∧ quiet = true
  · obtain ⟨rfl, rfl⟩ := hm
    have := (generate_indexes_exact index dispo labels tlds false true [] d n (.inr hnd) h k).2 es hes
    rw [List.filter_eq_self.2 (fun e he => by simpa using no_variants_quiet hl ht h hes he)] at this
    have h2 := congrArg (List.map (fun p : Seq × Cat × Option Seq => p.1)) this
    rw [List.map_map, List.map_map] at h2
    have e1 : es.map Entry.cp = (share (inputs index labels tlds []) k).map C32.Input.cp := h2
    rw [e1]
    exact hnd.sublist ((share_sub _ k).map _)
  · exact (generate_indexes_variants index dispo labels tlds keep quiet [] d n hm hnd h k es hes).1

/-- Only labels of the group are computed when it is given. -/
def Restricted (dispo : Dispo) (P : Seq → Prop) : Prop :=
  ∀ b l w, P l → l ∈ w → ∀ v ∈ (dispo b l (some w)).1, v.1 ∈ w

/-- No variant is listed when only collisions are wanted. -/
theorem no_variants {index : Seq → Except Err Seq} {dispo : Dispo} (hr : Restricted dispo (fun _ => True)) {labels tlds : List Seq}
    {quiet : Bool} {d : Collisions.Indexes} {n : List Seq} (hl : labels.Nodup) (ht : tlds.Nodup)
    (h : generateIndexes index dispo labels tlds false quiet [] = .ok (d, n)) {k : Seq} {es : List Entry}
    (hes : dget d k = some es) {e : Entry} (he : e ∈ es) : e.cat ≠ .variant := by
  cases quiet with
  | true => exact no_variants_quiet hl ht h hes he
  | false =>
    intro hv
    obtain ⟨-, -, h3, -⟩ := generate_indexes_variants index dispo labels tlds false false [] d n (by simp)
      (inputs_nodup hl ht) h k es hes
    obtain ⟨h4, q, hq, i, hi⟩ := h3 e he hv
    exact h4 (hr _ _ _ trivial hq _ hi)

/-- What a variant computed for a filed label is: no label, no TLD, or filed under the same index. -/
def Consistent (index : Seq → Except Err Seq) (dispo : Dispo) (quiet : Bool) (labels tlds : List Seq) : Prop :=
  ∀ q k, (q ∈ labels ∨ q ∈ tlds) → index q = .ok k → ∀ v ∈ (dispo (!quiet) q none).1,
    (v.1 ∈ labels ∨ v.1 ∈ tlds) → index v.1 = .ok k

theorem variants_apart {index : Seq → Except Err Seq} {dispo : Dispo} {labels tlds : List Seq} {quiet : Bool}
    (hc : Consistent index dispo quiet labels tlds) {d : Collisions.Indexes} {n : List Seq} (hl : labels.Nodup)
    (ht : tlds.Nodup) (h : generateIndexes index dispo labels tlds true quiet [] = .ok (d, n)) {k : Seq}
    {es : List Entry} (hes : dget d k = some es) {e : Entry} (he : e ∈ es) (hv : e.cat = .variant) :
    e.cp ∉ labels ∧ e.cp ∉ tlds := by
  obtain ⟨-, -, h3, -⟩ := generate_indexes_variants index dispo labels tlds true quiet [] d n (by simp)
    (inputs_nodup hl ht) h k es hes
  obtain ⟨h4, q, hq, i, hi⟩ := h3 e he hv
  rw [← not_or]
  intro hmem
  obtain ⟨iq, hiq, rfl⟩ := List.mem_map.1 hq
  obtain ⟨h5, h6, -⟩ := mem_share.1 hiq
  have := hc iq.cp k (h5.imp And.left And.left) h6 _ hi hmem
  obtain ⟨c, hc'⟩ := filed_cat hmem
  exact h4 (List.mem_map.2 ⟨⟨e.cp, c, k⟩, mem_share.2 ⟨hc', this, rfl⟩, rfl⟩)

/-! ## The report -/

/-- The lines of the report on collisions. -/
structure Reported (index : Seq → Except Err Seq) (isLabel isTld : Seq → Prop) (single : Bool) (out : List Line) :
    Prop where
  /-- Exactly the pairs of a label and another label or TLD with the same index are reported, in one of the two
  orders. -/
  pairs : ∀ x y, (∃ b c c', .within b (x, c) (y, c') ∈ out ∨ .within b (y, c') (x, c) ∈ out) ↔
    x ≠ y ∧ Same index x y ∧ (isLabel x ∧ (isLabel y ∨ isTld y) ∨ isLabel y ∧ (isLabel x ∨ isTld x))
  /-- The second one of the pair is said to be a TLD exactly when it is not a label. -/
  named : ∀ b x c y c', .within b (x, c) (y, c') ∈ out → isLabel x ∧ c = .primary ∧
    (isLabel y ∧ c' = .primary ∧ b = false ∨ isTld y ∧ ¬ isLabel y ∧ c' = .tld ∧ b = true)
  /-- It is said that there is no collision exactly when no two labels have the same index. -/
  nothing : noneInList ∈ out ↔ ∀ x y, isLabel x → isLabel y → x ≠ y → ¬ Same index x y
  /-- The indexes listed. -/
  indexes : ∀ k, .index k ∈ out ↔
    (single = true ∧ ∃ x, (isLabel x ∨ isTld x) ∧ index x = .ok k) ∨
    ∃ x y, x ≠ y ∧ (isLabel x ∨ isTld x) ∧ (isLabel y ∨ isTld y) ∧ index x = .ok k ∧ index y = .ok k

theorem complete_reported {index : Seq → Except Err Seq} {labels tlds : List Seq} {keep : Bool}
    {d : Collisions.Indexes} (hg : Groups index labels tlds keep d)
    (hn : ∀ k es, dget d k = some es → (es.map Entry.cp).Nodup)
    (hv : ∀ k es, dget d k = some es → ∀ e ∈ es, e.cat = .variant → e.cp ∉ labels ∧ e.cp ∉ tlds) :
    Reported index (· ∈ labels) (· ∈ tlds) keep (completeOutput labels tlds d).1 := by
  have hcat : ∀ k es, dget d k = some es → ∀ e ∈ es, (e.cp ∈ labels ∨ e.cp ∈ tlds) →
      index e.cp = .ok k ∧ Filed labels tlds e.cp e.cat := by
    intro k es hes e he h
    have : e.cat ≠ .variant := fun h1 => by
      have := hv k es hes e he h1
      rcases h with h | h
      · exact this.1 h
      · exact this.2 h
    exact (hg.filed k es hes _ _ this).1 ⟨e, he, rfl, rfl⟩
  have hback : ∀ k es, dget d k = some es → ∀ x, (x ∈ labels ∨ x ∈ tlds) → index x = .ok k →
      ∃ e ∈ es, e.cp = x := by
    intro k es hes x hx h
    obtain ⟨c, hc⟩ := filed_cat hx
    obtain ⟨e, he, h1, -⟩ := (hg.filed k es hes x c (filed_ne hc)).2 ⟨h, hc⟩
    exact ⟨e, he, h1⟩
  have heq : ∀ k es, dget d k = some es → ∀ e ∈ es, ∀ e' ∈ es, e.cp = e'.cp → e = e' := by
    intro k es hes e he e' he' h
    exact List.inj_on_of_nodup_map (hn k es hes) he he' h
  have hgrp : ∀ g o, o ∈ completeGroup labels tlds g ↔ o = .index g.1 ∨
      (∃ p, o = withinLine p ∧ (p ∈ dumpCollisions (g.2.filter (fun e => decide (e.cp ∈ labels))) none ∨
        p ∈ dumpCollisions (g.2.filter (fun e => decide (e.cp ∈ labels)))
          (some (g.2.filter (fun e => decide (e.cp ∈ tlds)))))) := by
    intro g o
    unfold completeGroup
    simp only [List.mem_append, List.mem_singleton, or_assoc]
    refine or_congr Iff.rfl ?_
    constructor
    · rintro (h | h)
      · split at h
        · obtain ⟨p, hp, rfl⟩ := List.mem_map.1 h
          exact ⟨p, rfl, .inl hp⟩
        · simp at h
      · split at h
        · simp at h
        · obtain ⟨p, hp, rfl⟩ := List.mem_map.1 h
          exact ⟨p, rfl, .inr hp⟩
    · rintro ⟨⟨a, b⟩, rfl, hp | hp⟩
      · obtain ⟨h1, h2, h3⟩ := dump_none_mem.1 (.inl hp)
        rw [if_pos (two_of_mem h1 h2 h3)]
        exact .inl (List.mem_map.2 ⟨_, hp, rfl⟩)
      · obtain ⟨h1, h2, h3⟩ := dump_some_mem.1 hp
        rw [if_neg (List.ne_nil_of_mem h2)]
        exact .inr (List.mem_map.2 ⟨_, hp, rfl⟩)
  have hout : ∀ o, o ∈ (completeOutput labels tlds d).1 ↔
      (∃ k es, dget d k = some es ∧ o ∈ completeGroup labels tlds (k, es)) ∨
      (o = noneInList ∧ ∀ k es, dget d k = some es → ¬ 1 < (es.filter (fun e => decide (e.cp ∈ labels))).length) := by
    intro o
    unfold completeOutput say
    simp only [List.mem_append, List.mem_flatMap]
    refine or_congr ?_ ?_
    · constructor
      · rintro ⟨g, h1, h2⟩; exact ⟨g.1, g.2, (mem_iff_dget hg.nodup).1 h1, h2⟩
      · rintro ⟨k, es, h1, h2⟩; exact ⟨(k, es), (mem_iff_dget hg.nodup).2 h1, h2⟩
    · split
      · rename_i h
        rw [List.any_eq_true] at h
        obtain ⟨g, h1, h2⟩ := h
        rw [decide_eq_true_eq] at h2
        simp only [List.not_mem_nil, false_iff, not_and, not_forall]
        exact fun _ => ⟨g.1, g.2, (mem_iff_dget hg.nodup).1 h1, fun h3 => h3 h2⟩
      · rename_i h
        rw [List.mem_singleton]
        refine ⟨fun ho => ⟨ho, fun k es hes h2 => h ?_⟩, And.left⟩
        rw [List.any_eq_true]
        exact ⟨(k, es), (mem_iff_dget hg.nodup).2 hes, by rw [decide_eq_true_eq]; exact h2⟩
  have hin : ∀ o b p q, o = Line.within b p q → (o ∈ (completeOutput labels tlds d).1 ↔
      ∃ k es e e', dget d k = some es ∧ o = withinLine (e, e') ∧
        ((e, e') ∈ dumpCollisions (es.filter (fun e => decide (e.cp ∈ labels))) none ∨
        (e, e') ∈ dumpCollisions (es.filter (fun e => decide (e.cp ∈ labels)))
          (some (es.filter (fun e => decide (e.cp ∈ tlds)))))) := by
    rintro o b p q rfl
    rw [hout]
    constructor
    · rintro (⟨k, es, h1, h2⟩ | ⟨h, -⟩)
      · rw [hgrp] at h2
        rcases h2 with h2 | ⟨⟨e, e'⟩, h2, h3⟩
        · cases h2
        · exact ⟨k, es, e, e', h1, h2, h3⟩
      · cases h
    · rintro ⟨k, es, e, e', h1, h2, h3⟩
      exact .inl ⟨k, es, h1, (hgrp _ _).2 (.inr ⟨_, h2, h3⟩)⟩
  have named : ∀ b x c y c', .within b (x, c) (y, c') ∈ (completeOutput labels tlds d).1 →
      x ≠ y ∧ Same index x y ∧ x ∈ labels ∧ c = .primary ∧
      (y ∈ labels ∧ c' = .primary ∧ b = false ∨ y ∈ tlds ∧ y ∉ labels ∧ c' = .tld ∧ b = true) := by
    intro b x c y c' h
    obtain ⟨k, es, e, e', h1, h2, h3⟩ := (hin _ b _ _ rfl).1 h
    simp only [withinLine, Line.within.injEq, Prod.mk.injEq] at h2
    obtain ⟨rfl, ⟨rfl, rfl⟩, rfl, rfl⟩ := h2
    have : e ∈ es ∧ e' ∈ es ∧ e ≠ e' ∧ e.cp ∈ labels ∧ (e'.cp ∈ labels ∨ e'.cp ∈ tlds) := by
      rcases h3 with h3 | h3
      · obtain ⟨h4, h5, h6⟩ := dump_none_mem.1 (.inl h3)
        simp only [List.mem_filter, decide_eq_true_eq] at h4 h5
        exact ⟨h4.1, h5.1, h6, h4.2, .inl h5.2⟩
      · obtain ⟨h4, h5, h6⟩ := dump_some_mem.1 h3
        simp only [List.mem_filter, decide_eq_true_eq] at h4 h5
        exact ⟨h4.1, h5.1, h6, h4.2, .inr h5.2⟩
    obtain ⟨h4, h5, h6, h7, h8⟩ := this
    obtain ⟨i1, f1⟩ := hcat k es h1 e h4 (.inl h7)
    obtain ⟨i2, f2⟩ := hcat k es h1 e' h5 h8
    have hc1 : e.cat = .primary := by
      rcases f1 with f | f
      · exact f.2
      · exact absurd h7 f.2.1
    refine ⟨fun h => h6 (heq k es h1 _ h4 _ h5 h), ⟨k, i1, i2⟩, h7, hc1, ?_⟩
    rcases f2 with f | f
    · exact .inl ⟨f.1, f.2, by simp [hc1, f.2]⟩
    · exact .inr ⟨f.1, f.2.1, f.2.2, by simp [f.2.2]⟩
  have found : ∀ x y, x ≠ y → Same index x y → x ∈ labels → (y ∈ labels ∨ y ∈ tlds) →
      ∃ b c c', .within b (x, c) (y, c') ∈ (completeOutput labels tlds d).1 ∨
        .within b (y, c') (x, c) ∈ (completeOutput labels tlds d).1 := by
    rintro x y hne ⟨k, h1, h2⟩ hx hy
    obtain ⟨es, hes⟩ := (hg.there k).2 (.inr ⟨x, y, hne, .inl hx, hy, h1, h2⟩)
    obtain ⟨e, he, rfl⟩ := hback k es hes x (.inl hx) h1
    obtain ⟨e', he', rfl⟩ := hback k es hes y hy h2
    have hne' : e ≠ e' := fun h => hne (by rw [h])
    rcases hy with hy | hy
    · have : (e, e') ∈ dumpCollisions (es.filter (fun e => decide (e.cp ∈ labels))) none ∨
          (e', e) ∈ dumpCollisions (es.filter (fun e => decide (e.cp ∈ labels))) none :=
        dump_none_mem.2 ⟨by simp [he, hx], by simp [he', hy], hne'⟩
      rcases this with h | h
      · exact ⟨_, e.cat, e'.cat, .inl ((hin _ _ _ _ rfl).2 ⟨k, es, e, e', hes, rfl, .inl h⟩)⟩
      · exact ⟨_, e.cat, e'.cat, .inr ((hin _ _ _ _ rfl).2 ⟨k, es, e', e, hes, rfl, .inl h⟩)⟩
    · exact ⟨_, e.cat, e'.cat, .inl ((hin _ _ _ _ rfl).2 ⟨k, es, e, e', hes, rfl, .inr (dump_some_mem.2
        ⟨by simp [he, hx], by simp [he', hy], hne'⟩)⟩)⟩
  refine ⟨fun x y => ?_, fun b x c y c' h => ?_, ?_, fun k => ?_⟩
  · constructor
    · rintro ⟨b, c, c', h | h⟩
      · obtain ⟨h1, h2, h3, -, h4⟩ := named _ _ _ _ _ h
        exact ⟨h1, h2, .inl ⟨h3, h4.imp And.left And.left⟩⟩
      · obtain ⟨h1, ⟨k, h2, h2'⟩, h3, -, h4⟩ := named _ _ _ _ _ h
        exact ⟨fun h => h1 h.symm, ⟨k, h2', h2⟩, .inr ⟨h3, h4.imp And.left And.left⟩⟩
    · rintro ⟨h1, h2, h3 | h3⟩
      · exact found x y h1 h2 h3.1 h3.2
      · obtain ⟨k, h4, h5⟩ := h2
        obtain ⟨b, c, c', h⟩ := found y x (fun h => h1 h.symm) ⟨k, h5, h4⟩ h3.1 h3.2
        exact ⟨b, c', c, h.symm⟩
  · exact (named b x c y c' h).2.2
  · rw [hout]
    constructor
    · rintro (⟨k, es, -, h⟩ | ⟨-, h⟩)
      · rw [hgrp] at h
        rcases h with h | ⟨p, h, -⟩
        · cases h
        · cases h
      · rintro x y hx hy hne ⟨k, h1, h2⟩
        obtain ⟨es, hes⟩ := (hg.there k).2 (.inr ⟨x, y, hne, .inl hx, .inl hy, h1, h2⟩)
        obtain ⟨e, he, rfl⟩ := hback k es hes x (.inl hx) h1
        obtain ⟨e', he', rfl⟩ := hback k es hes y (.inl hy) h2
        exact h k es hes (two_of_mem (x := e) (y := e') (by simp [he, hx]) (by simp [he', hy])
          (fun h => hne (by rw [h])))
    · intro h
      refine .inr ⟨rfl, fun k es hes hlen => ?_⟩
      match hs : es.filter (fun e => decide (e.cp ∈ labels)), hlen with
      | [], h5 => exact absurd hlen (by rw [hs]; simp)
      | [_], h5 => exact absurd hlen (by rw [hs]; simp)
      | e :: e' :: rest, _ =>
        have m1 : e ∈ es ∧ e.cp ∈ labels := by
          have : e ∈ es.filter (fun e => decide (e.cp ∈ labels)) := by rw [hs]; simp
          simpa using this
        have m2 : e' ∈ es ∧ e'.cp ∈ labels := by
          have : e' ∈ es.filter (fun e => decide (e.cp ∈ labels)) := by rw [hs]; simp
          simpa using this
        have hne : e.cp ≠ e'.cp := by
          have h1 := (hn k es hes).sublist ((List.filter_sublist (p := fun e => decide (e.cp ∈ labels))).map _)
          rw [hs] at h1
          simp only [List.map_cons, List.nodup_cons, List.mem_cons, not_or] at h1
          exact h1.1.1
        exact h e.cp e'.cp m1.2 m2.2 hne ⟨k, (hcat k es hes e m1.1 (.inl m1.2)).1, (hcat k es hes e' m2.1 (.inl m2.2)).1⟩
  · rw [hout, ← hg.there k]
    constructor
    · rintro (⟨k', es, h1, h⟩ | ⟨h, -⟩)
      · rw [hgrp] at h
        rcases h with h | ⟨p, h, -⟩
        · cases h; exact ⟨es, h1⟩
        · cases h
      · cases h
    · rintro ⟨es, hes⟩
      exact .inl ⟨k, es, hes, (hgrp _ _).2 (.inl rfl)⟩

/-! ## The dump -/

/-- What is computed for a label. -/
def computed (dispo : Dispo) (quiet : Bool) (l : Seq) : List (Seq × Info) := (dispo (!quiet) l none).1

/-- Computing the dispositions of these labels gives no variant twice, and gives the label itself. -/
structure Lists (dispo : Dispo) (quiet : Bool) (P : Seq → Prop) : Prop where
  once : ∀ l, P l → ((computed dispo quiet l).map Prod.fst).Nodup
  own : ∀ l, P l → l ∈ (computed dispo quiet l).map Prod.fst

/-- The rules are not shown. -/
def mask (quiet : Bool) (i : Info) : Info := ⟨i.disp, if quiet then "" else i.rules, i.action⟩

theorem dget_reverse {β : Type} {l : List (Seq × β)} (h : (l.map Prod.fst).Nodup) (x : Seq) :
    dget l.reverse x = dget l x := by
  have hr : (l.reverse.map Prod.fst).Nodup := by rw [List.map_reverse]; exact List.nodup_reverse.2 h
  rcases hx : dget l x with _ | v
  · rw [dget_eq_none] at hx ⊢
    rw [List.map_reverse, List.mem_reverse]; exact hx
  · exact dget_of_mem hr (List.mem_reverse.2 (mem_of_dget hx))

/-- The group of an index when all labels are kept. -/
theorem group_info {index : Seq → Except Err Seq} {dispo : Dispo} {labels tlds : List Seq} {quiet : Bool}
    (hd : Lists dispo quiet (fun _ => True)) {d : Collisions.Indexes} {n : List Seq} (hl : labels.Nodup)
    (ht : tlds.Nodup) (h : generateIndexes index dispo labels tlds true quiet [] = .ok (d, n)) {k : Seq}
    {es : List Entry} (hes : dget d k = some es) :
    (∀ x, x ∈ es.map Entry.cp ↔ ∃ q, (q ∈ labels ∨ q ∈ tlds) ∧ index q = .ok k ∧
      x ∈ (computed dispo quiet q).map Prod.fst) ∧
    (∀ e ∈ es, ∀ q, (q ∈ labels ∨ q ∈ tlds) → index q = .ok k →
      dget e.info q = (dget (computed dispo quiet q) e.cp).map (mask quiet)) ∧
    ∀ e ∈ es, (e.cat = .variant ↔ ¬ ((e.cp ∈ labels ∨ e.cp ∈ tlds) ∧ index e.cp = .ok k)) ∧
      (e.cat ≠ .variant → Filed labels tlds e.cp e.cat) := by
  obtain ⟨h1, h2, h3, h4⟩ := generate_indexes_variants index dispo labels tlds true quiet [] d n (by simp)
    (inputs_nodup hl ht) h k es hes
  have hg := groups_of hl ht h
  have hgrp : ∀ q, q ∈ (share (inputs index labels tlds []) k).map C32.Input.cp ↔
      (q ∈ labels ∨ q ∈ tlds) ∧ index q = .ok k := by
    intro q
    constructor
    · intro hq
      obtain ⟨i, hi, rfl⟩ := List.mem_map.1 hq
      have := mem_share.1 hi
      exact ⟨this.1.imp And.left And.left, this.2.1⟩
    · rintro ⟨h5, h6⟩
      obtain ⟨c, hc⟩ := filed_cat h5
      exact List.mem_map.2 ⟨⟨q, c, k⟩, mem_share.2 ⟨hc, h6, rfl⟩, rfl⟩
  have hcat : ∀ e ∈ es, (e.cat = .variant ↔ ¬ ((e.cp ∈ labels ∨ e.cp ∈ tlds) ∧ index e.cp = .ok k)) ∧
      (e.cat ≠ .variant → Filed labels tlds e.cp e.cat) := by
    intro e he
    constructor
    · constructor
      · intro hv
        have := (h3 e he hv).1
        rw [hgrp] at this
        exact this
      · intro hn
        by_contra hv
        obtain ⟨h5, h6⟩ := (hg.filed k es hes _ _ hv).1 ⟨e, he, rfl, rfl⟩
        exact hn ⟨h6.imp And.left And.left, h5⟩
    · intro hv
      exact ((hg.filed k es hes _ _ hv).1 ⟨e, he, rfl, rfl⟩).2
  refine ⟨fun x => ?_, fun e he q hq hi => ?_, hcat⟩
  · constructor
    · intro hx
      obtain ⟨e, he, rfl⟩ := List.mem_map.1 hx
      by_cases hv : e.cat = .variant
      · obtain ⟨-, q, hq, i, h5⟩ := h3 e he hv
        obtain ⟨h6, h7⟩ := (hgrp q).1 hq
        exact ⟨q, h6, h7, List.mem_map.2 ⟨_, h5, rfl⟩⟩
      · have : ¬ ¬ _ := fun hn => hv ((hcat e he).1.2 hn)
        obtain ⟨h5, h6⟩ := not_not.1 this
        exact ⟨e.cp, h5, h6, hd.own _ trivial⟩
    · rintro ⟨q, hq, hi, hx⟩
      obtain ⟨v, hv, rfl⟩ := List.mem_map.1 hx
      exact h2 q ((hgrp q).2 ⟨hq, hi⟩) v hv
  · rw [h4 e he q, if_pos ((hgrp q).2 ⟨hq, hi⟩)]
    simp only [if_true]
    have : dget (dispo (!quiet) q none).1.reverse e.cp = dget (computed dispo quiet q) e.cp :=
      dget_reverse (hd.once q trivial) _
    rw [this]
    rcases hx : dget (computed dispo quiet q) e.cp with _ | i
    · have hne : q ≠ e.cp := by
        rintro rfl
        exact dget_eq_none.1 hx (hd.own _ trivial)
      simp [hne]
    · simp [mask]

/-- Whatever is computed for a label or TLD is also computed for the labels of the same index. -/
def Mutual (index : Seq → Except Err Seq) (dispo : Dispo) (quiet : Bool) (isLabel isTld : Seq → Prop) : Prop :=
  ∀ p q, isLabel p → (isLabel q ∨ isTld q) → Same index p q →
    ∀ x ∈ (computed dispo quiet q).map Prod.fst, x ∈ (computed dispo quiet p).map Prod.fst

theorem mostCommon_mem (l : List String) (s : String) (n : Nat) :
    (s, n) ∈ mostCommon l ↔ 0 < n ∧ n = l.count s := by
  have key : ∀ (l : List String) (d : List (String × Nat)), (d.map Prod.fst).Nodup →
      ((l.foldl (fun d x => dset d x ((dget d x).getD 0 + 1)) d).map Prod.fst).Nodup ∧
      ∀ s, (dget (l.foldl (fun d x => dset d x ((dget d x).getD 0 + 1)) d) s) =
        if l.count s = 0 then dget d s else some ((dget d s).getD 0 + l.count s) := by
    intro l
    induction l with
    | nil => intro d h; exact ⟨h, by simp⟩
    | cons a l ih =>
      intro d h
      obtain ⟨h1, h2⟩ := ih (dset d a ((dget d a).getD 0 + 1)) (dset_nodup h _ _)
      refine ⟨h1, fun s => ?_⟩
      rw [List.foldl_cons, h2 s, dget_dset]
      by_cases hs : a = s
      · subst hs
        rw [if_pos rfl, List.count_cons_self]
        by_cases h0 : l.count a = 0
        · rw [if_pos h0, if_neg (by omega), h0]
        · rw [if_neg h0, if_neg (by omega)]
          simp only [Option.getD_some, Option.some.injEq]; omega
      · rw [if_neg hs, List.count_cons_of_ne hs]
  obtain ⟨h1, h2⟩ := key l [] (by simp)
  unfold mostCommon sortDesc
  rw [(List.perm_insertionSort _ _).mem_iff]
  constructor
  · intro h
    have := dget_of_mem h1 h
    rw [h2 s] at this
    split at this
    · simp [dget] at this
    · simp only [dget, Option.getD_none, Nat.zero_add, Option.some.injEq] at this
      omega
  · rintro ⟨h3, rfl⟩
    apply mem_of_dget
    rw [h2 s, if_neg (by omega)]
    simp [dget]

/-- The lines of the dump. -/
structure Dumped (index : Seq → Except Err Seq) (dispo : Dispo) (lower : String → String) (quiet : Bool)
    (isLabel isTld : Seq → Prop) (out : List Line) : Prop where
  /-- There is a dump for each label with an index. -/
  dump : ∀ p, .dump p ∈ out ↔ isLabel p ∧ ∃ k, index p = .ok k
  /-- It lists what is computed for the label, ... -/
  dumped : ∀ p c x, .dumped p c x ∈ out ↔ (isLabel p ∧ ∃ k, index p = .ok k) ∧ x ≠ p ∧
    x ∈ (computed dispo quiet p).map Prod.fst ∧
    ((c = .primary ∧ isLabel x ∧ Same index p x) ∨ (c = .tld ∧ isTld x ∧ ¬ isLabel x ∧ Same index p x) ∨
      (c = .variant ∧ ¬ ((isLabel x ∨ isTld x) ∧ Same index p x)))
  /-- ... with its disposition. -/
  disps : ∀ p x s, .dumpedDisp p x s ∈ out ↔ (isLabel p ∧ ∃ k, index p = .ok k) ∧ x ≠ p ∧
    ∃ i, (x, i) ∈ computed dispo quiet p ∧ i.disp = s
  /-- The dispositions are counted. -/
  counts : ∀ p s n, .count p s n ∈ out ↔ (isLabel p ∧ ∃ k, index p = .ok k) ∧ 0 < n ∧
    n = ((computed dispo quiet p).map (fun v => lower v.2.disp)).count s

theorem dispsFor_eq {lower : String → String} {p : Seq} : ∀ {es : List Entry},
    dispsFor lower p es = if ∃ e ∈ es, dget e.info p = none then none
      else some (es.map (fun e => lower (((dget e.info p).map Info.disp).getD "")))
  | [] => by simp [dispsFor]
  | e :: es => by
    rw [dispsFor, dispsFor_eq]
    rcases h : dget e.info p with _ | i
    · have : ∃ e_1 ∈ e :: es, dget e_1.info p = none := ⟨e, List.mem_cons_self .., h⟩
      rw [if_pos this]
    · simp only [List.mem_cons, exists_eq_or_imp, h, List.map_cons]
      by_cases h2 : ∃ a ∈ es, dget a.info p = none
      · rw [if_pos h2, if_pos (.inr h2)]; rfl
      · rw [if_neg h2, if_neg (by rintro (h3 | h3) <;> simp_all)]
        rfl

theorem dumpPrimary_ok {lower : String → String} {es : List Entry} {p : Entry}
    (h : ∀ e ∈ es, (dget e.info p.cp).isSome) :
    dumpPrimary lower es p = ([.dump p.cp] ++ (es.filter (fun e => decide (e.cp ≠ p.cp))).flatMap (fun e =>
      [.dumped p.cp e.cat e.cp, .dumpedDisp p.cp e.cp (((dget e.info p.cp).map Info.disp).getD "")]) ++
      (mostCommon (es.map (fun e => lower (((dget e.info p.cp).map Info.disp).getD "")))).map
        (fun c => .count p.cp c.1 c.2), .ok ()) := by
  have h1 : ∀ e ∈ es.filter (fun e => decide (e.cp ≠ p.cp)), dumpEntry p.cp e =
      ([.dumped p.cp e.cat e.cp, .dumpedDisp p.cp e.cp (((dget e.info p.cp).map Info.disp).getD "")], .ok ()) := by
    intro e he
    obtain ⟨i, hi⟩ := Option.isSome_iff_exists.1 (h e (List.mem_filter.1 he).1)
    unfold dumpEntry; rw [hi]; rfl
  unfold dumpPrimary
  rw [eachR_ok (fun e he => by rw [h1 e he]), dispsFor_eq, if_neg (by
    rintro ⟨e, he, h2⟩
    have := h e he
    rw [h2] at this
    simp at this)]
  rw [say_next, next_ok rfl]
  simp only [say]
  congr 1
  rw [List.append_assoc]
  congr 2
  apply List.flatMap_congr
  intro e he
  rw [h1 e he]

theorem dumpPrimary_fails {lower : String → String} {es : List Entry} {p : Entry}
    (h : ¬ ∀ e ∈ es, (dget e.info p.cp).isSome) : (dumpPrimary lower es p).2 = .error .invalidSymmetry := by
  unfold dumpPrimary
  rw [say_next]
  have hx : ∃ e ∈ es, dget e.info p.cp = none := by
    by_contra hn
    refine h (fun e he => ?_)
    rcases h2 : dget e.info p.cp with _ | i
    · exact absurd ⟨e, he, h2⟩ hn
    · rfl
  rw [dispsFor_eq, if_pos hx]
  unfold Report.next
  split
  · rename_i e he
    simp only
    have : ∀ (l : List Entry) e, (eachR (dumpEntry p.cp) l).2 = .error e → e = .invalidSymmetry := by
      intro l
      induction l with
      | nil => intro e h; simp [eachR, say] at h
      | cons a l ih =>
        intro e h
        rw [eachR, dumpEntry] at h
        rcases h3 : dget a.info p.cp with _ | i
        · rw [h3] at h
          simp [Report.next, say] at h
          exact h.symm
        · rw [h3] at h
          rw [next_ok rfl] at h
          exact ih e h
    rw [this _ _ he]
  · rfl

theorem eachR_error {α : Type} {f : α → Report} {E : Fail} : ∀ {l : List α},
    (∀ a ∈ l, (f a).2 = .ok () ∨ (f a).2 = .error E) →
    (eachR f l).2 = if ∀ a ∈ l, (f a).2 = .ok () then .ok () else .error E
  | [], _ => by simp [eachR, say]
  | a :: l, h => by
    rw [eachR]
    rcases h a (by simp) with ha | ha
    · rw [next_ok ha]
      simp only
      rw [eachR_error (fun b hb => h b (by simp [hb]))]
      simp only [List.mem_cons, forall_eq_or_imp, ha, true_and]
    · rw [if_neg (by
        intro h2
        rw [h2 a (by simp)] at ha
        cases ha)]
      unfold Report.next
      rw [ha]

/-- Whether all of the group is known for this label. -/
theorem known_iff {index : Seq → Except Err Seq} {dispo : Dispo} {labels tlds : List Seq} {quiet : Bool}
    (hd : Lists dispo quiet (fun _ => True)) {d : Collisions.Indexes} {n : List Seq} (hl : labels.Nodup)
    (ht : tlds.Nodup) (h : generateIndexes index dispo labels tlds true quiet [] = .ok (d, n)) {k : Seq}
    {es : List Entry} (hes : dget d k = some es) {p : Seq} (hp : p ∈ labels) (hi : index p = .ok k) :
    (∀ e ∈ es, (dget e.info p).isSome) ↔ ∀ q, (q ∈ labels ∨ q ∈ tlds) → index q = .ok k →
      ∀ x ∈ (computed dispo quiet q).map Prod.fst, x ∈ (computed dispo quiet p).map Prod.fst := by
  obtain ⟨h1, h2, -⟩ := group_info hd hl ht h hes
  have : ∀ e ∈ es, ((dget e.info p).isSome ↔ e.cp ∈ (computed dispo quiet p).map Prod.fst) := by
    intro e he
    rw [h2 e he p (.inl hp) hi, Option.isSome_map, dget_isSome]
  constructor
  · intro h3 q hq hk x hx
    obtain ⟨e, he, rfl⟩ := List.mem_map.1 ((h1 x).2 ⟨q, hq, hk, hx⟩)
    exact (this e he).1 (h3 e he)
  · intro h3 e he
    obtain ⟨q, hq, hk, hx⟩ := (h1 e.cp).1 (List.mem_map.2 ⟨e, he, rfl⟩)
    exact (this e he).2 (h3 q hq hk _ hx)

theorem fullDump_spec {index : Seq → Except Err Seq} {dispo : Dispo} {labels tlds : List Seq} {quiet : Bool}
    (lower : String → String) (hd : Lists dispo quiet (fun _ => True)) {d : Collisions.Indexes} {n : List Seq} (hl : labels.Nodup)
    (ht : tlds.Nodup) (h : generateIndexes index dispo labels tlds true quiet [] = .ok (d, n)) :
    (Mutual index dispo quiet (· ∈ labels) (· ∈ tlds) → (fullDump lower d).2 = .ok () ∧
      Dumped index dispo lower quiet (· ∈ labels) (· ∈ tlds) (fullDump lower d).1) ∧
    (¬ Mutual index dispo quiet (· ∈ labels) (· ∈ tlds) → (fullDump lower d).2 = .error .invalidSymmetry) := by
  have hg := groups_of hl ht h
  have hmem : ∀ es, es ∈ d.map Prod.snd ↔ ∃ k, dget d k = some es := by
    intro es
    rw [List.mem_map]
    constructor
    · rintro ⟨g, h1, rfl⟩; exact ⟨g.1, (mem_iff_dget hg.nodup).1 h1⟩
    · rintro ⟨k, h1⟩; exact ⟨(k, es), (mem_iff_dget hg.nodup).2 h1, rfl⟩
  have hprim : ∀ k es, dget d k = some es → ∀ p ∈ es.filter (fun e => decide (e.cat = .primary)),
      p ∈ es ∧ p.cp ∈ labels ∧ index p.cp = .ok k := by
    intro k es hes p hp
    obtain ⟨h1, h2⟩ := List.mem_filter.1 hp
    rw [decide_eq_true_eq] at h2
    obtain ⟨h3, h4⟩ := (hg.filed k es hes p.cp .primary (by simp)).1 ⟨p, h1, rfl, h2⟩
    refine ⟨h1, ?_, h3⟩
    rcases h4 with h4 | h4
    · exact h4.1
    · cases h4.2.2
  have hprim' : ∀ p k, p ∈ labels → index p = .ok k → ∃ es e, dget d k = some es ∧
      e ∈ es.filter (fun e => decide (e.cat = .primary)) ∧ e.cp = p := by
    intro p k hp hi
    obtain ⟨es, hes⟩ := (hg.there k).2 (.inl ⟨rfl, p, .inl hp, hi⟩)
    obtain ⟨e, he, h1, h2⟩ := (hg.filed k es hes p .primary (by simp)).2 ⟨hi, .inl ⟨hp, rfl⟩⟩
    exact ⟨es, e, hes, by simp [he, h2], h1⟩
  have hone : ∀ es (p : Entry), (dumpPrimary lower es p).2 = .ok () ↔ ∀ e ∈ es, (dget e.info p.cp).isSome := by
    intro es p
    by_cases h1 : ∀ e ∈ es, (dget e.info p.cp).isSome
    · rw [dumpPrimary_ok h1]; simpa using h1
    · rw [dumpPrimary_fails h1]; simpa using h1
  have hone' : ∀ es (p : Entry), (dumpPrimary lower es p).2 = .ok () ∨
      (dumpPrimary lower es p).2 = .error .invalidSymmetry := by
    intro es p
    by_cases h1 : ∀ e ∈ es, (dget e.info p.cp).isSome
    · exact .inl ((hone es p).2 h1)
    · exact .inr (dumpPrimary_fails h1)
  have hgrp : ∀ (es : List Entry), (eachR (dumpPrimary lower es) (es.filter (fun e => decide (e.cat = .primary)))).2 =
      .ok () ∨ (eachR (dumpPrimary lower es) (es.filter (fun e => decide (e.cat = .primary)))).2 =
      .error .invalidSymmetry := by
    intro es
    rw [eachR_error (fun p _ => hone' es p)]
    split
    · exact .inl rfl
    · exact .inr rfl
  have hall : (∀ es ∈ d.map Prod.snd, (eachR (dumpPrimary lower es)
      (es.filter (fun e => decide (e.cat = .primary)))).2 = .ok ()) ↔
      Mutual index dispo quiet (· ∈ labels) (· ∈ tlds) := by
    simp only [eachR_ok_iff, hone]
    constructor
    · rintro h1 p q hp hq ⟨k, hi, hi'⟩
      obtain ⟨es, e, hes, he, rfl⟩ := hprim' p k hp hi
      exact (known_iff hd hl ht h hes hp hi).1 (h1 es ((hmem es).2 ⟨k, hes⟩) e he) q hq hi'
    · intro h1 es hes p hp
      obtain ⟨k, hes⟩ := (hmem es).1 hes
      obtain ⟨h2, h3, h4⟩ := hprim k es hes p hp
      exact (known_iff hd hl ht h hes h3 h4).2 (fun q hq hi => h1 p.cp q h3 hq ⟨k, h4, hi⟩)
  constructor
  · intro hm
    have hok := hall.2 hm
    have hfd : fullDump lower d = ((d.map Prod.snd).flatMap (fun es =>
        (es.filter (fun e => decide (e.cat = .primary))).flatMap (fun p => (dumpPrimary lower es p).1)), .ok ()) := by
      unfold fullDump
      rw [eachR_ok hok]
      congr 1
      apply List.flatMap_congr
      intro es hes
      rw [eachR_ok (eachR_ok_iff.1 (hok es hes))]
    rw [hfd]
    refine ⟨rfl, ?_⟩
    have hout : ∀ o, o ∈ (d.map Prod.snd).flatMap (fun es =>
        (es.filter (fun e => decide (e.cat = .primary))).flatMap (fun p => (dumpPrimary lower es p).1)) ↔
        ∃ k es p, dget d k = some es ∧ p ∈ es.filter (fun e => decide (e.cat = .primary)) ∧
          o ∈ (dumpPrimary lower es p).1 := by
      intro o
      simp only [List.mem_flatMap]
      constructor
      · rintro ⟨es, h1, p, h2, h3⟩
        obtain ⟨k, h1⟩ := (hmem es).1 h1
        exact ⟨k, es, p, h1, h2, h3⟩
      · rintro ⟨k, es, p, h1, h2, h3⟩
        exact ⟨es, (hmem es).2 ⟨k, h1⟩, p, h2, h3⟩
    -- one label
    have hdp : ∀ k es, dget d k = some es → ∀ p ∈ es.filter (fun e => decide (e.cat = .primary)),
        (∀ e ∈ es, dget e.info p.cp = (dget (computed dispo quiet p.cp) e.cp).map (mask quiet)) ∧
        (∀ e ∈ es, (dget e.info p.cp).isSome) ∧
        (∀ x, x ∈ es.map Entry.cp ↔ x ∈ (computed dispo quiet p.cp).map Prod.fst) := by
      intro k es hes p hp
      obtain ⟨h1, h2, h3⟩ := hprim k es hes p hp
      obtain ⟨g1, g2, -⟩ := group_info hd hl ht h hes
      refine ⟨fun e he => g2 e he p.cp (.inl h2) h3, (hone es p).1 (eachR_ok_iff.1
        (hok es ((hmem es).2 ⟨k, hes⟩)) p hp), fun x => ?_⟩
      rw [g1 x]
      constructor
      · rintro ⟨q, hq, hi, hx⟩; exact hm p.cp q h2 hq ⟨k, h3, hi⟩ x hx
      · intro hx; exact ⟨p.cp, .inl h2, h3, hx⟩
    have hline : ∀ k es, dget d k = some es → ∀ p ∈ es.filter (fun e => decide (e.cat = .primary)), ∀ o,
        o ∈ (dumpPrimary lower es p).1 ↔ o = .dump p.cp ∨
          (∃ e ∈ es, e.cp ≠ p.cp ∧ (o = .dumped p.cp e.cat e.cp ∨
            o = .dumpedDisp p.cp e.cp (((dget e.info p.cp).map Info.disp).getD ""))) ∨
          ∃ c ∈ mostCommon (es.map (fun e => lower (((dget e.info p.cp).map Info.disp).getD ""))),
            o = .count p.cp c.1 c.2 := by
      intro k es hes p hp o
      rw [dumpPrimary_ok (hdp k es hes p hp).2.1]
      simp only [List.mem_append, List.mem_singleton, List.mem_flatMap, List.mem_filter, decide_eq_true_eq,
        List.mem_cons, List.not_mem_nil, or_false, List.mem_map, or_assoc]
      refine or_congr Iff.rfl (or_congr ?_ ?_)
      · constructor
        · rintro ⟨e, ⟨h1, h2⟩, h3⟩; exact ⟨e, h1, h2, h3⟩
        · rintro ⟨e, h1, h2, h3⟩; exact ⟨e, ⟨h1, h2⟩, h3⟩
      · constructor
        · rintro ⟨c, h1, rfl⟩; exact ⟨c, h1, rfl⟩
        · rintro ⟨c, h1, rfl⟩; exact ⟨c, h1, rfl⟩
    have hisp : ∀ p, (p ∈ labels ∧ ∃ k, index p = .ok k) ↔ ∃ k es e, dget d k = some es ∧
        e ∈ es.filter (fun e => decide (e.cat = .primary)) ∧ e.cp = p := by
      intro p
      constructor
      · rintro ⟨h1, k, h2⟩
        obtain ⟨es, e, h3⟩ := hprim' p k h1 h2
        exact ⟨k, es, e, h3⟩
      · rintro ⟨k, es, e, h1, h2, rfl⟩
        obtain ⟨-, h3, h4⟩ := hprim k es h1 e h2
        exact ⟨h3, k, h4⟩
    refine ⟨fun p => ?_, fun p c x => ?_, fun p x s => ?_, fun p s m => ?_⟩
    · rw [hout, hisp]
      constructor
      · rintro ⟨k, es, e, h1, h2, h3⟩
        rw [hline k es h1 e h2] at h3
        rcases h3 with h3 | ⟨_, -, -, h3 | h3⟩ | ⟨_, -, h3⟩ <;> cases h3
        exact ⟨k, es, e, h1, h2, rfl⟩
      · rintro ⟨k, es, e, h1, h2, rfl⟩
        exact ⟨k, es, e, h1, h2, (hline k es h1 e h2 _).2 (.inl rfl)⟩
    · rw [hout, hisp]
      have hc : ∀ k es, dget d k = some es → ∀ p ∈ es.filter (fun e => decide (e.cat = .primary)), ∀ e ∈ es, ∀ c,
          (e.cat = c ↔ ((c = .primary ∧ e.cp ∈ labels ∧ Same index p.cp e.cp) ∨
            (c = .tld ∧ e.cp ∈ tlds ∧ e.cp ∉ labels ∧ Same index p.cp e.cp) ∨
            (c = .variant ∧ ¬ ((e.cp ∈ labels ∨ e.cp ∈ tlds) ∧ Same index p.cp e.cp)))) := by
        intro k es hes p hp e he c
        obtain ⟨-, hpl, hpk⟩ := hprim k es hes p hp
        obtain ⟨c1, c2⟩ := (group_info hd hl ht h hes).2.2 e he
        have hsame : Same index p.cp e.cp ↔ index e.cp = .ok k := by
          constructor
          · rintro ⟨k', h1, h2⟩
            rw [hpk] at h1
            cases h1
            exact h2
          · exact fun h1 => ⟨k, hpk, h1⟩
        rw [hsame]
        by_cases hv : e.cat = .variant
        · have hn := c1.1 hv
          rw [hv]
          constructor
          · rintro rfl; exact .inr (.inr ⟨rfl, hn⟩)
          · rintro (⟨-, h1, h2⟩ | ⟨-, h1, -, h2⟩ | ⟨h1, -⟩)
            · exact absurd ⟨.inl h1, h2⟩ hn
            · exact absurd ⟨.inr h1, h2⟩ hn
            · exact h1.symm
        · have hf := c2 hv
          have hy : (e.cp ∈ labels ∨ e.cp ∈ tlds) ∧ index e.cp = .ok k := by
            by_contra hn; exact hv (c1.2 hn)
          constructor
          · rintro rfl
            rcases hf with hf | hf
            · exact .inl ⟨hf.2, hf.1, hy.2⟩
            · exact .inr (.inl ⟨hf.2.2, hf.1, hf.2.1, hy.2⟩)
          · rintro (⟨rfl, h1, h2⟩ | ⟨rfl, h1, h1', h2⟩ | ⟨h1, h2⟩)
            · exact filed_unique hf (.inl ⟨h1, rfl⟩)
            · exact filed_unique hf (.inr ⟨h1, h1', rfl⟩)
            · exact absurd hy h2
      constructor
      · rintro ⟨k, es, e, h1, h2, h3⟩
        rw [hline k es h1 e h2] at h3
        rcases h3 with h3 | ⟨e', he', hne, h3 | h3⟩ | ⟨_, -, h3⟩
        · cases h3
        · simp only [Line.dumped.injEq] at h3
          obtain ⟨rfl, rfl, rfl⟩ := h3
          exact ⟨⟨k, es, e, h1, h2, rfl⟩, hne, ((hdp k es h1 e h2).2.2 _).1 (List.mem_map.2 ⟨e', he', rfl⟩),
            (hc k es h1 e h2 e' he' _).1 rfl⟩
        · cases h3
        · cases h3
      · rintro ⟨⟨k, es, e, h1, h2, rfl⟩, hne, hx, h3⟩
        obtain ⟨e', he', rfl⟩ := List.mem_map.1 (((hdp k es h1 e h2).2.2 _).2 hx)
        have := (hc k es h1 e h2 e' he' c).2 h3
        exact ⟨k, es, e, h1, h2, (hline k es h1 e h2 _).2 (.inr (.inl ⟨e', he', hne, .inl (by rw [this])⟩))⟩
    · rw [hout, hisp]
      have hs : ∀ k es, dget d k = some es → ∀ p ∈ es.filter (fun e => decide (e.cat = .primary)), ∀ e ∈ es, ∀ s,
          (((dget e.info p.cp).map Info.disp).getD "" = s ↔
            ∃ i, (e.cp, i) ∈ computed dispo quiet p.cp ∧ i.disp = s) := by
        intro k es hes p hp e he s
        obtain ⟨g1, g2, -⟩ := hdp k es hes p hp
        have := g2 e he
        rw [g1 e he] at this ⊢
        rw [Option.isSome_map] at this
        obtain ⟨i, hi⟩ := Option.isSome_iff_exists.1 this
        rw [hi]
        simp only [Option.map_some, Option.getD_some, mask]
        constructor
        · intro h1; exact ⟨i, mem_of_dget hi, h1⟩
        · rintro ⟨j, h1, h2⟩
          have := dget_of_mem (hd.once p.cp trivial) h1
          rw [hi] at this
          cases this
          exact h2
      constructor
      · rintro ⟨k, es, e, h1, h2, h3⟩
        rw [hline k es h1 e h2] at h3
        rcases h3 with h3 | ⟨e', he', hne, h3 | h3⟩ | ⟨_, -, h3⟩
        · cases h3
        · cases h3
        · simp only [Line.dumpedDisp.injEq] at h3
          obtain ⟨rfl, rfl, rfl⟩ := h3
          exact ⟨⟨k, es, e, h1, h2, rfl⟩, hne, (hs k es h1 e h2 e' he' _).1 rfl⟩
        · cases h3
      · rintro ⟨⟨k, es, e, h1, h2, rfl⟩, hne, i, hx, h3⟩
        obtain ⟨e', he', rfl⟩ := List.mem_map.1 (((hdp k es h1 e h2).2.2 _).2 (List.mem_map.2 ⟨_, hx, rfl⟩))
        have := (hs k es h1 e h2 e' he' s).2 ⟨i, hx, h3⟩
        exact ⟨k, es, e, h1, h2, (hline k es h1 e h2 _).2 (.inr (.inl ⟨e', he', hne, .inr (by rw [this])⟩))⟩
    · rw [hout, hisp]
      have hperm : ∀ k es, dget d k = some es → ∀ p ∈ es.filter (fun e => decide (e.cat = .primary)),
          (es.map (fun e => lower (((dget e.info p.cp).map Info.disp).getD ""))).Perm
            ((computed dispo quiet p.cp).map (fun v => lower v.2.disp)) := by
        intro k es hes p hp
        obtain ⟨g1, g2, g3⟩ := hdp k es hes p hp
        have hp1 : (es.map Entry.cp).Perm ((computed dispo quiet p.cp).map Prod.fst) :=
          (List.perm_ext_iff_of_nodup (groups_cps hl ht h hes) (hd.once p.cp trivial)).2 g3
        have hp2 := hp1.map (fun x => lower (((dget (computed dispo quiet p.cp) x).map (fun i => i.disp)).getD ""))
        rw [List.map_map, List.map_map] at hp2
        have e1 : es.map (fun e => lower (((dget e.info p.cp).map Info.disp).getD "")) =
            es.map ((fun x => lower (((dget (computed dispo quiet p.cp) x).map (fun i => i.disp)).getD "")) ∘
              Entry.cp) := by
          apply List.map_congr_left
          intro e he
          rw [g1 e he, Option.map_map]
          rfl
        have e2 : (computed dispo quiet p.cp).map (fun v => lower v.2.disp) = (computed dispo quiet p.cp).map
            ((fun x => lower (((dget (computed dispo quiet p.cp) x).map (fun i => i.disp)).getD "")) ∘ Prod.fst) := by
          apply List.map_congr_left
          rintro ⟨x, i⟩ hv
          simp only [Function.comp_apply]
          rw [dget_of_mem (hd.once p.cp trivial) hv]
          rfl
        rw [e1, e2]
        exact hp2
      constructor
      · rintro ⟨k, es, e, h1, h2, h3⟩
        rw [hline k es h1 e h2] at h3
        rcases h3 with h3 | ⟨e', he', hne, h3 | h3⟩ | ⟨⟨s', m'⟩, hc, h3⟩
        · cases h3
        · cases h3
        · cases h3
        · simp only [Line.count.injEq] at h3
          obtain ⟨rfl, rfl, rfl⟩ := h3
          obtain ⟨h4, h5⟩ := (mostCommon_mem _ _ _).1 hc
          exact ⟨⟨k, es, e, h1, h2, rfl⟩, h4, by rw [h5, (hperm k es h1 e h2).count_eq]⟩
      · rintro ⟨⟨k, es, e, h1, h2, rfl⟩, h4, h5⟩
        refine ⟨k, es, e, h1, h2, (hline k es h1 e h2 _).2 (.inr (.inr ⟨(s, m), ?_, rfl⟩))⟩
        rw [mostCommon_mem]
        exact ⟨h4, by rw [h5, (hperm k es h1 e h2).count_eq]⟩
  · intro hm
    unfold fullDump
    rw [eachR_error (fun es _ => hgrp es), if_neg (fun h1 => hm (hall.1 h1))]

end Lgr.Props.C113

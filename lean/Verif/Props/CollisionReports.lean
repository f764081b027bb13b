import Verif.CollisionReports
import Verif.Props.Collisions

/-!
# C112, C113: reports on collisions
-/

namespace Lgr.Props.C112
open Lgr Collisions LabelInput C32

/-! ## Specification -/

/-- The labels have the same index. -/
def Same (index : Seq → Except Err Seq) (x y : Seq) : Prop := ∃ k, index x = .ok k ∧ index y = .ok k

/-- A set, enumerated in any order. -/
abbrev Order := C44.Order

/-- Computing the index of these labels raises nothing but `NotInLGR`. -/
def Indexes (index : Seq → Except Err Seq) (P : Seq → Prop) : Prop :=
  ∀ l, P l → ∀ e, index l = .error e → ∃ s, e = .notInLGR s

/-- The label is read without error. -/
def Input (rs : List Read) (l : Seq) : Prop := ∃ r ∈ rs, r.valid = true ∧ r.label = l

/-- The label is read with an error. -/
def Broken (rs : List Read) (l : Seq) : Prop := ∃ r ∈ rs, r.valid = false ∧ r.label = l

/-! ## Reports -/

theorem next_ok {a b : Report} (h : a.2 = .ok ()) : a.next b = (a.1 ++ b.1, b.2) := by
  unfold Report.next; rw [h]

theorem say_next (ls : List Line) (b : Report) : (say ls).next b = (ls ++ b.1, b.2) := next_ok rfl

theorem eachR_ok {α : Type} {f : α → Report} : ∀ {l : List α}, (∀ a ∈ l, (f a).2 = .ok ()) →
    eachR f l = (l.flatMap (fun a => (f a).1), .ok ())
  | [], _ => rfl
  | a :: l, h => by
    rw [eachR, next_ok (h a (by simp)), eachR_ok (fun b hb => h b (by simp [hb]))]
    rfl

theorem eachR_ok_iff {α : Type} {f : α → Report} : ∀ {l : List α},
    (eachR f l).2 = .ok () ↔ ∀ a ∈ l, (f a).2 = .ok ()
  | [] => by simp [eachR, say]
  | a :: l => by
    rw [eachR, Report.next]
    rcases h : (f a).2 with e | u
    · simp only [List.mem_cons, forall_eq_or_imp, h]
      simp
    · simp only [List.mem_cons, forall_eq_or_imp, h, true_and]
      rw [eachR_ok_iff]

theorem mem_validLabels {rs : List Read} {l : Seq} : l ∈ validLabels rs ↔ Input rs l := by
  unfold validLabels Input
  simp only [List.mem_map, List.mem_filter]
  constructor
  · rintro ⟨r, ⟨h1, h2⟩, h3⟩; exact ⟨r, h1, h2, h3⟩
  · rintro ⟨r, h1, h2, h3⟩; exact ⟨r, ⟨h1, h2⟩, h3⟩

theorem mem_badLabels {rs : List Read} {l : Seq} : l ∈ badLabels rs ↔ Broken rs l := by
  unfold badLabels Broken
  simp only [List.mem_map, List.mem_filter]
  constructor
  · rintro ⟨r, ⟨h1, h2⟩, h3⟩; exact ⟨r, h1, by simpa using h2, h3⟩
  · rintro ⟨r, h1, h2, h3⟩; exact ⟨r, ⟨h1, by simpa using h2⟩, h3⟩

theorem mem_sortAsc {l : List Seq} {x : Seq} : x ∈ sortAsc id l ↔ x ∈ l :=
  (List.perm_insertionSort _ l).mem_iff

theorem sortAsc_nil {l : List Seq} : sortAsc id l = [] ↔ l = [] := by
  constructor
  · intro h
    have := List.perm_insertionSort (fun a b : Seq => id a ≤ id b) l
    unfold sortAsc at h
    rw [h] at this
    exact this.nil_eq.symm
  · rintro rfl; rfl

/-! ## Groups -/

/-- What is filed: labels, and TLDs which are not labels. -/
def Filed (labels tlds : List Seq) (x : Seq) (c : Cat) : Prop :=
  (x ∈ labels ∧ c = .primary) ∨ (x ∈ tlds ∧ x ∉ labels ∧ c = .tld)

theorem mem_inputs {index : Seq → Except Err Seq} {labels tlds : List Seq} {i : C32.Input} :
    i ∈ inputs index labels tlds [] ↔ Filed labels tlds i.cp i.cat ∧ index i.cp = .ok i.idx := by
  unfold inputs Filed
  rw [List.mem_append, List.mem_append, mem_ofLabels, mem_ofLabels]
  simp only [ofCached, List.filterMap_nil, List.not_mem_nil, or_false, List.mem_filter, decide_eq_true_eq]
  tauto

theorem inputs_nodup {index : Seq → Except Err Seq} {labels tlds : List Seq} (hl : labels.Nodup) (ht : tlds.Nodup) :
    ((inputs index labels tlds []).map C32.Input.cp).Nodup := by
  unfold inputs
  simp only [ofCached, List.filterMap_nil, List.append_nil, List.map_append]
  rw [List.nodup_append]
  refine ⟨hl.sublist (ofLabels_sub _ _ _), (ht.filter _).sublist (ofLabels_sub _ _ _), ?_⟩
  rintro a ha _ hb rfl
  have h1 := (ofLabels_sub _ _ _).subset ha
  have h2 := (ofLabels_sub _ _ _).subset hb
  simp only [List.mem_filter, decide_eq_true_eq] at h2
  exact h2.2 h1

theorem mem_share {index : Seq → Except Err Seq} {labels tlds : List Seq} {k : Seq} {i : C32.Input} :
    i ∈ share (inputs index labels tlds []) k ↔
      Filed labels tlds i.cp i.cat ∧ index i.cp = .ok k ∧ i.idx = k := by
  unfold share
  rw [List.mem_filter, mem_inputs]
  simp only [decide_eq_true_eq]
  constructor
  · rintro ⟨⟨h1, h2⟩, h3⟩; exact ⟨h1, h3 ▸ h2, h3⟩
  · rintro ⟨h1, h2, h3⟩; exact ⟨⟨h1, h3 ▸ h2⟩, h3⟩

theorem filed_cat {labels tlds : List Seq} {x : Seq} (h : x ∈ labels ∨ x ∈ tlds) : ∃ c, Filed labels tlds x c := by
  by_cases hx : x ∈ labels
  · exact ⟨_, .inl ⟨hx, rfl⟩⟩
  · exact ⟨_, .inr ⟨h.resolve_left hx, hx, rfl⟩⟩

theorem filed_unique {labels tlds : List Seq} {x : Seq} {c c' : Cat} (h : Filed labels tlds x c)
    (h' : Filed labels tlds x c') : c = c' := by
  unfold Filed at h h'
  rcases h with h | h <;> rcases h' with h' | h'
  · rw [h.2, h'.2]
  · exact absurd h.1 h'.2.1
  · exact absurd h'.1 h.2.1
  · rw [h.2.2, h'.2.2]

theorem filed_ne {labels tlds : List Seq} {x : Seq} {c : Cat} (h : Filed labels tlds x c) : c ≠ .variant := by
  rcases h with h | h
  · rw [h.2]; simp
  · rw [h.2.2]; simp

/-- What `_generate_indexes` returns. -/
structure Groups (index : Seq → Except Err Seq) (labels tlds : List Seq) (keep : Bool) (d : Collisions.Indexes) :
    Prop where
  nodup : (d.map Prod.fst).Nodup
  filed : ∀ k es, dget d k = some es → ∀ x c, c ≠ .variant →
    ((∃ e ∈ es, e.cp = x ∧ e.cat = c) ↔ index x = .ok k ∧ Filed labels tlds x c)
  there : ∀ k, (∃ es, dget d k = some es) ↔
    (keep = true ∧ ∃ x, (x ∈ labels ∨ x ∈ tlds) ∧ index x = .ok k) ∨
    ∃ x y, x ≠ y ∧ (x ∈ labels ∨ x ∈ tlds) ∧ (y ∈ labels ∨ y ∈ tlds) ∧ index x = .ok k ∧ index y = .ok k

theorem share_two {index : Seq → Except Err Seq} {labels tlds : List Seq} (hl : labels.Nodup) (ht : tlds.Nodup)
    (k : Seq) : 2 ≤ (share (inputs index labels tlds []) k).length ↔
    ∃ x y, x ≠ y ∧ (x ∈ labels ∨ x ∈ tlds) ∧ (y ∈ labels ∨ y ∈ tlds) ∧ index x = .ok k ∧ index y = .ok k := by
  have hn : ((share (inputs index labels tlds []) k).map C32.Input.cp).Nodup :=
    (inputs_nodup hl ht).sublist ((share_sub _ k).map _)
  have hm : ∀ i, i ∈ share (inputs index labels tlds []) k ↔ _ := fun i => mem_share
  constructor
  · intro h
    match hs : share (inputs index labels tlds []) k, h with
    | i :: j :: rest, _ =>
      rw [hs] at hn hm
      have hi := (hm i).1 (by simp)
      have hj := (hm j).1 (by simp)
      refine ⟨i.cp, j.cp, ?_, hi.1.imp And.left And.left, hj.1.imp And.left And.left, hi.2.1, hj.2.1⟩
      simp only [List.map_cons, List.nodup_cons, List.mem_cons, not_or] at hn
      exact hn.1.1
    | [], h => simp at h
    | [i], h => simp at h
  · rintro ⟨x, y, hne, hx, hy, h1, h2⟩
    obtain ⟨c, hc⟩ := filed_cat hx
    obtain ⟨c', hc'⟩ := filed_cat hy
    have m1 := (hm ⟨x, c, k⟩).2 ⟨hc, h1, rfl⟩
    have m2 := (hm ⟨y, c', k⟩).2 ⟨hc', h2, rfl⟩
    by_contra hlt
    match hs : share (inputs index labels tlds []) k with
    | [] => rw [hs] at m1; simp at m1
    | [i] =>
      rw [hs] at m1 m2
      simp only [List.mem_singleton] at m1 m2
      rw [← m1] at m2
      simp only [C32.Input.mk.injEq, and_true] at m2
      exact hne m2.1.symm
    | i :: j :: rest => rw [hs] at hlt; simp at hlt

theorem share_one {index : Seq → Except Err Seq} {labels tlds : List Seq}
    (k : Seq) : 1 ≤ (share (inputs index labels tlds []) k).length ↔
    ∃ x, (x ∈ labels ∨ x ∈ tlds) ∧ index x = .ok k := by
  constructor
  · intro h
    match hs : share (inputs index labels tlds []) k, h with
    | i :: rest, _ =>
      have hi := (mem_share (i := i)).1 (by rw [hs]; simp)
      exact ⟨i.cp, hi.1.imp And.left And.left, hi.2.1⟩
  · rintro ⟨x, hx, h1⟩
    obtain ⟨c, hc⟩ := filed_cat hx
    have := (mem_share (i := ⟨x, c, k⟩)).2 ⟨hc, h1, rfl⟩
    exact List.length_pos_of_mem this

theorem groups_of {index : Seq → Except Err Seq} {dispo : Dispo} {labels tlds : List Seq} {keep quiet : Bool}
    {d : Collisions.Indexes} {n : List Seq} (hl : labels.Nodup) (ht : tlds.Nodup)
    (h : generateIndexes index dispo labels tlds keep quiet [] = .ok (d, n)) : Groups index labels tlds keep d := by
  have hnd := inputs_nodup (index := index) hl ht
  refine ⟨(generate_spec (.inr hnd) h).1, ?_, ?_⟩
  · intro k es hes x c hc
    have hm := (generate_indexes_exact index dispo labels tlds keep quiet [] d n (.inr hnd) h k).2 es hes
    constructor
    · rintro ⟨e, he, rfl, rfl⟩
      have : (e.cp, e.cat, e.index) ∈ (es.filter (fun e => decide (e.cat ≠ .variant))).map
          (fun e => (e.cp, e.cat, e.index)) :=
        List.mem_map.2 ⟨e, List.mem_filter.2 ⟨he, by simpa using hc⟩, rfl⟩
      rw [hm] at this
      obtain ⟨i, hi, hie⟩ := List.mem_map.1 this
      simp only [Prod.mk.injEq] at hie
      have := mem_share.1 hi
      rw [← hie.1, ← hie.2.1]
      exact ⟨this.2.1, this.1⟩
    · rintro ⟨h1, h2⟩
      have : (x, c, some k) ∈ (share (inputs index labels tlds []) k).map (fun i => (i.cp, i.cat, some i.idx)) :=
        List.mem_map.2 ⟨⟨x, c, k⟩, mem_share.2 ⟨h2, h1, rfl⟩, rfl⟩
      rw [← hm] at this
      obtain ⟨e, he, hie⟩ := List.mem_map.1 this
      simp only [Prod.mk.injEq] at hie
      exact ⟨e, (List.mem_filter.1 he).1, hie.1, hie.2.1⟩
  · intro k
    rw [(generate_indexes_exact index dispo labels tlds keep quiet [] d n (.inr hnd) h k).1]
    cases keep with
    | false => simp only [Bool.false_eq_true, if_false, false_and, false_or]; exact share_two hl ht k
    | true =>
      simp only [if_true, true_and]
      rw [share_one]
      constructor
      · exact .inl
      · rintro (h | ⟨x, y, -, h1, -, h2, -⟩)
        · exact h
        · exact ⟨x, h1, h2⟩

/-- `_generate_indexes` returns. -/
theorem generate_returns {index : Seq → Except Err Seq} {dispo : Dispo} {labels tlds : List Seq} (keep quiet : Bool)
    (hl : labels.Nodup) (ht : tlds.Nodup) (hidx : Indexes index (fun l => l ∈ labels ∨ l ∈ tlds))
    (hdispo : (keep = false ∧ quiet = true) ∨ ∀ b l w, (dispo b l w).2 = .ok ()) :
    ∃ d n, generateIndexes index dispo labels tlds keep quiet [] = .ok (d, n) := by
  obtain ⟨st1, h1⟩ := labels_ok (isTld := false) labels {} (fun l hl => hidx l (.inl hl))
  obtain ⟨st, h2⟩ := labels_ok (isTld := true) (tlds.filter (fun t => decide (t ∉ labels))) st1
    (fun l hl => hidx l (.inr (List.mem_filter.1 hl).1))
  have hcol : collect index labels [] tlds = (st, .ok ()) := by
    unfold collect; rw [h1]; exact h2
  have hf := collect_files hcol
  have hval : ∀ g ∈ st.idx, g.2 = (share (inputs index labels tlds []) g.1).map C32.Input.entry := by
    rintro ⟨k, es⟩ hg
    have h1 := dget_of_mem hf.nodup hg
    rw [hf.get] at h1
    split at h1
    · simp at h1
    · simp only [Option.some.injEq] at h1; exact h1.symm
  have hsp := fun dispo => (groups_spec (dispo := dispo) (quiet := quiet) (keep := keep)
    (.inr (inputs_nodup hl ht)) (fun i hi => inputs_cat hi) st.idx hf.nodup hval hf.nodup
    (fun g hg => dget_of_mem hf.nodup hg)).2
  have : ∃ d, forEach (groupStep dispo quiet keep) st.idx st.idx = (d, .ok ()) := by
    rcases hdispo with ⟨rfl, rfl⟩ | h
    · obtain ⟨d, hd⟩ := hsp (fun _ _ _ => ([], .ok ())) (fun _ _ _ => rfl)
      have : groupStep dispo true false = groupStep (fun _ _ _ => ([], .ok ())) true false := by
        funext d g
        unfold groupStep
        simp
      exact ⟨d, by rw [this]; exact hd⟩
    · exact hsp dispo h
  obtain ⟨d, hd⟩ := this
  exact ⟨d, st.notIn, by unfold generateIndexes; rw [hcol]; simp only [hd]⟩

/-- In a group, TLDs and labels are all there is when neither variants nor single labels are wanted. -/
theorem no_variants_quiet {index : Seq → Except Err Seq} {dispo : Dispo} {labels tlds : List Seq}
    {d : Collisions.Indexes} {n : List Seq} (hl : labels.Nodup) (ht : tlds.Nodup)
    (h : generateIndexes index dispo labels tlds false true [] = .ok (d, n)) {k : Seq} {es : List Entry}
    (hes : dget d k = some es) {e : Entry} (he : e ∈ es) : e.cat ≠ .variant := by
  obtain ⟨h2, h3⟩ := (generate_spec (.inr (inputs_nodup (index := index) hl ht)) h).2 k
  by_cases hk : share (inputs index labels tlds []) k = []
  · rw [h2 hk] at hes; cases hes
  · have := h3 hk
    unfold Outcome at this
    split at this
    · rw [this] at hes; cases hes
    rw [if_pos (by simp), hes] at this
    simp only [Option.some.injEq] at this
    rw [this] at he
    obtain ⟨i, hi, rfl⟩ := List.mem_map.1 he
    exact inputs_cat ((share_sub _ k).subset hi)

theorem mem_iff_dget {d : Collisions.Indexes} (hn : (d.map Prod.fst).Nodup) {g : Seq × List Entry} :
    g ∈ d ↔ dget d g.1 = some g.2 :=
  ⟨fun h => dget_of_mem hn h, fun h => mem_of_dget h⟩

theorem dump_none_mem {α : Type} [DecidableEq α] {l : List α} {x y : α} :
    ((x, y) ∈ dumpCollisions l none ∨ (y, x) ∈ dumpCollisions l none) ↔ x ∈ l ∧ y ∈ l ∧ x ≠ y := by
  cases l with
  | nil => simp [dumpCollisions, dumpLoop]
  | cons a rest =>
    rw [C33.dump_eq, C33.mem_cross, C33.mem_cross]
    constructor
    · rintro (⟨h1, h2, h3⟩ | ⟨h1, h2, h3⟩)
      · exact ⟨h1, List.mem_cons_of_mem _ h2, h3⟩
      · exact ⟨List.mem_cons_of_mem _ h2, h1, fun h => h3 h.symm⟩
    · rintro ⟨h1, h2, h3⟩
      rcases List.mem_cons.1 h2 with rfl | h2'
      · exact .inr ⟨h2, (List.mem_cons.1 h1).resolve_left h3, fun h => h3 h.symm⟩
      · exact .inl ⟨h1, h2', h3⟩

theorem dump_some_mem {α : Type} [DecidableEq α] {l m : List α} {x y : α} :
    (x, y) ∈ dumpCollisions l (some m) ↔ x ∈ l ∧ y ∈ m ∧ x ≠ y := by
  have : dumpCollisions l (some m) = C33.cross l m := by
    unfold dumpCollisions; rw [C33.dumpLoop_some]
  rw [this, C33.mem_cross]

theorem two_of_mem {α : Type} {l : List α} {x y : α} (hx : x ∈ l) (hy : y ∈ l) (hne : x ≠ y) : 1 < l.length := by
  match l, hx, hy with
  | [a], hx, hy =>
    simp only [List.mem_singleton] at hx hy
    exact absurd (hx.trans hy.symm) hne
  | _ :: _ :: _, _, _ => simp

/-! ## The short report -/

theorem simple_mem {index : Seq → Except Err Seq} {order : List Seq → List Seq} (ho : Order order)
    {labels tlds : List Seq} {keep : Bool} {d : Collisions.Indexes} (hg : Groups index labels tlds keep d)
    (hv : ∀ k es, dget d k = some es → ∀ e ∈ es, e.cat ≠ .variant) (x y : Seq) :
    ((.collides false x y ∈ simpleOutput order labels tlds d ∨ .collides false y x ∈ simpleOutput order labels tlds d) ↔
      x ∈ labels ∧ y ∈ labels ∧ x ≠ y ∧ Same index x y) ∧
    (.collides true x y ∈ simpleOutput order labels tlds d ↔ x ∈ labels ∧ y ∈ tlds ∧ x ≠ y ∧ Same index x y) ∧
    (∀ o ∈ simpleOutput order labels tlds d, ∃ b u v, o = .collides b u v) := by
  have hin : ∀ k es, dget d k = some es → ∀ z, (z ∈ labels ∨ z ∈ tlds) → (z ∈ es.map Entry.cp ↔ index z = .ok k) := by
    intro k es hes z hz
    rw [List.mem_map]
    constructor
    · rintro ⟨e, he, rfl⟩
      exact ((hg.filed k es hes _ _ (hv k es hes e he)).1 ⟨e, he, rfl, rfl⟩).1
    · intro h
      obtain ⟨c, hc⟩ := filed_cat hz
      obtain ⟨e, he, h1, -⟩ := (hg.filed k es hes z c (filed_ne hc)).2 ⟨h, hc⟩
      exact ⟨e, he, h1⟩
  have hmem : ∀ o, o ∈ simpleOutput order labels tlds d ↔
      ∃ k es, dget d k = some es ∧ o ∈ simpleGroup order labels tlds es := by
    intro o
    unfold simpleOutput
    rw [List.mem_flatMap]
    constructor
    · rintro ⟨g, h1, h2⟩; exact ⟨g.1, g.2, (mem_iff_dget hg.nodup).1 h1, h2⟩
    · rintro ⟨k, es, h1, h2⟩; exact ⟨(k, es), (mem_iff_dget hg.nodup).2 h1, h2⟩
  have hcl : ∀ (es : List Entry) z, z ∈ order (labels.filter (fun l => decide (l ∈ es.map Entry.cp))) ↔
      z ∈ labels ∧ z ∈ es.map Entry.cp := by
    intro es z; rw [ho.mem, List.mem_filter, decide_eq_true_eq]
  have hct : ∀ (es : List Entry) z, z ∈ order (tlds.filter (fun l => decide (l ∈ es.map Entry.cp))) ↔
      z ∈ tlds ∧ z ∈ es.map Entry.cp := by
    intro es z; rw [ho.mem, List.mem_filter, decide_eq_true_eq]
  have g1 : ∀ es u v, .collides false u v ∈ simpleGroup order labels tlds es ↔
      (u, v) ∈ dumpCollisions (order (labels.filter (fun l => decide (l ∈ es.map Entry.cp)))) none := by
    intro es u v
    unfold simpleGroup
    simp only [List.mem_append]
    constructor
    · rintro (h | h)
      · split at h
        · obtain ⟨p, hp, hpe⟩ := List.mem_map.1 h
          simp only [Line.collides.injEq, true_and] at hpe
          rw [← hpe.1, ← hpe.2]; exact hp
        · simp at h
      · split at h
        · simp at h
        · obtain ⟨p, hp, hpe⟩ := List.mem_map.1 h
          simp at hpe
    · intro h
      left
      have h2 := (dump_none_mem (x := u) (y := v)).1 (.inl h)
      rw [if_pos (two_of_mem h2.1 h2.2.1 h2.2.2)]
      exact List.mem_map.2 ⟨_, h, rfl⟩
  have g2 : ∀ es u v, .collides true u v ∈ simpleGroup order labels tlds es ↔
      (u, v) ∈ dumpCollisions (order (labels.filter (fun l => decide (l ∈ es.map Entry.cp))))
        (some (order (tlds.filter (fun l => decide (l ∈ es.map Entry.cp))))) := by
    intro es u v
    unfold simpleGroup
    simp only [List.mem_append]
    constructor
    · rintro (h | h)
      · split at h
        · obtain ⟨p, hp, hpe⟩ := List.mem_map.1 h
          simp at hpe
        · simp at h
      · split at h
        · simp at h
        · obtain ⟨p, hp, hpe⟩ := List.mem_map.1 h
          simp only [Line.collides.injEq, true_and] at hpe
          rw [← hpe.1, ← hpe.2]; exact hp
    · intro h
      right
      have h2 := dump_some_mem.1 h
      rw [if_neg (List.ne_nil_of_mem h2.2.1)]
      exact List.mem_map.2 ⟨_, h, rfl⟩
  refine ⟨?_, ?_, ?_⟩
  · rw [hmem, hmem]
    constructor
    · intro h
      have : ∃ k es, dget d k = some es ∧ ((x, y) ∈ dumpCollisions (order (labels.filter (fun l => decide
          (l ∈ es.map Entry.cp)))) none ∨ (y, x) ∈ dumpCollisions (order (labels.filter (fun l => decide
          (l ∈ es.map Entry.cp)))) none) := by
        rcases h with ⟨k, es, h1, h2⟩ | ⟨k, es, h1, h2⟩
        · exact ⟨k, es, h1, .inl ((g1 es _ _).1 h2)⟩
        · exact ⟨k, es, h1, .inr ((g1 es _ _).1 h2)⟩
      obtain ⟨k, es, h1, h2⟩ := this
      obtain ⟨h3, h4, h5⟩ := dump_none_mem.1 h2
      rw [hcl] at h3 h4
      exact ⟨h3.1, h4.1, h5, k, (hin k es h1 x (.inl h3.1)).1 h3.2, (hin k es h1 y (.inl h4.1)).1 h4.2⟩
    · rintro ⟨h1, h2, h3, k, h4, h5⟩
      obtain ⟨es, hes⟩ := (hg.there k).2 (.inr ⟨x, y, h3, .inl h1, .inl h2, h4, h5⟩)
      have := dump_none_mem.2 ⟨(hcl es x).2 ⟨h1, (hin k es hes x (.inl h1)).2 h4⟩,
        (hcl es y).2 ⟨h2, (hin k es hes y (.inl h2)).2 h5⟩, h3⟩
      rcases this with h | h
      · exact .inl ⟨k, es, hes, (g1 es _ _).2 h⟩
      · exact .inr ⟨k, es, hes, (g1 es _ _).2 h⟩
  · rw [hmem]
    constructor
    · rintro ⟨k, es, h1, h2⟩
      obtain ⟨h3, h4, h5⟩ := dump_some_mem.1 ((g2 es _ _).1 h2)
      rw [hcl] at h3
      rw [hct] at h4
      exact ⟨h3.1, h4.1, h5, k, (hin k es h1 x (.inl h3.1)).1 h3.2, (hin k es h1 y (.inr h4.1)).1 h4.2⟩
    · rintro ⟨h1, h2, h3, k, h4, h5⟩
      obtain ⟨es, hes⟩ := (hg.there k).2 (.inr ⟨x, y, h3, .inl h1, .inr h2, h4, h5⟩)
      exact ⟨k, es, hes, (g2 es _ _).2 (dump_some_mem.2 ⟨(hcl es x).2 ⟨h1, (hin k es hes x (.inl h1)).2 h4⟩,
        (hct es y).2 ⟨h2, (hin k es hes y (.inr h2)).2 h5⟩, h3⟩)⟩
  · intro o hO
    obtain ⟨k, es, -, h⟩ := (hmem o).1 hO
    unfold simpleGroup at h
    simp only [List.mem_append] at h
    rcases h with h | h
    · split at h
      · obtain ⟨p, -, rfl⟩ := List.mem_map.1 h
        exact ⟨_, _, _, rfl⟩
      · simp at h
    · split at h
      · simp at h
      · obtain ⟨p, -, rfl⟩ := List.mem_map.1 h
        exact ⟨_, _, _, rfl⟩

/-- **C112** `basic_collision` with a list of TLDs: it returns whenever computing indexes raises nothing but
`NotInLGR`, and reports exactly: the pairs of different labels with the same index; the pairs of a label and a
different TLD with the same index; the labels which are TLDs; that there are no collisions, when it reports none of
these; the labels and TLDs which cannot be read; the labels without index. -/
theorem basic_collision_partial (order : List Seq → List Seq) (ho : Order order) (index : Seq → Except Err Seq)
    (dispo : Dispo) (rs ts : List Read) (hidx : Indexes index (fun l => Input rs l ∨ Input ts l)) :
    ∃ out, basicCollision order index dispo rs (some ts) = (out, .ok ()) ∧
    (∀ x y, (.collides false x y ∈ out ∨ .collides false y x ∈ out) ↔
      Input rs x ∧ Input rs y ∧ x ≠ y ∧ Same index x y) ∧
    (∀ x y, .collides true x y ∈ out ↔ Input rs x ∧ Input ts y ∧ x ≠ y ∧ Same index x y) ∧
    (∀ x, .isTld x ∈ out ↔ Input rs x ∧ Input ts x) ∧
    (noCollision ∈ out ↔ (∀ x y, Input rs x → (Input rs y ∨ Input ts y) → x ≠ y → ¬ Same index x y) ∧
      ∀ x, Input rs x → ¬ Input ts x) ∧
    (∀ x, .labelError x ∈ out ↔ Broken rs x) ∧
    (∀ x, .tldError x ∈ out ↔ Broken ts x) ∧
    (∀ x n, .notIn n x ∈ out ↔ n = 0 ∧ Input rs x ∧ ∃ s, index x = .error (.notInLGR s)) := by
  have hl := ho.nodup (validLabels rs)
  have ht := ho.nodup (validLabels ts)
  have ml : ∀ x, x ∈ order (validLabels rs) ↔ Input rs x := fun x => by rw [ho.mem, mem_validLabels]
  have mt : ∀ x, x ∈ order (validLabels ts) ↔ Input ts x := fun x => by rw [ho.mem, mem_validLabels]
  obtain ⟨d, n, hgen⟩ := generate_returns (dispo := dispo) false true hl ht
    (fun l hl => hidx l (hl.imp (ml l).1 (mt l).1)) (.inl ⟨rfl, rfl⟩)
  have hg := groups_of hl ht hgen
  have hs := simple_mem ho hg (fun k es hes e he => no_variants_quiet hl ht hgen hes he)
  have hn := fun x => not_in_lgr_exact index dispo _ _ false true [] d n hgen x
  simp only [ml, mt, List.not_mem_nil, or_false] at hs hn
  have hb : ∀ x, x ∈ sortAsc id (order ((order (validLabels rs)).filter
      (fun l => decide (l ∈ order (validLabels ts))))) ↔ Input rs x ∧ Input ts x := by
    intro x
    rw [mem_sortAsc, ho.mem, List.mem_filter, decide_eq_true_eq, ml, mt]
  unfold basicCollision
  simp only [hgen, say_next]
  refine ⟨_, rfl, ?_⟩
  generalize hboth : sortAsc id (order ((order (validLabels rs)).filter
      (fun l => decide (l ∈ order (validLabels ts))))) = both at *
  generalize hso : simpleOutput order (order (validLabels rs)) (order (validLabels ts)) d = so at *
  have hkind : ∀ o ∈ so, ∃ b u v, o = .collides b u v := fun o => (hs [] []).2.2 o
  have hnots : ∀ x, x ∈ sortAsc id n ↔ Input rs x ∧ ∃ s, index x = .error (.notInLGR s) := fun x => by
    rw [mem_sortAsc, hn]
  generalize sortAsc id n = nots at *
  have herr : ∀ o, o ∈ (if badLabels rs = [] ∧ nots = [] then [] else
          Line.text "Errors" :: (badLabels rs).map .labelError ++ nots.map (.notIn 0)) ↔
      (∃ x, o = .labelError x ∧ Broken rs x) ∨ (∃ x, o = .notIn 0 x ∧ x ∈ nots) ∨
      (o = .text "Errors" ∧ ¬ (badLabels rs = [] ∧ nots = [])) := by
    intro o
    split
    · rename_i h
      simp only [List.not_mem_nil, false_iff, not_or, not_exists, not_and, not_not, h.2]
      refine ⟨fun x _ h2 => ?_, fun x _ => by simp, fun _ h3 => absurd trivial (h3 h.1)⟩
      rw [← mem_badLabels, h.1] at h2
      simp at h2
    · rename_i h
      simp only [List.cons_append, List.mem_cons, List.mem_append, List.mem_map, mem_badLabels]
      constructor
      · rintro (h1 | ⟨x, h1, rfl⟩ | ⟨x, h1, rfl⟩)
        · exact .inr (.inr ⟨h1, h⟩)
        · exact .inl ⟨x, rfl, h1⟩
        · exact .inr (.inl ⟨x, rfl, h1⟩)
      · rintro (⟨x, rfl, h1⟩ | ⟨x, rfl, h1⟩ | ⟨rfl, -⟩)
        · exact .inr (.inl ⟨x, h1, rfl⟩)
        · exact .inr (.inr ⟨x, h1, rfl⟩)
        · exact .inl rfl
  have hall : ∀ o, o ∈ (badLabels ts).map .tldError ++ [.text "Collisions"] ++ both.map .isTld ++
      (so ++ (if both = [] ∧ so = [] then [noCollision] else []) ++ (if badLabels rs = [] ∧ nots = [] then [] else
          Line.text "Errors" :: (badLabels rs).map .labelError ++ nots.map (.notIn 0))) ↔
      (∃ x, o = .tldError x ∧ Broken ts x) ∨ o = .text "Collisions" ∨ (∃ x, o = .isTld x ∧ x ∈ both) ∨ o ∈ so ∨
      (o = noCollision ∧ both = [] ∧ so = []) ∨ (∃ x, o = .labelError x ∧ Broken rs x) ∨
      (∃ x, o = .notIn 0 x ∧ x ∈ nots) ∨ (o = .text "Errors" ∧ ¬ (badLabels rs = [] ∧ nots = [])) := by
    intro o
    rw [List.mem_append, List.mem_append, List.mem_append, List.mem_append, List.mem_append, herr]
    have e1 : o ∈ (badLabels ts).map Line.tldError ↔ ∃ x, o = .tldError x ∧ Broken ts x := by
      rw [List.mem_map]
      constructor
      · rintro ⟨x, h, rfl⟩; exact ⟨x, rfl, mem_badLabels.1 h⟩
      · rintro ⟨x, rfl, h⟩; exact ⟨x, mem_badLabels.2 h, rfl⟩
    have e2 : o ∈ both.map Line.isTld ↔ ∃ x, o = .isTld x ∧ x ∈ both := by
      rw [List.mem_map]
      constructor
      · rintro ⟨x, h, rfl⟩; exact ⟨x, rfl, h⟩
      · rintro ⟨x, rfl, h⟩; exact ⟨x, h, rfl⟩
    have e3 : o ∈ (if both = [] ∧ so = [] then [noCollision] else []) ↔ o = noCollision ∧ both = [] ∧ so = [] := by
      split
      · rename_i h; simp [h]
      · rename_i h
        simp only [List.not_mem_nil, false_iff, not_and]
        exact fun _ h1 h2 => h ⟨h1, h2⟩
    rw [e1, e2, e3, List.mem_singleton]
    simp only [or_assoc]
  simp only [say, hall]
  refine ⟨fun x y => ?_, fun x y => ?_, fun x => ?_, ?_, fun x => ?_, fun x => ?_, fun x m => ?_⟩
  · rw [← (hs x y).1]; simp [noCollision]
  · rw [← (hs x y).2.1]; simp [noCollision]
  · rw [← hb x]
    constructor
    · intro h
      rcases h with ⟨z, h, -⟩ | h | ⟨z, h, h'⟩ | h | ⟨h, -⟩ | ⟨z, h, -⟩ | ⟨z, h, -⟩ | ⟨h, -⟩
      · cases h
      · cases h
      · cases h; exact h'
      · obtain ⟨_, _, _, h⟩ := hkind _ h; cases h
      · cases h
      · cases h
      · cases h
      · cases h
    · intro h; exact .inr (.inr (.inl ⟨x, rfl, h⟩))
  · have : (noCollision ∈ so ∨ (noCollision = noCollision ∧ both = [] ∧ so = [])) ↔ both = [] ∧ so = [] := by
      constructor
      · rintro (h | h)
        · obtain ⟨_, _, _, h⟩ := hkind _ h; cases h
        · exact h.2
      · exact fun h => .inr ⟨rfl, h⟩
    have e : both = [] ↔ ∀ x, Input rs x → ¬ Input ts x := by
      rw [List.eq_nil_iff_forall_not_mem]
      exact forall_congr' (fun x => by rw [hb]; tauto)
    have e' : so = [] ↔ ∀ x y, Input rs x → (Input rs y ∨ Input ts y) → x ≠ y → ¬ Same index x y := by
      constructor
      · rintro rfl x y hx hy hne hsame
        rcases hy with hy | hy
        · have := (hs x y).1.2 ⟨hx, hy, hne, hsame⟩
          simp at this
        · have := (hs x y).2.1.2 ⟨hx, hy, hne, hsame⟩
          simp at this
      · intro h
        rw [List.eq_nil_iff_forall_not_mem]
        intro o hO
        obtain ⟨b, u, v, rfl⟩ := hkind _ hO
        cases b with
        | false =>
          obtain ⟨h1, h2, h3, h4⟩ := (hs u v).1.1 (.inl hO)
          exact h u v h1 (.inl h2) h3 h4
        | true =>
          obtain ⟨h1, h2, h3, h4⟩ := (hs u v).2.1.1 hO
          exact h u v h1 (.inr h2) h3 h4
    rw [← e, ← e', and_comm (a := so = []) (b := both = []), ← this]
    constructor
    · intro h
      rcases h with ⟨z, h, -⟩ | h | ⟨z, h, h'⟩ | h | h | ⟨z, h, -⟩ | ⟨z, h, -⟩ | ⟨h, -⟩
      · cases h
      · simp [noCollision] at h
      · cases h
      · exact .inl h
      · exact h.2
      · cases h
      · cases h
      · simp [noCollision] at h
    · rintro (h | h)
      · exact .inr (.inr (.inr (.inl h)))
      · exact .inr (.inr (.inr (.inr (.inl ⟨trivial, .inr h⟩))))
  · constructor
    · intro h
      rcases h with ⟨z, h, -⟩ | h | ⟨z, h, h'⟩ | h | ⟨h, -⟩ | ⟨z, h, h'⟩ | ⟨z, h, -⟩ | ⟨h, -⟩
      · cases h
      · cases h
      · cases h
      · obtain ⟨_, _, _, h⟩ := hkind _ h; cases h
      · cases h
      · cases h; exact h'
      · cases h
      · cases h
    · intro h; exact .inr (.inr (.inr (.inr (.inr (.inl ⟨x, rfl, h⟩)))))
  · constructor
    · intro h
      rcases h with ⟨z, h, h'⟩ | h | ⟨z, h, -⟩ | h | ⟨h, -⟩ | ⟨z, h, -⟩ | ⟨z, h, -⟩ | ⟨h, -⟩
      · cases h; exact h'
      · cases h
      · cases h
      · obtain ⟨_, _, _, h⟩ := hkind _ h; cases h
      · cases h
      · cases h
      · cases h
      · cases h
    · intro h; exact .inl ⟨x, rfl, h⟩
  · rw [← hnots x]
    constructor
    · intro h
      rcases h with ⟨z, h, -⟩ | h | ⟨z, h, -⟩ | h | ⟨h, -⟩ | ⟨z, h, -⟩ | ⟨z, h, h'⟩ | ⟨h, -⟩
      · cases h
      · cases h
      · cases h
      · obtain ⟨_, _, _, h⟩ := hkind _ h; cases h
      · cases h
      · cases h
      · cases h; exact ⟨rfl, h'⟩
      · cases h
    · rintro ⟨rfl, h⟩; exact .inr (.inr (.inr (.inr (.inr (.inr (.inl ⟨x, rfl, h⟩))))))

/-- Non-vacuity: labels of the same length have the same index; `d` is not in the LGR. -/
example : basicCollision List.dedup
    (fun l => if l = [100] then .error (.notInLGR [100]) else .ok [l.length]) (fun _ _ _ => ([], .ok ()))
    [⟨[], [97], true, none⟩, ⟨[], [98], true, none⟩, ⟨[], [100], true, none⟩, ⟨[], [97, 97], true, none⟩,
      ⟨[], [101], false, some none⟩]
    (some [⟨[], [97], true, none⟩, ⟨[], [98, 98], true, none⟩]) =
    ([.text "Collisions", .isTld [97], .collides false [97] [98], .collides true [98] [97],
      .collides true [97, 97] [98, 98], .text "Errors", .labelError [101], .notIn 0 [100]], .ok ()) := by
  decide +kernel

/-- **C112** is violated: without a list of TLDs, `basic_collision` raises `TypeError`, although `collision` accepts
`None` and `basic_collision` itself asks whether there is an input before using it. -/
theorem no_tlds_wrong (order : List Seq → List Seq) (index : Seq → Except Err Seq) (dispo : Dispo) (rs : List Read) :
    (basicCollision order index dispo rs none).2 = .error (.other .typeError) := rfl

end Lgr.Props.C112
